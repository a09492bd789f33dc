import Verif.Lemmas.MoeoSpea2
import Mathlib.Data.List.TakeWhile
import Mathlib.Data.Rat.Defs
import Mathlib.Algebra.Order.Ring.Rat
import Mathlib.Tactic.NormNum
/-
C161: the archive of SPEA2. The specification: which individuals are in the archive after a call, as a
list up to order; `Thinned` (Lemmas/MoeoSpea2.lean) is the truncation of the SPEA2 paper: remove, one
after the other, the individual whose sorted list of distances to the others is lexicographically least.
-/
namespace Paradiseo.Moeo.Spea2

variable {F α : Type} [Field F] [LinearOrder F]

/-- What is assumed of `std::sort` with `Cmp` on the population: best sum first. -/
def SortsPop (f : List (Ind F α) → List (Ind F α)) : Prop :=
  ∀ l, (f l).Perm l ∧ (f l).Pairwise fun a b => b.sum ≤ a.sum

/-- What is assumed of `std::sort` with the comparator of individuals (fitness, then diversity): worst
first. -/
def SortsArch (f : List (Ind F α) → List (Ind F α)) : Prop :=
  ∀ l, (f l).Perm l ∧ (f l).Pairwise fun a b => a.fit < b.fit ∨ (a.fit = b.fit ∧ a.dvs ≤ b.dvs)

/-- The sorting functions of the code. -/
structure Sorts (sortPop sortArch : List (Ind F α) → List (Ind F α))
    (sortPairs : List (Nat × F) → List (Nat × F)) (sortRows : List (Row F) → List (Row F)) : Prop where
  pop : SortsPop sortPop
  arch : SortsArch sortArch
  pairs : SortsPairs sortPairs
  rows : SortsRows sortRows

section
variable {sortPop sortArch : List (Ind F α) → List (Ind F α)}
  {sortPairs : List (Nat × F) → List (Nat × F)} {sortRows : List (Row F) → List (Row F)}

/-- A call on a full archive, taken apart. -/
theorem insert_full (hS : Sorts sortPop sortArch sortPairs sortRows) (maxSize : Nat) (dist : α → α → F)
    (l pop l' : List (Ind F α)) (hfull : ¬ l.length < maxSize)
    (h : insert maxSize dist sortPop sortArch sortPairs sortRows l pop = some l') :
    ∃ i l1 q, LoopInv (sortArch l) (sortPop pop) i l1 ∧ (sortPop pop)[i]? = some q ∧
      ((i + 1 < l.length ∨ (i = 0 ∧ 0 < l.length)) → ∃ a, (sortArch l)[i]? = some a ∧
        ¬ (a.sum < q.sum ∧ a.fit ≤ -1)) ∧
      l' = if q.fit > -1 then truncate dist sortPairs sortRows (sortPop pop) i l1 else l1 := by
  unfold insert at h
  simp only [] at h
  rw [if_neg hfull] at h
  have hlen : (sortArch l).length = l.length := (hS.arch l).1.length_eq
  rcases hr : replaceLoop (sortPop pop) l.length 0 (sortArch l) with _ | ⟨i, l1⟩
  · rw [hr] at h; simp at h
  · rw [hr] at h
    simp only [] at h
    obtain ⟨hI, hst⟩ := replaceLoop_spec (sortArch l) (sortPop pop) (hS.pop pop).2 l.length 0 _
      (by omega) (loopInv_zero _ _) _ hr
    rcases hq : (sortPop pop)[i]? with _ | q
    · rw [hq] at h; simp at h
    · rw [hq] at h
      simp only [] at h
      refine ⟨i, l1, q, hI, hq, ?_, ?_⟩
      · intro hi
        have : i + 1 < (sortArch l).length ∨ (i, l1) = (0, sortArch l) ∧ sortArch l ≠ [] := by
          rcases hi with hi | ⟨rfl, hi⟩
          · left; omega
          · right
            refine ⟨by rw [show l1 = sortArch l from hI.first rfl], ?_⟩
            intro h0; rw [h0] at hlen; simp at hlen; omega
        obtain ⟨a, p, h1, h2, h3⟩ := hst this
        simp only [] at h1 h2
        rw [hq, Option.some.injEq] at h2
        subst h2
        exact ⟨a, h1, h3⟩
      · split_ifs at h ⊢ <;> exact (Option.some.inj h).symm

theorem truncate_length (dist : α → α → F) (sp : List (Nat × F) → List (Nat × F))
    (sr : List (Row F) → List (Row F)) (pop : List (Ind F α)) (inf : Nat) (l : List (Ind F α)) :
    (truncate dist sp sr pop inf l).length = l.length := by
  unfold truncate; exact fill_length _ _ _

/-- The archive grows up to its maximal size and never shrinks. -/
theorem C161_size (hS : Sorts sortPop sortArch sortPairs sortRows) (maxSize : Nat) (dist : α → α → F)
    (l pop l' : List (Ind F α)) (hl : l.length ≤ maxSize)
    (h : insert maxSize dist sortPop sortArch sortPairs sortRows l pop = some l') :
    l'.length = min maxSize (l.length + pop.length) := by
  by_cases hf : l.length < maxSize
  · unfold insert at h
    simp only [] at h
    rw [if_pos hf, Option.some.injEq] at h
    rw [← h]
    have := (hS.pop pop).1.length_eq
    simp only [List.length_append, List.length_take]
    omega
  · obtain ⟨i, l1, q, hI, hq, -, he⟩ := insert_full hS maxSize dist l pop l' hf h
    have h1 : l'.length = l1.length := by
      rw [he]; split_ifs
      · exact truncate_length _ _ _ _ _ _
      · rfl
    rw [h1, hI.len, (hS.arch l).1.length_eq]
    omega

/-- While there is room the best newcomers enter, as many as there are places; the others are dropped
for good, and no member leaves. -/
theorem C161_room (hS : Sorts sortPop sortArch sortPairs sortRows) (maxSize : Nat) (dist : α → α → F)
    (l pop : List (Ind F α)) (hl : l.length < maxSize) :
    ∃ ins out, insert maxSize dist sortPop sortArch sortPairs sortRows l pop = some (l ++ ins) ∧
      (ins ++ out).Perm pop ∧ ins.length = min pop.length (maxSize - l.length) ∧
      ∀ a ∈ ins, ∀ b ∈ out, b.fit + b.dvs ≤ a.fit + a.dvs := by
  have hp := hS.pop pop
  set k := min (sortPop pop).length (maxSize - l.length) with hk
  refine ⟨(sortPop pop).take k, (sortPop pop).drop k, ?_, ?_, ?_, ?_⟩
  · unfold insert; simp only []; rw [if_pos hl]
  · rw [List.take_append_drop]; exact hp.1
  · have := hp.1.length_eq
    rw [List.length_take]; omega
  · have := hp.2
    rw [← List.take_append_drop k (sortPop pop), List.pairwise_append] at this
    exact this.2.2

/-- Nothing is invented or doubled: the members after the call are among the former members and the
newcomers, each at most once. -/
theorem C161_members (hS : Sorts sortPop sortArch sortPairs sortRows) (maxSize : Nat) (dist : α → α → F)
    (l pop l' : List (Ind F α))
    (h : insert maxSize dist sortPop sortArch sortPairs sortRows l pop = some l') :
    ∃ gone, (l' ++ gone).Perm (l ++ pop) := by
  by_cases hf : l.length < maxSize
  · obtain ⟨ins, out, h1, h2, -, -⟩ := C161_room hS maxSize dist l pop hf
    rw [h1, Option.some.injEq] at h
    refine ⟨out, ?_⟩
    rw [← h, List.append_assoc]
    exact h2.append_left l
  · obtain ⟨i, l1, q, hI, hq, -, he⟩ := insert_full hS maxSize dist l pop l' hf h
    have hl1 : (l1 ++ ((sortArch l).take i ++ (sortPop pop).drop i)).Perm (l ++ pop) := by
      have e1 : (l1 ++ ((sortArch l).take i ++ (sortPop pop).drop i)).Perm
          (((sortArch l).drop i ++ (sortPop pop).take i) ++ ((sortArch l).take i ++ (sortPop pop).drop i)) :=
        hI.perm.append_right _
      have e2 : (((sortArch l).drop i ++ (sortPop pop).take i) ++
          ((sortArch l).take i ++ (sortPop pop).drop i)).Perm
          (((sortArch l).take i ++ (sortArch l).drop i) ++ ((sortPop pop).take i ++ (sortPop pop).drop i)) := by
        generalize (sortArch l).drop i = A
        generalize (sortPop pop).take i = B
        generalize (sortArch l).take i = C
        generalize (sortPop pop).drop i = D
        have h1 : ((A ++ B) ++ C).Perm (C ++ (A ++ B)) := List.perm_append_comm
        have h2 := h1.append_right D
        simpa only [List.append_assoc] using h2
      rw [List.take_append_drop, List.take_append_drop] at e2
      exact e1.trans (e2.trans ((hS.arch l).1.append (hS.pop pop).1))
    split_ifs at he with hq1
    · obtain ⟨o, h1, h2, h3, -, h5⟩ := truncate_spec dist sortPairs hS.pairs sortRows hS.rows (sortPop pop) i l1
      rw [← he] at h5
      set new := ((sortPop pop).drop i).takeWhile fun a => decide (a.fit > -1) with hnew
      set all := l1 ++ new with hall
      have h6 := ((List.filter_append_perm (fun k => decide (k ∈ o)) (List.range all.length)).filterMap
        fun k => all[k]?)
      rw [filterMap_range, List.filterMap_append] at h6
      have h7 : ((List.range all.length).filter (fun k => !decide (k ∈ o))) =
          (List.range all.length).filter (· ∉ o) := by
        apply List.filter_congr; intro x _; simp
      rw [h7] at h6
      have h8 : (l' ++ ((List.range all.length).filter (· ∈ o)).filterMap fun k => all[k]?).Perm all :=
        (h5.append_right _).trans (List.perm_append_comm.trans h6)
      refine ⟨(((List.range all.length).filter (· ∈ o)).filterMap fun k => all[k]?) ++
        ((sortArch l).take i ++ ((sortPop pop).drop i).dropWhile fun a => decide (a.fit > -1)), ?_⟩
      rw [← List.append_assoc]
      refine (h8.append_right _).trans ?_
      refine List.Perm.trans ?_ hl1
      rw [hall, List.append_assoc]
      apply List.Perm.append_left
      have h9 : (sortPop pop).drop i = new ++ ((sortPop pop).drop i).dropWhile fun a => decide (a.fit > -1) := by
        rw [hnew]; exact (List.takeWhile_append_dropWhile).symm
      conv_rhs => rw [h9]
      rw [← List.append_assoc, ← List.append_assoc]
      exact List.perm_append_comm.append_right _
    · rw [he]; exact ⟨_, hl1⟩

/-- A call on a full archive: `i` of the worst members give way, one by one and each to a better
newcomer, the best first, as long as the member is dominated; then, if the next newcomer is not
dominated, the non-dominated newcomers and the members are thinned out together. -/
theorem C161_full (hS : Sorts sortPop sortArch sortPairs sortRows) (maxSize : Nat) (dist : α → α → F)
    (l pop l' : List (Ind F α)) (hfull : ¬ l.length < maxSize)
    (h : insert maxSize dist sortPop sortArch sortPairs sortRows l pop = some l') :
    ∃ i l1 q, l1.Perm ((sortArch l).drop i ++ (sortPop pop).take i) ∧ (sortPop pop)[i]? = some q ∧
      (∀ k : Nat, k < i → ∃ a p, (sortArch l)[k]? = some a ∧ (sortPop pop)[k]? = some p ∧
        a.fit + a.dvs < p.fit + p.dvs ∧ a.fit ≤ -1) ∧
      (q.fit ≤ -1 → l' = l1) ∧
      (-1 < q.fit → ∃ o : List Nat, ∃ new, new = ((sortPop pop).drop i).takeWhile (fun a => decide (a.fit > -1)) ∧
        o.length = new.length ∧
        Thinned (distOf dist (l1 ++ new)) (List.range (l1.length + new.length)) o ∧
        l'.Perm (((List.range (l1.length + new.length)).filter (· ∉ o)).filterMap fun k => (l1 ++ new)[k]?)) := by
  obtain ⟨i, l1, q, hI, hq, -, he⟩ := insert_full hS maxSize dist l pop l' hfull h
  refine ⟨i, l1, q, hI.perm, hq, hI.done, ?_, ?_⟩
  · intro hq1; rw [he, if_neg (not_lt.2 hq1)]
  · intro hq1
    rw [if_pos (show q.fit > -1 from hq1)] at he
    obtain ⟨o, h1, h2, h3, h4, h5⟩ := truncate_spec dist sortPairs hS.pairs sortRows hS.rows (sortPop pop) i l1
    refine ⟨o, _, rfl, h1, ?_, ?_⟩
    · rw [List.length_append] at h4; exact h4
    · rw [he]; rw [List.length_append] at h5; exact h5

/-- When fitness and the sum of fitness and diversity agree on who is dominated, the best member is not
dominated, and the non-dominated newcomers outnumber the dominated members, then no member is dominated
after the call. -/
theorem C161_no_dominated (hS : Sorts sortPop sortArch sortPairs sortRows) (maxSize : Nat)
    (dist : α → α → F) (l pop l' : List (Ind F α)) (hfull : ¬ l.length < maxSize)
    (hrange : ∀ a ∈ l ++ pop, a.fit ≤ -1 ↔ a.fit + a.dvs ≤ -1)
    (hbest : ∃ a ∈ l, -1 < a.fit)
    (hmany : (l.filter fun a => decide (a.fit ≤ -1)).length < (pop.filter fun a => decide (-1 < a.fit)).length)
    (h : insert maxSize dist sortPop sortArch sortPairs sortRows l pop = some l') :
    ∀ a ∈ l', -1 < a.fit := by
  obtain ⟨i, l1, q, hI, hq, hst, he⟩ := insert_full hS maxSize dist l pop l' hfull h
  have hA := hS.arch l
  have hP := hS.pop pop
  have hAlen := hA.1.length_eq
  -- at most the dominated members were replaced
  have hi : i ≤ (l.filter fun a => decide (a.fit ≤ -1)).length := by
    rw [← (hA.1.filter _).length_eq]
    have htake : ((sortArch l).take i).filter (fun a => decide (a.fit ≤ -1)) = (sortArch l).take i := by
      rw [List.filter_eq_self]
      intro a ha
      obtain ⟨k, hk, rfl⟩ := List.getElem_of_mem ha
      simp only [List.length_take] at hk
      obtain ⟨b, p, e1, -, -, e4⟩ := hI.done k (by omega)
      rw [List.getElem_take]
      rw [List.getElem?_eq_getElem (by omega), Option.some.injEq] at e1
      rw [e1]; simpa using e4
    have := (List.take_sublist i (sortArch l)).filter (fun a => decide (a.fit ≤ -1))
    rw [htake] at this
    have h2 := this.length_le
    rw [List.length_take] at h2
    have := hI.le
    omega
  -- the best newcomers are not dominated
  have hpopnd : ∀ k : Nat, ∀ p, k ≤ i → (sortPop pop)[k]? = some p → -1 < p.fit := by
    intro k p hk hp
    by_contra hcon
    have hcon := not_lt.1 hcon
    have hpm : p ∈ l ++ pop := List.mem_append_right _ (hP.1.subset (List.mem_of_getElem? hp))
    have hps := (hrange p hpm).1 hcon
    have hle : ((sortPop pop).filter fun a => decide (-1 < a.fit)).length ≤ k := by
      conv_lhs => rw [← List.take_append_drop k (sortPop pop), List.filter_append]
      have hz : ((sortPop pop).drop k).filter (fun a => decide (-1 < a.fit)) = [] := by
        rw [List.filter_eq_nil_iff]
        intro b hb
        obtain ⟨j, hj, rfl⟩ := List.getElem_of_mem hb
        rw [List.length_drop] at hj
        have hbm : ((sortPop pop).drop k)[j] ∈ l ++ pop :=
          List.mem_append_right _ (hP.1.subset (List.mem_of_mem_drop (List.getElem_mem _)))
        have hsum : ((sortPop pop).drop k)[j].sum ≤ p.sum := by
          rw [List.getElem_drop]
          obtain ⟨hkl, rfl⟩ := List.getElem?_eq_some_iff.1 hp
          rcases Nat.eq_zero_or_pos j with rfl | hj0
          · simp
          · exact List.pairwise_iff_getElem.1 hP.2 k (k + j) hkl (by omega) (by omega)
        have := (hrange _ hbm).2 (le_trans hsum hps)
        simpa using this
      rw [hz, List.append_nil]
      refine (List.length_filter_le _ _).trans ?_
      rw [List.length_take]; omega
    rw [(hP.1.filter _).length_eq] at hle
    omega
  have hqnd := hpopnd i q (le_refl _) hq
  rw [if_pos (show q.fit > -1 from hqnd)] at he
  -- all of `l1` is non-dominated
  have hl1 : ∀ a ∈ l1, -1 < a.fit := by
    intro a ha
    rcases List.mem_append.1 (hI.perm.subset ha) with ha | ha
    · obtain ⟨j, hj, rfl⟩ := List.getElem_of_mem ha
      rw [List.length_drop] at hj
      rw [List.getElem_drop]
      have mono : ∀ k m : Nat, ∀ (hk : k < (sortArch l).length) (hm : m < (sortArch l).length), k ≤ m →
          (sortArch l)[k].fit ≤ (sortArch l)[m].fit := by
        intro k m hk hm hkm
        rcases Nat.eq_or_lt_of_le hkm with rfl | hkm
        · exact le_refl _
        · rcases List.pairwise_iff_getElem.1 hA.2 k m hk hm hkm with h | h
          · exact h.le
          · exact h.1.le
      by_cases hcase : i + 1 < l.length ∨ (i = 0 ∧ 0 < l.length)
      · obtain ⟨b, hb1, hb2⟩ := hst hcase
        obtain ⟨hbl, rfl⟩ := List.getElem?_eq_some_iff.1 hb1
        have hb : -1 < (sortArch l)[i].fit := by
          by_contra hcon
          have hcon := not_lt.1 hcon
          have hbm : (sortArch l)[i] ∈ l ++ pop := List.mem_append_left _ (hA.1.subset (List.getElem_mem _))
          have hqm : q ∈ l ++ pop := List.mem_append_right _ (hP.1.subset (List.mem_of_getElem? hq))
          have h1 := (hrange _ hbm).1 hcon
          have h2 : -1 < q.sum := by
            by_contra h2
            exact absurd ((hrange q hqm).2 (not_lt.1 h2)) (not_le.2 hqnd)
          exact hb2 ⟨lt_of_le_of_lt h1 h2, hcon⟩
        exact lt_of_lt_of_le hb (mono i (i + j) hbl (by omega) (by omega))
      · obtain ⟨b, hb, hbf⟩ := hbest
        obtain ⟨m, hm, rfl⟩ := List.getElem_of_mem (hA.1.symm.subset hb)
        exact lt_of_lt_of_le hbf (mono m (i + j) hm (by omega) (by omega))
    · obtain ⟨k, hk, rfl⟩ := List.getElem_of_mem ha
      rw [List.length_take] at hk
      rw [List.getElem_take]
      exact hpopnd k _ (by omega) (List.getElem?_eq_getElem (by omega))
  obtain ⟨o, -, -, -, -, h5⟩ := truncate_spec dist sortPairs hS.pairs sortRows hS.rows (sortPop pop) i l1
  rw [← he] at h5
  intro a ha
  obtain ⟨k, -, hk⟩ := List.mem_filterMap.1 (h5.subset ha)
  rcases List.mem_append.1 (List.mem_of_getElem? hk) with h | h
  · exact hl1 a h
  · simpa using List.mem_takeWhile_imp h

/-- Offering nothing to a full archive reads the first element of an empty vector. -/
theorem C161_empty_undefined (maxSize : Nat) (dist : α → α → F) (l : List (Ind F α))
    (hS : Sorts sortPop sortArch sortPairs sortRows) (hfull : ¬ l.length < maxSize) :
    insert maxSize dist sortPop sortArch sortPairs sortRows l [] = none := by
  have h0 : sortPop [] = [] := by
    have := (hS.pop []).1.length_eq
    simpa using this
  unfold insert
  simp only []
  rw [if_neg hfull, h0]
  rcases replaceLoop ([] : List (Ind F α)) l.length 0 (sortArch l) with _ | ⟨i, l1⟩
  · rfl
  · simp

/-- Offering one individual that replaces a dominated member of a full archive reads beyond the
population. -/
theorem C161_single_undefined (hS : Sorts sortPop sortArch sortPairs sortRows) (maxSize : Nat)
    (dist : α → α → F) (l : List (Ind F α)) (p : Ind F α) (hfull : ¬ l.length < maxSize)
    (hne : l ≠ []) (hbad : ∀ a ∈ l, a.fit ≤ -1 ∧ a.fit + a.dvs < p.fit + p.dvs) :
    insert maxSize dist sortPop sortArch sortPairs sortRows l [p] = none := by
  rcases h : insert maxSize dist sortPop sortArch sortPairs sortRows l [p] with _ | l'
  · rfl
  · exfalso
    obtain ⟨i, l1, q, hI, hq, hst, -⟩ := insert_full hS maxSize dist l [p] l' hfull h
    have hlen := (hS.pop [p]).1.length_eq
    have hi : i = 0 := by
      have := (List.getElem?_eq_some_iff.1 hq).1
      simp at hlen; omega
    subst hi
    obtain ⟨a, ha, hna⟩ := hst (Or.inr ⟨rfl, List.length_pos_iff.2 hne⟩)
    have hqp : q = p := by
      have := (hS.pop [p]).1.subset (List.mem_of_getElem? hq)
      simpa using this
    subst hqp
    have := hbad a ((hS.arch l).1.subset (List.mem_of_getElem? ha))
    exact hna ⟨this.2, this.1⟩

/-- In an archive of two or more, the best member is never replaced directly by the loop, even if it is
dominated and better newcomers are plenty. -/
theorem C161_best_stays (hS : Sorts sortPop sortArch sortPairs sortRows) (maxSize : Nat) (dist : α → α → F)
    (l pop l' : List (Ind F α)) (hfull : ¬ l.length < maxSize) (h2 : 2 ≤ l.length)
    (hdom : ∀ a ∈ l, a.fit ≤ -1 ∧ ∀ b ∈ pop, a.fit + a.dvs < b.fit + b.dvs)
    (h : insert maxSize dist sortPop sortArch sortPairs sortRows l pop = some l') :
    ∃ l1 q z, l1.Perm (z :: (sortPop pop).take (l.length - 1)) ∧ z ∈ l ∧
      (∀ a ∈ l, a.fit < z.fit ∨ (a.fit = z.fit ∧ a.dvs ≤ z.dvs)) ∧
      (sortPop pop)[l.length - 1]? = some q ∧
      l' = if q.fit > -1 then truncate dist sortPairs sortRows (sortPop pop) (l.length - 1) l1 else l1 := by
  obtain ⟨i, l1, q, hI, hq, hst, he⟩ := insert_full hS maxSize dist l pop l' hfull h
  have hlen := (hS.arch l).1.length_eq
  have hi : i = l.length - 1 := by
    have := hI.keep (by omega)
    by_contra hne
    obtain ⟨a, ha, hna⟩ := hst (Or.inl (by omega))
    have := hdom a ((hS.arch l).1.subset (List.mem_of_getElem? ha))
    exact hna ⟨this.2 q ((hS.pop pop).1.subset (List.mem_of_getElem? hq)), this.1⟩
  subst hi
  have hz : l.length - 1 < (sortArch l).length := by omega
  refine ⟨l1, q, (sortArch l)[l.length - 1], ?_, (hS.arch l).1.subset (List.getElem_mem _), ?_, hq, he⟩
  · have := hI.perm
    rw [List.drop_eq_getElem_cons hz, List.drop_eq_nil_of_le (by omega)] at this
    simpa using this
  · intro a ha
    obtain ⟨m, hm, rfl⟩ := List.getElem_of_mem ((hS.arch l).1.symm.subset ha)
    by_cases hml : m = l.length - 1
    · subst hml; exact Or.inr ⟨rfl, le_refl _⟩
    · exact List.pairwise_iff_getElem.1 (hS.arch l).2 m (l.length - 1) hm hz (by omega)

end

section Examples

/-- Orders used by the sorting functions of the examples. -/
def popRel (a b : Ind F α) : Prop := b.sum ≤ a.sum
/-- See `popRel`. -/
def archRel (a b : Ind F α) : Prop := a.fit < b.fit ∨ (a.fit = b.fit ∧ a.dvs ≤ b.dvs)
/-- See `popRel`. -/
def pairRel (a b : Nat × F) : Prop := a.2 ≤ b.2
/-- See `popRel`. -/
def rowRel (a b : Row F) : Prop :=
  a.2.map Prod.snd < b.2.map Prod.snd ∨ (a.2.map Prod.snd = b.2.map Prod.snd ∧ a.1 ≤ b.1)

instance : DecidableRel (popRel (F := F) (α := α)) := fun a b => by unfold popRel; infer_instance
instance : DecidableRel (archRel (F := F) (α := α)) := fun a b => by unfold archRel; infer_instance
instance : DecidableRel (pairRel (F := F)) := fun a b => by unfold pairRel; infer_instance
instance : DecidableRel (rowRel (F := F)) := fun a b => by unfold rowRel; infer_instance
instance : Std.Total (popRel (F := F) (α := α)) := ⟨fun a b => le_total _ _⟩
instance : IsTrans _ (popRel (F := F) (α := α)) := ⟨fun a b c h1 h2 => le_trans h2 h1⟩
instance : Std.Total (pairRel (F := F)) := ⟨fun a b => le_total _ _⟩
instance : IsTrans _ (pairRel (F := F)) := ⟨fun a b c h1 h2 => le_trans h1 h2⟩
instance : Std.Total (archRel (F := F) (α := α)) := ⟨fun a b => by
  unfold archRel
  rcases lt_trichotomy a.fit b.fit with h | h | h
  · exact Or.inl (Or.inl h)
  · rcases le_total a.dvs b.dvs with h' | h'
    · exact Or.inl (Or.inr ⟨h, h'⟩)
    · exact Or.inr (Or.inr ⟨h.symm, h'⟩)
  · exact Or.inr (Or.inl h)⟩
instance : IsTrans _ (archRel (F := F) (α := α)) := ⟨fun a b c h1 h2 => by
  unfold archRel at *
  rcases h1 with h1 | ⟨h1, h1'⟩ <;> rcases h2 with h2 | ⟨h2, h2'⟩
  · exact Or.inl (h1.trans h2)
  · exact Or.inl (h2 ▸ h1)
  · exact Or.inl (h1 ▸ h2)
  · exact Or.inr ⟨h1.trans h2, h1'.trans h2'⟩⟩
instance : Std.Total (rowRel (F := F)) := ⟨fun a b => by
  unfold rowRel
  rcases lt_trichotomy (a.2.map Prod.snd) (b.2.map Prod.snd) with h | h | h
  · exact Or.inl (Or.inl h)
  · rcases le_total a.1 b.1 with h' | h'
    · exact Or.inl (Or.inr ⟨h, h'⟩)
    · exact Or.inr (Or.inr ⟨h.symm, h'⟩)
  · exact Or.inr (Or.inl h)⟩
instance : IsTrans _ (rowRel (F := F)) := ⟨fun a b c h1 h2 => by
  unfold rowRel at *
  rcases h1 with h1 | ⟨h1, h1'⟩ <;> rcases h2 with h2 | ⟨h2, h2'⟩
  · exact Or.inl (lt_trans h1 h2)
  · exact Or.inl (h2 ▸ h1)
  · exact Or.inl (h1 ▸ h2)
  · exact Or.inr ⟨h1.trans h2, h1'.trans h2'⟩⟩

/-- Sorting functions as assumed exist: insertion sort. -/
theorem sorts_insertion : Sorts (F := F) (α := α) (List.insertionSort popRel) (List.insertionSort archRel)
    (List.insertionSort pairRel) (List.insertionSort rowRel) := by
  refine ⟨fun l => ⟨List.perm_insertionSort _ _, List.pairwise_insertionSort _ _⟩,
    fun l => ⟨List.perm_insertionSort _ _, List.pairwise_insertionSort archRel l⟩,
    fun l => ⟨List.perm_insertionSort _ _, List.pairwise_insertionSort pairRel l⟩,
    fun l => ⟨List.perm_insertionSort _ _, fun hl => ?_⟩⟩
  have hmem : ∀ a ∈ List.insertionSort rowRel l, a ∈ l := fun a ha => (List.perm_insertionSort _ _).subset ha
  refine (List.pairwise_insertionSort rowRel l).imp_of_mem ?_
  intro a b ha hb hab
  rw [← Bool.not_eq_true]
  unfold rowLt
  rw [go_iff _ _ _ _ (by simpa using hl b (hmem b hb) a (hmem a ha))]
  rcases hab with h | ⟨h, h'⟩
  · rintro (h2 | ⟨h2, -⟩)
    · exact absurd (lt_trans h h2) (lt_irrefl _)
    · rw [h2] at h; exact lt_irrefl _ h
  · rintro (h2 | ⟨-, h2⟩)
    · rw [h] at h2; exact lt_irrefl _ h2
    · omega

/-- The function of the code with insertion sort on individuals placed on a line. -/
def demo (maxSize : Nat) (l pop : List (Ind ℚ ℚ)) : Option (List (ℚ × ℚ)) :=
  (insert maxSize (fun a b => (a - b) * (a - b)) (List.insertionSort popRel) (List.insertionSort archRel)
    (List.insertionSort pairRel) (List.insertionSort rowRel) l pop).map fun l => l.map fun a => (a.fit, a.obj)

/-- Two dominated members of a full archive, three newcomers that are not dominated: the better of the
two stays, a newcomer is discarded. -/
theorem C161_dominated_kept :
    demo 2 [⟨-2, 0, 50⟩, ⟨-3, 0, 60⟩] [⟨0, 0, 1⟩, ⟨0, 0, 2⟩, ⟨0, 0, 4⟩] = some [(-2, 50), (0, 1)] := by
  decide +kernel

/-- The hypotheses of `C161_no_dominated` are met: one dominated member, two newcomers that are not. -/
example : demo 3 [⟨0, 0, 50⟩, ⟨-3, 0, 60⟩, ⟨0, 0, 90⟩] [⟨0, 0, 1⟩, ⟨0, -1 / 2, 2⟩] =
      some [(0, 90), (0, 50), (0, 1)] := by
  decide +kernel

/-- The hypotheses of the undefined call are met. -/
example : demo 2 [⟨-2, 0, 50⟩, ⟨-3, 0, 60⟩] [⟨0, 0, 1⟩] = none := by decide +kernel

end Examples

end Paradiseo.Moeo.Spea2
