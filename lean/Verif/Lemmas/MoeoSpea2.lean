import Verif.Model.MoeoSpea2
import Mathlib.Data.List.Sort
import Mathlib.Data.List.Nodup
import Mathlib.Data.List.Range
import Mathlib.Data.List.Lex
import Mathlib.Tactic.Linarith
/- Helper lemmas for the archive of SPEA2. -/
namespace Paradiseo.Moeo.Spea2

variable {F α : Type} [Field F] [LinearOrder F]

/-- The distances of `k` to the others of `S`, from the nearest to the farthest. -/
def near (dd : Nat → Nat → F) (S : List Nat) (k : Nat) : List F :=
  ((S.filter (· != k)).map (dd k)).insertionSort (· ≤ ·)

/-- `t` is the one of `S` that is closest to the others: its nearest neighbour is nearest; among equals
the second nearest decides, and so on; at last the smaller number. -/
def Victim (dd : Nat → Nat → F) (S : List Nat) (t : Nat) : Prop :=
  t ∈ S ∧ ∀ k ∈ S, near dd S t < near dd S k ∨ (near dd S t = near dd S k ∧ t ≤ k)

/-- The numbers of `o` leave `S` one after the other, always the one closest to the others left. -/
def Thinned (dd : Nat → Nat → F) : List Nat → List Nat → Prop
  | _, [] => True
  | S, t :: o => Victim dd S t ∧ Thinned dd (S.filter (· != t)) o

/-- The rows belong to the numbers `S` and hold the sorted distances to the others. -/
structure RowsOk (dd : Nat → Nat → F) (S : List Nat) (rs : List (Row F)) : Prop where
  nodup : S.Nodup
  ids : (rs.map Prod.fst).Perm S
  pairs : ∀ r ∈ rs, r.2.Perm ((S.filter (· != r.1)).map fun l => (l, dd r.1 l))
  sorted : ∀ r ∈ rs, r.2.Pairwise fun a b => a.2 ≤ b.2

theorem eraseP_eq_filter (t : Nat) (l : List (Nat × F)) (h : (l.map Prod.fst).Nodup) :
    l.eraseP (·.1 == t) = l.filter (·.1 != t) := by
  induction l with
  | nil => rfl
  | cons a l ih =>
    simp only [List.map_cons, List.nodup_cons] at h
    by_cases ha : a.1 = t
    · rw [List.eraseP_cons_of_pos (by simp [ha]), List.filter_cons_of_neg (by simp [ha])]
      symm
      rw [List.filter_eq_self]
      intro b hb
      have : b.1 ≠ t := by
        rintro rfl
        exact h.1 (ha ▸ List.mem_map_of_mem hb)
      simpa using this
    · rw [List.eraseP_cons_of_neg (by simp [ha]), List.filter_cons_of_pos (by simp [ha]), ih h.2]

theorem row_near (dd : Nat → Nat → F) (S : List Nat) (rs : List (Row F)) (h : RowsOk dd S rs) (r : Row F)
    (hr : r ∈ rs) : r.2.map Prod.snd = near dd S r.1 := by
  apply List.Perm.eq_of_pairwise (le := (· ≤ ·))
  · intro a b _ _ h1 h2; exact le_antisymm h1 h2
  · exact List.pairwise_map.2 (h.sorted r hr)
  · exact List.pairwise_insertionSort _ _
  · refine ((h.pairs r hr).map Prod.snd).trans ?_
    rw [List.map_map]
    exact (List.perm_insertionSort _ _).symm

theorem go_iff (a b : Row F) : ∀ xs ys : List F, xs.length = ys.length →
    (rowLt.go a b xs ys = true ↔ xs < ys ∨ (xs = ys ∧ a.1 < b.1))
  | [], [], _ => by simp [rowLt.go]
  | x :: xs, y :: ys, h => by
    have ih := go_iff a b xs ys (by simpa using h)
    unfold rowLt.go
    rw [List.cons_lt_cons_iff]
    rcases lt_trichotomy x y with hxy | rfl | hxy
    · simp [hxy]
    · simp [ih]
    · simp only [if_neg (not_lt.2 hxy.le), if_pos hxy]
      simp [hxy.ne', not_lt.2 hxy.le]
  | [], _ :: _, h => by simp at h
  | _ :: _, [], h => by simp at h

theorem near_length (dd : Nat → Nat → F) (S : List Nat) (k : Nat) (hk : k ∈ S) (h : S.Nodup) :
    (near dd S k).length = S.length - 1 := by
  unfold near
  rw [List.length_insertionSort, List.length_map]
  have : S.filter (· != k) = S.erase k := (h.erase_eq_filter k).symm
  rw [this, List.length_erase_of_mem hk]

theorem rowLt_iff (dd : Nat → Nat → F) (S : List Nat) (rs : List (Row F)) (h : RowsOk dd S rs) (a b : Row F)
    (ha : a ∈ rs) (hb : b ∈ rs) :
    rowLt a b = true ↔ near dd S a.1 < near dd S b.1 ∨ (near dd S a.1 = near dd S b.1 ∧ a.1 < b.1) := by
  have ha' : a.1 ∈ S := h.ids.subset (List.mem_map_of_mem ha)
  have hb' : b.1 ∈ S := h.ids.subset (List.mem_map_of_mem hb)
  unfold rowLt
  rw [go_iff, row_near dd S rs h a ha, row_near dd S rs h b hb]
  rw [row_near dd S rs h a ha, row_near dd S rs h b hb, near_length _ _ _ ha' h.nodup,
    near_length _ _ _ hb' h.nodup]

/-- What is assumed of `std::sort` on rows: rows of the same length, for which `CmpVector` is a strict
weak order, come out sorted. -/
def SortsRows (f : List (Row F) → List (Row F)) : Prop :=
  ∀ l, (f l).Perm l ∧ ((∀ a ∈ l, ∀ b ∈ l, a.2.length = b.2.length) →
    (f l).Pairwise fun a b => rowLt b a = false)

/-- What is assumed of `std::sort` on pairs. -/
def SortsPairs (f : List (Nat × F) → List (Nat × F)) : Prop :=
  ∀ l, (f l).Perm l ∧ (f l).Pairwise fun a b => a.2 ≤ b.2

theorem RowsOk.perm {dd : Nat → Nat → F} {S : List Nat} {rs rs' : List (Row F)} (h : RowsOk dd S rs)
    (hp : rs'.Perm rs) : RowsOk dd S rs' :=
  ⟨h.nodup, (hp.map _).trans h.ids, fun r hr => h.pairs r (hp.subset hr), fun r hr => h.sorted r (hp.subset hr)⟩

theorem rowLt_total (dd : Nat → Nat → F) (S : List Nat) (rs : List (Row F)) (h : RowsOk dd S rs) (a b : Row F)
    (ha : a ∈ rs) (hb : b ∈ rs) : rowLt b a = false ↔
      near dd S a.1 < near dd S b.1 ∨ (near dd S a.1 = near dd S b.1 ∧ a.1 ≤ b.1) := by
  rw [← Bool.not_eq_true, rowLt_iff dd S rs h b a hb ha]
  rcases lt_trichotomy (near dd S a.1) (near dd S b.1) with hlt | heq | hgt
  · simp [hlt, hlt.ne', not_lt.2 hlt.le]
  · simp [heq]
  · simp [hgt, hgt.ne', not_lt.2 hgt.le]

theorem sortRows_head (f : List (Row F) → List (Row F)) (hf : SortsRows f) (dd : Nat → Nat → F) (S : List Nat)
    (rs : List (Row F)) (h : RowsOk dd S rs) (r : Row F) (rest : List (Row F)) (hs : f rs = r :: rest) :
    Victim dd S r.1 := by
  have hp := (hf rs).1
  have hlen : ∀ a ∈ rs, a.2.length = S.length - 1 := by
    intro a ha
    have := congrArg List.length (row_near dd S rs h a ha)
    rw [List.length_map, near_length dd S a.1 (h.ids.subset (List.mem_map_of_mem ha)) h.nodup] at this
    exact this
  have hsorted := (hf rs).2 fun a ha b hb => by rw [hlen a ha, hlen b hb]
  rw [hs, List.pairwise_cons] at hsorted
  rw [hs] at hp
  have hr : r ∈ rs := hp.subset (by simp)
  refine ⟨h.ids.subset (List.mem_map_of_mem hr), fun k hk => ?_⟩
  obtain ⟨q, hq, rfl⟩ := List.mem_map.1 (h.ids.symm.subset hk)
  rcases List.mem_cons.1 (hp.symm.subset hq) with rfl | hq'
  · exact Or.inr ⟨rfl, le_refl _⟩
  · exact (rowLt_total dd S rs h r q hr hq).1 (hsorted.1 q hq')

theorem dropFirst_ok (dd : Nat → Nat → F) (S : List Nat) (r : Row F) (rest : List (Row F))
    (h : RowsOk dd S (r :: rest)) : RowsOk dd (S.filter (· != r.1)) (dropFirst (r :: rest)) := by
  have hnd : ((r :: rest).map Prod.fst).Nodup := h.ids.nodup_iff.2 h.nodup
  simp only [List.map_cons, List.nodup_cons] at hnd
  refine ⟨h.nodup.filter _, ?_, ?_, ?_⟩
  · have e : (dropFirst (r :: rest)).map Prod.fst = rest.map Prod.fst := by
      simp [dropFirst]
    rw [e]
    have := h.ids.filter (· != r.1)
    refine List.Perm.trans ?_ this
    rw [List.map_cons, List.filter_cons_of_neg (by simp)]
    rw [List.filter_eq_self.2]
    intro k hk
    have : k ≠ r.1 := fun e => hnd.1 (e ▸ hk)
    simpa using this
  · intro q hq
    obtain ⟨q0, hq0, rfl⟩ := List.mem_map.1 hq
    have hp := h.pairs q0 (List.mem_cons_of_mem _ hq0)
    have hnd2 : (q0.2.map Prod.fst).Nodup := by
      rw [(hp.map Prod.fst).nodup_iff, List.map_map]
      have : (S.filter (· != q0.1)).map (Prod.fst ∘ fun l => (l, dd q0.1 l)) = S.filter (· != q0.1) := by
        conv_rhs => rw [← List.map_id (S.filter (· != q0.1))]
        rfl
      rw [this]; exact h.nodup.filter _
    show (q0.2.eraseP (·.1 == r.1)).Perm _
    rw [eraseP_eq_filter _ _ hnd2]
    refine (hp.filter _).trans ?_
    rw [List.filter_map, List.filter_filter, List.filter_filter]
    apply List.Perm.of_eq
    congr 1
    apply List.filter_congr
    intro x _
    simp [Bool.and_comm]
  · intro q hq
    obtain ⟨q0, hq0, rfl⟩ := List.mem_map.1 hq
    exact (h.sorted q0 (List.mem_cons_of_mem _ hq0)).sublist List.eraseP_sublist

theorem thin_spec (f : List (Row F) → List (Row F)) (hf : SortsRows f) (dd : Nat → Nat → F) :
    ∀ (k : Nat) (S : List Nat) (rs : List (Row F)), RowsOk dd S rs → k ≤ S.length →
      (thin f k rs).1.length = k ∧ Thinned dd S (thin f k rs).1 ∧
        (∀ t ∈ (thin f k rs).1, t ∈ S) ∧ (thin f k rs).1.Nodup ∧
        ((thin f k rs).2.map Prod.fst).Perm (S.filter (· ∉ (thin f k rs).1)) := by
  intro k
  induction k with
  | zero =>
    intro S rs h _
    refine ⟨rfl, trivial, by simp [thin], by simp [thin], ?_⟩
    simpa [thin] using h.ids
  | succ k ih =>
    intro S rs h hk
    have hlen : rs.length = S.length := by simpa using h.ids.length_eq
    rcases hs : f rs with _ | ⟨r, rest⟩
    · exfalso
      have := (hf rs).1.length_eq
      rw [hs] at this
      simp at this
      omega
    · have hp := (hf rs).1
      rw [hs] at hp
      have hok := h.perm hp
      have hv := sortRows_head f hf dd S rs h r rest hs
      have hd := dropFirst_ok dd S r rest hok
      have hfl : (S.filter (· != r.1)).length = S.length - 1 := by
        rw [← h.nodup.erase_eq_filter, List.length_erase_of_mem hv.1]
      obtain ⟨i1, i2, i3, i4, i5⟩ := ih _ _ hd (by omega)
      have e1 : (thin f (k + 1) rs).1 = r.1 :: (thin f k (dropFirst (r :: rest))).1 := by
        simp [thin, hs]
      have e2 : (thin f (k + 1) rs).2 = (thin f k (dropFirst (r :: rest))).2 := by
        simp [thin, hs]
      rw [e1, e2]
      refine ⟨by simp [i1], ⟨hv, i2⟩, ?_, ?_, ?_⟩
      · intro t ht
        rcases List.mem_cons.1 ht with rfl | ht
        · exact hv.1
        · exact List.mem_of_mem_filter (i3 t ht)
      · rw [List.nodup_cons]
        refine ⟨fun hm => ?_, i4⟩
        have := i3 _ hm
        simp at this
      · refine i5.trans (List.Perm.of_eq ?_)
        rw [List.filter_filter]
        apply List.filter_congr
        intro x _
        by_cases hx : x = r.1 <;> simp [hx]

theorem rows_ok (d : Nat → Nat → F) (sp : List (Nat × F) → List (Nat × F)) (hsp : SortsPairs sp) (n : Nat) :
    RowsOk (fun i j => d (min i j) (max i j)) (List.range n) (rows d sp n) := by
  refine ⟨List.nodup_range, ?_, ?_, ?_⟩
  · unfold rows
    rw [List.map_map]
    apply List.Perm.of_eq
    conv_rhs => rw [← List.map_id (List.range n)]
    rfl
  · intro r hr
    obtain ⟨k, -, rfl⟩ := List.mem_map.1 hr
    exact (hsp _).1
  · intro r hr
    obtain ⟨k, -, rfl⟩ := List.mem_map.1 hr
    exact (hsp _).2

section fill
variable {β : Type}

theorem set_perm (l : List β) (k : Nat) (p z : β) (h : l[k]? = some z) :
    (l.set k p ++ [z]).Perm (l ++ [p]) := by
  induction l generalizing k with
  | nil => simp at h
  | cons a l ih =>
    cases k with
    | zero =>
      simp only [List.getElem?_cons_zero, Option.some.injEq] at h
      subst h
      rw [List.set_cons_zero, List.cons_append, List.cons_append]
      have h1 : (p :: (l ++ [a])).Perm (p :: a :: l) := (List.perm_append_singleton a l).cons p
      have h2 : (a :: (l ++ [p])).Perm (a :: p :: l) := (List.perm_append_singleton p l).cons a
      exact h1.trans ((List.Perm.swap a p l).trans h2.symm)
    | succ k =>
      simp only [List.getElem?_cons_succ] at h
      simpa using (ih k h).cons a

theorem fill_length (l : List β) (ks : List Nat) (ps : List β) : (fill l ks ps).length = l.length := by
  induction ks generalizing l ps with
  | nil => simp [fill]
  | cons k ks ih =>
    cases ps with
    | nil => simp [fill]
    | cons p ps => rw [fill, ih]; simp

theorem fill_perm (ks : List Nat) (l : List β) (ps : List β) (hn : ks.Nodup)
    (hk : ∀ k ∈ ks, k < l.length) (hl : ks.length = ps.length) :
    (fill l ks ps ++ ks.filterMap fun k => l[k]?).Perm (l ++ ps) := by
  induction ks generalizing l ps with
  | nil =>
    have : ps = [] := by simpa using hl.symm
    subst this; simp [fill]
  | cons k ks ih =>
    cases ps with
    | nil => simp at hl
    | cons p ps =>
      rw [List.nodup_cons] at hn
      have hkl := hk k (by simp)
      have hz : l[k]? = some l[k] := List.getElem?_eq_getElem hkl
      have h1 := ih (l.set k p) ps hn.2 (fun j hj => by simpa using hk j (by simp [hj])) (by simpa using hl)
      have e : (ks.filterMap fun j => (l.set k p)[j]?) = ks.filterMap fun j => l[j]? := by
        apply List.filterMap_congr
        intro j hj
        rw [List.getElem?_set_ne]
        rintro rfl; exact hn.1 hj
      rw [e] at h1
      rw [fill, List.filterMap_cons_some hz]
      have h2 := set_perm l k p l[k] hz
      calc (fill (l.set k p) ks ps ++ l[k] :: (ks.filterMap fun j => l[j]?)).Perm
            ((fill (l.set k p) ks ps ++ ks.filterMap fun j => l[j]?) ++ [l[k]]) := by
              rw [List.append_assoc]
              exact List.Perm.append_left _ (List.perm_append_singleton _ _).symm
        _ |>.Perm ((l.set k p ++ ps) ++ [l[k]]) := h1.append_right _
        _ |>.Perm ((l.set k p ++ [l[k]]) ++ ps) := by
              rw [List.append_assoc, List.append_assoc]
              exact List.Perm.append_left _ List.perm_append_comm
        _ |>.Perm ((l ++ [p]) ++ ps) := h2.append_right _
        _ |>.Perm (l ++ p :: ps) := by simp

end fill

section loop
variable {β : Type}

theorem replaceAt_length (l : List β) (i : Nat) (p : β) (h : l ≠ []) :
    (replaceAt l i p).length = l.length := by
  unfold replaceAt
  rw [List.getLast?_eq_getLast_of_ne_nil h]
  have := List.length_pos_iff.2 h
  simp; omega

theorem replaceAt_perm (l : List β) (i : Nat) (p a : β) (h : l[i]? = some a) :
    (replaceAt l i p ++ [a]).Perm (l ++ [p]) := by
  obtain ⟨hi, rfl⟩ := List.getElem?_eq_some_iff.1 h
  have hne : l ≠ [] := by rintro rfl; simp at hi
  unfold replaceAt
  rw [List.getLast?_eq_getLast_of_ne_nil hne]
  simp only []
  have hs := set_perm l i (l.getLast hne) l[i] (List.getElem?_eq_getElem hi)
  have hne' : l.set i (l.getLast hne) ≠ [] := by simpa using hne
  have hlast : (l.set i (l.getLast hne)).getLast hne' = l.getLast hne := by
    rw [List.getLast_eq_getElem, List.getElem_set]
    split_ifs
    · rfl
    · simp [List.getLast_eq_getElem]
  have hd := List.dropLast_append_getLast hne'
  rw [hlast] at hd
  rw [← hd] at hs
  have h2 : (((l.set i (l.getLast hne)).dropLast ++ [p] ++ [l[i]]) ++ [l.getLast hne]).Perm
      ((l ++ [p]) ++ [l.getLast hne]) := by
    have e1 : (((l.set i (l.getLast hne)).dropLast ++ [p] ++ [l[i]]) ++ [l.getLast hne]).Perm
        (((l.set i (l.getLast hne)).dropLast ++ [l.getLast hne] ++ [l[i]]) ++ [p]) := by
      simp only [List.append_assoc]
      apply List.Perm.append_left
      simp only [List.singleton_append]
      exact (List.Perm.cons p (List.Perm.swap _ _ _)).trans ((List.Perm.swap _ _ _).trans
        (List.Perm.cons _ (List.Perm.swap _ _ _)))
    refine e1.trans ((hs.append_right _).trans ?_)
    simp only [List.append_assoc]
    exact List.Perm.append_left _ List.perm_append_comm
  exact (List.perm_append_right_iff _).1 h2

theorem replaceAt_get (l : List β) (i k : Nat) (p : β) (hik : i ≠ k) (hk : k + 1 < l.length) :
    (replaceAt l i p)[k]? = l[k]? := by
  have hne : l ≠ [] := by rintro rfl; simp at hk
  unfold replaceAt
  rw [List.getLast?_eq_getLast_of_ne_nil hne]
  simp only []
  rw [List.getElem?_append_left (by simp; omega), List.getElem?_dropLast,
    if_pos (by simp; omega), List.getElem?_set_ne hik]

theorem replaceAt_last (l : List β) (i : Nat) (p : β) (h : l ≠ []) :
    (replaceAt l i p)[l.length - 1]? = some p := by
  have := List.length_pos_iff.2 h
  unfold replaceAt
  rw [List.getLast?_eq_getLast_of_ne_nil h]
  simp

end loop

/-- The members and the newcomers before the `i`-th round of the loop. -/
structure LoopInv (l0 pop : List (Ind F α)) (i : Nat) (l : List (Ind F α)) : Prop where
  len : l.length = l0.length
  le : i ≤ l0.length
  perm : l.Perm (l0.drop i ++ pop.take i)
  same : ∀ k : Nat, i ≤ k → k + 1 < l0.length → l[k]? = l0[k]?
  first : i = 0 → l = l0
  last : 0 < i → l[l0.length - 1]? = pop[i - 1]?
  done : ∀ k : Nat, k < i → ∃ a p, l0[k]? = some a ∧ pop[k]? = some p ∧ a.sum < p.sum ∧ a.fit ≤ -1
  keep : 2 ≤ l0.length → i < l0.length

theorem replaceLoop_spec (l0 pop : List (Ind F α)) (hs : pop.Pairwise fun a b => b.sum ≤ a.sum) :
    ∀ (fuel i : Nat) (l : List (Ind F α)), l0.length ≤ fuel + i → LoopInv l0 pop i l →
      ∀ r, replaceLoop pop fuel i l = some r →
        LoopInv l0 pop r.1 r.2 ∧ (r.1 + 1 < l0.length ∨ r = (0, l0) ∧ l0 ≠ [] →
          ∃ a p, l0[r.1]? = some a ∧ pop[r.1]? = some p ∧ ¬ (a.sum < p.sum ∧ a.fit ≤ -1)) := by
  intro fuel
  induction fuel with
  | zero =>
    intro i l hf hI r hr
    simp only [replaceLoop, Option.some.injEq] at hr
    subst hr
    refine ⟨hI, ?_⟩
    have := hI.le
    have hil : i = l0.length := by omega
    rintro (h | ⟨h, hne⟩)
    · simp only at h; omega
    · simp only [Prod.mk.injEq] at h
      have := List.length_pos_iff.2 hne
      omega
  | succ fuel ih =>
    intro i l hf hI r hr
    unfold replaceLoop at hr
    rcases hl : l[i]? with _ | a
    · rw [hl] at hr
      simp only [Option.some.injEq] at hr
      subst hr
      have hlen := hI.len
      have hil : l0.length ≤ i := by rw [← hlen]; exact List.getElem?_eq_none_iff.1 hl
      refine ⟨hI, ?_⟩
      rintro (h | ⟨h, hne⟩)
      · simp only at h; omega
      · simp only [Prod.mk.injEq] at h
        have := List.length_pos_iff.2 hne
        omega
    · rw [hl] at hr
      rcases hp : pop[i]? with _ | q
      · rw [hp] at hr; simp at hr
      · rw [hp] at hr
        simp only [] at hr
        have hlen := hI.len
        have hil : i < l.length := (List.getElem?_eq_some_iff.1 hl).1
        have hne : l ≠ [] := by rintro rfl; simp at hil
        have hl0ne : l0 ≠ [] := by
          intro h; rw [h] at hlen; simp at hlen; exact hne hlen
        split_ifs at hr with hc
        · -- a replacement
          have hi : i + 1 < l0.length ∨ (i = 0 ∧ l0.length = 1) := by
            by_contra hcon
            have hin : i + 1 = l0.length := by omega
            have hi0 : 0 < i := by
              by_contra h0
              exact hcon (Or.inr ⟨by omega, by omega⟩)
            have hlast := hI.last hi0
            rw [show l0.length - 1 = i by omega, hl] at hlast
            have h1 := (List.getElem?_eq_some_iff.1 hlast.symm)
            have h2 := (List.getElem?_eq_some_iff.1 hp)
            obtain ⟨h1l, h1e⟩ := h1
            obtain ⟨h2l, h2e⟩ := h2
            have := List.pairwise_iff_getElem.1 hs (i - 1) i h1l h2l (by omega)
            rw [h1e, h2e] at this
            exact absurd hc.1 (not_lt.2 this)
          have hl0i : l0[i]? = some a := by
            rcases hi with hi | ⟨hi, -⟩
            · rw [← hI.same i (le_refl _) hi, hl]
            · rw [← hI.first hi, hl]
          obtain ⟨hi0, hi0e⟩ := List.getElem?_eq_some_iff.1 hl0i
          refine ih (i + 1) (replaceAt l i q) (by omega) ?_ r hr
          refine ⟨by rw [replaceAt_length _ _ _ hne, hlen], hi0, ?_, ?_, by omega, ?_, ?_, by omega⟩
          · have hrp := replaceAt_perm l i q a hl
            have h1 : (replaceAt l i q ++ [a]).Perm ((l0.drop (i + 1) ++ pop.take (i + 1)) ++ [a]) := by
              refine hrp.trans ((hI.perm.append_right [q]).trans ?_)
              rw [List.drop_eq_getElem_cons hi0, hi0e]
              have ht : pop.take (i + 1) = pop.take i ++ [q] := by
                rw [List.take_succ, hp]; rfl
              rw [ht]
              simp only [List.cons_append, List.append_assoc]
              refine List.Perm.trans (List.perm_append_singleton a _).symm ?_
              simp
            exact (List.perm_append_right_iff _).1 h1
          · intro k hk1 hk2
            rw [replaceAt_get l i k q (by omega) (by omega)]
            exact hI.same k (by omega) hk2
          · intro _
            rw [← hlen, replaceAt_last _ _ _ hne]
            exact hp.symm
          · intro k hk
            rcases Nat.lt_succ_iff_lt_or_eq.1 hk with hk | rfl
            · exact hI.done k hk
            · exact ⟨a, q, hl0i, hp, hc⟩
        · simp only [Option.some.injEq] at hr
          subst hr
          refine ⟨hI, fun h => ?_⟩
          have hl0i : l0[i]? = some a := by
            rcases h with hi | ⟨hi, -⟩
            · rw [← hI.same i (le_refl _) hi, hl]
            · simp only [Prod.mk.injEq] at hi
              rw [← hI.first hi.1, hl]
          exact ⟨a, q, hl0i, hp, hc⟩

theorem loopInv_zero (l0 pop : List (Ind F α)) : LoopInv l0 pop 0 l0 :=
  ⟨rfl, by omega, by simp, fun _ _ _ => rfl, fun _ => rfl, by omega, by omega, by omega⟩

/-- The distance between the candidates number `i` and `j`. -/
def distOf (dist : α → α → F) (all : List (Ind F α)) (i j : Nat) : F :=
  match all[min i j]?, all[max i j]? with
  | some a, some b => dist a.obj b.obj
  | _, _ => 0

theorem filterMap_get_length {β : Type} (all : List β) (ks : List Nat) (h : ∀ k ∈ ks, k < all.length) :
    (ks.filterMap fun k => all[k]?).length = ks.length := by
  induction ks with
  | nil => rfl
  | cons k ks ih =>
    rw [List.filterMap_cons_some (List.getElem?_eq_getElem (h k (by simp))), List.length_cons,
      List.length_cons, ih (fun j hj => h j (by simp [hj]))]

theorem filterMap_range {β : Type} (l : List β) : (List.range l.length).filterMap (fun k => l[k]?) = l := by
  induction l with
  | nil => rfl
  | cons a l ih =>
    rw [List.length_cons, List.range_succ_eq_map, List.filterMap_cons_some (b := a) (by simp),
      List.filterMap_map]
    congr 1

theorem range_filter_lt (n m : Nat) : (List.range (n + m)).filter (· < n) = List.range n := by
  rw [List.range_add, List.filter_append]
  have h1 : (List.range n).filter (· < n) = List.range n := by
    rw [List.filter_eq_self]; intro a ha; simpa using ha
  have h2 : ((List.range m).map (n + ·)).filter (· < n) = [] := by
    rw [List.filter_eq_nil_iff]; intro a ha
    obtain ⟨b, -, rfl⟩ := List.mem_map.1 ha
    simp
  rw [h1, h2, List.append_nil]

theorem filter_mem_perm (N : Nat) (o : List Nat) (hn : o.Nodup) (ho : ∀ t ∈ o, t < N) :
    ((List.range N).filter (· ∈ o)).Perm o := by
  rw [List.perm_ext_iff_of_nodup (List.nodup_range.filter _) hn]
  intro a
  simp only [List.mem_filter, List.mem_range, decide_eq_true_eq]
  exact ⟨fun h => h.2, fun h => ⟨ho a h, h⟩⟩

/-- What thinning leaves, as a list of candidates. -/
theorem truncate_spec (dist : α → α → F) (sp : List (Nat × F) → List (Nat × F)) (hsp : SortsPairs sp)
    (sr : List (Row F) → List (Row F)) (hsr : SortsRows sr) (pop : List (Ind F α)) (inf : Nat)
    (l : List (Ind F α)) :
    ∃ o : List Nat, o.length = ((pop.drop inf).takeWhile fun a => decide (a.fit > -1)).length ∧
      o.Nodup ∧ (∀ t ∈ o, t < (l ++ (pop.drop inf).takeWhile fun a => decide (a.fit > -1)).length) ∧
      Thinned (distOf dist (l ++ (pop.drop inf).takeWhile fun a => decide (a.fit > -1)))
        (List.range (l ++ (pop.drop inf).takeWhile fun a => decide (a.fit > -1)).length) o ∧
      (truncate dist sp sr pop inf l).Perm
        (((List.range (l ++ (pop.drop inf).takeWhile fun a => decide (a.fit > -1)).length).filter
          (· ∉ o)).filterMap fun k => (l ++ (pop.drop inf).takeWhile fun a => decide (a.fit > -1))[k]?) := by
  set new := (pop.drop inf).takeWhile fun a => decide (a.fit > -1) with hnew
  set all := l ++ new with hall
  have hN : all.length = l.length + new.length := by simp [hall]
  have hok := rows_ok (fun i j => match all[i]?, all[j]? with
    | some a, some b => dist a.obj b.obj
    | _, _ => 0) sp hsp (l.length + new.length)
  obtain ⟨h1, h2, h3, h4, h5⟩ := thin_spec sr hsr _ new.length _ _ hok (by simp)
  set out := thin sr new.length (rows (fun i j => match all[i]?, all[j]? with
    | some a, some b => dist a.obj b.obj
    | _, _ => 0) sp (l.length + new.length)) with hout
  have h3' : ∀ t ∈ out.1, t < l.length + new.length := fun t ht => List.mem_range.1 (h3 t ht)
  refine ⟨out.1, h1, h4, by rw [hN]; exact h3', by rw [hN]; exact h2, ?_⟩
  rw [hN]
  have hT : truncate dist sp sr pop inf l = fill l (out.1.filter (· < l.length))
      (((out.2.map Prod.fst).filter (l.length ≤ ·)).filterMap fun k => all[k]?) := rfl
  rw [hT]
  set g := fun k : Nat => all[k]? with hg
  set R := List.range (l.length + new.length) with hR
  -- the numbers that are kept
  have hkept : ((out.2.map Prod.fst).filter (l.length ≤ ·)).Perm
      ((R.filter (· ∉ out.1)).filter (l.length ≤ ·)) := h5.filter _
  have hkl : (((out.2.map Prod.fst).filter (l.length ≤ ·)).filterMap g).length =
      ((R.filter (· ∉ out.1)).filter (l.length ≤ ·)).length := by
    rw [filterMap_get_length, hkept.length_eq]
    intro k hk
    have := hkept.subset hk
    rw [hN]
    exact List.mem_range.1 (List.mem_of_mem_filter (List.mem_of_mem_filter this))
  have hin := filter_mem_perm _ out.1 h4 h3'
  rw [← hR] at hin
  have hlow : (R.filter (· < l.length)).length = l.length := by
    rw [hR, range_filter_lt]; simp
  have hsplitR : (R.filter (· < l.length)).length + (R.filter (l.length ≤ ·)).length = R.length := by
    have := (List.filter_append_perm (fun k => decide (k < l.length)) R).length_eq
    rw [List.length_append] at this
    rw [← this]
    congr 2
    apply List.filter_congr
    intro x _
    by_cases hx : x < l.length
    · simp [hx, not_le.2 hx]
    · simp [hx, not_lt.1 hx]
  have hRl : R.length = l.length + new.length := by simp [hR]
  have hsplito : (out.1.filter (· < l.length)).length + (out.1.filter (l.length ≤ ·)).length = new.length := by
    have := (List.filter_append_perm (fun k => decide (k < l.length)) out.1).length_eq
    rw [List.length_append, h1] at this
    rw [← this]
    congr 2
    apply List.filter_congr
    intro x _
    by_cases hx : x < l.length
    · simp [hx, not_le.2 hx]
    · simp [hx, not_lt.1 hx]
  have hsplitn : ((R.filter (· ∉ out.1)).filter (l.length ≤ ·)).length +
      (out.1.filter (l.length ≤ ·)).length = (R.filter (l.length ≤ ·)).length := by
    have e := (List.filter_append_perm (fun k => decide (k ∈ out.1)) (R.filter (l.length ≤ ·))).length_eq
    rw [List.length_append] at e
    have e1 : ((R.filter (l.length ≤ ·)).filter (· ∈ out.1)).length = (out.1.filter (l.length ≤ ·)).length := by
      have := (hin.filter (l.length ≤ ·)).length_eq
      rw [← this, List.filter_filter, List.filter_filter]
      congr 1
      apply List.filter_congr
      intro x _
      exact Bool.and_comm _ _
    have e2 : ((R.filter (l.length ≤ ·)).filter (fun k => !decide (k ∈ out.1))).length =
        ((R.filter (· ∉ out.1)).filter (l.length ≤ ·)).length := by
      rw [List.filter_filter, List.filter_filter]
      congr 1
      apply List.filter_congr
      intro x _
      rw [Bool.and_comm]
      simp
    rw [e1, e2] at e
    omega
  have hlen : (out.1.filter (· < l.length)).length =
      (((out.2.map Prod.fst).filter (l.length ≤ ·)).filterMap g).length := by
    rw [hkl]; omega
  have hf := fill_perm (out.1.filter (· < l.length)) l
    (((out.2.map Prod.fst).filter (l.length ≤ ·)).filterMap g) (h4.filter _)
    (fun k hk => by simpa using (List.mem_filter.1 hk).2) hlen
  -- the old members, split into those that stay and those that go
  have hold : (((R.filter (· ∉ out.1)).filter (· < l.length)).filterMap g ++
      (out.1.filter (· < l.length)).filterMap g).Perm l := by
    have e := List.filter_append_perm (fun k => decide (k ∈ out.1)) (R.filter (· < l.length))
    have e1 : ((R.filter (· < l.length)).filter (· ∈ out.1)).Perm (out.1.filter (· < l.length)) := by
      have := hin.filter (· < l.length)
      refine List.Perm.trans (List.Perm.of_eq ?_) this
      rw [List.filter_filter, List.filter_filter]
      apply List.filter_congr
      intro x _
      exact Bool.and_comm _ _
    have e2 : (R.filter (· < l.length)).filter (fun k => !decide (k ∈ out.1)) =
        (R.filter (· ∉ out.1)).filter (· < l.length) := by
      rw [List.filter_filter, List.filter_filter]
      apply List.filter_congr
      intro x _
      rw [Bool.and_comm]
      simp
    rw [e2] at e
    have e3 : ((R.filter (· ∉ out.1)).filter (· < l.length) ++ out.1.filter (· < l.length)).Perm
        (R.filter (· < l.length)) :=
      List.perm_append_comm.trans ((e1.symm.append_right _).trans e)
    have e4 := e3.filterMap g
    rw [List.filterMap_append] at e4
    refine e4.trans (List.Perm.of_eq ?_)
    rw [hR, range_filter_lt]
    have : (List.range l.length).filterMap g = (List.range l.length).filterMap fun k => l[k]? := by
      apply List.filterMap_congr
      intro k hk
      rw [hg, hall]
      exact List.getElem?_append_left (List.mem_range.1 hk)
    rw [this, filterMap_range]
  have hgo : (out.1.filter (· < l.length)).filterMap (fun k => l[k]?) =
      (out.1.filter (· < l.length)).filterMap g := by
    apply List.filterMap_congr
    intro k hk
    rw [hg, hall]
    exact (List.getElem?_append_left (by simpa using (List.mem_filter.1 hk).2)).symm
  rw [hgo] at hf
  have hK : (((out.2.map Prod.fst).filter (l.length ≤ ·)).filterMap g).Perm
      (((R.filter (· ∉ out.1)).filter (l.length ≤ ·)).filterMap g) := hkept.filterMap g
  have hfinal : (((R.filter (· ∉ out.1)).filter (· < l.length)).filterMap g ++
      ((R.filter (· ∉ out.1)).filter (l.length ≤ ·)).filterMap g).Perm ((R.filter (· ∉ out.1)).filterMap g) := by
    rw [← List.filterMap_append]
    apply List.Perm.filterMap
    refine List.Perm.trans ?_ (List.filter_append_perm (fun k => decide (k < l.length)) (R.filter (· ∉ out.1)))
    apply List.Perm.of_eq
    congr 1
    apply List.filter_congr
    intro x _
    by_cases hx : x < l.length
    · simp [hx, not_le.2 hx]
    · simp [hx, not_lt.1 hx]
  refine List.Perm.trans ?_ hfinal
  apply (List.perm_append_right_iff ((out.1.filter (· < l.length)).filterMap g)).1
  refine hf.trans ((hold.symm.append_right _).trans ?_)
  rw [List.append_assoc, List.append_assoc]
  apply List.Perm.append_left
  exact List.perm_append_comm.trans (hK.append_right _)

end Paradiseo.Moeo.Spea2
