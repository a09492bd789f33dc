/-
Helper lemmas about the model of `Verif/Model/EOReplacement.lean`.
-/
import Verif.Model.EOReplacement
import Mathlib.Data.List.Perm.Subperm
import Mathlib.Data.List.Sort
import Mathlib.Data.List.GetD

namespace Paradiseo.EO
variable {α β F : Type} [LinearOrder F]

theorem minElemAux_spec (f : α → F) : ∀ (xs : List α) (i best : Nat) (bv : F),
    (minElemAux f xs i best bv = best ∧ ∀ x ∈ xs, bv ≤ f x) ∨
    (∃ j x, minElemAux f xs i best bv = i + j ∧ xs[j]? = some x ∧ f x < bv ∧ ∀ y ∈ xs, f x ≤ f y) := by
  intro xs
  induction xs with
  | nil => intro i best bv; left; simp [minElemAux]
  | cons a xs ih =>
    intro i best bv
    unfold minElemAux
    by_cases h : f a < bv
    · rw [if_pos h]
      right
      rcases ih (i + 1) i (f a) with ⟨h1, h2⟩ | ⟨j, x, h1, h2, h3, h4⟩
      · exact ⟨0, a, by simpa using h1, by simp, h, by simpa using h2⟩
      · refine ⟨j + 1, x, by omega, by simpa using h2, h3.trans h, ?_⟩
        intro y hy
        rcases List.mem_cons.1 hy with rfl | hy
        · exact h3.le
        · exact h4 y hy
    · rw [if_neg h]
      rw [not_lt] at h
      rcases ih (i + 1) best bv with ⟨h1, h2⟩ | ⟨j, x, h1, h2, h3, h4⟩
      · left
        refine ⟨h1, ?_⟩
        intro y hy
        rcases List.mem_cons.1 hy with rfl | hy
        · exact h
        · exact h2 y hy
      · right
        refine ⟨j + 1, x, by omega, by simpa using h2, h3, ?_⟩
        intro y hy
        rcases List.mem_cons.1 hy with rfl | hy
        · exact h3.le.trans h
        · exact h4 y hy

theorem maxElemAux_eq (f : α → F) : ∀ (xs : List α) (i best : Nat) (bv : F),
    maxElemAux f xs i best bv = minElemAux (F := Fᵒᵈ) (fun x => OrderDual.toDual (f x)) xs i best
      (OrderDual.toDual bv) := by
  intro xs
  induction xs with
  | nil => intro i best bv; rfl
  | cons a xs ih =>
    intro i best bv
    unfold maxElemAux minElemAux
    simp only [OrderDual.toDual_lt_toDual, ih]

theorem worseElement_spec (f : α → F) (pop : List α) (h : pop ≠ []) :
    ∃ i x, worseElement f pop = .ok i ∧ pop[i]? = some x ∧ ∀ y ∈ pop, f x ≤ f y := by
  cases pop with
  | nil => exact absurd rfl h
  | cons a xs =>
    rcases minElemAux_spec f xs 1 0 (f a) with ⟨h1, h2⟩ | ⟨j, x, h1, h2, h3, h4⟩
    · exact ⟨0, a, by simp [worseElement, h1], by simp, by simpa using h2⟩
    · refine ⟨1 + j, x, by simp [worseElement, h1], by rw [Nat.add_comm]; simpa using h2, ?_⟩
      intro y hy
      rcases List.mem_cons.1 hy with rfl | hy
      · exact h3.le
      · exact h4 y hy

theorem maxElem_spec (f : α → F) (a : α) (xs : List α) :
    ∃ x, (a :: xs)[maxElemAux f xs 1 0 (f a)]? = some x ∧ ∀ y ∈ a :: xs, f y ≤ f x := by
  rw [maxElemAux_eq]
  obtain ⟨i, x, h1, h2, h3⟩ := worseElement_spec (F := Fᵒᵈ) (fun x => OrderDual.toDual (f x))
    (a :: xs) (by simp)
  simp only [worseElement, Except.ok.injEq] at h1
  rw [h1]
  exact ⟨x, h2, fun y hy => OrderDual.toDual_le_toDual.1 (h3 y hy)⟩

theorem itBestElement_spec (f : α → F) (pop : List α) (h : pop ≠ []) :
    ∃ i x, itBestElement f pop = .ok i ∧ pop[i]? = some x ∧ ∀ y ∈ pop, f y ≤ f x := by
  cases pop with
  | nil => exact absurd rfl h
  | cons a xs =>
    obtain ⟨x, h1, h2⟩ := maxElem_spec f a xs
    exact ⟨_, x, rfl, h1, h2⟩

theorem bestElement_spec (f : α → F) (pop : List α) (h : pop ≠ []) :
    ∃ x, bestElement f pop = .ok x ∧ x ∈ pop ∧ ∀ y ∈ pop, f y ≤ f x := by
  cases pop with
  | nil => exact absurd rfl h
  | cons a xs =>
    obtain ⟨x, h1, h2⟩ := maxElem_spec f a xs
    refine ⟨x, ?_, List.mem_of_getElem? h1, h2⟩
    simp only [bestElement, h1]

/-! ### Elimination -/

omit [LinearOrder F] in
theorem perm_cons_eraseIdx {l : List α} {i : Nat} {x : α} (h : l[i]? = some x) :
    (x :: l.eraseIdx i).Perm l := by
  obtain ⟨hi, rfl⟩ := List.getElem?_eq_some_iff.1 h
  exact List.getElem_cons_eraseIdx_perm hi

omit [LinearOrder F] in
theorem eliminate_ok (pick : List α → Nat → Except Err (Nat × Nat)) :
    ∀ (k : Nat) (pop : List α) (t : Nat) (rest el : List α) (t' : Nat),
    eliminate pick k pop t = .ok (rest, el, t') →
    el.length = k ∧ rest.Sublist pop ∧ (el ++ rest).Perm pop := by
  intro k
  induction k with
  | zero =>
    intro pop t rest el t' h
    simp only [eliminate, Except.ok.injEq, Prod.mk.injEq] at h
    obtain ⟨rfl, rfl, rfl⟩ := h
    simp
  | succ k ih =>
    intro pop t rest el t' h
    rw [eliminate] at h
    cases hp : pick pop t with
    | error e => simp [hp] at h
    | ok p =>
      obtain ⟨i, t1⟩ := p
      simp only [hp] at h
      cases hx : pop[i]? with
      | none => simp [hx] at h
      | some x =>
        simp only [hx] at h
        cases he : eliminate pick k (pop.eraseIdx i) t1 with
        | error e => simp [he] at h
        | ok q =>
          obtain ⟨rest', el', t2⟩ := q
          simp only [he, Except.ok.injEq, Prod.mk.injEq] at h
          obtain ⟨rfl, rfl, rfl⟩ := h
          obtain ⟨h1, h2, h3⟩ := ih _ _ _ _ _ he
          refine ⟨by simp [h1], h2.trans (List.eraseIdx_sublist _ _), ?_⟩
          exact (List.Perm.cons x h3).trans (perm_cons_eraseIdx hx)

omit [LinearOrder F] in
/-- An invariant kept by every erasure holds of what remains. -/
theorem eliminate_inv (pick : List α → Nat → Except Err (Nat × Nat)) (P : List α → Prop)
    (hstep : ∀ pop t i t' x, P pop → pick pop t = .ok (i, t') → pop[i]? = some x →
      P (pop.eraseIdx i)) :
    ∀ (k : Nat) (pop : List α) (t : Nat) (rest el : List α) (t' : Nat), P pop →
    eliminate pick k pop t = .ok (rest, el, t') → P rest := by
  intro k
  induction k with
  | zero =>
    intro pop t rest el t' hP h
    simp only [eliminate, Except.ok.injEq, Prod.mk.injEq] at h
    obtain ⟨rfl, rfl, rfl⟩ := h
    exact hP
  | succ k ih =>
    intro pop t rest el t' hP h
    rw [eliminate] at h
    cases hp : pick pop t with
    | error e => simp [hp] at h
    | ok p =>
      obtain ⟨i, t1⟩ := p
      simp only [hp] at h
      cases hx : pop[i]? with
      | none => simp [hx] at h
      | some x =>
        simp only [hx] at h
        cases he : eliminate pick k (pop.eraseIdx i) t1 with
        | error e => simp [he] at h
        | ok q =>
          obtain ⟨rest', el', t2⟩ := q
          simp only [he, Except.ok.injEq, Prod.mk.injEq] at h
          obtain ⟨rfl, rfl, rfl⟩ := h
          exact ih _ _ _ _ _ (hstep _ _ _ _ _ hP hp hx) he

omit [LinearOrder F] in
/-- If every choice succeeds in range, so does the elimination. -/
theorem eliminate_total (pick : List α → Nat → Except Err (Nat × Nat)) (m : Nat)
    (hpick : ∀ pop t, m < pop.length → ∃ i t', pick pop t = .ok (i, t') ∧ i < pop.length) :
    ∀ (k : Nat) (pop : List α) (t : Nat), m + k ≤ pop.length →
    ∃ rest el t', eliminate pick k pop t = .ok (rest, el, t') := by
  intro k
  induction k with
  | zero => intro pop t _; exact ⟨pop, [], t, rfl⟩
  | succ k ih =>
    intro pop t hk
    obtain ⟨i, t1, hp, hi⟩ := hpick pop t (by omega)
    obtain ⟨rest, el, t2, he⟩ := ih (pop.eraseIdx i) t1 (by
      rw [List.length_eraseIdx_of_lt hi]; omega)
    refine ⟨rest, pop[i] :: el, t2, ?_⟩
    rw [eliminate]
    simp only [hp, List.getElem?_eq_getElem hi, he]

/-! ### Best kept -/

/-- `kept` is a best part of `all`: a sub-multiset such that nothing left out is better than
anything kept. -/
def BestOf (f : α → F) (kept all : List α) : Prop :=
  ∃ dropped, (kept ++ dropped).Perm all ∧ ∀ a ∈ kept, ∀ b ∈ dropped, f b ≤ f a

theorem BestOf.refl (f : α → F) (l : List α) : BestOf f l l := ⟨[], by simp, by simp⟩

theorem BestOf.perm_right {f : α → F} {k a b : List α} (h : BestOf f k a) (hab : a.Perm b) :
    BestOf f k b := by
  obtain ⟨d, h1, h2⟩ := h
  exact ⟨d, h1.trans hab, h2⟩

theorem BestOf.subperm {f : α → F} {k a : List α} (h : BestOf f k a) : k.Subperm a := by
  obtain ⟨d, h1, _⟩ := h
  exact (List.sublist_append_left k d).subperm.trans h1.subperm

/-- A non-empty best part has an element at least as good as any. -/
theorem BestOf.best {f : α → F} {k a : List α} (h : BestOf f k a) (hk : k ≠ []) :
    ∀ x ∈ a, ∃ y ∈ k, f x ≤ f y := by
  obtain ⟨d, h1, h2⟩ := h
  intro x hx
  rcases List.mem_append.1 (h1.mem_iff.2 hx) with hx | hx
  · exact ⟨x, hx, le_rfl⟩
  · obtain ⟨y, hy⟩ := List.exists_mem_of_ne_nil k hk
    exact ⟨y, hy, h2 y hy x hx⟩

theorem bestOf_sort_take {f : α → F} {sort : List α → List α} (hs : IsSort f sort) (l : List α)
    (n : Nat) : BestOf f ((sort l).take n) l := by
  refine ⟨(sort l).drop n, by rw [List.take_append_drop]; exact hs.perm l, ?_⟩
  intro a ha b hb
  have := hs.sorted l
  rw [← List.take_append_drop n (sort l), List.pairwise_append] at this
  exact this.2.2 a ha b hb

theorem bestOf_nth_take {f : α → F} {nth : Nat → List α → List α} (hs : IsNth f nth) (l : List α)
    (n : Nat) : BestOf f ((nth n l).take n) l :=
  ⟨(nth n l).drop n, by rw [List.take_append_drop]; exact hs.perm n l, hs.split n l⟩

theorem bestOf_map_sorted {f : α → F} {k a : List α} (h : BestOf f k a) :
    (k.map f).mergeSort (fun x y => decide (y ≤ x)) =
      ((a.map f).mergeSort (fun x y => decide (y ≤ x))).take k.length := by
  obtain ⟨d, h1, h2⟩ := h
  set s : List F → List F := fun l => l.mergeSort (fun x y => decide (y ≤ x)) with hs
  have hsp : ∀ l, (s l).Pairwise (fun x y => y ≤ x) := by
    intro l
    have := List.pairwise_mergeSort (le := fun x y : F => decide (y ≤ x))
      (fun a b c hab hbc => by simp at *; exact hbc.trans hab)
      (fun a b => by simp; exact le_total b a) l
    exact this.imp (by simp)
  have hperm : ∀ l, (s l).Perm l := fun l => List.mergeSort_perm l _
  have hcat : s (a.map f) = s (k.map f) ++ s (d.map f) := by
    have hp1 : (s (a.map f)).Perm (s (k.map f) ++ s (d.map f)) := by
      refine (hperm _).trans ((h1.map f).symm.trans ?_)
      rw [List.map_append]
      exact ((hperm _).append (hperm _)).symm
    have hp2 : (s (k.map f) ++ s (d.map f)).Pairwise (fun x y => y ≤ x) := by
      rw [List.pairwise_append]
      refine ⟨hsp _, hsp _, ?_⟩
      intro x hx y hy
      obtain ⟨x', hx', rfl⟩ := List.mem_map.1 ((hperm _).mem_iff.1 hx)
      obtain ⟨y', hy', rfl⟩ := List.mem_map.1 ((hperm _).mem_iff.1 hy)
      exact h2 x' hx' y' hy'
    exact hp1.eq_of_pairwise (fun x y _ _ h1 h2 => le_antisymm h2 h1) (hsp _) hp2
  change s (k.map f) = (s (a.map f)).take k.length
  rw [hcat, List.take_left']
  rw [(hperm _).length_eq, List.length_map]

/-- Two best parts of the same size have the same fitnesses. -/
theorem BestOf.unique {f : α → F} {k k' a : List α} (h : BestOf f k a) (h' : BestOf f k' a)
    (hl : k.length = k'.length) : (k.map f).Perm (k'.map f) := by
  have h1 := bestOf_map_sorted h
  have h2 := bestOf_map_sorted h'
  rw [hl, ← h2] at h1
  have p := List.mergeSort_perm (k.map f) (fun x y => decide (y ≤ x))
  rw [h1] at p
  exact p.symm.trans (List.mergeSort_perm _ _)

theorem pickWorse_spec (f : α → F) (pop : List α) (t : Nat) (h : pop ≠ []) :
    ∃ i x, pickWorse f pop t = .ok (i, t) ∧ pop[i]? = some x ∧ ∀ y ∈ pop, f x ≤ f y := by
  obtain ⟨i, x, h1, h2, h3⟩ := worseElement_spec f pop h
  exact ⟨i, x, by simp [pickWorse, h1], h2, h3⟩

theorem eliminate_worse (f : α → F) : ∀ (k : Nat) (pop : List α) (t : Nat), k ≤ pop.length →
    ∃ rest el, eliminate (pickWorse f) k pop t = .ok (rest, el, t) ∧
      (rest ++ el).Perm pop ∧ el.length = k ∧ rest.Sublist pop ∧
      ∀ a ∈ rest, ∀ b ∈ el, f b ≤ f a := by
  intro k
  induction k with
  | zero => intro pop t _; exact ⟨pop, [], rfl, by simp, rfl, List.Sublist.refl _, by simp⟩
  | succ k ih =>
    intro pop t hk
    obtain ⟨i, x, h1, h2, h3⟩ := pickWorse_spec f pop t (by rintro rfl; simp at hk)
    obtain ⟨hi, hx⟩ := List.getElem?_eq_some_iff.1 h2
    obtain ⟨rest, el, he, hp, hl, hsub, hb⟩ := ih (pop.eraseIdx i) t (by
      rw [List.length_eraseIdx_of_lt hi]; omega)
    refine ⟨rest, x :: el, ?_, ?_, by simp [hl], hsub.trans (List.eraseIdx_sublist _ _), ?_⟩
    · rw [eliminate]; simp only [h1, h2, he]
    · exact List.perm_middle.trans ((List.Perm.cons x hp).trans (perm_cons_eraseIdx h2))
    · intro a ha b hb'
      rcases List.mem_cons.1 hb' with rfl | hb'
      · exact h3 a ((hsub.trans (List.eraseIdx_sublist _ _)).subset ha)
      · exact hb a ha b hb'

/-! ### Tournaments -/

theorem ltAt_eq (f : α → F) (pop : List α) (i j : Nat) (hi : i < pop.length)
    (hj : j < pop.length) : ltAt f pop i j = decide (f pop[i] < f pop[j]) := by
  simp [ltAt, List.getElem?_eq_getElem hi, List.getElem?_eq_getElem hj]

theorem detLoop_spec (f : α → F) (pop : List α) (r : Nat → Nat) (hpop : 0 < pop.length) :
    ∀ (k best t : Nat) (hb : best < pop.length),
    ∃ i, ∃ hi : i < pop.length, detLoop f pop r k best t = (i, t + k) ∧
      (i = best ∨ ∃ s, t ≤ s ∧ s < t + k ∧ i = r s % pop.length) ∧
      f pop[best] ≤ f pop[i] ∧
      ∀ s, t ≤ s → s < t + k →
        f (pop[r s % pop.length]'(Nat.mod_lt _ hpop)) ≤ f pop[i] := by
  intro k
  induction k with
  | zero =>
    intro best t hb
    exact ⟨best, hb, rfl, Or.inl rfl, le_rfl, fun s h1 h2 => by omega⟩
  | succ k ih =>
    intro best t hb
    have hc : r t % pop.length < pop.length := Nat.mod_lt _ hpop
    rw [detLoop]
    simp only [ltAt_eq f pop best _ hb hc, decide_eq_true_eq]
    by_cases h : f pop[best] < f pop[r t % pop.length]
    · simp only [h, if_true]
      obtain ⟨i, hi, h1, h2, h3, h4⟩ := ih (r t % pop.length) (t + 1) hc
      refine ⟨i, hi, by rw [h1]; congr 1; omega, ?_, h.le.trans h3, ?_⟩
      · rcases h2 with h2 | ⟨s, hs1, hs2, hs3⟩
        · exact Or.inr ⟨t, le_rfl, by omega, h2⟩
        · exact Or.inr ⟨s, by omega, by omega, hs3⟩
      · intro s hs1 hs2
        rcases Nat.eq_or_lt_of_le hs1 with rfl | hs1
        · exact h3
        · exact h4 s (by omega) (by omega)
    · simp only [h, if_false]
      obtain ⟨i, hi, h1, h2, h3, h4⟩ := ih best (t + 1) hb
      refine ⟨i, hi, by rw [h1]; congr 1; omega, ?_, h3, ?_⟩
      · rcases h2 with h2 | ⟨s, hs1, hs2, hs3⟩
        · exact Or.inl h2
        · exact Or.inr ⟨s, by omega, by omega, hs3⟩
      · intro s hs1 hs2
        rcases Nat.eq_or_lt_of_le hs1 with rfl | hs1
        · exact (not_lt.1 h).trans h3
        · exact h4 s (by omega) (by omega)

theorem invLoop_spec (f : α → F) (pop : List α) (r : Nat → Nat) (hpop : 0 < pop.length) :
    ∀ (fuel k worst t : Nat) (hb : worst < pop.length) (i t' : Nat),
    invLoop f pop r fuel k worst t = .ok (i, t') →
    ∃ hi : i < pop.length, t + k ≤ t' ∧
      (i = worst ∨ ∃ s, t ≤ s ∧ s < t' ∧ i = r s % pop.length) ∧
      f pop[i] ≤ f pop[worst] ∧
      (0 < k → i ≠ worst ∨ ∃ s, t ≤ s ∧ s < t' ∧ r s % pop.length ≠ i) ∧
      ∀ s, t ≤ s → s < t' →
        f pop[i] ≤ f (pop[r s % pop.length]'(Nat.mod_lt _ hpop)) := by
  intro fuel
  induction fuel with
  | zero =>
    intro k worst t hb i t' h
    cases k with
    | zero =>
      simp only [invLoop, Except.ok.injEq, Prod.mk.injEq] at h
      obtain ⟨rfl, rfl⟩ := h
      exact ⟨hb, by omega, Or.inl rfl, le_rfl, by omega, fun s h1 h2 => by omega⟩
    | succ k => simp [invLoop] at h
  | succ fuel ih =>
    intro k worst t hb i t' h
    cases k with
    | zero =>
      simp only [invLoop, Except.ok.injEq, Prod.mk.injEq] at h
      obtain ⟨rfl, rfl⟩ := h
      exact ⟨hb, by omega, Or.inl rfl, le_rfl, by omega, fun s h1 h2 => by omega⟩
    | succ k =>
      have hc : r t % pop.length < pop.length := Nat.mod_lt _ hpop
      simp only [invLoop, ltAt_eq f pop _ worst hc hb, decide_eq_true_eq] at h
      by_cases he : r t % pop.length = worst
      · rw [if_pos he] at h
        obtain ⟨hi, h1, h2, h3, h4, h5⟩ := ih _ _ _ hb _ _ h
        refine ⟨hi, by omega, ?_, h3, ?_, ?_⟩
        · rcases h2 with h2 | ⟨s, hs1, hs2, hs3⟩
          · exact Or.inl h2
          · exact Or.inr ⟨s, by omega, hs2, hs3⟩
        · intro hk
          rcases h4 hk with h4 | ⟨s, hs1, hs2, hs3⟩
          · exact Or.inl h4
          · exact Or.inr ⟨s, by omega, hs2, hs3⟩
        · intro s hs1 hs2
          rcases Nat.eq_or_lt_of_le hs1 with rfl | hs1
          · simpa only [he] using h3
          · exact h5 s (by omega) hs2
      · rw [if_neg he] at h
        by_cases hlt : f pop[r t % pop.length] < f pop[worst]
        · rw [if_pos hlt] at h
          obtain ⟨hi, h1, h2, h3, h4, h5⟩ := ih _ _ _ hc _ _ h
          refine ⟨hi, by omega, ?_, h3.trans hlt.le, ?_, ?_⟩
          · rcases h2 with h2 | ⟨s, hs1, hs2, hs3⟩
            · exact Or.inr ⟨t, le_rfl, by omega, h2⟩
            · exact Or.inr ⟨s, by omega, hs2, hs3⟩
          · intro _
            left
            rintro rfl
            exact absurd h3 (not_le.2 hlt)
          · intro s hs1 hs2
            rcases Nat.eq_or_lt_of_le hs1 with rfl | hs1
            · exact h3
            · exact h5 s (by omega) hs2
        · rw [if_neg hlt] at h
          obtain ⟨hi, h1, h2, h3, h4, h5⟩ := ih _ _ _ hb _ _ h
          refine ⟨hi, by omega, ?_, h3, ?_, ?_⟩
          · rcases h2 with h2 | ⟨s, hs1, hs2, hs3⟩
            · exact Or.inl h2
            · exact Or.inr ⟨s, by omega, hs2, hs3⟩
          · intro _
            by_cases hiw : i = worst
            · exact Or.inr ⟨t, le_rfl, by omega, by rw [hiw]; exact he⟩
            · exact Or.inl hiw
          · intro s hs1 hs2
            rcases Nat.eq_or_lt_of_le hs1 with rfl | hs1
            · exact h3.trans (not_lt.1 hlt)
            · exact h5 s (by omega) hs2

/-- More fuel does not change a result. -/
theorem invLoop_mono (f : α → F) (pop : List α) (r : Nat → Nat) :
    ∀ (fuel k worst t : Nat) (x : Nat × Nat), invLoop f pop r fuel k worst t = .ok x →
    ∀ fuel', fuel ≤ fuel' → invLoop f pop r fuel' k worst t = .ok x := by
  intro fuel
  induction fuel with
  | zero =>
    intro k worst t x h fuel' _
    cases k with
    | zero => cases fuel' <;> simpa [invLoop] using h
    | succ k => simp [invLoop] at h
  | succ fuel ih =>
    intro k worst t x h fuel' hf
    cases k with
    | zero => cases fuel' <;> simpa [invLoop] using h
    | succ k =>
      obtain ⟨fuel', rfl⟩ : ∃ m, fuel' = m + 1 := ⟨fuel' - 1, by omega⟩
      simp only [invLoop] at h ⊢
      split
      · next he => rw [if_pos he] at h; exact ih _ _ _ _ h _ (by omega)
      · next he => rw [if_neg he] at h; exact ih _ _ _ _ h _ (by omega)

/-- A stream which does not repeat one position for ever. -/
def Fair (r : Nat → Nat) : Prop := ∀ n, 2 ≤ n → ∀ w t, ∃ s, t ≤ s ∧ r s % n ≠ w

theorem invLoop_total (f : α → F) (pop : List α) (r : Nat → Nat) (hr : Fair r)
    (hpop : 2 ≤ pop.length) : ∀ (k worst t : Nat), worst < pop.length →
    ∃ fuel x, invLoop f pop r fuel k worst t = .ok x := by
  intro k
  induction k with
  | zero => intro worst t _; exact ⟨0, (worst, t), rfl⟩
  | succ k ih =>
    intro worst t hw
    obtain ⟨s, hs, hne⟩ := hr pop.length hpop worst t
    obtain ⟨d, rfl⟩ : ∃ d, s = t + d := ⟨s - t, by omega⟩
    clear hs
    induction d generalizing t with
    | zero =>
      have hne : r t % pop.length ≠ worst := hne
      obtain ⟨fuel, x, hx⟩ := ih (if ltAt f pop (r t % pop.length) worst then r t % pop.length
        else worst) (t + 1) (by
          split
          · exact Nat.mod_lt _ (by omega)
          · exact hw)
      exact ⟨fuel + 1, x, by simp only [invLoop, if_neg hne, hx]⟩
    | succ d ihd =>
      by_cases he : r t % pop.length = worst
      · obtain ⟨fuel, x, hx⟩ := ihd (t + 1) (by
          have : t + 1 + d = t + (d + 1) := by omega
          rw [this]; exact hne)
        exact ⟨fuel + 1, x, by simp only [invLoop, if_pos he, hx]⟩
      · obtain ⟨fuel, x, hx⟩ := ih (if ltAt f pop (r t % pop.length) worst then r t % pop.length
          else worst) (t + 1) (by
            split
            · exact Nat.mod_lt _ (by omega)
            · exact hw)
        exact ⟨fuel + 1, x, by simp only [invLoop, if_neg he, hx]⟩

theorem invLoop_error (f : α → F) (pop : List α) (r : Nat → Nat) :
    ∀ (fuel k worst t : Nat) (e : Err), invLoop f pop r fuel k worst t = .error e → e = .fuel := by
  intro fuel
  induction fuel with
  | zero =>
    intro k worst t e h
    cases k with
    | zero => simp [invLoop] at h
    | succ k => simp [invLoop] at h; exact h.symm
  | succ fuel ih =>
    intro k worst t e h
    cases k with
    | zero => simp [invLoop] at h
    | succ k =>
      simp only [invLoop] at h
      split at h
      · exact ih _ _ _ _ h
      · exact ih _ _ _ _ h

theorem invDet_lt (f : α → F) (tSize : Nat) (r : Nat → Nat) (fuel : Nat) (pop : List α)
    (t i t' : Nat) (hpop : 0 < pop.length)
    (h : invDetTournament f tSize r fuel pop t = .ok (i, t')) : i < pop.length := by
  rw [invDetTournament, if_neg (by omega)] at h
  obtain ⟨hi, _⟩ := invLoop_spec f pop r hpop _ _ _ _ (Nat.mod_lt _ hpop) _ _ h
  exact hi

/-- The only way the elimination by inverse tournaments fails on enough individuals is by
exhausting the draws. -/
theorem eliminate_error_fuel (f : α → F) (tSize : Nat) (r : Nat → Nat) (fuel : Nat) :
    ∀ (k : Nat) (pop : List α) (t : Nat), k ≤ pop.length → ∀ e,
    eliminate (invDetTournament f tSize r fuel) k pop t = .error e → e = .fuel := by
  intro k
  induction k with
  | zero => intro pop t _ e h; simp [eliminate] at h
  | succ k ih =>
    intro pop t hk e h
    have hpop : 0 < pop.length := by omega
    rw [eliminate] at h
    cases hp : invDetTournament f tSize r fuel pop t with
    | error e' =>
      simp only [hp, Except.error.injEq] at h
      rw [invDetTournament, if_neg (by omega)] at hp
      rw [← h]; exact invLoop_error _ _ _ _ _ _ _ _ hp
    | ok p =>
      obtain ⟨i, t1⟩ := p
      have hi := invDet_lt _ _ _ _ _ _ _ _ hpop hp
      simp only [hp, List.getElem?_eq_getElem hi] at h
      cases he : eliminate (invDetTournament f tSize r fuel) k (pop.eraseIdx i) t1 with
      | ok q => simp [he] at h
      | error e' =>
        simp only [he, Except.error.injEq] at h
        rw [← h]
        exact ih _ _ (by rw [List.length_eraseIdx_of_lt hi]; omega) _ he

theorem eliminate_det_mono (f : α → F) (tSize : Nat) (r : Nat → Nat) (fuel fuel' : Nat)
    (hf : fuel ≤ fuel') : ∀ (k : Nat) (pop : List α) (t : Nat) x,
    eliminate (invDetTournament f tSize r fuel) k pop t = .ok x →
    eliminate (invDetTournament f tSize r fuel') k pop t = .ok x := by
  intro k
  induction k with
  | zero => intro pop t x h; simpa [eliminate] using h
  | succ k ih =>
    intro pop t x h
    rw [eliminate] at h ⊢
    cases hp : invDetTournament f tSize r fuel pop t with
    | error e => simp [hp] at h
    | ok p =>
      have hp' : invDetTournament f tSize r fuel' pop t = .ok p := by
        rw [invDetTournament] at hp ⊢
        split at hp
        · cases hp
        · next h0 => rw [if_neg h0]; exact invLoop_mono _ _ _ _ _ _ _ _ hp _ hf
      obtain ⟨i, t1⟩ := p
      simp only [hp, hp'] at h ⊢
      cases hx : pop[i]? with
      | none => simp [hx] at h
      | some y =>
        simp only [hx] at h ⊢
        cases he : eliminate (invDetTournament f tSize r fuel) k (pop.eraseIdx i) t1 with
        | error e => simp [he] at h
        | ok q =>
          simp only [he, ih _ _ _ he] at h ⊢
          exact h

theorem eliminate_det_total (f : α → F) (tSize : Nat) (r : Nat → Nat) (hr : Fair r) :
    ∀ (k : Nat) (pop : List α) (t : Nat), k < pop.length →
    ∃ fuel rest el t', eliminate (invDetTournament f tSize r fuel) k pop t =
      .ok (rest, el, t') := by
  intro k
  induction k with
  | zero => intro pop t _; exact ⟨0, pop, [], t, rfl⟩
  | succ k ih =>
    intro pop t hk
    obtain ⟨fuel1, ⟨i, t1⟩, h1⟩ := invLoop_total f pop r hr (by omega) (tSize - 1)
      (r t % pop.length) (t + 1) (Nat.mod_lt _ (by omega))
    have h1' : ∀ fuel, fuel1 ≤ fuel → invDetTournament f tSize r fuel pop t = .ok (i, t1) := by
      intro fuel hf
      rw [invDetTournament, if_neg (by omega)]
      exact invLoop_mono _ _ _ _ _ _ _ _ h1 _ hf
    have hi := invDet_lt _ _ _ _ _ _ _ _ (by omega) (h1' fuel1 le_rfl)
    obtain ⟨fuel2, rest, el, t2, h2⟩ := ih (pop.eraseIdx i) t1 (by
      rw [List.length_eraseIdx_of_lt hi]; omega)
    refine ⟨max fuel1 fuel2, rest, pop[i] :: el, t2, ?_⟩
    rw [eliminate]
    simp only [h1' _ (le_max_left _ _), List.getElem?_eq_getElem hi,
      eliminate_det_mono f tSize r fuel2 _ (le_max_right _ _) _ _ _ _ h2]

end Paradiseo.EO
