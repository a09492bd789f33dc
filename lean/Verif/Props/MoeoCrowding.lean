import Verif.Model.MoeoCrowding
import Mathlib.Algebra.BigOperators.Group.Finset.Basic
import Mathlib.Algebra.BigOperators.Intervals
import Mathlib.Data.List.Perm.Basic
import Mathlib.Data.List.Sort
import Mathlib.Tactic
/-
Property C46: crowding distances.
-/
namespace Paradiseo.Moeo
variable {F : Type} [Field F] [LinearOrder F] [IsStrictOrderedRing F]

/-! ## Specification -/

/-- Smallest or largest of `S`. -/
def Extreme (S : List Nat) (v : Nat → F) (x : Nat) : Prop :=
  (∀ y ∈ S, v x ≤ v y) ∨ (∀ y ∈ S, v y ≤ v x)

/-- `c` is the normalised gap between the neighbours of `x` in `S`: largest value below, smallest above,
over the span of the values. -/
def Gap (S : List Nat) (v : Nat → F) (x : Nat) (c : F) : Prop :=
  ∃ p ∈ S, ∃ n ∈ S, ∃ lo ∈ S, ∃ hi ∈ S,
    (v p < v x ∧ ∀ y ∈ S, v y < v x → v y ≤ v p) ∧
    (v x < v n ∧ ∀ y ∈ S, v x < v y → v n ≤ v y) ∧
    (∀ y ∈ S, v lo ≤ v y ∧ v y ≤ v hi) ∧ c = (v n - v p) / (v hi - v lo)

/-- Crowding distance of `x` in `S`. -/
def Crowding (nObj : Nat) (obj : Nat → Nat → F) (S : List Nat) (x : Nat) (r : WithTop F) : Prop :=
  ((S.length ≤ 2 ∨ ∃ o < nObj, Extreme S (obj o) x) → r = ⊤) ∧
  (¬ (S.length ≤ 2 ∨ ∃ o < nObj, Extreme S (obj o) x) →
    ∃ c : Nat → F, (∀ o < nObj, Gap S (obj o) x (c o)) ∧ r = ((∑ o ∈ Finset.range nObj, c o : F) : WithTop F))

/-- The values of an objective are pairwise distinct on `S`. -/
def DistinctOn (S : List Nat) (v : Nat → F) : Prop := ∀ x ∈ S, ∀ y ∈ S, v x = v y → x = y

/-- A sorting function. -/
def Sorts (sort : List Nat → List Nat) (v : Nat → F) : Prop :=
  ∀ l, (sort l).Perm l ∧ (sort l).Pairwise fun a b => v a ≤ v b

/-! ## Lemmas -/

omit [IsStrictOrderedRing F] in
theorem crowdInner_not_mem (dist : Nat → Nat → F) (s : List Nat) (d : Nat → WithTop F) (x : Nat)
    (h : x ∉ s.tail.dropLast) : crowdInner dist s d x = d x := by
  induction s, d using crowdInner.induct dist with
  | case1 a b c l d ih =>
    rw [crowdInner]
    have h1 : x ≠ b ∧ x ∉ (c :: l).dropLast := by
      simp only [List.tail_cons, List.dropLast_cons₂, List.mem_cons, not_or] at h; exact h
    rw [ih (by simpa using h1.2), Function.update_of_ne h1.1]
  | case2 d s hs =>
    unfold crowdInner
    split
    · exact absurd rfl (hs _ _ _ _)
    · rfl

omit [IsStrictOrderedRing F] in
theorem crowdInner_mem (dist : Nat → Nat → F) (l1 : List Nat) (a x c : Nat) (l2 : List Nat)
    (d : Nat → WithTop F) (hnd : (l1 ++ a :: x :: c :: l2).Nodup) :
    crowdInner dist (l1 ++ a :: x :: c :: l2) d x = d x + ((dist a c : F) : WithTop F) := by
  induction l1 generalizing d with
  | nil =>
    rw [List.nil_append, crowdInner, crowdInner_not_mem, Function.update_self]
    simp only [List.nil_append, List.nodup_cons] at hnd
    intro h
    exact hnd.2.1 (List.dropLast_subset _ h)
  | cons h l1 ih =>
    have hnd' := (List.nodup_cons.1 hnd).2
    obtain ⟨b, t, u, e⟩ : ∃ b t u, l1 ++ a :: x :: c :: l2 = b :: t :: u ∧ b ≠ x := by
      cases l1 with
      | nil =>
        refine ⟨a, x, c :: l2, rfl, ?_⟩
        rintro rfl
        simp at hnd'
      | cons b l1 =>
        have hb : b ≠ x := by
          rintro rfl
          simp at hnd'
        cases l1 with
        | nil => exact ⟨b, a, x :: c :: l2, rfl, hb⟩
        | cons t l1 => exact ⟨b, t, l1 ++ a :: x :: c :: l2, rfl, hb⟩
    have := ih (Function.update d b (d b + ((dist h t : F) : WithTop F))) hnd'
    rw [List.cons_append, e.1, crowdInner]
    rw [e.1] at this
    rw [this, Function.update_of_ne e.2.symm]

theorem mem_three (s : List Nat) (x : Nat) (hx : x ∈ s) :
    (∃ l, s = x :: l) ∨ (∃ l, s = l ++ [x]) ∨ ∃ l1 a c l2, s = l1 ++ a :: x :: c :: l2 := by
  obtain ⟨l1, l2, rfl⟩ := List.append_of_mem hx
  rcases List.eq_nil_or_concat l1 with rfl | ⟨l1, a, rfl⟩
  · exact Or.inl ⟨l2, rfl⟩
  · cases l2 with
    | nil => exact Or.inr (Or.inl ⟨_, rfl⟩)
    | cons c l2 => exact Or.inr (Or.inr ⟨l1, a, c, l2, by simp⟩)

omit [IsStrictOrderedRing F] in
theorem crowdEnds_apply (s : List Nat) (d : Nat → WithTop F) (x : Nat) :
    ((∃ l, s = x :: l) ∨ (∃ l, s = l ++ [x]) → crowdEnds s d x = ⊤) ∧
    (¬ ((∃ l, s = x :: l) ∨ (∃ l, s = l ++ [x])) → crowdEnds s d x = d x) := by
  unfold crowdEnds
  cases s with
  | nil => simp
  | cons a l =>
    have hlast : (∃ l', a :: l = l' ++ [x]) ↔ x = (a :: l).getLast (by simp) := by
      constructor
      · rintro ⟨l', h⟩; simp only [h]; simp
      · intro h; exact ⟨(a :: l).dropLast, by rw [h]; exact (List.dropLast_append_getLast (by simp)).symm⟩
    have hhead : (∃ l', a :: l = x :: l') ↔ x = a := by
      constructor
      · rintro ⟨l', h⟩; exact (List.cons.inj h).1.symm
      · rintro rfl; exact ⟨l, rfl⟩
    rw [hlast, hhead]
    simp only
    constructor
    · rintro (h | h)
      · rw [Function.update_apply]
        split
        · rfl
        · rw [h, Function.update_self]
      · rw [← h, Function.update_self]
    · intro h
      rw [not_or] at h
      rw [Function.update_of_ne h.2, Function.update_of_ne h.1]

/-- Shared analysis of one objective: `s` sorted, the ends infinite and the others increased by
`dist` of their neighbours. -/
theorem inner_ends (dist : Nat → Nat → F) (v : Nat → F) (s : List Nat) (d : Nat → WithTop F) (x : Nat)
    (hnd : s.Nodup) (hs : s.Pairwise fun a b => v a ≤ v b) :
    (x ∉ s → crowdInner dist s (crowdEnds s d) x = d x) ∧
    (x ∈ s → DistinctOn s v →
      (Extreme s v x → crowdInner dist s (crowdEnds s d) x = ⊤) ∧
      (¬ Extreme s v x → ∃ a c, a ∈ s ∧ c ∈ s ∧ (v a < v x ∧ ∀ y ∈ s, v y < v x → v y ≤ v a) ∧
        (v x < v c ∧ ∀ y ∈ s, v x < v y → v c ≤ v y) ∧
        crowdInner dist s (crowdEnds s d) x = d x + ((dist a c : F) : WithTop F))) := by
  constructor
  · intro hx
    rw [crowdInner_not_mem _ _ _ _ (fun h => hx (List.tail_subset _ (List.dropLast_subset _ h))),
      (crowdEnds_apply s d x).2]
    rintro (⟨l, rfl⟩ | ⟨l, rfl⟩) <;> simp at hx
  · intro hx hdist
    -- ends
    have hends : (∃ l, s = x :: l) ∨ (∃ l, s = l ++ [x]) → crowdInner dist s (crowdEnds s d) x = ⊤ := by
      intro h
      rw [crowdInner_not_mem, (crowdEnds_apply s d x).1 h]
      rcases h with ⟨l, rfl⟩ | ⟨l, rfl⟩
      · intro h; exact (List.nodup_cons.1 hnd).1 (List.dropLast_subset _ h)
      · intro h
        cases l with
        | nil => simp at h
        | cons b l =>
          rw [List.cons_append, List.tail_cons, List.dropLast_concat] at h
          rw [List.nodup_append] at hnd
          exact hnd.2.2 x (by simp [h]) x (by simp) rfl
    have hne_iff : Extreme s v x → (∃ l, s = x :: l) ∨ (∃ l, s = l ++ [x]) := by
      intro hex
      by_contra hnot
      rw [not_or] at hnot
      rcases mem_three s x hx with h | h | ⟨l1, a, c, l2, rfl⟩
      · exact hnot.1 h
      · exact hnot.2 h
      · rw [List.pairwise_append] at hs
        have hax : v a ≤ v x := by have := List.pairwise_cons.1 hs.2.1; exact this.1 x (by simp)
        have hxc : v x ≤ v c := by
          have := List.pairwise_cons.1 (List.pairwise_cons.1 hs.2.1).2; exact this.1 c (by simp)
        have hne1 : a ≠ x := by
          rintro rfl; rw [List.nodup_append] at hnd; simp at hnd
        have hne2 : x ≠ c := by
          rintro rfl; rw [List.nodup_append] at hnd; simp at hnd
        rcases hex with h | h
        · exact hne1 (hdist a (by simp) x (by simp) (le_antisymm hax (h a (by simp))))
        · exact hne2 (hdist x (by simp) c (by simp) (le_antisymm hxc (h c (by simp))))
    refine ⟨fun h => hends (hne_iff h), ?_⟩
    intro hex
    rcases mem_three s x hx with ⟨l, rfl⟩ | ⟨l, rfl⟩ | ⟨l1, a, c, l2, rfl⟩
    · refine absurd (Or.inl ?_) hex
      intro y hy
      rcases List.mem_cons.1 hy with rfl | hy
      · exact le_rfl
      · exact (List.pairwise_cons.1 hs).1 y hy
    · refine absurd (Or.inr ?_) hex
      intro y hy
      rw [List.pairwise_append] at hs
      rcases List.mem_append.1 hy with hy | hy
      · exact hs.2.2 y hy x (by simp)
      · rw [List.mem_singleton.1 hy]
    · have hs' := hs
      rw [List.pairwise_append] at hs
      have ha := List.pairwise_cons.1 hs.2.1
      have hxx := List.pairwise_cons.1 ha.2
      have hc := List.pairwise_cons.1 hxx.2
      have hne1 : a ≠ x := by
        rintro rfl; rw [List.nodup_append] at hnd; simp at hnd
      have hne2 : x ≠ c := by
        rintro rfl; rw [List.nodup_append] at hnd; simp at hnd
      have hax : v a < v x := lt_of_le_of_ne (ha.1 x (by simp))
        (fun h => hne1 (hdist a (by simp) x (by simp) h))
      have hxc : v x < v c := lt_of_le_of_ne (hxx.1 c (by simp))
        (fun h => hne2 (hdist x (by simp) c (by simp) h))
      refine ⟨a, c, by simp, by simp, ⟨hax, ?_⟩, ⟨hxc, ?_⟩, ?_⟩
      · intro y hy hyx
        rcases List.mem_append.1 hy with hy | hy
        · exact hs.2.2 y hy a (by simp)
        · rcases List.mem_cons.1 hy with rfl | hy
          · exact le_rfl
          · rcases List.mem_cons.1 hy with rfl | hy
            · exact absurd hyx (lt_irrefl _)
            · exact absurd (hxx.1 y hy) (not_le.2 hyx)
      · intro y hy hxy
        rcases List.mem_append.1 hy with hy | hy
        · exact absurd (hs.2.2 y hy x (by simp)) (not_le.2 hxy)
        · rcases List.mem_cons.1 hy with rfl | hy
          · exact absurd hax (not_lt.2 hxy.le)
          · rcases List.mem_cons.1 hy with rfl | hy
            · exact absurd hxy (lt_irrefl _)
            · rcases List.mem_cons.1 hy with rfl | hy
              · exact le_rfl
              · exact hc.1 y hy
      · rw [crowdInner_mem _ _ _ _ _ _ _ hnd, (crowdEnds_apply _ d x).2]
        rintro (⟨l, h⟩ | ⟨l, h⟩)
        · refine hex (Or.inl ?_)
          rw [h] at hs' ⊢
          intro y hy
          rcases List.mem_cons.1 hy with rfl | hy
          · exact le_rfl
          · exact (List.pairwise_cons.1 hs').1 y hy
        · refine hex (Or.inr ?_)
          rw [h] at hs' ⊢
          intro y hy
          rw [List.pairwise_append] at hs'
          rcases List.mem_append.1 hy with hy | hy
          · exact hs'.2.2 y hy x (by simp)
          · rw [List.mem_singleton.1 hy]

omit [IsStrictOrderedRing F] in
/-- First and last of a sorted list are its extremes. -/
theorem sorted_bounds (v : Nat → F) (a : Nat) (l : List Nat) (hs : (a :: l).Pairwise fun a b => v a ≤ v b) :
    ∀ y ∈ a :: l, v a ≤ v y ∧ v y ≤ v ((a :: l).getLast (by simp)) := by
  intro y hy
  constructor
  · rcases List.mem_cons.1 hy with rfl | hy
    · exact le_rfl
    · exact (List.pairwise_cons.1 hs).1 y hy
  · have e := List.dropLast_append_getLast (l := a :: l) (by simp)
    generalize (a :: l).getLast (by simp) = z at e
    rw [← e] at hs hy
    rw [List.pairwise_append] at hs
    rcases List.mem_append.1 hy with hy | hy
    · exact hs.2.2 y hy z (by simp)
    · rw [List.mem_singleton.1 hy]

/-- One objective of a front. -/
theorem frontObj_spec (tiny : F) (v : Nat → F) (s : List Nat) (d : Nat → WithTop F) (x : Nat)
    (hnd : s.Nodup) (hs : s.Pairwise fun a b => v a ≤ v b) :
    (x ∉ s → crowdFrontObj tiny v s d x = d x) ∧
    (x ∈ s → DistinctOn s v →
      (Extreme s v x → crowdFrontObj tiny v s d x = ⊤) ∧
      (¬ Extreme s v x → ∃ c, Gap s v x c ∧ crowdFrontObj tiny v s d x = d x + ((c : F) : WithTop F))) := by
  unfold crowdFrontObj
  cases s with
  | nil => simp
  | cons a l =>
    simp only
    obtain ⟨h1, h2⟩ := inner_ends (fun p n => (v p - v n) /
      ((if v ((a :: l).getLast (by simp)) = v a then v a + tiny else v a) -
       (if v ((a :: l).getLast (by simp)) = v a then v ((a :: l).getLast (by simp)) - tiny
        else v ((a :: l).getLast (by simp))))) v (a :: l) d x hnd hs
    refine ⟨h1, ?_⟩
    intro hx hdist
    obtain ⟨h3, h4⟩ := h2 hx hdist
    refine ⟨h3, ?_⟩
    intro hex
    obtain ⟨p, n, hp, hn, hpx, hxn, e⟩ := h4 hex
    refine ⟨(v n - v p) / (v ((a :: l).getLast (by simp)) - v a), ?_, ?_⟩
    · exact ⟨p, hp, n, hn, a, by simp, _, List.getLast_mem (by simp), hpx, hxn,
        sorted_bounds v a l hs, rfl⟩
    · rw [e]
      have hb1 := (sorted_bounds v a l hs p hp).1
      have hb2 := (sorted_bounds v a l hs n hn).2
      have hlt : v a < v ((a :: l).getLast (by simp)) :=
        lt_of_le_of_lt hb1 (lt_of_lt_of_le (hpx.1.trans hxn.1) hb2)
      rw [if_neg hlt.ne', if_neg hlt.ne']
      congr 2
      rw [← neg_sub (v n), ← neg_sub _ (v a), neg_div_neg_eq]

omit [IsStrictOrderedRing F] in
theorem extreme_perm {s S : List Nat} (h : ∀ y, y ∈ s ↔ y ∈ S) (v : Nat → F) (x : Nat) :
    Extreme s v x ↔ Extreme S v x := by simp [Extreme, h]

omit [IsStrictOrderedRing F] in
theorem gap_perm {s S : List Nat} (h : ∀ y, y ∈ s ↔ y ∈ S) (v : Nat → F) (x : Nat) (c : F) :
    Gap s v x c ↔ Gap S v x c := by simp [Gap, h]

omit [IsStrictOrderedRing F] in
theorem gap_unique {S : List Nat} {v : Nat → F} {x : Nat} {c c' : F} (h : Gap S v x c) (h' : Gap S v x c') :
    c = c' := by
  obtain ⟨p, hp, n, hn, lo, hlo, hi, hhi, ⟨a1, a2⟩, ⟨a3, a4⟩, a5, rfl⟩ := h
  obtain ⟨p', hp', n', hn', lo', hlo', hi', hhi', ⟨b1, b2⟩, ⟨b3, b4⟩, b5, rfl⟩ := h'
  rw [le_antisymm (a4 n' hn' b3) (b4 n hn a3), le_antisymm (b2 p hp a1) (a2 p' hp' b1),
    le_antisymm (b5 hi hhi).2 (a5 hi' hhi').2, le_antisymm (a5 lo' hlo').1 (b5 lo hlo).1]

/-- All the objectives of a list `os`. -/
theorem frontLoop_spec (tiny : F) (obj : Nat → Nat → F) (sortO : Nat → List Nat → List Nat)
    (hsort : ∀ o, Sorts (sortO o) (obj o)) (S os s : List Nat) (d : Nat → WithTop F) (x : Nat)
    (hp : s.Perm S) (hnd : S.Nodup) :
    (x ∉ S → crowdFrontLoop tiny obj sortO os s d x = d x) ∧
    (x ∈ S → (∀ o ∈ os, DistinctOn S (obj o)) →
      ((d x = ⊤ ∨ ∃ o ∈ os, Extreme S (obj o) x) → crowdFrontLoop tiny obj sortO os s d x = ⊤) ∧
      ((∀ o ∈ os, ¬ Extreme S (obj o) x) → ∃ c : Nat → F, (∀ o ∈ os, Gap S (obj o) x (c o)) ∧
        crowdFrontLoop tiny obj sortO os s d x = d x + (((os.map c).sum : F) : WithTop F))) := by
  induction os generalizing s d with
  | nil => simp [crowdFrontLoop]
  | cons o os ih =>
    have hp' : (sortO o s).Perm S := ((hsort o s).1).trans hp
    have hmem : ∀ y, y ∈ sortO o s ↔ y ∈ S := fun y => hp'.mem_iff
    obtain ⟨f1, f2⟩ := frontObj_spec tiny (obj o) (sortO o s) d x (hp'.nodup_iff.2 hnd) (hsort o s).2
    obtain ⟨i1, i2⟩ := ih (sortO o s) (crowdFrontObj tiny (obj o) (sortO o s) d) hp'
    unfold crowdFrontLoop
    constructor
    · intro hx
      rw [i1 hx, f1 (by rwa [hmem])]
    · intro hx hdist
      obtain ⟨i3, i4⟩ := i2 hx (fun o' ho' => hdist o' (by simp [ho']))
      obtain ⟨f3, f4⟩ := f2 ((hmem x).2 hx) (by
        intro a ha b hb; exact hdist o (by simp) a ((hmem a).1 ha) b ((hmem b).1 hb))
      rw [extreme_perm hmem] at f3 f4
      constructor
      · rintro (h | ⟨o', ho', h⟩)
        · by_cases hex : Extreme S (obj o) x
          · exact i3 (Or.inl (f3 hex))
          · obtain ⟨c, _, e⟩ := f4 hex
            refine i3 (Or.inl ?_)
            rw [e, h, top_add]
        · rcases List.mem_cons.1 ho' with rfl | ho'
          · exact i3 (Or.inl (f3 h))
          · exact i3 (Or.inr ⟨o', ho', h⟩)
      · intro hne
        obtain ⟨c0, g0, e0⟩ := f4 (hne o (by simp))
        rw [gap_perm hmem] at g0
        by_cases hos : o ∈ os
        · -- the same objective again: the gap is unique, so the same function serves
          obtain ⟨c, g, e⟩ := i4 (fun o' ho' => hne o' (by simp [ho']))
          have hu : c o = c0 := by
            exact gap_unique (g o hos) g0
          refine ⟨c, ?_, ?_⟩
          · intro o' ho'
            rcases List.mem_cons.1 ho' with rfl | ho'
            · exact g o' hos
            · exact g o' ho'
          · rw [e, e0, List.map_cons, List.sum_cons, hu, add_assoc, WithTop.coe_add]
        · obtain ⟨c, g, e⟩ := i4 (fun o' ho' => hne o' (by simp [ho']))
          refine ⟨Function.update c o c0, ?_, ?_⟩
          · intro o' ho'
            by_cases hoo : o' = o
            · rw [hoo, Function.update_self]; exact g0
            · have ho'' : o' ∈ os := by
                rcases List.mem_cons.1 ho' with h | h
                · exact absurd h hoo
                · exact h
              rw [Function.update_of_ne hoo]; exact g o' ho''
          · have : os.map (Function.update c o c0) = os.map c := by
              apply List.map_congr_left
              intro o' ho'
              exact Function.update_of_ne (by rintro rfl; exact hos ho') _ _
            rw [e, e0, List.map_cons, List.sum_cons, this, Function.update_self, add_assoc, WithTop.coe_add]

omit [Field F] [IsStrictOrderedRing F] [LinearOrder F] in
theorem foldl_update_apply (l : List Nat) (c : WithTop F) (d : Nat → WithTop F) (x : Nat) :
    (x ∈ l → l.foldl (fun d x => Function.update d x c) d x = c) ∧
    (x ∉ l → l.foldl (fun d x => Function.update d x c) d x = d x) := by
  induction l generalizing d with
  | nil => simp
  | cons a l ih =>
    rw [List.foldl_cons]
    obtain ⟨h1, h2⟩ := ih (Function.update d a c)
    constructor
    · intro hx
      by_cases hl : x ∈ l
      · exact h1 hl
      · rw [h2 hl]
        rcases List.mem_cons.1 hx with rfl | hx
        · rw [Function.update_self]
        · exact absurd hx hl
    · intro hx
      rw [List.mem_cons, not_or] at hx
      rw [h2 hx.2, Function.update_of_ne hx.1]

omit [LinearOrder F] [IsStrictOrderedRing F] in
theorem list_range_sum (c : Nat → F) (n : Nat) : ((List.range n).map c).sum = ∑ o ∈ Finset.range n, c o := by
  induction n with
  | zero => simp
  | succ n ih => rw [List.range_succ, List.map_append, List.sum_append, ih, Finset.sum_range_succ]; simp

theorem front_spec (tiny : F) (obj : Nat → Nat → F) (sortO : Nat → List Nat → List Nat)
    (hsort : ∀ o, Sorts (sortO o) (obj o)) (nObj : Nat) (S : List Nat) (hnd : S.Nodup)
    (d : Nat → WithTop F) (x : Nat) :
    (x ∉ S → crowdFront tiny obj sortO nObj S d x = d x) ∧
    (x ∈ S → d x = 0 → (∀ o < nObj, DistinctOn S (obj o)) →
      Crowding nObj obj S x (crowdFront tiny obj sortO nObj S d x)) := by
  unfold crowdFront
  by_cases hl : S.length ≤ 2
  · rw [if_pos hl]
    refine ⟨fun hx => (foldl_update_apply S ⊤ d x).2 hx, fun hx _ _ => ⟨fun _ => ?_, fun h => ?_⟩⟩
    · exact (foldl_update_apply S ⊤ d x).1 hx
    · exact absurd (Or.inl hl) h
  · rw [if_neg hl]
    obtain ⟨h1, h2⟩ := frontLoop_spec tiny obj sortO hsort S (List.range nObj) S d x (List.Perm.refl _) hnd
    refine ⟨h1, fun hx hd hdist => ?_⟩
    obtain ⟨h3, h4⟩ := h2 hx (fun o ho => hdist o (List.mem_range.1 ho))
    constructor
    · rintro (h | ⟨o, ho, h⟩)
      · exact absurd h hl
      · exact h3 (Or.inr ⟨o, List.mem_range.2 ho, h⟩)
    · intro hne
      rw [not_or] at hne
      obtain ⟨c, g, e⟩ := h4 (fun o ho h => hne.2 ⟨o, List.mem_range.1 ho, h⟩)
      refine ⟨c, fun o ho => g o (List.mem_range.2 ho), ?_⟩
      rw [e, hd, zero_add, list_range_sum]

omit [IsStrictOrderedRing F] in
/-- On a population sorted by fitness the run is the set of all with that fitness. -/
theorem splitRun_spec (fit : Nat → F) (a : Nat) (l : List Nat)
    (hs : (a :: l).Pairwise fun x y => fit x ≤ fit y) :
    (splitRun fit (a :: l)).1 = (a :: l).filter (fun y => decide (fit y = fit a)) ∧
    (splitRun fit (a :: l)).2 = (a :: l).filter (fun y => !decide (fit y = fit a)) := by
  induction l generalizing a with
  | nil => simp [splitRun]
  | cons b l ih =>
    have hs' := List.pairwise_cons.1 hs
    rw [splitRun]
    by_cases h : fit a = fit b
    · rw [if_pos h]
      obtain ⟨h1, h2⟩ := ih b hs'.2
      simp only
      rw [h1, h2, ← h]
      constructor
      · rw [List.filter_cons_of_pos (a := a) (by simp)]
      · rw [List.filter_cons_of_neg (a := a) (by simp)]
    · rw [if_neg h]
      have hlt : ∀ y ∈ b :: l, ¬ fit y = fit a := by
        intro y hy
        have hab : fit a < fit b := lt_of_le_of_ne (hs'.1 b (by simp)) h
        have : fit b ≤ fit y := by
          rcases List.mem_cons.1 hy with rfl | hy
          · exact le_rfl
          · exact (List.pairwise_cons.1 hs'.2).1 y hy
        exact (lt_of_lt_of_le hab this).ne'
      constructor
      · rw [List.filter_cons_of_pos (a := a) (by simp), List.filter_eq_nil_iff.2]
        intro y hy; simpa using hlt y hy
      · rw [List.filter_cons_of_neg (a := a) (by simp), List.filter_eq_self.2]
        intro y hy; simpa using hlt y hy

omit [IsStrictOrderedRing F] in
theorem crowding_perm {nObj : Nat} {obj : Nat → Nat → F} {S S' : List Nat} (h : S.Perm S') (x : Nat)
    (r : WithTop F) : Crowding nObj obj S x r ↔ Crowding nObj obj S' x r := by
  have hm : ∀ y, y ∈ S ↔ y ∈ S' := fun y => h.mem_iff
  simp only [Crowding, h.length_eq, extreme_perm hm, gap_perm hm]

theorem fronts_spec (tiny : F) (fit : Nat → F) (obj : Nat → Nat → F) (sortO : Nat → List Nat → List Nat)
    (hsort : ∀ o, Sorts (sortO o) (obj o)) (nObj : Nat) (l : List Nat) (hnd : l.Nodup)
    (hs : l.Pairwise fun x y => fit x ≤ fit y) (d : Nat → WithTop F) (x : Nat) :
    (x ∉ l → crowdFronts tiny fit obj sortO nObj l d x = d x) ∧
    (x ∈ l → d x = 0 → (∀ o < nObj, DistinctOn (l.filter fun y => decide (fit y = fit x)) (obj o)) →
      Crowding nObj obj (l.filter fun y => decide (fit y = fit x)) x
        (crowdFronts tiny fit obj sortO nObj l d x)) := by
  induction l, d using crowdFronts.induct (F := F) tiny fit obj sortO nObj with
  | case1 d => simp [crowdFronts]
  | case2 d a l ih =>
    rw [crowdFronts]
    obtain ⟨e1, e2⟩ := splitRun_spec fit a l hs
    have hsub2 : (splitRun fit (a :: l)).2.Sublist (a :: l) := by rw [e2]; exact List.filter_sublist
    have hsub1 : (splitRun fit (a :: l)).1.Sublist (a :: l) := by rw [e1]; exact List.filter_sublist
    obtain ⟨i1, i2⟩ := ih (hsub2.nodup hnd) (hs.sublist hsub2)
    obtain ⟨f1, f2⟩ := front_spec tiny obj sortO hsort nObj (splitRun fit (a :: l)).1 (hsub1.nodup hnd) d x
    constructor
    · intro hx
      rw [i1 (fun h => hx (hsub2.subset h)), f1 (fun h => hx (hsub1.subset h))]
    · intro hx hd hdist
      by_cases hfx : fit x = fit a
      · have hx1 : x ∈ (splitRun fit (a :: l)).1 := by
          rw [e1, List.mem_filter]; exact ⟨hx, by simp [hfx]⟩
        have hx2 : x ∉ (splitRun fit (a :: l)).2 := by
          rw [e2, List.mem_filter]; simp [hfx]
        rw [i1 hx2]
        rw [hfx, ← e1] at hdist ⊢
        exact f2 hx1 hd hdist
      · have hx1 : x ∉ (splitRun fit (a :: l)).1 := by
          rw [e1, List.mem_filter]; simp [hfx]
        have hx2 : x ∈ (splitRun fit (a :: l)).2 := by
          rw [e2, List.mem_filter]; exact ⟨hx, by simp [hfx]⟩
        have hfil : (splitRun fit (a :: l)).2.filter (fun y => decide (fit y = fit x)) =
            (a :: l).filter fun y => decide (fit y = fit x) := by
          rw [e2, List.filter_filter]
          apply List.filter_congr
          intro y _
          by_cases hy : fit y = fit x
          · simp [hy, hfx]
          · simp [hy]
        rw [← hfil] at hdist ⊢
        exact i2 hx2 (by rw [f1 hx1, hd]) hdist

/-! ## C46 -/

/-- Front-by-front crowding: each individual gets the crowding distance within the individuals of its
fitness, whatever the sorting algorithm, if the values of each objective are distinct in each front. -/
theorem C46_front_by_front (tiny : F) (fit : Nat → F) (obj : Nat → Nat → F) (sortF : List Nat → List Nat)
    (sortO : Nat → List Nat → List Nat) (hF : Sorts sortF fit) (hO : ∀ o, Sorts (sortO o) (obj o))
    (nObj : Nat) (pop : List Nat) (hnd : pop.Nodup) (d : Nat → WithTop F)
    (hdist : ∀ x ∈ pop, ∀ o < nObj, DistinctOn (pop.filter fun y => decide (fit y = fit x)) (obj o)) :
    ∀ x ∈ pop, Crowding nObj obj (pop.filter fun y => decide (fit y = fit x)) x
      (crowdFBF tiny fit obj sortF sortO nObj pop d x) := by
  intro x hx
  unfold crowdFBF
  by_cases hl : pop.length ≤ 2
  · rw [if_pos hl]
    refine ⟨fun _ => (foldl_update_apply pop ⊤ d x).1 hx, fun h => absurd (Or.inl ?_) h⟩
    exact (List.length_filter_le _ _).trans hl
  · rw [if_neg hl]
    obtain ⟨hp, hs⟩ := hF pop
    have hfp : ((sortF pop).filter fun y => decide (fit y = fit x)).Perm
        (pop.filter fun y => decide (fit y = fit x)) := hp.filter _
    have := (fronts_spec tiny fit obj sortO hO nObj (sortF pop) (hp.nodup_iff.2 hnd) hs
      (pop.foldl (fun d x => Function.update d x 0) d) x).2 (hp.mem_iff.2 hx)
      ((foldl_update_apply pop 0 d x).1 hx)
      (fun o ho a ha b hb => hdist x hx o ho a (hfp.mem_iff.1 ha) b (hfp.mem_iff.1 hb))
    rwa [crowding_perm hfp] at this

/-- Hence it does not depend on the order of the population, nor on the sorting algorithm. -/
theorem C46_order_independent (tiny tiny' : F) (fit : Nat → F) (obj : Nat → Nat → F)
    (sortF sortF' : List Nat → List Nat) (sortO sortO' : Nat → List Nat → List Nat)
    (hF : Sorts sortF fit) (hF' : Sorts sortF' fit) (hO : ∀ o, Sorts (sortO o) (obj o))
    (hO' : ∀ o, Sorts (sortO' o) (obj o)) (nObj : Nat) (pop pop' : List Nat) (hp : pop.Perm pop')
    (hnd : pop.Nodup) (d d' : Nat → WithTop F)
    (hdist : ∀ x ∈ pop, ∀ o < nObj, DistinctOn (pop.filter fun y => decide (fit y = fit x)) (obj o)) :
    ∀ x ∈ pop, crowdFBF tiny fit obj sortF sortO nObj pop d x =
      crowdFBF tiny' fit obj sortF' sortO' nObj pop' d' x := by
  intro x hx
  have h1 := C46_front_by_front tiny fit obj sortF sortO hF hO nObj pop hnd d hdist x hx
  have hf : ∀ x, (pop'.filter fun y => decide (fit y = fit x)).Perm
      (pop.filter fun y => decide (fit y = fit x)) := fun x => (hp.symm).filter _
  have h2 := C46_front_by_front tiny' fit obj sortF' sortO' hF' hO' nObj pop' (hp.nodup_iff.1 hnd) d'
    (fun x hx o ho a ha b hb => hdist x (hp.mem_iff.2 hx) o ho a ((hf x).mem_iff.1 ha) b
      ((hf x).mem_iff.1 hb)) x (hp.mem_iff.1 hx)
  rw [crowding_perm (hf x)] at h2
  by_cases hc : (pop.filter fun y => decide (fit y = fit x)).length ≤ 2 ∨
      ∃ o < nObj, Extreme (pop.filter fun y => decide (fit y = fit x)) (obj o) x
  · rw [h1.1 hc, h2.1 hc]
  · obtain ⟨c, g, e⟩ := h1.2 hc
    obtain ⟨c', g', e'⟩ := h2.2 hc
    rw [e, e', Finset.sum_congr rfl fun o ho =>
      gap_unique (g o (Finset.mem_range.1 ho)) (g' o (Finset.mem_range.1 ho))]

/-- Three individuals with distinct values meet the hypotheses; a sorting function exists. -/
example : (∀ v : Nat → ℚ, Sorts (fun l => l.mergeSort (fun a b => decide (v a ≤ v b))) v) ∧
    DistinctOn [0, 1, 2] (fun i => (i : ℚ)) := by
  constructor
  · intro v l
    refine ⟨List.mergeSort_perm _ _, ?_⟩
    have := List.pairwise_mergeSort (le := fun a b => decide (v a ≤ v b))
      (fun a b c h1 h2 => by simp at *; exact h1.trans h2) (fun a b => by simp; exact le_total _ _) l
    simpa using this
  · intro x _ y _ h; simp only at h; exact_mod_cast h

/-- Plain crowding (whole population as one front): same formula. -/
theorem C46_plain (obj : Nat → Nat → F) (sortO : Nat → List Nat → List Nat)
    (hO : ∀ o, Sorts (sortO o) (obj o)) (nObj : Nat) (pop : List Nat) (hnd : pop.Nodup)
    (d : Nat → WithTop F) (hdist : ∀ o < nObj, DistinctOn pop (obj o)) :
    ∃ d', crowdPlain obj sortO nObj pop d = some d' ∧ ∀ x ∈ pop, Crowding nObj obj pop x (d' x) := by
  unfold crowdPlain
  by_cases hl : pop.length ≤ 2
  · rw [if_pos hl]
    exact ⟨_, rfl, fun x hx => ⟨fun _ => (foldl_update_apply pop ⊤ d x).1 hx, fun h => absurd (Or.inl hl) h⟩⟩
  · rw [if_neg hl]
    -- each objective agrees with the front-by-front version on the single front
    have key : ∀ (os s : List Nat) (d : Nat → WithTop F), s.Perm pop → (∀ o ∈ os, o < nObj) →
        crowdPlainLoop obj sortO os s d = some (crowdFrontLoop 0 obj sortO os s d) := by
      intro os
      induction os with
      | nil => intros; rfl
      | cons o os ih =>
        intro s d hp hos
        have hp' : (sortO o s).Perm pop := ((hO o s).1).trans hp
        unfold crowdPlainLoop crowdFrontLoop
        have : crowdObj (obj o) (sortO o s) d = some (crowdFrontObj 0 (obj o) (sortO o s) d) := by
          have hsorted := (hO o s).2
          have hlen : (sortO o s).length = pop.length := hp'.length_eq
          have hnd' := hp'.nodup_iff.2 hnd
          have hmem : ∀ y, y ∈ sortO o s ↔ y ∈ pop := fun y => hp'.mem_iff
          generalize sortO o s = s' at hsorted hlen hnd' hmem
          unfold crowdObj crowdFrontObj
          cases s' with
          | nil => rfl
          | cons a l =>
            have hb := sorted_bounds (obj o) a l hsorted
            have hne : obj o ((a :: l).getLast (by simp)) ≠ obj o a := by
              intro h
              cases l with
              | nil => simp at hlen; omega
              | cons b l =>
                have := hdist o (hos o (by simp)) a ((hmem a).1 (by simp)) b ((hmem b).1 (by simp))
                  (le_antisymm (hb b (by simp)).1 (((hb b (by simp)).2).trans h.le))
                subst this; simp at hnd'
            simp only
            rw [if_neg (sub_ne_zero.2 hne), if_neg hne, if_neg hne]
            congr 2
            funext p n
            rw [← neg_sub (obj o n), ← neg_sub _ (obj o a), neg_div_neg_eq]
        simp only [this]
        exact ih (sortO o s) _ hp' (fun o' ho' => hos o' (by simp [ho']))
    refine ⟨_, key _ _ _ (List.Perm.refl _) (fun o ho => List.mem_range.1 ho), ?_⟩
    intro x hx
    have := (front_spec 0 obj sortO hO nObj pop hnd (pop.foldl (fun d x => Function.update d x 0) d) x).2 hx
      ((foldl_update_apply pop 0 d x).1 hx) hdist
    unfold crowdFront at this
    rwa [if_neg hl] at this

/-- One objective of a front with any values. -/
theorem frontObj_ties (tiny : F) (v : Nat → F) (s : List Nat) (d : Nat → WithTop F) (x : Nat)
    (hnd : s.Nodup) (hs : s.Pairwise fun a b => v a ≤ v b) (hx : x ∈ s) :
    (((∃ l, s = x :: l) ∨ (∃ l, s = l ++ [x])) → crowdFrontObj tiny v s d x = ⊤ ∧ Extreme s v x) ∧
    (¬ ((∃ l, s = x :: l) ∨ (∃ l, s = l ++ [x])) → ∃ c, 0 ≤ c ∧
      crowdFrontObj tiny v s d x = d x + ((c : F) : WithTop F)) := by
  unfold crowdFrontObj
  cases s with
  | nil => simp at hx
  | cons a l =>
    have hb := sorted_bounds v a l hs
    simp only
    constructor
    · intro h
      constructor
      · rw [crowdInner_not_mem, (crowdEnds_apply _ d x).1 h]
        rcases h with ⟨l', h⟩ | ⟨l', h⟩
        · rw [h] at hnd ⊢
          intro h; exact (List.nodup_cons.1 hnd).1 (List.dropLast_subset _ h)
        · rw [h] at hnd ⊢
          intro h
          cases l' with
          | nil => simp at h
          | cons b l' =>
            rw [List.cons_append, List.tail_cons, List.dropLast_concat] at h
            rw [List.nodup_append] at hnd
            exact hnd.2.2 x (by simp [h]) x (by simp) rfl
      · rcases h with ⟨l', h⟩ | ⟨l', h⟩
        · rw [← (List.cons.inj h).1]; exact Or.inl fun y hy => (hb y hy).1
        · refine Or.inr fun y hy => ?_
          have e : (a :: l).getLast (by simp) = x := by simp only [h]; simp
          have := (hb y hy).2
          rwa [e] at this
    · intro h
      rcases mem_three _ x hx with h' | h' | ⟨l1, p, c, l2, e⟩
      · exact absurd (Or.inl h') h
      · exact absurd (Or.inr h') h
      · have hint : ∀ (dist : Nat → Nat → F) (d' : Nat → WithTop F),
            crowdInner dist (a :: l) d' x = d' x + ((dist p c : F) : WithTop F) := by
          intro dist d'
          rw [e]; exact crowdInner_mem _ _ _ _ _ _ _ (e ▸ hnd)
        refine ⟨_, ?_, Eq.trans (hint _ _) (by rw [(crowdEnds_apply (a :: l) d x).2 h])⟩
        · have hpc : v p ≤ v c := by
            rw [e, List.pairwise_append] at hs
            exact (List.pairwise_cons.1 hs.2.1).1 c (by simp)
          have hp : p ∈ a :: l := by rw [e]; simp
          have hc : c ∈ a :: l := by rw [e]; simp
          by_cases heq : v ((a :: l).getLast (by simp)) = v a
          · have : v p = v c := le_antisymm hpc (((hb c hc).2).trans (heq.le.trans (hb p hp).1))
            rw [this, sub_self, zero_div]
          · rw [if_neg heq, if_neg heq]
            refine div_nonneg_of_nonpos (sub_nonpos.2 hpc) (sub_nonpos.2 ?_)
            exact (hb _ (List.getLast_mem (by simp))).1

/-- With ties, for any sorting algorithm, in a front of three or more: no distance is negative, infinite
distances are given to extreme individuals only, and for each objective some individual of smallest value
and some of largest value get an infinite distance. -/
theorem C46_ties (tiny : F) (obj : Nat → Nat → F) (sortO : Nat → List Nat → List Nat)
    (hO : ∀ o, Sorts (sortO o) (obj o)) (nObj : Nat) (S : List Nat) (hnd : S.Nodup) (h3 : 2 < S.length)
    (d : Nat → WithTop F) (hd : ∀ x ∈ S, d x = 0) :
    (∀ x ∈ S, 0 ≤ crowdFront tiny obj sortO nObj S d x ∧
      (crowdFront tiny obj sortO nObj S d x = ⊤ → ∃ o < nObj, Extreme S (obj o) x)) ∧
    (∀ o < nObj, ∃ x ∈ S, (∀ y ∈ S, obj o x ≤ obj o y) ∧ crowdFront tiny obj sortO nObj S d x = ⊤) ∧
    (∀ o < nObj, ∃ x ∈ S, (∀ y ∈ S, obj o y ≤ obj o x) ∧ crowdFront tiny obj sortO nObj S d x = ⊤) := by
  unfold crowdFront
  rw [if_neg (by omega)]
  have key : ∀ (os s : List Nat) (d : Nat → WithTop F), s.Perm S → (∀ x ∈ S, 0 ≤ d x) →
      (∀ x ∈ S, 0 ≤ crowdFrontLoop tiny obj sortO os s d x ∧
        (crowdFrontLoop tiny obj sortO os s d x = ⊤ → d x = ⊤ ∨ ∃ o ∈ os, Extreme S (obj o) x)) ∧
      (∀ x ∈ S, d x = ⊤ → crowdFrontLoop tiny obj sortO os s d x = ⊤) ∧
      (∀ o ∈ os, ∃ x ∈ S, (∀ y ∈ S, obj o x ≤ obj o y) ∧ crowdFrontLoop tiny obj sortO os s d x = ⊤) ∧
      (∀ o ∈ os, ∃ x ∈ S, (∀ y ∈ S, obj o y ≤ obj o x) ∧ crowdFrontLoop tiny obj sortO os s d x = ⊤) := by
    intro os
    induction os with
    | nil =>
      intro s d _ h0
      exact ⟨fun x hx => ⟨h0 x hx, fun h => Or.inl h⟩, fun x _ h => h, by simp, by simp⟩
    | cons o os ih =>
      intro s d hp h0
      have hp' : (sortO o s).Perm S := ((hO o s).1).trans hp
      have hmem : ∀ y, y ∈ sortO o s ↔ y ∈ S := fun y => hp'.mem_iff
      have ht := fun x hx => frontObj_ties tiny (obj o) (sortO o s) d x (hp'.nodup_iff.2 hnd) (hO o s).2
        ((hmem x).2 hx)
      have hstep : ∀ x ∈ S, 0 ≤ crowdFrontObj tiny (obj o) (sortO o s) d x ∧
          (d x = ⊤ → crowdFrontObj tiny (obj o) (sortO o s) d x = ⊤) ∧
          (crowdFrontObj tiny (obj o) (sortO o s) d x = ⊤ → d x = ⊤ ∨ Extreme S (obj o) x) := by
        intro x hx
        by_cases h : (∃ l, sortO o s = x :: l) ∨ (∃ l, sortO o s = l ++ [x])
        · obtain ⟨e, hex⟩ := (ht x hx).1 h
          rw [e]
          exact ⟨le_top, fun _ => rfl, fun _ => Or.inr ((extreme_perm hmem _ _).1 hex)⟩
        · obtain ⟨c, hc, e⟩ := (ht x hx).2 h
          rw [e]
          refine ⟨add_nonneg (h0 x hx) (by exact_mod_cast hc), fun h => by rw [h, top_add], ?_⟩
          intro h
          rcases WithTop.add_eq_top.1 h with h | h
          · exact Or.inl h
          · exact absurd h WithTop.coe_ne_top
      obtain ⟨i1, i2, i3, i4⟩ := ih (sortO o s) (crowdFrontObj tiny (obj o) (sortO o s) d) hp'
        (fun x hx => (hstep x hx).1)
      unfold crowdFrontLoop
      refine ⟨?_, ?_, ?_, ?_⟩
      · intro x hx
        refine ⟨(i1 x hx).1, fun h => ?_⟩
        rcases (i1 x hx).2 h with h | ⟨o', ho', h⟩
        · rcases (hstep x hx).2.2 h with h | h
          · exact Or.inl h
          · exact Or.inr ⟨o, by simp, h⟩
        · exact Or.inr ⟨o', by simp [ho'], h⟩
      · intro x hx h
        exact i2 x hx ((hstep x hx).2.1 h)
      · intro o' ho'
        rcases List.mem_cons.1 ho' with rfl | ho'
        · have hlen : 2 < (sortO o' s).length := by rw [hp'.length_eq]; omega
          obtain ⟨a, l, e⟩ : ∃ a l, sortO o' s = a :: l := by
            cases h : sortO o' s with
            | nil => rw [h] at hlen; simp at hlen
            | cons a l => exact ⟨a, l, rfl⟩
          have ha : a ∈ S := (hmem a).1 (by rw [e]; simp)
          refine ⟨a, ha, ?_, i2 a ha ((ht a ha).1 (Or.inl ⟨l, e⟩)).1⟩
          intro y hy
          have hs := (hO o' s).2
          rw [e] at hs
          exact (sorted_bounds (obj o') a l hs y (by rw [← e]; exact (hmem y).2 hy)).1
        · exact i3 o' ho'
      · intro o' ho'
        rcases List.mem_cons.1 ho' with rfl | ho'
        · have hlen : 2 < (sortO o' s).length := by rw [hp'.length_eq]; omega
          rcases List.eq_nil_or_concat (sortO o' s) with h | ⟨l, a, e⟩
          · rw [h] at hlen; simp at hlen
          · rw [List.concat_eq_append] at e
            have ha : a ∈ S := (hmem a).1 (by rw [e]; simp)
            refine ⟨a, ha, ?_, i2 a ha ((ht a ha).1 (Or.inr ⟨l, e⟩)).1⟩
            intro y hy
            have hs := (hO o' s).2
            rw [e, List.pairwise_append] at hs
            have hy' := (hmem y).2 hy
            rw [e] at hy'
            rcases List.mem_append.1 hy' with h | h
            · exact hs.2.2 y h a (by simp)
            · rw [List.mem_singleton.1 h]
        · exact i4 o' ho'
  obtain ⟨k1, _, k3, k4⟩ := key (List.range nObj) S d (List.Perm.refl _) (fun x hx => (hd x hx).ge)
  refine ⟨?_, fun o ho => k3 o (List.mem_range.2 ho), fun o ho => k4 o (List.mem_range.2 ho)⟩
  intro x hx
  refine ⟨(k1 x hx).1, fun h => ?_⟩
  rcases (k1 x hx).2 h with h | ⟨o, ho, h⟩
  · rw [hd x hx] at h; exact absurd h (by simp)
  · exact ⟨o, List.mem_range.1 ho, h⟩

/-- Plain crowding divides by zero as soon as all the individuals (three or more) agree on the first
objective. -/
theorem C46_plain_constant (obj : Nat → Nat → F) (sortO : Nat → List Nat → List Nat)
    (hO : ∀ o, Sorts (sortO o) (obj o)) (nObj : Nat) (hn : 0 < nObj) (pop : List Nat) (h3 : 2 < pop.length)
    (hc : ∀ x ∈ pop, ∀ y ∈ pop, obj 0 x = obj 0 y) (d : Nat → WithTop F) :
    crowdPlain obj sortO nObj pop d = none := by
  unfold crowdPlain
  rw [if_neg (by omega)]
  obtain ⟨m, rfl⟩ : ∃ m, nObj = m + 1 := ⟨nObj - 1, by omega⟩
  rw [List.range_succ_eq_map]
  unfold crowdPlainLoop
  have hp := (hO 0 pop).1
  have : crowdObj (obj 0) (sortO 0 pop) (pop.foldl (fun d x => Function.update d x 0) d) = none := by
    have hmem : ∀ y, y ∈ sortO 0 pop → y ∈ pop := fun y hy => hp.mem_iff.1 hy
    have hlen := hp.length_eq
    unfold crowdObj
    generalize sortO 0 pop = s' at hmem hlen
    cases s' with
    | nil => simp at hlen; omega
    | cons a l =>
      simp only
      rw [if_pos (sub_eq_zero.2 (hc _ (hmem _ (List.getLast_mem _)) _ (hmem _ (by simp))))]
  simp only [this]; rfl

end Paradiseo.Moeo
