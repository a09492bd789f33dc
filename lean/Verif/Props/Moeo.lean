import Verif.Lemmas.Moeo
import Mathlib.Data.Rat.Defs
import Mathlib.Data.Fin.VecNotation
import Mathlib.Data.Prod.Lex
import Mathlib.Algebra.Order.Field.Rat
import Mathlib.Tactic.NormNum
import Mathlib.Tactic.FieldSimp
import Mathlib.Tactic.Positivity
import Mathlib.Tactic.FinCases
import Mathlib.Algebra.Order.Archimedean.Basic
/-
Properties C31–C37 and C68–C70: dominance comparators and archives of MOEO.
-/
namespace Paradiseo.Moeo

/-! ## Specification of dominance, written without the comparators -/

/-- `a` is better than `b` on an objective that is minimised (`true`) or maximised (`false`). -/
def Better {F : Type} [LT F] : Bool → F → F → Prop
  | true, a, b => a < b
  | false, a, b => b < a
/-- `a` is not worse than `b`. -/
def NoWorse {F : Type} [LE F] : Bool → F → F → Prop
  | true, a, b => a ≤ b
  | false, a, b => b ≤ a
/-- `v` Pareto-dominates `u`: nowhere worse, somewhere better. -/
def Dominates {n : Nat} {F : Type} [LE F] [LT F] (d : Fin n → Bool) (v u : Fin n → F) : Prop :=
  (∀ i, NoWorse (d i) (v i) (u i)) ∧ ∃ i, Better (d i) (v i) (u i)

section Cmp
variable {n : Nat} {F : Type} [Field F] [LinearOrder F] [IsStrictOrderedRing F]

/-! ## C31 -/

/-- With any tolerance: the comparator looks only at the objectives which differ by more than the
tolerance; `v` must be better on all of them, and there must be one. -/
theorem C31_tolerance_spec (T : Traits n F) (u v : Fin n → F) :
    paretoCmp T u v = true ↔
      (∀ i, T.tol < |u i - v i| → Better (T.minimizing i) (v i) (u i)) ∧
        ∃ i, T.tol < |u i - v i| := by
  unfold paretoCmp
  rw [paretoLoop_iff]
  simp only [List.mem_finRange, true_implies, Bool.false_eq_true, false_or, true_and]
  refine and_congr ?_ Iff.rfl
  refine forall_congr' fun i => forall_congr' fun _ => ?_
  cases T.minimizing i <;> simp [Better]

/-- With tolerance zero the comparator is textbook Pareto dominance. -/
theorem C31_pareto_spec (T : Traits n F) (h0 : T.tol = 0) (u v : Fin n → F) :
    paretoCmp T u v = true ↔ Dominates T.minimizing v u := by
  rw [C31_tolerance_spec]
  have hne : ∀ i, T.tol < |u i - v i| ↔ u i ≠ v i := by
    intro i; rw [h0, abs_pos, sub_ne_zero]
  constructor
  · rintro ⟨h1, i, h2⟩
    refine ⟨fun i => ?_, i, h1 i h2⟩
    by_cases h : u i = v i
    · cases T.minimizing i <;> simp [NoWorse, h]
    · have := h1 i ((hne i).mpr h)
      cases hm : T.minimizing i <;> rw [hm] at this <;> exact le_of_lt this
  · rintro ⟨h1, i, h2⟩
    have hb : ∀ i, u i ≠ v i → Better (T.minimizing i) (v i) (u i) := by
      intro i h
      have := h1 i
      cases hm : T.minimizing i <;> rw [hm] at this
      · exact lt_of_le_of_ne this h
      · exact lt_of_le_of_ne this (Ne.symm h)
    refine ⟨fun i h => hb i ((hne i).mp h), i, (hne i).mpr ?_⟩
    cases hm : T.minimizing i <;> rw [hm] at h2
    · exact ne_of_lt h2
    · exact ne_of_gt h2

/-- Irreflexive and asymmetric whatever the (non-negative) tolerance. -/
theorem C31_asymmetric (T : Traits n F) (h0 : 0 ≤ T.tol) (u v : Fin n → F) :
    paretoCmp T u u = false ∧ (paretoCmp T u v = true → paretoCmp T v u = false) := by
  constructor
  · rw [← Bool.not_eq_true, C31_tolerance_spec]
    rintro ⟨_, i, h⟩
    simp at h; exact absurd h (not_lt.mpr h0)
  · rw [← Bool.not_eq_true, C31_tolerance_spec, C31_tolerance_spec]
    rintro ⟨h1, i, h2⟩ ⟨h3, _⟩
    have a := h1 i h2
    have b := h3 i (by rwa [abs_sub_comm])
    cases hm : T.minimizing i <;> rw [hm] at a b <;> exact absurd a (lt_asymm b)

/-- Transitive with tolerance zero. -/
theorem C31_transitive (T : Traits n F) (h0 : T.tol = 0) (u v w : Fin n → F)
    (h1 : paretoCmp T u v = true) (h2 : paretoCmp T v w = true) : paretoCmp T u w = true := by
  rw [C31_pareto_spec T h0] at *
  obtain ⟨a1, i, a2⟩ := h1
  obtain ⟨b1, _, _⟩ := h2
  refine ⟨fun i => ?_, i, ?_⟩
  · have a := a1 i; have b := b1 i
    cases hm : T.minimizing i <;> rw [hm] at a b
    · exact le_trans a b
    · exact le_trans b a
  · have b := b1 i
    cases hm : T.minimizing i <;> rw [hm] at a2 b
    · exact lt_of_lt_of_le a2 b
    · exact lt_of_le_of_lt b a2

/-- With any positive tolerance (the library's is `1e-10`) and at least two objectives, whatever the
directions, the comparator is not transitive. -/
theorem C31_tolerance_not_transitive (T : Traits (n + 2) F) (h0 : 0 < T.tol) :
    ∃ u v w, paretoCmp T u v = true ∧ paretoCmp T v w = true ∧ paretoCmp T u w = false := by
  -- signs turning minimisation into maximisation
  let s : Fin (n + 2) → F := fun i => if T.minimizing i then 1 else -1
  have hs : ∀ i, s i = 1 ∧ T.minimizing i = true ∨ s i = -1 ∧ T.minimizing i = false := by
    intro i; cases hm : T.minimizing i <;> simp [s, hm]
  let mk : F → F → Fin (n + 2) → F := fun a b i =>
    if i = 0 then s 0 * a else if i = 1 then s 1 * b else 0
  have h10 : (1 : Fin (n + 2)) ≠ 0 := by simp
  have m0 : ∀ a b, mk a b 0 = s 0 * a := by intro a b; simp [mk]
  have m1 : ∀ a b, mk a b 1 = s 1 * b := by intro a b; simp [mk]
  have m2 : ∀ a b i, i ≠ 0 → i ≠ 1 → mk a b i = 0 := by intro a b i h h'; simp [mk, h, h']
  have habs : ∀ i (a b : F), |s i * a - s i * b| = |a - b| := by
    intro i a b
    rcases hs i with ⟨h, _⟩ | ⟨h, _⟩ <;> rw [h]
    · simp
    · rw [show (-1 : F) * a - -1 * b = -(a - b) by ring, abs_neg]
  have hbet : ∀ i (a b : F), Better (T.minimizing i) (s i * a) (s i * b) ↔ a < b := by
    intro i a b
    rcases hs i with ⟨h, h'⟩ | ⟨h, h'⟩ <;> rw [h, h'] <;> simp [Better]
  have key : ∀ a a' b b' : F, paretoCmp T (mk a b) (mk a' b') = true ↔
      ((T.tol < |a - a'| → a' < a) ∧ (T.tol < |b - b'| → b' < b)) ∧
        (T.tol < |a - a'| ∨ T.tol < |b - b'|) := by
    intro a a' b b'
    rw [C31_tolerance_spec]
    constructor
    · rintro ⟨h1, i, h2⟩
      have e0 := h1 0; have e1 := h1 1
      rw [m0, m0, habs, hbet] at e0
      rw [m1, m1, habs, hbet] at e1
      refine ⟨⟨e0, e1⟩, ?_⟩
      by_cases hi : i = 0
      · subst hi; rw [m0, m0, habs] at h2; exact Or.inl h2
      · by_cases hi' : i = 1
        · subst hi'; rw [m1, m1, habs] at h2; exact Or.inr h2
        · rw [m2 _ _ i hi hi', m2 _ _ i hi hi'] at h2; simp at h2; exact absurd h2 (by linarith)
    · rintro ⟨⟨e0, e1⟩, h⟩
      refine ⟨fun i h2 => ?_, ?_⟩
      · by_cases hi : i = 0
        · subst hi; rw [m0, m0, habs] at h2; rw [m0, m0, hbet]; exact e0 h2
        · by_cases hi' : i = 1
          · subst hi'; rw [m1, m1, habs] at h2; rw [m1, m1, hbet]; exact e1 h2
          · rw [m2 _ _ i hi hi', m2 _ _ i hi hi'] at h2; simp at h2; exact absurd h2 (by linarith)
      · rcases h with h | h
        · exact ⟨0, by rw [m0, m0, habs]; exact h⟩
        · exact ⟨1, by rw [m1, m1, habs]; exact h⟩
  refine ⟨mk (4 * T.tol) 0, mk (2 * T.tol) T.tol, mk 0 (2 * T.tol), ?_, ?_, ?_⟩
  · rw [key]
    rw [show 4 * T.tol - 2 * T.tol = 2 * T.tol by ring, zero_sub, abs_neg,
      abs_of_pos h0, abs_of_pos (show 0 < 2 * T.tol by linarith)]
    exact ⟨⟨fun _ => by linarith, fun h => absurd h (lt_irrefl _)⟩, Or.inl (by linarith)⟩
  · rw [key]
    rw [sub_zero, show T.tol - 2 * T.tol = -T.tol by ring, abs_neg,
      abs_of_pos h0, abs_of_pos (show 0 < 2 * T.tol by linarith)]
    exact ⟨⟨fun _ => by linarith, fun h => absurd h (lt_irrefl _)⟩, Or.inl (by linarith)⟩
  · rw [← Bool.not_eq_true, key]
    rintro ⟨⟨_, h⟩, _⟩
    have := h (by rw [zero_sub, abs_neg, abs_of_pos (show 0 < 2 * T.tol by linarith)]; linarith)
    linarith

/-- Two objectives (minimise, maximise), tolerance 0: (3,1) is dominated by (2,2), (3,1) and (2,0)
are incomparable. -/
example :
    let T : Traits 2 ℚ := ⟨![true, false], 0⟩
    paretoCmp T ![3, 1] ![2, 2] = true ∧ paretoCmp T ![3, 1] ![2, 0] = false ∧
      paretoCmp T ![2, 0] ![3, 1] = false := by decide +kernel
/-- The library's tolerance satisfies the hypothesis of the negative theorem. -/
example : ∃ u v w, let T : Traits 2 ℚ := ⟨![true, true], 1 / 10 ^ 10⟩
    paretoCmp T u v = true ∧ paretoCmp T v w = true ∧ paretoCmp T u w = false := by
  exact C31_tolerance_not_transitive (n := 0) ⟨![true, true], 1 / 10 ^ 10⟩ (by norm_num)

/-! ## C32 -/

omit [IsStrictOrderedRing F] in
/-- Pareto dominance implies weak dominance (any tolerance). -/
theorem C32_pareto_weak (T : Traits n F) (u v : Fin n → F) (h : paretoCmp T u v = true) :
    weakCmp T u v = true := by
  unfold paretoCmp at h; unfold weakCmp
  rw [paretoLoop_iff] at h; rw [weakLoop_iff]
  exact fun i hi ht => ⟨fun hm => le_of_lt ((h.1 i hi ht).1 hm), fun hm => le_of_lt ((h.1 i hi ht).2 hm)⟩

/-- With tolerance zero weak dominance is "nowhere worse". -/
theorem C32_weak_spec (T : Traits n F) (h0 : T.tol = 0) (u v : Fin n → F) :
    weakCmp T u v = true ↔ ∀ i, NoWorse (T.minimizing i) (v i) (u i) := by
  unfold weakCmp
  rw [weakLoop_iff]
  simp only [List.mem_finRange, true_implies, h0, abs_pos, sub_ne_zero]
  refine forall_congr' fun i => ?_
  by_cases h : u i = v i
  · cases T.minimizing i <;> simp [NoWorse, h]
  · cases T.minimizing i <;> simp [NoWorse, h]

/-- Strict dominance implies Pareto dominance when the tolerance is positive and no difference is
exactly the tolerance. -/
theorem C32_strict_pareto (T : Traits (n + 1) F) (h0 : 0 < T.tol) (u v : Fin (n + 1) → F)
    (hne : ∀ i, |u i - v i| ≠ T.tol) (h : strictCmp T u v = true) : paretoCmp T u v = true := by
  unfold strictCmp at h
  rw [strictLoop_iff] at h
  rw [C31_tolerance_spec]
  have hlt : ∀ i, T.tol < |u i - v i| := fun i =>
    lt_of_le_of_ne (h i (List.mem_finRange i)).1 (Ne.symm (hne i))
  have hd : ∀ i, u i ≠ v i := by
    intro i he
    have := hlt i; rw [he] at this; simp at this; exact absurd this (by linarith)
  refine ⟨fun i _ => ?_, 0, hlt 0⟩
  have := (h i (List.mem_finRange i)).2
  cases hm : T.minimizing i
  · exact lt_of_le_of_ne (this.2 hm) (hd i)
  · exact lt_of_le_of_ne (this.1 hm) (Ne.symm (hd i))

/-- At a difference of exactly the tolerance the two comparators contradict each other: strictly
dominated but not dominated. -/
theorem C32_strict_boundary (T : Traits (n + 1) F) (h0 : 0 < T.tol) :
    ∃ u v, strictCmp T u v = true ∧ paretoCmp T u v = false := by
  refine ⟨fun i => if T.minimizing i then T.tol else 0, fun i => if T.minimizing i then 0 else T.tol,
    ?_, ?_⟩
  · unfold strictCmp; rw [strictLoop_iff]
    intro i _
    cases hm : T.minimizing i <;> simp [abs_of_pos h0, h0.le]
  · rw [← Bool.not_eq_true, C31_tolerance_spec]
    rintro ⟨_, i, h⟩
    cases hm : T.minimizing i <;> simp [hm, abs_of_pos h0] at h

/-- With tolerance zero the strict comparator is not strict: a vector strictly dominates itself. -/
theorem C32_strict_zero_tolerance (T : Traits n F) (h0 : T.tol = 0) (u : Fin n → F) :
    strictCmp T u u = true := by
  unfold strictCmp; rw [strictLoop_iff]; intro i _; simp [h0]

private theorem lexLoop_zero (T : Traits n F) (h0 : T.tol = 0) (u v : Fin n → F) (l : List (Fin n)) :
    lexLoop T u v l = true ↔ ∃ l₁ i l₂, l = l₁ ++ i :: l₂ ∧ (∀ j ∈ l₁, u j = v j) ∧ u i < v i := by
  induction l with
  | nil => simp [lexLoop]
  | cons i l ih =>
    unfold lexLoop
    rw [h0]
    by_cases h : u i = v i
    · rw [if_neg (by simp [h]), ih]
      constructor
      · rintro ⟨l₁, k, l₂, e, h1, h2⟩
        exact ⟨i :: l₁, k, l₂, by simp [e], by simpa [h] using h1, h2⟩
      · rintro ⟨l₁, k, l₂, e, h1, h2⟩
        cases l₁ with
        | nil => simp at e; rw [← e.1, h] at h2; exact absurd h2 (lt_irrefl _)
        | cons a l₁ =>
          simp at e
          exact ⟨l₁, k, l₂, e.2, fun j hj => h1 j (by simp [hj]), h2⟩
    · rw [if_pos (abs_pos.mpr (sub_ne_zero.mpr h))]
      constructor
      · intro hlt; exact ⟨[], i, l, rfl, by simp, by simpa using hlt⟩
      · rintro ⟨l₁, k, l₂, e, h1, h2⟩
        cases l₁ with
        | nil => simp at e; rw [e.1]; simpa using h2
        | cons a l₁ => simp at e; exact absurd (by rw [e.1]; exact h1 a (by simp)) h

/-- With tolerance zero `operator<` on objective vectors is the lexicographic order: smaller at the
first index where the vectors differ. -/
theorem C32_lex_spec (T : Traits n F) (h0 : T.tol = 0) (u v : Fin n → F) :
    lexCmp T u v = true ↔ ∃ i, (∀ j, j < i → u j = v j) ∧ u i < v i := by
  unfold lexCmp
  rw [lexLoop_zero T h0]
  have hsorted : (List.finRange n).Pairwise (· < ·) := List.pairwise_lt_finRange n
  constructor
  · rintro ⟨l₁, i, l₂, e, h1, h2⟩
    refine ⟨i, fun j hj => ?_, h2⟩
    rw [e] at hsorted
    have hj' : j ∈ l₁ ++ i :: l₂ := by rw [← e]; exact List.mem_finRange j
    rw [List.mem_append, List.mem_cons] at hj'
    rcases hj' with h | h | h
    · exact h1 j h
    · exact absurd hj (by simp [h])
    · have := (List.pairwise_cons.mp (List.pairwise_append.mp hsorted).2.1).1 j h
      exact absurd hj (not_lt.mpr this.le)
  · rintro ⟨i, h1, h2⟩
    obtain ⟨l₁, l₂, e⟩ := List.append_of_mem (List.mem_finRange i)
    refine ⟨l₁, i, l₂, e, fun j hj => h1 j ?_, h2⟩
    rw [e] at hsorted
    exact (List.pairwise_append.mp hsorted).2.2 j hj i (by simp)

/-- The lexicographic order is a strict total order (tolerance zero). -/
theorem C32_lex_total (T : Traits n F) (h0 : T.tol = 0) (u v w : Fin n → F) :
    lexCmp T u u = false ∧
    (lexCmp T u v = true → lexCmp T v w = true → lexCmp T u w = true) ∧
    (u ≠ v → lexCmp T u v = true ∨ lexCmp T v u = true) := by
  refine ⟨?_, ?_, ?_⟩
  · rw [← Bool.not_eq_true, C32_lex_spec T h0]; rintro ⟨i, _, h⟩; exact lt_irrefl _ h
  · rw [C32_lex_spec T h0, C32_lex_spec T h0, C32_lex_spec T h0]
    rintro ⟨i, a1, a2⟩ ⟨k, b1, b2⟩
    rcases lt_trichotomy i k with h | h | h
    · exact ⟨i, fun j hj => (a1 j hj).trans (b1 j (hj.trans h)), (b1 i h) ▸ a2⟩
    · subst h; exact ⟨i, fun j hj => (a1 j hj).trans (b1 j hj), a2.trans b2⟩
    · exact ⟨k, fun j hj => (a1 j (hj.trans h)).trans (b1 j hj), (a1 k h) ▸ b2⟩
  · intro hne
    rw [C32_lex_spec T h0, C32_lex_spec T h0]
    by_contra hc
    push Not at hc
    apply hne
    have : ∀ m, ∀ i : Fin n, i.val = m → u i = v i := by
      intro m
      induction m using Nat.strong_induction_on with
      | _ m ih =>
        intro i hi
        have hj : ∀ j, j < i → u j = v j := fun j hj => ih j.val (by rw [← hi]; exact hj) j rfl
        exact le_antisymm (hc.2 i fun j h => (hj j h).symm) (hc.1 i hj)
    funext i; exact this i.val i rfl

/-- For minimisation the lexicographic order refines Pareto dominance: a vector that dominates
another is sorted before it. -/
theorem C32_lex_compatible (T : Traits n F) (h0 : T.tol = 0) (hmin : ∀ i, T.minimizing i = true)
    (u v : Fin n → F) (h : paretoCmp T u v = true) : lexCmp T v u = true := by
  rw [C31_pareto_spec T h0] at h
  obtain ⟨h1, k, h2⟩ := h
  have hle : ∀ i, v i ≤ u i := fun i => by have := h1 i; rw [hmin] at this; exact this
  rcases (C32_lex_total T h0 v u u).2.2 (by
    rintro rfl; rw [hmin] at h2; exact lt_irrefl _ h2) with h | h
  · exact h
  · rw [C32_lex_spec T h0] at h
    obtain ⟨i, _, h⟩ := h
    exact absurd (hle i) (not_le.mpr h)

/-- A strict weak order (what `std::sort` and `std::min_element` require). -/
def StrictWeakOrder {α : Type} (lt : α → α → Bool) : Prop :=
  (∀ a, lt a a = false) ∧ (∀ a b c, lt a b = true → lt b c = true → lt a c = true) ∧
  (∀ a b c, lt a b = false → lt b a = false → lt b c = false → lt c b = false →
    lt a c = false ∧ lt c a = false)

omit [IsStrictOrderedRing F] in
/-- The comparators of individuals are strict weak orders. -/
theorem C32_individual_comparators (wf wd : F) :
    StrictWeakOrder (ftdCmp (F := F)) ∧ StrictWeakOrder (dtfCmp (F := F)) ∧
    StrictWeakOrder (aggCmp (F := F) wf wd) := by
  have swo_of : ∀ (α : Type) (lt : α → α → Bool) (L : Type) (_ : LinearOrder L) (f : α → L),
      (∀ a b, lt a b = true ↔ f a < f b) → StrictWeakOrder lt := by
    intro α lt L _ f hf
    have hf' : ∀ a b, lt a b = false ↔ f b ≤ f a := by
      intro a b; rw [← Bool.not_eq_true, hf, not_lt]
    refine ⟨fun a => by rw [hf'], fun a b c => ?_, fun a b c => ?_⟩
    · rw [hf, hf, hf]; exact lt_trans
    · rw [hf', hf', hf', hf', hf', hf']
      intro h1 h2 h3 h4; exact ⟨h3.trans h1, h2.trans h4⟩
  refine ⟨swo_of _ _ (F ×ₗ F) inferInstance (fun p => toLex p) ?_,
    swo_of _ _ (F ×ₗ F) inferInstance (fun p => toLex (p.2, p.1)) ?_,
    swo_of _ _ F inferInstance (fun p => wf * p.1 + wd * p.2) (by simp [aggCmp])⟩
  · intro a b
    rw [Prod.Lex.toLex_lt_toLex]
    unfold ftdCmp
    by_cases h : a.1 = b.1 <;> simp [h]
  · intro a b
    rw [Prod.Lex.toLex_lt_toLex]
    unfold dtfCmp
    by_cases h : a.2 = b.2 <;> simp [h]

example : let T : Traits 2 ℚ := ⟨![true, true], 1 / 10 ^ 10⟩
    strictCmp T ![3, 3] ![1, 2] = true ∧ paretoCmp T ![3, 3] ![1, 2] = true ∧
    strictCmp T ![3, 2] ![1, 2] = false ∧ paretoCmp T ![3, 2] ![1, 2] = true := by decide +kernel
example : lexCmp (⟨![true, true], 0⟩ : Traits 2 ℚ) ![1, 5] ![1, 7] = true ∧
    lexCmp (⟨![true, true], 0⟩ : Traits 2 ℚ) ![1, 5] ![0, 7] = false := by decide +kernel

/-! ## C69: g-dominance -/

/-- The flag of the specification: the point is on one side of the reference point. -/
def OneSide (ref v : Fin n → F) : Prop := (∀ i, v i ≤ ref i) ∨ (∀ i, ref i ≤ v i)

omit [Field F] [IsStrictOrderedRing F] in
private theorem foldl_zero (p : Fin n → Prop) [DecidablePred p] (l : List (Fin n)) (r : Nat)
    (hr : r = 0 ∨ r = 1) :
    l.foldl (fun r i => if p i then 0 else r) r = if r = 1 ∧ ∀ i ∈ l, ¬ p i then 1 else 0 := by
  induction l generalizing r with
  | nil => rcases hr with rfl | rfl <;> simp
  | cons i l ih =>
    rw [List.foldl_cons]
    by_cases h : p i
    · rw [if_pos h, ih 0 (Or.inl rfl)]; simp [h]
    · rw [if_neg h, ih r hr]; simp [h]

omit [Field F] [IsStrictOrderedRing F] in
private theorem gFlag_eq (ref v : Fin n → F) [Decidable (OneSide ref v)] :
    gFlag ref v = if OneSide ref v then 1 else 0 := by
  unfold gFlag
  simp only
  rw [foldl_zero (fun i => v i > ref i) _ 1 (Or.inr rfl), foldl_zero (fun i => v i < ref i) _ 1 (Or.inr rfl)]
  simp only [List.mem_finRange, true_implies, not_lt, true_and, gt_iff_lt]
  unfold OneSide
  by_cases h1 : ∀ i, v i ≤ ref i
  · simp [h1]
  · by_cases h2 : ∀ i, ref i ≤ v i
    · simp [h1, h2]
    · simp [h1, h2]

open Classical in
/-- What the comparator answers: a point on one side of the reference point beats every point which
is not, two points on one side are compared by Pareto dominance, and nothing is ever dominated by a
point which is not on one side — even if that point Pareto-dominates it. -/
theorem C69_gdominance_spec (T : Traits n F) (ref u v : Fin n → F) :
    gCmp T ref u v = true ↔
      OneSide ref v ∧ (¬ OneSide ref u ∨ paretoCmp T u v = true) := by
  unfold gCmp
  simp only [gFlag_eq]
  by_cases h1 : OneSide ref v <;> by_cases h2 : OneSide ref u <;> simp [h1, h2]

/-- g-dominance is a strict partial order (tolerance zero). -/
theorem C69_gdominance_order (T : Traits n F) (h0 : T.tol = 0) (ref u v w : Fin n → F) :
    gCmp T ref u u = false ∧
    (gCmp T ref u v = true → gCmp T ref v w = true → gCmp T ref u w = true) := by
  constructor
  · rw [← Bool.not_eq_true, C69_gdominance_spec]
    rintro ⟨h, h' | h'⟩
    · exact h' h
    · rw [(C31_asymmetric T h0.ge u u).1] at h'; exact Bool.false_ne_true h'
  · rw [C69_gdominance_spec, C69_gdominance_spec, C69_gdominance_spec]
    rintro ⟨a1, a2⟩ ⟨b1, b2⟩
    refine ⟨b1, ?_⟩
    rcases a2 with a | a
    · exact Or.inl a
    · rcases b2 with b | b
      · exact absurd a1 b
      · exact Or.inr (C31_transitive T h0 u v w a b)

/-- Deviation from the published relation (Molina et al. 2009), where two points with the same flag
are compared by Pareto dominance: two points not on one side are never comparable in the code. -/
theorem C69_no_dominance_between (T : Traits 2 ℚ) (hT : T = ⟨![true, true], 0⟩) :
    ∃ ref u v, ¬ OneSide ref u ∧ ¬ OneSide ref v ∧ paretoCmp T u v = true ∧
      gCmp T ref u v = false := by
  subst hT
  refine ⟨![0, 0], ![2, -1], ![1, -2], ?_, ?_, by decide +kernel, by decide +kernel⟩
  · rintro (h | h)
    · have := h 0; norm_num at this
    · have := h 1; norm_num at this
  · rintro (h | h)
    · have := h 0; norm_num at this
    · have := h 1; norm_num at this

/-! ## C70: dual (feasible / infeasible) objective vectors -/

/-- Every feasible vector dominates every infeasible one, and the relation is a strict partial order
(tolerance zero) which is Pareto dominance inside each class. -/
theorem C70_dual_order (T : Traits n F) (h0 : T.tol = 0) (u v w : Dual n F) :
    (u.feasible = false → v.feasible = true → dualCmp T u v = true ∧ dualCmp T v u = false) ∧
    (u.feasible = v.feasible → (dualCmp T u v = true ↔ Dominates T.minimizing v.val u.val)) ∧
    dualCmp T u u = false ∧
    (dualCmp T u v = true → dualCmp T v w = true → dualCmp T u w = true) := by
  refine ⟨?_, ?_, ?_, ?_⟩
  · intro h1 h2; simp [dualCmp, h1, h2]
  · intro h
    rw [← C31_pareto_spec T h0]
    unfold dualCmp; rw [h]; simp
  · unfold dualCmp; simp [(C31_asymmetric T h0.ge u.val u.val).1]
  · unfold dualCmp
    have tr := C31_transitive T h0 u.val v.val w.val
    cases u.feasible <;> cases v.feasible <;> cases w.feasible <;> simp_all

example : dualCmp (⟨![true, true], 0⟩ : Traits 2 ℚ) ⟨false, ![0, 0]⟩ ⟨true, ![9, 9]⟩ = true := by
  decide +kernel

end Cmp
end Paradiseo.Moeo
