/-
Properties C81 (epsilon comparator) and C82 (archive queries).
-/
import Verif.Props.Moeo

namespace Paradiseo.Moeo

section Eps
variable {n : Nat} {F : Type} [Field F] [LinearOrder F] [IsStrictOrderedRing F]

omit [IsStrictOrderedRing F] in
theorem epsLoop_iff (T : Traits n F) (eps : F) (u v : Fin n → F) (l : List (Fin n)) :
    epsLoop T eps u v l = true ↔
      ∀ i ∈ l, T.tol < |u i / eps - v i| → (T.minimizing i = true → v i < u i / eps) ∧
        (T.minimizing i = false → u i / eps < v i) := by
  induction l with
  | nil => simp [epsLoop]
  | cons i l ih =>
    unfold epsLoop
    by_cases h : |u i / eps - v i| > T.tol
    · rw [if_pos h]
      cases hm : T.minimizing i
      · simp only [Bool.false_eq_true, if_false]
        by_cases h2 : u i / eps ≥ v i
        · rw [if_pos h2]; simp [h, hm, h2]
        · rw [if_neg h2, ih]; simp [hm, not_le.mp h2]
      · simp only [if_true]
        by_cases h2 : u i / eps ≤ v i
        · rw [if_pos h2]; simp [h, hm, h2]
        · rw [if_neg h2, ih]; simp [hm, not_le.mp h2]
    · rw [if_neg h, ih]; simp [h]

/-- C81: with tolerance zero and a positive factor, "`u` is epsilon-dominated by `v`" means: on
every minimised objective `v` is at most `u` divided by the factor, and on every maximised one `u`
is at most `v` times the factor. -/
theorem C81_epsilon_spec (T : Traits n F) (h0 : T.tol = 0) (eps : F) (he : 0 < eps)
    (u v : Fin n → F) :
    epsCmp T eps u v = true ↔
      ∀ i, (T.minimizing i = true → eps * v i ≤ u i) ∧
        (T.minimizing i = false → u i ≤ eps * v i) := by
  unfold epsCmp
  rw [epsLoop_iff]
  simp only [List.mem_finRange, true_implies]
  refine forall_congr' fun i => ?_
  rw [h0, abs_pos, sub_ne_zero]
  have h1 : v i ≤ u i / eps ↔ eps * v i ≤ u i := by rw [le_div_iff₀ he, mul_comm]
  have h2 : u i / eps ≤ v i ↔ u i ≤ eps * v i := by rw [div_le_iff₀ he, mul_comm]
  rw [← h1, ← h2]
  by_cases h : u i / eps = v i
  · simp [h]
  · cases T.minimizing i
    · simp only [h, ne_eq, not_false_eq_true, true_implies, Bool.false_eq_true, false_implies, true_and]
      exact ⟨le_of_lt, fun h' => lt_of_le_of_ne h' h⟩
    · simp only [h, ne_eq, not_false_eq_true, true_implies, reduceCtorEq, false_implies, and_true]
      exact ⟨le_of_lt, fun h' => lt_of_le_of_ne h' (Ne.symm h)⟩

/-- C81: so for maximised non-negative objectives and a factor at least one, the relation relaxes
dominance: a vector which is nowhere worse epsilon-dominates. -/
theorem C81_maximised_relaxes (T : Traits n F) (h0 : T.tol = 0) (eps : F) (he : 1 ≤ eps)
    (hmax : ∀ i, T.minimizing i = false) (u v : Fin n → F) (hv : ∀ i, 0 ≤ v i)
    (h : ∀ i, NoWorse (T.minimizing i) (v i) (u i)) : epsCmp T eps u v = true := by
  rw [C81_epsilon_spec T h0 eps (lt_of_lt_of_le one_pos he)]
  intro i
  refine ⟨fun hm => (by rw [hmax i] at hm; cases hm), fun _ => ?_⟩
  have h1 := h i
  rw [hmax i] at h1
  exact le_trans h1 (le_mul_of_one_le_left (hv i) he)

/-- C81: but for minimised positive objectives the factor works the other way round: with a factor
above one no vector epsilon-dominates itself, and everything which is epsilon-dominated is
dominated. -/
theorem C81_minimised_tightens (T : Traits n F) (h0 : T.tol = 0) (eps : F) (he : 1 < eps)
    (hmin : ∀ i, T.minimizing i = true) (hn : 0 < n) (u v : Fin n → F) (hv : ∀ i, 0 < v i) :
    epsCmp T eps v v = false ∧ (epsCmp T eps u v = true → Dominates T.minimizing v u) := by
  have hpos : 0 < eps := lt_trans one_pos he
  have hlt : ∀ i, v i < eps * v i := fun i => lt_mul_of_one_lt_left (hv i) he
  constructor
  · rw [Bool.eq_false_iff]
    intro h
    rw [C81_epsilon_spec T h0 eps hpos] at h
    exact absurd ((h ⟨0, hn⟩).1 (hmin _)) (not_le.2 (hlt _))
  · intro h
    rw [C81_epsilon_spec T h0 eps hpos] at h
    have h1 : ∀ i, v i < u i := fun i => lt_of_lt_of_le (hlt i) ((h i).1 (hmin i))
    refine ⟨fun i => ?_, ⟨0, hn⟩, ?_⟩
    · rw [hmin]; exact (h1 i).le
    · rw [hmin]; exact h1 _

/-- Both situations occur, in one comparison with the factor 2: the first objective is minimised
and the second maximised. -/
example : epsCmp (⟨![true, false], 0⟩ : Traits 2 ℚ) 2 ![4, 3] ![2, 2] = true ∧
    epsCmp (⟨![true, false], 0⟩ : Traits 2 ℚ) 2 ![3, 3] ![2, 2] = false := by
  constructor <;> decide +kernel

end Eps

section Queries
variable {X V : Type}

/-- C82: the archive "dominates" a vector exactly when one of its members does, and "contains" it
exactly when one of its members has it. -/
theorem C82_queries (A : ArchCfg X V) (arch : List X) (v : V) :
    (archDominates A arch v = true ↔ ∃ x ∈ arch, A.cmp v (A.ov x) = true) ∧
    (archContains A arch v = true ↔ ∃ x ∈ arch, A.eqv (A.ov x) v = true) := by
  simp [archDominates, archContains]

/-- C82: with an exact `==`, two archives are "equal" exactly when they have the same set of
objective vectors: order, multiplicity and the solutions behind them do not matter. -/
theorem C82_equals (A : ArchCfg X V) (heq : ∀ u v, A.eqv u v = true ↔ u = v) (a b : List X) :
    archEquals A a b = true ↔ ∀ v, v ∈ a.map A.ov ↔ v ∈ b.map A.ov := by
  simp only [archEquals, Bool.and_eq_true, List.all_eq_true, archContains, List.any_eq_true, heq,
    List.mem_map]
  constructor
  · rintro ⟨h1, h2⟩ v
    constructor
    · rintro ⟨x, hx, rfl⟩
      exact h1 x hx
    · rintro ⟨x, hx, rfl⟩
      exact h2 x hx
  · intro h
    refine ⟨fun x hx => ?_, fun x hx => ?_⟩
    · exact (h _).1 ⟨x, hx, rfl⟩
    · exact (h _).2 ⟨x, hx, rfl⟩

/-- C82: hence (exact `==`) an equivalence relation. -/
theorem C82_equals_equivalence (A : ArchCfg X V) (heq : ∀ u v, A.eqv u v = true ↔ u = v) :
    Equivalence fun a b => archEquals A a b = true := by
  refine ⟨fun a => ?_, fun {a b} h => ?_, fun {a b c} h h' => ?_⟩
  · rw [C82_equals A heq]; exact fun _ => Iff.rfl
  · rw [C82_equals A heq] at h ⊢; exact fun v => (h v).symm
  · rw [C82_equals A heq] at h h' ⊢; exact fun v => (h v).trans (h' v)

/-- C82: after a solution has been offered, its objective vector is contained in the archive or
dominated by it, and the answer says whether it was added at the end. -/
theorem C82_after_update (A : ArchCfg X V) (hrefl : ∀ v, A.eqv v v = true)
    (hsymm : ∀ u v, A.eqv u v = true → A.eqv v u = true) (arch : List X) (x : X) :
    (archContains A (update A arch x).1 (A.ov x) = true ∨
      archDominates A (update A arch x).1 (A.ov x) = true) ∧
    ((update A arch x).2 = true → (update A arch x).1.getLast? = some x) := by
  unfold update
  dsimp only
  by_cases h : (removeLoop (A.beaten x) arch 0).any (A.blocks x) = true
  · simp only [h, Bool.not_true, Bool.false_eq_true, if_false, false_implies, and_true]
    obtain ⟨y, hy, hb⟩ := List.any_eq_true.1 h
    simp only [ArchCfg.blocks, Bool.or_eq_true, Bool.and_eq_true] at hb
    rcases hb with hb | ⟨_, hb⟩
    · exact Or.inr (List.any_eq_true.2 ⟨y, hy, hb⟩)
    · exact Or.inl (List.any_eq_true.2 ⟨y, hy, hsymm _ _ hb⟩)
  · rw [Bool.not_eq_true] at h
    simp only [h, Bool.not_false, if_true]
    refine ⟨?_, fun _ => by simp⟩
    exact Or.inl (List.any_eq_true.2 ⟨x, by simp, hrefl _⟩)

/-- With a tolerance, "equal" archives need not be transitive: `==` is not. -/
theorem C82_tolerance_not_transitive :
    ∃ (A : ArchCfg (Fin 1 → ℚ) (Fin 1 → ℚ)) (a b c : List (Fin 1 → ℚ)),
      A.eqv = eqCmp ⟨fun _ => true, 1⟩ ∧ archEquals A a b = true ∧ archEquals A b c = true ∧
      archEquals A a c = false :=
  ⟨⟨id, paretoCmp ⟨fun _ => true, 1⟩, eqCmp ⟨fun _ => true, 1⟩, true⟩, [![0]], [![1]], [![2]], rfl,
    by decide +kernel, by decide +kernel, by decide +kernel⟩

example : archEquals (⟨id, fun a b => decide (b < a), fun a b => a == b, true⟩ : ArchCfg ℕ ℕ)
    [1, 2, 2] [2, 1] = true := by decide

end Queries

end Paradiseo.Moeo
