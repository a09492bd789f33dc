/-
Property C375: the stationary distributions of simulated annealing at a fixed temperature (moSAexplorer.h:89-158) and of the
Metropolis-Hastings walk (moMetropolisHastingExplorer.h:88-162).
-/
import Verif.Props.CloudSampling
import Mathlib.MeasureTheory.Measure.Lebesgue.Basic
import Mathlib.MeasureTheory.Measure.Real

namespace Paradiseo.LS

open MeasureTheory Finset

variable {S M : Type} [Fintype S] [DecidableEq S] [Fintype M]

/-- The probability that one step leads from `x` to `y`: the move is drawn uniformly among all of `M`, the number uniformly in
`[0, 1)`. -/
noncomputable def stepProb (step : M → ℝ → S → S) (x y : S) : ℝ :=
  (∑ m : M, volume.real {u : ℝ | 0 ≤ u ∧ u < 1 ∧ step m u x = y}) / Fintype.card M

/-- As many moves lead from `x` to `y` as from `y` to `x`. -/
def SymmetricMoves (app : M → S → S) : Prop :=
  ∀ x y : S, (univ.filter fun m => app m x = y).card = (univ.filter fun m => app m y = x).card

theorem C375_involutive (app : M → S → S) (h : ∀ m x, app m (app m x) = x) : SymmetricMoves app := by
  intro x y
  congr 1
  ext m
  simp only [mem_filter, mem_univ, true_and]
  constructor
  · rintro rfl; exact h m x
  · rintro rfl; exact h m y

/-- One step which goes to `p` when the number is below `α`, and to `q` otherwise. -/
theorem measure_step (α : ℝ) (h0 : 0 ≤ α) (h1 : α ≤ 1) (p q y : S) (g : ℝ → S)
    (hg : ∀ u, 0 ≤ u → u < 1 → g u = if u < α then p else q) :
    volume.real {u : ℝ | 0 ≤ u ∧ u < 1 ∧ g u = y} = (if p = y then α else 0) + (if q = y then 1 - α else 0) := by
  by_cases hp : p = y <;> by_cases hq : q = y
  · have : {u : ℝ | 0 ≤ u ∧ u < 1 ∧ g u = y} = Set.Ico 0 1 := by
      ext u
      simp only [Set.mem_setOf_eq, Set.mem_Ico]
      constructor
      · rintro ⟨a, b, _⟩; exact ⟨a, b⟩
      · rintro ⟨a, b⟩; refine ⟨a, b, ?_⟩; rw [hg u a b]; split <;> assumption
    rw [this, if_pos hp, if_pos hq, Real.volume_real_Ico_of_le zero_le_one]
    ring
  · have : {u : ℝ | 0 ≤ u ∧ u < 1 ∧ g u = y} = Set.Ico 0 α := by
      ext u
      simp only [Set.mem_setOf_eq, Set.mem_Ico]
      constructor
      · rintro ⟨a, b, c⟩
        rw [hg u a b] at c
        refine ⟨a, ?_⟩
        by_contra hc
        rw [if_neg hc] at c
        exact hq c
      · rintro ⟨a, b⟩
        have b1 : u < 1 := lt_of_lt_of_le b h1
        exact ⟨a, b1, by rw [hg u a b1, if_pos b, hp]⟩
    rw [this, if_pos hp, if_neg hq, Real.volume_real_Ico_of_le h0]
    ring
  · have : {u : ℝ | 0 ≤ u ∧ u < 1 ∧ g u = y} = Set.Ico α 1 := by
      ext u
      simp only [Set.mem_setOf_eq, Set.mem_Ico]
      constructor
      · rintro ⟨a, b, c⟩
        rw [hg u a b] at c
        refine ⟨?_, b⟩
        by_contra hc
        rw [if_pos (not_le.1 hc)] at c
        exact hp c
      · rintro ⟨a, b⟩
        have a1 : 0 ≤ u := h0.trans a
        exact ⟨a1, b, by rw [hg u a1 b, if_neg (not_lt.2 a), hq]⟩
    rw [this, if_neg hp, if_pos hq, Real.volume_real_Ico_of_le h1]
    ring
  · have : {u : ℝ | 0 ≤ u ∧ u < 1 ∧ g u = y} = ∅ := by
      ext u
      simp only [Set.mem_setOf_eq, Set.mem_empty_iff_false, iff_false]
      rintro ⟨a, b, c⟩
      rw [hg u a b] at c
      split at c
      · exact hp c
      · exact hq c
    rw [this, if_neg hp, if_neg hq, measureReal_empty, add_zero]

/-- What is shown of a walk: with the weights `w`, it is reversible, its probabilities add up to one, and one step leaves the
distribution proportional to `w` as it is. -/
def Stationary (step : M → ℝ → S → S) (w : S → ℝ) : Prop :=
  (∀ x y, w x * stepProb step x y = w y * stepProb step y x) ∧ (∀ x, ∑ y, stepProb step x y = 1) ∧
  ∀ y, ∑ x, w x * stepProb step x y = w y

theorem stationary_of_metropolis [Nonempty M] (app : M → S → S) (hs : SymmetricMoves app) (w : S → ℝ) (hw : ∀ x, 0 < w x)
    (step : M → ℝ → S → S)
    (hstep : ∀ m u x, 0 ≤ u → u < 1 → step m u x = if u < min 1 (w (app m x) / w x) then app m x else x) :
    Stationary step w := by
  have hM : (0 : ℝ) < Fintype.card M := by exact_mod_cast Fintype.card_pos
  have hα : ∀ x y, 0 ≤ min 1 (w y / w x) ∧ min 1 (w y / w x) ≤ 1 := fun x y =>
    ⟨le_min zero_le_one (div_nonneg (hw y).le (hw x).le), min_le_left _ _⟩
  have hP : ∀ x y, stepProb step x y = (∑ m : M, ((if app m x = y then min 1 (w (app m x) / w x) else 0) +
      (if x = y then 1 - min 1 (w (app m x) / w x) else 0))) / Fintype.card M := by
    intro x y
    unfold stepProb
    congr 1
    refine Finset.sum_congr rfl fun m _ => ?_
    exact measure_step _ (hα _ _).1 (hα _ _).2 _ _ _ _ (fun u h0 h1 => hstep m u x h0 h1)
  have hne : ∀ x y, x ≠ y → stepProb step x y =
      (univ.filter fun m => app m x = y).card * min 1 (w y / w x) / Fintype.card M := by
    intro x y hxy
    rw [hP]
    congr 1
    simp only [if_neg hxy, add_zero]
    rw [← Finset.sum_filter, Finset.sum_congr rfl (g := fun _ => min 1 (w y / w x)), Finset.sum_const, nsmul_eq_mul]
    intro m hm
    rw [(Finset.mem_filter.1 hm).2]
  have hmin : ∀ x y, w x * min 1 (w y / w x) = min (w x) (w y) := by
    intro x y
    rw [mul_min_of_nonneg _ _ (hw x).le, mul_one, mul_div_cancel₀ _ (hw x).ne']
  have rev : ∀ x y, w x * stepProb step x y = w y * stepProb step y x := by
    intro x y
    by_cases hxy : x = y
    · subst hxy; rfl
    · rw [hne x y hxy, hne y x (Ne.symm hxy), ← hs x y]
      rw [show w x * (((univ.filter fun m => app m x = y).card : ℝ) * min 1 (w y / w x) / Fintype.card M) =
        ((univ.filter fun m => app m x = y).card : ℝ) * (w x * min 1 (w y / w x)) / Fintype.card M by ring,
        show w y * (((univ.filter fun m => app m x = y).card : ℝ) * min 1 (w x / w y) / Fintype.card M) =
        ((univ.filter fun m => app m x = y).card : ℝ) * (w y * min 1 (w x / w y)) / Fintype.card M by ring,
        hmin, hmin, min_comm]
  have tot : ∀ x, ∑ y, stepProb step x y = 1 := by
    intro x
    simp only [hP]
    rw [← Finset.sum_div, Finset.sum_comm]
    have : ∀ m : M, ∑ y, ((if app m x = y then min 1 (w (app m x) / w x) else 0) +
        (if x = y then 1 - min 1 (w (app m x) / w x) else 0)) = 1 := by
      intro m
      rw [Finset.sum_add_distrib, Finset.sum_ite_eq univ, Finset.sum_ite_eq univ]
      simp
    rw [Finset.sum_congr rfl fun m _ => this m]
    simp only [Finset.sum_const, Finset.card_univ, nsmul_eq_mul, mul_one]
    exact div_self hM.ne'
  refine ⟨rev, tot, fun y => ?_⟩
  rw [Finset.sum_congr rfl fun x _ => rev x y, ← Finset.mul_sum, tot, mul_one]

/-- The solution after one iteration of simulated annealing from `x` with the draws `m` and `u`. -/
noncomputable def saStep {C : Type} (better : ℝ → ℝ → Prop) (cool : Cooling C) (f : S → ℝ) (app : M → S → S) (e : SA M C)
    (m : M) (u : ℝ) (x : S) : S :=
  (stepTo (saExplorer better cool (fun _ => u) (fun _ s => [⟨m, f (app m s.1)⟩]) app) 0 ((x, f x), e)).1.1

/-- The solution after one iteration of the Metropolis-Hastings walk. -/
noncomputable def mhStep (nbStep : Nat) (f : S → ℝ) (app : M → S → S) (e : HC M ℝ) (m : M) (u : ℝ) (x : S) : S :=
  (stepTo (mhExplorer nbStep (fun _ => u) (fun _ s => [⟨m, f (app m s.1)⟩]) app) 0 ((x, f x), e)).1.1

theorem saStep_eq {C : Type} (better : ℝ → ℝ → Prop) (cool : Cooling C) (f : S → ℝ) (app : M → S → S) (e : SA M C)
    (m : M) (u : ℝ) (x : S) :
    saStep better cool f app e m u x =
      if saAccept better (f x) (f (app m x)) e.temp.1 u = true then app m x else x := by
  simp only [saStep, stepTo, lsStep, saExplorer, moveSel]
  split <;> simp_all

theorem mhStep_eq (nbStep : Nat) (f : S → ℝ) (app : M → S → S) (e : HC M ℝ) (m : M) (u : ℝ) (x : S) :
    mhStep nbStep f app e m u x = if metropolisAccept (f x) (f (app m x)) u = true then app m x else x := by
  simp only [mhStep, stepTo, lsStep, mhExplorer, moveSel]
  split <;> simp_all

theorem saStep_max {C : Type} (cool : Cooling C) (f : S → ℝ) (app : M → S → S) (e : SA M C) (hT : 0 < e.temp.1) (m : M) (u : ℝ)
    (x : S) (_h0 : 0 ≤ u) (h1 : u < 1) : saStep (· < ·) cool f app e m u x =
      if u < min 1 (Real.exp (f (app m x) / e.temp.1) / Real.exp (f x / e.temp.1)) then app m x else x := by
  rw [saStep_eq]
  have key : (saAccept (· < ·) (f x) (f (app m x)) e.temp.1 u = true) ↔
      u < min 1 (Real.exp (f (app m x) / e.temp.1) / Real.exp (f x / e.temp.1)) := by
    rw [C25_accept_iff _ _ _ _ _ hT.ne', ← Real.exp_sub, ← sub_div, lt_min_iff]
    rcases lt_or_ge (f x) (f (app m x)) with h | h
    · have : 1 < Real.exp ((f (app m x) - f x) / e.temp.1) := by
        rw [Real.one_lt_exp_iff]; exact div_pos (sub_pos.2 h) hT
      exact ⟨fun _ => ⟨h1, h1.trans this⟩, fun _ => Or.inl h⟩
    · rw [abs_of_nonpos (sub_nonpos.2 h), neg_neg]
      exact ⟨fun hh => ⟨h1, hh.resolve_left (not_lt.2 h)⟩, fun hh => Or.inr hh.2⟩
  by_cases hc : saAccept (· < ·) (f x) (f (app m x)) e.temp.1 u = true
  · rw [if_pos hc, if_pos (key.1 hc)]
  · rw [if_neg hc, if_neg (fun hh => hc (key.2 hh))]

/-- **C375** (simulated annealing, maximising).  As long as the temperature is `T`, the distribution proportional to
`exp(f/T)` is stationary. -/
theorem C375_annealing [Nonempty M] {C : Type} (cool : Cooling C) (f : S → ℝ) (app : M → S → S) (hs : SymmetricMoves app)
    (e : SA M C) (hT : 0 < e.temp.1) :
    Stationary (saStep (· < ·) cool f app e) (fun x => Real.exp (f x / e.temp.1)) := by
  exact stationary_of_metropolis app hs _ (fun x => Real.exp_pos _) _ (saStep_max cool f app e hT)

theorem saStep_min {C : Type} (cool : Cooling C) (f : S → ℝ) (app : M → S → S) (e : SA M C) (hT : 0 < e.temp.1) (m : M) (u : ℝ)
    (x : S) (_h0 : 0 ≤ u) (h1 : u < 1) : saStep (· > ·) cool f app e m u x =
      if u < min 1 (Real.exp (- f (app m x) / e.temp.1) / Real.exp (- f x / e.temp.1)) then app m x else x := by
  rw [saStep_eq]
  have key : (saAccept (· > ·) (f x) (f (app m x)) e.temp.1 u = true) ↔
      u < min 1 (Real.exp (- f (app m x) / e.temp.1) / Real.exp (- f x / e.temp.1)) := by
    rw [C25_accept_iff _ _ _ _ _ hT.ne', ← Real.exp_sub, ← sub_div, lt_min_iff]
    rcases lt_or_ge (f (app m x)) (f x) with h | h
    · have : 1 < Real.exp ((- f (app m x) - - f x) / e.temp.1) := by
        rw [Real.one_lt_exp_iff]; exact div_pos (by linarith) hT
      exact ⟨fun _ => ⟨h1, h1.trans this⟩, fun _ => Or.inl h⟩
    · rw [abs_of_nonneg (sub_nonneg.2 h), show -(f (app m x) - f x) = - f (app m x) - - f x by ring]
      exact ⟨fun hh => ⟨h1, hh.resolve_left (not_lt.2 h)⟩, fun hh => Or.inr hh.2⟩
  by_cases hc : saAccept (· > ·) (f x) (f (app m x)) e.temp.1 u = true
  · rw [if_pos hc, if_pos (key.1 hc)]
  · rw [if_neg hc, if_neg (fun hh => hc (key.2 hh))]

/-- **C375** (simulated annealing, minimising).  The distribution proportional to `exp(-f/T)` is stationary. -/
theorem C375_annealing_min [Nonempty M] {C : Type} (cool : Cooling C) (f : S → ℝ) (app : M → S → S) (hs : SymmetricMoves app)
    (e : SA M C) (hT : 0 < e.temp.1) :
    Stationary (saStep (· > ·) cool f app e) (fun x => Real.exp (- f x / e.temp.1)) := by
  exact stationary_of_metropolis app hs _ (fun x => Real.exp_pos _) _ (saStep_min cool f app e hT)

theorem mhStep_form (nbStep : Nat) (f : S → ℝ) (hf : ∀ x, 0 < f x) (app : M → S → S) (e : HC M ℝ) (m : M) (u : ℝ) (x : S)
    (_h0 : 0 ≤ u) (h1 : u < 1) :
    mhStep nbStep f app e m u x = if u < min 1 (f (app m x) / f x) then app m x else x := by
  rw [mhStep_eq]
  have key : (metropolisAccept (f x) (f (app m x)) u = true) ↔ u < min 1 (f (app m x) / f x) := by
    unfold metropolisAccept
    rw [lt_min_iff]
    rcases lt_trichotomy (f x) (f (app m x)) with h | h | h
    · rw [if_pos h]
      exact ⟨fun _ => ⟨h1, h1.trans ((one_lt_div (hf x)).2 h)⟩, fun _ => rfl⟩
    · rw [if_neg (by rw [h]; exact lt_irrefl _), if_pos (hf x).ne', if_neg (by rw [h]; exact lt_irrefl _), h,
        div_self (hf _).ne']
      simp [h1]
    · rw [if_neg (not_lt.2 h.le), if_pos (hf x).ne', if_pos h]
      simp [h1]
  by_cases hc : metropolisAccept (f x) (f (app m x)) u = true
  · rw [if_pos hc, if_pos (key.1 hc)]
  · rw [if_neg hc, if_neg (fun hh => hc (key.2 hh))]

/-- **C375** (Metropolis-Hastings walk).  With positive fitness values to maximise, the distribution proportional to the fitness
is stationary. -/
theorem C375_metropolis [Nonempty M] (nbStep : Nat) (f : S → ℝ) (hf : ∀ x, 0 < f x) (app : M → S → S)
    (hs : SymmetricMoves app) (e : HC M ℝ) : Stationary (mhStep nbStep f app e) f := by
  exact stationary_of_metropolis app hs _ hf _ (mhStep_form nbStep f hf app e)

/-- Flipping one bit of a string is a symmetric set of moves. -/
example (n : Nat) : SymmetricMoves (fun (i : Fin n) (x : Fin n → Bool) => Function.update x i (!x i)) :=
  C375_involutive _ fun m x => by
    funext j
    by_cases h : j = m
    · subst h; simp
    · simp [h]

/-- Two solutions of fitness 1 and 3 and the move between them: from the better one the walk goes to the other with probability
one third. -/
example (nbStep : Nat) (e : HC Unit ℝ) :
    stepProb (mhStep nbStep (fun b : Bool => if b then (3 : ℝ) else 1) (fun _ b => !b) e) true false = 1 / 3 := by
  have h := C375_metropolis (M := Unit) nbStep (fun b : Bool => if b then (3 : ℝ) else 1) (fun b => by cases b <;> simp)
    (fun _ b => !b) (C375_involutive _ fun _ b => by simp) e
  have h1 := h.1 true false
  have h2 : stepProb (mhStep nbStep (fun b : Bool => if b then (3 : ℝ) else 1) (fun _ b => !b) e) false true = 1 := by
    unfold stepProb
    simp only [mhStep_eq]
    have : {u : ℝ | 0 ≤ u ∧ u < 1 ∧ metropolisAccept (1 : ℝ) 3 u = true} = Set.Ico 0 1 := by
      ext u
      simp [metropolisAccept]
    simp [this]
  rw [h2] at h1
  simp at h1
  linarith

end Paradiseo.LS
