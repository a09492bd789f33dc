import Verif.Model.MetricFitness
import Mathlib.Tactic.Linarith
import Mathlib.Tactic.NormNum
/-
C321: fitness from a metric of one objective vector.
-/
namespace Paradiseo.MetricFitness

open Paradiseo.EO

variable {G V : Type}

/-- The objective vector an individual has once it has been evaluated. -/
def objective (c : Cfg G V) (x : Ind G V) : Option V :=
  match x.obj with
  | some v => some v
  | none => c.eval.map fun f => f x.genome

theorem assign_eq (c : Cfg G V) (x : Ind G V) :
    c.assign x = match objective c x with
      | some v => .ok ⟨x.genome, some v, some (c.value v)⟩
      | none => .error .thrown := by
  obtain ⟨g, o, f⟩ := x
  cases o with
  | some v => rfl
  | none =>
    simp only [Cfg.assign, objective, Option.isNone_none, if_true]
    cases c.eval <;> rfl

/-- A whole population: every individual keeps its place and its genome, has the objective vector it had or, if it had
none, that of the evaluator, and gets the value of that vector. -/
theorem C321_population (c : Cfg G V) (pop : List (Ind G V)) (h : ∀ x ∈ pop, (objective c x).isSome) :
    ∃ pop', c.assignAll pop = .ok pop' ∧ pop'.length = pop.length ∧
      ∀ (i : Nat) (x : Ind G V), pop[i]? = some x → ∃ v, objective c x = some v ∧
        pop'[i]? = some { genome := x.genome, obj := some v, fit := some (c.value v) } := by
  induction pop with
  | nil => exact ⟨[], rfl, rfl, by simp⟩
  | cons x xs ih =>
    obtain ⟨ys, h1, h2, h3⟩ := ih fun y hy => h y (by simp [hy])
    obtain ⟨v, hv⟩ := Option.isSome_iff_exists.1 (h x (by simp))
    refine ⟨⟨x.genome, some v, some (c.value v)⟩ :: ys, ?_, by simp [h2], ?_⟩
    · simp only [Cfg.assignAll, assign_eq, hv, h1]
    · intro i y hi
      cases i with
      | zero =>
        simp only [List.getElem?_cons_zero, Option.some.injEq] at hi ⊢
        subst hi
        exact ⟨v, hv, rfl⟩
      | succ i =>
        simp only [List.getElem?_cons_succ] at hi ⊢
        exact h3 i y hi

/-- Made without an evaluator it does not evaluate: an individual whose objective vector is invalid makes it throw. -/
theorem C321_not_evaluated (metric : V → ℚ) (neg : Bool) (pop : List (Ind G V)) (x : Ind G V) (hx : x ∈ pop)
    (ho : x.obj = none) : (Cfg.plain metric neg).assignAll pop = .error .thrown := by
  induction pop with
  | nil => simp at hx
  | cons y ys ih =>
    simp only [Cfg.assignAll, assign_eq]
    by_cases hy : (objective (Cfg.plain metric neg) y).isSome
    · obtain ⟨v, hv⟩ := Option.isSome_iff_exists.1 hy
      rw [hv]
      have hne : x ≠ y := by
        rintro rfl
        simp [objective, ho, Cfg.plain] at hv
      rcases List.mem_cons.1 hx with rfl | hx
      · exact absurd rfl hne
      · simp only [ih hx]
    · rw [Option.not_isSome_iff_eq_none.1 hy]

/-- Of two vectors with non-negative metric, the one with the smaller metric gets the greater fitness from the constructor
without an evaluator, and the smaller fitness from the one with an evaluator: unless told otherwise the two constructors
rank the same individuals in opposite order. -/
theorem C321_opposite (metric : V → ℚ) (f : G → V) (v w : V) (hv : 0 ≤ metric v) (h : metric v < metric w) :
    ((Cfg.plain metric : Cfg G V).value w).lt ((Cfg.plain metric : Cfg G V).value v) ∧
    ((Cfg.withEval metric f).value v).lt ((Cfg.withEval metric f).value w) := by
  refine ⟨?_, by simpa [Cfg.withEval, Cfg.value, Dbl.lt] using h⟩
  have hw : 0 < metric w := lt_of_le_of_lt hv h
  simp only [Cfg.plain, Cfg.value, if_true, hw.ne', if_false]
  by_cases h0 : metric v = 0
  · simp [h0, Dbl.lt]
  · have hpos : 0 < metric v := lt_of_le_of_ne hv (Ne.symm h0)
    simp only [h0, if_false, Dbl.lt]
    exact one_div_lt_one_div_of_lt hpos h

/-- Taking the reciprocal is not negation: a negative metric stays below a positive one. -/
theorem C321_negative (metric : V → ℚ) (v w : V) (hv : metric v < 0) (hw : 0 < metric w) :
    ((Cfg.plain metric : Cfg G V).value v).lt ((Cfg.plain metric : Cfg G V).value w) := by
  simp only [Cfg.plain, Cfg.value, if_true, hv.ne, hw.ne', if_false, Dbl.lt]
  have h1 : 1 / metric v < 0 := one_div_neg.2 hv
  have h2 : 0 < 1 / metric w := one_div_pos.2 hw
  linarith

example : (Cfg.plain (G := Unit) (V := ℚ) id).value 4 = .fin (1 / 4) ∧
    (Cfg.withEval (G := Unit) (V := ℚ) id fun _ => 3).value 4 = .fin 4 := by
  constructor
  · simp only [Cfg.plain, Cfg.value, if_true, id]; norm_num
  · simp [Cfg.withEval, Cfg.value]

end Paradiseo.MetricFitness
