import Mathlib.Order.Monotone.Basic
import Verif.Model.EvalThrow
/-
C332: evaluators that throw.
-/
namespace Paradiseo.EO

variable {G F : Type}

/-! Specification: what a population evaluated without exceptions looks like, and which individuals are rejected. -/

/-- The individual as the evaluation should leave it. -/
def evaluated (f : G → F) (x : Ind G F) : Ind G F :=
  if x.invalidFitness = true then ⟨x.genome, f x.genome, false⟩ else x

/-- Its evaluation gives no finite number. -/
def Rejected (fin : F → Bool) (f : G → F) (x : Ind G F) : Bool := x.invalidFitness && !(fin (f x.genome))

/-- C332: a population is evaluated up to and including the first individual whose fitness is not finite, and the exception
comes out exactly when there is one. -/
theorem C332_nan (fin : F → Bool) (f : G → F) (pop : List (Ind G F)) :
    (∀ x ∈ pop, Rejected fin f x = false) ∧
      (applyThrow (fun _ => nanEval fin f) pop).thrown = false ∧
      (applyThrow (fun _ => nanEval fin f) pop).pop = pop.map (evaluated f) ∧
      (applyThrow (fun _ => nanEval fin f) pop).calls = pop.countP (·.invalidFitness) ∨
    ∃ a b x, pop = a ++ x :: b ∧ (∀ y ∈ a, Rejected fin f y = false) ∧ Rejected fin f x = true ∧
      (applyThrow (fun _ => nanEval fin f) pop).thrown = true ∧
      (applyThrow (fun _ => nanEval fin f) pop).pop = a.map (evaluated f) ++ ⟨x.genome, f x.genome, false⟩ :: b ∧
      (applyThrow (fun _ => nanEval fin f) pop).calls = a.countP (·.invalidFitness) + 1 := by
  induction pop with
  | nil => left; simp [applyThrow]
  | cons x l ih =>
    by_cases hx : Rejected fin f x = true
    · right
      refine ⟨[], l, x, rfl, by simp, hx, ?_⟩
      simp only [Rejected, Bool.and_eq_true, Bool.not_eq_true'] at hx
      simp [applyThrow, nanEval, Ind.invalid, Ind.setFitness, hx.1, hx.2]
    · have hx' : Rejected fin f x = false := by simpa using hx
      have hns : (nanEval fin f x).thrown = false ∧ (nanEval fin f x).ind = evaluated f x ∧
          (nanEval fin f x).calls = if x.invalidFitness = true then 1 else 0 := by
        simp only [Rejected, Bool.and_eq_false_iff, Bool.not_eq_false'] at hx'
        cases hi : x.invalidFitness <;> simp_all [nanEval, Ind.invalid, Ind.setFitness, evaluated]
      have hstep : applyThrow (fun _ => nanEval fin f) (x :: l) =
          ⟨evaluated f x :: (applyThrow (fun _ => nanEval fin f) l).pop, (applyThrow (fun _ => nanEval fin f) l).thrown,
            (if x.invalidFitness = true then 1 else 0) + (applyThrow (fun _ => nanEval fin f) l).calls,
            (nanEval fin f x).raised + (applyThrow (fun _ => nanEval fin f) l).raised⟩ := by
        rw [applyThrow]; dsimp only
        rw [if_neg (by simp [hns.1]), hns.2.1, hns.2.2]
      rw [hstep]
      dsimp only
      rcases ih with ⟨h1, h2, h3, h4⟩ | ⟨a, b, y, h1, h2, h3, h4, h5, h6⟩
      · left
        refine ⟨by simpa [hx'] using h1, h2, by rw [h3]; rfl, ?_⟩
        rw [h4, List.countP_cons]; omega
      · right
        refine ⟨x :: a, b, y, by rw [h1]; rfl, by simpa [hx'] using h2, h3, h4, by rw [h5]; rfl, ?_⟩
        rw [h6, List.countP_cons]; omega

private theorem rejected_evaluated (fin : F → Bool) (f : G → F) (x : Ind G F) : Rejected fin f (evaluated f x) = false := by
  unfold Rejected evaluated; split <;> simp_all

private theorem evaluated_idem (f : G → F) (x : Ind G F) : evaluated f (evaluated f x) = evaluated f x := by
  unfold evaluated; split <;> simp_all

/-- C332: the rejected individual keeps its fitness and counts as evaluated. So when the evaluation is tried again on what it
left, the exception comes out once per rejected individual, and then the whole population, rejected ones included, has
passed as valid. -/
theorem C332_nan_again (fin : F → Bool) (f : G → F) (k : Nat) (pop : List (Ind G F)) :
    ((applyThrow (fun _ => nanEval fin f) (applyAgain (nanEval fin f) k pop)).thrown = true ↔
      k < pop.countP (Rejected fin f)) ∧
    (pop.countP (Rejected fin f) < k → applyAgain (nanEval fin f) k pop = pop.map (evaluated f)) := by
  have hthrown : ∀ pop : List (Ind G F), (applyThrow (fun _ => nanEval fin f) pop).thrown = true ↔
      0 < pop.countP (Rejected fin f) := by
    intro pop
    rw [List.countP_pos_iff]
    rcases C332_nan fin f pop with ⟨h1, h2, -, -⟩ | ⟨a, b, x, h1, -, h3, h4, -, -⟩
    · rw [h2]; constructor
      · intro h; cases h
      · rintro ⟨y, hy, h⟩; rw [h1 y hy] at h; cases h
    · rw [h4]; simp only [true_iff]
      exact ⟨x, by rw [h1]; simp, h3⟩
  have hcount : ∀ pop : List (Ind G F), (applyThrow (fun _ => nanEval fin f) pop).pop.countP (Rejected fin f) =
      pop.countP (Rejected fin f) - 1 ∧
      (applyThrow (fun _ => nanEval fin f) pop).pop.map (evaluated f) = pop.map (evaluated f) := by
    intro pop
    have hmap : ∀ a : List (Ind G F), (a.map (evaluated f)).countP (Rejected fin f) = 0 ∧
        (a.map (evaluated f)).map (evaluated f) = a.map (evaluated f) := by
      intro a
      refine ⟨?_, by simp [Function.comp_def, evaluated_idem]⟩
      rw [List.countP_eq_zero]
      intro y hy
      obtain ⟨z, -, rfl⟩ := List.mem_map.1 hy
      simp [rejected_evaluated]
    rcases C332_nan fin f pop with ⟨h1, h2, h3, -⟩ | ⟨a, b, x, h1, h2, h3, -, h5, -⟩
    · rw [h3, (hmap pop).1, (hmap pop).2]
      refine ⟨?_, rfl⟩
      have : pop.countP (Rejected fin f) = 0 := by
        rw [List.countP_eq_zero]; intro y hy; simp [h1 y hy]
      omega
    · rw [h5]
      have hx : (⟨x.genome, f x.genome, false⟩ : Ind G F) = evaluated f x := by
        simp only [Rejected, Bool.and_eq_true] at h3
        simp [evaluated, h3.1]
      have ha : a.countP (Rejected fin f) = 0 := by
        rw [List.countP_eq_zero]; intro y hy; simp [h2 y hy]
      rw [h1, hx]
      simp only [List.countP_append, List.countP_cons, rejected_evaluated, h3, (hmap a).1, ha, List.map_append,
        List.map_cons, (hmap a).2, evaluated_idem]
      simp
  induction k generalizing pop with
  | zero => exact ⟨hthrown pop, by omega⟩
  | succ k ih =>
    obtain ⟨i1, i2⟩ := ih (applyThrow (fun _ => nanEval fin f) pop).pop
    obtain ⟨c1, c2⟩ := hcount pop
    rw [c1] at i1 i2
    rw [c2] at i2
    refine ⟨by rw [applyAgain, i1]; omega, ?_⟩
    intro h
    rw [applyAgain]
    by_cases hk : pop.countP (Rejected fin f) = 0 ∧ k = 0
    · rw [hk.2, applyAgain]
      rcases C332_nan fin f pop with ⟨-, -, h3, -⟩ | ⟨a, b, x, h1, -, h3, -, -, -⟩
      · exact h3
      · have := List.countP_eq_zero.1 hk.1 x (by rw [h1]; simp)
        exact absurd h3 this
    · exact i2 (by omega)

/-- C332: with a clock that does not go back, the evaluator with a time limit evaluates exactly the invalid individuals
reached before the limit; an exception comes out exactly when an invalid one is reached at the limit or later, and those stay
invalid. Already evaluated individuals never throw. -/
theorem C332_time (max : Int) (now : Nat → Int) (hnow : Monotone now) (f : G → F) (pop : List (Ind G F)) :
    (applyThrow (fun i => timeEval max (now i) f) pop).pop =
      pop.mapIdx (fun i x => if now i < max then evaluated f x else x) ∧
    ((applyThrow (fun i => timeEval max (now i) f) pop).thrown = true ↔
      ∃ i x, pop[i]? = some x ∧ x.invalidFitness = true ∧ max ≤ now i) ∧
    (applyThrow (fun i => timeEval max (now i) f) pop).calls =
      (pop.zipIdx.countP fun p => p.1.invalidFitness && decide (now p.2 < max)) := by
  induction pop generalizing now with
  | nil => simp [applyThrow]
  | cons x l ih =>
    have hcount : ∀ (l : List (Ind G F)) (m : Nat → Int), (l.zipIdx 1).countP (fun p => p.1.invalidFitness && decide (m p.2 < max)) =
        l.zipIdx.countP (fun p => p.1.invalidFitness && decide (m (p.2 + 1) < max)) := by
      intro l m
      rw [List.zipIdx_eq_map_add, List.countP_map]
      congr 1
      funext p
      simp [Nat.add_comm]
    obtain ⟨i1, i2, i3⟩ := ih (fun i => now (i + 1)) (fun a b h => hnow (by omega))
    have hex : (∃ i y, (x :: l)[i]? = some y ∧ y.invalidFitness = true ∧ max ≤ now i) ↔
        (x.invalidFitness = true ∧ max ≤ now 0) ∨ ∃ i y, l[i]? = some y ∧ y.invalidFitness = true ∧ max ≤ now (i + 1) := by
      constructor
      · rintro ⟨i, y, h1, h2, h3⟩
        cases i with
        | zero => left; cases h1; exact ⟨h2, h3⟩
        | succ i => right; exact ⟨i, y, by simpa using h1, h2, h3⟩
      · rintro (⟨h2, h3⟩ | ⟨i, y, h1, h2, h3⟩)
        · exact ⟨0, x, rfl, h2, h3⟩
        · exact ⟨i + 1, y, by simpa using h1, h2, h3⟩
    rw [hex, List.mapIdx_cons, List.zipIdx_cons, List.countP_cons, hcount]
    by_cases hx : x.invalidFitness = true
    · by_cases hm : now 0 ≥ max
      · have hlate : ∀ i, ¬ now i < max := fun i => by have := hnow (Nat.zero_le i); omega
        have hc : (l.zipIdx.countP fun p => p.1.invalidFitness && decide (now (p.2 + 1) < max)) = 0 := by
          rw [List.countP_eq_zero]; intro p _; simp [hlate]
        rw [hc]
        simp [applyThrow, timeEval, Ind.invalid, hx, hm, hlate]
        exact (List.ext_getElem? (fun i => by simp)).symm
      · have hm' : now 0 < max := by omega
        simp only [applyThrow, timeEval, Ind.invalid, hx, Ind.setFitness, evaluated, if_true, if_neg hm, hm'] at i1 i2 i3 ⊢
        simp only [Bool.false_eq_true, if_false, if_true]
        refine ⟨by rw [i1], ?_, ?_⟩
        · rw [i2]; constructor
          · exact Or.inr
          · rintro (h | h)
            · omega
            · exact h
        · rw [i3]; simp; omega
    · have hx' : x.invalidFitness = false := by simpa using hx
      simp only [applyThrow, timeEval, Ind.invalid, hx', Ind.setFitness, evaluated] at i1 i2 i3 ⊢
      simp only [Bool.false_eq_true, if_false, ite_self, false_and, false_or]
      refine ⟨by rw [i1], i2, ?_⟩
      rw [i3]; simp

/-- C332: the evaluator with a time limit is declared a counter, but its count stays where it is whatever it evaluates: a
limit of evaluations put on it never stops a run, where the same limit put on eoEvalFuncCounter stops it at the right time. -/
theorem C332_counter (total : Nat) (max : Int) (now : Nat → Int) (f : G → F) (pop : List (Ind G F)) :
    evalGoesOn total (applyThrow (fun i => timeEval max (now i) f) pop).raised = decide (0 < total) ∧
    evalGoesOn total (applyThrow (fun _ => countEval f) pop).raised =
      decide (pop.countP (·.invalidFitness) < total) := by
  have h1 : ∀ (pop : List (Ind G F)) (now : Nat → Int), (applyThrow (fun i => timeEval max (now i) f) pop).raised = 0 := by
    intro pop
    induction pop with
    | nil => intro now; rfl
    | cons x l ih =>
      intro now
      have hr : (timeEval max (now 0) f x).raised = 0 := by
        unfold timeEval; split
        · split <;> rfl
        · rfl
      rw [applyThrow]; dsimp only
      split
      · exact hr
      · simp only [hr, ih (fun i => now (i + 1))]
  have h2 : ∀ pop : List (Ind G F), (applyThrow (fun _ => countEval f) pop).raised = pop.countP (·.invalidFitness) := by
    intro pop
    induction pop with
    | nil => rfl
    | cons x l ih =>
      rw [applyThrow]; dsimp only
      cases hx : x.invalidFitness
      · simp [countEval, Ind.invalid, hx, ih]
      · simp [countEval, Ind.invalid, hx, ih]; omega
  rw [h1, h2]
  unfold evalGoesOn
  constructor
  · by_cases h : 0 ≥ total
    · rw [if_pos h]; symm; rw [decide_eq_false_iff_not]; omega
    · rw [if_neg h]; symm; rw [decide_eq_true_eq]; omega
  · by_cases h : pop.countP (·.invalidFitness) ≥ total
    · rw [if_pos h]; symm; rw [decide_eq_false_iff_not]; omega
    · rw [if_neg h]; symm; rw [decide_eq_true_eq]; omega

/-! A population of four: the second is valid already, the first and the third are rejected (0 stands for a number that is
not finite). -/

private def four : List (Ind Nat Nat) := [⟨0, 9, true⟩, ⟨5, 5, false⟩, ⟨0, 9, true⟩, ⟨7, 9, true⟩]

example : (applyThrow (fun _ => nanEval (fun n => decide (n ≠ 0)) (fun g => g)) four).pop =
    [⟨0, 0, false⟩, ⟨5, 5, false⟩, ⟨0, 9, true⟩, ⟨7, 9, true⟩] := by decide

example : four.countP (Rejected (fun n => decide (n ≠ 0)) (fun g => g)) = 2 := by decide

example : applyAgain (nanEval (fun n => decide (n ≠ 0)) (fun g => g)) 3 four =
    [⟨0, 0, false⟩, ⟨5, 5, false⟩, ⟨0, 0, false⟩, ⟨7, 7, false⟩] := by decide

example : (applyThrow (fun i => timeEval 2 (i : Nat) (fun g => g)) four).pop =
    [⟨0, 0, false⟩, ⟨5, 5, false⟩, ⟨0, 9, true⟩, ⟨7, 9, true⟩] := by decide

example : Monotone (fun i : Nat => (i : Int)) := fun _ _ h => Int.ofNat_le.2 h

end Paradiseo.EO
