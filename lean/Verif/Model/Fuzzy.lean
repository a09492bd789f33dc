import Mathlib.Algebra.Order.Field.Basic
import Mathlib.Algebra.Order.AbsoluteValue.Basic
import Mathlib.Analysis.Real.Sqrt
/-
Model of the fuzzy objective vectors: triangular numbers, the fuzzy Pareto comparator, the two fuzzy distances.
Sources: moeo/src/comparator/moeoFuzzyParetoComparator.h, moeo/src/distance/moeoBertDistance.h,
moeo/src/distance/moeoExpectedFuzzyDistance.h, moeo/src/core/moeoFuzzyRealObjectiveVector.h.
These headers name a class `std::triple` that the project does not define; the model takes it to be three numbers.
Floating-point numbers are elements of an ordered field (reals for the square roots).
-/
namespace Paradiseo.Fuzzy

/-- A triangular number: lower limit, most plausible value, upper limit. -/
structure Tri (K : Type) where
  first : K
  second : K
  third : K
deriving DecidableEq, Repr

section Cmp
variable {K : Type} [Field K] [LinearOrder K]

/-- moeoFuzzyParetoComparator.h 28-51 with the enumeration of 109-114: total dominance is 0, strong 1, weak 2, and the
function falls through to `return 0`. -/
def triang (a b : Tri K) : Nat :=
  if a.third < b.first then 0
  else if a.third ≥ b.first ∧ a.second ≤ b.first ∧ a.third ≤ b.second then 1
  else if (a.first < b.first ∧ a.third < b.third) ∧
      ((a.second ≤ b.first ∧ a.third > b.second) ∨ (a.second > b.first ∧ a.third ≤ b.second) ∨
        (a.second > b.first ∧ a.third > b.second)) then 2
  else if a.first < b.first ∧ a.third ≥ b.third ∧ a.second < b.second then 2
  else if a.first < b.first ∧ a.third ≥ b.third ∧ a.second ≥ b.second ∧ b.first - a.first > b.third - a.third then 2
  else 0

/-- moeoFuzzyParetoComparator.h 72-74: the objectives differ by more than the tolerance. -/
def differ (tol : K) (a b : Tri K) : Bool :=
  decide (|a.first - b.first| > tol) || decide (|a.second - b.second| > tol) || decide (|a.third - b.third| > tol)

/-- The five counters of moeoFuzzyParetoComparator.h 62-66. -/
structure Counts where
  different : Nat := 0
  total : Nat := 0
  strong : Nat := 0
  weak : Nat := 0
  other : Nat := 0
deriving DecidableEq, Repr

/-- moeoFuzzyParetoComparator.h 69-91, one turn: `minimizing`, the two values of the objective; nothing is counted for a
maximised objective but the difference (line 88 is a comment). -/
def count (tol : K) (c : Counts) (o : Bool × Tri K × Tri K) : Counts :=
  if differ tol o.2.1 o.2.2 then
    if o.1 then
      match triang o.2.2 o.2.1 with
      | 0 => { c with different := c.different + 1, total := c.total + 1 }
      | 1 => { c with different := c.different + 1, strong := c.strong + 1 }
      | 2 => { c with different := c.different + 1, weak := c.weak + 1 }
      | _ => { c with different := c.different + 1, other := c.other + 1 }
    else { c with different := c.different + 1 }
  else c

/-- moeoFuzzyParetoComparator.h 94-106. -/
def verdict (c : Counts) : Bool :=
  if c.different = c.total ∨ c.different = c.strong ∨ (1 ≤ c.total ∧ 0 < c.strong) ∨ 1 ≤ c.total ∨
      (1 ≤ c.strong ∧ 0 < c.weak) then true
  else if c.different = c.weak then true
  else false

/-- moeoFuzzyParetoComparator.h 59-107 (the list has one entry for every objective). -/
def compare (tol : K) (os : List (Bool × Tri K × Tri K)) : Bool := verdict (os.foldl (count tol) {})

/-- moeoFuzzyRealObjectiveVector.h 67-79: the comparison of two vectors of the same size returns false at the first
objective whose three values all differ by more than the tolerance. -/
def equal (tol : K) : List (Tri K × Tri K) → Bool
  | [] => true
  | (a, b) :: l =>
    if |a.first - b.first| > tol ∧ |a.second - b.second| > tol ∧ |a.third - b.third| > tol then false else equal tol l

/-- moeoExpectedFuzzyDistance.h 54: the expected value of a triangular number. -/
def expected (a : Tri K) : K := (a.first + a.third + 2 * a.second) / 4

end Cmp

/-- moeoExpectedFuzzyDistance.h 47-61. -/
noncomputable def expectedDist (l : List (Tri ℝ × Tri ℝ)) : ℝ :=
  Real.sqrt ((l.map fun p => (expected p.1 - expected p.2) * (expected p.1 - expected p.2)).sum)

/-- moeoBertDistance.h 51-61. -/
noncomputable def bert1 (a b : Tri ℝ) : ℝ :=
  let midA := 0.5 * (a.first + a.third)
  let midB := 0.5 * (b.first + b.third)
  let sprA := 0.5 * (a.first - a.third)
  let sprB := 0.5 * (b.first - b.third)
  Real.sqrt ((midA - midB) * (midA - midB) + 0.5 * (sprA - sprB) * (sprA - sprB))

/-- moeoBertDistance.h 70-84, of vectors already normalised (the normaliser works on each of the three values). -/
noncomputable def bert (l : List (Tri ℝ × Tri ℝ)) : ℝ := (l.map fun p => bert1 p.1 p.2).sum / l.length

end Paradiseo.Fuzzy
