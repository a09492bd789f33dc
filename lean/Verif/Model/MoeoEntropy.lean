import Verif.Model.EOReplacement
import Mathlib.Analysis.SpecialFunctions.Log.Basic
import Mathlib.Analysis.SpecialFunctions.Sqrt

/-!
# moeo: the entropy metric

Model of moeo/src/metric/moeoEntropyMetric.h.  Objective values are real numbers (in the code `double`, the sums `float`).
`dom a b` stands for `paretoComparator(a, b)` (`b` dominates `a`) and `eq` for `==` of objective vectors, which for
moeoRealObjectiveVector compares with a tolerance.
-/

namespace Paradiseo.Moeo

open Paradiseo.EO (Err)

variable {α : Type}

/-- `_f[i] = _f.back(); _f.pop_back();` (moeoEntropyMetric.h 126-127). -/
def dropAt (f : List α) (i : Nat) : List α :=
  match f.getLast? with
  | none => f
  | some x => (f.set i x).dropLast

/-- The inner loop (moeoEntropyMetric.h 117-123): is vector `i` dominated by another one? -/
def isDominatedAt (dom : α → α → Bool) (f : List α) (i : Nat) : Bool :=
  (List.range f.length).any fun j => decide (i ≠ j) &&
    match f[i]?, f[j]? with
    | some a, some b => dom a b
    | _, _ => false

/-- `removeDominated` (moeoEntropyMetric.h 113-131) from position `i` on. -/
def removeDominatedFrom (dom : α → α → Bool) (f : List α) (i : Nat) : List α :=
  if h : i < f.length then
    if isDominatedAt dom f i then removeDominatedFrom dom (dropAt f i) i else removeDominatedFrom dom f (i + 1)
  else f
termination_by f.length - i
decreasing_by
  · have : (dropAt f i).length + 1 = f.length := by
      unfold dropAt
      cases hl : f.getLast? with
      | none => rw [List.getLast?_eq_none_iff] at hl; simp [hl] at h
      | some x => simp; omega
    omega
  · omega

/-- `removeDominated` (moeoEntropyMetric.h 113-131). -/
def removeDominated (dom : α → α → Bool) (f : List α) : List α := removeDominatedFrom dom f 0

/-- `computeUnion` (moeoEntropyMetric.h 177-192). -/
def computeUnion (eq : α → α → Bool) (f1 f2 : List α) : List α :=
  f1 ++ f2.filter fun b => !(f1.any fun a => eq a b)

/-- `euclidianDistance` (moeoEntropyMetric.h 213-219). -/
noncomputable def eucl (K : Nat) (a b : Nat → ℝ) : ℝ := Real.sqrt (((List.range K).map fun j => |a j - b j| ^ 2).sum)

open Classical in
/-- `howManyInNicheOf` (moeoEntropyMetric.h 198-207). -/
noncomputable def niche (K : Nat) (f : List (Nat → ℝ)) (s : Nat → ℝ) (size : Nat) : Nat :=
  f.countP fun a => decide (eucl K a s < (K : ℝ) / size)

/-- `prenormalize` (moeoEntropyMetric.h 138-156) for a non-empty set, objective `j`. -/
noncomputable def preLo (f : List (Nat → ℝ)) (j : Nat) : ℝ :=
  match f with
  | [] => 0
  | v :: l => l.foldl (fun m w => if w j < m then w j else m) (v j)

/-- `prenormalize` (moeoEntropyMetric.h 138-156), the maximum. -/
noncomputable def preHi (f : List (Nat → ℝ)) (j : Nat) : ℝ :=
  match f with
  | [] => 0
  | v :: l => l.foldl (fun m w => if m < w j then w j else m) (v j)

/-- `normalize` (moeoEntropyMetric.h 163-168). -/
noncomputable def normEntropy (lo hi : Nat → ℝ) (f : List (Nat → ℝ)) : List (Nat → ℝ) :=
  f.map fun v j => (v j - lo j) / (hi j - lo j)

/-- The members of `union_set1_star` with their `n_i` and `N_i` (moeoEntropyMetric.h 83-86). -/
noncomputable def nicheCounts (K : Nat) (set1 star un : List (Nat → ℝ)) : List (Nat × Nat) :=
  un.map fun v => (niche K set1 v star.length, niche K un v star.length)

/-- `omega` (moeoEntropyMetric.h 87-89). -/
noncomputable def omegaOf (counts : List (Nat × Nat)) : ℝ :=
  (counts.map fun p => if 0 < p.1 then 1 / (p.2 : ℝ) else 0).sum

/-- `entropy` at the end of the loop (moeoEntropyMetric.h 87-91): the closing parenthesis of the first logarithm comes
after the division by `log (2.0)`. -/
noncomputable def entropySum (counts : List (Nat × Nat)) : ℝ :=
  (counts.map fun p => if 0 < p.1 then
    (p.1 : ℝ) / (p.2 * counts.length) * Real.log (((p.1 : ℝ) / counts.length) / Real.log 2) else 0).sum

/-- moeoEntropyMetric::operator() (moeoEntropyMetric.h 59-96).  `none`: a division by zero, by the range of an objective
or by `log (omega)`. -/
noncomputable def entropyMetric (K : Nat) (dom eq : (Nat → ℝ) → (Nat → ℝ) → Bool) (set1 set2 : List (Nat → ℝ)) :
    Except Err (Option ℝ) :=
  let s1 := removeDominated dom set1
  let s2 := removeDominated dom set2
  if s1 = [] then .error .ub
  else
    let lo := preLo s1
    let hi := preHi s1
    open Classical in
    if ∃ j < K, hi j = lo j then .ok none
    else
      let n1 := normEntropy lo hi s1
      let n2 := normEntropy lo hi s2
      let star := removeDominated dom (computeUnion eq n1 n2)
      let counts := nicheCounts K n1 star (computeUnion eq n1 star)
      if Real.log (omegaOf counts) = 0 then .ok none
      else .ok (some (entropySum counts / (-Real.log (omegaOf counts)) * Real.log 2))

end Paradiseo.Moeo
