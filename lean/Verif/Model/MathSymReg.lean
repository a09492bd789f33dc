import Verif.Model.MathSym
import Mathlib.Algebra.BigOperators.Group.List.Basic
import Mathlib.Data.Real.Basic

/-!
# mathsym: statistics, scalings and errors of regression

Model of eo/contrib/mathsym/regression: stats.h, Scaling.cpp, TargetInfo.cpp, ErrorMeasure.cpp.

Simplifications: real numbers without rounding; predictions and targets come as one list of pairs, with weights of
triples; a quotient that is not a number is the outcome `none`.
-/

namespace Paradiseo.MathSym

/-- Sum over a list (valarray::sum and the loops). -/
def sumOf {α : Type} (f : α → ℝ) (l : List α) : ℝ := (l.map f).sum

/-! ### stats.h -/

/-- Mean (stats.h 20-33): n, mean. -/
structure MeanS where
  n : ℝ
  mean : ℝ

/-- Mean() (stats.h 26). -/
noncomputable def MeanS.init : MeanS := ⟨0, 0⟩

/-- Mean::update (stats.h 28-32). -/
noncomputable def MeanS.update (s : MeanS) (v : ℝ) : MeanS :=
  ⟨s.n + 1, s.mean + 1 / (s.n + 1) * (v - s.mean)⟩

/-- Var (stats.h 37-43). -/
structure VarS where
  n : ℝ
  mean : ℝ
  sumvar : ℝ

/-- Var() (stats.h 43). -/
noncomputable def VarS.init : VarS := ⟨0, 0, 0⟩

/-- Var::update (stats.h 45-50). -/
noncomputable def VarS.update (s : VarS) (v : ℝ) : VarS :=
  ⟨s.n + 1, s.mean + 1 / (s.n + 1) * (v - s.mean),
    s.sumvar + (s.n + 1 - 1) / (s.n + 1) * (v - s.mean) * (v - s.mean)⟩

/-- Var::get_var (stats.h 53). -/
noncomputable def VarS.var (s : VarS) : ℝ := s.sumvar / (s.n - 1)

/-- Cov (stats.h 58-65). -/
structure CovS where
  n : ℝ
  meana : ℝ
  meanb : ℝ
  sumcov : ℝ

/-- Cov() (stats.h 65). -/
noncomputable def CovS.init : CovS := ⟨0, 0, 0, 0⟩

/-- Cov::update (stats.h 67-76). -/
noncomputable def CovS.update (s : CovS) (p : ℝ × ℝ) : CovS :=
  ⟨s.n + 1, s.meana + 1 / (s.n + 1) * (p.1 - s.meana), s.meanb + 1 / (s.n + 1) * (p.2 - s.meanb),
    s.sumcov + (s.n + 1 - 1) / (s.n + 1) * (p.1 - s.meana) * (p.2 - s.meanb)⟩

/-- Cov::get_cov (stats.h 80). -/
noncomputable def CovS.cov (s : CovS) : ℝ := s.sumcov / (s.n - 1)

/-- CovMatrix (stats.h 83-89). -/
structure CovM where
  n : ℝ
  mean : Nat → ℝ
  sum : Nat → Nat → ℝ

/-- CovMatrix(dim) (stats.h 89). -/
noncomputable def CovM.init : CovM := ⟨0, fun _ => 0, fun _ _ => 0⟩

/-- `m[a][b] += u`. -/
noncomputable def addAt (m : Nat → Nat → ℝ) (a b : Nat) (u : ℝ) : Nat → Nat → ℝ :=
  fun p q => if p = a ∧ q = b then m p q + u else m p q

/-- The inner loop (stats.h 100-108) for `cnt` values of `j`. -/
noncomputable def covRow (n d : ℝ) (v mean : Nat → ℝ) (i : Nat) : Nat → Nat → (Nat → Nat → ℝ) → Nat → Nat → ℝ
  | 0, _, m => m
  | cnt + 1, j, m =>
    let upd := (n - 1) / n * d * (v j - mean j)
    covRow n d v mean i cnt (j + 1) (addAt (addAt m i j upd) j i upd)

/-- The outer loop (stats.h 94-109), the last `cnt` rows, of which the first is `i`. -/
noncomputable def covRows (n : ℝ) (v : Nat → ℝ) : Nat → Nat → (Nat → ℝ) → (Nat → Nat → ℝ) →
    (Nat → ℝ) × (Nat → Nat → ℝ)
  | 0, _, mean, m => (mean, m)
  | cnt + 1, i, mean, m =>
    let d := v i - mean i
    let mean' := fun p => if p = i then mean i + 1 / n * d else mean p
    covRows n v cnt (i + 1) mean' (covRow n d v mean' i (cnt + 1) i (addAt m i i ((n - 1) / n * d * d)))

/-- CovMatrix::update (stats.h 91-111). -/
noncomputable def CovM.update (dim : Nat) (s : CovM) (v : Nat → ℝ) : CovM :=
  let r := covRows (s.n + 1) v dim 0 s.mean s.sum
  ⟨s.n + 1, r.1, r.2⟩

/-- CovMatrix::get_cov (stats.h 116); get_var(i) is get_cov(i, i) (114). -/
noncomputable def CovM.cov (s : CovM) (i j : Nat) : ℝ := s.sum i j / (s.n - 1)

/-! ### Scaling.cpp: intercept and slope -/

open Classical in
/-- slope (Scaling.cpp 23-41) of pairs of input and target. -/
noncomputable def slopeOf (D : List (ℝ × ℝ)) : ℝ × ℝ :=
  let xx := sumOf (fun p => p.1 * p.1) D
  let xy := sumOf (fun p => p.1 * p.2) D
  if xx < 1 / 10 ^ 7 then (0, 0) else (0, xy / xx)

open Classical in
/-- ols (Scaling.cpp 98-123, 125-156). -/
noncomputable def olsOf (D : List (ℝ × ℝ)) : ℝ × ℝ :=
  let n : ℝ := D.length
  let ym := sumOf Prod.fst D / n
  let tm := sumOf Prod.snd D / n
  let sumvar := sumOf (fun p => (p.1 - ym) * (p.1 - ym)) D
  let cov := sumOf (fun p => (p.2 - tm) * (p.1 - ym)) D
  if sumvar = 0 ∨ sumvar / n < 1 / 10 ^ 7 ∨ sumvar / n > 10 ^ 7 then (tm, 0)
  else
    let b := cov / sumvar
    (tm - b * ym, b)

open Classical in
/-- wls (Scaling.cpp 159-217) of triples of weight, input and target. -/
noncomputable def wlsOf (D : List (ℝ × ℝ × ℝ)) : ℝ × ℝ :=
  let a := sumOf (fun p => p.1) D
  let b := sumOf (fun p => p.1 * p.2.1) D
  let d := sumOf (fun p => p.2.1 * (p.1 * p.2.1)) D
  let adbc := a * d - b * b
  if adbc < 1 / 10 ^ 17 then (0, 1)
  else
    let ai := d / adbc
    let bi := -b / adbc
    let di := a / adbc
    (sumOf (fun p => p.1 * (ai + bi * p.2.1) * p.2.2) D, sumOf (fun p => p.1 * (bi + di * p.2.1) * p.2.2) D)

open Classical in
/-- regularized_least_squares (Scaling.cpp 44-96). -/
noncomputable def rlsOf (lam : ℝ) (D : List (ℝ × ℝ)) : ℝ × ℝ :=
  let a := sumOf (fun _ => 1 + lam) D
  let b := sumOf Prod.fst D
  let d := sumOf (fun p => p.1 * p.1 + lam) D
  let adbc := a * d - b * b
  if adbc < 1 / 10 ^ 17 then (0, 1)
  else
    let ai := d / adbc
    let bi := -b / adbc
    let di := a / adbc
    (sumOf (fun p => (ai + bi * p.1) * p.2) D, sumOf (fun p => (bi + di * p.1) * p.2) D)

/-! ### TargetInfo.cpp -/

/-- The mean and variance of targets (TargetInfo.cpp 41-59). -/
noncomputable def targetMean (ts : List ℝ) : ℝ := sumOf id ts / ts.length
noncomputable def targetVar (ts : List ℝ) : ℝ :=
  sumOf (fun t => (t - targetMean ts) * (t - targetMean ts)) ts / ((ts.length : ℝ) - 1)

/-! ### ErrorMeasure.cpp -/

/-- eval with mean_squared (ErrorMeasure.cpp 83-85, 181-206). -/
noncomputable def mseOf (D : List (ℝ × ℝ)) : ℝ := sumOf (fun p => (p.1 - p.2) * (p.1 - p.2)) D / D.length

/-- eval with absolute (ErrorMeasure.cpp 86-88, 181-206). -/
noncomputable def maeOf (D : List (ℝ × ℝ)) : ℝ := sumOf (fun p => |p.1 - p.2|) D / D.length

/-- eval with mean_squared_scaled (ErrorMeasure.cpp 89-92): error and scaling. -/
noncomputable def scaledSingle (D : List (ℝ × ℝ)) : ℝ × ℝ × ℝ :=
  let s := olsOf D
  (sumOf (fun p => (p.2 - (s.1 + s.2 * p.1)) * (p.2 - (s.1 + s.2 * p.1))) D / D.length, s)

open Classical in
/-- multi_function_eval with mean_squared_scaled (ErrorMeasure.cpp 118-178) for one individual: the error, `none`
when it is not a number, and the scaling.  With one case all three statistics are 0/0. -/
noncomputable def scaledBatch (D : List (ℝ × ℝ)) : Option ℝ × ℝ × ℝ :=
  let vt := (D.map Prod.snd).foldl VarS.update VarS.init
  let vy := (D.map Prod.fst).foldl VarS.update VarS.init
  let cv := D.foldl CovS.update CovS.init
  if D.length = 1 then (none, 0, 1)
  else if vy.var = 0 then (some vt.var, 0, 1)
  else
    let b := cv.cov / vy.var
    (some (vt.var - cv.cov * cv.cov / vy.var), vt.mean - b * vy.mean, b)

/-- worst_performance (ErrorMeasure.cpp 332-339). -/
noncomputable def worstOf (scaled : Bool) (ts : List ℝ) : ℝ := if scaled then targetVar ts else 10 ^ 20

/-- The loop that removes clones (ErrorMeasure.cpp 256-264). -/
def declone {α : Type} [DecidableEq α] : List α → List α → List α
  | seen, [] => seen
  | seen, a :: l => if a ∈ seen then declone seen l else declone (seen ++ [a]) l

/-- calc_error for a population (ErrorMeasure.cpp 244-285): `f` is the result of one expression. -/
def calcErrors {α β : Type} [DecidableEq α] (multi : List α → List β) (pop : List α) : List (Option β) :=
  let d := declone [] pop
  let r := multi d
  pop.map fun a => r[d.idxOf a]?

end Paradiseo.MathSym
