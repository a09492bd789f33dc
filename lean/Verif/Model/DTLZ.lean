import Verif.Model.EOAlgo
import Mathlib.Analysis.SpecialFunctions.Pow.Real
import Mathlib.Analysis.SpecialFunctions.Trigonometric.Basic

/-
Model of problems/DTLZ/src: the evaluations DTLZ1Eval … DTLZ7Eval, SBXCrossover and PolynomialMutation.

Simplifications: real numbers for `double` (so `M_PI` is π); the evaluations of individuals that already have an
objective vector, which do nothing, are left out; random numbers are given for each gene.
-/
namespace Paradiseo.DTLZ

open Paradiseo.EO

noncomputable section

/-- The distance variables: indices `nbFun - 1` to `nbVar - 1` (loops from `nbVar - k + 1` to `nbVar`, with
`k = nbVar - nbFun + 1`, DTLZ1Eval.cpp:53-56). -/
def distVars (M : Nat) (x : List ℝ) : List ℝ := x.drop (M - 1)

/-- Common loop of the evaluations 1 to 6 (DTLZ1Eval.cpp:60-69 and the others): objective `i` (from 1) starts from
`scale`, is multiplied by `c (j-1)` for `j = nbFun - i` down to 1, and if `i > 1` by `s (nbFun - i)`. -/
def objs (scale : ℝ) (c s : Nat → ℝ) (M : Nat) : List ℝ :=
  (List.range M).map fun i0 =>
    let i := i0 + 1
    let f := (List.range (M - i)).reverse.foldl (fun f j => f * c j) scale
    if i > 1 then f * s (M - i) else f

/-- What is needed of the sizes: at least one objective, and enough variables; the code reads outside
otherwise. -/
def sizesOk (M : Nat) (x : List ℝ) : Bool := decide (1 ≤ M) && decide (M ≤ x.length + 1)

/-- `g` of DTLZ1 and DTLZ3 (DTLZ1Eval.cpp:53-58, DTLZ3Eval.cpp:54-58). -/
def gMulti (M : Nat) (x : List ℝ) : ℝ :=
  100 * (((distVars M x).length : ℝ) +
    (distVars M x).foldl (fun g v => g + ((v - 0.5) ^ 2 - Real.cos (20 * Real.pi * (v - 0.5)))) 0)

/-- `g` of DTLZ2, DTLZ4 and DTLZ5 (DTLZ2Eval.cpp:54-57). -/
def gSphere (M : Nat) (x : List ℝ) : ℝ := (distVars M x).foldl (fun g v => g + (v - 0.5) ^ 2) 0

/-- `g` of DTLZ6 (DTLZ6Eval.cpp:56-59). -/
def gRoot (M : Nat) (x : List ℝ) : ℝ := (distVars M x).foldl (fun g v => g + v ^ (0.1 : ℝ)) 0

/-- DTLZ1Eval.cpp:43-73. -/
def dtlz1 (M : Nat) (x : List ℝ) : Except Err (List ℝ) :=
  if sizesOk M x then .ok (objs (0.5 * (1 + gMulti M x)) (fun j => x.getD j 0) (fun j => 1 - x.getD j 0) M)
  else .error .ub

/-- DTLZ2Eval.cpp:44-72. -/
def dtlz2 (M : Nat) (x : List ℝ) : Except Err (List ℝ) :=
  if sizesOk M x then .ok (objs (1 + gSphere M x) (fun j => Real.cos (x.getD j 0 * Real.pi / 2))
    (fun j => Real.sin (x.getD j 0 * Real.pi / 2)) M)
  else .error .ub

/-- DTLZ3Eval.cpp:44-73. -/
def dtlz3 (M : Nat) (x : List ℝ) : Except Err (List ℝ) :=
  if sizesOk M x then .ok (objs (1 + gMulti M x) (fun j => Real.cos (x.getD j 0 * Real.pi / 2))
    (fun j => Real.sin (x.getD j 0 * Real.pi / 2)) M)
  else .error .ub

/-- DTLZ4Eval.cpp:46-74. -/
def dtlz4 (alpha : ℝ) (M : Nat) (x : List ℝ) : Except Err (List ℝ) :=
  if sizesOk M x then .ok (objs (1 + gSphere M x) (fun j => Real.cos (x.getD j 0 ^ alpha * Real.pi / 2))
    (fun j => Real.sin (x.getD j 0 ^ alpha * Real.pi / 2)) M)
  else .error .ub

/-- The angles of DTLZ5 and DTLZ6 (DTLZ5Eval.cpp:62-66, DTLZ6Eval.cpp:61-65). -/
def theta (g : ℝ) (x : List ℝ) (j : Nat) : ℝ :=
  if j = 0 then Real.pi / 2 * x.getD 0 0 else Real.pi / (4 * (1 + g)) * (1 + 2 * g * x.getD j 0)

/-- DTLZ5Eval.cpp:45-81 and DTLZ6Eval.cpp:44-80, given `g`. With one objective the loop over the angles does not
end within the array. -/
def dtlzCurve (g : Nat → List ℝ → ℝ) (M : Nat) (x : List ℝ) : Except Err (List ℝ) :=
  if sizesOk M x && decide (2 ≤ M) then .ok (objs (1 + g M x) (fun j => Real.cos (theta (g M x) x j))
    (fun j => Real.sin (theta (g M x) x j)) M)
  else .error .ub

def dtlz5 := dtlzCurve gSphere
def dtlz6 := dtlzCurve gRoot

/-- DTLZ7Eval.cpp:43-73; without distance variables the code divides by zero, which is left out (`.thrown` stands
for the result that is not a number). -/
def dtlz7 (M : Nat) (x : List ℝ) : Except Err (List ℝ) :=
  if sizesOk M x then
    if x.length + 1 = M then .error .thrown
    else
      let g : ℝ := 1 + (9 * (distVars M x).foldl (fun g v => g + v) (0 : ℝ)) / ((distVars M x).length : ℝ)
      let h := (M : ℝ) - (x.take (M - 1)).foldl (fun h v => h + v / (1 + g) * (1 + Real.sin (3 * Real.pi * v))) (0 : ℝ)
      .ok (x.take (M - 1) ++ [(1 + g) * h])
  else .error .ub

/-! ### Variation -/

open Classical

/-- `eoRealInterval::truncate` (eoRealBounds.h:298-305). -/
def truncate (lo hi r : ℝ) : ℝ := if r < lo then lo else if r > hi then hi else r

/-- The spread factor of SBXCrossover (SBXCrossover.h:141-149, 153-161). -/
def betaq (eta rand beta : ℝ) : ℝ :=
  let alpha := 2 - beta ^ (-(eta + 1))
  if rand ≤ 1 / alpha then (rand * alpha) ^ (1 / (eta + 1)) else (1 / (2 - rand * alpha)) ^ (1 / (eta + 1))

/-- `EPS` (SBXCrossover.h:97). -/
def eps : ℝ := 1 / 10 ^ 14

/-- The two children values before truncation (SBXCrossover.h:125-162), for `y1 < y2`. -/
def sbxPair (eta rand lo hi y1 y2 : ℝ) : ℝ × ℝ :=
  (0.5 * ((y1 + y2) - betaq eta rand (1 + 2 * (y1 - lo) / (y2 - y1)) * (y2 - y1)),
   0.5 * ((y1 + y2) + betaq eta rand (1 + 2 * (hi - y2) / (y2 - y1)) * (y2 - y1)))

/-- One gene of SBXCrossover (SBXCrossover.h:120-180); no bounds is `none`. The genes and whether they
changed. -/
def sbxGene (eta : ℝ) (bounds : Option (ℝ × ℝ)) (rand : ℝ) (flip : Bool) (a b : ℝ) : Except Err ((ℝ × ℝ) × Bool) :=
  if |a - b| > eps then
    match bounds with
    | none => .error .thrown
    | some (lo, hi) =>
      let c := if a < b then sbxPair eta rand lo hi a b else sbxPair eta rand lo hi b a
      let c1 := truncate lo hi c.1
      let c2 := truncate lo hi c.2
      .ok (if flip then (c2, c1) else (c1, c2), true)
  else .ok ((a, b), false)

/-- SBXCrossover (SBXCrossover.h:109-184) on a list of genes: parents, bounds, random numbers and coin flips
of each position. -/
structure SbxIn where
  a : ℝ
  b : ℝ
  bounds : Option (ℝ × ℝ)
  rand : ℝ
  flip : Bool

def sbx (eta : ℝ) : List SbxIn → Except Err (List (ℝ × ℝ) × Bool)
  | [] => .ok ([], false)
  | p :: l =>
    match sbxGene eta p.bounds p.rand p.flip p.a p.b with
    | .error e => .error e
    | .ok (ab, ch) =>
      match sbx eta l with
      | .error e => .error e
      | .ok (rest, ch') => .ok (ab :: rest, ch || ch')

/-- One gene of PolynomialMutation (PolynomialMutation.h:70-108). -/
def polyGene (eta rnd lo hi y : ℝ) : ℝ :=
  let delta1 := (y - lo) / (hi - lo)
  let delta2 := (hi - y) / (hi - lo)
  let deltaMax := if y - lo > hi - y then delta2 else delta1
  let mutPow := 1 / (eta + 1)
  let xy := 1 - deltaMax
  let dq := if rnd ≤ 0.5 then
      (2 * rnd + (1 - 2 * rnd) * xy ^ (eta + 1)) ^ mutPow - 1
    else
      1 - (2 * (1 - rnd) + 2 * (rnd - 0.5) * xy ^ (eta + 1)) ^ mutPow
  let dq := if dq > deltaMax then deltaMax else if dq < -deltaMax then -deltaMax else dq
  truncate lo hi (y + dq * (hi - lo))

/-- PolynomialMutation (PolynomialMutation.h:60-115): for each gene its value, its bounds, the coin flip and the
random number. -/
structure PolyIn where
  y : ℝ
  lo : ℝ
  hi : ℝ
  flip : Bool
  rnd : ℝ

def poly (eta : ℝ) (l : List PolyIn) : List ℝ × Bool :=
  (l.map fun p => if p.flip then polyGene eta p.rnd p.lo p.hi p.y else p.y, l.any (·.flip))

end

end Paradiseo.DTLZ
