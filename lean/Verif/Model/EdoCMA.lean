import Verif.Model.EdoCholesky
import Mathlib.Analysis.SpecialFunctions.Log.Basic
import Mathlib.Analysis.SpecialFunctions.Pow.Real

/-!
# edo: CMA-ES (adaptive normal distribution)

Model of edo/src/edoNormalAdaptive.h, edoEstimatorNormalAdaptive.h and edoSamplerNormalAdaptive.h.  Numbers
are real numbers; vectors and matrices are functions of their indices, of which only those below the size
matter.  A division by zero in a matrix and a square root of a negative eigenvalue are the outcome `none`.
The counters are unsigned numbers of 32 bits.
-/

namespace Paradiseo.Edo

open Finset

/-! ### Weights and learning rates -/

/-- `log(pop_size + 0.5) - log(i + 1)` (edoEstimatorNormalAdaptive.h 68). -/
noncomputable def rawWeight (lam i : Nat) : ℝ := Real.log (lam + 1 / 2) - Real.log (i + 1)

/-- edoCMAESweights (edoEstimatorNormalAdaptive.h 62-77). -/
noncomputable def weight (lam i : Nat) : ℝ := rawWeight lam i / ∑ k ∈ range lam, rawWeight lam k

/-- `mueff` (edoEstimatorNormalAdaptive.h 121). -/
noncomputable def mueff (lam : Nat) : ℝ :=
  (∑ i ∈ range lam, weight lam i) ^ 2 / ∑ i ∈ range lam, weight lam i ^ 2

/-- `cc` (edoEstimatorNormalAdaptive.h 124). -/
noncomputable def rateCC (N : Nat) (m : ℝ) : ℝ := (4 + m / N) / (N + 4 + 2 * m / N)

/-- `cs` (edoEstimatorNormalAdaptive.h 127). -/
noncomputable def rateCS (N : Nat) (m : ℝ) : ℝ := (m + 2) / (N + m + 5)

/-- `c1` (edoEstimatorNormalAdaptive.h 130). -/
noncomputable def rateC1 (N : Nat) (m : ℝ) : ℝ := 2 / ((N + 13 / 10) ^ 2 + m)

/-- `cmu` (edoEstimatorNormalAdaptive.h 133). -/
noncomputable def rateCmu (N : Nat) (m : ℝ) : ℝ := 2 * (m - 2 + 1 / m) / ((N + 2) ^ 2 + m)

/-- `damps` (edoEstimatorNormalAdaptive.h 136). -/
noncomputable def damps (N : Nat) (m : ℝ) : ℝ :=
  1 + 2 * max 0 (Real.sqrt ((m - 1) / (N + 1)) - 1) + rateCS N m

/-- `chiN` (edoEstimatorNormalAdaptive.h 150): `N` is unsigned, so `1/(4*N)` is an integer division. -/
noncomputable def chiN (N : Nat) : ℝ :=
  Real.sqrt N * (((1 - 1 / (4 * N) : ℕ) : ℝ) + 1 / (21 * (N : ℝ) ^ 2))

/-! ### The distribution -/

/-- edoNormalAdaptive (edoNormalAdaptive.h 80-195), with the counters of the estimator
(edoEstimatorNormalAdaptive.h 247-248). -/
structure CMA where
  mean : Nat → ℝ
  covar : Mat
  coord : Mat
  scaling : Nat → ℝ
  sigma : ℝ
  pathC : Nat → ℝ
  pathS : Nat → ℝ
  calls : Nat
  eigeneval : Nat

/-- The distribution at the beginning (edoNormalAdaptive.h 80-91, edoEstimatorNormalAdaptive.h 55-59). -/
noncomputable def CMA.init : CMA where
  mean := fun _ => 0
  covar := fun i j => if i = j then 1 else 0
  coord := fun i j => if i = j then 1 else 0
  scaling := fun _ => 1
  sigma := 1
  pathC := fun _ => 0
  pathS := fun _ => 0
  calls := 0
  eigeneval := 0

/-- `arx * weights` (edoEstimatorNormalAdaptive.h 161); `arx d i` is the variable `d` of the individual
`i`. -/
noncomputable def newMean (lam : Nat) (arx : Nat → Nat → ℝ) (d : Nat) : ℝ :=
  ∑ i ∈ range lam, arx d i * weight lam i

/-- `coord_sys * scaling.asDiagonal().inverse() * coord_sys.transpose()`
(edoEstimatorNormalAdaptive.h 143-145). -/
noncomputable def invSqrt (N : Nat) (s : CMA) (i j : Nat) : ℝ :=
  ∑ k ∈ range N, s.coord i k * (1 / s.scaling k) * s.coord j k

/-- The path of the step size (edoEstimatorNormalAdaptive.h 171-173). -/
noncomputable def newPathS (N lam : Nat) (arx : Nat → Nat → ℝ) (s : CMA) (i : Nat) : ℝ :=
  let cs := rateCS N (mueff lam)
  (1 - cs) * s.pathS i + (∑ j ∈ range N,
    Real.sqrt (cs * (2 - cs) * mueff lam) * invSqrt N s i j * (newMean lam arx j - s.mean j)) / s.sigma

/-- The norm of a vector of size `N`. -/
noncomputable def norm2 (N : Nat) (v : Nat → ℝ) : ℝ := Real.sqrt (∑ i ∈ range N, v i ^ 2)

/-- `counteval` (edoEstimatorNormalAdaptive.h 98-100). -/
def counteval (lam : Nat) (s : CMA) : Nat := ((s.calls + 1) % 2 ^ 32 * lam) % 2 ^ 32

open Classical in
/-- `hsig` (edoEstimatorNormalAdaptive.h 176-183).  Should the counter have come back to zero, the norm is
divided by zero and the comparison is false. -/
noncomputable def hsig (N lam : Nat) (s : CMA) (ps : Nat → ℝ) : ℝ :=
  let cs := rateCS N (mueff lam)
  if counteval lam s ≠ 0 ∧
      norm2 N ps / Real.sqrt (1 - (1 - cs) ^ (2 * (counteval lam s : ℝ) / lam)) / chiN N <
        1.4 + 2 / ((N : ℝ) + 1) then 1 else 0

/-- The path of the covariance (edoEstimatorNormalAdaptive.h 186-188). -/
noncomputable def newPathC (N lam : Nat) (arx : Nat → Nat → ℝ) (s : CMA) (h : ℝ) (i : Nat) : ℝ :=
  let cc := rateCC N (mueff lam)
  (1 - cc) * s.pathC i + h * Real.sqrt (cc * (2 - cc) * mueff lam) * (newMean lam arx i - s.mean i) / s.sigma

/-- `artmp` (edoEstimatorNormalAdaptive.h 190-194). -/
noncomputable def steps (arx : Nat → Nat → ℝ) (s : CMA) (d i : Nat) : ℝ := 1 / s.sigma * (arx d i - s.mean d)

/-- The covariance matrix (edoEstimatorNormalAdaptive.h 203-208). -/
noncomputable def newCovar (N lam : Nat) (arx : Nat → Nat → ℝ) (s : CMA) (h : ℝ) (pc : Nat → ℝ) : Mat :=
  let m := mueff lam
  let cc := rateCC N m
  fun a b => (1 - rateC1 N m - rateCmu N m) * s.covar a b +
    rateC1 N m * (pc a * pc b + (1 - h) * cc * (2 - cc) * s.covar a b) +
    ∑ i ∈ range lam, rateCmu N m * steps arx s a i * weight lam i * steps arx s b i

/-- The step size (edoEstimatorNormalAdaptive.h 211). -/
noncomputable def newSigma (N lam : Nat) (s : CMA) (ps : Nat → ℝ) : ℝ :=
  let m := mueff lam
  s.sigma * Real.exp (rateCS N m / damps N m * (norm2 N ps / chiN N - 1))

open Classical in
/-- The decomposition (edoEstimatorNormalAdaptive.h 220-240): `eig` gives the eigenvectors, as columns,
and the eigenvalues; `c` is the counter. -/
noncomputable def decompose (eig : Mat → Mat × (Nat → ℝ)) (N lam c : Nat) (s : CMA) : Option CMA :=
  let m := mueff lam
  if ((c + 2 ^ 32 - s.eigeneval) % 2 ^ 32 : ℕ) > (lam : ℝ) / (rateC1 N m + rateCmu N m) / N / 10 then
    if ∃ k, k < N ∧ (eig s.covar).2 k < 0 then none
    else some { s with
      eigeneval := c
      scaling := fun k => Real.sqrt ((eig s.covar).2 k)
      coord := (eig s.covar).1 }
  else some s

open Classical in
/-- edoEstimatorNormalAdaptive::operator() (edoEstimatorNormalAdaptive.h 86-243) on a population of `lam`
individuals. -/
noncomputable def cmaUpdate (eig : Mat → Mat × (Nat → ℝ)) (N lam : Nat) (arx : Nat → Nat → ℝ) (s : CMA) :
    Option CMA :=
  if N = 0 ∨ lam = 0 ∨ s.sigma = 0 ∨ ∃ k, k < N ∧ s.scaling k = 0 then none
  else
    let ps := newPathS N lam arx s
    let h := hsig N lam s ps
    let pc := newPathC N lam arx s h
    decompose eig N lam (counteval lam s) { s with
      mean := newMean lam arx
      pathS := ps
      pathC := pc
      covar := newCovar N lam arx s h pc
      sigma := newSigma N lam s ps
      calls := (s.calls + 1) % 2 ^ 32 }

/-- Any number of generations: the sizes and the selected populations are arbitrary. -/
noncomputable def cmaRun (eig : Mat → Mat × (Nat → ℝ)) (N : Nat) :
    List (Nat × (Nat → Nat → ℝ)) → CMA → Option CMA
  | [], s => some s
  | (lam, arx) :: ps, s =>
    match cmaUpdate eig N lam arx s with
    | none => none
    | some s' => cmaRun eig N ps s'

/-- edoSamplerNormalAdaptive::sample (edoSamplerNormalAdaptive.h 59-108): `z` is the vector of normal
numbers. -/
noncomputable def cmaSample (N : Nat) (s : CMA) (z : Nat → ℝ) (i : Nat) : ℝ :=
  s.mean i + ∑ k ∈ range N, s.sigma * s.coord i k * (s.scaling k * z k)

end Paradiseo.Edo
