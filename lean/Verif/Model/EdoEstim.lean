import Verif.Model.EdoCholesky
import Verif.Model.EdoRepair
import Mathlib.Analysis.SpecialFunctions.Exp

/-!
# edo: estimators, samplers, and the acceptance rule of edoEDASA

Model of edo/src/edoEstimatorUniform.h, edoEstimatorBinomial.h, edoEstimatorNormalMono.h,
edoEstimatorNormalMulti.h, edoSamplerUniform.h, edoSamplerBinomial.h, edoSamplerNormalMono.h,
edoSamplerNormalMulti.h and of the inner loop of edoEDASA.h.  Numbers are rationals, or reals where square
roots or exponentials occur.  An access outside of a vector is the outcome `none`.
-/

namespace Paradiseo.Edo

/-! ### Uniform distribution -/

/-- The loop over the variables for one bound (edoEstimatorUniform.h 59-66); `f m v` is the new bound. -/
def mergeBound (f : ℚ → ℚ → ℚ) : List ℚ → List ℚ → Option (List ℚ)
  | ms, [] => some ms
  | [], _ :: _ => none
  | m :: ms, v :: vs =>
    match mergeBound f ms vs with
    | none => none
    | some ws => some (f m v :: ws)

/-- `if (pop[i][d] < min[d]) min[d] = pop[i][d]` (edoEstimatorUniform.h 61-62). -/
def lower (m v : ℚ) : ℚ := if v < m then v else m

/-- `if (pop[i][d] > max[d]) max[d] = pop[i][d]` (edoEstimatorUniform.h 64-65). -/
def upper (m v : ℚ) : ℚ := if v > m then v else m

/-- The loop over the individuals (edoEstimatorUniform.h 51-67). -/
def boxLoop : List (List ℚ) → List ℚ × List ℚ → Option (List ℚ × List ℚ)
  | [], b => some b
  | x :: xs, b =>
    match mergeBound lower b.1 x, mergeBound upper b.2 x with
    | some lo, some hi => boxLoop xs (lo, hi)
    | _, _ => none

/-- edoEstimatorUniform::operator() (edoEstimatorUniform.h 42-70). -/
def estUniform : List (List ℚ) → Option (List ℚ × List ℚ)
  | [] => none
  | x :: xs => boxLoop xs (x, x)

/-- edoSamplerUniform::sample (edoSamplerUniform.h 56-79); `u t` is the `t`-th draw of `rng.uniform()`. -/
def sampleUniform (u : Nat → ℚ) : Nat → List ℚ → List ℚ → Option (List ℚ)
  | _, [], _ => some []
  | _, _ :: _, [] => none
  | t, lo :: los, hi :: his =>
    match sampleUniform u (t + 1) los his with
    | none => none
    | some ws => some (uniformIn lo hi (u t) :: ws)

/-! ### Binomial distribution -/

/-- The loop over the bits of one individual (edoEstimatorBinomial.h 61-64). -/
def addRow (n : ℚ) : List ℚ → List Bool → Option (List ℚ)
  | [], _ => some []
  | _ :: _, [] => none
  | p :: ps, b :: bs =>
    match addRow n ps bs with
    | none => none
    | some qs => some ((p + (if b then 1 else 0) / n) :: qs)

/-- The loop over the individuals (edoEstimatorBinomial.h 60-65). -/
def rowsLoop (n : ℚ) : List (List Bool) → List ℚ → Option (List ℚ)
  | [], ps => some ps
  | x :: xs, ps =>
    match addRow n ps x with
    | none => none
    | some qs => rowsLoop n xs qs

/-- edoEstimatorBinomial::operator() (edoEstimatorBinomial.h 50-68). -/
def estBinomial : List (List Bool) → Option (List ℚ)
  | [] => none
  | x :: xs => rowsLoop ((x :: xs).length : ℕ) (x :: xs) (List.replicate x.length 0)

/-- edoSamplerBinomial::sample (edoSamplerBinomial.h 46-62): `rng.flip(p)` is `uniform() < p`
(eoRNG.h 215-218). -/
def sampleBinomial (u : Nat → ℚ) : Nat → List ℚ → List Bool
  | _, [] => []
  | t, p :: ps => decide (u t < p) :: sampleBinomial u (t + 1) ps

/-! ### Normal distribution with independent variables -/

/-- Variance (edoEstimatorNormalMono.h 46-88). -/
structure Var where
  n : ℚ
  mean : ℚ
  m2 : ℚ
  deriving DecidableEq

/-- Variance::Variance (edoEstimatorNormalMono.h 49). -/
def Var.init : Var := ⟨0, 0, 0⟩

/-- Variance::update (edoEstimatorNormalMono.h 51-59). -/
def Var.update (v : Var) (x : ℚ) : Var :=
  let n := v.n + 1
  let delta := x - v.mean
  let mean := v.mean + delta / n
  ⟨n, mean, v.m2 + delta * (x - mean)⟩

/-- Variance::var_n (edoEstimatorNormalMono.h 64-67). -/
def Var.varN (v : Var) : ℚ := v.m2 / v.n

/-- Variance::var (edoEstimatorNormalMono.h 73-76). -/
def Var.var (v : Var) : ℚ := v.m2 / (v.n - 1)

/-- The loop over the variables (edoEstimatorNormalMono.h 103-106). -/
def varRow : List Var → List ℚ → Option (List Var)
  | [], _ => some []
  | _ :: _, [] => none
  | v :: vs, x :: xs =>
    match varRow vs xs with
    | none => none
    | some ws => some (v.update x :: ws)

/-- The loop over the individuals (edoEstimatorNormalMono.h 101-107). -/
def varLoop : List (List ℚ) → List Var → Option (List Var)
  | [], vs => some vs
  | x :: xs, vs =>
    match varRow vs x with
    | none => none
    | some ws => varLoop xs ws

/-- edoEstimatorNormalMono::operator() (edoEstimatorNormalMono.h 91-119): means and variances. -/
def estNormalMono : List (List ℚ) → Option (List ℚ × List ℚ)
  | [] => none
  | x :: xs =>
    match varLoop (x :: xs) (List.replicate x.length Var.init) with
    | none => none
    | some vs => some (vs.map Var.mean, vs.map Var.varN)

/-- edoSamplerNormalMono::sample (edoSamplerNormalMono.h 52-73): `z i` is the normal number drawn for the
variable `i`, and `rng.normal(mean, stdev)` is `mean + stdev * z` (eoRNG.h 262-273). -/
noncomputable def sampleNormalMono (mean variance : Nat → ℝ) (z : Nat → ℝ) (i : Nat) : ℝ :=
  mean i + Real.sqrt (variance i) * z i

/-! ### Normal distribution with a covariance matrix -/

/-- CovMatrix::CovMatrix (edoEstimatorNormalMulti.h 68-146, 185-221): `sample i j` is the variable `j` of
the individual `i`.  The "variance-covariance matrix" is `trans(sample) * sample / n`. -/
noncomputable def covMatrix (n : Nat) (sample : Nat → Nat → ℝ) : Mat :=
  fun i j => (∑ p ∈ Finset.range n, sample p i * sample p j) / n

/-- The mean: `trans(sample) * u / n` with a vector of ones (edoEstimatorNormalMulti.h 139-145). -/
noncomputable def covMean (n : Nat) (sample : Nat → Nat → ℝ) : Nat → ℝ :=
  fun i => (∑ p ∈ Finset.range n, sample p i * 1) / n

/-- edoSamplerNormalMulti::sample (edoSamplerNormalMulti.h 78-102): the mean plus the Cholesky factor times
a vector of normal numbers. -/
noncomputable def sampleNormalMulti (N : Nat) (mean : Nat → ℝ) (V : Mat) (z : Nat → ℝ) : Option (Nat → ℝ) :=
  match factorize pivLLT V N with
  | none => none
  | some L => some fun i => mean i + ∑ k ∈ Finset.range N, L i k * z k

/-! ### edoEDASA -/

/-- The acceptance rule (edoEDASA.h 207-208). -/
def saAccept (cand cur u temp : ℝ) : Prop := cand < cur ∨ u < Real.exp (|cand - cur| / temp)

open Classical in
/-- The inner loop (edoEDASA.h 201-214) at a temperature: `cands` are the candidates with their fitness,
in the order in which the sampler would give them, `u t` the draws, `cont` the continuator.  The result
is `current_pop` and the current solution; `none` when the candidates given are not enough for the loop
to end. -/
noncomputable def saLoop (temp : ℝ) (u : Nat → ℝ) (cont : Nat → ℝ → Bool) :
    Nat → List ℝ → List ℝ → ℝ → Option (List ℝ × ℝ)
  | _, [], _, _ => none
  | t, c :: cs, pop, cur =>
    let acc := saAccept c cur (u t) temp
    let pop' := if acc then pop ++ [c] else pop
    let cur' := if acc then c else cur
    if cont t cur' then saLoop temp u cont (t + 1) cs pop' cur' else some (pop', cur')

end Paradiseo.Edo
