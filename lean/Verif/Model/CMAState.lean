import Verif.Model.EdoCMA

/-!
# eo: CMA-ES (Hansen's)

Model of eo/src/es/CMAParams.cpp, CMAState.cpp and eoCMABreed.h.  Numbers are real numbers; vectors and
matrices are functions of their indices, of which only those below the size matter; the lower triangular
matrix is a symmetric one.  What depends on the rounding of floating-point numbers (a sum equal to one of its
terms, 263-287) and on the history of fitness values (175-187) is a parameter.  A division by zero and a read
beyond the end of the weights are the outcome `none`.
-/

namespace Paradiseo.Cma

open Finset
open Paradiseo.Edo (Mat)

/-! ### Parameters -/

/-- `4+(int)(3*log((double) n))` (CMAParams.cpp 197). -/
noncomputable def defaultLambda (n : Nat) : Nat := 4 + ⌊3 * Real.log n⌋₊

/-- The number of weights: the array is sized in defaults() and never again (CMAParams.cpp 198-200). -/
noncomputable def defaultMu (n : Nat) : Nat := defaultLambda n / 2

/-- The value given by the user, corrected (CMAParams.cpp 89-99). -/
def fixMu (lambda mu : Nat) : Nat := if lambda ≤ mu then lambda / 2 else mu

/-- The weights before the normalisation (CMAParams.cpp 110-131); `mu - i` is unsigned. -/
noncomputable def raw (scheme mu i : Nat) : ℝ :=
  match scheme with
  | 1 => (((mu + 2 ^ 32 - i) % 2 ^ 32 : ℕ) : ℝ)
  | 2 => 1
  | _ => Real.log (mu + 1) - Real.log (i + 1)

/-- The weights of the array of size `S` (CMAParams.cpp 134-136). -/
noncomputable def weight (scheme mu S i : Nat) : ℝ := raw scheme mu i / ∑ k ∈ range S, raw scheme mu k

/-- `mueff` (CMAParams.cpp 135). -/
noncomputable def mueff (scheme mu S : Nat) : ℝ :=
  (∑ k ∈ range S, raw scheme mu k) * (∑ k ∈ range S, raw scheme mu k) / ∑ k ∈ range S, raw scheme mu k * raw scheme mu k

/-- CMAParams (CMAParams.h): `size` is the size of the array of weights. -/
structure Par where
  n : Nat
  mu : Nat
  size : Nat
  weights : Nat → ℝ
  mueff : ℝ
  ccumsig : ℝ
  ccumcov : ℝ
  ccov : ℝ
  damp : ℝ

/-- `ccov` (CMAParams.cpp 146-151). -/
noncomputable def rateCov (n : Nat) (m : ℝ) : ℝ :=
  let t1 : ℝ := 2 / ((n + 14142 / 10000) * (n + 14142 / 10000))
  let t2 : ℝ := (2 * m - 1) / ((n + 2) * (n + 2) + m)
  let t2 := if 1 < t2 then 1 else t2
  1 / m * t1 + (1 - 1 / m) * t2

/-- The constructor (CMAParams.cpp 55-191); `mu` is the corrected number of parents, `S` the size of the
array of weights. -/
noncomputable def mkPar (n maxgen scheme mu S : Nat) : Par :=
  let m := mueff scheme mu S
  let cs : ℝ := (m + 2) / (n + m + 3)
  { n := n
    mu := mu
    size := S
    weights := weight scheme mu S
    mueff := m
    ccumsig := cs
    ccumcov := 4 / (n + 4)
    ccov := rateCov n m
    damp := 1 + max (3 / 10) (1 - (n : ℝ) / maxgen) * (1 + 2 * max 0 (Real.sqrt ((m - 1) / (n + 1)) - 1)) / cs }

/-! ### State -/

/-- CMAStateImpl (CMAState.cpp 69-83), without the history. -/
structure State where
  C : Mat
  B : Mat
  d : Nat → ℝ
  pc : Nat → ℝ
  ps : Nat → ℝ
  mean : Nat → ℝ
  sigma : ℝ
  gen : Nat

/-- The constructor (CMAState.cpp 86-102). -/
noncomputable def init (n : Nat) (stdevs mean : Nat → ℝ) (sigma : ℝ) : State :=
  let trace := ∑ i ∈ range n, stdevs i * stdevs i
  let d := fun i => stdevs i * Real.sqrt (n / trace)
  { C := fun i j => if i = j then d i * d i else 0
    B := fun i j => if i = j then 1 else 0
    d := d
    pc := fun _ => 0
    ps := fun _ => 0
    mean := mean
    sigma := sigma
    gen := 0 }

/-- sample (CMAState.cpp 104-120). -/
noncomputable def sample (n : Nat) (s : State) (z : Nat → ℝ) (i : Nat) : ℝ :=
  s.mean i + s.sigma * ∑ j ∈ range n, s.B i j * (s.d j * z j)

/-- The weighted mean (CMAState.cpp 134-138); `x k i` is the variable `i` of the individual `k`. -/
noncomputable def newMean (p : Par) (x : Nat → Nat → ℝ) (i : Nat) : ℝ := ∑ k ∈ range p.mu, p.weights k * x k i

/-- `BDz` (CMAState.cpp 139). -/
noncomputable def bdz (p : Par) (x : Nat → Nat → ℝ) (s : State) (i : Nat) : ℝ :=
  Real.sqrt p.mueff * (newMean p x i - s.mean i) / s.sigma

/-- The path of the step size (CMAState.cpp 144-159). -/
noncomputable def newPs (p : Par) (x : Nat → Nat → ℝ) (s : State) (i : Nat) : ℝ :=
  let tmp := fun k => (∑ j ∈ range p.n, s.B j k * bdz p x s j) / s.d k
  (1 - p.ccumsig) * s.ps i + Real.sqrt (p.ccumsig * (2 - p.ccumsig)) * ∑ k ∈ range p.n, s.B i k * tmp k

/-- `chiN` (CMAState.cpp 165). -/
noncomputable def chiN (n : Nat) : ℝ := Real.sqrt n * (1 - 1 / (4 * (n : ℝ)) + 1 / (21 * (n : ℝ) * n))

open Classical in
/-- `hsig` (CMAState.cpp 167): in the generation zero `1 - pow(1-ccumsig, 0)` is zero, the quotient infinite or
not a number and the comparison false. -/
noncomputable def hsig (p : Par) (gen : Nat) (psxps : ℝ) : ℝ :=
  if gen ≠ 0 ∧ Real.sqrt psxps / Real.sqrt (1 - (1 - p.ccumsig) ^ (2 * gen)) / chiN p.n < 1.5 + 1 / ((p.n : ℝ) - 0.5)
  then 1 else 0

/-- The path of the covariance (CMAState.cpp 169). -/
noncomputable def newPc (p : Par) (x : Nat → Nat → ℝ) (s : State) (h : ℝ) (i : Nat) : ℝ :=
  (1 - p.ccumcov) * s.pc i + h * Real.sqrt (p.ccumcov * (2 - p.ccumcov)) * bdz p x s i

open Classical in
/-- The factor that removes momentum (CMAState.cpp 189-193). -/
noncomputable def tfac (p : Par) (worse : Bool) (psxps : ℝ) : ℝ :=
  if 1.5 + 10 * Real.sqrt (2 / p.n) < psxps / p.n ∧ worse = true then
    Real.sqrt ((1 + max 0 (Real.log (psxps / p.n))) * p.n / psxps)
  else 1

/-- The covariance matrix (CMAState.cpp 202-228). -/
noncomputable def newC (p : Par) (x : Nat → Nat → ℝ) (s : State) (h : ℝ) (pc : Nat → ℝ) : Mat :=
  fun i j => (1 - p.ccov) * s.C i j + p.ccov * (1 / p.mueff) * pc i * pc j +
    (1 - h) * p.ccumcov * (2 - p.ccumcov) * s.C i j +
    ∑ k ∈ range p.mu, p.ccov * (1 - 1 / p.mueff) * p.weights k * (x k i - s.mean i) * (x k j - s.mean j) /
      s.sigma / s.sigma

open Classical in
/-- reestimate with treatNumericalIssues (CMAState.cpp 122-292): `worse` tells if the fitness gets worse,
`stuck i` if the mean does not change numerically in the direction `i`, `grow` is the sum of the exponents by
which the step size is increased for numerical reasons. -/
noncomputable def reestimate (p : Par) (x : Nat → Nat → ℝ) (worse : Bool) (stuck : Nat → Bool) (grow : ℝ) (s : State) :
    Option State :=
  if p.size < p.mu ∨ s.sigma = 0 ∨ p.mueff = 0 ∨ ∃ k, k < p.n ∧ s.d k = 0 then none
  else
    let ps := newPs p x s
    let psxps := ∑ i ∈ range p.n, ps i * ps i
    let h := hsig p s.gen psxps
    let pc := newPc p x s h
    let f := tfac p worse psxps
    let C := if p.ccov ≠ 0 then newC p x s h pc else s.C
    some { s with
      mean := newMean p x
      pc := pc
      ps := fun i => ps i * f
      C := fun i j => if i = j ∧ stuck i = true then C i j * (1 + p.ccov) else C i j
      sigma := s.sigma * Real.exp ((Real.sqrt (psxps * (f * f)) / chiN p.n - 1) / p.damp) * Real.exp grow
      gen := s.gen + 1 }

/-! ### Eigensystem -/

/-- `d.min()` (CMAState.cpp 309). -/
noncomputable def minOf (n : Nat) (d : Nat → ℝ) : ℝ := (List.range n).foldl (fun a k => min a (d k)) (d 0)
/-- `d.max()` (CMAState.cpp 310). -/
noncomputable def maxOf (n : Nat) (d : Nat → ℝ) : ℝ := (List.range n).foldl (fun a k => max a (d k)) (d 0)

/-- The limit of the condition number (CMAState.cpp 309-322): what is added to the diagonal. -/
noncomputable def lift (eps : ℝ) (n : Nat) (v : Nat → ℝ) : ℝ :=
  if minOf n v < maxOf n v * eps then maxOf n v * eps - minOf n v else 0

/-- `C[i][i] += t` (CMAState.cpp 319, 339). -/
def addDiag (t : ℝ) (C : Mat) : Mat := fun i j => if i = j then C i j + t else C i j

/-- updateEigenSystem (CMAState.cpp 295-345): `eig t C` is the outcome of the solver at the try `t`, nothing if
it needs too many iterations; `left` tries remain; `good` is the static variable.  Nothing: returned false. -/
noncomputable def eigLoop (eig : Nat → Mat → Option (Mat × (Nat → ℝ))) (eps : ℝ) (n : Nat) :
    Nat → Nat → ℝ → State → Option (State × ℝ)
  | 0, _, _, _ => none
  | left + 1, t, good, s =>
    match eig t s.C with
    | some (B, v) =>
      let e := lift eps n v
      some ({ s with C := addDiag e s.C, B := B, d := fun i => Real.sqrt (v i + e) }, minOf n v + e)
    | none => eigLoop eig eps n left (t + 1) good { s with C := addDiag (good * Real.exp t) s.C }

/-- One generation of eoCMABreed (eoCMABreed.h 60-66) when an eigensystem is found. -/
noncomputable def generation (eig : Nat → Mat → Option (Mat × (Nat → ℝ))) (eps : ℝ) (p : Par) (x : Nat → Nat → ℝ)
    (worse : Bool) (stuck : Nat → Bool) (grow : ℝ) (sg : State × ℝ) : Option (State × ℝ) :=
  match reestimate p x worse stuck grow sg.1 with
  | none => none
  | some s => eigLoop eig eps p.n 10 0 sg.2 s

/-- What a generation depends on besides the state: the sorted parents and the outcome of the tests. -/
structure Gen where
  x : Nat → Nat → ℝ
  worse : Bool
  stuck : Nat → Bool
  grow : ℝ

/-- Any number of generations. -/
noncomputable def run (eig : Nat → Mat → Option (Mat × (Nat → ℝ))) (eps : ℝ) (p : Par) :
    List Gen → State × ℝ → Option (State × ℝ)
  | [], sg => some sg
  | g :: gs, sg =>
    match generation eig eps p g.x g.worse g.stuck g.grow sg with
    | none => none
    | some sg' => run eig eps p gs sg'

end Paradiseo.Cma
