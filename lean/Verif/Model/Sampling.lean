import Verif.Model.ILS
import Mathlib.Analysis.Real.Sqrt
import Mathlib.Algebra.BigOperators.Intervals

/-
Model of landscape sampling in MO (mo/src/sampling): `moSampling` and `moStatistics`.

`double` is modelled by the real numbers; the C++ `std::vector<double>` indexed from 0 is a function on
the natural numbers, read and written only inside its size where the code is defined.
-/
namespace Paradiseo.LS

/-! ### Sampling -/

/-- The loop of `moLocalSearch` (mo/src/algo/moLocalSearch.h:81-96) as in `lsLoop`, which also gives the
state in which it leaves the continuator. -/
def lsLoopK {Sol E K : Type} (ex : Explorer Sol E) (cont : K → Sol → Bool × K) :
    Nat → Nat → Sol → E → K → Option (List (Sol × E) × Bool × K)
  | 0, _, _, _, _ => none
  | fuel + 1, t, sol, e, k =>
    let (sol', e', _) := lsStep ex t sol e
    let (b, k') := cont k sol'
    if b && ex.isContinue sol' e' then
      (lsLoopK ex cont fuel (t + 1) sol' e' k').map fun p => ((sol', e') :: p.1, p.2)
    else some ([(sol', e')], b, k')

/-- The checkpoint that `moSampling` makes (sampling/moSampling.h:73-107) with the statistics
`stat 0, …, stat (n - 1)`, each monitored by a `moVectorMonitor`: one call (continuator/moCheckpoint.h:134-158,
interval 1). The state is that of the user's continuator and the vectors of the monitors. -/
def sampleCont {Sol K V : Type} (stats : List (Sol → V)) (cont : K → Sol → Bool × K) :
    K × List (List V) → Sol → Bool × (K × List (List V)) :=
  fun k sol =>
    let r := cont k.1 sol
    (r.1, (r.2, List.zipWith (fun v g => v ++ [g sol]) k.2 stats))

/-- `moSampling::operator()` (moSampling.h:112-131): clear the vectors, initialise the solution, run the
local search with the checkpoint (its `init`, moCheckpoint.h:107-120, records the first solution).
Result: the vectors. -/
def sampling {S F E K V : Type} (f : S → F) (ex : Explorer (S × F) E) (stats : List (S × F → V))
    (cont : K → S × F → Bool × K) (cinit : S × F → K) (fuel : Nat) (x : S) (fit : Option F) (e : E) :
    Option (List (List V)) :=
  let sol : S × F := (x, fit.getD (f x))
  let e0 := ex.initParam sol e
  let cleared : List (List V) := stats.map fun _ => []
  let first := List.zipWith (fun v g => v ++ [g sol]) cleared stats
  (lsLoopK ex (sampleCont stats cont) fuel 0 sol e0 (cinit sol, first)).map fun p => p.2.2.2

/-- `moMinusOneCounterStat` (continuator/moMinusOneCounterStat.h:61-76): the counter after `init` and
`n` calls, and the value shown. -/
def minusOne : Nat → Nat × Nat
  | 0 => (0, 0)
  | n + 1 =>
    let c := (minusOne n).1 + 1
    (c, if c > 0 then c - 1 else 0)

/-! ### Statistics -/

/-- Members filled by `moStatistics::basic` (sampling/moStatistics.h:65-98). -/
structure Basic where
  min : ℝ
  max : ℝ
  avg : ℝ
  std : ℝ

noncomputable def basicStep (r : Basic) (d : ℝ) : Basic :=
  { min := if d < r.min then d else r.min
    max := if r.max < d then d else r.max
    avg := r.avg + d
    std := r.std + d * d }

/-- `moStatistics::basic` (moStatistics.h:65-98). -/
noncomputable def basic : List ℝ → Basic
  | [] => ⟨0, 0, 0, 0⟩
  | x :: l =>
    let n : ℝ := ((x :: l).length : ℝ)
    let r := (x :: l).foldl basicStep ⟨x, x, 0, 0⟩
    let avg := r.avg / n
    let v := r.std / n - avg * avg
    { r with avg := avg, std := if v > 0 then Real.sqrt v else v }

/-- Writing one cell of a matrix. -/
def setCell (m : Nat → Nat → ℝ) (i j : Nat) (v : ℝ) : Nat → Nat → ℝ :=
  fun a b => if a = i ∧ b = j then v else m a b

/-- Inner loop of `moStatistics::distances` (moStatistics.h:122-125), from `j = 0` to `j < k`. -/
def distRow {X : Type} (dist : X → X → ℝ) (data : Nat → X) (i : Nat) : Nat → (Nat → Nat → ℝ) → (Nat → Nat → ℝ)
  | 0, m => m
  | k + 1, m =>
    let m1 := distRow dist data i k m
    let m2 := setCell m1 i k (dist (data i) (data k))
    setCell m2 k i (m2 i k)

/-- `moStatistics::distances` (moStatistics.h:108-128), the rows below `n`; the matrix is resized before,
whatever was in it stays. -/
def distances {X : Type} (dist : X → X → ℝ) (data : Nat → X) : Nat → (Nat → Nat → ℝ) → (Nat → Nat → ℝ)
  | 0, m => m
  | n + 1, m => distRow dist data n n (setCell (distances dist data n m) n n 0)

/-- The accumulators of `moStatistics::autocorrelation` (moStatistics.h:144-172). -/
structure Acc where
  k : Nat
  m : Nat → ℝ
  sig : Nat → ℝ
  cov : Nat → ℝ

/-- Writing one cell of a vector. -/
def setAt (v : Nat → ℝ) (i : Nat) (x : ℝ) : Nat → ℝ := fun a => if a = i then x else v a

/-- The loop `for (j = 0; j <= s; j++)` (moStatistics.h:176-180), the cells below `c`. -/
def accRow (data : Nat → ℝ) : Nat → Acc → Acc
  | 0, a => a
  | c + 1, a =>
    let a1 := accRow data c a
    { a1 with m := setAt a1.m c (a1.m c + data (a.k + c))
              sig := setAt a1.sig c (a1.sig c + data (a.k + c) * data (a.k + c))
              cov := setAt a1.cov c (a1.cov c + data a.k * data (a.k + c)) }

/-- The loop `while (k + s < n)` (moStatistics.h:175-182); `n` is enough fuel. -/
def accWhile (data : Nat → ℝ) (n s : Nat) : Nat → Acc → Acc
  | 0, a => a
  | fuel + 1, a =>
    if a.k + s < n then
      let a1 := accRow data (s + 1) a
      accWhile data n s fuel { a1 with k := a.k + 1 }
    else a

/-- The rest of the body of `while (s > 0)` (moStatistics.h:184-193): the new accumulators and `rho[s]`.
For `s < n`. -/
noncomputable def accClose (n s : Nat) (a : Acc) : Acc × ℝ :=
  let d : ℝ := ((n - s : Nat) : ℝ)
  let ms := a.m s / d
  let v := a.sig s / d - ms * ms
  let sg := if v ≤ 0 then 0 else Real.sqrt v
  let m0 := a.m 0 / d
  let s0 := Real.sqrt (a.sig 0 / d - m0 * m0)
  let cv := a.cov s / d - (a.m 0 / d) * ms
  ({ a with m := setAt a.m s ms, sig := setAt a.sig s sg, cov := setAt a.cov s cv }, cv / (sg * s0))

/-- The loop `while (s > 0)` (moStatistics.h:172-195) from `s` down to 1; `rho` is the vector being
written. -/
noncomputable def rhoLoop (data : Nat → ℝ) (n : Nat) : Nat → Acc → (Nat → ℝ) → (Nat → ℝ)
  | 0, _, rho => rho
  | s + 1, a, rho =>
    let a1 := accWhile data n (s + 1) n a
    let r := accClose n (s + 1) a1
    rhoLoop data n s r.1 (setAt rho (s + 1) r.2)

/-- `rho` (moStatistics.h:144-195) for `nbS < n`. -/
noncomputable def rhos (data : Nat → ℝ) (n nbS : Nat) : Nat → ℝ :=
  rhoLoop data n nbS ⟨0, fun _ => 0, fun _ => 0, fun _ => 0⟩ (setAt (fun _ => 0) 0 1)

/-- The sum made by a loop `for (j = 1; j < k; j++)`. -/
def loopSum {R : Type} [Add R] [Zero R] (g : Nat → R) : Nat → R
  | 0 => 0
  | 1 => 0
  | k + 2 => loopSum g (k + 1) + g (k + 1)

/-- Row `k` of `phi2` (moStatistics.h:197-215): `phi2[k][j]`. -/
def phiRow {R : Type} [Field R] (rho : Nat → R) : Nat → Nat → R
  | 0, _ => 0
  | 1, j => if j = 1 then rho 1 else 0
  | k + 2, j =>
    let prev := phiRow rho (k + 1)
    let tmp1 := loopSum (fun j => prev j * rho (k + 2 - j)) (k + 2)
    let tmp2 := loopSum (fun j => prev j * rho j) (k + 2)
    let p := (rho (k + 2) - tmp1) / (1 - tmp2)
    if j = k + 2 then p
    else if 1 ≤ j ∧ j < k + 2 then prev j - p * prev (k + 2 - j)
    else 0

/-- `phi[j]` (moStatistics.h:217-218). -/
def phis {R : Type} [Field R] (rho : Nat → R) (j : Nat) : R := if j = 0 then 1 else phiRow rho j j

/-- What `moStatistics::autocorrelation` does with `n` values and `nbS` lags (moStatistics.h:138-221). -/
inductive Auto where
  /-- both vectors are made empty -/
  | empty
  /-- `phi2[1][1]` is outside the matrix (line 204): undefined behaviour -/
  | outOfBounds
  /-- some lag leaves no pair of values: 0 divided by 0 (lines 184-193) -/
  | notANumber
  | ok (rho phi : Nat → ℝ)

noncomputable def autocorrelation (data : Nat → ℝ) (n nbS : Nat) : Auto :=
  if n = 0 then .empty
  else if nbS = 0 then .outOfBounds
  else if n ≤ nbS then .notANumber
  else .ok (rhos data n nbS) (phis (rhos data n nbS))

end Paradiseo.LS
