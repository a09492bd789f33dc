import Verif.Model.LocalSearch
import Mathlib.Analysis.SpecialFunctions.Exp
import Mathlib.Data.Rat.Defs

/-
Model of the components plugged into the local searches of MO: tabu lists (mo/src/memory), cooling
schedules (mo/src/coolingSchedule), acceptance rules, continuators and checkpoint
(mo/src/continuator), variable neighbourhood selection (mo/src/neighborhood/mo*VNSelection.h) and
the VNS explorer, neighbourhood statistics.

`double` is ℝ (or ℚ): rounding is not modelled. Counters are naturals, except where wrap-around is
the subject.
-/
namespace Paradiseo.LS

/-! ### Tabu list indexed by neighbour key -/

/-- A call on the tabu list: `add` of a neighbour of key `i` with tenure `h` (the constant `howlong`,
or the number drawn by the robust variant: memory/moIndexedVectorTabuList.h:88-90,
memory/moRndIndexedVectorTabuList.h:70-73), or `update`. -/
inductive TabuOp where
  | add (i h : Nat)
  | update
  deriving DecidableEq, Repr

/-- `add` (moIndexedVectorTabuList.h:86-94; `set` out of range is the `index() < maxSize` test) and
`update` (101-105) on the vector of remaining tenures. -/
def tabuApply (v : List Nat) : TabuOp → List Nat
  | .add i h => if i < v.length then v.set i h else v
  | .update => v.map fun k => if k > 0 then k - 1 else k

/-- `init`/`clearMemory` (moIndexedVectorTabuList.h:76-78, 120-123). -/
def tabuInit (maxSize : Nat) : List Nat := List.replicate maxSize 0

/-- The list after a sequence of calls. -/
def tabuRun (maxSize : Nat) (ops : List TabuOp) : List Nat := ops.foldl tabuApply (tabuInit maxSize)

/-- `check` (moIndexedVectorTabuList.h:113-115); `none`: read outside the vector. -/
def tabuCheck (v : List Nat) (i : Nat) : Option Bool := v[i]?.map fun k => decide (k > 0)

/-! ### Tabu lists of neighbours and of solutions -/

inductive RingOp (X : Type) where
  | add (x : X)
  | update

/-- State of `moNeighborVectorTabuList` / `moSolVectorTabuList` (memory/moNeighborVectorTabuList.h:128-134,
memory/moSolVectorTabuList.h:124-130). -/
structure Ring (X : Type) where
  list : List (X × Nat)
  index : Nat

/-- `add` and `update` (moNeighborVectorTabuList.h:70-95, moSolVectorTabuList.h:70-95).
`none`: remainder by zero when `maxSize` is 0. -/
def ringApply {X : Type} (maxSize howlong : Nat) (s : Ring X) : RingOp X → Option (Ring X)
  | .add x =>
    if s.list.length < maxSize then some { s with list := s.list ++ [(x, howlong)] }
    else if maxSize = 0 then none
    else some ⟨s.list.set (s.index % maxSize) (x, howlong), s.index + 1⟩
  | .update =>
    if howlong > 0 then
      some { s with list := s.list.map fun p => if p.2 > 0 then (p.1, p.2 - 1) else p }
    else some s

/-- From `clearMemory` (moNeighborVectorTabuList.h:114-117, moSolVectorTabuList.h:116-119), a
sequence of calls. -/
def ringRun {X : Type} (maxSize howlong : Nat) (ops : List (RingOp X)) : Option (Ring X) :=
  ops.foldlM (ringApply maxSize howlong) ⟨[], 0⟩

/-- `check` (moNeighborVectorTabuList.h:103-109, moSolVectorTabuList.h:103-111); `eqv` is
`Neighbor::equals`, respectively `==` with the solution the neighbour leads to. -/
def ringCheck {X Y : Type} (eqv : X → Y → Bool) (howlong : Nat) (s : Ring X) (y : Y) : Bool :=
  s.list.any fun p =>
    (decide (howlong > 0) && decide (p.2 > 0) && eqv p.1 y) || (decide (howlong = 0) && eqv p.1 y)

/-! ### Simulated annealing -/

open Classical in
/-- `moSAexplorer::accept` (explorer/moSAexplorer.h:141-158) when there is a neighbour: `fx`, `fc` are
the fitness values of solution and neighbour, `better` the comparator, `T` the temperature, `u` the
uniform draw. At temperature 0 the quotient is minus infinity, or not a number for equal values, so the
comparison is false. -/
noncomputable def saAccept (better : ℝ → ℝ → Prop) (fx fc T u : ℝ) : Bool :=
  if better fx fc then true
  else if T = 0 then false
  else
    let alpha := if fc < fx then Real.exp ((fc - fx) / T) else Real.exp ((fx - fc) / T)
    decide (u < alpha)

/-- A cooling schedule (coolingSchedule/moCoolingSchedule.h): state is the temperature, kept by the
explorer, and the schedule's own counters `C`. -/
structure Cooling (C : Type) where
  init : ℝ × C
  update : ℝ × C → Bool → ℝ × C
  go : ℝ × C → Prop

/-- `moSimpleCoolingSchedule` (coolingSchedule/moSimpleCoolingSchedule.h:62-89). -/
noncomputable def simpleCooling (initT alpha finalT : ℝ) (span : Nat) : Cooling Nat where
  init := (initT, 0)
  update s _ := if s.2 ≥ span then (s.1 * alpha, 0) else (s.1, s.2 + 1)
  go s := s.1 > finalT

/-- Counters of `moDynSpanCoolingSchedule` (coolingSchedule/moDynSpanCoolingSchedule.h:120-126). -/
structure DynSpan where
  spanTries : Nat
  spanMove : Nat
  nbSpan : Nat

/-- `moDynSpanCoolingSchedule` (moDynSpanCoolingSchedule.h:66-110). -/
noncomputable def dynSpanCooling (initT alpha : ℝ) (triesMax moveMax nbSpanMax : Nat) : Cooling DynSpan where
  init := (initT, ⟨0, 0, 0⟩)
  update s accepted :=
    let tries := s.2.spanTries + 1
    let moves := if accepted then s.2.spanMove + 1 else s.2.spanMove
    if tries ≥ triesMax ∨ moves ≥ moveMax then
      (s.1 * alpha, ⟨0, 0, if moves = 0 then s.2.nbSpan + 1 else 0⟩)
    else (s.1, ⟨tries, moves, s.2.nbSpan⟩)
  go s := s.2.nbSpan ≤ nbSpanMax

/-- Members of `moSAexplorer` (moSAexplorer.h:170-190). -/
structure SA (M : Type) (C : Type) where
  temp : ℝ × C
  selected : Option (Cand M ℝ)
  isAccept : Bool

open Classical in
/-- `moSAexplorer` (moSAexplorer.h:89-158); `u t` is the uniform draw of iteration `t`. -/
noncomputable def saExplorer {S M C : Type} (better : ℝ → ℝ → Prop) (cool : Cooling C) (u : Nat → ℝ)
    (nb : Nat → S × ℝ → List (Cand M ℝ)) (app : M → S → S) : Explorer (S × ℝ) (SA M C) where
  initParam _ e := { e with temp := cool.init, isAccept := false }
  explore t sol e := match nb t sol with
    | [] => (sol, { e with isAccept := false })
    | c :: _ => (sol, { e with selected := some c })
  accept t sol e := match nb t sol, e.selected with
    | _ :: _, some c =>
      let a := saAccept better sol.2 c.fit e.temp.1 (u t); (a, { e with isAccept := a })
    | _, _ => (e.isAccept, e)
  move sol e := moveSel app sol e.selected
  updateParam moved _ e := { e with temp := cool.update e.temp moved }
  isContinue _ e := decide (cool.go e.temp)
  terminate sol _ := sol

/-- `moMetropolisHastingExplorer::accept` (explorer/moMetropolisHastingExplorer.h:140-162), default
comparator, fitness and draw in an ordered field. -/
def metropolisAccept {F : Type} [Field F] [LinearOrder F] (fx fc u : F) : Bool :=
  if fx < fc then true
  else if fx ≠ 0 then decide (u < if fc < fx then fc / fx else fx / fc)
  else decide (fc < fx)

/-! ### Continuators -/

/-- A continuator: its answer and new state on a solution (continuator/moContinuator.h). -/
abbrev ContStep (K Sol : Type) := K → Sol → Bool × K

/-- `moCombinedContinuator::operator()` (continuator/moCombinedContinuator.h:76-86): the loop over
the components with the flag `bContinue`. -/
def combinedLoop {K Sol : Type} (sol : Sol) : List (ContStep K Sol × K) → Bool → Bool × List (ContStep K Sol × K)
  | [], b => (b, [])
  | (c, k) :: l, b =>
    let (a, k') := c k sol
    let r := combinedLoop sol l (if !a then false else b)
    (r.1, (c, k') :: r.2)

def combined {K Sol : Type} : ContStep (List (ContStep K Sol × K)) Sol :=
  fun l sol => combinedLoop sol l true

/-- `moIterContinuator` (continuator/moIterContinuator.h:55-70); the state is `cpt`. -/
def iterCont {Sol : Type} (maxIter : Nat) : ContStep Nat Sol :=
  fun cpt _ => (decide (cpt + 1 < maxIter), cpt + 1)

/-- Statistics loop of `moCheckpoint::operator()` (continuator/moCheckpoint.h:138-142): which of the
`n` statistics are computed at one call, and the counter afterwards. -/
def checkpointStats (interval : Nat) : Nat → Nat → List Bool × Nat
  | 0, counter => ([], counter)
  | n + 1, counter =>
    let b := counter % interval = 0
    let r := checkpointStats interval n (counter + 1)
    (decide b :: r.1, r.2)

/-- The statistics computed at each of `calls` successive calls, `counter` being 1 after `init`
(moCheckpoint.h:107-110). -/
def checkpointRun (interval n : Nat) : Nat → Nat → List (List Bool)
  | 0, _ => []
  | calls + 1, counter =>
    let r := checkpointStats interval n counter
    r.1 :: checkpointRun interval n calls r.2

/-! ### Variable neighbourhood selection -/

/-- `size_t` subtraction. -/
def usub64 (a b : Nat) : Nat := (a + 2 ^ 64 - b) % 2 ^ 64

/-- A selection over `V`-valued states (neighborhood/moVariableNeighborhoodSelection.h). -/
structure VNSel (V : Type) where
  init : V
  cont : V → Bool
  next : V → V
  current : V → Nat

/-- `moForwardVectorVNSelection` (neighborhood/moForwardVectorVNSelection.h:72-92), `n` operators. -/
def forwardSel (cycle : Bool) (n : Nat) : VNSel Nat where
  init := 0
  cont c := cycle || decide (c ≤ usub64 n 2)
  next c := (c + 1) % n
  current c := c

/-- `moBackwardVectorVNSelection` (neighborhood/moBackwardVectorVNSelection.h:72-92). -/
def backwardSel (cycle : Bool) (n : Nat) : VNSel Nat where
  init := n - 1
  cont c := cycle || decide (c > 0)
  next c := (c + n - 1) % n
  current c := c

/-- `moRndVectorVNSelection` (neighborhood/moRndVectorVNSelection.h:75-111); `order` is the shuffled
vector, the state is `currentOrder`. -/
def rndSel (cycle : Bool) (order : List Nat) : VNSel Nat where
  init := 0
  cont c := cycle || decide (c ≤ usub64 order.length 2)
  next c := (c + 1) % order.length
  current c := order.getD c 0

/-- The operators used by the loop `init; use; while (cont) { next; use }` in at most `fuel` uses;
the Boolean tells whether the loop ended. -/
def selRun {V : Type} (s : VNSel V) : Nat → V → List Nat × Bool
  | 0, _ => ([], false)
  | fuel + 1, v =>
    if s.cont v then let r := selRun s fuel (s.next v); (s.current v :: r.1, r.2)
    else ([s.current v], true)

/-- Members of `moVNSexplorer` (explorer/moVNSexplorer.h:156-169). -/
structure VNS (Sol V : Type) where
  sel : V
  currentSol : Sol
  bestSoFar : Sol
  stop : Bool
  first : Bool

/-- `moVNSexplorer` (explorer/moVNSexplorer.h:74-146). `run t k s`: the solution obtained from `s` by
shaking and local search with the operators of index `k`, at iteration `t`; `crit` the acceptance
criterion. -/
def vnsExplorer {S F V : Type} [LinearOrder F] (s : VNSel V) (run : Nat → Nat → S × F → S × F)
    (crit : S × F → S × F → Bool) : Explorer (S × F) (VNS (S × F) V) where
  initParam sol e := { e with bestSoFar := sol, sel := s.init, first := true }
  explore t sol e :=
    let cur := run t (s.current e.sel) sol
    (sol, { e with currentSol := cur
                   bestSoFar := if e.bestSoFar.2 < cur.2 then cur else e.bestSoFar })
  accept _ sol e := (crit sol e.currentSol, e)
  move _ e := e.currentSol
  updateParam moved _ e :=
    if !e.first && moved then { e with first := false, sel := s.init }
    else if s.cont e.sel then { e with sel := s.next e.sel }
    else { e with stop := true }
  isContinue _ e := !e.stop
  terminate _ e := e.bestSoFar

/-! ### Neighbourhood statistics -/

/-- Members of `moNeighborhoodStat` during the loop (continuator/moNeighborhoodStat.h:282-310). -/
structure NbStat where
  nb : Nat
  nbInf : Nat
  nbEqual : Nat
  nbSup : Nat
  mean : ℚ
  best : ℚ
  lowest : ℚ
  fits : List ℚ

/-- First neighbour (moNeighborhoodStat.h:111-135). -/
def statFirst (fx c : ℚ) : NbStat :=
  let z : NbStat := ⟨1, 0, 0, 0, c, c, c, [c]⟩
  if fx = c then { z with nbEqual := 1 }
  else if fx < c then { z with nbSup := 1 } else { z with nbInf := 1 }

/-- Loop body (moNeighborhoodStat.h:144-160). -/
def statStep (fx : ℚ) (s : NbStat) (c : ℚ) : NbStat :=
  let s1 := { s with mean := s.mean + c, fits := s.fits ++ [c], nb := s.nb + 1 }
  let s2 := if fx = c then { s1 with nbEqual := s1.nbEqual + 1 }
    else if fx < c then { s1 with nbSup := s1.nbSup + 1 } else { s1 with nbInf := s1.nbInf + 1 }
  { s2 with best := if s.best < c then c else s.best
            lowest := if c < s.lowest then c else s.lowest }

/-- The values reported (moNeighborhoodStat.h:163-184), for a neighbourhood with fitness values
`c :: l`; `sorted` is the vector after `std::sort`. The standard deviation is given by its square. -/
structure NbReport where
  min : ℚ
  max : ℚ
  mean : ℚ
  variance : ℚ
  q1 : ℚ
  q2 : ℚ
  q3 : ℚ
  nb : Nat
  nbInf : Nat
  nbEqual : Nat
  nbSup : Nat

def nbStat (sort : List ℚ → List ℚ) (fx c : ℚ) (l : List ℚ) : NbReport :=
  let s := l.foldl (statStep fx) (statFirst fx c)
  let mean := s.mean / s.nb
  if s.nb > 1 then
    let v := sort s.fits
    { min := s.lowest, max := s.best, mean := mean
      variance := (s.fits.map fun x => (x - mean) * (x - mean)).sum / (s.nb - 1)
      q1 := v.getD (s.nb / 4) 0, q2 := v.getD (s.nb / 2) 0, q3 := v.getD (3 * s.nb / 4) 0
      nb := s.nb, nbInf := s.nbInf, nbEqual := s.nbEqual, nbSup := s.nbSup }
  else
    { min := s.lowest, max := s.best, mean := mean, variance := 0
      q1 := s.best, q2 := s.best, q3 := s.best
      nb := s.nb, nbInf := s.nbInf, nbEqual := s.nbEqual, nbSup := s.nbSup }

end Paradiseo.LS
