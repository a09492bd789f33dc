import Verif.Model.LocalSearch
import Verif.Model.LSParts

/-
Model of iterated local search and of the small parts of MO used with it: perturbations, acceptance
criteria, memories, random search, and the continuators and statistics that count something.

Conventions as in Verif/Model/LocalSearch.lean. The inner local search, the operators and the
initialisers are oracles indexed by the iteration.
-/
namespace Paradiseo.LS

/-! ### Iterated local search -/

/-- A perturbation with its memory `P`: `operator()`, `init`, `add` and `update`
(mo/src/perturb/moPerturbation.h, memory/moMemory.h:17-36). The neighbour handed to `add` and `update`
is the explorer's `emptyNeighbor`, which carries nothing, and is left out. -/
structure Perturb (Sol P : Type) where
  apply : Nat → Sol → P → Sol × P
  init : Sol → P → P
  add : Sol → P → P
  update : Sol → P → P

/-- Members of `moILSexplorer` (explorer/moILSexplorer.h:167-175). -/
structure ILS (Sol P : Type) where
  first : Bool
  current : Sol
  mem : P

/-- `moILSexplorer` (explorer/moILSexplorer.h:86-157). `ls t` is the inner local search as run in
iteration `t`. The acceptance criteria of MO have no memory (`moDummyMemory`). -/
def ilsExplorer {Sol P : Type} (ls : Nat → Sol → Sol) (pert : Perturb Sol P) (crit : Sol → Sol → Bool) :
    Explorer Sol (ILS Sol P) where
  initParam sol e := { e with first := true, mem := pert.init sol e.mem }
  explore t sol e :=
    let r := if e.first then (sol, e.mem) else pert.apply t sol e.mem
    (sol, { first := false, current := ls t r.1, mem := r.2 })
  accept _ sol e := (crit sol e.current, e)
  move _ e := e.current
  updateParam moved sol e :=
    let m := if moved then pert.add sol e.mem else e.mem
    { e with mem := pert.update sol m }
  isContinue _ _ := true
  terminate sol _ := sol

/-- `moAlwaysAcceptCrit` (acceptCrit/moAlwaysAcceptCrit.h:51-53), the default of `moILS`
(algo/moILS.h:64-83). -/
def alwaysAccept {Sol : Type} : Sol → Sol → Bool := fun _ _ => true

/-- `moBetterAcceptCrit` with the default comparator (acceptCrit/moBetterAcceptCrit.h:65-67,
comparator/moSolComparator.h:49-51). -/
def betterAccept {S F : Type} [LinearOrder F] : S × F → S × F → Bool := fun a b => decide (a.2 < b.2)

/-! ### Memories and perturbations -/

/-- Members of `moCountMoveMemory` (memory/moCountMoveMemory.h:112-115). -/
structure Count where
  nbMove : Nat
  nbNoMove : Nat
  counter : Nat
  deriving DecidableEq, Repr

/-- `init` and `clearMemory` (moCountMoveMemory.h:48-52, 75-79). -/
def countInit : Count := ⟨0, 0, 0⟩

/-- `add` (moCountMoveMemory.h:58-61). -/
def countAdd (c : Count) : Count := { c with nbMove := c.nbMove + 1, counter := 0 }

/-- `update` (moCountMoveMemory.h:67-70). -/
def countUpdate (c : Count) : Count := { c with nbNoMove := c.nbNoMove + 1, counter := c.counter + 1 }

/-- `initCounter` (moCountMoveMemory.h:108-110). -/
def countReset (c : Count) : Count := { c with counter := 0 }

/-- `moRestartPerturb` (perturb/moRestartPerturb.h:61-68). `fresh t` is the solution drawn and
evaluated when the restart happens in iteration `t`. -/
def restartPerturb {Sol : Type} (threshold : Nat) (fresh : Nat → Sol) : Perturb Sol Count where
  apply t sol c := if threshold ≤ c.counter then (fresh t, countReset c) else (sol, c)
  init _ _ := countInit
  add _ c := countAdd c
  update _ c := countUpdate c

/-- State of the other neighbourhood in `moNeighborhoodPerturb`: the position of the enumeration and
the neighbour `current` (perturb/moNeighborhoodPerturb.h:103-106). -/
structure NhState (M : Type) where
  pos : Nat
  current : Option M

/-- `moNeighborhoodPerturb::init` (moNeighborhoodPerturb.h:72-75); `other sol` is the enumeration of
the other neighbourhood. -/
def nhInit {Sol M : Type} (other : Sol → List M) (sol : Sol) (e : NhState M) : NhState M :=
  match other sol with
  | [] => e
  | m :: _ => ⟨0, some m⟩

/-- `moNeighborhoodPerturb` (moNeighborhoodPerturb.h:59-96); `eval` gives the fitness of the neighbour
that `current` is of the solution. A perturbation before any neighbour was ever set is not modelled
(`none` leaves the solution). -/
def nhPerturb {S F M : Type} (other : S × F → List M) (app : M → S → S) (eval : S × F → M → F) :
    Perturb (S × F) (NhState M) where
  apply _ sol e :=
    match other sol, e.current with
    | _ :: _, some m => ((app m sol.1, eval sol m), e)
    | _, _ => (sol, e)
  init sol e := nhInit other sol e
  add sol e := nhInit other sol e
  update sol e :=
    if e.pos + 1 < (other sol).length then ⟨e.pos + 1, (other sol)[e.pos + 1]?⟩
    else nhInit other sol e

/-- The number of operator applications drawn by `moMonOpPerturb` (perturb/moMonOpPerturb.h:72-73):
`nbPerturbationMin + rng.random(nbPerturbationMax - nbPerturbationMin)` on 32-bit unsigned numbers,
`rng.random(m)` being an arbitrary number below `m`, or 0 if `m` is 0. -/
def monOpTimes (lo hi r : Nat) : Nat :=
  let m := (hi + (2 ^ 32 - lo)) % 2 ^ 32
  (lo + (if m = 0 then 0 else r % m)) % 2 ^ 32

/-- `moMonOpPerturb::operator()` (moMonOpPerturb.h:75-82): the operator `n` times (`op i` is its `i`-th
application), then `invalidate` and the full evaluation. The Boolean is the value returned. A solution
is a representation with a fitness, or `none` when invalid. -/
def monOpLoop {S : Type} (op : Nat → S → S × Bool) : Nat → Nat → S → Bool → S × Bool
  | 0, _, s, b => (s, b)
  | n + 1, i, s, b => let r := op i s; monOpLoop op n (i + 1) r.1 (r.2 || b)

/-- A full evaluator: it may look at the fitness it is given (`eoEvalFuncCounter` does, eo/src/
eoEvalFuncCounter.h:45-53). -/
abbrev FullEval (S F : Type) := S → Option F → Option F

/-- An evaluator that always computes (the evaluators users write, `eoEvalFuncPtr`). -/
def plainEval {S F : Type} (f : S → F) : FullEval S F := fun s _ => some (f s)

/-- An evaluator that computes only when the solution is invalid (eoEvalFuncCounter.h:45-53). -/
def lazyEval {S F : Type} (f : S → F) : FullEval S F := fun s v => match v with
  | none => some (f s)
  | some y => some y

def monOpPerturb {S F : Type} (op : Nat → S → S × Bool) (ev : FullEval S F) (n : Nat)
    (sol : S × Option F) : (S × Option F) × Bool :=
  let r := monOpLoop op n 0 sol.1 false
  ((r.1, ev r.1 none), r.2)

/-- `moMonOpDiversification::operator()` (memory/moMonOpDiversification.h:60-64): no `invalidate`. -/
def monOpDiversify {S F : Type} (op : S → S × Bool) (ev : FullEval S F) (sol : S × Option F) :
    (S × Option F) × Bool :=
  let r := op sol.1
  ((r.1, ev r.1 sol.2), r.2)

/-! ### Random search -/

/-- `moRandomSearchExplorer` (explorer/moRandomSearchExplorer.h:77-133): the explorer draws a new
solution in place; the state is `step`. `draw t` is the solution drawn and evaluated in iteration `t`. -/
def randomSearch {Sol : Type} (nbStep : Nat) (draw : Nat → Sol) : Explorer Sol Nat where
  initParam _ _ := 0
  explore t _ e := (draw t, e)
  accept _ _ e := (true, e)
  move sol _ := sol
  updateParam _ _ e := e + 1
  isContinue _ e := decide (e < nbStep)
  terminate sol _ := sol

/-- Number of steps given by `moRandomSearch` to its explorer (algo/moRandomSearch.h:59-62). -/
def searchSteps (nbSolMax : Nat) : Nat := if nbSolMax > 0 then nbSolMax - 1 else 0

/-! ### Continuators that count -/

/-- `moBestNoImproveContinuator::operator()` (continuator/moBestNoImproveContinuator.h:78-90), `best`
the value of the reference `bestSol` at the time of the call; the state is `cpt`, 0 after `init`. -/
def noImprove {F : Type} [LinearOrder F] (maxNoImprove : Nat) (cpt : Nat) (sol best : F) : Bool × Nat :=
  let cpt' := if sol < best ∨ sol = best then cpt + 1 else 0
  (decide (cpt' < maxNoImprove), cpt')

/-- `unsigned int` from `unsigned long`. -/
def toU32 (n : Nat) : Nat := n % 2 ^ 32

/-- `moFullEvalContinuator::init`, `moNeighborEvalContinuator::init` and `moEvalsContinuator::init`
(continuator/moFullEvalContinuator.h:78-83, moNeighborEvalContinuator.h:72-77, moEvalsContinuator.h:76-81):
the 32-bit start value, `v` being the 64-bit counter, or the sum of the two counters. -/
def evalsInit (restartCounter : Bool) (v : Nat) : Nat := if restartCounter then toU32 v else 0

/-- Their `operator()` (moFullEvalContinuator.h:70-72, moNeighborEvalContinuator.h:64-66,
moEvalsContinuator.h:68-70): 64-bit arithmetic. -/
def evalsCont (maxEvals start v : Nat) : Bool := decide (usub64 v start < maxEvals)

/-- `moTimeContinuator` (continuator/moTimeContinuator.h:52-108): the start and whether it was set from
outside. -/
structure Timer where
  start : Int
  external : Bool

/-- `setStartingTime` (moTimeContinuator.h:62-65). -/
def timerSet (t : Int) (_ : Timer) : Timer := ⟨t, true⟩

/-- `init` at time `now` (moTimeContinuator.h:105-108). -/
def timerInit (now : Int) (k : Timer) : Timer := if !k.external then { k with start := now } else k

/-- `operator()` at time `now` (moTimeContinuator.h:91-99). -/
def timerCont (max now : Int) (k : Timer) : Bool := decide (now - k.start < max)

/-! ### Best so far -/

/-- `moBestSoFarStat` (continuator/moBestSoFarStat.h:53-90): value and `firstTime`. -/
structure BestStat (Sol : Type) where
  value : Sol
  firstTime : Bool

/-- `init` (moBestSoFarStat.h:60-68). -/
def bestInit {Sol : Type} (reInit : Bool) (sol : Sol) (k : BestStat Sol) : BestStat Sol :=
  if reInit then { k with value := sol }
  else if k.firstTime then ⟨sol, false⟩ else k

/-- `operator()` (moBestSoFarStat.h:74-79). -/
def bestStep {S F : Type} [LinearOrder F] (k : BestStat (S × F)) (sol : S × F) : BestStat (S × F) :=
  if k.value.2 < sol.2 then { k with value := sol } else k

/-- One run of a search with the statistic in its checkpoint: `init` on the starting solution, then one
call for each iteration. -/
def bestRun {S F : Type} [LinearOrder F] (reInit : Bool) (k : BestStat (S × F)) (run : (S × F) × List (S × F)) :
    BestStat (S × F) :=
  run.2.foldl bestStep (bestInit reInit run.1 k)

/-- A checkpoint with a `moBestSoFarStat` and a `moBestNoImproveContinuator` that refers to its value
(continuator/moCheckpoint.h:134-158: statistics first, continuators last), one call. -/
def bestCheck {S F : Type} [LinearOrder F] (maxNoImprove : Nat) (k : BestStat (S × F) × Nat) (sol : S × F) :
    Bool × (BestStat (S × F) × Nat) :=
  let st := bestStep k.1 sol
  let r := noImprove maxNoImprove k.2 sol.2 st.value.2
  (r.1, (st, r.2))

/-! ### Aspiration -/

/-- The memories of a tabu search whose aspiration is `moBestImprAspiration`
(memory/moBestImprAspiration.h:50-73), with an arbitrary tabu list `T`; no intensification or
diversification. -/
def aspirMem {S M F T : Type} [LinearOrder F] (tinit : S × F → T → T)
    (tadd tupd : S × F → Option (Cand M F) → T → T) (tcheck : T → S × F → Cand M F → Bool) :
    Mem (S × F) (Cand M F) (T × (S × F)) where
  init sol w := (tinit sol w.1, sol)
  add sol c w := (tadd sol c w.1, w.2)
  update sol c w := (tupd sol c w.1, if w.2.2 < sol.2 then sol else w.2)
  check w sol c := tcheck w.1 sol c
  aspir w _ c := decide (w.2.2 < c.fit)
  intensify _ sol := sol
  diversify _ sol := sol

end Paradiseo.LS
