import Verif.Model.Moeo
/-
Dominance-based multi-objective local search of MOEO (PLS1, PLS2 and the unified DMLS).

* moeo/src/algo/moeoUnifiedDominanceBasedLS.h, moeoPLS1.h, moeoPLS2.h
* moeo/src/explorer/moeo{Exhaustive,FirstImproving,NoDesimproving,SimpleSub}NeighborhoodExplorer.h,
  moeoSubNeighborhoodExplorer.h
* moeo/src/selection/moeoExhaustiveUnvisitedSelect.h, moeoNumberUnvisitedSelect.h
* moeo/src/hybridization/moeoDMLSMonOp.h, moeoDMLSGenUpdater.h

An individual is its solution, its objective vector and the flag `0`/`1` of visited members
(fitness and diversity are not used by the search).  The neighbourhood object is an enumeration
`enum t i x` of neighbours: the list that `init, next, …` delivers while `hasNeighbor`/`cont` say
true, at the `i`-th exploration of iteration `t`; it may differ from call to call (random orders).
The incremental evaluation of a neighbour is `ev x n`; whether it agrees with the evaluation of the
moved solution is a hypothesis of the theorems, not of the model.  The user's continuator is an
oracle `cont t arch`.  The archive is the unbounded archive of `Verif.Model.Moeo`.
-/
namespace Paradiseo.Moeo.Dmls

/-- An individual of the archive. -/
structure Ind (S V : Type) where
  sol : S
  ov : V
  flag : Nat
  deriving DecidableEq, Repr

variable {S V N : Type}

/-- The problem as the explorers see it: `neighbor.move`, `eval(solution, neighbor)`. -/
structure Prob (S V N : Type) where
  move : S → N → S
  ev : S → N → V

/-- The copy of the source pushed on the destination, evaluated, moved, given its objective vector
and the flag 0 (moeoExhaustiveNeighborhoodExplorer.h:97-105,
moeoFirstImprovingNeighborhoodExplorer.h:106-112). -/
def child (P : Prob S V N) (src : Ind S V) (n : N) : Ind S V :=
  { src with sol := P.move src.sol n, ov := P.ev src.sol n, flag := 0 }

/-- What an exploration leaves: pushed individuals and the source with its new flag. -/
abbrev Explored (S V : Type) := List (Ind S V) × Ind S V

/-- `moeoExhaustiveNeighborhoodExplorer::explore` (lines 90-118). -/
def exhaustive (P : Prob S V N) (src : Ind S V) : List N → Explored S V
  | [] => ([], src)
  | ns => (ns.map (child P src), { src with flag := 1 })

/-- The loop of `moeoFirstImprovingNeighborhoodExplorer::explore` (lines 83-90, 102-115): pushed
individuals, and the neighbours not enumerated when it ends. -/
def firstLoop (cmp : V → V → Bool) (P : Prob S V N) (src : Ind S V) : List N → List (Ind S V) × List N
  | [] => ([], [])
  | n :: rest =>
    let d := if !cmp (P.ev src.sol n) src.ov then [child P src n] else []
    if cmp src.ov (P.ev src.sol n) then (d, rest)
    else let r := firstLoop cmp P src rest; (d ++ r.1, r.2)

/-- `moeoFirstImprovingNeighborhoodExplorer::explore` (lines 78-95). -/
def firstImproving (cmp : V → V → Bool) (P : Prob S V N) (src : Ind S V) : List N → Explored S V
  | [] => ([], src)
  | ns =>
    let r := firstLoop cmp P src ns
    (r.1, if r.2.isEmpty then { src with flag := 1 } else src)

/-- The loop of `moeoNoDesimprovingNeighborhoodExplorer::explore` (lines 81-100). -/
def noDesLoop (cmp : V → V → Bool) (P : Prob S V N) (src : Ind S V) : List N → List (Ind S V) × List N
  | [] => ([], [])
  | n :: rest =>
    if !cmp (P.ev src.sol n) src.ov then ([child P src n], rest)
    else noDesLoop cmp P src rest

/-- `moeoNoDesimprovingNeighborhoodExplorer::explore` (lines 77-104). -/
def noDesimproving (cmp : V → V → Bool) (P : Prob S V N) (src : Ind S V) : List N → Explored S V
  | [] => ([], src)
  | ns =>
    let r := noDesLoop cmp P src ns
    (r.1, if r.2.isEmpty then { src with flag := 1 } else src)

/-- `moeoSimpleSubNeighborhoodExplorer::explore` (lines 80-117). -/
def simpleSub (number : Nat) (P : Prob S V N) (src : Ind S V) : List N → Explored S V
  | [] => ([], src)
  | ns =>
    if number = 0 then ([], src)
    else ((ns.take number).map (child P src),
      if (ns.drop number).isEmpty then { src with flag := 1 } else src)

/-- `moeoExhaustiveUnvisitedSelect::operator()` (moeoExhaustiveUnvisitedSelect.h:61-71): the indices
whose flag is 0. -/
def unvisited (arch : List (Ind S V)) : List Nat :=
  (List.range arch.length).filter fun i => match arch[i]? with
    | some x => x.flag == 0
    | none => false

/-- `moeoNumberUnvisitedSelect::operator()` (moeoNumberUnvisitedSelect.h:67-83): all of them, or the
first `number` after a shuffle. -/
def numberUnvisited (number : Nat) (shuffle : List Nat → List Nat) (arch : List (Ind S V)) : List Nat :=
  let res := unvisited arch
  if number < res.length then (shuffle res).take number else res

/-- A configured search. -/
structure Cfg (S V N : Type) where
  A : ArchCfg (Ind S V) V
  P : Prob S V N
  enum : Nat → Nat → S → List N
  explore : Prob S V N → Ind S V → List N → Explored S V
  select : Nat → List (Ind S V) → List Nat
  cont : Nat → List (Ind S V) → Bool

/-- `explorer(archive, selectionVector, tmp_pop)` (moeoExhaustiveNeighborhoodExplorer.h:77-81,
moeoSubNeighborhoodExplorer.h:76-80): the archive with its new flags and the pushed individuals;
`k` counts the explorations of this iteration. -/
def explorePop (C : Cfg S V N) (t : Nat) : Nat → List Nat → List (Ind S V) → List (Ind S V) →
    List (Ind S V) × List (Ind S V)
  | _, [], arch, dest => (arch, dest)
  | k, i :: is, arch, dest =>
    match arch[i]? with
    | none => explorePop C t (k + 1) is arch dest
    | some src =>
      let r := C.explore C.P src (C.enum t k src.sol)
      explorePop C t (k + 1) is (arch.set i r.2) (dest ++ r.1)

/-- The body of the loop (moeoUnifiedDominanceBasedLS.h:88-96). -/
def iterate (C : Cfg S V N) (t : Nat) (arch : List (Ind S V)) : List (Ind S V) :=
  let r := explorePop C t 0 (C.select t arch) arch []
  (updatePop C.A r.1 r.2).1

/-- The natural continuator (moeoUnifiedDominanceBasedLS.h:132-143): some flag is not 1. -/
def natural (arch : List (Ind S V)) : Bool := arch.any fun x => x.flag != 1

/-- The do-while loop (moeoUnifiedDominanceBasedLS.h:88-97); `none`: not finished after `fuel`
iterations. -/
def loop (C : Cfg S V N) : Nat → Nat → List (Ind S V) → Option (List (Ind S V))
  | 0, _, _ => none
  | fuel + 1, t, arch =>
    let arch' := iterate C t arch
    if C.cont t arch' && natural arch' then loop C fuel (t + 1) arch' else some arch'

/-- `moeoUnifiedDominanceBasedLS::operator()` (lines 82-98) on an evaluated population: the archive
`arch` may hold members already. -/
def dmls (C : Cfg S V N) (fuel : Nat) (arch pop : List (Ind S V)) : Option (List (Ind S V)) :=
  loop C fuel 0 (updatePop C.A arch pop).1

/-- `moeoDMLSMonOp::operator()` (moeoDMLSMonOp.h:100-114): the individual after the call, the answer
and the archive kept for the next call; `draw n` is `rng.random(n)`. -/
def monOp (C : Cfg S V N) (fuel : Nat) (draw : Nat → Nat) (arch : List (Ind S V)) (x : Ind S V) :
    Option (Option (Ind S V) × Bool × List (Ind S V)) :=
  (dmls C fuel arch [x]).map fun a => (a[draw a.length]?, false, a)

/-- The hybrid part of `moeoDMLSGenUpdater::operator()` (moeoDMLSGenUpdater.h:116-117): new inner
archive and new global archive. -/
def genUpdater (C : Cfg S V N) (fuel : Nat) (inner global : List (Ind S V)) :
    Option (List (Ind S V) × List (Ind S V)) :=
  (dmls C fuel inner global).map fun a => (a, (updatePop C.A global a).1)

end Paradiseo.Moeo.Dmls
