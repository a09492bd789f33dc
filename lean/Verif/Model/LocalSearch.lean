import Mathlib.Order.Defs.LinearOrder

/-
Model of the local-search engine of MO: `moLocalSearch` and the explorers of mo/src/explorer.

Conventions.
* A solution is a pair (representation, fitness).
* The neighbourhood and the neighbour evaluation are one oracle `nb t sol`: the list, in enumeration
  order, of the evaluated neighbours that an exploration at iteration `t` would visit
  (`init; eval; while (cont) { next; eval }`). `hasNeighbor` is "the list is not empty". What the
  concrete neighbourhoods enumerate is the subject of Verif/Model/Neighborhood.lean.
* The comparators are the default ones: `moNeighborComparator` (comparator/moNeighborComparator.h:55-67)
  and `moSolNeighborComparator` (comparator/moSolNeighborComparator.h:60-72), `<` and `==` on fitness,
  where `a < b` means "a is worse than b" (EO.h:62-67), for a linearly ordered fitness type.
* `rng.random(m)` at iteration `t` is `r t % m` for an arbitrary stream `r`.
-/
namespace Paradiseo.LS

/-- A neighbour with its fitness (mo/src/neighborhood/moNeighbor.h). -/
structure Cand (M F : Type) where
  mv : M
  fit : F
  deriving DecidableEq, Repr

/-- The services of `moNeighborhoodExplorer` (mo/src/explorer/moNeighborhoodExplorer.h:55-150).
`explore` is `operator()`; `accept` may update the explorer; `updateParam` receives `moveApplied()`. -/
structure Explorer (Sol E : Type) where
  initParam : Sol → E → E
  explore : Nat → Sol → E → Sol × E
  accept : Nat → Sol → E → Bool × E
  move : Sol → E → Sol
  updateParam : Bool → Sol → E → E
  isContinue : Sol → E → Bool
  terminate : Sol → E → Sol

/-- One iteration of the search loop (mo/src/algo/moLocalSearch.h:83-97): explore, then move if
accepted, then update. The Boolean is `moveApplied`. -/
def lsStep {Sol E : Type} (ex : Explorer Sol E) (t : Nat) (sol : Sol) (e : E) : Sol × E × Bool :=
  let (sol1, e1) := ex.explore t sol e
  let (a, e2) := ex.accept t sol1 e1
  let sol2 := if a then ex.move sol1 e2 else sol1
  (sol2, ex.updateParam a sol2 e2, a)

/-- The loop `do { … b = (*cont)(sol); } while (b && isContinue(sol))` (moLocalSearch.h:83-99).
`cont` is the continuator, with its own state. Result: the states reached after each iteration, and
the last answer of the continuator; `none` if the loop has not ended within the fuel. -/
def lsLoop {Sol E K : Type} (ex : Explorer Sol E) (cont : K → Sol → Bool × K) :
    Nat → Nat → Sol → E → K → Option (List (Sol × E) × Bool)
  | 0, _, _, _, _ => none
  | fuel + 1, t, sol, e, k =>
    let (sol', e', _) := lsStep ex t sol e
    let (b, k') := cont k sol'
    if b && ex.isContinue sol' e' then
      (lsLoop ex cont fuel (t + 1) sol' e' k').map fun p => ((sol', e') :: p.1, p.2)
    else some ([(sol', e')], b)

/-- The whole `moLocalSearch::operator()` (moLocalSearch.h:70-103) on a solution whose fitness may be
invalid: full evaluation if needed, `initParam`, the loop, `terminate`. Result: the final solution,
the states after each iteration, and the last answer of the continuator. -/
def localSearch {S F E K : Type} (f : S → F) (ex : Explorer (S × F) E)
    (cont : K → (S × F) → Bool × K) (cinit : (S × F) → K) (fuel : Nat) (x : S) (fit : Option F) (e : E) :
    Option ((S × F) × List ((S × F) × E) × Bool) :=
  let sol : S × F := (x, fit.getD (f x))
  let e0 := ex.initParam sol e
  (lsLoop ex cont fuel 0 sol e0 (cinit sol)).map fun p =>
    let last := p.1.getLastD (sol, e0)
    (ex.terminate last.1 last.2, p.1, p.2)

/-- `moNeighborhoodExplorer::move` (moNeighborhoodExplorer.h:102-108): apply the selected neighbour
and give its fitness to the solution. `none` (never selected) leaves the solution as it is. -/
def moveSel {S M F : Type} (app : M → S → S) (sol : S × F) : Option (Cand M F) → S × F
  | some c => (app c.mv sol.1, c.fit)
  | none => sol

/-! ### Hill climbers -/

/-- Members of the hill-climbing explorers. -/
structure HC (M F : Type) where
  selected : Option (Cand M F)
  best : List (Cand M F)
  isAccept : Bool
  step : Nat

/-- Selection loop of `moSimpleHCexplorer::operator()` (explorer/moSimpleHCexplorer.h:97-126):
the first neighbour is selected, then any strictly better one replaces it. -/
def simpleSelect {M F : Type} [LinearOrder F] (c : Cand M F) : List (Cand M F) → Cand M F
  | [] => c
  | d :: l => simpleSelect (if c.fit < d.fit then d else c) l

/-- `moSimpleHCexplorer` (moSimpleHCexplorer.h:80-147). -/
def simpleHC {S M F : Type} [LinearOrder F] (nb : Nat → S × F → List (Cand M F)) (app : M → S → S) :
    Explorer (S × F) (HC M F) where
  initParam _ e := e
  explore t sol e := match nb t sol with
    | [] => (sol, { e with isAccept := false })
    | c :: l => (sol, { e with selected := some (simpleSelect c l) })
  accept t sol e := match nb t sol, e.selected with
    | _ :: _, some c => let a := decide (sol.2 < c.fit); (a, { e with isAccept := a })
    | _, _ => (e.isAccept, e)
  move sol e := moveSel app sol e.selected
  updateParam _ _ e := e
  isContinue _ e := e.isAccept
  terminate sol _ := sol

/-- Loop of `moFirstImprHCexplorer::operator()` (explorer/moFirstImprHCexplorer.h:106-131):
go to the next neighbour while the current one is not strictly better than the solution and there is
a next one; select the one stopped at. -/
def firstSelect {M F : Type} [LinearOrder F] (fx : F) (c : Cand M F) : List (Cand M F) → Cand M F
  | [] => c
  | d :: l => if fx < c.fit then c else firstSelect fx d l

/-- `moFirstImprHCexplorer` (moFirstImprHCexplorer.h:85-155); `alwaysContinue` is its flag that
makes `isContinue` constant (138-143). -/
def firstHC {S M F : Type} [LinearOrder F] (alwaysContinue : Bool)
    (nb : Nat → S × F → List (Cand M F)) (app : M → S → S) : Explorer (S × F) (HC M F) where
  initParam _ e := e
  explore t sol e := match nb t sol with
    | [] => (sol, { e with isAccept := false })
    | c :: l => (sol, { e with selected := some (firstSelect sol.2 c l) })
  accept t sol e := match nb t sol, e.selected with
    | _ :: _, some c => let a := decide (sol.2 < c.fit); (a, { e with isAccept := a })
    | _, _ => (e.isAccept, e)
  move sol e := moveSel app sol e.selected
  updateParam _ _ e := e
  isContinue _ e := if alwaysContinue then true else e.isAccept
  terminate sol _ := sol

/-- One pass of the loop body of `moRandomBestHCexplorer::operator()`
(explorer/moRandomBestHCexplorer.h:131-158): a strictly better neighbour replaces the vector of best
neighbours, an equal one is appended. (`bestVector[0]` of an empty vector is never read: the first neighbour is
pushed before the loop.) -/
def bestPush {M F : Type} [LinearOrder F] (v : List (Cand M F)) (d : Cand M F) : List (Cand M F) :=
  match v with
  | [] => [d]
  | b :: _ => if b.fit < d.fit then [d] else if b.fit = d.fit then v ++ [d] else v

/-- The exploration common to `moRandomBestHCexplorer` (114-171) and `moNeutralHCexplorer`
(explorer/moNeutralHCexplorer.h derives from it): fill the vector of best neighbours and select one
with `rng.random(bestVector.size())`. -/
def bestExplore {S M F : Type} [LinearOrder F] (r : Nat → Nat) (nb : Nat → S × F → List (Cand M F))
    (t : Nat) (sol : S × F) (e : HC M F) : (S × F) × HC M F :=
  match nb t sol with
  | [] => (sol, { e with isAccept := false })
  | c :: l =>
    let v := l.foldl bestPush (e.best ++ [c])
    (sol, { e with best := v, selected := v[r t % v.length]? })

/-- `moRandomBestHCexplorer` (moRandomBestHCexplorer.h:85-208). -/
def randomBestHC {S M F : Type} [LinearOrder F] (r : Nat → Nat)
    (nb : Nat → S × F → List (Cand M F)) (app : M → S → S) : Explorer (S × F) (HC M F) where
  initParam _ e := { e with best := [] }
  explore := bestExplore r nb
  accept t sol e := match nb t sol, e.best with
    | _ :: _, b :: _ => let a := decide (sol.2 < b.fit); (a, { e with isAccept := a })
    | _, _ => (e.isAccept, e)
  move sol e := moveSel app sol e.selected
  updateParam _ _ e := { e with best := [] }
  isContinue _ e := e.isAccept
  terminate sol _ := sol

/-- `moNeutralHCexplorer` (explorer/moNeutralHCexplorer.h:85-125): accepts also an equal fitness, at
most `nbStep` iterations. -/
def neutralHC {S M F : Type} [LinearOrder F] (nbStep : Nat) (r : Nat → Nat)
    (nb : Nat → S × F → List (Cand M F)) (app : M → S → S) : Explorer (S × F) (HC M F) where
  initParam _ e := { e with best := [], step := 0 }
  explore := bestExplore r nb
  accept t sol e := match nb t sol, e.best with
    | _ :: _, b :: _ =>
      let a := decide (sol.2 < b.fit) || decide (sol.2 = b.fit); (a, { e with isAccept := a })
    | _, _ => (e.isAccept, e)
  move sol e := moveSel app sol e.selected
  updateParam _ _ e := { e with best := [], step := e.step + 1 }
  isContinue _ e := decide (e.step < nbStep) && e.isAccept
  terminate sol _ := sol

/-- `moRandomWalkExplorer` (explorer/moRandomWalkExplorer.h:85-143): the first neighbour given by
the (random) neighbourhood is always accepted. -/
def randomWalk {S M F : Type} (nb : Nat → S × F → List (Cand M F)) (app : M → S → S) :
    Explorer (S × F) (HC M F) where
  initParam _ e := { e with isAccept := true }
  explore t sol e := match nb t sol with
    | [] => (sol, { e with isAccept := false })
    | c :: _ => (sol, { e with selected := some c, isAccept := true })
  accept t sol e := match nb t sol with
    | _ :: _ => (true, { e with isAccept := true })
    | [] => (e.isAccept, e)
  move sol e := moveSel app sol e.selected
  updateParam _ _ e := e
  isContinue _ e := e.isAccept
  terminate sol _ := sol

/-- Loop of `moRandomNeutralWalkExplorer::operator()`
(explorer/moRandomNeutralWalkExplorer.h:113-133). -/
def equalSelect {M F : Type} [DecidableEq F] (fx : F) (c : Cand M F) : List (Cand M F) → Cand M F
  | [] => c
  | d :: l => if fx = c.fit then c else equalSelect fx d l

/-- `moRandomNeutralWalkExplorer` (moRandomNeutralWalkExplorer.h:90-158). -/
def neutralWalk {S M F : Type} [DecidableEq F] (nbStep : Nat)
    (nb : Nat → S × F → List (Cand M F)) (app : M → S → S) : Explorer (S × F) (HC M F) where
  initParam _ e := { e with step := 0, isAccept := true }
  explore t sol e := match nb t sol with
    | [] => (sol, { e with isAccept := false })
    | c :: l => (sol, { e with selected := some (equalSelect sol.2 c l) })
  accept t sol e := match nb t sol, e.selected with
    | _ :: _, some c => let a := decide (sol.2 = c.fit); (a, { e with isAccept := a })
    | _, _ => (e.isAccept, e)
  move sol e := moveSel app sol e.selected
  updateParam _ _ e := { e with step := e.step + 1 }
  isContinue _ e := decide (e.step < nbStep) && e.isAccept
  terminate sol _ := sol

/-! ### Tabu search -/

/-- The memories given to the tabu explorer (tabu list, aspiration, intensification,
diversification), as one state `W` with arbitrary operations. -/
structure Mem (Sol C W : Type) where
  init : Sol → W → W
  add : Sol → Option C → W → W
  update : Sol → Option C → W → W
  check : W → Sol → C → Bool
  aspir : W → Sol → C → Bool
  intensify : W → Sol → Sol
  diversify : W → Sol → Sol

/-- Members of `moTSexplorer` (explorer/moTSexplorer.h:209-240). -/
structure TS (Sol C W : Type) where
  mem : W
  bestSoFar : Sol
  selected : Option C
  isAccept : Bool

/-- First loop of `moTSexplorer::operator()` (moTSexplorer.h:148-166): look for the first neighbour
which is not tabu or is aspirated; returns it with the rest of the enumeration. -/
def firstAllowed {C : Type} (ok : C → Bool) : List C → Option (C × List C)
  | [] => none
  | c :: l => if ok c then some (c, l) else firstAllowed ok l

/-- Second loop (moTSexplorer.h:169-182): among the rest, an allowed neighbour strictly better than
the selected one replaces it. -/
def bestAllowed {M F : Type} [LinearOrder F] (ok : Cand M F → Bool) (s : Cand M F) :
    List (Cand M F) → Cand M F
  | [] => s
  | d :: l => bestAllowed ok (if ok d && decide (s.fit < d.fit) then d else s) l

/-- The selection made by one exploration (moTSexplorer.h:137-190). -/
def tsSelect {M F : Type} [LinearOrder F] (ok : Cand M F → Bool) (l : List (Cand M F)) :
    Option (Cand M F) :=
  match firstAllowed ok l with
  | none => none
  | some (c, rest) => some (bestAllowed ok c rest)

/-- `moTSexplorer` (explorer/moTSexplorer.h:95-206). -/
def tabuSearch {S M F W : Type} [LinearOrder F] (mem : Mem (S × F) (Cand M F) W)
    (nb : Nat → S × F → List (Cand M F)) (app : M → S → S) :
    Explorer (S × F) (TS (S × F) (Cand M F) W) where
  initParam sol e := { e with mem := mem.init sol e.mem, bestSoFar := sol }
  explore t sol e :=
    let sol1 := mem.diversify e.mem (mem.intensify e.mem sol)
    match tsSelect (fun c => !mem.check e.mem sol1 c || mem.aspir e.mem sol1 c) (nb t sol1) with
    | some c => (sol1, { e with selected := some c, isAccept := true })
    | none => (sol1, { e with isAccept := false })
  accept _ _ e := (e.isAccept, e)
  move sol e := moveSel app sol e.selected
  updateParam moved sol e :=
    let e1 := if moved then
        { e with mem := mem.add sol e.selected e.mem
                 bestSoFar := if e.bestSoFar.2 < sol.2 then sol else e.bestSoFar }
      else e
    { e1 with mem := mem.update sol e1.selected e1.mem }
  isContinue _ _ := true
  terminate _ e := e.bestSoFar

end Paradiseo.LS
