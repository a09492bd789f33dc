import Verif.Model.LocalSearch
/-
Hill climbing with comparators that accept equals: mo/src/comparator/moEqualNeighborComparator.h and
mo/src/comparator/moEqualSolNeighborComparator.h given to mo/src/explorer/moSimpleHCexplorer.h and
mo/src/explorer/moFirstImprHCexplorer.h. The conventions are those of Verif/Model/LocalSearch.lean.
-/
namespace Paradiseo.LS

/-- The comparison of fitnesses: `<` in moNeighborComparator (55-57) and moSolNeighborComparator (60-62), `<=` in
moEqualNeighborComparator (55-57) and moEqualSolNeighborComparator (60-62). -/
def cmpBy {F : Type} [LinearOrder F] (eqs : Bool) (a b : F) : Bool := if eqs then decide (a ≤ b) else decide (a < b)

/-- The loop of moSimpleHCexplorer::operator() (110-119) with a comparator of neighbours. -/
def simpleSelectBy {M F : Type} [LinearOrder F] (eqN : Bool) (c : Cand M F) : List (Cand M F) → Cand M F
  | [] => c
  | d :: l => simpleSelectBy eqN (if cmpBy eqN c.fit d.fit then d else c) l

/-- moSimpleHCexplorer (79-147) with comparators. -/
def simpleHCBy {S M F : Type} [LinearOrder F] (eqN eqS : Bool) (nb : Nat → S × F → List (Cand M F)) (app : M → S → S) :
    Explorer (S × F) (HC M F) where
  initParam _ e := e
  explore t sol e := match nb t sol with
    | [] => (sol, { e with isAccept := false })
    | c :: l => (sol, { e with selected := some (simpleSelectBy eqN c l) })
  accept t sol e := match nb t sol, e.selected with
    | _ :: _, some c => let a := cmpBy eqS sol.2 c.fit; (a, { e with isAccept := a })
    | _, _ => (e.isAccept, e)
  move sol e := moveSel app sol e.selected
  updateParam _ _ e := e
  isContinue _ e := e.isAccept
  terminate sol _ := sol

/-- The loop of moFirstImprHCexplorer::operator() (117-122) with a comparator of the solution and a neighbour. -/
def firstSelectBy {M F : Type} [LinearOrder F] (eqS : Bool) (fx : F) (c : Cand M F) : List (Cand M F) → Cand M F
  | [] => c
  | d :: l => if cmpBy eqS fx c.fit then c else firstSelectBy eqS fx d l

/-- moFirstImprHCexplorer (88-155) with comparators; the comparator of neighbours is not used. -/
def firstHCBy {S M F : Type} [LinearOrder F] (eqS alwaysContinue : Bool) (nb : Nat → S × F → List (Cand M F))
    (app : M → S → S) : Explorer (S × F) (HC M F) where
  initParam _ e := e
  explore t sol e := match nb t sol with
    | [] => (sol, { e with isAccept := false })
    | c :: l => (sol, { e with selected := some (firstSelectBy eqS sol.2 c l) })
  accept t sol e := match nb t sol, e.selected with
    | _ :: _, some c => let a := cmpBy eqS sol.2 c.fit; (a, { e with isAccept := a })
    | _, _ => (e.isAccept, e)
  move sol e := moveSel app sol e.selected
  updateParam _ _ e := e
  isContinue _ e := if alwaysContinue then true else e.isAccept
  terminate sol _ := sol

end Paradiseo.LS
