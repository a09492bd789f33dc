import Verif.Model.MoeoMetric
import Verif.Model.EOSelect
import Verif.Model.EOOperators

/-!
# moeo: comparing fronts by volume, stopping at a known front, selection, statistics of objectives

Model of moeo/src/metric/moeoHyperVolumeDifferenceMetric.h, continue/moeoHypContinue.h, continue/moeoDualHypContinue.h,
selection/moeoSelectors.h with moeoDetTournamentSelect.h, moeoStochTournamentSelect.h and moeoRouletteSelect.h,
utils/moeoBestObjVecStat.h, utils/moeoAverageObjVecStat.h, utils/moeoBinaryMetricStat.h and
fitness/moeoReferencePointIndicatorBasedFitnessAssignment.h.  Doubles are an ordered field.
-/

namespace Paradiseo.Moeo

open Paradiseo.EO (Err)
open Paradiseo.Ops (rnd)
open Paradiseo.Sel (rouletteWheel)

variable {F : Type} [Field F] [LinearOrder F]

/-! ### Difference of hypervolumes -/

/-- The bounds of objective `j` that `setup` computes from two sets (moeoHyperVolumeDifferenceMetric.h 156-172). -/
def diffBnd (tiny : F) (v : Nat → F) (l set2 : List (Nat → F)) (j : Nat) : Bnd F :=
  let mn := set2.foldl (fun m w => min m (w j)) (l.foldl (fun m w => min m (w j)) (v j))
  let mx := set2.foldl (fun m w => max m (w j)) (l.foldl (fun m w => max m (w j)) (v j))
  if mn = mx then ⟨mn - tiny, mx + tiny⟩ else ⟨mn, mx⟩

/-- `setup` (moeoHyperVolumeDifferenceMetric.h 140-174): throws if one of the sets is empty. -/
def diffSetup (tiny : F) : List (Nat → F) → List (Nat → F) → Option (Nat → Bnd F)
  | v :: l, w :: l' => some (diffBnd tiny v l (w :: l'))
  | _, _ => none

/-- The two volumes with the same reference point and the same bounds (moeoHyperVolumeDifferenceMetric.h 120-124). -/
def hvMinus (minimizing : Nat → Bool) (B : Nat → Bnd F) (ref : Nat → F) (K : Nat) (set1 set2 : List (Nat → F)) : Option F :=
  match hvMetric minimizing B ref K set1, hvMetric minimizing B ref K set2 with
  | some a, some b => some (a - b)
  | _, _ => none

/-- moeoHyperVolumeDifferenceMetric::operator() (moeoHyperVolumeDifferenceMetric.h 87-125); `ref` is the member
`ref_point`, used only if `rho < 1`.  `none`: exception. -/
def hvDiff (tiny : F) (minimizing : Nat → Bool) (normalize : Bool) (rho : F) (ref : Nat → F) (K : Nat)
    (set1 set2 : List (Nat → F)) : Option F :=
  if 1 ≤ rho then
    match diffSetup tiny set1 set2 with
    | none => none
    | some B =>
      if normalize then hvMinus minimizing B (fun j => if minimizing j then rho else 1 - rho) K set1 set2
      else hvMinus minimizing (fun _ => ⟨0, 1⟩)
        (fun j => if minimizing j then (B j).hi * rho else (B j).hi * (1 - rho)) K set1 set2
  else if normalize then
    match diffSetup tiny set1 set2 with
    | none => none
    | some B => hvMinus minimizing B ref K set1 set2
  else hvMinus minimizing (fun _ => ⟨0, 1⟩) ref K set1 set2

/-! ### Stopping at a known front -/

/-- `vectorToParetoSet` (moeoHypContinue.h 122-133): `K` objectives per vector; what is left at the end is not used. -/
def toParetoSet (K : Nat) (vals : List F) : List (Nat → F) :=
  (List.range (vals.length / K)).map fun i j => vals.getD (i * K + j) 0

/-- moeoHypContinue::operator() (moeoHypContinue.h 87-119): `some true` is to continue, `none` an exception. -/
def hypContinue (metric : List (Nat → F) → List (Nat → F) → Option F) (optim archive : List (Nat → F)) : Option Bool :=
  match metric archive optim with
  | none => none
  | some h => some (if h = 0 then false else true)

/-- moeoDualHypContinue::operator() (moeoDualHypContinue.h 83-101) without assertions: the first members of the archive
and of the known front are compared by feasibility. -/
def dualHypContinue (metric : List (Nat → F) → List (Nat → F) → Option F) (optim archive : List ((Nat → F) × Bool)) :
    Except Err Bool :=
  match archive, optim with
  | a :: _, o :: _ =>
    if a.2 ≠ o.2 then .ok false
    else
      match hypContinue metric (optim.map (·.1)) (archive.map (·.1)) with
      | none => .error .thrown
      | some b => .ok b
  | _, _ => .error .ub

/-! ### Selection -/

variable {α : Type}

/-- The constructors of moeoDetTournamentSelect (moeoDetTournamentSelect.h 58-83). -/
def moTourSize (tSize : Nat) : Nat := if tSize < 2 then 2 else tSize

/-- mo_deterministic_tournament (moeoSelectors.h 44-58): `t` rounds left, the next draw is number `k`. -/
def moDetLoop (cmp : α → α → Bool) (r : Nat → Nat) (pop : List α) : Nat → Nat → α → Except Err α
  | 0, _, best => .ok best
  | t + 1, k, best =>
    match pop[rnd r k pop.length]? with
    | none => .error .ub
    | some c => moDetLoop cmp r pop t (k + 1) (if cmp best c then c else best)

/-- moeoDetTournamentSelect::operator() (moeoDetTournamentSelect.h 90-94). -/
def moDetSelect (cmp : α → α → Bool) (tSize : Nat) (r : Nat → Nat) (pop : List α) : Except Err α :=
  match pop[rnd r 0 pop.length]? with
  | none => .error .ub
  | some b => moDetLoop cmp r pop (moTourSize tSize - 1) 1 b

/-- The constructors of moeoStochTournamentSelect (moeoStochTournamentSelect.h 58-91). -/
def moTourRate (tRate : F) : F :=
  let t := if tRate < 1 / 2 then 55 / 100 else tRate
  if 1 < t then 1 else t

/-- mo_stochastic_tournament (moeoSelectors.h 75-98); `u` is the number drawn by `flip`. -/
def moStochSelect (cmp : α → α → Bool) (tRate u : F) (r : Nat → Nat) (pop : List α) : Except Err α :=
  match pop[rnd r 0 pop.length]?, pop[rnd r 1 pop.length]? with
  | some a, some b =>
    let better := decide (u < moTourRate tRate)
    .ok (if cmp a b then if better then b else a else if better then a else b)
  | _, _ => .error .ub

/-- moeoRouletteSelect (moeoRouletteSelect.h 57-77) with mo_roulette_wheel (moeoSelectors.h 135-151): what is passed as
the total is the size of a tournament.  `u` is `uniform()`; the result is the position. -/
def moRoulette (tSize : Nat) (u : F) (r : Nat → Nat) (fits : List F) : Except Err Nat :=
  rouletteWheel fits (u * (moTourSize tSize : Nat)) r

/-! ### Statistics of objective vectors -/

/-- `std::max_element` with `CmpObjVec` (moeoBestObjVecStat.h 78-92, 103): the first of the best individuals in objective
`o`. -/
def bestIn (maximizing : Nat → Bool) (obj : α → Nat → F) (o : Nat) : List α → Option α
  | [] => none
  | a :: l => some (l.foldl (fun b x => if (if maximizing o then decide (obj b o < obj x o) else decide (obj x o < obj b o))
      then x else b) a)

/-- `value()` and `best_individuals` (moeoBestObjVecStat.h 76). -/
structure BestStat (α F : Type) where
  value : List F
  best : List α
deriving DecidableEq

/-- `doit` (moeoBestObjVecStat.h 95-107) for `K` objectives; reading an empty population is undefined. -/
def BestStat.doit (maximizing : Nat → Bool) (obj : α → Nat → F) (K : Nat) (s : BestStat α F) (pop : List α) :
    Except Err (BestStat α F) :=
  match (List.range K).mapM fun o => bestIn maximizing obj o pop with
  | none => .error .ub
  | some bs => .ok ⟨(List.range K).zipWith (fun o b => obj b o) bs, s.best ++ bs⟩

/-- Several generations. -/
def BestStat.run (maximizing : Nat → Bool) (obj : α → Nat → F) (K : Nat) : BestStat α F → List (List α) →
    Except Err (BestStat α F)
  | s, [] => .ok s
  | s, pop :: pops =>
    match s.doit maximizing obj K pop with
    | .error e => .error e
    | .ok t => BestStat.run maximizing obj K t pops

/-- `bestindividuals` (moeoBestObjVecStat.h 66-70). -/
def BestStat.individual (K which : Nat) (s : BestStat α F) : Except Err α :=
  if K < which then .error .thrown
  else
    match s.best[which]? with
    | none => .error .ub
    | some x => .ok x

/-- moeoAverageObjVecStat::doit (moeoAverageObjVecStat.h 78-88) for objective `o`. -/
def averageObj (obj : α → Nat → F) (o : Nat) (pop : List α) : F := pop.foldl (fun s x => s + obj x o) 0 / pop.length

/-- moeoBinaryMetricStat::operator() (moeoBinaryMetricStat.h 57-80): `value` and `_prev_pop` (`none` before the first
non-empty population). -/
def binaryStat (metric : List α → List α → F) (s : F × Option (List α)) (pop : List α) : F × Option (List α) :=
  match pop with
  | [] => s
  | _ =>
    match s.2 with
    | none => (s.1, some pop)
    | some prev => (metric pop prev, some pop)

/-! ### Reference point -/

variable {n : Nat}

/-- `setup` (moeoReferencePointIndicatorBasedFitnessAssignment.h 103-118) for one objective, with
moeoNormalizedSolutionVsSolutionBinaryMetric::setup. -/
def refBnd (tiny : F) (ref : Fin n → F) (objs : List (Fin n → F)) (i : Fin n) : Bnd F :=
  setupBnd tiny (objs.foldl (fun m v => min m (v i)) (ref i)) (objs.foldl (fun m v => max m (v i)) (ref i))

/-- The fitness values (moeoReferencePointIndicatorBasedFitnessAssignment.h 71-77, 124-130). -/
def refFitness (tiny : F) (metric : (Fin n → Bnd F) → (Fin n → F) → (Fin n → F) → F) (ref : Fin n → F)
    (objs : List (Fin n → F)) : List F :=
  objs.map fun v => -metric (refBnd tiny ref objs) v ref

end Paradiseo.Moeo
