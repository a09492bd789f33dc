import Verif.Model.WalkSampling
import Verif.Model.FlipNeighborhood
/-
Samplings along walks: mo/src/sampling/moNeutralWalkSampling.h (with continuator/moDistanceStat.h), moFitnessCloudSampling.h,
moMHBestFitnessCloudSampling.h, moMHRndFitnessCloudSampling.h, moRndBestFitnessCloudSampling.h,
moRndRndFitnessCloudSampling.h (with continuator/moNeighborBestStat.h, moNeighborFitnessStat.h), and the explorer of
mo/src/explorer/moMetropolisHastingExplorer.h.

Fitness is a rational number. What the standard deviation column holds is given by its square, the variance.
-/
namespace Paradiseo.LS

open Paradiseo.EO (Err)

/-- moMetropolisHastingExplorer (88-162), default comparator; `u t` is the number drawn at iteration `t`. -/
def mhExplorer {S M F : Type} [Field F] [LinearOrder F] (nbStep : Nat) (u : Nat → F) (nb : Nat → S × F → List (Cand M F))
    (app : M → S → S) : Explorer (S × F) (HC M F) where
  initParam _ e := { e with step := 0, isAccept := true }
  explore t sol e := match nb t sol with
    | [] => (sol, { e with isAccept := false })
    | c :: _ => (sol, { e with selected := some c })
  accept t sol e := match nb t sol, e.selected with
    | _ :: _, some c => let a := metropolisAccept sol.2 c.fit (u t); (a, { e with isAccept := a })
    | _, _ => (e.isAccept, e)
  move sol e := moveSel app sol e.selected
  updateParam _ _ e := { e with step := e.step + 1 }
  isContinue _ e := decide (e.step < nbStep)
  terminate sol _ := sol

/-- The two columns of a fitness cloud: the fitness of the solution and what the statistic on its neighbours shows.
`look s`: the fitness values of the neighbours the statistic visits at `s`. `best`: moNeighborBestStat without a limit on the
neighbours (moMHBestFitnessCloudSampling.h 84, moRndBestFitnessCloudSampling.h), otherwise moNeighborFitnessStat. -/
def cloudStats {S : Type} (best : Bool) (look : S × ℚ → List ℚ) : List (S × ℚ → ℚ) :=
  [fun s => s.2, fun s => if best then FlipNbh.bestStat 0 0 (look s) else FlipNbh.oneStat 0 (look s)]

/-- moMHBestFitnessCloudSampling (78-105), moMHRndFitnessCloudSampling: the columns. -/
def mhCloud {S M : Type} (best : Bool) (f : S → ℚ) (look : S × ℚ → List ℚ) (nbStep : Nat) (u : Nat → ℚ)
    (nb : Nat → S × ℚ → List (Cand M ℚ)) (app : M → S → S) (fuel : Nat) (x : S) (e : HC M ℚ) : Option (List (List ℚ)) :=
  sampling f (mhExplorer nbStep u nb app) (cloudStats best look) (fun (_ : Unit) _ => (true, ())) (fun _ => ()) fuel x none e

/-- moRndBestFitnessCloudSampling, moRndRndFitnessCloudSampling: the local search is moRandomSearch; `draw t` is the solution
drawn at iteration `t`. -/
def rndCloud {S : Type} (best : Bool) (f : S → ℚ) (look : S × ℚ → List ℚ) (nbSol : Nat) (draw : Nat → S) (fuel : Nat)
    (x : S) : Option (List (List ℚ)) :=
  sampling f (randomSearch (searchSteps nbSol) (fun t => (draw t, f (draw t)))) (cloudStats best look)
    (fun (_ : Unit) _ => (true, ())) (fun _ => ()) fuel x none 0

/-- The table of moNeutralWalkSampling with a distance (98-133). -/
structure NeutralTable (S : Type) where
  sols : List (S × ℚ)
  dist : List ℚ
  avg : List (Except Err ℚ)
  var : List (Except Err ℚ)
  min : List (Except Err ℚ)
  q1 : List (Except Err ℚ)
  median : List (Except Err ℚ)
  q3 : List (Except Err ℚ)
  max : List (Except Err ℚ)
  size : List (Except Err Nat)
  nbInf : List (Except Err Nat)
  nd : List (Except Err Nat)
  nbSup : List (Except Err Nat)

/-- moNeutralWalkSampling (98-133) from the solution `x`: the walk and the columns. `look s`: the fitness values of the
neighbours as moNeighborhoodStat enumerates them. The reference of the distance is the solution given (106), of which the
walk makes a copy (moSolInit.h). -/
def neutralSampling {S M : Type} (f : S → ℚ) (d : S → S → ℚ) (lt : ℚ → ℚ → Bool) (sort : List ℚ → List ℚ)
    (look : S × ℚ → List ℚ) (nbStep : Nat) (nb : Nat → S × ℚ → List (Cand M ℚ)) (app : M → S → S) (fuel : Nat) (x : S)
    (fit : Option ℚ) (e : HC M ℚ) : Option (NeutralTable S) :=
  (localSearch f (neutralWalk nbStep nb app) (fun (_ : Unit) _ => (true, ())) (fun _ => ()) fuel x fit e).map fun r =>
    let sols := (x, fit.getD (f x)) :: r.2.1.map (·.1)
    let seen := sols.map fun s => (s.2, look s)
    { sols := sols
      dist := sols.map fun s => d s.1 x
      avg := nbStatSeries lt sort (·.mean) none seen
      var := nbStatSeries lt sort (·.variance) none seen
      min := nbStatSeries lt sort (·.min) none seen
      q1 := nbStatSeries lt sort (·.q1) none seen
      median := nbStatSeries lt sort (·.q2) none seen
      q3 := nbStatSeries lt sort (·.q3) none seen
      max := nbStatSeries lt sort (·.max) none seen
      size := nbStatSeries lt sort (·.nb) none seen
      nbInf := nbStatSeries lt sort (·.nbInf) none seen
      nd := nbStatSeries lt sort (·.nbEqual) none seen
      nbSup := nbStatSeries lt sort (·.nbSup) none seen }

end Paradiseo.LS
