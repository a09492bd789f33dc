import Verif.Model.CloudSampling
/-
Samplings of independent random solutions with a second column: mo/src/sampling/moFDCsampling.h,
mo/src/sampling/moNeutralDegreeSampling.h (with continuator/moDistanceStat.h, moNeutralDegreeNeighborStat.h). The local search
is moRandomSearch; `draw t` is the solution drawn at iteration `t`, `x` what the initialiser gives first.

Fitness is a rational number.
-/
namespace Paradiseo.LS

open Paradiseo.EO (Err)

/-- moFDCsampling (70-79): fitness and distance to the reference. The statistic keeps a copy of the reference
(moDistanceStat.h 57, 89); the solution is the first argument of the distance (64, 72). -/
def fdcSampling {S : Type} (f : S → ℚ) (dist : S → S → ℚ) (ref : S) (nbSol : Nat) (draw : Nat → S) (fuel : Nat) (x : S) :
    Option (List (List ℚ)) :=
  sampling f (randomSearch (searchSteps nbSol) (fun t => (draw t, f (draw t)))) [fun s => s.2, fun s => dist s.1 ref]
    (fun (_ : Unit) _ => (true, ())) (fun _ => ()) fuel x none 0

/-- moNeutralDegreeSampling (71-82, 94-107): fitness, and the number of equal neighbours. The statistic on the neighbourhood
is called before the one that shows its member (80-81). `look y`: the fitness values of the neighbours of `y`. -/
def ndSampling {S : Type} (f : S → ℚ) (lt : ℚ → ℚ → Bool) (sort : List ℚ → List ℚ) (look : S → List ℚ) (nbSol : Nat)
    (draw : Nat → S) (fuel : Nat) (x : S) : Option (List ℚ × List (Except Err Nat)) :=
  (localSearch f (randomSearch (searchSteps nbSol) (fun t => (draw t, f (draw t)))) (fun (_ : Unit) _ => (true, ()))
    (fun _ => ()) fuel x none 0).map fun r =>
      let sols := (x, f x) :: r.2.1.map (·.1)
      (sols.map (·.2), nbStatSeries lt sort (·.nbEqual) none (sols.map fun s => (s.2, look s.1)))

end Paradiseo.LS
