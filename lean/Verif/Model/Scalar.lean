import Mathlib.Algebra.Order.Field.Basic
import Mathlib.Analysis.SpecialFunctions.Pow.Real
/-
The normaliser of objective vectors and the functions that make one number of an objective vector.

* moeo/src/utils/moeoObjectiveVectorNormalizer.h
* moeo/src/fitness/moeoAggregationFitnessAssignment.h, moeoConstraintFitnessAssignment.h
* moeo/src/scalarStuffs/fitness/moeoAchievementFitnessAssignment.h and the four classes built on a distance
* moeo/src/scalarStuffs/distance/*.h, moeo/src/metric/moeoDistanceMetric.h

Exact arithmetic in an ordered field (division by zero, undefined or infinite in C++, is excluded in the
theorems).  A vector is a function of the number of the objective, `m` is the number of objectives.
-/
namespace Paradiseo.Scalar

variable {K : Type} [Field K] [LinearOrder K]

abbrev Vec (K : Type) := Nat → K

/-! ### The normaliser -/

/-- Coefficient and offset of each objective, and `max`. -/
structure Norm (K : Type) where
  scale : Nat → K × K
  max : K

/-- `operator()` (214-221). -/
def Norm.apply (n : Norm K) (v : Vec K) : Vec K := fun i => (v i - (n.scale i).2) * (n.scale i).1

/-- Smallest and greatest value of an objective (112-118). -/
def lowest (i : Nat) (v : Vec K) (l : List (Vec K)) : K := (v :: l).foldl (fun a w => if w i < a then w i else a) (v i)
def highest (i : Nat) (v : Vec K) (l : List (Vec K)) : K := (v :: l).foldl (fun a w => if a < w i then w i else a) (v i)

def amp (v : Vec K) (l : List (Vec K)) (i : Nat) : K := highest i v l - lowest i v l

/-- `num_amp_max` after the objectives below `m` (109, 121-122). -/
def ampIdx (v : Vec K) (l : List (Vec K)) (m : Nat) : Nat :=
  (List.range m).foldl (fun k i => if amp v l k < amp v l i then i else k) 0

/-- `make_scale_from_pop` (100-138) of a population that is not empty. -/
def scaleFromPop (m : Nat) (mx : K) (v : Vec K) (l : List (Vec K)) (i : Nat) : K × K :=
  (if amp v l i = 0 then 1 else if mx = 0 then amp v l (ampIdx v l m) / amp v l i else mx / amp v l i, lowest i v l)

def fromPop (m : Nat) (mx : K) (v : Vec K) (l : List (Vec K)) : Norm K := ⟨scaleFromPop m mx v l, mx⟩

/-- `make_scale_from_bounds` (146-173). -/
def scaleFromBounds (mx : K) (lo hi : Vec K) (i : Nat) : K × K := (mx / (hi i - lo i), lo i)

def fromBounds (mx : K) (lo hi : Vec K) : Norm K := ⟨scaleFromBounds mx lo hi, mx⟩

/-- `make_scale_from_minmax` (182-191). -/
def scaleFromMinMax (mx : K) (best worst : Vec K) (i : Nat) : K × K := (mx / (worst i - best i), best i)

def fromMinMax (mx : K) (best worst : Vec K) : Norm K := ⟨scaleFromMinMax mx best worst, mx⟩

/-- `make_dummy_scale` (197-207). -/
def dummy (mx : K) : Norm K := ⟨fun _ => (1, 0), mx⟩

/-- `update_by_pop` (251-253), `update_by_min_max` (259-261): with the current `max`. -/
def Norm.updateByPop (m : Nat) (v : Vec K) (l : List (Vec K)) (n : Norm K) : Norm K :=
  ⟨scaleFromPop m n.max v l, n.max⟩
def Norm.updateByMinMax (best worst : Vec K) (n : Norm K) : Norm K := ⟨scaleFromMinMax n.max best worst, n.max⟩

/-- `update_by_bounds` (266-274): the maximum is the default argument 100. -/
def Norm.updateByBounds (lo hi : Vec K) (n : Norm K) : Norm K := ⟨scaleFromBounds 100 lo hi, n.max⟩

/-- `change_max` (289-296). -/
def Norm.changeMax (mx : K) (n : Norm K) : Norm K :=
  ⟨fun i => if n.max = 0 then n.scale i else ((n.scale i).1 * mx / n.max, (n.scale i).2), mx⟩

/-! ### Scalar functions -/

/-- moeoAggregationFitnessAssignment (86-100): `nw` weights are there. -/
def aggregation (m nw : Nat) (mini : Nat → Bool) (w : Vec K) (v : Vec K) : K :=
  if nw < m then 0
  else (List.range m).foldl (fun r l => if mini l then r - v l * w l else r + v l * w l) 0

/-- moeoConstraintFitnessAssignment (94-121). -/
def constraintFit (m nw : Nat) (mini : Nat → Bool) (w : Vec K) (n : Norm K) (con : Vec K) (opt : Nat) (v : Vec K) : K :=
  if nw < m then 0
  else (List.range m).foldl (fun r l =>
    if l = opt then (if mini l then r - n.apply v l * w l else r + n.apply v l * w l)
    else if mini l then
      (if n.apply con l < n.apply v l then r - (n.apply v l - n.apply con l) * w l else r)
    else (if n.apply v l < n.apply con l then r + (n.apply v l - n.apply con l) * w l else r)) 0

/-- moeoAchievementFitnessAssignment::compute (153-166): `inf` is the greatest double. -/
def achievement (m : Nat) (inf spn : K) (lam ref v : Vec K) : K :=
  (List.range m).foldl (fun a i => min a (lam i * (ref i - v i))) inf +
    spn * (List.range m).foldl (fun s i => s + lam i * (ref i - v i)) 0

/-- `iteration` of the achievement distances (96-107; 97-109). -/
def asfIter (mini : Nat → Bool) (w : Vec K) (n : Norm K) (ref v : Vec K) (i : Nat) : K :=
  w i * (if mini i then n.apply v i - n.apply ref i else n.apply ref i - n.apply v i)

/-- moeoAchievementScalarizingFunctionDistance (75-87). -/
def asf (m : Nat) (mini : Nat → Bool) (w : Vec K) (n : Norm K) (ref v : Vec K) : K :=
  (List.range m).foldl (fun mx i => if mx < asfIter mini w n ref v i then asfIter mini w n ref v i else mx)
    (asfIter mini w n ref v 0)

/-- moeoAugmentedAchievementScalarizingFunctionDistance (79-90). -/
def augAsf (m : Nat) (mini : Nat → Bool) (rho : K) (w : Vec K) (n : Norm K) (ref v : Vec K) : K :=
  (List.range m).foldl (fun s i => s + asfIter mini w n ref v i) 0 + rho * asf m mini w n ref v

/-- `iteration` of the augmented Chebychev distance (95-100). -/
def chebIter (n : Norm K) (ref v : Vec K) (i : Nat) : K := |n.apply v i - n.apply ref i|

/-- moeoAugmentedWeightedChebychevDistance (75-87): `res` and `max` after the objectives from 1 on. -/
def augChebLoop (m : Nat) (w : Vec K) (n : Norm K) (ref v : Vec K) : K × K :=
  (List.range' 1 (m - 1)).foldl (fun a i =>
    (a.1 + chebIter n ref v i, if a.2 < chebIter n ref v i * w i then chebIter n ref v i * w i else a.2))
    (chebIter n ref v 0, chebIter n ref v 0 * w 0)

def augCheb (m : Nat) (rho : K) (w : Vec K) (n : Norm K) (ref v : Vec K) : K :=
  (augChebLoop m w n ref v).1 * rho + (augChebLoop m w n ref v).2

/-- moeoWeightedChebychevDistance (77-100). -/
noncomputable def cheb (m : Nat) (rho : ℝ) (w : Vec ℝ) (n : Norm ℝ) (ref v : Vec ℝ) : ℝ :=
  (List.range m).foldl (fun s i => s + (w i * |n.apply v i - n.apply ref i| ^ rho) ^ (1 / rho)) 0

/-- moeoDistanceMetric (75-77): reference and vector are normalised before. -/
def metric (dist : Vec K → Vec K → K) (n : Norm K) (ref v : Vec K) : K := dist (n.apply ref) (n.apply v)

/-- The fitness of moeoAchievementScalarizingFunctionMetricFitnessAssignment (68, 87, 112-114): the distance has
its default normaliser; the metric gets the given one only if an evaluation function is given too. -/
def asfFitness (m : Nat) (mini : Nat → Bool) (w : Vec K) (given : Norm K) (withEval : Bool) (ref v : Vec K) : K :=
  - metric (asf m mini w (dummy 100)) (if withEval then given else dummy 100) ref v

end Paradiseo.Scalar
