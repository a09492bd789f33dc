import Verif.Model.MoeoMetric
import Verif.Model.MoeoFitness
import Verif.Model.MoeoEA
import Mathlib.Analysis.SpecialFunctions.Exp
/-
Model of the two algorithms of MOEO whose fitness looks at the whole population and is kept up to date while
individuals are removed, or keeps a memory from one generation to the next.

* moeo/src/algo/moeoIBEA.h with moeo/src/fitness/moeoExpBinaryIndicatorBasedFitnessAssignment.h,
  moeo/src/replacement/moeoEnvironmentalReplacement.h and the metrics moeoAdditiveEpsilonBinaryMetric.h,
  moeoHypervolumeBinaryMetric.h, moeoNormalizedSolutionVsSolutionBinaryMetric.h of moeo/src/metric
* moeo/src/algo/moeoMOGA.h with moeo/src/fitness/moeoDominanceRankFitnessAssignment.h,
  moeo/src/utils/moeoDominanceMatrix.h and moeo/src/replacement/moeoElitistReplacement.h

Values are reals. Variation, evaluation and the stopping criterion are given functions. The algorithm
moeo/src/algo/moeoNSGA.h is the loop of `Model/MoeoEA.lean` (`NCfg`) with another diversity.
-/
namespace Paradiseo.Moeo.Ibea

variable {n : Nat}

/-- Objective vectors of `n + 1` objectives. -/
abbrev Vec (n : Nat) := Fin (n + 1) → ℝ

/-- The metrics with bounds that come with MOEO; the number is the argument `_rho` of the hypervolume. -/
inductive Metric where
  | epsilon
  | hypervolume (rho : ℝ)

/-- `setup(pop)` of the fitness assignment (moeoExpBinaryIndicatorBasedFitnessAssignment.h:172-187) for
one objective: smallest and largest value in the population, handed to `setup` of the metric. -/
noncomputable def popBnd (tiny : ℝ) (v : Vec n) (l : List (Vec n)) (k : Fin (n + 1)) : Bnd ℝ :=
  setupBnd tiny (l.foldl (fun m w => min m (w k)) (v k)) (l.foldl (fun m w => max m (w k)) (v k))

/-- A vector by plain index; beyond the objectives a value nobody reads. -/
def ext {α : Type} (d : α) (f : Fin (n + 1) → α) (i : Nat) : α := if h : i < n + 1 then f ⟨i, h⟩ else d

/-- `metric(o1, o2)`: moeoAdditiveEpsilonBinaryMetric.h:60-73 or moeoHypervolumeBinaryMetric.h:84-108, whose
constructor (67-75) replaces a `rho` below 1 by 1. -/
noncomputable def indicator (T : Traits (n + 1) ℝ) (B : Fin (n + 1) → Bnd ℝ) : Metric → Vec n → Vec n → ℝ
  | .epsilon, a, b => addEpsVec T B a b
  | .hypervolume rho, a, b =>
    hvBinary (if rho < 1 then 1 else rho) (ext ⟨0, 1⟩ B) (ext false fun i => !T.minimizing i)
      (paretoCmp T b a) (ext 0 a) (ext 0 b) n

/-- `exp(-metric(a, b)/kappa)` (lines 118, 245). -/
noncomputable def penalty (kappa : ℝ) (I : Vec n → Vec n → ℝ) (a b : Vec n) : ℝ := Real.exp (-(I a b) / kappa)

/-- `std::min_element` on the fitness values (moeoEnvironmentalReplacement.h:120): first smallest. The
diversities, compared when fitnesses are equal, are all zero (moeoDummyDiversityAssignment.h:59-69). -/
noncomputable def minIdx : List ℝ → Nat
  | [] => 0
  | a :: l => ((l.zipIdx 1).foldl (fun (best : Nat × ℝ) x => if x.1 < best.2 then (x.2, x.1) else best) (0, a)).1

/-- What the caller of `moeoIBEA` supplies. `tiny` is the constant `1e-6` of the metric. -/
structure Cfg (n : Nat) where
  T : Traits (n + 1) ℝ
  metric : Metric
  kappa : ℝ
  tiny : ℝ
  breed : Nat → List (MInd (Vec n) ℝ) → List (MInd (Vec n) ℝ)
  cont : Nat → List (MInd (Vec n) ℝ) → Bool

/-- The penalties in force after `setup` on a population `v :: l`. -/
noncomputable def Cfg.pen (C : Cfg n) (v : Vec n) (l : List (Vec n)) : Vec n → Vec n → ℝ :=
  penalty C.kappa (indicator C.T (popBnd C.tiny v l) C.metric)

/-- `fitnessAssignment(pop)` (92-100); the first individual of an empty population is read: `none`. -/
noncomputable def Cfg.assign (C : Cfg n) (pop : List (MInd (Vec n) ℝ)) : Option (List (MInd (Vec n) ℝ)) :=
  match pop.map MInd.ov with
  | [] => none
  | v :: l => some (ibeaAssign (C.pen v l) pop)

/-- `replace(pop, offspring)` (moeoEnvironmentalReplacement.h:105-132): the bounds are those of parents and
offspring together and are not changed by the deletions. -/
noncomputable def Cfg.replace (C : Cfg n) (par off : List (MInd (Vec n) ℝ)) : Option (List (MInd (Vec n) ℝ)) :=
  match (par ++ off).map MInd.ov with
  | [] => none
  | v :: l => some (envReplace MInd.ov (ibeaAssign (C.pen v l)) (fun q => minIdx (q.map MInd.fit))
      (ibeaDelete (C.pen v l)) par off).1

/-- The loop of `moeoIBEA::operator()` (200-209) from generation `t` on. -/
noncomputable def Cfg.loop (C : Cfg n) : Nat → Nat → List (MInd (Vec n) ℝ) → Ea.Out (List (MInd (Vec n) ℝ))
  | 0, _, _ => .unfinished
  | fuel + 1, t, pop =>
    match C.replace pop (C.breed t pop) with
    | none => .ub
    | some pop => if C.cont t pop then C.loop fuel (t + 1) pop else .done pop

/-- `moeoIBEA::operator()` (193-210). -/
noncomputable def Cfg.run (C : Cfg n) (fuel : Nat) (pop : List (MInd (Vec n) ℝ)) :
    Ea.Out (List (MInd (Vec n) ℝ)) :=
  match C.assign pop with
  | none => .ub
  | some pop => C.loop fuel 0 pop

end Paradiseo.Moeo.Ibea

namespace Paradiseo.Moeo.Moga

/-- An individual: objective vector, fitness (minus a rank), diversity. -/
structure GInd (V : Type) where
  ov : V
  fit : Int
  div : ℚ
  deriving DecidableEq, Repr

variable {V : Type} [DecidableEq V]

/-- The dominance matrix of a population (moeoDominanceMatrix.h:91-200) with the default `_nocopy = true`
of moeoDominanceRankFitnessAssignment.h:70, which `moeoMOGA` uses (moeoMOGA.h:205); the archive is empty. -/
def matrix (cmp : V → V → Bool) (marks : List Nat) (vs : List V) : Option DomMatrix :=
  dmRun (fun p q => Ea.domAt cmp vs p q) (fun p q => decide (vs[p]? = vs[q]?)) true vs.length marks

/-- `fitnessAssignment(pop)` (moeoDominanceRankFitnessAssignment.h:109-118) with `_start = 1`: the new
population and the marks left in the matrix. -/
def rankAssign (cmp : V → V → Bool) (marks : List Nat) (pop : List (GInd V)) :
    Option (List (GInd V) × List Nat) :=
  (matrix cmp marks (pop.map (·.ov))).map fun s =>
    (pop.mapIdx fun i x => { x with fit := rankFitness 1 s i }, s.copySet)

/-- What the caller of `moeoMOGA` supplies; `crowd` is the front by front sharing, `sort` is `std::sort`. -/
structure Cfg (V : Type) where
  cmp : V → V → Bool
  crowd : List (GInd V) → Nat → ℚ
  sort : List (GInd V) → List (GInd V)
  breed : Nat → List (GInd V) → List (GInd V)
  cont : Nat → List (GInd V) → Bool

/-- `fitnessAssignment(pop); diversityAssignment(pop)` (moeoMOGA.h:140-141); the sharing of an empty
population writes outside its matrix (moeo/src/distance/moeoDistanceMatrix.h:81). -/
def Cfg.assign (C : Cfg V) (marks : List Nat) (pop : List (GInd V)) : Option (List (GInd V) × List Nat) :=
  if pop = [] then none
  else (rankAssign C.cmp marks pop).map fun r => (r.1.mapIdx fun i x => { x with div := C.crowd r.1 i }, r.2)

/-- `moeoFitnessThenDiversityComparator` (comparator/moeoFitnessThenDiversityComparator.h:56-66). -/
def worse (a b : GInd V) : Bool := ftdCmp ((a.fit : ℚ), a.div) ((b.fit : ℚ), b.div)

/-- `replace(pop, offspring)` (moeoElitistReplacement.h:101-116). -/
def Cfg.replace (C : Cfg V) (marks : List Nat) (par off : List (GInd V)) :
    Option (List (GInd V) × List Nat) :=
  (C.assign marks (par ++ off)).map fun r => ((C.sort r.1).take par.length, r.2)

/-- The loop of `moeoMOGA::operator()` (142-151) from generation `t` on: the marks are a member of the
fitness assignment and go from one generation to the next. -/
def Cfg.loop (C : Cfg V) : Nat → Nat → List (GInd V) → List Nat → Ea.Out (List (GInd V))
  | 0, _, _, _ => .unfinished
  | fuel + 1, t, pop, marks =>
    match C.replace marks pop (C.breed t pop) with
    | none => .ub
    | some r => if C.cont t r.1 then C.loop fuel (t + 1) r.1 r.2 else .done r.1

/-- `moeoMOGA::operator()` (135-152) of a newly made algorithm. -/
def Cfg.run (C : Cfg V) (fuel : Nat) (pop : List (GInd V)) : Ea.Out (List (GInd V)) :=
  match C.assign [] pop with
  | none => .ub
  | some r => C.loop fuel 0 r.1 r.2

end Paradiseo.Moeo.Moga
