import Verif.Model.EOSelect
import Verif.Model.EOReplacement
import Verif.Model.Init

/-!
# eo: cached ranking, selection by worth, detection of minimisation

Model of eo/src/eoRankingCached.h, eoSelectFromWorth.h and of `minimizing_fitness` (utils/selectors.h 66-142) with the
fitness types of eoScalarFitness.h.
-/

namespace Paradiseo.Worth

open Paradiseo.EO (Err)
open Paradiseo.Sel (rankLoop rouletteWheel)
open Paradiseo.EO (detTournament stochTournament)

variable {α F G : Type} [Field F] [LinearOrder F]

/-! ### eoRankingCached -/

/-- The members (eoRankingCached.h 127-136) with the inherited `value()`. -/
structure Cache (F : Type) where
  size : Nat
  sizeMinusOne : Nat
  alpha : F
  beta : F
  gamma : F
  value : List F

/-- The update of the cache (eoRankingCached.h 85-92): only when the size has changed; the product is taken in 32 bits. -/
def Cache.refresh (p : F) (n : Nat) (s : Cache F) : Cache F :=
  if n ≠ s.size then
    { s with
      size := n
      sizeMinusOne := n - 1
      beta := (2 - p) / n
      gamma := (2 * p - 2) / n
      alpha := (2 * p - 2) / ((n * (n - 1) % 2 ^ 32 : Nat)) }
  else s

/-- The worth of rank `i` from the cached numbers (eoRankingCached.h 110, 120-122); `pw` is `none` for the exponent 1. -/
def Cache.worth (s : Cache F) (pw : Option (F → F)) (n i : Nat) : F :=
  match pw with
  | none => s.alpha * ((n : F) - i) + s.beta
  | some g => s.gamma * g (((n : F) - i) / n) + s.beta

/-- eoRankingCached::operator() (eoRankingCached.h 74-125): what it throws, if anything, and the members afterwards.
`sortIdx` gives the positions in the order of `_pop.sort(rank)`. -/
def Cache.call (p : F) (pw : Option (F → F)) (sortIdx : List α → List Nat) (s : Cache F) (pop : List α) :
    Option Err × Cache F :=
  if pop.length ≤ 1 then (some .thrown, s)
  else
    let s := { s with value := Init.resize 0 pop.length s.value }
    let s := s.refresh p pop.length
    (none, { s with value := rankLoop (s.worth pw pop.length) (sortIdx pop) 0 s.value })

/-- A new object (eoRankingCached.h 60-63): the other members have any values. -/
def Cache.Fresh (s : Cache F) : Prop := s.size = 0

/-- Several calls, exceptions being caught in between. -/
def Cache.run (p : F) (pw : Option (F → F)) (sortIdx : List α → List Nat) : Cache F → List (List α) → Cache F
  | s, [] => s
  | s, pop :: pops => Cache.run p pw sortIdx (s.call p pw sortIdx pop).2 pops

/-! ### eoSelectFromWorth -/

/-- `perf2Worth.value()` and, in a build with assertions, `fitness` (eoSelectFromWorth.h 76-79); `total` belongs to
eoRouletteWorthSelect (228). -/
structure WSel (G F : Type) where
  worths : List F
  fits : List G
  total : F

/-- `setup` (eoSelectFromWorth.h 63-71, 192-199). -/
def WSel.setup (perf2Worth : List α → List F) (fit : α → G) (pop : List α) : WSel G F :=
  ⟨perf2Worth pop, pop.map fit, (perf2Worth pop).sum⟩

/-- What the selectors do with the position that was drawn: check_sync (eoSelectFromWorth.h 80-84) in a build with
assertions, then `pop[index]`. -/
def WSel.at [DecidableEq G] (debug : Bool) (fit : α → G) (s : WSel G F) (pop : List α) (i : Nat) : Except Err α :=
  match pop[i]? with
  | none => .error .ub
  | some x =>
    if debug then
      match s.fits[i]? with
      | none => .error .ub
      | some g => if g ≠ fit x then .error .thrown else .ok x
    else .ok x

/-- eoDetTournamentWorthSelect::operator() (eoSelectFromWorth.h 110-120). -/
def WSel.det [DecidableEq G] (debug : Bool) (fit : α → G) (tSize : Nat) (r : Nat → Nat) (s : WSel G F) (pop : List α) :
    Except Err α :=
  match detTournament id tSize r s.worths 0 with
  | .error e => .error e
  | .ok (i, _) => s.at debug fit pop i

/-- eoStochTournamentWorthSelect::operator() (eoSelectFromWorth.h 150-163). -/
def WSel.stoch [DecidableEq G] (debug : Bool) (fit : α → G) (r : Nat → Nat) (flip : Nat → Bool) (s : WSel G F)
    (pop : List α) : Except Err α :=
  match stochTournament id r flip s.worths 0 with
  | .error e => .error e
  | .ok (i, _) => s.at debug fit pop i

/-- eoRouletteWorthSelect::operator() (eoSelectFromWorth.h 205-225); `u` is `rng.uniform()`. -/
def WSel.roulette [DecidableEq G] (debug : Bool) (fit : α → G) (u : F) (r : Nat → Nat) (s : WSel G F) (pop : List α) :
    Except Err α :=
  match rouletteWheel s.worths (u * s.total) r with
  | .error e => .error e
  | .ok i => s.at debug fit pop i

/-! ### minimizing_fitness -/

/-- The scalar types a fitness can have. -/
inductive Scalar where
  | double | float | longDouble | int
  deriving DecidableEq

/-- Types of fitness: a bare number, or eoScalarFitness of a scalar type compared with `std::less` or `std::greater`
(eoScalarFitness.h 52-122), or another class without a member `ScalarType`, of which only matters if
`Fitness(1.0) < Fitness(0.0)`. -/
inductive FitType where
  | number
  | scalar (t : Scalar) (greater : Bool)
  | other (less10 : Bool)
  deriving DecidableEq

/-- `Fitness(1.0) < Fitness(0.0)`: eoScalarFitness compares with its comparator (eoScalarFitness.h 77-80). -/
def FitType.less10 : FitType → Bool
  | .number => false
  | .scalar _ greater => greater
  | .other b => b

/-- eo::is_fit (utils/selectors.h 75-85): the type has a member `ScalarType`. -/
def FitType.isFit : FitType → Bool
  | .scalar _ _ => true
  | _ => false

/-- `minimizing_fitness<EOT>()` (utils/selectors.h 90-142); eoMinimizingFitness is eoScalarFitness<double,
std::greater<double>> (eoScalarFitness.h 119-122). -/
def FitType.minimizing (t : FitType) : Bool :=
  if t.isFit then decide (t = .scalar .double true) else t.less10

/-- The constructors of eoProportionalSelect (eoProportionalSelect.h 54-61) and eoStochasticUniversalSelect
(eoStochasticUniversalSelect.h 45-49): they throw for a fitness to be minimised. -/
def FitType.proportional (t : FitType) : Except Err Unit := if t.minimizing then .error .thrown else .ok ()

end Paradiseo.Worth
