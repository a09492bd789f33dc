import Mathlib.Algebra.Order.Field.Rat
import Mathlib.Algebra.Order.Round
import Mathlib.Data.Rat.Floor

/-!
# edo: bounders and repairers

Model of edo/src/edoBounderBound.h, edoBounderUniform.h, edoBounderRng.h, edoRepairerApply.h,
edoRepairerRound.h, edoRepairerModulo.h and edoRepairerDispatcher.h.  Numbers are rationals.  An access
outside of a vector is the outcome `none`.
-/

namespace Paradiseo.Edo

/-- A solution: its variables and its fitness, `none` when it is invalid. -/
structure Sol where
  x : List ℚ
  fit : Option ℚ
  deriving DecidableEq

/-! ### Bounders -/

/-- The body of edoBounderBound's loop (edoBounderBound.h 52-61). -/
def clamp1 (lo hi v : ℚ) : ℚ := if v < lo then lo else if v > hi then hi else v

/-- edoBounderBound::operator() (edoBounderBound.h 45-63): the loop reads `min()[d]`, and `max()[d]`
unless the variable is below the minimum. -/
def boundBound : List ℚ → List ℚ → List ℚ → Option (List ℚ)
  | _, _, [] => some []
  | lo :: los, hi :: his, v :: vs =>
    match boundBound los his vs with
    | none => none
    | some ws => some (clamp1 lo hi v :: ws)
  | _, _, _ :: _ => none

/-- `rng.uniform(min, max)` (eoRNG.h 188-191): `u` is the draw of `rand() / 2^32`. -/
def uniformIn (lo hi u : ℚ) : ℚ := lo + (hi - lo) * u

/-- edoBounderUniform::operator() (edoBounderUniform.h 57-64) and edoBounderRng::operator()
(edoBounderRng.h 51-60): `draw lo hi t` is the value given by the `t`-th call of the generator, which
edoBounderRng calls without the bounds.  The result holds the number of the next call. -/
def boundDraw (draw : ℚ → ℚ → Nat → ℚ) : Nat → List ℚ → List ℚ → List ℚ → Option (List ℚ × Nat)
  | t, _, _, [] => some ([], t)
  | t, lo :: los, hi :: his, v :: vs =>
    if v < lo ∨ v > hi then
      match boundDraw draw (t + 1) los his vs with
      | none => none
      | some (ws, t') => some (draw lo hi t :: ws, t')
    else
      match boundDraw draw t los his vs with
      | none => none
      | some (ws, t') => some (v :: ws, t')
  | _, _, _, _ :: _ => none

/-- A bounder applied to a solution does not touch its fitness (edoBounderBound.h 45-63,
edoBounderUniform.h 46-67, edoBounderRng.h 46-61). -/
def boundSol (f : List ℚ → Option (List ℚ)) (s : Sol) : Option Sol :=
  match f s.x with
  | none => none
  | some y => some { s with x := y }

/-! ### Repairers -/

/-- edoRepairerApplyUnary::operator() (edoRepairerApply.h 61-65) and edoRepairerApplyBinary::operator()
(87-95), with the second argument of the function fixed. -/
def applyAll (f : ℚ → ℚ) (s : Sol) : Sol := { x := s.x.map f, fit := none }

/-- `std::floor` (edoRepairerRound.h 46). -/
def floorR (v : ℚ) : ℚ := (⌊v⌋ : ℤ)

/-- `std::ceil` (edoRepairerRound.h 60). -/
def ceilR (v : ℚ) : ℚ := (⌈v⌉ : ℤ)

/-- `edoRound` (edoRepairerRound.h 65-71). -/
def edoRound (v prec : ℚ) : ℚ :=
  if v > 0 then floorR (v * prec + 1 / 2) / prec else ceilR (v * prec - 1 / 2) / prec

/-- edoRepairerRoundDecimals (edoRepairerRound.h 89): the precision is the inverse of the argument. -/
def roundDecimals (decimals : ℚ) : Sol → Sol := applyAll fun v => edoRound v (1 / decimals)

/-- The integer part toward zero. -/
def truncR (v : ℚ) : ℚ := if 0 ≤ v then floorR v else ceilR v

/-- `std::fmod` (edoRepairerModulo.h 42): `v` minus the multiple of `d` by the quotient truncated toward
zero. -/
def fmodR (v d : ℚ) : ℚ := v - d * truncR (v / d)

/-! ### Dispatcher -/

/-- `sol.at(*j)` for all indices (edoRepairerDispatcher.h 151-157); `at` throws outside of the vector. -/
def gather (x : List ℚ) : List Nat → Option (List ℚ)
  | [] => some []
  | j :: js =>
    match x[j]?, gather x js with
    | some v, some vs => some (v :: vs)
    | _, _ => none

/-- The second loop (edoRepairerDispatcher.h 173-176). -/
def scatter (x : List ℚ) : List Nat → List ℚ → Option (List ℚ)
  | [], _ => some x
  | _ :: _, [] => none
  | j :: js, v :: vs => scatter (x.set j v) js vs

/-- A repairer as a function on the variables of a solution (the partial solution is a new object). -/
abbrev Repair := List ℚ → Option (List ℚ)

/-- One pair of the dispatcher (edoRepairerDispatcher.h 142-177). -/
def dispatchOne (x : List ℚ) (p : List Nat × Repair) : Option (List ℚ) :=
  match gather x p.1 with
  | none => none
  | some [] => some x
  | some (v :: vs) =>
    match p.2 (v :: vs) with
    | none => none
    | some part => scatter x p.1 part

/-- edoRepairerDispatcher::operator() (edoRepairerDispatcher.h 134-181). -/
def dispatch : List (List Nat × Repair) → List ℚ → Option (List ℚ)
  | [], x => some x
  | p :: ps, x =>
    match dispatchOne x p with
    | none => none
    | some y => dispatch ps y

/-- The dispatcher on a solution: the fitness is invalidated (edoRepairerDispatcher.h 180). -/
def dispatchSol (ps : List (List Nat × Repair)) (s : Sol) : Option Sol :=
  match dispatch ps s.x with
  | none => none
  | some y => some { x := y, fit := none }

end Paradiseo.Edo
