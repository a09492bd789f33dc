import Verif.Model.EOBounds
import Verif.Model.EOReplacement
/-
Operators on real vectors used for integer vectors.

* eo/src/eoRealToIntMonOp.h 33-63, eoRealToIntQuadOp.h 33-83, eoRealToIntInit.h 33-62

`double` is an ordered field with a floor function.  The operator on real vectors is any function.  Genes are of
type `int` (32 bits): converting a number outside its range is `ub`.
-/
namespace Paradiseo.RealToInt

open Paradiseo.EO Paradiseo.Bounds

variable {F : Type} [Field F] [LinearOrder F] [FloorRing F]

/-- `std::round`: to the nearest, halves away from zero. -/
def roundZ (x : F) : Int := if 0 ≤ x then ⌊x + 1 / 2⌋ else ⌈x - 1 / 2⌉

/-- What is done to a value out of bounds (eoRealToIntMonOp.h 14-17). -/
inductive Repair where
  | folds
  | truncate

/-- Integer bounds (eoIntBounds.h) as bounds on `double`. -/
def real : Bound Int → Bound F
  | .none => .none
  | .interval lo hi => .interval lo hi
  | .below lo => .below lo
  | .above hi => .above hi

/-- `static_cast<int>`. -/
def toInt (x : F) : Except Err Int :=
  if -(2 ^ 31 : Int) ≤ truncZ x ∧ truncZ x < 2 ^ 31 then .ok (truncZ x) else .error .ub

/-- The repair (eoRealToIntMonOp.h 49-58); `u`: the fraction drawn by the folding of far numbers. -/
def repair (b : Bound Int) (w : Repair) (u x : F) : Except Err F :=
  if (real b : Bound F).isIn x then .ok x
  else
    match w with
    | .truncate => .ok ((real b).trunc x)
    | .folds => (real b).fold u x

/-- One gene (eoRealToIntMonOp.h 48-59). -/
def atom (b : Bound Int) (w : Repair) (u x : F) : Except Err Int :=
  match repair b w u (roundZ x : F) with
  | .error e => .error e
  | .ok y => toInt y

/-- The loop 47-60 (eoRealToIntMonOp.h) from gene `i` on: `intsol[i]` beyond the end is `ub`. -/
def writeBack (b : Bound Int) (w : Repair) (u : Nat → F) : Nat → List Int → List F → Except Err (List Int)
  | _, s, [] => .ok s
  | _, [], _ :: _ => .error .ub
  | i, _ :: s, x :: v =>
    match atom b w (u i) x with
    | .error e => .error e
    | .ok n =>
      match writeBack b w u (i + 1) s v with
      | .error e => .error e
      | .ok l => .ok (n :: l)

/-- `std::copy` into a vector of real numbers (eoRealToIntMonOp.h 41-42). -/
def reals {F : Type} [Field F] (s : List Int) : List F := s.map Int.cast

/-- The assertion 35-39 (eoRealToIntMonOp.h). -/
def allIn (F : Type) [Field F] [LinearOrder F] (b : Bound Int) (s : List Int) : Bool :=
  s.all fun n => (real b : Bound F).isIn (n : F)

/-- eoRealToIntMonOp (33-63). -/
def monOp (b : Bound Int) (w : Repair) (u : Nat → F) (op : List F → List F × Bool) (s : List Int) :
    Except Err (List Int × Bool) :=
  if allIn F b s then
    let r := op (reals s)
    if r.2 then
      match writeBack b w u 0 s r.1 with
      | .error e => .error e
      | .ok s' => .ok (s', true)
    else .ok (s, false)
  else .error .asserted

/-- eoRealToIntQuadOp (33-83). -/
def quadOp (b : Bound Int) (w : Repair) (u1 u2 : Nat → F) (op : List F → List F → (List F × List F) × Bool)
    (s t : List Int) : Except Err ((List Int × List Int) × Bool) :=
  if allIn F b s && allIn F b t then
    let r := op (reals s) (reals t)
    if r.2 then
      match writeBack b w u1 0 s r.1.1 with
      | .error e => .error e
      | .ok s' =>
        match writeBack b w u2 0 t r.1.2 with
        | .error e => .error e
        | .ok t' => .ok ((s', t'), true)
    else .ok ((s, t), false)
  else .error .asserted

/-- eoRealToIntInit (33-62): the integer vector gets the size of the real one. -/
def initOp (b : Bound Int) (w : Repair) (u : Nat → F) (ini : List F → List F) (s : List Int) :
    Except Err (List Int) :=
  if allIn F b s then
    let r := ini (reals s)
    writeBack b w u 0 (s.take r.length ++ List.replicate (r.length - s.length) 0) r
  else .error .asserted

end Paradiseo.RealToInt
