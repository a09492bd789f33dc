/-
Model of the bounds on real and integer variables (eo/src/utils/eoRealBounds.h, eoIntBounds.h,
eoRealVectorBounds.h) of /repo.

`double` is an ordered field with a floor function, `long` an `Int`.  A division by zero or the
conversion to `long` of a number outside its range is the outcome `.error .ub`.  The number that
`uniform()` would draw is a parameter `u` (a fraction of the range).
-/
import Mathlib.Algebra.Order.Floor.Ring
import Mathlib.Algebra.Order.Field.Basic
import Verif.Model.EOOperators

namespace Paradiseo.Bounds

open Paradiseo.EO (Err)
open Paradiseo.Ops (rnd)

variable {F : Type*} [Field F] [LinearOrder F] [FloorRing F]

/-- Conversion of a floating-point number toward zero. -/
def truncZ (x : F) : Int := if 0 ≤ x then ⌊x⌋ else ⌈x⌉

/-- `(long) (a / b)`. -/
def longDiv (a b : F) : Except Err Int :=
  if b = 0 then .error .ub
  else if -(2 ^ 63 : Int) ≤ truncZ (a / b) ∧ truncZ (a / b) < 2 ^ 63 then .ok (truncZ (a / b))
  else .error .ub

/-- `if (_r > maximum()) { ... }` of foldsInBounds (eoRealBounds.h:280-286, eoIntBounds.h:294-300). -/
def foldHigh (lo hi r : F) : Except Err F :=
  if hi < r then
    match longDiv (r - lo) (2 * (hi - lo)) with
    | .error e => .error e
    | .ok i =>
      if hi < r - 2 * (hi - lo) * i then .ok (2 * hi - (r - 2 * (hi - lo) * i))
      else .ok (r - 2 * (hi - lo) * i)
  else .ok r

/-- `if (_r < minimum()) { ... }` of foldsInBounds (eoRealBounds.h:288-294, eoIntBounds.h:302-308). -/
def foldLow (lo hi r : F) : Except Err F :=
  if r < lo then
    match longDiv (hi - r) (2 * (hi - lo)) with
    | .error e => .error e
    | .ok i =>
      if r + 2 * (hi - lo) * i < lo then .ok (2 * lo - (r + 2 * (hi - lo) * i))
      else .ok (r + 2 * (hi - lo) * i)
  else .ok r

/-- `uniform()` (eoRealBounds.h:253-256): `u` is the fraction drawn by the generator. -/
def uniformIn (lo hi u : F) : F := lo + u * (hi - lo)

/-- eoRealInterval::foldsInBounds (eoRealBounds.h:269-295), eoIntInterval::foldsInBounds
(eoIntBounds.h:283-309). -/
def foldInterval (lo hi u r : F) : Except Err F :=
  if (10 ^ 9 : F) < |r| then .ok (uniformIn lo hi u)
  else
    match foldHigh lo hi r with
    | .error e => .error e
    | .ok r' => foldLow lo hi r'

/-- The four kinds of bounds (eoRealBounds.h:149-539, eoIntBounds.h:152-590). -/
inductive Bound (F : Type*) where
  | none
  | interval (lo hi : F)
  | below (lo : F)
  | above (hi : F)

/-- isInBounds (eoRealBounds.h:160, 259-266, 385-390, 484-489). -/
def Bound.isIn : Bound F → F → Bool
  | .none, _ => true
  | .interval lo hi, r => if r < lo then false else if hi < r then false else true
  | .below lo, r => if r < lo then false else true
  | .above hi, r => if hi < r then false else true

/-- foldsInBounds (eoRealBounds.h:158, 269-295, 393-399, 492-498). -/
def Bound.fold : Bound F → F → F → Except Err F
  | .none, _, r => .ok r
  | .interval lo hi, u, r => foldInterval lo hi u r
  | .below lo, _, r => if r < lo then .ok (2 * lo - r) else .ok r
  | .above hi, _, r => if hi < r then .ok (2 * hi - r) else .ok r

/-- truncate (eoRealBounds.h:159, 298-305, 402-407, 501-506). -/
def Bound.trunc : Bound F → F → F
  | .none, r => r
  | .interval lo hi, r => if r < lo then lo else if hi < r then hi else r
  | .below lo, r => if r < lo then lo else r
  | .above hi, r => if hi < r then hi else r

/-- foldsInBounds of a vector (eoRealVectorBounds.h:128-134): one pass per bound; a vector shorter
than the bounds is read out of range; `u t` is the `t`-th fraction. -/
def foldVec (u : Nat → F) : Nat → List (Bound F) → List F → Except Err (List F)
  | _, [], v => .ok v
  | _, _ :: _, [] => .error .ub
  | t, b :: bs, x :: v =>
    match b.fold (u t) x with
    | .error e => .error e
    | .ok y =>
      match foldVec u (t + 1) bs v with
      | .error e => .error e
      | .ok w => .ok (y :: w)

/-- truncate of a vector (eoRealVectorBounds.h:145-151). -/
def truncVec : List (Bound F) → List F → Except Err (List F)
  | [], v => .ok v
  | _ :: _, [] => .error .ub
  | b :: bs, x :: v =>
    match truncVec bs v with
    | .error e => .error e
    | .ok w => .ok (b.trunc x :: w)

/-- isInBounds of a vector (eoRealVectorBounds.h:160-166). -/
def isInVec : List (Bound F) → List F → Except Err Bool
  | [], _ => .ok true
  | _ :: _, [] => .error .ub
  | b :: bs, x :: v => if b.isIn x then isInVec bs v else .ok false

/-- `eoIntInterval(min, max)` (eoIntBounds.h:244-249) followed by foldsInBounds(long&)
(eoIntBounds.h:103-108). -/
def foldLong (lo hi : Int) (u : F) (i : Int) : Except Err Int :=
  if hi - lo ≤ 0 then .error .thrown
  else
    match foldInterval (lo : F) (hi : F) u (i : F) with
    | .error e => .error e
    | .ok r => .ok (truncZ r)

/-- eoIntInterval::random (eoIntBounds.h:267-270); the range is converted to 32 bits. -/
def intRandom (lo hi : Int) (r : Nat → Nat) (t : Nat) : Except Err Int :=
  if hi - lo ≤ 0 then .error .thrown
  else .ok (lo + rnd r t ((hi - lo).toNat % 2 ^ 32))

end Paradiseo.Bounds
