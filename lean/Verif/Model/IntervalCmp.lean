import Verif.Model.IntervalLib
/-
The alternative comparisons of the interval library that is distributed with the symbolic regression
(eo/contrib/boost/numeric/interval/): compare/certain.hpp, compare/possible.hpp, compare/tribool.hpp,
compare/lexicographic.hpp, compare/set.hpp, and arith3.hpp.

As in `IntervalLib`: numbers with infinities and NaN, the checking policy is `checking_base`.  A comparison returns `none`
for the exception `comparison_error`; `a > b` is `lt b a`, `a >= b` is `le b a`.
-/
namespace Paradiseo.IvLib

open Fl

variable {K : Type} [Field K] [LinearOrder K]

/-- The six operators. -/
inductive Op where
  | lt | le | gt | ge | eq | ne
deriving DecidableEq

/-- test_input of two intervals (test_input.hpp 39-45). -/
def testII (x y : Iv K) : Bool := empty x || empty y

/-- test_input of an interval and a number (test_input.hpp 53-57). -/
def testIN (x : Iv K) (y : Fl K) : Bool := empty x || decide (y = .nan)

/-- compare::certain (certain.hpp 22-27, 36-41, 50-55, 64-69, 78-83, 92-97). -/
def certain (op : Op) (x y : Iv K) : Option Bool :=
  if testII x y then .none
  else some <| match op with
    | .lt => lt x.up y.lo
    | .le => le x.up y.lo
    | .gt => lt y.up x.lo
    | .ge => le y.up x.lo
    | .eq => Fl.eq x.up y.lo && Fl.eq x.lo y.up
    | .ne => lt x.up y.lo || lt y.up x.lo

/-- compare::certain with a number (certain.hpp 29-34, 43-48, 57-62, 71-76, 85-90, 99-104). -/
def certainN (op : Op) (x : Iv K) (y : Fl K) : Option Bool :=
  if testIN x y then .none
  else some <| match op with
    | .lt => lt x.up y
    | .le => le x.up y
    | .gt => lt y x.lo
    | .ge => le y x.lo
    | .eq => Fl.eq x.up y && Fl.eq x.lo y
    | .ne => lt x.up y || lt y x.lo

/-- compare::possible (possible.hpp 22-27, 36-41, 50-55, 64-69, 78-83, 92-97). -/
def possible (op : Op) (x y : Iv K) : Option Bool :=
  if testII x y then .none
  else some <| match op with
    | .lt => lt x.lo y.up
    | .le => le x.lo y.up
    | .gt => lt y.lo x.up
    | .ge => le y.lo x.up
    | .eq => le x.lo y.up && le y.lo x.up
    | .ne => !Fl.eq x.lo y.up || !Fl.eq x.up y.lo

/-- compare::possible with a number (possible.hpp 29-34, 43-48, 57-62, 71-76, 85-90, 99-104). -/
def possibleN (op : Op) (x : Iv K) (y : Fl K) : Option Bool :=
  if testIN x y then .none
  else some <| match op with
    | .lt => lt x.lo y
    | .le => le x.lo y
    | .gt => lt y x.up
    | .ge => le y x.up
    | .eq => le x.lo y && le y x.up
    | .ne => !Fl.eq x.lo y || !Fl.eq x.up y

/-- `if (a) return yes; if (b) return !yes; return indeterminate;` -/
def tri (yes : Bool) (a b : Bool) : Option Bool := if a then some yes else if b then some (!yes) else .none

/-- compare::tribool (tribool.hpp 23-30, 41-48, 59-66, 77-84, 95-102, 113-120); the inner `none` is indeterminate. -/
def tribool (op : Op) (x y : Iv K) : Option (Option Bool) :=
  if testII x y then .none
  else some <| match op with
    | .lt => tri true (lt x.up y.lo) (le y.up x.lo)
    | .le => tri true (le x.up y.lo) (lt y.up x.lo)
    | .gt => tri true (lt y.up x.lo) (le x.up y.lo)
    | .ge => tri true (le y.up x.lo) (lt x.up y.lo)
    | .eq => tri true (Fl.eq x.up y.lo && Fl.eq x.lo y.up) (lt x.up y.lo || lt y.up x.lo)
    | .ne => tri true (lt x.up y.lo || lt y.up x.lo) (Fl.eq x.up y.lo && Fl.eq x.lo y.up)

/-- compare::tribool with a number (tribool.hpp 32-39, 50-57, 68-75, 86-93, 104-111, 122-129). -/
def triboolN (op : Op) (x : Iv K) (y : Fl K) : Option (Option Bool) :=
  if testIN x y then .none
  else some <| match op with
    | .lt => tri true (lt x.up y) (le y x.lo)
    | .le => tri true (le x.up y) (lt y x.lo)
    | .gt => tri true (lt y x.lo) (le x.up y)
    | .ge => tri true (le y x.lo) (lt x.up y)
    | .eq => tri true (Fl.eq x.up y && Fl.eq x.lo y) (lt x.up y || lt y x.lo)
    | .ne => tri true (lt x.up y || lt y x.lo) (Fl.eq x.up y && Fl.eq x.lo y)

/-- compare::lexicographic (lexicographic.hpp 22-29, 38-45, 55-62, 72-79, 88-93, 102-107). -/
def lexi (op : Op) (x y : Iv K) : Option Bool :=
  if testII x y then .none
  else some <| match op with
    | .lt => lt x.lo y.lo || (Fl.eq x.lo y.lo && lt x.up y.up)
    | .le => lt x.lo y.lo || (Fl.eq x.lo y.lo && le x.up y.up)
    | .gt => lt y.lo x.lo || (Fl.eq x.lo y.lo && lt y.up x.up)
    | .ge => lt y.lo x.lo || (Fl.eq x.lo y.lo && le y.up x.up)
    | .eq => Fl.eq x.lo y.lo && Fl.eq x.up y.up
    | .ne => !Fl.eq x.lo y.lo || !Fl.eq x.up y.up

/-- compare::lexicographic with a number (lexicographic.hpp 31-36, 47-53, 64-70, 81-86, 95-100, 109-114). -/
def lexiN (op : Op) (x : Iv K) (y : Fl K) : Option Bool :=
  if testIN x y then .none
  else some <| match op with
    | .lt => lt x.lo y
    | .le => lt x.lo y || (Fl.eq x.lo y && le x.up y)
    | .gt => lt y x.lo || (Fl.eq x.lo y && lt y x.up)
    | .ge => le y x.lo
    | .eq => Fl.eq x.lo y && Fl.eq x.up y
    | .ne => !Fl.eq x.lo y || !Fl.eq x.up y

/-- compare::set (set.hpp 23-27, 35-39, 47-51, 59-63, 71-75, 83-87). -/
def setCmp (op : Op) (x y : Iv K) : Option Bool :=
  some <| match op with
    | .lt => properSubset x y
    | .le => subset x y
    | .gt => properSubset y x
    | .ge => subset y x
    | .eq => equal y x
    | .ne => !equal y x

/-- compare::set with a number (set.hpp 29-33, 41-45, 53-57, 65-69, 77-81, 89-93). -/
def setCmpN (_ : Op) (_ : Iv K) (_ : Fl K) : Option Bool := .none

/-! ### Operations on two numbers (arith3.hpp) -/

/-- add (arith3.hpp 25-33). -/
def addNN (r : Rnd K) (x y : Fl K) : Iv K :=
  if x = .nan ∨ y = .nan then none else ⟨Fl.add r.dn x y, Fl.add r.up x y⟩

/-- sub (arith3.hpp 35-43). -/
def subNN (r : Rnd K) (x y : Fl K) : Iv K :=
  if x = .nan ∨ y = .nan then none else ⟨Fl.sub r.dn x y, Fl.sub r.up x y⟩

/-- mul (arith3.hpp 45-53). -/
def mulNN (r : Rnd K) (x y : Fl K) : Iv K :=
  if x = .nan ∨ y = .nan then none else ⟨Fl.mul r.dn x y, Fl.mul r.up x y⟩

/-- div (arith3.hpp 55-63). -/
def divNN (r : Rnd K) (x y : Fl K) : Iv K :=
  if x = .nan ∨ y = .nan ∨ isZero y then none else ⟨Fl.div r.dn x y, Fl.div r.up x y⟩

end Paradiseo.IvLib
