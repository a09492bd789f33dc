import Mathlib.Algebra.Order.Field.Basic
import Mathlib.Algebra.Order.Floor.Defs
/-
The interval library that is distributed with the symbolic regression (eo/contrib/boost/numeric/interval/, used by
eo/contrib/mathsym/eval/Interval.h): construction, tests, arithmetic, sets, comparisons.

* interval.hpp 134-411, checking.hpp 39-74, detail/test_input.hpp 20-69
* arith.hpp 28-300, detail/division.hpp 24-151, arith2.hpp 30-207
* utility.hpp 64-326, compare/explicit.hpp 24-230, rounded_arith.hpp 27-109

A floating-point number is a number of an ordered field, an infinity, or not a number; zeros have no sign (the code never
divides by a zero).  An operation on finite numbers is exact and then rounded: the rounding downwards and the rounding
upwards are arguments.  The checking policy is `checking_base`.
-/
namespace Paradiseo.IvLib

/-- A floating-point number. -/
inductive Fl (K : Type) where
  | nan | ninf | fin (a : K) | pinf
deriving DecidableEq

variable {K : Type} [Field K] [LinearOrder K]

namespace Fl

/-- `<=` of floating-point numbers. -/
def le : Fl K → Fl K → Bool
  | .nan, _ => false
  | _, .nan => false
  | .ninf, _ => true
  | _, .pinf => true
  | .fin a, .fin b => decide (a ≤ b)
  | _, _ => false

/-- `<` of floating-point numbers. -/
def lt : Fl K → Fl K → Bool
  | .nan, _ => false
  | _, .nan => false
  | .ninf, .ninf => false
  | .ninf, _ => true
  | .fin a, .fin b => decide (a < b)
  | .fin _, .pinf => true
  | _, _ => false

/-- `==` of floating-point numbers. -/
def eq : Fl K → Fl K → Bool
  | .ninf, .ninf => true
  | .pinf, .pinf => true
  | .fin a, .fin b => decide (a = b)
  | _, _ => false

/-- Unary minus. -/
def neg : Fl K → Fl K
  | .nan => .nan
  | .ninf => .pinf
  | .fin a => .fin (-a)
  | .pinf => .ninf

/-- std::min. -/
def min (a b : Fl K) : Fl K := if lt b a then b else a

/-- std::max. -/
def max (a b : Fl K) : Fl K := if lt a b then b else a

/-- user::is_zero (test_input.hpp 20-21). -/
def isZero (a : Fl K) : Bool := eq a (.fin 0)

/-- user::is_neg (test_input.hpp 23-24). -/
def isNeg (a : Fl K) : Bool := lt a (.fin 0)

/-- user::is_pos (test_input.hpp 26-27). -/
def isPos (a : Fl K) : Bool := lt (.fin 0) a

/-- The infinity of a sign: of a product or quotient with an infinite operand. -/
def inf (negative : Bool) : Fl K := if negative then .ninf else .pinf

/-- `+`, rounded by `r`. -/
def add (r : K → Fl K) : Fl K → Fl K → Fl K
  | .fin a, .fin b => r (a + b)
  | .nan, _ => .nan
  | _, .nan => .nan
  | .ninf, .pinf => .nan
  | .pinf, .ninf => .nan
  | .ninf, _ => .ninf
  | _, .ninf => .ninf
  | _, _ => .pinf

/-- `-`, rounded by `r`. -/
def sub (r : K → Fl K) (a b : Fl K) : Fl K :=
  match a, b with
  | .fin a, .fin b => r (a - b)
  | a, b => add r a (neg b)

/-- `*`, rounded by `r`; zero times an infinity is not a number. -/
def mul (r : K → Fl K) (a b : Fl K) : Fl K :=
  match a, b with
  | .fin a, .fin b => r (a * b)
  | .nan, _ => .nan
  | _, .nan => .nan
  | a, b => if isZero a || isZero b then .nan else inf (isNeg a != isNeg b)

/-- `/`, rounded by `r`; a finite number divided by an infinity is zero; a division by zero does not occur and is not a
number here. -/
def div (r : K → Fl K) (a b : Fl K) : Fl K :=
  match a, b with
  | .fin a, .fin b => if b = 0 then .nan else r (a / b)
  | .fin _, .ninf => .fin 0
  | .fin _, .pinf => .fin 0
  | .ninf, .fin b => if b = 0 then .nan else inf (!decide (b < 0))
  | .pinf, .fin b => if b = 0 then .nan else inf (decide (b < 0))
  | _, _ => .nan

end Fl

open Fl

/-- An interval: `low`, `up` (interval.hpp 130-131). -/
structure Iv (K : Type) where
  lo : Fl K
  up : Fl K
deriving DecidableEq

/-- A rounding policy. -/
structure Rnd (K : Type) where
  dn : K → Fl K
  up : K → Fl K

/-- rounded_arith_exact (rounded_arith.hpp 27-48): both directions are the operation of the machine. -/
def same (r : K → Fl K) : Rnd K := ⟨r, r⟩

/-- Exact arithmetic. -/
def exact : Rnd K := ⟨.fin, .fin⟩

/-- set_empty, empty (interval.hpp 266-271, 294-299; checking.hpp 60-69): two quiet not-a-numbers. -/
def none : Iv K := ⟨.nan, .nan⟩

/-- whole (interval.hpp 301-305). -/
def whole : Iv K := ⟨.ninf, .pinf⟩

/-- test_input, empty (test_input.hpp 33-37, checking.hpp 70-73). -/
def empty (x : Iv K) : Bool := !le x.lo x.up

/-- The constructor from one number (interval.hpp 139-143). -/
def single (v : Fl K) : Iv K := if v = .nan then none else ⟨v, v⟩

/-- The constructor from two numbers (interval.hpp 167-172). -/
def make (l u : Fl K) : Iv K := if l = .nan ∨ u = .nan ∨ !le l u then none else ⟨l, u⟩

/-- Unary minus (arith.hpp 34-40). -/
def opp (x : Iv K) : Iv K := if empty x then none else ⟨neg x.up, neg x.lo⟩

/-- Addition (arith.hpp 42-52, 114-123). -/
def add (r : Rnd K) (x y : Iv K) : Iv K :=
  if empty x || empty y then none else ⟨Fl.add r.dn x.lo y.lo, Fl.add r.up x.up y.up⟩

/-- Subtraction (arith.hpp 66-76, 139-148). -/
def sub (r : Rnd K) (x y : Iv K) : Iv K :=
  if empty x || empty y then none else ⟨Fl.sub r.dn x.lo y.up, Fl.sub r.up x.up y.lo⟩

/-- Multiplication (arith.hpp 170-223). -/
def mul (r : Rnd K) (x y : Iv K) : Iv K :=
  if empty x || empty y then none
  else if isNeg x.lo then
    if isPos x.up then
      if isNeg y.lo then
        if isPos y.up then
          ⟨Fl.min (Fl.mul r.dn x.lo y.up) (Fl.mul r.dn x.up y.lo), Fl.max (Fl.mul r.up x.lo y.lo) (Fl.mul r.up x.up y.up)⟩
        else ⟨Fl.mul r.dn x.up y.lo, Fl.mul r.up x.lo y.lo⟩
      else
        if isPos y.up then ⟨Fl.mul r.dn x.lo y.up, Fl.mul r.up x.up y.up⟩
        else ⟨.fin 0, .fin 0⟩
    else
      if isNeg y.lo then
        if isPos y.up then ⟨Fl.mul r.dn x.lo y.up, Fl.mul r.up x.lo y.lo⟩
        else ⟨Fl.mul r.dn x.up y.up, Fl.mul r.up x.lo y.lo⟩
      else
        if isPos y.up then ⟨Fl.mul r.dn x.lo y.up, Fl.mul r.up x.up y.lo⟩
        else ⟨.fin 0, .fin 0⟩
  else
    if isPos x.up then
      if isNeg y.lo then
        if isPos y.up then ⟨Fl.mul r.dn x.up y.lo, Fl.mul r.up x.up y.up⟩
        else ⟨Fl.mul r.dn x.up y.lo, Fl.mul r.up x.lo y.up⟩
      else
        if isPos y.up then ⟨Fl.mul r.dn x.lo y.lo, Fl.mul r.up x.up y.up⟩
        else ⟨.fin 0, .fin 0⟩
    else ⟨.fin 0, .fin 0⟩

/-- Multiplication by a number (arith.hpp 225-241). -/
def smul (r : Rnd K) (x : Fl K) (y : Iv K) : Iv K :=
  if x = .nan || empty y then none
  else if isNeg x then ⟨Fl.mul r.dn x y.up, Fl.mul r.up x y.lo⟩
  else if isZero x then ⟨.fin 0, .fin 0⟩
  else ⟨Fl.mul r.dn x y.lo, Fl.mul r.up x y.up⟩

/-- in_zero (utility.hpp 103-109). -/
def inZero (x : Iv K) : Bool := if empty x then false else !isPos x.lo && !isNeg x.up

/-- div_non_zero (division.hpp 24-50). -/
def divNonZero (r : Rnd K) (x y : Iv K) : Iv K :=
  if isNeg x.up then
    if isNeg y.up then ⟨Fl.div r.dn x.up y.lo, Fl.div r.up x.lo y.up⟩
    else ⟨Fl.div r.dn x.lo y.lo, Fl.div r.up x.up y.up⟩
  else if isNeg x.lo then
    if isNeg y.up then ⟨Fl.div r.dn x.up y.up, Fl.div r.up x.lo y.up⟩
    else ⟨Fl.div r.dn x.lo y.lo, Fl.div r.up x.up y.lo⟩
  else
    if isNeg y.up then ⟨Fl.div r.dn x.up y.up, Fl.div r.up x.lo y.lo⟩
    else ⟨Fl.div r.dn x.lo y.up, Fl.div r.up x.up y.lo⟩

/-- div_positive (division.hpp 66-84): the divisor goes from zero to `yu`. -/
def divPositive (r : Rnd K) (x : Iv K) (yu : Fl K) : Iv K :=
  if isZero x.lo && isZero x.up then x
  else if isNeg x.up then ⟨.ninf, Fl.div r.up x.up yu⟩
  else if isNeg x.lo then ⟨.ninf, .pinf⟩
  else ⟨Fl.div r.dn x.lo yu, .pinf⟩

/-- div_negative (division.hpp 101-119): the divisor goes from `yl` to zero. -/
def divNegative (r : Rnd K) (x : Iv K) (yl : Fl K) : Iv K :=
  if isZero x.lo && isZero x.up then x
  else if isNeg x.up then ⟨Fl.div r.dn x.up yl, .pinf⟩
  else if isNeg x.lo then ⟨.ninf, .pinf⟩
  else ⟨.ninf, Fl.div r.up x.lo yl⟩

/-- div_zero (division.hpp 136-143). -/
def divZero (x : Iv K) : Iv K := if isZero x.lo && isZero x.up then x else whole

/-- Division (arith.hpp 247-266). -/
def div (r : Rnd K) (x y : Iv K) : Iv K :=
  if empty x || empty y then none
  else if inZero y then
    if !isZero y.lo then
      if !isZero y.up then divZero x else divNegative r x y.lo
    else if !isZero y.up then divPositive r x y.up
    else none
  else divNonZero r x y

/-- A number divided by an interval (arith.hpp 268-286, division.hpp 52-64, 86-99, 121-134, 145-151). -/
def sdiv (r : Rnd K) (x : Fl K) (y : Iv K) : Iv K :=
  if x = .nan || empty y then none
  else if inZero y then
    if !isZero y.lo then
      if !isZero y.up then (if isZero x then ⟨.fin 0, .fin 0⟩ else whole)
      else if isZero x then ⟨.fin 0, .fin 0⟩
      else if isNeg x then ⟨Fl.div r.dn x y.lo, .pinf⟩ else ⟨.ninf, Fl.div r.up x y.lo⟩
    else if !isZero y.up then
      if isZero x then ⟨.fin 0, .fin 0⟩
      else if isNeg x then ⟨.ninf, Fl.div r.up x y.up⟩ else ⟨Fl.div r.dn x y.up, .pinf⟩
    else none
  else if isNeg x then ⟨Fl.div r.dn x y.lo, Fl.div r.up x y.up⟩ else ⟨Fl.div r.dn x y.up, Fl.div r.up x y.lo⟩

/-- An interval divided by a number (arith.hpp 288-300). -/
def divs (r : Rnd K) (x : Iv K) (y : Fl K) : Iv K :=
  if empty x || y = .nan || isZero y then none
  else if isNeg y then ⟨Fl.div r.dn x.up y, Fl.div r.up x.lo y⟩ else ⟨Fl.div r.dn x.lo y, Fl.div r.up x.up y⟩

/-- multiplicative_inverse (arith2.hpp 99-121). -/
def inverse (r : Rnd K) (x : Iv K) : Iv K :=
  if empty x then none
  else if inZero x then
    if !isZero x.lo then
      if !isZero x.up then whole else ⟨.ninf, Fl.div r.up (.fin 1) x.lo⟩
    else if !isZero x.up then ⟨Fl.div r.dn (.fin 1) x.up, .pinf⟩
    else none
  else ⟨Fl.div r.dn (.fin 1) x.up, Fl.div r.up (.fin 1) x.lo⟩

/-- square (arith2.hpp 192-207). -/
def square (r : Rnd K) (x : Iv K) : Iv K :=
  if empty x then none
  else if isNeg x.up then ⟨Fl.mul r.dn x.up x.up, Fl.mul r.up x.lo x.lo⟩
  else if isPos x.lo then ⟨Fl.mul r.dn x.lo x.lo, Fl.mul r.up x.up x.up⟩
  else ⟨.fin 0, if lt x.up (neg x.lo) then Fl.mul r.up x.lo x.lo else Fl.mul r.up x.up x.up⟩

/-- The loop of pow_aux (arith2.hpp 131-135), for a remaining exponent `p`. -/
def powLoop (r : Rnd K) (x y : Fl K) (p : Nat) : Fl K :=
  if h : p = 0 then y
  else
    let x' := Fl.mul r.up x x
    powLoop r x' (if p % 2 = 1 then Fl.mul r.up x' y else y) (p / 2)
termination_by p
decreasing_by omega

/-- pow_aux (arith2.hpp 125-137). -/
def powAux (r : Rnd K) (x : Fl K) (p : Nat) : Fl K := powLoop r x (if p % 2 = 1 then x else .fin 1) (p / 2)

/-- pow (arith2.hpp 152-178) for a positive exponent. -/
def powPos (r : Rnd K) (x : Iv K) (p : Nat) : Iv K :=
  if empty x then none
  else if isNeg x.up then
    if p % 2 = 1 then ⟨neg (powAux r (neg x.lo) p), neg (powAux r (neg x.up) p)⟩
    else ⟨powAux r (neg x.up) p, powAux r (neg x.lo) p⟩
  else if isNeg x.lo then
    if p % 2 = 1 then ⟨neg (powAux r (neg x.lo) p), powAux r x.up p⟩
    else ⟨.fin 0, powAux r (Fl.max (neg x.lo) x.up) p⟩
  else ⟨powAux r x.lo p, powAux r x.up p⟩

/-- pow (arith2.hpp 142-179); the exponent is not the least `int`. -/
def pow (r : Rnd K) (x : Iv K) (p : Int) : Iv K :=
  if empty x then none
  else if p = 0 then if isZero x.lo && isZero x.up then none else single (.fin 1)
  else if p < 0 then inverse r (powPos r x p.natAbs)
  else powPos r x p.natAbs

/-- sqrt (arith2.hpp 181-190); `sd`, `su`: the roots rounded downwards and upwards (the root of an infinity is
infinite). -/
def sqrt (sd su : K → Fl K) (x : Iv K) : Iv K :=
  if empty x || isNeg x.up then none
  else
    ⟨if !isPos x.lo then .fin 0 else match x.lo with | .fin a => sd a | v => v,
      match x.up with | .fin a => su a | v => v⟩

/-- fmod by an interval (arith2.hpp 30-41). -/
def fmod [FloorRing K] (r : Rnd K) (x y : Iv K) : Iv K :=
  if empty x || empty y then none
  else
    let n := match Fl.div r.dn x.lo (if isNeg x.lo then y.lo else y.up) with
      | .fin q => Fl.fin ((⌊q⌋ : Int) : K)
      | v => v
    sub r x (smul r n y)

/-! ### Sets (utility.hpp) -/

/-- width (utility.hpp 64-70). -/
def width (r : Rnd K) (x : Iv K) : Fl K := if empty x then .fin 0 else Fl.sub r.up x.up x.lo

/-- widen (utility.hpp 83-91). -/
def widen (r : Rnd K) (x : Iv K) (v : Fl K) : Iv K :=
  if empty x then none else ⟨Fl.sub r.dn x.lo v, Fl.add r.up x.up v⟩

/-- in (utility.hpp 111-116). -/
def isIn (x : Fl K) (y : Iv K) : Bool := if x = .nan || empty y then false else le y.lo x && le x y.up

/-- subset (utility.hpp 118-124). -/
def subset (x y : Iv K) : Bool := if empty x then true else !empty y && le y.lo x.lo && le x.up y.up

/-- proper_subset (utility.hpp 126-134). -/
def properSubset (x y : Iv K) : Bool :=
  if empty y then false
  else if empty x then true
  else le y.lo x.lo && le x.up y.up && (!eq y.lo x.lo || !eq x.up y.up)

/-- overlap (utility.hpp 136-143). -/
def overlap (x y : Iv K) : Bool :=
  if empty x || empty y then false else (le x.lo y.lo && le y.lo x.up) || (le y.lo x.lo && le x.lo y.up)

/-- singleton (utility.hpp 145-149). -/
def singleton (x : Iv K) : Bool := !empty x && eq x.lo x.up

/-- equal (utility.hpp 151-156). -/
def equal (x y : Iv K) : Bool := if empty x then empty y else !empty y && eq x.lo y.lo && eq x.up y.up

/-- intersect (utility.hpp 158-170). -/
def intersect (x y : Iv K) : Iv K :=
  if empty x || empty y then none
  else if le (Fl.max x.lo y.lo) (Fl.min x.up y.up) then ⟨Fl.max x.lo y.lo, Fl.min x.up y.up⟩
  else none

/-- hull (utility.hpp 172-187). -/
def hull (x y : Iv K) : Iv K :=
  if empty x then (if empty y then none else y)
  else if empty y then x
  else ⟨Fl.min x.lo y.lo, Fl.max x.up y.up⟩

/-- bisect (utility.hpp 227-236) at the median `m` (rounded_arith.hpp 39, 66, 103). -/
def bisect (m : Fl K) (x : Iv K) : Iv K × Iv K := if empty x then (none, none) else (⟨x.lo, m⟩, ⟨m, x.up⟩)

/-- norm (utility.hpp 242-252). -/
def norm (x : Iv K) : Fl K := if empty x then .nan else Fl.max (neg x.lo) x.up

/-- abs (utility.hpp 254-264). -/
def abs (x : Iv K) : Iv K :=
  if empty x then none
  else if !isNeg x.lo then x
  else if !isPos x.up then opp x
  else ⟨.fin 0, Fl.max (neg x.lo) x.up⟩

/-- max (utility.hpp 266-275). -/
def imax (x y : Iv K) : Iv K := if empty x || empty y then none else ⟨Fl.max x.lo y.lo, Fl.max x.up y.up⟩

/-- min (utility.hpp 297-306). -/
def imin (x y : Iv K) : Iv K := if empty x || empty y then none else ⟨Fl.min x.lo y.lo, Fl.min x.up y.up⟩

/-! ### Comparisons: `none` is the exception `comparison_error` -/

/-- `<` (interval.hpp 102-110, 323-331). -/
def clt (x y : Iv K) : Option Bool :=
  if empty y || empty x then .none
  else if lt x.up y.lo then some true else if le y.up x.lo then some false else .none

/-- `<=` (interval.hpp 343-351). -/
def cle (x y : Iv K) : Option Bool :=
  if empty y || empty x then .none
  else if le x.up y.lo then some true else if lt y.up x.lo then some false else .none

/-- `==` (interval.hpp 363-371). -/
def ceq (x y : Iv K) : Option Bool :=
  if empty y || empty x then .none
  else if eq x.up y.lo && eq x.lo y.up then some true
  else if lt x.up y.lo || lt y.up x.lo then some false else .none

/-- cerlt (explicit.hpp 24-28): no check for empty intervals. -/
def cerlt (x y : Iv K) : Bool := lt x.up y.lo

/-- poslt (explicit.hpp 136-140). -/
def poslt (x y : Iv K) : Bool := lt x.lo y.up

/-- posle (explicit.hpp 154-158). -/
def posle (x y : Iv K) : Bool := le x.lo y.up

/-- poseq (explicit.hpp 208-212). -/
def poseq (x y : Iv K) : Bool := le y.lo x.up && le x.lo y.up

/-- posne (explicit.hpp 226-230). -/
def posne (x y : Iv K) : Bool := !eq x.up y.lo || !eq y.up x.lo

/-- rounded_arith_opp (rounded_arith.hpp 79-109): rounding downwards by rounding upwards. -/
def oppDn (up : K → Fl K) (a : K) : Fl K := neg (up (-a))

end Paradiseo.IvLib
