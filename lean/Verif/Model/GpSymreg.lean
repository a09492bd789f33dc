/-
Model of the symbolic regression application (eo/app/gpsymreg: node.h, fitness.h).

The number type `D` stands for `double` with its operations as parameters (`Arith`), without laws.  Trees are those over
the nodes of `init` (fitness.h:98-161), which all have at most two arguments; the tree operators are those of Model/Gp.lean.
The counter of the loop over the points is a `float` and modelled exactly (`round24`, `round53`); overflow and
denormal numbers do not occur.
-/
import Mathlib.Data.Rat.Floor

namespace Paradiseo.GpSymreg

/-! ### Floating point numbers -/

/-- The exponent `e` for which `2^(p-1) ≤ |q| / 2^e < 2^p`, searched from `e` upwards and then downwards. -/
def scaleExp (p : Nat) (q : Rat) : Nat → Int → Int
  | 0, e => e
  | n + 1, e =>
    if (2 : Rat) ^ p ≤ |q| / (2 : Rat) ^ e then scaleExp p q n (e + 1)
    else if |q| / (2 : Rat) ^ e < (2 : Rat) ^ (p - 1) then scaleExp p q n (e - 1)
    else e

/-- The nearest integer, the even one of two. -/
def nearestEven (q : Rat) : Int :=
  let f := ⌊q⌋
  if q - f < 1 / 2 then f else if 1 / 2 < q - f then f + 1 else if f % 2 = 0 then f else f + 1

/-- Rounding to `p` binary digits. -/
def roundTo (p : Nat) (q : Rat) : Rat :=
  if q = 0 then 0
  else
    let e := scaleExp p q 200 (-(p : Int))
    nearestEven (q / (2 : Rat) ^ e) * (2 : Rat) ^ e

/-- Conversion to `float`. -/
def round24 (q : Rat) : Rat := roundTo 24 q

/-- Conversion to `double`. -/
def round53 (q : Rat) : Rat := roundTo 53 q

/-- `x += 0.1` for a `float` (fitness.h:182): the sum is a `double`. -/
def step (x : Rat) : Rat := round24 (round53 (x + round53 (1 / 10)))

/-- The values of `x` in the loop (fitness.h:180-182). -/
def pointsFrom : Nat → Rat → List Rat
  | 0, _ => []
  | n + 1, x => if x ≤ 1 then x :: pointsFrom n (step x) else []

/-- The points of the regression. -/
def points : List Rat := pointsFrom 100 (-1)

/-! ### Nodes and trees -/

/-- The unary functions (fitness.h:121-123). -/
inductive Un where
  | neg
  | sin
  | cos
  deriving DecidableEq

/-- The binary ones (fitness.h:106-117). -/
inductive Bin where
  | plus
  | minus
  | times
  | divide
  deriving DecidableEq

/-- The trees over the nodes of `init` (fitness.h:128-158): the variable, the constants 2, 4, 6 (here 1, 2, 3 times two),
unary functions, binary functions and binary operators. -/
inductive Tree where
  | x
  | const (k : Fin 3)
  | un (f : Un) (a : Tree)
  | fn (f : Bin) (a b : Tree)
  | op (f : Bin) (a b : Tree)
  deriving DecidableEq

/-- The operations of `double`. -/
structure Arith (D : Type) where
  ofRat : Rat → D
  add : D → D → D
  sub : D → D → D
  mul : D → D → D
  div : D → D → D
  isZero : D → Bool
  neg : D → D
  sin : D → D
  cos : D → D
  pow : D → Nat → D
  lt : D → D → Bool

variable {D : Type}

/-- `_negate`, `sin`, `cos` (fitness.h:89-92, 121-123). -/
def Un.apply (A : Arith D) : Un → D → D
  | .neg, a => A.neg a
  | .sin, a => A.sin a
  | .cos, a => A.cos a

/-- `_plus`, `_minus`, `_multiplies`, `_divides` (fitness.h:65-87). -/
def Bin.apply (A : Arith D) : Bin → D → D → D
  | .plus, a, b => A.add a b
  | .minus, a, b => A.sub a b
  | .times, a, b => A.mul a b
  | .divide, a, b => if A.isZero b then A.ofRat 0 else A.div a b

/-- `Node::operator()` for values (node.h:144-167), with one variable. -/
def Tree.eval (A : Arith D) (v : D) : Tree → D
  | .x => v
  | .const k => A.ofRat (2 * (k.val + 1))
  | .un f a => f.apply A (a.eval A v)
  | .fn f a b => f.apply A (a.eval A v) (b.eval A v)
  | .op f a b => f.apply A (a.eval A v) (b.eval A v)

/-- The number of nodes (parse_tree.h: size). -/
def Tree.size : Tree → Nat
  | .x => 1
  | .const _ => 1
  | .un _ a => a.size + 1
  | .fn _ a b => a.size + b.size + 1
  | .op _ a b => a.size + b.size + 1

/-- The labels (fitness.h:106-135). -/
def Un.label : Un → List Char
  | .neg => ['-']
  | .sin => ['s', 'i', 'n']
  | .cos => ['c', 'o', 's']

/-- The labels of the functions. -/
def Bin.label : Bin → List Char
  | .plus => ['p', 'l', 'u', 's']
  | .minus => ['m', 'i', 'n', 'u', 's']
  | .times => ['m', 'u', 'l', 't', 'i', 'p', 'l', 'y']
  | .divide => ['d', 'i', 'v', 'i', 'd', 'e']

/-- The labels of the operators. -/
def Bin.sign : Bin → Char
  | .plus => '+'
  | .minus => '-'
  | .times => '*'
  | .divide => '/'

/-- The labels of the constants. -/
def digit (k : Fin 3) : Char := if k = 0 then '2' else if k = 1 then '4' else '6'

/-- `Node::operator()` for texts (node.h:170-209). -/
def Tree.text : Tree → List Char
  | .x => ['X']
  | .const k => [digit k]
  | .un f a => f.label ++ '(' :: (a.text ++ [')'])
  | .fn f a b => f.label ++ '(' :: (a.text ++ ',' :: (b.text ++ [')']))
  | .op f a b => '(' :: (a.text ++ f.sign :: (b.text ++ [')']))

/-! ### Fitness -/

/-- `sextic_polynomial` (fitness.h:56-61). -/
def sextic (A : Arith D) (x : D) : D := A.add (A.sub (A.pow x 6) (A.mul (A.ofRat 2) (A.pow x 4))) (A.pow x 2)

/-- The error (fitness.h:181-191). -/
def error (A : Arith D) (t : Tree) : D :=
  points.foldl (fun fit x => A.add fit (A.pow (A.sub (sextic A (A.ofRat x)) (t.eval A (A.ofRat x))) 2)) (A.ofRat 0)

/-- `best[NORMAL]` and `tree` (fitness.h:210-211). -/
structure Best (D : Type) where
  value : D
  tree : Option Tree

/-- The constructor; no tree is printed as `not found`. -/
def Best.start (A : Arith D) : Best D := ⟨A.ofRat 1000, none⟩

/-- `RegFitness::operator()` (fitness.h:171-203): the two objectives, and the best so far. -/
def evaluate (A : Arith D) (maxSize : Nat) (b : Best D) (t : Tree) : (D × D) × Best D :=
  ((error A t, A.div (A.ofRat t.size) (A.mul (A.ofRat 1) (A.ofRat maxSize))),
    if A.lt (error A t) b.value then ⟨error A t, some t⟩ else b)

/-- The evaluations of a run, in order. -/
def evaluateAll (A : Arith D) (maxSize : Nat) (ts : List Tree) : Best D :=
  ts.foldl (fun b t => (evaluate A maxSize b t).2) (.start A)

end Paradiseo.GpSymreg
