import Verif.Model.MathSym

/-!
# mathsym: intervals, the check of bounds, evaluation of a population, compilation to tables

Model of eo/contrib/mathsym eval/Interval.h, eval/BoundsCheck.cpp, the interval parts of fun/FunDef.cpp,
eo_interface/eoSymEval.h and eval/MultiFunction.cpp.

Simplifications:
* an interval is its two ends, or `none` when one of them is not a number or not finite;
* sums, products, opposites of intervals are exact; the other operations of boost are an argument `B`, of which
  the theorems assume that what it returns encloses all values (no rounding);
* `exit(1)` is the outcome `asserted`.
-/

namespace Paradiseo.MathSym

open Paradiseo.EO

/-- An interval: its ends, `none` if they are not finite. -/
abbrev Iv := Option (ℝ × ℝ)

open Classical in
/-- `valid` (Interval.h 34-38). -/
noncomputable def validIv : Iv → Bool
  | none => false
  | some (a, b) => decide (-(10 ^ 10) < a ∧ b < 10 ^ 10)

/-- `+=` of two intervals. -/
noncomputable def ivAdd (p q : ℝ × ℝ) : ℝ × ℝ := (p.1 + q.1, p.2 + q.2)

/-- `*=` of two intervals: the extreme products of ends. -/
noncomputable def ivMul (p q : ℝ × ℝ) : ℝ × ℝ :=
  (min (min (p.1 * q.1) (p.1 * q.2)) (min (p.2 * q.1) (p.2 * q.2)),
   max (max (p.1 * q.1) (p.1 * q.2)) (max (p.2 * q.1) (p.2 * q.2)))

open Classical in
/-- The functions on intervals (Interval.h 40-71; FunDef.cpp 564-570, 602-608, 627-633, 661-667, 687-689, 700, 708,
730). -/
noncomputable def ivAp (B : Fn → ℝ × ℝ → Iv) : Fn → List (ℝ × ℝ) → Except Err Iv
  | .sum, as => .ok (some (as.foldl ivAdd (0, 0)))
  | .prod, as => .ok (some (as.foldl ivMul (1, 1)))
  | .pow, a :: b :: _ =>
    match B .log a with
    | none => .error .thrown
    | some lg => if validIv (some lg) then .ok (B .exp (ivMul b lg)) else .error .thrown
  | .ifltz, a :: b :: c :: _ =>
    .ok (some (if a.2 < 0 then b else if a.1 ≥ 0 then c else (min b.1 c.1, max b.2 c.2)))
  | .sqrt, a :: _ => .ok (if a.1 < 0 then none else B .sqrt a)
  | .acos, a :: _ => .ok (if a.1 < 1 ∨ a.2 > 1 then none else B .acos a)
  | .asin, a :: _ => .ok (if a.1 < 1 ∨ a.2 > 1 then none else B .asin a)
  | .acosh, a :: _ => .ok (if a.1 < 1 then none else B .acosh a)
  | .min, a :: _ => .ok (some (-a.2, -a.1))
  | f, a :: _ =>
    match unR f with
    | none => .error .ub
    | some _ => .ok (B f a)
  | _, [] => .error .ub

mutual
/-- `eval` on intervals (FunDef.cpp 60-69, 219-221, 249-251, 355-357). -/
noncomputable def ivalT (B : Fn → ℝ × ℝ → Iv) (call : Nat → List (ℝ × ℝ) → Except Err Iv) (bs : List (ℝ × ℝ)) :
    Expr ℝ → Except Err Iv
  | .node (.var i) as =>
    match ivalArgs B call bs as with
    | .error e => .error e
    | .ok _ =>
      match bs[i]? with
      | none => .error .ub
      | some p => .ok (some p)
  | .node (.const c) as =>
    match ivalArgs B call bs as with
    | .error e => .error e
    | .ok _ => .ok (some (c, c))
  | .node (.fn f) as =>
    match ivalArgs B call bs as with
    | .error e => .error e
    | .ok ps => ivAp B f ps
  | .node (.lam k) as =>
    match ivalArgs B call bs as with
    | .error e => .error e
    | .ok ps => call k ps
/-- The arguments, each of which has to be valid (FunDef.cpp 62-67). -/
noncomputable def ivalArgs (B : Fn → ℝ × ℝ → Iv) (call : Nat → List (ℝ × ℝ) → Except Err Iv) (bs : List (ℝ × ℝ)) :
    List (Expr ℝ) → Except Err (List (ℝ × ℝ))
  | [] => .ok []
  | a :: as =>
    match ivalT B call bs a with
    | .error e => .error e
    | .ok none => .error .thrown
    | .ok (some p) =>
      if validIv (some p) then
        match ivalArgs B call bs as with
        | .error e => .error e
        | .ok ps => .ok (p :: ps)
      else .error .thrown
end

/-- Lambda::eval on intervals (FunDef.cpp 355-357). -/
noncomputable def callIv (B : Fn → ℝ × ℝ → Iv) : List (Expr ℝ) → Nat → List (ℝ × ℝ) → Except Err Iv
  | [], _, _ => .error .ub
  | b :: L, k, ps => if k = L.length then ivalT B (callIv B L) ps b else callIv B L k ps

/-- calc_bounds (BoundsCheck.cpp 74-78). -/
noncomputable def calcBounds (B : Fn → ℝ × ℝ → Iv) (L : List (Expr ℝ)) (bs : List (ℝ × ℝ)) (e : Expr ℝ) :
    Except Err Iv := ivalT B (callIv B L) bs e

/-- in_bounds (BoundsCheck.cpp 48-58). -/
noncomputable def inBounds (B : Fn → ℝ × ℝ → Iv) (L : List (Expr ℝ)) (bs : List (ℝ × ℝ)) (e : Expr ℝ) :
    Except Err Bool :=
  match calcBounds B L bs e with
  | .ok iv => .ok (validIv iv)
  | .error .thrown => .ok false
  | .error e => .error e

/-- NoBoundsCheck::in_bounds (BoundsCheck.h 52). -/
def noBounds {α : Type} (_ : α) : Bool := false

/-! ### Evaluation of two populations -/

/-- The first loops of eoSymPopEval (eoSymEval.h 51-78) over one population: which are to be evaluated, with `off`
added to their number, and the population with the worst fitness for those that are not good enough. -/
def popScan {α : Type} (good : α → Bool) (worst : ℝ) : Nat → List (α × Option ℝ) → List (Nat × α) × List (α × Option ℝ)
  | _, [] => ([], [])
  | off, (a, some f) :: p =>
    let r := popScan good worst (off + 1) p
    (r.1, (a, some f) :: r.2)
  | off, (a, none) :: p =>
    let r := popScan good worst (off + 1) p
    if good a then ((off, a) :: r.1, (a, none) :: r.2) else (r.1, (a, some worst) :: r.2)

/-- The last loop (eoSymEval.h 82-91): assign the errors. -/
def popAssign {α : Type} : List (Nat × ℝ) → List (α × Option ℝ) → List (α × Option ℝ) →
    List (α × Option ℝ) × List (α × Option ℝ)
  | [], p1, p2 => (p1, p2)
  | (i, e) :: rs, p1, p2 =>
    if i < p1.length then popAssign rs (p1.modify i fun q => (q.1, some e)) p2
    else popAssign rs p1 (p2.modify (i - p1.length) fun q => (q.1, some e))

/-- eoSymPopEval::operator() (eoSymEval.h 46-92); `err` is `measure.calc_error` on the expressions to evaluate. -/
def popEval {α : Type} (good : α → Bool) (worst : ℝ) (err : List α → List ℝ) (p1 p2 : List (α × Option ℝ)) :
    List (α × Option ℝ) × List (α × Option ℝ) :=
  let r1 := popScan good worst 0 p1
  let r2 := popScan good worst p1.length p2
  let todo := r1.1 ++ r2.1
  popAssign ((todo.map Prod.fst).zip (err (todo.map Prod.snd))) r1.2 r2.2

/-! ### MultiFunction -/

/-- The functions a table holds (MultiFuncs.cpp 4-24). -/
inductive MFn where
  | plus | mult | min | inv | exp
  deriving DecidableEq

/-- Compiler::entry (MultiFunction.cpp 55-57). -/
inductive Entry where
  | constant (i : Nat)
  | inp (i : Nat)
  | function (i : Nat)
  deriving DecidableEq

/-- Compiler (MultiFunction.cpp 65-74). -/
structure Comp where
  map : List (Expr ℝ × Entry)
  constants : List ℝ
  vars : List Nat
  functions : List (MFn × List Entry)

/-- Compiler() (MultiFunction.cpp 76). -/
def Comp.empty : Comp := ⟨[], [], [], []⟩

open Classical in
/-- `map.find` (MultiFunction.cpp 80). -/
noncomputable def Comp.find (c : Comp) (e : Expr ℝ) : Option Entry :=
  (c.map.find? fun p => decide (p.1 = e)).map Prod.snd

/-- The end of do_add for a constant (MultiFunction.cpp 86-90). -/
def Comp.addConst (c : Comp) (e : Expr ℝ) (v : ℝ) : Comp × Entry :=
  let en := Entry.constant c.constants.length
  ({ c with map := (e, en) :: c.map, constants := c.constants ++ [v] }, en)

/-- The end of do_add for a variable (MultiFunction.cpp 92-98). -/
def Comp.addVar (c : Comp) (e : Expr ℝ) (i : Nat) : Comp × Entry :=
  let en := Entry.inp c.vars.length
  ({ c with map := (e, en) :: c.map, vars := c.vars ++ [i] }, en)

/-- The end of do_add for a function (MultiFunction.cpp 179-185). -/
def Comp.addFun (c : Comp) (e : Expr ℝ) (f : MFn) (args : List Entry) : Comp × Entry :=
  let en := Entry.function c.functions.length
  ({ c with map := (e, en) :: c.map, functions := c.functions ++ [(f, args)] }, en)

/-- make_binary (MultiFunction.cpp 39-49) on the arguments in reverse, at least two of them. -/
def makeBinary (f : Fn) : List (Expr ℝ) → Expr ℝ
  | [b, a] => efn f [a, b]
  | an :: rest => efn f [makeBinary f rest, an]
  | [] => efn f []

/-- The functions of one argument that are implemented (MultiFunction.cpp 161-170). -/
def mfOf : Fn → Option MFn
  | .min => some .min
  | .inv => some .inv
  | .exp => some .exp
  | _ => none

/-- The case of two arguments (MultiFunction.cpp 113-118, 133-138, 179-185). -/
def addTwo (add : Comp → Expr ℝ → Except Err (Comp × Entry)) (c : Comp) (e : Expr ℝ) (f : MFn) (a b : Expr ℝ) :
    Except Err (Comp × Entry) :=
  match add c a with
  | .error e => .error e
  | .ok (c1, ea) =>
    match add c1 b with
    | .error e => .error e
    | .ok (c2, eb) => .ok (c2.addFun e f [ea, eb])

/-- The case of one argument (MultiFunction.cpp 152-185). -/
def addOne (add : Comp → Expr ℝ → Except Err (Comp × Entry)) (c : Comp) (e : Expr ℝ) (f : Fn) (a : Expr ℝ) :
    Except Err (Comp × Entry) :=
  match add c a with
  | .error e => .error e
  | .ok (c1, ea) =>
    match mfOf f with
    | none => .error .asserted
    | some g => .ok (c1.addFun e g [ea])

/-- do_add for an expression that is not in the map (MultiFunction.cpp 82-187). -/
def addFresh (add : Comp → Expr ℝ → Except Err (Comp × Entry)) (c : Comp) : Tok ℝ → List (Expr ℝ) →
    Except Err (Comp × Entry)
  | .const v, as => .ok (c.addConst (.node (.const v) as) v)
  | .var i, as => .ok (c.addVar (.node (.var i) as) i)
  | .fn .sum, [] => add c (econst 0)
  | .fn .sum, [a] => add c a
  | .fn .sum, [a, b] => addTwo add c (efn .sum [a, b]) .plus a b
  | .fn .sum, as => add c (makeBinary .sum as.reverse)
  | .fn .prod, [] => add c (econst 1)
  | .fn .prod, [a] => add c a
  | .fn .prod, [a, b] => addTwo add c (efn .prod [a, b]) .mult a b
  | .fn .prod, as => add c (makeBinary .prod as.reverse)
  | .fn .sqr, [] => .error .ub
  | .fn .sqr, a :: _ => add c (efn .prod [a, a])
  | .fn f, [a] => addOne add c (efn f [a]) f a
  | _, _ => .error .asserted

/-- do_add (MultiFunction.cpp 78-190) with the depth of recursion allowed. -/
noncomputable def doAdd : Nat → Comp → Expr ℝ → Except Err (Comp × Entry)
  | 0, _, _ => .error .fuel
  | fuel + 1, c, .node t as =>
    match c.find (.node t as) with
    | some en => .ok (c, en)
    | none => addFresh (doAdd fuel) c t as

/-- `add` for all expressions in order (MultiFunction.cpp 192-195, 252-255). -/
noncomputable def addAll (fuel : Nat) : Comp → List (Expr ℝ) → Except Err (Comp × List Entry)
  | c, [] => .ok (c, [])
  | c, e :: es =>
    match doAdd fuel c e with
    | .error e => .error e
    | .ok (c1, en) =>
      match addAll fuel c1 es with
      | .error e => .error e
      | .ok (c2, ens) => .ok (c2, en :: ens)

/-- The first loop of setup (MultiFunction.cpp 250-255): expand all, then add. -/
noncomputable def setupTable (L : List (Expr ℝ)) (fe fa : Nat) (es : List (Expr ℝ)) : Except Err (Comp × List Entry) :=
  match expandList (expandAll L fe) es with
  | .error e => .error e
  | .ok es' => addAll fa Comp.empty es'

/-- The place of an entry in `data` (MultiFunction.cpp 293-299, 316-320). -/
def Comp.place (c : Comp) : Entry → Nat
  | .constant i => i
  | .inp i => i + c.constants.length
  | .function i => i + c.vars.length + c.constants.length

/-- What the functions compute (MultiFuncs.cpp 4-24). -/
noncomputable def mfAp : MFn → List ℝ → Option ℝ
  | .plus, a :: b :: _ => some (a + b)
  | .mult, a :: b :: _ => some (a * b)
  | .min, a :: _ => some (-a)
  | .inv, a :: _ => some (1 / a)
  | .exp, a :: _ => some (Real.exp a)
  | _, _ => none

/-- Read the places. -/
def readAll (data : List ℝ) : List Nat → Option (List ℝ)
  | [] => some []
  | i :: is =>
    match data[i]?, readAll data is with
    | some v, some vs => some (v :: vs)
    | _, _ => none

/-- The loop over the functions in eval (MultiFunction.cpp 233-236). -/
noncomputable def runFuns (data : List ℝ) : List (MFn × List Nat) → Option (List ℝ)
  | [] => some data
  | (f, is) :: fs =>
    match readAll data is with
    | none => none
    | some vs =>
      match mfAp f vs with
      | none => none
      | some v => runFuns (data ++ [v]) fs

/-- setup and eval (MultiFunction.cpp 226-241, 258-322) on inputs: the constants, then the inputs, then the
functions in order; `none` is an access out of range. -/
noncomputable def runTable (c : Comp) (outs : List Entry) (x : List ℝ) : Option (List ℝ) :=
  match readAll x c.vars with
  | none => none
  | some vs =>
    match runFuns (c.constants ++ vs) (c.functions.map fun p => (p.1, p.2.map c.place)) with
    | none => none
    | some data => readAll data (outs.map c.place)

end Paradiseo.MathSym
