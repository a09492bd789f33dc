import Mathlib.Analysis.SpecialFunctions.Pow.Real
import Mathlib.Analysis.SpecialFunctions.Arsinh
import Mathlib.Analysis.SpecialFunctions.Arcosh
import Mathlib.Analysis.SpecialFunctions.Artanh
import Mathlib.Analysis.SpecialFunctions.Trigonometric.Arctan
import Mathlib.Analysis.SpecialFunctions.Trigonometric.Inverse
import Verif.Model.SymTree

/-!
# mathsym: expressions of functions, their values, simplification, differentiation, constants and lambdas

Model of eo/contrib/mathsym/fun/FunDef.cpp, SymOps.cpp, sym_operations.cpp and mutate_constants of
eo_interface/eoSymMutate.cpp.

Simplifications:
* numbers are reals (or any type `V` where only the structure matters): no rounding, no infinities; where a
  function has no real value the model's value is arbitrary and the theorems assume it has one;
* a token is what it stands for: a built-in function, a variable, a constant, a lambda; the numbering of
  tokens, `language`, and the reuse of numbers are in MathSymRaw;
* a lambda is numbered by its place in the list of bodies made so far; bodies are never freed.
-/

namespace Paradiseo.MathSym

open Paradiseo.EO

/-- The built-in functions (FunDef.h 132-145). -/
inductive Fn where
  | sum | prod | inv | min | pow | ifltz
  | sin | cos | tan | asin | acos | atan
  | sinh | cosh | tanh | acosh | asinh | atanh
  | exp | log | sqr | sqrt
  deriving DecidableEq

/-- What a token stands for (FunDef.cpp 197-256, 339-362, 540-759). -/
inductive Tok (V : Type) where
  | fn (f : Fn)
  | var (i : Nat)
  | const (c : V)
  | lam (k : Nat)

/-- An expression. -/
abbrev Expr (V : Type) := Tree (Tok V)

variable {V : Type}

/-- `SymVar` (FunDef.cpp 97-106). -/
def evar (i : Nat) : Expr V := .node (.var i) []
/-- `SymConst` (FunDef.cpp 165-190). -/
def econst (c : V) : Expr V := .node (.const c) []
/-- `Sym(token, args)` for a built-in function. -/
def efn (f : Fn) (as : List (Expr V)) : Expr V := .node (.fn f) as
/-- is_constant (FunDef.cpp 324-327). -/
def isConst : Expr V → Bool | .node (.const _) _ => true | _ => false
/-- is_variable (FunDef.cpp 329-332). -/
def isVar : Expr V → Bool | .node (.var _) _ => true | _ => false

/-! ### Evaluation -/

mutual
/-- eval (FunDef.cpp 54-56, 84-91, 210-211, 243-244, 347-349): `ap` is what the built-in functions compute,
`call` what the lambdas compute.  `none` is an access out of range: an input or an argument that is not there. -/
def evalT (ap : Fn → List V → Option V) (call : Nat → List V → Option V) (x : List V) : Expr V → Option V
  | .node (.var i) _ => x[i]?
  | .node (.const c) _ => some c
  | .node (.fn f) as =>
    match evalArgs ap call x as with
    | none => none
    | some vs => ap f vs
  | .node (.lam k) as =>
    match evalArgs ap call x as with
    | none => none
    | some vs => call k vs
/-- The values of the arguments (FunDef.cpp 85-88). -/
def evalArgs (ap : Fn → List V → Option V) (call : Nat → List V → Option V) (x : List V) :
    List (Expr V) → Option (List V)
  | [] => some []
  | a :: as =>
    match evalT ap call x a, evalArgs ap call x as with
    | some v, some vs => some (v :: vs)
    | _, _ => none
end

/-- Lambda::eval (FunDef.cpp 347-349): the body on the values of the arguments.  The bodies, newest first; a
body uses only lambdas that were there before it. -/
def callL (ap : Fn → List V → Option V) : List (Expr V) → Nat → List V → Option V
  | [], _, _ => none
  | b :: L, k, vs => if k = L.length then evalT ap (callL ap L) vs b else callL ap L k vs

/-- The value of an expression on inputs. -/
def eval (ap : Fn → List V → Option V) (L : List (Expr V)) (x : List V) (e : Expr V) : Option V :=
  evalT ap (callL ap L) x e

/-- The functions of one argument on reals (FunDef.cpp 697-765). -/
noncomputable def unR : Fn → Option (ℝ → ℝ)
  | .inv => some fun v => 1 / v
  | .min => some fun v => -v
  | .sin => some Real.sin
  | .cos => some Real.cos
  | .tan => some Real.tan
  | .asin => some Real.arcsin
  | .acos => some Real.arccos
  | .atan => some Real.arctan
  | .sinh => some Real.sinh
  | .cosh => some Real.cosh
  | .tanh => some Real.tanh
  | .asinh => some Real.arsinh
  | .acosh => some Real.arcosh
  | .atanh => some Real.artanh
  | .exp => some Real.exp
  | .log => some Real.log
  | .sqr => some fun v => v * v
  | .sqrt => some Real.sqrt
  | _ => none

open Classical in
/-- The built-in functions on reals (FunDef.cpp 546-550, 583-587, 619-621, 643-646, 679-681).  The short-cut of
IsNeg (648-655) has the signature of no virtual function, both branches are evaluated. -/
noncomputable def apR : Fn → List ℝ → Option ℝ
  | .sum, vs => some (vs.foldl (· + ·) 0)
  | .prod, vs => some (vs.foldl (· * ·) 1)
  | .pow, a :: b :: _ => some (a ^ b)
  | .ifltz, a :: b :: c :: _ => some (if a < 0 then b else c)
  | f, v :: _ => (unR f).map fun g => g v
  | _, [] => none

/-! ### Operators on expressions -/

mutual
/-- collect (SymOps.cpp 24-35). -/
def collect (f : Fn) : Expr V → List (Expr V)
  | .node (.fn g) as => if g = f then collectArgs f as else [.node (.fn g) as]
  | .node (.var i) as => [.node (.var i) as]
  | .node (.const c) as => [.node (.const c) as]
  | .node (.lam k) as => [.node (.lam k) as]
def collectArgs (f : Fn) : List (Expr V) → List (Expr V)
  | [] => []
  | a :: as => collect f a ++ collectArgs f as
end

/-- `operator+` (SymOps.cpp 37-45). -/
def eadd (a b : Expr V) : Expr V := efn .sum (collect .sum a ++ collect .sum b)
/-- `operator*` (SymOps.cpp 47-55). -/
def emul (a b : Expr V) : Expr V := efn .prod (collect .prod a ++ collect .prod b)
/-- `operator/` (SymOps.cpp 57-72). -/
def ediv (a b : Expr V) : Expr V :=
  efn .prod (collect .prod a ++ [efn .inv [efn .prod (collect .prod b)]])
/-- `operator-` of two (SymOps.cpp 74-89). -/
def esub (a b : Expr V) : Expr V :=
  efn .sum (collect .sum a ++ [efn .min [efn .sum (collect .sum b)]])
/-- `operator-` of one (SymOps.cpp 91-93). -/
def eneg (a : Expr V) : Expr V := efn .min [a]
/-- `pow` (SymOps.cpp 95-100). -/
def epow (a b : Expr V) : Expr V := efn .pow [a, b]

/-! ### Simplification -/

/-- A node without arguments (sym_operations.cpp 42-48). -/
def foldLeaf (zero one : V) : Tok V → Expr V
  | .fn .sum => econst zero
  | .fn .prod => econst one
  | t => .node t []

mutual
/-- simplify_constants (sym_operations.cpp 22-68); `ev` is the value of an expression without inputs, `zero` and
`one` are the numbers 0.0 and 1.0. -/
def simplify (ev : Expr V → Option V) (zero one : V) : Expr V → Except Err (Expr V)
  | .node t as =>
    match simplifyArgs ev zero one as with
    | .error e => .error e
    | .ok as' =>
      if as.isEmpty then .ok (foldLeaf zero one t)
      else if as'.all isConst then
        match ev (.node t as) with
        | none => .error .ub
        | some v => .ok (econst v)
      else .ok (.node t as')
def simplifyArgs (ev : Expr V → Option V) (zero one : V) : List (Expr V) → Except Err (List (Expr V))
  | [] => .ok []
  | a :: as =>
    match simplify ev zero one a with
    | .error e => .error e
    | .ok a' =>
      match simplifyArgs ev zero one as with
      | .error e => .error e
      | .ok as' => .ok (a' :: as')
end

/-! ### Differentiation -/

/-- `Sym(sum_token)` and `Sym(prod_token)`, used as zero and one (sym_operations.cpp 115-116). -/
def ezero : Expr V := efn .sum []
def eone : Expr V := efn .prod []

/-- derivative (sym_operations.cpp 77-109); `none` is the exception. -/
noncomputable def derivative : Fn → Expr ℝ → Option (Expr ℝ)
  | .inv, x => some (efn .inv [efn .sqr [x]])
  | .sin, x => some (eneg (efn .cos [x]))
  | .cos, x => some (efn .sin [x])
  | .tan, x => some (eadd eone (efn .sqr [efn .tan [x]]))
  | .asin, x => some (efn .inv [efn .sqrt [esub eone (efn .sqr [x])]])
  | .acos, x => some (eneg (efn .inv [efn .sqrt [esub eone (efn .sqr [x])]]))
  | .atan, x => some (efn .inv [efn .sqrt [eadd eone (efn .sqr [x])]])
  | .cosh, x => some (eneg (efn .sinh [x]))
  | .sinh, x => some (efn .cosh [x])
  | .tanh, x => some (esub eone (efn .sqr [efn .tanh [x]]))
  | .asinh, x => some (efn .inv [efn .sqrt [eadd eone (efn .sqr [x])]])
  | .acosh, x => some (efn .inv [emul (efn .sqrt [esub x eone]) (efn .sqrt [eadd x eone])])
  | .atanh, x => some (efn .inv [esub eone (efn .sqr [x])])
  | .exp, x => some (efn .exp [x])
  | .log, x => some (efn .inv [x])
  | .sqr, x => some (emul (econst 2) x)
  | .sqrt, x => some (emul (econst (1 / 2)) (efn .inv [efn .sqrt [x]]))
  | _, _ => none

/-- The product rule (sym_operations.cpp 143-157), on the arguments and their derivatives in reverse: one
argument, two arguments, or the last one against the product of the others. -/
def prodRule : List (Expr V) → List (Expr V) → Expr V
  | [_], [d] => d
  | [b, a], [db, da] => eadd (emul a db) (emul b da)
  | c :: rest, dc :: drest =>
    eadd (emul c (prodRule rest drest)) (emul (efn .prod rest.reverse) dc)
  | _, _ => ezero

mutual
/-- differentiate with respect to variable `i` (sym_operations.cpp 111-174). -/
noncomputable def diff (i : Nat) : Expr ℝ → Except Err (Expr ℝ)
  | .node (.var j) as => if j = i then .ok eone else if as.isEmpty then .ok ezero else .error .thrown
  | .node (.const _) as => if as.isEmpty then .ok ezero else .error .thrown
  | .node (.lam _) as => if as.isEmpty then .ok ezero else .error .thrown
  | .node (.fn _) [] => .ok ezero
  | .node (.fn .sum) (a :: as) =>
    match diff i a, diffArgs i as with
    | .ok d, .ok ds => if as.isEmpty then .ok d else .ok (efn .sum (d :: ds))
    | _, _ => .error .thrown
  | .node (.fn .prod) (a :: as) =>
    match diff i a, diffArgs i as with
    | .ok d, .ok ds => .ok (prodRule (a :: as).reverse (d :: ds).reverse)
    | _, _ => .error .thrown
  | .node (.fn .min) (a :: _) =>
    match diff i a with
    | .ok d => .ok (eneg d)
    | .error e => .error e
  | .node (.fn .pow) [_] => .error .ub
  | .node (.fn .pow) (a :: b :: _) => .ok (emul (emul (epow a b) b) (efn .inv [a]))
  | .node (.fn .ifltz) (_ :: _) => .error .thrown
  | .node (.fn f) (a :: _) =>
    match derivative f a with
    | none => .error .thrown
    | some g =>
      match diff i a with
      | .ok d => .ok (emul g d)
      | .error e => .error e
noncomputable def diffArgs (i : Nat) : List (Expr ℝ) → Except Err (List (Expr ℝ))
  | [] => .ok []
  | a :: as =>
    match diff i a, diffArgs i as with
    | .ok d, .ok ds => .ok (d :: ds)
    | _, _ => .error .thrown
end

/-! ### Constants -/

mutual
/-- get_constants (FunDef.cpp 260-272). -/
def getConsts : Expr V → List V
  | .node (.const c) as => c :: getConstsArgs as
  | .node (.fn _) as => getConstsArgs as
  | .node (.var _) as => getConstsArgs as
  | .node (.lam _) as => getConstsArgs as
def getConstsArgs : List (Expr V) → List V
  | [] => []
  | a :: as => getConsts a ++ getConstsArgs as
end

mutual
/-- set_constants (FunDef.cpp 287-300): the expression and the values not used; reading past the end is
undefined. -/
def setConsts : Expr V → List V → Except Err (Expr V × List V)
  | .node (.const _) _, [] => .error .ub
  | .node (.const _) _, c :: cs => .ok (econst c, cs)
  | .node (.fn f) as, cs =>
    match setConstsArgs as cs with
    | .error e => .error e
    | .ok (as', cs') => .ok (.node (.fn f) as', cs')
  | .node (.var i) as, cs =>
    match setConstsArgs as cs with
    | .error e => .error e
    | .ok (as', cs') => .ok (.node (.var i) as', cs')
  | .node (.lam k) as, cs =>
    match setConstsArgs as cs with
    | .error e => .error e
    | .ok (as', cs') => .ok (.node (.lam k) as', cs')
def setConstsArgs : List (Expr V) → List V → Except Err (List (Expr V) × List V)
  | [], cs => .ok ([], cs)
  | a :: as, cs =>
    match setConsts a cs with
    | .error e => .error e
    | .ok (a', cs') =>
      match setConstsArgs as cs' with
      | .error e => .error e
      | .ok (as', cs'') => .ok (a' :: as', cs'')
end

/-- mutate_constants (eoSymMutate.cpp 58-71): `z i` is the normal draw for constant `i`. -/
noncomputable def mutateConstants (stdev : ℝ) (z : Nat → ℝ) (e : Expr ℝ) : Except Err (Expr ℝ × Bool) :=
  let values := getConsts e
  if values.isEmpty then .ok (e, false)
  else
    match setConsts e (values.mapIdx fun i v => v + z i * stdev / values.length) with
    | .error e => .error e
    | .ok (e', _) => .ok (e', true)

/-! ### Lambdas -/

mutual
/-- expand (FunDef.cpp 500-513): put the arguments in the place of the variables. -/
def subst (args : List (Expr V)) : Expr V → Except Err (Expr V)
  | .node (.var i) _ =>
    match args[i]? with
    | none => .error .ub
    | some a => .ok a
  | .node (.const c) as =>
    match substArgs args as with
    | .error e => .error e
    | .ok as' => .ok (.node (.const c) as')
  | .node (.fn f) as =>
    match substArgs args as with
    | .error e => .error e
    | .ok as' => .ok (.node (.fn f) as')
  | .node (.lam k) as =>
    match substArgs args as with
    | .error e => .error e
    | .ok as' => .ok (.node (.lam k) as')
def substArgs (args : List (Expr V)) : List (Expr V) → Except Err (List (Expr V))
  | [] => .ok []
  | a :: as =>
    match subst args a with
    | .error e => .error e
    | .ok a' =>
      match substArgs args as with
      | .error e => .error e
      | .ok as' => .ok (a' :: as')
end

/-- The body of lambda `k`. -/
def bodyOf (L : List (Expr V)) (k : Nat) : Option (Expr V) := L.reverse[k]?

/-- SymUnlambda (FunDef.cpp 515-523). -/
def unlambda (L : List (Expr V)) : Expr V → Except Err (Expr V)
  | .node (.lam k) as =>
    match bodyOf L k with
    | none => .error .ub
    | some b => subst as b
  | e => .ok e

/-- The loop over the arguments in expand_all (FunDef.cpp 527-529). -/
def expandList (f : Expr V → Except Err (Expr V)) : List (Expr V) → Except Err (List (Expr V))
  | [] => .ok []
  | a :: as =>
    match f a with
    | .error e => .error e
    | .ok a' =>
      match expandList f as with
      | .error e => .error e
      | .ok as' => .ok (a' :: as')

open Classical in
/-- expand_all (FunDef.cpp 525-538), with the depth of recursion allowed. -/
noncomputable def expandAll (L : List (Expr V)) : Nat → Expr V → Except Err (Expr V)
  | 0, _ => .error .fuel
  | fuel + 1, .node t as =>
    match expandList (expandAll L fuel) as with
    | .error e => .error e
    | .ok as' =>
      match unlambda L (.node t as') with
      | .error e => .error e
      | .ok nw => if nw ≠ .node t as then expandAll L fuel nw else .ok nw

open Classical in
/-- Place of an expression among the arguments of a lambda under construction (FunDef.cpp 449-456): the
variable that stands for it and the arguments, with it added if it was not there. -/
noncomputable def placeArg (e : Expr V) (args : List (Expr V)) : Expr V × List (Expr V) :=
  match args.findIdx? (fun a => decide (a = e)) with
  | some i => (evar i, args)
  | none => (evar args.length, args ++ [e])

mutual
/-- create_lambda (FunDef.cpp 443-466); `repl` says which expressions become arguments. -/
noncomputable def createLambda (repl : Expr V → Bool) : Expr V → List (Expr V) → Expr V × List (Expr V)
  | .node t as, args =>
    if repl (.node t as) then placeArg (.node t as) args
    else
      let r := createLambdaArgs repl as args
      (.node t r.1, r.2)
noncomputable def createLambdaArgs (repl : Expr V → Bool) : List (Expr V) → List (Expr V) →
    List (Expr V) × List (Expr V)
  | [], args => ([], args)
  | a :: as, args =>
    let r := createLambda repl a args
    let s := createLambdaArgs repl as r.2
    (r.1 :: s.1, s.2)
end

open Classical in
mutual
/-- count_occurances (FunDef.cpp 435-441): how often `s` occurs. -/
noncomputable def occ (s : Expr V) : Expr V → Nat
  | .node t as => (if Tree.node t as = s then 1 else 0) + occArgs s as
noncomputable def occArgs (s : Expr V) : List (Expr V) → Nat
  | [] => 0
  | a :: as => occ s a + occArgs s as
end

mutual
/-- The indices of the variables that occur. -/
def varsOf : Expr V → List Nat
  | .node (.var i) as => i :: varsOfArgs as
  | .node (.fn _) as => varsOfArgs as
  | .node (.const _) as => varsOfArgs as
  | .node (.lam _) as => varsOfArgs as
def varsOfArgs : List (Expr V) → List Nat
  | [] => []
  | a :: as => varsOf a ++ varsOfArgs as
end

/-- The test of create_lambda (FunDef.cpp 443-447) in `root`: `o * sz > o + sz + nvars || is_variable`. -/
noncomputable def shouldReplace (root : Expr V) (s : Expr V) : Bool :=
  let o := occ s root
  let sz := s.size
  decide (o * sz > o + sz + (varsOf root).dedup.length) || isVar s

open Classical in
/-- new_lambda (FunDef.cpp 405-430): the bodies and the number of the one asked for. -/
noncomputable def newLambda (L : List (Expr V)) (body : Expr V) : List (Expr V) × Nat :=
  match L.reverse.findIdx? (fun b => decide (b = body)) with
  | some k => (L, k)
  | none => (body :: L, L.length)

/-- The loop over the arguments in compress (FunDef.cpp 487-489). -/
def compressList (f : List (Expr V) → Expr V → Except Err (List (Expr V) × Expr V)) :
    List (Expr V) → List (Expr V) → Except Err (List (Expr V) × List (Expr V))
  | L, [] => .ok (L, [])
  | L, a :: as =>
    match f L a with
    | .error e => .error e
    | .ok (L1, a') =>
      match compressList f L1 as with
      | .error e => .error e
      | .ok (L2, as') => .ok (L2, a' :: as')

/-- compress (FunDef.cpp 468-496), with the depth of recursion allowed: the bodies and the expression. -/
noncomputable def compress : Nat → List (Expr V) → Expr V → Except Err (List (Expr V) × Expr V)
  | 0, _, _ => .error .fuel
  | fuel + 1, L, e =>
    let r := createLambda (shouldReplace e) e []
    if r.1.size < e.size then
      match compress fuel L r.1 with
      | .error e => .error e
      | .ok (L1, body) =>
        let n := newLambda L1 body
        match compressList (compress fuel) n.1 r.2 with
        | .error e => .error e
        | .ok (L3, args) => compress fuel L3 (.node (.lam n.2) args)
    else .ok (L, e)

end Paradiseo.MathSym
