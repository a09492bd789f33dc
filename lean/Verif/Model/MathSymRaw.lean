import Verif.Model.SymTree
import Verif.Model.EOReplacement
import Verif.Model.Param
import Verif.Model.State

/-!
# mathsym: raw text of expressions; numbers of constants and lambdas

Model of eo/contrib/mathsym/fun/FunDef.cpp 130-190, 405-430, 770-890.

Simplifications: how a double is written and read are arguments (`sh`, `rd`).  What a number (token) stands for is
kept in one function; `none` is a null pointer in `language`.  Reference counts are not kept: which tokens a
collection frees is an argument.
-/

namespace Paradiseo.MathSym

open Paradiseo.EO Paradiseo.Param

/-! ### Raw text -/

/-- What a node is for write_raw: a constant, a variable, or anything else by its number. -/
inductive RTok (V : Type) where
  | const (v : V)
  | var (i : Nat)
  | fn (token : Nat)

section
variable {V : Type}

mutual
/-- write_raw (FunDef.cpp 812-832). -/
def writeRaw (sh : V → Text) : Tree (RTok V) → Text
  | .node (.const v) as => 'c' :: '(' :: (sh v ++ ')' :: writeRaws sh as)
  | .node (.var i) as => 'v' :: (State.showNat i ++ writeRaws sh as)
  | .node (.fn t) as => 'f' :: (State.showNat t ++ ' ' :: (State.showNat as.length ++ writeRaws sh as))
def writeRaws (sh : V → Text) : List (Tree (RTok V)) → Text
  | [] => []
  | a :: as => writeRaw sh a ++ writeRaws sh as
end

/-- The loop over the arguments (FunDef.cpp 867-869). -/
def readMany (rd1 : Text → Except Err (Tree (RTok V) × Text)) : Nat → Text →
    Except Err (List (Tree (RTok V)) × Text)
  | 0, s => .ok ([], s)
  | n + 1, s =>
    match rd1 s with
    | .error e => .error e
    | .ok (a, s') =>
      match readMany rd1 n s' with
      | .error e => .error e
      | .ok (as, s'') => .ok (a :: as, s'')

/-- read_raw (FunDef.cpp 842-881) with the depth of recursion allowed.  A failed read of a number leaves it
undefined (`ub`); any other first character ends the program (`asserted`). -/
def readRaw (rd : Text → Option (V × Text)) : Nat → Text → Except Err (Tree (RTok V) × Text)
  | 0, _ => .error .fuel
  | _ + 1, 'c' :: s =>
    match rd (s.drop 1) with
    | none => .error .ub
    | some (v, s') => .ok (.node (.const v) [], s'.drop 1)
  | _ + 1, 'v' :: s =>
    match readNat s with
    | none => .error .ub
    | some (i, s') => .ok (.node (.var i) [], s')
  | fuel + 1, 'f' :: s =>
    match readNat s with
    | none => .error .ub
    | some (t, s') =>
      match readNat s' with
      | none => .error .ub
      | some (n, s'') =>
        match readMany (readRaw rd fuel) n s'' with
        | .error e => .error e
        | .ok (as, s''') => .ok (.node (.fn t) as, s''')
  | _ + 1, _ => .error .asserted

end

/-! ### Numbers -/

/-- What a number stands for. -/
inductive Obj (V B : Type) where
  | const (v : V)
  | lam (b : B)
  | other
  deriving DecidableEq

/-- `language`, `free_list` (its back first), `token_value.size()`, `token_lambda.size()`. -/
structure Tokens (V B : Type) where
  size : Nat
  what : Nat → Option (Obj V B)
  free : List Nat
  values : Nat
  lambdas : Nat

section
variable {V B : Type} [DecidableEq V] [DecidableEq B]

/-- The state after the built-in functions (FunDef.cpp 716-767). -/
def Tokens.init (builtins : Nat) : Tokens V B :=
  ⟨builtins, fun t => if t < builtins then some .other else none, [], 0, 0⟩

/-- add_tokens (FunDef.cpp 770-777): the last new number will be used first. -/
def Tokens.addTokens (s : Tokens V B) : Tokens V B :=
  { s with size := s.size + s.size + 1, free := (List.range' s.size (s.size + 1)).reverse ++ s.free }

/-- A token is freed: delete_val (FunDef.cpp 137-158) and 788-800; only constants and lambdas are. -/
def Tokens.drop (s : Tokens V B) (t : Nat) : Tokens V B :=
  match s.what t with
  | some (.const _) => { s with what := fun u => if u = t then none else s.what u, free := t :: s.free }
  | some (.lam _) => { s with what := fun u => if u = t then none else s.what u, free := t :: s.free }
  | _ => s

/-- extend_free_list (FunDef.cpp 779-808): free the numbers `unused` that nobody refers to, then add new ones if
there is none. -/
def Tokens.extend (s : Tokens V B) (unused : List Nat) : Tokens V B :=
  let s' := unused.foldl Tokens.drop s
  match s'.free with
  | [] => s'.addTokens
  | _ => s'

/-- `find` in doubleSet and lambdaSet (FunDef.cpp 167-171, 408-411). -/
def Tokens.find (s : Tokens V B) (o : Obj V B) : Option Nat :=
  (List.range s.size).find? fun t => decide (s.what t = some o)

/-- The table with at least one free number (FunDef.cpp 174-176, 417-419). -/
def Tokens.ready (s : Tokens V B) (unused : List Nat) : Tokens V B :=
  match s.free with
  | [] => s.extend unused
  | _ => s

/-- Take the back of the free list (FunDef.cpp 174-179, 417-422); the list is extended before if it is empty. -/
def Tokens.pop (s : Tokens V B) (unused : List Nat) : Option (Nat × Tokens V B) :=
  match (s.ready unused).free with
  | [] => none
  | t :: fr => some (t, { s.ready unused with free := fr })

/-- SymConst (FunDef.cpp 165-190): the number; `ub` is the write outside `token_value` (187), which is extended (186)
only if the number is larger than its size. -/
def Tokens.symConst (s : Tokens V B) (unused : List Nat) (v : V) : Except Err (Nat × Tokens V B) :=
  match s.find (.const v) with
  | some t => .ok (t, s)
  | none =>
    match s.pop unused with
    | none => .error .ub
    | some (t, s') =>
      let vals := if s'.values < t then t + 1 else s'.values
      if t < vals then
        .ok (t, { s' with what := fun u => if u = t then some (.const v) else s'.what u, values := vals })
      else .error .ub

/-- add_function for a new variable (FunDef.cpp 29-32, 98-104). -/
def Tokens.addVar (s : Tokens V B) : Tokens V B :=
  { s with size := s.size + 1, what := fun u => if u = s.size then some .other else s.what u }

/-- new_lambda (FunDef.cpp 405-430). -/
def Tokens.newLam (s : Tokens V B) (unused : List Nat) (b : B) : Except Err (Nat × Tokens V B) :=
  match s.find (.lam b) with
  | some t => .ok (t, s)
  | none =>
    match s.pop unused with
    | none => .error .ub
    | some (t, s') =>
      let lams := if s'.lambdas ≤ t then t + 1 else s'.lambdas
      if t < lams then
        .ok (t, { s' with what := fun u => if u = t then some (.lam b) else s'.what u, lambdas := lams })
      else .error .ub

/-- Calls a program makes. -/
inductive Call (V B : Type) where
  | const (unused : List Nat) (v : V)
  | lam (unused : List Nat) (b : B)
  | var
  | drop (t : Nat)

/-- One call. -/
def Tokens.call (s : Tokens V B) : Call V B → Except Err (Tokens V B)
  | .const unused v =>
    match s.symConst unused v with
    | .error e => .error e
    | .ok (_, s') => .ok s'
  | .lam unused b =>
    match s.newLam unused b with
    | .error e => .error e
    | .ok (_, s') => .ok s'
  | .var => .ok s.addVar
  | .drop t => .ok (s.drop t)

/-- Calls in order. -/
def Tokens.run : Tokens V B → List (Call V B) → Except Err (Tokens V B)
  | s, [] => .ok s
  | s, c :: cs =>
    match s.call c with
    | .error e => .error e
    | .ok s' => s'.run cs

end

end Paradiseo.MathSym
