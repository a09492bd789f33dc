import Verif.Model.EOAlgo

/-
Model of problems/eval/longKPathEval.h.

Simplifications: ranks are natural numbers (32-bit unsigned in the code, with a shift of an `int`), so the model
describes problems of at most thirty blocks; the subtraction of a rank computed off the path, whose value is
not used, is cut off at zero; `final` of a length below `k`, where the code compares with a huge number, is
undefined.
-/
namespace Paradiseo.LongPath

open Paradiseo.EO

/-- `solution[ind - n]` with unsigned indices; `none` outside. -/
def bitAt (x : List Bool) (ind n : Nat) : Option Bool := if n ≤ ind then x[ind - n]? else none

/-- The two loops of `nbOnesZeros` (longKPathEval.h:61-62, 67-68): going down from `ind`, count the bits equal
to `v`, with `b` steps left before the bound is reached and `n` counted. -/
def runLen (x : List Bool) (v : Bool) (ind : Nat) : Nat → Nat → Except Err Nat
  | 0, n => .ok n
  | b + 1, n =>
    match bitAt x ind n with
    | none => .error .ub
    | some c => if c = v then runLen x v ind b (n + 1) else .ok n

/-- The loops of `final` (longKPathEval.h:84-85, 90-91): going up from `i`, `b` steps left. -/
def scan (x : List Bool) (v : Bool) : Nat → Nat → Except Err Nat
  | 0, i => .ok i
  | b + 1, i =>
    match x[i]? with
    | none => .error .ub
    | some c => if c = v then scan x v b (i + 1) else .ok i

/-- `final` (longKPathEval.h:78-96). -/
def final (k : Nat) (x : List Bool) (l : Nat) : Except Err Bool :=
  if l = 1 then
    match x[0]? with
    | none => .error .ub
    | some c => .ok (c == true)
  else if l < k then .error .ub
  else
    match scan x false (l - k) 0 with
    | .error e => .error e
    | .ok i =>
      if i < l - k then .ok false
      else
        match scan x true (l - i) i with
        | .error e => .error e
        | .ok j => .ok (j == l)

/-- `rank` (longKPathEval.h:105-138): the rank and the flag `inPath`. -/
def rank (k : Nat) (x : List Bool) : Nat → Nat → Except Err (Nat × Bool)
  | 0, _ => .error .fuel
  | f + 1, l =>
    if l = 1 then
      match x[0]? with
      | none => .error .ub
      | some c => .ok (if c = false then 0 else 1, true)
    else if l = 0 then .error .ub
    else
      match runLen x false (l - 1) k 0 with
      | .error e => .error e
      | .ok n0 =>
        match runLen x true (l - 1 - n0) (k - n0) 0 with
        | .error e => .error e
        | .ok n1 =>
          if n0 = k then rank k x f (l - k)
          else if n1 = k then
            match rank k x f (l - k) with
            | .error e => .error e
            | .ok (r, b) => .ok ((k + 1) * 2 ^ ((l - 1) / k) - k - r, b)
          else if n0 + n1 = k then
            match final k x (l - k) with
            | .error e => .error e
            | .ok true => .ok ((k + 1) * 2 ^ ((l - k - 1) / k) - k + n1, true)
            | .ok false => .ok (0, false)
          else .ok (0, false)

/-- `nbZero` (longKPathEval.h:146-154). -/
def nbZero (x : List Bool) : Nat := x.countP (· == false)

/-- The fitness (longKPathEval.h:176-185). The recursion depth is at most the length unless `k` is 0. -/
def fitness (k : Nat) (x : List Bool) : Except Err Nat :=
  match rank k x (x.length + 1) x.length with
  | .error e => .error e
  | .ok (r, true) => .ok (x.length + r)
  | .ok (_, false) => .ok (nbZero x)

end Paradiseo.LongPath
