import Verif.Model.MathSym

/-!
# mathsym: formulas printed as C and handed to the C compiler

Model of the `c_print` functions of eo/contrib/mathsym/fun/FunDef.cpp, of
eo/contrib/mathsym/eval/sym_compile.cpp, and of the part of C that the printed text uses.

Simplifications:
* a text is a list of glyphs: characters, except that a number, an access `x[i]`, a local variable and the name
  of a library function are one glyph each (their spelling cannot run into a neighbour, the neighbours are
  punctuation).  A number is read by the compiler as what was printed: 17 digits are enough for a double
  (infinities and NaN, which print as words that C does not know, are outside);
* numbers are reals, as in MathSym;
* the fixed text around the formulas (prototypes, heads of functions) is not modelled; a comment is removed, not
  replaced by a blank;
* `none` is an access out of range.
-/

namespace Paradiseo.MathSym

/-- What a printed text is made of. -/
inductive G (V : Type) where
  | ch (c : Char)
  | num (v : V)
  | input (i : Nat)
  | loc (n : Nat)
  | name (f : Fn)

/-- A text. -/
abbrev Code (V : Type) := List (G V)

variable {V : Type}

/-- The texts of the arguments with a separator before each (FunDef.cpp 557-559, 594-596). -/
def sepBy (c : Char) : List (Code V) → Code V
  | [] => []
  | t :: ts => .ch c :: t ++ sepBy c ts

/-- `c_print` of the built-in functions on the texts of the arguments (FunDef.cpp 552-562, 589-600, 623-625,
657-659, 683-685, 699, 707, 729).  The arguments that a function does not have are ignored, as there. -/
def fnPrint [Zero V] [One V] : Fn → List (Code V) → Option (Code V)
  | .sum, [] => some [.num 0]
  | .sum, t :: ts => some (.ch '(' :: t ++ sepBy '+' ts ++ [.ch ')'])
  | .prod, [] => some [.num 1]
  | .prod, t :: ts => some (.ch '(' :: t ++ sepBy '*' ts ++ [.ch ')'])
  | .pow, a :: b :: _ => some (.name .pow :: .ch '(' :: a ++ .ch ',' :: b ++ [.ch ')'])
  | .pow, _ => none
  | .ifltz, a :: b :: c :: _ =>
    some (.ch '(' :: .ch '(' :: a ++ .ch '<' :: .num 0 :: .ch ')' :: .ch '?' :: b ++ .ch ':' :: c ++ [.ch ')'])
  | .ifltz, _ => none
  | .inv, a :: _ => some (.ch '(' :: .num 1 :: .ch '/' :: a ++ [.ch ')'])
  | .min, a :: _ => some (.ch '(' :: .ch '-' :: a ++ [.ch ')'])
  | f, a :: _ => some (.name f :: .ch '(' :: a ++ [.ch ')'])
  | _, [] => none

/-- What is printed before the body of a lambda (FunDef.cpp 352). -/
def openMark : Code V := [.ch '/', .ch '*', .ch 'f', .ch '*', .ch '/']
/-- What is printed after the body of a lambda (FunDef.cpp 352). -/
def closeMark : Code V := [.ch '/', .ch '*', .ch 'e', .ch 'o', .ch 'f', .ch '*', .ch '/']

mutual
/-- `c_print(sym, vars)` (FunDef.cpp 42-49; 212-217, 245-247 for variables and constants): `lam` prints a lambda
on the texts of its arguments. -/
def cprintT [Zero V] [One V] (lam : Nat → List (Code V) → Option (Code V)) (names : List (Code V)) :
    Expr V → Option (Code V)
  | .node (.var i) _ => if names.isEmpty then some [.input i] else names[i]?
  | .node (.const c) _ => some [.ch '(', .num c, .ch ')']
  | .node (.fn f) as =>
    match cprintArgs lam names as with
    | none => none
    | some cs => fnPrint f cs
  | .node (.lam k) as =>
    match cprintArgs lam names as with
    | none => none
    | some cs => lam k cs
/-- The texts of the arguments (FunDef.cpp 44-47). -/
def cprintArgs [Zero V] [One V] (lam : Nat → List (Code V) → Option (Code V)) (names : List (Code V)) :
    List (Expr V) → Option (List (Code V))
  | [] => some []
  | a :: as =>
    match cprintT lam names a, cprintArgs lam names as with
    | some t, some ts => some (t :: ts)
    | _, _ => none
end

/-- Lambda::c_print (FunDef.cpp 351-353): the body, its variables printed as the arguments.  The bodies, newest
first, as in `callL`. -/
def lamPrint [Zero V] [One V] : List (Expr V) → Nat → List (Code V) → Option (Code V)
  | [], _, _ => none
  | b :: L, k, cs =>
    if k = L.length then (cprintT (lamPrint L) cs b).map fun t => openMark ++ t ++ closeMark
    else lamPrint L k cs

/-- `c_print(sym)` (FunDef.cpp 38-40); what follows `return` in the text of compile(Sym)
(sym_compile.cpp 140-155). -/
def cprint [Zero V] [One V] (L : List (Expr V)) (e : Expr V) : Option (Code V) := cprintT (lamPrint L) [] e

/-! ### What the compiler makes of it: a fragment of C -/

/-- Where the reader of the text is: in code, in a comment to the end of the line, in a comment in marks. -/
inductive Mode where
  | code | line | block

/-- The text without comments (C99 6.4.9). -/
def strip : Mode → Code V → Code V
  | _, [] => []
  | .code, .ch '/' :: .ch '/' :: r => strip .line r
  | .code, .ch '/' :: .ch '*' :: r => strip .block r
  | .code, g :: r => g :: strip .code r
  | .line, .ch '\n' :: r => .ch '\n' :: strip .code r
  | .line, _ :: r => strip .line r
  | .block, .ch '*' :: .ch '/' :: r => strip .code r
  | .block, _ :: r => strip .block r

/-- An expression of C. -/
inductive CE (V : Type) where
  | num (v : V)
  | input (i : Nat)
  | loc (n : Nat)
  | neg (a : CE V)
  | add (a b : CE V)
  | sub (a b : CE V)
  | mul (a b : CE V)
  | div (a b : CE V)
  | lt (a b : CE V)
  | cond (c a b : CE V)
  | call1 (f : Fn) (a : CE V)
  | call2 (f : Fn) (a b : CE V)

/-- The levels of the grammar of expressions (C99 6.5), with what has been read of a sum or a product. -/
inductive Lvl (V : Type) where
  | expr | rel | add | addRest (a : CE V) | mul | mulRest (a : CE V) | un | prim

/-- Reading an expression, by recursive descent along the grammar of C99 6.5.1 - 6.5.15 cut down to the operators
`?:`, `<`, `+`, `-`, `*`, `/`, unary `-`, calls of one or two arguments and parentheses.  The first argument
bounds the number of steps. -/
def parse : Nat → Lvl V → Code V → Option (CE V × Code V)
  | 0, _, _ => none
  | n + 1, .expr, r =>
    match parse n .rel r with
    | some (c, .ch '?' :: r1) =>
      match parse n .expr r1 with
      | some (a, .ch ':' :: r2) =>
        match parse n .expr r2 with
        | some (b, r3) => some (.cond c a b, r3)
        | none => none
      | _ => none
    | o => o
  | n + 1, .rel, r =>
    match parse n .add r with
    | some (a, .ch '<' :: r1) =>
      match parse n .add r1 with
      | some (b, r2) => some (.lt a b, r2)
      | none => none
    | o => o
  | n + 1, .add, r =>
    match parse n .mul r with
    | some (a, r1) => parse n (.addRest a) r1
    | none => none
  | n + 1, .addRest a, .ch '+' :: r =>
    match parse n .mul r with
    | some (b, r1) => parse n (.addRest (.add a b)) r1
    | none => none
  | n + 1, .addRest a, .ch '-' :: r =>
    match parse n .mul r with
    | some (b, r1) => parse n (.addRest (.sub a b)) r1
    | none => none
  | _ + 1, .addRest a, r => some (a, r)
  | n + 1, .mul, r =>
    match parse n .un r with
    | some (a, r1) => parse n (.mulRest a) r1
    | none => none
  | n + 1, .mulRest a, .ch '*' :: r =>
    match parse n .un r with
    | some (b, r1) => parse n (.mulRest (.mul a b)) r1
    | none => none
  | n + 1, .mulRest a, .ch '/' :: r =>
    match parse n .un r with
    | some (b, r1) => parse n (.mulRest (.div a b)) r1
    | none => none
  | _ + 1, .mulRest a, r => some (a, r)
  | n + 1, .un, .ch '-' :: r =>
    match parse n .un r with
    | some (a, r1) => some (.neg a, r1)
    | none => none
  | n + 1, .un, r => parse n .prim r
  | _ + 1, .prim, .num v :: r => some (.num v, r)
  | _ + 1, .prim, .input i :: r => some (.input i, r)
  | _ + 1, .prim, .loc i :: r => some (.loc i, r)
  | n + 1, .prim, .name f :: .ch '(' :: r =>
    match parse n .expr r with
    | some (a, .ch ')' :: r1) => some (.call1 f a, r1)
    | some (a, .ch ',' :: r1) =>
      match parse n .expr r1 with
      | some (b, .ch ')' :: r2) => some (.call2 f a b, r2)
      | _ => none
    | _ => none
  | n + 1, .prim, .ch '(' :: r =>
    match parse n .expr r with
    | some (a, .ch ')' :: r1) => some (a, r1)
    | _ => none
  | _ + 1, .prim, _ => none

/-- The compiler reads the text, to its end, as this expression. -/
def Reads (t : Code V) (a : CE V) : Prop := ∃ N, ∀ n, N ≤ n → parse n .expr (strip .code t) = some (a, [])

open Classical in
/-- The value of an expression of C on inputs and local variables. -/
noncomputable def CE.val (x : List ℝ) (loc : Nat → Option ℝ) : CE ℝ → Option ℝ
  | .num v => some v
  | .input i => x[i]?
  | .loc n => loc n
  | .neg a => (a.val x loc).map fun v => -v
  | .add a b => (a.val x loc).bind fun v => (b.val x loc).map fun w => v + w
  | .sub a b => (a.val x loc).bind fun v => (b.val x loc).map fun w => v - w
  | .mul a b => (a.val x loc).bind fun v => (b.val x loc).map fun w => v * w
  | .div a b => (a.val x loc).bind fun v => (b.val x loc).map fun w => v / w
  | .lt a b => (a.val x loc).bind fun v => (b.val x loc).map fun w => if v < w then 1 else 0
  | .cond c a b => (c.val x loc).bind fun v => if v ≠ 0 then a.val x loc else b.val x loc
  | .call1 f a => (a.val x loc).bind fun v => (unR f).map fun g => g v
  | .call2 f a b => if f = .pow then (a.val x loc).bind fun v => (b.val x loc).map fun w => v ^ w else none

/-! ### Several formulas in one function -/

/-- make_var (sym_compile.cpp 50-57): the digits, lowest first. -/
def makeVarDigits (n : Nat) : List Char :=
  Char.ofNat (48 + n % 10) :: (if h : n / 10 = 0 then [] else makeVarDigits (n / 10))
termination_by n
decreasing_by omega

/-- make_var (sym_compile.cpp 50-57). -/
def makeVar (n : Nat) : List Char := 'a' :: makeVarDigits n

/-- A line of the body of the function: the declaration of a local variable, the setting of an output. -/
inductive Line (V : Type) where
  | decl (n : Nat) (t : Code V)
  | out (i n : Nat)

/-- `map` and `str` of sym_compile.cpp 67-96: the variable of every formula that has one (newest first) and the
lines written so far. -/
structure Emit (V : Type) where
  map : List (Expr V × Nat)
  lines : List (Line V)

open Classical in
/-- `map.find` (sym_compile.cpp 68, 159): formulas are compared as such. -/
noncomputable def mapFind {B : Type} : List (Expr V × B) → Expr V → Option B
  | [], _ => none
  | (k, b) :: m, e => if k = e then some b else mapFind m e

/-- `fun.c_print(argstr, vector<string>())` (sym_compile.cpp 81-82, 169-170). -/
def tokPrint [Zero V] [One V] (L : List (Expr V)) : Tok V → List (Code V) → Option (Code V)
  | .var i, _ => some [.input i]
  | .const c, _ => some [.ch '(', .num c, .ch ')']
  | .fn f, cs => fnPrint f cs
  | .lam k, cs => lamPrint L k cs

mutual
/-- find_entry (sym_compile.cpp 67-89). -/
noncomputable def findEntry [Zero V] [One V] (L : List (Expr V)) : Expr V → Emit V → Option (Nat × Emit V)
  | .node t as, s =>
    match mapFind s.map (.node t as) with
    | some n => some (n, s)
    | none =>
      match findEntries L as s with
      | none => none
      | some (ns, s1) =>
        match tokPrint L t (ns.map fun n => [.loc n]) with
        | none => none
        | some c =>
          some (s1.map.length, ⟨(.node t as, s1.map.length) :: s1.map, s1.lines ++ [.decl s1.map.length c]⟩)
/-- The loop over the arguments (sym_compile.cpp 73-76). -/
noncomputable def findEntries [Zero V] [One V] (L : List (Expr V)) :
    List (Expr V) → Emit V → Option (List Nat × Emit V)
  | [], s => some ([], s)
  | a :: as, s =>
    match findEntry L a s with
    | none => none
    | some (n, s1) =>
      match findEntries L as s1 with
      | none => none
      | some (ns, s2) => some (n :: ns, s2)
end

/-- The loop of compile(const std::vector<Sym>&) over the formulas with write_entry (sym_compile.cpp 91-96,
112-114); `i` is the number of the first. -/
noncomputable def writeEntries [Zero V] [One V] (L : List (Expr V)) : Nat → List (Expr V) → Emit V → Option (Emit V)
  | _, [], s => some s
  | i, e :: es, s =>
    match findEntry L e s with
    | none => none
    | some (n, s1) => writeEntries L (i + 1) es ⟨s1.map, s1.lines ++ [.out i n]⟩

/-- The body that compile(const std::vector<Sym>&) writes (sym_compile.cpp 99-116). -/
noncomputable def compileMulti [Zero V] [One V] (L : List (Expr V)) (es : List (Expr V)) : Option (List (Line V)) :=
  (writeEntries L 0 es ⟨[], []⟩).map Emit.lines

/-- The local variables with their names and values, and the outputs set, newest first. -/
structure Mem where
  locals : List (List Char × ℝ)
  outs : List (Nat × ℝ)

/-- The value of the variable with this name. -/
def Mem.get (m : Mem) (n : Nat) : Option ℝ := m.locals.lookup (makeVar n)

/-- What running the lines does to the memory.  A name declared twice does not compile. -/
inductive Runs (x : List ℝ) : List (Line ℝ) → Mem → Mem → Prop
  | done (m : Mem) : Runs x [] m m
  | decl {n : Nat} {t : Code ℝ} {a : CE ℝ} {v : ℝ} {ls : List (Line ℝ)} {m m' : Mem} :
      Reads t a → a.val x m.get = some v → m.get n = none →
      Runs x ls ⟨(makeVar n, v) :: m.locals, m.outs⟩ m' → Runs x (.decl n t :: ls) m m'
  | out {i n : Nat} {v : ℝ} {ls : List (Line ℝ)} {m m' : Mem} :
      m.get n = some v → Runs x ls ⟨m.locals, (i, v) :: m.outs⟩ m' → Runs x (.out i n :: ls) m m'

/-! ### A function for each formula -/

mutual
/-- find_code (sym_compile.cpp 158-175). -/
noncomputable def findCode [Zero V] [One V] (L : List (Expr V)) :
    Expr V → List (Expr V × Code V) → Option (Code V × List (Expr V × Code V))
  | .node t as, m =>
    match mapFind m (.node t as) with
    | some c => some (c, m)
    | none =>
      match findCodes L as m with
      | none => none
      | some (cs, m1) =>
        match tokPrint L t cs with
        | none => none
        | some c => some (c, (.node t as, c) :: m1)
/-- The loop over the arguments (sym_compile.cpp 163-166). -/
noncomputable def findCodes [Zero V] [One V] (L : List (Expr V)) :
    List (Expr V) → List (Expr V × Code V) → Option (List (Code V) × List (Expr V × Code V))
  | [], m => some ([], m)
  | a :: as, m =>
    match findCode L a m with
    | none => none
    | some (c, m1) =>
      match findCodes L as m1 with
      | none => none
      | some (cs, m2) => some (c :: cs, m2)
end

/-- The texts after `return` in compile(syms, functions) (sym_compile.cpp 182-198), function by function, with
the one map for all (177-180, 189). -/
noncomputable def compileEach [Zero V] [One V] (L : List (Expr V)) (es : List (Expr V)) : Option (List (Code V)) :=
  (findCodes L es []).map Prod.fst

end Paradiseo.MathSym
