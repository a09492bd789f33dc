import Verif.Model.SymTree
import Verif.Model.SymDag

/-!
# mathsym: the symbolic regression program

Model of eo/contrib/mathsym/symreg.cpp: the language set up from the options (341-392), the start of `main`
(237-258) and the statistics on sizes (68-101).  The tokens and the functions are those of fun/FunDef.h 132-145 and
fun/FunDef.cpp.

Simplifications: the parser is the set of options that are switched on; printing is left out; the data file has a
number of input columns.
-/

namespace Paradiseo.MathSym.Symreg

open Paradiseo.EO

/-- What setup_language asks of a FunDef (FunDef.h 46-49). -/
structure Def where
  name : String
  minArity : Nat
  varargs : Bool

/-- get_defined_functions (FunDef.cpp 308-319) when the program starts: by token (FunDef.h 132-145), as registered
in FunDef.cpp 736-767 with names and arities of 571-575, 609-613, 634-637, 668-671, 690-693. -/
def defined : List Def :=
  [⟨"sum", 0, true⟩, ⟨"prod", 0, true⟩, ⟨"inv", 1, false⟩, ⟨"min", 1, false⟩, ⟨"pow", 2, false⟩,
    ⟨"ifltz", 3, false⟩, ⟨"sin", 1, false⟩, ⟨"cos", 1, false⟩, ⟨"tan", 1, false⟩, ⟨"asin", 1, false⟩,
    ⟨"acos", 1, false⟩, ⟨"atan", 1, false⟩, ⟨"sinh", 1, false⟩, ⟨"cosh", 1, false⟩, ⟨"tanh", 1, false⟩,
    ⟨"acosh", 1, false⟩, ⟨"asinh", 1, false⟩, ⟨"atanh", 1, false⟩, ⟨"exp", 1, false⟩, ⟨"log", 1, false⟩,
    ⟨"sqr", 1, false⟩, ⟨"sqrt", 1, false⟩]

/-- The options of the language (symreg.cpp 355-357, 344), and `--help`. -/
structure Opts where
  all : Bool
  ratio : Bool
  poly : Bool
  on : String → Bool
  help : Bool

/-- is_poly (symreg.cpp 366-369). -/
def isPoly (o : Opts) (i : Nat) : Bool := o.poly && (i == 1 || i == 0 || i == 3)

/-- is_ratio (symreg.cpp 371-374). -/
def isRatio (o : Opts) (i : Nat) : Bool := o.ratio && (isPoly o i || i == 2)

/-- A call of add_function: name of the option, token and number of arguments, and whether to add it anyway. -/
structure Call where
  name : String
  fn : Nat × Nat
  anyway : Bool

/-- The loop over the numbers of arguments (symreg.cpp 380-386). -/
def varCalls (o : Opts) (i : Nat) (d : Def) : Nat → Nat → List Call
  | 0, _ => []
  | n + 1, j =>
    if j = 1 then varCalls o i d n (j + 1)
    else ⟨d.name ++ toString j, (i, j), (o.all || isRatio o i || isPoly o i) && j == 2⟩
      :: varCalls o i d n (j + 1)

/-- The loop over the functions (symreg.cpp 362-391). -/
def calls (o : Opts) : Nat → List Def → List Call
  | _, [] => []
  | i, d :: ds =>
    (if d.varargs then varCalls o i d 8 d.minArity
      else [⟨d.name, (i, d.minArity), o.all || isRatio o i || isPoly o i⟩]) ++ calls o (i + 1) ds

/-- add_function (symreg.cpp 341-351), with the counter `functions_added`. -/
def addFunction (o : Opts) (s : Language Nat × Nat) (c : Call) : Language Nat × Nat :=
  if o.on c.name || c.anyway then (s.1.add c.fn, if c.fn.2 > 0 then s.2 + 1 else s.2) else s

/-- setup_language (symreg.cpp 353-392). -/
def setup (o : Opts) : Language Nat × Nat := (calls o 0 defined).foldl (addFunction o) (Language.empty, 0)

/-- How the start of main ends. -/
inductive Start where
  | usage
  | noFunctions
  | ready (l : Language Nat)

/-- main up to the TreeBuilder (symreg.cpp 109, 237-260): the variables get the tokens after the functions
(SymVar, FunDef.cpp 97-106). -/
def start (o : Opts) (nvars : Nat) : Start :=
  let s := setup o
  if o.help then .usage
  else if s.2 = 0 then .noFunctions
  else .ready ((List.range nvars).foldl (fun l i => l.add (defined.length + i, 0)) s.1)

/-- SumSizeStat (symreg.cpp 85-91), without wrap-around. -/
def sumSize (pop : List (Tree Nat)) : Nat := pop.foldl (fun n t => n + t.size) 0

/-- AverageSizeStat (symreg.cpp 72-78), exact. -/
def averageSize (pop : List (Tree Nat)) : ℚ := (pop.foldl (fun (x : ℚ) t => x + t.size) 0) / pop.length

/-- DagSizeStat (symreg.cpp 98-100). -/
def dagSize (s : Dag.St) : Nat := s.mem.nodes.length

end Paradiseo.MathSym.Symreg
