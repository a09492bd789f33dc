import Verif.Model.EOAlgo
import Verif.Model.EOReplacement
import Verif.Model.Init
import Verif.Model.State
import Verif.Model.Diversity
/-
What the `make_*` functions build from the parameters of the command line.

* eo/src/do/make_algo_scalar.h, make_algo_easea.h, make_general_replacement.h
* eo/src/do/make_continue.h, make_pop.h
* eo/src/ga/make_op.h, eo/src/es/make_op.h, make_op_real.h
* moeo/src/do/make_ea_moeo.h (the niche size)

The parameters are given by their values; the parser is in Model/Param.lean.  `atof` is an arbitrary function from
texts to numbers; `atoi` is the one of the standard library without overflow.  Numbers are rational.  The objects
built are described by data; `Repl.run` and `Reduce.run` say which replacement of Model/EOReplacement.lean they are.
-/
namespace Paradiseo.Factory

open Paradiseo.EO

abbrev Text := List Char

/-- A value `keyword(arg1,arg2,...)` of type eoParamParamType (eoParser.h): the keyword and the arguments. -/
structure PP where
  key : Text
  args : List Text

def kw (s : String) : Text := s.toList

/-! ### Numbers -/

/-- The digits of `atoi`, up to the first other character. -/
def atoiLoop : Nat → Text → Nat
  | n, [] => n
  | n, c :: s => if c.isDigit then atoiLoop (10 * n + (c.toNat - 48)) s else n

/-- `atoi`: blanks, a sign, digits; 0 if there are none. -/
def atoi (s : Text) : Int :=
  match s.dropWhile Char.isWhitespace with
  | [] => 0
  | c :: t =>
    if c = '-' then -(atoiLoop 0 t : Int) else if c = '+' then (atoiLoop 0 t : Int) else (atoiLoop 0 (c :: t) : Int)

/-- Conversion of an `int` to `unsigned`. -/
def toUnsigned (i : Int) : Nat := (i % 2 ^ 32).toNat

def atou (s : Text) : Nat := toUnsigned (atoi s)

/-! ### Selection -/

/-- The selectors that can be built. -/
inductive Sel where
  | det (tSize : Nat)
  | sharing (niche : ℚ)
  | stoch (rate : ℚ)
  | ranking (pressure exponent : ℚ)
  | sequential (ordered : Bool)
  | elite
  | roulette
  | random
  deriving DecidableEq

/-- Arguments of `Ranking` (make_algo_scalar.h 144-180). -/
def rankingArgs (atof : Text → ℚ) (args : List Text) : ℚ × ℚ × List Text :=
  let r : ℚ × ℚ × List Text :=
    match args with
    | [a, b] => (atof a, atof b, [a, b])
    | [a] => (atof a, 1, [a, kw "1"])
    | _ => (2, 1, [kw "2", kw "1"])
  let r := if r.1 ≤ 1 ∨ 2 < r.1 then (2, r.2.1, r.2.2.set 0 (kw "2")) else r
  if r.2.1 ≤ 0 then (r.1, 1, r.2.2.set 1 (kw "1")) else r

/-- `if (!pp.second.size()) { x = dflt; push_back(text) } else x = conv(pp.second[0])`. -/
def arg1 {β : Type} (conv : Text → β) (dflt : β) (text : Text) (args : List Text) : β × List Text :=
  match args with
  | [] => (dflt, [text])
  | a :: l => (conv a, a :: l)

/-- make_algo_scalar.h 91-210: the selector and the arguments of the parameter afterwards.  The constructor of the
tournament replaces sizes below 2 by 2 (eoDetTournamentSelect.h 54-57).  `dist`: whether a distance was given. -/
def makeSelect (atof : Text → ℚ) (dist : Bool) (pp : PP) : Except Err (Sel × List Text) :=
  if pp.key = kw "DetTour" then
    let r := arg1 atou 2 (kw "2") pp.args
    .ok (.det (max r.1 2), r.2)
  else if pp.key = kw "Sharing" then
    let r := arg1 atof (1 / 2) (kw "0.5") pp.args
    if dist then .ok (.sharing r.1, r.2) else .error .thrown
  else if pp.key = kw "StochTour" then
    let r := arg1 atof 1 (kw "1") pp.args
    .ok (.stoch r.1, r.2)
  else if pp.key = kw "Ranking" then
    let r := rankingArgs atof pp.args
    .ok (.ranking r.1 r.2.1, r.2.2)
  else if pp.key = kw "Sequential" then
    let r := arg1 (fun a => !decide (a = kw "unordered")) true (kw "ordered") pp.args
    .ok (.sequential r.1, r.2)
  else if pp.key = kw "Roulette" then .ok (.roulette, pp.args)
  else if pp.key = kw "Random" then .ok (.random, pp.args)
  else .error .thrown

/-! ### Replacement -/

/-- The replacements that can be built. -/
inductive Repl where
  | comma
  | plus
  | ep (tSize : Nat)
  | ssgaWorst
  | ssgaDet (tSize : Nat)
  | ssgaStoch (rate : ℚ)
  | weak (r : Repl)
  deriving DecidableEq

/-- The parameter of a replacement (make_algo_scalar.h 235-243, 255-263, 270-278): the default if the replacement has
no argument, otherwise the first argument *of the selection* is converted; the vector may be empty. -/
def replArg {β : Type} (conv : Text → β) (dflt : β) (selArgs args : List Text) : Except Err β :=
  match args with
  | [] => .ok dflt
  | _ :: _ =>
    match selArgs with
    | [] => .error .ub
    | a :: _ => .ok (conv a)

/-- make_algo_scalar.h 220-297; `selArgs`: the arguments of the selection. -/
def makeReplace (atof : Text → ℚ) (selArgs : List Text) (pp : PP) (weakElitism : Bool) : Except Err Repl :=
  let r : Except Err Repl :=
    if pp.key = kw "Comma" then .ok .comma
    else if pp.key = kw "Plus" then .ok .plus
    else if pp.key = kw "EPTour" then (replArg atou 6 selArgs pp.args).map .ep
    else if pp.key = kw "SSGAWorst" then .ok .ssgaWorst
    else if pp.key = kw "SSGADet" then (replArg atou 2 selArgs pp.args).map .ssgaDet
    else if pp.key = kw "SSGAStoch" then (replArg atof 1 selArgs pp.args).map .ssgaStoch
    else .error .thrown
  r.map fun x => if weakElitism then .weak x else x

/-- do_make_algo_scalar (85-309): what the algorithm is made of. -/
def makeAlgo (atof : Text → ℚ) (dist : Bool) (sel repl : PP) (weakElitism : Bool) : Except Err (Sel × Repl) :=
  match makeSelect atof dist sel with
  | .error e => .error e
  | .ok (s, args) =>
    match makeReplace atof args repl weakElitism with
    | .error e => .error e
    | .ok r => .ok (s, r)

/-- What the library functions and the random draws of the replacements are. -/
structure Env (α F : Type) [LinearOrder F] where
  f : α → F
  nth : Nat → List α → List α
  nthEP : Nat → List (Nat × α) → List (Nat × α)
  sort : List α → List α
  shuffle : List α → List α
  r : Nat → Nat
  flip : Nat → Bool
  fuel : Nat

variable {α F : Type} [LinearOrder F]

/-- The replacement described. -/
def Repl.run (E : Env α F) : Repl → Replacement α
  | .comma => commaReplacement E.nth E.sort
  | .plus => plusReplacement E.sort
  | .ep n => epReplacement E.f n E.r E.nthEP
  | .ssgaWorst => ssgaWorse E.f
  | .ssgaDet n => EO.ssgaDet E.f n E.r E.fuel
  | .ssgaStoch _ => EO.ssgaStoch E.f E.r E.flip
  | .weak r => weakElitist E.f (r.run E)

/-! ### General replacement -/

/-- The reducers that can be built. -/
inductive Reduce where
  | truncate
  | ep (tSize : Nat)
  | det (tSize : Nat)
  | stoch (rate : ℚ)
  | random
  deriving DecidableEq

/-- decode_reduce (make_general_replacement.h 46-118). -/
def decodeReduce (atof : Text → ℚ) (pp : PP) : Except Err Reduce :=
  if pp.key = kw "Deterministic" ∨ pp.key = kw "Sequential" then .ok .truncate
  else if pp.key = kw "EP" then .ok (.ep (arg1 atou 6 (kw "6") pp.args).1)
  else if pp.key = kw "DetTour" then .ok (.det (arg1 atou 2 (kw "2") pp.args).1)
  else if pp.key = kw "StochTour" then
    match pp.args with
    | [] => .ok (.stoch 1)
    | a :: _ => if atof a ≤ 1 / 2 ∨ 1 < atof a then .error .thrown else .ok (.stoch (atof a))
  else if pp.key = kw "Uniform" ∨ pp.key = kw "Random" then .ok .random
  else .error .thrown

def Reduce.run (E : Env α F) : Reduce → Reducer α
  | .truncate => EO.truncate E.sort
  | .ep n => epReduce E.f n E.r E.nthEP
  | .det n => detTruncate E.f n E.r E.fuel
  | .stoch _ => stochTruncate E.f E.r E.flip
  | .random => randomReduce E.shuffle

/-- The parameters of a general replacement (make_general_replacement.h 138-147). -/
structure General where
  elite : HowMany
  strong : Bool
  parents : HowMany
  redParents : Reduce
  offspring : HowMany
  redOffspring : Reduce
  redFinal : Reduce

/-- make_general_replacement (137-182), the values of its parameters being those given (not changed by the user). -/
def General.run (E : Env α F) (g : General) : Replacement α :=
  reduceMergeReduce E.f E.nth E.sort g.elite g.strong g.parents g.offspring (g.redParents.run E)
    (g.redOffspring.run E) (g.redFinal.run E)

/-- The general preset (make_algo_easea.h 272-278): nobody of the parents survives, all of the offspring do. -/
def General.preset : General where
  elite := ⟨0, 0⟩
  strong := false
  parents := ⟨0, 0⟩
  redParents := .truncate
  offspring := ⟨1, 0⟩
  redOffspring := .truncate
  redFinal := .truncate

/-- make_algo_easea.h 284-345; the reducer of the parents of `SSGA(t)` is built from a text that is parsed again, here
from its keyword and argument. -/
def easeaReplace (atof : Text → ℚ) (pp : PP) : Except Err General :=
  if pp.key = kw "General" ∨ pp.key = kw "ESComma" ∨ pp.key = kw "Generational" then .ok .preset
  else if pp.key = kw "ESPlus" then .ok { General.preset with parents := ⟨1, 0⟩ }
  else if pp.key = kw "EP" then
    match decodeReduce atof ⟨kw "EP", (arg1 id (kw "6") (kw "6") pp.args).2⟩ with
    | .error e => .error e
    | .ok red => .ok { General.preset with parents := ⟨1, 0⟩, redFinal := red }
  else if pp.key = kw "SSGA" then
    let red : PP :=
      match pp.args with
      | [] => ⟨kw "DetTour", [kw "2"]⟩
      | a :: _ => if 2 ≤ atof a then ⟨kw "DetTour", [a]⟩ else ⟨kw "StochTour", [a]⟩
    match decodeReduce atof red with
    | .error e => .error e
    | .ok red => .ok { General.preset with parents := ⟨0, -1⟩, redParents := red, offspring := ⟨0, 1⟩ }
  else .error .thrown

/-! ### Stopping -/

/-- The values of the stopping parameters (make_continue.h 80-149); `none`: not given on the command line. -/
structure StopArgs (F : Type) where
  maxGen : Nat
  steadyGen : Option Nat
  minGen : Nat
  maxEval : Nat
  target : Option F
  ctrlC : Bool

/-- A criterion. -/
inductive Crit (F : Type) where
  | gen (n : Nat)
  | steady (minGen steadyGen : Nat)
  | evals (n : Nat)
  | target (t : F)
  | signal

/-- The criteria put into the combined continuator, in order (make_continue.h 82-154). -/
def criteria {F : Type} (a : StopArgs F) : List (Crit F) :=
  (if a.maxGen ≠ 0 then [.gen a.maxGen] else []) ++
  (match a.steadyGen with | some n => [.steady a.minGen n] | none => []) ++
  (if a.maxEval ≠ 0 then [.evals a.maxEval] else []) ++
  (match a.target with | some t => [.target t] | none => []) ++
  (if a.ctrlC then [.signal] else [])

/-- do_make_continue (make_continue.h 70-165). -/
def makeContinue {F : Type} (a : StopArgs F) : Except Err (List (Crit F)) :=
  match criteria a with
  | [] => .error .thrown
  | c :: cs => .ok (c :: cs)

/-- The members of a criterion: a counter or the state of eoSteadyFitContinue. -/
inductive CritSt (F : Type) where
  | count (n : Nat)
  | steady (s : Run.Steady F)

def Crit.init {F : Type} : Crit F → CritSt F
  | .steady _ _ => .steady Run.Steady.new
  | _ => .count 0

def liftCount {F : Type} (x : Except Err (Bool × Nat)) : Except Err (Bool × CritSt F) := x.map fun p => (p.1, .count p.2)

def liftUnit {F : Type} (n : Nat) (x : Except Err (Bool × Unit)) : Except Err (Bool × CritSt F) :=
  x.map fun p => (p.1, .count n)

/-- The continuator of a criterion.  `sig n`: whether a signal has arrived before the call number `n` (from 0) of the
one that looks at it (eoCtrlCContinue.h 73-79). -/
def Crit.cont (f : α → F) (sig : Nat → Bool) : Crit F → Run.Cont (CritSt F) α
  | .gen n => fun s ev pop => match s with | .count k => liftCount (Run.genCont n k ev pop) | _ => .error .ub
  | .steady m n => fun s ev pop =>
    match s with
    | .steady t => (Run.steadyCont f m n t ev pop).map fun p => (p.1, .steady p.2)
    | _ => .error .ub
  | .evals n => fun s ev pop => match s with | .count k => liftUnit k (Run.evalCont n () ev pop) | _ => .error .ub
  | .target t => fun s ev pop => match s with | .count k => liftUnit k (Run.fitCont f t () ev pop) | _ => .error .ub
  | .signal => fun s _ _ => match s with | .count k => .ok (!sig k, .count (k + 1)) | _ => .error .ub

/-! ### The initial population -/

/-- An individual as far as this matters: its genome and its fitness, `none` if invalid. -/
structure Ind (G F : Type) where
  genome : G
  fit : Option F
  deriving DecidableEq

/-- What stays of the population read from the file (make_pop.h 84-95). -/
def keptOf {G F : Type} (popSize : Nat) (loaded : Option (List (Ind G F))) (recompute : Bool) : List (Ind G F) :=
  match loaded with
  | none => []
  | some l => (if recompute then l.map fun x => { x with fit := none } else l).take popSize

/-- make_pop.h 82-106 after the file, if any, has been read: `loaded` is the population read.  `fresh i` is what the
initializer makes of the individual number `i`. -/
def makePop {G F : Type} (popSize : Nat) (loaded : Option (List (Ind G F))) (recompute : Bool) (fresh : Nat → Ind G F) :
    List (Ind G F) :=
  let pop := keptOf popSize loaded recompute
  pop ++ (List.range' pop.length (popSize - pop.length)).map fresh

/-- What make_pop.h 72-100 leaves of population and generator: with a name of a file the objects are read from it
(`text` is its contents), otherwise the generator is seeded. -/
def readBack {O : Type} (T : State.Tags) (rd : State.Text → O → O) (pop rng seeded : State.Text × O)
    (file : Option State.Text) : Except Err (O × O) :=
  match file with
  | none => .ok (pop.2, seeded.2)
  | some text =>
    match State.load T rd [pop, rng] text with
    | .done [p, r] => .ok (p.2, r.2)
    | _ => .error .thrown

/-! ### Variation operators -/

/-- The parameters of ga/make_op.h. -/
structure GaArgs where
  operator : Text
  pCross : ℚ
  pMut : ℚ
  onePoint : ℚ
  twoPoints : ℚ
  uniform : ℚ
  pMutPerBit : ℚ
  bitFlip : ℚ
  oneBit : ℚ
  kBit : Nat
  kBitRate : ℚ

/-- The crossovers and mutations of bit strings. -/
inductive GaCross where
  | onePoint | uniform | nPoints
  deriving DecidableEq
inductive GaMut where
  | bitFlip (p : ℚ) | det (k : Nat)
  deriving DecidableEq

/-- What is built (ga/make_op.h 215-229): a crossover with probability `pCross`, else copies; then a mutation with
probability `pMut`. -/
structure GaOp where
  cross : Init.Combined GaCross ℚ
  pCross : ℚ
  mutation : Init.Combined GaMut ℚ
  pMut : ℚ

/-- do_make_op (ga/make_op.h 71-230). -/
def makeGaOp (a : GaArgs) : Except Err GaOp :=
  if a.operator ≠ kw "SGA" then .error .thrown
  else if a.pCross < 0 ∨ 1 < a.pCross then .error .thrown
  else if a.pMut < 0 ∨ 1 < a.pMut then .error .thrown
  else if a.onePoint < 0 then .error .thrown
  else if a.twoPoints < 0 then .error .thrown
  else if a.uniform < 0 then .error .thrown
  else if a.pMutPerBit < 0 ∨ 1 / 2 < a.pMutPerBit then .error .thrown
  else if a.bitFlip < 0 then .error .thrown
  else if a.oneBit < 0 then .error .thrown
  else if a.kBit = 0 then .error .thrown
  else if a.kBitRate < 0 then .error .thrown
  else
    .ok ⟨.build (.onePoint, a.onePoint) [(.uniform, a.uniform), (.nPoints, a.twoPoints)], a.pCross,
      .build (.bitFlip a.pMutPerBit, a.bitFlip) [(.det 1, a.oneBit), (.det a.kBit, a.kBitRate)], a.pMut⟩

/-- The parameters of es/make_op.h. -/
structure EsArgs where
  operator : Text
  pCross : ℚ
  pMut : ℚ
  segment : ℚ
  arithmetic : ℚ
  epsilon : ℚ
  uniformMut : ℚ
  detMut : ℚ
  normalMut : ℚ
  sigma : ℚ

inductive EsCross where
  | segment | arithmetic
  deriving DecidableEq
inductive EsMut where
  | uniform (eps : ℚ) | det (eps : ℚ) | normal (sigma : ℚ)
  deriving DecidableEq

structure EsOp where
  cross : Init.Combined EsCross ℚ
  pCross : ℚ
  mutation : Init.Combined EsMut ℚ
  pMut : ℚ

/-- A pointer that is only set if the rates do not sum to zero is dereferenced all the same (es/make_op.h 282-293). -/
def deref {β : Type} (on : Bool) (x : β) : Except Err β := if on then .ok x else .error .ub

/-- do_make_op (es/make_op.h 70-297; eo/src/do/make_op_real.h is the same but for the parameters' names). -/
def makeEsOp (a : EsArgs) : Except Err EsOp :=
  if a.operator ≠ kw "SGA" then .error .thrown
  else if a.pCross < 0 ∨ 1 < a.pCross then .error .thrown
  else if a.pMut < 0 ∨ 1 < a.pMut then .error .thrown
  else if a.segment < 0 then .error .thrown
  else if a.arithmetic < 0 then .error .thrown
  else if a.epsilon < 0 then .error .thrown
  else if a.uniformMut < 0 then .error .thrown
  else if a.detMut < 0 then .error .thrown
  else if a.normalMut < 0 then .error .thrown
  else if a.sigma < 0 then .error .thrown
  else
    let bCross := !decide (a.segment + a.arithmetic = 0)
    let bMut := !decide (a.uniformMut + a.detMut + a.normalMut = 0)
    if !bCross && !bMut then .error .thrown
    else
      match deref bCross (Init.Combined.build (.segment, a.segment) [(EsCross.arithmetic, a.arithmetic)]) with
      | .error e => .error e
      | .ok c =>
        match deref bMut (Init.Combined.build (.uniform a.epsilon, a.uniformMut)
            [(EsMut.det a.epsilon, a.detMut), (EsMut.normal a.sigma, a.normalMut)]) with
        | .error e => .error e
        | .ok m => .ok ⟨c, a.pCross, m, a.pMut⟩

/-! ### Sharing in multi-objective algorithms -/

/-- The niche size of the diversity `Sharing(x)` (make_ea_moeo.h 152-163): by default 0.5, otherwise the argument is
converted by `atoi`. -/
def moeoNiche (pp : PP) : ℚ :=
  match pp.args with
  | [] => 1 / 2
  | a :: _ => (atoi a : ℚ)

end Paradiseo.Factory
