import Verif.Model.EOAlgo
import Mathlib.Algebra.Order.Floor.Ring
import Mathlib.Data.Rat.Floor

/-
Model of the automatically assembled algorithms of EO: eo/src/eoFastGA.h, eoAlgoFoundryFastGA.h,
eoEvalFoundryEA.h, eoForge.h, and of eoCellularEasyEA.h.

Simplifications:
* selectors, operators and coin flips are functions of the generation and of the number of the offspring;
* the number of offspring is a natural number (a `double` in eoFastGA.h:48);
* the debugging assertions (eoFastGA.h:82-85, 151, 160-163) are not modelled.
-/
namespace Paradiseo.Run

open Paradiseo.EO

variable {G F σ : Type}

/-- How a call can end otherwise than by returning: an error, or the exception of the evaluation limit
(`eoMaxEvalException`), with the number of evaluations made. -/
inductive Halt where
  | err (e : Err)
  | budget (evals : Nat)
  deriving DecidableEq, Repr

/-- The parts of eoFastGA (eoFastGA.h:34-48). `eval` is the population evaluator: from the count of
evaluations and a population, the new count, the population, and whether it threw. -/
structure FastGA (G F σ : Type) where
  crossFlip : Nat → Nat → Bool
  selCross : Nat → Nat → Nat → List (Ind G F) → Except Err (Ind G F)
  crossover : Nat → Nat → Ind G F → Ind G F → (Ind G F × Ind G F) × Bool
  selAfter : Nat → Nat → List (Ind G F) → Except Err (Ind G F)
  mutFlip : Nat → Nat → Bool
  selMut : Nat → Nat → List (Ind G F) → Except Err (Ind G F)
  mutation : Nat → Nat → Ind G F → Ind G F × Bool
  eval : Nat → List (Ind G F) → Nat × List (Ind G F) × Bool
  replace : Nat → Replacement (Ind G F)
  cont : Cont σ (Ind G F)

/-- A mutation followed by `invalidate` if it says so (eoFastGA.h:135-137, 145-147). -/
def FastGA.mutate [Inhabited F] (ga : FastGA G F σ) (g i : Nat) (x : Ind G F) : Ind G F :=
  let m := ga.mutation g i x
  if m.2 then m.1.invalidate else m.1

/-- Offspring number `i` (eoFastGA.h:97-150). -/
def FastGA.offspring [Inhabited F] (ga : FastGA G F σ) (g i c : Nat) (pop : List (Ind G F)) :
    Except Halt (Nat × Ind G F) :=
  if ga.crossFlip g i then
    match ga.selCross g i 0 pop, ga.selCross g i 1 pop with
    | .error e, _ => .error (.err e)
    | _, .error e => .error (.err e)
    | .ok sol1, .ok sol2 =>
      let r := ga.crossover g i sol1 sol2
      let crossed := if r.2 then [r.1.1.invalidate, r.1.2.invalidate] else [r.1.1, r.1.2]
      let ev := ga.eval c crossed
      if ev.2.2 then .error (.budget ev.1)
      else
        match ga.selAfter g i ev.2.1 with
        | .error e => .error (.err e)
        | .ok sol3 => .ok (ev.1, if ga.mutFlip g i then ga.mutate g i sol3 else sol3)
  else
    match ga.selMut g i pop with
    | .error e => .error (.err e)
    | .ok sol3 => .ok (c, ga.mutate g i sol3)

/-- The loop over the offspring (eoFastGA.h:97), `n` still to be made. -/
def FastGA.breed [Inhabited F] (ga : FastGA G F σ) (g : Nat) (pop : List (Ind G F)) :
    Nat → Nat → Nat → Except Halt (Nat × List (Ind G F))
  | 0, _, c => .ok (c, [])
  | n + 1, i, c =>
    match ga.offspring g i c pop with
    | .error h => .error h
    | .ok (c', x) =>
      match ga.breed g pop n (i + 1) c' with
      | .error h => .error h
      | .ok (c'', xs) => .ok (c'', x :: xs)

/-- The body of the do-while loop (eoFastGA.h:95-154). -/
def FastGA.generation [Inhabited F] (ga : FastGA G F σ) (lam g c : Nat) (pop : List (Ind G F)) :
    Except Halt (Nat × List (Ind G F)) :=
  match ga.breed g pop lam 0 c with
  | .error h => .error h
  | .ok (c', off) =>
    let ev := ga.eval c' off
    if ev.2.2 then .error (.budget ev.1)
    else
      match ga.replace g pop ev.2.1 with
      | .error e => .error (.err e)
      | .ok (pop', _) => .ok (ev.1, pop')

/-- What is left of a run: the population, the number of evaluations, the complete generations, and
whether the evaluation limit ended it. -/
structure FastRes (G F : Type) where
  pop : List (Ind G F)
  evals : Nat
  gens : Nat
  limited : Bool

/-- The do-while loop (eoFastGA.h:94-158) in the `try` block of the foundry (eoAlgoFoundryFastGA.h:178-189):
`pop` is changed only by the replacement, so an exception leaves it as the last complete generation did. -/
def FastGA.loop [Inhabited F] (ga : FastGA G F σ) (lam : Nat) :
    Nat → Nat → Nat → σ → List (Ind G F) → Except Err (FastRes G F)
  | 0, _, _, _, _ => .error .fuel
  | n + 1, g, c, s, pop =>
    match ga.generation lam g c pop with
    | .error (.err e) => .error e
    | .error (.budget c') => .ok ⟨pop, c', g, true⟩
    | .ok (c', pop') =>
      match ga.cont s c' pop' with
      | .error e => .error e
      | .ok (true, s') => ga.loop lam n (g + 1) c' s' pop'
      | .ok (false, _) => .ok ⟨pop', c', g + 1, false⟩

/-- The number of offspring used by a run, and kept for the next runs of the same object
(eoFastGA.h:89-92). -/
def offspringSize (stored popSize : Nat) : Nat := if stored = 0 then popSize else stored

/-- The evaluators: `eoPopLoopEval` over a counting evaluator, and over `eoEvalCounterThrowException` as made
by the foundry (eoAlgoFoundryFastGA.h:154-156). -/
def plainPopEval (f : G → F) : Nat → List (Ind G F) → Nat × List (Ind G F) × Bool :=
  fun c l => ((evalPop f c l).1, (evalPop f c l).2, false)

def limitedPopEval (f : G → F) (limit : Nat) : Nat → List (Ind G F) → Nat × List (Ind G F) × Bool :=
  evalThrowPop f limit

/-! ### Encoded algorithms -/

/-- `static_cast<size_t>(std::ceil(x))` (eoEvalFoundryEA.h:97-101); undefined when the value is negative. -/
def decodeIndex (x : ℚ) : Option Nat := if 0 ≤ ⌈x⌉ then some ⌈x⌉.toNat else none

/-- eoEvalFoundryEA::operator() (eoEvalFoundryEA.h:111-144) on the five genes in the order of the
foundry's indices, with the five numbers of operators; `run` gives the best fitness found by the
algorithm selected. The population is initialised and evaluated in any case. -/
def foundryFitness (sizes : List Nat) (run : List Nat → F) (penalty : F) (genes : List ℚ) : Except Err F :=
  match genes.mapM decodeIndex with
  | none => .error .ub
  | some config => .ok (if (List.zipWith (fun i n => decide (i < n)) config sizes).all id then run config else penalty)

/-! ### Forges -/

/-- One `eoForgeOperator` (eoForge.h:109-219): whether it was given no constructor arguments, the object
`_instantiated` and the object `_instantiated_ptr` (numbers of objects). -/
structure Forge where
  noArgs : Bool
  inst : Option Nat
  ptr : Option Nat
  deriving DecidableEq

/-- The forges of an `eoForgeVector` (eoForge.h:252-377), with the number of objects made so far and the
objects deleted. -/
structure Forges where
  ops : List Forge
  noCache : Bool
  made : Nat
  dead : List Nat
  deriving DecidableEq

/-- `add` (eoForge.h:319-336). -/
def Forges.add (s : Forges) (noArgs : Bool) : Forges := { s with ops := s.ops ++ [⟨noArgs, none, none⟩] }

/-- `instantiate(index)` (eoForge.h:300-303 with 129-138 and 192-201): the object returned. `at` throws
outside. -/
def Forges.instantiate (s : Forges) (i : Nat) : Except Err (Nat × Forges) :=
  match s.ops[i]? with
  | none => .error .thrown
  | some o =>
    match s.noCache, o.inst with
    | false, some k => .ok (k, s)
    | true, some k => .ok (s.made, { s with ops := s.ops.set i { o with inst := some s.made }, made := s.made + 1, dead := k :: s.dead })
    | _, none => .ok (s.made, { s with ops := s.ops.set i { o with inst := some s.made }, made := s.made + 1 })

/-- `instantiate_ptr(index)` (eoForge.h:305-308 with 140-150 and 203-209): `none` is the null pointer. The
object formerly shared dies when nobody else holds it, which is not recorded. -/
def Forges.instantiatePtr (s : Forges) (i : Nat) : Except Err (Option Nat × Forges) :=
  match s.ops[i]? with
  | none => .error .thrown
  | some o =>
    if s.noCache || o.inst.isNone then
      if o.noArgs then .ok (none, { s with ops := s.ops.set i { o with ptr := none } })
      else .ok (some s.made, { s with ops := s.ops.set i { o with ptr := some s.made }, made := s.made + 1 })
    else .ok (o.ptr, s)

/-- `setup(index, …)` (eoForge.h:347-366): the forge is replaced and its object deleted. -/
def Forges.setup (s : Forges) (i : Nat) (noArgs : Bool) : Except Err Forges :=
  match s.ops[i]? with
  | none => .error .thrown
  | some o => .ok { s with ops := s.ops.set i ⟨noArgs, none, none⟩,
                           dead := match o.inst with | some k => k :: s.dead | none => s.dead }

/-- `eoForgeScalar::instantiate` (eoForge.h:543-559) for a floating-point interface; `none` is not a number,
which no comparison holds of. -/
def scalarInstantiate (mn mx : ℚ) (value : Option ℚ) : Option ℚ :=
  match value with
  | none => none
  | some v => if ¬ (mn ≤ v ∧ v ≤ mx) then (if v < mn then some mn else if v > mx then some mx else some v) else some v

/-! ### Cellular algorithm -/

/-- The parts of eoCellularEasyEA (eoCellularEasyEA.h:66-84, the constructor with an eoQuadOp). Operators
are functions of generation and cell. -/
structure Cellular (G F : Type) where
  f : G → F
  neighbours : List (Ind G F) → Nat → List (Ind G F)
  selNeigh : Nat → Nat → List (Ind G F) → Except Err (Ind G F)
  cross : Nat → Nat → Ind G F → Ind G F → Ind G F × Ind G F
  mut1 : Nat → Nat → Ind G F → Ind G F
  mut2 : Nat → Nat → Ind G F → Ind G F
  selChild : Nat → Nat → List (Ind G F) → Except Err (Ind G F)
  selRepl : Nat → Nat → List (Ind G F) → Except Err (Ind G F)

/-- One cell (eoCellularEasyEA.h:97-128), `old` being its individual. -/
def Cellular.cell [Inhabited F] (a : Cellular G F) (g i : Nat) (pop : List (Ind G F)) (old : Ind G F) :
    Except Err (Ind G F) :=
  match a.selNeigh g i (a.neighbours pop i) with
  | .error e => .error e
  | .ok part =>
    let r := a.cross g i old part
    let x := evalFuncPtr a.f (a.mut1 g i r.1).invalidate
    let y := evalFuncPtr a.f (a.mut2 g i r.2).invalidate
    match a.selChild g i [x, y] with
    | .error e => .error e
    | .ok child => a.selRepl g i [child, old]

/-- The loop over the cells (eoCellularEasyEA.h:94-129), from cell `i` on, `n` cells. -/
def Cellular.sweep [Inhabited F] (a : Cellular G F) (g : Nat) :
    Nat → Nat → List (Ind G F) → Except Err (List (Ind G F))
  | 0, _, pop => .ok pop
  | n + 1, i, pop =>
    match pop[i]? with
    | none => .error .ub
    | some old =>
      match a.cell g i pop old with
      | .error e => .error e
      | .ok x => a.sweep g n (i + 1) (pop.set i x)

/-- The do-while loop (eoCellularEasyEA.h:92-131). -/
def Cellular.loop [Inhabited F] (a : Cellular G F) (cont : Cont σ (Ind G F)) :
    Nat → Nat → σ → List (Ind G F) → Except Err (List (Ind G F) × Nat)
  | 0, _, _, _ => .error .fuel
  | n + 1, g, s, pop =>
    match a.sweep g pop.length 0 pop with
    | .error e => .error e
    | .ok pop' =>
      match cont s (2 * pop.length * (g + 1)) pop' with
      | .error e => .error e
      | .ok (true, s') => a.loop cont n (g + 1) s' pop'
      | .ok (false, _) => .ok (pop', g + 1)

end Paradiseo.Run
