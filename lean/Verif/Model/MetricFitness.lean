import Verif.Model.EOReplacement
import Mathlib.Algebra.Order.Field.Rat
/-
Fitness from a metric of one objective vector: moeo/src/scalarStuffs/fitness/moeoMetricFitnessAssignment.h 69-138.

An individual is its genome, its objective vector (`none`: invalid) and its fitness; doubles are rationals, division by
zero gives an infinity.
-/
namespace Paradiseo.MetricFitness

open Paradiseo.EO

/-- A double that is not NaN: a number or an infinity (1/0; the zero of a metric is taken to be +0). -/
inductive Dbl where
  | fin (q : ℚ)
  | inf
  deriving DecidableEq

def Dbl.lt : Dbl → Dbl → Prop
  | .fin a, .fin b => a < b
  | .fin _, .inf => True
  | .inf, _ => False

structure Ind (G V : Type) where
  genome : G
  obj : Option V
  fit : Option Dbl

/-- The arguments of the constructors (69-70, 77-78): without an evaluator the one that does nothing is used and `negate`
is true; with one, `negate` is false. `none`: no evaluator given. -/
structure Cfg (G V : Type) where
  metric : V → ℚ
  eval : Option (G → V)
  negate : Bool

def Cfg.plain {G V : Type} (metric : V → ℚ) (negate : Bool := true) : Cfg G V := ⟨metric, none, negate⟩

def Cfg.withEval {G V : Type} (metric : V → ℚ) (eval : G → V) (negate : Bool := false) : Cfg G V := ⟨metric, some eval, negate⟩

/-- The value (95-99). -/
def Cfg.value {G V : Type} (c : Cfg G V) (v : V) : Dbl :=
  if c.negate then (if c.metric v = 0 then .inf else .fin (1 / c.metric v)) else .fin (c.metric v)

/-- operator()(MOEOT&) (84-88). Reading an invalid objective vector throws. -/
def Cfg.assign {G V : Type} (c : Cfg G V) (x : Ind G V) : Except Err (Ind G V) :=
  let x := if x.obj.isNone then (match c.eval with | some f => { x with obj := some (f x.genome) } | none => x) else x
  match x.obj with
  | none => .error .thrown
  | some v => .ok { x with fit := some (c.value v) }

/-- operator()(eoPop&) (106-112). -/
def Cfg.assignAll {G V : Type} (c : Cfg G V) : List (Ind G V) → Except Err (List (Ind G V))
  | [] => .ok []
  | x :: xs =>
    match c.assign x with
    | .error e => .error e
    | .ok y =>
      match c.assignAll xs with
      | .error e => .error e
      | .ok ys => .ok (y :: ys)

end Paradiseo.MetricFitness
