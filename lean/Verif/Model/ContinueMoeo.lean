import Verif.Model.EOAlgo
/-
The stopping criterion of the multi-objective programs: moeo/src/do/make_continue_moeo.h 75-129, with
eo/src/eoTimeContinue.h 47-67 (eoGenContinue, eoEvalContinue and eoCombinedContinue are in EOAlgo.lean,
eoCtrlCContinue.h 73-79).
-/
namespace Paradiseo.ContinueMoeo

open Paradiseo.EO Paradiseo.Run

/-- The values of the parameters (make_continue_moeo.h 82, 91, 100, 112), with their defaults. -/
structure Args where
  maxGen : Nat := 100
  maxEval : Nat := 0
  maxTime : Nat := 0
  ctrlC : Bool := true

inductive Crit where
  | gen (n : Nat)
  | evals (n : Nat)
  | time (n : Nat)
  | signal
  deriving DecidableEq

/-- The criteria in the order in which they are added (make_continue_moeo.h 83-121). -/
def criteria (a : Args) : List Crit :=
  (if a.maxGen ≠ 0 then [.gen a.maxGen] else []) ++
  (if a.maxEval ≠ 0 then [.evals a.maxEval] else []) ++
  (if a.maxTime ≠ 0 then [.time a.maxTime] else []) ++
  (if a.ctrlC then [.signal] else [])

/-- do_make_continue_moeo (make_continue_moeo.h 76-129). -/
def make (a : Args) : Except Err (List Crit) :=
  match criteria a with
  | [] => .error .thrown
  | c :: cs => .ok (c :: cs)

/-- The continuator of a criterion; the state is the number of its calls. `start` and `now k`: the clock, in seconds, when
the continuator is built and at its call number `k`; `sig k`: whether a signal has arrived before that call. -/
def Crit.cont {α : Type} (start : Nat) (now : Nat → Nat) (sig : Nat → Bool) : Crit → Cont Nat α
  | .gen n => genCont n
  | .evals n => fun k ev pop => (evalCont n () ev pop).map fun p => (p.1, k + 1)
  | .time n => fun k _ _ => .ok (!decide (now k - start ≥ n), k + 1)
  | .signal => fun k _ _ => .ok (!sig k, k + 1)

end Paradiseo.ContinueMoeo
