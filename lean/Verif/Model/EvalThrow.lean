import Verif.Model.EO
/-
Evaluators that throw: eo/src/eoEvalNanThrowException.h, eo/src/eoEvalUserTimeThrowException.h (the version for Unix),
applied to a population one individual after the other (eo/src/apply.h, without OpenMP).

The wrapped evaluator sets the fitness `f genome` and counts its calls. eoEvalTimeThrowException.h is not modelled: it
calls `func(eo)` without `this->`, which does not compile once the template is used.
-/
namespace Paradiseo.EO

variable {G F : Type}

/-- What the evaluation of an individual leaves: the individual, whether an exception was thrown, the number of calls of the
wrapped evaluator, and by how much `value()` of the counter was raised. -/
structure Evald (G F : Type) where
  ind : Ind G F
  thrown : Bool
  calls : Nat
  raised : Nat

/-- eoEvalNanThrowException::operator() (53-65); it is no counter. `fin` is `std::isfinite`. -/
def nanEval (fin : F → Bool) (f : G → F) (x : Ind G F) : Evald G F :=
  if x.invalid then
    let y := x.setFitness (f x.genome)
    ⟨y, !(fin y.repFitness), 1, 0⟩
  else ⟨x, false, 0, 0⟩

/-- eoEvalUserTimeThrowException::operator() (54-67), which overrides the operator of the counter it is derived from; `now` is
the user time that getrusage gives, in whole seconds. -/
def timeEval (max now : Int) (f : G → F) (x : Ind G F) : Evald G F :=
  if x.invalid then
    if now ≥ max then ⟨x, true, 0, 0⟩
    else ⟨x.setFitness (f x.genome), false, 1, 0⟩
  else ⟨x, false, 0, 0⟩

/-- eoEvalFuncCounter::operator() (eoEvalFuncCounter.h 46-54). -/
def countEval (f : G → F) (x : Ind G F) : Evald G F :=
  if x.invalid then ⟨x.setFitness (f x.genome), false, 1, 1⟩ else ⟨x, false, 0, 0⟩

/-- What `apply` (apply.h 48-100, in order) leaves of a population. `ev i` is the evaluation as it is at the `i`-th
individual. -/
structure Applied (G F : Type) where
  pop : List (Ind G F)
  thrown : Bool
  calls : Nat
  raised : Nat

def applyThrow : (Nat → Ind G F → Evald G F) → List (Ind G F) → Applied G F
  | _, [] => ⟨[], false, 0, 0⟩
  | ev, x :: l =>
    let e := ev 0 x
    if e.thrown then ⟨e.ind :: l, true, e.calls, e.raised⟩
    else
      let r := applyThrow (fun i => ev (i + 1)) l
      ⟨e.ind :: r.pop, r.thrown, e.calls + r.calls, e.raised + r.raised⟩

/-- The same evaluation applied again and again to what it left, the exceptions being caught in between. -/
def applyAgain (ev : Ind G F → Evald G F) : Nat → List (Ind G F) → List (Ind G F)
  | 0, pop => pop
  | k + 1, pop => applyAgain ev k (applyThrow (fun _ => ev) pop).pop

/-- eoEvalContinue::operator() (eoEvalContinue.h 47-56) on a counter whose `value()` is given. -/
def evalGoesOn (total value : Nat) : Bool := if value ≥ total then false else true

end Paradiseo.EO
