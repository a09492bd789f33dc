import Mathlib.Logic.Function.Basic
import Mathlib.Algebra.BigOperators.Group.Finset.Basic
/-
smp: a homogeneous island model (smp/src/islandModelWrapper.h 58-84) of an algorithm whose loop is
`do generation while continuator(pop)` (eo/src/eoEasyEA.h 262-290).

The wrapper hands the same arguments to all islands (islandModelWrapper.h 72), by reference (smp/src/island.h 88-89): each island
has a checkpoint of its own (smp/src/contWrapper.cpp 31-36), but all checkpoints ask the one continuator of the user, here an
eoGenContinue (eo/src/eoGenContinue.h 60-71), and all islands the one migration policy, here one element with an
eoPeriodicContinue (eo/src/eoPeriodicContinue.h 42-45).

Threads are modelled by any interleaving of the two actions of an island below. In the code the counters are plain numbers
changed without a lock; here every change of a counter is atomic. Counters do not overflow.
-/
namespace Paradiseo.Smp

/-- `counter`: thisGeneration of the continuator; `pcount`: counter of the migration criterion; for each island the number of
generations made, whether it is about to ask the continuator, and whether its loop is over; `sends`: which islands let a group
emigrate, in order. -/
structure ShSt where
  counter : Nat
  pcount : Nat
  gens : Nat → Nat
  ready : Nat → Bool
  stopped : Nat → Bool
  sends : List Nat

/-- The next action of island `i` (nothing if it has stopped): a generation followed by the notifier of its checkpoint, which
asks the migration criterion (smp/src/island.cpp 93-102); or the question to the continuator. -/
def act (n period i : Nat) (s : ShSt) : ShSt :=
  if s.stopped i then s
  else if s.ready i then
    { s with counter := s.counter + 1
             ready := Function.update s.ready i false
             stopped := Function.update s.stopped i (decide (s.counter + 1 ≥ n)) }
  else
    { s with gens := Function.update s.gens i (s.gens i + 1)
             pcount := s.pcount + 1
             ready := Function.update s.ready i true
             sends := if (s.pcount + 1) % period ≠ 0 then s.sends else s.sends ++ [i] }

/-- A run: which island acts when. -/
def runIslands (n period : Nat) (sched : List Nat) (s : ShSt) : ShSt := sched.foldl (fun s i => act n period i s) s

/-- Before the start; `c` is what the continuator has counted before. -/
def ShSt.start (c : Nat) : ShSt := ⟨c, 0, fun _ => 0, fun _ => false, fun _ => false, []⟩

end Paradiseo.Smp
