import Verif.Model.SmpScheduler
import Verif.Model.EOAlgo
import Verif.Model.PSO

/-!
# smp: master-worker algorithms

Model of smp/src/MWModel.cpp 30-72, smp/src/MWAlgo/eoEasyEA.cpp, eoEasyPSO.cpp, eoSyncEasyPSO.cpp and of the constructors
of eo/src/eoEasyEA.h 69-242 and eo/src/eoSyncEasyPSO.h 60-178 as far as they decide what the members `eval` and `popEval`
are.  The threads are those of `SmpScheduler`: what is left of them here is the order in which the individuals were
evaluated.

Not modelled: evaluators with a state that the threads share (counters), exceptions thrown in a thread, an overflow of
`unsigned pSize`.
-/

namespace Paradiseo.MW

open Paradiseo.EO Paradiseo.Run
open Paradiseo.Smp hiding Err

variable {G F σ : Type}

/-- The policies of the scheduler (policiesDispatching.h). -/
inductive Policy where
  | linear
  | progressive
deriving DecidableEq

/-- The orders in which a call of the scheduler with `w` workers can handle `n` individuals (scheduler.cpp 51-85 and
88-127). -/
def Allowed : Policy → Nat → Nat → List Nat → Prop
  | .linear, w, n, tr => ∃ ps, linearPackages w n = .ok ps ∧ Merge ps tr
  | .progressive, w, n, tr => ∃ s, PReach w n s ∧ s.Returned w ∧ s.trace = tr

/-- The evaluator given to the constructor of the algorithm: a function of one individual (eoEasyEA.h 69-103, 190-242), a
function of a population (eoEasyEA.h 154-187), or both (eoEasyEA.h 112-130). -/
inductive Evaluator (G F : Type) where
  | single (f : G → F)
  | population (f : List (Ind G F) → List (Ind G F))
  | both (f : G → F) (p : List (Ind G F) → List (Ind G F))

/-- The member `eval`: a dummy if only a population can be evaluated (eoEasyEA.h 160, 179, 313-319). -/
def Evaluator.eval : Evaluator G F → Ind G F → Ind G F
  | .single f => evalFuncPtr f
  | .population _ => id
  | .both f _ => evalFuncPtr f

/-- The member `popEval` called with an empty population of parents (eoEasyEA.h 77, 122, 162). -/
def Evaluator.popEval : Evaluator G F → List (Ind G F) → List (Ind G F)
  | .single f => List.map (evalFuncPtr f)
  | .population p => p
  | .both _ p => p

/-- The parts of the algorithm. -/
structure Alg (G F σ : Type) where
  evaluator : Evaluator G F
  breed : Nat → List (Ind G F) → Except Err (List (Ind G F))
  replace : Nat → Replacement (Ind G F)
  cont : Cont σ (Ind G F)

/-- The body of the loop (MWAlgo/eoEasyEA.cpp 23-34); `order` is the order in which the offspring were handled. -/
def Alg.generation (a : Alg G F σ) (order : Nat → List (Ind G F) → List Nat) (s : RunSt G F σ) :
    Except Err (RunSt G F σ) :=
  match a.breed s.gens s.pop with
  | .error e => .error e
  | .ok off =>
    match a.replace s.gens s.pop (applyTrace a.evaluator.eval off (order s.gens off)) with
    | .error e => .error e
    | .ok (pop', _) =>
      if s.pop.length > pop'.length then .error .thrown
      else if s.pop.length < pop'.length then .error .thrown
      else .ok ⟨pop', s.evals, s.cs, s.gens + 1,
        s.seen ++ [applyTrace a.evaluator.eval off (order s.gens off)]⟩

/-- The do-while loop (MWAlgo/eoEasyEA.cpp 19-44). -/
def Alg.loop (a : Alg G F σ) (order : Nat → List (Ind G F) → List Nat) :
    Nat → RunSt G F σ → Except Err (RunSt G F σ)
  | 0, _ => .error .fuel
  | n + 1, s =>
    match a.generation order s with
    | .error e => .error e
    | .ok s =>
      match a.cont s.cs s.evals s.pop with
      | .error e => .error e
      | .ok (true, cs) => a.loop order n { s with cs := cs }
      | .ok (false, cs) => .ok { s with cs := cs }

/-- operator() (MWAlgo/eoEasyEA.cpp 4-45) of a model made with `w` workers (MWModel.cpp 32-37: at least one is asserted). -/
def Alg.run (a : Alg G F σ) (w : Nat) (order : Nat → List (Ind G F) → List Nat) (fuel : Nat) (pop : List (Ind G F))
    (evals : Nat) (cs : σ) : Except Err (RunSt G F σ) :=
  if w = 0 then .error .asserted
  else a.loop order fuel ⟨a.evaluator.popEval pop, evals, cs, 0, []⟩

/-! ### Particle swarms -/

open Paradiseo.Pso in
/-- The calls of `eval` by the workers (MWAlgo/eoEasyPSO.cpp 21, MWAlgo/eoSyncEasyPSO.cpp 22); the swarm of eoSyncEasyPSO
may have been made with an evaluator of populations, its `eval` is a dummy then (eoSyncEasyPSO.h 104-117, 166-178). -/
def evalAll {F : Type} [LinearOrder F] (A : Algo F) (dummy : Bool) (order : List Nat) (s : Swarm F) : Swarm F :=
  if dummy then s else order.foldl A.evalOne s

open Paradiseo.Pso in
/-- One generation of MWModel<eoEasyPSO> (MWAlgo/eoEasyPSO.cpp 11-25). -/
def genEasyPso {F : Type} [LinearOrder F] (A : Algo F) (order : List Nat) (g : Nat) (s : Swarm F) : Option (Swarm F) :=
  let s1 := (List.range A.n).foldl (fun s i => A.flyOne g (A.veloOne g s i) i) s
  foldM? (updateNbh A.topo) (List.range A.n) (evalAll A false order s1)

open Paradiseo.Pso in
/-- One generation of MWModel<eoSyncEasyPSO> (MWAlgo/eoSyncEasyPSO.cpp 16-25). -/
def genSyncPso {F : Type} [LinearOrder F] (A : Algo F) (dummy : Bool) (order : List Nat) (g : Nat) (s : Swarm F) :
    Option (Swarm F) :=
  let s1 := (List.range A.n).foldl (A.veloOne g) s
  let s2 := (List.range A.n).foldl (A.flyOne g) s1
  foldM? (updateNbh A.topo) (List.range A.n) (evalAll A dummy order s2)

end Paradiseo.MW
