/-
Model of the evaluation of populations by worker processes over a whole run: eoParallelPopLoopEval
(eo/src/eoPopEvalFunc.h:112-219), its jobs ParallelApply (eo/src/mpi/eoParallelApply.h), which are of the kind MultiJob
(eo/src/mpi/eoMpi.h:850-861), and the EmptyJob that ends it (eo/src/mpi/eoTerminateJob.h:108-132).

Other than in Model/Mpi.lean, the orders of a worker are a queue that lives on from job to job: a worker of a MultiJob
ignores the order `Finish` at the end of every job and leaves at the order `Kill` only.

Simplifications: as in Model/Mpi.lean (the order `Continue`, size and data of a task are one message); sizes below 2^53, so
that `ceil` of the quotient is exact; the populations to be evaluated are known in advance (`todo`), as the evaluation
does not depend on where they come from.
-/
import Verif.Model.Mpi

namespace Paradiseo.Mpi

/-- An assignment algorithm with `reinit` (eoMpiAssignmentAlgorithm.h:88-95). -/
structure Pool (σ : Type) extends Assign σ where
  reinit : σ → Nat → σ

/-- DynamicAssignmentAlgorithm::reinit does nothing (eoMpiAssignmentAlgorithm.cpp:92-96). -/
def dynamicPool : Pool (List Nat) := { dynamic with reinit := fun s _ => s }

/-- StaticAssignmentAlgorithm::reinit (eoMpiAssignmentAlgorithm.cpp:219-222) with a positive number of runs. -/
def staticPool : Pool Static :=
  { static with reinit := fun s runs => (Static.init (s.slots.map fun x => x.2.1) runs).getD s }

/-- What the master sends to a worker (eoMpi.h: Message). -/
inductive Order (α : Type) where
  | cont (i : Nat) (l : List α)
  | finish
  | kill

/-- Between two evaluations, in one, or after the destructor. -/
inductive Mode where
  | idle
  | running
  | over
deriving DecidableEq

/-- Master, workers and the messages under way; the fields of a job are those of `MSt`.  `finishes`, `calls` and `kills`
record what happened, the first two in the present job. -/
structure SSt (α σ : Type) where
  mode : Mode
  phase : MPhase
  alg : σ
  index : Nat
  table : List α
  assigned : Nat → Nat × Nat
  queue : Nat → List (Order α)
  outbox : Nat → List (List α)
  finishes : Nat → Nat
  calls : List Nat
  packet : Nat
  total : Nat
  todo : List (List α)
  results : List (List α × List Nat)
  kills : Nat → Nat
  gone : Nat → Bool

variable {α σ : Type}

/-- Before the first evaluation (eoPopEvalFunc.h:128-141). -/
def SSt.start (alg : σ) (packetSize : Nat) (tables : List (List α)) : SSt α σ where
  mode := .idle
  phase := .done
  alg := alg
  index := 0
  table := []
  assigned := fun _ => (0, 0)
  queue := fun _ => []
  outbox := fun _ => []
  finishes := fun _ => 0
  calls := []
  packet := packetSize
  total := 0
  todo := tables
  results := []
  kills := fun _ => 0
  gone := fun _ => false

/-- `ceil( size / nbWorkers )` (eoPopEvalFunc.h:202). -/
def ceilDiv (size n : Nat) : Nat := (size + n - 1) / n

/-- `operator()` up to the loop of the master (eoPopEvalFunc.h:193-206, eoParallelApply.h:117-123, eoMpi.h:704);
`dyn` is eo::parallel.isDynamic(). -/
def SSt.begin (A : Pool σ) (dyn : Bool) (s : SSt α σ) (t : List α) (rest : List (List α)) : SSt α σ :=
  let nbWorkers := A.availableWorkers s.alg
  let alg := A.reinit s.alg nbWorkers
  { s with
    mode := .running
    phase := .check
    alg := alg
    index := 0
    table := t
    assigned := fun _ => (0, 0)
    finishes := fun _ => 0
    calls := []
    packet := if dyn then s.packet else ceilDiv t.length nbWorkers
    total := A.availableWorkers alg
    todo := rest }

/-- SendTaskParallelApply after the order `Continue`, as in `MSt.send`. -/
def SSt.send (s : SSt α σ) (w : Nat) : SSt α σ :=
  let futureIndex := if s.index + s.packet < s.table.length then s.index + s.packet else s.table.length
  { s with
    phase := .check
    queue := Function.update s.queue w
      (s.queue w ++ [.cont s.index ((s.table.drop s.index).take (futureIndex - s.index))])
    assigned := Function.update s.assigned w (s.index, futureIndex - s.index)
    index := futureIndex }

/-- `assignee = assignmentAlgo.get()` and what follows, as in `MSt.assign`. -/
def SSt.assign (A : Assign σ) (s : SSt α σ) : SSt α σ :=
  if (A.get s.alg).1 ≤ 0 then { s with alg := (A.get s.alg).2, phase := .wait }
  else ({ s with alg := (A.get s.alg).2 } : SSt α σ).send (A.get s.alg).1.toNat

/-- HandleResponseParallelApply and `confirm`, as in `MSt.handle`. -/
def SSt.handle (A : Assign σ) (s : SSt α σ) (w : Nat) (l : List α) (rest : List (List α)) : SSt α σ :=
  { s with
    table := writeAt s.table (s.assigned w).1 l
    outbox := Function.update s.outbox w rest
    alg := A.confirm s.alg w }

/-- One step of the master or of a worker. -/
inductive SStep (A : Pool σ) (dyn : Bool) (f : α → α) : SSt α σ → SSt α σ → Prop where
  | begin (s : SSt α σ) (t : List α) (rest : List (List α)) (hm : s.mode = .idle) (ht : s.todo = t :: rest) :
      SStep A dyn f s (s.begin A dyn t rest)
  /-- eoMpi.h:709-713 -/
  | next (s : SSt α σ) (hm : s.mode = .running) (hp : s.phase = .check) (h : s.index ≠ s.table.length) :
      SStep A dyn f s (s.assign A.toAssign)
  /-- eoMpi.h:717-724 -/
  | response (s : SSt α σ) (w : Nat) (l : List α) (rest : List (List α)) (hm : s.mode = .running) (hp : s.phase = .wait)
      (h : s.outbox w = l :: rest) : SStep A dyn f s ((s.handle A.toAssign w l rest).assign A.toAssign)
  /-- FinallyBlock frees the idle workers (eoMpi.h:660-664) -/
  | finish (s : SSt α σ) (hm : s.mode = .running) (hp : s.phase = .check) (h : s.index = s.table.length) :
      SStep A dyn f s
        { s with
          phase := .fin
          queue := fun w => s.queue w ++ List.replicate ((A.idles s.alg).count w) .finish
          finishes := fun w => s.finishes w + (A.idles s.alg).count w }
  /-- FinallyBlock waits for the others (eoMpi.h:671-678) -/
  | last (s : SSt α σ) (w : Nat) (l : List α) (rest : List (List α)) (hm : s.mode = .running) (hp : s.phase = .fin)
      (ht : A.availableWorkers s.alg ≠ s.total) (h : s.outbox w = l :: rest) :
      SStep A dyn f s
        { s.handle A.toAssign w l rest with
          queue := Function.update s.queue w (s.queue w ++ [.finish])
          finishes := Function.update s.finishes w (s.finishes w + 1) }
  /-- The job is over and `operator()` returns -/
  | leave (s : SSt α σ) (hm : s.mode = .running) (hp : s.phase = .fin) (ht : A.availableWorkers s.alg = s.total) :
      SStep A dyn f s { s with mode := .idle, phase := .done, results := s.results ++ [(s.table, s.calls)] }
  /-- The destructor of the evaluator (eoPopEvalFunc.h:171-185): the EmptyJob is finished at once, frees the idle workers
  and has nobody to wait for; its destructor kills the idle ones (eoTerminateJob.h:123-131) -/
  | stop (s : SSt α σ) (hm : s.mode = .idle) (ht : s.todo = []) :
      SStep A dyn f s
        { s with
          mode := .over
          queue := fun w => s.queue w ++ List.replicate ((A.idles s.alg).count w) .finish ++
            List.replicate ((A.idles s.alg).count w) .kill
          kills := fun w => s.kills w + (A.idles s.alg).count w }
  /-- ProcessTaskParallelApply (eoParallelApply.h:229-243) in Job::worker (eoMpi.h:765-769) -/
  | work (s : SSt α σ) (w i : Nat) (l : List α) (rest : List (Order α)) (hg : s.gone w = false)
      (h : s.queue w = .cont i l :: rest) :
      SStep A dyn f s
        { s with
          queue := Function.update s.queue w rest
          outbox := Function.update s.outbox w (s.outbox w ++ [l.map f])
          calls := s.calls ++ List.range' i l.length }
  /-- An order that is neither `Continue` nor the stop condition (eoMpi.h:757-774) -/
  | ignore (s : SSt α σ) (w : Nat) (rest : List (Order α)) (hg : s.gone w = false) (h : s.queue w = .finish :: rest) :
      SStep A dyn f s { s with queue := Function.update s.queue w rest }
  /-- The stop condition of a MultiJob (eoMpi.h:761-764, 857) -/
  | quit (s : SSt α σ) (w : Nat) (rest : List (Order α)) (hg : s.gone w = false) (h : s.queue w = .kill :: rest) :
      SStep A dyn f s { s with queue := Function.update s.queue w rest, gone := Function.update s.gone w true }

/-- The states reached after `k` steps of some execution. -/
inductive SReach (A : Pool σ) (dyn : Bool) (f : α → α) (s₀ : SSt α σ) : Nat → SSt α σ → Prop where
  | init : SReach A dyn f s₀ 0 s₀
  | step (k : Nat) (s s' : SSt α σ) (h : SReach A dyn f s₀ k s) (hs : SStep A dyn f s s') : SReach A dyn f s₀ (k + 1) s'

end Paradiseo.Mpi
