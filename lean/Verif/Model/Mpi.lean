import Mathlib.Data.Finset.Card
import Mathlib.Logic.Function.Basic
import Mathlib.Algebra.BigOperators.Group.Finset.Basic

/-!
# eo/src/mpi: jobs distributed over workers, and the parallel application of a function

Model of eo/src/mpi/eoMpi.h (Job::master, Job::worker, FinallyBlock), eoParallelApply.h and
eoMpiAssignmentAlgorithm.cpp.

Master and workers are processes that communicate by messages; between two of them, messages of one
kind arrive in the order in which they were sent.  The order `Continue`, the size and the data of a task
are one message here.  `probe(any_source)` may answer with any worker that has sent something.

Simplifications: ranks and indices are unbounded integers; one job is run; exceptions in the user's
functions are not modelled.
-/

namespace Paradiseo.Mpi

/-! ## Assignment algorithms -/

/-- The interface of AssignmentAlgorithm (eoMpiAssignmentAlgorithm.h 48-95). -/
structure Assign (σ : Type) where
  get : σ → Int × σ
  availableWorkers : σ → Nat
  confirm : σ → Nat → σ
  idles : σ → List Nat

/-- DynamicAssignmentAlgorithm (eoMpiAssignmentAlgorithm.cpp 66-96); the state is `availableWrk`. -/
def dynamic : Assign (List Nat) where
  get l := match l.getLast? with
    | some r => ((r : Int), l.dropLast)
    | none => (-1, l)
  availableWorkers l := l.length
  confirm l rank := l ++ [rank]
  idles l := l

/-- The state of StaticAssignmentAlgorithm (eoMpiAssignmentAlgorithm.h 231-235); the vectors
`attributions`, `realRank` and `busy` have one entry for each worker. -/
structure Static where
  slots : List (Int × Nat × Bool)
  freeWorkers : Nat

/-- StaticAssignmentAlgorithm::init (eoMpiAssignmentAlgorithm.cpp 141-166) with a positive number of
runs.  The code fills `attributions` by writing to the reserved memory of an empty vector, which is
undefined if taken literally; here the entries are simply there.  With no workers it divides by 0. -/
def Static.init (workers : List Nat) (runs : Nat) : Option Static :=
  if workers.length = 0 then none
  else some
    { slots := workers.zipIdx.map fun (r, i) =>
        (((runs / workers.length : Nat) : Int) +
          (if i < runs - (runs / workers.length) * workers.length then 1 else 0), r, false)
      freeWorkers := workers.length }

/-- The loop of StaticAssignmentAlgorithm::get (eoMpiAssignmentAlgorithm.cpp 171-180). -/
def staticGet : List (Int × Nat × Bool) → Option (Nat × List (Int × Nat × Bool))
  | [] => none
  | (a, r, b) :: l =>
    if b = false ∧ a > 0 then some (r, (a, r, true) :: l)
    else match staticGet l with
      | none => none
      | some (r', l') => some (r', (a, r, b) :: l')

/-- StaticAssignmentAlgorithm::confirm (eoMpiAssignmentAlgorithm.cpp 202-217): the first slot with this
rank. -/
def staticConfirm (rank : Nat) : List (Int × Nat × Bool) → List (Int × Nat × Bool)
  | [] => []
  | (a, r, b) :: l =>
    if r = rank then (a - 1, r, false) :: l else (a, r, b) :: staticConfirm rank l

/-- StaticAssignmentAlgorithm (eoMpiAssignmentAlgorithm.cpp 168-217). -/
def static : Assign Static where
  get s := match staticGet s.slots with
    | some (r, l) => ((r : Int), ⟨l, s.freeWorkers - 1⟩)
    | none => (-1, s)
  availableWorkers s := s.freeWorkers
  confirm s rank := ⟨staticConfirm rank s.slots, s.freeWorkers + 1⟩
  idles s := (s.slots.filter fun p => !p.2.2).map fun p => p.2.1

/-! ## The job -/

/-- Where the master is. -/
inductive MPhase where
  | check   -- `while( ! isFinished() )` (eoMpi.h 709)
  | wait    -- `while( assignee <= 0 )` (713)
  | fin     -- FinallyBlock, after having freed the idle workers (671)
  | done
deriving DecidableEq, Repr

/-- Master, workers and the messages under way.  `calls` only records to which places of the table the
function was applied; the first component of a task is there for this record. -/
structure MSt (α σ : Type) where
  phase : MPhase
  alg : σ
  index : Nat
  table : List α
  assigned : Nat → Nat × Nat
  inbox : Nat → List (Nat × List α)    -- tasks sent to a worker and not yet taken
  outbox : Nat → List (List α)         -- answers of a worker not yet received
  finishes : Nat → Nat                 -- orders `Finish` sent
  calls : List Nat

/-- SendTaskParallelApply (eoParallelApply.h 163-185) after the order `Continue` (eoMpi.h 731-732). -/
def MSt.send {α σ : Type} (packetSize : Nat) (s : MSt α σ) (w : Nat) : MSt α σ :=
  let futureIndex := if s.index + packetSize < s.table.length then s.index + packetSize
    else s.table.length
  { s with
    phase := .check
    inbox := Function.update s.inbox w
      (s.inbox w ++ [(s.index, (s.table.drop s.index).take (futureIndex - s.index))])
    assigned := Function.update s.assigned w (s.index, futureIndex - s.index)
    index := futureIndex }

/-- `assignee = assignmentAlgo.get()` and what follows (eoMpi.h 712-713, 724-732). -/
def MSt.assign {α σ : Type} (A : Assign σ) (packetSize : Nat) (s : MSt α σ) : MSt α σ :=
  if (A.get s.alg).1 ≤ 0 then { s with alg := (A.get s.alg).2, phase := .wait }
  else ({ s with alg := (A.get s.alg).2 } : MSt α σ).send packetSize (A.get s.alg).1.toNat

/-- Receiving into the table from `index` on. -/
def writeAt {α : Type} (table : List α) (index : Nat) (l : List α) : List α :=
  table.take index ++ l ++ table.drop (index + l.length)

/-- HandleResponseParallelApply (eoParallelApply.h 204-207) and `confirm` (eoMpi.h 722-723, 675-677). -/
def MSt.handle {α σ : Type} (A : Assign σ) (s : MSt α σ) (w : Nat) (l : List α)
    (rest : List (List α)) : MSt α σ :=
  { s with
    table := writeAt s.table (s.assigned w).1 l
    outbox := Function.update s.outbox w rest
    alg := A.confirm s.alg w }

/-- One step of the master or of a worker; `total` is the number of workers when the job starts. -/
inductive MStep {α σ : Type} (A : Assign σ) (packetSize : Nat) (f : α → α) (total : Nat) :
    MSt α σ → MSt α σ → Prop where
  /-- eoMpi.h 709-713 -/
  | next (s : MSt α σ) (hp : s.phase = .check) (h : s.index ≠ s.table.length) :
      MStep A packetSize f total s (s.assign A packetSize)
  /-- eoMpi.h 717-724 -/
  | response (s : MSt α σ) (w : Nat) (l : List α) (rest : List (List α)) (hp : s.phase = .wait)
      (h : s.outbox w = l :: rest) :
      MStep A packetSize f total s ((s.handle A w l rest).assign A packetSize)
  /-- FinallyBlock frees the idle workers (eoMpi.h 660-664) -/
  | finish (s : MSt α σ) (hp : s.phase = .check) (h : s.index = s.table.length) :
      MStep A packetSize f total s
        { s with phase := .fin, finishes := fun w => s.finishes w + (A.idles s.alg).count w }
  /-- FinallyBlock waits for the others (eoMpi.h 671-678) -/
  | last (s : MSt α σ) (w : Nat) (l : List α) (rest : List (List α)) (hp : s.phase = .fin)
      (ht : A.availableWorkers s.alg ≠ total) (h : s.outbox w = l :: rest) :
      MStep A packetSize f total s
        { s.handle A w l rest with finishes := Function.update s.finishes w (s.finishes w + 1) }
  | leave (s : MSt α σ) (hp : s.phase = .fin) (ht : A.availableWorkers s.alg = total) :
      MStep A packetSize f total s { s with phase := .done }
  /-- ProcessTaskParallelApply (eoParallelApply.h 229-243) in Job::worker (eoMpi.h 757-774) -/
  | work (s : MSt α σ) (w i : Nat) (l : List α) (rest : List (Nat × List α))
      (h : s.inbox w = (i, l) :: rest) :
      MStep A packetSize f total s
        { s with
          inbox := Function.update s.inbox w rest
          outbox := Function.update s.outbox w (s.outbox w ++ [l.map f])
          calls := s.calls ++ List.range' i l.length }

/-- The start of a job on a table (eoMpi.h 704-709, eoParallelApply.h 117-123). -/
def MSt.start {α σ : Type} (alg : σ) (table : List α) : MSt α σ where
  phase := .check
  alg := alg
  index := 0
  table := table
  assigned := fun _ => (0, 0)
  inbox := fun _ => []
  outbox := fun _ => []
  finishes := fun _ => 0
  calls := []

/-- The states reached after `k` steps of some execution. -/
inductive MReach {α σ : Type} (A : Assign σ) (packetSize : Nat) (f : α → α) (total : Nat)
    (s₀ : MSt α σ) : Nat → MSt α σ → Prop where
  | init : MReach A packetSize f total s₀ 0 s₀
  | step (k : Nat) (s s' : MSt α σ) (h : MReach A packetSize f total s₀ k s)
      (hs : MStep A packetSize f total s s') : MReach A packetSize f total s₀ (k + 1) s'

end Paradiseo.Mpi
