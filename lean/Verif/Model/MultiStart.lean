import Verif.Model.Mpi
import Verif.Model.Serial
import Verif.Model.Rng
/-
Restarts distributed over workers, and what travels between processes.

* eo/src/mpi/eoMultiStart.h 51-515 (the job, the seeds, the resets), on top of Job::master, Job::worker
  (eo/src/mpi/eoMpi.h 580-810)
* eo/src/mpi/implMpi.cpp 48-168, eo/src/mpi/implMpi.h 221-279 (communicator)

Master and workers as in Model/Mpi.lean.  A run of a worker is a function of the state of the worker (population,
generator, continuator, and whatever the algorithm holds).  The constructor of `ReuseOriginalPopEA` that takes an
evaluation of one individual cannot be instantiated (a reference to an evaluation of populations is bound to it).
-/
namespace Paradiseo.MultiStart

open Paradiseo.Mpi

/-- The job: MultiStartData (eoMultiStart.h 51-104), the workers and the messages under way.  A best individual is kept
together with the rank of the worker that sent it, and `given` records to whom runs were handed out. -/
structure St (S E σ : Type) where
  phase : MPhase
  alg : σ
  runs : Int
  bests : List (Nat × E)
  inbox : Nat → Nat
  outbox : Nat → List E
  wrk : Nat → S
  finishes : Nat → Nat
  given : List Nat

variable {S E σ : Type}

/-- The order `Continue` and SendTaskMultiStart (eoMpi.h 731-732, eoMultiStart.h 118-122). -/
def St.send (s : St S E σ) (w : Nat) : St S E σ :=
  { s with
    phase := .check
    runs := s.runs - 1
    inbox := Function.update s.inbox w (s.inbox w + 1)
    given := w :: s.given }

/-- `assignee = assignmentAlgo.get()` and what follows (eoMpi.h 712-713, 724-732). -/
def St.assign (A : Assign σ) (s : St S E σ) : St S E σ :=
  if (A.get s.alg).1 ≤ 0 then { s with alg := (A.get s.alg).2, phase := .wait }
  else ({ s with alg := (A.get s.alg).2 } : St S E σ).send (A.get s.alg).1.toNat

/-- HandleResponseMultiStart (eoMultiStart.h 137-143) and `confirm` (eoMpi.h 722-723, 675-677). -/
def St.handle (A : Assign σ) (s : St S E σ) (w : Nat) (e : E) (rest : List E) : St S E σ :=
  { s with
    bests := s.bests ++ [(w, e)]
    outbox := Function.update s.outbox w rest
    alg := A.confirm s.alg w }

/-- ProcessTaskMultiStart (eoMultiStart.h 158-163) in Job::worker (eoMpi.h 757-774); `proc`: one run. -/
def St.work (proc : S → E × S) (s : St S E σ) (w : Nat) : St S E σ :=
  { s with
    inbox := Function.update s.inbox w (s.inbox w - 1)
    outbox := Function.update s.outbox w (s.outbox w ++ [(proc (s.wrk w)).1])
    wrk := Function.update s.wrk w (proc (s.wrk w)).2 }

/-- One step of the master or of a worker; `total` is the number of workers when the job starts. -/
inductive Step (A : Assign σ) (proc : S → E × S) (total : Nat) : St S E σ → St S E σ → Prop where
  /-- eoMpi.h 709-713, IsFinishedMultiStart (eoMultiStart.h 177-180) -/
  | next (s : St S E σ) (hp : s.phase = .check) (h : ¬ s.runs ≤ 0) : Step A proc total s (s.assign A)
  /-- eoMpi.h 717-724 -/
  | response (s : St S E σ) (w : Nat) (e : E) (rest : List E) (hp : s.phase = .wait)
      (h : s.outbox w = e :: rest) : Step A proc total s ((s.handle A w e rest).assign A)
  /-- eoMpi.h 660-664 -/
  | finish (s : St S E σ) (hp : s.phase = .check) (h : s.runs ≤ 0) :
      Step A proc total s
        { s with phase := .fin, finishes := fun w => s.finishes w + (A.idles s.alg).count w }
  /-- eoMpi.h 671-678 -/
  | last (s : St S E σ) (w : Nat) (e : E) (rest : List E) (hp : s.phase = .fin)
      (ht : A.availableWorkers s.alg ≠ total) (h : s.outbox w = e :: rest) :
      Step A proc total s
        { s.handle A w e rest with finishes := Function.update s.finishes w (s.finishes w + 1) }
  | leave (s : St S E σ) (hp : s.phase = .fin) (ht : A.availableWorkers s.alg = total) :
      Step A proc total s { s with phase := .done }
  | work (s : St S E σ) (w : Nat) (h : 0 < s.inbox w) : Step A proc total s (s.work proc w)

/-- The start of a job (eoMultiStart.h 248-250): `bests` are those of the jobs this store was used for before. -/
def St.start (alg : σ) (runs : Int) (bests : List (Nat × E)) (wrk : Nat → S) : St S E σ where
  phase := .check
  alg := alg
  runs := runs
  bests := bests
  inbox := fun _ => 0
  outbox := fun _ => []
  wrk := wrk
  finishes := fun _ => 0
  given := []

/-- The states reached after `k` steps of some execution. -/
inductive Reach (A : Assign σ) (proc : S → E × S) (total : Nat) (s₀ : St S E σ) : Nat → St S E σ → Prop where
  | init : Reach A proc total s₀ 0 s₀
  | step (k : Nat) (s s' : St S E σ) (h : Reach A proc total s₀ k s) (hs : Step A proc total s s') :
      Reach A proc total s₀ (k + 1) s'

/-! ### Resets and runs -/

/-- The reset of ReuseSamePopEA (eoMultiStart.h 492-500); `original` was evaluated by the constructor (473-489).  The
state is the population of the job and `_firstTime`. -/
def resetSame {P : Type} (original : P) (s : P × Bool) : P × Bool := if s.2 then (original, false) else s

/-- One run with ReuseSamePopEA (eoMultiStart.h 158-163); `algo` works on the population and on its other state `T`
(the continuator has been reset). -/
def runSame {P T E : Type} (original : P) (algo : P → T → P × T) (best : P → E) (s : (P × Bool) × T) :
    E × ((P × Bool) × T) :=
  let p := resetSame original s.1
  let q := algo p.1 s.2
  (best q.1, ((q.1, p.2), q.2))

/-- One run with ReuseOriginalPopEA (eoMultiStart.h 438-443); `eval`: the evaluation of the population. -/
def runOriginal {P T E : Type} (original : P) (eval : P → T → P × T) (algo : P → T → P × T) (best : P → E)
    (s : P × T) : E × (P × T) :=
  let p := eval original s.2
  let q := algo p.1 p.2
  (best q.1, q)

/-! ### Seeds -/

open Paradiseo.Rng

/-- The seeds sent to the workers (eoMultiStart.h 252-269): those announced, completed by draws of the master. -/
def seedsSent (seeds draws : List W) (nbWorkers : Nat) : List W :=
  (seeds ++ draws.take (nbWorkers - seeds.length)).take nbWorkers

/-- MultiplesOfNumber (eoMultiStart.h 350-376): the seeds and the counter afterwards. -/
def multiples (seed i : W) (n : Nat) : List W × W :=
  ((List.range n).map fun (j : Nat) => (i + BitVec.ofNat 32 (j + 1)) * seed, i + BitVec.ofNat 32 n)

/-- The constructor of MultiplesOfNumber (eoMultiStart.h 352-360): draws until the number is not zero; `none`: the draws
given are not enough. -/
def multiplesSeed (n : W) (draws : List W) : Option W :=
  if n ≠ 0#32 then some n else draws.find? fun w => decide (w ≠ 0#32)

/-! ### The communicator -/

open Paradiseo.Serial

/-- The buffer `_buf` of `_bufsize` characters (implMpi.h 307-308); none before the first text is received. -/
abbrev Buf := Option Text

/-- send of a text (implMpi.cpp 101-106): the size and the characters with the closing null character. -/
def sendText (s : Text) : Nat × Text := (s.length + 1, s ++ ['\x00'])

/-- recv of a text (implMpi.cpp 108-126); `junk`: what new memory holds. -/
def recvText (junk : Nat → Text) (buf : Buf) (m : Nat × Text) : Text × Buf :=
  let b := match buf with
    | none => junk m.1
    | some b => if b.length < m.1 then junk m.1 else b
  let b := m.2 ++ b.drop m.2.length
  (b.takeWhile (fun c => decide (c ≠ '\x00')), some b)

/-- recv of a sequence of texts with one communicator. -/
def recvTexts (junk : Nat → Text) : Buf → List (Nat × Text) → List Text
  | _, [] => []
  | buf, m :: l => (recvText junk buf m).1 :: recvTexts junk (recvText junk buf m).2 l

/-- send of a table (implMpi.h 221-241): an object with one member. -/
def packTable (l : List J) : J := .obj [("array".toList, .arr l)]

/-- recv of a table of `size` entries (implMpi.h 262-279): the entries are read by their index, without a check. -/
def unpackTable (size : Nat) : J → Except PErr (List J)
  | .obj [(_, .arr l)] => if size ≤ l.length then .ok (l.take size) else .error .ub
  | _ => .error .ub

/-- broadcast (implMpi.cpp 164-167): what the variable of a process holds afterwards. -/
def broadcast (_root : Nat) (_rank : Nat) (_sent mine : Int) : Int := mine

end Paradiseo.MultiStart
