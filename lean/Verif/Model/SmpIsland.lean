import Verif.Model.SmpTopology
import Verif.Model.EOAlgo

/-!
# smp: the island model

Model of smp/src/island.cpp, islandModel.cpp, sharedFitContinue.cpp and bimap.cpp.

The threads (the islands, the thread calling the model, and one thread per message, started with
`std::async`) are modelled by a step relation: any thread that can act may act next.  The
granularity is that of the critical sections.  What an algorithm does to its population, and what a
migration selection picks, is arbitrary.

Simplifications:
* a batch carries a number (in order of emission) so that copies of it can be told apart;
* the calling thread may look at the islands and forward batches in any order while the islands run;
  the code does these things in a fixed cycle, which is one of the allowed orders;
* an island takes its immigrants one batch at a time, where the code holds its mutex for all of them;
* `eoPop` has a user-declared destructor (eoPop.h 137) and hence no move constructor: `std::move` on
  a population (islandModel.cpp 160, 167) copies it;
* replacing the topology during the run (islandModel.cpp 133-147) is not modelled.
-/

namespace Paradiseo.Smp

open Paradiseo.EO (Ind)

/-- A group of emigrants. -/
structure Batch (α : Type) where
  id : Nat
  src : Nat
  data : List α
deriving DecidableEq

/-- Where the calling thread is in IslandModel::operator() (islandModel.cpp 47-121). -/
inductive Phase where
  | run      -- the loop `while(workingIslands() > 0)` (75-92)
  | wait     -- joins the islands and waits for its messages (95-101)
  | flush    -- forwards the batches left over (107-108)
  | final    -- lets the islands take their last immigrants (110-118)
  | over
deriving DecidableEq, Repr

/-- The state of the model and its islands, numbered as in `createTable` (islandModel.cpp 195-206).
`emitted`, `forwarded` and `received` only record what happened. -/
structure ISt (α : Type) where
  phase : Phase
  topo : Matrix Bool
  pops : Nat → List α
  stopped : Nat → Bool             -- Island::stopped
  working : Nat → Bool             -- islands[i].second
  outbox : List (Batch α)          -- messages island → model not yet executed (island.cpp 137)
  emig : List (Batch α)            -- IslandModel::listEmigrants
  inflight : List (Nat × Batch α)  -- messages model → island not yet executed (islandModel.cpp 167)
  immig : Nat → List (Batch α)     -- Island::listImigrants
  emitted : List (Batch α)
  forwarded : List (Nat × Batch α)
  received : Nat → List (Batch α)

/-- The state after initModel and the start of the islands (islandModel.cpp 49-64, 181-192). -/
def ISt.start {α : Type} (topo : Matrix Bool) (pops : Nat → List α) : ISt α where
  phase := .run
  topo := topo
  pops := pops
  stopped := fun _ => false
  working := fun _ => true
  outbox := []
  emig := []
  inflight := []
  immig := fun _ => []
  emitted := []
  forwarded := []
  received := fun _ => []

/-- IslandModel::send (islandModel.cpp 150-172): the first batch of the queue goes to all neighbours
of the island it comes from. -/
def ISt.forward {α : Type} (s : ISt α) : ISt α :=
  match s.emig with
  | [] => s
  | b :: rest =>
    { s with emig := rest
             inflight := s.inflight ++ (neighbors s.topo b.src).map (fun j => (j, b))
             forwarded := s.forwarded ++ (neighbors s.topo b.src).map (fun j => (j, b)) }

/-- The parts the user supplies. -/
structure Cfg (α : Type) where
  /-- the number of islands -/
  n : Nat
  /-- what the algorithms may make of a population between two migrations -/
  evo : List α → List α → Prop
  /-- what the selections of the migration policies may pick from a population -/
  sel : List α → List α → Prop
  /-- the integration policy -/
  intPolicy : List α → List α → List α
  /-- invalidation and evaluation -/
  reeval : α → α

/-- One turn of the loop of Island::receive (island.cpp 142-166): the immigrants are invalidated and
evaluated (`reeval`), then put into the population by the integration policy. -/
def ISt.integrate {α : Type} (c : Cfg α) (s : ISt α) (i : Nat) : ISt α :=
  match s.immig i with
  | [] => s
  | b :: rest =>
    { s with immig := Function.update s.immig i rest
             pops := Function.update s.pops i (c.intPolicy (s.pops i) (b.data.map c.reeval))
             received := Function.update s.received i (s.received i ++ [b]) }

/-- One step of some thread. -/
inductive IStep {α : Type} (c : Cfg α) : ISt α → ISt α → Prop where
  /-- an island's algorithm changes its population -/
  | evolve (s : ISt α) (i : Nat) (p : List α) (hi : i < c.n) (hr : s.stopped i = false)
      (hp : c.evo (s.pops i) p) :
      IStep c s { s with pops := Function.update s.pops i p }
  /-- Island::send (island.cpp 117-139): a selection of individuals is handed to a new thread -/
  | emit (s : ISt α) (i : Nat) (d : List α) (hi : i < c.n) (hr : s.stopped i = false)
      (hd : c.sel (s.pops i) d) :
      IStep c s
        { s with outbox := s.outbox ++ [⟨s.emitted.length, i, d⟩]
                 emitted := s.emitted ++ [⟨s.emitted.length, i, d⟩] }
  /-- Island::receive during the run (island.cpp 101) -/
  | receive (s : ISt α) (i : Nat) (hi : i < c.n) (hr : s.stopped i = false) :
      IStep c s (s.integrate c i)
  /-- the algorithm of an island ends (island.cpp 70-71) -/
  | stop (s : ISt α) (i : Nat) (hi : i < c.n) (hr : s.stopped i = false) :
      IStep c s { s with stopped := Function.update s.stopped i true }
  /-- IslandModel::update (islandModel.cpp 124-130) in some message thread -/
  | toModel (s : ISt α) (l r : List (Batch α)) (b : Batch α) (h : s.outbox = l ++ b :: r) :
      IStep c s { s with outbox := l ++ r, emig := s.emig ++ [b] }
  /-- Island::update (island.cpp 169-176) in some message thread -/
  | toIsland (s : ISt α) (l r : List (Nat × Batch α)) (j : Nat) (b : Batch α)
      (h : s.inflight = l ++ (j, b) :: r) :
      IStep c s
        { s with inflight := l ++ r, immig := Function.update s.immig j (s.immig j ++ [b]) }
  /-- the calling thread notices that an island stopped (islandModel.cpp 81-85) -/
  | isolate (s : ISt α) (i : Nat) (hi : i < c.n) (hp : s.phase = .run) (hs : s.stopped i = true)
      (hw : s.working i = true) :
      IStep c s
        { s with working := Function.update s.working i false, topo := isolateNode false s.topo i }
  /-- islandModel.cpp 88 -/
  | send (s : ISt α) (hp : s.phase = .run) : IStep c s s.forward
  /-- the loop ends (islandModel.cpp 75) -/
  | leave (s : ISt α) (hp : s.phase = .run) (h : ∀ i, i < c.n → s.working i = false) :
      IStep c s { s with phase := .wait }
  /-- all islands are joined, which wait for their own messages (island.cpp 73-74), and the messages
  of the model are executed (islandModel.cpp 95-101) -/
  | joined (s : ISt α) (hp : s.phase = .wait) (h1 : s.outbox = []) (h2 : s.inflight = []) :
      IStep c s { s with phase := .flush }
  /-- islandModel.cpp 107-108 -/
  | flushSend (s : ISt α) (hp : s.phase = .flush) : IStep c s s.forward
  | flushed (s : ISt α) (hp : s.phase = .flush) (h : s.emig = []) :
      IStep c s { s with phase := .final }
  /-- islandModel.cpp 110-114 -/
  | finalReceive (s : ISt α) (i : Nat) (hi : i < c.n) (hp : s.phase = .final) :
      IStep c s (s.integrate c i)
  /-- islandModel.cpp 117-120: the last receiving threads have ended -/
  | over (s : ISt α) (hp : s.phase = .final) (h : ∀ i, i < c.n → s.immig i = []) :
      IStep c s { s with phase := .over }

/-- The states some execution can come to. -/
inductive IReach {α : Type} (c : Cfg α) (s₀ : ISt α) : ISt α → Prop where
  | init : IReach c s₀ s₀
  | step (s s' : ISt α) (h : IReach c s₀ s) (hs : IStep c s s') : IReach c s₀ s'

/-! ## Shared stopping criterion -/

/-- SharedFitContinue::operator() (sharedFitContinue.cpp 31-40); the state is `found`, shared by all
islands.  eoFitContinue answers `true` for "go on" (eoFitContinue.h 50-61). -/
def sharedFit {α F : Type} [LinearOrder F] (f : α → F) (optimum : F) : Run.Cont Bool α :=
  fun found evals pop =>
    if found then .ok (false, found)
    else match Run.fitCont f optimum () evals pop with
      | .error e => .error e
      | .ok (b, _) => .ok (b, b)

/-- The answers to a sequence of calls, in the order in which the calls of all islands happen. -/
def sharedAnswers {α F : Type} [LinearOrder F] (f : α → F) (optimum : F) :
    Bool → List (List α) → Except EO.Err (List Bool)
  | _, [] => .ok []
  | found, pop :: pops =>
    match sharedFit f optimum found 0 pop with
    | .error e => .error e
    | .ok (b, found') =>
      match sharedAnswers f optimum found' pops with
      | .error e => .error e
      | .ok bs => .ok (b :: bs)

/-! ## Numbering of the islands -/

/-- Bimap (bimap.cpp 30-47): the two maps. -/
structure Bimap (A B : Type) where
  right : A → Option B
  left : B → Option A

/-- Bimap::add (bimap.cpp 31-35). -/
def Bimap.add {A B : Type} [DecidableEq A] [DecidableEq B] (t : Bimap A B) (a : A) (b : B) :
    Bimap A B :=
  ⟨Function.update t.right a (some b), Function.update t.left b (some a)⟩

/-- IslandModel::createTable (islandModel.cpp 195-206). -/
def createTable {B : Type} [DecidableEq B] : List B → Nat → Bimap Nat B → Bimap Nat B
  | [], _, t => t
  | b :: bs, islandId, t => createTable bs (islandId + 1) (t.add islandId b)

end Paradiseo.Smp
