import Verif.Model.SmpTopology

/-!
# smp: distribution of a population over worker threads

Model of smp/src/scheduler.cpp.  An individual is named by its place in the population, which is what
the pointers `&pop[k]` stand for.  A call of `func` on an individual is one event; events of
different workers may be mixed in any order.

Not modelled: `unsigned` overflow of the indices (the population has fewer than 2^32 individuals),
failure to start a thread, exceptions thrown by `func`.
-/

namespace Paradiseo.Smp

/-! ## Linear policy -/

/-- Body of the inner loop (scheduler.cpp 64-68): the package and `indice`. -/
def linStepJ (nbIndi i : Nat) (s : List Nat × Nat) (j : Nat) : List Nat × Nat :=
  (s.1 ++ [i * nbIndi + j], i * nbIndi + j)

/-- Body of the outer loop (scheduler.cpp 61-69). -/
def linStepI (nbIndi : Nat) (s : List (List Nat) × Nat) (i : Nat) : List (List Nat) × Nat :=
  let r := (List.range nbIndi).foldl (linStepJ nbIndi i) ([], s.2)
  (s.1 ++ [r.1], r.2)

/-- Body of the loop over the remaining individuals (scheduler.cpp 73-74). -/
def linExtra (indice : Nat) (packs : List (List Nat)) (i : Nat) : List (List Nat) :=
  packs.modify i (fun p => p ++ [indice + i])

/-- The packages made by the linear policy for `w` workers and `n` individuals
(scheduler.cpp 54-74).  Without workers the division is undefined. -/
def linearPackages (w n : Nat) : Except Err (List (List Nat)) :=
  if w = 0 then .error .ub
  else
    let nbIndi := n / w
    let remaining := n % w
    let s := (List.range w).foldl (linStepI nbIndi) ([], 0)
    let indice := if nbIndi ≠ 0 then s.2 + 1 else s.2
    .ok ((List.range remaining).foldl (linExtra indice) s.1)

/-- An execution of the workers (scheduler.cpp 77-84, 130-134): every worker runs through its own
list in order, the scheduler of the machine mixes them at will, and the call ends when all are
through (`join`). -/
inductive Merge {α : Type} : List (List α) → List α → Prop where
  | done (ls : List (List α)) (h : ∀ l ∈ ls, l = []) : Merge ls []
  | step (ls : List (List α)) (i : Nat) (x : α) (l tr : List α) (h : ls[i]? = some (x :: l))
      (ht : Merge (ls.set i l) tr) : Merge ls (x :: tr)

/-- The population after `func` was applied to the individuals in the order of the trace. -/
def applyTrace {α : Type} (func : α → α) (pop : List α) (trace : List Nat) : List α :=
  trace.foldl (fun p k => p.modify k func) pop

/-! ## Progressive policy -/

/-- Who holds the mutex `m[i]`. -/
inductive Owner where
  | main
  | worker
deriving DecidableEq, Repr

/-- Where the calling thread is (scheduler.cpp 101-126). -/
inductive MPc where
  | loop                   -- `while(counter < pop.size())`
  | scan (i : Nat)         -- `if(popPackages[i].empty() && counter < pop.size())`, not locked
  | want (i : Nat)         -- `unique_lock lock(m[i])`
  | fill (i j : Nat)       -- `while (j < planning[i] && counter < pop.size())`
  | finish                 -- `done = true`
  | join                   -- waits for the workers
deriving DecidableEq, Repr

/-- Where worker `i` is (scheduler.cpp 139-148). -/
inductive WPc where
  | top                    -- `!done`
  | sawDone                -- `!pop.empty()`, not locked
  | want                   -- `unique_lock lock(m[id])`
  | work (k : Nat)         -- `func(*pop[k])`
  | leave                  -- `lock.unlock()`
  | exited
deriving DecidableEq, Repr

/-- The shared state. `trace` records the calls of `func`. -/
structure PSt where
  main : MPc
  counter : Nat
  packs : Nat → List Nat
  planning : Nat → Nat
  done : Bool
  lock : Nat → Option Owner
  worker : Nat → WPc
  trace : List Nat

/-- The state when the workers are started (scheduler.cpp 90-99).  A worker not yet started is a
worker that did not take a step yet.  The packages are empty: they are at the construction of the
scheduler, and every call leaves them so (C112_once). -/
def PSt.init : PSt where
  main := .loop
  counter := 0
  packs := fun _ => []
  planning := fun _ => 2
  done := false
  lock := fun _ => none
  worker := fun _ => .top
  trace := []

/-- One step of the calling thread, if it can take one. -/
def mainStep (w n : Nat) (s : PSt) : Option PSt :=
  match s.main with
  | .loop => some { s with main := if s.counter < n then .scan 0 else .finish }
  | .scan i =>
    if i < w then
      if s.packs i = [] ∧ s.counter < n then some { s with main := .want i }
      else some { s with main := .scan (i + 1) }
    else some { s with main := .loop }
  | .want i =>
    match s.lock i with
    | none => some { s with main := .fill i 0, lock := Function.update s.lock i (some .main) }
    | some _ => none
  | .fill i j =>
    if j < s.planning i ∧ s.counter < n then
      some { s with main := .fill i (j + 1), counter := s.counter + 1
                    packs := Function.update s.packs i (s.packs i ++ [s.counter]) }
    else
      some { s with main := .scan (i + 1), lock := Function.update s.lock i none
                    planning := Function.update s.planning i (s.planning i * 2 % 2 ^ 32) }
  | .finish => some { s with main := .join, done := true }
  | .join => none

/-- One step of worker `i`, if it can take one (scheduler.cpp 137-149). -/
def workerStep (i : Nat) (s : PSt) : Option PSt :=
  match s.worker i with
  | .top => some { s with worker := Function.update s.worker i (if s.done then .sawDone else .want) }
  | .sawDone =>
    some { s with worker := Function.update s.worker i (if s.packs i = [] then .exited else .want) }
  | .want =>
    match s.lock i with
    | none => some { s with worker := Function.update s.worker i (.work 0)
                            lock := Function.update s.lock i (some .worker) }
    | some _ => none
  | .work k =>
    match (s.packs i)[k]? with
    | some x => some { s with worker := Function.update s.worker i (.work (k + 1))
                              trace := s.trace ++ [x] }
    | none => some { s with worker := Function.update s.worker i .leave
                            packs := Function.update s.packs i [] }
  | .leave => some { s with worker := Function.update s.worker i .top
                            lock := Function.update s.lock i none }
  | .exited => none

/-- One step of some thread. -/
inductive PStep (w n : Nat) : PSt → PSt → Prop where
  | main (s s' : PSt) (h : mainStep w n s = some s') : PStep w n s s'
  | worker (s s' : PSt) (i : Nat) (hi : i < w) (h : workerStep i s = some s') : PStep w n s s'

/-- The states some execution can come to. -/
inductive PReach (w n : Nat) : PSt → Prop where
  | init : PReach w n PSt.init
  | step (s s' : PSt) (h : PReach w n s) (hs : PStep w n s s') : PReach w n s'

/-- The call returns: the calling thread waits and every worker has ended. -/
def PSt.Returned (w : Nat) (s : PSt) : Prop :=
  s.main = .join ∧ ∀ i, i < w → s.worker i = .exited

end Paradiseo.Smp
