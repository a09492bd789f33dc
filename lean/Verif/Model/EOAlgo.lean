/-
Model of the evolutionary algorithm loops, the continuators, the checkpoint and the evaluators which keep
the best or stop: eo/src/eoEasyEA.h, eoSGA.h, eoAlgoRestart.h, eoAlgoReset.h, eoContinue.h,
eoGenContinue.h, eoSteadyFitContinue.h, eoFitContinue.h, eoEvalContinue.h, eoCombinedContinue.h,
eoPeriodicContinue.h, utils/eoCheckPoint.h, eoEvalKeepBest.h, eoEvalCounterThrowException.h,
eoSelectPerc.h.

Simplifications:
* breeding, replacement and selection are functions of the number of the generation (their random draws)
  and of the populations;
* `unsigned long` counters do not overflow;
* the continuators that look at the clock or at signals are not modelled.
-/
import Verif.Model.EO
import Verif.Model.EOReplacement
import Verif.Model.EOBreed

namespace Paradiseo.Run

open Paradiseo.EO

variable {α G F σ : Type}

/-! ### Continuators -/

/-- A continuator (eoContinue.h:47-68): from its state, the number of evaluations so far and the
population, its answer and its new state. -/
abbrev Cont (σ α : Type) := σ → Nat → List α → Except Err (Bool × σ)

/-- eoGenContinue (eoGenContinue.h:60-71); the state is `thisGeneration`. -/
def genCont (total : Nat) : Cont Nat α := fun g _ _ => .ok (!decide (g + 1 ≥ total), g + 1)

/-- The members of eoSteadyFitContinue (eoSteadyFitContinue.h:113-117); `none` is the value of a member
never set. -/
structure Steady (F : Type) where
  gen : Nat
  steady : Bool
  last : Option Nat
  best : Option F

/-- The two constructors (eoSteadyFitContinue.h:47-57). -/
def Steady.new : Steady F := ⟨0, false, none, none⟩
def Steady.newAt (minGens current : Nat) : Steady F := ⟨current, decide (current > minGens), none, none⟩

/-- The fitness of best_element (eoPop.h:222-233); it is also the result of nth_element_fitness(0)
(eoPop.h:286-295), which however is undefined for the empty population. -/
def bestFitness [LinearOrder F] (f : α → F) (pop : List α) : Except Err F :=
  match bestElement f pop with
  | .error e => .error e
  | .ok x => .ok (f x)

/-- eoSteadyFitContinue::operator() (eoSteadyFitContinue.h:61-86); `lastImprovement` has 32 bits. -/
def steadyCont [LinearOrder F] (f : α → F) (minGens steadyGens : Nat) : Cont (Steady F) α :=
  fun s _ pop =>
    match bestFitness f pop with
    | .error _ => .error .ub
    | .ok b =>
      if s.steady then
        match s.best, s.last with
        | some best, some last =>
          if best < b then .ok (true, ⟨s.gen + 1, true, some ((s.gen + 1) % 2 ^ 32), some b⟩)
          else if s.gen + 1 - last > steadyGens then .ok (false, { s with gen := s.gen + 1 })
          else .ok (true, { s with gen := s.gen + 1 })
        | _, _ => .error .ub
      else if s.gen + 1 > minGens then
        .ok (true, ⟨s.gen + 1, true, some ((s.gen + 1) % 2 ^ 32), some b⟩)
      else .ok (true, { s with gen := s.gen + 1 })

/-- eoFitContinue (eoFitContinue.h:50-61). -/
def fitCont [LinearOrder F] (f : α → F) (optimum : F) : Cont Unit α := fun _ _ pop =>
  match bestFitness f pop with
  | .error e => .error e
  | .ok b => .ok (!decide (optimum ≤ b), ())

/-- eoEvalContinue (eoEvalContinue.h:47-55). -/
def evalCont (total : Nat) : Cont Unit α := fun _ evals _ => .ok (!decide (evals ≥ total), ())

/-- eoPeriodicContinue (eoPeriodicContinue.h:42-45): 32-bit counter; the remainder by 0 is undefined. -/
def periodicCont (period : Nat) : Cont Nat α := fun c _ _ =>
  if period = 0 then .error .ub
  else .ok (decide ((c + 1) % 2 ^ 32 % period ≠ 0), (c + 1) % 2 ^ 32)

/-- eoCombinedContinue::operator() (eoCombinedContinue.h:96-101): stops asking at the first `false`. -/
def combinedCont : Cont (List (Cont σ α × σ)) α
  | [], _, _ => .ok (true, [])
  | (c, s) :: cs, evals, pop =>
    match c s evals pop with
    | .error e => .error e
    | .ok (false, s') => .ok (false, (c, s') :: cs)
    | .ok (true, s') =>
      match combinedCont cs evals pop with
      | .error e => .error e
      | .ok (b, cs') => .ok (b, (c, s') :: cs')

/-! ### Checkpoint -/

/-- What a checkpoint does, in order: calls of its components, by their place. -/
inductive Ev (α : Type) where
  | sorted (i : Nat) (pop : List α)
  | stat (i : Nat) (pop : List α)
  | updater (i : Nat)
  | monitor (i : Nat)
  | cont (i : Nat)
  | lastSorted (i : Nat) (pop : List α)
  | lastStat (i : Nat) (pop : List α)
  | lastUpdater (i : Nat)
  | lastMonitor (i : Nat)
  deriving DecidableEq

/-- The numbers of sorted statistics, statistics, updaters, monitors of a checkpoint
(eoCheckPoint.h:88-91). -/
structure CP where
  sorted : Nat
  stats : Nat
  updaters : Nat
  monitors : Nat

/-- The loop over the continuators (eoCheckPoint.h:119-122): `b` is `bContinue`, `i` the place. -/
def cpConts : Nat → Bool → List (Cont σ α × σ) → Nat → List α →
    Except Err (Bool × List (Cont σ α × σ) × List (Ev α))
  | _, b, [], _, _ => .ok (b, [], [])
  | i, b, (c, s) :: cs, evals, pop =>
    match c s evals pop with
    | .error e => .error e
    | .ok (a, s') =>
      match cpConts (i + 1) (if !a then false else b) cs evals pop with
      | .error e => .error e
      | .ok (b', cs', ev) => .ok (b', (c, s') :: cs', .cont i :: ev)

/-- eoCheckPoint::operator() (eoCheckPoint.h:95-143); `sort` sorts the pointers (eoPop.h:230-237). -/
def checkpoint (sort : List α → List α) (cp : CP) (cs : List (Cont σ α × σ)) (evals : Nat)
    (pop : List α) : Except Err (Bool × List (Cont σ α × σ) × List (Ev α)) :=
  match cpConts 0 true cs evals pop with
  | .error e => .error e
  | .ok (b, cs', evc) =>
    .ok (b, cs',
      (List.range cp.sorted).map (fun i => Ev.sorted i (sort pop)) ++
      (List.range cp.stats).map (fun i => Ev.stat i pop) ++
      (List.range cp.updaters).map Ev.updater ++
      (List.range cp.monitors).map Ev.monitor ++ evc ++
      if !b then
        (List.range cp.sorted).map (fun i => Ev.lastSorted i (sort pop)) ++
        (List.range cp.stats).map (fun i => Ev.lastStat i pop) ++
        (List.range cp.updaters).map Ev.lastUpdater ++
        (List.range cp.monitors).map Ev.lastMonitor
      else [])

/-- The checkpoint as a continuator; its state is extended by the list of all its actions so far. -/
def cpCont (sort : List α → List α) (cp : CP) : Cont (List (Cont σ α × σ) × List (Ev α)) α :=
  fun s evals pop =>
    match checkpoint sort cp s.1 evals pop with
    | .error e => .error e
    | .ok (b, cs', ev) => .ok (b, cs', s.2 ++ ev)

/-! ### The algorithm -/

/-- The parts of eoEasyEA (eoEasyEA.h:326-354): objective function (the evaluator counts and evaluates
only invalid individuals), breeding, replacement, continuator. -/
structure EA (G F σ : Type) where
  f : G → F
  breed : Nat → List (Ind G F) → Except Err (List (Ind G F))
  replace : Nat → Replacement (Ind G F)
  cont : Cont σ (Ind G F)

/-- The state of a run.  `gens` and `seen` (the evaluated offspring of every generation) are only
observations. -/
structure RunSt (G F σ : Type) where
  pop : List (Ind G F)
  evals : Nat
  cs : σ
  gens : Nat
  seen : List (List (Ind G F))

/-- The body of the loop (eoEasyEA.h:266-280). -/
def EA.generation (ea : EA G F σ) (s : RunSt G F σ) : Except Err (RunSt G F σ) :=
  match ea.breed s.gens s.pop with
  | .error e => .error e
  | .ok off =>
    match ea.replace s.gens s.pop (evalPop ea.f s.evals off).2 with
    | .error e => .error e
    | .ok (pop', _) =>
      if s.pop.length > pop'.length then .error .thrown
      else if s.pop.length < pop'.length then .error .thrown
      else .ok ⟨pop', (evalPop ea.f s.evals off).1, s.cs, s.gens + 1,
        s.seen ++ [(evalPop ea.f s.evals off).2]⟩

/-- The do-while loop (eoEasyEA.h:262-290). -/
def EA.loop (ea : EA G F σ) : Nat → RunSt G F σ → Except Err (RunSt G F σ)
  | 0, _ => .error .fuel
  | n + 1, s =>
    match ea.generation s with
    | .error e => .error e
    | .ok s =>
      match ea.cont s.cs s.evals s.pop with
      | .error e => .error e
      | .ok (true, cs) => ea.loop n { s with cs := cs }
      | .ok (false, cs) => .ok { s with cs := cs }

/-- The state after the first evaluation (eoEasyEA.h:258-260). -/
def EA.start (ea : EA G F σ) (pop : List (Ind G F)) (evals : Nat) (cs : σ) : RunSt G F σ :=
  ⟨(evalPop ea.f evals pop).2, (evalPop ea.f evals pop).1, cs, 0, []⟩

/-- eoEasyEA::operator() (eoEasyEA.h:248-291). -/
def EA.run (ea : EA G F σ) (fuel : Nat) (pop : List (Ind G F)) (evals : Nat) (cs : σ) :
    Except Err (RunSt G F σ) := ea.loop fuel (ea.start pop evals cs)

/-! ### eoSGA -/

/-- eoSelectPerc (eoSelectPerc.h:57-67): `floor(rate * size)` selected individuals; `sel i` is the answer
of the call number `i` of the selector. -/
def selectPerc (rate : ℚ) (size : Nat) (sel : Nat → Except Err α) : Except Err (List α) :=
  (List.range ⌊rate * (size : ℚ)⌋.toNat).mapM sel

/-- One generation of eoSGA (eoSGA.h:76-103): the crossover and mutation loops are those of
eoSGATransform; there are `pop.size()` offspring (rate 1). -/
def sgaGeneration [Inhabited F] (f : G → F) (sel : List (Ind G F) → Nat → Except Err (Ind G F))
    (u : Nat → ℚ) (cross : Breed.QuadOp (Ind G F)) (pCross : ℚ) (mutn : Breed.MonOp (Ind G F)) (pMut : ℚ)
    (evals : Nat) (pop : List (Ind G F)) : Except Err (Nat × List (Ind G F)) :=
  match selectPerc 1 pop.length (sel pop) with
  | .error e => .error e
  | .ok off => .ok (evalPop f evals (Breed.sgaTransform u cross pCross mutn pMut off))

/-! ### Restart -/

/-- eoAlgoPopReset (eoAlgoReset.h:83-91): `init i` initialises a default individual. -/
def popReset [Inhabited F] (f : G → F) (init : Nat → Ind G F → Ind G F) (dflt : G)
    (size : Option Nat) (evals : Nat) (pop : List (Ind G F)) : Nat × List (Ind G F) :=
  evalPop f evals ((List.range (size.getD pop.length)).map fun i => init i (Ind.new dflt))

/-- eoAlgoRestart (eoAlgoRestart.h:147-156), for an algorithm `algo k` in the turn number `k`. -/
def restart (reset algo : Nat → List α → Except Err (List α)) (cont : Cont σ α) :
    Nat → Nat → σ → List α → Except Err (List α × Nat)
  | 0, _, _, _ => .error .fuel
  | n + 1, k, s, pop =>
    match reset k pop with
    | .error e => .error e
    | .ok pop =>
      match algo k pop with
      | .error e => .error e
      | .ok pop =>
        match cont s 0 pop with
        | .error e => .error e
        | .ok (true, s) => restart reset algo cont n (k + 1) s pop
        | .ok (false, _) => .ok (pop, k + 1)

/-! ### Evaluators -/

/-- The state of eoEvalKeepBest (eoEvalKeepBest.h:99-100): the best individual (at first a default one,
invalid) and `_found`. -/
structure Keep (G F : Type) where
  value : Ind G F
  found : Bool

/-- eoEvalKeepBest::operator() (eoEvalKeepBest.h:102-121). -/
def keepBest [LE F] [DecidableRel (α := F) (· ≤ ·)] (eval : Ind G F → Ind G F) (k : Keep G F)
    (sol : Ind G F) : Except Err (Ind G F × Keep G F) :=
  if (eval sol).invalid then .error .asserted
  else if k.value.invalid then .ok (eval sol, ⟨eval sol, false⟩)
  else
    match (eval sol).gt k.value with
    | none => .error .thrown
    | some true => .ok (eval sol, ⟨eval sol, true⟩)
    | some false => .ok (eval sol, ⟨k.value, false⟩)

/-- Evaluation of a list of individuals one after the other. -/
def keepBestAll [LE F] [DecidableRel (α := F) (· ≤ ·)] (eval : Ind G F → Ind G F) :
    Keep G F → List (Ind G F) → Except Err (List (Ind G F) × Keep G F)
  | k, [] => .ok ([], k)
  | k, x :: xs =>
    match keepBest eval k x with
    | .error e => .error e
    | .ok (y, k) =>
      match keepBestAll eval k xs with
      | .error e => .error e
      | .ok (ys, k) => .ok (y :: ys, k)

/-- eoEvalCounterThrowException (eoEvalCounterThrowException.h:62-80): individual, counter, whether it
throws; the individual is already evaluated then. -/
def evalThrow (f : G → F) (max : Nat) (c : Nat) (x : Ind G F) : Nat × Ind G F × Bool :=
  if x.invalid then ((evalCounter f c x).1, (evalCounter f c x).2, decide ((evalCounter f c x).1 ≥ max))
  else (c, x, false)

/-- The evaluation of a population with it (apply.h:48-100, sequential): stops at the throw. -/
def evalThrowPop (f : G → F) (max : Nat) : Nat → List (Ind G F) → Nat × List (Ind G F) × Bool
  | c, [] => (c, [], false)
  | c, x :: xs =>
    if (evalThrow f max c x).2.2 then ((evalThrow f max c x).1, (evalThrow f max c x).2.1 :: xs, true)
    else
      ((evalThrowPop f max (evalThrow f max c x).1 xs).1,
        (evalThrow f max c x).2.1 :: (evalThrowPop f max (evalThrow f max c x).1 xs).2.1,
        (evalThrowPop f max (evalThrow f max c x).1 xs).2.2)

end Paradiseo.Run
