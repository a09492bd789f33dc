import Verif.Model.MasterWorker
import Verif.Props.SmpScheduler
import Verif.Props.EO

/-! Properties of the master-worker algorithms: what the threads change, and what they do not. -/

namespace Paradiseo.MW

open Paradiseo.EO Paradiseo.Run
open Paradiseo.Smp hiding Err

variable {G F σ : Type}

/-! ### Orders -/

/-- With at least one worker both policies have an order for every population. -/
theorem allowed_exists (p : Policy) (w n : Nat) (hw : 0 < w) (hn : n + 2 ≤ 2 ^ 32) : ∃ tr, Allowed p w n tr := by
  cases p with
  | linear =>
    obtain ⟨ps, hps, -⟩ := C111_packages w n hw
    obtain ⟨tr, htr⟩ := (C111_any_interleaving (α := Unit) id w hw (List.replicate n ())
      ps (by simpa using hps)).1
    exact ⟨tr, ps, hps, htr⟩
  | progressive =>
    obtain ⟨t, h1, -, h2⟩ := C112_can_return w n hw hn _ .init
    exact ⟨t.trace, t, h1, h2, rfl⟩

theorem allowed_perm {p : Policy} {w n : Nat} {tr : List Nat} (h : Allowed p w n tr) : tr.Perm (List.range n) := by
  cases p with
  | linear =>
    obtain ⟨ps, hps, hm⟩ := h
    have hw : 0 < w := by
      rcases Nat.eq_zero_or_pos w with rfl | h
      · rw [C111_no_workers] at hps; cases hps
      · exact h
    exact ((C111_any_interleaving (α := Unit) id w hw (List.replicate n ()) ps (by simpa using hps)).2 tr hm).1.trans
      (by simp)
  | progressive =>
    obtain ⟨s, h1, h2, rfl⟩ := h
    exact (C112_once w n s h1 h2).1

theorem applyTrace_perm {α : Type} (func : α → α) (pop : List α) (tr : List Nat) (h : tr.Perm (List.range pop.length)) :
    applyTrace func pop tr = pop.map func := by
  apply List.ext_getElem?
  intro k
  rw [applyTrace_get func tr (h.nodup_iff.mpr List.nodup_range), List.getElem?_map]
  split
  · rfl
  · rename_i hk
    have : ¬ k < pop.length := fun h' => hk (h.mem_iff.mpr (List.mem_range.mpr h'))
    rw [List.getElem?_eq_none (by omega)]
    rfl

theorem evalPop_eq_map (f : G → F) (c : Nat) (pop : List (Ind G F)) : (evalPop f c pop).2 = pop.map (evalFuncPtr f) := by
  induction pop generalizing c with
  | nil => rfl
  | cons x pop ih =>
    simp only [evalPop, List.map_cons]
    rw [ih]
    congr 1
    unfold evalCounter
    split
    · rfl
    · rename_i h; simp [evalFuncPtr, h]

/-! ### C300: the evolutionary algorithm -/

/-- What a user sees of a run. -/
def view (r : Except Err (RunSt G F σ)) : Except Err (List (Ind G F) × σ × Nat × List (List (Ind G F))) :=
  r.map fun s => (s.pop, s.cs, s.gens, s.seen)

/-- The sequential algorithm with the same parts. -/
def Alg.sequential (a : Alg G F σ) (f : G → F) : EA G F σ := ⟨f, a.breed, a.replace, a.cont⟩

private theorem loop_eq (a : Alg G F σ) (f : G → F) (he : a.evaluator.eval = evalFuncPtr f)
    (hc : ∀ s e e' pop, a.cont s e pop = a.cont s e' pop) (order : Nat → List (Ind G F) → List Nat)
    (ho : ∀ g off, (order g off).Perm (List.range off.length)) (n : Nat) :
    ∀ (s t : RunSt G F σ), s.pop = t.pop → s.cs = t.cs → s.gens = t.gens → s.seen = t.seen →
      view (a.loop order n s) = view ((a.sequential f).loop n t) := by
  induction n with
  | zero => intros; rfl
  | succ n ih =>
    intro s t h1 h2 h3 h4
    obtain ⟨pop, ev, cs, gens, seen⟩ := s
    obtain ⟨pop', ev', cs', gens', seen'⟩ := t
    simp only at h1 h2 h3 h4
    subst h1 h2 h3 h4
    unfold Alg.loop EA.loop Alg.generation EA.generation
    simp only [Alg.sequential]
    cases hb : a.breed gens pop with
    | error e => rfl
    | ok off =>
      simp only [he, evalPop_eq_map, applyTrace_perm _ off _ (ho gens off)]
      cases hr : a.replace gens pop (off.map (evalFuncPtr f)) with
      | error e => rfl
      | ok r =>
        obtain ⟨p, q⟩ := r
        dsimp only
        by_cases g1 : pop.length > p.length
        · simp [g1, view]
        · by_cases g2 : pop.length < p.length
          · simp [g1, g2, view]
          · simp only [g1, g2, if_false]
            rw [hc cs ev (evalPop f ev' off).1 p]
            cases hk : a.cont cs (evalPop f ev' off).1 p with
            | error e => rfl
            | ok r =>
              obtain ⟨b, cs2⟩ := r
              cases b
              · rfl
              · exact ih _ _ rfl rfl rfl rfl

/-- If the algorithm was given a function that evaluates one individual, then for every number of workers, every policy and
every interleaving of the threads the run is that of the sequential algorithm: the same offspring in every generation,
the same number of generations, the same final population, the same error. -/
theorem C300_same_as_sequential (a : Alg G F σ) (f : G → F) (ha : a.evaluator = .single f)
    (hc : ∀ s e e' pop, a.cont s e pop = a.cont s e' pop) (p : Policy) (w : Nat) (hw : 0 < w)
    (order : Nat → List (Ind G F) → List Nat) (ho : ∀ g off, Allowed p w off.length (order g off))
    (fuel : Nat) (pop : List (Ind G F)) (evals : Nat) (cs : σ) :
    view (a.run w order fuel pop evals cs) = view ((a.sequential f).run fuel pop evals cs) := by
  unfold Alg.run EA.run
  rw [if_neg (by omega)]
  apply loop_eq a f (by rw [ha]; rfl) hc order (fun g off => allowed_perm (ho g off))
  · simp [EA.start, ha, Evaluator.popEval, evalPop_eq_map, Alg.sequential]
  · rfl
  · rfl
  · rfl

/-- If it was given an evaluator of populations only, the offspring are never evaluated: in every run that ends, what was
handed to the replacement is the offspring as they were bred; if breeding only leaves invalid individuals, these are all
invalid. -/
theorem C300_population_evaluator (a : Alg G F σ) (pe : List (Ind G F) → List (Ind G F))
    (ha : a.evaluator = .population pe) (hb : ∀ g pop off, a.breed g pop = .ok off → ∀ x ∈ off, x.invalid = true)
    (p : Policy) (w : Nat) (order : Nat → List (Ind G F) → List Nat)
    (ho : ∀ g off, Allowed p w off.length (order g off)) (fuel : Nat) (pop : List (Ind G F)) (evals : Nat) (cs : σ)
    (s : RunSt G F σ) (h : a.run w order fuel pop evals cs = .ok s) :
    s.seen.length = s.gens ∧ ∀ off ∈ s.seen, ∀ x ∈ off, x.invalid = true := by
  have key : ∀ (n : Nat) (t s : RunSt G F σ), t.seen.length = t.gens → (∀ off ∈ t.seen, ∀ x ∈ off, x.invalid = true) →
      a.loop order n t = .ok s → s.seen.length = s.gens ∧ ∀ off ∈ s.seen, ∀ x ∈ off, x.invalid = true := by
    intro n
    induction n with
    | zero => intro t s _ _ h; cases h
    | succ n ih =>
      intro t s hl hi h
      unfold Alg.loop Alg.generation at h
      cases hbr : a.breed t.gens t.pop with
      | error e => simp [hbr] at h
      | ok off =>
        have e : applyTrace a.evaluator.eval off (order t.gens off) = off := by
          rw [applyTrace_perm _ _ _ (allowed_perm (ho t.gens off)), ha]
          exact List.map_id off
        simp only [hbr, e] at h
        cases hr : a.replace t.gens t.pop off with
        | error e => simp [hr] at h
        | ok r =>
          obtain ⟨q, q'⟩ := r
          simp only [hr] at h
          by_cases g1 : t.pop.length > q.length
          · simp [g1] at h
          · by_cases g2 : t.pop.length < q.length
            · simp [g1, g2] at h
            · simp only [g1, g2, if_false] at h
              have hs : ∀ o ∈ t.seen ++ [off], ∀ x ∈ o, x.invalid = true := by
                intro o ho'
                rcases List.mem_append.1 ho' with h' | h'
                · exact hi o h'
                · rw [List.mem_singleton.1 h']; exact hb _ _ _ hbr
              cases hk : a.cont t.cs t.evals q with
              | error e => simp [hk] at h
              | ok r =>
                obtain ⟨b, cs2⟩ := r
                cases b
                · simp only [hk, Except.ok.injEq] at h
                  subst h
                  exact ⟨by simp [hl], hs⟩
                · simp only [hk] at h
                  exact ih _ _ (by simp [hl]) hs h
  unfold Alg.run at h
  split at h
  · cases h
  · exact key _ _ _ rfl (by simp) h

/-- A model without workers fails its assertion. -/
theorem C300_no_workers (a : Alg G F σ) (order : Nat → List (Ind G F) → List Nat) (fuel : Nat) (pop : List (Ind G F))
    (evals : Nat) (cs : σ) : a.run 0 order fuel pop evals cs = .error .asserted := by simp [Alg.run]

/-- Two generations: offspring are the genomes plus one, replacement keeps the offspring. -/
def demo (e : Evaluator Nat Nat) : Alg Nat Nat Nat where
  evaluator := e
  breed := fun _ pop => .ok (pop.map fun x => Ind.new (x.genome + 1))
  replace := fun _ pop off => .ok (off, pop)
  cont := genCont 2

/-- Backwards: an order that one worker per individual can produce. -/
def backwards (off : List (Ind Nat Nat)) : List Nat := (List.range off.length).reverse

theorem backwards_allowed_two : Allowed .linear 2 2 [1, 0] :=
  ⟨[[0], [1]], by decide +kernel, .step _ 1 1 [] _ rfl (.step _ 0 0 [] _ rfl (.done _ (by simp)))⟩

/-- The hypotheses of `C300_same_as_sequential` are met, and the result is not trivial. -/
example : ((demo (.single (· * 10))).run 2 (fun _ off => backwards off) 5 [Ind.new 1, Ind.new 2] 0 0).map
      (fun s => (s.pop, s.gens)) = .ok ([⟨3, 30, false⟩, ⟨4, 40, false⟩], 2) := by decide +kernel

example : ∀ s e e' pop, (demo (.single (· * 10))).cont s e pop = (demo (.single (· * 10))).cont s e' pop :=
  fun _ _ _ _ => rfl

/-- With an evaluator of populations the same run ends with a population that has no fitness. -/
example : ((demo (.population fun l => l.map (evalFuncPtr (· * 10)))).run 2 (fun _ off => backwards off) 5
      [Ind.new 1, Ind.new 2] 0 0).map (fun s => (s.pop, s.gens)) = .ok ([⟨3, 0, true⟩, ⟨4, 0, true⟩], 2) := by
  decide +kernel

/-! ### C301: particle swarms -/

section Pso
open Paradiseo.Pso

variable {F : Type} [LinearOrder F]

private theorem foldl_point (f : Swarm F → Nat → Swarm F) (one : (Nat → Part F) → Nat → Part F → Part F)
    (hf : ∀ s i, f s i = { s with pop := Function.update s.pop i (one s.nb i (s.pop i)) }) (l : List Nat) (hl : l.Nodup) :
    ∀ s : Swarm F, l.foldl f s = ⟨fun i => if i ∈ l then one s.nb i (s.pop i) else s.pop i, s.nb⟩ := by
  induction l with
  | nil => intro s; simp
  | cons x l ih =>
    intro s
    rw [List.nodup_cons] at hl
    rw [List.foldl_cons, ih hl.2, hf]
    simp only [Swarm.mk.injEq, and_true]
    funext i
    by_cases hx : i = x
    · subst hx
      simp [hl.1]
    · simp [hx]

private theorem evalAll_perm (A : Algo F) (order : List Nat) (h : order.Perm (List.range A.n)) (s : Swarm F) :
    evalAll A false order s = (List.range A.n).foldl A.evalOne s := by
  let one : (Nat → Part F) → Nat → Part F → Part F := fun _ _ p => { p with fit := some (A.eval p.pos) }
  have hf : ∀ (s : Swarm F) i, A.evalOne s i = { s with pop := Function.update s.pop i (one s.nb i (s.pop i)) } :=
    fun _ _ => rfl
  simp only [evalAll, Bool.false_eq_true, if_false]
  rw [foldl_point A.evalOne _ hf _ (h.nodup_iff.mpr List.nodup_range), foldl_point A.evalOne _ hf _ List.nodup_range]
  simp only [h.mem_iff]

/-- The synchronous swarm on workers does, for every interleaving of the threads, what the sequential one does. -/
theorem C301_sync (A : Algo F) (p : Policy) (w : Nat) (order : List Nat) (ho : Allowed p w A.n order) (g : Nat)
    (s : Swarm F) : genSyncPso A false order g s = A.genSync g s := by
  unfold genSyncPso Algo.genSync
  dsimp only
  rw [evalAll_perm A order (allowed_perm ho)]

/-- The swarm that informs the neighbourhoods after every particle does not, on workers, do what it does sequentially: it
does what the *synchronous* swarm does, for every interleaving. -/
theorem C301_async_becomes_sync (A : Algo F) (p : Policy) (w : Nat) (order : List Nat) (ho : Allowed p w A.n order)
    (g : Nat) (s : Swarm F) : genEasyPso A order g s = A.genSync g s := by
  unfold genEasyPso Algo.genSync
  dsimp only
  rw [evalAll_perm A order (allowed_perm ho)]
  congr 2
  rw [foldl_point (fun s i => A.flyOne g (A.veloOne g s i) i)
      (fun nb i p => { p with vel := A.velo g i p (nb (A.topo.look i)), pos := A.fly g i p.pos (A.velo g i p (nb (A.topo.look i))), fit := none })
      (fun s i => by simp [Algo.flyOne, Algo.veloOne]) _ List.nodup_range,
    foldl_point (A.veloOne g) (fun nb i p => { p with vel := A.velo g i p (nb (A.topo.look i)) })
      (fun s i => rfl) _ List.nodup_range,
    foldl_point (A.flyOne g) (fun _ i p => { p with pos := A.fly g i p.pos p.vel, fit := none })
      (fun s i => rfl) _ List.nodup_range]
  simp only [Swarm.mk.injEq, and_true]
  funext i
  by_cases h : i ∈ List.range A.n <;> simp only [h, if_true, if_false]

/-- Two particles on a line attracted by the best one, which is the first after it has moved: sequentially the second
particle sees it, on workers it does not. -/
def pair : Algo ℚ :=
  ⟨2, starTopo, fun _ _ p lb => fun j => p.vel j + (lb.pos j - p.pos j), fun _ _ x v j => x j + v j, fun x => x 0⟩

def pairStart : Swarm ℚ :=
  ⟨fun i => initPart (fun x => x 0) (fun _ => (i : ℚ)) (fun _ => 3), fun _ => initPart (fun x => x 0) (fun _ => 1) (fun _ => 0)⟩

/-- So the results differ from those of the sequential algorithm. -/
theorem C301_differs :
    ∃ (A : Algo ℚ) (s : Swarm ℚ) (order : List Nat), Allowed .linear 2 A.n order ∧
      (A.genAsync 0 s).map (fun t => (t.pop 1).pos 0) ≠ (genEasyPso A order 0 s).map (fun t => (t.pop 1).pos 0) :=
  ⟨pair, pairStart, [1, 0], backwards_allowed_two, by decide +kernel⟩

/-- A synchronous swarm made with an evaluator of populations only throws in its first generation on workers: no particle
is evaluated after it has moved. -/
theorem C301_population_evaluator (A : Algo F) (hn : 0 < A.n) (order : List Nat) (g : Nat) (s : Swarm F) :
    genSyncPso A true order g s = none := by
  unfold genSyncPso
  dsimp only
  rw [foldl_point (A.flyOne g) (fun _ i p => { p with pos := A.fly g i p.pos p.vel, fit := none })
      (fun s i => rfl) _ List.nodup_range]
  obtain ⟨n, hn⟩ := Nat.exists_eq_succ_of_ne_zero (by omega : A.n ≠ 0)
  simp only [evalAll, if_true, hn, Nat.succ_eq_add_one, List.range_succ_eq_map, foldM?]
  simp [updateNbh, personal]

/-- The number of particles is positive and the generation is not an error without the dummy. -/
example : 0 < pair.n ∧ (genSyncPso pair false [1, 0] 0 pairStart).isSome = true := ⟨by decide, by decide +kernel⟩

end Pso

end Paradiseo.MW
