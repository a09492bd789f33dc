/-
C103, C104: evaluators that keep the best or stop; C105: eoSGA and restarts.
-/
import Verif.Props.EOContinue

namespace Paradiseo.Run

open Paradiseo.EO

variable {α G F σ : Type}

/-! ### C103: keeping the best -/

/-- The first of the best of a list: strictly better than those before, at least as good as those
after. -/
def FirstBest [LinearOrder F] (l : List (Ind G F)) (v : Ind G F) : Prop :=
  ∃ pre post, l = pre ++ v :: post ∧ (∀ y ∈ pre, y.repFitness < v.repFitness) ∧
    ∀ y ∈ post, y.repFitness ≤ v.repFitness

theorem keepBestAll_from [LinearOrder F] (eval : Ind G F → Ind G F) (h : ∀ x, (eval x).invalid = false)
    (xs : List (Ind G F)) (pre : List (Ind G F)) (k : Keep G F) (hk : FirstBest pre k.value)
    (hv : k.value.invalid = false) :
    ∃ k', keepBestAll eval k xs = .ok (xs.map eval, k') ∧ FirstBest (pre ++ xs.map eval) k'.value ∧
      k'.value.invalid = false ∧
      (xs ≠ [] → (k'.found = true ↔ ∃ init last, pre ++ xs.map eval = init ++ [last] ∧
        ∀ y ∈ init, y.repFitness < last.repFitness)) := by
  induction xs generalizing pre k with
  | nil => exact ⟨k, rfl, by simpa using hk, hv, by simp⟩
  | cons x xs ih =>
    have he := h x
    have hgt := (C47_compare (eval x) k.value).2.2 (eval x).repFitness k.value.repFitness
      (by simp only [Ind.invalid] at he; simp [Ind.fitness, he])
      (by simp only [Ind.invalid] at hv; simp [Ind.fitness, hv])
    obtain ⟨p1, p2, e1, e2, e3⟩ := hk
    have hpos : ∃ a, a ∈ pre ∧ a.repFitness = k.value.repFitness := ⟨k.value, by rw [e1]; simp, rfl⟩
    have hbest : ∀ y ∈ pre, y.repFitness ≤ k.value.repFitness := by
      intro y hy
      rw [e1] at hy
      rcases List.mem_append.mp hy with hy | hy
      · exact (e2 y hy).le
      · rcases List.mem_cons.mp hy with rfl | hy
        · exact le_rfl
        · exact e3 y hy
    have hstep : ∃ k1, keepBest eval k x = .ok (eval x, k1) ∧ FirstBest (pre ++ [eval x]) k1.value ∧
        k1.value.invalid = false ∧ (k1.found = true ↔ k.value.repFitness < (eval x).repFitness) := by
      unfold keepBest
      simp only [he, hv, Bool.false_eq_true, if_false, hgt.2]
      by_cases hlt : k.value.repFitness < (eval x).repFitness
      · simp only [hlt, decide_true]
        exact ⟨_, rfl, ⟨pre, [], by simp, fun y hy => (hbest y hy).trans_lt hlt, by simp⟩, he, by simp⟩
      · simp only [hlt, decide_false]
        refine ⟨_, rfl, ⟨p1, p2 ++ [eval x], by rw [e1]; simp, e2, ?_⟩, hv, by simp⟩
        intro y hy
        rcases List.mem_append.mp hy with hy | hy
        · exact e3 y hy
        · rw [List.mem_singleton] at hy
          rw [hy]
          exact not_lt.mp hlt
    obtain ⟨k1, s1, s2, s3, s4⟩ := hstep
    obtain ⟨k', r1, r2, r3, r4⟩ := ih (pre ++ [eval x]) k1 s2 s3
    refine ⟨k', by simp only [keepBestAll, s1, r1, List.map_cons], by simpa using r2, r3, fun _ => ?_⟩
    cases xs with
    | nil =>
      simp only [keepBestAll, Except.ok.injEq, Prod.mk.injEq, List.map_nil, true_and] at r1
      subst r1
      rw [s4]
      constructor
      · intro hlt
        exact ⟨pre, eval x, by simp, fun y hy => (hbest y hy).trans_lt hlt⟩
      · rintro ⟨init, last, hl, hlast⟩
        simp only [List.map_cons, List.map_nil] at hl
        obtain ⟨rfl, hx⟩ := List.append_inj' hl rfl
        simp only [List.cons.injEq, and_true] at hx
        subst hx
        exact hlast k.value (by rw [e1]; simp)
    | cons x' xs' =>
      rw [r4 (by simp)]
      simp

/-- C103: after evaluating any non-empty list of individuals from the start, the kept individual is the
first of the best ones (the evaluations themselves are those of the wrapped evaluator); `found` tells
whether the last evaluation was strictly better than all those before, except that for the very first
individual it is `false`. -/
theorem C103_keep_best [LinearOrder F] [Inhabited F] (eval : Ind G F → Ind G F)
    (h : ∀ x, (eval x).invalid = false) (g : G) (xs : List (Ind G F)) (hne : xs ≠ []) :
    ∃ k, keepBestAll eval ⟨Ind.new g, false⟩ xs = .ok (xs.map eval, k) ∧ FirstBest (xs.map eval) k.value ∧
      (k.found = true ↔ 2 ≤ xs.length ∧ ∃ init last, xs.map eval = init ++ [last] ∧
        ∀ y ∈ init, y.repFitness < last.repFitness) := by
  cases xs with
  | nil => exact absurd rfl hne
  | cons x xs =>
    have h1 : keepBest eval ⟨Ind.new g, false⟩ x = .ok (eval x, ⟨eval x, false⟩) := by
      unfold keepBest
      rw [h x]
      simp [Ind.new, Ind.invalid]
    obtain ⟨k, e1, e2, e3, e4⟩ := keepBestAll_from eval h xs [eval x] ⟨eval x, false⟩
      ⟨[], [], rfl, by simp, by simp⟩ (h x)
    refine ⟨k, by simp only [keepBestAll, h1, e1, List.map_cons], e2, ?_⟩
    cases xs with
    | nil =>
      simp only [keepBestAll, Except.ok.injEq, Prod.mk.injEq, List.map_nil, true_and] at e1
      subst e1
      simp
    | cons x' xs' =>
      rw [e4 (by simp)]
      simp

example : keepBestAll (evalFuncPtr (fun n : Nat => n % 10)) ⟨Ind.new 0, false⟩ [Ind.new 17, Ind.new 3, Ind.new 27] =
    .ok ([⟨17, 7, false⟩, ⟨3, 3, false⟩, ⟨27, 7, false⟩], ⟨⟨17, 7, false⟩, false⟩) := by
  rfl

/-! ### C104: stopping by an exception -/

/-- C104: evaluating a population with a limit.  It throws exactly if an evaluation is needed and the
limit is reached; then exactly the evaluations up to the limit have been made (at least one): the
individuals before are evaluated, the one at the limit too, the later ones are untouched.  Otherwise it is
the counting evaluation. -/
theorem C104_stop (f : G → F) (limit c : Nat) (xs : List (Ind G F)) :
    ((xs.countP (·.invalid) = 0 ∨ c + xs.countP (·.invalid) < limit) →
      evalThrowPop f limit c xs = ((evalPop f c xs).1, (evalPop f c xs).2, false)) ∧
    (0 < xs.countP (·.invalid) → limit ≤ c + xs.countP (·.invalid) →
      ∃ pre x post, xs = pre ++ x :: post ∧ x.invalid = true ∧
        c + pre.countP (·.invalid) + 1 = max limit (c + 1) ∧
        evalThrowPop f limit c xs = (max limit (c + 1),
          (evalPop f c pre).2 ++ x.setFitness (f x.genome) :: post, true)) := by
  induction xs generalizing c with
  | nil => simp [evalThrowPop, evalPop]
  | cons x xs ih =>
    by_cases hx : x.invalid = true
    · have hcnt : (x :: xs).countP (·.invalid) = xs.countP (·.invalid) + 1 := by simp [hx]
      have hev : evalCounter f c x = (c + 1, x.setFitness (f x.genome)) := by
        simp [evalCounter, hx, evalFuncPtr]
      have ht : evalThrow f limit c x = (c + 1, x.setFitness (f x.genome), decide (c + 1 ≥ limit)) := by
        simp [evalThrow, hx, hev]
      by_cases hl : limit ≤ c + 1
      · refine ⟨fun h => by omega, fun _ _ => ⟨[], x, xs, rfl, hx, by simp; omega, ?_⟩⟩
        rw [evalThrowPop, ht]
        simp [hl, evalPop]
      · obtain ⟨ih1, ih2⟩ := ih (c + 1)
        refine ⟨fun h => ?_, fun _ h2 => ?_⟩
        · rw [evalThrowPop, ht, ih1 (by omega)]
          simp [hl, evalPop, hev]
        · obtain ⟨pre, y, post, e1, e2, e3, e4⟩ := ih2 (by omega) (by omega)
          refine ⟨x :: pre, y, post, by rw [e1]; rfl, e2, ?_, ?_⟩
          · simp only [List.countP_cons, hx, if_true]
            omega
          · have hm : max limit (c + 1 + 1) = max limit (c + 1) := by omega
            rw [evalThrowPop, ht, e4, hm]
            simp [hl, evalPop, hev]
    · have hcnt : (x :: xs).countP (·.invalid) = xs.countP (·.invalid) := by simp [hx]
      have hev : evalCounter f c x = (c, x) := by
        simp [evalCounter, hx]
      have ht : evalThrow f limit c x = (c, x, false) := by
        simp [evalThrow, hx]
      obtain ⟨ih1, ih2⟩ := ih c
      refine ⟨fun h => ?_, fun h1 h2 => ?_⟩
      · rw [evalThrowPop, ht, ih1 (by omega)]
        simp [evalPop, hev]
      · obtain ⟨pre, y, post, e1, e2, e3, e4⟩ := ih2 (by omega) (by omega)
        refine ⟨x :: pre, y, post, by rw [e1]; rfl, e2, ?_, ?_⟩
        · simp only [List.countP_cons, hx, if_false, Bool.false_eq_true]
          omega
        · rw [evalThrowPop, ht, e4]
          simp [evalPop, hev]

example : evalThrowPop (fun n : Nat => n) 2 0 [Ind.new 4, ⟨5, 5, false⟩, Ind.new 6, Ind.new 7] =
    (2, [⟨4, 4, false⟩, ⟨5, 5, false⟩, ⟨6, 6, false⟩, Ind.new 7], true) := by
  decide

/-! ### C105: eoSGA and restarts -/

theorem mapM_ok (sel : Nat → Except Err α) (l : List Nat) (off : List α) (h : l.mapM sel = .ok off) :
    off.length = l.length ∧ ∀ x ∈ off, ∃ t, sel t = .ok x := by
  induction l generalizing off with
  | nil =>
    simp only [List.mapM_nil] at h
    cases h
    simp
  | cons i l ih =>
    rw [List.mapM_cons] at h
    cases hs : sel i with
    | error e =>
      rw [hs] at h
      simp [bind, Except.bind] at h
    | ok x =>
      rw [hs] at h
      cases hl : l.mapM sel with
      | error e =>
        rw [hl] at h
        simp [bind, Except.bind] at h
      | ok off' =>
        rw [hl] at h
        simp only [bind, Except.bind, pure, Except.pure, Except.ok.injEq] at h
        subst h
        obtain ⟨h1, h2⟩ := ih off' hl
        refine ⟨by simp [h1], fun y hy => ?_⟩
        rcases List.mem_cons.mp hy with rfl | hy
        · exact ⟨i, hs⟩
        · exact h2 y hy

/-- C105, generation of eoSGA: with a selector giving members of the population and truthful operators, the
population keeps its size, everybody has the fitness of their genome, and there is at most one evaluation
for each. -/
theorem C105_sga_generation [Inhabited F] (f : G → F)
    (sel : List (Ind G F) → Nat → Except Err (Ind G F)) (u : Nat → ℚ) {cross : Breed.QuadOp (Ind G F)}
    (hq : Breed.HonestQuad cross) (pCross : ℚ) {mutn : Breed.MonOp (Ind G F)} (hm : Breed.HonestMon mutn)
    (pMut : ℚ) (evals : Nat) (pop : List (Ind G F)) (hsel : ∀ t x, sel pop t = .ok x → x ∈ pop)
    (hup : ∀ x ∈ pop, ∀ v, x.fitness = some v → v = f x.genome) (evals' : Nat) (pop' : List (Ind G F))
    (h : sgaGeneration f sel u cross pCross mutn pMut evals pop = .ok (evals', pop')) :
    pop'.length = pop.length ∧ (∀ x ∈ pop', x.fitness = some (f x.genome)) ∧
    evals ≤ evals' ∧ evals' ≤ evals + pop.length := by
  unfold sgaGeneration at h
  split at h
  · simp at h
  · rename_i off ho
    simp only [Except.ok.injEq, Prod.ext_iff] at h
    unfold selectPerc at ho
    obtain ⟨h1, h2⟩ := mapM_ok _ _ _ ho
    have hlen : off.length = pop.length := by
      rw [h1, List.length_range]
      simp
    have hst := (Breed.C97_no_stale_fitness f u hq pCross hm pMut off).1 (by
      intro x hx v hv
      obtain ⟨t, ht⟩ := h2 x hx
      exact hup x (hsel t x ht) v hv)
    obtain ⟨_, _, htl, _⟩ := Breed.C97_transform u cross pCross mutn pMut off
    obtain ⟨e1, e2, e3, e4⟩ := C47_evalPop f evals (Breed.sgaTransform u cross pCross mutn pMut off)
    have hle : (Breed.sgaTransform u cross pCross mutn pMut off).countP (·.invalid) ≤
      (Breed.sgaTransform u cross pCross mutn pMut off).length := List.countP_le_length
    rw [← h.2, ← h.1]
    refine ⟨by rw [evalPop_length, htl, hlen], e3 hst, by omega, by omega⟩

/-- C105, reset: the new population has the wanted size, depends on the old one only by its size, and
everybody is evaluated (rightly, if the initialiser invalidates or sets the right fitness). -/
theorem C105_reset [Inhabited F] (f : G → F) (init : Nat → Ind G F → Ind G F) (dflt : G) (size : Option Nat)
    (evals : Nat) (pop pop2 : List (Ind G F)) :
    (popReset f init dflt size evals pop).2.length = size.getD pop.length ∧
    (∀ x ∈ (popReset f init dflt size evals pop).2, x.invalid = false) ∧
    ((∀ i v, (init i (Ind.new dflt)).fitness = some v → v = f (init i (Ind.new dflt)).genome) →
      ∀ x ∈ (popReset f init dflt size evals pop).2, x.fitness = some (f x.genome)) ∧
    (pop.length = pop2.length →
      popReset f init dflt size evals pop = popReset f init dflt size evals pop2) := by
  unfold popReset
  refine ⟨by rw [evalPop_length]; simp, (C47_evalPop _ _ _).2.1, fun h => ?_, fun h => by rw [h]⟩
  refine (C47_evalPop _ _ _).2.2.1 ?_
  intro x hx v hv
  simp only [List.mem_map] at hx
  obtain ⟨i, _, rfl⟩ := hx
  exact h i v hv

/-- C105, restart: if it returns, the algorithm has been run at least once, and the result is that of the
algorithm on a population just reset: nothing of the earlier turns is kept. -/
theorem C105_restart (reset algo : Nat → List α → Except Err (List α)) (cont : Cont σ α) (n : Nat) (s : σ)
    (pop res : List α) (k : Nat) (h : restart reset algo cont n 0 s pop = .ok (res, k)) :
    1 ≤ k ∧ k ≤ n ∧ ∃ p q, reset (k - 1) p = .ok q ∧ algo (k - 1) q = .ok res := by
  have key : ∀ (n m : Nat) (s : σ) (pop res : List α) (k : Nat),
      restart reset algo cont n m s pop = .ok (res, k) →
      m + 1 ≤ k ∧ k ≤ m + n ∧ ∃ p q, reset (k - 1) p = .ok q ∧ algo (k - 1) q = .ok res := by
    intro n
    induction n with
    | zero => intro m s pop res k h; simp [restart] at h
    | succ n ih =>
      intro m s pop res k h
      rw [restart] at h
      split at h
      · simp at h
      · rename_i q hq
        split at h
        · simp at h
        · rename_i r hr
          split at h
          · simp at h
          · obtain ⟨h1, h2, h3⟩ := ih _ _ _ _ _ h
            exact ⟨by omega, by omega, h3⟩
          · simp only [Except.ok.injEq, Prod.mk.injEq] at h
            obtain ⟨rfl, rfl⟩ := h
            exact ⟨le_rfl, by omega, pop, q, by simpa using hq, by simpa using hr⟩
  have := key n 0 s pop res k h
  simpa using this

example : restart (fun k _ => .ok [k]) (fun _ p => .ok (p.map (· + 10))) (genCont 3) 5 0 0 [99] = .ok ([12], 3) := by
  rfl

end Paradiseo.Run
