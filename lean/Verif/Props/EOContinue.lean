/-
C101: continuators; C102: the checkpoint; C103, C104: evaluators that keep the best or stop; C105: eoSGA
and restarts.
-/
import Verif.Props.EOAlgo
import Verif.Props.EOBreedOps

namespace Paradiseo.Run

open Paradiseo.EO

variable {α G F σ : Type}

/-! ### C101: continuators -/

/-- The answer to the call number `n` (from 1) of a continuator, for the population `P k` and the number
of evaluations `ev k` in the call number `k + 1`, and the state after it.  It is asked on even after it
has answered `false`. -/
def answers (c : Cont σ α) (s : σ) (ev : Nat → Nat) (P : Nat → List α) : Nat → Except Err (Bool × σ)
  | 0 => .ok (true, s)
  | n + 1 =>
    match answers c s ev P n with
    | .error e => .error e
    | .ok (_, s) => c s (ev n) (P n)

/-- C101, generations: from the count `start` the call number `n` answers `true` exactly if
`start + n < total`. -/
theorem C101_generations (total start : Nat) (ev : Nat → Nat) (P : Nat → List α) (n : Nat) :
    answers (genCont total) start ev P (n + 1) = .ok (decide (start + (n + 1) < total), start + (n + 1)) := by
  induction n with
  | zero =>
    simp only [answers, genCont, Except.ok.injEq, Prod.mk.injEq, Nat.zero_add, and_true]
    rw [← decide_not]
    simp
  | succ n ih =>
    rw [answers, ih]
    simp only [genCont, Except.ok.injEq, Prod.mk.injEq]
    refine ⟨?_, by omega⟩
    rw [← decide_not]
    congr 1
    simp
    omega

theorem bestFitness_ok [LinearOrder F] (f : α → F) {pop : List α} {b : F} (h1 : ∃ x ∈ pop, f x = b)
    (h2 : ∀ x ∈ pop, f x ≤ b) : bestFitness f pop = .ok b := by
  obtain ⟨x, hx, hb⟩ := h1
  obtain ⟨y, e1, e2, e3⟩ := bestElement_spec f pop (List.ne_nil_of_mem hx)
  have : f y = b := le_antisymm (h2 y e2) (hb ▸ e3 x hx)
  simp only [bestFitness, e1, this]

/-- C101, fitness: answers `false` exactly if somebody reaches the optimum; throws for the empty
population. -/
theorem C101_fitness [LinearOrder F] (f : α → F) (optimum : F) (ev : Nat) (pop : List α) :
    (pop ≠ [] → ∃ b, fitCont f optimum () ev pop = .ok (b, ()) ∧
      (b = false ↔ ∃ x ∈ pop, optimum ≤ f x)) ∧
    (pop = [] → fitCont f optimum () ev pop = .error .thrown) := by
  constructor
  · intro h
    obtain ⟨y, e1, e2, e3⟩ := bestElement_spec f pop h
    refine ⟨!decide (optimum ≤ f y), by simp only [fitCont, bestFitness, e1], ?_⟩
    simp only [Bool.not_eq_false', decide_eq_true_eq]
    exact ⟨fun hh => ⟨y, e2, hh⟩, fun ⟨x, hx, hh⟩ => hh.trans (e3 x hx)⟩
  · rintro rfl
    rfl

/-- C101, steady fitness: the call number `n + 1` answers `false` exactly if, since the first generation
after the minimum ones (number `minGens`, from 0), some generation `j` was never beaten up to now and more
than `steadyGens` generations have passed since. -/
theorem C101_steady [LinearOrder F] (f : α → F) (minGens steadyGens : Nat) (ev : Nat → Nat)
    (P : Nat → List α) (b : Nat → F) (hb1 : ∀ k, ∃ x ∈ P k, f x = b k) (hb2 : ∀ k, ∀ x ∈ P k, f x ≤ b k)
    (n : Nat) (hn : n < 2 ^ 32) :
    ∃ a s, answers (steadyCont f minGens steadyGens) Steady.new ev P (n + 1) = .ok (a, s) ∧
      (a = false ↔ ∃ j, minGens ≤ j ∧ j + steadyGens < n ∧ ∀ l, minGens ≤ l → l ≤ n → b l ≤ b j) := by
  have hbest : ∀ k, bestFitness f (P k) = .ok (b k) := fun k => bestFitness_ok f (hb1 k) (hb2 k)
  -- the state after `n` calls
  have inv : ∀ n, n < 2 ^ 32 → ∃ a s, answers (steadyCont f minGens steadyGens) Steady.new ev P n = .ok (a, s) ∧
      s.gen = n ∧ ((n ≤ minGens ∧ s.steady = false) ∨ ∃ j, minGens ≤ j ∧ j < n ∧ s.steady = true ∧
        s.last = some (j + 1) ∧ s.best = some (b j) ∧ (∀ l, minGens ≤ l → l < n → b l ≤ b j) ∧
        ∀ l, minGens ≤ l → l < j → b l < b j) := by
    intro n
    induction n with
    | zero => exact fun _ => ⟨true, Steady.new, rfl, rfl, Or.inl ⟨Nat.zero_le _, rfl⟩⟩
    | succ n ih =>
      intro hn
      obtain ⟨a, s, h1, h2, h3⟩ := ih (by omega)
      obtain ⟨gen, st, last, best⟩ := s
      simp only at h2 h3
      subst h2
      rw [answers, h1]
      simp only [steadyCont, hbest]
      have hmod : (gen + 1) % 2 ^ 32 = gen + 1 := Nat.mod_eq_of_lt hn
      rcases h3 with ⟨h3, h4⟩ | ⟨j, g1, g2, g3, g4, g5, g6, g7⟩
      · simp only [h4, Bool.false_eq_true, if_false]
        by_cases hm : gen + 1 > minGens
        · rw [if_pos hm]
          refine ⟨_, _, rfl, rfl, Or.inr ⟨gen, by omega, by omega, rfl, by simp only [hmod], rfl, ?_, ?_⟩⟩
          · intro l l1 l2
            have : l = gen := by omega
            rw [this]
          · intro l l1 l2
            omega
        · rw [if_neg hm]
          exact ⟨_, _, rfl, rfl, Or.inl ⟨by omega, rfl⟩⟩
      · subst g3 g4 g5
        simp only [if_true]
        by_cases hlt : b j < b gen
        · rw [if_pos hlt]
          refine ⟨_, _, rfl, rfl, Or.inr ⟨gen, by omega, by omega, rfl, by simp only [hmod], rfl, ?_, ?_⟩⟩
          · intro l l1 l2
            rcases Nat.lt_succ_iff_lt_or_eq.mp l2 with h | h
            · exact (g6 l l1 h).trans hlt.le
            · rw [h]
          · intro l l1 l2
            exact (g6 l l1 l2).trans_lt hlt
        · rw [if_neg hlt]
          have fin : ∀ a, ∃ a' s, (Except.ok (a, (⟨gen + 1, true, some (j + 1), some (b j)⟩ : Steady F)) :
              Except Err (Bool × Steady F)) = .ok (a', s) ∧
              s.gen = gen + 1 ∧ ((gen + 1 ≤ minGens ∧ s.steady = false) ∨ ∃ j, minGens ≤ j ∧ j < gen + 1 ∧
                s.steady = true ∧ s.last = some (j + 1) ∧ s.best = some (b j) ∧
                (∀ l, minGens ≤ l → l < gen + 1 → b l ≤ b j) ∧ ∀ l, minGens ≤ l → l < j → b l < b j) := by
            intro a
            refine ⟨_, _, rfl, rfl, Or.inr ⟨j, g1, by omega, rfl, rfl, rfl, ?_, g7⟩⟩
            intro l l1 l2
            rcases Nat.lt_succ_iff_lt_or_eq.mp l2 with h | h
            · exact g6 l l1 h
            · rw [h]
              exact not_lt.mp hlt
          split
          · exact fin _
          · exact fin _
  obtain ⟨a, s, h1, h2, h3⟩ := inv n hn
  obtain ⟨gen, st, last, best⟩ := s
  simp only at h2 h3
  subst h2
  rw [answers, h1]
  simp only [steadyCont, hbest]
  rcases h3 with ⟨h3, h4⟩ | ⟨j, g1, g2, g3, g4, g5, g6, g7⟩
  · simp only [h4, Bool.false_eq_true, if_false]
    have hno : ¬ ∃ j, minGens ≤ j ∧ j + steadyGens < gen ∧ ∀ l, minGens ≤ l → l ≤ gen → b l ≤ b j := by
      rintro ⟨j, j1, j2, _⟩
      omega
    split
    · exact ⟨_, _, rfl, by simp only [hno]; simp⟩
    · exact ⟨_, _, rfl, by simp only [hno]; simp⟩
  · subst g3 g4 g5
    simp only [if_true]
    by_cases hlt : b j < b gen
    · rw [if_pos hlt]
      refine ⟨_, _, rfl, ?_⟩
      simp only [Bool.true_eq_false, false_iff]
      rintro ⟨j', j1, j2, j3⟩
      have h1 := j3 gen (by omega) le_rfl
      have h2 := g6 j' j1 (by omega)
      exact absurd (h1.trans h2) (not_le.mpr hlt)
    · rw [if_neg hlt]
      by_cases hst : gen + 1 - (j + 1) > steadyGens
      · rw [if_pos hst]
        refine ⟨_, _, rfl, ?_⟩
        simp only [true_iff]
        refine ⟨j, g1, by omega, fun l l1 l2 => ?_⟩
        rcases Nat.lt_or_eq_of_le l2 with h | h
        · exact g6 l l1 h
        · rw [h]
          exact not_lt.mp hlt
      · rw [if_neg hst]
        refine ⟨_, _, rfl, ?_⟩
        simp only [Bool.true_eq_false, false_iff]
        rintro ⟨j', j1, j2, j3⟩
        by_cases hjj : j' < j
        · exact absurd (j3 j g1 (by omega)) (not_le.mpr (g7 j' j1 hjj))
        · omega

/-- Hence, with constant best fitness, it stops one generation later than announced: with `minGens` = 0
and `steadyGens` = 2 the calls 1, 2, 3 go on and the call 4 stops. -/
example : ((List.range 5).map fun n => (answers (steadyCont (fun x : Nat => x) 0 2) Steady.new (fun _ => 0)
    (fun _ => [7]) n).toOption.map Prod.fst) = [some true, some true, some true, some true, some false] := by
  decide +kernel

/-- The constructor with a current generation beyond the minimum leaves the members it compares with
unset. -/
theorem C101_steady_uninitialised [LinearOrder F] (f : α → F) (minGens steadyGens current : Nat)
    (h : minGens < current) (ev : Nat) (pop : List α) :
    steadyCont f minGens steadyGens (Steady.newAt minGens current) ev pop = .error .ub := by
  unfold steadyCont
  split
  · rfl
  · simp [Steady.newAt, h]

/-- C101, periods: the call number `n` answers `false` exactly at the multiples of the period (below the
overflow of the counter); the period 0 is undefined. -/
theorem C101_periodic (period start : Nat) (hp : 0 < period) (ev : Nat → Nat) (P : Nat → List α) (n : Nat)
    (hn : start + (n + 1) < 2 ^ 32) :
    answers (periodicCont period) start ev P (n + 1) =
      .ok (decide (¬ period ∣ start + (n + 1)), start + (n + 1)) ∧
    periodicCont 0 start (ev 0) (P 0) = .error .ub := by
  refine ⟨?_, rfl⟩
  have hdvd : ∀ m, decide (m % period ≠ 0) = decide (¬ period ∣ m) := by
    intro m
    congr 1
    rw [Nat.dvd_iff_mod_eq_zero]
  induction n with
  | zero =>
    simp only [answers, periodicCont, show period ≠ 0 by omega, if_false,
      Nat.mod_eq_of_lt (show start + 1 < 2 ^ 32 by omega), hdvd, Nat.zero_add]
  | succ n ih =>
    rw [answers, ih (by omega)]
    simp only [periodicCont, show period ≠ 0 by omega, if_false,
      Nat.mod_eq_of_lt (show start + (n + 1) + 1 < 2 ^ 32 by omega), hdvd]
    rfl

/-- C101, combined: if all answer `true`, so does the combination, and all have been asked; at the first
that answers `false` the combination answers `false` and the later ones are not asked (their state, for
instance a count of generations, is the old one). -/
theorem C101_combined (ev : Nat) (pop : List α) (pre : List (Cont σ α × σ)) (new : Cont σ α × σ → σ)
    (hpre : ∀ p ∈ pre, p.1 p.2 ev pop = .ok (true, new p)) :
    combinedCont pre ev pop = .ok (true, pre.map fun p => (p.1, new p)) ∧
    ∀ (c : Cont σ α) (s s' : σ) (post : List (Cont σ α × σ)), c s ev pop = .ok (false, s') →
      combinedCont (pre ++ (c, s) :: post) ev pop =
        .ok (false, pre.map (fun p => (p.1, new p)) ++ (c, s') :: post) := by
  induction pre with
  | nil =>
    refine ⟨rfl, fun c s s' post h => ?_⟩
    simp only [List.nil_append, combinedCont, h, List.map_nil]
  | cons p pre ih =>
    obtain ⟨ih1, ih2⟩ := ih fun q hq => hpre q (by simp [hq])
    have hp := hpre p (by simp)
    obtain ⟨c0, s0⟩ := p
    refine ⟨?_, fun c s s' post h => ?_⟩
    · simp only at hp
      simp only [combinedCont, hp, ih1, List.map_cons]
    · simp only at hp
      simp only [List.cons_append, combinedCont, hp, ih2 c s s' post h, List.map_cons]

/-- C101, evaluations: an algorithm that stops by the number of evaluations exceeds the total by less than
the offspring of the last generation, counted from what was already used up. -/
theorem C101_evaluations (ea : EA G F Unit) (total : Nat) (hc : ea.cont = evalCont total) (fuel : Nat)
    (pop : List (Ind G F)) (evals : Nat) (s : RunSt G F Unit)
    (h : ea.run fuel pop evals () = .ok s) :
    total ≤ s.evals ∧ ∃ last ∈ s.seen.getLast?,
      s.evals ≤ max (total - 1) (evals + pop.countP (·.invalid)) + last.length := by
  have key : ∀ (n : Nat) (s s' : RunSt G F Unit) (m : Nat), s.evals ≤ max (total - 1) m →
      ea.loop n s = .ok s' →
      total ≤ s'.evals ∧ ∃ last ∈ s'.seen.getLast?, s'.evals ≤ max (total - 1) m + last.length := by
    intro n
    induction n with
    | zero => intro s s' m _ h; simp [EA.loop] at h
    | succ n ih =>
      intro s s' m hm h
      rw [EA.loop] at h
      split at h
      · simp at h
      · rename_i s1 h1
        obtain ⟨off, pop', o', _, _, _, rfl⟩ := generation_ok h1
        simp only [hc, evalCont] at h
        by_cases hle : total ≤ (evalPop ea.f s.evals off).1
        · simp only [ge_iff_le, hle, decide_true, Bool.not_true, Except.ok.injEq] at h
          subst h
          refine ⟨hle, (evalPop ea.f s.evals off).2, by simp, ?_⟩
          have hcnt := (C47_evalPop ea.f s.evals off).2.2.2
          have hl := evalPop_length ea.f s.evals off
          have hle : off.countP (·.invalid) ≤ off.length := List.countP_le_length
          simp only
          omega
        · simp only [ge_iff_le, hle, decide_false, Bool.not_false] at h
          refine ih _ _ m ?_ h
          simp only
          omega
  refine key fuel _ _ _ ?_ h
  have hcnt := (C47_evalPop ea.f evals pop).2.2.2
  simp only [EA.start]
  omega

/-- It never stops if the generations give no individual to evaluate. -/
theorem C101_evaluations_endless (ea : EA G F Unit) (total : Nat) (hc : ea.cont = evalCont total)
    (hb : ∀ g p, (∀ x ∈ p, x.invalid = false) →
      ∃ off, ea.breed g p = .ok off ∧ ∀ x ∈ off, x.invalid = false)
    (hr : ∀ g p o, ∃ p' o', ea.replace g p o = .ok (p', o') ∧
      (o.length = p.length → p'.length = p.length) ∧ ∀ x ∈ p', x ∈ p ∨ x ∈ o)
    (hlen : ∀ g p off, ea.breed g p = .ok off → off.length = p.length)
    (pop : List (Ind G F)) (evals : Nat) (hlt : evals + pop.countP (·.invalid) < total) (fuel : Nat) :
    ea.run fuel pop evals () = .error .fuel := by
  have key : ∀ (n : Nat) (s : RunSt G F Unit), s.evals < total → (∀ x ∈ s.pop, x.invalid = false) →
      ea.loop n s = .error .fuel := by
    intro n
    induction n with
    | zero => intro s _ _; rfl
    | succ n ih =>
      intro s hs hv
      obtain ⟨off, ho, hz⟩ := hb s.gens s.pop hv
      obtain ⟨p', o', hr1, hr2, hr3⟩ := hr s.gens s.pop (evalPop ea.f s.evals off).2
      have hr2 := hr2 (by rw [evalPop_length, hlen _ _ _ ho])
      have hcnt := (C47_evalPop ea.f s.evals off).2.2.2
      rw [List.countP_eq_zero.mpr (fun x hx => by simp [hz x hx])] at hcnt
      have hg : ea.generation s = .ok ⟨p', (evalPop ea.f s.evals off).1, s.cs, s.gens + 1,
          s.seen ++ [(evalPop ea.f s.evals off).2]⟩ := by
        unfold EA.generation
        simp only [ho, hr1, hr2, gt_iff_lt, lt_irrefl, if_false]
      have hlt : ¬ total ≤ (evalPop ea.f s.evals off).1 := by omega
      rw [EA.loop, hg]
      simp only [hc, evalCont, ge_iff_le, hlt, decide_false, Bool.not_false]
      refine ih _ (by simp only; omega) fun x hx => ?_
      rcases hr3 x hx with h | h
      · exact hv x h
      · exact (C47_evalPop ea.f s.evals off).2.1 x h
  have hcnt := (C47_evalPop ea.f evals pop).2.2.2
  refine key fuel _ ?_ (C47_evalPop ea.f evals pop).2.1
  simp only [EA.start]
  omega

example (fuel : Nat) : (⟨id, fun _ p => .ok p, fun _ => generational, evalCont 10⟩ : EA Nat Nat Unit).run fuel
    [Ind.new 1, Ind.new 2] 0 () = .error .fuel :=
  C101_evaluations_endless _ 10 rfl (fun _ p hp => ⟨p, rfl, hp⟩)
    (fun _ p o => ⟨o, p, rfl, fun h => h, fun _ hx => Or.inr hx⟩)
    (fun _ p off h => by simp only [Except.ok.injEq] at h; rw [h]) _ _ (by decide) _

end Paradiseo.Run
