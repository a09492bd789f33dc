/-
C102: the checkpoint; C103, C104: evaluators that keep the best or stop; C105: eoSGA and restarts.
-/
import Verif.Props.EOContinue

namespace Paradiseo.Run

open Paradiseo.EO

variable {α G F σ : Type}

/-! ### C102: the checkpoint -/

/-- The order of the actions. -/
def rank : Ev α → Nat
  | .sorted _ _ => 0
  | .stat _ _ => 1
  | .updater _ => 2
  | .monitor _ => 3
  | .cont _ => 4
  | .lastSorted _ _ => 5
  | .lastStat _ _ => 6
  | .lastUpdater _ => 7
  | .lastMonitor _ => 8

/-- The population an action is shown, if any. -/
def shown : Ev α → Option (List α)
  | .sorted _ p => some p
  | .stat _ p => some p
  | .lastSorted _ p => some p
  | .lastStat _ p => some p
  | _ => none

theorem cpConts_spec (ev : Nat) (pop : List α) (ans : Cont σ α × σ → Bool) (new : Cont σ α × σ → σ)
    (cs : List (Cont σ α × σ)) (h : ∀ p ∈ cs, p.1 p.2 ev pop = .ok (ans p, new p)) (i : Nat) (b : Bool) :
    cpConts i b cs ev pop = .ok (b && cs.all ans, cs.map (fun p => (p.1, new p)),
      (List.range' i cs.length).map Ev.cont) := by
  induction cs generalizing i b with
  | nil => simp [cpConts]
  | cons p cs ih =>
    have hp := h p (by simp)
    obtain ⟨c, s⟩ := p
    simp only at hp
    simp only [cpConts, hp, ih (fun q hq => h q (by simp [hq]))]
    simp only [List.all_cons, List.map_cons, List.length_cons, List.range'_succ]
    cases ans (c, s) <;> simp

theorem count_range_map [DecidableEq α] (c : Nat → Ev α) (hc : Function.Injective c) (n i : Nat) :
    ((List.range n).map c).count (c i) = if i < n then 1 else 0 := by
  rw [List.count_map_of_injective _ _ hc]
  by_cases h : i < n
  · rw [if_pos h, List.count_eq_one_of_mem List.nodup_range (by simpa using h)]
  · rw [if_neg h, List.count_eq_zero]
    simpa using h

theorem count_map_ne [DecidableEq α] (c : Nat → Ev α) (l : List Nat) (e : Ev α) (h : ∀ i, c i ≠ e) :
    (l.map c).count e = 0 := by
  rw [List.count_eq_zero]
  simp only [List.mem_map, not_exists, not_and]
  exact fun i _ => h i

/-- C102: one call.  If all continuators answer (`ans`, with new states `new`), the checkpoint answers
`true` exactly if all do, and all of them are asked (no short circuit).  Every sorted statistic, statistic,
updater, monitor and continuator is called exactly once, in this order; the "last call" of every component
happens exactly if the answer is `false`, once, after everything else.  Statistics see the population,
sorted statistics the sorted population. -/
theorem C102_call [DecidableEq α] (sort : List α → List α) (cp : CP) (cs : List (Cont σ α × σ)) (evals : Nat)
    (pop : List α) (ans : Cont σ α × σ → Bool) (new : Cont σ α × σ → σ)
    (h : ∀ p ∈ cs, p.1 p.2 evals pop = .ok (ans p, new p)) :
    ∃ log, checkpoint sort cp cs evals pop = .ok (cs.all ans, cs.map (fun p => (p.1, new p)), log) ∧
      (log.map rank).Pairwise (· ≤ ·) ∧
      (∀ i, log.count (.sorted i (sort pop)) = if i < cp.sorted then 1 else 0) ∧
      (∀ i, log.count (.stat i pop) = if i < cp.stats then 1 else 0) ∧
      (∀ i, log.count (.updater i) = if i < cp.updaters then 1 else 0) ∧
      (∀ i, log.count (.monitor i) = if i < cp.monitors then 1 else 0) ∧
      (∀ i, log.count (.cont i) = if i < cs.length then 1 else 0) ∧
      (∀ i, log.count (.lastSorted i (sort pop)) = if cs.all ans = false ∧ i < cp.sorted then 1 else 0) ∧
      (∀ i, log.count (.lastStat i pop) = if cs.all ans = false ∧ i < cp.stats then 1 else 0) ∧
      (∀ i, log.count (.lastUpdater i) = if cs.all ans = false ∧ i < cp.updaters then 1 else 0) ∧
      (∀ i, log.count (.lastMonitor i) = if cs.all ans = false ∧ i < cp.monitors then 1 else 0) ∧
      ∀ e ∈ log, ∀ p, shown e = some p → p = pop ∨ p = sort pop := by
  have hcont : (List.range' 0 cs.length).map (Ev.cont (α := α)) = (List.range cs.length).map Ev.cont := by
    rw [List.range_eq_range']
  have inj1 : Function.Injective fun i => Ev.sorted i (sort pop) := fun a b h => by simpa using h
  have inj2 : Function.Injective fun i => Ev.stat i pop := fun a b h => by simpa using h
  have inj3 : Function.Injective (Ev.updater (α := α)) := fun a b h => by simpa using h
  have inj4 : Function.Injective (Ev.monitor (α := α)) := fun a b h => by simpa using h
  have inj5 : Function.Injective (Ev.cont (α := α)) := fun a b h => by simpa using h
  have inj6 : Function.Injective fun i => Ev.lastSorted i (sort pop) := fun a b h => by simpa using h
  have inj7 : Function.Injective fun i => Ev.lastStat i pop := fun a b h => by simpa using h
  have inj8 : Function.Injective (Ev.lastUpdater (α := α)) := fun a b h => by simpa using h
  have inj9 : Function.Injective (Ev.lastMonitor (α := α)) := fun a b h => by simpa using h
  unfold checkpoint
  rw [cpConts_spec evals pop ans new cs h, hcont]
  simp only [Bool.true_and]
  refine ⟨_, rfl, ?_, ?_, ?_, ?_, ?_, ?_, ?_, ?_, ?_, ?_, ?_⟩
  · have hr : ∀ (c : Nat → Ev α) (k n : Nat), (∀ i, rank (c i) = k) →
        ((List.range n).map c).map rank = List.replicate n k := by
      intro c k n hk
      rw [List.map_map]
      apply List.eq_replicate_iff.mpr
      simp [hk]
    cases cs.all ans <;>
      simp only [List.map_append, hr (fun i => Ev.sorted i (sort pop)) 0 _ (fun _ => rfl),
        hr (fun i => Ev.stat i pop) 1 _ (fun _ => rfl), hr Ev.updater 2 _ (fun _ => rfl),
        hr Ev.monitor 3 _ (fun _ => rfl), hr Ev.cont 4 _ (fun _ => rfl),
        hr (fun i => Ev.lastSorted i (sort pop)) 5 _ (fun _ => rfl),
        hr (fun i => Ev.lastStat i pop) 6 _ (fun _ => rfl), hr Ev.lastUpdater 7 _ (fun _ => rfl),
        hr Ev.lastMonitor 8 _ (fun _ => rfl), Bool.not_false, Bool.not_true, if_true, if_false,
        Bool.false_eq_true, List.map_nil, List.append_nil, List.pairwise_append, List.pairwise_replicate,
        List.mem_append, List.mem_replicate] <;>
      · simp only [le_refl, or_true, true_and]
        and_intros <;> intro a ha b hb <;> omega
  · intro i
    cases cs.all ans <;> simp only [List.count_append, Bool.not_false, Bool.not_true, if_true, if_false,
        Bool.false_eq_true, List.count_nil] <;>
      rw [count_range_map (fun i => Ev.sorted i (sort pop)) inj1] <;>
      repeat rw [count_map_ne]
    all_goals simp
  · intro i
    cases cs.all ans <;> simp only [List.count_append, Bool.not_false, Bool.not_true, if_true, if_false,
        Bool.false_eq_true, List.count_nil] <;>
      rw [count_range_map (fun i => Ev.stat i pop) inj2] <;>
      repeat rw [count_map_ne]
    all_goals simp
  · intro i
    cases cs.all ans <;> simp only [List.count_append, Bool.not_false, Bool.not_true, if_true, if_false,
        Bool.false_eq_true, List.count_nil] <;>
      rw [count_range_map _ inj3] <;>
      repeat rw [count_map_ne]
    all_goals simp
  · intro i
    cases cs.all ans <;> simp only [List.count_append, Bool.not_false, Bool.not_true, if_true, if_false,
        Bool.false_eq_true, List.count_nil] <;>
      rw [count_range_map _ inj4] <;>
      repeat rw [count_map_ne]
    all_goals simp
  · intro i
    cases cs.all ans <;> simp only [List.count_append, Bool.not_false, Bool.not_true, if_true, if_false,
        Bool.false_eq_true, List.count_nil] <;>
      rw [count_range_map _ inj5] <;>
      repeat rw [count_map_ne]
    all_goals simp
  · intro i
    cases cs.all ans
    · simp only [List.count_append, Bool.not_false, if_true]
      rw [count_range_map (fun i => Ev.lastSorted i (sort pop)) inj6]
      repeat rw [count_map_ne]
      all_goals simp
    · simp only [List.count_append, Bool.not_true, if_false, Bool.false_eq_true, List.count_nil]
      repeat rw [count_map_ne]
      all_goals simp
  · intro i
    cases cs.all ans
    · simp only [List.count_append, Bool.not_false, if_true]
      rw [count_range_map (fun i => Ev.lastStat i pop) inj7]
      repeat rw [count_map_ne]
      all_goals simp
    · simp only [List.count_append, Bool.not_true, if_false, Bool.false_eq_true, List.count_nil]
      repeat rw [count_map_ne]
      all_goals simp
  · intro i
    cases cs.all ans
    · simp only [List.count_append, Bool.not_false, if_true]
      rw [count_range_map _ inj8]
      repeat rw [count_map_ne]
      all_goals simp
    · simp only [List.count_append, Bool.not_true, if_false, Bool.false_eq_true, List.count_nil]
      repeat rw [count_map_ne]
      all_goals simp
  · intro i
    cases cs.all ans
    · simp only [List.count_append, Bool.not_false, if_true]
      rw [count_range_map _ inj9]
      repeat rw [count_map_ne]
      all_goals simp
    · simp only [List.count_append, Bool.not_true, if_false, Bool.false_eq_true, List.count_nil]
      repeat rw [count_map_ne]
      all_goals simp
  · intro e he p hp
    cases hb : cs.all ans <;> rw [hb] at he <;>
      simp only [Bool.not_false, Bool.not_true, if_true, if_false, Bool.false_eq_true, List.append_nil,
        List.mem_append, List.mem_map] at he <;>
      rcases he with h | h <;> revert hp <;> aesop (add norm simp shown)

/-- Two statistics, one monitor, two continuators of which the first stops: the second is asked too. -/
example : (checkpoint (σ := Nat) id ⟨0, 2, 0, 1⟩ [(genCont 1, 0), (genCont 5, 3)] 0 [4, 2]).map
    (fun r => (r.1, r.2.1.map Prod.snd, r.2.2)) = .ok (false, [1, 4],
    [.stat 0 [4, 2], .stat 1 [4, 2], .monitor 0, .cont 0, .cont 1, .lastStat 0 [4, 2], .lastStat 1 [4, 2],
      .lastMonitor 0]) := by
  rfl

/-- C102: a whole run of the algorithm.  If the run returns, every monitor has been called once in each
generation, and its last call happened once, after all the other calls of the run. -/
theorem C102_run [DecidableEq G] [DecidableEq F] (ea : EA G F (List (Cont σ (Ind G F) × σ) × List (Ev (Ind G F))))
    (sort : List (Ind G F) → List (Ind G F)) (cp : CP) (hc : ea.cont = cpCont sort cp) (fuel : Nat)
    (pop : List (Ind G F)) (evals : Nat) (cs : List (Cont σ (Ind G F) × σ))
    (s : RunSt G F (List (Cont σ (Ind G F) × σ) × List (Ev (Ind G F))))
    (h : ea.run fuel pop evals (cs, []) = .ok s) (i : Nat) (hi : i < cp.monitors) :
    s.cs.2.count (.monitor i) = s.gens ∧ s.cs.2.count (.lastMonitor i) = 1 ∧
    ∃ l1 l2, s.cs.2 = l1 ++ l2 ∧ (∀ e ∈ l1, rank e ≤ 4) ∧ (∀ e ∈ l2, 4 < rank e) := by
  have step : ∀ (cs : List (Cont σ (Ind G F) × σ)) (log : List (Ev (Ind G F))) (evals : Nat)
      (pop : List (Ind G F)) (b : Bool) (cs' : List (Cont σ (Ind G F) × σ)) (log' : List (Ev (Ind G F))),
      cpCont sort cp (cs, log) evals pop = .ok (b, cs', log') → ∃ l1 l2, log' = log ++ (l1 ++ l2) ∧
        (∀ e ∈ l1, rank e ≤ 4) ∧ (∀ e ∈ l2, 4 < rank e) ∧ l1.count (.monitor i) = 1 ∧
        l2.count (.lastMonitor i) = (if b then 0 else 1) ∧ (b = true → l2 = []) := by
    intro cs log evals pop b cs' log' h
    unfold cpCont at h
    split at h
    · simp at h
    · rename_i b1 cs1 ev1 h1
      simp only [Except.ok.injEq, Prod.mk.injEq] at h
      obtain ⟨rfl, rfl, rfl⟩ := h
      unfold checkpoint at h1
      split at h1
      · simp at h1
      · rename_i b2 cs2 evc h2
        simp only [Except.ok.injEq, Prod.mk.injEq] at h1
        obtain ⟨rfl, rfl, rfl⟩ := h1
        have hevc : ∀ (cs : List (Cont σ (Ind G F) × σ)) (j : Nat) (b b' : Bool) cs' evc,
            cpConts j b cs evals pop = .ok (b', cs', evc) → ∀ e ∈ evc, rank e = 4 := by
          intro cs
          induction cs with
          | nil =>
            intro j b b' cs' evc h
            simp only [cpConts, Except.ok.injEq, Prod.mk.injEq] at h
            rw [← h.2.2]
            simp
          | cons p cs ih =>
            intro j b b' cs' evc h
            rw [cpConts] at h
            split at h
            · simp at h
            · split at h
              · simp at h
              · rename_i h3
                simp only [Except.ok.injEq, Prod.mk.injEq] at h
                rw [← h.2.2]
                intro e he
                rcases List.mem_cons.mp he with rfl | he
                · rfl
                · exact ih _ _ _ _ _ h3 e he
        have hevc := hevc _ _ _ _ _ _ h2
        refine ⟨_, _, rfl, ?_, ?_, ?_, ?_, ?_⟩
        · intro e he
          simp only [List.mem_append, List.mem_map] at he
          rcases he with (((⟨_, _, rfl⟩ | ⟨_, _, rfl⟩) | ⟨_, _, rfl⟩) | ⟨_, _, rfl⟩) | he
          · simp [rank]
          · simp [rank]
          · simp [rank]
          · simp [rank]
          · exact (hevc e he).le
        · intro e he
          split at he
          · simp only [List.mem_append, List.mem_map] at he
            rcases he with ((⟨_, _, rfl⟩ | ⟨_, _, rfl⟩) | ⟨_, _, rfl⟩) | ⟨_, _, rfl⟩ <;> simp [rank]
          · simp at he
        · have h0 : evc.count (.monitor i) = 0 := by
            rw [List.count_eq_zero]
            intro hm
            have := hevc _ hm
            simp [rank] at this
          simp only [List.count_append]
          rw [count_range_map Ev.monitor (fun a b h => by simpa using h), h0]
          repeat rw [count_map_ne]
          all_goals simp [hi]
        · cases b2
          · simp only [List.count_append, Bool.not_false, if_true]
            rw [count_range_map Ev.lastMonitor (fun a b h => by simpa using h)]
            repeat rw [count_map_ne]
            all_goals simp [hi]
          · simp
        · rintro rfl
          simp
  have key : ∀ (n : Nat) (s s' : RunSt G F (List (Cont σ (Ind G F) × σ) × List (Ev (Ind G F)))),
      s.cs.2.count (.monitor i) = s.gens → (∀ e ∈ s.cs.2, rank e ≤ 4) → ea.loop n s = .ok s' →
      s'.cs.2.count (.monitor i) = s'.gens ∧ s'.cs.2.count (.lastMonitor i) = 1 ∧
      ∃ l1 l2, s'.cs.2 = l1 ++ l2 ∧ (∀ e ∈ l1, rank e ≤ 4) ∧ (∀ e ∈ l2, 4 < rank e) := by
    intro n
    induction n with
    | zero => intro s s' _ _ h; simp [EA.loop] at h
    | succ n ih =>
      intro s s' h1 h2 h
      rw [EA.loop] at h
      split at h
      · simp at h
      · rename_i s1 hg
        obtain ⟨off, pop', o', _, _, _, rfl⟩ := generation_ok hg
        have hcount : ∀ l : List (Ev (Ind G F)), (∀ e ∈ l, 4 < rank e) → l.count (.monitor i) = 0 := by
          intro l hl
          rw [List.count_eq_zero]
          intro hm
          have := hl _ hm
          simp [rank] at this
        have hcount2 : ∀ l : List (Ev (Ind G F)), (∀ e ∈ l, rank e ≤ 4) → l.count (.lastMonitor i) = 0 := by
          intro l hl
          rw [List.count_eq_zero]
          intro hm
          have := hl _ hm
          simp [rank] at this
        split at h
        · simp at h
        · rename_i cs1 hcc
          simp only [hc] at hcc
          obtain ⟨l1, l2, e1, e2, e3, e4, e5, e6⟩ := step _ _ _ _ _ _ _ hcc
          have e6 := e6 rfl
          subst e6
          refine ih _ _ ?_ ?_ h
          · simp only [e1, List.append_nil, List.count_append, h1, e4]
          · simp only [e1, List.append_nil]
            intro e he
            rcases List.mem_append.mp he with he | he
            · exact h2 e he
            · exact e2 e he
        · rename_i cs1 hcc
          simp only [hc] at hcc
          obtain ⟨l1, l2, e1, e2, e3, e4, e5, _⟩ := step _ _ _ _ _ _ _ hcc
          simp only [Except.ok.injEq] at h
          subst h
          simp only at e1 ⊢
          refine ⟨?_, ?_, s.cs.2 ++ l1, l2, by rw [e1, List.append_assoc], ?_, e3⟩
          · simp only [e1, List.count_append, h1, e4, hcount l2 e3, Nat.add_zero]
          · simp only [e1, List.count_append, hcount2 _ h2, hcount2 _ e2, e5]
            simp
          · intro e he
            rcases List.mem_append.mp he with he | he
            · exact h2 e he
            · exact e2 e he
  exact key fuel _ _ (by simp [EA.start]) (by simp [EA.start]) h

end Paradiseo.Run
