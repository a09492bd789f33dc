import Verif.Lemmas.SmpIsland
import Verif.Props.EOContinue

/-! Properties of the island model of smp. -/

namespace Paradiseo.Smp

variable {α : Type}

/-! ## C113: what migration delivers -/

/-- In every execution, at every moment, whatever an island has integrated was emitted by an island
that the topology links to it, and no island integrates a batch twice. -/
theorem C113_only_from_neighbours (c : Cfg α) (topo : Matrix Bool) (hsq : Square topo c.n)
    (pops : Nat → List α) (s : ISt α) (hr : IReach c (ISt.start topo pops) s) (j : Nat) :
    (∀ b ∈ s.received j, b ∈ s.emitted ∧ j ∈ neighbors topo b.src) ∧
      ((s.received j).map Batch.id).Nodup := by
  have h := inv_reach (inv_start c topo hsq pops) hr
  obtain ⟨taken, hperm, hnd, hfw⟩ := h.flow
  have hem : ∀ b ∈ s.received j, b ∈ s.emitted := fun b hb =>
    hperm.mem_iff.mpr (by simp [(hfw _ (h.received_forwarded hb)).1])
  constructor
  · intro b hb
    obtain ⟨_, h2, h3⟩ := hfw _ (h.received_forwarded hb)
    exact ⟨hem b hb, (mem_neighbors hsq _ _).mpr ⟨h2, h3⟩⟩
  · have h1 : (s.received j ++ s.immig j ++ addressed j s.inflight).Nodup :=
      (h.cons j).nodup_iff.mp (nodup_addressed hnd)
    rw [List.append_assoc] at h1
    have h2 : (s.received j).Nodup := (List.nodup_append.mp h1).1
    refine List.Nodup.map_on ?_ h2
    intro x hx y hy hxy
    exact List.inj_on_of_nodup_map h.nodup_ids (hem x hx) (hem y hy) hxy

/-- A batch the model takes from its queue while the island it comes from and a neighbour of that
island are both still at work (as far as the model has noticed) is integrated by this neighbour
before the model returns: in every execution that goes on from there and returns. -/
theorem C113_delivered (c : Cfg α) (topo : Matrix Bool) (hsq : Square topo c.n)
    (pops : Nat → List α) (s t : ISt α) (hr : IReach c (ISt.start topo pops) s) (b : Batch α)
    (rest : List (Batch α)) (hq : s.emig = b :: rest) (j : Nat) (hj : j ∈ neighbors topo b.src)
    (hw : s.working b.src = true ∧ s.working j = true) (hrun : s.phase = .run)
    (ht : IReach c s.forward t) (hover : t.phase = .over) : b ∈ t.received j := by
  have h := inv_reach (inv_start c topo hsq pops) hr
  have hb : b ∈ s.emitted := by
    obtain ⟨taken, hperm, _⟩ := h.flow
    exact hperm.mem_iff.mpr (by simp [hq])
  have hj' := (mem_neighbors hsq _ _).mp hj
  have hn : j ∈ neighbors s.topo b.src :=
    (h.of_getM (h.srcs b hb)).mpr ⟨hj'.1, hj'.2, hw.1, hw.2⟩
  have hf : (j, b) ∈ s.forward.forwarded := by
    simp only [ISt.forward, hq, List.mem_append, List.mem_map, Prod.mk.injEq]
    exact Or.inr ⟨j, hn, rfl, trivial⟩
  have hf' := forwarded_mono ht hf
  have ht' := inv_reach (inv_forward h (Or.inl hrun)) ht
  have := (ht'.cons j).mem_iff.mp (mem_addressed.mpr hf')
  rw [ht'.fin hover j hj'.1, (ht'.late (by simp [hover]) (by simp [hover])).2] at this
  simpa [addressed] using this

/-- A batch the model takes from its queue after it has noticed that the island it comes from has
stopped, or after its main loop, is never integrated by any island: it is lost. -/
theorem C113_lost (c : Cfg α) (topo : Matrix Bool) (hsq : Square topo c.n)
    (pops : Nat → List α) (s t : ISt α) (hr : IReach c (ISt.start topo pops) s) (b : Batch α)
    (rest : List (Batch α)) (hq : s.emig = b :: rest)
    (hw : (s.phase = .run ∧ s.working b.src = false) ∨ s.phase = .flush)
    (ht : IReach c s.forward t) (j : Nat) : b ∉ t.received j := by
  have h := inv_reach (inv_start c topo hsq pops) hr
  obtain ⟨taken, hperm, _, hfw⟩ := h.flow
  have hb : b ∈ s.emitted := hperm.mem_iff.mpr (by simp [hq])
  have hsrc := h.srcs b hb
  have hwork : s.working b.src = false := by
    rcases hw with hw | hw
    · exact hw.2
    · exact h.ph (by simp [hw]) _ hsrc
  have hno : neighbors s.topo b.src = [] := by
    rw [List.eq_nil_iff_forall_not_mem]
    intro k hk
    have := (h.of_getM hsrc).mp hk
    rw [hwork] at this
    simp at this
  have hnd := hperm.nodup_iff.mp h.nodup_emitted
  rw [hq] at hnd
  have hd : Dropped b s.forward := by
    simp only [ISt.forward, hq, Dropped, hno, List.map_nil, List.append_nil]
    rw [List.append_assoc, List.nodup_append] at hnd
    obtain ⟨_, h2, h3⟩ := hnd
    simp only [List.cons_append, List.nodup_cons, List.mem_append, not_or] at h2
    refine ⟨hb, fun hcon => h3 b hcon b (by simp) rfl, h2.1.1, fun k hk => h2.1.2 (hfw _ hk).1⟩
  have hp : s.phase = .run ∨ s.phase = .flush := by
    rcases hw with hw | hw
    · exact Or.inl hw.1
    · exact Or.inr hw
  have h' := inv_forward h hp
  have hd' := dropped_reach h' ht hd
  intro hcon
  exact hd'.2.2.2 j ((inv_reach h' ht).received_forwarded hcon)

/-- When the model returns, nothing is left in any queue: a batch was integrated by an island, or it
never will be. -/
theorem C113_queues_empty (c : Cfg α) (topo : Matrix Bool) (hsq : Square topo c.n)
    (pops : Nat → List α) (s : ISt α) (hr : IReach c (ISt.start topo pops) s)
    (hover : s.phase = .over) :
    s.outbox = [] ∧ s.emig = [] ∧ s.inflight = [] ∧ ∀ i, i < c.n → s.immig i = [] := by
  have h := inv_reach (inv_start c topo hsq pops) hr
  obtain ⟨h1, h2⟩ := h.late (by simp [hover]) (by simp [hover])
  exact ⟨h1, h.em (Or.inr hover), h2, h.fin hover⟩

/-! A ring of two islands, individuals are numbers: evaluation adds 100 to the immigrants. -/

def demoCfg : Cfg Nat := ⟨2, fun p q => q ⊆ p, fun p d => d.Sublist p, fun p o => p ++ o, (· + 100)⟩

def demo0 : ISt Nat := ISt.start (ring 2) (fun i => [i % 2])

/-- island 0 has emitted its individual and the model has it in its queue -/
def demoQ : ISt Nat :=
  { demo0 with emig := [⟨0, 0, [0]⟩], emitted := [⟨0, 0, [0]⟩] }

/-- island 0 has emitted its individual, the message is under way -/
def demoE : ISt Nat :=
  { demo0 with outbox := [⟨0, 0, [0]⟩], emitted := [⟨0, 0, [0]⟩] }

theorem demo_emit : IReach demoCfg demo0 demoE :=
  .one (IStep.emit demo0 0 [0] (by decide) rfl (by simp [demoCfg, demo0, ISt.start]))

theorem demo_queue : IReach demoCfg demo0 demoQ :=
  .step _ _ demo_emit (IStep.toModel (c := demoCfg) demoE [] [] ⟨0, 0, [0]⟩ rfl)

-- both islands still work: the hypotheses of C113_delivered
example : demoQ.emig = [⟨0, 0, [0]⟩] ∧ 1 ∈ neighbors (ring 2) 0 ∧ demoQ.working 0 = true ∧
    demoQ.working 1 = true ∧ demoQ.phase = .run ∧ IReach demoCfg demo0 demoQ :=
  ⟨rfl, by decide +kernel, rfl, rfl, rfl, demo_queue⟩

/-- island 0's batch arrives at island 1, which integrates the re-evaluated individual -/
theorem demo_delivered : ∃ t, IReach demoCfg demoQ.forward t ∧ t.received 1 = [⟨0, 0, [0]⟩] ∧
    t.pops 1 = [1, 100] := by
  have hn : neighbors (ring 2) 0 = [1] := by decide +kernel
  have h1 : demoQ.forward.inflight = [] ++ (1, ⟨0, 0, [0]⟩) :: [] := by
    simp [ISt.forward, demoQ, demo0, ISt.start, hn]
  refine ⟨_, .step _ _ (.one (IStep.toIsland (c := demoCfg) demoQ.forward [] [] 1 ⟨0, 0, [0]⟩ h1))
    (IStep.receive _ 1 (by decide) ?_), ?_, ?_⟩ <;>
  simp [ISt.integrate, ISt.forward, demoQ, demo0, ISt.start, demoCfg]

/-- the same, but both islands stop before the message is delivered to the model -/
theorem demo_lost : ∃ s, IReach demoCfg demo0 s ∧ s.emig = [⟨0, 0, [0]⟩] ∧ s.phase = .flush := by
  have a := IStep.stop (c := demoCfg) demoE 0 (by decide) rfl
  have b := IStep.stop (c := demoCfg) _ 1 (by decide)
    (show ({ demoE with stopped := Function.update demoE.stopped 0 true } : ISt Nat).stopped 1 =
      false by simp [demoE, demo0, ISt.start])
  have c := IStep.isolate (c := demoCfg) _ 0 (by decide)
    (show ({ demoE with stopped := Function.update (Function.update demoE.stopped 0 true) 1 true } :
      ISt Nat).phase = .run from rfl) (by simp) (by simp [demoE, demo0, ISt.start])
  have d := IStep.isolate (c := demoCfg) _ 1 (by decide)
    (show ({ demoE with
        stopped := Function.update (Function.update demoE.stopped 0 true) 1 true
        working := Function.update demoE.working 0 false
        topo := isolateNode false demoE.topo 0 } : ISt Nat).phase = .run from rfl) (by simp)
    (by simp [demoE, demo0, ISt.start])
  have e := IStep.leave (c := demoCfg) _
    (show ({ demoE with
        stopped := Function.update (Function.update demoE.stopped 0 true) 1 true
        working := Function.update (Function.update demoE.working 0 false) 1 false
        topo := isolateNode false (isolateNode false demoE.topo 0) 1 } : ISt Nat).phase = .run
      from rfl)
    (by
      intro i hi
      have : i = 0 ∨ i = 1 := by simp only [demoCfg] at hi; omega
      rcases this with rfl | rfl <;> simp)
  have f := IStep.toModel (c := demoCfg)
    ({ demoE with
        phase := .wait
        stopped := Function.update (Function.update demoE.stopped 0 true) 1 true
        working := Function.update (Function.update demoE.working 0 false) 1 false
        topo := isolateNode false (isolateNode false demoE.topo 0) 1 } : ISt Nat)
    [] [] ⟨0, 0, [0]⟩ rfl
  have g := IStep.joined (c := demoCfg) _
    (show ({ demoE with
        phase := .wait
        outbox := []
        emig := [⟨0, 0, [0]⟩]
        stopped := Function.update (Function.update demoE.stopped 0 true) 1 true
        working := Function.update (Function.update demoE.working 0 false) 1 false
        topo := isolateNode false (isolateNode false demoE.topo 0) 1 } : ISt Nat).phase = .wait
      from rfl) rfl rfl
  exact ⟨_, .step _ _ (.step _ _ (.step _ _ (.step _ _ (.step _ _ (.step _ _ (.step _ _ demo_emit a) b)
    c) d) e) f) g, rfl, rfl⟩

/-- So the hypotheses of C113_lost are met, although the topology links island 0 to island 1 and the
model lets the islands take their last immigrants afterwards. -/
example : ∃ s, IReach demoCfg demo0 s ∧ (∃ b rest, s.emig = b :: rest ∧
    1 ∈ neighbors (ring 2) b.src) ∧ s.phase = .flush := by
  obtain ⟨s, h1, h2, h3⟩ := demo_lost
  exact ⟨s, h1, ⟨_, _, h2, by decide +kernel⟩, h3⟩

/-! ## C114: populations, and the end of the run -/

/-- Immigrants never enter a population as they came, only after invalidation and evaluation: if a
property of individuals (say, carrying their true fitness) holds in the initial populations, is kept
by the algorithms, holds after evaluation whatever the individual was, and is kept by the integration
policy, then it holds of all individuals of all islands at every moment, whatever was emitted. -/
theorem C114_immigrants_evaluated (c : Cfg α) (topo : Matrix Bool) (pops : Nat → List α)
    (P : α → Prop) (h0 : ∀ i, ∀ x ∈ pops i, P x)
    (hevo : ∀ p q, (∀ x ∈ p, P x) → c.evo p q → ∀ x ∈ q, P x)
    (heval : ∀ x, P (c.reeval x))
    (hint : ∀ p o, (∀ x ∈ p, P x) → (∀ x ∈ o, P x) → ∀ x ∈ c.intPolicy p o, P x)
    (s : ISt α) (hr : IReach c (ISt.start topo pops) s) (i : Nat) : ∀ x ∈ s.pops i, P x := by
  have hI : ∀ (a : ISt α) (k : Nat), (∀ i, ∀ x ∈ a.pops i, P x) →
      ∀ i, ∀ x ∈ (a.integrate c k).pops i, P x := by
    intro a k ha i
    unfold ISt.integrate
    split
    · exact ha i
    · by_cases hik : i = k
      · subst hik
        simp only [Function.update_self]
        exact hint _ _ (ha i) (by simp only [List.mem_map]; rintro _ ⟨x, _, rfl⟩; exact heval x)
      · simpa [hik] using ha i
  have hF : ∀ a : ISt α, a.forward.pops = a.pops := by
    intro a
    unfold ISt.forward
    split <;> rfl
  revert i
  induction hr with
  | init => exact h0
  | step a b _ hab ih =>
    cases hab with
    | evolve k p hk hst hp =>
      intro i
      by_cases hik : i = k
      · subst hik
        simpa using hevo _ _ (ih i) hp
      · simpa [hik] using ih i
    | receive k => exact hI a k ih
    | finalReceive k => exact hI a k ih
    | send => rw [hF]; exact ih
    | flushSend => rw [hF]; exact ih
    | _ => exact ih

-- in the demonstration nobody but the two natives lives un-evaluated on an island
example (s : ISt Nat) (hr : IReach demoCfg demo0 s) (i : Nat) :
    ∀ x ∈ s.pops i, x ≤ 1 ∨ 100 ≤ x :=
  C114_immigrants_evaluated demoCfg (ring 2) _ (fun x => x ≤ 1 ∨ 100 ≤ x)
    (by intro i x hx; simp only [List.mem_singleton] at hx; omega)
    (fun p q hp hq x hx => hp x (hq hx)) (fun x => Or.inr (by simp [demoCfg]))
    (fun p o hp ho x hx => by
      simp only [demoCfg, List.mem_append] at hx
      exact hx.elim (hp x) (ho x)) s hr i

theorem drain_outbox (c : Cfg α) (k : Nat) : ∀ s : ISt α, s.outbox.length = k →
    ∃ t, IReach c s t ∧ t.outbox = [] ∧ t.phase = s.phase := by
  induction k with
  | zero => intro s h; exact ⟨s, .init, List.length_eq_zero_iff.mp h, rfl⟩
  | succ k ih =>
    intro s h
    obtain ⟨b, r, hb⟩ := List.exists_cons_of_length_eq_add_one h
    have st := IStep.toModel (c := c) s [] r b hb
    obtain ⟨t, h1, h2, h3⟩ := ih _ (by simp [hb] at h; simpa using h :
      ({ s with outbox := [] ++ r, emig := s.emig ++ [b] } : ISt α).outbox.length = k)
    exact ⟨t, (IReach.one st).trans h1, h2, h3⟩

theorem drain_inflight (c : Cfg α) (k : Nat) : ∀ s : ISt α, s.inflight.length = k →
    ∃ t, IReach c s t ∧ t.inflight = [] ∧ t.outbox = s.outbox ∧ t.phase = s.phase := by
  induction k with
  | zero => intro s h; exact ⟨s, .init, List.length_eq_zero_iff.mp h, rfl, rfl⟩
  | succ k ih =>
    intro s h
    obtain ⟨⟨j, b⟩, r, hb⟩ := List.exists_cons_of_length_eq_add_one h
    have st := IStep.toIsland (c := c) s [] r j b hb
    obtain ⟨t, h1, h2, h3⟩ := ih _ (by simp [hb] at h; simpa using h :
      ({ s with inflight := [] ++ r, immig := Function.update s.immig j (s.immig j ++ [b]) } :
        ISt α).inflight.length = k)
    exact ⟨t, (IReach.one st).trans h1, h2, h3⟩

theorem drain_emig (c : Cfg α) (k : Nat) : ∀ s : ISt α, s.phase = .flush → s.emig.length = k →
    ∃ t, IReach c s t ∧ t.emig = [] ∧ t.phase = .flush := by
  induction k with
  | zero => intro s hp h; exact ⟨s, .init, List.length_eq_zero_iff.mp h, hp⟩
  | succ k ih =>
    intro s hp h
    obtain ⟨b, r, hb⟩ := List.exists_cons_of_length_eq_add_one h
    have e1 : s.forward.phase = .flush := by simp [ISt.forward, hb, hp]
    have e2 : s.forward.emig.length = k := by simp [hb] at h; simp [ISt.forward, hb, h]
    obtain ⟨t, h1, h2, h3⟩ := ih _ e1 e2
    exact ⟨t, (IReach.one (IStep.flushSend s hp)).trans h1, h2, h3⟩

theorem drain_immig (c : Cfg α) (i : Nat) (hi : i < c.n) (k : Nat) : ∀ s : ISt α,
    s.phase = .final → (s.immig i).length = k →
    ∃ t, IReach c s t ∧ t.phase = .final ∧ t.immig i = [] ∧ ∀ j, j ≠ i → t.immig j = s.immig j := by
  induction k with
  | zero => intro s hp h; exact ⟨s, .init, hp, List.length_eq_zero_iff.mp h, fun _ _ => rfl⟩
  | succ k ih =>
    intro s hp h
    obtain ⟨b, r, hb⟩ := List.exists_cons_of_length_eq_add_one h
    have e1 : (s.integrate c i).phase = .final := by simp [ISt.integrate, hb, hp]
    have e2 : ((s.integrate c i).immig i).length = k := by
      simp [hb] at h; simp [ISt.integrate, hb, h]
    have e3 : ∀ j, j ≠ i → (s.integrate c i).immig j = s.immig j := by
      intro j hj; simp [ISt.integrate, hb, hj]
    obtain ⟨t, h1, h2, h3, h4⟩ := ih _ e1 e2
    exact ⟨t, (IReach.one (IStep.finalReceive s i hi hp)).trans h1, h2, h3,
      fun j hj => (h4 j hj).trans (e3 j hj)⟩

theorem drain_all_immig (c : Cfg α) (s : ISt α) (hp : s.phase = .final) (k : Nat) (hk : k ≤ c.n) :
    ∃ t, IReach c s t ∧ t.phase = .final ∧ ∀ i, i < k → t.immig i = [] := by
  induction k with
  | zero => exact ⟨s, .init, hp, by simp⟩
  | succ k ih =>
    obtain ⟨t, h1, h2, h3⟩ := ih (by omega)
    obtain ⟨u, g1, g2, g3, g4⟩ := drain_immig c k (by omega) _ t h2 rfl
    refine ⟨u, h1.trans g1, g2, ?_⟩
    intro i hi
    by_cases hik : i = k
    · rw [hik]; exact g3
    · rw [g4 i hik]; exact h3 i (by omega)

theorem stop_all (c : Cfg α) (s : ISt α) (k : Nat) (hk : k ≤ c.n) :
    ∃ t, IReach c s t ∧ t.phase = s.phase ∧ ∀ i, i < k → t.stopped i = true := by
  induction k with
  | zero => exact ⟨s, .init, rfl, by simp⟩
  | succ k ih =>
    obtain ⟨t, h1, h2, h3⟩ := ih (by omega)
    cases hst : t.stopped k with
    | true =>
      refine ⟨t, h1, h2, ?_⟩
      intro i hi
      by_cases hik : i = k
      · rw [hik]; exact hst
      · exact h3 i (by omega)
    | false =>
      refine ⟨_, h1.trans (.one (IStep.stop t k (by omega) hst)), h2, ?_⟩
      intro i hi
      by_cases hik : i = k
      · simp [hik]
      · simpa [hik] using h3 i (by omega)

theorem isolate_all (c : Cfg α) (s : ISt α) (hp : s.phase = .run)
    (hst : ∀ i, i < c.n → s.stopped i = true) (k : Nat) (hk : k ≤ c.n) :
    ∃ t, IReach c s t ∧ t.phase = .run ∧ t.stopped = s.stopped ∧
      ∀ i, i < k → t.working i = false := by
  induction k with
  | zero => exact ⟨s, .init, hp, rfl, by simp⟩
  | succ k ih =>
    obtain ⟨t, h1, h2, h3, h4⟩ := ih (by omega)
    cases hw : t.working k with
    | false =>
      refine ⟨t, h1, h2, h3, ?_⟩
      intro i hi
      by_cases hik : i = k
      · rw [hik]; exact hw
      · exact h4 i (by omega)
    | true =>
      refine ⟨_, h1.trans (.one (IStep.isolate t k (by omega) h2
        (by rw [h3]; exact hst k (by omega)) hw)), h2, h3, ?_⟩
      intro i hi
      by_cases hik : i = k
      · simp [hik]
      · simpa [hik] using h4 i (by omega)

/-- The model never locks up: from every state of every execution, with any number of messages under
way, there is a continuation in which all islands stop and the model returns. -/
theorem C114_can_return (c : Cfg α) (s : ISt α) : ∃ t, IReach c s t ∧ t.phase = .over := by
  have hfinal : ∀ s : ISt α, s.phase = .final → ∃ t, IReach c s t ∧ t.phase = .over := by
    intro s hp
    obtain ⟨t, h1, h2, h3⟩ := drain_all_immig c s hp c.n le_rfl
    exact ⟨_, h1.trans (.one (IStep.over t h2 h3)), rfl⟩
  have hflush : ∀ s : ISt α, s.phase = .flush → ∃ t, IReach c s t ∧ t.phase = .over := by
    intro s hp
    obtain ⟨t, h1, h2, h3⟩ := drain_emig c _ s hp rfl
    obtain ⟨u, g1, g2⟩ := hfinal _ (rfl : ({ t with phase := .final } : ISt α).phase = .final)
    exact ⟨u, (h1.trans (.one (IStep.flushed t h3 h2))).trans g1, g2⟩
  have hwait : ∀ s : ISt α, s.phase = .wait → ∃ t, IReach c s t ∧ t.phase = .over := by
    intro s hp
    obtain ⟨t, h1, h2, h3⟩ := drain_outbox c _ s rfl
    obtain ⟨u, g1, g2, g3, g4⟩ := drain_inflight c _ t rfl
    obtain ⟨v, k1, k2⟩ := hflush _ (rfl : ({ u with phase := .flush } : ISt α).phase = .flush)
    exact ⟨v, ((h1.trans g1).trans (.one (IStep.joined u (by rw [g4, h3, hp]) (by rw [g3, h2]) g2))).trans
      k1, k2⟩
  cases hp : s.phase with
  | over => exact ⟨s, .init, hp⟩
  | final => exact hfinal s hp
  | flush => exact hflush s hp
  | wait => exact hwait s hp
  | run =>
    obtain ⟨t, h1, h2, h3⟩ := stop_all c s c.n le_rfl
    obtain ⟨u, g1, g2, _, g4⟩ := isolate_all c t (h2.trans hp) h3 c.n le_rfl
    obtain ⟨v, k1, k2⟩ := hwait _ (rfl : ({ u with phase := .wait } : ISt α).phase = .wait)
    exact ⟨v, ((h1.trans g1).trans (.one (IStep.leave u g2 g4))).trans k1, k2⟩

/-! ## C115: the shared stopping criterion -/

/-- Once the flag is set every call answers "stop". -/
theorem shared_after {F : Type} [LinearOrder F] (f : α → F) (optimum : F) (pops : List (List α)) :
    sharedAnswers f optimum true pops = .ok (pops.map fun _ => false) := by
  induction pops with
  | nil => rfl
  | cons p ps ih => simp [sharedAnswers, sharedFit, ih]

/-- Whatever the populations, at most one call ever answers "go on": among all the generations of all
islands that share the criterion. -/
theorem C115_at_most_one_generation {F : Type} [LinearOrder F] (f : α → F) (optimum : F)
    (pops : List (List α)) (bs : List Bool) (h : sharedAnswers f optimum false pops = .ok bs) :
    bs.count true ≤ 1 := by
  induction pops generalizing bs with
  | nil => simp [sharedAnswers] at h; subst h; simp
  | cons p ps ih =>
    simp only [sharedAnswers, sharedFit, Bool.false_eq_true, if_false] at h
    cases hf : Run.fitCont f optimum () 0 p with
    | error e => rw [hf] at h; simp at h
    | ok r =>
      obtain ⟨b, u⟩ := r
      rw [hf] at h
      simp only at h
      cases b with
      | true =>
        rw [shared_after] at h
        simp only [Except.ok.injEq] at h
        subst h
        simp [List.count_eq_zero]
      | false =>
        cases hr : sharedAnswers f optimum false ps with
        | error e => rw [hr] at h; simp at h
        | ok r =>
          rw [hr] at h
          simp only [Except.ok.injEq] at h
          subst h
          simpa using ih r hr

/-- The criterion does the opposite of what it is for.  With populations none of which has come to
the optimum, the first call lets its island go on and every later call stops its island; and when
the first population has come to it, its own island is stopped but the next island, if it has not, is
told to go on. -/
theorem C115_inverted {F : Type} [LinearOrder F] (f : α → F) (optimum : F) (p q : List α)
    (rest : List (List α)) (hp : p ≠ []) (hq : q ≠ []) :
    ((∀ x ∈ p, f x < optimum) → sharedAnswers f optimum false (p :: q :: rest) =
        .ok (true :: false :: rest.map fun _ => false)) ∧
      ((∃ x ∈ p, optimum ≤ f x) → (∀ x ∈ q, f x < optimum) →
        sharedAnswers f optimum false (p :: q :: rest) =
          .ok (false :: true :: rest.map fun _ => false)) := by
  obtain ⟨b, hb1, hb2⟩ := (Run.C101_fitness f optimum 0 p).1 hp
  obtain ⟨d, hd1, hd2⟩ := (Run.C101_fitness f optimum 0 q).1 hq
  constructor
  · intro h
    have : b = true := by
      rw [← Bool.not_eq_false, hb2]
      rintro ⟨x, hx, hle⟩
      exact absurd (h x hx) (not_lt.mpr hle)
    subst this
    simp [sharedAnswers, sharedFit, hb1, shared_after]
  · intro h h'
    have e1 : b = false := hb2.mpr h
    have e2 : d = true := by
      rw [← Bool.not_eq_false, hd2]
      rintro ⟨x, hx, hle⟩
      exact absurd (h' x hx) (not_lt.mpr hle)
    subst e1 e2
    simp [sharedAnswers, sharedFit, hb1, hd1, shared_after]

example : sharedAnswers (fun x : Nat => x) 10 false [[3], [4], [5]] = .ok [true, false, false] := by
  decide +kernel

example : sharedAnswers (fun x : Nat => x) 10 false [[3, 12], [4], [5]] = .ok [false, true, false] := by
  decide +kernel

/-! ## C116: numbering of the islands -/

theorem createTable_out {B : Type} [DecidableEq B] (bs : List B) (k : Nat) (t : Bimap Nat B) (b : B)
    (hb : b ∉ bs) : (createTable bs k t).left b = t.left b := by
  induction bs generalizing k t with
  | nil => rfl
  | cons x xs ih =>
    simp only [List.mem_cons, not_or] at hb
    simp [createTable, ih _ _ hb.2, Bimap.add, hb.1]

theorem createTable_right {B : Type} [DecidableEq B] (bs : List B) (k : Nat) (t : Bimap Nat B)
    (i : Nat) : (createTable bs k t).right i =
      if k ≤ i then (match bs[i - k]? with | some b => some b | none => t.right i) else t.right i := by
  induction bs generalizing k t with
  | nil => simp [createTable]
  | cons x xs ih =>
    rw [createTable, ih]
    rcases Nat.lt_trichotomy i k with h | h | h
    · simp [show ¬ k + 1 ≤ i by omega, show ¬ k ≤ i by omega, Bimap.add, show i ≠ k by omega]
    · subst h
      simp [Bimap.add]
    · obtain ⟨d, rfl⟩ : ∃ d, i = k + 1 + d := ⟨i - (k + 1), by omega⟩
      simp [show k ≤ k + 1 + d by omega, Bimap.add, show k + 1 + d ≠ k by omega,
        show k + 1 + d - k = d + 1 by omega]

theorem createTable_left {B : Type} [DecidableEq B] (bs : List B) (hnd : bs.Nodup) (k : Nat)
    (t : Bimap Nat B) (i : Nat) (b : B) (hb : bs[i]? = some b) :
    (createTable bs k t).left b = some (k + i) := by
  induction bs generalizing k t i with
  | nil => simp at hb
  | cons x xs ih =>
    rw [List.nodup_cons] at hnd
    rw [createTable]
    cases i with
    | zero =>
      simp only [List.getElem?_cons_zero, Option.some.injEq] at hb
      subst hb
      rw [createTable_out _ _ _ _ hnd.1]
      simp [Bimap.add]
    | succ i =>
      rw [List.getElem?_cons_succ] at hb
      rw [ih hnd.2 (k + 1) _ i hb]
      congr 1
      omega

/-- Distinct islands are numbered in the order in which they were added, and the two directions of
the table agree. -/
theorem C116_table {B : Type} [DecidableEq B] (islands : List B) (hnd : islands.Nodup) (i : Nat)
    (b : B) :
    let t := createTable islands 0 ⟨fun _ => none, fun _ => none⟩
    (t.right i = some b ↔ islands[i]? = some b) ∧ (t.left b = some i ↔ islands[i]? = some b) := by
  intro t
  have h1 : t.right i = islands[i]? := by
    simp only [t, createTable_right]
    cases islands[i]? <;> simp
  refine ⟨by rw [h1], ?_⟩
  constructor
  · intro h
    by_cases hb : b ∈ islands
    · obtain ⟨k, hk, hkb⟩ := List.getElem_of_mem hb
      have h2 : islands[k]? = some b := by rw [List.getElem?_eq_getElem hk, hkb]
      have h3 := createTable_left islands hnd 0 ⟨fun _ => none, fun _ => none⟩ k b h2
      have : t.left b = some (0 + k) := h3
      rw [h] at this
      simp only [Option.some.injEq] at this
      rw [this, Nat.zero_add]
      exact h2
    · have h2 := createTable_out islands 0 ⟨fun _ => none, fun _ => none⟩ b hb
      have : t.left b = none := h2
      rw [h] at this
      simp at this
  · intro h
    have := createTable_left islands hnd 0 ⟨fun _ => none, fun _ => none⟩ i b h
    simpa [t] using this

/-- An island added twice is known under both numbers, but its emigrants are sent to the neighbours
of the last of them only. -/
theorem C116_added_twice {B : Type} [DecidableEq B] (l r : List B) (b : B) (hr : b ∉ r) :
    let t := createTable (l ++ b :: r) 0 ⟨fun _ => none, fun _ => none⟩
    t.left b = some l.length := by
  have key : ∀ (l : List B) (k : Nat) (t : Bimap Nat B),
      (createTable (l ++ b :: r) k t).left b = some (k + l.length) := by
    intro l
    induction l with
    | nil =>
      intro k t
      simp [createTable, createTable_out _ _ _ _ hr, Bimap.add]
    | cons x xs ih =>
      intro k t
      simp only [List.cons_append, createTable, ih, List.length_cons]
      congr 1
      omega
  simpa using key l 0 ⟨fun _ => none, fun _ => none⟩

example : (createTable ["a", "b", "a"] 0 ⟨fun _ => none, fun _ => none⟩).left "a" = some 2 :=
  C116_added_twice ["a", "b"] [] "a" (by simp)

end Paradiseo.Smp
