import Verif.Model.SmpIsland
import Verif.Lemmas.SmpTopology
import Mathlib.Data.List.Nodup

/-! The invariant of the island model. -/

namespace Paradiseo.Smp

variable {α : Type}

/-- The messages addressed to island `j`. -/
def addressed (j : Nat) (l : List (Nat × Batch α)) : List (Batch α) :=
  (l.filter fun p => decide (p.1 = j)).map Prod.snd

theorem mem_addressed {j : Nat} {l : List (Nat × Batch α)} {b : Batch α} :
    b ∈ addressed j l ↔ (j, b) ∈ l := by
  simp [addressed]

theorem addressed_append (j : Nat) (l r : List (Nat × Batch α)) :
    addressed j (l ++ r) = addressed j l ++ addressed j r := by
  simp [addressed]

theorem addressed_cons (j k : Nat) (b : Batch α) (l : List (Nat × Batch α)) :
    addressed j ((k, b) :: l) = (if k = j then [b] else []) ++ addressed j l := by
  by_cases h : k = j <;> simp [addressed, List.filter_cons, h]

theorem nodup_addressed {j : Nat} {l : List (Nat × Batch α)} (h : l.Nodup) :
    (addressed j l).Nodup := by
  refine List.Nodup.map_on ?_ (h.filter _)
  rintro ⟨a, b⟩ hx ⟨a', b'⟩ hy he
  simp only [List.mem_filter, decide_eq_true_eq] at hx hy
  simp_all

/-- What holds in every state an execution can come to. -/
structure IInv (c : Cfg α) (topo0 : Matrix Bool) (s : ISt α) : Prop where
  sq : Square s.topo c.n
  edge : ∀ i j, i < c.n → j < c.n → getM false s.topo i j =
    (getM false topo0 i j && s.working i && s.working j)
  stp : ∀ i, i < c.n → s.working i = false → s.stopped i = true
  ph : s.phase ≠ .run → ∀ i, i < c.n → s.working i = false
  late : s.phase ≠ .run → s.phase ≠ .wait → s.outbox = [] ∧ s.inflight = []
  em : s.phase = .final ∨ s.phase = .over → s.emig = []
  fin : s.phase = .over → ∀ i, i < c.n → s.immig i = []
  ids : ∀ (k : Nat) (b : Batch α), s.emitted[k]? = some b → b.id = k
  srcs : ∀ b ∈ s.emitted, b.src < c.n
  flow : ∃ taken, s.emitted.Perm (s.outbox ++ s.emig ++ taken) ∧ s.forwarded.Nodup ∧
    ∀ p ∈ s.forwarded, p.2 ∈ taken ∧ p.1 < c.n ∧ getM false topo0 p.2.src p.1 = true
  cons : ∀ j, (addressed j s.forwarded).Perm
    (s.received j ++ s.immig j ++ addressed j s.inflight)

theorem IInv.nodup_ids {c : Cfg α} {t : Matrix Bool} {s : ISt α} (h : IInv c t s) :
    (s.emitted.map Batch.id).Nodup := by
  rw [List.nodup_iff_getElem?_ne_getElem?]
  intro i j hij hj
  simp only [List.length_map] at hj
  simp only [List.getElem?_map]
  rw [List.getElem?_eq_getElem hj, List.getElem?_eq_getElem (by omega : i < s.emitted.length)]
  simp only [Option.map_some, ne_eq, Option.some.injEq]
  rw [h.ids i _ (List.getElem?_eq_getElem (by omega)), h.ids j _ (List.getElem?_eq_getElem hj)]
  omega

theorem IInv.nodup_emitted {c : Cfg α} {t : Matrix Bool} {s : ISt α} (h : IInv c t s) :
    s.emitted.Nodup := h.nodup_ids.of_map

theorem inv_start (c : Cfg α) (topo0 : Matrix Bool) (hsq : Square topo0 c.n)
    (pops : Nat → List α) : IInv c topo0 (ISt.start topo0 pops) where
  sq := hsq
  edge := by intros; simp [ISt.start]
  stp := by simp [ISt.start]
  ph := by simp [ISt.start]
  late := by simp [ISt.start]
  em := by simp [ISt.start]
  fin := by simp [ISt.start]
  ids := by simp [ISt.start]
  srcs := by simp [ISt.start]
  flow := ⟨[], by simp [ISt.start]⟩
  cons := by simp [ISt.start, addressed]

theorem IInv.of_getM {c : Cfg α} {t : Matrix Bool} {s : ISt α} (h : IInv c t s) {i j : Nat}
    (hi : i < c.n) : j ∈ neighbors s.topo i ↔
      j < c.n ∧ getM false t i j = true ∧ s.working i = true ∧ s.working j = true := by
  rw [mem_neighbors h.sq]
  constructor
  · rintro ⟨hj, he⟩
    rw [h.edge i j hi hj] at he
    simp only [Bool.and_eq_true] at he
    exact ⟨hj, he.1.1, he.1.2, he.2⟩
  · rintro ⟨hj, h1, h2, h3⟩
    exact ⟨hj, by rw [h.edge i j hi hj]; simp [h1, h2, h3]⟩

theorem nodup_neighbors (m : Matrix Bool) (i : Nat) : (neighbors m i).Nodup :=
  List.nodup_range.filter _

theorem inv_forward {c : Cfg α} {t : Matrix Bool} {s : ISt α} (h : IInv c t s)
    (hp : s.phase = .run ∨ s.phase = .flush) : IInv c t s.forward := by
  unfold ISt.forward
  split
  · exact h
  · rename_i b rest he
    obtain ⟨taken, hperm, hnd, hfw⟩ := h.flow
    have hb : b ∈ s.emitted := hperm.mem_iff.mpr (by simp [he])
    have hsrc := h.srcs b hb
    have hnb := nodup_neighbors s.topo b.src
    have hbt : b ∉ taken := by
      have := hperm.nodup_iff.mp h.nodup_emitted
      rw [he, List.nodup_append] at this
      intro hcon
      exact this.2.2 b (by simp) b hcon rfl
    exact
      { sq := h.sq
        edge := h.edge
        stp := h.stp
        ph := h.ph
        late := by
          intro h1 h2
          have hno : neighbors s.topo b.src = [] := by
            rw [List.eq_nil_iff_forall_not_mem]
            intro j hj
            have := (h.of_getM hsrc).mp hj
            rw [h.ph h1 b.src hsrc] at this
            simp at this
          simpa [hno] using h.late h1 h2
        em := by
          intro h1
          rcases hp with hp | hp <;> rcases h1 with h1 | h1 <;> simp [hp] at h1
        fin := by
          intro h1
          rcases hp with hp | hp <;> simp [hp] at h1
        ids := h.ids
        srcs := h.srcs
        flow := by
          refine ⟨b :: taken, ?_, ?_, ?_⟩
          · refine hperm.trans ?_
            rw [he]
            simp only [List.append_assoc, List.cons_append]
            exact List.Perm.append_left _ List.perm_middle.symm
          · rw [List.nodup_append]
            refine ⟨hnd, ?_, ?_⟩
            · exact hnb.map (fun a b' hab => by simpa using hab)
            · rintro ⟨j, b'⟩ hx ⟨j', b''⟩ hy heq
              simp only [List.mem_map, Prod.mk.injEq] at hy
              obtain ⟨k, hk, rfl, rfl⟩ := hy
              cases heq
              exact hbt (hfw _ hx).1
          · rintro ⟨j, b'⟩ hx
            rw [List.mem_append] at hx
            rcases hx with hx | hx
            · exact ⟨List.mem_cons_of_mem _ (hfw _ hx).1, (hfw _ hx).2⟩
            · simp only [List.mem_map, Prod.mk.injEq] at hx
              obtain ⟨k, hk, rfl, rfl⟩ := hx
              have := (h.of_getM hsrc).mp hk
              exact ⟨by simp, this.1, this.2.1⟩
        cons := by
          intro j
          simp only [addressed_append, ← List.append_assoc]
          exact (h.cons j).append_right _ }

theorem inv_integrate {c : Cfg α} {t : Matrix Bool} {s : ISt α} (h : IInv c t s) (i : Nat) :
    IInv c t (s.integrate c i) := by
  unfold ISt.integrate
  split
  · exact h
  · rename_i b rest he
    exact
      { sq := h.sq
        edge := h.edge
        stp := h.stp
        ph := h.ph
        late := h.late
        em := h.em
        fin := by
          intro h1 j hj
          by_cases hij : j = i
          · subst hij
            have := h.fin h1 j hj
            rw [he] at this
            simp at this
          · simpa [hij] using h.fin h1 j hj
        ids := h.ids
        srcs := h.srcs
        flow := h.flow
        cons := by
          intro j
          refine (h.cons j).trans ?_
          by_cases hij : j = i
          · subst hij
            simp [he]
          · simp [hij] }

theorem inv_step {c : Cfg α} {t : Matrix Bool} {s s' : ISt α} (h : IInv c t s)
    (hs : IStep c s s') : IInv c t s' := by
  cases hs with
  | evolve i p hi hr hp => exact { h with }
  | emit i d hi hr hd =>
    have hrun : s.phase = .run := by
      by_contra hcon
      have := h.stp i hi (h.ph hcon i hi)
      rw [hr] at this
      simp at this
    exact
      { h with
        late := by simp [hrun]
        em := by simp [hrun]
        fin := by simp [hrun]
        ids := by
          intro k b hk
          simp only at hk
          rcases Nat.lt_trichotomy k s.emitted.length with hlt | heq | hgt
          · rw [List.getElem?_append_left hlt] at hk
            exact h.ids k b hk
          · subst heq
            simp at hk
            rw [← hk]
          · rw [List.getElem?_eq_none (by simp; omega)] at hk
            simp at hk
        srcs := by
          intro b hb
          simp only [List.mem_append, List.mem_singleton] at hb
          rcases hb with hb | rfl
          · exact h.srcs b hb
          · exact hi
        flow := by
          obtain ⟨taken, hperm, h2⟩ := h.flow
          refine ⟨taken, ?_, h2⟩
          simp only [List.append_assoc, List.singleton_append]
          refine ((hperm.append_right _).trans ?_)
          simp only [List.append_assoc]
          refine List.Perm.append_left _ ?_
          rw [← List.append_assoc]
          exact List.perm_append_singleton _ _ }
  | receive i hi hr => exact inv_integrate h i
  | stop i hi hr =>
    exact
      { h with
        stp := by
          intro j hj hw
          by_cases hij : j = i
          · simp [hij]
          · simpa [hij] using h.stp j hj hw }
  | toModel l r b hb =>
    have hearly : s.phase = .run ∨ s.phase = .wait := by
      by_contra hcon
      push Not at hcon
      have := (h.late hcon.1 hcon.2).1
      rw [hb] at this
      simp at this
    exact
      { h with
        late := by
          intro h1 h2
          rcases hearly with h3 | h3
          · exact absurd h3 h1
          · exact absurd h3 h2
        em := by rcases hearly with h3 | h3 <;> simp [h3]
        flow := by
          obtain ⟨taken, hperm, h2⟩ := h.flow
          refine ⟨taken, ?_, h2⟩
          refine hperm.trans ?_
          rw [hb]
          simp only [List.append_assoc, List.cons_append, List.nil_append]
          refine List.Perm.append_left _ ?_
          rw [← List.append_assoc, ← List.append_assoc]
          exact List.perm_middle.symm }
  | toIsland l r j b hb =>
    have hearly : s.phase = .run ∨ s.phase = .wait := by
      by_contra hcon
      push Not at hcon
      have := (h.late hcon.1 hcon.2).2
      rw [hb] at this
      simp at this
    exact
      { h with
        late := by
          intro h1 h2
          rcases hearly with h3 | h3
          · exact absurd h3 h1
          · exact absurd h3 h2
        fin := by rcases hearly with h3 | h3 <;> simp [h3]
        cons := by
          intro k
          refine (h.cons k).trans ?_
          rw [hb]
          by_cases hjk : j = k
          · subst hjk
            simp only [addressed_append, addressed_cons, if_true, Function.update_self,
              List.append_assoc]
            refine List.Perm.append_left _ (List.Perm.append_left _ ?_)
            exact List.perm_append_comm_assoc _ _ _
          · have : k ≠ j := fun e => hjk e.symm
            simp [addressed_append, addressed_cons, hjk, this] }
  | isolate i hi hp hst hw =>
    obtain ⟨h1, h2⟩ := isolate_spec false h.sq hi
    exact
      { h with
        sq := h1
        edge := by
          intro a b ha hb
          rw [h2 a b ha hb, h.edge a b ha hb]
          by_cases hai : a = i <;> by_cases hbi : b = i <;> simp [hai, hbi]
        stp := by
          intro a ha hwa
          by_cases hai : a = i
          · subst hai; exact hst
          · exact h.stp a ha (by simpa [hai] using hwa)
        ph := by simp [hp] }
  | send hp => exact inv_forward h (Or.inl hp)
  | leave hp hall =>
    exact { h with ph := fun _ => hall, late := by simp, em := by simp, fin := by simp }
  | joined hp h1 h2 =>
    exact { h with
      ph := fun _ => h.ph (by simp [hp])
      late := fun _ _ => ⟨h1, h2⟩
      em := by simp
      fin := by simp }
  | flushSend hp => exact inv_forward h (Or.inr hp)
  | flushed hp he =>
    exact { h with
      ph := fun _ => h.ph (by simp [hp])
      late := fun _ _ => h.late (by simp [hp]) (by simp [hp])
      em := fun _ => he
      fin := by simp }
  | finalReceive i hi hp => exact inv_integrate h i
  | over hp hall =>
    exact { h with
      ph := fun _ => h.ph (by simp [hp])
      late := fun _ _ => h.late (by simp [hp]) (by simp [hp])
      em := fun _ => h.em (Or.inl hp)
      fin := fun _ => hall }

theorem inv_reach {c : Cfg α} {t : Matrix Bool} {s s' : ISt α} (h : IInv c t s)
    (hr : IReach c s s') : IInv c t s' := by
  induction hr with
  | init => exact h
  | step a b _ hab ih => exact inv_step ih hab

theorem IReach.trans {c : Cfg α} {s s' s'' : ISt α} (h : IReach c s s') (h' : IReach c s' s'') :
    IReach c s s'' := by
  induction h' with
  | init => exact h
  | step a b _ hab ih => exact IReach.step a b ih hab

theorem IReach.one {c : Cfg α} {s s' : ISt α} (h : IStep c s s') : IReach c s s' :=
  .step s s' .init h

/-! What is forwarded stays forwarded; what was taken from the queue without being forwarded never
is. -/

theorem forwarded_mono_step {c : Cfg α} {s s' : ISt α} (hs : IStep c s s') {p : Nat × Batch α}
    (hp : p ∈ s.forwarded) : p ∈ s'.forwarded := by
  cases hs with
  | send h | flushSend h =>
    unfold ISt.forward
    split
    · exact hp
    · exact List.mem_append_left _ hp
  | receive i hi h | finalReceive i hi h =>
    unfold ISt.integrate
    split <;> exact hp
  | _ => exact hp

theorem forwarded_mono {c : Cfg α} {s s' : ISt α} (hr : IReach c s s') {p : Nat × Batch α}
    (hp : p ∈ s.forwarded) : p ∈ s'.forwarded := by
  induction hr with
  | init => exact hp
  | step a b _ hab ih => exact forwarded_mono_step hab ih

/-- Batch `b` has left the queue of the model and was sent to no one. -/
def Dropped (b : Batch α) (s : ISt α) : Prop :=
  b ∈ s.emitted ∧ b ∉ s.outbox ∧ b ∉ s.emig ∧ ∀ j, (j, b) ∉ s.forwarded

theorem dropped_forward {b : Batch α} {s : ISt α} (h : Dropped b s) : Dropped b s.forward := by
  obtain ⟨h1, h2, h3, h4⟩ := h
  unfold ISt.forward
  split
  · exact ⟨h1, h2, h3, h4⟩
  · rename_i b' rest he
    rw [he] at h3
    simp only [List.mem_cons, not_or] at h3
    refine ⟨h1, h2, h3.2, ?_⟩
    intro j hj
    simp only [List.mem_append, List.mem_map, Prod.mk.injEq] at hj
    rcases hj with hj | ⟨k, _, rfl, rfl⟩
    · exact h4 j hj
    · exact h3.1 rfl

theorem dropped_integrate {b : Batch α} {c : Cfg α} {s : ISt α} (h : Dropped b s) (i : Nat) :
    Dropped b (s.integrate c i) := by
  unfold ISt.integrate
  split <;> exact h

theorem dropped_step {c : Cfg α} {t : Matrix Bool} {s s' : ISt α} (hi : IInv c t s)
    (hs : IStep c s s') {b : Batch α} (h : Dropped b s) : Dropped b s' := by
  cases hs with
  | send => exact dropped_forward h
  | flushSend => exact dropped_forward h
  | receive i => exact dropped_integrate h i
  | finalReceive i => exact dropped_integrate h i
  | emit i d =>
    obtain ⟨h1, h2, h3, h4⟩ := h
    refine ⟨List.mem_append_left _ h1, ?_, h3, h4⟩
    simp only [List.mem_append, List.mem_singleton, not_or]
    refine ⟨h2, ?_⟩
    rintro rfl
    obtain ⟨k, hk, hk'⟩ := List.getElem_of_mem h1
    have := hi.ids k _ (by rw [List.getElem?_eq_getElem hk, hk'])
    simp only at this
    omega
  | toModel l r b' hb =>
    obtain ⟨h1, h2, h3, h4⟩ := h
    rw [hb] at h2
    simp only [List.mem_append, List.mem_cons, not_or] at h2
    refine ⟨h1, ?_, ?_, h4⟩ <;> simp only [List.mem_append, List.mem_singleton, not_or]
    · exact ⟨h2.1, h2.2.2⟩
    · exact ⟨h3, h2.2.1⟩
  | _ => exact h

theorem dropped_reach {c : Cfg α} {t : Matrix Bool} {s s' : ISt α} (hi : IInv c t s)
    (hr : IReach c s s') {b : Batch α} (h : Dropped b s) : Dropped b s' := by
  induction hr with
  | init => exact h
  | step a a' hr hab ih => exact dropped_step (inv_reach hi hr) hab ih

/-- Whatever an island takes was forwarded to it. -/
theorem IInv.received_forwarded {c : Cfg α} {t : Matrix Bool} {s : ISt α} (h : IInv c t s) {j : Nat}
    {b : Batch α} (hb : b ∈ s.received j) : (j, b) ∈ s.forwarded :=
  mem_addressed.mp ((h.cons j).mem_iff.mpr (by simp [hb]))

end Paradiseo.Smp
