import Verif.Model.PSO
import Mathlib.Tactic.Linarith
import Mathlib.Tactic.Ring

/-! Helper lemmas about the particle swarm. -/

namespace Paradiseo.Pso

variable {F : Type} [LinearOrder F]

/-- The invariant of the remembered bests.  `seen i x` means that the particle `i` was evaluated at `x`,
`mem k i` that the particle `i` informs the
neighbourhood `k`, `src k i` that the best of the neighbourhood `k` can be the particle `i`. -/
structure Inv (eval : Vec → F) (n count : Nat) (src mem : Nat → Nat → Prop) (seen : Nat → Vec → Prop)
    (s : Swarm F) : Prop where
  own : ∀ i, i < n → seen i (s.pop i).bestPos
  ownBest : ∀ i, i < n → (s.pop i).best = eval (s.pop i).bestPos
  ownMax : ∀ i, i < n → ∀ x, seen i x → eval x ≤ (s.pop i).best
  nb : ∀ k, k < count → ∃ i, i < n ∧ src k i ∧ seen i (s.nb k).pos
  nbFit : ∀ k, k < count → (s.nb k).fit = some (eval (s.nb k).pos)
  nbBest : ∀ k, k < count → (s.nb k).best = eval (s.nb k).pos
  nbMax : ∀ k, k < count → ∀ i, i < n → mem k i → ∀ x, seen i x → eval x ≤ eval (s.nb k).pos

/-- One more place was visited. -/
def addSeen (seen : Nat → Vec → Prop) (i : Nat) (x : Vec) : Nat → Vec → Prop :=
  fun j y => seen j y ∨ (j = i ∧ y = x)

theorem inv_congr {eval : Vec → F} {n count : Nat} {src mem : Nat → Nat → Prop} {seen : Nat → Vec → Prop}
    {s t : Swarm F} (h : Inv eval n count src mem seen s) (hnb : t.nb = s.nb)
    (hp : ∀ i, i < n → (t.pop i).best = (s.pop i).best ∧ (t.pop i).bestPos = (s.pop i).bestPos) :
    Inv eval n count src mem seen t := by
  refine ⟨fun i hi => ?_, fun i hi => ?_, fun i hi x hx => ?_, ?_, ?_, ?_, ?_⟩
  · rw [(hp i hi).2]; exact h.own i hi
  · rw [(hp i hi).1, (hp i hi).2]; exact h.ownBest i hi
  · rw [(hp i hi).1]; exact h.ownMax i hi x hx
  · rw [hnb]; exact h.nb
  · rw [hnb]; exact h.nbFit
  · rw [hnb]; exact h.nbBest
  · rw [hnb]; exact h.nbMax

theorem inv_seen {eval : Vec → F} {n count : Nat} {src mem : Nat → Nat → Prop} {seen seen' : Nat → Vec → Prop}
    {s : Swarm F} (h : Inv eval n count src mem seen s) (hs : ∀ i, i < n → ∀ x, seen i x ↔ seen' i x) :
    Inv eval n count src mem seen' s := by
  refine ⟨fun i hi => (hs i hi _).1 (h.own i hi), h.ownBest, fun i hi x hx => h.ownMax i hi x ((hs i hi x).2 hx),
    fun k hk => ?_, h.nbFit, h.nbBest, fun k hk i hi hm x hx => h.nbMax k hk i hi hm x ((hs i hi x).2 hx)⟩
  obtain ⟨i, hi, hm, hx⟩ := h.nb k hk
  exact ⟨i, hi, hm, (hs i hi _).1 hx⟩

/-- The neighbourhoods after a particle has informed those in the list. -/
theorem improveAll_spec {eval : Vec → F} (p : Part F) {f : F} (hf : p.fit = some f) :
    ∀ (ks : List Nat) (nb : Nat → Part F) (_ : ∀ k, k ∈ ks → (nb k).fit = some (eval (nb k).pos)),
      f = eval p.pos → ∃ nb', improveAll p ks nb = some nb' ∧
        ∀ k, nb' k = if k ∈ ks ∧ eval (nb k).pos < f then p else nb k := by
  intro ks
  induction ks with
  | nil => intro nb _ _; exact ⟨nb, rfl, fun k => by simp⟩
  | cons a ks ih =>
    intro nb h hfe
    have ha := h a (by simp)
    have h1 : improve p nb a = some (if eval (nb a).pos < f then Function.update nb a p else nb) := by
      simp only [improve, hf, ha]
    obtain ⟨nb', e, hn⟩ := ih (if eval (nb a).pos < f then Function.update nb a p else nb) (by
      intro k hk
      by_cases hlt : eval (nb a).pos < f
      · rw [if_pos hlt]
        by_cases hka : k = a
        · subst hka; simp [hf, hfe]
        · simp [Function.update_of_ne hka, h k (by simp [hk])]
      · rw [if_neg hlt]; exact h k (by simp [hk])) hfe
    refine ⟨nb', ?_, ?_⟩
    · simp only [improveAll, h1]; exact e
    · intro k
      rw [hn k]
      by_cases hlt : eval (nb a).pos < f
      · simp only [if_pos hlt]
        by_cases hka : k = a
        · subst hka
          simp [hlt]
        · simp [Function.update_of_ne hka, hka]
      · simp only [if_neg hlt]
        by_cases hka : k = a
        · subst hka
          simp [hlt]
        · simp [hka]

/-- Informing the neighbourhoods keeps the invariant with one more visited place. -/
theorem update_inv {eval : Vec → F} {n count : Nat} {src mem : Nat → Nat → Prop} {seen : Nat → Vec → Prop}
    {T : Topo} {s : Swarm F} (h : Inv eval n count src mem seen s) {i : Nat} (hi : i < n)
    (hT : ∀ k, k ∈ T.targets i ↔ k < count ∧ mem k i) (hms : ∀ k, mem k i → src k i)
    (hfit : (s.pop i).fit = some (eval (s.pop i).pos)) :
    ∃ t, updateNbh T s i = some t ∧ Inv eval n count src mem (addSeen seen i (s.pop i).pos) t ∧
      (∀ j, j ≠ i → t.pop j = s.pop j) ∧ (t.pop i).pos = (s.pop i).pos ∧
      (t.pop i).vel = (s.pop i).vel ∧ (t.pop i).fit = (s.pop i).fit := by
  set p := s.pop i with hp
  set q : Part F := if p.best < eval p.pos then { p with best := eval p.pos, bestPos := p.pos } else p with hq
  have hpers : personal p = some q := by simp only [personal, hfit, hq]
  have hqpos : q.pos = p.pos := by rw [hq]; split <;> rfl
  have hqvel : q.vel = p.vel := by rw [hq]; split <;> rfl
  have hqfit : q.fit = some (eval p.pos) := by rw [hq]; split <;> exact hfit
  obtain ⟨nb', e, hn⟩ := improveAll_spec (eval := eval) q hqfit (T.targets i) s.nb
    (fun k hk => h.nbFit k ((hT k).1 hk).1) (by rw [hqpos])
  refine ⟨{ pop := Function.update s.pop i q, nb := nb' }, ?_, ?_, ?_, ?_, ?_, ?_⟩
  · simp only [updateNbh, ← hp, hpers, e]
  · refine ⟨?_, ?_, ?_, ?_, ?_, ?_, ?_⟩
    · intro j hj
      by_cases hji : j = i
      · subst hji
        simp only [Function.update_self, hq]
        split
        · exact Or.inr ⟨rfl, rfl⟩
        · exact Or.inl (h.own _ hj)
      · simp only [Function.update_of_ne hji]; exact Or.inl (h.own j hj)
    · intro j hj
      by_cases hji : j = i
      · subst hji
        simp only [Function.update_self, hq]
        split
        · rfl
        · exact h.ownBest _ hj
      · simp only [Function.update_of_ne hji]; exact h.ownBest j hj
    · intro j hj x hx
      by_cases hji : j = i
      · subst hji
        simp only [Function.update_self, hq]
        rcases hx with hx | ⟨_, hx⟩
        · have := h.ownMax _ hj x hx
          split
          · rename_i hlt; exact le_trans this (le_of_lt hlt)
          · exact this
        · subst hx
          split
          · exact le_refl _
          · rename_i hlt; exact not_lt.1 hlt
      · simp only [Function.update_of_ne hji]
        rcases hx with hx | ⟨hx, _⟩
        · exact h.ownMax j hj x hx
        · exact absurd hx hji
    · intro k hk
      simp only [hn k]
      split
      · rename_i hc
        exact ⟨i, hi, hms k ((hT k).1 hc.1).2, Or.inr ⟨rfl, by rw [hqpos]⟩⟩
      · obtain ⟨j, hj, hm, hx⟩ := h.nb k hk
        exact ⟨j, hj, hm, Or.inl hx⟩
    · intro k hk
      simp only [hn k]
      split
      · rw [hqfit, hqpos]
      · exact h.nbFit k hk
    · intro k hk
      simp only [hn k]
      split
      · rename_i hc
        have hm := ((hT k).1 hc.1).2
        have hle : p.best ≤ eval (s.nb k).pos := by
          rw [h.ownBest i hi]
          exact h.nbMax k hk i hi hm _ (h.own i hi)
        have hlt : p.best < eval p.pos := lt_of_le_of_lt hle hc.2
        rw [hqpos, hq, if_pos hlt]
      · exact h.nbBest k hk
    · intro k hk j hj hm x hx
      simp only [hn k]
      rcases hx with hx | ⟨hji, hx⟩
      · have := h.nbMax k hk j hj hm x hx
        split
        · rename_i hc; rw [hqpos]; exact le_trans this (le_of_lt hc.2)
        · exact this
      · subst hji; subst hx
        split
        · rw [hqpos]
        · rename_i hc
          have : ¬ eval (s.nb k).pos < eval p.pos := fun hlt => hc ⟨(hT k).2 ⟨hk, hm⟩, hlt⟩
          exact not_lt.1 this
  · intro j hj; simp [Function.update_of_ne hj]
  · simp [hqpos]
  · simp [hqvel]
  · simp [hqfit, hfit]

/-- The state after the move and the evaluation of a particle. -/
def Algo.moved (A : Algo F) (g : Nat) (s : Swarm F) (i : Nat) : Swarm F :=
  A.evalOne (A.flyOne g (A.veloOne g s i) i) i

theorem moved_nb (A : Algo F) (g : Nat) (s : Swarm F) (i : Nat) : (A.moved g s i).nb = s.nb := rfl

theorem moved_other (A : Algo F) (g : Nat) (s : Swarm F) (i j : Nat) (h : j ≠ i) :
    (A.moved g s i).pop j = s.pop j := by
  simp [Algo.moved, Algo.evalOne, Algo.flyOne, Algo.veloOne, Function.update_of_ne h]

theorem moved_self (A : Algo F) (g : Nat) (s : Swarm F) (i : Nat) :
    ((A.moved g s i).pop i).fit = some (A.eval ((A.moved g s i).pop i).pos) ∧
    ((A.moved g s i).pop i).best = (s.pop i).best ∧ ((A.moved g s i).pop i).bestPos = (s.pop i).bestPos ∧
    ((A.moved g s i).pop i).vel = A.velo g i (s.pop i) (s.nb (A.topo.look i)) ∧
    ((A.moved g s i).pop i).pos = A.fly g i (s.pop i).pos (A.velo g i (s.pop i) (s.nb (A.topo.look i))) := by
  simp [Algo.moved, Algo.evalOne, Algo.flyOne, Algo.veloOne]

/-- A generation of the asynchronous algorithm up to the particle `m`. -/
theorem async_inv {A : Algo F} {count : Nat} {src mem : Nat → Nat → Prop} {seen : Nat → Vec → Prop}
    (hT : ∀ i, i < A.n → ∀ k, k ∈ A.topo.targets i ↔ k < count ∧ mem k i)
    (hms : ∀ k i, mem k i → src k i) (g : Nat) :
    ∀ (is : List Nat) (s : Swarm F), is.Nodup → (∀ i ∈ is, i < A.n) → Inv A.eval A.n count src mem seen s →
      ∃ t, foldM? (fun s i => updateNbh A.topo (A.evalOne (A.flyOne g (A.veloOne g s i) i) i) i) is s = some t ∧
        Inv A.eval A.n count src mem (fun j y => seen j y ∨ (j ∈ is ∧ y = (t.pop j).pos)) t ∧
        ∀ j, j ∉ is → t.pop j = s.pop j := by
  intro is
  induction is generalizing seen with
  | nil => intro s _ _ h; exact ⟨s, rfl, inv_seen h (by simp), fun _ _ => rfl⟩
  | cons a is ih =>
    intro s hnd hlt h
    have ha : a < A.n := hlt a (by simp)
    have hm := moved_self A g s a
    have h1 : Inv A.eval A.n count src mem seen (A.moved g s a) := by
      refine inv_congr h rfl fun j _ => ?_
      by_cases hja : j = a
      · subst hja; exact ⟨hm.2.1, hm.2.2.1⟩
      · rw [moved_other A g s a j hja]; exact ⟨rfl, rfl⟩
    obtain ⟨t1, e1, i1, o1, p1, v1, f1⟩ := update_inv h1 ha (hT a ha) (fun k => hms k a) hm.1
    obtain ⟨t, e, i2, o2⟩ := ih t1 (List.nodup_cons.1 hnd).2 (fun i hi => hlt i (by simp [hi])) i1
    have hna : a ∉ is := (List.nodup_cons.1 hnd).1
    refine ⟨t, ?_, ?_, ?_⟩
    · simp only [foldM?]
      have : updateNbh A.topo (A.evalOne (A.flyOne g (A.veloOne g s a) a) a) a = some t1 := e1
      rw [this]; exact e
    · refine inv_seen i2 fun j _ y => ?_
      simp only [addSeen, List.mem_cons]
      constructor
      · rintro ((h | ⟨hj, hy⟩) | ⟨hj, hy⟩)
        · exact Or.inl h
        · subst hj; exact Or.inr ⟨Or.inl rfl, by rw [o2 _ hna, p1]; exact hy⟩
        · exact Or.inr ⟨Or.inr hj, hy⟩
      · rintro (h | ⟨hj | hj, hy⟩)
        · exact Or.inl (Or.inl h)
        · subst hj; exact Or.inl (Or.inr ⟨rfl, by rw [hy, o2 _ hna, p1]⟩)
        · exact Or.inr ⟨hj, hy⟩
    · intro j hj
      simp only [List.mem_cons, not_or] at hj
      rw [o2 j hj.2, o1 j hj.1, moved_other A g s a j hj.1]

/-- The last loop of the synchronous algorithm. -/
theorem sync_update {A : Algo F} {count : Nat} {src mem : Nat → Nat → Prop} {seen : Nat → Vec → Prop}
    (hT : ∀ i, i < A.n → ∀ k, k ∈ A.topo.targets i ↔ k < count ∧ mem k i)
    (hms : ∀ k i, mem k i → src k i) :
    ∀ (is : List Nat) (s : Swarm F), is.Nodup → (∀ i ∈ is, i < A.n) →
      (∀ i ∈ is, (s.pop i).fit = some (A.eval (s.pop i).pos)) → Inv A.eval A.n count src mem seen s →
      ∃ t, foldM? (updateNbh A.topo) is s = some t ∧
        Inv A.eval A.n count src mem (fun j y => seen j y ∨ (j ∈ is ∧ y = (t.pop j).pos)) t ∧
        (∀ j, j ∉ is → t.pop j = s.pop j) ∧
        ∀ j, (t.pop j).pos = (s.pop j).pos ∧ (t.pop j).vel = (s.pop j).vel ∧ (t.pop j).fit = (s.pop j).fit := by
  intro is
  induction is generalizing seen with
  | nil => intro s _ _ _ h; exact ⟨s, rfl, inv_seen h (by simp), fun _ _ => rfl, fun _ => ⟨rfl, rfl, rfl⟩⟩
  | cons a is ih =>
    intro s hnd hlt hfit h
    have ha : a < A.n := hlt a (by simp)
    have hna : a ∉ is := (List.nodup_cons.1 hnd).1
    obtain ⟨t1, e1, i1, o1, p1, v1, f1⟩ := update_inv h ha (hT a ha) (fun k => hms k a) (hfit a (by simp))
    obtain ⟨t, e, i2, o2, q2⟩ := ih t1 (List.nodup_cons.1 hnd).2 (fun i hi => hlt i (by simp [hi]))
      (fun i hi => by
        have : i ≠ a := fun h => hna (h ▸ hi)
        rw [o1 i this]; exact hfit i (by simp [hi])) i1
    refine ⟨t, ?_, ?_, ?_, ?_⟩
    · simp only [foldM?, e1]; exact e
    · refine inv_seen i2 fun j _ y => ?_
      simp only [addSeen, List.mem_cons]
      constructor
      · rintro ((h | ⟨hj, hy⟩) | ⟨hj, hy⟩)
        · exact Or.inl h
        · subst hj; exact Or.inr ⟨Or.inl rfl, by rw [o2 _ hna, p1]; exact hy⟩
        · exact Or.inr ⟨Or.inr hj, hy⟩
      · rintro (h | ⟨hj | hj, hy⟩)
        · exact Or.inl (Or.inl h)
        · subst hj; exact Or.inl (Or.inr ⟨rfl, by rw [hy, o2 _ hna, p1]⟩)
        · exact Or.inr ⟨hj, hy⟩
    · intro j hj
      simp only [List.mem_cons, not_or] at hj
      rw [o2 j hj.2, o1 j hj.1]
    · intro j
      rw [(q2 j).1, (q2 j).2.1, (q2 j).2.2]
      by_cases hja : j = a
      · subst hja; exact ⟨p1, v1, f1⟩
      · rw [o1 j hja]; exact ⟨rfl, rfl, rfl⟩

/-- A loop that changes one particle at a time. -/
theorem foldl_pop (f : Swarm F → Nat → Swarm F) (u : (Nat → Part F) → Nat → Part F → Part F)
    (hf : ∀ s i, f s i = { s with pop := Function.update s.pop i (u s.nb i (s.pop i)) }) :
    ∀ (is : List Nat) (s : Swarm F), is.Nodup → (is.foldl f s).nb = s.nb ∧
      ∀ j, (is.foldl f s).pop j = if j ∈ is then u s.nb j (s.pop j) else s.pop j := by
  intro is
  induction is with
  | nil => intro s _; simp
  | cons a is ih =>
    intro s hnd
    have hna : a ∉ is := (List.nodup_cons.1 hnd).1
    obtain ⟨h1, h2⟩ := ih (f s a) (List.nodup_cons.1 hnd).2
    simp only [List.foldl_cons]
    refine ⟨by rw [h1, hf], fun j => ?_⟩
    rw [h2 j, hf]
    by_cases hja : j = a
    · subst hja; simp [hna]
    · simp [Function.update_of_ne hja, hja]

/-- The three first loops of the synchronous algorithm. -/
theorem sync_moved (A : Algo F) (g : Nat) (s : Swarm F) :
    ∃ t, t = (List.range A.n).foldl A.evalOne
        ((List.range A.n).foldl (A.flyOne g) ((List.range A.n).foldl (A.veloOne g) s)) ∧
      t.nb = s.nb ∧ (∀ i, ¬ i < A.n → t.pop i = s.pop i) ∧
      ∀ i, i < A.n → (t.pop i).fit = some (A.eval (t.pop i).pos) ∧
        (t.pop i).best = (s.pop i).best ∧ (t.pop i).bestPos = (s.pop i).bestPos ∧
        (t.pop i).vel = A.velo g i (s.pop i) (s.nb (A.topo.look i)) ∧
        (t.pop i).pos = A.fly g i (s.pop i).pos (A.velo g i (s.pop i) (s.nb (A.topo.look i))) := by
  have hnd := List.nodup_range (n := A.n)
  obtain ⟨a1, b1⟩ := foldl_pop (A.veloOne g)
    (fun nb i p => { p with vel := A.velo g i p (nb (A.topo.look i)) }) (fun s i => rfl) _ s hnd
  obtain ⟨a2, b2⟩ := foldl_pop (A.flyOne g)
    (fun _ i p => { p with pos := A.fly g i p.pos p.vel, fit := none }) (fun s i => rfl) _
    ((List.range A.n).foldl (A.veloOne g) s) hnd
  obtain ⟨a3, b3⟩ := foldl_pop A.evalOne
    (fun _ i p => { p with fit := some (A.eval p.pos) }) (fun s i => rfl) _
    ((List.range A.n).foldl (A.flyOne g) ((List.range A.n).foldl (A.veloOne g) s)) hnd
  refine ⟨_, rfl, by rw [a3, a2, a1], fun i hi => ?_, fun i hi => ?_⟩
  · rw [b3, b2, b1]; simp [hi]
  · rw [b3, b2, b1]; simp [hi]

theorem sync_inv {A : Algo F} {count : Nat} {src mem : Nat → Nat → Prop} {seen : Nat → Vec → Prop}
    (hT : ∀ i, i < A.n → ∀ k, k ∈ A.topo.targets i ↔ k < count ∧ mem k i)
    (hms : ∀ k i, mem k i → src k i) (g : Nat) (s : Swarm F)
    (h : Inv A.eval A.n count src mem seen s) :
    ∃ t, A.genSync g s = some t ∧
      Inv A.eval A.n count src mem (fun j y => seen j y ∨ (j < A.n ∧ y = (t.pop j).pos)) t := by
  obtain ⟨u, hu, hnb, _, hp⟩ := sync_moved A g s
  have h1 : Inv A.eval A.n count src mem seen u :=
    inv_congr h hnb fun i hi => ⟨(hp i hi).2.1, (hp i hi).2.2.1⟩
  obtain ⟨t, e, it, _, _⟩ := sync_update hT hms (List.range A.n) u List.nodup_range (by simp)
    (fun i hi => (hp i (by simpa using hi)).1) h1
  refine ⟨t, ?_, inv_seen it (by simp)⟩
  simp only [Algo.genSync, ← hu]; exact e

theorem async_inv' {A : Algo F} {count : Nat} {src mem : Nat → Nat → Prop} {seen : Nat → Vec → Prop}
    (hT : ∀ i, i < A.n → ∀ k, k ∈ A.topo.targets i ↔ k < count ∧ mem k i)
    (hms : ∀ k i, mem k i → src k i) (g : Nat) (s : Swarm F)
    (h : Inv A.eval A.n count src mem seen s) :
    ∃ t, A.genAsync g s = some t ∧
      Inv A.eval A.n count src mem (fun j y => seen j y ∨ (j < A.n ∧ y = (t.pop j).pos)) t := by
  obtain ⟨t, e, it, _⟩ := async_inv hT hms g (List.range A.n) s List.nodup_range (by simp) h
  exact ⟨t, e, inv_seen it (by simp)⟩

/-- All generations. -/
theorem run_inv {A : Algo F} {count : Nat} {src mem : Nat → Nat → Prop}
    (gen : Nat → Swarm F → Option (Swarm F))
    (hgen : ∀ (seen : Nat → Vec → Prop) g s, Inv A.eval A.n count src mem seen s → ∃ t, gen g s = some t ∧
      Inv A.eval A.n count src mem (fun j y => seen j y ∨ (j < A.n ∧ y = (t.pop j).pos)) t)
    (s : Swarm F) (h0 : Inv A.eval A.n count src mem (fun j y => y = (s.pop j).pos) s) :
    ∃ st : Nat → Swarm F, ∀ K, Algo.run gen K s = some (st K) ∧
      Inv A.eval A.n count src mem (fun j y => ∃ k, k ≤ K ∧ y = ((st k).pop j).pos) (st K) := by
  refine ⟨fun k => (Algo.run gen k s).getD s, fun K => ?_⟩
  induction K with
  | zero =>
    refine ⟨rfl, inv_seen h0 fun i _ y => ?_⟩
    constructor
    · intro h; exact ⟨0, le_refl _, h⟩
    · rintro ⟨k, hk, h⟩
      have : k = 0 := by omega
      subst this; exact h
  | succ K ih =>
    obtain ⟨e0, hi⟩ := ih
    obtain ⟨t, e, it⟩ := hgen _ K _ hi
    have e1 : Algo.run gen (K + 1) s = some t := by
      simp only [Algo.run]; rw [e0]; exact e
    refine ⟨by beta_reduce; rw [e1]; rfl, ?_⟩
    beta_reduce
    have e2 : (Algo.run gen (K + 1) s).getD s = t := by rw [e1]; rfl
    rw [e2]
    refine inv_seen it fun j hj y => ?_
    constructor
    · rintro (⟨k, hk, hy⟩ | ⟨_, hy⟩)
      · exact ⟨k, by omega, hy⟩
      · exact ⟨K + 1, le_refl _, by rw [e2]; exact hy⟩
    · rintro ⟨k, hk, hy⟩
      by_cases hkK : k ≤ K
      · exact Or.inl ⟨k, hkK, hy⟩
      · have : k = K + 1 := by omega
        subst this
        rw [e2] at hy
        exact Or.inr ⟨hj, hy⟩

/-! ### Setups -/

theorem setupBest_spec (eval : Vec → F) (pop : Nat → Part F)
    (ks : List Nat) (hk : ∀ k ∈ ks, (pop k).fit = some (eval (pop k).pos)) :
    ∀ a, (pop a).fit = some (eval (pop a).pos) →
    ∃ c, c ∈ a :: ks ∧ setupBest pop ks (pop a) = some (pop c) ∧
      ∀ k ∈ a :: ks, eval (pop k).pos ≤ eval (pop c).pos := by
  induction ks with
  | nil => intro a _; exact ⟨a, by simp, rfl, by simp⟩
  | cons b ks ih =>
    intro a ha
    have hb := hk b (by simp)
    have hks : ∀ k ∈ ks, (pop k).fit = some (eval (pop k).pos) := fun k h => hk k (by simp [h])
    by_cases hlt : eval (pop a).pos < eval (pop b).pos
    · obtain ⟨c, hc, e, hm⟩ := ih hks b hb
      refine ⟨c, by simp only [List.mem_cons] at hc ⊢; exact Or.inr hc, ?_, ?_⟩
      · simp only [setupBest, ha, hb, if_pos hlt]; exact e
      · intro k hkm
        simp only [List.mem_cons] at hkm
        rcases hkm with h | h | h
        · subst h; exact le_trans (le_of_lt hlt) (hm b (by simp))
        · subst h; exact hm _ (by simp)
        · exact hm k (by simp [h])
    · obtain ⟨c, hc, e, hm⟩ := ih hks a ha
      refine ⟨c, by simp only [List.mem_cons] at hc ⊢; tauto, ?_, ?_⟩
      · simp only [setupBest, ha, hb, if_neg hlt]; exact e
      · intro k hkm
        simp only [List.mem_cons] at hkm
        rcases hkm with h | h | h
        · subst h; exact hm _ (by simp)
        · subst h; exact le_trans (not_lt.1 hlt) (hm a (by simp))
        · exact hm k (by simp [h])

theorem foldl_best (pop : Nat → Part F) (ks : List Nat) : ∀ a,
    ∃ c, c ∈ a :: ks ∧ ks.foldl (fun b k => if b.best < (pop k).best then pop k else b) (pop a) = pop c ∧
      ∀ k ∈ a :: ks, (pop k).best ≤ (pop c).best := by
  induction ks with
  | nil => intro a; exact ⟨a, by simp, rfl, by simp⟩
  | cons b ks ih =>
    intro a
    by_cases hlt : (pop a).best < (pop b).best
    · obtain ⟨c, hc, e, hm⟩ := ih b
      refine ⟨c, by simp only [List.mem_cons] at hc ⊢; exact Or.inr hc, ?_, ?_⟩
      · simp only [List.foldl_cons, if_pos hlt]; exact e
      · intro k hkm
        simp only [List.mem_cons] at hkm
        rcases hkm with h | h | h
        · subst h; exact le_trans (le_of_lt hlt) (hm b (by simp))
        · subst h; exact hm _ (by simp)
        · exact hm k (by simp [h])
    · obtain ⟨c, hc, e, hm⟩ := ih a
      refine ⟨c, by simp only [List.mem_cons] at hc ⊢; tauto, ?_, ?_⟩
      · simp only [List.foldl_cons, if_neg hlt]; exact e
      · intro k hkm
        simp only [List.mem_cons] at hkm
        rcases hkm with h | h | h
        · subst h; exact hm _ (by simp)
        · subst h; exact le_trans (not_lt.1 hlt) (hm a (by simp))
        · exact hm k (by simp [h])

/-- The invariant of a swarm that has just been set up. -/
theorem start_inv (eval : Vec → F) (n count : Nat) (src mem : Nat → Nat → Prop) (s : Swarm F)
    (x v : Nat → Vec) (hp : ∀ i, i < n → s.pop i = initPart eval (x i) (v i))
    (hnb : ∀ k, k < count → ∃ c, c < n ∧ src k c ∧ s.nb k = s.pop c ∧
      ∀ i, i < n → mem k i → eval (x i) ≤ eval (x c)) :
    Inv eval n count src mem (fun j y => y = (s.pop j).pos) s := by
  refine ⟨?_, ?_, ?_, ?_, ?_, ?_, ?_⟩
  · intro i hi; simp only [hp i hi, initPart]
  · intro i hi; simp only [hp i hi, initPart]
  · intro i hi y hy; subst hy; simp only [hp i hi, initPart]; exact le_refl _
  · intro k hk
    obtain ⟨c, hc, hs, e, _⟩ := hnb k hk
    exact ⟨c, hc, hs, by rw [e]⟩
  · intro k hk
    obtain ⟨c, hc, hs, e, _⟩ := hnb k hk
    rw [e, hp c hc]; rfl
  · intro k hk
    obtain ⟨c, hc, hs, e, _⟩ := hnb k hk
    rw [e, hp c hc]; rfl
  · intro k hk i hi hm y hy
    obtain ⟨c, hc, hs, e, h⟩ := hnb k hk
    subst hy
    rw [e, hp c hc, hp i hi]
    exact h i hi hm

/-! ### The groups of the linear topology -/

theorem mem_linearMembers {n ns k i : Nat} (hns : 0 < ns) (hk : k < n / ns) :
    i ∈ linearMembers n ns k ↔ i < n ∧ k = min (i / ns) (n / ns - 1) := by
  have hdm := Nat.div_add_mod n ns
  have hsub : n - n % ns = ns * (n / ns) := by omega
  have hmod := Nat.mod_lt n hns
  set q := n / ns with hq
  have hmem : i ∈ linearMembers n ns k ↔
      (k * ns ≤ i ∧ i < k * ns + ns) ∨ (k + 1 = q ∧ ns * q ≤ i ∧ i < ns * q + n % ns) := by
    simp only [linearMembers, ← hq, List.mem_append, List.mem_range'_1, hsub]
    split
    · rename_i h; simp [h, List.mem_range'_1]
    · rename_i h; simp [h]
  rw [hmem, hdm]
  have hkq : (k + 1) * ns ≤ q * ns := Nat.mul_le_mul_right _ hk
  have hc : q * ns = ns * q := Nat.mul_comm _ _
  have hexp : (k + 1) * ns = k * ns + ns := Nat.succ_mul _ _
  by_cases hlast : k + 1 = q
  · have h1 : (k + 1) * ns = q * ns := by rw [hlast]
    constructor
    · intro h
      have hi : i < n ∧ k * ns ≤ i := by omega
      refine ⟨hi.1, ?_⟩
      have : k ≤ i / ns := (Nat.le_div_iff_mul_le hns).2 hi.2
      omega
    · rintro ⟨hi, hkm⟩
      have : k ≤ i / ns := by omega
      have := (Nat.le_div_iff_mul_le hns).1 this
      omega
  · constructor
    · rintro (⟨h1, h2⟩ | ⟨h, _⟩)
      · have e : i / ns = k := Nat.div_eq_of_lt_le h1 (by rw [Nat.succ_mul]; exact h2)
        refine ⟨by omega, ?_⟩
        rw [e]; omega
      · exact absurd h hlast
    · rintro ⟨hi, hkm⟩
      have e : i / ns = k := by omega
      have := Nat.div_add_mod i ns
      have := Nat.mod_lt i hns
      have h3 : ns * (i / ns) = k * ns := by rw [e, Nat.mul_comm]
      left; omega

theorem retrieve_eq {n ns i : Nat} (hns : 0 < ns) (hn : ns ≤ n) (hi : i < n) :
    retrieve n ns i = min (i / ns) (n / ns - 1) ∧ retrieve n ns i < n / ns := by
  have hq : 0 < n / ns := Nat.div_pos hn hns
  set k := min (i / ns) (n / ns - 1) with hkdef
  have hk : k < n / ns := by omega
  have e : retrieve n ns i = k := by
    unfold retrieve
    rw [List.findIdx_eq (by simpa using hk)]
    refine ⟨?_, ?_⟩
    · simp [(mem_linearMembers hns hk).2 ⟨hi, hkdef⟩]
    · intro j hj
      have hj' : j < n / ns := by omega
      have hnm : i ∉ linearMembers n ns j := by
        rw [mem_linearMembers hns hj']
        rintro ⟨_, h⟩
        omega
      simp [hnm]
  exact ⟨e, by rw [e]; exact hk⟩

theorem linear_targets {n ns i : Nat} (hns : 0 < ns) (hn : ns ≤ n) (hi : i < n) (k : Nat) :
    k ∈ (linearTopo n ns).targets i ↔ k < n / ns ∧ i ∈ linearMembers n ns k := by
  obtain ⟨e, hlt⟩ := retrieve_eq hns hn hi
  simp only [linearTopo, List.mem_singleton]
  constructor
  · intro h; subst h; exact ⟨hlt, (mem_linearMembers hns hlt).2 ⟨hi, e⟩⟩
  · rintro ⟨hk, hm⟩
    rw [e]; exact ((mem_linearMembers hns hk).1 hm).2

/-! ### Loops that keep a property -/

theorem foldM?_inv {σ : Type} (P : σ → Prop) (f : σ → Nat → Option σ) (is : List Nat)
    (hf : ∀ s i t, i ∈ is → P s → f s i = some t → P t) :
    ∀ s t, P s → foldM? f is s = some t → P t := by
  induction is with
  | nil => intro s t hs h; simp only [foldM?, Option.some.injEq] at h; subst h; exact hs
  | cons a is ih =>
    intro s t hs h
    simp only [foldM?] at h
    cases e : f s a with
    | none => rw [e] at h; cases h
    | some u =>
      rw [e] at h
      exact ih (fun s i t hi => hf s i t (by simp [hi])) u t (hf s a u (by simp) hs e) h

theorem run_keeps (P : Swarm F → Prop) (gen : Nat → Swarm F → Option (Swarm F))
    (hgen : ∀ g s t, P s → gen g s = some t → P t) (s : Swarm F) (hs : P s) :
    ∀ K t, Algo.run gen K s = some t → P t := by
  intro K
  induction K with
  | zero => intro t h; simp only [Algo.run, Option.some.injEq] at h; subst h; exact hs
  | succ K ih =>
    intro t h
    simp only [Algo.run] at h
    cases e : Algo.run gen K s with
    | none => rw [e] at h; cases h
    | some u => rw [e] at h; exact hgen K u t (ih u e) h

theorem improveAll_or (p : Part F) : ∀ (ks : List Nat) (nb nb' : Nat → Part F),
    improveAll p ks nb = some nb' → ∀ k, nb' k = nb k ∨ nb' k = p := by
  intro ks
  induction ks with
  | nil => intro nb nb' h k; simp only [improveAll, Option.some.injEq] at h; subst h; exact Or.inl rfl
  | cons a ks ih =>
    intro nb nb' h k
    simp only [improveAll] at h
    cases e : improve p nb a with
    | none => rw [e] at h; cases h
    | some u =>
      rw [e] at h
      have h1 : u k = nb k ∨ u k = p := by
        simp only [improve] at e
        split at e
        · simp only [Option.some.injEq] at e
          subst e
          split
          · by_cases hka : k = a
            · subst hka; right; simp
            · left; simp [Function.update_of_ne hka]
          · exact Or.inl rfl
        · cases e
      rcases ih u nb' h k with h2 | h2
      · rw [h2]; exact h1
      · exact Or.inr h2

/-- What informing the neighbourhoods does, whatever the topology. -/
theorem updateNbh_or (T : Topo) (s t : Swarm F) (i : Nat) (h : updateNbh T s i = some t) :
    (∀ k, t.nb k = s.nb k ∨ (t.nb k).pos = (s.pop i).pos) ∧ (∀ j, (t.pop j).pos = (s.pop j).pos) ∧
    (∀ j, (t.pop j).vel = (s.pop j).vel) ∧
    ∀ j, (t.pop j).bestPos = (s.pop j).bestPos ∨ (t.pop j).bestPos = (s.pop j).pos := by
  simp only [updateNbh] at h
  cases e : personal (s.pop i) with
  | none => rw [e] at h; cases h
  | some p =>
    rw [e] at h
    simp only at h
    have hp : p.pos = (s.pop i).pos ∧ p.vel = (s.pop i).vel ∧
        (p.bestPos = (s.pop i).bestPos ∨ p.bestPos = (s.pop i).pos) := by
      simp only [personal] at e
      split at e
      · cases e
      · simp only [Option.some.injEq] at e
        subst e
        split
        · exact ⟨rfl, rfl, Or.inr rfl⟩
        · exact ⟨rfl, rfl, Or.inl rfl⟩
    cases e2 : improveAll p (T.targets i) s.nb with
    | none => rw [e2] at h; cases h
    | some nb' =>
      rw [e2] at h
      simp only [Option.some.injEq] at h
      subst h
      refine ⟨fun k => ?_, fun j => ?_, fun j => ?_, fun j => ?_⟩
      · rcases improveAll_or p _ _ _ e2 k with h | h
        · exact Or.inl h
        · right; simp only [h]; exact hp.1
      all_goals
        by_cases hji : j = i
        · subst hji; simp [hp]
        · simp [Function.update_of_ne hji]

/-- A property of the positions, the remembered positions and the velocities that every particle keeps. -/
structure Stays (P V : Vec → Prop) (n count : Nat) (s : Swarm F) : Prop where
  pos : ∀ i, i < n → P (s.pop i).pos
  own : ∀ i, i < n → P (s.pop i).bestPos
  vel : ∀ i, i < n → V (s.pop i).vel
  nb : ∀ k, k < count → P (s.nb k).pos

theorem stays_update {P V : Vec → Prop} {n count : Nat} {T : Topo} {s t : Swarm F} {i : Nat} (hi : i < n)
    (h : Stays P V n count s) (e : updateNbh T s i = some t) : Stays P V n count t := by
  obtain ⟨h1, h2, h3, h4⟩ := updateNbh_or T s t i e
  refine ⟨fun j hj => ?_, fun j hj => ?_, fun j hj => ?_, fun k hk => ?_⟩
  · rw [h2]; exact h.pos j hj
  · rcases h4 j with h' | h' <;> rw [h']
    · exact h.own j hj
    · exact h.pos j hj
  · rw [h3]; exact h.vel j hj
  · rcases h1 k with h' | h' <;> rw [h']
    · exact h.nb k hk
    · exact h.pos i hi

/-- If the velocity and the flight keep the properties, so do both algorithms. -/
theorem stays_gen {P V : Vec → Prop} {A : Algo F} {count : Nat}
    (hlook : ∀ i, i < A.n → A.topo.look i < count)
    (hv : ∀ g i (p lb : Part F), i < A.n → P p.pos → P p.bestPos → V p.vel → P lb.pos → V (A.velo g i p lb))
    (hf : ∀ g i x v, i < A.n → P x → V v → P (A.fly g i x v)) (gen : Nat → Swarm F → Option (Swarm F))
    (hgen : gen = A.genAsync ∨ gen = A.genSync) (g : Nat) (s t : Swarm F) (h : Stays P V A.n count s)
    (e : gen g s = some t) : Stays P V A.n count t := by
  rcases hgen with hg | hg <;> subst hg
  · refine foldM?_inv (Stays P V A.n count) _ (List.range A.n) (fun s i t hi hs he => ?_) s t h e
    have hi' : i < A.n := by simpa using hi
    have hm := moved_self A g s i
    have hV : V (A.velo g i (s.pop i) (s.nb (A.topo.look i))) :=
      hv g i _ _ hi' (hs.pos i hi') (hs.own i hi') (hs.vel i hi') (hs.nb _ (hlook i hi'))
    have h1 : Stays P V A.n count (A.moved g s i) := by
      refine ⟨fun j hj => ?_, fun j hj => ?_, fun j hj => ?_, hs.nb⟩
      all_goals
        by_cases hji : j = i
        · subst hji
          first
            | (rw [hm.2.2.2.2]; exact hf g _ _ _ hj (hs.pos _ hj) hV)
            | (rw [hm.2.2.1]; exact hs.own _ hj)
            | (rw [hm.2.2.2.1]; exact hV)
        · rw [moved_other A g s i j hji]
          first
            | exact hs.pos j hj
            | exact hs.own j hj
            | exact hs.vel j hj
    exact stays_update hi' h1 he
  · obtain ⟨u, hu, hnb, _, hp⟩ := sync_moved A g s
    have hV : ∀ i, i < A.n → V (A.velo g i (s.pop i) (s.nb (A.topo.look i))) := fun i hi =>
      hv g i _ _ hi (h.pos i hi) (h.own i hi) (h.vel i hi) (h.nb _ (hlook i hi))
    have h1 : Stays P V A.n count u := by
      refine ⟨fun i hi => ?_, fun i hi => ?_, fun i hi => ?_, fun k hk => ?_⟩
      · rw [(hp i hi).2.2.2.2]; exact hf g i _ _ hi (h.pos i hi) (hV i hi)
      · rw [(hp i hi).2.2.1]; exact h.own i hi
      · rw [(hp i hi).2.2.2.1]; exact hV i hi
      · rw [hnb]; exact h.nb k hk
    simp only [Algo.genSync, ← hu] at e
    exact foldM?_inv (Stays P V A.n count) _ (List.range A.n)
      (fun s i t hi hs he => stays_update (by simpa using hi) hs he) u t h1 e

/-! ### Every particle moves once -/

theorem update_keeps {T : Topo} {s t : Swarm F} {i : Nat} (h : updateNbh T s i = some t) (j : Nat) :
    (t.pop j).pos = (s.pop j).pos ∧ (t.pop j).vel = (s.pop j).vel ∧ (t.pop j).fit = (s.pop j).fit ∧
      (j ≠ i → t.pop j = s.pop j) := by
  simp only [updateNbh] at h
  split at h
  · simp at h
  · rename_i p hp
    split at h
    · simp at h
    · simp only [Option.some.injEq] at h
      subst h
      by_cases hj : j = i
      · subst hj
        simp only [personal] at hp
        split at hp
        · simp at hp
        · simp only [Option.some.injEq] at hp
          subst hp
          simp only [Function.update_self]
          split <;> simp
      · simp [Function.update_of_ne hj]

omit [LinearOrder F] in
theorem foldl_update (h : Nat → Part F → (Nat → Part F) → Part F) : ∀ (is : List Nat) (s : Swarm F), is.Nodup →
    is.foldl (fun s i => { s with pop := Function.update s.pop i (h i (s.pop i) s.nb) }) s =
      { s with pop := fun j => if j ∈ is then h j (s.pop j) s.nb else s.pop j }
  | [], s, _ => by simp
  | i :: is, s, hn => by
    rw [List.nodup_cons] at hn
    simp only [List.foldl_cons]
    rw [foldl_update h is _ hn.2]
    congr 1
    funext j
    by_cases hj : j = i
    · subst hj
      simp [hn.1]
    · simp [hj]

theorem foldM_update_keeps {T : Topo} : ∀ (is : List Nat) (s t : Swarm F), foldM? (updateNbh T) is s = some t →
    ∀ j, (t.pop j).pos = (s.pop j).pos ∧ (t.pop j).vel = (s.pop j).vel ∧ (t.pop j).fit = (s.pop j).fit
  | [], s, t, h, j => by
    simp only [foldM?, Option.some.injEq] at h
    subst h
    simp
  | i :: is, s, t, h, j => by
    simp only [foldM?] at h
    split at h
    · simp at h
    · rename_i s' hs
      obtain ⟨a, b, c⟩ := foldM_update_keeps is s' t h j
      obtain ⟨a', b', c', _⟩ := update_keeps hs j
      exact ⟨a.trans a', b.trans b', c.trans c'⟩

theorem async_moves (A : Algo F) (g : Nat) : ∀ (is : List Nat) (s t : Swarm F), is.Nodup →
    foldM? (fun s i => updateNbh A.topo (A.evalOne (A.flyOne g (A.veloOne g s i) i) i) i) is s = some t →
    ∀ j, (j ∉ is → t.pop j = s.pop j) ∧ (j ∈ is → ∃ lb,
      (t.pop j).vel = A.velo g j (s.pop j) lb ∧
      (t.pop j).pos = A.fly g j (s.pop j).pos (A.velo g j (s.pop j) lb) ∧
      (t.pop j).fit = some (A.eval (t.pop j).pos))
  | [], s, t, _, h, j => by
    simp only [foldM?, Option.some.injEq] at h
    subst h
    simp
  | i :: is, s, t, hn, h, j => by
    rw [List.nodup_cons] at hn
    simp only [foldM?] at h
    split at h
    · simp at h
    · rename_i s' hs
      obtain ⟨p, q⟩ := async_moves A g is s' t hn.2 h j
      obtain ⟨k1, k2, k3, k4⟩ := update_keeps hs j
      by_cases hj : j = i
      · subst hj
        refine ⟨fun hc => absurd (by simp) hc, fun _ => ⟨s.nb (A.topo.look j), ?_⟩⟩
        rw [p hn.1, k1, k2, k3]
        simp [Algo.evalOne, Algo.flyOne, Algo.veloOne]
      · have hsame : s'.pop j = s.pop j := by
          rw [k4 hj]
          simp [Algo.evalOne, Algo.flyOne, Algo.veloOne, Function.update_of_ne hj]
        rw [hsame] at p q
        exact ⟨fun hc => p fun h' => hc (by simp [h']), fun hc => q (by simpa [hj] using hc)⟩

end Paradiseo.Pso
