/-
Property C371: the law of the tournaments of eo (utils/selectors.h:273-399), as exact counts of the
draws: with every draw equally likely, a count over the number of all draws is a probability.
-/
import Verif.Props.EOReplacement
import Mathlib.Data.Fintype.Pi
import Mathlib.Data.Fin.VecNotation
import Mathlib.Data.Fintype.BigOperators
import Mathlib.Algebra.BigOperators.Group.Finset.Piecewise

namespace Paradiseo.EO
variable {α F : Type} [LinearOrder F]

/-- The stream which begins with the given draws. -/
def streamOf {n T : Nat} (d : Fin T → Fin n) : Nat → Nat := fun s => if h : s < T then (d ⟨s, h⟩).1 else 0

/-- The tournament gave an individual of which `P` holds. -/
def Gives (pop : List α) (res : Except Err (Nat × Nat)) (P : α → Prop) : Prop :=
  ∃ i t x, res = .ok (i, t) ∧ pop[i]? = some x ∧ P x

open Classical in
/-- How many individuals (by position) have a fitness of at most `v`. -/
noncomputable def atMost (f : α → F) (pop : List α) (v : F) : Nat :=
  (Finset.univ.filter fun i : Fin pop.length => f pop[i] ≤ v).card

open Classical in
/-- How many individuals (by position) have a fitness below `v`. -/
noncomputable def below (f : α → F) (pop : List α) (v : F) : Nat :=
  (Finset.univ.filter fun i : Fin pop.length => f pop[i] < v).card

theorem streamOf_mod {n T : Nat} (d : Fin T → Fin n) (s : Nat) (h : s < T) :
    streamOf d s % n = (d ⟨s, h⟩).1 := by
  simp only [streamOf, dif_pos h]
  exact Nat.mod_eq_of_lt (d ⟨s, h⟩).2

/-- What a tournament of size `T` on the draws `d` gives: a property which is closed under smaller fitness
holds of the winner exactly when it holds of everybody drawn. -/
theorem det_gives_iff (f : α → F) (pop : List α) (T : Nat) (hT : 0 < T) (hpop : 0 < pop.length)
    (d : Fin T → Fin pop.length) (P : F → Prop) (hP : ∀ a b, a ≤ b → P b → P a) :
    Gives pop (detTournament f T (streamOf d) pop 0) (fun x => P (f x)) ↔ ∀ k, P (f pop[d k]) := by
  obtain ⟨i, hi, h1, ⟨s, _, hs2, hs3⟩, h3⟩ := C53_det_tournament f T hT (streamOf d) pop hpop 0
  have hs2' : s < T := by omega
  constructor
  · rintro ⟨i', t', x, e1, e2, e3⟩ k
    rw [h1] at e1
    cases e1
    rw [List.getElem?_eq_getElem hi] at e2
    cases e2
    have := h3 k.1 (by omega) (by have := k.2; omega)
    simp only [streamOf_mod d k.1 k.2] at this
    exact hP _ _ this e3
  · intro h
    refine ⟨i, _, pop[i], h1, List.getElem?_eq_getElem hi, ?_⟩
    have := h ⟨s, hs2'⟩
    have e : i = (d ⟨s, hs2'⟩).1 := by rw [hs3, streamOf_mod d s hs2']
    subst e
    exact this

open Classical in
/-- **C371** (deterministic tournament).  Of the `n^T` draws of a tournament of size `T`, exactly `c^T` select an
individual of fitness at most `v`, where `c` counts the individuals of fitness at most `v`. -/
theorem C371_det (f : α → F) (pop : List α) (T : Nat) (hT : 0 < T) (hpop : 0 < pop.length) (v : F) :
    (Finset.univ.filter fun d : Fin T → Fin pop.length =>
        Gives pop (detTournament f T (streamOf d) pop 0) (fun x => f x ≤ v)).card = atMost f pop v ^ T ∧
    Fintype.card (Fin T → Fin pop.length) = pop.length ^ T := by
  refine ⟨?_, by simp⟩
  have : (Finset.univ.filter fun d : Fin T → Fin pop.length =>
        Gives pop (detTournament f T (streamOf d) pop 0) (fun x => f x ≤ v)) =
      Fintype.piFinset fun _ : Fin T => Finset.univ.filter fun i : Fin pop.length => f pop[i] ≤ v := by
    ext d
    simp [det_gives_iff f pop T hT hpop d (fun a => a ≤ v) (fun a b hab hb => hab.trans hb),
      Fintype.mem_piFinset]
  rw [this, Fintype.card_piFinset]
  simp [atMost]

open Classical in
theorem det_below (f : α → F) (pop : List α) (T : Nat) (hT : 0 < T) (hpop : 0 < pop.length) (v : F) :
    (Finset.univ.filter fun d : Fin T → Fin pop.length =>
        Gives pop (detTournament f T (streamOf d) pop 0) (fun x => f x < v)).card = below f pop v ^ T := by
  have : (Finset.univ.filter fun d : Fin T → Fin pop.length =>
        Gives pop (detTournament f T (streamOf d) pop 0) (fun x => f x < v)) =
      Fintype.piFinset fun _ : Fin T => Finset.univ.filter fun i : Fin pop.length => f pop[i] < v := by
    ext d
    simp [det_gives_iff f pop T hT hpop d (fun a => a < v) (fun a b hab hb => hab.trans_lt hb),
      Fintype.mem_piFinset]
  rw [this, Fintype.card_piFinset]
  simp [below]

open Classical in
/-- **C371** (one level of fitness).  Exactly `c^T - b^T` draws select an individual of fitness `v`, where `b`
counts the individuals below `v`. -/
theorem C371_det_level (f : α → F) (pop : List α) (T : Nat) (hT : 0 < T) (hpop : 0 < pop.length) (v : F) :
    (Finset.univ.filter fun d : Fin T → Fin pop.length =>
        Gives pop (detTournament f T (streamOf d) pop 0) (fun x => f x = v)).card =
      atMost f pop v ^ T - below f pop v ^ T := by
  rw [← (C371_det f pop T hT hpop v).1, ← det_below f pop T hT hpop v, ← Finset.card_sdiff_of_subset]
  · congr 1
    ext d
    simp only [Finset.mem_filter, Finset.mem_univ, true_and, Finset.mem_sdiff]
    constructor
    · rintro ⟨i, t, x, h1, h2, h3⟩
      refine ⟨⟨i, t, x, h1, h2, h3.le⟩, ?_⟩
      rintro ⟨i', t', x', g1, g2, g3⟩
      rw [h1] at g1
      cases g1
      rw [h2] at g2
      cases g2
      exact absurd h3 g3.ne
    · rintro ⟨⟨i, t, x, h1, h2, h3⟩, h4⟩
      exact ⟨i, t, x, h1, h2, le_antisymm h3 (not_lt.1 fun h => h4 ⟨i, t, x, h1, h2, h⟩)⟩
  · intro d
    simp only [Finset.mem_filter, Finset.mem_univ, true_and]
    rintro ⟨i, t, x, h1, h2, h3⟩
    exact ⟨i, t, x, h1, h2, h3.le⟩

open Classical in
/-- **C371** (no two equal).  When the fitnesses are pairwise different, the individual which is better than exactly
`m` others is selected by exactly `(m+1)^T - m^T` of the `n^T` draws; in particular the worst by exactly one. -/
theorem C371_det_rank (f : α → F) (pop : List α) (T : Nat) (hT : 0 < T)
    (hd : (pop.map f).Nodup) (j : Fin pop.length) :
    (Finset.univ.filter fun d : Fin T → Fin pop.length =>
        ∃ t, detTournament f T (streamOf d) pop 0 = .ok (j.1, t)).card =
      (below f pop (f pop[j]) + 1) ^ T - below f pop (f pop[j]) ^ T := by
  have hpop : 0 < pop.length := j.pos
  have hinj : ∀ a b : Fin pop.length, f pop[a] = f pop[b] → a = b := by
    intro a b h
    have := (List.nodup_iff_injective_get.1 hd) (a₁ := ⟨a.1, by simp⟩) (a₂ := ⟨b.1, by simp⟩)
      (by simpa using h)
    exact Fin.ext (by simpa using this)
  have hc : atMost f pop (f pop[j]) = below f pop (f pop[j]) + 1 := by
    unfold atMost below
    rw [show (Finset.univ.filter fun i : Fin pop.length => f pop[i] ≤ f pop[j]) =
      insert j (Finset.univ.filter fun i : Fin pop.length => f pop[i] < f pop[j]) from ?_]
    · rw [Finset.card_insert_of_notMem (by simp)]
    · ext i
      simp only [Finset.mem_filter, Finset.mem_univ, true_and, Finset.mem_insert]
      constructor
      · intro h
        rcases h.eq_or_lt with h | h
        · exact Or.inl (hinj _ _ h)
        · exact Or.inr h
      · rintro (rfl | h)
        · exact le_rfl
        · exact h.le
  rw [← hc, ← C371_det_level f pop T hT hpop (f pop[j])]
  congr 1
  ext d
  simp only [Finset.mem_filter, Finset.mem_univ, true_and]
  constructor
  · rintro ⟨t, h⟩
    exact ⟨j.1, t, pop[j], h, List.getElem?_eq_getElem j.2, rfl⟩
  · rintro ⟨i, t, x, h1, h2, h3⟩
    obtain ⟨hi, rfl⟩ := List.getElem?_eq_some_iff.1 h2
    have := hinj ⟨i, hi⟩ j h3
    subst this
    exact ⟨t, h1⟩

/-! ### Stochastic tournaments -/

/-- The tournament on the pair of draws `d`, the flip being `b`. -/
theorem stoch_gives_iff (f : α → F) (pop : List α) (hpop : 0 < pop.length) (b : Bool)
    (d : Fin 2 → Fin pop.length) (v : F) :
    (Gives pop (stochTournament f (streamOf d) (fun _ => b) pop 0) (fun x => f x ≤ v) ↔
      if b then f pop[d 0] ≤ v ∧ f pop[d 1] ≤ v else f pop[d 0] ≤ v ∨ f pop[d 1] ≤ v) ∧
    (Gives pop (invStochTournament f (streamOf d) (fun _ => b) pop 0) (fun x => f x ≤ v) ↔
      if b then f pop[d 0] ≤ v ∨ f pop[d 1] ≤ v else f pop[d 0] ≤ v ∧ f pop[d 1] ≤ v) := by
  have e0 : streamOf d 0 % pop.length = (d 0).1 := streamOf_mod d 0 (by omega)
  have e1 : streamOf d 1 % pop.length = (d 1).1 := streamOf_mod d 1 (by omega)
  have gen : ∀ i j : Nat, ∀ (hi : i < pop.length) (hj : j < pop.length),
      ((i = (d 0).1 ∧ j = (d 1).1) ∨ (j = (d 0).1 ∧ i = (d 1).1)) →
      (f pop[j] ≤ f pop[i] → (f pop[i] ≤ v ↔ f pop[d 0] ≤ v ∧ f pop[d 1] ≤ v)) ∧
      (f pop[i] ≤ f pop[j] → (f pop[i] ≤ v ↔ f pop[d 0] ≤ v ∨ f pop[d 1] ≤ v)) := by
    rintro i j hi hj (⟨rfl, rfl⟩ | ⟨rfl, rfl⟩)
    · exact ⟨fun h => ⟨fun h1 => ⟨h1, h.trans h1⟩, fun h1 => h1.1⟩,
        fun h => ⟨fun h1 => Or.inl h1, fun h1 => h1.elim id fun h2 => h.trans h2⟩⟩
    · exact ⟨fun h => ⟨fun h1 => ⟨h.trans h1, h1⟩, fun h1 => h1.2⟩,
        fun h => ⟨fun h1 => Or.inr h1, fun h1 => h1.elim (fun h2 => h.trans h2) id⟩⟩
  have gv : ∀ (res : Except Err (Nat × Nat)) i t (hi : i < pop.length), res = .ok (i, t) →
      (Gives pop res (fun x => f x ≤ v) ↔ f pop[i] ≤ v) := by
    rintro _ i t hi rfl
    constructor
    · rintro ⟨i', t', x, h1, h2, h3⟩
      cases h1
      rw [List.getElem?_eq_getElem hi] at h2
      cases h2
      exact h3
    · intro h
      exact ⟨i, t, _, rfl, List.getElem?_eq_getElem hi, h⟩
  obtain ⟨⟨i, j, hi, hj, h1, h2, h3⟩, ⟨i', j', hi', hj', h1', h2', h3'⟩⟩ :=
    C53_stochastic f (streamOf d) (fun _ => b) pop hpop 0
  rw [Nat.zero_add, e0, e1] at h2 h2'
  rw [gv _ _ _ hi h1, gv _ _ _ hi' h1']
  cases b
  · exact ⟨by simpa using (gen i j hi hj h2).2 (by simpa using h3),
      by simpa using (gen i' j' hi' hj' h2').1 (by simpa using h3')⟩
  · exact ⟨by simpa using (gen i j hi hj h2).1 (by simpa using h3),
      by simpa using (gen i' j' hi' hj' h2').2 (by simpa using h3')⟩

open Classical in
theorem card_both (f : α → F) (pop : List α) (v : F) :
    (Finset.univ.filter fun d : Fin 2 → Fin pop.length => f pop[d 0] ≤ v ∧ f pop[d 1] ≤ v).card =
      atMost f pop v ^ 2 := by
  have : (Finset.univ.filter fun d : Fin 2 → Fin pop.length => f pop[d 0] ≤ v ∧ f pop[d 1] ≤ v) =
      Fintype.piFinset fun _ : Fin 2 => Finset.univ.filter fun i : Fin pop.length => f pop[i] ≤ v := by
    ext d
    simp [Fintype.mem_piFinset, Fin.forall_fin_two]
  rw [this, Fintype.card_piFinset]
  simp [atMost]

open Classical in
theorem card_either (f : α → F) (pop : List α) (v : F) :
    (Finset.univ.filter fun d : Fin 2 → Fin pop.length => f pop[d 0] ≤ v ∨ f pop[d 1] ≤ v).card =
      pop.length ^ 2 - (pop.length - atMost f pop v) ^ 2 := by
  have h1 : (Finset.univ.filter fun d : Fin 2 → Fin pop.length => f pop[d 0] ≤ v ∨ f pop[d 1] ≤ v) =
      (Fintype.piFinset fun _ : Fin 2 =>
        (Finset.univ.filter fun i : Fin pop.length => f pop[i] ≤ v)ᶜ)ᶜ := by
    ext d
    simp only [Finset.mem_filter, Finset.mem_univ, true_and, Finset.mem_compl, Fintype.mem_piFinset,
      Fin.forall_fin_two]
    tauto
  rw [h1, Finset.card_compl, Fintype.card_piFinset]
  simp only [Finset.card_compl, Finset.prod_const, Finset.card_univ, Fintype.card_fin, Fintype.card_fun, atMost]

open Classical in
/-- **C371** (stochastic tournament).  Of the `n^2` draws, when the flip asks for the better one exactly `c^2` select an
individual of fitness at most `v`, and otherwise exactly `n^2 - (n-c)^2`; for the inverse tournament it is the other
way round. -/
theorem C371_stoch (f : α → F) (pop : List α) (hpop : 0 < pop.length) (b : Bool) (v : F) :
    (Finset.univ.filter fun d : Fin 2 → Fin pop.length =>
        Gives pop (stochTournament f (streamOf d) (fun _ => b) pop 0) (fun x => f x ≤ v)).card =
      (if b then atMost f pop v ^ 2 else pop.length ^ 2 - (pop.length - atMost f pop v) ^ 2) ∧
    (Finset.univ.filter fun d : Fin 2 → Fin pop.length =>
        Gives pop (invStochTournament f (streamOf d) (fun _ => b) pop 0) (fun x => f x ≤ v)).card =
      (if b then pop.length ^ 2 - (pop.length - atMost f pop v) ^ 2 else atMost f pop v ^ 2) := by
  simp only [fun d => (stoch_gives_iff f pop hpop b d v).1, fun d => (stoch_gives_iff f pop hpop b d v).2]
  cases b
  · simp only [Bool.false_eq_true, if_false]
    exact ⟨by convert card_either f pop v, by convert card_both f pop v⟩
  · simp only [if_true]
    exact ⟨by convert card_both f pop v, by convert card_either f pop v⟩

/-- The hypotheses of `C371_det_rank` for the best of four individuals: of the 64 draws of a tournament of size 3,
`4^3 - 3^3 = 37` select it. -/
example : below (fun x : Nat => x) [5, 9, 2, 7] 9 = 3 ∧ (([5, 9, 2, 7] : List Nat).map fun x => x).Nodup := by
  refine ⟨?_, by decide⟩
  unfold below
  simp only [Finset.filter_congr_decidable]
  decide

example : detTournament (fun x : Nat => x) 3 (streamOf (![0, 3, 2] : Fin 3 → Fin 4)) [5, 9, 2, 7] 0 =
    Except.ok (3, 3) := by decide

end Paradiseo.EO
