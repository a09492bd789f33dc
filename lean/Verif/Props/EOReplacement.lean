/-
Properties C48-C53, C55, C73-C79: reduction, merge, replacement and tournaments.
-/
import Verif.Lemmas.EOReplacement
import Mathlib.Algebra.Order.Floor.Ring
import Mathlib.Tactic.Linarith

namespace Paradiseo.EO
variable {α F : Type} [LinearOrder F]

/-! ### The hypotheses on the standard library can be met -/

theorem isSort_mergeSort (f : α → F) : IsSort f (fun l => l.mergeSort fun a b => decide (f b ≤ f a)) where
  perm l := List.mergeSort_perm l _
  sorted l := by
    have := List.pairwise_mergeSort (le := fun a b : α => decide (f b ≤ f a))
      (fun a b c hab hbc => by simp at *; exact hbc.trans hab)
      (fun a b => by simp; exact le_total (f b) (f a)) l
    exact this.imp (by simp)

theorem isNth_of_isSort {f : α → F} {sort : List α → List α} (h : IsSort f sort) :
    IsNth f (fun _ l => sort l) where
  perm _ l := h.perm l
  split n l a ha b hb := by
    have := h.sorted l
    rw [← List.take_append_drop n (sort l), List.pairwise_append] at this
    exact this.2.2 a ha b hb

/-! ### C48: truncation replacement -/

/-- C48, plus: never fails; the new population has the size of the old one, is a best part of
parents and offspring together, and no parent is better than all of the new population. -/
theorem C48_plus (f : α → F) (sort : List α → List α) (hs : IsSort f sort)
    (parents offspring : List α) :
    ∃ kept, plusReplacement sort parents offspring = .ok (kept, parents) ∧
      kept.length = parents.length ∧ BestOf f kept (parents ++ offspring) ∧
      ∀ p ∈ parents, ∃ q ∈ kept, f p ≤ f q := by
  have key : ∃ kept, plusReplacement sort parents offspring = .ok (kept, parents) ∧
      kept.length = parents.length ∧ BestOf f kept (parents ++ offspring) := by
    simp only [plusReplacement, mergeReduce, plus, truncate]
    by_cases h : (offspring ++ parents).length = parents.length
    · rw [if_pos h]
      exact ⟨_, rfl, h, (BestOf.refl f _).perm_right List.perm_append_comm⟩
    · have h2 : ¬ (offspring ++ parents).length < parents.length := by
        simp
      rw [if_neg h, if_neg h2]
      refine ⟨_, rfl, ?_, (bestOf_sort_take hs _ _).perm_right List.perm_append_comm⟩
      rw [List.length_take, (hs.perm _).length_eq, List.length_append]
      omega
  obtain ⟨kept, h1, h2, h3⟩ := key
  refine ⟨kept, h1, h2, h3, ?_⟩
  intro p hp
  have hne : kept ≠ [] := by
    rintro rfl
    simp only [List.length_nil] at h2
    rw [List.eq_nil_of_length_eq_zero h2.symm] at hp
    simp at hp
  exact h3.best hne p (List.mem_append_left _ hp)

/-- C48, comma: with at least as many offspring as parents, the new population has the size of the
old one and is a best part of the offspring; with fewer it throws. -/
theorem C48_comma (f : α → F) (nth : Nat → List α → List α) (sort : List α → List α)
    (hs : IsSort f sort) (parents offspring : List α) :
    (offspring.length < parents.length →
      commaReplacement nth sort parents offspring = .error .thrown) ∧
    (parents.length ≤ offspring.length →
      ∃ kept, commaReplacement nth sort parents offspring = .ok (kept, parents) ∧
        kept.length = parents.length ∧ BestOf f kept offspring) := by
  simp only [commaReplacement, mergeReduce, elitism, truncate, and_self, if_true]
  refine ⟨fun h => ?_, fun h => ?_⟩
  · rw [if_neg (by omega), if_pos h]
  · by_cases he : offspring.length = parents.length
    · rw [if_pos he]; exact ⟨_, rfl, he, BestOf.refl f _⟩
    · rw [if_neg he, if_neg (by omega)]
      refine ⟨_, rfl, ?_, bestOf_sort_take hs _ _⟩
      rw [List.length_take, (hs.perm _).length_eq]; omega

/-- Generations of plus replacement with arbitrary offspring. -/
def plusRun (sort : List α → List α) : List (List α) → List α → Except Err (List α)
  | [], pop => .ok pop
  | o :: os, pop =>
    match plusReplacement sort pop o with
    | .error e => .error e
    | .ok (pop', _) => plusRun sort os pop'

/-- C48, any number of generations: the size never changes, and every individual ever present
(initial or offspring) is matched by one at least as good in the final population. -/
theorem C48_plus_run (f : α → F) (sort : List α → List α) (hs : IsSort f sort)
    (gens : List (List α)) (pop : List α) (hpop : pop ≠ []) :
    ∃ final, plusRun sort gens pop = .ok final ∧ final.length = pop.length ∧
      (∀ p ∈ pop, ∃ q ∈ final, f p ≤ f q) ∧
      ∀ o ∈ gens, ∀ p ∈ o, ∃ q ∈ final, f p ≤ f q := by
  induction gens generalizing pop with
  | nil => exact ⟨pop, rfl, rfl, fun p hp => ⟨p, hp, le_rfl⟩, by simp⟩
  | cons o os ih =>
    obtain ⟨kept, h1, h2, h3, h4⟩ := C48_plus f sort hs pop o
    have hne : kept ≠ [] := by
      rintro rfl
      exact hpop (List.eq_nil_of_length_eq_zero h2.symm)
    obtain ⟨final, g1, g2, g3, g4⟩ := ih kept hne
    refine ⟨final, by simp only [plusRun, h1, g1], g2.trans h2, ?_, ?_⟩
    · intro p hp
      obtain ⟨q, hq, hpq⟩ := h4 p hp
      obtain ⟨q', hq', hqq'⟩ := g3 q hq
      exact ⟨q', hq', hpq.trans hqq'⟩
    · intro o' ho' p hp
      rcases List.mem_cons.1 ho' with rfl | ho'
      · obtain ⟨q, hq, hpq⟩ := h3.best hne p (List.mem_append_right _ hp)
        obtain ⟨q', hq', hqq'⟩ := g3 q hq
        exact ⟨q', hq', hpq.trans hqq'⟩
      · exact g4 o' ho' p hp

example : BestOf (fun x : Nat => x) [5, 4] ([1, 5] ++ [4, 2]) :=
  ⟨[1, 2], by decide, by decide⟩

/-! ### C49: weak elitism -/

/-- C49: around any replacement giving a non-empty population, weak elitism succeeds, changes
nothing when the best parent is matched, otherwise replaces one worst individual by the best
parent; the size is preserved and the best fitness is the maximum of before and after. -/
theorem C49_weak_elitism (f : α → F) (replace : Replacement α) (pop offspring pop' off' : List α)
    (hpop : pop ≠ []) (hr : replace pop offspring = .ok (pop', off')) (hpop' : pop' ≠ []) :
    ∃ res, weakElitist f replace pop offspring = .ok (res, off') ∧
      res.length = pop'.length ∧
      (∀ p ∈ pop, ∃ q ∈ res, f p ≤ f q) ∧ (∀ p ∈ pop', ∃ q ∈ res, f p ≤ f q) ∧
      ((∃ q ∈ pop', ∀ p ∈ pop, f p ≤ f q) → res = pop') ∧
      ((¬ ∃ q ∈ pop', ∀ p ∈ pop, f p ≤ f q) → ∃ i champ w, champ ∈ pop ∧ (∀ p ∈ pop, f p ≤ f champ) ∧
        pop'[i]? = some w ∧ (∀ q ∈ pop', f w ≤ f q) ∧ res = pop'.set i champ) := by
  obtain ⟨champ, hc1, hc2, hc3⟩ := bestElement_spec f pop hpop
  obtain ⟨newc, hn1, hn2, hn3⟩ := bestElement_spec f pop' hpop'
  obtain ⟨i, w, hw1, hw2, hw3⟩ := worseElement_spec f pop' hpop'
  obtain ⟨hi, _⟩ := List.getElem?_eq_some_iff.1 hw2
  by_cases h : f newc < f champ
  · refine ⟨pop'.set i champ, by simp only [weakElitist, hc1, hr, hn1, h, if_true, hw1],
      by simp, ?_, ?_, ?_, ?_⟩
    · intro p hp
      exact ⟨champ, List.mem_set hi champ, hc3 p hp⟩
    · intro p hp
      exact ⟨champ, List.mem_set hi champ, (hn3 p hp).trans h.le⟩
    · rintro ⟨q, hq, hq2⟩
      exact absurd ((hq2 champ hc2).trans (hn3 q hq)) (not_le.2 h)
    · intro _
      exact ⟨i, champ, w, hc2, hc3, hw2, hw3, rfl⟩
  · refine ⟨pop', by simp only [weakElitist, hc1, hr, hn1, h, if_false], rfl, ?_,
      fun p hp => ⟨p, hp, le_rfl⟩, fun _ => rfl, ?_⟩
    · intro p hp
      exact ⟨newc, hn2, (hc3 p hp).trans (not_lt.1 h)⟩
    · intro hne
      exact absurd ⟨newc, hn2, fun p hp => (hc3 p hp).trans (not_lt.1 h)⟩ hne

/-- Empty populations are reported: before the replacement, or after it. -/
theorem C49_empty (f : α → F) (replace : Replacement α) (pop offspring off' : List α) :
    weakElitist f replace [] offspring = .error .thrown ∧
    (pop ≠ [] → replace pop offspring = .ok ([], off') →
      weakElitist f replace pop offspring = .error .thrown) := by
  refine ⟨rfl, ?_⟩
  intro h hr
  obtain ⟨champ, hc1, _, _⟩ := bestElement_spec f pop h
  simp only [weakElitist, hc1, hr]
  rfl

/-- With generational replacement of [7, 1] by [3, 2] the champion 7 takes the place of 2. -/
example : weakElitist (fun x : Nat => x) generational [7, 1] [3, 2] = .ok ([3, 7], [7, 1]) := by
  rfl

/-! ### C50: reducers -/

/-- C50 for truncation: exact size and best part, or an exception. -/
theorem C50_truncate (f : α → F) (sort : List α → List α) (hs : IsSort f sort) (pop : List α)
    (n : Nat) :
    (pop.length < n → truncate sort pop n = .error .thrown) ∧
    (n ≤ pop.length → ∃ kept, truncate sort pop n = .ok kept ∧ kept.length = n ∧
      BestOf f kept pop) := by
  simp only [truncate]
  refine ⟨fun h => by rw [if_neg (by omega), if_pos h], fun h => ?_⟩
  by_cases he : pop.length = n
  · rw [if_pos he]; exact ⟨_, rfl, he, BestOf.refl f _⟩
  · rw [if_neg he, if_neg (by omega)]
    refine ⟨_, rfl, ?_, bestOf_sort_take hs _ _⟩
    rw [List.length_take, (hs.perm _).length_eq]; omega

omit [LinearOrder F] in
/-- C50 for random reduction: exact size and a sub-multiset, or an exception. -/
theorem C50_random (shuffle : List α → List α) (hs : ∀ l, (shuffle l).Perm l) (pop : List α)
    (n : Nat) :
    (pop.length < n → randomReduce shuffle pop n = .error .thrown) ∧
    (n ≤ pop.length → ∃ kept, randomReduce shuffle pop n = .ok kept ∧ kept.length = n ∧
      kept.Subperm pop) := by
  simp only [randomReduce]
  refine ⟨fun h => by rw [if_neg (by omega), if_pos h], fun h => ?_⟩
  by_cases he : pop.length = n
  · rw [if_pos he]; exact ⟨_, rfl, he, List.Subperm.refl _⟩
  · rw [if_neg he, if_neg (by omega)]
    refine ⟨_, rfl, ?_, (List.take_sublist _ _).subperm.trans (hs pop).subperm⟩
    rw [List.length_take, (hs _).length_eq]; omega

theorem epScores_map (f : α → F) (tSize : Nat) (r : Nat → Nat) (pop : List α) :
    ∀ (l : List α) (t : Nat), (epScores f tSize r pop l t).map Prod.snd = l := by
  intro l
  induction l with
  | nil => intro t; rfl
  | cons x xs ih => intro t; simp [epScores, ih]

/-- C50 for EP tournaments: exact size and a sub-multiset, or an exception; none of the individuals
left out has a better (score, fitness) than any kept. -/
theorem C50_ep (f : α → F) (tSize : Nat) (r : Nat → Nat)
    (nth : Nat → List (Nat × α) → List (Nat × α)) (hs : IsNth (epKey f) nth) (pop : List α)
    (n : Nat) :
    (pop.length < n → epReduce f tSize r nth pop n = .error .thrown) ∧
    (n ≤ pop.length → ∃ kept, epReduce f tSize r nth pop n = .ok kept ∧ kept.length = n ∧
      kept.Subperm pop ∧
      (n ≠ pop.length → ∃ scored, scored.map Prod.snd = kept ∧
        BestOf (epKey f) scored (epScores f (max tSize 2) r pop pop 0))) := by
  simp only [epReduce]
  refine ⟨fun h => by rw [if_neg (by omega), if_pos h], fun h => ?_⟩
  by_cases he : pop.length = n
  · rw [if_pos he]; exact ⟨_, rfl, he, List.Subperm.refl _, fun h' => absurd he.symm h'⟩
  · rw [if_neg he, if_neg (by omega)]
    have hb := bestOf_nth_take hs (epScores f (max tSize 2) r pop pop 0) n
    refine ⟨_, rfl, ?_, ?_, fun _ => ⟨_, rfl, hb⟩⟩
    · rw [List.length_map, List.length_take, (hs.perm _ _).length_eq]
      have : (epScores f (max tSize 2) r pop pop 0).length = pop.length := by
        rw [← List.length_map (f := Prod.snd), epScores_map]
      omega
    · obtain ⟨d, hd, _⟩ := hb
      have := hd.map Prod.snd
      rw [epScores_map, List.map_append] at this
      exact (List.sublist_append_left _ _).subperm.trans this.subperm

/-- C50 for linear truncation: exact size, a best part, in the original order, or an exception. -/
theorem C50_linear (f : α → F) (pop : List α) (n : Nat) :
    (pop.length < n → linearTruncate f pop n = .error .thrown) ∧
    (n ≤ pop.length → ∃ kept, linearTruncate f pop n = .ok kept ∧ kept.length = n ∧
      kept.Sublist pop ∧ BestOf f kept pop) := by
  simp only [linearTruncate]
  refine ⟨fun h => by rw [if_neg (by omega), if_pos h], fun h => ?_⟩
  by_cases he : pop.length = n
  · rw [if_pos he]; exact ⟨_, rfl, he, List.Sublist.refl _, BestOf.refl f _⟩
  · rw [if_neg he, if_neg (by omega)]
    obtain ⟨rest, el, h1, h2, h3, h4, h5⟩ := eliminate_worse f (pop.length - n) pop 0 (by omega)
    refine ⟨rest, by rw [h1]; rfl, ?_, h4, el, h2, h5⟩
    have := h2.length_eq
    rw [List.length_append] at this; omega

theorem invStoch_total (f : α → F) (r : Nat → Nat) (flip : Nat → Bool) (pop : List α) (t : Nat)
    (h : 0 < pop.length) :
    ∃ i t', invStochTournament f r flip pop t = .ok (i, t') ∧ i < pop.length := by
  have h0 : ∀ k, r k % pop.length < pop.length := fun k => Nat.mod_lt _ h
  unfold invStochTournament
  rw [if_neg (by omega)]
  dsimp only
  by_cases h1 : ltAt f pop (r t % pop.length) (r (t + 1) % pop.length)
  · rw [if_pos h1]
    cases flip (t + 2) <;> exact ⟨_, _, rfl, h0 _⟩
  · rw [if_neg h1]
    cases flip (t + 2) <;> exact ⟨_, _, rfl, h0 _⟩

/-- C50 for stochastic tournaments: exact size, in the original order, or an exception. -/
theorem C50_stochastic (f : α → F) (r : Nat → Nat) (flip : Nat → Bool) (pop : List α) (n : Nat) :
    (pop.length < n → stochTruncate f r flip pop n = .error .thrown) ∧
    (n ≤ pop.length → ∃ kept, stochTruncate f r flip pop n = .ok kept ∧ kept.length = n ∧
      kept.Sublist pop) := by
  simp only [stochTruncate]
  refine ⟨fun h => by rw [if_neg (by omega), if_neg (by omega), if_pos h], fun h => ?_⟩
  by_cases h0 : n = 0
  · rw [if_pos h0]; exact ⟨[], rfl, by simp [h0], List.nil_sublist _⟩
  by_cases he : pop.length = n
  · rw [if_neg h0, if_pos he]; exact ⟨_, rfl, he, List.Sublist.refl _⟩
  · rw [if_neg h0, if_neg he, if_neg (by omega)]
    obtain ⟨rest, el, t', h1⟩ := eliminate_total (invStochTournament f r flip) 0
      (fun p t hp => invStoch_total f r flip p t hp) (pop.length - n) pop 0 (by omega)
    obtain ⟨g1, g2, g3⟩ := eliminate_ok _ _ _ _ _ _ _ h1
    refine ⟨rest, by rw [h1]; rfl, ?_, g2⟩
    have := g3.length_eq
    rw [List.length_append] at this; omega

/-- C50 for deterministic tournaments: an exception when the requested size is larger; otherwise
whatever is returned has the exact size and the original order, and nothing else than exhausting
the draws can go wrong. -/
theorem C50_deterministic (f : α → F) (tSize : Nat) (r : Nat → Nat) (fuel : Nat) (pop : List α)
    (n : Nat) :
    (pop.length < n → detTruncate f tSize r fuel pop n = .error .thrown) ∧
    (n ≤ pop.length →
      detTruncate f tSize r fuel pop n = .error .fuel ∨
      ∃ kept, detTruncate f tSize r fuel pop n = .ok kept ∧ kept.length = n ∧
        kept.Sublist pop) := by
  simp only [detTruncate]
  refine ⟨fun h => by rw [if_neg (by omega), if_neg (by omega), if_pos h], fun h => ?_⟩
  by_cases h0 : n = 0
  · right; rw [if_pos h0]; exact ⟨[], rfl, by simp [h0], List.nil_sublist _⟩
  by_cases he : pop.length = n
  · right; rw [if_neg h0, if_pos he]; exact ⟨_, rfl, he, List.Sublist.refl _⟩
  · rw [if_neg h0, if_neg he, if_neg (by omega)]
    cases h1 : eliminate (invDetTournament f (max tSize 2) r fuel) (pop.length - n) pop 0 with
    | error e =>
      left
      have : e = .fuel := by
        refine eliminate_error_fuel f (max tSize 2) r fuel (pop.length - n) pop 0 (by omega) e h1
      rw [this]; rfl
    | ok x =>
      right
      obtain ⟨rest, el, t'⟩ := x
      obtain ⟨g1, g2, g3⟩ := eliminate_ok _ _ _ _ _ _ _ h1
      refine ⟨rest, rfl, ?_, g2⟩
      have := g3.length_eq
      rw [List.length_append] at this; omega

/-- C50 for deterministic tournaments: with a stream of draws which does not repeat one position
for ever, the reduction terminates. -/
theorem C50_deterministic_terminates (f : α → F) (tSize : Nat) (r : Nat → Nat) (hr : Fair r)
    (pop : List α) (n : Nat) (hn : n ≤ pop.length) :
    ∃ fuel kept, detTruncate f tSize r fuel pop n = .ok kept ∧ kept.length = n := by
  by_cases h0 : n = 0
  · exact ⟨0, [], by simp [detTruncate, h0], by simp [h0]⟩
  by_cases he : pop.length = n
  · exact ⟨0, pop, by simp [detTruncate, h0, he], he⟩
  obtain ⟨fuel, rest, el, t', h1⟩ := eliminate_det_total f (max tSize 2) r hr (pop.length - n) pop 0
    (by omega)
  refine ⟨fuel, rest, ?_, ?_⟩
  · simp only [detTruncate]
    rw [if_neg h0, if_neg he, if_neg (by omega), h1]; rfl
  · obtain ⟨g1, g2, g3⟩ := eliminate_ok _ _ _ _ _ _ _ h1
    have := g3.length_eq
    rw [List.length_append] at this; omega

/-- The hypothesis on the stream is needed: with a constant stream no number of draws is enough to
reduce two individuals to one. -/
theorem C50_deterministic_may_diverge (fuel : Nat) :
    detTruncate (fun x : Nat => x) 2 (fun _ => 0) fuel [1, 2] 1 = .error .fuel := by
  have : ∀ fuel t, invLoop (fun x : Nat => x) [1, 2] (fun _ => 0) fuel 1 0 t = .error .fuel := by
    intro fuel
    induction fuel with
    | zero => intro t; rfl
    | succ fuel ih => intro t; simp only [invLoop, Nat.zero_mod, if_true, ih]
  simp [detTruncate, eliminate, invDetTournament, this]; rfl

example : Fair (fun s => s) := by
  intro n hn w t
  by_cases h : t % n = w
  · refine ⟨t + 1, by omega, ?_⟩
    intro h2
    have h3 : (t + 1) % n = t % n := h2.trans h.symm
    have h4 := Nat.sub_mod_eq_zero_of_mod_eq h3
    rw [Nat.add_sub_cancel_left, Nat.mod_eq_of_lt (by omega)] at h4
    omega
  · exact ⟨t, le_rfl, h⟩

/-! ### C51 -/

/-- C51: linear truncation and sort truncation keep the same multiset of fitnesses, whatever the
sorting algorithm. -/
theorem C51_linear_eq_sort (f : α → F) (sort : List α → List α) (hs : IsSort f sort)
    (pop : List α) (n : Nat) (hn : n ≤ pop.length) :
    ∃ k1 k2, linearTruncate f pop n = .ok k1 ∧ truncate sort pop n = .ok k2 ∧
      (k1.map f).Perm (k2.map f) := by
  obtain ⟨k1, h1, h2, _, h3⟩ := (C50_linear f pop n).2 hn
  obtain ⟨k2, g1, g2, g3⟩ := (C50_truncate f sort hs pop n).2 hn
  exact ⟨k1, k2, h1, g1, h3.unique g3 (h2.trans g2.symm)⟩

/-- The individuals themselves may differ when fitnesses are equal: the linear version erases the
first of the worst. -/
example : linearTruncate (fun x : Nat × Nat => x.1) [(1, 0), (1, 1)] 1 = .ok [(1, 1)] := by rfl

/-! ### C52: the elitism merge -/

/-- C52: as soon as the elitism is not switched off, the merge appends ALL the parents to the
offspring (in some order), whatever the requested number. -/
theorem C52_elitism_copies_all (f : α → F) (nth : Nat → List α → List α) (hs : IsNth f nth)
    (rate : ℚ) (combien : Nat) (pop offspring : List α)
    (hon : ¬ (combien = 0 ∧ rate = 0)) (hpop : pop ≠ [])
    (hle : elitismCount rate combien pop.length ≤ pop.length) :
    ∃ copied, elitism nth rate combien pop offspring = .ok (offspring ++ copied) ∧
      copied.Perm pop := by
  refine ⟨_, ?_, hs.perm (elitismCount rate combien pop.length) pop⟩
  have h0 : pop.length ≠ 0 := fun h => hpop (List.eq_nil_of_length_eq_zero h)
  simp only [elitism]
  rw [if_neg hon, if_neg (by omega), if_neg h0]

/-- So the documented behaviour (append the given number of best parents) fails: one elite out of
two parents gives two copies. -/
theorem C52_documented_false : ∃ (nth : Nat → List Nat → List Nat) (res : List Nat),
    IsNth (fun x : Nat => x) nth ∧ elitism nth 0 1 [2, 1] [0] = .ok res ∧ res.length ≠ [0].length + 1 := by
  refine ⟨_, _, isNth_of_isSort (isSort_mergeSort _), rfl, ?_⟩
  simp [List.length_mergeSort]

/-- C52, off and errors: rate and number zero leave the offspring alone; asking for more than the
population throws. -/
theorem C52_elitism_off_and_errors (nth : Nat → List α → List α) (rate : ℚ) (combien : Nat)
    (pop offspring : List α) :
    elitism nth 0 0 pop offspring = .ok offspring ∧
    (pop.length < combien → elitism nth rate combien pop offspring = .error .thrown) := by
  refine ⟨by simp [elitism], ?_⟩
  intro h
  have h0 : combien ≠ 0 := by omega
  simp [elitism, h0, elitismCount, h]

example : elitismCount (1/2) 0 3 ≤ 3 := by
  have : ⌊(1/2 : ℚ) * (3 : ℕ)⌋ = 1 := by norm_num [Int.floor_eq_iff]
  simp only [elitismCount, if_true, this]; decide

/-! ### C53: tournaments -/

/-- C53, deterministic tournament on a non-empty population with a positive size: uses exactly
`tSize` draws, returns one of the drawn positions, and its individual is at least as good as every
drawn one. -/
theorem C53_det_tournament (f : α → F) (tSize : Nat) (ht : 0 < tSize) (r : Nat → Nat)
    (pop : List α) (hpop : 0 < pop.length) (t : Nat) :
    ∃ i, ∃ hi : i < pop.length, detTournament f tSize r pop t = .ok (i, t + tSize) ∧
      (∃ s, t ≤ s ∧ s < t + tSize ∧ i = r s % pop.length) ∧
      ∀ s, t ≤ s → s < t + tSize →
        f (pop[r s % pop.length]'(Nat.mod_lt _ hpop)) ≤ f pop[i] := by
  obtain ⟨i, hi, h1, h2, h3, h4⟩ := detLoop_spec f pop r hpop (tSize - 1) (r t % pop.length) (t + 1)
    (Nat.mod_lt _ hpop)
  refine ⟨i, hi, ?_, ?_, ?_⟩
  · rw [detTournament, if_neg (by omega), if_neg (by omega), h1]
    congr 2; omega
  · rcases h2 with h2 | ⟨s, hs1, hs2, hs3⟩
    · exact ⟨t, le_rfl, by omega, h2⟩
    · exact ⟨s, by omega, by omega, hs3⟩
  · intro s hs1 hs2
    rcases Nat.eq_or_lt_of_le hs1 with rfl | hs1
    · exact h3
    · exact h4 s (by omega) (by omega)

/-- C53: a tournament of size 0 wraps around and draws 2^32 times. -/
theorem C53_det_tournament_zero (f : α → F) (r : Nat → Nat) (pop : List α) (hpop : 0 < pop.length)
    (t : Nat) : ∃ i, detTournament f 0 r pop t = .ok (i, t + 2 ^ 32) := by
  obtain ⟨i, hi, h1, _⟩ := detLoop_spec f pop r hpop (2 ^ 32 - 1) (r t % pop.length) (t + 1)
    (Nat.mod_lt _ hpop)
  refine ⟨i, ?_⟩
  rw [detTournament, if_neg (by omega), if_pos rfl, h1, Nat.add_assoc, show 1 + (2 ^ 32 - 1) = 2 ^ 32 from rfl]

/-- C53, inverse tournament: whatever it returns is one of the drawn positions and no drawn
individual is worse; with a size of at least two another position was drawn. -/
theorem C53_inverse_tournament (f : α → F) (tSize : Nat) (r : Nat → Nat) (fuel : Nat)
    (pop : List α) (hpop : 0 < pop.length) (t i t' : Nat)
    (h : invDetTournament f tSize r fuel pop t = .ok (i, t')) :
    ∃ hi : i < pop.length, t + tSize ≤ t' ∧ (∃ s, t ≤ s ∧ s < t' ∧ i = r s % pop.length) ∧
      (2 ≤ tSize → ∃ s, t ≤ s ∧ s < t' ∧ r s % pop.length ≠ i) ∧
      ∀ s, t ≤ s → s < t' → f pop[i] ≤ f (pop[r s % pop.length]'(Nat.mod_lt _ hpop)) := by
  rw [invDetTournament, if_neg (by omega)] at h
  obtain ⟨hi, h1, h2, h3, h4, h5⟩ := invLoop_spec f pop r hpop _ _ _ _ (Nat.mod_lt _ hpop) _ _ h
  have hA : t + tSize ≤ t' ∧ t < t' := by clear h2 h3 h4 h5; omega
  refine ⟨hi, hA.1, ?_, ?_, ?_⟩
  · clear h3 h4 h5
    rcases h2 with h2 | ⟨s, hs1, hs2, hs3⟩
    · exact ⟨t, le_rfl, by omega, h2⟩
    · exact ⟨s, by omega, hs2, hs3⟩
  · intro ht
    clear h2 h3 h5
    rcases h4 (Nat.sub_pos_of_lt ht) with h4 | ⟨s, hs1, hs2, hs3⟩
    · exact ⟨t, le_rfl, hA.2, fun he => h4 he.symm⟩
    · exact ⟨s, by omega, hs2, hs3⟩
  · intro s hs1 hs2
    rcases Nat.eq_or_lt_of_le hs1 with rfl | hs1
    · exact h3
    · exact h5 s (by omega) hs2

/-- C53: the inverse tournament of size at least two on a single individual never returns, for any
stream and any number of draws. -/
theorem C53_inverse_single_diverges (f : α → F) (tSize : Nat) (ht : 2 ≤ tSize) (r : Nat → Nat)
    (fuel : Nat) (x : α) (t : Nat) : invDetTournament f tSize r fuel [x] t = .error .fuel := by
  have key : ∀ fuel k t, invLoop f [x] r fuel (k + 1) 0 t = .error .fuel := by
    intro fuel
    induction fuel with
    | zero => intro k t; rfl
    | succ fuel ih =>
      intro k t
      have : r t % [x].length = 0 := by simp [Nat.mod_one]
      simp only [invLoop, this, if_true, ih]
  have h0 : r t % [x].length = 0 := by simp [Nat.mod_one]
  obtain ⟨k, hk⟩ : ∃ k, tSize - 1 = k + 1 := ⟨tSize - 2, by omega⟩
  rw [invDetTournament, if_neg (by simp), h0, hk, key]

/-- C53: with at least two individuals and a stream which does not repeat one position for ever the
inverse tournament returns. -/
theorem C53_inverse_terminates (f : α → F) (tSize : Nat) (r : Nat → Nat) (hr : Fair r)
    (pop : List α) (hpop : 2 ≤ pop.length) (t : Nat) :
    ∃ fuel x, invDetTournament f tSize r fuel pop t = .ok x := by
  obtain ⟨fuel, x, h⟩ := invLoop_total f pop r hr hpop (tSize - 1) (r t % pop.length) (t + 1)
    (Nat.mod_lt _ (by omega))
  exact ⟨fuel, x, by rw [invDetTournament, if_neg (by omega), h]⟩

/-- C53, stochastic tournaments: the position is one of the two drawn ones; when the flip asks for
the better (worse) one, the other is not better (worse). -/
theorem C53_stochastic (f : α → F) (r : Nat → Nat) (flip : Nat → Bool) (pop : List α)
    (hpop : 0 < pop.length) (t : Nat) :
    (∃ i j, ∃ hi : i < pop.length, ∃ hj : j < pop.length,
      stochTournament f r flip pop t = .ok (i, t + 3) ∧
      ((i = r t % pop.length ∧ j = r (t + 1) % pop.length) ∨
        (j = r t % pop.length ∧ i = r (t + 1) % pop.length)) ∧
      (if flip (t + 2) then f pop[j] ≤ f pop[i] else f pop[i] ≤ f pop[j])) ∧
    (∃ i j, ∃ hi : i < pop.length, ∃ hj : j < pop.length,
      invStochTournament f r flip pop t = .ok (i, t + 3) ∧
      ((i = r t % pop.length ∧ j = r (t + 1) % pop.length) ∨
        (j = r t % pop.length ∧ i = r (t + 1) % pop.length)) ∧
      (if flip (t + 2) then f pop[i] ≤ f pop[j] else f pop[j] ≤ f pop[i])) := by
  have h1 : r t % pop.length < pop.length := Nat.mod_lt _ hpop
  have h2 : r (t + 1) % pop.length < pop.length := Nat.mod_lt _ hpop
  have h0 : ¬ pop.length = 0 := by omega
  simp only [stochTournament, invStochTournament, if_neg h0, ltAt_eq f pop _ _ h1 h2,
    decide_eq_true_eq]
  by_cases h : f pop[r t % pop.length] < f pop[r (t + 1) % pop.length]
  · simp only [if_pos h]
    cases flip (t + 2)
    · exact ⟨⟨_, _, h1, h2, rfl, Or.inl ⟨rfl, rfl⟩, h.le⟩, ⟨_, _, h2, h1, rfl, Or.inr ⟨rfl, rfl⟩, h.le⟩⟩
    · exact ⟨⟨_, _, h2, h1, rfl, Or.inr ⟨rfl, rfl⟩, h.le⟩, ⟨_, _, h1, h2, rfl, Or.inl ⟨rfl, rfl⟩, h.le⟩⟩
  · simp only [if_neg h]
    have h' := not_lt.1 h
    cases flip (t + 2)
    · exact ⟨⟨_, _, h2, h1, rfl, Or.inr ⟨rfl, rfl⟩, h'⟩, ⟨_, _, h1, h2, rfl, Or.inl ⟨rfl, rfl⟩, h'⟩⟩
    · exact ⟨⟨_, _, h1, h2, rfl, Or.inl ⟨rfl, rfl⟩, h'⟩, ⟨_, _, h2, h1, rfl, Or.inr ⟨rfl, rfl⟩, h'⟩⟩

example : invDetTournament (fun x : Nat => x) 2 (fun s => s) 5 [4, 7, 1] 1 = .ok (2, 3) := by
  decide

/-! ### C73: deterministic tournament truncation keeps the best -/

/-- C73: reducing by deterministic inverse tournaments to at least one individual never loses the
best fitness. -/
theorem C73_det_truncate_keeps_best (f : α → F) (tSize : Nat) (r : Nat → Nat) (fuel : Nat)
    (pop kept : List α) (n : Nat) (hn : 0 < n) (h : detTruncate f tSize r fuel pop n = .ok kept) :
    ∀ p ∈ pop, ∃ q ∈ kept, f p ≤ f q := by
  simp only [detTruncate, if_neg (show ¬ n = 0 by omega)] at h
  by_cases he : pop.length = n
  · rw [if_pos he] at h
    cases h
    exact fun p hp => ⟨p, hp, le_rfl⟩
  rw [if_neg he] at h
  by_cases hlt : pop.length < n
  · rw [if_pos hlt] at h; cases h
  rw [if_neg hlt] at h
  cases h1 : eliminate (invDetTournament f (max tSize 2) r fuel) (pop.length - n) pop 0 with
  | error e => rw [h1] at h; cases h
  | ok x =>
    obtain ⟨rest, el, t'⟩ := x
    rw [h1] at h
    cases h
    intro p hp
    refine eliminate_inv (invDetTournament f (max tSize 2) r fuel)
      (fun l => ∃ q ∈ l, f p ≤ f q) ?_ _ _ _ _ _ _ ⟨p, hp, le_rfl⟩ h1
    rintro l t i t1 x ⟨q, hq, hpq⟩ hpick hx
    have hl : 0 < l.length := List.length_pos_of_mem hq
    obtain ⟨hi, _, _, h4, h5⟩ := C53_inverse_tournament f (max tSize 2) r fuel l hl t i t1 hpick
    obtain ⟨s, hs1, hs2, hs3⟩ := h4 (by omega)
    have h6 := h5 s hs1 hs2
    rw [List.getElem?_eq_getElem hi] at hx
    cases hx
    rcases List.mem_cons.1 ((perm_cons_eraseIdx (List.getElem?_eq_getElem hi)).mem_iff.2 hq) with
      rfl | hq'
    · refine ⟨l[r s % l.length]'(Nat.mod_lt _ hl), ?_, hpq.trans h6⟩
      rw [List.mem_eraseIdx_iff_getElem]
      exact ⟨_, Nat.mod_lt _ hl, hs3, rfl⟩
    · exact ⟨q, hq', hpq⟩

/-- With stochastic tournaments, even a unique best individual can be lost at a step (both draws
can be the same). -/
theorem C73_stochastic_may_lose_best :
    ∃ (r : Nat → Nat) (flip : Nat → Bool),
      stochTruncate (fun x : Nat => x) r flip [9, 1, 2] 2 = .ok [1, 2] :=
  ⟨fun _ => 0, fun _ => true, by decide⟩

/-- EP tournaments can lose a unique best individual too: it may be drawn against itself while the
others are drawn against worse ones. -/
theorem C73_ep_may_lose_best :
    ∃ (r : Nat → Nat), ∀ nth : Nat → List (Nat × Nat) → List (Nat × Nat),
      IsNth (epKey (fun x : Nat => x)) nth →
      epReduce (fun x : Nat => x) 2 r nth [9, 1, 2] 1 = .ok [2] := by
  refine ⟨fun s => if s < 4 then 0 else 1, ?_⟩
  intro nth hn
  have hsc : epScores (fun x : Nat => x) 2 (fun s => if s < 4 then 0 else 1) [9, 1, 2] [9, 1, 2] 0 =
      [(2, 9), (0, 1), (4, 2)] := by decide
  obtain ⟨kept, h1, h2, h3, h4⟩ :=
    (C50_ep (fun x : Nat => x) 2 (fun s => if s < 4 then 0 else 1) nth hn [9, 1, 2] 1).2 (by decide)
  obtain ⟨scored, hk, dropped, hp, hb⟩ := h4 (by decide)
  rw [show max 2 2 = 2 from rfl, hsc] at hp
  have hl : scored.length = 1 := by rw [← h2, ← hk, List.length_map]
  obtain ⟨⟨a, b⟩, rfl⟩ := List.length_eq_one_iff.1 hl
  rw [h1, ← hk]
  have hm : (4, 2) ∈ [(a, b)] ++ dropped := hp.mem_iff.2 (by decide)
  have hm2 : (a, b) ∈ [(2, 9), (0, 1), (4, 2)] := hp.mem_iff.1 (by simp)
  rcases List.mem_append.1 hm with hm | hm
  · simp only [List.mem_singleton, Prod.mk.injEq] at hm
    simp [← hm.2]
  · have := hb (a, b) (by simp) (4, 2) hm
    simp only [List.mem_cons, Prod.mk.injEq, List.not_mem_nil, or_false] at hm2
    rcases hm2 with ⟨rfl, rfl⟩ | ⟨rfl, rfl⟩ | ⟨rfl, rfl⟩
    · exact absurd this (by simp [epKey, Prod.Lex.toLex_le_toLex])
    · exact absurd this (by simp [epKey, Prod.Lex.toLex_le_toLex])
    · rfl

end Paradiseo.EO
