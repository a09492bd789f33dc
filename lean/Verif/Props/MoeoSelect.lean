import Verif.Model.MoeoStop
import Verif.Props.EOSelect
import Verif.Props.MoeoMetric

/-!
# Properties C232 to C235: selection by tournament and roulette, statistics of objectives, reference points
-/

namespace Paradiseo.Moeo

open MeasureTheory
open Paradiseo.EO (Err)
open Paradiseo.Ops (rnd)
open Paradiseo.Sel (rouletteWheel C54_wheel C54_wheel_total)

/-! ## C232: the roulette wheel -/

/-- An individual is selected for the draws that fall into its share of the tournament size. -/
theorem C232_selects {F : Type} [Field F] [LinearOrder F] [IsStrictOrderedRing F] (tSize : Nat) (r : Nat → Nat)
    {fits : List F} (hf : ∀ a ∈ fits, 0 ≤ a) {u : F} (hu : 0 < u) (i : Nat) :
    moRoulette tSize u r fits = .ok i ↔ i < fits.length ∧ (fits.take i).sum < u * (max 2 tSize : Nat) ∧
      u * (max 2 tSize : Nat) ≤ (fits.take (i + 1)).sum := by
  have e : moTourSize tSize = max 2 tSize := by unfold moTourSize; split <;> omega
  unfold moRoulette
  rw [e]
  refine C54_wheel hf (mul_pos hu ?_) r i
  exact_mod_cast (by omega : 0 < max 2 tSize)

/-- Individuals after those whose fitnesses add up to the tournament size are never selected. -/
theorem C232_never {F : Type} [Field F] [LinearOrder F] [IsStrictOrderedRing F] (tSize : Nat) (r : Nat → Nat)
    {fits : List F} (hf : ∀ a ∈ fits, 0 ≤ a) {u : F} (hu : 0 < u) (hu1 : u < 1) (i : Nat)
    (hi : (max 2 tSize : Nat) ≤ (fits.take i).sum) : moRoulette tSize u r fits ≠ .ok i := by
  intro h
  have h1 := ((C232_selects tSize r hf hu i).1 h).2.1
  have h2 : (0 : F) < (max 2 tSize : Nat) := by exact_mod_cast (by omega : 0 < max 2 tSize)
  have : u * (max 2 tSize : Nat) < (max 2 tSize : Nat) := by nlinarith
  linarith

/-- If all fitnesses together are below the tournament size, some draws read past the end. -/
theorem C232_past_end {F : Type} [Field F] [LinearOrder F] [IsStrictOrderedRing F] (tSize : Nat) (r : Nat → Nat)
    {fits : List F} (hf : ∀ a ∈ fits, 0 ≤ a) {u : F} (hu : 0 < u) :
    moRoulette tSize u r fits = .error .ub ↔ fits.sum < u * (max 2 tSize : Nat) := by
  have e : moTourSize tSize = max 2 tSize := by unfold moTourSize; split <;> omega
  have h2 : (0 : F) < (max 2 tSize : Nat) := by exact_mod_cast (by omega : 0 < max 2 tSize)
  obtain ⟨h3, h4⟩ := C54_wheel_total hf (mul_pos hu h2) r
  unfold moRoulette
  rw [e]
  refine ⟨fun h => ?_, h4⟩
  by_contra hc
  obtain ⟨i, a, h5, _⟩ := h3 (not_lt.1 hc)
  rw [h5] at h
  cases h

/-- Fitness over total is what it selects by exactly if the fitnesses add up to the tournament size. -/
theorem C232_proportional (tSize : Nat) (r : Nat → Nat) {fits : List ℝ} (hf : ∀ a ∈ fits, 0 ≤ a)
    (hs : fits.sum = (max 2 tSize : Nat)) (i : Nat) (hi : i < fits.length) :
    volume {u : ℝ | 0 ≤ u ∧ u < 1 ∧ moRoulette tSize u r fits = .ok i} = ENNReal.ofReal (fits[i] / fits.sum) := by
  have e : moTourSize tSize = max 2 tSize := by unfold moTourSize; split <;> omega
  have h2 : (0 : ℝ) < (max 2 tSize : Nat) := by exact_mod_cast (by omega : 0 < max 2 tSize)
  have := Sel.C54_wheel_probability hf (by rw [hs]; exact h2) r i hi
  unfold moRoulette
  rw [e, ← hs]
  exact this

/-- Four individuals of fitness 1 and tournaments of two: the third and the fourth are never selected; two of fitness
1/2: half of the draws read past the end. -/
example : (∀ u : ℚ, 0 < u → u < 1 → moRoulette 2 u (fun _ => 0) [1, 1, 1, 1] ≠ .ok 2 ∧
      moRoulette 2 u (fun _ => 0) [1, 1, 1, 1] ≠ .ok 3) ∧
    ∀ u : ℚ, 1 / 2 < u → moRoulette 2 u (fun _ => 0) [1 / 2, 1 / 2] = .error .ub := by
  refine ⟨fun u h0 h1 => ⟨?_, ?_⟩, fun u h => ?_⟩
  · exact C232_never 2 _ (by norm_num) h0 h1 2 (by norm_num)
  · exact C232_never 2 _ (by norm_num) h0 h1 3 (by norm_num)
  · rw [C232_past_end 2 _ (by norm_num) (by linarith)]
    norm_num
    linarith

/-! ## C233: tournaments -/

section Tournament

variable {α : Type}

theorem moDetLoop_ok {cmp : α → α → Bool} (htr : ∀ a b c, cmp a b → cmp b c → cmp a c) (hirr : ∀ a, ¬ cmp a a)
    (r : Nat → Nat) (pop : List α) (t k : Nat) (best x : α) (h : moDetLoop cmp r pop t k best = .ok x) :
    (x = best ∨ cmp best x) ∧ (x = best ∨ ∃ i, k ≤ i ∧ i < k + t ∧ pop[rnd r i pop.length]? = some x) ∧
    ∀ i, k ≤ i → i < k + t → ∃ y, pop[rnd r i pop.length]? = some y ∧ ¬ cmp x y := by
  induction t generalizing k best with
  | zero =>
    simp only [moDetLoop, Except.ok.injEq] at h
    exact ⟨Or.inl h.symm, Or.inl h.symm, fun i h1 h2 => by omega⟩
  | succ t ih =>
    unfold moDetLoop at h
    cases hc : pop[rnd r k pop.length]? with
    | none => rw [hc] at h; cases h
    | some c =>
      rw [hc] at h
      simp only at h
      obtain ⟨h1, h2, h3⟩ := ih (k + 1) _ h
      by_cases hb : cmp best c = true
      · simp only [hb, if_true] at h1 h2
        refine ⟨?_, ?_, ?_⟩
        · rcases h1 with rfl | h1
          · exact Or.inr hb
          · exact Or.inr (htr _ _ _ hb h1)
        · rcases h2 with rfl | ⟨i, h4, h5, h6⟩
          · exact Or.inr ⟨k, le_rfl, by omega, hc⟩
          · exact Or.inr ⟨i, by omega, by omega, h6⟩
        · intro i h4 h5
          rcases Nat.eq_or_lt_of_le h4 with rfl | h4
          · refine ⟨c, hc, fun h7 => ?_⟩
            rcases h1 with rfl | h1
            · exact hirr _ h7
            · exact hirr _ (htr _ _ _ h1 h7)
          · exact h3 i h4 (by omega)
      · simp only [hb, Bool.false_eq_true, if_false] at h1 h2
        refine ⟨h1, ?_, ?_⟩
        · rcases h2 with rfl | ⟨i, h4, h5, h6⟩
          · exact Or.inl rfl
          · exact Or.inr ⟨i, by omega, by omega, h6⟩
        · intro i h4 h5
          rcases Nat.eq_or_lt_of_le h4 with rfl | h4
          · refine ⟨c, hc, fun h7 => ?_⟩
            rcases h1 with rfl | h1
            · exact hb h7
            · exact hb (htr _ _ _ h1 h7)
          · exact h3 i h4 (by omega)

/-- The individual returned by a deterministic tournament is one of those drawn, of which there are `tSize`, at least
two, and none of those drawn is better; it can only fail on an empty population. -/
theorem C233_deterministic {cmp : α → α → Bool} (htr : ∀ a b c, cmp a b → cmp b c → cmp a c) (hirr : ∀ a, ¬ cmp a a)
    (tSize : Nat) (r : Nat → Nat) (pop : List α) (hpop : pop ≠ []) :
    ∃ x, moDetSelect cmp tSize r pop = .ok x ∧
      (∃ i < max 2 tSize, pop[rnd r i pop.length]? = some x) ∧
      ∀ i < max 2 tSize, ∃ y, pop[rnd r i pop.length]? = some y ∧ ¬ cmp x y := by
  have hl : 0 < pop.length := List.length_pos_of_ne_nil hpop
  have hin : ∀ k, ∃ y, pop[rnd r k pop.length]? = some y := by
    intro k
    have : rnd r k pop.length < pop.length := by
      unfold rnd; rw [if_neg (by omega)]; exact Nat.mod_lt _ hl
    exact ⟨_, List.getElem?_eq_getElem this⟩
  have htot : ∀ t k best, ∃ x, moDetLoop cmp r pop t k best = .ok x := by
    intro t
    induction t with
    | zero => exact fun k best => ⟨best, rfl⟩
    | succ t ih =>
      intro k best
      obtain ⟨y, hy⟩ := hin k
      unfold moDetLoop
      rw [hy]
      exact ih _ _
  have e : moTourSize tSize = max 2 tSize := by unfold moTourSize; split <;> omega
  obtain ⟨b, hb⟩ := hin 0
  obtain ⟨x, hx⟩ := htot (moTourSize tSize - 1) 1 b
  refine ⟨x, by simp only [moDetSelect, hb, hx], ?_⟩
  obtain ⟨h1, h2, h3⟩ := moDetLoop_ok htr hirr r pop _ _ _ _ hx
  rw [e] at h2 h3
  constructor
  · rcases h2 with rfl | ⟨i, _, h5, h6⟩
    · exact ⟨0, by omega, hb⟩
    · exact ⟨i, by omega, h6⟩
  · intro i hi
    rcases Nat.eq_zero_or_pos i with rfl | h0
    · refine ⟨b, hb, fun h7 => ?_⟩
      rcases h1 with rfl | h1
      · exact hirr _ h7
      · exact hirr _ (htr _ _ _ h1 h7)
    · exact h3 i h0 (by omega)

/-- The rate of a stochastic tournament: as given if between 1/2 and 1, else 0.55 or 1. -/
theorem C233_rate {F : Type} [Field F] [LinearOrder F] [IsStrictOrderedRing F] (t : F) :
    (1 / 2 ≤ t → t ≤ 1 → moTourRate t = t) ∧ (t < 1 / 2 → moTourRate t = 55 / 100) ∧ (1 < t → moTourRate t = 1) := by
  unfold moTourRate
  refine ⟨fun h1 h2 => ?_, fun h => ?_, fun h => ?_⟩
  · rw [if_neg (not_lt.2 h1), if_neg (not_lt.2 h2)]
  · rw [if_pos h]
    simp only
    rw [if_neg (by norm_num)]
  · rw [if_neg (show ¬ t < 1 / 2 by linarith)]
    simp only [if_pos h]

/-- A stochastic tournament returns one of two individuals drawn: one that the other does not beat if the number drawn is
below the rate, else one that does not beat the other. -/
theorem C233_stochastic {F : Type} [Field F] [LinearOrder F] {cmp : α → α → Bool} (hasym : ∀ a b, cmp a b → ¬ cmp b a)
    (tRate u : F) (r : Nat → Nat) (pop : List α) (a b : α) (ha : pop[rnd r 0 pop.length]? = some a)
    (hb : pop[rnd r 1 pop.length]? = some b) :
    ∃ x y, moStochSelect cmp tRate u r pop = .ok x ∧ (x = a ∧ y = b ∨ x = b ∧ y = a) ∧
      (u < moTourRate tRate → ¬ cmp x y) ∧ (moTourRate tRate ≤ u → ¬ cmp y x) := by
  unfold moStochSelect
  simp only [ha, hb]
  by_cases hu : u < moTourRate tRate <;> by_cases hc : cmp a b = true
  · exact ⟨b, a, by simp [hu, hc], Or.inr ⟨rfl, rfl⟩, fun _ => hasym _ _ hc, fun h => absurd hu (not_lt.2 h)⟩
  · exact ⟨a, b, by simp [hu, hc], Or.inl ⟨rfl, rfl⟩, fun _ => hc, fun h => absurd hu (not_lt.2 h)⟩
  · exact ⟨a, b, by simp [hu, hc], Or.inl ⟨rfl, rfl⟩, fun h => absurd h hu, fun _ => hasym _ _ hc⟩
  · exact ⟨b, a, by simp [hu, hc], Or.inr ⟨rfl, rfl⟩, fun h => absurd h hu, fun _ => hc⟩

/-- Pairs compared by both coordinates, tournaments of three. -/
example : moDetSelect (fun a b : Nat × Nat => decide (b.1 ≤ a.1 ∧ b.2 ≤ a.2 ∧ a ≠ b)) 3 (fun k => [2, 1, 3].getD k 0)
    [(0, 0), (1, 5), (3, 3), (2, 3)] = .ok (2, 3) := by decide

end Tournament

/-! ## C234: statistics of objectives -/

section Stats

variable {α F : Type} [Field F] [LinearOrder F] [IsStrictOrderedRing F]

/-- `x` is better than `y` in objective `o`. -/
def BetterIn (maximizing : Nat → Bool) (obj : α → Nat → F) (o : Nat) (x y : α) : Prop :=
  if maximizing o then obj y o < obj x o else obj x o < obj y o

/-- `b` is the first of the best individuals of `pop` in objective `o`. -/
def FirstBest (maximizing : Nat → Bool) (obj : α → Nat → F) (o : Nat) (pop : List α) (b : α) : Prop :=
  ∃ pre post, pop = pre ++ b :: post ∧ (∀ x ∈ pop, ¬ BetterIn maximizing obj o x b) ∧
    ∀ x ∈ pre, BetterIn maximizing obj o b x

theorem foldl_firstBest (maximizing : Nat → Bool) (obj : α → Nat → F) (o : Nat) (l pre : List α) (b : α)
    (post : List α) (h1 : ∀ x ∈ pre ++ b :: post, ¬ BetterIn maximizing obj o x b)
    (h2 : ∀ x ∈ pre, BetterIn maximizing obj o b x) :
    FirstBest maximizing obj o (pre ++ b :: post ++ l)
      (l.foldl (fun b x => if (if maximizing o then decide (obj b o < obj x o) else decide (obj x o < obj b o))
        then x else b) b) := by
  induction l generalizing pre b post with
  | nil => exact ⟨pre, post, by simp, by simpa using h1, h2⟩
  | cons c l ih =>
    rw [List.foldl_cons]
    by_cases hc : BetterIn maximizing obj o c b
    · have e : (if maximizing o then decide (obj b o < obj c o) else decide (obj c o < obj b o)) = true := by
        unfold BetterIn at hc
        cases hm : maximizing o <;> simpa [hm] using hc
      rw [e, if_pos rfl]
      have := ih (pre ++ b :: post) c [] ?_ ?_
      · simpa using this
      · intro x hx
        simp only [List.mem_append, List.mem_cons, List.not_mem_nil, or_false] at hx
        rcases hx with hx | rfl
        · have := h1 x (by simpa using hx)
          unfold BetterIn at this hc ⊢
          cases hm : maximizing o <;> simp only [hm, Bool.false_eq_true, if_true, if_false, not_lt] at this hc ⊢ <;> linarith
        · unfold BetterIn; split <;> exact lt_irrefl _
      · intro x hx
        have := h1 x hx
        unfold BetterIn at this hc ⊢
        cases hm : maximizing o <;> simp only [hm, Bool.false_eq_true, if_true, if_false, not_lt] at this hc ⊢ <;> linarith
    · have e : (if maximizing o then decide (obj b o < obj c o) else decide (obj c o < obj b o)) = false := by
        unfold BetterIn at hc
        cases hm : maximizing o <;> simpa [hm] using hc
      rw [e]
      have := ih pre b (post ++ [c]) ?_ h2
      · simpa using this
      · intro x hx
        have hx' : x ∈ pre ++ b :: post ∨ x = c := by
          simp only [List.mem_append, List.mem_cons, List.not_mem_nil, or_false] at hx ⊢; tauto
        rcases hx' with hx' | rfl
        · exact h1 x hx'
        · exact hc

theorem bestIn_spec (maximizing : Nat → Bool) (obj : α → Nat → F) (o : Nat) (pop : List α) (hp : pop ≠ []) :
    ∃ b, bestIn maximizing obj o pop = some b ∧ FirstBest maximizing obj o pop b := by
  match pop, hp with
  | a :: l, _ =>
    refine ⟨_, rfl, ?_⟩
    have := foldl_firstBest maximizing obj o l [] a [] (by
      intro x hx
      simp only [List.nil_append, List.mem_cons, List.not_mem_nil, or_false] at hx
      subst hx
      unfold BetterIn
      split <;> exact lt_irrefl _) (by simp)
    simpa using this

theorem mapM_some {β γ : Type} (f : β → Option γ) (g : β → γ) (l : List β) (h : ∀ x ∈ l, f x = some (g x)) :
    l.mapM f = some (l.map g) := by
  induction l with
  | nil => rfl
  | cons a l ih => simp [List.mapM_cons, h a (by simp), ih fun x hx => h x (by simp [hx])]

/-- What one call does: objective `o` of the value is the best value of the population, and the individuals are added at
the end. -/
theorem doit_spec (maximizing : Nat → Bool) (obj : α → Nat → F) (K : Nat) (s : BestStat α F) (pop : List α)
    (hp : pop ≠ []) : ∃ g : Nat → α, (∀ o, FirstBest maximizing obj o pop (g o)) ∧
      s.doit maximizing obj K pop = .ok ⟨(List.range K).map fun o => obj (g o) o, s.best ++ (List.range K).map g⟩ := by
  choose g h1 h2 using fun o => bestIn_spec maximizing obj o pop hp
  refine ⟨g, h2, ?_⟩
  unfold BestStat.doit
  rw [mapM_some _ g _ fun o _ => h1 o]
  simp only [Except.ok.injEq, BestStat.mk.injEq, and_true]
  rw [List.zipWith_map_right, List.zipWith_self]

theorem run_append (maximizing : Nat → Bool) (obj : α → Nat → F) (K : Nat) (s t : BestStat α F)
    (pops : List (List α)) (pop : List α) (h : BestStat.run maximizing obj K s pops = .ok t) :
    BestStat.run maximizing obj K s (pops ++ [pop]) = t.doit maximizing obj K pop := by
  induction pops generalizing s with
  | nil =>
    simp only [BestStat.run, Except.ok.injEq] at h
    subst h
    simp only [List.nil_append, BestStat.run]
    cases s.doit maximizing obj K pop <;> rfl
  | cons q pops ih =>
    simp only [BestStat.run] at h
    rw [List.cons_append]
    simp only [BestStat.run]
    cases hd : s.doit maximizing obj K q with
    | error e => rw [hd] at h; cases h
    | ok s' =>
      rw [hd] at h
      exact ih s' h

theorem run_best_prefix (maximizing : Nat → Bool) (obj : α → Nat → F) (K : Nat) (s t : BestStat α F)
    (pops : List (List α)) (h : BestStat.run maximizing obj K s pops = .ok t) : s.best <+: t.best := by
  induction pops generalizing s with
  | nil =>
    simp only [BestStat.run, Except.ok.injEq] at h
    subst h
    exact List.prefix_rfl
  | cons q pops ih =>
    simp only [BestStat.run] at h
    cases hd : s.doit maximizing obj K q with
    | error e => rw [hd] at h; cases h
    | ok s' =>
      rw [hd] at h
      refine List.IsPrefix.trans ?_ (ih s' h)
      unfold BestStat.doit at hd
      split at hd
      · cases hd
      · cases hd
        exact List.prefix_append _ _

theorem run_ok (maximizing : Nat → Bool) (obj : α → Nat → F) (K : Nat) (s : BestStat α F) (pops : List (List α))
    (hne : ∀ p ∈ pops, p ≠ []) : ∃ t, BestStat.run maximizing obj K s pops = .ok t := by
  induction pops generalizing s with
  | nil => exact ⟨s, rfl⟩
  | cons q pops ih =>
    obtain ⟨g, _, h⟩ := doit_spec maximizing obj K s q (hne q (by simp))
    simp only [BestStat.run, h]
    exact ih _ fun p hp => hne p (by simp [hp])

/-- After any number of generations the value is, in each objective, the best value of the last population. -/
theorem C234_value (maximizing : Nat → Bool) (obj : α → Nat → F) (K : Nat) (pops : List (List α)) (pop : List α)
    (hne : ∀ p ∈ pops ++ [pop], p ≠ []) :
    ∃ t, BestStat.run maximizing obj K ⟨[], []⟩ (pops ++ [pop]) = .ok t ∧ t.value.length = K ∧
      ∀ o < K, ∃ x ∈ pop, t.value[o]? = some (obj x o) ∧
        ∀ y ∈ pop, if maximizing o then obj y o ≤ obj x o else obj x o ≤ obj y o := by
  obtain ⟨s, hs⟩ := run_ok maximizing obj K (⟨[], []⟩ : BestStat α F) pops fun p hp => hne p (by simp [hp])
  obtain ⟨g, h1, h2⟩ := doit_spec maximizing obj K s pop (hne pop (by simp))
  refine ⟨_, (run_append maximizing obj K _ _ pops pop hs).trans h2, by simp, fun o ho => ?_⟩
  obtain ⟨pre, post, e, h3, _⟩ := h1 o
  refine ⟨g o, by rw [e]; simp, by simp [ho], fun y hy => ?_⟩
  have := h3 y hy
  unfold BetterIn at this
  cases hm : maximizing o <;> simpa [hm] using this

/-- The individual it returns for an objective is always the best of the first population it saw, however many
populations followed. -/
theorem C234_individual_of_first (maximizing : Nat → Bool) (obj : α → Nat → F) (K : Nat) (pop : List α) (pops : List (List α))
    (hne : ∀ p ∈ pop :: pops, p ≠ []) :
    ∃ t, BestStat.run maximizing obj K ⟨[], []⟩ (pop :: pops) = .ok t ∧
      ∀ o < K, ∃ x, t.individual K o = .ok x ∧ FirstBest maximizing obj o pop x := by
  obtain ⟨t, ht⟩ := run_ok maximizing obj K (⟨[], []⟩ : BestStat α F) (pop :: pops) hne
  refine ⟨t, ht, fun o ho => ?_⟩
  obtain ⟨g, h1, h2⟩ := doit_spec maximizing obj K (⟨[], []⟩ : BestStat α F) pop (hne pop (by simp))
  simp only [BestStat.run, h2] at ht
  have hpre := run_best_prefix maximizing obj K _ _ pops ht
  simp only [List.nil_append] at hpre
  obtain ⟨u, hu⟩ := hpre
  have : t.best[o]? = some (g o) := by
    rw [← hu, List.getElem?_append_left (by simpa using ho)]
    simp [ho]
  refine ⟨g o, ?_, h1 o⟩
  unfold BestStat.individual
  rw [if_neg (by omega), this]

/-- So from the second population on it is wrong: one objective, minimised, values 2 then 1: the value is 1, the
individual is the one of value 2; and the number of objectives itself is accepted as an index. -/
theorem C234_stale : ∃ t : BestStat Nat ℚ,
    BestStat.run (fun _ => false) (fun (x : Nat) _ => (x : ℚ)) 1 ⟨[], []⟩ [[2], [1]] = .ok t ∧
    t.value = [1] ∧ t.individual 1 0 = .ok 2 ∧ t.individual 1 1 = .ok 1 ∧ t.individual 1 2 = .error .thrown :=
  ⟨⟨[1], [2, 1]⟩, by decide +kernel, rfl, rfl, rfl, rfl⟩

theorem C234_index : ∃ t : BestStat Nat ℚ,
    BestStat.run (fun _ => false) (fun (x : Nat) _ => (x : ℚ)) 1 ⟨[], []⟩ [[2]] = .ok t ∧ t.individual 1 1 = .error .ub :=
  ⟨⟨[2], [2]⟩, by decide +kernel, rfl⟩

/-- The average of an objective. -/
theorem C234_average (obj : α → Nat → F) (o : Nat) (pop : List α) :
    averageObj obj o pop = (pop.map fun x => obj x o).sum / pop.length := by
  unfold averageObj
  congr 1
  have : ∀ (l : List α) (s : F), l.foldl (fun s x => s + obj x o) s = s + (l.map fun x => obj x o).sum := by
    intro l
    induction l with
    | nil => simp
    | cons a l ih => intro s; simp [ih, add_assoc]
  simp [this]

/-- The last two members of a list that are not empty, the later one first. -/
def lastTwo {β : Type} (l : List (List β)) : Option (List β × List β) :=
  match (l.filter fun p => !p.isEmpty).reverse with
  | a :: b :: _ => some (a, b)
  | _ => none

/-- The statistic of a binary metric is the metric of the last non-empty population and the non-empty population
before it, and the initial value before there are two. -/
theorem C234_binary (metric : List α → List α → F) (v0 : F) (pops : List (List α)) :
    (pops.foldl (binaryStat metric) (v0, none)).1 =
      match lastTwo pops with
      | none => v0
      | some (a, b) => metric a b := by
  have key : ∀ pops : List (List α), (pops.foldl (binaryStat metric) (v0, none)).2 =
      (pops.filter fun p => !p.isEmpty).reverse.head? ∧ (pops.foldl (binaryStat metric) (v0, none)).1 =
      match lastTwo pops with
      | none => v0
      | some (a, b) => metric a b := by
    intro pops
    induction pops using List.reverseRecOn with
    | nil => exact ⟨rfl, rfl⟩
    | append_singleton l p ih =>
      rw [List.foldl_append, List.foldl_cons, List.foldl_nil]
      obtain ⟨h1, h2⟩ := ih
      generalize l.foldl (binaryStat metric) (v0, none) = s at h1 h2
      unfold lastTwo at h2 ⊢
      rw [List.filter_append, List.reverse_append]
      cases p with
      | nil => exact ⟨h1, h2⟩
      | cons a p =>
        have e : ([a :: p] : List (List α)).filter (fun p => !p.isEmpty) = [a :: p] := by simp
        rw [e, List.reverse_singleton, List.singleton_append]
        generalize (l.filter fun p => !p.isEmpty).reverse = m at h1 h2
        unfold binaryStat
        cases m with
        | nil => simp only [List.head?_nil] at h1; rw [h1]; simpa using h2
        | cons q m => simp only [List.head?_cons] at h1; rw [h1]; simp
  exact (key pops).2

example : (([[1], [], [2, 3], [4]] : List (List Nat)).foldl (binaryStat (fun (a b : List Nat) => (a.sum : ℚ) - (b.sum : ℚ))) (7, none)).1 = -1 := by
  decide +kernel

end Stats

/-! ## C235: fitness with respect to a reference point -/

section RefPoint

variable {F : Type} [Field F] [LinearOrder F] [IsStrictOrderedRing F] {n : Nat}

theorem foldl_minmax_le {m : Nat} (i : Fin m) (l : List (Fin m → F)) (a b : F) (h : a ≤ b) :
    l.foldl (fun m v => min m (v i)) a ≤ a ∧ b ≤ l.foldl (fun m v => max m (v i)) b := by
  induction l generalizing a b with
  | nil => simp
  | cons v l ih =>
    have := ih (min a (v i)) (max b (v i)) ((min_le_left _ _).trans (h.trans (le_max_left _ _)))
    exact ⟨this.1.trans (min_le_left _ _), (le_max_left _ _).trans this.2⟩

theorem refBnd_pos {m : Nat} {tiny : F} (ht : 0 < tiny) (ref : Fin m → F) (objs : List (Fin m → F)) (i : Fin m) :
    0 < (refBnd tiny ref objs i).range := by
  have h := foldl_minmax_le i objs (ref i) (ref i) le_rfl
  unfold refBnd setupBnd Bnd.range
  split
  · simp only; linarith
  · rename_i hne
    exact sub_pos.2 (lt_of_le_of_ne (h.1.trans h.2) hne)

/-- With the additive epsilon indicator: the fitness of an individual is non-negative exactly if it weakly dominates the
reference point, and an individual that weakly dominates another is at least as fit. -/
theorem C235_dominance (T : Traits (n + 1) F) {tiny : F} (ht : 0 < tiny) (ref : Fin (n + 1) → F)
    (objs : List (Fin (n + 1) → F)) :
    (refFitness tiny (addEpsVec T) ref objs).length = objs.length ∧
    (∀ (i : Nat) (x : Fin (n + 1) → F) (f : F), objs[i]? = some x → (refFitness tiny (addEpsVec T) ref objs)[i]? = some f →
      (0 ≤ f ↔ WeaklyDominates T.minimizing x ref)) ∧
    ∀ (i j : Nat) (x y : Fin (n + 1) → F) (f g : F), objs[i]? = some x → objs[j]? = some y → (refFitness tiny (addEpsVec T) ref objs)[i]? = some f →
      (refFitness tiny (addEpsVec T) ref objs)[j]? = some g → WeaklyDominates T.minimizing x y → g ≤ f := by
  have hB : ∀ k, 0 < (refBnd tiny ref objs k).range := refBnd_pos ht ref objs
  refine ⟨by simp [refFitness], ?_, ?_⟩
  · intro i x f hx hf
    simp only [refFitness, List.getElem?_map, hx, Option.map_some, Option.some.injEq] at hf
    subst hf
    rw [← C43_vector_weak T (refBnd tiny ref objs) hB, neg_nonneg]
  · intro i j x y f g hx hy hf hg hd
    simp only [refFitness, List.getElem?_map, hx, hy, Option.map_some, Option.some.injEq] at hf hg
    subst hf hg
    have h1 := (C43_triangle T (refBnd tiny ref objs) x y ref).1
    have h2 := (C43_vector_weak T (refBnd tiny ref objs) hB x y).2 hd
    linarith

/-- The order may change when another individual is removed: two minimised objectives, reference point the origin,
vectors `(2,0)`, `(0,1)`, `(0,2)` and `(10,0)`; the first is the fitter of the first two before `(10,0)` is removed, the
second afterwards. -/
theorem C235_depends_on_others :
    refFitness (1 / 1000000 : ℚ) (addEpsVec ⟨![true, true], 0⟩) ![0, 0] [![2, 0], ![0, 1], ![0, 2], ![10, 0]] =
      [-1 / 5, -1 / 2, -1, -1] ∧
    refFitness (1 / 1000000 : ℚ) (addEpsVec ⟨![true, true], 0⟩) ![0, 0] [![2, 0], ![0, 1], ![0, 2]] =
      [-1, -1 / 2, -1] := by
  decide +kernel

end RefPoint

end Paradiseo.Moeo
