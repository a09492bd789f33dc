import Verif.Model.Worth
import Verif.Props.EOSelect
import Verif.Props.EOReplacement
import Verif.Props.EOWorth
import Verif.Props.Init

/-!
# Cached ranking, selection by worth, detection of minimisation (C224–C226)
-/

namespace Paradiseo.Worth

open Paradiseo.EO (Err detTournament stochTournament)
open Paradiseo.Sel (rankLoop rouletteWheel ranking rankWorthOf rankWorth rankWorthExp)

variable {α F G : Type} [Field F] [LinearOrder F]

/-! ### C224: cached ranking -/

/-- Two vectors of worths give the same result if they agree where nothing is written. -/
theorem rankLoop_congr (w : Nat → F) : ∀ (l : List Nat) (i : Nat) (v v' : List F), v.length = v'.length →
    (∀ k, k ∉ l → v[k]? = v'[k]?) → rankLoop w l i v = rankLoop w l i v'
  | [], _, v, v', _, h => List.ext_getElem? fun k => h k (by simp)
  | a :: l, i, v, v', hl, h => by
    rw [rankLoop, rankLoop]
    refine rankLoop_congr w l (i + 1) _ _ (by simp [hl]) fun k hk => ?_
    rw [List.getElem?_set, List.getElem?_set, hl]
    by_cases ha : a = k
    · rw [if_pos ha, if_pos ha]
    · rw [if_neg ha, if_neg ha]
      exact h k (by simp [hk, Ne.symm ha])

/-- What holds between two calls: the cached numbers are those of the cached size. -/
def Cache.Ok (p : F) (s : Cache F) : Prop :=
  s.size ≠ 0 → s.alpha = (2 * p - 2) / ((s.size * (s.size - 1) % 2 ^ 32 : Nat)) ∧ s.beta = (2 - p) / s.size ∧
    s.gamma = (2 * p - 2) / s.size

theorem refresh_ok (p : F) (n : Nat) (hn : n ≠ 0) (s : Cache F) (h : s.Ok p) :
    (s.refresh p n).Ok p ∧ (s.refresh p n).size = n ∧ (s.refresh p n).value = s.value := by
  rw [Cache.refresh]
  by_cases hc : n ≠ s.size
  · rw [if_pos hc]
    exact ⟨fun _ => ⟨rfl, rfl, rfl⟩, rfl, rfl⟩
  · rw [if_neg hc]
    exact ⟨h, by omega, rfl⟩

theorem call_ok (p : F) (pw : Option (F → F)) (sortIdx : List α → List Nat) (s : Cache F) (h : s.Ok p) (pop : List α) :
    (s.call p pw sortIdx pop).2.Ok p := by
  rw [Cache.call]
  by_cases hc : pop.length ≤ 1
  · rw [if_pos hc]; exact h
  · rw [if_neg hc]
    have h' : ({ s with value := Init.resize 0 pop.length s.value } : Cache F).Ok p := h
    exact (refresh_ok p pop.length (by omega) _ h').1

theorem call_eq (p : F) (pw : Option (F → F)) (sortIdx : List α → List Nat) (s : Cache F) (h : s.Ok p) (pop : List α)
    (hs : (sortIdx pop).Perm (List.range pop.length)) :
    match ranking p pw sortIdx pop with
    | .ok w => (s.call p pw sortIdx pop).1 = none ∧ (s.call p pw sortIdx pop).2.value = w
    | .error e => (s.call p pw sortIdx pop).1 = some e ∧ (s.call p pw sortIdx pop).2 = s := by
  rw [ranking, Cache.call]
  by_cases hc : pop.length ≤ 1
  · rw [if_pos hc, if_pos hc]
    exact ⟨rfl, rfl⟩
  · rw [if_neg hc, if_neg hc]
    refine ⟨rfl, ?_⟩
    dsimp only
    have h' : ({ s with value := Init.resize 0 pop.length s.value } : Cache F).Ok p := h
    obtain ⟨h1, h2, h3⟩ := refresh_ok p pop.length (by omega) _ h'
    generalize ({ s with value := Init.resize 0 pop.length s.value } : Cache F).refresh p pop.length = t at h1 h2 h3
    obtain ⟨a1, a2, a3⟩ := h1 (by omega)
    rw [h2] at a1 a2 a3
    have hw : t.worth pw pop.length = rankWorthOf p pw pop.length := by
      funext i
      cases pw with
      | none => simp only [Cache.worth, rankWorthOf, rankWorth, a1, a2]
      | some g => simp only [Cache.worth, rankWorthOf, rankWorthExp, a3, a2]
    rw [hw]
    refine rankLoop_congr _ _ _ _ _ ?_ fun k hk => ?_
    · rw [h3, Init.resize_length, List.length_replicate]
    · have : pop.length ≤ k := by
        by_contra hlt
        exact hk (hs.mem_iff.2 (List.mem_range.2 (by omega)))
      rw [List.getElem?_eq_none (by rw [h3, Init.resize_length]; exact this),
        List.getElem?_eq_none (by rw [List.length_replicate]; exact this)]

/-- After any calls on any populations, the cached ranking computes what eoRanking computes, and throws where it throws
(and then keeps the worths it had). -/
theorem C224_cached (p : F) (pw : Option (F → F)) (sortIdx : List α → List Nat) (s : Cache F) (h : s.Fresh)
    (before : List (List α)) (pop : List α) (hs : (sortIdx pop).Perm (List.range pop.length)) :
    let t := Cache.run p pw sortIdx s before
    match ranking p pw sortIdx pop with
    | .ok w => (t.call p pw sortIdx pop).1 = none ∧ (t.call p pw sortIdx pop).2.value = w
    | .error e => (t.call p pw sortIdx pop).1 = some e ∧ (t.call p pw sortIdx pop).2.value = t.value := by
  have hok : ∀ (before : List (List α)) (s : Cache F), s.Ok p → (Cache.run p pw sortIdx s before).Ok p := by
    intro before
    induction before with
    | nil => intro s h; exact h
    | cons q qs ih => intro s h; exact ih _ (call_ok p pw sortIdx s h q)
  intro t
  have := call_eq p pw sortIdx t (hok before s (fun hc => absurd h hc)) pop hs
  revert this
  cases ranking p pw sortIdx pop with
  | ok w => exact id
  | error e => intro ⟨h1, h2⟩; exact ⟨h1, by rw [h2]⟩

example : (Cache.run (2 : ℚ) none (fun l : List Nat => List.range l.length) ⟨0, 7, 5, 5, 5, [9]⟩ [[3, 2, 1], [1], [4, 3]]).value =
    [2, 1] := by decide +kernel
example : ranking (2 : ℚ) none (fun l : List Nat => List.range l.length) [4, 3] = .ok [2, 1] := by decide +kernel

/-! ### C225: selection by worth -/

section
variable [DecidableEq G]

/-- With the population of the setup there is no exception and no read out of range, in either build. -/
theorem at_synced (debug : Bool) (fit : α → G) (p2w : List α → List F) (pop : List α) (i : Nat) (hi : i < pop.length) :
    (WSel.setup p2w fit pop).at debug fit pop i = .ok pop[i] := by
  rw [WSel.at, List.getElem?_eq_getElem hi]
  dsimp only [WSel.setup]
  rw [List.getElem?_map, List.getElem?_eq_getElem hi]
  simp

/-- Deterministic tournament on the population of the setup: the result is one of the individuals drawn, and none drawn
has a greater worth. -/
theorem C225_det (debug : Bool) (fit : α → G) (p2w : List α → List F) (pop : List α) (hl : (p2w pop).length = pop.length)
    (hpop : 0 < pop.length) (tSize : Nat) (ht : 0 < tSize) (r : Nat → Nat) :
    ∃ i x, (WSel.setup p2w fit pop).det debug fit tSize r pop = .ok x ∧ pop[i]? = some x ∧
      (∃ s < tSize, i = r s % pop.length) ∧
      ∀ s < tSize, ∀ w w', (p2w pop)[r s % pop.length]? = some w → (p2w pop)[i]? = some w' → w ≤ w' := by
  obtain ⟨i, hi, h1, ⟨s, _, h2, h3⟩, h4⟩ := EO.C53_det_tournament (id : F → F) tSize ht r (p2w pop) (by omega) 0
  refine ⟨i, pop[i]'(by omega), ?_, List.getElem?_eq_getElem _, ⟨s, by omega, by rw [h3, hl]⟩, ?_⟩
  · have : (WSel.setup p2w fit pop).worths = p2w pop := rfl
    rw [WSel.det, this, h1]
    exact at_synced debug fit p2w pop i (by omega)
  · intro s hs w w' hw hw'
    have h5 := h4 s (Nat.zero_le _) (by omega)
    rw [List.getElem?_eq_getElem (by rw [hl]; exact Nat.mod_lt _ hpop)] at hw
    rw [List.getElem?_eq_getElem hi] at hw'
    cases hw
    cases hw'
    simp only [hl, id] at h5
    exact h5

/-- Stochastic tournament: of the two individuals drawn, the one of the greater worth if the flip says so, else the
other. -/
theorem C225_stoch (debug : Bool) (fit : α → G) (p2w : List α → List F) (pop : List α) (hl : (p2w pop).length = pop.length)
    (hpop : 0 < pop.length) (r : Nat → Nat) (flip : Nat → Bool) :
    ∃ i j x, (WSel.setup p2w fit pop).stoch debug fit r flip pop = .ok x ∧ pop[i]? = some x ∧
      ((i = r 0 % pop.length ∧ j = r 1 % pop.length) ∨ (j = r 0 % pop.length ∧ i = r 1 % pop.length)) ∧
      ∀ w w', (p2w pop)[i]? = some w → (p2w pop)[j]? = some w' → if flip 2 then w' ≤ w else w ≤ w' := by
  obtain ⟨⟨i, j, hi, hj, h1, h2, h3⟩, _⟩ := EO.C53_stochastic (id : F → F) r flip (p2w pop) (by omega) 0
  rw [hl] at h2
  refine ⟨i, j, pop[i]'(by omega), ?_, List.getElem?_eq_getElem _, h2, ?_⟩
  · have : (WSel.setup p2w fit pop).worths = p2w pop := rfl
    rw [WSel.stoch, this, h1]
    exact at_synced debug fit p2w pop i (by omega)
  · intro w w' hw hw'
    rw [List.getElem?_eq_getElem hi] at hw
    rw [List.getElem?_eq_getElem hj] at hw'
    cases hw
    cases hw'
    exact h3

/-- Roulette wheel: with worths that are not negative and not all zero, the draw `u` in (0, 1) selects an individual of
positive worth, and individual `i` exactly if `u` falls into its share of the total. -/
theorem C225_roulette [IsStrictOrderedRing F] (debug : Bool) (fit : α → G) (p2w : List α → List F) (pop : List α)
    (hl : (p2w pop).length = pop.length) (hw : ∀ w ∈ p2w pop, 0 ≤ w) (hT : 0 < (p2w pop).sum) (u : F) (h0 : 0 < u) (h1 : u < 1)
    (r : Nat → Nat) :
    ∃ i x w, (WSel.setup p2w fit pop).roulette debug fit u r pop = .ok x ∧ pop[i]? = some x ∧ (p2w pop)[i]? = some w ∧ 0 < w ∧
      ((p2w pop).take i).sum < u * (p2w pop).sum ∧ u * (p2w pop).sum ≤ ((p2w pop).take i).sum + w := by
  have hd : 0 < u * (p2w pop).sum := mul_pos h0 hT
  obtain ⟨i, w, e1, e2, e3⟩ := (Sel.C54_wheel_total hw hd r).1 (by nlinarith)
  obtain ⟨g1, g2, g3⟩ := (Sel.C54_wheel hw hd r i).1 e1
  refine ⟨i, pop[i]'(by omega), w, ?_, List.getElem?_eq_getElem _, e2, e3, g2, ?_⟩
  · have a1 : (WSel.setup p2w fit pop).worths = p2w pop := rfl
    have a2 : (WSel.setup p2w fit pop).total = (p2w pop).sum := rfl
    rw [WSel.roulette, a1, a2, e1]
    exact at_synced debug fit p2w pop i (by omega)
  · rw [List.take_add_one, List.sum_append, e2] at g3
    simpa using g3

/-- A build with assertions notices, for the individual it would return, that its fitness is not the one it had at its
place when the worths were computed.  It does not notice that the population has become shorter. -/
theorem C225_debug (fit : α → G) (p2w : List α → List F) (pop now : List α) (i : Nat) (hi : i < pop.length) :
    (∀ x, (WSel.setup p2w fit pop).at true fit now i = .ok x ↔ now[i]? = some x ∧ fit x = fit pop[i]) ∧
    ((WSel.setup p2w fit pop).at true fit now i = .error .thrown ↔ ∃ x, now[i]? = some x ∧ fit x ≠ fit pop[i]) ∧
    ((WSel.setup p2w fit pop).at true fit now i = .error .ub ↔ now.length ≤ i) := by
  have hf : (WSel.setup p2w fit pop).fits[i]? = some (fit pop[i]) := by
    rw [WSel.setup, List.getElem?_map, List.getElem?_eq_getElem hi]
    rfl
  rw [WSel.at]
  cases hn : now[i]? with
  | none =>
    rw [List.getElem?_eq_none_iff] at hn
    simp [hn]
  | some x =>
    dsimp only
    rw [if_pos rfl, hf]
    dsimp only
    have hlt : i < now.length := (List.getElem?_eq_some_iff.1 hn).1
    by_cases hc : fit pop[i] = fit x
    · simp [hc, hlt]
    · have hc' : ¬ fit x = fit pop[i] := fun h => hc h.symm
      simp only [ne_eq, hc, not_false_eq_true, if_true, reduceCtorEq, Option.some.injEq, false_iff, not_and, true_iff,
        Except.error.injEq, not_le]
      refine ⟨?_, ⟨x, rfl, hc'⟩, hlt⟩
      rintro y rfl
      exact hc'

/-- A release build notices nothing: after the population has been put into another order the worths belong to others,
and here the tournament over everyone returns the worst. -/
theorem C225_stale :
    ∃ (p2w : List Nat → List ℚ) (pop now : List Nat), now.Perm pop ∧
      ((WSel.setup p2w id pop).det false id 2 (fun t => t) now).toOption = some 1 ∧ pop = [5, 1] ∧
      (WSel.setup p2w id pop).det true id 2 (fun t => t) now = .error .thrown :=
  ⟨List.map fun n => n, [5, 1], [1, 5], List.Perm.swap 5 1 [], by decide +kernel, rfl, by decide +kernel⟩

end

/-! ### C226: detection of minimisation -/

/-- Smaller values are better: `Fitness(1.0) < Fitness(0.0)`, i.e. 1 is worse than 0. -/
def FitType.SmallerIsBetter (t : FitType) : Prop := t.less10 = true

/-- `minimizing_fitness` is right exactly for the types other than an eoScalarFitness compared with `greater` whose
scalar is not `double`; for these it says that they are maximised. -/
theorem C226_iff (t : FitType) :
    (t.minimizing = true ↔ t.SmallerIsBetter) ↔ ∀ s, t = .scalar s true → s = .double := by
  cases t with
  | number => simp [FitType.minimizing, FitType.isFit, FitType.SmallerIsBetter]
  | other b => simp [FitType.minimizing, FitType.isFit, FitType.SmallerIsBetter]
  | scalar s g =>
    cases s <;> cases g <;> simp [FitType.minimizing, FitType.isFit, FitType.SmallerIsBetter, FitType.less10]

/-- So proportional selection accepts eoMinimizingFitnessT<float>, and then selects with probability proportional to
what is to be minimised. -/
theorem C226_accepts : FitType.SmallerIsBetter (.scalar .float true) ∧
    (FitType.scalar .float true).proportional = .ok () ∧
    (FitType.scalar .double true).proportional = .error .thrown ∧ FitType.number.proportional = .ok () :=
  ⟨rfl, rfl, rfl, rfl⟩

end Paradiseo.Worth
