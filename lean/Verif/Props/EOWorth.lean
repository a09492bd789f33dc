/-
C90, C91, C92: worths of individuals computed from their fitness: ranking, linear scaling, sharing.
-/
import Mathlib.Tactic.FieldSimp
import Mathlib.Tactic.Linarith
import Mathlib.Tactic.Ring
import Mathlib.Algebra.BigOperators.Group.List.Basic
import Mathlib.Algebra.Order.BigOperators.Group.List
import Mathlib.Algebra.BigOperators.Ring.List
import Mathlib.Algebra.IsPrimePow
import Mathlib.Data.Nat.Factorization.PrimePow
import Verif.Model.EOSelect

namespace Paradiseo.Sel

open Paradiseo.EO (Err)

variable {F : Type*} [Field F] [LinearOrder F] [IsStrictOrderedRing F]
variable {α G : Type} [LinearOrder G]

/-! ### C90: ranking -/

theorem rankLoop_length (worth : Nat → F) (l : List Nat) (i : Nat) (v : List F) :
    (rankLoop worth l i v).length = v.length := by
  induction l generalizing i v with
  | nil => rfl
  | cons a l ih => simp [rankLoop, ih]

theorem rankLoop_notin (worth : Nat → F) (l : List Nat) (i : Nat) (v : List F) (p : Nat)
    (hp : p ∉ l) : (rankLoop worth l i v)[p]? = v[p]? := by
  induction l generalizing i v with
  | nil => rfl
  | cons a l ih =>
    simp only [List.mem_cons, not_or] at hp
    rw [rankLoop, ih _ _ hp.2, List.getElem?_set_ne (Ne.symm hp.1)]

theorem rankLoop_get (worth : Nat → F) (l : List Nat) (i : Nat) (v : List F) (hn : l.Nodup)
    (hv : ∀ a ∈ l, a < v.length) (k a : Nat) (hk : l[k]? = some a) :
    (rankLoop worth l i v)[a]? = some (worth (i + k)) := by
  induction l generalizing i v k with
  | nil => simp at hk
  | cons b l ih =>
    rw [List.nodup_cons] at hn
    cases k with
    | zero =>
      simp only [List.getElem?_cons_zero, Option.some.injEq] at hk
      subst hk
      rw [rankLoop, rankLoop_notin _ _ _ _ _ hn.1, List.getElem?_set_self (hv b (by simp))]
      simp
    | succ k =>
      simp only [List.getElem?_cons_succ] at hk
      rw [rankLoop, ih (i + 1) _ hn.2 (fun a ha => by simpa using hv a (by simp [ha])) k hk]
      congr 2
      omega

/-- The positions in the order from the best to the worst. -/
structure IsRanking (f : α → G) (pop : List α) (order : List Nat) : Prop where
  perm : order.Perm (List.range pop.length)
  sorted : order.Pairwise fun i j => ∀ x y, pop[i]? = some x → pop[j]? = some y → f y ≤ f x

theorem ranking_get (p : F) (pw : Option (F → F)) (f : α → G) (sortIdx : List α → List Nat)
    (pop : List α) (h : IsRanking f pop (sortIdx pop)) (h2 : 2 ≤ pop.length) (wf : Nat → F)
    (hwf : wf = rankWorthOf p pw pop.length) :
    ∃ w, ranking p pw sortIdx pop = .ok w ∧ w.length = pop.length ∧
      ∀ k a, (sortIdx pop)[k]? = some a → w[a]? = some (wf k) := by
  refine ⟨rankLoop wf (sortIdx pop) 0 (List.replicate pop.length 0), ?_, ?_, ?_⟩
  · rw [hwf]; simp only [ranking, show ¬ (pop.length ≤ 1) by omega, if_false]
  · rw [rankLoop_length]; simp
  · intro k a hk
    have := rankLoop_get wf (sortIdx pop) 0 (List.replicate pop.length 0)
      (h.perm.nodup_iff.mpr List.nodup_range)
      (fun a ha => by simpa using h.perm.mem_iff.mp ha) k a hk
    simpa using this

theorem ranking_sum {pop : List α} {order : List Nat} (hp : order.Perm (List.range pop.length))
    {w : List F} (hw : w.length = pop.length) {g : Nat → F}
    (hg : ∀ k a, order[k]? = some a → w[a]? = some (g k)) :
    w.sum = ((List.range pop.length).map g).sum := by
  have hol : order.length = pop.length := by simpa using hp.length_eq
  have h1 : w = (List.range pop.length).map fun i => w.getD i 0 := by
    apply List.ext_getElem?
    intro i
    by_cases hi : i < pop.length
    · have hi' : i < w.length := by omega
      simp [hi, hi']
    · simp [show w.length ≤ i by omega, show pop.length ≤ i by omega]
  have h2 : order.map (fun i => w.getD i 0) = (List.range pop.length).map g := by
    apply List.ext_getElem?
    intro k
    by_cases hk : k < order.length
    · have hk' : k < pop.length := by omega
      have := hg k order[k] (List.getElem?_eq_getElem hk)
      simp [hk, hk', this]
    · simp [show order.length ≤ k by omega, show pop.length ≤ k by omega]
  rw [h1, ← (hp.map _).sum_eq, h2]

theorem sum_range_lin (c d : F) (n m : Nat) :
    ((List.range m).map fun i : Nat => c * ((n : F) - i) + d).sum =
      c * (m * n - m * (m - 1) / 2) + m * d := by
  induction m with
  | zero => simp
  | succ m ih =>
    rw [List.range_succ, List.map_append, List.sum_append, ih]
    simp
    ring

/-- Ranking gives a positive worth to everybody; an individual of better fitness gets a strictly larger
worth, and two different individuals never get the same worth, even with equal fitness. -/
theorem C90_order (p : F) (hp : 1 < p) (hp2 : p ≤ 2) (f : α → G) (sortIdx : List α → List Nat)
    (pop : List α) (h : IsRanking f pop (sortIdx pop)) (h2 : 2 ≤ pop.length)
    (hsz : pop.length < 2 ^ 32) :
    ∃ w, ranking p none sortIdx pop = .ok w ∧ w.length = pop.length ∧ (∀ x ∈ w, 0 < x) ∧ w.Nodup ∧
      ∀ (i j : Nat) (x y : α) (a b : F), pop[i]? = some x → pop[j]? = some y → w[i]? = some a →
        w[j]? = some b → f x < f y → a < b := by
  obtain ⟨w, e1, e2, e3⟩ := ranking_get p none f sortIdx pop h h2 (rankWorth p pop.length) rfl
  have hol : (sortIdx pop).length = pop.length := by simpa using h.perm.length_eq
  have hcop : (pop.length * (pop.length - 1) % 2 ^ 32 : Nat) ≠ 0 := by
    intro h0
    have hd : 2 ^ 32 ∣ pop.length * (pop.length - 1) := Nat.dvd_of_mod_eq_zero h0
    have hc : Nat.Coprime pop.length (pop.length - 1) := by
      obtain ⟨m, hm⟩ : ∃ m, pop.length = m + 1 := ⟨pop.length - 1, by omega⟩
      rw [hm, Nat.add_sub_cancel]
      exact (Nat.coprime_self_add_right.mpr (Nat.coprime_one_right m)).symm
    have hpp : IsPrimePow (2 ^ 32 : Nat) := by
      rw [isPrimePow_nat_iff]
      exact ⟨2, 32, Nat.prime_two, by omega, rfl⟩
    rcases (Nat.Coprime.isPrimePow_dvd_mul hc hpp).mp hd with hd | hd
    · have := Nat.le_of_dvd (by omega) hd; omega
    · have := Nat.le_of_dvd (by omega) hd; omega
  have hA : 0 < (2 * p - 2) / ((pop.length * (pop.length - 1) % 2 ^ 32 : Nat) : F) := by
    apply div_pos (by linarith)
    exact_mod_cast Nat.pos_of_ne_zero hcop
  have hB : 0 ≤ (2 - p) / (pop.length : F) := div_nonneg (by linarith) (by positivity)
  have hanti : ∀ k l : Nat, k < l → rankWorth p pop.length l < rankWorth p pop.length k := by
    intro k l hkl
    have : (k : F) < l := by exact_mod_cast hkl
    simp only [rankWorth]
    nlinarith
  have hrank : ∀ i < pop.length, ∃ k : Nat, (sortIdx pop)[k]? = some i := by
    intro i hi
    have : i ∈ sortIdx pop := h.perm.mem_iff.mpr (by simpa using hi)
    exact List.mem_iff_getElem?.mp this
  refine ⟨w, e1, e2, ?_, ?_, ?_⟩
  · intro x hx
    obtain ⟨i, hi, rfl⟩ := List.mem_iff_getElem.mp hx
    obtain ⟨k, hk⟩ := hrank i (by omega)
    have hk' : k < pop.length := by rw [← hol]; exact (List.getElem?_eq_some_iff.mp hk).1
    have := e3 k i hk
    rw [List.getElem?_eq_getElem hi, Option.some.injEq] at this
    rw [this]
    have hkn : (k : F) < pop.length := by exact_mod_cast hk'
    simp only [rankWorth]
    have := mul_pos hA (sub_pos.mpr hkn)
    linarith
  · rw [List.nodup_iff_getElem?_ne_getElem?]
    intro i j hij hj heq
    obtain ⟨k, hk⟩ := hrank i (by omega)
    obtain ⟨l, hl⟩ := hrank j (by omega)
    rw [e3 k i hk, e3 l j hl, Option.some.injEq] at heq
    rcases lt_trichotomy k l with hkl | hkl | hkl
    · exact absurd heq (hanti k l hkl).ne'
    · subst hkl
      rw [hk, Option.some.injEq] at hl
      omega
    · exact absurd heq (hanti l k hkl).ne
  · intro i j x y a b hx hy ha hb hlt
    obtain ⟨k, hk⟩ := hrank i (List.getElem?_eq_some_iff.mp hx).1
    obtain ⟨l, hl⟩ := hrank j (List.getElem?_eq_some_iff.mp hy).1
    rw [e3 k i hk, Option.some.injEq] at ha
    rw [e3 l j hl, Option.some.injEq] at hb
    subst ha hb
    apply hanti
    rcases lt_trichotomy l k with hkl | hkl | hkl
    · exact hkl
    · subst hkl
      rw [hl, Option.some.injEq] at hk
      subst hk
      rw [hx, Option.some.injEq] at hy
      subst hy
      exact absurd hlt (lt_irrefl _)
    · exfalso
      have hk' := (List.getElem?_eq_some_iff.mp hk)
      have hl' := (List.getElem?_eq_some_iff.mp hl)
      obtain ⟨hk1, hk2⟩ := hk'
      obtain ⟨hl1, hl2⟩ := hl'
      have := (List.pairwise_iff_getElem.mp h.sorted) k l hk1 hl1 hkl x y (by rw [hk2, hx])
        (by rw [hl2, hy])
      exact absurd hlt (not_lt.mpr this)

/-- Fitnesses 5, 9, 7: the order is 1, 2, 0. -/
example : IsRanking id [5, 9, 7] [1, 2, 0] := ⟨by decide, by simp⟩

/-- The documented range of the worths is `[(2-pressure)/n, pressure/n]`.  With exponent 1 the worth of
the best individual is larger than `pressure/n` and the worths do not sum to one, for every population
(of at most 65536 individuals) and every allowed pressure. -/
theorem C90_linear_exceeds_range (p : F) (hp : 1 < p) (f : α → G)
    (sortIdx : List α → List Nat) (pop : List α) (h : IsRanking f pop (sortIdx pop))
    (h2 : 2 ≤ pop.length) (hsz : pop.length ≤ 65536) :
    ∃ (w : List F) (b : Nat) (x : F), ranking p none sortIdx pop = .ok w ∧
      (sortIdx pop)[0]? = some b ∧ w[b]? = some x ∧
      p / pop.length < x ∧ x = p / pop.length + (2 * p - 2) / (pop.length * (pop.length - 1)) ∧
      1 < w.sum ∧ w.sum = 1 + (2 * p - 2) / (pop.length - 1) := by
  obtain ⟨w, e1, e2, e3⟩ := ranking_get p none f sortIdx pop h h2 (rankWorth p pop.length) rfl
  have hol : (sortIdx pop).length = pop.length := by simpa using h.perm.length_eq
  have h0 : (sortIdx pop)[0]? = some (sortIdx pop)[0] := List.getElem?_eq_getElem (by omega)
  have hn : (2 : F) ≤ pop.length := by exact_mod_cast h2
  have hprod : ((pop.length * (pop.length - 1) % 2 ^ 32 : Nat) : F) =
      (pop.length : F) * (pop.length - 1) := by
    rw [Nat.mod_eq_of_lt]
    · push_cast [Nat.cast_sub (show 1 ≤ pop.length by omega)]
      ring
    · calc pop.length * (pop.length - 1) ≤ 65536 * 65535 := Nat.mul_le_mul hsz (by omega)
        _ < 2 ^ 32 := by norm_num
  have hx : rankWorth p pop.length 0 =
      p / pop.length + (2 * p - 2) / (pop.length * (pop.length - 1)) := by
    have h1 : (pop.length : F) - 1 ≠ 0 := by linarith
    have h3 : (pop.length : F) ≠ 0 := by linarith
    rw [rankWorth, hprod]
    push_cast
    field_simp
    ring
  have hs : w.sum = 1 + (2 * p - 2) / (pop.length - 1) := by
    rw [ranking_sum h.perm e2 e3]
    have h1 : (pop.length : F) - 1 ≠ 0 := by linarith
    have h3 : (pop.length : F) ≠ 0 := by linarith
    have hf : rankWorth p pop.length = fun i : Nat => (2 * p - 2) / ((pop.length : F) *
        (pop.length - 1)) * ((pop.length : F) - i) + (2 - p) / pop.length := by
      funext i
      rw [rankWorth, hprod]
    rw [hf, sum_range_lin]
    field_simp
    ring
  refine ⟨w, (sortIdx pop)[0], rankWorth p pop.length 0, e1, h0, e3 0 _ h0, ?_, hx, ?_, hs⟩
  · rw [hx]
    have : 0 < (2 * p - 2) / ((pop.length : F) * (pop.length - 1)) :=
      div_pos (by linarith) (mul_pos (by linarith) (by linarith))
    linarith
  · rw [hs]
    have : 0 < (2 * p - 2) / ((pop.length : F) - 1) := div_pos (by linarith) (by linarith)
    linarith

/-- With another exponent the worths stay in the documented range and the best gets exactly
`pressure/n`. -/
theorem C90_exponent_range (p : F) (hp : 1 < p) (f : α → G) (sortIdx : List α → List Nat)
    (pop : List α) (h : IsRanking f pop (sortIdx pop)) (h2 : 2 ≤ pop.length) (pw : F → F)
    (h1 : pw 1 = 1) (hpw : ∀ x, 0 ≤ x → x ≤ 1 → 0 ≤ pw x ∧ pw x ≤ 1) :
    ∃ (w : List F) (b : Nat), ranking p (some pw) sortIdx pop = .ok w ∧
      w.length = pop.length ∧ (sortIdx pop)[0]? = some b ∧ w[b]? = some (p / pop.length) ∧
      ∀ x ∈ w, (2 - p) / pop.length ≤ x ∧ x ≤ p / pop.length := by
  obtain ⟨w, e1, e2, e3⟩ := ranking_get p (some pw) f sortIdx pop h h2 (rankWorthExp pw p pop.length) rfl
  have hol : (sortIdx pop).length = pop.length := by simpa using h.perm.length_eq
  have h0 : (sortIdx pop)[0]? = some (sortIdx pop)[0] := List.getElem?_eq_getElem (by omega)
  have hn : (2 : F) ≤ pop.length := by exact_mod_cast h2
  have h3 : (pop.length : F) ≠ 0 := by linarith
  refine ⟨w, (sortIdx pop)[0], e1, e2, h0, ?_, ?_⟩
  · rw [e3 0 _ h0]
    congr 1
    simp only [rankWorthExp, Nat.cast_zero, sub_zero, div_self h3, h1]
    field_simp
    ring
  · intro x hx
    obtain ⟨i, hi, rfl⟩ := List.mem_iff_getElem.mp hx
    have : i ∈ sortIdx pop := h.perm.mem_iff.mpr (by simp; omega)
    obtain ⟨k, hk⟩ := List.mem_iff_getElem?.mp this
    have hk' : k < pop.length := by rw [← hol]; exact (List.getElem?_eq_some_iff.mp hk).1
    have hw := e3 k i hk
    rw [List.getElem?_eq_getElem hi, Option.some.injEq] at hw
    rw [hw]
    have hkn : (k : F) < pop.length := by exact_mod_cast hk'
    have hk0 : (0 : F) ≤ k := by positivity
    obtain ⟨a, b⟩ := hpw (((pop.length : F) - k) / pop.length)
      (div_nonneg (by linarith) (by linarith)) (by rw [div_le_one (by linarith)]; linarith)
    simp only [rankWorthExp]
    have hc : 0 ≤ (2 * p - 2) / (pop.length : F) := div_nonneg (by linarith) (by linarith)
    have hsum : (2 * p - 2) / (pop.length : F) + (2 - p) / pop.length = p / pop.length := by
      field_simp
      ring
    constructor
    · nlinarith [mul_nonneg hc a]
    · nlinarith [mul_le_mul_of_nonneg_left b hc]

/-- The square function is such a power. -/
example : (fun x : ℚ => x ^ 2) 1 = 1 ∧
    ∀ x : ℚ, 0 ≤ x → x ≤ 1 → 0 ≤ (fun x : ℚ => x ^ 2) x ∧ (fun x : ℚ => x ^ 2) x ≤ 1 :=
  ⟨by norm_num, fun x h0 h1 => ⟨by positivity, by dsimp only; nlinarith⟩⟩

/-- For 65537 individuals the product `pSize*(pSize-1)` overflows to 65536: with pressure 2 the best
individual gets the worth 65537/32768, about two, and even the worst gets more than 2/65537, the
documented maximum. -/
theorem C90_overflow : rankWorth (2 : ℚ) 65537 0 = 65537 / 32768 ∧
    (2 : ℚ) / 65537 < rankWorth (2 : ℚ) 65537 65536 := by
  constructor <;> norm_num [rankWorth]

/-- Populations of at most one individual are refused. -/
theorem C90_refused (p : F) (pw : Option (F → F)) (sortIdx : List α → List Nat) (pop : List α)
    (h : pop.length ≤ 1) : ranking p pw sortIdx pop = .error .thrown := by
  simp [ranking, h]

/-! ### C91: linear scaling of the fitness -/

/-- Linear scaling with a pressure of at least one, for a population whose fitnesses are not all equal:
no worth is negative, a better fitness never gets a smaller worth, the best gets `pressure/n`, and the
worths sum to at least one; the sum is one if no worth had to be cut at zero. -/
theorem C91_scaling (p best : F) (hp : 1 ≤ p) (fits : List F) (hb : best ∈ fits)
    (hmax : ∀ x ∈ fits, x ≤ best) (hne : ∃ x ∈ fits, x ≠ best) :
    ∃ w, linearScaling p best fits = .ok w ∧ w.length = fits.length ∧ (∀ x ∈ w, 0 ≤ x) ∧
      (∀ (i j : Nat) (x y a b : F), fits[i]? = some x → fits[j]? = some y → w[i]? = some a →
        w[j]? = some b → x ≤ y → a ≤ b) ∧
      (∀ (i : Nat) (a : F), fits[i]? = some best → w[i]? = some a → a = p / fits.length) ∧
      1 ≤ w.sum ∧ ((∀ x ∈ w, 0 < x) → w.sum = 1) := by
  have hlen : 0 < fits.length := List.length_pos_of_mem hb
  have hn : (0 : F) < fits.length := by exact_mod_cast hlen
  have hsum : fits.sum < fits.length * best := by
    have : fits.sum < (fits.map fun _ => best).sum := by
      have := List.sum_lt_sum (l := fits) (f := fun x => x) (g := fun _ => best)
        (fun x hx => hmax x hx) (by
          obtain ⟨x, hx, hxb⟩ := hne
          exact ⟨x, hx, lt_of_le_of_ne (hmax x hx) hxb⟩)
      simpa using this
    simpa [List.map_const', List.sum_replicate] using this
  have hden : 0 < (fits.length : F) * (best - fits.sum / fits.length) := by
    rw [mul_sub, mul_div_cancel₀ _ hn.ne']
    linarith
  set A := fits.sum / (fits.length : F) with hA
  have hAS : fits.sum = fits.length * A := by rw [hA, mul_div_cancel₀ _ hn.ne']
  set D := (fits.length : F) * (best - A) with hD
  have hraw : ∀ l : List F, (l.map fun x => (p - 1) / D * x + (best - p * A) / D).sum =
      (p - 1) / D * l.sum + l.length * ((best - p * A) / D) := by
    intro l
    induction l with
    | nil => simp
    | cons a l ih => simp [ih]; ring
  have hone : (fits.map fun x => (p - 1) / D * x + (best - p * A) / D).sum = 1 := by
    rw [hraw, hAS]
    field_simp
    rw [hD]
    ring
  have hal : 0 ≤ (p - 1) / D := div_nonneg (by linarith) hden.le
  refine ⟨_, by simp only [linearScaling]; rw [if_neg hden.ne'], by simp, ?_, ?_, ?_, ?_, ?_⟩
  · intro x hx
    obtain ⟨y, _, rfl⟩ := List.mem_map.mp hx
    exact le_max_right _ _
  · intro i j x y a b hx hy ha hb hxy
    rw [List.getElem?_map, hx, Option.map_some, Option.some.injEq] at ha
    rw [List.getElem?_map, hy, Option.map_some, Option.some.injEq] at hb
    subst ha hb
    apply max_le_max _ le_rfl
    nlinarith [mul_le_mul_of_nonneg_left hxy hal]
  · intro i a hi ha
    rw [List.getElem?_map, hi, Option.map_some, Option.some.injEq] at ha
    rw [← ha]
    have : (p - 1) / D * best + (best - p * A) / D = p / fits.length := by
      have hbA : best - A ≠ 0 := by
        intro h; rw [hD, h, mul_zero] at hden; exact lt_irrefl _ hden
      rw [hD]
      field_simp
      ring
    rw [this]
    exact max_eq_left (div_nonneg (by linarith) hn.le)
  · refine hone.ge.trans ?_
    exact List.sum_le_sum fun x _ => le_max_left _ _
  · intro hpos
    refine Eq.trans ?_ hone
    congr 1
    apply List.map_congr_left
    intro x hx
    apply max_eq_left
    have := hpos _ (List.mem_map.mpr ⟨x, hx, rfl⟩)
    by_contra hcon
    rw [max_eq_right (not_le.mp hcon).le] at this
    exact lt_irrefl _ this

example : ∃ w, linearScaling (2 : ℚ) 4 [1, 4, 2] = .ok w ∧ w.length = 3 ∧ (∀ x ∈ w, 0 ≤ x) ∧
    (∀ (i j : Nat) (x y a b : ℚ), [1, 4, 2][i]? = some x → [1, 4, 2][j]? = some y →
      w[i]? = some a → w[j]? = some b → x ≤ y → a ≤ b) ∧
    (∀ (i : Nat) (a : ℚ), [1, 4, 2][i]? = some (4 : ℚ) → w[i]? = some a → a = 2 / 3) ∧
    1 ≤ w.sum ∧ ((∀ x ∈ w, 0 < x) → w.sum = 1) := by
  have := C91_scaling (2 : ℚ) 4 (by norm_num) [1, 4, 2] (by simp) (by norm_num) ⟨1, by norm_num⟩
  simpa using this

/-- If all the fitnesses are equal the denominator is zero and the worths are not numbers. -/
theorem C91_all_equal (p x : F) (n : Nat) :
    linearScaling p x (List.replicate (n + 1) x) = .error .ub := by
  have hn : ((n : F) + 1) ≠ 0 := by positivity
  have : ((n + 1 : Nat) : F) * (x - (n + 1 : Nat) * x / (n + 1 : Nat)) = 0 := by
    push_cast
    rw [mul_div_cancel_left₀ _ hn]
    ring
  simp only [linearScaling, List.length_replicate, List.sum_replicate, nsmul_eq_mul, this, if_true]

/-! ### C92: sharing -/

theorem similarity_range {niche : F} (hn : 0 < niche) {dist : Nat → Nat → F}
    (hd : ∀ i j, 0 ≤ dist i j) (i j : Nat) :
    0 ≤ similarity niche dist i j ∧ similarity niche dist i j ≤ 1 := by
  have key : ∀ d : F, 0 ≤ d → 0 ≤ (if niche < d then 0 else 1 - d / niche) ∧
      (if niche < d then 0 else 1 - d / niche) ≤ 1 := by
    intro d hd'
    split
    · exact ⟨le_rfl, zero_le_one⟩
    · rename_i h
      have h1 : d / niche ≤ 1 := by rw [div_le_one hn]; exact not_lt.mp h
      have h2 : 0 ≤ d / niche := div_nonneg hd' hn.le
      constructor <;> linarith
  unfold similarity
  split
  · exact ⟨zero_le_one, le_rfl⟩
  · exact key _ (by split <;> exact hd _ _)

theorem sharing_ok {niche : F} (hn : 0 < niche) (dist : Nat → Nat → F) (fits : List F)
    (h2 : 2 ≤ fits.length) : sharing niche dist fits =
    .ok ((List.range fits.length).zipWith (fun i f => f /
      ((List.range fits.length).map fun j => similarity niche dist i j).sum) fits) := by
  simp only [sharing, show ¬ (fits.length ≤ 1) by omega, if_false, hn.ne']

theorem sum_sim_ge {g : Nat → F} (n i : Nat) (hi : i < n) (hg : ∀ j, 0 ≤ g j) (h1 : g i = 1) :
    1 ≤ ((List.range n).map g).sum := by
  rw [← h1]
  apply List.single_le_sum
  · intro x hx
    obtain ⟨j, _, rfl⟩ := List.mem_map.mp hx
    exact hg j
  · exact List.mem_map.mpr ⟨i, by simpa using hi, rfl⟩

theorem sum_sim_le {g : Nat → F} (n : Nat) (hg : ∀ j, g j ≤ 1) :
    ((List.range n).map g).sum ≤ n := by
  have := List.sum_le_sum (l := List.range n) (f := g) (g := fun _ => (1 : F)) fun j _ => hg j
  simpa [List.map_const', List.sum_replicate] using this

/-- The specification of the shared fitness: the fitness divided by the number of individuals of the
niche, each counted by one minus its distance over the niche size. -/
def nicheCount (niche : F) (d : Nat → Nat → F) (n i : Nat) : F :=
  ((List.range n).map fun j => max 0 (1 - d i j / niche)).sum

/-- For a symmetric distance that is zero on equal places, sharing divides each fitness by the niche
count. -/
theorem C92_niche_count {niche : F} (hn : 0 < niche) {dist : Nat → Nat → F}
    (hsym : ∀ i j, dist i j = dist j i) (h0 : ∀ i, dist i i = 0) (fits : List F)
    (h2 : 2 ≤ fits.length) :
    ∃ w, sharing niche dist fits = .ok w ∧ w.length = fits.length ∧
      ∀ (i : Nat) (x : F), fits[i]? = some x →
        w[i]? = some (x / nicheCount niche dist fits.length i) := by
  refine ⟨_, sharing_ok hn dist fits h2, by simp, ?_⟩
  intro i x hx
  have hi : i < fits.length := (List.getElem?_eq_some_iff.mp hx).1
  simp only [List.getElem?_zipWith, List.getElem?_range hi, hx]
  congr 2
  unfold nicheCount
  congr 1
  apply List.map_congr_left
  intro j _
  unfold similarity
  split
  · rename_i h
    subst h
    simp [h0]
  · have : (if j < i then dist i j else dist j i) = dist i j := by split <;> simp [hsym]
    rw [this]
    simp only
    split
    · rename_i h
      have : 1 < dist i j / niche := by rw [lt_div_iff₀ hn]; linarith
      rw [max_eq_left (by linarith)]
    · rename_i h
      have : dist i j / niche ≤ 1 := by rw [div_le_one hn]; exact not_lt.mp h
      rw [max_eq_right (by linarith)]

/-- For non-negative distances and fitnesses the shared fitness is between the fitness divided by the
size of the population and the fitness itself. -/
theorem C92_bounds {niche : F} (hn : 0 < niche) {dist : Nat → Nat → F} (hd : ∀ i j, 0 ≤ dist i j)
    (fits : List F) (h2 : 2 ≤ fits.length) (hf : ∀ x ∈ fits, 0 ≤ x) :
    ∃ w, sharing niche dist fits = .ok w ∧ w.length = fits.length ∧
      ∀ (i : Nat) (x a : F), fits[i]? = some x → w[i]? = some a →
        x / fits.length ≤ a ∧ a ≤ x := by
  refine ⟨_, sharing_ok hn dist fits h2, by simp, ?_⟩
  intro i x a hx ha
  have hi : i < fits.length := (List.getElem?_eq_some_iff.mp hx).1
  simp only [List.getElem?_zipWith, List.getElem?_range hi, hx, Option.some.injEq] at ha
  have hxm : 0 ≤ x := hf x (List.mem_of_getElem? hx)
  have h1 := sum_sim_ge (g := fun j => similarity niche dist i j) fits.length i hi
    (fun j => (similarity_range hn hd i j).1) (by simp [similarity])
  have h3 := sum_sim_le (g := fun j => similarity niche dist i j) fits.length
    (fun j => (similarity_range hn hd i j).2)
  rw [← ha]
  constructor
  · exact div_le_div_of_nonneg_left hxm (by linarith) h3
  · exact div_le_self hxm h1

/-- An individual farther than the niche size from all the others keeps its fitness. -/
theorem C92_isolated {niche : F} (hn : 0 < niche) {dist : Nat → Nat → F} (fits : List F)
    (h2 : 2 ≤ fits.length) (i : Nat) (x : F) (hx : fits[i]? = some x)
    (hfar : ∀ j, j ≠ i → niche < dist i j ∧ niche < dist j i) :
    ∃ w, sharing niche dist fits = .ok w ∧ w[i]? = some x := by
  refine ⟨_, sharing_ok hn dist fits h2, ?_⟩
  have hi : i < fits.length := (List.getElem?_eq_some_iff.mp hx).1
  simp only [List.getElem?_zipWith, List.getElem?_range hi, hx]
  have hs : ∀ n, i < n → ((List.range n).map fun j => similarity niche dist i j).sum = 1 := by
    intro n hin
    have : ∀ m, ((List.range m).map fun j => similarity niche dist i j).sum =
        if i < m then (1 : F) else 0 := by
      intro m
      induction m with
      | zero => simp
      | succ m ih =>
        rw [List.range_succ, List.map_append, List.sum_append, ih]
        simp only [List.map_cons, List.map_nil, List.sum_cons, List.sum_nil, add_zero]
        rcases lt_trichotomy i m with h | h | h
        · have hne : m ≠ i := by omega
          simp [similarity, Ne.symm hne, h, hfar m hne, show ¬ (m < i) by omega,
            show i < m + 1 by omega]
        · subst h
          simp [similarity]
        · have hne : m ≠ i := by omega
          simp [similarity, Ne.symm hne, hfar m hne, h, show ¬ (i < m) by omega,
            show ¬ (i < m + 1) by omega]
    rw [this, if_pos hin]
  rw [hs _ hi, div_one]

example : ∃ w, sharing (1 : ℚ) (fun i j => 2 * |(i : ℚ) - j|) [3, 4] = .ok w ∧ w[0]? = some 3 := by
  refine C92_isolated (by norm_num) [3, 4] (by simp) 0 3 rfl fun j hj => ?_
  have h1 : (1 : ℚ) ≤ j := by exact_mod_cast Nat.one_le_iff_ne_zero.mpr hj
  have h2 : |((0 : Nat) : ℚ) - j| = j := by
    rw [Nat.cast_zero, zero_sub, abs_neg, abs_of_nonneg (by linarith)]
  have h3 : |(j : ℚ) - (0 : Nat)| = j := by
    rw [Nat.cast_zero, sub_zero, abs_of_nonneg (by linarith)]
  rw [h2, h3]
  constructor <;> linarith

/-- Copies of one individual share its fitness equally. -/
theorem C92_copies {niche : F} (hn : 0 < niche) (x : F) (n : Nat) (h2 : 2 ≤ n) :
    sharing niche (fun _ _ => 0) (List.replicate n x) = .ok (List.replicate n (x / n)) := by
  have hs : ∀ i, ((List.range n).map fun j => similarity niche (fun _ _ => 0) i j).sum = n := by
    intro i
    have : ((List.range n).map fun j => similarity niche (fun _ _ => (0 : F)) i j) =
        (List.range n).map fun _ => (1 : F) := by
      apply List.map_congr_left
      intro j _
      simp [similarity, not_lt.mpr hn.le]
    rw [this]
    simp [List.map_const', List.sum_replicate]
  simp only [sharing, List.length_replicate, show ¬ (n ≤ 1) by omega, if_false, hn.ne', hs]
  congr 1
  apply List.ext_getElem
  · simp
  · intro i h1 h2
    simp

end Paradiseo.Sel
