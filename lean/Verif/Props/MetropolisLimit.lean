/-
Property C383: the solution of an annealing at a fixed temperature, and of a Metropolis-Hastings walk, converges in law.
-/
import Verif.Props.MetropolisUnique
import Mathlib.Analysis.SpecificLimits.Basic

namespace Paradiseo.LS

open MeasureTheory Finset Filter Topology

variable {S M : Type} [Fintype S] [DecidableEq S] [Fintype M]

/-- The law of the solution after `t` iterations with independent draws, when the first one has the law `μ`. -/
noncomputable def lawAfter (step : M → ℝ → S → S) (μ : S → ℝ) : Nat → S → ℝ
  | 0 => μ
  | t + 1 => fun y => ∑ x, lawAfter step μ t x * stepProb step x y

/-! ### Positive matrices -/

theorem pow_entry_nonneg {P : Matrix S S ℝ} (h0 : ∀ x y, 0 ≤ P x y) : ∀ n x y, 0 ≤ (P ^ n) x y := by
  intro n
  induction n with
  | zero => intro x y; rw [pow_zero, Matrix.one_apply]; split <;> norm_num
  | succ n ih =>
    intro x y
    rw [pow_succ, Matrix.mul_apply]
    exact sum_nonneg fun z _ => mul_nonneg (ih x z) (h0 z y)

theorem pow_entry_mul {P : Matrix S S ℝ} (h0 : ∀ x y, 0 ≤ P x y) (a b : Nat) (x z y : S) :
    (P ^ a) x z * (P ^ b) z y ≤ (P ^ (a + b)) x y := by
  rw [pow_add, Matrix.mul_apply]
  exact single_le_sum (f := fun z => (P ^ a) x z * (P ^ b) z y)
    (fun z _ => mul_nonneg (pow_entry_nonneg h0 a x z) (pow_entry_nonneg h0 b z y)) (mem_univ z)

theorem pow_entry_reach {P : Matrix S S ℝ} (h0 : ∀ x y, 0 ≤ P x y) {x y : S}
    (h : Relation.ReflTransGen (fun a b => 0 < P a b) x y) : ∃ n, 0 < (P ^ n) x y := by
  induction h with
  | refl => exact ⟨0, by simp⟩
  | @tail b c _ hbc ih =>
    obtain ⟨n, hn⟩ := ih
    refine ⟨n + 1, lt_of_lt_of_le ?_ (pow_entry_mul h0 n 1 x b c)⟩
    rw [pow_one]
    exact mul_pos hn hbc

theorem pow_entry_loop {P : Matrix S S ℝ} (h0 : ∀ x y, 0 ≤ P x y) {s : S} (hs : 0 < P s s) : ∀ n, 0 < (P ^ n) s s := by
  intro n
  induction n with
  | zero => simp
  | succ n ih =>
    refine lt_of_lt_of_le ?_ (pow_entry_mul h0 n 1 s s s)
    rw [pow_one]
    exact mul_pos ih hs

/-- Connected, and one solution may stay: some power has only positive entries. -/
theorem pow_positive {P : Matrix S S ℝ} (h0 : ∀ x y, 0 ≤ P x y)
    (hc : ∀ x y, Relation.ReflTransGen (fun a b => 0 < P a b) x y) {s : S} (hs : 0 < P s s) :
    ∃ N, 0 < N ∧ ∀ x y, 0 < (P ^ N) x y := by
  choose a ha using fun x => pow_entry_reach h0 (hc x s)
  choose b hb using fun y => pow_entry_reach h0 (hc s y)
  refine ⟨(∑ x, a x) + (∑ y, b y) + 1, by omega, fun x y => ?_⟩
  have hax : a x ≤ ∑ x, a x := single_le_sum (f := a) (fun _ _ => Nat.zero_le _) (mem_univ x)
  have hby : b y ≤ ∑ y, b y := single_le_sum (f := b) (fun _ _ => Nat.zero_le _) (mem_univ y)
  have e : (∑ x, a x) + (∑ y, b y) + 1 = a x + ((∑ x, a x) + (∑ y, b y) + 1 - a x - b y) + b y := by omega
  rw [e]
  exact lt_of_lt_of_le (mul_pos (lt_of_lt_of_le (mul_pos (ha x) (pow_entry_loop h0 hs _)) (pow_entry_mul h0 _ _ _ _ _)) (hb y))
    (pow_entry_mul h0 _ _ _ _ _)

theorem pow_entry_sum {P : Matrix S S ℝ} (h1 : ∀ x, ∑ y, P x y = 1) : ∀ n x, ∑ y, (P ^ n) x y = 1 := by
  intro n
  induction n with
  | zero => intro x; simp [Matrix.one_apply]
  | succ n ih =>
    intro x
    simp only [pow_succ, Matrix.mul_apply]
    rw [sum_comm]
    simp only [← mul_sum, h1, mul_one]
    exact ih x

/-- Averages stay between the bounds. -/
theorem mulVec_bounds {Q : Matrix S S ℝ} (h0 : ∀ x y, 0 ≤ Q x y) (h1 : ∀ x, ∑ y, Q x y = 1) {h : S → ℝ} {lo hi : ℝ}
    (hb : ∀ x, lo ≤ h x ∧ h x ≤ hi) (x : S) : lo ≤ Q.mulVec h x ∧ Q.mulVec h x ≤ hi := by
  simp only [Matrix.mulVec, dotProduct]
  have e1 : lo = ∑ y, Q x y * lo := by rw [← sum_mul, h1, one_mul]
  have e2 : hi = ∑ y, Q x y * hi := by rw [← sum_mul, h1, one_mul]
  constructor
  · rw [e1]; exact sum_le_sum fun y _ => mul_le_mul_of_nonneg_left (hb y).1 (h0 x y)
  · rw [e2]; exact sum_le_sum fun y _ => mul_le_mul_of_nonneg_left (hb y).2 (h0 x y)

/-- Averages with weights of at least `δ` bring the bounds together. -/
theorem mulVec_contract [Nonempty S] {Q : Matrix S S ℝ} {δ : ℝ} (hδ : 0 ≤ δ) (hQ : ∀ x y, δ ≤ Q x y)
    (h1 : ∀ x, ∑ y, Q x y = 1) {h : S → ℝ} {lo hi : ℝ} (hb : ∀ x, lo ≤ h x ∧ h x ≤ hi) :
    ∃ lo' hi', hi' - lo' = (1 - δ) * (hi - lo) ∧ ∀ x, lo' ≤ Q.mulVec h x ∧ Q.mulVec h x ≤ hi' := by
  obtain ⟨y0⟩ := ‹Nonempty S›
  refine ⟨lo + δ * (h y0 - lo), hi - δ * (hi - h y0), by ring, fun x => ?_⟩
  simp only [Matrix.mulVec, dotProduct]
  have e1 : (∑ y, Q x y * h y) - lo = ∑ y, Q x y * (h y - lo) := by
    simp only [mul_sub, sum_sub_distrib, ← sum_mul, h1, one_mul]
  have e2 : hi - (∑ y, Q x y * h y) = ∑ y, Q x y * (hi - h y) := by
    simp only [mul_sub, sum_sub_distrib, ← sum_mul, h1, one_mul]
  have f1 : δ * (h y0 - lo) ≤ ∑ y, Q x y * (h y - lo) :=
    (mul_le_mul_of_nonneg_right (hQ x y0) (sub_nonneg.2 (hb y0).1)).trans
      (single_le_sum (f := fun y => Q x y * (h y - lo))
        (fun y _ => mul_nonneg (hδ.trans (hQ x y)) (sub_nonneg.2 (hb y).1)) (mem_univ y0))
  have f2 : δ * (hi - h y0) ≤ ∑ y, Q x y * (hi - h y) :=
    (mul_le_mul_of_nonneg_right (hQ x y0) (sub_nonneg.2 (hb y0).2)).trans
      (single_le_sum (f := fun y => Q x y * (hi - h y))
        (fun y _ => mul_nonneg (hδ.trans (hQ x y)) (sub_nonneg.2 (hb y).2)) (mem_univ y0))
  constructor <;> linarith

/-- After `t` averages the bounds have come together `t / N` times. -/
theorem pow_mulVec_bounds [Nonempty S] {P : Matrix S S ℝ} (h0 : ∀ x y, 0 ≤ P x y) (h1 : ∀ x, ∑ y, P x y = 1) {N : Nat}
    {δ : ℝ} (hδ : 0 ≤ δ) (hQ : ∀ x y, δ ≤ (P ^ N) x y) {h : S → ℝ} {lo hi : ℝ}
    (hb : ∀ x, lo ≤ h x ∧ h x ≤ hi) (t : Nat) :
    ∃ lo' hi', hi' - lo' = (1 - δ) ^ (t / N) * (hi - lo) ∧ ∀ x, lo' ≤ (P ^ t).mulVec h x ∧ (P ^ t).mulVec h x ≤ hi' := by
  have key : ∀ k : Nat, ∃ lo' hi', hi' - lo' = (1 - δ) ^ k * (hi - lo) ∧
      ∀ x, lo' ≤ (P ^ (N * k)).mulVec h x ∧ (P ^ (N * k)).mulVec h x ≤ hi' := by
    intro k
    induction k with
    | zero => exact ⟨lo, hi, by simp, fun x => by simpa using hb x⟩
    | succ k ih =>
      obtain ⟨lo', hi', e, hb'⟩ := ih
      obtain ⟨lo2, hi2, e2, hb2⟩ := mulVec_contract hδ hQ (pow_entry_sum h1 N) hb'
      refine ⟨lo2, hi2, by rw [e2, e]; ring, fun x => ?_⟩
      rw [Nat.mul_succ, add_comm, pow_add, ← Matrix.mulVec_mulVec]
      exact hb2 x
  obtain ⟨lo', hi', e, hb'⟩ := key (t / N)
  refine ⟨lo', hi', e, fun x => ?_⟩
  have ht : t = t % N + N * (t / N) := (Nat.mod_add_div t N).symm
  have := mulVec_bounds (pow_entry_nonneg h0 (t % N)) (pow_entry_sum h1 (t % N)) hb' x
  rw [Matrix.mulVec_mulVec, ← pow_add, ← ht] at this
  exact this

/-! ### Convergence -/

theorem lawAfter_sum (step : M → ℝ → S → S) (tot : ∀ x, ∑ y, stepProb step x y = 1) (μ : S → ℝ) (hμ : ∑ x, μ x = 1) :
    ∀ t, ∑ y, lawAfter step μ t y = 1 := by
  intro t
  induction t with
  | zero => exact hμ
  | succ t ih =>
    simp only [lawAfter]
    rw [sum_comm]
    simp only [← mul_sum, tot, mul_one]
    exact ih

theorem lawAfter_ratio (step : M → ℝ → S → S) (w : S → ℝ) (hw : ∀ x, 0 < w x)
    (rev : ∀ x y, w x * stepProb step x y = w y * stepProb step y x) (μ : S → ℝ) :
    ∀ t y, lawAfter step μ t y / w y = ((Matrix.of (stepProb step)) ^ t).mulVec (fun x => μ x / w x) y := by
  intro t
  induction t with
  | zero => intro y; simp [lawAfter]
  | succ t ih =>
    intro y
    rw [pow_succ', ← Matrix.mulVec_mulVec]
    simp only [lawAfter, sum_div]
    rw [Matrix.mulVec, dotProduct]
    refine sum_congr rfl fun x _ => ?_
    rw [← ih x, Matrix.of_apply]
    have hx := (hw x).ne'
    have hy := (hw y).ne'
    have hr := rev x y
    field_simp
    linear_combination lawAfter step μ t x * hr

/-- The law approaches the stationary one at a geometric rate, whatever the first solution. -/
theorem geometric [Nonempty S] (step : M → ℝ → S → S) (w : S → ℝ) (hw : ∀ x, 0 < w x) (hst : Stationary step w)
    (hc : ∀ x y, Relation.ReflTransGen (fun a b => 0 < stepProb step a b) x y) (s : S) (hs : 0 < stepProb step s s) :
    ∃ (N : Nat) (C ρ : ℝ), 0 < N ∧ 0 ≤ ρ ∧ ρ < 1 ∧ ∀ μ : S → ℝ, (∀ x, 0 ≤ μ x) → ∑ x, μ x = 1 →
      ∀ t x, |lawAfter step μ t x - w x / ∑ y, w y| ≤ C * ρ ^ (t / N) := by
  obtain ⟨rev, tot, -⟩ := hst
  obtain ⟨N, hN, hpos⟩ := pow_positive (P := Matrix.of (stepProb step)) (stepProb_nonneg step) hc hs
  obtain ⟨p, -, hp⟩ := exists_min_image (univ : Finset (S × S)) (fun p => ((Matrix.of (stepProb step)) ^ N) p.1 p.2)
    univ_nonempty
  have hδ := hpos p.1 p.2
  have hQ : ∀ x y, ((Matrix.of (stepProb step)) ^ N) p.1 p.2 ≤ ((Matrix.of (stepProb step)) ^ N) x y := fun x y =>
    hp (x, y) (mem_univ _)
  have hδ1 : ((Matrix.of (stepProb step)) ^ N) p.1 p.2 ≤ 1 := by
    rw [← pow_entry_sum (P := Matrix.of (stepProb step)) tot N p.1]
    exact single_le_sum (f := fun y => ((Matrix.of (stepProb step)) ^ N) p.1 y) (fun y _ => (hpos p.1 y).le) (mem_univ p.2)
  have hW : 0 < ∑ y, w y := sum_pos (fun y _ => hw y) univ_nonempty
  refine ⟨N, (∑ y, w y) * ∑ y, 1 / w y, 1 - ((Matrix.of (stepProb step)) ^ N) p.1 p.2, hN, by linarith, by linarith, ?_⟩
  intro μ hμ0 hμ1 t x
  have hb : ∀ x, (0 : ℝ) ≤ μ x / w x ∧ μ x / w x ≤ ∑ y, 1 / w y := by
    intro x
    refine ⟨div_nonneg (hμ0 x) (hw x).le, ?_⟩
    have h1 : μ x ≤ 1 := by rw [← hμ1]; exact single_le_sum (f := μ) (fun y _ => hμ0 y) (mem_univ x)
    refine (div_le_div_of_nonneg_right h1 (hw x).le).trans ?_
    exact single_le_sum (f := fun y => 1 / w y) (fun y _ => (one_div_pos.2 (hw y)).le) (mem_univ x)
  obtain ⟨lo, hi, e, hlh⟩ := pow_mulVec_bounds (P := Matrix.of (stepProb step)) (stepProb_nonneg step) tot hδ.le hQ hb t
  simp only [← lawAfter_ratio step w hw rev μ t] at hlh
  have hl : ∀ y, lo * w y ≤ lawAfter step μ t y ∧ lawAfter step μ t y ≤ hi * w y := fun y =>
    ⟨(le_div_iff₀ (hw y)).1 (hlh y).1, (div_le_iff₀ (hw y)).1 (hlh y).2⟩
  have s1 := lawAfter_sum step tot μ hμ1 t
  have b1 : lo * ∑ y, w y ≤ 1 := by rw [mul_sum, ← s1]; exact sum_le_sum fun y _ => (hl y).1
  have b2 : 1 ≤ hi * ∑ y, w y := by rw [mul_sum, ← s1]; exact sum_le_sum fun y _ => (hl y).2
  have c1 : lo ≤ 1 / ∑ y, w y := (le_div_iff₀ hW).2 b1
  have c2 : 1 / ∑ y, w y ≤ hi := (div_le_iff₀ hW).2 b2
  have d1 : lo * w x ≤ w x / ∑ y, w y := by
    rw [div_eq_mul_one_div, mul_comm]; exact mul_le_mul_of_nonneg_left c1 (hw x).le
  have d2 : w x / ∑ y, w y ≤ hi * w x := by
    rw [div_eq_mul_one_div, mul_comm hi]; exact mul_le_mul_of_nonneg_left c2 (hw x).le
  have hwx : w x ≤ ∑ y, w y := single_le_sum (f := w) (fun y _ => (hw y).le) (mem_univ x)
  have hosc : 0 ≤ hi - lo := by linarith
  have : |lawAfter step μ t x - w x / ∑ y, w y| ≤ (hi - lo) * w x := by
    rw [abs_le]
    have := (hl x).1
    have := (hl x).2
    constructor <;> nlinarith
  refine this.trans ((mul_le_mul_of_nonneg_left hwx hosc).trans (le_of_eq ?_))
  rw [e, sub_zero]
  ring

theorem tends_of_geometric {a : Nat → ℝ} {l C ρ : ℝ} {N : Nat} (hN : 0 < N) (h0 : 0 ≤ ρ) (h1 : ρ < 1)
    (h : ∀ t, |a t - l| ≤ C * ρ ^ (t / N)) : Tendsto a atTop (𝓝 l) := by
  have h2 : Tendsto (fun t => C * ρ ^ (t / N)) atTop (𝓝 (C * 0)) :=
    ((tendsto_pow_atTop_nhds_zero_of_lt_one h0 h1).comp (Nat.tendsto_div_const_atTop hN.ne')).const_mul C
  rw [mul_zero] at h2
  rw [tendsto_iff_dist_tendsto_zero]
  exact squeeze_zero (fun _ => dist_nonneg) (fun t => by rw [Real.dist_eq]; exact h t) h2

/-- If the weights are not all equal and the moves connect, some solution may stay. -/
theorem exists_stay [Nonempty M] (app : M → S → S) (hcon : ConnectedMoves app) (w : S → ℝ) (hw : ∀ x, 0 < w x)
    (hne : ∃ x y, w x ≠ w y) (step : M → ℝ → S → S)
    (hstep : ∀ m u x, 0 ≤ u → u < 1 → step m u x = if u < min 1 (w (app m x) / w x) then app m x else x) :
    ∃ s, 0 < stepProb step s s := by
  have hM : (0 : ℝ) < Fintype.card M := by exact_mod_cast Fintype.card_pos
  have : ∃ s m, w (app m s) < w s := by
    by_contra hno
    push Not at hno
    have mono : ∀ x y, w x ≤ w y := by
      intro x y
      induction hcon x y with
      | refl => exact le_rfl
      | tail _ hbc ih =>
        obtain ⟨m, rfl⟩ := hbc
        exact ih.trans (hno _ m)
    obtain ⟨x, y, hxy⟩ := hne
    exact hxy (le_antisymm (mono x y) (mono y x))
  obtain ⟨s, m, hlt⟩ := this
  refine ⟨s, div_pos (sum_pos' (fun _ _ => measureReal_nonneg) ⟨m, mem_univ m, ?_⟩) hM⟩
  have h1 : w (app m s) / w s < 1 := (div_lt_one (hw s)).2 hlt
  have hα0 : 0 ≤ min 1 (w (app m s) / w s) := le_min zero_le_one (div_nonneg (hw _).le (hw _).le)
  have hα1 : min 1 (w (app m s) / w s) < 1 := lt_of_le_of_lt (min_le_right _ _) h1
  rw [measure_step _ hα0 hα1.le (app m s) s s _ (fun u a b => hstep m u s a b), if_pos (rfl : s = s)]
  split_ifs <;> linarith

theorem limit_of_metropolis [Nonempty M] (app : M → S → S) (hcon : ConnectedMoves app) (w : S → ℝ)
    (hw : ∀ x, 0 < w x) (hne : ∃ x y, w x ≠ w y) (step : M → ℝ → S → S)
    (hstep : ∀ m u x, 0 ≤ u → u < 1 → step m u x = if u < min 1 (w (app m x) / w x) then app m x else x)
    (hst : Stationary step w) (μ : S → ℝ) (hμ0 : ∀ x, 0 ≤ μ x) (hμ1 : ∑ x, μ x = 1) (x : S) :
    Tendsto (fun t => lawAfter step μ t x) atTop (𝓝 (w x / ∑ y, w y)) := by
  obtain ⟨s, hs⟩ := exists_stay app hcon w hw hne step hstep
  haveI : Nonempty S := ⟨s⟩
  have hc : ∀ x y, Relation.ReflTransGen (fun a b => 0 < stepProb step a b) x y := fun a b => by
    refine Relation.ReflTransGen.mono ?_ _ _ (hcon a b)
    rintro a b ⟨m, rfl⟩
    exact stepProb_pos app w hw step hstep m a
  obtain ⟨N, C, ρ, hN, h0, h1, h⟩ := geometric step w hw hst hc s hs
  exact tends_of_geometric hN h0 h1 fun t => h μ hμ0 hμ1 t x

/-! ### The law of the runs -/

/-- The solution after `t` iterations from `x` with the moves `ms` and the numbers `us`. -/
def runTo (step : M → ℝ → S → S) : (t : Nat) → (Fin t → M) → (Fin t → ℝ) → S → S
  | 0, _, _, x => x
  | t + 1, ms, us, x => step (ms (Fin.last t)) (us (Fin.last t)) (runTo step t (fun i => ms i.castSucc) (fun i => us i.castSucc) x)

/-- The probability that `t` iterations lead from `x` to `y`: all moves drawn uniformly and independently, and all numbers
uniformly in `[0, 1)` and independently. -/
noncomputable def runProb (step : M → ℝ → S → S) (t : Nat) (x y : S) : ℝ :=
  (∑ ms : Fin t → M, volume.real {us : Fin t → ℝ | (∀ i, 0 ≤ us i ∧ us i < 1) ∧ runTo step t ms us x = y}) /
    (Fintype.card M : ℝ) ^ t

theorem run_set (step : M → ℝ → S → S) (t : Nat) (ms : Fin (t + 1) → M) (x y : S) :
    {us : Fin (t + 1) → ℝ | (∀ i, 0 ≤ us i ∧ us i < 1) ∧ runTo step (t + 1) ms us x = y} =
      (MeasurableEquiv.piFinSuccAbove (fun _ => ℝ) (Fin.last t)) ⁻¹'
        (⋃ z ∈ (univ : Finset S), {u : ℝ | 0 ≤ u ∧ u < 1 ∧ step (ms (Fin.last t)) u z = y} ×ˢ
          {us : Fin t → ℝ | (∀ i, 0 ≤ us i ∧ us i < 1) ∧ runTo step t (fun i => ms i.castSucc) us x = z}) := by
  ext us
  have hr : (Fin.last t).removeNth us = fun i => us i.castSucc := by
    funext i; simp [Fin.removeNth]
  simp only [Set.mem_setOf_eq, Set.mem_preimage, MeasurableEquiv.piFinSuccAbove_apply, Fin.insertNthEquiv_symm_apply,
    Set.mem_iUnion, Set.mem_prod, mem_univ, exists_prop, true_and, hr, runTo]
  constructor
  · rintro ⟨h1, h2⟩
    exact ⟨_, ⟨(h1 _).1, (h1 _).2, h2⟩, fun i => h1 _, rfl⟩
  · rintro ⟨z, ⟨a, b, c⟩, d, rfl⟩
    refine ⟨fun i => ?_, c⟩
    induction i using Fin.lastCases with
    | last => exact ⟨a, b⟩
    | cast i => exact d i

theorem run_measurable (step : M → ℝ → S → S)
    (hm : ∀ m x y, MeasurableSet {u : ℝ | 0 ≤ u ∧ u < 1 ∧ step m u x = y}) (x : S) :
    ∀ (t : Nat) (ms : Fin t → M) (y : S),
      MeasurableSet {us : Fin t → ℝ | (∀ i, 0 ≤ us i ∧ us i < 1) ∧ runTo step t ms us x = y} := by
  intro t
  induction t with
  | zero => intro ms y; exact Subsingleton.measurableSet
  | succ t ih =>
    intro ms y
    rw [run_set]
    exact (MeasurableEquiv.measurable _) (Finset.measurableSet_biUnion _ fun z _ => (hm _ _ _).prod (ih _ _))

theorem run_finite (step : M → ℝ → S → S) (t : Nat) (ms : Fin t → M) (x y : S) :
    volume {us : Fin t → ℝ | (∀ i, 0 ≤ us i ∧ us i < 1) ∧ runTo step t ms us x = y} ≠ ⊤ := by
  refine ne_top_of_le_ne_top ?_ (measure_mono (t := Set.pi Set.univ fun _ => Set.Ico (0 : ℝ) 1) ?_)
  · rw [volume_pi_pi]; simp
  · rintro us ⟨h, -⟩ i _
    exact h i

theorem step_finite (step : M → ℝ → S → S) (m : M) (x y : S) : volume {u : ℝ | 0 ≤ u ∧ u < 1 ∧ step m u x = y} ≠ ⊤ := by
  refine ne_top_of_le_ne_top ?_ (measure_mono (t := Set.Ico (0 : ℝ) 1) ?_)
  · simp
  · rintro u ⟨a, b, -⟩; exact ⟨a, b⟩

theorem run_volume (step : M → ℝ → S → S)
    (hm : ∀ m x y, MeasurableSet {u : ℝ | 0 ≤ u ∧ u < 1 ∧ step m u x = y}) (t : Nat) (ms : Fin (t + 1) → M) (x y : S) :
    volume.real {us : Fin (t + 1) → ℝ | (∀ i, 0 ≤ us i ∧ us i < 1) ∧ runTo step (t + 1) ms us x = y} =
      ∑ z, volume.real {u : ℝ | 0 ≤ u ∧ u < 1 ∧ step (ms (Fin.last t)) u z = y} *
        volume.real {us : Fin t → ℝ | (∀ i, 0 ≤ us i ∧ us i < 1) ∧ runTo step t (fun i => ms i.castSucc) us x = z} := by
  rw [run_set, Measure.real, (volume_preserving_piFinSuccAbove (fun _ => ℝ) (Fin.last t)).measure_preimage_equiv,
    measure_biUnion_finset, ENNReal.toReal_sum]
  · refine sum_congr rfl fun z _ => ?_
    rw [Measure.volume_eq_prod, Measure.prod_prod, ENNReal.toReal_mul]
    rfl
  · intro z _
    rw [Measure.volume_eq_prod, Measure.prod_prod]
    exact ENNReal.mul_ne_top (step_finite step _ _ _) (run_finite step t _ _ _)
  · intro a _ b _ hab
    rw [Function.onFun, Set.disjoint_left]
    rintro ⟨u, us⟩ ⟨-, h1⟩ ⟨-, h2⟩
    exact hab (h1.2.symm.trans h2.2)
  · intro z _
    exact (hm _ _ _).prod (run_measurable step hm x t _ _)

theorem run_law (step : M → ℝ → S → S)
    (hm : ∀ m x y, MeasurableSet {u : ℝ | 0 ≤ u ∧ u < 1 ∧ step m u x = y}) (x : S) :
    ∀ t y, runProb step t x y = lawAfter step (fun z => if z = x then 1 else 0) t y := by
  intro t
  induction t with
  | zero =>
    intro y
    simp only [runProb, lawAfter, pow_zero, div_one, univ_unique, sum_singleton, runTo]
    by_cases h : x = y
    · subst h
      simp [Measure.real, volume_pi]
    · simp [h, Ne.symm h]
  | succ t ih =>
    intro y
    simp only [lawAfter, ← ih, runProb, stepProb]
    simp only [run_volume step hm]
    rw [← (Fin.insertNthEquiv (fun _ => M) (Fin.last t)).sum_comp, Fintype.sum_prod_type]
    simp only [Fin.insertNthEquiv_apply, Fin.insertNth_apply_same, Fin.insertNth_last', Fin.snoc_last, Fin.snoc_castSucc]
    simp only [div_mul_div_comm, ← sum_div, pow_succ]
    congr 1
    rw [sum_congr rfl fun m _ => sum_comm, sum_comm]
    refine sum_congr rfl fun z _ => ?_
    rw [mul_comm, sum_mul]
    refine sum_congr rfl fun m _ => ?_
    rw [mul_sum]

/-- A step of a walk of C375 is measurable in the number drawn. -/
theorem step_measurable (app : M → S → S) (w : S → ℝ) (step : M → ℝ → S → S)
    (hstep : ∀ m u x, 0 ≤ u → u < 1 → step m u x = if u < min 1 (w (app m x) / w x) then app m x else x) (m : M) (x y : S) :
    MeasurableSet {u : ℝ | 0 ≤ u ∧ u < 1 ∧ step m u x = y} := by
  have : {u : ℝ | 0 ≤ u ∧ u < 1 ∧ step m u x = y} = Set.Ico 0 1 ∩
      ((Set.Iio (min 1 (w (app m x) / w x)) ∩ {_u | app m x = y}) ∪ (Set.Ici (min 1 (w (app m x) / w x)) ∩ {_u | x = y})) := by
    ext u
    simp only [Set.mem_setOf_eq, Set.mem_inter_iff, Set.mem_Ico, Set.mem_union, Set.mem_Iio, Set.mem_Ici]
    constructor
    · rintro ⟨a, b, c⟩
      rw [hstep m u x a b] at c
      refine ⟨⟨a, b⟩, ?_⟩
      by_cases h : u < min 1 (w (app m x) / w x)
      · rw [if_pos h] at c; exact Or.inl ⟨h, c⟩
      · rw [if_neg h] at c; exact Or.inr ⟨not_lt.1 h, c⟩
    · rintro ⟨⟨a, b⟩, h⟩
      refine ⟨a, b, ?_⟩
      rw [hstep m u x a b]
      rcases h with ⟨h, c⟩ | ⟨h, c⟩
      · rw [if_pos h, c]
      · rw [if_neg (not_lt.2 h), c]
  rw [this]
  exact measurableSet_Ico.inter ((measurableSet_Iio.inter (MeasurableSet.const _)).union
    (measurableSet_Ici.inter (MeasurableSet.const _)))

/-- **C383** (what the probabilities are about): `runTo` of one iteration is the solution of the run of the annealing, for every
schedule that leaves the temperature as it is. -/
theorem C383_annealing_run {C : Type} (better : ℝ → ℝ → Prop) (cool : Cooling C) (hcool : ∀ s b, (cool.update s b).1 = s.1)
    (f : S → ℝ) (app : M → S → S) (e : SA M C) (ms : Nat → M) (u : Nat → ℝ) (x : S) (t : Nat) :
    let q := orbit (saExplorer better cool u (fun t s => [⟨ms t, f (app (ms t) s.1)⟩]) app) 0 ((x, f x), e) t
    q.2.temp.1 = e.temp.1 ∧
      q.1 = (runTo (saStep better cool f app e) t (fun i => ms i) (fun i => u i) x,
        f (runTo (saStep better cool f app e) t (fun i => ms i) (fun i => u i) x)) := by
  induction t with
  | zero => exact ⟨rfl, rfl⟩
  | succ t ih =>
    obtain ⟨h1, h2⟩ := ih
    simp only [orbit, Nat.zero_add, runTo, saStep_eq, Fin.val_last, Fin.val_castSucc] at h1 h2 ⊢
    generalize orbit (saExplorer better cool u (fun t s => [⟨ms t, f (app (ms t) s.1)⟩]) app) 0 ((x, f x), e) t = p at h1 h2 ⊢
    obtain ⟨sol, st⟩ := p
    simp only at h1 h2
    subst h2
    simp only [stepTo, lsStep, saExplorer, moveSel, h1]
    split <;> simp_all

/-- The simple schedule with the factor 1 leaves the temperature as it is. -/
example (t0 final : ℝ) (span : Nat) (s : ℝ × Nat) (b : Bool) : ((simpleCooling t0 1 final span).update s b).1 = s.1 := by
  simp only [simpleCooling]
  split <;> simp

/-- **C383** (the same for the Metropolis-Hastings walk). -/
theorem C383_metropolis_run (nbStep : Nat) (f : S → ℝ) (app : M → S → S) (e : HC M ℝ) (ms : Nat → M) (u : Nat → ℝ) (x : S)
    (t : Nat) :
    (orbit (mhExplorer nbStep u (fun t s => [⟨ms t, f (app (ms t) s.1)⟩]) app) 0 ((x, f x), e) t).1 =
      (runTo (mhStep nbStep f app e) t (fun i => ms i) (fun i => u i) x,
        f (runTo (mhStep nbStep f app e) t (fun i => ms i) (fun i => u i) x)) := by
  induction t with
  | zero => rfl
  | succ t ih =>
    simp only [orbit, Nat.zero_add, runTo, mhStep_eq, Fin.val_last, Fin.val_castSucc] at ih ⊢
    generalize orbit (mhExplorer nbStep u (fun t s => [⟨ms t, f (app (ms t) s.1)⟩]) app) 0 ((x, f x), e) t = p at ih ⊢
    obtain ⟨sol, st⟩ := p
    simp only at ih
    subst ih
    simp only [stepTo, lsStep, mhExplorer, moveSel]
    split <;> simp_all

theorem run_limit [Nonempty M] (app : M → S → S) (hcon : ConnectedMoves app) (w : S → ℝ)
    (hw : ∀ x, 0 < w x) (hne : ∃ x y, w x ≠ w y) (step : M → ℝ → S → S)
    (hstep : ∀ m u x, 0 ≤ u → u < 1 → step m u x = if u < min 1 (w (app m x) / w x) then app m x else x)
    (hst : Stationary step w) (x y : S) :
    Tendsto (fun t => runProb step t x y) atTop (𝓝 (w y / ∑ z, w z)) := by
  simp only [run_law step (step_measurable app w step hstep)]
  exact limit_of_metropolis app hcon w hw hne step hstep hst _ (fun z => by split <;> norm_num) (by simp) y

/-- **C383** (simulated annealing at a fixed temperature, maximising): whatever the starting solution `x`, the probability that
the solution after `t` iterations is `y` tends to the one proportional to `exp(f y/T)`. -/
theorem C383_annealing [Nonempty M] {C : Type} (cool : Cooling C) (f : S → ℝ) (app : M → S → S) (hs : SymmetricMoves app)
    (hcon : ConnectedMoves app) (hf : ∃ x y, f x ≠ f y) (e : SA M C) (hT : 0 < e.temp.1) (x y : S) :
    Tendsto (fun t => runProb (saStep (· < ·) cool f app e) t x y) atTop
      (𝓝 (Real.exp (f y / e.temp.1) / ∑ z, Real.exp (f z / e.temp.1))) := by
  refine run_limit app hcon (fun x => Real.exp (f x / e.temp.1)) (fun _ => Real.exp_pos _) ?_ _
    (saStep_max cool f app e hT) (C375_annealing cool f app hs e hT) x y
  obtain ⟨a, b, hab⟩ := hf
  exact ⟨a, b, fun h => hab ((div_left_inj' hT.ne').1 (Real.exp_injective h))⟩

/-- **C383** (minimising). -/
theorem C383_annealing_min [Nonempty M] {C : Type} (cool : Cooling C) (f : S → ℝ) (app : M → S → S) (hs : SymmetricMoves app)
    (hcon : ConnectedMoves app) (hf : ∃ x y, f x ≠ f y) (e : SA M C) (hT : 0 < e.temp.1) (x y : S) :
    Tendsto (fun t => runProb (saStep (· > ·) cool f app e) t x y) atTop
      (𝓝 (Real.exp (- f y / e.temp.1) / ∑ z, Real.exp (- f z / e.temp.1))) := by
  refine run_limit app hcon (fun x => Real.exp (- f x / e.temp.1)) (fun _ => Real.exp_pos _) ?_ _
    (saStep_min cool f app e hT) (C375_annealing_min cool f app hs e hT) x y
  obtain ⟨a, b, hab⟩ := hf
  exact ⟨a, b, fun h => hab (neg_injective ((div_left_inj' hT.ne').1 (Real.exp_injective h)))⟩

/-- **C383** (Metropolis-Hastings walk on positive fitness values). -/
theorem C383_metropolis [Nonempty M] (nbStep : Nat) (f : S → ℝ) (hf : ∀ x, 0 < f x) (hne : ∃ x y, f x ≠ f y)
    (app : M → S → S) (hs : SymmetricMoves app) (hcon : ConnectedMoves app) (e : HC M ℝ) (x y : S) :
    Tendsto (fun t => runProb (mhStep nbStep f app e) t x y) atTop (𝓝 (f y / ∑ z, f z)) :=
  run_limit app hcon f hf hne _ (mhStep_form nbStep f hf app e) (C375_metropolis nbStep f hf app hs e) x y

theorem alternates (nbStep : Nat) (e : HC Unit ℝ) (t : Nat) (x : Bool) :
    lawAfter (mhStep nbStep (fun _ : Bool => (1 : ℝ)) (fun (_ : Unit) b => !b) e) (fun b => if b = true then 1 else 0) t x =
      if x = (t % 2 == 0) then 1 else 0 := by
  have h : ∀ x z : Bool, stepProb (mhStep nbStep (fun _ : Bool => (1 : ℝ)) (fun (_ : Unit) b => !b) e) x z =
      if z = !x then 1 else 0 := by
    intro x z
    unfold stepProb
    have e1 : {u : ℝ | 0 ≤ u ∧ u < 1} = Set.Ico 0 1 := rfl
    have : {u : ℝ | 0 ≤ u ∧ u < 1 ∧ mhStep nbStep (fun _ : Bool => (1 : ℝ)) (fun (_ : Unit) b => !b) e () u x = z} =
        if z = !x then Set.Ico 0 1 else ∅ := by
      ext u
      by_cases hz : z = !x
      · rw [if_pos hz]
        constructor
        · rintro ⟨a, b, -⟩; exact ⟨a, b⟩
        · rintro ⟨a, b⟩
          refine ⟨a, b, ?_⟩
          rw [mhStep_form nbStep _ (fun _ => one_pos) _ e () u x a b, if_pos (by simpa using b), hz]
      · rw [if_neg hz]
        simp only [Set.mem_setOf_eq, Set.mem_empty_iff_false, iff_false]
        rintro ⟨a, b, c⟩
        rw [mhStep_form nbStep _ (fun _ => one_pos) _ e () u x a b, if_pos (by simpa using b)] at c
        exact hz c.symm
    simp only [univ_unique, PUnit.default_eq_unit, sum_singleton, this]
    by_cases hz : z = !x
    · simp [hz]
    · simp [hz]
  induction t generalizing x with
  | zero => cases x <;> simp [lawAfter]
  | succ t ih =>
    simp only [lawAfter, ih, h]
    rcases Nat.mod_two_eq_zero_or_one t with h2 | h2
    · have : (t + 1) % 2 = 1 := by omega
      cases x <;> simp [h2, this]
    · have : (t + 1) % 2 = 0 := by omega
      cases x <;> simp [h2, this]

/-- **C383** With a constant fitness it may be false: two solutions and the move between them, the walk alternates for ever. -/
theorem C383_needs_variation (nbStep : Nat) (e : HC Unit ℝ) (t : Nat) (x : Bool) :
    runProb (mhStep nbStep (fun _ : Bool => (1 : ℝ)) (fun (_ : Unit) b => !b) e) t true x = if x = (t % 2 == 0) then 1 else 0 := by
  rw [run_law _ (step_measurable (fun (_ : Unit) b => !b) (fun _ => (1 : ℝ)) _ (mhStep_form nbStep _ (fun _ => one_pos) _ e))]
  exact alternates nbStep e t x

/-- Three bits, the fitness is the number of ones plus one, the move flips a bit: a string of all ones has probability 4/20 in
the limit. -/
example (nbStep : Nat) (e : HC (Fin 3) ℝ) (x : Fin 3 → Bool) :
    Tendsto (fun t => runProb (mhStep nbStep (fun x : Fin 3 → Bool => 1 + ∑ i, if x i then (1 : ℝ) else 0)
      (fun i x => Function.update x i (!x i)) e) t x (fun _ => true)) atTop (𝓝 (1 / 5)) := by
  have h := C383_metropolis (M := Fin 3) nbStep (fun x : Fin 3 → Bool => 1 + ∑ i, if x i then (1 : ℝ) else 0)
    (fun x => add_pos_of_pos_of_nonneg one_pos (sum_nonneg fun i _ => by split <;> norm_num))
    ⟨fun _ => true, fun _ => false, by norm_num⟩ (fun i x => Function.update x i (!x i))
    (C375_involutive _ flip_flip) (flip_connected 3) e x (fun _ => true)
  convert h using 2
  have : ∑ z : Fin 3 → Bool, (1 + ∑ i, if z i then (1 : ℝ) else 0) = 20 := by
    rw [sum_add_distrib, sum_comm]
    have : ∀ i : Fin 3, ∑ z : Fin 3 → Bool, (if z i then (1 : ℝ) else 0) = 4 := by
      intro i
      rw [← sum_filter, sum_const, nsmul_eq_mul, mul_one]
      have : (univ.filter fun z : Fin 3 → Bool => z i = true).card = 4 := by revert i; decide
      rw [this]; norm_num
    simp only [this]
    norm_num
  rw [this]
  norm_num

end Paradiseo.LS
