import Verif.Model.EdoCMA
import Verif.Lemmas.EdoCholesky
import Mathlib.Algebra.Order.Chebyshev
import Mathlib.Algebra.BigOperators.Field
import Mathlib.Analysis.Matrix.Spectrum

namespace Paradiseo.Edo

open Finset

/-! ### Weights -/

theorem rawWeight_pos {lam i : Nat} (h : i < lam) : 0 < rawWeight lam i := by
  unfold rawWeight
  have h1 : ((i : ℝ) + 1) ≤ lam := by exact_mod_cast h
  have := Real.log_lt_log (x := (i : ℝ) + 1) (y := lam + 1 / 2) (by positivity) (by linarith)
  linarith

theorem rawWeight_anti {lam i j : Nat} (h : i < j) : rawWeight lam j < rawWeight lam i := by
  unfold rawWeight
  have h1 : (i : ℝ) < j := by exact_mod_cast h
  have := Real.log_lt_log (x := (i : ℝ) + 1) (y := j + 1) (by positivity) (by linarith)
  linarith

theorem rawSum_pos {lam : Nat} (h : 0 < lam) : 0 < ∑ k ∈ range lam, rawWeight lam k :=
  sum_pos (fun _ hk => rawWeight_pos (mem_range.mp hk)) ⟨0, mem_range.mpr h⟩

theorem weight_pos {lam i : Nat} (h : i < lam) : 0 < weight lam i :=
  div_pos (rawWeight_pos h) (rawSum_pos (by omega))

theorem weight_sum {lam : Nat} (h : 0 < lam) : ∑ i ∈ range lam, weight lam i = 1 := by
  unfold weight
  rw [← sum_div, div_self (rawSum_pos h).ne']

theorem weight_le_one {lam i : Nat} (h : i < lam) : weight lam i ≤ 1 := by
  rw [← weight_sum (lam := lam) (by omega)]
  exact single_le_sum (f := weight lam) (fun k hk => (weight_pos (mem_range.mp hk)).le) (mem_range.mpr h)

theorem weightSq_pos {lam : Nat} (h : 0 < lam) : 0 < ∑ i ∈ range lam, weight lam i ^ 2 :=
  sum_pos (fun _ hk => pow_pos (weight_pos (mem_range.mp hk)) 2) ⟨0, mem_range.mpr h⟩

theorem mueff_ge_one {lam : Nat} (h : 0 < lam) : 1 ≤ mueff lam := by
  unfold mueff
  rw [weight_sum h, one_pow, le_div_iff₀ (weightSq_pos h), one_mul, ← weight_sum h]
  apply sum_le_sum
  intro i hi
  have h1 := weight_pos (mem_range.mp hi)
  have h2 := weight_le_one (mem_range.mp hi)
  nlinarith

theorem mueff_le {lam : Nat} (h : 0 < lam) : mueff lam ≤ lam := by
  unfold mueff
  rw [div_le_iff₀ (weightSq_pos h)]
  have := sq_sum_le_card_mul_sum_sq (s := range lam) (f := weight lam)
  simpa using this

/-- The effective number of individuals grows without bound. -/
theorem mueff_lower {lam : Nat} (h : 0 < lam) :
    (∑ i ∈ range lam, rawWeight lam i) / rawWeight lam 0 ≤ mueff lam := by
  have hS := rawSum_pos h
  have h0 := rawWeight_pos h
  unfold mueff
  rw [weight_sum h, one_pow]
  have e : ∑ i ∈ range lam, weight lam i ^ 2 =
      (∑ i ∈ range lam, rawWeight lam i ^ 2) / (∑ k ∈ range lam, rawWeight lam k) ^ 2 := by
    unfold weight
    rw [sum_div]
    exact sum_congr rfl fun i _ => by rw [div_pow]
  have hsq : ∑ i ∈ range lam, rawWeight lam i ^ 2 ≤ rawWeight lam 0 * ∑ k ∈ range lam, rawWeight lam k := by
    rw [mul_sum]
    apply sum_le_sum
    intro i hi
    have hi' := rawWeight_pos (mem_range.mp hi)
    have : rawWeight lam i ≤ rawWeight lam 0 := by
      rcases Nat.eq_zero_or_pos i with rfl | hpos
      · exact le_refl _
      · exact (rawWeight_anti hpos).le
    nlinarith
  have hpos : 0 < ∑ i ∈ range lam, rawWeight lam i ^ 2 :=
    sum_pos (fun _ hk => pow_pos (rawWeight_pos (mem_range.mp hk)) 2) ⟨0, mem_range.mpr h⟩
  rw [e, one_div_div, div_le_div_iff₀ h0 hpos]
  nlinarith

theorem rawWeight_half {lam i : Nat} (h : 2 * (i + 1) ≤ lam) : Real.log 2 ≤ rawWeight lam i := by
  unfold rawWeight
  have h1 : (2 : ℝ) * (i + 1) ≤ lam := by exact_mod_cast h
  have := Real.log_le_log (x := 2 * ((i : ℝ) + 1)) (y := lam + 1 / 2) (by positivity) (by linarith)
  rw [Real.log_mul (by norm_num) (by positivity)] at this
  linarith

theorem mueff_pow (k : Nat) : (2 : ℝ) ^ k / (k + 2) ≤ mueff (2 ^ (k + 1)) := by
  have hlam : 0 < 2 ^ (k + 1) := by positivity
  refine le_trans ?_ (mueff_lower hlam)
  have h0 := rawWeight_pos hlam
  have hl2 : 0 < Real.log 2 := Real.log_pos (by norm_num)
  have hsum : (2 : ℝ) ^ k * Real.log 2 ≤ ∑ i ∈ range (2 ^ (k + 1)), rawWeight (2 ^ (k + 1)) i := by
    have hsub : range (2 ^ k) ⊆ range (2 ^ (k + 1)) :=
      range_subset_range.mpr (Nat.pow_le_pow_right (by norm_num) (by omega))
    calc (2 : ℝ) ^ k * Real.log 2 = ∑ i ∈ range (2 ^ k), Real.log 2 := by simp
      _ ≤ ∑ i ∈ range (2 ^ k), rawWeight (2 ^ (k + 1)) i := by
          apply sum_le_sum
          intro i hi
          apply rawWeight_half
          have := mem_range.mp hi
          rw [pow_succ]
          omega
      _ ≤ _ := sum_le_sum_of_subset_of_nonneg hsub
          fun i hi _ => (rawWeight_pos (mem_range.mp hi)).le
  have hw : rawWeight (2 ^ (k + 1)) 0 ≤ (k + 2) * Real.log 2 := by
    unfold rawWeight
    have h1 : (1 : ℝ) ≤ 2 ^ (k + 1) := one_le_pow₀ (by norm_num)
    have h2 : ((2 ^ (k + 1) : ℕ) : ℝ) + 1 / 2 ≤ 2 ^ (k + 2) := by
      push_cast
      rw [pow_succ (2 : ℝ) (k + 1)]
      linarith
    have := Real.log_le_log (by positivity) h2
    rw [Real.log_pow] at this
    push_cast at this ⊢
    simp only [CharP.cast_eq_zero, zero_add, Real.log_one, sub_zero]
    linarith
  rw [div_le_div_iff₀ (by positivity) h0]
  calc (2 : ℝ) ^ k * rawWeight (2 ^ (k + 1)) 0 ≤ 2 ^ k * ((k + 2) * Real.log 2) :=
        mul_le_mul_of_nonneg_left hw (by positivity)
    _ = 2 ^ k * Real.log 2 * (k + 2) := by ring
    _ ≤ _ := mul_le_mul_of_nonneg_right hsum (by positivity)

theorem mueff_unbounded (b : ℝ) : ∃ lam, 0 < lam ∧ b ≤ mueff lam := by
  obtain ⟨n, hn⟩ := exists_nat_ge b
  refine ⟨2 ^ (4 * n + 4 + 1), by positivity, ?_⟩
  refine le_trans ?_ (mueff_pow (4 * n + 4))
  refine hn.trans ?_
  rw [le_div_iff₀ (by positivity)]
  have h3 : n * (4 * n + 4 + 2) ≤ 2 ^ (4 * n + 4) := by
    have h1 : n + 1 ≤ 2 ^ n := Nat.lt_two_pow_self
    have h2 : 2 ^ (4 * n + 4) = 2 ^ n * 2 ^ n * (2 ^ n * 2 ^ n) * 16 := by ring
    have h4 : 1 ≤ 2 ^ n * 2 ^ n := Nat.one_le_iff_ne_zero.mpr (by positivity)
    have h5 : (n + 1) * (n + 1) ≤ 2 ^ n * 2 ^ n := Nat.mul_le_mul h1 h1
    nlinarith
  exact_mod_cast h3

/-! ### Rates -/

theorem rates {N : Nat} (hN : 0 < N) {m : ℝ} (hm : 1 ≤ m) :
    0 < rateC1 N m ∧ 0 ≤ rateCmu N m ∧ 0 < rateCC N m ∧ rateCC N m < 1 ∧ 0 < rateCS N m ∧ rateCS N m < 1 ∧
      1 < damps N m := by
  have hNp : (0 : ℝ) < N := by exact_mod_cast hN
  have hm0 : 0 < m := by linarith
  have hcs : 0 < rateCS N m := by unfold rateCS; positivity
  refine ⟨by unfold rateC1; positivity, ?_, by unfold rateCC; positivity, ?_, hcs, ?_, ?_⟩
  · unfold rateCmu
    have : m - 2 + 1 / m = (m - 1) ^ 2 / m := by field_simp; ring
    rw [this]
    positivity
  · unfold rateCC
    rw [div_lt_one (by positivity)]
    have : 0 < m / N := by positivity
    rw [mul_div_assoc]
    linarith
  · unfold rateCS
    rw [div_lt_one (by positivity)]
    linarith
  · unfold damps
    have := le_max_left 0 (Real.sqrt ((m - 1) / (N + 1)) - 1)
    linarith

theorem rates_sum_lt {N : Nat} (hN : 0 < N) {m : ℝ} (hm : 1 ≤ m) (h : m ≤ (N + 13 / 10) ^ 2) :
    rateC1 N m + rateCmu N m < 1 := by
  have hNp : (1 : ℝ) ≤ N := by exact_mod_cast hN
  have hm0 : 0 < m := by linarith
  unfold rateC1 rateCmu
  have e : m - 2 + 1 / m = (m - 1) ^ 2 / m := by field_simp; ring
  rw [e]
  generalize hA : ((N : ℝ) + 13 / 10) ^ 2 = A at h ⊢
  have hA1 : 1 < A := by rw [← hA]; nlinarith
  have hB : A ≤ ((N : ℝ) + 2) ^ 2 := by rw [← hA]; nlinarith
  have h1 : 2 * ((m - 1) ^ 2 / m) / (((N : ℝ) + 2) ^ 2 + m) ≤ 2 * ((m - 1) ^ 2 / m) / (A + m) := by
    apply div_le_div_of_nonneg_left (by positivity) (by linarith) (by linarith)
  have h2 : 2 / (A + m) + 2 * ((m - 1) ^ 2 / m) / (A + m) < 1 := by
    rw [← add_div, div_lt_one (by linarith)]
    have : 2 + 2 * ((m - 1) ^ 2 / m) = (2 * m + 2 * (m - 1) ^ 2) / m := by field_simp
    rw [this, div_lt_iff₀ hm0]
    rcases hm.lt_or_eq with h3 | h3
    · nlinarith [mul_le_mul_of_nonneg_left h hm0.le]
    · subst h3; nlinarith
  linarith

theorem rates_sum_gt {N : Nat} {m : ℝ} (h : ((N : ℝ) + 2) ^ 2 + 4 ≤ m) :
    1 < rateC1 N m + rateCmu N m := by
  have hm0 : 0 < m := by nlinarith [sq_nonneg ((N : ℝ) + 2)]
  have h1 : 0 < rateC1 N m := by unfold rateC1; positivity
  have h2 : 1 ≤ rateCmu N m := by
    unfold rateCmu
    have e : m - 2 + 1 / m = (m - 1) ^ 2 / m := by field_simp; ring
    rw [e, le_div_iff₀ (by positivity), one_mul, ← mul_div_assoc, le_div_iff₀ hm0]
    nlinarith
  linarith

theorem chiN_pos {N : Nat} (hN : 0 < N) : 0 < chiN N := by
  have hNp : (0 : ℝ) < N := by exact_mod_cast hN
  unfold chiN
  have : 0 < Real.sqrt N := Real.sqrt_pos.mpr hNp
  positivity

theorem chiN_eq {N : Nat} (hN : 0 < N) : chiN N = Real.sqrt N * (1 + 1 / (21 * (N : ℝ) ^ 2)) := by
  unfold chiN
  have : 1 - 1 / (4 * N) = 1 := by
    rw [Nat.div_eq_of_lt (by omega)]
  rw [this, Nat.cast_one]

/-! ### Quadratic forms -/

theorem quad_add (N : Nat) (V W : Mat) (x : Nat → ℝ) :
    quad N (fun a b => V a b + W a b) x = quad N V x + quad N W x := by
  unfold quad
  rw [← sum_add_distrib]
  refine sum_congr rfl fun a _ => ?_
  rw [← sum_add_distrib]
  exact sum_congr rfl fun b _ => by ring

theorem quad_smul (N : Nat) (c : ℝ) (V : Mat) (x : Nat → ℝ) :
    quad N (fun a b => c * V a b) x = c * quad N V x := by
  unfold quad
  rw [mul_sum]
  refine sum_congr rfl fun a _ => ?_
  rw [mul_sum]
  exact sum_congr rfl fun b _ => by ring

theorem quad_outer (N : Nat) (p x : Nat → ℝ) :
    quad N (fun a b => p a * p b) x = (∑ a ∈ range N, x a * p a) ^ 2 := by
  unfold quad
  rw [sq, sum_mul_sum]
  refine sum_congr rfl fun a _ => sum_congr rfl fun b _ => by ring

theorem quad_sum (N n : Nat) (V : Nat → Mat) (x : Nat → ℝ) :
    quad N (fun a b => ∑ i ∈ range n, V i a b) x = ∑ i ∈ range n, quad N (V i) x := by
  unfold quad
  symm
  rw [sum_comm]
  refine sum_congr rfl fun a _ => ?_
  rw [sum_comm]
  refine sum_congr rfl fun b _ => ?_
  rw [mul_sum, sum_mul]

theorem quad_congr {N : Nat} {V W : Mat} (h : ∀ a b, a < N → b < N → V a b = W a b) (x : Nat → ℝ) :
    quad N V x = quad N W x :=
  sum_congr rfl fun a ha => sum_congr rfl fun b hb => by rw [h a b (mem_range.mp ha) (mem_range.mp hb)]

theorem quad_newCovar (N lam : Nat) (arx : Nat → Nat → ℝ) (s : CMA) (h : ℝ) (pc x : Nat → ℝ) :
    quad N (newCovar N lam arx s h pc) x =
      (1 - rateC1 N (mueff lam) - rateCmu N (mueff lam)) * quad N s.covar x +
      rateC1 N (mueff lam) * ((∑ a ∈ range N, x a * pc a) ^ 2 +
        (1 - h) * rateCC N (mueff lam) * (2 - rateCC N (mueff lam)) * quad N s.covar x) +
      ∑ i ∈ range lam, rateCmu N (mueff lam) * weight lam i * (∑ a ∈ range N, x a * steps arx s a i) ^ 2 := by
  unfold newCovar
  simp only
  rw [quad_add N (fun a b => (1 - rateC1 N (mueff lam) - rateCmu N (mueff lam)) * s.covar a b +
      rateC1 N (mueff lam) * (pc a * pc b + (1 - h) * rateCC N (mueff lam) * (2 - rateCC N (mueff lam)) *
        s.covar a b)),
    quad_add N (fun a b => (1 - rateC1 N (mueff lam) - rateCmu N (mueff lam)) * s.covar a b),
    quad_smul, quad_smul N _ (fun a b => pc a * pc b + (1 - h) * rateCC N (mueff lam) *
      (2 - rateCC N (mueff lam)) * s.covar a b), quad_add N (fun a b => pc a * pc b), quad_outer, quad_smul,
    quad_sum]
  congr 1
  refine sum_congr rfl fun i _ => ?_
  rw [← quad_outer, ← quad_smul]
  exact quad_congr (fun a b _ _ => by ring) x

/-- A matrix with its eigenvectors: the eigenvalue is the quadratic form of its vector. -/
theorem eig_quad {N : Nat} {C B : Mat} {v : Nat → ℝ}
    (ho : ∀ k l, k < N → l < N → ∑ i ∈ range N, B i k * B i l = if k = l then 1 else 0)
    (hd : ∀ i j, i < N → j < N → C i j = ∑ k ∈ range N, B i k * v k * B j k) {k : Nat} (hk : k < N) :
    quad N C (fun a => B a k) = v k ∧ ∃ i, i < N ∧ B i k ≠ 0 := by
  constructor
  · rw [quad_congr hd, quad_sum]
    have : ∀ l ∈ range N, quad N (fun a b => B a l * v l * B b l) (fun a => B a k) =
        if k = l then v k else 0 := by
      intro l hl
      have e : quad N (fun a b => B a l * v l * B b l) (fun a => B a k) =
          v l * quad N (fun a b => B a l * B b l) (fun a => B a k) := by
        rw [← quad_smul]
        exact quad_congr (fun a b _ _ => by ring) _
      rw [e, quad_outer N (fun a => B a l), ho k l hk (mem_range.mp hl)]
      split
      · rename_i h; subst h; ring
      · ring
    rw [sum_congr rfl this, sum_ite_eq, if_pos (mem_range.mpr hk)]
  · by_contra hcon
    push Not at hcon
    have := ho k k hk hk
    rw [if_pos rfl, sum_eq_zero fun i hi => by rw [hcon i (mem_range.mp hi), zero_mul]] at this
    exact zero_ne_one this

/-- Every symmetric matrix has such eigenvectors. -/
theorem exists_eigen (N : Nat) (C : Mat) (hsym : ∀ i j, C i j = C j i) :
    ∃ r : Mat × (Nat → ℝ),
      (∀ k l, k < N → l < N → ∑ i ∈ range N, r.1 i k * r.1 i l = if k = l then 1 else 0) ∧
      ∀ i j, i < N → j < N → C i j = ∑ k ∈ range N, r.1 i k * r.2 k * r.1 j k := by
  let A : Matrix (Fin N) (Fin N) ℝ := fun i j => C i j
  have hA : A.IsHermitian := by
    ext i j
    rw [Matrix.conjTranspose_apply, star_trivial]
    exact hsym _ _
  let U : Matrix (Fin N) (Fin N) ℝ := hA.eigenvectorUnitary
  have hU : star U * U = 1 := Unitary.coe_star_mul_self _
  have hspec : A = U * Matrix.diagonal hA.eigenvalues * star U := by
    have := hA.spectral_theorem
    rw [Unitary.conjStarAlgAut_apply] at this
    simpa using this
  refine ⟨(fun i j => if h : i < N ∧ j < N then U ⟨i, h.1⟩ ⟨j, h.2⟩ else 0,
    fun k => if h : k < N then hA.eigenvalues ⟨k, h⟩ else 0), ?_, ?_⟩
  · intro k l hk hl
    have := congrFun (congrFun hU ⟨k, hk⟩) ⟨l, hl⟩
    rw [Matrix.mul_apply, Matrix.one_apply] at this
    simp only [Matrix.star_apply, star_trivial, Fin.mk.injEq] at this
    rw [← this, ← Fin.sum_univ_eq_sum_range (fun i => (if h : i < N ∧ k < N then U ⟨i, h.1⟩ ⟨k, h.2⟩ else 0) *
      (if h : i < N ∧ l < N then U ⟨i, h.1⟩ ⟨l, h.2⟩ else 0))]
    refine sum_congr rfl fun i _ => ?_
    rw [dif_pos ⟨i.2, hk⟩, dif_pos ⟨i.2, hl⟩]
  · intro i j hi hj
    have := congrFun (congrFun hspec ⟨i, hi⟩) ⟨j, hj⟩
    rw [Matrix.mul_apply] at this
    simp only [Matrix.mul_diagonal, Matrix.star_apply, star_trivial] at this
    rw [show C i j = A ⟨i, hi⟩ ⟨j, hj⟩ from rfl, this,
      ← Fin.sum_univ_eq_sum_range (fun k => (if h : i < N ∧ k < N then U ⟨i, h.1⟩ ⟨k, h.2⟩ else 0) *
        (if h : k < N then hA.eigenvalues ⟨k, h⟩ else 0) *
        (if h : j < N ∧ k < N then U ⟨j, h.1⟩ ⟨k, h.2⟩ else 0))]
    refine sum_congr rfl fun k _ => ?_
    rw [dif_pos ⟨hi, k.2⟩, dif_pos k.2, dif_pos ⟨hj, k.2⟩]

end Paradiseo.Edo
