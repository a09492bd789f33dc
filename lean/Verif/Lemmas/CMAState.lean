import Verif.Model.CMAState
import Verif.Lemmas.EdoCMA

namespace Paradiseo.Cma

open Finset
open Paradiseo.Edo (Mat quad PosDef quad_add quad_smul quad_outer quad_sum quad_congr eig_quad)

/-! ### Weights -/

theorem raw_pos {scheme mu i : Nat} (hmu : mu < 2 ^ 32) (h : i < mu) : 0 < raw scheme mu i := by
  unfold raw
  split
  · rw [show (mu + 2 ^ 32 - i) % 2 ^ 32 = mu - i by omega]
    exact_mod_cast Nat.sub_pos_of_lt h
  · exact one_pos
  · have h1 : ((i : ℝ) + 1) ≤ mu := by exact_mod_cast h
    have := Real.log_lt_log (x := (i : ℝ) + 1) (y := mu + 1) (by positivity) (by linarith)
    linarith

theorem raw_anti {scheme mu i j : Nat} (hmu : mu < 2 ^ 32) (h : i ≤ j) (hj : j < mu) :
    raw scheme mu j ≤ raw scheme mu i := by
  unfold raw
  split
  · rw [show (mu + 2 ^ 32 - i) % 2 ^ 32 = mu - i by omega, show (mu + 2 ^ 32 - j) % 2 ^ 32 = mu - j by omega]
    exact_mod_cast Nat.sub_le_sub_left h mu
  · exact le_rfl
  · have h1 : (i : ℝ) ≤ j := by exact_mod_cast h
    have := Real.log_le_log (x := (i : ℝ) + 1) (y := j + 1) (by positivity) (by linarith)
    linarith

theorem rawSum_pos {scheme mu : Nat} (hmu : mu < 2 ^ 32) (h : 0 < mu) : 0 < ∑ k ∈ range mu, raw scheme mu k :=
  sum_pos (fun _ hk => raw_pos hmu (mem_range.mp hk)) ⟨0, mem_range.mpr h⟩

theorem weight_pos {scheme mu i : Nat} (hmu : mu < 2 ^ 32) (h : i < mu) : 0 < weight scheme mu mu i :=
  div_pos (raw_pos hmu h) (rawSum_pos hmu (by omega))

theorem weight_sum {scheme mu : Nat} (hmu : mu < 2 ^ 32) (h : 0 < mu) :
    ∑ i ∈ range mu, weight scheme mu mu i = 1 := by
  unfold weight
  rw [← sum_div, div_self (rawSum_pos hmu h).ne']

/-- The effective number of numbers at least zero is between one and their count. -/
theorem effective {w : Nat → ℝ} {S : Nat} (h0 : ∀ i, i < S → 0 ≤ w i) (h1 : 0 < ∑ k ∈ range S, w k) :
    1 ≤ (∑ k ∈ range S, w k) * (∑ k ∈ range S, w k) / ∑ k ∈ range S, w k * w k ∧
    (∑ k ∈ range S, w k) * (∑ k ∈ range S, w k) / ∑ k ∈ range S, w k * w k ≤ S := by
  have hsq : 0 < ∑ k ∈ range S, w k * w k := by
    by_contra hcon
    have hz : ∑ k ∈ range S, w k * w k = 0 :=
      le_antisymm (not_lt.mp hcon) (sum_nonneg fun k _ => mul_self_nonneg _)
    rw [sum_eq_zero_iff_of_nonneg fun k _ => mul_self_nonneg _] at hz
    have : ∑ k ∈ range S, w k = 0 := sum_eq_zero fun k hk => mul_self_eq_zero.mp (hz k hk)
    linarith
  constructor
  · rw [le_div_iff₀ hsq, one_mul, sum_mul]
    refine sum_le_sum fun k hk => ?_
    exact mul_le_mul_of_nonneg_left
      (single_le_sum (f := w) (fun i hi => h0 i (mem_range.mp hi)) hk) (h0 k (mem_range.mp hk))
  · rw [div_le_iff₀ hsq]
    have := sq_sum_le_card_mul_sum_sq (s := range S) (f := w)
    simp only [card_range, sq] at this
    exact this

theorem mueff_bounds {scheme mu : Nat} (hmu : mu < 2 ^ 32) (h : 0 < mu) :
    1 ≤ mueff scheme mu mu ∧ mueff scheme mu mu ≤ mu :=
  effective (fun _ hi => (raw_pos hmu hi).le) (rawSum_pos hmu h)

theorem defaultMu_le {n : Nat} (h : 0 < n) : 2 * defaultMu n ≤ 3 * n + 1 := by
  have h0 : (0 : ℝ) < n := by exact_mod_cast h
  have h1 : Real.log n ≤ n - 1 := Real.log_le_sub_one_of_pos h0
  have h2 : ⌊3 * Real.log n⌋₊ ≤ 3 * (n - 1) := by
    apply Nat.floor_le_of_le
    rw [Nat.cast_mul, Nat.cast_sub (by omega)]
    push_cast
    linarith
  unfold defaultMu defaultLambda
  omega

theorem defaultMu_ge (n : Nat) : 2 ≤ defaultMu n := by
  unfold defaultMu defaultLambda
  omega

/-! ### Rates -/

theorem rateCov_range {n : Nat} (hn : 0 < n) {m : ℝ} (hm : 1 ≤ m) : 0 < rateCov n m ∧ rateCov n m < 1 := by
  have h1 : (1 : ℝ) ≤ n := by exact_mod_cast hn
  unfold rateCov
  simp only
  have hd : (5 : ℝ) < (n + 14142 / 10000) * (n + 14142 / 10000) := by nlinarith
  have ht1 : 0 < 2 / (((n : ℝ) + 14142 / 10000) * (n + 14142 / 10000)) := by positivity
  have ht1' : 2 / (((n : ℝ) + 14142 / 10000) * (n + 14142 / 10000)) < 1 := by
    rw [div_lt_one (by positivity)]; linarith
  have hr : 0 < 1 / m := by positivity
  have hr' : 1 / m ≤ 1 := by rw [div_le_one (by linarith)]; exact hm
  have hden : (0 : ℝ) < (n + 2) * (n + 2) + m := by positivity
  have ht2 : 0 ≤ (if 1 < (2 * m - 1) / (((n : ℝ) + 2) * (n + 2) + m) then 1
      else (2 * m - 1) / (((n : ℝ) + 2) * (n + 2) + m)) := by
    split
    · norm_num
    · exact div_nonneg (by linarith) hden.le
  have ht2' : (if 1 < (2 * m - 1) / (((n : ℝ) + 2) * (n + 2) + m) then 1
      else (2 * m - 1) / (((n : ℝ) + 2) * (n + 2) + m)) ≤ 1 := by
    split
    · norm_num
    · rename_i h; exact not_lt.mp h
  constructor
  · have := mul_pos hr ht1
    have := mul_nonneg (sub_nonneg.mpr hr') ht2
    linarith
  · have := mul_lt_mul_of_pos_left ht1' hr
    have := mul_le_mul_of_nonneg_left ht2' (sub_nonneg.mpr hr')
    linarith

theorem ccumcov_range (n : Nat) : 0 < (4 : ℝ) / (n + 4) ∧ (4 : ℝ) / (n + 4) ≤ 1 := by
  have : (0 : ℝ) ≤ n := by positivity
  exact ⟨by positivity, by rw [div_le_one (by positivity)]; linarith⟩

/-- The learning rate is smaller than what the first generation adds. -/
theorem rateCov_lt {n : Nat} (hn : 0 < n) {m : ℝ} (hm : 1 ≤ m) (hm' : 2 * m ≤ 3 * n + 1) :
    rateCov n m < (4 : ℝ) / (n + 4) * (2 - 4 / (n + 4)) := by
  have h1 : (1 : ℝ) ≤ n := by exact_mod_cast hn
  have e : (4 : ℝ) / (n + 4) * (2 - 4 / (n + 4)) = 8 * (n + 2) / ((n + 4) * (n + 4)) := by
    field_simp; ring
  rw [e]
  generalize hN : (n : ℝ) = x at *
  have hr : 0 < 1 / m := by positivity
  have hr' : 1 / m ≤ 1 := by rw [div_le_one (by linarith)]; exact hm
  have ht1 : 2 / ((x + 14142 / 10000) * (x + 14142 / 10000)) < 8 * (x + 2) / ((x + 4) * (x + 4)) := by
    rw [div_lt_div_iff₀ (by positivity) (by positivity)]
    have : (x + 4) * (x + 4) ≤ 5 * ((x + 14142 / 10000) * (x + 14142 / 10000)) := by nlinarith
    nlinarith [mul_nonneg (sub_nonneg.mpr h1) (mul_self_nonneg (x + 14142 / 10000))]
  have ht2 : (2 * m - 1) / ((x + 2) * (x + 2) + m) < 8 * (x + 2) / ((x + 4) * (x + 4)) := by
    calc (2 * m - 1) / ((x + 2) * (x + 2) + m) ≤ (3 * x) / ((x + 2) * (x + 2)) := by
          apply div_le_div₀ <;> nlinarith
      _ < _ := by
          rw [div_lt_div_iff₀ (by positivity) (by positivity)]
          nlinarith [mul_nonneg (sub_nonneg.mpr h1) (sq_nonneg x), sq_nonneg x, pow_pos (by linarith : 0 < x) 3]
  unfold rateCov
  simp only [hN]
  have ht2' : (if 1 < (2 * m - 1) / ((x + 2) * (x + 2) + m) then 1
      else (2 * m - 1) / ((x + 2) * (x + 2) + m)) ≤ 8 * (x + 2) / ((x + 4) * (x + 4)) := by
    split
    · rename_i h; linarith
    · linarith
  have := mul_lt_mul_of_pos_left ht1 hr
  have := mul_le_mul_of_nonneg_left ht2' (sub_nonneg.mpr hr')
  linarith

theorem hsig_cases (p : Par) (gen : Nat) (a : ℝ) : hsig p gen a = 0 ∨ hsig p gen a = 1 := by
  unfold hsig
  split <;> simp

/-! ### Quadratic forms -/

theorem quad_newC (p : Par) (x : Nat → Nat → ℝ) (s : State) (h : ℝ) (pc y : Nat → ℝ) (N : Nat) :
    quad N (newC p x s h pc) y =
      (1 - p.ccov + (1 - h) * p.ccumcov * (2 - p.ccumcov)) * quad N s.C y +
      p.ccov * (1 / p.mueff) * (∑ a ∈ range N, y a * pc a) ^ 2 +
      ∑ k ∈ range p.mu, p.ccov * (1 - 1 / p.mueff) * p.weights k * (1 / s.sigma) ^ 2 *
        (∑ a ∈ range N, y a * (x k a - s.mean a)) ^ 2 := by
  rw [quad_congr (W := fun i j => ((1 - p.ccov + (1 - h) * p.ccumcov * (2 - p.ccumcov)) * s.C i j +
      (p.ccov * (1 / p.mueff)) * (pc i * pc j)) + ∑ k ∈ range p.mu,
        (p.ccov * (1 - 1 / p.mueff) * p.weights k * (1 / s.sigma) ^ 2) *
          ((x k i - s.mean i) * (x k j - s.mean j)))]
  · rw [quad_add N (fun i j => (1 - p.ccov + (1 - h) * p.ccumcov * (2 - p.ccumcov)) * s.C i j +
      (p.ccov * (1 / p.mueff)) * (pc i * pc j)),
      quad_add N (fun i j => (1 - p.ccov + (1 - h) * p.ccumcov * (2 - p.ccumcov)) * s.C i j),
      quad_smul, quad_smul N _ (fun i j => pc i * pc j), quad_outer, quad_sum]
    congr 1
    refine sum_congr rfl fun k _ => ?_
    rw [quad_smul N _ (fun i j => (x k i - s.mean i) * (x k j - s.mean j)),
      quad_outer N (fun i => x k i - s.mean i)]
  · intro i j _ _
    unfold newC
    congr 1
    · ring
    · exact sum_congr rfl fun k _ => by ring

theorem quad_diag (N : Nat) (g y : Nat → ℝ) :
    quad N (fun i j => if i = j then g i else 0) y = ∑ a ∈ range N, g a * y a ^ 2 := by
  unfold quad
  refine sum_congr rfl fun a ha => ?_
  simp only [mul_ite, mul_zero, ite_mul, zero_mul, sum_ite_eq, if_pos ha]
  ring

theorem posDef_diag {N : Nat} {g : Nat → ℝ} (h : ∀ i, i < N → 0 < g i) :
    PosDef N (fun i j => if i = j then g i else 0) := by
  rintro y ⟨i, hi, hy⟩
  rw [quad_diag]
  exact sum_pos' (fun a ha => mul_nonneg (h a (mem_range.mp ha)).le (sq_nonneg _))
    ⟨i, mem_range.mpr hi, mul_pos (h i hi) (by positivity)⟩

/-- Adding to the diagonal numbers at least zero keeps a matrix positive definite. -/
theorem posDef_addDiag {N : Nat} {C : Mat} {g : Nat → ℝ} (hC : PosDef N C) (h : ∀ i, i < N → 0 ≤ g i) :
    PosDef N (fun i j => C i j + if i = j then g i else 0) := by
  intro y hy
  rw [quad_add, quad_diag]
  have := hC y hy
  have : 0 ≤ ∑ a ∈ range N, g a * y a ^ 2 :=
    sum_nonneg fun a ha => mul_nonneg (h a (mem_range.mp ha)) (sq_nonneg _)
  linarith

theorem posDef_entry {N : Nat} {C : Mat} (hC : PosDef N C) {i : Nat} (hi : i < N) : 0 < C i i := by
  have := hC (fun k => if k = i then 1 else 0) ⟨i, hi, by simp⟩
  unfold quad at this
  rw [sum_eq_single_of_mem i (mem_range.mpr hi)] at this
  · rw [sum_eq_single_of_mem i (mem_range.mpr hi)] at this
    · simpa using this
    · intro b _ hb; simp [hb]
  · intro b _ hb; simp [hb]

/-! ### Eigensystem -/

theorem foldl_min_le (l : List Nat) (v : Nat → ℝ) (a : ℝ) :
    l.foldl (fun a k => min a (v k)) a ≤ a ∧ ∀ k ∈ l, l.foldl (fun a k => min a (v k)) a ≤ v k := by
  induction l generalizing a with
  | nil => simp
  | cons x l ih =>
    obtain ⟨h1, h2⟩ := ih (min a (v x))
    refine ⟨h1.trans (min_le_left _ _), fun k hk => ?_⟩
    rcases List.mem_cons.mp hk with rfl | hk
    · exact h1.trans (min_le_right _ _)
    · exact h2 k hk

theorem foldl_min_mem (l : List Nat) (v : Nat → ℝ) (a : ℝ) :
    l.foldl (fun a k => min a (v k)) a = a ∨ ∃ k ∈ l, l.foldl (fun a k => min a (v k)) a = v k := by
  induction l generalizing a with
  | nil => simp
  | cons x l ih =>
    rcases ih (min a (v x)) with h | ⟨k, hk, h⟩
    · rcases min_choice a (v x) with h' | h'
      · left; rw [List.foldl_cons, h, h']
      · right; exact ⟨x, List.mem_cons_self .., by rw [List.foldl_cons, h, h']⟩
    · right; exact ⟨k, List.mem_cons_of_mem _ hk, h⟩

theorem foldl_max_le (l : List Nat) (v : Nat → ℝ) (a : ℝ) :
    a ≤ l.foldl (fun a k => max a (v k)) a ∧ ∀ k ∈ l, v k ≤ l.foldl (fun a k => max a (v k)) a := by
  induction l generalizing a with
  | nil => simp
  | cons x l ih =>
    obtain ⟨h1, h2⟩ := ih (max a (v x))
    refine ⟨(le_max_left _ _).trans h1, fun k hk => ?_⟩
    rcases List.mem_cons.mp hk with rfl | hk
    · exact (le_max_right _ _).trans h1
    · exact h2 k hk

theorem minOf_le {n : Nat} (v : Nat → ℝ) {k : Nat} (h : k < n) : minOf n v ≤ v k :=
  (foldl_min_le _ v _).2 k (List.mem_range.mpr h)

theorem le_maxOf {n : Nat} (v : Nat → ℝ) {k : Nat} (h : k < n) : v k ≤ maxOf n v :=
  (foldl_max_le _ v _).2 k (List.mem_range.mpr h)

theorem minOf_mem {n : Nat} (hn : 0 < n) (v : Nat → ℝ) : ∃ k, k < n ∧ minOf n v = v k := by
  rcases foldl_min_mem (List.range n) v (v 0) with h | ⟨k, hk, h⟩
  · exact ⟨0, hn, h⟩
  · exact ⟨k, List.mem_range.mp hk, h⟩

theorem lift_nonneg (eps : ℝ) (n : Nat) (v : Nat → ℝ) : 0 ≤ lift eps n v := by
  unfold lift
  split
  · linarith
  · exact le_rfl

/-- Orthonormal columns have orthonormal rows. -/
theorem rows_orth {N : Nat} {B : Mat}
    (ho : ∀ k l, k < N → l < N → ∑ i ∈ range N, B i k * B i l = if k = l then 1 else 0) {i j : Nat} (hi : i < N)
    (hj : j < N) : ∑ k ∈ range N, B i k * B j k = if i = j then 1 else 0 := by
  let A : Matrix (Fin N) (Fin N) ℝ := fun i j => B i j
  have h : A.transpose * A = 1 := by
    ext k l
    rw [Matrix.mul_apply, Matrix.one_apply]
    have := ho k l k.2 l.2
    rw [← Fin.sum_univ_eq_sum_range (fun i => B i k * B i l)] at this
    simp only [Matrix.transpose_apply]
    rw [show (∑ j, A j k * A j l) = ∑ i : Fin N, B i k * B i l from rfl, this]
    simp [Fin.ext_iff]
  have h2 : A * A.transpose = 1 := mul_eq_one_comm.mp h
  have h' := congrFun (congrFun h2 ⟨i, hi⟩) ⟨j, hj⟩
  rw [Matrix.mul_apply, Matrix.one_apply] at h'
  rw [← Fin.sum_univ_eq_sum_range (fun k => B i k * B j k)]
  simp only [Matrix.transpose_apply, Fin.ext_iff] at h'
  exact h'

end Paradiseo.Cma
