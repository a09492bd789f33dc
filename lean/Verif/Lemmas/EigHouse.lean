import Verif.Model.Eig

/-!
# Reduction to tridiagonal form
-/

namespace Paradiseo.Eig

open Finset
open Paradiseo.Edo (Mat)

/-- The symmetric matrix given by its lower triangle. -/
def low (m : Mat) : Mat := fun r c => if c ≤ r then m r c else m c r

theorem low_symm (m : Mat) (r c : Nat) : low m r c = low m c r := by
  unfold low
  split <;> split
  · rw [show r = c by omega]
  · rfl
  · rfl
  · omega

/-- The value before an index, nothing before the first. -/
def prev (f : Nat → ℝ) : Nat → ℝ
  | 0 => 0
  | x + 1 => f x

/-- The columns are orthonormal. -/
def Ortho (n : Nat) (q : Mat) : Prop :=
  ∀ x y, x < n → y < n → ∑ a ∈ range n, q a x * q a y = if x = y then 1 else 0

/-- The reflection along `u`. -/
noncomputable def refl (n : Nat) (u : Nat → ℝ) (h : ℝ) (y : Nat → ℝ) (a : Nat) : ℝ :=
  y a - (∑ k ∈ range n, u k * y k) * (u a / h)

theorem refl_dot {n : Nat} {u : Nat → ℝ} {h : ℝ} (hu : ∑ k ∈ range n, u k * u k = 2 * h) (h0 : h ≠ 0)
    (y z : Nat → ℝ) : ∑ a ∈ range n, refl n u h y a * refl n u h z a = ∑ a ∈ range n, y a * z a := by
  have e : ∀ a, refl n u h y a * refl n u h z a = y a * z a - (∑ k ∈ range n, u k * y k) / h * (u a * z a) -
      (∑ k ∈ range n, u k * z k) / h * (u a * y a) +
      (∑ k ∈ range n, u k * y k) / h * ((∑ k ∈ range n, u k * z k) / h) * (u a * u a) := fun a => by
    unfold refl
    field_simp
    ring
  rw [sum_congr rfl fun a _ => e a, sum_add_distrib, sum_sub_distrib, sum_sub_distrib, ← mul_sum, ← mul_sum, ← mul_sum, hu]
  field_simp
  ring

theorem refl_refl {n : Nat} {u : Nat → ℝ} {h : ℝ} (hu : ∑ k ∈ range n, u k * u k = 2 * h) (h0 : h ≠ 0)
    (y : Nat → ℝ) (a : Nat) : refl n u h (refl n u h y) a = y a := by
  have e : ∑ k ∈ range n, u k * refl n u h y k = -∑ k ∈ range n, u k * y k := by
    have : ∀ k, u k * refl n u h y k = u k * y k - (∑ k ∈ range n, u k * y k) / h * (u k * u k) := fun k => by
      unfold refl
      field_simp
    rw [sum_congr rfl fun k _ => this k, sum_sub_distrib, ← mul_sum, hu]
    field_simp
    ring
  rw [refl, e, refl]
  ring

theorem refl_lin (n : Nat) (u : Nat → ℝ) (h : ℝ) (a b c : ℝ) (x y z : Nat → ℝ) (i : Nat) :
    refl n u h (fun k => a * x k + b * y k + c * z k) i =
      a * refl n u h x i + b * refl n u h y i + c * refl n u h z i := by
  unfold refl
  have e : ∑ k ∈ range n, u k * (a * x k + b * y k + c * z k) = a * (∑ k ∈ range n, u k * x k) +
      b * (∑ k ∈ range n, u k * y k) + c * ∑ k ∈ range n, u k * z k := by
    rw [mul_sum, mul_sum, mul_sum, ← sum_add_distrib, ← sum_add_distrib]
    exact sum_congr rfl fun _ _ => by ring
  rw [e]
  ring

theorem refl_congr {n : Nat} {u : Nat → ℝ} {h : ℝ} {x y : Nat → ℝ} (e : ∀ k, k < n → x k = y k) {i : Nat} (hi : i < n) :
    refl n u h x i = refl n u h y i := by
  unfold refl
  rw [e i hi, sum_congr rfl fun k hk => by rw [e k (mem_range.mp hk)]]

/-! ## The vector of the reflection -/

section
variable {m : Mat} {i : Nat}

theorem rowAbs_pos (h : rowAbs m i ≠ 0) : 0 < rowAbs m i :=
  lt_of_le_of_ne (sum_nonneg fun _ _ => abs_nonneg _) (Ne.symm h)

theorem rowSq_pos (h : rowAbs m i ≠ 0) : 0 < rowSq m i := by
  have h0 : 0 ≤ rowSq m i := sum_nonneg fun _ _ => mul_self_nonneg _
  refine lt_of_le_of_ne h0 fun e => h ?_
  have hz := (sum_eq_zero_iff_of_nonneg fun k _ => mul_self_nonneg (m i k / rowAbs m i)).mp e.symm
  refine sum_eq_zero fun k hk => ?_
  have := mul_self_eq_zero.mp (hz k hk)
  rw [div_eq_zero_iff] at this
  rcases this with h1 | h1
  · rw [h1, abs_zero]
  · exact absurd h1 h

theorem rowTmp_sq : rowTmp m i * rowTmp m i = rowSq m i := by
  have h0 : 0 ≤ rowSq m i := sum_nonneg fun _ _ => mul_self_nonneg _
  unfold rowTmp
  split
  · rw [neg_mul_neg, Real.mul_self_sqrt h0]
  · rw [Real.mul_self_sqrt h0]

theorem rowH_ge : rowSq m i ≤ rowH m i := by
  have h0 := Real.sqrt_nonneg (rowSq m i)
  have : m i (i - 1) / rowAbs m i * rowTmp m i ≤ 0 := by
    unfold rowTmp
    split
    · nlinarith
    · nlinarith
  unfold rowH
  linarith

theorem rowH_pos (h : rowAbs m i ≠ 0) : 0 < rowH m i := (rowSq_pos h).trans_le rowH_ge

theorem hvec_eq (k : Nat) : hvec m i k = m i k / rowAbs m i - rowTmp m i * (if k = i - 1 then 1 else 0) := by
  unfold hvec
  split <;> simp

theorem sum_delta (n x : Nat) (hx : x < n) (f : Nat → ℝ) : ∑ k ∈ range n, f k * (if k = x then 1 else 0) = f x := by
  simp [hx]

theorem hvec_row (hi : 0 < i) : ∑ k ∈ range i, hvec m i k * (m i k / rowAbs m i) = rowH m i := by
  have e : ∀ k, hvec m i k * (m i k / rowAbs m i) = m i k / rowAbs m i * (m i k / rowAbs m i) -
      rowTmp m i * (m i k / rowAbs m i * (if k = i - 1 then 1 else 0)) := fun k => by
    rw [hvec_eq]
    ring
  rw [sum_congr rfl fun k _ => e k, sum_sub_distrib, ← mul_sum, sum_delta i (i - 1) (by omega)]
  unfold rowH rowSq
  ring

theorem hvec_sq (hi : 0 < i) : ∑ k ∈ range i, hvec m i k * hvec m i k = 2 * rowH m i := by
  have e : ∀ k, hvec m i k * hvec m i k = hvec m i k * (m i k / rowAbs m i) -
      rowTmp m i * (hvec m i k * (if k = i - 1 then 1 else 0)) := fun k => by
    conv_lhs => rw [hvec_eq (m := m) (i := i) k]
    rw [hvec_eq]
    ring
  rw [sum_congr rfl fun k _ => e k, sum_sub_distrib, ← mul_sum, sum_delta i (i - 1) (by omega), hvec_row hi, hvec_eq]
  have := rowTmp_sq (m := m) (i := i)
  simp only [if_true]
  unfold rowH
  linear_combination this

theorem refl_row (hi : 0 < i) (h : rowAbs m i ≠ 0) (a : Nat) :
    refl i (hvec m i) (rowH m i) (m i) a = rowAbs m i * rowTmp m i * (if a = i - 1 then 1 else 0) := by
  have e : ∑ k ∈ range i, hvec m i k * m i k = rowAbs m i * rowH m i := by
    rw [← hvec_row hi, mul_sum]
    exact sum_congr rfl fun k _ => by field_simp
  have h0 := (rowH_pos h).ne'
  unfold refl
  rw [e, hvec_eq]
  field_simp
  ring

theorem pvec_eq {j : Nat} (hj : j < i) :
    pvec m i j = (∑ k ∈ range i, low m j k * hvec m i k) / rowH m i := by
  unfold pvec
  congr 1
  rw [← sum_range_add_sum_Ico _ (show j + 1 ≤ i by omega)]
  congr 1
  · refine sum_congr rfl fun k hk => ?_
    rw [low, if_pos (by have := mem_range.mp hk; omega)]
  · refine sum_congr rfl fun k hk => ?_
    rw [low, if_neg (by have := (mem_Ico.mp hk).1; omega)]

/-- The reduced block. -/
noncomputable def reduced (m : Mat) (i : Nat) : Mat := fun a b =>
  low m a b - (hvec m i a * qvec m i b + qvec m i a * hvec m i b)

/-- Reflecting the vector and applying the block is applying the reduced block and reflecting. -/
theorem reduced_refl (hi : 0 < i) (h : rowAbs m i ≠ 0) (y : Nat → ℝ) {a : Nat} (ha : a < i) :
    ∑ b ∈ range i, low m a b * refl i (hvec m i) (rowH m i) y b =
      refl i (hvec m i) (rowH m i) (fun c => ∑ b ∈ range i, reduced m i c b * y b) a := by
  have h0 := (rowH_pos h).ne'
  have hu := hvec_sq (m := m) hi
  generalize hD : rowH m i = H at *
  set u := hvec m i with hu'
  set p := pvec m i with hp'
  set q := qvec m i with hq'
  set K := halfK m i with hK'
  have hp : ∀ c, c < i → ∑ k ∈ range i, low m c k * u k = H * p c := fun c hc => by
    rw [hp', pvec_eq hc, hD]
    field_simp
    rfl
  have hq : ∀ c, q c = p c - u c * K := fun c => rfl
  have hK : ∑ c ∈ range i, p c * u c = 2 * H * K := by
    rw [hK', halfK, hD]
    field_simp
    rfl
  set uy := ∑ k ∈ range i, u k * y k with huy
  set py := ∑ k ∈ range i, p k * y k with hpy
  have hqy : ∑ k ∈ range i, q k * y k = py - K * uy := by
    rw [sum_congr rfl fun k _ => show q k * y k = p k * y k - K * (u k * y k) by rw [hq]; ring, sum_sub_distrib, ← mul_sum]
  have huq : ∑ k ∈ range i, u k * q k = 0 := by
    rw [sum_congr rfl fun k _ => show u k * q k = p k * u k - K * (u k * u k) by rw [hq]; ring, sum_sub_distrib, ← mul_sum, hK, hu]
    ring
  have hred : ∀ c, ∑ b ∈ range i, reduced m i c b * y b =
      ∑ b ∈ range i, low m c b * y b - u c * (py - K * uy) - q c * uy := fun c => by
    rw [← hqy, huy, mul_sum, mul_sum, ← sum_sub_distrib, ← sum_sub_distrib]
    exact sum_congr rfl fun b _ => by simp only [reduced, ← hu', ← hq']; ring
  have huS : ∑ c ∈ range i, u c * ∑ b ∈ range i, low m c b * y b = H * py := by
    rw [sum_congr rfl fun c _ => mul_sum _ _ _, sum_comm, hpy, mul_sum]
    refine sum_congr rfl fun b hb => ?_
    have := hp b (mem_range.mp hb)
    rw [← mul_assoc, ← this, sum_mul]
    exact sum_congr rfl fun c _ => by rw [low_symm m b c]; ring
  have huR : ∑ c ∈ range i, u c * ∑ b ∈ range i, reduced m i c b * y b = H * py - 2 * H * (py - K * uy) := by
    rw [sum_congr rfl fun c _ => show u c * ∑ b ∈ range i, reduced m i c b * y b =
      u c * (∑ b ∈ range i, low m c b * y b) - (py - K * uy) * (u c * u c) - uy * (u c * q c) by rw [hred]; ring,
      sum_sub_distrib, sum_sub_distrib, ← mul_sum, ← mul_sum, huS, hu, huq]
    ring
  have hL : ∑ b ∈ range i, low m a b * refl i u H y b = ∑ b ∈ range i, low m a b * y b - uy * p a := by
    have e : ∀ b, low m a b * refl i u H y b = low m a b * y b - uy / H * (low m a b * u b) := fun b => by
      unfold refl
      rw [← huy]
      field_simp
    rw [sum_congr rfl fun b _ => e b, sum_sub_distrib, ← mul_sum, hp a ha]
    field_simp
  rw [hL]
  unfold refl
  rw [huR]
  beta_reduce
  rw [hred, hq]
  field_simp
  ring

end

/-! ## All rounds -/

/-- `A q = q T` with `T` the tridiagonal matrix with diagonal `d` and second diagonal `e`. -/
def Tri (n : Nat) (A : Mat) (d e : Nat → ℝ) (q : Mat) : Prop :=
  ∀ a x, a < n → x < n →
    ∑ b ∈ range n, A a b * q b x = prev e x * prev (q a) x + d x * q a x + e x * q a (x + 1)

/-- What the two loops do to the block of the first `n` rows and columns of `s`. -/
structure HouseOk (n : Nat) (s t : House) : Prop where
  ortho : Ortho n t.ma
  tri : Tri n (low s.ma) t.diag (fun k => if k + 1 < n then t.neben (k + 1) else 0) t.ma
  lastR : ∀ x, x < n → t.ma (n - 1) x = if x = n - 1 then 1 else 0
  lastC : ∀ x, x < n → t.ma x (n - 1) = if x = n - 1 then 1 else 0
  outM : ∀ r c, n ≤ r ∨ n ≤ c → t.ma r c = s.ma r c
  outD : ∀ x, n ≤ x → t.diag x = s.diag x
  outN : ∀ x, n ≤ x → t.neben x = s.neben x

theorem householder_succ (n : Nat) (s : House) :
    householder (n + 2) s = accumulate (n + 1) (householder (n + 1) (reflect (n + 1) s)) := rfl

theorem house_one (s : House) : HouseOk 1 s (householder 1 s) := by
  have e : householder 1 s = ⟨fun r c => if r = 0 ∧ c = 0 then 1 else s.ma r c,
      put (put s.diag 0 0) 0 (s.ma 0 0), put s.neben 0 0⟩ := by
    unfold householder accumulateUp accumulateUp accumulate reduceDown
    simp [put]
  rw [e]
  refine ⟨?_, ?_, ?_, ?_, ?_, ?_, ?_⟩
  · intro x y hx hy
    obtain rfl : x = 0 := by omega
    obtain rfl : y = 0 := by omega
    simp
  · intro a x ha hx
    obtain rfl : x = 0 := by omega
    obtain rfl : a = 0 := by omega
    simp [prev, put, low]
  · intro x hx
    obtain rfl : x = 0 := by omega
    simp
  · intro x hx
    obtain rfl : x = 0 := by omega
    simp
  · intro r c h
    exact if_neg (by omega)
  · intro x hx
    simp only [put]
    rw [if_neg (by omega), if_neg (by omega)]
  · intro x hx
    simp only [put]
    rw [if_neg (by omega)]

/-- The columns of a block extended by a unit row and column. -/
theorem ortho_extend {n : Nat} {q q' : Mat} (h : Ortho n q) (e : ∀ r c, r < n → c < n → q' r c = q r c)
    (hR : ∀ x, x < n → q' n x = 0) (hC : ∀ x, x < n → q' x n = 0) (h1 : q' n n = 1) : Ortho (n + 1) q' := by
  intro x y hx hy
  rw [sum_range_succ]
  by_cases hxn : x = n
  · subst hxn
    rw [sum_eq_zero fun a ha => by rw [hC a (mem_range.mp ha), zero_mul], h1]
    by_cases hyn : y = x
    · subst hyn; simp [h1]
    · rw [hR y (by omega), if_neg (fun h => hyn h.symm)]; simp
  · by_cases hyn : y = n
    · subst hyn
      rw [sum_eq_zero fun a ha => by rw [hC a (mem_range.mp ha), mul_zero], hR x (by omega), if_neg hxn]; simp
    · rw [hR x (by omega), zero_mul, add_zero, ← h x y (by omega) (by omega)]
      exact sum_congr rfl fun a ha => by
        rw [e a x (mem_range.mp ha) (by omega), e a y (mem_range.mp ha) (by omega)]

/-- A block in tridiagonal form extended by a row and a column: `v` is the new row, `w` what it is multiplied with. -/
theorem tri_extend {n : Nat} (hn : 0 < n) {A q' : Mat} {d d' nb nb' : Nat → ℝ}
    (hq : ∀ a x, a < n → x < n → ∑ b ∈ range n, A a b * q' b x =
      prev (fun k => if k + 1 < n then nb (k + 1) else 0) x * prev (q' a) x + d x * q' a x +
        (if x + 1 < n then nb (x + 1) else 0) * q' a (x + 1))
    (hd : ∀ x, x < n → d' x = d x) (hdn : d' n = A n n) (hnb : ∀ x, x < n → 0 < x → nb' x = nb x)
    (hR : ∀ x, x < n → q' n x = 0) (hC : ∀ x, x < n → q' x n = 0) (h1 : q' n n = 1)
    (hrow : ∀ x, x < n → ∑ b ∈ range n, A n b * q' b x = nb' n * if x = n - 1 then 1 else 0)
    (hcol : ∀ a, a < n → A a n = nb' n * q' a (n - 1)) :
    Tri (n + 1) A d' (fun k => if k + 1 < n + 1 then nb' (k + 1) else 0) q' := by
  obtain ⟨m, rfl⟩ : ∃ m, n = m + 1 := ⟨n - 1, by omega⟩
  intro a x ha hx
  beta_reduce
  rw [sum_range_succ]
  by_cases hxn : x = m + 1
  · subst hxn
    rw [sum_eq_zero fun b hb => by rw [hC b (mem_range.mp hb), mul_zero], h1]
    simp only [prev]
    rw [if_pos (by omega), if_neg (by omega)]
    by_cases han : a = m + 1
    · subst han
      rw [hR m (by omega), h1, hdn]; ring
    · rw [hcol a (by omega), hC a (by omega)]
      simp
  · rw [hR x (by omega), mul_zero, add_zero]
    by_cases han : a = m + 1
    · subst han
      rw [hrow x (by omega), hR x (by omega)]
      have hp : prev (q' (m + 1)) x = 0 := by
        cases x with
        | zero => rfl
        | succ x => exact hR x (by omega)
      rw [hp, if_pos (show x + 1 < m + 1 + 1 by omega)]
      by_cases hxm : x = m
      · subst hxm; rw [h1]; simp
      · rw [hR (x + 1) (by omega), if_neg (by omega)]; ring
    · rw [hq a x (by omega) (by omega), hd x (by omega)]
      have hp : prev (fun k => if k + 1 < m + 1 then nb (k + 1) else 0) x =
          prev (fun k => if k + 1 < m + 1 + 1 then nb' (k + 1) else 0) x := by
        cases x with
        | zero => rfl
        | succ x =>
          simp only [prev]
          rw [if_pos (by omega), if_pos (by omega), hnb _ (by omega) (by omega)]
      rw [hp, if_pos (show x + 1 < m + 1 + 1 by omega)]
      by_cases hxm : x = m
      · subst hxm; rw [if_neg (by omega), hC a (by omega)]; ring
      · rw [if_pos (by omega), hnb _ (by omega) (by omega)]

theorem accumulate_plain {n : Nat} {t : House} (h : t.diag n = 0) :
    (∀ r c, r < n → c < n → (accumulate n t).ma r c = t.ma r c) ∧ (accumulate n t).diag n = t.ma n n := by
  unfold accumulate
  simp only [h, ne_eq, not_true_eq_false, if_false]
  exact ⟨fun r c hr hc => by rw [if_neg (by omega), if_neg (by omega)], by simp [put]⟩

theorem accumulate_refl {n : Nat} {t : House} (h : t.diag n ≠ 0) {u : Nat → ℝ} {H : ℝ}
    (hu : ∀ k, k < n → t.ma n k = u k) (hv : ∀ k, k < n → t.ma k n = u k / H) :
    (∀ r c, r < n → c < n → (accumulate n t).ma r c = refl n u H (fun k => t.ma k c) r) ∧
      (accumulate n t).diag n = t.ma n n := by
  unfold accumulate
  simp only [h, ne_eq, not_false_eq_true, if_true]
  refine ⟨fun r c hr hc => ?_, by simp [put]⟩
  rw [if_neg (by omega), if_neg (by omega), if_pos ⟨hr, hc⟩, refl, hv r hr]
  rw [sum_congr rfl fun k hk => by rw [hu k (mem_range.mp hk)]]

theorem accumulate_rest (n : Nat) (t : House) :
    (∀ x, x < n → (accumulate n t).ma n x = 0) ∧ (∀ x, x < n → (accumulate n t).ma x n = 0) ∧
    (accumulate n t).ma n n = 1 ∧ (∀ r c, n + 1 ≤ r ∨ n + 1 ≤ c → (accumulate n t).ma r c = t.ma r c) ∧
    (∀ x, x ≠ n → (accumulate n t).diag x = t.diag x) ∧ (accumulate n t).neben = t.neben := by
  unfold accumulate
  refine ⟨fun x hx => ?_, fun x hx => ?_, ?_, fun r c h => ?_, fun x hx => ?_, rfl⟩
  · simp only
    rw [if_neg (by omega), if_pos (by simp [hx])]
  · simp only
    rw [if_neg (by omega), if_pos (by simp [hx])]
  · simp
  · simp only
    rw [if_neg (by omega), if_neg (by omega)]
    split
    · beta_reduce
      rw [if_neg (by omega)]
    · rfl
  · simp only [put]
    rw [if_neg hx]

theorem low_congr {m m' : Mat} {n : Nat} (h : ∀ r c, r < n → c ≤ r → m r c = m' r c) {r c : Nat} (hr : r < n) (hc : c < n) :
    low m r c = low m' r c := by
  unfold low
  split
  · exact h r c hr (by omega)
  · exact h c r hc (by omega)

theorem house_succ {n : Nat} (hn : 0 < n) {s t : House} (ht : HouseOk n (reflect n s) t) :
    HouseOk (n + 1) s (accumulate n t) := by
  obtain ⟨aR, aC, a1, aM, aD, aN⟩ := accumulate_rest n t
  have hlast : ∀ x, x < n + 1 → (accumulate n t).ma (n + 1 - 1) x = if x = n + 1 - 1 then 1 else 0 := fun x hx => by
    rw [Nat.add_sub_cancel]
    by_cases h : x = n
    · subst h; rw [a1, if_pos rfl]
    · rw [aR x (by omega), if_neg h]
  have hlastC : ∀ x, x < n + 1 → (accumulate n t).ma x (n + 1 - 1) = if x = n + 1 - 1 then 1 else 0 := fun x hx => by
    rw [Nat.add_sub_cancel]
    by_cases h : x = n
    · subst h; rw [a1, if_pos rfl]
    · rw [aC x (by omega), if_neg h]
  by_cases hc : n = 1 ∨ rowAbs s.ma n = 0
  · have er : reflect n s = { s with neben := put s.neben n (s.ma n (n - 1)), diag := put s.diag n 0 } := if_pos hc
    have hdn : t.diag n = 0 := by rw [ht.outD n le_rfl, er]; simp [put]
    obtain ⟨p1, p2⟩ := accumulate_plain hdn
    have hnb : t.neben n = s.ma n (n - 1) := by rw [ht.outN n le_rfl, er]; simp [put]
    have hrow : ∀ k, k < n → s.ma n k = t.neben n * if k = n - 1 then 1 else 0 := fun k hk => by
      rw [hnb]
      by_cases hk1 : k = n - 1
      · rw [if_pos hk1, hk1, mul_one]
      · rw [if_neg hk1, mul_zero]
        rcases hc with h | h
        · omega
        · have := (sum_eq_zero_iff_of_nonneg fun k _ => abs_nonneg (s.ma n k)).mp h k (mem_range.mpr hk)
          exact abs_eq_zero.mp this
    have hlow : ∀ k, k < n → low s.ma n k = s.ma n k := fun k hk => if_pos (by omega)
    have hml : low (reflect n s).ma = low s.ma := by rw [er]
    have htri := ht.tri
    rw [hml] at htri
    refine ⟨ortho_extend ht.ortho p1 aR aC a1, ?_, hlast, hlastC, ?_, ?_, ?_⟩
    · refine tri_extend (A := low s.ma) (d := t.diag) (nb := t.neben) hn ?_ (fun x hx => aD x (by omega)) ?_
        (fun x _ _ => by rw [aN]) aR aC a1 ?_ ?_
      · intro a x ha hx
        rw [sum_congr rfl fun b hb => by rw [p1 b x (mem_range.mp hb) hx], htri a x ha hx, p1 a x ha hx]
        have hp : prev ((accumulate n t).ma a) x = prev (t.ma a) x := by
          cases x with
          | zero => rfl
          | succ x => exact p1 a x ha (by omega)
        rw [hp]
        by_cases h : x + 1 < n
        · simp only [h, if_true]
          rw [p1 a (x + 1) ha h]
        · simp [h]
      · rw [p2, ht.outM n n (Or.inl le_rfl), er]
        simp [low]
      · intro x hx
        rw [sum_congr rfl fun b hb => by
          rw [p1 b x (mem_range.mp hb) hx, hlow b (mem_range.mp hb), hrow b (mem_range.mp hb)], aN]
        rw [sum_congr rfl fun b _ => show t.neben n * (if b = n - 1 then 1 else 0) * t.ma b x =
          t.neben n * t.ma b x * (if b = n - 1 then 1 else 0) by ring, sum_delta n (n - 1) (by omega),
          ht.lastR x hx]
      · intro a ha
        rw [low_symm, hlow a ha, hrow a ha, aN, p1 a (n - 1) ha (by omega), ht.lastC a ha]
    · intro r c h
      rw [aM r c h, ht.outM r c (by omega), er]
    · intro x hx
      rw [aD x (by omega), ht.outD x (by omega), er]
      simp only [put]
      rw [if_neg (by omega)]
    · intro x hx
      rw [aN, ht.outN x (by omega), er]
      simp only [put]
      rw [if_neg (by omega)]
  · have er : reflect n s = ⟨fun r c =>
        if r = n ∧ c < n then hvec s.ma n c
        else if c = n ∧ r < n then hvec s.ma n r / rowH s.ma n
        else if r < n ∧ c ≤ r then s.ma r c - (hvec s.ma n r * qvec s.ma n c + qvec s.ma n r * hvec s.ma n c)
        else s.ma r c, put s.diag n (rowH s.ma n), fun j => if j = n then rowAbs s.ma n * rowTmp s.ma n
          else if j < n then qvec s.ma n j else s.neben j⟩ := if_neg hc
    have hab : rowAbs s.ma n ≠ 0 := fun h => hc (Or.inr h)
    have hH := rowH_pos hab
    have hu := hvec_sq (m := s.ma) hn
    have hdn : t.diag n ≠ 0 := by rw [ht.outD n le_rfl, er]; simp [put, hH.ne']
    obtain ⟨p1, p2⟩ := accumulate_refl hdn (u := hvec s.ma n) (H := rowH s.ma n)
      (fun k hk => by rw [ht.outM n k (Or.inl le_rfl), er]; simp [hk])
      (fun k hk => by
        rw [ht.outM k n (Or.inr le_rfl), er]
        simp only
        rw [if_neg (by omega), if_pos (by simp [hk])])
    have hnb : t.neben n = rowAbs s.ma n * rowTmp s.ma n := by rw [ht.outN n le_rfl, er]; simp
    have hlow : ∀ k, k < n → low s.ma n k = s.ma n k := fun k hk => if_pos (by omega)
    have hml : ∀ a b, a < n → b < n → low (reflect n s).ma a b = reduced s.ma n a b := fun a b ha hb => by
      rw [er]
      unfold low reduced low
      simp only
      split
      · rw [if_neg (by omega), if_neg (by omega), if_pos (by omega)]
      · rw [if_neg (by omega), if_neg (by omega), if_pos (by omega)]
        ring
    have hortho : Ortho n (fun r c => refl n (hvec s.ma n) (rowH s.ma n) (fun k => t.ma k c) r) := fun x y hx hy => by
      rw [refl_dot hu hH.ne', ht.ortho x y hx hy]
    have hSn : ∀ y : Nat → ℝ, ∑ b ∈ range n, s.ma n b * refl n (hvec s.ma n) (rowH s.ma n) y b =
        rowAbs s.ma n * rowTmp s.ma n * y (n - 1) := fun y => by
      have := refl_dot hu hH.ne' (refl n (hvec s.ma n) (rowH s.ma n) (s.ma n)) y
      rw [sum_congr rfl fun a _ => by rw [refl_refl hu hH.ne' (s.ma n) a]] at this
      rw [this, sum_congr rfl fun a _ => by rw [refl_row hn hab a]]
      rw [sum_congr rfl fun b _ => show rowAbs s.ma n * rowTmp s.ma n * (if b = n - 1 then 1 else 0) * y b =
          rowAbs s.ma n * rowTmp s.ma n * y b * (if b = n - 1 then 1 else 0) by ring, sum_delta n (n - 1) (by omega)]
    refine ⟨ortho_extend hortho p1 aR aC a1, ?_, hlast, hlastC, ?_, ?_, ?_⟩
    · refine tri_extend (A := low s.ma) (d := t.diag) (nb := t.neben) hn ?_ (fun x hx => aD x (by omega)) ?_
        (fun x _ _ => by rw [aN]) aR aC a1 ?_ ?_
      · intro a x ha hx
        rw [sum_congr rfl fun b hb => by rw [p1 b x (mem_range.mp hb) hx], reduced_refl hn hab _ ha, p1 a x ha hx]
        have e : ∀ c, c < n → ∑ b ∈ range n, reduced s.ma n c b * t.ma b x =
            prev (fun k => if k + 1 < n then t.neben (k + 1) else 0) x * prev (t.ma c) x + t.diag x * t.ma c x +
            (if x + 1 < n then t.neben (x + 1) else 0) * t.ma c (x + 1) := fun c hcn => by
          rw [← ht.tri c x hcn hx]
          exact sum_congr rfl fun b hb => by rw [hml c b hcn (mem_range.mp hb)]
        rw [refl_congr e ha, refl_lin]
        have hp : prev ((accumulate n t).ma a) x = refl n (hvec s.ma n) (rowH s.ma n) (fun c => prev (t.ma c) x) a := by
          cases x with
          | zero => simp [prev, refl]
          | succ x => exact p1 a x ha (by omega)
        rw [hp]
        by_cases h : x + 1 < n
        · simp only [h, if_true]
          rw [p1 a (x + 1) ha h]
        · simp [h]
      · rw [p2, ht.outM n n (Or.inl le_rfl), er]
        simp [low]
      · intro x hx
        rw [sum_congr rfl fun b hb => by rw [p1 b x (mem_range.mp hb) hx, hlow b (mem_range.mp hb)], hSn, aN, hnb,
          ht.lastR x hx]
      · intro a ha
        rw [low_symm, hlow a ha, aN, hnb, p1 a (n - 1) ha (by omega)]
        rw [refl_congr (y := fun k => 0 * 0 + 0 * 0 + 1 * (if k = n - 1 then (1 : ℝ) else 0))
          (fun k hk => by rw [ht.lastC k hk]; simp) ha]
        have := refl_refl hu hH.ne' (s.ma n) a
        rw [← this, refl_congr (y := fun k => 0 * 0 + 0 * 0 + (rowAbs s.ma n * rowTmp s.ma n) * (if k = n - 1 then (1 : ℝ) else 0))
          (fun k hk => by rw [refl_row hn hab k]; simp) ha, refl_lin n _ _ 0 0 _ (fun _ => 0) (fun _ => 0),
          refl_lin n _ _ 0 0 _ (fun _ => 0) (fun _ => 0)]
        ring
    · intro r c h
      rw [aM r c h, ht.outM r c (by omega), er]
      simp only
      rw [if_neg (by omega), if_neg (by omega), if_neg (by omega)]
    · intro x hx
      rw [aD x (by omega), ht.outD x (by omega), er]
      simp only [put]
      rw [if_neg (by omega)]
    · intro x hx
      rw [aN, ht.outN x (by omega), er]
      simp only
      rw [if_neg (by omega), if_neg (by omega)]

/-- The whole reduction. -/
theorem house_ok : ∀ (n : Nat) (s : House), HouseOk (n + 1) s (householder (n + 1) s)
  | 0, s => house_one s
  | n + 1, s => by
    rw [householder_succ]
    exact house_succ (by omega) (house_ok n (reflect (n + 1) s))

end Paradiseo.Eig
