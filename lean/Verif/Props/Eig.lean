import Verif.Lemmas.EigQL
import Verif.Props.CMAState

/-!
# C236, C237: eigenvalues and eigenvectors
-/

namespace Paradiseo.Eig

open Finset
open Paradiseo.Edo (Mat)

/-- The limit of the number of iterations. -/
def limit (N niter : Nat) : Nat := if niter = 0 then 30 * N else niter

/-- What the reduction starts from. -/
noncomputable def start (C : Mat) : House := ⟨fun r c => if c ≤ r then C r c else C c r, fun _ => 0, fun _ => 0⟩

/-- What the QL algorithm starts from. -/
noncomputable def begin_ (N : Nat) (C : Mat) : QL :=
  ⟨(householder N (start C)).diag, put (fun k => (householder N (start C)).neben (k + 1)) (N - 1) 0,
    (householder N (start C)).ma⟩

theorem eig_eq (negl : ℝ → ℝ → Bool) (N : Nat) (C : Mat) (niter : Nat) :
    eig negl N C niter = ((qlOuter negl N (limit N niter) N (begin_ N C) 0).1,
      (qlOuter negl N (limit N niter) N (begin_ N C) 0).2.diag,
      (qlOuter negl N (limit N niter) N (begin_ N C) 0).2.mq) := rfl

theorem begin_inv {N : Nat} (hpos : 0 < N) (C : Mat) (eps : ℝ) : Inv N (low C) eps 0 0 (begin_ N C) := by
  obtain ⟨n, rfl⟩ : ∃ n, N = n + 1 := ⟨N - 1, by omega⟩
  have hh := house_ok n (start C)
  have hlow : low (start C).ma = low C := by
    funext r c
    unfold low start
    simp only
    split
    · rfl
    · rw [if_pos (by omega)]
  have htri := hh.tri
  rw [hlow] at htri
  unfold begin_
  generalize householder (n + 1) _ = t at *
  refine ⟨hh.ortho, ?_, low C, ?_, le_rfl, fun a b _ _ => by simp⟩
  · simp [put]
  · have e : ∀ x, x < n + 1 → mask 0 (n + 1) (put (fun k => t.neben (k + 1)) (n + 1 - 1) 0) x =
        if x + 1 < n + 1 then t.neben (x + 1) else 0 := fun x hx => by
      unfold mask put
      rw [if_neg (by omega)]
      by_cases hxn : x = n
      · rw [if_pos (by omega), if_neg (by omega)]
      · rw [if_neg (by omega), if_pos (by omega)]
    intro a x ha hx
    have := htri a x ha hx
    simp only at this ⊢
    rw [this, e x hx]
    cases x with
    | zero => rfl
    | succ x => rw [prev_succ, prev_succ, prev_succ, e x (by omega)]

theorem eig_outcome {negl : ℝ → ℝ → Bool} {eps : ℝ} (hN : NeglOk eps negl) {N : Nat} (hpos : 0 < N) (C : Mat) (niter : Nat) :
    ∃ s : QL, (eig negl N C niter).2 = (s.diag, s.mq) ∧
      Outcome negl N (low C) eps (limit N niter) ((eig negl N C niter).1, s) := by
  rw [eig_eq]
  refine ⟨_, rfl, ?_⟩
  refine outer_ok hN N _ 0 le_rfl (Nat.zero_le _) ?_
  rw [Nat.sub_self]
  exact begin_inv hpos C eps

/-- A matrix from its eigenvalues and eigenvectors. -/
theorem compose {n : Nat} {A : Mat} {s : QL} (ho : Ortho n s.mq) (h : Tri n A s.diag (mask n n s.neben) s.mq) :
    (∀ a x, a < n → x < n → ∑ b ∈ range n, A a b * s.mq b x = s.diag x * s.mq a x) ∧
    ∀ a b, a < n → b < n → ∑ x ∈ range n, s.mq a x * s.diag x * s.mq b x = A a b := by
  have h1 : ∀ a x, a < n → x < n → ∑ b ∈ range n, A a b * s.mq b x = s.diag x * s.mq a x := fun a x ha hx => by
    have hm : ∀ x, x < n → mask n n s.neben x = 0 := fun x hx => if_pos (Or.inl hx)
    rw [h a x ha hx, hm x hx]
    cases x with
    | zero => simp [prev]
    | succ x => rw [prev_succ, hm x (by omega)]; ring
  refine ⟨h1, fun a b ha hb => ?_⟩
  rw [sum_congr rfl fun x hx => show s.mq a x * s.diag x * s.mq b x = ∑ c ∈ range n, A a c * (s.mq b x * s.mq c x) by
    rw [mul_comm (s.mq a x), ← h1 a x ha (mem_range.mp hx), sum_mul]
    exact sum_congr rfl fun c _ => by ring, sum_comm]
  rw [sum_congr rfl fun c hc => by rw [← mul_sum, ortho_rows ho hb (mem_range.mp hc)]]
  simp [hb]

/-- Whatever the matrix, the test and the limit are: the columns of the result are orthonormal. -/
theorem C236_orthonormal {negl : ℝ → ℝ → Bool} {eps : ℝ} (hN : NeglOk eps negl) {N : Nat} (hpos : 0 < N) (C : Mat)
    (niter : Nat) {x y : Nat} (hx : x < N) (hy : y < N) :
    ∑ a ∈ range N, (eig negl N C niter).2.2 a x * (eig negl N C niter).2.2 a y = if x = y then 1 else 0 := by
  obtain ⟨s, e, h⟩ := eig_outcome hN hpos C niter
  rw [e]
  rcases h with ⟨_, h⟩ | ⟨_, i, _, h⟩ | ⟨_, i, _, h, _⟩
  · exact h.ortho x y hx hy
  · exact h.ortho x y hx hy
  · exact h.ortho x y hx hy

/-- A run that returns less than the limit minus one: eigenvalues and eigenvectors give the matrix, but for an error in
each entry of at most twice its norm times the precision of the test, times the number of iterations plus `N`. -/
theorem C236_decomposition {negl : ℝ → ℝ → Bool} {eps : ℝ} (hN : NeglOk eps negl) {N : Nat} (hpos : 0 < N) (C : Mat)
    (niter : Nat) (hret : (eig negl N C niter).1 + 1 < limit N niter) {a b : Nat} (ha : a < N) (hb : b < N) :
    |∑ x ∈ range N, (eig negl N C niter).2.2 a x * (eig negl N C niter).2.1 x * (eig negl N C niter).2.2 b x - low C a b|
      ≤ ((eig negl N C niter).1 + N : Nat) * (eps * (2 * Real.sqrt (frobSq N (low C)))) := by
  obtain ⟨s, e, h⟩ := eig_outcome hN hpos C niter
  rw [e]
  rcases h with ⟨_, h⟩ | ⟨h, _⟩ | ⟨h, _⟩
  · obtain ⟨A, h1, _, h3⟩ := h.near
    simp only
    rw [(compose h.ortho h1).2 a b ha hb]
    exact h3 a b ha hb
  · simp only at h
    omega
  · simp only at h
    omega

/-- When only zero is negligible, such a run gives exactly the matrix, and the columns are its eigenvectors. -/
theorem C236_exact {negl : ℝ → ℝ → Bool} (hN : NeglOk 0 negl) {N : Nat} (hpos : 0 < N) (C : Mat)
    (niter : Nat) (hret : (eig negl N C niter).1 + 1 < limit N niter) :
    (∀ a b, a < N → b < N → ∑ x ∈ range N, (eig negl N C niter).2.2 a x * (eig negl N C niter).2.1 x *
      (eig negl N C niter).2.2 b x = low C a b) ∧
    ∀ a x, a < N → x < N → ∑ b ∈ range N, low C a b * (eig negl N C niter).2.2 b x =
      (eig negl N C niter).2.1 x * (eig negl N C niter).2.2 a x := by
  have h1 : ∀ a b, a < N → b < N → ∑ x ∈ range N, (eig negl N C niter).2.2 a x * (eig negl N C niter).2.1 x *
      (eig negl N C niter).2.2 b x = low C a b := fun a b ha hb => by
    have := C236_decomposition hN hpos C niter hret ha hb
    rw [zero_mul, mul_zero] at this
    linarith [abs_nonpos_iff.mp this]
  refine ⟨h1, fun a x ha hx => ?_⟩
  rw [sum_congr rfl fun b hb => by rw [← h1 a b ha (mem_range.mp hb), sum_mul], sum_comm]
  rw [sum_congr rfl fun y hy => show _ = (eig negl N C niter).2.2 a y * (eig negl N C niter).2.1 y *
    ∑ b ∈ range N, (eig negl N C niter).2.2 b y * (eig negl N C niter).2.2 b x by
      rw [mul_sum]
      exact sum_congr rfl fun b _ => by ring]
  rw [sum_congr rfl fun y hy => by rw [C236_orthonormal hN hpos C niter (mem_range.mp hy) hx]]
  rw [sum_delta N x hx (fun y => (eig negl N C niter).2.2 a y * (eig negl N C niter).2.1 y)]
  ring

open Classical in
/-- The test in exact arithmetic. -/
noncomputable def realTest (e t : ℝ) : Bool := decide (|e| + t = t)

theorem realTest_iff (e t : ℝ) : realTest e t = true ↔ e = 0 := by
  unfold realTest
  rw [decide_eq_true_iff]
  constructor
  · intro h
    exact abs_eq_zero.mp (by linarith)
  · rintro rfl
    simp

theorem C236_real_test : NeglOk 0 realTest :=
  ⟨le_rfl, fun e t _ h => by rw [(realTest_iff e t).mp h]; simp⟩

open Classical in
/-- The test with a rounding `fl` of the sum. -/
noncomputable def floatTest (fl : ℝ → ℝ) (e t : ℝ) : Bool := decide (fl (|e| + t) = t)

/-- A rounding with relative error at most `u`: the test is passed by numbers up to `u / (1 - u)` times the sum only. -/
theorem C236_float_test {fl : ℝ → ℝ} {u : ℝ} (h0 : 0 ≤ u) (h1 : u < 1) (hfl : ∀ x, |fl x - x| ≤ u * |x|) :
    NeglOk (u / (1 - u)) (floatTest fl) := by
  have hu : 0 < 1 - u := by linarith
  refine ⟨div_nonneg h0 hu.le, fun e t ht h => ?_⟩
  have h := of_decide_eq_true h
  have := hfl (|e| + t)
  rw [h, show t - (|e| + t) = -|e| by ring, abs_neg, abs_abs, abs_of_nonneg (a := |e| + t) (by positivity)] at this
  rw [div_mul_eq_mul_div, le_div_iff₀ hu]
  linarith

/-- Taking only such runs, the program is a solver as C152 asks for. -/
theorem C236_solver {N : Nat} (hpos : 0 < N) (niter : Nat) : Cma.IsSolver N fun _ C =>
    if (eig realTest N C niter).1 + 1 < limit N niter then
      some ((eig realTest N C niter).2.2, (eig realTest N C niter).2.1) else none := by
  intro t C hsym B v he
  beta_reduce at he
  split at he
  · rename_i hret
    obtain ⟨rfl, rfl⟩ := Prod.mk.inj (Option.some.inj he)
    refine ⟨fun k l hk hl => C236_orthonormal C236_real_test hpos C niter hk hl, fun i j hi hj => ?_⟩
    rw [(C236_exact C236_real_test hpos C niter hret).1 i j hi hj]
    unfold low
    split
    · rfl
    · exact hsym i j
  · cases he

/-! ### No division by zero -/

/-- Reducing a row: the row is divided by a positive number and `h` is positive. -/
theorem C236_reflect_defined {ma : Mat} {i : Nat} (h : rowAbs ma i ≠ 0) : 0 < rowAbs ma i ∧ 0 < rowH ma i :=
  ⟨rowAbs_pos h, rowH_pos h⟩

/-- The shift: `diff` with the root is not zero. -/
theorem C236_shift_defined (x : ℝ) : (0 ≤ x → x + Real.sqrt (x * x + 1) ≠ 0) ∧ (x < 0 → x - Real.sqrt (x * x + 1) ≠ 0) := by
  have h : 0 < Real.sqrt (x * x + 1) := Real.sqrt_pos.mpr (by nlinarith [mul_self_nonneg x])
  exact ⟨fun hx => by linarith, fun hx => by linarith⟩

theorem rotateDown_add (i m l : Nat) (w : Sweep) :
    rotateDown i (m + l) w = rotateDown i m (rotateDown (i + m) l w) := by
  induction l generalizing w with
  | zero => rfl
  | succ l ih =>
    show rotateDown i (m + l) (rotate (i + (m + l)) w) = _
    rw [ih, ← Nat.add_assoc]
    rfl

theorem rotateDown_c2 {i : Nat} : ∀ (m : Nat) (w : Sweep), w.c2 ≠ 0 → (∀ k, i ≤ k → k < i + m → w.ql.neben k ≠ 0) →
    (rotateDown i m w).c2 ≠ 0
  | 0, _, h, _ => h
  | m + 1, w, h, hn => by
    refine rotateDown_c2 m _ (rotation_ne (mul_ne_zero h (hn _ (by omega) (by omega))) _) fun k h1 h2 => ?_
    show put w.ql.neben (i + m + 1) _ k ≠ 0
    unfold put
    rw [if_neg (by omega)]
    exact hn k h1 (by omega)

/-- When zero is negligible, no sweep divides by zero: the entry at `i` is not zero, and before the rotation for any `k`
the product `tmp` is not zero, so neither its quotients nor, when it is smaller than `diff`, those by `diff` are by
zero. -/
theorem C236_sweep_defined {negl : ℝ → ℝ → Bool} (h0 : ∀ t, negl 0 t = true) {N i : Nat} {s : QL} {j : Nat}
    (hj : j = split negl s (N - 1 - i) i) {k : Nat} (hik : i ≤ k) (hkj : k < j) (g : ℝ) :
    s.neben k ≠ 0 ∧
    (let w := rotateDown (k + 1) (j - (k + 1)) ⟨s, 1, 1, 0, g⟩
     w.c2 * w.ql.neben k ≠ 0 ∧
      rotateDown i (j - i) ⟨s, 1, 1, 0, g⟩ = rotateDown i (k - i) (rotate k w)) := by
  obtain ⟨s1, s2, s3, s4⟩ := split_spec negl s (N - 1 - i) i
  rw [← hj] at s1 s2 s3
  have hne : ∀ k, i ≤ k → k < j → s.neben k ≠ 0 := fun k h1 h2 h => by
    have := s3 k h1 h2
    rw [h, h0] at this
    exact absurd this (by simp)
  refine ⟨hne k hik hkj, mul_ne_zero ?_ ?_, ?_⟩
  · exact rotateDown_c2 _ _ one_ne_zero fun k' h1 h2 => hne k' (by omega) (by omega)
  · rw [rotateDown_keep _ _ _ _ (Or.inl (by omega))]
    exact hne k hik hkj
  · rw [show j - i = (k - i) + (j - k) by omega, rotateDown_add, show i + (k - i) = k by omega,
      show j - k = 1 + (j - (k + 1)) by omega, rotateDown_add]
    rfl

/-! ### Two by two -/

/-- One sweep finishes a matrix of order two. -/
theorem sweep_two {s : QL} (he : s.neben 0 ≠ 0) : (sweep 0 1 s).neben 0 = 0 := by
  obtain ⟨r1, r2, r3⟩ := rotation_spec (1 * s.neben 0) (shift s 0 1)
  have hsh : shift s 0 1 * shift s 0 1 + (s.diag 0 - s.diag 1) * shift s 0 1 - s.neben 0 * s.neben 0 = 0 := by
    have hsq := Real.mul_self_sqrt (show 0 ≤ (s.diag 1 - s.diag 0) / s.neben 0 / 2 * ((s.diag 1 - s.diag 0) / s.neben 0 / 2) + 1 by
      nlinarith [mul_self_nonneg ((s.diag 1 - s.diag 0) / s.neben 0 / 2)])
    obtain ⟨d1, d2⟩ := C236_shift_defined ((s.diag 1 - s.diag 0) / s.neben 0 / 2)
    unfold shift
    simp only [Nat.zero_add]
    have hd : s.diag 1 - s.diag 0 = 2 * ((s.diag 1 - s.diag 0) / s.neben 0 / 2) * s.neben 0 := by field_simp
    have hd' : s.diag 0 - s.diag 1 = -(2 * ((s.diag 1 - s.diag 0) / s.neben 0 / 2) * s.neben 0) := by linarith
    generalize (s.diag 1 - s.diag 0) / s.neben 0 / 2 = x at *
    generalize Real.sqrt (x * x + 1) = r at *
    rw [hd, hd']
    split
    · rename_i h
      have := d1 h
      field_simp
      linear_combination (-(s.neben 0) ^ 2) * hsq
    · rename_i h
      have := d2 (lt_of_not_ge h)
      field_simp
      linear_combination (-(s.neben 0) ^ 2) * hsq
  have e : (sweep 0 1 s).neben 0 = (rotate 0 ⟨s, 1, 1, 0, shift s 0 1⟩).diff := rfl
  rw [e]
  unfold rotate
  simp only
  generalize rotation (1 * s.neben 0) (shift s 0 1) = t at *
  obtain ⟨c, d, r⟩ := t
  simp only at *
  have hr : r ≠ 0 := fun h => by rw [h, mul_zero, one_mul] at r2; exact he r2.symm
  have hk : c * c * r + (s.diag 0 - s.diag 1) * c - d * d * r = 0 := by
    refine (mul_eq_zero.mp (show r * (c * c * r + (s.diag 0 - s.diag 1) * c - d * d * r) = 0 from ?_)).resolve_left hr
    rw [one_mul] at r2
    rw [← r3, ← r2] at hsh
    linear_combination hsh
  rw [one_mul] at r2
  rw [one_mul, ← r2]
  linear_combination d * hk + d * r * r1

theorem split_one {s : QL} {i : Nat} : split realTest s 1 i = if s.neben i = 0 then i else i + 1 := by
  unfold split split
  by_cases h : s.neben i = 0
  · rw [if_pos h, if_pos ((realTest_iff _ _).mpr h)]
  · rw [if_neg h, if_neg fun h' => h ((realTest_iff _ _).mp h')]

theorem inner_stop {N maxIter i : Nat} {negl : ℝ → ℝ → Bool} {s : QL} {iter : Nat} (h : split negl s (N - 1 - i) i = i) :
    qlInner negl N maxIter i s iter = .done s iter := by
  rw [qlInner, if_pos h]

/-- The number of sweeps for a matrix of order two: one, none when it is diagonal. -/
theorem qlAlgo_two (s : QL) {maxIter : Nat} (hm : 2 ≤ maxIter) :
    (qlAlgo realTest 2 maxIter s).1 = if s.neben 0 = 0 then 0 else 1 := by
  have last : ∀ (t : QL) iter, iter < maxIter → qlOuter realTest 2 maxIter 1 t iter = (iter, t) := fun t iter ht => by
    rw [qlOuter, if_pos ht, inner_stop (by rfl)]
    rfl
  unfold qlAlgo
  rw [qlOuter, if_pos (by omega)]
  by_cases h : s.neben 0 = 0
  · have h' : ({ s with neben := put s.neben (2 - 1) 0 } : QL).neben 0 = 0 := h
    rw [inner_stop (by rw [show 2 - 1 - (2 - (1 + 1)) = 1 by rfl, split_one, show 2 - (1 + 1) = 0 by rfl, if_pos h']), if_pos h]
    simp only
    rw [last _ _ (by omega)]
  · have h' : ({ s with neben := put s.neben (2 - 1) 0 } : QL).neben 0 ≠ 0 := h
    generalize ({ s with neben := put s.neben (2 - 1) 0 } : QL) = t at *
    rw [show 2 - (1 + 1) = 0 by rfl, qlInner, show 2 - 1 - 0 = 1 by rfl, split_one, if_neg h', if_neg (by omega), if_neg (by omega),
      inner_stop (by rw [show 2 - 1 - 0 = 1 by rfl, split_one, if_pos (sweep_two h')]), if_neg h]
    simp only
    rw [last _ _ (by omega)]

/-- Every matrix of order two is finished after at most one sweep, so the result is exact. -/
theorem C236_two (C : Mat) {niter : Nat} (hm : niter = 0 ∨ 3 ≤ niter) :
    (eig realTest 2 C niter).1 ≤ 1 ∧
    ∀ a b, a < 2 → b < 2 → ∑ x ∈ range 2, (eig realTest 2 C niter).2.2 a x * (eig realTest 2 C niter).2.1 x *
      (eig realTest 2 C niter).2.2 b x = low C a b := by
  have hl : 3 ≤ limit 2 niter := by unfold limit; split <;> omega
  have h : (eig realTest 2 C niter).1 ≤ 1 := by
    refine le_of_eq_of_le (qlAlgo_two _ (show 2 ≤ limit 2 niter by omega)) ?_
    split <;> omega
  exact ⟨h, (C236_exact C236_real_test (by omega) C niter (by omega)).1⟩

/-! ## C237: the number returned -/

theorem cut_off {N : Nat} (C : Mat) {s : QL} {i m : Nat} (h : Inv N (low C) 0 i m s) (hi : i < N)
    (hcut : split realTest s (N - 1 - i) i ≠ i) :
    ∃ a, a < N ∧ ∑ b ∈ range N, low C a b * s.mq b i ≠ s.diag i * s.mq a i := by
  obtain ⟨s1, s2, s3, _⟩ := split_spec realTest s (N - 1 - i) i
  have hne : s.neben i ≠ 0 := fun h0 => by
    have := s3 i le_rfl (by omega)
    rw [(realTest_iff _ _).mpr h0] at this
    exact absurd this (by simp)
  obtain ⟨A, t1, _, t3⟩ := h.near
  have hA : ∀ a b, a < N → b < N → A a b = low C a b := fun a b ha hb => by
    have := t3 a b ha hb
    rw [zero_mul, mul_zero] at this
    linarith [abs_nonpos_iff.mp this]
  by_contra hcon
  push Not at hcon
  have hz : ∀ a, a < N → s.mq a (i + 1) = 0 := fun a ha => by
    have h1 := t1 a i ha hi
    have hp : prev (mask i N s.neben) i = 0 := by
      cases i with
      | zero => rfl
      | succ i => exact if_pos (Or.inl (by omega))
    have hm : mask i N s.neben i = s.neben i := if_neg (by omega)
    rw [sum_congr rfl fun b hb => by rw [hA a b ha (mem_range.mp hb)], hcon a ha, hp, hm] at h1
    have : s.neben i * s.mq a (i + 1) = 0 := by linarith
    exact (mul_eq_zero.mp this).resolve_left hne
  have := h.ortho (i + 1) (i + 1) (by omega) (by omega)
  rw [if_pos rfl, sum_eq_zero fun a ha => by rw [hz a (mem_range.mp ha), zero_mul]] at this
  exact zero_ne_one this

/-- When only zero is negligible: a number below the limit, which its caller takes for success, means that the result is
exact, or that it is the limit minus one and some column is not an eigenvector. -/
theorem C237_accepted {N : Nat} (hpos : 0 < N) (C : Mat) (niter : Nat)
    (hret : (eig realTest N C niter).1 < limit N niter) :
    (∀ a b, a < N → b < N → ∑ x ∈ range N, (eig realTest N C niter).2.2 a x * (eig realTest N C niter).2.1 x *
      (eig realTest N C niter).2.2 b x = low C a b) ∨
    ((eig realTest N C niter).1 + 1 = limit N niter ∧ ∃ a x, a < N ∧ x < N ∧
      ∑ b ∈ range N, low C a b * (eig realTest N C niter).2.2 b x ≠
        (eig realTest N C niter).2.1 x * (eig realTest N C niter).2.2 a x) := by
  obtain ⟨s, e, h⟩ := eig_outcome C236_real_test hpos C niter
  rw [e]
  rcases h with ⟨_, h⟩ | ⟨h, _⟩ | ⟨h1, i, hi, h2, h3⟩
  · left
    obtain ⟨A, h1, _, h3⟩ := h.near
    intro a b ha hb
    simp only
    rw [(compose h.ortho h1).2 a b ha hb]
    have := h3 a b ha hb
    rw [zero_mul, mul_zero] at this
    linarith [abs_nonpos_iff.mp this]
  · simp only at h
    omega
  · right
    simp only at h1
    obtain ⟨a, ha, hne⟩ := cut_off C h2 hi h3
    exact ⟨by omega, a, i, ha, hi, hne⟩

/-- The path of three vertices. -/
def path : Mat := fun r c => if r = c + 1 then 1 else 0

theorem sweep_path {s : QL} (d0 : s.diag 0 = 0) (d1 : s.diag 1 = 0) (d2 : s.diag 2 = 0) (e0 : s.neben 0 = -1)
    (e1 : s.neben 1 = -1) : (sweep 0 2 s).neben 0 ≠ 0 := by
  have hs : shift s 0 2 = -1 := by
    unfold shift
    simp [d0, d1, d2, e0]
  have hr : rotation (1 * -1) (-1) = (1 / Real.sqrt 2, 1 / Real.sqrt 2, (1 * -1) / (1 / Real.sqrt 2)) := by
    unfold rotation
    norm_num
  have ha : 1 / Real.sqrt 2 * (1 / Real.sqrt 2) = 1 / 2 := by
    rw [div_mul_div_comm, one_mul, Real.mul_self_sqrt (by norm_num)]
  have ha0 : 1 / Real.sqrt 2 ≠ 0 := by positivity
  generalize 1 / Real.sqrt 2 = a at *
  have h1 : ∃ w, rotate 1 ⟨s, 1, 1, 0, -1⟩ = w ∧ w.c1 = a ∧ w.c2 = a ∧ w.p = -1 ∧ w.diff = 0 ∧ w.ql.diag 0 = 0 ∧
      w.ql.diag 1 = 0 ∧ w.ql.neben 0 = -1 := by
    refine ⟨_, rfl, ?_, ?_, ?_, ?_, ?_, ?_, ?_⟩ <;> simp only [rotate, e1, hr, put, d1, d2]
    · linear_combination (-2) * ha
    · linear_combination (-2) * ha
    · exact d0
    · simp
    · exact e0
  obtain ⟨w, hw, w1, w2, w3, w4, w5, w6, w7⟩ := h1
  have h2 : (sweep 0 2 s).neben 0 = (rotate 0 (rotate 1 ⟨s, 1, 1, 0, shift s 0 2⟩)).diff := rfl
  rw [h2, hs, hw]
  have hr2 : rotation (a * -1) 0 = (0, 1, a * -1) := by
    unfold rotation
    simp
  simp only [rotate, w1, w2, w3, w4, w5, w6, w7, hr2]
  intro h
  apply ha0
  linarith

theorem house_path : let t := householder 3 (start path)
    t.diag 0 = 0 ∧ t.diag 1 = 0 ∧ t.diag 2 = 0 ∧ t.neben 1 = -1 ∧ t.neben 2 = -1 := by
  unfold start
  generalize hm : (fun r c => if c ≤ r then path r c else path c r) = m
  have m00 : m 0 0 = 0 := by rw [← hm]; simp [path]
  have m10 : m 1 0 = 1 := by rw [← hm]; simp [path]
  have m11 : m 1 1 = 0 := by rw [← hm]; simp [path]
  have m20 : m 2 0 = 0 := by rw [← hm]; simp [path]
  have m21 : m 2 1 = 1 := by rw [← hm]; simp [path]
  have m22 : m 2 2 = 0 := by rw [← hm]; simp [path]
  have hA : rowAbs m 2 = 1 := by simp [rowAbs, sum_range_succ, m20, m21]
  have hS : rowSq m 2 = 1 := by simp [rowSq, hA, sum_range_succ, m20, m21]
  have hT : rowTmp m 2 = -1 := by simp [rowTmp, hA, hS, m21]
  have hH : rowH m 2 = 2 := by simp [rowH, hA, hS, hT, m21]; norm_num
  have u0 : hvec m 2 0 = 0 := by simp [hvec, hA, m20]
  have u1 : hvec m 2 1 = 2 := by simp [hvec, hA, hT, m21]; norm_num
  have p0 : pvec m 2 0 = 1 := by simp [pvec, hH, u0, u1, m10]
  have p1 : pvec m 2 1 = 0 := by simp [pvec, hH, u0, u1, m10, m11, sum_range_succ]
  have hK : halfK m 2 = 0 := by simp [halfK, sum_range_succ, p0, p1, u0]
  have q0 : qvec m 2 0 = 1 := by simp [qvec, p0, u0]
  have q1 : qvec m 2 1 = 0 := by simp [qvec, p1, hK]
  have hr : reflect 2 ⟨m, fun _ => 0, fun _ => 0⟩ = ⟨fun r c =>
        if r = 2 ∧ c < 2 then hvec m 2 c
        else if c = 2 ∧ r < 2 then hvec m 2 r / rowH m 2
        else if r < 2 ∧ c ≤ r then m r c - (hvec m 2 r * qvec m 2 c + qvec m 2 r * hvec m 2 c)
        else m r c, put (fun _ => 0) 2 (rowH m 2), fun j => if j = 2 then rowAbs m 2 * rowTmp m 2
          else if j < 2 then qvec m 2 j else 0⟩ := if_neg (by simp [hA])
  have e : householder 3 ⟨m, fun _ => 0, fun _ => 0⟩ = accumulate 2 (accumulate 1 (householder 1 (reflect 1
    (reflect 2 ⟨m, fun _ => 0, fun _ => 0⟩)))) := rfl
  simp only
  rw [e, hr]
  unfold householder accumulateUp accumulateUp accumulate reduceDown reflect
  refine ⟨?_, ?_, ?_, ?_, ?_⟩ <;> simp [put, m00, m10, m11, m22, u0, u1, q0, q1, hH, hA, hT]
  all_goals norm_num

/-- A run cut off after one sweep is taken for success though its result is wrong. -/
theorem C237_cut_off_accepted : (eig realTest 3 path 1).1 < limit 3 1 ∧ ∃ a x, a < 3 ∧ x < 3 ∧
      ∑ b ∈ range 3, low path a b * (eig realTest 3 path 1).2.2 b x ≠
        (eig realTest 3 path 1).2.1 x * (eig realTest 3 path 1).2.2 a x := by
  obtain ⟨d0, d1, d2, e1, e2⟩ := house_path
  have b0 : (begin_ 3 path).neben 0 = -1 := e1
  have b1 : (begin_ 3 path).neben 1 = -1 := e2
  have hs := sweep_path (s := begin_ 3 path) d0 d1 d2 b0 b1
  have hsplit : split realTest (begin_ 3 path) (3 - 1 - 0) 0 = 2 := by
    show split realTest (begin_ 3 path) 2 0 = 2
    unfold split
    rw [if_neg (by rw [realTest_iff, b0]; norm_num), split_one, if_neg (by rw [b1]; norm_num)]
  have hsplit2 : split realTest (sweep 0 2 (begin_ 3 path)) (3 - 1 - 0) 0 ≠ 0 := by
    show split realTest (sweep 0 2 (begin_ 3 path)) 2 0 ≠ 0
    unfold split
    rw [if_neg (by rw [realTest_iff]; exact hs), split_one]
    split <;> omega
  have hin : qlInner realTest 3 1 0 (begin_ 3 path) 0 = .cut (sweep 0 2 (begin_ 3 path)) := by
    rw [qlInner, hsplit, if_neg (by omega), if_neg (by omega), qlInner, if_neg hsplit2, if_pos (by omega)]
  have hout : qlOuter realTest 3 1 3 (begin_ 3 path) 0 = (0, sweep 0 2 (begin_ 3 path)) := by
    rw [qlOuter, if_pos (by omega), show 3 - (2 + 1) = 0 by rfl, hin]
  have hI := inner_ok C236_real_test (maxIter := 1) (i := 0) (n := 3) (by omega) _ (begin_ 3 path) 0 0 rfl (by omega)
    (begin_inv (by omega) path 0)
  rw [hin] at hI
  obtain ⟨_, h2, h3⟩ := hI
  obtain ⟨a, ha, hne⟩ := cut_off path h2 (by omega) h3
  rw [eig_eq, show limit 3 1 = 1 by rfl, hout]
  exact ⟨by omega, a, 0, ha, by omega, hne⟩

/-- So the program with the test of its caller is not a solver as C152 asks for. -/
theorem C237_no_solver : ¬Cma.IsSolver 3 fun _ C =>
    if (eig realTest 3 C 1).1 < limit 3 1 then some ((eig realTest 3 C 1).2.2, (eig realTest 3 C 1).2.1) else none := by
  intro hs
  obtain ⟨hret, a, x, ha, hx, hne⟩ := C237_cut_off_accepted
  have heq : eig realTest 3 (low path) 1 = eig realTest 3 path 1 := by
    rw [eig_eq, eig_eq]
    have : begin_ 3 (low path) = begin_ 3 path := by
      unfold begin_
      have : start (low path) = start path := by
        unfold start
        congr 1
        funext r c
        unfold low
        split
        · rfl
        · rw [if_pos (by omega)]
      rw [this]
    rw [this]
  obtain ⟨ho, hd⟩ := hs 0 (low path) (low_symm path) (eig realTest 3 path 1).2.2 (eig realTest 3 path 1).2.1 (by
    beta_reduce
    rw [heq, if_pos hret])
  apply hne
  rw [sum_congr rfl fun b hb => by rw [hd a b ha (mem_range.mp hb), sum_mul], sum_comm]
  rw [sum_congr rfl fun y hy => show _ = (eig realTest 3 path 1).2.2 a y * (eig realTest 3 path 1).2.1 y *
    ∑ b ∈ range 3, (eig realTest 3 path 1).2.2 b y * (eig realTest 3 path 1).2.2 b x by
      rw [mul_sum]
      exact sum_congr rfl fun b _ => by ring]
  rw [sum_congr rfl fun y hy => by rw [ho y x (mem_range.mp hy) hx]]
  rw [sum_delta 3 x hx (fun y => (eig realTest 3 path 1).2.2 a y * (eig realTest 3 path 1).2.1 y)]
  ring

/-- A run that needs exactly as many sweeps as allowed is finished and right, but returns the limit, which is taken for
failure. -/
theorem C237_finished_rejected (C : Mat) (h : C 1 0 ≠ 0) : (eig realTest 2 C 1).1 = limit 2 1 ∧
    ∀ a b, a < 2 → b < 2 → ∑ x ∈ range 2, (eig realTest 2 C 1).2.2 a x * (eig realTest 2 C 1).2.1 x *
      (eig realTest 2 C 1).2.2 b x = low C a b := by
  have b0 : (begin_ 2 C).neben 0 = C 1 0 := by
    have e : householder 2 (start C) = accumulate 1 (householder 1 (reflect 1 (start C))) := rfl
    have er : reflect 1 (start C) = { start C with neben := put (start C).neben 1 ((start C).ma 1 (1 - 1)), diag := put (start C).diag 1 0 } :=
      if_pos (Or.inl rfl)
    show (householder 2 (start C)).neben 1 = C 1 0
    rw [e, er]
    rfl
  have hne : (begin_ 2 C).neben 0 ≠ 0 := by rw [b0]; exact h
  have hstop : split realTest (sweep 0 1 (begin_ 2 C)) (2 - 1 - 0) 0 = 0 := by
    rw [show 2 - 1 - 0 = 1 by rfl, split_one, if_pos (sweep_two hne)]
  have hin : qlInner realTest 2 1 0 (begin_ 2 C) 0 = .done (sweep 0 1 (begin_ 2 C)) 1 := by
    rw [qlInner, show 2 - 1 - 0 = 1 by rfl, split_one, if_neg hne, if_neg (by omega), if_neg (by omega), inner_stop hstop]
  have hout : qlOuter realTest 2 1 2 (begin_ 2 C) 0 = (1, sweep 0 1 (begin_ 2 C)) := by
    rw [qlOuter, if_pos (by omega), show 2 - (1 + 1) = 0 by rfl, hin]
    simp only
    rw [qlOuter, if_neg (by omega)]
  have hI := inner_ok C236_real_test (maxIter := 1) (i := 0) (n := 2) (by omega) _ (begin_ 2 C) 0 0 rfl (by omega)
    (begin_inv (by omega) C 0)
  rw [hin] at hI
  have h2 := inv_next C236_real_test hI.2.2 (by omega) rfl
  obtain ⟨A, t1, _, t3⟩ := h2.near
  rw [eig_eq, show limit 2 1 = 1 by rfl, hout]
  refine ⟨rfl, fun a b ha hb => ?_⟩
  simp only
  rw [(compose h2.ortho t1).2 a b ha hb]
  have := t3 a b ha hb
  rw [zero_mul, mul_zero] at this
  linarith [abs_nonpos_iff.mp this]

end Paradiseo.Eig
