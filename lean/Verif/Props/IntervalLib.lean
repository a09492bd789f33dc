import Verif.Lemmas.IntervalLib
import Mathlib.Data.Rat.Floor
/-
C285: the arithmetic of the interval library: whatever the roundings do, as long as they go outwards, the result contains
every result; without rounding it is the exact image; with the rounding the symbolic regression uses it contains it only
if nothing is rounded; powers round their lower end upwards; `fmod` takes one multiple for the whole interval.
-/
namespace Paradiseo.IvLib

open Fl

variable {K : Type} [Field K] [LinearOrder K] [IsStrictOrderedRing K]

/-! ## Specification -/

/-- An operation on intervals contains the operation on numbers. -/
def Contains (f : K → K → K) (op : Iv K → Iv K → Iv K) : Prop :=
  ∀ X Y x y, Mem x X → Mem y Y → Mem (f x y) (op X Y)

/-- The result on intervals with finite ends is the set of results, no more. -/
def Image (f : K → K → K) (op : Iv K → Iv K → Iv K) : Prop :=
  ∀ a b c d z, a ≤ b → c ≤ d →
    (Mem z (op ⟨.fin a, .fin b⟩ ⟨.fin c, .fin d⟩) ↔ ∃ x y, a ≤ x ∧ x ≤ b ∧ c ≤ y ∧ y ≤ d ∧ z = f x y)

/-! ## Containment under any outward rounding -/

/-- **C285 (binary operations).** -/
theorem C285_contains (r : Rnd K) (hr : Sound r) :
    Contains (· + ·) (add r) ∧ Contains (· - ·) (sub r) ∧ Contains (· * ·) (mul r) :=
  ⟨fun _ _ _ _ hx hy => add_mem hr hx hy, fun _ _ _ _ hx hy => sub_mem hr hx hy, fun _ _ _ _ hx hy => mul_mem hr hx hy⟩

/-- **C285 (division).** The divisor may contain zero: the quotients by the other numbers are contained. -/
theorem C285_div (r : Rnd K) (hr : Sound r) (X Y : Iv K) (x y : K) (hx : Mem x X) (hy : Mem y Y) (y0 : y ≠ 0) :
    Mem (x / y) (div r X Y) := div_mem hr hx hy y0

/-- **C285 (division by zero).** The divisor that is zero and nothing else leaves nothing. -/
theorem C285_div_zero (r : Rnd K) (X : Iv K) (x : K) : ¬Mem x (div r X ⟨.fin 0, .fin 0⟩) := by
  have h : div r X ⟨.fin 0, .fin 0⟩ = none := by
    simp [div, inZero, empty, le, isPos, isNeg, lt, isZero, Fl.eq]
  rw [h]
  rintro ⟨h, _⟩
  simp [none, le] at h

/-- **C285 (division by or of a number).** -/
theorem C285_div_number (r : Rnd K) (hr : Sound r) (X : Iv K) (x c : K) (hx : Mem x X) :
    (x ≠ 0 → Mem (c / x) (sdiv r (.fin c) X)) ∧ (c ≠ 0 → Mem (x / c) (divs r X (.fin c))) := by
  refine ⟨fun h => ?_, divs_mem hr hx⟩
  rw [sdiv_eq]
  exact div_mem hr (by simp [Mem, single, le]) hx h

/-- **C285 (one operand).** Minus, multiplication by a number, inverse, square. -/
theorem C285_unary (r : Rnd K) (hr : Sound r) (X : Iv K) (x c : K) (hx : Mem x X) :
    Mem (-x) (opp X) ∧ Mem (c * x) (smul r (.fin c) X) ∧ (x ≠ 0 → Mem x⁻¹ (inverse r X)) ∧ Mem (x * x) (square r X) :=
  ⟨opp_mem hx, smul_mem hr hx, inverse_mem hr hx, square_mem hr hx⟩

/-- **C285 (root).** The root of every number of the interval that has one is contained, also if other numbers of
the interval are negative. -/
theorem C285_sqrt (sd su : K → Fl K) (h : SoundRoot sd su) (X : Iv K) (q : K) (q0 : 0 ≤ q) (hx : Mem (q * q) X) :
    Mem q (sqrt sd su X) := sqrt_mem h q0 hx

/-- **C285 (opposite trick).** Rounding downwards by rounding the opposite upwards is a rounding downwards. -/
theorem C285_opposite (up : K → Fl K) (h : ∀ a, le (.fin a) (up a) = true) : Sound ⟨oppDn up, up⟩ := by
  intro a
  refine ⟨?_, h a⟩
  have h := h (-a)
  revert h
  simp only [oppDn]
  cases up (-a) <;> simp [le, neg]
  intro h
  linarith

/-! ## The exact image -/

/-- **C285 (no more than needed).** Without rounding, sum, difference and product are the sets of results. -/
theorem C285_image : Image (· + ·) (add (exact (K := K))) ∧ Image (· - ·) (sub (exact (K := K))) ∧
    Image (· * ·) (mul (exact (K := K))) := by
  refine ⟨?_, ?_, ?_⟩
  · intro a b c d z hab hcd
    refine ⟨fun h => ?_, ?_⟩
    · rw [add, not_empty_fin hab, not_empty_fin hcd] at h
      have h : a + c ≤ z ∧ z ≤ b + d := mem_fin.1 h
      rcases le_total (z - c) b with h1 | h1
      · exact ⟨z - c, c, by linarith, h1, le_rfl, hcd, by ring⟩
      · exact ⟨b, z - b, hab, le_rfl, by linarith, by linarith, by ring⟩
    · rintro ⟨x, y, h1, h2, h3, h4, rfl⟩
      exact add_mem exact_sound (mem_fin.2 ⟨h1, h2⟩) (mem_fin.2 ⟨h3, h4⟩)
  · intro a b c d z hab hcd
    refine ⟨fun h => ?_, ?_⟩
    · rw [sub, not_empty_fin hab, not_empty_fin hcd] at h
      have h : a - d ≤ z ∧ z ≤ b - c := mem_fin.1 h
      rcases le_total (z + d) b with h1 | h1
      · exact ⟨z + d, d, by linarith, h1, hcd, le_rfl, by ring⟩
      · exact ⟨b, b - z, hab, le_rfl, by linarith, by linarith, by ring⟩
    · rintro ⟨x, y, h1, h2, h3, h4, rfl⟩
      exact sub_mem exact_sound (mem_fin.2 ⟨h1, h2⟩) (mem_fin.2 ⟨h3, h4⟩)
  · intro a b c d z hab hcd
    refine ⟨fun h => ?_, ?_⟩
    · obtain ⟨x1, y1, x2, y2, e, h1, h2, h3, h4⟩ := mul_corner hab hcd
      rw [e, mem_fin] at h
      obtain ⟨x, y, hz, hx, hy⟩ := between_prod h.1 h.2
      have bx : a ≤ x ∧ x ≤ b := by
        apply hx <;> [rcases h1 with rfl | rfl; rcases h2 with rfl | rfl; rcases h1 with rfl | rfl; rcases h2 with rfl | rfl] <;>
          first | exact le_rfl | assumption
      have by' : c ≤ y ∧ y ≤ d := by
        apply hy <;> [rcases h3 with rfl | rfl; rcases h4 with rfl | rfl; rcases h3 with rfl | rfl; rcases h4 with rfl | rfl] <;>
          first | exact le_rfl | assumption
      exact ⟨x, y, bx.1, bx.2, by'.1, by'.2, hz.symm⟩
    · rintro ⟨x, y, h1, h2, h3, h4, rfl⟩
      exact mul_mem exact_sound (mem_fin.2 ⟨h1, h2⟩) (mem_fin.2 ⟨h3, h4⟩)

/-- **C285 (no more than needed, division).** Without rounding and without zero in the divisor. -/
theorem C285_div_image (a b c d z : K) (hab : a ≤ b) (hcd : c ≤ d) (h0 : 0 < c ∨ d < 0) :
    Mem z (div exact ⟨.fin a, .fin b⟩ ⟨.fin c, .fin d⟩) ↔ ∃ x y, a ≤ x ∧ x ≤ b ∧ c ≤ y ∧ y ≤ d ∧ z = x / y := by
  refine ⟨fun h => ?_, ?_⟩
  · obtain ⟨x1, y1, x2, y2, e, h1, h2, h3, h4⟩ := div_corner hab hcd h0
    rw [e, mem_fin, div_eq_mul_inv, div_eq_mul_inv] at h
    obtain ⟨x, w, hz, hx, hw⟩ := between_prod h.1 h.2
    have bx : a ≤ x ∧ x ≤ b := by
      apply hx <;> [rcases h1 with rfl | rfl; rcases h2 with rfl | rfl; rcases h1 with rfl | rfl; rcases h2 with rfl | rfl] <;>
        first | exact le_rfl | assumption
    have hcd' : d⁻¹ ≤ c⁻¹ := by
      rcases h0 with h | h
      · exact inv_anti₀ h hcd
      · exact (inv_le_inv_of_neg h (hcd.trans_lt h)).2 hcd
    have bw : d⁻¹ ≤ w ∧ w ≤ c⁻¹ := by
      apply hw <;> [rcases h3 with rfl | rfl; rcases h4 with rfl | rfl; rcases h3 with rfl | rfl; rcases h4 with rfl | rfl] <;>
        first | exact le_rfl | assumption
    have hy : c ≤ w⁻¹ ∧ w⁻¹ ≤ d := by
      rcases h0 with h | h
      · have hd : 0 < d := h.trans_le hcd
        have w0 : 0 < w := (inv_pos.2 hd).trans_le bw.1
        exact ⟨by rw [le_inv_comm₀ h w0]; exact bw.2, by rw [inv_le_comm₀ w0 hd]; exact bw.1⟩
      · have hc : c < 0 := hcd.trans_lt h
        have w0 : w < 0 := bw.2.trans_lt (inv_lt_zero.2 hc)
        refine ⟨?_, ?_⟩
        · rw [← inv_inv c]; exact (inv_le_inv_of_neg (inv_lt_zero.2 hc) w0).2 bw.2
        · rw [← inv_inv d]; exact (inv_le_inv_of_neg w0 (inv_lt_zero.2 h)).2 bw.1
    exact ⟨x, w⁻¹, bx.1, bx.2, hy.1, hy.2, by rw [← hz, div_inv_eq_mul]⟩
  · rintro ⟨x, y, h1, h2, h3, h4, rfl⟩
    refine div_mem exact_sound (mem_fin.2 ⟨h1, h2⟩) (mem_fin.2 ⟨h3, h4⟩) ?_
    rcases h0 with h | h
    · exact (h.trans_le h3).ne'
    · exact (h4.trans_lt h).ne

/-! ## The rounding in use -/

omit [IsStrictOrderedRing K] in
/-- **C285 (no rounding direction).** The symbolic regression instantiates the library with one rounding for both
ends: the sum of two numbers is then contained in the sum of the two intervals exactly if it is not rounded. -/
theorem C285_nearest (r : K → Fl K) (a b : K) :
    Mem (a + b) (add (same r) (single (.fin a)) (single (.fin b))) ↔ r (a + b) = .fin (a + b) := by
  have e : add (same r) (single (.fin a)) (single (.fin b)) = ⟨r (a + b), r (a + b)⟩ := by
    simp [add, single, empty, le, same, Fl.add]
  rw [e]
  refine ⟨?_, fun h => ?_⟩
  · rintro ⟨h1, h2⟩
    revert h1 h2
    cases r (a + b) <;> simp [le]
    exact fun h1 h2 => le_antisymm h1 h2
  · simp [Mem, h, le]

/-- A rounding to multiples of a half, downwards and upwards, over the rationals. -/
def half : Rnd ℚ := ⟨fun a => .fin ((⌊2 * a⌋ : ℚ) / 2), fun a => .fin ((⌈2 * a⌉ : ℚ) / 2)⟩

theorem half_sound : Sound half := by
  intro a
  have h1 := Int.floor_le (2 * a)
  have h2 := Int.le_ceil (2 * a)
  simp only [half, le, decide_eq_true_eq]
  exact ⟨by linarith, by linarith⟩

/-- **C285 (powers).** Without rounding the powers are contained, also with a negative exponent and away from zero. -/
theorem C285_pow (X : Iv K) (x : K) (hx : Mem x X) (n : Int) (h : 0 < n ∨ x ≠ 0) : Mem (x ^ n) (pow exact X n) := by
  rw [pow, mem_not_empty hx]
  simp only [Bool.false_eq_true, if_false]
  split
  · next h0 =>
    subst h0
    rcases h with h | h
    · exact absurd h (lt_irrefl _)
    · split
      · next hz =>
        rw [Bool.and_eq_true] at hz
        exact absurd (zero_of_isZero hx hz.1 hz.2) h
      · rw [zpow_zero]; exact one_mem
  · next h0 =>
    have hn : 0 < n.natAbs := Int.natAbs_pos.2 h0
    have hm := powPos_mem hx hn
    split
    · next hneg =>
      have hx0 : x ≠ 0 := h.resolve_left (by omega)
      have e : x ^ n = (x ^ n.natAbs)⁻¹ := by
        have : n = -(n.natAbs : Int) := by omega
        conv_lhs => rw [this]
        rw [zpow_neg, zpow_natCast]
      rw [e]
      exact inverse_mem exact_sound hm (pow_ne_zero _ hx0)
    · next hneg =>
      have e : x ^ n = x ^ n.natAbs := by
        have : n = (n.natAbs : Int) := by omega
        conv_lhs => rw [this]
        rw [zpow_natCast]
      rw [e]
      exact hm

/-- **C285 (powers, rounded).** With directed rounding both ends of a power are rounded upwards: the square of
three halves, on a grid of halves, is [5/2, 5/2], which does not contain it; the function `square` gives [2, 5/2]. -/
theorem C285_pow_unsound : pow half (single (.fin (3 / 2))) 2 = single (.fin (5 / 2)) ∧
    ¬Mem ((3 / 2 : ℚ) ^ 2) (pow half (single (.fin (3 / 2))) 2) ∧
    square half (single (.fin (3 / 2))) = ⟨.fin 2, .fin (5 / 2)⟩ := by
  have e : pow half (single (.fin (3 / 2))) 2 = single (.fin (5 / 2)) := by decide +kernel
  refine ⟨e, ?_, by decide +kernel⟩
  rw [e]
  rintro ⟨h, -⟩
  revert h
  decide +kernel

/-- **C285 (fmod).** One multiple of the divisor is taken off the whole interval. -/
theorem C285_fmod [FloorRing K] (X Y : Iv K) (a c d : K) (hX : X.lo = .fin a) (hY : Y = ⟨.fin c, .fin d⟩)
    (h0 : c ≠ 0 ∧ d ≠ 0) : ∃ n : Int, n = ⌊a / (if a < 0 then c else d)⌋ ∧
      ∀ x y, Mem x X → Mem y Y → Mem (x - n * y) (fmod exact X Y) := by
  refine ⟨_, rfl, fun x y hx hy => ?_⟩
  rw [fmod, mem_not_empty hx, mem_not_empty hy]
  simp only [Bool.or_self, Bool.false_eq_true, if_false]
  refine sub_mem exact_sound hx ?_
  have e : Fl.div (exact (K := K)).dn X.lo (if isNeg X.lo then Y.lo else Y.up) = .fin (a / (if a < 0 then c else d)) := by
    rw [hX, hY]
    simp only [isNeg, lt, decide_eq_true_eq]
    split
    · rw [Fl.div, if_neg h0.1]; rfl
    · rw [Fl.div, if_neg h0.2]; rfl
  rw [e]
  exact smul_mem exact_sound hy

/-- **C285 (fmod is not a remainder).** The remainder of 3 by 3 is 0, and is not in the result for [1, 5] and 3. -/
theorem C285_fmod_counter : fmod exact (⟨.fin 1, .fin 5⟩ : Iv ℚ) (single (.fin 3)) = ⟨.fin 1, .fin 5⟩ ∧
    ¬Mem ((3 : ℚ) - ⌊(3 / 3 : ℚ)⌋ * 3) (fmod exact (⟨.fin 1, .fin 5⟩ : Iv ℚ) (single (.fin 3))) := by
  have e : fmod exact (⟨.fin 1, .fin 5⟩ : Iv ℚ) (single (.fin 3)) = ⟨.fin 1, .fin 5⟩ := by decide +kernel
  refine ⟨e, ?_⟩
  rw [e, mem_fin]
  norm_num

/-! ## Examples -/

example : Mem ((2 : ℚ) * 3) (mul half (single (.fin 2)) ⟨.fin 3, .pinf⟩) ∧ Sound half :=
  ⟨(C285_contains half half_sound).2.2 (single (.fin 2)) ⟨.fin 3, .pinf⟩ 2 3 (by simp [Mem, single, le]) (by simp [Mem, le]), half_sound⟩

example : mul exact (⟨.fin (-2), .fin 3⟩ : Iv ℚ) ⟨.fin (-5), .fin 4⟩ = ⟨.fin (-15), .fin 12⟩ := by decide +kernel

example : div exact (⟨.fin 1, .fin 2⟩ : Iv ℚ) ⟨.fin (-1), .fin 4⟩ = whole ∧
    div exact (⟨.fin 1, .fin 2⟩ : Iv ℚ) ⟨.fin 0, .fin 4⟩ = ⟨.fin (1 / 4), .pinf⟩ ∧
    div exact (⟨.fin 1, .fin 2⟩ : Iv ℚ) ⟨.fin 2, .fin 4⟩ = ⟨.fin (1 / 4), .fin 1⟩ := by decide +kernel

/-- Rounding to the nearest integer below: the sum of two halves and a quarter is not in the sum of the intervals. -/
example : ¬Mem ((1 / 2 : ℚ) + 1 / 4) (add (same fun a => .fin (⌊a⌋ : ℚ)) (single (.fin (1 / 2))) (single (.fin (1 / 4)))) := by
  rw [C285_nearest]
  decide +kernel

end Paradiseo.IvLib
