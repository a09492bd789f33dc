import Verif.Model.IntervalTransc
import Verif.Lemmas.IntervalLib
/-
Lemmas on the transcendental functions of the interval library.
-/
namespace Paradiseo.IvLib

open Fl

/-- The constants enclose what they stand for. -/
structure PiC.Ok (c : PiC) : Prop where
  p : c.pl ≤ Real.pi ∧ Real.pi ≤ c.pu
  h : c.hl ≤ Real.pi / 2 ∧ Real.pi / 2 ≤ c.hu
  t : c.tl ≤ 2 * Real.pi ∧ 2 * Real.pi ≤ c.tu
  pos : 0 < c.pl ∧ 0 < c.hl ∧ 0 < c.tl
  twice : c.tu ≤ 2 * c.pu

/-- A function with its roundings, where it is increasing: sound at finite numbers of the domain, and at the infinities. -/
structure SoundFn (D : ℝ → Prop) (f : ℝ → ℝ) (fd fu : Fl ℝ → Fl ℝ) : Prop where
  dn : ∀ a, D a → le (fd (.fin a)) (.fin (f a)) = true
  up : ∀ a, D a → le (.fin (f a)) (fu (.fin a)) = true
  ninf : ∀ a, D a → le (fd .ninf) (.fin (f a)) = true
  pinf : ∀ a, D a → le (.fin (f a)) (fu .pinf) = true

theorem le_fin_trans {v : Fl ℝ} {a b : ℝ} (h : le v (.fin a) = true) (hab : a ≤ b) : le v (.fin b) = true := by
  revert h
  cases v <;> simp [le]
  intro h
  linarith

theorem fin_le_trans {v : Fl ℝ} {a b : ℝ} (h : le (.fin b) v = true) (hab : a ≤ b) : le (.fin a) v = true := by
  revert h
  cases v <;> simp [le]
  intro h
  linarith

theorem SoundFn.lower {D : ℝ → Prop} {f : ℝ → ℝ} {fd fu : Fl ℝ → Fl ℝ} (s : SoundFn D f fd fu)
    (hf : ∀ a b, D a → D b → a ≤ b → f a ≤ f b) {v : Fl ℝ} {x : ℝ} (hv : le v (.fin x) = true)
    (hD : ∀ a, v = .fin a → D a) (hx : D x) : le (fd v) (.fin (f x)) = true := by
  rcases lo_cases hv with rfl | ⟨a, rfl, ha⟩
  · exact s.ninf x hx
  · exact le_fin_trans (s.dn a (hD a rfl)) (hf a x (hD a rfl) hx ha)

theorem SoundFn.upper {D : ℝ → Prop} {f : ℝ → ℝ} {fd fu : Fl ℝ → Fl ℝ} (s : SoundFn D f fd fu)
    (hf : ∀ a b, D a → D b → a ≤ b → f a ≤ f b) {v : Fl ℝ} {x : ℝ} (hv : le (.fin x) v = true)
    (hD : ∀ a, v = .fin a → D a) (hx : D x) : le (.fin (f x)) (fu v) = true := by
  rcases up_cases hv with rfl | ⟨a, rfl, ha⟩
  · exact s.pinf x hx
  · exact fin_le_trans (s.up a (hD a rfl)) (hf x a hx (hD a rfl) ha)

/-- Reduction modulo an interval of positive numbers, in exact arithmetic. -/
theorem fmod_spec {X : Iv ℝ} {a c d x : ℝ} (hX : X.lo = .fin a) (hx : Mem x X) (c0 : 0 < c) (hcd : c ≤ d) :
    ∃ (n : Int) (l : ℝ), (fmod exact X ⟨.fin c, .fin d⟩).lo = .fin l ∧ 0 ≤ l ∧ l < d ∧ (0 ≤ a → a < d → l = a) ∧
      ∀ y, c ≤ y → y ≤ d → Mem (x - n * y) (fmod exact X ⟨.fin c, .fin d⟩) := by
  have d0 : 0 < d := c0.trans_le hcd
  have hY : empty (⟨.fin c, .fin d⟩ : Iv ℝ) = false := not_empty_fin hcd
  have em : ∀ x y : ℝ, Fl.mul (exact (K := ℝ)).up (.fin x) (.fin y) = .fin (x * y) := fun _ _ => rfl
  have es : ∀ x y : ℝ, Fl.sub (exact (K := ℝ)).dn (.fin x) (.fin y) = .fin (x - y) := fun _ _ => rfl
  by_cases h : a < 0
  · have hn : Fl.div (exact (K := ℝ)).dn X.lo (if isNeg X.lo then .fin c else .fin d) = .fin (a / c) := by
      rw [hX]
      simp only [isNeg, lt, decide_eq_true_eq, if_pos h]
      rw [Fl.div, if_neg c0.ne']; rfl
    have hq : a / c < 0 := div_neg_of_neg_of_pos h c0
    have hfl : ⌊a / c⌋ < 0 := Int.floor_lt.2 (by simpa using hq)
    have hfl' : ((⌊a / c⌋ : Int) : ℝ) < 0 := by exact_mod_cast hfl
    have e : fmod exact X ⟨.fin c, .fin d⟩ = sub exact X (smul exact (.fin ((⌊a / c⌋ : Int) : ℝ)) ⟨.fin c, .fin d⟩) := by
      rw [fmod, mem_not_empty hx, hY]
      simp only [Bool.or_self, Bool.false_eq_true, if_false, hn]
    have h1 := Int.floor_le (a / c)
    have h2 := Int.lt_floor_add_one (a / c)
    rw [le_div_iff₀ c0] at h1
    rw [div_lt_iff₀ c0] at h2
    refine ⟨⌊a / c⌋, a - ⌊a / c⌋ * c, ?_, ?_, ?_, fun h' => absurd h (not_lt.2 h'), fun y h1 h2 => ?_⟩
    · rw [e]
      have hs : smul exact (.fin ((⌊a / c⌋ : Int) : ℝ)) ⟨.fin c, .fin d⟩ =
          (⟨.fin (⌊a / c⌋ * d), .fin (⌊a / c⌋ * c)⟩ : Iv ℝ) := by
        rw [smul, hY]
        simp [isNeg, lt, hfl', Fl.mul, exact]
      rw [hs, sub, mem_not_empty hx, not_empty_fin (by nlinarith)]
      simp only [Bool.or_self, Bool.false_eq_true, if_false]
      rw [hX, es]
    · linarith
    · nlinarith
    · rw [e]
      exact sub_mem exact_sound hx (smul_mem exact_sound (mem_fin.2 ⟨h1, h2⟩))
  · have h0 : 0 ≤ a := not_lt.1 h
    have hn : Fl.div (exact (K := ℝ)).dn X.lo (if isNeg X.lo then .fin c else .fin d) = .fin (a / d) := by
      rw [hX]
      simp only [isNeg, lt, decide_eq_true_eq, if_neg h]
      rw [Fl.div, if_neg d0.ne']; rfl
    have hfl : 0 ≤ ⌊a / d⌋ := Int.floor_nonneg.2 (div_nonneg h0 d0.le)
    have hfl' : (0 : ℝ) ≤ ((⌊a / d⌋ : Int) : ℝ) := by exact_mod_cast hfl
    have e : fmod exact X ⟨.fin c, .fin d⟩ = sub exact X (smul exact (.fin ((⌊a / d⌋ : Int) : ℝ)) ⟨.fin c, .fin d⟩) := by
      rw [fmod, mem_not_empty hx, hY]
      simp only [Bool.or_self, Bool.false_eq_true, if_false, hn]
    have h1 := Int.floor_le (a / d)
    have h2 := Int.lt_floor_add_one (a / d)
    rw [le_div_iff₀ d0] at h1
    rw [div_lt_iff₀ d0] at h2
    refine ⟨⌊a / d⌋, a - ⌊a / d⌋ * d, ?_, ?_, ?_, fun h3 h4 => ?_, fun y h1 h2 => ?_⟩
    · rw [e]
      have hs : smul exact (.fin ((⌊a / d⌋ : Int) : ℝ)) ⟨.fin c, .fin d⟩ =
          (⟨.fin (⌊a / d⌋ * c), .fin (⌊a / d⌋ * d)⟩ : Iv ℝ) := by
        rw [smul, hY]
        by_cases hz : ((⌊a / d⌋ : Int) : ℝ) = 0
        · simp [isNeg, lt, isZero, Fl.eq, hz]
        · simp [isNeg, lt, hfl'.not_gt, Fl.mul, exact, isZero, Fl.eq, hz]
      rw [hs, sub, mem_not_empty hx, not_empty_fin (by nlinarith)]
      simp only [Bool.or_self, Bool.false_eq_true, if_false]
      rw [hX, es]
    · linarith
    · nlinarith
    · have : ⌊a / d⌋ = 0 := by
        rw [Int.floor_eq_zero_iff]
        exact ⟨div_nonneg h0 d0.le, (div_lt_one d0).2 h4⟩
      rw [this]
      simp
    · rw [e]
      exact sub_mem exact_sound hx (smul_mem exact_sound (mem_fin.2 ⟨h1, h2⟩))

/-- An interval that is not bounded below: after the reduction its lower end is not a number, its upper end infinite. -/
theorem fmod_ninf {X : Iv ℝ} {c d x : ℝ} (hX : X.lo = .ninf) (hx : Mem x X) (c0 : 0 < c) (hcd : c ≤ d) :
    fmod exact X ⟨.fin c, .fin d⟩ = ⟨.nan, .pinf⟩ := by
  have hY : empty (⟨.fin c, .fin d⟩ : Iv ℝ) = false := not_empty_fin hcd
  have d0 : 0 < d := c0.trans_le hcd
  have hn : Fl.div (exact (K := ℝ)).dn X.lo (if isNeg X.lo then .fin c else .fin d) = .ninf := by
    rw [hX]
    have : isNeg (Fl.ninf : Fl ℝ) = true := rfl
    rw [this, if_pos rfl, ninf_div_pos _ c0]
  rw [fmod, mem_not_empty hx, hY]
  simp only [Bool.or_self, Bool.false_eq_true, if_false, hn]
  have hs : smul exact .ninf (⟨.fin c, .fin d⟩ : Iv ℝ) = ⟨.ninf, .ninf⟩ := by
    rw [smul, hY]
    simp [isNeg, lt, Fl.mul, isZero, Fl.eq, inf, c0.ne', d0.ne', c0.not_gt, d0.not_gt, c0.le, d0.le]
  rw [hs, sub, mem_not_empty hx]
  have : empty (⟨.ninf, .ninf⟩ : Iv ℝ) = false := rfl
  rw [this]
  simp only [Bool.or_self, Bool.false_eq_true, if_false]
  rw [hX]
  rcases up_cases hx.2 with e | ⟨b, e, _⟩ <;> rw [e] <;> rfl

theorem cos_sub_int (x : ℝ) (n : Int) : Real.cos (x - n * (2 * Real.pi)) = Real.cos x := Real.cos_sub_int_mul_two_pi x n

theorem tan_sub_int (x : ℝ) (n : Int) : Real.tan (x - n * Real.pi) = Real.tan x := Real.tan_sub_int_mul_pi x n

theorem unit_mem (x : ℝ) : Mem (Real.cos x) unit := by
  simp only [Mem, unit, le, decide_eq_true_eq]
  exact ⟨Real.neg_one_le_cos x, Real.cos_le_one x⟩

/-- At least `m` away from zero and from 2π, the cosine is at most that of `m`. -/
theorem cos_le_cos_of_away {t m : ℝ} (m0 : 0 ≤ m) (h1 : m ≤ t) (h2 : m ≤ 2 * Real.pi - t) : Real.cos t ≤ Real.cos m := by
  rcases le_total t Real.pi with h | h
  · exact Real.cos_le_cos_of_nonneg_of_le_pi m0 h h1
  · rw [← Real.cos_two_pi_sub t]
    exact Real.cos_le_cos_of_nonneg_of_le_pi m0 (by linarith) h2

end Paradiseo.IvLib
