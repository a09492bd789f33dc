/-
C54, C83, C84: fitness-proportional selection.
-/
import Mathlib.MeasureTheory.Measure.Lebesgue.Basic
import Verif.Lemmas.EOSelect
import Verif.Lemmas.EOOperators

namespace Paradiseo.Sel

open Paradiseo.EO (Err HowMany)
open Paradiseo.Ops (rnd rd swapL)

variable {F : Type*} [Field F] [LinearOrder F] [IsStrictOrderedRing F]

/-! ### C54: roulette wheels -/

/-- A positive draw selects position `i` exactly when it falls into the `i`-th interval, open to the
left and closed to the right, of the intervals as long as the weights laid end to end. -/
theorem C54_wheel {w : List F} (hw : ∀ a ∈ w, 0 ≤ a) {draw : F} (hd : 0 < draw) (r : Nat → Nat)
    (i : Nat) :
    rouletteWheel w draw r = .ok i ↔
      i < w.length ∧ (w.take i).sum < draw ∧ draw ≤ (w.take (i + 1)).sum := by
  simp only [rouletteWheel, hd.ne', if_false]
  constructor
  · intro h
    obtain ⟨k, h1, h2, h3, h4⟩ := wheelLoop_ok hd h
    obtain rfl : i = k := by omega
    exact ⟨h1, h3 i le_rfl, h4⟩
  · rintro ⟨h1, h2, h3⟩
    obtain ⟨j, hj⟩ := wheelLoop_total (i := 0) hd (h3.trans (sum_take_le hw _))
    obtain ⟨k, g1, g2, g3, g4⟩ := wheelLoop_ok hd hj
    have : i = k := by
      rcases lt_trichotomy i k with h | h | h
      · exact absurd h3 (not_le.mpr (g3 (i + 1) h))
      · exact h
      · have := sum_take_mono hw (show k + 1 ≤ i from h)
        exact absurd (g4.trans this) (not_le.mpr h2)
    rw [hj]
    congr 1
    omega

/-- A draw within the total selects an individual, of positive weight; a larger draw runs past the end. -/
theorem C54_wheel_total {w : List F} (hw : ∀ a ∈ w, 0 ≤ a) {draw : F} (hd : 0 < draw)
    (r : Nat → Nat) :
    (draw ≤ w.sum → ∃ (i : Nat) (a : F), rouletteWheel w draw r = .ok i ∧ w[i]? = some a ∧ 0 < a) ∧
    (w.sum < draw → rouletteWheel w draw r = .error .ub) := by
  constructor
  · intro h
    obtain ⟨i, hi⟩ := wheelLoop_total (i := 0) hd h
    have hi' : rouletteWheel w draw r = .ok i := by simp [rouletteWheel, hd.ne', hi]
    obtain ⟨h1, h2, h3⟩ := (C54_wheel hw hd r i).mp hi'
    refine ⟨i, w[i], hi', List.getElem?_eq_getElem h1, ?_⟩
    rw [sum_take_succ' h1] at h3
    linarith
  · intro h
    simp only [rouletteWheel, hd.ne', if_false]
    exact wheelLoop_err fun m _ => lt_of_le_of_lt (sum_take_le hw m) h

example : ∃ (i : Nat) (a : ℚ), rouletteWheel ([0, 2, 0, 3] : List ℚ) 2 (fun _ => 0) = .ok i ∧
    ([0, 2, 0, 3] : List ℚ)[i]? = some a ∧ 0 < a :=
  (C54_wheel_total (by simp) (by norm_num) _).1 (by norm_num)

/-- With a draw of exactly zero, any individual may be selected, also one of weight zero. -/
theorem C54_wheel_zero {w : List F} (i : Nat) (hi : i < w.length) :
    ∃ r : Nat → Nat, rouletteWheel w 0 r = .ok i := by
  refine ⟨fun _ => i, ?_⟩
  have : w.length ≠ 0 := by omega
  simp [rouletteWheel, this, rnd, Nat.mod_eq_of_lt hi]

/-- Drawing uniformly between 0 and the total, position `i` is selected with probability weight over
total. -/
theorem C54_wheel_probability {w : List ℝ} (hw : ∀ a ∈ w, 0 ≤ a) (hT : 0 < w.sum) (r : Nat → Nat)
    (i : Nat) (hi : i < w.length) :
    MeasureTheory.volume {u : ℝ | 0 ≤ u ∧ u < 1 ∧ rouletteWheel w (u * w.sum) r = .ok i} =
      ENNReal.ofReal (w[i] / w.sum) := by
  have h0 : 0 ≤ (w.take i).sum := List.sum_nonneg fun a ha => hw a (List.mem_of_mem_take ha)
  have h1 : (w.take (i + 1)).sum ≤ w.sum := sum_take_le hw _
  have key : {u : ℝ | 0 ≤ u ∧ u < 1 ∧ rouletteWheel w (u * w.sum) r = .ok i} =ᵐ[MeasureTheory.volume]
      Set.Ioc ((w.take i).sum / w.sum) ((w.take (i + 1)).sum / w.sum) := by
    have hae : ∀ᵐ u : ℝ ∂MeasureTheory.volume, u ∉ ({0, 1} : Set ℝ) := by
      rw [MeasureTheory.ae_iff]
      simp only [not_not, Set.setOf_mem_eq]
      exact (Set.toFinite _).measure_zero _
    filter_upwards [hae] with u hu
    simp only [Set.mem_insert_iff, Set.mem_singleton_iff, not_or] at hu
    apply propext
    change (0 ≤ u ∧ u < 1 ∧ rouletteWheel w (u * w.sum) r = .ok i) ↔
      ((w.take i).sum / w.sum < u ∧ u ≤ (w.take (i + 1)).sum / w.sum)
    rw [div_lt_iff₀ hT, le_div_iff₀ hT]
    constructor
    · rintro ⟨a, _, b⟩
      have hu0 : 0 < u := lt_of_le_of_ne a (Ne.symm hu.1)
      exact ((C54_wheel hw (mul_pos hu0 hT) r i).mp b).2
    · rintro ⟨a, b⟩
      have hu0 : 0 < u * w.sum := lt_of_le_of_lt h0 a
      have hu0' : 0 < u := by
        by_contra hc
        push Not at hc
        nlinarith
      have hu1 : u ≤ 1 := by
        by_contra hc
        push Not at hc
        nlinarith
      exact ⟨hu0'.le, lt_of_le_of_ne hu1 hu.2, (C54_wheel hw hu0 r i).mpr ⟨hi, a, b⟩⟩
  rw [MeasureTheory.measure_congr key, Real.volume_Ioc]
  congr 1
  rw [sum_take_succ' hi]
  ring

example : MeasureTheory.volume
    {u : ℝ | 0 ≤ u ∧ u < 1 ∧ rouletteWheel [1, 0, 3] (u * 4) (fun _ => 0) = .ok 2} =
      ENNReal.ofReal (3 / 4) := by
  have := C54_wheel_probability (w := [1, 0, 3]) (by simp) (by norm_num) (fun _ => 0) 2 (by simp)
  norm_num at this ⊢
  exact this

/-- The generator's own wheel: the intervals are closed to the left and open to the right. -/
theorem C54_rng_wheel {w : List F} (hw : ∀ a ∈ w, 0 ≤ a) (hT : 0 < w.sum) {u : F} (hu : 0 ≤ u)
    (i : Nat) :
    rngRoulette w 0 u = .ok i ↔
      i < w.length ∧ (w.take i).sum ≤ u * w.sum ∧ u * w.sum < (w.take (i + 1)).sum := by
  have hd : 0 ≤ u * w.sum := mul_nonneg hu hT.le
  simp only [rngRoulette, if_true]
  constructor
  · intro h
    obtain ⟨k, h1, h2, h3, h4⟩ := rngWheelLoop_ok hd h
    obtain rfl : i = k := by omega
    exact ⟨h1, h3 i le_rfl, h4⟩
  · rintro ⟨h1, h2, h3⟩
    obtain ⟨j, hj⟩ := rngWheelLoop_total (i := 0) hd (lt_of_lt_of_le h3 (sum_take_le hw _))
    obtain ⟨k, g1, g2, g3, g4⟩ := rngWheelLoop_ok hd hj
    have : i = k := by
      rcases lt_trichotomy i k with h | h | h
      · exact absurd h3 (not_lt.mpr (g3 (i + 1) h))
      · exact h
      · have := sum_take_mono hw (show k + 1 ≤ i from h)
        exact absurd (lt_of_lt_of_le g4 this) (not_lt.mpr h2)
    rw [hj]
    congr 1
    omega

/-- It always selects an individual, of positive weight. -/
theorem C54_rng_wheel_total {w : List F} (hw : ∀ a ∈ w, 0 ≤ a) (hT : 0 < w.sum) {u : F}
    (hu : 0 ≤ u) (hu1 : u < 1) :
    ∃ (i : Nat) (a : F), rngRoulette w 0 u = .ok i ∧ w[i]? = some a ∧ 0 < a := by
  obtain ⟨i, hi⟩ := rngWheelLoop_total (i := 0) (mul_nonneg hu hT.le)
    (show u * w.sum < w.sum by nlinarith)
  have hi' : rngRoulette w 0 u = .ok i := by simp [rngRoulette, hi]
  obtain ⟨h1, h2, h3⟩ := (C54_rng_wheel hw hT hu i).mp hi'
  refine ⟨i, w[i], hi', List.getElem?_eq_getElem h1, ?_⟩
  rw [sum_take_succ' h1] at h3
  linarith

/-- If all the weights are zero, or if the total given is too large and the draw falls beyond the sum of
the weights, it reads past the end of the weights. -/
theorem C54_rng_wheel_beyond {w : List F} (hw : ∀ a ∈ w, 0 ≤ a) {total u : F}
    (h : w.sum ≤ u * (if total = 0 then w.sum else total)) :
    rngRoulette w total u = .error .ub :=
  rngWheelLoop_err fun m _ => (sum_take_le hw m).trans h

example : rngRoulette [(0 : ℚ), 0, 0] 0 (1 / 2) = .error .ub :=
  C54_rng_wheel_beyond (by simp) (by norm_num)
example : rngRoulette [(1 : ℚ), 2] 10 (1 / 2) = .error .ub :=
  C54_rng_wheel_beyond (by simp) (by norm_num)

/-- The probability of the generator's wheel. -/
theorem C54_rng_wheel_probability {w : List ℝ} (hw : ∀ a ∈ w, 0 ≤ a) (hT : 0 < w.sum) (i : Nat)
    (hi : i < w.length) :
    MeasureTheory.volume {u : ℝ | 0 ≤ u ∧ u < 1 ∧ rngRoulette w 0 u = .ok i} =
      ENNReal.ofReal (w[i] / w.sum) := by
  have h0 : 0 ≤ (w.take i).sum := List.sum_nonneg fun a ha => hw a (List.mem_of_mem_take ha)
  have h1 : (w.take (i + 1)).sum ≤ w.sum := sum_take_le hw _
  have key : {u : ℝ | 0 ≤ u ∧ u < 1 ∧ rngRoulette w 0 u = .ok i} =
      Set.Ico ((w.take i).sum / w.sum) ((w.take (i + 1)).sum / w.sum) := by
    ext u
    change (0 ≤ u ∧ u < 1 ∧ rngRoulette w 0 u = .ok i) ↔
      ((w.take i).sum / w.sum ≤ u ∧ u < (w.take (i + 1)).sum / w.sum)
    rw [div_le_iff₀ hT, lt_div_iff₀ hT]
    constructor
    · rintro ⟨a, _, b⟩
      exact ((C54_rng_wheel hw hT a i).mp b).2
    · rintro ⟨a, b⟩
      have hu0 : 0 ≤ u := by
        by_contra hc
        push Not at hc
        nlinarith
      have hu1 : u < 1 := by
        by_contra hc
        push Not at hc
        nlinarith
      exact ⟨hu0, hu1, (C54_rng_wheel hw hT hu0 i).mpr ⟨hi, a, b⟩⟩
  rw [key, Real.volume_Ico]
  congr 1
  rw [sum_take_succ' hi]
  ring

/-! ### C83: proportional selection -/

/-- After a setup on the population itself, position `i` is selected exactly when the draw falls into
its interval, whatever was in the selector before. -/
theorem C83_interval {fits : List F} (hw : ∀ a ∈ fits, 0 ≤ a) (hT : 0 < fits.sum) {u : F}
    (hu : 0 ≤ u) (hu1 : u < 1) (before : List F) (i : Nat) :
    (∃ s, propSelect (propSetup before fits) fits u = .ok (i, s)) ↔
      i < fits.length ∧ (fits.take i).sum ≤ u * fits.sum ∧ u * fits.sum < (fits.take (i + 1)).sum := by
  have hne : fits ≠ [] := by rintro rfl; simp at hT
  have hc : cumulate 0 fits ≠ [] := by
    intro h
    have := cumulate_length (0 : F) fits
    rw [h] at this
    exact hne (List.length_eq_zero_iff.mp this.symm)
  have hd : 0 ≤ u * fits.sum := mul_nonneg hu hT.le
  have hlt : u * fits.sum < fits.sum := by nlinarith
  have hidx := findIdx_lt hlt hne
  simp only [propSelect, propSetup, hne, hc, if_false, cumulate_last hne, zero_add,
    upperBound_sorted (cumulate_sorted hw 0), not_le.mpr hidx]
  constructor
  · rintro ⟨s, h⟩
    simp only [Except.ok.injEq, Prod.mk.injEq] at h
    obtain ⟨rfl, _⟩ := h
    exact ⟨hidx, (findIdx_slot hw hd hidx).mp rfl⟩
  · rintro ⟨h1, h2⟩
    exact ⟨cumulate 0 fits, by rw [(findIdx_slot hw hd h1).mpr h2]⟩

/-- It always selects an individual, of positive fitness. -/
theorem C83_total {fits : List F} (hw : ∀ a ∈ fits, 0 ≤ a) (hT : 0 < fits.sum) {u : F}
    (hu : 0 ≤ u) (hu1 : u < 1) (before : List F) :
    ∃ (i : Nat) (a : F) (s : List F),
      propSelect (propSetup before fits) fits u = .ok (i, s) ∧ fits[i]? = some a ∧ 0 < a := by
  have hne : fits ≠ [] := by rintro rfl; simp at hT
  have hlt : u * fits.sum < fits.sum := by nlinarith
  have hidx := findIdx_lt hlt hne
  have hs := (findIdx_slot hw (mul_nonneg hu hT.le) hidx).mp rfl
  obtain ⟨s, h⟩ := (C83_interval hw hT hu hu1 before _).mpr ⟨hidx, hs⟩
  refine ⟨_, _, s, h, List.getElem?_eq_getElem hidx, ?_⟩
  have := hs.2
  rw [sum_take_succ' hidx] at this
  linarith [hs.1]

example : ∃ (i : Nat) (a : ℚ) (s : List ℚ),
    propSelect (propSetup [7, 8] [0, 2, 0, 3]) [0, 2, 0, 3] (1 / 2) = .ok (i, s) ∧
      ([0, 2, 0, 3] : List ℚ)[i]? = some a ∧ 0 < a :=
  C83_total (by simp) (by norm_num) (by norm_num) (by norm_num) _

/-- The probability of selecting position `i` is its share of the fitness. -/
theorem C83_probability {fits : List ℝ} (hw : ∀ a ∈ fits, 0 ≤ a) (hT : 0 < fits.sum)
    (before : List ℝ) (i : Nat) (hi : i < fits.length) :
    MeasureTheory.volume {u : ℝ | 0 ≤ u ∧ u < 1 ∧
      ∃ s, propSelect (propSetup before fits) fits u = .ok (i, s)} =
      ENNReal.ofReal (fits[i] / fits.sum) := by
  rw [← C54_rng_wheel_probability hw hT i hi]
  congr 1
  ext u
  simp only [Set.mem_setOf_eq]
  constructor
  · rintro ⟨a, b, c⟩
    exact ⟨a, b, (C54_rng_wheel hw hT a i).mpr ((C83_interval hw hT a b before i).mp c)⟩
  · rintro ⟨a, b, c⟩
    exact ⟨a, b, (C83_interval hw hT a b before i).mpr ((C54_rng_wheel hw hT a i).mp c)⟩

/-- If all the fitnesses are zero the last individual is always selected. -/
theorem C83_all_zero (n : Nat) (u : F) (before : List F) :
    ∃ s, propSelect (propSetup before (List.replicate (n + 1) 0)) (List.replicate (n + 1) 0) u =
      .ok (n, s) := by
  have hne : List.replicate (n + 1) (0 : F) ≠ [] := by simp
  have hw : ∀ a ∈ List.replicate (n + 1) (0 : F), 0 ≤ a := by
    intro a ha
    rw [(List.mem_replicate.mp ha).2]
  have hc : cumulate 0 (List.replicate (n + 1) (0 : F)) ≠ [] := by simp [List.replicate_succ, cumulate]
  have hsum : (List.replicate (n + 1) (0 : F)).sum = 0 := by simp
  have hz : ∀ c ∈ cumulate 0 (List.replicate (n + 1) (0 : F)), c = 0 := by
    intro c hc
    obtain ⟨i, hi, rfl⟩ := List.mem_iff_getElem.mp hc
    rw [cumulate_get]
    simp
  have hidx : ((cumulate 0 (List.replicate (n + 1) (0 : F))).findIdx fun c => decide (0 < c)) =
      n + 1 := by
    have h1 : (cumulate 0 (List.replicate (n + 1) (0 : F))).findIdx (fun c => decide (0 < c)) =
        (cumulate 0 (List.replicate (n + 1) (0 : F))).length := by
      rw [List.findIdx_eq_length]
      intro c hc
      simp [hz c hc]
    rw [h1, cumulate_length, List.length_replicate]
  refine ⟨cumulate 0 (List.replicate (n + 1) (0 : F)), ?_⟩
  simp only [propSelect, propSetup, hne, hc, if_false, cumulate_last hne, hsum, zero_add, mul_zero,
    upperBound_sorted (cumulate_sorted hw 0), hidx]
  simp

/-- Without a new setup the fitnesses seen at the first use stay in force: here the only fit individual
of the new population is not selected. -/
theorem C83_stale : ∃ s, propSelect (propSetup [] [(1 : ℚ), 0]) [0, 1] (1 / 2) = .ok (0, s) := by
  refine ⟨[1, 1], ?_⟩
  have h1 : propSetup [] [(1 : ℚ), 0] = [1, 1] := by simp [propSetup, cumulate]
  have h2 : upperBound [(1 : ℚ), 1] (1 / 2 * 1) = .ok 0 := by
    norm_num [upperBound, List.findIdx_cons, List.dropWhile_cons]
  rw [h1]
  have h3 : ([(1 : ℚ), 1] = []) = False := by simp
  simp only [propSelect, h3, if_false, List.getLast?_cons_cons, List.getLast?_singleton, h2]
  simp

/-! ### C84: stochastic universal sampling -/

/-- With a draw in general position (no pointer falls exactly on the border of two intervals; only
finitely many draws do not satisfy this), the number of copies of position `i` is its expected number
`n * fitness / total` rounded down or up. -/
theorem C84_copies [FloorRing F] {fits : List F} (hw : ∀ a ∈ fits, 0 ≤ a) (hT : 0 < fits.sum) {u : F}
    (hu : 0 ≤ u) (hu1 : u < 1)
    (hgp : ∀ i < fits.length, ∀ z : Int,
      (u - (fits.take (i + 1)).sum / fits.sum) * fits.length ≠ z) :
    ∃ l, susIndices fits u = .ok l ∧ l.length = fits.length ∧ (∀ i ∈ l, i < fits.length) ∧
      ∀ (i : Nat) (hi : i < fits.length),
        (l.count i : Int) = ⌊fits.length * fits[i] / fits.sum⌋ ∨
        (l.count i : Int) = ⌈fits.length * fits[i] / fits.sum⌉ := by
  have hne : fits ≠ [] := by rintro rfl; simp at hT
  have hn : 0 < fits.length := List.length_pos_iff.mpr hne
  have hnF : (0 : F) < fits.length := by exact_mod_cast hn
  obtain ⟨q, φ, step, hstep, hs, hTs, h0, h1, hq, hup⟩ : ∃ (q : Nat) (φ step : F),
      step = fits.sum / fits.length ∧ 0 < step ∧ fits.sum = fits.length * step ∧ 0 ≤ φ ∧ φ < step ∧
      q < fits.length ∧ u * fits.sum = φ + q * step := by
    have hs : 0 < fits.sum / fits.length := div_pos hT hnF
    have hTs : fits.sum = fits.length * (fits.sum / fits.length) := by field_simp
    have hv : 0 ≤ u * fits.length := mul_nonneg hu hnF.le
    have hfl := Int.floor_le (u * fits.length)
    have hlt := Int.lt_floor_add_one (u * fits.length)
    have hq0 : 0 ≤ ⌊u * (fits.length : F)⌋ := Int.floor_nonneg.mpr hv
    have hqn : ⌊u * (fits.length : F)⌋ < fits.length := by
      rw [Int.floor_lt]
      push_cast
      nlinarith
    have hcast : ((⌊u * (fits.length : F)⌋.toNat : Nat) : F) = (⌊u * (fits.length : F)⌋ : F) := by
      have : ((⌊u * (fits.length : F)⌋.toNat : Nat) : Int) = ⌊u * (fits.length : F)⌋ :=
        Int.toNat_of_nonneg hq0
      exact_mod_cast congrArg (Int.cast : Int → F) this
    refine ⟨⌊u * (fits.length : F)⌋.toNat,
      (u * fits.length - (⌊u * (fits.length : F)⌋ : F)) * (fits.sum / fits.length),
      fits.sum / fits.length, rfl, hs, hTs, mul_nonneg (by linarith) hs.le, by nlinarith, by omega, ?_⟩
    rw [hcast]
    field_simp
    ring
  have hne' : ∀ j : Nat, ∀ c ∈ cumulate 0 fits, φ + j * step ≠ c := by
    intro j c hc heq
    obtain ⟨k, hk, rfl⟩ := List.mem_iff_getElem.mp hc
    rw [cumulate_get, zero_add] at heq
    rw [cumulate_length] at hk
    apply hgp k hk ((q : Int) - j)
    rw [← heq]
    have : φ = u * fits.sum - q * step := by linarith
    rw [this, hstep]
    push_cast
    field_simp
    ring
  have hidx : ((cumulate 0 fits).findIdx fun c => decide (u * fits.sum < c)) =
      place fits (u * fits.sum) := by
    symm
    apply place_eq
    rw [hup]
    exact hne' q
  have hlt : u * fits.sum < fits.sum := by nlinarith
  have hl : susIndices fits u =
      .ok ((List.range fits.length).map fun m => place fits (φ + ((q + m) % fits.length : Nat) * step)) := by
    simp only [susIndices, cumulate_last hne, zero_add, upperBound_sorted (cumulate_sorted hw 0), hidx,
      ← hstep]
    rw [susLoop_eq hne hs (by
      rw [hTs]
      have : (1 : F) ≤ fits.length := by exact_mod_cast hn
      nlinarith) _ _ _ (mul_nonneg hu hT.le) hlt le_rfl]
    congr 1
    apply List.map_congr_left
    intro m _
    rw [hup, ptr_eq hn hTs hs h0 h1 m q hq]
  have hjlt : ∀ j < fits.length, φ + (j : F) * step < fits.sum := by
    intro j hj
    have : (j : F) + 1 ≤ fits.length := by exact_mod_cast hj
    rw [hTs]
    nlinarith
  refine ⟨_, hl, by simp, ?_, ?_⟩
  · intro i hi
    obtain ⟨m, _, rfl⟩ := List.mem_map.mp hi
    exact place_lt (hjlt _ (Nat.mod_lt _ hn)) hne
  · intro i hi
    have hperm : ((List.range fits.length).map fun m =>
        place fits (φ + ((q + m) % fits.length : Nat) * step)).Perm
        ((List.range fits.length).map fun j => place fits (φ + (j : Nat) * step)) := by
      have := (shift_perm fits.length q hn).map fun j : Nat => place fits (φ + (j : F) * step)
      rwa [List.map_map] at this
    rw [hperm.count_eq, List.count, List.countP_map]
    obtain ⟨A, hA, B, hB⟩ : ∃ A : Int, A = ⌈((fits.take i).sum - φ) / step⌉ ∧
        ∃ B : Int, B = ⌈((fits.take (i + 1)).sum - φ) / step⌉ := ⟨_, rfl, _, rfl⟩
    have hS0 : 0 ≤ (fits.take i).sum := List.sum_nonneg fun a ha => hw a (List.mem_of_mem_take ha)
    have hA0 : 0 ≤ A := by
      rw [hA]
      have : (-1 : Int) < ⌈((fits.take i).sum - φ) / step⌉ := by
        rw [Int.lt_ceil, lt_div_iff₀ hs]
        push_cast
        linarith
      omega
    have hAB : A ≤ B := by
      rw [hA, hB]
      apply Int.ceil_mono
      apply (div_le_div_iff_of_pos_right hs).mpr
      have := sum_take_mono hw (show i ≤ i + 1 by omega)
      linarith
    have hBn : B ≤ fits.length := by
      rw [hB, Int.ceil_le, div_le_iff₀ hs]
      have := sum_take_le hw (i + 1)
      push_cast
      rw [hTs] at this
      linarith
    have hcount : (List.range fits.length).countP ((fun x => x == i) ∘ fun j : Nat =>
        place fits (φ + (j : F) * step)) =
        (List.range fits.length).countP (fun j => decide (A.toNat ≤ j ∧ j < B.toNat)) := by
      apply List.countP_congr
      intro j hj
      rw [List.mem_range] at hj
      simp only [Function.comp, beq_iff_eq, decide_eq_true_eq]
      rw [place_eq (hne' j), findIdx_slot hw (by positivity) hi]
      have e1 : A.toNat ≤ j ↔ (fits.take i).sum ≤ φ + j * step := by
        rw [Int.toNat_le, hA, Int.ceil_le, div_le_iff₀ hs]
        push_cast
        constructor <;> intro h <;> linarith
      have e2 : j < B.toNat ↔ φ + j * step < (fits.take (i + 1)).sum := by
        rw [Int.lt_toNat, hB, Int.lt_ceil, lt_div_iff₀ hs]
        push_cast
        constructor <;> intro h <;> linarith
      rw [e1, e2]
    rw [hcount, countP_range]
    have hBA : ((min B.toNat fits.length - min A.toNat fits.length : Nat) : Int) = B - A := by omega
    rw [hBA, hA, hB]
    have := floor_ceil_diff (((fits.take i).sum - φ) / step) (((fits.take (i + 1)).sum - φ) / step)
    have e : ((fits.take (i + 1)).sum - φ) / step - ((fits.take i).sum - φ) / step =
        fits.length * fits[i] / fits.sum := by
      rw [sum_take_succ' hi, hstep]
      field_simp
      ring
    rwa [e] at this

end Paradiseo.Sel
