import Verif.Lemmas.IntervalTransc
import Verif.Props.MathSymInterval
import Verif.Props.IntervalLib
import Mathlib.Analysis.Real.Pi.Bounds
import Mathlib.Analysis.SpecialFunctions.Trigonometric.DerivHyp
/-
C287: the transcendental functions of the interval library contain every value of the function on the interval; what
the check of bounds of the symbolic regression assumes of the library (C251) therefore holds in exact arithmetic.
-/
namespace Paradiseo.IvLib

open Fl

/-! ## The constants -/

/-- The constants for `double` (constants.hpp 25-26, 42-47). -/
noncomputable def piDouble : PiC :=
  let l : ℝ := (3373259426 + 273688 / 2 ^ 21) / 2 ^ 30
  let u : ℝ := (3373259426 + 273689 / 2 ^ 21) / 2 ^ 30
  ⟨l, u, l / 2, u / 2, l * 2, u * 2⟩

/-- The constants for `float` (constants.hpp 23-24, 35-40). -/
noncomputable def piFloat : PiC :=
  let l : ℝ := 13176794 / 2 ^ 22
  let u : ℝ := 13176795 / 2 ^ 22
  ⟨l, u, l / 2, u / 2, l * 2, u * 2⟩

/-- The constants for other types (constants.hpp 28-33). -/
def piAny : PiC := ⟨3, 4, 1, 2, 6, 7⟩

/-- **C287 (constants).** The constants enclose π, its half and its double. -/
theorem C287_constants : piDouble.Ok ∧ piFloat.Ok ∧ piAny.Ok := by
  have h1 := Real.pi_gt_d20
  have h2 := Real.pi_lt_d20
  refine ⟨⟨?_, ?_, ?_, ?_, ?_⟩, ⟨?_, ?_, ?_, ?_, ?_⟩, ⟨?_, ?_, ?_, ?_, ?_⟩⟩ <;>
    simp only [piDouble, piFloat, piAny] <;> norm_num at h1 h2 ⊢ <;>
    first | done | (refine ⟨?_, ?_⟩ <;> linarith) | linarith

/-! ## Increasing functions -/

/-- **C287 (increasing functions).** Exponential, hyperbolic sine and tangent, arc tangent and inverse hyperbolic sine. -/
theorem C287_mono (f : ℝ → ℝ) (hf : Monotone f) (fd fu : Fl ℝ → Fl ℝ) (s : SoundFn (fun _ => True) f fd fu) (X : Iv ℝ)
    (x : ℝ) (hx : Mem x X) : Mem (f x) (mono fd fu X) := by
  rw [mono, mem_not_empty hx]
  exact ⟨s.lower (fun a b _ _ h => hf h) hx.1 (fun _ _ => trivial) trivial,
    s.upper (fun a b _ _ h => hf h) hx.2 (fun _ _ => trivial) trivial⟩

/-- The functions that use it are increasing. -/
theorem C287_mono_list : Monotone Real.exp ∧ Monotone Real.arctan ∧ Monotone Real.sinh ∧ Monotone Real.tanh ∧
    Monotone Real.arsinh := by
  refine ⟨Real.exp_monotone, Real.arctan_mono, Real.sinh_strictMono.monotone, ?_, Real.arsinh_strictMono.monotone⟩
  intro a b h
  by_contra hc
  have hlt : Real.tanh b < Real.tanh a := lt_of_not_ge hc
  have ha := Real.tanh_bijOn.1 (Set.mem_univ a)
  have hb := Real.tanh_bijOn.1 (Set.mem_univ b)
  have := Real.artanh_lt_artanh hb.1 ha.2 hlt
  rw [Real.artanh_tanh, Real.artanh_tanh] at this
  linarith

/-- **C287 (logarithm).** -/
theorem C287_log (fd fu : Fl ℝ → Fl ℝ) (s : SoundFn (0 < ·) Real.log fd fu) (X : Iv ℝ) (x : ℝ) (x0 : 0 < x) (hx : Mem x X) :
    Mem (Real.log x) (ilog fd fu X) := by
  have hp : isPos X.up = true := by
    rcases up_cases hx.2 with e | ⟨b, e, hb⟩ <;> rw [e]
    · rfl
    · simpa [isPos, lt] using x0.trans_le hb
  have hf : ∀ a b : ℝ, 0 < a → 0 < b → a ≤ b → Real.log a ≤ Real.log b := fun a b ha _ h => Real.log_le_log ha h
  rw [ilog, mem_not_empty hx, hp]
  simp only [Bool.not_true, Bool.or_self, Bool.false_eq_true, if_false]
  refine ⟨?_, s.upper hf hx.2 (fun a h => ?_) x0⟩
  · dsimp only
    split
    · rfl
    · next h =>
      refine s.lower hf hx.1 (fun a h' => ?_) x0
      rw [h'] at h
      simpa [isPos, lt] using h
  · rw [h] at hp
    simpa [isPos, lt] using hp

/-! ## Sine, cosine, tangent -/

theorem icos_mem (c : PiC) (hc : c.Ok) (fd fu : Fl ℝ → Fl ℝ) (hd : ∀ a, le (fd (.fin a)) (.fin (Real.cos a)) = true)
    (hu : ∀ a, le (.fin (Real.cos a)) (fu (.fin a)) = true) (k : Nat) (X R : Iv ℝ) (x : ℝ)
    (h : icos exact c fd fu k X = some R) (hx : Mem x X) : Mem (Real.cos x) R := by
  induction k generalizing X R x with
  | zero => cases h
  | succ k ih =>
    rw [icos, mem_not_empty hx] at h
    simp only [Bool.false_eq_true, if_false] at h
    have htl := hc.pos.2.2
    have htt : c.tl ≤ c.tu := hc.t.1.trans hc.t.2
    rcases lo_cases hx.1 with e | ⟨a, e, ha⟩
    · rw [PiC.twice, fmod_ninf e hx htl htt] at h
      have e1 : le (.fin c.pu) (.nan : Fl ℝ) = false := rfl
      have e2 : ∀ b : ℝ, le .pinf (.fin b) = false := fun _ => rfl
      simp only [e1, e2, Bool.false_eq_true, if_false, ite_self, Option.some.injEq] at h
      rw [← h]
      exact unit_mem x
    · obtain ⟨n, l, hl, l0, l1, -, hm⟩ := fmod_spec e hx htl htt
      have ht := hm (2 * Real.pi) hc.t.1 hc.t.2
      rw [← cos_sub_int x n]
      rw [PiC.twice] at h
      revert ht h
      generalize x - n * (2 * Real.pi) = t
      generalize fmod exact X ⟨.fin c.tl, .fin c.tu⟩ = tmp at hl
      intro h ht
      split at h
      · cases h; exact unit_mem t
      · split at h
        · cases hR : icos exact c fd fu k (sub exact tmp c.pi) with
          | none => rw [hR] at h; cases h
          | some R' =>
            rw [hR] at h
            cases h
            have hp : Mem Real.pi c.pi := mem_fin.2 hc.p
            have := ih _ _ _ hR (sub_mem exact_sound ht hp)
            rw [Real.cos_sub_pi] at this
            have := opp_mem this
            rwa [neg_neg] at this
        · have tl : l ≤ t := by
            have := ht.1
            rw [hl] at this
            simpa [le] using this
          split at h
          · next h2 =>
            cases h
            rcases up_cases ht.2 with e' | ⟨u, e', hu'⟩
            · rw [e'] at h2; cases h2
            rw [e'] at h2
            have hu2 : u ≤ c.pl := by simpa [le] using h2
            have hpi := hc.p.1
            rw [hl, e']
            exact ⟨le_fin_trans (hd u) (Real.cos_le_cos_of_nonneg_of_le_pi (l0.trans tl) (by linarith) hu'),
              fin_le_trans (hu l) (Real.cos_le_cos_of_nonneg_of_le_pi l0 (by linarith) tl)⟩
          · split at h
            · next h2 =>
              cases h
              rcases up_cases ht.2 with e' | ⟨u, e', hu'⟩
              · rw [e'] at h2; cases h2
              rw [e'] at h2
              have hu2 : u ≤ c.tl := by simpa [le] using h2
              refine ⟨(unit_mem t).1, ?_⟩
              dsimp only
              rw [hl, e']
              have es : Fl.sub (exact (K := ℝ)).dn (.fin c.tl) (.fin u) = .fin (c.tl - u) := rfl
              have em : Fl.min (.fin (c.tl - u)) (.fin l) = .fin (Min.min (c.tl - u) l) := by
                simp only [Fl.min, lt, decide_eq_true_eq]
                split
                · next h => rw [min_eq_right h.le]
                · next h => rw [min_eq_left (not_lt.1 h)]
              rw [es, em]
              have ht1 := hc.t.1
              refine fin_le_trans (hu _) (cos_le_cos_of_away (le_min (by linarith) l0) ((min_le_right _ _).trans tl) ?_)
              exact (min_le_left _ _).trans (by linarith)
            · cases h; exact unit_mem t

/-- **C287 (cosine).** Two nested calls are enough, and the result contains the cosines of the interval. -/
theorem C287_cos (c : PiC) (hc : c.Ok) (fd fu : Fl ℝ → Fl ℝ) (hd : ∀ a, le (fd (.fin a)) (.fin (Real.cos a)) = true)
    (hu : ∀ a, le (.fin (Real.cos a)) (fu (.fin a)) = true) (X : Iv ℝ) (x : ℝ) (hx : Mem x X) :
    ∃ R, icos exact c fd fu 2 X = some R ∧ ∀ y, Mem y X → Mem (Real.cos y) R := by
  suffices h : ∃ R, icos exact c fd fu 2 X = some R by
    obtain ⟨R, hR⟩ := h
    exact ⟨R, hR, fun y hy => icos_mem c hc fd fu hd hu 2 X R y hR hy⟩
  have htl := hc.pos.2.2
  have htt : c.tl ≤ c.tu := hc.t.1.trans hc.t.2
  have hpp : c.pl ≤ c.pu := hc.p.1.trans hc.p.2
  rw [icos, mem_not_empty hx]
  simp only [Bool.false_eq_true, if_false]
  rcases lo_cases hx.1 with e | ⟨a, e, ha⟩
  · rw [PiC.twice, fmod_ninf e hx htl htt]
    have e1 : le (.fin c.pu) (.nan : Fl ℝ) = false := rfl
    simp only [e1, Bool.false_eq_true, if_false]
    split_ifs <;> exact ⟨_, rfl⟩
  · obtain ⟨n, l, hl, l0, l1, -, hm⟩ := fmod_spec e hx htl htt
    have ht := hm (2 * Real.pi) hc.t.1 hc.t.2
    rw [PiC.twice]
    generalize hT : fmod exact X ⟨.fin c.tl, .fin c.tu⟩ = tmp at hl ht
    split
    · exact ⟨_, rfl⟩
    · split
      · next h2 =>
        rw [hl] at h2
        have h2 : c.pu ≤ l := by simpa [le] using h2
        have hp : Mem Real.pi c.pi := mem_fin.2 hc.p
        have hs := sub_mem exact_sound ht hp
        have hlo : (sub exact tmp c.pi).lo = .fin (l - c.pu) := by
          rw [sub, mem_not_empty ht, mem_not_empty hp]
          simp only [Bool.or_self, Bool.false_eq_true, if_false]
          rw [hl]
          rfl
        generalize sub exact tmp c.pi = X' at hs hlo
        suffices h : ∃ R, icos exact c fd fu 1 X' = some R by
          obtain ⟨R, hR⟩ := h
          exact ⟨opp R, by rw [hR]; rfl⟩
        rw [icos, mem_not_empty hs]
        simp only [Bool.false_eq_true, if_false]
        obtain ⟨n', l', hl', -, -, hsame, -⟩ := fmod_spec hlo hs htl htt
        have h3 := hc.twice
        have hpu : 0 < c.pu := hc.pos.1.trans_le hpp
        have : l' = l - c.pu := hsame (by linarith) (by linarith)
        rw [PiC.twice]
        have h4 : le (.fin c.pu) (fmod exact X' ⟨.fin c.tl, .fin c.tu⟩).lo = false := by
          rw [hl', this]
          simp only [le, decide_eq_false_iff_not, not_le]
          linarith
        simp only [h4, Bool.false_eq_true, if_false]
        split_ifs <;> exact ⟨_, rfl⟩
      · split_ifs <;> exact ⟨_, rfl⟩

/-- **C287 (sine).** -/
theorem C287_sin (c : PiC) (hc : c.Ok) (fd fu : Fl ℝ → Fl ℝ) (hd : ∀ a, le (fd (.fin a)) (.fin (Real.cos a)) = true)
    (hu : ∀ a, le (.fin (Real.cos a)) (fu (.fin a)) = true) (X : Iv ℝ) (x : ℝ) (hx : Mem x X) :
    ∃ R, isin exact c fd fu 2 X = some R ∧ ∀ y, Mem y X → Mem (Real.sin y) R := by
  have hh : Mem (Real.pi / 2) c.half := mem_fin.2 hc.h
  obtain ⟨R, hR, hall⟩ := C287_cos c hc fd fu hd hu (sub exact X c.half) _ (sub_mem exact_sound hx hh)
  refine ⟨R, ?_, fun y hy => ?_⟩
  · rw [isin, mem_not_empty hx]
    exact hR
  · have := hall _ (sub_mem exact_sound hy hh)
    rwa [Real.cos_sub_pi_div_two] at this

theorem itan_mem (c : PiC) (hc : c.Ok) (fd fu : Fl ℝ → Fl ℝ)
    (s : ∀ a, -(Real.pi / 2) < a → a < Real.pi / 2 → le (fd (.fin a)) (.fin (Real.tan a)) = true ∧
      le (.fin (Real.tan a)) (fu (.fin a)) = true) (X : Iv ℝ) (x : ℝ) (hx : Mem x X) :
    Mem (Real.tan x) (itan exact c fd fu X) ∧ (itan exact c fd fu X = whole ∨ Real.cos x ≠ 0) := by
  have hpp : c.pl ≤ c.pu := hc.p.1.trans hc.p.2
  have hp0 := hc.pos.1
  have hh0 := hc.pos.2.1
  have hh1 := hc.h.1
  have hp : Mem Real.pi c.pi := mem_fin.2 hc.p
  have key : ∀ (tmp : Iv ℝ) (t l : ℝ), Mem t tmp → tmp.lo = .fin l → Real.tan t = Real.tan x →
      (Real.cos t ≠ 0 → Real.cos x ≠ 0) →
      Mem (Real.tan x) (if le tmp.lo (.fin (-c.hl)) || le (.fin c.hl) tmp.up then whole else ⟨fd tmp.lo, fu tmp.up⟩) ∧
      ((if le tmp.lo (.fin (-c.hl)) || le (.fin c.hl) tmp.up then whole else ⟨fd tmp.lo, fu tmp.up⟩) = whole ∨
        Real.cos x ≠ 0) := by
    intro tmp t l ht hl htan hcos
    split
    · exact ⟨⟨rfl, rfl⟩, Or.inl rfl⟩
    · next h =>
      simp only [Bool.or_eq_true, not_or] at h
      rcases up_cases ht.2 with e | ⟨u, e, hu⟩
      · rw [e] at h; exact absurd rfl h.2
      have ht1 := ht.1
      rw [hl] at ht1
      have htl : l ≤ t := by simpa [le] using ht1
      rw [hl, e] at h ⊢
      have h1 : -c.hl < l := by simpa [le] using h.1
      have h2 : u < c.hl := by simpa [le] using h.2
      rw [← htan]
      have m := Real.strictMonoOn_tan.monotoneOn
      have il : l ∈ Set.Ioo (-(Real.pi / 2)) (Real.pi / 2) := ⟨by linarith, by linarith⟩
      have it : t ∈ Set.Ioo (-(Real.pi / 2)) (Real.pi / 2) := ⟨by linarith, by linarith⟩
      have iu : u ∈ Set.Ioo (-(Real.pi / 2)) (Real.pi / 2) := ⟨by linarith, by linarith⟩
      exact ⟨⟨le_fin_trans (s l il.1 il.2).1 (m il it htl), fin_le_trans (s u iu.1 iu.2).2 (m it iu hu)⟩,
        Or.inr (hcos (Real.cos_pos_of_mem_Ioo it).ne')⟩
  rw [itan, mem_not_empty hx]
  simp only [Bool.false_eq_true, if_false]
  rcases lo_cases hx.1 with e | ⟨a, e, ha⟩
  · rw [PiC.pi, fmod_ninf e hx hp0 hpp]
    have e1 : le (.fin c.hl) (.nan : Fl ℝ) = false := rfl
    have e2 : le (.fin c.hl) (.pinf : Fl ℝ) = true := rfl
    simp only [e1, e2, Bool.false_eq_true, if_false, Bool.or_true, if_true]
    exact ⟨⟨rfl, rfl⟩, Or.inl trivial⟩
  · obtain ⟨n, l, hl, l0, l1, -, hm⟩ := fmod_spec e hx hp0 hpp
    have ht := hm Real.pi hc.p.1 hc.p.2
    have htan := tan_sub_int x n
    have hcs : Real.cos (x - n * Real.pi) ≠ 0 → Real.cos x ≠ 0 := by
      intro h h0
      apply h
      rw [Real.cos_sub_int_mul_pi, h0, mul_zero]
    have hpi : c.pi = ⟨.fin c.pl, .fin c.pu⟩ := rfl
    rw [hpi]
    generalize hT : fmod exact X ⟨.fin c.pl, .fin c.pu⟩ = tmp at hl ht
    split
    · have hs := sub_mem exact_sound ht hp
      refine key _ (x - n * Real.pi - Real.pi) (l - c.pu) hs ?_ ?_ ?_
      · rw [sub, mem_not_empty ht, ← hpi, mem_not_empty hp]
        simp only [Bool.or_self, Bool.false_eq_true, if_false]
        rw [hl]
        rfl
      · rw [Real.tan_sub_pi, htan]
      · intro h
        rw [Real.cos_sub_pi] at h
        exact hcs (neg_ne_zero.1 h)
    · exact key _ _ l ht hl htan hcs

/-- **C287 (tangent).** The result contains the tangents; unless it is the whole line the tangent exists everywhere. -/
theorem C287_tan (c : PiC) (hc : c.Ok) (fd fu : Fl ℝ → Fl ℝ)
    (s : ∀ a, -(Real.pi / 2) < a → a < Real.pi / 2 → le (fd (.fin a)) (.fin (Real.tan a)) = true ∧
      le (.fin (Real.tan a)) (fu (.fin a)) = true) (X : Iv ℝ) (x : ℝ) (hx : Mem x X) :
    Mem (Real.tan x) (itan exact c fd fu X) ∧ (itan exact c fd fu X = whole ∨ Real.cos x ≠ 0) :=
  itan_mem c hc fd fu s X x hx

/-! ## Functions with a domain -/

/-- **C287 (arc sine).** -/
theorem C287_asin (c : PiC) (hc : c.Ok) (fd fu : Fl ℝ → Fl ℝ) (hd : ∀ a, le (fd (.fin a)) (.fin (Real.arcsin a)) = true)
    (hu : ∀ a, le (.fin (Real.arcsin a)) (fu (.fin a)) = true) (X : Iv ℝ) (x : ℝ) (h1 : -1 ≤ x) (h2 : x ≤ 1)
    (hx : Mem x X) : Mem (Real.arcsin x) (iasin c fd fu X) := by
  have e1 : lt X.up (.fin (-1)) = false := by
    rcases up_cases hx.2 with e | ⟨b, e, hb⟩ <;> rw [e]
    · rfl
    · simp only [lt, decide_eq_false_iff_not, not_lt]; linarith
  have e2 : lt (.fin 1) X.lo = false := by
    rcases lo_cases hx.1 with e | ⟨b, e, hb⟩ <;> rw [e]
    · rfl
    · simp only [lt, decide_eq_false_iff_not, not_lt]; linarith
  rw [iasin, mem_not_empty hx, e1, e2]
  simp only [Bool.or_self, Bool.false_eq_true, if_false]
  refine ⟨?_, ?_⟩
  · dsimp only
    split
    · have := Real.neg_pi_div_two_le_arcsin x
      have := hc.h.2
      simp only [le, decide_eq_true_eq]
      linarith
    · next h =>
      rcases lo_cases hx.1 with e | ⟨b, e, hb⟩
      · rw [e] at h; exact absurd rfl h
      · rw [e]
        exact le_fin_trans (hd b) (Real.monotone_arcsin hb)
  · dsimp only
    split
    · have := Real.arcsin_le_pi_div_two x
      have := hc.h.2
      simp only [le, decide_eq_true_eq]
      linarith
    · next h =>
      rcases up_cases hx.2 with e | ⟨b, e, hb⟩
      · rw [e] at h; exact absurd rfl h
      · rw [e]
        exact fin_le_trans (hu b) (Real.monotone_arcsin hb)

/-- **C287 (arc cosine).** -/
theorem C287_acos (c : PiC) (hc : c.Ok) (fd fu : Fl ℝ → Fl ℝ) (hd : ∀ a, le (fd (.fin a)) (.fin (Real.arccos a)) = true)
    (hu : ∀ a, le (.fin (Real.arccos a)) (fu (.fin a)) = true) (X : Iv ℝ) (x : ℝ) (h1 : -1 ≤ x) (h2 : x ≤ 1)
    (hx : Mem x X) : Mem (Real.arccos x) (iacos c fd fu X) := by
  have e1 : lt X.up (.fin (-1)) = false := by
    rcases up_cases hx.2 with e | ⟨b, e, hb⟩ <;> rw [e]
    · rfl
    · simp only [lt, decide_eq_false_iff_not, not_lt]; linarith
  have e2 : lt (.fin 1) X.lo = false := by
    rcases lo_cases hx.1 with e | ⟨b, e, hb⟩ <;> rw [e]
    · rfl
    · simp only [lt, decide_eq_false_iff_not, not_lt]; linarith
  rw [iacos, mem_not_empty hx, e1, e2]
  simp only [Bool.or_self, Bool.false_eq_true, if_false]
  refine ⟨?_, ?_⟩
  · dsimp only
    split
    · simpa [le] using Real.arccos_nonneg x
    · next h =>
      rcases up_cases hx.2 with e | ⟨b, e, hb⟩
      · rw [e] at h; exact absurd rfl h
      · rw [e]
        exact le_fin_trans (hd b) (Real.antitone_arccos hb)
  · dsimp only
    split
    · have := Real.arccos_le_pi x
      have := hc.p.2
      simp only [le, decide_eq_true_eq]
      linarith
    · next h =>
      rcases lo_cases hx.1 with e | ⟨b, e, hb⟩
      · rw [e] at h; exact absurd rfl h
      · rw [e]
        exact fin_le_trans (hu b) (Real.antitone_arccos hb)

/-- **C287 (hyperbolic cosine).** -/
theorem C287_cosh (fd fu : Fl ℝ → Fl ℝ) (hd : ∀ a, le (fd (.fin a)) (.fin (Real.cosh a)) = true)
    (hu : ∀ a, le (.fin (Real.cosh a)) (fu (.fin a)) = true) (hi : fu .ninf = .pinf ∧ fu .pinf = .pinf) (X : Iv ℝ) (x : ℝ)
    (hx : Mem x X) : Mem (Real.cosh x) (icosh fd fu X) := by
  rw [icosh, mem_not_empty hx]
  simp only [Bool.false_eq_true, if_false]
  obtain ⟨l, u⟩ := X
  rw [mem_iff] at hx
  obtain ⟨hl, hu'⟩ := hx
  have m : ∀ {a b : ℝ}, |a| ≤ |b| → Real.cosh a ≤ Real.cosh b := fun h => Real.cosh_le_cosh.2 h
  dsimp only
  split
  · next h =>
    rcases hu' with rfl | ⟨b, rfl, hb⟩
    · cases h
    have b0 : b < 0 := by simpa [isNeg, lt] using h
    refine ⟨le_fin_trans (hd b) (m ?_), ?_⟩
    · rw [abs_of_neg b0, abs_of_neg (by linarith)]; linarith
    · rcases hl with rfl | ⟨a, rfl, ha⟩
      · dsimp only; rw [hi.1]; rfl
      · refine fin_le_trans (hu a) (m ?_)
        rw [abs_of_neg (by linarith), abs_of_neg (by linarith)]; linarith
  · next h =>
    split
    · next h2 =>
      rcases hl with rfl | ⟨a, rfl, ha⟩
      · exact absurd h2 (by simp [isNeg, lt])
      have a0 : 0 ≤ a := by simpa [isNeg, lt] using h2
      refine ⟨le_fin_trans (hd a) (m ?_), ?_⟩
      · rw [abs_of_nonneg a0, abs_of_nonneg (by linarith)]; linarith
      · rcases hu' with rfl | ⟨b, rfl, hb⟩
        · dsimp only; rw [hi.2]; rfl
        · refine fin_le_trans (hu b) (m ?_)
          rw [abs_of_nonneg (by linarith), abs_of_nonneg (by linarith)]; linarith
    · next h2 =>
      refine ⟨?_, ?_⟩
      · simpa [le] using (Real.cosh_pos x).le
      · dsimp only
        split
        · next h3 =>
          rcases hl with rfl | ⟨a, rfl, ha⟩
          · rw [hi.1]; rfl
          rcases hu' with rfl | ⟨b, rfl, hb⟩
          · cases h3
          have h3 : b < -a := by simpa [lt, neg] using h3
          refine fin_le_trans (hu a) (m ?_)
          have a0 : a < 0 := by simpa [isNeg, lt] using h2
          rw [abs_of_neg a0, abs_le]
          exact ⟨by linarith, by linarith⟩
        · next h3 =>
          rcases hu' with rfl | ⟨b, rfl, hb⟩
          · rw [hi.2]; rfl
          rcases hl with rfl | ⟨a, rfl, ha⟩
          · exact absurd rfl h3
          have h3 : -a ≤ b := by simpa [lt, neg] using h3
          refine fin_le_trans (hu b) (m ?_)
          have b0 : 0 ≤ b := by simpa [isNeg, lt] using h
          rw [abs_of_nonneg b0, abs_le]
          exact ⟨by linarith, by linarith⟩

/-- **C287 (hyperbolic cosine, not sharp).** An interval on both sides of zero gets the lower end 0, though no
hyperbolic cosine is below 1. -/
theorem C287_cosh_loose (fd fu : Fl ℝ → Fl ℝ) (a b : ℝ) (ha : a < 0) (hb : 0 ≤ b) :
    (icosh fd fu ⟨.fin a, .fin b⟩).lo = .fin 0 ∧ ∀ x : ℝ, 1 ≤ Real.cosh x := by
  refine ⟨?_, fun x => Real.one_le_cosh x⟩
  rw [icosh, not_empty_fin (ha.le.trans hb)]
  simp [isNeg, lt, ha, not_lt.2 hb]

/-- **C287 (inverse hyperbolic cosine).** -/
theorem C287_acosh (fd fu : Fl ℝ → Fl ℝ) (s : SoundFn (1 ≤ ·) Real.arcosh fd fu) (X : Iv ℝ) (x : ℝ) (x1 : 1 ≤ x)
    (hx : Mem x X) : Mem (Real.arcosh x) (iacosh fd fu X) := by
  have hp : lt X.up (.fin 1) = false := by
    rcases up_cases hx.2 with e | ⟨b, e, hb⟩ <;> rw [e]
    · rfl
    · simp only [lt, decide_eq_false_iff_not, not_lt]; linarith
  have hf : ∀ a b : ℝ, 1 ≤ a → 1 ≤ b → a ≤ b → Real.arcosh a ≤ Real.arcosh b := fun a b ha hb h =>
    (Real.arcosh_le_arcosh (by linarith) (by linarith)).2 h
  rw [iacosh, mem_not_empty hx, hp]
  simp only [Bool.or_self, Bool.false_eq_true, if_false]
  refine ⟨?_, s.upper hf hx.2 (fun a h => ?_) x1⟩
  · dsimp only
    split
    · simpa [le] using Real.arcosh_nonneg x1
    · next h =>
      refine s.lower hf hx.1 (fun a h' => ?_) x1
      rw [h'] at h
      have h : 1 < a := by simpa [le] using h
      exact h.le
  · rw [h] at hp
    simpa [lt] using hp

/-- **C287 (inverse hyperbolic tangent).** -/
theorem C287_atanh (fd fu : Fl ℝ → Fl ℝ) (hd : ∀ a, -1 < a → a < 1 → le (fd (.fin a)) (.fin (Real.artanh a)) = true)
    (hu : ∀ a, -1 < a → a < 1 → le (.fin (Real.artanh a)) (fu (.fin a)) = true) (X : Iv ℝ) (x : ℝ) (h1 : -1 < x) (h2 : x < 1)
    (hx : Mem x X) : Mem (Real.artanh x) (iatanh fd fu X) := by
  have e1 : lt X.up (.fin (-1)) = false := by
    rcases up_cases hx.2 with e | ⟨b, e, hb⟩ <;> rw [e]
    · rfl
    · simp only [lt, decide_eq_false_iff_not, not_lt]; linarith
  have e2 : lt (.fin 1) X.lo = false := by
    rcases lo_cases hx.1 with e | ⟨b, e, hb⟩ <;> rw [e]
    · rfl
    · simp only [lt, decide_eq_false_iff_not, not_lt]; linarith
  rw [iatanh, mem_not_empty hx, e1, e2]
  simp only [Bool.or_self, Bool.false_eq_true, if_false]
  refine ⟨?_, ?_⟩
  · dsimp only
    split
    · rfl
    · next h =>
      rcases lo_cases hx.1 with e | ⟨b, e, hb⟩
      · rw [e] at h; exact absurd rfl h
      · rw [e] at h ⊢
        have h : -1 < b := by simpa [le] using h
        exact le_fin_trans (hd b h (by linarith)) (Real.artanh_le_artanh h h2 hb)
  · dsimp only
    split
    · rfl
    · next h =>
      rcases up_cases hx.2 with e | ⟨b, e, hb⟩
      · rw [e] at h; exact absurd rfl h
      · rw [e] at h ⊢
        have h : b < 1 := by simpa [le] using h
        exact fin_le_trans (hu b (by linarith) h) (Real.artanh_le_artanh h1 h hb)

/-! ## The assumption of the check of bounds -/

/-- A function of the C library without rounding. -/
noncomputable def ex (f : ℝ → ℝ) : Fl ℝ → Fl ℝ
  | .fin a => .fin (f a)
  | v => v

/-- The same for the hyperbolic cosine. -/
noncomputable def exC (f : ℝ → ℝ) : Fl ℝ → Fl ℝ
  | .fin a => .fin (f a)
  | _ => .pinf

/-- An interval of the check of bounds as one of the library, and back: `none` if the ends are not finite. -/
def iv (p : ℝ × ℝ) : Iv ℝ := ⟨.fin p.1, .fin p.2⟩

def toIv : Iv ℝ → MathSym.Iv
  | ⟨.fin a, .fin b⟩ => some (a, b)
  | _ => .none

open Classical in
/-- The functions of the library as mathsym uses them (Interval.h 40-71, FunDef.cpp 700, 708, 727-730), in exact
arithmetic. -/
noncomputable def libB (c : PiC) (f : MathSym.Fn) (p : ℝ × ℝ) : MathSym.Iv :=
  match f with
  | .inv => toIv (sdiv exact (.fin 1) (iv p))
  | .min => toIv (opp (iv p))
  | .sin => (isin exact c (ex Real.cos) (ex Real.cos) 2 (iv p)).bind toIv
  | .cos => (icos exact c (ex Real.cos) (ex Real.cos) 2 (iv p)).bind toIv
  | .tan => toIv (itan exact c (ex Real.tan) (ex Real.tan) (iv p))
  | .asin => if p.1 < 1 ∨ p.2 > 1 then .none else toIv (iasin c (ex Real.arcsin) (ex Real.arcsin) (iv p))
  | .acos => if p.1 < 1 ∨ p.2 > 1 then .none else toIv (iacos c (ex Real.arccos) (ex Real.arccos) (iv p))
  | .atan => toIv (mono (ex Real.arctan) (ex Real.arctan) (iv p))
  | .sinh => toIv (mono (ex Real.sinh) (ex Real.sinh) (iv p))
  | .cosh => toIv (icosh (exC Real.cosh) (exC Real.cosh) (iv p))
  | .tanh => toIv (mono (ex Real.tanh) (ex Real.tanh) (iv p))
  | .asinh => toIv (mono (ex Real.arsinh) (ex Real.arsinh) (iv p))
  | .acosh => if p.1 < 1 then .none else toIv (iacosh (ex Real.arcosh) (ex Real.arcosh) (iv p))
  | .atanh => toIv (iatanh (ex Real.artanh) (ex Real.artanh) (iv p))
  | .exp => toIv (mono (ex Real.exp) (ex Real.exp) (iv p))
  | .log => toIv (ilog (ex Real.log) (ex Real.log) (iv p))
  | .sqr => toIv (square exact (iv p))
  | .sqrt => if p.1 < 0 then .none else toIv (sqrt (fun a => .fin (Real.sqrt a)) (fun a => .fin (Real.sqrt a)) (iv p))
  | _ => .none

theorem ex_sound (D : ℝ → Prop) (f : ℝ → ℝ) : SoundFn D f (ex f) (ex f) :=
  ⟨fun a _ => by simp [ex, le], fun a _ => by simp [ex, le], fun a _ => rfl, fun a _ => rfl⟩

theorem ex_dn (f : ℝ → ℝ) (a : ℝ) : le (ex f (.fin a)) (.fin (f a)) = true := by simp [ex, le]

theorem ex_up (f : ℝ → ℝ) (a : ℝ) : le (.fin (f a)) (ex f (.fin a)) = true := by simp [ex, le]

theorem iv_mem {p : ℝ × ℝ} {v : ℝ} (h : MathSym.Within p v) : Mem v (iv p) := mem_fin.2 h

theorem toIv_some {R : Iv ℝ} {q : ℝ × ℝ} (h : toIv R = some q) : R = ⟨.fin q.1, .fin q.2⟩ := by
  obtain ⟨l, u⟩ := R
  cases l <;> cases u <;> simp [toIv] at h
  subst h
  rfl

theorem toIv_within {R : Iv ℝ} {q : ℝ × ℝ} {y : ℝ} (h : toIv R = some q) (hy : Mem y R) : MathSym.Within q y := by
  rw [toIv_some h] at hy
  exact mem_fin.1 hy

theorem root_sound : SoundRoot (fun a : ℝ => .fin (Real.sqrt a)) (fun a => .fin (Real.sqrt a)) := by
  intro a q q0
  simp only [le, decide_eq_true_eq]
  refine ⟨fun _ h => ?_, fun h => ?_⟩
  · rw [Real.sqrt_le_left q0, sq]; exact h
  · exact Real.le_sqrt_of_sq_le (by rw [sq]; exact h)

/-- **C285 (no more than needed, root).** Without rounding the root of an interval is the set of the roots of its numbers
that have one. -/
theorem C285_sqrt_image (a b z : ℝ) (hab : a ≤ b) :
    Mem z (sqrt (fun a : ℝ => .fin (Real.sqrt a)) (fun a => .fin (Real.sqrt a)) ⟨.fin a, .fin b⟩) ↔
      ∃ x, a ≤ x ∧ x ≤ b ∧ 0 ≤ x ∧ z = Real.sqrt x := by
  constructor
  · intro h
    rw [sqrt, not_empty_fin hab] at h
    by_cases hb : b < 0
    · rw [if_pos (by simp [isNeg, lt, hb])] at h
      simp [Mem, IvLib.none, le] at h
    · push Not at hb
      rw [if_neg (by simp [isNeg, lt, hb])] at h
      by_cases ha : 0 < a
      · rw [if_neg (by simp [isPos, lt, ha])] at h
        have h : Real.sqrt a ≤ z ∧ z ≤ Real.sqrt b := mem_fin.1 h
        have hz : 0 ≤ z := (Real.sqrt_nonneg a).trans h.1
        refine ⟨z ^ 2, ?_, ?_, sq_nonneg z, (Real.sqrt_sq hz).symm⟩
        · exact (Real.sqrt_le_left hz).1 h.1
        · exact (Real.le_sqrt hz hb).1 h.2
      · rw [if_pos (by simpa [isPos, lt] using ha)] at h
        have h : 0 ≤ z ∧ z ≤ Real.sqrt b := mem_fin.1 h
        push Not at ha
        exact ⟨z ^ 2, ha.trans (sq_nonneg z), (Real.le_sqrt h.1 hb).1 h.2, sq_nonneg z, (Real.sqrt_sq h.1).symm⟩
  · rintro ⟨x, h1, h2, h3, rfl⟩
    refine C285_sqrt _ _ root_sound _ _ (Real.sqrt_nonneg x) ?_
    rw [Real.mul_self_sqrt h3]
    exact mem_fin.2 ⟨h1, h2⟩

/-- **C287 (what the check of bounds assumes).** In exact arithmetic, with the constants for `double`, the library as
the symbolic regression uses it encloses the values, and returns finite ends only where the function has values
everywhere: the hypothesis of C251 holds. -/
theorem C287_encloses : MathSym.Encloses (libB piDouble) := by
  have hc : piDouble.Ok := C287_constants.1
  intro f g hg p q hq v hv
  have hm := iv_mem hv
  cases f <;> simp only [MathSym.unR, reduceCtorEq, Option.some.injEq] at hg <;> subst hg <;>
    simp only [libB] at hq <;> simp only [MathSym.InDom]
  case inv =>
    have h0 : v ≠ 0 := by
      rintro rfl
      have hs := toIv_some hq
      rw [sdiv, mem_not_empty hm] at hs
      have hz : inZero (iv p) = true := by
        rw [inZero, mem_not_empty hm]
        simp [iv, isPos, isNeg, lt, hv.1, hv.2]
      rw [hz] at hs
      have n1 : isZero (.fin (1 : ℝ)) = false := by simp [isZero, Fl.eq]
      have n2 : isNeg (.fin (1 : ℝ)) = false := by simp [isNeg, lt, zero_le_one]
      simp only [reduceCtorEq, decide_false, Bool.or_self, Bool.false_eq_true, if_false, if_true, n1, n2] at hs
      split_ifs at hs <;> simp [whole, none] at hs
    exact ⟨h0, toIv_within hq ((C285_div_number exact exact_sound _ v 1 hm).1 h0)⟩
  case min => exact ⟨trivial, toIv_within hq (opp_mem hm)⟩
  case sin =>
    obtain ⟨R, hR, h⟩ := C287_sin _ hc _ _ (ex_dn _) (ex_up _) _ v hm
    rw [hR] at hq
    exact ⟨trivial, toIv_within hq (h v hm)⟩
  case cos =>
    obtain ⟨R, hR, h⟩ := C287_cos _ hc _ _ (ex_dn _) (ex_up _) _ v hm
    rw [hR] at hq
    exact ⟨trivial, toIv_within hq (h v hm)⟩
  case tan =>
    have h := C287_tan _ hc (ex Real.tan) (ex Real.tan) (fun a _ _ => ⟨ex_dn _ a, ex_up _ a⟩) _ v hm
    refine ⟨h.2.resolve_left ?_, toIv_within hq h.1⟩
    intro hw
    rw [hw] at hq
    simp [toIv, whole] at hq
  case asin =>
    split at hq
    · cases hq
    · next h =>
      push Not at h
      have h1 := hv.1
      have h2 := hv.2
      have d : -1 ≤ v ∧ v ≤ 1 := ⟨by linarith [h.1], by linarith [h.2]⟩
      exact ⟨d, toIv_within hq (C287_asin _ hc _ _ (ex_dn _) (ex_up _) _ v d.1 d.2 hm)⟩
  case acos =>
    split at hq
    · cases hq
    · next h =>
      push Not at h
      have h1 := hv.1
      have h2 := hv.2
      have d : -1 ≤ v ∧ v ≤ 1 := ⟨by linarith [h.1], by linarith [h.2]⟩
      exact ⟨d, toIv_within hq (C287_acos _ hc _ _ (ex_dn _) (ex_up _) _ v d.1 d.2 hm)⟩
  case atan => exact ⟨trivial, toIv_within hq (C287_mono _ C287_mono_list.2.1 _ _ (ex_sound _ _) _ v hm)⟩
  case sinh => exact ⟨trivial, toIv_within hq (C287_mono _ C287_mono_list.2.2.1 _ _ (ex_sound _ _) _ v hm)⟩
  case cosh =>
    exact ⟨trivial, toIv_within hq (C287_cosh _ _ (fun a => by simp [exC, le]) (fun a => by simp [exC, le]) ⟨rfl, rfl⟩ _ v hm)⟩
  case tanh => exact ⟨trivial, toIv_within hq (C287_mono _ C287_mono_list.2.2.2.1 _ _ (ex_sound _ _) _ v hm)⟩
  case asinh => exact ⟨trivial, toIv_within hq (C287_mono _ C287_mono_list.2.2.2.2 _ _ (ex_sound _ _) _ v hm)⟩
  case acosh =>
    split at hq
    · cases hq
    · next h =>
      have h1 := hv.1
      have d : 1 ≤ v := by linarith
      exact ⟨d, toIv_within hq (C287_acosh _ _ (ex_sound _ _) _ v d hm)⟩
  case atanh =>
    have d : -1 < v ∧ v < 1 := by
      have hs := toIv_some hq
      rw [iatanh] at hs
      by_contra hcon
      split at hs
      · simp [none] at hs
      · rw [not_and_or, not_lt, not_lt] at hcon
        rcases hcon with hcon | hcon
        · have : le (iv p).lo (.fin (-1)) = true := by
            simp only [iv, le, decide_eq_true_eq]; linarith [hv.1]
          rw [this] at hs
          simp at hs
        · have : le (.fin 1) (iv p).up = true := by
            simp only [iv, le, decide_eq_true_eq]; linarith [hv.2]
          rw [this] at hs
          simp at hs
    exact ⟨d, toIv_within hq (C287_atanh _ _ (fun a _ _ => ex_dn _ a) (fun a _ _ => ex_up _ a) _ v d.1 d.2 hm)⟩
  case exp => exact ⟨trivial, toIv_within hq (C287_mono _ C287_mono_list.1 _ _ (ex_sound _ _) _ v hm)⟩
  case log =>
    have d : 0 < v := by
      have hs := toIv_some hq
      rw [ilog] at hs
      by_contra hcon
      split at hs
      · simp [none] at hs
      · have : isPos (iv p).lo = false := by
          simp only [iv, isPos, lt, decide_eq_false_iff_not, not_lt]; linarith [hv.1]
        rw [this] at hs
        simp at hs
    exact ⟨d, toIv_within hq (C287_log _ _ (ex_sound _ _) _ v d hm)⟩
  case sqr => exact ⟨trivial, toIv_within hq (square_mem exact_sound hm)⟩
  case sqrt =>
    split at hq
    · cases hq
    · next h =>
      have d : 0 ≤ v := (not_lt.1 h).trans hv.1
      refine ⟨d, toIv_within hq (C285_sqrt _ _ root_sound _ _ (Real.sqrt_nonneg v) ?_)⟩
      rwa [Real.mul_self_sqrt d]

/-- **C287 (the check of bounds).** An expression that the check of bounds accepts has a value on every input in the box,
computed without leaving a domain, and within the reported bounds: C251 without an assumption on the library. -/
theorem C287_check {L : List (MathSym.Expr ℝ)} {bs : List (ℝ × ℝ)} {e : MathSym.Expr ℝ}
    (h : MathSym.inBounds (libB piDouble) L bs e = .ok true) :
    ∃ q : ℝ × ℝ, MathSym.calcBounds (libB piDouble) L bs e = .ok (some q) ∧ ∀ x, List.Forall₂ MathSym.Within bs x →
      ∃ v, MathSym.eval MathSym.apD L x e = some v ∧ MathSym.eval MathSym.apR L x e = some v ∧ MathSym.Within q v ∧
        -(10 ^ 10) < v ∧ v < 10 ^ 10 :=
  MathSym.C251_sound C287_encloses h

/-! ## Examples -/

/-- The exponential of [0, 1]; the cosine of an interval around 2π reduces to one around zero or beyond. -/
example : libB piDouble .exp (0, 1) = some (1, Real.exp 1) := by
  simp [libB, mono, iv, empty, le, ex, toIv, zero_le_one]

example : libB piDouble .log (0, 1) = .none ∧ libB piDouble .inv (0, 1) = .none := by
  constructor
  · simp [libB, ilog, iv, empty, le, isPos, lt, toIv, zero_le_one]
  · simp [libB, sdiv, iv, empty, inZero, le, isPos, isNeg, isZero, Fl.eq, lt, toIv, zero_le_one, not_lt.2 (zero_le_one (α := ℝ)),
      exact, Fl.div]

end Paradiseo.IvLib
