import Mathlib.Tactic.Ring
import Verif.Model.IntervalLib
import Mathlib.Tactic.Linarith
import Mathlib.Tactic.FieldSimp
import Mathlib.Tactic.Positivity
/-
Lemmas on the interval library.
-/
namespace Paradiseo.IvLib

open Fl

variable {K : Type} [Field K] [LinearOrder K] [IsStrictOrderedRing K]

/-- The numbers of an interval. -/
def Mem (x : K) (i : Iv K) : Prop := le i.lo (.fin x) = true ∧ le (.fin x) i.up = true

/-- The rounding downwards does not exceed, the rounding upwards does not fall short of the exact result. -/
def Sound (r : Rnd K) : Prop := ∀ a, le (r.dn a) (.fin a) = true ∧ le (.fin a) (r.up a) = true

theorem exact_sound : Sound (exact (K := K)) := fun a => by simp [exact, le]

theorem lo_cases {l : Fl K} {x : K} (h : le l (.fin x) = true) : l = .ninf ∨ ∃ a, l = .fin a ∧ a ≤ x := by
  cases l <;> simp [le] at h ⊢
  exact h

theorem up_cases {u : Fl K} {x : K} (h : le (.fin x) u = true) : u = .pinf ∨ ∃ b, u = .fin b ∧ x ≤ b := by
  cases u <;> simp [le] at h ⊢
  exact h

theorem mem_not_empty {x : K} {i : Iv K} (h : Mem x i) : empty i = false := by
  obtain ⟨lo, up⟩ := i
  obtain ⟨h1, h2⟩ := h
  rcases lo_cases h1 with h | ⟨a, h, ha⟩ <;> rcases up_cases h2 with h' | ⟨b, h', hb⟩ <;> dsimp only at h h' <;>
    subst h <;> subst h' <;> simp [empty, le]
  exact ha.trans hb

theorem dn_le {r : Rnd K} (h : Sound r) {a z : K} (ha : a ≤ z) : le (r.dn a) (.fin z) = true := by
  have := (h a).1
  revert this
  cases r.dn a <;> simp [le]
  exact fun h => h.trans ha

theorem le_up {r : Rnd K} (h : Sound r) {a z : K} (ha : z ≤ a) : le (.fin z) (r.up a) = true := by
  have := (h a).2
  revert this
  cases r.up a <;> simp [le]
  exact fun h => ha.trans h

section MulInf
variable {r : K → Fl K} {a : K}
theorem mul_ninf_pos (h : 0 < a) : Fl.mul r .ninf (.fin a) = .ninf := by
  simp [Fl.mul, isZero, Fl.eq, isNeg, lt, inf, h.ne', h.le]
theorem mul_ninf_neg (h : a < 0) : Fl.mul r .ninf (.fin a) = .pinf := by
  simp [Fl.mul, isZero, Fl.eq, isNeg, lt, inf, h.ne, h]
theorem mul_pinf_pos (h : 0 < a) : Fl.mul r .pinf (.fin a) = .pinf := by
  simp [Fl.mul, isZero, Fl.eq, isNeg, lt, inf, h.ne', h.le]
theorem mul_pinf_neg (h : a < 0) : Fl.mul r .pinf (.fin a) = .ninf := by
  simp [Fl.mul, isZero, Fl.eq, isNeg, lt, inf, h.ne, h]
theorem mul_pos_ninf (h : 0 < a) : Fl.mul r (.fin a) .ninf = .ninf := by
  simp [Fl.mul, isZero, Fl.eq, isNeg, lt, inf, h.ne', h.le]
theorem mul_neg_ninf (h : a < 0) : Fl.mul r (.fin a) .ninf = .pinf := by
  simp [Fl.mul, isZero, Fl.eq, isNeg, lt, inf, h.ne, h]
theorem mul_pos_pinf (h : 0 < a) : Fl.mul r (.fin a) .pinf = .pinf := by
  simp [Fl.mul, isZero, Fl.eq, isNeg, lt, inf, h.ne', h.le]
theorem mul_neg_pinf (h : a < 0) : Fl.mul r (.fin a) .pinf = .ninf := by
  simp [Fl.mul, isZero, Fl.eq, isNeg, lt, inf, h.ne, h]
theorem mul_nn : Fl.mul r .ninf .ninf = (.pinf : Fl K) := by simp [Fl.mul, isZero, Fl.eq, isNeg, lt, inf]
theorem mul_np : Fl.mul r .ninf .pinf = (.ninf : Fl K) := by simp [Fl.mul, isZero, Fl.eq, isNeg, lt, inf]
theorem mul_pn : Fl.mul r .pinf .ninf = (.ninf : Fl K) := by simp [Fl.mul, isZero, Fl.eq, isNeg, lt, inf]
theorem mul_pp : Fl.mul r .pinf .pinf = (.pinf : Fl K) := by simp [Fl.mul, isZero, Fl.eq, isNeg, lt, inf]
theorem mul_ff (b : K) : Fl.mul r (.fin a) (.fin b) = r (a * b) := rfl
end MulInf

theorem min_le_left' {p q : Fl K} {z : K} (h : le p (.fin z) = true) : le (Fl.min p q) (.fin z) = true := by
  rw [Fl.min]
  split
  · next hl =>
    revert h hl
    cases p <;> cases q <;> simp [le, lt]
    exact fun h1 h2 => (h2.trans_le h1).le
  · exact h

theorem min_le_right' {p q : Fl K} {z : K} (hp : p ≠ .nan) (h : le q (.fin z) = true) : le (Fl.min p q) (.fin z) = true := by
  rw [Fl.min]
  split
  · exact h
  · next hl =>
    revert h hl hp
    cases p <;> cases q <;> simp [le, lt]
    exact fun h1 h2 => le_trans (by assumption) (by assumption)

theorem le_max_left' {p q : Fl K} {z : K} (h : le (.fin z) p = true) : le (.fin z) (Fl.max p q) = true := by
  rw [Fl.max]
  split
  · next hl =>
    revert h hl
    cases p <;> cases q <;> simp [le, lt]
    exact fun h1 h2 => (h1.trans_lt h2).le
  · exact h

theorem le_max_right' {p q : Fl K} {z : K} (hp : p ≠ .nan) (h : le (.fin z) q = true) : le (.fin z) (Fl.max p q) = true := by
  rw [Fl.max]
  split
  · exact h
  · next hl =>
    revert h hl hp
    cases p <;> cases q <;> simp [le, lt]
    exact fun h1 h2 => le_trans (by assumption) (by assumption)

theorem dn_ne_nan {r : Rnd K} (h : Sound r) (a : K) : r.dn a ≠ .nan := by
  intro e
  have := (h a).1
  rw [e] at this
  cases this

theorem up_ne_nan {r : Rnd K} (h : Sound r) (a : K) : r.up a ≠ .nan := by
  intro e
  have := (h a).2
  rw [e] at this
  cases this

theorem isNeg_fin {a : K} : isNeg (.fin a) = decide (a < 0) := rfl
theorem isPos_fin {a : K} : isPos (.fin a) = decide (0 < a) := rfl
theorem isNeg_ninf : isNeg (.ninf : Fl K) = true := rfl
theorem isPos_pinf : isPos (.pinf : Fl K) = true := rfl
theorem isZero_fin {a : K} : isZero (.fin a) = decide (a = 0) := rfl
theorem isZero_ninf : isZero (.ninf : Fl K) = false := rfl
theorem isZero_pinf : isZero (.pinf : Fl K) = false := rfl
theorem isPos_ninf : isPos (.ninf : Fl K) = false := rfl
theorem isNeg_pinf : isNeg (.pinf : Fl K) = false := rfl

/-- Take the ends of an interval with a number in it. -/
theorem mem_iff {x : K} {l u : Fl K} : Mem x ⟨l, u⟩ ↔
    (l = .ninf ∨ ∃ a, l = .fin a ∧ a ≤ x) ∧ (u = .pinf ∨ ∃ b, u = .fin b ∧ x ≤ b) := by
  constructor
  · exact fun h => ⟨lo_cases h.1, up_cases h.2⟩
  · rintro ⟨rfl | ⟨a, rfl, ha⟩, rfl | ⟨b, rfl, hb⟩⟩ <;> simp [Mem, le, *]

theorem add_mem {r : Rnd K} (hr : Sound r) {x y : K} {i j : Iv K} (hx : Mem x i) (hy : Mem y j) : Mem (x + y) (add r i j) := by
  rw [add, mem_not_empty hx, mem_not_empty hy]
  obtain ⟨l, u⟩ := i
  obtain ⟨l', u'⟩ := j
  rw [mem_iff] at hx hy
  obtain ⟨rfl | ⟨a, rfl, ha⟩, rfl | ⟨b, rfl, hb⟩⟩ := hx <;> obtain ⟨rfl | ⟨c, rfl, hc⟩, rfl | ⟨d, rfl, hd⟩⟩ := hy <;>
    refine ⟨?_, ?_⟩ <;> first
      | rfl
      | exact dn_le hr (add_le_add ha hc)
      | exact le_up hr (add_le_add hb hd)

theorem sub_mem {r : Rnd K} (hr : Sound r) {x y : K} {i j : Iv K} (hx : Mem x i) (hy : Mem y j) : Mem (x - y) (sub r i j) := by
  rw [sub, mem_not_empty hx, mem_not_empty hy]
  obtain ⟨l, u⟩ := i
  obtain ⟨l', u'⟩ := j
  rw [mem_iff] at hx hy
  obtain ⟨rfl | ⟨a, rfl, ha⟩, rfl | ⟨b, rfl, hb⟩⟩ := hx <;> obtain ⟨rfl | ⟨c, rfl, hc⟩, rfl | ⟨d, rfl, hd⟩⟩ := hy <;>
    refine ⟨?_, ?_⟩ <;> first
      | rfl
      | exact dn_le hr (sub_le_sub ha hd)
      | exact le_up hr (sub_le_sub hb hc)

section Products
variable {r : Rnd K} {u v : Fl K} {z : K}

theorem dnMul_np (hr : Sound r) (hu : isNeg u = true) (hv : isPos v = true)
    (hf : ∀ a b, u = .fin a → v = .fin b → a < 0 → 0 < b → a * b ≤ z) : le (Fl.mul r.dn u v) (.fin z) = true := by
  cases u <;> cases v <;> simp [isNeg, isPos, lt] at hu hv
  · rw [mul_ninf_pos hv]; rfl
  · rw [mul_np]; rfl
  · exact dn_le hr (hf _ _ rfl rfl hu hv)
  · rw [mul_neg_pinf hu]; rfl

theorem dnMul_pn (hr : Sound r) (hu : isPos u = true) (hv : isNeg v = true)
    (hf : ∀ a b, u = .fin a → v = .fin b → 0 < a → b < 0 → a * b ≤ z) : le (Fl.mul r.dn u v) (.fin z) = true := by
  cases u <;> cases v <;> simp [isNeg, isPos, lt] at hu hv
  · rw [mul_pos_ninf hu]; rfl
  · exact dn_le hr (hf _ _ rfl rfl hu hv)
  · rw [mul_pn]; rfl
  · rw [mul_pinf_neg hv]; rfl

theorem upMul_pp (hr : Sound r) (hu : isPos u = true) (hv : isPos v = true)
    (hf : ∀ a b, u = .fin a → v = .fin b → 0 < a → 0 < b → z ≤ a * b) : le (.fin z) (Fl.mul r.up u v) = true := by
  cases u <;> cases v <;> simp [isPos, lt] at hu hv
  · exact le_up hr (hf _ _ rfl rfl hu hv)
  · rw [mul_pos_pinf hu]; rfl
  · rw [mul_pinf_pos hv]; rfl
  · rw [mul_pp]; rfl

theorem upMul_nn (hr : Sound r) (hu : isNeg u = true) (hv : isNeg v = true)
    (hf : ∀ a b, u = .fin a → v = .fin b → a < 0 → b < 0 → z ≤ a * b) : le (.fin z) (Fl.mul r.up u v) = true := by
  cases u <;> cases v <;> simp [isNeg, lt] at hu hv
  · rw [mul_nn]; rfl
  · rw [mul_ninf_neg hv]; rfl
  · rw [mul_neg_ninf hu]; rfl
  · exact le_up hr (hf _ _ rfl rfl hu hv)

theorem dnMul_ne_nan (hr : Sound r) (hu : isNeg u = true) (hv : isPos v = true) : Fl.mul r.dn u v ≠ .nan := by
  cases u <;> cases v <;> simp [isNeg, isPos, lt] at hu hv
  · rw [mul_ninf_pos hv]; simp
  · rw [mul_np]; simp
  · exact dn_ne_nan hr _
  · rw [mul_neg_pinf hu]; simp

theorem upMul_ne_nan (hr : Sound r) (hu : isNeg u = true) (hv : isNeg v = true) : Fl.mul r.up u v ≠ .nan := by
  cases u <;> cases v <;> simp [isNeg, lt] at hu hv
  · rw [mul_nn]; simp
  · rw [mul_ninf_neg hv]; simp
  · rw [mul_neg_ninf hu]; simp
  · exact up_ne_nan hr _

end Products

theorem lo_not_neg {l : Fl K} {x : K} (h : le l (.fin x) = true) (hn : ¬ isNeg l = true) : ∃ a, l = .fin a ∧ a ≤ x ∧ 0 ≤ a := by
  rcases lo_cases h with rfl | ⟨a, rfl, ha⟩
  · exact absurd rfl hn
  · exact ⟨a, rfl, ha, by simpa [isNeg, lt] using hn⟩

theorem up_not_pos {u : Fl K} {x : K} (h : le (.fin x) u = true) (hn : ¬ isPos u = true) : ∃ b, u = .fin b ∧ x ≤ b ∧ b ≤ 0 := by
  rcases up_cases h with rfl | ⟨a, rfl, ha⟩
  · exact absurd rfl hn
  · exact ⟨a, rfl, ha, by simpa [isPos, lt] using hn⟩

theorem le_of_lo {a x : K} {l : Fl K} (h : le l (.fin x) = true) (e : l = .fin a) : a ≤ x := by
  rw [e] at h; simpa [le] using h

theorem le_of_up {b x : K} {u : Fl K} (h : le (.fin x) u = true) (e : u = .fin b) : x ≤ b := by
  rw [e] at h; simpa [le] using h

theorem fin_zero_le {z : K} (h : z = 0) : Mem z ⟨.fin 0, .fin 0⟩ := by
  subst h
  simp [Mem, le]

theorem mul_mem {r : Rnd K} (hr : Sound r) {x y : K} {i j : Iv K} (hx : Mem x i) (hy : Mem y j) : Mem (x * y) (mul r i j) := by
  rw [mul, mem_not_empty hx, mem_not_empty hy]
  obtain ⟨l, u⟩ := i
  obtain ⟨l', u'⟩ := j
  obtain ⟨hl, hu⟩ := hx
  obtain ⟨hl', hu'⟩ := hy
  dsimp only at hl hu hl' hu' ⊢
  simp only [Bool.or_self, Bool.false_eq_true, if_false]
  by_cases h1 : isNeg l = true <;> by_cases h2 : isPos u = true <;> by_cases h3 : isNeg l' = true <;>
    by_cases h4 : isPos u' = true <;> simp only [h1, h2, h3, h4, if_true, if_false, Bool.false_eq_true]
  · refine ⟨?_, ?_⟩
    · rcases le_total 0 x with sx | sx
      · refine min_le_right' (dnMul_ne_nan hr h1 h4) (dnMul_pn hr h2 h3 fun a b ea eb ha hb => ?_)
        have := le_of_up hu ea
        have := le_of_lo hl' eb
        rcases le_total 0 y with sy | sy <;> nlinarith
      · refine min_le_left' (dnMul_np hr h1 h4 fun a b ea eb ha hb => ?_)
        have := le_of_lo hl ea
        have := le_of_up hu' eb
        rcases le_total 0 y with sy | sy <;> nlinarith
    · rcases le_total 0 x with sx | sx
      · refine le_max_right' (upMul_ne_nan hr h1 h3) (upMul_pp hr h2 h4 fun a b ea eb ha hb => ?_)
        have := le_of_up hu ea
        have := le_of_up hu' eb
        rcases le_total 0 y with sy | sy <;> nlinarith
      · refine le_max_left' (upMul_nn hr h1 h3 fun a b ea eb ha hb => ?_)
        have := le_of_lo hl ea
        have := le_of_lo hl' eb
        rcases le_total 0 y with sy | sy <;> nlinarith
  · obtain ⟨d, rfl, hd, hd0⟩ := up_not_pos hu' h4
    refine ⟨dnMul_pn hr h2 h3 fun a b ea eb ha hb => ?_, upMul_nn hr h1 h3 fun a b ea eb ha hb => ?_⟩
    · have := le_of_up hu ea
      have := le_of_lo hl' eb
      rcases le_total 0 x with sx | sx <;> nlinarith
    · have := le_of_lo hl ea
      have := le_of_lo hl' eb
      rcases le_total 0 x with sx | sx <;> nlinarith
  · obtain ⟨c, rfl, hc, hc0⟩ := lo_not_neg hl' h3
    refine ⟨dnMul_np hr h1 h4 fun a b ea eb ha hb => ?_, upMul_pp hr h2 h4 fun a b ea eb ha hb => ?_⟩
    · have := le_of_lo hl ea
      have := le_of_up hu' eb
      rcases le_total 0 x with sx | sx <;> nlinarith
    · have := le_of_up hu ea
      have := le_of_up hu' eb
      rcases le_total 0 x with sx | sx <;> nlinarith
  · obtain ⟨c, rfl, hc, hc0⟩ := lo_not_neg hl' h3
    obtain ⟨d, rfl, hd, hd0⟩ := up_not_pos hu' h4
    exact fin_zero_le (by rw [show y = 0 by linarith, mul_zero])
  · obtain ⟨b, rfl, hb, hb0⟩ := up_not_pos hu h2
    refine ⟨dnMul_np hr h1 h4 fun a b ea eb ha hb => ?_, upMul_nn hr h1 h3 fun a b ea eb ha hb => ?_⟩
    · have := le_of_lo hl ea
      have := le_of_up hu' eb
      rcases le_total 0 y with sy | sy <;> nlinarith
    · have := le_of_lo hl ea
      have := le_of_lo hl' eb
      rcases le_total 0 y with sy | sy <;> nlinarith
  · obtain ⟨b, rfl, hb, hb0⟩ := up_not_pos hu h2
    obtain ⟨d, rfl, hd, hd0⟩ := up_not_pos hu' h4
    refine ⟨dn_le hr ?_, upMul_nn hr h1 h3 fun a b ea eb ha hb => ?_⟩
    · nlinarith
    · have := le_of_lo hl ea
      have := le_of_lo hl' eb
      nlinarith
  · obtain ⟨b, rfl, hb, hb0⟩ := up_not_pos hu h2
    obtain ⟨c, rfl, hc, hc0⟩ := lo_not_neg hl' h3
    refine ⟨dnMul_np hr h1 h4 fun a b ea eb ha hb => ?_, le_up hr ?_⟩
    · have := le_of_lo hl ea
      have := le_of_up hu' eb
      nlinarith
    · nlinarith
  · obtain ⟨c, rfl, hc, hc0⟩ := lo_not_neg hl' h3
    obtain ⟨d, rfl, hd, hd0⟩ := up_not_pos hu' h4
    exact fin_zero_le (by rw [show y = 0 by linarith, mul_zero])
  · obtain ⟨a, rfl, ha, ha0⟩ := lo_not_neg hl h1
    refine ⟨dnMul_pn hr h2 h3 fun a b ea eb ha hb => ?_, upMul_pp hr h2 h4 fun a b ea eb ha hb => ?_⟩
    · have := le_of_up hu ea
      have := le_of_lo hl' eb
      rcases le_total 0 y with sy | sy <;> nlinarith
    · have := le_of_up hu ea
      have := le_of_up hu' eb
      rcases le_total 0 y with sy | sy <;> nlinarith
  · obtain ⟨a, rfl, ha, ha0⟩ := lo_not_neg hl h1
    obtain ⟨d, rfl, hd, hd0⟩ := up_not_pos hu' h4
    refine ⟨dnMul_pn hr h2 h3 fun a b ea eb ha hb => ?_, le_up hr ?_⟩
    · have := le_of_up hu ea
      have := le_of_lo hl' eb
      nlinarith
    · nlinarith
  · obtain ⟨a, rfl, ha, ha0⟩ := lo_not_neg hl h1
    obtain ⟨c, rfl, hc, hc0⟩ := lo_not_neg hl' h3
    refine ⟨dn_le hr ?_, upMul_pp hr h2 h4 fun a b ea eb ha hb => ?_⟩
    · nlinarith
    · have := le_of_up hu ea
      have := le_of_up hu' eb
      nlinarith
  · obtain ⟨c, rfl, hc, hc0⟩ := lo_not_neg hl' h3
    obtain ⟨d, rfl, hd, hd0⟩ := up_not_pos hu' h4
    exact fin_zero_le (by rw [show y = 0 by linarith, mul_zero])
  all_goals
    obtain ⟨a, rfl, ha, ha0⟩ := lo_not_neg hl h1
    obtain ⟨b, rfl, hb, hb0⟩ := up_not_pos hu h2
    exact fin_zero_le (by rw [show x = 0 by linarith, zero_mul])

/-! ### Division -/

theorem div_le_div_same {a b x y : K} (h : 0 < b * y) (h' : a * y ≤ x * b) : a / b ≤ x / y := by
  have hb : b ≠ 0 := left_ne_zero_of_mul h.ne'
  have hy : y ≠ 0 := right_ne_zero_of_mul h.ne'
  have e1 : a / b = a * y / (b * y) := by field_simp
  have e2 : x / y = x * b / (b * y) := by field_simp
  rw [e1, e2]
  exact div_le_div_of_nonneg_right h' h.le

theorem dnDiv {r : Rnd K} (hr : Sound r) {a b x y : K} (h : 0 < b * y) (h' : a * y ≤ x * b) :
    le (Fl.div r.dn (.fin a) (.fin b)) (.fin (x / y)) = true := by
  have hb : b ≠ 0 := left_ne_zero_of_mul h.ne'
  rw [Fl.div, if_neg hb]
  exact dn_le hr (div_le_div_same h h')

theorem upDiv {r : Rnd K} (hr : Sound r) {a b x y : K} (h : 0 < b * y) (h' : x * b ≤ a * y) :
    le (.fin (x / y)) (Fl.div r.up (.fin a) (.fin b)) = true := by
  have hb : b ≠ 0 := left_ne_zero_of_mul h.ne'
  rw [Fl.div, if_neg hb]
  exact le_up hr (div_le_div_same (by rwa [mul_comm]) h')

theorem fin_div_pinf (r : K → Fl K) (a : K) : Fl.div r (.fin a) .pinf = .fin 0 := rfl
theorem fin_div_ninf (r : K → Fl K) (a : K) : Fl.div r (.fin a) .ninf = .fin 0 := rfl

theorem ninf_div_pos (r : K → Fl K) {b : K} (h : 0 < b) : Fl.div r .ninf (.fin b) = .ninf := by
  simp [Fl.div, inf, h.ne', h.le]
theorem ninf_div_neg (r : K → Fl K) {b : K} (h : b < 0) : Fl.div r .ninf (.fin b) = .pinf := by
  simp [Fl.div, inf, h.ne, h]
theorem pinf_div_pos (r : K → Fl K) {b : K} (h : 0 < b) : Fl.div r .pinf (.fin b) = .pinf := by
  simp [Fl.div, inf, h.ne', h.le]
theorem pinf_div_neg (r : K → Fl K) {b : K} (h : b < 0) : Fl.div r .pinf (.fin b) = .ninf := by
  simp [Fl.div, inf, h.ne, h]

theorem zero_le_fin {z : K} (h : 0 ≤ z) : le (.fin 0) (.fin z) = true := by simpa [le] using h
theorem fin_le_zero {z : K} (h : z ≤ 0) : le (.fin z) (.fin 0) = true := by simpa [le] using h

theorem zero_of_isZero {x : K} {i : Iv K} (hx : Mem x i) (h1 : isZero i.lo = true) (h2 : isZero i.up = true) : x = 0 := by
  obtain ⟨l, u⟩ := i
  rw [mem_iff] at hx
  obtain ⟨rfl | ⟨a, rfl, ha⟩, rfl | ⟨b, rfl, hb⟩⟩ := hx <;> simp [isZero, Fl.eq] at h1 h2
  subst h1 h2
  exact le_antisymm hb ha

theorem divNonZero_mem {r : Rnd K} (hr : Sound r) {x y : K} {i j : Iv K} (hx : Mem x i) (hy : Mem y j)
    (hj : isPos j.lo = true ∨ isNeg j.up = true) : Mem (x / y) (divNonZero r i j) := by
  obtain ⟨l, u⟩ := i
  obtain ⟨l', u'⟩ := j
  rw [mem_iff] at hx hy
  rw [divNonZero]
  dsimp only at hj ⊢
  rcases hj with hj | hj
  · -- a positive divisor
    obtain ⟨rfl | ⟨c, rfl, hc⟩, hu'⟩ := hy
    · cases hj
    have c0 : 0 < c := by simpa [isPos, lt] using hj
    have y0 : 0 < y := c0.trans_le hc
    have hn : isNeg u' = false := by
      rcases hu' with rfl | ⟨d, rfl, hd⟩
      · rfl
      · simp only [isNeg, lt, decide_eq_false_iff_not, not_lt]; linarith
    simp only [hn, Bool.false_eq_true, if_false]
    obtain ⟨hl, hu⟩ := hx
    split
    · next h =>
      rcases hu with rfl | ⟨b, rfl, hb⟩
      · cases h
      have b0 : b < 0 := by simpa [isNeg, lt] using h
      refine ⟨?_, ?_⟩
      · rcases hl with rfl | ⟨a, rfl, ha⟩
        · dsimp only
          rw [ninf_div_pos _ c0]; rfl
        · exact dnDiv hr (by positivity) (by nlinarith)
      · rcases hu' with rfl | ⟨d, rfl, hd⟩
        · exact fin_le_zero (div_nonpos_of_nonpos_of_nonneg (by linarith) y0.le)
        · exact upDiv hr (by nlinarith) (by nlinarith)
    · next h =>
      split
      · next h2 =>
        refine ⟨?_, ?_⟩
        · rcases hl with rfl | ⟨a, rfl, ha⟩
          · dsimp only
            rw [ninf_div_pos _ c0]; rfl
          · have a0 : a < 0 := by simpa [isNeg, lt] using h2
            exact dnDiv hr (by positivity) (by nlinarith)
        · rcases hu with rfl | ⟨b, rfl, hb⟩
          · dsimp only
            rw [pinf_div_pos _ c0]; rfl
          · have b0 : 0 ≤ b := by simpa [isNeg, lt] using h
            exact upDiv hr (by positivity) (by nlinarith)
      · next h2 =>
        rcases hl with rfl | ⟨a, rfl, ha⟩
        · exact absurd rfl h2
        have a0 : 0 ≤ a := by simpa [isNeg, lt] using h2
        refine ⟨?_, ?_⟩
        · rcases hu' with rfl | ⟨d, rfl, hd⟩
          · exact zero_le_fin (div_nonneg (by linarith) y0.le)
          · exact dnDiv hr (by nlinarith) (by nlinarith)
        · rcases hu with rfl | ⟨b, rfl, hb⟩
          · dsimp only
            rw [pinf_div_pos _ c0]; rfl
          · exact upDiv hr (by positivity) (by nlinarith)
  · -- a negative divisor
    obtain ⟨hl', rfl | ⟨d, rfl, hd⟩⟩ := hy
    · cases hj
    have d0 : d < 0 := by simpa [isNeg, lt] using hj
    have y0 : y < 0 := hd.trans_lt d0
    simp only [hj, if_true]
    obtain ⟨hl, hu⟩ := hx
    split
    · next h =>
      rcases hu with rfl | ⟨b, rfl, hb⟩
      · cases h
      have b0 : b < 0 := by simpa [isNeg, lt] using h
      refine ⟨?_, ?_⟩
      · rcases hl' with rfl | ⟨c, rfl, hc⟩
        · exact zero_le_fin (div_nonneg_of_nonpos (by linarith) y0.le)
        · exact dnDiv hr (mul_pos_of_neg_of_neg (by linarith) y0) (by nlinarith)
      · rcases hl with rfl | ⟨a, rfl, ha⟩
        · dsimp only
          rw [ninf_div_neg _ d0]; rfl
        · exact upDiv hr (mul_pos_of_neg_of_neg d0 y0) (by nlinarith)
    · next h =>
      split
      · next h2 =>
        refine ⟨?_, ?_⟩
        · rcases hu with rfl | ⟨b, rfl, hb⟩
          · dsimp only
            rw [pinf_div_neg _ d0]; rfl
          · have b0 : 0 ≤ b := by simpa [isNeg, lt] using h
            exact dnDiv hr (mul_pos_of_neg_of_neg d0 y0) (by nlinarith)
        · rcases hl with rfl | ⟨a, rfl, ha⟩
          · dsimp only
            rw [ninf_div_neg _ d0]; rfl
          · have a0 : a < 0 := by simpa [isNeg, lt] using h2
            exact upDiv hr (mul_pos_of_neg_of_neg d0 y0) (by nlinarith)
      · next h2 =>
        rcases hl with rfl | ⟨a, rfl, ha⟩
        · exact absurd rfl h2
        have a0 : 0 ≤ a := by simpa [isNeg, lt] using h2
        refine ⟨?_, ?_⟩
        · rcases hu with rfl | ⟨b, rfl, hb⟩
          · dsimp only
            rw [pinf_div_neg _ d0]; rfl
          · exact dnDiv hr (mul_pos_of_neg_of_neg d0 y0) (by nlinarith)
        · rcases hl' with rfl | ⟨c, rfl, hc⟩
          · exact fin_le_zero (div_nonpos_of_nonneg_of_nonpos (by linarith) y0.le)
          · exact upDiv hr (mul_pos_of_neg_of_neg (by linarith) y0) (by nlinarith)

theorem divPositive_mem {r : Rnd K} (hr : Sound r) {x y : K} {i : Iv K} {yu : Fl K} (hx : Mem x i) (y0 : 0 < y)
    (hu' : le (.fin y) yu = true) : Mem (x / y) (divPositive r i yu) := by
  rw [divPositive]
  split
  · next h =>
    rw [Bool.and_eq_true] at h
    have := zero_of_isZero hx h.1 h.2
    subst this
    rwa [zero_div]
  · clear * - hr hx y0 hu'
    obtain ⟨l, u⟩ := i
    rw [mem_iff] at hx
    obtain ⟨hl, hu⟩ := hx
    dsimp only
    split
    · next h =>
      rcases hu with rfl | ⟨b, rfl, hb⟩
      · cases h
      have b0 : b < 0 := by simpa [isNeg, lt] using h
      refine ⟨rfl, ?_⟩
      rcases up_cases hu' with rfl | ⟨d, rfl, hd⟩
      · exact fin_le_zero (div_nonpos_of_nonpos_of_nonneg (by linarith) y0.le)
      · exact upDiv hr (by nlinarith) (by nlinarith)
    · split
      · exact ⟨rfl, rfl⟩
      · next h2 =>
        rcases hl with rfl | ⟨a, rfl, ha⟩
        · exact absurd rfl h2
        have a0 : 0 ≤ a := by simpa [isNeg, lt] using h2
        refine ⟨?_, rfl⟩
        rcases up_cases hu' with rfl | ⟨d, rfl, hd⟩
        · exact zero_le_fin (div_nonneg (by linarith) y0.le)
        · exact dnDiv hr (by nlinarith) (by nlinarith)

theorem divNegative_mem {r : Rnd K} (hr : Sound r) {x y : K} {i : Iv K} {yl : Fl K} (hx : Mem x i) (y0 : y < 0)
    (hl' : le yl (.fin y) = true) : Mem (x / y) (divNegative r i yl) := by
  rw [divNegative]
  split
  · next h =>
    rw [Bool.and_eq_true] at h
    have := zero_of_isZero hx h.1 h.2
    subst this
    rwa [zero_div]
  · clear * - hr hx y0 hl'
    obtain ⟨l, u⟩ := i
    rw [mem_iff] at hx
    obtain ⟨hl, hu⟩ := hx
    dsimp only
    split
    · next h =>
      rcases hu with rfl | ⟨b, rfl, hb⟩
      · cases h
      have b0 : b < 0 := by simpa [isNeg, lt] using h
      refine ⟨?_, rfl⟩
      rcases lo_cases hl' with rfl | ⟨c, rfl, hc⟩
      · exact zero_le_fin (div_nonneg_of_nonpos (by linarith) y0.le)
      · exact dnDiv hr (mul_pos_of_neg_of_neg (by linarith) y0) (by nlinarith)
    · split
      · exact ⟨rfl, rfl⟩
      · next h2 =>
        rcases hl with rfl | ⟨a, rfl, ha⟩
        · exact absurd rfl h2
        have a0 : 0 ≤ a := by simpa [isNeg, lt] using h2
        refine ⟨rfl, ?_⟩
        rcases lo_cases hl' with rfl | ⟨c, rfl, hc⟩
        · exact fin_le_zero (div_nonpos_of_nonneg_of_nonpos (by linarith) y0.le)
        · exact upDiv hr (mul_pos_of_neg_of_neg (by linarith) y0) (by nlinarith)

theorem div_mem {r : Rnd K} (hr : Sound r) {x y : K} {i j : Iv K} (hx : Mem x i) (hy : Mem y j) (y0 : y ≠ 0) :
    Mem (x / y) (div r i j) := by
  rw [div, mem_not_empty hx, mem_not_empty hy]
  simp only [Bool.or_self, Bool.false_eq_true, if_false]
  split
  · next hz =>
    rw [inZero, mem_not_empty hy] at hz
    simp only [Bool.false_eq_true, if_false, Bool.and_eq_true, Bool.not_eq_true'] at hz
    split
    · next h1 =>
      split
      · next h2 =>
        rw [divZero]
        split
        · next h =>
          rw [Bool.and_eq_true] at h
          have := zero_of_isZero hx h.1 h.2
          subst this
          rwa [zero_div]
        · exact ⟨rfl, rfl⟩
      · next h2 =>
        have hup : isZero j.up = true := by simpa using h2
        have : y < 0 := by
          refine lt_of_le_of_ne ?_ y0
          rcases up_cases hy.2 with e | ⟨d, e, hd⟩ <;> rw [e] at hup
          · cases hup
          · simp [isZero, Fl.eq] at hup
            rwa [hup] at hd
        exact divNegative_mem hr hx this hy.1
    · next h1 =>
      have hlo : isZero j.lo = true := by simpa using h1
      have hpos : 0 < y := by
        refine lt_of_le_of_ne ?_ y0.symm
        rcases lo_cases hy.1 with e | ⟨d, e, hd⟩ <;> rw [e] at hlo
        · cases hlo
        · simp [isZero, Fl.eq] at hlo
          rwa [hlo] at hd
      split
      · exact divPositive_mem hr hx hpos hy.2
      · next h2 => exact absurd (zero_of_isZero hy hlo (by simpa using h2)) y0
  · next hz =>
    refine divNonZero_mem hr hx hy ?_
    rw [inZero, mem_not_empty hy] at hz
    simp only [Bool.false_eq_true, if_false, Bool.and_eq_true, Bool.not_eq_true', not_and, Bool.not_eq_false] at hz
    by_cases h : isPos j.lo = true
    · exact Or.inl h
    · exact Or.inr (hz (by simpa using h))

theorem one_mem : Mem (1 : K) (single (.fin 1)) := by simp [Mem, single, le]

theorem sdiv_eq (r : Rnd K) (c : K) (y : Iv K) : sdiv r (.fin c) y = div r (single (.fin c)) y := by
  have hs : single (.fin c) = (⟨.fin c, .fin c⟩ : Iv K) := by simp [single]
  have he : empty (⟨.fin c, .fin c⟩ : Iv K) = false := by simp [empty, le]
  have hz : (⟨.fin 0, .fin 0⟩ : Iv K) = if isZero (.fin c) then ⟨.fin c, .fin c⟩ else ⟨.fin 0, .fin 0⟩ := by
    split
    · next h => simp [isZero, Fl.eq] at h; rw [h]
    · rfl
  rw [sdiv, div, hs, he]
  simp only [divZero, divNegative, divPositive, divNonZero, Bool.and_self, reduceCtorEq, decide_false, Bool.false_or]
  cases h1 : isZero (Fl.fin c)
  · cases h2 : isNeg (Fl.fin c) <;> simp
  · have hc : c = 0 := by simpa [isZero, Fl.eq] using h1
    subst hc
    cases h2 : isNeg (Fl.fin (0 : K)) <;> simp

theorem divs_mem {r : Rnd K} (hr : Sound r) {x c : K} {i : Iv K} (hx : Mem x i) (c0 : c ≠ 0) :
    Mem (x / c) (divs r i (.fin c)) := by
  rw [divs, mem_not_empty hx]
  obtain ⟨l, u⟩ := i
  rw [mem_iff] at hx
  obtain ⟨hl, hu⟩ := hx
  have hz : isZero (Fl.fin c) = false := by simpa [isZero, Fl.eq] using c0
  simp only [hz, reduceCtorEq, decide_false, Bool.or_self, Bool.false_eq_true, if_false]
  split
  · next h =>
    have cn : c < 0 := by simpa [isNeg, lt] using h
    refine ⟨?_, ?_⟩
    · rcases hu with rfl | ⟨b, rfl, hb⟩
      · dsimp only; rw [pinf_div_neg _ cn]; rfl
      · exact dnDiv hr (mul_pos_of_neg_of_neg cn cn) (by nlinarith)
    · rcases hl with rfl | ⟨a, rfl, ha⟩
      · dsimp only; rw [ninf_div_neg _ cn]; rfl
      · exact upDiv hr (mul_pos_of_neg_of_neg cn cn) (by nlinarith)
  · next h =>
    have cp : 0 < c := lt_of_le_of_ne (by simpa [isNeg, lt] using h) c0.symm
    refine ⟨?_, ?_⟩
    · rcases hl with rfl | ⟨a, rfl, ha⟩
      · dsimp only; rw [ninf_div_pos _ cp]; rfl
      · exact dnDiv hr (mul_pos cp cp) (by nlinarith)
    · rcases hu with rfl | ⟨b, rfl, hb⟩
      · dsimp only; rw [pinf_div_pos _ cp]; rfl
      · exact upDiv hr (mul_pos cp cp) (by nlinarith)

theorem opp_mem {x : K} {i : Iv K} (hx : Mem x i) : Mem (-x) (opp i) := by
  rw [opp, mem_not_empty hx]
  obtain ⟨l, u⟩ := i
  rw [mem_iff] at hx
  obtain ⟨rfl | ⟨a, rfl, ha⟩, rfl | ⟨b, rfl, hb⟩⟩ := hx <;> simp [Mem, le, neg, *]

theorem inverse_mem {r : Rnd K} (hr : Sound r) {x : K} {i : Iv K} (hx : Mem x i) (x0 : x ≠ 0) : Mem x⁻¹ (inverse r i) := by
  have h := div_mem hr one_mem hx x0
  rw [one_div] at h
  convert h using 1
  rw [inverse, div, mem_not_empty one_mem]
  have e0 : isZero (Fl.fin (1 : K)) = false := by simp [isZero, Fl.eq]
  have e6 : isNeg (Fl.fin (1 : K)) = false := by simp [isNeg, lt, zero_le_one]
  have e1 : isZero (single (Fl.fin (1 : K))).lo = false := by simp [single, isZero, Fl.eq]
  have e2 : isNeg (single (Fl.fin (1 : K))).up = false := by simp [single, isNeg, lt, zero_le_one]
  have e3 : isNeg (single (Fl.fin (1 : K))).lo = false := by simp [single, isNeg, lt, zero_le_one]
  have e4 : (single (Fl.fin (1 : K))).lo = .fin 1 := by simp [single]
  have e5 : (single (Fl.fin (1 : K))).up = .fin 1 := by simp [single]
  simp only [divZero, divNegative, divPositive, divNonZero, e0, e6, e1, e2, e3, e4, e5, Bool.false_and, Bool.false_or,
    Bool.false_eq_true, if_false]
  split
  · rfl
  · next hne =>
    split
    · rfl
    · next hz =>
      split <;> rfl

/-! ### Multiplication by a number, square, root -/

theorem smul_mem {r : Rnd K} (hr : Sound r) {c y : K} {j : Iv K} (hy : Mem y j) : Mem (c * y) (smul r (.fin c) j) := by
  rw [smul, mem_not_empty hy]
  obtain ⟨l, u⟩ := j
  rw [mem_iff] at hy
  obtain ⟨hl, hu⟩ := hy
  simp only [reduceCtorEq, decide_false, Bool.or_self, Bool.false_eq_true, if_false]
  split
  · next h =>
    have c0 : c < 0 := by simpa [isNeg, lt] using h
    refine ⟨?_, ?_⟩
    · rcases hu with rfl | ⟨b, rfl, hb⟩
      · simp [Fl.mul, isZero, Fl.eq, c0.ne, isNeg, lt, c0, inf, le]
      · exact dn_le hr (by nlinarith)
    · rcases hl with rfl | ⟨b, rfl, hb⟩
      · simp [Fl.mul, isZero, Fl.eq, c0.ne, isNeg, lt, c0, inf, le]
      · exact le_up hr (by nlinarith)
  · next h =>
    have c0 : 0 ≤ c := by simpa [isNeg, lt] using h
    split
    · next h2 =>
      have : c = 0 := by simpa [isZero, Fl.eq] using h2
      subst this
      simp [Mem, le]
    · next h2 =>
      have cn : c ≠ 0 := by simpa [isZero, Fl.eq] using h2
      refine ⟨?_, ?_⟩
      · rcases hl with rfl | ⟨b, rfl, hb⟩
        · simp [Fl.mul, isZero, Fl.eq, cn, isNeg, lt, c0.not_gt, inf, le]
        · exact dn_le hr (by nlinarith)
      · rcases hu with rfl | ⟨b, rfl, hb⟩
        · simp [Fl.mul, isZero, Fl.eq, cn, isNeg, lt, c0.not_gt, inf, le]
        · exact le_up hr (by nlinarith)

theorem square_mem {r : Rnd K} (hr : Sound r) {x : K} {i : Iv K} (hx : Mem x i) : Mem (x * x) (square r i) := by
  rw [square, mem_not_empty hx]
  obtain ⟨l, u⟩ := i
  rw [mem_iff] at hx
  obtain ⟨hl, hu⟩ := hx
  simp only [Bool.false_eq_true, if_false]
  have hn : ∀ rr : K → Fl K, Fl.mul rr .ninf .ninf = .pinf := fun rr => by simp [Fl.mul, isZero, Fl.eq, isNeg, lt, inf]
  have hp : ∀ rr : K → Fl K, Fl.mul rr .pinf .pinf = .pinf := fun rr => by simp [Fl.mul, isZero, Fl.eq, isNeg, lt, inf]
  split
  · next h =>
    rcases hu with rfl | ⟨b, rfl, hb⟩
    · cases h
    have b0 : b < 0 := by simpa [isNeg, lt] using h
    refine ⟨dn_le hr (by nlinarith), ?_⟩
    rcases hl with rfl | ⟨a, rfl, ha⟩
    · dsimp only; rw [hn]; rfl
    · exact le_up hr (by nlinarith)
  · next h =>
    split
    · next h2 =>
      rcases hl with rfl | ⟨a, rfl, ha⟩
      · cases h2
      have a0 : 0 < a := by simpa [isPos, lt] using h2
      refine ⟨dn_le hr (by nlinarith), ?_⟩
      rcases hu with rfl | ⟨b, rfl, hb⟩
      · dsimp only; rw [hp]; rfl
      · exact le_up hr (by nlinarith)
    · next h2 =>
      refine ⟨zero_le_fin (mul_self_nonneg x), ?_⟩
      dsimp only
      split
      · next h3 =>
        rcases hl with rfl | ⟨a, rfl, ha⟩
        · rw [hn]; rfl
        rcases hu with rfl | ⟨b, rfl, hb⟩
        · cases h3
        have h3 : b < -a := by simpa [lt, neg] using h3
        exact le_up hr (by nlinarith)
      · next h3 =>
        rcases hu with rfl | ⟨b, rfl, hb⟩
        · rw [hp]; rfl
        rcases hl with rfl | ⟨a, rfl, ha⟩
        · exact absurd rfl h3
        have h3 : -a ≤ b := by simpa [lt, neg] using h3
        exact le_up hr (by nlinarith)

/-- The roots rounded downwards and upwards; of negative numbers they may be anything. -/
def SoundRoot (sd su : K → Fl K) : Prop :=
  ∀ a q, 0 ≤ q → (0 < a → a ≤ q * q → le (sd a) (.fin q) = true) ∧ (q * q ≤ a → le (.fin q) (su a) = true)

theorem sqrt_mem {sd su : K → Fl K} (h : SoundRoot sd su) {q : K} {i : Iv K} (q0 : 0 ≤ q) (hx : Mem (q * q) i) :
    Mem q (sqrt sd su i) := by
  rw [sqrt, mem_not_empty hx]
  obtain ⟨l, u⟩ := i
  rw [mem_iff] at hx
  obtain ⟨hl, hu⟩ := hx
  have hn : isNeg u = false := by
    rcases hu with rfl | ⟨b, rfl, hb⟩
    · rfl
    · simp only [isNeg, lt, decide_eq_false_iff_not, not_lt]
      exact (mul_self_nonneg q).trans hb
  simp only [hn, Bool.or_self, Bool.false_eq_true, if_false]
  refine ⟨?_, ?_⟩
  · dsimp only
    split
    · exact zero_le_fin q0
    · rename_i hp
      rcases hl with rfl | ⟨a, rfl, ha⟩
      · rfl
      · exact (h a q q0).1 (by simpa [isPos, lt] using hp) ha
  · rcases hu with rfl | ⟨b, rfl, hb⟩
    · rfl
    · exact (h b q q0).2 hb

/-! ### Powers with exact arithmetic -/

theorem powLoop_exact (x y : K) (p : Nat) : powLoop exact (.fin x) (.fin y) p = .fin (y * (x * x) ^ p) := by
  induction p using Nat.strongRecOn generalizing x y with
  | ind p ih =>
    rw [powLoop]
    split
    · next h => subst h; simp
    · next h =>
      have hm : Fl.mul (exact (K := K)).up (.fin x) (.fin x) = .fin (x * x) := rfl
      simp only [hm]
      have hlt : p / 2 < p := by omega
      split
      · next ho =>
        have hy : Fl.mul (exact (K := K)).up (.fin (x * x)) (.fin y) = .fin (x * x * y) := rfl
        rw [hy, ih _ hlt]
        congr 1
        have hp : p = p / 2 + p / 2 + 1 := by omega
        conv_rhs => rw [hp]
        rw [pow_succ, pow_add, mul_pow]
        ring
      · next ho =>
        rw [ih _ hlt]
        congr 1
        have hp : p = p / 2 + p / 2 := by omega
        conv_rhs => rw [hp]
        rw [pow_add, mul_pow]

theorem powAux_exact (x : K) (p : Nat) : powAux exact (.fin x) p = .fin (x ^ p) := by
  rw [powAux]
  split
  · next h =>
    rw [powLoop_exact]
    congr 1
    have hp : p = p / 2 + p / 2 + 1 := by omega
    conv_rhs => rw [hp]
    rw [pow_succ, pow_add, mul_pow]
    ring
  · next h =>
    rw [powLoop_exact]
    congr 1
    have hp : p = p / 2 + p / 2 := by omega
    conv_rhs => rw [hp]
    rw [pow_add, mul_pow]
    ring

theorem powLoop_pinf (r : Rnd K) (y : Fl K) (hy : y = .fin 1 ∨ y = .pinf) (p : Nat) (h : y = .pinf ∨ 0 < p) :
    powLoop r .pinf y p = .pinf := by
  induction p using Nat.strongRecOn generalizing y with
  | ind p ih =>
    rw [powLoop]
    split
    · next h0 =>
      rcases h with h | h
      · exact h
      · omega
    · next h0 =>
      have e1 : Fl.mul r.up .pinf .pinf = .pinf := by simp [Fl.mul, isZero, Fl.eq, isNeg, lt, inf]
      have e2 : Fl.mul r.up .pinf y = .pinf := by
        rcases hy with rfl | rfl
        · simp [Fl.mul, isZero, Fl.eq, isNeg, lt, inf, zero_le_one]
        · exact e1
      simp only [e1, e2]
      refine ih _ (by omega) _ ?_ ?_
      · split
        · exact Or.inr rfl
        · exact hy
      · split
        · exact Or.inl rfl
        · exact Or.inr (by omega)

theorem powAux_pinf (r : Rnd K) {p : Nat} (h : 0 < p) : powAux r .pinf p = .pinf := by
  rw [powAux]
  refine powLoop_pinf r _ ?_ _ ?_
  · split
    · exact Or.inr rfl
    · exact Or.inl rfl
  · split
    · exact Or.inl rfl
    · exact Or.inr (by omega)

theorem powPos_mem {x : K} {i : Iv K} (hx : Mem x i) {p : Nat} (hp : 0 < p) : Mem (x ^ p) (powPos exact i p) := by
  rw [powPos, mem_not_empty hx]
  obtain ⟨l, u⟩ := i
  rw [mem_iff] at hx
  obtain ⟨hl, hu⟩ := hx
  simp only [Bool.false_eq_true, if_false]
  have upper : ∀ {t : K} {v : Fl K}, 0 ≤ t → (v = .pinf ∨ ∃ c, v = .fin c ∧ t ≤ c) →
      le (.fin (t ^ p)) (powAux exact v p) = true := by
    intro t v t0 hv
    rcases hv with rfl | ⟨c, rfl, hc⟩
    · rw [powAux_pinf _ hp]; rfl
    · rw [powAux_exact]
      simpa [le] using pow_le_pow_left₀ t0 hc p
  have lower : ∀ {t c : K}, 0 ≤ c → c ≤ t → le (powAux exact (.fin c) p) (.fin (t ^ p)) = true := by
    intro t c c0 hc
    rw [powAux_exact]
    simpa [le] using pow_le_pow_left₀ c0 hc p
  have hneg : ∀ v w : Fl K, le v w = true → le (neg w) (neg v) = true := by
    intro v w
    cases v <;> cases w <;> simp [le, neg]
  have hodd : p % 2 = 1 → x ^ p = -((-x) ^ p) := by
    intro h
    rw [Odd.neg_pow (Nat.odd_iff.2 h), neg_neg]
  have heven : ¬p % 2 = 1 → x ^ p = (-x) ^ p := by
    intro h
    rw [Even.neg_pow (Nat.even_iff.2 (by omega))]
  have nl : neg l = .pinf ∨ ∃ c, neg l = .fin c ∧ -x ≤ c := by
    rcases hl with rfl | ⟨a, rfl, ha⟩
    · exact Or.inl rfl
    · exact Or.inr ⟨-a, rfl, by linarith⟩
  split
  · next h =>
    rcases hu with rfl | ⟨b, rfl, hb⟩
    · cases h
    have b0 : b < 0 := by simpa [isNeg, lt] using h
    split
    · next ho =>
      rw [hodd ho]
      refine ⟨?_, ?_⟩
      · exact hneg _ _ (upper (t := -x) (by linarith) nl)
      · exact hneg _ _ (lower (t := -x) (c := -b) (by linarith) (by linarith))
    · next ho =>
      rw [heven ho]
      exact ⟨lower (t := -x) (c := -b) (by linarith) (by linarith), upper (by linarith) nl⟩
  · next h =>
    split
    · next h2 =>
      split
      · next ho =>
        refine ⟨?_, ?_⟩
        · rcases le_total x 0 with hx0 | hx0
          · rw [hodd ho]
            exact hneg _ _ (upper (t := -x) (by linarith) nl)
          · have hb0 : le (fin (0 : K)) (powAux exact (neg l) p) = true := by
              rcases hl with rfl | ⟨a, rfl, ha⟩
              · rw [neg, powAux_pinf _ hp]; rfl
              · have a0 : a < 0 := by simpa [isNeg, lt] using h2
                rw [neg, powAux_exact]
                simpa [le] using pow_nonneg (by linarith : (0 : K) ≤ -a) p
            have h3 := hneg _ _ hb0
            have h4 : (0 : K) ≤ x ^ p := pow_nonneg hx0 p
            revert h3
            dsimp only
            generalize neg (powAux exact (neg l) p) = v
            cases v <;> simp [le, neg]
            intro h
            linarith
        · rcases le_total x 0 with hx0 | hx0
          · have h4 : x ^ p ≤ 0 := by
              rw [hodd ho]
              have := pow_nonneg (by linarith : (0 : K) ≤ -x) p
              linarith
            rcases hu with rfl | ⟨b, rfl, hb⟩
            · dsimp only; rw [powAux_pinf _ hp]; rfl
            · have b0 : 0 ≤ b := by simpa [isNeg, lt] using h
              dsimp only
              rw [powAux_exact]
              have := pow_nonneg b0 p
              simp only [le, decide_eq_true_eq]
              linarith
          · exact upper hx0 hu
      · next ho =>
        refine ⟨zero_le_fin ((Nat.even_iff.2 (by omega : p % 2 = 0)).pow_nonneg x), ?_⟩
        dsimp only
        have hm : ∀ t : K, (t = x ∨ t = -x) → (Fl.max (neg l) u = .pinf ∨ ∃ c, Fl.max (neg l) u = .fin c ∧ t ≤ c) := by
          intro t ht
          rcases hl with rfl | ⟨a, rfl, ha⟩
          · refine Or.inl ?_
            rcases hu with rfl | ⟨b, rfl, hb⟩ <;> simp [Fl.max, neg, lt]
          · rcases hu with rfl | ⟨b, rfl, hb⟩
            · exact Or.inl (by simp [Fl.max, neg, lt])
            · refine Or.inr ?_
              have a0 : a < 0 := by simpa [isNeg, lt] using h2
              have b0 : 0 ≤ b := by simpa [isNeg, lt] using h
              by_cases hc : -a < b
              · exact ⟨b, by simp [Fl.max, neg, lt, hc], by rcases ht with rfl | rfl <;> linarith⟩
              · exact ⟨-a, by simp [Fl.max, neg, lt, hc], by rcases ht with rfl | rfl <;> linarith⟩
        rcases le_total x 0 with hx0 | hx0
        · rw [heven ho]
          exact upper (by linarith) (hm _ (Or.inr rfl))
        · exact upper hx0 (hm _ (Or.inl rfl))
    · next h2 =>
      rcases hl with rfl | ⟨a, rfl, ha⟩
      · exact absurd rfl h2
      have a0 : 0 ≤ a := by simpa [isNeg, lt] using h2
      exact ⟨lower a0 ha, upper (by linarith) hu⟩

/-! ### The image of a product -/

/-- Between two values of `t * k`, every value is taken between the two arguments. -/
theorem between {u v k z : K} (h1 : u * k ≤ z) (h2 : z ≤ v * k) :
    ∃ t, t * k = z ∧ ∀ a b, a ≤ u → a ≤ v → u ≤ b → v ≤ b → a ≤ t ∧ t ≤ b := by
  rcases lt_trichotomy k 0 with hk | hk | hk
  · refine ⟨z / k, div_mul_cancel₀ _ hk.ne, fun a b _ h4 h5 _ => ⟨?_, ?_⟩⟩
    · rw [le_div_iff_of_neg hk]; nlinarith
    · rw [div_le_iff_of_neg hk]; nlinarith
  · subst hk
    exact ⟨u, by linarith [mul_zero u, mul_zero v], fun a b h3 _ h5 _ => ⟨h3, h5⟩⟩
  · refine ⟨z / k, div_mul_cancel₀ _ hk.ne', fun a b h3 _ _ h6 => ⟨?_, ?_⟩⟩
    · rw [le_div_iff₀ hk]; nlinarith
    · rw [div_le_iff₀ hk]; nlinarith

/-- Between two products, every value is a product of numbers between. -/
theorem between_prod {x1 y1 x2 y2 z : K} (h1 : x1 * y1 ≤ z) (h2 : z ≤ x2 * y2) :
    ∃ x y, x * y = z ∧ (∀ a b, a ≤ x1 → a ≤ x2 → x1 ≤ b → x2 ≤ b → a ≤ x ∧ x ≤ b) ∧
      (∀ a b, a ≤ y1 → a ≤ y2 → y1 ≤ b → y2 ≤ b → a ≤ y ∧ y ≤ b) := by
  rcases le_total z (x2 * y1) with h | h
  · obtain ⟨t, ht, hb⟩ := between h1 h
    exact ⟨t, y1, ht, hb, fun a b h3 _ h5 _ => ⟨h3, h5⟩⟩
  · rw [mul_comm x2 y1] at h
    rw [mul_comm x2 y2] at h2
    obtain ⟨t, ht, hb⟩ := between h h2
    exact ⟨x2, t, by rw [mul_comm, ht], fun a b _ h4 _ h6 => ⟨h4, h6⟩, hb⟩

theorem mem_fin {x a b : K} : Mem x ⟨.fin a, .fin b⟩ ↔ a ≤ x ∧ x ≤ b := by simp [Mem, le]

theorem not_empty_fin {a b : K} (h : a ≤ b) : empty (⟨.fin a, .fin b⟩ : Iv K) = false := by simpa [empty, le] using h

/-- The ends of a product are products of ends. -/
theorem mul_corner {a b c d : K} (hab : a ≤ b) (hcd : c ≤ d) :
    ∃ x1 y1 x2 y2, mul exact ⟨.fin a, .fin b⟩ ⟨.fin c, .fin d⟩ = ⟨.fin (x1 * y1), .fin (x2 * y2)⟩ ∧
      (x1 = a ∨ x1 = b) ∧ (x2 = a ∨ x2 = b) ∧ (y1 = c ∨ y1 = d) ∧ (y2 = c ∨ y2 = d) := by
  have zx : ¬a < 0 → ¬0 < b → a = 0 := fun h1 h2 => by push Not at h1 h2; linarith
  have zy : ¬c < 0 → ¬0 < d → c = 0 := fun h1 h2 => by push Not at h1 h2; linarith
  have em : ∀ x y : K, Fl.mul (exact (K := K)).dn (.fin x) (.fin y) = .fin (x * y) := fun _ _ => rfl
  have eu : ∀ x y : K, Fl.mul (exact (K := K)).up (.fin x) (.fin y) = .fin (x * y) := fun _ _ => rfl
  rw [mul, not_empty_fin hab, not_empty_fin hcd]
  simp only [isNeg, isPos, lt, decide_eq_true_eq, Bool.or_self, Bool.false_eq_true, if_false, em, eu]
  split_ifs with h1 h2 h3 h4 h5 h6 h7 h8 h9 h10 h11 h12
  · have e1 : Fl.min (fin (a * d)) (fin (b * c)) = fin (if b * c < a * d then b * c else a * d) := by
      simp only [Fl.min, lt, decide_eq_true_eq]; split <;> rfl
    have e2 : Fl.max (fin (a * c)) (fin (b * d)) = fin (if a * c < b * d then b * d else a * c) := by
      simp only [Fl.max, lt, decide_eq_true_eq]; split <;> rfl
    rw [e1, e2]
    split_ifs
    · exact ⟨b, c, b, d, rfl, by simp, by simp, by simp, by simp⟩
    · exact ⟨b, c, a, c, rfl, by simp, by simp, by simp, by simp⟩
    · exact ⟨a, d, b, d, rfl, by simp, by simp, by simp, by simp⟩
    · exact ⟨a, d, a, c, rfl, by simp, by simp, by simp, by simp⟩
  all_goals first
    | exact ⟨b, c, a, c, rfl, by simp, by simp, by simp, by simp⟩
    | exact ⟨a, d, b, d, rfl, by simp, by simp, by simp, by simp⟩
    | exact ⟨a, d, a, c, rfl, by simp, by simp, by simp, by simp⟩
    | exact ⟨b, d, a, c, rfl, by simp, by simp, by simp, by simp⟩
    | exact ⟨a, d, b, c, rfl, by simp, by simp, by simp, by simp⟩
    | exact ⟨b, c, b, d, rfl, by simp, by simp, by simp, by simp⟩
    | exact ⟨b, c, a, d, rfl, by simp, by simp, by simp, by simp⟩
    | exact ⟨a, c, b, d, rfl, by simp, by simp, by simp, by simp⟩
    | (have := zy ‹_› ‹_›; exact ⟨a, c, a, c, by simp [this], by simp, by simp, by simp, by simp⟩)
    | (have := zx ‹_› ‹_›; exact ⟨a, c, a, c, by simp [this], by simp, by simp, by simp, by simp⟩)

/-- The ends of a quotient by an interval without zero are quotients of ends. -/
theorem div_corner {a b c d : K} (hab : a ≤ b) (hcd : c ≤ d) (h0 : 0 < c ∨ d < 0) :
    ∃ x1 y1 x2 y2, div exact ⟨.fin a, .fin b⟩ ⟨.fin c, .fin d⟩ = ⟨.fin (x1 / y1), .fin (x2 / y2)⟩ ∧
      (x1 = a ∨ x1 = b) ∧ (x2 = a ∨ x2 = b) ∧ (y1 = c ∨ y1 = d) ∧ (y2 = c ∨ y2 = d) := by
  have c0 : c ≠ 0 := by rcases h0 with h | h <;> [exact h.ne'; exact (hcd.trans_lt h).ne]
  have d0 : d ≠ 0 := by rcases h0 with h | h <;> [exact (h.trans_le hcd).ne'; exact h.ne]
  have hz : inZero (⟨.fin c, .fin d⟩ : Iv K) = false := by
    rw [inZero, not_empty_fin hcd]
    rcases h0 with h | h <;> simp [isPos, isNeg, lt, h]
  have em : ∀ x y : K, y ≠ 0 → Fl.div (exact (K := K)).dn (.fin x) (.fin y) = .fin (x / y) := fun _ _ h => by
    rw [Fl.div, if_neg h]; rfl
  have eu : ∀ x y : K, y ≠ 0 → Fl.div (exact (K := K)).up (.fin x) (.fin y) = .fin (x / y) := fun _ _ h => by
    rw [Fl.div, if_neg h]; rfl
  rw [div, not_empty_fin hab, not_empty_fin hcd, hz]
  simp only [divNonZero, Bool.or_self, Bool.false_eq_true, if_false, em _ _ c0, em _ _ d0, eu _ _ c0, eu _ _ d0]
  split_ifs
  · exact ⟨b, c, a, d, rfl, by simp, by simp, by simp, by simp⟩
  · exact ⟨a, c, b, d, rfl, by simp, by simp, by simp, by simp⟩
  · exact ⟨b, d, a, d, rfl, by simp, by simp, by simp, by simp⟩
  · exact ⟨a, c, b, c, rfl, by simp, by simp, by simp, by simp⟩
  · exact ⟨b, d, a, c, rfl, by simp, by simp, by simp, by simp⟩
  · exact ⟨a, d, b, c, rfl, by simp, by simp, by simp, by simp⟩

end Paradiseo.IvLib
