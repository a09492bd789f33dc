/-
C61: folding and truncating into bounds.
-/
import Mathlib.Tactic.Ring
import Mathlib.Tactic.Linarith
import Mathlib.Tactic.Positivity
import Mathlib.Tactic.FieldSimp
import Mathlib.Tactic.NormNum
import Mathlib.Data.Rat.Floor
import Verif.Model.EOBounds

namespace Paradiseo.Bounds

open Paradiseo.EO (Err)
open Paradiseo.Ops (rnd)

variable {F : Type*} [Field F] [LinearOrder F] [IsStrictOrderedRing F] [FloorRing F]

/-! ### Specification -/

/-- `y` is an image of `r` under the mirrors at `lo` and `hi` (an unfolding of the interval). -/
def MirrorImage (lo hi r y : F) : Prop :=
  ∃ k : Int, y = r + 2 * k * (hi - lo) ∨ y = 2 * hi - r + 2 * k * (hi - lo)

/-- What a bound means. -/
def Bound.Mem : Bound F → F → Prop
  | .none, _ => True
  | .interval lo hi, x => lo ≤ x ∧ x ≤ hi
  | .below lo, x => lo ≤ x
  | .above hi, x => x ≤ hi

/-! ### Helper lemmas -/

omit [IsStrictOrderedRing F] in
theorem truncZ_nonneg {x : F} (h : 0 ≤ x) : truncZ x = ⌊x⌋ := by simp [truncZ, h]

theorem longDiv_ok {a b : F} (ha : 0 ≤ a) (hb : 0 < b) (hab : a < 2 ^ 63 * b) :
    longDiv a b = .ok ⌊a / b⌋ := by
  have h0 : 0 ≤ a / b := div_nonneg ha hb.le
  have h1 : (0 : Int) ≤ ⌊a / b⌋ := Int.floor_nonneg.mpr h0
  have h2 : ⌊a / b⌋ < 2 ^ 63 := by
    rw [Int.floor_lt]
    rw [div_lt_iff₀ hb]
    norm_num at hab ⊢
    exact hab
  simp only [longDiv, hb.ne', if_false, truncZ_nonneg h0]
  rw [if_pos]
  constructor
  · have : -(2 ^ 63 : Int) ≤ 0 := by norm_num
    omega
  · exact h2

theorem foldHigh_spec {lo hi r : F} (hlh : lo < hi) (hr : r - lo < 2 ^ 63 * (2 * (hi - lo)))
    (hlo : lo ≤ r) :
    ∃ y, foldHigh lo hi r = .ok y ∧ lo ≤ y ∧ y ≤ hi ∧ MirrorImage lo hi r y := by
  unfold foldHigh
  split
  · rename_i h
    have hd : (0 : F) < 2 * (hi - lo) := by linarith
    rw [longDiv_ok (by linarith) hd hr]
    dsimp only
    have h1 : (⌊(r - lo) / (2 * (hi - lo))⌋ : F) * (2 * (hi - lo)) ≤ r - lo := by
      rw [← le_div_iff₀ hd]; exact Int.floor_le _
    have h2 : r - lo < ((⌊(r - lo) / (2 * (hi - lo))⌋ : F) + 1) * (2 * (hi - lo)) := by
      rw [← div_lt_iff₀ hd]; exact Int.lt_floor_add_one _
    generalize ⌊(r - lo) / (2 * (hi - lo))⌋ = k at h1 h2
    split
    · rename_i h3
      refine ⟨_, rfl, by linarith, by linarith, k, .inr (by ring)⟩
    · rename_i h3
      refine ⟨_, rfl, by linarith, by linarith, -k, .inl (by push_cast; ring)⟩
  · rename_i h
    exact ⟨r, rfl, hlo, le_of_not_gt h, 0, .inl (by push_cast; ring)⟩

theorem foldLow_spec {lo hi r : F} (hlh : lo < hi) (hr : hi - r < 2 ^ 63 * (2 * (hi - lo)))
    (hhi : r ≤ hi) :
    ∃ y, foldLow lo hi r = .ok y ∧ lo ≤ y ∧ y ≤ hi ∧ MirrorImage lo hi r y := by
  unfold foldLow
  split
  · rename_i h
    have hd : (0 : F) < 2 * (hi - lo) := by linarith
    rw [longDiv_ok (by linarith) hd hr]
    dsimp only
    have h1 : (⌊(hi - r) / (2 * (hi - lo))⌋ : F) * (2 * (hi - lo)) ≤ hi - r := by
      rw [← le_div_iff₀ hd]; exact Int.floor_le _
    have h2 : hi - r < ((⌊(hi - r) / (2 * (hi - lo))⌋ : F) + 1) * (2 * (hi - lo)) := by
      rw [← div_lt_iff₀ hd]; exact Int.lt_floor_add_one _
    generalize ⌊(hi - r) / (2 * (hi - lo))⌋ = k at h1 h2
    split
    · rename_i h3
      refine ⟨_, rfl, by linarith, by linarith, -k - 1, .inr (by push_cast; ring)⟩
    · rename_i h3
      refine ⟨_, rfl, by linarith, by linarith, k, .inl (by push_cast; ring)⟩
  · rename_i h
    exact ⟨r, rfl, le_of_not_gt h, hhi, 0, .inl (by push_cast; ring)⟩

/-! ### C61 -/

omit [FloorRing F] in
/-- The specification determines the result: a number has only one mirror image in the interval. -/
theorem C61_mirror_image_unique {lo hi r y z : F} (hlh : lo < hi) (hy : MirrorImage lo hi r y)
    (hz : MirrorImage lo hi r z) (hy1 : lo ≤ y) (hy2 : y ≤ hi) (hz1 : lo ≤ z) (hz2 : z ≤ hi) :
    y = z := by
  have hR : 0 < hi - lo := by linarith
  have key : ∀ m : Int, (-1 : F) < m → (m : F) < 1 → m = 0 := by
    intro m h1 h2
    have h1' : (-1 : Int) < m := by exact_mod_cast h1
    have h2' : m < 1 := by exact_mod_cast h2
    omega
  obtain ⟨k, hk⟩ := hy
  obtain ⟨l, hl⟩ := hz
  have hsame : ∀ a : F, y = a + 2 * k * (hi - lo) → z = a + 2 * l * (hi - lo) → y = z := by
    intro a h1 h2
    have h3 : y - z = ((k - l : Int) : F) * (2 * (hi - lo)) := by rw [h1, h2]; push_cast; ring
    have : k - l = 0 := by
      apply key
      · by_contra hc
        push Not at hc
        have := mul_le_mul_of_nonneg_right hc (by linarith : (0 : F) ≤ 2 * (hi - lo))
        rw [← h3] at this
        linarith
      · by_contra hc
        push Not at hc
        have := mul_le_mul_of_nonneg_right hc (by linarith : (0 : F) ≤ 2 * (hi - lo))
        rw [← h3] at this
        linarith
    rw [this] at h3
    push_cast at h3
    linarith
  have hopp : ∀ y z : F, ∀ k l : Int, lo ≤ y → y ≤ hi → lo ≤ z → z ≤ hi →
      y = r + 2 * k * (hi - lo) → z = 2 * hi - r + 2 * l * (hi - lo) → y = z := by
    intro y z k l hy1 hy2 hz1 hz2 h1 h2
    have h3 : y + z = 2 * hi + ((k + l : Int) : F) * (2 * (hi - lo)) := by
      rw [h1, h2]; push_cast; ring
    have h4 : (k + l : Int) = 0 ∨ (k + l : Int) = -1 := by
      have h5 : ((k + l : Int) : F) < 1 := by
        by_contra hc
        push Not at hc
        have := mul_le_mul_of_nonneg_right hc (by linarith : (0 : F) ≤ 2 * (hi - lo))
        linarith
      have h6 : (-2 : F) < ((k + l : Int) : F) := by
        by_contra hc
        push Not at hc
        have := mul_le_mul_of_nonneg_right hc (by linarith : (0 : F) ≤ 2 * (hi - lo))
        linarith
      have h5' : (k + l : Int) < 1 := by exact_mod_cast h5
      have h6' : (-2 : Int) < k + l := by exact_mod_cast h6
      omega
    rcases h4 with h4 | h4 <;> rw [h4] at h3 <;> push_cast at h3 <;> linarith
  rcases hk with hk | hk <;> rcases hl with hl | hl
  · exact hsame _ hk hl
  · exact hopp y z k l hy1 hy2 hz1 hz2 hk hl
  · exact (hopp z y l k hz1 hz2 hy1 hy2 hl hk).symm
  · exact hsame _ hk hl

/-- Folding a number of magnitude at most 10^9 into a non-degenerate interval, not so narrow that the
number of periods overflows, gives the mirror image of the number in the interval. -/
theorem C61_fold_interval {lo hi u r : F} (hlh : lo < hi) (hr : |r| ≤ 10 ^ 9)
    (h1 : r - lo < 2 ^ 63 * (2 * (hi - lo))) (h2 : hi - r < 2 ^ 63 * (2 * (hi - lo))) :
    ∃ y, (Bound.interval lo hi).fold u r = .ok y ∧ (Bound.interval lo hi).Mem y ∧
      MirrorImage lo hi r y := by
  simp only [Bound.fold, foldInterval, not_lt.mpr hr, if_false, Bound.Mem]
  by_cases h : lo ≤ r
  · obtain ⟨y, e, a, b, c⟩ := foldHigh_spec hlh h1 h
    rw [e]
    exact ⟨y, by simp [foldLow, not_lt.mpr a], ⟨a, b⟩, c⟩
  · push Not at h
    have e : foldHigh lo hi r = .ok r := by
      simp [foldHigh, not_lt.mpr (h.le.trans hlh.le)]
    rw [e]
    obtain ⟨y, e, a, b, c⟩ := foldLow_spec hlh h2 (h.le.trans hlh.le)
    exact ⟨y, e, ⟨a, b⟩, c⟩

example : ∃ y, (Bound.interval (1 : ℚ) 3).fold 0 (-6) = .ok y ∧ (Bound.interval (1 : ℚ) 3).Mem y ∧
    MirrorImage 1 3 (-6) y :=
  C61_fold_interval (by norm_num) (by norm_num [abs_of_neg]) (by norm_num) (by norm_num)

/-- A number of magnitude above 10^9 is replaced by a random number of the interval. -/
theorem C61_fold_far {lo hi u r : F} (hlh : lo ≤ hi) (hu0 : 0 ≤ u) (hu1 : u < 1)
    (hr : 10 ^ 9 < |r|) :
    (Bound.interval lo hi).fold u r = .ok (lo + u * (hi - lo)) ∧
      (Bound.interval lo hi).Mem (lo + u * (hi - lo)) := by
  refine ⟨by simp [Bound.fold, foldInterval, hr, uniformIn], ?_, ?_⟩
  · nlinarith [mul_nonneg hu0 (sub_nonneg.mpr hlh)]
  · nlinarith [mul_nonneg (sub_nonneg.mpr hu1.le) (sub_nonneg.mpr hlh)]

/-- Folding does nothing to a number already inside the bounds, of magnitude at most 10^9. -/
theorem C61_fold_inside (b : Bound F) {u r : F} (h : b.Mem r) (hr : |r| ≤ 10 ^ 9) :
    b.fold u r = .ok r := by
  cases b with
  | none => rfl
  | interval lo hi =>
    simp [Bound.fold, foldInterval, foldHigh, foldLow, not_lt.mpr hr, not_lt.mpr h.1, not_lt.mpr h.2]
  | below lo =>
    have h' : lo ≤ r := h
    simp [Bound.fold, not_lt.mpr h']
  | above hi =>
    have h' : r ≤ hi := h
    simp [Bound.fold, not_lt.mpr h']

/-- Beyond that, folding moves a number that is inside the interval: from 15·10^8 to the value drawn. -/
theorem C61_fold_inside_moved :
    (Bound.interval (0 : ℚ) (2 * 10 ^ 9)).Mem (15 * 10 ^ 8) ∧
    (Bound.interval (0 : ℚ) (2 * 10 ^ 9)).fold 0 (15 * 10 ^ 8) = .ok 0 := by
  refine ⟨by norm_num [Bound.Mem], ?_⟩
  norm_num [Bound.fold, foldInterval, uniformIn, abs_of_pos]

/-- One-sided bounds: folding mirrors at the bound, for numbers of any magnitude. -/
theorem C61_fold_one_sided (c u r : F) :
    (∃ y, (Bound.below c).fold u r = .ok y ∧ (Bound.below c).Mem y ∧ |y - c| = |r - c|) ∧
    (∃ y, (Bound.above c).fold u r = .ok y ∧ (Bound.above c).Mem y ∧ |y - c| = |r - c|) := by
  constructor
  · simp only [Bound.fold, Bound.Mem]
    split
    · exact ⟨_, rfl, by linarith, by rw [abs_sub_comm r c]; congr 1; ring⟩
    · exact ⟨_, rfl, by linarith, rfl⟩
  · simp only [Bound.fold, Bound.Mem]
    split
    · exact ⟨_, rfl, by linarith, by rw [abs_sub_comm r c]; congr 1; ring⟩
    · exact ⟨_, rfl, by linarith, rfl⟩

/-- A degenerate interval, allowed by the constructor: folding a number outside it divides by zero. -/
theorem C61_fold_degenerate (c u r : F) (hr : |r| ≤ 10 ^ 9) (hne : r ≠ c) :
    (Bound.interval c c).fold u r = .error .ub := by
  simp only [Bound.fold, foldInterval, not_lt.mpr hr, if_false]
  rcases lt_or_gt_of_ne hne with h | h
  · simp [foldHigh, foldLow, not_lt.mpr h.le, h, longDiv]
  · simp [foldHigh, h, longDiv]

omit [FloorRing F] in
/-- Truncation gives the nearest number inside the bounds (which are not contradictory). -/
theorem C61_truncate (b : Bound F) (hb : ∃ x, b.Mem x) (r : F) :
    b.Mem (b.trunc r) ∧ (∀ y, b.Mem y → |r - b.trunc r| ≤ |r - y|) ∧
      (b.Mem r → b.trunc r = r) := by
  cases b with
  | none => simp [Bound.Mem, Bound.trunc]
  | interval lo hi =>
    obtain ⟨x, h1, h2⟩ := hb
    simp only [Bound.Mem, Bound.trunc]
    split
    · rename_i h
      refine ⟨⟨le_rfl, h1.trans h2⟩, fun y hy => ?_, fun h' => absurd h (not_lt.mpr h'.1)⟩
      rw [abs_of_neg (by linarith), abs_of_neg (by linarith [hy.1])]
      linarith [hy.1]
    · split
      · rename_i h
        refine ⟨⟨h1.trans h2, le_rfl⟩, fun y hy => ?_, fun h' => absurd h (not_lt.mpr h'.2)⟩
        rw [abs_of_pos (by linarith), abs_of_pos (by linarith [hy.2])]
        linarith [hy.2]
      · rename_i h h'
        exact ⟨⟨le_of_not_gt h, le_of_not_gt h'⟩, fun y _ => by simp, fun _ => rfl⟩
  | below lo =>
    simp only [Bound.Mem, Bound.trunc]
    split
    · rename_i h
      refine ⟨le_rfl, fun y hy => ?_, fun h' => absurd h (not_lt.mpr h')⟩
      rw [abs_of_neg (by linarith), abs_of_neg (by linarith)]
      linarith
    · rename_i h
      exact ⟨le_of_not_gt h, fun y _ => by simp, fun _ => rfl⟩
  | above hi =>
    simp only [Bound.Mem, Bound.trunc]
    split
    · rename_i h
      refine ⟨le_rfl, fun y hy => ?_, fun h' => absurd h (not_lt.mpr h')⟩
      rw [abs_of_pos (by linarith), abs_of_pos (by linarith)]
      linarith
    · rename_i h
      exact ⟨le_of_not_gt h, fun y _ => by simp, fun _ => rfl⟩

example : ∃ x, (Bound.interval (1 : ℚ) 3).Mem x := ⟨2, by norm_num [Bound.Mem]⟩

omit [IsStrictOrderedRing F] [FloorRing F] in
/-- The test of membership. -/
theorem C61_is_in (b : Bound F) (r : F) : b.isIn r = true ↔ b.Mem r := by
  cases b with
  | none => simp [Bound.Mem, Bound.isIn]
  | interval lo hi =>
    simp only [Bound.Mem, Bound.isIn]
    split
    · rename_i h; simp [not_le.mpr h]
    · split
      · rename_i h; simp [not_le.mpr h]
      · rename_i h h'; simp [le_of_not_gt h, le_of_not_gt h']
  | below lo =>
    simp only [Bound.Mem, Bound.isIn]
    split
    · rename_i h; simp [not_le.mpr h]
    · rename_i h; simp [le_of_not_gt h]
  | above hi =>
    simp only [Bound.Mem, Bound.isIn]
    split
    · rename_i h; simp [not_le.mpr h]
    · rename_i h; simp [le_of_not_gt h]

omit [FloorRing F] in
/-- Truncating a vector at least as long as its bounds puts it in bounds and keeps the further
components; a shorter vector is accessed out of range. -/
theorem C61_truncate_vector (bs : List (Bound F)) (hbs : ∀ b ∈ bs, ∃ x, b.Mem x) (v : List F) :
    (bs.length ≤ v.length → ∃ w, truncVec bs v = .ok w ∧ isInVec bs w = .ok true ∧
      w.length = v.length ∧ w.drop bs.length = v.drop bs.length) ∧
    (v.length < bs.length → truncVec bs v = .error .ub) := by
  induction bs generalizing v with
  | nil => exact ⟨fun _ => ⟨v, rfl, rfl, rfl, rfl⟩, fun h => by simp at h⟩
  | cons b bs ih =>
    cases v with
    | nil => exact ⟨fun h => by simp at h, fun _ => rfl⟩
    | cons x v =>
      obtain ⟨ih1, ih2⟩ := ih (fun c hc => hbs c (by simp [hc])) v
      constructor
      · intro h
        obtain ⟨w, e1, e2, e3, e4⟩ := ih1 (by simpa using h)
        refine ⟨b.trunc x :: w, by simp [truncVec, e1], ?_, by simp [e3], by simpa using e4⟩
        have := (C61_is_in b (b.trunc x)).mpr (C61_truncate b (hbs b (by simp)) x).1
        simp [isInVec, this, e2]
      · intro h
        simp [truncVec, ih2 (by simpa using h)]

/-- The membership test of a vector: true exactly if every component bounded lies in its bound. -/
theorem C61_vector_is_in (bs : List (Bound F)) (v : List F) (hlen : bs.length ≤ v.length) :
    ∃ a, isInVec bs v = .ok a ∧
      (a = true ↔ ∀ (i : Nat) (b : Bound F) (x : F), bs[i]? = some b → v[i]? = some x → b.Mem x) := by
  induction bs generalizing v with
  | nil => exact ⟨true, rfl, by simp⟩
  | cons b bs ih =>
    cases v with
    | nil => simp at hlen
    | cons x v =>
      obtain ⟨a, h1, h2⟩ := ih v (by simpa using hlen)
      rw [isInVec]
      by_cases hx : b.isIn x = true
      · refine ⟨a, by rw [if_pos hx, h1], h2.trans ⟨fun h i => ?_, fun h i => ?_⟩⟩
        · cases i with
          | zero =>
            intro b' x' e1 e2
            simp only [List.getElem?_cons_zero, Option.some.injEq] at e1 e2
            subst e1 e2
            exact (C61_is_in b x).mp hx
          | succ i => simpa using h i
        · simpa using h (i + 1)
      · refine ⟨false, by rw [if_neg hx], ?_⟩
        simp only [Bool.false_eq_true, false_iff]
        intro h
        exact hx ((C61_is_in b x).mpr (h 0 b x rfl rfl))

example : isInVec [.interval 0 1, .below (2 : ℚ)] [3, 4] = .ok false ∧
    isInVec [.interval 0 1, .below (2 : ℚ)] [1 / 2, 4] = .ok true := by
  norm_num [isInVec, Bound.isIn]

/-- Folding a vector componentwise. -/
theorem C61_fold_vector (u : Nat → F) (hu : ∀ t, 0 ≤ u t ∧ u t < 1) (bs : List (Bound F))
    (t : Nat) (v : List F) (hlen : bs.length ≤ v.length)
    (hbs : ∀ lo hi : F, Bound.interval lo hi ∈ bs → lo < hi ∧
      ∀ r ∈ v, r - lo < 2 ^ 63 * (2 * (hi - lo)) ∧ hi - r < 2 ^ 63 * (2 * (hi - lo))) :
    ∃ w, foldVec u t bs v = .ok w ∧ isInVec bs w = .ok true ∧
      w.length = v.length ∧ w.drop bs.length = v.drop bs.length := by
  induction bs generalizing v t with
  | nil => exact ⟨v, rfl, rfl, rfl, rfl⟩
  | cons b bs ih =>
    cases v with
    | nil => simp at hlen
    | cons x v =>
      obtain ⟨w, e1, e2, e3, e4⟩ := ih (t + 1) v (by simpa using hlen) (fun lo hi hm =>
        ⟨(hbs lo hi (by simp [hm])).1, fun r hr => (hbs lo hi (by simp [hm])).2 r (by simp [hr])⟩)
      have : ∃ y, b.fold (u t) x = .ok y ∧ b.Mem y := by
        cases b with
        | none => exact ⟨x, rfl, trivial⟩
        | interval lo hi =>
          obtain ⟨h1, h2⟩ := hbs lo hi (by simp)
          by_cases hx : |x| ≤ 10 ^ 9
          · obtain ⟨y, a, b, _⟩ := C61_fold_interval (u := u t) h1 hx (h2 x (by simp)).1
              (h2 x (by simp)).2
            exact ⟨y, a, b⟩
          · exact ⟨_, C61_fold_far h1.le (hu t).1 (hu t).2 (not_le.mp hx)⟩
        | below c => obtain ⟨y, a, b, _⟩ := (C61_fold_one_sided c (u t) x).1; exact ⟨y, a, b⟩
        | above c => obtain ⟨y, a, b, _⟩ := (C61_fold_one_sided c (u t) x).2; exact ⟨y, a, b⟩
      obtain ⟨y, f1, f2⟩ := this
      refine ⟨y :: w, by simp [foldVec, f1, e1], ?_, by simp [e3], by simpa using e4⟩
      simp [isInVec, (C61_is_in b y).mpr f2, e2]

example : ∃ w, foldVec (fun _ => (0 : ℚ)) 0 [.interval 0 1, .below 2, .none] [5 / 2, 1, 7, 9] = .ok w ∧
    isInVec [.interval 0 1, .below 2, .none] w = .ok true ∧ w.length = 4 ∧ w.drop 3 = [9] :=
  C61_fold_vector _ (by simp) _ _ _ (by simp) (by
    intro lo hi h
    simp at h
    obtain ⟨rfl, rfl⟩ := h
    norm_num)

/-- The integer version: the result is an integer of the interval, the mirror image of the argument
when its magnitude is at most 10^9. -/
theorem C61_fold_integer {lo hi i : Int} {u : F} (hlh : lo < hi) (hu0 : 0 ≤ u) (hu1 : u < 1)
    (h1 : i - lo < 2 ^ 63) (h2 : hi - i < 2 ^ 63) :
    ∃ j : Int, foldLong lo hi u i = .ok j ∧ lo ≤ j ∧ j ≤ hi ∧
      (|i| ≤ 10 ^ 9 → ∃ k : Int, j = i + 2 * k * (hi - lo) ∨ j = 2 * hi - i + 2 * k * (hi - lo)) := by
  have hnle : ¬ (hi - lo ≤ 0) := by omega
  have hlhF : (lo : F) < (hi : F) := by exact_mod_cast hlh
  simp only [foldLong, hnle, if_false]
  by_cases hi9 : |i| ≤ 10 ^ 9
  · have hr : |(i : F)| ≤ 10 ^ 9 := by exact_mod_cast hi9
    have hone : (1 : F) ≤ (hi : F) - lo := by
      have : (1 : Int) ≤ hi - lo := by omega
      exact_mod_cast this
    have h1F : (i : F) - lo < 2 ^ 63 * (2 * ((hi : F) - lo)) := by
      have : ((i - lo : Int) : F) < ((2 ^ 63 : Int) : F) := by exact_mod_cast h1
      push_cast at this
      nlinarith
    have h2F : (hi : F) - i < 2 ^ 63 * (2 * ((hi : F) - lo)) := by
      have : ((hi - i : Int) : F) < ((2 ^ 63 : Int) : F) := by exact_mod_cast h2
      push_cast at this
      nlinarith
    obtain ⟨y, e, ⟨a, b⟩, k, hk⟩ := C61_fold_interval (u := u) hlhF hr h1F h2F
    simp only [Bound.fold] at e
    have hj : ∃ j : Int, y = j ∧ ∃ k : Int, j = i + 2 * k * (hi - lo) ∨
        j = 2 * hi - i + 2 * k * (hi - lo) := by
      rcases hk with hk | hk
      · exact ⟨i + 2 * k * (hi - lo), by rw [hk]; push_cast; ring, k, .inl rfl⟩
      · exact ⟨2 * hi - i + 2 * k * (hi - lo), by rw [hk]; push_cast; ring, k, .inr rfl⟩
    obtain ⟨j, hj, hm⟩ := hj
    subst hj
    have ht : truncZ (j : F) = j := by simp [truncZ]
    refine ⟨j, by rw [e]; simp [ht], by exact_mod_cast a, by exact_mod_cast b, fun _ => hm⟩
  · have hr : 10 ^ 9 < |(i : F)| := by exact_mod_cast not_le.mp hi9
    obtain ⟨e, a, b⟩ := C61_fold_far hlhF.le hu0 hu1 hr
    simp only [Bound.fold] at e
    rw [e]
    refine ⟨_, rfl, ?_, ?_, fun h => absurd h hi9⟩
    · unfold truncZ
      split
      · exact Int.le_floor.mpr a
      · have := Int.le_ceil ((lo : F) + u * ((hi : F) - lo))
        have h3 : (lo : F) ≤ (⌈(lo : F) + u * ((hi : F) - lo)⌉ : F) := a.trans this
        exact_mod_cast h3
    · unfold truncZ
      split
      · have := Int.floor_le ((lo : F) + u * ((hi : F) - lo))
        have h3 : (⌊(lo : F) + u * ((hi : F) - lo)⌋ : F) ≤ hi := this.trans b
        exact_mod_cast h3
      · exact Int.ceil_le.mpr b

example : ∃ j : Int, foldLong (-3) 4 (0 : ℚ) 100 = .ok j ∧ -3 ≤ j ∧ j ≤ 4 ∧
    (|(100 : Int)| ≤ 10 ^ 9 → ∃ k : Int, j = 100 + 2 * k * (4 - -3) ∨ j = 2 * 4 - 100 + 2 * k * (4 - -3)) :=
  C61_fold_integer (by norm_num) (by norm_num) (by norm_num) (by norm_num) (by norm_num)

/-- A random integer of an interval narrower than 2^32: any value from the minimum on, but never the
maximum, although the maximum is in bounds. -/
theorem C61_random_integer {lo hi : Int} (hlh : lo < hi) (hw : hi - lo < 2 ^ 32) :
    (∀ (r : Nat → Nat) (t : Nat), ∃ j, intRandom lo hi r t = .ok j ∧ lo ≤ j ∧ j < hi) ∧
    (∀ j, lo ≤ j → j < hi → ∃ r : Nat → Nat, intRandom lo hi r 0 = .ok j) := by
  have hnle : ¬ (hi - lo ≤ 0) := by omega
  have hm : (hi - lo).toNat % 2 ^ 32 = (hi - lo).toNat := Nat.mod_eq_of_lt (by omega)
  have hpos : (hi - lo).toNat ≠ 0 := by omega
  simp only [intRandom, hnle, if_false, hm, rnd, hpos]
  refine ⟨fun r t => ⟨_, rfl, by omega, ?_⟩, fun j h1 h2 => ⟨fun _ => (j - lo).toNat, ?_⟩⟩
  · have := Nat.mod_lt (r t) (Nat.pos_of_ne_zero hpos)
    omega
  · dsimp only
    rw [Nat.mod_eq_of_lt (by omega)]
    congr 1
    omega

example : (0 : Int) < 5 ∧ (5 : Int) - 0 < 2 ^ 32 := by norm_num

end Paradiseo.Bounds
