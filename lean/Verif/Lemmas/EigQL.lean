import Verif.Lemmas.EigHouse
import Verif.Lemmas.CMAState

/-!
# The QL algorithm
-/

namespace Paradiseo.Eig

open Finset
open Paradiseo.Edo (Mat)

/-! ## A rotation -/

theorem rotation_spec (f g : ℝ) :
    let t := rotation f g
    t.1 * t.1 + t.2.1 * t.2.1 = 1 ∧ t.2.1 * t.2.2 = f ∧ t.1 * t.2.2 = g := by
  unfold rotation
  split
  · rename_i h
    by_cases hf : f = 0
    · have hg : g = 0 := by rw [hf, abs_zero] at h; exact abs_nonpos_iff.mp h
      simp [hf, hg]
    · have hpos : 0 < g / f * (g / f) + 1 := by nlinarith [mul_self_nonneg (g / f)]
      have hs := Real.mul_self_sqrt hpos.le
      have hne : Real.sqrt (g / f * (g / f) + 1) ≠ 0 := (Real.sqrt_pos.mpr hpos).ne'
      simp only
      generalize Real.sqrt (g / f * (g / f) + 1) = r at *
      refine ⟨?_, ?_, ?_⟩
      · field_simp
        field_simp at hs
        linear_combination -hs
      · field_simp
      · field_simp
  · rename_i h
    have hg : g ≠ 0 := by
      rintro rfl
      rw [abs_zero] at h
      exact h (abs_nonneg _)
    have hpos : 0 < f / g * (f / g) + 1 := by nlinarith [mul_self_nonneg (f / g)]
    have hs := Real.mul_self_sqrt hpos.le
    have hne : Real.sqrt (f / g * (f / g) + 1) ≠ 0 := (Real.sqrt_pos.mpr hpos).ne'
    simp only
    generalize Real.sqrt (f / g * (f / g) + 1) = r at *
    refine ⟨?_, ?_, ?_⟩
    · field_simp
      field_simp at hs
      linear_combination -hs
    · field_simp
    · field_simp

/-- The second number of a rotation is not zero when the first argument is not. -/
theorem rotation_ne {f : ℝ} (hf : f ≠ 0) (g : ℝ) : (rotation f g).2.1 ≠ 0 := fun h => by
  have := (rotation_spec f g).2.1
  rw [h, zero_mul] at this
  exact hf this.symm

/-- Two columns rotated. -/
def rotCols (k : Nat) (c s : ℝ) (y : Nat → ℝ) (x : Nat) : ℝ :=
  if x = k + 1 then s * y k + c * y (k + 1) else if x = k then c * y k - s * y (k + 1) else y x

theorem rotCols_dot {n : Nat} {q : Mat} (h : Ortho n q) {k : Nat} (hk : k + 1 < n) {c s : ℝ} (hcs : c * c + s * s = 1) :
    Ortho n (fun l x => rotCols k c s (q l) x) := by
  have hkk := h k k (by omega) (by omega)
  have hkl := h k (k + 1) (by omega) (by omega)
  have hlk := h (k + 1) k (by omega) (by omega)
  have hll := h (k + 1) (k + 1) (by omega) (by omega)
  rw [if_pos rfl] at hkk hll
  rw [if_neg (by omega)] at hkl hlk
  intro x y hx hy
  have key : ∀ a b c' d u v w z, ∑ l ∈ range n, (a * q l u + b * q l v) * (c' * q l w + d * q l z) =
      a * c' * ∑ l ∈ range n, q l u * q l w + a * d * ∑ l ∈ range n, q l u * q l z +
      b * c' * ∑ l ∈ range n, q l v * q l w + b * d * ∑ l ∈ range n, q l v * q l z := fun a b c' d u v w z => by
    simp only [mul_sum]
    rw [← sum_add_distrib, ← sum_add_distrib, ← sum_add_distrib]
    exact sum_congr rfl fun l _ => by ring
  have form : ∀ x, x < n → ∃ a b u v, (u < n ∧ v < n) ∧ (∀ l, rotCols k c s (q l) x = a * q l u + b * q l v) ∧
      ((x = k + 1 ∧ a = s ∧ b = c ∧ u = k ∧ v = k + 1) ∨ (x = k ∧ a = c ∧ b = -s ∧ u = k ∧ v = k + 1) ∨
        (x ≠ k ∧ x ≠ k + 1 ∧ a = 1 ∧ b = 0 ∧ u = x ∧ v = x)) := fun x hx => by
    by_cases h1 : x = k + 1
    · exact ⟨s, c, k, k + 1, ⟨by omega, hk⟩, fun l => by simp [rotCols, h1], Or.inl ⟨h1, rfl, rfl, rfl, rfl⟩⟩
    · by_cases h2 : x = k
      · exact ⟨c, -s, k, k + 1, ⟨by omega, hk⟩, fun l => by rw [rotCols, if_neg h1, if_pos h2]; ring,
          Or.inr (Or.inl ⟨h2, rfl, rfl, rfl, rfl⟩)⟩
      · exact ⟨1, 0, x, x, ⟨hx, hx⟩, fun l => by rw [rotCols, if_neg h1, if_neg h2]; ring,
          Or.inr (Or.inr ⟨h2, h1, rfl, rfl, rfl, rfl⟩)⟩
  obtain ⟨a, b, u, v, ⟨hu, hv⟩, e1, c1⟩ := form x hx
  obtain ⟨a', b', u', v', ⟨hu', hv'⟩, e2, c2⟩ := form y hy
  rw [sum_congr rfl fun l _ => show _ = (a * q l u + b * q l v) * (a' * q l u' + b' * q l v') by
    rw [← e1 l, ← e2 l], key, h u u' hu hu', h u v' hu hv', h v u' hv hu', h v v' hv hv']
  rcases c1 with ⟨rfl, rfl, rfl, rfl, rfl⟩ | ⟨rfl, rfl, rfl, rfl, rfl⟩ | ⟨x1, x2, rfl, rfl, rfl, rfl⟩ <;>
  rcases c2 with ⟨rfl, rfl, rfl, rfl, rfl⟩ | ⟨rfl, rfl, rfl, rfl, rfl⟩ | ⟨y1, y2, rfl, rfl, rfl, rfl⟩
  · simp; linarith
  · simp; ring
  · rw [if_neg (by omega), if_neg (by omega)]; ring
  · simp; ring
  · simp; linarith
  · rw [if_neg (by omega), if_neg (by omega)]; ring
  · rw [if_neg (by omega), if_neg (by omega)]; ring
  · rw [if_neg (by omega), if_neg (by omega)]; ring
  · ring

/-- Applying a matrix to rotated columns. -/
theorem rotCols_apply (n : Nat) (A q : Mat) (k : Nat) (c s : ℝ) (a x : Nat) :
    ∑ b ∈ range n, A a b * rotCols k c s (q b) x = rotCols k c s (fun x => ∑ b ∈ range n, A a b * q b x) x := by
  unfold rotCols
  split
  · rw [mul_sum, mul_sum, ← sum_add_distrib]
    exact sum_congr rfl fun b _ => by ring
  · split
    · rw [mul_sum, mul_sum, ← sum_sub_distrib]
      exact sum_congr rfl fun b _ => by ring
    · rfl

/-! ## A sweep -/

/-- The second diagonal without what is finished and without the entry at `j`. -/
def mask (i j : Nat) (e : Nat → ℝ) (x : Nat) : ℝ := if x < i ∨ x = j then 0 else e x

/-- The state of the innermost loop when the rotations for `m, ..., j - 1` are done; for one row. -/
structure Mid (n i j m : Nat) (w : Sweep) (b y : Nat → ℝ) : Prop where
  low : ∀ x, x + 1 < m → x < n → b x = prev (mask i j w.ql.neben) x * prev y x + w.ql.diag x * y x +
    mask i j w.ql.neben x * y (x + 1)
  below : ∀ x, x + 1 = m → b x = prev (mask i j w.ql.neben) x * prev y x + w.ql.diag x * y x +
    w.c1 * mask i j w.ql.neben x * y (x + 1) + if m < j then w.c2 * mask i j w.ql.neben x * y (x + 2) else 0
  at_ : b m = w.c1 * prev (mask i j w.ql.neben) m * prev y m + (w.ql.diag m - w.p) * y m +
    if m < j then w.diff * y (m + 1) else 0
  above : m < j → b (m + 1) = w.c2 * prev (mask i j w.ql.neben) m * prev y m + w.diff * y m +
    w.ql.diag (m + 1) * y (m + 1) + mask i j w.ql.neben (m + 1) * y (m + 2)
  high : ∀ x, (m + 1 < x ∨ (m + 1 = x ∧ m = j)) → x < n → b x = prev (mask i j w.ql.neben) x * prev y x +
    w.ql.diag x * y x + mask i j w.ql.neben x * y (x + 1)

theorem mid_start {n i j : Nat} {s : QL} {g : ℝ} {b y : Nat → ℝ} (hj : j < n)
    (h : ∀ x, x < n → b x = prev (mask i j s.neben) x * prev y x + s.diag x * y x + mask i j s.neben x * y (x + 1)) :
    Mid n i j j { ql := s, c1 := 1, c2 := 1, p := 0, diff := g } b y := by
  refine ⟨fun x _ hx => h x hx, fun x hx => ?_, ?_, fun hlt => absurd hlt (lt_irrefl _), fun x _ hx => h x hx⟩
  · rw [h x (by omega), if_neg (by omega)]; ring
  · rw [h j hj, if_neg (by omega)]
    simp [mask]

theorem prev_succ (f : Nat → ℝ) (x : Nat) : prev f (x + 1) = f x := rfl

theorem mid_step {n i j k : Nat} {w : Sweep} {b y : Nat → ℝ} (hi : i ≤ k) (hk : k < j) (hj : j < n)
    (h : Mid n i j (k + 1) w b y) :
    Mid n i j k (rotate k w) (rotCols k (rotate k w).c1 (rotate k w).c2 b)
      (rotCols k (rotate k w).c1 (rotate k w).c2 y) := by
  obtain ⟨h1, h2, h3, h4, h5⟩ := h
  have hmk : mask i j w.ql.neben k = w.ql.neben k := if_neg (by omega)
  obtain ⟨r1, r2, r3⟩ := rotation_spec (w.c2 * w.ql.neben k) w.diff
  have b0 := h2 k rfl
  rw [prev_succ, prev_succ, hmk] at h3
  rw [hmk] at b0
  simp only [rotate]
  generalize rotation (w.c2 * w.ql.neben k) w.diff = t at *
  obtain ⟨c, s, r⟩ := t
  simp only at *
  generalize hE : w.ql.neben k = e at *
  have m1 : ∀ x, x ≠ k + 1 → mask i j (put w.ql.neben (k + 1) r) x = mask i j w.ql.neben x := fun x hx => by
    unfold mask put
    rw [if_neg hx]
  have m2 : k + 1 < j → mask i j (put w.ql.neben (k + 1) r) (k + 1) = r := fun hkj => by
    unfold mask put
    rw [if_neg (by omega), if_pos rfl]
  have m3 : k + 1 = j → ∀ f, mask i j f (k + 1) = 0 := fun hkj f => if_pos (Or.inr hkj)
  have p1 : ∀ x, x ≠ k + 2 → prev (mask i j (put w.ql.neben (k + 1) r)) x = prev (mask i j w.ql.neben) x := fun x hx => by
    cases x with
    | zero => rfl
    | succ x => exact m1 x (by omega)
  have pr : ∀ x, x ≠ k + 1 → x ≠ k + 2 → prev (rotCols k c s y) x = prev y x := fun x hx hx' => by
    cases x with
    | zero => rfl
    | succ x => rw [prev_succ, prev_succ]; unfold rotCols; rw [if_neg (by omega), if_neg (by omega)]
  have d1 : ∀ x v, x ≠ k + 1 → put w.ql.diag (k + 1) v x = w.ql.diag x := fun x v hx => if_neg hx
  have d2 : ∀ v, put w.ql.diag (k + 1) v (k + 1) = v := fun v => if_pos rfl
  have y1 : ∀ f x, x ≠ k → x ≠ k + 1 → rotCols k c s f x = f x := fun f x hx hx' => by
    unfold rotCols; rw [if_neg hx', if_neg hx]
  have y2 : ∀ f, rotCols k c s f k = c * f k - s * f (k + 1) := fun f => by
    unfold rotCols; rw [if_neg (by omega), if_pos rfl]
  have y3 : ∀ f, rotCols k c s f (k + 1) = s * f k + c * f (k + 1) := fun f => if_pos rfl
  refine ⟨fun x hx hxn => ?_, fun x hx => ?_, ?_, fun _ => ?_, fun x hx hxn => ?_⟩
  · simp only
    rw [m1 x (by omega), p1 x (by omega), pr x (by omega) (by omega), d1 x _ (by omega), y1 b x (by omega) (by omega),
      y1 y x (by omega) (by omega), y1 y (x + 1) (by omega) (by omega)]
    exact h1 x (by omega) hxn
  · obtain rfl : k = x + 1 := by omega
    simp only
    rw [m1 x (by omega), p1 x (by omega), pr x (by omega) (by omega), d1 x _ (by omega), y1 b x (by omega) (by omega),
      y1 y x (by omega) (by omega), y2, y3, if_pos (by omega), h1 x (by omega) (by omega)]
    linear_combination (-mask i j w.ql.neben x * y (x + 1)) * r1
  · simp only
    rw [p1 k (by omega), pr k (by omega) (by omega), d1 k _ (by omega), y2 b, y2 y, y3 y, if_pos hk, b0, h3]
    by_cases hkj : k + 1 < j
    · rw [if_pos hkj, if_pos hkj]
      linear_combination (-((w.ql.diag k - w.ql.diag (k + 1) + w.p) * s + 2 * c * (w.c1 * e)) * y (k + 1)) * r1 -
        c * y (k + 2) * r2 + s * y (k + 2) * r3
    · rw [if_neg hkj, if_neg hkj]
      linear_combination (-((w.ql.diag k - w.ql.diag (k + 1) + w.p) * s + 2 * c * (w.c1 * e)) * y (k + 1)) * r1
  · simp only
    rw [p1 k (by omega), pr k (by omega) (by omega), d2, y3 b, y2 y, y3 y, y1 y (k + 2) (by omega) (by omega), b0, h3]
    by_cases hkj : k + 1 < j
    · rw [if_pos hkj, if_pos hkj, m2 hkj]
      linear_combination (-((w.ql.diag k - w.ql.diag (k + 1) + w.p) * s + 2 * c * (w.c1 * e)) * y k + r * y (k + 2)) * r1 -
        s * y (k + 2) * r2 - c * y (k + 2) * r3
    · rw [if_neg hkj, if_neg hkj, m3 (by omega)]
      linear_combination (-((w.ql.diag k - w.ql.diag (k + 1) + w.p) * s + 2 * c * (w.c1 * e)) * y k) * r1
  · simp only
    rw [d1 x _ (by omega), y1 b x (by omega) (by omega), y1 y x (by omega) (by omega), y1 y (x + 1) (by omega) (by omega),
      m1 x (by omega)]
    by_cases hx2 : x = k + 2
    · subst hx2
      rw [prev_succ, prev_succ, y3]
      by_cases hkj : k + 1 < j
      · rw [m2 hkj, h4 hkj, prev_succ, prev_succ, hmk]
        linear_combination -y k * r2 - y (k + 1) * r3
      · rw [m3 (by omega), h5 (k + 2) (Or.inr ⟨rfl, by omega⟩) hxn, prev_succ, m3 (by omega)]
        ring
    · rw [p1 x hx2, pr x (by omega) hx2, h5 x (Or.inl (by omega)) hxn]

theorem rotate_mq (k : Nat) (w : Sweep) (l x : Nat) :
    (rotate k w).ql.mq l x = rotCols k (rotate k w).c1 (rotate k w).c2 (w.ql.mq l) x := rfl

theorem rotate_cs (k : Nat) (w : Sweep) :
    (rotate k w).c1 * (rotate k w).c1 + (rotate k w).c2 * (rotate k w).c2 = 1 :=
  (rotation_spec (w.c2 * w.ql.neben k) w.diff).1

theorem rotateDown_mid {n i j : Nat} {A : Mat} (hj : j < n) : ∀ (m : Nat) (w : Sweep), i + m ≤ j → Ortho n w.ql.mq →
    (∀ a, a < n → Mid n i j (i + m) w (fun x => ∑ b ∈ range n, A a b * w.ql.mq b x) (w.ql.mq a)) →
    Ortho n (rotateDown i m w).ql.mq ∧
    ∀ a, a < n → Mid n i j i (rotateDown i m w) (fun x => ∑ b ∈ range n, A a b * (rotateDown i m w).ql.mq b x)
      ((rotateDown i m w).ql.mq a)
  | 0, w, _, ho, h => ⟨ho, h⟩
  | m + 1, w, hm, ho, h => by
    refine rotateDown_mid hj m (rotate (i + m) w) (by omega) ?_ fun a ha => ?_
    · exact rotCols_dot ho (by omega) (rotate_cs _ _)
    · have e : (fun x => ∑ b ∈ range n, A a b * (rotate (i + m) w).ql.mq b x) =
          rotCols (i + m) (rotate (i + m) w).c1 (rotate (i + m) w).c2 (fun x => ∑ b ∈ range n, A a b * w.ql.mq b x) := by
        funext x
        rw [← rotCols_apply]
        exact sum_congr rfl fun b _ => by rw [rotate_mq]
      have e' : (rotate (i + m) w).ql.mq a =
          rotCols (i + m) (rotate (i + m) w).c1 (rotate (i + m) w).c2 (w.ql.mq a) := funext fun x => rotate_mq _ _ _ _
      rw [e, e']
      exact mid_step (by omega) (by omega) hj (h a ha)

/-- What the rotations leave as it was. -/
theorem rotateDown_keep (i : Nat) : ∀ (m : Nat) (w : Sweep) (x : Nat), (x ≤ i ∨ i + m < x) →
    (rotateDown i m w).ql.neben x = w.ql.neben x
  | 0, _, _, _ => rfl
  | m + 1, w, x, hx => by
    rw [rotateDown, rotateDown_keep i m (rotate (i + m) w) x (by omega)]
    show put w.ql.neben (i + m + 1) _ x = _
    exact if_neg (by omega)

theorem sweep_tri {n i j : Nat} {A : Mat} {s : QL} (hij : i < j) (hj : j < n) (ho : Ortho n s.mq)
    (h : Tri n A s.diag (mask i j s.neben) s.mq) :
    Ortho n (sweep i j s).mq ∧ Tri n A (sweep i j s).diag (mask i n (sweep i j s).neben) (sweep i j s).mq := by
  obtain ⟨h1, h2⟩ := rotateDown_mid (A := A) (i := i) hj (j - i) ⟨s, 1, 1, 0, shift s i j⟩ (by omega) ho (fun a ha => by
    rw [show i + (j - i) = j by omega]
    exact mid_start hj (h a · ha))
  refine ⟨h1, fun a x ha hx => ?_⟩
  obtain ⟨m1, m2, m3, m4, m5⟩ := h2 a ha
  have hs : ∀ w, w = rotateDown i (j - i) ⟨s, 1, 1, 0, shift s i j⟩ → sweep i j s =
      ⟨put w.ql.diag i (w.ql.diag i - w.p), put (put w.ql.neben i w.diff) j 0, w.ql.mq⟩ := fun w hw => by
    rw [hw]; rfl
  have hs := hs _ rfl
  rw [hs]
  generalize rotateDown i (j - i) ⟨s, 1, 1, 0, shift s i j⟩ = w at *
  simp only
  have mz : ∀ x, x < i → mask i j w.ql.neben x = 0 := fun x hx => if_pos (Or.inl hx)
  have pz : prev (mask i j w.ql.neben) i = 0 := by
    cases i with
    | zero => rfl
    | succ i => exact mz i (by omega)
  have mm : ∀ x, x ≠ i → x < n → mask i n (put (put w.ql.neben i w.diff) j 0) x = mask i j w.ql.neben x := fun x hx hxn => by
    unfold mask put
    by_cases h1 : x < i
    · rw [if_pos (Or.inl h1), if_pos (Or.inl h1)]
    · by_cases h2 : x = j
      · rw [if_neg (by omega), if_pos h2, if_pos (Or.inr h2)]
      · rw [if_neg (by omega), if_neg h2, if_neg hx, if_neg (by omega)]
  have mi : mask i n (put (put w.ql.neben i w.diff) j 0) i = w.diff := by
    unfold mask put
    rw [if_neg (by omega), if_neg (by omega), if_pos rfl]
  have pp : ∀ x, x ≠ i + 1 → x < n → prev (mask i n (put (put w.ql.neben i w.diff) j 0)) x =
      prev (mask i j w.ql.neben) x := fun x hx hxn => by
    cases x with
    | zero => rfl
    | succ x => exact mm x (by omega) (by omega)
  have dd : ∀ x, x ≠ i → put w.ql.diag i (w.ql.diag i - w.p) x = w.ql.diag x := fun x hx => if_neg hx
  by_cases hxi : x = i
  · subst hxi
    rw [pp x (by omega) hx, mi, m3, pz, if_pos hij]
    simp [put]
  · rw [dd x hxi, mm x hxi hx]
    rcases lt_or_gt_of_ne hxi with hlt | hgt
    · rw [pp x (by omega) hx]
      by_cases hx1 : x + 1 = i
      · rw [m2 x hx1, mz x hlt]; simp
      · exact m1 x (by omega) hx
    · by_cases hx1 : x = i + 1
      · subst hx1
        rw [prev_succ, prev_succ, mi, m4 hij, pz]; ring
      · rw [pp x hx1 hx]
        exact m5 x (Or.inl (by omega)) hx

/-! ## Dropping an entry of the second diagonal -/

theorem ortho_rows {n : Nat} {q : Mat} (h : Ortho n q) {a b : Nat} (ha : a < n) (hb : b < n) :
    ∑ x ∈ range n, q a x * q b x = if a = b then 1 else 0 := Cma.rows_orth h ha hb

/-- The sum of the squares of the entries. -/
noncomputable def frobSq (n : Nat) (A : Mat) : ℝ := ∑ a ∈ range n, ∑ b ∈ range n, A a b * A a b

theorem frobSq_nonneg (n : Nat) (A : Mat) : 0 ≤ frobSq n A :=
  sum_nonneg fun _ _ => sum_nonneg fun _ _ => mul_self_nonneg _

theorem frob_row {n : Nat} {q : Mat} (h : Ortho n q) (v : Nat → ℝ) :
    ∑ x ∈ range n, (∑ b ∈ range n, v b * q b x) * (∑ b ∈ range n, v b * q b x) = ∑ b ∈ range n, v b * v b := by
  have e : ∀ x, (∑ b ∈ range n, v b * q b x) * (∑ b ∈ range n, v b * q b x) =
      ∑ b ∈ range n, ∑ c ∈ range n, v b * v c * (q b x * q c x) := fun x => by
    rw [sum_mul_sum]
    exact sum_congr rfl fun b _ => sum_congr rfl fun c _ => by ring
  rw [sum_congr rfl fun x _ => e x, sum_comm]
  refine sum_congr rfl fun b hb => ?_
  rw [sum_comm]
  rw [sum_congr rfl fun c hc => by rw [← mul_sum, ortho_rows h (mem_range.mp hb) (mem_range.mp hc)]]
  have hb' := mem_range.mp hb
  simp [hb']

theorem frob_cols {n : Nat} {q : Mat} (h : Ortho n q) (A : Mat) :
    frobSq n A = ∑ a ∈ range n, ∑ x ∈ range n, (∑ b ∈ range n, A a b * q b x) * (∑ b ∈ range n, A a b * q b x) :=
  sum_congr rfl fun a _ => (frob_row h (A a)).symm

/-- The entries of the tridiagonal matrix. -/
theorem tri_coeff {n : Nat} {A q : Mat} {d e : Nat → ℝ} (ho : Ortho n q) (h : Tri n A d e q) (he : e (n - 1) = 0)
    {x y : Nat} (hx : x < n) (hy : y < n) : ∑ a ∈ range n, q a y * ∑ b ∈ range n, A a b * q b x =
      (if y + 1 = x then e y else 0) + (if y = x then d x else 0) + if y = x + 1 then e x else 0 := by
  rw [sum_congr rfl fun a ha => show q a y * ∑ b ∈ range n, A a b * q b x = prev e x * (q a y * prev (q a) x) +
    d x * (q a y * q a x) + e x * (q a y * q a (x + 1)) by rw [h a x (mem_range.mp ha) hx]; ring,
    sum_add_distrib, sum_add_distrib, ← mul_sum, ← mul_sum, ← mul_sum, ho y x hy hx]
  congr 1
  · congr 1
    · cases x with
      | zero => simp [prev]
      | succ x =>
        simp only [prev]
        rw [ho y x hy (by omega)]
        by_cases hyx : y = x
        · simp [hyx]
        · rw [if_neg hyx, if_neg (by omega), mul_zero]
    · split <;> simp
  · by_cases hxn : x + 1 < n
    · rw [ho y (x + 1) hy hxn]
      split <;> simp
    · rw [show x = n - 1 by omega, he]; simp

theorem diag_le {n : Nat} {A q : Mat} {d e : Nat → ℝ} (ho : Ortho n q) (h : Tri n A d e q) (he : e (n - 1) = 0)
    {x : Nat} (hx : x < n) : |d x| ≤ Real.sqrt (frobSq n A) := by
  have e1 := tri_coeff ho h he hx hx
  rw [if_neg (by omega), if_pos rfl, if_neg (by omega), zero_add, add_zero] at e1
  apply Real.abs_le_sqrt
  rw [← e1, pow_two]
  have cs := sum_mul_sq_le_sq_mul_sq (range n) (fun a => q a x) (fun a => ∑ b ∈ range n, A a b * q b x)
  have hq : ∑ a ∈ range n, q a x ^ 2 = 1 := by
    have := ho x x hx hx
    rw [if_pos rfl] at this
    rw [← this]
    exact sum_congr rfl fun a _ => pow_two _
  rw [hq, one_mul, pow_two] at cs
  refine cs.trans ?_
  rw [frob_cols ho A, sum_comm]
  have := single_le_sum (f := fun x => ∑ a ∈ range n, (∑ b ∈ range n, A a b * q b x) * (∑ b ∈ range n, A a b * q b x))
    (fun x _ => sum_nonneg fun a _ => mul_self_nonneg _) (mem_range.mpr hx)
  refine le_trans (le_of_eq ?_) this
  exact sum_congr rfl fun a _ => pow_two _

theorem two_entries {n : Nat} {q : Mat} (ho : Ortho n q) {a x y : Nat} (ha : a < n) (hx : x < n) (hy : y < n)
    (hxy : x ≠ y) : q a x * q a x + q a y * q a y ≤ 1 := by
  have h := ortho_rows ho ha ha
  rw [if_pos rfl] at h
  rw [← h]
  have hsub : ({x, y} : Finset Nat) ⊆ range n := by
    intro z hz
    rcases mem_insert.mp hz with rfl | hz
    · exact mem_range.mpr hx
    · exact mem_range.mpr (mem_singleton.mp hz ▸ hy)
  have := sum_le_sum_of_subset_of_nonneg hsub (f := fun z => q a z * q a z) fun z _ _ => mul_self_nonneg _
  rwa [sum_pair hxy] at this

theorem drop {n : Nat} {A q : Mat} {d e e' : Nat → ℝ} (ho : Ortho n q) (h : Tri n A d e q) (he : e (n - 1) = 0)
    {j : Nat} (hj : j + 1 < n) (h0 : e' j = 0) (hne : ∀ x, x ≠ j → x < n → e' x = e x) :
    ∃ A', Tri n A' d e' q ∧ frobSq n A' ≤ frobSq n A ∧ ∀ a b, a < n → b < n → |A' a b - A a b| ≤ |e j| := by
  have key : ∀ a x, a < n → x < n →
      ∑ b ∈ range n, (A a b - e j * (q a j * q b (j + 1) + q a (j + 1) * q b j)) * q b x =
      ∑ b ∈ range n, A a b * q b x - e j * (q a j * (if j + 1 = x then 1 else 0) + q a (j + 1) * (if j = x then 1 else 0)) := by
    intro a x ha hx
    rw [← ho (j + 1) x hj hx, ← ho j x (by omega) hx, mul_sum, mul_sum, ← sum_add_distrib, mul_sum, ← sum_sub_distrib]
    exact sum_congr rfl fun b _ => by ring
  refine ⟨fun a b => A a b - e j * (q a j * q b (j + 1) + q a (j + 1) * q b j), ?_, ?_, ?_⟩
  · intro a x ha hx
    rw [key a x ha hx, h a x ha hx]
    by_cases h1 : x = j
    · subst h1
      have hp : prev e' x = prev e x := by
        cases x with
        | zero => rfl
        | succ x => exact hne x (by omega) (by omega)
      rw [h0, hp, if_neg (by omega), if_pos rfl]; ring
    · rw [hne x h1 hx, if_neg (show ¬j = x from fun h => h1 h.symm)]
      by_cases h2 : x = j + 1
      · subst h2
        rw [prev_succ, prev_succ, prev_succ, h0, if_pos rfl]; ring
      · have hp : prev e' x = prev e x := by
          cases x with
          | zero => rfl
          | succ x => exact hne x (by omega) (by omega)
        rw [hp, if_neg (show ¬j + 1 = x from fun h => h2 h.symm)]; ring
  · rw [frob_cols ho, frob_cols ho A]
    have c1 := tri_coeff ho h he (x := j + 1) (y := j) hj (by omega)
    have c2 := tri_coeff ho h he (x := j) (y := j + 1) (by omega) hj
    rw [if_pos rfl, if_neg (by omega), if_neg (by omega)] at c1
    rw [if_neg (by omega), if_neg (by omega), if_pos rfl] at c2
    have hjj := ho j j (by omega) (by omega)
    have hll := ho (j + 1) (j + 1) hj hj
    rw [if_pos rfl] at hjj hll
    have one : ∀ x, x < n → ∑ k ∈ range n, (if k = x then (1 : ℝ) else 0) = 1 := fun x hx => by simp [hx]
    have row : ∀ a, a < n → ∑ x ∈ range n,
        (∑ b ∈ range n, (A a b - e j * (q a j * q b (j + 1) + q a (j + 1) * q b j)) * q b x) *
        (∑ b ∈ range n, (A a b - e j * (q a j * q b (j + 1) + q a (j + 1) * q b j)) * q b x) =
        ∑ x ∈ range n, (∑ b ∈ range n, A a b * q b x) * (∑ b ∈ range n, A a b * q b x) -
        2 * e j * (q a j * ∑ b ∈ range n, A a b * q b (j + 1)) - 2 * e j * (q a (j + 1) * ∑ b ∈ range n, A a b * q b j) +
        e j * e j * (q a j * q a j) + e j * e j * (q a (j + 1) * q a (j + 1)) := fun a ha => by
      rw [sum_congr rfl fun x hx => show _ = (∑ b ∈ range n, A a b * q b x) * (∑ b ∈ range n, A a b * q b x) -
        2 * e j * q a j * ((∑ b ∈ range n, A a b * q b x) * (if x = j + 1 then 1 else 0)) -
        2 * e j * q a (j + 1) * ((∑ b ∈ range n, A a b * q b x) * (if x = j then 1 else 0)) +
        e j * e j * (q a j * q a j) * (if x = j + 1 then 1 else 0) +
        e j * e j * (q a (j + 1) * q a (j + 1)) * (if x = j then 1 else 0) by
          rw [key a x ha (mem_range.mp hx)]
          by_cases h1 : x = j
          · subst h1; simp; ring
          · by_cases h2 : x = j + 1
            · subst h2; simp; ring
            · rw [if_neg (show ¬j + 1 = x from fun h => h2 h.symm), if_neg (show ¬j = x from fun h => h1 h.symm), if_neg h1,
                if_neg h2]
              ring,
        sum_add_distrib, sum_add_distrib, sum_sub_distrib, sum_sub_distrib, ← mul_sum, ← mul_sum, ← mul_sum, ← mul_sum,
        sum_delta n (j + 1) hj (fun x => ∑ b ∈ range n, A a b * q b x),
        sum_delta n j (by omega) (fun x => ∑ b ∈ range n, A a b * q b x), one (j + 1) hj, one j (by omega)]
      ring
    rw [sum_congr rfl fun a ha => row a (mem_range.mp ha), sum_add_distrib, sum_add_distrib, sum_sub_distrib,
      sum_sub_distrib, ← mul_sum, ← mul_sum, ← mul_sum, ← mul_sum, c1, c2, hjj, hll]
    nlinarith [mul_self_nonneg (e j)]
  · intro a b ha hb
    simp only
    rw [show A a b - e j * (q a j * q b (j + 1) + q a (j + 1) * q b j) - A a b =
      -(e j * (q a j * q b (j + 1) + q a (j + 1) * q b j)) by ring, abs_neg, abs_mul]
    have ta := two_entries ho ha (show j < n by omega) hj (by omega)
    have tb := two_entries ho hb (show j < n by omega) hj (by omega)
    have : |q a j * q b (j + 1) + q a (j + 1) * q b j| ≤ 1 := by
      rw [abs_le]
      constructor
      · nlinarith [mul_self_nonneg (q a j + q b (j + 1)), mul_self_nonneg (q a (j + 1) + q b j)]
      · nlinarith [mul_self_nonneg (q a j - q b (j + 1)), mul_self_nonneg (q a (j + 1) - q b j)]
    calc _ ≤ |e j| * 1 := mul_le_mul_of_nonneg_left this (abs_nonneg _)
      _ = _ := mul_one _

/-! ## The loops -/

theorem split_spec (negl : ℝ → ℝ → Bool) (s : QL) : ∀ fuel j,
    j ≤ split negl s fuel j ∧ split negl s fuel j ≤ j + fuel ∧
    (∀ k, j ≤ k → k < split negl s fuel j → negl (s.neben k) (|s.diag k| + |s.diag (k + 1)|) = false) ∧
    (split negl s fuel j < j + fuel →
      negl (s.neben (split negl s fuel j)) (|s.diag (split negl s fuel j)| + |s.diag (split negl s fuel j + 1)|) = true)
  | 0, j => ⟨le_rfl, le_rfl, fun k h1 h2 => absurd (lt_of_le_of_lt h1 h2) (lt_irrefl _),
      fun h => absurd h (lt_irrefl _)⟩
  | fuel + 1, j => by
    by_cases h : negl (s.neben j) (|s.diag j| + |s.diag (j + 1)|) = true
    · have e : split negl s (fuel + 1) j = j := by rw [split, if_pos h]
      rw [e]
      exact ⟨le_rfl, by omega, fun k h1 h2 => absurd (lt_of_le_of_lt h1 h2) (lt_irrefl _), fun _ => h⟩
    · have e : split negl s (fuel + 1) j = split negl s fuel (j + 1) := by rw [split, if_neg h]
      obtain ⟨h1, h2, h3, h4⟩ := split_spec negl s fuel (j + 1)
      rw [e]
      refine ⟨by omega, by omega, fun k hk1 hk2 => ?_, fun hlt => h4 (by omega)⟩
      rcases Nat.eq_or_lt_of_le hk1 with rfl | hlt
      · simpa using h
      · exact h3 k hlt hk2

/-- What holds whenever index `i` is begun or continued: up to `m` dropped entries the matrix is in tridiagonal form
from `i` on and diagonal before. -/
structure Inv (n : Nat) (C : Mat) (eps : ℝ) (i m : Nat) (s : QL) : Prop where
  ortho : Ortho n s.mq
  last : s.neben (n - 1) = 0
  near : ∃ A : Mat, Tri n A s.diag (mask i n s.neben) s.mq ∧ frobSq n A ≤ frobSq n C ∧
    ∀ a b, a < n → b < n → |A a b - C a b| ≤ m * (eps * (2 * Real.sqrt (frobSq n C)))

theorem Inv.mono {n : Nat} {C : Mat} {eps : ℝ} (he : 0 ≤ eps) {i m m' : Nat} {s : QL} (h : Inv n C eps i m s) (hm : m ≤ m') :
    Inv n C eps i m' s := by
  obtain ⟨A, h1, h2, h3⟩ := h.near
  refine ⟨h.ortho, h.last, A, h1, h2, fun a b ha hb => (h3 a b ha hb).trans ?_⟩
  refine mul_le_mul_of_nonneg_right (by exact_mod_cast hm) ?_
  have := Real.sqrt_nonneg (frobSq n C)
  positivity

theorem mask_last {n i : Nat} {f : Nat → ℝ} (h : f (n - 1) = 0) : mask i n f (n - 1) = 0 := by
  unfold mask
  split
  · rfl
  · exact h

/-- Dropping an entry that is negligible. -/
theorem inv_drop {n : Nat} {C : Mat} {eps : ℝ} {i m : Nat} {s : QL} (h : Inv n C eps i m s) (he : 0 ≤ eps) {j : Nat}
    (hij : i ≤ j) (hj : j + 1 < n) (hs : |s.neben j| ≤ eps * (|s.diag j| + |s.diag (j + 1)|)) {e' : Nat → ℝ}
    (h0 : e' j = 0) (hne : ∀ x, x ≠ j → x < n → e' x = mask i n s.neben x) :
    ∃ A : Mat, Tri n A s.diag e' s.mq ∧ frobSq n A ≤ frobSq n C ∧
      ∀ a b, a < n → b < n → |A a b - C a b| ≤ (m + 1 : Nat) * (eps * (2 * Real.sqrt (frobSq n C))) := by
  obtain ⟨A, h1, h2, h3⟩ := h.near
  have hl := mask_last (i := i) h.last
  obtain ⟨A', g1, g2, g3⟩ := drop h.ortho h1 hl hj h0 hne
  refine ⟨A', g1, g2.trans h2, fun a b ha hb => ?_⟩
  have em : mask i n s.neben j = s.neben j := if_neg (by omega)
  have d1 := diag_le h.ortho h1 hl (x := j) (by omega)
  have d2 := diag_le h.ortho h1 hl hj
  have hsq := Real.sqrt_le_sqrt h2
  have hdrop : |mask i n s.neben j| ≤ eps * (2 * Real.sqrt (frobSq n C)) := by
    rw [em]
    refine hs.trans (mul_le_mul_of_nonneg_left ?_ he)
    linarith
  have t := abs_sub_le (A' a b) (A a b) (C a b)
  have := g3 a b ha hb
  have := h3 a b ha hb
  push_cast
  linarith

/-- The test for a negligible number is passed by zero and by numbers up to `eps` times the sum of the others only. -/
structure NeglOk (eps : ℝ) (negl : ℝ → ℝ → Bool) : Prop where
  nonneg : 0 ≤ eps
  small : ∀ e t, 0 ≤ t → negl e t = true → |e| ≤ eps * t

theorem inv_sweep {n : Nat} {C : Mat} {eps : ℝ} {negl : ℝ → ℝ → Bool} (hN : NeglOk eps negl) {i m : Nat} {s : QL}
    (h : Inv n C eps i m s) (hi : i < n) (hne : split negl s (n - 1 - i) i ≠ i) :
    Inv n C eps i (m + 1) (sweep i (split negl s (n - 1 - i) i) s) := by
  obtain ⟨s1, s2, _, s4⟩ := split_spec negl s (n - 1 - i) i
  generalize split negl s (n - 1 - i) i = j at *
  have hmask : ∃ A : Mat, Tri n A s.diag (mask i j s.neben) s.mq ∧ frobSq n A ≤ frobSq n C ∧
      ∀ a b, a < n → b < n → |A a b - C a b| ≤ (m + 1 : Nat) * (eps * (2 * Real.sqrt (frobSq n C))) := by
    by_cases hj : j + 1 < n
    · refine inv_drop h hN.nonneg s1 hj (hN.small _ _ (by positivity) (s4 (by omega))) (if_pos (Or.inr rfl)) fun x hx hxn => ?_
      unfold mask
      by_cases hxi : x < i
      · rw [if_pos (Or.inl hxi), if_pos (Or.inl hxi)]
      · rw [if_neg (by omega), if_neg (by omega)]
    · obtain ⟨A, h1, h2, h3⟩ := (h.mono hN.nonneg (Nat.le_succ m)).near
      have hjn : j = n - 1 := by omega
      have e : ∀ x, x < n → mask i j s.neben x = mask i n s.neben x := fun x hx => by
        unfold mask
        by_cases hxi : x < i
        · rw [if_pos (Or.inl hxi), if_pos (Or.inl hxi)]
        · by_cases hxj : x = j
          · rw [if_pos (Or.inr hxj), if_neg (by omega), hxj, hjn, h.last]
          · rw [if_neg (by omega), if_neg (by omega)]
      refine ⟨A, fun a x ha hx => ?_, h2, h3⟩
      rw [h1 a x ha hx, e x hx]
      have : prev (mask i j s.neben) x = prev (mask i n s.neben) x := by
        cases x with
        | zero => rfl
        | succ x => exact e x (by omega)
      rw [this]
  obtain ⟨A, h1, h2, h3⟩ := hmask
  obtain ⟨g1, g2⟩ := sweep_tri (by omega) (by omega) h.ortho h1
  refine ⟨g1, ?_, A, g2, h2, h3⟩
  show put (put _ i _) j 0 (n - 1) = 0
  unfold put
  by_cases hj : n - 1 = j
  · rw [if_pos hj]
  · rw [if_neg hj, if_neg (by omega)]
    rw [rotateDown_keep _ _ _ _ (Or.inr (by omega))]
    exact h.last

theorem inv_next {n : Nat} {C : Mat} {eps : ℝ} {negl : ℝ → ℝ → Bool} (hN : NeglOk eps negl) {i m : Nat} {s : QL}
    (h : Inv n C eps i m s) (hi : i < n) (he : split negl s (n - 1 - i) i = i) : Inv n C eps (i + 1) (m + 1) s := by
  obtain ⟨_, _, _, s4⟩ := split_spec negl s (n - 1 - i) i
  rw [he] at s4
  by_cases hj : i + 1 < n
  · refine ⟨h.ortho, h.last, inv_drop h hN.nonneg le_rfl hj (hN.small _ _ (by positivity) (s4 (by omega)))
      (if_pos (Or.inl (by omega))) fun x hx hxn => ?_⟩
    unfold mask
    by_cases hxi : x < i
    · rw [if_pos (by omega), if_pos (by omega)]
    · rw [if_neg (by omega), if_neg (by omega)]
  · obtain ⟨A, h1, h2, h3⟩ := (h.mono hN.nonneg (Nat.le_succ m)).near
    have e : ∀ x, x < n → mask (i + 1) n s.neben x = mask i n s.neben x := fun x hx => by
      unfold mask
      by_cases hxi : x < i
      · rw [if_pos (by omega), if_pos (by omega)]
      · rw [if_pos (by omega), if_neg (by omega), show x = n - 1 by omega, h.last]
    refine ⟨h.ortho, h.last, A, fun a x ha hx => ?_, h2, h3⟩
    rw [h1 a x ha hx, e x hx]
    have : prev (mask (i + 1) n s.neben) x = prev (mask i n s.neben) x := by
      cases x with
      | zero => rfl
      | succ x => exact e x (by omega)
    rw [this]

/-- How the inner loop ends. -/
def EndOk (negl : ℝ → ℝ → Bool) (n : Nat) (C : Mat) (eps : ℝ) (maxIter i m iter : Nat) : QLEnd → Prop
  | .done s iter' => iter ≤ iter' ∧ iter' ≤ max iter maxIter ∧ Inv n C eps (i + 1) (m + (iter' - iter) + 1) s
  | .cut s => iter ≤ maxIter ∧ Inv n C eps i (m + (maxIter - iter)) s ∧ split negl s (n - 1 - i) i ≠ i

theorem inner_ok {n : Nat} {C : Mat} {eps : ℝ} {negl : ℝ → ℝ → Bool} (hN : NeglOk eps negl) {maxIter i : Nat} (hi : i < n) :
    ∀ (k : Nat) (s : QL) (iter m : Nat), maxIter - iter = k → iter ≤ maxIter → Inv n C eps i m s →
      EndOk negl n C eps maxIter i m iter (qlInner negl n maxIter i s iter) := by
  intro k
  induction k with
  | zero =>
    intro s iter m hk hle h
    rw [qlInner]
    split
    · rename_i hj
      exact ⟨le_rfl, le_max_left _ _, by simpa using inv_next hN h hi hj⟩
    · rename_i hj
      rw [if_pos (by omega)]
      exact ⟨hle, by rw [hk]; exact h, hj⟩
  | succ k ih =>
    intro s iter m hk hle h
    rw [qlInner]
    split
    · rename_i hj
      exact ⟨le_rfl, le_max_left _ _, by simpa using inv_next hN h hi hj⟩
    · rename_i hj
      rw [if_neg (by omega)]
      have := ih (sweep i (split negl s (n - 1 - i) i) s) (iter + 1) (m + 1) (by omega) (by omega) (inv_sweep hN h hi hj)
      revert this
      generalize qlInner negl n maxIter i (sweep i (split negl s (n - 1 - i) i) s) (iter + 1) = r
      cases r with
      | done t it =>
        rintro ⟨r1, r2, r3⟩
        refine ⟨by omega, by omega, ?_⟩
        rw [show m + (it - iter) + 1 = m + 1 + (it - (iter + 1)) + 1 by omega]
        exact r3
      | cut t =>
        rintro ⟨r1, r2, r3⟩
        refine ⟨by omega, ?_, r3⟩
        rw [show m + (maxIter - iter) = m + 1 + (maxIter - (iter + 1)) by omega]
        exact r2

/-- How the algorithm ends: all indices are finished; or the limit was reached between two indices; or the limit was
reached within an index `i`. -/
def Outcome (negl : ℝ → ℝ → Bool) (n : Nat) (C : Mat) (eps : ℝ) (maxIter : Nat) (r : Nat × QL) : Prop :=
  (r.1 ≤ maxIter ∧ Inv n C eps n (r.1 + n) r.2) ∨
  (r.1 = maxIter ∧ ∃ i, i < n ∧ Inv n C eps i (r.1 + i) r.2) ∨
  (r.1 = maxIter - 1 ∧ ∃ i, i < n ∧ Inv n C eps i (maxIter + i) r.2 ∧ split negl r.2 (n - 1 - i) i ≠ i)

theorem outer_ok {n : Nat} {C : Mat} {eps : ℝ} {negl : ℝ → ℝ → Bool} (hN : NeglOk eps negl) {maxIter : Nat} :
    ∀ (left : Nat) (s : QL) (iter : Nat), left ≤ n → iter ≤ maxIter → Inv n C eps (n - left) (iter + (n - left)) s →
      Outcome negl n C eps maxIter (qlOuter negl n maxIter left s iter)
  | 0, s, iter, _, hle, h => Or.inl ⟨hle, by simpa [qlOuter] using h⟩
  | left + 1, s, iter, hl, hle, h => by
    rw [qlOuter]
    by_cases hlt : iter < maxIter
    · rw [if_pos hlt]
      have hin := inner_ok hN (i := n - (left + 1)) (by omega) _ s iter _ rfl hle h
      revert hin
      generalize qlInner negl n maxIter (n - (left + 1)) s iter = r
      cases r with
      | done t it =>
        rintro ⟨r1, r2, r3⟩
        refine outer_ok hN left t it (by omega) (by omega) ?_
        rw [show n - left = n - (left + 1) + 1 by omega, show it + (n - (left + 1) + 1) =
          iter + (n - (left + 1)) + (it - iter) + 1 by omega]
        exact r3
      | cut t =>
        rintro ⟨r1, r2, r3⟩
        refine Or.inr (Or.inr ⟨rfl, n - (left + 1), by omega, ?_, r3⟩)
        rw [show maxIter + (n - (left + 1)) = iter + (n - (left + 1)) + (maxIter - iter) by omega]
        exact r2
    · rw [if_neg hlt]
      exact Or.inr (Or.inl ⟨show iter = maxIter by omega, n - (left + 1), by omega, h⟩)

end Paradiseo.Eig
