import Verif.Model.ESOps
import Verif.Props.EOBounds
import Mathlib.Tactic.Ring
import Mathlib.Tactic.Linarith
import Mathlib.Tactic.Positivity
import Mathlib.Tactic.FieldSimp
import Mathlib.Tactic.LinearCombination

namespace Paradiseo.Bounds

theorem longDiv_ok_lt {F : Type*} [Field F] [LinearOrder F] [IsStrictOrderedRing F] [FloorRing F] {a b : F}
    (ha : 0 ≤ a) (hb : 0 < b) {i : Int} (h : longDiv a b = .ok i) : a < 2 ^ 63 * b := by
  unfold longDiv at h
  rw [if_neg hb.ne'] at h
  split at h
  · rename_i hc
    rw [truncZ_nonneg (div_nonneg ha hb.le), Int.floor_lt, div_lt_iff₀ hb] at hc
    have := hc.2
    norm_num at this ⊢
    exact this
  · simp at h

/-- Whenever folding into a proper interval returns, it returns a number of the interval. -/
theorem fold_ok_mem {F : Type*} [Field F] [LinearOrder F] [IsStrictOrderedRing F] [FloorRing F] {lo hi w x y : F}
    (hlh : lo < hi) (hw : 0 ≤ w ∧ w < 1) (h : (Bound.interval lo hi).fold w x = .ok y) :
    (Bound.interval lo hi).Mem y := by
  by_cases hx : |x| ≤ 10 ^ 9
  · by_cases hin : (Bound.interval lo hi).Mem x
    · rw [C61_fold_inside _ hin hx] at h
      simp only [Except.ok.injEq] at h
      subst h
      exact hin
    · have hr : 0 < 2 * (hi - lo) := by linarith
      have h' := h
      simp only [Bound.fold, foldInterval, not_lt.mpr hx, if_false] at h'
      have bounds : x - lo < 2 ^ 63 * (2 * (hi - lo)) ∧ hi - x < 2 ^ 63 * (2 * (hi - lo)) := by
        by_cases hhi : hi < x
        · have e : ∃ i, longDiv (x - lo) (2 * (hi - lo)) = .ok i := by
            cases hl : longDiv (x - lo) (2 * (hi - lo)) with
            | ok i => exact ⟨i, rfl⟩
            | error e => simp [foldHigh, hhi, hl] at h'
          obtain ⟨i, e⟩ := e
          exact ⟨longDiv_ok_lt (by linarith) hr e, by
            have : (0 : F) ≤ 2 ^ 63 * (2 * (hi - lo)) := by positivity
            linarith⟩
        · have hlo : x < lo := by
            by_contra hc
            exact hin ⟨not_lt.1 hc, not_lt.1 hhi⟩
          have e : ∃ i, longDiv (hi - x) (2 * (hi - lo)) = .ok i := by
            cases hl : longDiv (hi - x) (2 * (hi - lo)) with
            | ok i => exact ⟨i, rfl⟩
            | error e => simp [foldHigh, foldLow, hhi, hlo, hl] at h'
          obtain ⟨i, e⟩ := e
          exact ⟨by
            have : (0 : F) ≤ 2 ^ 63 * (2 * (hi - lo)) := by positivity
            linarith, longDiv_ok_lt (by linarith) hr e⟩
      obtain ⟨y', e, m, _⟩ := C61_fold_interval (u := w) hlh hx bounds.1 bounds.2
      rw [e] at h
      simp only [Except.ok.injEq] at h
      subst h
      exact m
  · obtain ⟨e, m⟩ := C61_fold_far hlh.le hw.1 hw.2 (not_le.1 hx)
    rw [e] at h
    simp only [Except.ok.injEq] at h
    subst h
    exact m

end Paradiseo.Bounds

namespace Paradiseo.ES

open Paradiseo.EO (Err)
open Paradiseo.Bounds (Bound truncZ)

section field
variable {F : Type*} [Field F] [LinearOrder F] [IsStrictOrderedRing F]

theorem mem_iff (b : Bound F) (x : F) :
    b.Mem x ↔ (∀ lo, lo? b = some lo → lo ≤ x) ∧ (∀ hi, hi? b = some hi → x ≤ hi) := by
  cases b <;> simp [Bound.Mem, lo?, hi?]

/-- A point between two numbers. -/
theorem between {a b u : F} (h0 : 0 ≤ u) (h1 : u ≤ 1) (h : a ≤ b) :
    a ≤ a + (b - a) * u ∧ a + (b - a) * u ≤ b := by
  have := mul_nonneg (sub_nonneg.2 h) h0
  have := mul_nonneg (sub_nonneg.2 h) (sub_nonneg.2 h1)
  constructor <;> linarith

theorem atLeast_spec (b : Bound F) {e x : F} (hx : b.Mem x) (he : e ≤ x) :
    e ≤ atLeast b e ∧ atLeast b e ≤ x ∧ ∀ lo, lo? b = some lo → lo ≤ atLeast b e := by
  have h := ((mem_iff b x).1 hx).1
  unfold atLeast
  cases hl : lo? b with
  | none => exact ⟨le_rfl, he, by simp⟩
  | some lo => exact ⟨le_max_right _ _, max_le (h lo hl) he, by simp⟩

theorem atMost_spec (b : Bound F) {e x : F} (hx : b.Mem x) (he : x ≤ e) :
    atMost b e ≤ e ∧ x ≤ atMost b e ∧ ∀ hi, hi? b = some hi → atMost b e ≤ hi := by
  have h := ((mem_iff b x).1 hx).2
  unfold atMost
  cases hl : hi? b with
  | none => exact ⟨le_rfl, he, by simp⟩
  | some hi => exact ⟨min_le_right _ _, le_min (h hi hl) he, by simp⟩

theorem uniformIn_spec (b : Bound F) {e u x : F} (he : 0 ≤ e) (h0 : 0 ≤ u) (h1 : u ≤ 1) (hx : b.Mem x) :
    b.Mem (uniformIn b e u x) ∧ |uniformIn b e u x - x| ≤ e := by
  obtain ⟨a1, a2, a3⟩ := atLeast_spec b hx (show x - e ≤ x by linarith)
  obtain ⟨b1, b2, b3⟩ := atMost_spec b hx (show x ≤ x + e by linarith)
  obtain ⟨c1, c2⟩ := between h0 h1 (a2.trans b2)
  change _ ≤ uniformIn b e u x at c1
  change uniformIn b e u x ≤ _ at c2
  refine ⟨(mem_iff _ _).2 ⟨fun lo hl => (a3 lo hl).trans c1, fun hi hh => c2.trans (b3 hi hh)⟩, ?_⟩
  rw [abs_le]
  constructor <;> linarith

theorem uniformMutFree_length (eps : F) (flip : Nat → Bool) (u : Nat → F) : ∀ (i : Nat) (xs : List F),
    (uniformMutFree eps flip u i xs).1.length = xs.length
  | _, [] => rfl
  | i, x :: xs => by simp [uniformMutFree, uniformMutFree_length eps flip u (i + 1) xs]

theorem uniformMutFree_get (eps : F) (flip : Nat → Bool) (u : Nat → F) : ∀ (i : Nat) (xs : List F) (j : Nat),
    (uniformMutFree eps flip u i xs).1[j]? = xs[j]?.map (uniformFree eps (flip (i + j)) (u (i + j)))
  | _, [], _ => by simp [uniformMutFree]
  | i, x :: xs, 0 => by simp [uniformMutFree]
  | i, x :: xs, j + 1 => by
    simp only [uniformMutFree, List.getElem?_cons_succ]
    rw [uniformMutFree_get eps flip u (i + 1) xs j, show i + 1 + j = i + (j + 1) by omega]

theorem uniformMutFree_flag (eps : F) (flip : Nat → Bool) (u : Nat → F) : ∀ (i : Nat) (xs : List F),
    ((uniformMutFree eps flip u i xs).2 = true ↔ ∃ j < xs.length, flip (i + j) = true)
  | _, [] => by simp [uniformMutFree]
  | i, x :: xs => by
    simp only [uniformMutFree, Bool.or_eq_true, uniformMutFree_flag eps flip u (i + 1) xs, List.length_cons]
    constructor
    · rintro (h | ⟨j, hj, h⟩)
      · exact ⟨0, by omega, h⟩
      · exact ⟨j + 1, by omega, by rwa [show i + (j + 1) = i + 1 + j by omega]⟩
    · rintro ⟨j, hj, h⟩
      cases j with
      | zero => exact .inl h
      | succ j => exact .inr ⟨j, by omega, by rwa [show i + 1 + j = i + (j + 1) by omega]⟩

theorem uniformMutLoop_length (flip : Nat → Bool) (u : Nat → F) : ∀ (i : Nat) (bs : List (Bound F)) (es xs : List F),
    bs.length ≤ es.length → xs.length = bs.length → (uniformMutLoop flip u i bs es xs).1.length = xs.length
  | _, [], _, [], _, _ => by simp [uniformMutLoop]
  | i, b :: bs, e :: es, x :: xs, h1, h2 => by
    simp only [List.length_cons] at h1 h2
    simp [uniformMutLoop, uniformMutLoop_length flip u (i + 1) bs es xs (by omega) (by omega)]
  | _, [], _, _ :: _, _, h => by simp at h
  | _, _ :: _, _, [], _, h => by simp at h
  | _, _ :: _, [], _ :: _, h, _ => by simp at h

theorem uniformMutLoop_get (flip : Nat → Bool) (u : Nat → F) : ∀ (i : Nat) (bs : List (Bound F)) (es xs : List F),
    bs.length ≤ es.length → xs.length = bs.length → ∀ (j : Nat) (b : Bound F) (e x : F),
    bs[j]? = some b → es[j]? = some e → xs[j]? = some x →
    (uniformMutLoop flip u i bs es xs).1[j]? =
      some (if flip (i + j) then uniformIn b e (u (i + j)) x else x)
  | _, [], _, [], _, _, _, _, _, _, h, _, _ => by simp at h
  | i, b :: bs, e :: es, x :: xs, h1, h2, j, b', e', x', hb, he, hx => by
    simp only [List.length_cons] at h1 h2
    cases j with
    | zero =>
      simp only [List.getElem?_cons_zero, Option.some.injEq] at hb he hx
      subst hb he hx
      simp [uniformMutLoop]
    | succ j =>
      simp only [List.getElem?_cons_succ] at hb he hx
      have := uniformMutLoop_get flip u (i + 1) bs es xs (by omega) (by omega) j b' e' x' hb he hx
      simp only [uniformMutLoop, List.getElem?_cons_succ]
      rw [this, show i + 1 + j = i + (j + 1) by omega]
  | _, [], _, _ :: _, _, h, _, _, _, _, _, _, _ => by simp at h
  | _, _ :: _, _, [], _, h, _, _, _, _, _, _, _ => by simp at h
  | _, _ :: _, [], _ :: _, h, _, _, _, _, _, _, _, _ => by simp at h

theorem uniformMutLoop_flag (flip : Nat → Bool) (u : Nat → F) : ∀ (i : Nat) (bs : List (Bound F)) (es xs : List F),
    bs.length ≤ es.length → xs.length = bs.length →
    ((uniformMutLoop flip u i bs es xs).2 = true ↔ ∃ j < xs.length, flip (i + j) = true)
  | _, [], _, [], _, _ => by simp [uniformMutLoop]
  | i, b :: bs, e :: es, x :: xs, h1, h2 => by
    simp only [List.length_cons] at h1 h2
    simp only [uniformMutLoop, Bool.or_eq_true,
      uniformMutLoop_flag flip u (i + 1) bs es xs (by omega) (by omega), List.length_cons]
    constructor
    · rintro (h | ⟨j, hj, h⟩)
      · exact ⟨0, by omega, h⟩
      · exact ⟨j + 1, by omega, by rwa [show i + (j + 1) = i + 1 + j by omega]⟩
    · rintro ⟨j, hj, h⟩
      cases j with
      | zero => exact .inl h
      | succ j => exact .inr ⟨j, by omega, by rwa [show i + 1 + j = i + (j + 1) by omega]⟩
  | _, [], _, _ :: _, _, h => by simp at h
  | _, _ :: _, _, [], _, h => by simp at h
  | _, _ :: _, [], _ :: _, h, _ => by simp at h

/-! ### Deterministic number of places -/

theorem detFree_length (eps : F) : ∀ (ds : List (Nat × F)) (xs : List F), (detFree eps ds xs).length = xs.length
  | [], _ => rfl
  | (l, u) :: ds, xs => by simp [detFree, detFree_length eps ds]

theorem detFree_spec (eps : F) : ∀ (ds : List (Nat × F)) (xs : List F) (j : Nat),
    (j ∉ ds.map Prod.fst → (detFree eps ds xs)[j]? = xs[j]?) ∧
    (j ∈ ds.map Prod.fst → j < xs.length →
      ∃ u ∈ ds.map Prod.snd, (detFree eps ds xs)[j]? = some (2 * eps * u - eps))
  | [], xs, j => by simp [detFree]
  | (l, u) :: ds, xs, j => by
    obtain ⟨h1, h2⟩ := detFree_spec eps ds (xs.set l (2 * eps * u - eps)) j
    refine ⟨fun h => ?_, fun h hj => ?_⟩
    · simp only [List.map_cons, List.mem_cons, not_or] at h
      simp only [detFree]
      rw [h1 h.2, List.getElem?_set_ne (by omega)]
    · simp only [detFree, List.map_cons, List.mem_cons]
      by_cases hm : j ∈ ds.map Prod.fst
      · obtain ⟨v, hv, e⟩ := h2 hm (by simpa using hj)
        exact ⟨v, .inr hv, e⟩
      · have : j = l := by
          simp only [List.map_cons, List.mem_cons] at h
          exact h.resolve_right hm
        subst this
        exact ⟨u, .inl rfl, by rw [h1 hm]; simp [hj]⟩

theorem detIn_spec (bs : List (Bound F)) (es : List F) (hes : ∀ e ∈ es, 0 ≤ e) : ∀ (ds : List (Nat × F)) (xs : List F),
    (∀ d ∈ ds, 0 ≤ d.2 ∧ d.2 ≤ 1) →
    (∀ (j : Nat) (b : Bound F) (x : F), bs[j]? = some b → xs[j]? = some x → b.Mem x) →
    (detIn bs es ds xs).length = xs.length ∧
    (∀ (j : Nat) (b : Bound F) (x : F), bs[j]? = some b → (detIn bs es ds xs)[j]? = some x → b.Mem x) ∧
    (∀ j, j ∉ ds.map Prod.fst → (detIn bs es ds xs)[j]? = xs[j]?)
  | [], xs, _, h => by simpa [detIn] using h
  | (l, u) :: ds, xs, hd, h => by
    simp only [detIn]
    split
    · rename_i b e x hb he hx
      have hu := hd (l, u) (by simp)
      have hl : l < xs.length := (List.getElem?_eq_some_iff.1 hx).1
      have hm := uniformIn_spec b (hes e (List.mem_of_getElem? he)) hu.1 hu.2 (h l b x hb hx)
      obtain ⟨i1, i2, i3⟩ := detIn_spec bs es hes ds (xs.set l (uniformIn b e u x))
        (fun d hd' => hd d (by simp [hd'])) (by
          intro j b' x' hb' hx'
          by_cases hj : j = l
          · subst hj
            rw [List.getElem?_set_self hl] at hx'
            rw [hb] at hb'
            obtain rfl := Option.some.inj hx'
            obtain rfl := Option.some.inj hb'
            exact hm.1
          · rw [List.getElem?_set_ne (by omega)] at hx'
            exact h j b' x' hb' hx')
      refine ⟨by simpa using i1, i2, fun j hj => ?_⟩
      simp only [List.map_cons, List.mem_cons, not_or] at hj
      rw [i3 j hj.2, List.getElem?_set_ne (by omega)]
    · obtain ⟨i1, i2, i3⟩ := detIn_spec bs es hes ds xs (fun d hd' => hd d (by simp [hd'])) h
      refine ⟨i1, i2, fun j hj => ?_⟩
      simp only [List.map_cons, List.mem_cons, not_or] at hj
      exact i3 j hj.2

/-! ### Segment -/

/-- What the limits must satisfy for one variable. -/
def SegOk (b : Bound F) (r1 r2 : F) (a : F × F) : Prop :=
  r1 ≠ r2 →
    (∀ lo, lo? b = some lo → lo - min r1 r2 ≤ a.1 * (max r1 r2 - min r1 r2) ∧
      a.2 * (max r1 r2 - min r1 r2) ≤ max r1 r2 - lo) ∧
    (∀ hi, hi? b = some hi → max r1 r2 - hi ≤ a.1 * (max r1 r2 - min r1 r2) ∧
      a.2 * (max r1 r2 - min r1 r2) ≤ hi - min r1 r2)

theorem len_pos {r1 r2 : F} (h : r1 ≠ r2) : 0 < max r1 r2 - min r1 r2 := by
  rcases lt_or_gt_of_ne h with h | h
  · rw [max_eq_right h.le, min_eq_left h.le]; linarith
  · rw [max_eq_left h.le, min_eq_right h.le]; linarith

omit [IsStrictOrderedRing F] in
theorem segStep_mono (b : Bound F) (r1 r2 : F) (a : F × F) :
    a.1 ≤ (segStep b r1 r2 a).1 ∧ (segStep b r1 r2 a).2 ≤ a.2 := by
  unfold segStep
  split
  · exact ⟨le_rfl, le_rfl⟩
  · dsimp only
    cases lo? b <;> cases hi? b <;> simp <;> try tauto

theorem segStep_ok (b : Bound F) (r1 r2 : F) (a : F × F) : SegOk b r1 r2 (segStep b r1 r2 a) := by
  intro h
  have hl := len_pos h
  unfold segStep
  rw [if_neg h]
  dsimp only
  refine ⟨fun lo e => ?_, fun hi e => ?_⟩
  · rw [e]
    constructor
    · rw [← div_le_iff₀ hl]
      cases hi? b <;> simp
    · rw [← le_div_iff₀ hl]
      cases hi? b <;> simp
  · rw [e]
    constructor
    · rw [← div_le_iff₀ hl]
      cases lo? b <;> simp
    · rw [← le_div_iff₀ hl]
      cases lo? b <;> simp

theorem segStep_unit (b : Bound F) {r1 r2 : F} (h1 : b.Mem r1) (h2 : b.Mem r2) (a : F × F) (ha : a.1 ≤ 0)
    (hb : 1 ≤ a.2) : (segStep b r1 r2 a).1 ≤ 0 ∧ 1 ≤ (segStep b r1 r2 a).2 := by
  unfold segStep
  split
  · exact ⟨ha, hb⟩
  · rename_i h
    have hl := len_pos h
    rw [mem_iff] at h1 h2
    dsimp only
    have l1 : ∀ lo, lo? b = some lo → (lo - min r1 r2) / (max r1 r2 - min r1 r2) ≤ 0 := by
      intro lo e
      rw [div_le_iff₀ hl]
      have := le_min (h1.1 lo e) (h2.1 lo e)
      linarith
    have l2 : ∀ lo, lo? b = some lo → 1 ≤ (max r1 r2 - lo) / (max r1 r2 - min r1 r2) := by
      intro lo e
      rw [le_div_iff₀ hl]
      have := le_min (h1.1 lo e) (h2.1 lo e)
      linarith
    have l3 : ∀ hi, hi? b = some hi → (max r1 r2 - hi) / (max r1 r2 - min r1 r2) ≤ 0 := by
      intro hi e
      rw [div_le_iff₀ hl]
      have := max_le (h1.2 hi e) (h2.2 hi e)
      linarith
    have l4 : ∀ hi, hi? b = some hi → 1 ≤ (hi - min r1 r2) / (max r1 r2 - min r1 r2) := by
      intro hi e
      rw [le_div_iff₀ hl]
      have := max_le (h1.2 hi e) (h2.2 hi e)
      linarith
    cases hlo : lo? b with
    | none =>
      cases hhi : hi? b with
      | none => exact ⟨ha, hb⟩
      | some hi => exact ⟨max_le ha (l3 hi hhi), le_min hb (l4 hi hhi)⟩
    | some lo =>
      cases hhi : hi? b with
      | none => exact ⟨max_le ha (l1 lo hlo), le_min hb (l2 lo hlo)⟩
      | some hi =>
        exact ⟨max_le (max_le ha (l1 lo hlo)) (l3 hi hhi), le_min (le_min hb (l2 lo hlo)) (l4 hi hhi)⟩

omit [IsStrictOrderedRing F] in
theorem segLimits_mono : ∀ (bs : List (Bound F)) (rs : List (F × F)) (a : F × F),
    a.1 ≤ (segLimits bs rs a).1 ∧ (segLimits bs rs a).2 ≤ a.2
  | [], _, a => by simp [segLimits]
  | _ :: _, [], a => by simp [segLimits]
  | b :: bs, (r1, r2) :: rs, a => by
    obtain ⟨h1, h2⟩ := segLimits_mono bs rs (segStep b r1 r2 a)
    obtain ⟨h3, h4⟩ := segStep_mono b r1 r2 a
    exact ⟨h3.trans h1, h2.trans h4⟩

theorem SegOk.mono {b : Bound F} {r1 r2 : F} {a a' : F × F} (h : SegOk b r1 r2 a) (h1 : a.1 ≤ a'.1)
    (h2 : a'.2 ≤ a.2) : SegOk b r1 r2 a' := by
  intro hne
  have hl := (len_pos hne).le
  obtain ⟨p, q⟩ := h hne
  have m1 := mul_le_mul_of_nonneg_right h1 hl
  have m2 := mul_le_mul_of_nonneg_right h2 hl
  exact ⟨fun lo e => ⟨(p lo e).1.trans m1, m2.trans (p lo e).2⟩,
    fun hi e => ⟨(q hi e).1.trans m1, m2.trans (q hi e).2⟩⟩

theorem segLimits_spec : ∀ (bs : List (Bound F)) (rs : List (F × F)) (a : F × F), a.1 ≤ 0 → 1 ≤ a.2 →
    (∀ (j : Nat) (b : Bound F) (r : F × F), bs[j]? = some b → rs[j]? = some r → b.Mem r.1 ∧ b.Mem r.2) →
    ((segLimits bs rs a).1 ≤ 0 ∧ 1 ≤ (segLimits bs rs a).2) ∧
    ∀ (j : Nat) (b : Bound F) (r : F × F), bs[j]? = some b → rs[j]? = some r → SegOk b r.1 r.2 (segLimits bs rs a)
  | [], _, a, h1, h2, _ => by simp [segLimits, h1, h2]
  | _ :: _, [], a, h1, h2, _ => by simp [segLimits, h1, h2]
  | b :: bs, (r1, r2) :: rs, a, h1, h2, hm => by
    have hm0 := hm 0 b (r1, r2) rfl rfl
    obtain ⟨u1, u2⟩ := segStep_unit b hm0.1 hm0.2 a h1 h2
    obtain ⟨i1, i2⟩ := segLimits_spec bs rs (segStep b r1 r2 a) u1 u2
      (fun j b' r' hb hr => hm (j + 1) b' r' (by simpa using hb) (by simpa using hr))
    refine ⟨i1, fun j b' r' hb hr => ?_⟩
    cases j with
    | zero =>
      simp only [List.getElem?_cons_zero, Option.some.injEq] at hb hr
      subst hb hr
      obtain ⟨m1, m2⟩ := segLimits_mono bs rs (segStep b r1 r2 a)
      exact (segStep_ok b r1 r2 a).mono m1 m2
    | succ j => exact i2 j b' r' (by simpa using hb) (by simpa using hr)

theorem blend_mem {b : Bound F} {r1 r2 f : F} {a : F × F} (h1 : b.Mem r1) (h2 : b.Mem r2)
    (ok : SegOk b r1 r2 a) (hf1 : a.1 ≤ f) (hf2 : f ≤ a.2) :
    b.Mem (blend f r1 r2).1 ∧ b.Mem (blend f r1 r2).2 := by
  by_cases hne : r1 = r2
  · subst hne
    have e1 : f * r1 + (1 - f) * r1 = r1 := by ring
    have e2 : (1 - f) * r1 + f * r1 = r1 := by ring
    simp only [blend, e1, e2]
    exact ⟨h1, h1⟩
  · have hl := (len_pos hne).le
    obtain ⟨p, q⟩ := ok hne
    have m1 := mul_le_mul_of_nonneg_right hf1 hl
    have m2 := mul_le_mul_of_nonneg_right hf2 hl
    simp only [blend, mem_iff]
    rcases le_total r1 r2 with h | h
    · rw [max_eq_right h, min_eq_left h] at p q m1 m2
      refine ⟨⟨fun lo e => ?_, fun hi e => ?_⟩, ⟨fun lo e => ?_, fun hi e => ?_⟩⟩
      · have := p lo e; nlinarith [this.1, this.2]
      · have := q hi e; nlinarith [this.1, this.2]
      · have := p lo e; nlinarith [this.1, this.2]
      · have := q hi e; nlinarith [this.1, this.2]
    · rw [max_eq_left h, min_eq_right h] at p q m1 m2
      refine ⟨⟨fun lo e => ?_, fun hi e => ?_⟩, ⟨fun lo e => ?_, fun hi e => ?_⟩⟩
      · have := p lo e; nlinarith [this.1, this.2]
      · have := q hi e; nlinarith [this.1, this.2]
      · have := p lo e; nlinarith [this.1, this.2]
      · have := q hi e; nlinarith [this.1, this.2]

theorem blend_unit_mem {b : Bound F} {r1 r2 f : F} (h1 : b.Mem r1) (h2 : b.Mem r2) (hf1 : 0 ≤ f)
    (hf2 : f ≤ 1) : b.Mem (blend f r1 r2).1 ∧ b.Mem (blend f r1 r2).2 := by
  simp only [blend, mem_iff] at h1 h2 ⊢
  refine ⟨⟨fun lo e => ?_, fun hi e => ?_⟩, ⟨fun lo e => ?_, fun hi e => ?_⟩⟩
  · nlinarith [h1.1 lo e, h2.1 lo e]
  · nlinarith [h1.2 hi e, h2.2 hi e]
  · nlinarith [h1.1 lo e, h2.1 lo e]
  · nlinarith [h1.2 hi e, h2.2 hi e]

/-! ### Hypercube -/

/-- `x` is between the parents, the interval stretched by `alpha` on both sides. -/
def InBox (alpha r1 r2 x : F) : Prop :=
  min r1 r2 - alpha * (max r1 r2 - min r1 r2) ≤ x ∧ x ≤ max r1 r2 + alpha * (max r1 r2 - min r1 r2)

theorem cubeOne_spec {alpha : F} (ha : 0 ≤ alpha) {b : Bound F} {u u' : F} (flip : Bool) {r1 r2 : F}
    (hu : 0 ≤ u ∧ u ≤ 1) (hu' : 0 ≤ u' ∧ u' ≤ 1) (h1 : b.Mem r1) (h2 : b.Mem r2) :
    (b.Mem (cubeOne alpha b u u' flip r1 r2).1 ∧ b.Mem (cubeOne alpha b u u' flip r1 r2).2) ∧
    InBox alpha r1 r2 (cubeOne alpha b u u' flip r1 r2).1 ∧
    InBox alpha r1 r2 (cubeOne alpha b u u' flip r1 r2).2 := by
  unfold cubeOne
  split
  · rename_i h
    subst h
    refine ⟨⟨h1, h2⟩, ?_, ?_⟩ <;> simp [InBox]
  · rename_i hne
    have hl := (len_pos hne).le
    have hal := mul_nonneg ha hl
    split
    · rename_i h0
      subst h0
      have e : (1 + 2 * (0 : F)) * u = u := by ring
      rw [e]
      refine ⟨blend_unit_mem h1 h2 hu.1 hu.2, ?_, ?_⟩
      · simp only [InBox, blend]
        constructor
        · nlinarith [min_le_left r1 r2, min_le_right r1 r2, hu.1, hu.2]
        · nlinarith [le_max_left r1 r2, le_max_right r1 r2, hu.1, hu.2]
      · simp only [InBox, blend]
        constructor
        · nlinarith [min_le_left r1 r2, min_le_right r1 r2, hu.1, hu.2]
        · nlinarith [le_max_left r1 r2, le_max_right r1 r2, hu.1, hu.2]
    · have hmin : b.Mem (min r1 r2) := by rcases min_choice r1 r2 with e | e <;> rw [e] <;> assumption
      have hmax : b.Mem (max r1 r2) := by rcases max_choice r1 r2 with e | e <;> rw [e] <;> assumption
      obtain ⟨a1, a2, a3⟩ := atLeast_spec b hmin
        (show -alpha * max r1 r2 + (1 + alpha) * min r1 r2 ≤ min r1 r2 by nlinarith)
      obtain ⟨b1, b2, b3⟩ := atMost_spec b hmax
        (show max r1 r2 ≤ -alpha * min r1 r2 + (1 + alpha) * max r1 r2 by nlinarith)
      dsimp only
      generalize hA : atLeast b (-alpha * max r1 r2 + (1 + alpha) * min r1 r2) = A at a1 a2 a3 ⊢
      generalize hB : atMost b (-alpha * min r1 r2 + (1 + alpha) * max r1 r2) = B at b1 b2 b3 ⊢
      have hAB : A ≤ B := by
        have : min r1 r2 ≤ max r1 r2 := min_le_max
        linarith
      have hm1 : A ≤ (A + B) / 2 := by rw [le_div_iff₀ (by norm_num)]; linarith
      have hm2 : (A + B) / 2 ≤ B := by rw [div_le_iff₀ (by norm_num)]; linarith
      obtain ⟨c1, c2⟩ := between hu.1 hu.2 hm1
      obtain ⟨d1, d2⟩ := between hu'.1 hu'.2 hm2
      have mem : ∀ x, A ≤ x → x ≤ B → b.Mem x ∧ InBox alpha r1 r2 x := by
        intro x hx1 hx2
        refine ⟨(mem_iff _ _).2 ⟨fun lo e => (a3 lo e).trans hx1, fun hi e => hx2.trans (b3 hi e)⟩, ?_, ?_⟩
        · nlinarith
        · nlinarith
      have p := mem _ c1 (c2.trans hm2)
      have q := mem _ (hm1.trans d1) d2
      split
      · exact ⟨⟨p.1, q.1⟩, p.2, q.2⟩
      · exact ⟨⟨q.1, p.1⟩, q.2, p.2⟩

theorem cube_get {alpha : F} {u u' : Nat → F} {flip : Nat → Bool} : ∀ (i : Nat) (bs : List (Bound F)) (rs : List (F × F))
    (j : Nat) (b : Bound F) (r : F × F), bs[j]? = some b → rs[j]? = some r →
    (cube alpha u u' flip i bs rs).1[j]? =
      some (cubeOne alpha b (u (i + j)) (u' (i + j)) (flip (i + j)) r.1 r.2)
  | _, [], _, _, _, _, h, _ => by simp at h
  | _, _ :: _, [], _, _, _, _, h => by simp at h
  | i, b :: bs, (r1, r2) :: rs, 0, b', r', hb, hr => by
    simp only [List.getElem?_cons_zero, Option.some.injEq] at hb hr
    subst hb hr
    simp [cube]
  | i, b :: bs, (r1, r2) :: rs, j + 1, b', r', hb, hr => by
    simp only [List.getElem?_cons_succ] at hb hr
    simp only [cube, List.getElem?_cons_succ]
    rw [cube_get (i + 1) bs rs j b' r' hb hr, show i + 1 + j = i + (j + 1) by omega]

theorem cube_length {alpha : F} {u u' : Nat → F} {flip : Nat → Bool} : ∀ (i : Nat) (bs : List (Bound F)) (rs : List (F × F)),
    rs.length ≤ bs.length → (cube alpha u u' flip i bs rs).1.length = rs.length
  | _, [], [], _ => rfl
  | _, [], _ :: _, h => by simp at h
  | _, _ :: _, [], _ => rfl
  | i, b :: bs, (r1, r2) :: rs, h => by
    simp only [List.length_cons] at h
    simp [cube, cube_length (i + 1) bs rs (by omega)]

theorem cube_flag {alpha : F} {u u' : Nat → F} {flip : Nat → Bool} : ∀ (i : Nat) (bs : List (Bound F)) (rs : List (F × F)),
    rs.length ≤ bs.length → ((cube alpha u u' flip i bs rs).2 = true ↔ ∃ r ∈ rs, r.1 ≠ r.2)
  | _, [], [], _ => by simp [cube]
  | _, [], _ :: _, h => by simp at h
  | _, _ :: _, [], _ => by simp [cube]
  | i, b :: bs, (r1, r2) :: rs, h => by
    simp only [List.length_cons] at h
    simp [cube, cube_flag (i + 1) bs rs (by omega)]

/-! ### Uniform crossover -/

omit [Field F] [IsStrictOrderedRing F] in
theorem uxover_spec (flip : Nat → Bool) : ∀ (i : Nat) (xs ys : List F), xs.length = ys.length →
    ∃ xs' ys' c, uxover flip i xs ys = .ok (xs', ys', c) ∧ xs'.length = xs.length ∧ ys'.length = ys.length ∧
    (∀ j x y, xs[j]? = some x → ys[j]? = some y →
      xs'[j]? = some (if flip (i + j) then y else x) ∧ ys'[j]? = some (if flip (i + j) then x else y)) ∧
    (c = true ↔ xs' ≠ xs)
  | _, [], [], _ => ⟨[], [], false, rfl, rfl, rfl, by simp, by simp⟩
  | i, x :: xs, y :: ys, h => by
    simp only [List.length_cons, Nat.add_right_cancel_iff] at h
    obtain ⟨xs', ys', c, e, l1, l2, hg, hc⟩ := uxover_spec flip (i + 1) xs ys h
    cases hf : flip i with
    | true =>
      refine ⟨y :: xs', x :: ys', !decide (x = y) || c, by simp [uxover, hf, e], by simp [l1],
        by simp [l2], ?_, ?_⟩
      · intro j a b ha hb
        cases j with
        | zero =>
          simp only [List.getElem?_cons_zero, Option.some.injEq] at ha hb
          subst ha hb
          simp [hf]
        | succ j =>
          simp only [List.getElem?_cons_succ] at ha hb
          have := hg j a b ha hb
          rw [show i + 1 + j = i + (j + 1) by omega] at this
          simpa using this
      · simp only [Bool.or_eq_true, hc, ne_eq, List.cons.injEq, not_and_or, Bool.not_eq_true',
          decide_eq_false_iff_not]
        rw [show (y = x) = (x = y) from propext eq_comm]
    | false =>
      refine ⟨x :: xs', y :: ys', c, by simp [uxover, hf, e], by simp [l1], by simp [l2], ?_, ?_⟩
      · intro j a b ha hb
        cases j with
        | zero =>
          simp only [List.getElem?_cons_zero, Option.some.injEq] at ha hb
          subst ha hb
          simp [hf]
        | succ j =>
          simp only [List.getElem?_cons_succ] at ha hb
          have := hg j a b ha hb
          rw [show i + 1 + j = i + (j + 1) by omega] at this
          simpa using this
      · simp [hc]
  | _, [], _ :: _, h => by simp at h
  | _, _ :: _, [], h => by simp at h

/-! ### Recombination -/

omit [Field F] [LinearOrder F] [IsStrictOrderedRing F] in
theorem localXover_spec (op : Nat → F → F → F × Bool) : ∀ (i : Nat) (xs ys : List F), xs.length ≤ ys.length →
    ∃ zs c, localXover op i xs ys = .ok (zs, c) ∧ zs.length = xs.length ∧
    (∀ (j : Nat) (x y : F), xs[j]? = some x → ys[j]? = some y → zs[j]? = some (op (i + j) x y).1) ∧
    (c = true ↔ ∃ (j : Nat) (x y : F), xs[j]? = some x ∧ ys[j]? = some y ∧ (op (i + j) x y).2 = true)
  | _, [], _, _ => ⟨[], false, by simp [localXover], rfl, by simp, by simp⟩
  | _, _ :: _, [], h => by simp at h
  | i, x :: xs, y :: ys, h => by
    simp only [List.length_cons] at h
    obtain ⟨zs, c, e, l, hg, hc⟩ := localXover_spec op (i + 1) xs ys (by omega)
    refine ⟨(op i x y).1 :: zs, (op i x y).2 || c, by simp [localXover, e], by simp [l], ?_, ?_⟩
    · intro j a b ha hb
      cases j with
      | zero =>
        simp only [List.getElem?_cons_zero, Option.some.injEq] at ha hb
        subst ha hb
        simp
      | succ j =>
        simp only [List.getElem?_cons_succ] at ha hb ⊢
        have := hg j a b ha hb
        rwa [show i + 1 + j = i + (j + 1) by omega] at this
    · simp only [Bool.or_eq_true, hc]
      constructor
      · rintro (h | ⟨j, a, b, ha, hb, h⟩)
        · exact ⟨0, x, y, rfl, rfl, h⟩
        · exact ⟨j + 1, a, b, by simpa using ha, by simpa using hb,
            by rwa [show i + (j + 1) = i + 1 + j by omega]⟩
      · rintro ⟨j, a, b, ha, hb, h⟩
        cases j with
        | zero =>
          simp only [List.getElem?_cons_zero, Option.some.injEq] at ha hb
          subst ha hb
          exact .inl h
        | succ j =>
          exact .inr ⟨j, a, b, by simpa using ha, by simpa using hb,
            by rwa [show i + 1 + j = i + (j + 1) by omega]⟩

end field
end Paradiseo.ES
