/-
Helper lemmas for the selectors.
-/
import Mathlib.Tactic.Ring
import Mathlib.Tactic.Linarith
import Mathlib.Tactic.FieldSimp
import Mathlib.Tactic.NormNum
import Mathlib.Algebra.Order.Floor.Ring
import Mathlib.Algebra.Order.BigOperators.Group.List
import Mathlib.Data.List.Perm.Subperm
import Mathlib.Data.Nat.ModEq
import Verif.Model.EOSelect
import Verif.Lemmas.EOOperators

namespace Paradiseo.Sel

open Paradiseo.EO (Err HowMany)
open Paradiseo.Ops (rnd rd swapL)

variable {F : Type*} [Field F] [LinearOrder F] [IsStrictOrderedRing F]

/-! ### Wheels -/

theorem wheelLoop_ok {w : List F} {x : F} {i j : Nat} (hx : 0 < x) (h : wheelLoop w x i = .ok j) :
    ∃ k, k < w.length ∧ j = i + k ∧ (∀ m ≤ k, (w.take m).sum < x) ∧ x ≤ (w.take (k + 1)).sum := by
  induction w generalizing x i with
  | nil => simp [wheelLoop, hx] at h
  | cons a w ih =>
    simp only [wheelLoop, hx, if_true] at h
    by_cases hxa : 0 < x - a
    · obtain ⟨k, h1, h2, h3, h4⟩ := ih hxa h
      refine ⟨k + 1, by simpa using h1, by omega, fun m hm => ?_, ?_⟩
      · cases m with
        | zero => simpa using hx
        | succ m =>
          have := h3 m (by omega)
          simp only [List.take_succ_cons, List.sum_cons]
          linarith
      · simp only [List.take_succ_cons, List.sum_cons]
        linarith
    · have hj : j = i := by
        cases w <;> simp [wheelLoop, hxa, stepBack] at h <;> exact h.symm
      refine ⟨0, by simp, by omega, fun m hm => ?_, ?_⟩
      · obtain rfl : m = 0 := by omega
        simpa using hx
      · simp only [List.take_succ_cons, List.sum_cons, List.take_zero, List.sum_nil]
        linarith

theorem wheelLoop_total {w : List F} {x : F} {i : Nat} (hx : 0 < x) (h : x ≤ w.sum) :
    ∃ j, wheelLoop w x i = .ok j := by
  induction w generalizing x i with
  | nil => simp at h; linarith
  | cons a w ih =>
    simp only [wheelLoop, hx, if_true]
    by_cases hxa : 0 < x - a
    · exact ih hxa (by simp at h; linarith)
    · exact ⟨i, by cases w <;> simp [wheelLoop, hxa, stepBack]⟩

theorem wheelLoop_err {w : List F} {x : F} {i : Nat}
    (h : ∀ m ≤ w.length, (w.take m).sum < x) : wheelLoop w x i = .error .ub := by
  have hx : 0 < x := by simpa using h 0 (Nat.zero_le _)
  induction w generalizing x i with
  | nil => simp [wheelLoop, hx]
  | cons a w ih =>
    simp only [wheelLoop, hx, if_true]
    have h' : ∀ m ≤ w.length, (w.take m).sum < x - a := fun m hm => by
      have := h (m + 1) (by simpa using hm)
      simp only [List.take_succ_cons, List.sum_cons] at this
      linarith
    exact ih h' (by simpa using h' 0 (Nat.zero_le _))

theorem rngWheelLoop_ok {w : List F} {x : F} {i j : Nat} (hx : 0 ≤ x)
    (h : rngWheelLoop w x i = .ok j) :
    ∃ k, k < w.length ∧ j = i + k ∧ (∀ m ≤ k, (w.take m).sum ≤ x) ∧ x < (w.take (k + 1)).sum := by
  induction w generalizing x i with
  | nil => simp [rngWheelLoop, hx] at h
  | cons a w ih =>
    simp only [rngWheelLoop, hx, if_true] at h
    by_cases hxa : 0 ≤ x - a
    · obtain ⟨k, h1, h2, h3, h4⟩ := ih hxa h
      refine ⟨k + 1, by simpa using h1, by omega, fun m hm => ?_, ?_⟩
      · cases m with
        | zero => simpa using hx
        | succ m =>
          have := h3 m (by omega)
          simp only [List.take_succ_cons, List.sum_cons]
          linarith
      · simp only [List.take_succ_cons, List.sum_cons]
        linarith
    · have hj : j = i := by
        cases w <;> simp only [rngWheelLoop, hxa, stepBack, if_false] at h <;> simp at h <;>
          exact h.symm
      refine ⟨0, by simp, by omega, fun m hm => ?_, ?_⟩
      · obtain rfl : m = 0 := by omega
        simpa using hx
      · simp only [List.take_succ_cons, List.sum_cons, List.take_zero, List.sum_nil]
        linarith

theorem rngWheelLoop_total {w : List F} {x : F} {i : Nat} (hx : 0 ≤ x) (h : x < w.sum) :
    ∃ j, rngWheelLoop w x i = .ok j := by
  induction w generalizing x i with
  | nil => simp at h; linarith
  | cons a w ih =>
    simp only [rngWheelLoop, hx, if_true]
    by_cases hxa : 0 ≤ x - a
    · exact ih hxa (by simp at h; linarith)
    · exact ⟨i, by cases w <;> simp only [rngWheelLoop, hxa, stepBack, if_false] <;> simp⟩

theorem rngWheelLoop_err {w : List F} {x : F} {i : Nat}
    (h : ∀ m ≤ w.length, (w.take m).sum ≤ x) : rngWheelLoop w x i = .error .ub := by
  have hx : 0 ≤ x := by simpa using h 0 (Nat.zero_le _)
  induction w generalizing x i with
  | nil => simp [rngWheelLoop, hx]
  | cons a w ih =>
    simp only [rngWheelLoop, hx, if_true]
    have h' : ∀ m ≤ w.length, (w.take m).sum ≤ x - a := fun m hm => by
      have := h (m + 1) (by simpa using hm)
      simp only [List.take_succ_cons, List.sum_cons] at this
      linarith
    exact ih h' (by simpa using h' 0 (Nat.zero_le _))

omit [IsStrictOrderedRing F] in
/-- Partial sums of non-negative weights grow. -/
theorem sum_take_mono [IsStrictOrderedRing F] {w : List F} (hw : ∀ a ∈ w, 0 ≤ a) {m k : Nat}
    (h : m ≤ k) : (w.take m).sum ≤ (w.take k).sum := by
  obtain ⟨d, rfl⟩ := Nat.exists_eq_add_of_le h
  rw [List.take_add, List.sum_append]
  have : 0 ≤ ((w.drop m).take d).sum :=
    List.sum_nonneg fun a ha => hw a (List.mem_of_mem_drop (List.mem_of_mem_take ha))
  linarith

theorem sum_take_succ' {w : List F} {i : Nat} (h : i < w.length) :
    (w.take (i + 1)).sum = (w.take i).sum + w[i] := by
  rw [List.take_succ_eq_append_getElem h, List.sum_append]
  simp

theorem sum_take_le {w : List F} (hw : ∀ a ∈ w, 0 ≤ a) (m : Nat) : (w.take m).sum ≤ w.sum := by
  by_cases h : m ≤ w.length
  · have := sum_take_mono hw h
    simpa using this
  · rw [List.take_of_length_le (by omega)]

/-! ### Cumulated weights -/

omit [LinearOrder F] [IsStrictOrderedRing F] in
theorem cumulate_length (acc : F) (l : List F) : (cumulate acc l).length = l.length := by
  induction l generalizing acc with
  | nil => rfl
  | cons x l ih => simp [cumulate, ih]

omit [LinearOrder F] [IsStrictOrderedRing F] in
theorem cumulate_get (acc : F) (l : List F) (i : Nat) (h : i < (cumulate acc l).length) :
    (cumulate acc l)[i] = acc + (l.take (i + 1)).sum := by
  induction l generalizing acc i with
  | nil => simp [cumulate] at h
  | cons x l ih =>
    cases i with
    | zero => simp [cumulate]
    | succ i =>
      have h' : i < (cumulate (acc + x) l).length := by simpa [cumulate] using h
      have : (cumulate acc (x :: l))[i + 1] = (cumulate (acc + x) l)[i] := rfl
      rw [this, ih _ _ h']
      simp only [List.take_succ_cons, List.sum_cons]
      ring

omit [LinearOrder F] [IsStrictOrderedRing F] in
theorem cumulate_last {l : List F} (h : l ≠ []) (acc : F) :
    (cumulate acc l).getLast? = some (acc + l.sum) := by
  have hl : 0 < l.length := List.length_pos_iff.mpr h
  rw [List.getLast?_eq_getElem?, cumulate_length, List.getElem?_eq_getElem (by
    rw [cumulate_length]; omega), cumulate_get]
  congr 2
  rw [List.take_of_length_le (by omega)]

theorem cumulate_sorted {l : List F} (hl : ∀ a ∈ l, 0 ≤ a) (acc : F) :
    (cumulate acc l).Pairwise (· ≤ ·) := by
  rw [List.pairwise_iff_getElem]
  intro i j hi hj hij
  rw [cumulate_get, cumulate_get]
  have := sum_take_mono hl (show i + 1 ≤ j + 1 by omega)
  linarith

omit [IsStrictOrderedRing F] in
theorem upperBound_sorted {cum : List F} (h : cum.Pairwise (· ≤ ·)) (x : F) :
    upperBound cum x = .ok (cum.findIdx fun c => decide (x < c)) := by
  unfold upperBound
  rw [if_pos]
  induction cum with
  | nil => simp
  | cons a l ih =>
    rw [List.pairwise_cons] at h
    by_cases ha : a ≤ x
    · simpa [List.dropWhile_cons, ha] using ih h.2
    · simp only [List.dropWhile_cons, ha, decide_false, Bool.false_eq_true, if_false, List.all_cons,
        Bool.and_eq_true, decide_eq_true_eq, List.all_eq_true]
      exact ⟨lt_of_not_ge ha, fun c hc => lt_of_lt_of_le (lt_of_not_ge ha) (h.1 c hc)⟩

/-- The position of the slot of `x`. -/
theorem findIdx_slot {w : List F} (hw : ∀ a ∈ w, 0 ≤ a) {x : F} (h0 : 0 ≤ x) {i : Nat}
    (hi : i < w.length) :
    ((cumulate 0 w).findIdx fun c => decide (x < c)) = i ↔
      (w.take i).sum ≤ x ∧ x < (w.take (i + 1)).sum := by
  have hlen := cumulate_length (0 : F) w
  rw [List.findIdx_eq (by omega)]
  simp only [cumulate_get, zero_add, decide_eq_true_eq, decide_eq_false_iff_not, not_lt]
  constructor
  · rintro ⟨h1, h2⟩
    refine ⟨?_, h1⟩
    cases i with
    | zero => simpa using h0
    | succ i => exact h2 i (by omega)
  · rintro ⟨h1, h2⟩
    exact ⟨h2, fun j hj => (sum_take_mono hw (by omega)).trans h1⟩

theorem findIdx_lt {w : List F} {x : F} (h : x < w.sum) (hne : w ≠ []) :
    ((cumulate 0 w).findIdx fun c => decide (x < c)) < w.length := by
  rw [← cumulate_length (0 : F) w, List.findIdx_lt_length]
  refine ⟨0 + w.sum, ?_, by simpa using h⟩
  exact List.mem_of_getLast? (cumulate_last hne 0)

/-! ### Stochastic universal sampling -/

/-- First place whose cumulated weight is not smaller than `p`. -/
def place (w : List F) (p : F) : Nat := (cumulate 0 w).findIdx fun c => decide (p ≤ c)

theorem place_lt {w : List F} {p : F} (h : p < w.sum) (hne : w ≠ []) : place w p < w.length := by
  unfold place
  rw [← cumulate_length (0 : F) w, List.findIdx_lt_length]
  exact ⟨0 + w.sum, List.mem_of_getLast? (cumulate_last hne 0), by simpa using h.le⟩

theorem susAdvance_eq {w : List F} {p : F} {i : Nat} (hi : i ≤ place w p)
    (hp : place w p < w.length) : susAdvance (cumulate 0 w) p i = .ok (place w p) := by
  have hlen := cumulate_length (0 : F) w
  have h1 := (List.findIdx_eq (p := fun c => decide (p ≤ c)) (xs := cumulate 0 w)
    (i := place w p) (by omega)).mp rfl
  unfold susAdvance
  have : List.findIdx? (fun c => decide (p ≤ c)) ((cumulate 0 w).drop i) = some (place w p - i) := by
    rw [List.findIdx?_eq_some_iff_getElem]
    refine ⟨by rw [List.length_drop]; omega, ?_, fun j hj => ?_⟩
    · rw [List.getElem_drop]
      have e : i + (place w p - i) = place w p := by omega
      simp only [e]
      exact h1.1
    · rw [List.getElem_drop]
      have := h1.2 (i + j) (by omega)
      rw [this]
      decide
  rw [this]
  simp only [Except.ok.injEq]
  omega

/-- The pointer after `p`. -/
def nextPtr (T step p : F) : F := if T ≤ p + step then p + step - T else p + step

/-- The pointers from `p` on. -/
def ptr (T step p : F) : Nat → F
  | 0 => p
  | m + 1 => ptr T step (nextPtr T step p) m

omit [IsStrictOrderedRing F] in
theorem place_mono {w : List F} {p q : F} (h : p ≤ q) : place w p ≤ place w q := by
  unfold place
  apply List.findIdx_le_findIdx
  intro c _ hc
  simp only [decide_eq_true_eq] at *
  exact h.trans hc

omit [IsStrictOrderedRing F] in
theorem place_eq {w : List F} {p : F} (h : ∀ c ∈ cumulate 0 w, p ≠ c) :
    place w p = (cumulate 0 w).findIdx fun c => decide (p < c) := by
  unfold place
  apply le_antisymm
  · apply List.findIdx_le_findIdx
    intro c _ hc
    simp only [decide_eq_true_eq] at *
    exact hc.le
  · apply List.findIdx_le_findIdx
    intro c hm hc
    simp only [decide_eq_true_eq] at *
    exact lt_of_le_of_ne hc (h c hm)

theorem susLoop_eq {w : List F} {step : F} (hne : w ≠ []) (hs : 0 < step) (hsT : step ≤ w.sum)
    (k : Nat) (p : F) (i : Nat) (hp0 : 0 ≤ p) (hp : p < w.sum) (hi : i ≤ place w p) :
    susLoop (cumulate 0 w) w.sum step k p i =
      .ok ((List.range k).map fun m => place w (ptr w.sum step p m)) := by
  induction k generalizing p i with
  | zero => rfl
  | succ k ih =>
    simp only [susLoop, susAdvance_eq hi (place_lt hp hne)]
    have hr : (List.range (k + 1)).map (fun m => place w (ptr w.sum step p m)) =
        place w p :: (List.range k).map (fun m => place w (ptr w.sum step (nextPtr w.sum step p) m)) := by
      rw [List.range_succ_eq_map, List.map_cons, List.map_map]
      rfl
    rw [hr]
    by_cases hw : w.sum ≤ p + step
    · simp only [hw, if_true]
      rw [ih (p + step - w.sum) 0 (by linarith) (by linarith) (Nat.zero_le _)]
      simp [nextPtr, hw]
    · simp only [hw, if_false]
      rw [ih (p + step) (place w p) (by linarith) (by linarith) (place_mono (by linarith))]
      simp [nextPtr, hw]

/-- Closed form of the pointers: `n` steps make a turn. -/
theorem ptr_eq {T step φ : F} {n : Nat} (hn : 0 < n) (hT : T = n * step) (hs : 0 < step)
    (h0 : 0 ≤ φ) (h1 : φ < step) (m q : Nat) (hq : q < n) :
    ptr T step (φ + q * step) m = φ + ((q + m) % n : Nat) * step := by
  induction m generalizing q with
  | zero => simp [ptr, Nat.mod_eq_of_lt hq]
  | succ m ih =>
    simp only [ptr, nextPtr]
    by_cases h : q + 1 < n
    · have hle : ((q : F) + 1) + 1 ≤ n := by exact_mod_cast h
      rw [if_neg (by rw [hT]; nlinarith)]
      have := ih (q + 1) h
      push_cast at this
      have e : φ + q * step + step = φ + ((q : F) + 1) * step := by ring
      rw [e, this]
      congr 4
      omega
    · have hqn : q + 1 = n := by omega
      have hqn' : (q : F) + 1 = n := by exact_mod_cast hqn
      rw [if_pos (by rw [hT, ← hqn']; nlinarith)]
      have := ih 0 hn
      have e : φ + q * step + step - T = φ + ((0 : Nat) : F) * step := by
        rw [hT, ← hqn']; push_cast; ring
      rw [e, this]
      congr 3
      rw [← hqn, show q + (m + 1) = 0 + m + (q + 1) by omega, Nat.add_mod_right]

/-- The shifts modulo `n` are a permutation. -/
theorem shift_perm (n q : Nat) (hn : 0 < n) :
    ((List.range n).map fun m => (q + m) % n).Perm (List.range n) := by
  have hnd : ((List.range n).map fun m => (q + m) % n).Nodup := by
    rw [List.nodup_map_iff_inj_on List.nodup_range]
    intro a ha b hb hab
    rw [List.mem_range] at ha hb
    have h1 : a % n = b % n := Nat.ModEq.add_left_cancel' q hab
    rwa [Nat.mod_eq_of_lt ha, Nat.mod_eq_of_lt hb] at h1
  have hsub : ((List.range n).map fun m => (q + m) % n) ⊆ List.range n := by
    intro x hx
    obtain ⟨m, _, rfl⟩ := List.mem_map.mp hx
    exact List.mem_range.mpr (Nat.mod_lt _ hn)
  exact (List.subperm_of_subset hnd hsub).perm_of_length_le (by simp)

theorem countP_range (n A B : Nat) :
    (List.range n).countP (fun j => decide (A ≤ j ∧ j < B)) = min B n - min A n := by
  induction n with
  | zero => simp
  | succ n ih =>
    rw [List.range_succ, List.countP_append, ih]
    by_cases h : A ≤ n ∧ n < B
    · simp [h]; omega
    · simp [h]; omega

theorem floor_ceil_diff {G : Type*} [Field G] [LinearOrder G] [IsStrictOrderedRing G] [FloorRing G]
    (a b : G) : ⌈b⌉ - ⌈a⌉ = ⌊b - a⌋ ∨ ⌈b⌉ - ⌈a⌉ = ⌈b - a⌉ := by
  have h1 := Int.le_ceil a
  have h2 := Int.ceil_lt_add_one a
  have h3 := Int.le_ceil b
  have h4 := Int.ceil_lt_add_one b
  have h5 := Int.floor_le (b - a)
  have h6 := Int.lt_floor_add_one (b - a)
  have h7 := Int.le_ceil (b - a)
  have h8 := Int.ceil_lt_add_one (b - a)
  have h9 : (⌈b⌉ - ⌈a⌉ : Int) < ⌊b - a⌋ + 2 := by
    have : ((⌈b⌉ - ⌈a⌉ : Int) : G) < ((⌊b - a⌋ + 2 : Int) : G) := by push_cast; linarith
    exact_mod_cast this
  have h10 : (⌊b - a⌋ - 1 : Int) < ⌈b⌉ - ⌈a⌉ := by
    have : ((⌊b - a⌋ - 1 : Int) : G) < ((⌈b⌉ - ⌈a⌉ : Int) : G) := by push_cast; linarith
    exact_mod_cast this
  have h11 : (⌈b⌉ - ⌈a⌉ : Int) < ⌈b - a⌉ + 1 := by
    have : ((⌈b⌉ - ⌈a⌉ : Int) : G) < ((⌈b - a⌉ + 1 : Int) : G) := by push_cast; linarith
    exact_mod_cast this
  by_cases h : (⌈b⌉ - ⌈a⌉ : Int) = ⌊b - a⌋
  · exact .inl h
  · right
    have h12 : ⌈b - a⌉ ≤ ⌊b - a⌋ + 1 := Int.ceil_le_floor_add_one _
    omega

end Paradiseo.Sel
