import Verif.Model.RealToInt
import Verif.Props.EOBounds
/-
C277: operators on real vectors used for integer vectors.

The specification speaks of nearest integers within the bounds (`Legal`, `NearestIn`), not of the rounding and
truncating of the code.
-/
namespace Paradiseo.RealToInt

open Paradiseo.EO Paradiseo.Bounds

variable {F : Type} [Field F] [LinearOrder F] [IsStrictOrderedRing F] [FloorRing F]

/-- An integer is within the bounds. -/
def Legal : Bound Int → Int → Prop
  | .none, _ => True
  | .interval lo hi, n => lo ≤ n ∧ n ≤ hi
  | .below lo, n => lo ≤ n
  | .above hi, n => n ≤ hi

/-- An `int`. -/
def IsInt (n : Int) : Prop := -(2 ^ 31 : Int) ≤ n ∧ n < 2 ^ 31

/-- Bounds that can be built, with limits that are of type `int`. -/
def GoodBound : Bound Int → Prop
  | .none => True
  | .interval lo hi => IsInt lo ∧ IsInt hi ∧ lo < hi
  | .below lo => IsInt lo
  | .above hi => IsInt hi

/-- No integer within the bounds is nearer to `x`. -/
def NearestIn (b : Bound Int) (x : F) (n : Int) : Prop := Legal b n ∧ ∀ m, Legal b m → |x - n| ≤ |x - m|

/-! ### Rounding -/

theorem round_near (x : F) : |x - roundZ x| ≤ 1 / 2 := by
  unfold roundZ
  split
  · have h1 := Int.floor_le (x + 1 / 2)
    have h2 := Int.lt_floor_add_one (x + 1 / 2)
    rw [abs_le]
    constructor <;> linarith
  · have h1 := Int.le_ceil (x - 1 / 2)
    have h2 := Int.ceil_lt_add_one (x - 1 / 2)
    rw [abs_le]
    constructor <;> linarith

theorem round_unique {x : F} {n : Int} (h : |x - n| < 1 / 2) : roundZ x = n := by
  have h1 := round_near x
  rw [abs_lt] at h
  rw [abs_le] at h1
  have h2 : ((roundZ x - n : Int) : F) < 1 := by push_cast; linarith
  have h3 : (-1 : F) < ((roundZ x - n : Int) : F) := by push_cast; linarith
  have h4 : roundZ x - n < 1 := by exact_mod_cast h2
  have h5 : -1 < roundZ x - n := by exact_mod_cast h3
  omega

theorem round_int (n : Int) : roundZ (n : F) = n := round_unique (by simp)

/-- A half is rounded away from zero. -/
theorem round_half (n : Nat) : roundZ ((n : F) + 1 / 2) = n + 1 ∧ roundZ (-((n : F) + 1 / 2)) = -(n + 1) := by
  have hn : (0 : F) ≤ n := Nat.cast_nonneg n
  constructor
  · unfold roundZ
    rw [if_pos (by linarith), show (n : F) + 1 / 2 + 1 / 2 = ((n + 1 : Int) : F) by push_cast; ring, Int.floor_intCast]
  · unfold roundZ
    rw [if_neg (by linarith), show -((n : F) + 1 / 2) - 1 / 2 = ((-(n + 1) : Int) : F) by push_cast; ring,
      Int.ceil_intCast]

theorem trunc_int (n : Int) : truncZ (n : F) = n := by simp [truncZ]

theorem toInt_int {n : Int} (h : IsInt n) : toInt (n : F) = .ok n := by
  rw [toInt, trunc_int]
  exact if_pos h

theorem isIn_real (b : Bound Int) (n : Int) : (real b : Bound F).isIn (n : F) = true ↔ Legal b n := by
  rw [C61_is_in]
  cases b <;> simp [real, Bound.Mem, Legal]

/-- A nearest integer of all is no farther than any integer on the other side of a limit. -/
theorem nearest_all (x : F) (m : Int) : |x - roundZ x| ≤ |x - m| := by
  by_cases h : m = roundZ x
  · rw [h]
  · have h1 := round_near x
    have h2 : (1 : F) ≤ |(roundZ x : F) - m| := by
      have : (1 : Int) ≤ |roundZ x - m| := Int.one_le_abs (by omega)
      have : ((1 : Int) : F) ≤ ((|roundZ x - m| : Int) : F) := by exact_mod_cast this
      rw [Int.cast_abs] at this
      push_cast at this
      exact this
    have h3 : |(roundZ x : F) - m| ≤ |x - roundZ x| + |x - m| := by
      have := abs_sub_abs_le_abs_sub (x - m) (x - roundZ x)
      have e : x - ↑m - (x - ↑(roundZ x)) = (roundZ x : F) - m := by ring
      have h4 := abs_sub (x - m : F) (x - roundZ x)
      rw [e] at h4
      linarith
    linarith

theorem below_nearest {x : F} {lo : Int} (h : roundZ x < lo) : ∀ m : Int, lo ≤ m → |x - lo| ≤ |x - m| := by
  intro m hm
  have h1 := round_near x
  rw [abs_le] at h1
  have h2 : ((roundZ x + 1 : Int) : F) ≤ lo := by exact_mod_cast h
  push_cast at h2
  have h3 : (lo : F) ≤ m := by exact_mod_cast hm
  rw [abs_of_nonpos (by linarith), abs_of_nonpos (by linarith)]
  linarith

theorem above_nearest {x : F} {hi : Int} (h : hi < roundZ x) : ∀ m : Int, m ≤ hi → |x - hi| ≤ |x - m| := by
  intro m hm
  have h1 := round_near x
  rw [abs_le] at h1
  have h2 : ((hi + 1 : Int) : F) ≤ roundZ x := by exact_mod_cast h
  push_cast at h2
  have h3 : (m : F) ≤ hi := by exact_mod_cast hm
  rw [abs_of_nonneg (by linarith), abs_of_nonneg (by linarith)]
  linarith

theorem round_isInt {x : F} (h : |x| ≤ 2 ^ 31 - 1) : IsInt (roundZ x) := by
  have h1 := round_near x
  rw [abs_le] at h h1
  have h2 : ((roundZ x : Int) : F) < ((2 ^ 31 : Int) : F) := by push_cast; linarith
  have h3 : (((-(2 ^ 31) : Int)) : F) < roundZ x := by push_cast; linarith
  have h4 : roundZ x < 2 ^ 31 := by exact_mod_cast h2
  have h5 : -(2 ^ 31) < roundZ x := by exact_mod_cast h3
  exact ⟨by omega, h4⟩

/-! ### One gene -/

theorem atom_legal {b : Bound Int} {w : Repair} {u x : F} (h : Legal b (roundZ x)) (hx : IsInt (roundZ x)) :
    atom b w u x = .ok (roundZ x) := by
  rw [atom, repair.eq_def, if_pos ((isIn_real b _).2 h)]
  exact toInt_int hx

theorem atom_truncate {b : Bound Int} {u x : F} (hb : GoodBound b) (hx : |x| ≤ 2 ^ 31 - 1) :
    ∃ n, atom b .truncate u x = .ok n ∧ NearestIn b x n := by
  have hr := round_isInt hx
  by_cases hl : Legal b (roundZ x)
  · exact ⟨_, atom_legal hl hr, hl, fun m _ => nearest_all x m⟩
  · have h1 : atom b .truncate u x = toInt ((real b).trunc ((roundZ x : Int) : F)) := by
      rw [atom, repair.eq_def, if_neg (by rw [isIn_real]; exact hl)]
    cases b with
    | none => exact absurd trivial hl
    | interval lo hi =>
      by_cases hlo : roundZ x < lo
      · refine ⟨lo, ?_, ⟨le_rfl, hb.2.2.le⟩, fun m hm => below_nearest hlo m hm.1⟩
        have : ((roundZ x : Int) : F) < lo := by exact_mod_cast hlo
        rw [h1, real, Bound.trunc, if_pos this, toInt_int hb.1]
      · have hhi : hi < roundZ x := by
          by_contra hcon
          exact hl ⟨by omega, by omega⟩
        refine ⟨hi, ?_, ⟨hb.2.2.le, le_rfl⟩, fun m hm => above_nearest hhi m hm.2⟩
        have h2 : ¬ ((roundZ x : Int) : F) < lo := by exact_mod_cast hlo
        have h3 : (hi : F) < (roundZ x : Int) := by exact_mod_cast hhi
        rw [h1, real, Bound.trunc, if_neg h2, if_pos h3, toInt_int hb.2.1]
    | below lo =>
      have hlo : roundZ x < lo := not_le.1 hl
      refine ⟨lo, ?_, le_refl lo, fun m hm => below_nearest hlo m hm⟩
      have : ((roundZ x : Int) : F) < lo := by exact_mod_cast hlo
      rw [h1, real, Bound.trunc, if_pos this, toInt_int hb]
    | above hi =>
      have hhi : hi < roundZ x := not_le.1 hl
      refine ⟨hi, ?_, le_refl hi, fun m hm => above_nearest hhi m hm⟩
      have : (hi : F) < (roundZ x : Int) := by exact_mod_cast hhi
      rw [h1, real, Bound.trunc, if_pos this, toInt_int hb]

theorem atom_folds {lo hi : Int} {u x : F} (hb : GoodBound (.interval lo hi)) (hu0 : 0 ≤ u) (hu1 : u < 1)
    (hx : |x| ≤ 2 ^ 31 - 1) :
    ∃ n, atom (.interval lo hi) .folds u x = .ok n ∧ lo ≤ n ∧ n ≤ hi ∧
      (|roundZ x| ≤ 10 ^ 9 → ∃ k : Int, n = roundZ x + 2 * k * (hi - lo) ∨ n = 2 * hi - roundZ x + 2 * k * (hi - lo)) := by
  have hr := round_isInt hx
  obtain ⟨⟨l1, l2⟩, ⟨g1, g2⟩, hlh⟩ := hb
  by_cases hl : Legal (.interval lo hi) (roundZ x)
  · exact ⟨_, atom_legal hl hr, hl.1, hl.2, fun _ => ⟨0, Or.inl (by ring)⟩⟩
  · obtain ⟨j, e, h1, h2, h3⟩ := C61_fold_integer (u := u) hlh hu0 hu1 (i := roundZ x)
      (by have := hr.2; omega) (by have := hr.1; omega)
    refine ⟨j, ?_, h1, h2, h3⟩
    rw [atom, repair, if_neg (by rw [isIn_real]; exact hl)]
    rw [foldLong, if_neg (by omega)] at e
    simp only [real, Bound.fold]
    rcases hf : foldInterval (lo : F) (hi : F) u ((roundZ x : Int) : F) with er | y
    · rw [hf] at e; exact absurd e (by simp)
    · rw [hf] at e
      injection e with e
      simp only
      rw [toInt, e, if_pos ⟨by omega, by omega⟩]

/-! ### The loop -/

theorem fold_error {b : Bound F} {u x : F} {e : Err} (h : b.fold u x = .error e) : e = .ub := by
  have hd : ∀ {a c : F} {e : Err}, longDiv a c = .error e → e = .ub := by
    intro a c e h
    rw [longDiv] at h
    split at h
    · injection h with h; exact h.symm
    · split at h
      · exact absurd h (by simp)
      · injection h with h; exact h.symm
  have hlow : ∀ {lo hi r : F} {e : Err}, foldLow lo hi r = .error e → e = .ub := by
    intro lo hi r e h
    rw [foldLow] at h
    split at h
    · split at h
      · rename_i h'
        injection h with h
        rw [← h]
        exact hd h'
      · split at h <;> exact absurd h (by simp)
    · exact absurd h (by simp)
  cases b with
  | none => exact absurd h (by simp [Bound.fold])
  | below lo => rw [Bound.fold] at h; split at h <;> exact absurd h (by simp)
  | above hi => rw [Bound.fold] at h; split at h <;> exact absurd h (by simp)
  | interval lo hi =>
    rw [Bound.fold, foldInterval] at h
    split at h
    · exact absurd h (by simp)
    · split at h
      · rename_i h'
        injection h with h
        rw [← h]
        rw [foldHigh] at h'
        split at h'
        · split at h'
          · rename_i h''
            injection h' with h'
            rw [← h']
            exact hd h''
          · split at h' <;> exact absurd h' (by simp)
        · exact absurd h' (by simp)
      · exact hlow h

theorem atom_error {b : Bound Int} {w : Repair} {u x : F} {e : Err} (h : atom b w u x = .error e) : e = .ub := by
  rw [atom] at h
  split at h
  · rename_i h'
    injection h with h
    rw [← h]
    rw [repair.eq_def] at h'
    split at h'
    · exact absurd h' (by simp)
    · cases w with
      | truncate => exact absurd h' (by simp)
      | folds => exact fold_error h'
  · rw [toInt] at h
    split at h
    · exact absurd h (by simp)
    · injection h with h; exact h.symm

theorem writeBack_longer {b : Bound Int} {w : Repair} {u : Nat → F} : ∀ (i : Nat) (s : List Int) (v : List F),
    s.length < v.length → writeBack b w u i s v = .error .ub
  | _, _, [], h => absurd h (by simp)
  | _, [], _ :: _, _ => rfl
  | i, a :: s, x :: v, h => by
    have ih := writeBack_longer (b := b) (w := w) (u := u) (i + 1) s v (by simpa using h)
    rw [writeBack]
    rcases ha : atom b w (u i) x with e | n
    · simp only; rw [atom_error ha]
    · simp only [ih]

theorem writeBack_spec {b : Bound Int} {w : Repair} {u : Nat → F} (P : F → Int → Prop) :
    ∀ (i : Nat) (s : List Int) (v : List F), v.length ≤ s.length →
      (∀ j, ∀ x ∈ v, ∃ n, atom b w (u j) x = .ok n ∧ P x n) →
      ∃ s', writeBack b w u i s v = .ok s' ∧ List.Forall₂ P v (s'.take v.length) ∧
        s'.drop v.length = s.drop v.length ∧ s'.length = s.length
  | _, s, [], _, _ => ⟨s, by cases s <;> rfl, by simp, rfl, rfl⟩
  | _, [], _ :: _, h, _ => absurd h (by simp)
  | i, a :: s, x :: v, h, hv => by
    obtain ⟨n, h1, h2⟩ := hv i x (by simp)
    obtain ⟨s', h3, h4, h5, h6⟩ := writeBack_spec P (i + 1) s v (by simpa using h) fun j y hy => hv j y (by simp [hy])
    refine ⟨n :: s', ?_, ?_, ?_, by simp [h6]⟩
    · rw [writeBack, h1]; simp only [h3]
    · simp only [List.length_cons, List.take_succ_cons]
      exact List.Forall₂.cons h2 h4
    · simpa using h5

theorem allIn_iff (b : Bound Int) (s : List Int) : allIn F b s = true ↔ ∀ n ∈ s, Legal b n := by
  rw [allIn, List.all_eq_true]
  exact forall_congr' fun n => forall_congr' fun _ => isIn_real b n

/-! ### C277 -/

/-- Variation with truncation: when the real operator says it changed the vector and gives one of the same length,
every new gene is the nearest integer within the bounds. -/
theorem C277_truncate {b : Bound Int} (hb : GoodBound b) {u : Nat → F} {op : List F → List F × Bool} {s : List Int}
    (hs : ∀ n ∈ s, Legal b n) (hc : (op (reals s)).2 = true)
    (hl : (op (reals s)).1.length = s.length)
    (hx : ∀ x ∈ (op (reals s)).1, |x| ≤ 2 ^ 31 - 1) :
    ∃ s', monOp b .truncate u op s = .ok (s', true) ∧
      List.Forall₂ (NearestIn b) (op (reals s)).1 s' := by
  obtain ⟨s', h1, h2, -, h4⟩ := writeBack_spec (b := b) (w := .truncate) (u := u) (NearestIn b) 0 s
    (op (reals s)).1 hl.le fun j x h => atom_truncate hb (hx x h)
  refine ⟨s', ?_, ?_⟩
  · rw [monOp, if_pos ((allIn_iff b s).2 hs)]
    simp only [hc, if_true, h1]
  · rwa [hl, ← h4, List.take_length] at h2

/-- Variation with folding into an interval: every new gene is within the bounds, and a mirror image of the nearest
integer if that is at most 10^9. -/
theorem C277_folds {lo hi : Int} (hb : GoodBound (.interval lo hi)) {u : Nat → F} (hu : ∀ i, 0 ≤ u i ∧ u i < 1)
    {op : List F → List F × Bool} {s : List Int} (hs : ∀ n ∈ s, lo ≤ n ∧ n ≤ hi)
    (hc : (op (reals s)).2 = true) (hl : (op (reals s)).1.length = s.length)
    (hx : ∀ x ∈ (op (reals s)).1, |x| ≤ 2 ^ 31 - 1) :
    ∃ s', monOp (.interval lo hi) .folds u op s = .ok (s', true) ∧
      List.Forall₂ (fun (x : F) (n : Int) => lo ≤ n ∧ n ≤ hi ∧ ∃ m : Int, |x - m| ≤ 1 / 2 ∧
        (|m| ≤ 10 ^ 9 → ∃ k : Int, n = m + 2 * k * (hi - lo) ∨ n = 2 * hi - m + 2 * k * (hi - lo)))
        (op (reals s)).1 s' := by
  obtain ⟨s', h1, h2, -, h4⟩ := writeBack_spec (b := .interval lo hi) (w := .folds) (u := u)
    (fun (x : F) (n : Int) => lo ≤ n ∧ n ≤ hi ∧ ∃ m : Int, |x - m| ≤ 1 / 2 ∧
        (|m| ≤ 10 ^ 9 → ∃ k : Int, n = m + 2 * k * (hi - lo) ∨ n = 2 * hi - m + 2 * k * (hi - lo))) 0 s
    (op (reals s)).1 hl.le fun j x h => by
      obtain ⟨n, e, a1, a2, a3⟩ := atom_folds hb (hu j).1 (hu j).2 (hx x h)
      exact ⟨n, e, a1, a2, roundZ x, round_near x, a3⟩
  refine ⟨s', ?_, ?_⟩
  · rw [monOp, if_pos ((allIn_iff (.interval lo hi) s).2 hs)]
    simp only [hc, if_true, h1]
  · rwa [hl, ← h4, List.take_length] at h2

/-- When the real operator says that nothing changed, nothing does, whatever it did to the real vector. -/
theorem C277_unchanged {b : Bound Int} {w : Repair} {u : Nat → F} {op : List F → List F × Bool} {s : List Int}
    (hs : ∀ n ∈ s, Legal b n) (hc : (op (reals s)).2 = false) : monOp b w u op s = .ok (s, false) := by
  rw [monOp, if_pos ((allIn_iff b s).2 hs)]
  simp [hc]

/-- Moves of less than one half are lost by rounding, yet the vector is reported as changed. -/
theorem C277_small_moves {b : Bound Int} {w : Repair} {u : Nat → F} {op : List F → List F × Bool} {s : List Int}
    (hs : ∀ n ∈ s, Legal b n) (hi : ∀ n ∈ s, IsInt n) (hc : (op (reals s)).2 = true)
    (hm : List.Forall₂ (fun (x : F) (n : Int) => |x - n| < 1 / 2) (op (reals s)).1 s) :
    monOp b w u op s = .ok (s, true) := by
  have key : ∀ (i : Nat) (v : List F) (s : List Int), (∀ n ∈ s, Legal b n) → (∀ n ∈ s, IsInt n) →
      List.Forall₂ (fun (x : F) (n : Int) => |x - n| < 1 / 2) v s → writeBack b w u i s v = .ok s := by
    intro i v s hs hi hm
    induction hm generalizing i with
    | nil => rfl
    | @cons x n v s hxn _ ih =>
      have hr : roundZ x = n := round_unique hxn
      have ha : atom b w (u i) x = .ok n := by
        rw [← hr]
        exact atom_legal (by rw [hr]; exact hs n (by simp)) (by rw [hr]; exact hi n (by simp))
      rw [writeBack, ha]
      simp only [ih (i + 1) (fun m hm => hs m (by simp [hm])) (fun m hm => hi m (by simp [hm]))]
  rw [monOp, if_pos ((allIn_iff b s).2 hs)]
  simp only [hc, if_true, key 0 _ s hs hi hm]

/-- A real operator that makes the vector longer writes beyond the integer vector; one that makes it shorter leaves
the genes at the end as they were, instead of removing them. -/
theorem C277_sizes {b : Bound Int} (hb : GoodBound b) {u : Nat → F} {op : List F → List F × Bool} {s : List Int}
    (hs : ∀ n ∈ s, Legal b n) (hc : (op (reals s)).2 = true) :
    (s.length < (op (reals s)).1.length → ∀ w, monOp b w u op s = .error .ub) ∧
    ((op (reals s)).1.length ≤ s.length → (∀ x ∈ (op (reals s)).1, |x| ≤ 2 ^ 31 - 1) →
      ∃ s', monOp b .truncate u op s = .ok (s', true) ∧ s'.length = s.length ∧
        s'.drop (op (reals s)).1.length = s.drop (op (reals s)).1.length) := by
  constructor
  · intro hl w
    rw [monOp, if_pos ((allIn_iff b s).2 hs)]
    simp only [hc, if_true, writeBack_longer 0 s _ hl]
  · intro hl hx
    obtain ⟨s', h1, -, h3, h4⟩ := writeBack_spec (b := b) (w := .truncate) (u := u) (NearestIn b) 0 s
      (op (reals s)).1 hl fun j x h => atom_truncate hb (hx x h)
    refine ⟨s', ?_, h4, h3⟩
    rw [monOp, if_pos ((allIn_iff b s).2 hs)]
    simp only [hc, if_true, h1]

/-- Genes out of bounds at the start trip an assertion, in all three. -/
theorem C277_asserted {b : Bound Int} {w : Repair} {u u' : Nat → F} {op : List F → List F × Bool}
    {op2 : List F → List F → (List F × List F) × Bool} {ini : List F → List F} {s t : List Int} {n : Int}
    (hn : n ∈ s) (hb : ¬ Legal b n) :
    monOp b w u op s = .error .asserted ∧ quadOp b w u u' op2 s t = .error .asserted ∧
      quadOp b w u u' op2 t s = .error .asserted ∧ initOp b w u ini s = .error .asserted := by
  have h : ¬ allIn F b s = true := by
    rw [allIn_iff]
    exact fun h => hb (h n hn)
  rw [Bool.not_eq_true] at h
  refine ⟨?_, ?_, ?_, ?_⟩
  · rw [monOp, h]; rfl
  · rw [quadOp, h]; rfl
  · rw [quadOp, h, Bool.and_false]; rfl
  · rw [initOp, h]; rfl

/-- The same for two vectors. -/
theorem C277_quad {b : Bound Int} (hb : GoodBound b) {u u' : Nat → F}
    {op : List F → List F → (List F × List F) × Bool} {s t : List Int}
    (hs : ∀ n ∈ s, Legal b n) (ht : ∀ n ∈ t, Legal b n) {v w : List F} {ch : Bool}
    (ho : op (reals s) (reals t) = ((v, w), ch))
    (hv : v.length = s.length) (hw : w.length = t.length)
    (hx : ∀ x ∈ v ++ w, |x| ≤ 2 ^ 31 - 1) :
    ∃ s' t', quadOp b .truncate u u' op s t = .ok ((s', t'), ch) ∧
      (ch = false → s' = s ∧ t' = t) ∧
      (ch = true → List.Forall₂ (NearestIn b) v s' ∧ List.Forall₂ (NearestIn b) w t') := by
  have hall : (allIn F b s && allIn F b t) = true := by
    rw [(allIn_iff b s).2 hs, (allIn_iff b t).2 ht]; rfl
  cases ch with
  | false =>
    refine ⟨s, t, ?_, fun _ => ⟨rfl, rfl⟩, by simp⟩
    rw [quadOp, if_pos hall, ho]
    simp
  | true =>
    obtain ⟨s', h1, h2, -, h4⟩ := writeBack_spec (b := b) (w := .truncate) (u := u) (NearestIn b) 0 s v hv.le
      fun j x h => atom_truncate hb (hx x (by simp [h]))
    obtain ⟨t', g1, g2, -, g4⟩ := writeBack_spec (b := b) (w := .truncate) (u := u') (NearestIn b) 0 t w hw.le
      fun j x h => atom_truncate hb (hx x (by simp [h]))
    refine ⟨s', t', ?_, by simp, fun _ => ⟨?_, ?_⟩⟩
    · rw [quadOp, if_pos hall, ho]
      simp only [if_true, h1, g1]
    · rwa [hv, ← h4, List.take_length] at h2
    · rwa [hw, ← g4, List.take_length] at g2

/-- Initialisation: the vector gets the size of the real one and every gene is the nearest integer within the
bounds; what it held before has no influence, but must have been within the bounds. -/
theorem C277_init {b : Bound Int} (hb : GoodBound b) {u : Nat → F} {v : List F} {s : List Int}
    (hs : ∀ n ∈ s, Legal b n) (hx : ∀ x ∈ v, |x| ≤ 2 ^ 31 - 1) :
    ∃ s', initOp b .truncate u (fun _ => v) s = .ok s' ∧ List.Forall₂ (NearestIn b) v s' := by
  have hl : (s.take v.length ++ List.replicate (v.length - s.length) (0 : Int)).length = v.length := by
    simp only [List.length_append, List.length_take, List.length_replicate]
    omega
  obtain ⟨s', h1, h2, -, h4⟩ := writeBack_spec (b := b) (w := .truncate) (u := u) (NearestIn b) 0 _ v hl.ge
    fun j x h => atom_truncate hb (hx x h)
  refine ⟨s', ?_, ?_⟩
  · rw [initOp, if_pos ((allIn_iff b s).2 hs)]
    exact h1
  · rw [hl] at h4
    rwa [← h4, List.take_length] at h2

example : GoodBound (.interval (-3) 4) := by unfold GoodBound IsInt; decide
example : ∀ n ∈ ([-3, 0, 4] : List Int), Legal (.interval (-3) 4) n := by unfold Legal; decide
example : monOp (.interval 0 3) .truncate (fun _ => 0)
    (fun v : List ℚ => (v.map (· + 5 / 2), true)) [0, 1] = .ok ([3, 3], true) := by decide +kernel
example : monOp (.interval 0 3) .folds (fun _ => 0)
    (fun v : List ℚ => (v.map (· + 5 / 2), true)) [0, 1] = .ok ([3, 2], true) := by decide +kernel
example : monOp .none .truncate (fun _ => 0)
    (fun v : List ℚ => (v.map (· + 1 / 3), true)) [0, 1] = .ok ([0, 1], true) := by decide +kernel

end Paradiseo.RealToInt
