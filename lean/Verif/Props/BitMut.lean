import Verif.Model.BitMut
import Verif.Props.EOBits
import Verif.Props.Rng
/-
C179: bit mutations that draw the number of bits to flip.
-/
namespace Paradiseo.BitMut

open Paradiseo.Ops Paradiseo.Rng
open Paradiseo.EO (Err)

theorem hamming_zero {l l' : List Bool} (hlen : l.length = l'.length) (h : hamming l l' = 0) : l = l' := by
  induction l generalizing l' with
  | nil => cases l' with
    | nil => rfl
    | cons _ _ => cases hlen
  | cons a l ih => cases l' with
    | nil => cases hlen
    | cons b l' =>
      simp only [hamming] at h
      have hab : a = b := by
        by_contra hab
        simp [hab] at h
      rw [hab, ih (by simpa using hlen) (by omega)]

theorem draw_le (ws : Nat → W) (t n : Nat) (p : ℚ) : draw ws t n p ≤ n := by
  have := (C177_binomial ((List.range n).map fun i => ws (t + i)) p).1
  simpa [draw] using this

/-- The number of words below the rate. -/
theorem draw_count (ws : Nat → W) (t n : Nat) (p : ℚ) :
    draw ws t n p = (List.range n).countP fun i => decide (((ws (t + i)).toNat : ℚ) / 4294967296 < p) := by
  have key : ∀ l : List W, binomial p l = l.countP fun w => decide ((w.toNat : ℚ) / 4294967296 < p) := by
    intro l
    induction l with
    | nil => rfl
    | cons w l ih =>
      rw [binomial, List.countP_cons, ih, Nat.add_comm]
      congr 1
      unfold Rng.flip uniform
      rw [one_mul]
  unfold draw
  rw [key, List.countP_map]
  rfl

/-- **C179** (standard).  The number of bits flipped is the number of words below the rate, all at different
positions; the flag tells whether there was one.  The rate is 1/n if none was given. -/
theorem C179_standard (ws : Nat → W) (r : Nat → Nat) (rate : ℚ) (l : List Bool) (hl : l ≠ []) :
    ∃ rate' l' b, standard ws r rate l = .ok (rate', l', b) ∧
      rate' = (if rate = 0 then 1 / (l.length : ℚ) else rate) ∧ l'.length = l.length ∧
      hamming l l' = (List.range l.length).countP
        (fun i => decide (((ws i).toNat : ℚ) / 4294967296 < rate')) ∧ (b = true ↔ l' ≠ l) := by
  have hlen : l.length ≠ 0 := by simpa using hl
  obtain ⟨l', e, h1, h2⟩ := C59_exactly_k r (draw ws 0 l.length (fixRate rate l.length)) l (draw_le _ _ _ _)
  refine ⟨fixRate rate l.length, l', _, by unfold standard; rw [if_neg hlen]; simp only; rw [e], rfl, h1, ?_, ?_⟩
  · rw [h2, draw_count]
    simp only [Nat.zero_add]
  · rw [decide_eq_true_eq, ← h2]
    constructor
    · rintro h rfl
      rw [hamming_self] at h
      omega
    · intro hne
      by_contra h0
      exact hne (hamming_zero h1.symm (by omega)).symm

/-- **C179** (the rate is kept).  Without a rate the first string decides it for all that follow: a string of
another length is not mutated with one over its own length. -/
theorem C179_rate_kept (ws ws' : Nat → W) (r r' : Nat → Nat) (l l2 : List Bool) (hl : l ≠ []) (hl2 : l2 ≠ [])
    (hne : l.length ≠ l2.length) :
    ∃ rate l' b rate2 l2' b2, standard ws r 0 l = .ok (rate, l', b) ∧
      standard ws' r' rate l2 = .ok (rate2, l2', b2) ∧ rate2 = 1 / (l.length : ℚ) ∧ rate2 ≠ 1 / (l2.length : ℚ) := by
  obtain ⟨rate, l', b, e, h1, _⟩ := C179_standard ws r 0 l hl
  obtain ⟨rate2, l2', b2, e2, h3, _⟩ := C179_standard ws' r' rate l2 hl2
  rw [if_pos rfl] at h1
  have hpos : (0 : ℚ) < l.length := by
    have := List.length_pos_iff.2 hl
    exact_mod_cast this
  have hr : rate ≠ 0 := by rw [h1]; positivity
  rw [if_neg hr, h1] at h3
  refine ⟨rate, l', b, rate2, l2', b2, e, e2, h3, ?_⟩
  rw [h3]
  intro h
  apply hne
  have := h
  rw [one_div, one_div, inv_inj] at this
  exact_mod_cast this

/-- **C179** (uniform).  A number of bits below n is flipped: never the whole string. -/
theorem C179_uniform (w : W) (r : Nat → Nat) (l : List Bool) (hl : l ≠ []) :
    ∃ l' b, uniformBits w r l = .ok (l', b) ∧ l'.length = l.length ∧ hamming l l' < l.length := by
  have hlt : random id l.length w < l.length :=
    C177_random id (fun q hq => by simp; positivity) l.length (List.length_pos_iff.2 hl) w
  obtain ⟨l', e, h1, h2⟩ := C59_exactly_k r _ l hlt.le
  exact ⟨l', _, e, h1, by rw [h2]; exact hlt⟩

theorem condLoop_pos {ws : Nat → W} {n : Nat} {p : ℚ} {fuel t k : Nat} (h : condLoop ws n p fuel t = some k) :
    0 < k ∧ k ≤ n := by
  induction fuel generalizing t with
  | zero => cases h
  | succ fuel ih =>
    unfold condLoop at h
    simp only at h
    split at h
    · exact ih h
    · cases h
      exact ⟨by omega, draw_le _ _ _ _⟩

/-- **C179** (conditional).  When it ends, at least one bit was flipped. -/
theorem C179_conditional (ws : Nat → W) (r : Nat → Nat) (fuel : Nat) (rate : ℚ) (l : List Bool) :
    match conditional ws r fuel rate l with
    | .ok (_, l', b) => l'.length = l.length ∧ 0 < hamming l l' ∧ b = true
    | .error e => e = .fuel ∨ (e = .asserted ∧ l = []) := by
  unfold conditional
  by_cases hl : l.length = 0
  · rw [if_pos hl]
    right
    exact ⟨rfl, by simpa using hl⟩
  · rw [if_neg hl]
    simp only
    cases hc : condLoop ws l.length (fixRate rate l.length) fuel 0 with
    | none => left; rfl
    | some k =>
      obtain ⟨h0, hk⟩ := condLoop_pos hc
      obtain ⟨l', e, h1, h2⟩ := C59_exactly_k r k l hk
      simp only [e]
      exact ⟨h1, by omega, by simpa using h0⟩

/-- **C179** (conditional, rate below zero).  With a negative rate it never ends. -/
theorem C179_conditional_endless (ws : Nat → W) (r : Nat → Nat) (fuel : Nat) (rate : ℚ) (l : List Bool) (hl : l ≠ [])
    (hr : rate < 0) : conditional ws r fuel rate l = .error .fuel := by
  have key : ∀ fuel t, condLoop ws l.length rate fuel t = none := by
    intro fuel
    induction fuel with
    | zero => intro t; rfl
    | succ fuel ih =>
      intro t
      unfold condLoop
      simp only
      rw [if_pos, ih]
      unfold draw
      rw [(C177_binomial _ rate).2.1 hr.le]
      omega
  unfold conditional
  rw [if_neg (by simpa using hl)]
  simp only
  have : fixRate rate l.length = rate := by unfold fixRate; rw [if_neg hr.ne]
  rw [this, key]

/-- **C179** (shifted).  At least one bit is flipped: one if none was drawn. -/
theorem C179_shifted (ws : Nat → W) (r : Nat → Nat) (rate : ℚ) (l : List Bool) (hl : l ≠ []) :
    ∃ rate' l', shifted ws r rate l = .ok (rate', l', true) ∧ l'.length = l.length ∧
      hamming l l' = max 1 ((List.range l.length).countP
        (fun i => decide (((ws i).toNat : ℚ) / 4294967296 < rate'))) := by
  have hlen : l.length ≠ 0 := by simpa using hl
  have hd := draw_le ws 0 l.length (fixRate rate l.length)
  obtain ⟨l', e, h1, h2⟩ := C59_exactly_k r
    (if draw ws 0 l.length (fixRate rate l.length) = 0 then 1 else draw ws 0 l.length (fixRate rate l.length)) l
    (by split <;> omega)
  have hpos : decide ((if draw ws 0 l.length (fixRate rate l.length) = 0 then 1 else
      draw ws 0 l.length (fixRate rate l.length)) > 0) = true := by
    rw [decide_eq_true_eq]; split <;> omega
  rw [hpos] at e
  refine ⟨_, l', by unfold shifted; rw [if_neg hlen]; simp only; rw [e], h1, ?_⟩
  have hc := draw_count ws 0 l.length (fixRate rate l.length)
  simp only [Nat.zero_add] at hc
  rw [h2, ← hc]
  split <;> omega

/-- **C179** (normal).  A deviate of at most −1 is converted to an unsigned number (undefined); otherwise fewer
than n bits are flipped: the integer part of the deviate if that is below n. -/
theorem C179_normal (z : ℚ) (w : W) (r : Nat → Nat) (l : List Bool) (hl : l ≠ []) :
    (z ≤ -1 → normalBits z w r l = .error .ub) ∧
    (-1 < z → ∃ l' b, normalBits z w r l = .ok (l', b) ∧ l'.length = l.length ∧ hamming l l' < l.length ∧
      (z < l.length → hamming l l' = ⌊z⌋.toNat)) := by
  have hlen : l.length ≠ 0 := by simpa using hl
  constructor
  · intro hz
    unfold normalBits
    rw [if_neg hlen, if_pos hz]
  · intro hz
    have hrand : random id l.length w < l.length :=
      C177_random id (fun q hq => by simp; positivity) l.length (List.length_pos_iff.2 hl) w
    have hlt : ∀ a b n : Nat, b < n → (if n ≤ a then b else a) < n := by
      intro a b n h
      split <;> omega
    have hk : (if 0 ≤ z then ⌊z⌋₊ else 0) = ⌊z⌋.toNat := by
      split
      · rfl
      · have : ⌊z⌋ ≤ 0 := by
          have : ⌊z⌋ < 0 := Int.floor_lt.2 (by push_cast; linarith)
          omega
        omega
    obtain ⟨l', e, h1, h2⟩ := C59_exactly_k r
      (if l.length ≤ (if 0 ≤ z then ⌊z⌋₊ else 0) then random id l.length w else (if 0 ≤ z then ⌊z⌋₊ else 0)) l
      (hlt _ _ _ hrand).le
    refine ⟨l', _, by unfold normalBits; rw [if_neg hlen, if_neg (by linarith)]; simp only; rw [e], h1, ?_, ?_⟩
    · rw [h2]; exact hlt _ _ _ hrand
    · intro hzn
      rw [h2, hk, if_neg]
      have : ⌊z⌋ < (l.length : Int) := Int.floor_lt.2 (by exact_mod_cast hzn)
      have : 0 < l.length := List.length_pos_iff.2 hl
      omega

theorem fastLoop_some (cnb trigger : ℚ) (n : Nat) (wts : List ℚ) (i : Nat) (cursor : ℚ)
    (hne : wts ≠ []) (hlo : cursor < trigger ∨ i = 1) (ht : trigger ≤ cursor + wts.sum / cnb) :
    ∃ j < wts.length, fastLoop cnb trigger n wts i cursor = ((i + j : Nat) : ℚ) / n ∧
      trigger ≤ cursor + (wts.take (j + 1)).sum / cnb ∧ (cursor + (wts.take j).sum / cnb < trigger ∨ i + j = 1) := by
  induction wts generalizing i cursor with
  | nil => exact absurd rfl hne
  | cons a l ih =>
    unfold fastLoop
    split
    · rename_i h
      exact ⟨0, by simp, rfl, by simpa using h, by simpa using hlo⟩
    · rename_i hlt
      have hl : l ≠ [] := by
        rintro rfl
        simp at ht hlt
        linarith
      rw [List.sum_cons, add_div, ← add_assoc] at ht
      obtain ⟨j, h1, h2, h3, h4⟩ := ih (i + 1) (cursor + a / cnb) hl (Or.inl (not_le.1 hlt)) ht
      refine ⟨j + 1, by simpa using h1, ?_, ?_, ?_⟩
      · rw [h2]; congr 2; omega
      · rw [List.take_succ_cons, List.sum_cons, add_div, ← add_assoc]; exact h3
      · rw [List.take_succ_cons, List.sum_cons, add_div, ← add_assoc]
        rcases h4 with h4 | h4
        · exact Or.inl h4
        · omega

theorem take_range_map (f : Nat → ℚ) (k n : Nat) (h : k ≤ n) :
    ((List.range n).map f).take k = (List.range k).map f := by
  rw [← List.map_take, List.take_range, Nat.min_eq_left h]

/-- **C179** (fast).  In exact arithmetic the rate is i/n where i from 1 to n/2 is the first whose cumulated
share reaches the draw; it is 1 for a single bit. -/
theorem C179_fast_rate (wt : Nat → ℚ) (hwt : ∀ i, 0 < wt i) (trigger : ℚ) (ht : trigger < 1) (n : Nat) :
    (n < 2 → fastRate wt trigger n = 1) ∧
    (2 ≤ n → ∃ i, 1 ≤ i ∧ i ≤ n / 2 ∧ fastRate wt trigger n = (i : ℚ) / n ∧
      trigger * (∑ j ∈ Finset.range (n / 2), wt (j + 1)) ≤ ∑ j ∈ Finset.range i, wt (j + 1) ∧
      (i = 1 ∨ ∑ j ∈ Finset.range (i - 1), wt (j + 1) < trigger * (∑ j ∈ Finset.range (n / 2), wt (j + 1)))) := by
  have hsum : ∀ k, ((List.range k).map fun i => wt (i + 1)).sum = ∑ j ∈ Finset.range k, wt (j + 1) := by
    intro k
    rw [← List.sum_toFinset _ List.nodup_range]
    congr 1
    ext x
    simp
  unfold fastRate
  constructor
  · intro hn
    have : n / 2 = 0 := by omega
    simp [this, fastLoop]
  · intro hn
    have hpos : 0 < ∑ j ∈ Finset.range (n / 2), wt (j + 1) := by
      apply Finset.sum_pos (fun j _ => hwt _)
      exact ⟨0, by simp; omega⟩
    have hne : ((List.range (n / 2)).map fun i => wt (i + 1)) ≠ [] := by
      intro h
      have := congrArg List.length h
      simp only [List.length_map, List.length_range, List.length_nil] at this
      omega
    obtain ⟨j, h1, h2, h3, h4⟩ := fastLoop_some ((List.range (n / 2)).map fun i => wt (i + 1)).sum trigger n _ 1 0
      hne (Or.inr rfl) (by rw [hsum, div_self hpos.ne']; linarith)
    simp only [List.length_map, List.length_range] at h1
    rw [take_range_map _ _ _ (by omega), hsum, hsum, zero_add, le_div_iff₀ hpos] at h3
    rw [take_range_map _ _ _ (by omega), hsum, hsum, zero_add, div_lt_iff₀ hpos] at h4
    refine ⟨j + 1, by omega, by omega, by rw [h2, Nat.add_comm], h3, ?_⟩
    rw [Nat.add_sub_cancel]
    rcases h4 with h4 | h4
    · exact Or.inr h4
    · exact Or.inl (by omega)

/-- **C179** (fast).  The number of bits flipped is at most n, and possibly zero. -/
theorem C179_fast (wt : Nat → ℚ) (w : W) (ws : Nat → W) (r : Nat → Nat) (l : List Bool) :
    ∃ l' b, fast wt w ws r l = .ok (l', b) ∧ l'.length = l.length ∧
      hamming l l' = (List.range l.length).countP
        (fun i => decide (((ws i).toNat : ℚ) / 4294967296 < fastRate wt ((w.toNat : ℚ) / 4294967296) l.length)) := by
  obtain ⟨l', e, h1, h2⟩ := C59_exactly_k r _ l (draw_le ws 0 l.length (fastRate wt (uniform 1 w) l.length))
  refine ⟨l', _, e, h1, ?_⟩
  rw [h2, draw_count]
  simp only [Nat.zero_add, uniform, one_mul]

/-- **C179** (buckets).  The number of bits lies in [start, end), or is `end` for an empty bucket. -/
theorem C179_bucket (lo hi c : Nat) :
    (lo < hi → lo ≤ bucketBits lo hi c ∧ bucketBits lo hi c < hi) ∧ (hi ≤ lo → bucketBits lo hi c = hi) := by
  unfold bucketBits
  constructor
  · intro h
    rw [if_pos h]
    have := Nat.mod_lt c (show 0 < hi - lo by omega)
    omega
  · intro h
    rw [if_neg (by omega)]

/-! Concrete cases. -/

/-- Words 0 and 2^31 in turn; rate 1/2: the first, third and fifth bit count. -/
example : standard (fun i => if i % 2 = 0 then 0#32 else 0x80000000#32) (fun i => i) (1 / 2)
    [true, true, true, true] = .ok (1 / 2, [false, false, true, true], true) := by decide +kernel

example : standard (fun _ => 0x80000000#32) (fun i => i) 0 [true, true, true, true] =
    .ok (1 / 4, [true, true, true, true], false) := by decide +kernel

example : shifted (fun _ => 0x80000000#32) (fun i => i) 0 [true, true, true, true] =
    .ok (1 / 4, [false, true, true, true], true) := by decide +kernel

example : fastRate (fun i => 1 / i) (1 / 3) 8 = 1 / 8 ∧ fastRate (fun i => 1 / i) (9 / 10) 8 = 4 / 8 := by
  constructor <;> norm_num [fastRate, fastLoop, List.range, List.range.loop]

end Paradiseo.BitMut
