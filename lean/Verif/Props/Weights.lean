import Verif.Lemmas.Weights
import Mathlib.Tactic.FieldSimp
import Mathlib.Tactic.NormNum
import Mathlib.Tactic.Linarith
import Mathlib.Tactic.Ring
import Mathlib.Tactic.IntervalCases
import Mathlib.Data.Rat.Lemmas
/-
C186: weights in fixed time.  C187: weights at any time; each rational weight once.
-/
namespace Paradiseo.Weights

section Fixed
variable {K : Type} [Field K] [LinearOrder K] [IsStrictOrderedRing K]

/-! ### C186 -/

theorem advance_eq (s c : K) : advance s c = min 1 ((if c = 1 then 0 else c) + s) := by
  unfold advance
  generalize (if c = 1 then 0 else c) + s = x
  split
  · rename_i h
    rw [min_eq_left (le_of_lt h)]
  · rename_i h
    rw [min_eq_right (not_lt.1 h)]

/-- `P` is the number of steps from 0 to 1. -/
def Steps (s : K) (P : Nat) : Prop := 0 < P ∧ 1 ≤ (P : K) * s ∧ ∀ j < P, (j : K) * s < 1

theorem cur_succ (s : K) (P : Nat) (h : Steps s P) (k : Nat) :
    cur s (k + 1) = min 1 (((k % P + 1 : Nat) : K) * s) := by
  obtain ⟨hP, h1, h2⟩ := h
  induction k with
  | zero =>
    show advance s 0 = _
    rw [advance_eq, if_neg zero_ne_one, Nat.zero_mod]
    simp
  | succ k ih =>
    show advance s (cur s (k + 1)) = _
    rw [advance_eq, ih]
    have hlt := Nat.mod_lt k hP
    by_cases hk : k % P + 1 = P
    · have e : (k + 1) % P = 0 := by
        by_cases hP1 : P = 1
        · subst hP1; exact Nat.mod_one _
        · rw [Nat.add_mod_eq_ite, Nat.mod_eq_of_lt (by omega : 1 < P), if_pos (by omega)]
          omega
      rw [hk, min_eq_left h1, if_pos rfl, e]
      simp
    · have e : (k + 1) % P = k % P + 1 := by
        rw [Nat.add_mod_eq_ite, Nat.mod_eq_of_lt (by omega : 1 < P), if_neg (by omega)]
      have hl := h2 (k % P + 1) (by omega)
      rw [min_eq_right hl.le, if_neg hl.ne, e]
      congr 1
      push_cast
      ring

/-- **C186** (one direction).  The first weights are (0, 1).  Then the first weight runs through the multiples of
the step up to 1, again and again; 0 does not come back. -/
theorem C186_one_direction (s : K) (P : Nat) (h : Steps s P) :
    oneDirAt s 0 = (0, 1) ∧
    (∀ k, oneDirAt s (k + 1) = (min 1 (((k % P + 1 : Nat) : K) * s), 1 - min 1 (((k % P + 1 : Nat) : K) * s))) ∧
    (∀ k, 0 ≤ (oneDirAt s k).1 ∧ (oneDirAt s k).1 ≤ 1 ∧ (oneDirAt s k).1 + (oneDirAt s k).2 = 1) ∧
    ∀ k, (oneDirAt s k).1 = 0 → k = 0 := by
  have hs : 0 < s := by
    by_contra hn
    have : (P : K) * s ≤ 0 := mul_nonpos_of_nonneg_of_nonpos (Nat.cast_nonneg P) (not_lt.1 hn)
    exact absurd h.2.1 (not_le.2 (lt_of_le_of_lt this one_pos))
  have hpos : ∀ k, 0 < cur s (k + 1) := by
    intro k
    rw [cur_succ s P h]
    exact lt_min one_pos (mul_pos (Nat.cast_pos.2 (Nat.succ_pos _)) hs)
  refine ⟨?_, ?_, ?_, ?_⟩
  · show ((0 : K), 1 - (0 : K)) = (0, 1)
    rw [sub_zero]
  · intro k
    show (cur s (k + 1), 1 - cur s (k + 1)) = _
    rw [cur_succ s P h]
  · intro k
    refine ⟨?_, ?_, ?_⟩
    · show 0 ≤ cur s k
      cases k with
      | zero => exact le_refl _
      | succ k => exact (hpos k).le
    · show cur s k ≤ 1
      cases k with
      | zero => exact zero_le_one
      | succ k => rw [cur_succ s P h]; exact min_le_left _ _
    · show cur s k + (1 - cur s k) = 1
      exact add_sub_cancel _ _
  · intro k hk
    cases k with
    | zero => rfl
    | succ k => exact absurd hk (hpos k).ne'

theorem bothState_cur (s : K) (k : Nat) : (bothState s k).current = cur s k := by
  induction k with
  | zero => rfl
  | succ k ih =>
    show advance s (bothState s k).current = advance s (cur s k)
    rw [ih]

theorem div_succ_same (k P : Nat) (hP : 0 < P) (h : k % P + 1 ≠ P) : (k + 1) / P = k / P := by
  have h1 := Nat.div_add_mod k P
  have h2 := Nat.mod_lt k hP
  rw [Nat.div_eq_iff hP]
  generalize hq : k / P = q at *
  have e : q * P = P * q := Nat.mul_comm _ _
  omega

theorem div_succ_next (k P : Nat) (hP : 0 < P) (h : k % P + 1 = P) : (k + 1) / P = k / P + 1 := by
  have h1 := Nat.div_add_mod k P
  rw [Nat.div_eq_iff hP]
  generalize hq : k / P = q at *
  have e : (q + 1) * P = P * q + P := by ring
  omega

theorem bothState_dir (s : K) (P : Nat) (h : Steps s P) (k : Nat) :
    (bothState s (k + 1)).direction = decide (k / P % 2 = 1) := by
  induction k with
  | zero =>
    have : ¬ ((0 : K) = 1) := zero_ne_one
    simp [bothState, bothDir]
  | succ k ih =>
    show (if (bothState s (k + 1)).current = 1 then !(bothState s (k + 1)).direction else (bothState s (k + 1)).direction) = _
    rw [ih, bothState_cur, cur_succ s P h]
    have hlt := Nat.mod_lt k h.1
    by_cases hk : k % P + 1 = P
    · rw [hk, min_eq_left h.2.1, if_pos rfl, div_succ_next k P h.1 hk]
      rcases Nat.mod_two_eq_zero_or_one (k / P) with e | e
      · simp [e, Nat.add_mod]
      · simp [e, Nat.add_mod]
    · have hl := h.2.2 (k % P + 1) (by omega)
      rw [min_eq_right hl.le, if_neg hl.ne, div_succ_same k P h.1 hk]

/-- **C186** (both directions).  The first weights are (1, 0).  The later ones run through the same values, on
either side in turn; the side changes when 1 is reached, not after. -/
theorem C186_both_directions (s : K) (P : Nat) (h : Steps s P) :
    bothDirAt s 0 = (1, 0) ∧
    ∀ k, bothDirAt s (k + 1) =
      if (k + 1) / P % 2 = 1 then (min 1 (((k % P + 1 : Nat) : K) * s), 1 - min 1 (((k % P + 1 : Nat) : K) * s))
      else (1 - min 1 (((k % P + 1 : Nat) : K) * s), min 1 (((k % P + 1 : Nat) : K) * s)) := by
  refine ⟨by simp [bothDirAt, bothDir, bothState], ?_⟩
  intro k
  have hd : (bothState s (k + 1 + 1)).direction = decide ((k + 1) / P % 2 = 1) := bothState_dir s P h (k + 1)
  have e : bothDirAt s (k + 1) = if (bothState s (k + 1 + 1)).direction then
      ((bothState s (k + 1)).current, 1 - (bothState s (k + 1)).current)
      else (1 - (bothState s (k + 1)).current, (bothState s (k + 1)).current) := rfl
  rw [e, hd, bothState_cur, cur_succ s P h]
  simp only [decide_eq_true_eq]

/-- **C186** (the jumps).  With at least two steps, the sweep does not turn: at the end of each sweep the first
weight jumps by all but one step, to an end of the range, and back again at the next call. -/
theorem C186_both_jump (s : K) (P : Nat) (h : Steps s P) (hP : 2 ≤ P) (j : Nat) :
    |(bothDirAt s ((j + 1) * P)).1 - (bothDirAt s ((j + 1) * P - 1)).1| = ((P - 1 : Nat) : K) * s ∧
    |(bothDirAt s ((j + 1) * P + 1)).1 - (bothDirAt s ((j + 1) * P)).1| = 1 - s := by
  obtain ⟨_, hb⟩ := C186_both_directions s P h
  have h1 : s < 1 := by simpa using h.2.2 1 (by omega)
  have hs : 0 < s := by
    by_contra hn
    have : (P : K) * s ≤ 0 := mul_nonpos_of_nonneg_of_nonpos (Nat.cast_nonneg P) (not_lt.1 hn)
    exact absurd h.2.1 (not_le.2 (lt_of_le_of_lt this one_pos))
  have hQ := h.2.2 (P - 1) (by omega)
  have hQ0 : 0 ≤ ((P - 1 : Nat) : K) * s := mul_nonneg (Nat.cast_nonneg _) hs.le
  have eA : (j + 1) * P = (P * j + (P - 1)) + 1 := by
    rw [Nat.add_mul, Nat.mul_comm j P]; omega
  have eB : (j + 1) * P - 1 = (P * j + (P - 2)) + 1 := by omega
  have mA : (P * j + (P - 1)) % P + 1 = P := by
    rw [Nat.mul_add_mod, Nat.mod_eq_of_lt (by omega)]; omega
  have mB : (P * j + (P - 2)) % P + 1 = P - 1 := by
    rw [Nat.mul_add_mod, Nat.mod_eq_of_lt (by omega)]; omega
  have mC : ((j + 1) * P) % P + 1 = 1 := by simp
  have dA : (P * j + (P - 1) + 1) / P = j + 1 := by
    rw [← eA, Nat.mul_div_cancel _ h.1]
  have dB : (P * j + (P - 2) + 1) / P = j := by
    rw [Nat.add_assoc, Nat.mul_add_div h.1, Nat.div_eq_of_lt (by omega), Nat.add_zero]
  have dC : ((j + 1) * P + 1) / P = j + 1 := by
    rw [Nat.mul_comm, Nat.mul_add_div h.1, Nat.div_eq_of_lt (by omega), Nat.add_zero]
  have hA := hb (P * j + (P - 1))
  have hB := hb (P * j + (P - 2))
  have hC := hb ((j + 1) * P)
  rw [mA, dA, min_eq_left h.2.1] at hA
  rw [mB, dB, min_eq_right hQ.le] at hB
  rw [mC, dC] at hC
  have hmin : min 1 (((1 : Nat) : K) * s) = s := by
    rw [Nat.cast_one, one_mul, min_eq_right h1.le]
  rw [hmin] at hC
  rw [hC, eB, hB, eA, hA]
  rcases Nat.mod_two_eq_zero_or_one j with e | e
  · have e2 : (j + 1) % 2 = 1 := by omega
    rw [if_pos e2, if_pos e2, if_neg (by omega)]
    refine ⟨?_, ?_⟩
    · show |(1 : K) - (1 - ((P - 1 : Nat) : K) * s)| = _
      rw [sub_sub_cancel, abs_of_nonneg hQ0]
    · show |s - 1| = 1 - s
      rw [abs_of_nonpos (by linarith)]
      ring
  · have e2 : ¬ (j + 1) % 2 = 1 := by omega
    rw [if_neg e2, if_neg e2, if_pos e]
    refine ⟨?_, ?_⟩
    · show |(1 : K) - 1 - ((P - 1 : Nat) : K) * s| = _
      rw [sub_self, zero_sub, abs_neg, abs_of_nonneg hQ0]
    · show |1 - s - (1 - 1)| = 1 - s
      rw [sub_self, sub_zero, abs_of_nonneg (by linarith)]

example : Steps (3/10 : ℚ) 4 := by
  refine ⟨by norm_num, by norm_num, ?_⟩
  intro j hj
  interval_cases j <;> norm_num

example : (List.range 8).map (fun k => (oneDirAt (3/10 : ℚ) k).1) = [0, 3/10, 3/5, 9/10, 1, 3/10, 3/5, 9/10] := by
  decide +kernel
example : (List.range 8).map (fun k => (bothDirAt (3/10 : ℚ) k).1) = [1, 7/10, 2/5, 1/10, 1, 3/10, 3/5, 9/10] := by
  decide +kernel

/-- **C186** (no step).  With step 0 the weights never change. -/
theorem C186_no_step (k : Nat) : oneDirAt (0 : K) k = (0, 1) ∧ bothDirAt (0 : K) k = (1, 0) := by
  have hc : cur (0 : K) k = 0 := by
    induction k with
    | zero => rfl
    | succ k ih =>
      show advance 0 (cur (0 : K) k) = 0
      rw [ih, advance_eq]
      simp
  have hd : (bothState (0 : K) k).direction = false := by
    induction k with
    | zero => rfl
    | succ k ih =>
      have hk : cur (0 : K) k = 0 := by
        clear ih hc
        induction k with
        | zero => rfl
        | succ k ih =>
          show advance 0 (cur (0 : K) k) = 0
          rw [ih, advance_eq]
          simp
      have := ih hk
      show (if (bothState (0 : K) k).current = 1 then !(bothState (0 : K) k).direction else (bothState (0 : K) k).direction) = false
      rw [bothState_cur, hk, if_neg zero_ne_one, this]
  refine ⟨?_, ?_⟩
  · show (cur (0 : K) k, 1 - cur (0 : K) k) = _
    rw [hc, sub_zero]
  · show (bothDir (0 : K) (bothState 0 k)).1 = _
    unfold bothDir
    simp only [bothState_cur, hc, hd]
    simp

end Fixed

/-! ### C187: anytime -/

def In (w : ℚ) : Prop := 1/8 ≤ w ∧ w ≤ 3/4

theorem In.mid {a b : ℚ} (ha : In a) (hb : In b) : In ((a + b) / 2) := by
  unfold In at *
  constructor <;> linarith [ha.1, ha.2, hb.1, hb.2]

theorem any_inv (o1 o2 : ℚ) (k : Nat) : (anyState o1 o2 (k + 4)).depth = 2 ∧ In (anyState o1 o2 (k + 4)).old1 ∧
    In (anyState o1 o2 (k + 4)).old2 ∧ (anyState o1 o2 (k + 4)).toTest ≠ [] ∧
    ∀ w ∈ (anyState o1 o2 (k + 4)).toTest, In w := by
  induction k with
  | zero =>
    have e : anyState o1 o2 4 = ⟨2, 1/4, 1/2, [3/4, 3/8, 1/8]⟩ := by
      norm_num [anyState, anytime]
    rw [Nat.zero_add, e]
    refine ⟨rfl, by norm_num [In], by norm_num [In], (fun h => nomatch h), ?_⟩
    intro w hw
    simp only [List.mem_cons, List.not_mem_nil, or_false] at hw
    rcases hw with rfl | rfl | rfl <;> norm_num [In]
  | succ k ih =>
    obtain ⟨h1, h2, h3, h4, h5⟩ := ih
    have e : anyState o1 o2 (k + 1 + 4) = (anytime (anyState o1 o2 (k + 4))).2 := rfl
    rw [e]
    generalize anyState o1 o2 (k + 4) = s at *
    obtain ⟨d, a, b, t⟩ := s
    simp only at h1 h2 h3 h4 h5
    subst h1
    cases t with
    | nil => exact absurd rfl h4
    | cons w rest =>
      have hw := h5 w (by simp)
      refine ⟨rfl, hw, h2, ?_, ?_⟩
      · show rest ++ [(w + a) / 2, (w + b) / 2] ≠ []
        simp
      · intro x hx
        have hx : x ∈ rest ++ [(w + a) / 2, (w + b) / 2] := hx
        simp only [List.mem_append, List.mem_cons, List.not_mem_nil, or_false] at hx
        rcases hx with hx | rfl | rfl
        · exact h5 x (by simp [hx])
        · exact hw.mid h2
        · exact hw.mid h3

/-- **C187** (anytime).  Each call gives weights that sum to 1: first (0, 1), then (1, 0); from then on the first
weight is between 1/8 and 3/4, so that three eighths of the range are never tried.  The weights 1/2 come twice
within the first eight calls. -/
theorem C187_anytime (o1 o2 : ℚ) :
    (∀ k, ∃ w, anyAt o1 o2 k = some (w, 1 - w) ∧ (k = 0 → w = 0) ∧ (k = 1 → w = 1) ∧ (2 ≤ k → 1/8 ≤ w ∧ w ≤ 3/4)) ∧
    anyAt o1 o2 2 = some (1/2, 1/2) ∧ anyAt o1 o2 7 = some (1/2, 1/2) := by
  refine ⟨?_, by norm_num [anyAt, anyState, anytime], by norm_num [anyAt, anyState, anytime]⟩
  intro k
  match k with
  | 0 => exact ⟨0, by norm_num [anyAt, anyState, anytime], by norm_num, by norm_num, by norm_num⟩
  | 1 => exact ⟨1, by norm_num [anyAt, anyState, anytime], by norm_num, by norm_num, by norm_num⟩
  | 2 => exact ⟨1/2, by norm_num [anyAt, anyState, anytime], by norm_num, by norm_num, by norm_num⟩
  | 3 => exact ⟨1/4, by norm_num [anyAt, anyState, anytime], by norm_num, by norm_num, by norm_num⟩
  | k + 4 =>
    obtain ⟨h1, h2, h3, h4, h5⟩ := any_inv o1 o2 k
    unfold anyAt
    generalize anyState o1 o2 (k + 4) = s at *
    obtain ⟨d, a, b, t⟩ := s
    simp only at h1 h2 h3 h4 h5
    subst h1
    cases t with
    | nil => exact absurd rfl h4
    | cons w rest => exact ⟨w, rfl, by omega, by omega, fun _ => h5 w (by simp)⟩

/-! ### C187: Qexplore -/

theorem skip_spec (d n : Nat) (h : n ≤ d) : n ≤ skip d n ∧ skip d n ≤ d ∧ (skip d n < d → Nat.Coprime d (skip d n)) ∧
    ∀ j, n ≤ j → j < skip d n → ¬ Nat.Coprime d j := by
  have key : ∀ m n, d - n = m → n ≤ d → n ≤ skip d n ∧ skip d n ≤ d ∧ (skip d n < d → Nat.Coprime d (skip d n)) ∧
      ∀ j, n ≤ j → j < skip d n → ¬ Nat.Coprime d j := by
    intro m
    induction m with
    | zero =>
      intro n hm hn
      have : n = d := by omega
      subst this
      unfold skip
      rw [if_neg (fun h => absurd h.1 (lt_irrefl _))]
      exact ⟨le_refl _, le_refl _, (fun h => absurd h (lt_irrefl _)), fun j h1 h2 => by omega⟩
    | succ m ih =>
      intro n hm hn
      unfold skip
      split
      · rename_i hc
        obtain ⟨h1, h2, h3, h4⟩ := ih (n + 1) (by omega) (by omega)
        refine ⟨by omega, h2, h3, ?_⟩
        intro j hj hj'
        by_cases e : j = n
        · subst e
          have := hc.2
          rw [coprim_eq] at this
          simpa using this
        · exact h4 j (by omega) hj'
      · rename_i hc
        refine ⟨le_refl _, hn, ?_, fun j h1 h2 => by omega⟩
        intro hlt
        by_contra hco
        apply hc
        refine ⟨hlt, ?_⟩
        rw [coprim_eq]
        simpa using hco
  exact key (d - n) n rfl h

/-- The next fraction in lowest terms, from a state on. -/
def frac (s : Qe) : Nat × Nat :=
  if s.depth ≤ skip s.depth s.num then (1, s.depth + 1) else (skip s.depth s.num, s.depth)

theorem qexplore_eq (s : Qe) (h : s.depth ≠ 0) :
    qexplore s = ((((frac s).1 : ℚ) / (frac s).2, 1 - ((frac s).1 : ℚ) / (frac s).2), ⟨(frac s).2, (frac s).1 + 1⟩) := by
  unfold qexplore frac
  rw [if_neg h]
  dsimp only
  split <;> rfl

def Good (p : Nat × Nat) : Prop := 0 < p.1 ∧ p.1 < p.2 ∧ Nat.Coprime p.1 p.2

/-- Position in the order by denominator, then numerator. -/
def code (p : Nat × Nat) : Nat := p.2 * p.2 + p.1

theorem code_lt {n d n' d' : Nat} (h : n < d) (h' : n' < d') (hc : code (n, d) ≤ code (n', d')) :
    d < d' ∨ (d = d' ∧ n ≤ n') := by
  unfold code at hc
  simp only at hc
  rcases Nat.lt_trichotomy d d' with h1 | h1 | h1
  · exact Or.inl h1
  · subst h1
    exact Or.inr ⟨rfl, by omega⟩
  · exfalso
    have : (d' + 1) * (d' + 1) ≤ d * d := Nat.mul_le_mul h1 h1
    have e : (d' + 1) * (d' + 1) = d' * d' + 2 * d' + 1 := by ring
    omega

theorem frac_spec (s : Qe) (h1 : 1 ≤ s.num) (h2 : s.num ≤ s.depth) :
    Good (frac s) ∧ code (s.num, s.depth) ≤ code (frac s) ∧
    ∀ p, Good p → code (s.num, s.depth) ≤ code p → code (frac s) ≤ code p := by
  obtain ⟨d, n⟩ := s
  simp only at h1 h2
  obtain ⟨k1, k2, k3, k4⟩ := skip_spec d n h2
  have hge : ∀ p : Nat × Nat, Good p → code (n, d) ≤ code p → d < p.2 ∨ (p.2 = d ∧ n ≤ p.1) := by
    rintro ⟨a, b⟩ ⟨g1, g2, _⟩ hc
    unfold code at hc
    simp only at hc g1 g2 ⊢
    rcases Nat.lt_trichotomy d b with h | h | h
    · exact Or.inl h
    · subst h; exact Or.inr ⟨rfl, by omega⟩
    · exfalso
      have : (b + 1) * (b + 1) ≤ d * d := Nat.mul_le_mul h h
      have e : (b + 1) * (b + 1) = b * b + 2 * b + 1 := by ring
      omega
  unfold frac
  simp only
  by_cases hs : d ≤ skip d n
  · rw [if_pos hs]
    refine ⟨⟨one_pos, by show 1 < d + 1; omega, Nat.coprime_one_left _⟩, ?_, ?_⟩
    · show d * d + n ≤ (d + 1) * (d + 1) + 1
      have e : (d + 1) * (d + 1) = d * d + 2 * d + 1 := by ring
      omega
    · rintro ⟨a, b⟩ hg hc
      show (d + 1) * (d + 1) + 1 ≤ b * b + a
      have g1 : 0 < a := hg.1
      have g2 : a < b := hg.2.1
      rcases hge (a, b) hg hc with h | ⟨h, h'⟩
      · have h : d + 1 ≤ b := h
        have : (d + 1) * (d + 1) ≤ b * b := Nat.mul_le_mul h h
        omega
      · simp only at h h'
        subst h
        exact absurd hg.2.2.symm (k4 a h' (by omega))
  · rw [if_neg hs]
    have hs := not_le.1 hs
    refine ⟨⟨by show 0 < skip d n; omega, hs, (k3 hs).symm⟩, ?_, ?_⟩
    · show d * d + n ≤ d * d + skip d n
      omega
    · rintro ⟨a, b⟩ hg hc
      show d * d + skip d n ≤ b * b + a
      rcases hge (a, b) hg hc with h | ⟨h, h'⟩
      · have h : d + 1 ≤ b := h
        have : (d + 1) * (d + 1) ≤ b * b := Nat.mul_le_mul h h
        have e : (d + 1) * (d + 1) = d * d + 2 * d + 1 := by ring
        omega
      · simp only at h h'
        subst h
        by_contra hlt
        exact k4 a h' (by omega) hg.2.2.symm

/-- The fraction of call number `k + 2`. -/
def qf (k : Nat) : Nat × Nat := frac (qeState (k + 2))

theorem qe_inv (k : Nat) : 1 ≤ (qeState (k + 2)).num ∧ (qeState (k + 2)).num ≤ (qeState (k + 2)).depth ∧
    qeState (k + 3) = ⟨(qf k).2, (qf k).1 + 1⟩ := by
  have next : ∀ k, 1 ≤ (qeState (k + 2)).num → (qeState (k + 2)).num ≤ (qeState (k + 2)).depth →
      qeState (k + 3) = ⟨(qf k).2, (qf k).1 + 1⟩ := by
    intro k h1 h2
    show (qexplore (qeState (k + 2))).2 = _
    rw [qexplore_eq _ (by omega)]
    rfl
  induction k with
  | zero =>
    have e : qeState 2 = ⟨1, 1⟩ := by simp [qeState, qexplore]
    have h1 : 1 ≤ (qeState (0 + 2)).num := by rw [Nat.zero_add, e]
    have h2 : (qeState (0 + 2)).num ≤ (qeState (0 + 2)).depth := by rw [Nat.zero_add, e]
    exact ⟨h1, h2, next 0 h1 h2⟩
  | succ k ih =>
    obtain ⟨i1, i2, i3⟩ := ih
    have hg := (frac_spec _ i1 i2).1
    have h1 : 1 ≤ (qeState (k + 1 + 2)).num := by
      rw [show k + 1 + 2 = k + 3 by omega, i3]; exact Nat.le_add_left _ _
    have h2 : (qeState (k + 1 + 2)).num ≤ (qeState (k + 1 + 2)).depth := by
      rw [show k + 1 + 2 = k + 3 by omega, i3]; exact hg.2.1
    exact ⟨h1, h2, next (k + 1) h1 h2⟩

theorem qf_good (k : Nat) : Good (qf k) := (frac_spec _ (qe_inv k).1 (qe_inv k).2.1).1

theorem qf_next (k : Nat) : code (qf k) < code (qf (k + 1)) ∧
    ∀ p, Good p → code (qf k) < code p → code (qf (k + 1)) ≤ code p := by
  have h := frac_spec _ (qe_inv (k + 1)).1 (qe_inv (k + 1)).2.1
  have e : qeState (k + 1 + 2) = ⟨(qf k).2, (qf k).1 + 1⟩ := (qe_inv k).2.2
  have ec : code ((qeState (k + 1 + 2)).num, (qeState (k + 1 + 2)).depth) = code (qf k) + 1 := by
    rw [e]; rfl
  rw [ec] at h
  exact ⟨h.2.1, fun p hp hc => h.2.2 p hp hc⟩

theorem qf_strict {k l : Nat} (h : k < l) : code (qf k) < code (qf l) := by
  induction l with
  | zero => omega
  | succ l ih =>
    rcases Nat.lt_or_ge k l with hk | hk
    · exact (ih hk).trans (qf_next l).1
    · have : k = l := by omega
      subst this
      exact (qf_next k).1

theorem code_inj {p q : Nat × Nat} (hp : Good p) (hq : Good q) (h : code p = code q) : p = q := by
  obtain ⟨a, b⟩ := p
  obtain ⟨c, d⟩ := q
  rcases code_lt hp.2.1 hq.2.1 h.le with h1 | ⟨h1, h2⟩
  · rcases code_lt hq.2.1 hp.2.1 h.ge with h3 | ⟨h3, h4⟩
    · exact absurd h1 (not_lt.2 h3.le)
    · exact absurd h1 (by rw [h3]; exact lt_irrefl _)
  · subst h1
    unfold code at h
    simp only at h
    have : a = c := by omega
    rw [this]

theorem qf_onto (p : Nat × Nat) (hp : Good p) : ∃ k, qf k = p := by
  have hgrow : ∀ k, k ≤ code (qf k) := by
    intro k
    induction k with
    | zero => exact Nat.zero_le _
    | succ k ih => exact Nat.succ_le_of_lt (lt_of_le_of_lt ih (qf_next k).1)
  have h0 : code (qf 0) ≤ code p := by
    refine (frac_spec _ (qe_inv 0).1 (qe_inv 0).2.1).2.2 p hp ?_
    have e : qeState (0 + 2) = ⟨1, 1⟩ := by simp [qeState, qexplore]
    rw [e]
    show 1 * 1 + 1 ≤ p.2 * p.2 + p.1
    have h1 : 0 < p.1 := hp.1
    have h2 : p.1 < p.2 := hp.2.1
    have : 1 * 1 ≤ p.2 * p.2 := Nat.mul_le_mul (by omega) (by omega)
    omega
  by_contra hn
  push Not at hn
  have hall : ∀ k, code (qf k) < code p := by
    intro k
    induction k with
    | zero =>
      exact lt_of_le_of_ne h0 fun h => hn 0 (code_inj (qf_good 0) hp h)
    | succ k ih =>
      exact lt_of_le_of_ne ((qf_next k).2 p hp ih) fun h => hn (k + 1) (code_inj (qf_good _) hp h)
  exact absurd (hall (code p)) (not_lt.2 (hgrow _))

theorem qeAt_eq (k : Nat) : qeAt (k + 2) = (((qf k).1 : ℚ) / (qf k).2, 1 - ((qf k).1 : ℚ) / (qf k).2) := by
  unfold qeAt
  rw [qexplore_eq _ (by have := qe_inv k; omega)]
  rfl

theorem frac_val (p : Nat × Nat) (hp : Good p) :
    ((p.1 : ℚ) / p.2).num = p.1 ∧ ((p.1 : ℚ) / p.2).den = p.2 := by
  have hd : (0 : ℤ) < (p.2 : ℤ) := by have := hp.2.1; have := hp.1; omega
  have hc : Nat.Coprime (p.1 : ℤ).natAbs (p.2 : ℤ).natAbs := by simpa using hp.2.2
  have h1 := Rat.num_div_eq_of_coprime hd hc
  have h2 := Rat.den_div_eq_of_coprime hd hc
  push_cast at h1 h2
  exact ⟨h1, by exact_mod_cast h2⟩

/-- **C187** (Qexplore).  The weights always sum to 1; every rational number from 0 to 1 is the first weight of
exactly one call; after the first two calls the denominators never decrease. -/
theorem C187_qexplore :
    (∀ k, (qeAt k).1 + (qeAt k).2 = 1 ∧ 0 ≤ (qeAt k).1 ∧ (qeAt k).1 ≤ 1) ∧
    (∀ q : ℚ, 0 ≤ q → q ≤ 1 → ∃! k, (qeAt k).1 = q) ∧
    ∀ k l, 2 ≤ k → k ≤ l → (qeAt k).1.den ≤ (qeAt l).1.den := by
  have a0 : qeAt 0 = (0, 1) := by simp [qeAt, qeState, qexplore]
  have a1 : qeAt 1 = (1, 0) := by simp [qeAt, qeState, qexplore]
  have pos : ∀ k, 0 < (qeAt (k + 2)).1 ∧ (qeAt (k + 2)).1 < 1 := by
    intro k
    have hg := qf_good k
    have h1 : (0 : ℚ) < (qf k).1 := by exact_mod_cast hg.1
    have h2 : ((qf k).1 : ℚ) < (qf k).2 := by exact_mod_cast hg.2.1
    rw [qeAt_eq]
    refine ⟨div_pos h1 (h1.trans h2), ?_⟩
    rw [div_lt_one (h1.trans h2)]
    exact h2
  refine ⟨?_, ?_, ?_⟩
  · intro k
    match k with
    | 0 => rw [a0]; norm_num
    | 1 => rw [a1]; norm_num
    | k + 2 =>
      refine ⟨?_, (pos k).1.le, (pos k).2.le⟩
      rw [qeAt_eq]
      exact add_sub_cancel _ _
  · intro q h0 h1
    rcases eq_or_lt_of_le h0 with h0 | h0
    · subst h0
      refine ⟨0, by simp [a0], ?_⟩
      intro k hk
      match k with
      | 0 => rfl
      | 1 => simp [a1] at hk
      | k + 2 => exact absurd hk (pos k).1.ne'
    rcases eq_or_lt_of_le h1 with h1 | h1
    · subst h1
      refine ⟨1, by simp [a1], ?_⟩
      intro k hk
      match k with
      | 0 => simp [a0] at hk
      | 1 => rfl
      | k + 2 => exact absurd hk (pos k).2.ne
    have hnum : 0 < q.num := Rat.num_pos.2 h0
    have hlt : q.num < q.den := by
      have := Rat.num_lt_denom_iff.2 h1
      exact this
    have hp : Good (q.num.toNat, q.den) := by
      refine ⟨by show 0 < q.num.toNat; omega, by show q.num.toNat < q.den; omega, ?_⟩
      have := q.reduced
      have e : q.num.natAbs = q.num.toNat := by omega
      rw [e] at this
      exact this
    obtain ⟨k, hk⟩ := qf_onto _ hp
    have hq : q = (q.num.toNat : ℚ) / q.den := by
      have e : ((q.num.toNat : Nat) : ℚ) = (q.num : ℚ) := by
        have : ((q.num.toNat : Nat) : ℤ) = q.num := Int.toNat_of_nonneg hnum.le
        exact_mod_cast congrArg (Int.cast : ℤ → ℚ) this
      rw [e, Rat.num_div_den]
    refine ⟨k + 2, ?_, ?_⟩
    · show (qeAt (k + 2)).1 = q
      rw [qeAt_eq, hk]
      exact hq.symm
    · intro l hl
      match l with
      | 0 => rw [a0] at hl; exact absurd hl h0.ne
      | 1 => rw [a1] at hl; exact absurd hl h1.ne'
      | l + 2 =>
        have hl : (qeAt (l + 2)).1 = q := hl
        rw [qeAt_eq] at hl
        have hv := frac_val _ (qf_good l)
        have hl' : ((qf l).1 : ℚ) / (qf l).2 = q := hl
        rw [hl'] at hv
        have hkl : qf l = qf k := by
          rw [hk]
          refine Prod.ext ?_ ?_
          · show (qf l).1 = q.num.toNat
            omega
          · exact hv.2.symm
        rcases Nat.lt_trichotomy k l with h | h | h
        · exact absurd (qf_strict h) (by rw [hkl]; exact lt_irrefl _)
        · rw [h]
        · exact absurd (qf_strict h) (by rw [hkl]; exact lt_irrefl _)
  · intro k l hk hkl
    obtain ⟨k, rfl⟩ := Nat.exists_eq_add_of_le' hk
    obtain ⟨l, rfl⟩ := Nat.exists_eq_add_of_le' (hk.trans hkl)
    have hc : code (qf k) ≤ code (qf l) := by
      rcases Nat.lt_or_eq_of_le (by omega : k ≤ l) with h | h
      · exact (qf_strict h).le
      · rw [h]
    have e1 : (qeAt (k + 2)).1.den = (qf k).2 := by
      rw [qeAt_eq]; exact (frac_val _ (qf_good k)).2
    have e2 : (qeAt (l + 2)).1.den = (qf l).2 := by
      rw [qeAt_eq]; exact (frac_val _ (qf_good l)).2
    rw [e1, e2]
    rcases code_lt (qf_good k).2.1 (qf_good l).2.1 hc with h | ⟨h, _⟩
    · exact h.le
    · exact h.le

end Paradiseo.Weights
