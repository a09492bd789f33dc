import Verif.Lemmas.Rng
import Mathlib.Algebra.Order.Floor.Semifield
import Mathlib.Tactic.FieldSimp
import Mathlib.Tactic.Positivity
/-
C176: the generator is the Mersenne Twister; which seeds give the same numbers.
C177: numbers derived from the generator: ranges, frequencies, the power law.
C178: reseeding and restoring the generator.
-/
namespace Paradiseo.Rng

variable {V : Type}

/-! ### C176 -/

/-- **C176** (recurrence).  After reseeding, the numbers are the tempered words of the recurrence
`X (k + N) = X (k + M) xor twist (X k, X (k + 1))` whose first N words come from the seed, whatever was
drawn before, and whatever memory held. -/
theorem C176_recurrence (N M : Nat) (hM : 0 < M) (hMN : M < N) (s : W) (g : Gen V) (X : Nat → W)
    (h0 : ∀ k < N, X k = (2#32 * s ||| 1#32) * 69069#32 ^ k)
    (hstep : ∀ k, X (k + N) = X (k + M) ^^^ twist (X k) (X (k + 1))) (n : Nat) :
    (rands N M n (reseed N s g)).1 = (List.range n).map fun i => temper (X (N + i)) :=
  (at_rands hM hMN n (at_init (2#32 * s) g ⟨fun k hk => by
    rw [h0 k hk, init_state N (by omega) _ g k hk], hstep⟩)).1

/-- There is exactly one such sequence. -/
theorem C176_recurrence_exists (N M : Nat) (hN : 2 ≤ N) (hMN : M < N) (a : Nat → W) :
    ∃! X : Nat → W, (∀ k < N, X k = a k) ∧ ∀ k, X (k + N) = X (k + M) ^^^ twist (X k) (X (k + 1)) := by
  obtain ⟨X, hX⟩ := isSeq_exists hN hMN a
  exact ⟨X, ⟨hX.start, hX.step⟩, fun Y hY => isSeq_unique hN hMN ⟨hY.1, hY.2⟩ hX⟩

/-- **C176** (same seeds).  Seeds that agree modulo 2^31 give the same numbers for ever, whatever the two
generators had done before: the highest bit of the seed is lost. -/
theorem C176_same (N M : Nat) (hM : 0 < M) (hMN : M < N) (s t : W) (g g' : Gen V)
    (h : s.toNat % 2 ^ 31 = t.toNat % 2 ^ 31) (n : Nat) :
    (rands N M n (reseed N s g)).1 = (rands N M n (reseed N t g')).1 := by
  obtain ⟨X, hX⟩ := isSeq_exists (N := N) (M := M) (by omega) hMN
    (fun k => (2#32 * s ||| 1#32) * 69069#32 ^ k)
  rw [C176_recurrence N M hM hMN s g X hX.start hX.step n,
    C176_recurrence N M hM hMN t g' X (fun k hk => by
      rw [hX.start k hk, (seed_word s t).2 h]) hX.step n]

/-- **C176** (different seeds).  Seeds that differ modulo 2^31 already differ in the first N numbers. -/
theorem C176_different (N M : Nat) (hM : 2 ≤ M) (hMN : M < N) (s t : W) (g g' : Gen V)
    (h : s.toNat % 2 ^ 31 ≠ t.toNat % 2 ^ 31) :
    (rands N M N (reseed N s g)).1 ≠ (rands N M N (reseed N t g')).1 := by
  obtain ⟨X, hX⟩ := isSeq_exists (N := N) (M := M) (by omega) hMN
    (fun k => (2#32 * s ||| 1#32) * 69069#32 ^ k)
  obtain ⟨Y, hY⟩ := isSeq_exists (N := N) (M := M) (by omega) hMN
    (fun k => (2#32 * t ||| 1#32) * 69069#32 ^ k)
  rw [C176_recurrence N M (by omega) hMN s g X hX.start hX.step,
    C176_recurrence N M (by omega) hMN t g' Y hY.start hY.step]
  intro e
  have hN : ∀ i < N, X (N + i) = Y (N + i) := by
    intro i hi
    have := congrArg (fun l => l[i]?) e
    simp only [List.getElem?_map, List.getElem?_range hi, Option.map_some, Option.some.injEq] at this
    exact temper_inj this
  have h1 := seq_back hM hMN hX.step hY.step hN 1 (le_refl _) (by omega)
  rw [hX.start 1 (by omega), hY.start 1 (by omega)] at h1
  simp only [BitVec.pow_succ, BitVec.pow_zero, BitVec.one_mul] at h1
  exact h ((seed_word s t).1 (mul_inj h1))

/-- The sizes of the code meet the hypotheses. -/
example : 2 ≤ eoM ∧ eoM < eoN := by decide

example : (5#32).toNat % 2 ^ 31 = (2147483653#32).toNat % 2 ^ 31 := by decide

/-- With small sizes: seeds 1 and 2^31 + 1, and seed 2. -/
example :
    (rands 3 2 5 (create 3 1#32 (fun _ => 0#32) ())).1 = (rands 3 2 5 (create 3 2147483649#32 (fun _ => 7#32) ())).1 ∧
    (rands 3 2 3 (create 3 1#32 (fun _ => 0#32) ())).1 ≠ (rands 3 2 3 (create 3 2#32 (fun _ => 0#32) ())).1 := by
  decide +kernel

/-- Seed 42: the first numbers are those another implementation of MT19937 (the one in Python) gives for the
same initial words. -/
theorem C176_reference : (rands eoN eoM 3 (create eoN 42#32 (fun _ => 0#32) ())).1 =
    [2338654294#32, 4148314147#32, 3846275567#32] := by
  obtain ⟨X, hX⟩ := isSeq_exists (N := eoN) (M := eoM) (by decide) (by decide)
    (fun k => (2#32 * 42#32 ||| 1#32) * 69069#32 ^ k)
  have h := C176_recurrence eoN eoM (by decide) (by decide) 42#32
    (⟨fun _ => 0#32, none, -1, false, ()⟩ : Gen Unit) X hX.start hX.step 3
  have hs : ∀ k, k < 227 → X (eoN + k) = (2#32 * 42#32 ||| 1#32) * 69069#32 ^ (k + 397) ^^^
      twist ((2#32 * 42#32 ||| 1#32) * 69069#32 ^ k) ((2#32 * 42#32 ||| 1#32) * 69069#32 ^ (k + 1)) := by
    intro k hk
    rw [Nat.add_comm eoN k, hX.step k, hX.start (k + eoM) (by unfold eoM eoN; omega),
      hX.start k (by unfold eoN; omega), hX.start (k + 1) (by unfold eoN; omega)]
    rfl
  have h3 : (rands eoN eoM 3 (create eoN 42#32 (fun _ => 0#32) ())).1 =
      [temper (X (eoN + 0)), temper (X (eoN + 1)), temper (X (eoN + 2))] := h
  rw [h3, hs 0 (by omega), hs 1 (by omega), hs 2 (by omega)]
  decide +kernel

/-! ### C177 -/

theorem word_lt (w : W) : (w.toNat : ℚ) ≤ 4294967295 := by
  have : w.toNat ≤ 4294967295 := by have := w.isLt; omega
  exact_mod_cast this

/-- **C177** (uniform numbers).  In exact arithmetic `uniform(m)` lies in [0, m) and `uniform(min, max)` in
[min, max). -/
theorem C177_uniform (w : W) (m lo hi : ℚ) (hm : 0 < m) (hlt : lo < hi) :
    (0 ≤ uniform m w ∧ uniform m w < m) ∧ (lo ≤ uniform2 lo hi w ∧ uniform2 lo hi w < hi) := by
  have key : ∀ m : ℚ, 0 < m → 0 ≤ uniform m w ∧ uniform m w < m := by
    intro m hm
    have h := word_lt w
    have h0 : (0 : ℚ) ≤ w.toNat := Nat.cast_nonneg _
    unfold uniform
    constructor
    · positivity
    · rw [div_lt_iff₀ (by norm_num)]
      exact mul_lt_mul_of_pos_left (by linarith) hm
  refine ⟨key m hm, ?_⟩
  have := key (hi - lo) (by linarith)
  unfold uniform2
  constructor <;> linarith [this.1, this.2]

/-- **C177** (random integers).  `random(m)` lies below `m`, even if the product is rounded as in double
precision (any rounding with a relative error of at most 2^-53). -/
theorem C177_random (round : ℚ → ℚ) (hr : ∀ q, 0 ≤ q → |round q - q| ≤ q / 2 ^ 53) (m : Nat) (hm : 0 < m) (w : W) :
    random round m w < m := by
  unfold random
  have h := word_lt w
  have h0 : (0 : ℚ) ≤ w.toNat := Nat.cast_nonneg _
  have hm' : (0 : ℚ) < m := by exact_mod_cast hm
  have hx0 : 0 ≤ uniform 1 w * m := by unfold uniform; positivity
  have hx : uniform 1 w * m ≤ m * (4294967295 / 4294967296) := by
    unfold uniform
    rw [one_mul, mul_comm]
    apply mul_le_mul_of_nonneg_left _ hm'.le
    exact (div_le_div_iff_of_pos_right (by norm_num)).2 h
  have hb := (abs_le.1 (hr _ hx0)).2
  apply (Nat.floor_lt' (by omega)).2
  have : round (uniform 1 w * m) ≤ m * (4294967295 / 4294967296) * (1 + 1 / 2 ^ 53) := by
    calc round (uniform 1 w * m) ≤ uniform 1 w * m * (1 + 1 / 2 ^ 53) := by linarith
      _ ≤ _ := mul_le_mul_of_nonneg_right hx (by norm_num)
  refine lt_of_le_of_lt this ?_
  rw [mul_assoc]
  have : (4294967295 / 4294967296 : ℚ) * (1 + 1 / 2 ^ 53) < 1 := by norm_num
  calc (m : ℚ) * _ < m * 1 := mul_lt_mul_of_pos_left this hm'
    _ = m := mul_one _

theorem random_eq (m : Nat) (w : W) : random id m w = w.toNat * m / 4294967296 := by
  unfold random uniform
  have : id (1 * (w.toNat : ℚ) / 4294967296 * m) = ((w.toNat * m : Nat) : ℚ) / ((4294967296 : Nat) : ℚ) := by
    push_cast
    simp only [id]
    ring
  rw [this, Nat.floor_div_eq_div]

/-- How many words of a range of `L` numbers `n` have `n * m / L = k`: an interval. -/
theorem count_interval (L m k : Nat) (hL : 0 < L) (hm : 0 < m) (hk : k < m) :
    ((Finset.range L).filter fun n => n * m / L = k).card = ((k + 1) * L + m - 1) / m - (k * L + m - 1) / m := by
  have e : (Finset.range L).filter (fun n => n * m / L = k) =
      Finset.Ico ((k * L + m - 1) / m) (((k + 1) * L + m - 1) / m) := by
    ext n
    simp only [Finset.mem_filter, Finset.mem_range, Finset.mem_Ico]
    have ceil_le : ∀ a, (a + m - 1) / m ≤ n ↔ a ≤ n * m := by
      intro a
      rw [← Nat.lt_succ_iff, Nat.div_lt_iff_lt_mul hm, Nat.succ_mul]
      omega
    have h1 : n * m / L = k ↔ k * L ≤ n * m ∧ n * m < (k + 1) * L := by
      rw [Nat.div_eq_iff hL]
      have : (k + 1) * L = k * L + L := by ring
      omega
    have h2 : n < ((k + 1) * L + m - 1) / m ↔ n * m < (k + 1) * L := by
      rw [← not_le, ceil_le, not_le]
    rw [h1, ceil_le, h2]
    constructor
    · rintro ⟨_, h⟩; exact h
    · intro h
      refine ⟨?_, h⟩
      have h3 : n * m < L * m := by
        calc n * m < (k + 1) * L := h.2
          _ ≤ m * L := Nat.mul_le_mul_right _ hk
          _ = L * m := Nat.mul_comm _ _
      exact Nat.lt_of_mul_lt_mul_right h3
  rw [e, Nat.card_Ico]

/-- **C177** (frequencies).  Of the 2^32 words, each value of `random(m)` gets 2^32 / m, rounded down or up. -/
theorem C177_random_frequency (m k : Nat) (hk : k < m) :
    2 ^ 32 / m ≤ ((Finset.range (2 ^ 32)).filter fun n => random id m (BitVec.ofNat 32 n) = k).card ∧
    ((Finset.range (2 ^ 32)).filter fun n => random id m (BitVec.ofNat 32 n) = k).card ≤ 2 ^ 32 / m + 1 := by
  have e : (Finset.range (2 ^ 32)).filter (fun n => random id m (BitVec.ofNat 32 n) = k) =
      (Finset.range (2 ^ 32)).filter (fun n => n * m / 2 ^ 32 = k) := by
    apply Finset.filter_congr
    intro n hn
    rw [random_eq, BitVec.toNat_ofNat, Nat.mod_eq_of_lt (Finset.mem_range.1 hn)]
    norm_num
  rw [e, count_interval (2 ^ 32) m k (by norm_num) (by omega) hk]
  generalize (2 : Nat) ^ 32 = L
  have hm : 0 < m := by omega
  have hd : ((k + 1) * L + m - 1) = (k * L + m - 1) + L := by
    have : (k + 1) * L = k * L + L := by ring
    omega
  rw [hd]
  have h1 : (k * L + m - 1) / m + L / m ≤ (k * L + m - 1 + L) / m := Nat.add_div_le_add_div _ _ _
  have h2 : (k * L + m - 1 + L) / m ≤ (k * L + m - 1) / m + L / m + 1 := by
    rw [Nat.add_div hm]
    split <;> omega
  generalize (k * L + m - 1 + L) / m = A at *
  generalize (k * L + m - 1) / m = B at *
  generalize L / m = C at *
  omega

/-- **C177** (coins).  Of the 2^32 words, `flip(p)` is true for p · 2^32, rounded up: never for p = 0 and always
for p = 1. -/
theorem C177_flip_frequency (p : ℚ) (h0 : 0 ≤ p) (h1 : p ≤ 1) :
    ((Finset.range (2 ^ 32)).filter fun n => flip p (BitVec.ofNat 32 n) = true).card = ⌈p * 2 ^ 32⌉₊ := by
  have e : (Finset.range (2 ^ 32)).filter (fun n => flip p (BitVec.ofNat 32 n) = true) =
      Finset.range ⌈p * 2 ^ 32⌉₊ := by
    ext n
    simp only [Finset.mem_filter, Finset.mem_range]
    have key : n < 2 ^ 32 → (flip p (BitVec.ofNat 32 n) = true ↔ n < ⌈p * 2 ^ 32⌉₊) := by
      intro hn
      unfold flip uniform
      rw [decide_eq_true_eq, BitVec.toNat_ofNat, Nat.mod_eq_of_lt hn, Nat.lt_ceil, one_mul,
        div_lt_iff₀ (by norm_num)]
      norm_num
    constructor
    · rintro ⟨hn, h⟩; exact (key hn).1 h
    · intro h
      have hn : n < 2 ^ 32 := by
        refine lt_of_lt_of_le h ?_
        apply Nat.ceil_le.2
        push_cast
        calc p * 2 ^ 32 ≤ 1 * 2 ^ 32 := mul_le_mul_of_nonneg_right h1 (by norm_num)
          _ = _ := by norm_num
      exact ⟨hn, (key hn).2 h⟩
  rw [e, Finset.card_range]

/-- **C177** (binomial numbers).  `binomial(n, p)` is at most n; it is 0 for p = 0 and n for p = 1. -/
theorem C177_binomial (l : List W) (p : ℚ) :
    binomial p l ≤ l.length ∧ (p ≤ 0 → binomial p l = 0) ∧ (1 ≤ p → binomial p l = l.length) := by
  induction l with
  | nil => exact ⟨le_refl _, fun _ => rfl, fun _ => rfl⟩
  | cons w l ih =>
    have hu := (C177_uniform w 1 0 1 (by norm_num) (by norm_num)).1
    refine ⟨?_, ?_, ?_⟩
    · rw [binomial, List.length_cons]
      have := ih.1
      split <;> omega
    · intro hp
      rw [binomial, ih.2.1 hp, if_neg]
      unfold flip
      rw [decide_eq_true_eq]
      linarith [hu.1]
    · intro hp
      rw [binomial, ih.2.2 hp, if_pos, List.length_cons, Nat.add_comm]
      unfold flip
      rw [decide_eq_true_eq]
      linarith [hu.2]

/-- **C177** (integers between bounds).  `eo::random(min, max)` lies in [min, max). -/
theorem C177_random_between (lo hi : Int) (h : lo < hi) (w : W) :
    lo ≤ randomInt lo hi w ∧ randomInt lo hi w < hi := by
  unfold randomInt
  have hw : w.toNat < 4294967296 := w.isLt
  have h0 : 0 ≤ (w.toNat : Int) * (hi - lo) := mul_nonneg (Int.natCast_nonneg _) (by omega)
  rw [Int.tdiv_eq_ediv_of_nonneg h0]
  have h1 : 0 ≤ (w.toNat : Int) * (hi - lo) / 4294967296 := Int.ediv_nonneg h0 (by norm_num)
  have h2 : (w.toNat : Int) * (hi - lo) / 4294967296 < hi - lo := by
    apply Int.ediv_lt_of_lt_mul (by norm_num)
    rw [mul_comm]
    apply mul_lt_mul_of_pos_left _ (by omega)
    exact_mod_cast hw
  omega

/-- **C177** (power law).  `powerlaw(min, max, gamma)` draws its uniform number in [min, max) where the
inversion needs one in [0, 1): for a draw above 1 either the outer power is taken of a number that is not
positive or its value exceeds max.  For a draw in [0, 1] it lies in [min, max]. -/
theorem C177_powerlaw (lo hi gamma x : ℝ) (hlo : 0 < lo) (hlt : lo < hi) (hg : 1 < gamma) (hx : 0 ≤ x) :
    (x ≤ 1 → 0 < powerlawArg lo hi gamma x ∧ lo ≤ powerlaw lo hi gamma x ∧ powerlaw lo hi gamma x ≤ hi) ∧
    (1 < x → powerlawArg lo hi gamma x ≤ 0 ∨ hi < powerlaw lo hi gamma x) := by
  have hneg : -gamma + 1 < 0 := by linarith
  have hinv : 1 / (-gamma + 1) < 0 := one_div_neg.2 hneg
  have hhi : 0 < hi := by linarith
  have hA : 0 < hi ^ (-gamma + 1) := Real.rpow_pos_of_pos hhi _
  have hB : hi ^ (-gamma + 1) < lo ^ (-gamma + 1) := Real.rpow_lt_rpow_of_neg hlo hlt hneg
  have back : ∀ y : ℝ, 0 < y → (y ^ (-gamma + 1)) ^ (1 / (-gamma + 1)) = y := by
    intro y hy
    rw [← Real.rpow_mul hy.le, mul_one_div_cancel (ne_of_lt hneg), Real.rpow_one]
  have hT : powerlawArg lo hi gamma x = x * (hi ^ (-gamma + 1) - lo ^ (-gamma + 1)) + lo ^ (-gamma + 1) := rfl
  constructor
  · intro hx1
    have h1 : hi ^ (-gamma + 1) ≤ powerlawArg lo hi gamma x := by rw [hT]; nlinarith
    have h2 : powerlawArg lo hi gamma x ≤ lo ^ (-gamma + 1) := by rw [hT]; nlinarith
    have hpos : 0 < powerlawArg lo hi gamma x := by linarith
    refine ⟨hpos, ?_, ?_⟩
    · unfold powerlaw
      rw [← back lo hlo]
      conv_rhs => rw [back lo hlo]
      exact Real.rpow_le_rpow_of_nonpos hpos h2 hinv.le
    · unfold powerlaw
      have := Real.rpow_le_rpow_of_nonpos hA h1 hinv.le
      rwa [back hi hhi] at this
  · intro hx1
    have h1 : powerlawArg lo hi gamma x < hi ^ (-gamma + 1) := by rw [hT]; nlinarith
    by_cases hpos : powerlawArg lo hi gamma x ≤ 0
    · exact .inl hpos
    · right
      unfold powerlaw
      have := Real.rpow_lt_rpow_of_neg (not_le.1 hpos) h1 hinv
      rwa [back hi hhi] at this

/-- With `min` at least 1 the wrong case is the only one but for a draw of exactly 1. -/
example (lo hi : ℝ) (h : 1 < lo) (u : ℝ) (hu : 0 ≤ u) (hlt : lo < hi) : 1 < lo + u * (hi - lo) := by
  have : 0 ≤ u * (hi - lo) := mul_nonneg hu (by linarith)
  linarith

/-! ### C178 -/

/-- Two generators that will return the same from now on. -/
structure Same (N M : Nat) (g g' : Gen V) : Prop where
  pos : ∃ X p, At N M X p g ∧ At N M X p g'
  cached : g.cached = g'.cached
  value : g.cached = true → g.cacheValue = g'.cacheValue

theorem same_rand {N M : Nat} (hM : 0 < M) (hMN : M < N) {g g' : Gen V} (h : Same N M g g') :
    (rand N M g).1 = (rand N M g').1 ∧ Same N M (rand N M g).2 (rand N M g').2 := by
  obtain ⟨⟨X, p, h1, h2⟩, h3, h4⟩ := h
  obtain ⟨a1, a2, a3, a4⟩ := at_rand hM hMN h1
  obtain ⟨b1, b2, b3, b4⟩ := at_rand hM hMN h2
  refine ⟨a1.trans b1.symm, ⟨X, p + 1, a2, b2⟩, by rw [a3, b3, h3], ?_⟩
  rw [a3, a4, b4]
  exact h4

theorem same_normal {N M : Nat} (hM : 0 < M) (hMN : M < N) (polar : W → W → Option (V × V)) (fuel : Nat)
    {g g' : Gen V} (h : Same N M g g') :
    (normal N M polar fuel g = none ∧ normal N M polar fuel g' = none) ∨
    ∃ v a b, normal N M polar fuel g = some (v, a) ∧ normal N M polar fuel g' = some (v, b) ∧ Same N M a b := by
  induction fuel generalizing g g' with
  | zero => exact .inl ⟨rfl, rfl⟩
  | succ fuel ih =>
    unfold normal
    by_cases hc : g.cached = true
    · have hc' : g'.cached = true := by rw [← h.cached, hc]
      rw [if_pos hc, if_pos hc', h.value hc]
      refine .inr ⟨_, _, _, rfl, rfl, ?_⟩
      obtain ⟨X, p, ⟨s1, p1⟩, ⟨s2, p2⟩⟩ := h.pos
      exact ⟨⟨X, p, ⟨s1, p1⟩, ⟨s2, p2⟩⟩, rfl, fun h => by cases h⟩
    · have hc' : ¬ g'.cached = true := by rw [← h.cached]; exact hc
      rw [if_neg hc, if_neg hc']
      obtain ⟨e1, h1⟩ := same_rand hM hMN h
      obtain ⟨e2, h2⟩ := same_rand hM hMN h1
      simp only
      rw [e1, e2]
      cases polar (rand N M g').1 (rand N M (rand N M g').2).1 with
      | none => exact ih h2
      | some x =>
        refine .inr ⟨_, _, _, rfl, rfl, ?_⟩
        obtain ⟨X, p, ⟨s1, p1⟩, ⟨s2, p2⟩⟩ := h2.pos
        exact ⟨⟨X, p, ⟨s1, p1⟩, ⟨s2, p2⟩⟩, rfl, fun _ => rfl⟩

theorem map_cons_fst {A B : Type} (a : A) (o : Option (List A × B)) :
    (o.map fun r => (a :: r.1, r.2)).map (·.1) = (o.map (·.1)).map (a :: ·) := by
  cases o <;> rfl

theorem same_calls {N M : Nat} (hM : 0 < M) (hMN : M < N) (polar : W → W → Option (V × V)) (fuel : Nat)
    (cs : List Call) {g g' : Gen V} (h : Same N M g g') :
    (calls N M polar fuel cs g).map (·.1) = (calls N M polar fuel cs g').map (·.1) := by
  induction cs generalizing g g' with
  | nil => rfl
  | cons c cs ih =>
    cases c with
    | rand =>
      obtain ⟨e, h1⟩ := same_rand hM hMN h
      have := ih h1
      simp only [calls]
      rw [e, map_cons_fst, map_cons_fst, this]
    | normal =>
      simp only [calls]
      rcases same_normal hM hMN polar fuel h with ⟨e1, e2⟩ | ⟨v, a, b, e1, e2, h1⟩
      · rw [e1, e2]
      · rw [e1, e2]
        simp only [Option.bind_some]
        have := ih h1
        rw [map_cons_fst, map_cons_fst, this]

theorem at_reseed {N M : Nat} (hMN : M < N) (hM : 0 < M) (s : W) (g g' : Gen V) :
    ∃ X p, At N M X p (reseed N s g) ∧ At N M X p (reseed N s g') := by
  obtain ⟨X, hX⟩ := isSeq_exists (N := N) (M := M) (by omega) hMN
    (fun k => (2#32 * s ||| 1#32) * 69069#32 ^ k)
  have key : ∀ g : Gen V, IsSeq N M (initState N (2#32 * s) g).state X := fun g =>
    ⟨fun k hk => by rw [hX.start k hk, init_state N (by omega) _ g k hk], hX.step⟩
  exact ⟨X, N, at_init _ g (key g), at_init _ g' (key g')⟩

/-- **C178** (reseeding).  Reseeding and forgetting the cached deviate makes everything that follows the same
as for a new generator with that seed, whatever had been drawn before. -/
theorem C178_reseed_clear (N M : Nat) (hM : 0 < M) (hMN : M < N) (polar : W → W → Option (V × V)) (fuel : Nat)
    (s : W) (g : Gen V) (mem : Nat → W) (v : V) (cs : List Call) :
    (calls N M polar fuel cs (clearCache (reseed N s g))).map (·.1) =
      (calls N M polar fuel cs (create N s mem v)).map (·.1) := by
  apply same_calls hM hMN
  obtain ⟨X, p, ⟨s1, p1⟩, h2⟩ := at_reseed hMN hM s g ⟨mem, none, -1, false, v⟩
  exact ⟨⟨X, p, ⟨s1, p1⟩, h2⟩, rfl, fun h => by cases h⟩

/-- **C178** (reseeding only).  Without clearing the cache the first normal deviate after reseeding is the one
cached before, whatever the seed. -/
theorem C178_reseed_stale (N M : Nat) (polar : W → W → Option (V × V)) (fuel : Nat) (s : W) (g : Gen V)
    (hc : g.cached = true) :
    (normal N M polar (fuel + 1) (reseed N s g)).map (·.1) = some g.cacheValue := by
  have : (reseed N s g).cached = true := hc
  unfold normal
  rw [if_pos this]
  rfl

theorem rand_cache' (N M : Nat) (g : Gen V) :
    (rand N M g).2.cached = g.cached ∧ (rand N M g).2.cacheValue = g.cacheValue := by
  unfold rand
  by_cases h : g.left - 1 < 0
  · simp only [h, if_true]; exact ⟨rfl, rfl⟩
  · simp only [h, if_false]; exact ⟨trivial, trivial⟩

theorem rands_two (N M n : Nat) (g : Gen V) : rands N M (n + 1 + 1) g =
    ((rand N M g).1 :: (rand N M (rand N M g).2).1 :: (rands N M n (rand N M (rand N M g).2).2).1,
      (rands N M n (rand N M (rand N M g).2).2).2) := rfl

/-- **C178** (pairs).  With nothing cached, the first normal deviate is made from the first accepted pair of
words; the second one is the other number of the same pair and draws no word. -/
theorem C178_pair (N M : Nat) (polar : W → W → Option (V × V)) (fuel fuel' : Nat) (g : Gen V) (hc : g.cached = false)
    (v : V) (g' : Gen V) (h : normal N M polar fuel g = some (v, g')) :
    ∃ k c w1 w2, ∃ ws : List (W × W), (rands N M (2 * k + 2) g).1 = ws.flatMap (fun w => [w.1, w.2]) ++ [w1, w2] ∧
      (∀ w ∈ ws, polar w.1 w.2 = none) ∧ polar w1 w2 = some (c, v) ∧
      normal N M polar (fuel' + 1) g' = some (c, { g' with cached := false }) ∧
      { g' with cached := false, cacheValue := g.cacheValue } = (rands N M (2 * k + 2) g).2 := by
  induction fuel generalizing g with
  | zero => cases h
  | succ fuel ih =>
    unfold normal at h
    rw [hc] at h
    obtain ⟨c1, v1⟩ := rand_cache' N M g
    obtain ⟨c2, v2⟩ := rand_cache' N M (rand N M g).2
    simp only [Bool.false_eq_true, if_false] at h
    cases hp : polar (rand N M g).1 (rand N M (rand N M g).2).1 with
    | none =>
      rw [hp] at h
      obtain ⟨k, c, w1, w2, ws, h1, h2, h3, h4, h5⟩ := ih _ (by rw [c2, c1, hc]) h
      have e : 2 * (k + 1) + 2 = 2 * k + 2 + 1 + 1 := by omega
      refine ⟨k + 1, c, w1, w2, ((rand N M g).1, (rand N M (rand N M g).2).1) :: ws, ?_, ?_, h3, h4, ?_⟩
      · rw [e, rands_two]
        simp [h1]
      · intro w hw
        rcases List.mem_cons.1 hw with rfl | hw
        · exact hp
        · exact h2 w hw
      · rw [e, rands_two]
        rw [v2, v1] at h5
        simp [h5]
    | some cv =>
      obtain ⟨c, v'⟩ := cv
      rw [hp] at h
      injection h with h
      injection h with ha hb
      subst ha hb
      refine ⟨0, c, _, _, [], rfl, (fun w hw => nomatch hw), hp, ?_, ?_⟩
      · unfold normal; rfl
      · show _ = (rand N M (rand N M g).2).2
        rw [show (rand N M (rand N M g).2).2 = { (rand N M (rand N M g).2).2 with cached := (rand N M (rand N M g).2).2.cached, cacheValue := (rand N M (rand N M g).2).2.cacheValue } from rfl, c2, c1, hc, v2, v1]

/-- The generators a program can have: created, reseeded, used, restored from a print. -/
inductive Reach {P : Type} (N M : Nat) (polar : W → W → Option (V × V)) (pr : V → P) (rd : P → V) : Gen V → Prop
  | create (s mem v) : Reach N M polar pr rd (create N s mem v)
  | reseed {g} (s) : Reach N M polar pr rd g → Reach N M polar pr rd (reseed N s g)
  | rand {g} : Reach N M polar pr rd g → Reach N M polar pr rd (rand N M g).2
  | normal {g fuel v g'} : Reach N M polar pr rd g → normal N M polar fuel g = some (v, g') → Reach N M polar pr rd g'
  | clear {g} : Reach N M polar pr rd g → Reach N M polar pr rd (clearCache g)
  | restore {g g'} (junk) : Reach N M polar pr rd g → Reach N M polar pr rd g' →
      Reach N M polar pr rd (readFrom rd (printOn N pr junk g) g')

theorem at_restore {P : Type} {N M : Nat} {X : Nat → W} {p : Nat} {g : Gen V} (pr : V → P) (rd : P → V) (junk : Nat)
    (g' : Gen V) (h : At N M X p g) : At N M X p (readFrom rd (printOn N pr junk g) g') := by
  obtain ⟨hs, b, h1, h2⟩ := h
  refine ⟨hs, b, ?_, ?_⟩
  · intro k hk
    rw [← h1 k hk]
    simp [readFrom, printOn, hk]
  · rcases h2 with h2 | ⟨h3, h4, h5, h6⟩
    · exact .inl h2
    · refine .inr ⟨h3, h4, ?_, h6⟩
      simp [readFrom, printOn, h5]

theorem reach_at {P : Type} {N M : Nat} (hM : 0 < M) (hMN : M < N) {polar : W → W → Option (V × V)} {pr : V → P}
    {rd : P → V} {g : Gen V} (h : Reach N M polar pr rd g) : ∃ X p, At N M X p g := by
  induction h with
  | create s mem v =>
    obtain ⟨X, p, h1, _⟩ := at_reseed hMN hM s ⟨mem, none, -1, false, v⟩ ⟨mem, none, -1, false, v⟩
    exact ⟨X, p, h1⟩
  | @reseed g s _ _ =>
    obtain ⟨X, p, h1, _⟩ := at_reseed hMN hM s g g
    exact ⟨X, p, h1⟩
  | rand _ ih =>
    obtain ⟨X, p, h⟩ := ih
    exact ⟨X, p + 1, (at_rand hM hMN h).2.1⟩
  | @normal g fuel v g' _ he ih =>
    obtain ⟨X, p, h⟩ := ih
    rcases same_normal hM hMN polar fuel (⟨⟨X, p, h, h⟩, rfl, fun _ => rfl⟩ : Same N M g g) with
      ⟨e1, _⟩ | ⟨_, a, b, e1, _, h1⟩
    · rw [e1] at he; cases he
    · rw [e1] at he
      cases he
      obtain ⟨X, p, h, _⟩ := h1.pos
      exact ⟨X, p, h⟩
  | clear _ ih =>
    obtain ⟨X, p, ⟨s1, p1⟩⟩ := ih
    exact ⟨X, p, ⟨s1, p1⟩⟩
  | restore junk _ _ ih _ =>
    obtain ⟨X, p, h⟩ := ih
    exact ⟨X, p, at_restore pr rd junk _ h⟩

/-- **C178** (restoring).  A generator restored from what another one printed returns the same from then on —
words and deviates — if nothing is cached or the cached deviate survives printing. -/
theorem C178_restored {P : Type} (N M : Nat) (hM : 0 < M) (hMN : M < N) (polar : W → W → Option (V × V)) (fuel : Nat)
    (pr : V → P) (rd : P → V) (g g' : Gen V) (hg : Reach N M polar pr rd g) (junk : Nat)
    (hv : g.cached = true → rd (pr g.cacheValue) = g.cacheValue) (cs : List Call) :
    (calls N M polar fuel cs (readFrom rd (printOn N pr junk g) g')).map (·.1) =
      (calls N M polar fuel cs g).map (·.1) := by
  apply same_calls hM hMN
  obtain ⟨X, p, h⟩ := reach_at hM hMN hg
  exact ⟨⟨X, p, at_restore pr rd junk g' h, h⟩, rfl, fun hc => hv hc⟩

/-- **C178** (restoring with a cached deviate).  The first deviate of the restored generator is the cached one
as printed and read: with the default six digits not the one the other generator returns.  The words drawn are
the same in any case. -/
theorem C178_restored_cached {P : Type} (N M : Nat) (hM : 0 < M) (hMN : M < N) (polar : W → W → Option (V × V))
    (fuel : Nat) (pr : V → P) (rd : P → V) (g g' : Gen V) (hg : Reach N M polar pr rd g) (junk n : Nat) :
    (rands N M n (readFrom rd (printOn N pr junk g) g')).1 = (rands N M n g).1 ∧
    (g.cached = true →
      (normal N M polar (fuel + 1) (readFrom rd (printOn N pr junk g) g')).map (·.1) = some (rd (pr g.cacheValue)) ∧
      (normal N M polar (fuel + 1) g).map (·.1) = some g.cacheValue) := by
  obtain ⟨X, p, h⟩ := reach_at hM hMN hg
  refine ⟨?_, fun hc => ⟨?_, ?_⟩⟩
  · rw [(at_rands hM hMN n h).1, (at_rands hM hMN n (at_restore pr rd junk g' h)).1]
  · have : (readFrom rd (printOn N pr junk g) g').cached = true := hc
    unfold normal
    rw [if_pos this]
    rfl
  · unfold normal
    rw [if_pos hc]
    rfl

/-- A deviate of more digits than are printed (here: rounded to multiples of ten). -/
example : ∃ g : Gen Nat, Reach 3 2 (fun w _ => some (w.toNat, 17)) (fun v => v / 10) (fun v => 10 * v) g ∧
    g.cached = true ∧ (10 * (g.cacheValue / 10)) ≠ g.cacheValue := by
  refine ⟨_, .normal (fuel := 1) (.create 5#32 (fun _ => 0#32) 0) rfl, rfl, ?_⟩
  decide +kernel

end Paradiseo.Rng
