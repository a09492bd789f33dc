import Verif.Model.Rng
import Mathlib.Tactic.Linarith
import Mathlib.Tactic.Ring
/-
Helper lemmas for the random number generator.
-/
namespace Paradiseo.Rng

variable {V : Type}

/-- The sequence of the recurrence of the Mersenne Twister that starts with the words `a`. -/
structure IsSeq (N M : Nat) (a : Nat → W) (X : Nat → W) : Prop where
  start : ∀ k < N, X k = a k
  step : ∀ k, X (k + N) = X (k + M) ^^^ twist (X k) (X (k + 1))

theorem isSeq_unique {N M : Nat} (h2 : 2 ≤ N) (hMN : M < N) {a X Y : Nat → W} (hX : IsSeq N M a X)
    (hY : IsSeq N M a Y) : X = Y := by
  funext k
  induction k using Nat.strong_induction_on with
  | _ k ih =>
    by_cases hk : k < N
    · rw [hX.start k hk, hY.start k hk]
    · obtain ⟨j, rfl⟩ : ∃ j, k = j + N := ⟨k - N, by omega⟩
      rw [hX.step, hY.step, ih (j + M) (by omega), ih j (by omega), ih (j + 1) (by omega)]

/-- Such a sequence exists. -/
theorem isSeq_exists {N M : Nat} (h2 : 2 ≤ N) (hMN : M < N) (a : Nat → W) : ∃ X, IsSeq N M a X := by
  have key : ∀ n, ∃ X : Nat → W, (∀ k < N, X k = a k) ∧
      ∀ k, k + N < n → X (k + N) = X (k + M) ^^^ twist (X k) (X (k + 1)) := by
    intro n
    induction n with
    | zero => exact ⟨a, fun _ _ => rfl, fun k hk => absurd hk (by omega)⟩
    | succ n ih =>
      obtain ⟨X, h1, h3⟩ := ih
      by_cases hn : n < N
      · exact ⟨X, h1, fun k hk => absurd hk (by omega)⟩
      · refine ⟨fun k => if k = n then X (n - N + M) ^^^ twist (X (n - N)) (X (n - N + 1)) else X k, ?_, ?_⟩
        · intro k hk
          simp only
          rw [if_neg (by omega), h1 k hk]
        · intro k hk
          simp only
          rw [if_neg (show ¬ k + M = n by omega), if_neg (show ¬ k = n by omega), if_neg (show ¬ k + 1 = n by omega)]
          by_cases hkn : k + N = n
          · rw [if_pos hkn]
            have : n - N = k := by omega
            rw [this]
          · rw [if_neg hkn]; exact h3 k (by omega)
  choose F hF1 hF2 using key
  have agree : ∀ n m k, k < n → k < m → F n k = F m k := by
    intro n m k
    induction k using Nat.strong_induction_on with
    | _ k ih =>
      intro hn hm
      by_cases hk : k < N
      · rw [hF1 n k hk, hF1 m k hk]
      · obtain ⟨j, rfl⟩ : ∃ j, k = j + N := ⟨k - N, by omega⟩
        rw [hF2 n j hn, hF2 m j hm, ih (j + M) (by omega) (by omega) (by omega),
          ih j (by omega) (by omega) (by omega), ih (j + 1) (by omega) (by omega) (by omega)]
  refine ⟨fun k => F (k + 1) k, fun k hk => hF1 _ k hk, fun k => ?_⟩
  rw [hF2 (k + N + 1) k (by omega), agree (k + N + 1) (k + M + 1) (k + M) (by omega) (by omega),
    agree (k + N + 1) (k + 1) k (by omega) (by omega),
    agree (k + N + 1) (k + 1 + 1) (k + 1) (by omega) (by omega)]

section Restart

variable {N M : Nat} {X : Nat → W}

/-- Invariant of the two loops of `restart` before turn `i`; `d` is how far `pM` is behind or ahead. -/
structure Inv (N : Nat) (X : Nat → W) (i : Nat) (r : RS) : Prop where
  p0 : r.p0 = i
  p2 : r.p2 = i + 2
  s0 : r.s0 = X i
  s1 : i + 1 < N → r.s1 = X (i + 1)
  old : ∀ k < i, r.a k = X (k + N)
  new : ∀ k, i ≤ k → k < N → r.a k = X k

theorem Inv.turn (hstep : ∀ k, X (k + N) = X (k + M) ^^^ twist (X k) (X (k + 1))) {i : Nat} {r : RS}
    (h : Inv N X i r) (hi : i + 1 < N) (hp : r.a r.pM = X (i + M)) : Inv N X (i + 1) r.turn := by
  obtain ⟨h0, h2, hs0, hs1, ho, hn⟩ := h
  have hval : r.a r.pM ^^^ twist r.s0 r.s1 = X (i + N) := by rw [hp, hs0, hs1 hi, hstep i]
  refine ⟨by simp [RS.turn, h0], by simp [RS.turn, h2], by simp [RS.turn, hs1 hi], ?_, ?_, ?_⟩
  · intro hi2
    simp only [RS.turn, upd, h0, h2]
    rw [if_neg (by omega), hn (i + 2) (by omega) hi2]
  · intro k hk
    simp only [RS.turn, upd, h0]
    by_cases hki : k = i
    · rw [if_pos hki, hval, hki]
    · rw [if_neg hki, ho k (by omega)]
  · intro k hk hkN
    simp only [RS.turn, upd, h0]
    rw [if_neg (by omega), hn k (by omega) hkN]

theorem loop1 (hstep : ∀ k, X (k + N) = X (k + M) ^^^ twist (X k) (X (k + 1))) (hM : 0 < M) (n i : Nat) (r : RS)
    (h : Inv N X i r) (hpM : r.pM = M + i) (hn : i + n + M ≤ N) : Inv N X (i + n) (RS.turns n r) := by
  induction n generalizing i r with
  | zero => exact h
  | succ n ih =>
    have ht := h.turn hstep (by omega) (by rw [hpM, h.new (M + i) (by omega) (by omega), Nat.add_comm])
    have := ih (i + 1) r.turn ht (by simp [RS.turn, hpM]; omega) (by omega)
    rw [show i + (n + 1) = i + 1 + n by omega]
    exact this

theorem loop2 (hstep : ∀ k, X (k + N) = X (k + M) ^^^ twist (X k) (X (k + 1))) (hMN : M < N) (n i : Nat) (r : RS)
    (h : Inv N X i r) (hpM : r.pM + N = i + M) (hn : i + n + 1 ≤ N) :
    Inv N X (i + n) (RS.turns n r) ∧ (RS.turns n r).pM + N = i + n + M := by
  induction n generalizing i r with
  | zero => exact ⟨h, hpM⟩
  | succ n ih =>
    have ht := h.turn hstep (by omega) (by rw [h.old r.pM (by omega), hpM])
    have := ih (i + 1) r.turn ht (by simp [RS.turn]; omega) (by omega)
    rw [show i + (n + 1) = i + 1 + n by omega]
    exact this

/-- `restart` replaces the words by the next N of the sequence. -/
theorem restart_spec (hM : 0 < M) (hMN : M < N) (g : Gen V) (hX : IsSeq N M g.state X) :
    (restart N M g).1 = temper (X N) ∧ (restart N M g).2.left = (N : Int) - 1 ∧
      (restart N M g).2.next = some 1 ∧ (∀ k < N, (restart N M g).2.state k = X (k + N)) ∧
      (restart N M g).2.cached = g.cached ∧ (restart N M g).2.cacheValue = g.cacheValue := by
  have h0 : Inv N X 0 ⟨0, 2, M, g.state 0, g.state 1, g.state⟩ := by
    refine ⟨rfl, rfl, (hX.start 0 (by omega)).symm, fun h => (hX.start 1 h).symm, fun k hk => absurd hk (by omega), ?_⟩
    intro k _ hk
    exact (hX.start k hk).symm
  have h1 := loop1 hX.step hM (N - M) 0 _ h0 (by simp) (by omega)
  rw [Nat.zero_add] at h1
  have h1' : Inv N X (N - M) { RS.turns (N - M) ⟨0, 2, M, g.state 0, g.state 1, g.state⟩ with pM := 0 } :=
    ⟨h1.p0, h1.p2, h1.s0, h1.s1, h1.old, h1.new⟩
  obtain ⟨h2, h3⟩ := loop2 hX.step hMN (M - 1) (N - M) _ h1' (by simp; omega) (by omega)
  have e : N - M + (M - 1) = N - 1 := by omega
  rw [e] at h2 h3
  have ha0 := h2.old 0 (by omega)
  rw [Nat.zero_add] at ha0
  unfold restart
  simp only
  generalize RS.turns (M - 1) { RS.turns (N - M) ⟨0, 2, M, g.state 0, g.state 1, g.state⟩ with pM := 0 } = r at *
  refine ⟨by rw [ha0], trivial, trivial, ?_, trivial, trivial⟩
  intro k hk
  simp only [upd, h2.p0]
  by_cases hkN : k = N - 1
  · rw [if_pos hkN, h2.old r.pM (by omega), h3, h2.s0, ha0]
    have := hX.step (N - 1)
    rw [show N - 1 + 1 = N by omega] at this
    rw [hkN, this]
  · rw [if_neg hkN, h2.old k (by omega)]

/-- The generator delivers the sequence `X` from index `p` on: the words hold `X b, …, X (b + N - 1)`. -/
structure At (N M : Nat) (X : Nat → W) (p : Nat) (g : Gen V) : Prop where
  step : ∀ k, X (k + N) = X (k + M) ^^^ twist (X k) (X (k + 1))
  pos : ∃ b, (∀ k < N, g.state k = X (b + k)) ∧
    ((g.left ≤ 0 ∧ p = b + N) ∨
      (0 < g.left ∧ g.left < N ∧ g.next = some (N - g.left.toNat) ∧ p + g.left.toNat = b + N))

theorem at_rand (hM : 0 < M) (hMN : M < N) {p : Nat} {g : Gen V} (h : At N M X p g) :
    (rand N M g).1 = temper (X p) ∧ At N M X (p + 1) (rand N M g).2 ∧
      (rand N M g).2.cached = g.cached ∧ (rand N M g).2.cacheValue = g.cacheValue := by
  obtain ⟨hstep, b, hst, hl⟩ := h
  rcases hl with ⟨hl, rfl⟩ | ⟨hl, hlN, hn, hp⟩
  · -- restart
    have hX : IsSeq N M g.state (fun k => X (b + k)) :=
      ⟨fun k hk => (hst k hk).symm, fun k => by
        rw [← Nat.add_assoc, hstep (b + k), Nat.add_assoc, Nat.add_assoc]⟩
    have hX' : IsSeq N M ({ g with left := g.left - 1 } : Gen V).state (fun k => X (b + k)) := hX
    obtain ⟨r1, r2, r3, r4, r5, r6⟩ := restart_spec hM hMN _ hX'
    have e : rand N M g = restart N M { g with left := g.left - 1 } := by
      unfold rand
      simp only
      rw [if_pos (by omega)]
    rw [e]
    refine ⟨r1, ⟨hstep, b + N, ?_, ?_⟩, r5, r6⟩
    · intro k hk
      rw [r4 k hk]
      congr 1
      omega
    · rw [r2, r3]
      by_cases hN : N = 1
      · left; omega
      · right
        refine ⟨by omega, by omega, ?_, by omega⟩
        congr 1
        omega
  · have e : rand N M g = (temper (g.state (N - g.left.toNat)),
        { g with left := g.left - 1, next := some (N - g.left.toNat + 1) }) := by
      unfold rand
      simp only
      rw [if_neg (by omega), hn]
      rfl
    rw [e]
    refine ⟨?_, ⟨hstep, b, hst, ?_⟩, rfl, rfl⟩
    · simp only
      rw [hst _ (by omega), show b + (N - g.left.toNat) = p by omega]
    · simp only
      by_cases h1 : g.left = 1
      · left; omega
      · right
        refine ⟨by omega, by omega, ?_, by omega⟩
        congr 1
        omega

theorem at_rands (hM : 0 < M) (hMN : M < N) (n : Nat) {p : Nat} {g : Gen V} (h : At N M X p g) :
    (rands N M n g).1 = (List.range n).map (fun i => temper (X (p + i))) ∧ At N M X (p + n) (rands N M n g).2 ∧
      (rands N M n g).2.cached = g.cached ∧ (rands N M n g).2.cacheValue = g.cacheValue := by
  induction n generalizing p g with
  | zero => exact ⟨rfl, h, rfl, rfl⟩
  | succ n ih =>
    obtain ⟨h1, h2, h3, h4⟩ := at_rand hM hMN h
    obtain ⟨i1, i2, i3, i4⟩ := ih h2
    have e : rands N M (n + 1) g = ((rand N M g).1 :: (rands N M n (rand N M g).2).1,
        (rands N M n (rand N M g).2).2) := rfl
    rw [e]
    refine ⟨?_, by rw [show p + (n + 1) = p + 1 + n by omega]; exact i2, i3.trans h3, i4.trans h4⟩
    simp only
    rw [h1, i1, List.range_succ_eq_map, List.map_cons, List.map_map]
    congr 1
    apply List.map_congr_left
    intro k _
    simp only [Function.comp]
    congr 2
    omega

end Restart

/-! ### Seeding -/

theorem fill_spec (n i : Nat) (x : W) (a : Nat → W) (k : Nat) :
    fill n i x a k = if i ≤ k ∧ k < i + n then x * 69069#32 ^ (k - i + 1) else a k := by
  induction n generalizing i x a with
  | zero => rw [if_neg (by omega)]; rfl
  | succ n ih =>
    rw [fill, ih]
    by_cases hk : k = i
    · subst hk
      rw [if_neg (by omega), if_pos (by omega)]
      simp [upd]
    · by_cases h2 : i + 1 ≤ k ∧ k < i + 1 + n
      · rw [if_pos h2, if_pos (by omega)]
        rw [show k - i + 1 = (k - (i + 1) + 1) + 1 by omega, BitVec.pow_succ (x := 69069#32) (n := k - (i + 1) + 1)]
        rw [BitVec.mul_assoc, BitVec.mul_comm (69069#32)]
      · rw [if_neg h2, if_neg (by omega)]
        simp [upd, hk]

theorem init_state (N : Nat) (hN : 0 < N) (seed : W) (g : Gen V) (k : Nat) (hk : k < N) :
    (initState N seed g).state k = (seed ||| 1#32) * 69069#32 ^ k := by
  unfold initState
  simp only
  rw [fill_spec]
  by_cases h0 : k = 0
  · subst h0
    rw [if_neg (by omega)]
    simp [upd]
  · rw [if_pos (by omega)]
    congr 2
    omega

/-! ### Bits -/

theorem xor_cancel {a b c : Bool} (h : (a ^^ c) = (b ^^ c)) : a = b := by
  cases a <;> cases b <;> cases c <;> simp_all

theorem shiftRight_inj {x y : W} {k : Nat} (hk : 0 < k) (h : x ^^^ (x >>> k) = y ^^^ (y >>> k)) : x = y := by
  have key : ∀ n i, 32 ≤ i + n → x.getLsbD i = y.getLsbD i := by
    intro n
    induction n using Nat.strong_induction_on with
    | _ n ih =>
      intro i hi
      by_cases h32 : 32 ≤ i
      · rw [BitVec.getLsbD_of_ge x i h32, BitVec.getLsbD_of_ge y i h32]
      · have e := congrArg (fun z : W => z.getLsbD i) h
        simp only [BitVec.getLsbD_xor, BitVec.getLsbD_ushiftRight] at e
        rw [ih (n - 1) (by omega) (k + i) (by omega)] at e
        exact xor_cancel e
  apply BitVec.eq_of_getLsbD_eq
  intro i _
  exact key 32 i (by omega)

theorem shiftLeft_inj {x y m : W} {k : Nat} (hk : 0 < k)
    (h : x ^^^ ((x <<< k) &&& m) = y ^^^ ((y <<< k) &&& m)) : x = y := by
  have key : ∀ i, i < 32 → x.getLsbD i = y.getLsbD i := by
    intro i
    induction i using Nat.strong_induction_on with
    | _ i ih =>
      intro hi
      have e := congrArg (fun z : W => z.getLsbD i) h
      simp only [BitVec.getLsbD_xor, BitVec.getLsbD_and, BitVec.getLsbD_shiftLeft] at e
      by_cases hik : i < k
      · simp only [hik, decide_true, Bool.not_true, Bool.and_false, Bool.false_and, Bool.xor_false] at e
        exact e
      · rw [ih (i - k) (by omega) (by omega)] at e
        exact xor_cancel e
  exact BitVec.eq_of_getLsbD_eq key

/-- The tempering loses nothing. -/
theorem temper_inj {x y : W} (h : temper x = temper y) : x = y := by
  unfold temper at h
  simp only at h
  exact shiftRight_inj (by decide) (shiftLeft_inj (by decide) (shiftLeft_inj (by decide)
    (shiftRight_inj (by decide) h)))

theorem mask_hi (i : Nat) : (0x80000000#32).getLsbD i = decide (i = 31) := by
  by_cases h : i < 32
  · revert i; decide
  · rw [BitVec.getLsbD_of_ge _ i (by omega)]; simp; omega

theorem mask_lo (i : Nat) : (0x7FFFFFFF#32).getLsbD i = decide (i < 31) := by
  by_cases h : i < 32
  · revert i; decide
  · rw [BitVec.getLsbD_of_ge _ i (by omega)]; simp; omega

theorem mixBits_bit (u v : W) (i : Nat) :
    (mixBits u v).getLsbD i = if i = 31 then u.getLsbD 31 else if i < 31 then v.getLsbD i else false := by
  unfold mixBits
  rw [BitVec.getLsbD_or, BitVec.getLsbD_and, BitVec.getLsbD_and, mask_hi, mask_lo]
  by_cases h : i = 31
  · subst h; simp
  · by_cases h2 : i < 31 <;> simp [h, h2]

theorem lo_bit (v : W) : (v &&& 0x00000001#32 ≠ 0#32) ↔ v.getLsbD 0 = true := by
  constructor
  · intro h
    by_contra hb
    apply h
    apply BitVec.eq_of_getLsbD_eq
    intro i hi
    rw [BitVec.getLsbD_and]
    by_cases h0 : i = 0
    · subst h0; simp at hb; simp [hb]
    · have : (0x00000001#32).getLsbD i = false := by revert i; decide
      rw [this]; simp
  · intro h e
    have := congrArg (fun z : W => z.getLsbD 0) e
    simp only [BitVec.getLsbD_and, h] at this
    revert this; decide

/-- The twist determines the highest bit of its first word and the others of its second. -/
theorem twist_inj {u v u' v' : W} (h : twist u v = twist u' v') :
    u.getLsbD 31 = u'.getLsbD 31 ∧ ∀ i < 31, v.getLsbD i = v'.getLsbD i := by
  have bit : ∀ (u v : W) (i : Nat), (twist u v).getLsbD i =
      ((mixBits u v).getLsbD (1 + i) ^^ (v.getLsbD 0 && K.getLsbD i)) := by
    intro u v i
    unfold twist
    rw [BitVec.getLsbD_xor, BitVec.getLsbD_ushiftRight]
    by_cases hv : v &&& 0x00000001#32 ≠ 0#32
    · rw [if_pos hv, (lo_bit v).1 hv]; simp
    · have : v.getLsbD 0 = false := by
        rw [← Bool.not_eq_true, ← lo_bit]; exact hv
      rw [if_neg hv, this]; simp
  have h0 : v.getLsbD 0 = v'.getLsbD 0 := by
    have e := congrArg (fun z : W => z.getLsbD 31) h
    simp only [bit, mixBits_bit] at e
    have hK : K.getLsbD 31 = true := by decide
    rw [if_neg (by omega), if_neg (by omega), if_neg (by omega), if_neg (by omega)] at e
    simpa only [hK, Bool.and_true, Bool.false_xor] using e
  have hm : ∀ i, (mixBits u v).getLsbD (1 + i) = (mixBits u' v').getLsbD (1 + i) := by
    intro i
    have e := congrArg (fun z : W => z.getLsbD i) h
    simp only [bit, h0] at e
    exact xor_cancel e
  constructor
  · have := hm 30
    rw [mixBits_bit, mixBits_bit, if_pos rfl, if_pos rfl] at this
    exact this
  · intro i hi
    by_cases hi0 : i = 0
    · rw [hi0, h0]
    · have := hm (i - 1)
      rw [show 1 + (i - 1) = i by omega, mixBits_bit, mixBits_bit] at this
      have n31 : ¬ i = 31 := by omega
      simp only [n31, hi, if_true, if_false] at this
      exact this

/-- The first N numbers determine the words behind them: all but the low bits of the first. -/
theorem seq_back {N M : Nat} (hM : 2 ≤ M) (hMN : M < N) {X Y : Nat → W}
    (hX : ∀ k, X (k + N) = X (k + M) ^^^ twist (X k) (X (k + 1)))
    (hY : ∀ k, Y (k + N) = Y (k + M) ^^^ twist (Y k) (Y (k + 1)))
    (h : ∀ i < N, X (N + i) = Y (N + i)) : ∀ k, 1 ≤ k → k < N → X k = Y k := by
  have glue : ∀ {a b : W}, a.getLsbD 31 = b.getLsbD 31 → (∀ i < 31, a.getLsbD i = b.getLsbD i) → a = b := by
    intro a b h1 h2
    apply BitVec.eq_of_getLsbD_eq
    intro i hi
    by_cases h3 : i = 31
    · rw [h3, h1]
    · exact h2 i (by omega)
  have key : ∀ n k, k + n + 1 = N → (X k).getLsbD 31 = (Y k).getLsbD 31 ∧
      ∀ i < 31, (X (k + 1)).getLsbD i = (Y (k + 1)).getLsbD i := by
    intro n
    induction n using Nat.strong_induction_on with
    | _ n ih =>
      intro k hk
      have hmid : X (k + M) = Y (k + M) := by
        by_cases hkM : N ≤ k + M
        · have := h (k + M - N) (by omega)
          rw [show N + (k + M - N) = k + M by omega] at this
          exact this
        · have i1 := (ih (N - 1 - (k + M)) (by omega) (k + M) (by omega)).1
          have i2 := (ih (N - 1 - (k + M - 1)) (by omega) (k + M - 1) (by omega)).2
          rw [show k + M - 1 + 1 = k + M by omega] at i2
          exact glue i1 i2
      have hk2 := h k (by omega)
      rw [Nat.add_comm N k, hX k, hY k, hmid] at hk2
      exact twist_inj (by
        have := congrArg (fun z => Y (k + M) ^^^ z) hk2
        simpa [← BitVec.xor_assoc] using this)
  intro k h1 hk
  have i1 := (key (N - 1 - k) k (by omega)).1
  have i2 := (key (N - k) (k - 1) (by omega)).2
  rw [show k - 1 + 1 = k by omega] at i2
  exact glue i1 i2

/-! ### Seeds -/

theorem seed_word (s t : W) : (2#32 * s ||| 1#32) = (2#32 * t ||| 1#32) ↔ s.toNat % 2 ^ 31 = t.toNat % 2 ^ 31 := by
  have e2 : ∀ s : W, 2#32 * s = s <<< 1 := by
    intro s
    apply BitVec.eq_of_toNat_eq
    rw [BitVec.toNat_mul, BitVec.toNat_shiftLeft, Nat.shiftLeft_eq]
    simp only [BitVec.toNat_ofNat]
    omega
  have bit : ∀ (s : W) (i : Nat), (2#32 * s ||| 1#32).getLsbD i =
      if i = 0 then true else if i < 32 then s.getLsbD (i - 1) else false := by
    intro s i
    rw [e2, BitVec.getLsbD_or, BitVec.getLsbD_shiftLeft]
    by_cases h0 : i = 0
    · subst h0; simp
    · by_cases h32 : i < 32
      · have : (1#32).getLsbD i = false := by
          have : ∀ j < 32, j ≠ 0 → (1#32).getLsbD j = false := by decide
          exact this i h32 h0
        have h1 : ¬ i < 1 := by omega
        simp [h0, h32, this, h1]
      · rw [BitVec.getLsbD_of_ge (1#32) i (by omega)]
        simp [h0, h32]
  have low : ∀ s : W, s.toNat % 2 ^ 31 = (s.setWidth 31).toNat := by
    intro s; rw [BitVec.toNat_setWidth]
  rw [low, low]
  constructor
  · intro h
    congr 1
    apply BitVec.eq_of_getLsbD_eq
    intro i hi
    have e := congrArg (fun z : W => z.getLsbD (i + 1)) h
    simp only [bit] at e
    have h1 : ¬ i + 1 = 0 := by omega
    have h2 : i + 1 < 32 := by omega
    simp only [h1, h2, if_true, if_false, Nat.add_sub_cancel] at e
    simpa [BitVec.getLsbD_setWidth, hi] using e
  · intro h
    have h := BitVec.eq_of_toNat_eq h
    apply BitVec.eq_of_getLsbD_eq
    intro i hi
    rw [bit, bit]
    by_cases h0 : i = 0
    · simp [h0]
    · rw [if_neg h0, if_neg h0, if_pos hi, if_pos hi]
      have e := congrArg (fun z : BitVec 31 => z.getLsbD (i - 1)) h
      simpa [BitVec.getLsbD_setWidth, show i - 1 < 31 by omega] using e

theorem mul_inj {x y : W} (h : x * 69069#32 = y * 69069#32) : x = y := by
  have hinv : ∃ c : W, 69069#32 * c = 1#32 := ⟨2783094533#32, by decide⟩
  obtain ⟨c, hc⟩ := hinv
  have := congrArg (· * c) h
  simp only [BitVec.mul_assoc, hc, BitVec.mul_one] at this
  exact this

theorem at_init {N M : Nat} {X : Nat → W} (seed : W) (g : Gen V)
    (hX : IsSeq N M (initState N seed g).state X) : At N M X N (initState N seed g) :=
  ⟨hX.step, 0, fun k hk => by rw [Nat.zero_add, hX.start k hk], .inl ⟨le_refl _, by omega⟩⟩

end Paradiseo.Rng
