import Verif.Model.SmpTopology
import Mathlib.Logic.Relation
import Mathlib.Tactic.Linarith
import Mathlib.Tactic.FieldSimp
import Mathlib.Tactic.Ring
import Mathlib.Tactic.NormNum
import Mathlib.Data.Nat.Prime.Basic

/-! Lemmas on the matrices of the smp topologies. -/

namespace Paradiseo.Smp

/-- An `n` by `n` matrix. -/
def Square {α : Type} (m : Matrix α) (n : Nat) : Prop :=
  m.length = n ∧ ∀ i, (h : i < m.length) → m[i].length = n

variable {α : Type}

theorem square_filled (n : Nat) (b : Bool) : Square (filled n b) n := by
  refine ⟨by simp [filled], ?_⟩
  intro i h
  simp [filled]

theorem square_setM {m : Matrix α} {n : Nat} (h : Square m n) (i j : Nat) (b : α) :
    Square (setM m i j b) n := by
  obtain ⟨h1, h2⟩ := h
  refine ⟨by simp [setM, h1], ?_⟩
  intro k hk
  have hk' : k < m.length := by simpa [setM] using hk
  simp only [setM, List.getElem_modify]
  split
  · simp [h2 k hk']
  · exact h2 k hk'

theorem getM_setM {m : Matrix α} {n : Nat} (h : Square m n) (d : α) {i j : Nat} (hi : i < n)
    (hj : j < n) (b : α) (i' j' : Nat) :
    getM d (setM m i j b) i' j' = if i' = i ∧ j' = j then b else getM d m i' j' := by
  obtain ⟨h1, h2⟩ := h
  subst h1
  have hrow := h2 i hi
  unfold getM setM
  by_cases hi' : i' = i
  · subst hi'
    rw [List.getElem?_modify]
    simp only [if_true, List.getElem?_eq_getElem hi, Option.map_eq_map, Option.map_some,
      Option.getD_some, true_and]
    by_cases hj' : j' = j
    · subst hj'
      rw [List.getElem?_set_self (by omega)]
      simp
    · rw [List.getElem?_set_ne (by omega)]
      simp [hj']
  · rw [List.getElem?_modify]
    have : ¬ i = i' := fun h => hi' h.symm
    simp only [this, if_false, hi', false_and]
    cases m[i']? <;> rfl

theorem getM_out {m : Matrix α} {n : Nat} (h : Square m n) (d : α) {i j : Nat}
    (hij : n ≤ i ∨ n ≤ j) : getM d m i j = d := by
  obtain ⟨h1, h2⟩ := h
  unfold getM
  rcases hij with hi | hj
  · rw [List.getElem?_eq_none (l := m) (by omega)]
    simp
  · by_cases hi : i < m.length
    · rw [List.getElem?_eq_getElem hi]
      simp only [Option.getD_some]
      rw [List.getElem?_eq_none (by rw [h2 i hi]; omega)]
      rfl
    · rw [List.getElem?_eq_none (l := m) (by omega)]
      simp

theorem getM_filled (n : Nat) (b : Bool) (i j : Nat) (hi : i < n) (hj : j < n) :
    getM false (filled n b) i j = b := by
  simp [getM, filled, hi, hj]

/-- Invariant rule for a `foldl` loop. -/
theorem foldl_inv {β γ : Type} (f : β → γ → β) (P : List γ → β → Prop) (l : List γ) (b : β)
    (h0 : P [] b)
    (hs : ∀ (done : List γ) (x : γ) (todo : List γ) (b : β), l = done ++ x :: todo → P done b →
      P (done ++ [x]) (f b x)) : P l (l.foldl f b) := by
  suffices h : ∀ (todo done : List γ) (b : β), l = done ++ todo → P done b →
      P l (todo.foldl f b) by
    exact h l [] b rfl h0
  intro todo
  induction todo with
  | nil => intro done b hl hP; simpa [hl] using hP
  | cons x todo ih =>
    intro done b hl hP
    exact ih (done ++ [x]) (f b x) (by simp [hl]) (hs done x todo b hl hP)

theorem mem_neighbors {m : Matrix Bool} {n : Nat} (h : Square m n) (i j : Nat) :
    j ∈ neighbors m i ↔ j < n ∧ getM false m i j = true := by
  simp [neighbors, h.1]

theorem square_fold {γ : Type} {n : Nat} (f : Matrix α → γ → Matrix α)
    (hf : ∀ (m : Matrix α) (x : γ), Square m n → Square (f m x) n) (l : List γ) {m : Matrix α}
    (h : Square m n) : Square (l.foldl f m) n := by
  induction l generalizing m with
  | nil => exact h
  | cons x l ih => exact ih (hf m x h)

/-! Complete and ring. -/

theorem complete_spec (n : Nat) : Square (complete n) n ∧
    ∀ i j, i < n → j < n → getM false (complete n) i j = decide (i ≠ j) := by
  have key := foldl_inv completeStep
    (fun done m => Square m n ∧ ∀ i j, i < n → j < n →
      getM false m i j = decide (¬ (i = j ∧ i ∈ done))) (List.range n) (filled n true)
    ⟨square_filled n true, fun i j hi hj => by simp [getM_filled n true i j hi hj]⟩
    (by
      intro done x todo m hl ⟨hsq, hget⟩
      have hx : x < n := List.mem_range.mp (hl ▸ by simp)
      refine ⟨square_setM hsq _ _ _, ?_⟩
      intro i j hi hj
      rw [completeStep, getM_setM hsq false hx hx, hget i j hi hj]
      by_cases hxi : i = x
      · subst hxi
        by_cases hij : j = i
        · simp [hij]
        · have : ¬ i = j := fun h => hij h.symm
          simp [hij, this]
      · simp [hxi])
  refine ⟨key.1, ?_⟩
  intro i j hi hj
  have := key.2 i j hi hj
  rw [complete, this]
  simp [hi]

theorem ring_spec (n : Nat) : Square (ring n) n ∧
    ∀ i j, i < n → j < n → getM false (ring n) i j = decide (j = (i + 1) % n) := by
  have key := foldl_inv (ringStep n)
    (fun done m => Square m n ∧ ∀ i j, i < n → j < n →
      getM false m i j = decide (j = (i + 1) % n ∧ i ∈ done)) (List.range n) (filled n false)
    ⟨square_filled n false, fun i j hi hj => by simp [getM_filled n false i j hi hj]⟩
    (by
      intro done x todo m hl ⟨hsq, hget⟩
      have hx : x < n := List.mem_range.mp (hl ▸ by simp)
      refine ⟨square_setM hsq _ _ _, ?_⟩
      intro i j hi hj
      rw [ringStep, getM_setM hsq false hx (Nat.mod_lt _ (by omega)), hget i j hi hj]
      by_cases hxi : i = x
      · subst hxi
        by_cases hij : j = (i + 1) % n
        · simp [hij]
        · simp [hij]
      · simp [hxi])
  refine ⟨key.1, ?_⟩
  intro i j hi hj
  rw [ring, key.2 i j hi hj]
  simp [hi]

theorem star_spec {c n : Nat} {m : Matrix Bool} (h : star c n = .ok m) : c < n ∧ Square m n ∧
    ∀ i j, i < n → j < n → getM false m i j = decide (i ≠ c ∧ j = c) := by
  unfold star at h
  split at h
  · cases h
  rename_i hc
  push Not at hc
  cases h
  have hsq : Square (List.replicate n ((List.replicate n false).set c true)) n := by
    refine ⟨by simp, ?_⟩
    intro i hi
    simp
  refine ⟨hc, square_setM hsq _ _ _, ?_⟩
  intro i j hi hj
  rw [getM_setM hsq false hc hc]
  have hbase : getM false (List.replicate n ((List.replicate n false).set c true)) i j =
      decide (j = c) := by
    unfold getM
    simp only [List.getElem?_replicate, hi, if_true, Option.getD_some]
    by_cases hjc : j = c
    · subst hjc
      rw [List.getElem?_set_self (by simpa using hj)]
      simp
    · rw [List.getElem?_set_ne (by omega)]
      simp [hjc, hj]
  rw [hbase]
  by_cases hic : i = c <;> by_cases hjc : j = c <;> simp [hic, hjc]

/-! Hypercube. -/

/-- `i` and `j` differ in exactly one binary digit. -/
def OneBit (i j : Nat) : Prop :=
  ∃ k, i.testBit k ≠ j.testBit k ∧ ∀ l, l ≠ k → i.testBit l = j.testBit l

theorem oneBit_symm {i j : Nat} (h : OneBit i j) : OneBit j i := by
  obtain ⟨k, h1, h2⟩ := h
  exact ⟨k, fun h => h1 h.symm, fun l hl => (h2 l hl).symm⟩

theorem oneBit_irrefl (i : Nat) : ¬ OneBit i i := fun ⟨_, h, _⟩ => h rfl

theorem testBit_add {d x : Nat} (hx : x < 2 ^ d) (l : Nat) :
    (x + 2 ^ d).testBit l = if l = d then true else x.testBit l := by
  rw [Nat.add_comm]
  rcases Nat.lt_trichotomy l d with h | h | h
  · rw [Nat.testBit_two_pow_add_gt h, if_neg (by omega)]
  · subst h
    rw [Nat.testBit_two_pow_add_eq, Nat.testBit_lt_two_pow hx, if_pos rfl]
    rfl
  · have h1 : 2 ^ d + x < 2 ^ l := by
      have : 2 ^ (d + 1) ≤ 2 ^ l := Nat.pow_le_pow_right (by norm_num) h
      have : 2 ^ (d + 1) = 2 ^ d + 2 ^ d := by ring
      omega
    rw [Nat.testBit_lt_two_pow h1, if_neg (by omega), Nat.testBit_lt_two_pow (by omega)]

theorem oneBit_add_add {d x y : Nat} (hx : x < 2 ^ d) (hy : y < 2 ^ d) :
    OneBit (x + 2 ^ d) (y + 2 ^ d) ↔ OneBit x y := by
  constructor
  · rintro ⟨k, h1, h2⟩
    rw [testBit_add hx, testBit_add hy] at h1
    have hk : k ≠ d := by
      intro h
      rw [if_pos h, if_pos h] at h1
      exact h1 rfl
    rw [if_neg hk, if_neg hk] at h1
    refine ⟨k, h1, ?_⟩
    intro l hl
    have := h2 l hl
    rw [testBit_add hx, testBit_add hy] at this
    by_cases hld : l = d
    · subst hld
      rw [Nat.testBit_lt_two_pow hx, Nat.testBit_lt_two_pow hy]
    · rwa [if_neg hld, if_neg hld] at this
  · rintro ⟨k, h1, h2⟩
    have hk : k ≠ d := by
      intro h
      rw [h, Nat.testBit_lt_two_pow hx, Nat.testBit_lt_two_pow hy] at h1
      exact h1 rfl
    refine ⟨k, ?_, ?_⟩
    · rw [testBit_add hx, testBit_add hy, if_neg hk, if_neg hk]
      exact h1
    · intro l hl
      rw [testBit_add hx, testBit_add hy]
      by_cases hld : l = d
      · rw [if_pos hld, if_pos hld]
      · rw [if_neg hld, if_neg hld]
        exact h2 l hl

theorem oneBit_add {d x y : Nat} (hx : x < 2 ^ d) (hy : y < 2 ^ d) :
    OneBit x (y + 2 ^ d) ↔ x = y := by
  constructor
  · rintro ⟨k, h1, h2⟩
    have hk : k = d := by
      by_contra h
      have := h2 d (fun hd => h hd.symm)
      rw [testBit_add hy, if_pos rfl, Nat.testBit_lt_two_pow hx] at this
      cases this
    subst hk
    apply Nat.eq_of_testBit_eq
    intro l
    by_cases hl : l = k
    · subst hl
      rw [Nat.testBit_lt_two_pow hx, Nat.testBit_lt_two_pow hy]
    · have := h2 l hl
      rwa [testBit_add hy, if_neg hl] at this
  · rintro rfl
    refine ⟨d, ?_, ?_⟩
    · rw [testBit_add hx, if_pos rfl, Nat.testBit_lt_two_pow hx]
      simp
    · intro l hl
      rw [testBit_add hx, if_neg hl]

theorem mem_pairs (s : Nat) (p : Nat × Nat) : p ∈ pairs s ↔ p.1 < s ∧ p.2 < s := by
  obtain ⟨a, b⟩ := p
  simp [pairs]

/-- One step of the loop over the dimensions: the square block of size `s` is copied to the lower
right, the two other blocks become the identity. -/
theorem hyperDim_spec {m : Matrix Bool} {n d : Nat} (hsq : Square m n) (hn : 2 ^ (d + 1) ≤ n) :
    Square (hyperDim m d) n ∧ ∀ i j, i < 2 ^ d → j < 2 ^ d →
      getM false (hyperDim m d) i j = getM false m i j ∧
      getM false (hyperDim m d) (i + 2 ^ d) (j + 2 ^ d) = getM false m i j ∧
      getM false (hyperDim m d) (i + 2 ^ d) j = decide (i = j) ∧
      getM false (hyperDim m d) i (j + 2 ^ d) = decide (i = j) := by
  have hs : 1 <<< d = 2 ^ d := by rw [Nat.shiftLeft_eq, one_mul]
  have h2 : 2 ^ (d + 1) = 2 ^ d + 2 ^ d := by ring
  unfold hyperDim
  rw [hs]
  generalize 2 ^ d = s at *
  have key := foldl_inv (hyperStep s)
    (fun done m' => Square m' n ∧ (∀ i j, i < s → j < s → getM false m' i j = getM false m i j) ∧
      ∀ i j, (i, j) ∈ done → 
        getM false m' (i + s) (j + s) = getM false m i j ∧
        getM false m' (i + s) j = decide (i = j) ∧
        getM false m' i (j + s) = decide (i = j)) (pairs s) m
    ⟨hsq, fun i j _ _ => rfl, fun i j h => by simp at h⟩
    (by
      intro done p todo m' hl ⟨hq, hin, hout⟩
      obtain ⟨a, b⟩ := p
      have hab := (mem_pairs s (a, b)).mp (hl ▸ by simp)
      have hdone : ∀ i j, (i, j) ∈ done → i < s ∧ j < s := fun i j h =>
        (mem_pairs s (i, j)).mp (hl ▸ by simp [h])
      obtain ⟨ha, hb⟩ := hab
      dsimp only at ha hb
      have q1 := square_setM hq (a + s) (b + s) (getM false m' a b)
      have q2 := square_setM q1 (a + s) b (decide (a = b))
      have hval : ∀ i j, getM false (hyperStep s m' (a, b)) i j =
          if i = a ∧ j = b + s then decide (a = b) else
          if i = a + s ∧ j = b then decide (a = b) else
          if i = a + s ∧ j = b + s then getM false m' a b else getM false m' i j := by
        intro i j
        rw [hyperStep, getM_setM q2 false (by omega) (by omega),
          getM_setM q1 false (by omega) (by omega),
          getM_setM hq false (by omega) (by omega)]
      refine ⟨square_setM q2 _ _ _, ?_, ?_⟩
      · intro i j hi hj
        rw [hval, if_neg (by omega), if_neg (by omega), if_neg (by omega), hin i j hi hj]
      · intro i j hij
        rw [List.mem_append, List.mem_singleton, Prod.mk.injEq] at hij
        have hlt : i < s ∧ j < s := by
          rcases hij with h | h
          · exact hdone i j h
          · omega
        obtain ⟨hi, hj⟩ := hlt
        by_cases heq : i = a ∧ j = b
        · obtain ⟨rfl, rfl⟩ := heq
          refine ⟨?_, ?_, ?_⟩
          · rw [hval, if_neg (by omega), if_neg (by omega), if_pos ⟨rfl, rfl⟩, hin i j hi hj]
          · rw [hval, if_neg (by omega), if_pos ⟨rfl, rfl⟩]
          · rw [hval, if_pos ⟨rfl, rfl⟩]
        · have hd : (i, j) ∈ done := by
            rcases hij with h | h
            · exact h
            · exact absurd h heq
          obtain ⟨o1, o2, o3⟩ := hout i j hd
          refine ⟨?_, ?_, ?_⟩
          · rw [hval, if_neg (by omega), if_neg (by omega), if_neg (by omega), o1]
          · rw [hval, if_neg (by omega), if_neg (by omega), if_neg (by omega), o2]
          · rw [hval, if_neg (by omega), if_neg (by omega), if_neg (by omega), o3])
  refine ⟨key.1, ?_⟩
  intro i j hi hj
  obtain ⟨o1, o2, o3⟩ := key.2.2 i j ((mem_pairs s (i, j)).mpr ⟨hi, hj⟩)
  exact ⟨key.2.1 i j hi hj, o1, o2, o3⟩

theorem hyperLoop_spec {n p : Nat} (hn : 2 ^ p ≤ n) (q : Nat) (hq : q ≤ p) :
    Square ((List.range q).foldl hyperDim (setM (filled n false) 0 0 false)) n ∧
    ∀ i j, i < 2 ^ q → j < 2 ^ q →
      (getM false ((List.range q).foldl hyperDim (setM (filled n false) 0 0 false)) i j = true ↔
        OneBit i j) := by
  induction q with
  | zero =>
    have h0 : 0 < n := lt_of_lt_of_le (Nat.pow_pos (by norm_num)) hn
    refine ⟨square_setM (square_filled n false) _ _ _, ?_⟩
    intro i j hi hj
    have hi0 : i = 0 := by simpa using hi
    have hj0 : j = 0 := by simpa using hj
    subst hi0 hj0
    simp only [List.range_zero, List.foldl_nil]
    rw [getM_setM (square_filled n false) false h0 h0]
    simp [oneBit_irrefl]
  | succ q ih =>
    obtain ⟨hsq, hget⟩ := ih (by omega)
    have hqn : 2 ^ (q + 1) ≤ n := le_trans (Nat.pow_le_pow_right (by norm_num) hq) hn
    rw [List.range_succ, List.foldl_append]
    simp only [List.foldl_cons, List.foldl_nil]
    obtain ⟨s1, s2⟩ := hyperDim_spec hsq hqn
    refine ⟨s1, ?_⟩
    have hpow : 2 ^ (q + 1) = 2 ^ q + 2 ^ q := by ring
    intro i j hi hj
    by_cases hiq : i < 2 ^ q <;> by_cases hjq : j < 2 ^ q
    · rw [(s2 i j hiq hjq).1, hget i j hiq hjq]
    · obtain ⟨j', rfl⟩ : ∃ j', j = j' + 2 ^ q := ⟨j - 2 ^ q, by omega⟩
      have hj' : j' < 2 ^ q := by omega
      rw [(s2 i j' hiq hj').2.2.2, oneBit_add hiq hj']
      simp
    · obtain ⟨i', rfl⟩ : ∃ i', i = i' + 2 ^ q := ⟨i - 2 ^ q, by omega⟩
      have hi' : i' < 2 ^ q := by omega
      rw [(s2 i' j hi' hjq).2.2.1]
      have : OneBit (i' + 2 ^ q) j ↔ i' = j := by
        rw [← (oneBit_add hjq hi' : OneBit j (i' + 2 ^ q) ↔ j = i').trans eq_comm]
        exact ⟨oneBit_symm, oneBit_symm⟩
      rw [this]
      simp
    · obtain ⟨i', rfl⟩ : ∃ i', i = i' + 2 ^ q := ⟨i - 2 ^ q, by omega⟩
      obtain ⟨j', rfl⟩ : ∃ j', j = j' + 2 ^ q := ⟨j - 2 ^ q, by omega⟩
      have hi' : i' < 2 ^ q := by omega
      have hj' : j' < 2 ^ q := by omega
      rw [(s2 i' j' hi' hj').2.1, oneBit_add_add hi' hj', hget i' j' hi' hj']

theorem and_pow_eq_zero {n k : Nat} : n &&& (1 <<< k) = 0 ↔ n.testBit k = false := by
  constructor
  · intro h
    have := congrArg (fun x => Nat.testBit x k) h
    simpa [Nat.testBit_and, Nat.testBit_shiftLeft] using this
  · intro h
    apply Nat.eq_of_testBit_eq
    intro l
    rw [Nat.testBit_and, Nat.zero_testBit, Nat.shiftLeft_eq, one_mul, Nat.testBit_two_pow]
    by_cases hl : k = l
    · subst hl; simp [h]
    · simp [hl]

theorem hyperPower_spec {n : Nat} (fuel k : Nat) {p : Nat} (h : hyperPower n fuel k = .ok p) :
    k ≤ p ∧ n.testBit p = true ∧ ∀ l, k ≤ l → l < p → n.testBit l = false := by
  induction fuel generalizing k with
  | zero => simp [hyperPower] at h
  | succ fuel ih =>
    unfold hyperPower at h
    split at h
    · rename_i h0
      rw [and_pow_eq_zero] at h0
      obtain ⟨a, b, c⟩ := ih (k + 1) h
      refine ⟨by omega, b, ?_⟩
      intro l hl hlp
      by_cases hlk : l = k
      · exact hlk ▸ h0
      · exact c l (by omega) hlp
    · rename_i h0
      rw [and_pow_eq_zero] at h0
      cases h
      refine ⟨le_refl _, by simpa using h0, ?_⟩
      intro l hl hlp
      omega

theorem hyperPower_err {n : Nat} (fuel k : Nat) {e : Err} (h : hyperPower n fuel k = .error e) :
    ∀ l, k ≤ l → l < k + fuel → n.testBit l = false := by
  induction fuel generalizing k with
  | zero => intro l hl hl'; omega
  | succ fuel ih =>
    unfold hyperPower at h
    split at h
    · rename_i h0
      rw [and_pow_eq_zero] at h0
      intro l hl hl'
      by_cases hlk : l = k
      · exact hlk ▸ h0
      · exact ih (k + 1) h l (by omega) (by omega)
    · cases h

/-- `n & (n-1) = 0` says `n` is a power of two. -/
theorem pow_of_and {n p : Nat} (hn : n ≠ 0) (h : n &&& (n - 1) = 0) (hp : n.testBit p = true)
    (hlow : ∀ l, l < p → n.testBit l = false) : n = 2 ^ p := by
  -- n = 2^p * (2a+1)
  have hdvd : 2 ^ p ∣ n := by
    apply Nat.dvd_of_mod_eq_zero
    apply Nat.eq_of_testBit_eq
    intro l
    rw [Nat.testBit_mod_two_pow, Nat.zero_testBit]
    by_cases hl : l < p
    · simp [hlow l hl]
    · simp [hl]
  obtain ⟨q, rfl⟩ := hdvd
  by_contra hne
  have hq1 : q ≠ 1 := fun h => hne (by simp [h])
  have hq0 : q ≠ 0 := by rintro rfl; simp at hn
  -- some bit k > p of n is set
  have hqodd : q.testBit 0 = true := by
    have := hp
    rw [Nat.testBit_two_pow_mul] at this
    simpa using this
  have hq2 : q / 2 ≠ 0 := by omega
  obtain ⟨k, hk⟩ := Nat.exists_testBit_of_ne_zero hq2
  have hqk : q.testBit (k + 1) = true := by rw [Nat.testBit_succ]; exact hk
  have hnk : (2 ^ p * q).testBit (p + (k + 1)) = true := by
    rw [Nat.testBit_two_pow_mul]
    simp [hqk]
  have hmod : q % 2 = 1 := by simpa [Nat.testBit_zero] using hqodd
  -- n - 1 = 2^p * (q - 1) + (2^p - 1)
  have hpred : 2 ^ p * q - 1 = 2 ^ p * (q - 1) + (2 ^ p - 1) := by
    have h1 : 0 < 2 ^ p := Nat.pow_pos (by norm_num)
    have h2 : 2 ^ p * q = 2 ^ p * (q - 1) + 2 ^ p := by
      obtain ⟨q', rfl⟩ : ∃ q', q = q' + 1 := ⟨q - 1, by omega⟩
      simp; ring
    omega
  have hk' : (2 ^ p * q - 1).testBit (p + (k + 1)) = true := by
    have h1 : 0 < 2 ^ p := Nat.pow_pos (by norm_num)
    rw [hpred, Nat.testBit_two_pow_mul_add _ (by omega)]
    rw [if_neg (by omega)]
    have : p + (k + 1) - p = k + 1 := by omega
    rw [this, Nat.testBit_succ]
    have h2 : (q - 1) / 2 = q / 2 := by omega
    rw [h2]
    exact hk
  have := congrArg (fun x => Nat.testBit x (p + (k + 1))) h
  simp [Nat.testBit_and, hnk, hk'] at this

theorem two_pow_and_pred (p : Nat) : 2 ^ p &&& (2 ^ p - 1) = 0 := by
  apply Nat.eq_of_testBit_eq
  intro l
  rw [Nat.testBit_and, Nat.testBit_two_pow, Nat.testBit_two_pow_sub_one, Nat.zero_testBit]
  by_cases h : p = l
  · subst h; simp
  · simp [h]

theorem hypercubic_spec {n : Nat} {m : Matrix Bool} (h : hypercubic n = .ok m) :
    ∃ p, n = 2 ^ p ∧ Square m n ∧ ∀ i j, i < n → j < n → (getM false m i j = true ↔ OneBit i j) := by
  unfold hypercubic at h
  split at h
  · cases h
  rename_i hn
  push Not at hn
  split at h
  · cases h
  rename_i p hp
  cases h
  obtain ⟨-, hp1, hp2⟩ := hyperPower_spec 32 0 hp
  have hn0 : n ≠ 0 := by rintro rfl; simp at hp1
  have hpow := pow_of_and hn0 (hn hn0) hp1 (fun l hl => hp2 l (by omega) hl)
  obtain ⟨s1, s2⟩ := hyperLoop_spec (n := n) (p := p) (le_of_eq hpow.symm) p le_rfl
  refine ⟨p, hpow, s1, ?_⟩
  intro i j hi hj
  exact s2 i j (hpow ▸ hi) (hpow ▸ hj)

/-! Mesh. -/

theorem mem_factorization {n x : Nat} : x ∈ factorization n ↔ 0 < x ∧ x * x ≤ n ∧ x ∣ n := by
  unfold factorization
  simp only [List.mem_filter, List.mem_range'_1, Bool.and_eq_true, decide_eq_true_eq]
  constructor
  · rintro ⟨⟨h1, -⟩, h2, h3⟩
    exact ⟨h1, by omega, ⟨n / x, by rw [Nat.mul_comm]; exact h3.symm⟩⟩
  · rintro ⟨h1, h2, h3⟩
    have : x ≤ x * x := Nat.le_mul_self x
    exact ⟨⟨h1, by omega⟩, by omega, Nat.div_mul_cancel h3⟩

theorem factorization_sorted (n : Nat) : (factorization n).Pairwise (· < ·) :=
  (List.pairwise_lt_range' (s := 1) (n := n) (step := 1) (by norm_num)).filter _

theorem meshSearch_spec (ratio : ℚ) (n : Nat) (l : List Nat) (i : Nat) (hl : l ≠ []) :
    i ≤ meshSearch ratio n l i ∧ meshSearch ratio n l i < i + l.length ∧
    (∀ k x, i + k < meshSearch ratio n l i → l[k]? = some x → (x : ℚ) * x / n < ratio) ∧
    (meshSearch ratio n l i + 1 = i + l.length ∨
      ∃ x, l[meshSearch ratio n l i - i]? = some x ∧ ratio ≤ (x : ℚ) * x / n) := by
  induction l generalizing i with
  | nil => exact absurd rfl hl
  | cons x l ih =>
    cases l with
    | nil =>
      simp [meshSearch]
    | cons y l =>
      unfold meshSearch
      split
      · rename_i hx
        obtain ⟨a, b, c, d⟩ := ih (i + 1) (by simp)
        refine ⟨by omega, by simp at b ⊢; omega, ?_, ?_⟩
        · intro k z hk hz
          cases k with
          | zero =>
            simp at hz
            subst hz
            exact hx
          | succ k =>
            exact c k z (by omega) (by simpa using hz)
        · rcases d with d | ⟨z, hz, hz'⟩
          · left
            simp at d ⊢
            omega
          · right
            refine ⟨z, ?_, hz'⟩
            have : meshSearch ratio n (y :: l) (i + 1) - i =
                meshSearch ratio n (y :: l) (i + 1) - (i + 1) + 1 := by omega
            rw [this]
            simpa using hz
      · rename_i hx
        push Not at hx
        refine ⟨le_refl _, by simp, ?_, ?_⟩
        · intro k z hk
          omega
        · right
          exact ⟨x, by simp, hx⟩

theorem factorization_ne_nil {n : Nat} (hn : 0 < n) : factorization n ≠ [] := by
  intro h
  have : (1 : Nat) ∈ factorization n := mem_factorization.mpr ⟨by omega, by omega, one_dvd n⟩
  rw [h] at this
  cases this

/-- The height the mesh takes: entry `i` of the list of divisors, where the search stops. -/
theorem meshHeight_spec {ratio : ℚ} {n h : Nat} (hh : meshHeight ratio n = .ok h) :
    0 < n ∧ 0 < meshSearch ratio n (factorization n) 0 ∧
    (factorization n)[meshSearch ratio n (factorization n) 0]? = some h := by
  unfold meshHeight at hh
  dsimp only at hh
  have hn : 0 < n := by
    rcases Nat.eq_zero_or_pos n with h0 | h0
    · subst h0
      have hf : factorization 0 = [] := by simp [factorization]
      rw [hf] at hh
      simp [meshSearch] at hh
    · exact h0
  refine ⟨hn, ?_⟩
  have hne := factorization_ne_nil hn
  obtain ⟨a, b, c, d⟩ := meshSearch_spec ratio n (factorization n) 0 hne
  have hsorted := factorization_sorted n
  have hmem : ∀ x, x ∈ factorization n → 0 < x := fun x hx => (mem_factorization.mp hx).1
  generalize hi : meshSearch ratio n (factorization n) 0 = i at *
  generalize hF : factorization n = F at *
  cases i with
  | zero => simp at hh
  | succ i =>
    refine ⟨by omega, ?_⟩
    have b' : i + 1 < F.length := by omega
    rw [List.getElem?_eq_getElem b'] at hh ⊢
    rw [List.getElem?_eq_getElem (show i + 1 - 1 < F.length by omega)] at hh
    simp only [Nat.add_sub_cancel] at hh
    have hlt : F[i] < F[i + 1] := List.pairwise_iff_getElem.mp hsorted i (i + 1) (by omega) b' (by omega)
    have hpos : 0 < F[i] := hmem _ (List.getElem_mem _)
    have hr2 : ((F[i] : Nat) : ℚ) * F[i] / n < ratio :=
      c i (F[i]) (by omega) (List.getElem?_eq_getElem (by omega))
    have hr : ((F[i] : Nat) : ℚ) * F[i] / n < ((F[i + 1] : Nat) : ℚ) * F[i + 1] / n := by
      have hnq : (0 : ℚ) < n := by exact_mod_cast hn
      apply div_lt_div_of_pos_right _ hnq
      have h1 : ((F[i] : Nat) : ℚ) < F[i + 1] := by exact_mod_cast hlt
      have h2 : (0 : ℚ) < F[i] := by exact_mod_cast hpos
      nlinarith
    rw [if_neg ?_] at hh
    · cases hh; rfl
    · rw [abs_of_neg (by linarith)]
      linarith

theorem meshInner_spec {m : Matrix Bool} {n : Nat} (width : Nat) {i : Nat} (hi : i < n)
    (hsq : Square m n) : Square ((List.range' (i + 1) (n - (i + 1))).foldl (meshInner width i) m) n ∧
    ∀ a b, a < n → b < n →
      getM false ((List.range' (i + 1) (n - (i + 1))).foldl (meshInner width i) m) a b =
        if a = i ∧ i < b then meshLink width i b else
        if b = i ∧ i < a then meshLink width i a else getM false m a b := by
  have key := foldl_inv (meshInner width i)
    (fun done m' => Square m' n ∧ ∀ a b, a < n → b < n → getM false m' a b =
        if a = i ∧ b ∈ done then meshLink width i b else
        if b = i ∧ a ∈ done then meshLink width i a else getM false m a b)
    (List.range' (i + 1) (n - (i + 1))) m
    ⟨hsq, fun a b _ _ => by simp⟩
    (by
      intro done x todo m' hl ⟨hq, hget⟩
      have hx := List.mem_range'_1.mp (hl ▸ (by simp) : x ∈ List.range' (i + 1) (n - (i + 1)))
      have hd : ∀ y ∈ done, i < y := by
        intro y hy
        have := List.mem_range'_1.mp
          (hl ▸ (by simp [hy]) : y ∈ List.range' (i + 1) (n - (i + 1)))
        omega
      have q1 := square_setM hq i x (meshLink width i x)
      refine ⟨square_setM q1 _ _ _, ?_⟩
      intro a b ha hb
      rw [meshInner, getM_setM q1 false (by omega) hi, getM_setM hq false hi (by omega),
        hget a b ha hb]
      have hii : i ∉ done := fun h => absurd (hd i h) (by omega)
      by_cases hax : a = x
      · subst hax
        have hai : ¬ a = i := by omega
        by_cases hbi : b = i
        · subst hbi
          simp [hai]
        · simp [hbi, hai]
      · by_cases hai : a = i
        · subst hai
          by_cases hbx : b = x
          · subst hbx
            simp
          · simp [hbx, hax]
        · simp [hax, hai])
  refine ⟨key.1, ?_⟩
  intro a b ha hb
  rw [key.2 a b ha hb]
  simp only [List.mem_range'_1]
  have e1 : (a = i ∧ i + 1 ≤ b ∧ b < i + 1 + (n - (i + 1))) ↔ (a = i ∧ i < b) := by omega
  have e2 : (b = i ∧ i + 1 ≤ a ∧ a < i + 1 + (n - (i + 1))) ↔ (b = i ∧ i < a) := by omega
  simp only [e1, e2]

theorem meshLoop_spec (width n : Nat) :
    Square ((List.range n).foldl (meshOuter width n) (filled n false)) n ∧
    ∀ a b, a < n → b < n →
      getM false ((List.range n).foldl (meshOuter width n) (filled n false)) a b =
        (decide (a < b) && meshLink width a b || decide (b < a) && meshLink width b a) := by
  have key := foldl_inv (meshOuter width n)
    (fun done m => (∃ k, done = List.range k) ∧ Square m n ∧ ∀ a b, a < n → b < n →
      getM false m a b =
        (decide (a < b ∧ a < done.length) && meshLink width a b ||
         decide (b < a ∧ b < done.length) && meshLink width b a)) (List.range n) (filled n false)
    ⟨⟨0, rfl⟩, square_filled n false, fun a b ha hb => by
      simp [getM_filled n false a b ha hb]⟩
    (by
      rintro done x todo m hl ⟨⟨k, rfl⟩, hq, hget⟩
      have hx : x < n := List.mem_range.mp (hl ▸ by simp)
      have hxk : x = k := by
        have h1 : (List.range n)[k]? = some x := by rw [hl]; simp
        rw [List.getElem?_eq_some_iff] at h1
        obtain ⟨_, h1⟩ := h1
        simpa using h1.symm
      subst hxk
      have q1 := square_setM hq x x false
      obtain ⟨s1, s2⟩ := meshInner_spec width hx q1
      refine ⟨⟨x + 1, by rw [List.range_succ]⟩, s1, ?_⟩
      intro a b ha hb
      rw [meshOuter, s2 a b ha hb, getM_setM hq false hx hx, hget a b ha hb]
      simp only [List.length_append, List.length_range, List.length_singleton]
      rcases Nat.lt_trichotomy a b with hab | hab | hab
      · have hba : ¬ b < a := by omega
        simp only [hab, hba, true_and, false_and, decide_false, Bool.false_and, Bool.or_false]
        rcases Nat.lt_trichotomy a x with h | h | h
        · have c1 : ¬ (a = x ∧ x < b) := by omega
          have c2 : ¬ (b = x ∧ x < a) := by omega
          have c3 : ¬ (a = x ∧ b = x) := by omega
          have c4 : a < x + 1 := by omega
          simp [c1, c2, c3, c4, h]
        · subst h
          simp [hab]
        · have c1 : ¬ (a = x ∧ x < b) := by omega
          have c2 : ¬ (b = x ∧ x < a) := by omega
          have c3 : ¬ (a = x ∧ b = x) := by omega
          have c4 : ¬ a < x + 1 := by omega
          have c5 : ¬ a < x := by omega
          simp [c1, c2, c3, c4, c5]
      · subst hab
        have c1 : ¬ (a = x ∧ x < a) := by omega
        simp [c1]
      · have hba : ¬ a < b := by omega
        simp only [hab, hba, true_and, false_and, decide_false, Bool.false_and, Bool.false_or]
        rcases Nat.lt_trichotomy b x with h | h | h
        · have c1 : ¬ (a = x ∧ x < b) := by omega
          have c2 : ¬ (b = x ∧ x < a) := by omega
          have c3 : ¬ (a = x ∧ b = x) := by omega
          have c4 : b < x + 1 := by omega
          simp [c1, c2, c3, c4, h]
        · subst h
          have c1 : ¬ (a = b ∧ b < b) := by omega
          simp [hab]
        · have c1 : ¬ (a = x ∧ x < b) := by omega
          have c2 : ¬ (b = x ∧ x < a) := by omega
          have c3 : ¬ (a = x ∧ b = x) := by omega
          have c4 : ¬ b < x + 1 := by omega
          have c5 : ¬ b < x := by omega
          simp [c1, c2, c3, c4, c5])
  obtain ⟨-, k1, k2⟩ := key
  refine ⟨k1, ?_⟩
  intro a b ha hb
  rw [k2 a b ha hb]
  simp [ha, hb]

/-! Isolation. -/

theorem isolate_spec {m : Matrix α} {n : Nat} (d : α) (hsq : Square m n) {id : Nat} (hid : id < n) :
    Square (isolateNode d m id) n ∧ ∀ i j, i < n → j < n →
      getM d (isolateNode d m id) i j = if i = id ∨ j = id then d else getM d m i j := by
  have key := foldl_inv (isolateStep d id)
    (fun done m' => Square m' n ∧ ∀ i j, i < n → j < n → getM d m' i j =
      if (i = id ∧ j ∈ done) ∨ (j = id ∧ i ∈ done) then d else getM d m i j) (List.range m.length) m
    ⟨hsq, fun i j _ _ => by simp⟩
    (by
      intro done x todo m' hl ⟨hq, hget⟩
      have hx : x < n := hsq.1 ▸ List.mem_range.mp (hl ▸ by simp)
      have q1 := square_setM hq id x d
      refine ⟨square_setM q1 _ _ _, ?_⟩
      intro i j hi hj
      rw [isolateStep, getM_setM q1 d hx hid, getM_setM hq d hid hx, hget i j hi hj]
      by_cases h1 : i = x <;> by_cases h2 : j = x <;> by_cases h3 : i = id <;>
        by_cases h4 : j = id <;> simp [h1, h2, h3, h4] <;> subst_vars <;> simp_all)
  refine ⟨key.1, ?_⟩
  intro i j hi hj
  rw [isolateNode, key.2 i j hi hj]
  simp [hsq.1, hi, hj]

end Paradiseo.Smp
