/-
Properties C01–C08: incremental evaluation of neighbours agrees with full evaluation.
-/
import Verif.Lemmas.IncrEval
import Mathlib.Tactic.NormNum
import Mathlib.Data.Rat.Defs

namespace Paradiseo.IncrEval
open Finset

/-! ### C01 OneMax -/

/-- Specification: number of ones. -/
def onesSpec (n : Nat) (x : Nat → Bool) : Int := (((range n).filter fun i => x i = true).card : Int)

/-- Full evaluation counts the ones. -/
theorem C01_oneMax_full (n : Nat) (x : Nat → Bool) : oneMaxFull n x = onesSpec n x := by
  rw [oneMaxFull_eq, onesSpec, Finset.card_filter]; push_cast; rfl

/-- C01: incremental evaluation of a one-bit neighbour is full evaluation of the moved solution. -/
theorem C01_oneMax_incr (n : Nat) (x : Nat → Bool) (i : Nat) (hi : i < n) :
    oneMaxIncr x (oneMaxFull n x) i = oneMaxFull n (flip x i) := by
  rw [oneMaxFull_flip n x i hi]; unfold oneMaxIncr
  split <;> ring

/-- C01, several distinct bits. -/
theorem C01_oneMax_bits_incr (n : Nat) (x : Nat → Bool) (bits : List Nat)
    (hlt : ∀ b ∈ bits, b < n) (hnd : bits.Nodup) :
    oneMaxBitsIncr x (oneMaxFull n x) bits = oneMaxFull n (flips x bits) := by
  rw [oneMaxFull_flips n bits x hlt hnd, oneMaxBitsIncr, bitsDelta_eq]; simp

/-- The distinctness hypothesis cannot be dropped: a repeated bit makes the value wrong. -/
theorem C01_bits_need_distinct :
    ∃ (n : Nat) (x : Nat → Bool) (bits : List Nat), (∀ b ∈ bits, b < n) ∧
      oneMaxBitsIncr x (oneMaxFull n x) bits ≠ oneMaxFull n (flips x bits) :=
  ⟨2, fun _ => false, [1, 1], by simp, by decide⟩

example : oneMaxIncr (fun i => i = 1) (oneMaxFull 4 fun i => i = 1) 3 = 2 := by decide
example : oneMaxBitsIncr (fun i => i = 1) (oneMaxFull 4 fun i => i = 1) [0, 1, 3] = 2 := by decide

/-! ### C02 QAP -/

/-- Full evaluation is the double sum of flow times distance. -/
theorem C02_qap_full (n : Nat) (A B : Nat → Nat → Int) (s : Nat → Nat) :
    qapFull n A B s = ∑ i ∈ range n, ∑ j ∈ range n, A i j * B (s i) (s j) := qapFull_eq n A B s

/-- C02: for any (asymmetric, any diagonal) matrices and two distinct positions, the incremental
value of a swap is the full evaluation of the swapped solution. -/
theorem C02_qap_incr (n : Nat) (A B : Nat → Nat → Int) (s : Nat → Nat) (i j : Nat)
    (hi : i < n) (hj : j < n) (hij : i ≠ j) :
    qapIncr n A B s (qapFull n A B s) i j = qapFull n A B (swapAt s i j) := by
  have hL := swapAt_left s i j
  have hR := swapAt_right s i j
  have expand : ∀ t : Nat → Nat, qapFull n A B t
      = (A i i * B (t i) (t i) + A i j * B (t i) (t j)
        + A j i * B (t j) (t i) + A j j * B (t j) (t j))
        + (∑ k ∈ range n, if k ≠ i ∧ k ≠ j then
            A i k * B (t i) (t k) + A j k * B (t j) (t k)
            + A k i * B (t k) (t i) + A k j * B (t k) (t j) else 0)
        + ∑ k ∈ range n, if k ≠ i ∧ k ≠ j then
            (∑ l ∈ range n, if l ≠ i ∧ l ≠ j then A k l * B (t k) (t l) else 0) else 0 := by
    intro t
    rw [qapFull_eq, sum_split2 n i j hi hj hij, sum_split2 n i j hi hj hij (fun l => A i l * _),
      sum_split2 n i j hi hj hij (fun l => A j l * _)]
    have h1 : (∑ k ∈ range n, if k ≠ i ∧ k ≠ j then ∑ l ∈ range n, A k l * B (t k) (t l) else 0)
        = (∑ k ∈ range n, if k ≠ i ∧ k ≠ j then A k i * B (t k) (t i) + A k j * B (t k) (t j) else 0)
          + ∑ k ∈ range n, if k ≠ i ∧ k ≠ j then
            (∑ l ∈ range n, if l ≠ i ∧ l ≠ j then A k l * B (t k) (t l) else 0) else 0 := by
      rw [← Finset.sum_add_distrib]
      apply Finset.sum_congr rfl
      intro k _
      split
      · rw [sum_split2 n i j hi hj hij]
      · simp
    have h2 : (∑ k ∈ range n, if k ≠ i ∧ k ≠ j then
            A i k * B (t i) (t k) + A j k * B (t j) (t k)
            + A k i * B (t k) (t i) + A k j * B (t k) (t j) else 0)
        = (∑ k ∈ range n, if k ≠ i ∧ k ≠ j then A i k * B (t i) (t k) else 0)
          + (∑ k ∈ range n, if k ≠ i ∧ k ≠ j then A j k * B (t j) (t k) else 0)
          + ∑ k ∈ range n, if k ≠ i ∧ k ≠ j then A k i * B (t k) (t i) + A k j * B (t k) (t j)
            else 0 := by
      rw [← Finset.sum_add_distrib, ← Finset.sum_add_distrib]
      apply Finset.sum_congr rfl
      intro k _
      split <;> ring
    rw [h1, h2]; ring
  have hincr : qapIncr n A B s (qapFull n A B s) i j = qapFull n A B s
      + ((A i i - A j j) * (B (s j) (s j) - B (s i) (s i)) +
        (A i j - A j i) * (B (s j) (s i) - B (s i) (s j)))
      + ∑ k ∈ range n, if k ≠ i ∧ k ≠ j then
          (A k i - A k j) * (B (s k) (s j) - B (s k) (s i)) +
            (A i k - A j k) * (B (s j) (s k) - B (s i) (s k)) else 0 := by
    unfold qapIncr
    simp only [add_assoc]
    rw [foldl_ite_range]
    ring
  rw [hincr, expand s, expand (swapAt s i j), hL, hR]
  have h3 : (∑ k ∈ range n, if k ≠ i ∧ k ≠ j then
        (∑ l ∈ range n, if l ≠ i ∧ l ≠ j then
          A k l * B (swapAt s i j k) (swapAt s i j l) else 0) else 0)
      = ∑ k ∈ range n, if k ≠ i ∧ k ≠ j then
        (∑ l ∈ range n, if l ≠ i ∧ l ≠ j then A k l * B (s k) (s l) else 0) else 0 := by
    apply Finset.sum_congr rfl
    intro k _
    split
    · rename_i hk
      apply Finset.sum_congr rfl
      intro l _
      split
      · rename_i hl
        rw [swapAt_other s hk.1 hk.2, swapAt_other s hl.1 hl.2]
      · rfl
    · rfl
  rw [h3]
  have h4 : (∑ k ∈ range n, if k ≠ i ∧ k ≠ j then
        A i k * B (s j) (swapAt s i j k) + A j k * B (s i) (swapAt s i j k)
        + A k i * B (swapAt s i j k) (s j) + A k j * B (swapAt s i j k) (s i) else 0)
      = (∑ k ∈ range n, if k ≠ i ∧ k ≠ j then
          A i k * B (s i) (s k) + A j k * B (s j) (s k)
          + A k i * B (s k) (s i) + A k j * B (s k) (s j) else 0)
        + ∑ k ∈ range n, if k ≠ i ∧ k ≠ j then
          (A k i - A k j) * (B (s k) (s j) - B (s k) (s i)) +
            (A i k - A j k) * (B (s j) (s k) - B (s i) (s k)) else 0 := by
    rw [← Finset.sum_add_distrib]
    apply Finset.sum_congr rfl
    intro k _
    split
    · rename_i hk
      rw [swapAt_other s hk.1 hk.2]; ring
    · simp
  rw [h4]; ring

example : qapIncr 3 (fun i j => i + 2 * j) (fun i j => i * j + 1) id
    (qapFull 3 (fun i j => i + 2 * j) (fun i j => i * j + 1) id) 0 2
    = qapFull 3 (fun i j => i + 2 * j) (fun i j => i * j + 1) (swapAt id 0 2) := by decide

/-! ### C03 UBQP -/

/-- Full evaluation is the quadratic form of the lower triangle. -/
theorem C03_ubqp_full (n : Nat) (Q : Nat → Nat → Int) (x : Nat → Bool) :
    ubqpFull n Q x = ∑ i ∈ range n, ∑ j ∈ range (i + 1), if x i ∧ x j then Q i j else 0 :=
  ubqpFull_eq n Q x

/-- Putting the matrix in lower triangular form does not change the quadratic form: full
evaluation with the converted matrix is the full double sum over the matrix as read. -/
theorem C03_ubqp_lower (n : Nat) (Q : Nat → Nat → Int) (x : Nat → Bool) :
    ubqpFull n (ubqpLower Q) x
      = ∑ i ∈ range n, ∑ j ∈ range n, if x i ∧ x j then Q i j else 0 := by
  induction n with
  | zero => simp [ubqpFull]
  | succ n ih =>
    rw [ubqpFull_eq] at ih ⊢
    rw [Finset.sum_range_succ, ih, Finset.sum_range_succ (fun i => ∑ j ∈ range (n + 1), if x i ∧ x j then Q i j else 0)]
    have h1 : (∑ i ∈ range n, ∑ j ∈ range (n + 1), if x i ∧ x j then Q i j else 0)
        = (∑ i ∈ range n, ∑ j ∈ range n, if x i ∧ x j then Q i j else 0)
          + ∑ i ∈ range n, if x i ∧ x n then Q i n else 0 := by
      rw [← Finset.sum_add_distrib]
      exact Finset.sum_congr rfl (fun i _ => Finset.sum_range_succ _ _)
    rw [h1, Finset.sum_range_succ (fun j => if x n ∧ x j then ubqpLower Q n j else 0),
      Finset.sum_range_succ (fun j => if x n ∧ x j then Q n j else 0)]
    have h2 : (∑ j ∈ range n, if x n ∧ x j then ubqpLower Q n j else 0)
        = (∑ j ∈ range n, if x n ∧ x j then Q n j else 0)
          + ∑ i ∈ range n, if x i ∧ x n then Q i n else 0 := by
      rw [← Finset.sum_add_distrib]
      apply Finset.sum_congr rfl
      intro j hj
      have hj' : j < n := by simpa using hj
      simp only [ubqpLower, hj', if_true]
      cases x n <;> cases x j <;> simp
    rw [h2]
    have h3 : ubqpLower Q n n = Q n n := by simp [ubqpLower]
    rw [h3]; ring

/-- C03: incremental evaluation of a bit flip is full evaluation of the flipped vector. -/
theorem C03_ubqp_incr (n : Nat) (Q : Nat → Nat → Int) (x : Nat → Bool) (i : Nat) (hi : i < n) :
    ubqpIncr n Q x (ubqpFull n Q x) i = ubqpFull n Q (flip x i) := by
  rw [ubqpFull_flip n Q x i hi]; unfold ubqpIncr; split <;> ring

/-- C03, several bits (also repeated ones): the value is exact and the solution is restored. -/
theorem C03_ubqp_bits_incr (n : Nat) (Q : Nat → Nat → Int) (x : Nat → Bool) (bits : List Nat)
    (hlt : ∀ b ∈ bits, b < n) :
    ubqpBitsIncr n Q x (ubqpFull n Q x) bits = (ubqpFull n Q (flips x bits), x) := by
  have key : ∀ (l : List Nat) (s : Int × (Nat → Bool)), (∀ b ∈ l, b < n) →
      l.foldl (fun (s : Int × (Nat → Bool)) b =>
        let d := ubqpD n Q s.2 b
        let delta := if s.2 b = false then s.1 + d else s.1 - d
        (delta, flip s.2 b)) s
      = (s.1 + ubqpFull n Q (l.foldl flip s.2) - ubqpFull n Q s.2, l.foldl flip s.2) := by
    intro l
    induction l with
    | nil => intro s _; simp
    | cons b l ih =>
      intro s hl
      rw [List.foldl_cons, ih _ (fun c hc => hl c (List.mem_cons_of_mem _ hc)), List.foldl_cons]
      simp only [ubqpFull_flip n Q s.2 b (hl b (by simp))]
      ext1
      · simp only; split <;> ring
      · rfl
  unfold ubqpBitsIncr
  rw [key bits (0, x) hlt]
  simp only [foldl_flip_twice, flips]
  ext1
  · simp only; ring
  · rfl

example : ubqpIncr 3 (fun i j => 1 + i + 3 * j) (fun i => i = 0) (ubqpFull 3 (fun i j => 1 + i + 3 * j)
    fun i => i = 0) 2 = 13 := by decide

/-! ### C04 UBQP double incremental -/

/-- Specification: the exact gain of flipping bit `i`. -/
def gain (n : Nat) (Q : Nat → Nat → Int) (x : Nat → Bool) (i : Nat) : Int :=
  ubqpFull n Q (flip x i) - ubqpFull n Q x

/-- C04: after any sequence of moves (each a bit of the vector), the table holds the exact gain
of every bit for the current solution. -/
theorem C04_ubqp_table (n : Nat) (Q : Nat → Nat → Int) (x : Nat → Bool) (moves : List Nat)
    (hm : ∀ k ∈ moves, k < n) (i : Nat) (hi : i < n) :
    (ubqpWalk n Q x moves).2 i = gain n Q (ubqpWalk n Q x moves).1 i := by
  have hgain : ∀ y i, i < n → gain n Q y i = if y i = false then ubqpD n Q y i else - ubqpD n Q y i := by
    intro y i hi; rw [gain, ubqpFull_flip n Q y i hi]; ring
  unfold ubqpWalk
  have key : ∀ (l : List Nat) (s : (Nat → Bool) × (Nat → Int)), (∀ k ∈ l, k < n) →
      (∀ i < n, s.2 i = gain n Q s.1 i) →
      ∀ i < n, (l.foldl (fun s k => let x' := flip s.1 k; (x', ubqpTableUpdate Q x' k s.2)) s).2 i
        = gain n Q (l.foldl (fun s k => let x' := flip s.1 k; (x', ubqpTableUpdate Q x' k s.2)) s).1 i := by
    intro l
    induction l with
    | nil => intro s _ h i hi; exact h i hi
    | cons k l ih =>
      intro s hl h
      rw [List.foldl_cons]
      apply ih _ (fun c hc => hl c (List.mem_cons_of_mem _ hc))
      intro i hi
      have hk : k < n := hl k (by simp)
      simp only [ubqpTableUpdate]
      rw [hgain _ i hi]
      by_cases hik : i = k
      · subst hik
        rw [if_pos rfl, h i hi, hgain _ i hi, ubqpD_flip_self n Q _ i hi, flip_same]
        cases s.1 i <;> simp
      · rw [if_neg hik, h i hi, hgain _ i hi, ubqpD_flip_other n Q _ i k hi hk hik, flip_same,
          flip_ne _ hik]
        have hq : qsym Q i k = if i < k then Q k i else Q i k := by
          unfold qsym
          by_cases h1 : i < k
          · have : ¬ k < i := by omega
            simp [h1, this]
          · have : k < i := by omega
            simp [h1, this]
        rw [hq]
        by_cases h1 : i < k <;> cases s.1 i <;> cases s.1 k <;> simp [h1] <;> ring
  apply key moves _ hm _ i hi
  intro i hi
  rw [hgain x i hi]; simp only [ubqpTableInit]
  cases x i <;> simp

/-- C04: hence every neighbour evaluated through the table gets its exact fitness. -/
theorem C04_ubqp_double_eval (n : Nat) (Q : Nat → Nat → Int) (x : Nat → Bool) (moves : List Nat)
    (hm : ∀ k ∈ moves, k < n) (i : Nat) (hi : i < n) :
    doubleIncrEval (ubqpFull n Q (ubqpWalk n Q x moves).1) (ubqpWalk n Q x moves).2 i
      = ubqpFull n Q (flip (ubqpWalk n Q x moves).1 i) := by
  rw [doubleIncrEval, C04_ubqp_table n Q x moves hm i hi, gain]; ring

example : (ubqpWalk 3 (fun i j => 1 + i + 3 * j) (fun _ => true) [0, 2, 1, 2]).2 1 = 11 := by decide

/-! ### C05 MaxSAT -/

/-- Specification of satisfaction: some literal of the clause is true. -/
def satisfies (x : Nat → Bool) (c : List Int) : Prop :=
  ∃ l ∈ c, (0 < l ∧ x (l.natAbs - 1) = true) ∨ (l < 0 ∧ x (l.natAbs - 1) = false)

/-- Full evaluation counts the satisfied clauses. -/
theorem C05_maxsat_full (cs : List (List Int)) (x : Nat → Bool) :
    ∃ p : List Int → Bool, (∀ c, p c = true ↔ satisfies x c) ∧
      maxSatFull cs x = (cs.countP p : Int) := by
  refine ⟨fun c => clauseEval c x, ?_, ?_⟩
  · intro c
    simp only [clauseEval_eq_any, List.any_eq_true, satisfies]
    constructor
    · rintro ⟨l, hl, h⟩
      refine ⟨l, hl, ?_⟩
      rcases lt_trichotomy l 0 with h1 | h1 | h1
      · right; rw [litEval_neg x h1] at h; exact ⟨h1, by simpa [litVar] using h⟩
      · subst h1; simp [litEval] at h
      · left; rw [litEval_pos x h1] at h; exact ⟨h1, by simpa [litVar] using h⟩
    · rintro ⟨l, hl, h | h⟩
      · exact ⟨l, hl, by rw [litEval_pos x h.1]; exact h.2⟩
      · exact ⟨l, hl, by rw [litEval_neg x h.1]; simpa [litVar] using h.2⟩
  · rw [maxSatFull_eq]
    induction cs with
    | nil => simp
    | cons c cs ih =>
      rw [List.map_cons, List.sum_cons, ih, List.countP_cons]
      cases h : clauseEval c x <;> simp [b2i]
      ring

/-- C05, random instances: exact unless the flipped variable occurs negated in clause 0. -/
theorem C05_maxsat_incr_random (cs : List (List Int)) (x : Nat → Bool) (b : Nat)
    (h0 : ∀ c ∈ cs, ∀ l ∈ c, l ≠ 0) (hnd : ∀ c ∈ cs, c.Nodup)
    (hzero : ∀ c, cs.head? = some c → -((b : Int) + 1) ∉ c) :
    maxSatIncr cs (entriesOf occRandom cs (b + 1)) x (maxSatFull cs x) b
      = maxSatFull cs (flip x b) := by
  rw [maxSatIncr_table occRandom (fun l i => 0 < l ∨ 0 < i) cs x _ b h0, maxSatFull_flip]
  · congr 1
    rw [← sum_zipIdx cs 0]
    congr 1
    apply List.map_congr_left
    rintro ⟨c, i⟩ hci
    have hget : cs[i]? = some c := by
      have := List.mem_zipIdx_iff_getElem?.1 hci
      simpa using this
    have hmem : c ∈ cs := List.mem_of_getElem? hget
    refine Eq.trans ?_ (clause_sum_right c x b (h0 c hmem) (hnd c hmem))
    congr 1
    apply List.map_congr_left
    intro l hl
    by_cases hv : litVar l = b
    · have : 0 < l ∨ 0 < i := by
        by_contra hcon
        push Not at hcon
        have hi : i = 0 := by omega
        subst hi
        have hl0 := h0 c hmem l hl
        have : l = -((b : Int) + 1) := by unfold litVar at hv; omega
        subst this
        exact hzero c (by rw [List.head?_eq_getElem?]; exact hget) hl
      simp [hv, this]
    · simp [hv]
  · intro l i _; unfold occRandom; split <;> simp <;> omega
  · intro l i hl
    unfold occRandom
    by_cases h : l < 0
    · simp only [h, if_true]
      by_cases hi : 0 < i
      · left; refine ⟨by omega, trivial, trivial, Or.inr hi⟩
      · right; exact ⟨by omega, by omega⟩
    · simp only [h, if_false]
      right; exact ⟨trivial, by omega⟩

/-- C05, instances read from a file: exact if the flipped variable is never negated. -/
theorem C05_maxsat_incr_file (cs : List (List Int)) (x : Nat → Bool) (b : Nat)
    (h0 : ∀ c ∈ cs, ∀ l ∈ c, l ≠ 0) (hnd : ∀ c ∈ cs, c.Nodup)
    (hpos : ∀ c ∈ cs, -((b : Int) + 1) ∉ c) :
    maxSatIncr cs (entriesOf occFile cs (b + 1)) x (maxSatFull cs x) b
      = maxSatFull cs (flip x b) := by
  rw [maxSatIncr_table occFile (fun l _ => 0 < l) cs x _ b h0, maxSatFull_flip]
  · congr 1
    rw [← sum_zipIdx cs 0]
    congr 1
    apply List.map_congr_left
    rintro ⟨c, i⟩ hci
    have hget : cs[i]? = some c := by
      have := List.mem_zipIdx_iff_getElem?.1 hci
      simpa using this
    have hmem : c ∈ cs := List.mem_of_getElem? hget
    refine Eq.trans ?_ (clause_sum_right c x b (h0 c hmem) (hnd c hmem))
    congr 1
    apply List.map_congr_left
    intro l hl
    by_cases hv : litVar l = b
    · have : 0 < l := by
        by_contra hcon
        have hl0 := h0 c hmem l hl
        have : l = -((b : Int) + 1) := by unfold litVar at hv; omega
        subst this
        exact hpos c hmem hl
      simp [hv, this]
    · simp [hv]
  · intro l i hl; unfold occFile
    by_cases h : l < 0
    · have : ¬ (-l < 0) := by omega
      simp only [h, this, if_true, if_false]; omega
    · simp only [h, if_false]; omega
  · intro l i hl
    right
    unfold occFile
    by_cases h : l < 0
    · have h1 : ¬ (-l < 0) := by omega
      have h2 : ¬ (0 < l) := by omega
      simp only [h, h1, h2, if_true, if_false]; simp
    · simp [h]

/-- What the file version really returns, for every instance without repeated literals: the
clauses in which the variable occurs only negated are ignored. -/
theorem C05_maxsat_incr_file_value (cs : List (List Int)) (x : Nat → Bool) (b : Nat)
    (h0 : ∀ c ∈ cs, ∀ l ∈ c, l ≠ 0) (hnd : ∀ c ∈ cs, c.Nodup) (fit : Int) :
    maxSatIncr cs (entriesOf occFile cs (b + 1)) x fit b
      = fit + maxSatFull (cs.filter fun c => (b : Int) + 1 ∈ c) (flip x b)
          - maxSatFull (cs.filter fun c => (b : Int) + 1 ∈ c) x := by
  rw [maxSatIncr_table occFile (fun l _ => 0 < l) cs x _ b h0, maxSatFull_flip]
  · have : (cs.zipIdx.map fun ci => (ci.1.map fun l =>
          if litVar l = b ∧ 0 < l then clauseDelta ci.1 x b else 0).sum).sum
        = ((cs.filter fun c => (b : Int) + 1 ∈ c).map fun c => clauseDelta c x b).sum := by
      rw [sum_zipIdx cs 0 (fun c => (c.map fun l =>
          if litVar l = b ∧ 0 < l then clauseDelta c x b else 0).sum)]
      induction cs with
      | nil => simp
      | cons c cs ih =>
        rw [List.map_cons, List.sum_cons, ih (fun c hc => h0 c (List.mem_cons_of_mem _ hc))
          (fun c hc => hnd c (List.mem_cons_of_mem _ hc))]
        have hc : (c.map fun l => if litVar l = b ∧ 0 < l then clauseDelta c x b else 0).sum
            = if (b : Int) + 1 ∈ c then clauseDelta c x b else 0 := by
          have e : (c.map fun l => if litVar l = b ∧ 0 < l then clauseDelta c x b else 0)
              = c.map fun l => if l = (b : Int) + 1 then clauseDelta c x b else 0 := by
            apply List.map_congr_left
            intro l hl
            have : (litVar l = b ∧ 0 < l) ↔ l = (b : Int) + 1 := by unfold litVar; omega
            simp only [this]
          rw [e]
          have hn := hnd c (by simp)
          generalize clauseDelta c x b = d
          clear e ih h0 hnd
          induction c with
          | nil => simp
          | cons l c ihc =>
            have hn' := List.nodup_cons.1 hn
            rw [List.map_cons, List.sum_cons, ihc hn'.2]
            by_cases h : l = (b : Int) + 1
            · subst h; simp [hn'.1]
            · have : ¬ ((b : Int) + 1 = l) := fun h' => h h'.symm
              simp [h, this]
        rw [hc]
        by_cases h : (b : Int) + 1 ∈ c <;> simp [h]
    rw [this]; ring
  · intro l i hl; unfold occFile
    by_cases h : l < 0
    · have : ¬ (-l < 0) := by omega
      simp only [h, this, if_true, if_false]; omega
    · simp only [h, if_false]; omega
  · intro l i hl
    right
    unfold occFile
    by_cases h : l < 0
    · have h1 : ¬ (-l < 0) := by omega
      have h2 : ¬ (0 < l) := by omega
      simp only [h, h1, h2, if_true, if_false]; simp
    · simp [h]

theorem clauseDelta_zero_iff (c : List Int) (x : Nat → Bool) (b : Nat) :
    clauseDelta c x b = 0 ↔ (satisfies x c ↔ satisfies (flip x b) c) := by
  obtain ⟨p, hp, _⟩ := C05_maxsat_full [] x
  have e : ∀ y, clauseEval c y = true ↔ satisfies y c := by
    intro y
    obtain ⟨q, hq, hs⟩ := C05_maxsat_full [c] y
    rw [← hq c]
    rw [maxSatFull_eq] at hs
    cases h1 : clauseEval c y <;> cases h2 : q c <;> simp [b2i, h1, h2] at hs ⊢
  rw [← e, ← e, clauseDelta]
  cases clauseEval c x <;> cases clauseEval c (flip x b) <;> simp [b2i]

/-- C05, files, exactly when: the incremental value is right if and only if as many of the clauses in which the variable does
not occur positively are satisfied after the flip as before. -/
theorem C05_maxsat_incr_file_iff (cs : List (List Int)) (x : Nat → Bool) (b : Nat)
    (h0 : ∀ c ∈ cs, ∀ l ∈ c, l ≠ 0) (hnd : ∀ c ∈ cs, c.Nodup) :
    maxSatIncr cs (entriesOf occFile cs (b + 1)) x (maxSatFull cs x) b = maxSatFull cs (flip x b) ↔
      maxSatFull (cs.filter fun c => (b : Int) + 1 ∉ c) (flip x b) = maxSatFull (cs.filter fun c => (b : Int) + 1 ∉ c) x := by
  rw [C05_maxsat_incr_file_value cs x b h0 hnd]
  have split : ∀ y, maxSatFull cs y = maxSatFull (cs.filter fun c => (b : Int) + 1 ∈ c) y +
      maxSatFull (cs.filter fun c => (b : Int) + 1 ∉ c) y := by
    intro y
    rw [maxSatFull_eq, maxSatFull_eq, maxSatFull_eq]
    clear h0 hnd
    induction cs with
    | nil => simp
    | cons c cs ih =>
      by_cases h : (b : Int) + 1 ∈ c
      · simp only [List.map_cons, List.sum_cons, List.filter_cons, h, decide_true, not_true_eq_false, decide_false,
          if_true, Bool.false_eq_true, if_false]
        linarith
      · simp only [List.map_cons, List.sum_cons, List.filter_cons, h, decide_true, not_false_eq_true, decide_false,
          if_true, Bool.false_eq_true, if_false]
        linarith
  rw [split x, split (flip x b)]
  constructor <;> intro h <;> linarith

theorem clause_sum_pos (c : List Int) (x : Nat → Bool) (b : Nat) (hn : c.Nodup) :
    (c.map fun l => if litVar l = b ∧ 0 < l then clauseDelta c x b else 0).sum
      = if (b : Int) + 1 ∈ c then clauseDelta c x b else 0 := by
  have e : (c.map fun l => if litVar l = b ∧ 0 < l then clauseDelta c x b else 0)
      = c.map fun l => if l = (b : Int) + 1 then clauseDelta c x b else 0 := by
    apply List.map_congr_left
    intro l hl
    have : (litVar l = b ∧ 0 < l) ↔ l = (b : Int) + 1 := by unfold litVar; omega
    simp only [this]
  rw [e]
  generalize clauseDelta c x b = d
  clear e
  induction c with
  | nil => simp
  | cons l c ihc =>
    have hn' := List.nodup_cons.1 hn
    rw [List.map_cons, List.sum_cons, ihc hn'.2]
    by_cases h : l = (b : Int) + 1
    · subst h; simp [hn'.1]
    · have : ¬ ((b : Int) + 1 = l) := fun h' => h h'.symm
      simp [h, this]

/-- C05, random instances, exactly when: the incremental value is right if and only if the first clause has the variable as a
positive literal or keeps its truth value. -/
theorem C05_maxsat_incr_random_iff (c : List Int) (cs : List (List Int)) (x : Nat → Bool) (b : Nat)
    (h0 : ∀ d ∈ c :: cs, ∀ l ∈ d, l ≠ 0) (hnd : ∀ d ∈ c :: cs, d.Nodup) :
    maxSatIncr (c :: cs) (entriesOf occRandom (c :: cs) (b + 1)) x (maxSatFull (c :: cs) x) b = maxSatFull (c :: cs) (flip x b) ↔
      ((b : Int) + 1 ∈ c ∨ (satisfies x c ↔ satisfies (flip x b) c)) := by
  rw [maxSatIncr_table occRandom (fun l i => 0 < l ∨ 0 < i) (c :: cs) x _ b h0, maxSatFull_flip]
  · rw [← clauseDelta_zero_iff]
    simp only [List.zipIdx_cons, List.map_cons, List.sum_cons, Nat.zero_add, lt_irrefl, or_false]
    rw [clause_sum_pos c x b (hnd c (by simp))]
    have hrest : ((cs.zipIdx 1).map fun ci => (ci.1.map fun l =>
        if litVar l = b ∧ (0 < l ∨ 0 < ci.2) then clauseDelta ci.1 x b else 0).sum).sum = (cs.map fun c => clauseDelta c x b).sum := by
      rw [← sum_zipIdx cs 1]
      congr 1
      apply List.map_congr_left
      rintro ⟨d, i⟩ hdi
      have hi : 0 < i := by
        have := List.le_snd_of_mem_zipIdx hdi
        simp at this; omega
      have hd : d ∈ cs := by
        have := List.fst_mem_of_mem_zipIdx hdi
        simpa using this
      have := clause_sum_right d x b (h0 d (by simp [hd])) (hnd d (by simp [hd]))
      simp only [hi, or_true, and_true]
      exact this
    rw [hrest]
    by_cases h : (b : Int) + 1 ∈ c
    · simp [h]
    · simp only [h, if_false, false_or]
      constructor <;> intro h' <;> linarith
  · intro l i _; unfold occRandom; split <;> simp <;> omega
  · intro l i hl
    unfold occRandom
    by_cases h : l < 0
    · simp only [h, if_true]
      by_cases hi : 0 < i
      · left; refine ⟨by omega, trivial, trivial, Or.inr hi⟩
      · right; exact ⟨by omega, by omega⟩
    · simp only [h, if_false]
      right; exact ⟨trivial, by omega⟩

/-- C05 fails for file instances with a negated literal: `(¬v1)`, flip `v1`. -/
theorem C05_maxsat_file_wrong :
    ∃ (cs : List (List Int)) (x : Nat → Bool) (b : Nat),
      (∀ c ∈ cs, ∀ l ∈ c, l ≠ 0) ∧ (∀ c ∈ cs, c.Nodup) ∧
      maxSatIncr cs (entriesOf occFile cs (b + 1)) x (maxSatFull cs x) b
        ≠ maxSatFull cs (flip x b) :=
  ⟨[[1, 2], [-1, 3]], fun _ => false, 0, by decide, by decide, by decide⟩

/-- C05 fails for random instances whose clause 0 has a negated literal. -/
theorem C05_maxsat_random_wrong :
    ∃ (cs : List (List Int)) (x : Nat → Bool) (b : Nat),
      (∀ c ∈ cs, ∀ l ∈ c, l ≠ 0) ∧ (∀ c ∈ cs, c.Nodup) ∧
      maxSatIncr cs (entriesOf occRandom cs (b + 1)) x (maxSatFull cs x) b
        ≠ maxSatFull cs (flip x b) :=
  ⟨[[-1, 2], [1, 3]], fun _ => false, 0, by decide, by decide, by decide⟩

/-- Repeated literals in a clause also break it (hypothesis `Nodup` is needed). -/
theorem C05_maxsat_needs_nodup :
    ∃ (cs : List (List Int)) (x : Nat → Bool) (b : Nat),
      (∀ c ∈ cs, ∀ l ∈ c, 0 < l) ∧
      maxSatIncr cs (entriesOf occRandom cs (b + 1)) x (maxSatFull cs x) b
        ≠ maxSatFull cs (flip x b) :=
  ⟨[[1, 1]], fun _ => false, 0, by decide, by decide⟩

/-- The hypotheses of the positive theorems are met by a non-trivial instance. -/
example : (∀ c ∈ [[1, 2], [-1, 3]], ∀ l ∈ c, l ≠ (0 : Int)) ∧
    (∀ c, [[(1 : Int), 2], [-1, 3]].head? = some c → -(((0 : Nat) : Int) + 1) ∉ c) ∧
    maxSatIncr [[1, 2], [-1, 3]] (entriesOf occRandom [[1, 2], [-1, 3]] 1) (fun _ => false) 1 0
      = 1 := by decide

/-- Both sides of the two characterisations occur. -/
example : maxSatIncr [[-1, 2], [1, 3]] (entriesOf occRandom [[-1, 2], [1, 3]] 1) (fun i => i = 1)
      (maxSatFull [[-1, 2], [1, 3]] fun i => i = 1) 0 = maxSatFull [[-1, 2], [1, 3]] (flip (fun i => i = 1) 0) ∧
    maxSatIncr [[-1, 2], [1, 3]] (entriesOf occFile [[-1, 2], [1, 3]] 1) (fun i => i = 1)
      (maxSatFull [[-1, 2], [1, 3]] fun i => i = 1) 0 = maxSatFull [[-1, 2], [1, 3]] (flip (fun i => i = 1) 0) ∧
    maxSatIncr [[-1, 2], [1, 3]] (entriesOf occFile [[-1, 2], [1, 3]] 1) (fun _ => false)
      (maxSatFull [[-1, 2], [1, 3]] fun _ => false) 0 ≠ maxSatFull [[-1, 2], [1, 3]] (flip (fun _ => false) 0) := by decide

/-! ### C06 NK landscapes -/

/-- Full evaluation: mean of the contributions, each looked up at the mask whose `t`-th bit is
the value of the `t`-th linked bit. -/
theorem C06_nk_full {F : Type} [Field F] (N K : Nat) (links : Nat → Nat → Nat)
    (tables : Nat → Nat → F) (x : Nat → Bool) :
    ∃ mask : Nat → Nat,
      (∀ i t, (mask i).testBit t = (decide (t ≤ K) && x (links i t))) ∧
      nkFull N K links tables x = (∑ i ∈ range N, tables i (mask i)) / (N : F) := by
  refine ⟨fun i => nkSigma K (links i) x, ?_, nkFull_eq N K links tables x⟩
  intro i t
  rw [nkSigma_testBit]
  simp

/-- C06: incremental = full on the flipped string, when the `K+1` links of a contribution are
distinct. -/
theorem C06_nk_incr {F : Type} [Field F] (N K : Nat) (links : Nat → Nat → Nat)
    (tables : Nat → Nat → F) (x : Nat → Bool) (bit : Nat)
    (hinj : ∀ i < N, ∀ a < K + 1, ∀ c < K + 1, links i a = links i c → a = c) :
    nkIncr N K links tables x (nkFull N K links tables x) bit
      = nkFull N K links tables (flip x bit) := by
  rw [nkIncr, nkDelta_eq N K links tables x bit 0 hinj, nkFull_eq, nkFull_eq,
    Finset.sum_sub_distrib]
  ring

/-- C06, several bits (possibly repeated), and the solution is restored. -/
theorem C06_nk_bits_incr {F : Type} [Field F] (N K : Nat) (links : Nat → Nat → Nat)
    (tables : Nat → Nat → F) (x : Nat → Bool) (bits : List Nat)
    (hinj : ∀ i < N, ∀ a < K + 1, ∀ c < K + 1, links i a = links i c → a = c) :
    nkBitsIncr N K links tables x (nkFull N K links tables x) bits
      = (nkFull N K links tables (flips x bits), x) := by
  have key : ∀ (l : List Nat) (s : F × (Nat → Bool)),
      l.foldl (fun (s : F × (Nat → Bool)) b =>
        (nkDelta N K links tables s.2 b s.1, flip s.2 b)) s
      = (s.1 + ((∑ i ∈ range N, tables i (nkSigma K (links i) (l.foldl flip s.2)))
          - ∑ i ∈ range N, tables i (nkSigma K (links i) s.2)), l.foldl flip s.2) := by
    intro l
    induction l with
    | nil => intro s; simp
    | cons b l ih =>
      intro s
      rw [List.foldl_cons, ih, List.foldl_cons]
      simp only [nkDelta_eq N K links tables s.2 b _ hinj, Finset.sum_sub_distrib]
      ext1
      · simp only; ring
      · rfl
  unfold nkBitsIncr
  rw [key bits (0, x)]
  simp only [foldl_flip_twice, flips, nkFull_eq]
  ext1
  · simp only; ring
  · rfl

/-- Distinct links are needed: with a bit linked twice the increment is counted twice. -/
theorem C06_nk_needs_distinct_links :
    ∃ (N K : Nat) (links : Nat → Nat → Nat) (tables : Nat → Nat → ℚ) (x : Nat → Bool) (bit : Nat),
      bit < N ∧ nkIncr N K links tables x (nkFull N K links tables x) bit
        ≠ nkFull N K links tables (flip x bit) := by
  refine ⟨1, 1, fun _ _ => 0, fun _ m => m, fun _ => false, 0, by decide, ?_⟩
  have h1 : (1 <<< 1 : Nat) = 2 := by decide
  have h2 : (1 ||| 2 : Nat) = 3 := by decide
  norm_num [nkIncr, nkFull, nkDelta, nkInverseLinks, nkSigma2, nkSigma, flip, List.range_succ, h1, h2]

example : ∀ i < 5, ∀ a < 2 + 1, ∀ c < 2 + 1, (i + a) % 5 = (i + c) % 5 → a = c := by decide

/-! ### C07 Royal road -/

/-- Specification: block `i` is complete. -/
def blockFull (k : Nat) (x : List Bool) (i : Nat) : Bool :=
  (List.range k).all (fun j => x[i * k + j]? == some true)

theorem blockFull_iff (k : Nat) (x : List Bool) (i : Nat) :
    blockFull k x i = true ↔ ∀ j < k, x[i * k + j]? = some true := by
  rw [blockFull, list_all_range_true]; simp

/-- Full evaluation never reads out of range and counts the complete blocks. -/
theorem C07_royal_full (k : Nat) (x : List Bool) (_hk : 0 < k) :
    royalFull k x = some (((List.range (x.length / k)).countP (blockFull k x) : Nat) : Int) := by
  unfold royalFull
  rw [royal_foldlM k x _ 0]
  · rw [zero_add]
    congr 1
    generalize List.range (x.length / k) = l
    induction l with
    | nil => simp
    | cons i l ih =>
      rw [List.map_cons, List.sum_cons, ih, List.countP_cons]
      unfold blockFull
      split <;> simp
      ring
  · intro i hi
    have h1 : i < x.length / k := by simpa using hi
    have h2 : (i + 1) * k ≤ x.length / k * k := Nat.mul_le_mul_right k h1
    have h3 := Nat.div_mul_le_self x.length k
    have h4 : (i + 1) * k = i * k + k := by ring
    omega

theorem blockFull_set_other (k : Nat) (x : List Bool) (i idx : Nat) (v : Bool) (hk : 0 < k)
    (h : idx / k ≠ i) : blockFull k (x.set idx v) i = blockFull k x i := by
  apply Bool.eq_iff_iff.2
  rw [blockFull_iff, blockFull_iff]
  have : ∀ j < k, (x.set idx v)[i * k + j]? = x[i * k + j]? := by
    intro j hj
    rw [List.getElem?_set_ne]
    intro he
    apply h
    rw [he, Nat.mul_comm, Nat.mul_add_div hk, Nat.div_eq_of_lt hj]; rfl
  constructor
  · intro h j hj; rw [← this j hj]; exact h j hj
  · intro h j hj; rw [this j hj]; exact h j hj

/-- C07: for a bit of a complete block, incremental evaluation succeeds and equals full
evaluation of the flipped string. -/
theorem C07_royal_incr (k : Nat) (x : List Bool) (idx : Nat) (hk : 0 < k)
    (hidx : idx < x.length / k * k) (b : Bool) (hb : x[idx]? = some b) (f : Int)
    (hf : royalFull k x = some f) :
    royalIncr k x f idx = royalFull k (x.set idx (!b)) := by
  set n := idx / k with hn
  have hdm : n * k + idx % k = idx := by rw [hn, Nat.mul_comm]; exact Nat.div_add_mod idx k
  have hmod : idx % k < k := Nat.mod_lt _ hk
  have hnlt : n < x.length / k := (Nat.div_lt_iff_lt_mul hk).2 hidx
  have hfit : n * k + k ≤ x.length := by
    have h2 : (n + 1) * k ≤ x.length / k * k := Nat.mul_le_mul_right k hnlt
    have h3 := Nat.div_mul_le_self x.length k
    have h4 : (n + 1) * k = n * k + k := by ring
    omega
  have hlt : idx < x.length := by omega
  -- counts before and after
  have hcount : ∀ v : Bool, (((List.range (x.length / k)).countP (blockFull k (x.set idx v)) : Nat) : Int)
      = (((List.range (x.length / k)).countP (blockFull k x) : Nat) : Int)
        + ((if blockFull k (x.set idx v) n then 1 else 0) - (if blockFull k x n then 1 else 0)) := by
    intro v
    have hgen : ∀ (m : Nat), (((List.range m).countP (blockFull k (x.set idx v)) : Nat) : Int)
      = (((List.range m).countP (blockFull k x) : Nat) : Int)
        + (if n < m then ((if blockFull k (x.set idx v) n then 1 else 0)
            - (if blockFull k x n then 1 else 0)) else 0) := by
      intro m
      induction m with
      | zero => simp
      | succ m ih =>
        rw [List.range_succ, List.countP_append, List.countP_append]
        push_cast
        rw [ih]
        simp only [List.countP_cons, List.countP_nil]
        by_cases hm : n = m
        · have h1 : ¬ n < m := by omega
          have h2 : n < m + 1 := by omega
          rw [if_neg h1, if_pos h2, ← hm]
          cases blockFull k (x.set idx v) n <;> cases blockFull k x n <;> simp
        · rw [blockFull_set_other k x m idx v hk hm]
          have h3 : (n < m + 1) = (n < m) := by apply propext; omega
          simp only [h3]; ring
    rw [hgen, if_pos hnlt]
  have hlen : (x.set idx (!b)).length = x.length := by simp
  rw [C07_royal_full k _ hk, hlen, hcount]
  rw [C07_royal_full k x hk] at hf
  have hf' : f = (((List.range (x.length / k)).countP (blockFull k x) : Nat) : Int) :=
    (Option.some.inj hf).symm
  rw [← hf']
  have hset_same : (x.set idx (!b))[idx]? = some (!b) := by
    rw [List.getElem?_set_self hlt]
  have hset_ne : ∀ t, t ≠ idx → (x.set idx (!b))[t]? = x[t]? := by
    intro t ht; rw [List.getElem?_set_ne (Ne.symm ht)]
  -- the scan
  obtain ⟨r, h1, h2, h3, h4, h5⟩ := rrScan_eq x (n * k) 0 k (by omega)
  simp only [royalIncr, ← hn, h1, Option.bind_eq_bind, Option.bind_some, Option.pure_def]
  by_cases hr : r = k
  · rw [if_pos hr]
    have hfull : blockFull k x n = true := by
      rw [blockFull_iff]; intro j hj; exact h4 j (by omega) (by omega)
    have hbt : b = true := by
      have := h4 (idx % k) (by omega) (by omega)
      rw [hdm, hb] at this; exact Option.some.inj this
    have hnot : blockFull k (x.set idx (!b)) n = false := by
      rw [Bool.eq_false_iff, Ne, blockFull_iff]
      intro h
      have := h (idx % k) hmod
      rw [hdm, hset_same, hbt] at this; simp at this
    rw [hfull, hnot]; simp; ring
  · rw [if_neg hr, hb, Option.bind_some]
    have hrk : r < k := by omega
    have hrf : x[n * k + r]? = some false := h5 (by omega)
    have hnfull : blockFull k x n = false := by
      rw [Bool.eq_false_iff, Ne, blockFull_iff]
      intro h; rw [h r hrk] at hrf; simp at hrf
    by_cases hcase : b = false ∧ n * k + r = idx
    · rw [if_pos hcase]
      obtain ⟨r2, g1, g2⟩ := rrScan_full x (n * k) (r + 1) (k - (r + 1)) (by omega)
      rw [g1, Option.bind_some]
      have hk' : r + 1 + (k - (r + 1)) = k := by omega
      rw [hk'] at g2
      have e : blockFull k (x.set idx (!b)) n = true ↔ r2 = k := by
        rw [blockFull_iff, g2]
        constructor
        · intro h t ht1 ht2
          have := h t ht2
          rwa [hset_ne (n * k + t) (by omega)] at this
        · intro h j hj
          by_cases hjr : j = r
          · subst hjr; rw [hcase.2, hset_same, hcase.1]; rfl
          · rw [hset_ne (n * k + j) (by omega)]
            by_cases hjl : j < r
            · exact h4 j (by omega) hjl
            · exact h j (by omega) hj
      by_cases hr2 : r2 = k
      · rw [if_pos hr2, e.2 hr2, hnfull]; simp
      · have : blockFull k (x.set idx (!b)) n = false := by
          rw [Bool.eq_false_iff]; exact fun h => hr2 (e.1 h)
        rw [if_neg hr2, this, hnfull]; simp
    · rw [if_neg hcase]
      have : blockFull k (x.set idx (!b)) n = false := by
        rw [Bool.eq_false_iff, Ne, blockFull_iff]
        intro h
        by_cases hbt : b = true
        · have := h (idx % k) hmod
          rw [hdm, hset_same, hbt] at this; simp at this
        · have hbf : b = false := by simpa using hbt
          have hne : n * k + r ≠ idx := fun he => hcase ⟨hbf, he⟩
          have := h r hrk
          rw [hset_ne _ hne, hrf] at this; simp at this
      rw [this, hnfull]; simp

/-- A scan that may run past the end: it does exactly if no bit in between is 0. -/
theorem rrScan_over (x : List Bool) (off : Nat) : ∀ (m j : Nat), off + j ≤ x.length → x.length < off + j + m →
    ((∀ t, off + j ≤ t → t < x.length → x[t]? = some true) ∧ rrScan x off j m = none) ∨
    (∃ r, j ≤ r ∧ off + r < x.length ∧ x[off + r]? = some false ∧ (∀ t, off + j ≤ t → t < off + r → x[t]? = some true) ∧
      rrScan x off j m = some r)
  | 0, j, h1, h2 => by omega
  | m + 1, j, h1, h2 => by
    rw [rrScan]
    by_cases he : off + j = x.length
    · left
      refine ⟨fun t h1 h2 => by omega, ?_⟩
      rw [List.getElem?_eq_none (by omega)]
    · have hg : x[off + j]? = some (x[off + j]'(by omega)) := List.getElem?_eq_getElem _
      cases hb : x[off + j]'(by omega) with
      | false =>
        right
        rw [hb] at hg
        exact ⟨j, le_rfl, by omega, hg, fun t h1 h2 => by omega, by rw [hg]⟩
      | true =>
        rw [hb] at hg
        rw [hg]
        rcases rrScan_over x off m (j + 1) (by omega) (by omega) with ⟨a, b⟩ | ⟨r, r1, r2, r3, r4, r5⟩
        · left
          refine ⟨fun t h1 h2 => ?_, b⟩
          by_cases ht : t = off + j
          · rw [ht]; exact hg
          · exact a t (by omega) h2
        · right
          refine ⟨r, by omega, r2, r3, fun t h1 h2 => ?_, r5⟩
          by_cases ht : t = off + j
          · rw [ht]; exact hg
          · exact r4 t (by omega) h2

/-- C07, a bit of a trailing incomplete block: the value is right if another bit of that block is 0; otherwise the code
reads past the end. -/
theorem C07_royal_trailing (k : Nat) (x : List Bool) (idx : Nat) (hk : 0 < k)
    (hidx : x.length / k * k ≤ idx) (b : Bool) (hb : x[idx]? = some b) (f : Int)
    (hf : royalFull k x = some f) :
    ((∃ t, x.length / k * k ≤ t ∧ t ≠ idx ∧ x[t]? = some false) →
      royalIncr k x f idx = royalFull k (x.set idx (!b))) ∧
    ((∀ t, x.length / k * k ≤ t → t < x.length → t ≠ idx → x[t]? = some true) → royalIncr k x f idx = none) := by
  have hlt : idx < x.length := (List.getElem?_eq_some_iff.1 hb).1
  have hq : idx / k = x.length / k := by
    apply Nat.le_antisymm
    · exact Nat.div_le_div_right hlt.le
    · exact (Nat.le_div_iff_mul_le hk).2 hidx
  have hlen : x.length < x.length / k * k + k := by
    have := Nat.lt_div_mul_add hk (a := x.length)
    omega
  have hfull : royalFull k (x.set idx (!b)) = some f := by
    rw [← hf, C07_royal_full k _ hk, C07_royal_full k _ hk, List.length_set]
    congr 2
    apply List.countP_congr
    intro i hi
    rw [List.mem_range] at hi
    rw [blockFull_set_other k x i idx _ hk (by omega)]
  rw [hfull]
  unfold royalIncr
  rw [hq]
  dsimp only
  set off := x.length / k * k with hoff
  rcases rrScan_over x off k 0 (by omega) (by omega) with ⟨a, ha⟩ | ⟨r, _, r2, r3, r4, r5⟩
  · rw [ha]
    refine ⟨?_, fun _ => rfl⟩
    rintro ⟨t, t1, t2, t3⟩
    have := a t (by omega) (List.getElem?_eq_some_iff.1 t3).1
    rw [this] at t3
    exact absurd t3 (by simp)
  · rw [r5]
    simp only [Option.bind_eq_bind, Option.bind_some, Option.pure_def]
    have hrk : r ≠ k := by omega
    rw [if_neg hrk, hb, Option.bind_some]
    by_cases hc : b = false ∧ off + r = idx
    · rw [if_pos hc]
      rcases rrScan_over x off (k - (r + 1)) (r + 1) (by omega) (by omega) with ⟨a, ha⟩ | ⟨r', s1, s2, s3, s4, s5⟩
      · rw [ha]
        refine ⟨?_, fun _ => rfl⟩
        rintro ⟨t, t1, t2, t3⟩
        have htl := (List.getElem?_eq_some_iff.1 t3).1
        by_cases ht : t < off + r
        · rw [r4 t (by omega) ht] at t3; exact absurd t3 (by simp)
        · rw [a t (by omega) htl] at t3; exact absurd t3 (by simp)
      · rw [s5]
        have hr'k : r' ≠ k := by omega
        simp only [Option.bind_some]
        rw [if_neg hr'k]
        refine ⟨fun _ => rfl, fun h => ?_⟩
        have := h (off + r') (by omega) s2 (by omega)
        rw [this] at s3
        exact absurd s3 (by simp)
    · rw [if_neg hc]
      refine ⟨fun _ => rfl, fun h => ?_⟩
      by_cases he : off + r = idx
      · have : b = false := by
          rw [he] at r3
          rw [r3] at hb
          exact (Option.some.inj hb).symm
        exact absurd ⟨this, he⟩ hc
      · have := h (off + r) (by omega) r2 he
        rw [this] at r3
        exact absurd r3 (by simp)

/-- C07 fails for a bit of a trailing incomplete block: an out-of-range read. -/
theorem C07_royal_trailing_out_of_range :
    ∃ (k : Nat) (x : List Bool) (idx : Nat), 0 < k ∧ idx < x.length ∧
      royalIncr k x 0 idx = none :=
  ⟨3, [false, false, false, true, true], 4, by decide, by decide, by decide⟩

/-- A bit of an incomplete block with another 0 in it: right value; without: out of range. -/
example : royalIncr 4 [true, true, true, true, true, false, true] 1 4 = some 1 ∧
    royalFull 4 [true, true, true, true, true, false, true] = some 1 ∧
    royalIncr 4 [true, true, true, true, true, false, true] 1 5 = none := by decide

example : royalFull 2 [true, true, true, false, true] = some 1 ∧
    3 < [true, true, true, false, true].length / 2 * 2 ∧
    royalIncr 2 [true, true, true, false, true] 1 3 = some 2 := by decide

end Paradiseo.IncrEval
