/- Helper lemmas for the incremental evaluation properties. -/
import Verif.Model.IncrEval
import Mathlib.Algebra.BigOperators.Group.Finset.Basic
import Mathlib.Algebra.BigOperators.Group.Finset.Piecewise
import Mathlib.Algebra.BigOperators.Ring.Finset
import Mathlib.Algebra.BigOperators.Intervals
import Mathlib.Tactic.Ring
import Mathlib.Tactic.Linarith
import Mathlib.Tactic.FieldSimp

namespace Paradiseo.IncrEval
open Finset

theorem foldl_add_list {M α : Type*} [AddCommMonoid M] (l : List α) (f : α → M) (a : M) :
    l.foldl (fun s i => s + f i) a = a + (l.map f).sum := by
  induction l generalizing a with
  | nil => simp
  | cons x l ih => simp [ih, add_assoc]

theorem list_range_sum {M : Type*} [AddCommMonoid M] (n : Nat) (f : Nat → M) :
    ((List.range n).map f).sum = ∑ i ∈ range n, f i := by
  induction n with
  | zero => simp
  | succ n ih => rw [List.range_succ, Finset.sum_range_succ]; simp [ih]

theorem foldl_add_range {M : Type*} [AddCommMonoid M] (n : Nat) (f : Nat → M) (a : M) :
    (List.range n).foldl (fun s i => s + f i) a = a + ∑ i ∈ range n, f i := by
  rw [foldl_add_list, list_range_sum]

theorem foldl_ite_eq {M α : Type*} [AddCommMonoid M] (l : List α) (p : α → Prop)
    [DecidablePred p] (f : α → M) (a : M) :
    l.foldl (fun s i => if p i then s + f i else s) a
      = a + (l.map fun i => if p i then f i else 0).sum := by
  rw [← foldl_add_list]
  congr 1; funext s i; split <;> simp

theorem foldl_ite_range {M : Type*} [AddCommMonoid M] (n : Nat) (p : Nat → Prop)
    [DecidablePred p] (f : Nat → M) (a : M) :
    (List.range n).foldl (fun s i => if p i then s + f i else s) a
      = a + ∑ i ∈ range n, if p i then f i else 0 := by
  rw [foldl_ite_eq, list_range_sum]

theorem list_range'_sum {M : Type*} [AddCommMonoid M] (a b : Nat) (f : Nat → M) :
    ((List.range' a b).map f).sum = ∑ i ∈ Ico a (a + b), f i := by
  induction b with
  | zero => simp
  | succ n ih =>
    rw [List.range'_concat, List.map_append, List.sum_append, ih, ← Nat.add_assoc,
      Finset.sum_Ico_succ_top (by omega)]
    simp

theorem flip_same (x : Nat → Bool) (b : Nat) : flip x b b = !x b := by simp [flip]
theorem flip_ne (x : Nat → Bool) {b i : Nat} (h : i ≠ b) : flip x b i = x i := by
  simp [flip, Function.update_of_ne h]
theorem flip_flip (x : Nat → Bool) (b : Nat) : flip (flip x b) b = x := by
  funext i; by_cases h : i = b
  · subst h; simp [flip]
  · simp [flip_ne _ h]
theorem flip_comm (x : Nat → Bool) (a b : Nat) : flip (flip x a) b = flip (flip x b) a := by
  funext i
  by_cases ha : i = a <;> by_cases hb : i = b
  · subst ha; subst hb; rfl
  · subst ha; rw [flip_ne _ hb, flip_same, flip_same, flip_ne _ hb]
  · subst hb; rw [flip_same, flip_ne _ ha, flip_ne _ ha, flip_same]
  · simp [flip_ne _ ha, flip_ne _ hb]

theorem foldl_flip_comm (l : List Nat) (x : Nat → Bool) (b : Nat) :
    l.foldl flip (flip x b) = flip (l.foldl flip x) b := by
  induction l generalizing x with
  | nil => rfl
  | cons c l ih => simp only [List.foldl_cons]; rw [flip_comm, ih]

theorem foldl_flip_twice (l : List Nat) (x : Nat → Bool) :
    l.foldl flip (l.foldl flip x) = x := by
  induction l generalizing x with
  | nil => rfl
  | cons c l ih =>
    simp only [List.foldl_cons]
    rw [foldl_flip_comm, foldl_flip_comm, foldl_flip_comm, flip_flip, ih]

/-! #### OneMax -/

theorem oneMaxFull_eq (n : Nat) (x : Nat → Bool) :
    oneMaxFull n x = ∑ i ∈ range n, if x i then (1 : Int) else 0 := by
  simp [oneMaxFull, foldl_add_range]

theorem oneMaxFull_flip (n : Nat) (x : Nat → Bool) (i : Nat) (hi : i < n) :
    oneMaxFull n (flip x i) = oneMaxFull n x + (if x i = false then 1 else -1) := by
  simp only [oneMaxFull_eq]
  have hm : i ∈ range n := by simpa using hi
  rw [← Finset.add_sum_erase _ _ hm, ← Finset.add_sum_erase (range n) (fun j => if x j then _ else _) hm]
  rw [Finset.sum_congr rfl (fun j hj => by rw [flip_ne x (Finset.ne_of_mem_erase hj)])]
  rw [flip_same]
  cases x i <;> simp
  ring

theorem bitsDelta_eq (bits : List Nat) (x : Nat → Bool) (a : Int) :
    bits.foldl (fun delta b => if x b = false then delta + 1 else delta - 1) a
      = a + (bits.map fun b => if x b = false then (1 : Int) else -1).sum := by
  rw [← foldl_add_list]
  congr 1; funext s b; split <;> ring

theorem oneMaxFull_flips (n : Nat) (bits : List Nat) (x : Nat → Bool)
    (hlt : ∀ b ∈ bits, b < n) (hnd : bits.Nodup) :
    oneMaxFull n (flips x bits)
      = oneMaxFull n x + (bits.map fun b => if x b = false then (1 : Int) else -1).sum := by
  induction bits generalizing x with
  | nil => simp [flips]
  | cons b bits ih =>
    have hb : b ∉ bits := (List.nodup_cons.1 hnd).1
    have ih' := ih (flip x b) (fun c hc => hlt c (List.mem_cons_of_mem _ hc)) (List.nodup_cons.1 hnd).2
    simp only [flips, List.foldl_cons] at ih' ⊢
    rw [ih', oneMaxFull_flip n x b (hlt b (by simp))]
    have : (bits.map fun c => if flip x b c = false then (1 : Int) else -1)
        = bits.map fun c => if x c = false then (1 : Int) else -1 := by
      apply List.map_congr_left
      intro c hc
      rw [flip_ne x (by rintro rfl; exact hb hc)]
    rw [this]; simp only [List.map_cons, List.sum_cons]; ring

/-! #### QAP -/

theorem qapFull_eq (n : Nat) (A B : Nat → Nat → Int) (s : Nat → Nat) :
    qapFull n A B s = ∑ i ∈ range n, ∑ j ∈ range n, A i j * B (s i) (s j) := by
  unfold qapFull
  simp only [foldl_add_range]
  simp

theorem swapAt_left {α : Type} (s : Nat → α) (i j : Nat) : swapAt s i j i = s j := by
  unfold swapAt
  by_cases h : i = j
  · subst h; simp
  · rw [Function.update_of_ne h]; simp

theorem swapAt_right {α : Type} (s : Nat → α) (i j : Nat) : swapAt s i j j = s i := by
  simp [swapAt]

theorem swapAt_other {α : Type} (s : Nat → α) {i j k : Nat} (hi : k ≠ i) (hj : k ≠ j) :
    swapAt s i j k = s k := by
  simp [swapAt, Function.update_of_ne hi, Function.update_of_ne hj]

/-- Splitting two distinct indices out of a sum. -/
theorem sum_split2 {M : Type*} [AddCommMonoid M] (n i j : Nat) (hi : i < n) (hj : j < n)
    (hij : i ≠ j) (f : Nat → M) :
    ∑ k ∈ range n, f k
      = f i + f j + ∑ k ∈ range n, if k ≠ i ∧ k ≠ j then f k else 0 := by
  have h1 : ∑ k ∈ range n, f k
      = ∑ k ∈ range n, ((if k = i then f k else 0) + (if k = j then f k else 0)
          + (if k ≠ i ∧ k ≠ j then f k else 0)) := by
    apply Finset.sum_congr rfl
    intro k _
    by_cases h1 : k = i
    · subst h1; simp [hij]
    · by_cases h2 : k = j
      · subst h2; simp [h1]
      · simp [h1, h2]
  rw [h1, Finset.sum_add_distrib, Finset.sum_add_distrib]
  simp [hi, hj]

/-! #### UBQP -/

theorem ubqpFull_eq (n : Nat) (Q : Nat → Nat → Int) (x : Nat → Bool) :
    ubqpFull n Q x
      = ∑ i ∈ range n, ∑ j ∈ range (i + 1), if x i ∧ x j then Q i j else 0 := by
  unfold ubqpFull
  simp only [foldl_ite_range]
  rw [zero_add]
  apply Finset.sum_congr rfl
  intro i _
  by_cases h : x i <;> simp [h]

theorem ubqpD_eq (n : Nat) (Q : Nat → Nat → Int) (x : Nat → Bool) (i : Nat) (hi : i < n) :
    ubqpD n Q x i = Q i i + (∑ j ∈ range i, if x j then Q i j else 0)
      + ∑ j ∈ Ico (i + 1) n, if x j then Q j i else 0 := by
  unfold ubqpD
  simp only [foldl_ite_range]
  rw [foldl_ite_eq, list_range'_sum]
  have : i + 1 + (n - (i + 1)) = n := by omega
  rw [this]

/-- Symmetric coefficient of the lower-triangular matrix. -/
def qsym (Q : Nat → Nat → Int) (i j : Nat) : Int := if j < i then Q i j else Q j i

def b2i (b : Bool) : Int := if b then 1 else 0

theorem ubqpD_sym (n : Nat) (Q : Nat → Nat → Int) (x : Nat → Bool) (i : Nat) (hi : i < n) :
    ubqpD n Q x i = Q i i + ∑ j ∈ (range n).erase i, b2i (x j) * qsym Q i j := by
  rw [ubqpD_eq n Q x i hi, add_assoc]
  congr 1
  have hsplit : (range n).erase i = range i ∪ Ico (i + 1) n := by
    ext k; simp; omega
  have hdisj : Disjoint (range i) (Ico (i + 1) n) := by
    rw [Finset.disjoint_left]; intro k; simp; omega
  rw [hsplit, Finset.sum_union hdisj]
  congr 1 <;> apply Finset.sum_congr rfl <;> intro k hk <;> simp at hk
  · simp only [qsym, b2i, hk, if_true]; split <;> simp
  · have : ¬ k < i := by omega
    simp only [qsym, b2i, this, if_false]; split <;> simp

/-- Full evaluation written as linear form in the chosen bit. -/
theorem ubqpFull_split (n : Nat) (Q : Nat → Nat → Int) (x : Nat → Bool) (i : Nat) (hi : i < n) :
    ubqpFull n Q x = b2i (x i) * ubqpD n Q x i
      + ∑ a ∈ (range n).erase i, ∑ b ∈ (range (a + 1)).erase i,
          if x a ∧ x b then Q a b else 0 := by
  rw [ubqpFull_eq, ubqpD_eq n Q x i hi]
  have hm : i ∈ range n := by simpa using hi
  rw [← Finset.add_sum_erase _ _ hm]
  have hrow : (∑ j ∈ range (i + 1), if x i ∧ x j then Q i j else 0)
      = b2i (x i) * (Q i i + ∑ j ∈ range i, if x j then Q i j else 0) := by
    rw [Finset.sum_range_succ]
    cases hx : x i <;> simp [b2i]
    ring
  have hcol : (∑ a ∈ (range n).erase i, ∑ b ∈ range (a + 1), if x a ∧ x b then Q a b else 0)
      = (∑ a ∈ (range n).erase i, ∑ b ∈ (range (a + 1)).erase i,
          if x a ∧ x b then Q a b else 0)
        + b2i (x i) * ∑ j ∈ Ico (i + 1) n, if x j then Q j i else 0 := by
    have h1 : ∀ a ∈ (range n).erase i,
        (∑ b ∈ range (a + 1), if x a ∧ x b then Q a b else 0)
          = (∑ b ∈ (range (a + 1)).erase i, if x a ∧ x b then Q a b else 0)
            + if i < a then b2i (x i) * (if x a then Q a i else 0) else 0 := by
      intro a ha
      have hne : a ≠ i := (Finset.mem_erase.1 ha).1
      by_cases hia : i < a
      · have hm' : i ∈ range (a + 1) := by simp; omega
        rw [← Finset.add_sum_erase _ _ hm', add_comm]
        congr 1
        simp only [hia, if_true, b2i]
        cases x i <;> cases x a <;> simp
      · have hm' : i ∉ range (a + 1) := by simp; omega
        rw [Finset.erase_eq_of_notMem hm']
        simp [hia]
    rw [Finset.sum_congr rfl h1, Finset.sum_add_distrib]
    congr 1
    rw [← Finset.sum_filter, Finset.mul_sum]
    apply Finset.sum_congr _ (fun _ _ => rfl)
    ext k; simp; omega
  rw [hrow, hcol]; ring

theorem ubqpD_flip_self (n : Nat) (Q : Nat → Nat → Int) (x : Nat → Bool) (i : Nat) (hi : i < n) :
    ubqpD n Q (flip x i) i = ubqpD n Q x i := by
  rw [ubqpD_sym n Q _ i hi, ubqpD_sym n Q _ i hi]
  congr 1
  apply Finset.sum_congr rfl
  intro j hj
  rw [flip_ne x (Finset.ne_of_mem_erase hj)]

theorem ubqpFull_flip (n : Nat) (Q : Nat → Nat → Int) (x : Nat → Bool) (i : Nat) (hi : i < n) :
    ubqpFull n Q (flip x i)
      = ubqpFull n Q x + (if x i = false then ubqpD n Q x i else - ubqpD n Q x i) := by
  rw [ubqpFull_split n Q (flip x i) i hi, ubqpFull_split n Q x i hi, ubqpD_flip_self n Q x i hi,
    flip_same]
  have : ∀ a ∈ (range n).erase i, (∑ b ∈ (range (a + 1)).erase i,
        if flip x i a ∧ flip x i b then Q a b else 0)
      = ∑ b ∈ (range (a + 1)).erase i, if x a ∧ x b then Q a b else 0 := by
    intro a ha
    apply Finset.sum_congr rfl
    intro b hb
    rw [flip_ne x (Finset.ne_of_mem_erase ha), flip_ne x (Finset.ne_of_mem_erase hb)]
  rw [Finset.sum_congr rfl this]
  cases x i <;> simp [b2i]
  ring

/-- Effect of flipping bit `k` on the linear coefficient of bit `i`. -/
theorem ubqpD_flip_other (n : Nat) (Q : Nat → Nat → Int) (x : Nat → Bool) (i k : Nat)
    (hi : i < n) (hk : k < n) (hne : i ≠ k) :
    ubqpD n Q (flip x k) i
      = ubqpD n Q x i + (if x k = false then qsym Q i k else - qsym Q i k) := by
  rw [ubqpD_sym n Q _ i hi, ubqpD_sym n Q _ i hi]
  have hm : k ∈ (range n).erase i := by simp [hk, Ne.symm hne]
  rw [← Finset.add_sum_erase _ _ hm,
    ← Finset.add_sum_erase _ (fun j => b2i (x j) * qsym Q i j) hm, flip_same]
  rw [Finset.sum_congr rfl (fun j hj => by rw [flip_ne x (Finset.ne_of_mem_erase hj)])]
  cases x k <;> simp [b2i] <;> ring

/-! #### MaxSAT -/

theorem clauseEval_eq_any (c : List Int) (x : Nat → Bool) :
    clauseEval c x = c.any (litEval x) := by
  induction c with
  | nil => rfl
  | cons l c ih => simp [clauseEval, ih]

/-- Variable of a literal (0-based). -/
def litVar (l : Int) : Nat := l.natAbs - 1

theorem litEval_pos (x : Nat → Bool) {l : Int} (h : 0 < l) : litEval x l = x (litVar l) := by
  have h2 : ¬ l < 0 := by omega
  have h3 : l.toNat = l.natAbs := by omega
  simp [litEval, h, h2, litVar, h3]

theorem litEval_neg (x : Nat → Bool) {l : Int} (h : l < 0) : litEval x l = !x (litVar l) := by
  have h2 : ¬ 0 < l := by omega
  have h3 : (-l).toNat = l.natAbs := by omega
  simp [litEval, h, h2, litVar, h3]

theorem litEval_flip_other (x : Nat → Bool) (l : Int) (b : Nat) (hl : l ≠ 0)
    (h : litVar l ≠ b) : litEval (flip x b) l = litEval x l := by
  rcases lt_or_gt_of_ne hl with h1 | h1
  · rw [litEval_neg _ h1, litEval_neg _ h1, flip_ne x h]
  · rw [litEval_pos _ h1, litEval_pos _ h1, flip_ne x h]

theorem litEval_flip_self (x : Nat → Bool) (l : Int) (b : Nat) (hl : l ≠ 0)
    (h : litVar l = b) : litEval (flip x b) l = !litEval x l := by
  rcases lt_or_gt_of_ne hl with h1 | h1
  · rw [litEval_neg _ h1, litEval_neg _ h1, h, flip_same]
  · rw [litEval_pos _ h1, litEval_pos _ h1, h, flip_same]

theorem maxSatFull_eq (cs : List (List Int)) (x : Nat → Bool) :
    maxSatFull cs x = (cs.map fun c => b2i (clauseEval c x)).sum := by
  unfold maxSatFull
  have := foldl_ite_eq (M := Int) cs (fun c => clauseEval c x = true) (fun _ => 1) 0
  rw [this]; simp [b2i]

/-- Change of one clause's value when bit `b` is flipped. -/
def clauseDelta (c : List Int) (x : Nat → Bool) (b : Nat) : Int :=
  b2i (clauseEval c (flip x b)) - b2i (clauseEval c x)

/-- Contribution the incremental evaluation adds for one literal `l` of clause `c`, if the
sign of the literal is known. -/
def litContribution (c : List Int) (x : Nat → Bool) (b : Nat) (litt : Bool) : Int :=
  if litt then (if clauseEval c (flip x b) = false then -1 else 0)
  else (if clauseEval c x = false then 1 else 0)

theorem satStep_eq (cs : List (List Int)) (x : Nat → Bool) (b nc : Nat) (litt : Bool) (d : Int) :
    satStep cs x b nc litt d = d + litContribution (cs.getD nc []) x b litt := by
  unfold satStep litContribution
  split <;> split <;> ring

theorem litContribution_right (c : List Int) (x : Nat → Bool) (b : Nat) (l : Int) (hl : l ∈ c)
    (h0 : l ≠ 0) (hv : litVar l = b) :
    litContribution c x b (litEval x l) = clauseDelta c x b := by
  have hf := litEval_flip_self x l b h0 hv
  unfold litContribution clauseDelta
  cases h : litEval x l
  · have : clauseEval c (flip x b) = true := by
      rw [clauseEval_eq_any, List.any_eq_true]; exact ⟨l, hl, by rw [hf, h]; rfl⟩
    rw [this]; cases clauseEval c x <;> simp [b2i]
  · have : clauseEval c x = true := by
      rw [clauseEval_eq_any, List.any_eq_true]; exact ⟨l, hl, h⟩
    rw [this]; cases clauseEval c (flip x b) <;> simp [b2i]

theorem litContribution_wrong (c : List Int) (x : Nat → Bool) (b : Nat) (l : Int) (hl : l ∈ c)
    (h0 : l ≠ 0) (hv : litVar l = b) :
    litContribution c x b (!litEval x l) = 0 := by
  have hf := litEval_flip_self x l b h0 hv
  unfold litContribution
  cases h : litEval x l
  · have : clauseEval c (flip x b) = true := by
      rw [clauseEval_eq_any, List.any_eq_true]; exact ⟨l, hl, by rw [hf, h]; rfl⟩
    simp [this]
  · have : clauseEval c x = true := by
      rw [clauseEval_eq_any, List.any_eq_true]; exact ⟨l, hl, h⟩
    simp [this]

theorem clauseDelta_none (c : List Int) (x : Nat → Bool) (b : Nat) (h0 : ∀ l ∈ c, l ≠ 0)
    (h : ∀ l ∈ c, litVar l ≠ b) : clauseDelta c x b = 0 := by
  have : clauseEval c (flip x b) = clauseEval c x := by
    rw [clauseEval_eq_any, clauseEval_eq_any]
    apply Bool.eq_iff_iff.2
    simp only [List.any_eq_true]
    constructor <;> rintro ⟨l, hl, hv⟩ <;> refine ⟨l, hl, ?_⟩
    · rwa [litEval_flip_other x l b (h0 l hl) (h l hl)] at hv
    · rwa [litEval_flip_other x l b (h0 l hl) (h l hl)]
  simp [clauseDelta, this]

theorem clauseDelta_both (c : List Int) (x : Nat → Bool) (b : Nat) (l m : Int) (hl : l ∈ c)
    (hm : m ∈ c) (h0 : l ≠ 0) (h0' : m ≠ 0) (hne : l ≠ m) (hv : litVar l = b)
    (hv' : litVar m = b) : clauseDelta c x b = 0 := by
  have hlm : m = -l := by unfold litVar at hv hv'; omega
  have key : ∀ y : Nat → Bool, clauseEval c y = true := by
    intro y
    rw [clauseEval_eq_any, List.any_eq_true]
    have : litEval y m = !litEval y l := by
      have hvar : litVar m = litVar l := by rw [hv, hv']
      rcases lt_or_gt_of_ne h0 with h | h
      · rw [litEval_neg y h, litEval_pos y (l := m) (by omega), hvar]; simp
      · rw [litEval_pos y h, litEval_neg y (l := m) (by omega), hvar]
    cases h : litEval y l
    · exact ⟨m, hm, by rw [this, h]; rfl⟩
    · exact ⟨l, hl, h⟩
  simp [clauseDelta, key]

/-- Sum over the occurrences of the variable in one clause, signs read correctly. -/
theorem clause_sum_right (c : List Int) (x : Nat → Bool) (b : Nat) (h0 : ∀ l ∈ c, l ≠ 0)
    (hnd : c.Nodup) :
    (c.map fun l => if litVar l = b then clauseDelta c x b else 0).sum = clauseDelta c x b := by
  have h1 : (c.map fun l => if litVar l = b then clauseDelta c x b else 0).sum
      = ((c.filter fun l => litVar l = b).length : Int) * clauseDelta c x b := by
    generalize clauseDelta c x b = d
    induction c with
    | nil => simp
    | cons l c ih =>
      rw [List.map_cons, List.sum_cons, ih (fun m hm => h0 m (List.mem_cons_of_mem _ hm))
        (List.nodup_cons.1 hnd).2]
      by_cases h : litVar l = b
      · simp [h]; ring
      · simp [h]
  rw [h1]
  have hnd' : (c.filter fun l => litVar l = b).Nodup := hnd.filter _
  match hf : c.filter (fun l => litVar l = b) with
  | [] =>
    have : clauseDelta c x b = 0 := clauseDelta_none c x b h0 (by
      intro l hl hv
      have : l ∈ c.filter (fun l => litVar l = b) := by simp [hl, hv]
      rw [hf] at this; simp at this)
    simp [this]
  | [l] => simp
  | l :: m :: r =>
    have hl : l ∈ c.filter (fun l => litVar l = b) := by rw [hf]; simp
    have hm : m ∈ c.filter (fun l => litVar l = b) := by rw [hf]; simp
    simp only [List.mem_filter, decide_eq_true_eq] at hl hm
    rw [hf] at hnd'
    have hne : l ≠ m := by
      intro h; subst h; simp at hnd'
    have := clauseDelta_both c x b l m hl.1 hm.1 (h0 l hl.1) (h0 m hm.1) hne hl.2 hm.2
    simp [this]

/-- The value added by the incremental evaluation for one table entry. -/
def entryValue (cs : List (List Int)) (x : Nat → Bool) (b : Nat) (nc : Int) : Int :=
  if nc < 0 then litContribution (cs.getD (-nc).toNat []) x b (!x b)
  else litContribution (cs.getD nc.toNat []) x b (x b)

theorem maxSatIncr_eq (cs : List (List Int)) (entries : List Int) (x : Nat → Bool) (fit : Int)
    (b : Nat) : maxSatIncr cs entries x fit b = fit + (entries.map (entryValue cs x b)).sum := by
  unfold maxSatIncr
  have : (fun (delta : Int) (nc : Int) => if nc < 0 then satStep cs x b (-nc).toNat (!x b) delta
      else satStep cs x b nc.toNat (x b) delta) = fun d nc => d + entryValue cs x b nc := by
    funext d nc
    simp only [satStep_eq, entryValue]
    split <;> rfl
  rw [this, foldl_add_list]; simp

theorem sum_filterMap_if (l : List (Nat × Int)) (v : Nat) (g : Int → Int) :
    ((l.filterMap (fun e => if e.1 = v then some e.2 else none)).map g).sum
      = (l.map fun e => if e.1 = v then g e.2 else 0).sum := by
  induction l with
  | nil => simp
  | cons e l ih =>
    by_cases h : e.1 = v
    · simp [h, ih]
    · simp [h, ih]

theorem sum_flatMap {α β : Type*} (l : List α) (f : α → List β) (g : β → Int) :
    ((l.flatMap f).map g).sum = (l.map fun a => ((f a).map g).sum).sum := by
  induction l with
  | nil => simp
  | cons a l ih => simp [List.flatMap_cons, ih]

theorem entries_sum (occ : Int → Nat → Nat × Int) (cs : List (List Int)) (v : Nat)
    (g : Int → Int) :
    ((entriesOf occ cs v).map g).sum
      = (cs.zipIdx.map fun ci => (ci.1.map fun l =>
          if (occ l ci.2).1 = v then g (occ l ci.2).2 else 0).sum).sum := by
  unfold entriesOf
  rw [sum_filterMap_if, sum_flatMap]
  congr 1
  apply List.map_congr_left
  intro ci _
  rw [List.map_map]; rfl

theorem sum_zipIdx {α : Type*} (cs : List α) (k : Nat) (f : α → Int) :
    ((cs.zipIdx k).map fun ci => f ci.1).sum = (cs.map f).sum := by
  induction cs generalizing k with
  | nil => simp
  | cons c cs ih => simp [ih]

theorem maxSatFull_flip (cs : List (List Int)) (x : Nat → Bool) (b : Nat) :
    maxSatFull cs (flip x b) = maxSatFull cs x + (cs.map fun c => clauseDelta c x b).sum := by
  rw [maxSatFull_eq, maxSatFull_eq]
  induction cs with
  | nil => simp
  | cons c cs ih =>
    simp only [List.map_cons, List.sum_cons, ih]
    unfold clauseDelta; ring

/-- Evaluation of the whole table: each literal of the flipped variable contributes its clause's
change if its sign was recorded correctly, and nothing otherwise. -/
theorem maxSatIncr_table (occ : Int → Nat → Nat × Int) (right : Int → Nat → Prop)
    [∀ l i, Decidable (right l i)]
    (cs : List (List Int)) (x : Nat → Bool) (fit : Int) (b : Nat)
    (h0 : ∀ c ∈ cs, ∀ l ∈ c, l ≠ 0)
    (hvar : ∀ l i, l ≠ 0 → (occ l i).1 = l.natAbs)
    (hval : ∀ l i, l ≠ 0 → ((occ l i).2 < 0 ∧ l < 0 ∧ (occ l i).2 = -(i : Int) ∧ right l i) ∨
      ((occ l i).2 = (i : Int) ∧ (0 < l ↔ right l i))) :
    maxSatIncr cs (entriesOf occ cs (b + 1)) x fit b
      = fit + (cs.zipIdx.map fun ci => (ci.1.map fun l =>
          if litVar l = b ∧ right l ci.2 then clauseDelta ci.1 x b else 0).sum).sum := by
  rw [maxSatIncr_eq, entries_sum]
  congr 2
  apply List.map_congr_left
  rintro ⟨c, i⟩ hci
  congr 1
  apply List.map_congr_left
  intro l hl
  have hget : cs[i]? = some c := by
    have := List.mem_zipIdx_iff_getElem?.1 hci
    simpa using this
  have hmem : c ∈ cs := List.mem_of_getElem? hget
  have hne := h0 c hmem l hl
  have hgetD : cs.getD i [] = c := by simp [List.getD_eq_getElem?_getD, hget]
  have hveq : ((occ l i).1 = b + 1) ↔ litVar l = b := by
    rw [hvar l i hne]; unfold litVar; omega
  simp only [hveq]
  by_cases hv : litVar l = b
  · simp only [hv, if_true, true_and]
    rcases hval l i hne with ⟨h1, h2, h3, h4⟩ | ⟨h1, h2⟩
    · have hi : (-(-(i : Int))).toNat = i := by omega
      rw [if_pos h4, entryValue, if_pos h1, h3, hi, hgetD]
      have := litContribution_right c x b l hl hne hv
      rwa [litEval_neg x h2, hv] at this
    · have hn : ¬ ((i : Int) < 0) := by omega
      rw [entryValue, h1, if_neg hn]
      have hi : ((i : Int)).toNat = i := by omega
      rw [hi, hgetD]
      by_cases hpos : 0 < l
      · rw [if_pos (h2.1 hpos)]
        have := litContribution_right c x b l hl hne hv
        rwa [litEval_pos x hpos, hv] at this
      · rw [if_neg (fun h => hpos (h2.2 h))]
        have := litContribution_wrong c x b l hl hne hv
        rw [litEval_neg x (l := l) (by omega), hv] at this
        simpa using this
  · simp [hv]

/-! #### NK -/

theorem nk_sigma_inv (link : Nat → Nat) (x : Nat → Bool) (m : Nat) :
    let s := (List.range m).foldl (fun (s : Nat × Nat) j =>
      ((if x (link j) then s.1 ||| s.2 else s.1), s.2 <<< 1)) (0, 1)
    s.2 = 2 ^ m ∧ ∀ t, s.1.testBit t = (decide (t < m) && x (link t)) := by
  induction m with
  | zero => simp
  | succ m ih =>
    obtain ⟨h1, h2⟩ := ih
    simp only [List.range_succ, List.foldl_append, List.foldl_cons, List.foldl_nil]
    refine ⟨by rw [h1, Nat.shiftLeft_eq]; ring, ?_⟩
    intro t
    by_cases hx : x (link m) = true
    · simp only [hx, if_true, Nat.testBit_or, h2, h1, Nat.testBit_two_pow]
      by_cases ht : t = m
      · subst ht; simp [hx]
      · have e : (t < m + 1) = (t < m) := by
          apply propext; omega
        simp only [e, Ne.symm ht, decide_false, Bool.or_false]
    · rw [if_neg hx]
      simp only [h2]
      by_cases ht : t = m
      · subst ht; simp [hx]
      · have e : (t < m + 1) = (t < m) := by
          apply propext; omega
        simp [e]

theorem nkSigma_testBit (K : Nat) (link : Nat → Nat) (x : Nat → Bool) (t : Nat) :
    (nkSigma K link x).testBit t = (decide (t < K + 1) && x (link t)) :=
  (nk_sigma_inv link x (K + 1)).2 t

theorem nk_sigma2_inv (link : Nat → Nat) (x : Nat → Bool) (bit m : Nat)
    (hinj : ∀ a < m, ∀ c < m, link a = link c → a = c) :
    let s := (List.range m).foldl (fun (s : Nat × Nat × Nat) j =>
      ((if x (link j) then s.1 ||| s.2.2 else s.1),
       (if link j = bit then s.2.2 else s.2.1), s.2.2 <<< 1)) (0, 0, 1)
    (s.1, s.2.2) = (List.range m).foldl (fun (s : Nat × Nat) j =>
      ((if x (link j) then s.1 ||| s.2 else s.1), s.2 <<< 1)) (0, 1) ∧
    ∀ t, s.2.1.testBit t = (decide (t < m) && decide (link t = bit)) := by
  induction m with
  | zero => simp
  | succ m ih =>
    obtain ⟨h1, h2⟩ := ih (fun a ha c hc => hinj a (by omega) c (by omega))
    simp only [List.range_succ, List.foldl_append, List.foldl_cons, List.foldl_nil]
    set s := (List.range m).foldl (fun (s : Nat × Nat × Nat) j =>
      ((if x (link j) then s.1 ||| s.2.2 else s.1),
       (if link j = bit then s.2.2 else s.2.1), s.2.2 <<< 1)) (0, 0, 1) with hs
    have hp : s.2.2 = 2 ^ m := by
      have := (nk_sigma_inv link x m).1
      rw [← h1] at this; exact this
    refine ⟨by rw [← h1], ?_⟩
    intro t
    by_cases hb : link m = bit
    · simp only [hb, if_true, hp, Nat.testBit_two_pow]
      by_cases ht : t = m
      · subst ht; simp [hb]
      · have : ¬ m = t := fun h => ht h.symm
        simp only [this, decide_false]
        symm
        by_cases hlt : t < m
        · have : link t ≠ bit := by
            intro h; exact ht (hinj t (by omega) m (by omega) (by rw [h, hb]))
          simp [this]
        · have : ¬ t < m + 1 := by omega
          simp [this]
    · simp only [hb, if_false, h2]
      by_cases ht : t = m
      · subst ht; simp [hb]
      · have e : (t < m + 1) = (t < m) := by
          apply propext; omega
        simp [e]

theorem nkSigma2_eq (K : Nat) (link : Nat → Nat) (x : Nat → Bool) (bit : Nat)
    (hinj : ∀ a < K + 1, ∀ c < K + 1, link a = link c → a = c) :
    nkSigma2 K link x bit = (nkSigma K link x, nkSigma K link (flip x bit)) := by
  obtain ⟨h1, h2⟩ := nk_sigma2_inv link x bit (K + 1) hinj
  have hfst : (nkSigma2 K link x bit).1 = nkSigma K link x := by
    unfold nkSigma2 nkSigma
    rw [← h1]
  refine Prod.ext (show _ = nkSigma K link x from hfst) (show _ = nkSigma K link (flip x bit) from ?_)
  apply Nat.eq_of_testBit_eq
  intro t
  show ((nkSigma2 K link x bit).1 ^^^ _).testBit t = _
  rw [Nat.testBit_xor, hfst, nkSigma_testBit, nkSigma_testBit, h2]
  by_cases ht : t < K + 1
  · simp only [ht, decide_true, Bool.true_and]
    by_cases hl : link t = bit
    · rw [hl, flip_same]; simp
    · rw [flip_ne x hl]; simp [hl]
  · simp [ht]

theorem sum_flatMap_gen {M α β : Type*} [AddCommMonoid M] (l : List α) (f : α → List β)
    (g : β → M) : ((l.flatMap f).map g).sum = (l.map fun a => ((f a).map g).sum).sum := by
  induction l with
  | nil => simp
  | cons a l ih => simp [List.flatMap_cons, ih]

theorem sum_filterMap_const {M : Type*} [AddCommMonoid M] (l : List Nat) (p : Nat → Prop)
    [DecidablePred p] (i : Nat) (g : Nat → M) :
    ((l.filterMap fun j => if p j then some i else none).map g).sum
      = (l.map fun j => if p j then g i else 0).sum := by
  induction l with
  | nil => simp
  | cons j l ih => by_cases h : p j <;> simp [h, ih]

theorem nkDelta_eq {F : Type} [Field F] (N K : Nat) (links : Nat → Nat → Nat)
    (tables : Nat → Nat → F) (x : Nat → Bool) (bit : Nat) (d : F)
    (hinj : ∀ i < N, ∀ a < K + 1, ∀ c < K + 1, links i a = links i c → a = c) :
    nkDelta N K links tables x bit d
      = d + ∑ i ∈ range N, (tables i (nkSigma K (links i) (flip x bit))
          - tables i (nkSigma K (links i) x)) := by
  unfold nkDelta nkInverseLinks
  simp only
  rw [foldl_add_list, sum_flatMap_gen, list_range_sum]
  congr 1
  apply Finset.sum_congr rfl
  intro i hi
  have hi' : i < N := by simpa using hi
  rw [sum_filterMap_const, list_range_sum, nkSigma2_eq K (links i) x bit (hinj i hi')]
  by_cases hex : ∃ j < K + 1, links i j = bit
  · obtain ⟨j, hj, hjb⟩ := hex
    rw [Finset.sum_eq_single j]
    · simp [hjb]
    · intro c hc hne
      have hc' : c < K + 1 := by simpa using hc
      rw [if_neg]
      intro h; exact hne (hinj i hi' c hc' j hj (by rw [h, hjb]))
    · intro h; simp at h; omega
  · push Not at hex
    rw [Finset.sum_eq_zero]
    · have : nkSigma K (links i) (flip x bit) = nkSigma K (links i) x := by
        apply Nat.eq_of_testBit_eq
        intro t
        rw [nkSigma_testBit, nkSigma_testBit]
        by_cases ht : t < K + 1
        · rw [flip_ne x (hex t ht)]
        · simp [ht]
      rw [this, sub_self]
    · intro c hc
      have hc' : c < K + 1 := by simpa using hc
      rw [if_neg (hex c hc')]

theorem nkFull_eq {F : Type} [Field F] (N K : Nat) (links : Nat → Nat → Nat)
    (tables : Nat → Nat → F) (x : Nat → Bool) :
    nkFull N K links tables x = (∑ i ∈ range N, tables i (nkSigma K (links i) x)) / (N : F) := by
  unfold nkFull; rw [foldl_add_range]; simp

/-! #### Royal road -/

theorem rrScan_eq (x : List Bool) (off j m : Nat) (h : off + j + m ≤ x.length) :
    ∃ r, rrScan x off j m = some r ∧ j ≤ r ∧ r ≤ j + m ∧
      (∀ t, j ≤ t → t < r → x[off + t]? = some true) ∧
      (r < j + m → x[off + r]? = some false) := by
  induction m generalizing j with
  | zero => exact ⟨j, rfl, le_refl _, by omega, fun t h1 h2 => by omega, fun h => by omega⟩
  | succ m ih =>
    have hlt : off + j < x.length := by omega
    have hget : x[off + j]? = some (x[off + j]) := List.getElem?_eq_getElem hlt
    cases hb : x[off + j] with
    | true =>
      obtain ⟨r, h1, h2, h3, h4, h5⟩ := ih (j + 1) (by omega)
      refine ⟨r, ?_, by omega, by omega, ?_, ?_⟩
      · rw [rrScan, hget, hb]; exact h1
      · intro t ht1 ht2
        by_cases htj : t = j
        · subst htj; rw [hget, hb]
        · exact h4 t (by omega) ht2
      · intro hr; exact h5 (by omega)
    | false =>
      refine ⟨j, ?_, le_refl _, by omega, fun t h1 h2 => by omega, ?_⟩
      · rw [rrScan, hget, hb]
      · intro _; rw [hget, hb]

end Paradiseo.IncrEval

namespace Paradiseo.IncrEval
open Finset

theorem list_all_range_true (k : Nat) (f : Nat → Bool) :
    (List.range k).all f = true ↔ ∀ j < k, f j = true := by
  simp [List.all_eq_true]

/-- Whether the scan of a block reaches its end. -/
theorem rrScan_full (x : List Bool) (off j m : Nat) (h : off + j + m ≤ x.length) :
    ∃ r, rrScan x off j m = some r ∧ (r = j + m ↔ ∀ t, j ≤ t → t < j + m → x[off + t]? = some true) := by
  obtain ⟨r, h1, h2, h3, h4, h5⟩ := rrScan_eq x off j m h
  refine ⟨r, h1, ?_, ?_⟩
  · rintro rfl; exact h4
  · intro hall
    by_contra hne
    have := h5 (by omega)
    rw [hall r h2 (by omega)] at this
    simp at this

theorem royal_foldlM (k : Nat) (x : List Bool) (l : List Nat) (s : Int)
    (hl : ∀ i ∈ l, i * k + k ≤ x.length) :
    l.foldlM (fun sum i => do
      let j ← rrScan x (i * k) 0 k
      pure (if j = k then sum + 1 else sum)) s
    = some (s + (l.map fun i =>
        if (List.range k).all (fun j => x[i * k + j]? == some true) then (1 : Int) else 0).sum) := by
  induction l generalizing s with
  | nil => simp
  | cons i l ih =>
    obtain ⟨r, hr, hiff⟩ := rrScan_full x (i * k) 0 k (by have := hl i (by simp); omega)
    rw [List.foldlM_cons]
    simp only [hr, Option.bind_eq_bind, Option.bind_some, Option.pure_def]
    rw [Option.pure_def] at ih
    have ih' := ih (if r = k then s + 1 else s) (fun j hj => hl j (List.mem_cons_of_mem _ hj))
    simp only [Option.bind_eq_bind] at ih'
    rw [ih']
    have e : ((List.range k).all (fun j => x[i * k + j]? == some true) = true) ↔ r = k := by
      rw [list_all_range_true]
      constructor
      · intro h; rw [show k = 0 + k by omega]; exact hiff.2 (fun t _ ht => by simpa using h t (by omega))
      · intro h j hj
        have := hiff.1 (by omega) j (by omega) (by omega)
        simp [this]
    congr 1
    rw [List.map_cons, List.sum_cons]
    by_cases h : r = k
    · rw [if_pos h, if_pos (e.2 h)]; ring
    · rw [if_neg h, if_neg (fun h' => h (e.1 h'))]; ring

end Paradiseo.IncrEval
