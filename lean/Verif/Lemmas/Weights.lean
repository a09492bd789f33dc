import Verif.Model.Weights
import Mathlib.Tactic.Ring
import Mathlib.Tactic.Linarith
import Mathlib.Tactic.FieldSimp
import Mathlib.Data.List.Sort
import Mathlib.Data.Nat.Factorization.Basic
import Mathlib.Data.Nat.Prime.Basic
/-
The states of moeoAugmentedQexploreWeightStrategy.
-/
namespace Paradiseo.Weights

/-! ### Small functions -/

theorem coprim_eq (a b : Nat) : coprim a b = decide (Nat.Coprime a b) := by
  induction b using Nat.strong_induction_on generalizing a with
  | _ b ih =>
    unfold coprim
    split
    · rename_i h
      subst h
      by_cases ha : a = 1 <;> simp [ha]
    · rename_i h
      rw [ih (a % b) (Nat.mod_lt a (Nat.pos_of_ne_zero h)) b]
      congr 1
      unfold Nat.Coprime
      rw [Nat.gcd_comm b (a % b), ← Nat.gcd_rec, Nat.gcd_comm]

theorem is2pow_iff (a : Nat) : is2pow a = true ↔ a = 0 ∨ ∃ k, a = 2 ^ k := by
  induction a using Nat.strong_induction_on with
  | _ a ih =>
    unfold is2pow
    split
    · rename_i h
      refine ⟨fun _ => ?_, fun _ => rfl⟩
      rcases h with h | h
      · exact Or.inr ⟨0, h⟩
      · exact Or.inl h
    · rename_i h
      split
      · rename_i h2
        refine ⟨fun h => (by cases h), ?_⟩
        rintro (rfl | ⟨k, rfl⟩)
        · omega
        · cases k with
          | zero => exact absurd (Or.inl rfl) h
          | succ k => rw [Nat.pow_succ] at h2; omega
      · rename_i h2
        rw [ih (a / 2) (by omega)]
        constructor
        · rintro (h3 | ⟨k, hk⟩)
          · omega
          · exact Or.inr ⟨k + 1, by rw [Nat.pow_succ, ← hk]; omega⟩
        · rintro (h3 | ⟨k, hk⟩)
          · omega
          · cases k with
            | zero => rw [Nat.pow_zero] at hk; omega
            | succ k => exact Or.inr ⟨k, by rw [hk, Nat.pow_succ]; omega⟩

/-! ### Counting -/

def cnt (dim : Nat) (nums : List Nat) : List Nat := (List.range dim).map fun i => nums.count i

theorem tally_some (d : Nat) (nums w w' : List Nat) (h : tally d w nums = some w') (i : Nat) :
    w'[i]? = w[i]?.map (· + nums.count i) := by
  induction nums generalizing w with
  | nil =>
    simp only [tally, Option.some.injEq] at h
    subst h
    simp
  | cons n ns ih =>
    simp only [tally] at h
    split at h
    · cases h
    · rw [ih _ h, List.getElem?_modify, List.count_cons]
      by_cases e : n = i
      · subst e
        cases hw : w[n]? with
        | none => simp
        | some x => simp; omega
      · cases hw : w[i]? with
        | none => simp
        | some x => simp [e]

theorem tally_none (d : Nat) (nums w : List Nat) (h : tally d w nums = none) :
    1 < d ∧ ∃ i ∈ nums, d ≤ w.getD i 0 + nums.count i := by
  induction nums generalizing w with
  | nil => simp [tally] at h
  | cons n ns ih =>
    simp only [tally] at h
    split at h
    · rename_i hc
      refine ⟨hc.1, n, by simp, ?_⟩
      have h2 := hc.2
      rw [List.getElem?_modify] at h2
      rw [List.count_cons_self, List.getD_eq_getElem?_getD]
      cases hw : w[n]? with
      | none => rw [hw] at h2; simp at h2
      | some x =>
        rw [hw] at h2
        simp at h2
        simp only [Option.getD_some]
        omega
    · obtain ⟨h1, i, hi, h2⟩ := ih _ h
      refine ⟨h1, i, by simp [hi], ?_⟩
      rw [List.getD_eq_getElem?_getD, List.getElem?_modify] at h2
      rw [List.count_cons, List.getD_eq_getElem?_getD]
      by_cases e : n = i
      · subst e
        cases hw : w[n]? with
        | none => rw [hw] at h2; simp at h2 ⊢; omega
        | some x => rw [hw] at h2; simp at h2 ⊢; omega
      · cases hw : w[i]? with
        | none => rw [hw] at h2; simp [e] at h2 ⊢; omega
        | some x => rw [hw] at h2; simp [e] at h2 ⊢; omega

theorem tally_cnt (d dim : Nat) (nums w' : List Nat) (h : tally d (List.replicate dim 0) nums = some w') :
    w' = cnt dim nums := by
  apply List.ext_getElem?
  intro i
  rw [tally_some d nums _ w' h i, cnt, List.getElem?_map, List.getElem?_replicate]
  by_cases hi : i < dim
  · simp [hi, List.getElem?_range]
  · simp [hi, List.getElem?_range]

/-- The test for acceptance. -/
def Acc (dim : Nat) (s : Aq) : Prop :=
  (∃ c ∈ cnt dim s.nums, Nat.Coprime c s.depth) ∧ ∃ c ∈ cnt dim s.nums, c ≠ 0 ∧ ∀ j, c ≠ 2 ^ j

theorem length_eq_count (nums : List Nat) (i : Nat) (h : nums.count i = nums.length) : ∀ j, j ≠ i → nums.count j = 0 := by
  intro j hj
  have hall : ∀ x ∈ nums, i = x := List.count_eq_length.1 h
  rw [List.count_eq_zero]
  intro hm
  exact hj (hall j hm).symm

theorem translate_spec (dim : Nat) (s : Aq) (k : Nat) (hk : s.depth = 2 ^ k) (hl : s.nums.length = s.depth) (w : List ℚ) :
    translate dim s = some w ↔ Acc dim s ∧ w = (cnt dim s.nums).map fun (c : Nat) => (c : ℚ) / s.depth := by
  unfold translate
  cases ht : tally s.depth (List.replicate dim 0) s.nums with
  | none =>
    simp only [Option.bind_none]
    refine ⟨(fun h => nomatch h), ?_⟩
    rintro ⟨⟨_, c, hc, h0, h2⟩, _⟩
    obtain ⟨hd, i, hi, hle⟩ := tally_none _ _ _ ht
    have hz : (List.replicate dim 0).getD i 0 = 0 := by
      rw [List.getD_eq_getElem?_getD, List.getElem?_replicate]
      split <;> rfl
    rw [hz, Nat.zero_add] at hle
    have hcount : s.nums.count i = s.nums.length := le_antisymm List.count_le_length (by omega)
    obtain ⟨j, _, hj⟩ := List.mem_map.1 hc
    by_cases e : j = i
    · subst e
      exfalso
      apply h2 k
      omega
    · have := length_eq_count _ _ hcount j e
      omega
  | some w' =>
    have e := tally_cnt _ _ _ _ ht
    subst e
    simp only [Option.bind_some]
    have hiff : (((cnt dim s.nums).any (fun c => coprim c s.depth) && (cnt dim s.nums).any (fun c => c ≠ 1 && !is2pow c)) = true)
        ↔ Acc dim s := by
      rw [Bool.and_eq_true, List.any_eq_true, List.any_eq_true]
      refine and_congr ?_ ?_
      · refine exists_congr fun c => and_congr_right fun _ => ?_
        rw [coprim_eq, decide_eq_true_eq]
      · refine exists_congr fun c => and_congr_right fun _ => ?_
        rw [Bool.and_eq_true, decide_eq_true_eq, Bool.not_eq_true', ← Bool.not_eq_true, is2pow_iff]
        push Not
        refine ⟨fun h => h.2, fun h => ⟨?_, h⟩⟩
        have := h.2 0
        simpa using this
    split
    · rename_i h
      rw [hiff] at h
      simp only [Option.some.injEq]
      exact ⟨fun e => ⟨h, e.symm⟩, fun e => e.2.symm⟩
    · rename_i h
      rw [hiff] at h
      refine ⟨(fun h => nomatch h), fun h' => absurd h'.1 h⟩

/-! ### The next list of numbers -/

theorem lastIdx_split (mx : Nat) (l : List Nat) (h : l ≠ []) :
    ∃ r x pre, l = List.replicate r mx ++ x :: pre ∧ (pre = [] ∨ x ≠ mx) ∧ lastIdx mx l = pre.length := by
  induction l with
  | nil => exact absurd rfl h
  | cons n rest ih =>
    unfold lastIdx
    split
    · rename_i hc
      obtain ⟨r, x, pre, e, hx, hi⟩ := ih hc.1
      exact ⟨r + 1, x, pre, by rw [hc.2, e]; rfl, hx, hi⟩
    · rename_i hc
      refine ⟨0, n, rest, rfl, ?_, rfl⟩
      by_cases hr : rest = []
      · exact Or.inl hr
      · exact Or.inr fun hn => hc ⟨hr, hn⟩

theorem nextNum_split (mx : Nat) (l : List Nat) (h : l ≠ []) :
    ∃ pre x r, l = pre ++ x :: List.replicate r mx ∧ (pre = [] ∨ x ≠ mx) ∧
      nextNum mx l = pre ++ List.replicate (r + 1) (x + 1) := by
  obtain ⟨r, x, pre, e, hx, hi⟩ := lastIdx_split mx l.reverse (by simpa using h)
  have e' : l = pre.reverse ++ x :: List.replicate r mx := by
    have := congrArg List.reverse e
    rw [List.reverse_reverse, List.reverse_append, List.reverse_cons, List.append_assoc, List.reverse_replicate] at this
    exact this
  refine ⟨pre.reverse, x, r, e', by simpa using hx, ?_⟩
  unfold nextNum
  dsimp only
  rw [hi, e']
  have hlen : pre.length = pre.reverse.length := by simp
  rw [hlen, List.take_left]
  congr 1
  congr 1
  · simp only [List.length_append, List.length_cons, List.length_replicate]
    omega
  · rw [List.getD_eq_getElem?_getD, List.getElem?_append_right (le_refl _), Nat.sub_self]
    rfl

/-- The value of a list of digits. -/
def val (B : Nat) (l : List Nat) : Nat := l.foldl (fun a n => a * B + n) 0

theorem val_foldl (B : Nat) (l : List Nat) (a : Nat) : l.foldl (fun a n => a * B + n) a = a * B ^ l.length + val B l := by
  induction l generalizing a with
  | nil => simp [val]
  | cons n l ih =>
    have e : val B (n :: l) = (0 * B + n) * B ^ l.length + val B l := by rw [← ih]; rfl
    rw [List.foldl_cons, ih, e, List.length_cons, Nat.pow_succ]
    ring

theorem val_append (B : Nat) (l l' : List Nat) : val B (l ++ l') = val B l * B ^ l'.length + val B l' := by
  rw [val, List.foldl_append, val_foldl]
  rfl

theorem val_cons (B n : Nat) (l : List Nat) : val B (n :: l) = n * B ^ l.length + val B l := by
  rw [val, List.foldl_cons, val_foldl]
  ring

theorem val_lt (B : Nat) (l : List Nat) (h : ∀ n ∈ l, n < B) : val B l < B ^ l.length := by
  induction l with
  | nil => simp [val]
  | cons n l ih =>
    have h1 := ih fun x hx => h x (by simp [hx])
    have h2 := h n (by simp)
    rw [val_cons, List.length_cons, Nat.pow_succ]
    have : (n + 1) * B ^ l.length ≤ B * B ^ l.length := Nat.mul_le_mul_right _ h2
    rw [Nat.mul_comm (B ^ l.length) B]
    have e : (n + 1) * B ^ l.length = n * B ^ l.length + B ^ l.length := by ring
    omega

theorem val_le (B : Nat) (l l' : List Nat) (h : List.Forall₂ (· ≤ ·) l l') : val B l ≤ val B l' := by
  induction h with
  | nil => exact le_refl _
  | cons h1 h2 ih =>
    rw [val_cons, val_cons, h2.length_eq]
    exact Nat.add_le_add (Nat.mul_le_mul_right _ h1) ih

theorem val_inj (B : Nat) (l l' : List Nat) (hl : l.length = l'.length) (h : ∀ n ∈ l, n < B) (h' : ∀ n ∈ l', n < B)
    (hv : val B l = val B l') : l = l' := by
  induction l generalizing l' with
  | nil =>
    cases l' with
    | nil => rfl
    | cons => cases hl
  | cons n l ih =>
    cases l' with
    | nil => cases hl
    | cons n' l' =>
      replace hl : l.length = l'.length := by simpa using hl
      have a1 := val_lt B l fun x hx => h x (by simp [hx])
      have a2 := val_lt B l' fun x hx => h' x (by simp [hx])
      rw [val_cons, val_cons, hl] at hv
      rw [hl] at a1
      have hn : n = n' := by
        rcases Nat.lt_trichotomy n n' with hlt | e | hlt
        · exfalso
          have : (n + 1) * B ^ l'.length ≤ n' * B ^ l'.length := Nat.mul_le_mul_right _ hlt
          have e : (n + 1) * B ^ l'.length = n * B ^ l'.length + B ^ l'.length := by ring
          omega
        · exact e
        · exfalso
          have : (n' + 1) * B ^ l'.length ≤ n * B ^ l'.length := Nat.mul_le_mul_right _ hlt
          have e : (n' + 1) * B ^ l'.length = n' * B ^ l'.length + B ^ l'.length := by ring
          omega
      subst hn
      rw [ih l' hl (fun x hx => h x (by simp [hx])) (fun x hx => h' x (by simp [hx])) (by omega)]

/-- Sorted, of the given length, entries at most `mx`. -/
structure Num (mx L : Nat) (l : List Nat) : Prop where
  len : l.length = L
  le : ∀ n ∈ l, n ≤ mx
  sorted : l.Pairwise (· ≤ ·)

theorem nextNum_grow (mx L : Nat) (hL : 0 < L) (l : List Nat) (h : Num mx L l) :
    (nextNum mx l).length = L ∧ val (mx + 2) l < val (mx + 2) (nextNum mx l) ∧
    (nextNum mx l).Pairwise (· ≤ ·) ∧ (∀ n ∈ nextNum mx l, n ≤ mx + 1) ∧
    ((nextNum mx l).getD 0 0 ≤ mx → Num mx L (nextNum mx l)) ∧
    (∀ p, Num mx L p → val (mx + 2) l < val (mx + 2) p → val (mx + 2) (nextNum mx l) ≤ val (mx + 2) p) := by
  have hne : l ≠ [] := by
    intro e
    have := h.len
    rw [e] at this
    simp at this
    omega
  obtain ⟨pre, x, r, e, hx, en⟩ := nextNum_split mx l hne
  have hlen : l.length = pre.length + (r + 1) := by rw [e]; simp
  have hle := h.le
  have hso := h.sorted
  rw [e] at hle hso
  have hxle : x ≤ mx := hle x (by simp)
  have hlast : val (mx + 2) (x :: List.replicate r mx) < (x + 1) * (mx + 2) ^ r := by
    rw [val_cons, List.length_replicate]
    have := val_lt (mx + 2) (List.replicate r mx) (fun n hn => by rw [List.eq_of_mem_replicate hn]; omega)
    rw [List.length_replicate] at this
    have e2 : (x + 1) * (mx + 2) ^ r = x * (mx + 2) ^ r + (mx + 2) ^ r := by ring
    omega
  have hrep : (x + 1) * (mx + 2) ^ r ≤ val (mx + 2) (List.replicate (r + 1) (x + 1)) := by
    rw [List.replicate_succ, val_cons, List.length_replicate]
    omega
  have hso' : (pre ++ List.replicate (r + 1) (x + 1)).Pairwise (· ≤ ·) := by
    rw [List.pairwise_append] at hso ⊢
    refine ⟨hso.1, ?_, ?_⟩
    · exact List.pairwise_replicate.2 (Or.inr (le_refl _))
    · intro a ha b hb
      rw [List.eq_of_mem_replicate hb]
      exact (hso.2.2 a ha x (by simp)).trans (Nat.le_succ _)
  refine ⟨?_, ?_, ?_, ?_, ?_, ?_⟩
  · rw [en, ← h.len, hlen]; simp
  · rw [en, e, val_append, val_append]
    simp only [List.length_cons, List.length_replicate]
    omega
  · rw [en]; exact hso'
  · rw [en]
    intro n hn
    rcases List.mem_append.1 hn with hn | hn
    · exact (hle n (by simp [hn])).trans (Nat.le_succ _)
    · rw [List.eq_of_mem_replicate hn]; omega
  · intro h0
    refine ⟨by rw [en, ← h.len, hlen]; simp, ?_, by rw [en]; exact hso'⟩
    rw [en] at h0 ⊢
    intro n hn
    rcases List.mem_append.1 hn with hn | hn
    · exact hle n (by simp [hn])
    · rw [List.eq_of_mem_replicate hn]
      rcases hx with hp | hx
      · subst hp
        rw [List.nil_append, List.replicate_succ] at h0
        exact h0
      · omega
  · intro p hp hlt
    rw [en, val_append]
    rw [e, val_append] at hlt
    obtain ⟨p1, p2, hp12, hp1⟩ : ∃ p1 p2, p = p1 ++ p2 ∧ p1.length = pre.length := by
      refine ⟨p.take pre.length, p.drop pre.length, (List.take_append_drop _ _).symm, ?_⟩
      rw [List.length_take, hp.len, ← h.len, hlen]
      omega
    have hp2 : p2.length = r + 1 := by
      have := hp.len
      rw [hp12, List.length_append, hp1, ← h.len, hlen] at this
      omega
    have hple := hp.le
    have hpso := hp.sorted
    rw [hp12] at hple hpso
    rw [hp12, val_append, hp2] at hlt ⊢
    simp only [List.length_cons, List.length_replicate] at hlt ⊢
    have b2 : val (mx + 2) p2 < (mx + 2) ^ (r + 1) := by
      have := val_lt (mx + 2) p2 fun n hn => by have := hple n (by simp [hn]); omega
      rwa [hp2] at this
    have b3 : val (mx + 2) (List.replicate (r + 1) (x + 1)) < (mx + 2) ^ (r + 1) := by
      have := val_lt (mx + 2) (List.replicate (r + 1) (x + 1)) fun n hn => by
        rw [List.eq_of_mem_replicate hn]; omega
      rwa [List.length_replicate] at this
    rcases Nat.lt_trichotomy (val (mx + 2) p1) (val (mx + 2) pre) with hlt1 | heq | hgt
    · exfalso
      have : (val (mx + 2) p1 + 1) * (mx + 2) ^ (r + 1) ≤ val (mx + 2) pre * (mx + 2) ^ (r + 1) :=
        Nat.mul_le_mul_right _ hlt1
      have e3 : (val (mx + 2) p1 + 1) * (mx + 2) ^ (r + 1) = val (mx + 2) p1 * (mx + 2) ^ (r + 1) + (mx + 2) ^ (r + 1) := by ring
      omega
    · rw [heq] at hlt ⊢
      refine Nat.add_le_add_left ?_ _
      have hlt2 : val (mx + 2) (x :: List.replicate r mx) < val (mx + 2) p2 := by omega
      cases p2 with
      | nil => cases hp2
      | cons y p3 =>
        have hp3 : p3.length = r := by simpa using hp2
        have hy : x < y := by
          by_contra hn
          have hyx : y ≤ x := not_lt.1 hn
          have h3 : val (mx + 2) p3 ≤ val (mx + 2) (List.replicate r mx) := by
            apply val_le
            rw [List.forall₂_iff_get]
            refine ⟨by rw [hp3, List.length_replicate], ?_⟩
            intro i h1 h2
            simp only [List.get_eq_getElem, List.getElem_replicate]
            exact hple _ (by simp)
          rw [val_cons, val_cons, hp3, List.length_replicate] at hlt2
          have := Nat.mul_le_mul_right ((mx + 2) ^ r) hyx
          omega
        apply val_le
        rw [List.forall₂_iff_get]
        refine ⟨by rw [hp2, List.length_replicate], ?_⟩
        intro i h1 h2
        simp only [List.get_eq_getElem, List.getElem_replicate]
        have hpw := (List.pairwise_append.1 hpso).2.1
        rw [List.pairwise_cons] at hpw
        have hm : (y :: p3)[i] ∈ y :: p3 := List.getElem_mem _
        rcases List.mem_cons.1 hm with h4 | h4
        · rw [h4]; exact hy
        · exact le_trans hy (hpw.1 _ h4)
    · have : (val (mx + 2) pre + 1) * (mx + 2) ^ (r + 1) ≤ val (mx + 2) p1 * (mx + 2) ^ (r + 1) :=
        Nat.mul_le_mul_right _ hgt
      have e3 : (val (mx + 2) pre + 1) * (mx + 2) ^ (r + 1) = val (mx + 2) pre * (mx + 2) ^ (r + 1) + (mx + 2) ^ (r + 1) := by ring
      omega

/-! ### The sequence of rounds -/

def fresh (k : Nat) : Aq := ⟨2 ^ k, List.replicate (2 ^ k) 0⟩

/-- The state after `n` rounds. -/
def R (dim : Nat) : Nat → Aq
  | 0 => fresh 0
  | n + 1 => ((R dim n).round dim).2

structure Inv (dim : Nat) (s : Aq) : Prop where
  pow : ∃ k, s.depth = 2 ^ k
  num : Num (dim - 1) s.depth s.nums

theorem fresh_inv (dim k : Nat) : Inv dim (fresh k) :=
  ⟨⟨k, rfl⟩, ⟨by simp [fresh], fun n hn => by rw [List.eq_of_mem_replicate hn]; omega,
    List.pairwise_replicate.2 (Or.inr (le_refl _))⟩⟩

theorem Inv.pos {dim : Nat} {s : Aq} (h : Inv dim s) : 0 < s.depth := by
  obtain ⟨k, hk⟩ := h.pow
  rw [hk]
  exact Nat.pow_pos (by omega)

/-- A round goes to the next list, or to the next depth. -/
theorem round_cases (dim : Nat) (s : Aq) (h : Inv dim s) :
    ((s.round dim).2 = ⟨s.depth, nextNum (dim - 1) s.nums⟩ ∧ Num (dim - 1) s.depth (nextNum (dim - 1) s.nums)) ∨
    ((s.round dim).2 = ⟨s.depth * 2, List.replicate (s.depth * 2) 0⟩ ∧
      ∀ p, Num (dim - 1) s.depth p → val (dim - 1 + 2) p ≤ val (dim - 1 + 2) s.nums) := by
  have hg := nextNum_grow (dim - 1) s.depth h.pos s.nums h.num
  unfold Aq.round
  dsimp only
  split
  · rename_i hc
    right
    refine ⟨?_, ?_⟩
    · unfold Aq.reset
      have := h.pos
      simp only [if_neg (by omega : ¬ s.depth = 0)]
    · intro p hp
      by_contra hlt
      have h1 := hg.2.2.2.2.2 p hp (not_le.1 hlt)
      -- the next list starts with `dim`, so its value is beyond that of `p`
      cases hn : nextNum (dim - 1) s.nums with
      | nil => rw [hn] at hg; have := hg.1; have := h.pos; simp at *; omega
      | cons a as =>
        rw [hn] at hc hg h1
        have hc : dim - 1 < a := hc
        cases p with
        | nil => have := hp.len; have := h.pos; simp at *; omega
        | cons b bs =>
          have hb := hp.le b (by simp)
          have l1 : as.length = bs.length := by
            have e1 := hg.1
            have e2 := hp.len
            simp only [List.length_cons] at e1 e2
            omega
          rw [val_cons, val_cons, l1] at h1
          have b2 := val_lt (dim - 1 + 2) bs fun n hn => by have := hp.le n (by simp [hn]); omega
          have : (b + 1) * (dim - 1 + 2) ^ bs.length ≤ a * (dim - 1 + 2) ^ bs.length := Nat.mul_le_mul_right _ (by omega)
          have e3 : (b + 1) * (dim - 1 + 2) ^ bs.length = b * (dim - 1 + 2) ^ bs.length + (dim - 1 + 2) ^ bs.length := by ring
          omega
  · rename_i hc
    left
    exact ⟨rfl, hg.2.2.2.2.1 (not_lt.1 hc)⟩

theorem round_inv (dim : Nat) (s : Aq) (h : Inv dim s) : Inv dim (s.round dim).2 := by
  obtain ⟨k, hk⟩ := h.pow
  rcases round_cases dim s h with ⟨e, hn⟩ | ⟨e, _⟩
  · rw [e]; exact ⟨⟨k, hk⟩, hn⟩
  · rw [e, hk, ← Nat.pow_succ]; exact fresh_inv dim (k + 1)

theorem R_inv (dim n : Nat) : Inv dim (R dim n) := by
  induction n with
  | zero => exact fresh_inv dim 0
  | succ n ih => exact round_inv dim _ ih

/-- Order of the states. -/
def Lt (dim : Nat) (s t : Aq) : Prop :=
  s.depth < t.depth ∨ (s.depth = t.depth ∧ val (dim - 1 + 2) s.nums < val (dim - 1 + 2) t.nums)

theorem Lt.trans {dim : Nat} {s t u : Aq} (h : Lt dim s t) (h' : Lt dim t u) : Lt dim s u := by
  unfold Lt at *
  omega

theorem Lt.irrefl {dim : Nat} {s : Aq} (h : Lt dim s s) : False := by
  unfold Lt at h
  omega

theorem round_lt (dim : Nat) (s : Aq) (h : Inv dim s) : Lt dim s (s.round dim).2 := by
  have hg := nextNum_grow (dim - 1) s.depth h.pos s.nums h.num
  rcases round_cases dim s h with ⟨e, _⟩ | ⟨e, _⟩
  · rw [e]; exact Or.inr ⟨rfl, hg.2.1⟩
  · rw [e]
    have := h.pos
    exact Or.inl (by show s.depth < s.depth * 2; omega)

theorem R_lt (dim : Nat) {i j : Nat} (h : i < j) : Lt dim (R dim i) (R dim j) := by
  induction j with
  | zero => omega
  | succ j ih =>
    rcases Nat.lt_or_ge i j with hi | hi
    · exact (ih hi).trans (round_lt dim _ (R_inv dim j))
    · have : i = j := by omega
      subst this
      exact round_lt dim _ (R_inv dim i)

/-- Every sorted list of numbers is reached from the first of its depth. -/
theorem R_reach (dim k m : Nat) (hm : R dim m = fresh k) (p : List Nat) (hp : Num (dim - 1) (2 ^ k) p) :
    ∃ n, R dim n = ⟨2 ^ k, p⟩ := by
  by_contra hn
  push Not at hn
  have hB : ∀ n ∈ p, n < dim - 1 + 2 := fun n h => by have := hp.le n h; omega
  have key : ∀ j, (R dim (m + j)).depth = 2 ^ k ∧ val (dim - 1 + 2) (R dim (m + j)).nums < val (dim - 1 + 2) p ∧
      j ≤ val (dim - 1 + 2) (R dim (m + j)).nums := by
    have strict : ∀ n, (R dim n).depth = 2 ^ k → val (dim - 1 + 2) (R dim n).nums ≤ val (dim - 1 + 2) p →
        val (dim - 1 + 2) (R dim n).nums < val (dim - 1 + 2) p := by
      intro n hd hv
      refine lt_of_le_of_ne hv fun e => hn n ?_
      have hi := R_inv dim n
      have := val_inj (dim - 1 + 2) (R dim n).nums p (by rw [hi.num.len, hp.len, hd])
        (fun x hx => by have := hi.num.le x hx; omega) hB e
      rw [← this, ← hd]
    intro j
    induction j with
    | zero =>
      have hd : (R dim (m + 0)).depth = 2 ^ k := by rw [Nat.add_zero, hm]; rfl
      refine ⟨hd, strict _ hd ?_, Nat.zero_le _⟩
      show val (dim - 1 + 2) (R dim m).nums ≤ _
      rw [hm]
      apply val_le
      rw [List.forall₂_iff_get]
      refine ⟨by rw [hp.len]; simp [fresh], ?_⟩
      intro i h1 h2
      simp [fresh]
    | succ j ih =>
      obtain ⟨h1, h2, h3⟩ := ih
      have hi := R_inv dim (m + j)
      have hg := nextNum_grow (dim - 1) _ hi.pos _ hi.num
      have e : R dim (m + (j + 1)) = ((R dim (m + j)).round dim).2 := rfl
      rcases round_cases dim _ hi with ⟨e2, hnum⟩ | ⟨_, hmax⟩
      · have hd : (R dim (m + (j + 1))).depth = 2 ^ k := by rw [e, e2]; exact h1
        refine ⟨hd, strict _ hd ?_, ?_⟩
        · rw [e, e2]
          exact hg.2.2.2.2.2 p (by rw [h1]; exact hp) h2
        · rw [e, e2]
          have := hg.2.1
          show j + 1 ≤ val (dim - 1 + 2) (nextNum (dim - 1) (R dim (m + j)).nums)
          omega
      · exfalso
        have := hmax p (by rw [h1]; exact hp)
        omega
  have := key (val (dim - 1 + 2) p)
  omega

theorem R_fresh (dim k : Nat) : ∃ n, R dim n = fresh k := by
  induction k with
  | zero => exact ⟨0, rfl⟩
  | succ k ih =>
    obtain ⟨m, hm⟩ := ih
    -- the last list of this depth
    obtain ⟨n, hn⟩ := R_reach dim k m hm (List.replicate (2 ^ k) (dim - 1))
      ⟨by simp, fun n hn => by rw [List.eq_of_mem_replicate hn], List.pairwise_replicate.2 (Or.inr (le_refl _))⟩
    refine ⟨n + 1, ?_⟩
    show ((R dim n).round dim).2 = _
    have hi := R_inv dim n
    rcases round_cases dim _ hi with ⟨_, hnum⟩ | ⟨e, _⟩
    · exfalso
      have hg := (nextNum_grow (dim - 1) _ hi.pos _ hi.num).2.1
      rw [hn] at hg hnum
      have : val (dim - 1 + 2) (nextNum (dim - 1) (List.replicate (2 ^ k) (dim - 1))) ≤
          val (dim - 1 + 2) (List.replicate (2 ^ k) (dim - 1)) := by
        apply val_le
        rw [List.forall₂_iff_get]
        refine ⟨by rw [hnum.len]; simp, ?_⟩
        intro i h1 h2
        simp only [List.get_eq_getElem, List.getElem_replicate]
        exact hnum.le _ (List.getElem_mem _)
      exact absurd hg (not_lt.2 this)
    · rw [e, hn, fresh, Nat.pow_succ]

/-! ### Equal weights come from equal states -/

theorem coprime_odd {c k : Nat} (h : Nat.Coprime c (2 ^ (k + 1))) : c % 2 = 1 := by
  rcases Nat.mod_two_eq_zero_or_one c with e | e
  · exfalso
    have h1 : 2 ∣ c := Nat.dvd_of_mod_eq_zero e
    have h2 : 2 ∣ 2 ^ (k + 1) := ⟨2 ^ k, by rw [Nat.pow_succ]; ring⟩
    have := Nat.dvd_gcd h1 h2
    rw [h] at this
    omega
  · exact e

theorem cnt_get (dim : Nat) (l : List Nat) (i : Nat) (hi : i < dim) : (cnt dim l)[i]? = some (l.count i) := by
  simp [cnt, List.getElem?_range, hi]

theorem no_smaller (dim : Nat) (s t : Aq) (k j : Nat) (hs : s.depth = 2 ^ k) (ht : t.depth = 2 ^ (k + j + 1))
    (ha : Acc dim t)
    (h : (cnt dim s.nums).map (fun (c : Nat) => (c : ℚ) / s.depth) = (cnt dim t.nums).map fun (c : Nat) => (c : ℚ) / t.depth) :
    False := by
  obtain ⟨⟨c, hc, hco⟩, _⟩ := ha
  obtain ⟨i, hi, e⟩ := List.mem_map.1 hc
  have hi := List.mem_range.1 hi
  have h1 := congrArg (fun l => l[i]?) h
  simp only [List.getElem?_map, cnt_get dim _ i hi, Option.map_some, Option.some.injEq] at h1
  rw [hs, ht, e] at h1
  rw [ht] at hco
  have hodd := coprime_odd hco
  have h2 : (2 : ℚ) ^ k ≠ 0 := by positivity
  have h3 : (2 : ℚ) ^ (k + j + 1) ≠ 0 := by positivity
  push_cast at h1
  rw [div_eq_div_iff h2 h3] at h1
  have h4 : s.nums.count i * 2 ^ (k + j + 1) = c * 2 ^ k := by exact_mod_cast h1
  have h5 : s.nums.count i * 2 ^ (j + 1) = c := by
    have : (s.nums.count i * 2 ^ (j + 1)) * 2 ^ k = c * 2 ^ k := by
      rw [← h4, Nat.mul_assoc, ← Nat.pow_add]
      congr 2
      omega
    exact Nat.eq_of_mul_eq_mul_right (Nat.pow_pos (by omega)) this
  rw [Nat.pow_succ, ← Nat.mul_assoc] at h5
  omega

theorem translate_inj (dim : Nat) (hdim : 0 < dim) (s t : Aq) (hs : Inv dim s) (ht : Inv dim t) (w : List ℚ)
    (h1 : translate dim s = some w) (h2 : translate dim t = some w) : s = t := by
  obtain ⟨k, hk⟩ := hs.pow
  obtain ⟨l, hl⟩ := ht.pow
  rw [translate_spec dim s k hk hs.num.len] at h1
  rw [translate_spec dim t l hl ht.num.len] at h2
  have e := h1.2.symm.trans h2.2
  have hkl : k = l := by
    rcases Nat.lt_trichotomy k l with h | h | h
    · obtain ⟨j, rfl⟩ := Nat.exists_eq_add_of_lt h
      exact (no_smaller dim s t k j hk hl h2.1 e).elim
    · exact h
    · obtain ⟨j, rfl⟩ := Nat.exists_eq_add_of_lt h
      exact (no_smaller dim t s l j hl hk h1.1 e.symm).elim
  subst hkl
  have hd : s.depth = t.depth := hk.trans hl.symm
  have hperm : s.nums.Perm t.nums := by
    rw [List.perm_iff_count]
    intro i
    by_cases hi : i < dim
    · have h3 := congrArg (fun l => l[i]?) e
      simp only [List.getElem?_map, cnt_get dim _ i hi, Option.map_some, Option.some.injEq] at h3
      rw [hd, hl] at h3
      have h4 : ((2 ^ k : Nat) : ℚ) ≠ 0 := by positivity
      rw [div_left_inj' h4] at h3
      exact_mod_cast h3
    · rw [List.count_eq_zero_of_not_mem, List.count_eq_zero_of_not_mem]
      · intro hm; have := ht.num.le i hm; omega
      · intro hm; have := hs.num.le i hm; omega
  have hn : s.nums = t.nums := hperm.eq_of_pairwise (fun a b _ _ h h' => le_antisymm h h') hs.num.sorted ht.num.sorted
  obtain ⟨sd, sn⟩ := s
  obtain ⟨td, tn⟩ := t
  simp only at hd hn
  rw [hd, hn]

end Paradiseo.Weights
