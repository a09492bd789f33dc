/-
Properties C56 (permutation operators preserve permutations) and C57 (order crossover).
-/
import Verif.Lemmas.EOOperators

namespace Paradiseo.Ops

open Paradiseo.EO (Err)

variable {α : Type*}

/-! ### C56: mutations -/

/-- "All the draws used by the operator give one and the same position": the only way a mutation of
a string of at least two genes does not end. -/
def DrawsStuck (r : Nat → Nat) (n fuel : Nat) : Prop := ∀ k ≤ fuel, rnd r k n = rnd r 0 n

theorem stuck_of_error {r : Nat → Nat} {n fuel : Nat} {e : Err}
    (h : drawTwo r n fuel 0 = .error e) : e = .fuel ∧ DrawsStuck r n fuel := by
  obtain ⟨h1, h2⟩ := drawTwo_error h
  refine ⟨h1, fun k hk => ?_⟩
  cases k with
  | zero => rfl
  | succ k => have := h2 k (by omega); rw [show k + 1 = 0 + 1 + k by omega]; exact this

/-- C56: the shift mutation takes the gene at some later position `j` out and puts it back at some
earlier position `i`; nothing else changes. -/
theorem C56_shift (r : Nat → Nat) (fuel : Nat) (l : List α) (hl : 2 ≤ l.length) :
    (∃ i j, ∃ hj : j < l.length, i < j ∧ shiftMutation r fuel l =
        .ok (l.take i ++ l[j] :: (l.drop i).take (j - i) ++ l.drop (j + 1))) ∨
      (shiftMutation r fuel l = .error .fuel ∧ DrawsStuck r l.length fuel) := by
  unfold shiftMutation
  cases hd : drawTwo r l.length fuel 0 with
  | error e =>
    right
    obtain ⟨h1, h2⟩ := stuck_of_error hd
    exact ⟨by rw [h1], h2⟩
  | ok p =>
    obtain ⟨a, b, t⟩ := p
    left
    obtain ⟨h1, h2, h3⟩ := drawTwo_ok (by omega) hd
    dsimp only
    generalize hi : min a b = i
    generalize hj : max a b = j
    have hij : i < j := by omega
    have hjl : j < l.length := by omega
    refine ⟨i, j, hjl, hij, ?_⟩
    unfold shiftCore
    rw [rd_ok hjl]
    obtain ⟨l', e1, e2, e3⟩ := shift_loop l i (j - i) (by omega) j (by omega)
    rw [e1]
    dsimp only
    rw [wr_ok _ (by omega)]
    congr 1
    apply List.ext_getElem?
    intro k
    rw [List.getElem?_set, e3, e2, if_pos (show i < l.length by omega)]
    by_cases hk1 : i = k
    · subst hk1
      rw [if_pos rfl, List.append_assoc, List.getElem?_append_right (by simp)]
      simp [Nat.min_eq_left (show i ≤ l.length by omega)]
    · rw [if_neg hk1]
      rcases Nat.lt_or_gt_of_ne hk1 with h4 | h4
      · obtain ⟨d, rfl⟩ : ∃ d, k = i + 1 + d := ⟨k - i - 1, by omega⟩
        rw [List.append_assoc, List.getElem?_append_right (by simp; omega)]
        simp only [List.length_take, Nat.min_eq_left (show i ≤ l.length by omega),
          List.cons_append, show i + 1 + d - i = d + 1 by omega, List.getElem?_cons_succ]
        by_cases h5 : i + 1 + d ≤ j
        · rw [if_pos ⟨h4, h5⟩, List.getElem?_append_left (by simp; omega), List.getElem?_take,
            if_pos (by omega), List.getElem?_drop]
          congr 1; omega
        · rw [if_neg (by omega), List.getElem?_append_right (by simp; omega), List.getElem?_drop]
          congr 1
          simp only [List.length_take, List.length_drop]
          omega
      · rw [if_neg (by omega), List.append_assoc, List.getElem?_append_left (by simp; omega),
          List.getElem?_take, if_pos h4]

/-- C56: the two-opt mutation reverses some segment; nothing else changes. -/
theorem C56_two_opt (r : Nat → Nat) (fuel : Nat) (l : List α) (hl : 2 ≤ l.length) :
    (∃ i j, i < j ∧ j < l.length ∧ twoOptMutation r fuel l =
        .ok (l.take i ++ ((l.drop i).take (j + 1 - i)).reverse ++ l.drop (j + 1))) ∨
      (twoOptMutation r fuel l = .error .fuel ∧ DrawsStuck r l.length fuel) := by
  unfold twoOptMutation
  cases hd : drawTwo r l.length fuel 0 with
  | error e =>
    right
    obtain ⟨h1, h2⟩ := stuck_of_error hd
    exact ⟨by rw [h1], h2⟩
  | ok p =>
    obtain ⟨a, b, t⟩ := p
    left
    obtain ⟨h1, h2, h3⟩ := drawTwo_ok (by omega) hd
    dsimp only
    generalize hi : min a b = i
    generalize hj : max a b = j
    have hij : i < j := by omega
    have hjl : j < l.length := by omega
    refine ⟨i, j, hij, hjl, ?_⟩
    unfold twoOptCore
    obtain ⟨l', e1, e2, e3⟩ := twoOpt_loop l i j hij.le hjl ((j - i) / 2 + 1) (le_refl _)
    rw [e1]
    congr 1
    apply List.ext_getElem?
    intro k
    rw [e3]
    by_cases hk1 : k < i
    · rw [if_neg (by omega), List.append_assoc, List.getElem?_append_left (by simp; omega),
          List.getElem?_take, if_pos hk1]
    · by_cases hk2 : k ≤ j
      · rw [if_pos (by omega), List.append_assoc, List.getElem?_append_right (by simp; omega),
          List.getElem?_append_left (by simp; omega), List.getElem?_reverse (by simp; omega),
          List.getElem?_take, if_pos (by simp; omega), List.getElem?_drop]
        congr 1
        simp only [List.length_take, List.length_drop]
        omega
      · rw [if_neg (by omega), List.append_assoc, List.getElem?_append_right (by simp; omega),
          List.getElem?_append_right (by simp; omega), List.getElem?_drop]
        congr 1
        simp only [List.length_take, List.length_drop, List.length_reverse]
        omega

/-- C56: the swap mutation gives a permutation of the genes. -/
theorem swap_loop_perm (r : Nat → Nat) (fuel howMany t : Nat) (l : List α) (hl : 2 ≤ l.length) :
    (∃ l', swapMutationLoop r fuel howMany t l = .ok l' ∧ l'.Perm l) ∨
      swapMutationLoop r fuel howMany t l = .error .fuel := by
  induction howMany generalizing t l with
  | zero => exact Or.inl ⟨l, rfl, List.Perm.refl _⟩
  | succ k ih =>
    unfold swapMutationLoop
    cases hd : drawTwo r l.length fuel t with
    | error e => right; rw [(drawTwo_error hd).1]
    | ok p =>
      obtain ⟨i, j, t'⟩ := p
      obtain ⟨h1, h2, h3⟩ := drawTwo_ok (by omega) hd
      dsimp only
      rw [swapL_ok h2 h3]
      rcases ih t' ((l.set i l[j]).set j l[i]) (by simpa using hl) with ⟨l', e1, e2⟩ | e
      · exact Or.inl ⟨l', e1, e2.trans (set_set_perm h2 h3)⟩
      · exact Or.inr e

theorem shift_perm {l : List α} {i j : Nat} (hj : j < l.length) (hij : i < j) :
    (l.take i ++ l[j] :: (l.drop i).take (j - i) ++ l.drop (j + 1)).Perm l := by
  have h : l = l.take i ++ ((l.drop i).take (j - i) ++ l[j] :: l.drop (j + 1)) := by
    conv_lhs => rw [← List.take_append_drop i l]
    congr 1
    conv_lhs => rw [← List.take_append_drop (j - i) (l.drop i)]
    congr 1
    rw [List.drop_drop, show i + (j - i) = j by omega, List.drop_eq_getElem_cons hj]
  conv_rhs => rw [h]
  rw [List.append_assoc, List.cons_append]
  exact List.Perm.append_left _ List.perm_middle.symm

theorem two_opt_perm {l : List α} {i j : Nat} (hij : i < j) :
    (l.take i ++ ((l.drop i).take (j + 1 - i)).reverse ++ l.drop (j + 1)).Perm l := by
  have h : l = l.take i ++ ((l.drop i).take (j + 1 - i) ++ l.drop (j + 1)) := by
    conv_lhs => rw [← List.take_append_drop i l]
    congr 1
    conv_lhs => rw [← List.take_append_drop (j + 1 - i) (l.drop i)]
    congr 1
    rw [List.drop_drop, show i + (j + 1 - i) = j + 1 by omega]
  conv_rhs => rw [h]
  rw [List.append_assoc]
  exact List.Perm.append_left _ (List.Perm.append_right _ (List.reverse_perm _))

/-- C56: the three mutations turn a permutation of `0 .. n-1` into one, for `n ≥ 2` and every random
stream; the only other outcome is that the draws repeat until the fuel is used up. -/
theorem C56_mutations (r : Nat → Nat) (fuel howMany n : Nat) (hn : 2 ≤ n) (hk : 1 ≤ howMany)
    (l : List Nat) (hl : l.Perm (List.range n))
    (res : Except Err (List Nat))
    (hres : res = shiftMutation r fuel l ∨ res = twoOptMutation r fuel l ∨
      res = swapMutation r fuel howMany l) :
    res = .error .fuel ∨ ∃ l', res = .ok l' ∧ l'.Perm (List.range n) := by
  have hlen : l.length = n := by rw [hl.length_eq, List.length_range]
  rcases hres with rfl | rfl | rfl
  · rcases C56_shift r fuel l (by omega) with ⟨i, j, hj, hij, e⟩ | ⟨e, _⟩
    · exact Or.inr ⟨_, e, (shift_perm hj hij).trans hl⟩
    · exact Or.inl e
  · rcases C56_two_opt r fuel l (by omega) with ⟨i, j, hij, hj, e⟩ | ⟨e, _⟩
    · exact Or.inr ⟨_, e, (two_opt_perm hij).trans hl⟩
    · exact Or.inl e
  · unfold swapMutation
    rw [if_neg (by omega)]
    rcases swap_loop_perm r fuel howMany 0 l (by omega) with ⟨l', e, h⟩ | e
    · exact Or.inr ⟨l', e, h.trans hl⟩
    · exact Or.inl e

/-- C56: one swap exchanges the genes at two different positions and changes nothing else. -/
theorem C56_one_swap (r : Nat → Nat) (fuel : Nat) (l : List α) (hl : 2 ≤ l.length) :
    (∃ i j l', i ≠ j ∧ i < l.length ∧ j < l.length ∧ swapMutation r fuel 1 l = .ok l' ∧
      l'.length = l.length ∧ l'[i]? = l[j]? ∧ l'[j]? = l[i]? ∧
      ∀ k, k ≠ i → k ≠ j → l'[k]? = l[k]?) ∨
      (swapMutation r fuel 1 l = .error .fuel ∧ DrawsStuck r l.length fuel) := by
  unfold swapMutation
  rw [if_neg (by omega)]
  unfold swapMutationLoop
  cases hd : drawTwo r l.length fuel 0 with
  | error e =>
    right
    obtain ⟨h1, h2⟩ := stuck_of_error hd
    exact ⟨by rw [h1], h2⟩
  | ok p =>
    obtain ⟨i, j, t'⟩ := p
    obtain ⟨h1, h2, h3⟩ := drawTwo_ok (by omega) hd
    left
    refine ⟨i, j, (l.set i l[j]).set j l[i], h1, h2, h3, ?_, by simp, ?_, ?_, ?_⟩
    · dsimp only
      rw [swapL_ok h2 h3]
      rfl
    · rw [set_set_getElem? h2 h3, if_neg h1, if_pos rfl]
    · rw [set_set_getElem? h2 h3, if_pos rfl]
    · intro k hk1 hk2
      rw [set_set_getElem? h2 h3, if_neg hk2, if_neg hk1]

/-- C56: on a string with less than two genes none of the three mutations ever ends. -/
theorem C56_small_never_ends (r : Nat → Nat) (fuel howMany : Nat) (l : List α) (hl : l.length ≤ 1)
    (hk : 1 ≤ howMany) :
    shiftMutation r fuel l = .error .fuel ∧ twoOptMutation r fuel l = .error .fuel ∧
      swapMutation r fuel howMany l = .error .fuel := by
  refine ⟨?_, ?_, ?_⟩
  · unfold shiftMutation; rw [drawTwo_small hl]
  · unfold twoOptMutation; rw [drawTwo_small hl]
  · unfold swapMutation
    rw [if_neg (by omega)]
    cases howMany with
    | zero => omega
    | succ k => unfold swapMutationLoop; rw [drawTwo_small hl]

example : shiftMutation (fun t => [3, 1].getD t 0) 5 [10, 11, 12, 13, 14] = .ok [10, 13, 11, 12, 14] :=
  by decide +kernel
example : twoOptMutation (fun t => [3, 1].getD t 0) 5 [10, 11, 12, 13, 14] = .ok [10, 13, 12, 11, 14] :=
  by decide +kernel

/-! ### C56: partially mapped crossover -/

/-- C56: partially mapped crossover of two permutations of `0 .. n-1` ends (the repair loops always
do) and gives two permutations of `0 .. n-1`; there are cut points `i1 < i2` such that each child has
the segment of the other parent at its place, and outside it keeps every value of its own parent that
does not occur in that segment. -/
theorem C56_pmx (r : Nat → Nat) (fuel n : Nat) (hn : 2 ≤ n) (hf : n ≤ fuel) (s1 s2 : List Nat)
    (h1 : s1.Perm (List.range n)) (h2 : s2.Perm (List.range n)) :
    (∃ d1 d2 i1 i2, pmx r fuel s1 s2 = .ok (d1, d2, true) ∧ i1 < i2 ∧ i2 < n ∧
      d1.Perm (List.range n) ∧ d2.Perm (List.range n) ∧
      (∀ i, i1 ≤ i → i ≤ i2 → d1[i]? = s2[i]? ∧ d2[i]? = s1[i]?) ∧
      (∀ i, ¬ (i1 ≤ i ∧ i ≤ i2) →
        ((∀ j, i1 ≤ j → j ≤ i2 → s2[j]? ≠ s1[i]?) → d1[i]? = s1[i]?) ∧
        ((∀ j, i1 ≤ j → j ≤ i2 → s1[j]? ≠ s2[i]?) → d2[i]? = s2[i]?))) ∨
    (pmx r fuel s1 s2 = .error .fuel ∧ DrawsStuck r n fuel) := by
  have hl1 : s1.length = n := by rw [h1.length_eq, List.length_range]
  have hl2 : s2.length = n := by rw [h2.length_eq, List.length_range]
  unfold pmx
  rw [if_pos (by omega), hl1]
  cases hd : drawTwo r n fuel 0 with
  | error e =>
    right
    obtain ⟨h1, h2⟩ := stuck_of_error hd
    exact ⟨by rw [h1], h2⟩
  | ok p =>
    obtain ⟨a, b, t⟩ := p
    left
    obtain ⟨h3, h4, h5⟩ := drawTwo_ok (by omega) hd
    dsimp only
    generalize hi : min a b = i1
    generalize hj : max a b = i2
    obtain ⟨d1, e1, e2, e3, e4⟩ := pmx_child h1 h2 (show i1 ≤ i2 by omega) (by omega) hf
    obtain ⟨d2, f1, f2, f3, f4⟩ := pmx_child h2 h1 (show i1 ≤ i2 by omega) (by omega) hf
    refine ⟨d1, d2, i1, i2, ?_, by omega, by omega, e2, f2, fun i ha hb => ⟨e3 i ha hb, f3 i ha hb⟩,
      fun i hi => ⟨e4 i hi, f4 i hi⟩⟩
    unfold pmxCore
    rw [if_pos (by omega)]
    dsimp only
    rw [hl1, e1, f1]

example : pmx (fun t => [3, 6].getD t 0) 9 [0, 1, 2, 3, 4, 5, 6, 7, 8] [8, 2, 6, 7, 1, 5, 4, 0, 3] =
    .ok ([0, 6, 2, 7, 1, 5, 4, 3, 8], [8, 2, 1, 3, 4, 5, 6, 0, 7], true) := by decide +kernel

/-! ### C57: order crossover -/

/-- The values of `c2` read cyclically from place `frm` on, forwards or backwards. -/
def cyclic (forward : Bool) (c2 : List Nat) (frm : Nat) : List Nat :=
  if forward then c2.rotate frm else (c2.rotate (frm + 1)).reverse

/-- What the child of an order crossover is: the segment, then the other values in cyclic order. -/
def oxChild (forward : Bool) (c1 c2 : List Nat) (cut1 cut2 frm : Nat) : List Nat :=
  let seg := (c1.drop cut1).take (cut2 - cut1)
  seg ++ (cyclic forward c2 frm).filter fun v => decide (v ∉ seg)

theorem oxIndex_forward {n frm i : Nat} (hn : 3 * n ≤ 2 ^ 32) (hf : frm < n) (hi : i < n) :
    oxIndex 1 n frm i = (i + frm) % n := by
  unfold oxIndex
  have h32 : ((1 : Int) * i + frm + n) % (2 ^ 32 : Int) = 1 * i + frm + n :=
    Int.emod_eq_of_lt (by omega) (by omega)
  rw [h32, one_mul]
  have : ((i : Int) + frm + n) = ((i + frm + n : Nat) : Int) := by push_cast; ring
  rw [this, ← Int.natCast_mod, Int.toNat_natCast, Nat.add_mod_right]

theorem oxIndex_backward {n frm i : Nat} (hn : 3 * n ≤ 2 ^ 32) (hf : frm < n) (hi : i < n) :
    oxIndex (-1) n frm i = (n - 1 - i + (frm + 1)) % n := by
  unfold oxIndex
  have h32 : ((-1 : Int) * i + frm + n) % (2 ^ 32 : Int) = -1 * i + frm + n :=
    Int.emod_eq_of_lt (by omega) (by omega)
  rw [h32]
  have : ((-1 : Int) * i + frm + n) = ((n - 1 - i + (frm + 1) : Nat) : Int) := by omega
  rw [this, ← Int.natCast_mod, Int.toNat_natCast]

theorem ox_reads (forward : Bool) (c2 : List Nat) (frm : Nat) (hn : 3 * c2.length ≤ 2 ^ 32)
    (hf : frm < c2.length) :
    (List.range c2.length).map
      (fun i => c2[oxIndex (if forward then 1 else -1) c2.length frm i]?) =
      (cyclic forward c2 frm).map some := by
  apply List.ext_getElem
  · cases forward <;> simp [cyclic]
  · intro k hk1 hk2
    have hk : k < c2.length := by simpa using hk1
    rw [List.getElem_map, List.getElem_range, List.getElem_map]
    cases forward with
    | true =>
      rw [if_pos rfl, oxIndex_forward hn hf hk]
      simp only [cyclic, if_true, List.getElem_rotate]
      exact List.getElem?_eq_getElem _
    | false =>
      rw [if_neg (by simp), oxIndex_backward hn hf hk]
      simp only [cyclic, Bool.false_eq_true, if_false, List.getElem_reverse, List.getElem_rotate,
        List.length_rotate]
      exact List.getElem?_eq_getElem _

theorem cyclic_perm (forward : Bool) (c2 : List Nat) (frm : Nat) :
    (cyclic forward c2 frm).Perm c2 := by
  unfold cyclic
  split
  · exact List.rotate_perm c2 frm
  · exact (List.reverse_perm _).trans (List.rotate_perm c2 _)

theorem mem_of_mod_mem {n : Nat} {c seg : List Nat} (hc : (c.map (· % n)).Nodup) (hs : seg ⊆ c)
    {v : Nat} (hv : v ∈ c) : (∃ w ∈ seg, w % n = v % n) ↔ v ∈ seg := by
  constructor
  · rintro ⟨w, hw, he⟩
    have := List.inj_on_of_nodup_map hc (hs hw) hv he
    exact this ▸ hw
  · exact fun h => ⟨v, h, rfl⟩

/-- One call of `cross`, for parents with the same values, all different modulo the size. -/
theorem ox_cross (forward : Bool) (c1 c2 : List Nat) (cut1 cut2 : Nat) (hc : cut1 < cut2)
    (hc2 : cut2 ≤ c1.length) (hn : 3 * c1.length ≤ 2 ^ 32) (hp : c2.Perm c1)
    (hnd : (c1.map (· % c1.length)).Nodup) :
    ∃ frm, frm < c2.length ∧ c2[frm]? = c1[cut2 - 1]? ∧
      oxCross c1 c2 c1 (if forward then 1 else -1) cut1 cut2 =
        .ok (oxChild forward c1 c2 cut1 cut2 frm) ∧
      (oxChild forward c1 c2 cut1 cut2 frm).Perm c1 := by
  set n := c1.length with hndef
  set seg := (c1.drop cut1).take (cut2 - cut1) with hseg
  have hsl : seg.length = cut2 - cut1 := by rw [hseg]; simp; omega
  have hss : seg.Sublist c1 := (List.take_sublist _ _).trans (List.drop_sublist _ _)
  have hc2l : c2.length = n := hp.length_eq
  have hn1 : c1.Nodup := List.Nodup.of_map _ hnd
  -- first loop
  obtain ⟨verif, e1, e2⟩ := oxPut_all n seg [] c1 (fun _ => false) (by omega)
  have hcopy : oxCopy c1 cut1 cut2 ⟨c1, fun _ => false, 0⟩ =
      .ok ⟨seg ++ c1.drop seg.length, verif, seg.length⟩ := by
    unfold oxCopy
    rw [foldlM_read c1 (oxPut c1.length) cut1 (cut2 - cut1) (by omega)]
    simpa using e1
  have hv : ∀ v ∈ c1, verif (v % n) = true ↔ v ∈ seg := by
    intro v hv
    rw [e2]
    simp only [Bool.false_eq_true, false_or]
    exact mem_of_mod_mem hnd hss.subset hv
  -- the value searched for
  have hlast : (seg ++ c1.drop seg.length)[cut2 - 1]? = c1[cut2 - 1]? := by
    by_cases h0 : cut1 = 0
    · rw [List.getElem?_append_left (by omega), hseg, List.getElem?_take, if_pos (by omega),
        List.getElem?_drop, h0, Nat.zero_add]
    · rw [List.getElem?_append_right (by omega), List.getElem?_drop]
      congr 1; omega
  have hlt : cut2 - 1 < c1.length := by omega
  have hrd : rd (seg ++ c1.drop seg.length) (cut2 - 1) = .ok c1[cut2 - 1] :=
    rd_eq_ok (by rw [hlast, List.getElem?_eq_getElem hlt])
  obtain ⟨frm, hfrm⟩ : ∃ frm, c2.findIdx? (fun v => v == c1[cut2 - 1]) = some frm := by
    cases h : c2.findIdx? (fun v => v == c1[cut2 - 1]) with
    | some f => exact ⟨f, rfl⟩
    | none =>
      rw [List.findIdx?_eq_none_iff] at h
      have := h c1[cut2 - 1] (hp.mem_iff.2 (List.getElem_mem hlt))
      simp at this
  obtain ⟨hfl, hfe, _⟩ := List.findIdx?_eq_some_iff_getElem.1 hfrm
  have hfe' : c2[frm] = c1[cut2 - 1] := by simpa using hfe
  -- second loop
  have hcy : (cyclic forward c2 frm).Perm c1 := (cyclic_perm _ _ _).trans hp
  have hcynd : ((cyclic forward c2 frm).map (· % n)).Nodup := (hcy.map _).nodup_iff.2 hnd
  have hfil : (cyclic forward c2 frm).filter (fun v => !verif (v % n)) =
      (cyclic forward c2 frm).filter fun v => decide (v ∉ seg) := by
    apply List.filter_congr
    intro v hvm
    have := hv v (hcy.subset hvm)
    by_cases hb : verif (v % n) = true
    · simp [hb, this.1 hb]
    · have hns : v ∉ seg := fun h => hb (this.2 h)
      simp [hb, hns]
  have hperm : (oxChild forward c1 c2 cut1 cut2 frm).Perm c1 := by
    unfold oxChild
    rw [← hseg]
    have h1 : ((cyclic forward c2 frm).filter fun v => decide (v ∉ seg)).Perm
        (c1.filter fun v => decide (v ∉ seg)) := hcy.filter _
    have h2 : seg.Perm (c1.filter fun v => decide (v ∈ seg)) := by
      rw [List.perm_ext_iff_of_nodup (hn1.sublist hss) (hn1.filter _)]
      intro a
      simp only [List.mem_filter, decide_eq_true_eq]
      exact ⟨fun h => ⟨hss.subset h, h⟩, fun h => h.2⟩
    refine (h2.append h1).trans ?_
    have := List.filter_append_perm (fun v => decide (v ∈ seg)) c1
    refine (List.Perm.append_left _ ?_).trans this
    apply List.Perm.of_eq
    apply List.filter_congr
    intro v _
    simp
  have hflen : ((cyclic forward c2 frm).filter fun v => !verif (v % n)).length = n - seg.length := by
    rw [hfil]
    have := hperm.length_eq
    unfold oxChild at this
    rw [← hseg] at this
    simp only [List.length_append] at this
    omega
  obtain ⟨verif', f1⟩ := oxFill_all n (cyclic forward c2 frm) hcynd seg (c1.drop seg.length) verif
    (by rw [hflen, List.length_drop])
  refine ⟨frm, hfl, by rw [List.getElem?_eq_getElem hfl, List.getElem?_eq_getElem hlt, hfe'], ?_,
    hperm⟩
  unfold oxCross
  rw [hcopy]
  dsimp only
  rw [hrd]
  dsimp only
  rw [hfrm]
  dsimp only
  have hreads := ox_reads forward c2 frm (by omega) hfl
  rw [hc2l] at hreads
  have hfill : oxFill c2 (if forward then 1 else -1) c1.length frm
      ⟨seg ++ c1.drop seg.length, verif, seg.length⟩ =
      .ok ⟨seg ++ (cyclic forward c2 frm).filter (fun v => !verif (v % n)) ++
          (c1.drop seg.length).drop ((cyclic forward c2 frm).filter fun v => !verif (v % n)).length,
        verif', seg.length + ((cyclic forward c2 frm).filter fun v => !verif (v % n)).length⟩ := by
    unfold oxFill
    rw [foldlM_read_idx c2 (oxFillStep c1.length)
      (oxIndex (if forward then 1 else -1) c1.length frm) (List.range c1.length)
      (cyclic forward c2 frm) hreads]
    exact f1
  rw [hfill]
  dsimp only
  rw [List.drop_drop, hflen, hfil, List.drop_eq_nil_of_le (by omega), List.append_nil]
  rfl

/-- C57 and C56 for the order crossover: for parents of at least one gene that have the same values,
all different modulo the size (as for permutations of `0 .. n-1`, or starting from any number), with
signed `char` and less than 2^32/3 genes, the crossover ends normally for every random stream.  There
are cuts such that each child is the segment of its own parent followed by the other values in the
cyclic order of the other parent, in one direction, from the place of the last value of the segment. -/
theorem C57_order (flip : Bool) (r : Nat → Nat) (c1 c2 : List Nat) (h0 : 0 < c1.length)
    (hn : 3 * c1.length ≤ 2 ^ 32) (hp : c2.Perm c1) (hnd : (c1.map (· % c1.length)).Nodup) :
    ∃ cut1 cut2 f1 f2, cut1 < cut2 ∧ cut2 ≤ c1.length ∧
      c2[f1]? = c1[cut2 - 1]? ∧ c1[f2]? = c2[cut2 - 1]? ∧
      orderXover (-1) flip r c1 c2 =
        .ok (oxChild flip c1 c2 cut1 cut2 f1, oxChild flip c2 c1 cut1 cut2 f2) ∧
      (oxChild flip c1 c2 cut1 cut2 f1).Perm c1 ∧ (oxChild flip c2 c1 cut1 cut2 f2).Perm c1 := by
  have hcut2 : 1 + rnd r 0 c1.length ≤ c1.length := by have := rnd_lt r 0 h0; omega
  have hcut1 : rnd r 1 (1 + rnd r 0 c1.length) < 1 + rnd r 0 c1.length := rnd_lt r 1 (by omega)
  have hlen := hp.length_eq
  obtain ⟨f1, _, a2, a3, a4⟩ := ox_cross flip c1 c2 _ _ hcut1 hcut2 hn hp hnd
  obtain ⟨f2, _, b2, b3, b4⟩ := ox_cross flip c2 c1 _ _ hcut1 (by omega) (by omega) hp.symm
    (by rw [hlen]; exact (hp.map _).nodup_iff.2 hnd)
  refine ⟨_, _, f1, f2, hcut1, hcut2, a2, b2, ?_, a4, b4.trans hp⟩
  unfold orderXover
  dsimp only
  rw [a3, b3]

/-- C56 for permutations of `0 .. n-1`. -/
theorem C56_order (flip : Bool) (r : Nat → Nat) (n : Nat) (h0 : 0 < n) (hn : 3 * n ≤ 2 ^ 32)
    (c1 c2 : List Nat) (h1 : c1.Perm (List.range n)) (h2 : c2.Perm (List.range n)) :
    ∃ d1 d2, orderXover (-1) flip r c1 c2 = .ok (d1, d2) ∧ d1.Perm (List.range n) ∧
      d2.Perm (List.range n) := by
  have hl : c1.length = n := by rw [h1.length_eq, List.length_range]
  have hnd : (c1.map (· % c1.length)).Nodup := by
    rw [hl, (h1.map _).nodup_iff]
    apply List.Nodup.map_on _ List.nodup_range
    intro a ha b hb hab
    rw [List.mem_range] at ha hb
    rwa [Nat.mod_eq_of_lt ha, Nat.mod_eq_of_lt hb] at hab
  obtain ⟨_, _, _, _, _, _, _, _, e, p1, p2⟩ :=
    C57_order flip r c1 c2 (by omega) (by omega) (h2.trans h1.symm) hnd
  exact ⟨_, _, e, p1.trans h1, p2.trans h1⟩

/-- C57: the textbook operator keeps the segment at its positions; this one does not: the segment
`2 3` of positions 2, 3 is moved to the front. -/
theorem C57_positions_not_kept :
    orderXover (-1) true (fun t => [3, 2].getD t 0) [0, 1, 2, 3, 4] [4, 3, 2, 1, 0] =
      .ok ([2, 3, 1, 0, 4], [2, 1, 3, 4, 0]) := by decide +kernel

/-- C57: where `char` is unsigned, `char(-1)` is 255 and the backward crossover of two permutations
of three elements gives a child with a value twice. -/
theorem C57_unsigned_char :
    orderXover 255 false (fun t => [1, 1].getD t 0) [0, 1, 2] [1, 2, 0] = .ok ([1, 1, 2], [2, 2, 0]) := by
  decide +kernel

end Paradiseo.Ops
