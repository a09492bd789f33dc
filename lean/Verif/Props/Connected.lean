/-
Property C378: the moves of the neighbourhoods for permutations and bit strings connect the search space.
-/
import Verif.Props.Neighborhood
import Mathlib.Data.List.Perm.Basic

namespace Paradiseo.Nbh

variable {α : Type}

/-! ### Permutations -/

/-- A family of moves on vectors of `n` cells, one for each pair of positions `i < j < n`, that bring the element of
`j` to `i`, leave everything before `i` in place and keep the elements. -/
def BringsTo (n : Nat) (mv : (Nat → α) → Nat × Nat → Nat → α) : Prop :=
  ∀ a i j, i < j → j < n → ((List.range n).map (mv a (i, j))).Perm ((List.range n).map a) ∧
    mv a (i, j) i = a j ∧ ∀ k < i, mv a (i, j) k = a k

theorem range_split (n k : Nat) (h : k ≤ n) : List.range n = List.range k ++ List.range' k (n - k) := by
  rw [List.range_eq_range', List.range_eq_range']
  have := List.range'_append (s := 0) (m := k) (n := n - k) (step := 1)
  simp only [Nat.zero_add, Nat.one_mul] at this
  rw [this]; congr 1; omega

theorem rest_perm {n k : Nat} (h : k ≤ n) {a b : Nat → α} (hp : ((List.range n).map a).Perm ((List.range n).map b))
    (he : ∀ l < k, a l = b l) : ((List.range' k (n - k)).map a).Perm ((List.range' k (n - k)).map b) := by
  rw [range_split n k h, List.map_append, List.map_append] at hp
  have : (List.range k).map a = (List.range k).map b :=
    List.map_congr_left fun l hl => he l (List.mem_range.1 hl)
  rw [this] at hp
  exact (List.perm_append_left_iff _).1 hp

theorem reach_of_bringsTo {n : Nat} {mv : (Nat → α) → Nat × Nat → Nat → α} (hmv : BringsTo n mv) :
    ∀ (d k : Nat) (a b : Nat → α), k + d + 1 = n → ((List.range n).map a).Perm ((List.range n).map b) →
      (∀ l < k, a l = b l) → ∃ ms : List (Nat × Nat), ms.length ≤ d ∧ (∀ m ∈ ms, m.1 < m.2 ∧ m.2 < n) ∧
        ∀ l < n, ms.foldl mv a l = b l := by
  intro d
  induction d with
  | zero =>
    intro k a b hk hp he
    refine ⟨[], by simp, by simp, fun l hl => ?_⟩
    by_cases h : l < k
    · exact he l h
    · obtain rfl : l = k := by omega
      have := rest_perm (by omega) hp he
      rw [show n - l = 1 by omega] at this
      simpa using this
  | succ d ih =>
    intro k a b hk hp he
    have hr := rest_perm (by omega) hp he
    have hmem : b k ∈ (List.range' k (n - k)).map a := by
      rw [hr.mem_iff]
      exact List.mem_map_of_mem (by rw [List.mem_range'_1]; omega)
    obtain ⟨j, hj, hab⟩ := List.mem_map.1 hmem
    rw [List.mem_range'_1] at hj
    by_cases hjk : j = k
    · subst hjk
      obtain ⟨ms, h1, h2, h3⟩ := ih (j + 1) a b (by omega) hp (fun l hl => by
        by_cases h : l < j
        · exact he l h
        · obtain rfl : l = j := by omega
          exact hab)
      exact ⟨ms, by omega, h2, h3⟩
    · obtain ⟨p1, p2, p3⟩ := hmv a k j (by omega) (by omega)
      obtain ⟨ms, h1, h2, h3⟩ := ih (k + 1) (mv a (k, j)) b (by omega) (p1.trans hp) (fun l hl => by
        by_cases h : l < k
        · rw [p3 l h]; exact he l h
        · obtain rfl : l = k := by omega
          rw [p2]; exact hab)
      refine ⟨(k, j) :: ms, by simpa using h1, ?_, h3⟩
      intro m hm
      rcases List.mem_cons.1 hm with rfl | hm
      · exact ⟨by simp only; omega, by simp only; omega⟩
      · exact h2 m hm

theorem reach_all {n : Nat} {mv : (Nat → α) → Nat × Nat → Nat → α} (hmv : BringsTo n mv) (a b : Nat → α)
    (hp : ((List.range n).map a).Perm ((List.range n).map b)) :
    ∃ ms : List (Nat × Nat), ms.length ≤ n - 1 ∧ (∀ m ∈ ms, m.1 < m.2 ∧ m.2 < n) ∧ ∀ l < n, ms.foldl mv a l = b l := by
  cases n with
  | zero => exact ⟨[], by simp, by simp, by omega⟩
  | succ n => exact reach_of_bringsTo hmv n 0 a b (by omega) hp (by omega)

/-- C378: at most `n - 1` moves of the swap neighbourhood lead from any arrangement of `n` elements to any other. -/
theorem C378_swap (n : Nat) (a b : Nat → α) (hp : ((List.range n).map a).Perm ((List.range n).map b)) :
    ∃ ms : List (Nat × Nat), ms.length ≤ n - 1 ∧ (∀ m ∈ ms, m.1 < m.2 ∧ m.2 < n) ∧
      ∀ l < n, ms.foldl (fun a m => swapMove a m.1 m.2) a l = b l := by
  apply reach_all (mv := fun a m => swapMove a m.1 m.2) _ a b hp
  intro a i j hij hj
  obtain ⟨-, h2, h3, -, h5⟩ := C15_swap n a i j (by omega) hj
  exact ⟨h2, h3, fun k hk => h5 k (by omega) (by omega)⟩

/-- C378: the same for the moves by inversion of a part (2-opt). -/
theorem C378_twoOpt (n : Nat) (a b : Nat → α) (hp : ((List.range n).map a).Perm ((List.range n).map b)) :
    ∃ ms : List (Nat × Nat), ms.length ≤ n - 1 ∧ (∀ m ∈ ms, m.1 < m.2 ∧ m.2 < n) ∧
      ∀ l < n, ms.foldl (fun a m => twoOptMove a m.1 m.2) a l = b l := by
  apply reach_all (mv := fun a m => twoOptMove a m.1 m.2) _ a b hp
  intro a i j hij hj
  obtain ⟨h1, -, h3⟩ := C15_twoOpt n a i j (by omega) hj
  refine ⟨h3, ?_, fun k hk => ?_⟩
  · show twoOptMove a i j i = a j
    rw [h1, if_pos (by omega)]; congr 1; omega
  · show twoOptMove a i j k = a k
    rw [h1, if_neg (by omega)]

/-- C378: the same for the moves that take an element out and put it elsewhere, given by the keys of the neighbourhood. -/
theorem C378_shift (n : Nat) (a b : Nat → α) (hp : ((List.range n).map a).Perm ((List.range n).map b)) :
    ∃ keys : List Nat, keys.length ≤ n - 1 ∧ (∀ k ∈ keys, k < n * (n - 1)) ∧
      ∀ l < n, keys.foldl (fun a k => shiftMove a (shiftIndex n k)) a l = b l := by
  obtain ⟨ms, h1, h2, h3⟩ := reach_all (mv := fun a (m : Nat × Nat) => shiftMove a (m.2, m.1)) (by
    intro a i j hij hj
    have hs := C15_shift_spec n a j i hj (by omega)
    rw [if_neg (by omega)] at hs
    have hlen : ((List.range n).map a).length = n := by simp
    have hget : ∀ k, k < n → ((List.range n).map (shiftMove a (j, i)))[k]? = some (shiftMove a (j, i) k) := by
      intro k hk; simp [List.getElem?_map, List.getElem?_range hk]
    refine ⟨(C15_shift n a j i hj (by omega)).2, ?_, fun k hk => ?_⟩
    · have := hget i (by omega)
      rw [hs, List.getElem?_insertIdx_self, if_pos (by rw [List.length_eraseIdx_of_lt (by omega)]; omega)] at this
      exact (Option.some.inj this).symm
    · have := hget k (by omega)
      rw [hs, List.getElem?_insertIdx_of_lt hk, List.getElem?_eraseIdx_of_lt (by omega)] at this
      simp only [List.getElem?_map, List.getElem?_range (show k < n by omega), Option.map_some,
        Option.some.injEq] at this
      exact this.symm) a b hp
  refine ⟨ms.map fun m => shiftKey n m.2 m.1, by simpa using h1, ?_, ?_⟩
  · intro k hk
    obtain ⟨m, hm, rfl⟩ := List.mem_map.1 hk
    obtain ⟨q1, q2⟩ := h2 m hm
    exact ((C14_shift_key_bijection n (by omega)).2 m.2 m.1 q2 (by omega) (by omega) (by omega)).1
  · intro l hl
    rw [← h3 l hl, List.foldl_map]
    refine congrFun (List.foldl_ext _ _ _ ?_) l
    intro a m hm
    obtain ⟨q1, q2⟩ := h2 m hm
    rw [((C14_shift_key_bijection n (by omega)).2 m.2 m.1 q2 (by omega) (by omega) (by omega)).2]

/-- C378: the same for the swaps given by the keys of the indexed swap neighbourhood, as long as the keys do not overflow. -/
theorem C378_indexed_swap (n : Nat) (hb : 1 + 8 * (n * (n - 1) / 2) < 2 ^ 32) (a b : Nat → α)
    (hp : ((List.range n).map a).Perm ((List.range n).map b)) :
    ∃ keys : List Nat, keys.length ≤ n - 1 ∧ (∀ k ∈ keys, k < n * (n - 1) / 2) ∧
      ∀ l < n, keys.foldl (fun a k => swapMove a (swapIndex n k).1 (swapIndex n k).2) a l = b l := by
  obtain ⟨ms, h1, h2, h3⟩ := C378_swap n a b hp
  refine ⟨ms.map fun m => swapKey n m.1 m.2, by simpa using h1, ?_, ?_⟩
  · intro k hk
    obtain ⟨m, hm, rfl⟩ := List.mem_map.1 hk
    obtain ⟨q1, q2⟩ := h2 m hm
    exact ((C13_swap_key_bijection n (by omega) hb).2 m.1 m.2 q1 q2).1
  · intro l hl
    rw [← h3 l hl, List.foldl_map]
    refine congrFun (List.foldl_ext _ _ _ ?_) l
    intro a m hm
    obtain ⟨q1, q2⟩ := h2 m hm
    rw [((C13_swap_key_bijection n (by omega) hb).2 m.1 m.2 q1 q2).2]

/-! ### Bit strings -/

/-- The number of positions below `n` at which two strings differ. -/
def differ (n : Nat) (x y : Nat → Bool) : Nat := (List.range n).countP fun i => x i != y i

theorem differ_step (n : Nat) (x y : Nat → Bool) (k : Nat) : differ n x y ≤ differ n (bitMove x k) y + 1 := by
  induction n with
  | zero => simp [differ]
  | succ n ih =>
    have hle : ∀ m, m ≤ k → differ m x y = differ m (bitMove x k) y := by
      intro m hm
      apply List.countP_congr
      intro i hi
      rw [(C16_bit x k).2.1 i (by have := List.mem_range.1 hi; omega)]
    simp only [differ, List.range_succ, List.countP_append, List.countP_cons, List.countP_nil] at ih ⊢
    by_cases h : n = k
    · have := hle n (by omega)
      simp only [differ] at this
      rw [this]
      split_ifs <;> omega
    · rw [(C16_bit x k).2.1 n h]
      omega

/-- C378: the bit-flip neighbourhood leads from any string of `n` bits to any other, by flipping each bit in which they
differ once; no shorter sequence of flips does. -/
theorem C378_bits (n : Nat) (x y : Nat → Bool) :
    (∃ keys : List Nat, keys.length = differ n x y ∧ (∀ k ∈ keys, k < n) ∧ ∀ l < n, keys.foldl bitMove x l = y l) ∧
    ∀ keys : List Nat, (∀ l < n, keys.foldl bitMove x l = y l) → differ n x y ≤ keys.length := by
  constructor
  · refine ⟨(List.range n).filter fun i => x i != y i, ?_, ?_, ?_⟩
    · rw [differ, List.countP_eq_length_filter]
    · intro k hk; exact List.mem_range.1 (List.mem_filter.1 hk).1
    · intro l hl
      have := (C16_bits x ((List.range n).filter fun i => x i != y i)).1 (List.nodup_range.filter _) l
      have e : bitsMove x ((List.range n).filter fun i => x i != y i) =
          ((List.range n).filter fun i => x i != y i).foldl bitMove x := rfl
      rw [← e, this]
      by_cases h : x l = y l
      · rw [if_neg (by simp [h]), h]
      · rw [if_pos (by simp [hl, h])]
        cases hx : x l <;> cases hy : y l <;> simp_all
  · intro keys
    induction keys generalizing x with
    | nil =>
      intro h
      simp only [List.length_nil, Nat.le_zero]
      rw [differ, List.countP_eq_zero]
      intro i hi
      simpa using h i (List.mem_range.1 hi)
    | cons k keys ih =>
      intro h
      have h1 := differ_step n x y k
      have h2 := ih (bitMove x k) h
      simp only [List.length_cons]; omega

example : differ 3 (fun _ => false) (fun i => i == 0 || i == 2) = 2 := by decide

example : ((List.range 3).map fun i => i).Perm ((List.range 3).map fun i => 2 - i) := by decide

end Paradiseo.Nbh
