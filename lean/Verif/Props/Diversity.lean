import Verif.Model.Diversity
import Mathlib.Algebra.BigOperators.Group.Finset.Basic
import Mathlib.Algebra.Order.BigOperators.Group.Finset
import Mathlib.Analysis.SpecialFunctions.Pow.Real
import Mathlib.Tactic.Linarith
import Mathlib.Tactic.NormNum
/-
C189: sharing.  C190: nearest neighbour.
-/
namespace Paradiseo.Diversity
open Finset

variable {K : Type} [Field K] [LinearOrder K] [IsStrictOrderedRing K]

/-- The power is one of a positive exponent, as far as it matters. -/
structure Power (pw : K → K) : Prop where
  zero : pw 0 = 0
  le_one : ∀ x, 0 ≤ x → x < 1 → pw x ≤ 1
  mono : ∀ x y, 0 ≤ x → x ≤ y → pw x ≤ pw y

example (alpha : ℝ) (h : 0 < alpha) : Power fun x : ℝ => x ^ alpha :=
  ⟨Real.zero_rpow h.ne', fun x h0 h1 => Real.rpow_le_one h0 h1.le h.le, fun _ _ h0 h1 => Real.rpow_le_rpow h0 h1 h.le⟩

/-- How much a neighbour at distance `d` counts. -/
def near (niche : K) (pw : K → K) (d : K) : K := if d < niche then 1 - pw (d / niche) else 0

/-- The niche count of `i` among those of a class: itself and what each other one of the class adds. -/
def nicheCount (n : Nat) (niche : K) (pw : K → K) (dist : Nat → Nat → K) (same : Nat → Nat → Prop)
    [∀ i j, Decidable (same i j)] (i : Nat) : K :=
  1 + ∑ j ∈ (range n).filter (fun j => j ≠ i ∧ same i j), near niche pw (dist i j)

theorem foldl_sum (f : Nat → K) (n : Nat) (a : K) :
    (List.range n).foldl (fun s j => s + f j) a = a + ∑ j ∈ range n, f j := by
  induction n with
  | zero => simp
  | succ n ih =>
    rw [List.range_succ, List.foldl_append, ih, Finset.sum_range_succ]
    simp only [List.foldl_cons, List.foldl_nil]
    rw [add_assoc]

theorem foldl_max (f : Nat → K) (n : Nat) (hn : 0 < n) :
    (∀ i < n, f i ≤ (List.range n).foldl (fun a i => if a < f i then f i else a) (f 0)) ∧
    ∃ i < n, (List.range n).foldl (fun a i => if a < f i then f i else a) (f 0) = f i := by
  have key : ∀ m, (∀ i < m, f i ≤ (List.range m).foldl (fun a i => if a < f i then f i else a) (f 0)) ∧
      ((List.range m).foldl (fun a i => if a < f i then f i else a) (f 0) = f 0 ∨
        ∃ i < m, (List.range m).foldl (fun a i => if a < f i then f i else a) (f 0) = f i) := by
    intro m
    induction m with
    | zero => exact ⟨fun i hi => absurd hi (Nat.not_lt_zero i), Or.inl rfl⟩
    | succ m ih =>
      rw [List.range_succ, List.foldl_append]
      simp only [List.foldl_cons, List.foldl_nil]
      generalize (List.range m).foldl (fun a i => if a < f i then f i else a) (f 0) = x at ih
      obtain ⟨h1, h2⟩ := ih
      split
      · rename_i hx
        refine ⟨?_, Or.inr ⟨m, by omega, rfl⟩⟩
        intro i hi
        by_cases e : i = m
        · rw [e]
        · exact (h1 i (by omega)).trans hx.le
      · rename_i hx
        refine ⟨?_, ?_⟩
        · intro i hi
          by_cases e : i = m
          · rw [e]; exact not_lt.1 hx
          · exact h1 i (by omega)
        · rcases h2 with h | ⟨i, hi, h⟩
          · exact Or.inl h
          · exact Or.inr ⟨i, by omega, h⟩
  obtain ⟨h1, h2⟩ := key n
  refine ⟨h1, ?_⟩
  rcases h2 with h | h
  · exact ⟨0, hn, h⟩
  · exact h

theorem near_nonneg {niche : K} (hn : 0 < niche) {pw : K → K} (hp : Power pw) {d : K} (hd : 0 ≤ d) : 0 ≤ near niche pw d := by
  unfold near
  split
  · rename_i h
    exact sub_nonneg.2 (hp.le_one _ (div_nonneg hd hn.le) ((div_lt_one hn).2 h))
  · exact le_refl _

theorem rowSum_eq (n : Nat) (niche : K) (hn : 0 < niche) (pw : K → K) (hp : Power pw) (dist : Nat → Nat → K)
    (hsym : ∀ i j, dist i j = dist j i) (same : Nat → Nat → Prop) [∀ i j, Decidable (same i j)] (mat : Nat → Nat → K)
    (hd : ∀ i, mat i i = 0) (hs : ∀ i j, i ≠ j → same i j → mat i j = dist i j)
    (hns : ∀ i j, i ≠ j → ¬ same i j → mat i j = niche) (i : Nat) (hi : i < n) :
    rowSum n niche pw mat i = nicheCount n niche pw dist same i := by
  unfold rowSum nicheCount
  rw [foldl_sum, zero_add, ← Finset.add_sum_erase _ _ (mem_range.2 hi)]
  have h0 : sh niche pw (mat i i) = 1 := by
    unfold sh
    rw [hd, if_pos hn, zero_div, hp.zero, sub_zero]
  rw [h0]
  congr 1
  have e : (range n).filter (fun j => j ≠ i ∧ same i j) = ((range n).erase i).filter (fun j => same i j) := by
    ext j
    simp only [mem_filter, mem_erase, mem_range]
    tauto
  rw [e, Finset.sum_filter]
  apply Finset.sum_congr rfl
  intro j hj
  have hji : j ≠ i := (mem_erase.1 hj).1
  split
  · rename_i h
    rw [hs i j (Ne.symm hji) h]
    rfl
  · rename_i h
    rw [hns i j (Ne.symm hji) h]
    unfold sh
    rw [if_neg (lt_irrefl _)]

/-- What it means for a diversity to be derived from a count. -/
def FromCount (n : Nat) (cnt f : Nat → K) : Prop :=
  ∃ mx, (∀ i < n, cnt i ≤ mx) ∧ (∃ i < n, cnt i = mx) ∧ ∀ i < n, f i = mx - cnt i

theorem share_spec (n : Nat) (hn : 0 < n) (sim cnt : Nat → K) (h : ∀ i < n, sim i = cnt i) :
    ∃ f, share n sim = some f ∧ FromCount n cnt f := by
  unfold share
  rw [if_neg (by omega)]
  obtain ⟨h1, i, hi, h2⟩ := foldl_max sim n hn
  refine ⟨_, rfl, (List.range n).foldl (fun a i => if a < sim i then sim i else a) (sim 0), ?_, ⟨i, hi, ?_⟩, ?_⟩
  · intro j hj
    rw [← h j hj]
    exact h1 j hj
  · rw [← h i hi]
    exact h2.symm
  · intro j hj
    rw [← h j hj]

/-- **C189** (sharing).  The diversity of an individual is the greatest niche count less its own: never negative,
0 for a most crowded one, greater exactly for a smaller count.  An empty population is undefined. -/
theorem C189_sharing (n : Nat) (niche : K) (hniche : 0 < niche) (pw : K → K) (hp : Power pw) (dist : Nat → Nat → K)
    (hsym : ∀ i j, dist i j = dist j i) :
    (n = 0 → sharing n niche pw dist = none) ∧
    (0 < n → ∃ f, sharing n niche pw dist = some f ∧ FromCount n (nicheCount n niche pw dist fun _ _ => True) f ∧
      (∀ i < n, 0 ≤ f i) ∧ (∃ i < n, f i = 0) ∧
      ∀ i < n, ∀ j < n, f i ≤ f j ↔
        nicheCount n niche pw dist (fun _ _ => True) j ≤ nicheCount n niche pw dist (fun _ _ => True) i) := by
  refine ⟨fun h => if_pos h, ?_⟩
  intro hn
  have hrow : ∀ i < n, rowSum n niche pw (dMatrix dist) i = nicheCount n niche pw dist (fun _ _ => True) i := by
    intro i hi
    refine rowSum_eq n niche hniche pw hp dist hsym _ _ (fun i => if_pos rfl) ?_ (fun _ _ _ h => absurd trivial h) i hi
    intro i j hij _
    unfold dMatrix
    rw [if_neg hij]
    split
    · rfl
    · exact hsym j i
  obtain ⟨f, hf, mx, h1, ⟨k, hk, h2⟩, h3⟩ := share_spec n hn _ _ hrow
  refine ⟨f, hf, ⟨mx, h1, ⟨k, hk, h2⟩, h3⟩, ?_, ⟨k, hk, by rw [h3 k hk, h2, sub_self]⟩, ?_⟩
  · intro i hi
    rw [h3 i hi]
    exact sub_nonneg.2 (h1 i hi)
  · intro i hi j hj
    rw [h3 i hi, h3 j hj, sub_le_sub_iff_left]

theorem nicheCount_ge (n : Nat) (niche : K) (hniche : 0 < niche) (pw : K → K) (hp : Power pw) (dist : Nat → Nat → K)
    (hpos : ∀ i j, 0 ≤ dist i j) (same : Nat → Nat → Prop) [∀ i j, Decidable (same i j)] (i : Nat) :
    1 ≤ nicheCount n niche pw dist same i :=
  le_add_of_nonneg_right (Finset.sum_nonneg fun j _ => near_nonneg hniche hp (hpos i j))

/-- **C189** (isolated).  One with nobody nearer than the niche size has a greatest diversity. -/
theorem C189_isolated (n : Nat) (niche : K) (hniche : 0 < niche) (pw : K → K) (hp : Power pw) (dist : Nat → Nat → K)
    (hsym : ∀ i j, dist i j = dist j i) (hpos : ∀ i j, 0 ≤ dist i j) (f : Nat → K) (hf : sharing n niche pw dist = some f)
    (i : Nat) (hi : i < n) (hiso : ∀ j < n, j ≠ i → niche ≤ dist i j) : ∀ j < n, f j ≤ f i := by
  intro j hj
  obtain ⟨f', hf', _, _, _, h⟩ := (C189_sharing n niche hniche pw hp dist hsym).2 (by omega)
  rw [hf] at hf'
  cases hf'
  rw [h j hj i hi]
  have : nicheCount n niche pw dist (fun _ _ => True) i = 1 := by
    unfold nicheCount
    rw [Finset.sum_eq_zero, add_zero]
    intro k hk
    obtain ⟨hk1, hk2⟩ := mem_filter.1 hk
    unfold near
    rw [if_neg (not_lt.2 (hiso k (mem_range.1 hk1) hk2.1))]
  rw [this]
  exact nicheCount_ge n niche hniche pw hp dist hpos _ j

/-- **C189** (front by front).  Only neighbours of the same fitness count; the greatest count is taken over all
individuals, whatever their fitness. -/
theorem C189_front_by_front {F : Type} [DecidableEq F] (n : Nat) (hn : 0 < n) (niche : K) (hniche : 0 < niche)
    (pw : K → K) (hp : Power pw) (fit : Nat → F) (dist : Nat → Nat → K) (hsym : ∀ i j, dist i j = dist j i) :
    ∃ f, frontSharing n niche pw fit dist = some f ∧
      FromCount n (nicheCount n niche pw dist fun i j => fit i = fit j) f := by
  refine share_spec n hn _ _ ?_
  intro i hi
  refine rowSum_eq n niche hniche pw hp dist hsym _ _ ?_ ?_ ?_ i hi
  · intro i
    unfold frontMatrix
    rw [if_neg (fun h => h.1 rfl)]
    exact if_pos rfl
  · intro i j hij h
    unfold frontMatrix
    rw [if_neg (fun h' => h'.2 h)]
    unfold dMatrix
    rw [if_neg hij]
    split
    · rfl
    · exact hsym j i
  · intro i j hij h
    unfold frontMatrix
    rw [if_pos ⟨hij, h⟩]

example : (sharing 3 (2 : ℚ) id (fun i j => |(i : ℚ) - j|)).map (fun f => [f 0, f 1, f 2]) = some [1/2, 0, 1/2] := by
  norm_num [sharing, share, rowSum, dMatrix, sh, List.range_succ, abs]
example : (frontSharing 3 (2 : ℚ) id (fun i => i / 2) (fun i j => |(i : ℚ) - j|)).map (fun f => [f 0, f 1, f 2]) =
    some [0, 0, 1/2] := by
  norm_num [frontSharing, share, rowSum, frontMatrix, dMatrix, sh, List.range_succ, abs]

/-! ### C190 -/

/-- The others of population and archive. -/
def others (N k : Nat) : List Nat := (List.range N).filter fun j => j ≠ k

/-- `d` is the distance of `k` to its `q`-th nearest other one. -/
def IsNearest (N : Nat) (dist : Nat → Nat → K) (k q : Nat) (d : K) : Prop :=
  (∃ j < N, j ≠ k ∧ dist k j = d) ∧
  ((others N k).filter fun j => dist k j < d).length < q ∧ q ≤ ((others N k).filter fun j => dist k j ≤ d).length

theorem row_eq (N k : Nat) (hk : k < N) (dist : Nat → Nat → K) (hsym : ∀ i j, dist i j = dist j i) :
    row N dist k = (others N k).map fun j => dist k j := by
  unfold row others
  have e : List.range N = List.range k ++ k :: List.range' (k + 1) (N - (k + 1)) := by
    have h1 : List.range N = List.range' 0 N := List.range_eq_range'
    have h2 : List.range k = List.range' 0 k := List.range_eq_range'
    rw [h1, h2]
    have h3 : k :: List.range' (k + 1) (N - (k + 1)) = List.range' k (N - k) := by
      rw [show N - k = (N - (k + 1)) + 1 by omega, List.range'_succ]
    rw [h3]
    have := List.range'_append_1 (s := 0) (m := k) (n := N - k)
    rw [Nat.zero_add] at this
    rw [this]
    congr 1
    omega
  rw [e, List.filter_append, List.filter_cons]
  simp only [ne_eq, decide_not, decide_true, Bool.not_true, Bool.false_eq_true, if_false]
  rw [List.filter_eq_self.2, List.filter_eq_self.2, List.map_append]
  · congr 1
    apply List.map_congr_left
    intro j _
    exact hsym j k
  · intro j hj
    rw [List.mem_range'_1] at hj
    simp only [Bool.not_eq_eq_eq_not, Bool.not_true, decide_eq_false_iff_not]
    omega
  · intro j hj
    rw [List.mem_range] at hj
    simp only [Bool.not_eq_eq_eq_not, Bool.not_true, decide_eq_false_iff_not]
    omega

theorem others_length (N k : Nat) (hk : k < N) : (others N k).length = N - 1 := by
  have h := row_eq (K := ℚ) N k hk (fun _ _ => 0) fun _ _ => rfl
  have h2 := congrArg List.length h
  unfold row at h2
  simp only [List.length_append, List.length_map, List.length_range, List.length_range'] at h2
  omega

/-- The element at a place of a sorted list. -/
theorem sorted_place (l : List K) (hs : l.Pairwise (· ≤ ·)) (p : Nat) (x : K) (h : l[p]? = some x) :
    (l.filter (fun y => decide (y < x))).length ≤ p ∧ p < (l.filter (fun y => decide (y ≤ x))).length := by
  obtain ⟨hp, hx⟩ := List.getElem?_eq_some_iff.1 h
  have hsplit : l = l.take p ++ l.drop p := (List.take_append_drop p l).symm
  have hd : l.drop p = x :: l.drop (p + 1) := by
    rw [List.drop_eq_getElem_cons hp, hx]
  rw [hsplit, hd] at hs
  rw [List.pairwise_append, List.pairwise_cons] at hs
  refine ⟨?_, ?_⟩
  · rw [hsplit, hd, List.filter_append, List.length_append]
    have h0 : (x :: l.drop (p + 1)).filter (fun y => decide (y < x)) = [] := by
      rw [List.filter_eq_nil_iff]
      intro y hy
      simp only [decide_eq_true_eq, not_lt]
      rcases List.mem_cons.1 hy with rfl | hy
      · exact le_refl _
      · exact hs.2.1.1 y hy
    rw [h0, List.length_nil, Nat.add_zero]
    refine le_trans (List.length_filter_le _ _) ?_
    rw [List.length_take]
    omega
  · rw [hsplit, hd, List.filter_append, List.length_append]
    have h1 : (l.take p).filter (fun y => decide (y ≤ x)) = l.take p := by
      rw [List.filter_eq_self]
      intro y hy
      simp only [decide_eq_true_eq]
      exact hs.2.2 y hy x (by simp)
    rw [h1, List.filter_cons_of_pos (by simp), List.length_cons, List.length_take]
    omega

/-- **C190** (nearest neighbour).  With at least two individuals in population and archive the diversity is
-1/(2+d) for the distance d to the index-th nearest other one (the nearest for index 0, the farthest if there are
fewer); a single individual is undefined. -/
theorem C190_nearest (N index : Nat) (dist : Nat → Nat → K) (hsym : ∀ i j, dist i j = dist j i) (k : Nat) (hk : k < N) :
    (N = 1 → nearest N index dist k = none) ∧
    (2 ≤ N → ∃ d, nearest N index dist k = some (-1 / (2 + d)) ∧ IsNearest N dist k (max 1 (min (N - 1) index)) d) := by
  have hlen : ((row N dist k).mergeSort (· ≤ ·)).length = N - 1 := by
    rw [List.length_mergeSort, row_eq N k hk dist hsym, List.length_map, others_length N k hk]
  constructor
  · rintro rfl
    have hnil : (row 1 dist k).mergeSort (· ≤ ·) = [] := List.eq_nil_of_length_eq_zero (by rw [hlen])
    unfold nearest getElement
    rw [hnil]
    rfl
  · intro hN
    unfold nearest getElement
    set l := (row N dist k).mergeSort (· ≤ ·) with hl
    have hp : min l.length index - 1 < l.length := by omega
    have hso : l.Pairwise (· ≤ ·) := by
      have := List.pairwise_mergeSort (le := fun a b : K => decide (a ≤ b))
        (by intro a b c h1 h2; simp only [decide_eq_true_eq] at *; exact h1.trans h2)
        (by intro a b; simp only [Bool.or_eq_true, decide_eq_true_eq]; exact le_total a b) (row N dist k)
      simpa using this
    have hperm : l.Perm ((others N k).map fun j => dist k j) := by
      rw [← row_eq N k hk dist hsym]
      exact List.mergeSort_perm _ _
    refine ⟨l[min l.length index - 1], ?_, ?_, ?_⟩
    · rw [List.getElem?_eq_getElem hp, Option.map_some, mul_one]
    · have hm : l[min l.length index - 1] ∈ (others N k).map fun j => dist k j :=
        hperm.subset (List.getElem_mem hp)
      obtain ⟨j, hj, e⟩ := List.mem_map.1 hm
      obtain ⟨hj1, hj2⟩ := List.mem_filter.1 hj
      exact ⟨j, List.mem_range.1 hj1, by simpa using hj2, e⟩
    · obtain ⟨h1, h2⟩ := sorted_place l hso _ _ (List.getElem?_eq_getElem hp)
      have c1 : ((others N k).filter fun j => dist k j < l[min l.length index - 1]).length =
          (l.filter fun y => decide (y < l[min l.length index - 1])).length := by
        rw [(hperm.filter _).length_eq, List.filter_map, List.length_map]
        rfl
      have c2 : ((others N k).filter fun j => dist k j ≤ l[min l.length index - 1]).length =
          (l.filter fun y => decide (y ≤ l[min l.length index - 1])).length := by
        rw [(hperm.filter _).length_eq, List.filter_map, List.length_map]
        rfl
      rw [c1, c2]
      generalize hA : (l.filter fun y => decide (y < l[min l.length index - 1])).length = A at *
      generalize hB : (l.filter fun y => decide (y ≤ l[min l.length index - 1])).length = B at *
      omega

/-- **C190** (order).  With distances that are not negative the values are from -1/2 to below 0, and the diversity
is greater exactly if the distance is. -/
theorem C190_order (d e : K) (hd : 0 ≤ d) (he : 0 ≤ e) :
    -1 / 2 ≤ -1 / (2 + d) ∧ -1 / (2 + d) < 0 ∧ (-1 / (2 + d) ≤ -1 / (2 + e) ↔ d ≤ e) := by
  have h1 : 0 < 2 + d := by linarith
  have h2 : 0 < 2 + e := by linarith
  refine ⟨?_, ?_, ?_⟩
  · rw [div_le_div_iff₀ two_pos h1]
    linarith
  · exact div_neg_of_neg_of_pos (by linarith) h1
  · rw [div_le_div_iff₀ h1 h2]
    constructor <;> intro h <;> linarith

example : IsNearest 3 (fun i j => |((i : ℚ) ^ 2) - (j : ℚ) ^ 2|) 0 1 1 := by
  refine ⟨⟨1, by decide, by decide, by decide +kernel⟩, by decide +kernel, by decide +kernel⟩

end Paradiseo.Diversity
