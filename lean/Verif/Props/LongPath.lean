import Verif.Model.LongPath
import Mathlib.Tactic.Linarith
import Mathlib.Tactic.Ring

/-
C209: the long k-path: what the evaluation computes, and the properties of the path that make it long.
-/
namespace Paradiseo.LongPath

open Paradiseo.EO

/-! ### The path, as defined in the literature -/

/-- Last point of the path of `m` blocks. -/
def endPt (k : Nat) : Nat → List Bool
  | 0 => [true]
  | m + 1 => List.replicate (1 + m * k) false ++ List.replicate k true

/-- The points of the path of dimension `1 + m k`: the smaller path with `k` zeros, a bridge from its end, the
smaller path backwards with `k` ones. -/
def path (k : Nat) : Nat → List (List Bool)
  | 0 => [[false], [true]]
  | m + 1 =>
    (path k m).map (· ++ List.replicate k false) ++
    (List.range (k - 1)).map (fun t => endPt k m ++ (List.replicate (t + 1) true ++ List.replicate (k - 1 - t) false)) ++
    (path k m).reverse.map (· ++ List.replicate k true)

/-- Number of positions where two lists of the same length differ. -/
def ham : List Bool → List Bool → Nat
  | a :: x, b :: y => (if a = b then 0 else 1) + ham x y
  | _, _ => 0

theorem path_length (k m : Nat) (hk : 1 ≤ k) : (path k m).length + k = (k + 1) * 2 ^ m + 1 := by
  induction m with
  | zero => simp [path]; omega
  | succ m ih =>
    simp only [path, List.length_append, List.length_map, List.length_range, List.length_reverse]
    rw [pow_succ]
    generalize hz : (k + 1) * 2 ^ m = z at ih
    have : (k + 1) * (2 ^ m * 2) = 2 * z := by rw [← hz]; ring
    omega

theorem path_pos (k m : Nat) : 2 ≤ (path k m).length := by
  induction m with
  | zero => simp [path]
  | succ m ih => simp only [path, List.length_append, List.length_map, List.length_range, List.length_reverse]; omega

theorem path_dim (k m : Nat) (hk : 1 ≤ k) : ∀ x ∈ path k m, x.length = 1 + m * k := by
  have hend : ∀ m, (endPt k m).length = 1 + m * k := by
    intro m
    cases m with
    | zero => simp [endPt]
    | succ m => simp [endPt]; ring
  induction m with
  | zero => intro x hx; simp [path] at hx; rcases hx with rfl | rfl <;> simp
  | succ m ih =>
    have he : 1 + (m + 1) * k = 1 + m * k + k := by ring
    intro x hx
    simp only [path, List.mem_append, List.mem_map, List.mem_range, List.mem_reverse] at hx
    rcases hx with (⟨y, hy, rfl⟩ | ⟨t, ht, rfl⟩) | ⟨y, hy, rfl⟩
    · simp [ih y hy, he]
    · simp [hend, he]; omega
    · simp [ih y hy, he]

theorem endPt_length (k m : Nat) : (endPt k m).length = 1 + m * k := by
  cases m with
  | zero => simp [endPt]
  | succ m => simp [endPt]; ring

theorem path_first (k m : Nat) : (path k m)[0]? = some (List.replicate (1 + m * k) false) := by
  induction m with
  | zero => simp [path]
  | succ m ih =>
    have := path_pos k m
    simp only [path]
    rw [List.append_assoc, List.getElem?_append_left (by simp; omega), List.getElem?_map, ih]
    simp only [Option.map_some, Option.some.injEq]
    rw [← List.replicate_add]
    congr 1; ring

/-- Where the points of the larger path are. -/
theorem path_get (k m : Nat) :
    (∀ (i : Nat) (y : List Bool), (path k m)[i]? = some y → (path k (m + 1))[i]? = some (y ++ List.replicate k false)) ∧
    (∀ t : Nat, t < k - 1 → (path k (m + 1))[(path k m).length + t]? =
      some (endPt k m ++ (List.replicate (t + 1) true ++ List.replicate (k - 1 - t) false))) ∧
    (∀ (i : Nat) (y : List Bool), (path k m)[i]? = some y →
      (path k (m + 1))[(path k m).length + (k - 1) + ((path k m).length - 1 - i)]? = some (y ++ List.replicate k true)) := by
  refine ⟨?_, ?_, ?_⟩
  · intro i y h
    have hi : i < (path k m).length := (List.getElem?_eq_some_iff.1 h).1
    simp only [path]
    rw [List.append_assoc, List.getElem?_append_left (by simpa using hi), List.getElem?_map, h]
    rfl
  · intro t ht
    simp only [path]
    rw [List.getElem?_append_left (by simp; omega), List.getElem?_append_right (by simp)]
    simp [ht]
  · intro i y h
    have hi : i < (path k m).length := (List.getElem?_eq_some_iff.1 h).1
    simp only [path]
    rw [List.getElem?_append_right (by simp)]
    have e : (path k m).length + (k - 1) + ((path k m).length - 1 - i) -
        (List.map (· ++ List.replicate k false) (path k m) ++ List.map (fun t => endPt k m ++
          (List.replicate (t + 1) true ++ List.replicate (k - 1 - t) false)) (List.range (k - 1))).length =
        (path k m).length - 1 - i := by simp
    rw [e, List.getElem?_map, List.getElem?_reverse (by omega)]
    have e2 : (path k m).length - 1 - ((path k m).length - 1 - i) = i := by omega
    rw [e2, h]; rfl

theorem path_last (k m : Nat) (hk : 1 ≤ k) : (path k m)[(path k m).length - 1]? = some (endPt k m) := by
  cases m with
  | zero => simp [path, endPt]
  | succ m =>
    have h := (path_get k m).2.2 0 _ (path_first k m)
    have e : (path k (m + 1)).length - 1 = (path k m).length + (k - 1) + ((path k m).length - 1 - 0) := by
      have := path_pos k m
      simp only [path, List.length_append, List.length_map, List.length_range, List.length_reverse]; omega
    rw [e, h]; rfl

/-- Every point of the larger path is one of these. -/
theorem path_cases (k m i : Nat) (x : List Bool) (h : (path k (m + 1))[i]? = some x) :
    (∃ y, (path k m)[i]? = some y ∧ x = y ++ List.replicate k false) ∨
    (∃ t, t < k - 1 ∧ i = (path k m).length + t ∧
      x = endPt k m ++ (List.replicate (t + 1) true ++ List.replicate (k - 1 - t) false)) ∨
    (∃ (j : Nat) (y : List Bool), (path k m)[j]? = some y ∧ i = (path k m).length + (k - 1) + ((path k m).length - 1 - j) ∧
      x = y ++ List.replicate k true) := by
  have hi : i < (path k (m + 1)).length := (List.getElem?_eq_some_iff.1 h).1
  have hlen : (path k (m + 1)).length = (path k m).length + (k - 1) + (path k m).length := by
    simp only [path, List.length_append, List.length_map, List.length_range, List.length_reverse]
  obtain ⟨g1, g2, g3⟩ := path_get k m
  by_cases h1 : i < (path k m).length
  · have := g1 i _ (List.getElem?_eq_getElem h1)
    rw [this] at h
    exact Or.inl ⟨_, List.getElem?_eq_getElem h1, by simpa using h.symm⟩
  · by_cases h2 : i < (path k m).length + (k - 1)
    · have := g2 (i - (path k m).length) (by omega)
      rw [show (path k m).length + (i - (path k m).length) = i by omega, h] at this
      exact Or.inr (Or.inl ⟨i - (path k m).length, by omega, by omega, by simpa using this⟩)
    · have hj : (path k m).length - 1 - (i - (path k m).length - (k - 1)) < (path k m).length := by
        have := path_pos k m; omega
      have := g3 _ _ (List.getElem?_eq_getElem hj)
      have e : (path k m).length + (k - 1) + ((path k m).length - 1 - ((path k m).length - 1 -
          (i - (path k m).length - (k - 1)))) = i := by omega
      rw [e, h] at this
      exact Or.inr (Or.inr ⟨_, _, List.getElem?_eq_getElem hj, e.symm, by simpa using this⟩)

/-! ### Distances on the path -/

theorem ham_append : ∀ (x y a b : List Bool), x.length = y.length → ham (x ++ a) (y ++ b) = ham x y + ham a b
  | [], [], a, b, _ => by simp [ham]
  | [], _ :: _, _, _, h => by simp at h
  | _ :: _, [], _, _, h => by simp at h
  | c :: x, d :: y, a, b, h => by
    simp only [List.cons_append, ham]
    rw [ham_append x y a b (by simpa using h)]; omega

theorem ham_self : ∀ x : List Bool, ham x x = 0
  | [] => rfl
  | a :: x => by simp [ham, ham_self x]

theorem ham_comm : ∀ x y : List Bool, ham x y = ham y x
  | [], [] => rfl
  | [], _ :: _ => rfl
  | _ :: _, [] => rfl
  | a :: x, b :: y => by simp only [ham, ham_comm x y, eq_comm]

theorem ham_rep (n : Nat) : ham (List.replicate n true) (List.replicate n false) = n := by
  induction n with
  | zero => rfl
  | succ n ih => simp [List.replicate_succ, ham, ih]; omega

theorem ham_zero : ∀ x y : List Bool, x.length = y.length → ham x y = 0 → x = y
  | [], [], _, _ => rfl
  | [], _ :: _, h, _ => by simp at h
  | _ :: _, [], h, _ => by simp at h
  | a :: x, b :: y, h, h0 => by
    simp only [ham] at h0
    split at h0
    · rename_i hab
      rw [hab, ham_zero x y (by simpa using h) (by omega)]
    · omega

/-- `s` ones followed by zeros, `k` in all. -/
def block (k s : Nat) : List Bool := List.replicate s true ++ List.replicate (k - s) false

theorem block_length (k s : Nat) (h : s ≤ k) : (block k s).length = k := by simp [block]; omega

theorem block_zero (k : Nat) : block k 0 = List.replicate k false := by simp [block]
theorem block_full (k : Nat) : block k k = List.replicate k true := by simp [block]

theorem ham_block (k s t : Nat) (h1 : s ≤ t) (h2 : t ≤ k) : ham (block k s) (block k t) = t - s := by
  have e1 : block k s = List.replicate s true ++ (List.replicate (t - s) false ++ List.replicate (k - t) false) := by
    rw [block, ← List.replicate_add]; congr 2; omega
  have e2 : block k t = List.replicate s true ++ (List.replicate (t - s) true ++ List.replicate (k - t) false) := by
    rw [← List.append_assoc, ← List.replicate_add, block]; congr 2; omega
  rw [e1, e2, ham_append _ _ _ _ rfl, ham_append _ _ _ _ (by simp), ham_self, ham_self, ham_comm, ham_rep]
  omega

/-- The path is long: two of its points whose ranks differ by less than `k` differ in exactly so many bits, all
others differ in at least `k` bits. -/
theorem C209_distance (k m : Nat) (hk : 1 ≤ k) (i j : Nat) (x y : List Bool) (hij : i ≤ j)
    (hx : (path k m)[i]? = some x) (hy : (path k m)[j]? = some y) :
    (j - i < k → ham x y = j - i) ∧ (k ≤ j - i → k ≤ ham x y) := by
  induction m generalizing i j x y with
  | zero =>
    have hi : i < 2 := (List.getElem?_eq_some_iff.1 hx).1
    have hj : j < 2 := (List.getElem?_eq_some_iff.1 hy).1
    have : ham x y = j - i := by
      rcases Nat.lt_succ_iff_lt_or_eq.1 hi with h | rfl
      · have : i = 0 := by omega
        subst this
        rcases Nat.lt_succ_iff_lt_or_eq.1 hj with h | rfl
        · have : j = 0 := by omega
          subst this
          simp [path] at hx hy; subst hx; subst hy; rfl
        · simp [path] at hx hy; subst hx; subst hy; rfl
      · have : j = 1 := by omega
        subst this
        simp [path] at hx hy; subst hx; subst hy; rfl
    omega
  | succ m ih =>
    have hL := path_pos k m
    have hdim := path_dim k m hk
    have hel := endPt_length k m
    have hlast := path_last k m hk
    have hb : ∀ t, t < k - 1 → List.replicate (t + 1) true ++ List.replicate (k - 1 - t) false = block k (t + 1) := by
      intro t ht; rw [block]; congr 2; omega
    have hmem : ∀ (i : Nat) (u : List Bool), (path k m)[i]? = some u → u.length = 1 + m * k ∧ i < (path k m).length :=
      fun i u hu => ⟨hdim u (List.mem_of_getElem? hu), (List.getElem?_eq_some_iff.1 hu).1⟩
    rcases path_cases k m i x hx with ⟨u, hu, rfl⟩ | ⟨s, hs, hi, rfl⟩ | ⟨i', u, hu, hi, rfl⟩ <;>
    rcases path_cases k m j y hy with ⟨v, hv, rfl⟩ | ⟨t, ht, hj, rfl⟩ | ⟨j', v, hv, hj, rfl⟩
    · have := hmem _ _ hu
      have := hmem _ _ hv
      rw [ham_append _ _ _ _ (by omega), ham_self]
      exact ih i j u v hij hu hv
    · have := hmem _ _ hu
      obtain ⟨q1, q2⟩ := ih i _ u _ (by omega) hu hlast
      rw [ham_append _ _ _ _ (by omega), hb t ht, ← block_zero, ham_block k 0 (t + 1) (by omega) (by omega)]
      by_cases h : (path k m).length - 1 - i < k
      · rw [q1 h]; omega
      · have := q2 (by omega); omega
    · have := hmem _ _ hu
      have := hmem _ _ hv
      rw [ham_append _ _ _ _ (by omega), ham_comm (List.replicate k false), ham_rep]
      omega
    · have := hmem _ _ hv
      omega
    · rw [ham_append _ _ _ _ rfl, ham_self, hb s hs, hb t ht, ham_block k (s + 1) (t + 1) (by omega) (by omega)]
      omega
    · have := hmem _ _ hv
      obtain ⟨q1, q2⟩ := ih j' _ v _ (by omega) hv hlast
      rw [ham_append _ _ _ _ (by omega), hb s hs, ← block_full, ham_block k (s + 1) k (by omega) (by omega), ham_comm]
      by_cases h : (path k m).length - 1 - j' < k
      · rw [q1 h]; omega
      · have := q2 (by omega); omega
    · have := hmem _ _ hv
      omega
    · omega
    · have := hmem _ _ hu
      have := hmem _ _ hv
      obtain ⟨q1, q2⟩ := ih j' i' v u (by omega) hv hu
      rw [ham_append _ _ _ _ (by omega), ham_self, ham_comm]
      have e : j - i = i' - j' := by omega
      rw [e]
      exact ⟨q1, q2⟩

/-- No point occurs twice on the path. -/
theorem path_inj (k m : Nat) (hk : 1 ≤ k) (i j : Nat) (x : List Bool) (hi : (path k m)[i]? = some x)
    (hj : (path k m)[j]? = some x) : i = j := by
  by_contra hne
  rcases Nat.lt_or_gt_of_ne hne with h | h
  · obtain ⟨q1, q2⟩ := C209_distance k m hk i j x x h.le hi hj
    rw [ham_self] at q1 q2
    omega
  · obtain ⟨q1, q2⟩ := C209_distance k m hk j i x x h.le hj hi
    rw [ham_self] at q1 q2
    omega

/-! ### The evaluation -/

theorem runLen_spec (x : List Bool) (v : Bool) (ind : Nat) : ∀ (b n : Nat), n + b ≤ ind + 1 → ind < x.length →
    ∃ r, runLen x v ind b n = .ok r ∧ n ≤ r ∧ r ≤ n + b ∧ (∀ i, n ≤ i → i < r → x[ind - i]? = some v) ∧
      (r < n + b → x[ind - r]? = some (!v)) := by
  intro b
  induction b with
  | zero => intro n _ _; exact ⟨n, rfl, le_rfl, by omega, fun i h1 h2 => by omega, fun h => by omega⟩
  | succ b ih =>
    intro n h1 h2
    have hlt : ind - n < x.length := by omega
    have hb : bitAt x ind n = some x[ind - n] := by
      rw [bitAt, if_pos (by omega), List.getElem?_eq_getElem hlt]
    rw [runLen, hb]
    dsimp only
    split
    · rename_i hv
      obtain ⟨r, q1, q2, q3, q4, q5⟩ := ih (n + 1) (by omega) h2
      refine ⟨r, q1, by omega, by omega, ?_, fun h => q5 (by omega)⟩
      intro i hi1 hi2
      by_cases hin : i = n
      · subst hin; rw [List.getElem?_eq_getElem hlt, hv]
      · exact q4 i (by omega) hi2
    · rename_i hv
      refine ⟨n, rfl, le_rfl, by omega, fun i h1 h2 => by omega, fun _ => ?_⟩
      rw [List.getElem?_eq_getElem hlt]
      cases hx : x[ind - n] <;> cases v <;> simp_all

theorem scan_spec (x : List Bool) (v : Bool) : ∀ (b i : Nat), i + b ≤ x.length →
    ∃ r, scan x v b i = .ok r ∧ i ≤ r ∧ r ≤ i + b ∧ (∀ j, i ≤ j → j < r → x[j]? = some v) ∧
      (r < i + b → x[r]? = some (!v)) := by
  intro b
  induction b with
  | zero => intro i _; exact ⟨i, rfl, le_rfl, by omega, fun i h1 h2 => by omega, fun h => by omega⟩
  | succ b ih =>
    intro i h1
    have hlt : i < x.length := by omega
    rw [scan, List.getElem?_eq_getElem hlt]
    dsimp only
    split
    · rename_i hv
      obtain ⟨r, q1, q2, q3, q4, q5⟩ := ih (i + 1) (by omega)
      refine ⟨r, q1, by omega, by omega, ?_, fun h => q5 (by omega)⟩
      intro j hj1 hj2
      by_cases hin : j = i
      · subst hin; rw [List.getElem?_eq_getElem hlt, hv]
      · exact q4 j (by omega) hj2
    · rename_i hv
      refine ⟨i, rfl, le_rfl, by omega, fun i h1 h2 => by omega, fun _ => ?_⟩
      rw [List.getElem?_eq_getElem hlt]
      cases hx : x[i] <;> cases v <;> simp_all

theorem endPt_get (k m : Nat) (j : Nat) : (endPt k (m + 1))[j]? =
    if j < 1 + m * k then some false else if j < 1 + (m + 1) * k then some true else none := by
  have e : 1 + (m + 1) * k = 1 + m * k + k := by ring
  rw [endPt, List.getElem?_append]
  simp only [List.length_replicate, List.getElem?_replicate, e]
  generalize 1 + m * k = z
  split
  · rfl
  · congr 1
    apply propext; omega

theorem final_spec (k m : Nat) (hk : 1 ≤ k) (x : List Bool) (hx : 1 + m * k ≤ x.length) :
    final k x (1 + m * k) = .ok (decide (x.take (1 + m * k) = endPt k m)) := by
  cases m with
  | zero =>
    cases x with
    | nil => simp at hx
    | cons a x => cases a <;> simp [final, endPt]
  | succ m =>
    have e : 1 + (m + 1) * k = 1 + m * k + k := by ring
    have hg := endPt_get k m
    rw [e] at hx ⊢
    simp only [e] at hg
    clear e
    have hz0 : 1 ≤ 1 + m * k := by omega
    generalize hz : 1 + m * k = z at *
    unfold final
    rw [if_neg (by omega), if_neg (by omega), Nat.add_sub_cancel]
    obtain ⟨r, q1, q2, q3, q4, q5⟩ := scan_spec x false z 0 (by omega)
    rw [q1]
    dsimp only
    split
    · rename_i h
      congr 1
      symm
      rw [decide_eq_false_iff_not]
      intro heq
      have h1 := q5 (by omega)
      have h2 : (x.take (z + k))[r]? = (endPt k (m + 1))[r]? := by rw [heq]
      rw [List.getElem?_take_of_lt (by omega), h1, hg, if_pos h] at h2
      simp at h2
    · rename_i h
      have hr : r = z := by omega
      subst hr
      rw [Nat.add_sub_cancel_left]
      obtain ⟨r2, p1, p2, p3, p4, p5⟩ := scan_spec x true k r (by omega)
      rw [p1]
      dsimp only
      congr 1
      rw [Bool.eq_iff_iff, beq_iff_eq, decide_eq_true_iff]
      constructor
      · rintro rfl
        apply List.ext_getElem?
        intro j
        rw [hg]
        by_cases h1 : j < r
        · rw [if_pos h1, List.getElem?_take_of_lt (by omega), q4 j (by omega) h1]
        · rw [if_neg h1]
          by_cases h2 : j < r + k
          · rw [if_pos h2, List.getElem?_take_of_lt h2, p4 j (by omega) h2]
          · rw [if_neg h2, List.getElem?_eq_none (by simp; omega)]
      · intro heq
        by_contra hne
        have h1 := p5 (by omega)
        have h2 : (x.take (r + k))[r2]? = (endPt k (m + 1))[r2]? := by rw [heq]
        rw [List.getElem?_take_of_lt (by omega), h1, hg, if_neg (by omega), if_pos (by omega)] at h2
        simp at h2

/-- Membership of the larger path by the last block. -/
theorem mem_path_succ (k m : Nat) (hk : 1 ≤ k) (y t : List Bool) (hy : y.length = 1 + m * k) (ht : t.length = k) :
    y ++ t ∈ path k (m + 1) ↔ (t = block k 0 ∧ y ∈ path k m) ∨ (∃ s, 1 ≤ s ∧ s < k ∧ t = block k s ∧ y = endPt k m) ∨
      (t = block k k ∧ y ∈ path k m) := by
  have hdim := path_dim k m hk
  simp only [path, List.mem_append, List.mem_map, List.mem_range, List.mem_reverse, or_assoc]
  refine or_congr ?_ (or_congr ?_ ?_)
  · constructor
    · rintro ⟨z, hz, e⟩
      obtain ⟨rfl, rfl⟩ := List.append_inj e (by rw [hdim z hz, hy])
      exact ⟨(block_zero k).symm, hz⟩
    · rintro ⟨rfl, hz⟩; exact ⟨y, hz, by rw [block_zero]⟩
  · constructor
    · rintro ⟨s, hs, e⟩
      obtain ⟨rfl, rfl⟩ := List.append_inj e (by rw [endPt_length, hy])
      exact ⟨s + 1, by omega, by omega, by rw [block]; congr 2; omega, rfl⟩
    · rintro ⟨s, h1, h2, rfl, rfl⟩
      exact ⟨s - 1, by omega, by rw [block]; congr 3 <;> omega⟩
  · constructor
    · rintro ⟨z, hz, e⟩
      obtain ⟨rfl, rfl⟩ := List.append_inj e (by rw [hdim z hz, hy])
      exact ⟨(block_full k).symm, hz⟩
    · rintro ⟨rfl, hz⟩; exact ⟨y, hz, by rw [block_full]⟩

theorem block_get (k s j : Nat) (hs : s ≤ k) : (block k s)[j]? =
    if j < s then some true else if j < k then some false else none := by
  rw [block, List.getElem?_append]
  simp only [List.length_replicate, List.getElem?_replicate]
  split
  · rfl
  · congr 1
    apply propext; omega

theorem rank_spec (k : Nat) (hk : 1 ≤ k) : ∀ (m f : Nat) (x : List Bool), 1 + m * k ≤ x.length → m < f →
    (∃ i, (path k m)[i]? = some (x.take (1 + m * k)) ∧ rank k x f (1 + m * k) = .ok (i, true)) ∨
    (x.take (1 + m * k) ∉ path k m ∧ ∃ r, rank k x f (1 + m * k) = .ok (r, false)) := by
  intro m
  induction m with
  | zero =>
    intro f x hx hf
    obtain ⟨f, rfl⟩ : ∃ g, f = g + 1 := ⟨f - 1, by omega⟩
    cases x with
    | nil => simp at hx
    | cons a x =>
      left
      cases a
      · exact ⟨0, by simp [path], by simp [rank]⟩
      · exact ⟨1, by simp [path], by simp [rank]⟩
  | succ m ih =>
    intro f x hx hf
    obtain ⟨f, rfl⟩ : ∃ g, f = g + 1 := ⟨f - 1, by omega⟩
    have ihf := ih f x (by have e : 1 + (m + 1) * k = 1 + m * k + k := by ring
                           omega) (by omega)
    have hfin := final_spec k m hk x (by have e : 1 + (m + 1) * k = 1 + m * k + k := by ring
                                         omega)
    have hmem := mem_path_succ k m hk (x.take (1 + m * k)) ((x.drop (1 + m * k)).take k)
    have hget := path_get k m
    have hplen := path_length k m hk
    have hlast := path_last k m hk
    have hpos := path_pos k m
    have hdiv1 : (1 + (m + 1) * k - 1) / k = m + 1 := by
      rw [Nat.add_sub_cancel_left, Nat.mul_div_cancel _ (by omega)]
    have hdiv2 : (1 + m * k - 1) / k = m := by
      rw [Nat.add_sub_cancel_left, Nat.mul_div_cancel _ (by omega)]
    have e : 1 + (m + 1) * k = 1 + m * k + k := by ring
    have htake : x.take (1 + m * k + k) = x.take (1 + m * k) ++ (x.drop (1 + m * k)).take k := List.take_add
    rw [e] at hx hdiv1 ⊢
    clear e
    have hz0 : 1 ≤ 1 + m * k := by omega
    rw [rank, if_neg (by omega), if_neg (by omega)]
    rw [hdiv1, Nat.add_sub_cancel, hdiv2]
    obtain ⟨n0, a1, _, a3, a4, a5⟩ := runLen_spec x false (1 + m * k + k - 1) k 0 (by omega) (by omega)
    obtain ⟨n1, b1, _, b3, b4, b5⟩ := runLen_spec x true (1 + m * k + k - 1 - n0) (k - n0) 0 (by omega) (by omega)
    rw [a1]; dsimp only
    rw [b1]; dsimp only
    have hyl : (x.take (1 + m * k)).length = 1 + m * k := by simp; omega
    have htl : ((x.drop (1 + m * k)).take k).length = k := by simp; omega
    have hm := hmem hyl htl
    rw [htake]
    generalize hyy : x.take (1 + m * k) = y at *
    -- the last block, from the top
    have hbit : ∀ j, j < k → ((x.drop (1 + m * k)).take k)[k - 1 - j]? = x[1 + m * k + k - 1 - j]? := by
      intro j hj
      rw [List.getElem?_take_of_lt (by omega), List.getElem?_drop]
      congr 1; omega
    generalize htt : (x.drop (1 + m * k)).take k = t at *
    have hbit' : ∀ j, j < k → t[j]? = x[1 + m * k + j]? := by
      intro j hj
      have := hbit (k - 1 - j) (by omega)
      rw [show k - 1 - (k - 1 - j) = j by omega] at this
      rw [this]; congr 1; omega
    -- shape of the block
    have hshape : n0 + n1 = k → t = block k n1 := by
      intro h
      apply List.ext_getElem?
      intro j
      rw [block_get k n1 j (by omega)]
      by_cases h1 : j < n1
      · rw [if_pos h1, hbit' j (by omega)]
        have := b4 (n1 - 1 - j) (by omega) (by omega)
        rw [← this]; congr 1; omega
      · rw [if_neg h1]
        by_cases h2 : j < k
        · rw [if_pos h2, hbit' j h2]
          have := a4 (k - 1 - j) (by omega) (by omega)
          rw [← this]; congr 1; omega
        · rw [if_neg h2, List.getElem?_eq_none (by omega)]
    have hshape2 : n0 + n1 ≠ k → ∀ s, s ≤ k → t ≠ block k s := by
      intro h s hs heq
      have hn0 : n0 < k := by omega
      have h0 := a5 (by omega)
      -- bit at top minus n0 is one
      have c1 : (block k s)[k - 1 - n0]? = some true := by
        rw [← heq, hbit' _ (by omega), show 1 + m * k + (k - 1 - n0) = 1 + m * k + k - 1 - n0 by omega, h0]; rfl
      have c2 : (block k s)[k - 1 - n0 - n1]? = some false := by
        rw [← heq, hbit' _ (by omega), show 1 + m * k + (k - 1 - n0 - n1) = 1 + m * k + k - 1 - n0 - n1 by omega, b5 (by omega)]; rfl
      rw [block_get k s _ hs] at c1 c2
      split at c1
      · rw [if_pos (by omega)] at c2; simp at c2
      · split at c1 <;> simp at c1
    split
    · -- all zeros
      rename_i h0
      have ht0 : t = block k 0 := by
        have := hshape (by omega)
        rw [this]; congr 1; omega
      rcases ihf with ⟨i, q1, q2⟩ | ⟨q1, r, q2⟩
      · left
        exact ⟨i, by rw [ht0, block_zero]; exact hget.1 i y q1, q2⟩
      · right
        refine ⟨?_, r, q2⟩
        rw [hm]
        rintro (⟨_, h⟩ | ⟨s, h1, h2, h3, _⟩ | ⟨_, h⟩)
        · exact q1 h
        · rw [ht0] at h3
          have : (block k 0)[0]? = (block k s)[0]? := by rw [h3]
          rw [block_get _ _ _ (by omega), block_get _ _ _ (by omega), if_neg (by omega), if_pos (by omega), if_pos (by omega)] at this
          simp at this
        · exact q1 h
    · rename_i h0
      split
      · -- all ones
        rename_i h1
        have ht1 : t = block k k := by rw [← h1]; have := hshape (by omega); rw [h1] at this ⊢; exact this
        rcases ihf with ⟨i, q1, q2⟩ | ⟨q1, r, q2⟩
        · left
          have hi : i < (path k m).length := (List.getElem?_eq_some_iff.1 q1).1
          refine ⟨(path k m).length + (k - 1) + ((path k m).length - 1 - i), ?_, ?_⟩
          · rw [ht1, block_full]; exact hget.2.2 i y q1
          · rw [q2]
            simp only [Except.ok.injEq, Prod.mk.injEq, and_true]
            rw [pow_succ]
            generalize hw : (k + 1) * 2 ^ m = w at hplen
            have : (k + 1) * (2 ^ m * 2) = 2 * w := by rw [← hw]; ring
            omega
        · right
          refine ⟨?_, _, by rw [q2]⟩
          rw [hm]
          rintro (⟨_, h⟩ | ⟨s, h1', h2, h3, _⟩ | ⟨_, h⟩)
          · exact q1 h
          · rw [ht1] at h3
            have : (block k k)[s]? = (block k s)[s]? := by rw [h3]
            rw [block_get _ _ _ (by omega), block_get _ _ _ (by omega), if_pos (by omega), if_neg (by omega), if_pos (by omega)] at this
            simp at this
          · exact q1 h
      · rename_i h1
        split
        · -- bridge
          rename_i h2
          have hts := hshape h2
          have hn1 : 1 ≤ n1 := by omega
          have hn1k : n1 < k := by
            rcases Nat.lt_or_ge n1 k with h | h
            · exact h
            · exact absurd (by omega) h1
          rw [hfin]
          by_cases hy : y = endPt k m
          · left
            refine ⟨(path k m).length + (n1 - 1), ?_, ?_⟩
            · rw [hts, hy, hget.2.1 (n1 - 1) (by omega), block]
              congr 4 <;> omega
            · rw [decide_eq_true hy]
              simp only [Except.ok.injEq, Prod.mk.injEq, and_true]
              generalize (k + 1) * 2 ^ m = w at hplen
              omega
          · right
            refine ⟨?_, 0, by rw [decide_eq_false hy]⟩
            rw [hm, hts]
            rintro (⟨h, _⟩ | ⟨s, _, _, _, h⟩ | ⟨h, _⟩)
            · have : (block k n1)[0]? = (block k 0)[0]? := by rw [h]
              rw [block_get _ _ _ (by omega), block_get _ _ _ (by omega), if_pos (by omega), if_neg (by omega), if_pos (by omega)] at this
              simp at this
            · exact hy h
            · have : (block k n1)[n1]? = (block k k)[n1]? := by rw [h]
              rw [block_get _ _ _ (by omega), block_get _ _ _ (by omega), if_neg (by omega), if_pos (by omega), if_pos (by omega)] at this
              simp at this
        · rename_i h2
          right
          refine ⟨?_, 0, rfl⟩
          rw [hm]
          rintro (⟨h, _⟩ | ⟨s, _, h3, h, _⟩ | ⟨h, _⟩)
          · exact hshape2 h2 0 (by omega) h
          · exact hshape2 h2 s (by omega) h
          · exact hshape2 h2 k le_rfl h

/-- What the evaluation computes in dimension `1 + m k`: on the path, the dimension plus the rank on the path; off
the path the number of zeros, which is smaller. -/
theorem C209_fitness (k m : Nat) (hk : 1 ≤ k) (x : List Bool) (hx : x.length = 1 + m * k) :
    (∀ i, (path k m)[i]? = some x → fitness k x = .ok (x.length + i)) ∧
    (x ∉ path k m → fitness k x = .ok (x.countP (· == false)) ∧ x.countP (· == false) < x.length) := by
  have hml : m < x.length + 1 := by
    have : m * 1 ≤ m * k := Nat.mul_le_mul_left m hk
    omega
  have h := rank_spec k hk m (x.length + 1) x (by omega) hml
  rw [← hx, List.take_length] at h
  constructor
  · intro i hi
    rcases h with ⟨j, q1, q2⟩ | ⟨q1, _⟩
    · have : i = j := path_inj k m hk i j x hi q1
      subst this
      simp [fitness, q2]
    · exact absurd (List.mem_of_getElem? hi) q1
  · intro hn
    rcases h with ⟨j, q1, q2⟩ | ⟨q1, r, q2⟩
    · exact absurd (List.mem_of_getElem? q1) hn
    · refine ⟨by simp [fitness, q2, nbZero], ?_⟩
      rcases Nat.lt_or_ge (x.countP (· == false)) x.length with h | h
      · exact h
      · exfalso
        apply hn
        have h2 : x.countP (· == false) = x.length := le_antisymm List.countP_le_length h
        rw [List.countP_eq_length] at h2
        have : x = List.replicate (1 + m * k) false := by
          rw [List.eq_replicate_iff]
          exact ⟨hx, fun b hb => by simpa using h2 b hb⟩
        rw [this]
        exact List.mem_of_getElem? (path_first k m)

/-- Flipping one bit. -/
def flipAt (x : List Bool) (i : Nat) : List Bool := x.set i (!(x.getD i false))

theorem ham_one : ∀ x y : List Bool, x.length = y.length → ham x y = 1 → ∃ i, i < x.length ∧ y = flipAt x i
  | [], [], _, h => by simp [ham] at h
  | [], _ :: _, h, _ => by simp at h
  | _ :: _, [], h, _ => by simp at h
  | a :: x, b :: y, h, h1 => by
    simp only [ham] at h1
    split at h1
    · rename_i hab
      obtain ⟨i, q1, q2⟩ := ham_one x y (by simpa using h) (by omega)
      refine ⟨i + 1, by simpa using q1, ?_⟩
      subst hab
      simp only [flipAt, List.set_cons_succ, List.getD_cons_succ]
      rw [q2, flipAt]
    · rename_i hab
      have := ham_zero x y (by simpa using h) (by omega)
      subst this
      refine ⟨0, by simp, ?_⟩
      cases a <;> cases b <;> simp_all [flipAt]

theorem flip_ham : ∀ (x : List Bool) (i : Nat), i < x.length → ham x (flipAt x i) = 1
  | [], i, h => by simp at h
  | a :: x, 0, _ => by simp [flipAt, ham, ham_self]
  | a :: x, i + 1, h => by
    have := flip_ham x i (by simpa using h)
    simp only [flipAt, List.set_cons_succ, List.getD_cons_succ, ham] at this ⊢
    rw [this, if_pos trivial]

theorem flip_count : ∀ (x : List Bool) (i : Nat), x[i]? = some true →
    (flipAt x i).countP (· == false) = x.countP (· == false) + 1
  | [], i, h => by simp at h
  | a :: x, 0, h => by simp at h; subst h; simp [flipAt]
  | a :: x, i + 1, h => by
    have := flip_count x i (by simpa using h)
    simp only [flipAt, List.set_cons_succ, List.getD_cons_succ, List.countP_cons] at this ⊢
    rw [this]; omega

/-- The end of the path is the only best point, and every other point has a better neighbour by one flip: a
strict hill climber cannot be stuck elsewhere. -/
theorem C209_climb (k m : Nat) (hk : 1 ≤ k) (x : List Bool) (hx : x.length = 1 + m * k) (hne : x ≠ endPt k m) :
    ∃ v w, fitness k x = .ok v ∧ fitness k (endPt k m) = .ok w ∧ v < w ∧ w = 1 + m * k + ((k + 1) * 2 ^ m - k) ∧
      ∃ i u, i < x.length ∧ fitness k (flipAt x i) = .ok u ∧ v < u := by
  have hpos := path_pos k m
  have hlast := path_last k m hk
  have hlen := path_length k m hk
  have hend := (C209_fitness k m hk (endPt k m) (endPt_length k m)).1 _ hlast
  rw [endPt_length] at hend
  have hw : 1 + m * k + ((path k m).length - 1) = 1 + m * k + ((k + 1) * 2 ^ m - k) := by
    generalize (k + 1) * 2 ^ m = z at hlen; omega
  by_cases hmem : x ∈ path k m
  · obtain ⟨i, hi⟩ := List.mem_iff_getElem?.1 hmem
    have hil : i < (path k m).length := (List.getElem?_eq_some_iff.1 hi).1
    have hilast : i ≠ (path k m).length - 1 := by
      rintro rfl
      rw [hlast] at hi
      exact hne (by simpa using hi.symm)
    have hf := (C209_fitness k m hk x hx).1 i hi
    have hnext : (path k m)[i + 1]? = some (path k m)[i + 1] := List.getElem?_eq_getElem (by omega)
    obtain ⟨q1, q2⟩ := C209_distance k m hk i (i + 1) x _ (by omega) hi hnext
    have hyl := path_dim k m hk _ (List.mem_of_getElem? hnext)
    have hfy := (C209_fitness k m hk _ hyl).1 _ hnext
    refine ⟨_, _, hf, hend, by omega, hw, ?_⟩
    by_cases h1 : i + 1 - i < k
    · obtain ⟨j, hj1, hj2⟩ := ham_one x _ (by omega) ((q1 h1).trans (by omega))
      exact ⟨j, _, hj1, by rw [← hj2]; exact hfy, by omega⟩
    · -- k = 1: neighbours on the path differ in one bit all the same
      have hk1 : k = 1 := by omega
      subst hk1
      have hone : ham x (path 1 m)[i + 1] = 1 := by
        have key : ∀ (m i : Nat) (x y : List Bool), (path 1 m)[i]? = some x → (path 1 m)[i + 1]? = some y → ham x y = 1 := by
          intro m
          induction m with
          | zero =>
            intro i x y h1 h2
            have hi2 : i + 1 < 2 := (List.getElem?_eq_some_iff.1 h2).1
            have : i = 0 := by omega
            subst this
            simp [path] at h1 h2; subst h1; subst h2; rfl
          | succ m ih =>
            intro i x y h1 h2
            have hdim := path_dim 1 m (le_refl 1)
            have hpos := path_pos 1 m
            have hmem : ∀ (i : Nat) (u : List Bool), (path 1 m)[i]? = some u → u.length = 1 + m * 1 ∧ i < (path 1 m).length :=
              fun i u hu => ⟨hdim u (List.mem_of_getElem? hu), (List.getElem?_eq_some_iff.1 hu).1⟩
            rcases path_cases 1 m i x h1 with ⟨u, hu, rfl⟩ | ⟨s, hs, hi, rfl⟩ | ⟨i', u, hu, hi, rfl⟩ <;>
            rcases path_cases 1 m (i + 1) y h2 with ⟨v, hv, rfl⟩ | ⟨t, ht, hj, rfl⟩ | ⟨j', v, hv, hj, rfl⟩
            · have := hmem _ _ hu; have := hmem _ _ hv
              rw [ham_append _ _ _ _ (by omega), ham_self, ih i u v hu hv]
            · omega
            · have := hmem _ _ hu; have := hmem _ _ hv
              have hij : i = j' := by omega
              subst hij
              rw [hu] at hv; cases hv
              rw [ham_append _ _ _ _ rfl, ham_self]; rfl
            · omega
            · omega
            · omega
            · have := hmem _ _ hv; omega
            · omega
            · have := hmem _ _ hu; have := hmem _ _ hv
              have hij : i' = j' + 1 := by omega
              subst hij
              rw [ham_append _ _ _ _ (by omega), ham_self, ham_comm, ih j' v u hv hu]
        exact key m i x _ hi hnext
      obtain ⟨j, hj1, hj2⟩ := ham_one x _ (by omega) hone
      exact ⟨j, _, hj1, by rw [← hj2]; exact hfy, by omega⟩
  · obtain ⟨q1, q2⟩ := (C209_fitness k m hk x hx).2 hmem
    refine ⟨_, _, q1, hend, by omega, hw, ?_⟩
    -- some bit is one
    obtain ⟨i, hi⟩ : ∃ i, x[i]? = some true := by
      by_contra hno
      push Not at hno
      have : x.countP (· == false) = x.length := by
        rw [List.countP_eq_length]
        intro b hb
        obtain ⟨i, hi⟩ := List.mem_iff_getElem?.1 hb
        cases b
        · rfl
        · exact absurd hi (hno i)
      omega
    have hil : i < x.length := (List.getElem?_eq_some_iff.1 hi).1
    have hfl : (flipAt x i).length = 1 + m * k := by simp [flipAt, hx]
    have hc := flip_count x i hi
    by_cases hm2 : flipAt x i ∈ path k m
    · obtain ⟨j, hj⟩ := List.mem_iff_getElem?.1 hm2
      exact ⟨i, _, hil, (C209_fitness k m hk _ hfl).1 j hj, by omega⟩
    · exact ⟨i, _, hil, ((C209_fitness k m hk _ hfl).2 hm2).1, by omega⟩

/-- With `k` at least 2 a point of the path has only one better neighbour by one flip, the next point: a strict
hill climber from the all-zero point makes exactly `(k + 1) 2 ^ m - k` steps. -/
theorem C209_no_shortcut (k m : Nat) (hk : 2 ≤ k) (i j : Nat) (x : List Bool) (u : Nat)
    (hx : (path k m)[i]? = some x) (hj : j < x.length) (hu : fitness k (flipAt x j) = .ok u) (h : x.length + i < u) :
    (path k m)[i + 1]? = some (flipAt x j) := by
  have hxl := path_dim k m (by omega) x (List.mem_of_getElem? hx)
  have hfl : (flipAt x j).length = 1 + m * k := by simp [flipAt, hxl]
  by_cases hm : flipAt x j ∈ path k m
  · obtain ⟨i', hi'⟩ := List.mem_iff_getElem?.1 hm
    have := (C209_fitness k m (by omega) _ hfl).1 i' hi'
    rw [this, Except.ok.injEq] at hu
    have hlt : i < i' := by omega
    obtain ⟨q1, q2⟩ := C209_distance k m (by omega) i i' x _ hlt.le hx hi'
    rw [flip_ham x j hj] at q1 q2
    have : i' = i + 1 := by
      by_contra hne
      rcases Nat.lt_or_ge (i' - i) k with h | h
      · have := q1 h; omega
      · have := q2 h; omega
    rw [← this]; exact hi'
  · obtain ⟨q1, q2⟩ := (C209_fitness k m (by omega) _ hfl).2 hm
    rw [q1, Except.ok.injEq] at hu
    omega

/-- Only dimensions `1 + m k` make sense; for others the evaluation can read outside the solution. -/
theorem C209_other_dimension : fitness 2 [false, false] = .error .ub ∧ fitness 3 [true, true] = .error .ub ∧
    fitness 0 [true, true] = .error .fuel := ⟨rfl, rfl, rfl⟩

example : (path 3 2).length = 14 ∧ fitness 3 [false, true, true, true, true, false, false] = .ok 13 ∧
    fitness 3 [false, false, false, false, true, true, true] = .ok 20 ∧
    fitness 3 [true, false, true, false, true, true, true] = .ok 2 := ⟨rfl, rfl, rfl, rfl⟩

end Paradiseo.LongPath
