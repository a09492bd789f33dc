/-
Properties C09–C17 and C62–C64: neighbourhood enumeration, keys and moves.
-/
import Verif.Lemmas.Neighborhood
import Mathlib.Analysis.Real.Sqrt
import Mathlib.Data.List.GetD
import Mathlib.Algebra.Order.Floor.Semifield

namespace Paradiseo.Nbh

/-! ### C09 -/

/-- C09: exploration of an ordered neighbourhood of `size` neighbours uses the keys
`0, 1, …, size-1` in this order, and stops. -/
theorem C09_order_enumerates (size : Nat) (h0 : 0 < size) (h : size < 2 ^ 32) (fuel : Nat)
    (hf : size ≤ fuel) : ∃ e, orderExplore size fuel = .ok (List.range size, e) := by
  have := order_visit size h0 h (size - 1) 0 (by omega)
  rw [show size - 1 + 1 = size by omega] at this
  exact ⟨_, by rw [List.range_eq_range']; exact visit_fuel this fuel hf⟩

/-- An empty neighbourhood is announced by `hasNeighbor`; exploring it regardless does not stop
after the first neighbour (the bound wraps around). -/
theorem C09_order_empty : orderHas 0 = false ∧ orderCont 0 orderInit = true := by decide

/-- C09: `hasNeighbor` of an ordered neighbourhood holds exactly when there is a neighbour. -/
theorem C09_order_has (size : Nat) : orderHas size = true ↔ ∃ k, k < size :=
  ⟨fun h => ⟨0, by simpa [orderHas] using h⟩, fun ⟨k, h⟩ => by
    simp only [orderHas, decide_eq_true_eq]; omega⟩

example : orderExplore 4 10 = .ok ([0, 1, 2, 3], 3) := by rfl

/-! ### C10 -/

/-- C10: whatever the random stream and whatever the order left in the index vector by earlier
explorations, one exploration uses every key of the index vector exactly once, and leaves the
index vector a rearrangement of itself. -/
theorem C10_rnd_enumerates (r : Nat → Nat) (size : Nat) (s : RndState) (h0 : 0 < size)
    (hs : s.indexVector.Perm (List.range size)) (fuel : Nat) (hf : size ≤ fuel) :
    ∃ L e, rndExplore r size fuel s = .ok (L, e) ∧ L.Perm (List.range size) ∧
      e.indexVector.Perm (List.range size) := by
  have hlen : s.indexVector.length = size := by simpa using hs.length_eq
  obtain ⟨s', h1, h2, h3, _, h5⟩ := rndNext_ok r { s with maxIndex := size } h0 (by simp [hlen])
  have hlen' : s'.indexVector.length = size := by rw [h2.length_eq]; exact hlen
  simp only at h3 h5
  have hd0 : s.indexVector.drop size = [] := by rw [← hlen]; simp
  have hd1 : s'.indexVector.drop size = [] := by rw [← hlen']; simp
  obtain ⟨L, e, g1, g2, g3, g4, g5⟩ := rnd_visit r rndCont 0
    (fun t _ => by simp [rndCont]) (size - 1) s' (by omega) (by omega)
    (by rw [h3, h5, show size - 1 + 1 = size by omega, hd0, hd1])
  refine ⟨L, e, ?_, ?_, (g2.trans h2).trans hs⟩
  · have : rndExplore r size fuel s = visit (rndNext r) rndCont (·.key) fuel s' := by
      simp only [rndExplore, rndInit, h1]; rfl
    rw [this]
    exact visit_fuel g1 fuel (by omega)
  · have e1 : e.indexVector = L.reverse := by
      have := g5
      rw [h3, show size - 1 + 1 = size by omega, hd1] at this
      simpa using this
    have e2 : L.reverse.Perm (List.range size) := e1 ▸ (g2.trans h2).trans hs
    exact (List.reverse_perm L).symm.trans e2

/-- The index vector built by the constructor meets the hypothesis. -/
theorem C10_new (size t : Nat) : (rndNew size t).indexVector.Perm (List.range size) :=
  List.Perm.refl _

example : ∃ e, rndExplore (fun t => 7 * t + 3) 4 10 (rndNew 4 0) = .ok ([3, 1, 2, 0], e) :=
  ⟨_, rfl⟩

/-! ### C11 -/

/-- C11: with a positive bound on the number of neighbours, exactly that many keys are drawn, all
in range. -/
theorem C11_repl_draws (r : Nat → Nat) (size m t : Nat) (h0 : 0 < size) (hm : 0 < m) (fuel : Nat)
    (hf : m ≤ fuel) : ∃ L e, replExplore r size m t fuel = .ok (L, e) ∧ L.length = m ∧
      ∀ k ∈ L, k < size := by
  obtain ⟨L, e, h1, h2, h3⟩ := repl_visit r size m h0 (m - 1) (replInit r size t)
    (by simp [replInit]; omega) (by simp [replInit]) (Nat.mod_lt _ h0)
  exact ⟨L, e, visit_fuel h1 fuel (by omega), by omega, h3⟩

/-- Without a bound (the default), the exploration never ends by itself. -/
theorem C11_repl_unbounded (r : Nat → Nat) (size t : Nat) (h0 : 0 < size) (fuel : Nat) :
    replExplore r size 0 t fuel = .error .outOfFuel :=
  visit_never (fun s => by simp [replCont, h0]) (fun s => ⟨_, rfl⟩) fuel _

example : ∃ e, replExplore (fun t => t * t) 5 4 0 9 = .ok ([0, 1, 4, 4], e) := ⟨_, rfl⟩

/-! ### C12 -/

/-- C12: exploration of the swap (or 2-opt) neighbourhood of a solution of size `n ≥ 2` uses every
pair of positions `i < j < n` exactly once. -/
theorem C12_swap_enumerates (n : Nat) (hn : 2 ≤ n) :
    ∃ fuel L e, (∀ m, fuel ≤ m → swapExplore n m = .ok (L, e)) ∧ L.Nodup ∧
      ∀ p : Nat × Nat, p ∈ L ↔ p.1 < p.2 ∧ p.2 < n := by
  obtain ⟨f, hf⟩ := swap_visit n hn (n - 2) 0 (by omega)
  refine ⟨f, rowsFrom n 0, _, fun m hm => visit_fuel hf m hm, nodup_rowsFrom n 0, ?_⟩
  intro p; rw [mem_rowsFrom]; omega

example : swapExplore 3 10 = .ok ([(0, 1), (0, 2), (1, 2)], (1, 2)) := by rfl

/-! ### C13 -/

/-- The truncated floating expression of the code, with an exact square root, is the natural
number used in the model (as long as `8 * key` does not wrap around). -/
theorem C13_sqrt_floor (key : Nat) (hb : 1 + 8 * key < 2 ^ 32) :
    ⌊(1 + Real.sqrt (1 + 8 * (key : ℝ))) / 2⌋₊ = swapRow key := by
  unfold swapRow
  rw [Nat.mod_eq_of_lt hb]
  have h1 : Nat.sqrt (1 + 8 * key) = ⌊Real.sqrt (1 + 8 * (key : ℝ))⌋₊ := by
    have := Real.nat_floor_real_sqrt_eq_nat_sqrt (a := 1 + 8 * key)
    rw [← this]; push_cast; rfl
  rw [h1]
  have h2 : (1 + Real.sqrt (1 + 8 * (key : ℝ))) / 2
      = (Real.sqrt (1 + 8 * (key : ℝ)) + ((1 : ℕ) : ℝ)) / ((2 : ℕ) : ℝ) := by push_cast; ring
  rw [h2, Nat.floor_div_natCast, Nat.floor_add_natCast (Real.sqrt_nonneg _), Nat.add_comm]

theorem tri_even (n : Nat) : n * (n - 1) / 2 * 2 = n * (n - 1) :=
  Nat.div_mul_cancel (Nat.even_mul_pred_self n).two_dvd

/-- C13: keys `0 … n(n-1)/2 - 1` decode to pairs `first < second < n`, and `set` recovers the key;
every such pair is obtained, from the key computed by `set`. So decoding is a bijection. -/
theorem C13_swap_key_bijection (n : Nat) (hn : 2 ≤ n) (hb : 1 + 8 * (n * (n - 1) / 2) < 2 ^ 32) :
    (∀ key < n * (n - 1) / 2, (swapIndex n key).1 < (swapIndex n key).2 ∧
      (swapIndex n key).2 < n ∧ swapKey n (swapIndex n key).1 (swapIndex n key).2 = key) ∧
    (∀ f s, f < s → s < n → swapKey n f s < n * (n - 1) / 2 ∧
      swapIndex n (swapKey n f s) = (f, s)) := by
  have hT := tri_even n
  constructor
  · intro key hkey
    obtain ⟨a, b, c⟩ := swapRow_spec key (by omega)
    set m := swapRow key with hm
    have hmn : m < n := by
      by_contra hcon
      have h1 : n * (n - 1) ≤ m * (m - 1) := Nat.mul_le_mul (by omega) (by omega)
      omega
    have hTm := tri_even m
    have hTm' : (m - 1) * m / 2 = m * (m - 1) / 2 := by rw [Nat.mul_comm]
    have hexp : m * (m + 1) = m * (m - 1) + 2 * m := by
      obtain ⟨k, hk⟩ : ∃ k, m = k + 1 := ⟨m - 1, by omega⟩
      rw [hk]; simp; ring
    simp only [swapIndex, ← hm, hTm']
    have hfirst : key - m * (m - 1) / 2 ≤ m - 1 := by omega
    refine ⟨by omega, by omega, ?_⟩
    have hrow : n + (key - m * (m - 1) / 2) - (n - 1 - (m - 1 - (key - m * (m - 1) / 2))) = m := by
      omega
    simp only [swapKey, hrow]
    omega
  · intro f s hfs hsn
    set m := n + f - s with hm
    have hTm := tri_even m
    have hexp : m * (m + 1) = m * (m - 1) + 2 * m := by
      obtain ⟨k, hk⟩ : ∃ k, m = k + 1 := ⟨m - 1, by omega⟩
      rw [hk]; simp; ring
    have hlt : swapKey n f s < n * (n - 1) / 2 := by
      simp only [swapKey, ← hm]
      have h1 : (m + 1) * m ≤ n * (n - 1) := Nat.mul_le_mul (by omega) (by omega)
      rw [Nat.mul_comm (m + 1)] at h1
      omega
    refine ⟨hlt, ?_⟩
    have hkey : swapKey n f s = f + m * (m - 1) / 2 := rfl
    have hrow : swapRow (swapKey n f s) = m :=
      swapRow_unique (by omega) (by omega) (by omega) (by omega)
    simp only [swapIndex, hrow]
    rw [hkey, Nat.mul_comm (m - 1) m]
    ext1 <;> simp <;> omega

/-- Beyond the 32-bit range of `8 * key` decoding is wrong: the first position is out of the
solution (size 40000, a legal key). -/
theorem C13_overflow : 2 ^ 29 < 40000 * (40000 - 1) / 2 ∧ 40000 ≤ (swapIndex 40000 (2 ^ 29)).1 := by
  have h : Nat.sqrt 1 = 1 := by norm_num
  have h2 : swapRow (2 ^ 29) = 1 := by
    unfold swapRow
    rw [show (1 + 8 * 2 ^ 29) % 2 ^ 32 = 1 from by norm_num, h]
  constructor
  · norm_num
  · simp only [swapIndex, h2]; norm_num

example : swapKey 5 1 3 = 4 ∧ 1 + 8 * (5 * (5 - 1) / 2) < 2 ^ 32 := by decide

/-! ### C14 -/

/-- C14: keys `0 … n(n-1)-1` decode to (first, second) with `first < n`, `second ≤ n`, `second`
neither `first` nor `first+1` (an insertion which changes something), `set` recovers the key, and
every such pair is obtained. -/
theorem C14_shift_key_bijection (n : Nat) (hn : 0 < n) :
    (∀ key < n * (n - 1), (shiftIndex n key).1 < n ∧ (shiftIndex n key).2 ≤ n ∧
      (shiftIndex n key).2 ≠ (shiftIndex n key).1 ∧ (shiftIndex n key).2 ≠ (shiftIndex n key).1 + 1 ∧
      shiftKey n (shiftIndex n key).1 (shiftIndex n key).2 = key) ∧
    (∀ f s, f < n → s ≤ n → s ≠ f → s ≠ f + 1 →
      shiftKey n f s < n * (n - 1) ∧ shiftIndex n (shiftKey n f s) = (f, s)) := by
  constructor
  · intro key hkey
    have h1 : key % n < n := Nat.mod_lt _ hn
    have h2 : key / n < n - 1 := Nat.div_lt_of_lt_mul hkey
    have h3 : key / n * n + key % n = key := by rw [Nat.mul_comm]; exact Nat.div_add_mod key n
    unfold shiftIndex
    by_cases h : key % n ≤ key / n
    · simp only [h, if_true]
      refine ⟨h1, by omega, by omega, by omega, ?_⟩
      have : key % n < key / n + 2 := by omega
      simp only [shiftKey, this, if_true, Nat.add_sub_cancel]; exact h3
    · simp only [h, if_false]
      refine ⟨h1, by omega, by omega, by omega, ?_⟩
      have : ¬ key % n < key / n := by omega
      simp only [shiftKey, this, if_false]; exact h3
  · intro f s hf hs hne hne'
    have hdm : ∀ a, (a * n + f) / n = a ∧ (a * n + f) % n = f := by
      intro a
      constructor
      · rw [Nat.mul_comm, Nat.mul_add_div hn, Nat.div_eq_of_lt hf]; rfl
      · rw [Nat.mul_comm, Nat.mul_add_mod, Nat.mod_eq_of_lt hf]
    have hbd : ∀ a, a ≤ n - 2 → 2 ≤ n → a * n + f < n * (n - 1) := by
      intro a ha h2
      have h3 : a * n ≤ (n - 2) * n := Nat.mul_le_mul_right n ha
      have h4 : n * (n - 1) = (n - 2) * n + n := by
        obtain ⟨k, rfl⟩ : ∃ k, n = k + 2 := ⟨n - 2, by omega⟩
        simp; ring
      omega
    by_cases h : f < s
    · simp only [shiftKey, h, if_true]
      refine ⟨hbd _ (by omega) (by omega), ?_⟩
      simp only [shiftIndex, hdm]
      have : f ≤ s - 2 := by omega
      simp only [this, if_true]
      ext1 <;> simp; omega
    · simp only [shiftKey, h, if_false]
      refine ⟨hbd _ (by omega) (by omega), ?_⟩
      simp only [shiftIndex, hdm]
      have : ¬ f ≤ s := by omega
      simp only [this, if_false]

/-- With only `(n-1)²` keys (the size used for this neighbourhood in
mo/tutorial/Lesson5/testILS.cpp) some insertions are never reached: `1 → end` for `n = 4`. -/
theorem C14_square_misses : ∀ key < (4 - 1) * (4 - 1), shiftIndex 4 key ≠ (1, 4) := by decide

example : shiftIndex 5 7 = (2, 1) ∧ shiftIndex 5 12 = (2, 4) := by decide

/-! ### C15 -/

variable {α : Type}

/-- Legal swap parameters restore and rearrange. -/
theorem C15_swap (n : Nat) (a : Nat → α) (i j : Nat) (hi : i < n) (hj : j < n) :
    swapMove (swapMove a i j) i j = a ∧
    ((List.range n).map (swapMove a i j)).Perm ((List.range n).map a) ∧
    swapMove a i j i = a j ∧ swapMove a i j j = a i ∧
    ∀ k, k ≠ i → k ≠ j → swapMove a i j k = a k := by
  refine ⟨?_, ?_, ?_, ?_, ?_⟩
  · funext k
    simp only [swapMove_apply]
    by_cases h1 : k = j
    · subst h1; by_cases h2 : i = k <;> simp [h2]
    · by_cases h2 : k = i
      · subst h2; simp [h1]
      · simp [h1, h2]
  · let σ : Nat → Nat := fun k => if k = j then i else if k = i then j else k
    have hσσ : ∀ k, σ (σ k) = k := by
      intro k; simp only [σ]
      by_cases h1 : k = j
      · subst h1; by_cases h2 : i = k <;> simp [h2]
      · by_cases h2 : k = i
        · subst h2; simp
        · simp [h1, h2]
    have hσn : ∀ k < n, σ k < n := by
      intro k hk; simp only [σ]; split_ifs <;> omega
    refine perm_of_index_maps n a _ σ σ hσn hσn (fun k _ => hσσ k) ?_ (fun k _ => hσσ k)
    intro k _
    simp only [swapMove_apply, σ]
    split_ifs <;> rfl
  · simp only [swapMove_apply]; by_cases h : i = j <;> simp [h]
  · simp [swapMove_apply]
  · intro k h1 h2; simp [swapMove_apply, h1, h2]

/-- Shift: the element at `first` is taken out and put back just before the position `second`
(specification: `eraseIdx` then `insertIdx` on the list of the first `n` cells). -/
theorem C15_shift_spec (n : Nat) (a : Nat → α) (f s : Nat) (hf : f < n) (hs : s ≤ n) :
    (List.range n).map (shiftMove a (f, s))
      = (((List.range n).map a).eraseIdx f).insertIdx (if f < s then s - 1 else s) (a f) := by
  apply List.ext_getElem?
  intro j
  have hlen : ((List.range n).map a).length = n := by simp
  by_cases h : f < s
  · simp only [shiftMove, h, if_true]
    rw [List.getElem?_insertIdx]
    by_cases hj : j < n
    · rw [List.getElem?_eq_getElem (by simpa using hj)]
      simp only [List.getElem_map, List.getElem_range, insertion_fwd a h]
      by_cases h1 : j + 1 = s
      · rw [if_pos h1, if_neg (by omega), if_pos (by omega), if_pos (by
          rw [List.length_eraseIdx_of_lt (by omega)]; omega)]
      · rw [if_neg h1]
        by_cases h2 : j < s - 1
        · rw [if_pos h2, List.getElem?_eraseIdx]
          by_cases h3 : j < f
          · rw [if_pos h3, if_neg (by omega), List.getElem?_eq_getElem (by simpa using hj)]; simp
          · rw [if_neg h3, if_pos (by omega), List.getElem?_eq_getElem (by simp; omega)]; simp
        · rw [if_neg (by omega), if_neg h2, if_neg (by omega), List.getElem?_eraseIdx,
            if_neg (by omega), show j - 1 + 1 = j by omega,
            List.getElem?_eq_getElem (by simpa using hj)]; simp
    · rw [List.getElem?_eq_none (by simp; omega), if_neg (by omega), if_neg (by omega),
        List.getElem?_eraseIdx, if_neg (by omega), List.getElem?_eq_none (by simp; omega)]
  · simp only [shiftMove, h, if_false]
    rw [List.getElem?_insertIdx]
    by_cases hj : j < n
    · rw [List.getElem?_eq_getElem (by simpa using hj)]
      simp only [List.getElem_map, List.getElem_range, insertion_bwd a (show s ≤ f by omega)]
      by_cases h1 : j = s
      · rw [if_pos h1, if_neg (by omega), if_pos h1, if_pos (by
          rw [List.length_eraseIdx_of_lt (by omega)]; omega)]
      · rw [if_neg h1]
        by_cases h2 : j < s
        · rw [if_neg (by omega), if_pos h2, List.getElem?_eraseIdx, if_pos (by omega),
            List.getElem?_eq_getElem (by simpa using hj)]; simp
        · rw [if_neg h2, if_neg h1, List.getElem?_eraseIdx]
          by_cases h3 : j - 1 < f
          · rw [if_pos (by omega), if_pos h3, List.getElem?_eq_getElem (by simp; omega)]; simp
          · rw [if_neg (by omega), if_neg h3, show j - 1 + 1 = j by omega,
              List.getElem?_eq_getElem (by simpa using hj)]; simp
    · rw [List.getElem?_eq_none (by simp; omega), if_neg (by omega), if_neg (by omega),
        List.getElem?_eraseIdx, if_neg (by omega), List.getElem?_eq_none (by simp; omega)]

/-- Shift: `moveBack` restores the solution, and the move rearranges it. -/
theorem C15_shift (n : Nat) (a : Nat → α) (f s : Nat) (hf : f < n) (hs : s ≤ n) :
    shiftMoveBack (shiftMove a (f, s)) (f, s) = a ∧
    ((List.range n).map (shiftMove a (f, s))).Perm ((List.range n).map a) := by
  constructor
  · funext j
    by_cases h : f < s
    · simp only [shiftMove, shiftMoveBack, h, if_true]
      rw [insertion_bwd _ (by omega)]
      simp only [insertion_fwd a h]
      by_cases h1 : j = f
      · subst h1; rw [if_pos rfl, if_pos (by omega)]
      · rw [if_neg h1]
        by_cases h2 : f < j ∧ j ≤ s - 1
        · rw [if_pos h2, if_neg (by omega), if_pos (by omega), show j - 1 + 1 = j by omega]
        · rw [if_neg h2, if_neg (by omega), if_neg (by omega)]
    · simp only [shiftMove, shiftMoveBack, h, if_false]
      rw [insertion_fwd _ (show s < f + 1 by omega)]
      simp only [insertion_bwd a (show s ≤ f by omega)]
      by_cases h1 : j = f
      · subst h1; rw [if_pos rfl, if_pos trivial]
      · rw [if_neg (by omega)]
        by_cases h2 : s ≤ j ∧ j + 1 < f + 1
        · rw [if_pos h2, if_neg (by omega), if_pos (by omega), Nat.add_sub_cancel]
        · rw [if_neg h2, if_neg (by omega), if_neg (by omega)]
  · rw [C15_shift_spec n a f s hf hs]
    have hl : f < ((List.range n).map a).length := by simpa using hf
    have h1 := List.perm_insertIdx (a f) (((List.range n).map a).eraseIdx f)
      (i := if f < s then s - 1 else s) (by
        rw [List.length_eraseIdx_of_lt hl]; simp only [List.length_map, List.length_range]; split_ifs <;> omega)
    refine h1.trans ?_
    have h2 := List.getElem_cons_eraseIdx_perm hl
    simpa using h2

private theorem foldlM_some {β γ : Type} (g : β → γ → β) (h : β → γ → Option β) (l : List γ) (b : β)
    (H : ∀ b, ∀ c ∈ l, h b c = some (g b c)) : l.foldlM h b = some (l.foldl g b) := by
  induction l generalizing b with
  | nil => rfl
  | cons c l ih =>
    rw [List.foldlM_cons, H b c (by simp)]
    simpa using ih (g b c) (fun b c hc => H b c (by simp [hc]))

/-- Shift: for the positions of a key (`first < n`, `second ≤ n`) the move reads and writes only
inside the vector, and it computes the move specified above. -/
theorem C15_shift_in_bounds (n : Nat) (a : Nat → α) (f s : Nat) (hf : f < n) (hs : s ≤ n) :
    insertionChecked n a f s = some (shiftMove a (f, s)) := by
  unfold insertionChecked shiftMove insertion
  have h0 : rd n a f = some (a f) := by simp [rd, hf]
  simp only [h0, Option.bind_eq_bind, Option.bind_some]
  by_cases h : f < s
  · simp only [h, if_true]
    rw [foldlM_some (fun a i => upd a i (a (i + 1)))]
    · simp [wr, show s - 1 < n by omega]
    · intro b i hi
      rw [List.mem_range'_1] at hi
      simp [rd, wr, show i + 1 < n by omega, show i < n by omega]
  · simp only [h, if_false]
    rw [foldlM_some (fun a i => upd a i (a (i - 1)))]
    · simp [wr, show s < n by omega]
    · intro b i hi
      rw [List.mem_reverse, List.mem_range'_1] at hi
      simp [rd, wr, show i - 1 < n by omega, show i < n by omega]

/-- 2-opt: the segment `first..second` is reversed, nothing else changes; applying it again
restores the solution. -/
theorem C15_twoOpt (n : Nat) (a : Nat → α) (f s : Nat) (hfs : f ≤ s) (hs : s < n) :
    (∀ j, twoOptMove a f s j = if f ≤ j ∧ j ≤ s then a (f + s - j) else a j) ∧
    twoOptMove (twoOptMove a f s) f s = a ∧
    ((List.range n).map (twoOptMove a f s)).Perm ((List.range n).map a) := by
  have hspec : ∀ (b : Nat → α) j,
      twoOptMove b f s j = if f ≤ j ∧ j ≤ s then b (f + s - j) else b j := by
    intro b j
    unfold twoOptMove
    rw [twoOpt_loop b f s _ (by omega)]
    simp only
    by_cases h : f ≤ j ∧ j ≤ s
    · rw [if_pos h]
      by_cases h2 : (f ≤ j ∧ j < f + (s - f + 1) / 2) ∨ (s < j + (s - f + 1) / 2 ∧ j ≤ s)
      · rw [if_pos h2]
      · rw [if_neg h2]
        have : f + s - j = j := by omega
        rw [this]
    · rw [if_neg h, if_neg (by omega)]
  refine ⟨hspec a, ?_, ?_⟩
  · funext j
    rw [hspec]
    by_cases h : f ≤ j ∧ j ≤ s
    · rw [if_pos h, hspec, if_pos (by omega), show f + s - (f + s - j) = j by omega]
    · rw [if_neg h, hspec, if_neg h]
  · let σ : Nat → Nat := fun j => if f ≤ j ∧ j ≤ s then f + s - j else j
    have hσσ : ∀ k, σ (σ k) = k := by
      intro k; simp only [σ]
      by_cases h : f ≤ k ∧ k ≤ s
      · rw [if_pos h, if_pos (by omega)]; omega
      · rw [if_neg h, if_neg h]
    have hσn : ∀ k < n, σ k < n := by
      intro k hk; simp only [σ]; split_ifs <;> omega
    refine perm_of_index_maps n a _ σ σ hσn hσn (fun k _ => hσσ k) ?_ (fun k _ => hσσ k)
    intro k _
    rw [hspec]; simp only [σ]; split_ifs <;> rfl

example : (List.range 6).map (shiftMove (fun i => i) (1, 4)) = [0, 2, 3, 1, 4, 5] := by decide
example : (List.range 6).map (shiftMove (fun i => i) (4, 1)) = [0, 4, 1, 2, 3, 5] := by decide
example : (List.range 6).map (twoOptMove (fun i => i) 1 4) = [0, 4, 3, 2, 1, 5] := by decide

/-! ### C16 -/

/-- C16: one bit: exactly bit `key` is changed; twice restores. -/
theorem C16_bit (x : Nat → Bool) (key : Nat) :
    bitMove x key key = !x key ∧ (∀ j, j ≠ key → bitMove x key j = x j) ∧
    bitMove (bitMove x key) key = x := by
  refine ⟨by simp [bitMove, upd], fun j hj => by simp [bitMove, upd, hj], ?_⟩
  funext j; by_cases h : j = key
  · subst h; simp [bitMove, upd]
  · simp [bitMove, upd, h]

/-- C16: several distinct bits: exactly those are changed; applying (or `moveBack`) again restores
the string, even for repeated bits. -/
theorem C16_bits (x : Nat → Bool) (bits : List Nat) :
    (bits.Nodup → ∀ j, bitsMove x bits j = if j ∈ bits then !x j else x j) ∧
    bitsMove (bitsMove x bits) bits = x :=
  ⟨fun h j => bitsMove_mem bits x h j, bitsMove_twice bits x⟩

example : (List.range 4).map (bitsMove (fun _ => false) [0, 2]) = [true, false, true, false] := by
  decide

/-! ### C17 -/

/-- C17: exploration yields exactly the (clamped) sample size of keys, pairwise distinct and in
range, whatever the random stream and the earlier explorations. -/
theorem C17_sample_distinct (r : Nat → Nat) (size sample : Nat) (s : RndState) (h0 : 0 < size)
    (hs : s.indexVector.Perm (List.range size)) (fuel : Nat) (hf : size ≤ fuel) :
    ∃ L e, bitsExplore r size sample fuel s = .ok (L, e) ∧
      L.length = (if sample = 0 ∨ size < sample then size else sample) ∧ L.Nodup ∧
      (∀ k ∈ L, k < size) ∧ e.indexVector.Perm (List.range size) := by
  set c := clampSample size sample with hc
  have hc1 : c = if sample = 0 ∨ size < sample then size else sample := by
    rw [hc]; unfold clampSample; split_ifs <;> omega
  have hc2 : 0 < c ∧ c ≤ size := by
    rw [hc1]; split_ifs <;> omega
  have hlen : s.indexVector.length = size := by simpa using hs.length_eq
  obtain ⟨s', h1, h2, h3, _, h5⟩ := rndNext_ok r { s with maxIndex := size } h0 (by simp [hlen])
  have hlen' : s'.indexVector.length = size := by rw [h2.length_eq]; exact hlen
  simp only at h3 h5
  have hd0 : s.indexVector.drop size = [] := by rw [← hlen]; simp
  have hd1 : s'.indexVector.drop size = [] := by rw [← hlen']; simp
  obtain ⟨L, e, g1, g2, g3, g4, g5⟩ := rnd_visit r (bitsCont size c) (size - c)
    (fun t ht => by simp only [bitsCont, decide_eq_true_eq]; omega) (c - 1) s' (by omega) (by omega)
    (by rw [h3, h5, show size - 1 + 1 = size by omega, hd0, hd1])
  refine ⟨L, e, ?_, by omega, ?_, ?_, (g2.trans h2).trans hs⟩
  · have : bitsExplore r size sample fuel s
        = visit (rndNext r) (bitsCont size c) (·.key) fuel s' := by
      simp only [bitsExplore, rndInit, h1]; rfl
    rw [this]
    exact visit_fuel g1 fuel (by omega)
  all_goals
    have e1 : e.indexVector.drop (size - c) = L.reverse := by
      have := g5
      rw [h3, show size - 1 + 1 = size by omega, hd1] at this
      simpa using this
    have hp : e.indexVector.Perm (List.range size) := (g2.trans h2).trans hs
  · have : (e.indexVector.drop (size - c)).Nodup :=
      (List.drop_sublist _ _).nodup (hp.nodup_iff.2 List.nodup_range)
    rw [e1] at this
    exact List.nodup_reverse.1 this
  · intro k hk
    have : k ∈ e.indexVector := List.mem_of_mem_drop (by rw [e1]; simpa using hk)
    simpa using hp.mem_iff.1 this

example : ∃ e, bitsExplore (fun t => t + 1) 5 3 10 (rndNew 5 0) = .ok ([1, 2, 0], e) := ⟨_, rfl⟩

/-! ### C63 enumeration of the k-bit neighbours -/

/-- `numberOfNeighbors` is the binomial coefficient. -/
theorem C63_number_of_neighbors (length d : Nat) (h : d ≤ length) :
    numberOfNeighbors length d = Nat.choose length d := by
  unfold numberOfNeighbors
  rw [foldl_mul, foldl_mul, prod_range'_one, List.prod_reverse, prod_range'_desc _ _ h,
    Nat.choose_eq_descFactorial_div_factorial]
  simp

/-- C63: the vectors built for distance `d` are, without repetition, exactly the strictly
increasing vectors of `d` positions smaller than `length`, i.e. each `d`-subset once; their number
is the announced one. -/
theorem C63_combinations (length d : Nat) (hd : 0 < d) (h : d ≤ length) :
    ∃ fuel L, (∀ m, fuel ≤ m → combsOf length d m = .ok L) ∧ L.Nodup ∧
      L.length = numberOfNeighbors length d ∧
      ∀ v : List Nat, v.reverse ∈ L ↔
        v.length = d ∧ v.Pairwise (· < ·) ∧ ∀ b ∈ v, b < length := by
  have hst := rank_start (length - 1) d 0 (by omega)
  have htop : length - 1 + 1 = length := by omega
  simp only [Nat.choose_zero_right, Nat.zero_add, htop] at hst
  obtain ⟨L, g1, g2, g3, g4⟩ := combsFrom_spec (length - 1) d hd
    (rank (length - 1) 0 (List.range d).reverse) (List.range d).reverse rfl (by simp)
    (decr_range_reverse d) (by intro b hb; simp at hb; omega)
  have hnd : L.Nodup := by
    have : (L.map (rank (length - 1) 0)).Nodup := by
      rw [g3]; exact List.nodup_reverse.2 List.nodup_range
    exact List.Nodup.of_map _ this
  have hcard : L.length = Nat.choose length d := by omega
  refine ⟨_, L, fun m hm => combsFrom_fuel g1 m hm, hnd,
    by rw [C63_number_of_neighbors _ _ h, hcard], ?_⟩
  have hsound : ∀ v : List Nat, v.reverse ∈ L →
        v.length = d ∧ v.Pairwise (· < ·) ∧ ∀ b ∈ v, b < length := by
    intro v hv
    obtain ⟨a, b, c⟩ := g4 _ hv
    refine ⟨by simpa using a, by simpa [Decr, List.pairwise_reverse] using b, ?_⟩
    intro x hx
    have := c x (by simpa using hx)
    omega
  -- the set of supports of L is all of powersetCard
  let S : Finset (Finset Nat) := (L.map (fun l => l.toFinset)).toFinset
  have hinj : ∀ l ∈ L, ∀ l' ∈ L, l.toFinset = l'.toFinset → l = l' := by
    intro l hl l' hl' heq
    obtain ⟨_, b, _⟩ := g4 _ hl
    obtain ⟨_, b', _⟩ := g4 _ hl'
    have n1 : l.Nodup := b.imp (fun h => by omega)
    have n2 : l'.Nodup := b'.imp (fun h => by omega)
    have hp : l.Perm l' := (List.toFinset_eq_iff_perm_dedup.1 heq |> fun h => by
      rwa [n1.dedup, n2.dedup] at h)
    exact hp.eq_of_pairwise (fun x y _ _ h1 h2 => by omega) b b'
  have hS1 : S ⊆ (Finset.range length).powersetCard d := by
    intro s hs
    simp only [S, List.mem_toFinset, List.mem_map] at hs
    obtain ⟨l, hl, rfl⟩ := hs
    obtain ⟨a, b, c⟩ := g4 _ hl
    rw [Finset.mem_powersetCard]
    constructor
    · intro x hx
      have := c x (by simpa using hx)
      simp; omega
    · rw [List.toFinset_card_of_nodup (b.imp (fun h => by omega)), a]
  have hS2 : S.card = L.length := by
    simp only [S]
    rw [List.toFinset_card_of_nodup, List.length_map]
    exact (List.nodup_map_iff_inj_on hnd).2 hinj
  have hS : S = (Finset.range length).powersetCard d := by
    apply Finset.eq_of_subset_of_card_le hS1
    rw [Finset.card_powersetCard, Finset.card_range, hS2, hcard]
  intro v
  refine ⟨hsound v, ?_⟩
  rintro ⟨h1, h2, h3⟩
  have hvnd : v.Nodup := h2.imp (fun h => by omega)
  have : v.toFinset ∈ S := by
    rw [hS, Finset.mem_powersetCard]
    refine ⟨?_, by rw [List.toFinset_card_of_nodup hvnd, h1]⟩
    intro x hx
    simpa using h3 x (by simpa using hx)
  simp only [S, List.mem_toFinset, List.mem_map] at this
  obtain ⟨l, hl, heq⟩ := this
  obtain ⟨_, b, _⟩ := g4 _ hl
  have n1 : l.Nodup := b.imp (fun h => by omega)
  have hp : l.Perm v := (List.toFinset_eq_iff_perm_dedup.1 heq |> fun h => by
      rwa [n1.dedup, hvnd.dedup] at h)
  have hp' : l.reverse.Perm v := (List.reverse_perm l).trans hp
  have : l.reverse = v := hp'.eq_of_pairwise (fun x y _ _ h1 h2 => by omega)
    (by simpa [List.pairwise_reverse, Decr] using b) h2
  rw [← this]; simpa using hl

example : combsOf 4 2 10 = .ok [[1, 0], [2, 0], [3, 0], [2, 1], [3, 1], [3, 2]] := by rfl

/-! ### C64 k-bit neighbourhood with replacement -/

/-- The positions drawn for one neighbour are distinct and in range, and the index vector stays a
permutation. -/
theorem C64_drawBits (r : Nat → Nat) (length : Nat) : ∀ (n k : Nat) (iv : List Nat) (t : Nat),
    iv.Perm (List.range length) → k + n ≤ length →
    ∃ bs iv' t', drawBits r length n k iv t = .ok (bs, iv', t') ∧ bs.length = n ∧
      iv'.Perm (List.range length) ∧ iv'.drop (length - k - n) = bs.reverse ++ iv.drop (length - k) := by
  intro n
  induction n with
  | zero =>
    intro k iv t hp hk
    exact ⟨[], iv, t, rfl, rfl, hp, by simp⟩
  | succ n ih =>
    intro k iv t hp hk
    have hlen : iv.length = length := by simpa using hp.length_eq
    have hi : r t % (length - k) < length - k := Nat.mod_lt _ (by omega)
    set i := r t % (length - k) with hidef
    have hi' : i < iv.length := by omega
    have hm' : length - k - 1 < iv.length := by omega
    have hperm : ((iv.set i iv[length - k - 1]).set (length - k - 1) iv[i]).Perm iv :=
      List.set_set_perm hi' hm'
    obtain ⟨bs, iv', t', h1, h2, h3, h4⟩ := ih (k + 1)
      ((iv.set i iv[length - k - 1]).set (length - k - 1) iv[i]) (t + 1)
      (hperm.trans hp) (by omega)
    refine ⟨iv[i] :: bs, iv', t', ?_, by simp [h2], h3, ?_⟩
    · rw [drawBits]
      simp only [← hidef, List.getElem?_eq_getElem hi', List.getElem?_eq_getElem hm', h1]
      rfl
    · rw [show length - k - (n + 1) = length - (k + 1) - n by omega, h4,
        show length - (k + 1) = length - k - 1 by omega,
        List.drop_eq_getElem_cons (i := length - k - 1) (by simpa using hm'),
        List.getElem_set_self, drop_set_lt _ _ _ _ (by omega), drop_set_lt _ _ _ _ (by omega),
        show length - k - 1 + 1 = length - k by omega]
      simp

/-- Consequence: distinct in-range bits. -/
theorem C64_drawBits_distinct (r : Nat → Nat) (length n : Nat) (iv : List Nat) (t : Nat)
    (hp : iv.Perm (List.range length)) (hn : n ≤ length) :
    ∃ bs iv' t', drawBits r length n 0 iv t = .ok (bs, iv', t') ∧ bs.length = n ∧ bs.Nodup ∧
      (∀ b ∈ bs, b < length) ∧ iv'.Perm (List.range length) := by
  obtain ⟨bs, iv', t', h1, h2, h3, h4⟩ := C64_drawBits r length n 0 iv t hp (by omega)
  have hlen : iv.length = length := by simpa using hp.length_eq
  have e : iv'.drop (length - n) = bs.reverse := by
    simp only [Nat.sub_zero] at h4
    rw [h4, ← hlen]; simp
  refine ⟨bs, iv', t', h1, h2, ?_, ?_, h3⟩
  · have : (iv'.drop (length - n)).Nodup :=
      (List.drop_sublist _ _).nodup (h3.nodup_iff.2 List.nodup_range)
    rw [e] at this
    exact List.nodup_reverse.1 this
  · intro b hb
    have : b ∈ iv' := List.mem_of_mem_drop (by rw [e]; simpa using hb)
    simpa using h3.mem_iff.1 this

/-- The choice of the distance is wrong when the distance is not fixed: for any cumulated sizes
(non-decreasing) and any drawn `n` below the total, the loop either stops at once with distance 1
or runs out of the vector. -/
theorem C64_choose_distance_wrong (nSize : List Nat) (n : Nat)
    (hmono : ∀ d m : Nat, nSize[d]? = some m → ∀ m0 : Nat, nSize[0]? = some m0 → m0 ≤ m)
    (hne : nSize ≠ []) (fuel : Nat) (hf : nSize.length < fuel) :
    chooseDistance nSize n fuel 1 = .ok 1 ∨ chooseDistance nSize n fuel 1 = .error .outOfRange := by
  cases hns : nSize with
  | nil => exact absurd hns hne
  | cons m0 rest =>
    rw [← hns]
    have h0 : nSize[0]? = some m0 := by rw [hns]; rfl
    by_cases hn : n < m0
    · right
      have key : ∀ k d fuel, d + k = nSize.length + 1 → 1 ≤ d → k < fuel →
          chooseDistance nSize n fuel d = .error .outOfRange := by
        intro k
        induction k with
        | zero =>
          intro d fuel hd _ hfu
          obtain ⟨f, rfl⟩ : ∃ f, fuel = f + 1 := ⟨fuel - 1, by omega⟩
          have : nSize[d - 1]? = none := List.getElem?_eq_none (by omega)
          simp [chooseDistance, this]
        | succ k ih =>
          intro d fuel hd h1 hfu
          obtain ⟨f, rfl⟩ : ∃ f, fuel = f + 1 := ⟨fuel - 1, by omega⟩
          have hlt : d - 1 < nSize.length := by omega
          have hget : nSize[d - 1]? = some nSize[d - 1] := List.getElem?_eq_getElem hlt
          have hle := hmono (d - 1) _ hget m0 h0
          have : n < nSize[d - 1] := by omega
          simp only [chooseDistance, hget, this, if_true]
          exact ih (d + 1) f (by omega) (by omega) (by omega)
      exact key nSize.length 1 fuel (by omega) (by omega) hf
    · left
      obtain ⟨f, rfl⟩ : ∃ f, fuel = f + 1 := ⟨fuel - 1, by omega⟩
      simp [chooseDistance, h0, hn]

example : chooseDistance [4, 10] 2 9 1 = .error .outOfRange ∧ chooseDistance [4, 10] 5 9 1 = .ok 1 := by
  decide

/-! ### C62 binary partition -/

/-- C62: exploring the swap neighbourhood of a partition uses every pair (rejected atom, selected
atom) exactly once and never reads outside, when both sides are non-empty. -/
theorem C62_partition_enumerates (p : Partition) (hs : p.selected.Nodup) (hr : p.rejected.Nodup)
    (h1 : p.selected ≠ []) (h2 : p.rejected ≠ []) :
    ∃ fuel L e, (∀ m, fuel ≤ m → partExplore p m = .ok (L, e)) ∧ L.Nodup ∧
      ∀ a b, (a, b) ∈ L ↔ a ∈ p.rejected ∧ b ∈ p.selected := by
  have hs0 : 0 < p.selected.length := List.length_pos_iff.2 h1
  have hr0 : 0 < p.rejected.length := List.length_pos_iff.2 h2
  obtain ⟨L, e, hv, hL⟩ := part_visit_aux p _ 0 0 hr0 hs0 rfl
  set g : Nat × Nat → Nat × Nat := fun s => (p.rejected.getD s.1 0, p.selected.getD s.2 0) with hg
  have hm := visit_map (fun s : Nat × Nat => s) g _ _ hv
  have hinit : partInit p = .ok (0, 0) := by simp [partInit, hs0, hr0]; rfl
  have hmem : ∀ i j, (i, j) ∈ L ↔ i < p.rejected.length ∧ j < p.selected.length := by
    intro i j
    rw [hL]
    simp only [List.mem_append, List.mem_map, List.mem_flatMap, List.mem_range'_1, Prod.mk.injEq]
    constructor
    · rintro (⟨x, hx, rfl, rfl⟩ | ⟨y, hy, x, hx, rfl, rfl⟩) <;> omega
    · intro h
      by_cases hj : j = 0
      · left; exact ⟨i, by omega, rfl, hj.symm⟩
      · right; exact ⟨j, by omega, i, by omega, rfl, rfl⟩
  have hnd : L.Nodup := by
    rw [hL, List.nodup_append]
    refine ⟨?_, ?_, ?_⟩
    · exact (List.nodup_range' (step := 1)).map (fun a b h => by simpa using h)
    · rw [List.nodup_flatMap]
      refine ⟨fun x _ => (List.nodup_range' (step := 1)).map (fun a b h => by simpa using h), ?_⟩
      refine List.Pairwise.imp ?_ (List.nodup_range' (s := 0 + 1) (n := p.selected.length - 1 - 0) (step := 1))
      intro a b hab
      simp only [Function.onFun, List.disjoint_left, List.mem_map]
      rintro q ⟨x, _, rfl⟩ ⟨y, _, h⟩
      simp only [Prod.mk.injEq] at h
      exact hab h.2.symm
    · intro a ha b hb
      simp only [List.mem_map, List.mem_flatMap, List.mem_range'_1] at ha hb
      obtain ⟨x, _, rfl⟩ := ha
      obtain ⟨y, hy, z, _, rfl⟩ := hb
      simp only [ne_eq, Prod.mk.injEq, not_and]
      intro _ h; omega
  refine ⟨(p.selected.length - 1 - 0) * p.rejected.length + (p.rejected.length - 1 - 0) + 1,
    L.map g, e, ?_, ?_, ?_⟩
  · intro m hm'
    have : partExplore p m = visit (partNext p) (partCont p) g m (0, 0) := by
      simp only [partExplore, hinit]; rfl
    rw [this]
    exact visit_fuel hm m hm'
  · rw [List.nodup_map_iff_inj_on hnd]
    rintro ⟨i, j⟩ hij ⟨i', j'⟩ hij' heq
    have a1 := (hmem i j).1 hij
    have a2 := (hmem i' j').1 hij'
    simp only [hg, Prod.mk.injEq] at heq
    rw [List.getD_eq_getElem _ _ a1.1, List.getD_eq_getElem _ _ a2.1,
      List.getD_eq_getElem _ _ a1.2, List.getD_eq_getElem _ _ a2.2] at heq
    rw [(hr.getElem_inj_iff).1 heq.1, (hs.getElem_inj_iff).1 heq.2]
  · intro a b
    simp only [List.mem_map, Prod.exists, hg, Prod.mk.injEq]
    constructor
    · rintro ⟨i, j, hij, rfl, rfl⟩
      have a1 := (hmem i j).1 hij
      rw [List.getD_eq_getElem _ _ a1.1, List.getD_eq_getElem _ _ a1.2]
      exact ⟨List.getElem_mem _, List.getElem_mem _⟩
    · rintro ⟨ha, hb⟩
      obtain ⟨i, hi, rfl⟩ := List.getElem_of_mem ha
      obtain ⟨j, hj, rfl⟩ := List.getElem_of_mem hb
      exact ⟨i, j, (hmem i j).2 ⟨hi, hj⟩, by rw [List.getD_eq_getElem _ _ hi],
        by rw [List.getD_eq_getElem _ _ hj]⟩

/-- C62: a legal swap keeps a partition of the same atoms with the same number of selected ones,
and `moveBack` restores both sides (as sets). -/
theorem C62_partition_move (p : Partition) (hs : p.selected.Nodup) (hr : p.rejected.Nodup)
    (hdis : ∀ a ∈ p.selected, a ∉ p.rejected) (sel rej : Nat) (h1 : sel ∈ p.rejected)
    (h2 : rej ∈ p.selected) :
    let q := p.move sel rej
    q.selected.Nodup ∧ q.rejected.Nodup ∧ (∀ a ∈ q.selected, a ∉ q.rejected) ∧
    q.selected.length = p.selected.length ∧ q.rejected.length = p.rejected.length ∧
    (∀ a, a ∈ q.selected ↔ (a ∈ p.selected ∧ a ≠ rej) ∨ a = sel) ∧
    (∀ a, a ∈ q.rejected ↔ (a ∈ p.rejected ∧ a ≠ sel) ∨ a = rej) ∧
    (q.moveBack sel rej).selected.Perm p.selected ∧ (q.moveBack sel rej).rejected.Perm p.rejected := by
  have hsr : sel ≠ rej := by rintro rfl; exact hdis _ h2 h1
  have hns : sel ∉ p.selected := fun h => hdis _ h h1
  have hnr : rej ∉ p.rejected := hdis _ h2
  -- general facts
  have hsel : ∀ a, a ∈ (p.move sel rej).selected ↔ (a ∈ p.selected ∧ a ≠ rej) ∨ a = sel := by
    intro a
    simp only [Partition.move, Partition.reject, Partition.select, List.mem_insert_iff,
      hs.mem_erase_iff]
    tauto
  have hrejN : (p.rejected.insert rej).Nodup := hr.insert
  have hrej : ∀ a, a ∈ (p.move sel rej).rejected ↔ (a ∈ p.rejected ∧ a ≠ sel) ∨ a = rej := by
    intro a
    simp only [Partition.move, Partition.reject, Partition.select, hrejN.mem_erase_iff,
      List.mem_insert_iff]
    constructor
    · rintro ⟨h, h' | h'⟩
      · exact Or.inr h'
      · exact Or.inl ⟨h', h⟩
    · rintro (h | h)
      · exact ⟨h.2, Or.inr h.1⟩
      · exact ⟨by rw [h]; exact fun h => hsr h.symm, Or.inl h⟩
  have nd1 : (p.move sel rej).selected.Nodup := (hs.erase _).insert
  have nd2 : (p.move sel rej).rejected.Nodup := hrejN.erase _
  have l1 : (p.move sel rej).selected.length = p.selected.length := by
    have : sel ∉ p.selected.erase rej := fun h => hns (List.mem_of_mem_erase h)
    simp only [Partition.move, Partition.reject, Partition.select]
    rw [List.length_insert_of_not_mem this, List.length_erase_of_mem h2]
    have := List.length_pos_of_mem h2; omega
  have l2 : (p.move sel rej).rejected.length = p.rejected.length := by
    simp only [Partition.move, Partition.reject, Partition.select]
    rw [List.length_erase_of_mem (List.mem_insert_of_mem h1), List.length_insert_of_not_mem hnr]
    omega
  refine ⟨nd1, nd2, ?_, l1, l2, hsel, hrej, ?_, ?_⟩
  · intro a ha ha'
    rcases (hsel a).1 ha with h | h <;> rcases (hrej a).1 ha' with h' | h'
    · exact hdis _ h.1 h'.1
    · exact h.2 h'
    · exact h'.2 h
    · exact hsr (h.symm.trans h')
  · have nb : ((p.move sel rej).moveBack sel rej).selected.Nodup := (nd1.erase _).insert
    rw [List.perm_ext_iff_of_nodup nb hs]
    intro a
    have : a ∈ ((p.move sel rej).moveBack sel rej).selected
        ↔ a = rej ∨ (a ≠ sel ∧ a ∈ (p.move sel rej).selected) := by
      simp only [Partition.moveBack, Partition.reject, Partition.select, List.mem_insert_iff]
      rw [nd1.mem_erase_iff]
    rw [this, hsel]
    constructor
    · rintro (h | ⟨h, h' | h'⟩)
      · rw [h]; exact h2
      · exact h'.1
      · exact absurd h' h
    · intro h
      by_cases ha : a = rej
      · exact Or.inl ha
      · exact Or.inr ⟨fun h' => hns (h' ▸ h), Or.inl ⟨h, ha⟩⟩
  · have nb0 : ((p.move sel rej).rejected.insert sel).Nodup := nd2.insert
    have nb : ((p.move sel rej).moveBack sel rej).rejected.Nodup := nb0.erase _
    rw [List.perm_ext_iff_of_nodup nb hr]
    intro a
    have : a ∈ ((p.move sel rej).moveBack sel rej).rejected
        ↔ a ≠ rej ∧ (a = sel ∨ a ∈ (p.move sel rej).rejected) := by
      simp only [Partition.moveBack, Partition.reject, Partition.select]
      rw [nb0.mem_erase_iff, List.mem_insert_iff]
    rw [this, hrej]
    constructor
    · rintro ⟨h, h' | h' | h'⟩
      · rw [h']; exact h1
      · exact h'.1
      · exact absurd h' h
    · intro h
      refine ⟨fun h' => hnr (h' ▸ h), ?_⟩
      by_cases ha : a = sel
      · exact Or.inl ha
      · exact Or.inr (Or.inl ⟨h, ha⟩)

/-- `hasNeighbor` only looks at the rejected side: with nothing selected it announces neighbours,
and the exploration reads outside. -/
theorem C62_partition_has_wrong :
    ∃ p : Partition, partHas p = true ∧ ∀ fuel, partExplore p fuel = .error .outOfRange :=
  ⟨⟨[], [0, 1]⟩, rfl, fun _ => rfl⟩

example : partExplore ⟨[3, 5], [0, 1]⟩ 9 = .ok ([(0, 3), (1, 3), (0, 5), (1, 5)], (1, 1)) := by rfl

end Paradiseo.Nbh
