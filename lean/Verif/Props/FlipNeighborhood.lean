import Verif.Model.FlipNeighborhood
import Verif.Props.Neighborhood
/-
C283: neighbours that flip every bit with a given probability; the statistics on one or the best neighbour.
-/
namespace Paradiseo.FlipNbh

/-- The invariant of the loop: the first `nBits` entries are the positions seen so far whose coin fell. -/
theorem put_take (x : Bits) (i : Nat) (h : x.nBits ≤ x.bits.length) :
    (put x i).nBits = x.nBits + 1 ∧ (put x i).nBits ≤ (put x i).bits.length ∧
      (put x i).bits.take (put x i).nBits = x.bits.take x.nBits ++ [i] := by
  rw [put]
  split
  · next hlt =>
    refine ⟨rfl, by simpa using hlt, ?_⟩
    show (x.bits.set x.nBits i).take (x.nBits + 1) = _
    rw [List.take_add_one, List.take_set_of_le (le_refl _), List.getElem?_set_self hlt]
    rfl
  · next hge =>
    have he : x.nBits = x.bits.length := by omega
    refine ⟨rfl, by simp; omega, ?_⟩
    show (x.bits ++ [i]).take (x.nBits + 1) = _
    rw [he, List.take_length, List.take_of_length_le (by simp)]

theorem flipLoop_take (coin : Nat → Bool) : ∀ (k i : Nat) (x : Bits), x.nBits ≤ x.bits.length →
    (flipLoop coin k i x).nBits ≤ (flipLoop coin k i x).bits.length ∧
      (flipLoop coin k i x).bits.take (flipLoop coin k i x).nBits =
        x.bits.take x.nBits ++ (List.range' i k).filter coin
  | 0, i, x, h => by simpa [flipLoop] using h
  | k + 1, i, x, h => by
    rw [flipLoop, List.range'_succ, List.filter_cons]
    split
    · obtain ⟨-, h2, h3⟩ := put_take x i h
      obtain ⟨r1, r2⟩ := flipLoop_take coin k (i + 1) (put x i) h2
      refine ⟨r1, ?_⟩
      rw [r2, h3, List.append_assoc]
      rfl
    · exact flipLoop_take coin k (i + 1) x h

/-- A neighbour holds exactly the positions whose coin fell, in order, whatever it held before. -/
theorem C283_bits (coin : Nat → Bool) (n : Nat) (old : Bits) :
    (randomNeighbor coin n old).bits = (List.range n).filter coin ∧
      (randomNeighbor coin n old).nBits = ((List.range n).filter coin).length := by
  obtain ⟨h1, h2⟩ := flipLoop_take coin n 0 ⟨old.bits, 0⟩ (Nat.zero_le _)
  rw [List.take_zero, List.nil_append, ← List.range_eq_range'] at h2
  rw [randomNeighbor, shrink]
  generalize hy : flipLoop coin n 0 ⟨old.bits, 0⟩ = y at h1 h2
  have hl : y.nBits = ((List.range n).filter coin).length := by
    rw [← h2, List.length_take, Nat.min_eq_left h1]
  split
  · exact ⟨h2, hl⟩
  · refine ⟨?_, hl⟩
    rw [← h2, List.take_of_length_le (by omega)]

/-- The move inverts the bits whose coin fell and no others; moving back restores the solution. -/
theorem C283_move (coin : Nat → Bool) (n : Nat) (old : Bits) (x : Nat → Bool) :
    (∀ j, Nbh.bitsMove x (randomNeighbor coin n old).bits j = if j < n ∧ coin j = true then !x j else x j) ∧
      Nbh.bitsMove (Nbh.bitsMove x (randomNeighbor coin n old).bits) (randomNeighbor coin n old).bits = x := by
  rw [(C283_bits coin n old).1]
  refine ⟨fun j => ?_, Nbh.bitsMove_twice _ _⟩
  rw [Nbh.bitsMove_mem _ _ (List.nodup_range.filter _)]
  simp [List.mem_filter]

/-- If no coin falls the neighbour is the solution itself. -/
theorem C283_same {coin : Nat → Bool} {n : Nat} (h : ∀ i, i < n → coin i = false) (old : Bits) (x : Nat → Bool) :
    Nbh.bitsMove x (randomNeighbor coin n old).bits = x := by
  funext j
  rw [(C283_move coin n old x).1 j]
  split
  · next hj => rw [h j hj.1] at hj; exact absurd hj.2 (by simp)
  · rfl

theorem made_eq (sample : Nat) : ∀ (fuel n : Nat), sample ≤ n + fuel → made sample fuel n = max n sample
  | 0, n, h => by rw [made]; omega
  | fuel + 1, n, h => by
    rw [made]
    split
    · rw [made_eq sample fuel (n + 1) (by omega)]
      omega
    · omega

/-- An exploration sees as many neighbours as asked for, but at least one. -/
theorem C283_visited (sample : Nat) : visited sample = max 1 sample :=
  made_eq sample sample 1 (by omega)

/-! ### Statistics -/

variable {F : Type} [LinearOrder F]

theorem bestLoop_all (best : F) : ∀ (k : Nat) (fs : List F), bestLoop 0 best k fs = fs.foldl max best := by
  intro k fs
  induction fs generalizing best k with
  | nil => rfl
  | cons f fs ih =>
    rw [bestLoop, if_pos (Or.inl rfl), ih, List.foldl_cons]
    congr 1
    split
    · next h => rw [max_eq_right h.le]
    · next h => rw [max_eq_left (not_lt.1 h)]

theorem bestLoop_some {kmax : Nat} (hk : 0 < kmax) : ∀ (best : F) (k : Nat) (fs : List F),
    bestLoop kmax best k fs = (fs.take (kmax - k)).foldl max best := by
  intro best k fs
  induction fs generalizing best k with
  | nil => simp [bestLoop]
  | cons f fs ih =>
    rw [bestLoop]
    by_cases h : k < kmax
    · rw [if_pos (Or.inr h), ih, show kmax - k = (kmax - (k + 1)) + 1 by omega, List.take_succ_cons, List.foldl_cons]
      congr 1
      split
      · next h => rw [max_eq_right h.le]
      · next h => rw [max_eq_left (not_lt.1 h)]
    · rw [if_neg (by omega), show kmax - k = 0 by omega]
      rfl

theorem foldl_max_spec : ∀ (fs : List F) (b : F), fs.foldl max b ∈ b :: fs ∧ ∀ f ∈ b :: fs, f ≤ fs.foldl max b
  | [], b => by simp
  | f :: fs, b => by
    rw [List.foldl_cons]
    obtain ⟨h1, h2⟩ := foldl_max_spec fs (max b f)
    refine ⟨?_, ?_⟩
    · rcases List.mem_cons.1 h1 with h | h
      · rw [h]
        rcases max_choice b f with e | e <;> rw [e] <;> simp
      · simp [h]
    · intro g hg
      have hm := h2 (max b f) (by simp)
      rcases List.mem_cons.1 hg with rfl | hg
      · exact (le_max_left _ _).trans hm
      · rcases List.mem_cons.1 hg with rfl | hg
        · exact (le_max_right _ _).trans hm
        · exact h2 g (List.mem_cons_of_mem _ hg)

/-- The statistic is the best value among all neighbours, or among as many as asked for. -/
theorem C283_best (dflt : F) (kmax : Nat) {fs : List F} (h : fs ≠ []) :
    let seen := if kmax = 0 then fs else fs.take kmax
    bestStat dflt kmax fs ∈ seen ∧ ∀ f ∈ seen, f ≤ bestStat dflt kmax fs := by
  cases fs with
  | nil => exact absurd rfl h
  | cons f fs =>
    dsimp only
    rw [bestStat]
    by_cases hk : kmax = 0
    · rw [if_pos hk, hk, bestLoop_all]
      exact foldl_max_spec fs f
    · rw [if_neg hk, bestLoop_some (Nat.pos_of_ne_zero hk)]
      obtain ⟨k, rfl⟩ := Nat.exists_eq_succ_of_ne_zero hk
      rw [show k.succ - 1 = k by omega, List.take_succ_cons]
      exact foldl_max_spec (fs.take k) f

/-- Without neighbours the statistics give the default value of the type, which may be better than any fitness. -/
theorem C283_no_neighbor (dflt : F) (kmax : Nat) : bestStat dflt kmax [] = dflt ∧ oneStat dflt [] = dflt := ⟨rfl, rfl⟩

/-- The other statistic is the first neighbour of the enumeration. -/
theorem C283_one (dflt f : F) (fs : List F) : oneStat dflt (f :: fs) = f ∧ oneStat dflt (f :: fs) = bestStat dflt 1 (f :: fs) := by
  refine ⟨rfl, ?_⟩
  rw [bestStat, bestLoop_some (by omega)]
  rfl

example : randomNeighbor (fun i => i % 2 == 0) 5 ⟨[9, 9, 9, 9, 9, 9], 6⟩ = ⟨[0, 2, 4], 3⟩ := by decide
example : visited 0 = 1 ∧ visited 5 = 5 := by decide
example : bestStat (0 : Int) 0 [-5, -2, -7] = -2 ∧ bestStat (0 : Int) 1 [-5, -2, -7] = -5 ∧ bestStat (0 : Int) 0 [] = 0 := by
  decide

end Paradiseo.FlipNbh
