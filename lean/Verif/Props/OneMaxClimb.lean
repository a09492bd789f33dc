/-
Property C387: the hill climbers solve OneMax in as many improvements as there are zeros, and stop at once on a royal road.
-/
import Verif.Props.LocalSearch
import Verif.Props.IncrEval
import Verif.Model.Neighborhood

namespace Paradiseo.LS
open Paradiseo.Nbh (bitMove upd)
open Paradiseo.IncrEval

/-- The number of zeros among the first `n` bits. -/
def zeros (n : Nat) (x : Nat → Bool) : Nat := (List.range n).countP fun i => !x i

/-- A neighbourhood of one-bit flips evaluated incrementally, all bits in any order. -/
def OneMaxNeighbours (n : Nat) (nb : Nat → (Nat → Bool) × Int → List (Cand Nat Int)) : Prop :=
  ∀ t s, ∃ keys : List Nat, (∀ i, i ∈ keys ↔ i < n) ∧ nb t s = keys.map fun i => ⟨i, oneMaxIncr s.1 s.2 i⟩

/-- `x` with the bit of the key flipped, as the neighbour moves it. -/
def flipBitAt (i : Nat) (x : Nat → Bool) : Nat → Bool := bitMove x i

theorem flipBitAt_eq (i : Nat) (x : Nat → Bool) : flipBitAt i x = Paradiseo.IncrEval.flip x i := by
  funext j
  simp only [flipBitAt, bitMove, upd, Paradiseo.IncrEval.flip, Function.update_apply]

theorem full_zeros (n : Nat) (x : Nat → Bool) : oneMaxFull n x + zeros n x = n := by
  induction n with
  | zero => rfl
  | succ n ih =>
    unfold oneMaxFull zeros at *
    rw [List.range_succ, List.foldl_append, List.countP_append]
    simp only [List.foldl_cons, List.foldl_nil, List.countP_cons, List.countP_nil]
    cases x n <;> simp <;> omega

theorem zeros_pos {n i : Nat} {x : Nat → Bool} (hi : i < n) (hx : x i = false) : 0 < zeros n x := by
  unfold zeros
  rw [List.countP_pos_iff]
  exact ⟨i, List.mem_range.2 hi, by simp [hx]⟩

theorem climb_onemax {n : Nat} {nb : Nat → (Nat → Bool) × Int → List (Cand Nat Int)} (hnb : OneMaxNeighbours n nb)
    {ex : Explorer ((Nat → Bool) × Int) (HC Nat Int)} {inv : HC Nat Int → Prop} (hc : Climbs ex nb flipBitAt inv)
    (hcont : ∀ s e, ex.isContinue s e = e.isAccept) :
    ∀ (z fuel t : Nat) (x : Nat → Bool) (e : HC Nat Int), inv e → zeros n x = z → z < fuel →
      ∃ l, lsLoop ex (fun (_ : Unit) _ => (true, ())) fuel t (x, oneMaxFull n x) e () = some (l, true) ∧
        l.length = z + 1 ∧ ∃ y e', l.getLast? = some ((y, (n : Int)), e') ∧ ∀ i < n, y i = true := by
  intro z
  induction z with
  | zero =>
    intro fuel t x e hi hz hf
    obtain ⟨fuel, rfl⟩ : ∃ m, fuel = m + 1 := ⟨fuel - 1, by omega⟩
    have hones : ∀ i < n, x i = true := by
      intro i hin
      by_contra h
      have := zeros_pos hin (by simpa using h)
      omega
    obtain ⟨keys, hk, hn⟩ := hnb t (x, oneMaxFull n x)
    have hst := hc.step t ((x, oneMaxFull n x), e) hi
    have hs : stepTo ex t ((x, oneMaxFull n x), e) =
      ((lsStep ex t (x, oneMaxFull n x) e).1, (lsStep ex t (x, oneMaxFull n x) e).2.1) := rfl
    rw [hs] at hst
    simp only at hst
    rcases hst with ⟨-, h2, c, hc1, h3⟩ | ⟨h1, h2, -⟩
    · rw [hn] at hc1
      obtain ⟨i, hik, rfl⟩ := List.mem_map.1 hc1
      have := hones i ((hk i).1 hik)
      rw [h3] at h2
      simp only [oneMaxIncr, this] at h2
      simp at h2
      omega
    · refine ⟨[((lsStep ex t (x, oneMaxFull n x) e).1, (lsStep ex t (x, oneMaxFull n x) e).2.1)], ?_, rfl, x,
        (lsStep ex t (x, oneMaxFull n x) e).2.1, ?_, hones⟩
      · simp only [lsLoop, hcont, h1, Bool.and_false, Bool.false_eq_true, if_false]
      · rw [h2]
        have := full_zeros n x
        rw [hz] at this
        simp only [Nat.cast_zero, add_zero] at this
        rw [this]
        rfl
  | succ z ih =>
    intro fuel t x e hi hz hf
    obtain ⟨fuel, rfl⟩ : ∃ m, fuel = m + 1 := ⟨fuel - 1, by omega⟩
    obtain ⟨keys, hk, hn⟩ := hnb t (x, oneMaxFull n x)
    have hst := hc.step t ((x, oneMaxFull n x), e) hi
    have hkeep := hc.keep t ((x, oneMaxFull n x), e) hi
    have hs : stepTo ex t ((x, oneMaxFull n x), e) =
      ((lsStep ex t (x, oneMaxFull n x) e).1, (lsStep ex t (x, oneMaxFull n x) e).2.1) := rfl
    rw [hs] at hst hkeep
    simp only at hst hkeep
    rcases hst with ⟨h1, h2, c, hc1, h3⟩ | ⟨h1, h2, h3⟩
    · rw [hn] at hc1
      obtain ⟨i, hik, rfl⟩ := List.mem_map.1 hc1
      have hin := (hk i).1 hik
      simp only at h3
      rw [C01_oneMax_incr n x i hin, ← flipBitAt_eq] at h3
      have hxi : oneMaxFull n (flipBitAt i x) = oneMaxFull n x + 1 := by
        have e1 := C01_oneMax_incr n x i hin
        rw [← flipBitAt_eq] at e1
        rw [h3] at h2
        simp only at h2
        rw [← e1] at h2 ⊢
        unfold oneMaxIncr at h2 ⊢
        split_ifs at h2 ⊢
        · rfl
        · omega
      have hz' : zeros n (flipBitAt i x) = z := by
        have a := full_zeros n x
        have b := full_zeros n (flipBitAt i x)
        omega
      obtain ⟨l, hl, hlen, y, e', hlast, hy⟩ := ih fuel (t + 1) (flipBitAt i x) (lsStep ex t (x, oneMaxFull n x) e).2.1 hkeep
        hz' (by omega)
      refine ⟨((lsStep ex t (x, oneMaxFull n x) e).1, (lsStep ex t (x, oneMaxFull n x) e).2.1) :: l, ?_, by simp [hlen], y,
        e', ?_, hy⟩
      · simp only [lsLoop, hcont, h1, Bool.and_true, if_true, h3, hl, Option.map_some]
      · rw [List.getLast?_cons, hlast]; rfl
    · exfalso
      have : ∃ i ∈ List.range n, (!x i) = true := by
        rw [← List.countP_pos_iff]
        show 0 < zeros n x
        omega
      obtain ⟨i, hir, hxi⟩ := this
      have := h3 ⟨i, oneMaxIncr x (oneMaxFull n x) i⟩ (by
        rw [hn]; exact List.mem_map.2 ⟨i, (hk i).2 (List.mem_range.1 hir), rfl⟩)
      have hf : x i = false := by simpa using hxi
      simp only [oneMaxIncr, hf, if_true] at this
      omega

/-- C387: with the incremental evaluation and all one-bit flips as neighbours, in any order, the simple, first-improvement and
random-best hill climbers end in the string of ones with fitness `n` after as many iterations as the start has zeros, and one more
which finds no better neighbour. -/
theorem C387_onemax (n : Nat) (nb : Nat → (Nat → Bool) × Int → List (Cand Nat Int)) (hnb : OneMaxNeighbours n nb)
    (r : Nat → Nat) (ex : Explorer ((Nat → Bool) × Int) (HC Nat Int))
    (hex : ex = simpleHC nb flipBitAt ∨ ex = firstHC false nb flipBitAt ∨ ex = randomBestHC r nb flipBitAt)
    (x : Nat → Bool) (e : HC Nat Int) (fuel : Nat) (hf : zeros n x < fuel) :
    ∃ y tr, localSearch (oneMaxFull n) ex (fun (_ : Unit) _ => (true, ())) (fun _ => ()) fuel x none e =
        some ((y, (n : Int)), tr, true) ∧ (∀ i < n, y i = true) ∧ tr.length = zeros n x + 1 := by
  have key : ∃ inv, Climbs ex nb flipBitAt inv ∧ (∀ s e, ex.isContinue s e = e.isAccept) ∧
      (∀ s e, ex.terminate s e = s) ∧ (∀ s e, inv (ex.initParam s e)) := by
    rcases hex with rfl | rfl | rfl
    · exact ⟨_, simpleHC_climbs nb _, fun _ _ => rfl, fun _ _ => rfl, fun _ _ => trivial⟩
    · exact ⟨_, firstHC_climbs false nb _, fun _ _ => rfl, fun _ _ => rfl, fun _ _ => trivial⟩
    · exact ⟨_, randomBestHC_climbs r nb _, fun _ _ => rfl, fun _ _ => rfl, fun _ _ => rfl⟩
  obtain ⟨inv, hc, hcont, hterm, hinit⟩ := key
  obtain ⟨l, hl, hlen, y, e', hlast, hy⟩ := climb_onemax hnb hc hcont _ fuel 0 x (ex.initParam (x, oneMaxFull n x) e)
    (hinit _ _) rfl hf
  refine ⟨y, l, ?_, hy, hlen⟩
  simp only [localSearch, Option.getD_none, hl, Option.map_some, hterm]
  rw [List.getLastD_eq_getLast?, hlast]
  rfl

/-- C387: on a royal road of blocks of at least two bits, the same climbers started on the string of zeros stop after one
iteration where they started: with fitness 0, the optimum being `m`. -/
theorem C387_royal_road (k m : Nat) (hk : 2 ≤ k) (nb : Nat → List Bool × Int → List (Cand Nat Int))
    (hnb : ∀ t s, ∃ keys : List Nat, (∀ i, i ∈ keys ↔ i < m * k) ∧ nb t s = keys.map fun i => ⟨i, (royalIncr k s.1 s.2 i).getD 0⟩)
    (app : Nat → List Bool → List Bool) (r : Nat → Nat) (ex : Explorer (List Bool × Int) (HC Nat Int))
    (hex : ex = simpleHC nb app ∨ ex = firstHC false nb app ∨ ex = randomBestHC r nb app) (e : HC Nat Int) (fuel : Nat)
    (hf : 0 < fuel) :
    (∃ tr, localSearch (fun x => (royalFull k x).getD 0) ex (fun (_ : Unit) _ => (true, ())) (fun _ => ()) fuel
        (List.replicate (m * k) false) none e = some ((List.replicate (m * k) false, 0), tr, true) ∧ tr.length = 1) ∧
    royalFull k (List.replicate (m * k) false) = some 0 ∧ royalFull k (List.replicate (m * k) true) = some (m : Int) ∧
    ∀ i < m * k, royalIncr k (List.replicate (m * k) false) 0 i = some 0 := by
  have hdiv : m * k / k = m := Nat.mul_div_cancel _ (by omega)
  have h0 : royalFull k (List.replicate (m * k) false) = some 0 := by
    rw [C07_royal_full k _ (by omega)]
    have : (List.range ((List.replicate (m * k) false).length / k)).countP (blockFull k (List.replicate (m * k) false)) = 0 := by
      rw [List.countP_eq_zero]
      intro i hi hb
      have := (blockFull_iff k _ i).1 hb 0 (by omega)
      rw [List.getElem?_replicate] at this
      split_ifs at this
      simp at this
    rw [this]; rfl
  have h1 : royalFull k (List.replicate (m * k) true) = some (m : Int) := by
    rw [C07_royal_full k _ (by omega)]
    have : (List.range ((List.replicate (m * k) true).length / k)).countP (blockFull k (List.replicate (m * k) true)) = m := by
      rw [List.length_replicate, hdiv]
      conv_rhs => rw [← List.length_range (n := m)]
      rw [List.countP_eq_length]
      intro i hi
      rw [blockFull_iff]
      intro j hj
      rw [List.mem_range] at hi
      rw [List.getElem?_replicate, if_pos]
      calc i * k + j < (i + 1) * k := by rw [Nat.succ_mul]; omega
        _ ≤ m * k := Nat.mul_le_mul_right k hi
    rw [this]
  have hi : ∀ i < m * k, royalIncr k (List.replicate (m * k) false) 0 i = some 0 := by
    intro i him
    rw [C07_royal_incr k (List.replicate (m * k) false) i (by omega) (by simpa [hdiv] using him) false
      (by rw [List.getElem?_replicate, if_pos him]) 0 h0, C07_royal_full k _ (by omega)]
    have : (List.range (((List.replicate (m * k) false).set i (!false)).length / k)).countP
        (blockFull k ((List.replicate (m * k) false).set i (!false))) = 0 := by
      rw [List.countP_eq_zero]
      intro b hb hfull
      have hfull := (blockFull_iff k _ b).1 hfull
      -- a position of the block other than `i`
      obtain ⟨j, hj, hne⟩ : ∃ j < k, b * k + j ≠ i := by
        by_cases h : b * k = i
        · exact ⟨1, by omega, by omega⟩
        · exact ⟨0, by omega, by omega⟩
      have := hfull j hj
      rw [List.getElem?_set_ne (by omega), List.getElem?_replicate] at this
      split_ifs at this
      simp at this
    rw [this]; rfl
  refine ⟨?_, h0, h1, hi⟩
  have key : ∃ inv, Climbs ex nb app inv ∧ (∀ s e, ex.isContinue s e = e.isAccept) ∧
      (∀ s e, ex.terminate s e = s) ∧ (∀ s e, inv (ex.initParam s e)) := by
    rcases hex with rfl | rfl | rfl
    · exact ⟨_, simpleHC_climbs nb _, fun _ _ => rfl, fun _ _ => rfl, fun _ _ => trivial⟩
    · exact ⟨_, firstHC_climbs false nb _, fun _ _ => rfl, fun _ _ => rfl, fun _ _ => trivial⟩
    · exact ⟨_, randomBestHC_climbs r nb _, fun _ _ => rfl, fun _ _ => rfl, fun _ _ => rfl⟩
  obtain ⟨inv, hc, hcont, hterm, hinit⟩ := key
  obtain ⟨fuel, rfl⟩ : ∃ f, fuel = f + 1 := ⟨fuel - 1, by omega⟩
  obtain ⟨keys, hkk, hn⟩ := hnb 0 (List.replicate (m * k) false, 0)
  have hst := hc.step 0 ((List.replicate (m * k) false, 0), ex.initParam (List.replicate (m * k) false, 0) e) (hinit _ _)
  have hs : stepTo ex 0 ((List.replicate (m * k) false, 0), ex.initParam (List.replicate (m * k) false, 0) e) =
    ((lsStep ex 0 (List.replicate (m * k) false, 0) (ex.initParam (List.replicate (m * k) false, 0) e)).1,
      (lsStep ex 0 (List.replicate (m * k) false, 0) (ex.initParam (List.replicate (m * k) false, 0) e)).2.1) := rfl
  rw [hs] at hst
  simp only at hst
  rcases hst with ⟨-, h2, c, hc1, h3⟩ | ⟨h1', h2, -⟩
  · rw [hn] at hc1
    obtain ⟨i, hik, rfl⟩ := List.mem_map.1 hc1
    rw [h3] at h2
    simp only [hi i ((hkk i).1 hik), Option.getD_some, lt_irrefl] at h2
  · refine ⟨[((List.replicate (m * k) false, 0),
      (lsStep ex 0 (List.replicate (m * k) false, 0) (ex.initParam (List.replicate (m * k) false, 0) e)).2.1)], ?_, rfl⟩
    simp only [localSearch, Option.getD_none, h0, Option.getD_some, lsLoop, hcont, h1', Bool.and_false, Bool.false_eq_true,
      if_false, Option.map_some, hterm, h2, List.getLastD_cons, List.getLastD_nil]

/-- Two of four bits are zero: three iterations; the neighbourhood in order. -/
example : OneMaxNeighbours 4 (fun _ s => (List.range 4).map fun i => ⟨i, oneMaxIncr s.1 s.2 i⟩) ∧
    zeros 4 (fun i => i % 2 == 0) = 2 :=
  ⟨fun _ _ => ⟨List.range 4, fun i => List.mem_range, rfl⟩, by decide⟩

end Paradiseo.LS
