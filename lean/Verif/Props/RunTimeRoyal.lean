/-
Property C400: how many generations an elitist algorithm needs on average on royal roads, and on anything.
-/
import Verif.Props.RunTime

open Finset

namespace Paradiseo.EO

open Paradiseo.Ops (bitMutation bitMutationAux)
open Paradiseo.IncrEval (royalFull blockFull blockFull_iff C07_royal_full)

/-- The number of blocks of `k` bits that are not complete. -/
def openBlocks (n k : Nat) (g : List Bool) : Nat := #{i ∈ range (n / k) | blockFull k g i = false}

theorem countP_card (m : Nat) (b : Nat → Bool) : (List.range m).countP b = #{i ∈ range m | b i = true} := by
  induction m with
  | zero => rfl
  | succ m ih =>
    rw [List.range_succ, List.countP_append, ih, range_add_one, filter_insert]
    by_cases h : b m = true
    · rw [if_pos h, card_insert_of_notMem (by simp)]
      simp [h]
    · rw [if_neg h]
      simp [h]

/-- The string with one block completed. -/
def complete (n k i : Nat) (g : List Bool) : List Bool := List.ofFn fun j : Fin n => g.getD j.1 false || decide (j.1 / k = i)
/-- The flips that complete it. -/
def completing (n k i : Nat) (g : List Bool) : Fin n → Bool := fun j => !g.getD j.1 false && decide (j.1 / k = i)

theorem completing_result {n : Nat} (k i : Nat) (g : List Bool) (hg : g.length = n) :
    (bitMutation (flipsOf (completing n k i g)) g).1 = complete n k i g := by
  apply bitMutationAux_to _ _ _ _ (by simp [complete, hg])
  intro j hj
  rw [Nat.zero_add, flipsOf, dif_pos (hg ▸ hj)]
  simp only [completing, complete, List.getElem_ofFn, List.getD_eq_getElem _ _ hj]
  cases g[j] <;> cases decide (j / k = i) <;> rfl

theorem complete_get {n k i : Nat} (g : List Bool) (j : Nat) (hj : j < n) :
    (complete n k i g)[j]? = some (g.getD j false || decide (j / k = i)) := by
  simp [complete, hj]

theorem open_complete {n k i : Nat} (hk : 0 < k) (g : List Bool) (hi : i < n / k) (ho : blockFull k g i = false) :
    openBlocks n k (complete n k i g) < openBlocks n k g := by
  apply card_lt_card
  rw [ssubset_iff_of_subset]
  · refine ⟨i, by simp [hi, ho], ?_⟩
    simp only [mem_filter, mem_range, hi, true_and, Bool.not_eq_false]
    rw [blockFull_iff]
    intro j hj
    have hlt : i * k + j < n := by
      have h1 : (i + 1) * k ≤ n / k * k := Nat.mul_le_mul_right k hi
      have h2 := Nat.div_mul_le_self n k
      have h3 : (i + 1) * k = i * k + k := by ring
      omega
    have hd : (i * k + j) / k = i := by rw [Nat.mul_comm, Nat.mul_add_div hk, Nat.div_eq_of_lt hj, Nat.add_zero]
    rw [complete_get g _ hlt, hd]
    simp
  · intro b hb
    simp only [mem_filter, mem_range] at hb ⊢
    refine ⟨hb.1, ?_⟩
    by_contra h
    have h : blockFull k g b = true := by simpa using h
    have : blockFull k (complete n k i g) b = true := by
      rw [blockFull_iff] at h ⊢
      intro j hj
      have hlt : b * k + j < n := by
        have h1 : (b + 1) * k ≤ n / k * k := Nat.mul_le_mul_right k hb.1
        have h2 := Nat.div_mul_le_self n k
        have h3 : (b + 1) * k = b * k + k := by ring
        omega
      rw [complete_get g _ hlt, List.getD_eq_getElem?_getD, h j hj]
      simp
    rw [this] at hb
    exact absurd hb.2 (by simp)

theorem completing_prob {n k i : Nat} (hk : 0 < k) (hi : i < n / k) (g : List Bool) {p : ℝ} (h0 : 0 ≤ p) (h1 : p ≤ 1 / 2) :
    p ^ k * (1 - p) ^ (n - k) ≤ flipProb p (completing n k i g) := by
  have hle : ∏ j : Fin n, (if j.1 / k = i then p else 1 - p) ≤ flipProb p (completing n k i g) := by
    apply prod_le_prod
    · intro j _; split_ifs <;> linarith
    · intro j _
      by_cases h : j.1 / k = i
      · rw [if_pos h]; split_ifs <;> linarith
      · rw [if_neg h, if_neg (by simp [completing, h])]
  refine le_trans (le_of_eq ?_) hle
  rw [Fin.prod_univ_eq_prod_range (fun j => if j / k = i then p else 1 - p) n, prod_ite, prod_const, prod_const]
  have hc : (range n).filter (fun j => j / k = i) = Ico (i * k) (i * k + k) := by
    ext j
    have h1 : (i + 1) * k ≤ n / k * k := Nat.mul_le_mul_right k hi
    have h2 := Nat.div_mul_le_self n k
    have h3 : (i + 1) * k = i * k + k := by ring
    simp only [mem_filter, mem_range, mem_Ico, Nat.div_eq_iff hk]
    omega
  have hcard : #((range n).filter fun j => j / k = i) = k := by rw [hc]; simp
  have hsum := card_filter_add_card_filter_not (s := range n) (fun j => j / k = i)
  rw [card_range, hcard] at hsum
  rw [hcard, show #((range n).filter fun j => ¬ j / k = i) = n - k by omega]

open Classical in
/-- **C400**: on royal roads with blocks of `k` bits the expected number of generations is at most the number of blocks that are not complete
in any individual of the start divided by `p^k (1-p)^(n-k)`, for rates up to one half. -/
theorem C400_royal_road {n k : Nat} (hk : 0 < k) (A : MutEA n Int) (hf : ∀ g, A.f g = (royalFull k g).getD 0) (hpar : BestParent A)
    (hel : ∀ t, Elitist (A.replace t)) (hoth : ∀ t φ pop, ∀ g ∈ A.others t φ pop, g.length = n) (p : ℝ) (h0 : 0 < p) (h1 : p ≤ 1 / 2)
    (start : List (Ind (List Bool) Int)) (ht : TrueFit A.f start) (hlen : ∀ x ∈ start, x.genome.length = n)
    (x0 : Ind (List Bool) Int) (hx0 : x0 ∈ start) (T : Nat) :
    ∑ t ∈ range T, ∑ b : Fin t → Fin n → Bool with Misses A start b, ∏ k, flipProb p (b k) ≤
      openBlocks n k x0.genome / (p ^ k * (1 - p) ^ (n - k)) := by
  have hfit : ∀ g : List Bool, g.length = n → A.f g + openBlocks n k g = (n / k : Nat) := by
    intro g hg
    rw [hf, C07_royal_full k g hk, hg, Option.getD_some]
    have h1 : (List.range (n / k)).countP (blockFull k g) = #{i ∈ range (n / k) | blockFull k g i = true} := by
      exact countP_card (n / k) (blockFull k g)
    have h2 := card_filter_add_card_filter_not (s := range (n / k)) (fun i => blockFull k g i = true)
    simp only [Bool.not_eq_true, card_range] at h2
    rw [h1, openBlocks]
    exact_mod_cast h2
  have hpp : 0 < 1 - p := by linarith
  have key := C399_levels A hpar hel hoth p h0.le (by linarith) (openBlocks n k)
    (fun g h hg hh hgh => by have := hfit g hg; have := hfit h hh; omega)
    (fun g h hg hh hz => by have := hfit g hg; have := hfit h hh; omega)
    (fun _ => p ^ k * (1 - p) ^ (n - k)) (fun _ => by positivity)
    (fun g l hg hl => by
      have hne : (range (n / k)).filter (fun i => blockFull k g i = false) ≠ ∅ := by
        intro h
        rw [openBlocks, h] at hl
        simp at hl
      obtain ⟨i, hi⟩ := nonempty_iff_ne_empty.2 hne
      simp only [mem_filter, mem_range] at hi
      refine (completing_prob hk hi.1 g h0.le h1).trans
        (single_le_sum (f := flipProb p) (fun φ _ => flipProb_nonneg h0.le (by linarith) φ) ?_)
      simp only [mem_filter, mem_univ, true_and, completing_result k i g hg]
      have := open_complete hk g hi.1 hi.2
      omega)
    start ht hlen x0 hx0 T
  simpa [sum_const, div_eq_mul_inv] using key

open Classical in
/-- With the usual rate `1/n`: at most `e m n^k` generations for `m` blocks of `k` bits. -/
theorem C400_usual_rate {n k : Nat} (hn : 2 ≤ n) (hk : 0 < k) (A : MutEA n Int) (hf : ∀ g, A.f g = (royalFull k g).getD 0)
    (hpar : BestParent A) (hel : ∀ t, Elitist (A.replace t)) (hoth : ∀ t φ pop, ∀ g ∈ A.others t φ pop, g.length = n)
    (start : List (Ind (List Bool) Int)) (hne : start ≠ []) (ht : TrueFit A.f start) (hlen : ∀ x ∈ start, x.genome.length = n) (T : Nat) :
    ∑ t ∈ range T, ∑ b : Fin t → Fin n → Bool with Misses A start b, ∏ k, flipProb (1 / n) (b k) ≤
      Real.exp 1 * (n / k : Nat) * (n : ℝ) ^ k := by
  obtain ⟨x0, hx0⟩ := List.exists_mem_of_ne_nil _ hne
  have hn0 : (0 : ℝ) < n := by exact_mod_cast (by omega : 0 < n)
  have hn2 : (2 : ℝ) ≤ n := by exact_mod_cast hn
  have hhalf : (1 : ℝ) / n ≤ 1 / 2 := one_div_le_one_div_of_le (by norm_num) hn2
  have hpos : (0 : ℝ) < 1 - 1 / n := by linarith
  have hinv : (0 : ℝ) < 1 / n := by positivity
  have hle1 : (1 : ℝ) - 1 / n ≤ 1 := by linarith
  refine (C400_royal_road hk A hf hpar hel hoth (1 / n) (by positivity) hhalf start ht hlen x0 hx0 T).trans ?_
  have hm : openBlocks n k x0.genome ≤ n / k := (card_filter_le _ _).trans (by simp)
  have hd : 1 / Real.exp 1 ≤ (1 - 1 / (n : ℝ)) ^ (n - k) :=
    (usual_factor hn).trans (pow_le_pow_of_le_one hpos.le hle1 (by omega))
  have he := Real.exp_pos 1
  calc (openBlocks n k x0.genome : ℝ) / ((1 / n) ^ k * (1 - 1 / n) ^ (n - k))
      ≤ (n / k : Nat) / ((1 / n) ^ k * (1 / Real.exp 1)) :=
        div_le_div₀ (by positivity) (by exact_mod_cast hm) (by positivity) (mul_le_mul_of_nonneg_left hd (by positivity))
    _ = Real.exp 1 * (n / k : Nat) * (n : ℝ) ^ k := by
        rw [one_div_pow]
        field_simp

open Classical in
/-- **C400**: on any fitness function, whatever the parent of the mutant and the other offspring: at most `1 / min(p, 1-p)^n`. -/
theorem C400_any {F : Type} [LinearOrder F] [Inhabited F] {n : Nat} (A : MutEA n F) (hpar : ∀ t pop, (A.parent t pop).length = n)
    (hel : ∀ t, Elitist (A.replace t)) (p : ℝ) (h0 : 0 < p) (h1 : p < 1) (start : List (Ind (List Bool) F))
    (hne : start ≠ []) (ht : TrueFit A.f start) (T : Nat) :
    ∑ t ∈ range T, ∑ b : Fin t → Fin n → Bool with Misses A start b, ∏ k, flipProb p (b k) ≤ 1 / min p (1 - p) ^ n := by
  have hm : 0 < min p (1 - p) := lt_min h0 (by linarith)
  have hm1 : min p (1 - p) ≤ 1 := (min_le_left _ _).trans h1.le
  have hpow : 0 < min p (1 - p) ^ n := pow_pos hm n
  have hpow1 : min p (1 - p) ^ n ≤ 1 := pow_le_one₀ hm.le hm1
  refine (sum_le_sum fun t _ => C376_bound A hpar hel p h0.le h1.le start hne ht t).trans ?_
  rw [le_div_iff₀ hpow]
  have h := geom_sum_mul (1 - min p (1 - p) ^ n) T
  have h2 : 0 ≤ (1 - min p (1 - p) ^ n) ^ T := pow_nonneg (by linarith) T
  nlinarith

/-- The (1+1) algorithm on a royal road, from zeros. -/
def onePlusOneRoyal (n k : Nat) : MutEA n Int where
  f g := (royalFull k g).getD 0
  parent _ pop := match pop with
    | [] => []
    | x :: l => (l.foldl (fun b y => if (royalFull k b.genome).getD 0 < (royalFull k y.genome).getD 0 then y else b) x).genome
  others _ _ _ := []
  replace _ := plusReplacement fun l => l.mergeSort fun a b => decide (b.repFitness ≤ a.repFitness)

example (n k : Nat) : BestParent (onePlusOneRoyal n k) ∧ (∀ t, Elitist ((onePlusOneRoyal n k).replace t)) ∧
    TrueFit (onePlusOneRoyal 4 2).f [⟨[true, true, false, false], 1, false⟩] ∧ openBlocks 4 2 [true, true, false, false] = 1 := by
  refine ⟨fun t pop hne _ => ?_, fun t => C376_plus _ (isSort_mergeSort _), ?_, by decide⟩
  · match pop, hne with
    | x :: l, _ =>
      obtain ⟨h1, h2⟩ := foldl_best (fun x : Ind (List Bool) Int => (royalFull k x.genome).getD 0) l x
      exact ⟨_, h1, rfl, h2⟩
  · intro x hx
    simp only [List.mem_singleton] at hx
    subst hx
    decide

end Paradiseo.EO
