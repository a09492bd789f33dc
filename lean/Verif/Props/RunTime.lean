/-
Property C399: how many generations an elitist algorithm with bit-flip mutation needs on average.
-/
import Verif.Props.EAConvergence
import Verif.Props.OneMaxClimb
import Mathlib.Analysis.SpecialFunctions.Exp
import Mathlib.Analysis.Complex.ExponentialBounds
import Mathlib.Tactic.FieldSimp

open Finset

namespace Paradiseo.EO

open Paradiseo.Ops (bitMutation bitMutationAux)
open Paradiseo.IncrEval (oneMaxFull)
open Paradiseo.LS (zeros full_zeros)
open Run (EA RunSt)

/-! ### The method of fitness levels -/

/-- The probability that the process is not at level 0 after `T` draws. -/
def missProb {σ A : Type} [Fintype A] (w : A → ℝ) (step : A → σ → σ) (level : σ → Nat) (T : Nat) (s : σ) : ℝ :=
  ∑ b : Fin T → A, if level (after step (List.ofFn b) s) = 0 then 0 else ∏ k, w (b k)

theorem missProb_zero {σ A : Type} [Fintype A] (w : A → ℝ) (step : A → σ → σ) (level : σ → Nat) (s : σ) :
    missProb w step level 0 s = if level s = 0 then 0 else 1 := by
  simp [missProb, after]

theorem missProb_succ {σ A : Type} [Fintype A] (w : A → ℝ) (step : A → σ → σ) (level : σ → Nat) (T : Nat) (s : σ) :
    missProb w step level (T + 1) s = ∑ a, w a * missProb w step level T (step a s) := by
  unfold missProb
  rw [← (Fin.consEquiv fun _ => A).sum_comp, Fintype.sum_prod_type]
  simp only [Fin.consEquiv_apply, List.ofFn_succ, Fin.cons_zero, Fin.cons_succ, after, Fin.prod_univ_succ]
  refine sum_congr rfl fun a _ => ?_
  rw [mul_sum]
  exact sum_congr rfl fun b _ => by split_ifs <;> simp

/-- A process that never goes up and leaves level `k` downwards with probability at least `q k`: the probabilities of not having arrived
yet add up to at most the sum of `1 / q k` over the levels below the start. -/
theorem levels {σ A : Type} [Fintype A] (w : A → ℝ) (h0 : ∀ a, 0 ≤ w a) (h1 : ∑ a, w a = 1) (q : Nat → ℝ) (hq : ∀ k, 0 < q (k + 1))
    (step : A → σ → σ) (level : σ → Nat) (inv : σ → Prop) (hi : ∀ a s, inv s → inv (step a s))
    (hd : ∀ a s, inv s → level (step a s) ≤ level s)
    (hp : ∀ s k, inv s → level s = k + 1 → q (k + 1) ≤ ∑ a with level (step a s) ≤ k, w a)
    (T : Nat) (s : σ) (hs : inv s) :
    ∑ t ∈ range T, missProb w step level t s ≤ ∑ k ∈ range (level s), 1 / q (k + 1) := by
  have hmono : ∀ i j, i ≤ j → ∑ k ∈ range i, 1 / q (k + 1) ≤ ∑ k ∈ range j, 1 / q (k + 1) := fun i j hij =>
    sum_le_sum_of_subset_of_nonneg (range_subset_range.2 hij) fun k _ _ => (one_div_pos.2 (hq k)).le
  induction T generalizing s with
  | zero => simpa using hmono 0 (level s) (Nat.zero_le _)
  | succ T ih =>
    have e : ∑ t ∈ range (T + 1), missProb w step level t s =
        (if level s = 0 then 0 else 1) + ∑ a, w a * ∑ t ∈ range T, missProb w step level t (step a s) := by
      rw [sum_range_succ', add_comm, missProb_zero]
      congr 1
      simp only [missProb_succ, mul_sum]
      rw [sum_comm]
    rw [e]
    have hle : ∑ a, w a * ∑ t ∈ range T, missProb w step level t (step a s) ≤
        ∑ a, w a * ∑ k ∈ range (level (step a s)), 1 / q (k + 1) :=
      sum_le_sum fun a _ => mul_le_mul_of_nonneg_left (ih _ (hi a s hs)) (h0 a)
    refine (add_le_add_right hle _).trans ?_
    rcases hk : level s with - | k
    · have : ∀ a, level (step a s) = 0 := fun a => by have := hd a s hs; omega
      simp [this]
    · have hk1 := hp s k hs hk
      have hterm : ∀ a, w a * ∑ j ∈ range (level (step a s)), 1 / q (j + 1) ≤
          w a * ∑ j ∈ range (k + 1), 1 / q (j + 1) - if level (step a s) ≤ k then w a * (1 / q (k + 1)) else 0 := by
        intro a
        split_ifs with h
        · have := mul_le_mul_of_nonneg_left (hmono _ _ h) (h0 a)
          rw [sum_range_succ, mul_add]
          linarith
        · have := mul_le_mul_of_nonneg_left (hmono _ _ (hk ▸ hd a s hs)) (h0 a)
          linarith
      have hsum := sum_le_sum fun a (_ : a ∈ univ) => hterm a
      rw [sum_sub_distrib, ← sum_mul, h1, one_mul, ← sum_filter, ← sum_mul] at hsum
      have hone : 1 ≤ (∑ a with level (step a s) ≤ k, w a) * (1 / q (k + 1)) := by
        rw [mul_one_div, le_div_iff₀ (hq k), one_mul]
        exact hk1
      rw [if_neg (Nat.succ_ne_zero k)]
      linarith

/-! ### The algorithm -/

variable {F : Type} [LinearOrder F] [Inhabited F]

/-- The parent of the mutant is a best individual of the population. -/
def BestParent {n : Nat} (A : MutEA n F) : Prop :=
  ∀ t pop, pop ≠ [] → (∀ x ∈ pop, x.genome.length = n) →
    ∃ x ∈ pop, A.parent t pop = x.genome ∧ ∀ y ∈ pop, A.f y.genome ≤ A.f x.genome

theorem bitMutation_length (b : Nat → Bool) (l : List Bool) : (bitMutation b l).1.length = l.length := by
  have key : ∀ (l : List Bool) i, (bitMutationAux b i l).1.length = l.length := by
    intro l
    induction l with
    | nil => intro i; rfl
    | cons x l ih => intro i; simp only [bitMutationAux]; split_ifs <;> simp [ih]
  exact key l 0

theorem generation_from {n : Nat} (A : MutEA n F) (hel : ∀ t, Elitist (A.replace t)) (φ : Fin n → Bool)
    (s s' : RunSt (List Bool) F Unit) (hne : s.pop ≠ []) (h : (A.ea φ).generation s = .ok s') :
    s'.gens = s.gens + 1 ∧
    ∀ x ∈ s'.pop, x ∈ s.pop ∨ x.genome ∈ (bitMutation (flipsOf φ) (A.parent s.gens s.pop)).1 :: A.others s.gens φ s.pop := by
  set off := (((bitMutation (flipsOf φ) (A.parent s.gens s.pop)).1 :: A.others s.gens φ s.pop).map
    (Ind.new (F := F))) with hoff
  have hev := C47_evalPop A.f s.evals off
  obtain ⟨pop', rest, hr, hlen, hsub, -⟩ := hel s.gens s.pop (evalPop A.f s.evals off).2 hne
  have hb : (A.ea φ).breed s.gens s.pop = .ok off := rfl
  unfold EA.generation at h
  rw [hb] at h
  simp only at h
  have hr' : (A.ea φ).replace s.gens s.pop (evalPop (A.ea φ).f s.evals off).2 = .ok (pop', rest) := hr
  rw [hr'] at h
  simp only [hlen, gt_iff_lt, lt_irrefl, if_false, Except.ok.injEq] at h
  subst h
  refine ⟨rfl, fun x hx => (hsub x hx).imp id fun hx => ?_⟩
  have hm : x.genome ∈ (evalPop A.f s.evals off).2.map (·.genome) := List.mem_map_of_mem hx
  rw [hev.1, hoff] at hm
  simpa [Ind.new, Function.comp_def] using hm

open Classical in
/-- **C399**: fitness levels.  Let strings of `n` bits have levels such that a better string has no higher level and level 0 is optimal,
and let the bit-flip mutation of a string of level `k` have a lower level with probability at least `q k`.  The probabilities of not having
an optimum after `0, 1, 2, ...` generations, which add up to the expected number of generations, add up to at most the sum of `1 / q k`. -/
theorem C399_levels {n : Nat} (A : MutEA n F) (hpar : BestParent A) (hel : ∀ t, Elitist (A.replace t))
    (hoth : ∀ t φ pop, ∀ g ∈ A.others t φ pop, g.length = n) (p : ℝ) (h0 : 0 ≤ p) (h1 : p ≤ 1)
    (lev : List Bool → Nat) (hlev : ∀ g h : List Bool, g.length = n → h.length = n → A.f g ≤ A.f h → lev h ≤ lev g)
    (hopt : ∀ g h : List Bool, g.length = n → h.length = n → lev g = 0 → A.f h ≤ A.f g)
    (q : Nat → ℝ) (hq : ∀ k, 0 < q (k + 1))
    (himp : ∀ (g : List Bool) k, g.length = n → lev g = k + 1 →
      q (k + 1) ≤ ∑ φ : Fin n → Bool with lev (bitMutation (flipsOf φ) g).1 ≤ k, flipProb p φ)
    (start : List (Ind (List Bool) F)) (ht : TrueFit A.f start) (hlen : ∀ x ∈ start, x.genome.length = n)
    (x0 : Ind (List Bool) F) (hx0 : x0 ∈ start) (T : Nat) :
    ∑ t ∈ range T, ∑ b : Fin t → Fin n → Bool with Misses A start b, ∏ k, flipProb p (b k) ≤
      ∑ k ∈ range (lev x0.genome), 1 / q (k + 1) := by
  have hne : start ≠ [] := List.ne_nil_of_mem hx0
  let step : (Fin n → Bool) → RunSt (List Bool) F Unit → RunSt (List Bool) F Unit := fun φ s =>
    match (A.ea φ).generation s with
    | .error _ => s
    | .ok s' => s'
  let inv : RunSt (List Bool) F Unit → Prop := fun s => s.pop ≠ [] ∧ TrueFit A.f s.pop ∧ ∀ x ∈ s.pop, x.genome.length = n
  let level : RunSt (List Bool) F Unit → Nat := fun s => lev (A.parent s.gens s.pop)
  have hplen : ∀ s, inv s → (A.parent s.gens s.pop).length = n := by
    intro s hs
    obtain ⟨x, hx, he, -⟩ := hpar s.gens s.pop hs.1 hs.2.2
    rw [he]; exact hs.2.2 x hx
  have hstep : ∀ φ s, inv s → ∃ s', (A.ea φ).generation s = .ok s' ∧ step φ s = s' ∧ inv s' ∧
      (∀ x ∈ s.pop, lev (A.parent s'.gens s'.pop) ≤ lev x.genome) ∧
      lev (A.parent s'.gens s'.pop) ≤ lev (bitMutation (flipsOf φ) (A.parent s.gens s.pop)).1 := by
    intro φ s hs
    obtain ⟨s', h, h2, h3, h4, y, hy, h5⟩ := generation_ok A hel φ s hs.1 hs.2.1
    have hfrom := (generation_from A hel φ s s' hs.1 h).2
    have hml : (bitMutation (flipsOf φ) (A.parent s.gens s.pop)).1.length = n := by rw [bitMutation_length]; exact hplen s hs
    have hl' : ∀ x ∈ s'.pop, x.genome.length = n := by
      intro x hx
      rcases hfrom x hx with hx | hx
      · exact hs.2.2 x hx
      · rcases List.mem_cons.1 hx with he | hx
        · rw [he]; exact hml
        · exact hoth _ _ _ _ hx
    obtain ⟨z, hz, hze, hzb⟩ := hpar s'.gens s'.pop h2 hl'
    refine ⟨s', h, by simp only [step, h], ⟨h2, h3, hl'⟩, fun x hx => ?_, ?_⟩
    · obtain ⟨y, hy, hxy⟩ := h4 x hx
      rw [hze]
      exact hlev _ _ (hs.2.2 x hx) (hl' z hz) (hxy.trans (hzb y hy))
    · rw [hze]
      exact hlev _ _ hml (hl' z hz) (h5.trans (hzb y hy))
  have hrun : ∀ l s, inv s → A.gens l s = .ok (after step l s) ∧ inv (after step l s) := by
    intro l
    induction l with
    | nil => exact fun s hs => ⟨rfl, hs⟩
    | cons φ l ih =>
      intro s hs
      obtain ⟨s', h, hst, hinv, -⟩ := hstep φ s hs
      simp only [MutEA.gens, after, h, hst]
      exact ih s' hinv
  have hs0 : inv ⟨start, 0, (), 0, []⟩ := ⟨hne, ht, hlen⟩
  have key := levels (flipProb p) (flipProb_nonneg h0 h1) (flipProb_sum n p) q hq step level inv
    (fun φ s hs => by obtain ⟨s', -, hst, hinv, -⟩ := hstep φ s hs; rw [hst]; exact hinv)
    (fun φ s hs => by
      obtain ⟨s', -, hst, -, hle, -⟩ := hstep φ s hs
      obtain ⟨x, hx, he, -⟩ := hpar s.gens s.pop hs.1 hs.2.2
      simp only [level, hst, he]
      exact hle x hx)
    (fun s k hs hk => by
      refine (himp _ k (hplen s hs) hk).trans (sum_le_sum_of_subset_of_nonneg (fun φ hφ => ?_) fun φ _ _ => flipProb_nonneg h0 h1 φ)
      simp only [mem_filter, mem_univ, true_and] at hφ ⊢
      obtain ⟨s', -, hst, -, -, hle⟩ := hstep φ s hs
      simp only [level, hst]
      exact hle.trans hφ)
    T ⟨start, 0, (), 0, []⟩ hs0
  have hstart : level ⟨start, 0, (), 0, []⟩ ≤ lev x0.genome := by
    obtain ⟨x, hx, he, hb⟩ := hpar 0 start hne hlen
    simp only [level, he]
    exact hlev _ _ (hlen x0 hx0) (hlen x hx) (hb x0 hx0)
  refine le_trans (sum_le_sum fun t _ => ?_) (key.trans ?_)
  · rw [missProb, sum_filter]
    refine sum_le_sum fun b _ => ?_
    obtain ⟨hg, hinv⟩ := hrun (List.ofFn b) ⟨start, 0, (), 0, []⟩ hs0
    have hw : 0 ≤ ∏ k, flipProb p (b k) := prod_nonneg fun k _ => flipProb_nonneg h0 h1 _
    by_cases hl : level (after step (List.ofFn b) ⟨start, 0, (), 0, []⟩) = 0
    · have : ¬ Misses A start b := by
        unfold Misses
        rw [hg, not_not]
        refine ⟨_, rfl, ?_⟩
        obtain ⟨x, hx, he, -⟩ := hpar (after step (List.ofFn b) ⟨start, 0, (), 0, []⟩).gens _ hinv.1 hinv.2.2
        refine ⟨x, hx, hinv.2.1 x hx, fun g hg => hopt _ _ (hinv.2.2 x hx) hg ?_⟩
        rw [← he]; exact hl
      rw [if_neg this, if_pos hl]
    · rw [if_neg hl]
      split_ifs
      · exact le_rfl
      · exact hw
  · exact sum_le_sum_of_subset_of_nonneg (range_subset_range.2 hstart) fun k _ _ => (one_div_pos.2 (hq k)).le

/-! ### One max -/

/-- The bits of a list. -/
def bitsOf (g : List Bool) (i : Nat) : Bool := g.getD i false

/-- The flip of one bit. -/
def flipAt {n : Nat} (i : Fin n) : Fin n → Bool := fun j => decide (j = i)

theorem flipAt_prob {n : Nat} (p : ℝ) (i : Fin n) : flipProb p (flipAt i) = p * (1 - p) ^ (n - 1) := by
  unfold flipProb flipAt
  rw [← mul_prod_erase univ _ (mem_univ i)]
  have : ∏ j ∈ univ.erase i, (if decide (j = i) = true then p else 1 - p) = ∏ _j ∈ univ.erase i, (1 - p) :=
    prod_congr rfl fun j hj => by simp [ne_of_mem_erase hj]
  rw [this, prod_const, card_erase_of_mem (mem_univ i), card_univ, Fintype.card_fin]
  simp

theorem zeros_set {n i : Nat} (g : List Bool) (hg : g.length = n) (hi : i < n) (hb : g.getD i false = false) :
    zeros n (bitsOf (g.set i true)) + 1 = zeros n (bitsOf g) := by
  have key : ∀ m, i < m → zeros m (bitsOf (g.set i true)) + 1 = zeros m (bitsOf g) := by
    intro m
    induction m with
    | zero => intro h; omega
    | succ m ih =>
      intro h
      have hsame : ∀ j, j ≠ i → bitsOf (g.set i true) j = bitsOf g j := by
        intro j hj
        simp [bitsOf, List.getD_eq_getElem?_getD, List.getElem?_set_ne (Ne.symm hj)]
      have hself : bitsOf (g.set i true) i = true := by
        simp [bitsOf, List.getD_eq_getElem?_getD, hg, hi]
      unfold zeros at *
      rw [List.range_succ, List.countP_append, List.countP_append]
      simp only [List.countP_cons, List.countP_nil]
      by_cases hm : m = i
      · subst hm
        have h2 : (List.range m).countP (fun j => !bitsOf (g.set m true) j) = (List.range m).countP fun j => !bitsOf g j :=
          List.countP_congr fun j hj => by rw [hsame j (by have := List.mem_range.1 hj; omega)]
        have h3 : bitsOf g m = false := hb
        rw [h2, hself, h3]
        simp
      · rw [hsame m hm]
        have := ih (by omega)
        omega
  exact key n hi

theorem flipAt_result {n : Nat} (g : List Bool) (hg : g.length = n) (i : Fin n) (hb : g.getD i.1 false = false) :
    (bitMutation (flipsOf (flipAt i)) g).1 = g.set i.1 true := by
  apply bitMutationAux_to _ _ _ _ (by simp)
  intro k hk
  rw [Nat.zero_add, flipsOf, dif_pos (hg ▸ hk)]
  by_cases hki : k = i.1
  · subst hki
    rw [List.getD_eq_getElem _ _ hk] at hb
    simp [flipAt, hb]
  · have : (⟨k, hg ▸ hk⟩ : Fin n) ≠ i := fun h => hki (congrArg Fin.val h)
    simp [flipAt, this, List.getElem_set_ne (Ne.symm hki)]

theorem zeros_card (n : Nat) (x : Nat → Bool) : #{i : Fin n | x i.1 = false} = zeros n x := by
  induction n with
  | zero => simp [zeros]
  | succ n ih =>
    unfold zeros at *
    rw [card_filter] at ih ⊢
    rw [List.range_succ, List.countP_append, ← ih, Fin.sum_univ_castSucc]
    simp only [List.countP_cons, List.countP_nil, Fin.val_castSucc, Fin.val_last]
    by_cases h : x n = false <;> simp [h]

/-- The chance to have fewer zeros. -/
theorem improve {n : Nat} {p : ℝ} (h0 : 0 ≤ p) (h1 : p ≤ 1) (g : List Bool) (hg : g.length = n) (k : Nat) (hk : zeros n (bitsOf g) = k + 1) :
    ((k + 1 : Nat) : ℝ) * (p * (1 - p) ^ (n - 1)) ≤
      ∑ φ : Fin n → Bool with zeros n (bitsOf (bitMutation (flipsOf φ) g).1) ≤ k, flipProb p φ := by
  classical
  have hinj : Function.Injective (flipAt (n := n)) := fun i j h => by
    have := congrFun h i
    simpa [flipAt] using this
  calc ((k + 1 : Nat) : ℝ) * (p * (1 - p) ^ (n - 1)) = ∑ i : Fin n with bitsOf g i.1 = false, flipProb p (flipAt i) := by
        simp only [flipAt_prob, sum_const, nsmul_eq_mul]
        rw [zeros_card n (bitsOf g), hk]
    _ = ∑ φ ∈ ({i : Fin n | bitsOf g i.1 = false} : Finset (Fin n)).image flipAt, flipProb p φ :=
        (sum_image fun i _ j _ h => hinj h).symm
    _ ≤ _ := by
        refine sum_le_sum_of_subset_of_nonneg (fun φ hφ => ?_) fun φ _ _ => flipProb_nonneg h0 h1 φ
        obtain ⟨i, hi, rfl⟩ := mem_image.1 hφ
        simp only [mem_filter, mem_univ, true_and] at hi ⊢
        rw [flipAt_result g hg i hi]
        have := zeros_set g hg i.2 hi
        omega

open Classical in
/-- **C399**: on the number of ones, from any start with an individual of `z` zeros, the expected number of generations until an optimum is
in the population is at most the sum of `1 / (k p (1-p)^(n-1))` for `k = 1, ..., z`. -/
theorem C399_onemax {n : Nat} (A : MutEA n Int) (hf : ∀ g, A.f g = oneMaxFull n (bitsOf g)) (hpar : BestParent A)
    (hel : ∀ t, Elitist (A.replace t)) (hoth : ∀ t φ pop, ∀ g ∈ A.others t φ pop, g.length = n) (p : ℝ) (h0 : 0 < p) (h1 : p < 1)
    (start : List (Ind (List Bool) Int)) (ht : TrueFit A.f start) (hlen : ∀ x ∈ start, x.genome.length = n)
    (x0 : Ind (List Bool) Int) (hx0 : x0 ∈ start) (T : Nat) :
    ∑ t ∈ range T, ∑ b : Fin t → Fin n → Bool with Misses A start b, ∏ k, flipProb p (b k) ≤
      ∑ k ∈ range (zeros n (bitsOf x0.genome)), 1 / (((k + 1 : Nat) : ℝ) * (p * (1 - p) ^ (n - 1))) := by
  have hpp : 0 < 1 - p := by linarith
  refine C399_levels A hpar hel hoth p h0.le h1.le (fun g => zeros n (bitsOf g)) (fun g h _ _ hgh => ?_) (fun g h _ _ hz => ?_)
    (fun k => (k : ℝ) * (p * (1 - p) ^ (n - 1))) (fun k => by positivity) (fun g k hg hk => improve h0.le h1.le g hg k hk)
    start ht hlen x0 hx0 T
  · rw [hf, hf] at hgh
    have := full_zeros n (bitsOf g)
    have := full_zeros n (bitsOf h)
    omega
  · rw [hf, hf]
    have := full_zeros n (bitsOf g)
    have := full_zeros n (bitsOf h)
    have hz : zeros n (bitsOf g) = 0 := hz
    omega

/-- With rate `1/n`, all bits but one are left alone with probability at least `1/e`. -/
theorem usual_factor {n : Nat} (hn : 2 ≤ n) : 1 / Real.exp 1 ≤ (1 - 1 / (n : ℝ)) ^ (n - 1) := by
  have hn0 : (0 : ℝ) < n := by exact_mod_cast (by omega : 0 < n)
  have hn1 : (1 : ℝ) < n := by exact_mod_cast (by omega : 1 < n)
  have hp1 : (1 : ℝ) / n < 1 := by rw [div_lt_one hn0]; exact hn1
  have hpos : (0 : ℝ) < 1 - 1 / n := by linarith
  have hm : ((n - 1 : Nat) : ℝ) = n - 1 := by rw [Nat.cast_sub (by omega)]; simp
  have h1 : (1 - 1 / (n : ℝ))⁻¹ = 1 / ((n : ℝ) - 1) + 1 := by
    have : (n : ℝ) - 1 ≠ 0 := by linarith
    field_simp
    ring
  have h2 : ((1 - 1 / (n : ℝ))⁻¹) ^ (n - 1) ≤ Real.exp 1 := by
    rw [h1]
    calc (1 / ((n : ℝ) - 1) + 1) ^ (n - 1) ≤ Real.exp (1 / ((n : ℝ) - 1)) ^ (n - 1) := by
          apply pow_le_pow_left₀ _ (Real.add_one_le_exp _)
          have : (0 : ℝ) < n - 1 := by linarith
          positivity
      _ = Real.exp 1 := by
          rw [← Real.exp_nat_mul, hm]
          congr 1
          have : (n : ℝ) - 1 ≠ 0 := by linarith
          field_simp
  rw [inv_pow] at h2
  rw [one_div_le (Real.exp_pos 1) (pow_pos hpos _), one_div]
  exact h2

open Classical in
/-- With the usual rate `1/n`: at most `e n (1 + 1/2 + ... + 1/n)` generations on average, from any start. -/
theorem C399_usual_rate {n : Nat} (hn : 2 ≤ n) (A : MutEA n Int) (hf : ∀ g, A.f g = oneMaxFull n (bitsOf g)) (hpar : BestParent A)
    (hel : ∀ t, Elitist (A.replace t)) (hoth : ∀ t φ pop, ∀ g ∈ A.others t φ pop, g.length = n)
    (start : List (Ind (List Bool) Int)) (hne : start ≠ []) (ht : TrueFit A.f start) (hlen : ∀ x ∈ start, x.genome.length = n) (T : Nat) :
    ∑ t ∈ range T, ∑ b : Fin t → Fin n → Bool with Misses A start b, ∏ k, flipProb (1 / n) (b k) ≤
      Real.exp 1 * n * ∑ k ∈ range n, 1 / ((k : ℝ) + 1) := by
  obtain ⟨x0, hx0⟩ := List.exists_mem_of_ne_nil _ hne
  have hn0 : (0 : ℝ) < n := by exact_mod_cast (by omega : 0 < n)
  have hn1 : (1 : ℝ) < n := by exact_mod_cast (by omega : 1 < n)
  have hp1 : (1 : ℝ) / n < 1 := by rw [div_lt_one hn0]; exact hn1
  have key := C399_onemax A hf hpar hel hoth (1 / n) (by positivity) hp1 start ht hlen x0 hx0 T
  refine key.trans ?_
  have hpos : (0 : ℝ) < 1 - 1 / n := by linarith
  have he := usual_factor hn
  have hq : ∀ k : Nat, 1 / (((k + 1 : Nat) : ℝ) * (1 / n * (1 - 1 / n) ^ (n - 1))) ≤ Real.exp 1 * n * (1 / ((k : ℝ) + 1)) := by
    intro k
    have hk : (0 : ℝ) < (k : ℝ) + 1 := by positivity
    have hle : ((k : ℝ) + 1) * (1 / n * (1 / Real.exp 1)) ≤ ((k : ℝ) + 1) * (1 / n * (1 - 1 / n) ^ (n - 1)) :=
      mul_le_mul_of_nonneg_left (mul_le_mul_of_nonneg_left he (by positivity)) hk.le
    push_cast
    refine (one_div_le_one_div_of_le (by have := Real.exp_pos 1; positivity) hle).trans (le_of_eq ?_)
    have := (Real.exp_pos 1).ne'
    field_simp
  rw [mul_sum]
  have hz : zeros n (bitsOf x0.genome) ≤ n := by
    have := List.countP_le_length (l := List.range n) (p := fun i => !bitsOf x0.genome i)
    simpa [zeros] using this
  calc _ ≤ ∑ k ∈ range (zeros n (bitsOf x0.genome)), Real.exp 1 * n * (1 / ((k : ℝ) + 1)) := sum_le_sum fun k _ => hq k
    _ ≤ _ := sum_le_sum_of_subset_of_nonneg (range_subset_range.2 hz) fun k _ _ => by
        have := Real.exp_pos 1
        positivity

open Classical in
/-- The expected number of generations as an infinite sum. -/
theorem C399_expectation {n : Nat} (hn : 2 ≤ n) (A : MutEA n Int) (hf : ∀ g, A.f g = oneMaxFull n (bitsOf g)) (hpar : BestParent A)
    (hel : ∀ t, Elitist (A.replace t)) (hoth : ∀ t φ pop, ∀ g ∈ A.others t φ pop, g.length = n)
    (start : List (Ind (List Bool) Int)) (hne : start ≠ []) (ht : TrueFit A.f start) (hlen : ∀ x ∈ start, x.genome.length = n) :
    (Summable fun t => ∑ b : Fin t → Fin n → Bool with Misses A start b, ∏ k, flipProb (1 / n) (b k)) ∧
    ∑' t, ∑ b : Fin t → Fin n → Bool with Misses A start b, ∏ k, flipProb (1 / n) (b k) ≤
      Real.exp 1 * n * ∑ k ∈ range n, 1 / ((k : ℝ) + 1) := by
  have hn1 : (1 : ℝ) ≤ n := by exact_mod_cast (by omega : 1 ≤ n)
  have hnn : ∀ t, 0 ≤ ∑ b : Fin t → Fin n → Bool with Misses A start b, ∏ k, flipProb (1 / n) (b k) := fun t =>
    sum_nonneg fun b _ => prod_nonneg fun k _ => flipProb_nonneg (by positivity) (by rw [div_le_one (by linarith)]; exact hn1) _
  have hb := C399_usual_rate hn A hf hpar hel hoth start hne ht hlen
  exact ⟨summable_of_sum_range_le hnn hb, Real.tsum_le_of_sum_range_le hnn hb⟩

/-! ### The hypotheses can be met -/

/-- The (1+1) algorithm with the (mu+lambda) replacement. -/
def onePlusOneMax (n : Nat) : MutEA n Int where
  f g := oneMaxFull n (bitsOf g)
  parent _ pop := match pop with
    | [x] => x.genome
    | x :: l => (l.foldl (fun b y => if oneMaxFull n (bitsOf b.genome) < oneMaxFull n (bitsOf y.genome) then y else b) x).genome
    | [] => []
  others _ _ _ := []
  replace _ := plusReplacement fun l => l.mergeSort fun a b => decide (b.repFitness ≤ a.repFitness)

theorem foldl_best {α : Type} (f : α → Int) : ∀ (l : List α) (x : α),
    l.foldl (fun b y => if f b < f y then y else b) x ∈ x :: l ∧ ∀ y ∈ x :: l, f y ≤ f (l.foldl (fun b y => if f b < f y then y else b) x)
  | [], x => by simp
  | z :: l, x => by
    simp only [List.foldl_cons]
    split_ifs with h
    · obtain ⟨h1, h2⟩ := foldl_best f l z
      refine ⟨List.mem_cons_of_mem _ h1, fun y hy => ?_⟩
      rcases List.mem_cons.1 hy with rfl | hy
      · exact h.le.trans (h2 z (by simp))
      · exact h2 y hy
    · obtain ⟨h1, h2⟩ := foldl_best f l x
      refine ⟨?_, fun y hy => ?_⟩
      · rcases List.mem_cons.1 h1 with h1 | h1
        · rw [h1]; simp
        · exact List.mem_cons_of_mem _ (List.mem_cons_of_mem _ h1)
      · rcases List.mem_cons.1 hy with rfl | hy
        · exact h2 y (by simp)
        · rcases List.mem_cons.1 hy with rfl | hy
          · exact (not_lt.1 h).trans (h2 x (by simp))
          · exact h2 y (List.mem_cons_of_mem _ hy)

example (n : Nat) : BestParent (onePlusOneMax n) ∧ (∀ t, Elitist ((onePlusOneMax n).replace t)) ∧
    TrueFit (onePlusOneMax 3).f [⟨[false, true, false], 1, false⟩] ∧ zeros 3 (bitsOf [false, true, false]) = 2 := by
  refine ⟨fun t pop hne _ => ?_, fun t => C376_plus _ (isSort_mergeSort _), ?_, by decide⟩
  · match pop, hne with
    | [x], _ => exact ⟨x, by simp, rfl, by simp⟩
    | x :: y :: l, _ =>
      obtain ⟨h1, h2⟩ := foldl_best (fun x : Ind (List Bool) Int => oneMaxFull n (bitsOf x.genome)) (y :: l) x
      exact ⟨_, h1, rfl, h2⟩
  · intro x hx
    simp only [List.mem_singleton] at hx
    subst hx
    decide

end Paradiseo.EO
