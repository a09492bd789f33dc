/-
Property C403: the exact expected number of generations of an elitist algorithm that flips one bit, on the number of ones.
-/
import Verif.Props.RunTimeExact

open Finset

namespace Paradiseo.EO

open Paradiseo.Ops (bitMutation bitMutationAux oneBitFlip flipBit_ok rnd)
open Paradiseo.IncrEval (oneMaxFull)
open Paradiseo.LS (zeros full_zeros)
open Run (EA RunSt)

/-! ### Going down level by level -/

/-- The expectation of a function of the level after `T` draws. -/
def expLevel {σ A : Type} [Fintype A] (w : A → ℝ) (step : A → σ → σ) (level : σ → Nat) (V : Nat → ℝ) (T : Nat) (s : σ) : ℝ :=
  ∑ b : Fin T → A, (∏ k, w (b k)) * V (level (after step (List.ofFn b) s))

theorem expLevel_zero {σ A : Type} [Fintype A] (w : A → ℝ) (step : A → σ → σ) (level : σ → Nat) (V : Nat → ℝ) (s : σ) :
    expLevel w step level V 0 s = V (level s) := by
  simp [expLevel, after]

theorem expLevel_succ {σ A : Type} [Fintype A] (w : A → ℝ) (step : A → σ → σ) (level : σ → Nat) (V : Nat → ℝ) (T : Nat) (s : σ) :
    expLevel w step level V (T + 1) s = ∑ a, w a * expLevel w step level V T (step a s) := by
  unfold expLevel
  rw [← (Fin.consEquiv fun _ => A).sum_comp, Fintype.sum_prod_type]
  simp only [Fin.consEquiv_apply, List.ofFn_succ, Fin.cons_zero, Fin.cons_succ, after, Fin.prod_univ_succ]
  refine sum_congr rfl fun a _ => ?_
  rw [mul_sum]
  exact sum_congr rfl fun b _ => by ring

theorem missProb_nonneg {σ A : Type} [Fintype A] (w : A → ℝ) (h0 : ∀ a, 0 ≤ w a) (step : A → σ → σ) (level : σ → Nat) (T : Nat) (s : σ) :
    0 ≤ missProb w step level T s :=
  sum_nonneg fun b _ => by
    split_ifs
    · exact le_rfl
    · exact prod_nonneg fun k _ => h0 _

/-- A process that goes down by one level with probability `q k` from level `k` and otherwise stays: the expected time to level 0 is the
sum of `1 / q k`. -/
theorem levels_exact {σ A : Type} [Fintype A] (w : A → ℝ) (h0 : ∀ a, 0 ≤ w a) (h1 : ∑ a, w a = 1) (q : Nat → ℝ) (hq : ∀ k, 0 < q (k + 1))
    (step : A → σ → σ) (level : σ → Nat) (inv : σ → Prop) (hi : ∀ a s, inv s → inv (step a s))
    (hz : ∀ a s, inv s → level s = 0 → level (step a s) = 0)
    (hd : ∀ a s k, inv s → level s = k + 1 → level (step a s) = k ∨ level (step a s) = k + 1)
    (s : σ) (hs : inv s) (hp : ∀ s k, inv s → level s = k + 1 → ∑ a with level (step a s) = k, w a = q (k + 1)) :
    HasSum (fun t => missProb w step level t s) (∑ k ∈ range (level s), 1 / q (k + 1)) := by
  set V : Nat → ℝ := fun l => ∑ k ∈ range l, 1 / q (k + 1) with hV
  have hmono : ∀ i j, i ≤ j → V i ≤ V j := fun i j hij =>
    sum_le_sum_of_subset_of_nonneg (range_subset_range.2 hij) fun k _ _ => (one_div_pos.2 (hq k)).le
  have hV0 : V 0 = 0 := by simp [hV]
  have hdrift : ∀ s, inv s → (if level s = 0 then 0 else 1) + ∑ a, w a * V (level (step a s)) = V (level s) := by
    intro s hs
    rcases hk : level s with - | k
    · have : ∀ a, level (step a s) = 0 := fun a => hz a s hs hk
      simp [this, hV0]
    · have e : ∀ a, w a * V (level (step a s)) = w a * V (k + 1) - (if level (step a s) = k then w a else 0) * (1 / q (k + 1)) := by
        intro a
        have hsucc : V (k + 1) = V k + 1 / q (k + 1) := by simp [hV, sum_range_succ]
        rcases hd a s k hs hk with h | h
        · rw [if_pos h, h, hsucc]; ring
        · rw [if_neg (by omega), h]; ring
      rw [sum_congr rfl fun a _ => e a, sum_sub_distrib, ← sum_mul, ← sum_mul, h1, ← sum_filter, hp s k hs hk, if_neg (Nat.succ_ne_zero k),
        mul_one_div_cancel (hq k).ne']
      ring
  have hident : ∀ T s, inv s → ∑ t ∈ range T, missProb w step level t s + expLevel w step level V T s = V (level s) := by
    intro T
    induction T with
    | zero => intro s _; rw [range_zero, sum_empty, zero_add, expLevel_zero]
    | succ T ih =>
      intro s hs
      rw [sum_range_succ', missProb_zero, expLevel_succ]
      simp only [missProb_succ]
      rw [sum_comm, ← hdrift s hs]
      have : ∀ a, w a * V (level (step a s)) = ∑ t ∈ range T, w a * missProb w step level t (step a s) +
          w a * expLevel w step level V T (step a s) := by
        intro a
        rw [← mul_sum, ← mul_add, ih _ (hi a s hs)]
      rw [sum_congr rfl fun a _ => this a, sum_add_distrib]
      ring
  have hdown : ∀ (l : List A) s, inv s → level (after step l s) ≤ level s := by
    intro l
    induction l with
    | nil => exact fun s _ => le_rfl
    | cons a l ih =>
      intro s hs
      refine (ih _ (hi a s hs)).trans ?_
      rcases hk : level s with - | k
      · exact (hz a s hs hk).le
      · rcases hd a s k hs hk with h | h <;> omega
  have hbound : ∀ T, expLevel w step level V T s ≤ V (level s) * missProb w step level T s := by
    intro T
    rw [missProb, mul_sum]
    refine sum_le_sum fun b _ => ?_
    split_ifs with h
    · rw [h, hV0, mul_zero, mul_zero]
    · rw [mul_comm]
      exact mul_le_mul_of_nonneg_right (hmono _ _ (hdown _ s hs)) (prod_nonneg fun k _ => h0 _)
  have hnn := fun T => missProb_nonneg w h0 step level T s
  have henn : ∀ T, 0 ≤ expLevel w step level V T s := fun T =>
    sum_nonneg fun b _ => mul_nonneg (prod_nonneg fun k _ => h0 _) (hV0 ▸ hmono 0 _ (Nat.zero_le _))
  have hsum : Summable fun t => missProb w step level t s :=
    summable_of_sum_range_le hnn fun T => by have := hident T s hs; have := henn T; linarith
  have hlim : Filter.Tendsto (fun T => expLevel w step level V T s) Filter.atTop (nhds 0) := by
    refine squeeze_zero henn hbound ?_
    simpa using hsum.tendsto_atTop_zero.const_mul (V (level s))
  rw [hasSum_iff_tendsto_nat_of_nonneg hnn]
  have : (fun T => ∑ t ∈ range T, missProb w step level t s) = fun T => V (level s) - expLevel w step level V T s := by
    funext T
    have := hident T s hs
    linarith
  rw [this]
  have h := hlim.const_sub (V (level s))
  rw [sub_zero] at h
  exact h

/-! ### The algorithm -/

variable {F : Type} [LinearOrder F] [Inhabited F]

/-- A generation of which the only offspring is made of the parent by the flip of one bit, the `i`-th. -/
def MutEA.flipEA {n : Nat} (A : MutEA n F) (i : Nat) : EA (List Bool) F Unit where
  f := A.f
  breed t pop :=
    match oneBitFlip (fun _ => i) (A.parent t pop) with
    | .error e => .error e
    | .ok g => .ok [Ind.new g]
  replace := A.replace
  cont := fun _ _ _ => .ok (true, ())

/-- The generations with the drawn bits of the list. -/
def MutEA.flipGens {n : Nat} (A : MutEA n F) : List (Fin n) → RunSt (List Bool) F Unit → Except Err (RunSt (List Bool) F Unit)
  | [], s => .ok s
  | i :: l, s =>
    match (A.flipEA i.1).generation s with
    | .error e => .error e
    | .ok s' => A.flipGens l s'

/-- The drawn bits do not lead to an optimum. -/
def FlipMisses {n : Nat} (A : MutEA n F) (start : List (Ind (List Bool) F)) {T : Nat} (b : Fin T → Fin n) : Prop :=
  ¬ ∃ s, A.flipGens (List.ofFn b) ⟨start, 0, (), 0, []⟩ = .ok s ∧ HasOptimum n A.f s.pop

theorem oneBitFlip_eq {n : Nat} (g : List Bool) (hg : g.length = n) (i : Fin n) :
    oneBitFlip (fun _ => i.1) g = .ok (bitMutation (flipsOf (flipAt i)) g).1 := by
  have hi : i.1 < g.length := hg ▸ i.2
  have hr : rnd (fun _ => i.1) 0 g.length = i.1 := by
    rw [rnd, if_neg (by omega)]
    exact Nat.mod_eq_of_lt hi
  rw [withFlip_result g hg, oneBitFlip, hr, flipBit_ok hi, withFlip, List.getD_eq_getElem _ _ hi]

theorem flipEA_generation {n : Nat} (A : MutEA n F) (hoth : ∀ t φ pop, A.others t φ pop = []) (i : Fin n) (s : RunSt (List Bool) F Unit)
    (hl : (A.parent s.gens s.pop).length = n) : (A.flipEA i.1).generation s = (A.ea (flipAt i)).generation s := by
  have hb : (A.flipEA i.1).breed s.gens s.pop = (A.ea (flipAt i)).breed s.gens s.pop := by
    simp only [MutEA.flipEA, MutEA.ea, oneBitFlip_eq _ hl, hoth, List.map_cons, List.map_nil]
  unfold EA.generation
  rw [hb]
  rfl

/-- The best fitness after a generation is that of the best parent or of the mutant. -/
theorem best_step {n : Nat} (A : MutEA n F) (hpar : BestParent A) (hel : ∀ t, Elitist (A.replace t))
    (hoth : ∀ t φ pop, A.others t φ pop = []) (φ : Fin n → Bool) (s : RunSt (List Bool) F Unit) (hs : RunOk A s) :
    A.f (A.parent (genStep A φ s).gens (genStep A φ s).pop) =
      max (A.f (A.parent s.gens s.pop)) (A.f (bitMutation (flipsOf φ) (A.parent s.gens s.pop)).1) := by
  have hpl : ∀ t pop, pop ≠ [] → (∀ x ∈ pop, x.genome.length = n) → (A.parent t pop).length = n := by
    intro t pop h1 h2
    obtain ⟨x, hx, he, -⟩ := hpar t pop h1 h2
    rw [he]; exact h2 x hx
  obtain ⟨hgen, hs', hk, -⟩ := gen_spec A hel hoth hpl φ s hs
  obtain ⟨s', h, -, -, -, y, hy, h5⟩ := generation_ok A hel φ s hs.ne hs.fit
  have hst : genStep A φ s = s' := by simp only [genStep, h]
  rw [hst] at hs' hk ⊢
  have hfrom := (generation_from A hel φ s s' hs.ne h).2
  obtain ⟨x, hx, hxe, hxb⟩ := hpar s.gens s.pop hs.ne hs.len
  obtain ⟨z, hz, hze, hzb⟩ := hpar s'.gens s'.pop hs'.ne hs'.len
  rw [hze]
  apply le_antisymm
  · have := hfrom z hz
    rw [hoth] at this
    rcases this with h | h
    · rw [hxe]
      exact le_max_of_le_left (hxb z h)
    · rw [List.mem_singleton.1 h]
      exact le_max_right _ _
  · apply max_le
    · obtain ⟨v, hv, hxv⟩ := hk x hx
      rw [hxe]
      exact hxv.trans (hzb v hv)
    · exact h5.trans (hzb y hy)

open Classical in
/-- **C403**: with one offspring per generation, made of a best individual by the flip of one bit drawn uniformly, on the number of ones
the expected number of generations until an optimum is in the population is exactly `n (1 + 1/2 + ... + 1/z)`, `z` the number of zeros of
the best individual of the start. -/
theorem C403_onemax {n : Nat} (hn : 0 < n) (A : MutEA n Int) (hf : ∀ g, A.f g = oneMaxFull n (bitsOf g)) (hpar : BestParent A)
    (hel : ∀ t, Elitist (A.replace t)) (hoth : ∀ t φ pop, A.others t φ pop = [])
    (start : List (Ind (List Bool) Int)) (ht : TrueFit A.f start) (hlen : ∀ x ∈ start, x.genome.length = n)
    (x0 : Ind (List Bool) Int) (hx0 : x0 ∈ start) (hbest : ∀ y ∈ start, A.f y.genome ≤ A.f x0.genome) :
    HasSum (fun T => (#{b : Fin T → Fin n | FlipMisses A start b} : ℝ) / n ^ T)
      (n * ∑ k ∈ range (zeros n (bitsOf x0.genome)), 1 / ((k : ℝ) + 1)) := by
  have hn0 : (0 : ℝ) < n := by exact_mod_cast hn
  have hpl : ∀ t pop, pop ≠ [] → (∀ x ∈ pop, x.genome.length = n) → (A.parent t pop).length = n := by
    intro t pop h1 h2
    obtain ⟨x, hx, he, -⟩ := hpar t pop h1 h2
    rw [he]; exact h2 x hx
  have hfz : ∀ g, A.f g + zeros n (bitsOf g) = n := fun g => by rw [hf]; exact full_zeros n (bitsOf g)
  have hs0 : RunOk A ⟨start, 0, (), 0, []⟩ := ⟨List.ne_nil_of_mem hx0, ht, hlen⟩
  let step : Fin n → RunSt (List Bool) Int Unit → RunSt (List Bool) Int Unit := fun i => genStep A (flipAt i)
  let level : RunSt (List Bool) Int Unit → Nat := fun s => zeros n (bitsOf (A.parent s.gens s.pop))
  have hinv : ∀ i s, RunOk A s → RunOk A (step i s) := fun i s hs => (gen_spec A hel hoth hpl _ s hs).2.1
  have hones : zeros n (bitsOf (List.replicate n true)) = 0 := by
    unfold zeros
    rw [List.countP_eq_zero]
    intro i hi
    simp [bitsOf, List.mem_range.1 hi]
  -- an optimum is there iff the best has no zeros
  have hfound : ∀ s, RunOk A s → (HasOptimum n A.f s.pop ↔ level s = 0) := by
    intro s hs
    obtain ⟨x, hx, hxe, hxb⟩ := hpar s.gens s.pop hs.ne hs.len
    show _ ↔ zeros n (bitsOf (A.parent s.gens s.pop)) = 0
    rw [hxe]
    constructor
    · rintro ⟨y, hy, -, hyb⟩
      have a1 := hyb (List.replicate n true) (by simp)
      have a2 := hxb y hy
      have a3 := hfz (List.replicate n true)
      have a4 := hfz x.genome
      rw [hones] at a3
      omega
    · intro h
      refine ⟨x, hx, hs.fit x hx, fun g _ => ?_⟩
      have := hfz g
      have := hfz x.genome
      omega
  -- one generation
  have hlev : ∀ i s, RunOk A s → level (step i s) =
      if bitsOf (A.parent s.gens s.pop) i.1 = false then level s - 1 else level s := by
    intro i s hs
    have hb := best_step A hpar hel hoth (flipAt i) s hs
    have hg := hpl s.gens s.pop hs.ne hs.len
    have e1 := hfz (A.parent (step i s).gens (step i s).pop)
    have e2 := hfz (A.parent s.gens s.pop)
    have e3 := hfz (withFlip (A.parent s.gens s.pop) i.1)
    rw [withFlip_result _ hg] at hb
    replace hb : A.f (A.parent (step i s).gens (step i s).pop) = _ := hb
    show zeros n (bitsOf (A.parent (step i s).gens (step i s).pop)) = if _ then zeros n (bitsOf (A.parent s.gens s.pop)) - 1 else zeros n (bitsOf (A.parent s.gens s.pop))
    split_ifs with hbit
    · have hw : withFlip (A.parent s.gens s.pop) i.1 = (A.parent s.gens s.pop).set i.1 true := by
        have hbit : (A.parent s.gens s.pop).getD i.1 false = false := hbit
        rw [withFlip, hbit]; rfl
      have h1 := zeros_set (A.parent s.gens s.pop) hg i.2 hbit
      rw [hw] at hb e3
      rw [max_eq_right (by omega)] at hb
      rw [← h1, Nat.add_sub_cancel]
      omega
    · have hbit : (A.parent s.gens s.pop).getD i.1 false = true := by simpa [bitsOf] using hbit
      have hw : withFlip (A.parent s.gens s.pop) i.1 = (A.parent s.gens s.pop).set i.1 false := by
        rw [withFlip, hbit]; rfl
      have hi : i.1 < (A.parent s.gens s.pop).length := by rw [hg]; exact i.2
      have := zeros_set ((A.parent s.gens s.pop).set i.1 false) (by simpa using hg) i.2 (by simp [hi])
      rw [List.set_set, show (A.parent s.gens s.pop).set i.1 true = A.parent s.gens s.pop by
        rw [List.getD_eq_getElem _ _ hi] at hbit
        rw [← hbit, List.set_getElem_self]] at this
      rw [hw] at hb e3
      rw [max_eq_left (by omega)] at hb
      omega
  have key := levels_exact (fun _ : Fin n => 1 / (n : ℝ)) (fun _ => by positivity)
    (by simp [hn0.ne']) (fun k => (k : ℝ) / n) (fun k => by positivity) step level (RunOk A) hinv
    (fun i s hs h => by rw [hlev i s hs]; split_ifs <;> omega)
    (fun i s k hs h => by rw [hlev i s hs]; split_ifs <;> omega)
    ⟨start, 0, (), 0, []⟩ hs0
    (fun s k hs hk => by
      have e : ∀ i : Fin n, level (step i s) = k ↔ bitsOf (A.parent s.gens s.pop) i.1 = false := by
        intro i
        rw [hlev i s hs]
        split_ifs with h
        · simp [h, hk]
        · simp [h, hk]
      rw [sum_congr (filter_congr fun i _ => e i) fun _ _ => rfl, sum_const, zeros_card n, nsmul_eq_mul]
      have : zeros n (bitsOf (A.parent s.gens s.pop)) = k + 1 := hk
      rw [this, mul_one_div])
  have hstart : level ⟨start, 0, (), 0, []⟩ = zeros n (bitsOf x0.genome) := by
    obtain ⟨x, hx, he, hb⟩ := hpar 0 start (List.ne_nil_of_mem hx0) hlen
    show zeros n (bitsOf (A.parent 0 start)) = _
    rw [he]
    have a1 := hb x0 hx0
    have a2 := hbest x hx
    have a3 := hfz x.genome
    have a4 := hfz x0.genome
    omega
  rw [hstart] at key
  have hval : ∑ k ∈ range (zeros n (bitsOf x0.genome)), 1 / (((k + 1 : Nat) : ℝ) / n) =
      n * ∑ k ∈ range (zeros n (bitsOf x0.genome)), 1 / ((k : ℝ) + 1) := by
    rw [mul_sum]
    refine sum_congr rfl fun k _ => ?_
    push_cast
    field_simp
  rw [hval] at key
  have hrun : ∀ (l : List (Fin n)) s, RunOk A s → A.flipGens l s = .ok (after step l s) ∧ RunOk A (after step l s) := by
    intro l
    induction l with
    | nil => exact fun s hs => ⟨rfl, hs⟩
    | cons i l ih =>
      intro s hs
      have hg := (gen_spec A hel hoth hpl (flipAt i) s hs).1
      rw [← flipEA_generation A hoth i s (hpl _ _ hs.ne hs.len)] at hg
      simp only [MutEA.flipGens, after, hg]
      exact ih _ (hinv i s hs)
  have e : (fun t => missProb (fun _ : Fin n => 1 / (n : ℝ)) step level t ⟨start, 0, (), 0, []⟩) =
      fun T => (#{b : Fin T → Fin n | FlipMisses A start b} : ℝ) / n ^ T := by
    funext T
    have hm : ∀ b : Fin T → Fin n, FlipMisses A start b ↔ ¬ level (after step (List.ofFn b) ⟨start, 0, (), 0, []⟩) = 0 := by
      intro b
      obtain ⟨h1, h2⟩ := hrun (List.ofFn b) _ hs0
      unfold FlipMisses
      rw [h1, ← hfound _ h2]
      simp
    have hterm : ∀ b : Fin T → Fin n, (if level (after step (List.ofFn b) ⟨start, 0, (), 0, []⟩) = 0 then (0 : ℝ) else ∏ _k : Fin T, 1 / (n : ℝ)) =
        if FlipMisses A start b then 1 / (n : ℝ) ^ T else 0 := by
      intro b
      rw [prod_const, card_univ, Fintype.card_fin, one_div_pow]
      by_cases h : level (after step (List.ofFn b) ⟨start, 0, (), 0, []⟩) = 0
      · rw [if_pos h, if_neg (by rw [hm]; exact not_not.2 h)]
      · rw [if_neg h, if_pos ((hm b).2 h)]
    rw [missProb, sum_congr rfl fun b _ => hterm b, ← sum_filter, sum_const, nsmul_eq_mul, mul_one_div]
  rwa [e] at key

/-- From two zeros of three: (3 + 3/2) generations. -/
example : let A := plusOne 3 fun g => oneMaxFull 3 (bitsOf g)
    let x : Ind (List Bool) Int := ⟨[true, false, false], 1, false⟩
    BestParent A ∧ (∀ t, Elitist (A.replace t)) ∧ (∀ t φ pop, A.others t φ pop = []) ∧ TrueFit A.f [x] ∧
    zeros 3 (bitsOf x.genome) = 2 ∧ ((3 : ℕ) : ℝ) * ∑ k ∈ range 2, 1 / ((k : ℝ) + 1) = 9 / 2 := by
  obtain ⟨h1, h2, h3⟩ := plusOne_ok 3 fun g => oneMaxFull 3 (bitsOf g)
  refine ⟨h1, h2, h3, ?_, by decide, by norm_num [sum_range_succ]⟩
  intro x hx
  rw [List.mem_singleton.1 hx]
  decide +kernel

end Paradiseo.EO
