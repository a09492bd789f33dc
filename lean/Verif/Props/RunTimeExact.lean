/-
Property C402: exact waiting times of elitist algorithms with bit-flip mutation, and lower bounds.
-/
import Verif.Props.RunTimePath
import Verif.Props.BitLaw
import Mathlib.Analysis.SpecificLimits.Basic

open Finset

namespace Paradiseo.EO

open Paradiseo.Ops (bitMutation bitMutationAux C379_mutation)
open Run (EA RunSt)

/-! ### Waiting for an event of known probability -/

theorem missProb_found {σ A : Type} [Fintype A] (w : A → ℝ) (step : A → σ → σ) (level : σ → Nat) (inv : σ → Prop)
    (hi : ∀ a s, inv s → inv (step a s)) (hd : ∀ a s, inv s → level s = 0 → level (step a s) = 0)
    (T : Nat) (s : σ) (hs : inv s) (hl : level s = 0) : missProb w step level T s = 0 := by
  induction T generalizing s with
  | zero => rw [missProb_zero, if_pos hl]
  | succ T ih =>
    rw [missProb_succ]
    exact sum_eq_zero fun a _ => by rw [ih _ (hi a s hs) (hd a s hs hl), mul_zero]

theorem missProb_eq {σ A : Type} [Fintype A] (w : A → ℝ) (h1 : ∑ a, w a = 1) (δ : ℝ) (step : A → σ → σ) (level : σ → Nat)
    (inv : σ → Prop) (hi : ∀ a s, inv s → inv (step a s)) (hd : ∀ a s, inv s → level s = 0 → level (step a s) = 0)
    (hg : ∀ s, inv s → level s ≠ 0 → ∑ a with level (step a s) = 0, w a = δ)
    (T : Nat) (s : σ) (hs : inv s) (hl : level s ≠ 0) : missProb w step level T s = (1 - δ) ^ T := by
  induction T generalizing s with
  | zero => rw [missProb_zero, if_neg hl, pow_zero]
  | succ T ih =>
    have e : ∀ a, w a * missProb w step level T (step a s) = w a * (1 - δ) ^ T - (if level (step a s) = 0 then w a else 0) * (1 - δ) ^ T := by
      intro a
      by_cases h : level (step a s) = 0
      · rw [missProb_found w step level inv hi hd T _ (hi a s hs) h, if_pos h]; ring
      · rw [ih _ (hi a s hs) h, if_neg h]; ring
    rw [missProb_succ, sum_congr rfl fun a _ => e a, sum_sub_distrib, ← sum_mul, ← sum_mul, h1, ← sum_filter, hg s hs hl]
    ring

theorem missProb_ge {σ A : Type} [Fintype A] (w : A → ℝ) (h0 : ∀ a, 0 ≤ w a) (h1 : ∑ a, w a = 1) (δ : ℝ) (hδ : δ ≤ 1)
    (step : A → σ → σ) (level : σ → Nat)
    (inv : σ → Prop) (hi : ∀ a s, inv s → inv (step a s))
    (hg : ∀ s, inv s → level s ≠ 0 → ∑ a with level (step a s) = 0, w a ≤ δ)
    (T : Nat) (s : σ) (hs : inv s) (hl : level s ≠ 0) : (1 - δ) ^ T ≤ missProb w step level T s := by
  induction T generalizing s with
  | zero => rw [missProb_zero, if_neg hl, pow_zero]
  | succ T ih =>
    have hpow : 0 ≤ (1 - δ) ^ T := pow_nonneg (by linarith) T
    have e : ∀ a, w a * (1 - δ) ^ T - (if level (step a s) = 0 then w a else 0) * (1 - δ) ^ T ≤ w a * missProb w step level T (step a s) := by
      intro a
      by_cases h : level (step a s) = 0
      · rw [if_pos h, sub_self]
        refine mul_nonneg (h0 a) (sum_nonneg fun b _ => ?_)
        split_ifs
        · exact le_rfl
        · exact prod_nonneg fun k _ => h0 _
      · rw [if_neg h, zero_mul, sub_zero]
        exact mul_le_mul_of_nonneg_left (ih _ (hi a s hs) h) (h0 a)
    rw [missProb_succ]
    refine le_trans ?_ (sum_le_sum fun a _ => e a)
    rw [sum_sub_distrib, ← sum_mul, ← sum_mul, h1, ← sum_filter, one_mul, pow_succ]
    nlinarith [hg s hs hl]

/-! ### The algorithm as a process -/

variable {F : Type} [LinearOrder F] [Inhabited F]

/-- One generation, with the flips of its mutation. -/
def genStep {n : Nat} (A : MutEA n F) (φ : Fin n → Bool) (s : RunSt (List Bool) F Unit) : RunSt (List Bool) F Unit :=
  match (A.ea φ).generation s with
  | .error _ => s
  | .ok s' => s'

open Classical in
/-- 0 with an optimum in the population. -/
noncomputable def noOpt {n : Nat} (A : MutEA n F) (s : RunSt (List Bool) F Unit) : Nat := if HasOptimum n A.f s.pop then 0 else 1

theorem noOpt_zero {n : Nat} (A : MutEA n F) (s : RunSt (List Bool) F Unit) : noOpt A s = 0 ↔ HasOptimum n A.f s.pop := by
  unfold noOpt; split_ifs with h <;> simp [h]

/-- What all generations keep. -/
structure RunOk {n : Nat} (A : MutEA n F) (s : RunSt (List Bool) F Unit) : Prop where
  ne : s.pop ≠ []
  fit : TrueFit A.f s.pop
  len : ∀ x ∈ s.pop, x.genome.length = n

/-- A generation with one offspring: it is sound, keeps an optimum, keeps one as good as any individual, and otherwise has one only if the
mutant is one. -/
theorem gen_spec {n : Nat} (A : MutEA n F) (hel : ∀ t, Elitist (A.replace t)) (hoth : ∀ t φ pop, A.others t φ pop = [])
    (hpar : ∀ t pop, pop ≠ [] → (∀ x ∈ pop, x.genome.length = n) → (A.parent t pop).length = n)
    (φ : Fin n → Bool) (s : RunSt (List Bool) F Unit) (hs : RunOk A s) :
    (A.ea φ).generation s = .ok (genStep A φ s) ∧ RunOk A (genStep A φ s) ∧
    (∀ x ∈ s.pop, ∃ y ∈ (genStep A φ s).pop, A.f x.genome ≤ A.f y.genome) ∧
    (HasOptimum n A.f (genStep A φ s).pop ↔ HasOptimum n A.f s.pop ∨
      ∀ g : List Bool, g.length = n → A.f g ≤ A.f (bitMutation (flipsOf φ) (A.parent s.gens s.pop)).1) := by
  obtain ⟨s', h, h2, h3, h4, y, hy, h5⟩ := generation_ok A hel φ s hs.ne hs.fit
  have hfrom := (generation_from A hel φ s s' hs.ne h).2
  have hst : genStep A φ s = s' := by simp only [genStep, h]
  rw [hst]
  have hml : (bitMutation (flipsOf φ) (A.parent s.gens s.pop)).1.length = n := by
    rw [bitMutation_length]; exact hpar _ _ hs.ne hs.len
  have hfrom' : ∀ x ∈ s'.pop, x ∈ s.pop ∨ x.genome = (bitMutation (flipsOf φ) (A.parent s.gens s.pop)).1 := by
    intro x hx
    have := hfrom x hx
    rw [hoth] at this
    simpa using this
  refine ⟨h, ⟨h2, h3, fun x hx => (hfrom' x hx).elim (hs.len x) fun he => he ▸ hml⟩, h4, ?_, ?_⟩
  · rintro ⟨x, hx, -, hb⟩
    rcases hfrom' x hx with hx | hx
    · exact Or.inl ⟨x, hx, hs.fit x hx, hb⟩
    · exact Or.inr (hx ▸ hb)
  · rintro (⟨x, hx, -, hb⟩ | hb)
    · obtain ⟨z, hz, hxz⟩ := h4 x hx
      exact ⟨z, hz, h3 z hz, fun g hg => (hb g hg).trans hxz⟩
    · exact ⟨y, hy, h3 y hy, fun g hg => (hb g hg).trans h5⟩

open Classical in
theorem misses_missProb {n : Nat} (A : MutEA n F) (hel : ∀ t, Elitist (A.replace t)) (hoth : ∀ t φ pop, A.others t φ pop = [])
    (hpar : ∀ t pop, pop ≠ [] → (∀ x ∈ pop, x.genome.length = n) → (A.parent t pop).length = n) (p : ℝ)
    (start : List (Ind (List Bool) F)) (hs : RunOk A ⟨start, 0, (), 0, []⟩) (T : Nat) :
    ∑ b : Fin T → Fin n → Bool with Misses A start b, ∏ k, flipProb p (b k) =
      missProb (flipProb p) (genStep A) (noOpt A) T ⟨start, 0, (), 0, []⟩ := by
  have hrun : ∀ l s, RunOk A s → A.gens l s = .ok (after (genStep A) l s) := by
    intro l
    induction l with
    | nil => exact fun s _ => rfl
    | cons φ l ih =>
      intro s hs
      obtain ⟨h, hs', -⟩ := gen_spec A hel hoth hpar φ s hs
      simp only [MutEA.gens, after, h]
      exact ih _ hs'
  rw [missProb, sum_filter]
  refine sum_congr rfl fun b _ => ?_
  have hm : Misses A start b ↔ ¬ noOpt A (after (genStep A) (List.ofFn b) ⟨start, 0, (), 0, []⟩) = 0 := by
    unfold Misses
    rw [hrun _ _ hs, noOpt_zero]
    simp
  by_cases h : noOpt A (after (genStep A) (List.ofFn b) ⟨start, 0, (), 0, []⟩) = 0
  · rw [if_pos h, if_neg (by rw [hm]; exact not_not.2 h)]
  · rw [if_neg h, if_pos (hm.2 h)]

/-- The number of bits in which two strings differ. -/
def differ (x y : List Bool) : Nat := (List.zipWith (· != ·) x y).count true

theorem mutant_prob {n : Nat} (p : ℝ) (x y : List Bool) (hx : x.length = n) (hy : y.length = n) :
    ∑ φ : Fin n → Bool with (bitMutation (flipsOf φ) x).1 = y, flipProb p φ = p ^ differ x y * (1 - p) ^ (n - differ x y) := by
  subst hx
  rw [C379_mutation p x y hy]
  have h : (List.zipWith (· != ·) x y).count false = x.length - differ x y := by
    have key : ∀ l : List Bool, l.count true + l.count false = l.length := by
      intro l
      induction l with
      | nil => rfl
      | cons a l ih => cases a <;> simp <;> omega
    have := key (List.zipWith (· != ·) x y)
    rw [List.length_zipWith, hy, Nat.min_self] at this
    unfold differ
    omega
  rw [h]
  rfl

/-- The law of the mutant: any set of strings. -/
theorem mutant_in {n : Nat} (p : ℝ) (x : List Bool) (hx : x.length = n) (O : List Bool → Prop) [DecidablePred O] :
    ∑ φ : Fin n → Bool with O (bitMutation (flipsOf φ) x).1, flipProb p φ =
      ∑ b : Fin n → Bool with O (List.ofFn b), p ^ differ x (List.ofFn b) * (1 - p) ^ (n - differ x (List.ofFn b)) := by
  rw [sum_congr rfl fun b _ => (mutant_prob p x (List.ofFn b) hx (by simp)).symm]
  simp only [sum_filter]
  have hsplit : ∀ b : Fin n → Bool, (if O (List.ofFn b) then ∑ φ : Fin n → Bool, (if (bitMutation (flipsOf φ) x).1 = List.ofFn b then flipProb p φ else 0) else 0) =
      ∑ φ : Fin n → Bool, if (bitMutation (flipsOf φ) x).1 = List.ofFn b then (if O (bitMutation (flipsOf φ) x).1 then flipProb p φ else 0) else 0 := by
    intro b
    split_ifs with h
    · refine sum_congr rfl fun φ _ => ?_
      split_ifs with h1 h2
      · rfl
      · exact absurd (h1 ▸ h) h2
      · rfl
    · symm
      refine sum_eq_zero fun φ _ => ?_
      split_ifs with h1 h2
      · exact absurd (h1 ▸ h2) h
      · rfl
      · rfl
  rw [sum_congr rfl fun b _ => hsplit b, sum_comm]
  refine sum_congr rfl fun φ _ => ?_
  have hl : (bitMutation (flipsOf φ) x).1.length = n := by rw [bitMutation_length]; exact hx
  obtain ⟨b0, hb0⟩ : ∃ b : Fin n → Bool, (bitMutation (flipsOf φ) x).1 = List.ofFn b := by
    generalize (bitMutation (flipsOf φ) x).1 = y at hl
    subst hl
    exact ⟨y.get, by rw [List.ofFn_get]⟩
  rw [hb0, sum_eq_single b0]
  · simp
  · intro b _ hne
    rw [if_neg fun h => hne (List.ofFn_injective h).symm]
  · intro h; exact absurd (mem_univ _) h

open Classical in
/-- **C402** (a trap).  If the best string of the start is `g0`, only one other string `o` is as good as `g0`, it is better, and differs in
`d` bits, then the probability of not having found it after `T` generations is exactly `(1 - p^d (1-p)^(n-d))^T`. -/
theorem C402_trap {n : Nat} (A : MutEA n F) (hpar : BestParent A) (hel : ∀ t, Elitist (A.replace t))
    (hoth : ∀ t φ pop, A.others t φ pop = []) (g0 o : List Bool) (hg0 : g0.length = n) (ho : o.length = n)
    (hlt : A.f g0 < A.f o) (htrap : ∀ h : List Bool, h.length = n → A.f g0 ≤ A.f h → h = g0 ∨ h = o)
    (p : ℝ) (start : List (Ind (List Bool) F)) (ht : TrueFit A.f start) (hlen : ∀ x ∈ start, x.genome.length = n)
    (hin : ∃ x ∈ start, x.genome = g0) (hout : ∀ x ∈ start, x.genome ≠ o) (T : Nat) :
    ∑ b : Fin T → Fin n → Bool with Misses A start b, ∏ k, flipProb p (b k) =
      (1 - p ^ differ g0 o * (1 - p) ^ (n - differ g0 o)) ^ T := by
  have hpl : ∀ t pop, pop ≠ [] → (∀ x ∈ pop, x.genome.length = n) → (A.parent t pop).length = n := by
    intro t pop h1 h2
    obtain ⟨x, hx, he, -⟩ := hpar t pop h1 h2
    rw [he]; exact h2 x hx
  have hopt : ∀ g : List Bool, g.length = n → A.f g ≤ A.f o := by
    intro g hg
    by_contra h
    rcases htrap g hg (hlt.le.trans (not_le.1 h).le) with rfl | rfl
    · exact h hlt.le
    · exact h le_rfl
  have honly : ∀ h : List Bool, h.length = n → ((∀ g : List Bool, g.length = n → A.f g ≤ A.f h) ↔ h = o) := by
    intro h hh
    constructor
    · intro hb
      rcases htrap h hh (hb g0 hg0) with rfl | rfl
      · exact absurd (hb o ho) (not_le.2 hlt)
      · rfl
    · rintro rfl; exact hopt
  obtain ⟨x0, hx0, hx0g⟩ := hin
  have hs0 : RunOk A ⟨start, 0, (), 0, []⟩ := ⟨List.ne_nil_of_mem hx0, ht, hlen⟩
  rw [misses_missProb A hel hoth hpl p start hs0]
  apply missProb_eq (flipProb p) (flipProb_sum n p) _ (genStep A) (noOpt A)
    (fun s => RunOk A s ∧ ∃ x ∈ s.pop, A.f g0 ≤ A.f x.genome)
  · rintro φ s ⟨hs, x, hx, hge⟩
    obtain ⟨-, hs', hk, -⟩ := gen_spec A hel hoth hpl φ s hs
    obtain ⟨y, hy, hxy⟩ := hk x hx
    exact ⟨hs', y, hy, hge.trans hxy⟩
  · rintro φ s ⟨hs, -⟩ hl
    rw [noOpt_zero] at hl ⊢
    exact (gen_spec A hel hoth hpl φ s hs).2.2.2.2 (Or.inl hl)
  · rintro s ⟨hs, x, hx, hge⟩ hl
    have hno : ¬ HasOptimum n A.f s.pop := fun h => hl ((noOpt_zero A s).2 h)
    have hp0 : A.parent s.gens s.pop = g0 := by
      obtain ⟨z, hz, he, hzb⟩ := hpar s.gens s.pop hs.ne hs.len
      rcases htrap z.genome (hs.len z hz) (hge.trans (hzb x hx)) with h | h
      · rw [he, h]
      · exact absurd ⟨z, hz, hs.fit z hz, by rw [h]; exact hopt⟩ hno
    rw [← mutant_prob p g0 o hg0 ho]
    refine sum_congr (filter_congr fun φ _ => ?_) fun _ _ => rfl
    rw [noOpt_zero, (gen_spec A hel hoth hpl φ s hs).2.2.2, hp0, honly _ (by rw [bitMutation_length]; exact hg0)]
    simp [hno]
  · exact ⟨hs0, x0, hx0, by rw [hx0g]⟩
  · intro h
    rw [noOpt_zero] at h
    obtain ⟨x, hx, -, hb⟩ := h
    exact hout x hx ((honly _ (hlen x hx)).1 hb)

open Classical in
/-- **C402** (a trap, expectation).  The expected number of generations is exactly `1 / (p^d (1-p)^(n-d))`. -/
theorem C402_trap_expectation {n : Nat} (A : MutEA n F) (hpar : BestParent A) (hel : ∀ t, Elitist (A.replace t))
    (hoth : ∀ t φ pop, A.others t φ pop = []) (g0 o : List Bool) (hg0 : g0.length = n) (ho : o.length = n)
    (hlt : A.f g0 < A.f o) (htrap : ∀ h : List Bool, h.length = n → A.f g0 ≤ A.f h → h = g0 ∨ h = o)
    (p : ℝ) (h0 : 0 < p) (h1 : p < 1) (start : List (Ind (List Bool) F)) (ht : TrueFit A.f start) (hlen : ∀ x ∈ start, x.genome.length = n)
    (hin : ∃ x ∈ start, x.genome = g0) (hout : ∀ x ∈ start, x.genome ≠ o) :
    HasSum (fun T => ∑ b : Fin T → Fin n → Bool with Misses A start b, ∏ k, flipProb p (b k))
      (1 / (p ^ differ g0 o * (1 - p) ^ (n - differ g0 o))) := by
  have e : (fun T => ∑ b : Fin T → Fin n → Bool with Misses A start b, ∏ k, flipProb p (b k)) =
      fun T => (1 - p ^ differ g0 o * (1 - p) ^ (n - differ g0 o)) ^ T := by
    funext T
    exact C402_trap A hpar hel hoth g0 o hg0 ho hlt htrap p start ht hlen hin hout T
  rw [e]
  have hq : 0 < 1 - p := by linarith
  have hpos : 0 < p ^ differ g0 o * (1 - p) ^ (n - differ g0 o) := by positivity
  have hle : p ^ differ g0 o * (1 - p) ^ (n - differ g0 o) ≤ 1 :=
    mul_le_one₀ (pow_le_one₀ h0.le h1.le) (by positivity) (pow_le_one₀ hq.le (by linarith))
  have := hasSum_geometric_of_lt_one (r := 1 - p ^ differ g0 o * (1 - p) ^ (n - differ g0 o)) (by linarith) (by linarith)
  simpa using this

open Classical in
/-- **C402** (rate one half).  Whatever the fitness, the parents and the replacement, the probability of not having an optimum after `T`
generations is `(1 - K / 2^n)^T` for `K` optimal strings: the algorithm is a random search. -/
theorem C402_half {n : Nat} (A : MutEA n F) (hel : ∀ t, Elitist (A.replace t)) (hoth : ∀ t φ pop, A.others t φ pop = [])
    (hpar : ∀ t pop, pop ≠ [] → (∀ x ∈ pop, x.genome.length = n) → (A.parent t pop).length = n)
    (start : List (Ind (List Bool) F)) (hne : start ≠ []) (ht : TrueFit A.f start) (hlen : ∀ x ∈ start, x.genome.length = n)
    (hout : ¬ HasOptimum n A.f start) (T : Nat) :
    ∑ b : Fin T → Fin n → Bool with Misses A start b, ∏ k, flipProb (1 / 2) (b k) =
      (1 - #{b : Fin n → Bool | ∀ g : List Bool, g.length = n → A.f g ≤ A.f (List.ofFn b)} / 2 ^ n) ^ T := by
  have hs0 : RunOk A ⟨start, 0, (), 0, []⟩ := ⟨hne, ht, hlen⟩
  rw [misses_missProb A hel hoth hpar _ start hs0]
  apply missProb_eq (flipProb (1 / 2)) (flipProb_sum n _) _ (genStep A) (noOpt A) (RunOk A)
  · exact fun φ s hs => (gen_spec A hel hoth hpar φ s hs).2.1
  · intro φ s hs hl
    rw [noOpt_zero] at hl ⊢
    exact (gen_spec A hel hoth hpar φ s hs).2.2.2.2 (Or.inl hl)
  · intro s hs hl
    have hno : ¬ HasOptimum n A.f s.pop := fun h => hl ((noOpt_zero A s).2 h)
    have e : ∑ φ : Fin n → Bool with noOpt A (genStep A φ s) = 0, flipProb (1 / 2) φ =
        ∑ φ : Fin n → Bool with (∀ g : List Bool, g.length = n → A.f g ≤ A.f (bitMutation (flipsOf φ) (A.parent s.gens s.pop)).1),
          flipProb (1 / 2) φ := by
      refine sum_congr (filter_congr fun φ _ => ?_) fun _ _ => rfl
      rw [noOpt_zero, (gen_spec A hel hoth hpar φ s hs).2.2.2]
      simp [hno]
    have hl' := hpar s.gens s.pop hs.ne hs.len
    rw [e, mutant_in (1 / 2) _ hl' fun h => ∀ g : List Bool, g.length = n → A.f g ≤ A.f h]
    have hd : ∀ b : Fin n → Bool, ((1 : ℝ) / 2) ^ differ (A.parent s.gens s.pop) (List.ofFn b) *
        (1 - 1 / 2) ^ (n - differ (A.parent s.gens s.pop) (List.ofFn b)) = 1 / 2 ^ n := by
      intro b
      have hle : differ (A.parent s.gens s.pop) (List.ofFn b) ≤ n := by
        refine List.count_le_length.trans ?_
        simp [hl']
      rw [show (1 : ℝ) - 1 / 2 = 1 / 2 by norm_num, ← pow_add, Nat.add_sub_cancel' hle, one_div_pow]
    rw [sum_congr rfl fun b _ => hd b, sum_const, nsmul_eq_mul, mul_one_div]
  · exact hs0
  · intro h
    exact hout ((noOpt_zero A _).1 h)

theorem differ_pos : ∀ x y : List Bool, x.length = y.length → x ≠ y → 0 < differ x y
  | [], [], _, h => absurd rfl h
  | a :: x, b :: y, hl, h => by
    unfold differ
    rw [List.zipWith_cons_cons, List.count_cons]
    by_cases hab : a = b
    · subst hab
      have := differ_pos x y (by simpa using hl) fun e => h (by rw [e])
      unfold differ at this
      omega
    · have : (a != b) = true := by simpa using hab
      rw [this]
      simp

open Classical in
/-- **C402** (lower bound).  With one optimal string, not in the start, rate at most one half and one mutant of any individual in every
generation, the probability of not having found it after `T` generations is at least `(1 - p (1-p)^(n-1))^T`, whatever the fitness. -/
theorem C402_lower {n : Nat} (A : MutEA n F) (hel : ∀ t, Elitist (A.replace t)) (hoth : ∀ t φ pop, A.others t φ pop = [])
    (hpar : ∀ t pop, pop ≠ [] → (∀ x ∈ pop, x.genome.length = n) → ∃ x ∈ pop, A.parent t pop = x.genome)
    (o : List Bool) (ho : o.length = n) (honly : ∀ h : List Bool, h.length = n → h ≠ o → A.f h < A.f o)
    (p : ℝ) (h0 : 0 ≤ p) (h1 : p ≤ 1 / 2)
    (start : List (Ind (List Bool) F)) (hne : start ≠ []) (ht : TrueFit A.f start) (hlen : ∀ x ∈ start, x.genome.length = n)
    (hout : ∀ x ∈ start, x.genome ≠ o) (T : Nat) :
    (1 - p * (1 - p) ^ (n - 1)) ^ T ≤ ∑ b : Fin T → Fin n → Bool with Misses A start b, ∏ k, flipProb p (b k) := by
  have hpl : ∀ t pop, pop ≠ [] → (∀ x ∈ pop, x.genome.length = n) → (A.parent t pop).length = n := by
    intro t pop h1 h2
    obtain ⟨x, hx, he⟩ := hpar t pop h1 h2
    rw [he]; exact h2 x hx
  have hopt : ∀ h : List Bool, h.length = n → ((∀ g : List Bool, g.length = n → A.f g ≤ A.f h) ↔ h = o) := by
    intro h hh
    constructor
    · intro hb
      by_contra hne
      exact absurd (hb o ho) (not_le.2 (honly h hh hne))
    · rintro rfl g hg
      by_cases hgo : g = h
      · rw [hgo]
      · exact (honly g hg hgo).le
  have hs0 : RunOk A ⟨start, 0, (), 0, []⟩ := ⟨hne, ht, hlen⟩
  rw [misses_missProb A hel hoth hpl p start hs0]
  have hq : 0 ≤ 1 - p := by linarith
  apply missProb_ge (flipProb p) (flipProb_nonneg h0 (by linarith)) (flipProb_sum n p) _
    (mul_le_one₀ (by linarith) (by positivity) (pow_le_one₀ hq (by linarith))) (genStep A) (noOpt A) (RunOk A)
  · exact fun φ s hs => (gen_spec A hel hoth hpl φ s hs).2.1
  · intro s hs hl
    have hno : ¬ HasOptimum n A.f s.pop := fun h => hl ((noOpt_zero A s).2 h)
    obtain ⟨x, hx, hxe⟩ := hpar s.gens s.pop hs.ne hs.len
    have hxl := hs.len x hx
    have hxo : x.genome ≠ o := fun h => hno ⟨x, hx, hs.fit x hx, (hopt _ hxl).2 h⟩
    have e : ∑ φ : Fin n → Bool with noOpt A (genStep A φ s) = 0, flipProb p φ =
        ∑ φ : Fin n → Bool with (bitMutation (flipsOf φ) x.genome).1 = o, flipProb p φ := by
      refine sum_congr (filter_congr fun φ _ => ?_) fun _ _ => rfl
      rw [noOpt_zero, (gen_spec A hel hoth hpl φ s hs).2.2.2, hxe, hopt _ (by rw [bitMutation_length]; exact hxl)]
      simp [hno]
    rw [e, mutant_prob p x.genome o hxl ho]
    have hd := differ_pos x.genome o (hxl.trans ho.symm) hxo
    have hdn : differ x.genome o ≤ n := by
      refine List.count_le_length.trans ?_
      simp [hxl, ho]
    obtain ⟨d, hd'⟩ : ∃ d, differ x.genome o = d + 1 := ⟨differ x.genome o - 1, by omega⟩
    rw [hd', pow_succ, mul_comm (p ^ d) p, mul_assoc]
    refine mul_le_mul_of_nonneg_left ?_ h0
    calc p ^ d * (1 - p) ^ (n - (d + 1)) ≤ (1 - p) ^ d * (1 - p) ^ (n - (d + 1)) :=
          mul_le_mul_of_nonneg_right (pow_le_pow_left₀ h0 (by linarith) d) (by positivity)
      _ = (1 - p) ^ (n - 1) := by rw [← pow_add]; congr 1; omega
  · exact hs0
  · intro h
    obtain ⟨x, hx, -, hb⟩ := (noOpt_zero A _).1 h
    exact hout x hx ((hopt _ (hlen x hx)).1 hb)

/-! ### Instances -/

/-- The (mu+1) algorithm: the mutant of a best individual, (mu+lambda) replacement. -/
def plusOne (n : Nat) (f : List Bool → Int) : MutEA n Int where
  f := f
  parent _ pop := match pop with
    | [] => []
    | x :: l => (l.foldl (fun b y => if f b.genome < f y.genome then y else b) x).genome
  others _ _ _ := []
  replace _ := plusReplacement fun l => l.mergeSort fun a b => decide (b.repFitness ≤ a.repFitness)

theorem plusOne_ok (n : Nat) (f : List Bool → Int) : BestParent (plusOne n f) ∧ (∀ t, Elitist ((plusOne n f).replace t)) ∧
    ∀ t φ pop, (plusOne n f).others t φ pop = [] := by
  refine ⟨fun t pop hne _ => ?_, fun t => C376_plus _ (isSort_mergeSort _), fun _ _ _ => rfl⟩
  match pop, hne with
  | x :: l, _ =>
    obtain ⟨h1, h2⟩ := foldl_best (fun x : Ind (List Bool) Int => f x.genome) l x
    exact ⟨_, h1, rfl, h2⟩

/-- The number of zeros, but the string of ones is best. -/
def trapFit (n : Nat) (g : List Bool) : Int := if g = List.replicate n true then n + 1 else g.count false

theorem differ_all (n : Nat) : differ (List.replicate n false) (List.replicate n true) = n := by
  induction n with
  | zero => rfl
  | succ n ih =>
    unfold differ at *
    rw [List.replicate_succ, List.replicate_succ, List.zipWith_cons_cons, List.count_cons, ih]
    rfl

open Classical in
/-- **C402** (the deceptive function).  From the string of zeros it takes exactly `1 / p^n` generations on average to find the string of
ones, `n^n` with the usual rate: the bound of C400 for any fitness is attained. -/
theorem C402_deceptive {n : Nat} (hn : 0 < n) (p : ℝ) (h0 : 0 < p) (h1 : p < 1) (mu : Nat) (hmu : 0 < mu) :
    HasSum (fun T => ∑ b : Fin T → Fin n → Bool with
        Misses (plusOne n (trapFit n)) (List.replicate mu ⟨List.replicate n false, (n : Int), false⟩) b, ∏ k, flipProb p (b k))
      (1 / p ^ n) := by
  obtain ⟨hpar, hel, hoth⟩ := plusOne_ok n (trapFit n)
  have hzo : List.replicate n false ≠ List.replicate n true := by
    obtain ⟨m, rfl⟩ : ∃ m, n = m + 1 := ⟨n - 1, by omega⟩
    simp [List.replicate_succ]
  have hz : trapFit n (List.replicate n false) = n := by rw [trapFit, if_neg hzo, List.count_replicate_self]
  have ho : trapFit n (List.replicate n true) = n + 1 := by rw [trapFit, if_pos rfl]
  have hmem : ∀ x ∈ List.replicate mu (⟨List.replicate n false, (n : Int), false⟩ : Ind (List Bool) Int),
      x = ⟨List.replicate n false, (n : Int), false⟩ := fun x hx => List.eq_of_mem_replicate hx
  have key := C402_trap_expectation (plusOne n (trapFit n)) hpar hel hoth (List.replicate n false) (List.replicate n true)
    (by simp) (by simp)
    (by show trapFit n _ < trapFit n _; rw [hz, ho]; omega)
    (by
      intro h hh hge
      have hge : trapFit n (List.replicate n false) ≤ trapFit n h := hge
      by_cases hh1 : h = List.replicate n true
      · exact Or.inr hh1
      · left
        rw [hz, trapFit, if_neg hh1] at hge
        have hc : h.count false = h.length := le_antisymm List.count_le_length (by rw [hh]; exact_mod_cast hge)
        rw [← hh]
        exact List.eq_replicate_of_mem fun b hb => (List.count_eq_length.1 hc b hb).symm)
    p h0 h1 (List.replicate mu ⟨List.replicate n false, (n : Int), false⟩)
    (by
      intro x hx
      rw [hmem x hx]
      show some (n : Int) = some (trapFit n _)
      rw [hz])
    (by intro x hx; rw [hmem x hx]; simp)
    ⟨_, List.mem_replicate.2 ⟨by omega, rfl⟩, rfl⟩
    (by intro x hx; rw [hmem x hx]; exact hzo)
  rwa [differ_all, Nat.sub_self, pow_zero, mul_one] at key

/-- The premises of C402_half and C402_lower: the number of ones on three bits, from zeros. -/
example : let A := plusOne 3 fun g => g.count true
    let start : List (Ind (List Bool) Int) := [⟨[false, false, false], 0, false⟩]
    TrueFit A.f start ∧ ¬ HasOptimum 3 A.f start ∧
    (∀ h : List Bool, h.length = 3 → h ≠ [true, true, true] → A.f h < A.f [true, true, true]) := by
  refine ⟨?_, ?_, ?_⟩
  · intro x hx
    rw [List.mem_singleton.1 hx]
    rfl
  · rintro ⟨x, hx, -, hb⟩
    rw [List.mem_singleton.1 hx] at hb
    exact absurd (hb [true, true, true] rfl) (by decide)
  · intro h hl hne
    match h, hl with
    | [a, b, c], _ => cases a <;> cases b <;> cases c <;> first | exact absurd rfl hne | decide

end Paradiseo.EO
