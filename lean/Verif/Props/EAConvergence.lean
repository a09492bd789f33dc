/-
Property C376: an elitist evolutionary algorithm whose generations contain one offspring made by the bit-flip
mutation finds an optimum with a probability that tends to one.
-/
import Verif.Props.EOAlgo
import Verif.Props.EOReplacement
import Verif.Model.EOOperators
import Mathlib.Algebra.BigOperators.Fin
import Mathlib.Algebra.Order.BigOperators.Ring.Finset
import Mathlib.Analysis.SpecificLimits.Basic
import Mathlib.Data.Real.Basic

open Finset

namespace Paradiseo.EO
open Paradiseo.Ops (bitMutation bitMutationAux)
open Run (EA RunSt)

/-! ### Missing an absorbing event -/

/-- A process driven by independent draws from a finite set, looked at after the draws `l`. -/
def after {σ A : Type} (step : A → σ → σ) : List A → σ → σ
  | [], s => s
  | a :: l, s => after step l (step a s)

theorem after_found {σ A : Type} {step : A → σ → σ} {found : σ → Prop}
    (h : ∀ a s, found s → found (step a s)) (l : List A) (s : σ) (hs : found s) : found (after step l s) := by
  induction l generalizing s with
  | nil => exact hs
  | cons a l ih => exact ih _ (h a s hs)

open Classical in
theorem miss_le {σ A : Type} [Fintype A] (w : A → ℝ) (h0 : ∀ a, 0 ≤ w a) (h1 : ∑ a, w a = 1) (δ : ℝ)
    (step : A → σ → σ) (found inv : σ → Prop) (hf : ∀ a s, inv s → found s → found (step a s))
    (hi : ∀ a s, inv s → inv (step a s)) (hg : ∀ s, inv s → ∃ a, δ ≤ w a ∧ found (step a s))
    (T : Nat) (s : σ) (hs : inv s) :
    ∑ b : Fin T → A, (if found (after step (List.ofFn b) s) then 0 else ∏ k, w (b k)) ≤ (1 - δ) ^ T := by
  induction T generalizing s with
  | zero =>
    simp only [univ_unique, sum_singleton, univ_eq_empty, prod_empty, pow_zero]
    split_ifs <;> norm_num
  | succ T ih =>
    rw [← (Fin.consEquiv fun _ => A).sum_comp, Fintype.sum_prod_type]
    simp only [Fin.consEquiv_apply, List.ofFn_succ, Fin.cons_zero, Fin.cons_succ, after, Fin.prod_univ_succ]
    have e : ∀ a : A, ∑ b : Fin T → A, (if found (after step (List.ofFn b) (step a s)) then 0 else w a * ∏ k, w (b k)) =
        w a * ∑ b : Fin T → A, (if found (after step (List.ofFn b) (step a s)) then 0 else ∏ k, w (b k)) := by
      intro a
      rw [mul_sum]
      exact sum_congr rfl fun b _ => by split_ifs <;> simp
    obtain ⟨a0, hδ, ha0⟩ := hg s hs
    have hz : ∑ b : Fin T → A, (if found (after step (List.ofFn b) (step a0 s)) then 0 else ∏ k, w (b k)) = 0 := by
      apply sum_eq_zero
      intro b _
      rw [if_pos]
      have : ∀ (l : List A) (s : σ), inv s → found s → found (after step l s) := by
        intro l
        induction l with
        | nil => exact fun _ _ h => h
        | cons a l ih => exact fun s hs h => ih _ (hi a s hs) (hf a s hs h)
      exact this _ _ (hi _ _ hs) ha0
    have hw : w a0 + ∑ a ∈ univ.erase a0, w a = 1 := by rw [add_sum_erase _ _ (mem_univ a0)]; exact h1
    have hpos : 0 ≤ ∑ a ∈ univ.erase a0, w a := sum_nonneg fun a _ => h0 a
    have hd : 0 ≤ 1 - δ := by linarith
    simp only [e]
    rw [← add_sum_erase _ _ (mem_univ a0), hz, mul_zero, zero_add]
    calc _ ≤ ∑ a ∈ univ.erase a0, w a * (1 - δ) ^ T :=
          sum_le_sum fun a _ => mul_le_mul_of_nonneg_left (ih _ (hi _ _ hs)) (h0 a)
      _ = (∑ a ∈ univ.erase a0, w a) * (1 - δ) ^ T := by rw [sum_mul]
      _ ≤ (1 - δ) * (1 - δ) ^ T := mul_le_mul_of_nonneg_right (by linarith) (pow_nonneg hd T)
      _ = (1 - δ) ^ (T + 1) := by ring

/-! ### The flips of one mutation -/

/-- The flips of a mutation of `n` bits as the stream read by the mutation. -/
def flipsOf {n : Nat} (φ : Fin n → Bool) (i : Nat) : Bool := if h : i < n then φ ⟨i, h⟩ else false

/-- The probability of the flips when every bit is flipped with probability `p`, independently. -/
def flipProb {n : Nat} (p : ℝ) (φ : Fin n → Bool) : ℝ := ∏ i, if φ i then p else 1 - p

theorem flipProb_nonneg {n : Nat} {p : ℝ} (h0 : 0 ≤ p) (h1 : p ≤ 1) (φ : Fin n → Bool) : 0 ≤ flipProb p φ :=
  prod_nonneg fun i _ => by split_ifs <;> linarith

theorem flipProb_sum (n : Nat) (p : ℝ) : ∑ φ : Fin n → Bool, flipProb p φ = 1 := by
  have h := (Finset.prod_univ_sum (fun _ : Fin n => (univ : Finset Bool)) fun _ b => if b then p else 1 - p).symm
  simp only [Fintype.piFinset_univ] at h
  simp only [flipProb, h]
  simp

theorem flipProb_ge {n : Nat} {p : ℝ} (h0 : 0 ≤ p) (h1 : p ≤ 1) (φ : Fin n → Bool) :
    min p (1 - p) ^ n ≤ flipProb p φ := by
  have : min p (1 - p) ^ n = ∏ _i : Fin n, min p (1 - p) := by simp
  rw [this]
  apply prod_le_prod
  · intro i _; exact le_min h0 (by linarith)
  · intro i _; split_ifs
    · exact min_le_left _ _
    · exact min_le_right _ _

theorem bitMutationAux_to (b : Nat → Bool) (i : Nat) (l o : List Bool) (hl : l.length = o.length)
    (hb : ∀ k (h : k < l.length), b (i + k) = Bool.xor l[k] (o[k]'(hl ▸ h))) : (bitMutationAux b i l).1 = o := by
  induction l generalizing i o with
  | nil => cases o with | nil => rfl | cons => simp at hl
  | cons x l ih =>
    cases o with
    | nil => simp at hl
    | cons y o =>
      have h0 := hb 0 (by simp)
      have hr := ih (i + 1) o (by simpa using hl) fun k h => by
        have := hb (k + 1) (by simpa using h)
        simp only [List.getElem_cons_succ] at this
        rw [← this]; congr 1; omega
      simp only [Nat.add_zero, List.getElem_cons_zero] at h0
      simp only [bitMutationAux, h0]
      cases x <;> cases y <;> simp [hr]

/-- Some flips lead from any string of bits to any other of the same length. -/
theorem bitMutation_reach {n : Nat} (l o : List Bool) (hl : l.length = n) (ho : o.length = n) :
    ∃ φ : Fin n → Bool, (bitMutation (flipsOf φ) l).1 = o := by
  refine ⟨fun i => Bool.xor (l[i.1]'(hl ▸ i.2)) (o[i.1]'(ho ▸ i.2)), ?_⟩
  apply bitMutationAux_to _ _ _ _ (hl.trans ho.symm)
  intro k h
  rw [Nat.zero_add, flipsOf, dif_pos (hl ▸ h)]

/-! ### C376 -/

variable {F : Type} [LinearOrder F] [Inhabited F]

/-- An evolutionary algorithm on strings of `n` bits.  The breeding makes, in every generation, one offspring by the
bit-flip mutation of the string `parent`, chosen in any way from the population, and any other offspring `others`,
which may depend on the flips as well; the replacement is any. -/
structure MutEA (n : Nat) (F : Type) where
  f : List Bool → F
  parent : Nat → List (Ind (List Bool) F) → List Bool
  others : Nat → (Fin n → Bool) → List (Ind (List Bool) F) → List (List Bool)
  replace : Nat → Replacement (Ind (List Bool) F)

/-- The algorithm in a generation with the flips `φ`. -/
def MutEA.ea {n : Nat} (A : MutEA n F) (φ : Fin n → Bool) : EA (List Bool) F Unit where
  f := A.f
  breed t pop := .ok (((bitMutation (flipsOf φ) (A.parent t pop)).1 :: A.others t φ pop).map Ind.new)
  replace := A.replace
  cont := fun _ _ _ => .ok (true, ())

/-- The generations with the flips of the list. -/
def MutEA.gens {n : Nat} (A : MutEA n F) : List (Fin n → Bool) → RunSt (List Bool) F Unit →
    Except Err (RunSt (List Bool) F Unit)
  | [], s => .ok s
  | φ :: l, s =>
    match (A.ea φ).generation s with
    | .error e => .error e
    | .ok s' => A.gens l s'

/-- The replacement keeps the number of individuals, invents none, and keeps one at least as good as any parent and
any offspring. -/
def Elitist (R : Replacement (Ind (List Bool) F)) : Prop :=
  ∀ par off, par ≠ [] → ∃ pop rest, R par off = .ok (pop, rest) ∧ pop.length = par.length ∧
    (∀ x ∈ pop, x ∈ par ∨ x ∈ off) ∧ ∀ x, x ∈ par ∨ x ∈ off → ∃ y ∈ pop, x.repFitness ≤ y.repFitness

/-- The population contains an individual, with its true fitness, that no string of `n` bits beats. -/
def HasOptimum (n : Nat) (f : List Bool → F) (pop : List (Ind (List Bool) F)) : Prop :=
  ∃ x ∈ pop, x.fitness = some (f x.genome) ∧ ∀ g : List Bool, g.length = n → f g ≤ f x.genome

/-- The flips `b` do not lead to an optimum within `T` generations. -/
def Misses {n : Nat} (A : MutEA n F) (start : List (Ind (List Bool) F)) {T : Nat} (b : Fin T → Fin n → Bool) : Prop :=
  ¬ ∃ s, A.gens (List.ofFn b) ⟨start, 0, (), 0, []⟩ = .ok s ∧ HasOptimum n A.f s.pop

/-- All individuals have their true fitness. -/
def TrueFit (f : List Bool → F) (pop : List (Ind (List Bool) F)) : Prop := ∀ x ∈ pop, x.fitness = some (f x.genome)

theorem fitness_eq {f : List Bool → F} {x : Ind (List Bool) F} (h : x.fitness = some (f x.genome)) :
    x.repFitness = f x.genome := by
  unfold Ind.fitness at h; split_ifs at h; simpa using h

theorem generation_ok {n : Nat} (A : MutEA n F) (hel : ∀ t, Elitist (A.replace t)) (φ : Fin n → Bool)
    (s : RunSt (List Bool) F Unit) (hne : s.pop ≠ []) (ht : TrueFit A.f s.pop) :
    ∃ s', (A.ea φ).generation s = .ok s' ∧ s'.pop ≠ [] ∧ TrueFit A.f s'.pop ∧
      (∀ x ∈ s.pop, ∃ y ∈ s'.pop, A.f x.genome ≤ A.f y.genome) ∧
      ∃ y ∈ s'.pop, A.f (bitMutation (flipsOf φ) (A.parent s.gens s.pop)).1 ≤ A.f y.genome := by
  set off := (((bitMutation (flipsOf φ) (A.parent s.gens s.pop)).1 :: A.others s.gens φ s.pop).map
    (Ind.new (F := F))) with hoff
  have hev := C47_evalPop A.f s.evals off
  have hof : TrueFit A.f (evalPop A.f s.evals off).2 := by
    apply hev.2.2.1
    intro x hx v h
    rw [hoff, List.mem_map] at hx
    obtain ⟨g, -, rfl⟩ := hx
    exact absurd h (by simp [Ind.new, Ind.fitness])
  obtain ⟨pop', rest, hr, hlen, hsub, hbest⟩ := hel s.gens s.pop (evalPop A.f s.evals off).2 hne
  have hT : TrueFit A.f pop' := fun x hx => (hsub x hx).elim (ht x) (hof x)
  have hb : (A.ea φ).breed s.gens s.pop = .ok off := rfl
  refine ⟨⟨pop', (evalPop A.f s.evals off).1, s.cs, s.gens + 1, s.seen ++ [(evalPop A.f s.evals off).2]⟩,
    ?_, ?_, hT, ?_, ?_⟩
  · unfold EA.generation
    rw [hb]
    simp only
    have : (A.ea φ).replace s.gens s.pop (evalPop (A.ea φ).f s.evals off).2 = .ok (pop', rest) := hr
    rw [this]
    simp only [hlen, gt_iff_lt, lt_irrefl, if_false]
    rfl
  · intro h
    simp only at h
    rw [h] at hlen
    exact hne (List.length_eq_zero_iff.1 hlen.symm)
  · intro x hx
    obtain ⟨y, hy, h⟩ := hbest x (Or.inl hx)
    exact ⟨y, hy, by rwa [fitness_eq (ht x hx), fitness_eq (hT y hy)] at h⟩
  · have hm : (bitMutation (flipsOf φ) (A.parent s.gens s.pop)).1 ∈
        (evalPop A.f s.evals off).2.map (·.genome) := by
      rw [hev.1, hoff]; simp [Ind.new]
    obtain ⟨x, hx, hg⟩ := List.mem_map.1 hm
    obtain ⟨y, hy, h⟩ := hbest x (Or.inr hx)
    refine ⟨y, hy, ?_⟩
    rw [fitness_eq (hof x hx), fitness_eq (hT y hy)] at h
    rwa [← hg]

open Classical in
/-- C376: whatever the choice of parents, the other offspring and the start, the probability that the flips of `T`
generations do not bring an optimum into the population is at most `(1 - min p (1-p) ^ n) ^ T`. -/
theorem C376_bound {n : Nat} (A : MutEA n F) (hpar : ∀ t pop, (A.parent t pop).length = n)
    (hel : ∀ t, Elitist (A.replace t)) (p : ℝ) (h0 : 0 ≤ p) (h1 : p ≤ 1) (start : List (Ind (List Bool) F))
    (hne : start ≠ []) (ht : TrueFit A.f start) (T : Nat) :
    ∑ b : Fin T → Fin n → Bool with Misses A start b, ∏ t, flipProb p (b t) ≤ (1 - min p (1 - p) ^ n) ^ T := by
  -- one best string of `n` bits
  obtain ⟨o, ho⟩ : ∃ o : List Bool, o.length = n ∧ ∀ g : List Bool, g.length = n → A.f g ≤ A.f o := by
    obtain ⟨φ, -, hφ⟩ := exists_max_image (univ : Finset (Fin n → Bool)) (fun φ => A.f (List.ofFn φ)) ⟨fun _ => false, mem_univ _⟩
    refine ⟨List.ofFn φ, by simp, fun g hg => ?_⟩
    subst hg
    simpa using hφ (fun i => g[i]) (mem_univ _)
  let step : (Fin n → Bool) → RunSt (List Bool) F Unit → RunSt (List Bool) F Unit := fun φ s =>
    match (A.ea φ).generation s with
    | .error _ => s
    | .ok s' => s'
  let inv : RunSt (List Bool) F Unit → Prop := fun s => s.pop ≠ [] ∧ TrueFit A.f s.pop
  let found : RunSt (List Bool) F Unit → Prop := fun s => HasOptimum n A.f s.pop
  have hstep : ∀ φ s, inv s → (A.ea φ).generation s = .ok (step φ s) := by
    intro φ s hs
    obtain ⟨s', h, -⟩ := generation_ok A hel φ s hs.1 hs.2
    simp only [step, h]
  have hrun : ∀ l s, inv s → A.gens l s = .ok (after step l s) ∧ inv (after step l s) := by
    intro l
    induction l with
    | nil => exact fun s hs => ⟨rfl, hs⟩
    | cons φ l ih =>
      intro s hs
      obtain ⟨s', h, h2, h3, -⟩ := generation_ok A hel φ s hs.1 hs.2
      have : step φ s = s' := by simp only [step, h]
      simp only [MutEA.gens, after, h, this]
      exact ih s' ⟨h2, h3⟩
  have key := miss_le (flipProb p) (flipProb_nonneg h0 h1) (flipProb_sum n p) (min p (1 - p) ^ n) step found inv
    (by
      rintro φ s hs ⟨x, hx, -, hbest⟩
      obtain ⟨s', h, -, h3, h4, -⟩ := generation_ok A hel φ s hs.1 hs.2
      obtain ⟨y, hy, hxy⟩ := h4 x hx
      simp only [found, step, h]
      exact ⟨y, hy, h3 y hy, fun g hg => (hbest g hg).trans hxy⟩)
    (by
      intro φ s hs
      obtain ⟨s', h, h2, h3, -⟩ := generation_ok A hel φ s hs.1 hs.2
      simp only [inv, step, h]
      exact ⟨h2, h3⟩)
    (by
      intro s hs
      obtain ⟨φ, hφ⟩ := bitMutation_reach (n := n) (A.parent s.gens s.pop) o (hpar _ _) ho.1
      refine ⟨φ, flipProb_ge h0 h1 φ, ?_⟩
      obtain ⟨s', h, -, h3, -, y, hy, hb⟩ := generation_ok A hel φ s hs.1 hs.2
      rw [hφ] at hb
      simp only [found, step, h]
      exact ⟨y, hy, h3 y hy, fun g hg => (ho.2 g hg).trans hb⟩)
    T ⟨start, 0, (), 0, []⟩ ⟨hne, ht⟩
  refine le_trans (le_of_eq ?_) key
  rw [sum_filter]
  refine sum_congr rfl fun b _ => ?_
  have hm : Misses A start b ↔ ¬ found (after step (List.ofFn b) ⟨start, 0, (), 0, []⟩) := by
    unfold Misses
    rw [(hrun (List.ofFn b) ⟨start, 0, (), 0, []⟩ ⟨hne, ht⟩).1]
    simp [found]
  by_cases h : found (after step (List.ofFn b) ⟨start, 0, (), 0, []⟩)
  · rw [if_pos h, if_neg (by rw [hm]; exact not_not.2 h)]
  · rw [if_neg h, if_pos (hm.2 h)]

open Classical in
/-- C376: hence, with `0 < p < 1`, this probability tends to zero. -/
theorem C376_limit {n : Nat} (A : MutEA n F) (hpar : ∀ t pop, (A.parent t pop).length = n)
    (hel : ∀ t, Elitist (A.replace t)) (p : ℝ) (h0 : 0 < p) (h1 : p < 1) (start : List (Ind (List Bool) F))
    (hne : start ≠ []) (ht : TrueFit A.f start) :
    Filter.Tendsto (fun T => ∑ b : Fin T → Fin n → Bool with Misses A start b, ∏ t, flipProb p (b t))
      Filter.atTop (nhds 0) := by
  have hm : 0 < min p (1 - p) := lt_min h0 (by linarith)
  have hm1 : min p (1 - p) ≤ 1 := (min_le_left _ _).trans h1.le
  have hpow : 0 < min p (1 - p) ^ n := pow_pos hm n
  have hpow1 : min p (1 - p) ^ n ≤ 1 := pow_le_one₀ hm.le hm1
  refine squeeze_zero (fun T => sum_nonneg fun b _ => prod_nonneg fun t _ => flipProb_nonneg h0.le h1.le _)
    (fun T => C376_bound A hpar hel p h0.le h1.le start hne ht T) ?_
  exact tendsto_pow_atTop_nhds_zero_of_lt_one (by linarith) (by linarith)

/-- C376: the probabilities of all flips of `T` generations add up to one. -/
theorem C376_total (n T : Nat) (p : ℝ) : ∑ b : Fin T → Fin n → Bool, ∏ t, flipProb p (b t) = 1 := by
  have h := (Finset.prod_univ_sum (fun _ : Fin T => (univ : Finset (Fin n → Bool))) fun _ φ => flipProb p φ).symm
  simp only [Fintype.piFinset_univ] at h
  rw [h]
  simp [flipProb_sum]

/-- C376: the (mu + lambda) replacement is elitist in this sense. -/
theorem C376_plus (sort : List (Ind (List Bool) F) → List (Ind (List Bool) F))
    (hs : IsSort (fun x : Ind (List Bool) F => x.repFitness) sort) : Elitist (plusReplacement sort) := by
  intro par off hne
  obtain ⟨kept, hr, hl, ⟨dropped, hperm, hb⟩, -⟩ := C48_plus (fun x : Ind (List Bool) F => x.repFitness) sort hs par off
  refine ⟨kept, par, hr, hl, fun x hx => ?_, fun x hx => ?_⟩
  · exact List.mem_append.1 (hperm.mem_iff.1 (List.mem_append_left _ hx))
  · rcases List.mem_append.1 (hperm.mem_iff.2 (List.mem_append.2 hx)) with h | h
    · exact ⟨x, h, le_rfl⟩
    · have : kept ≠ [] := by
        intro hk; rw [hk] at hl; exact hne (List.length_eq_zero_iff.1 hl.symm)
      obtain ⟨y, hy⟩ := List.exists_mem_of_ne_nil _ this
      exact ⟨y, hy, hb y hy x h⟩

/-- C376: so is weak elitism around the replacement of the parents by as many offspring, when there are that many. -/
theorem C376_weak (par off : List (Ind (List Bool) F)) (hne : par ≠ []) (hlen : off.length = par.length) :
    ∃ pop rest, weakElitist (fun x : Ind (List Bool) F => x.repFitness) generational par off = .ok (pop, rest) ∧
      pop.length = par.length ∧ (∀ x ∈ pop, x ∈ par ∨ x ∈ off) ∧
      ∀ x, x ∈ par ∨ x ∈ off → ∃ y ∈ pop, x.repFitness ≤ y.repFitness := by
  have hoff : off ≠ [] := by
    intro h; rw [h] at hlen; exact hne (List.length_eq_zero_iff.1 hlen.symm)
  obtain ⟨res, hr, hl, hp, ho, h1, h2⟩ := C49_weak_elitism (fun x : Ind (List Bool) F => x.repFitness) generational
    par off off par hne rfl hoff
  refine ⟨res, par, hr, hl.trans hlen, fun x hx => ?_, fun x hx => hx.elim (hp x) (ho x)⟩
  by_cases h : ∃ q ∈ off, ∀ p ∈ par, p.repFitness ≤ q.repFitness
  · rw [h1 h] at hx; exact Or.inr hx
  · obtain ⟨i, c, w, hc, -, -, -, he⟩ := h2 h
    rw [he] at hx
    rcases List.mem_or_eq_of_mem_set hx with h | h
    · exact Or.inr h
    · exact Or.inl (h ▸ hc)

/-! ### The hypotheses can be met -/

/-- The (1+1) algorithm on the number of ones of two bits. -/
def onePlusOne : MutEA 2 Nat where
  f g := g.count true
  parent _ pop := match pop with
    | x :: _ => if x.genome.length = 2 then x.genome else [false, false]
    | [] => [false, false]
  others _ _ _ := []
  replace _ := plusReplacement fun l => l.mergeSort fun a b => decide (b.repFitness ≤ a.repFitness)

example : (∀ t pop, (onePlusOne.parent t pop).length = 2) ∧ (∀ t, Elitist (onePlusOne.replace t)) ∧
    TrueFit onePlusOne.f [⟨[false, false], 0, false⟩] := by
  refine ⟨fun t pop => ?_, fun t => C376_plus _ (isSort_mergeSort _), by simp [TrueFit, Ind.fitness, onePlusOne]⟩
  unfold onePlusOne
  cases pop with
  | nil => rfl
  | cons x l => simp only; split_ifs with h <;> simp [h]

end Paradiseo.EO
