/-
Property C380: when the moves connect the solutions, the stationary distributions of C375 are the only ones.
-/
import Verif.Props.Metropolis

namespace Paradiseo.LS

open MeasureTheory Finset

variable {S M : Type} [Fintype S] [DecidableEq S] [Fintype M]

/-- The moves lead from every solution to every other. -/
def ConnectedMoves (app : M → S → S) : Prop := ∀ x y : S, Relation.ReflTransGen (fun a b => ∃ m, app m a = b) x y

/-- One step leaves `v` as it is. -/
def Unchanged (step : M → ℝ → S → S) (v : S → ℝ) : Prop := ∀ y, ∑ x, v x * stepProb step x y = v y

theorem stepProb_nonneg (step : M → ℝ → S → S) (x y : S) : 0 ≤ stepProb step x y :=
  div_nonneg (sum_nonneg fun _ _ => measureReal_nonneg) (Nat.cast_nonneg _)

theorem stepProb_pos [Nonempty M] (app : M → S → S) (w : S → ℝ) (hw : ∀ x, 0 < w x) (step : M → ℝ → S → S)
    (hstep : ∀ m u x, 0 ≤ u → u < 1 → step m u x = if u < min 1 (w (app m x) / w x) then app m x else x) (m : M) (x : S) :
    0 < stepProb step x (app m x) := by
  have hM : (0 : ℝ) < Fintype.card M := by exact_mod_cast Fintype.card_pos
  refine div_pos (sum_pos' (fun _ _ => measureReal_nonneg) ⟨m, mem_univ m, ?_⟩) hM
  have hα : 0 < min 1 (w (app m x) / w x) := lt_min zero_lt_one (div_pos (hw _) (hw _))
  have hα1 : min 1 (w (app m x) / w x) ≤ 1 := min_le_left _ _
  rw [measure_step _ hα.le hα1 (app m x) x (app m x) _ (fun u h0 h1 => hstep m u x h0 h1), if_pos rfl]
  split_ifs <;> linarith

/-- The stationary weights are unique up to a factor when every solution can be reached from every other. -/
theorem unique_of_connected (step : M → ℝ → S → S) (w : S → ℝ) (hw : ∀ x, 0 < w x) (hst : Stationary step w)
    (hc : ∀ x y, Relation.ReflTransGen (fun a b => 0 < stepProb step a b) x y) (v : S → ℝ) (hv : Unchanged step v)
    (hsum : ∑ x, v x = 1) (x : S) : v x = w x / ∑ y, w y := by
  obtain ⟨rev, tot, -⟩ := hst
  have harm : ∀ y, v y / w y = ∑ x, stepProb step y x * (v x / w x) := by
    intro y
    have : ∀ x, stepProb step y x * (v x / w x) = v x * stepProb step x y / w y := by
      intro x
      have hx := (hw x).ne'
      have hy := (hw y).ne'
      have hr := rev x y
      field_simp
      linear_combination -v x * hr
    rw [sum_congr rfl fun x _ => this x, ← sum_div, hv y]
  obtain ⟨z, -, hz⟩ := exists_max_image (univ : Finset S) (fun x => v x / w x) ⟨x, mem_univ x⟩
  have step1 : ∀ a b, v a / w a = v z / w z → 0 < stepProb step a b → v b / w b = v z / w z := by
    intro a b ha hab
    have h0 : ∑ x, stepProb step a x * (v z / w z - v x / w x) = 0 := by
      simp only [mul_sub, sum_sub_distrib]
      rw [← harm a, ← sum_mul, tot a, one_mul, ha, sub_self]
    rw [sum_eq_zero_iff_of_nonneg fun x _ => mul_nonneg (stepProb_nonneg step a x) (sub_nonneg.2 (hz x (mem_univ x)))] at h0
    have := h0 b (mem_univ b)
    rcases mul_eq_zero.1 this with h | h
    · exact absurd h hab.ne'
    · linarith
  have all : ∀ x, v x / w x = v z / w z := by
    intro x
    induction hc z x with
    | refl => rfl
    | tail _ hbc ih => exact step1 _ _ ih hbc
  have hv' : ∀ x, v x = v z / w z * w x := fun x => by
    rw [← all x, div_mul_cancel₀ _ (hw x).ne']
  have hW : 0 < ∑ y, w y := sum_pos (fun y _ => hw y) ⟨x, mem_univ x⟩
  have hc1 : v z / w z * ∑ y, w y = 1 := by
    rw [mul_sum, ← hsum]; exact (sum_congr rfl fun x _ => hv' x).symm
  rw [hv' x, eq_div_iff hW.ne']
  calc v z / w z * w x * ∑ y, w y = (v z / w z * ∑ y, w y) * w x := by ring
    _ = w x := by rw [hc1, one_mul]

theorem unique_of_metropolis [Nonempty M] (app : M → S → S) (hcon : ConnectedMoves app) (w : S → ℝ)
    (hw : ∀ x, 0 < w x) (step : M → ℝ → S → S)
    (hstep : ∀ m u x, 0 ≤ u → u < 1 → step m u x = if u < min 1 (w (app m x) / w x) then app m x else x)
    (hst : Stationary step w) (v : S → ℝ) (hv : Unchanged step v) (hsum : ∑ x, v x = 1) (x : S) :
    v x = w x / ∑ y, w y := by
  refine unique_of_connected step w hw hst (fun a b => ?_) v hv hsum x
  refine Relation.ReflTransGen.mono ?_ _ _ (hcon a b)
  rintro a b ⟨m, rfl⟩
  exact stepProb_pos app w hw step hstep m a

/-- **C380** (simulated annealing at a fixed temperature, maximising). -/
theorem C380_annealing [Nonempty M] {C : Type} (cool : Cooling C) (f : S → ℝ) (app : M → S → S) (hs : SymmetricMoves app)
    (hcon : ConnectedMoves app) (e : SA M C) (hT : 0 < e.temp.1) (v : S → ℝ)
    (hv : Unchanged (saStep (· < ·) cool f app e) v) (hsum : ∑ x, v x = 1) (x : S) :
    v x = Real.exp (f x / e.temp.1) / ∑ y, Real.exp (f y / e.temp.1) :=
  unique_of_metropolis app hcon _ (fun _ => Real.exp_pos _) _ (saStep_max cool f app e hT)
    (C375_annealing cool f app hs e hT) v hv hsum x

/-- **C380** (simulated annealing at a fixed temperature, minimising). -/
theorem C380_annealing_min [Nonempty M] {C : Type} (cool : Cooling C) (f : S → ℝ) (app : M → S → S) (hs : SymmetricMoves app)
    (hcon : ConnectedMoves app) (e : SA M C) (hT : 0 < e.temp.1) (v : S → ℝ)
    (hv : Unchanged (saStep (· > ·) cool f app e) v) (hsum : ∑ x, v x = 1) (x : S) :
    v x = Real.exp (- f x / e.temp.1) / ∑ y, Real.exp (- f y / e.temp.1) :=
  unique_of_metropolis app hcon _ (fun _ => Real.exp_pos _) _ (saStep_min cool f app e hT)
    (C375_annealing_min cool f app hs e hT) v hv hsum x

/-- **C380** (Metropolis-Hastings walk on positive fitness values). -/
theorem C380_metropolis [Nonempty M] (nbStep : Nat) (f : S → ℝ) (hf : ∀ x, 0 < f x) (app : M → S → S)
    (hs : SymmetricMoves app) (hcon : ConnectedMoves app) (e : HC M ℝ) (v : S → ℝ)
    (hv : Unchanged (mhStep nbStep f app e) v) (hsum : ∑ x, v x = 1) (x : S) : v x = f x / ∑ y, f y :=
  unique_of_metropolis app hcon _ hf _ (mhStep_form nbStep f hf app e) (C375_metropolis nbStep f hf app hs e) v hv hsum x

/-- **C380** (the distributions named do stay unchanged and add up to one, so the hypotheses can be met). -/
theorem C380_exists [Nonempty S] (step : M → ℝ → S → S) (w : S → ℝ) (hw : ∀ x, 0 < w x) (hst : Stationary step w) :
    Unchanged step (fun x => w x / ∑ y, w y) ∧ ∑ x, w x / ∑ y, w y = 1 := by
  have hW : 0 < ∑ y, w y := sum_pos (fun y _ => hw y) univ_nonempty
  refine ⟨fun y => ?_, by rw [← sum_div, div_self hW.ne']⟩
  have : ∀ x, w x / (∑ y, w y) * stepProb step x y = w x * stepProb step x y / ∑ y, w y := fun x => by ring
  rw [sum_congr rfl fun x _ => this x, ← sum_div, hst.2.2 y]

/-- Without connected moves it is false: two solutions, the only move does nothing, every distribution is stationary. -/
theorem C380_needs_connection (nbStep : Nat) (e : HC Unit ℝ) (v : Bool → ℝ) :
    Unchanged (mhStep nbStep (fun _ : Bool => (1 : ℝ)) (fun (_ : Unit) b => b) e) v := by
  intro y
  have h : ∀ x z : Bool, stepProb (mhStep nbStep (fun _ : Bool => (1 : ℝ)) (fun (_ : Unit) b => b) e) x z =
      if x = z then 1 else 0 := by
    intro x z
    unfold stepProb
    simp only [mhStep_eq, ite_self]
    have e1 : {u : ℝ | 0 ≤ u ∧ u < 1} = Set.Ico 0 1 := rfl
    by_cases hxz : x = z
    · simp [hxz, e1]
    · simp [hxz]
  simp [h]

theorem flip_flip {n : Nat} (m : Fin n) (x : Fin n → Bool) :
    Function.update (Function.update x m (!x m)) m (!Function.update x m (!x m) m) = x := by
  funext j
  by_cases h : j = m
  · subst h; simp
  · simp [h]

/-- Flipping one bit of a string connects the strings. -/
theorem flip_connected (n : Nat) : ConnectedMoves (fun (i : Fin n) (x : Fin n → Bool) => Function.update x i (!x i)) := by
  intro x y
  have key : ∀ (s : Finset (Fin n)) (x : Fin n → Bool), (∀ i, i ∉ s → x i = y i) →
      Relation.ReflTransGen (fun a b => ∃ m, Function.update a m (!a m) = b) x y := by
    intro s
    induction s using Finset.induction_on with
    | empty =>
      intro x h
      rw [show x = y from funext fun i => h i (by simp)]
    | insert i s hi ih =>
      intro x h
      by_cases hx : x i = y i
      · exact ih x fun j hj => by
          by_cases hji : j = i
          · rw [hji, hx]
          · exact h j (by simp [hji, hj])
      · refine Relation.ReflTransGen.head ⟨i, rfl⟩ (ih _ fun j hj => ?_)
        by_cases hji : j = i
        · subst hji
          simp only [Function.update_self]
          cases h1 : x j <;> cases h2 : y j <;> simp_all
        · rw [Function.update_of_ne hji]
          exact h j (by simp [hji, hj])
  exact key univ x fun i hi => absurd (mem_univ i) hi

end Paradiseo.LS
