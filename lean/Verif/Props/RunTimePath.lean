/-
Property C401: how many generations an elitist algorithm needs on average where no string is a trap for one-bit flips, as on the long path.
-/
import Verif.Props.RunTimeRoyal
import Verif.Props.LongPathClimb

open Finset

namespace Paradiseo.EO

open Paradiseo.Ops (bitMutation bitMutationAux)

/-- The string with one bit changed. -/
def withFlip (g : List Bool) (i : Nat) : List Bool := g.set i (!(g.getD i false))

theorem withFlip_result {n : Nat} (g : List Bool) (hg : g.length = n) (i : Fin n) :
    (bitMutation (flipsOf (flipAt i)) g).1 = withFlip g i.1 := by
  apply bitMutationAux_to _ _ _ _ (by simp [withFlip])
  intro k hk
  rw [Nat.zero_add, flipsOf, dif_pos (hg ▸ hk)]
  by_cases hki : k = i.1
  · subst hki
    simp [flipAt, withFlip, List.getElem?_eq_getElem hk]
  · have : (⟨k, hg ▸ hk⟩ : Fin n) ≠ i := fun h => hki (congrArg Fin.val h)
    simp [flipAt, withFlip, this, List.getElem_set_ne (Ne.symm hki)]

/-- The number of fitness values of strings of `n` bits that are better than that of `g`. -/
def valuesAbove {F : Type} [LinearOrder F] (n : Nat) (f : List Bool → F) (g : List Bool) : Nat :=
  #{v ∈ (univ : Finset (Fin n → Bool)).image (fun b => f (List.ofFn b)) | f g < v}

/-- No string of `n` bits is a trap: an optimum, or one flip leads to a better string. -/
def NoTrap {F : Type} [LinearOrder F] (n : Nat) (f : List Bool → F) : Prop :=
  ∀ g : List Bool, g.length = n → (∀ h : List Bool, h.length = n → f h ≤ f g) ∨ ∃ i < n, f g < f (withFlip g i)

theorem mem_values {F : Type} [LinearOrder F] {n : Nat} (f : List Bool → F) (g : List Bool) (hg : g.length = n) :
    f g ∈ (univ : Finset (Fin n → Bool)).image (fun b => f (List.ofFn b)) := by
  subst hg
  exact mem_image.2 ⟨g.get, mem_univ _, by rw [List.ofFn_get]⟩

theorem above_anti {F : Type} [LinearOrder F] {n : Nat} (f : List Bool → F) (g h : List Bool) (hgh : f g ≤ f h) :
    valuesAbove n f h ≤ valuesAbove n f g := by
  apply card_le_card
  intro v hv
  rw [mem_filter] at hv ⊢
  exact ⟨hv.1, hgh.trans_lt hv.2⟩

theorem above_lt {F : Type} [LinearOrder F] {n : Nat} (f : List Bool → F) (g h : List Bool) (hh : h.length = n) (hgh : f g < f h) :
    valuesAbove n f h < valuesAbove n f g := by
  apply card_lt_card
  rw [ssubset_iff_of_subset]
  · exact ⟨f h, mem_filter.2 ⟨mem_values f h hh, hgh⟩, by simp⟩
  · intro v hv
    rw [mem_filter] at hv ⊢
    exact ⟨hv.1, hgh.trans hv.2⟩

open Classical in
/-- **C401**: where no string is a trap, the expected number of generations until an optimum is in the population is at most the number of
fitness values better than that of any individual of the start, divided by `p (1-p)^(n-1)`. -/
theorem C401_no_trap {F : Type} [LinearOrder F] [Inhabited F] {n : Nat} (A : MutEA n F) (hf : NoTrap n A.f) (hpar : BestParent A)
    (hel : ∀ t, Elitist (A.replace t)) (hoth : ∀ t φ pop, ∀ g ∈ A.others t φ pop, g.length = n) (p : ℝ) (h0 : 0 < p) (h1 : p < 1)
    (start : List (Ind (List Bool) F)) (ht : TrueFit A.f start) (hlen : ∀ x ∈ start, x.genome.length = n)
    (x0 : Ind (List Bool) F) (hx0 : x0 ∈ start) (T : Nat) :
    ∑ t ∈ range T, ∑ b : Fin t → Fin n → Bool with Misses A start b, ∏ k, flipProb p (b k) ≤
      valuesAbove n A.f x0.genome / (p * (1 - p) ^ (n - 1)) := by
  have hpp : 0 < 1 - p := by linarith
  have key := C399_levels A hpar hel hoth p h0.le h1.le (valuesAbove n A.f) (fun g h _ _ hgh => above_anti A.f g h hgh)
    (fun g h _ hh hz => by
      by_contra hlt
      have := above_lt (n := n) A.f g h hh (not_le.1 hlt)
      omega)
    (fun _ => p * (1 - p) ^ (n - 1)) (fun _ => by positivity)
    (fun g l hg hl => by
      rcases hf g hg with h | ⟨i, hi, h⟩
      · exfalso
        have : valuesAbove n A.f g = 0 := by
          rw [valuesAbove, card_eq_zero, filter_eq_empty_iff]
          intro v hv hlt
          obtain ⟨b, -, rfl⟩ := mem_image.1 hv
          exact absurd hlt (not_lt.2 (h _ (by simp)))
        omega
      · rw [← flipAt_prob p (⟨i, hi⟩ : Fin n)]
        refine single_le_sum (f := flipProb p) (fun φ _ => flipProb_nonneg h0.le h1.le φ) ?_
        simp only [mem_filter, mem_univ, true_and, withFlip_result g hg]
        have := above_lt (n := n) A.f g (withFlip g i) (by simp [withFlip, hg]) h
        omega)
    start ht hlen x0 hx0 T
  simpa [sum_const, div_eq_mul_inv] using key

open Paradiseo.LongPath (endPt C209_climb C209_fitness path_last path_length endPt_length)
open Paradiseo.LS (longFit)

theorem longFit_climb (k m : Nat) (hk : 1 ≤ k) (g : List Bool) (hg : g.length = 1 + m * k) :
    longFit k g ≤ 1 + m * k + ((k + 1) * 2 ^ m - k) ∧
    ((∀ h : List Bool, h.length = 1 + m * k → longFit k h ≤ longFit k g) ∨ ∃ i < 1 + m * k, longFit k g < longFit k (withFlip g i)) := by
  have hend : longFit k (endPt k m) = 1 + m * k + ((k + 1) * 2 ^ m - k) := by
    have hlen := path_length k m hk
    have hd := endPt_length k m
    have := (C209_fitness k m hk (endPt k m) hd).1 _ (path_last k m hk)
    simp only [longFit, this, hd]
    generalize (k + 1) * 2 ^ m = w at hlen ⊢
    omega
  have htop : ∀ y : List Bool, y.length = 1 + m * k → longFit k y ≤ 1 + m * k + ((k + 1) * 2 ^ m - k) := by
    intro y hy
    by_cases hne : y = endPt k m
    · rw [hne, hend]
    · obtain ⟨v, w, a1, a2, a3, a4, -⟩ := C209_climb k m hk y hy hne
      have e1 : longFit k y = v := by simp only [longFit, a1]
      omega
  refine ⟨htop g hg, ?_⟩
  by_cases hne : g = endPt k m
  · left
    intro h hh
    rw [hne, hend]
    exact htop h hh
  · right
    obtain ⟨v, w, a1, -, -, -, i, u, hi, hu, hvu⟩ := C209_climb k m hk g hg hne
    refine ⟨i, by omega, ?_⟩
    have e1 : longFit k g = v := by simp only [longFit, a1]
    have e2 : longFit k (withFlip g i) = u := by
      have : Paradiseo.LongPath.flipAt g i = withFlip g i := rfl
      rw [this] at hu
      simp only [longFit, hu]
    omega

open Classical in
/-- **C401**: on the long path, as many times `1 / (p (1-p)^(n-1))` generations as the fitness of an individual of the start is below the
highest one. -/
theorem C401_long_path (k m : Nat) (hk : 1 ≤ k) (A : MutEA (1 + m * k) Nat) (hf : ∀ g, A.f g = longFit k g) (hpar : BestParent A)
    (hel : ∀ t, Elitist (A.replace t)) (hoth : ∀ t φ pop, ∀ g ∈ A.others t φ pop, g.length = 1 + m * k) (p : ℝ) (h0 : 0 < p) (h1 : p < 1)
    (start : List (Ind (List Bool) Nat)) (ht : TrueFit A.f start) (hlen : ∀ x ∈ start, x.genome.length = 1 + m * k)
    (x0 : Ind (List Bool) Nat) (hx0 : x0 ∈ start) (T : Nat) :
    ∑ t ∈ range T, ∑ b : Fin t → Fin (1 + m * k) → Bool with Misses A start b, ∏ k, flipProb p (b k) ≤
      (1 + m * k + ((k + 1) * 2 ^ m - k) - longFit k x0.genome : Nat) / (p * (1 - p) ^ (m * k)) := by
  have hff : A.f = longFit k := funext hf
  have key := C401_no_trap A (fun g hg => by rw [hff]; exact (longFit_climb k m hk g hg).2) hpar hel hoth p h0 h1 start ht hlen x0 hx0 T
  rw [show 1 + m * k - 1 = m * k by omega] at key
  refine key.trans ?_
  have hpp : 0 < 1 - p := by linarith
  apply div_le_div_of_nonneg_right _ (by positivity)
  rw [hff]
  have : valuesAbove (1 + m * k) (longFit k) x0.genome ≤ #(Ioc (longFit k x0.genome) (1 + m * k + ((k + 1) * 2 ^ m - k))) := by
    apply card_le_card
    intro v hv
    rw [mem_filter] at hv
    obtain ⟨b, -, rfl⟩ := mem_image.1 hv.1
    exact mem_Ioc.2 ⟨hv.2, (longFit_climb k m hk _ (by simp)).1⟩
  rw [Nat.card_Ioc] at this
  exact_mod_cast this

open Classical in
/-- With the usual rate `1/n`: at most `e n` times as many. -/
theorem C401_usual_rate (k m : Nat) (hk : 1 ≤ k) (hm : 1 ≤ m) (A : MutEA (1 + m * k) Nat) (hf : ∀ g, A.f g = longFit k g) (hpar : BestParent A)
    (hel : ∀ t, Elitist (A.replace t)) (hoth : ∀ t φ pop, ∀ g ∈ A.others t φ pop, g.length = 1 + m * k)
    (start : List (Ind (List Bool) Nat)) (ht : TrueFit A.f start) (hlen : ∀ x ∈ start, x.genome.length = 1 + m * k)
    (x0 : Ind (List Bool) Nat) (hx0 : x0 ∈ start) (T : Nat) :
    ∑ t ∈ range T, ∑ b : Fin t → Fin (1 + m * k) → Bool with Misses A start b, ∏ j, flipProb (1 / (1 + m * k : Nat)) (b j) ≤
      Real.exp 1 * (1 + m * k : Nat) * (1 + m * k + ((k + 1) * 2 ^ m - k) - longFit k x0.genome : Nat) := by
  have hmk : 1 ≤ m * k := Nat.mul_pos hm hk
  have hn2 : (2 : ℝ) ≤ (1 + m * k : Nat) := by exact_mod_cast (by omega : 2 ≤ 1 + m * k)
  have hn0 : (0 : ℝ) < (1 + m * k : Nat) := by linarith
  have hp1 : (1 : ℝ) / (1 + m * k : Nat) < 1 := by rw [div_lt_one hn0]; linarith
  have key := C401_long_path k m hk A hf hpar hel hoth _ (one_div_pos.2 hn0) hp1 start ht hlen x0 hx0 T
  refine key.trans ?_
  have hu := usual_factor (n := 1 + m * k) (by omega)
  rw [show 1 + m * k - 1 = m * k by omega] at hu
  have he := Real.exp_pos 1
  generalize (1 - 1 / ((1 + m * k : Nat) : ℝ)) ^ (m * k) = u at hu ⊢
  generalize ((1 + m * k : Nat) : ℝ) = n at hn0 ⊢
  have hupos : 0 < u := lt_of_lt_of_le (by positivity) hu
  have h1 : 1 ≤ u * Real.exp 1 := by
    rw [div_le_iff₀ he] at hu
    exact hu
  have hd : (0 : ℝ) ≤ (1 + m * k + ((k + 1) * 2 ^ m - k) - longFit k x0.genome : Nat) := Nat.cast_nonneg _
  generalize ((1 + m * k + ((k + 1) * 2 ^ m - k) - longFit k x0.genome : Nat) : ℝ) = d at hd ⊢
  rw [div_le_iff₀ (by positivity)]
  have e : Real.exp 1 * n * d * (1 / n * u) = d * (u * Real.exp 1) := by field_simp
  rw [e]
  nlinarith

/-- The (1+1) algorithm on the long path, from zeros: ten values of fitness above. -/
def onePlusOnePath (k m : Nat) : MutEA (1 + m * k) Nat where
  f := longFit k
  parent _ pop := match pop with
    | [] => []
    | x :: l => (l.foldl (fun b y => if longFit k b.genome < longFit k y.genome then y else b) x).genome
  others _ _ _ := []
  replace _ := plusReplacement fun l => l.mergeSort fun a b => decide (b.repFitness ≤ a.repFitness)

example (k m : Nat) : BestParent (onePlusOnePath k m) ∧ (∀ t, Elitist ((onePlusOnePath k m).replace t)) ∧
    TrueFit (onePlusOnePath 2 2).f [⟨[false, false, false, false, false], 5, false⟩] ∧
    1 + 2 * 2 + ((2 + 1) * 2 ^ 2 - 2) - longFit 2 [false, false, false, false, false] = 10 := by
  refine ⟨fun t pop hne _ => ?_, fun t => C376_plus _ (isSort_mergeSort _), ?_, by decide +kernel⟩
  · match pop, hne with
    | x :: l, _ =>
      obtain ⟨h1, h2⟩ := foldl_best (fun x : Ind (List Bool) Nat => longFit k x.genome) l x
      simp only [Nat.cast_lt, Nat.cast_le] at h1 h2
      exact ⟨_, h1, rfl, h2⟩
  · intro x hx
    simp only [List.mem_singleton] at hx
    subst hx
    decide +kernel

/-- A fitness without traps, and one with a trap. -/
example : NoTrap 2 (fun g => g.count true) ∧ ¬ NoTrap 2 (fun g => if g = [true, true] then 2 else if g = [false, false] then 1 else 0) := by
  constructor
  · intro g hg
    match g, hg with
    | [a, b], _ =>
      cases a
      · exact Or.inr ⟨0, by decide, by cases b <;> decide⟩
      · cases b
        · exact Or.inr ⟨1, by decide, by decide⟩
        · left
          intro h hh
          match h, hh with
          | [c, d], _ => cases c <;> cases d <;> decide
  · intro h
    rcases h [false, false] rfl with h | ⟨i, hi, h⟩
    · exact absurd (h [true, true] rfl) (by decide)
    · interval_cases i <;> exact absurd h (by decide)

end Paradiseo.EO
