import Verif.Model.Irace
/-
C326: what the program for irace offers and how long it runs.
-/
namespace Paradiseo.Irace

open Paradiseo.EO Paradiseo.State

/-- A choice of operators is offered as the numbers of the operators, and commented out exactly if there is only one of
them; but if there is none, operator number 0 is offered although it does not exist. -/
theorem C326_categorical (n : Nat) (hn : n < 2 ^ 64) :
    (0 < n → (categorical n).values = List.range n ∧ ((categorical n).commented = true ↔ n = 1)) ∧
    ((categorical 0).values = [0] ∧ (categorical 0).commented = false) := by
  refine ⟨fun h => ⟨?_, ?_⟩, rfl, rfl⟩
  · obtain ⟨m, rfl⟩ : ∃ m, n = m + 1 := ⟨n - 1, by omega⟩
    simp only [categorical, Nat.add_sub_cancel, List.range_eq_range', List.range'_succ]
  · have : (n + W - 1) % W = n - 1 := by unfold W; omega
    simp only [categorical, this, decide_eq_true_eq]
    omega

/-- A range of whole numbers is commented out exactly if it has one element; one that is upside down is offered upside
down, whereas a range of reals that is upside down is commented out. -/
theorem C326_ranged (mn mx : Nat) (h1 : mn < 2 ^ 64) (h2 : mx < 2 ^ 64) (a b : Int) :
    ((rangedNat mn mx).commented = true ↔ mn = mx) ∧ ((rangedNat mn mx).range = if mn = mx then none else some (mn, mx)) ∧
    ((rangedDouble a b).commented = true ↔ b ≤ a) ∧ (rangedDouble a b).range = if b ≤ a then none else some (a, b) := by
  have hd : (mx + W - mn) % W ≤ 0 ↔ mn = mx := by unfold W; omega
  have hd' : b - a ≤ 0 ↔ b ≤ a := by omega
  refine ⟨by simp [rangedNat, hd], by simp only [rangedNat, hd], by simp [rangedDouble], by simp only [rangedDouble, hd']⟩

/-- The number of generations is at least one, and apart from that the generations times the size of the population do not
exceed the evaluations allowed, while one more generation would. -/
theorem C326_generations (maxEvals popSize : Nat) (hp : 0 < popSize) :
    ∃ g, generations maxEvals popSize = .ok g ∧ 1 ≤ g ∧ maxEvals < (g + 1) * popSize ∧
      (popSize ≤ maxEvals → g * popSize ≤ maxEvals) := by
  refine ⟨if maxEvals / popSize < 1 then 1 else maxEvals / popSize, by simp [generations, hp.ne'], ?_, ?_, ?_⟩
  · split_ifs <;> omega
  · have h := Nat.lt_mul_div_succ maxEvals hp
    rw [Nat.mul_comm] at h
    split_ifs with hlt
    · have h0 : maxEvals / popSize = 0 := Nat.lt_one_iff.1 hlt
      rw [h0] at h
      omega
    · exact h
  · intro hle
    have : ¬ maxEvals / popSize < 1 := by
      have := Nat.div_pos hle hp
      omega
    rw [if_neg this]
    exact Nat.div_mul_le_self maxEvals popSize

theorem C326_undefined (maxEvals : Nat) : generations maxEvals 0 = .error .ub := rfl

/-- The name under which irace knows a parameter is its name without the hyphens. -/
theorem C326_names (parts : List Text) (h : ∀ p ∈ parts, '-' ∉ p) :
    iraceName (List.intercalate ['-'] parts) = parts.flatten := by
  have plain : ∀ p : Text, '-' ∉ p → iraceName p = p := by
    intro p hp
    rw [iraceName, List.filter_eq_self]
    intro c hc
    simpa using fun h0 : c = '-' => hp (h0 ▸ hc)
  have app : ∀ a b : Text, iraceName (a ++ b) = iraceName a ++ iraceName b := fun a b => by simp [iraceName]
  induction parts with
  | nil => rfl
  | cons p l ih =>
    have hl := ih fun q hq => h q (List.mem_cons_of_mem _ hq)
    cases l with
    | nil => simpa [List.intercalate] using plain p (h p List.mem_cons_self)
    | cons q l =>
      have : List.intercalate ['-'] (p :: q :: l) = p ++ (['-'] ++ List.intercalate ['-'] (q :: l)) := by
        simp [List.intercalate, List.intersperse]
      rw [this, app, app, hl, plain p (h p List.mem_cons_self), List.flatten_cons]
      rfl

/-- The parameters offered to irace (fastga.cpp 386-446, 499-509) have different names there. -/
example : (["continuator", "crossover-rate", "cross-selector", "aftercross-selector", "crossover", "mutation-rate",
    "mut-selector", "mutation", "replacement", "offspring-size", "pop-size"].map fun s => iraceName s.toList).Nodup ∧
    iraceName "pop-size".toList = "popsize".toList := by decide +kernel

example : (categorical 3).values = [0, 1, 2] ∧ generations 103 5 = .ok 20 ∧ generations 3 5 = .ok 1 := ⟨rfl, rfl, rfl⟩

end Paradiseo.Irace
