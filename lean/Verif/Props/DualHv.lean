import Verif.Model.DualHv
import Mathlib.Data.Rat.Defs
import Mathlib.Algebra.Order.Field.Rat
/-
C325: the difference of hypervolumes for dual objective vectors.
-/
namespace Paradiseo.Moeo

open Paradiseo.EO (Err)

variable {F : Type} [Field F] [LinearOrder F]

theorem stdMin_eq (mx : Bool) (a b : F) : stdMin mx a b = if mx then min a b else max a b := by
  unfold stdMin
  cases mx
  · by_cases h : a < b
    · simp [h, max_eq_right h.le]
    · simp [h, max_eq_left (not_lt.1 h)]
  · by_cases h : b < a
    · simp [h, min_eq_right h.le]
    · simp [h, min_eq_left (not_lt.1 h)]

theorem stdMax_eq (mx : Bool) (a b : F) : stdMax mx a b = if mx then max a b else min a b := by
  unfold stdMax
  cases mx
  · by_cases h : b < a
    · simp [h, min_eq_right h.le]
    · simp [h, min_eq_left (not_lt.1 h)]
  · by_cases h : a < b
    · simp [h, max_eq_right h.le]
    · simp [h, max_eq_left (not_lt.1 h)]

theorem foldl_min_le (g : (Nat → F) → F) (l : List (Nat → F)) (m : F) : l.foldl (fun m w => min m (g w)) m ≤ m := by
  induction l generalizing m with
  | nil => exact le_rfl
  | cons w l ih => exact (ih _).trans (min_le_left _ _)

theorem le_foldl_max (g : (Nat → F) → F) (l : List (Nat → F)) (m : F) : m ≤ l.foldl (fun m w => max m (g w)) m := by
  induction l generalizing m with
  | nil => exact le_rfl
  | cons w l ih => exact (le_max_left _ _).trans (ih _)

theorem dualDiffBnd_eq (tiny : F) (mx : Bool) (v : Nat → F) (l set2 : List (Nat → F)) (j : Nat) :
    dualDiffBnd tiny mx v l set2 j = diffBnd tiny v l set2 j := by
  have hle : set2.foldl (fun m w => min m (w j)) (l.foldl (fun m w => min m (w j)) (v j)) ≤
      set2.foldl (fun m w => max m (w j)) (l.foldl (fun m w => max m (w j)) (v j)) :=
    (((foldl_min_le (· j) _ _).trans (foldl_min_le (· j) _ _)).trans (le_foldl_max (· j) _ _)).trans
      (le_foldl_max (· j) _ _)
  unfold dualDiffBnd diffBnd
  cases mx
  · simp only [stdMin_eq, stdMax_eq, Bool.false_eq_true, if_false, min_eq_right hle, max_eq_left hle]
  · simp only [stdMin_eq, stdMax_eq, if_true, min_eq_left hle, max_eq_right hle]

/-- For non-empty sets whose vectors are all feasible or all infeasible, the metric is the ordinary difference of
hypervolumes of the values: whichever way the dual fitness is compared, and whether they are feasible or not. -/
theorem C325_same (tiny : F) (mx : Bool) (minimizing : Nat → Bool) (normalize : Bool) (rho : F) (ref : Nat → F) (K : Nat)
    (feasible : Bool) (set1 set2 : List (Nat → F)) (h1 : set1 ≠ []) (h2 : set2 ≠ []) :
    dualHvDiff tiny mx minimizing normalize rho ref K (set1.map fun v => (feasible, v)) (set2.map fun v => (feasible, v)) =
      match hvDiff tiny minimizing normalize rho ref K set1 set2 with
      | some x => .ok x
      | none => .error .thrown := by
  cases set1 with
  | nil => exact absurd rfl h1
  | cons a as =>
    cases set2 with
    | nil => exact absurd rfl h2
    | cons b bs =>
      have hB : dualDiffBnd tiny mx a as (b :: bs) = diffBnd tiny a as (b :: bs) :=
        funext fun j => dualDiffBnd_eq tiny mx a as (b :: bs) j
      have hm : ∀ l : List (Nat → F), (l.map fun v => (feasible, v)).map Prod.snd = l := by
        intro l; simp [List.map_map, Function.comp_def]
      have hall : ∀ l : List (Nat → F), (l.map fun v => (feasible, v)).all (fun x => x.1 == feasible) = true := by
        intro l; simp
      simp only [List.map_cons, dualHvDiff, hall, Bool.and_self, beq_self_eq_true, if_true, hm, dualDiffSetup, hB,
        hvDiff, diffSetup]
      generalize (if 1 ≤ rho then _ else _ : Option F) = r
      cases r <;> rfl

/-- An empty set, or a feasible and an infeasible vector in the two sets together, fails an assertion. -/
theorem C325_asserted (tiny : F) (mx : Bool) (minimizing : Nat → Bool) (normalize : Bool) (rho : F) (ref : Nat → F) (K : Nat)
    (set1 set2 : List (Bool × (Nat → F))) :
    dualHvDiff tiny mx minimizing normalize rho ref K set1 set2 = .error .asserted ↔
      set1 = [] ∨ set2 = [] ∨ ∃ x ∈ set1 ++ set2, ∃ y ∈ set1 ++ set2, x.1 ≠ y.1 := by
  cases set1 with
  | nil => simp [dualHvDiff]
  | cons a as =>
    cases set2 with
    | nil => simp [dualHvDiff]
    | cons b bs =>
      simp only [dualHvDiff]
      by_cases hc : (as.all (fun x => x.1 == a.1) && bs.all (fun x => x.1 == b.1) && a.1 == b.1) = true
      · rw [if_pos hc]
        simp only [Bool.and_eq_true, List.all_eq_true, beq_iff_eq] at hc
        obtain ⟨⟨h1, h2⟩, h3⟩ := hc
        have hsame : ∀ x ∈ (a :: as) ++ (b :: bs), x.1 = a.1 := by
          intro x hx
          rcases List.mem_append.1 hx with hx | hx <;> rcases List.mem_cons.1 hx with rfl | hx
          · rfl
          · exact h1 x hx
          · exact h3.symm
          · exact (h2 x hx).trans h3.symm
        constructor
        · intro h
          split at h <;> simp at h
        · rintro (h | h | ⟨x, hx, y, hy, h⟩)
          · simp at h
          · simp at h
          · exact absurd ((hsame x hx).trans (hsame y hy).symm) h
      · rw [if_neg hc]
        refine ⟨fun _ => .inr (.inr ?_), fun _ => rfl⟩
        by_contra hno
        push Not at hno
        apply hc
        simp only [Bool.and_eq_true, List.all_eq_true, beq_iff_eq]
        exact ⟨⟨fun x hx => hno x (by simp [hx]) a (by simp), fun x hx => hno x (by simp [hx]) b (by simp)⟩,
          hno a (by simp) b (by simp)⟩

example : ((dualHvDiff (F := ℚ) (1 / 1000000) true (fun _ => true) true (11 / 10) (fun _ => 0) 2
    [(true, fun j => if j = 0 then 1 else 2)] [(false, fun _ => 1)]) = .error .asserted) :=
  (C325_asserted _ _ _ _ _ _ _ _ _).2 (.inr (.inr ⟨_, List.mem_cons_self, _, List.mem_cons_of_mem _ List.mem_cons_self, by decide⟩))

end Paradiseo.Moeo
