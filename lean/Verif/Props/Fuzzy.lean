import Verif.Model.Fuzzy
import Mathlib.Tactic.Ring
import Mathlib.Tactic.NormNum
import Mathlib.Tactic.Linarith
import Mathlib.Algebra.BigOperators.Group.List.Basic
/-
C284: the fuzzy Pareto comparator holds for every pair of vectors of minimised objectives; what the distances ignore.
-/
namespace Paradiseo.Fuzzy

section Cmp
variable {K : Type} [Field K] [LinearOrder K]

theorem triang_lt (a b : Tri K) : triang a b < 3 := by
  rw [triang]
  split_ifs <;> omega

/-- How many objectives differ. -/
def differing (tol : K) (os : List (Bool × Tri K × Tri K)) : Nat := os.countP fun o => differ tol o.2.1 o.2.2

/-- How many minimised objectives differ with the given outcome of the comparison of the two numbers. -/
def outcome (tol : K) (r : Nat) (os : List (Bool × Tri K × Tri K)) : Nat :=
  os.countP fun o => differ tol o.2.1 o.2.2 && o.1 && decide (triang o.2.2 o.2.1 = r)

theorem foldl_count (tol : K) (os : List (Bool × Tri K × Tri K)) (c : Counts) :
    os.foldl (count tol) c =
      { different := c.different + differing tol os, total := c.total + outcome tol 0 os,
        strong := c.strong + outcome tol 1 os, weak := c.weak + outcome tol 2 os, other := c.other } := by
  induction os generalizing c with
  | nil => rfl
  | cons o os ih =>
    rw [List.foldl_cons, ih, count]
    have hlt := triang_lt o.2.2 o.2.1
    simp only [differing, outcome, List.countP_cons]
    by_cases hd : differ tol o.2.1 o.2.2 = true
    · by_cases hm : o.1 = true
      · rw [if_pos hd, if_pos hm]
        rcases h : triang o.2.2 o.2.1 with _ | _ | _ | n
        · simp [hd, hm]; omega
        · simp [hd, hm]; omega
        · simp [hd, hm]; omega
        · omega
      · rw [if_pos hd, if_neg hm]
        simp [hd, hm]; omega
    · rw [if_neg hd]
      simp [hd]

theorem outcome_sum (tol : K) (os : List (Bool × Tri K × Tri K)) :
    outcome tol 0 os + outcome tol 1 os + outcome tol 2 os = os.countP fun o => differ tol o.2.1 o.2.2 && o.1 := by
  induction os with
  | nil => rfl
  | cons o os ih =>
    have hlt := triang_lt o.2.2 o.2.1
    simp only [outcome, List.countP_cons] at ih ⊢
    rw [← ih]
    by_cases hd : (differ tol o.2.1 o.2.2 && o.1) = true
    · simp only [hd, Bool.true_and, decide_eq_true_eq, if_true]
      rcases h : triang o.2.2 o.2.1 with _ | _ | _ | n
      · simp; omega
      · simp; omega
      · simp; omega
      · omega
    · simp [hd]

/-- If no maximised objective differs beyond the tolerance, every vector dominates every other and itself. -/
theorem C284_all (tol : K) {os : List (Bool × Tri K × Tri K)}
    (h : ∀ o ∈ os, o.1 = true ∨ differ tol o.2.1 o.2.2 = false) : compare tol os = true := by
  have hs := outcome_sum tol os
  have he : (os.countP fun o => differ tol o.2.1 o.2.2 && o.1) = differing tol os := by
    rw [differing]
    refine List.countP_congr fun o ho => ?_
    rcases h o ho with e | e <;> simp [e]
  rw [he] at hs
  rw [compare, foldl_count, verdict]
  simp only [Nat.zero_add]
  split_ifs <;> first | rfl | (exfalso; omega)

/-- So with minimised objectives only, domination holds both ways for any two vectors. -/
theorem C284_both (tol : K) (l : List (Tri K × Tri K)) :
    compare tol (l.map fun p => (true, p.1, p.2)) = true ∧ compare tol (l.map fun p => (true, p.2, p.1)) = true := by
  constructor <;> refine C284_all tol fun o ho => Or.inl ?_ <;>
    obtain ⟨p, -, rfl⟩ := List.mem_map.1 ho <;> rfl

/-- Once a maximised objective differs, only the minimised ones decide. -/
theorem C284_max (tol : K) {os : List (Bool × Tri K × Tri K)}
    (h : ∃ o ∈ os, o.1 = false ∧ differ tol o.2.1 o.2.2 = true) :
    compare tol os = true ↔
      (∃ o ∈ os, o.1 = true ∧ differ tol o.2.1 o.2.2 = true ∧ triang o.2.2 o.2.1 = 0) ∨
        ((∃ o ∈ os, o.1 = true ∧ differ tol o.2.1 o.2.2 = true ∧ triang o.2.2 o.2.1 = 1) ∧
          ∃ o ∈ os, o.1 = true ∧ differ tol o.2.1 o.2.2 = true ∧ triang o.2.2 o.2.1 = 2) := by
  have hs := outcome_sum tol os
  have hlt : (os.countP fun o => differ tol o.2.1 o.2.2 && o.1) < differing tol os := by
    obtain ⟨o, ho, h1, h2⟩ := h
    rw [differing]
    clear hs
    induction os with
    | nil => cases ho
    | cons a os ih =>
      have hle : (os.countP fun o => differ tol o.2.1 o.2.2 && o.1) ≤ os.countP fun o => differ tol o.2.1 o.2.2 :=
        List.countP_mono_left fun x _ hx => by simp at hx; exact hx.1
      rw [List.countP_cons, List.countP_cons]
      rcases List.mem_cons.1 ho with rfl | ho
      · simp [h1, h2]; omega
      · have := ih ho
        by_cases e1 : differ tol a.2.1 a.2.2 = true <;> by_cases e2 : a.1 = true <;> simp [e1, e2] <;> omega
  have key : ∀ r, (∃ o ∈ os, o.1 = true ∧ differ tol o.2.1 o.2.2 = true ∧ triang o.2.2 o.2.1 = r) ↔ 0 < outcome tol r os := by
    intro r
    rw [outcome, List.countP_pos_iff]
    refine exists_congr fun o => and_congr_right fun _ => ?_
    simp only [Bool.and_eq_true, decide_eq_true_eq]
    tauto
  rw [key, key, key, compare, foldl_count, verdict]
  simp only [Nat.zero_add]
  generalize outcome tol 0 os = t at *
  generalize outcome tol 1 os = s at *
  generalize outcome tol 2 os = w at *
  generalize differing tol os = d at *
  split_ifs with c1 c2
  · simp only [true_iff]; omega
  · exfalso; omega
  · simp only [Bool.false_eq_true, false_iff]; omega

/-- With maximised objectives only, no vector ever dominates a different one. -/
theorem C284_only_max (tol : K) {os : List (Bool × Tri K × Tri K)} (hm : ∀ o ∈ os, o.1 = false)
    (h : ∃ o ∈ os, differ tol o.2.1 o.2.2 = true) : compare tol os = false := by
  rw [← Bool.not_eq_true, C284_max tol (by obtain ⟨o, ho, hd⟩ := h; exact ⟨o, ho, hm o ho, hd⟩)]
  rintro (⟨o, ho, h1, -⟩ | ⟨⟨o, ho, h1, -⟩, -⟩) <;> rw [hm o ho] at h1 <;> cases h1

/-- So with maximised objectives only, a vector dominates those of which no value of an objective, neither the first nor
the second nor the third, is further away than the tolerance, and no others. -/
theorem C284_maximised (tol : K) (l : List (Tri K × Tri K)) :
    compare tol (l.map fun p => (false, p.1, p.2)) = true ↔
      ∀ p ∈ l, |p.1.first - p.2.first| ≤ tol ∧ |p.1.second - p.2.second| ≤ tol ∧ |p.1.third - p.2.third| ≤ tol := by
  have hd : ∀ a b : Tri K, differ tol a b = false ↔
      |a.first - b.first| ≤ tol ∧ |a.second - b.second| ≤ tol ∧ |a.third - b.third| ≤ tol := by
    intro a b; simp [differ, and_assoc]
  constructor
  · intro h p hp
    rw [← hd]
    by_contra hn
    rw [Bool.not_eq_false] at hn
    rw [C284_only_max tol (fun o ho => by obtain ⟨q, -, rfl⟩ := List.mem_map.1 ho; rfl)
      ⟨(false, p.1, p.2), List.mem_map.2 ⟨p, hp, rfl⟩, hn⟩] at h
    cases h
  · intro h
    refine C284_all tol fun o ho => Or.inr ?_
    obtain ⟨p, hp, rfl⟩ := List.mem_map.1 ho
    exact (hd _ _).2 (h p hp)

/-- Vectors count as equal as long as every objective agrees in one of its three values. -/
theorem C284_equal (tol : K) (l : List (Tri K × Tri K)) :
    equal tol l = true ↔ ∀ p ∈ l, |p.1.first - p.2.first| ≤ tol ∨ |p.1.second - p.2.second| ≤ tol ∨
      |p.1.third - p.2.third| ≤ tol := by
  induction l with
  | nil => simp [equal]
  | cons p l ih =>
    obtain ⟨a, b⟩ := p
    rw [equal]
    split_ifs with h
    · simp only [Bool.false_eq_true, false_iff]
      intro hall
      rcases hall (a, b) List.mem_cons_self with e | e | e
      · exact absurd h.1 (not_lt.2 e)
      · exact absurd h.2.1 (not_lt.2 e)
      · exact absurd h.2.2 (not_lt.2 e)
    · rw [ih, List.forall_mem_cons]
      refine ⟨fun hl => ⟨?_, hl⟩, fun hl => hl.2⟩
      by_contra hc
      push Not at hc
      exact h hc

end Cmp

/-! ### Distances -/

theorem bert1_sq (a b : Tri ℝ) :
    bert1 a b ^ 2 = ((a.first + a.third) / 2 - (b.first + b.third) / 2) ^ 2 +
      ((a.first - a.third) / 2 - (b.first - b.third) / 2) ^ 2 / 2 := by
  rw [bert1]
  rw [Real.sq_sqrt]
  · ring
  · have h1 := mul_self_nonneg (0.5 * (a.first + a.third) - 0.5 * (b.first + b.third))
    have h2 := mul_self_nonneg (0.5 * (a.first - a.third) - 0.5 * (b.first - b.third))
    nlinarith

/-- The distance of two numbers is zero exactly when their limits agree: the most plausible value plays no part. -/
theorem C284_bert_zero (a b : Tri ℝ) : bert1 a b = 0 ↔ a.first = b.first ∧ a.third = b.third := by
  have hs := bert1_sq a b
  constructor
  · intro h
    rw [h] at hs
    have h1 : (a.first + a.third) / 2 - (b.first + b.third) / 2 = 0 := by nlinarith [sq_nonneg ((a.first + a.third) / 2 - (b.first + b.third) / 2), sq_nonneg ((a.first - a.third) / 2 - (b.first - b.third) / 2)]
    have h2 : (a.first - a.third) / 2 - (b.first - b.third) / 2 = 0 := by nlinarith [sq_nonneg ((a.first + a.third) / 2 - (b.first + b.third) / 2), sq_nonneg ((a.first - a.third) / 2 - (b.first - b.third) / 2)]
    constructor <;> linarith
  · rintro ⟨h1, h2⟩
    rw [h1, h2] at hs
    have : bert1 a b ^ 2 = 0 := by rw [hs]; ring
    simpa using this

/-- The distance of vectors is the average over the objectives and does not depend on the order of the two. -/
theorem C284_bert_symm (l : List (Tri ℝ × Tri ℝ)) :
    bert (l.map Prod.swap) = bert l ∧ 0 ≤ bert l := by
  have hsym : ∀ a b : Tri ℝ, bert1 b a = bert1 a b := by
    intro a b
    rw [bert1, bert1]
    congr 1
    ring
  refine ⟨?_, ?_⟩
  · rw [bert, bert, List.map_map, List.length_map]
    congr 2
    refine List.map_congr_left fun p _ => ?_
    exact hsym p.1 p.2
  · rw [bert]
    refine div_nonneg (List.sum_nonneg fun x hx => ?_) (Nat.cast_nonneg _)
    obtain ⟨p, -, rfl⟩ := List.mem_map.1 hx
    exact Real.sqrt_nonneg _

/-- Objectives at the same distance: that is the distance of the vectors, whatever their number. -/
theorem C284_bert_average {l : List (Tri ℝ × Tri ℝ)} {d : ℝ} (hl : l ≠ []) (h : ∀ p ∈ l, bert1 p.1 p.2 = d) : bert l = d := by
  rw [bert, List.map_congr_left h, List.map_const', List.sum_replicate, nsmul_eq_mul]
  exact mul_div_cancel_left₀ _ (by simpa using hl)

theorem sum_sq_zero : ∀ (l : List (Tri ℝ × Tri ℝ)),
    0 ≤ (l.map fun p => (expected p.1 - expected p.2) * (expected p.1 - expected p.2)).sum ∧
    ((l.map fun p => (expected p.1 - expected p.2) * (expected p.1 - expected p.2)).sum = 0 ↔
      ∀ p ∈ l, expected p.1 = expected p.2)
  | [] => by simp
  | p :: l => by
    obtain ⟨h0, h1⟩ := sum_sq_zero l
    rw [List.map_cons, List.sum_cons, List.forall_mem_cons, ← h1]
    have hp := mul_self_nonneg (expected p.1 - expected p.2)
    refine ⟨add_nonneg hp h0, ?_⟩
    constructor
    · intro h
      have e1 : (expected p.1 - expected p.2) * (expected p.1 - expected p.2) = 0 := by linarith
      exact ⟨sub_eq_zero.1 (mul_self_eq_zero.1 e1), by linarith⟩
    · rintro ⟨e, hl⟩
      rw [hl, e]
      ring

/-- The expected distance is zero exactly when the expected values agree in every objective, whatever the spreads. -/
theorem C284_expected_zero (l : List (Tri ℝ × Tri ℝ)) :
    expectedDist l = 0 ↔ ∀ p ∈ l, p.1.first + p.1.third + 2 * p.1.second = p.2.first + p.2.third + 2 * p.2.second := by
  obtain ⟨h0, h1⟩ := sum_sq_zero l
  rw [expectedDist, Real.sqrt_eq_zero h0, h1]
  refine forall₂_congr fun p _ => ?_
  rw [expected, expected]
  constructor <;> intro h <;> linarith

example : compare (0 : Rat) [(true, ⟨1, 2, 3⟩, ⟨7, 8, 9⟩)] = true ∧ compare (0 : Rat) [(true, ⟨7, 8, 9⟩, ⟨1, 2, 3⟩)] = true ∧
    compare (0 : Rat) [(false, ⟨7, 8, 9⟩, ⟨1, 2, 3⟩)] = false ∧
    compare (0 : Rat) [(false, ⟨7, 8, 9⟩, ⟨1, 2, 3⟩), (true, ⟨7, 8, 9⟩, ⟨1, 2, 3⟩)] = true := by decide +kernel
example : equal (0 : Rat) [(⟨1, 2, 3⟩, ⟨1, 50, 60⟩)] = true ∧ equal (0 : Rat) [(⟨1, 2, 3⟩, ⟨2, 3, 4⟩)] = false := by
  decide +kernel
example : bert1 ⟨1, 2, 9⟩ ⟨1, 8, 9⟩ = 0 := (C284_bert_zero _ _).2 ⟨rfl, rfl⟩
example : expectedDist [(⟨0, 2, 4⟩, ⟨1, 2, 3⟩)] = 0 := by
  rw [C284_expected_zero]
  simp
  norm_num

end Paradiseo.Fuzzy
