import Verif.Model.DTLZ
import Mathlib.Tactic.Linarith
import Mathlib.Tactic.Ring
import Mathlib.Tactic.Positivity
import Mathlib.Tactic.FieldSimp

/-
C210: the test problems have the Pareto fronts they are known for.
C211: the real-coded variation operators keep within bounds.
-/
namespace Paradiseo.DTLZ

open Paradiseo.EO

/-! ### Specification -/

/-- Pareto dominance, minimising. -/
def Dom (u v : List ℝ) : Prop := List.Forall₂ (· ≤ ·) u v ∧ u ≠ v

/-- Solutions of `n` variables between 0 and 1. -/
def Box (n : Nat) (x : List ℝ) : Prop := x.length = n ∧ ∀ v ∈ x, 0 ≤ v ∧ v ≤ 1

/-- No solution of the box has an objective vector that dominates that of `x`. -/
def Optimal (f : List ℝ → Except Err (List ℝ)) (n : Nat) (x : List ℝ) : Prop :=
  ∀ y u v, Box n y → f y = .ok u → f x = .ok v → ¬ Dom u v

/-! ### The common loop -/

theorem foldl_mul (c : Nat → ℝ) : ∀ (l : List Nat) (a : ℝ), l.foldl (fun f j => f * c j) a = a * (l.map c).prod
  | [], a => by simp
  | j :: l, a => by simp only [List.foldl_cons, List.map_cons, List.prod_cons]; rw [foldl_mul c l]; ring

/-- Product of the first `n` factors. -/
noncomputable def P (c : Nat → ℝ) (n : Nat) : ℝ := ((List.range n).map c).prod

theorem P_succ (c : Nat → ℝ) (n : Nat) : P c (n + 1) = P c n * c n := by
  simp [P, List.range_succ]

theorem objs_eq (scale : ℝ) (c s : Nat → ℝ) (M : Nat) : objs scale c s M =
    (List.range M).map (fun i => scale * (P c (M - (i + 1)) * (if 0 < i then s (M - (i + 1)) else 1))) := by
  unfold objs
  apply List.map_congr_left
  intro i _
  dsimp only
  rw [foldl_mul, List.map_reverse, List.prod_reverse]
  by_cases h : 0 < i
  · rw [if_pos (by omega), if_pos h, P]; ring
  · rw [if_neg (by omega), if_neg h, P]; ring

theorem objs_scale (scale : ℝ) (c s : Nat → ℝ) (M : Nat) : objs scale c s M = (objs 1 c s M).map (scale * ·) := by
  rw [objs_eq, objs_eq, List.map_map]
  apply List.map_congr_left
  intro i _
  simp

theorem objs_succ (scale : ℝ) (c s : Nat → ℝ) (M : Nat) (hM : 1 ≤ M) :
    (objs scale c s (M + 1)).sum = (objs scale c s M).sum - scale * P c (M - 1) + scale * P c (M - 1) * (s (M - 1) + c (M - 1)) := by
  obtain ⟨m, rfl⟩ : ∃ m, M = m + 1 := ⟨M - 1, by omega⟩
  simp only [objs_eq]
  rw [List.range_succ_eq_map, List.range_succ_eq_map]
  simp only [List.map_cons, List.map_map, List.sum_cons, Function.comp_def, Nat.succ_eq_add_one]
  have e : ∀ i ∈ List.range m, scale * (P c (m + 1 + 1 - (i + 1 + 1 + 1)) * (if 0 < i + 1 + 1 then s (m + 1 + 1 - (i + 1 + 1 + 1)) else 1)) =
      scale * (P c (m + 1 - (i + 1 + 1)) * (if 0 < i + 1 then s (m + 1 - (i + 1 + 1)) else 1)) := by
    intro i _
    rw [if_pos (by omega), if_pos (by omega)]
    rw [show m + 1 + 1 - (i + 1 + 1 + 1) = m + 1 - (i + 1 + 1) by omega]
  rw [List.map_congr_left e]
  simp only [Nat.zero_add, lt_irrefl, if_false, Nat.add_sub_cancel, mul_one]
  rw [if_pos (by omega), show m + 1 + 1 - (1 + 1) = m by omega, P_succ]
  ring

theorem objs_sum (scale : ℝ) (c s : Nat → ℝ) (h : ∀ j, c j + s j = 1) : ∀ (M : Nat), 1 ≤ M → (objs scale c s M).sum = scale := by
  intro M hM
  induction M, hM using Nat.le_induction with
  | base => simp [objs_eq, P]
  | succ M hM ih => rw [objs_succ _ _ _ _ hM, ih, add_comm (s _), h]; ring

theorem prod_sq (l : List ℝ) : (l.map (fun v => v ^ 2)).prod = l.prod ^ 2 := by
  induction l with
  | nil => simp
  | cons a l ih => simp [ih]; ring

theorem objs_sq (scale : ℝ) (c s : Nat → ℝ) (M : Nat) :
    (objs scale c s M).map (fun v => v ^ 2) = objs (scale ^ 2) (fun j => c j ^ 2) (fun j => s j ^ 2) M := by
  rw [objs_eq, objs_eq, List.map_map]
  apply List.map_congr_left
  intro i _
  have hP : ∀ n, P (fun j => c j ^ 2) n = P c n ^ 2 := by
    intro n
    rw [P, P, ← prod_sq, List.map_map]; rfl
  simp only [Function.comp_apply, hP]
  split <;> ring

theorem P_nonneg (c : Nat → ℝ) (n : Nat) (h : ∀ j, j < n → 0 ≤ c j) : 0 ≤ P c n := by
  apply List.prod_nonneg
  intro a ha
  obtain ⟨j, hj, rfl⟩ := List.mem_map.1 ha
  exact h j (List.mem_range.1 hj)

theorem objs_nonneg (scale : ℝ) (c s : Nat → ℝ) (M : Nat) (hs : 0 ≤ scale)
    (h : ∀ j, j + 1 < M → 0 ≤ c j ∧ 0 ≤ s j) : ∀ v ∈ objs scale c s M, 0 ≤ v := by
  intro v hv
  rw [objs_eq] at hv
  obtain ⟨i, hi, rfl⟩ := List.mem_map.1 hv
  rw [List.mem_range] at hi
  apply mul_nonneg hs
  apply mul_nonneg (P_nonneg _ _ fun j hj => (h j (by omega)).1)
  split
  · exact (h _ (by omega)).2
  · exact zero_le_one

theorem objs_length (scale : ℝ) (c s : Nat → ℝ) (M : Nat) : (objs scale c s M).length = M := by simp [objs]

theorem objs_congr (scale : ℝ) (c s c' s' : Nat → ℝ) (M : Nat) (h : ∀ j, j + 1 < M → c j = c' j ∧ s j = s' j) :
    objs scale c s M = objs scale c' s' M := by
  rw [objs_eq, objs_eq]
  apply List.map_congr_left
  intro i hi
  rw [List.mem_range] at hi
  have hP : P c (M - (i + 1)) = P c' (M - (i + 1)) := by
    unfold P
    congr 1
    apply List.map_congr_left
    intro j hj
    rw [List.mem_range] at hj
    exact (h j (by omega)).1
  rw [hP]
  split
  · rw [(h (M - (i + 1)) (by omega)).2]
  · rfl

/-! ### Dominance and norms -/

theorem sum_lt {u v : List ℝ} (h : Dom u v) : u.sum < v.sum := by
  obtain ⟨h1, h2⟩ := h
  induction h1 with
  | nil => exact absurd rfl h2
  | @cons a b u v hab huv ih =>
    have hle : u.sum ≤ v.sum := by
      clear ih h2
      induction huv with
      | nil => exact le_rfl
      | cons h _ ih => simp only [List.sum_cons]; linarith
    simp only [List.sum_cons]
    by_cases he : a = b
    · subst he
      have := ih (fun hh => h2 (by rw [hh]))
      linarith
    · have := lt_of_le_of_ne hab he
      linarith

theorem dom_sq {u v : List ℝ} (h : Dom u v) (hu : ∀ a ∈ u, 0 ≤ a) (hv : ∀ a ∈ v, 0 ≤ a) :
    Dom (u.map (fun a => a ^ 2)) (v.map (fun a => a ^ 2)) := by
  obtain ⟨h1, h2⟩ := h
  induction h1 with
  | nil => exact absurd rfl h2
  | @cons a b u v hab huv ih =>
    have ha := hu a List.mem_cons_self
    have hu' : ∀ a ∈ u, 0 ≤ a := fun a h => hu a (List.mem_cons_of_mem _ h)
    have hv' : ∀ a ∈ v, 0 ≤ a := fun a h => hv a (List.mem_cons_of_mem _ h)
    have hle : List.Forall₂ (· ≤ ·) (u.map (fun a => a ^ 2)) (v.map (fun a => a ^ 2)) := by
      clear ih h2
      induction huv with
      | nil => exact .nil
      | @cons c d u v h _ ih =>
        refine .cons ?_ (ih (fun a h => hu a ?_) (fun a h => hv a ?_) (fun a h => hu' a (List.mem_cons_of_mem _ h))
          (fun a h => hv' a (List.mem_cons_of_mem _ h)))
        · exact pow_le_pow_left₀ (hu' c List.mem_cons_self) h 2
        · rcases List.mem_cons.1 h with rfl | h
          · exact List.mem_cons_self
          · exact List.mem_cons_of_mem _ (List.mem_cons_of_mem _ h)
        · rcases List.mem_cons.1 h with rfl | h
          · exact List.mem_cons_self
          · exact List.mem_cons_of_mem _ (List.mem_cons_of_mem _ h)
    refine ⟨.cons (pow_le_pow_left₀ ha hab 2) hle, ?_⟩
    intro he
    simp only [List.map_cons, List.cons.injEq] at he
    have hb := hv b List.mem_cons_self
    have hab' : a = b := by
      have : (a - b) * (a + b) = 0 := by ring_nf; linarith [he.1]
      rcases mul_eq_zero.1 this with h | h
      · linarith
      · linarith
    subst hab'
    have huv' : u ≠ v := fun hh => h2 (by rw [hh])
    exact (ih hu' hv' huv').2 he.2

theorem dom_scaled (B : List ℝ) (hB : ∀ v ∈ B, 0 ≤ v) (hpos : ∃ v ∈ B, v ≠ 0) (a b : ℝ) (hab : a < b) :
    Dom (B.map (a * ·)) (B.map (b * ·)) := by
  constructor
  · rw [List.forall₂_map_left_iff, List.forall₂_map_right_iff, List.forall₂_same]
    intro v hv
    exact mul_le_mul_of_nonneg_right hab.le (hB v hv)
  · intro h
    obtain ⟨v, hv, hne⟩ := hpos
    have := List.map_inj_left.1 h v hv
    exact hne (by
      have h0 : (a - b) * v = 0 := by linarith
      rcases mul_eq_zero.1 h0 with h | h
      · linarith
      · exact h)

/-- The common argument: objective vectors are nonnegative multiples `σ` of a vector of norm one that only depends
on the position variables, and every position can be had with the least factor. -/
theorem optimal_iff (f : List ℝ → Except Err (List ℝ)) (n : Nat) (N : List ℝ → ℝ) (q : Nat)
    (hN : ∀ u v, Dom u v → (∀ a ∈ u, 0 ≤ a) → (∀ a ∈ v, 0 ≤ a) → N u < N v)
    (σ : List ℝ → ℝ) (σ0 : ℝ) (h0 : 0 < σ0) (B : List ℝ → List ℝ) (best : List ℝ → List ℝ)
    (hf : ∀ x, Box n x → f x = .ok ((B x).map (σ x * ·)))
    (hσ : ∀ x, Box n x → σ0 ≤ σ x) (hB : ∀ x, Box n x → ∀ v ∈ B x, 0 ≤ v)
    (hnorm : ∀ x, Box n x → N ((B x).map (σ x * ·)) = σ x ^ q) (hne : ∀ x, Box n x → ∃ v ∈ B x, v ≠ 0)
    (hbest : ∀ x, Box n x → Box n (best x) ∧ B (best x) = B x ∧ σ (best x) = σ0)
    (x : List ℝ) (hx : Box n x) : Optimal f n x ↔ σ x = σ0 := by
  constructor
  · intro hopt
    by_contra hcon
    have hlt : σ0 < σ x := lt_of_le_of_ne (hσ x hx) (fun h => hcon h.symm)
    obtain ⟨b1, b2, b3⟩ := hbest x hx
    refine hopt (best x) _ _ b1 (hf _ b1) (hf x hx) ?_
    rw [b2, b3]
    exact dom_scaled _ (hB x hx) (hne x hx) _ _ hlt
  · intro he y u v hy hu hv hdom
    rw [hf y hy] at hu
    rw [hf x hx] at hv
    cases hu; cases hv
    have hnn : ∀ x, Box n x → ∀ a ∈ (B x).map (σ x * ·), 0 ≤ a := by
      intro x hx a ha
      obtain ⟨v, hv, rfl⟩ := List.mem_map.1 ha
      exact mul_nonneg (h0.le.trans (hσ x hx)) (hB x hx v hv)
    have := hN _ _ hdom (hnn y hy) (hnn x hx)
    rw [hnorm y hy, hnorm x hx, he] at this
    exact absurd (pow_le_pow_left₀ h0.le (hσ y hy) q) (not_le.2 this)

/-! ### The functions `g` -/

theorem foldl_add (t : ℝ → ℝ) : ∀ (l : List ℝ) (a : ℝ), l.foldl (fun g v => g + t v) a = a + (l.map t).sum
  | [], a => by simp
  | v :: l, a => by simp only [List.foldl_cons, List.map_cons, List.sum_cons]; rw [foldl_add t l]; ring

theorem sum_zero_iff : ∀ (l : List ℝ), (∀ v ∈ l, 0 ≤ v) → (0 ≤ l.sum ∧ (l.sum = 0 ↔ ∀ v ∈ l, v = 0))
  | [], _ => by simp
  | a :: l, h => by
    obtain ⟨h1, h2⟩ := sum_zero_iff l (fun v hv => h v (List.mem_cons_of_mem _ hv))
    have ha := h a List.mem_cons_self
    simp only [List.sum_cons, List.mem_cons, forall_eq_or_imp]
    refine ⟨by linarith, ?_⟩
    rw [← h2]
    constructor
    · intro h; constructor <;> linarith
    · rintro ⟨h, h'⟩; linarith

theorem gSphere_spec (M : Nat) (x : List ℝ) : 0 ≤ gSphere M x ∧ (gSphere M x = 0 ↔ ∀ v ∈ x.drop (M - 1), v = 1 / 2) := by
  unfold gSphere distVars
  rw [foldl_add (fun v => (v - 0.5) ^ 2), zero_add]
  have h := sum_zero_iff ((x.drop (M - 1)).map (fun v => (v - 0.5) ^ 2)) (by
    intro v hv
    obtain ⟨w, _, rfl⟩ := List.mem_map.1 hv
    positivity)
  refine ⟨h.1, ?_⟩
  rw [h.2, List.forall_mem_map]
  refine forall₂_congr fun v _ => ?_
  rw [pow_eq_zero_iff (by norm_num), sub_eq_zero]
  norm_num

theorem gMulti_eq (M : Nat) (x : List ℝ) : gMulti M x =
    100 * ((x.drop (M - 1)).map (fun v => (v - 0.5) ^ 2 + (1 - Real.cos (20 * Real.pi * (v - 0.5))))).sum := by
  unfold gMulti distVars
  rw [foldl_add (fun v => (v - 0.5) ^ 2 - Real.cos (20 * Real.pi * (v - 0.5))), zero_add]
  congr 1
  induction x.drop (M - 1) with
  | nil => simp
  | cons a l ih => simp only [List.length_cons, List.map_cons, List.sum_cons] at ih ⊢; push_cast; linarith

theorem gMulti_spec (M : Nat) (x : List ℝ) : 0 ≤ gMulti M x ∧ (gMulti M x = 0 ↔ ∀ v ∈ x.drop (M - 1), v = 1 / 2) := by
  rw [gMulti_eq]
  have hnn : ∀ v : ℝ, 0 ≤ (v - 0.5) ^ 2 + (1 - Real.cos (20 * Real.pi * (v - 0.5))) := by
    intro v
    have := Real.cos_le_one (20 * Real.pi * (v - 0.5))
    have := sq_nonneg (v - 0.5)
    linarith
  have h := sum_zero_iff ((x.drop (M - 1)).map (fun v => (v - 0.5) ^ 2 + (1 - Real.cos (20 * Real.pi * (v - 0.5))))) (by
    intro v hv
    obtain ⟨w, _, rfl⟩ := List.mem_map.1 hv
    exact hnn w)
  refine ⟨by linarith [h.1], ?_⟩
  rw [mul_eq_zero, or_iff_right (by norm_num), h.2, List.forall_mem_map]
  refine forall₂_congr fun v _ => ?_
  constructor
  · intro h
    have h1 := Real.cos_le_one (20 * Real.pi * (v - 0.5))
    have h2 := sq_nonneg (v - 0.5)
    have h3 : (v - 0.5) ^ 2 = 0 := by linarith
    rw [pow_eq_zero_iff (by norm_num), sub_eq_zero] at h3
    rw [h3]; norm_num
  · intro h
    have : v - 0.5 = 0 := by rw [h]; norm_num
    rw [this]; simp

theorem gRoot_spec (M : Nat) (x : List ℝ) (hx : ∀ v ∈ x, 0 ≤ v) : 0 ≤ gRoot M x ∧ (gRoot M x = 0 ↔ ∀ v ∈ x.drop (M - 1), v = 0) := by
  unfold gRoot distVars
  rw [foldl_add (fun v => v ^ (0.1 : ℝ)), zero_add]
  have hd : ∀ v ∈ x.drop (M - 1), 0 ≤ v := fun v hv => hx v (List.mem_of_mem_drop hv)
  have h := sum_zero_iff ((x.drop (M - 1)).map (fun v => v ^ (0.1 : ℝ))) (by
    intro v hv
    obtain ⟨w, hw, rfl⟩ := List.mem_map.1 hv
    exact Real.rpow_nonneg (hd w hw) _)
  refine ⟨h.1, ?_⟩
  rw [h.2, List.forall_mem_map]
  refine forall₂_congr fun v hv => ?_
  rw [Real.rpow_eq_zero (hd v hv) (by norm_num)]

/-! ### C210 -/

/-- The same position with all distance variables one half. -/
noncomputable def half (M : Nat) (x : List ℝ) : List ℝ := x.take (M - 1) ++ List.replicate (x.length - (M - 1)) (1 / 2)

theorem half_spec (M n : Nat) (x : List ℝ) (hx : Box n x) (hM : M ≤ n + 1) : Box n (half M x) ∧
    (∀ j, j + 1 < M → (half M x).getD j 0 = x.getD j 0) ∧ (∀ v ∈ (half M x).drop (M - 1), v = 1 / 2) := by
  obtain ⟨hl, hb⟩ := hx
  have ht : (x.take (M - 1)).length = M - 1 := by simp; omega
  refine ⟨⟨by simp [half]; omega, ?_⟩, ?_, ?_⟩
  · intro v hv
    simp only [half, List.mem_append, List.mem_replicate] at hv
    rcases hv with hv | ⟨_, rfl⟩
    · exact hb v (List.mem_of_mem_take hv)
    · norm_num
  · intro j hj
    simp only [half, List.getD_eq_getElem?_getD]
    rw [List.getElem?_append_left (by omega), List.getElem?_take_of_lt (by omega)]
  · intro v hv
    rw [half, List.drop_left' ht] at hv
    exact (List.mem_replicate.1 hv).2

theorem getD_box {n : Nat} {x : List ℝ} (hx : Box n x) (j : Nat) : 0 ≤ x.getD j 0 ∧ x.getD j 0 ≤ 1 := by
  rw [List.getD_eq_getElem?_getD]
  cases h : x[j]? with
  | none => simp
  | some v => exact hx.2 v (List.mem_of_getElem? h)

theorem sizes_ok {M n : Nat} {x : List ℝ} (hx : Box n x) (h1 : 1 ≤ M) (h2 : M ≤ n + 1) : sizesOk M x = true := by
  simp [sizesOk, hx.1, h1, h2]

theorem norm_pos (l : List ℝ) (h : l.sum ≠ 0) : ∃ v ∈ l, v ≠ 0 := by
  by_contra hno
  push Not at hno
  apply h
  rw [show l = List.replicate l.length 0 from List.eq_replicate_iff.2 ⟨rfl, hno⟩]
  simp

theorem sq_pos' (l : List ℝ) (h : (l.map (fun v => v ^ 2)).sum ≠ 0) : ∃ v ∈ l, v ≠ 0 := by
  obtain ⟨w, hw, hne⟩ := norm_pos _ h
  obtain ⟨v, hv, rfl⟩ := List.mem_map.1 hw
  exact ⟨v, hv, fun h0 => hne (by rw [h0]; norm_num)⟩

/-- DTLZ1: the objectives are nonnegative and sum to `(1 + g) / 2 ≥ 1/2`, and the Pareto-optimal solutions are
exactly those with all distance variables one half, whose objectives sum to one half. -/
theorem C210_dtlz1 (M n : Nat) (h1 : 1 ≤ M) (h2 : M ≤ n + 1) (x : List ℝ) (hx : Box n x) :
    (∃ v, dtlz1 M x = .ok v ∧ v.length = M ∧ (∀ a ∈ v, 0 ≤ a) ∧ 1 / 2 ≤ v.sum ∧
      (v.sum = 1 / 2 ↔ ∀ a ∈ x.drop (M - 1), a = 1 / 2)) ∧
    (Optimal (dtlz1 M) n x ↔ ∀ a ∈ x.drop (M - 1), a = 1 / 2) := by
  have hf : ∀ x, Box n x → dtlz1 M x = .ok ((objs 1 (fun j => x.getD j 0) (fun j => 1 - x.getD j 0) M).map
      ((0.5 * (1 + gMulti M x)) * ·)) := by
    intro x hx
    rw [dtlz1, if_pos (sizes_ok hx h1 h2), objs_scale]
  have hB : ∀ x, Box n x → ∀ v ∈ objs 1 (fun j => x.getD j 0) (fun j => 1 - x.getD j 0) M, 0 ≤ v := by
    intro x hx
    exact objs_nonneg _ _ _ _ zero_le_one fun j _ => ⟨(getD_box hx j).1, sub_nonneg.2 (getD_box hx j).2⟩
  have hsum : ∀ (x : List ℝ) (a : ℝ), ((objs 1 (fun j => x.getD j 0) (fun j => 1 - x.getD j 0) M).map (a * ·)).sum = a := by
    intro x a
    rw [← objs_scale, objs_sum _ _ _ (fun j => by ring) M h1]
  have hg : ∀ x, 0.5 ≤ 0.5 * (1 + gMulti M x) := by
    intro x
    have := (gMulti_spec M x).1
    norm_num; linarith
  have hiff : ∀ x, 0.5 * (1 + gMulti M x) = 0.5 ↔ ∀ a ∈ x.drop (M - 1), a = 1 / 2 := by
    intro x
    rw [← (gMulti_spec M x).2]
    constructor
    · intro h; norm_num at h; linarith
    · intro h; rw [h]; norm_num
  constructor
  · refine ⟨_, hf x hx, by simp [objs_length], ?_, ?_, ?_⟩
    · intro a ha
      obtain ⟨v, hv, rfl⟩ := List.mem_map.1 ha
      exact mul_nonneg (by have := hg x; norm_num at this ⊢; linarith) (hB x hx v hv)
    · rw [hsum]; have := hg x; norm_num at this ⊢; linarith
    · rw [hsum, ← hiff]; norm_num
  · rw [← hiff]
    refine optimal_iff (dtlz1 M) n List.sum 1 (fun u v h _ _ => sum_lt h) _ 0.5 (by norm_num) _ (half M) hf
      (fun x _ => hg x) hB (fun x _ => by rw [hsum, pow_one]) ?_ ?_ x hx
    · intro x _
      refine norm_pos _ ?_
      rw [objs_sum _ _ _ (fun j => by ring) M h1]
      exact one_ne_zero
    · intro x hx
      obtain ⟨b1, b2, b3⟩ := half_spec M n x hx h2
      exact ⟨b1, objs_congr _ _ _ _ _ _ (fun j hj => ⟨b2 j hj, by rw [b2 j hj]⟩), (hiff _).2 b3⟩

/-- The common part of DTLZ2, DTLZ3 and DTLZ4. -/
theorem sphere_front (f : List ℝ → Except Err (List ℝ)) (g : List ℝ → ℝ) (pos : ℝ → ℝ) (M n : Nat) (h1 : 1 ≤ M) (h2 : M ≤ n + 1)
    (hf0 : ∀ x, Box n x → f x = .ok (objs (1 + g x) (fun j => Real.cos (pos (x.getD j 0) * Real.pi / 2))
      (fun j => Real.sin (pos (x.getD j 0) * Real.pi / 2)) M))
    (hpos : ∀ v, 0 ≤ v → v ≤ 1 → 0 ≤ pos v ∧ pos v ≤ 1)
    (hg : ∀ x, 0 ≤ g x ∧ (g x = 0 ↔ ∀ a ∈ x.drop (M - 1), a = 1 / 2)) (x : List ℝ) (hx : Box n x) :
    (∃ v, f x = .ok v ∧ v.length = M ∧ (∀ a ∈ v, 0 ≤ a) ∧ 1 ≤ (v.map (fun a => a ^ 2)).sum ∧
      ((v.map (fun a => a ^ 2)).sum = 1 ↔ ∀ a ∈ x.drop (M - 1), a = 1 / 2)) ∧
    (Optimal f n x ↔ ∀ a ∈ x.drop (M - 1), a = 1 / 2) := by
  have hf : ∀ x, Box n x → f x = .ok ((objs 1 (fun j => Real.cos (pos (x.getD j 0) * Real.pi / 2))
      (fun j => Real.sin (pos (x.getD j 0) * Real.pi / 2)) M).map ((1 + g x) * ·)) := by
    intro x hx
    rw [hf0 x hx, objs_scale]
  have hB : ∀ x, Box n x → ∀ v ∈ objs 1 (fun j => Real.cos (pos (x.getD j 0) * Real.pi / 2))
      (fun j => Real.sin (pos (x.getD j 0) * Real.pi / 2)) M, 0 ≤ v := by
    intro x hx
    refine objs_nonneg _ _ _ _ zero_le_one fun j _ => ?_
    obtain ⟨q1, q2⟩ := hpos _ (getD_box hx j).1 (getD_box hx j).2
    have hpi := Real.pi_pos
    have a1 : 0 ≤ pos (x.getD j 0) * Real.pi / 2 := by positivity
    have a2 : pos (x.getD j 0) * Real.pi / 2 ≤ Real.pi / 2 := by
      have := mul_le_mul_of_nonneg_right q2 hpi.le
      linarith
    exact ⟨Real.cos_nonneg_of_neg_pi_div_two_le_of_le (by linarith) a2,
      Real.sin_nonneg_of_nonneg_of_le_pi a1 (by linarith)⟩
  have hsum : ∀ (x : List ℝ) (a : ℝ), (((objs 1 (fun j => Real.cos (pos (x.getD j 0) * Real.pi / 2))
      (fun j => Real.sin (pos (x.getD j 0) * Real.pi / 2)) M).map (a * ·)).map (fun a => a ^ 2)).sum = a ^ 2 := by
    intro x a
    rw [← objs_scale, objs_sq, objs_sum _ _ _ (fun j => Real.cos_sq_add_sin_sq _) M h1]
  have hiff : ∀ x, 1 + g x = 1 ↔ ∀ a ∈ x.drop (M - 1), a = 1 / 2 := by
    intro x
    rw [← (hg x).2]
    constructor <;> intro h <;> linarith
  constructor
  · refine ⟨_, hf x hx, by simp [objs_length], ?_, ?_, ?_⟩
    · intro a ha
      obtain ⟨v, hv, rfl⟩ := List.mem_map.1 ha
      exact mul_nonneg (by linarith [(hg x).1]) (hB x hx v hv)
    · rw [hsum]; nlinarith [(hg x).1]
    · rw [hsum, ← hiff]
      constructor
      · intro h
        have := (hg x).1
        nlinarith
      · intro h; rw [h]; norm_num
  · rw [← hiff]
    refine optimal_iff f n (fun u => (u.map (fun a => a ^ 2)).sum) 2
      (fun u v h hu hv => sum_lt (dom_sq h hu hv)) _ 1 zero_lt_one _ (half M) hf
      (fun x _ => by linarith [(hg x).1]) hB (fun x _ => hsum x _) ?_ ?_ x hx
    · intro x _
      refine sq_pos' _ ?_
      rw [objs_sq, objs_sum _ _ _ (fun j => Real.cos_sq_add_sin_sq _) M h1]
      norm_num
    · intro x hx
      obtain ⟨b1, b2, b3⟩ := half_spec M n x hx h2
      exact ⟨b1, objs_congr _ _ _ _ _ _ (fun j hj => ⟨by rw [b2 j hj], by rw [b2 j hj]⟩), (hiff _).2 b3⟩

/-- DTLZ2, DTLZ3 and DTLZ4: the objectives are nonnegative with squares summing to at least one, and the
Pareto-optimal solutions are exactly those with all distance variables one half, on the unit sphere. -/
theorem C210_dtlz234 (M n : Nat) (h1 : 1 ≤ M) (h2 : M ≤ n + 1) (alpha : ℝ) (ha : 0 ≤ alpha) (x : List ℝ) (hx : Box n x)
    (f : List ℝ → Except Err (List ℝ)) (hf : f = dtlz2 M ∨ f = dtlz3 M ∨ f = dtlz4 alpha M) :
    (∃ v, f x = .ok v ∧ v.length = M ∧ (∀ a ∈ v, 0 ≤ a) ∧ 1 ≤ (v.map (fun a => a ^ 2)).sum ∧
      ((v.map (fun a => a ^ 2)).sum = 1 ↔ ∀ a ∈ x.drop (M - 1), a = 1 / 2)) ∧
    (Optimal f n x ↔ ∀ a ∈ x.drop (M - 1), a = 1 / 2) := by
  rcases hf with rfl | rfl | rfl
  · exact sphere_front _ (gSphere M) id M n h1 h2 (fun x hx => by rw [dtlz2, if_pos (sizes_ok hx h1 h2)]; rfl)
      (fun v a b => ⟨a, b⟩) (gSphere_spec M) x hx
  · exact sphere_front _ (gMulti M) id M n h1 h2 (fun x hx => by rw [dtlz3, if_pos (sizes_ok hx h1 h2)]; rfl)
      (fun v a b => ⟨a, b⟩) (gMulti_spec M) x hx
  · exact sphere_front _ (gSphere M) (· ^ alpha) M n h1 h2 (fun x hx => by rw [dtlz4, if_pos (sizes_ok hx h1 h2)])
      (fun v a b => ⟨Real.rpow_nonneg a _, Real.rpow_le_one a b ha⟩) (gSphere_spec M) x hx

theorem theta_range (g : ℝ) (hg : 0 ≤ g) {n : Nat} {x : List ℝ} (hx : Box n x) (j : Nat) :
    0 ≤ theta g x j ∧ theta g x j ≤ Real.pi / 2 := by
  obtain ⟨q1, q2⟩ := getD_box hx j
  have hpi := Real.pi_pos
  unfold theta
  split
  · rename_i h
    subst h
    exact ⟨by positivity, by nlinarith⟩
  · refine ⟨by positivity, ?_⟩
    have h4 : 0 < 4 * (1 + g) := by linarith
    rw [div_mul_eq_mul_div, div_le_iff₀ h4]
    have : g * x.getD j 0 ≤ g := by nlinarith
    nlinarith

/-- DTLZ5 and DTLZ6: the objectives are nonnegative with squares summing to `(1 + g)² ≥ 1`. The solutions with
all distance variables one half (for DTLZ6, zero) are Pareto-optimal, and all their angles but the first
are a quarter of π: they lie on a curve. -/
theorem C210_dtlz56 (M n : Nat) (h1 : 2 ≤ M) (h2 : M ≤ n + 1) (x : List ℝ) (hx : Box n x)
    (f : List ℝ → Except Err (List ℝ)) (opt : ℝ) (hf : (f = dtlz5 M ∧ opt = 1 / 2) ∨ (f = dtlz6 M ∧ opt = 0)) :
    ∃ v, f x = .ok v ∧ v.length = M ∧ (∀ a ∈ v, 0 ≤ a) ∧ 1 ≤ (v.map (fun a => a ^ 2)).sum ∧
      ((v.map (fun a => a ^ 2)).sum = 1 ↔ ∀ a ∈ x.drop (M - 1), a = opt) ∧
      ((∀ a ∈ x.drop (M - 1), a = opt) → Optimal f n x ∧
        v = objs 1 (fun j => Real.cos (if j = 0 then Real.pi / 2 * x.getD 0 0 else Real.pi / 4))
          (fun j => Real.sin (if j = 0 then Real.pi / 2 * x.getD 0 0 else Real.pi / 4)) M) := by
  have key : ∀ (g : Nat → List ℝ → ℝ), f = dtlzCurve g M → (∀ x, Box n x → 0 ≤ g M x ∧ (g M x = 0 ↔ ∀ a ∈ x.drop (M - 1), a = opt)) →
      ∃ v, f x = .ok v ∧ v.length = M ∧ (∀ a ∈ v, 0 ≤ a) ∧ 1 ≤ (v.map (fun a => a ^ 2)).sum ∧
      ((v.map (fun a => a ^ 2)).sum = 1 ↔ ∀ a ∈ x.drop (M - 1), a = opt) ∧
      ((∀ a ∈ x.drop (M - 1), a = opt) → Optimal f n x ∧
        v = objs 1 (fun j => Real.cos (if j = 0 then Real.pi / 2 * x.getD 0 0 else Real.pi / 4))
          (fun j => Real.sin (if j = 0 then Real.pi / 2 * x.getD 0 0 else Real.pi / 4)) M) := by
    intro g hfg hg
    have hv : ∀ x, Box n x → f x = .ok (objs (1 + g M x) (fun j => Real.cos (theta (g M x) x j))
        (fun j => Real.sin (theta (g M x) x j)) M) := by
      intro x hx
      rw [hfg, dtlzCurve, if_pos (by rw [sizes_ok hx (by omega) h2]; simp [h1])]
    have hnn : ∀ x, Box n x → ∀ a ∈ objs (1 + g M x) (fun j => Real.cos (theta (g M x) x j))
        (fun j => Real.sin (theta (g M x) x j)) M, 0 ≤ a := by
      intro x hx
      refine objs_nonneg _ _ _ _ (by linarith [(hg x hx).1]) fun j _ => ?_
      obtain ⟨t1, t2⟩ := theta_range _ (hg x hx).1 hx j
      have hpi := Real.pi_pos
      exact ⟨Real.cos_nonneg_of_neg_pi_div_two_le_of_le (by linarith) t2, Real.sin_nonneg_of_nonneg_of_le_pi t1 (by linarith)⟩
    have hsum : ∀ x, ((objs (1 + g M x) (fun j => Real.cos (theta (g M x) x j))
        (fun j => Real.sin (theta (g M x) x j)) M).map (fun a => a ^ 2)).sum = (1 + g M x) ^ 2 := by
      intro x
      rw [objs_sq, objs_sum _ _ _ (fun j => Real.cos_sq_add_sin_sq _) M (by omega)]
    have hiff : ∀ x, Box n x → ((1 + g M x) ^ 2 = 1 ↔ ∀ a ∈ x.drop (M - 1), a = opt) := by
      intro x hx
      rw [← (hg x hx).2]
      have := (hg x hx).1
      constructor
      · intro h; nlinarith
      · intro h; rw [h]; norm_num
    refine ⟨_, hv x hx, objs_length _ _ _ _, hnn x hx, ?_, ?_, ?_⟩
    · rw [hsum]; nlinarith [(hg x hx).1]
    · rw [hsum]; exact hiff x hx
    · intro hopt
      constructor
      · intro y u v hy hu hvx hdom
        rw [hv y hy] at hu
        rw [hv x hx] at hvx
        cases hu; cases hvx
        have := sum_lt (dom_sq hdom (hnn y hy) (hnn x hx))
        rw [hsum, hsum, (hiff x hx).2 hopt] at this
        nlinarith [(hg y hy).1]
      · have h0 := (hg x hx).2.2 hopt
        rw [h0, add_zero]
        have ht : ∀ j, theta 0 x j = if j = 0 then Real.pi / 2 * x.getD 0 0 else Real.pi / 4 := by
          intro j
          unfold theta
          split
          · rfl
          · ring
        simp only [ht]
  rcases hf with ⟨rfl, rfl⟩ | ⟨rfl, rfl⟩
  · exact key gSphere rfl (fun x _ => gSphere_spec M x)
  · exact key gRoot rfl (fun x hx => gRoot_spec M x (fun v hv => (hx.2 v hv).1))

/-- DTLZ7: all objectives but the last are the position variables; the last one is
`(1 + g) M - Σ x (1 + sin 3πx)` with `g = 1 + 9` times the mean of the distance variables. So a Pareto-optimal
solution has all distance variables zero. -/
theorem C210_dtlz7 (M n : Nat) (h1 : 1 ≤ M) (h2 : M ≤ n) (x : List ℝ) (hx : Box n x) :
    dtlz7 M x = .ok (x.take (M - 1) ++
      [(2 + 9 * ((x.drop (M - 1)).sum / (n - (M - 1) : Nat))) * M - ((x.take (M - 1)).map (fun v => v * (1 + Real.sin (3 * Real.pi * v)))).sum]) ∧
    (Optimal (dtlz7 M) n x → ∀ a ∈ x.drop (M - 1), a = 0) := by
  have hval : ∀ x, Box n x → dtlz7 M x = .ok (x.take (M - 1) ++
      [(2 + 9 * ((x.drop (M - 1)).sum / (n - (M - 1) : Nat))) * M - ((x.take (M - 1)).map (fun v => v * (1 + Real.sin (3 * Real.pi * v)))).sum]) := by
    intro x hx
    rw [dtlz7, if_pos (sizes_ok hx h1 (by omega)), if_neg (by rw [hx.1]; omega)]
    dsimp only
    have hlen : (distVars M x).length = n - (M - 1) := by simp [distVars, hx.1]
    rw [hlen]
    have hs : (distVars M x).foldl (fun g v => g + v) (0 : ℝ) = (x.drop (M - 1)).sum := by
      have := foldl_add (fun v => v) (distVars M x) 0
      rw [this, zero_add, List.map_id']; rfl
    rw [hs]
    have hS : 0 ≤ (x.drop (M - 1)).sum := by
      apply List.sum_nonneg
      intro v hv
      exact (hx.2 v (List.mem_of_mem_drop hv)).1
    have hG : (0 : ℝ) < 1 + (1 + 9 * (x.drop (M - 1)).sum / ((n - (M - 1) : Nat) : ℝ)) := by positivity
    generalize hg : 1 + 9 * (x.drop (M - 1)).sum / ((n - (M - 1) : Nat) : ℝ) = g at *
    rw [foldl_add (fun v => v / (1 + g) * (1 + Real.sin (3 * Real.pi * v))), zero_add]
    have hm : ((x.take (M - 1)).map (fun v => v / (1 + g) * (1 + Real.sin (3 * Real.pi * v)))).sum =
        ((x.take (M - 1)).map (fun v => v * (1 + Real.sin (3 * Real.pi * v)))).sum / (1 + g) := by
      induction x.take (M - 1) with
      | nil => simp
      | cons a l ih => simp only [List.map_cons, List.sum_cons, ih]; field_simp
    rw [hm]
    congr 3
    rw [mul_sub, mul_div_cancel₀ _ hG.ne', ← hg]
    ring
  refine ⟨hval x hx, ?_⟩
  intro hopt
  by_contra hcon
  have hdn : ∀ v ∈ x.drop (M - 1), 0 ≤ v := fun v hv => (hx.2 v (List.mem_of_mem_drop hv)).1
  obtain ⟨z1, z2⟩ := sum_zero_iff _ hdn
  have hS : 0 < (x.drop (M - 1)).sum := lt_of_le_of_ne z1 (fun h => hcon (z2.1 h.symm))
  -- the same position with zero distance
  have ht : (x.take (M - 1)).length = M - 1 := by simp [hx.1]; omega
  set y := x.take (M - 1) ++ List.replicate (n - (M - 1)) (0 : ℝ) with hy
  have hby : Box n y := by
    refine ⟨by simp [hy, hx.1]; omega, ?_⟩
    intro v hv
    simp only [hy, List.mem_append, List.mem_replicate] at hv
    rcases hv with hv | ⟨_, rfl⟩
    · exact hx.2 v (List.mem_of_mem_take hv)
    · norm_num
  have hty : y.take (M - 1) = x.take (M - 1) := by rw [hy, List.take_left' ht]
  have hdy : (y.drop (M - 1)).sum = 0 := by rw [hy, List.drop_left' ht]; simp
  refine hopt y _ _ hby (hval y hby) (hval x hx) ?_
  rw [hty, hdy]
  have hkpos : (0 : ℝ) < ((n - (M - 1) : Nat) : ℝ) := by
    have : 0 < n - (M - 1) := by omega
    exact_mod_cast this
  have hMpos : (0 : ℝ) < M := by exact_mod_cast h1
  have hlt : (2 + 9 * (0 / ((n - (M - 1) : Nat) : ℝ))) * (M : ℝ) < (2 + 9 * ((x.drop (M - 1)).sum / ((n - (M - 1) : Nat) : ℝ))) * M := by
    apply mul_lt_mul_of_pos_right _ hMpos
    have := div_pos hS hkpos
    rw [zero_div]; linarith
  constructor
  · apply List.rel_append
    · rw [List.forall₂_same]; exact fun _ _ => le_rfl
    · exact .cons (by linarith) .nil
  · intro h
    have := List.append_cancel_left h
    simp only [List.cons.injEq, and_true] at this
    linarith

/-- Too few variables: the evaluations read outside. -/
theorem C210_few (M : Nat) (x : List ℝ) (h : x.length + 1 < M) (alpha : ℝ) :
    dtlz1 M x = .error .ub ∧ dtlz2 M x = .error .ub ∧ dtlz3 M x = .error .ub ∧ dtlz4 alpha M x = .error .ub ∧
    dtlz5 M x = .error .ub ∧ dtlz6 M x = .error .ub ∧ dtlz7 M x = .error .ub := by
  have : sizesOk M x = false := by
    simp only [sizesOk, Bool.and_eq_false_iff, decide_eq_false_iff_not]
    right; omega
  simp [dtlz1, dtlz2, dtlz3, dtlz4, dtlz5, dtlz6, dtlzCurve, dtlz7, this]

example : Box 3 [1 / 4, 1 / 2, 1 / 2] ∧ (∀ a ∈ ([1 / 4, 1 / 2, 1 / 2] : List ℝ).drop (2 - 1), a = 1 / 2) := by
  refine ⟨⟨rfl, ?_⟩, ?_⟩
  · intro v hv
    simp only [List.mem_cons, List.not_mem_nil, or_false] at hv
    rcases hv with rfl | rfl | rfl <;> norm_num
  · intro v hv
    simp at hv
    rw [hv]; norm_num

/-! ### C211 -/

theorem truncate_mem (lo hi r : ℝ) (h : lo ≤ hi) : lo ≤ truncate lo hi r ∧ truncate lo hi r ≤ hi := by
  unfold truncate
  split
  · exact ⟨le_rfl, h⟩
  · split
    · exact ⟨h, le_rfl⟩
    · rename_i h1 h2
      exact ⟨not_lt.1 h1, not_lt.1 h2⟩

theorem truncate_id (lo hi r : ℝ) (h1 : lo ≤ r) (h2 : r ≤ hi) : truncate lo hi r = r := by
  rw [truncate, if_neg (not_lt.2 h1), if_neg (not_lt.2 h2)]

theorem betaq_range (eta rand beta : ℝ) (he : 0 ≤ eta) (h0 : 0 ≤ rand) (h1 : rand < 1) (hb : 1 ≤ beta) :
    0 ≤ betaq eta rand beta ∧ betaq eta rand beta ≤ beta := by
  unfold betaq
  dsimp only
  have hbp : 0 < beta := by linarith
  have hp : 0 < eta + 1 := by linarith
  have hA0 : 0 < beta ^ (-(eta + 1)) := Real.rpow_pos_of_pos hbp _
  have hA1 : beta ^ (-(eta + 1)) ≤ 1 := Real.rpow_le_one_of_one_le_of_nonpos hb (by linarith)
  have hinv : 0 ≤ 1 / (eta + 1) := by positivity
  set A := beta ^ (-(eta + 1)) with hA
  split
  · rename_i h
    have halpha : 0 < 2 - A := by linarith
    have hle : rand * (2 - A) ≤ 1 := by
      rwa [le_div_iff₀ halpha] at h
    have hnn : 0 ≤ rand * (2 - A) := by positivity
    exact ⟨Real.rpow_nonneg hnn _, (Real.rpow_le_one hnn hle hinv).trans hb⟩
  · rename_i h
    have halpha : 0 < 2 - A := by linarith
    have hlt : rand * (2 - A) < 2 - A := by nlinarith
    have hpos : A < 2 - rand * (2 - A) := by linarith
    have hq : 0 < 2 - rand * (2 - A) := by linarith
    refine ⟨Real.rpow_nonneg (by positivity) _, ?_⟩
    have hle : 1 / (2 - rand * (2 - A)) ≤ 1 / A := one_div_le_one_div_of_le hA0 hpos.le
    calc (1 / (2 - rand * (2 - A))) ^ (1 / (eta + 1)) ≤ (1 / A) ^ (1 / (eta + 1)) :=
          Real.rpow_le_rpow (by positivity) hle hinv
      _ = beta := by
          rw [hA, Real.rpow_neg hbp.le, one_div, inv_inv, ← Real.rpow_mul hbp.le, mul_one_div_cancel hp.ne', Real.rpow_one]

/-- SBX of two different values within the bounds gives, before any truncation, two values within the bounds on
either side of the middle of the parents. -/
theorem C211_sbx_pair (eta rand lo hi y1 y2 : ℝ) (he : 0 ≤ eta) (h0 : 0 ≤ rand) (h1 : rand < 1) (hlo : lo ≤ y1)
    (hy : y1 < y2) (hhi : y2 ≤ hi) :
    lo ≤ (sbxPair eta rand lo hi y1 y2).1 ∧ (sbxPair eta rand lo hi y1 y2).1 ≤ (y1 + y2) / 2 ∧
    (y1 + y2) / 2 ≤ (sbxPair eta rand lo hi y1 y2).2 ∧ (sbxPair eta rand lo hi y1 y2).2 ≤ hi := by
  have hd : 0 < y2 - y1 := by linarith
  have b1 : 1 ≤ 1 + 2 * (y1 - lo) / (y2 - y1) := by
    have : 0 ≤ 2 * (y1 - lo) / (y2 - y1) := div_nonneg (by linarith) hd.le
    linarith
  have b2 : 1 ≤ 1 + 2 * (hi - y2) / (y2 - y1) := by
    have : 0 ≤ 2 * (hi - y2) / (y2 - y1) := div_nonneg (by linarith) hd.le
    linarith
  obtain ⟨p1, p2⟩ := betaq_range eta rand _ he h0 h1 b1
  obtain ⟨q1, q2⟩ := betaq_range eta rand _ he h0 h1 b2
  have e1 : (1 + 2 * (y1 - lo) / (y2 - y1)) * (y2 - y1) = (y2 - y1) + 2 * (y1 - lo) := by
    rw [add_mul, div_mul_cancel₀ _ hd.ne', one_mul]
  have e2 : (1 + 2 * (hi - y2) / (y2 - y1)) * (y2 - y1) = (y2 - y1) + 2 * (hi - y2) := by
    rw [add_mul, div_mul_cancel₀ _ hd.ne', one_mul]
  have m1 := mul_le_mul_of_nonneg_right p2 hd.le
  have m2 := mul_le_mul_of_nonneg_right q2 hd.le
  have n1 := mul_nonneg p1 hd.le
  have n2 := mul_nonneg q1 hd.le
  rw [e1] at m1
  rw [e2] at m2
  simp only [sbxPair]
  refine ⟨?_, ?_, ?_, ?_⟩ <;> norm_num <;> linarith

theorem sbxGene_spec (eta lo hi rand : ℝ) (flip : Bool) (a b : ℝ) (he : 0 ≤ eta) (h0 : 0 ≤ rand) (h1 : rand < 1)
    (ha : lo ≤ a ∧ a ≤ hi) (hb : lo ≤ b ∧ b ≤ hi) :
    ∃ c, sbxGene eta (some (lo, hi)) rand flip a b = .ok c ∧ (c.2 = true ↔ |a - b| > eps) ∧
      (c.2 = false → c.1 = (a, b)) ∧ (lo ≤ c.1.1 ∧ c.1.1 ≤ hi) ∧ (lo ≤ c.1.2 ∧ c.1.2 ≤ hi) ∧
      min c.1.1 c.1.2 ≤ (a + b) / 2 ∧ (a + b) / 2 ≤ max c.1.1 c.1.2 := by
  unfold sbxGene
  split
  · rename_i h
    have heps : 0 < eps := by unfold eps; positivity
    have hne : a ≠ b := by
      rintro rfl
      rw [sub_self, abs_zero] at h; linarith
    have key : ∀ c : ℝ × ℝ, lo ≤ c.1 → c.1 ≤ (a + b) / 2 → (a + b) / 2 ≤ c.2 → c.2 ≤ hi →
        ∃ d : (ℝ × ℝ) × Bool, (Except.ok (if flip = true then (truncate lo hi c.2, truncate lo hi c.1)
          else (truncate lo hi c.1, truncate lo hi c.2), true) : Except Err _) = .ok d ∧ (d.2 = true ↔ |a - b| > eps) ∧
        (d.2 = false → d.1 = (a, b)) ∧ (lo ≤ d.1.1 ∧ d.1.1 ≤ hi) ∧ (lo ≤ d.1.2 ∧ d.1.2 ≤ hi) ∧
        min d.1.1 d.1.2 ≤ (a + b) / 2 ∧ (a + b) / 2 ≤ max d.1.1 d.1.2 := by
      intro c c1 c2 c3 c4
      rw [truncate_id lo hi c.1 c1 (by linarith), truncate_id lo hi c.2 (by linarith) c4]
      refine ⟨_, rfl, by simp [h], by simp, ?_⟩
      cases flip
      · exact ⟨⟨c1, by simpa using by linarith⟩, ⟨by simpa using by linarith, c4⟩, (min_le_left _ _).trans c2, c3.trans (le_max_right _ _)⟩
      · exact ⟨⟨by simpa using by linarith, c4⟩, ⟨c1, by simpa using by linarith⟩, (min_le_right _ _).trans c2, c3.trans (le_max_left _ _)⟩
    dsimp only
    by_cases hab : a < b
    · obtain ⟨q1, q2, q3, q4⟩ := C211_sbx_pair eta rand lo hi a b he h0 h1 ha.1 hab hb.2
      rw [if_pos hab]
      exact key _ q1 q2 q3 q4
    · have hba : b < a := lt_of_le_of_ne (not_lt.1 hab) (fun h => hne h.symm)
      obtain ⟨q1, q2, q3, q4⟩ := C211_sbx_pair eta rand lo hi b a he h0 h1 hb.1 hba ha.2
      rw [if_neg hab]
      rw [add_comm b a] at q2 q3
      exact key _ q1 q2 q3 q4
  · rename_i h
    refine ⟨_, rfl, by simpa using h, fun _ => rfl, ha, hb, ?_, ?_⟩
    · rcases le_total a b with hab | hab
      · rw [min_eq_left hab]; linarith
      · rw [min_eq_right hab]; linarith
    · rcases le_total a b with hab | hab
      · rw [max_eq_right hab]; linarith
      · rw [max_eq_left hab]; linarith

/-- SBX of two solutions within their bounds: every gene of both children is within its bounds and the two children
genes enclose the middle of the parents' genes. The operator reports a change exactly when some gene differs by
more than 1e-14; genes that do not are kept. -/
theorem C211_sbx (eta : ℝ) (he : 0 ≤ eta) (l : List SbxIn)
    (hl : ∀ p ∈ l, 0 ≤ p.rand ∧ p.rand < 1 ∧ ∃ lo hi, p.bounds = some (lo, hi) ∧ lo ≤ p.a ∧ p.a ≤ hi ∧ lo ≤ p.b ∧ p.b ≤ hi) :
    ∃ r ch, sbx eta l = .ok (r, ch) ∧ (ch = true ↔ ∃ p ∈ l, |p.a - p.b| > eps) ∧
      List.Forall₂ (fun (p : SbxIn) (c : ℝ × ℝ) => (|p.a - p.b| ≤ eps → c = (p.a, p.b)) ∧
        (∀ lo hi, p.bounds = some (lo, hi) → (lo ≤ c.1 ∧ c.1 ≤ hi) ∧ (lo ≤ c.2 ∧ c.2 ≤ hi)) ∧
        min c.1 c.2 ≤ (p.a + p.b) / 2 ∧ (p.a + p.b) / 2 ≤ max c.1 c.2) l r := by
  induction l with
  | nil => exact ⟨[], false, rfl, by simp, .nil⟩
  | cons p l ih =>
    obtain ⟨r, ch, q1, q2, q3⟩ := ih (fun p hp => hl p (List.mem_cons_of_mem _ hp))
    obtain ⟨h0, h1, lo, hi, hb, a1, a2, b1, b2⟩ := hl p List.mem_cons_self
    obtain ⟨c, c1, c2, c3, c4, c5, c6, c7⟩ := sbxGene_spec eta lo hi p.rand p.flip p.a p.b he h0 h1 ⟨a1, a2⟩ ⟨b1, b2⟩
    refine ⟨c.1 :: r, c.2 || ch, ?_, ?_, .cons ⟨?_, ?_, c6, c7⟩ q3⟩
    · rw [sbx, hb, c1]
      dsimp only
      rw [q1]
    · rw [Bool.or_eq_true, c2, q2]
      simp
    · intro h
      apply c3
      rw [← Bool.not_eq_true, c2]
      exact not_lt.2 h
    · intro lo' hi' h
      rw [hb] at h
      cases h
      exact ⟨c4, c5⟩

/-- Without bounds (the default constructor) SBX throws as soon as the parents differ. -/
theorem C211_sbx_unbounded (eta : ℝ) (l : List SbxIn) (hl : ∀ p ∈ l, p.bounds = none) (h : ∃ p ∈ l, |p.a - p.b| > eps) :
    sbx eta l = .error .thrown := by
  induction l with
  | nil => simp at h
  | cons p l ih =>
    rw [sbx, hl p List.mem_cons_self]
    by_cases hp : |p.a - p.b| > eps
    · simp only [sbxGene, if_pos hp]
    · simp only [sbxGene, if_neg hp]
      rw [ih (fun q hq => hl q (List.mem_cons_of_mem _ hq)) (by
        obtain ⟨q, hq, hd⟩ := h
        rcases List.mem_cons.1 hq with rfl | hq
        · exact absurd hd hp
        · exact ⟨q, hq, hd⟩)]

/-- Small random numbers contract: the child is on the inner side of its parent; large ones expand. With 0 the child
is the middle. -/
theorem C211_sbx_spread (eta rand lo hi y1 y2 : ℝ) (he : 0 ≤ eta) (h0 : 0 ≤ rand) (h1 : rand < 1) (hlo : lo ≤ y1)
    (hy : y1 < y2) (hhi : y2 ≤ hi) :
    (rand * (2 - (1 + 2 * (y1 - lo) / (y2 - y1)) ^ (-(eta + 1))) ≤ 1 ↔ y1 ≤ (sbxPair eta rand lo hi y1 y2).1) ∧
    (rand * (2 - (1 + 2 * (hi - y2) / (y2 - y1)) ^ (-(eta + 1))) ≤ 1 ↔ (sbxPair eta rand lo hi y1 y2).2 ≤ y2) ∧
    (rand = 0 → sbxPair eta rand lo hi y1 y2 = ((y1 + y2) / 2, (y1 + y2) / 2)) := by
  have hd : 0 < y2 - y1 := by linarith
  have b1 : 1 ≤ 1 + 2 * (y1 - lo) / (y2 - y1) := by
    have : 0 ≤ 2 * (y1 - lo) / (y2 - y1) := div_nonneg (by linarith) hd.le
    linarith
  have b2 : 1 ≤ 1 + 2 * (hi - y2) / (y2 - y1) := by
    have : 0 ≤ 2 * (hi - y2) / (y2 - y1) := div_nonneg (by linarith) hd.le
    linarith
  have hp : 0 < 1 / (eta + 1) := by positivity
  have key : ∀ beta : ℝ, 1 ≤ beta → ((rand * (2 - beta ^ (-(eta + 1))) ≤ 1 ↔ betaq eta rand beta ≤ 1) ∧
      (rand = 0 → betaq eta rand beta = 0)) := by
    intro beta hb
    have hbp : 0 < beta := by linarith
    have hA0 : 0 < beta ^ (-(eta + 1)) := Real.rpow_pos_of_pos hbp _
    have hA1 : beta ^ (-(eta + 1)) ≤ 1 := Real.rpow_le_one_of_one_le_of_nonpos hb (by linarith)
    unfold betaq
    dsimp only
    set A := beta ^ (-(eta + 1)) with hA
    have halpha : 0 < 2 - A := by linarith
    constructor
    · rw [← le_div_iff₀ halpha]
      split
      · rename_i h
        refine ⟨fun _ => Real.rpow_le_one (by positivity) ?_ hp.le, fun _ => h⟩
        rwa [le_div_iff₀ halpha] at h
      · rename_i h
        refine ⟨fun hh => absurd hh h, fun hh => ?_⟩
        exfalso
        rw [not_le, div_lt_iff₀ halpha] at h
        have hq : 0 < 2 - rand * (2 - A) := by nlinarith
        have : 1 < 1 / (2 - rand * (2 - A)) := by rw [lt_div_iff₀ hq]; linarith
        exact absurd hh (not_le.2 (Real.one_lt_rpow this hp))
    · rintro rfl
      rw [if_pos (by positivity), zero_mul, Real.zero_rpow hp.ne']
  refine ⟨?_, ?_, ?_⟩
  · rw [(key _ b1).1]
    simp only [sbxPair]
    norm_num
    constructor
    · intro h
      have := mul_le_mul_of_nonneg_right h hd.le
      linarith
    · intro h
      by_contra hc
      have := mul_lt_mul_of_pos_right (not_le.1 hc) hd
      linarith
  · rw [(key _ b2).1]
    simp only [sbxPair]
    norm_num
    constructor
    · intro h
      have := mul_le_mul_of_nonneg_right h hd.le
      linarith
    · intro h
      by_contra hc
      have := mul_lt_mul_of_pos_right (not_le.1 hc) hd
      linarith
  · intro h
    simp only [sbxPair]
    rw [(key _ b1).2 h, (key _ b2).2 h]
    ext <;> norm_num <;> ring

/-- Exchanging the parents gives the same children. -/
theorem C211_sbx_symmetric (eta : ℝ) (bounds : Option (ℝ × ℝ)) (rand : ℝ) (flip : Bool) (a b : ℝ) (h : |a - b| > eps) :
    sbxGene eta bounds rand flip a b = sbxGene eta bounds rand flip b a := by
  have heps : 0 < eps := by unfold eps; positivity
  have h' : |b - a| > eps := by rwa [abs_sub_comm]
  have hne : a ≠ b := by
    rintro rfl
    rw [sub_self, abs_zero] at h; linarith
  unfold sbxGene
  rw [if_pos h, if_pos h']
  cases bounds with
  | none => rfl
  | some lh =>
    dsimp only
    rcases lt_or_gt_of_ne hne with hab | hab
    · rw [if_pos hab, if_neg (not_lt.2 hab.le)]
    · rw [if_neg (not_lt.2 hab.le), if_pos hab]

/-- The polynomial mutation moves a gene by at most its distance to the nearest bound. So it stays within its
bounds, and a gene that is on one of its bounds never moves. -/
theorem C211_poly_gene (eta rnd lo hi y : ℝ) (hlo : lo ≤ y) (hhi : y ≤ hi) (hlt : lo < hi) :
    |polyGene eta rnd lo hi y - y| ≤ min (y - lo) (hi - y) := by
  unfold polyGene
  dsimp only
  have hd : 0 < hi - lo := by linarith
  generalize hdm : (if y - lo > hi - y then (hi - y) / (hi - lo) else (y - lo) / (hi - lo)) = dm
  have hdm' : dm * (hi - lo) = min (y - lo) (hi - y) := by
    rw [← hdm]
    split
    · rename_i h
      rw [div_mul_cancel₀ _ hd.ne', min_eq_right h.le]
    · rename_i h
      rw [div_mul_cancel₀ _ hd.ne', min_eq_left (not_lt.1 h)]
  have hmin : 0 ≤ min (y - lo) (hi - y) := le_min (by linarith) (by linarith)
  have hdm0 : 0 ≤ dm := by
    by_contra h
    have := mul_neg_of_neg_of_pos (not_le.1 h) hd
    linarith
  generalize (if rnd ≤ 0.5 then (2 * rnd + (1 - 2 * rnd) * (1 - dm) ^ (eta + 1)) ^ (1 / (eta + 1)) - 1
    else 1 - (2 * (1 - rnd) + 2 * (rnd - 0.5) * (1 - dm) ^ (eta + 1)) ^ (1 / (eta + 1))) = dq
  generalize hd' : (if dq > dm then dm else if dq < -dm then -dm else dq) = d
  have hdr : -dm ≤ d ∧ d ≤ dm := by
    rw [← hd']
    split
    · exact ⟨by linarith, le_rfl⟩
    · split
      · exact ⟨le_rfl, by linarith⟩
      · rename_i h1 h2
        exact ⟨not_lt.1 h2, not_lt.1 h1⟩
  have m1 := mul_le_mul_of_nonneg_right hdr.1 hd.le
  have m2 := mul_le_mul_of_nonneg_right hdr.2 hd.le
  have l1 : min (y - lo) (hi - y) ≤ y - lo := min_le_left _ _
  have l2 : min (y - lo) (hi - y) ≤ hi - y := min_le_right _ _
  rw [neg_mul, hdm'] at m1
  rw [hdm'] at m2
  rw [truncate_id lo hi _ (by linarith) (by linarith), add_sub_cancel_left, abs_le]
  exact ⟨m1, m2⟩

/-- A random number up to one half moves the gene down, a larger one up; 0 and 1 move it by the full distance to the
nearest bound and one half does not move it. -/
theorem C211_poly_direction (eta rnd lo hi y : ℝ) (he : 0 ≤ eta) (h0 : 0 ≤ rnd) (h1 : rnd ≤ 1) (hlo : lo ≤ y) (hhi : y ≤ hi)
    (hlt : lo < hi) :
    (rnd ≤ 1 / 2 → polyGene eta rnd lo hi y ≤ y) ∧ (1 / 2 ≤ rnd → y ≤ polyGene eta rnd lo hi y) ∧
    (rnd = 0 → polyGene eta rnd lo hi y = y - min (y - lo) (hi - y)) ∧
    (rnd = 1 → polyGene eta rnd lo hi y = y + min (y - lo) (hi - y)) := by
  unfold polyGene
  dsimp only
  have hd : 0 < hi - lo := by linarith
  generalize hdm : (if y - lo > hi - y then (hi - y) / (hi - lo) else (y - lo) / (hi - lo)) = dm
  have hdm' : dm * (hi - lo) = min (y - lo) (hi - y) := by
    rw [← hdm]
    split
    · rename_i h
      rw [div_mul_cancel₀ _ hd.ne', min_eq_right h.le]
    · rename_i h
      rw [div_mul_cancel₀ _ hd.ne', min_eq_left (not_lt.1 h)]
  have hmin : 0 ≤ min (y - lo) (hi - y) := le_min (by linarith) (by linarith)
  have hl1 : min (y - lo) (hi - y) ≤ y - lo := min_le_left _ _
  have hl2 : min (y - lo) (hi - y) ≤ hi - y := min_le_right _ _
  have hdm0 : 0 ≤ dm := by
    by_contra h
    have := mul_neg_of_neg_of_pos (not_le.1 h) hd
    linarith
  have hdm1 : dm ≤ 1 := by
    by_contra h
    have := mul_lt_mul_of_pos_right (not_le.1 h) hd
    linarith
  have hp : 0 < 1 / (eta + 1) := by positivity
  have hz0 : 0 ≤ (1 - dm) ^ (eta + 1) := Real.rpow_nonneg (by linarith) _
  have hz1 : (1 - dm) ^ (eta + 1) ≤ 1 := Real.rpow_le_one (by linarith) (by linarith) (by linarith)
  have hzz : ((1 - dm) ^ (eta + 1)) ^ (1 / (eta + 1)) = 1 - dm := by
    rw [← Real.rpow_mul (by linarith), mul_one_div_cancel (by linarith), Real.rpow_one]
  have hroot : ∀ v : ℝ, (1 - dm) ^ (eta + 1) ≤ v → v ≤ 1 → 1 - dm ≤ v ^ (1 / (eta + 1)) ∧ v ^ (1 / (eta + 1)) ≤ 1 := by
    intro v v1 v2
    refine ⟨?_, Real.rpow_le_one (hz0.trans v1) v2 hp.le⟩
    rw [← hzz]
    exact Real.rpow_le_rpow hz0 v1 hp.le
  generalize hz : (1 - dm) ^ (eta + 1) = z at *
  -- the step is clamped to itself
  have fin : ∀ dq : ℝ, -dm ≤ dq → dq ≤ dm →
      truncate lo hi (y + (if dq > dm then dm else if dq < -dm then -dm else dq) * (hi - lo)) = y + dq * (hi - lo) := by
    intro dq q1 q2
    rw [if_neg (not_lt.2 q2), if_neg (not_lt.2 q1)]
    have m1 := mul_le_mul_of_nonneg_right q1 hd.le
    have m2 := mul_le_mul_of_nonneg_right q2 hd.le
    rw [neg_mul, hdm'] at m1
    rw [hdm'] at m2
    exact truncate_id _ _ _ (by linarith) (by linarith)
  have low : rnd ≤ 0.5 → ∃ dq, -dm ≤ dq ∧ dq ≤ 0 ∧ (2 * rnd + (1 - 2 * rnd) * z) ^ (1 / (eta + 1)) - 1 = dq ∧
      (rnd = 0 → dq = -dm) ∧ (rnd = 1 / 2 → dq = 0) := by
    intro h
    norm_num at h
    obtain ⟨r1, r2⟩ := hroot (2 * rnd + (1 - 2 * rnd) * z) (by nlinarith) (by nlinarith)
    refine ⟨_, by linarith, by linarith, rfl, ?_, ?_⟩
    · rintro rfl
      rw [show 2 * (0 : ℝ) + (1 - 2 * 0) * z = z by ring, hzz]; ring
    · rintro rfl
      rw [show 2 * (1 / 2 : ℝ) + (1 - 2 * (1 / 2)) * z = 1 by ring, Real.one_rpow]; ring
  have high : ¬ rnd ≤ 0.5 → ∃ dq, 0 ≤ dq ∧ dq ≤ dm ∧ 1 - (2 * (1 - rnd) + 2 * (rnd - 0.5) * z) ^ (1 / (eta + 1)) = dq ∧
      (rnd = 1 → dq = dm) := by
    intro h
    norm_num at h
    obtain ⟨r1, r2⟩ := hroot (2 * (1 - rnd) + 2 * (rnd - 0.5) * z) (by norm_num; nlinarith) (by norm_num; nlinarith)
    refine ⟨_, by linarith, by linarith, rfl, ?_⟩
    rintro rfl
    rw [show 2 * (1 - (1 : ℝ)) + 2 * (1 - 0.5) * z = z by norm_num, hzz]; ring
  by_cases h : rnd ≤ 0.5
  · obtain ⟨dq, q1, q2, q3, q4, q5⟩ := low h
    rw [if_pos h, q3, fin dq q1 (by linarith)]
    norm_num at h
    refine ⟨fun _ => ?_, fun hh => ?_, fun hh => ?_, fun hh => by linarith⟩
    · have := mul_nonpos_of_nonpos_of_nonneg q2 hd.le
      linarith
    · rw [q5 (by linarith)]; linarith
    · rw [q4 hh, neg_mul, hdm']; ring
  · obtain ⟨dq, q1, q2, q3, q4⟩ := high h
    rw [if_neg h, q3, fin dq (by linarith) q2]
    norm_num at h
    refine ⟨fun hh => by linarith, fun _ => ?_, fun hh => by linarith, fun hh => ?_⟩
    · have := mul_nonneg q1 hd.le
      linarith
    · rw [q4 hh, hdm']

/-- The operator on a solution: genes stay within their bounds; it reports a change whenever a gene was drawn, also
if that gene is on its bound and cannot move. -/
theorem C211_poly (eta : ℝ) (l : List PolyIn) (hl : ∀ p ∈ l, p.lo ≤ p.y ∧ p.y ≤ p.hi ∧ p.lo < p.hi) :
    List.Forall₂ (fun (p : PolyIn) (c : ℝ) => p.lo ≤ c ∧ c ≤ p.hi ∧ (p.flip = false → c = p.y) ∧
      (p.y = p.lo ∨ p.y = p.hi → c = p.y)) l (poly eta l).1 ∧
    ((poly eta l).2 = true ↔ ∃ p ∈ l, p.flip = true) := by
  constructor
  · simp only [poly]
    rw [List.forall₂_map_right_iff, List.forall₂_same]
    intro p hp
    obtain ⟨h1, h2, h3⟩ := hl p hp
    have h := C211_poly_gene eta p.rnd p.lo p.hi p.y h1 h2 h3
    have l1 : min (p.y - p.lo) (p.hi - p.y) ≤ p.y - p.lo := min_le_left _ _
    have l2 : min (p.y - p.lo) (p.hi - p.y) ≤ p.hi - p.y := min_le_right _ _
    rw [abs_le] at h
    cases hf : p.flip
    · simp only [Bool.false_eq_true, if_false]
      exact ⟨h1, h2, fun _ => trivial, fun _ => trivial⟩
    · simp only [if_true]
      refine ⟨by linarith, by linarith, fun h => by simp at h, ?_⟩
      rintro (he | he) <;> linarith
  · simp [poly]

example : ∀ p ∈ ([⟨1, 2, some (0, 3), 1 / 2, true⟩, ⟨1, 1, some (0, 3), 0, false⟩] : List SbxIn),
    0 ≤ p.rand ∧ p.rand < 1 ∧ ∃ lo hi, p.bounds = some (lo, hi) ∧ lo ≤ p.a ∧ p.a ≤ hi ∧ lo ≤ p.b ∧ p.b ≤ hi := by
  intro p hp
  simp only [List.mem_cons, List.not_mem_nil, or_false] at hp
  rcases hp with rfl | rfl
  · exact ⟨by norm_num, by norm_num, 0, 3, rfl, by norm_num, by norm_num, by norm_num, by norm_num⟩
  · exact ⟨by norm_num, by norm_num, 0, 3, rfl, by norm_num, by norm_num, by norm_num, by norm_num⟩

example : ∀ p ∈ ([⟨1, 0, 3, true, 1 / 4⟩] : List PolyIn), p.lo ≤ p.y ∧ p.y ≤ p.hi ∧ p.lo < p.hi := by
  intro p hp
  simp only [List.mem_cons, List.not_mem_nil, or_false] at hp
  subst hp
  norm_num

end Paradiseo.DTLZ
