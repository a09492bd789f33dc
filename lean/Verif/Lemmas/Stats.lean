import Verif.Model.Stats
import Mathlib.Algebra.QuadraticDiscriminant
import Mathlib.Algebra.BigOperators.Group.List.Basic
import Mathlib.Algebra.Order.BigOperators.Group.List
import Mathlib.Data.List.Count
import Mathlib.Tactic.Linarith
import Mathlib.Tactic.FieldSimp
import Mathlib.Tactic.Ring
import Mathlib.Tactic.Positivity
/-
Lemmas about the statistics.
-/
namespace Paradiseo.Stat

theorem foldl_sum {α : Type} (g : α → ℝ) (l : List α) (a : ℝ) :
    l.foldl (fun s x => s + g x) a = a + (l.map g).sum := by
  induction l generalizing a with
  | nil => simp
  | cons x xs ih => rw [List.foldl_cons, ih, List.map_cons, List.sum_cons, add_assoc]

theorem foldl_add (l : List ℝ) : l.foldl (fun s x => s + x) 0 = l.sum := by
  have := foldl_sum (fun x => x) l 0
  simpa using this

theorem foldl_pair (l : List ℝ) (a b : ℝ) :
    l.foldl (fun sq x => (sq.1 + x, sq.2 + x * x)) (a, b) = (a + l.sum, b + (l.map fun x => x * x).sum) := by
  induction l generalizing a b with
  | nil => simp
  | cons x xs ih => rw [List.foldl_cons, ih]; simp [add_assoc]

/-- Sum of the squared deviations from `m`. -/
theorem sum_dev (l : List ℝ) (m : ℝ) :
    (l.map fun x => (x - m) * (x - m)).sum = (l.map fun x => x * x).sum - 2 * m * l.sum + l.length * (m * m) := by
  induction l with
  | nil => simp
  | cons x xs ih =>
    simp only [List.map_cons, List.sum_cons, ih, List.length_cons]
    push_cast
    ring

theorem sum_sq_nonneg {α : Type} (l : List α) (g : α → ℝ) : 0 ≤ (l.map fun x => g x * g x).sum := by
  apply List.sum_nonneg
  intro y hy
  obtain ⟨x, _, rfl⟩ := List.mem_map.1 hy
  exact mul_self_nonneg _

theorem sum_sq_eq_zero {α : Type} (l : List α) (g : α → ℝ) :
    (l.map fun x => g x * g x).sum = 0 ↔ ∀ x ∈ l, g x = 0 := by
  induction l with
  | nil => simp
  | cons x xs ih =>
    rw [List.map_cons, List.sum_cons]
    have h1 := mul_self_nonneg (g x)
    have h2 := sum_sq_nonneg xs g
    constructor
    · intro h
      have e1 : g x * g x = 0 := by linarith
      have e2 : (xs.map fun x => g x * g x).sum = 0 := by linarith
      intro y hy
      rcases List.mem_cons.1 hy with rfl | hy
      · exact mul_self_eq_zero.1 e1
      · exact (ih.1 e2) y hy
    · intro h
      rw [ih.2 (fun y hy => h y (by simp [hy])), h x (by simp)]
      simp

/-- Cauchy and Schwarz. -/
theorem cauchy {α : Type} (l : List α) (g h : α → ℝ) :
    (l.map fun x => g x * h x).sum * (l.map fun x => g x * h x).sum ≤
      (l.map fun x => g x * g x).sum * (l.map fun x => h x * h x).sum := by
  have key : ∀ t : ℝ, (l.map fun x => (g x * t + h x) * (g x * t + h x)).sum =
      (l.map fun x => g x * g x).sum * (t * t) + (2 * (l.map fun x => g x * h x).sum) * t +
        (l.map fun x => h x * h x).sum := by
    intro t
    induction l with
    | nil => simp
    | cons x xs ih => simp only [List.map_cons, List.sum_cons, ih]; ring
  have hd := discrim_le_zero (a := (l.map fun x => g x * g x).sum) (b := 2 * (l.map fun x => g x * h x).sum)
    (c := (l.map fun x => h x * h x).sum) (fun t => by
      rw [← key t]; exact sum_sq_nonneg l (fun x => g x * t + h x))
  unfold discrim at hd
  nlinarith [hd]

theorem sum_map_mul {α : Type} (l : List α) (g : α → ℝ) (c : ℝ) :
    (l.map fun x => c * g x).sum = c * (l.map g).sum := by
  induction l with
  | nil => simp
  | cons x xs ih => simp only [List.map_cons, List.sum_cons, ih]; ring

/-! ## Best of a list -/

/-- A strict weak order. -/
structure SWO {F : Type} (lt : F → F → Bool) : Prop where
  irrefl : ∀ a, lt a a = false
  trans : ∀ a b c, lt a b = true → lt b c = true → lt a c = true
  negtrans : ∀ a b c, lt a b = false → lt b c = false → lt a c = false

section Best
variable {F : Type} {lt : F → F → Bool}

theorem bestOf_aux (h : SWO lt) : ∀ (xs : List F) (x : F),
    xs.foldl (fun b y => if lt b y then y else b) x ∈ x :: xs ∧
    ∀ y ∈ x :: xs, lt (xs.foldl (fun b y => if lt b y then y else b) x) y = false := by
  intro xs
  induction xs with
  | nil => intro x; simp [h.irrefl]
  | cons z zs ih =>
    intro x
    rw [List.foldl_cons]
    by_cases hl : lt x z = true
    · rw [if_pos hl]
      obtain ⟨h1, h2⟩ := ih z
      refine ⟨List.mem_cons_of_mem _ h1, ?_⟩
      intro y hy
      rcases List.mem_cons.1 hy with rfl | hy
      · by_contra hc
        have hc' : lt (zs.foldl (fun b y => if lt b y then y else b) z) y = true := by simpa using hc
        have := h.trans _ _ _ hc' hl
        rw [h2 z (by simp)] at this
        cases this
      · exact h2 y hy
    · rw [if_neg hl]
      obtain ⟨h1, h2⟩ := ih x
      refine ⟨by simp at h1 ⊢; tauto, ?_⟩
      intro y hy
      rcases List.mem_cons.1 hy with rfl | hy
      · exact h2 y (by simp)
      · rcases List.mem_cons.1 hy with rfl | hy
        · exact h.negtrans _ _ _ (h2 x (by simp)) (by simpa using hl)
        · exact h2 y (by simp [hy])

theorem bestOf_spec (h : SWO lt) {l : List F} (hne : l ≠ []) :
    ∃ b ∈ l, bestOf lt l = some b ∧ ∀ y ∈ l, lt b y = false := by
  match l, hne with
  | x :: xs, _ =>
    obtain ⟨h1, h2⟩ := bestOf_aux h xs x
    exact ⟨_, h1, rfl, h2⟩

end Best

/-! ## Distances -/

theorem distLoop_eq {G : Type} (term : G → G → ℝ) : ∀ (v w : List G) (s : ℝ), v.length ≤ w.length →
    distLoop term v w s = some (s + ((v.zip w).map fun p => term p.1 p.2).sum) := by
  intro v
  induction v with
  | nil => intro w s _; simp [distLoop]
  | cons x xs ih =>
    intro w s h
    match w with
    | [] => simp at h
    | y :: ys =>
      rw [distLoop, ih ys _ (by simpa using h)]
      simp [add_assoc]

theorem distLoop_none {G : Type} (term : G → G → ℝ) : ∀ (v w : List G) (s : ℝ), w.length < v.length →
    distLoop term v w s = none := by
  intro v
  induction v with
  | nil => intro w s h; simp at h
  | cons x xs ih =>
    intro w s h
    match w with
    | [] => rfl
    | y :: ys => rw [distLoop]; exact ih ys _ (by simpa using h)

theorem zip_sum_nonneg {G : Type} {term : G → G → ℝ} (h : ∀ x y, 0 ≤ term x y) (v w : List G) :
    0 ≤ ((v.zip w).map fun p => term p.1 p.2).sum := by
  apply List.sum_nonneg
  intro y hy
  obtain ⟨p, _, rfl⟩ := List.mem_map.1 hy
  exact h _ _

theorem zip_sum_zero {G : Type} {term : G → G → ℝ} (h : ∀ x y, 0 ≤ term x y) (h0 : ∀ x y, term x y = 0 ↔ x = y) :
    ∀ (v w : List G), v.length = w.length → (((v.zip w).map fun p => term p.1 p.2).sum = 0 ↔ v = w) := by
  intro v
  induction v with
  | nil => intro w hl; match w with | [] => simp
  | cons x xs ih =>
    intro w hl
    match w with
    | [] => simp at hl
    | y :: ys =>
      have h1 := h x y
      have h2 := zip_sum_nonneg h xs ys
      have ih' := ih ys (by simpa using hl)
      simp only [List.zip_cons_cons, List.map_cons, List.sum_cons, List.cons.injEq]
      constructor
      · intro e
        exact ⟨(h0 x y).1 (by linarith), ih'.1 (by linarith)⟩
      · rintro ⟨e1, e2⟩
        rw [(h0 x y).2 e1, ih'.2 e2, add_zero]

theorem zip_sum_symm {G : Type} {term : G → G → ℝ} (h : ∀ x y, term x y = term y x) : ∀ (v w : List G),
    ((v.zip w).map fun p => term p.1 p.2).sum = ((w.zip v).map fun p => term p.1 p.2).sum := by
  intro v
  induction v with
  | nil => intro w; simp
  | cons x xs ih =>
    intro w
    match w with
    | [] => simp
    | y :: ys => simp only [List.zip_cons_cons, List.map_cons, List.sum_cons, ih ys, h x y]

theorem zip_sum_triangle {G : Type} {term : G → G → ℝ} (h : ∀ x y z, term x z ≤ term x y + term y z) :
    ∀ (u v w : List G), u.length = v.length → v.length = w.length →
    ((u.zip w).map fun p => term p.1 p.2).sum ≤
      ((u.zip v).map fun p => term p.1 p.2).sum + ((v.zip w).map fun p => term p.1 p.2).sum := by
  intro u
  induction u with
  | nil => intro v w h1 h2; match v, w with | [], [] => simp
  | cons x xs ih =>
    intro v w h1 h2
    match v, w with
    | y :: ys, z :: zs =>
      simp only [List.zip_cons_cons, List.map_cons, List.sum_cons]
      have := ih ys zs (by simpa using h1) (by simpa using h2)
      have := h x y z
      linarith

theorem minkowski2 {a b c d : ℝ} :
    Real.sqrt ((a + c) * (a + c) + (b + d) * (b + d)) ≤ Real.sqrt (a * a + b * b) + Real.sqrt (c * c + d * d) := by
  set p := Real.sqrt (a * a + b * b) with hp
  set q := Real.sqrt (c * c + d * d) with hq
  have hp0 : 0 ≤ p := Real.sqrt_nonneg _
  have hq0 : 0 ≤ q := Real.sqrt_nonneg _
  have hp2 : p * p = a * a + b * b :=
    Real.mul_self_sqrt (add_nonneg (mul_self_nonneg _) (mul_self_nonneg _))
  have hq2 : q * q = c * c + d * d :=
    Real.mul_self_sqrt (add_nonneg (mul_self_nonneg _) (mul_self_nonneg _))
  rw [Real.sqrt_le_left (by positivity)]
  have hpq : a * c + b * d ≤ p * q := by
    by_contra hcon
    push Not at hcon
    have h1 := mul_self_lt_mul_self (mul_nonneg hp0 hq0) hcon
    have h2 : p * q * (p * q) = (a * a + b * b) * (c * c + d * d) := by rw [← hp2, ← hq2]; ring
    rw [h2] at h1
    nlinarith [sq_nonneg (a * d - b * c)]
  nlinarith

theorem quad_triangle : ∀ (u v w : List ℝ), u.length = v.length → v.length = w.length →
    Real.sqrt (((u.zip w).map fun p => (p.1 - p.2) * (p.1 - p.2)).sum) ≤
      Real.sqrt (((u.zip v).map fun p => (p.1 - p.2) * (p.1 - p.2)).sum) +
      Real.sqrt (((v.zip w).map fun p => (p.1 - p.2) * (p.1 - p.2)).sum) := by
  intro u
  induction u with
  | nil => intro v w h1 h2; match v, w with | [], [] => simp
  | cons x xs ih =>
    intro v w h1 h2
    match v, w with
    | y :: ys, z :: zs =>
      simp only [List.zip_cons_cons, List.map_cons, List.sum_cons]
      have h := ih ys zs (by simpa using h1) (by simpa using h2)
      have n1 := zip_sum_nonneg (term := fun x y : ℝ => (x - y) * (x - y)) (fun _ _ => mul_self_nonneg _) xs ys
      have n2 := zip_sum_nonneg (term := fun x y : ℝ => (x - y) * (x - y)) (fun _ _ => mul_self_nonneg _) ys zs
      have n3 := zip_sum_nonneg (term := fun x y : ℝ => (x - y) * (x - y)) (fun _ _ => mul_self_nonneg _) xs zs
      set A := ((xs.zip ys).map fun p => (p.1 - p.2) * (p.1 - p.2)).sum with hA
      set B := ((ys.zip zs).map fun p => (p.1 - p.2) * (p.1 - p.2)).sum with hB
      set C := ((xs.zip zs).map fun p => (p.1 - p.2) * (p.1 - p.2)).sum with hC
      have hm := minkowski2 (a := x - y) (b := Real.sqrt A) (c := y - z) (d := Real.sqrt B)
      rw [Real.mul_self_sqrt n1, Real.mul_self_sqrt n2] at hm
      refine le_trans (Real.sqrt_le_sqrt ?_) hm
      have e : x - y + (y - z) = x - z := by ring
      rw [e]
      have hC' : C ≤ (Real.sqrt A + Real.sqrt B) * (Real.sqrt A + Real.sqrt B) := by
        have := mul_self_le_mul_self (Real.sqrt_nonneg C) h
        rwa [Real.mul_self_sqrt n3] at this
      linarith

end Paradiseo.Stat
