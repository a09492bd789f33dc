import Verif.Model.EdoRepair
import Mathlib.Tactic.Linarith
import Mathlib.Tactic.Ring
import Mathlib.Tactic.FieldSimp
import Mathlib.Tactic.Positivity
import Mathlib.Algebra.Order.Floor.Ring

/-! Lemmas on bounders and repairers. -/

namespace Paradiseo.Edo

theorem boundBound_get {los his x y : List ℚ} (h : boundBound los his x = some y) :
    y.length = x.length ∧ ∀ (d : Nat) (v : ℚ), x[d]? = some v →
      ∃ lo hi, los[d]? = some lo ∧ his[d]? = some hi ∧ y[d]? = some (clamp1 lo hi v) := by
  induction x generalizing los his y with
  | nil =>
    cases los <;> cases his <;> simp [boundBound] at h <;> subst h <;> simp
  | cons v vs ih =>
    cases los with
    | nil => simp [boundBound] at h
    | cons lo los =>
      cases his with
      | nil => simp [boundBound] at h
      | cons hi his =>
        simp only [boundBound] at h
        split at h
        · simp at h
        · rename_i ws hws
          simp only [Option.some.injEq] at h
          subst h
          obtain ⟨h1, h2⟩ := ih hws
          refine ⟨by simp [h1], ?_⟩
          intro d w hw
          cases d with
          | zero =>
            simp only [List.getElem?_cons_zero, Option.some.injEq] at hw
            subst hw
            exact ⟨lo, hi, rfl, rfl, rfl⟩
          | succ d => simpa using h2 d w (by simpa using hw)

theorem boundBound_defined (los his x : List ℚ) :
    (boundBound los his x).isSome = true ↔ x.length ≤ los.length ∧ x.length ≤ his.length := by
  induction x generalizing los his with
  | nil => cases los <;> cases his <;> simp [boundBound]
  | cons v vs ih =>
    cases los with
    | nil => simp [boundBound]
    | cons lo los =>
      cases his with
      | nil => simp [boundBound]
      | cons hi his =>
        simp only [boundBound, List.length_cons]
        have := ih los his
        split
        · rename_i hn
          rw [hn] at this
          simp only [Option.isSome_none, Bool.false_eq_true, false_iff] at this ⊢
          omega
        · rename_i ws hn
          rw [hn] at this
          simp only [Option.isSome_some, true_iff] at this ⊢
          omega

/-- The number of coordinates outside of the box. -/
def outside (los his x : List ℚ) : Nat :=
  match los, his, x with
  | lo :: los, hi :: his, v :: vs => (if v < lo ∨ v > hi then 1 else 0) + outside los his vs
  | _, _, _ => 0

theorem boundDraw_get {draw : ℚ → ℚ → Nat → ℚ} {t t' : Nat} {los his x y : List ℚ}
    (h : boundDraw draw t los his x = some (y, t')) :
    y.length = x.length ∧ t' = t + outside los his x ∧ ∀ (d : Nat) (v : ℚ), x[d]? = some v →
      ∃ lo hi, los[d]? = some lo ∧ his[d]? = some hi ∧
        ((lo ≤ v ∧ v ≤ hi ∧ y[d]? = some v) ∨
          ((v < lo ∨ hi < v) ∧
            y[d]? = some (draw lo hi (t + outside (los.take d) (his.take d) (x.take d))))) := by
  induction x generalizing los his y t with
  | nil =>
    cases los <;> cases his <;> simp [boundDraw] at h <;> obtain ⟨rfl, rfl⟩ := h <;> simp [outside]
  | cons v vs ih =>
    cases los with
    | nil => simp [boundDraw] at h
    | cons lo los =>
      cases his with
      | nil => simp [boundDraw] at h
      | cons hi his =>
        simp only [boundDraw] at h
        split at h
        · rename_i hout
          split at h
          · simp at h
          · rename_i ws t1 hws
            simp only [Option.some.injEq, Prod.mk.injEq] at h
            obtain ⟨rfl, rfl⟩ := h
            obtain ⟨h1, h2, h3⟩ := ih hws
            refine ⟨by simp [h1], ?_, ?_⟩
            · simp only [outside, if_pos hout]; omega
            · intro d w hw
              cases d with
              | zero =>
                simp only [List.getElem?_cons_zero, Option.some.injEq] at hw
                subst hw
                exact ⟨lo, hi, rfl, rfl, Or.inr ⟨hout, by simp [outside]⟩⟩
              | succ d =>
                obtain ⟨lo', hi', g1, g2, g3⟩ := h3 d w (by simpa using hw)
                refine ⟨lo', hi', by simpa using g1, by simpa using g2, ?_⟩
                simp only [List.take_succ_cons, outside, if_pos hout, List.getElem?_cons_succ]
                rw [← Nat.add_assoc]
                exact g3
        · rename_i hout
          split at h
          · simp at h
          · rename_i ws t1 hws
            simp only [Option.some.injEq, Prod.mk.injEq] at h
            obtain ⟨rfl, rfl⟩ := h
            obtain ⟨h1, h2, h3⟩ := ih hws
            refine ⟨by simp [h1], ?_, ?_⟩
            · simp only [outside, if_neg hout]; omega
            · intro d w hw
              cases d with
              | zero =>
                simp only [List.getElem?_cons_zero, Option.some.injEq] at hw
                subst hw
                push Not at hout
                exact ⟨lo, hi, rfl, rfl, Or.inl ⟨hout.1, hout.2, rfl⟩⟩
              | succ d =>
                obtain ⟨lo', hi', g1, g2, g3⟩ := h3 d w (by simpa using hw)
                refine ⟨lo', hi', by simpa using g1, by simpa using g2, ?_⟩
                simp only [List.take_succ_cons, outside, if_neg hout, List.getElem?_cons_succ, Nat.zero_add]
                exact g3

theorem outside_eq (los his x : List ℚ) :
    outside los his x =
      (los.zip (his.zip x)).countP fun p => decide (p.2.2 < p.1) || decide (p.2.1 < p.2.2) := by
  induction x generalizing los his with
  | nil => cases los <;> cases his <;> simp [outside]
  | cons v vs ih =>
    cases los with
    | nil => simp [outside]
    | cons lo los =>
      cases his with
      | nil => simp [outside]
      | cons hi his =>
        simp only [outside, ih, List.zip_cons_cons, List.countP_cons]
        rw [Nat.add_comm]
        by_cases h : v < lo ∨ v > hi <;> simp [h]

theorem uniformIn_mem {lo hi u : ℚ} (hle : lo ≤ hi) (h0 : 0 ≤ u) (h1 : u < 1) :
    lo ≤ uniformIn lo hi u ∧ uniformIn lo hi u ≤ hi ∧ (lo < hi → uniformIn lo hi u < hi) := by
  unfold uniformIn
  refine ⟨?_, ?_, ?_⟩
  · nlinarith
  · nlinarith
  · intro h; nlinarith

/-! ### Rounding -/

theorem floorR_le (v : ℚ) : floorR v ≤ v := Int.floor_le v

theorem lt_floorR (v : ℚ) : v < floorR v + 1 := Int.lt_floor_add_one v

theorem le_ceilR (v : ℚ) : v ≤ ceilR v := Int.le_ceil v

theorem ceilR_lt (v : ℚ) : ceilR v < v + 1 := Int.ceil_lt_add_one v

theorem ceilR_neg (v : ℚ) : ceilR (-v) = -floorR v := by
  unfold ceilR floorR
  rw [Int.ceil_neg]
  push_cast
  rfl

theorem floorR_nonneg {v : ℚ} (h : 0 ≤ v) : 0 ≤ floorR v := by
  unfold floorR
  exact_mod_cast Int.floor_nonneg.mpr h

theorem truncR_spec (v : ℚ) : |truncR v| ≤ |v| ∧ |v - truncR v| < 1 ∧ 0 ≤ v * (v - truncR v) := by
  unfold truncR
  split
  · rename_i h
    have h1 := floorR_le v
    have h2 := lt_floorR v
    have h3 := floorR_nonneg h
    rw [abs_of_nonneg h3, abs_of_nonneg h, abs_of_nonneg (by linarith : 0 ≤ v - floorR v)]
    exact ⟨h1, by linarith, mul_nonneg h (by linarith)⟩
  · rename_i h
    push Not at h
    have h1 := le_ceilR v
    have h2 := ceilR_lt v
    have h3 : ceilR v ≤ 0 := by
      unfold ceilR
      exact_mod_cast Int.ceil_le.mpr (by push_cast; linarith)
    rw [abs_of_nonpos h3, abs_of_neg h, abs_of_nonpos (by linarith : v - ceilR v ≤ 0)]
    exact ⟨by linarith, by linarith, mul_nonneg_of_nonpos_of_nonpos h.le (by linarith)⟩

/-! ### Dispatcher -/

theorem scatter_length {x y : List ℚ} {js : List Nat} {vs : List ℚ} (h : scatter x js vs = some y) :
    y.length = x.length := by
  induction js generalizing x vs with
  | nil => simp only [scatter, Option.some.injEq] at h; rw [h]
  | cons j js ih =>
    cases vs with
    | nil => simp [scatter] at h
    | cons v vs =>
      simp only [scatter] at h
      rw [ih h, List.length_set]

theorem scatter_defined (x : List ℚ) (js : List Nat) (vs : List ℚ) (h : js.length ≤ vs.length) :
    ∃ y, scatter x js vs = some y := by
  induction js generalizing x vs with
  | nil => exact ⟨x, by simp [scatter]⟩
  | cons j js ih =>
    cases vs with
    | nil => simp at h
    | cons v vs => exact ih (x.set j v) vs (by simpa using h)

theorem scatter_other {x y : List ℚ} {js : List Nat} {vs : List ℚ} (h : scatter x js vs = some y) {d : Nat}
    (hd : d ∉ js) : y[d]? = x[d]? := by
  induction js generalizing x vs with
  | nil => simp only [scatter, Option.some.injEq] at h; rw [h]
  | cons j js ih =>
    cases vs with
    | nil => simp [scatter] at h
    | cons v vs =>
      simp only [scatter] at h
      simp only [List.mem_cons, not_or] at hd
      rw [ih h hd.2, List.getElem?_set_ne (by omega)]

theorem scatter_get {x y : List ℚ} {js : List Nat} {vs : List ℚ} (h : scatter x js vs = some y)
    (hn : js.Nodup) (hr : ∀ j ∈ js, j < x.length) : gather y js = some (vs.take js.length) := by
  induction js generalizing x vs with
  | nil => simp [gather]
  | cons j js ih =>
    cases vs with
    | nil => simp [scatter] at h
    | cons v vs =>
      simp only [scatter] at h
      have hn' := List.nodup_cons.mp hn
      have h1 := ih h hn'.2 (fun k hk => by rw [List.length_set]; exact hr k (List.mem_cons_of_mem _ hk))
      have h2 : y[j]? = some v := by
        rw [scatter_other h hn'.1, List.getElem?_set_self (hr j (List.mem_cons_self ..))]
      simp [gather, h1, h2]

theorem gather_range {x vs : List ℚ} {js : List Nat} (h : gather x js = some vs) :
    vs.length = js.length ∧ ∀ j ∈ js, j < x.length := by
  induction js generalizing vs with
  | nil => simp only [gather, Option.some.injEq] at h; subst h; simp
  | cons j js ih =>
    simp only [gather] at h
    split at h
    · rename_i v ws h1 h2
      simp only [Option.some.injEq] at h
      subst h
      obtain ⟨g1, g2⟩ := ih h2
      refine ⟨by simp [g1], ?_⟩
      intro k hk
      rcases List.mem_cons.mp hk with rfl | hk
      · exact (List.getElem?_eq_some_iff.mp h1).1
      · exact g2 k hk
    · simp at h

theorem gather_congr {x y : List ℚ} {js : List Nat} (h : ∀ j ∈ js, y[j]? = x[j]?) : gather y js = gather x js := by
  induction js with
  | nil => rfl
  | cons j js ih =>
    simp only [gather]
    rw [h j (List.mem_cons_self ..), ih fun k hk => h k (List.mem_cons_of_mem _ hk)]

theorem gather_defined (x : List ℚ) (js : List Nat) :
    (∃ vs, gather x js = some vs) ↔ ∀ j ∈ js, j < x.length := by
  constructor
  · rintro ⟨vs, h⟩; exact (gather_range h).2
  · intro h
    induction js with
    | nil => exact ⟨[], rfl⟩
    | cons j js ih =>
      obtain ⟨vs, hvs⟩ := ih fun k hk => h k (List.mem_cons_of_mem _ hk)
      have := h j (List.mem_cons_self ..)
      refine ⟨x[j] :: vs, ?_⟩
      simp [gather, hvs, List.getElem?_eq_getElem this]

theorem scatter_set {x : List ℚ} {js : List Nat} {vs : List ℚ} {j : Nat} {v : ℚ} (hj : j ∉ js) :
    scatter (x.set j v) js vs = (scatter x js vs).map (·.set j v) := by
  induction js generalizing x vs with
  | nil => simp [scatter]
  | cons k js ih =>
    cases vs with
    | nil => simp [scatter]
    | cons w vs =>
      simp only [List.mem_cons, not_or] at hj
      simp only [scatter]
      rw [List.set_comm v w hj.1, ih hj.2]

theorem scatter_comm {x : List ℚ} {js ks : List Nat} {vs ws : List ℚ} (h : ∀ j ∈ js, j ∉ ks) :
    (scatter x js vs).bind (fun y => scatter y ks ws) = (scatter x ks ws).bind fun y => scatter y js vs := by
  induction js generalizing x vs with
  | nil => cases hs : scatter x ks ws <;> simp [scatter, hs]
  | cons j js ih =>
    cases vs with
    | nil => cases hs : scatter x ks ws <;> simp [scatter]
    | cons v vs =>
      simp only [scatter]
      rw [ih (fun k hk => h k (List.mem_cons_of_mem _ hk)), scatter_set (h j (List.mem_cons_self ..))]
      cases scatter x ks ws <;> simp

theorem dispatchOne_length {x y : List ℚ} {p : List Nat × Repair} (h : dispatchOne x p = some y) :
    y.length = x.length := by
  unfold dispatchOne at h
  split at h
  · simp at h
  · simp only [Option.some.injEq] at h; rw [h]
  · split at h
    · simp at h
    · exact scatter_length h

theorem dispatchOne_other {x y : List ℚ} {p : List Nat × Repair} (h : dispatchOne x p = some y) {d : Nat}
    (hd : d ∉ p.1) : y[d]? = x[d]? := by
  unfold dispatchOne at h
  split at h
  · simp at h
  · simp only [Option.some.injEq] at h; rw [h]
  · split at h
    · simp at h
    · exact scatter_other h hd

/-- One pair as gather, repair, scatter. -/
theorem dispatchOne_eq (x : List ℚ) (p : List Nat × Repair) :
    dispatchOne x p = if p.1 = [] then some x else
      (gather x p.1).bind fun vs => (p.2 vs).bind fun part => scatter x p.1 part := by
  unfold dispatchOne
  cases hp : p.1 with
  | nil => simp [gather]
  | cons j js =>
    rw [if_neg (by simp)]
    cases hg : gather x (j :: js) with
    | none => simp
    | some vs =>
      have hl := (gather_range hg).1
      cases vs with
      | nil => simp at hl
      | cons v vs =>
        simp only [Option.bind_some]
        cases p.2 (v :: vs) <;> simp

end Paradiseo.Edo
