import Verif.Model.EdoEstim
import Verif.Lemmas.EdoCholesky
import Verif.Lemmas.EdoRepair
import Mathlib.LinearAlgebra.FiniteDimensional.Lemmas
import Mathlib.LinearAlgebra.Matrix.ToLin
import Mathlib.Algebra.BigOperators.Field

/-! Lemmas on estimators and samplers. -/

namespace Paradiseo.Edo

open Finset

/-! ### Uniform -/

theorem mergeBound_get {f : ℚ → ℚ → ℚ} {ms vs ws : List ℚ} (h : mergeBound f ms vs = some ws)
    (hl : vs.length = ms.length) :
    ws.length = ms.length ∧ ∀ (d : Nat) (m v : ℚ), ms[d]? = some m → vs[d]? = some v → ws[d]? = some (f m v) := by
  induction ms generalizing vs ws with
  | nil =>
    cases vs with
    | nil => simp only [mergeBound, Option.some.injEq] at h; subst h; simp
    | cons v vs => simp at hl
  | cons m ms ih =>
    cases vs with
    | nil => simp at hl
    | cons v vs =>
      simp only [mergeBound] at h
      split at h
      · simp at h
      · rename_i us hus
        simp only [Option.some.injEq] at h
        subst h
        obtain ⟨h1, h2⟩ := ih hus (by simpa using hl)
        refine ⟨by simp [h1], ?_⟩
        intro d m' v' hm hv
        cases d with
        | zero =>
          simp only [List.getElem?_cons_zero, Option.some.injEq] at hm hv ⊢
          rw [hm, hv]
        | succ d => simpa using h2 d m' v' (by simpa using hm) (by simpa using hv)

theorem mergeBound_some (f : ℚ → ℚ → ℚ) (ms vs : List ℚ) (hl : vs.length = ms.length) :
    ∃ ws, mergeBound f ms vs = some ws := by
  induction ms generalizing vs with
  | nil =>
    cases vs with
    | nil => exact ⟨[], rfl⟩
    | cons v vs => simp at hl
  | cons m ms ih =>
    cases vs with
    | nil => simp at hl
    | cons v vs =>
      obtain ⟨ws, hws⟩ := ih vs (by simpa using hl)
      exact ⟨f m v :: ws, by simp [mergeBound, hws]⟩

/-- `lo` and `hi` are attained bounds of the variable `d` in `P`. -/
structure BoxOf (P : List (List ℚ)) (d : Nat) (lo hi : ℚ) : Prop where
  lower : ∀ x ∈ P, ∀ v, x[d]? = some v → lo ≤ v
  upper : ∀ x ∈ P, ∀ v, x[d]? = some v → v ≤ hi
  lo_mem : ∃ x ∈ P, x[d]? = some lo
  hi_mem : ∃ x ∈ P, x[d]? = some hi

theorem boxLoop_spec (n : Nat) (xs P : List (List ℚ)) (b : List ℚ × List ℚ)
    (hxs : ∀ x ∈ xs, x.length = n) (hb1 : b.1.length = n) (hb2 : b.2.length = n)
    (hP : ∀ (d : Nat) (lo hi : ℚ), b.1[d]? = some lo → b.2[d]? = some hi → BoxOf P d lo hi) :
    ∃ c, boxLoop xs b = some c ∧ c.1.length = n ∧ c.2.length = n ∧
      ∀ (d : Nat) (lo hi : ℚ), c.1[d]? = some lo → c.2[d]? = some hi → BoxOf (P ++ xs) d lo hi := by
  induction xs generalizing P b with
  | nil => exact ⟨b, rfl, hb1, hb2, by simpa using hP⟩
  | cons x xs ih =>
    have hx := hxs x (List.mem_cons_self ..)
    obtain ⟨lo, hlo⟩ := mergeBound_some lower b.1 x (by omega)
    obtain ⟨hi, hhi⟩ := mergeBound_some upper b.2 x (by omega)
    obtain ⟨l1, l2⟩ := mergeBound_get hlo (by omega)
    obtain ⟨u1, u2⟩ := mergeBound_get hhi (by omega)
    obtain ⟨c, c1, c2, c3, c4⟩ := ih (P ++ [x]) (lo, hi) (fun y hy => hxs y (List.mem_cons_of_mem _ hy))
      (by simp only; omega) (by simp only; omega) (by
        intro d l u hl hu
        simp only at hl hu
        have hd : d < n := by
          have := (List.getElem?_eq_some_iff.mp hl).1
          omega
        obtain ⟨m, hm⟩ : ∃ m, b.1[d]? = some m := ⟨b.1[d], List.getElem?_eq_getElem (by omega)⟩
        obtain ⟨M, hM⟩ : ∃ m, b.2[d]? = some m := ⟨b.2[d], List.getElem?_eq_getElem (by omega)⟩
        obtain ⟨v, hv⟩ : ∃ v, x[d]? = some v := ⟨x[d], List.getElem?_eq_getElem (by omega)⟩
        have e1 := l2 d m v hm hv
        have e2 := u2 d M v hM hv
        rw [hl] at e1
        rw [hu] at e2
        obtain rfl := Option.some.inj e1
        obtain rfl := Option.some.inj e2
        obtain ⟨p1, p2, ⟨y, hy, hyd⟩, ⟨z, hz, hzd⟩⟩ := hP d m M hm hM
        constructor
        · intro y hy w hw
          unfold lower
          rcases List.mem_append.mp hy with hy | hy
          · have := p1 y hy w hw
            split <;> linarith
          · simp only [List.mem_singleton] at hy
            subst hy
            rw [hv] at hw
            obtain rfl := Option.some.inj hw
            split <;> linarith
        · intro y hy w hw
          unfold upper
          rcases List.mem_append.mp hy with hy | hy
          · have := p2 y hy w hw
            split <;> linarith
          · simp only [List.mem_singleton] at hy
            subst hy
            rw [hv] at hw
            obtain rfl := Option.some.inj hw
            split <;> linarith
        · unfold lower
          split
          · exact ⟨x, by simp, hv⟩
          · exact ⟨y, by simp [hy], hyd⟩
        · unfold upper
          split
          · exact ⟨x, by simp, hv⟩
          · exact ⟨z, by simp [hz], hzd⟩)
    refine ⟨c, ?_, c2, c3, by simpa using c4⟩
    simp only [boxLoop, hlo, hhi]
    exact c1

theorem sampleUniform_spec (u : Nat → ℚ) (t : Nat) (los his : List ℚ) (hl : los.length ≤ his.length) :
    ∃ y, sampleUniform u t los his = some y ∧ y.length = los.length ∧
      ∀ (d : Nat) (lo hi : ℚ), los[d]? = some lo → his[d]? = some hi →
        y[d]? = some (uniformIn lo hi (u (t + d))) := by
  induction los generalizing his t with
  | nil => exact ⟨[], by simp [sampleUniform], rfl, by simp⟩
  | cons lo los ih =>
    cases his with
    | nil => simp at hl
    | cons hi his =>
      obtain ⟨y, h1, h2, h3⟩ := ih (t + 1) his (by simpa using hl)
      refine ⟨uniformIn lo hi (u t) :: y, by simp [sampleUniform, h1], by simp [h2], ?_⟩
      intro d a b ha hb
      cases d with
      | zero =>
        simp only [List.getElem?_cons_zero, Option.some.injEq] at ha hb
        subst ha; subst hb
        rfl
      | succ d =>
        have := h3 d a b (by simpa using ha) (by simpa using hb)
        rw [show t + 1 + d = t + (d + 1) by omega] at this
        simpa using this

/-! ### Binomial -/

theorem addRow_spec (n : ℚ) (ps : List ℚ) (bs : List Bool) (hl : ps.length ≤ bs.length) :
    ∃ qs, addRow n ps bs = some qs ∧ qs.length = ps.length ∧ ∀ (d : Nat) (p : ℚ) (b : Bool),
      ps[d]? = some p → bs[d]? = some b → qs[d]? = some (p + (if b then 1 else 0) / n) := by
  induction ps generalizing bs with
  | nil => exact ⟨[], by simp [addRow], rfl, by simp⟩
  | cons p ps ih =>
    cases bs with
    | nil => simp at hl
    | cons b bs =>
      obtain ⟨qs, h1, h2, h3⟩ := ih bs (by simpa using hl)
      refine ⟨(p + (if b then 1 else 0) / n) :: qs, by simp [addRow, h1], by simp [h2], ?_⟩
      intro d p' b' hp hb
      cases d with
      | zero =>
        simp only [List.getElem?_cons_zero, Option.some.injEq] at hp hb
        subst hp; subst hb
        rfl
      | succ d => simpa using h3 d p' b' (by simpa using hp) (by simpa using hb)

theorem rowsLoop_spec (n : ℚ) (m : Nat) (xs : List (List Bool)) (ps : List ℚ) (hp : ps.length = m)
    (hxs : ∀ x ∈ xs, x.length = m) :
    ∃ qs, rowsLoop n xs ps = some qs ∧ qs.length = m ∧ ∀ (d : Nat) (p : ℚ), ps[d]? = some p →
      qs[d]? = some (p + (xs.countP fun x => x[d]? == some true : ℕ) / n) := by
  induction xs generalizing ps with
  | nil => exact ⟨ps, rfl, hp, fun d p h => by simpa using h⟩
  | cons x xs ih =>
    have hx := hxs x (List.mem_cons_self ..)
    obtain ⟨rs, h1, h2, h3⟩ := addRow_spec n ps x (by omega)
    obtain ⟨qs, g1, g2, g3⟩ := ih rs (by omega) fun y hy => hxs y (List.mem_cons_of_mem _ hy)
    refine ⟨qs, by simp [rowsLoop, h1, g1], g2, ?_⟩
    intro d p hd
    have hdm : d < m := by
      have := (List.getElem?_eq_some_iff.mp hd).1
      omega
    obtain ⟨b, hb⟩ : ∃ b, x[d]? = some b := ⟨x[d], List.getElem?_eq_getElem (by omega)⟩
    rw [g3 d _ (h3 d p b hd hb), List.countP_cons]
    congr 1
    cases b <;> simp [hb] <;> ring

theorem sampleBinomial_get (u : Nat → ℚ) (t : Nat) (ps : List ℚ) :
    (sampleBinomial u t ps).length = ps.length ∧ ∀ (d : Nat) (p : ℚ), ps[d]? = some p →
      (sampleBinomial u t ps)[d]? = some (decide (u (t + d) < p)) := by
  induction ps generalizing t with
  | nil => simp [sampleBinomial]
  | cons p ps ih =>
    obtain ⟨h1, h2⟩ := ih (t + 1)
    refine ⟨by simp [sampleBinomial, h1], ?_⟩
    intro d q hd
    cases d with
    | zero =>
      simp only [List.getElem?_cons_zero, Option.some.injEq] at hd
      subst hd
      simp [sampleBinomial]
    | succ d =>
      have := h2 d q (by simpa using hd)
      rw [show t + 1 + d = t + (d + 1) by omega] at this
      simpa [sampleBinomial] using this

/-! ### Variance -/

/-- The invariant of the recurrence. -/
structure VarInv (v : Var) (xs : List ℚ) : Prop where
  n : v.n = xs.length
  mean : v.n * v.mean = xs.sum
  m2 : v.m2 = (xs.map fun x => x ^ 2).sum - v.n * v.mean ^ 2

theorem varInv_init : VarInv Var.init [] := ⟨by simp [Var.init], by simp [Var.init], by simp [Var.init]⟩

theorem varInv_update {v : Var} {xs : List ℚ} (h : VarInv v xs) (x : ℚ) : VarInv (v.update x) (xs ++ [x]) := by
  obtain ⟨h1, h2, h3⟩ := h
  have hn : 0 ≤ v.n := by rw [h1]; positivity
  have hn1 : v.n + 1 ≠ 0 := by linarith
  constructor
  · simp [Var.update, h1]
  · simp only [Var.update, List.sum_append, List.sum_cons, List.sum_nil, add_zero, ← h2]
    field_simp
    ring
  · simp only [Var.update, List.map_append, List.sum_append, List.map_cons, List.map_nil, List.sum_cons,
      List.sum_nil, add_zero, h3]
    field_simp
    ring

theorem sum_sq_dev (xs : List ℚ) (m : ℚ) :
    (xs.map fun x => (x - m) ^ 2).sum = (xs.map fun x => x ^ 2).sum - 2 * m * xs.sum + xs.length * m ^ 2 := by
  induction xs with
  | nil => simp
  | cons x xs ih =>
    simp only [List.map_cons, List.sum_cons, ih, List.length_cons]
    push_cast
    ring

theorem VarInv.spec {v : Var} {xs : List ℚ} (h : VarInv v xs) (hne : xs ≠ []) :
    v.mean = xs.sum / xs.length ∧ v.m2 = (xs.map fun x => (x - xs.sum / xs.length) ^ 2).sum := by
  have hpos : (0 : ℚ) < xs.length := by
    have : 0 < xs.length := List.length_pos_iff.mpr hne
    exact_mod_cast this
  have hm : v.mean = xs.sum / xs.length := by
    rw [eq_div_iff hpos.ne', ← h.n, mul_comm]
    exact h.mean
  refine ⟨hm, ?_⟩
  rw [sum_sq_dev, ← hm, h.m2, ← h.n, ← h.mean]
  ring

theorem varRow_spec (vs : List Var) (xs : List ℚ) (hl : vs.length ≤ xs.length) :
    ∃ ws, varRow vs xs = some ws ∧ ws.length = vs.length ∧ ∀ (d : Nat) (v : Var) (x : ℚ),
      vs[d]? = some v → xs[d]? = some x → ws[d]? = some (v.update x) := by
  induction vs generalizing xs with
  | nil => exact ⟨[], by simp [varRow], rfl, by simp⟩
  | cons v vs ih =>
    cases xs with
    | nil => simp at hl
    | cons x xs =>
      obtain ⟨ws, h1, h2, h3⟩ := ih xs (by simpa using hl)
      refine ⟨v.update x :: ws, by simp [varRow, h1], by simp [h2], ?_⟩
      intro d v' x' hv hx
      cases d with
      | zero =>
        simp only [List.getElem?_cons_zero, Option.some.injEq] at hv hx
        subst hv; subst hx
        rfl
      | succ d => simpa using h3 d v' x' (by simpa using hv) (by simpa using hx)

/-- The values of the variable `d`. -/
def column (d : Nat) (xs : List (List ℚ)) : List ℚ := xs.filterMap (·[d]?)

theorem varLoop_spec (m : Nat) (xs ys : List (List ℚ)) (vs : List Var) (hv : vs.length = m)
    (hxs : ∀ x ∈ xs, x.length = m)
    (hI : ∀ (d : Nat) (v : Var), vs[d]? = some v → VarInv v (column d ys)) :
    ∃ ws, varLoop xs vs = some ws ∧ ws.length = m ∧ ∀ (d : Nat) (v : Var), ws[d]? = some v →
      VarInv v (column d (ys ++ xs)) := by
  induction xs generalizing vs ys with
  | nil => exact ⟨vs, rfl, hv, by simpa using hI⟩
  | cons x xs ih =>
    have hx := hxs x (List.mem_cons_self ..)
    obtain ⟨rs, h1, h2, h3⟩ := varRow_spec vs x (by omega)
    obtain ⟨qs, g1, g2, g3⟩ := ih (ys ++ [x]) rs (by omega) (fun y hy => hxs y (List.mem_cons_of_mem _ hy)) (by
      intro d v hd
      have hdm : d < m := by
        have := (List.getElem?_eq_some_iff.mp hd).1
        omega
      obtain ⟨w, hw⟩ : ∃ w, vs[d]? = some w := ⟨vs[d], List.getElem?_eq_getElem (by omega)⟩
      obtain ⟨a, ha⟩ : ∃ a, x[d]? = some a := ⟨x[d], List.getElem?_eq_getElem (by omega)⟩
      have e := h3 d w a hw ha
      rw [hd] at e
      obtain rfl := Option.some.inj e
      have : column d (ys ++ [x]) = column d ys ++ [a] := by
        simp [column, List.filterMap_append, ha]
      rw [this]
      exact varInv_update (hI d w hw) a)
    refine ⟨qs, by simp [varLoop, h1, g1], g2, by simpa using g3⟩

/-! ### Covariance matrix -/

theorem covMatrix_sym (n : Nat) (s : Nat → Nat → ℝ) (i j : Nat) : covMatrix n s i j = covMatrix n s j i := by
  unfold covMatrix
  congr 1
  exact sum_congr rfl fun p _ => mul_comm _ _

theorem covMatrix_prod {n : Nat} (hn : 0 < n) (s : Nat → Nat → ℝ) (a b : Nat) :
    covMatrix n s a b = ∑ k ∈ range n, (s k a / Real.sqrt n) * (s k b / Real.sqrt n) := by
  have h : Real.sqrt n * Real.sqrt n = n := Real.mul_self_sqrt (by positivity)
  have hpos : (0 : ℝ) < n := by exact_mod_cast hn
  have hs : Real.sqrt n ≠ 0 := (Real.sqrt_pos.mpr hpos).ne'
  unfold covMatrix
  rw [sum_div]
  apply sum_congr rfl
  intro k _
  rw [div_mul_div_comm, h]

/-- With fewer individuals than variables some vector is orthogonal to all of them. -/
theorem exists_orth (n m : Nat) (h : n < m) (s : Nat → Nat → ℝ) :
    ∃ x : Nat → ℝ, (∃ i, i < m ∧ x i ≠ 0) ∧ ∀ p, p < n → ∑ a ∈ range m, x a * s p a = 0 := by
  let A : Matrix (Fin n) (Fin m) ℝ := fun p a => s p a
  have hk : LinearMap.ker A.mulVecLin ≠ ⊥ := by
    apply LinearMap.ker_ne_bot_of_finrank_lt
    simpa using h
  obtain ⟨x, hx, hne⟩ := Submodule.exists_mem_ne_zero_of_ne_bot hk
  refine ⟨fun a => if h : a < m then x ⟨a, h⟩ else 0, ?_, ?_⟩
  · obtain ⟨i, hi⟩ := Function.ne_iff.mp hne
    exact ⟨i, i.2, by simpa using hi⟩
  · intro p hp
    rw [LinearMap.mem_ker] at hx
    have := congrFun hx ⟨p, hp⟩
    simp only [Matrix.mulVecLin_apply, Matrix.mulVec, dotProduct, Pi.zero_apply] at this
    rw [← Fin.sum_univ_eq_sum_range (fun a => (if h : a < m then x ⟨a, h⟩ else 0) * s p a) m]
    rw [← this]
    apply sum_congr rfl
    intro a _
    simp [A, mul_comm]

end Paradiseo.Edo
