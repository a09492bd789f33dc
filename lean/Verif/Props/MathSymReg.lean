import Verif.Model.MathSymReg
import Mathlib.Tactic.Ring
import Mathlib.Tactic.FieldSimp
import Mathlib.Tactic.Linarith
import Mathlib.Tactic.NormNum

/-!
# C254, C255, C256: running statistics, scalings and errors of regression

Specifications: the textbook sums over the data.
-/

namespace Paradiseo.MathSym

/-- The average over the data. -/
noncomputable def avg {α : Type} (f : α → ℝ) (D : List α) : ℝ := sumOf f D / D.length

/-- Sum of products of deviations. -/
noncomputable def codev {α : Type} (f g : α → ℝ) (D : List α) : ℝ :=
  sumOf (fun p => (f p - avg f D) * (g p - avg g D)) D

/-- The sample covariance. -/
noncomputable def sampleCov {α : Type} (f g : α → ℝ) (D : List α) : ℝ := codev f g D / ((D.length : ℝ) - 1)

/-- Sum of squared errors of intercept `a` and slope `b`. -/
noncomputable def sse (D : List (ℝ × ℝ)) (a b : ℝ) : ℝ := sumOf (fun p => (p.2 - (a + b * p.1)) ^ 2) D

section
variable {α : Type}

@[simp] theorem sumOf_nil (f : α → ℝ) : sumOf f [] = 0 := rfl
@[simp] theorem sumOf_cons (f : α → ℝ) (a : α) (l : List α) : sumOf f (a :: l) = f a + sumOf f l := by simp [sumOf]
@[simp] theorem sumOf_append (f : α → ℝ) (l m : List α) : sumOf f (l ++ m) = sumOf f l + sumOf f m := by simp [sumOf]
theorem sumOf_map {β : Type} (f : β → ℝ) (g : α → β) (l : List α) : sumOf f (l.map g) = sumOf (fun a => f (g a)) l := by
  simp [sumOf, Function.comp_def]

theorem sumOf_congr {f g : α → ℝ} {l : List α} (h : ∀ a ∈ l, f a = g a) : sumOf f l = sumOf g l := by
  rw [sumOf, sumOf, List.map_congr_left h]

theorem sumOf_nonneg {f : α → ℝ} {l : List α} (h : ∀ a ∈ l, 0 ≤ f a) : 0 ≤ sumOf f l := by
  induction l with
  | nil => simp
  | cons a l ih =>
    rw [sumOf_cons]
    exact add_nonneg (h a (by simp)) (ih fun b hb => h b (by simp [hb]))

/-- Deviations in terms of plain sums. -/
theorem codev_eq (f g : α → ℝ) (D : List α) :
    codev f g D = sumOf (fun p => f p * g p) D - sumOf f D * sumOf g D / D.length := by
  have h : ∀ (u w : ℝ) (D : List α), sumOf (fun p => (f p - u) * (g p - w)) D =
      sumOf (fun p => f p * g p) D - w * sumOf f D - u * sumOf g D + u * w * D.length := by
    intro u w D
    induction D with
    | nil => simp
    | cons p D ih => simp only [sumOf_cons, ih, List.length_cons]; push_cast; ring
  rw [codev, h, avg, avg]
  by_cases hD : (D.length : ℝ) = 0
  · simp [hD]
  · field_simp; ring

end

/-! ### Running statistics -/

theorem cov_run (D : List (ℝ × ℝ)) :
    (D.foldl CovS.update CovS.init) = ⟨D.length, avg Prod.fst D, avg Prod.snd D, codev Prod.fst Prod.snd D⟩ := by
  induction D using List.reverseRecOn with
  | nil => simp [CovS.init, avg, codev]
  | append_singleton D p ih =>
    rw [List.foldl_append, ih]
    simp only [List.foldl_cons, List.foldl_nil, CovS.update, codev_eq, avg, sumOf_append, sumOf_cons, sumOf_nil,
      List.length_append, List.length_cons, List.length_nil]
    push_cast
    have h1 : (D.length : ℝ) + 1 ≠ 0 := by positivity
    by_cases hD : (D.length : ℝ) = 0
    · have : D = [] := List.length_eq_zero_iff.1 (by exact_mod_cast hD)
      subst this
      simp
    · simp only [zero_add, add_zero]
      congr 1
      · field_simp; ring
      · field_simp; ring
      · field_simp; ring

theorem var_run (D : List ℝ) : (D.foldl VarS.update VarS.init) = ⟨D.length, avg id D, codev id id D⟩ := by
  have key : ∀ (D : List ℝ) (s : VarS) (c : CovS), s.n = c.n → s.mean = c.meana → s.mean = c.meanb → s.sumvar = c.sumcov →
      (D.foldl VarS.update s) = (fun c' : CovS => ⟨c'.n, c'.meana, c'.sumcov⟩) ((D.map fun v => (v, v)).foldl CovS.update c) := by
    intro D
    induction D with
    | nil =>
      intro s c h1 h2 h3 h4
      obtain ⟨n, m, sv⟩ := s
      simp only at h1 h2 h4
      subst h1; subst h2; subst h4
      rfl
    | cons v D ih =>
      intro s c h1 h2 h3 h4
      simp only [List.foldl_cons, List.map_cons]
      apply ih
      · simp [VarS.update, CovS.update, h1]
      · simp [VarS.update, CovS.update, h1, h2]
      · simp [VarS.update, CovS.update, h1, ← h3]
      · simp only [VarS.update, CovS.update, h1, h4, ← h2, ← h3]
  rw [key D VarS.init CovS.init rfl rfl rfl rfl, cov_run]
  have h1 : ∀ f : ℝ × ℝ → ℝ, sumOf f (D.map fun v => (v, v)) = sumOf (fun v => f (v, v)) D := fun f => sumOf_map _ _ _
  simp only [List.length_map, avg, codev_eq, h1]
  rfl

/-- The running mean is the mean. -/
theorem C254_mean {D : List ℝ} : (D.foldl MeanS.update MeanS.init).mean = avg id D := by
  have key : ∀ (D : List ℝ) (s : MeanS) (v : VarS), s.n = v.n → s.mean = v.mean →
      (D.foldl MeanS.update s).mean = (D.foldl VarS.update v).mean := by
    intro D
    induction D with
    | nil => intro s v _ h; exact h
    | cons a D ih =>
      intro s v h1 h2
      apply ih
      · simp [MeanS.update, VarS.update, h1]
      · simp [MeanS.update, VarS.update, h1, h2]
  rw [key D MeanS.init VarS.init rfl rfl, var_run]

/-- The running variance is the sample variance, the running covariance the sample covariance. -/
theorem C254_variance (D : List ℝ) : (D.foldl VarS.update VarS.init).mean = avg id D ∧
    (D.foldl VarS.update VarS.init).var = sampleCov id id D := by
  rw [var_run]
  exact ⟨rfl, rfl⟩

theorem C254_covariance (D : List (ℝ × ℝ)) : (D.foldl CovS.update CovS.init).meana = avg Prod.fst D ∧
    (D.foldl CovS.update CovS.init).meanb = avg Prod.snd D ∧
    (D.foldl CovS.update CovS.init).cov = sampleCov Prod.fst Prod.snd D := by
  rw [cov_run]
  exact ⟨rfl, rfl, rfl⟩

/-! ### The matrix -/

theorem covRow_eq (n d : ℝ) (v mean : Nat → ℝ) (i : Nat) : ∀ (cnt j : Nat) (m : Nat → Nat → ℝ) (p q : Nat),
    covRow n d v mean i cnt j m p q = m p q +
      (if p = i ∧ j ≤ q ∧ q < j + cnt then (n - 1) / n * d * (v q - mean q) else 0) +
      (if q = i ∧ j ≤ p ∧ p < j + cnt then (n - 1) / n * d * (v p - mean p) else 0)
  | 0, j, m, p, q => by
    rw [covRow, if_neg (by omega), if_neg (by omega)]; ring
  | cnt + 1, j, m, p, q => by
    rw [covRow]
    rw [covRow_eq n d v mean i cnt (j + 1)]
    simp only [addAt]
    have split1 : (if p = i ∧ j ≤ q ∧ q < j + (cnt + 1) then (n - 1) / n * d * (v q - mean q) else 0) =
        (if p = i ∧ q = j then (n - 1) / n * d * (v j - mean j) else 0) +
        (if p = i ∧ j + 1 ≤ q ∧ q < j + 1 + cnt then (n - 1) / n * d * (v q - mean q) else 0) := by
      by_cases hp : p = i
      · by_cases hq : q = j
        · subst hq
          rw [if_pos ⟨hp, by omega, by omega⟩, if_pos ⟨hp, rfl⟩, if_neg (by omega)]; ring
        · by_cases h : j ≤ q ∧ q < j + (cnt + 1)
          · rw [if_pos ⟨hp, h⟩, if_neg (by tauto), if_pos ⟨hp, by omega, by omega⟩]; ring
          · rw [if_neg (by tauto), if_neg (by tauto), if_neg (by omega)]; ring
      · rw [if_neg (by tauto), if_neg (by tauto), if_neg (by tauto)]; ring
    have split2 : (if q = i ∧ j ≤ p ∧ p < j + (cnt + 1) then (n - 1) / n * d * (v p - mean p) else 0) =
        (if q = i ∧ p = j then (n - 1) / n * d * (v j - mean j) else 0) +
        (if q = i ∧ j + 1 ≤ p ∧ p < j + 1 + cnt then (n - 1) / n * d * (v p - mean p) else 0) := by
      by_cases hp : q = i
      · by_cases hq : p = j
        · subst hq
          rw [if_pos ⟨hp, by omega, by omega⟩, if_pos ⟨hp, rfl⟩, if_neg (by omega)]; ring
        · by_cases h : j ≤ p ∧ p < j + (cnt + 1)
          · rw [if_pos ⟨hp, h⟩, if_neg (by tauto), if_pos ⟨hp, by omega, by omega⟩]; ring
          · rw [if_neg (by tauto), if_neg (by tauto), if_neg (by omega)]; ring
      · rw [if_neg (by tauto), if_neg (by tauto), if_neg (by tauto)]; ring
    rw [split1, split2]
    generalize (if p = i ∧ j + 1 ≤ q ∧ q < j + 1 + cnt then (n - 1) / n * d * (v q - mean q) else 0) = A
    generalize (if q = i ∧ j + 1 ≤ p ∧ p < j + 1 + cnt then (n - 1) / n * d * (v p - mean p) else 0) = B
    generalize (n - 1) / n * d * (v j - mean j) = u
    by_cases h1 : p = i ∧ q = j <;> by_cases h2 : q = i ∧ p = j
    · have h3 : p = j ∧ q = i := ⟨h2.2, h2.1⟩
      rw [if_pos h3, if_pos h1, if_pos h1, if_pos h2]; ring
    · have h3 : ¬ (p = j ∧ q = i) := fun h => h2 ⟨h.2, h.1⟩
      rw [if_neg h3, if_pos h1, if_pos h1, if_neg h2]; ring
    · have h3 : p = j ∧ q = i := ⟨h2.2, h2.1⟩
      rw [if_pos h3, if_neg h1, if_neg h1, if_pos h2]; ring
    · have h3 : ¬ (p = j ∧ q = i) := fun h => h2 ⟨h.2, h.1⟩
      rw [if_neg h3, if_neg h1, if_neg h1, if_neg h2]; ring

/-- What one update does to the means. -/
theorem covRows_mean (n : ℝ) (v : Nat → ℝ) : ∀ (cnt i : Nat) (mean : Nat → ℝ) (m : Nat → Nat → ℝ) (p : Nat),
    (covRows n v cnt i mean m).1 p = if i ≤ p ∧ p < i + cnt then mean p + 1 / n * (v p - mean p) else mean p
  | 0, i, mean, m, p => by rw [covRows, if_neg (by omega)]
  | cnt + 1, i, mean, m, p => by
    rw [covRows]
    rw [covRows_mean n v cnt (i + 1)]
    by_cases hp : p = i
    · subst hp
      rw [if_neg (by omega), if_pos rfl, if_pos (by omega)]
    · rw [if_neg hp]
      by_cases h : i ≤ p ∧ p < i + (cnt + 1)
      · rw [if_pos (by omega), if_pos h]
      · rw [if_neg (by omega), if_neg h]

/-- Off the diagonal one update does the right thing; on it, it adds too much. -/
theorem covRows_sum (n : ℝ) (v : Nat → ℝ) : ∀ (cnt i : Nat) (mean : Nat → ℝ) (m : Nat → Nat → ℝ) (p q : Nat),
    (i ≤ p → i ≤ q → p < i + cnt → q < i + cnt → p ≠ q →
      (covRows n v cnt i mean m).2 p q = m p q + (n - 1) / n * (v p - mean p) * (v q - mean q)) ∧
    (i ≤ p → p < i + cnt → (covRows n v cnt i mean m).2 p p = m p p + (n - 1) / n * (v p - mean p) * (v p - mean p) +
      2 * ((n - 1) / n * (v p - mean p) * (v p - (mean p + 1 / n * (v p - mean p))))) ∧
    (p < i ∨ q < i → (covRows n v cnt i mean m).2 p q = m p q)
  | 0, i, mean, m, p, q => ⟨fun _ _ _ _ _ => by omega, fun _ _ => by omega, fun _ => by rw [covRows]⟩
  | cnt + 1, i, mean, m, p, q => by
    rw [covRows]
    obtain ⟨ih1, ih2, ih3⟩ := covRows_sum n v cnt (i + 1)
      (fun p => if p = i then mean i + 1 / n * (v i - mean i) else mean p)
      (covRow n (v i - mean i) v (fun p => if p = i then mean i + 1 / n * (v i - mean i) else mean p) i (cnt + 1) i
        (addAt m i i ((n - 1) / n * (v i - mean i) * (v i - mean i)))) p q
    obtain ⟨-, -, ih3'⟩ := covRows_sum n v cnt (i + 1)
      (fun p => if p = i then mean i + 1 / n * (v i - mean i) else mean p)
      (covRow n (v i - mean i) v (fun p => if p = i then mean i + 1 / n * (v i - mean i) else mean p) i (cnt + 1) i
        (addAt m i i ((n - 1) / n * (v i - mean i) * (v i - mean i)))) p p
    refine ⟨fun hp hq hp' hq' hpq => ?_, fun hp hp' => ?_, fun h => ?_⟩
    · by_cases h1 : p = i
      · subst h1
        rw [ih3 (Or.inl (by omega)), covRow_eq, if_pos ⟨rfl, by omega, by omega⟩,
          if_neg (show ¬ (q = p ∧ p ≤ p ∧ p < p + (cnt + 1)) by omega), if_neg (Ne.symm hpq), addAt, if_neg (by omega)]
        ring
      · by_cases h2 : q = i
        · subst h2
          rw [ih3 (Or.inr (by omega)), covRow_eq, if_neg (show ¬ (p = q ∧ q ≤ q ∧ q < q + (cnt + 1)) by omega),
            if_pos ⟨rfl, by omega, by omega⟩, if_neg h1, addAt, if_neg (by omega)]
          ring
        · rw [ih1 (by omega) (by omega) (by omega) (by omega) hpq, covRow_eq, if_neg (by omega), if_neg (by omega),
            if_neg h1, if_neg h2]
          simp only [addAt]
          rw [if_neg (by omega)]
          ring
    · by_cases h1 : p = i
      · subst h1
        rw [ih3' (Or.inl (by omega)), covRow_eq, if_pos ⟨rfl, by omega, by omega⟩]
        simp only [addAt]
        rw [if_pos ⟨trivial, trivial⟩, if_pos trivial]
        ring
      · rw [ih2 (by omega) (by omega), covRow_eq, if_neg (by omega), if_neg h1]
        simp only [addAt]
        rw [if_neg (by omega)]
        ring
    · rw [ih3 (by omega), covRow_eq, if_neg (by omega), if_neg (by omega)]
      simp only [addAt]
      rw [if_neg (by omega)]
      ring

/-- The state of the matrix as far as two different coordinates are concerned is that of `Cov` on them. -/
theorem covM_run (dim : Nat) {i j : Nat} (hi : i < dim) (hj : j < dim) (hij : i ≠ j) (D : List (Nat → ℝ)) :
    let s := D.foldl (CovM.update dim) CovM.init
    (⟨s.n, s.mean i, s.mean j, s.sum i j⟩ : CovS) = (D.map fun v => (v i, v j)).foldl CovS.update CovS.init := by
  induction D using List.reverseRecOn with
  | nil => rfl
  | append_singleton D v ih =>
    dsimp only at ih ⊢
    rw [List.map_append, List.foldl_append, List.foldl_append, ← ih]
    simp only [List.foldl_cons, List.foldl_nil, List.map_cons, List.map_nil, CovM.update, CovS.update]
    rw [covRows_mean, covRows_mean, if_pos (by omega), if_pos (by omega),
      (covRows_sum _ v dim 0 _ _ i j).1 (by omega) (by omega) (by omega) (by omega) hij]

/-- Two different coordinates: the matrix holds the sample covariance. -/
theorem C254_matrix (dim : Nat) {i j : Nat} (hi : i < dim) (hj : j < dim) (hij : i ≠ j) (D : List (Nat → ℝ)) :
    (D.foldl (CovM.update dim) CovM.init).mean i = avg (fun v => v i) D ∧
    (D.foldl (CovM.update dim) CovM.init).cov i j = sampleCov (fun v => v i) (fun v => v j) D := by
  have h := covM_run dim hi hj hij D
  dsimp only at h
  rw [cov_run] at h
  simp only [CovS.mk.injEq, List.length_map, codev_eq, avg, sumOf_map] at h
  obtain ⟨h1, h2, -, h4⟩ := h
  refine ⟨h2, ?_⟩
  rw [CovM.cov, h4, h1, sampleCov, codev_eq]

/-- One coordinate: the matrix holds at least twice and at most three times the sample variance. -/
theorem C254_matrix_diagonal (dim : Nat) {i : Nat} (hi : i < dim) (D : List (Nat → ℝ)) (hD : 2 ≤ D.length) :
    2 * sampleCov (fun v => v i) (fun v => v i) D ≤ (D.foldl (CovM.update dim) CovM.init).cov i i ∧
    (D.foldl (CovM.update dim) CovM.init).cov i i ≤ 3 * sampleCov (fun v => v i) (fun v => v i) D := by
  have key : ∀ D : List (Nat → ℝ),
      let s := D.foldl (CovM.update dim) CovM.init
      let r := (D.map fun v => v i).foldl VarS.update VarS.init
      s.n = r.n ∧ s.mean i = r.mean ∧ 2 * r.sumvar ≤ s.sum i i ∧ s.sum i i ≤ 3 * r.sumvar ∧ r.n = D.length := by
    intro D
    induction D using List.reverseRecOn with
    | nil => simp [CovM.init, VarS.init]
    | append_singleton D v ih =>
      dsimp only at ih ⊢
      rw [List.map_append, List.foldl_append, List.foldl_append]
      generalize D.foldl (CovM.update dim) CovM.init = s at ih
      generalize (D.map fun v => v i).foldl VarS.update VarS.init = r at ih
      obtain ⟨h1, h2, h3, h4, h5⟩ := ih
      simp only [List.foldl_cons, List.foldl_nil, List.map_cons, List.map_nil, CovM.update, VarS.update]
      rw [covRows_mean, if_pos (by omega), (covRows_sum _ v dim 0 _ _ i i).2.1 (by omega) (by omega), h1, h2]
      have hn : (0 : ℝ) ≤ r.n := by rw [h5]; positivity
      have hn1 : r.n + 1 ≠ 0 := by positivity
      have e1 : (r.n + 1 - 1) / (r.n + 1) = r.n / (r.n + 1) := by congr 1; ring
      have e2 : v i - (r.mean + 1 / (r.n + 1) * (v i - r.mean)) = r.n / (r.n + 1) * (v i - r.mean) := by
        field_simp; ring
      rw [e1, e2]
      set d := v i - r.mean
      have hk : (0 : ℝ) ≤ r.n / (r.n + 1) := by positivity
      have hk1 : r.n / (r.n + 1) ≤ 1 := by rw [div_le_one (by positivity)]; linarith
      have hkk : r.n / (r.n + 1) ≤ 2 * (r.n / (r.n + 1)) * (r.n / (r.n + 1)) := by
        rcases Nat.eq_zero_or_pos D.length with h0 | h0
        · have : r.n = 0 := by rw [h5, h0]; norm_num
          rw [this]; norm_num
        · have : (1 : ℝ) ≤ r.n := by rw [h5]; exact_mod_cast h0
          have : (1 : ℝ) / 2 ≤ r.n / (r.n + 1) := by rw [div_le_div_iff₀ (by norm_num) (by positivity)]; linarith
          nlinarith
      have hd : (0 : ℝ) ≤ d * d := mul_self_nonneg d
      set k := r.n / (r.n + 1)
      refine ⟨rfl, rfl, ?_, ?_, by rw [h5]; simp⟩
      · have := mul_le_mul_of_nonneg_right hkk hd
        nlinarith
      · have : k * (k * (d * d)) ≤ k * (d * d) := by
          have := mul_le_mul_of_nonneg_right hk1 (mul_nonneg hk hd)
          linarith
        nlinarith
  obtain ⟨h1, -, h3, h4, h5⟩ := key D
  rw [var_run] at h1 h3 h4
  simp only [codev_eq, sumOf_map, List.length_map, id] at h3 h4 h1
  have hpos : (0 : ℝ) < (D.length : ℝ) - 1 := by
    have : (2 : ℝ) ≤ D.length := by exact_mod_cast hD
    linarith
  rw [CovM.cov, h1, sampleCov, codev_eq]
  constructor
  · rw [mul_div_assoc', div_le_div_iff_of_pos_right hpos]; exact h3
  · rw [mul_div_assoc', div_le_div_iff_of_pos_right hpos]; exact h4

/-- It is wrong as soon as two values differ. -/
theorem C254_matrix_diagonal_wrong : ∃ D : List (Nat → ℝ),
    sampleCov (fun v => v 0) (fun v => v 0) D = 2 ∧ (D.foldl (CovM.update 1) CovM.init).cov 0 0 = 4 := by
  refine ⟨[fun _ => 0, fun _ => 2], ?_, ?_⟩
  · rw [sampleCov, codev_eq]; simp; norm_num
  · simp [CovM.update, CovM.init, CovM.cov, covRows, covRow, addAt]; norm_num

/-! ### Scalings -/

/-- Weighted sum of squared errors. -/
noncomputable def wsse (D : List (ℝ × ℝ × ℝ)) (a b : ℝ) : ℝ := sumOf (fun p => p.1 * (p.2.2 - (a + b * p.2.1)) ^ 2) D

theorem wsse_eq (D : List (ℝ × ℝ × ℝ)) (a b : ℝ) : wsse D a b =
    sumOf (fun p => p.1 * p.2.2 ^ 2) D - 2 * a * sumOf (fun p => p.1 * p.2.2) D
      - 2 * b * sumOf (fun p => p.1 * p.2.1 * p.2.2) D + a ^ 2 * sumOf (fun p => p.1) D
      + 2 * a * b * sumOf (fun p => p.1 * p.2.1) D + b ^ 2 * sumOf (fun p => p.2.1 * (p.1 * p.2.1)) D := by
  rw [wsse]
  induction D with
  | nil => simp
  | cons p D ih => simp only [sumOf_cons, ih]; ring

theorem square_nonneg (D : List (ℝ × ℝ × ℝ)) (hw : ∀ p ∈ D, 0 ≤ p.1) (u v : ℝ) :
    0 ≤ u ^ 2 * sumOf (fun p => p.1) D + 2 * u * v * sumOf (fun p => p.1 * p.2.1) D
      + v ^ 2 * sumOf (fun p => p.2.1 * (p.1 * p.2.1)) D := by
  have h : sumOf (fun p => p.1 * (u + v * p.2.1) ^ 2) D = u ^ 2 * sumOf (fun p => p.1) D
      + 2 * u * v * sumOf (fun p => p.1 * p.2.1) D + v ^ 2 * sumOf (fun p => p.2.1 * (p.1 * p.2.1)) D := by
    clear hw
    induction D with
    | nil => simp
    | cons p D ih => simp only [sumOf_cons, ih]; ring
  rw [← h]
  exact sumOf_nonneg fun p hp => mul_nonneg (hw p hp) (sq_nonneg _)

/-- Intercept and slope that solve the normal equations are best. -/
theorem normal_best (D : List (ℝ × ℝ × ℝ)) (hw : ∀ p ∈ D, 0 ≤ p.1) {mu a b : ℝ} (hmu : 0 ≤ mu)
    (h0 : a * sumOf (fun p => p.1) D + b * sumOf (fun p => p.1 * p.2.1) D + mu * a = sumOf (fun p => p.1 * p.2.2) D)
    (h1 : a * sumOf (fun p => p.1 * p.2.1) D + b * sumOf (fun p => p.2.1 * (p.1 * p.2.1)) D + mu * b =
      sumOf (fun p => p.1 * p.2.1 * p.2.2) D) (a' b' : ℝ) :
    wsse D a b + mu * (a ^ 2 + b ^ 2) ≤ wsse D a' b' + mu * (a' ^ 2 + b' ^ 2) := by
  have hsq := square_nonneg D hw (a' - a) (b' - b)
  rw [wsse_eq, wsse_eq, ← h0, ← h1]
  have h2 : 0 ≤ mu * ((a' - a) ^ 2 + (b' - b) ^ 2) := mul_nonneg hmu (by positivity)
  nlinarith

theorem sse_eq (D : List (ℝ × ℝ)) (a b : ℝ) : sse D a b = wsse (D.map fun p => (1, p)) a b := by
  rw [sse, wsse, sumOf_map]
  exact sumOf_congr fun p _ => by ring

theorem ones_nonneg (D : List (ℝ × ℝ)) : ∀ p ∈ D.map (fun p => ((1 : ℝ), p)), 0 ≤ p.1 := by
  intro p hp
  obtain ⟨q, -, rfl⟩ := List.mem_map.1 hp
  exact zero_le_one

theorem sumOf_const (c : ℝ) {α : Type} (D : List α) : sumOf (fun _ => c) D = c * D.length := by
  induction D with
  | nil => simp
  | cons p D ih => simp only [sumOf_cons, ih, List.length_cons]; push_cast; ring

/-- The condition in which the least squares are computed. -/
def Usual (D : List (ℝ × ℝ)) : Prop :=
  1 / 10 ^ 7 ≤ codev Prod.fst Prod.fst D / D.length ∧ codev Prod.fst Prod.fst D / D.length ≤ 10 ^ 7

theorem olsOf_usual {D : List (ℝ × ℝ)} (h : Usual D) : codev Prod.fst Prod.fst D ≠ 0 ∧ (D.length : ℝ) ≠ 0 ∧
    olsOf D = (avg Prod.snd D - codev Prod.fst Prod.snd D / codev Prod.fst Prod.fst D * avg Prod.fst D,
      codev Prod.fst Prod.snd D / codev Prod.fst Prod.fst D) := by
  have h1 : codev Prod.fst Prod.fst D ≠ 0 := by
    intro h0
    have := h.1
    rw [h0] at this
    norm_num at this
  have h2 : (D.length : ℝ) ≠ 0 := by
    intro h0
    have := h.1
    rw [h0] at this
    norm_num at this
  refine ⟨h1, h2, ?_⟩
  have e1 : sumOf (fun p : ℝ × ℝ => (p.1 - sumOf Prod.fst D / D.length) * (p.1 - sumOf Prod.fst D / D.length)) D =
      codev Prod.fst Prod.fst D := rfl
  have e2 : sumOf (fun p : ℝ × ℝ => (p.2 - sumOf Prod.snd D / D.length) * (p.1 - sumOf Prod.fst D / D.length)) D =
      codev Prod.fst Prod.snd D := sumOf_congr fun p _ => mul_comm _ _
  have hn : ¬ (codev Prod.fst Prod.fst D = 0 ∨ codev Prod.fst Prod.fst D / D.length < 1 / 10 ^ 7 ∨
      codev Prod.fst Prod.fst D / D.length > 10 ^ 7) := by
    rintro (h' | h' | h')
    · exact h1 h'
    · exact absurd h.1 (not_le.mpr h')
    · exact absurd h.2 (not_le.mpr h')
  simp only [olsOf, e1, e2]
  rw [if_neg hn]
  rfl

/-- Deviation form of the normal equations. -/
theorem codev_best {D : List (ℝ × ℝ)} (h1 : codev Prod.fst Prod.fst D ≠ 0) (h2 : (D.length : ℝ) ≠ 0) (a' b' : ℝ) :
    sse D (avg Prod.snd D - codev Prod.fst Prod.snd D / codev Prod.fst Prod.fst D * avg Prod.fst D)
      (codev Prod.fst Prod.snd D / codev Prod.fst Prod.fst D) ≤ sse D a' b' := by
  have hb : codev Prod.fst Prod.snd D / codev Prod.fst Prod.fst D * codev Prod.fst Prod.fst D =
      codev Prod.fst Prod.snd D := div_mul_cancel₀ _ h1
  generalize codev Prod.fst Prod.snd D / codev Prod.fst Prod.fst D = b at hb
  have := normal_best (D.map fun p => (1, p)) (ones_nonneg D) (mu := 0) (a := avg Prod.snd D - b * avg Prod.fst D) (b := b)
    le_rfl ?_ ?_ a' b'
  · simpa [sse_eq] using this
  · simp only [sumOf_map, sumOf_const, one_mul, zero_mul, add_zero, avg]
    have e1 : sumOf (fun p : ℝ × ℝ => p.1) D = sumOf Prod.fst D := rfl
    have e2 : sumOf (fun p : ℝ × ℝ => p.2) D = sumOf Prod.snd D := rfl
    rw [e1, e2]
    field_simp
    ring
  · rw [codev_eq, codev_eq] at hb
    simp only [sumOf_map, one_mul, zero_mul, add_zero, avg]
    have e1 : sumOf (fun p : ℝ × ℝ => p.1) D = sumOf Prod.fst D := rfl
    rw [e1]
    have : sumOf (fun p : ℝ × ℝ => p.1 * p.2) D = b * (sumOf (fun p => p.1 * p.1) D -
        sumOf Prod.fst D * sumOf Prod.fst D / D.length) + sumOf Prod.fst D * sumOf Prod.snd D / D.length := by
      rw [hb]; ring
    rw [this]
    field_simp
    ring

/-- Least squares: if the variance of the input is in the usual range no other intercept and slope have a smaller
sum of squared errors; outside of it the mean of the targets is predicted. -/
theorem C255_ols (D : List (ℝ × ℝ)) : (Usual D → ∀ a' b', sse D (olsOf D).1 (olsOf D).2 ≤ sse D a' b') ∧
    (¬ Usual D → D ≠ [] → olsOf D = (avg Prod.snd D, 0)) := by
  constructor
  · intro h a' b'
    obtain ⟨h1, h2, h3⟩ := olsOf_usual h
    rw [h3]
    exact codev_best h1 h2 a' b'
  · intro h _
    have e1 : sumOf (fun p : ℝ × ℝ => (p.1 - sumOf Prod.fst D / D.length) * (p.1 - sumOf Prod.fst D / D.length)) D =
        codev Prod.fst Prod.fst D := rfl
    simp only [olsOf, e1]
    rw [if_pos]
    · rfl
    · rw [Usual, not_and_or, not_le, not_le] at h
      exact Or.inr h

/-- Slope only: no other slope is better, unless the inputs are nearly zero, which gives slope zero. -/
theorem C255_slope (D : List (ℝ × ℝ)) : (slopeOf D).1 = 0 ∧
    (1 / 10 ^ 7 ≤ sumOf (fun p => p.1 * p.1) D → ∀ b', sse D 0 (slopeOf D).2 ≤ sse D 0 b') ∧
    (sumOf (fun p => p.1 * p.1) D < 1 / 10 ^ 7 → slopeOf D = (0, 0)) := by
  refine ⟨by rw [slopeOf]; split <;> rfl, fun h b' => ?_, fun h => by rw [slopeOf]; rw [if_pos h]⟩
  have hpos : 0 < sumOf (fun p : ℝ × ℝ => p.1 * p.1) D := lt_of_lt_of_le (by norm_num) h
  have e : slopeOf D = (0, sumOf (fun p => p.1 * p.2) D / sumOf (fun p => p.1 * p.1) D) := by
    rw [slopeOf]; rw [if_neg (not_lt.mpr h)]
  have hs : ∀ b, sse D 0 b = sumOf (fun p => p.2 * p.2) D - 2 * b * sumOf (fun p => p.1 * p.2) D +
      b ^ 2 * sumOf (fun p => p.1 * p.1) D := by
    intro b
    clear h e hpos
    rw [sse]
    induction D with
    | nil => simp
    | cons p D ih => simp only [sumOf_cons, ih]; ring
  rw [e, hs, hs]
  have hb : sumOf (fun p : ℝ × ℝ => p.1 * p.2) D =
      sumOf (fun p : ℝ × ℝ => p.1 * p.2) D / sumOf (fun p : ℝ × ℝ => p.1 * p.1) D * sumOf (fun p : ℝ × ℝ => p.1 * p.1) D :=
    (div_mul_cancel₀ _ hpos.ne').symm
  dsimp only
  generalize sumOf (fun p : ℝ × ℝ => p.1 * p.2) D / sumOf (fun p : ℝ × ℝ => p.1 * p.1) D = b at hb
  rw [hb]
  nlinarith [mul_nonneg hpos.le (sq_nonneg (b' - b))]

theorem sumOf_linear (u v : ℝ) (D : List (ℝ × ℝ × ℝ)) : sumOf (fun p => p.1 * (u + v * p.2.1) * p.2.2) D =
    u * sumOf (fun p => p.1 * p.2.2) D + v * sumOf (fun p => p.1 * p.2.1 * p.2.2) D := by
  induction D with
  | nil => simp
  | cons p D ih => simp only [sumOf_cons, ih]; ring

/-- Weighted least squares: best, unless the determinant is nearly zero, which gives the identity. -/
theorem C255_wls (D : List (ℝ × ℝ × ℝ)) (hw : ∀ p ∈ D, 0 ≤ p.1) :
    let det := sumOf (fun p => p.1) D * sumOf (fun p => p.2.1 * (p.1 * p.2.1)) D
      - sumOf (fun p => p.1 * p.2.1) D * sumOf (fun p => p.1 * p.2.1) D
    (1 / 10 ^ 17 ≤ det → ∀ a' b', wsse D (wlsOf D).1 (wlsOf D).2 ≤ wsse D a' b') ∧
    (det < 1 / 10 ^ 17 → wlsOf D = (0, 1)) := by
  intro det
  refine ⟨fun h a' b' => ?_, fun h => by rw [wlsOf]; exact if_pos h⟩
  have hpos : det ≠ 0 := (lt_of_lt_of_le (by norm_num) h : (0 : ℝ) < det).ne'
  have e : wlsOf D = (sumOf (fun p => p.1 * (sumOf (fun p => p.2.1 * (p.1 * p.2.1)) D / det +
      -sumOf (fun p => p.1 * p.2.1) D / det * p.2.1) * p.2.2) D,
      sumOf (fun p => p.1 * (-sumOf (fun p => p.1 * p.2.1) D / det + sumOf (fun p => p.1) D / det * p.2.1) * p.2.2) D) := by
    rw [wlsOf]; exact if_neg (not_lt.mpr h)
  rw [e, sumOf_linear, sumOf_linear]
  dsimp only
  have hd : det = sumOf (fun p => p.1) D * sumOf (fun p => p.2.1 * (p.1 * p.2.1)) D
      - sumOf (fun p => p.1 * p.2.1) D * sumOf (fun p => p.1 * p.2.1) D := rfl
  clear_value det
  have := normal_best D hw (mu := 0)
    (a := sumOf (fun p => p.2.1 * (p.1 * p.2.1)) D / det * sumOf (fun p => p.1 * p.2.2) D +
      -sumOf (fun p => p.1 * p.2.1) D / det * sumOf (fun p => p.1 * p.2.1 * p.2.2) D)
    (b := -sumOf (fun p => p.1 * p.2.1) D / det * sumOf (fun p => p.1 * p.2.2) D +
      sumOf (fun p => p.1) D / det * sumOf (fun p => p.1 * p.2.1 * p.2.2) D) le_rfl ?_ ?_ a' b'
  · simpa using this
  · generalize sumOf (fun p => p.1) D = S0 at *
    generalize sumOf (fun p => p.1 * p.2.1) D = S1 at *
    generalize sumOf (fun p => p.2.1 * (p.1 * p.2.1)) D = S2 at *
    generalize sumOf (fun p => p.1 * p.2.2) D = T0 at *
    generalize sumOf (fun p => p.1 * p.2.1 * p.2.2) D = T1 at *
    have : T0 = T0 * det / det := by field_simp
    rw [this]
    field_simp
    rw [hd]
    ring
  · generalize sumOf (fun p => p.1) D = S0 at *
    generalize sumOf (fun p => p.1 * p.2.1) D = S1 at *
    generalize sumOf (fun p => p.2.1 * (p.1 * p.2.1)) D = S2 at *
    generalize sumOf (fun p => p.1 * p.2.2) D = T0 at *
    generalize sumOf (fun p => p.1 * p.2.1 * p.2.2) D = T1 at *
    have : T1 = T1 * det / det := by field_simp
    rw [this]
    field_simp
    rw [hd]
    ring

theorem sumOf_linear2 (u v : ℝ) (D : List (ℝ × ℝ)) : sumOf (fun p => (u + v * p.1) * p.2) D =
    u * sumOf Prod.snd D + v * sumOf (fun p => p.1 * p.2) D := by
  induction D with
  | nil => simp
  | cons p D ih => simp only [sumOf_cons, ih]; ring

theorem sumOf_plus (c : ℝ) (f : ℝ × ℝ → ℝ) (D : List (ℝ × ℝ)) : sumOf (fun p => f p + c) D = sumOf f D + c * D.length := by
  induction D with
  | nil => simp
  | cons p D ih => simp only [sumOf_cons, ih, List.length_cons]; push_cast; ring

/-- Regularised least squares: the penalty on intercept and slope counts once per case, and with it the result
is best; a determinant nearly zero gives the identity. -/
theorem C255_regularised (lam : ℝ) (hl : 0 ≤ lam) (D : List (ℝ × ℝ)) :
    let n : ℝ := D.length
    let det := (n + n * lam) * (sumOf (fun p => p.1 * p.1) D + n * lam) - sumOf Prod.fst D * sumOf Prod.fst D
    (1 / 10 ^ 17 ≤ det → ∀ a' b', sse D (rlsOf lam D).1 (rlsOf lam D).2 +
        n * lam * ((rlsOf lam D).1 ^ 2 + (rlsOf lam D).2 ^ 2) ≤ sse D a' b' + n * lam * (a' ^ 2 + b' ^ 2)) ∧
    (det < 1 / 10 ^ 17 → rlsOf lam D = (0, 1)) := by
  intro n det
  have hdet : sumOf (fun _ => 1 + lam) D * sumOf (fun p => p.1 * p.1 + lam) D - sumOf Prod.fst D * sumOf Prod.fst D = det := by
    rw [sumOf_const, sumOf_plus]
    simp only [det, n]
    ring
  refine ⟨fun h a' b' => ?_, fun h => by rw [rlsOf]; dsimp only; rw [hdet, if_pos h]⟩
  have hpos : det ≠ 0 := (lt_of_lt_of_le (by norm_num) h : (0 : ℝ) < det).ne'
  have e0 : sumOf (fun _ => 1 + lam) D = n + n * lam := by rw [sumOf_const]; simp only [n]; ring
  have e3 : sumOf (fun p : ℝ × ℝ => p.1 * p.1 + lam) D = sumOf (fun p => p.1 * p.1) D + n * lam := by
    rw [sumOf_plus]; simp only [n]; ring
  have e : rlsOf lam D = ((sumOf (fun p => p.1 * p.1) D + n * lam) / det * sumOf Prod.snd D +
      -sumOf Prod.fst D / det * sumOf (fun p => p.1 * p.2) D,
      -sumOf Prod.fst D / det * sumOf Prod.snd D + (n + n * lam) / det * sumOf (fun p => p.1 * p.2) D) := by
    rw [rlsOf]
    dsimp only
    rw [hdet, if_neg (not_lt.mpr h), sumOf_linear2, sumOf_linear2, e0, e3]
  rw [e]
  dsimp only
  clear e hdet e0 e3
  have hd : det = (n + n * lam) * (sumOf (fun p => p.1 * p.1) D + n * lam) - sumOf Prod.fst D * sumOf Prod.fst D := rfl
  have hn : n = D.length := rfl
  clear_value det n
  rw [sse_eq, sse_eq]
  refine normal_best (D.map fun p => (1, p)) (ones_nonneg D) (mu := n * lam) (by rw [hn]; positivity) ?_ ?_ a' b'
  · simp only [sumOf_map, sumOf_const, sumOf_plus, one_mul, ← hn]
    have e1 : sumOf (fun p : ℝ × ℝ => p.1) D = sumOf Prod.fst D := rfl
    have e2 : sumOf (fun p : ℝ × ℝ => p.2) D = sumOf Prod.snd D := rfl
    rw [e1, e2]
    generalize sumOf Prod.fst D = S1 at *
    generalize sumOf (fun p : ℝ × ℝ => p.1 * p.1) D = S2 at *
    generalize sumOf Prod.snd D = T0 at *
    generalize sumOf (fun p : ℝ × ℝ => p.1 * p.2) D = T1 at *
    have : T0 = T0 * det / det := by field_simp
    rw [this]
    field_simp
    rw [hd]
    ring
  · simp only [sumOf_map, sumOf_const, sumOf_plus, one_mul, ← hn]
    have e1 : sumOf (fun p : ℝ × ℝ => p.1) D = sumOf Prod.fst D := rfl
    rw [e1]
    generalize sumOf Prod.fst D = S1 at *
    generalize sumOf (fun p : ℝ × ℝ => p.1 * p.1) D = S2 at *
    generalize sumOf Prod.snd D = T0 at *
    generalize sumOf (fun p : ℝ × ℝ => p.1 * p.2) D = T1 at *
    have : T1 = T1 * det / det := by field_simp
    rw [this]
    field_simp
    rw [hd]
    ring

/-! ### Errors -/

theorem targetVar_eq (D : List (ℝ × ℝ)) : targetVar (D.map Prod.snd) = sampleCov Prod.snd Prod.snd D := by
  rw [targetVar, sampleCov, sumOf_map, List.length_map, codev]
  have : targetMean (D.map Prod.snd) = avg Prod.snd D := by
    rw [targetMean, avg, sumOf_map, List.length_map]; rfl
  rw [this]

theorem var_run_map (D : List (ℝ × ℝ)) (f : ℝ × ℝ → ℝ) : ((D.map f).foldl VarS.update VarS.init).mean = avg f D ∧
    ((D.map f).foldl VarS.update VarS.init).var = sampleCov f f D := by
  obtain ⟨h1, h2⟩ := C254_variance (D.map f)
  rw [h1, h2]
  simp only [avg, sampleCov, codev_eq, sumOf_map, List.length_map, id, and_self]

theorem sse_best_eq {D : List (ℝ × ℝ)} (h1 : codev Prod.fst Prod.fst D ≠ 0) (h2 : (D.length : ℝ) ≠ 0) :
    sse D (avg Prod.snd D - codev Prod.fst Prod.snd D / codev Prod.fst Prod.fst D * avg Prod.fst D)
      (codev Prod.fst Prod.snd D / codev Prod.fst Prod.fst D) =
    codev Prod.snd Prod.snd D - codev Prod.fst Prod.snd D ^ 2 / codev Prod.fst Prod.fst D := by
  have key : ∀ b : ℝ, sse D (avg Prod.snd D - b * avg Prod.fst D) b =
      codev Prod.snd Prod.snd D - 2 * b * codev Prod.fst Prod.snd D + b ^ 2 * codev Prod.fst Prod.fst D := by
    intro b
    have h : ∀ (u w : ℝ) (E : List (ℝ × ℝ)), sumOf (fun p => (p.2 - (w - b * u + b * p.1)) ^ 2) E =
        sumOf (fun p => (p.2 - w) * (p.2 - w)) E - 2 * b * sumOf (fun p => (p.1 - u) * (p.2 - w)) E +
        b ^ 2 * sumOf (fun p => (p.1 - u) * (p.1 - u)) E := by
      intro u w E
      induction E with
      | nil => simp
      | cons p E ih => simp only [sumOf_cons, ih]; ring
    exact h _ _ D
  rw [key]
  field_simp
  ring

/-- Errors of a whole population, scaled: the reported error times the number of cases less one is the sum of squared
errors of the reported scaling, and no other scaling has a smaller one. -/
theorem C256_batch {D : List (ℝ × ℝ)} (h1 : codev Prod.fst Prod.fst D ≠ 0) (hD : 2 ≤ D.length) :
    ∃ err a b, scaledBatch D = (some err, a, b) ∧ err * ((D.length : ℝ) - 1) = sse D a b ∧
      ∀ a' b', sse D a b ≤ sse D a' b' := by
  have h2 : (D.length : ℝ) ≠ 0 := by
    have : (2 : ℝ) ≤ D.length := by exact_mod_cast hD
    linarith
  have h3 : (D.length : ℝ) - 1 ≠ 0 := by
    have : (2 : ℝ) ≤ D.length := by exact_mod_cast hD
    linarith
  obtain ⟨m1, v1⟩ := var_run_map D Prod.fst
  obtain ⟨m2, v2⟩ := var_run_map D Prod.snd
  obtain ⟨-, -, c1⟩ := C254_covariance D
  have hb : sampleCov Prod.fst Prod.snd D / sampleCov Prod.fst Prod.fst D =
      codev Prod.fst Prod.snd D / codev Prod.fst Prod.fst D := by
    rw [sampleCov, sampleCov]; field_simp
  refine ⟨(codev Prod.snd Prod.snd D - codev Prod.fst Prod.snd D ^ 2 / codev Prod.fst Prod.fst D) / ((D.length : ℝ) - 1),
    _, _, ?_, ?_, fun a' b' => codev_best h1 h2 a' b'⟩
  rotate_left
  · rw [sse_best_eq h1 h2]
    exact (div_mul_cancel₀ _ h3)
  · simp only [scaledBatch, m1, m2, v1, v2, c1]
    rw [if_neg (by omega), if_neg (by rw [sampleCov]; exact div_ne_zero h1 h3), hb]
    congr 2
    rw [sampleCov, sampleCov, sampleCov]
    field_simp

/-- The error of a single expression divides the same sum by the number of cases: it is smaller. -/
theorem C256_single {D : List (ℝ × ℝ)} (h : Usual D) (hD : 2 ≤ D.length) :
    ∃ err, (scaledBatch D).1 = some err ∧ (scaledBatch D).2 = (scaledSingle D).2 ∧
      (scaledSingle D).1 * D.length = err * ((D.length : ℝ) - 1) := by
  obtain ⟨h1, h2, h3⟩ := olsOf_usual h
  have h4 : (D.length : ℝ) - 1 ≠ 0 := by
    have : (2 : ℝ) ≤ D.length := by exact_mod_cast hD
    linarith
  obtain ⟨m1, v1⟩ := var_run_map D Prod.fst
  obtain ⟨m2, v2⟩ := var_run_map D Prod.snd
  obtain ⟨-, -, c1⟩ := C254_covariance D
  have hb : sampleCov Prod.fst Prod.snd D / sampleCov Prod.fst Prod.fst D =
      codev Prod.fst Prod.snd D / codev Prod.fst Prod.fst D := by
    rw [sampleCov, sampleCov]; field_simp
  have e : scaledBatch D = (some (sampleCov Prod.snd Prod.snd D -
      sampleCov Prod.fst Prod.snd D * sampleCov Prod.fst Prod.snd D / sampleCov Prod.fst Prod.fst D), olsOf D) := by
    rw [h3]
    simp only [scaledBatch, m1, m2, v1, v2, c1]
    rw [if_neg (by omega), if_neg (by rw [sampleCov]; exact div_ne_zero h1 h4), hb]
  refine ⟨_, by rw [e], by rw [e]; rfl, ?_⟩
  have e2 : (scaledSingle D).1 = sse D (olsOf D).1 (olsOf D).2 / D.length := by
    rw [scaledSingle, sse]
    dsimp only
    congr 1
    exact sumOf_congr fun p _ => by ring
  rw [e2, div_mul_cancel₀ _ h2, h3, sse_best_eq h1 h2, sampleCov, sampleCov, sampleCov]
  field_simp

/-- Predictions without variance: the error is that of predicting the mean, the reported scaling is the identity,
which need not have that error. -/
theorem C256_constant (D : List (ℝ × ℝ)) (h1 : codev Prod.fst Prod.fst D = 0) (hD : 2 ≤ D.length) :
    scaledBatch D = (some (sampleCov Prod.snd Prod.snd D), 0, 1) ∧
      sampleCov Prod.snd Prod.snd D * ((D.length : ℝ) - 1) = sse D (avg Prod.snd D) 0 := by
  have h3 : (D.length : ℝ) - 1 ≠ 0 := by
    have : (2 : ℝ) ≤ D.length := by exact_mod_cast hD
    linarith
  obtain ⟨m1, v1⟩ := var_run_map D Prod.fst
  obtain ⟨m2, v2⟩ := var_run_map D Prod.snd
  constructor
  · simp only [scaledBatch, v1, v2]
    rw [if_neg (by omega), if_pos (by rw [sampleCov, h1, zero_div])]
  · rw [sampleCov, div_mul_cancel₀ _ h3, codev, sse]
    exact sumOf_congr fun p _ => by ring

theorem C256_constant_scaling : ∃ D : List (ℝ × ℝ), codev Prod.fst Prod.fst D = 0 ∧ 2 ≤ D.length ∧
    scaledBatch D = (some 0, 0, 1) ∧ sse D 0 1 = 50 := by
  have h : codev Prod.fst Prod.fst [((0 : ℝ), (5 : ℝ)), (0, 5)] = 0 := by rw [codev_eq]; simp
  refine ⟨[(0, 5), (0, 5)], h, by simp, ?_, by simp [sse]; norm_num⟩
  rw [(C256_constant _ h (by simp)).1]
  congr 2
  rw [sampleCov, codev_eq]; simp; norm_num

/-- With a single case the error is not a number. -/
theorem C256_one_case (p : ℝ × ℝ) : (scaledBatch [p]).1 = none := by simp [scaledBatch]

/-- The worst performance of the scaled measure is never exceeded by an error. -/
theorem C256_worst {D : List (ℝ × ℝ)} (hD : 2 ≤ D.length) :
    ∃ err, (scaledBatch D).1 = some err ∧ 0 ≤ err ∧ err ≤ worstOf true (D.map Prod.snd) := by
  have hpos : (0 : ℝ) < (D.length : ℝ) - 1 := by
    have : (2 : ℝ) ≤ D.length := by exact_mod_cast hD
    linarith
  have hw : worstOf true (D.map Prod.snd) * ((D.length : ℝ) - 1) = sse D (avg Prod.snd D) 0 := by
    rw [worstOf, if_pos rfl, targetVar_eq, sampleCov, div_mul_cancel₀ _ hpos.ne', codev, sse]
    exact sumOf_congr fun p _ => by ring
  have h0 : ∀ a b, 0 ≤ sse D a b := fun a b => sumOf_nonneg fun p _ => sq_nonneg _
  by_cases h1 : codev Prod.fst Prod.fst D = 0
  · obtain ⟨e, e2⟩ := C256_constant D h1 hD
    refine ⟨_, by rw [e], ?_, ?_⟩
    · exact nonneg_of_mul_nonneg_left (by rw [e2]; exact h0 _ _) hpos
    · exact le_of_mul_le_mul_right (by rw [e2, hw]) hpos
  · obtain ⟨err, a, b, e, e2, e3⟩ := C256_batch h1 hD
    refine ⟨err, by rw [e], ?_, ?_⟩
    · exact nonneg_of_mul_nonneg_left (by rw [e2]; exact h0 _ _) hpos
    · exact le_of_mul_le_mul_right (by rw [e2, hw]; exact e3 _ _) hpos

/-- That of the other measures can be exceeded. -/
theorem C256_worst_unscaled : ∃ D : List (ℝ × ℝ), worstOf false (D.map Prod.snd) < mseOf D ∧
    worstOf false (D.map Prod.snd) < maeOf D := by
  refine ⟨[(10 ^ 21, 0)], ?_, ?_⟩
  · simp [worstOf, mseOf]; norm_num
  · simp [worstOf, maeOf]; norm_num

/-- Without scaling the error is zero exactly for predictions that meet all targets. -/
theorem C256_unscaled {D : List (ℝ × ℝ)} (hD : D ≠ []) : (mseOf D = 0 ↔ ∀ p ∈ D, p.1 = p.2) ∧
    (maeOf D = 0 ↔ ∀ p ∈ D, p.1 = p.2) := by
  have hlen : (D.length : ℝ) ≠ 0 := by
    have := List.length_pos_iff.2 hD
    positivity
  have key : ∀ (f : ℝ × ℝ → ℝ), (∀ p, 0 ≤ f p) → (∀ p, f p = 0 ↔ p.1 = p.2) → ∀ E : List (ℝ × ℝ),
      sumOf f E = 0 ↔ ∀ p ∈ E, p.1 = p.2 := by
    intro f hf h0 E
    induction E with
    | nil => simp
    | cons p E ih =>
      rw [sumOf_cons, add_eq_zero_iff_of_nonneg (hf p) (sumOf_nonneg fun a _ => hf a), ih, h0]
      simp
  constructor
  · rw [mseOf, div_eq_zero_iff, or_iff_left hlen]
    exact key _ (fun p => mul_self_nonneg _) (fun p => by rw [mul_self_eq_zero, sub_eq_zero]) D
  · rw [maeOf, div_eq_zero_iff, or_iff_left hlen]
    exact key _ (fun p => abs_nonneg _) (fun p => by rw [abs_eq_zero, sub_eq_zero]) D

/-! ### Clones -/

theorem declone_mem {α : Type} [DecidableEq α] : ∀ (seen l : List α) (a : α), a ∈ declone seen l ↔ a ∈ seen ∨ a ∈ l
  | seen, [], a => by simp [declone]
  | seen, b :: l, a => by
    rw [declone]
    split
    · rename_i h
      rw [declone_mem seen l a]
      simp only [List.mem_cons]
      constructor
      · tauto
      · rintro (h' | rfl | h') <;> tauto
    · rw [declone_mem (seen ++ [b]) l a]
      simp [or_assoc]

theorem declone_nodup {α : Type} [DecidableEq α] : ∀ (seen l : List α), seen.Nodup → (declone seen l).Nodup
  | seen, [], h => h
  | seen, b :: l, h => by
    rw [declone]
    split
    · exact declone_nodup seen l h
    · rename_i hb
      exact declone_nodup _ l (by rw [List.nodup_append]; simp [h]; exact fun a ha hab => hb (hab ▸ ha))

/-- Clones are evaluated once, and everyone gets their own result. -/
theorem C256_clones {α β : Type} [DecidableEq α] (f : α → β) (pop : List α) :
    calcErrors (List.map f) pop = pop.map (fun a => some (f a)) ∧ (declone [] pop).Nodup := by
  refine ⟨?_, declone_nodup [] pop List.nodup_nil⟩
  rw [calcErrors]
  refine List.map_congr_left fun a ha => ?_
  have hm : a ∈ declone [] pop := (declone_mem [] pop a).2 (Or.inr ha)
  have hlt := List.idxOf_lt_length_of_mem hm
  rw [List.getElem?_map, List.getElem?_eq_getElem hlt, List.getElem_idxOf]
  rfl

example : Usual [((0 : ℝ), (1 : ℝ)), (2, 5)] ∧ 2 ≤ [((0 : ℝ), (1 : ℝ)), (2, 5)].length := by
  refine ⟨?_, by simp⟩
  rw [Usual, codev_eq]
  simp
  norm_num

end Paradiseo.MathSym
