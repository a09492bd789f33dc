import Verif.Lemmas.CMAState
import Verif.Props.EdoCMA
import Mathlib.Analysis.Complex.ExponentialBounds

/-!
# C151–C153: CMA-ES
-/

namespace Paradiseo.Cma

open Finset
open Paradiseo.Edo (Mat quad PosDef quad_add quad_smul quad_congr eig_quad exists_eigen)

/-! ## C151: the weights of the parents -/

/-- As many parents as weights: whatever the scheme is, the weights are positive, sum to one and a better parent
does not weigh less; the effective number of parents is between one and their number. -/
theorem C151_weights {scheme mu : Nat} (n maxgen : Nat) (hmu : mu < 2 ^ 32) (h : 0 < mu) :
    let p := mkPar n maxgen scheme mu mu
    (∀ i, i < mu → 0 < p.weights i) ∧ ∑ i ∈ range mu, p.weights i = 1 ∧
    (∀ i j, i ≤ j → j < mu → p.weights j ≤ p.weights i) ∧ 1 ≤ p.mueff ∧ p.mueff ≤ mu := by
  refine ⟨fun i hi => weight_pos hmu hi, weight_sum hmu h, fun i j hij hj => ?_, (mueff_bounds hmu h).1,
    (mueff_bounds hmu h).2⟩
  exact div_le_div_of_nonneg_right (raw_anti hmu hij hj) (rawSum_pos hmu h).le

/-- The default number of parents meets that. -/
theorem C151_default (n : Nat) : 2 ≤ defaultMu n ∧ defaultMu n < defaultLambda n := by
  refine ⟨defaultMu_ge n, ?_⟩
  unfold defaultMu defaultLambda
  omega

/-- The scheme documented as "1 = equal" weighs linearly, and the scheme documented as "2 = linear" equally. -/
theorem C151_schemes_swapped {mu : Nat} (hmu : mu < 2 ^ 32) (h : 2 ≤ mu) :
    (∀ i, i + 1 < mu → weight 1 mu mu (i + 1) < weight 1 mu mu i) ∧
    (∀ i, i < mu → weight 1 mu mu i = (mu - i) * weight 1 mu mu (mu - 1)) ∧
    ∀ i, i < mu → weight 2 mu mu i = 1 / mu := by
  have hs := rawSum_pos (scheme := 1) hmu (by omega)
  refine ⟨fun i hi => ?_, fun i hi => ?_, fun i _ => ?_⟩
  · refine div_lt_div_of_pos_right ?_ hs
    unfold raw
    simp only
    rw [show (mu + 2 ^ 32 - i) % 2 ^ 32 = mu - i by omega,
      show (mu + 2 ^ 32 - (i + 1)) % 2 ^ 32 = mu - (i + 1) by omega]
    exact_mod_cast (by omega : mu - (i + 1) < mu - i)
  · unfold weight
    rw [mul_div_assoc']
    congr 1
    unfold raw
    simp only
    rw [show (mu + 2 ^ 32 - i) % 2 ^ 32 = mu - i by omega,
      show (mu + 2 ^ 32 - (mu - 1)) % 2 ^ 32 = 1 by omega, Nat.cast_one, mul_one, Nat.cast_sub (by omega)]
  · unfold weight raw
    simp

/-- As many parents as weights: every coordinate of the new mean is within the range of the parents. -/
theorem C151_mean_in_hull {scheme mu n maxgen : Nat} (hmu : mu < 2 ^ 32) (h : 0 < mu) {x : Nat → Nat → ℝ}
    {worse : Bool} {stuck : Nat → Bool} {grow : ℝ} {s t : State}
    (ht : reestimate (mkPar n maxgen scheme mu mu) x worse stuck grow s = some t) {i : Nat} {a b : ℝ}
    (hx : ∀ k, k < mu → a ≤ x k i ∧ x k i ≤ b) : a ≤ t.mean i ∧ t.mean i ≤ b := by
  have e : t.mean i = ∑ k ∈ range mu, weight scheme mu mu k * x k i := by
    unfold reestimate at ht
    split at ht
    · cases ht
    · cases ht; rfl
  have hs := weight_sum (scheme := scheme) hmu h
  rw [e]
  constructor
  · calc a = ∑ k ∈ range mu, weight scheme mu mu k * a := by rw [← sum_mul, hs, one_mul]
      _ ≤ _ := sum_le_sum fun k hk => mul_le_mul_of_nonneg_left (hx k (mem_range.mp hk)).1
        (weight_pos hmu (mem_range.mp hk)).le
  · calc _ ≤ ∑ k ∈ range mu, weight scheme mu mu k * b :=
        sum_le_sum fun k hk => mul_le_mul_of_nonneg_left (hx k (mem_range.mp hk)).2
          (weight_pos hmu (mem_range.mp hk)).le
      _ = b := by rw [← sum_mul, hs, one_mul]

/-- More parents than the default: the weights are read beyond their end. -/
theorem C151_more_parents {n maxgen scheme mu S : Nat} (h : S < mu) (x : Nat → Nat → ℝ) (worse : Bool)
    (stuck : Nat → Bool) (grow : ℝ) (s : State) :
    reestimate (mkPar n maxgen scheme mu S) x worse stuck grow s = none := by
  unfold reestimate
  exact if_pos (Or.inl h)

/-- The sum of the logarithmic weights in use. -/
theorem used_sum {mu S : Nat} (h : mu ≤ S) (hS : ∑ k ∈ range S, raw 0 mu k ≠ 0) :
    ∑ i ∈ range mu, weight 0 mu S i = 1 ↔ S ≤ mu + 1 := by
  unfold weight
  rw [← sum_div, div_eq_one_iff_eq hS]
  have hsplit : ∑ k ∈ range S, raw 0 mu k = ∑ k ∈ range mu, raw 0 mu k + ∑ k ∈ Ico mu S, raw 0 mu k := by
    rw [sum_range_add_sum_Ico _ h]
  have hneg : ∀ k, mu < k → raw 0 mu k < 0 := by
    intro k hk
    have e : raw 0 mu k = Real.log (mu + 1) - Real.log (k + 1) := rfl
    rw [e]
    have h1 : (mu : ℝ) < k := by exact_mod_cast hk
    have := Real.log_lt_log (x := (mu : ℝ) + 1) (y := k + 1) (by positivity) (by linarith)
    linarith
  have hzero : raw 0 mu mu = 0 := by simp [raw]
  rw [hsplit]
  constructor
  · intro he
    by_contra hcon
    have h0 : ∑ k ∈ Ico mu S, raw 0 mu k < 0 := by
      apply sum_neg' (fun k hk => ?_) ⟨mu + 1, mem_Ico.mpr ⟨by omega, by omega⟩, hneg _ (by omega)⟩
      rcases Nat.eq_or_lt_of_le (mem_Ico.mp hk).1 with rfl | hlt
      · exact hzero.le
      · exact (hneg k hlt).le
    linarith
  · intro hle
    have : ∑ k ∈ Ico mu S, raw 0 mu k = 0 := by
      refine sum_eq_zero fun k hk => ?_
      obtain ⟨h1, h2⟩ := mem_Ico.mp hk
      rw [show k = mu by omega, hzero]
    linarith

/-- Fewer parents than the default, by two or more: the weights in use do not sum to one. -/
theorem C151_fewer_parents {n maxgen mu S : Nat} (h : mu + 2 ≤ S) (hS : ∑ k ∈ range S, raw 0 mu k ≠ 0)
    {x : Nat → Nat → ℝ} {worse : Bool} {stuck : Nat → Bool} {grow : ℝ} {s t : State}
    (ht : reestimate (mkPar n maxgen 0 mu S) x worse stuck grow s = some t) :
    ∑ i ∈ range mu, (mkPar n maxgen 0 mu S).weights i ≠ 1 ∧
    ∀ i y, y ≠ 0 → (∀ k, k < mu → x k i = y) → t.mean i ≠ y := by
  have hne : ∑ i ∈ range mu, weight 0 mu S i ≠ 1 := fun he => by
    have := (used_sum (by omega) hS).mp he
    omega
  refine ⟨hne, fun i y hy hx hm => hne ?_⟩
  have e : t.mean i = ∑ k ∈ range mu, weight 0 mu S k * x k i := by
    unfold reestimate at ht
    split at ht
    · cases ht
    · cases ht; rfl
  rw [e, sum_congr rfl fun k hk => by rw [hx k (mem_range.mp hk)], ← sum_mul] at hm
  exact mul_right_cancel₀ hy (by rw [hm, one_mul])

theorem log_eight : 3 * Real.log 8 = 9 * Real.log 2 := by
  rw [show (8 : ℝ) = 2 ^ (3 : ℕ) by norm_num, Real.log_pow]
  push_cast
  ring

theorem defaultMu_eight : defaultMu 8 = 5 := by
  have h : ⌊3 * Real.log ((8 : ℕ) : ℝ)⌋₊ = 6 := by
    rw [Nat.cast_ofNat, log_eight, Nat.floor_eq_iff (by positivity)]
    have h1 := Real.log_two_gt_d9
    have h2 := Real.log_two_lt_d9
    constructor <;> norm_num <;> linarith
  unfold defaultMu defaultLambda
  rw [h]

theorem rawSum_one_five : ∑ k ∈ range 5, raw 0 1 k < 0 := by
  have e : ∑ k ∈ range 5, raw 0 1 k = Real.log (4 / 15) := by
    simp only [sum_range_succ, range_zero, sum_empty, raw]
    rw [Real.log_div (by norm_num) (by norm_num), show (4 : ℝ) = 2 * 2 by norm_num, show (15 : ℝ) = 3 * 5 by norm_num,
      Real.log_mul (by norm_num) (by norm_num), Real.log_mul (by norm_num) (by norm_num)]
    have h4 : Real.log 4 = Real.log 2 + Real.log 2 := by
      rw [← Real.log_mul (by norm_num) (by norm_num)]; norm_num
    norm_num
    rw [h4]
    ring
  rw [e]
  exact Real.log_neg (by norm_num) (by norm_num)

/-- Eight dimensions with a single parent: its weight is negative, and the new mean is on the other side of the
origin. -/
theorem C151_negative_weight : defaultMu 8 = 5 ∧ fixMu (defaultLambda 8) 1 = 1 ∧
    ∀ maxgen, (mkPar 8 maxgen 0 1 (defaultMu 8)).weights 0 < 0 ∧
      ∀ x worse stuck grow s t, reestimate (mkPar 8 maxgen 0 1 (defaultMu 8)) x worse stuck grow s = some t →
        ∀ i, 0 < x 0 i → t.mean i < 0 := by
  refine ⟨defaultMu_eight, ?_, fun maxgen => ?_⟩
  · unfold fixMu defaultLambda
    exact if_neg (by omega)
  · have hw : weight 0 1 5 0 < 0 := by
      refine div_neg_of_pos_of_neg ?_ rawSum_one_five
      unfold raw
      have : 0 < Real.log 2 := Real.log_pos (by norm_num)
      norm_num
      exact this
    rw [defaultMu_eight]
    refine ⟨hw, fun x worse stuck grow s t ht i hx => ?_⟩
    have e : t.mean i = weight 0 1 5 0 * x 0 i := by
      unfold reestimate at ht
      split at ht
      · cases ht
      · cases ht; simp [newMean, mkPar]
    rw [e]
    exact mul_neg_of_neg_of_pos hw hx

/-! ## C152: the distribution stays a distribution -/

/-- What the rules need of the parameters. -/
structure Usable (p : Par) : Prop where
  n : 0 < p.n
  size : p.mu ≤ p.size
  weights : ∀ k, k < p.mu → 0 ≤ p.weights k
  mueff : 1 ≤ p.mueff
  ccov : 0 < p.ccov
  ccov' : p.ccov < 1
  ccumcov : 0 < p.ccumcov
  ccumcov' : p.ccumcov ≤ 1

/-- As many parents as weights: the learning rate is below one and all that is needed holds. -/
theorem C152_parameters {n maxgen scheme mu : Nat} (hn : 0 < n) (hmu : mu < 2 ^ 32) (h : 0 < mu) :
    Usable (mkPar n maxgen scheme mu mu) where
  n := hn
  size := le_rfl
  weights k hk := (weight_pos hmu hk).le
  mueff := (mueff_bounds hmu h).1
  ccov := (rateCov_range hn (mueff_bounds hmu h).1).1
  ccov' := (rateCov_range hn (mueff_bounds hmu h).1).2
  ccumcov := (ccumcov_range n).1
  ccumcov' := (ccumcov_range n).2

/-- A proper distribution: a symmetric positive definite matrix, a positive step size, and an orthonormal
coordinate system with positive scalings that makes up the matrix. -/
structure Proper (N : Nat) (s : State) : Prop where
  sym : ∀ i j, s.C i j = s.C j i
  pos : PosDef N s.C
  sigma : 0 < s.sigma
  scaling : ∀ k, k < N → 0 < s.d k
  orth : ∀ k l, k < N → l < N → ∑ i ∈ range N, s.B i k * s.B i l = if k = l then 1 else 0
  diag : ∀ i j, i < N → j < N → s.C i j = ∑ k ∈ range N, s.B i k * s.d k ^ 2 * s.B j k

/-- What the eigenvalue solver promises when it answers. -/
def IsSolver (N : Nat) (eig : Nat → Mat → Option (Mat × (Nat → ℝ))) : Prop :=
  ∀ t C, (∀ i j, C i j = C j i) → ∀ B v, eig t C = some (B, v) →
    (∀ k l, k < N → l < N → ∑ i ∈ range N, B i k * B i l = if k = l then 1 else 0) ∧
    ∀ i j, i < N → j < N → C i j = ∑ k ∈ range N, B i k * v k * B j k

open Classical in
/-- There is a solver that always answers. -/
theorem exists_solver (N : Nat) : ∃ eig, IsSolver N eig ∧ ∀ t C, (eig t C).isSome := by
  refine ⟨fun _ C => some (if h : ∀ i j, C i j = C j i then (exists_eigen N C h).choose else (C, fun _ => 0)),
    ?_, fun _ _ => rfl⟩
  intro t C h B v he
  simp only [dif_pos h] at he
  have hsp := (exists_eigen N C h).choose_spec
  rw [Option.some.inj he] at hsp
  exact hsp

/-- The initial state is proper. -/
theorem C152_init {n : Nat} (hn : 0 < n) {stdevs mean : Nat → ℝ} {sigma : ℝ} (hd : ∀ i, i < n → 0 < stdevs i)
    (hs : 0 < sigma) : Proper n (init n stdevs mean sigma) := by
  have htr : 0 < ∑ i ∈ range n, stdevs i * stdevs i :=
    sum_pos (fun i hi => mul_pos (hd i (mem_range.mp hi)) (hd i (mem_range.mp hi))) ⟨0, mem_range.mpr hn⟩
  have hn' : (0 : ℝ) < n := by exact_mod_cast hn
  have hdpos : ∀ k, k < n → 0 < stdevs k * Real.sqrt (n / ∑ i ∈ range n, stdevs i * stdevs i) :=
    fun k hk => mul_pos (hd k hk) (Real.sqrt_pos.mpr (div_pos hn' htr))
  have hcol : ∀ k l, k < n → ∑ i ∈ range n, (if i = k then (1 : ℝ) else 0) * (if i = l then 1 else 0) =
      if k = l then 1 else 0 := by
    intro k l hk
    rw [sum_congr rfl fun i _ => show (if i = k then (1 : ℝ) else 0) * (if i = l then 1 else 0) =
      if i = k then (if k = l then 1 else 0) else 0 by
        split
        · rename_i h; subst h; simp
        · simp]
    rw [sum_ite_eq' (range n) k, if_pos (mem_range.mpr hk)]
  refine ⟨fun i j => ?_, posDef_diag (fun i hi => mul_pos (hdpos i hi) (hdpos i hi)), hs, hdpos,
    fun k l hk _ => hcol k l hk, fun i j hi hj => ?_⟩
  · simp only [init]
    by_cases h : i = j
    · subst h; rfl
    · rw [if_neg h, if_neg (Ne.symm h)]
  · simp only [init]
    generalize Real.sqrt (n / ∑ i ∈ range n, stdevs i * stdevs i) = r
    rw [sum_eq_single_of_mem i (mem_range.mpr hi)]
    · by_cases h : i = j
      · subst h; simp; ring
      · rw [if_neg h, if_neg (Ne.symm h), mul_zero]
    · intro b _ hb
      rw [if_neg (Ne.symm hb), zero_mul, zero_mul]

/-- One update of a proper distribution is defined and leaves a symmetric positive definite matrix and a positive
step size, whatever the parents and the outcome of the tests are. -/
theorem C152_reestimate {p : Par} (hp : Usable p) {s : State} (hs : Proper p.n s) (x : Nat → Nat → ℝ) (worse : Bool)
    (stuck : Nat → Bool) (grow : ℝ) :
    ∃ t, reestimate p x worse stuck grow s = some t ∧ (∀ i j, t.C i j = t.C j i) ∧ PosDef p.n t.C ∧ 0 < t.sigma := by
  have hcond : ¬ (p.size < p.mu ∨ s.sigma = 0 ∨ p.mueff = 0 ∨ ∃ k, k < p.n ∧ s.d k = 0) := by
    rintro (h | h | h | ⟨k, hk, h⟩)
    · exact absurd hp.size (by omega)
    · exact hs.sigma.ne' h
    · have := hp.mueff; linarith
    · exact (hs.scaling k hk).ne' h
  unfold reestimate
  rw [if_neg hcond]
  simp only [if_pos hp.ccov.ne']
  generalize hps : newPs p x s = ps
  generalize hh : hsig p s.gen (∑ i ∈ range p.n, ps i * ps i) = h
  generalize hpc : newPc p x s h = pc
  have hh' : h = 0 ∨ h = 1 := hh ▸ hsig_cases p s.gen _
  have hsym : ∀ i j, newC p x s h pc i j = newC p x s h pc j i := by
    intro i j
    unfold newC
    simp only [hs.sym i j]
    congr 1
    · ring
    · exact sum_congr rfl fun i _ => by ring
  have hr : 0 < 1 / p.mueff := one_div_pos.mpr (by linarith [hp.mueff])
  have hr' : 1 / p.mueff ≤ 1 := by rw [div_le_one (by linarith [hp.mueff])]; exact hp.mueff
  have hpos : PosDef p.n (newC p x s h pc) := by
    intro y hy
    rw [quad_newC]
    have hq := hs.pos y hy
    have g1 : 0 < (1 - p.ccov + (1 - h) * p.ccumcov * (2 - p.ccumcov)) * quad p.n s.C y := by
      apply mul_pos _ hq
      have h1 := hp.ccov'
      have h2 : 0 ≤ (1 - h) * p.ccumcov * (2 - p.ccumcov) := by
        apply mul_nonneg _ (by linarith [hp.ccumcov'])
        apply mul_nonneg _ hp.ccumcov.le
        rcases hh' with rfl | rfl <;> norm_num
      linarith
    have g2 : 0 ≤ p.ccov * (1 / p.mueff) * (∑ a ∈ range p.n, y a * pc a) ^ 2 :=
      mul_nonneg (mul_nonneg hp.ccov.le hr.le) (sq_nonneg _)
    have g3 : 0 ≤ ∑ k ∈ range p.mu, p.ccov * (1 - 1 / p.mueff) * p.weights k * (1 / s.sigma) ^ 2 *
        (∑ a ∈ range p.n, y a * (x k a - s.mean a)) ^ 2 :=
      sum_nonneg fun k hk => mul_nonneg (mul_nonneg (mul_nonneg (mul_nonneg hp.ccov.le (by linarith))
        (hp.weights k (mem_range.mp hk))) (sq_nonneg _)) (sq_nonneg _)
    linarith
  refine ⟨_, rfl, fun i j => ?_, ?_, ?_⟩
  · by_cases hij : i = j
    · subst hij; rfl
    · simp only [hij, Ne.symm hij, false_and, if_false, hsym i j]
  · have := posDef_addDiag (g := fun i => if stuck i = true then p.ccov * newC p x s h pc i i else 0) hpos (by
      intro i hi
      split
      · exact mul_nonneg hp.ccov.le (posDef_entry hpos hi).le
      · exact le_rfl)
    intro y hy
    rw [quad_congr (W := fun i j => newC p x s h pc i j +
      if i = j then (if stuck i = true then p.ccov * newC p x s h pc i i else 0) else 0)]
    · exact this y hy
    · intro i j _ _
      by_cases hij : i = j
      · subst hij
        by_cases hst : stuck i = true
        · simp only [hst, and_self, if_true]; ring
        · simp [hst]
      · simp [hij]
  · exact mul_pos (mul_pos hs.sigma (Real.exp_pos _)) (Real.exp_pos _)

/-- The eigensystem: whenever one is found, after any number of failed tries, the distribution is proper, its
condition number is at most `1/eps + 1`, and the remembered eigenvalue is positive. -/
theorem C152_eigensystem {N : Nat} (hN : 0 < N) {eig : Nat → Mat → Option (Mat × (Nat → ℝ))} (heig : IsSolver N eig)
    {eps : ℝ} (heps : 0 < eps) (left : Nat) : ∀ (t : Nat) (good : ℝ) (s u : State) (g : ℝ), 0 < good →
      (∀ i j, s.C i j = s.C j i) → PosDef N s.C → 0 < s.sigma → eigLoop eig eps N left t good s = some (u, g) →
      Proper N u ∧ 0 < g ∧ (∀ k l, k < N → l < N → u.d k ^ 2 ≤ (1 / eps + 1) * u.d l ^ 2) ∧
      u.mean = s.mean ∧ u.sigma = s.sigma := by
  induction left with
  | zero => intro t good s u g _ _ _ _ h; cases h
  | succ left ih =>
    intro t good s u g hg hsym hpos hsigma h
    unfold eigLoop at h
    split at h
    · rename_i B v hev
      obtain ⟨ho, hd⟩ := heig t s.C hsym B v hev
      have hv : ∀ k, k < N → 0 < v k := by
        intro k hk
        obtain ⟨e1, e2⟩ := eig_quad ho hd hk
        rw [← e1]
        exact hpos _ e2
      obtain ⟨m, hm, hmin⟩ := minOf_mem hN v
      have hminpos : 0 < minOf N v := hmin ▸ hv m hm
      have hmaxpos : 0 < maxOf N v := lt_of_lt_of_le (hv 0 hN) (le_maxOf v hN)
      have he := lift_nonneg eps N v
      have hlow : maxOf N v * eps ≤ minOf N v + lift eps N v := by
        unfold lift; split <;> linarith
      have hup : lift eps N v ≤ maxOf N v * eps := by
        unfold lift; split
        · linarith
        · positivity
      generalize hE : lift eps N v = e at *
      simp only [Option.some.injEq, Prod.mk.injEq] at h
      obtain ⟨rfl, rfl⟩ := h
      have hsqrt : ∀ k, k < N → Real.sqrt (v k + e) ^ 2 = v k + e :=
        fun k hk => Real.sq_sqrt (by linarith [hv k hk])
      refine ⟨⟨fun i j => ?_, ?_, hsigma, fun k hk => Real.sqrt_pos.mpr (by linarith [hv k hk]), ho, ?_⟩,
        by linarith, ?_, rfl, rfl⟩
      · unfold addDiag
        by_cases hij : i = j
        · subst hij; rfl
        · simp only [if_neg hij, if_neg (Ne.symm hij), hsym i j]
      · have := posDef_addDiag (g := fun _ => e) hpos (fun _ _ => he)
        intro y hy
        rw [quad_congr (W := fun i j => s.C i j + if i = j then e else 0)]
        · exact this y hy
        · intro i j _ _; simp only [addDiag]; split <;> simp
      · intro i j hi hj
        simp only
        rw [sum_congr rfl fun k hk => show B i k * Real.sqrt (v k + e) ^ 2 * B j k =
          B i k * v k * B j k + e * (B i k * B j k) by rw [hsqrt k (mem_range.mp hk)]; ring, sum_add_distrib,
          ← hd i j hi hj, ← mul_sum, rows_orth ho hi hj]
        unfold addDiag
        split <;> simp
      · intro k l hk hl
        simp only
        rw [hsqrt k hk, hsqrt l hl]
        have h1 := le_maxOf v hk
        have h2 := minOf_le v hl
        have h3 : maxOf N v * eps ≤ v l + e := by linarith
        calc v k + e ≤ maxOf N v + maxOf N v * eps := by linarith
          _ = (1 / eps + 1) * (maxOf N v * eps) := by field_simp
          _ ≤ _ := mul_le_mul_of_nonneg_left h3 (by positivity)
    · rename_i hev
      have hpg : 0 ≤ good * Real.exp t := by positivity
      have := ih (t + 1) good { s with C := addDiag (good * Real.exp t) s.C } u g hg (by
          intro i j
          simp only [addDiag]
          by_cases hij : i = j
          · subst hij; rfl
          · simp only [if_neg hij, if_neg (Ne.symm hij), hsym i j]) (by
          have := posDef_addDiag (g := fun _ => good * Real.exp t) hpos (fun _ _ => hpg)
          intro y hy
          rw [quad_congr (W := fun i j => s.C i j + if i = j then good * Real.exp t else 0)]
          · exact this y hy
          · intro i j _ _; simp only [addDiag]; split <;> simp) hsigma h
      exact this

/-- Any number of generations: as long as eigensystems are found the distribution is proper. -/
theorem C152_run {p : Par} (hp : Usable p) {eig : Nat → Mat → Option (Mat × (Nat → ℝ))} (heig : IsSolver p.n eig)
    {eps : ℝ} (heps : 0 < eps) (gens : List Gen) : ∀ {s : State} {good : ℝ} {u : State} {g : ℝ}, Proper p.n s → 0 < good →
      run eig eps p gens (s, good) = some (u, g) → Proper p.n u ∧ 0 < g := by
  induction gens with
  | nil => intro s good u g hs hg h; cases h; exact ⟨hs, hg⟩
  | cons a gens ih =>
    intro s good u g hs hg h
    obtain ⟨t, h1, h2, h3, h4⟩ := C152_reestimate hp hs a.x a.worse a.stuck a.grow
    unfold run generation at h
    rw [h1] at h
    simp only at h
    split at h
    · cases h
    · rename_i sg' hsg
      obtain ⟨h5, h6, _⟩ := C152_eigensystem hp.n heig heps 10 0 good t sg'.1 sg'.2 hg h2 h3 h4 hsg
      exact ih h5 h6 h

/-- A solver that always answers lets every run complete. -/
theorem C152_total {p : Par} (hp : Usable p) {eig : Nat → Mat → Option (Mat × (Nat → ℝ))} (heig : IsSolver p.n eig)
    (hans : ∀ t C, (eig t C).isSome) {eps : ℝ} (heps : 0 < eps) (gens : List Gen) :
    ∀ {s : State} {good : ℝ}, Proper p.n s → 0 < good → ∃ r, run eig eps p gens (s, good) = some r := by
  induction gens with
  | nil => intro s good _ _; exact ⟨_, rfl⟩
  | cons a gens ih =>
    intro s good hs hg
    obtain ⟨t, h1, h2, h3, h4⟩ := C152_reestimate hp hs a.x a.worse a.stuck a.grow
    obtain ⟨⟨B, v⟩, hBv⟩ := Option.isSome_iff_exists.mp (hans 0 t.C)
    have hl : ∃ u g, eigLoop eig eps p.n 10 0 good t = some (u, g) := by
      unfold eigLoop
      rw [hBv]
      exact ⟨_, _, rfl⟩
    obtain ⟨u, g, hl⟩ := hl
    obtain ⟨h5, h6, _⟩ := C152_eigensystem hp.n heig heps 10 0 good t u g hg h2 h3 h4 hl
    obtain ⟨r, hr⟩ := ih h5 h6
    refine ⟨r, ?_⟩
    unfold run generation
    rw [h1]
    simp only [hl]
    exact hr

/-- From the default parameters and any initial point, any run with a solver that always answers. -/
example (n maxgen : Nat) (hn : 0 < n) (hsmall : defaultMu n < 2 ^ 32) (mean : Nat → ℝ) (gens : List Gen) :
    ∃ eig u g, run eig (1 / 2 ^ 52) (mkPar n maxgen 0 (defaultMu n) (defaultMu n)) gens
      (init n (fun _ => 3 / 10) mean 1, 1) = some (u, g) ∧ Proper n u := by
  obtain ⟨eig, h1, h2⟩ := exists_solver n
  have hp := C152_parameters (maxgen := maxgen) (scheme := 0) hn hsmall (by have := defaultMu_ge n; omega)
  have hi : Proper n (init n (fun _ => 3 / 10) mean 1) := C152_init hn (fun _ _ => by norm_num) one_pos
  obtain ⟨⟨u, g⟩, hr⟩ := C152_total hp h1 h2 (eps := 1 / 2 ^ 52) (by positivity) gens hi one_pos
  exact ⟨eig, u, g, hr, (C152_run hp h1 (by positivity) gens hi one_pos hr).1⟩

/-- Samples of a proper distribution have its mean, and its matrix times the square of the step size as their
covariance. -/
theorem C152_sample {Ω : Type} {E : (Ω → ℝ) →ₗ[ℝ] ℝ} {z : Ω → Nat → ℝ} {N : Nat} (hE : Edo.Standard E N z) {s : State}
    (hs : Proper N s) {i j : Nat} (hi : i < N) (hj : j < N) :
    E (fun ω => sample N s (z ω) i) = s.mean i ∧
    E (fun ω => (sample N s (z ω) i - s.mean i) * (sample N s (z ω) j - s.mean j)) = s.sigma ^ 2 * s.C i j := by
  obtain ⟨h1, h2⟩ := Edo.moments hE s.mean (fun i k => s.sigma * s.B i k * s.d k) i j
  have e : ∀ ω i, sample N s (z ω) i = s.mean i + ∑ k ∈ range N, s.sigma * s.B i k * s.d k * z ω k := by
    intro ω i
    unfold sample
    rw [mul_sum]
    congr 1
    exact sum_congr rfl fun k _ => by ring
  simp only [e]
  refine ⟨h1, ?_⟩
  rw [h2, hs.diag i j hi hj, mul_sum]
  exact sum_congr rfl fun k _ => by ring

/-! ## C153: the first generation inflates the distribution -/

/-- The covariance rule of the comment (CMAState.cpp 212-215), where the correction is scaled like the path. -/
noncomputable def docC (p : Par) (x : Nat → Nat → ℝ) (s : State) (h : ℝ) (pc : Nat → ℝ) : Mat :=
  fun i j => (1 - p.ccov) * s.C i j +
    p.ccov * (1 / p.mueff) * (pc i * pc j + (1 - h) * p.ccumcov * (2 - p.ccumcov) * s.C i j) +
    ∑ k ∈ range p.mu, p.ccov * (1 - 1 / p.mueff) * p.weights k * (x k i - s.mean i) * (x k j - s.mean j) /
      s.sigma / s.sigma

/-- In the first generation the path of the covariance is not updated. -/
theorem hsig_first (p : Par) (a : ℝ) : hsig p 0 a = 0 := by
  unfold hsig
  simp

/-- What the first generation does to the path of the covariance and to the matrix. -/
theorem first_generation {p : Par} (hp : Usable p) {s t : State} (hg : s.gen = 0) (hpc : ∀ i, s.pc i = 0)
    {x : Nat → Nat → ℝ} {worse : Bool} {grow : ℝ} {stuck : Nat → Bool}
    (ht : reestimate p x worse stuck grow s = some t) :
    (∀ i, t.pc i = 0) ∧ ∀ i j, t.C i j = if i = j ∧ stuck i = true then newC p x s 0 (fun _ => 0) i j * (1 + p.ccov)
      else newC p x s 0 (fun _ => 0) i j := by
  unfold reestimate at ht
  split at ht
  · cases ht
  · cases ht
    have e : newPc p x s 0 = fun _ => 0 := by
      funext i
      simp [newPc, hpc]
    simp only [hg, hsig_first, e, if_pos hp.ccov.ne']
    exact ⟨fun _ => trivial, fun _ _ => trivial⟩

/-- The default number of parents, and any number up to one and a half times the number of variables: after the
first generation the path of the covariance is still zero, and the variance in every direction has grown, wherever
the parents are. -/
theorem C153_first_generation_grows {n maxgen scheme mu : Nat} (hn : 0 < n) (hmu : mu < 2 ^ 32) (h : 0 < mu)
    (hle : 2 * mu ≤ 3 * n + 1) {s t : State} (hs : Proper n s) (hg : s.gen = 0) (hpc : ∀ i, s.pc i = 0)
    {x : Nat → Nat → ℝ} {worse : Bool} {grow : ℝ} {stuck : Nat → Bool}
    (ht : reestimate (mkPar n maxgen scheme mu mu) x worse stuck grow s = some t) :
    (∀ i, t.pc i = 0) ∧ ∀ y : Nat → ℝ, (∃ i, i < n ∧ y i ≠ 0) → quad n s.C y < quad n t.C y := by
  have hp := C152_parameters (maxgen := maxgen) (scheme := scheme) hn hmu h
  obtain ⟨h1, h2⟩ := first_generation hp hg hpc ht
  refine ⟨h1, fun y hy => ?_⟩
  have hrate : rateCov n (mueff scheme mu mu) < (4 : ℝ) / (n + 4) * (2 - 4 / (n + 4)) := by
    have hb := mueff_bounds (scheme := scheme) hmu h
    refine rateCov_lt hn hb.1 ?_
    have : (2 : ℝ) * mu ≤ 3 * n + 1 := by exact_mod_cast hle
    linarith [hb.2]
  generalize hP : mkPar n maxgen scheme mu mu = p at *
  have hcc : p.ccov = rateCov n (mueff scheme mu mu) := by rw [← hP]; rfl
  have hcv : p.ccumcov = (4 : ℝ) / (n + 4) := by rw [← hP]; rfl
  have hpn : p.n = n := by rw [← hP]; rfl
  have hq := hs.pos y hy
  have hr' : 1 / p.mueff ≤ 1 := by rw [div_le_one (by linarith [hp.mueff])]; exact hp.mueff
  have hsum : ∀ z : Nat → ℝ, 0 ≤ ∑ k ∈ range p.mu, p.ccov * (1 - 1 / p.mueff) * p.weights k * (1 / s.sigma) ^ 2 *
        (∑ a ∈ range n, z a * (x k a - s.mean a)) ^ 2 := fun z =>
    sum_nonneg fun k hk => mul_nonneg (mul_nonneg (mul_nonneg (mul_nonneg hp.ccov.le (by linarith))
        (hp.weights k (mem_range.mp hk))) (sq_nonneg _)) (sq_nonneg _)
  have hnew : ∀ z : Nat → ℝ, (∃ i, i < n ∧ z i ≠ 0) → quad n s.C z < quad n (newC p x s 0 (fun _ => 0)) z := by
    intro z hz
    rw [quad_newC]
    have hqz := hs.pos z hz
    have h3 : 1 * quad n s.C z < (1 - p.ccov + (1 - 0) * p.ccumcov * (2 - p.ccumcov)) * quad n s.C z := by
      apply mul_lt_mul_of_pos_right _ hqz
      rw [hcc, hcv]
      linarith
    have h4 : 0 ≤ p.ccov * (1 / p.mueff) * (∑ a ∈ range n, z a * (fun _ => (0 : ℝ)) a) ^ 2 := by simp
    linarith [hsum z]
  have hpos : PosDef n (newC p x s 0 (fun _ => 0)) := fun z hz => (hs.pos z hz).trans (hnew z hz)
  have hdiag : 0 ≤ ∑ a ∈ range n, (if stuck a = true then p.ccov * newC p x s 0 (fun _ => 0) a a else 0) * y a ^ 2 := by
    refine sum_nonneg fun a ha => mul_nonneg ?_ (sq_nonneg _)
    split
    · exact mul_nonneg hp.ccov.le (posDef_entry hpos (mem_range.mp ha)).le
    · exact le_rfl
  rw [quad_congr (V := t.C) (W := fun i j => newC p x s 0 (fun _ => 0) i j +
      if i = j then (if stuck i = true then p.ccov * newC p x s 0 (fun _ => 0) i i else 0) else 0), quad_add, quad_diag]
  · linarith [hnew y hy]
  · intro i j _ _
    rw [h2]
    by_cases hij : i = j
    · subst hij
      by_cases hst : stuck i = true
      · simp only [hst, and_self, if_true]; ring
      · simp [hst]
    · simp [hij]

/-- Parents that all stand at the initial mean: the matrix is multiplied by a factor above one, where the rule in
the comment multiplies it by a factor below one. -/
theorem C153_parents_at_mean {n maxgen scheme mu : Nat} (hn : 0 < n) (hmu : mu < 2 ^ 32) (h : 0 < mu)
    (hle : 2 * mu ≤ 3 * n + 1) {s t : State} (hg : s.gen = 0) (hpc : ∀ i, s.pc i = 0)
    {x : Nat → Nat → ℝ} (hx : ∀ k i, x k i = s.mean i) {worse : Bool} {grow : ℝ}
    (ht : reestimate (mkPar n maxgen scheme mu mu) x worse (fun _ => false) grow s = some t) :
    (∃ c, 1 < c ∧ ∀ i j, t.C i j = c * s.C i j) ∧
    ∃ c, c < 1 ∧ ∀ i j, docC (mkPar n maxgen scheme mu mu) x s 0 t.pc i j = c * s.C i j := by
  have hp := C152_parameters (maxgen := maxgen) (scheme := scheme) hn hmu h
  obtain ⟨h1, h2⟩ := first_generation hp hg hpc ht
  have hb := mueff_bounds (scheme := scheme) hmu h
  have hrate : rateCov n (mueff scheme mu mu) < (4 : ℝ) / (n + 4) * (2 - 4 / (n + 4)) := by
    refine rateCov_lt hn hb.1 ?_
    have : (2 : ℝ) * mu ≤ 3 * n + 1 := by exact_mod_cast hle
    linarith [hb.2]
  have hlt : (4 : ℝ) / (n + 4) < 1 := by
    have : (0 : ℝ) < n := by exact_mod_cast hn
    rw [div_lt_one (by positivity)]; linarith
  have hrp := (rateCov_range hn hb.1).1
  generalize hP : mkPar n maxgen scheme mu mu = p at *
  have hcc : p.ccov = rateCov n (mueff scheme mu mu) := by rw [← hP]; rfl
  have hcv : p.ccumcov = (4 : ℝ) / (n + 4) := by rw [← hP]; rfl
  have hr : 0 < 1 / p.mueff := one_div_pos.mpr (by linarith [hp.mueff])
  have hr' : 1 / p.mueff ≤ 1 := by rw [div_le_one (by linarith [hp.mueff])]; exact hp.mueff
  refine ⟨⟨1 - p.ccov + p.ccumcov * (2 - p.ccumcov), ?_, fun i j => ?_⟩,
    ⟨1 - p.ccov + p.ccov * (1 / p.mueff) * (p.ccumcov * (2 - p.ccumcov)), ?_, fun i j => ?_⟩⟩
  · rw [hcc, hcv]; linarith
  · rw [h2]
    simp only [Bool.false_eq_true, and_false, if_false, newC, hx, sub_self, mul_zero, zero_mul, zero_div,
      sum_const_zero]
    ring
  · have hc1 : p.ccumcov * (2 - p.ccumcov) < 1 := by
      rw [hcv]; nlinarith [sq_pos_of_pos (sub_pos.mpr hlt)]
    have hc0 : 0 < p.ccumcov * (2 - p.ccumcov) := mul_pos hp.ccumcov (by linarith [hp.ccumcov'])
    have : 1 / p.mueff * (p.ccumcov * (2 - p.ccumcov)) < 1 := by nlinarith
    have := mul_lt_mul_of_pos_left this hp.ccov
    linarith
  · simp only [docC, hx, h1, sub_self, mul_zero, zero_mul, zero_div, sum_const_zero]
    ring

/-- The default number of parents is small enough. -/
theorem C153_default {n : Nat} (hn : 0 < n) : 0 < defaultMu n ∧ 2 * defaultMu n ≤ 3 * n + 1 :=
  ⟨by have := defaultMu_ge n; omega, defaultMu_le hn⟩

/-- The initial state with the parents at the mean: the update is defined. -/
example (n maxgen : Nat) (hn : 0 < n) (hsmall : defaultMu n < 2 ^ 32) (mean : Nat → ℝ) :
    ∃ t, reestimate (mkPar n maxgen 0 (defaultMu n) (defaultMu n)) (fun _ => mean) false (fun _ => false) 0
      (init n (fun _ => 3 / 10) mean 1) = some t ∧ ∃ c, 1 < c ∧ ∀ i j, t.C i j = c * (init n (fun _ => 3 / 10) mean 1).C i j := by
  have hp := C152_parameters (maxgen := maxgen) (scheme := 0) hn hsmall (C153_default hn).1
  have hi : Proper n (init n (fun _ => 3 / 10) mean 1) := C152_init hn (fun _ _ => by norm_num) one_pos
  obtain ⟨t, ht, _⟩ := C152_reestimate hp hi (fun _ => mean) false (fun _ => false) 0
  exact ⟨t, ht, (C153_parents_at_mean hn hsmall (C153_default hn).1 (C153_default hn).2 rfl (fun _ => rfl)
    (fun _ _ => rfl) ht).1⟩

end Paradiseo.Cma
