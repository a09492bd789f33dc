import Verif.Lemmas.EdoCMA
import Verif.Props.EdoEstim

/-! # edo: CMA-ES (C134 - C138) -/

namespace Paradiseo.Edo

open Finset

/-! ## C134: recombination -/

/-- The weights are positive, decrease with the rank and sum to one. -/
theorem C134_weights {lam : Nat} (h : 0 < lam) :
    (∀ i, i < lam → 0 < weight lam i) ∧ (∀ i j, i < j → weight lam j < weight lam i) ∧
    ∑ i ∈ range lam, weight lam i = 1 :=
  ⟨fun _ hi => weight_pos hi, fun _ _ hij => div_lt_div_of_pos_right (rawWeight_anti hij) (rawSum_pos h),
    weight_sum h⟩

/-- The effective number of individuals is between one and the number of individuals, and grows without
bound. -/
theorem C134_effective : (∀ lam, 0 < lam → 1 ≤ mueff lam ∧ mueff lam ≤ lam) ∧
    ∀ b : ℝ, ∃ lam, 0 < lam ∧ b ≤ mueff lam :=
  ⟨fun _ h => ⟨mueff_ge_one h, mueff_le h⟩, mueff_unbounded⟩

theorem cmaUpdate_mean {eig : Mat → Mat × (Nat → ℝ)} {N lam : Nat} {arx : Nat → Nat → ℝ} {s t : CMA}
    (h : cmaUpdate eig N lam arx s = some t) : 0 < N ∧ 0 < lam ∧ t.mean = newMean lam arx := by
  unfold cmaUpdate at h
  split at h
  · simp at h
  · rename_i hc
    push Not at hc
    refine ⟨by omega, by omega, ?_⟩
    unfold decompose at h
    simp only at h
    split at h
    · split at h
      · simp at h
      · obtain rfl := Option.some.inj h; rfl
    · obtain rfl := Option.some.inj h; rfl

/-- The new mean is in the convex hull of the population: a linear constraint that all individuals satisfy
is satisfied by the mean. -/
theorem C134_mean_in_hull {eig : Mat → Mat × (Nat → ℝ)} {N lam : Nat} {arx : Nat → Nat → ℝ} {s t : CMA}
    (h : cmaUpdate eig N lam arx s = some t) (c : Nat → ℝ) (b : ℝ)
    (hc : ∀ i, i < lam → ∑ d ∈ range N, c d * arx d i ≤ b) : ∑ d ∈ range N, c d * t.mean d ≤ b := by
  obtain ⟨_, hl, hm⟩ := cmaUpdate_mean h
  rw [hm]
  unfold newMean
  have e : ∑ d ∈ range N, c d * ∑ i ∈ range lam, arx d i * weight lam i =
      ∑ i ∈ range lam, weight lam i * ∑ d ∈ range N, c d * arx d i := by
    simp only [mul_sum]
    rw [sum_comm]
    exact sum_congr rfl fun i _ => sum_congr rfl fun d _ => by ring
  rw [e]
  calc ∑ i ∈ range lam, weight lam i * ∑ d ∈ range N, c d * arx d i
      ≤ ∑ i ∈ range lam, weight lam i * b := by
        apply sum_le_sum
        intro i hi
        exact mul_le_mul_of_nonneg_left (hc i (mem_range.mp hi)) (weight_pos (mem_range.mp hi)).le
    _ = b := by rw [← sum_mul, weight_sum hl, one_mul]

/-! ## C135: the distribution stays a distribution -/

/-- What the eigenvalue solver promises for symmetric matrices: orthonormal eigenvectors, and the matrix is
recovered from them and the eigenvalues. -/
structure IsEig (N : Nat) (eig : Mat → Mat × (Nat → ℝ)) : Prop where
  orth : ∀ C : Mat, (∀ i j, C i j = C j i) → ∀ k l, k < N → l < N →
    ∑ i ∈ range N, (eig C).1 i k * (eig C).1 i l = if k = l then 1 else 0
  diag : ∀ C : Mat, (∀ i j, C i j = C j i) → ∀ i j, i < N → j < N →
    C i j = ∑ k ∈ range N, (eig C).1 i k * (eig C).2 k * (eig C).1 j k

open Classical in
/-- There is such a solver. -/
theorem exists_isEig (N : Nat) : ∃ eig, IsEig N eig := by
  refine ⟨fun C => if h : ∀ i j, C i j = C j i then (exists_eigen N C h).choose else (C, fun _ => 0), ?_, ?_⟩
  · intro C h
    simp only [dif_pos h]
    exact (exists_eigen N C h).choose_spec.1
  · intro C h
    simp only [dif_pos h]
    exact (exists_eigen N C h).choose_spec.2

/-- A proper distribution: symmetric positive definite matrix, positive step size and scaling, orthonormal
coordinate system. -/
structure Proper (N : Nat) (s : CMA) : Prop where
  sym : ∀ i j, s.covar i j = s.covar j i
  pos : PosDef N s.covar
  sigma : 0 < s.sigma
  scaling : ∀ k, k < N → 0 < s.scaling k
  orth : ∀ k l, k < N → l < N → ∑ i ∈ range N, s.coord i k * s.coord i l = if k = l then 1 else 0

theorem posDef_one (N : Nat) : PosDef N (fun i j => if i = j then 1 else 0) := by
  rintro x ⟨i, hi, hx⟩
  have e : quad N (fun i j => if i = j then 1 else 0) x = ∑ a ∈ range N, x a ^ 2 := by
    unfold quad
    refine sum_congr rfl fun a ha => ?_
    simp only [mul_ite, mul_one, mul_zero, ite_mul, zero_mul, sum_ite_eq, if_pos ha]
    ring
  rw [e]
  exact sum_pos' (fun a _ => sq_nonneg _) ⟨i, mem_range.mpr hi, by positivity⟩

theorem proper_init (N : Nat) : Proper N CMA.init where
  sym i j := by simp [CMA.init, eq_comm]
  pos := posDef_one N
  sigma := one_pos
  scaling _ _ := one_pos
  orth k l hk _ := by
    simp only [CMA.init]
    rw [sum_congr rfl fun i _ => show (if i = k then (1 : ℝ) else 0) * (if i = l then 1 else 0) =
      if i = k then (if k = l then 1 else 0) else 0 by
        split
        · rename_i h; subst h; simp
        · simp]
    rw [sum_ite_eq' (range N) k, if_pos (mem_range.mpr hk)]

theorem hsig_cases (N lam : Nat) (s : CMA) (ps : Nat → ℝ) : hsig N lam s ps = 0 ∨ hsig N lam s ps = 1 := by
  unfold hsig
  simp only
  split <;> simp

/-- One update of a proper distribution with at most `(N+1.3)^2` individuals is defined and gives a proper
distribution. -/
theorem C135_step {eig : Mat → Mat × (Nat → ℝ)} {N lam : Nat} (heig : IsEig N eig) (hN : 0 < N) (hl : 0 < lam)
    (hlam : (lam : ℝ) ≤ (N + 13 / 10) ^ 2) (arx : Nat → Nat → ℝ) {s : CMA} (hs : Proper N s) :
    ∃ t, cmaUpdate eig N lam arx s = some t ∧ Proper N t := by
  have hm := mueff_ge_one hl
  obtain ⟨h1, h2, h3, h4, _⟩ := rates hN hm
  have h5 := rates_sum_lt hN hm ((mueff_le hl).trans hlam)
  have hcond : ¬ (N = 0 ∨ lam = 0 ∨ s.sigma = 0 ∨ ∃ k, k < N ∧ s.scaling k = 0) := by
    rintro (h | h | h | ⟨k, hk, h⟩)
    · omega
    · omega
    · exact hs.sigma.ne' h
    · exact (hs.scaling k hk).ne' h
  unfold cmaUpdate
  rw [if_neg hcond]
  simp only
  generalize hps : newPathS N lam arx s = ps
  generalize hh : hsig N lam s ps = h
  generalize hpc : newPathC N lam arx s h = pc
  have hh' : h = 0 ∨ h = 1 := hh ▸ hsig_cases N lam s ps
  have hsym : ∀ i j, newCovar N lam arx s h pc i j = newCovar N lam arx s h pc j i := by
    intro i j
    unfold newCovar
    simp only [hs.sym i j]
    congr 1
    · ring
    · exact sum_congr rfl fun i _ => by ring
  have hpos : PosDef N (newCovar N lam arx s h pc) := by
    intro x hx
    rw [quad_newCovar]
    have hq := hs.pos x hx
    have g1 : 0 < (1 - rateC1 N (mueff lam) - rateCmu N (mueff lam)) * quad N s.covar x :=
      mul_pos (by linarith) hq
    have g2 : 0 ≤ rateC1 N (mueff lam) * ((∑ a ∈ range N, x a * pc a) ^ 2 +
        (1 - h) * rateCC N (mueff lam) * (2 - rateCC N (mueff lam)) * quad N s.covar x) := by
      apply mul_nonneg h1.le
      apply add_nonneg (sq_nonneg _)
      apply mul_nonneg _ hq.le
      apply mul_nonneg _ (by linarith)
      apply mul_nonneg _ h3.le
      rcases hh' with rfl | rfl <;> norm_num
    have g3 : 0 ≤ ∑ i ∈ range lam,
        rateCmu N (mueff lam) * weight lam i * (∑ a ∈ range N, x a * steps arx s a i) ^ 2 :=
      sum_nonneg fun i hi => mul_nonneg (mul_nonneg h2 (weight_pos (mem_range.mp hi)).le) (sq_nonneg _)
    linarith
  have hsig' : 0 < newSigma N lam s ps := mul_pos hs.sigma (Real.exp_pos _)
  unfold decompose
  simp only
  split
  · have hv : ∀ k, k < N → 0 < (eig (newCovar N lam arx s h pc)).2 k := by
      intro k hk
      obtain ⟨e1, e2⟩ := eig_quad (heig.orth _ hsym) (heig.diag _ hsym) hk
      rw [← e1]
      exact hpos _ e2
    rw [if_neg (by rintro ⟨k, hk, hneg⟩; exact absurd (hv k hk) (by linarith))]
    exact ⟨_, rfl, hsym, hpos, hsig', fun k hk => Real.sqrt_pos.mpr (hv k hk), heig.orth _ hsym⟩
  · exact ⟨_, rfl, hsym, hpos, hsig', hs.scaling, hs.orth⟩

/-- Any number of generations from the initial distribution, whatever the populations are. -/
theorem C135_run {eig : Mat → Mat × (Nat → ℝ)} {N : Nat} (heig : IsEig N eig) (hN : 0 < N)
    (gens : List (Nat × (Nat → Nat → ℝ))) (hg : ∀ g ∈ gens, 0 < g.1 ∧ (g.1 : ℝ) ≤ (N + 13 / 10) ^ 2) :
    ∃ t, cmaRun eig N gens CMA.init = some t ∧ Proper N t := by
  have key : ∀ (gens : List (Nat × (Nat → Nat → ℝ))) (s : CMA),
      (∀ g ∈ gens, 0 < g.1 ∧ (g.1 : ℝ) ≤ (N + 13 / 10) ^ 2) → Proper N s →
      ∃ t, cmaRun eig N gens s = some t ∧ Proper N t := by
    intro gens
    induction gens with
    | nil => intro s _ hs; exact ⟨s, rfl, hs⟩
    | cons g gens ih =>
      intro s hg hs
      obtain ⟨lam, arx⟩ := g
      obtain ⟨g1, g2⟩ := hg (lam, arx) (List.mem_cons_self ..)
      obtain ⟨t, h1, h2⟩ := C135_step heig hN g1 g2 arx hs
      obtain ⟨r, h3, h4⟩ := ih t (fun g hg' => hg g (List.mem_cons_of_mem _ hg')) h2
      exact ⟨r, by rw [cmaRun, h1]; exact h3, h4⟩
  exact key gens CMA.init hg (proper_init N)

/-- Five individuals in two dimensions are few enough. -/
example : (0 : ℕ) < 5 ∧ ((5 : ℕ) : ℝ) ≤ ((2 : ℕ) + 13 / 10) ^ 2 := by norm_num

/-! ## C136: too many individuals -/

/-- The learning rates are not limited: with enough individuals they exceed one together. -/
theorem C136_rates_exceed_one (N : Nat) : ∃ lam, 0 < lam ∧ 1 < rateC1 N (mueff lam) + rateCmu N (mueff lam) := by
  obtain ⟨lam, h1, h2⟩ := mueff_unbounded (((N : ℝ) + 2) ^ 2 + 4)
  exact ⟨lam, h1, rates_sum_gt h2⟩

/-- One update of the initial distribution with a population concentrated at its mean then makes the matrix
negative definite, and its square root is undefined. -/
theorem C136_breaks_down {eig : Mat → Mat × (Nat → ℝ)} {N lam : Nat} (heig : IsEig N eig) (hN : 0 < N)
    (hl : 0 < lam) (hl2 : lam < 2 ^ 32) (h : 1 < rateC1 N (mueff lam) + rateCmu N (mueff lam)) :
    cmaUpdate eig N lam (fun _ _ => 0) CMA.init = none := by
  have hNp : (1 : ℝ) ≤ N := by exact_mod_cast hN
  have hlp : (1 : ℝ) ≤ lam := by exact_mod_cast hl
  have hm := mueff_ge_one hl
  obtain ⟨h1, h2, h3, h4, h5, h6, _⟩ := rates hN hm
  have hmean : newMean lam (fun _ _ => 0) = fun _ => 0 := by funext d; simp [newMean]
  have hps : newPathS N lam (fun _ _ => 0) CMA.init = fun _ => 0 := by
    funext i
    simp [newPathS, hmean, CMA.init]
  have hpc : ∀ h, newPathC N lam (fun _ _ => 0) CMA.init h = fun _ => 0 := by
    intro h
    funext i
    simp [newPathC, hmean, CMA.init]
  have hcount : counteval lam CMA.init = lam := by
    simp only [counteval, CMA.init]
    rw [Nat.mod_eq_of_lt (a := 0 + 1) (by norm_num)]
    omega
  have hh : hsig N lam CMA.init (fun _ => 0) = 1 := by
    unfold hsig
    simp only
    rw [if_pos]
    refine ⟨by rw [hcount]; omega, ?_⟩
    have : norm2 N (fun _ => 0) = 0 := by simp [norm2]
    rw [this, zero_div, zero_div]
    positivity
  unfold cmaUpdate
  rw [if_neg (by
    rintro (h | h | h | ⟨k, _, h⟩)
    · omega
    · omega
    · exact one_ne_zero h
    · exact one_ne_zero h)]
  simp only [hps, hh, hpc, hmean, hcount]
  have hcov : ∀ i j, newCovar N lam (fun _ _ => 0) CMA.init 1 (fun _ => 0) i j =
      (1 - rateC1 N (mueff lam) - rateCmu N (mueff lam)) * (if i = j then 1 else 0) := by
    intro i j
    simp [newCovar, steps, CMA.init]
  generalize hC : newCovar N lam (fun _ _ => 0) CMA.init 1 (fun _ => 0) = C at hcov
  have hsym : ∀ i j, C i j = C j i := by
    intro i j
    rw [hcov, hcov]
    simp [eq_comm]
  unfold decompose
  simp only
  rw [if_pos]
  · rw [if_pos]
    refine ⟨0, hN, ?_⟩
    obtain ⟨e1, e2⟩ := eig_quad (heig.orth C hsym) (heig.diag C hsym) hN
    rw [← e1, quad_congr (fun a b _ _ => hcov a b), quad_smul N _ (fun i j => if i = j then 1 else 0)]
    exact mul_neg_of_neg_of_pos (by linarith) (posDef_one N _ e2)
  · have : (lam + 2 ^ 32 - CMA.init.eigeneval) % 2 ^ 32 = lam := by
      simp only [CMA.init]
      omega
    rw [this, gt_iff_lt]
    have hsum : 0 < rateC1 N (mueff lam) + rateCmu N (mueff lam) := by linarith
    rw [div_div, div_div, div_lt_iff₀ (by positivity)]
    have : 1 < (rateC1 N (mueff lam) + rateCmu N (mueff lam)) * (N * 10) := by nlinarith
    nlinarith

/-- This can happen in all dimensions up to 5790 (population sizes have 32 bits), for instance in two
dimensions with 512 individuals. -/
theorem C136_witness {N : Nat} (hN : 0 < N) (k : Nat) (hk : k < 31)
    (h : (((N : ℝ) + 2) ^ 2 + 4) * (k + 2) ≤ 2 ^ k) {eig : Mat → Mat × (Nat → ℝ)} (heig : IsEig N eig) :
    cmaUpdate eig N (2 ^ (k + 1)) (fun _ _ => 0) CMA.init = none := by
  apply C136_breaks_down heig hN (by positivity) (Nat.pow_lt_pow_right (by norm_num) (by omega))
  apply rates_sum_gt
  refine le_trans ?_ (mueff_pow k)
  rwa [le_div_iff₀ (by positivity)]

example : ((((2 : ℕ) : ℝ) + 2) ^ 2 + 4) * ((8 : ℕ) + 2) ≤ 2 ^ 8 := by norm_num

example (N : Nat) (h : N ≤ 5790) : (((N : ℝ) + 2) ^ 2 + 4) * ((30 : ℕ) + 2) ≤ 2 ^ 30 := by
  have : (N : ℝ) ≤ 5790 := by exact_mod_cast h
  have h0 : (0 : ℝ) ≤ N := by positivity
  norm_num
  nlinarith

/-! ## C137: samples and step size -/

/-- Samples have the mean of the distribution, and their covariance is that of the coordinate system and
the scaling times the square of the step size. -/
theorem C137_moments {Ω : Type} {E : (Ω → ℝ) →ₗ[ℝ] ℝ} {z : Ω → Nat → ℝ} {N : Nat} (hE : Standard E N z)
    (s : CMA) (i j : Nat) :
    E (fun ω => cmaSample N s (z ω) i) = s.mean i ∧
    E (fun ω => (cmaSample N s (z ω) i - s.mean i) * (cmaSample N s (z ω) j - s.mean j)) =
      s.sigma ^ 2 * ∑ k ∈ range N, s.coord i k * s.scaling k ^ 2 * s.coord j k := by
  obtain ⟨h1, h2⟩ := moments hE s.mean (fun i k => s.sigma * s.coord i k * s.scaling k) i j
  have e : ∀ ω i, cmaSample N s (z ω) i =
      s.mean i + ∑ k ∈ range N, s.sigma * s.coord i k * s.scaling k * z ω k := by
    intro ω i
    unfold cmaSample
    congr 1
    exact sum_congr rfl fun k _ => by ring
  simp only [e]
  refine ⟨h1, ?_⟩
  rw [h2, mul_sum]
  exact sum_congr rfl fun k _ => by ring

/-- When an update has decomposed the matrix, the samples have the covariance of the distribution times the
square of the step size. -/
theorem C137_after_decomposition {eig : Mat → Mat × (Nat → ℝ)} {N lam : Nat} (heig : IsEig N eig)
    {arx : Nat → Nat → ℝ} {s t : CMA} (hs : ∀ i j, s.covar i j = s.covar j i)
    (h : cmaUpdate eig N lam arx s = some t) (hd : t.eigeneval ≠ s.eigeneval)
    {Ω : Type} {E : (Ω → ℝ) →ₗ[ℝ] ℝ} {z : Ω → Nat → ℝ} (hE : Standard E N z) (i j : Nat) (hi : i < N)
    (hj : j < N) :
    E (fun ω => (cmaSample N t (z ω) i - t.mean i) * (cmaSample N t (z ω) j - t.mean j)) =
      t.sigma ^ 2 * t.covar i j := by
  rw [(C137_moments hE t i j).2]
  congr 1
  unfold cmaUpdate at h
  split at h
  · simp at h
  · simp only at h
    generalize newPathS N lam arx s = ps at h
    generalize hsig N lam s ps = hh at h
    generalize newPathC N lam arx s hh = pc at h
    have hsym : ∀ i j, newCovar N lam arx s hh pc i j = newCovar N lam arx s hh pc j i := by
      intro i j
      unfold newCovar
      simp only [hs i j]
      congr 1
      · ring
      · exact sum_congr rfl fun i _ => by ring
    unfold decompose at h
    simp only at h
    split at h
    · split at h
      · simp at h
      · rename_i hneg
        obtain rfl := Option.some.inj h
        simp only
        rw [heig.diag _ hsym i j hi hj]
        refine sum_congr rfl fun k hk => ?_
        rw [Real.sq_sqrt]
        by_contra hcon
        exact hneg ⟨k, mem_range.mp hk, lt_of_not_ge hcon⟩
    · obtain rfl := Option.some.inj h
      exact absurd rfl hd

/-- The documented approximation of the expected norm of a normal vector. -/
noncomputable def chiDoc (N : Nat) : ℝ := Real.sqrt N * (1 - 1 / (4 * N) + 1 / (21 * (N : ℝ) ^ 2))

/-- The constant in the code is larger, because of an integer division; so the step size shrinks when the
path has exactly the length announced as neutral. -/
theorem C137_step_size_bias {N lam : Nat} (hN : 0 < N) (hl : 0 < lam) (s : CMA) (hs : 0 < s.sigma)
    (ps : Nat → ℝ) (h : norm2 N ps = chiDoc N) :
    chiDoc N < chiN N ∧ Real.sqrt N < chiN N ∧ newSigma N lam s ps < s.sigma := by
  have hNp : (0 : ℝ) < N := by exact_mod_cast hN
  have hsq : 0 < Real.sqrt N := Real.sqrt_pos.mpr hNp
  have e := chiN_eq hN
  have h1 : chiDoc N < chiN N := by
    rw [e]
    unfold chiDoc
    apply mul_lt_mul_of_pos_left _ hsq
    have : 0 < 1 / (4 * (N : ℝ)) := by positivity
    linarith
  have h2 : Real.sqrt N < chiN N := by
    rw [e]
    have : 0 < 1 / (21 * (N : ℝ) ^ 2) := by positivity
    nlinarith
  refine ⟨h1, h2, ?_⟩
  obtain ⟨_, _, _, _, h5, _, h7⟩ := rates hN (mueff_ge_one hl)
  unfold newSigma
  simp only
  rw [h]
  have hlt : chiDoc N / chiN N - 1 < 0 := by
    rw [sub_neg, div_lt_one (chiN_pos hN)]
    exact h1
  have : Real.exp (rateCS N (mueff lam) / damps N (mueff lam) * (chiDoc N / chiN N - 1)) < 1 := by
    rw [Real.exp_lt_one_iff]
    exact mul_neg_of_pos_of_neg (div_pos h5 (by linarith)) hlt
  nlinarith

/-- There is a path of this length. -/
example : ∃ ps, norm2 1 ps = chiDoc 1 := by
  refine ⟨fun _ => chiDoc 1, ?_⟩
  have : 0 ≤ chiDoc 1 := by unfold chiDoc; norm_num
  simp [norm2, Real.sqrt_sq this]

/-! ## C138: invariance -/

/-- A change of origin and unit. -/
def CMA.affine (a : ℝ) (v : Nat → ℝ) (s : CMA) : CMA :=
  { s with mean := fun d => a * s.mean d + v d, sigma := a * s.sigma }

/-- Updates commute with changes of origin and unit. -/
theorem C138_update (eig : Mat → Mat × (Nat → ℝ)) (N lam : Nat) (arx : Nat → Nat → ℝ) (s : CMA) (a : ℝ)
    (ha : 0 < a) (v : Nat → ℝ) :
    cmaUpdate eig N lam (fun d i => a * arx d i + v d) (s.affine a v) =
      (cmaUpdate eig N lam arx s).map (CMA.affine a v) := by
  unfold cmaUpdate
  by_cases hc : N = 0 ∨ lam = 0 ∨ s.sigma = 0 ∨ ∃ k, k < N ∧ s.scaling k = 0
  · rw [if_pos hc, if_pos]
    · rfl
    · rcases hc with h | h | h | h
      · exact Or.inl h
      · exact Or.inr (Or.inl h)
      · exact Or.inr (Or.inr (Or.inl (by simp [CMA.affine, h])))
      · exact Or.inr (Or.inr (Or.inr h))
  · have hc' : ¬ (N = 0 ∨ lam = 0 ∨ (s.affine a v).sigma = 0 ∨ ∃ k, k < N ∧ (s.affine a v).scaling k = 0) := by
      rintro (h | h | h | h)
      · exact hc (Or.inl h)
      · exact hc (Or.inr (Or.inl h))
      · have : a * s.sigma = 0 := h
        exact hc (Or.inr (Or.inr (Or.inl ((mul_eq_zero.mp this).resolve_left ha.ne'))))
      · exact hc (Or.inr (Or.inr (Or.inr h)))
    rw [if_neg hc, if_neg hc']
    push Not at hc
    obtain ⟨_, hl, hsg, _⟩ := hc
    have hl0 : 0 < lam := by omega
    have hmean : newMean lam (fun d i => a * arx d i + v d) = fun d => a * newMean lam arx d + v d := by
      funext d
      unfold newMean
      have : ∀ i, (a * arx d i + v d) * weight lam i = a * (arx d i * weight lam i) + v d * weight lam i :=
        fun i => by ring
      simp only [this, sum_add_distrib, ← mul_sum, weight_sum hl0, mul_one]
    have hps : newPathS N lam (fun d i => a * arx d i + v d) (s.affine a v) = newPathS N lam arx s := by
      funext i
      unfold newPathS
      simp only [hmean, CMA.affine, invSqrt]
      congr 1
      rw [div_eq_div_iff (by positivity) hsg, sum_mul, sum_mul]
      exact sum_congr rfl fun j _ => by ring
    have hpc : ∀ h, newPathC N lam (fun d i => a * arx d i + v d) (s.affine a v) h = newPathC N lam arx s h := by
      intro h
      funext i
      unfold newPathC
      simp only [hmean, CMA.affine]
      field_simp
      ring
    have hst : steps (fun d i => a * arx d i + v d) (s.affine a v) = steps arx s := by
      funext d i
      simp only [steps, CMA.affine]
      field_simp
      ring
    have hh : ∀ ps, hsig N lam (s.affine a v) ps = hsig N lam s ps := fun ps => rfl
    have hcov : ∀ h pc, newCovar N lam (fun d i => a * arx d i + v d) (s.affine a v) h pc =
        newCovar N lam arx s h pc := by
      intro h pc
      funext i j
      simp only [newCovar, hst]
      rfl
    have hsg' : ∀ ps, newSigma N lam (s.affine a v) ps = a * newSigma N lam s ps := by
      intro ps
      simp only [newSigma, CMA.affine]
      ring
    simp only [hps, hh, hpc, hcov, hsg', hmean]
    unfold decompose
    simp only
    have hcount : counteval lam (s.affine a v) = counteval lam s := rfl
    have heg : (s.affine a v).eigeneval = s.eigeneval := rfl
    rw [hcount, heg]
    split
    · split <;> rfl
    · rfl

/-- So do samples and whole runs. -/
theorem C138_run (eig : Mat → Mat × (Nat → ℝ)) (N : Nat) (gens : List (Nat × (Nat → Nat → ℝ))) (s : CMA) (a : ℝ)
    (ha : 0 < a) (v : Nat → ℝ) :
    cmaRun eig N (gens.map fun g => (g.1, fun d i => a * g.2 d i + v d)) (s.affine a v) =
      (cmaRun eig N gens s).map (CMA.affine a v) ∧
    ∀ z i, cmaSample N (s.affine a v) z i = a * cmaSample N s z i + v i := by
  constructor
  · induction gens generalizing s with
    | nil => rfl
    | cons g gens ih =>
      obtain ⟨lam, arx⟩ := g
      simp only [List.map_cons, cmaRun, C138_update eig N lam arx s a ha v]
      cases cmaUpdate eig N lam arx s with
      | none => rfl
      | some t => exact ih t
  · intro z i
    simp only [cmaSample, CMA.affine]
    rw [mul_add, mul_sum]
    have : ∑ k ∈ range N, a * s.sigma * s.coord i k * (s.scaling k * z k) =
        ∑ k ∈ range N, a * (s.sigma * s.coord i k * (s.scaling k * z k)) := sum_congr rfl fun k _ => by ring
    rw [this]
    ring

end Paradiseo.Edo
