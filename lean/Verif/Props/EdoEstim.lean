import Verif.Lemmas.EdoEstim

/-! # edo: estimators, samplers, edoEDASA (C128 - C133) -/

namespace Paradiseo.Edo

open Finset

/-! ## C128: uniform distribution -/

/-- The estimated distribution is the smallest box around the population. -/
theorem C128_smallest_box (n : Nat) (pop : List (List ℚ)) (hne : pop ≠ []) (hlen : ∀ x ∈ pop, x.length = n) :
    ∃ los his, estUniform pop = some (los, his) ∧ los.length = n ∧ his.length = n ∧
      ∀ (d : Nat) (lo hi : ℚ), los[d]? = some lo → his[d]? = some hi →
        (∀ x ∈ pop, ∀ v, x[d]? = some v → lo ≤ v ∧ v ≤ hi) ∧
        (∃ x ∈ pop, x[d]? = some lo) ∧ ∃ x ∈ pop, x[d]? = some hi := by
  cases pop with
  | nil => exact absurd rfl hne
  | cons x xs =>
    have hx := hlen x (List.mem_cons_self ..)
    obtain ⟨c, c1, c2, c3, c4⟩ := boxLoop_spec n xs [x] (x, x)
      (fun y hy => hlen y (List.mem_cons_of_mem _ hy)) hx hx (by
        intro d lo hi h1 h2
        simp only at h1 h2
        rw [h1] at h2
        obtain rfl := Option.some.inj h2
        constructor
        · intro y hy v hv
          simp only [List.mem_singleton] at hy
          subst hy
          rw [h1] at hv
          exact le_of_eq (Option.some.inj hv)
        · intro y hy v hv
          simp only [List.mem_singleton] at hy
          subst hy
          rw [h1] at hv
          exact le_of_eq (Option.some.inj hv).symm
        · exact ⟨x, by simp, h1⟩
        · exact ⟨x, by simp, h1⟩)
    refine ⟨c.1, c.2, c1, c2, c3, ?_⟩
    intro d lo hi h1 h2
    obtain ⟨g1, g2, g3, g4⟩ := c4 d lo hi h1 h2
    exact ⟨fun y hy v hv => ⟨g1 y (by simpa using hy) v hv, g2 y (by simpa using hy) v hv⟩,
      by simpa using g3, by simpa using g4⟩

/-- A sample of it lies in the box: every variable is between two values the population has, so that the
box can only shrink when samples replace the population. -/
theorem C128_sample_inside (n : Nat) (pop : List (List ℚ)) (hne : pop ≠ [])
    (hlen : ∀ x ∈ pop, x.length = n) (u : Nat → ℚ) (hu : ∀ t, 0 ≤ u t ∧ u t < 1) (t : Nat) :
    ∃ los his y, estUniform pop = some (los, his) ∧ sampleUniform u t los his = some y ∧ y.length = n ∧
      ∀ (d : Nat) (v : ℚ), y[d]? = some v →
        (∃ x ∈ pop, ∃ a, x[d]? = some a ∧ a ≤ v) ∧ (∃ x ∈ pop, ∃ b, x[d]? = some b ∧ v ≤ b) ∧
        ((∃ a, ∀ x ∈ pop, x[d]? = some a) → ∀ x ∈ pop, x[d]? = some v) := by
  obtain ⟨los, his, h1, h2, h3, h4⟩ := C128_smallest_box n pop hne hlen
  obtain ⟨y, g1, g2, g3⟩ := sampleUniform_spec u t los his (by omega)
  refine ⟨los, his, y, h1, g1, by omega, ?_⟩
  intro d v hv
  have hd : d < n := by
    have := (List.getElem?_eq_some_iff.mp hv).1
    omega
  obtain ⟨lo, hlo⟩ : ∃ m, los[d]? = some m := ⟨los[d], List.getElem?_eq_getElem (by omega)⟩
  obtain ⟨hi, hhi⟩ : ∃ m, his[d]? = some m := ⟨his[d], List.getElem?_eq_getElem (by omega)⟩
  obtain ⟨k1, ⟨x, hx, hxd⟩, ⟨z, hz, hzd⟩⟩ := h4 d lo hi hlo hhi
  have e := g3 d lo hi hlo hhi
  rw [hv] at e
  obtain rfl := Option.some.inj e
  have hle : lo ≤ hi := (k1 x hx lo hxd).2
  obtain ⟨m1, m2, _⟩ := uniformIn_mem hle (hu (t + d)).1 (hu (t + d)).2
  refine ⟨⟨x, hx, lo, hxd, m1⟩, ⟨z, hz, hi, hzd, m2⟩, ?_⟩
  rintro ⟨a, ha⟩ w hw
  have e1 : lo = a := by have := ha x hx; rw [hxd] at this; exact Option.some.inj this
  have e2 : hi = a := by have := ha z hz; rw [hzd] at this; exact Option.some.inj this
  rw [ha w hw]
  subst e1
  rw [e2] at m2 ⊢
  rw [e2] at m1
  exact congrArg some (le_antisymm m1 m2)

example : estUniform [[1, 5], [3, 2], [2, 7]] = some ([1, 2], [3, 7]) ∧
    sampleUniform (fun _ => 1/2) 0 [1, 2] [3, 7] = some [2, 9/2] := by decide +kernel

/-! ## C129: binomial distribution -/

/-- The estimated probabilities are the frequencies of the ones. -/
theorem C129_frequencies (n : Nat) (pop : List (List Bool)) (hne : pop ≠ []) (hlen : ∀ x ∈ pop, x.length = n) :
    ∃ ps, estBinomial pop = some ps ∧ ps.length = n ∧ ∀ d, d < n →
      ps[d]? = some ((pop.countP fun x => x[d]? == some true : ℕ) / (pop.length : ℚ)) := by
  cases pop with
  | nil => exact absurd rfl hne
  | cons x xs =>
    have hx := hlen x (List.mem_cons_self ..)
    obtain ⟨qs, h1, h2, h3⟩ := rowsLoop_spec ((x :: xs).length : ℕ) n (x :: xs) (List.replicate x.length 0)
      (by simpa using hx) hlen
    refine ⟨qs, h1, h2, ?_⟩
    intro d hd
    have := h3 d 0 (by rw [List.getElem?_replicate, if_pos (by omega)])
    rw [this, zero_add]

/-- Hence they are probabilities, and a bit that all individuals have in common is in every sample. -/
theorem C129_fixed_bits (n : Nat) (pop : List (List Bool)) (hne : pop ≠ []) (hlen : ∀ x ∈ pop, x.length = n)
    (u : Nat → ℚ) (hu : ∀ t, 0 ≤ u t ∧ u t < 1) (t : Nat) :
    ∃ ps, estBinomial pop = some ps ∧ (∀ p ∈ ps, 0 ≤ p ∧ p ≤ 1) ∧ (sampleBinomial u t ps).length = n ∧
      ∀ (d : Nat) (b : Bool), d < n → (∀ x ∈ pop, x[d]? = some b) → (sampleBinomial u t ps)[d]? = some b := by
  obtain ⟨ps, h1, h2, h3⟩ := C129_frequencies n pop hne hlen
  obtain ⟨g1, g2⟩ := sampleBinomial_get u t ps
  have hpos : (0 : ℚ) < pop.length := by
    have : 0 < pop.length := List.length_pos_iff.mpr hne
    exact_mod_cast this
  refine ⟨ps, h1, ?_, by omega, ?_⟩
  · intro p hp
    obtain ⟨d, hd, rfl⟩ := List.getElem_of_mem hp
    have e := h3 d (by omega)
    rw [List.getElem?_eq_getElem hd] at e
    rw [Option.some.inj e]
    refine ⟨by positivity, ?_⟩
    rw [div_le_one hpos]
    exact_mod_cast List.countP_le_length
  · intro d b hd hb
    rw [g2 d _ (h3 d hd)]
    cases b with
    | true =>
      have : (pop.countP fun x => x[d]? == some true) = pop.length := by
        rw [List.countP_eq_length]
        intro x hx
        simp [hb x hx]
      rw [this, div_self hpos.ne']
      simp [(hu (t + d)).2]
    | false =>
      have : (pop.countP fun x => x[d]? == some true) = 0 := by
        rw [List.countP_eq_zero]
        intro x hx
        simp [hb x hx]
      rw [this]
      simp [(hu (t + d)).1]

example : estBinomial [[true, false, true], [true, true, false], [true, false, false]] =
    some [1, 1/3, 1/3] := by decide +kernel

/-! ## C130: mean and variance -/

/-- The recurrence gives the mean and the variance of the values, whatever their order and number. -/
theorem C130_variance (xs : List ℚ) (hne : xs ≠ []) :
    (xs.foldl Var.update Var.init).mean = xs.sum / xs.length ∧
    (xs.foldl Var.update Var.init).varN = (xs.map fun x => (x - xs.sum / xs.length) ^ 2).sum / xs.length ∧
    (xs.foldl Var.update Var.init).var = (xs.map fun x => (x - xs.sum / xs.length) ^ 2).sum / (xs.length - 1) := by
  have key : ∀ (xs ys : List ℚ) (v : Var), VarInv v ys → VarInv (xs.foldl Var.update v) (ys ++ xs) := by
    intro xs
    induction xs with
    | nil => intro ys v h; simpa using h
    | cons x xs ih =>
      intro ys v h
      have := ih (ys ++ [x]) (v.update x) (varInv_update h x)
      simpa using this
  have h := key xs [] Var.init varInv_init
  rw [List.nil_append] at h
  obtain ⟨h1, h2⟩ := h.spec hne
  refine ⟨h1, ?_, ?_⟩
  · unfold Var.varN; rw [h2, h.n]
  · unfold Var.var; rw [h2, h.n]

/-- The estimator does so for each variable. -/
theorem C130_estimator (n : Nat) (pop : List (List ℚ)) (hne : pop ≠ []) (hlen : ∀ x ∈ pop, x.length = n) :
    ∃ ms vs, estNormalMono pop = some (ms, vs) ∧ ms.length = n ∧ vs.length = n ∧
      ∀ d, d < n → ∃ xs : List ℚ, pop.map (·[d]?) = xs.map some ∧
        ms[d]? = some (xs.sum / (xs.length : ℚ)) ∧
        vs[d]? = some ((xs.map fun x => (x - xs.sum / (xs.length : ℚ)) ^ 2).sum / (xs.length : ℚ)) := by
  cases pop with
  | nil => exact absurd rfl hne
  | cons x xs =>
    have hx := hlen x (List.mem_cons_self ..)
    obtain ⟨ws, h1, h2, h3⟩ := varLoop_spec n (x :: xs) [] (List.replicate x.length Var.init)
      (by simpa using hx) hlen (by
        intro d v hv
        rw [List.getElem?_replicate] at hv
        split at hv
        · obtain rfl := Option.some.inj hv
          exact varInv_init
        · simp at hv)
    refine ⟨ws.map Var.mean, ws.map Var.varN, by simp [estNormalMono, h1], by simpa using h2, by simpa using h2, ?_⟩
    intro d hd
    have hcol : ∀ ys : List (List ℚ), (∀ y ∈ ys, y.length = n) → ys.map (·[d]?) = (column d ys).map some := by
      intro ys
      induction ys with
      | nil => intro _; rfl
      | cons y ys ih =>
        intro hy
        have hyd : d < y.length := by rw [hy y (List.mem_cons_self ..)]; exact hd
        have := ih fun z hz => hy z (List.mem_cons_of_mem _ hz)
        simp only [column, List.filterMap_cons, List.map_cons, List.getElem?_eq_getElem hyd] at this ⊢
        rw [this]
    refine ⟨column d (x :: xs), hcol _ hlen, ?_⟩
    obtain ⟨w, hw⟩ : ∃ w, ws[d]? = some w := ⟨ws[d], List.getElem?_eq_getElem (by omega)⟩
    have hI := h3 d w hw
    rw [List.nil_append] at hI
    have hcne : column d (x :: xs) ≠ [] := by
      intro h0
      have := hcol _ hlen
      rw [h0] at this
      simp at this
    obtain ⟨g1, g2⟩ := hI.spec hcne
    refine ⟨by simp [List.getElem?_map, hw, g1], ?_⟩
    simp only [List.getElem?_map, hw, Option.map_some, Var.varN, g2, hI.n]

example : estNormalMono [[1, 10], [3, 10], [5, 10]] = some ([3, 10], [8/3, 0]) := by decide +kernel

/-! ## C131: the covariance matrix is not centred -/

/-- The true covariance of two variables. -/
noncomputable def trueCov (n : Nat) (s : Nat → Nat → ℝ) (i j : Nat) : ℝ :=
  (∑ p ∈ range n, (s p i - (∑ q ∈ range n, s q i) / n) * (s p j - (∑ q ∈ range n, s q j) / n)) / n

/-- The estimated matrix is the covariance matrix plus the products of the means. -/
theorem C131_uncentred {n : Nat} (hn : 0 < n) (s : Nat → Nat → ℝ) (i j : Nat) :
    covMean n s i = (∑ p ∈ range n, s p i) / n ∧
    covMatrix n s i j = trueCov n s i j + covMean n s i * covMean n s j := by
  have hpos : (0 : ℝ) < n := by exact_mod_cast hn
  have hm : ∀ i, covMean n s i = (∑ p ∈ range n, s p i) / n := by intro i; simp [covMean]
  refine ⟨hm i, ?_⟩
  rw [hm i, hm j]
  unfold covMatrix trueCov
  have e : ∑ p ∈ range n, (s p i - (∑ q ∈ range n, s q i) / n) * (s p j - (∑ q ∈ range n, s q j) / n) =
      ∑ p ∈ range n, s p i * s p j - (∑ q ∈ range n, s q i) * (∑ q ∈ range n, s q j) / n := by
    generalize ha : (∑ q ∈ range n, s q i) = A
    generalize hb : (∑ q ∈ range n, s q j) = B
    have : ∀ p, (s p i - A / n) * (s p j - B / n) =
        s p i * s p j - A / n * s p j - B / n * s p i + A / n * (B / n) := fun p => by ring
    simp only [this, sum_add_distrib, sum_sub_distrib, ← mul_sum, ha, hb, sum_const, card_range, nsmul_eq_mul]
    field_simp
    ring
  rw [e]
  field_simp
  ring

/-- So the variances are right exactly when the means are zero. -/
theorem C131_right_iff {n : Nat} (hn : 0 < n) (s : Nat → Nat → ℝ) (i : Nat) :
    covMatrix n s i i = trueCov n s i i ↔ covMean n s i = 0 := by
  rw [(C131_uncentred hn s i i).2]
  constructor
  · intro h
    have : covMean n s i * covMean n s i = 0 := by linarith
    exact mul_self_eq_zero.mp this
  · intro h; rw [h]; ring

/-- A converged population, all individuals equal, has no variance but the estimated matrix is not zero. -/
theorem C131_converged {n : Nat} (hn : 0 < n) (c : Nat → ℝ) (i : Nat) :
    trueCov n (fun _ i => c i) i i = 0 ∧ covMatrix n (fun _ i => c i) i i = c i ^ 2 := by
  have hpos : (0 : ℝ) < n := by exact_mod_cast hn
  constructor
  · simp only [trueCov, sum_const, card_range, nsmul_eq_mul]
    field_simp
    ring
  · simp only [covMatrix, sum_const, card_range, nsmul_eq_mul]
    field_simp

/-- With two individuals less than variables the sampler fails: the estimated matrix has no Cholesky
factor. -/
theorem C131_too_few {n N : Nat} (hn : 0 < n) (h : n + 1 < N) (s : Nat → Nat → ℝ) (z : Nat → ℝ) :
    sampleNormalMulti N (covMean n s) (covMatrix n s) z = none := by
  have hnone : factorize pivLLT (covMatrix n s) N = none := by
    cases hf : factorize pivLLT (covMatrix n s) N with
    | none => rfl
    | some L =>
      have hc : Cols (pvOf sqrt?) (covMatrix n s) N N L := factorize_post (covMatrix_sym n s) hf
      have hpd := cols_lead (covMatrix_sym n s) hc fun i hi => (sqrt_cols hc (by omega)).2
      obtain ⟨x, hx, hz⟩ := exists_orth n (N - 1) (by omega) s
      have hq := hpd x hx
      rw [quad_prod (M := fun a k => s k a / Real.sqrt n) n fun a b _ _ => covMatrix_prod hn s a b] at hq
      have : ∑ k ∈ range n, (∑ a ∈ range (N - 1), x a * (s k a / Real.sqrt n)) ^ 2 = 0 := by
        apply sum_eq_zero
        intro k hk
        have e : ∑ a ∈ range (N - 1), x a * (s k a / Real.sqrt n) =
            (∑ a ∈ range (N - 1), x a * s k a) / Real.sqrt n := by
          rw [sum_div]
          exact sum_congr rfl fun a _ => by ring
        rw [e, hz k (mem_range.mp hk)]
        simp
      linarith
  unfold sampleNormalMulti
  rw [hnone]

/-! ## C132: moments of the samples -/

/-- What is used of the normal numbers drawn: `E` is linear with `E 1 = 1`, and the numbers have mean zero,
variance one and no correlation. -/
structure Standard {Ω : Type} (E : (Ω → ℝ) →ₗ[ℝ] ℝ) (N : Nat) (z : Ω → Nat → ℝ) : Prop where
  one : E (fun _ => 1) = 1
  mean : ∀ i, i < N → E (fun ω => z ω i) = 0
  cov : ∀ i j, i < N → j < N → E (fun ω => z ω i * z ω j) = if i = j then 1 else 0

/-- Two fair coins. -/
example : ∃ E : (Bool × Bool → ℝ) →ₗ[ℝ] ℝ,
    Standard E 2 fun ω i => if (if i = 0 then ω.1 else ω.2) then 1 else -1 := by
  refine ⟨{ toFun := fun f => (f (true, true) + f (true, false) + f (false, true) + f (false, false)) / 4
            map_add' := fun f g => by simp only [Pi.add_apply]; ring
            map_smul' := fun c f => by simp only [Pi.smul_apply, smul_eq_mul, RingHom.id_apply]; ring }, ?_, ?_, ?_⟩
  · norm_num
  · intro i _
    by_cases h : i = 0 <;> simp [h]
  · intro i j hi hj
    have : i = 0 ∨ i = 1 := by omega
    have : j = 0 ∨ j = 1 := by omega
    rcases ‹i = 0 ∨ i = 1› with rfl | rfl <;> rcases ‹j = 0 ∨ j = 1› with rfl | rfl <;> norm_num

theorem Standard.const {Ω : Type} {E : (Ω → ℝ) →ₗ[ℝ] ℝ} {N : Nat} {z : Ω → Nat → ℝ} (h : Standard E N z) (c : ℝ) :
    E (fun _ => c) = c := by
  have : (fun _ : Ω => c) = c • (fun _ => (1 : ℝ)) := by funext ω; simp
  rw [this, map_smul, h.one]
  simp

theorem E_sum {Ω : Type} (E : (Ω → ℝ) →ₗ[ℝ] ℝ) (n : Nat) (c : Nat → ℝ) (f : Nat → Ω → ℝ) :
    E (fun ω => ∑ k ∈ range n, c k * f k ω) = ∑ k ∈ range n, c k * E (f k) := by
  have : (fun ω => ∑ k ∈ range n, c k * f k ω) = ∑ k ∈ range n, c k • f k := by
    funext ω
    simp
  rw [this, map_sum]
  exact sum_congr rfl fun k _ => by rw [map_smul, smul_eq_mul]

theorem E_add {Ω : Type} (E : (Ω → ℝ) →ₗ[ℝ] ℝ) (f g : Ω → ℝ) :
    E (fun ω => f ω + g ω) = E f + E g := map_add E f g

/-- Moments of a linear image of standard numbers. -/
theorem moments {Ω : Type} {E : (Ω → ℝ) →ₗ[ℝ] ℝ} {z : Ω → Nat → ℝ} {N : Nat} (h : Standard E N z)
    (m : Nat → ℝ) (L : Mat) (i j : Nat) :
    E (fun ω => m i + ∑ k ∈ range N, L i k * z ω k) = m i ∧
    E (fun ω => (m i + ∑ k ∈ range N, L i k * z ω k - m i) * (m j + ∑ k ∈ range N, L j k * z ω k - m j)) =
      ∑ k ∈ range N, L i k * L j k := by
  constructor
  · rw [E_add, h.const, E_sum E N (L i) fun k ω => z ω k]
    rw [sum_eq_zero fun k hk => by rw [h.mean k (mem_range.mp hk), mul_zero], add_zero]
  · have e : (fun ω => (m i + ∑ k ∈ range N, L i k * z ω k - m i) * (m j + ∑ k ∈ range N, L j k * z ω k - m j)) =
        fun ω => ∑ k ∈ range N, L i k * ∑ l ∈ range N, L j l * (z ω k * z ω l) := by
      funext ω
      rw [show m i + ∑ k ∈ range N, L i k * z ω k - m i = ∑ k ∈ range N, L i k * z ω k by ring,
        show m j + ∑ k ∈ range N, L j k * z ω k - m j = ∑ k ∈ range N, L j k * z ω k by ring, sum_mul_sum]
      apply sum_congr rfl
      intro k _
      rw [mul_sum]
      exact sum_congr rfl fun l _ => by ring
    rw [e, E_sum E N (L i) fun k ω => ∑ l ∈ range N, L j l * (z ω k * z ω l)]
    apply sum_congr rfl
    intro k hk
    rw [E_sum E N (L j) fun l ω => z ω k * z ω l]
    rw [sum_congr rfl fun l hl => by rw [h.cov k l (mem_range.mp hk) (mem_range.mp hl)]]
    simp only [mul_ite, mul_one, mul_zero, sum_ite_eq]
    rw [if_pos hk]

/-- Samples of the multivariate normal distribution with a positive definite matrix have the mean and the
covariance matrix of the distribution. -/
theorem C132_multi {Ω : Type} {E : (Ω → ℝ) →ₗ[ℝ] ℝ} {z : Ω → Nat → ℝ} {N : Nat} (hE : Standard E N z)
    (hN : 0 < N) (m : Nat → ℝ) (V : Mat) (hsym : ∀ i j, V i j = V j i) (hV : PosDef N V) :
    ∃ x : Ω → Nat → ℝ, (∀ ω, sampleNormalMulti N m V (z ω) = some (x ω)) ∧
      (∀ i, E (fun ω => x ω i) = m i) ∧
      ∀ i j, i < N → j < N → E (fun ω => (x ω i - m i) * (x ω j - m j)) = V i j := by
  obtain ⟨L, hL, hc⟩ := factorize_ok (piv := pivLLT) hN hsym hV
    (fun x hx => sqrt?_eq_some.mpr ⟨hx.le, rfl⟩)
  refine ⟨fun ω i => m i + ∑ k ∈ range N, L i k * z ω k, ?_, ?_, ?_⟩
  · intro ω
    unfold sampleNormalMulti
    rw [hL]
  · intro i
    exact (moments hE m L i i).1
  · intro i j hi hj
    rw [(moments hE m L i j).2]
    exact cols_prod_all hsym hc (fun i hi => (sqrt_cols hc hi).2) hi hj

/-- Samples with independent variables have the mean and the variances of the distribution, and no
correlation. -/
theorem C132_mono {Ω : Type} {E : (Ω → ℝ) →ₗ[ℝ] ℝ} {z : Ω → Nat → ℝ} {N : Nat} (hE : Standard E N z)
    (m v : Nat → ℝ) (hv : ∀ i, 0 ≤ v i) (i j : Nat) (hi : i < N) (hj : j < N) :
    E (fun ω => sampleNormalMono m v (z ω) i) = m i ∧
    E (fun ω => (sampleNormalMono m v (z ω) i - m i) * (sampleNormalMono m v (z ω) j - m j)) =
      if i = j then v i else 0 := by
  constructor
  · unfold sampleNormalMono
    rw [E_add, hE.const]
    have : (fun ω => Real.sqrt (v i) * z ω i) = Real.sqrt (v i) • fun ω => z ω i := by funext ω; simp
    rw [this, map_smul, hE.mean i hi]
    simp
  · have : (fun ω => (sampleNormalMono m v (z ω) i - m i) * (sampleNormalMono m v (z ω) j - m j)) =
        (Real.sqrt (v i) * Real.sqrt (v j)) • fun ω => z ω i * z ω j := by
      funext ω
      simp only [sampleNormalMono, Pi.smul_apply, smul_eq_mul]
      ring
    rw [this, map_smul, hE.cov i j hi hj]
    split
    · rename_i hij
      subst hij
      rw [Real.mul_self_sqrt (hv i)]
      simp
    · simp

/-- So one generation of learning and sampling with the multivariate normal distribution inflates the
covariance matrix by the products of the means. -/
theorem C132_inflation {Ω : Type} {E : (Ω → ℝ) →ₗ[ℝ] ℝ} {z : Ω → Nat → ℝ} {n N : Nat} (hE : Standard E N z)
    (hn : 0 < n) (hN : 0 < N) (s : Nat → Nat → ℝ) (hV : PosDef N (covMatrix n s)) :
    ∃ x : Ω → Nat → ℝ, (∀ ω, sampleNormalMulti N (covMean n s) (covMatrix n s) (z ω) = some (x ω)) ∧
      ∀ i j, i < N → j < N → E (fun ω => (x ω i - covMean n s i) * (x ω j - covMean n s j)) =
        trueCov n s i j + covMean n s i * covMean n s j := by
  obtain ⟨x, h1, _, h3⟩ := C132_multi hE hN (covMean n s) (covMatrix n s) (covMatrix_sym n s) hV
  exact ⟨x, h1, fun i j hi hj => by rw [h3 i j hi hj, (C131_uncentred hn s i j).2]⟩

/-- One individual with the variable 2 has the matrix 4. -/
example : PosDef 1 (covMatrix 1 fun _ _ => 2) := by
  rintro x ⟨i, hi, hx⟩
  have hi0 : i = 0 := by omega
  subst hi0
  simp only [quad, covMatrix, range_one, sum_singleton]
  have : 0 < x 0 ^ 2 := by positivity
  norm_num
  nlinarith

/-! ## C133: simulated annealing within an EDA -/

/-- At any positive temperature the acceptance rule accepts: the exponent is not negative. -/
theorem C133_always_accepts (cand cur u temp : ℝ) (ht : 0 < temp) (hu : u < 1) : saAccept cand cur u temp := by
  right
  have : 0 ≤ |cand - cur| / temp := div_nonneg (abs_nonneg _) ht.le
  have := Real.one_le_exp this
  linarith

/-- The inner loop keeps every candidate, and its current solution is the last one. -/
theorem C133_keeps_all (temp : ℝ) (ht : 0 < temp) (u : Nat → ℝ) (hu : ∀ t, u t < 1) (cont : Nat → ℝ → Bool)
    (cands : List ℝ) (cur : ℝ) (pop : List ℝ) (last : ℝ)
    (h : saLoop temp u cont 0 cands [] cur = some (pop, last)) :
    pop ≠ [] ∧ pop <+: cands ∧ pop.getLast? = some last := by
  have key : ∀ (cands : List ℝ) (t : Nat) (done : List ℝ) (cur : ℝ),
      saLoop temp u cont t cands done cur = some (pop, last) →
      ∃ k rest, k ≠ [] ∧ cands = k ++ rest ∧ pop = done ++ k ∧ k.getLast? = some last := by
    intro cands
    induction cands with
    | nil => intro t done cur h; simp [saLoop] at h
    | cons c cs ih =>
      intro t done cur h
      have hacc := C133_always_accepts c cur (u t) temp ht (hu t)
      simp only [saLoop, hacc, if_true] at h
      split at h
      · obtain ⟨k, rest, h1, h2, h3, h4⟩ := ih (t + 1) (done ++ [c]) c h
        refine ⟨c :: k, rest, by simp, by simp [h2], by simp [h3], ?_⟩
        rw [List.getLast?_cons, h4]
        rfl
      · simp only [Option.some.injEq, Prod.mk.injEq] at h
        obtain ⟨rfl, rfl⟩ := h
        exact ⟨[c], cs, by simp, by simp, rfl, rfl⟩
  obtain ⟨k, rest, h1, h2, h3, h4⟩ := key cands 0 [] cur h
  rw [List.nil_append] at h3
  subst h3
  exact ⟨h1, ⟨rest, h2.symm⟩, h4⟩

/-- Of three candidates the two that are drawn before the criterion stops are kept, though the first is
worse and the second better than the current solution. -/
example : saLoop 1 (fun _ => 0) (fun t _ => decide (t < 1)) 0 [5, 3, 2] [] 4 = some ([5, 3], 3) := by
  have h1 := C133_always_accepts 5 4 0 1 one_pos one_pos
  have h2 := C133_always_accepts 3 5 0 1 one_pos one_pos
  simp [saLoop, h1, h2]

end Paradiseo.Edo
