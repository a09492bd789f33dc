import Verif.Lemmas.EdoCholesky

/-! # edo: Cholesky factorisations (C123, C124) -/

namespace Paradiseo.Edo

open Finset

/-! ## Specifications -/

/-- `L` is lower triangular. -/
def Lower (L : Mat) : Prop := ∀ i j, i < j → L i j = 0

/-- The product `L Lᵀ` of matrices of size `N`. -/
def LLT (N : Nat) (L : Mat) (i j : Nat) : ℝ := ∑ k ∈ range N, L i k * L j k

/-! ## C123: factorisation of covariance matrices -/

theorem pivLLT_pos : ∀ x : ℝ, 0 < x → pivLLT x = some (Real.sqrt x) :=
  fun x hx => sqrt?_eq_some.mpr ⟨hx.le, rfl⟩

theorem pivAbs_pos : ∀ x : ℝ, 0 < x → pivAbs x = some (Real.sqrt x) := by
  intro x hx
  unfold pivAbs
  rw [sqrt?_eq_some, abs_of_pos hx]
  exact ⟨hx.le, rfl⟩

theorem pivZero_pos : ∀ x : ℝ, 0 < x → pivZero x = some (Real.sqrt x) := by
  intro x hx
  unfold pivZero
  rw [if_pos hx.le, sqrt?_eq_some]
  exact ⟨hx.le, rfl⟩

/-- Whatever the LLT and LDLT factorisations return is a square root: lower triangular, with a
nonnegative diagonal, and its product with its transpose is the matrix. -/
theorem C123_sound {V L : Mat} {N : Nat} (hsym : ∀ i j, V i j = V j i)
    (h : factorize pivLLT V N = some L ∨ factorizeLDLT V N = some L) :
    Lower L ∧ (∀ i, i < N → 0 ≤ L i i) ∧ ∀ i j, i < N → j < N → LLT N L i j = V i j := by
  have hc : Cols (pvOf sqrt?) V N N L := by
    rcases h with h | h
    · exact factorize_post hsym h
    · exact factorizeLDLT_post h
  exact ⟨fun i j hij => hc.up j i hij, fun i hi => (sqrt_cols hc hi).1,
    fun i j hi hj => cols_prod_all hsym hc (fun i hi => (sqrt_cols hc hi).2) hi hj⟩

/-- The LLT factorisation returns exactly for the positive semidefinite matrices of which the leading
block, without the last row and column, is positive definite. -/
theorem C123_llt_iff {V : Mat} {N : Nat} (hN : 0 < N) (hsym : ∀ i j, V i j = V j i) :
    (∃ L, factorize pivLLT V N = some L) ↔ PosDef (N - 1) V ∧ PosSemi N V := by
  constructor
  · rintro ⟨L, h⟩
    have hc : Cols (pvOf sqrt?) V N N L := factorize_post hsym h
    exact ⟨cols_lead hsym hc fun i hi => (sqrt_cols hc (by omega)).2,
      posSemi_prod N fun a b ha hb =>
        (cols_prod_all hsym hc (fun i hi => (sqrt_cols hc hi).2) ha hb).symm⟩
  · rintro ⟨hV, hS⟩
    obtain ⟨L, h, _⟩ := factorize_total (piv := pivLLT) hN hsym (by
      intro i hi L hL
      refine ⟨Real.sqrt (V i i - ∑ k ∈ range i, L i k * L i k), ?_, fun hiN => ?_⟩
      · have : pvOf pivLLT i = sqrt? := pvOf_sqrt i
        rw [this, sqrt?_eq_some]
        exact ⟨last_pivot hsym hV hS hL pivLLT_pos (le_refl _) hi, rfl⟩
      · exact (Real.sqrt_pos.mpr (lead_pivot hsym hV hL pivLLT_pos (le_refl _) hiN)).ne')
    exact ⟨L, h⟩

/-- The LDLT factorisation returns for the same matrices. -/
theorem C123_ldlt_iff {V : Mat} {N : Nat} (hN : 0 < N) (hsym : ∀ i j, V i j = V j i) :
    (∃ L, factorizeLDLT V N = some L) ↔ PosDef (N - 1) V ∧ PosSemi N V := by
  constructor
  · rintro ⟨L, h⟩
    have hc : Cols (pvOf sqrt?) V N N L := factorizeLDLT_post h
    exact ⟨cols_lead hsym hc fun i hi => (sqrt_cols hc (by omega)).2,
      posSemi_prod N fun a b ha hb =>
        (cols_prod_all hsym hc (fun i hi => (sqrt_cols hc hi).2) ha hb).symm⟩
  · rintro ⟨hV, hS⟩
    apply factorizeLDLT_ok hN
    intro i hi L hL
    exact ⟨last_pivot hsym hV hS hL pivLLT_pos (le_refl _) hi,
      fun hiN => (lead_pivot hsym hV hL pivLLT_pos (le_refl _) hiN).ne'⟩

/-- LLT and LDLT return the same matrix. -/
theorem C123_llt_ldlt {V L M : Mat} {N : Nat} (hsym : ∀ i j, V i j = V j i)
    (hL : factorize pivLLT V N = some L) (hM : factorizeLDLT V N = some M) :
    ∀ i j, i < N → j < N → L i j = M i j := by
  intro i j hi hj
  refine cols_unique (factorize_post hsym hL) (factorizeLDLT_post hM) ?_ j hj i hi
  intro c _ x v w hv hw
  have : pvOf pivLLT c = sqrt? := pvOf_sqrt c
  rw [this] at hv
  rw [pvOf_sqrt, hv] at hw
  exact Option.some.inj hw

/-- For a positive definite matrix the three LLT variants return a matrix with a positive diagonal. -/
theorem C123_posDef {V : Mat} {N : Nat} (hN : 0 < N) (hsym : ∀ i j, V i j = V j i) (hV : PosDef N V)
    (piv : ℝ → Option ℝ) (hpiv : piv = pivLLT ∨ piv = pivAbs ∨ piv = pivZero) :
    ∃ L, factorize piv V N = some L ∧ Lower L ∧ (∀ i, i < N → 0 < L i i) ∧
      ∀ i j, i < N → j < N → LLT N L i j = V i j := by
  have hp : ∀ x : ℝ, 0 < x → piv x = some (Real.sqrt x) := by
    rcases hpiv with rfl | rfl | rfl
    · exact pivLLT_pos
    · exact pivAbs_pos
    · exact pivZero_pos
  obtain ⟨L, h, hc⟩ := factorize_ok hN hsym hV hp
  have hall := cols_all hsym hV (le_refl _) hc hp
  exact ⟨L, h, fun i j hij => hc.up j i hij, fun i hi => (hall i hi).1,
    fun i j hi hj => cols_prod_all hsym hc (fun i hi => (hall i hi).2) hi hj⟩

/-- There is only one such matrix, so that for a positive definite matrix all variants agree. -/
theorem C123_unique {V L M : Mat} {N : Nat} (hL : Lower L) (hM : Lower M) (hLd : ∀ i, i < N → 0 < L i i)
    (hMd : ∀ i, i < N → 0 < M i i) (hLV : ∀ i j, i < N → j < N → LLT N L i j = V i j)
    (hMV : ∀ i j, i < N → j < N → LLT N M i j = V i j) : ∀ i j, i < N → j < N → L i j = M i j := by
  have hup : ∀ i j, j < i → L j i = 0 := fun i j h => hL j i h
  have hup' : ∀ i j, j < i → M j i = 0 := fun i j h => hM j i h
  have key : ∀ k, k < N → ∀ j, j < N → L j k = M j k := by
    intro k
    induction k using Nat.strong_induction_on with
    | _ k ih =>
      intro hk
      have hs : ∀ j j', j < N → j' < N → ∑ a ∈ range k, L j a * L j' a = ∑ a ∈ range k, M j a * M j' a := by
        intro j j' hj hj'
        apply sum_congr rfl
        intro a ha
        have := mem_range.mp ha
        rw [ih a this (by omega) j hj, ih a this (by omega) j' hj']
      have hd : L k k = M k k := by
        have h1 := hLV k k hk hk
        have h2 := hMV k k hk hk
        unfold LLT at h1 h2
        rw [prod_low hup hk] at h1
        rw [prod_low hup' hk] at h2
        rw [hs k k hk hk] at h1
        have h3 : L k k * L k k = M k k * M k k := by linarith
        have := hLd k hk
        have := hMd k hk
        nlinarith
      intro j hj
      have h1 := hLV j k hj hk
      have h2 := hMV j k hj hk
      unfold LLT at h1 h2
      rw [prod_low hup hk] at h1
      rw [prod_low hup' hk] at h2
      rw [hs j k hj hk, hd] at h1
      exact mul_right_cancel₀ (hMd k hk).ne' (by linarith)
  exact fun i j hi hj => key j hj i hi

/-- A positive definite matrix that is not diagonal. -/
def V2 : Mat := fun i j => if i = j then 2 else 1

theorem V2_posDef : PosDef 2 V2 := by
  intro x ⟨i, hi, hx⟩
  have e : quad 2 V2 x = x 0 ^ 2 + x 1 ^ 2 + (x 0 + x 1) ^ 2 := by
    simp [quad, V2, sum_range_succ]
    ring
  rw [e]
  have : i = 0 ∨ i = 1 := by omega
  rcases this with rfl | rfl <;> positivity

example : 0 < 2 ∧ (∀ i j, V2 i j = V2 j i) ∧ PosDef 2 V2 ∧ PosDef (2 - 1) V2 ∧ PosSemi 2 V2 :=
  ⟨by omega, fun i j => by simp [V2, eq_comm], V2_posDef, V2_posDef.mono (by omega), V2_posDef.semi⟩

/-! ## C124: matrices that are not positive definite -/

/-- The "abs" and "zero" variants change nothing outside of the diagonal, never decrease the diagonal,
and give the matrix back exactly when it is positive semidefinite. -/
theorem C124_robust {V L : Mat} {N : Nat} (hsym : ∀ i j, V i j = V j i) (piv : ℝ → Option ℝ)
    (hpiv : piv = pivAbs ∨ piv = pivZero) (h : factorize piv V N = some L) :
    Lower L ∧ (∀ i j, i < N → j < N → i ≠ j → LLT N L i j = V i j) ∧
    (∀ i, i < N → V i i ≤ LLT N L i i) ∧
    ((∀ i, i < N → LLT N L i i = V i i) ↔ PosSemi N V) := by
  have hc := factorize_post hsym h
  have hsq : ∀ i, i < N → V i i - ∑ k ∈ range i, L i k * L i k ≤ L i i * L i i ∧
      (0 ≤ V i i - ∑ k ∈ range i, L i k * L i k →
        L i i * L i i = V i i - ∑ k ∈ range i, L i k * L i k) := by
    intro i hi
    have hd := hc.diag i hi
    generalize V i i - ∑ k ∈ range i, L i k * L i k = p at hd
    unfold pvOf at hd
    split at hd
    · rw [sqrt?_eq_some] at hd
      rw [hd.2, Real.mul_self_sqrt hd.1]
      exact ⟨le_refl _, fun _ => rfl⟩
    · rcases hpiv with rfl | rfl
      · unfold pivAbs at hd
        rw [sqrt?_eq_some] at hd
        rw [hd.2, Real.mul_self_sqrt hd.1]
        exact ⟨le_abs_self p, fun h => abs_of_nonneg h⟩
      · unfold pivZero at hd
        split at hd
        · rw [sqrt?_eq_some] at hd
          rw [hd.2, Real.mul_self_sqrt hd.1]
          exact ⟨le_refl _, fun _ => rfl⟩
        · rename_i hneg
          simp only [Option.some.injEq] at hd
          rw [← hd]
          constructor
          · linarith
          · intro h; exact absurd h hneg
  have hoff : ∀ i j, i < N → j < N → i ≠ j → LLT N L i j = V i j :=
    fun i j hi hj hij => cols_prod hsym hc hi hj hij
  refine ⟨fun i j hij => hc.up j i hij, hoff, ?_, ?_, ?_⟩
  · intro i hi
    unfold LLT
    rw [prod_low hc.up hi]
    have := (hsq i hi).1
    linarith
  · intro hd
    apply posSemi_prod (M := L) N
    intro a b ha hb
    by_cases hab : a = b
    · subst hab; exact (hd a ha).symm
    · exact (hoff a b ha hb hab).symm
  · intro hS i hi
    apply prod_diag hc.up hi
    induction i using Nat.strong_induction_on with
    | _ i ih =>
      exact (hsq i hi).2 (cols_pivot_nonneg hsym hS hi hi.le hc fun c hc' => ih c hc' (by omega))

/-- The "zero" variant returns exactly when the leading block, without the last row and column, is
positive definite: a replaced pivot anywhere but in the last column is divided by. -/
theorem C124_zero_iff {V : Mat} {N : Nat} (hN : 1 < N) (hsym : ∀ i j, V i j = V j i) :
    (∃ L, factorize pivZero V N = some L) ↔ PosDef (N - 1) V := by
  constructor
  · rintro ⟨L, h⟩
    have hc := factorize_post hsym h
    apply cols_lead hsym hc
    intro i hi
    have hd := hc.diag i (by omega)
    have hne := (hc.low i (by omega) (i + 1) (by omega) (by omega)).1
    generalize V i i - ∑ k ∈ range i, L i k * L i k = p at hd
    unfold pvOf at hd
    split at hd
    · rw [sqrt?_eq_some] at hd
      rw [hd.2, Real.mul_self_sqrt hd.1]
    · unfold pivZero at hd
      split at hd
      · rw [sqrt?_eq_some] at hd
        rw [hd.2, Real.mul_self_sqrt hd.1]
      · simp only [Option.some.injEq] at hd
        exact absurd hd.symm hne
  · intro hV
    obtain ⟨L, h, _⟩ := factorize_total (piv := pivZero) (N := N) (by omega) hsym (by
      intro i hi L hL
      by_cases hiN : i + 1 < N
      · have hp := lead_pivot hsym hV hL pivZero_pos (le_refl _) hiN
        refine ⟨Real.sqrt (V i i - ∑ k ∈ range i, L i k * L i k), ?_,
          fun _ => (Real.sqrt_pos.mpr hp).ne'⟩
        unfold pvOf
        split
        · rw [sqrt?_eq_some]; exact ⟨hp.le, rfl⟩
        · exact pivZero_pos _ hp
      · unfold pvOf
        rw [if_neg (by omega)]
        unfold pivZero
        split
        · rename_i hp
          exact ⟨_, sqrt?_eq_some.mpr ⟨hp, rfl⟩, fun h => absurd h hiN⟩
        · exact ⟨0, rfl, fun h => absurd h hiN⟩)
    exact ⟨L, h⟩

/-- No variant accepts a matrix with a negative first entry: the first pivot is always a plain square
root. -/
theorem C124_first {V : Mat} (N : Nat) (h : V 0 0 < 0) (piv : ℝ → Option ℝ) :
    factorize piv V N = none := by
  unfold factorize
  split
  · rfl
  · have : sqrt? (V 0 0) = none := by unfold sqrt?; rw [if_pos h]
    rw [this]

/-- An indefinite matrix: 1 on the diagonal, 2 outside. -/
def V3 : Mat := fun i j => if i = j then 1 else 2

theorem V3_sym : ∀ i j, V3 i j = V3 j i := fun i j => by simp [V3, eq_comm]

theorem V3_not_semi : ¬ PosSemi 2 V3 := by
  intro h
  have := h (fun i => if i = 0 then 1 else -1)
  have e : quad 2 V3 (fun i => if i = 0 then 1 else -1) = -2 := by
    simp [quad, V3, sum_range_succ]
    norm_num
  rw [e] at this
  linarith

theorem V3_lead : PosDef 1 V3 := by
  intro x ⟨i, hi, hx⟩
  have : i = 0 := by omega
  subst this
  have e : quad 1 V3 x = x 0 ^ 2 := by simp [quad, V3]; ring
  rw [e]
  positivity

/-- On the indefinite matrix of size 2 the plain factorisations fail while "zero" returns a matrix of which
the square differs from it. -/
theorem C124_indefinite : (factorize pivLLT V3 2 = none) ∧ (factorizeLDLT V3 2 = none) ∧
    ∃ L, factorize pivZero V3 2 = some L ∧ LLT 2 L 0 1 = 2 ∧ 1 < LLT 2 L 1 1 := by
  refine ⟨?_, ?_, ?_⟩
  · cases h : factorize pivLLT V3 2 with
    | none => rfl
    | some L => exact absurd ((C123_llt_iff (by omega) V3_sym).mp ⟨L, h⟩).2 V3_not_semi
  · cases h : factorizeLDLT V3 2 with
    | none => rfl
    | some L => exact absurd ((C123_ldlt_iff (by omega) V3_sym).mp ⟨L, h⟩).2 V3_not_semi
  · obtain ⟨L, h⟩ := (C124_zero_iff (N := 2) (by omega) V3_sym).mpr V3_lead
    obtain ⟨_, h2, h3, h4⟩ := C124_robust V3_sym pivZero (Or.inr rfl) h
    refine ⟨L, h, ?_, ?_⟩
    · rw [h2 0 1 (by omega) (by omega) (by omega)]; simp [V3]
    · by_contra hcon
      apply V3_not_semi
      apply h4.mp
      intro i hi
      have h0 := h3 i hi
      have hi2 : i = 0 ∨ i = 1 := by omega
      rcases hi2 with rfl | rfl
      · have hc := factorize_post V3_sym h
        apply prod_diag hc.up (by omega)
        have hd := hc.diag 0 (by omega)
        unfold pvOf at hd
        rw [if_pos rfl, sqrt?_eq_some] at hd
        rw [hd.2, Real.mul_self_sqrt hd.1]
      · apply le_antisymm _ h0
        simp only [not_lt] at hcon
        simpa [V3] using hcon

/-- On the indefinite matrix of size 3 the "zero" variant fails too. -/
theorem C124_zero_fails : factorize pivZero V3 3 = none := by
  cases h : factorize pivZero V3 3 with
  | none => rfl
  | some L => exact absurd ((C124_zero_iff (by omega) V3_sym).mp ⟨L, h⟩).semi V3_not_semi

end Paradiseo.Edo
