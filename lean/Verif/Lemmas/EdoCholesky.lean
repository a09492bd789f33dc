import Verif.Model.EdoCholesky
import Mathlib.Algebra.Order.BigOperators.Ring.Finset
import Mathlib.Tactic.Linarith
import Mathlib.Tactic.Ring
import Mathlib.Tactic.FieldSimp
import Mathlib.Tactic.Positivity

/-! Lemmas on the Cholesky factorisations. -/

namespace Paradiseo.Edo

open Finset

theorem loopN_post {β : Type} {f : β → Nat → Option β} {P : Nat → β → Prop} (n a : Nat) {s s' : β}
    (h0 : P a s) (hf : ∀ b s s', a ≤ b → b < a + n → P b s → f s b = some s' → P (b + 1) s')
    (h : loopN f a n s = some s') : P (a + n) s' := by
  induction n generalizing a s with
  | zero => simp only [loopN, Option.some.injEq] at h; subst h; exact h0
  | succ n ih =>
    simp only [loopN] at h
    cases h1 : f s a with
    | none => rw [h1] at h; simp at h
    | some t =>
      rw [h1] at h
      have := ih (a + 1) (hf a s t (le_refl _) (by omega) h0 h1)
        (fun b s s' hb hb' => hf b s s' (by omega) (by omega)) h
      rwa [show a + 1 + n = a + (n + 1) by omega] at this

theorem loopN_total {β : Type} {f : β → Nat → Option β} {P : Nat → β → Prop} (n a : Nat) {s : β}
    (h0 : P a s) (hf : ∀ b s, a ≤ b → b < a + n → P b s → ∃ s', f s b = some s' ∧ P (b + 1) s') :
    ∃ s', loopN f a n s = some s' ∧ P (a + n) s' := by
  induction n generalizing a s with
  | zero => exact ⟨s, rfl, h0⟩
  | succ n ih =>
    obtain ⟨t, h1, h2⟩ := hf a s (le_refl _) (by omega) h0
    obtain ⟨u, h3, h4⟩ := ih (a + 1) h2 (fun b s hb hb' => hf b s (by omega) (by omega))
    refine ⟨u, ?_, ?_⟩
    · simp only [loopN, h1, h3]
    · rwa [show a + 1 + n = a + (n + 1) by omega] at h4

theorem dotRows_eq (L : Mat) (j i n : Nat) : dotRows L j i n = ∑ k ∈ range n, L j k * L i k := by
  unfold dotRows
  induction n with
  | zero => simp
  | succ n ih => rw [List.range_succ, List.foldl_append, ih, sum_range_succ]; rfl

theorem foldl_sub_eq (g : Nat → ℝ) (v : ℝ) (n : Nat) :
    (List.range n).foldl (fun s k => s - g k) v = v - ∑ k ∈ range n, g k := by
  induction n with
  | zero => simp
  | succ n ih => rw [List.range_succ, List.foldl_append, ih, sum_range_succ]; simp; ring

theorem div?_eq_some {a b v : ℝ} : div? a b = some v ↔ b ≠ 0 ∧ v = a / b := by
  unfold div?
  split
  · rename_i h; simp [h]
  · rename_i h
    simp only [Option.some.injEq, ne_eq, h, not_false_eq_true, true_and]
    exact eq_comm

theorem sqrt?_eq_some {x v : ℝ} : sqrt? x = some v ↔ 0 ≤ x ∧ v = Real.sqrt x := by
  unfold sqrt?
  split
  · rename_i h
    simp only [reduceCtorEq, false_iff, not_and]
    intro h'
    linarith
  · rename_i h
    simp only [not_lt] at h
    simp only [Option.some.injEq, h, true_and]
    exact eq_comm

/-! ### Columns done so far -/

/-- The columns below `c` of `L` are final. -/
structure Cols (pv : Nat → ℝ → Option ℝ) (V : Mat) (N c : Nat) (L : Mat) : Prop where
  up : ∀ i j, j < i → L j i = 0
  todo : ∀ i j, c ≤ i → L j i = 0
  diag : ∀ i, i < c → pv i (V i i - ∑ k ∈ range i, L i k * L i k) = some (L i i)
  low : ∀ i, i < c → ∀ j, i < j → j < N → L i i ≠ 0 ∧
    ∑ k ∈ range i, L j k * L i k + L j i * L i i = V j i

/-- The pivots as a function of the column. -/
noncomputable def pvOf (piv : ℝ → Option ℝ) (i : Nat) : ℝ → Option ℝ := if i = 0 then sqrt? else piv

theorem setMat_same (L : Mat) (i j : Nat) (v : ℝ) : setMat L i j v i j = v := by simp [setMat]

theorem setMat_ne (L : Mat) {i j a b : Nat} (v : ℝ) (h : a ≠ i ∨ b ≠ j) :
    setMat L i j v a b = L a b := by
  unfold setMat
  rw [if_neg]
  rintro ⟨rfl, rfl⟩
  simp at h

/-- What is known within column `i`, rows below `b` done. -/
structure InCol (V : Mat) (L : Mat) (i : Nat) (v : ℝ) (b : Nat) (L' : Mat) : Prop where
  other : ∀ a c, c ≠ i → L' a c = L a c
  above : ∀ a, a < i → L' a i = L a i
  piv : L' i i = v
  done : ∀ j, i < j → j < b → v ≠ 0 ∧ L' j i = (V j i - ∑ k ∈ range i, L j k * L i k) / v
  rest : ∀ j, i < j → b ≤ j → L' j i = L j i

theorem inCol_start (V L : Mat) (i : Nat) (v : ℝ) : InCol V L i v (i + 1) (setMat L i i v) where
  other := fun a c hc => setMat_ne _ _ (Or.inr hc)
  above := fun a ha => setMat_ne _ _ (Or.inl (by omega))
  piv := setMat_same _ _ _ _
  done := fun j h1 h2 => by omega
  rest := fun j h1 _ => setMat_ne _ _ (Or.inl (by omega))

theorem InCol.sum {V L L' : Mat} {i b : Nat} {v : ℝ} (h : InCol V L i v b L') (j j' n : Nat) (hn : n ≤ i) :
    ∑ k ∈ range n, L' j k * L' j' k = ∑ k ∈ range n, L j k * L j' k := by
  apply sum_congr rfl
  intro k hk
  have : k ≠ i := by have := mem_range.mp hk; omega
  rw [h.other _ _ this, h.other _ _ this]

theorem inCol_set {V L L' : Mat} {i b : Nat} {v : ℝ} (h : InCol V L i v b L') (hb : i < b) (hv : v ≠ 0) :
    InCol V L i v (b + 1) (setMat L' b i ((V b i - ∑ k ∈ range i, L b k * L i k) / v)) where
  other := fun a c hc => by rw [setMat_ne _ _ (Or.inr hc), h.other a c hc]
  above := fun a ha => by rw [setMat_ne _ _ (Or.inl (by omega)), h.above a ha]
  piv := by rw [setMat_ne _ _ (Or.inl (by omega)), h.piv]
  done := fun j h1 h2 => by
    refine ⟨hv, ?_⟩
    by_cases hj : j = b
    · subst hj; rw [setMat_same]
    · rw [setMat_ne _ _ (Or.inl hj)]
      exact (h.done j h1 (by omega)).2
  rest := fun j h1 h2 => by rw [setMat_ne _ _ (Or.inl (by omega)), h.rest j h1 (by omega)]

theorem inCol_step {V L L' L'' : Mat} {i b : Nat} {v : ℝ} (h : InCol V L i v b L') (hb : i < b)
    (hs : lltEntry V i L' b = some L'') : InCol V L i v (b + 1) L'' := by
  unfold lltEntry at hs
  split at hs
  · simp at hs
  · rename_i w hw
    simp only [Option.some.injEq] at hs
    subst hs
    obtain ⟨h1, rfl⟩ := div?_eq_some.mp hw
    rw [h.piv] at h1 ⊢
    rw [dotRows_eq, h.sum _ _ _ (le_refl _)]
    exact inCol_set h hb h1

theorem inCol_ok {V L L' : Mat} {i b : Nat} {v : ℝ} (h : InCol V L i v b L') (hb : i < b) (hv : v ≠ 0) :
    ∃ L'', lltEntry V i L' b = some L'' ∧ InCol V L i v (b + 1) L'' := by
  have : lltEntry V i L' b =
      some (setMat L' b i ((V b i - ∑ k ∈ range i, L b k * L i k) / v)) := by
    unfold lltEntry
    rw [dotRows_eq, h.sum _ _ _ (le_refl _), h.piv]
    simp [div?, hv]
  exact ⟨_, this, inCol_set h hb hv⟩

theorem cols_next {pv : Nat → ℝ → Option ℝ} {V L L' : Mat} {N i : Nat} {v : ℝ} (hi : i < N)
    (h : Cols pv V N i L) (hp : pv i (V i i - ∑ k ∈ range i, L i k * L i k) = some v)
    (hc : InCol V L i v (i + 1 + (N - (i + 1))) L') (hout : ∀ j, N ≤ j → L' j i = 0) :
    Cols pv V N (i + 1) L' where
  up := fun c j hj => by
    by_cases hci : c = i
    · subst hci; rw [hc.above j hj, h.up c j hj]
    · rw [hc.other _ _ hci, h.up c j hj]
  todo := fun c j hcc => by rw [hc.other _ _ (by omega), h.todo c j (by omega)]
  diag := fun c hcc => by
    rw [hc.sum _ _ _ (by omega)]
    by_cases hci : c = i
    · subst hci; rw [hp, hc.piv]
    · rw [hc.other _ _ hci]
      exact h.diag c (by omega)
  low := fun c hcc j h1 h2 => by
    rw [hc.sum _ _ _ (by omega)]
    by_cases hci : c = i
    · subst hci
      obtain ⟨hv, hj⟩ := hc.done j h1 (by omega)
      rw [hc.piv, hj]
      refine ⟨hv, ?_⟩
      field_simp
      ring
    · rw [hc.other _ _ hci, hc.other _ _ hci]
      exact h.low c (by omega) j h1 h2

theorem rest_zero {pv : Nat → ℝ → Option ℝ} {V L L' : Mat} {N i b : Nat} {v : ℝ}
    (h : Cols pv V N i L) (hb : i < b) (hc : InCol V L i v b L') : ∀ j, b ≤ j → L' j i = 0 := by
  intro j hj
  rw [hc.rest j (by omega) hj]
  exact h.todo i j (le_refl _)

theorem lltCol_post {piv : ℝ → Option ℝ} {V L L' : Mat} {N i : Nat} (hi : i < N) (hi0 : 0 < i)
    (h : Cols (pvOf piv) V N i L) (hs : lltCol piv V N L i = some L') :
    Cols (pvOf piv) V N (i + 1) L' := by
  unfold lltCol at hs
  split at hs
  · simp at hs
  · rename_i v hv
    rw [dotRows_eq] at hv
    have hc := loopN_post (P := fun b L'' => i < b ∧ InCol V L i v b L'') _ _
      ⟨by omega, inCol_start V L i v⟩ (fun b s s' _ _ hP hs => ⟨by omega, inCol_step hP.2 hP.1 hs⟩) hs
    have hz := rest_zero h hc.1 hc.2
    refine cols_next hi h ?_ hc.2 (fun j hj => hz j (by omega))
    unfold pvOf
    rw [if_neg (by omega)]
    exact hv

theorem lltCol_ok {piv : ℝ → Option ℝ} {V L : Mat} {N i : Nat} {v : ℝ} (hv0 : i + 1 < N → v ≠ 0)
    (hv : piv (V i i - ∑ k ∈ range i, L i k * L i k) = some v) :
    ∃ L', lltCol piv V N L i = some L' := by
  obtain ⟨L', h1, h2⟩ := loopN_total (f := lltEntry V i) (P := fun b L'' => i < b ∧ InCol V L i v b L'')
    (N - (i + 1)) (i + 1) ⟨by omega, inCol_start V L i v⟩
    (fun b s hb hb' hP => by
      obtain ⟨s', g1, g2⟩ := inCol_ok hP.2 hP.1 (hv0 (by omega))
      exact ⟨s', g1, by omega, g2⟩)
  refine ⟨L', ?_⟩
  unfold lltCol
  rw [dotRows_eq, hv]
  exact h1

/-- The matrix of zeros before the first column. -/
theorem cols_zero (pv : Nat → ℝ → Option ℝ) (V : Mat) (N : Nat) : Cols pv V N 0 (fun _ _ => 0) where
  up := fun _ _ _ => rfl
  todo := fun _ _ _ => rfl
  diag := fun i hi => by omega
  low := fun i hi => by omega

theorem loopN_congr {β : Type} {f g : β → Nat → Option β} (h : ∀ s a, f s a = g s a) (n a : Nat) (s : β) :
    loopN f a n s = loopN g a n s := by
  have : f = g := funext fun s => funext fun a => h s a
  rw [this]

/-- With a symmetric matrix, the code for the first column does what the code for the others would. -/
theorem factorize_eq {piv : ℝ → Option ℝ} {V : Mat} {N : Nat} (hsym : ∀ i j, V i j = V j i) :
    factorize piv V N = if N = 0 then none else
      match lltCol sqrt? V N (fun _ _ => 0) 0 with
      | none => none
      | some L => loopN (lltCol piv V N) 1 (N - 1) L := by
  unfold factorize
  split
  · rfl
  · have hf : ∀ s a, lltFirst V s a = lltEntry V 0 s a := by
      intro s a
      unfold lltFirst lltEntry
      rw [dotRows_eq, hsym 0 a]
      simp
    unfold lltCol
    rw [dotRows_eq]
    simp only [range_zero, sum_empty, sub_zero, Nat.zero_add]
    cases h : sqrt? (V 0 0) with
    | none => rfl
    | some v =>
      simp only
      rw [loopN_congr hf]
      rfl

theorem lltCol_zero {piv : ℝ → Option ℝ} {V : Mat} {N : Nat} {L' : Mat} (hN : 0 < N)
    (hs : lltCol sqrt? V N (fun _ _ => 0) 0 = some L') : Cols (pvOf piv) V N 1 L' := by
  unfold lltCol at hs
  split at hs
  · simp at hs
  · rename_i v hv
    rw [dotRows_eq] at hv
    have hc := loopN_post (P := fun b L'' => 0 < b ∧ InCol V (fun _ _ => 0) 0 v b L'') _ _
      ⟨by omega, inCol_start V _ 0 v⟩ (fun b s s' _ _ hP hs => ⟨by omega, inCol_step hP.2 hP.1 hs⟩) hs
    have hz := rest_zero (cols_zero (pvOf piv) V N) hc.1 hc.2
    exact cols_next hN (cols_zero (pvOf piv) V N) (by simpa [pvOf] using hv) hc.2
      (fun j hj => hz j (by omega))

/-- Whatever comes out is a factorisation up to the pivots. -/
theorem factorize_post {piv : ℝ → Option ℝ} {V L : Mat} {N : Nat} (hsym : ∀ i j, V i j = V j i)
    (h : factorize piv V N = some L) : Cols (pvOf piv) V N N L := by
  rw [factorize_eq hsym] at h
  split at h
  · simp at h
  · rename_i hN
    split at h
    · simp at h
    · rename_i L1 hL1
      have h1 := lltCol_zero (piv := piv) (by omega) hL1
      have := loopN_post (P := fun c L => Cols (pvOf piv) V N c L) _ _ h1
        (fun b s s' hb hb' hP hs => lltCol_post (by omega) (by omega) hP hs) h
      rwa [show 1 + (N - 1) = N by omega] at this

/-- The product of a lower triangular matrix with its transpose. -/
theorem prod_low {L : Mat} {N i : Nat} (hup : ∀ i j, j < i → L j i = 0) (hi : i < N) (j : Nat) :
    ∑ k ∈ range N, L j k * L i k = ∑ k ∈ range i, L j k * L i k + L j i * L i i := by
  rw [← sum_range_succ]
  symm
  apply sum_subset
  · intro k hk
    simp only [mem_range] at hk ⊢
    omega
  · intro k _ hk
    simp only [mem_range, not_lt] at hk
    rw [hup k i (by omega), mul_zero]

theorem sum_comm_mul (L : Mat) (N i j : Nat) :
    ∑ k ∈ range N, L j k * L i k = ∑ k ∈ range N, L i k * L j k :=
  sum_congr rfl fun k _ => mul_comm _ _

/-- From the columns to the product. -/
theorem cols_prod {pv : Nat → ℝ → Option ℝ} {V L : Mat} {N : Nat} (hsym : ∀ i j, V i j = V j i)
    (h : Cols pv V N N L) {i j : Nat} (hi : i < N) (hj : j < N) (hne : i ≠ j) :
    ∑ k ∈ range N, L i k * L j k = V i j := by
  rcases Nat.lt_or_ge i j with hlt | hge
  · rw [← sum_comm_mul, prod_low h.up hi, (h.low i hi j hlt hj).2, hsym]
  · rw [prod_low h.up hj, (h.low j hj i (by omega) hi).2]

/-! ### Positive definite matrices -/

/-- `xᵀ V x`. -/
noncomputable def quad (N : Nat) (V : Mat) (x : Nat → ℝ) : ℝ :=
  ∑ a ∈ range N, ∑ b ∈ range N, x a * V a b * x b

/-- `xᵀ V x > 0` for all nonzero vectors of size `N`. -/
def PosDef (N : Nat) (V : Mat) : Prop := ∀ x : Nat → ℝ, (∃ i, i < N ∧ x i ≠ 0) → 0 < quad N V x

/-- `xᵀ V x ≥ 0` for all vectors of size `N`. -/
def PosSemi (N : Nat) (V : Mat) : Prop := ∀ x : Nat → ℝ, 0 ≤ quad N V x

theorem quad_trunc {N n : Nat} {V : Mat} (hn : n ≤ N) (x : Nat → ℝ) :
    quad N V (fun a => if a < n then x a else 0) = quad n V x := by
  unfold quad
  have hsub : range n ⊆ range N := range_subset_range.mpr hn
  rw [← sum_subset hsub]
  · apply sum_congr rfl
    intro a ha
    rw [← sum_subset hsub]
    · apply sum_congr rfl
      intro b hb
      beta_reduce
      rw [if_pos (mem_range.mp ha), if_pos (mem_range.mp hb)]
    · intro b _ hb
      beta_reduce
      rw [if_neg (c := b < n) (by simpa using hb), mul_zero]
  · intro a _ ha
    apply sum_eq_zero
    intro b _
    beta_reduce
    rw [if_neg (c := a < n) (by simpa using ha)]
    ring

theorem PosDef.mono {N n : Nat} {V : Mat} (h : PosDef N V) (hn : n ≤ N) : PosDef n V := by
  intro x ⟨i, hi, hx⟩
  have := h (fun a => if a < n then x a else 0) ⟨i, by omega, by simpa [hi] using hx⟩
  rwa [quad_trunc hn] at this

theorem PosSemi.mono {N n : Nat} {V : Mat} (h : PosSemi N V) (hn : n ≤ N) : PosSemi n V := by
  intro x
  have := h (fun a => if a < n then x a else 0)
  rwa [quad_trunc hn] at this

theorem PosDef.semi {N : Nat} {V : Mat} (h : PosDef N V) : PosSemi N V := by
  intro x
  by_cases hx : ∃ i, i < N ∧ x i ≠ 0
  · exact (h x hx).le
  · push Not at hx
    have : quad N V x = 0 := by
      unfold quad
      apply sum_eq_zero
      intro a ha
      apply sum_eq_zero
      intro b _
      rw [hx a (mem_range.mp ha)]
      ring
    rw [this]

/-- Back substitution: a vector orthogonal to the first columns. -/
theorem backsub (M : Mat) (i : Nat) (hup : ∀ c j, j < c → M j c = 0) (hd : ∀ k, k < i → M k k ≠ 0) (t : Nat)
    (ht : t ≤ i) : ∃ x : Nat → ℝ, x i = 1 ∧
      ∀ k, i - t ≤ k → k < i → ∑ a ∈ range (i + 1), x a * M a k = 0 := by
  induction t with
  | zero => exact ⟨fun _ => 1, rfl, fun k h1 h2 => by omega⟩
  | succ t ih =>
    obtain ⟨x, h1, h2⟩ := ih (by omega)
    have hk0 : i - (t + 1) < i := by omega
    generalize hk : i - (t + 1) = k0 at hk0
    have hsum : ∀ (δ : ℝ) (k : Nat), ∑ a ∈ range (i + 1), (Function.update x k0 (x k0 + δ)) a * M a k =
        ∑ a ∈ range (i + 1), x a * M a k + δ * M k0 k := by
      intro δ k
      have hmem : k0 ∈ range (i + 1) := by simp; omega
      rw [← add_sum_erase _ _ hmem, ← add_sum_erase _ (fun a => x a * M a k) hmem]
      have : ∑ a ∈ (range (i + 1)).erase k0, (Function.update x k0 (x k0 + δ)) a * M a k =
          ∑ a ∈ (range (i + 1)).erase k0, x a * M a k := by
        apply sum_congr rfl
        intro a ha
        rw [Function.update_of_ne (mem_erase.mp ha).1]
      rw [this]
      simp
      ring
    refine ⟨Function.update x k0 (x k0 + (-(∑ a ∈ range (i + 1), x a * M a k0) / M k0 k0)), ?_, ?_⟩
    · rw [Function.update_of_ne (by omega), h1]
    · intro k hk1 hk2
      rw [hsum]
      by_cases hkk : k = k0
      · subst hkk
        have := hd k hk2
        field_simp
        ring
      · rw [hup k k0 (by omega), mul_zero, add_zero]
        exact h2 k (by omega) hk2

theorem pivot_quad {i : Nat} {V M : Mat}
    (hup : ∀ c j, j < c → M j c = 0) (hd : ∀ k, k < i → M k k ≠ 0)
    (hm : ∀ a b, a ≤ i → b ≤ i → ¬ (a = i ∧ b = i) → V a b = ∑ k ∈ range i, M a k * M b k) :
    ∃ x : Nat → ℝ, x i = 1 ∧ quad (i + 1) V x = V i i - ∑ k ∈ range i, M i k * M i k := by
  obtain ⟨x, hx, hz⟩ := backsub M i hup hd i (le_refl _)
  refine ⟨x, hx, ?_⟩
  have hV' : ∀ a ∈ range (i + 1), ∀ b ∈ range (i + 1), x a * V a b * x b =
      ∑ k ∈ range i, (x a * M a k) * (x b * M b k) +
        (if a = i then (if b = i then V i i - ∑ k ∈ range i, M i k * M i k else 0) else 0) := by
    intro a ha b hb
    simp only [mem_range] at ha hb
    have e : ∑ k ∈ range i, (x a * M a k) * (x b * M b k) =
        x a * x b * ∑ k ∈ range i, M a k * M b k := by
      rw [mul_sum]
      exact sum_congr rfl fun k _ => by ring
    rw [e]
    by_cases hab : a = i ∧ b = i
    · obtain ⟨rfl, rfl⟩ := hab
      rw [if_pos rfl, if_pos rfl, hx]
      ring
    · rw [hm a b (by omega) (by omega) hab]
      have : (if a = i then (if b = i then V i i - ∑ k ∈ range i, M i k * M i k else 0) else 0) = 0 := by
        by_cases h1 : a = i
        · have : b ≠ i := fun h2 => hab ⟨h1, h2⟩
          simp [this]
        · simp [h1]
      rw [this]
      ring
  have hq : ∑ a ∈ range (i + 1), ∑ b ∈ range (i + 1), x a * V a b * x b =
      V i i - ∑ k ∈ range i, M i k * M i k := by
    rw [sum_congr rfl fun a ha => sum_congr rfl fun b hb => hV' a ha b hb]
    simp only [sum_add_distrib]
    have h1 : ∑ a ∈ range (i + 1), ∑ b ∈ range (i + 1), ∑ k ∈ range i, (x a * M a k) * (x b * M b k) = 0 := by
      have : ∀ a ∈ range (i + 1), ∑ b ∈ range (i + 1), ∑ k ∈ range i, (x a * M a k) * (x b * M b k) =
          ∑ k ∈ range i, (x a * M a k) * ∑ b ∈ range (i + 1), x b * M b k := by
        intro a _
        rw [sum_comm]
        exact sum_congr rfl fun k _ => by rw [mul_sum]
      rw [sum_congr rfl this]
      apply sum_eq_zero
      intro a _
      apply sum_eq_zero
      intro k hk
      rw [hz k (by omega) (mem_range.mp hk), mul_zero]
    rw [h1, zero_add]
    simp
  exact hq

theorem pivot_pos {N i : Nat} {V M : Mat} (hV : PosDef N V) (hi : i < N)
    (hup : ∀ c j, j < c → M j c = 0) (hd : ∀ k, k < i → M k k ≠ 0)
    (hm : ∀ a b, a ≤ i → b ≤ i → ¬ (a = i ∧ b = i) → V a b = ∑ k ∈ range i, M a k * M b k) :
    0 < V i i - ∑ k ∈ range i, M i k * M i k := by
  obtain ⟨x, hx, hq⟩ := pivot_quad hup hd hm
  rw [← hq]
  exact hV.mono (show i + 1 ≤ N by omega) x ⟨i, by omega, by rw [hx]; norm_num⟩

theorem pivot_nonneg {N i : Nat} {V M : Mat} (hV : PosSemi N V) (hi : i < N)
    (hup : ∀ c j, j < c → M j c = 0) (hd : ∀ k, k < i → M k k ≠ 0)
    (hm : ∀ a b, a ≤ i → b ≤ i → ¬ (a = i ∧ b = i) → V a b = ∑ k ∈ range i, M a k * M b k) :
    0 ≤ V i i - ∑ k ∈ range i, M i k * M i k := by
  obtain ⟨x, hx, hq⟩ := pivot_quad hup hd hm
  rw [← hq]
  exact hV.mono (show i + 1 ≤ N by omega) x

/-- The quadratic form of a product. -/
theorem quad_prod {n : Nat} {V M : Mat} (m : Nat)
    (hm : ∀ a b, a < n → b < n → V a b = ∑ k ∈ range m, M a k * M b k) (x : Nat → ℝ) :
    quad n V x = ∑ k ∈ range m, (∑ a ∈ range n, x a * M a k) ^ 2 := by
  unfold quad
  have : ∀ a ∈ range n, ∀ b ∈ range n, x a * V a b * x b =
      ∑ k ∈ range m, (x a * M a k) * (x b * M b k) := by
    intro a ha b hb
    rw [hm a b (mem_range.mp ha) (mem_range.mp hb), mul_sum, sum_mul]
    exact sum_congr rfl fun k _ => by ring
  rw [sum_congr rfl fun a ha => sum_congr rfl fun b hb => this a ha b hb]
  rw [sum_congr rfl fun a _ => sum_comm]
  rw [sum_comm]
  apply sum_congr rfl
  intro k _
  rw [sq, sum_mul_sum]

/-- A product is positive semidefinite. -/
theorem posSemi_prod {n : Nat} {V M : Mat} (m : Nat)
    (hm : ∀ a b, a < n → b < n → V a b = ∑ k ∈ range m, M a k * M b k) : PosSemi n V := by
  intro x
  rw [quad_prod m hm]
  exact sum_nonneg fun k _ => sq_nonneg _

/-- The product of an invertible triangular matrix with its transpose is positive definite. -/
theorem posDef_prod {n : Nat} {V M : Mat} (hup : ∀ c j, j < c → M j c = 0) (hd : ∀ k, k < n → M k k ≠ 0)
    (hm : ∀ a b, a < n → b < n → V a b = ∑ k ∈ range n, M a k * M b k) : PosDef n V := by
  intro x ⟨i, hi, hx⟩
  rw [quad_prod n hm]
  by_contra hcon
  have hz : ∀ k, k < n → ∑ a ∈ range n, x a * M a k = 0 := by
    intro k hk
    by_contra h
    apply hcon
    exact sum_pos' (fun k _ => sq_nonneg _) ⟨k, mem_range.mpr hk, by positivity⟩
  have hxz : ∀ t, ∀ a, a < n → n ≤ a + t → x a = 0 := by
    intro t
    induction t with
    | zero => intro a h1 h2; omega
    | succ t ih =>
      intro a h1 h2
      by_cases h3 : n ≤ a + t
      · exact ih a h1 h3
      · have := hz a h1
        rw [sum_eq_single a] at this
        · rcases mul_eq_zero.mp this with h | h
          · exact h
          · exact absurd h (hd a h1)
        · intro b hb hne
          have hb := mem_range.mp hb
          rcases Nat.lt_or_ge b a with h | h
          · rw [hup a b h, mul_zero]
          · rw [ih b hb (by omega), zero_mul]
        · intro h; exact absurd (mem_range.mpr h1) h
  exact hx (hxz n i hi (by omega))

/-- The columns before `i` give back the leading block, when their pivots are squares. -/
theorem cols_block {pv : Nat → ℝ → Option ℝ} {N i c : Nat} {V L : Mat} (hsym : ∀ i j, V i j = V j i)
    (hi : i < N) (hic : i ≤ c) (h : Cols pv V N c L)
    (hpv : ∀ c, c < i → L c c * L c c = V c c - ∑ k ∈ range c, L c k * L c k) (a b : Nat) (ha : a ≤ i)
    (hb : b ≤ i) (hab : ¬ (a = i ∧ b = i)) : V a b = ∑ k ∈ range i, L a k * L b k := by
  have key : ∀ a b, a < i → a ≤ b → b ≤ i → V b a = ∑ k ∈ range i, L b k * L a k := by
    intro a b ha hab hb
    rw [prod_low h.up ha]
    by_cases e : a = b
    · subst e
      have := hpv a ha
      linarith
    · exact ((h.low a (by omega) b (by omega) (by omega)).2).symm
  rcases Nat.lt_or_ge a b with hlt | hge
  · rw [hsym, key a b (by omega) (by omega) hb, sum_comm_mul]
  · rw [key b a (by omega) (by omega) ha]

theorem cols_pivot_pos {pv : Nat → ℝ → Option ℝ} {N i c : Nat} {V L : Mat} (hsym : ∀ i j, V i j = V j i)
    (hV : PosDef N V) (hi : i < N) (hic : i ≤ c) (h : Cols pv V N c L)
    (hpv : ∀ c, c < i → L c c * L c c = V c c - ∑ k ∈ range c, L c k * L c k) :
    0 < V i i - ∑ k ∈ range i, L i k * L i k :=
  pivot_pos hV hi h.up (fun k hk => (h.low k (by omega) i hk hi).1) (cols_block hsym hi hic h hpv)

theorem cols_pivot_nonneg {pv : Nat → ℝ → Option ℝ} {N i c : Nat} {V L : Mat} (hsym : ∀ i j, V i j = V j i)
    (hV : PosSemi N V) (hi : i < N) (hic : i ≤ c) (h : Cols pv V N c L)
    (hpv : ∀ c, c < i → L c c * L c c = V c c - ∑ k ∈ range c, L c k * L c k) :
    0 ≤ V i i - ∑ k ∈ range i, L i k * L i k :=
  pivot_nonneg hV hi h.up (fun k hk => (h.low k (by omega) i hk hi).1) (cols_block hsym hi hic h hpv)

theorem cols_sq {piv : ℝ → Option ℝ} {N c : Nat} {V L : Mat} (h : Cols (pvOf piv) V N c L)
    (hpiv : ∀ x, 0 < x → piv x = some (Real.sqrt x)) {i : Nat} (hi : i < c)
    (hp : 0 < V i i - ∑ k ∈ range i, L i k * L i k) :
    0 < L i i ∧ L i i * L i i = V i i - ∑ k ∈ range i, L i k * L i k := by
  have h1 := h.diag i hi
  have h2 : pvOf piv i (V i i - ∑ k ∈ range i, L i k * L i k) =
      some (Real.sqrt (V i i - ∑ k ∈ range i, L i k * L i k)) := by
    unfold pvOf
    split
    · rw [sqrt?_eq_some]; exact ⟨hp.le, rfl⟩
    · exact hpiv _ hp
  rw [h2, Option.some.injEq] at h1
  rw [← h1]
  exact ⟨Real.sqrt_pos.mpr hp, Real.mul_self_sqrt hp.le⟩

theorem cols_all {piv : ℝ → Option ℝ} {N c : Nat} {V L : Mat} (hsym : ∀ i j, V i j = V j i)
    (hV : PosDef N V) (hc : c ≤ N) (h : Cols (pvOf piv) V N c L)
    (hpiv : ∀ x, 0 < x → piv x = some (Real.sqrt x)) :
    ∀ i, i < c → 0 < L i i ∧ L i i * L i i = V i i - ∑ k ∈ range i, L i k * L i k := by
  intro i
  induction i using Nat.strong_induction_on with
  | _ i ih =>
    intro hi
    exact cols_sq h hpiv hi (cols_pivot_pos hsym hV (by omega) hi.le h
      fun c' hc' => (ih c' hc' (by omega)).2)

/-- The factorisation comes to its end when the pivots are defined, and not zero before the last. -/
theorem factorize_total {piv : ℝ → Option ℝ} {V : Mat} {N : Nat} (hN : 0 < N) (hsym : ∀ i j, V i j = V j i)
    (hstep : ∀ i, i < N → ∀ L, Cols (pvOf piv) V N i L →
      ∃ v, pvOf piv i (V i i - ∑ k ∈ range i, L i k * L i k) = some v ∧ (i + 1 < N → v ≠ 0)) :
    ∃ L, factorize piv V N = some L ∧ Cols (pvOf piv) V N N L := by
  rw [factorize_eq hsym, if_neg (by omega)]
  obtain ⟨v, hv, hv0⟩ := hstep 0 hN _ (cols_zero (pvOf piv) V N)
  obtain ⟨L1, hL1⟩ := lltCol_ok (N := N) hv0 (piv := sqrt?) (by simpa [pvOf] using hv)
  rw [hL1]
  simp only
  obtain ⟨L, h1, h2⟩ := loopN_total (f := lltCol piv V N)
    (P := fun c L => Cols (pvOf piv) V N c L) (N - 1) 1 (lltCol_zero (piv := piv) hN hL1)
    (by
      intro b s hb hb' hP
      obtain ⟨v, hv, hv0⟩ := hstep b (by omega) s hP
      unfold pvOf at hv
      rw [if_neg (by omega)] at hv
      obtain ⟨L', hL'⟩ := lltCol_ok hv0 hv
      exact ⟨L', hL', lltCol_post (by omega) (by omega) hP hL'⟩)
  rw [show 1 + (N - 1) = N by omega] at h2
  exact ⟨L, h1, h2⟩

/-- For positive definite matrices the factorisation comes to its end, with all pivots positive. -/
theorem factorize_ok {piv : ℝ → Option ℝ} {V : Mat} {N : Nat} (hN : 0 < N) (hsym : ∀ i j, V i j = V j i)
    (hV : PosDef N V) (hpiv : ∀ x, 0 < x → piv x = some (Real.sqrt x)) :
    ∃ L, factorize piv V N = some L ∧ Cols (pvOf piv) V N N L := by
  apply factorize_total hN hsym
  intro i hi L hL
  have hp := cols_pivot_pos hsym hV hi (le_refl _) hL
    fun c hc => (cols_all hsym hV (by omega) hL hpiv c hc).2
  refine ⟨Real.sqrt (V i i - ∑ k ∈ range i, L i k * L i k), ?_, fun _ => (Real.sqrt_pos.mpr hp).ne'⟩
  unfold pvOf
  split
  · rw [sqrt?_eq_some]; exact ⟨hp.le, rfl⟩
  · exact hpiv _ hp

/-- The columns determine the matrix. -/
theorem cols_unique {pv pv' : Nat → ℝ → Option ℝ} {V L M : Mat} {N c : Nat} (hL : Cols pv V N c L)
    (hM : Cols pv' V N c M) (hpv : ∀ i, i < c → ∀ x v w, pv i x = some v → pv' i x = some w → v = w) :
    ∀ k, k < c → ∀ j, j < N → L j k = M j k := by
  intro k
  induction k using Nat.strong_induction_on with
  | _ k ih =>
    intro hk j hj
    rcases Nat.lt_trichotomy j k with h | h | h
    · rw [hL.up k j h, hM.up k j h]
    · subst h
      have h1 := hL.diag j hk
      have h2 := hM.diag j hk
      have : ∑ a ∈ range j, L j a * L j a = ∑ a ∈ range j, M j a * M j a :=
        sum_congr rfl fun a ha => by
          have := mem_range.mp ha
          rw [ih a this (by omega) j hj]
      rw [this] at h1
      exact hpv j hk _ _ _ h1 h2
    · have hkk : L k k = M k k := by
        have h1 := hL.diag k hk
        have h2 := hM.diag k hk
        have : ∑ a ∈ range k, L k a * L k a = ∑ a ∈ range k, M k a * M k a :=
          sum_congr rfl fun a ha => by
            have := mem_range.mp ha
            rw [ih a this (by omega) k (by omega)]
        rw [this] at h1
        exact hpv k hk _ _ _ h1 h2
      obtain ⟨g0, g1⟩ := hL.low k hk j h hj
      obtain ⟨g2, g3⟩ := hM.low k hk j h hj
      have : ∑ a ∈ range k, L j a * L k a = ∑ a ∈ range k, M j a * M k a :=
        sum_congr rfl fun a ha => by
          have := mem_range.mp ha
          rw [ih a this (by omega) k (by omega), ih a this (by omega) j hj]
      rw [this, hkk] at g1
      exact mul_right_cancel₀ g2 (by linarith)

/-! ### LDLT -/

/-- The columns below `c` of `L` and `D` are final. -/
structure DCols (V : Mat) (N c : Nat) (L : Mat) (D : Nat → ℝ) : Prop where
  up : ∀ i j, j < i → L j i = 0
  todo : ∀ i j, c ≤ i → L j i = 0
  one : ∀ i, i < c → L i i = 1
  diag : ∀ i, i < c → D i = V i i - ∑ k ∈ range i, L i k * L i k * D k
  low : ∀ i, i < c → ∀ j, i < j → j < N → D i ≠ 0 ∧
    ∑ k ∈ range i, L j k * L i k * D k + L j i * D i = V j i

/-- Within a column of LDLT. -/
structure InDCol (V : Mat) (D : Nat → ℝ) (L : Mat) (i : Nat) (b : Nat) (L' : Mat) : Prop where
  other : ∀ a c, c ≠ i → L' a c = L a c
  above : ∀ a, a < i → L' a i = L a i
  piv : L' i i = 1
  done : ∀ j, i < j → j < b → D i ≠ 0 ∧ L' j i = (V j i - ∑ k ∈ range i, L j k * L i k * D k) / D i
  rest : ∀ j, i < j → b ≤ j → L' j i = L j i

theorem inDCol_step {V L L' : Mat} {D : Nat → ℝ} {i b : Nat} (h : InDCol V D L i b L') (hb : i < b)
    (hD : D i ≠ 0) :
    InDCol V D L i (b + 1) (setMat L' b i ((V b i - ∑ k ∈ range i, L b k * L i k * D k) / D i)) where
  other := fun a c hc => by rw [setMat_ne _ _ (Or.inr hc), h.other a c hc]
  above := fun a ha => by rw [setMat_ne _ _ (Or.inl (by omega)), h.above a ha]
  piv := by rw [setMat_ne _ _ (Or.inl (by omega)), h.piv]
  done := fun j h1 h2 => by
    refine ⟨hD, ?_⟩
    by_cases hj : j = b
    · subst hj; rw [setMat_same]
    · rw [setMat_ne _ _ (Or.inl hj)]
      exact (h.done j h1 (by omega)).2
  rest := fun j h1 h2 => by rw [setMat_ne _ _ (Or.inl (by omega)), h.rest j h1 (by omega)]

theorem InDCol.sum {V L L' : Mat} {D : Nat → ℝ} {i b : Nat} (h : InDCol V D L i b L') (j j' n : Nat)
    (hn : n ≤ i) :
    ∑ k ∈ range n, L' j k * L' j' k * D k = ∑ k ∈ range n, L j k * L j' k * D k := by
  apply sum_congr rfl
  intro k hk
  have : k ≠ i := by have := mem_range.mp hk; omega
  rw [h.other _ _ this, h.other _ _ this]

theorem ldltEntry_eq {V L L' : Mat} {D : Nat → ℝ} {i b : Nat} (h : InDCol V D L i b L') :
    ldltEntry V D i L' b = if D i = 0 then none else
      some (setMat L' b i ((V b i - ∑ k ∈ range i, L b k * L i k * D k) / D i)) := by
  unfold ldltEntry
  rw [foldl_sub_eq, h.sum _ _ _ (le_refl _)]
  unfold div?
  by_cases hD : D i = 0 <;> simp [hD]

theorem inDCol_start (V L : Mat) (D : Nat → ℝ) (i : Nat) : InDCol V D L i (i + 1) (setMat L i i 1) where
  other := fun a c hc => setMat_ne _ _ (Or.inr hc)
  above := fun a ha => setMat_ne _ _ (Or.inl (by omega))
  piv := setMat_same _ _ _ _
  done := fun j h1 h2 => by omega
  rest := fun j h1 _ => setMat_ne _ _ (Or.inl (by omega))

theorem ldltDiag_eq (V L : Mat) (D : Nat → ℝ) (j : Nat) :
    ldltDiag V (setMat L j j 1) D j = V j j - ∑ k ∈ range j, L j k * L j k * D k := by
  unfold ldltDiag
  rw [foldl_sub_eq]
  congr 1
  apply sum_congr rfl
  intro k hk
  have := mem_range.mp hk
  rw [setMat_ne _ _ (Or.inr (by omega))]

theorem sum_updateD (L : Mat) (D : Nat → ℝ) (i j j' n : Nat) (v : ℝ) (hn : n ≤ i) :
    ∑ k ∈ range n, L j k * L j' k * Function.update D i v k = ∑ k ∈ range n, L j k * L j' k * D k := by
  apply sum_congr rfl
  intro k hk
  have := mem_range.mp hk
  rw [Function.update_of_ne (by omega)]

theorem ldltCol_post {V L L' : Mat} {D D' : Nat → ℝ} {N i : Nat} (hi : i < N) (h : DCols V N i L D)
    (hs : ldltCol V N (L, D) i = some (L', D')) : DCols V N (i + 1) L' D' := by
  unfold ldltCol at hs
  simp only [ldltDiag_eq] at hs
  generalize hD' : Function.update D i (V i i - ∑ k ∈ range i, L i k * L i k * D k) = D2 at hs
  split at hs
  · simp at hs
  · rename_i L2 hL2
    simp only [Option.some.injEq, Prod.mk.injEq] at hs
    obtain ⟨rfl, rfl⟩ := hs
    have hc := loopN_post (P := fun b L'' => i < b ∧ InDCol V D2 L i b L'') _ _
      ⟨by omega, inDCol_start V L D2 i⟩ (fun b s s' _ _ hP hs => by
        rw [ldltEntry_eq hP.2] at hs
        split at hs
        · simp at hs
        · rename_i hD
          simp only [Option.some.injEq] at hs
          subst hs
          exact ⟨by omega, inDCol_step hP.2 hP.1 hD⟩) hL2
    obtain ⟨_, hc⟩ := hc
    have hsum : ∀ j j' n, n ≤ i → ∑ k ∈ range n, L2 j k * L2 j' k * D2 k =
        ∑ k ∈ range n, L j k * L j' k * D k := by
      intro j j' n hn
      rw [hc.sum _ _ _ hn, ← hD', sum_updateD _ _ _ _ _ _ _ hn]
    constructor
    · intro c j hj
      by_cases hci : c = i
      · subst hci; rw [hc.above j hj, h.up c j hj]
      · rw [hc.other _ _ hci, h.up c j hj]
    · intro c j hcc
      rw [hc.other _ _ (by omega), h.todo c j (by omega)]
    · intro c hcc
      by_cases hci : c = i
      · subst hci; exact hc.piv
      · rw [hc.other _ _ hci]; exact h.one c (by omega)
    · intro c hcc
      rw [hsum _ _ _ (by omega)]
      by_cases hci : c = i
      · subst hci; rw [← hD']; simp
      · rw [← hD', Function.update_of_ne hci]; exact h.diag c (by omega)
    · intro c hcc j h1 h2
      rw [hsum _ _ _ (by omega)]
      by_cases hci : c = i
      · subst hci
        obtain ⟨hv, hj⟩ := hc.done j h1 (by omega)
        rw [← hD', sum_updateD _ _ _ _ _ _ _ (le_refl _), hD'] at hj
        refine ⟨hv, ?_⟩
        rw [hj]
        field_simp
        ring
      · have hd : D2 c = D c := by rw [← hD', Function.update_of_ne hci]
        rw [hc.other _ _ hci, hd]
        exact h.low c (by omega) j h1 h2

theorem ldltCol_ok {V L : Mat} {D : Nat → ℝ} {N i : Nat} (hi : i < N) (h : DCols V N i L D)
    (hD : i + 1 < N → V i i - ∑ k ∈ range i, L i k * L i k * D k ≠ 0) :
    ∃ s, ldltCol V N (L, D) i = some s ∧ DCols V N (i + 1) s.1 s.2 := by
  generalize hD' : Function.update D i (V i i - ∑ k ∈ range i, L i k * L i k * D k) = D2
  obtain ⟨L', h1, h2⟩ := loopN_total (f := ldltEntry V D2 i) (P := fun b L'' => i < b ∧ InDCol V D2 L i b L'')
    (N - (i + 1)) (i + 1) ⟨by omega, inDCol_start V L D2 i⟩
    (fun b s hb hb' hP => by
      have hne : D2 i ≠ 0 := by rw [← hD']; simpa using hD (by omega)
      refine ⟨_, ?_, ?_, inDCol_step hP.2 hP.1 hne⟩
      · rw [ldltEntry_eq hP.2, if_neg hne]
      · omega)
  have hs : ldltCol V N (L, D) i = some (L', D2) := by
    unfold ldltCol
    simp only [ldltDiag_eq, hD', h1]
  exact ⟨_, hs, ldltCol_post hi h hs⟩

theorem dcols_zero (V : Mat) (N : Nat) (D : Nat → ℝ) : DCols V N 0 (fun _ _ => 0) D where
  up := fun _ _ _ => rfl
  todo := fun _ _ _ => rfl
  one := fun i hi => by omega
  diag := fun i hi => by omega
  low := fun i hi => by omega

/-- `L √D`. -/
noncomputable def rootOf (L : Mat) (D : Nat → ℝ) : Mat := fun i j => L i j * Real.sqrt (D j)

theorem dcols_cols {V L : Mat} {D : Nat → ℝ} {N c : Nat} (h : DCols V N c L D) (hD : ∀ i, i < c → 0 ≤ D i) :
    Cols (pvOf sqrt?) V N c (rootOf L D) := by
  have hsum : ∀ i j n, n ≤ c → ∑ k ∈ range n, rootOf L D j k * rootOf L D i k =
      ∑ k ∈ range n, L j k * L i k * D k := by
    intro i j n hn
    apply sum_congr rfl
    intro k hk
    have hk := mem_range.mp hk
    have := Real.mul_self_sqrt (hD k (by omega))
    unfold rootOf
    calc L j k * √(D k) * (L i k * √(D k)) = L j k * L i k * (√(D k) * √(D k)) := by ring
      _ = _ := by rw [this]
  constructor
  · intro i j hj
    unfold rootOf
    rw [h.up i j hj, zero_mul]
  · intro i j hj
    unfold rootOf
    rw [h.todo i j hj, zero_mul]
  · intro i hi
    rw [hsum _ _ _ (by omega), ← h.diag i hi]
    have : pvOf sqrt? i (D i) = sqrt? (D i) := by unfold pvOf; split <;> rfl
    rw [this, sqrt?_eq_some]
    refine ⟨hD i hi, ?_⟩
    unfold rootOf
    rw [h.one i hi, one_mul]
  · intro i hi j h1 h2
    obtain ⟨g1, g2⟩ := h.low i hi j h1 h2
    have hpos : 0 < D i := lt_of_le_of_ne (hD i hi) (Ne.symm g1)
    refine ⟨?_, ?_⟩
    · unfold rootOf
      rw [h.one i hi, one_mul]
      exact (Real.sqrt_pos.mpr hpos).ne'
    · rw [hsum _ _ _ (by omega)]
      have e : rootOf L D j i * rootOf L D i i = L j i * D i := by
        unfold rootOf
        rw [h.one i hi]
        calc L j i * √(D i) * (1 * √(D i)) = L j i * (√(D i) * √(D i)) := by ring
          _ = _ := by rw [Real.mul_self_sqrt hpos.le]
      rw [e, g2]

theorem ldltRoot_eq {L : Mat} {D : Nat → ℝ} {N c : Nat} {V M : Mat} (h : DCols V N c L D) (hcN : c = N)
    (hM : ldltRoot N L D = some M) : (∀ i, i < N → 0 ≤ D i) ∧ M = rootOf L D := by
  unfold ldltRoot at hM
  split at hM
  · simp at hM
  · rename_i hD
    simp only [Option.some.injEq] at hM
    refine ⟨fun i hi => ?_, ?_⟩
    · by_contra hc
      exact hD ⟨i, hi, lt_of_not_ge hc⟩
    · subst hM
      funext i j
      unfold rootOf
      simp only [mul_ite, mul_zero, sum_ite_eq', mem_range]
      split
      · rfl
      · rw [h.todo j i (by omega), zero_mul]

theorem factorizeLDLT_post {V M : Mat} {N : Nat} (h : factorizeLDLT V N = some M) :
    Cols (pvOf sqrt?) V N N M := by
  unfold factorizeLDLT at h
  split at h
  · simp at h
  · split at h
    · simp at h
    · rename_i L D hLD
      have hc := loopN_post (P := fun c s => DCols V N c s.1 s.2) _ _ (dcols_zero V N _)
        (fun b s s' _ hb' hP hs => ldltCol_post (L := s.1) (D := s.2) (by omega) hP hs) hLD
      rw [Nat.zero_add] at hc
      obtain ⟨h1, rfl⟩ := ldltRoot_eq hc rfl h
      exact dcols_cols hc h1

theorem factorizeLDLT_ok {V : Mat} {N : Nat} (hN : 0 < N)
    (hstep : ∀ i, i < N → ∀ L, Cols (pvOf sqrt?) V N i L →
      0 ≤ V i i - ∑ k ∈ range i, L i k * L i k ∧
      (i + 1 < N → V i i - ∑ k ∈ range i, L i k * L i k ≠ 0)) :
    ∃ M, factorizeLDLT V N = some M := by
  obtain ⟨s, h1, h2, h3⟩ := loopN_total (f := ldltCol V N)
    (P := fun c s => DCols V N c s.1 s.2 ∧ ∀ i, i < c → 0 ≤ s.2 i) N 0
    (s := ((fun _ _ => 0), Function.update (fun _ => 0) 0 (V 0 0)))
    ⟨dcols_zero V N _, fun i hi => by omega⟩
    (by
      rintro b ⟨L, D⟩ _ hb ⟨hP, hD⟩
      simp only at hP hD
      have hp := hstep b (by omega) _ (dcols_cols hP hD)
      have hsum : ∑ k ∈ range b, rootOf L D b k * rootOf L D b k =
          ∑ k ∈ range b, L b k * L b k * D k := by
        apply sum_congr rfl
        intro k hk
        have hk := mem_range.mp hk
        unfold rootOf
        calc L b k * √(D k) * (L b k * √(D k)) = L b k * L b k * (√(D k) * √(D k)) := by ring
          _ = _ := by rw [Real.mul_self_sqrt (hD k hk)]
      rw [hsum] at hp
      obtain ⟨s', g1, g2⟩ := ldltCol_ok (by omega) hP hp.2
      refine ⟨s', g1, g2, ?_⟩
      intro i hi
      have hdD : ∀ k, k < b → s'.2 k = D k := by
        intro k hk
        unfold ldltCol at g1
        simp only at g1
        split at g1
        · simp at g1
        · simp only [Option.some.injEq] at g1
          rw [← g1]
          simp only
          rw [Function.update_of_ne (by omega)]
      by_cases hib : i = b
      · subst hib
        unfold ldltCol at g1
        simp only [ldltDiag_eq] at g1
        split at g1
        · simp at g1
        · simp only [Option.some.injEq] at g1
          rw [← g1]
          simpa using hp.1
      · rw [hdD i (by omega)]
        exact hD i (by omega))
  unfold factorizeLDLT
  rw [if_neg (by omega), h1]
  simp only [ldltRoot]
  rw [if_neg]
  · exact ⟨_, rfl⟩
  · rintro ⟨i, hi, hneg⟩
    have := h3 i (by omega)
    linarith

/-! ### What comes out of each variant -/

theorem prod_diag {L : Mat} {N i : Nat} {V : Mat} (hup : ∀ i j, j < i → L j i = 0) (hi : i < N)
    (hsq : L i i * L i i = V i i - ∑ k ∈ range i, L i k * L i k) : ∑ k ∈ range N, L i k * L i k = V i i := by
  rw [prod_low hup hi, hsq]
  ring

theorem cols_prod_all {pv : Nat → ℝ → Option ℝ} {V L : Mat} {N : Nat} (hsym : ∀ i j, V i j = V j i)
    (h : Cols pv V N N L)
    (hsq : ∀ i, i < N → L i i * L i i = V i i - ∑ k ∈ range i, L i k * L i k) {i j : Nat} (hi : i < N)
    (hj : j < N) : ∑ k ∈ range N, L i k * L j k = V i j := by
  by_cases hij : i = j
  · subst hij; exact prod_diag h.up hi (hsq i hi)
  · exact cols_prod hsym h hi hj hij

theorem pvOf_sqrt (i : Nat) : pvOf sqrt? i = sqrt? := by unfold pvOf; split <;> rfl

theorem sqrt_cols {V L : Mat} {N c : Nat} (h : Cols (pvOf sqrt?) V N c L) {i : Nat} (hi : i < c) :
    0 ≤ L i i ∧ L i i * L i i = V i i - ∑ k ∈ range i, L i k * L i k := by
  have := h.diag i hi
  rw [pvOf_sqrt, sqrt?_eq_some] at this
  rw [this.2]
  exact ⟨Real.sqrt_nonneg _, Real.mul_self_sqrt this.1⟩

/-- Before the last column, the pivots are positive: the leading block is positive definite. -/
theorem cols_lead {pv : Nat → ℝ → Option ℝ} {V L : Mat} {N : Nat} (hsym : ∀ i j, V i j = V j i)
    (h : Cols pv V N N L)
    (hsq : ∀ i, i + 1 < N → L i i * L i i = V i i - ∑ k ∈ range i, L i k * L i k) :
    PosDef (N - 1) V := by
  apply posDef_prod (M := L) h.up
  · intro k hk
    exact (h.low k (by omega) (k + 1) (by omega) (by omega)).1
  · intro a b ha hb
    exact cols_block (i := N - 1) hsym (by omega) (by omega) h (fun c hc => hsq c (by omega)) a b
      (by omega) (by omega) (by omega)

/-- The pivots when the leading block is positive definite. -/
theorem lead_pivot {piv : ℝ → Option ℝ} {N c i : Nat} {V L : Mat} (hsym : ∀ i j, V i j = V j i)
    (hV : PosDef (N - 1) V) (h : Cols (pvOf piv) V N c L)
    (hpiv : ∀ x, 0 < x → piv x = some (Real.sqrt x)) :
    i ≤ c → i + 1 < N → 0 < V i i - ∑ k ∈ range i, L i k * L i k := by
  induction i using Nat.strong_induction_on with
  | _ i ih =>
    intro hi hiN
    refine pivot_pos hV (by omega) h.up (fun k hk => (h.low k (by omega) i hk (by omega)).1)
      (cols_block hsym (show i < N by omega) hi h ?_)
    intro c' hc'
    exact (cols_sq h hpiv (by omega) (ih c' hc' (by omega) (by omega))).2

/-- The last pivot when moreover the matrix is positive semidefinite. -/
theorem last_pivot {piv : ℝ → Option ℝ} {N c i : Nat} {V L : Mat} (hsym : ∀ i j, V i j = V j i)
    (hV : PosDef (N - 1) V) (hS : PosSemi N V) (h : Cols (pvOf piv) V N c L)
    (hpiv : ∀ x, 0 < x → piv x = some (Real.sqrt x)) (hi : i ≤ c) (hiN : i < N) :
    0 ≤ V i i - ∑ k ∈ range i, L i k * L i k :=
  cols_pivot_nonneg hsym hS hiN hi h fun c' hc' =>
    (cols_sq h hpiv (by omega) (lead_pivot hsym hV h hpiv (by omega) (by omega))).2

end Paradiseo.Edo
