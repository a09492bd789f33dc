/-
C348: how the training of a perceptron adapts its rate.
-/
import Verif.Props.MlpGradient
import Mathlib.Analysis.SpecialFunctions.Pow.NNReal

namespace Paradiseo.Mlp

/-! ### Specification -/

/-- The inner product of two choices of one vector per neuron, over the whole net. -/
noncomputable def inner (q : QNet ℝ) (u v : QNeuron ℝ → List ℝ) : ℝ :=
  (q.flatten.map fun n => (List.zipWith (· * ·) (u n) (v n)).sum).sum

/-- The length of a choice of one vector per neuron. -/
noncomputable def len (q : QNet ℝ) (u : QNeuron ℝ → List ℝ) : ℝ := √(inner q u u)

/-- The operations of exact arithmetic. -/
structure Exact (N : Num ℝ) : Prop where
  sqrt : N.sqrt = Real.sqrt
  lt : ∀ a b, N.lt a b = decide (a < b)
  lit : ∀ a b, N.lit a b = a / b
  size : ∀ n, N.ofSize n = n

/-! ### Lemmas -/

theorem Exact.max {N : Num ℝ} (hN : Exact N) (a b : ℝ) : N.max a b = max a b := by
  unfold Num.max
  rw [hN.lt]
  by_cases h : a < b
  · simp [h, max_eq_right h.le]
  · simp [h, max_eq_left (not_lt.1 h)]

theorem sumNeurons_eq (q : QNet ℝ) (f : QNeuron ℝ → ℝ) : sumNeurons q f = (q.flatten.map f).sum := by
  have h : ∀ (q : QNet ℝ) (a : ℝ), q.foldl (fun s l => l.foldl (fun s n => s + f n) s) a = a + (q.flatten.map f).sum := by
    intro q
    induction q with
    | nil => simp
    | cons l q ih =>
      intro a
      rw [List.foldl_cons, ih, foldl_sum, List.flatten_cons, List.map_append, List.sum_append]
      ring
  unfold sumNeurons
  rw [h]
  ring

theorem inner_eq (q : QNet ℝ) (u v : QNeuron ℝ → List ℝ) : sumNeurons q (fun n => dot (u n) (v n)) = inner q u v := by
  rw [sumNeurons_eq]
  unfold inner dot
  simp only [foldl_add, zero_add]

theorem square_add {a c A B C D : ℝ} (hA : 0 ≤ A) (hB : 0 ≤ B) (hC : 0 ≤ C) (hD : 0 ≤ D) (h1 : a ^ 2 ≤ A * B)
    (h2 : c ^ 2 ≤ C * D) : (a + c) ^ 2 ≤ (A + C) * (B + D) := by
  have h3 : (a * c) ^ 2 ≤ (A * D) * (C * B) := by
    have := mul_le_mul h1 h2 (sq_nonneg c) (mul_nonneg hA hB)
    nlinarith
  have h4 : 2 * (a * c) ≤ A * D + C * B := by
    have h5 : (2 * (a * c)) ^ 2 ≤ (A * D + C * B) ^ 2 := by nlinarith [sq_nonneg (A * D - C * B)]
    exact (abs_le_of_sq_le_sq' h5 (by positivity)).2
  nlinarith

theorem zip_self_nonneg (x : List ℝ) : 0 ≤ (List.zipWith (· * ·) x x).sum := by
  induction x with
  | nil => simp
  | cons a x ih =>
    simp only [List.zipWith_cons_cons, List.sum_cons]
    exact add_nonneg (mul_self_nonneg a) ih

theorem zip_cauchy : ∀ x y : List ℝ, ((List.zipWith (· * ·) x y).sum) ^ 2 ≤
    (List.zipWith (· * ·) x x).sum * (List.zipWith (· * ·) y y).sum
  | [], y => by simp
  | x :: xs, [] => by simp
  | x :: xs, y :: ys => by
    simp only [List.zipWith_cons_cons, List.sum_cons]
    exact square_add (mul_self_nonneg x) (mul_self_nonneg y) (zip_self_nonneg xs) (zip_self_nonneg ys) (by ring_nf; rfl)
      (zip_cauchy xs ys)

theorem inner_cauchy (q : QNet ℝ) (u v : QNeuron ℝ → List ℝ) :
    (inner q u v) ^ 2 ≤ inner q u u * inner q v v ∧ 0 ≤ inner q u u := by
  unfold inner
  induction q.flatten with
  | nil => simp
  | cons n l ih =>
    simp only [List.map_cons, List.sum_cons]
    have hv : 0 ≤ (l.map fun n => (List.zipWith (· * ·) (v n) (v n)).sum).sum :=
      List.sum_nonneg (by
        intro x hx
        rw [List.mem_map] at hx
        obtain ⟨m, _, rfl⟩ := hx
        exact zip_self_nonneg (v m))
    exact ⟨square_add (zip_self_nonneg _) (zip_self_nonneg _) ih.2 hv (zip_cauchy _ _) ih.1,
      add_nonneg (zip_self_nonneg _) ih.2⟩

theorem inner_le_len (q : QNet ℝ) (u v : QNeuron ℝ → List ℝ) : |inner q u v| ≤ len q u * len q v := by
  unfold len
  rw [← Real.sqrt_mul (inner_cauchy q u v).2]
  exact Real.abs_le_sqrt (inner_cauchy q u v).1

/-- The two lengths of the code, with their floors. -/
theorem coeffAdapt_eq {N : Num ℝ} (hN : Exact N) (q : QNet ℝ) (c : Coeffs ℝ) :
    let me := max (len q QNeuron.dxo) (1 / 10000)
    let mw := max (len q QNeuron.dweight1) (1 / 10000)
    let eta := max (c.eta * (1 + 1 / 2 * inner q QNeuron.dxo QNeuron.dweight1 / (me * mw))) (1 / 10000)
    let lambda := 1 / 10 * me / mw
    coeffAdapt N q c = ⟨eta, eta * lambda, lambda⟩ := by
  unfold coeffAdapt
  simp only [hN.max, hN.sqrt, hN.lit, inner_eq, len]
  norm_num

/-- A vector per neuron, times a number. -/
theorem len_scale (q : QNet ℝ) (u : QNeuron ℝ → List ℝ) (b : ℝ) (hb : 0 ≤ b) :
    len q (fun n => scale b (u n)) = b * len q u := by
  have hz : ∀ x : List ℝ, (List.zipWith (· * ·) (scale b x) (scale b x)).sum = b * b * (List.zipWith (· * ·) x x).sum := by
    intro x
    unfold scale
    induction x with
    | nil => simp
    | cons a x ih =>
      simp only [List.map_cons, List.zipWith_cons_cons, List.sum_cons, ih]
      ring
  have h : inner q (fun n => scale b (u n)) (fun n => scale b (u n)) = b * b * inner q u u := by
    unfold inner
    simp only [hz]
    rw [List.sum_map_mul_left]
  unfold len
  rw [h, Real.sqrt_mul (mul_self_nonneg b), Real.sqrt_mul_self hb]

/-! ### The property -/

/-- **C348** (after an accepted step).  The rate is multiplied by a number between 1/2 and 3/2 but never gets below 1/10000;
it grows iff the step goes along with the gradient. -/
theorem C348_accepted {N : Num ℝ} (hN : Exact N) (q : QNet ℝ) (c : Coeffs ℝ) (hc : 1 / 10000 ≤ c.eta) :
    1 / 10000 ≤ (coeffAdapt N q c).eta ∧ c.eta / 2 ≤ (coeffAdapt N q c).eta ∧
    (coeffAdapt N q c).eta ≤ 3 / 2 * c.eta ∧
    (c.eta < (coeffAdapt N q c).eta ↔ 0 < inner q QNeuron.dxo QNeuron.dweight1) := by
  rw [coeffAdapt_eq hN]
  dsimp only
  have hcs := inner_le_len q QNeuron.dxo QNeuron.dweight1
  generalize hme : max (len q QNeuron.dxo) (1 / 10000) = me
  generalize hmw : max (len q QNeuron.dweight1) (1 / 10000) = mw
  have h1 : 0 < me := by rw [← hme]; exact lt_of_lt_of_le (by norm_num) (le_max_right _ _)
  have h2 : 0 < mw := by rw [← hmw]; exact lt_of_lt_of_le (by norm_num) (le_max_right _ _)
  have h3 : |inner q QNeuron.dxo QNeuron.dweight1| ≤ me * mw := by
    refine hcs.trans (mul_le_mul ?_ ?_ (Real.sqrt_nonneg _) h1.le)
    · rw [← hme]; exact le_max_left _ _
    · rw [← hmw]; exact le_max_left _ _
  generalize inner q QNeuron.dxo QNeuron.dweight1 = ew at h3
  have hp : 0 < me * mw := mul_pos h1 h2
  have h4 : |ew / (me * mw)| ≤ 1 := by
    rw [abs_div, abs_of_pos hp]
    exact div_le_one_of_le₀ h3 hp.le
  have e : 1 / 2 * ew / (me * mw) = 1 / 2 * (ew / (me * mw)) := by ring
  have hsign : 0 < ew / (me * mw) ↔ 0 < ew := div_pos_iff_of_pos_right hp
  rw [e, ← hsign]
  generalize ew / (me * mw) = r at h4
  obtain ⟨h5, h6⟩ := abs_le.1 h4
  have hc0 : 0 < c.eta := lt_of_lt_of_le (by norm_num) hc
  refine ⟨le_max_right _ _, (?_ : c.eta / 2 ≤ _).trans (le_max_left _ _), max_le ?_ ?_, ?_⟩
  · nlinarith
  · nlinarith
  · linarith
  · constructor
    · intro h
      rcases lt_max_iff.1 h with h | h
      · by_contra hr
        nlinarith
      · linarith
    · intro h
      exact lt_max_of_lt_left (by nlinarith)

/-- **C348** (after a refused step).  The rate is halved, but not below 1/10000; the momentum is the rate times the ratio
found at the last accepted step. -/
theorem C348_refused {N : Num ℝ} (hN : Exact N) (c : Coeffs ℝ) :
    (backtrack N c).eta = max (c.eta / 2) (1 / 10000) ∧ (backtrack N c).momentum = (backtrack N c).eta * c.lambda ∧
    (backtrack N c).lambda = c.lambda := by
  unfold backtrack
  simp only [hN.max, hN.lit]
  refine ⟨?_, ?_, ?_⟩
  · norm_num
    ring_nf
  · trivial
  · trivial

/-- **C348** (momentum).  After an accepted step, and if neither the gradient nor the step is shorter than 1/10000, the
momentum part of the next step is as long as a tenth of the gradient part times the number of samples: it is the longer
of the two as soon as there are more than ten. -/
theorem C348_momentum {N : Num ℝ} (hN : Exact N) (q : QNet ℝ) (c : Coeffs ℝ) (size : Nat) (hs : 0 < size)
    (h1 : 1 / 10000 ≤ len q QNeuron.dxo) (h2 : 1 / 10000 ≤ len q QNeuron.dweight1) :
    len q (fun n => scale (coeffAdapt N q c).momentum n.dweight1) =
      size / 10 * len q (fun n => scale (coeffAdapt N q c).eta (n.dxo.map (· / N.ofSize size))) := by
  rw [coeffAdapt_eq hN]
  dsimp only
  rw [max_eq_left h1, max_eq_left h2]
  generalize he : max (c.eta * _) (1 / 10000 : ℝ) = eta
  have h0 : 0 < eta := by rw [← he]; exact lt_of_lt_of_le (by norm_num) (le_max_right _ _)
  have hw : 0 < len q QNeuron.dweight1 := lt_of_lt_of_le (by norm_num) h2
  have hx : 0 < len q QNeuron.dxo := lt_of_lt_of_le (by norm_num) h1
  have hS : (0 : ℝ) < size := by exact_mod_cast hs
  have e : (fun n : QNeuron ℝ => scale eta (n.dxo.map (· / N.ofSize size))) = fun n => scale (eta / size) n.dxo := by
    funext n
    unfold scale
    rw [List.map_map, hN.size]
    apply List.map_congr_left
    intro a _
    simp only [Function.comp]
    ring
  rw [e, len_scale _ _ _ (by positivity), len_scale _ _ _ (by positivity)]
  field_simp

/-! ### Along a training -/

/-- One epoch: net, coefficients and error afterwards. -/
noncomputable def epoch (N : Num ℝ) (ts : List (Sample ℝ)) (tolerance : ℝ) (st : QNet ℝ × Coeffs ℝ × ℝ) : QNet ℝ × Coeffs ℝ × ℝ :=
  let r := learnError N (initDelta st.1) ts
  if N.lt r.2 (st.2.2 + tolerance) then
    (weightUpdate N ts.length true (coeffAdapt N r.1 st.2.1) r.1, coeffAdapt N r.1 st.2.1, r.2)
  else (weightUpdate N ts.length false (backtrack N st.2.1) r.1, backtrack N st.2.1, st.2.2)

/-- The loop of the code runs epochs until the target is reached or none is left. -/
theorem trainLoop_epochs (N : Num ℝ) (ts : List (Sample ℝ)) (target tolerance : ℝ) :
    ∀ (n : Nat) (q : QNet ℝ) (c : Coeffs ℝ) (e : ℝ), ∃ k ≤ n,
      trainLoop N ts target tolerance n q c e =
        (((epoch N ts tolerance)^[k] (q, c, e)).1, ((epoch N ts tolerance)^[k] (q, c, e)).2.2)
  | 0, q, c, e => ⟨0, le_rfl, rfl⟩
  | n + 1, q, c, e => by
    unfold trainLoop
    split
    · by_cases h : N.lt (learnError N (initDelta q) ts).2 (e + tolerance) = true
      · obtain ⟨k, hk, h2⟩ := trainLoop_epochs N ts target tolerance n
          (weightUpdate N ts.length true (coeffAdapt N (learnError N (initDelta q) ts).1 c) (learnError N (initDelta q) ts).1)
          (coeffAdapt N (learnError N (initDelta q) ts).1 c) (learnError N (initDelta q) ts).2
        refine ⟨k + 1, by omega, ?_⟩
        have hep : epoch N ts tolerance (q, c, e) = (weightUpdate N ts.length true
            (coeffAdapt N (learnError N (initDelta q) ts).1 c) (learnError N (initDelta q) ts).1,
            coeffAdapt N (learnError N (initDelta q) ts).1 c, (learnError N (initDelta q) ts).2) := by
          unfold epoch
          dsimp only
          rw [if_pos h]
        rw [Function.iterate_succ_apply, hep, ← h2]
        dsimp only
        rw [if_pos h]
      · obtain ⟨k, hk, h2⟩ := trainLoop_epochs N ts target tolerance n
          (weightUpdate N ts.length false (backtrack N c) (learnError N (initDelta q) ts).1) (backtrack N c) e
        refine ⟨k + 1, by omega, ?_⟩
        have hep : epoch N ts tolerance (q, c, e) = (weightUpdate N ts.length false (backtrack N c)
            (learnError N (initDelta q) ts).1, backtrack N c, e) := by
          unfold epoch
          dsimp only
          rw [if_neg h]
        rw [Function.iterate_succ_apply, hep, ← h2]
        dsimp only
        rw [if_neg h]
    · exact ⟨0, by omega, rfl⟩

/-- **C348** (whole training).  A training is a number of epochs, at most those asked for, and after `k` of them the rate is
at least 1/10000 and between the `k`-th power of 1/2 and of 3/2 times the first one. -/
theorem C348_training {N : Num ℝ} (hN : Exact N) (ts : List (Sample ℝ)) (target tolerance : ℝ) (q : QNet ℝ) (c : Coeffs ℝ)
    (e : ℝ) (hc : 1 / 10000 ≤ c.eta) :
    (∀ n, ∃ k ≤ n, trainLoop N ts target tolerance n q c e =
        (((epoch N ts tolerance)^[k] (q, c, e)).1, ((epoch N ts tolerance)^[k] (q, c, e)).2.2)) ∧
    ∀ k, 1 / 10000 ≤ ((epoch N ts tolerance)^[k] (q, c, e)).2.1.eta ∧
      (1 / 2) ^ k * c.eta ≤ ((epoch N ts tolerance)^[k] (q, c, e)).2.1.eta ∧
      ((epoch N ts tolerance)^[k] (q, c, e)).2.1.eta ≤ (3 / 2) ^ k * c.eta := by
  refine ⟨fun n => trainLoop_epochs N ts target tolerance n q c e, fun k => ?_⟩
  induction k with
  | zero => exact ⟨hc, by simp, by simp⟩
  | succ k ih =>
    rw [Function.iterate_succ_apply']
    generalize (epoch N ts tolerance)^[k] (q, c, e) = st at ih
    obtain ⟨h1, h2, h3⟩ := ih
    have hstep : 1 / 10000 ≤ (epoch N ts tolerance st).2.1.eta ∧ st.2.1.eta / 2 ≤ (epoch N ts tolerance st).2.1.eta ∧
        (epoch N ts tolerance st).2.1.eta ≤ 3 / 2 * st.2.1.eta := by
      unfold epoch
      dsimp only
      split
      · obtain ⟨a1, a2, a3, _⟩ := C348_accepted hN (learnError N (initDelta st.1) ts).1 st.2.1 h1
        exact ⟨a1, a2, a3⟩
      · rw [(C348_refused hN st.2.1).1]
        refine ⟨le_max_right _ _, le_max_left _ _, max_le ?_ ?_⟩
        · linarith
        · linarith
    obtain ⟨g1, g2, g3⟩ := hstep
    refine ⟨g1, ?_, ?_⟩
    · rw [pow_succ]; linarith
    · rw [pow_succ]; linarith

/-- Exact arithmetic exists. -/
example : ∃ N : Num ℝ, Exact N ∧ N.sigmoid = Real.sigmoid := by
  classical
  exact ⟨⟨Real.sigmoid, Real.sqrt, fun a b => decide (a < b), fun a b => a / b, 0, fun n => n⟩,
    ⟨rfl, fun _ _ => rfl, fun _ _ => rfl, fun _ => rfl⟩, rfl⟩

/-- One neuron with one weight, gradient 1 and step 1: the two lengths are 1, so that C348_momentum applies. -/
example : len [[⟨⟨0, [0]⟩, 0, 0, 0, 0, 0, [1], [0], [1]⟩]] QNeuron.dxo = 1 ∧
    len [[⟨⟨0, [0]⟩, 0, 0, 0, 0, 0, [1], [0], [1]⟩]] QNeuron.dweight1 = 1 := by
  simp [len, inner]

end Paradiseo.Mlp
