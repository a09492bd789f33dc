import Verif.Lemmas.MoeoHv2
import Mathlib.MeasureTheory.Measure.Lebesgue.Basic
import Mathlib.MeasureTheory.Measure.Prod
/-
The area dominated by a front of two minimised objectives.
-/
namespace Paradiseo.Moeo.Hv2

variable {F : Type} [Field F] [LinearOrder F]

/-- Area dominated by the points of a front, up to the corner `(x0, ry)`: one slice per point. -/
def vol (ry : F) : F → List (Pt F) → F
  | _, [] => 0
  | x0, p :: l => (x0 - p.x) * (ry - p.y) + vol ry p.x l

theorem vol_map (ry : F) (l l' : List (Pt F)) (h : l.map xy = l'.map xy) (x0 : F) :
    vol ry x0 l = vol ry x0 l' := by
  induction l generalizing l' x0 with
  | nil => cases l' with
    | nil => rfl
    | cons a l' => simp at h
  | cons b l ih => cases l' with
    | nil => simp at h
    | cons a l' =>
      simp only [List.map_cons, List.cons.injEq, xy, Prod.mk.injEq] at h
      simp only [vol]
      rw [h.1.1, h.1.2, ih l' h.2]

theorem vol_erase (mx ry : F) (l : List (Pt F)) (k : Nat) (hk : k + 2 < l.length) (x0 : F) :
    vol ry x0 (l.eraseIdx (k + 1)) = vol ry x0 l - area mx l (k + 1) := by
  induction l generalizing k x0 with
  | nil => simp at hk
  | cons a l ih =>
    rcases k with _ | k
    · rcases l with _ | ⟨b, _ | ⟨c, l⟩⟩
      · simp at hk
      · simp at hk
      · simp only [List.eraseIdx_cons_succ, List.eraseIdx_cons_zero, vol, area]
        simp
        ring
    · have h' : k + 2 < l.length := by simp at hk; omega
      rw [List.eraseIdx_cons_succ, vol, ih k h']
      have : area mx (a :: l) (k + 1 + 1) = area mx l (k + 1) := by
        simp [area]
      rw [this, vol]; ring

variable [IsStrictOrderedRing F]

theorem vol_insert_base (ry x0 : F) (p : Pt F) (post : List (Pt F)) (hx : p.x ≤ x0) (hy : p.y ≤ ry)
    (hF : Front (p :: post)) : vol ry x0 post ≤ vol ry x0 (p :: post) := by
  rcases post with _ | ⟨b, bs⟩
  · simp only [vol, add_zero]
    exact mul_nonneg (by linarith) (by linarith)
  · simp only [vol]
    rw [Front, List.pairwise_cons] at hF
    have h := (hF.1 b (by simp)).1
    nlinarith [mul_nonneg (sub_nonneg.2 hx) (sub_nonneg.2 h.le)]

theorem vol_insert_mid (ry : F) (p : Pt F) (mid post : List (Pt F)) : ∀ (x0 : F), p.x ≤ x0 →
    p.y ≤ ry → (∀ a ∈ mid, p.x ≤ a.x ∧ p.y ≤ a.y ∧ a.x ≤ x0) → Front (mid ++ post) →
    Front (p :: post) → vol ry x0 (mid ++ post) ≤ vol ry x0 (p :: post) := by
  induction mid with
  | nil => intro x0 hx hy _ _ hF; exact vol_insert_base ry x0 p post hx hy hF
  | cons m mid ih =>
    intro x0 hx hy hm hFm hF
    obtain ⟨h1, h2, h3⟩ := hm m (by simp)
    rw [List.cons_append, Front, List.pairwise_cons] at hFm
    have := ih m.x h1 hy (fun a ha => ⟨(hm a (by simp [ha])).1, (hm a (by simp [ha])).2.1,
      (hFm.1 a (by simp [ha])).2.le⟩) hFm.2 hF
    simp only [List.cons_append, vol] at this ⊢
    nlinarith [mul_nonneg (sub_nonneg.2 h3) (sub_nonneg.2 h2)]

theorem vol_insert (ry : F) (p : Pt F) (pre mid post : List (Pt F)) : ∀ (x0 : F), p.x ≤ x0 →
    p.y ≤ ry → (∀ a ∈ pre ++ mid, a.x ≤ x0) → (∀ a ∈ mid, p.x ≤ a.x ∧ p.y ≤ a.y) →
    Front (pre ++ mid ++ post) → Front (pre ++ p :: post) →
    vol ry x0 (pre ++ mid ++ post) ≤ vol ry x0 (pre ++ p :: post) := by
  induction pre with
  | nil =>
    intro x0 hx hy hr hm hF1 hF2
    simp only [List.nil_append] at *
    exact vol_insert_mid ry p mid post x0 hx hy (fun a ha => ⟨(hm a ha).1, (hm a ha).2, hr a ha⟩) hF1 hF2
  | cons a pre ih =>
    intro x0 hx hy hr hm hF1 hF2
    simp only [List.cons_append, vol]
    rw [List.cons_append, List.cons_append, Front, List.pairwise_cons] at hF1
    rw [List.cons_append, Front, List.pairwise_cons] at hF2
    have := ih a.x (hF2.1 p (by simp)).2.le hy (fun b hb => (hF1.1 b (by simp at hb ⊢; tauto)).2.le) hm
      hF1.2 hF2.2
    simpa using this

/-! ### The sum of slices is an area -/

open MeasureTheory in
theorem vol_is_area (ry : ℝ) (l : List (Pt ℝ)) : ∀ x0 : ℝ, Front l →
    (∀ p ∈ l, p.x ≤ x0 ∧ p.y ≤ ry) →
    volume {z : ℝ × ℝ | ∃ p ∈ l, p.x ≤ z.1 ∧ p.y ≤ z.2 ∧ z.1 < x0 ∧ z.2 < ry} =
      ENNReal.ofReal (vol ry x0 l) ∧ 0 ≤ vol ry x0 l := by
  induction l with
  | nil => intro x0 _ _; simp [vol]
  | cons p l ih =>
    intro x0 hF hb
    rw [Front, List.pairwise_cons] at hF
    obtain ⟨h1, h2⟩ := ih p.x hF.2 fun q hq => ⟨(hF.1 q hq).2.le, (hb q (by simp [hq])).2⟩
    have hp := hb p (by simp)
    have hn : 0 ≤ (x0 - p.x) * (ry - p.y) := mul_nonneg (by linarith) (by linarith)
    refine ⟨?_, by simp only [vol]; linarith⟩
    have hset : {z : ℝ × ℝ | ∃ q ∈ p :: l, q.x ≤ z.1 ∧ q.y ≤ z.2 ∧ z.1 < x0 ∧ z.2 < ry} =
        (Set.Ico p.x x0 ×ˢ Set.Ico p.y ry) ∪
          {z : ℝ × ℝ | ∃ q ∈ l, q.x ≤ z.1 ∧ q.y ≤ z.2 ∧ z.1 < p.x ∧ z.2 < ry} := by
      ext z
      simp only [Set.mem_setOf_eq, Set.mem_union, Set.mem_prod, Set.mem_Ico, List.mem_cons,
        exists_eq_or_imp]
      constructor
      · rintro (⟨a, b, c, d⟩ | ⟨q, hq, a, b, c, d⟩)
        · exact Or.inl ⟨⟨a, c⟩, b, d⟩
        · rcases lt_or_ge z.1 p.x with h | h
          · exact Or.inr ⟨q, hq, a, b, h, d⟩
          · exact Or.inl ⟨⟨h, c⟩, (hF.1 q hq).1.le.trans b, d⟩
      · rintro (⟨⟨a, c⟩, b, d⟩ | ⟨q, hq, a, b, c, d⟩)
        · exact Or.inl ⟨a, b, c, d⟩
        · exact Or.inr ⟨q, hq, a, b, lt_of_lt_of_le c hp.1, d⟩
    have hdisj : Disjoint (Set.Ico p.x x0 ×ˢ Set.Ico p.y ry)
        {z : ℝ × ℝ | ∃ q ∈ l, q.x ≤ z.1 ∧ q.y ≤ z.2 ∧ z.1 < p.x ∧ z.2 < ry} := by
      rw [Set.disjoint_left]
      rintro z ⟨⟨a, _⟩, _⟩ ⟨q, _, _, _, c, _⟩
      exact absurd c (not_lt.2 a)
    rw [hset, measure_union' hdisj (measurableSet_Ico.prod measurableSet_Ico), h1,
      Measure.volume_eq_prod, Measure.prod_prod, Real.volume_Ico, Real.volume_Ico,
      ← ENNReal.ofReal_mul (by linarith), ← ENNReal.ofReal_add hn h2]
    rfl

end Paradiseo.Moeo.Hv2
