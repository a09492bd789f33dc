import Verif.Model.MoeoStop
import Verif.Props.MoeoHypervolume
import Mathlib.Tactic.LinearCombination
import Mathlib.Tactic.FieldSimp

/-!
# Properties C229, C230: comparing two fronts by volume; stopping at a known front
-/

namespace Paradiseo.Moeo

open MeasureTheory
open Paradiseo.EO (Err)

/-! ## Specification -/

section Spec

variable {F : Type} [Field F] [LinearOrder F]

/-- `b` are the bounds of objective `j` over the vectors of `S`: the smallest and the largest value, or, if there is
only one value, that value less and plus `tiny`. -/
def IsRange (tiny : F) (S : List (Nat → F)) (j : Nat) (b : Bnd F) : Prop :=
  (∃ c, (∀ w ∈ S, w j = c) ∧ b = ⟨c - tiny, c + tiny⟩) ∨
  (b.lo < b.hi ∧ (∀ w ∈ S, b.lo ≤ w j ∧ w j ≤ b.hi) ∧ (∃ w ∈ S, w j = b.lo) ∧ ∃ w ∈ S, w j = b.hi)

/-- `a` is at least as good as `b` in each of the `K` objectives. -/
def WeaklyDom (K : Nat) (minimizing : Nat → Bool) (a b : Nat → F) : Prop :=
  ∀ j < K, if minimizing j then a j ≤ b j else b j ≤ a j

/-- Each vector of `T` is weakly dominated by one of `S`. -/
def FrontCovers (K : Nat) (minimizing : Nat → Bool) (S T : List (Nat → F)) : Prop :=
  ∀ b ∈ T, ∃ a ∈ S, WeaklyDom K minimizing a b

end Spec

/-! ## Bounds -/

section Bounds

variable {F : Type} [Field F] [LinearOrder F]

theorem foldl_min_spec (j : Nat) (l : List (Nat → F)) (m : F) :
    l.foldl (fun m w => min m (w j)) m ≤ m ∧ (∀ w ∈ l, l.foldl (fun m w => min m (w j)) m ≤ w j) ∧
      (l.foldl (fun m w => min m (w j)) m = m ∨ ∃ w ∈ l, w j = l.foldl (fun m w => min m (w j)) m) := by
  induction l generalizing m with
  | nil => simp
  | cons a l ih =>
    obtain ⟨h1, h2, h3⟩ := ih (min m (a j))
    rw [List.foldl_cons]
    refine ⟨h1.trans (min_le_left _ _), ?_, ?_⟩
    · intro w hw
      rcases List.mem_cons.1 hw with rfl | hw
      · exact h1.trans (min_le_right _ _)
      · exact h2 w hw
    · rcases h3 with h3 | ⟨w, hw, h3⟩
      · rw [h3]
        rcases le_total m (a j) with h | h
        · exact Or.inl (min_eq_left h)
        · exact Or.inr ⟨a, by simp, by rw [min_eq_right h]⟩
      · exact Or.inr ⟨w, by simp [hw], h3⟩

theorem foldl_max_spec (j : Nat) (l : List (Nat → F)) (m : F) :
    m ≤ l.foldl (fun m w => max m (w j)) m ∧ (∀ w ∈ l, w j ≤ l.foldl (fun m w => max m (w j)) m) ∧
      (l.foldl (fun m w => max m (w j)) m = m ∨ ∃ w ∈ l, w j = l.foldl (fun m w => max m (w j)) m) := by
  induction l generalizing m with
  | nil => simp
  | cons a l ih =>
    obtain ⟨h1, h2, h3⟩ := ih (max m (a j))
    rw [List.foldl_cons]
    refine ⟨(le_max_left _ _).trans h1, ?_, ?_⟩
    · intro w hw
      rcases List.mem_cons.1 hw with rfl | hw
      · exact (le_max_right _ _).trans h1
      · exact h2 w hw
    · rcases h3 with h3 | ⟨w, hw, h3⟩
      · rw [h3]
        rcases le_total m (a j) with h | h
        · exact Or.inr ⟨a, by simp, by rw [max_eq_right h]⟩
        · exact Or.inl (max_eq_left h)
      · exact Or.inr ⟨w, by simp [hw], h3⟩

/-- The bounds used are the bounds of the two sets together. -/
theorem diffBnd_isRange (tiny : F) (v : Nat → F) (l S : List (Nat → F)) (j : Nat) :
    IsRange tiny (v :: l ++ S) j (diffBnd tiny v l S j) := by
  have e1 : S.foldl (fun m w => min m (w j)) (l.foldl (fun m w => min m (w j)) (v j)) =
      (l ++ S).foldl (fun m w => min m (w j)) (v j) := by rw [List.foldl_append]
  have e2 : S.foldl (fun m w => max m (w j)) (l.foldl (fun m w => max m (w j)) (v j)) =
      (l ++ S).foldl (fun m w => max m (w j)) (v j) := by rw [List.foldl_append]
  unfold diffBnd
  simp only [e1, e2]
  obtain ⟨a1, a2, a3⟩ := foldl_min_spec j (l ++ S) (v j)
  obtain ⟨b1, b2, b3⟩ := foldl_max_spec j (l ++ S) (v j)
  generalize (l ++ S).foldl (fun m w => min m (w j)) (v j) = mn at a1 a2 a3
  generalize (l ++ S).foldl (fun m w => max m (w j)) (v j) = mx at b1 b2 b3
  have hall : ∀ w ∈ v :: l ++ S, mn ≤ w j ∧ w j ≤ mx := by
    intro w hw
    rw [List.cons_append] at hw
    rcases List.mem_cons.1 hw with rfl | hw
    · exact ⟨a1, b1⟩
    · exact ⟨a2 w hw, b2 w hw⟩
  have hlo : ∃ w ∈ v :: l ++ S, w j = mn := by
    rcases a3 with h | ⟨w, hw, h⟩
    · exact ⟨v, by simp, h.symm⟩
    · exact ⟨w, by rw [List.cons_append]; exact List.mem_cons_of_mem _ hw, h⟩
  have hhi : ∃ w ∈ v :: l ++ S, w j = mx := by
    rcases b3 with h | ⟨w, hw, h⟩
    · exact ⟨v, by simp, h.symm⟩
    · exact ⟨w, by rw [List.cons_append]; exact List.mem_cons_of_mem _ hw, h⟩
  split
  · rename_i h
    subst h
    exact Or.inl ⟨mn, fun w hw => le_antisymm (hall w hw).2 (hall w hw).1, rfl⟩
  · rename_i h
    exact Or.inr ⟨lt_of_le_of_ne (a1.trans b1) h, hall, hlo, hhi⟩

variable [IsStrictOrderedRing F]

theorem IsRange.lt {tiny : F} (ht : 0 < tiny) {S : List (Nat → F)} {j : Nat} {b : Bnd F} (h : IsRange tiny S j b) :
    b.lo < b.hi := by
  rcases h with ⟨c, _, rfl⟩ | ⟨h, _⟩
  · simp only; linarith
  · exact h

theorem IsRange.mem {tiny : F} (ht : 0 < tiny) {S : List (Nat → F)} {j : Nat} {b : Bnd F} (h : IsRange tiny S j b)
    {w : Nat → F} (hw : w ∈ S) : b.lo ≤ w j ∧ w j ≤ b.hi := by
  rcases h with ⟨c, hc, rfl⟩ | ⟨_, h, _⟩
  · simp only [hc w hw]; constructor <;> linarith
  · exact h w hw

/-- There is only one such pair of bounds, and only the members matter. -/
theorem IsRange.unique {tiny : F} {S S' : List (Nat → F)} {j : Nat} {b b' : Bnd F} (hne : S ≠ [])
    (hS : ∀ w, w ∈ S ↔ w ∈ S') (h : IsRange tiny S j b) (h' : IsRange tiny S' j b') : b = b' := by
  obtain ⟨x, hx⟩ := List.exists_mem_of_ne_nil _ hne
  rcases h with ⟨c, hc, rfl⟩ | ⟨h1, h2, ⟨p, hp, h3⟩, ⟨q, hq, h4⟩⟩ <;>
    rcases h' with ⟨c', hc', rfl⟩ | ⟨h1', h2', ⟨p', hp', h3'⟩, ⟨q', hq', h4'⟩⟩
  · rw [← hc x hx, ← hc' x ((hS x).1 hx)]
  · have := hc p' ((hS _).2 hp')
    have := hc q' ((hS _).2 hq')
    exact absurd h1' (by rw [← h3', ← h4']; simp_all)
  · have := hc' p ((hS _).1 hp)
    have := hc' q ((hS _).1 hq)
    exact absurd h1 (by rw [← h3, ← h4]; simp_all)
  · obtain ⟨lo, hi⟩ := b
    obtain ⟨lo', hi'⟩ := b'
    simp only at *
    have e1 : lo = lo' := le_antisymm (h3' ▸ (h2 p' ((hS _).2 hp')).1) (h3 ▸ (h2' p ((hS _).1 hp)).1)
    have e2 : hi = hi' := le_antisymm (h4 ▸ (h2' q ((hS _).1 hq)).2) (h4' ▸ (h2 q' ((hS _).2 hq')).2)
    rw [e1, e2]

theorem diffSetup_isRange (tiny : F) {A B : List (Nat → F)} (hA : A ≠ []) (hB : B ≠ []) :
    ∃ b, diffSetup tiny A B = some b ∧ ∀ j, IsRange tiny (A ++ B) j (b j) := by
  match A, B, hA, hB with
  | v :: l, w :: l', _, _ => exact ⟨_, rfl, fun j => diffBnd_isRange tiny v l (w :: l') j⟩

theorem diffSetup_congr (tiny : F) {A B A' B' : List (Nat → F)} (hA : A ≠ []) (hB : B ≠ []) (hA' : A' ≠ [])
    (hB' : B' ≠ []) (h : ∀ w, w ∈ A ++ B ↔ w ∈ A' ++ B') : diffSetup tiny A B = diffSetup tiny A' B' := by
  obtain ⟨b, e, hb⟩ := diffSetup_isRange tiny hA hB
  obtain ⟨b', e', hb'⟩ := diffSetup_isRange tiny hA' hB'
  rw [e, e']
  congr 1
  funext j
  exact IsRange.unique (by simp [hA]) h (hb j) (hb' j)

end Bounds

/-! ## C229 -/

section C229

variable {F : Type} [Field F] [LinearOrder F] [IsStrictOrderedRing F]

theorem hvMinus_neg (minimizing : Nat → Bool) (B : Nat → Bnd F) (ref : Nat → F) (K : Nat) (S T : List (Nat → F)) :
    hvMinus minimizing B ref K T S = (hvMinus minimizing B ref K S T).map (-·) := by
  unfold hvMinus
  cases hvMetric minimizing B ref K S <;> cases hvMetric minimizing B ref K T <;> simp

/-- Exchanging the sets changes the sign, whatever the options of the metric and the sets. -/
theorem C229_antisymmetric (tiny : F) (minimizing : Nat → Bool) (normalize : Bool) (rho : F) (ref : Nat → F) (K : Nat)
    (S T : List (Nat → F)) :
    hvDiff tiny minimizing normalize rho ref K T S = (hvDiff tiny minimizing normalize rho ref K S T).map (-·) := by
  have hs : diffSetup tiny T S = diffSetup tiny S T := by
    match S, T with
    | [], [] => rfl
    | [], _ :: _ => rfl
    | _ :: _, [] => rfl
    | v :: l, w :: l' => exact diffSetup_congr tiny (by simp) (by simp) (by simp) (by simp) (by simp; tauto)
  unfold hvDiff
  rw [hs]
  by_cases h1 : 1 ≤ rho
  · simp only [if_pos h1]
    cases diffSetup tiny S T with
    | none => rfl
    | some b =>
      cases normalize
      · simp only [Bool.false_eq_true, if_false]; exact hvMinus_neg _ _ _ _ _ _
      · simp only [if_true]; exact hvMinus_neg _ _ _ _ _ _
  · simp only [if_neg h1]
    cases normalize
    · simp only [Bool.false_eq_true, if_false]; exact hvMinus_neg _ _ _ _ _ _
    · simp only [if_true]
      cases diffSetup tiny S T with
      | none => rfl
      | some b => exact hvMinus_neg _ _ _ _ _ _

/-- Rescaling and shifting each objective by a positive factor changes nothing if the metric normalises. -/
theorem C229_affine (tiny : F) (ht : 0 < tiny) (minimizing : Nat → Bool) (rho : F) (ref : Nat → F) (K : Nat)
    (S T : List (Nat → F)) (c d : Nat → F) (hc : ∀ j, 0 < c j) :
    hvDiff tiny minimizing true rho ref K (S.map fun v j => c j * v j + d j) (T.map fun v j => c j * v j + d j) =
      hvDiff tiny minimizing true rho ref K S T := by
  by_cases hST : S = [] ∨ T = []
  · have h1 : diffSetup tiny S T = none := by
      rcases hST with rfl | rfl
      · rfl
      · cases S <;> rfl
    have h2 : diffSetup tiny (S.map fun v j => c j * v j + d j) (T.map fun v j => c j * v j + d j) = none := by
      rcases hST with rfl | rfl
      · rfl
      · cases S <;> rfl
    unfold hvDiff
    rw [h1, h2]
    simp only [if_true]
  · push Not at hST
    obtain ⟨b, e, hb⟩ := diffSetup_isRange tiny hST.1 hST.2
    obtain ⟨b', e', hb'⟩ := diffSetup_isRange tiny (A := S.map fun v j => c j * v j + d j)
      (B := T.map fun v j => c j * v j + d j) (by simpa using hST.1) (by simpa using hST.2)
    have key : ∀ j, ∀ w ∈ S ++ T, (c j * w j + d j - (b' j).lo) / (b' j).range = (w j - (b j).lo) / (b j).range := by
      intro j w hw
      have hb'j := hb' j
      rw [← List.map_append] at hb'j
      rcases hb j with ⟨a, ha, hbj⟩ | ⟨h1, h2, ⟨p, hp, h3⟩, ⟨q, hq, h4⟩⟩
      · have : b' j = ⟨c j * a + d j - tiny, c j * a + d j + tiny⟩ := by
          refine IsRange.unique (S := (S ++ T).map fun v j => c j * v j + d j) (by simp [hST.1]) (fun _ => Iff.rfl)
            hb'j (Or.inl ⟨c j * a + d j, ?_, rfl⟩)
          intro x hx
          obtain ⟨y, hy, rfl⟩ := List.mem_map.1 hx
          simp only [ha y hy]
        rw [this, hbj, ha w hw]
        simp only [Bnd.range]
        congr 1 <;> ring
      · have : b' j = ⟨c j * (b j).lo + d j, c j * (b j).hi + d j⟩ := by
          refine IsRange.unique (S := (S ++ T).map fun v j => c j * v j + d j) (by simp [hST.1]) (fun _ => Iff.rfl)
            hb'j (Or.inr ⟨?_, ?_, ?_, ?_⟩)
          · have := mul_lt_mul_of_pos_left h1 (hc j)
            simp only; linarith
          · intro x hx
            obtain ⟨y, hy, rfl⟩ := List.mem_map.1 hx
            have g1 := mul_le_mul_of_nonneg_left (h2 y hy).1 (hc j).le
            have g2 := mul_le_mul_of_nonneg_left (h2 y hy).2 (hc j).le
            simp only; constructor <;> linarith
          · exact ⟨_, List.mem_map.2 ⟨p, hp, rfl⟩, by simp only [h3]⟩
          · exact ⟨_, List.mem_map.2 ⟨q, hq, rfl⟩, by simp only [h4]⟩
        rw [this]
        simp only [Bnd.range]
        have hr : (b j).hi - (b j).lo ≠ 0 := (sub_pos.2 h1).ne'
        have hcj := (hc j).ne'
        have e1 : c j * (b j).hi + d j - (c j * (b j).lo + d j) = c j * ((b j).hi - (b j).lo) := by ring
        have e2 : c j * w j + d j - (c j * (b j).lo + d j) = c j * (w j - (b j).lo) := by ring
        rw [e1, e2, mul_div_mul_left _ _ hcj]
    have hm : ∀ (r : Nat → F), hvMinus minimizing b' r K (S.map fun v j => c j * v j + d j)
        (T.map fun v j => c j * v j + d j) = hvMinus minimizing b r K S T := by
      intro r
      have hfr : ∀ U : List (Nat → F), (∀ w ∈ U, w ∈ S ++ T) →
          hvFront minimizing b' r (U.map fun v j => c j * v j + d j) = hvFront minimizing b r U := by
        intro U hU
        unfold hvFront
        rw [List.map_map]
        apply List.map_congr_left
        intro w hw
        funext j
        simp only [Function.comp, key j w (hU w hw)]
      unfold hvMinus hvMetric
      rw [hfr S (fun w h => by simp [h]), hfr T (fun w h => by simp [h]), List.length_map, List.length_map]
    unfold hvDiff
    simp only [e, e', if_true, hm]

end C229

section Real

/-- The region of a front that covers another contains the region of the other. -/
theorem dominated_mono {K : Nat} {minimizing : Nat → Bool} {B : Nat → Bnd ℝ} (hB : ∀ j < K, (B j).lo < (B j).hi)
    {ref : Nat → ℝ} {S T : List (Nat → ℝ)} (h : FrontCovers K minimizing S T) :
    Dominated K minimizing B ref T ⊆ Dominated K minimizing B ref S := by
  rintro y ⟨b, hb, hy⟩
  obtain ⟨a, ha, hab⟩ := h b hb
  refine ⟨a, ha, fun j => ?_⟩
  have h1 := hab j j.2
  have h2 := hy j
  have hr := sub_pos.2 (hB j j.2)
  cases hm : minimizing j <;> simp only [hm, Bool.false_eq_true, if_true, if_false] at h1 h2 ⊢
  · exact ⟨h2.1, h2.2.trans (div_le_div_of_nonneg_right (by linarith) hr.le)⟩
  · exact ⟨(div_le_div_of_nonneg_right (by linarith) hr.le).trans h2.1, h2.2⟩

theorem dominated_eq_biUnion (K : Nat) (minimizing : Nat → Bool) (B : Nat → Bnd ℝ) (ref : Nat → ℝ)
    (S : List (Nat → ℝ)) : Dominated K minimizing B ref S = ⋃ v ∈ S, Set.univ.pi fun j : Fin K =>
      if minimizing j then Set.Ico (norm01 B v j) (ref j) else Set.Ioc (ref j) (norm01 B v j) := by
  ext y
  simp only [Dominated, Set.mem_setOf_eq, Set.mem_iUnion, Set.mem_pi, Set.mem_univ, true_implies, exists_prop]
  refine exists_congr fun v => and_congr_right fun _ => forall_congr' fun j => ?_
  cases minimizing j <;> simp

theorem measurableSet_dominated (K : Nat) (minimizing : Nat → Bool) (B : Nat → Bnd ℝ) (ref : Nat → ℝ)
    (S : List (Nat → ℝ)) : MeasurableSet (Dominated K minimizing B ref S) := by
  rw [dominated_eq_biUnion]
  refine Set.Finite.measurableSet_biUnion (s := {p | p ∈ S}) (List.finite_toSet S) fun p _ => ?_
  refine MeasurableSet.univ_pi fun j => ?_
  cases minimizing j
  · simpa using measurableSet_Ioc
  · simpa using measurableSet_Ico

theorem volume_dominated_lt_top (K : Nat) (minimizing : Nat → Bool) (B : Nat → Bnd ℝ) (ref : Nat → ℝ)
    (S : List (Nat → ℝ)) : volume (Dominated K minimizing B ref S) < ⊤ := by
  rw [dominated_eq_biUnion]
  refine measure_biUnion_lt_top (s := {p | p ∈ S}) (List.finite_toSet S) fun p _ => ?_
  rw [volume_pi_pi]
  refine ENNReal.prod_lt_top fun j _ => ?_
  cases minimizing j <;> simp

/-- The value is the difference of the measures of the two dominated regions if each vector weakly dominates the
reference point. -/
theorem hvMinus_volume {K : Nat} (hK : 2 ≤ K) (minimizing : Nat → Bool) (B : Nat → Bnd ℝ) (ref : Nat → ℝ)
    (S T : List (Nat → ℝ))
    (href : ∀ v ∈ S ++ T, ∀ j < K, if minimizing j then norm01 B v j ≤ ref j else ref j ≤ norm01 B v j) :
    hvMinus minimizing B ref K S T = some ((volume (Dominated K minimizing B ref S)).toReal -
      (volume (Dominated K minimizing B ref T)).toReal) := by
  unfold hvMinus
  rw [C45_hypervolume K hK minimizing B ref S (fun v hv => href v (by simp [hv])),
    C45_hypervolume K hK minimizing B ref T (fun v hv => href v (by simp [hv]))]

/-- The reference point used with normalisation. -/
noncomputable def rhoPoint (minimizing : Nat → Bool) (rho : ℝ) (j : Nat) : ℝ := if minimizing j then rho else 1 - rho

theorem norm01_mem {tiny : ℝ} (ht : 0 < tiny) {S : List (Nat → ℝ)} {B : Nat → Bnd ℝ} {j : Nat} (h : IsRange tiny S j (B j))
    {v : Nat → ℝ} (hv : v ∈ S) : 0 ≤ norm01 B v j ∧ norm01 B v j ≤ 1 := by
  have h1 := h.mem ht hv
  have hr := sub_pos.2 (h.lt ht)
  unfold norm01
  exact ⟨div_nonneg (by linarith) hr.le, by rw [div_le_one hr]; linarith⟩

/-- With normalisation and a factor of at least 1, for any two non-empty sets (also if an objective is constant): the
difference of the measures of the regions the two sets dominate, after scaling each objective by its bounds over both
sets. -/
theorem C229_volume {K : Nat} (hK : 2 ≤ K) {tiny : ℝ} (ht : 0 < tiny) (minimizing : Nat → Bool) {rho : ℝ}
    (hrho : 1 ≤ rho) (ref : Nat → ℝ) {S T : List (Nat → ℝ)} (hS : S ≠ []) (hT : T ≠ []) :
    ∃ B : Nat → Bnd ℝ, (∀ j, IsRange tiny (S ++ T) j (B j)) ∧
      hvDiff tiny minimizing true rho ref K S T =
        some ((volume (Dominated K minimizing B (rhoPoint minimizing rho) S)).toReal -
          (volume (Dominated K minimizing B (rhoPoint minimizing rho) T)).toReal) := by
  obtain ⟨b, e, hb⟩ := diffSetup_isRange tiny hS hT
  refine ⟨b, hb, ?_⟩
  unfold hvDiff
  rw [if_pos hrho, e]
  simp only [if_true]
  refine hvMinus_volume hK minimizing b (rhoPoint minimizing rho) S T fun v hv j _ => ?_
  have := norm01_mem ht (hb j) hv
  unfold rhoPoint
  cases minimizing j <;> simp only [Bool.false_eq_true, if_true, if_false] <;> linarith

/-- Without normalisation: the same in the given objectives, with the largest values of each objective over both sets
times the factor (or times one minus the factor) as reference point, if no value is negative. -/
theorem C229_unnormalized {K : Nat} (hK : 2 ≤ K) {tiny : ℝ} (ht : 0 < tiny) (minimizing : Nat → Bool) {rho : ℝ}
    (hrho : 1 ≤ rho) (ref : Nat → ℝ) {S T : List (Nat → ℝ)} (hS : S ≠ []) (hT : T ≠ [])
    (hpos : ∀ v ∈ S ++ T, ∀ j < K, 0 ≤ v j) :
    ∃ B : Nat → Bnd ℝ, (∀ j, IsRange tiny (S ++ T) j (B j)) ∧
      hvDiff tiny minimizing false rho ref K S T =
        some ((volume (Dominated K minimizing (fun _ => ⟨0, 1⟩)
            (fun j => (B j).hi * (if minimizing j then rho else 1 - rho)) S)).toReal -
          (volume (Dominated K minimizing (fun _ => ⟨0, 1⟩)
            (fun j => (B j).hi * (if minimizing j then rho else 1 - rho)) T)).toReal) := by
  obtain ⟨b, e, hb⟩ := diffSetup_isRange tiny hS hT
  refine ⟨b, hb, ?_⟩
  unfold hvDiff
  rw [if_pos hrho, e]
  simp only [Bool.false_eq_true, if_false]
  have hpt : (fun j => if minimizing j then (b j).hi * rho else (b j).hi * (1 - rho)) =
      fun j => (b j).hi * (if minimizing j then rho else 1 - rho) := by
    funext j; cases minimizing j <;> rfl
  rw [hpt]
  refine hvMinus_volume hK minimizing _ _ S T fun v hv j hj => ?_
  have h1 := (hb j).mem ht hv
  have h0 := hpos v hv j hj
  cases minimizing j <;> simp only [Bool.false_eq_true, if_true, if_false, norm01, sub_zero, div_one] <;> nlinarith

/-- A set that covers another is never valued below it. -/
theorem C229_covers {K : Nat} (hK : 2 ≤ K) {tiny : ℝ} (ht : 0 < tiny) (minimizing : Nat → Bool) {rho : ℝ}
    (hrho : 1 ≤ rho) (ref : Nat → ℝ) {S T : List (Nat → ℝ)} (hS : S ≠ []) (hT : T ≠ [])
    (h : FrontCovers K minimizing S T) : ∃ x, hvDiff tiny minimizing true rho ref K S T = some x ∧ 0 ≤ x := by
  obtain ⟨B, hB, e⟩ := C229_volume hK ht minimizing hrho ref hS hT
  refine ⟨_, e, sub_nonneg.2 ?_⟩
  exact ENNReal.toReal_mono (volume_dominated_lt_top _ _ _ _ _).ne
    (measure_mono (dominated_mono (fun j _ => (hB j).lt ht) h))

/-- Two sets that cover each other (for instance the same vectors in another order, with other multiplicities or with
dominated vectors added) are valued alike. -/
theorem C229_equivalent {K : Nat} (hK : 2 ≤ K) {tiny : ℝ} (ht : 0 < tiny) (minimizing : Nat → Bool) {rho : ℝ}
    (hrho : 1 ≤ rho) (ref : Nat → ℝ) {S T : List (Nat → ℝ)} (hS : S ≠ []) (hT : T ≠ [])
    (h : FrontCovers K minimizing S T) (h' : FrontCovers K minimizing T S) :
    hvDiff tiny minimizing true rho ref K S T = some 0 := by
  obtain ⟨B, hB, e⟩ := C229_volume hK ht minimizing hrho ref hS hT
  rw [e, Set.Subset.antisymm (dominated_mono (fun j _ => (hB j).lt ht) h')
    (dominated_mono (fun j _ => (hB j).lt ht) h), sub_self]

/-- A gap of at least `δ` below finitely many positive numbers. -/
theorem exists_gap {ι : Type*} (l : List ι) (f : ι → ℝ) (h : ∀ i ∈ l, 0 < f i) : ∃ δ > 0, ∀ i ∈ l, δ ≤ f i := by
  induction l with
  | nil => exact ⟨1, one_pos, by simp⟩
  | cons a l ih =>
    obtain ⟨δ, h1, h2⟩ := ih fun i hi => h i (by simp [hi])
    refine ⟨min δ (f a), lt_min h1 (h a (by simp)), ?_⟩
    intro i hi
    rcases List.mem_cons.1 hi with rfl | hi
    · exact min_le_right _ _
    · exact (min_le_left _ _).trans (h2 i hi)

/-- If moreover one of its vectors is not weakly dominated by the other set, the value is positive, for a factor above
one. -/
theorem C229_strict {K : Nat} (hK : 2 ≤ K) {tiny : ℝ} (ht : 0 < tiny) (minimizing : Nat → Bool) {rho : ℝ}
    (hrho : 1 < rho) (ref : Nat → ℝ) {S T : List (Nat → ℝ)} (hS : S ≠ []) (hT : T ≠ [])
    (h : FrontCovers K minimizing S T) (h' : ¬ FrontCovers K minimizing T S) :
    ∃ x, hvDiff tiny minimizing true rho ref K S T = some x ∧ 0 < x := by
  obtain ⟨B, hB, e⟩ := C229_volume hK ht minimizing hrho.le ref hS hT
  refine ⟨_, e, ?_⟩
  unfold FrontCovers at h'
  push Not at h'
  obtain ⟨a, ha, hna⟩ := h'
  -- for each vector of `T` an objective in which `a` is better
  have hbet : ∀ b ∈ T, ∃ j : Fin K, 0 < (if minimizing j then norm01 B b j - norm01 B a j
      else norm01 B a j - norm01 B b j) := by
    intro b hb
    have := hna b hb
    unfold WeaklyDom at this
    push Not at this
    obtain ⟨j, hj, hlt⟩ := this
    refine ⟨⟨j, hj⟩, ?_⟩
    have hr := sub_pos.2 ((hB j).lt ht)
    cases hm : minimizing j <;> simp only [hm, Bool.false_eq_true, if_true, if_false, not_le] at hlt ⊢
    · exact sub_pos.2 (div_lt_div_of_pos_right (by linarith) hr)
    · exact sub_pos.2 (div_lt_div_of_pos_right (by linarith) hr)
  have hsel : ∃ sel : (Nat → ℝ) → Fin K, ∀ b ∈ T, 0 < (if minimizing (sel b) then norm01 B b (sel b) - norm01 B a (sel b)
      else norm01 B a (sel b) - norm01 B b (sel b)) := by
    classical
    exact ⟨fun b => if hb : b ∈ T then (hbet b hb).choose else ⟨0, by omega⟩, fun b hb => by
      simp only [dif_pos hb]; exact (hbet b hb).choose_spec⟩
  obtain ⟨sel, hsel⟩ := hsel
  obtain ⟨δ, hδ, hgap⟩ := exists_gap T _ hsel
  have ha01 : ∀ j, 0 ≤ norm01 B a j ∧ norm01 B a j ≤ 1 := fun j => norm01_mem ht (hB j) (by simp [ha])
  -- the box
  let ε := min δ (rho - 1)
  have hε : 0 < ε := lt_min hδ (by linarith)
  let box : Set (Fin K → ℝ) := Set.univ.pi fun j : Fin K =>
    if minimizing j then Set.Ico (norm01 B a j) (norm01 B a j + ε) else Set.Ioc (norm01 B a j - ε) (norm01 B a j)
  have hbox : 0 < volume box := by
    rw [volume_pi_pi]
    refine lt_of_le_of_ne zero_le (Ne.symm ?_)
    rw [Finset.prod_ne_zero_iff]
    intro j _
    cases minimizing j <;> simp [hε]
  have hsub : box ⊆ Dominated K minimizing B (rhoPoint minimizing rho) S \
      Dominated K minimizing B (rhoPoint minimizing rho) T := by
    intro y hy
    have hy' : ∀ j : Fin K, if minimizing j then norm01 B a j ≤ y j ∧ y j < norm01 B a j + ε
        else norm01 B a j - ε < y j ∧ y j ≤ norm01 B a j := by
      intro j
      have := hy j (Set.mem_univ _)
      simp only at this
      cases hm : minimizing j <;> simpa [hm] using this
    refine ⟨⟨a, ha, fun j => ?_⟩, ?_⟩
    · have h1 := hy' j
      have h2 := ha01 j
      have h3 : ε ≤ rho - 1 := min_le_right _ _
      unfold rhoPoint
      cases hm : minimizing j <;> simp only [hm, Bool.false_eq_true, if_true, if_false] at h1 ⊢
      · exact ⟨by linarith, h1.2⟩
      · exact ⟨h1.1, by linarith⟩
    · rintro ⟨b, hb, hyb⟩
      have h1 := hy' (sel b)
      have h2 := hyb (sel b)
      have h3 := hgap b hb
      have h4 : ε ≤ δ := min_le_left _ _
      cases hm : minimizing (sel b) <;> simp only [hm, Bool.false_eq_true, if_true, if_false] at h1 h2 h3
      · linarith
      · linarith
  have hTS := dominated_mono (ref := rhoPoint minimizing rho) (fun j (_ : j < K) => (hB j).lt ht) h
  have hlt : volume (Dominated K minimizing B (rhoPoint minimizing rho) T) <
      volume (Dominated K minimizing B (rhoPoint minimizing rho) S) := by
    have hm := measurableSet_dominated K minimizing B (rhoPoint minimizing rho) T
    have hd := measure_sdiff hTS hm.nullMeasurableSet (volume_dominated_lt_top K minimizing B (rhoPoint minimizing rho) T).ne
    have hp := lt_of_lt_of_le hbox (measure_mono hsub)
    rw [hd] at hp
    exact tsub_pos_iff_lt.1 hp
  exact sub_pos.2 ((ENNReal.toReal_lt_toReal (volume_dominated_lt_top _ _ _ _ _).ne
    (volume_dominated_lt_top _ _ _ _ _).ne).2 hlt)

/-! ## C230 -/

/-- With normalisation and a factor above one, as long as the known front covers the archive: the search stops exactly
when the archive covers the known front. -/
theorem C230_stops {K : Nat} (hK : 2 ≤ K) {tiny : ℝ} (ht : 0 < tiny) (minimizing : Nat → Bool) {rho : ℝ}
    (hrho : 1 < rho) (ref : Nat → ℝ) {archive optim : List (Nat → ℝ)} (ha : archive ≠ []) (ho : optim ≠ [])
    (hopt : FrontCovers K minimizing optim archive) :
    ∃ go, hypContinue (hvDiff tiny minimizing true rho ref K) optim archive = some go ∧
      (go = false ↔ FrontCovers K minimizing archive optim) := by
  by_cases h : FrontCovers K minimizing archive optim
  · have := C229_equivalent hK ht minimizing hrho.le ref ha ho h hopt
    exact ⟨false, by simp [hypContinue, this], by simp [h]⟩
  · obtain ⟨x, hx, hpos⟩ := C229_strict hK ht minimizing hrho ref ho ha hopt h
    have := C229_antisymmetric tiny minimizing true rho ref K optim archive
    rw [hx, Option.map_some] at this
    exact ⟨true, by simp [hypContinue, this, hpos.ne'], by simp [h]⟩

/-- A box between a vector and the reference point. -/
theorem volume_dominated_single (K : Nat) (minimizing : Nat → Bool) (B : Nat → Bnd ℝ) (ref v : Nat → ℝ)
    (h : ∀ j < K, if minimizing j then norm01 B v j ≤ ref j else ref j ≤ norm01 B v j) :
    (volume (Dominated K minimizing B ref [v])).toReal = ∏ j : Fin K, |ref j - norm01 B v j| := by
  rw [dominated_eq_biUnion]
  simp only [List.mem_singleton, Set.iUnion_iUnion_eq_left]
  rw [volume_pi_pi, ENNReal.toReal_prod]
  refine Finset.prod_congr rfl fun j _ => ?_
  have := h j j.2
  cases hm : minimizing j <;> simp only [hm, Bool.false_eq_true, if_true, if_false] at this ⊢
  · rw [Real.volume_Ioc, ENNReal.toReal_ofReal (by linarith), abs_of_nonpos (by linarith)]; ring
  · rw [Real.volume_Ico, ENNReal.toReal_ofReal (by linarith), abs_of_nonneg (by linarith)]

/-- Otherwise it may stop at a front that is not the known one: two minimised objectives, the archive at `(p, q)`, the
known front at `(q, p)`. -/
theorem C230_stops_elsewhere {tiny : ℝ} (ht : 0 < tiny) {rho : ℝ} (hrho : 1 ≤ rho) (ref : Nat → ℝ) {p q : ℝ} (hpq : p < q) :
    hypContinue (hvDiff tiny (fun _ => true) true rho ref 2) [fun j => if j = 0 then q else p]
      [fun j => if j = 0 then p else q] = some false ∧
    ¬ FrontCovers 2 (fun _ => true) [fun j => if j = 0 then p else q] [fun j => if j = 0 then q else p] := by
  constructor
  · obtain ⟨B, hB, e⟩ := C229_volume (K := 2) le_rfl ht (fun _ => true) hrho ref
      (S := [fun j => if j = 0 then p else q]) (T := [fun j => if j = 0 then q else p]) (by simp) (by simp)
    have hb : ∀ j < 2, B j = ⟨p, q⟩ := by
      intro j hj
      refine IsRange.unique (by simp) (fun _ => Iff.rfl) (hB j) (Or.inr ⟨hpq, ?_, ?_, ?_⟩)
      · intro w hw
        simp only [List.cons_append, List.nil_append, List.mem_cons, List.not_mem_nil, or_false] at hw
        rcases hw with rfl | rfl <;> simp only <;> split <;> constructor <;> linarith
      · obtain rfl | rfl : j = 0 ∨ j = 1 := by omega
        · exact ⟨_, List.mem_append_left _ (List.mem_singleton.2 rfl), by simp⟩
        · exact ⟨_, List.mem_append_right _ (List.mem_singleton.2 rfl), by simp⟩
      · obtain rfl | rfl : j = 0 ∨ j = 1 := by omega
        · exact ⟨_, List.mem_append_right _ (List.mem_singleton.2 rfl), by simp⟩
        · exact ⟨_, List.mem_append_left _ (List.mem_singleton.2 rfl), by simp⟩
    have hne : q - p ≠ 0 := by linarith
    have hle : ∀ (v : Nat → ℝ), v ∈ ([fun j => if j = 0 then p else q, fun j => if j = 0 then q else p] : List (Nat → ℝ)) →
        ∀ j < 2, norm01 B v j ≤ rhoPoint (fun _ => true) rho j := by
      intro v hv j hj
      have := (norm01_mem ht (hB j) (v := v) (by simpa using hv)).2
      simp only [rhoPoint, if_true]
      linarith
    rw [volume_dominated_single _ _ _ _ _ (by simpa using fun j hj => hle _ (by simp) j hj),
      volume_dominated_single _ _ _ _ _ (by simpa using fun j hj => hle _ (by simp) j hj)] at e
    simp only [Fin.prod_univ_two, Fin.val_zero, Fin.val_one, norm01, hb 0 (by omega), hb 1 (by omega), rhoPoint, if_true,
      one_ne_zero, if_false, sub_self, zero_div, div_self hne] at e
    unfold hypContinue
    rw [e]
    simp [mul_comm]
  · intro h
    obtain ⟨a, ha, hd⟩ := h _ (List.mem_singleton.2 rfl)
    rw [List.mem_singleton] at ha
    subst ha
    have := hd 1 (by omega)
    simp at this
    linarith

/-- An empty archive, or an empty known front, is an exception. -/
theorem C230_empty {F : Type} [Field F] [LinearOrder F] (tiny : F) (minimizing : Nat → Bool) {rho : F} (hrho : 1 ≤ rho)
    (normalize : Bool) (ref : Nat → F) (K : Nat) (archive optim : List (Nat → F)) (h : archive = [] ∨ optim = []) :
    hypContinue (hvDiff tiny minimizing normalize rho ref K) optim archive = none := by
  have : diffSetup tiny archive optim = none := by
    rcases h with rfl | rfl
    · rfl
    · cases archive <;> rfl
  unfold hypContinue hvDiff
  rw [if_pos hrho, this]

/-- The known front is cut out of the list of values: vector `i` is values `i K` to `i K + K - 1`; fewer than `K` values
at the end are not used. -/
theorem C230_front {F : Type} [Field F] {K : Nat} (hK : 0 < K) (vals : List F) :
    (toParetoSet K vals).length = vals.length / K ∧
    (∀ i < (toParetoSet K vals).length, ∀ j < K, (toParetoSet K vals)[i]?.map (fun v => v j) = vals[i * K + j]?) ∧
    vals.length - K * (toParetoSet K vals).length < K := by
  have hl : (toParetoSet K vals).length = vals.length / K := by simp [toParetoSet]
  rw [hl]
  refine ⟨rfl, ?_, ?_⟩
  · intro i hi j hj
    have h1 : i * K + j < vals.length := by
      have h2 : (i + 1) * K ≤ vals.length / K * K := Nat.mul_le_mul_right _ hi
      have h3 := Nat.div_mul_le_self vals.length K
      have h4 : (i + 1) * K = i * K + K := by ring
      omega
    simp [toParetoSet, hi, List.getD_eq_getElem?_getD, List.getElem?_eq_getElem h1]
  · have h1 := Nat.div_add_mod vals.length K
    have := Nat.mod_lt vals.length hK
    omega

/-- With two kinds of vectors: as long as the archive is infeasible and the known front feasible, the search is stopped
at once. -/
theorem C230_dual_stops_early {F : Type} [Field F] [LinearOrder F] (metric : List (Nat → F) → List (Nat → F) → Option F)
    (a o : (Nat → F) × Bool) (as os : List ((Nat → F) × Bool)) (h : a.2 ≠ o.2) :
    dualHypContinue metric (o :: os) (a :: as) = .ok false := by
  simp [dualHypContinue, h]

/-- If they are of the same kind, it decides as the other class does on the values. -/
theorem C230_dual_same {F : Type} [Field F] [LinearOrder F] (metric : List (Nat → F) → List (Nat → F) → Option F)
    (a o : (Nat → F) × Bool) (as os : List ((Nat → F) × Bool)) (h : a.2 = o.2) (go : Bool) :
    dualHypContinue metric (o :: os) (a :: as) = .ok go ↔
      hypContinue metric ((o :: os).map (·.1)) ((a :: as).map (·.1)) = some go := by
  simp only [dualHypContinue, h, ne_eq, not_true, if_false]
  cases hypContinue metric ((o :: os).map (·.1)) ((a :: as).map (·.1)) <;> simp

/-- Three vectors of two minimised objectives as the known front, the first and a dominated one as the archive: the
hypotheses hold and the search goes on. -/
example : ∃ go, hypContinue (hvDiff (1 / 1000000 : ℝ) (fun _ => true) true (11 / 10) (fun _ => 0) 2)
    (toParetoSet 2 [0, 2, 1, 1, 2, 0]) (toParetoSet 2 [0, 2, 2, 2]) = some go ∧ go = true := by
  have e1 : toParetoSet 2 ([0, 2, 1, 1, 2, 0] : List ℝ) = [fun j => [0, 2, 1, 1, 2, 0].getD (0 * 2 + j) 0,
    fun j => [0, 2, 1, 1, 2, 0].getD (1 * 2 + j) 0, fun j => [0, 2, 1, 1, 2, 0].getD (2 * 2 + j) 0] := rfl
  have e2 : toParetoSet 2 ([0, 2, 2, 2] : List ℝ) = [fun j => [0, 2, 2, 2].getD (0 * 2 + j) 0,
    fun j => [0, 2, 2, 2].getD (1 * 2 + j) 0] := rfl
  obtain ⟨go, h1, h2⟩ := C230_stops (K := 2) le_rfl (tiny := 1 / 1000000) (by norm_num) (fun _ => true)
    (rho := 11 / 10) (by norm_num) (fun _ => 0) (archive := toParetoSet 2 [0, 2, 2, 2])
    (optim := toParetoSet 2 [0, 2, 1, 1, 2, 0]) (by simp [e2]) (by simp [e1]) (by
      rw [e1, e2]
      intro b hb
      simp only [List.mem_cons, List.not_mem_nil, or_false] at hb
      rcases hb with rfl | rfl
      · refine ⟨_, List.mem_cons_self, fun j hj => ?_⟩
        interval_cases j <;> simp
      · refine ⟨_, List.mem_cons_self, fun j hj => ?_⟩
        interval_cases j <;> simp)
  refine ⟨go, h1, ?_⟩
  cases go
  · exfalso
    have := h2.1 rfl
    rw [e1, e2] at this
    obtain ⟨a, ha, hd⟩ := this _ (List.mem_cons_of_mem _ List.mem_cons_self)
    simp only [List.mem_cons, List.not_mem_nil, or_false] at ha
    rcases ha with rfl | rfl
    · have := hd 1 (by omega); simp at this
    · have := hd 1 (by omega); simp at this
  · rfl

end Real

end Paradiseo.Moeo
