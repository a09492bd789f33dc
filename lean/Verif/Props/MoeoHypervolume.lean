import Verif.Lemmas.MoeoHV
import Mathlib.MeasureTheory.Measure.Lebesgue.Basic
import Mathlib.MeasureTheory.Constructions.Pi
import Mathlib.MeasureTheory.Group.Measure
import Mathlib.MeasureTheory.Measure.Haar.Unique
import Mathlib.Data.Fin.VecNotation
/-
Property C45: the hypervolume metric is the Lebesgue measure of the dominated region.
-/
namespace Paradiseo.Moeo
open MeasureTheory

/-! ## Specification -/

/-- Region dominated by the points of `S` (in coordinates where larger is better and the reference point
is the origin): the union of the boxes between the origin and the points. -/
def Region (K : Nat) (S : List (Pt ℝ)) : Set (Fin K → ℝ) :=
  {x | ∃ p ∈ S, ∀ i : Fin K, 0 < x i ∧ x i ≤ p i}

/-! ## Measure of regions and slabs -/

theorem region_eq_biUnion (K : Nat) (S : List (Pt ℝ)) :
    Region K S = ⋃ p ∈ S, Set.univ.pi fun i : Fin K => Set.Ioc 0 (p i) := by
  ext x; simp [Region, Set.mem_pi]

theorem measurableSet_region (K : Nat) (S : List (Pt ℝ)) : MeasurableSet (Region K S) := by
  rw [region_eq_biUnion]
  refine Set.Finite.measurableSet_biUnion (s := {p | p ∈ S}) (List.finite_toSet S) fun p _ => ?_
  exact MeasurableSet.univ_pi fun i => measurableSet_Ioc

theorem volume_region_lt_top (K : Nat) (S : List (Pt ℝ)) : volume (Region K S) < ⊤ := by
  rw [region_eq_biUnion]
  refine measure_biUnion_lt_top (s := {p | p ∈ S}) (List.finite_toSet S) fun p _ => ?_
  rw [Real.volume_pi_Ioc]
  exact ENNReal.prod_lt_top fun i _ => ENNReal.ofReal_lt_top

theorem region_congr_mem {K : Nat} {S S' : List (Pt ℝ)} (h : ∀ p, p ∈ S' ↔ p ∈ S) : Region K S' = Region K S := by
  ext x; simp [Region, h]

/-- A covering sublist has the same region. -/
theorem region_covers {K : Nat} {S S' : List (Pt ℝ)} (hsub : ∀ p ∈ S', p ∈ S) (hc : HvCovers K S' S) :
    Region K S' = Region K S := by
  ext x
  constructor
  · rintro ⟨p, hp, h⟩; exact ⟨p, hsub p hp, h⟩
  · rintro ⟨p, hp, h⟩
    obtain ⟨q, hq, hpq⟩ := hc p hp
    exact ⟨q, hq, fun i => ⟨(h i).1, (h i).2.trans (hpq i i.2)⟩⟩

/-- Product of a set with an interval on the last coordinate. -/
theorem volume_slab (K : Nat) (A : Set (Fin K → ℝ)) (d t : ℝ) :
    volume {x : Fin (K + 1) → ℝ | x (Fin.last K) ∈ Set.Ioc d t ∧ (fun i : Fin K => x i.castSucc) ∈ A} =
      ENNReal.ofReal (t - d) * volume A := by
  have mp := volume_preserving_piFinSuccAbove (fun _ : Fin (K + 1) => ℝ) (Fin.last K)
  have : {x : Fin (K + 1) → ℝ | x (Fin.last K) ∈ Set.Ioc d t ∧ (fun i : Fin K => x i.castSucc) ∈ A} =
      (MeasurableEquiv.piFinSuccAbove (fun _ : Fin (K + 1) => ℝ) (Fin.last K)) ⁻¹' (Set.Ioc d t ×ˢ A) := by
    ext x
    simp [MeasurableEquiv.piFinSuccAbove, Fin.insertNthEquiv, Fin.removeNth, Set.mem_prod]
    exact fun _ _ => Iff.rfl
  rw [this, mp.measure_preimage_equiv]
  rw [Measure.volume_eq_prod, Measure.prod_prod, Real.volume_Ioc]

/-- Part of the region above `d` on the last coordinate. -/
def Upper (K : Nat) (S : List (Pt ℝ)) (d : ℝ) : Set (Fin (K + 1) → ℝ) :=
  {x | x ∈ Region (K + 1) S ∧ d < x (Fin.last K)}

theorem measurableSet_upper (K : Nat) (S : List (Pt ℝ)) (d : ℝ) : MeasurableSet (Upper K S d) :=
  (measurableSet_region (K + 1) S).inter
    (measurableSet_lt measurable_const (measurable_pi_apply (Fin.last K)))

theorem volume_upper_lt_top (K : Nat) (S : List (Pt ℝ)) (d : ℝ) : volume (Upper K S d) < ⊤ :=
  lt_of_le_of_lt (measure_mono (fun _ h => h.1)) (volume_region_lt_top (K + 1) S)

/-- One step of the sweep: between `d` and the smallest last coordinate `t` the section is constant. -/
theorem volume_upper_step (K : Nat) (S S' : List (Pt ℝ)) (d t : ℝ) (hd : 0 ≤ d) (hdt : d ≤ t)
    (hmin : ∀ p ∈ S, t ≤ p K) (hS' : ∀ p, p ∈ S' ↔ p ∈ S ∧ t < p K) :
    (volume (Upper K S d)).toReal =
      (volume (Region K S)).toReal * (t - d) + (volume (Upper K S' t)).toReal := by
  have hsplit : Upper K S d =
      {x : Fin (K + 1) → ℝ | x (Fin.last K) ∈ Set.Ioc d t ∧ (fun i : Fin K => x i.castSucc) ∈ Region K S} ∪
        Upper K S' t := by
    ext x
    simp only [Upper, Region, Set.mem_setOf_eq, Set.mem_union, Set.mem_Ioc]
    constructor
    · rintro ⟨⟨p, hp, hx⟩, hdx⟩
      by_cases hxt : x (Fin.last K) ≤ t
      · exact Or.inl ⟨⟨hdx, hxt⟩, p, hp, fun i => hx i.castSucc⟩
      · refine Or.inr ⟨⟨p, (hS' p).2 ⟨hp, ?_⟩, hx⟩, not_le.1 hxt⟩
        exact lt_of_lt_of_le (not_le.1 hxt) (hx (Fin.last K)).2
    · rintro (⟨⟨h1, h2⟩, p, hp, hx⟩ | ⟨⟨p, hp, hx⟩, h⟩)
      · refine ⟨⟨p, hp, fun i => ?_⟩, h1⟩
        refine Fin.lastCases ?_ (fun j => ?_) i
        · exact ⟨lt_of_le_of_lt hd h1, h2.trans (hmin p hp)⟩
        · exact hx j
      · exact ⟨⟨p, ((hS' p).1 hp).1, hx⟩, lt_of_le_of_lt hdt h⟩
  have hdisj : Disjoint
      {x : Fin (K + 1) → ℝ | x (Fin.last K) ∈ Set.Ioc d t ∧ (fun i : Fin K => x i.castSucc) ∈ Region K S}
      (Upper K S' t) := by
    rw [Set.disjoint_left]
    rintro x ⟨h1, _⟩ ⟨_, h2⟩
    exact absurd h1.2 (not_le.2 h2)
  rw [hsplit, measure_union hdisj (measurableSet_upper K S' t), volume_slab,
    ENNReal.toReal_add (ENNReal.mul_ne_top ENNReal.ofReal_ne_top (volume_region_lt_top K S).ne)
      (volume_upper_lt_top K S' t).ne, ENNReal.toReal_mul, ENNReal.toReal_ofReal (sub_nonneg.2 hdt), mul_comm]

/-! ## The loop -/

/-- The main loop, given that `sub` computes the volume of the section. -/
theorem hvLoop_spec (K : Nat) (sub : List (Pt ℝ) → Nat → Option (ℝ × List (Pt ℝ)))
    (hsub : ∀ front m, 0 < m → m ≤ front.length → (∀ p ∈ front.take m, ∀ i < K, 0 ≤ p i) →
      (∀ a b, a < b → b < m → Incomp K front a b) →
      ∃ fr', sub front m = some ((volume (Region K (front.take m))).toReal, fr') ∧ SameUpTo m front fr')
    (fuel : Nat) (front : List (Pt ℝ)) (n : Nat) (vol d : ℝ) (hf : n < fuel) (hn : n ≤ front.length)
    (hd : 0 ≤ d) (hpos : ∀ p ∈ front.take n, ∀ i < K, 0 ≤ p i) (hK : ∀ p ∈ front.take n, d ≤ p K) :
    ∃ fr', hvLoop sub K fuel front n vol d =
        some (vol + (volume (Upper K (front.take n) d)).toReal, fr') ∧ SameUpTo n front fr' := by
  induction fuel generalizing front n vol d with
  | zero => omega
  | succ fuel ih =>
    unfold hvLoop
    by_cases h0 : n = 0
    · subst h0
      refine ⟨front, ?_, SameUpTo.refl _ _⟩
      have : Upper K (front.take 0) d = ∅ := by ext x; simp [Upper, Region]
      rw [this]; simp
    · rw [if_neg h0]
      obtain ⟨f1, f2, f3, f4, f5⟩ := hvFilter_spec K front n 0 1 (by omega) hn
        (by intro a b _ _ h; omega) (by intro b h1 h2; omega)
      generalize hvFilter K front n 0 1 = r at f1 f2 f3 f4 f5
      obtain ⟨fr1, m⟩ := r
      simp only at f1 f2 f3 f4 f5 ⊢
      have hm1 : m ≤ fr1.length := by rw [f3.length_eq]; omega
      have hsubset : ∀ p ∈ fr1.take m, p ∈ front.take n := fun p hp =>
        (f3.mem_iff p).1 (List.take_subset_take_left _ f1 hp)
      obtain ⟨fr2, e2, s2⟩ := hsub fr1 m (f2 (by omega)) hm1 (fun p hp => hpos p (hsubset p hp)) f5
      have s12 : SameUpTo n front fr2 := f3.trans (s2.mono f1)
      have hn2 : n ≤ fr2.length := by rw [s12.length_eq]; exact hn
      obtain ⟨t, e3, hmin, hatt⟩ := hvSurface_spec fr2 n K hn2 (by omega)
      rw [e2]
      simp only [Option.bind_eq_bind, Option.bind_some, e3]
      obtain ⟨r1, r2, r3, r4⟩ := hvReduce_spec K t fr2 n 0 hn2 (by intro a h; omega)
      generalize hvReduce K t fr2 n 0 = r at r1 r2 r3 r4
      obtain ⟨fr3, n'⟩ := r
      simp only at r1 r2 r3 r4 ⊢
      have hdt : d ≤ t := by
        obtain ⟨p, hp, rfl⟩ := hatt
        exact hK p ((s12.mem_iff p).1 hp)
      have hlt : n' < n := by
        obtain ⟨p, hp, hpt⟩ := hatt
        obtain ⟨a, ha, hpa⟩ := (mem_take_iff_getElem? _ _ _).1 hp
        exact r4 ⟨a, ha, Nat.zero_le _, p, hpa, hpt.le⟩
      have s123 : SameUpTo n front fr3 := s12.trans r2
      have hmem3 : ∀ p, p ∈ fr3.take n' ↔ p ∈ front.take n ∧ t < p K := by
        intro p; rw [r3, s12.mem_iff]
      obtain ⟨fr', e4, s4⟩ := ih fr3 n'
        (vol + (volume (Region K (fr1.take m))).toReal * (t - d)) t (by omega)
        (by rw [s123.length_eq]; omega) (hd.trans hdt) (fun p hp => hpos p ((hmem3 p).1 hp).1)
        (fun p hp => ((hmem3 p).1 hp).2.le)
      refine ⟨fr', ?_, s123.trans (s4.mono r1)⟩
      rw [e4, volume_upper_step K (front.take n) (fr3.take n') d t hd hdt
        (fun p hp => hmin p ((s12.mem_iff p).2 hp)) hmem3, region_covers hsubset f4, add_assoc]

/-- One objective: the largest value. -/
theorem volume_region_one (front : List (Pt ℝ)) (m : Nat) (p : Pt ℝ) (hp : p ∈ front.take m)
    (h0 : 0 ≤ p 0) (hmax : ∀ q ∈ front.take m, q 0 ≤ p 0) :
    (volume (Region 1 (front.take m))).toReal = p 0 := by
  have : Region 1 (front.take m) = Set.univ.pi fun i : Fin 1 => Set.Ioc 0 (p i) := by
    ext x
    simp only [Region, Set.mem_setOf_eq, Set.mem_pi, Set.mem_univ, true_implies, Set.mem_Ioc]
    constructor
    · rintro ⟨q, hq, h⟩ i
      refine ⟨(h i).1, (h i).2.trans ?_⟩
      rw [Subsingleton.elim i 0]; exact hmax q hq
    · intro h; exact ⟨p, hp, h⟩
  rw [this, Real.volume_pi_Ioc]
  simp [h0]

/-! ## C45 -/

/-- The recursion computes the measure of the region, for any number of objectives from two on, any
number of points with non-negative coordinates, in any order and with any duplicates. -/
theorem C45_calc (K : Nat) (hK : 2 ≤ K) (front : List (Pt ℝ)) (n : Nat) (hn : n ≤ front.length)
    (hpos : ∀ p ∈ front.take n, ∀ i < K, 0 ≤ p i) :
    ∃ fr', calcHV K front n = some ((volume (Region K (front.take n))).toReal, fr') ∧
      SameUpTo n front fr' := by
  induction K using Nat.strong_induction_on generalizing front n with
  | _ K ih =>
    have hU : ∀ (K : Nat) (S : List (Pt ℝ)), Upper K S 0 = Region (K + 1) S := by
      intro K S
      ext x
      simp only [Upper, Set.mem_setOf_eq, and_iff_left_iff_imp]
      rintro ⟨p, _, h⟩
      exact (h (Fin.last K)).1
    match K, hK with
    | 2, _ =>
      unfold calcHV
      have := hvLoop_spec 1 (fun fr _ => fr[0]?.map fun p => (p 0, fr)) (by
        intro fr m hm hml hp hinc
        have h0 : fr[0]? = some fr[0] := List.getElem?_eq_getElem (by omega)
        refine ⟨fr, ?_, SameUpTo.refl _ _⟩
        have hmem0 : fr[0] ∈ fr.take m := (mem_take_iff_getElem? _ _ _).2 ⟨0, hm, h0⟩
        simp only [h0, Option.map_some, Option.some.injEq, Prod.mk.injEq, and_true]
        symm
        apply volume_region_one _ _ _ hmem0 (hp _ hmem0 0 (by omega))
        intro q hq
        obtain ⟨b, hb, hqb⟩ := (mem_take_iff_getElem? _ _ _).1 hq
        rcases Nat.eq_zero_or_pos b with rfl | hb0
        · rw [h0] at hqb; cases hqb; exact le_rfl
        · by_contra hlt
          have := (hinc 0 b hb0 hb _ _ h0 hqb).2
          have h' : hvDom 1 q fr[0] = true := by
            rw [hvDom_iff]
            exact ⟨fun j hj => by rw [show j = 0 by omega]; exact (not_le.1 hlt).le,
              0, by omega, not_le.1 hlt⟩
          rw [h'] at this; simp at this)
        (n + 1) front n 0 0 (by omega) hn le_rfl (fun p hp i hi => hpos p hp i (by omega))
        (fun p hp => hpos p hp 1 (by omega))
      simpa only [zero_add, hU] using this
    | k + 3, _ =>
      unfold calcHV
      have := hvLoop_spec (k + 2) (fun fr m => calcHV (k + 2) fr m) (by
        intro fr m hm hml hp _
        exact ih (k + 2) (by omega) (by omega) fr m hml hp)
        (n + 1) front n 0 0 (by omega) hn le_rfl (fun p hp i hi => hpos p hp i (by omega))
        (fun p hp => hpos p hp (k + 2) (by omega))
      simpa only [zero_add, hU] using this

/-- A normalised objective value. -/
noncomputable def norm01 (B : Nat → Bnd ℝ) (v : Nat → ℝ) (j : Nat) : ℝ := (v j - (B j).lo) / ((B j).hi - (B j).lo)

/-- Points of the normalised objective space that some vector of the set weakly dominates and that are
strictly better than the reference point in each objective. -/
def Dominated (K : Nat) (minimizing : Nat → Bool) (B : Nat → Bnd ℝ) (ref : Nat → ℝ)
    (set : List (Nat → ℝ)) : Set (Fin K → ℝ) :=
  {y | ∃ v ∈ set, ∀ j : Fin K,
    if minimizing j then norm01 B v j ≤ y j ∧ y j < ref j else ref j < y j ∧ y j ≤ norm01 B v j}

/-- The metric returns the Lebesgue measure of the region of the normalised objective space dominated by
the set and dominating the reference point, if every vector weakly dominates the reference point. -/
theorem C45_hypervolume (K : Nat) (hK : 2 ≤ K) (minimizing : Nat → Bool) (B : Nat → Bnd ℝ)
    (ref : Nat → ℝ) (set : List (Nat → ℝ))
    (href : ∀ v ∈ set, ∀ j < K, if minimizing j then norm01 B v j ≤ ref j else ref j ≤ norm01 B v j) :
    hvMetric minimizing B ref K set = some (volume (Dominated K minimizing B ref set)).toReal := by
  have hlen : (hvFront minimizing B ref set).length = set.length := by simp [hvFront]
  have htake : (hvFront minimizing B ref set).take set.length = hvFront minimizing B ref set := by
    rw [← hlen, List.take_length]
  obtain ⟨fr', e, _⟩ := C45_calc K hK (hvFront minimizing B ref set) set.length hlen.ge (by
    rw [htake]
    intro p hp i hi
    obtain ⟨v, hv, rfl⟩ := List.mem_map.1 hp
    have := href v hv i hi
    unfold norm01 at this
    simp only [Bnd.range]
    split
    · rename_i h; rw [if_pos h] at this; linarith
    · rename_i h; rw [if_neg h] at this; linarith)
  unfold hvMetric
  rw [e, Option.map_some, htake]
  congr 2
  -- coordinate-wise isometry
  let f : ∀ j : Fin K, ℝ → ℝ := fun j y => if minimizing j then ref j - y else y - ref j
  have hf : ∀ j, MeasurePreserving (f j) volume volume := by
    intro j
    simp only [f]
    cases minimizing j
    · simpa using measurePreserving_sub_right volume (ref j)
    · simpa using Measure.measurePreserving_sub_left volume (ref j)
  have mp := volume_preserving_pi hf
  have hpre : (fun (a : Fin K → ℝ) i => f i (a i)) ⁻¹' Region K (hvFront minimizing B ref set) =
      Dominated K minimizing B ref set := by
    ext y
    simp only [Set.mem_preimage, Region, Dominated, Set.mem_setOf_eq, hvFront, List.mem_map,
      exists_exists_and_eq_and]
    refine exists_congr fun v => and_congr_right fun _ => forall_congr' fun j => ?_
    simp only [f, norm01, Bnd.range]
    cases minimizing j
    · simp
    · simp only [if_true, sub_pos]
      constructor
      · rintro ⟨h1, h2⟩; exact ⟨by linarith, h1⟩
      · rintro ⟨h1, h2⟩; exact ⟨h2, by linarith⟩
  rw [← hpre, mp.measure_preimage (measurableSet_region K _).nullMeasurableSet]

theorem hvSetup_spec (v : Nat → ℝ) (l : List (Nat → ℝ)) (j : Nat) :
    (∀ w ∈ v :: l, (hvSetup v l j).lo ≤ w j ∧ w j ≤ (hvSetup v l j).hi) ∧
    (∃ w ∈ v :: l, w j = (hvSetup v l j).hi) := by
  unfold hvSetup
  have hmin : ∀ (l : List (Nat → ℝ)) (m : ℝ), l.foldl (fun m w => min m (w j)) m ≤ m ∧
      ∀ w ∈ l, l.foldl (fun m w => min m (w j)) m ≤ w j := by
    intro l
    induction l with
    | nil => intro m; simp
    | cons a l ih =>
      intro m
      obtain ⟨h1, h2⟩ := ih (min m (a j))
      rw [List.foldl_cons]
      refine ⟨h1.trans (min_le_left _ _), ?_⟩
      intro w hw
      rcases List.mem_cons.1 hw with rfl | hw
      · exact h1.trans (min_le_right _ _)
      · exact h2 w hw
  have hmax : ∀ (l : List (Nat → ℝ)) (m : ℝ), m ≤ l.foldl (fun m w => max m (w j)) m ∧
      (∀ w ∈ l, w j ≤ l.foldl (fun m w => max m (w j)) m) ∧
      (l.foldl (fun m w => max m (w j)) m = m ∨ ∃ w ∈ l, w j = l.foldl (fun m w => max m (w j)) m) := by
    intro l
    induction l with
    | nil => intro m; simp
    | cons a l ih =>
      intro m
      obtain ⟨h1, h2, h3⟩ := ih (max m (a j))
      rw [List.foldl_cons]
      refine ⟨(le_max_left _ _).trans h1, ?_, ?_⟩
      · intro w hw
        rcases List.mem_cons.1 hw with rfl | hw
        · exact (le_max_right _ _).trans h1
        · exact h2 w hw
      · rcases h3 with h3 | ⟨w, hw, h3⟩
        · rw [h3]
          rcases le_total m (a j) with h | h
          · exact Or.inr ⟨a, by simp, by rw [max_eq_right h]⟩
          · exact Or.inl (max_eq_left h)
        · exact Or.inr ⟨w, by simp [hw], h3⟩
  obtain ⟨a1, a2⟩ := hmin l (v j)
  obtain ⟨b1, b2, b3⟩ := hmax l (v j)
  constructor
  · intro w hw
    rcases List.mem_cons.1 hw with rfl | hw
    · exact ⟨a1, b1⟩
    · exact ⟨a2 w hw, b2 w hw⟩
  · rcases b3 with b3 | ⟨w, hw, b3⟩
    · exact ⟨v, by simp, b3.symm⟩
    · exact ⟨w, by simp [hw], b3⟩

/-- With normalisation and a factor `rho ≥ 1` the reference point is dominated by every vector, so the
result is a measure, for every non-empty set that is not constant in an objective. -/
theorem C45_normalized (K : Nat) (hK : 2 ≤ K) (minimizing : Nat → Bool) (rho : ℝ) (hrho : 1 ≤ rho)
    (v : Nat → ℝ) (l : List (Nat → ℝ)) (hdeg : ∀ j < K, (hvSetup v l j).lo < (hvSetup v l j).hi) :
    hvMetricRho minimizing true rho K (v :: l) = some (volume (Dominated K minimizing (hvSetup v l)
      (fun j => if minimizing j then rho else 1 - rho) (v :: l))).toReal := by
  unfold hvMetricRho
  simp only [if_true]
  apply C45_hypervolume K hK
  intro w hw j hj
  obtain ⟨h1, h2⟩ := (hvSetup_spec v l j).1 w hw
  have hr := sub_pos.2 (hdeg j hj)
  cases minimizing j
  · simp only [Bool.false_eq_true, if_false, norm01]
    have : 0 ≤ (w j - (hvSetup v l j).lo) / ((hvSetup v l j).hi - (hvSetup v l j).lo) :=
      div_nonneg (sub_nonneg.2 h1) hr.le
    linarith
  · simp only [if_true, norm01]
    have : (w j - (hvSetup v l j).lo) / ((hvSetup v l j).hi - (hvSetup v l j).lo) ≤ 1 := by
      rw [div_le_one hr]; linarith
    linarith

/-- Without normalisation: a measure for minimised non-negative objectives. -/
theorem C45_unnormalized_nonneg (K : Nat) (hK : 2 ≤ K) (rho : ℝ) (hrho : 1 ≤ rho)
    (v : Nat → ℝ) (l : List (Nat → ℝ)) (hpos : ∀ w ∈ v :: l, ∀ j < K, 0 ≤ w j) :
    hvMetricRho (fun _ => true) false rho K (v :: l) = some (volume (Dominated K (fun _ => true)
      (fun _ => ⟨0, 1⟩) (fun j => (hvSetup v l j).hi * rho) (v :: l))).toReal := by
  unfold hvMetricRho
  simp only [Bool.false_eq_true, if_true, if_false]
  apply C45_hypervolume K hK
  intro w hw j hj
  obtain ⟨h1, h2⟩ := (hvSetup_spec v l j).1 w hw
  simp only [if_true, norm01, sub_zero, div_one]
  nlinarith [hpos w hw j hj]

/-- Without normalisation and with negative values, the reference point `max * rho` is better than the
points: one point at -1 (two minimised objectives, factor 2) gives 1 although it dominates no part of the
region above the reference point. -/
theorem C45_unnormalized_negative :
    hvMetricRho (fun _ => true) false (2 : ℝ) 2 [fun _ => -1] = some 1 ∧
    Dominated 2 (fun _ => true) (fun _ => ⟨0, 1⟩) (fun _ => -1 * 2) [fun _ => -1] = ∅ := by
  constructor
  · have e0 : hvFront (fun _ => true) (fun _ => (⟨0, 1⟩ : Bnd ℝ)) (fun j =>
        (hvSetup (fun _ => (-1 : ℝ)) [] j).hi * 2)
        [fun _ => -1] = [fun _ => -1] := by
      simp only [hvFront, hvSetup, List.map_cons, List.map_nil, Bnd.range, List.foldl_nil, if_true]
      norm_num
    have e1 : hvFilter 1 [fun _ : Nat => (-1 : ℝ)] 1 0 1 = ([fun _ => -1], 1) := by
      rw [hvFilter, if_pos (by omega), if_neg (by omega), hvFilter, if_neg (by omega)]
    have e2 : hvReduce 1 (-1) [fun _ : Nat => (-1 : ℝ)] 1 0 = ([fun _ => -1], 0) := by
      rw [hvReduce, if_pos (by omega)]
      simp only [List.getElem?_cons_zero, le_refl, if_true, swapAt, Nat.sub_self, List.set_cons_zero]
      rw [hvReduce, if_neg (by omega)]
    unfold hvMetricRho
    simp only [Bool.false_eq_true, if_false, if_true]
    unfold hvMetric
    rw [e0]
    unfold calcHV hvLoop
    rw [List.length_singleton, if_neg (by omega), e1]
    simp only [List.getElem?_cons_zero, Option.map_some, hvSurface, List.take_succ_cons, List.take_zero,
      List.foldl_nil, Option.bind_eq_bind, Option.bind_some, e2, zero_add, sub_zero]
    unfold hvLoop
    rw [if_pos rfl]
    norm_num
  · ext y
    simp only [Dominated, norm01, List.mem_singleton, exists_eq_left, if_true, Set.mem_setOf_eq,
      Set.mem_empty_iff_false, iff_false]
    intro h
    have := h 0
    linarith [this.1, this.2]

/-- Consequence: it never decreases when vectors are added or replaced by vectors that weakly dominate
them. -/
theorem C45_monotone (K : Nat) (hK : 2 ≤ K) (front front' : List (Pt ℝ))
    (hpos : ∀ p ∈ front, ∀ i < K, 0 ≤ p i) (hpos' : ∀ p ∈ front', ∀ i < K, 0 ≤ p i)
    (hc : ∀ p ∈ front, ∃ q ∈ front', ∀ j < K, p j ≤ q j) :
    ∃ v v' fr fr', calcHV K front front.length = some (v, fr) ∧
      calcHV K front' front'.length = some (v', fr') ∧ v ≤ v' := by
  obtain ⟨fr, e, _⟩ := C45_calc K hK front front.length le_rfl (by rwa [List.take_length])
  obtain ⟨fr', e', _⟩ := C45_calc K hK front' front'.length le_rfl (by rwa [List.take_length])
  refine ⟨_, _, fr, fr', e, e', ?_⟩
  rw [List.take_length, List.take_length]
  refine ENNReal.toReal_mono (volume_region_lt_top K front').ne (measure_mono ?_)
  rintro x ⟨p, hp, h⟩
  obtain ⟨q, hq, hpq⟩ := hc p hp
  exact ⟨q, hq, fun i => ⟨(h i).1, (h i).2.trans (hpq i i.2)⟩⟩

/-- With a single objective the result is wrong: one point at distance `a` of the reference point gives
`a²`, the measure being `a`. -/
theorem C45_one_objective (a : ℝ) (ha : 0 ≤ a) :
    (∃ fr, calcHV 1 [fun _ => a] 1 = some (a * a, fr)) ∧
    (volume (Region 1 [fun _ => a])).toReal = a := by
  constructor
  · refine ⟨[fun _ => a], ?_⟩
    have e1 : hvFilter 0 [fun _ : Nat => a] 1 0 1 = ([fun _ => a], 1) := by
      rw [hvFilter, if_pos (by omega), if_neg (by omega), hvFilter, if_neg (by omega)]
    have e2 : hvReduce 0 a [fun _ : Nat => a] 1 0 = ([fun _ => a], 0) := by
      rw [hvReduce, if_pos (by omega)]
      simp only [List.getElem?_cons_zero, le_refl, if_true, swapAt, Nat.sub_self, List.set_cons_zero]
      rw [hvReduce, if_neg (by omega)]
    unfold calcHV hvLoop
    rw [if_neg (by omega), e1]
    simp only [List.getElem?_cons_zero, Option.map_some, hvSurface, List.take_succ_cons, List.take_zero,
      List.foldl_nil, Option.bind_eq_bind, Option.bind_some, e2, zero_add, sub_zero]
    unfold hvLoop
    rw [if_pos rfl]
  · have := volume_region_one [fun _ => a] 1 (fun _ => a) (by simp) ha (by simp)
    simpa using this

/-- Three points in two dimensions, one more dominated, meet the hypotheses. -/
example : ∀ p ∈ ([fun i => if i = 0 then 1 else 3, fun _ => 2, fun i => if i = 0 then 3 else 1,
    fun _ => 1] : List (Pt ℝ)).take 4, ∀ i < 2, 0 ≤ p i := by
  intro p hp i _
  simp only [List.take_succ_cons, List.take_zero, List.mem_cons, List.not_mem_nil, or_false] at hp
  rcases hp with rfl | rfl | rfl | rfl <;> simp only <;> (try split) <;> norm_num

end Paradiseo.Moeo
