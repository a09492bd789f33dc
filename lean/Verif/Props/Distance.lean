import Verif.Model.Distance
import Verif.Props.Scalar
import Mathlib.Analysis.InnerProductSpace.PiL2
/-
C327, C328: distances of objective vectors.
-/
namespace Paradiseo.Scalar

open Paradiseo.EO (Err)

section C327
variable {K : Type} [Field K] [LinearOrder K] [IsStrictOrderedRing K]

theorem foldl_range_sum {R : Type} [AddCommMonoid R] (f : Nat → R) (m : Nat) :
    (List.range m).foldl (fun r i => r + f i) 0 = ∑ i ∈ Finset.range m, f i := by
  induction m with
  | zero => rfl
  | succ m ih => rw [List.range_succ, List.foldl_append, ih, Finset.sum_range_succ]; rfl

theorem apply_sub (n : Norm K) (a b : Vec K) (i : Nat) :
    n.apply a i - n.apply b i = (a i - b i) * (n.scale i).1 := by
  simp only [Norm.apply]; ring

theorem manhattan_eq (m : Nat) (n : Norm K) (a b : Vec K) :
    manhattan m n a b = ∑ i ∈ Finset.range m, |n.apply a i - n.apply b i| :=
  foldl_range_sum (fun i => |n.apply a i - n.apply b i|) m

theorem euclid_eq (m : Nat) (n : Norm ℝ) (a b : Vec ℝ) :
    euclid m n a b = Real.sqrt (∑ i ∈ Finset.range m, (n.apply a i - n.apply b i) ^ 2) := by
  unfold euclid
  rw [foldl_range_sum (fun i => (n.apply a i - n.apply b i) * (n.apply a i - n.apply b i)) m]
  simp only [pow_two]

/-- A function of two vectors that is a distance up to objectives the normaliser maps to one value. -/
structure IsDistance {R : Type} [Field R] [LinearOrder R] (m : Nat) (n : Norm R) (d : Vec R → Vec R → R) : Prop where
  nonneg : ∀ a b, 0 ≤ d a b
  symm : ∀ a b, d a b = d b a
  triangle : ∀ a b c, d a c ≤ d a b + d b c
  zero : ∀ a b, d a b = 0 ↔ ∀ i < m, (n.scale i).1 = 0 ∨ a i = b i

/-- **C327** (Manhattan). Whatever the normaliser, the Manhattan distance is not negative, symmetric, satisfies the
triangle inequality and vanishes exactly if the vectors agree on all objectives whose coefficient is not zero. -/
theorem C327_manhattan (m : Nat) (n : Norm K) : IsDistance m n (manhattan m n) := by
  constructor
  · intro a b
    rw [manhattan_eq]
    exact Finset.sum_nonneg fun i _ => abs_nonneg _
  · intro a b
    rw [manhattan_eq, manhattan_eq]
    exact Finset.sum_congr rfl fun i _ => abs_sub_comm _ _
  · intro a b c
    rw [manhattan_eq, manhattan_eq, manhattan_eq, ← Finset.sum_add_distrib]
    exact Finset.sum_le_sum fun i _ => abs_sub_le _ _ _
  · intro a b
    rw [manhattan_eq, Finset.sum_eq_zero_iff_of_nonneg fun i _ => abs_nonneg _]
    constructor
    · intro h i hi
      have := abs_eq_zero.1 (h i (Finset.mem_range.2 hi))
      rw [apply_sub] at this
      rcases mul_eq_zero.1 this with h' | h'
      · exact .inr (sub_eq_zero.1 h')
      · exact .inl h'
    · intro h i hi
      rw [apply_sub]
      rcases h i (Finset.mem_range.1 hi) with h' | h'
      · simp [h']
      · simp [h']

/-- The vector of the normalised values as a point of the Euclidean space. -/
noncomputable def point (m : Nat) (n : Norm ℝ) (a : Vec ℝ) : EuclideanSpace ℝ (Fin m) :=
  WithLp.toLp 2 fun i => n.apply a i

theorem euclid_dist (m : Nat) (n : Norm ℝ) (a b : Vec ℝ) : euclid m n a b = dist (point m n a) (point m n b) := by
  rw [euclid_eq, EuclideanSpace.dist_eq]
  congr 1
  rw [Finset.sum_range]
  refine Finset.sum_congr rfl fun i _ => ?_
  simp [point, Real.dist_eq, sq_abs]

/-- **C327** (Euclidean). The same for the Euclidean distance. -/
theorem C327_euclid (m : Nat) (n : Norm ℝ) : IsDistance m n (euclid m n) := by
  constructor
  · intro a b
    exact Real.sqrt_nonneg _
  · intro a b
    rw [euclid_dist, euclid_dist, dist_comm]
  · intro a b c
    rw [euclid_dist, euclid_dist, euclid_dist]
    exact dist_triangle _ _ _
  · intro a b
    rw [euclid_eq, Real.sqrt_eq_zero (Finset.sum_nonneg fun i _ => sq_nonneg _),
      Finset.sum_eq_zero_iff_of_nonneg fun i _ => sq_nonneg _]
    constructor
    · intro h i hi
      have := (sq_eq_zero_iff).1 (h i (Finset.mem_range.2 hi))
      rw [apply_sub] at this
      rcases mul_eq_zero.1 this with h' | h'
      · exact .inr (sub_eq_zero.1 h')
      · exact .inl h'
    · intro h i hi
      rw [apply_sub]
      rcases h i (Finset.mem_range.1 hi) with h' | h'
      · simp [h']
      · simp [h']

/-- **C327** (values). Without a normaliser the distances are those of the vectors themselves. -/
theorem C327_plain (m : Nat) (a b : Vec ℝ) :
    manhattan m (dummy 100) a b = ∑ i ∈ Finset.range m, |a i - b i| ∧
    euclid m (dummy 100) a b = Real.sqrt (∑ i ∈ Finset.range m, (a i - b i) ^ 2) := by
  constructor
  · rw [manhattan_eq]
    exact Finset.sum_congr rfl fun i _ => by simp [Norm.apply, dummy]
  · rw [euclid_eq]
    congr 1
    exact Finset.sum_congr rfl fun i _ => by simp [Norm.apply, dummy]

/-- **C327** (comparison). The Euclidean distance is between the greatest difference and the Manhattan distance. -/
theorem C327_compare (m : Nat) (n : Norm ℝ) (a b : Vec ℝ) :
    euclid m n a b ≤ manhattan m n a b ∧ ∀ i < m, |n.apply a i - n.apply b i| ≤ euclid m n a b := by
  rw [euclid_eq, manhattan_eq]
  constructor
  · apply Real.sqrt_le_iff.2
    refine ⟨Finset.sum_nonneg fun i _ => abs_nonneg _, ?_⟩
    have h := Finset.sum_sq_le_sq_sum_of_nonneg (s := Finset.range m) (f := fun i => |n.apply a i - n.apply b i|)
      fun i _ => abs_nonneg _
    simpa only [sq_abs] using h
  · intro i hi
    apply Real.le_sqrt_of_sq_le
    rw [sq_abs]
    exact Finset.single_le_sum (f := fun i => (n.apply a i - n.apply b i) ^ 2) (fun i _ => sq_nonneg _)
      (Finset.mem_range.2 hi)

/-- The vector in other units: objective `i` multiplied by `s i` and shifted by `t i`. -/
def units (s t : Nat → K) (a : Vec K) : Vec K := fun i => s i * a i + t i

theorem lowest_units (s t : Nat → K) (i : Nat) (hs : 0 < s i) (v : Vec K) (l : List (Vec K)) :
    lowest i (units s t v) (l.map (units s t)) = s i * lowest i v l + t i := by
  obtain ⟨h1, w, hw, h2⟩ := lowest_spec i v l
  obtain ⟨g1, w', hw', g2⟩ := lowest_spec i (units s t v) (l.map (units s t))
  have hmem : ∀ x ∈ v :: l, units s t x ∈ units s t v :: l.map (units s t) := fun x hx =>
    List.mem_map_of_mem (f := units s t) hx
  apply le_antisymm
  · have := g1 _ (hmem w hw)
    simpa [units, h2] using this
  · have hw'' : w' ∈ (v :: l).map (units s t) := hw'
    obtain ⟨y, hy, rfl⟩ := List.mem_map.1 hw''
    rw [g2]
    have := mul_le_mul_of_nonneg_left (h1 y hy) hs.le
    simpa [units] using this

theorem highest_units (s t : Nat → K) (i : Nat) (hs : 0 < s i) (v : Vec K) (l : List (Vec K)) :
    highest i (units s t v) (l.map (units s t)) = s i * highest i v l + t i := by
  obtain ⟨h1, w, hw, h2⟩ := highest_spec i v l
  obtain ⟨g1, w', hw', g2⟩ := highest_spec i (units s t v) (l.map (units s t))
  have hmem : ∀ x ∈ v :: l, units s t x ∈ units s t v :: l.map (units s t) := fun x hx =>
    List.mem_map_of_mem (f := units s t) hx
  apply le_antisymm
  · have hw'' : w' ∈ (v :: l).map (units s t) := hw'
    obtain ⟨y, hy, rfl⟩ := List.mem_map.1 hw''
    rw [g2]
    have := mul_le_mul_of_nonneg_left (h1 y hy) hs.le
    simpa [units] using this
  · have := g1 _ (hmem w hw)
    simpa [units, h2] using this

/-- **C327** (units). With a normaliser made of the population (and a maximum other than zero) the normalised values of
the members, hence their distances, do not depend on the units of the objectives. -/
theorem C327_units (m : Nat) (mx : K) (hmx : mx ≠ 0) (v : Vec K) (l : List (Vec K)) (s t : Nat → K)
    (hs : ∀ i < m, 0 < s i) (a b : Vec K) (ha : a ∈ v :: l) (hb : b ∈ v :: l) :
    manhattan m (fromPop m mx (units s t v) (l.map (units s t))) (units s t a) (units s t b) =
      manhattan m (fromPop m mx v l) a b := by
  rw [manhattan_eq, manhattan_eq]
  refine Finset.sum_congr rfl fun i hi => ?_
  have hs := hs i (Finset.mem_range.1 hi)
  congr 1
  rw [apply_sub, apply_sub]
  have hamp : amp (units s t v) (l.map (units s t)) i = s i * amp v l i := by
    unfold amp; rw [lowest_units s t i hs, highest_units s t i hs]; ring
  show (units s t a i - units s t b i) * (if amp (units s t v) (l.map (units s t)) i = 0 then 1 else if mx = 0 then _ else
    mx / amp (units s t v) (l.map (units s t)) i) = (a i - b i) * (if amp v l i = 0 then 1 else if mx = 0 then _ else
    mx / amp v l i)
  rw [hamp, if_neg hmx, if_neg hmx]
  by_cases h0 : amp v l i = 0
  · have hab : a i = b i := by
      have e : highest i v l = lowest i v l := sub_eq_zero.1 h0
      have a1 := (highest_spec i v l).1 a ha
      have a2 := (lowest_spec i v l).1 a ha
      have b1 := (highest_spec i v l).1 b hb
      have b2 := (lowest_spec i v l).1 b hb
      rw [e] at a1 b1
      exact (le_antisymm a1 a2).trans (le_antisymm b1 b2).symm
    simp [units, hab]
  · rw [if_neg h0, if_neg (mul_ne_zero hs.ne' h0)]
    simp only [units]
    have := hs.ne'
    field_simp
    ring

theorem C327_units_euclid (m : Nat) (mx : ℝ) (hmx : mx ≠ 0) (v : Vec ℝ) (l : List (Vec ℝ)) (s t : Nat → ℝ)
    (hs : ∀ i < m, 0 < s i) (a b : Vec ℝ) (ha : a ∈ v :: l) (hb : b ∈ v :: l) :
    euclid m (fromPop m mx (units s t v) (l.map (units s t))) (units s t a) (units s t b) =
      euclid m (fromPop m mx v l) a b := by
  rw [euclid_eq, euclid_eq]
  congr 1
  refine Finset.sum_congr rfl fun i hi => ?_
  have hi' := Finset.mem_range.1 hi
  -- the difference for one objective, from the Manhattan distance of the first `i + 1` and of the first `i` ones
  have key : |(fromPop m mx (units s t v) (l.map (units s t))).apply (units s t a) i -
      (fromPop m mx (units s t v) (l.map (units s t))).apply (units s t b) i| =
      |(fromPop m mx v l).apply a i - (fromPop m mx v l).apply b i| := by
    have hk : ∀ k ≤ m, ∑ j ∈ Finset.range k, |(fromPop m mx (units s t v) (l.map (units s t))).apply (units s t a) j -
        (fromPop m mx (units s t v) (l.map (units s t))).apply (units s t b) j| =
        ∑ j ∈ Finset.range k, |(fromPop m mx v l).apply a j - (fromPop m mx v l).apply b j| := by
      intro k hk
      have h := C327_units k mx hmx v l s t (fun j hj => hs j (lt_of_lt_of_le hj hk)) a b ha hb
      rw [manhattan_eq, manhattan_eq] at h
      simpa only [apply_sub, fromPop, scaleFromPop, if_neg hmx] using h
    have h1 := hk (i + 1) hi'
    rw [Finset.sum_range_succ, Finset.sum_range_succ, hk i hi'.le] at h1
    exact add_left_cancel h1
  rw [← sq_abs, key, sq_abs]

end C327

section C328

/-- Operations that do not make the distance `d` anew. -/
def Op.keeps (d : Nat) : Op ℝ → Prop
  | .newDefault d' _ => d' ≠ d
  | .newGiven d' _ _ => d' ≠ d
  | .copy _ d' => d' ≠ d
  | _ => True

/-- What happens in between. -/
noncomputable def runOps (ops : List (Op ℝ)) (s : Mem ℝ) : Mem ℝ := ops.foldl (fun s o => o.apply s) s

theorem dists_keeps {d : Nat} (o : Op ℝ) (h : o.keeps d) (s : Mem ℝ) :
    (o.apply s).dists d = s.dists d ∨ (o.apply s).dists d = none := by
  cases o with
  | newDefault d' kind => exact .inl (Function.update_of_ne (Ne.symm h) _ _)
  | newGiven d' kind k => exact .inl (Function.update_of_ne (Ne.symm h) _ _)
  | copy a d' => exact .inl (Function.update_of_ne (Ne.symm h) _ _)
  | destroy d' =>
    by_cases e : d' = d
    · subst e; exact .inr (Function.update_self _ _ _)
    · exact .inl (Function.update_of_ne (Ne.symm e) _ _)
  | setNorm k n => exact .inl rfl
  | dropNorm k => exact .inl rfl

theorem runOps_keeps {d : Nat} : ∀ (ops : List (Op ℝ)) (s : Mem ℝ), (∀ o ∈ ops, o.keeps d) →
    (runOps ops s).dists d = s.dists d ∨ (runOps ops s).dists d = none := by
  intro ops
  induction ops with
  | nil => intro s _; exact .inl rfl
  | cons o ops ih =>
    intro s h
    rcases ih (o.apply s) fun x hx => h x (List.mem_cons_of_mem _ hx) with h1 | h1
    · rcases dists_keeps o (h o List.mem_cons_self) s with h2 | h2
      · exact .inl (h1.trans h2)
      · exact .inr (h1.trans h2)
    · exact .inr h1

/-- **C328** (Euclidean). A Euclidean distance made with a normaliser is undefined at every call, whatever happens in
between; so is a copy of it. -/
theorem C328_euclid_dangling (s : Mem ℝ) (m d k : Nat) (ops : List (Op ℝ)) (h : ∀ o ∈ ops, o.keeps d) (a b : Vec ℝ) :
    (runOps ops ((Op.newGiven d .euclid k).apply s)).call m d a b = .error .ub ∧
    ∀ d', ((Op.copy d d').apply (runOps ops ((Op.newGiven d .euclid k).apply s))).call m d' a b = .error .ub := by
  have h0 : ((Op.newGiven d .euclid k).apply s).dists d = some ⟨.euclid, .temporary⟩ := Function.update_self _ _ _
  have hk := runOps_keeps ops ((Op.newGiven d .euclid k).apply s) h
  rw [h0] at hk
  generalize runOps ops ((Op.newGiven d .euclid k).apply s) = s1 at hk ⊢
  rcases hk with e | e
  · constructor
    · simp [Mem.call, Mem.norm, e]
    · intro d'
      simp [Mem.call, Mem.norm, Op.apply, e]
  · constructor
    · simp [Mem.call, e]
    · intro d'
      simp [Mem.call, Op.apply, e]

/-- **C328** (Manhattan). A Manhattan distance made with a normaliser follows what becomes of that object: it is computed
with the scale the normaliser has at the time of the call, and undefined once the normaliser is gone. -/
theorem C328_manhattan_follows (s : Mem ℝ) (m d k : Nat) (ops : List (Op ℝ)) (h : ∀ o ∈ ops, o.keeps d)
    (hd : Op.destroy d ∉ ops) (a b : Vec ℝ) :
    (∀ n, (runOps ops ((Op.newGiven d .manhattan k).apply s)).norms k = some n →
      (runOps ops ((Op.newGiven d .manhattan k).apply s)).call m d a b = .ok (manhattan m n a b)) ∧
    ((runOps ops ((Op.newGiven d .manhattan k).apply s)).norms k = none →
      (runOps ops ((Op.newGiven d .manhattan k).apply s)).call m d a b = .error .ub) := by
  have h0 : ((Op.newGiven d .manhattan k).apply s).dists d = some ⟨.manhattan, .user k⟩ := Function.update_self _ _ _
  have key : ∀ (ops : List (Op ℝ)) (s : Mem ℝ), (∀ o ∈ ops, o.keeps d) → Op.destroy d ∉ ops →
      (runOps ops s).dists d = s.dists d := by
    intro ops
    induction ops with
    | nil => intro s _ _; rfl
    | cons o ops ih =>
      intro s h hd
      refine (ih (o.apply s) (fun x hx => h x (List.mem_cons_of_mem _ hx)) fun hx =>
        hd (List.mem_cons_of_mem _ hx)).trans ?_
      have ho := h o List.mem_cons_self
      cases o with
      | newDefault d' kind => exact Function.update_of_ne (Ne.symm ho) _ _
      | newGiven d' kind k => exact Function.update_of_ne (Ne.symm ho) _ _
      | copy a d' => exact Function.update_of_ne (Ne.symm ho) _ _
      | destroy d' =>
        refine Function.update_of_ne (fun e => hd ?_) _ _
        subst e; exact List.mem_cons_self
      | setNorm k n => rfl
      | dropNorm k => rfl
  have e := key ops ((Op.newGiven d .manhattan k).apply s) h hd
  rw [h0] at e
  generalize runOps ops ((Op.newGiven d .manhattan k).apply s) = s1 at e ⊢
  constructor
  · intro n hn
    simp [Mem.call, Mem.norm, e, hn]
  · intro hn
    simp [Mem.call, Mem.norm, e, hn]

/-- **C328** (copies). A distance made without a normaliser works with the plain values as long as it lives; a copy of it
works as long as the original lives, and is undefined afterwards. -/
theorem C328_copy (s : Mem ℝ) (m d d' : Nat) (hne : d' ≠ d) (kind : Kind) (a b : Vec ℝ) :
    let s1 := (Op.copy d d').apply ((Op.newDefault d kind).apply s)
    let v := match kind with | .manhattan => manhattan m (dummy 100) a b | .euclid => euclid m (dummy 100) a b
    s1.call m d a b = .ok v ∧ s1.call m d' a b = .ok v ∧
    ((Op.destroy d').apply s1).call m d a b = .ok v ∧
    ((Op.destroy d).apply s1).call m d' a b = .error .ub := by
  have hne' : d ≠ d' := Ne.symm hne
  cases kind <;> refine ⟨?_, ?_, ?_, ?_⟩ <;>
    simp [Mem.call, Mem.norm, Op.apply, Function.update_of_ne hne, Function.update_of_ne hne']

/-- One normaliser, two distances made with it: after the normaliser has been changed the Manhattan distance of two
vectors is the one of the new scale. -/
example : let s0 : Mem ℝ := ⟨fun _ => none, fun _ => none⟩
    let n : Norm ℝ := ⟨fun _ => (2, 0), 100⟩
    (runOps [.setNorm 0 n] ((Op.newGiven 1 .manhattan 0).apply ((Op.setNorm 0 (dummy 100)).apply s0))).call 1 1
      (fun _ => 3) (fun _ => 0) = .ok 6 := by
  have h := (C328_manhattan_follows ((Op.setNorm 0 (dummy 100)).apply ⟨fun _ => none, fun _ => none⟩) 1 1 0
    [.setNorm 0 ⟨fun _ => ((2 : ℝ), 0), 100⟩] (by intro o ho; rw [List.mem_singleton.1 ho]; trivial)
    (by simp) (fun _ => 3) (fun _ => 0)).1 ⟨fun _ => ((2 : ℝ), 0), 100⟩ rfl
  refine h.trans ?_
  norm_num [manhattan, Norm.apply]

end C328

end Paradiseo.Scalar
