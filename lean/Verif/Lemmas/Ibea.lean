import Verif.Model.Ibea
import Verif.Props.MoeoMetric
import Verif.Props.MoeoFitness
/-
Lemmas on the indicators: monotone in both arguments with respect to dominance.
-/
namespace Paradiseo.Moeo.Ibea

variable {n : Nat}

/-- An indicator respects dominance on a set of vectors: whoever dominates is better off in the comparison with
the one dominated, and everybody else finds the dominating one at least as good. -/
def Respects (T : Traits (n + 1) ℝ) (S : Vec n → Prop) (I : Vec n → Vec n → ℝ) : Prop :=
  ∀ a b, S a → S b → Dominates T.minimizing a b → I a b < I b a ∧ ∀ x, S x → I x b ≤ I x a

/-! ### Bounds of a population -/

theorem foldl_min_le' {α : Type} (f : α → ℝ) (l : List α) (m : ℝ) :
    l.foldl (fun m w => min m (f w)) m ≤ m ∧ ∀ w ∈ l, l.foldl (fun m w => min m (f w)) m ≤ f w := by
  induction l generalizing m with
  | nil => simp
  | cons a l ih =>
    rw [List.foldl_cons]
    obtain ⟨h1, h2⟩ := ih (min m (f a))
    refine ⟨h1.trans (min_le_left _ _), ?_⟩
    rintro w (_ | ⟨_, hw⟩)
    · exact h1.trans (min_le_right _ _)
    · exact h2 w hw

theorem le_foldl_max' {α : Type} (f : α → ℝ) (l : List α) (m : ℝ) :
    m ≤ l.foldl (fun m w => max m (f w)) m ∧ ∀ w ∈ l, f w ≤ l.foldl (fun m w => max m (f w)) m := by
  induction l generalizing m with
  | nil => simp
  | cons a l ih =>
    rw [List.foldl_cons]
    obtain ⟨h1, h2⟩ := ih (max m (f a))
    refine ⟨(le_max_left _ _).trans h1, ?_⟩
    rintro w (_ | ⟨_, hw⟩)
    · exact (le_max_right _ _).trans h1
    · exact h2 w hw

theorem popBnd_range {tiny : ℝ} (ht : 0 < tiny) (v : Vec n) (l : List (Vec n)) (k : Fin (n + 1)) :
    0 < (popBnd tiny v l k).range :=
  C43_setup_range _ _ _ ht ((foldl_min_le' (· k) l _).1.trans (le_foldl_max' (· k) l _).1)

theorem popBnd_mem {tiny : ℝ} (ht : 0 < tiny) (v : Vec n) (l : List (Vec n)) (k : Fin (n + 1)) {w : Vec n}
    (hw : w ∈ v :: l) : (popBnd tiny v l k).lo ≤ w k ∧ w k ≤ (popBnd tiny v l k).hi := by
  have h1 : l.foldl (fun m w => min m (w k)) (v k) ≤ w k := by
    rcases List.mem_cons.1 hw with rfl | hw
    · exact (foldl_min_le' (· k) l _).1
    · exact (foldl_min_le' (· k) l _).2 w hw
  have h2 : w k ≤ l.foldl (fun m w => max m (w k)) (v k) := by
    rcases List.mem_cons.1 hw with rfl | hw
    · exact (le_foldl_max' (· k) l _).1
    · exact (le_foldl_max' (· k) l _).2 w hw
  unfold popBnd setupBnd
  split
  · constructor <;> dsimp only <;> linarith
  · exact ⟨h1, h2⟩

/-! ### Additive epsilon -/

theorem excess_mono {d : Bool} {r : ℝ} (hr : 0 < r) {a b x : ℝ} (h : NoWorse d a b) :
    excess d r x b ≤ excess d r x a := by
  unfold excess
  refine div_le_div_of_nonneg_right ?_ hr.le
  unfold NoWorse at h
  cases d <;> simp at h ⊢ <;> linarith

theorem epsilon_respects (T : Traits (n + 1) ℝ) (B : Fin (n + 1) → Bnd ℝ) (hB : ∀ k, 0 < (B k).range) :
    Respects T (fun _ => True) (indicator T B .epsilon) := by
  intro a b _ _ ⟨hw, k, hk⟩
  constructor
  · have h1 : addEpsVec T B a b ≤ 0 := (C43_vector_weak T B hB a b).2 hw
    have h2 : 0 < addEpsVec T B b a := by
      by_contra hc
      have h3 := (C43_vector_weak T B hB b a).1 (not_lt.1 hc) k
      unfold Better at hk
      unfold NoWorse at h3
      cases hm : T.minimizing k <;> simp [hm] at hk h3 <;> linarith
    exact h1.trans_lt h2
  · intro x _
    show addEpsVec T B x b ≤ addEpsVec T B x a
    rw [C43_vector_spec]
    intro k
    exact (excess_mono (hB k) (hw k)).trans ((C43_vector_spec T B x a _).1 le_rfl k)

/-! ### Hypervolume -/

theorem prod_range_anti {p q : Nat → ℝ} (hq : ∀ i, 0 ≤ q i) (hpq : ∀ i, q i ≤ p i) (k : Nat) :
    ∏ i ∈ Finset.range k, q i ≤ ∏ i ∈ Finset.range k, p i :=
  Finset.prod_le_prod (fun i _ => hq i) (fun i _ => hpq i)

/-- Growing the first box grows what it has outside the second one. -/
theorem excl_mono {p q x : Nat → ℝ} (hq : ∀ i, 0 ≤ q i) (hpq : ∀ i, q i ≤ p i) (hx : ∀ i, 0 ≤ x i) (k : Nat) :
    ∏ i ∈ Finset.range k, q i - ∏ i ∈ Finset.range k, min (q i) (x i) ≤
      ∏ i ∈ Finset.range k, p i - ∏ i ∈ Finset.range k, min (p i) (x i) := by
  induction k with
  | zero => simp
  | succ k ih =>
    simp only [Finset.prod_range_succ]
    set Q := ∏ i ∈ Finset.range k, q i with hQ
    set P := ∏ i ∈ Finset.range k, p i with hP
    set Q' := ∏ i ∈ Finset.range k, min (q i) (x i) with hQ'
    set P' := ∏ i ∈ Finset.range k, min (p i) (x i) with hP'
    have h0 : 0 ≤ Q := Finset.prod_nonneg fun i _ => hq i
    have h1 : Q ≤ P := prod_range_anti hq hpq k
    have h2 : Q' ≤ Q := Finset.prod_le_prod (fun i _ => le_min (hq i) (hx i)) (fun i _ => min_le_left _ _)
    have h3 : min (q k) (x k) ≤ min (p k) (x k) := min_le_min_right _ (hpq k)
    have h4 : q k - min (q k) (x k) ≤ p k - min (p k) (x k) := by
      rcases le_total (q k) (x k) with h | h <;> rcases le_total (p k) (x k) with h' | h'
      · simp [h, h']
      · simp [h, h']
      · rw [min_eq_right h, min_eq_left h']; have := hpq k; linarith
      · rw [min_eq_right h, min_eq_right h']; have := hpq k; linarith
    have h5 : 0 ≤ q k - min (q k) (x k) := sub_nonneg.2 (min_le_left _ _)
    have h6 : 0 ≤ min (q k) (x k) := le_min (hq k) (hx k)
    have h7 : (Q - Q') * min (q k) (x k) ≤ (P - P') * min (p k) (x k) :=
      mul_le_mul ih h3 h6 ((sub_nonneg.2 h2).trans ih)
    have h8 : Q * (q k - min (q k) (x k)) ≤ P * (p k - min (p k) (x k)) :=
      mul_le_mul h1 h4 h5 (h0.trans h1)
    linarith

/-- Relative distance of a coordinate to the reference point. -/
noncomputable def gap (rho : ℝ) (B : Nat → Bnd ℝ) (a : Nat → ℝ) (i : Nat) : ℝ :=
  ((B i).lo + rho * (B i).range - a i) / (rho * (B i).range)

theorem above_eq (rho : ℝ) (B : Nat → Bnd ℝ) (a : Nat → ℝ) (k : Nat) :
    above rho B a k = ∏ i ∈ Finset.range (k + 1), gap rho B a i := rfl

theorem gap_max {rho : ℝ} {B : Nat → Bnd ℝ} (hr : ∀ i, 0 < rho * (B i).range) (a b : Nat → ℝ) (i : Nat) :
    gap rho B (fun i => max (a i) (b i)) i = min (gap rho B a i) (gap rho B b i) := by
  unfold gap
  dsimp only
  rcases le_total (a i) (b i) with h | h
  · rw [max_eq_right h, min_eq_right]
    exact div_le_div_of_nonneg_right (by linarith) (hr i).le
  · rw [max_eq_left h, min_eq_left]
    exact div_le_div_of_nonneg_right (by linarith) (hr i).le

/-- The box of `a`, the mirrored coordinates being within the stretched bounds. -/
structure InBox (B : Nat → Bnd ℝ) (a : Nat → ℝ) : Prop where
  lo : ∀ i, (B i).lo ≤ a i
  hi : ∀ i, a i ≤ (B i).hi

theorem mirrored_hi {B : Nat → Bnd ℝ} {m : Nat → Bool} {a : Nat → ℝ} (h : InBox B a) (i : Nat) :
    mirrored m B a i ≤ (B i).hi := by
  unfold mirrored
  cases m i
  · exact h.hi i
  · simp only [cond_true]; linarith [h.lo i]

theorem gap_pos {rho : ℝ} (hrho : 1 < rho) {B : Nat → Bnd ℝ} (hB : ∀ i, 0 < (B i).range) {m : Nat → Bool}
    {a : Nat → ℝ} (h : InBox B a) (i : Nat) : 0 < gap rho B (mirrored m B a) i := by
  unfold gap
  refine div_pos ?_ (mul_pos (by linarith) (hB i))
  have h1 := mirrored_hi (m := m) h i
  have h2 : (B i).hi = (B i).lo + (B i).range := by unfold Bnd.range; ring
  nlinarith [hB i]

theorem gap_anti {rho : ℝ} {B : Nat → Bnd ℝ} (hr : ∀ i, 0 < rho * (B i).range) {m : Nat → Bool} {a b : Nat → ℝ}
    {i : Nat} (h : NoWorse (!m i) (a i) (b i)) :
    gap rho B (mirrored m B b) i ≤ gap rho B (mirrored m B a) i := by
  unfold gap
  refine div_le_div_of_nonneg_right ?_ (hr i).le
  unfold mirrored
  unfold NoWorse at h
  cases hm : m i <;> simp [hm] at h ⊢ <;> linarith

theorem gap_strict {rho : ℝ} {B : Nat → Bnd ℝ} (hr : ∀ i, 0 < rho * (B i).range) {m : Nat → Bool} {a b : Nat → ℝ}
    {i : Nat} (h : Better (!m i) (a i) (b i)) :
    gap rho B (mirrored m B b) i < gap rho B (mirrored m B a) i := by
  unfold gap
  refine div_lt_div_of_pos_right ?_ (hr i)
  unfold mirrored
  unfold Better at h
  cases hm : m i <;> simp [hm] at h ⊢ <;> linarith

theorem ext_lt {α : Type} (d : α) (f : Fin (n + 1) → α) (k : Fin (n + 1)) : ext d f k = f k := by
  unfold ext; rw [dif_pos k.2]

theorem ext_inBox {B : Fin (n + 1) → Bnd ℝ} {a : Vec n} (h : ∀ k, (B k).lo ≤ a k ∧ a k ≤ (B k).hi) :
    InBox (ext ⟨0, 1⟩ B) (ext 0 a) := by
  constructor <;> intro i <;> unfold ext <;> by_cases hi : i < n + 1
  · rw [dif_pos hi, dif_pos hi]; exact (h _).1
  · rw [dif_neg hi, dif_neg hi]
  · rw [dif_pos hi, dif_pos hi]; exact (h _).2
  · rw [dif_neg hi, dif_neg hi]; norm_num

theorem ext_range {B : Fin (n + 1) → Bnd ℝ} (hB : ∀ k, 0 < (B k).range) (i : Nat) :
    0 < (ext ⟨0, 1⟩ B i).range := by
  unfold ext
  split
  · exact hB _
  · simp [Bnd.range]

theorem ext_noWorse {T : Traits (n + 1) ℝ} {a b : Vec n} (h : ∀ k, NoWorse (T.minimizing k) (a k) (b k)) (i : Nat) :
    NoWorse (!(ext false (fun i => !T.minimizing i) i)) (ext 0 a i) (ext 0 b i) := by
  unfold ext
  by_cases hi : i < n + 1
  · simp only [dif_pos hi, Bool.not_not]; exact h _
  · simp only [dif_neg hi]; simp [NoWorse]

theorem hypervolume_respects (T : Traits (n + 1) ℝ) (h0 : T.tol = 0) (B : Fin (n + 1) → Bnd ℝ)
    (hB : ∀ k, 0 < (B k).range) {rho : ℝ} (hrho : 1 < rho) :
    Respects T (fun a => ∀ k, (B k).lo ≤ a k ∧ a k ≤ (B k).hi) (indicator T B (.hypervolume rho)) := by
  intro a b ha hb hd
  have hrn : ¬ rho < 1 := not_lt.2 hrho.le
  set B' := ext ⟨0, 1⟩ B with hB'
  set m := ext false (fun i => !T.minimizing i) with hm
  have hBr : ∀ i, 0 < (B' i).range := ext_range hB
  have hr : ∀ i, 0 < rho * (B' i).range := fun i => mul_pos (by linarith) (hBr i)
  -- the indicator as a difference of products
  have hI : ∀ u v : Vec n, (∀ k, (B k).lo ≤ u k ∧ u k ≤ (B k).hi) → (∀ k, (B k).lo ≤ v k ∧ v k ≤ (B k).hi) →
      (Dominates T.minimizing u v → indicator T B (.hypervolume rho) u v =
        -(∏ i ∈ Finset.range (n + 1), gap rho B' (mirrored m B' (ext 0 u)) i -
          ∏ i ∈ Finset.range (n + 1), min (gap rho B' (mirrored m B' (ext 0 u)) i)
            (gap rho B' (mirrored m B' (ext 0 v)) i))) ∧
      (¬ Dominates T.minimizing u v → indicator T B (.hypervolume rho) u v =
        ∏ i ∈ Finset.range (n + 1), gap rho B' (mirrored m B' (ext 0 v)) i -
          ∏ i ∈ Finset.range (n + 1), min (gap rho B' (mirrored m B' (ext 0 v)) i)
            (gap rho B' (mirrored m B' (ext 0 u)) i)) := by
    intro u v hu hv
    have hu' := ext_inBox hu
    have hv' := ext_inBox hv
    obtain ⟨e1, e2⟩ := C72_indicator rho hrho.le B' hBr m (ext 0 u) (ext 0 v)
      (fun i => ⟨hu'.lo i, hu'.hi i⟩) (fun i => ⟨hv'.lo i, hv'.hi i⟩) n
    simp only [above_eq, gap_max hr] at e1 e2
    constructor
    · intro hd
      show hvBinary _ _ _ _ _ _ _ = _
      rw [if_neg hrn, (C31_pareto_spec T h0 v u).2 hd, e1]
    · intro hd
      show hvBinary _ _ _ _ _ _ _ = _
      rw [if_neg hrn, Bool.eq_false_iff.2 (fun hc => hd ((C31_pareto_spec T h0 v u).1 hc)), e2]
  have hnd : ¬ Dominates T.minimizing b a := by
    intro hc
    have h1 := (C31_pareto_spec T h0 b a).2 hd
    have h2 := (C31_pareto_spec T h0 a b).2 hc
    rw [(C31_asymmetric T h0.ge b a).2 h1] at h2
    exact Bool.noConfusion h2
  have hga : ∀ i, gap rho B' (mirrored m B' (ext 0 b)) i ≤ gap rho B' (mirrored m B' (ext 0 a)) i :=
    fun i => gap_anti hr (ext_noWorse hd.1 i)
  have hpos : ∀ u : Vec n, (∀ k, (B k).lo ≤ u k ∧ u k ≤ (B k).hi) → ∀ i,
      0 < gap rho B' (mirrored m B' (ext 0 u)) i := fun u hu i => gap_pos hrho hBr (ext_inBox hu) i
  constructor
  · rw [(hI a b ha hb).1 hd, (hI b a hb ha).2 hnd]
    have hlt : ∏ i ∈ Finset.range (n + 1), min (gap rho B' (mirrored m B' (ext 0 a)) i)
            (gap rho B' (mirrored m B' (ext 0 b)) i) <
        ∏ i ∈ Finset.range (n + 1), gap rho B' (mirrored m B' (ext 0 a)) i := by
      obtain ⟨k, hk⟩ := hd.2
      apply Finset.prod_lt_prod
      · intro i _; exact lt_min (hpos a ha i) (hpos b hb i)
      · intro i _; exact min_le_left _ _
      · refine ⟨k, Finset.mem_range.2 k.2, ?_⟩
        refine (min_le_right _ _).trans_lt (gap_strict hr ?_)
        rw [hm, ext_lt, ext_lt, ext_lt, Bool.not_not]
        exact hk
    linarith
  · intro x hx
    by_cases hxa : Dominates T.minimizing x a
    · have hxb : Dominates T.minimizing x b := by
        rw [← C31_pareto_spec T h0] at hxa hd ⊢
        exact C31_transitive T h0 _ _ _ hd hxa
      rw [(hI x b hx hb).1 hxb, (hI x a hx ha).1 hxa, neg_le_neg_iff]
      apply sub_le_sub_left
      exact Finset.prod_le_prod (fun i _ => (lt_min (hpos x hx i) (hpos b hb i)).le)
        (fun i _ => min_le_min_left _ (hga i))
    · rw [(hI x a hx ha).2 hxa]
      have hnn : ∀ u v : Vec n, (∀ k, (B k).lo ≤ u k ∧ u k ≤ (B k).hi) → (∀ k, (B k).lo ≤ v k ∧ v k ≤ (B k).hi) →
          0 ≤ ∏ i ∈ Finset.range (n + 1), gap rho B' (mirrored m B' (ext 0 u)) i -
          ∏ i ∈ Finset.range (n + 1), min (gap rho B' (mirrored m B' (ext 0 u)) i)
            (gap rho B' (mirrored m B' (ext 0 v)) i) := by
        intro u v hu hv
        exact sub_nonneg.2 (Finset.prod_le_prod (fun i _ => (lt_min (hpos u hu i) (hpos v hv i)).le)
          (fun i _ => min_le_left _ _))
      by_cases hxb : Dominates T.minimizing x b
      · rw [(hI x b hx hb).1 hxb]
        exact (neg_nonpos.2 (hnn x b hx hb)).trans (hnn a x ha hx)
      · rw [(hI x b hx hb).2 hxb]
        exact excl_mono (fun i => (hpos b hb i).le) hga (fun i => (hpos x hx i).le) (n + 1)

/-! ### Removing the worst -/

theorem penalty_lt {kappa : ℝ} (hk : 0 < kappa) {I : Vec n → Vec n → ℝ} {a b c d : Vec n} (h : I a b < I c d) :
    penalty kappa I c d < penalty kappa I a b :=
  Real.exp_lt_exp.2 (div_lt_div_of_pos_right (neg_lt_neg h) hk)

theorem penalty_le {kappa : ℝ} (hk : 0 < kappa) {I : Vec n → Vec n → ℝ} {a b c d : Vec n} (h : I a b ≤ I c d) :
    penalty kappa I c d ≤ penalty kappa I a b :=
  Real.exp_le_exp.2 (div_le_div_of_nonneg_right (neg_le_neg h) hk.le)

/-- The one removed dominates nobody that stays. -/
theorem removed_dominates_none {T : Traits (n + 1) ℝ} {S : Vec n → Prop} {I : Vec n → Vec n → ℝ}
    (hI : Respects T S I) {kappa : ℝ} (hk : 0 < kappa) {A A' : List (Vec n)} (hS : ∀ v ∈ A, S v)
    (h : WorstRemoved (penalty kappa I) A A') :
    ∃ w, A.Perm (w :: A') ∧ ∀ y ∈ A', ¬ Dominates T.minimizing w y := by
  obtain ⟨w, hp, hw⟩ := h
  refine ⟨w, hp, fun y hy hd => ?_⟩
  obtain ⟨R, hR⟩ : ∃ R, A'.Perm (y :: R) := ⟨_, List.perm_cons_erase hy⟩
  have hp2 : A.Perm (y :: (w :: R)) := hp.trans ((hR.cons w).trans (List.Perm.swap _ _ _))
  have := hw y (w :: R) hp2
  rw [(hR.map _).sum_eq, List.map_cons, List.sum_cons, List.map_cons, List.sum_cons, neg_le_neg_iff] at this
  have hmem : ∀ z, z ∈ y :: (w :: R) → S z := fun z hz => hS z (hp2.mem_iff.2 hz)
  obtain ⟨h1, h2⟩ := hI w y (hmem w (by simp)) (hmem y (by simp)) hd
  have h3 := penalty_lt hk h1
  have h4 : (R.map fun z => penalty kappa I z w).sum ≤ (R.map fun z => penalty kappa I z y).sum :=
    List.sum_le_sum fun z hz => penalty_le hk (h2 z (hmem z (by simp [hz])))
  linarith

theorem chain_spec {T : Traits (n + 1) ℝ} {S : Vec n → Prop} {I : Vec n → Vec n → ℝ}
    (hI : Respects T S I) {kappa : ℝ} (hk : 0 < kappa) {A A' : List (Vec n)} (hS : ∀ v ∈ A, S v)
    (h : Relation.ReflTransGen (WorstRemoved (penalty kappa I)) A A') :
    ∃ rest, (A' ++ rest).Perm A ∧ ∀ x ∈ A', ∀ v ∈ rest, ¬ Dominates T.minimizing v x := by
  induction h with
  | refl => exact ⟨[], by simp, by simp⟩
  | tail h1 h2 ih =>
    rename_i b c
    obtain ⟨rest, hr1, hr2⟩ := ih
    obtain ⟨w, hw1, hw2⟩ := removed_dominates_none hI hk
      (fun v hv => hS v (hr1.mem_iff.1 (List.mem_append_left _ hv))) h2
    refine ⟨w :: rest, ?_, ?_⟩
    · refine List.Perm.trans ?_ hr1
      refine List.perm_middle.trans ?_
      exact (hw1.symm.append_right rest)
    · intro x hx v hv
      rcases List.mem_cons.1 hv with rfl | hv
      · exact hw2 x hx
      · exact hr2 x (hw1.mem_iff.2 (by simp [hx])) v hv

/-! ### `std::min_element` -/

theorem minIdx_spec (l : List ℝ) (h : l ≠ []) : ∃ w, l[minIdx l]? = some w ∧ ∀ y ∈ l, w ≤ y := by
  cases l with
  | nil => exact absurd rfl h
  | cons a l =>
    have key : ∀ (r pre : List ℝ) (best : Nat × ℝ), (pre ++ r)[best.1]? = some best.2 →
        (∀ y ∈ pre, best.2 ≤ y) →
        ∃ w, (pre ++ r)[((r.zipIdx pre.length).foldl (fun (best : Nat × ℝ) x =>
          if x.1 < best.2 then (x.2, x.1) else best) best).1]? = some w ∧ ∀ y ∈ pre ++ r, w ≤ y := by
      intro r
      induction r with
      | nil => intro pre best h1 h2; exact ⟨best.2, by simpa using h1, by simpa using h2⟩
      | cons b r ih =>
        intro pre best h1 h2
        rw [List.zipIdx_cons, List.foldl_cons]
        have := ih (pre ++ [b]) (if b < best.2 then (pre.length, b) else best)
        simp only [List.append_assoc, List.singleton_append, List.length_append, List.length_cons,
          List.length_nil, zero_add] at this
        apply this
        · split
          · simp
          · exact h1
        · intro y hy
          rcases List.mem_append.1 hy with hy | hy
          · split
            · rename_i hlt; exact hlt.le.trans (h2 y hy)
            · exact h2 y hy
          · simp only [List.mem_singleton] at hy
            subst hy
            split
            · exact le_rfl
            · rename_i hlt; exact not_lt.1 hlt
    have := key l [a] (0, a) (by simp) (by simp)
    simpa [minIdx] using this

theorem picks_worst : PicksWorst fun q : List (MInd (Vec n) ℝ) => minIdx (q.map MInd.fit) := by
  intro l hl
  obtain ⟨w, h1, h2⟩ := minIdx_spec (l.map MInd.fit) (by simpa using hl)
  rw [List.getElem?_map] at h1
  cases hx : l[minIdx (l.map MInd.fit)]? with
  | none => rw [hx] at h1; cases h1
  | some x =>
    rw [hx] at h1
    simp only [Option.map_some, Option.some.injEq] at h1
    refine ⟨x, rfl, fun y hy => ?_⟩
    rw [h1]
    exact h2 _ (List.mem_map_of_mem hy)

end Paradiseo.Moeo.Ibea
