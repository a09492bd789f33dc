import Verif.Model.MoeoMetric
import Verif.Props.Moeo
import Mathlib.Algebra.BigOperators.Fin
import Mathlib.Algebra.BigOperators.Intervals
import Mathlib.Tactic
/-
Properties C43 (epsilon indicators), C44 (contribution), C72 (binary hypervolume indicator).
-/
namespace Paradiseo.Moeo

/-! ## Specification -/

/-- `a` weakly dominates `b`: nowhere worse. -/
def WeaklyDominates {n : Nat} {F : Type} [LE F] (d : Fin n → Bool) (a b : Fin n → F) : Prop :=
  ∀ k, NoWorse (d k) (a k) (b k)

/-- By how much `a` is worse than `b` on an objective, in units of the range. -/
def excess {F : Type} [Field F] (minimizing : Bool) (range a b : F) : F :=
  (if minimizing then a - b else b - a) / range

section Eps
variable {n : Nat} {F : Type} [Field F] [LinearOrder F] [IsStrictOrderedRing F]

theorem addEps_eq (T : Traits n F) (B : Fin n → Bnd F) (a b : Fin n → F) (k : Fin n) :
    addEps T B a b k = excess (T.minimizing k) (B k).range (a k) (b k) := by
  unfold addEps excess
  cases T.minimizing k <;> simp <;> ring

theorem foldl_max_le {α : Type} (f : α → F) (l : List α) (a t : F) :
    l.foldl (fun r x => max r (f x)) a ≤ t ↔ a ≤ t ∧ ∀ x ∈ l, f x ≤ t := by
  induction l generalizing a with
  | nil => simp
  | cons x l ih => rw [List.foldl_cons, ih]; simp [and_assoc]

/-! ## C43 -/

/-- The additive epsilon indicator of two vectors is the smallest shift: it is `≤ t` exactly when the
first vector exceeds the second by at most `t` on every objective. -/
theorem C43_vector_spec (T : Traits (n + 1) F) (B : Fin (n + 1) → Bnd F) (a b : Fin (n + 1) → F) (t : F) :
    addEpsVec T B a b ≤ t ↔ ∀ k, excess (T.minimizing k) (B k).range (a k) (b k) ≤ t := by
  unfold addEpsVec
  rw [foldl_max_le, List.finRange_succ, List.tail_cons]
  simp only [addEps_eq, List.mem_map, List.mem_finRange, true_and, forall_exists_index,
    forall_apply_eq_imp_iff]
  constructor
  · rintro ⟨h0, h⟩ k
    exact Fin.cases h0 h k
  · intro h; exact ⟨h 0, fun k => h k.succ⟩

/-- It is `≤ 0` iff the first weakly dominates the second. -/
theorem C43_vector_weak (T : Traits (n + 1) F) (B : Fin (n + 1) → Bnd F) (hB : ∀ k, 0 < (B k).range)
    (a b : Fin (n + 1) → F) : addEpsVec T B a b ≤ 0 ↔ WeaklyDominates T.minimizing a b := by
  rw [C43_vector_spec]
  refine forall_congr' fun k => ?_
  unfold excess
  rw [div_le_iff₀ (hB k), zero_mul]
  cases T.minimizing k <;> simp [NoWorse]

/-- Triangle inequality, and zero on the diagonal. -/
theorem C43_triangle (T : Traits (n + 1) F) (B : Fin (n + 1) → Bnd F) (a b c : Fin (n + 1) → F) :
    addEpsVec T B a c ≤ addEpsVec T B a b + addEpsVec T B b c ∧ addEpsVec T B a a = 0 := by
  constructor
  · rw [C43_vector_spec]
    intro k
    have h1 := (C43_vector_spec T B a b _).1 le_rfl k
    have h2 := (C43_vector_spec T B b c _).1 le_rfl k
    have : excess (T.minimizing k) (B k).range (a k) (c k) =
        excess (T.minimizing k) (B k).range (a k) (b k) + excess (T.minimizing k) (B k).range (b k) (c k) := by
      unfold excess; cases T.minimizing k <;> simp <;> ring
    rw [this]; exact add_le_add h1 h2
  · apply le_antisymm
    · rw [C43_vector_spec]; intro k; simp [excess]
    · by_contra h
      have := (C43_vector_spec T B a a (addEpsVec T B a a)).1 le_rfl 0
      simp [excess] at this
      exact h this

/-- The bounds computed for the objective are usable: the range is positive, even if all values are
equal. -/
theorem C43_setup_range (tiny mn mx : F) (ht : 0 < tiny) (h : mn ≤ mx) : 0 < (setupBnd tiny mn mx).range := by
  unfold setupBnd Bnd.range
  split
  · rename_i h'; subst h'; simp only; linarith
  · rename_i h'; exact sub_pos.2 (lt_of_le_of_ne h h')

example : addEpsVec (⟨![true, false], 0⟩ : Traits 2 ℚ) (fun _ => ⟨0, 10⟩) ![1, 5] ![2, 3] = -1/10 ∧
    addEpsVec (⟨![true, false], 0⟩ : Traits 2 ℚ) (fun _ => ⟨0, 10⟩) ![1, 2] ![2, 3] = 1/10 := by
  decide +kernel

private theorem pick_some {α : Type} (f : α → F) (better : F → F → Bool) (l : List α) (c : F) :
    l.foldl (fun acc x => do
      let cur ← acc
      let v ← (some (f x) : Option F)
      pure (if better cur v then v else cur)) (some c) =
    some (l.foldl (fun cur x => if better cur (f x) then f x else cur) c) := by
  induction l generalizing c with
  | nil => rfl
  | cons x l ih =>
    rw [List.foldl_cons, List.foldl_cons]
    exact ih _

/-- A maximising loop: `≤ t` iff all values are. -/
private theorem pick_max {α : Type} (f : α → F) (l : List α) (hl : l ≠ []) :
    ∃ m, pickLoop (fun x => some (f x)) (fun cur v => decide (cur < v)) l = some m ∧
      ∀ t, m ≤ t ↔ ∀ x ∈ l, f x ≤ t := by
  cases l with
  | nil => exact absurd rfl hl
  | cons a l =>
    refine ⟨_, by unfold pickLoop; exact pick_some f _ l (f a), ?_⟩
    intro t
    have : ∀ (l : List α) (c : F),
        l.foldl (fun cur x => if decide (cur < f x) = true then f x else cur) c =
          l.foldl (fun r x => max r (f x)) c := by
      intro l
      induction l with
      | nil => intro c; rfl
      | cons x l ih =>
        intro c
        rw [List.foldl_cons, List.foldl_cons, ih]
        congr 1
        by_cases h : c < f x
        · simp [h, max_eq_right h.le]
        · simp [h, max_eq_left (not_lt.1 h)]
    rw [this, foldl_max_le]
    simp

/-- A minimising loop: `≤ t` iff some value is. -/
private theorem pick_min {α : Type} (f : α → F) (l : List α) (hl : l ≠ []) :
    ∃ m, pickLoop (fun x => some (f x)) (fun cur v => decide (v < cur)) l = some m ∧
      ∀ t, m ≤ t ↔ ∃ x ∈ l, f x ≤ t := by
  cases l with
  | nil => exact absurd rfl hl
  | cons a l =>
    refine ⟨_, by unfold pickLoop; exact pick_some f _ l (f a), ?_⟩
    intro t
    have : ∀ (l : List α) (c : F),
        l.foldl (fun cur x => if decide (f x < cur) = true then f x else cur) c ≤ t ↔
          c ≤ t ∨ ∃ x ∈ l, f x ≤ t := by
      intro l
      induction l with
      | nil => intro c; simp
      | cons x l ih =>
        intro c
        rw [List.foldl_cons, ih]
        by_cases h : f x < c
        · simp only [h, decide_true, if_true, List.mem_cons, exists_eq_or_imp]
          constructor
          · rintro (h1 | h1)
            · exact Or.inr (Or.inl h1)
            · exact Or.inr (Or.inr h1)
          · rintro (h1 | h1 | h1)
            · exact Or.inl (h.le.trans h1)
            · exact Or.inl h1
            · exact Or.inr h1
        · simp only [h, decide_false, Bool.false_eq_true, if_false, List.mem_cons, exists_eq_or_imp]
          constructor
          · rintro (h1 | h1)
            · exact Or.inl h1
            · exact Or.inr (Or.inr h1)
          · rintro (h1 | h1 | h1)
            · exact Or.inl h1
            · exact Or.inl ((not_lt.1 h).trans h1)
            · exact Or.inr h1
    rw [this]; simp

/-- A loop over functions equal on the list. -/
private theorem pick_congr {α : Type} (f g : α → Option F) (better : F → F → Bool) (l : List α)
    (h : ∀ x ∈ l, f x = g x) : pickLoop f better l = pickLoop g better l := by
  cases l with
  | nil => rfl
  | cons a l =>
    unfold pickLoop
    dsimp only
    rw [h a (by simp)]
    have : ∀ (l : List α) c, (∀ x ∈ l, f x = g x) → l.foldl (fun acc x => do
      let cur ← acc
      let v ← f x
      pure (if better cur v then v else cur)) c = l.foldl (fun acc x => do
      let cur ← acc
      let v ← g x
      pure (if better cur v then v else cur)) c := by
      intro l
      induction l with
      | nil => intros; rfl
      | cons x l ih =>
        intro c hl
        rw [List.foldl_cons, List.foldl_cons, hl x (by simp)]
        exact ih _ (fun y hy => hl y (by simp [hy]))
    exact this l _ (fun x hx => h x (by simp [hx]))

/-- Two non-empty sets: the value exists and is `≤ t` exactly when every vector of the second set has a
vector of the first whose `eps` is `≤ t` on all objectives. -/
theorem epsSets_spec (eps : (Fin (n + 1) → F) → (Fin (n + 1) → F) → Fin (n + 1) → F)
    (eps' : (Fin (n + 1) → F) → (Fin (n + 1) → F) → Fin (n + 1) → Option F)
    (set1 set2 : List (Fin (n + 1) → F)) (h1 : set1 ≠ []) (h2 : set2 ≠ [])
    (he : ∀ a ∈ set1, ∀ b ∈ set2, ∀ k, eps' a b k = some (eps a b k)) :
    ∃ v, epsSets eps' set1 set2 = some v ∧
      ∀ t, v ≤ t ↔ ∀ b ∈ set2, ∃ a ∈ set1, ∀ k, eps a b k ≤ t := by
  have hfin : List.finRange (n + 1) ≠ [] := by rw [List.finRange_succ]; simp
  have c1 : ∀ a b, ∃ m, pickLoop (fun k => some (eps a b k)) (fun cur v => decide (cur < v))
      (List.finRange (n + 1)) = some m ∧ ∀ t, m ≤ t ↔ ∀ k, eps a b k ≤ t := by
    intro a b
    obtain ⟨m, e, h⟩ := pick_max (eps a b) (List.finRange (n + 1)) hfin
    exact ⟨m, e, fun t => by rw [h]; simp⟩
  choose M hM hMt using c1
  have c2 : ∀ b, ∃ m, pickLoop (fun a => some (M a b)) (fun cur v => decide (v < cur)) set1 = some m ∧
      ∀ t, m ≤ t ↔ ∃ a ∈ set1, M a b ≤ t := fun b => pick_min (fun a => M a b) set1 h1
  choose W hW hWt using c2
  obtain ⟨v, hv, hvt⟩ := pick_max W set2 h2
  refine ⟨v, ?_, ?_⟩
  · unfold epsSets
    rw [← hv]
    apply pick_congr
    intro b hb
    rw [← hW b]
    apply pick_congr
    intro a ha
    rw [← hM a b]
    apply pick_congr
    intro k _
    exact he a ha b hb k
  · intro t
    rw [hvt]
    refine forall_congr' fun b => forall_congr' fun _ => ?_
    rw [hWt]
    refine exists_congr fun a => and_congr_right fun _ => ?_
    exact hMt a b t

/-- Additive epsilon of two sets. -/
theorem C43_set_spec (T : Traits (n + 1) F) (B : Fin (n + 1) → Bnd F)
    (set1 set2 : List (Fin (n + 1) → F)) (h1 : set1 ≠ []) (h2 : set2 ≠ []) :
    ∃ v, epsSets (fun a b k => some (addEps T B a b k)) set1 set2 = some v ∧
      ∀ t, v ≤ t ↔ ∀ b ∈ set2, ∃ a ∈ set1, ∀ k, excess (T.minimizing k) (B k).range (a k) (b k) ≤ t := by
  obtain ⟨v, hv, h⟩ := epsSets_spec (addEps T B) _ set1 set2 h1 h2 (fun a _ b _ k => rfl)
  exact ⟨v, hv, fun t => by rw [h]; simp only [addEps_eq]⟩

/-- It is `≤ 0` iff every vector of the second set is weakly dominated by one of the first. -/
theorem C43_set_weak (T : Traits (n + 1) F) (B : Fin (n + 1) → Bnd F) (hB : ∀ k, 0 < (B k).range)
    (set1 set2 : List (Fin (n + 1) → F)) (h1 : set1 ≠ []) (h2 : set2 ≠ []) :
    ∃ v, epsSets (fun a b k => some (addEps T B a b k)) set1 set2 = some v ∧
      (v ≤ 0 ↔ ∀ b ∈ set2, ∃ a ∈ set1, WeaklyDominates T.minimizing a b) := by
  obtain ⟨v, hv, h⟩ := C43_set_spec T B set1 set2 h1 h2
  refine ⟨v, hv, ?_⟩
  rw [h]
  refine forall_congr' fun b => forall_congr' fun _ => exists_congr fun a => and_congr_right fun _ => ?_
  refine forall_congr' fun k => ?_
  unfold excess
  rw [div_le_iff₀ (hB k), zero_mul]
  cases T.minimizing k <;> simp [NoWorse]

/-- Triangle inequality between sets, with fixed bounds. -/
theorem C43_set_triangle (T : Traits (n + 1) F) (B : Fin (n + 1) → Bnd F)
    (s1 s2 s3 : List (Fin (n + 1) → F)) (h1 : s1 ≠ []) (h2 : s2 ≠ []) (h3 : s3 ≠ []) :
    ∃ v12 v23 v13, epsSets (fun a b k => some (addEps T B a b k)) s1 s2 = some v12 ∧
      epsSets (fun a b k => some (addEps T B a b k)) s2 s3 = some v23 ∧
      epsSets (fun a b k => some (addEps T B a b k)) s1 s3 = some v13 ∧ v13 ≤ v12 + v23 := by
  obtain ⟨v12, e12, h12⟩ := C43_set_spec T B s1 s2 h1 h2
  obtain ⟨v23, e23, h23⟩ := C43_set_spec T B s2 s3 h2 h3
  obtain ⟨v13, e13, h13⟩ := C43_set_spec T B s1 s3 h1 h3
  refine ⟨v12, v23, v13, e12, e23, e13, ?_⟩
  rw [h13]
  intro c hc
  obtain ⟨b, hb, hbk⟩ := (h23 v23).1 le_rfl c hc
  obtain ⟨a, ha, hak⟩ := (h12 v12).1 le_rfl b hb
  refine ⟨a, ha, fun k => ?_⟩
  have : excess (T.minimizing k) (B k).range (a k) (c k) =
      excess (T.minimizing k) (B k).range (a k) (b k) + excess (T.minimizing k) (B k).range (b k) (c k) := by
    unfold excess; cases T.minimizing k <;> simp <;> ring
  rw [this]
  exact add_le_add (hak k) (hbk k)

/-- An empty set gives an uninitialised value. -/
theorem C43_empty (eps : (Fin n → F) → (Fin n → F) → Fin n → Option F) (s : List (Fin n → F))
    (hs : s ≠ []) : epsSets eps s [] = none ∧ epsSets eps [] s = none := by
  constructor
  · rfl
  · unfold epsSets
    cases s with
    | nil => exact absurd rfl hs
    | cons a l =>
      simp only [pickLoop]
      have : ∀ (l : List (Fin n → F)), l.foldl (fun (acc : Option F) _ => acc.bind fun cur =>
          (none : Option F).bind fun v => some (if decide (cur < v) = true then v else cur)) none = none := by
        intro l
        induction l with
        | nil => rfl
        | cons x l ih => rw [List.foldl_cons]; exact ih
      exact this l

/-- Multiplicative epsilon with positive values: `≤ 1` iff every vector of the second set is weakly
dominated by one of the first. -/
theorem C43_multiplicative (T : Traits (n + 1) F) (set1 set2 : List (Fin (n + 1) → F)) (h1 : set1 ≠ [])
    (h2 : set2 ≠ []) (p1 : ∀ a ∈ set1, ∀ k, 0 < a k) (p2 : ∀ b ∈ set2, ∀ k, 0 < b k) :
    ∃ v, epsSets (mulEps T) set1 set2 = some v ∧
      (v ≤ 1 ↔ ∀ b ∈ set2, ∃ a ∈ set1, WeaklyDominates T.minimizing a b) := by
  obtain ⟨v, hv, h⟩ := epsSets_spec
    (fun a b k => if T.minimizing k then a k / b k else b k / a k) (mulEps T) set1 set2 h1 h2 (by
      intro a ha b hb k
      unfold mulEps
      rw [if_neg (not_le.2 (mul_pos (p1 a ha k) (p2 b hb k)))]
      split <;> rfl)
  refine ⟨v, hv, ?_⟩
  rw [h]
  refine forall_congr' fun b => forall_congr' fun hb => exists_congr fun a => and_congr_right fun ha => ?_
  refine forall_congr' fun k => ?_
  cases T.minimizing k
  · simp only [Bool.false_eq_true, if_false, NoWorse]; rw [div_le_one (p1 a ha k)]
  · simp only [if_true, NoWorse]; rw [div_le_one (p2 b hb k)]

/-- With two negative values, which the code accepts, the comparison is reversed. -/
theorem C43_multiplicative_negative (T : Traits 1 F) (hm : T.minimizing 0 = true) (a b : Fin 1 → F)
    (hab : a 0 < b 0) (hb : b 0 < 0) :
    ∃ v, epsSets (mulEps T) [a] [b] = some v ∧ 1 < v ∧ WeaklyDominates T.minimizing a b := by
  refine ⟨a 0 / b 0, ?_, ?_, ?_⟩
  · have hne : ¬ a 0 * b 0 ≤ 0 := not_le.2 (mul_pos_of_neg_of_neg (hab.trans hb) hb)
    simp [epsSets, pickLoop, mulEps, List.finRange_succ, hne, hm]
  · rw [lt_div_iff_of_neg hb, one_mul]; exact hab
  · intro k; rw [Subsingleton.elim k 0, hm]; exact hab.le

/-! ## C44 -/

private theorem foldl_count {V : Type} (p : V → Bool) (l : List V) (c : Nat) :
    l.foldl (fun c a => if p a then c + 1 else c) c = c + l.countP p := by
  induction l generalizing c with
  | nil => simp
  | cons a l ih =>
    rw [List.foldl_cons, ih, List.countP_cons]
    by_cases h : p a = true <;> simp [h]; omega

theorem cardC_eq (T : Traits n F) (s1 s2 : List (Fin n → F)) :
    cardC T s1 s2 = s1.countP fun a => s2.any (eqCmp T a) := by
  unfold cardC cardRel; rw [foldl_count]; simp

theorem cardW_eq (T : Traits n F) (s1 s2 : List (Fin n → F)) :
    cardW T s1 s2 = s1.countP fun a => s2.any fun b => paretoCmp T b a := by
  unfold cardW cardRel; rw [foldl_count]; simp

theorem cardN_eq (T : Traits n F) (s1 s2 : List (Fin n → F)) :
    cardN T s1 s2 = s1.countP fun a => !s2.any fun b => paretoCmp T b a || paretoCmp T a b := by
  unfold cardN
  have : ∀ (l : List (Fin n → F)) (c : Nat) (p : (Fin n → F) → Bool),
      l.foldl (fun c a => if p a then c else c + 1) c = c + l.countP fun a => !p a := by
    intro l
    induction l with
    | nil => intro c p; simp
    | cons a l ih =>
      intro c p
      rw [List.foldl_cons, ih, List.countP_cons]
      by_cases h : p a = true <;> simp [h]; omega
  rw [this]; simp

theorem cardC_comm (T : Traits n F) (h0 : T.tol = 0) (s1 s2 : List (Fin n → F)) (h1 : s1.Nodup)
    (h2 : s2.Nodup) : cardC T s1 s2 = cardC T s2 s1 := by
  have heq : ∀ a b : Fin n → F, eqCmp T a b = true ↔ a = b := by
    intro a b
    unfold eqCmp
    rw [eqLoop_iff]
    simp only [List.mem_finRange, true_implies, h0, abs_nonpos_iff, sub_eq_zero]
    exact ⟨fun h => funext h, fun h i => by rw [h]⟩
  have hany : ∀ a (s : List (Fin n → F)), s.any (eqCmp T a) = true ↔ a ∈ s := by
    intro a s
    rw [List.any_eq_true]
    constructor
    · rintro ⟨b, hb, he⟩; rw [(heq a b).1 he]; exact hb
    · intro h; exact ⟨a, h, (heq a a).2 rfl⟩
  rw [cardC_eq, cardC_eq, List.countP_eq_length_filter, List.countP_eq_length_filter]
  have p : (s1.filter fun a => s2.any (eqCmp T a)).Perm (s2.filter fun a => s1.any (eqCmp T a)) := by
    rw [List.perm_ext_iff_of_nodup (h1.filter _) (h2.filter _)]
    intro a
    rw [List.mem_filter, List.mem_filter, hany, hany]
    exact and_comm
  exact p.length_eq

/-- Not both empty: some vector of one of the sets is dominated by nothing, so the denominator is
positive. -/
theorem contribution_den_pos (T : Traits n F) (h0 : T.tol = 0) (s1 s2 : List (Fin n → F))
    (hne : s1 ++ s2 ≠ []) : 0 < cardW T s1 s2 + cardN T s1 s2 + cardW T s2 s1 + cardN T s2 s1 := by
  -- a vector dominated by none of the union
  have hmax : ∀ l : List (Fin n → F), l ≠ [] → ∃ a ∈ l, ∀ b ∈ l, paretoCmp T a b = false := by
    intro l
    induction l with
    | nil => intro h; exact absurd rfl h
    | cons x l ih =>
      intro _
      by_cases hl : l = []
      · subst hl
        exact ⟨x, by simp, by intro b hb; simp at hb; subst hb; exact (C31_asymmetric T h0.ge b b).1⟩
      · obtain ⟨a, ha, hab⟩ := ih hl
        by_cases hx : paretoCmp T a x = true
        · refine ⟨x, by simp, ?_⟩
          intro b hb
          rcases List.mem_cons.1 hb with rfl | hb
          · exact (C31_asymmetric T h0.ge b b).1
          · by_contra hc
            have := C31_transitive T h0 a x b hx (by simpa using hc)
            rw [hab b hb] at this; simp at this
        · refine ⟨a, by simp [ha], ?_⟩
          intro b hb
          rcases List.mem_cons.1 hb with rfl | hb
          · simpa using hx
          · exact hab b hb
  obtain ⟨a, ha, hdom⟩ := hmax _ hne
  -- it counts in W or in N of its set
  have key : ∀ s t : List (Fin n → F), a ∈ s → (∀ b ∈ t, paretoCmp T a b = false) →
      0 < cardW T s t + cardN T s t := by
    intro s t has hat
    by_cases hw : t.any (fun b => paretoCmp T b a) = true
    · have : 0 < cardW T s t := by
        rw [cardW_eq, List.countP_pos_iff]; exact ⟨a, has, hw⟩
      omega
    · have : 0 < cardN T s t := by
        rw [cardN_eq, List.countP_pos_iff]
        refine ⟨a, has, ?_⟩
        simp only [Bool.not_eq_true', List.any_eq_false, Bool.or_eq_true, not_or]
        intro b hb
        refine ⟨?_, by simp [hat b hb]⟩
        intro hc
        exact hw (List.any_eq_true.2 ⟨b, hb, hc⟩)
      omega
  rcases List.mem_append.1 ha with ha | ha
  · have := key s1 s2 ha (fun b hb => hdom b (by simp [hb])); omega
  · have := key s2 s1 ha (fun b hb => hdom b (by simp [hb])); omega

/-- For duplicate-free sets, not both empty, the two contributions exist, lie in [0,1] and sum to 1. -/
theorem C44_contribution (T : Traits n F) (h0 : T.tol = 0) (s1 s2 : List (Fin n → F)) (h1 : s1.Nodup)
    (h2 : s2.Nodup) (hne : s1 ++ s2 ≠ []) :
    ∃ x y, contribution T s1 s2 = some x ∧ contribution T s2 s1 = some y ∧ x + y = 1 ∧ 0 ≤ x ∧ 0 ≤ y := by
  have hpos := contribution_den_pos T h0 s1 s2 hne
  have hc := cardC_comm T h0 s1 s2 h1 h2
  unfold contribution
  simp only
  rw [if_neg (by omega), if_neg (by omega)]
  refine ⟨_, _, rfl, rfl, ?_, ?_, ?_⟩
  · rw [← hc]
    set c := cardC T s1 s2
    set w1 := cardW T s1 s2
    set n1 := cardN T s1 s2
    set w2 := cardW T s2 s1
    set n2 := cardN T s2 s1
    have hD : ((c + w1 + n1 + w2 + n2 : Nat) : F) ≠ 0 := by
      have : (0 : F) < ((c + w1 + n1 + w2 + n2 : Nat) : F) := by exact_mod_cast (by omega)
      exact this.ne'
    have hD2 : ((c + w2 + n2 + w1 + n1 : Nat) : F) = ((c + w1 + n1 + w2 + n2 : Nat) : F) := by
      push_cast; ring
    rw [hD2, ← add_div, div_eq_one_iff_eq hD]
    push_cast; ring
  · positivity
  · positivity

example : contribution (⟨![true, true], 0⟩ : Traits 2 ℚ) [![1, 4], ![3, 3]] [![2, 5], ![3, 3], ![5, 1]] =
    some (1/2) := by decide +kernel

/-- A set against itself plus a further non-dominated vector: the common vectors are counted a second
time as incomparable, so the result is 5/8 where the published indicator has 3/4. -/
example : contribution (⟨![true, true], 0⟩ : Traits 2 ℚ) [![1, 4], ![4, 1]] [![1, 4]] = some (5/8) := by
  decide +kernel

/-- Common vectors that no vector of the other set dominates, nor is dominated by, are also counted as
incomparable in both sets. -/
theorem C44_common_counted_again (T : Traits n F) (h0 : T.tol = 0) (s : List (Fin n → F))
    (hs : ∀ a ∈ s, ∀ b ∈ s, paretoCmp T a b = false) :
    cardC T s s = s.length ∧ cardN T s s = s.length := by
  constructor
  · rw [cardC_eq, List.countP_eq_length]
    intro a ha
    rw [List.any_eq_true]
    refine ⟨a, ha, ?_⟩
    unfold eqCmp; rw [eqLoop_iff]; simp [h0]
  · rw [cardN_eq, List.countP_eq_length]
    intro a ha
    simp only [Bool.not_eq_true', List.any_eq_false, Bool.or_eq_true, not_or]
    intro b hb
    simp [hs a ha b hb, hs b hb a ha]

end Eps

/-! ## C72 -/

section HV
variable {F : Type} [Field F] [LinearOrder F] [IsStrictOrderedRing F]

/-- Volume, in units of the stretched box, of the part of the box that is at least `a` on objectives
`0..k`. -/
def above (rho : F) (B : Nat → Bnd F) (a : Nat → F) (k : Nat) : F :=
  ∏ i ∈ Finset.range (k + 1), ((B i).lo + rho * (B i).range - a i) / (rho * (B i).range)

theorem hvRec_true (rho : F) (B : Nat → Bnd F) (a b : Nat → F) (hr : ∀ i, 0 < rho * (B i).range)
    (ha : ∀ i, a i ≤ (B i).lo + rho * (B i).range) (k : Nat) : hvRec rho B a b k true = above rho B a k := by
  induction k with
  | zero =>
    unfold hvRec above
    simp only [if_true, zero_add, Finset.prod_range_one]
    by_cases h : a 0 < (B 0).lo + rho * (B 0).range
    · rw [if_pos h]
    · rw [if_neg h, le_antisymm (ha 0) (not_lt.1 h)]; simp
  | succ k ih =>
    unfold hvRec
    simp only [if_true]
    unfold above at ih ⊢
    rw [Finset.prod_range_succ, ← ih]
    by_cases h : a (k + 1) < (B (k + 1)).lo + rho * (B (k + 1)).range
    · rw [if_pos h]; simp; ring
    · rw [if_neg h, le_antisymm (ha (k + 1)) (not_lt.1 h)]; simp

/-- The recursion computes the volume above `a` but not above `b`: volume above `a` minus volume above
both. -/
theorem C72_exclusive_volume (rho : F) (B : Nat → Bnd F) (a b : Nat → F) (hr : ∀ i, 0 < rho * (B i).range)
    (ha : ∀ i, a i ≤ (B i).lo + rho * (B i).range) (k : Nat) :
    hvRec rho B a b k false = above rho B a k - above rho B (fun i => max (a i) (b i)) k := by
  induction k with
  | zero =>
    unfold hvRec above
    simp only [Bool.false_eq_true, if_false, zero_add, Finset.prod_range_one]
    by_cases h : a 0 < b 0
    · rw [if_pos h, max_eq_right h.le]; ring
    · rw [if_neg h, max_eq_left (not_lt.1 h)]; ring
  | succ k ih =>
    unfold hvRec
    simp only [Bool.false_eq_true, if_false]
    rw [hvRec_true rho B a b hr ha k, ih]
    have e : ∀ c : Nat → F, above rho B c (k + 1) = above rho B c k *
        (((B (k + 1)).lo + rho * (B (k + 1)).range - c (k + 1)) / (rho * (B (k + 1)).range)) := by
      intro c; unfold above; rw [Finset.prod_range_succ]
    rw [e, e]
    by_cases h : a (k + 1) < b (k + 1)
    · simp only [if_pos h, max_eq_right h.le]; ring
    · simp only [if_neg h, max_eq_left (not_lt.1 h)]; ring

/-- Vector with the maximised objectives mirrored in their interval, so that smaller is better. -/
def mirrored (m : Nat → Bool) (B : Nat → Bnd F) (o : Nat → F) (i : Nat) : F :=
  bif m i then (B i).lo + (B i).hi - o i else o i

/-- The indicator of two vectors of the box: minus the volume dominated by the first only when the first
dominates the second, else the volume dominated by the second only (rho ≥ 1). -/
theorem C72_indicator (rho : F) (hrho : 1 ≤ rho) (B : Nat → Bnd F) (hB : ∀ i, 0 < (B i).range)
    (m : Nat → Bool) (a b : Nat → F) (ha : ∀ i, (B i).lo ≤ a i ∧ a i ≤ (B i).hi)
    (hb : ∀ i, (B i).lo ≤ b i ∧ b i ≤ (B i).hi) (n : Nat) :
    hvBinary rho B m true a b n = -(above rho B (mirrored m B a) n -
      above rho B (fun i => max (mirrored m B a i) (mirrored m B b i)) n) ∧
    hvBinary rho B m false a b n = above rho B (mirrored m B b) n -
      above rho B (fun i => max (mirrored m B b i) (mirrored m B a i)) n := by
  have hr : ∀ i, 0 < rho * (B i).range := fun i => mul_pos (lt_of_lt_of_le one_pos hrho) (hB i)
  have hub : ∀ i, (B i).hi ≤ (B i).lo + rho * (B i).range := by
    intro i
    have : (B i).hi = (B i).lo + (B i).range := by unfold Bnd.range; ring
    rw [this]
    nlinarith [hB i]
  have hf : ∀ o, flip m B o = mirrored m B o := by
    intro o; funext i; unfold flip mirrored; cases m i <;> simp; ring
  have hle : ∀ o : Nat → F, (∀ i, (B i).lo ≤ o i ∧ o i ≤ (B i).hi) → ∀ i,
      mirrored m B o i ≤ (B i).lo + rho * (B i).range := by
    intro o ho i
    refine le_trans ?_ (hub i)
    unfold mirrored
    cases m i
    · exact (ho i).2
    · simp only [cond_true]; linarith [(ho i).1]
  unfold hvBinary
  simp only [Bool.false_eq_true, if_false, if_true, hf]
  exact ⟨by rw [C72_exclusive_volume rho B _ _ hr (hle a ha)], C72_exclusive_volume rho B _ _ hr (hle b hb) n⟩

/-- Sign: the indicator is negative when the first vector dominates the second, and non-negative
otherwise. -/
theorem C72_sign (rho : F) (hrho : 1 < rho) (B : Nat → Bnd F) (hB : ∀ i, 0 < (B i).range)
    (m : Nat → Bool) (a b : Nat → F) (ha : ∀ i, (B i).lo ≤ a i ∧ a i ≤ (B i).hi)
    (hb : ∀ i, (B i).lo ≤ b i ∧ b i ≤ (B i).hi) (n : Nat) :
    ((∀ i ≤ n, NoWorse (!m i) (a i) (b i)) → (∃ i ≤ n, a i ≠ b i) → hvBinary rho B m true a b n < 0) ∧
    0 ≤ hvBinary rho B m false a b n := by
  have hr : ∀ i, 0 < rho * (B i).range := fun i => mul_pos (one_pos.trans hrho) (hB i)
  have hub : ∀ i, (B i).hi < (B i).lo + rho * (B i).range := by
    intro i
    have : (B i).hi = (B i).lo + (B i).range := by unfold Bnd.range; ring
    rw [this]
    nlinarith [hB i]
  have hm : ∀ o : Nat → F, (∀ i, (B i).lo ≤ o i ∧ o i ≤ (B i).hi) → ∀ i, mirrored m B o i ≤ (B i).hi := by
    intro o ho i
    unfold mirrored
    cases m i
    · exact (ho i).2
    · simp only [cond_true]; linarith [(ho i).1]
  have hpos : ∀ c : Nat → F, (∀ i, c i ≤ (B i).hi) → ∀ i,
      0 < ((B i).lo + rho * (B i).range - c i) / (rho * (B i).range) := by
    intro c hc i
    exact div_pos (sub_pos.2 (lt_of_le_of_lt (hc i) (hub i))) (hr i)
  obtain ⟨e1, e2⟩ := C72_indicator rho hrho.le B hB m a b ha hb n
  constructor
  · rintro hle ⟨i, hi, hne⟩
    rw [e1, neg_lt_zero, sub_pos]
    unfold above
    apply Finset.prod_lt_prod
    · intro j _; exact hpos _ (fun i => max_le (hm a ha i) (hm b hb i)) j
    · intro j _
      apply div_le_div_of_nonneg_right _ (hr j).le
      have := le_max_left (mirrored m B a j) (mirrored m B b j)
      linarith
    · refine ⟨i, Finset.mem_range.2 (by omega), ?_⟩
      apply div_lt_div_of_pos_right _ (hr i)
      have hlt : mirrored m B a i < mirrored m B b i := by
        have := hle i hi
        unfold mirrored
        cases hmi : m i
        · simp only [cond_false]; simp [hmi, NoWorse] at this; exact lt_of_le_of_ne this hne
        · simp only [cond_true]; simp [hmi, NoWorse] at this
          have := lt_of_le_of_ne this (Ne.symm hne); linarith
      simp only [max_eq_right hlt.le]
      linarith
  · rw [e2, sub_nonneg]
    unfold above
    apply Finset.prod_le_prod
    · intro j _; exact (hpos _ (fun i => max_le (hm b hb i) (hm a ha i)) j).le
    · intro j _
      apply div_le_div_of_nonneg_right _ (hr j).le
      have := le_max_left (mirrored m B b j) (mirrored m B a j)
      linarith

example : hvBinary (2 : ℚ) (fun _ => ⟨0, 1⟩) (fun _ => false) false (fun i => if i = 0 then 0 else 1)
    (fun i => if i = 0 then 1 else 0) 1 = 1/4 := by decide +kernel

end HV

end Paradiseo.Moeo
