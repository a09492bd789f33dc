import Verif.Model.Scalar
/-
C184: the normaliser.  C185: functions making one number of an objective vector.
-/
namespace Paradiseo.Scalar

variable {K : Type} [Field K] [LinearOrder K] [IsStrictOrderedRing K]

/-! ### C184 -/

theorem fold_low (i : Nat) (l : List (Vec K)) (a : K) :
    l.foldl (fun a w => if w i < a then w i else a) a ≤ a ∧
    (∀ w ∈ l, l.foldl (fun a w => if w i < a then w i else a) a ≤ w i) ∧
    (l.foldl (fun a w => if w i < a then w i else a) a = a ∨
      ∃ w ∈ l, l.foldl (fun a w => if w i < a then w i else a) a = w i) := by
  induction l generalizing a with
  | nil => exact ⟨le_refl _, (fun w hw => nomatch hw), Or.inl rfl⟩
  | cons v l ih =>
    rw [List.foldl_cons]
    obtain ⟨h1, h2, h3⟩ := ih (if v i < a then v i else a)
    have ha : (if v i < a then v i else a) ≤ a := by split <;> [exact le_of_lt (by assumption); exact le_refl _]
    have hv : (if v i < a then v i else a) ≤ v i := by
      split
      · exact le_refl _
      · exact not_lt.1 (by assumption)
    refine ⟨h1.trans ha, ?_, ?_⟩
    · intro w hw
      rcases List.mem_cons.1 hw with rfl | hw
      · exact h1.trans hv
      · exact h2 w hw
    · rcases h3 with h | ⟨w, hw, h⟩
      · rw [h]
        split
        · exact Or.inr ⟨v, by simp, rfl⟩
        · exact Or.inl rfl
      · exact Or.inr ⟨w, by simp [hw], h⟩

theorem fold_high (i : Nat) (l : List (Vec K)) (a : K) :
    a ≤ l.foldl (fun a w => if a < w i then w i else a) a ∧
    (∀ w ∈ l, w i ≤ l.foldl (fun a w => if a < w i then w i else a) a) ∧
    (l.foldl (fun a w => if a < w i then w i else a) a = a ∨
      ∃ w ∈ l, l.foldl (fun a w => if a < w i then w i else a) a = w i) := by
  induction l generalizing a with
  | nil => exact ⟨le_refl _, (fun w hw => nomatch hw), Or.inl rfl⟩
  | cons v l ih =>
    rw [List.foldl_cons]
    obtain ⟨h1, h2, h3⟩ := ih (if a < v i then v i else a)
    have ha : a ≤ (if a < v i then v i else a) := by split <;> [exact le_of_lt (by assumption); exact le_refl _]
    have hv : v i ≤ (if a < v i then v i else a) := by
      split
      · exact le_refl _
      · exact not_lt.1 (by assumption)
    refine ⟨ha.trans h1, ?_, ?_⟩
    · intro w hw
      rcases List.mem_cons.1 hw with rfl | hw
      · exact hv.trans h1
      · exact h2 w hw
    · rcases h3 with h | ⟨w, hw, h⟩
      · rw [h]
        split
        · exact Or.inr ⟨v, by simp, rfl⟩
        · exact Or.inl rfl
      · exact Or.inr ⟨w, by simp [hw], h⟩

theorem lowest_spec (i : Nat) (v : Vec K) (l : List (Vec K)) :
    (∀ w ∈ v :: l, lowest i v l ≤ w i) ∧ ∃ w ∈ v :: l, lowest i v l = w i := by
  obtain ⟨_, h2, h3⟩ := fold_low i (v :: l) (v i)
  exact ⟨h2, h3.elim (fun h => ⟨v, by simp, h⟩) id⟩

theorem highest_spec (i : Nat) (v : Vec K) (l : List (Vec K)) :
    (∀ w ∈ v :: l, w i ≤ highest i v l) ∧ ∃ w ∈ v :: l, highest i v l = w i := by
  obtain ⟨_, h2, h3⟩ := fold_high i (v :: l) (v i)
  exact ⟨h2, h3.elim (fun h => ⟨v, by simp, h⟩) id⟩

theorem amp_nonneg (v : Vec K) (l : List (Vec K)) (i : Nat) : 0 ≤ amp v l i :=
  sub_nonneg.2 (((lowest_spec i v l).1 v (by simp)).trans ((highest_spec i v l).1 v (by simp)))

theorem ampIdx_spec (v : Vec K) (l : List (Vec K)) (m : Nat) (i : Nat) (hi : i < m) :
    amp v l i ≤ amp v l (ampIdx v l m) := by
  have key : ∀ (js : List Nat) (k : Nat), amp v l k ≤ amp v l (js.foldl (fun k i => if amp v l k < amp v l i then i else k) k) ∧
      ∀ j ∈ js, amp v l j ≤ amp v l (js.foldl (fun k i => if amp v l k < amp v l i then i else k) k) := by
    intro js
    induction js with
    | nil => intro k; exact ⟨le_refl _, (fun j hj => nomatch hj)⟩
    | cons j js ih =>
      intro k
      rw [List.foldl_cons]
      obtain ⟨h1, h2⟩ := ih (if amp v l k < amp v l j then j else k)
      refine ⟨?_, ?_⟩
      · refine le_trans ?_ h1
        split
        · exact le_of_lt (by assumption)
        · exact le_refl _
      · intro j' hj'
        rcases List.mem_cons.1 hj' with rfl | hj'
        · refine le_trans ?_ h1
          split
          · exact le_refl _
          · exact not_lt.1 (by assumption)
        · exact h2 j' hj'
  exact (key (List.range m) 0).2 i (List.mem_range.2 hi)

/-- The greatest amplitude of the objectives. -/
def IsMaxAmp (v : Vec K) (l : List (Vec K)) (m : Nat) (a : K) : Prop :=
  (∀ i < m, ∀ x ∈ v :: l, ∀ y ∈ v :: l, x i - y i ≤ a) ∧ ∃ i < m, ∃ x ∈ v :: l, ∃ y ∈ v :: l, x i - y i = a

/-- **C184** (from a population).  With a positive maximum, each objective that is not constant in the population
is mapped onto [0, max] and both ends are taken; a constant one is mapped to 0.  With maximum 0 the same holds
with the greatest amplitude in place of the maximum. -/
theorem C184_from_pop (m : Nat) (mx : K) (hmx : 0 ≤ mx) (v : Vec K) (l : List (Vec K)) (i : Nat) (hi : i < m) :
    ∃ top, (mx ≠ 0 → top = mx) ∧ (mx = 0 → IsMaxAmp v l m top) ∧
    (∀ x ∈ v :: l, 0 ≤ (fromPop m mx v l).apply x i ∧ (fromPop m mx v l).apply x i ≤ top) ∧
    (∃ x ∈ v :: l, (fromPop m mx v l).apply x i = 0) ∧
    ((∃ x ∈ v :: l, ∃ y ∈ v :: l, x i ≠ y i) → ∃ x ∈ v :: l, (fromPop m mx v l).apply x i = top) ∧
    ((∀ x ∈ v :: l, ∀ y ∈ v :: l, x i = y i) → ∀ x ∈ v :: l, (fromPop m mx v l).apply x i = 0) := by
  obtain ⟨l1, wl, hwl, l2⟩ := lowest_spec i v l
  obtain ⟨h1, wh, hwh, h2⟩ := highest_spec i v l
  have happ : ∀ x : Vec K, (fromPop m mx v l).apply x i = (x i - lowest i v l) *
      (if amp v l i = 0 then 1 else if mx = 0 then amp v l (ampIdx v l m) / amp v l i else mx / amp v l i) := fun _ => rfl
  have htop : 0 ≤ (if mx = 0 then amp v l (ampIdx v l m) else mx) := by
    split
    · exact amp_nonneg v l _
    · exact hmx
  refine ⟨if mx = 0 then amp v l (ampIdx v l m) else mx, fun h => if_neg h, ?_, ?_, ?_, ?_, ?_⟩
  · intro h
    rw [if_pos h]
    refine ⟨?_, ?_⟩
    · intro j hj x hx y hy
      refine le_trans ?_ (ampIdx_spec v l m j hj)
      exact sub_le_sub ((highest_spec j v l).1 x hx) ((lowest_spec j v l).1 y hy)
    · have hidx : ampIdx v l m < m := by
        have key : ∀ (js : List Nat) (k : Nat), k < m → (∀ j ∈ js, j < m) →
            js.foldl (fun k i => if amp v l k < amp v l i then i else k) k < m := by
          intro js
          induction js with
          | nil => intro k hk _; exact hk
          | cons j js ih =>
            intro k hk hjs
            rw [List.foldl_cons]
            apply ih _ _ fun j hj => hjs j (by simp [hj])
            split
            · exact hjs j (by simp)
            · exact hk
        exact key (List.range m) 0 (by omega) fun j hj => List.mem_range.1 hj
      obtain ⟨_, x, hx, ex⟩ := highest_spec (ampIdx v l m) v l
      obtain ⟨_, y, hy, ey⟩ := lowest_spec (ampIdx v l m) v l
      exact ⟨_, hidx, x, hx, y, hy, by rw [← ex, ← ey]; rfl⟩
  · intro x hx
    rw [happ]
    have hx0 : 0 ≤ x i - lowest i v l := sub_nonneg.2 (l1 x hx)
    by_cases ha : amp v l i = 0
    · have : x i - lowest i v l = 0 := by
        have h3 : x i - lowest i v l ≤ amp v l i := sub_le_sub_right (h1 x hx) _
        rw [ha] at h3
        exact le_antisymm h3 hx0
      rw [this, zero_mul]
      exact ⟨le_refl _, htop⟩
    · have hap : 0 < amp v l i := lt_of_le_of_ne (amp_nonneg v l i) (Ne.symm ha)
      have hle : x i - lowest i v l ≤ amp v l i := sub_le_sub_right (h1 x hx) _
      have hc : (if mx = 0 then amp v l (ampIdx v l m) / amp v l i else mx / amp v l i) =
          (if mx = 0 then amp v l (ampIdx v l m) else mx) / amp v l i := by split <;> rfl
      rw [if_neg ha, hc]
      refine ⟨mul_nonneg hx0 (div_nonneg htop hap.le), ?_⟩
      rw [mul_div_assoc', div_le_iff₀ hap, mul_comm]
      exact mul_le_mul_of_nonneg_left hle htop
  · refine ⟨wl, hwl, ?_⟩
    rw [happ, ← l2, sub_self, zero_mul]
  · rintro ⟨x, hx, y, hy, hne⟩
    refine ⟨wh, hwh, ?_⟩
    have ha : amp v l i ≠ 0 := by
      intro ha
      have e : highest i v l = lowest i v l := sub_eq_zero.1 ha
      apply hne
      have a1 := h1 x hx
      have a2 := l1 x hx
      have a3 := h1 y hy
      have a4 := l1 y hy
      rw [e] at a1 a3
      rw [le_antisymm a1 a2, le_antisymm a3 a4]
    rw [happ, if_neg ha, ← h2]
    have : highest i v l - lowest i v l = amp v l i := rfl
    rw [this]
    split
    · rw [mul_div_cancel₀ _ ha]
    · rw [mul_div_cancel₀ _ ha]
  · intro h x hx
    rw [happ, l2, h x hx wl hwl, sub_self, zero_mul]

/-- **C184** (order).  A normaliser made of a population with a positive maximum, or of bounds or of a best and a
worst vector in ascending order, keeps the order of the values of every objective. -/
theorem C184_order (n : Norm K) (i : Nat)
    (h : (∃ m mx v l, 0 < mx ∧ n = fromPop m mx v l) ∨ (∃ mx lo hi, 0 < mx ∧ lo i < hi i ∧ n = fromBounds mx lo hi) ∨
      ∃ mx b w, 0 < mx ∧ b i < w i ∧ n = fromMinMax mx b w) (x y : Vec K) :
    x i ≤ y i ↔ n.apply x i ≤ n.apply y i := by
  have hc : 0 < (n.scale i).1 := by
    rcases h with ⟨m, mx, v, l, hmx, rfl⟩ | ⟨mx, lo, hi, hmx, hb, rfl⟩ | ⟨mx, b, w, hmx, hb, rfl⟩
    · show 0 < (if amp v l i = 0 then 1 else if mx = 0 then amp v l (ampIdx v l m) / amp v l i else mx / amp v l i)
      split
      · exact one_pos
      · rename_i ha
        rw [if_neg hmx.ne']
        exact div_pos hmx (lt_of_le_of_ne (amp_nonneg v l i) (Ne.symm ha))
    · exact div_pos hmx (sub_pos.2 hb)
    · exact div_pos hmx (sub_pos.2 hb)
  unfold Norm.apply
  rw [mul_le_mul_iff_left₀ hc, sub_le_sub_iff_right]

/-- **C184** (best and worst).  The best value goes to 0 and the worst to the maximum, also when better is
greater: then the order is reversed. -/
theorem C184_minmax (mx : K) (hmx : 0 < mx) (b w : Vec K) (i : Nat) (hne : b i ≠ w i) :
    (fromMinMax mx b w).apply b i = 0 ∧ (fromMinMax mx b w).apply w i = mx ∧
    (w i < b i → ∀ x y : Vec K, x i ≤ y i ↔ (fromMinMax mx b w).apply y i ≤ (fromMinMax mx b w).apply x i) := by
  have hd : w i - b i ≠ 0 := sub_ne_zero.2 (Ne.symm hne)
  refine ⟨?_, ?_, ?_⟩
  · simp [Norm.apply, fromMinMax, scaleFromMinMax]
  · show (w i - b i) * (mx / (w i - b i)) = mx
    rw [mul_div_cancel₀ _ hd]
  · intro hlt x y
    have hc : mx / (w i - b i) < 0 := div_neg_of_pos_of_neg hmx (sub_neg.2 hlt)
    show x i ≤ y i ↔ (y i - b i) * (mx / (w i - b i)) ≤ (x i - b i) * (mx / (w i - b i))
    constructor
    · intro h
      exact mul_le_mul_of_nonpos_right (sub_le_sub_right h _) hc.le
    · intro h
      by_contra hgt
      have := mul_lt_mul_of_neg_right (sub_lt_sub_right (not_le.1 hgt) (b i)) hc
      exact absurd h (not_le.2 this)

/-- **C184** (changing the maximum).  After `change_max` a normaliser made of a population is the one made with
the new maximum, for the objectives that are not constant. -/
theorem C184_change_max (m : Nat) (mx mx' : K) (hmx : mx ≠ 0) (hmx' : mx' ≠ 0) (v : Vec K) (l : List (Vec K)) (i : Nat)
    (hv : ∃ x ∈ v :: l, ∃ y ∈ v :: l, x i ≠ y i) (x : Vec K) :
    ((fromPop m mx v l).changeMax mx').apply x i = (fromPop m mx' v l).apply x i := by
  have ha : amp v l i ≠ 0 := by
    intro ha
    obtain ⟨x, hx, y, hy, hne⟩ := hv
    have e : highest i v l = lowest i v l := sub_eq_zero.1 ha
    apply hne
    have a1 := (highest_spec i v l).1 x hx
    have a2 := (lowest_spec i v l).1 x hx
    have a3 := (highest_spec i v l).1 y hy
    have a4 := (lowest_spec i v l).1 y hy
    rw [e] at a1 a3
    rw [le_antisymm a1 a2, le_antisymm a3 a4]
  simp only [Norm.apply, Norm.changeMax, fromPop, scaleFromPop, hmx, hmx', ha, if_false]
  congr 1
  field_simp

/-- **C184** (new bounds).  After `update_by_bounds` the upper bound goes to 100 whatever the maximum; changing
the maximum then scales by the old one, so the upper bound goes to 100 times the ratio. -/
theorem C184_update_bounds (n : Norm K) (lo hi : Vec K) (i : Nat) (h : lo i < hi i) (mx : K) :
    (n.updateByBounds lo hi).apply hi i = 100 ∧ (n.updateByBounds lo hi).max = n.max ∧
    (n.max ≠ 0 → ((n.updateByBounds lo hi).changeMax mx).apply hi i = 100 * mx / n.max) := by
  have hd : hi i - lo i ≠ 0 := sub_ne_zero.2 h.ne'
  refine ⟨?_, rfl, ?_⟩
  · show (hi i - lo i) * (100 / (hi i - lo i)) = 100
    rw [mul_div_cancel₀ _ hd]
  · intro hm
    have hm' : (n.updateByBounds lo hi).max ≠ 0 := hm
    simp only [Norm.apply, Norm.changeMax, hm', if_false]
    simp only [Norm.updateByBounds, scaleFromBounds]
    field_simp

example : let n : Norm ℚ := fromBounds 1 (fun _ => 0) (fun _ => 10)
    n.apply (fun _ => 10) 0 = 1 ∧ (n.updateByBounds (fun _ => 0) (fun _ => 20)).apply (fun _ => 20) 0 = 100 := by
  norm_num [fromBounds, scaleFromBounds, Norm.apply, Norm.updateByBounds]

/-- **C184** (a new population).  After `update_by_pop` the normaliser, whatever it was made of, maps the objectives
of the new population onto the range up to its maximum, which is kept. -/
theorem C184_update_pop (m : Nat) (n : Norm K) (hmx : 0 < n.max) (v : Vec K) (l : List (Vec K)) (i : Nat) (hi : i < m) :
    (n.updateByPop m v l).max = n.max ∧
    (∀ x ∈ v :: l, 0 ≤ (n.updateByPop m v l).apply x i ∧ (n.updateByPop m v l).apply x i ≤ n.max) ∧
    (∃ x ∈ v :: l, (n.updateByPop m v l).apply x i = 0) ∧
    ((∃ x ∈ v :: l, ∃ y ∈ v :: l, x i ≠ y i) → ∃ x ∈ v :: l, (n.updateByPop m v l).apply x i = n.max) := by
  obtain ⟨top, h1, _, h2, h3, h4, _⟩ := C184_from_pop m n.max hmx.le v l i hi
  have ht := h1 hmx.ne'
  subst ht
  exact ⟨rfl, h2, h3, h4⟩

/-- **C184** (a new best and worst).  After `update_by_min_max` the best goes to 0 and the worst to the maximum. -/
theorem C184_update_minmax (n : Norm K) (hmx : 0 < n.max) (b w : Vec K) (i : Nat) (hne : b i ≠ w i) :
    (n.updateByMinMax b w).max = n.max ∧ (n.updateByMinMax b w).apply b i = 0 ∧
    (n.updateByMinMax b w).apply w i = n.max :=
  ⟨rfl, (C184_minmax n.max hmx b w i hne).1, (C184_minmax n.max hmx b w i hne).2.1⟩

example : let n : Norm ℚ := (fromBounds 1 (fun _ => 0) (fun _ => 10)).updateByPop 1 (fun _ => 30) [fun _ => 50]
    n.apply (fun _ => 30) 0 = 0 ∧ n.apply (fun _ => 50) 0 = 1 := by
  norm_num [fromBounds, scaleFromPop, Norm.apply, Norm.updateByPop, amp, lowest, highest]

/-! ### C185 -/

/-- `a` is at least as good as `b` on every objective. -/
def Better (m : Nat) (mini : Nat → Bool) (a b : Vec K) : Prop :=
  ∀ i < m, if mini i then a i ≤ b i else b i ≤ a i

/-- `a` is better than `b` on objective `i`. -/
def Strict (mini : Nat → Bool) (i : Nat) (a b : Vec K) : Prop := if mini i then a i < b i else b i < a i

theorem foldl_le {ι : Type} (l : List ι) (f g : K → ι → K) (a b : K) (hab : a ≤ b)
    (h : ∀ i ∈ l, ∀ a b, a ≤ b → f a i ≤ g b i) : l.foldl f a ≤ l.foldl g b := by
  induction l generalizing a b with
  | nil => exact hab
  | cons i l ih => exact ih _ _ (h i (by simp) a b hab) fun j hj => h j (by simp [hj])

theorem foldl_lt {ι : Type} (l : List ι) (f g : K → ι → K) (a b : K) (hab : a ≤ b)
    (h : ∀ i ∈ l, ∀ a b, a ≤ b → f a i ≤ g b i) (h' : ∀ i ∈ l, ∀ a b, a < b → f a i < g b i)
    (k : ι) (hk : k ∈ l) (hs : ∀ a b, a ≤ b → f a k < g b k) : l.foldl f a < l.foldl g b := by
  have lt : ∀ (l : List ι) (a b : K), a < b → (∀ i ∈ l, ∀ a b, a < b → f a i < g b i) → l.foldl f a < l.foldl g b := by
    intro l
    induction l with
    | nil => intro a b h _; exact h
    | cons i l ih => intro a b hab h; exact ih _ _ (h i (by simp) a b hab) fun j hj => h j (by simp [hj])
  induction l generalizing a b with
  | nil => cases hk
  | cons i l ih =>
    rcases List.mem_cons.1 hk with rfl | hk
    · exact lt l _ _ (hs a b hab) fun j hj => h' j (by simp [hj])
    · exact ih _ _ (h i (by simp) a b hab) (fun j hj => h j (by simp [hj])) (fun j hj => h' j (by simp [hj])) hk

/-- **C185** (aggregation).  With weights that are not negative a vector at least as good has a fitness at least
as great; if it is better on an objective with positive weight the fitness is greater. -/
theorem C185_aggregation (m nw : Nat) (hn : m ≤ nw) (mini : Nat → Bool) (w : Vec K) (hw : ∀ i < m, 0 ≤ w i)
    (a b : Vec K) (h : Better m mini a b) :
    aggregation m nw mini w b ≤ aggregation m nw mini w a ∧
    ∀ k < m, 0 < w k → Strict mini k a b → aggregation m nw mini w b < aggregation m nw mini w a := by
  unfold aggregation
  rw [if_neg (by omega), if_neg (by omega)]
  have h1 : ∀ i ∈ List.range m, ∀ x y : K, x ≤ y →
      (if mini i then x - b i * w i else x + b i * w i) ≤ (if mini i then y - a i * w i else y + a i * w i) := by
    intro i hi x y hxy
    have hb := h i (List.mem_range.1 hi)
    have hwi := hw i (List.mem_range.1 hi)
    cases hm : mini i with
    | true =>
      rw [hm] at hb
      simp only [if_true] at hb ⊢
      exact sub_le_sub hxy (mul_le_mul_of_nonneg_right hb hwi)
    | false =>
      rw [hm] at hb
      simp only [Bool.false_eq_true, if_false] at hb ⊢
      exact add_le_add hxy (mul_le_mul_of_nonneg_right hb hwi)
  refine ⟨foldl_le _ _ _ _ _ (le_refl _) h1, ?_⟩
  intro k hk hwk hs
  refine foldl_lt _ _ _ _ _ (le_refl _) h1 ?_ k (List.mem_range.2 hk) ?_
  · intro i hi x y hxy
    have hb := h i (List.mem_range.1 hi)
    have hwi := hw i (List.mem_range.1 hi)
    cases hm : mini i with
    | true =>
      rw [hm] at hb
      simp only [if_true] at hb ⊢
      rw [sub_eq_add_neg, sub_eq_add_neg]
      exact add_lt_add_of_lt_of_le hxy (neg_le_neg (mul_le_mul_of_nonneg_right hb hwi))
    | false =>
      rw [hm] at hb
      simp only [Bool.false_eq_true, if_false] at hb ⊢
      exact add_lt_add_of_lt_of_le hxy (mul_le_mul_of_nonneg_right hb hwi)
  · intro x y hxy
    unfold Strict at hs
    cases hm : mini k with
    | true =>
      rw [hm] at hs
      simp only [if_true] at hs ⊢
      rw [sub_eq_add_neg, sub_eq_add_neg]
      exact add_lt_add_of_le_of_lt hxy (neg_lt_neg (mul_lt_mul_of_pos_right hs hwk))
    | false =>
      rw [hm] at hs
      simp only [Bool.false_eq_true, if_false] at hs ⊢
      exact add_lt_add_of_le_of_lt hxy (mul_lt_mul_of_pos_right hs hwk)

/-- **C185** (best of an aggregation).  With positive weights the best of a set is dominated by no member. -/
theorem C185_aggregation_optimal (m nw : Nat) (hn : m ≤ nw) (mini : Nat → Bool) (w : Vec K) (hw : ∀ i < m, 0 < w i)
    (S : Vec K → Prop) (a : Vec K) (ha : ∀ b, S b → aggregation m nw mini w b ≤ aggregation m nw mini w a)
    (b : Vec K) (hb : S b) (hbet : Better m mini b a) : ∀ k < m, ¬ Strict mini k b a := by
  intro k hk hs
  have := (C185_aggregation m nw hn mini w (fun i hi => (hw i hi).le) b a hbet).2 k hk (hw k hk) hs
  exact absurd (ha b hb) (not_le.2 this)

/-- **C185** (too few weights).  Every vector has the fitness 0. -/
theorem C185_too_few (m nw : Nat) (hn : nw < m) (mini : Nat → Bool) (w v : Vec K) (n : Norm K) (con : Vec K)
    (opt : Nat) : aggregation m nw mini w v = 0 ∧ constraintFit m nw mini w n con opt v = 0 := by
  unfold aggregation constraintFit
  rw [if_pos hn, if_pos hn]
  exact ⟨rfl, rfl⟩

/-- What one objective adds to the fitness with constraints. -/
def term (mini : Nat → Bool) (w : Vec K) (n : Norm K) (con : Vec K) (opt : Nat) (v : Vec K) (l : Nat) : K :=
  if l = opt then (if mini l then - (n.apply v l * w l) else n.apply v l * w l)
  else if mini l then - (max 0 (n.apply v l - n.apply con l) * w l)
  else - (max 0 (n.apply con l - n.apply v l) * w l)

theorem constraintFit_eq (m nw : Nat) (hn : m ≤ nw) (mini : Nat → Bool) (w : Vec K) (n : Norm K) (con : Vec K)
    (opt : Nat) (v : Vec K) : constraintFit m nw mini w n con opt v =
      (List.range m).foldl (fun r l => r + term mini w n con opt v l) 0 := by
  unfold constraintFit
  rw [if_neg (by omega)]
  congr 1
  funext r l
  unfold term
  by_cases h1 : l = opt
  · simp only [h1, if_true]
    split
    · rw [sub_eq_add_neg]
    · rfl
  · simp only [h1, if_false]
    split
    · split
      · rename_i h
        rw [max_eq_right (sub_nonneg.2 h.le), sub_eq_add_neg]
      · rename_i h
        rw [max_eq_left (sub_nonpos.2 (not_lt.1 h)), zero_mul, neg_zero, add_zero]
    · split
      · rename_i h
        rw [max_eq_right (sub_nonneg.2 h.le), ← neg_mul, neg_sub]
      · rename_i h
        rw [max_eq_left (sub_nonpos.2 (not_lt.1 h)), zero_mul, neg_zero, add_zero]

/-- **C185** (constraints).  With an order-keeping normaliser and weights that are not negative a vector at least
as good has a fitness at least as great. -/
theorem C185_constraint (m nw : Nat) (hn : m ≤ nw) (mini : Nat → Bool) (w : Vec K) (hw : ∀ i < m, 0 ≤ w i)
    (n : Norm K) (hnorm : ∀ i < m, ∀ x y : Vec K, x i ≤ y i → n.apply x i ≤ n.apply y i) (con : Vec K) (opt : Nat)
    (a b : Vec K) (h : Better m mini a b) :
    constraintFit m nw mini w n con opt b ≤ constraintFit m nw mini w n con opt a := by
  rw [constraintFit_eq m nw hn, constraintFit_eq m nw hn]
  refine foldl_le _ _ _ _ _ (le_refl _) ?_
  intro i hi x y hxy
  refine add_le_add hxy ?_
  have hi := List.mem_range.1 hi
  have hb := h i hi
  have hwi := hw i hi
  unfold term
  cases hm : mini i with
  | true =>
    rw [hm] at hb
    simp only [if_true] at hb ⊢
    have hab := hnorm i hi a b hb
    split
    · exact neg_le_neg (mul_le_mul_of_nonneg_right hab hwi)
    · exact neg_le_neg (mul_le_mul_of_nonneg_right (max_le_max (le_refl _) (sub_le_sub_right hab _)) hwi)
  | false =>
    rw [hm] at hb
    simp only [Bool.false_eq_true, if_false] at hb ⊢
    have hab := hnorm i hi b a hb
    split
    · exact mul_le_mul_of_nonneg_right hab hwi
    · exact neg_le_neg (mul_le_mul_of_nonneg_right (max_le_max (le_refl _) (sub_le_sub_left hab _)) hwi)

/-- The constraints are met. -/
def Feasible (m : Nat) (mini : Nat → Bool) (n : Norm K) (con : Vec K) (opt : Nat) (v : Vec K) : Prop :=
  ∀ i < m, i ≠ opt → if mini i then n.apply v i ≤ n.apply con i else n.apply con i ≤ n.apply v i

theorem term_feasible {m : Nat} {mini : Nat → Bool} {w : Vec K} {n : Norm K} {con : Vec K} {opt : Nat} {v : Vec K}
    (h : Feasible m mini n con opt v) (i : Nat) (hi : i < m) (hne : i ≠ opt) : term mini w n con opt v i = 0 := by
  have := h i hi hne
  unfold term
  rw [if_neg hne]
  cases hm : mini i with
  | true =>
    rw [hm] at this
    simp only [if_true] at this ⊢
    rw [max_eq_left (sub_nonpos.2 this), zero_mul, neg_zero]
  | false =>
    rw [hm] at this
    simp only [Bool.false_eq_true, if_false] at this ⊢
    rw [max_eq_left (sub_nonpos.2 this), zero_mul, neg_zero]

/-- **C185** (feasible).  If all constraints are met the fitness is the weighted normalised value of the objective
to optimise (its negative if minimised). -/
theorem C185_feasible (m nw : Nat) (hn : m ≤ nw) (mini : Nat → Bool) (w : Vec K) (n : Norm K) (con : Vec K)
    (opt : Nat) (ho : opt < m) (v : Vec K) (hf : Feasible m mini n con opt v) :
    constraintFit m nw mini w n con opt v = (if mini opt then -(n.apply v opt * w opt) else n.apply v opt * w opt) := by
  rw [constraintFit_eq m nw hn]
  have key : ∀ k ≤ m, ∀ (_ : True), (List.range k).foldl (fun r l => r + term mini w n con opt v l) 0 =
      if opt < k then term mini w n con opt v opt else 0 := by
    intro k
    induction k with
    | zero => intro _ _; rfl
    | succ k ih =>
      intro hk _
      rw [List.range_succ, List.foldl_append, ih (by omega) trivial]
      simp only [List.foldl_cons, List.foldl_nil]
      by_cases h1 : opt < k
      · rw [if_pos h1, if_pos (by omega), term_feasible hf k (by omega) (by omega), add_zero]
      · by_cases h2 : k = opt
        · subst h2
          rw [if_neg h1, if_pos (by omega), zero_add]
        · rw [if_neg h1, if_neg (by omega), term_feasible hf k (by omega) h2, add_zero]
  rw [key m (le_refl _) trivial, if_pos ho]
  unfold term
  rw [if_pos rfl]

/-- **C185** (penalty).  A violated constraint with positive weight makes the fitness less than that of a feasible
vector with the same value of the objective to optimise. -/
theorem C185_violation (m nw : Nat) (hn : m ≤ nw) (mini : Nat → Bool) (w : Vec K) (hw : ∀ i < m, 0 ≤ w i) (n : Norm K)
    (con : Vec K) (opt : Nat) (a b : Vec K) (hf : Feasible m mini n con opt a) (he : a opt = b opt)
    (k : Nat) (hk : k < m) (hko : k ≠ opt) (hwk : 0 < w k)
    (hv : if mini k then n.apply con k < n.apply b k else n.apply b k < n.apply con k) :
    constraintFit m nw mini w n con opt b < constraintFit m nw mini w n con opt a := by
  rw [constraintFit_eq m nw hn, constraintFit_eq m nw hn]
  have hle : ∀ i ∈ List.range m, term mini w n con opt b i ≤ term mini w n con opt a i := by
    intro i hi
    have hi := List.mem_range.1 hi
    by_cases ho : i = opt
    · subst ho
      unfold term
      have : n.apply a i = n.apply b i := by unfold Norm.apply; rw [he]
      rw [if_pos rfl, if_pos rfl, this]
    · rw [term_feasible hf i hi ho]
      unfold term
      rw [if_neg ho]
      split
      · exact neg_nonpos.2 (mul_nonneg (le_max_left _ _) (hw i hi))
      · exact neg_nonpos.2 (mul_nonneg (le_max_left _ _) (hw i hi))
  refine foldl_lt _ _ _ _ _ (le_refl _) (fun i hi x y hxy => add_le_add hxy (hle i hi))
    (fun i hi x y hxy => add_lt_add_of_lt_of_le hxy (hle i hi)) k (List.mem_range.2 hk) ?_
  intro x y hxy
  refine add_lt_add_of_le_of_lt hxy ?_
  rw [term_feasible hf k hk hko]
  unfold term
  rw [if_neg hko]
  cases hm : mini k with
  | true =>
    rw [hm] at hv
    simp only [if_true] at hv ⊢
    exact neg_neg_of_pos (mul_pos (lt_max_of_lt_right (sub_pos.2 hv)) hwk)
  | false =>
    rw [hm] at hv
    simp only [Bool.false_eq_true, if_false] at hv ⊢
    exact neg_neg_of_pos (mul_pos (lt_max_of_lt_right (sub_pos.2 hv)) hwk)

/-- The penalty is finite: an infeasible vector may have the greater fitness. -/
example :
    let f := constraintFit 2 2 (fun _ => true) (fun _ => (1 : ℚ)) (dummy 100) (fun _ => 5) 0
    let a : Vec ℚ := fun i => if i = 0 then 10 else 5
    let b : Vec ℚ := fun i => if i = 0 then 1 else 6
    Feasible 2 (fun _ => true) (dummy 100) (fun _ => 5) 0 a ∧ ¬ Feasible 2 (fun _ => true) (dummy 100) (fun _ => 5) 0 b ∧
    f a = -10 ∧ f b = -2 := by
  refine ⟨?_, ?_, ?_, ?_⟩
  · intro i hi hne
    simp [Norm.apply, dummy, hne]
  · intro h
    have := h 1 (by omega) (by omega)
    norm_num [Norm.apply, dummy] at this
  · norm_num [constraintFit, Norm.apply, dummy, List.range_succ]
  · norm_num [constraintFit, Norm.apply, dummy, List.range_succ]

/-- **C185** (achievement).  moeoAchievementFitnessAssignment takes every objective as one to minimise: greater
values never give a greater fitness, whatever the direction of the objective. -/
theorem C185_achievement_direction (m : Nat) (inf spn : K) (hs : 0 ≤ spn) (lam ref a b : Vec K)
    (hl : ∀ i < m, 0 ≤ lam i) (h : ∀ i < m, a i ≤ b i) :
    achievement m inf spn lam ref b ≤ achievement m inf spn lam ref a := by
  have hi : ∀ i ∈ List.range m, lam i * (ref i - b i) ≤ lam i * (ref i - a i) := fun i hi =>
    mul_le_mul_of_nonneg_left (sub_le_sub_left (h i (List.mem_range.1 hi)) _) (hl i (List.mem_range.1 hi))
  refine add_le_add ?_ (mul_le_mul_of_nonneg_left ?_ hs)
  · exact foldl_le _ _ _ _ _ (le_refl _) fun i h x y hxy => min_le_min hxy (hi i h)
  · exact foldl_le _ _ _ _ _ (le_refl _) fun i h x y hxy => add_le_add hxy (hi i h)

/-- Two objectives to maximise: the dominating vector has the smaller fitness. -/
example : Better 2 (fun _ => false) (fun _ => (2 : ℚ)) (fun _ => 1) ∧
    achievement 2 1000 (1/100) (fun _ => (1 : ℚ)) (fun _ => 0) (fun _ => 2) <
    achievement 2 1000 (1/100) (fun _ => (1 : ℚ)) (fun _ => 0) (fun _ => 1) := by
  refine ⟨fun i _ => by norm_num, by norm_num [achievement, List.range_succ]⟩

theorem fold_max {ι : Type} (f : ι → K) (l : List ι) (a : K) :
    (a ≤ l.foldl (fun mx i => if mx < f i then f i else mx) a) ∧
    (∀ i ∈ l, f i ≤ l.foldl (fun mx i => if mx < f i then f i else mx) a) ∧
    (l.foldl (fun mx i => if mx < f i then f i else mx) a = a ∨
      ∃ i ∈ l, l.foldl (fun mx i => if mx < f i then f i else mx) a = f i) := by
  induction l generalizing a with
  | nil => exact ⟨le_refl _, (fun w hw => nomatch hw), Or.inl rfl⟩
  | cons v l ih =>
    rw [List.foldl_cons]
    obtain ⟨h1, h2, h3⟩ := ih (if a < f v then f v else a)
    have ha : a ≤ (if a < f v then f v else a) := by split <;> [exact le_of_lt (by assumption); exact le_refl _]
    have hv : f v ≤ (if a < f v then f v else a) := by
      split
      · exact le_refl _
      · exact not_lt.1 (by assumption)
    refine ⟨ha.trans h1, ?_, ?_⟩
    · intro w hw
      rcases List.mem_cons.1 hw with rfl | hw
      · exact hv.trans h1
      · exact h2 w hw
    · rcases h3 with h | ⟨w, hw, h⟩
      · rw [h]
        split
        · exact Or.inr ⟨v, by simp, rfl⟩
        · exact Or.inl rfl
      · exact Or.inr ⟨w, by simp [hw], h⟩

theorem asf_spec (m : Nat) (hm : 0 < m) (mini : Nat → Bool) (w : Vec K) (n : Norm K) (ref v : Vec K) :
    (∀ i < m, asfIter mini w n ref v i ≤ asf m mini w n ref v) ∧ ∃ i < m, asf m mini w n ref v = asfIter mini w n ref v i := by
  obtain ⟨_, h2, h3⟩ := fold_max (asfIter mini w n ref v) (List.range m) (asfIter mini w n ref v 0)
  refine ⟨fun i hi => h2 i (List.mem_range.2 hi), ?_⟩
  rcases h3 with h | ⟨i, hi, h⟩
  · exact ⟨0, hm, h⟩
  · exact ⟨i, List.mem_range.1 hi, h⟩

theorem asfIter_mono {m : Nat} {mini : Nat → Bool} {w : Vec K} (hw : ∀ i < m, 0 ≤ w i) {n : Norm K}
    (hnorm : ∀ i < m, ∀ x y : Vec K, x i ≤ y i → n.apply x i ≤ n.apply y i) (ref : Vec K) {a b : Vec K}
    (h : Better m mini a b) (i : Nat) (hi : i < m) : asfIter mini w n ref a i ≤ asfIter mini w n ref b i := by
  refine mul_le_mul_of_nonneg_left ?_ (hw i hi)
  have hb := h i hi
  cases hm : mini i with
  | true =>
    rw [hm] at hb
    simp only [if_true] at hb ⊢
    exact sub_le_sub_right (hnorm i hi a b hb) _
  | false =>
    rw [hm] at hb
    simp only [Bool.false_eq_true, if_false] at hb ⊢
    exact sub_le_sub_left (hnorm i hi b a hb) _

/-- **C185** (achievement distances).  The achievement distance is the greatest of the weighted differences in
the direction of each objective; both it and the augmented one never grow when a vector gets better, on either
side of the reference. -/
theorem C185_asf (m : Nat) (hm : 0 < m) (mini : Nat → Bool) (w : Vec K) (hw : ∀ i < m, 0 ≤ w i) (n : Norm K)
    (hnorm : ∀ i < m, ∀ x y : Vec K, x i ≤ y i → n.apply x i ≤ n.apply y i) (ref : Vec K) :
    (∀ v, IsGreatest {d | ∃ i < m, d = w i * (if mini i then n.apply v i - n.apply ref i else n.apply ref i - n.apply v i)}
      (asf m mini w n ref v)) ∧
    (∀ a b, Better m mini a b → asf m mini w n ref a ≤ asf m mini w n ref b ∧
      ∀ rho, 0 ≤ rho → augAsf m mini rho w n ref a ≤ augAsf m mini rho w n ref b) := by
  refine ⟨?_, ?_⟩
  · intro v
    obtain ⟨h1, h2⟩ := asf_spec m hm mini w n ref v
    refine ⟨h2, ?_⟩
    rintro d ⟨i, hi, rfl⟩
    exact h1 i hi
  · intro a b h
    have hmono := asfIter_mono hw hnorm ref h
    have h1 : asf m mini w n ref a ≤ asf m mini w n ref b := by
      obtain ⟨i, hi, e⟩ := (asf_spec m hm mini w n ref a).2
      rw [e]
      exact (hmono i hi).trans ((asf_spec m hm mini w n ref b).1 i hi)
    refine ⟨h1, ?_⟩
    intro rho hr
    refine add_le_add ?_ (mul_le_mul_of_nonneg_left h1 hr)
    exact foldl_le _ _ _ _ _ (le_refl _) fun i hi x y hxy => add_le_add hxy (hmono i (List.mem_range.1 hi))

/-- **C185** (best of an achievement distance).  With positive weights and an order-keeping normaliser, no member
of a set is better on all objectives than one of least distance; and if only one member has the least distance
it is dominated by none. -/
theorem C185_asf_optimal (m : Nat) (hm : 0 < m) (mini : Nat → Bool) (w : Vec K) (hw : ∀ i < m, 0 < w i) (n : Norm K)
    (hnorm : ∀ i < m, ∀ x y : Vec K, x i ≤ y i ↔ n.apply x i ≤ n.apply y i) (ref : Vec K) (S : Vec K → Prop) (a : Vec K)
    (hmin : ∀ b, S b → asf m mini w n ref a ≤ asf m mini w n ref b) (b : Vec K) (hb : S b) :
    ¬ (∀ i < m, Strict mini i b a) ∧
    (Better m mini b a → asf m mini w n ref b = asf m mini w n ref a) := by
  refine ⟨?_, ?_⟩
  · intro h
    obtain ⟨i, hi, e⟩ := (asf_spec m hm mini w n ref b).2
    have hlt : asfIter mini w n ref b i < asfIter mini w n ref a i := by
      refine mul_lt_mul_of_pos_left ?_ (hw i hi)
      have hs := h i hi
      unfold Strict at hs
      cases hmi : mini i with
      | true =>
        rw [hmi] at hs
        simp only [if_true] at hs ⊢
        exact sub_lt_sub_right (not_le.1 fun h => absurd ((hnorm i hi a b).2 h) (not_le.2 hs)) _
      | false =>
        rw [hmi] at hs
        simp only [Bool.false_eq_true, if_false] at hs ⊢
        exact sub_lt_sub_left (not_le.1 fun h => absurd ((hnorm i hi b a).2 h) (not_le.2 hs)) _
    have h2 := (asf_spec m hm mini w n ref a).1 i hi
    have h3 := hmin b hb
    rw [e] at h3
    exact absurd (h2.trans h3) (not_le.2 hlt)
  · intro h
    refine le_antisymm ?_ (hmin b hb)
    exact ((C185_asf m hm mini w (fun i hi => (hw i hi).le) n (fun i hi x y => (hnorm i hi x y).1) ref).2 b a h).1

theorem chebIter_mono {m : Nat} {mini : Nat → Bool} {n : Norm K}
    (hnorm : ∀ i < m, ∀ x y : Vec K, x i ≤ y i → n.apply x i ≤ n.apply y i) {ref a b : Vec K}
    (hr : Better m mini ref a) (h : Better m mini a b) (i : Nat) (hi : i < m) : chebIter n ref a i ≤ chebIter n ref b i := by
  unfold chebIter
  have h1 := hr i hi
  have h2 := h i hi
  cases hm : mini i with
  | true =>
    rw [hm] at h1 h2
    simp only [if_true] at h1 h2
    have e1 := hnorm i hi ref a h1
    have e2 := hnorm i hi a b h2
    rw [abs_of_nonneg (sub_nonneg.2 e1), abs_of_nonneg (sub_nonneg.2 (e1.trans e2))]
    exact sub_le_sub_right e2 _
  | false =>
    rw [hm] at h1 h2
    simp only [Bool.false_eq_true, if_false] at h1 h2
    have e1 := hnorm i hi a ref h1
    have e2 := hnorm i hi b a h2
    rw [abs_of_nonpos (sub_nonpos.2 e1), abs_of_nonpos (sub_nonpos.2 (e2.trans e1))]
    exact neg_le_neg (sub_le_sub_right e2 _)

theorem augChebLoop_spec (m : Nat) (w : Vec K) (n : Norm K) (ref v : Vec K) :
    (augChebLoop m w n ref v).1 = (List.range' 1 (m - 1)).foldl (fun s i => s + chebIter n ref v i) (chebIter n ref v 0) ∧
    (augChebLoop m w n ref v).2 = (List.range' 1 (m - 1)).foldl
      (fun mx i => if mx < chebIter n ref v i * w i then chebIter n ref v i * w i else mx) (chebIter n ref v 0 * w 0) := by
  unfold augChebLoop
  generalize List.range' 1 (m - 1) = l
  generalize chebIter n ref v 0 * w 0 = y
  generalize chebIter n ref v 0 = x
  induction l generalizing x y with
  | nil => exact ⟨rfl, rfl⟩
  | cons i l ih =>
    simp only [List.foldl_cons]
    exact ih _ _

/-- **C185** (augmented Chebychev distance).  If the reference is at least as good as both vectors, a better
vector is not farther away. -/
theorem C185_cheb_mono (m : Nat) (hm : 0 < m) (mini : Nat → Bool) (rho : K) (hrho : 0 ≤ rho) (w : Vec K)
    (hw : ∀ i < m, 0 ≤ w i) (n : Norm K) (hnorm : ∀ i < m, ∀ x y : Vec K, x i ≤ y i → n.apply x i ≤ n.apply y i)
    (ref a b : Vec K) (hr : Better m mini ref a) (h : Better m mini a b) :
    augCheb m rho w n ref a ≤ augCheb m rho w n ref b := by
  unfold augCheb
  have hmono := chebIter_mono hnorm hr h
  have hmem : ∀ i ∈ List.range' 1 (m - 1), i < m := by
    intro i hi
    rw [List.mem_range'_1] at hi
    omega
  rw [(augChebLoop_spec m w n ref a).1, (augChebLoop_spec m w n ref a).2, (augChebLoop_spec m w n ref b).1,
    (augChebLoop_spec m w n ref b).2]
  refine add_le_add (mul_le_mul_of_nonneg_right ?_ hrho) ?_
  · exact foldl_le _ _ _ _ _ (hmono 0 hm) fun i hi x y hxy => add_le_add hxy (hmono i (hmem i hi))
  · refine foldl_le _ _ _ _ _ (mul_le_mul_of_nonneg_right (hmono 0 hm) (hw 0 hm)) fun i hi x y hxy => ?_
    have hi := mul_le_mul_of_nonneg_right (hmono i (hmem i hi)) (hw i (hmem i hi))
    split
    · split
      · exact hi
      · rename_i h2
        exact hi.trans (not_lt.1 h2)
    · split
      · rename_i h2
        exact hxy.trans h2.le
      · exact hxy

/-- With a reference that can be beaten, a dominating vector may be farther away: then the fitness, the negative
of the distance, prefers the dominated one. -/
example : Better 2 (fun _ => true) (fun _ => (0 : ℚ)) (fun _ => 5) ∧
    augCheb 2 1 (fun _ => 1) (dummy 100) (fun _ => (5 : ℚ)) (fun _ => 5) <
    augCheb 2 1 (fun _ => 1) (dummy 100) (fun _ => (5 : ℚ)) (fun _ => 0) := by
  refine ⟨fun i _ => by norm_num, by norm_num [augCheb, augChebLoop, chebIter, dummy, Norm.apply]⟩

/-- **C185** (weighted Chebychev distance).  The exponent cancels: for each exponent that is not 0 the distance is
a weighted sum of the absolute differences, with the weights to the power of the inverse. -/
theorem C185_cheb_is_manhattan (m : Nat) (rho : ℝ) (hrho : rho ≠ 0) (w : Vec ℝ) (hw : ∀ i < m, 0 ≤ w i)
    (n : Norm ℝ) (ref v : Vec ℝ) :
    cheb m rho w n ref v = ((List.range m).map fun i => w i ^ (1 / rho) * |n.apply v i - n.apply ref i|).sum := by
  unfold cheb
  have key : ∀ (l : List Nat) (s : ℝ), (∀ i ∈ l, 0 ≤ w i) →
      l.foldl (fun s i => s + (w i * |n.apply v i - n.apply ref i| ^ rho) ^ (1 / rho)) s =
      s + (l.map fun i => w i ^ (1 / rho) * |n.apply v i - n.apply ref i|).sum := by
    intro l
    induction l with
    | nil => intro s _; simp
    | cons i l ih =>
      intro s hl
      rw [List.foldl_cons, ih _ fun j hj => hl j (by simp [hj]), List.map_cons, List.sum_cons, ← add_assoc]
      congr 2
      rw [Real.mul_rpow (hl i (by simp)) (Real.rpow_nonneg (abs_nonneg _) _), ← Real.rpow_mul (abs_nonneg _),
        mul_one_div_cancel hrho, Real.rpow_one]
  rw [key _ _ fun i hi => hw i (List.mem_range.1 hi), zero_add]

/-- **C185** (a normaliser without effect).  The achievement fitness made without an evaluation function does not
depend on the normaliser it is given. -/
theorem C185_normaliser_ignored (m : Nat) (mini : Nat → Bool) (w : Vec K) (n n' : Norm K) (ref v : Vec K) :
    asfFitness m mini w n false ref v = asfFitness m mini w n' false ref v := rfl

/-- **C185** (a normaliser with effect).  Made with an evaluation function the fitness is the opposite of the
achievement distance with the given normaliser; so it is negative exactly if a vector misses the reference on an
objective of positive weight, and not less than zero exactly if it reaches the reference on all of them. -/
theorem C185_normaliser_used (m : Nat) (hm : 0 < m) (mini : Nat → Bool) (w : Vec K) (hw : ∀ i < m, 0 < w i)
    (n : Norm K) (hn : ∀ i < m, ∀ x y : Vec K, x i ≤ y i ↔ n.apply x i ≤ n.apply y i) (ref v : Vec K) :
    asfFitness m mini w n true ref v = - asf m mini w n ref v ∧
    (0 ≤ asfFitness m mini w n true ref v ↔ Better m mini v ref) := by
  have e : asfFitness m mini w n true ref v = - asf m mini w n ref v := by
    have h : ∀ i, asfIter mini w (dummy 100) (n.apply ref) (n.apply v) i = asfIter mini w n ref v i := by
      intro i
      simp only [asfIter, dummy, Norm.apply, sub_zero, mul_one]
    simp only [asfFitness, metric, if_true, asf, h]
  refine ⟨e, ?_⟩
  rw [e, neg_nonneg]
  obtain ⟨h1, k, hk, h2⟩ := asf_spec m hm mini w n ref v
  have key : ∀ i < m, asfIter mini w n ref v i ≤ 0 ↔ (if mini i then v i ≤ ref i else ref i ≤ v i) := by
    intro i hi
    have hz : ∀ x : K, w i * x ≤ 0 ↔ x ≤ 0 := fun x =>
      ⟨fun h => nonpos_of_mul_nonpos_right h (hw i hi), fun h => mul_nonpos_of_nonneg_of_nonpos (hw i hi).le h⟩
    unfold asfIter
    rw [hz]
    cases mini i
    · simpa using (hn i hi ref v).symm
    · simpa using (hn i hi v ref).symm
  constructor
  · intro h i hi
    exact (key i hi).1 ((h1 i hi).trans h)
  · intro h
    rw [h2]
    exact (key k hk).2 (h k hk)

example (ref v : Vec ℚ) : 0 ≤ asfFitness 3 (fun i => i != 1) (fun _ => 2) (fromBounds 1 (fun _ => 0) (fun _ => 10)) true ref v ↔
    Better 3 (fun i => i != 1) v ref :=
  (C185_normaliser_used 3 (by decide) _ _ (fun _ _ => by norm_num) _
    (fun i _ x y => C184_order _ i (Or.inr (Or.inl ⟨1, _, _, by norm_num, by norm_num, rfl⟩)) x y) ref v).2

/-- With one it does. -/
example : asfFitness 1 (fun _ => true) (fun _ => (1 : ℚ)) (fromBounds 1 (fun _ => 0) (fun _ => 10)) true (fun _ => 0) (fun _ => 10) = -1 ∧
    asfFitness 1 (fun _ => true) (fun _ => (1 : ℚ)) (fromBounds 1 (fun _ => 0) (fun _ => 10)) false (fun _ => 0) (fun _ => 10) = -10 := by
  norm_num [asfFitness, metric, asf, asfIter, dummy, Norm.apply, fromBounds, scaleFromBounds, List.range_succ]

end Paradiseo.Scalar
