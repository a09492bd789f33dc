import Verif.Model.MoeoEpsBox
import Verif.Props.Moeo
import Mathlib.Algebra.Order.Floor.Ring
import Mathlib.Data.List.Perm.Basic
/-
Lemmas about the archive of hyperboxes.
-/
namespace Paradiseo.Moeo.Eps

section list
variable {α : Type}

theorem removeAt_perm (l : List α) (i : Nat) (a : α) (h : l[i]? = some a) :
    (removeAt l i ++ [a]).Perm l := by
  obtain ⟨hi, rfl⟩ := List.getElem?_eq_some_iff.1 h
  unfold removeAt
  split_ifs with hl
  · have hne : l ≠ [] := by rintro rfl; simp at hi
    have : l[i] = l.getLast hne := by
      rw [List.getLast_eq_getElem]; congr 1; omega
    rw [this, List.dropLast_append_getLast]
  · have hne : l ≠ [] := by rintro rfl; simp at hi
    rw [List.getLast?_eq_getLast_of_ne_nil hne]
    simp only []
    obtain ⟨l', z, rfl⟩ : ∃ l' z, l = l' ++ [z] := ⟨l.dropLast, l.getLast hne, (List.dropLast_append_getLast hne).symm⟩
    have hi' : i < l'.length := by simp at hi hl; omega
    rw [List.getLast_concat, List.set_append_left _ _ hi', List.dropLast_concat,
      List.getElem_append_left hi']
    have h1 : (l'.set i z).Perm (z :: l'.eraseIdx i) := List.set_perm_cons_eraseIdx hi' z
    have h2 : (l'[i] :: l'.eraseIdx i).Perm l' := List.getElem_cons_eraseIdx_perm hi'
    calc ((l'.set i z) ++ [l'[i]]).Perm ((z :: l'.eraseIdx i) ++ [l'[i]]) := h1.append_right _
      _ |>.Perm (z :: (l'[i] :: l'.eraseIdx i)) := by
          rw [List.cons_append]
          exact (List.perm_append_comm).cons z
      _ |>.Perm (z :: l') := h2.cons z
      _ |>.Perm (l' ++ [z]) := by
          exact List.perm_append_comm (l₁ := [z]) (l₂ := l')

theorem removeAt_get (l : List α) (i j : Nat) (h : i < l.length) (hj : j < i) :
    (removeAt l i)[j]? = l[j]? := by
  unfold removeAt
  split_ifs with hl
  · rw [List.getElem?_dropLast, if_pos (by omega)]
  · have hne : l ≠ [] := by rintro rfl; simp at h
    rw [List.getLast?_eq_getLast_of_ne_nil hne]
    simp only []
    rw [List.getElem?_dropLast, List.length_set, if_pos (by omega), List.getElem?_set_ne (by omega)]

theorem removeAt_length (l : List α) (i : Nat) (h : i < l.length) :
    (removeAt l i).length = l.length - 1 := by
  have := (removeAt_perm l i l[i] (List.getElem?_eq_getElem h)).length_eq
  simp at this; omega

end list

variable {n : Nat} {F : Type} [Field F] [LinearOrder F] [FloorRing F]

theorem scan_spec (T : Traits n F) (bx : (Fin n → F) → Fin n → Option Int) (near : (Fin n → F) → Bool)
    (p : Fin n → F) : ∀ (fuel i : Nat) (m : List (Fin n → F)) (res : Bool), m.length ≤ fuel + i →
    (∀ j : Nat, j < i → ∀ a, m[j]? = some a →
      boxCmp T (bx a) (bx p) = false ∧ boxCmp T (bx p) (bx a) = false ∧ sameBox (bx p) (bx a) = false) →
    ∃ removed : List (Fin n → F), ((scan T bx near p fuel i m res).2.1 ++ removed).Perm m ∧
      (∀ a ∈ removed, boxCmp T (bx a) (bx p) = true ∨
        (sameBox (bx p) (bx a) = true ∧ paretoCmp T p a = false)) ∧
      match (scan T bx near p fuel i m res).1 with
      | .run => ∀ a ∈ (scan T bx near p fuel i m res).2.1, boxCmp T (bx a) (bx p) = false ∧
          boxCmp T (bx p) (bx a) = false ∧ sameBox (bx p) (bx a) = false
      | .boxDominated => ∃ a ∈ (scan T bx near p fuel i m res).2.1, boxCmp T (bx p) (bx a) = true
      | .dominated => ∃ a ∈ (scan T bx near p fuel i m res).2.1,
          sameBox (bx p) (bx a) = true ∧ paretoCmp T p a = true
      | .farther => ∃ a ∈ (scan T bx near p fuel i m res).2.1, sameBox (bx p) (bx a) = true ∧
          paretoCmp T p a = false ∧ near a = false := by
  intro fuel
  induction fuel with
  | zero =>
    intro i m res hl hpre
    refine ⟨[], by simp [scan], by simp, ?_⟩
    simp only [scan]
    intro a ha
    obtain ⟨j, hj, rfl⟩ := List.getElem_of_mem ha
    exact hpre j (by omega) _ (List.getElem?_eq_getElem hj)
  | succ fuel ih =>
    intro i m res hl hpre
    have hrem (a : Fin n → F) (ha : m[i]? = some a) (hc : boxCmp T (bx a) (bx p) = true ∨
        (sameBox (bx p) (bx a) = true ∧ paretoCmp T p a = false)) :=
      ih i (removeAt m i) true (by
        have hi : i < m.length := (List.getElem?_eq_some_iff.1 ha).1
        rw [removeAt_length m i hi]; omega) (by
        intro j hj b hb
        have hi : i < m.length := (List.getElem?_eq_some_iff.1 ha).1
        rw [removeAt_get m i j hi hj] at hb
        exact hpre j hj b hb)
    have hfin (a : Fin n → F) (ha : m[i]? = some a) (hc : boxCmp T (bx a) (bx p) = true ∨
        (sameBox (bx p) (bx a) = true ∧ paretoCmp T p a = false)) :
      ∃ removed : List (Fin n → F), ((scan T bx near p fuel i (removeAt m i) true).2.1 ++ removed).Perm m ∧
      (∀ a ∈ removed, boxCmp T (bx a) (bx p) = true ∨
        (sameBox (bx p) (bx a) = true ∧ paretoCmp T p a = false)) ∧
      match (scan T bx near p fuel i (removeAt m i) true).1 with
      | .run => ∀ a ∈ (scan T bx near p fuel i (removeAt m i) true).2.1, boxCmp T (bx a) (bx p) = false ∧
          boxCmp T (bx p) (bx a) = false ∧ sameBox (bx p) (bx a) = false
      | .boxDominated => ∃ a ∈ (scan T bx near p fuel i (removeAt m i) true).2.1, boxCmp T (bx p) (bx a) = true
      | .dominated => ∃ a ∈ (scan T bx near p fuel i (removeAt m i) true).2.1,
          sameBox (bx p) (bx a) = true ∧ paretoCmp T p a = true
      | .farther => ∃ a ∈ (scan T bx near p fuel i (removeAt m i) true).2.1, sameBox (bx p) (bx a) = true ∧
          paretoCmp T p a = false ∧ near a = false := by
      obtain ⟨r, h1, h2, h3⟩ := hrem a ha hc
      refine ⟨r ++ [a], ?_, ?_, h3⟩
      · rw [← List.append_assoc]
        exact (h1.append_right [a]).trans (removeAt_perm m i a ha)
      · intro b hb
        rcases List.mem_append.1 hb with hb | hb
        · exact h2 b hb
        · rw [List.mem_singleton.1 hb]; exact hc
    unfold scan
    rcases hm : m[i]? with _ | a
    · simp only []
      refine ⟨[], by simp, by simp, ?_⟩
      intro a ha
      obtain ⟨j, hj, rfl⟩ := List.getElem_of_mem ha
      have : m.length ≤ i := List.getElem?_eq_none_iff.1 hm
      exact hpre j (by omega) _ (List.getElem?_eq_getElem hj)
    · simp only []
      have hmem : a ∈ m := List.mem_of_getElem? hm
      by_cases h1 : boxCmp T (bx a) (bx p) = true
      · simp only [h1, if_true]; exact hfin a hm (Or.inl h1)
      · simp only [h1, if_false]
        by_cases h2 : boxCmp T (bx p) (bx a) = true
        · simp only [h2, if_true]
          exact ⟨[], by simp, by simp, a, hmem, h2⟩
        · simp only [h2, if_false]
          by_cases h3 : sameBox (bx p) (bx a) = true
          · simp only [h3, if_true]
            by_cases h4 : paretoCmp T a p = true
            · simp only [h4, if_true]
              refine hfin a hm (Or.inr ⟨h3, ?_⟩)
              by_contra hc
              have hc' : paretoCmp T p a = true := by simpa using hc
              unfold paretoCmp at h4 hc'
              rw [paretoLoop_iff] at h4 hc'
              obtain ⟨k, hk, hk2⟩ : ∃ k ∈ List.finRange n, T.tol < |a k - p k| := by simpa using h4.2
              have e1 := h4.1 k hk hk2
              have e2 := hc'.1 k hk (by rwa [abs_sub_comm])
              cases hmn : T.minimizing k
              · exact lt_asymm (e1.2 hmn) (e2.2 hmn)
              · exact lt_asymm (e1.1 hmn) (e2.1 hmn)
            · simp only [h4, if_false]
              by_cases h5 : paretoCmp T p a = true
              · simp only [h5, if_true]
                exact ⟨[], by simp, by simp, a, hmem, h3, h5⟩
              · simp only [h5, if_false]
                by_cases h6 : near a = true
                · simp only [h6, if_true]
                  exact hfin a hm (Or.inr ⟨h3, by simpa using h5⟩)
                · simp only [h6, if_false]
                  exact ⟨[], by simp, by simp, a, hmem, h3, by simpa using h5, by simpa using h6⟩
          · simp only [h3, if_false]
            refine ih (i + 1) m res (by omega) ?_
            intro j hj b hb
            rcases Nat.lt_succ_iff_lt_or_eq.1 hj with hj | rfl
            · exact hpre j hj b hb
            · rw [hm] at hb
              simp only [Option.some.injEq] at hb
              subst hb
              exact ⟨by simpa using h1, by simpa using h2, by simpa using h3⟩

theorem boxLoop_iff (T : Traits n F) (u v : Fin n → Option Int) (l : List (Fin n)) (dom : Bool) :
    boxLoop T u v l dom = true ↔
      (∀ i ∈ l, ∀ a b, u i = some a → v i = some b → T.tol < |(a : F) - b| →
        Better (T.minimizing i) (b : F) a) ∧
      (dom = true ∨ ∃ i ∈ l, ∃ a b, u i = some a ∧ v i = some b ∧ T.tol < |(a : F) - b|) := by
  induction l generalizing dom with
  | nil => simp [boxLoop]
  | cons i l ih =>
    rcases hu : u i with _ | a
    · simp [boxLoop, hu, ih]
    · rcases hv : v i with _ | b
      · simp [boxLoop, hu, hv, ih]
      · by_cases ht : T.tol < |(a : F) - b|
        · cases hm : T.minimizing i
          · by_cases hc : (a : F) < b
            · simp [boxLoop, hu, hv, ih, ht, hm, hc, Better]
            · simp [boxLoop, hu, hv, ht, hm, hc, Better]
          · by_cases hc : (b : F) < a
            · simp [boxLoop, hu, hv, ih, ht, hm, hc, Better]
            · simp [boxLoop, hu, hv, ht, hm, hc, Better]
        · simp [boxLoop, hu, hv, ih, ht]

theorem sameBox_iff (u v : Fin n → Option Int) :
    sameBox u v = true ↔ ∀ i, ∃ a, u i = some a ∧ v i = some a := by
  unfold sameBox
  rw [List.all_eq_true]
  simp only [List.mem_finRange, true_implies]
  refine forall_congr' fun i => ?_
  rcases u i with _ | a <;> rcases v i with _ | b <;> simp
  exact eq_comm

variable [IsStrictOrderedRing F]

theorem tol_int (T : Traits n F) (h0 : 0 ≤ T.tol) (h1 : T.tol < 1) (a b : Int) :
    T.tol < |(a : F) - b| ↔ a ≠ b := by
  constructor
  · rintro h rfl
    simp at h
    exact absurd h (not_lt.2 h0)
  · intro h
    refine lt_of_lt_of_le h1 ?_
    rw [← Int.cast_sub, ← Int.cast_abs, ← Int.cast_one, Int.cast_le]
    exact Int.one_le_abs (sub_ne_zero.2 h)

theorem better_cast (d : Bool) (a b : Int) : Better d (a : F) (b : F) ↔ Better d a b := by
  cases d <;> simp [Better]

/-- The comparator on boxes, coordinate by coordinate; coordinates without a number are ignored. -/
theorem boxCmp_iff (T : Traits n F) (h0 : 0 ≤ T.tol) (h1 : T.tol < 1) (u v : Fin n → Option Int) :
    boxCmp T u v = true ↔
      (∀ i a b, u i = some a → v i = some b → NoWorse (T.minimizing i) b a) ∧
      ∃ i a b, u i = some a ∧ v i = some b ∧ Better (T.minimizing i) b a := by
  unfold boxCmp
  rw [boxLoop_iff]
  simp only [List.mem_finRange, true_implies, Bool.false_eq_true, false_or, true_and, tol_int T h0 h1,
    better_cast]
  constructor
  · rintro ⟨ha, i, a, b, hu, hv, hab⟩
    refine ⟨fun j c d hc hd => ?_, i, a, b, hu, hv, ha i a b hu hv hab⟩
    by_cases hcd : c = d
    · subst hcd; cases T.minimizing j <;> simp [NoWorse]
    · have := ha j c d hc hd hcd
      cases hm : T.minimizing j <;> rw [hm] at this <;> simp only [NoWorse, Better] at * <;> omega
  · rintro ⟨ha, i, a, b, hu, hv, hab⟩
    refine ⟨fun j c d hc hd hcd => ?_, i, a, b, hu, hv, ?_⟩
    · have := ha j c d hc hd
      cases hm : T.minimizing j <;> rw [hm] at this <;> simp only [NoWorse, Better] at * <;> omega
    · rintro rfl
      cases hm : T.minimizing i <;> rw [hm] at hab <;> simp [Better] at hab

/-- The index of a box where the bounds differ. -/
def idx (T : Traits n F) (eps : Fin n → F) (s : St n F) (v : Fin n → F) (i : Fin n) : Int :=
  if T.minimizing i then ⌊(v i - s.lo i) * (1 / (s.hi i - s.lo i)) * 1 / eps i⌋
  else ⌈(v i - s.lo i) * (1 / (s.hi i - s.lo i)) * 1 / eps i⌉

omit [IsStrictOrderedRing F] in
theorem box_some (T : Traits n F) (eps : Fin n → F) (s : St n F) (v : Fin n → F) (i : Fin n)
    (h : s.lo i < s.hi i) : box T eps s v i = some (idx T eps s v i) := by
  unfold box idx
  rw [if_neg h.ne']
  simp only []
  split_ifs <;> rfl

theorem idx_mono (T : Traits n F) (eps : Fin n → F) (s : St n F) (u v : Fin n → F) (i : Fin n)
    (h : s.lo i < s.hi i) (he : 0 < eps i) (huv : NoWorse (T.minimizing i) (u i) (v i)) :
    NoWorse (T.minimizing i) (idx T eps s u i) (idx T eps s v i) := by
  unfold idx
  have hk : 0 ≤ 1 / (s.hi i - s.lo i) := by
    apply div_nonneg zero_le_one; linarith
  cases hm : T.minimizing i
  · rw [hm] at huv
    simp only [NoWorse, Bool.false_eq_true, if_false] at huv ⊢
    apply Int.ceil_le_ceil
    gcongr
  · rw [hm] at huv
    simp only [NoWorse, if_true] at huv ⊢
    apply Int.floor_le_floor
    gcongr

/-- A box index no worse means: no worse by more than one box. -/
theorem idx_close (T : Traits n F) (eps : Fin n → F) (s : St n F) (u v : Fin n → F) (i : Fin n)
    (h : s.lo i < s.hi i) (he : 0 < eps i)
    (huv : NoWorse (T.minimizing i) (idx T eps s u i) (idx T eps s v i)) :
    if T.minimizing i then u i < v i + eps i * (s.hi i - s.lo i)
    else v i - eps i * (s.hi i - s.lo i) < u i := by
  have hd : 0 < s.hi i - s.lo i := by linarith
  have hconv (w : F) : (w - s.lo i) * (1 / (s.hi i - s.lo i)) * 1 / eps i =
      (w - s.lo i) / (eps i * (s.hi i - s.lo i)) := by
    field_simp
  have hpos : 0 < eps i * (s.hi i - s.lo i) := mul_pos he hd
  unfold idx at huv
  cases hm : T.minimizing i
  · rw [hm] at huv
    simp only [NoWorse, Bool.false_eq_true, if_false] at huv ⊢
    rw [hconv, hconv] at huv
    have h1 : (v i - s.lo i) / (eps i * (s.hi i - s.lo i)) <
        (u i - s.lo i) / (eps i * (s.hi i - s.lo i)) + 1 :=
      lt_of_le_of_lt (Int.le_ceil _) (lt_of_le_of_lt (Int.cast_le.2 huv) (Int.ceil_lt_add_one _))
    rw [div_add_one hpos.ne', div_lt_div_iff_of_pos_right hpos] at h1
    linarith
  · rw [hm] at huv
    simp only [NoWorse, if_true] at huv ⊢
    rw [hconv, hconv] at huv
    have h1 : (u i - s.lo i) / (eps i * (s.hi i - s.lo i)) <
        (v i - s.lo i) / (eps i * (s.hi i - s.lo i)) + 1 :=
      lt_of_lt_of_le (Int.lt_floor_add_one _) (by
        have : ((⌊(u i - s.lo i) / (eps i * (s.hi i - s.lo i))⌋ : Int) : F) ≤
          ⌊(v i - s.lo i) / (eps i * (s.hi i - s.lo i))⌋ := Int.cast_le.2 huv
        have h2 := Int.floor_le ((v i - s.lo i) / (eps i * (s.hi i - s.lo i)))
        linarith)
    rw [div_add_one hpos.ne', div_lt_div_iff_of_pos_right hpos] at h1
    linarith

/-! ### Bounds -/

section bounds
omit [FloorRing F] [IsStrictOrderedRing F]

theorem better_iff (T : Traits n F) (i : Fin n) (a b : F) :
    better T i a b ↔ Better (T.minimizing i) a b := by
  unfold better
  cases T.minimizing i <;> simp [Better]

theorem noWorse_refl (d : Bool) (a : F) : NoWorse d a a := by cases d <;> simp [NoWorse]
theorem noWorse_trans (d : Bool) (a b c : F) (h1 : NoWorse d a b) (h2 : NoWorse d b c) :
    NoWorse d a c := by
  cases d
  · exact le_trans (show c ≤ b from h2) (show b ≤ a from h1)
  · exact le_trans (show a ≤ b from h1) (show b ≤ c from h2)
theorem noWorse_iff (d : Bool) (a b : F) : NoWorse d a b ↔ ¬ Better d b a := by
  cases d <;> simp [NoWorse, Better]
theorem better_noWorse (d : Bool) (a b : F) (h : Better d a b) : NoWorse d a b := by
  cases d <;> simp only [NoWorse, Better] at * <;> exact h.le
theorem noWorse_antisymm (d : Bool) (a b : F) (h1 : NoWorse d a b) (h2 : NoWorse d b a) : a = b := by
  cases d
  · exact le_antisymm (show a ≤ b from h2) (show b ≤ a from h1)
  · exact le_antisymm (show a ≤ b from h1) (show b ≤ a from h2)
theorem noWorse_between (d : Bool) (i v w : F) (h1 : NoWorse d i v) (h2 : NoWorse d v w) :
    min i w ≤ v ∧ v ≤ max i w := by
  cases d <;> simp only [NoWorse] at * <;> exact ⟨by simp [*], by simp [*]⟩

/-- Members lie between `ideal` and `nadir`. -/
def Within (T : Traits n F) (s : St n F) (v : Fin n → F) : Prop :=
  ∀ i, NoWorse (T.minimizing i) (s.ideal i) (v i) ∧ NoWorse (T.minimizing i) (v i) (s.nadir i)

/-- The normaliser was made of `ideal` and `nadir`. -/
def Norm (s : St n F) : Prop := ∀ i, s.lo i = min (s.ideal i) (s.nadir i) ∧ s.hi i = max (s.ideal i) (s.nadir i)

/-- Only the first member came so far. -/
def First (s : St n F) : Prop := ∃ x, s.mem = [x] ∧ s.ideal = x ∧ s.nadir = x

/-- `ideal` and `nadir` are values of members. -/
def Attained (s : St n F) : Prop :=
  ∀ i, (∃ a ∈ s.mem, a i = s.ideal i) ∧ ∃ a ∈ s.mem, a i = s.nadir i

/-- What holds in every state with members. -/
def Good (T : Traits n F) (s : St n F) : Prop :=
  s.mem ≠ [] → (∀ a ∈ s.mem, Within T s a) ∧ (Norm s ∨ First s)

theorem recalcOne_spec (T : Traits n F) (i : Fin n) (m : List (Fin n → F)) (v0 : F)
    (a b : F) (hab : NoWorse (T.minimizing i) a b) :
    let r := m.foldl (fun b v => if better T i (v i) b.1 then (v i, b.2)
      else if better T i b.2 (v i) then (b.1, v i) else b) (a, b)
    NoWorse (T.minimizing i) r.1 a ∧ NoWorse (T.minimizing i) b r.2 ∧
      (∀ v ∈ m, NoWorse (T.minimizing i) r.1 (v i) ∧ NoWorse (T.minimizing i) (v i) r.2) ∧
      (r.1 = a ∨ ∃ v ∈ m, v i = r.1) ∧ (r.2 = b ∨ ∃ v ∈ m, v i = r.2) := by
  induction m generalizing a b with
  | nil => simp [noWorse_refl]
  | cons v m ih =>
    simp only [List.foldl_cons]
    by_cases h1 : better T i (v i) a
    · rw [if_pos h1]
      have hb1 := better_noWorse _ _ _ ((better_iff T i _ _).1 h1)
      obtain ⟨e1, e2, e3, e4, e5⟩ := ih (v i) b (noWorse_trans _ _ _ _ hb1 hab)
      refine ⟨noWorse_trans _ _ _ _ e1 hb1, e2, ?_, ?_, ?_⟩
      · intro w hw
        rcases List.mem_cons.1 hw with rfl | hw
        · exact ⟨e1, noWorse_trans _ _ _ _ hb1 (noWorse_trans _ _ _ _ hab e2)⟩
        · exact e3 w hw
      · rcases e4 with e4 | ⟨w, hw, e4⟩
        · exact Or.inr ⟨v, by simp, e4.symm⟩
        · exact Or.inr ⟨w, by simp [hw], e4⟩
      · rcases e5 with e5 | ⟨w, hw, e5⟩
        · exact Or.inl e5
        · exact Or.inr ⟨w, by simp [hw], e5⟩
    · rw [if_neg h1]
      have hb1 : NoWorse (T.minimizing i) a (v i) := by
        rw [noWorse_iff]; rwa [better_iff] at h1
      by_cases h2 : better T i b (v i)
      · rw [if_pos h2]
        have hb2 := better_noWorse _ _ _ ((better_iff T i _ _).1 h2)
        obtain ⟨e1, e2, e3, e4, e5⟩ := ih a (v i) hb1
        refine ⟨e1, noWorse_trans _ _ _ _ hb2 e2, ?_, ?_, ?_⟩
        · intro w hw
          rcases List.mem_cons.1 hw with rfl | hw
          · exact ⟨noWorse_trans _ _ _ _ e1 hb1, e2⟩
          · exact e3 w hw
        · rcases e4 with e4 | ⟨w, hw, e4⟩
          · exact Or.inl e4
          · exact Or.inr ⟨w, by simp [hw], e4⟩
        · rcases e5 with e5 | ⟨w, hw, e5⟩
          · exact Or.inr ⟨v, by simp, e5.symm⟩
          · exact Or.inr ⟨w, by simp [hw], e5⟩
      · rw [if_neg h2]
        have hb2 : NoWorse (T.minimizing i) (v i) b := by
          rw [noWorse_iff]; rwa [better_iff] at h2
        obtain ⟨e1, e2, e3, e4, e5⟩ := ih a b hab
        refine ⟨e1, e2, ?_, ?_, ?_⟩
        · intro w hw
          rcases List.mem_cons.1 hw with rfl | hw
          · exact ⟨noWorse_trans _ _ _ _ e1 hb1, noWorse_trans _ _ _ _ hb2 e2⟩
          · exact e3 w hw
        · rcases e4 with e4 | ⟨w, hw, e4⟩
          · exact Or.inl e4
          · exact Or.inr ⟨w, by simp [hw], e4⟩
        · rcases e5 with e5 | ⟨w, hw, e5⟩
          · exact Or.inl e5
          · exact Or.inr ⟨w, by simp [hw], e5⟩

theorem recalc_mem (T : Traits n F) (s : St n F) : (recalc T s).mem = s.mem := by
  unfold recalc; split <;> simp_all

theorem recalc_spec (T : Traits n F) (s : St n F) (h : s.mem ≠ []) :
    (∀ a ∈ s.mem, Within T (recalc T s) a) ∧ Norm (recalc T s) ∧ Attained (recalc T s) := by
  unfold recalc
  split
  case h_1 he => exact absurd he h
  case h_2 v0 m he =>
    have key (i : Fin n) := recalcOne_spec T i m (v0 i) (v0 i) (v0 i) (noWorse_refl _ _)
    simp only [] at key
    refine ⟨?_, fun i => ⟨rfl, rfl⟩, fun i => ⟨?_, ?_⟩⟩
    · intro a ha i
      obtain ⟨e1, e2, e3, -, -⟩ := key i
      rw [he] at ha
      rcases List.mem_cons.1 ha with rfl | ha
      · exact ⟨e1, e2⟩
      · exact e3 a ha
    · obtain ⟨-, -, -, e4, -⟩ := key i
      rcases e4 with e4 | ⟨v, hv, e4⟩
      · exact ⟨v0, by simp [he], e4.symm⟩
      · exact ⟨v, by simp [he, hv], e4⟩
    · obtain ⟨-, -, -, -, e5⟩ := key i
      rcases e5 with e5 | ⟨v, hv, e5⟩
      · exact ⟨v0, by simp [he], e5.symm⟩
      · exact ⟨v, by simp [he, hv], e5⟩

/-- `changeBounds` in all its cases. -/
theorem changeBounds_spec (T : Traits n F) (s : St n F) (p : Fin n → F) :
    ((changeBounds T s p).1 = 1 ∧ (changeBounds T s p).2.mem = s.mem ∧ Norm (changeBounds T s p).2 ∧
      (∃ i, Better (T.minimizing i) (p i) (s.ideal i)) ∧
      (∀ i, (changeBounds T s p).2.ideal i = p i ∨
        (¬ Better (T.minimizing i) (p i) (s.ideal i) ∧ (changeBounds T s p).2.ideal i = s.ideal i)) ∧
      (∀ i, Better (T.minimizing i) (p i) (s.ideal i) → (changeBounds T s p).2.ideal i = p i) ∧
      (∀ i, (changeBounds T s p).2.nadir i = p i ∨ (changeBounds T s p).2.nadir i = s.nadir i) ∧
      (∀ i, NoWorse (T.minimizing i) ((changeBounds T s p).2.ideal i) (s.ideal i) ∧
        NoWorse (T.minimizing i) (s.nadir i) ((changeBounds T s p).2.nadir i) ∧
        NoWorse (T.minimizing i) ((changeBounds T s p).2.ideal i) (p i) ∧
        NoWorse (T.minimizing i) (p i) ((changeBounds T s p).2.nadir i))) ∨
    (changeBounds T s p = (-1, s) ∧ (∀ i, ¬ Better (T.minimizing i) (p i) (s.ideal i)) ∧
      ∃ i, Better (T.minimizing i) (s.nadir i) (p i)) ∨
    (changeBounds T s p = (0, s) ∧ Within T s p) := by
  unfold changeBounds
  by_cases h1 : (List.finRange n).any (fun i => decide (better T i (p i) (s.ideal i))) = true
  · rw [if_pos h1]
    left
    rw [List.any_eq_true] at h1
    obtain ⟨i, -, hi⟩ := h1
    have hi' : better T i (p i) (s.ideal i) := by simpa using hi
    refine ⟨rfl, rfl, fun i => ⟨rfl, rfl⟩, ⟨i, (better_iff T i _ _).1 hi'⟩, fun j => ?_, fun j hj => ?_,
      fun j => ?_, fun j => ⟨?_, ?_, ?_, ?_⟩⟩
    · simp only []
      split_ifs with h
      · exact Or.inl rfl
      · exact Or.inr ⟨by rwa [better_iff] at h, rfl⟩
    · simp only []
      rw [if_pos ((better_iff T j _ _).2 hj)]
    · simp only []
      split_ifs <;> simp
    · simp only []
      split_ifs with h
      · exact better_noWorse _ _ _ ((better_iff T j _ _).1 h)
      · exact noWorse_refl _ _
    · simp only []
      split_ifs with h
      · exact better_noWorse _ _ _ ((better_iff T j _ _).1 h)
      · exact noWorse_refl _ _
    · simp only []
      split_ifs with h
      · exact noWorse_refl _ _
      · rw [noWorse_iff]; rwa [better_iff] at h
    · simp only []
      split_ifs with h
      · exact noWorse_refl _ _
      · rw [noWorse_iff]; rwa [better_iff] at h
  · rw [if_neg h1]
    have hn1 (i : Fin n) : ¬ Better (T.minimizing i) (p i) (s.ideal i) := by
      intro h
      apply h1
      rw [List.any_eq_true]
      exact ⟨i, List.mem_finRange i, by simpa using (better_iff T i _ _).2 h⟩
    right
    by_cases h2 : (List.finRange n).any (fun i => decide (better T i (s.nadir i) (p i))) = true
    · rw [if_pos h2]
      left
      rw [List.any_eq_true] at h2
      obtain ⟨i, -, hi⟩ := h2
      exact ⟨rfl, hn1, i, (better_iff T i _ _).1 (by simpa using hi)⟩
    · rw [if_neg h2]
      right
      refine ⟨rfl, fun i => ⟨by rw [noWorse_iff]; exact hn1 i, ?_⟩⟩
      rw [noWorse_iff]
      intro h
      apply h2
      rw [List.any_eq_true]
      exact ⟨i, List.mem_finRange i, by simpa using (better_iff T i _ _).2 h⟩

theorem byDeleting_cases (T : Traits n F) (s : St n F) (p : Fin n → F) :
    byDeleting T s p = recalc T s ∨ (byDeleting T s p = s ∧ ∀ i, p i ≠ s.ideal i) := by
  unfold byDeleting
  split_ifs with h
  · exact Or.inl rfl
  · right
    refine ⟨rfl, fun i hi => h ?_⟩
    rw [List.any_eq_true]
    exact ⟨i, List.mem_finRange i, by simp [hi]⟩

end bounds

end Paradiseo.Moeo.Eps
