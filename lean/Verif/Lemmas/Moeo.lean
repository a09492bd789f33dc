import Verif.Model.Moeo
import Mathlib.Tactic.Linarith
import Mathlib.Tactic.Ring
import Mathlib.Data.List.Perm.Basic
/-
Helper lemmas for the comparators and the archives of MOEO.
-/
namespace Paradiseo.Moeo

section Cmp
variable {n : Nat} {F : Type} [Field F] [LinearOrder F]

theorem paretoLoop_iff (T : Traits n F) (u v : Fin n → F) (l : List (Fin n)) (dom : Bool) :
    paretoLoop T u v l dom = true ↔
      (∀ i ∈ l, T.tol < |u i - v i| → (T.minimizing i = true → v i < u i) ∧
        (T.minimizing i = false → u i < v i)) ∧
      (dom = true ∨ ∃ i ∈ l, T.tol < |u i - v i|) := by
  induction l generalizing dom with
  | nil => simp [paretoLoop]
  | cons i l ih =>
    unfold paretoLoop
    by_cases h : |u i - v i| > T.tol
    · rw [if_pos h]
      cases hm : T.minimizing i
      · simp only [Bool.false_eq_true, if_false]
        by_cases h2 : u i < v i
        · rw [if_pos h2, ih]; simp [h, hm, h2]
        · rw [if_neg h2]; simp [h, hm, h2]
      · simp only [if_true]
        by_cases h2 : u i > v i
        · rw [if_pos h2, ih]; simp [h, hm, h2]
        · rw [if_neg h2]; simp only [Bool.false_eq_true, false_iff, not_and_or]
          left; intro hh; exact h2 ((hh i (by simp) h).1 hm)
    · rw [if_neg h, ih]; simp [h]

theorem weakLoop_iff (T : Traits n F) (u v : Fin n → F) (l : List (Fin n)) :
    weakLoop T u v l = true ↔
      ∀ i ∈ l, T.tol < |u i - v i| → (T.minimizing i = true → v i ≤ u i) ∧
        (T.minimizing i = false → u i ≤ v i) := by
  induction l with
  | nil => simp [weakLoop]
  | cons i l ih =>
    unfold weakLoop
    by_cases h : |u i - v i| > T.tol
    · rw [if_pos h]
      cases hm : T.minimizing i
      · simp only [Bool.false_eq_true, if_false]
        by_cases h2 : u i > v i
        · rw [if_pos h2]; simp [h, hm, h2]
        · rw [if_neg h2, ih]; simp [hm, not_lt.mp h2]
      · simp only [if_true]
        by_cases h2 : u i < v i
        · rw [if_pos h2]; simp [h, hm, h2]
        · rw [if_neg h2, ih]; simp [hm, not_lt.mp h2]
    · rw [if_neg h, ih]; simp [h]

theorem strictLoop_iff (T : Traits n F) (u v : Fin n → F) (l : List (Fin n)) :
    strictLoop T u v l = true ↔
      ∀ i ∈ l, T.tol ≤ |u i - v i| ∧ (T.minimizing i = true → v i ≤ u i) ∧
        (T.minimizing i = false → u i ≤ v i) := by
  induction l with
  | nil => simp [strictLoop]
  | cons i l ih =>
    unfold strictLoop
    by_cases h : |u i - v i| < T.tol
    · rw [if_pos h]; simp [h]
    · rw [if_neg h]
      cases hm : T.minimizing i
      · simp only [Bool.false_eq_true, if_false]
        by_cases h2 : u i > v i
        · rw [if_pos h2]; simp [hm, h2]
        · rw [if_neg h2, ih]; simp [hm, not_lt.mp h2, not_lt.mp h]
      · simp only [if_true]
        by_cases h2 : u i < v i
        · rw [if_pos h2]; simp [hm, h2]
        · rw [if_neg h2, ih]; simp [hm, not_lt.mp h2, not_lt.mp h]

theorem eqLoop_iff (T : Traits n F) (u v : Fin n → F) (l : List (Fin n)) :
    eqLoop T u v l = true ↔ ∀ i ∈ l, |u i - v i| ≤ T.tol := by
  induction l with
  | nil => simp [eqLoop]
  | cons i l ih =>
    unfold eqLoop
    by_cases h : |u i - v i| > T.tol
    · rw [if_pos h]; simp [h]
    · rw [if_neg h, ih]; simp [not_lt.mp h]

end Cmp

section Archive
variable {X V : Type}

theorem take_set_getLast {arr : List X} {j : Nat} (h : j < arr.length) (hne : arr ≠ []) :
    ((arr.set j (arr.getLast hne)).dropLast).take j = arr.take j := by
  rw [List.dropLast_eq_take, List.take_take, List.length_set, Nat.min_eq_left (by omega),
    List.take_set_of_le (by omega)]

theorem drop_set_getLast_perm {arr : List X} {j : Nat} (h : j < arr.length) (hne : arr ≠ []) :
    (((arr.set j (arr.getLast hne)).dropLast).drop j).Perm (arr.drop (j + 1)) := by
  -- write `arr = a ++ x :: b`
  obtain ⟨a, x, b, hab, hj⟩ : ∃ a x b, arr = a ++ x :: b ∧ a.length = j :=
    ⟨arr.take j, arr[j], arr.drop (j + 1), by simp, by simp; omega⟩
  subst hab; subst hj
  rcases List.eq_nil_or_concat b with rfl | ⟨b', y, rfl⟩
  · simp
  · have e1 : (a ++ x :: b'.concat y) = a ++ x :: (b' ++ [y]) := by simp
    have e2 : (a ++ x :: b'.concat y).getLast hne = y := by simp
    rw [e2]
    simp only [List.concat_eq_append, List.set_append_right _ _ (Nat.le_refl _), Nat.sub_self,
      List.set_cons_zero]
    have e3 : (a ++ y :: (b' ++ [y])).dropLast = a ++ y :: b' := by
      rw [show a ++ y :: (b' ++ [y]) = (a ++ y :: b') ++ [y] by simp, List.dropLast_concat]
    rw [e3]
    have e4 : (a ++ y :: b').drop a.length = y :: b' := by simp
    have e5 : (a ++ x :: (b' ++ [y])).drop (a.length + 1) = b' ++ [y] := by
      rw [List.drop_append]; simp
    rw [e4, e5]
    exact (List.perm_append_singleton y b').symm

theorem removeLoop_perm (bad : X → Bool) (arr : List X) (j : Nat) :
    (removeLoop bad arr j).Perm (arr.take j ++ (arr.drop j).filter (fun x => !bad x)) := by
  induction arr, j using removeLoop.induct bad with
  | case1 arr j h hb ih =>
    unfold removeLoop; rw [dif_pos h, if_pos hb]
    refine ih.trans ?_
    rw [take_set_getLast h]
    refine List.Perm.append_left _ ?_
    have hd : arr.drop j = arr[j] :: arr.drop (j + 1) := List.drop_eq_getElem_cons h
    rw [hd, List.filter_cons, if_neg (by simpa using hb)]
    exact (drop_set_getLast_perm h _).filter _
  | case2 arr j h hb ih =>
    unfold removeLoop; rw [dif_pos h, if_neg hb]
    refine ih.trans ?_
    have hd : arr.drop j = arr[j] :: arr.drop (j + 1) := List.drop_eq_getElem_cons h
    rw [hd, List.filter_cons, if_pos (by simpa using hb), show arr.take (j + 1) = arr.take j ++ [arr[j]] from
      List.take_succ_eq_append_getElem h,
      List.append_assoc, List.singleton_append]
  | case3 arr j h =>
    unfold removeLoop; rw [dif_neg h]
    rw [List.take_of_length_le (by omega), List.drop_eq_nil_of_le (by omega)]; simp

theorem removeLoop_filter (bad : X → Bool) (arr : List X) :
    (removeLoop bad arr 0).Perm (arr.filter (fun x => !bad x)) := by
  simpa using removeLoop_perm bad arr 0

theorem mem_removeLoop (bad : X → Bool) (arr : List X) (x : X) :
    x ∈ removeLoop bad arr 0 ↔ x ∈ arr ∧ bad x = false := by
  rw [(removeLoop_filter bad arr).mem_iff]; simp

theorem removeLoop_id (bad : X → Bool) (arr : List X) (j : Nat)
    (h : ∀ x ∈ arr, bad x = false) : removeLoop bad arr j = arr := by
  induction arr, j using removeLoop.induct bad with
  | case1 arr j hj hb ih => simp [h _ (List.getElem_mem hj)] at hb
  | case2 arr j hj hb ih => unfold removeLoop; rw [dif_pos hj, if_neg hb]; exact ih h
  | case3 arr j hj => unfold removeLoop; rw [dif_neg hj]

end Archive

end Paradiseo.Moeo
