import Verif.Model.SymTree

/-! Lemmas on expressions as trees: the preorder listing determines the tree, what subtree access and
replacement do to it. -/

namespace Paradiseo.MathSym

open Paradiseo.EO

variable {T : Type}

mutual
/-- The nodes of a tree in the order a parent, then its arguments: token and number of arguments. -/
def Tree.pre : Tree T → List (T × Nat)
  | .node t as => (t, as.length) :: pres as
def pres : List (Tree T) → List (T × Nat)
  | [] => []
  | a :: as => a.pre ++ pres as
end

mutual
theorem length_pre : (t : Tree T) → t.pre.length = t.size
  | .node t as => by
    show (pres as).length + 1 = 1 + sizes as
    rw [length_pres as]; omega
theorem length_pres : (as : List (Tree T)) → (pres as).length = sizes as
  | [] => rfl
  | a :: as => by
    show (a.pre ++ pres as).length = a.size + sizes as
    rw [List.length_append, length_pre a, length_pres as]
end

theorem size_pos (t : Tree T) : 0 < t.size := by
  cases t; show 0 < 1 + _; omega

mutual
theorem pre_inj : (t t' : Tree T) → (r r' : List (T × Nat)) → t.pre ++ r = t'.pre ++ r' → t = t' ∧ r = r'
  | .node t as, .node t' as', r, r', h => by
    have h' : (t, as.length) :: (pres as ++ r) = (t', as'.length) :: (pres as' ++ r') := h
    have h1 := (List.cons.inj h').1
    have h2 := (List.cons.inj h').2
    have ht : t = t' := congrArg Prod.fst h1
    have hl : as.length = as'.length := congrArg Prod.snd h1
    have := pres_inj as as' r r' hl h2
    exact ⟨by rw [ht, this.1], this.2⟩
theorem pres_inj : (as as' : List (Tree T)) → (r r' : List (T × Nat)) → as.length = as'.length →
    pres as ++ r = pres as' ++ r' → as = as' ∧ r = r'
  | [], [], r, r', _, h => ⟨rfl, h⟩
  | [], _ :: _, _, _, hl, _ => by simp at hl
  | _ :: _, [], _, _, hl, _ => by simp at hl
  | a :: as, a' :: as', r, r', hl, h => by
    have h' : a.pre ++ (pres as ++ r) = a'.pre ++ (pres as' ++ r') := by
      have : (a.pre ++ pres as) ++ r = (a'.pre ++ pres as') ++ r' := h
      simpa [List.append_assoc] using this
    have h1 := pre_inj a a' _ _ h'
    have h2 := pres_inj as as' r r' (by simpa using hl) h1.2
    exact ⟨by rw [h1.1, h2.1], h2.2⟩
end

theorem pre_injective {t t' : Tree T} (h : t.pre = t'.pre) : t = t' :=
  (pre_inj t t' [] [] (by simpa using h)).1

mutual
theorem get_pre : (t : Tree T) → (w : Nat) → w < t.size →
    ∃ l r, t.pre = l ++ ((t.get w).pre ++ r) ∧ l.length = w
  | .node t as, 0, _ => ⟨[], [], by simp [Tree.get], rfl⟩
  | .node t as, w + 1, h => by
    have h' : w < sizes as := by
      have : w + 1 < 1 + sizes as := h
      omega
    obtain ⟨s, e, l, r, e1, e2⟩ := getArgs_pre as w h'
    refine ⟨(t, as.length) :: l, r, ?_, by simp [e2]⟩
    have eg : (Tree.node t as).get (w + 1) = s := by
      show (getArgs as w).getD _ = s
      rw [e]; rfl
    rw [eg]
    show (t, as.length) :: pres as = _
    rw [e1]; rfl
theorem getArgs_pre : (as : List (Tree T)) → (w : Nat) → w < sizes as →
    ∃ s, getArgs as w = some s ∧ ∃ l r, pres as = l ++ (s.pre ++ r) ∧ l.length = w
  | [], w, h => absurd h (Nat.not_lt_zero w)
  | a :: as, w, h => by
    have h' : w < a.size + sizes as := h
    by_cases hw : w < a.size
    · obtain ⟨l, r, e1, e2⟩ := get_pre a w hw
      refine ⟨a.get w, by rw [getArgs, if_pos hw], l, r ++ pres as, ?_, e2⟩
      show a.pre ++ pres as = _
      rw [e1]; simp [List.append_assoc]
    · obtain ⟨s, e, l, r, e1, e2⟩ := getArgs_pre as (w - a.size) (by omega)
      refine ⟨s, by rw [getArgs, if_neg hw, e], a.pre ++ l, r, ?_, ?_⟩
      · show a.pre ++ pres as = _
        rw [e1]; simp [List.append_assoc]
      · rw [List.length_append, length_pre, e2]; omega
end

theorem getArgs_none : (as : List (Tree T)) → (w : Nat) → sizes as ≤ w → getArgs as w = none
  | [], _, _ => rfl
  | a :: as, w, h => by
    have h' : a.size + sizes as ≤ w := h
    rw [getArgs, if_neg (by omega)]
    exact getArgs_none as _ (by omega)

mutual
theorem insertImpl_pre : (t : Tree T) → (w : Nat) → (nw : Tree T) → w < t.size →
    ∃ t' ch, t.insertImpl w nw = .ok (t', ch) ∧ (ch = true ↔ t' ≠ t) ∧
      ∃ l r, t.pre = l ++ ((t.get w).pre ++ r) ∧ l.length = w ∧ t'.pre = l ++ (nw.pre ++ r)
  | .node t as, 0, nw, _ =>
    ⟨nw, _, by rw [Tree.insertImpl], by simp, [], [], by simp [Tree.get], rfl, by simp⟩
  | .node t as, w + 1, nw, h => by
    have h' : w < sizes as := by
      have : w + 1 < 1 + sizes as := h
      omega
    obtain ⟨as', ch, e, hch, hlen, s, es, l, r, e1, e2, e3⟩ := insertArgs_pre as w nw h'
    have eg : (Tree.node t as).get (w + 1) = s := by
      show (getArgs as w).getD _ = s
      rw [es]; rfl
    by_cases hc : ch = true
    · refine ⟨.node t as', true, ?_, ?_, (t, as.length) :: l, r, ?_, by simp [e2], ?_⟩
      · rw [Tree.insertImpl, e]; simp [hc]
      · simpa [hc] using hch
      · rw [eg]
        show (t, as.length) :: pres as = _
        rw [e1]; rfl
      · show (t, as'.length) :: pres as' = _
        rw [e3, hlen]; rfl
    · have has : as' = as := by
        by_contra hne
        exact hc (hch.mpr hne)
      refine ⟨.node t as, false, ?_, by simp, (t, as.length) :: l, r, ?_, by simp [e2], ?_⟩
      · rw [Tree.insertImpl, e]; simp [hc]
      · rw [eg]
        show (t, as.length) :: pres as = _
        rw [e1]; rfl
      · show (t, as.length) :: pres as = _
        rw [← has, e3, has]; rfl
theorem insertArgs_pre : (as : List (Tree T)) → (w : Nat) → (nw : Tree T) → w < sizes as →
    ∃ as' ch, insertArgs as w nw = .ok (as', ch) ∧ (ch = true ↔ as' ≠ as) ∧ as'.length = as.length ∧
      ∃ s, getArgs as w = some s ∧
        ∃ l r, pres as = l ++ (s.pre ++ r) ∧ l.length = w ∧ pres as' = l ++ (nw.pre ++ r)
  | [], w, _, h => absurd h (Nat.not_lt_zero w)
  | a :: as, w, nw, h => by
    have h' : w < a.size + sizes as := h
    by_cases hw : w < a.size
    · obtain ⟨a', ch, e, hch, l, r, e1, e2, e3⟩ := insertImpl_pre a w nw hw
      refine ⟨a' :: as, ch, by rw [insertArgs, if_pos hw, e], by simpa using hch, rfl,
        a.get w, by rw [getArgs, if_pos hw], l, r ++ pres as, ?_, e2, ?_⟩
      · show a.pre ++ pres as = _
        rw [e1]; simp [List.append_assoc]
      · show a'.pre ++ pres as = _
        rw [e3]; simp [List.append_assoc]
    · obtain ⟨as', ch, e, hch, hlen, s, es, l, r, e1, e2, e3⟩ := insertArgs_pre as (w - a.size) nw (by omega)
      refine ⟨a :: as', ch, by rw [insertArgs, if_neg hw, e], by simpa using hch, by simp [hlen],
        s, by rw [getArgs, if_neg hw, es], a.pre ++ l, r, ?_, ?_, ?_⟩
      · show a.pre ++ pres as = _
        rw [e1]; simp [List.append_assoc]
      · rw [List.length_append, length_pre, e2]; omega
      · show a.pre ++ pres as' = _
        rw [e3]; simp [List.append_assoc]
end

theorem insertArgs_ub : (as : List (Tree T)) → (w : Nat) → (nw : Tree T) → sizes as ≤ w →
    insertArgs as w nw = .error .ub
  | [], _, _, _ => rfl
  | a :: as, w, nw, h => by
    have h' : a.size + sizes as ≤ w := h
    rw [insertArgs, if_neg (by omega), insertArgs_ub as _ nw (by omega)]

end Paradiseo.MathSym
