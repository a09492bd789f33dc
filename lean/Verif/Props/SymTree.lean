import Verif.Lemmas.SymTree
import Mathlib.Tactic.Linarith
import Mathlib.Tactic.NormNum
import Mathlib.Tactic.Ring
import Mathlib.Algebra.Order.Floor.Ring
import Mathlib.Data.Rat.Floor

/-!
# Properties of expressions as trees (mathsym)

Specification: the preorder listing of a tree (`Tree.pre`, token and number of arguments of each node; it
determines the tree, `C242_listing_determines`), and the node at a place (`Tree.at?`).
-/

namespace Paradiseo.MathSym

open Paradiseo.EO

variable {T : Type}

/-- The subtree at a place: the argument numbers that lead to it. -/
def Tree.at? : Tree T → List Nat → Option (Tree T)
  | t, [] => some t
  | .node _ as, k :: p =>
    match as[k]? with
    | none => none
    | some a => a.at? p

/-! ### C242: access and replacement by number, crossover of subtrees -/

/-- The listing determines the tree. -/
theorem C242_listing_determines {t t' : Tree T} (h : t.pre = t'.pre) : t = t' := pre_injective h

/-- Number `i` is the `i`-th node in preorder: its listing is the part of the listing that starts there. -/
theorem C242_get {t : Tree T} {i : Nat} (h : i < t.size) :
    (t.get i).pre = (t.pre.drop i).take (t.get i).size := by
  obtain ⟨l, r, e1, e2⟩ := get_pre t i h
  rw [e1, ← e2, List.drop_left, ← length_pre, List.take_left]

/-- A number that is too large silently gives the whole expression. -/
theorem C242_get_beyond {t : Tree T} {i : Nat} (h : t.size ≤ i) : t.get i = t := by
  cases t with
  | node t as =>
    have h' : 1 + sizes as ≤ i := h
    obtain ⟨w, rfl⟩ : ∃ w, i = w + 1 := ⟨i - 1, by omega⟩
    show (getArgs as w).getD _ = _
    rw [getArgs_none as w (by omega)]; rfl

/-- Replacement changes the part of the listing that belongs to the node and nothing else. -/
theorem C242_insert {t : Tree T} {i : Nat} (s : Tree T) (h : i < t.size) :
    ∃ t', t.insert i s = .ok t' ∧
      t'.pre = t.pre.take i ++ s.pre ++ t.pre.drop (i + (t.get i).size) := by
  obtain ⟨t', ch, e, _, l, r, e1, e2, e3⟩ := insertImpl_pre t i s h
  refine ⟨t', by rw [Tree.insert, e], ?_⟩
  rw [e3, e1, ← e2, List.take_left, ← List.drop_drop, List.drop_left, ← length_pre, List.drop_left,
    List.append_assoc]

/-- With a number that is too large replacement writes outside the arguments. -/
theorem C242_insert_beyond {t : Tree T} {i : Nat} (s : Tree T) (h : t.size ≤ i) :
    t.insert i s = .error .ub := by
  cases t with
  | node t as =>
    have h' : 1 + sizes as ≤ i := h
    obtain ⟨w, rfl⟩ : ∃ w, i = w + 1 := ⟨i - 1, by omega⟩
    rw [Tree.insert, Tree.insertImpl, insertArgs_ub as w s (by omega)]

/-- What was put in is what is found there. -/
theorem C242_get_insert {t t' s : Tree T} {i : Nat} (h : i < t.size) (he : t.insert i s = .ok t') :
    i < t'.size ∧ t'.get i = s := by
  obtain ⟨t'', ch, e, _, l, r, e1, e2, e3⟩ := insertImpl_pre t i s h
  have : t'' = t' := by
    rw [Tree.insert, e] at he
    exact Except.ok.inj he
  subst this
  have hlt : i < t''.size := by
    rw [← length_pre, e3, List.length_append, List.length_append, length_pre, e2]
    have := size_pos s
    omega
  refine ⟨hlt, ?_⟩
  obtain ⟨l', r', e1', e2'⟩ := get_pre t'' i hlt
  rw [e1'] at e3
  have := List.append_inj e3 (by rw [e2, e2'])
  exact (pre_inj _ _ _ _ this.2).1

/-- Putting a subtree back where it was changes nothing. -/
theorem C242_insert_same {t : Tree T} {i : Nat} (h : i < t.size) : t.insert i (t.get i) = .ok t := by
  obtain ⟨t', ch, e, _, l, r, e1, e2, e3⟩ := insertImpl_pre t i (t.get i) h
  rw [Tree.insert, e]
  rw [← e1] at e3
  rw [pre_injective e3]

/-- Crossover of subtrees moves nodes: with selections that return the subtree of the number they return, the
two children have together exactly the nodes of the two parents. -/
theorem C242_quad {a b : Tree T} {sa sb : Selection T} (ha : sa.idx < a.size) (hb : sb.idx < b.size)
    (hsa : sa.subtree = a.get sa.idx) (hsb : sb.subtree = b.get sb.idx) :
    ∃ a' b', subtreeQuad a b sa sb = .ok (a', b') ∧ (a'.pre ++ b'.pre).Perm (a.pre ++ b.pre) ∧
      a'.size + b'.size = a.size + b.size := by
  obtain ⟨a', ch, e, _, l, r, e1, e2, e3⟩ := insertImpl_pre a sa.idx sb.subtree ha
  obtain ⟨b', ch', e', _, l', r', e1', e2', e3'⟩ := insertImpl_pre b sb.idx sa.subtree hb
  have hperm : (a'.pre ++ b'.pre).Perm (a.pre ++ b.pre) := by
    classical
    rw [List.perm_iff_count]
    intro x
    rw [e3, e3', e1, e1', hsa, hsb]
    simp only [List.count_append]
    omega
  refine ⟨a', b', ?_, hperm, ?_⟩
  · rw [subtreeQuad, Tree.insert, e]
    dsimp only
    rw [Tree.insert, e']
  · have := hperm.length_eq
    simpa [length_pre] using this

/-- The random selector returns the subtree of the number it returns. -/
theorem C242_random_selector (r : Nat) (t : Tree T) :
    (randomSelect r t).subtree = t.get (randomSelect r t).idx := rfl

theorem biasedLoop_spec (r : Nat → Nat) (t : Tree T) : ∀ (n k p : Nat) (res : Option (Tree T)),
    (∃ s, biasedLoop r t n k p res = (p, some s) ∧ s = t.get p ∧ s.args.length > 0) ∨
    (∃ j < n, 0 < j ∧ biasedLoop r t n k p res = (r (k + j - 1), some (t.get (r (k + j - 1)))) ∧
      (t.get (r (k + j - 1))).args.length > 0) ∨
    ((t.get p).args = [] ∨ n = 0) ∧ (∀ j, 0 < j → j < n → (t.get (r (k + j - 1))).args = []) ∧
      biasedLoop r t n k p res =
        (if n = 0 then p else r (k + n - 1),
         if n = 0 then res else if n = 1 then some (t.get p) else some (t.get (r (k + n - 2))))
  | 0, k, p, res => Or.inr (Or.inr ⟨Or.inr rfl, fun j h1 h2 => absurd h2 (by omega), rfl⟩)
  | n + 1, k, p, res => by
    by_cases hp : (t.get p).args.length > 0
    · exact Or.inl ⟨t.get p, by rw [biasedLoop, if_pos hp], rfl, hp⟩
    · have hp' : (t.get p).args = [] := by
        rcases h : (t.get p).args with _ | ⟨a, as⟩
        · rfl
        · rw [h] at hp; simp at hp
      have e : biasedLoop r t (n + 1) k p res = biasedLoop r t n (k + 1) (r k) (some (t.get p)) := by
        rw [biasedLoop, if_neg hp]
      rw [e]
      rcases biasedLoop_spec r t n (k + 1) (r k) (some (t.get p)) with
        ⟨s, e1, e2, e3⟩ | ⟨j, hj, hj0, e1, e2⟩ | ⟨h1, h2, e1⟩
      · rcases Nat.eq_zero_or_pos n with hn | hn
        · subst hn
          rw [biasedLoop] at e1
          right; right
          refine ⟨Or.inl hp', fun j a b => absurd b (by omega), ?_⟩
          rw [biasedLoop]; simp
        · right; left
          refine ⟨1, by omega, by omega, ?_, ?_⟩
          · rw [e1, e2]; simp
          · rw [e2] at e3; simpa using e3
      · right; left
        refine ⟨j + 1, by omega, by omega, ?_, ?_⟩
        · rw [e1]
          have : k + 1 + j - 1 = k + (j + 1) - 1 := by omega
          rw [this]
        · have : k + 1 + j - 1 = k + (j + 1) - 1 := by omega
          rw [this] at e2
          exact e2
      · right; right
        refine ⟨Or.inl hp', ?_, ?_⟩
        · intro j hj1 hj2
          rcases Nat.lt_or_ge j 2 with h | h
          · have : j = 1 := by omega
            subst this
            rcases h1 with h1 | h1
            · simpa using h1
            · omega
          · have := h2 (j - 1) (by omega) (by omega)
            have e' : k + 1 + (j - 1) - 1 = k + j - 1 := by omega
            rw [e'] at this
            exact this
        · rw [e1]
          rcases n with _ | n
          · simp
          · rcases n with _ | n
            · simp
            · simp only [Nat.succ_ne_zero, if_false, Nat.add_eq_zero_iff, one_ne_zero, and_false,
                Nat.add_eq_right]
              have a1 : k + 1 + (n + 1 + 1) - 1 = k + (n + 1 + 1 + 1) - 1 := by omega
              have a2 : k + 1 + (n + 1 + 1) - 2 = k + (n + 1 + 1 + 1) - 2 := by omega
              rw [a1, a2]

/-- The biased selector returns the subtree of its number whenever one of the nodes it tried has arguments. -/
theorem C242_biased_inner {rounds : Nat} {r : Nat → Nat} {t : Tree T} {j : Nat} (hj : j < rounds)
    (hin : (t.get (r j)).args ≠ []) :
    (biasedSelect rounds r t).subtree = t.get (biasedSelect rounds r t).idx ∧
      (biasedSelect rounds r t).subtree.args ≠ [] := by
  rcases biasedLoop_spec r t rounds 1 (r 0) none with
    ⟨s, e1, e2, e3⟩ | ⟨i, hi, hi0, e1, e2⟩ | ⟨h1, h2, e1⟩
  · rw [biasedSelect, e1]
    refine ⟨e2, ?_⟩
    intro h
    have h' : s.args = [] := h
    rw [h'] at e3; simp at e3
  · rw [biasedSelect, e1]
    refine ⟨rfl, ?_⟩
    intro h
    have h' : (t.get (r (1 + i - 1))).args = [] := h
    rw [h'] at e2; simp at e2
  · exfalso
    rcases Nat.eq_zero_or_pos j with h | h
    · subst h
      rcases h1 with h1 | h1
      · exact hin h1
      · omega
    · have := h2 j h hj
      rw [show 1 + j - 1 = j from by omega] at this
      exact hin this

/-- If all the nodes it tries are leaves, it returns the last leaf tried together with the number of a node it
has drawn since and not looked at. -/
theorem C242_biased_leaves {rounds : Nat} {r : Nat → Nat} {t : Tree T} (h0 : 0 < rounds)
    (hl : ∀ j < rounds, (t.get (r j)).args = []) :
    (biasedSelect rounds r t).idx = r rounds ∧
      (biasedSelect rounds r t).subtree = t.get (r (rounds - 1)) := by
  rcases biasedLoop_spec r t rounds 1 (r 0) none with
    ⟨s, e1, e2, e3⟩ | ⟨i, hi, hi0, e1, e2⟩ | ⟨h1, h2, e1⟩
  · exfalso
    rw [e2, hl 0 h0] at e3; simp at e3
  · exfalso
    rw [show 1 + i - 1 = i from by omega, hl i hi] at e2; simp at e2
  · rw [biasedSelect, e1]
    rw [if_neg (by omega), if_neg (by omega)]
    refine ⟨by rw [show 1 + rounds - 1 = rounds from by omega], ?_⟩
    by_cases h : rounds = 1
    · subst h; rfl
    · rw [if_neg h]
      show t.get _ = _
      rw [show 1 + rounds - 2 = rounds - 1 from by omega]

/-- Then crossover does not exchange subtrees: nodes are lost. -/
theorem C242_biased_loses :
    ∃ (a b : Tree Nat) (r : Nat → Nat) (a' b' : Tree Nat),
      (∀ k, r k < b.size) ∧
      subtreeQuad a b (randomSelect 1 a) (biasedSelect 3 r b) = .ok (a', b') ∧
      a'.size + b'.size < a.size + b.size := by
  refine ⟨.node 5 [.node 6 []], .node 0 [.node 1 [], .node 2 []], fun k => if k < 3 then 1 else 0,
    .node 5 [.node 1 []], .node 6 [], ?_, ?_, by decide⟩
  · intro k
    show (if k < 3 then 1 else 0) < 3
    split <;> omega
  · have hs : biasedSelect 3 (fun k => if k < 3 then 1 else 0) (Tree.node 0 [.node 1 [], .node 2 []]) =
        ⟨.node 0 [.node 1 [], .node 2 []], 0, some (.node 1 [])⟩ := rfl
    rw [hs]
    simp [subtreeQuad, Tree.insert, Tree.insertImpl, insertArgs, randomSelect, Selection.subtree, Tree.size,
      sizes, Tree.get, getArgs]

example : ∃ a' b', subtreeQuad (Tree.node 5 [.node 6 []]) (.node 0 [.node 1 [], .node 2 []])
    (randomSelect 1 (Tree.node 5 [.node 6 []]))
    (randomSelect 2 (Tree.node 0 [.node 1 [], .node 2 []])) = .ok (a', b') ∧
      (a'.pre ++ b'.pre).Perm ((Tree.node 5 [.node 6 []]).pre ++ (Tree.node 0 [.node 1 [], .node 2 []]).pre) ∧
      a'.size + b'.size = 2 + 3 :=
  C242_quad (by decide) (by decide) rfl rfl

/-! ### C243: homologous crossover, mutation of nodes -/

theorem homologArgs_get (u : List Nat → Bool) (p : List Nat) : ∀ (as bs : List (Tree T)) (i k : Nat),
    (homologArgs u p i as bs)[k]? =
      match as[k]?, bs[k]? with
      | some a, some b => some (homolog u (p ++ [i + k]) a b)
      | _, _ => none
  | [], bs, i, k => by simp [homologArgs]
  | a :: as, [], i, k => by
    rw [homologArgs]
    simp only [List.getElem?_nil]
    cases (a :: as)[k]? <;> rfl
  | a :: as, b :: bs, i, 0 => by simp [homologArgs]
  | a :: as, b :: bs, i, k + 1 => by
    rw [homologArgs]
    simp only [List.getElem?_cons_succ]
    rw [homologArgs_get u p as bs (i + 1) k]
    rw [show i + 1 + k = i + (k + 1) from by omega]

theorem homologArgs_length (u : List Nat → Bool) (p : List Nat) : ∀ (as bs : List (Tree T)) (i : Nat),
    (homologArgs u p i as bs).length = min as.length bs.length
  | [], bs, i => by simp [homologArgs]
  | a :: as, [], i => by simp [homologArgs]
  | a :: as, b :: bs, i => by
    rw [homologArgs, List.length_cons, homologArgs_length u p as bs (i + 1)]
    simp only [List.length_cons]; omega

theorem homolog_same (u : List Nat → Bool) (p : List Nat) (a : Tree T) : homolog u p a a = a := by
  cases a; rw [homolog, if_pos rfl]

/-- What is at a node of the child: the head and, for each argument number, the crossover of the arguments
both have or the argument of the parent whose head was taken. -/
theorem homolog_cases (u : List Nat → Bool) (p : List Nat) (ta tb : T) (as bs : List (Tree T))
    (hne : Tree.node ta as ≠ Tree.node tb bs) :
    ∃ args, homolog u p (.node ta as) (.node tb bs) = .node (if u p then ta else tb) args ∧
      ∀ k, args[k]? =
        match as[k]?, bs[k]? with
        | some a, some b => some (homolog u (p ++ [k]) a b)
        | _, _ => (if u p then as else bs)[k]? := by
  have hlen := homologArgs_length u p as bs 0
  have hk : ∀ k, (homologArgs u p 0 as bs ++
      (if u p then as else bs).drop (homologArgs u p 0 as bs).length)[k]? =
        match as[k]?, bs[k]? with
        | some a, some b => some (homolog u (p ++ [k]) a b)
        | _, _ => (if u p then as else bs)[k]? := by
    intro k
    by_cases hlt : k < (homologArgs u p 0 as bs).length
    · rw [List.getElem?_append_left hlt, homologArgs_get, Nat.zero_add]
      rw [hlen] at hlt
      have h1 : k < as.length := by omega
      have h2 : k < bs.length := by omega
      rw [List.getElem?_eq_getElem h1, List.getElem?_eq_getElem h2]
    · rw [List.getElem?_append_right (by omega), List.getElem?_drop]
      rw [show (homologArgs u p 0 as bs).length + (k - (homologArgs u p 0 as bs).length) = k from by omega]
      rw [hlen] at hlt
      rcases Nat.lt_or_ge k as.length with h1 | h1
      · have h2 : bs.length ≤ k := by omega
        rw [List.getElem?_eq_none h2]
        cases as[k]? <;> rfl
      · have : as[k]? = none := List.getElem?_eq_none h1
        rw [this]
  by_cases hc : (!(u p)) = true ∨ (∃ i, i < (homologArgs u p 0 as bs).length ∧
      (homologArgs u p 0 as bs)[i]? ≠ as[i]?)
  · exact ⟨_, by rw [homolog, if_neg hne]; exact if_pos hc, hk⟩
  · have hu : u p = true := by
      by_contra h
      exact hc (Or.inl (by simpa using h))
    refine ⟨as, ?_, ?_⟩
    · rw [homolog, if_neg hne]
      dsimp only
      rw [if_neg hc, if_pos hu]
    · intro k
      rw [← hk k]
      by_cases hlt : k < (homologArgs u p 0 as bs).length
      · rw [List.getElem?_append_left hlt]
        by_contra h
        exact hc (Or.inr ⟨k, hlt, fun e => h e.symm⟩)
      · rw [List.getElem?_append_right (by omega), List.getElem?_drop]
        rw [show (homologArgs u p 0 as bs).length + (k - (homologArgs u p 0 as bs).length) = k from by omega,
          if_pos hu]

/-- Every node of the child is the node one of the parents has at the same place. -/
theorem C243_homologous_from_parents (u : List Nat → Bool) : ∀ (p q : List Nat) (a b c : Tree T),
    (homolog u q a b).at? p = some c →
      (∃ a', a.at? p = some a' ∧ a'.token = c.token) ∨ (∃ b', b.at? p = some b' ∧ b'.token = c.token)
  | [], q, .node ta as, .node tb bs, c, h => by
    by_cases hne : Tree.node ta as = Tree.node tb bs
    · rw [hne, homolog_same] at h
      exact Or.inr ⟨c, h, rfl⟩
    · obtain ⟨args, e, _⟩ := homolog_cases u q ta tb as bs hne
      rw [e] at h
      have h' : Tree.node (if u q then ta else tb) args = c := Option.some.inj h
      subst h'
      by_cases hu : u q = true
      · exact Or.inl ⟨_, rfl, by simp [Tree.token, hu]⟩
      · exact Or.inr ⟨_, rfl, by simp [Tree.token, hu]⟩
  | k :: p, q, .node ta as, .node tb bs, c, h => by
    by_cases hne : Tree.node ta as = Tree.node tb bs
    · rw [hne, homolog_same] at h
      exact Or.inr ⟨c, h, rfl⟩
    · obtain ⟨args, e, hk⟩ := homolog_cases u q ta tb as bs hne
      rw [e, Tree.at?, hk k] at h
      rcases ha : as[k]? with _ | x
      · rw [ha] at h
        by_cases hu : u q = true
        · simp [hu, ha] at h
        · simp only [hu] at h
          rcases hb : bs[k]? with _ | y
          · simp [hb] at h
          · right
            simp [hb] at h
            exact ⟨c, by rw [Tree.at?, hb]; exact h, rfl⟩
      · rcases hb : bs[k]? with _ | y
        · rw [ha, hb] at h
          by_cases hu : u q = true
          · left
            simp only [hu, if_true, ha] at h
            exact ⟨c, by rw [Tree.at?, ha]; exact h, rfl⟩
          · simp [hu, hb] at h
        · rw [ha, hb] at h
          have h' : (homolog u (q ++ [k]) x y).at? p = some c := h
          rcases C243_homologous_from_parents u p _ x y c h' with ⟨a', e1, e2⟩ | ⟨b', e1, e2⟩
          · exact Or.inl ⟨a', by rw [Tree.at?, ha]; exact e1, e2⟩
          · exact Or.inr ⟨b', by rw [Tree.at?, hb]; exact e1, e2⟩

/-- Every place both parents have, the child has. -/
theorem C243_homologous_common (u : List Nat → Bool) : ∀ (p q : List Nat) (a b : Tree T),
    a.at? p ≠ none → b.at? p ≠ none → (homolog u q a b).at? p ≠ none
  | [], q, a, b, _, _ => by
    cases homolog u q a b
    simp [Tree.at?]
  | k :: p, q, .node ta as, .node tb bs, h1, h2 => by
    by_cases hne : Tree.node ta as = Tree.node tb bs
    · rw [hne, homolog_same]; exact h2
    · obtain ⟨args, e, hk⟩ := homolog_cases u q ta tb as bs hne
      rw [Tree.at?] at h1 h2
      rw [e, Tree.at?, hk k]
      rcases ha : as[k]? with _ | x
      · rw [ha] at h1; exact absurd rfl h1
      · rcases hb : bs[k]? with _ | y
        · rw [hb] at h2; exact absurd rfl h2
        · rw [ha] at h1
          rw [hb] at h2
          exact C243_homologous_common u p (q ++ [k]) x y h1 h2

/-- The result of the operator says exactly whether the individual changed. -/
theorem C243_homologous_report (u : List Nat → Bool) (a b : Tree T) :
    (homologousBin u a b).2 = true ↔ (homologousBin u a b).1 ≠ a := by
  unfold homologousBin
  by_cases h : a = b
  · rw [if_pos h]; simp
  · rw [if_neg h]
    simp only [decide_eq_true_eq, ne_eq]
    exact ⟨fun h e => h e.symm, fun h e => h e.symm⟩

mutual
/-- Mutation says exactly whether the tree changed. -/
theorem C243_mutate_report (l : Language T) (flip : List Nat → Bool) (c : List Nat → Nat) :
    (p : List Nat) → (t : Tree T) → ((doMutate l flip c p t).2 = true ↔ (doMutate l flip c p t).1 ≠ t)
  | p, .node t as => by
    have ih := mutateArgs_report l flip c p 0 as
    rw [doMutate]
    by_cases h : (if flip p then l.pick (c p) t as.length else t) ≠ t ∨ (mutateArgs l flip c p 0 as).2 = true
    · rw [if_pos h]
      simp only [ne_eq, true_iff, Tree.node.injEq, not_and_or]
      rcases h with h | h
      · exact Or.inl h
      · exact Or.inr (ih.mp h)
    · rw [if_neg h]; simp
theorem mutateArgs_report (l : Language T) (flip : List Nat → Bool) (c : List Nat → Nat) :
    (p : List Nat) → (i : Nat) → (as : List (Tree T)) →
      ((mutateArgs l flip c p i as).2 = true ↔ (mutateArgs l flip c p i as).1 ≠ as)
  | p, i, [] => by simp [mutateArgs]
  | p, i, a :: as => by
    have h1 := C243_mutate_report l flip c (p ++ [i]) a
    have h2 := mutateArgs_report l flip c p (i + 1) as
    rw [mutateArgs]
    dsimp only
    rw [Bool.or_eq_true, h2, Ne, Ne, List.cons.injEq, not_and_or]
    by_cases hr : (doMutate l flip c (p ++ [i]) a).2 = true
    · simp only [hr, if_true, true_or, true_iff]
      exact Or.inl (h1.mp hr)
    · simp [hr]
end

/-- The token of a node may become another one of the language with the same number of arguments, nothing else
changes. -/
def MutStep (l : Language T) (x y : T × Nat) : Prop :=
  y.2 = x.2 ∧ (y.1 = x.1 ∨ ∃ ts, l.perArity[x.2]? = some ts ∧ y.1 ∈ ts)

theorem pick_mem (l : Language T) (c : Nat) (t : T) (n : Nat) :
    l.pick c t n = t ∨ ∃ ts, l.perArity[n]? = some ts ∧ l.pick c t n ∈ ts := by
  unfold Language.pick
  split
  · exact Or.inl rfl
  · exact Or.inl rfl
  · rename_i x xs h
    right
    refine ⟨x :: xs, h, ?_⟩
    have hlt : c % (xs.length + 1) < (x :: xs).length := Nat.mod_lt _ (by simp)
    rw [List.getD_eq_getElem?_getD, List.getElem?_eq_getElem hlt]
    exact List.getElem_mem hlt

theorem forall₂_mutStep_refl (l : Language T) (xs : List (T × Nat)) : List.Forall₂ (MutStep l) xs xs := by
  induction xs with
  | nil => exact .nil
  | cons x xs ih => exact .cons ⟨rfl, Or.inl rfl⟩ ih

mutual
/-- Mutation keeps the shape: node for node, the same number of arguments, and a token that was there or that
the language lists for that number of arguments. -/
theorem C243_mutate_shape (l : Language T) (flip : List Nat → Bool) (c : List Nat → Nat) :
    (p : List Nat) → (t : Tree T) → List.Forall₂ (MutStep l) t.pre (doMutate l flip c p t).1.pre
  | p, .node t as => by
    have ih := mutateArgs_shape l flip c p 0 as
    rw [doMutate]
    by_cases h : (if flip p then l.pick (c p) t as.length else t) ≠ t ∨ (mutateArgs l flip c p 0 as).2 = true
    · rw [if_pos h]
      refine List.Forall₂.cons ⟨ih.2, ?_⟩ ih.1
      show (if flip p then l.pick (c p) t as.length else t) = t ∨ _
      by_cases hf : flip p = true
      · simp only [hf, if_true]
        exact pick_mem l (c p) t as.length
      · left; simp [hf]
    · rw [if_neg h]
      exact forall₂_mutStep_refl l _
theorem mutateArgs_shape (l : Language T) (flip : List Nat → Bool) (c : List Nat → Nat) :
    (p : List Nat) → (i : Nat) → (as : List (Tree T)) →
      List.Forall₂ (MutStep l) (pres as) (pres (mutateArgs l flip c p i as).1) ∧
        (mutateArgs l flip c p i as).1.length = as.length
  | p, i, [] => by
    rw [mutateArgs]
    exact ⟨.nil, rfl⟩
  | p, i, a :: as => by
    have h1 := C243_mutate_shape l flip c (p ++ [i]) a
    have h2 := mutateArgs_shape l flip c p (i + 1) as
    rw [mutateArgs]
    dsimp only
    refine ⟨?_, by simp [h2.2]⟩
    show List.Forall₂ _ (a.pre ++ pres as) ((if _ then _ else a).pre ++ pres _)
    refine List.rel_append ?_ h2.1
    by_cases hr : (doMutate l flip c (p ++ [i]) a).2 = true
    · rw [if_pos hr]; exact h1
    · rw [if_neg hr]; exact forall₂_mutStep_refl l _
end

/-- What the table lists for a number of arguments is what was added with it. -/
theorem C243_language (fs : List (T × Nat)) (x : T) (k : Nat) :
    (∃ ts, (fs.foldl Language.add Language.empty).perArity[k]? = some ts ∧ x ∈ ts) ↔ (x, k) ∈ fs := by
  suffices h : ∀ (l : Language T), (∃ ts, (fs.foldl Language.add l).perArity[k]? = some ts ∧ x ∈ ts) ↔
      (∃ ts, l.perArity[k]? = some ts ∧ x ∈ ts) ∨ (x, k) ∈ fs by
    rw [h]
    simp [Language.empty]
  induction fs with
  | nil => intro l; simp
  | cons f fs ih =>
    intro l
    rw [List.foldl_cons, ih, List.mem_cons, ← or_assoc]
    refine or_congr ?_ Iff.rfl
    obtain ⟨y, n⟩ := f
    have hper : ∀ per : List (List T), n < per.length →
        ((∃ ts, (per.set n (per.getD n [] ++ [y]))[k]? = some ts ∧ x ∈ ts) ↔
          (∃ ts, per[k]? = some ts ∧ x ∈ ts) ∨ (x, k) = (y, n)) := by
      intro per hlt
      by_cases hkn : k = n
      · subst hkn
        rw [List.getElem?_set_self hlt, List.getD_eq_getElem?_getD, List.getElem?_eq_getElem hlt]
        simp
      · rw [List.getElem?_set_ne (fun e => hkn e.symm)]
        simp [hkn]
    rw [Language.add]
    dsimp only
    by_cases hle : l.perArity.length ≤ n
    · rw [if_pos hle, hper _ (by simp; omega)]
      refine or_congr ?_ Iff.rfl
      constructor
      · rintro ⟨ts, h1, h2⟩
        rcases Nat.lt_or_ge k l.perArity.length with hk | hk
        · rw [List.getElem?_append_left hk] at h1
          exact ⟨ts, h1, h2⟩
        · rw [List.getElem?_append_right hk] at h1
          have := List.mem_of_getElem? h1
          rw [List.mem_replicate] at this
          rw [this.2] at h2
          simp at h2
      · rintro ⟨ts, h1, h2⟩
        have hk : k < l.perArity.length := by
          by_contra hk
          rw [List.getElem?_eq_none (by omega)] at h1
          simp at h1
        exact ⟨ts, by rw [List.getElem?_append_left hk]; exact h1, h2⟩
    · rw [if_neg hle, hper _ (by omega)]

/-- Size-level crossover exchanges nodes of equal size or equal level, except with its sixth draw. -/
theorem C243_size_level {la lb : List (Nat × Nat)} {r : Nat → Nat × Nat} : ∀ {fuel k : Nat} {q : Nat × Nat},
    fuel + k = 6 → sizeLevelTry la lb r fuel k = some q →
      ∃ j ≤ 5, k ≤ j ∧ q = r j ∧ (j < 5 → ∃ x y, la[q.1]? = some x ∧ lb[q.2]? = some y ∧ (x.2 = y.2 ∨ x.1 = y.1))
  | 0, k, q, _, h => by simp [sizeLevelTry] at h
  | fuel + 1, k, q, hf, h => by
    rw [sizeLevelTry] at h
    rcases ha : la[(r k).1]? with _ | x
    · rw [ha] at h; simp at h
    · rcases hb : lb[(r k).2]? with _ | y
      · rw [ha, hb] at h; simp at h
      · rw [ha, hb] at h
        dsimp only at h
        by_cases hc : k < 5 ∧ x.2 ≠ y.2 ∧ x.1 ≠ y.1
        · rw [if_pos hc] at h
          obtain ⟨j, h1, h2, h3, h4⟩ := C243_size_level (by omega) h
          exact ⟨j, h1, by omega, h3, h4⟩
        · rw [if_neg hc] at h
          have hq := Option.some.inj h
          subst hq
          refine ⟨k, by omega, Nat.le_refl _, rfl, fun hk => ⟨x, y, ha, hb, ?_⟩⟩
          by_contra hcon
          exact hc ⟨hk, fun e => hcon (Or.inl e), fun e => hcon (Or.inr e)⟩

mutual
theorem levels_length : ∀ (t : Tree T) (l : Nat), (levels l t).length = t.size
  | .node t as, l => by rw [levels, List.length_cons, levelsArgs_length, Tree.size]; omega
theorem levelsArgs_length : ∀ (as : List (Tree T)) (l : Nat), (levelsArgs l as).length = sizes as
  | [], _ => rfl
  | a :: as, l => by rw [levelsArgs, List.length_append, levels_length, levelsArgs_length, sizes]
end

mutual
/-- The list of levels and sizes: entry `w` belongs to node number `w`; the level counts the steps down to a place
of that node, the size is that of the subtree there. -/
theorem C243_levels : ∀ (t : Tree T) (l w : Nat), w < t.size →
    ∃ p, t.at? p = some (t.get w) ∧ (levels l t)[w]? = some (l + p.length, (t.get w).size)
  | .node t as, l, 0, _ => ⟨[], rfl, rfl⟩
  | .node t as, l, w + 1, h => by
    have h' : w < sizes as := by
      have : w + 1 < 1 + sizes as := h
      omega
    obtain ⟨k, a, p, s, h1, h2, h3, h4⟩ := levelsArgs_get as (l + 1) w h'
    refine ⟨k :: p, ?_, ?_⟩
    · simp only [Tree.at?, h1, Tree.get, h3, Option.getD_some, h2]
    · simp only [levels, List.getElem?_cons_succ, Tree.get, h3, Option.getD_some, h4, List.length_cons]
      rw [show l + 1 + p.length = l + (p.length + 1) by omega]
theorem levelsArgs_get : ∀ (as : List (Tree T)) (l w : Nat), w < sizes as →
    ∃ (k : Nat) (a : Tree T) (p : List Nat) (s : Tree T), as[k]? = some a ∧ a.at? p = some s ∧ getArgs as w = some s ∧
      (levelsArgs l as)[w]? = some (l + p.length, s.size)
  | [], _, _, h => absurd h (Nat.not_lt_zero _)
  | a :: as, l, w, h => by
    by_cases hw : w < a.size
    · obtain ⟨p, h1, h2⟩ := C243_levels a l w hw
      have hl := List.getElem?_eq_some_iff.1 h2
      refine ⟨0, a, p, a.get w, rfl, h1, by rw [getArgs, if_pos hw], ?_⟩
      have e : levelsArgs l (a :: as) = levels l a ++ levelsArgs l as := rfl
      rw [e, List.getElem?_append_left hl.1, h2]
    · have h' : w - a.size < sizes as := by
        have : w < a.size + sizes as := h
        omega
      obtain ⟨k, b, p, s, h1, h2, h3, h4⟩ := levelsArgs_get as l (w - a.size) h'
      refine ⟨k + 1, b, p, s, by rw [List.getElem?_cons_succ, h1], h2, by rw [getArgs, if_neg hw, h3], ?_⟩
      rw [levelsArgs, List.getElem?_append_right (by rw [levels_length]; omega), levels_length, h4]
end

/-- What size-level crossover does when the places drawn exist: for places of the two trees with subtrees of equal
size or at equal depth - or any places at the sixth draw - the subtree of the second replaces the one of the first,
and whether something changed is reported. -/
theorem C243_size_level_exchange (a b : Tree T) (r : Nat → Nat × Nat)
    (hr : ∀ j, (r j).1 < a.size ∧ (r j).2 < b.size) :
    ∃ j ≤ 5, ∃ c, a.insert (r j).1 (b.get (r j).2) = .ok c ∧
      (∃ rep, sizeLevelXover a b r = .ok (c, rep) ∧ (rep = true ↔ c ≠ a)) ∧
      (j < 5 → (a.get (r j).1).size = (b.get (r j).2).size ∨
        ∃ p q, a.at? p = some (a.get (r j).1) ∧ b.at? q = some (b.get (r j).2) ∧ p.length = q.length) := by
  have ht : ∀ fuel k, fuel + k = 6 → fuel ≠ 0 → ∃ q, sizeLevelTry (levels 1 a) (levels 1 b) r fuel k = some q := by
    intro fuel
    induction fuel with
    | zero => intro k _ h; exact absurd rfl h
    | succ fuel ih =>
      intro k hk _
      obtain ⟨p, -, h1⟩ := C243_levels a 1 _ (hr k).1
      obtain ⟨p', -, h2⟩ := C243_levels b 1 _ (hr k).2
      rw [sizeLevelTry, h1, h2]
      dsimp only
      split
      · rename_i hc
        exact ih (k + 1) (by omega) (by omega)
      · exact ⟨_, rfl⟩
  obtain ⟨q, hq⟩ := ht 6 0 rfl (by omega)
  obtain ⟨j, hj, -, e, hs⟩ := C243_size_level rfl hq
  obtain ⟨c, hc, -⟩ := C242_insert (t := a) (b.get (r j).2) (hr j).1
  classical
  refine ⟨j, hj, c, hc, ⟨decide (a ≠ c), ?_, ?_⟩, ?_⟩
  · rw [sizeLevelXover, hq, e]
    dsimp only
    rw [hc]
  · rw [decide_eq_true_iff]; exact ne_comm
  · intro hj5
    obtain ⟨x, y, hx, hy, hxy⟩ := hs hj5
    obtain ⟨p, hp, h1⟩ := C243_levels a 1 _ (hr j).1
    obtain ⟨p', hp', h2⟩ := C243_levels b 1 _ (hr j).2
    rw [e, h1] at hx
    rw [e, h2] at hy
    have hx := Option.some.inj hx
    have hy := Option.some.inj hy
    subst hx hy
    rcases hxy with hxy | hxy
    · exact Or.inl hxy
    · right
      dsimp only at hxy
      exact ⟨p, p', hp, hp', by omega⟩

example : ∀ j : Nat, ((fun _ => (1, 0) : Nat → Nat × Nat) j).1 < (Tree.node 1 [.node 2 []]).size ∧
    ((fun _ => (1, 0) : Nat → Nat × Nat) j).2 < (Tree.node 3 [.node 4 []]).size := fun _ => ⟨by simp [Tree.size, sizes], by simp [Tree.size, sizes]⟩

example : (homologousBin (fun _ => true) (Tree.node 1 [.node 2 []]) (.node 3 [.node 4 []])).2 = true ↔
    (homologousBin (fun _ => true) (Tree.node 1 [.node 2 []]) (.node 3 [.node 4 []])).1 ≠ .node 1 [.node 2 []] :=
  C243_homologous_report _ _ _

example : (Tree.node 1 [.node 2 []] : Tree Nat).at? [0] = some (.node 2 []) := rfl

/-! ### C244: generation of trees -/

theorem choose_ok {α : Type} (c : Nat) {xs : List α} (h : xs ≠ []) : ∃ x ∈ xs, choose c xs = .ok x := by
  have hl : 0 < xs.length := List.length_pos_iff.mpr h
  have hlt : c % xs.length < xs.length := Nat.mod_lt _ hl
  exact ⟨xs[c % xs.length], List.getElem_mem hlt, by rw [choose, List.getElem?_eq_getElem hlt]⟩

theorem choose_mem {α : Type} {c : Nat} {xs : List α} {x : α} (h : choose c xs = .ok x) : x ∈ xs := by
  unfold choose at h
  split at h
  · exact absurd h (by simp)
  · rename_i y hy
    rw [← Except.ok.inj h]
    exact List.mem_of_getElem? hy

theorem buildArgs_ok {α : Type} {f : Nat → Except Err α} : ∀ {n i : Nat} {as : List α},
    buildArgs f n i = .ok as → as.length = n ∧ ∀ k a, as[k]? = some a → f (i + k) = .ok a
  | 0, i, as, h => by
    have : as = [] := (Except.ok.inj h).symm
    subst this
    exact ⟨rfl, fun k a h => by simp at h⟩
  | n + 1, i, as, h => by
    rw [buildArgs] at h
    rcases hf : f i with e | a
    · rw [hf] at h; simp at h
    · rw [hf] at h
      dsimp only at h
      rcases hb : buildArgs f n (i + 1) with e | as'
      · rw [hb] at h; simp at h
      · rw [hb] at h
        have : a :: as' = as := Except.ok.inj h
        subst this
        obtain ⟨h1, h2⟩ := buildArgs_ok hb
        refine ⟨by simp [h1], fun k b hk => ?_⟩
        cases k with
        | zero =>
          have : a = b := by simpa using hk
          rw [← this]; exact hf
        | succ k =>
          rw [show i + (k + 1) = i + 1 + k from by omega]
          exact h2 k b (by simpa using hk)

theorem buildArgs_total {α : Type} {f : Nat → Except Err α} : ∀ {n i : Nat},
    (∀ k, ∃ a, f k = .ok a) → ∃ as, buildArgs f n i = .ok as
  | 0, i, _ => ⟨[], rfl⟩
  | n + 1, i, h => by
    obtain ⟨a, ha⟩ := h i
    obtain ⟨as, has⟩ := buildArgs_total (n := n) (i := i + 1) h
    exact ⟨a :: as, by rw [buildArgs, ha]; dsimp only; rw [has]⟩

/-- What a terminal is. -/
def IsTerminal (l : Language T) (d : BuildDraws T) (t : Tree T) : Prop := t ∈ l.vars ∨ ∃ p, t = d.erc p

theorem makeTerminal_is {l : Language T} {d : BuildDraws T} {p : List Nat} {t : Tree T}
    (h : makeTerminal l d p = .ok t) : IsTerminal l d t := by
  unfold makeTerminal at h
  split at h
  · exact Or.inl (choose_mem h)
  · exact Or.inr ⟨p, (Except.ok.inj h).symm⟩

/-- With a variable and a function in the language, a tree is always made. -/
theorem C244_total {l : Language T} {d : BuildDraws T} (hv : l.vars ≠ []) (hf : l.functions ≠ [])
    (grow : Bool) : ∀ (n : Nat) (p : List Nat), ∃ t, buildTree l d grow n p = .ok t := by
  have hterm : ∀ p, ∃ t, makeTerminal l d p = .ok t := by
    intro p
    unfold makeTerminal
    split
    · obtain ⟨x, _, e⟩ := choose_ok (d.choice p) hv
      exact ⟨x, e⟩
    · exact ⟨_, rfl⟩
  intro n
  induction n with
  | zero => intro p; exact hterm p
  | succ n ih =>
    intro p
    rw [buildTree]
    split
    · exact hterm p
    · obtain ⟨f, _, e⟩ := choose_ok (d.choice p) hf
      rw [e]
      obtain ⟨as, e'⟩ := buildArgs_total (f := fun i => buildTree l d grow n (p ++ [i])) (n := f.2) (i := 0)
        (fun k => ih (p ++ [k]))
      dsimp only
      rw [e']
      exact ⟨_, rfl⟩

/-- Every node of the tree is an application of a function of the language to as many arguments as it was
added with, or it is a terminal; no node is deeper than the depth asked for. -/
theorem C244_tree {l : Language T} {d : BuildDraws T} {grow : Bool}
    (hvar : ∀ t, IsTerminal l d t → t.args = []) :
    ∀ {n : Nat} {p : List Nat} {t : Tree T}, buildTree l d grow n p = .ok t →
      ∀ q s, t.at? q = some s →
        q.length ≤ n ∧ (IsTerminal l d s ∨ (s.token, s.args.length) ∈ l.functions ∧ q.length < n) := by
  intro n
  have hterm : ∀ {t : Tree T} (m : Nat), IsTerminal l d t → ∀ q s, t.at? q = some s →
      q.length ≤ m ∧ (IsTerminal l d s ∨ (s.token, s.args.length) ∈ l.functions ∧ q.length < m) := by
    intro t m ht q s h
    cases t with
    | node t as =>
      have has : as = [] := hvar _ ht
      subst has
      cases q with
      | nil =>
        have : Tree.node t [] = s := Option.some.inj h
        subst this
        exact ⟨Nat.zero_le _, Or.inl ht⟩
      | cons k q => simp [Tree.at?] at h
  induction n with
  | zero => intro p t h; exact hterm 0 (makeTerminal_is h)
  | succ n ih =>
    intro p t h
    rw [buildTree] at h
    split at h
    · exact hterm (n + 1) (makeTerminal_is h)
    · rcases hc : choose (d.choice p) l.functions with e | f
      · rw [hc] at h; simp at h
      · rw [hc] at h
        dsimp only at h
        rcases hb : buildArgs (fun i => buildTree l d grow n (p ++ [i])) f.2 0 with e | as
        · rw [hb] at h; simp at h
        · rw [hb] at h
          have ht : Tree.node f.1 as = t := Except.ok.inj h
          subst ht
          obtain ⟨h1, h2⟩ := buildArgs_ok hb
          intro q s hq
          cases q with
          | nil =>
            have : Tree.node f.1 as = s := Option.some.inj hq
            subst this
            refine ⟨Nat.zero_le _, Or.inr ⟨?_, by simp⟩⟩
            show (f.1, as.length) ∈ l.functions
            rw [h1]
            exact choose_mem hc
          | cons k q =>
            rw [Tree.at?] at hq
            rcases hk : as[k]? with _ | a
            · rw [hk] at hq; simp at hq
            · rw [hk] at hq
              have := h2 k a hk
              obtain ⟨r1, r2⟩ := ih this q s hq
              refine ⟨by simp; omega, ?_⟩
              rcases r2 with r2 | ⟨r2, r3⟩
              · exact Or.inl r2
              · exact Or.inr ⟨r2, by simp; omega⟩

/-- Without growing, every branch goes down to the depth asked for. -/
theorem C244_full {l : Language T} {d : BuildDraws T} :
    ∀ {n : Nat} {p : List Nat} {t : Tree T}, buildTree l d false n p = .ok t →
      ∀ q s, t.at? q = some s → q.length < n → (s.token, s.args.length) ∈ l.functions := by
  intro n
  induction n with
  | zero => intro p t _ q s _ h; omega
  | succ n ih =>
    intro p t h q s hq hlt
    rw [buildTree] at h
    simp only [Bool.false_and, Bool.false_eq_true, if_false] at h
    rcases hc : choose (d.choice p) l.functions with e | f
    · rw [hc] at h; simp at h
    · rw [hc] at h
      dsimp only at h
      rcases hb : buildArgs (fun i => buildTree l d false n (p ++ [i])) f.2 0 with e | as
      · rw [hb] at h; simp at h
      · rw [hb] at h
        have ht : Tree.node f.1 as = t := Except.ok.inj h
        subst ht
        obtain ⟨h1, h2⟩ := buildArgs_ok hb
        cases q with
        | nil =>
          have : Tree.node f.1 as = s := Option.some.inj hq
          subst this
          show (f.1, as.length) ∈ l.functions
          rw [h1]
          exact choose_mem hc
        | cons k q =>
          rw [Tree.at?] at hq
          rcases hk : as[k]? with _ | a
          · rw [hk] at hq; simp at hq
          · rw [hk] at hq
            exact ih (h2 k a hk) q s hq (by simp at hlt; omega)

/-- The functions of a table have arguments, its variables have none. -/
theorem C244_language (fs : List (T × Nat)) :
    (∀ f, f ∈ (fs.foldl Language.add Language.empty).functions ↔ f ∈ fs ∧ 0 < f.2) ∧
    (∀ t, t ∈ (fs.foldl Language.add Language.empty).vars ↔ ∃ x, (x, 0) ∈ fs ∧ t = .node x []) := by
  suffices h : ∀ l : Language T,
      (∀ f, f ∈ (fs.foldl Language.add l).functions ↔ f ∈ l.functions ∨ f ∈ fs ∧ 0 < f.2) ∧
      (∀ t, t ∈ (fs.foldl Language.add l).vars ↔ t ∈ l.vars ∨ ∃ x, (x, 0) ∈ fs ∧ t = .node x []) by
    have := h Language.empty
    exact ⟨fun f => by rw [this.1 f]; simp [Language.empty], fun t => by rw [this.2 t]; simp [Language.empty]⟩
  induction fs with
  | nil => intro l; simp
  | cons g fs ih =>
    intro l
    obtain ⟨x, n⟩ := g
    rw [List.foldl_cons]
    refine ⟨fun f => ?_, fun t => ?_⟩
    · rw [(ih _).1 f]
      rw [Language.add]
      dsimp only
      by_cases hn : n > 0
      · rw [if_pos hn]
        simp only [List.mem_append, List.mem_cons, List.not_mem_nil, or_false]
        constructor
        · rintro ((h | h) | h)
          · exact Or.inl h
          · exact Or.inr ⟨Or.inl h, by rw [h]; exact hn⟩
          · exact Or.inr ⟨Or.inr h.1, h.2⟩
        · rintro (h | ⟨h | h, h'⟩)
          · exact Or.inl (Or.inl h)
          · exact Or.inl (Or.inr h)
          · exact Or.inr ⟨h, h'⟩
      · rw [if_neg hn]
        simp only [List.mem_cons]
        constructor
        · rintro (h | h)
          · exact Or.inl h
          · exact Or.inr ⟨Or.inr h.1, h.2⟩
        · rintro (h | ⟨h | h, h'⟩)
          · exact Or.inl h
          · rw [h] at h'; exact absurd h' hn
          · exact Or.inr ⟨h, h'⟩
    · rw [(ih _).2 t]
      rw [Language.add]
      dsimp only
      by_cases hn : n > 0
      · rw [if_pos hn]
        simp only [List.mem_cons, Prod.mk.injEq]
        constructor
        · rintro (h | ⟨y, h, e⟩)
          · exact Or.inl h
          · exact Or.inr ⟨y, Or.inr h, e⟩
        · rintro (h | ⟨y, h | h, e⟩)
          · exact Or.inl h
          · omega
          · exact Or.inr ⟨y, h, e⟩
      · rw [if_neg hn]
        have hn0 : n = 0 := by omega
        subst hn0
        simp only [List.mem_append, List.mem_cons, List.not_mem_nil, or_false, Prod.mk.injEq, and_true]
        constructor
        · rintro ((h | h) | ⟨y, h, e⟩)
          · exact Or.inl h
          · exact Or.inr ⟨x, Or.inl rfl, h⟩
          · exact Or.inr ⟨y, Or.inr h, e⟩
        · rintro (h | ⟨y, h | h, e⟩)
          · exact Or.inl (Or.inl h)
          · rw [h] at e; exact Or.inl (Or.inr e)
          · exact Or.inr ⟨y, h, e⟩

/-- The initialiser never asks for its maximal depth: what it asks for is between two and one less. -/
theorem C244_init_depth {u : ℚ} (h0 : 0 ≤ u) (h1 : u < 1) {n : Nat} (h3 : 3 ≤ n) (hn : n < 2 ^ 32) :
    2 ≤ initDepth u n ∧ initDepth u n ≤ n - 1 := by
  unfold initDepth
  have e : (n + (2 ^ 32 - 2)) % 2 ^ 32 = n - 2 := by omega
  rw [e]
  refine ⟨by omega, ?_⟩
  have hpos : (0 : ℚ) < ((n - 2 : Nat) : ℚ) := by
    have : 0 < n - 2 := by omega
    exact_mod_cast this
  have hlt : u * ((n - 2 : Nat) : ℚ) < ((n - 2 : Nat) : ℚ) := by
    calc u * ((n - 2 : Nat) : ℚ) < 1 * ((n - 2 : Nat) : ℚ) := mul_lt_mul_of_pos_right h1 hpos
      _ = _ := one_mul _
  have := (Nat.floor_lt (mul_nonneg h0 hpos.le)).mpr hlt
  omega

/-- Every such depth can be asked for. -/
theorem C244_init_depth_attained {n k : Nat} (h3 : 3 ≤ n) (hn : n < 2 ^ 32) (h2 : 2 ≤ k) (hk : k ≤ n - 1) :
    ∃ u : ℚ, 0 ≤ u ∧ u < 1 ∧ initDepth u n = k := by
  have e : (n + (2 ^ 32 - 2)) % 2 ^ 32 = n - 2 := by omega
  have hpos : (0 : ℚ) < ((n - 2 : Nat) : ℚ) := by
    have : 0 < n - 2 := by omega
    exact_mod_cast this
  refine ⟨((k - 2 : Nat) : ℚ) / ((n - 2 : Nat) : ℚ), div_nonneg (Nat.cast_nonneg _) hpos.le, ?_, ?_⟩
  · rw [div_lt_one hpos]
    have : k - 2 < n - 2 := by omega
    exact_mod_cast this
  · unfold initDepth
    rw [e, div_mul_cancel₀ _ hpos.ne', Nat.floor_natCast]
    omega

/-- With a maximal depth of two it asks for two; with one or zero it can ask for more than a thousand million. -/
theorem C244_init_depth_small :
    (∀ u : ℚ, initDepth u 2 = 2) ∧ initDepth (1 / 2) 1 > 10 ^ 9 ∧ initDepth (1 / 2) 0 > 10 ^ 9 := by
  refine ⟨fun u => ?_, ?_, ?_⟩
  · unfold initDepth
    norm_num
  · unfold initDepth
    have : (10 ^ 9 : ℕ) ≤ ⌊(1 / 2 : ℚ) * (((1 + (2 ^ 32 - 2)) % 2 ^ 32 : Nat) : ℚ)⌋₊ := by
      apply Nat.le_floor
      norm_num
    omega
  · unfold initDepth
    have : (10 ^ 9 : ℕ) ≤ ⌊(1 / 2 : ℚ) * (((0 + (2 ^ 32 - 2)) % 2 ^ 32 : Nat) : ℚ)⌋₊ := by
      apply Nat.le_floor
      norm_num
    omega

example : ∃ t, buildTree (Language.add (Language.add Language.empty (7, 0)) (8, 2))
    ⟨fun _ => true, fun _ => true, fun _ => 0, fun _ => .node 9 []⟩ false 2 [] = .ok t :=
  C244_total (by simp [Language.add, Language.empty]) (by simp [Language.add, Language.empty]) _ _ _

/-- The tree at a place is the one built for that place with the depth that remains. -/
theorem C244_subtree {l : Language T} {d : BuildDraws T} {grow : Bool}
    (hvar : ∀ t, IsTerminal l d t → t.args = []) :
    ∀ {n : Nat} {p : List Nat} {t : Tree T}, buildTree l d grow n p = .ok t →
      ∀ q s, t.at? q = some s → buildTree l d grow (n - q.length) (p ++ q) = .ok s := by
  have hterm : ∀ {t : Tree T}, IsTerminal l d t → ∀ q s, t.at? q = some s → q = [] ∧ t = s := by
    intro t ht q s h
    cases t with
    | node t as =>
      have has : as = [] := hvar _ ht
      subst has
      cases q with
      | nil => exact ⟨rfl, Option.some.inj h⟩
      | cons k q => simp [Tree.at?] at h
  intro n
  induction n with
  | zero =>
    intro p t h q s hq
    obtain ⟨rfl, rfl⟩ := hterm (makeTerminal_is h) q s hq
    simpa using h
  | succ n ih =>
    intro p t h q s hq
    have h0 := h
    rw [buildTree] at h
    split at h
    · obtain ⟨rfl, rfl⟩ := hterm (makeTerminal_is h) q s hq
      simpa using h0
    · rcases hc : choose (d.choice p) l.functions with e | f
      · rw [hc] at h; simp at h
      · rw [hc] at h
        dsimp only at h
        rcases hb : buildArgs (fun i => buildTree l d grow n (p ++ [i])) f.2 0 with e | as
        · rw [hb] at h; simp at h
        · rw [hb] at h
          have ht : Tree.node f.1 as = t := Except.ok.inj h
          subst ht
          obtain ⟨h1, h2⟩ := buildArgs_ok hb
          cases q with
          | nil =>
            have : Tree.node f.1 as = s := Option.some.inj hq
            subst this
            simpa using h0
          | cons k q =>
            rw [Tree.at?] at hq
            rcases ha : as[k]? with _ | a
            · rw [ha] at hq; simp at hq
            · rw [ha] at hq
              have := ih (h2 k a ha) q s hq
              simpa [Nat.add_comm, List.append_assoc] using this

/-- Where a terminal is asked for - at the full depth, or where a growing tree stops - the coin says which
kind: a variable of the language, or the constant made for this place. -/
theorem C244_terminal {l : Language T} {d : BuildDraws T} {grow : Bool} {n : Nat} {p : List Nat} {t : Tree T}
    (hn : n = 0 ∨ grow = true ∧ d.stop p = true) (h : buildTree l d grow n p = .ok t) :
    (d.isVar p = true → t ∈ l.vars) ∧ (d.isVar p = false → t = d.erc p) := by
  have hm : makeTerminal l d p = .ok t := by
    cases n with
    | zero => exact h
    | succ n =>
      rcases hn with h0 | ⟨hg, hs⟩
      · omega
      · rw [buildTree, hg, hs] at h
        simpa using h
  unfold makeTerminal at hm
  split at hm
  · next hv => exact ⟨fun _ => choose_mem hm, fun hf => by rw [hv] at hf; cases hf⟩
  · next hv => exact ⟨fun ht => absurd ht hv, fun _ => (Except.ok.inj hm).symm⟩

end Paradiseo.MathSym
