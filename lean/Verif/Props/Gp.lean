import Verif.Lemmas.GpInit
import Mathlib.Tactic.Ring

/-!
# C154–C158: genetic programming
-/

namespace Paradiseo.Gp

variable {α : Type}

/-! Nodes for the examples: the tens digit is the arity. -/

/-- Arity of the example nodes. -/
def exAr (a : Nat) : Nat := a / 10

/-- The tree of the documentation (parse_tree.h 101-107): `node4 = 24`, `node3 = 3`, `node2 = 22`. -/
def exTree : Sub Nat := refresh 24 [refresh 3 [], refresh 22 [refresh 1 [], refresh 0 []]]

theorem exTree_exact : Exact exAr exTree :=
  (((ofSeq_iff exAr [0, 1, 22, 3, 24] exTree).mp rfl)).1

/-! ### C154: numbers and places -/

/-- `tree[i]` for `i < size()` are the nodes in postfix order, each place once; `size()`, `depth()` are what they
say. -/
theorem C154_numbers (ar : α → Nat) (t : Sub α) (h : Exact ar t) :
    t.size = (places t).length ∧ t.depth = height t ∧
      (∀ i, i < t.size → (places t)[i]? = some (getPath t i)) ∧ (places t).Nodup ∧
      (∀ p, p ∈ places t ↔ (t.at? p).isSome) ∧
      (post t = (places t).filterMap fun p => (t.at? p).map Sub.val) := by
  have hs := ((exact_iff ar t).mp h).1
  refine ⟨by rw [length_places]; exact hs.1, hs.2.1, ?_, nodup_places t, mem_places t, post_places t⟩
  intro i hi
  exact getPath_spec t h i (by rw [← hs.1]; exact hi)

/-- Iterating from `begin()` meets the same places in the same order and reaches the end. -/
theorem C154_iterate (ar : α → Nat) (t : Sub α) (h : Exact ar t) (n : Nat) (hn : t.size ≤ n) :
    iterate t n (some (getPath t 0)) = places t := by
  have hs := ((exact_iff ar t).mp h).1.1
  rw [← places_head h]
  refine iterate_chain t (places t) (next_chain t h) ?_ n (by rw [length_places]; omega)
  intro p hp
  rw [places_last] at hp
  cases hp
  rfl

/-- Selecting with a number below the cumulative size takes each subtree as many times as it has nodes. -/
theorem C154_select (ar : α → Nat) (t : Sub α) (h : Exact ar t) (p : List Nat) (u : Sub α) (hp : t.at? p = some u) :
    ((List.range t.cum).map (selPath t)).count p = u.size := by
  have hs := ((exact_iff ar t).mp h).1
  have e : (List.range t.cum).map (selPath t) = picks t := by
    refine List.ext_getElem? ?_
    intro i
    rw [List.getElem?_map]
    by_cases hi : i < total t
    · rw [selPath_spec t h i hi, hs.2.2.1, List.getElem?_range hi]
      rfl
    · rw [List.getElem?_eq_none (l := picks t) (by rw [length_picks]; omega),
        List.getElem?_eq_none (by simp; omega)]
      rfl
  rw [e, count_picks t p u hp, ((exact_iff ar u).mp (h.at hp)).1.1]

/-- Assigning a subtree of another tree: that place holds a copy, places beside it are unchanged, nodes above keep
their content, and all sizes and depths are right again. -/
theorem C154_assign (ar : α → Nat) (t s u : Sub α) (ht : Exact ar t) (hs : Exact ar s) (p : List Nat)
    (hp : t.at? p = some u) :
    Exact ar (s.assign t p) ∧ (s.assign t p).at? p = some s ∧ (∀ q, Apart p q → (s.assign t p).at? q = t.at? q) ∧
      (∀ q k r, p = q ++ k :: r → ((s.assign t p).at? q).map Sub.val = (t.at? q).map Sub.val) ∧
      (s.assign t p).size + u.size = t.size + s.size := by
  have h1 := exact_assign s hs p t ht
  refine ⟨h1, assign_at s hs p t (by simp [hp]), fun q hq => assign_apart s p q hq t, ?_, ?_⟩
  · rintro q k r rfl
    exact assign_above s q k r t
  · rw [((exact_iff ar _).mp h1).1.1, ((exact_iff ar _).mp ht).1.1, ((exact_iff ar _).mp hs).1.1,
      ((exact_iff ar _).mp (ht.at hp)).1.1]
    exact count_assign s p t u hp

example : exTree.at? [1, 0] = some (refresh 1 []) ∧ Exact exAr exTree := ⟨rfl, exTree_exact⟩

/-- Assigning a subtree of the same tree below the root keeps the size remembered, so it is wrong unless both had as
many nodes. -/
theorem C154_same_tree (ar : α → Nat) (t s u : Sub α) (ht : Exact ar t) (p q : List Nat) (hp0 : p ≠ [])
    (hp : t.at? p = some u) (hq : t.at? q = some s) :
    (s.assignSame t p).size = t.size ∧ count (s.assignSame t p) + count u = count t + count s ∧
      (count s ≠ count u → ¬ Exact ar (s.assignSame t p)) := by
  have e : (s.assignSame t p).size = t.size := by
    cases p with
    | nil => contradiction
    | cons k p => rw [assignSame_cons]; rfl
  have hc := count_assignSame s p t u hp
  refine ⟨e, hc, ?_⟩
  intro hne h
  have h1 := ((exact_iff ar _).mp h).1.1
  have h2 := ((exact_iff ar _).mp ht).1.1
  have _ := hq
  omega

/-- The example of the documentation, `tree[2] = tree[0]`: three nodes, size five. -/
theorem C154_documented_example :
    ∃ u s, exTree.at? (getPath exTree 2) = some u ∧ exTree.at? (getPath exTree 0) = some s ∧
      post (s.assignSame exTree (getPath exTree 2)) = [0, 3, 24] ∧
      (s.assignSame exTree (getPath exTree 2)).size = 5 := by
  refine ⟨_, _, rfl, rfl, ?_, ?_⟩ <;> decide +kernel

/-- A node of the same arity can be put at any place: only that content changes. -/
theorem C154_assign_node (ar : α → Nat) (d0 b : α) (t u : Sub α) (ht : Exact ar t) (p : List Nat)
    (hp : t.at? p = some u) (hb : ar b = ar u.val) :
    Exact ar (t.assignVal ar d0 b p) ∧
      ∀ q, ((t.assignVal ar d0 b p).at? q).map Sub.val = if q = p then some b else (t.at? q).map Sub.val :=
  ⟨exact_assignVal ar d0 b p t u hp hb ht, assignVal_at ar d0 b p t u hp hb⟩

/-- A node of another arity gets that many empty arguments, and the depth is wrong. -/
theorem C154_other_arity (ar : α → Nat) (d0 b : α) (t : Sub α) (hb : ar b ≠ ar t.val) (h0 : 0 < ar b) :
    (t.assignVal ar d0 b []).size = 1 + ar b ∧ (t.assignVal ar d0 b []).depth = 1 ∧
      height (t.assignVal ar d0 b []) = 2 ∧ ¬ Exact ar (t.assignVal ar d0 b []) := by
  rw [assignVal_nil, setVal, if_neg hb]
  have hd : ∀ n, (List.replicate n (Sub.fresh d0)).foldl (fun d (t : Sub α) => max d t.depth) 0 = 0 := by
    intro n
    induction n with
    | zero => rfl
    | succ n ih => rw [List.replicate_succ, List.foldl_cons]; exact ih
  have hh : ∀ n, 0 < n → heightL (List.replicate n (Sub.fresh d0)) = 1 := by
    intro n hn
    induction n with
    | zero => omega
    | succ n ih =>
      rw [List.replicate_succ]
      by_cases h : 0 < n
      · simp only [heightL, ih h]; rfl
      · have : n = 0 := by omega
        subst this; rfl
  have h1 : (refresh b (List.replicate (ar b) (Sub.fresh d0))).depth = 1 := by
    show _ + 1 = 1
    rw [hd]
  have h2 : height (refresh b (List.replicate (ar b) (Sub.fresh d0))) = 2 := by
    rw [height_eq, refresh_args, hh _ h0]
  refine ⟨?_, h1, h2, ?_⟩
  · show 1 + ((List.replicate (ar b) (Sub.fresh d0)).map Sub.size).sum = 1 + ar b
    simp [Sub.fresh, Sub.size]
  · intro h
    have := ((exact_iff ar _).mp h).1.2.1
    omega

example : exAr 20 ≠ exAr (refresh 3 []).val ∧ 0 < exAr 20 := by decide

/-! ### C155: sequences -/

/-- A sequence makes a tree if and only if it ends with the nodes of one in order; what is before is ignored, and the
tree is unique. -/
theorem C155_sequence (ar : α → Nat) (l : List α) (t : Sub α) :
    ofSeq ar l = some t ↔ Exact ar t ∧ ∃ q, l = q ++ post t := ofSeq_iff ar l t

/-- What is printed is read back: the size is the number of nodes written, and they make the same tree. -/
theorem C155_print_read (ar : α → Nat) (t : Sub α) (h : Exact ar t) :
    (post t).length = t.size ∧ ofSeq ar ((post t).take t.size) = some t := by
  have hs := ((exact_iff ar t).mp h).1.1
  refine ⟨by rw [length_post, hs], ?_⟩
  rw [List.take_of_length_le (by rw [length_post, hs])]
  exact (ofSeq_iff ar _ _).mpr ⟨h, [], rfl⟩

/-- After `tree[2] = tree[0]` fewer nodes are written than the size says. -/
theorem C155_same_tree_unreadable (ar : α → Nat) (t s u : Sub α) (ht : Exact ar t) (p q : List Nat) (hp0 : p ≠ [])
    (hp : t.at? p = some u) (hq : t.at? q = some s) (hlt : count s < count u) :
    (post (s.assignSame t p)).length < (s.assignSame t p).size := by
  obtain ⟨h1, h2, _⟩ := C154_same_tree ar t s u ht p q hp0 hp hq
  have h3 := ((exact_iff ar _).mp ht).1.1
  rw [length_post, h1]
  omega

/-- Pushing the nodes of a tree into a cleared tree gives that tree, complete. -/
theorem C155_push (ar : α → Nat) (d0 : α) (t : Sub α) (h : Exact ar t) :
    (PTree.clear d0).pushAll ar (post t) = some ⟨t, []⟩ := pushAll_post t h (PTree.clear d0)

/-- Conversely, if pushing a non-empty sequence gives a complete tree, the sequence was its nodes in order. -/
theorem C155_push_sound (ar : α → Nat) (d0 : α) (l : List α) (hl : l ≠ []) (t : Sub α)
    (h : (PTree.clear d0).pushAll ar l = some ⟨t, []⟩) : Exact ar t ∧ l = post t := by
  obtain ⟨h1, h2⟩ := pushAll_sound ar l _ _ h (by simp [stack, PTree.clear, Sub.size])
  have e0 : stack (PTree.clear d0) = [] := rfl
  rw [e0] at h2
  by_cases hs : t.size = 0
  · have : stack (⟨t, []⟩ : PTree α) = [] := by simp [stack, hs]
    rw [this] at h2
    simp [postL] at h2
    exact absurd h2 hl
  · have e1 : stack (⟨t, []⟩ : PTree α) = [t] := by simp [stack, hs]
    rw [e1] at h1 h2
    refine ⟨h1 t (by simp), ?_⟩
    simpa [postL] using h2.symm

/-- A tree just constructed is not empty: pushing the nodes of a tree into it leaves a spurious node behind, and the
tree is not valid. -/
theorem C155_push_fresh (ar : α → Nat) (d0 : α) (t : Sub α) (h : Exact ar t) :
    (PTree.fresh d0).pushAll ar (post t) = some ⟨t, [Sub.fresh d0]⟩ := pushAll_post t h (PTree.fresh d0)

example : (PTree.clear 0).pushAll exAr [0, 1, 22, 3, 24] = some ⟨exTree, []⟩ := C155_push exAr 0 exTree exTree_exact

/-! ### C156: operators -/

/-- Pruning ends; with a maximum of at least one the result is no larger, and it is the first subtree that fits on
the way through the first arguments. -/
theorem C156_prune (ar : α → Nat) (max : Nat) (hm : 1 ≤ max) (t : Sub α) (h : Exact ar t) (f : Nat) (hf : t.size ≤ f) :
    Exact ar (prune max f t) ∧ (prune max f t).size ≤ max ∧
      ∃ k, t.at? (List.replicate k 0) = some (prune max f t) ∧
        ∀ j < k, ∀ v, t.at? (List.replicate j 0) = some v → max < v.size := by
  rw [((exact_iff ar t).mp h).1.1] at hf
  obtain ⟨k, u, h1, h2, h3, h4, h5⟩ := prune_spec max hm f t h hf
  rw [h1]
  refine ⟨h3, by rw [((exact_iff ar u).mp h3).1.1]; exact h4, k, h2, ?_⟩
  intro j hj v hv
  rw [((exact_iff ar v).mp (h.at hv)).1.1]
  exact h5 j hj v hv

/-- A tree that fits is not pruned. -/
theorem C156_prune_small (max f : Nat) (t : Sub α) (h : t.size ≤ max) : prune max f t = t := prune_small max f t h

/-- Crossover never fails, gives trees with the right sizes, no larger than the maximum (if not zero), and exchanges
nodes without loss as long as pruning is not needed. -/
theorem C156_crossover (ar : α → Nat) (max i j : Nat) (t1 t2 : Sub α) (h1 : Exact ar t1) (h2 : Exact ar t2)
    (hi : i < t1.size) (hj : j < t2.size) :
    ∃ u1 u2, subtreeXover max i j t1 t2 = some (u1, u2) ∧ Exact ar u1 ∧ Exact ar u2 ∧
      (1 ≤ max → u1.size ≤ max ∧ u2.size ≤ max) ∧
      (max = 0 ∨ t1.size + t2.size ≤ max + 1 →
        (post u1 ++ post u2).Perm (post t1 ++ post t2) ∧ u1.size + u2.size = t1.size + t2.size) := by
  obtain ⟨s1, hs1⟩ := getPath_at h1 hi
  obtain ⟨s2, hs2⟩ := getPath_at h2 hj
  have hv1 := exact_assign s2 (h2.at hs2) (getPath t1 i) t1 h1
  have hv2 := exact_assign s1 (h1.at hs1) (getPath t2 j) t2 h2
  have c1 := count_assign s2 (getPath t1 i) t1 s1 hs1
  have c2 := count_assign s1 (getPath t2 j) t2 s2 hs2
  have p1 := post_assign s2 (getPath t1 i) t1 s1 hs1
  have p2 := post_assign s1 (getPath t2 j) t2 s2 hs2
  have z1 := ((exact_iff ar _).mp hv1).1.1
  have z2 := ((exact_iff ar _).mp hv2).1.1
  have y1 := ((exact_iff ar _).mp h1).1.1
  have y2 := ((exact_iff ar _).mp h2).1.1
  have q1 := count_pos s1
  have q2 := count_pos s2
  have hle : ∀ (t s : Sub α) p, t.at? p = some s → count s ≤ count t := by
    intro t s p hp
    by_cases e : p = []
    · subst e; simp at hp; subst hp; rfl
    · exact (count_at_lt p t s e hp).le
  have l1 := hle _ _ _ hs1
  have l2 := hle _ _ _ hs2
  unfold subtreeXover
  rw [hs1, hs2]
  simp only
  generalize s2.assign t1 (getPath t1 i) = v1 at *
  generalize s1.assign t2 (getPath t2 j) = v2 at *
  have hex : ∀ v : Sub α, Exact ar v → Exact ar (prune max v.size v) := by
    intro v hv
    by_cases hm : 1 ≤ max
    · exact (C156_prune ar max hm v hv v.size le_rfl).1
    · have : max = 0 := by omega
      subst this
      rw [prune_zero]; exact hv
  refine ⟨_, _, rfl, hex v1 hv1, hex v2 hv2, ?_, ?_⟩
  · intro hm
    exact ⟨(C156_prune ar max hm v1 hv1 v1.size le_rfl).2.1, (C156_prune ar max hm v2 hv2 v2.size le_rfl).2.1⟩
  · intro hm
    have e : prune max v1.size v1 = v1 ∧ prune max v2.size v2 = v2 := by
      rcases hm with rfl | hm
      · exact ⟨prune_zero _ _, prune_zero _ _⟩
      · exact ⟨prune_small _ _ _ (by omega), prune_small _ _ _ (by omega)⟩
    rw [e.1, e.2]
    refine ⟨?_, by omega⟩
    have p3 : ((post v1 ++ post v2) ++ (post s1 ++ post s2)).Perm ((post t1 ++ post t2) ++ (post s1 ++ post s2)) := by
      have a1 : ((post v1 ++ post v2) ++ (post s1 ++ post s2)).Perm ((post v1 ++ post s1) ++ (post v2 ++ post s2)) := by
        rw [List.append_assoc, List.append_assoc]
        exact (List.perm_append_comm_assoc _ _ _).append_left _
      have a2 : ((post t1 ++ post s2) ++ (post t2 ++ post s1)).Perm ((post t1 ++ post t2) ++ (post s1 ++ post s2)) := by
        rw [List.append_assoc, List.append_assoc]
        refine List.Perm.append_left _ ?_
        refine (List.perm_append_comm_assoc _ _ _).trans ?_
        exact List.Perm.append_left _ List.perm_append_comm
      exact (a1.trans (p1.append p2)).trans a2
    exact (List.perm_append_right_iff _).mp p3

example : subtreeXover 0 2 0 exTree (refresh 13 [refresh 7 []]) =
    some (refresh 24 [refresh 3 [], refresh 7 []], refresh 13 [refresh 22 [refresh 1 [], refresh 0 []]]) := rfl

/-- The branch, expansion and collapse mutations put a subtree of the new tree at a place and then prune. -/
theorem C156_branch (ar : α → Nat) (max i j : Nat) (t1 t2 : Sub α) (h1 : Exact ar t1) (h2 : Exact ar t2)
    (hi : i < t1.size) (hj : j < t2.size) :
    ∃ u s1 s2, branchMut max i j t1 t2 = some u ∧ t1.at? (getPath t1 i) = some s1 ∧ t2.at? (getPath t2 j) = some s2 ∧
      Exact ar u ∧ (1 ≤ max → u.size ≤ max) ∧
      (max = 0 ∨ t1.size + s2.size ≤ max + s1.size → u.at? (getPath t1 i) = some s2 ∧
        u.size + s1.size = t1.size + s2.size) := by
  obtain ⟨s1, hs1⟩ := getPath_at h1 hi
  obtain ⟨s2, hs2⟩ := getPath_at h2 hj
  obtain ⟨a1, a2, _, _, a5⟩ := C154_assign ar t1 s2 s1 h1 (h2.at hs2) (getPath t1 i) hs1
  refine ⟨prune max (s2.assign t1 (getPath t1 i)).size (s2.assign t1 (getPath t1 i)), s1, s2, ?_, hs1, hs2, ?_, ?_, ?_⟩
  · unfold branchMut; rw [hs2]
  · by_cases hm : 1 ≤ max
    · exact (C156_prune ar max hm _ a1 _ le_rfl).1
    · have : max = 0 := by omega
      subst this
      rw [prune_zero]; exact a1
  · intro hm
    exact (C156_prune ar max hm _ a1 _ le_rfl).2.1
  · intro hm
    have e : prune max (s2.assign t1 (getPath t1 i)).size (s2.assign t1 (getPath t1 i)) = s2.assign t1 (getPath t1 i) := by
      rcases hm with rfl | hm
      · exact prune_zero _ _
      · exact prune_small _ _ _ (by omega)
    rw [e]
    exact ⟨a2, a5⟩

/-- Collapsing (a terminal takes the place) never grows; expanding (a terminal gives way to a function) always
grows if there is no limit. -/
theorem C156_collapse_expand (ar : α → Nat) (i j : Nat) (t1 t2 u s1 s2 : Sub α) (h1 : Exact ar t1)
    (h2 : Exact ar t2) (hi : i < t1.size) (hj : j < t2.size) (hs1 : t1.at? (getPath t1 i) = some s1)
    (hs2 : t2.at? (getPath t2 j) = some s2) (hu : branchMut 0 i j t1 t2 = some u) :
    (ar s2.val = 0 → u.size ≤ t1.size) ∧ (ar s1.val = 0 → 0 < ar s2.val → t1.size < u.size) := by
  obtain ⟨u', s1', s2', a1, a2, a3, _, _, a6⟩ := C156_branch ar 0 i j t1 t2 h1 h2 hi hj
  rw [hu] at a1; cases a1
  rw [hs1] at a2; cases a2
  rw [hs2] at a3; cases a3
  obtain ⟨_, a8⟩ := a6 (Or.inl rfl)
  obtain ⟨⟨b1, _, _, b4⟩, _⟩ := (exact_iff ar s1).mp (h1.at hs1)
  obtain ⟨⟨c1, _, _, c4⟩, _⟩ := (exact_iff ar s2).mp (h2.at hs2)
  have leaf : ∀ s : Sub α, s.args.length = 0 → count s = 1 := by
    intro s hs
    rw [count_eq, List.length_eq_zero_iff.mp hs]; rfl
  have inner : ∀ s : Sub α, 0 < s.args.length → 1 < count s := by
    intro s hs
    rw [count_eq]
    cases ha : s.args with
    | nil => simp [ha] at hs
    | cons v vs => have := count_pos v; simp [countL]; omega
  constructor
  · intro hz
    have := leaf s2 (by omega)
    have := count_pos s1
    omega
  · intro hz hp
    have := leaf s1 (by omega)
    have := inner s2 (by omega)
    omega

/-- The point mutation keeps the shape and changes one content. -/
theorem C156_point (ar : α → Nat) (d0 b : α) (i : Nat) (t u : Sub α) (h : Exact ar t) (hi : i < t.size)
    (hu : t.at? (getPath t i) = some u) (hb : ar b = ar u.val) :
    Exact ar (pointMut ar d0 i b t) ∧ (pointMut ar d0 i b t).size = t.size ∧
      (pointMut ar d0 i b t).depth = t.depth ∧
      post (pointMut ar d0 i b t) = (post t).set i b := by
  have e1 := exact_assignVal ar d0 b (getPath t i) t u hu hb h
  have e2 := assignVal_at ar d0 b (getPath t i) t u hu hb
  have hs := ((exact_iff ar t).mp h).1
  have hcounts : ∀ (p : List Nat) (t u : Sub α), t.at? p = some u → ar b = ar u.val →
      count (t.assignVal ar d0 b p) = count t ∧ height (t.assignVal ar d0 b p) = height t ∧
        places (t.assignVal ar d0 b p) = places t := by
    intro p
    induction p with
    | nil =>
      intro t u hp hb
      simp at hp
      subst hp
      rw [assignVal_nil, setVal, if_pos hb]
      refine ⟨?_, ?_, ?_⟩
      · rw [count_eq, refresh_args, count_eq t]
      · rw [height_eq, refresh_args, height_eq t]
      · rw [places_eq, refresh_args, places_eq t]
    | cons k p ih =>
      intro t u hp hb
      rw [at_cons] at hp
      cases hk : t.args[k]? with
      | none => simp [hk] at hp
      | some v =>
        rw [hk] at hp
        obtain ⟨i1, i2, i3⟩ := ih v u hp hb
        have hL : ∀ (as : List (Sub α)) (k n : Nat) (f : Sub α → Sub α), as[k]? = some v → count (f v) = count v →
            height (f v) = height v → places (f v) = places v →
            countL (as.modify k f) = countL as ∧ heightL (as.modify k f) = heightL as ∧
              placesL n (as.modify k f) = placesL n as := by
          intro as
          induction as with
          | nil => simp
          | cons w ws ih' =>
            intro k n f hk a1 a2 a3
            cases k with
            | zero => simp at hk; subst hk; simp [countL, heightL, placesL, a1, a2, a3]
            | succ k =>
              obtain ⟨b1, b2, b3⟩ := ih' k (n + 1) f (by simpa using hk) a1 a2 a3
              simp [countL, heightL, placesL, b1, b2, b3]
        obtain ⟨j1, j2, j3⟩ := hL t.args k 0 (fun u => u.assignVal ar d0 b p) hk i1 i2 i3
        rw [assignVal_cons]
        refine ⟨?_, ?_, ?_⟩
        · rw [count_eq, refresh_args, j1, count_eq t]
        · rw [height_eq, refresh_args, j2, height_eq t]
        · rw [places_eq, refresh_args, j3, places_eq t]
  obtain ⟨c1, c2, c3⟩ := hcounts _ t u hu hb
  unfold pointMut
  have hs' := ((exact_iff ar _).mp e1).1
  refine ⟨e1, by rw [hs'.1, hs.1, c1], by rw [hs'.2.1, hs.2.1, c2], ?_⟩
  have hget : (places t)[i]? = some (getPath t i) := getPath_spec t h i (by rw [← hs.1]; exact hi)
  have key : ∀ (s : Sub α) (k : Nat), (post s)[k]? = (places s)[k]?.bind fun p => (s.at? p).map Sub.val := by
    intro s k
    rw [post_places s]
    have hall : ∀ p ∈ places s, ((s.at? p).map Sub.val).isSome := by
      intro p hp
      have := (mem_places s p).mp hp
      simpa using this
    clear hget
    generalize places s = l at hall
    induction l generalizing k with
    | nil => simp
    | cons p l ih =>
      obtain ⟨x, hx⟩ := Option.isSome_iff_exists.mp (hall p (by simp))
      rw [List.filterMap_cons, hx]
      cases k with
      | zero => simp [hx]
      | succ k => simpa using ih k (fun q hq => hall q (List.mem_cons_of_mem _ hq))
  refine List.ext_getElem? ?_
  intro k
  rw [key, c3, List.getElem?_set, key t]
  by_cases hk : i = k
  · subst hk
    rw [hget]
    have hlt : i < (post t).length := by rw [length_post, ← hs.1]; exact hi
    simp [hlt, e2]
  · rw [if_neg hk]
    cases hp : (places t)[k]? with
    | none => rfl
    | some p =>
      simp only [Option.bind_some]
      rw [e2, if_neg]
      rintro rfl
      have h1 := (List.getElem?_inj (i := i) (j := k) (by rw [length_places, ← hs.1]; exact hi) (nodup_places t)).mp
        (by rw [hget, hp])
      exact hk h1

/-- The hoist mutation gives a subtree, never larger. -/
theorem C156_hoist (ar : α → Nat) (i : Nat) (t : Sub α) (h : Exact ar t) (hi : i < t.size) :
    ∃ u, hoist i t = some u ∧ t.at? (getPath t i) = some u ∧ Exact ar u ∧ u.size ≤ t.size := by
  obtain ⟨u, hu⟩ := getPath_at h hi
  refine ⟨u, hu, hu, h.at hu, ?_⟩
  rw [((exact_iff ar _).mp (h.at hu)).1.1, ((exact_iff ar _).mp h).1.1]
  by_cases e : getPath t i = []
  · rw [e] at hu; simp at hu; subst hu; rfl
  · exact (count_at_lt _ t u e hu).le

/-! ### C157: initialisers -/

/-- With a terminal and, in full mode, a function, the initialiser makes a tree of the nodes given with at most
`d + 1` levels; in full mode every leaf is on the last one. -/
theorem C157_depth (ar : α → Nat) (nodes : List α) (grow : Bool) (r : Nat → Nat) (d n : Nat)
    (ht : ∃ a ∈ nodes, ar a = 0) (hf : grow = false → ∃ a ∈ nodes, 0 < ar a) :
    ∃ t, depthInit ar nodes grow r d n = some t ∧ Exact ar t ∧ t.depth ≤ d + 1 ∧ (∀ a ∈ post t, a ∈ nodes) ∧
      (grow = false → (∀ p u, t.at? p = some u → ar u.val = 0 → p.length = d) ∧ t.depth = d + 1) := by
  obtain ⟨h0, h1, hl⟩ := sorted_split ar nodes
  generalize hs : (nodes.mergeSort fun a b => ar a ≤ ar b) = s at h0 h1 hl
  generalize htm : (s.findIdx fun a => 0 < ar a) = term at h0 h1 hl
  have hmem : ∀ a, a ∈ s ↔ a ∈ nodes := by intro a; rw [← hs]; exact List.mem_mergeSort
  have hterm : 0 < term := by
    obtain ⟨a, ha, ha0⟩ := ht
    obtain ⟨i, hi⟩ := List.mem_iff_getElem?.mp ((hmem a).mpr ha)
    by_contra hc
    have := h1 i a (by omega) hi
    omega
  have hfull : grow = false → term < s.length := by
    intro hg
    obtain ⟨a, ha, ha0⟩ := hf hg
    obtain ⟨i, hi⟩ := List.mem_iff_getElem?.mp ((hmem a).mpr ha)
    by_contra hc
    have hlt := (List.getElem?_eq_some_iff.mp hi).1
    have := h0 i a (by omega) hi
    omega
  obtain ⟨t, n', hgen, hE, hH, hF, hM⟩ := generate_spec ar s term grow r h0 h1 hterm hl hfull d [] n
  have hseq : ofSeq ar (pre t).reverse = some t := (ofSeq_iff ar _ _).mpr ⟨hE, [], by rw [pre_post]; simp⟩
  have hdep := ((exact_iff ar t).mp hE).1.2.1
  refine ⟨t, ?_, hE, by rw [hdep]; exact hH, fun a ha => (hmem a).mp (hM a ha), ?_⟩
  · unfold depthInit
    simp only
    rw [hs, htm, hgen]
    simpa using hseq
  · intro hg
    have hleaf := hF hg
    refine ⟨?_, ?_⟩
    · intro p u hp hu
      have := (hE p u hp).2.2.2
      exact hleaf p u hp (List.length_eq_zero_iff.mp (by omega))
    · have hdeep : ∀ t : Sub α, ∀ d, (∀ p u, t.at? p = some u → u.args = [] → p.length = d) → height t = d + 1 := by
        intro t
        induction t using Sub.ind with | h a s d c as ih => ?_
        intro m hm
        cases m with
        | zero =>
          have : as = [] := by
            cases as with
            | nil => rfl
            | cons v vs =>
              exfalso
              obtain ⟨q, w, hq, hw⟩ : ∃ q w, v.at? q = some w ∧ w.args = [] := by
                have : ∀ v : Sub α, ∃ q w, v.at? q = some w ∧ w.args = [] := by
                  intro v
                  induction v using Sub.ind with | h a s d c as ih => ?_
                  cases as with
                  | nil => exact ⟨[], _, at_nil _, rfl⟩
                  | cons x xs =>
                    obtain ⟨q, w, h1, h2⟩ := ih x (by simp)
                    exact ⟨0 :: q, w, by rw [at_cons]; simpa [Sub.args] using h1, h2⟩
                exact this v
              have := hm (0 :: q) w (by rw [at_cons]; simpa [Sub.args] using hq) hw
              simp at this
          subst this
          rfl
        | succ m =>
          have hne : as ≠ [] := by
            rintro rfl
            have := hm [] _ (at_nil _) rfl
            simp at this
          have hall : ∀ v ∈ as, height v = m + 1 := by
            intro v hv
            obtain ⟨k, hk⟩ := List.mem_iff_getElem?.mp hv
            refine ih v hv m ?_
            intro p u hp hu
            have := hm (k :: p) u (by rw [at_cons]; simp only [Sub.args]; rw [hk]; exact hp) hu
            simpa using this
          have hL : ∀ as : List (Sub α), as ≠ [] → (∀ v ∈ as, height v = m + 1) → heightL as = m + 1 := by
            intro as
            induction as with
            | nil => simp
            | cons v vs ih' =>
              intro _ h
              simp only [heightL, h v (by simp)]
              by_cases e : vs = []
              · subst e; simp [heightL]
              · rw [ih' e (fun u hu => h u (List.mem_cons_of_mem _ hu))]; simp
          simp only [height, hL as hne hall]
          omega
      rw [hdep]
      exact hdeep t d hleaf

example : (∃ a ∈ [20, 1, 10], exAr a = 0) ∧ ∃ a ∈ [20, 1, 10], 0 < exAr a := by decide

/-- Without a terminal no tree is ever made: the sequence passes its beginning. -/
theorem C157_no_terminal (ar : α → Nat) (nodes : List α) (grow : Bool) (r : Nat → Nat) (d n : Nat)
    (ht : ∀ a ∈ nodes, 0 < ar a) : depthInit ar nodes grow r d n = none := by
  unfold depthInit
  simp only
  generalize hs : (nodes.mergeSort fun a b => ar a ≤ ar b) = s
  have hmem : ∀ a ∈ s, 0 < ar a := by intro a ha; rw [← hs] at ha; exact ht a (List.mem_mergeSort.mp ha)
  generalize (s.findIdx fun a => 0 < ar a) = term
  have hgen : ∀ d l n l' n', (∀ a ∈ l, 0 < ar a) → generate ar s term grow r d (l, n) = some (l', n') →
      ∀ a ∈ l', 0 < ar a := by
    intro d
    induction d with
    | zero =>
      intro l n l' n' hl h
      rw [generate] at h
      cases ha : s[rnd r n term]? with
      | none => simp [ha] at h
      | some a =>
        rw [ha] at h
        simp at h
        obtain ⟨rfl, rfl⟩ := h
        intro b hb
        rcases List.mem_append.mp hb with hb | hb
        · exact hl b hb
        · simp at hb; subst hb; exact hmem _ (List.mem_of_getElem? ha)
    | succ d ih =>
      intro l n l' n' hl h
      rw [generate] at h
      generalize (if grow = true then rnd r n s.length else term + rnd r n (s.length - term)) = k at h
      cases ha : s[k]? with
      | none => simp [ha] at h
      | some a =>
        rw [ha] at h
        simp only at h
        have ht : ∀ m l n l' n', (∀ a ∈ l, 0 < ar a) → times (generate ar s term grow r d) m (l, n) = some (l', n') →
            ∀ a ∈ l', 0 < ar a := by
          intro m
          induction m with
          | zero => intro l n l' n' hl h; simp [times] at h; obtain ⟨rfl, rfl⟩ := h; exact hl
          | succ m ihm =>
            intro l n l' n' hl h
            rw [times] at h
            cases hg : generate ar s term grow r d (l, n) with
            | none => simp [hg] at h
            | some x =>
              obtain ⟨l1, n1⟩ := x
              rw [hg] at h
              exact ihm l1 n1 l' n' (ih l n l1 n1 hl hg) h
        refine ht _ _ _ _ _ ?_ h
        intro b hb
        rcases List.mem_append.mp hb with hb | hb
        · exact hl b hb
        · simp at hb; subst hb; exact hmem _ (List.mem_of_getElem? ha)
  cases hg : generate ar s term grow r d ([], n) with
  | none => rfl
  | some x =>
    obtain ⟨l, n'⟩ := x
    simp only
    have hl := hgen d [] n l n' (by simp) hg
    cases ho : ofSeq ar l.reverse with
    | none => rfl
    | some t =>
      exfalso
      obtain ⟨hE, q, hq⟩ := (ofSeq_iff ar _ _).mp ho
      have hleaf : ∀ v : Sub α, Exact ar v → ∃ a ∈ post v, ar a = 0 := by
        intro v
        induction v using Sub.ind with | h a s d c as ih => ?_
        intro hv
        have hex := (exact_iff ar _).mp hv
        cases as with
        | nil => exact ⟨a, by simp [post, postL], by have : ([] : List (Sub α)).length = ar a := hex.1.2.2.2; simpa using this.symm⟩
        | cons x xs =>
          obtain ⟨b, h1, h2⟩ := ih x (by simp) (hex.2 x (by simp [Sub.args]))
          exact ⟨b, by simp [post, postL, h1], h2⟩
      obtain ⟨a, ha, ha0⟩ := hleaf t hE
      have : a ∈ l := by
        rw [← List.mem_reverse, hq]
        exact List.mem_append_right _ ha
      have := hl a this
      omega

/-- In full mode without a function, the node beyond the last is read, unless one level is asked for. -/
theorem C157_full_no_function (ar : α → Nat) (nodes : List α) (r : Nat → Nat) (d n : Nat)
    (ht : ∀ a ∈ nodes, ar a = 0) : depthInit ar nodes false r (d + 1) n = none := by
  unfold depthInit
  simp only
  generalize hs : (nodes.mergeSort fun a b => ar a ≤ ar b) = s
  have hmem : ∀ a ∈ s, ar a = 0 := by intro a ha; rw [← hs] at ha; exact ht a (List.mem_mergeSort.mp ha)
  have hidx : (s.findIdx fun a => 0 < ar a) = s.length := by
    rw [List.findIdx_eq_length]
    intro a ha
    simp [hmem a ha]
  rw [hidx, generate]
  simp [rnd]

example : (∀ a ∈ [10, 20], 0 < exAr a) ∧ ∀ a ∈ [1, 2], exAr a = 0 := by decide

/-- Half and half, with a maximum depth of at least two: after `2 (max - 1)` trees the initialiser is where it was,
and each mode has been used with each depth from two to the maximum exactly once. -/
theorem C157_ramped (m : Nat) (hm : 2 ≤ m) (g : Bool) :
    (rampStep m)^[2 * (m - 1)] (g, m) = (g, m) ∧
      ∀ b d, 2 ≤ d → d ≤ m → ∃! i, i < 2 * (m - 1) ∧ (rampStep m)^[i] (g, m) = (b, d) := by
  have step : ∀ i, i ≤ m - 2 → (rampStep m)^[2 * i] (true, m) = (true, m - i) := by
    intro i
    induction i with
    | zero => intro _; rfl
    | succ i ih =>
      intro hi
      rw [show 2 * (i + 1) = 2 * i + 1 + 1 by omega, Function.iterate_succ_apply', Function.iterate_succ_apply',
        ih (by omega)]
      simp only [rampStep, if_true, Bool.not_true, Bool.false_eq_true, if_false, Bool.not_false]
      rw [if_pos (by omega)]
      congr 1
      
  have odd : ∀ i, i < m - 2 → (rampStep m)^[2 * i + 1] (true, m) = (false, m - i - 1) := by
    intro i hi
    rw [Function.iterate_succ_apply', step i (by omega)]
    simp only [rampStep, if_true, Bool.not_true]
    rw [if_pos (by omega)]
  have last : (rampStep m)^[2 * (m - 2) + 1] (true, m) = (false, m) := by
    rw [Function.iterate_succ_apply', step (m - 2) (by omega)]
    simp only [rampStep, if_true, Bool.not_true]
    rw [if_neg (by omega)]
  have cyc : (rampStep m)^[2 * (m - 1)] (true, m) = (true, m) := by
    rw [show 2 * (m - 1) = 2 * (m - 2) + 1 + 1 by omega, Function.iterate_succ_apply', last]
    simp [rampStep]
  have first : rampStep m (false, m) = (true, m) := by simp [rampStep]
  have full : (rampStep m)^[2 * (m - 1)] (g, m) = (g, m) := by
    cases g with
    | true => exact cyc
    | false =>
      rw [show 2 * (m - 1) = 2 * (m - 2) + 1 + 1 by omega, Function.iterate_succ_apply, first, last]
  -- the state before each call when the first tree is grown
  have val : ∀ i, i < 2 * (m - 1) → (rampStep m)^[i] (true, m) =
      if i % 2 = 0 then (true, m - i / 2) else if i / 2 < m - 2 then (false, m - i / 2 - 1) else (false, m) := by
    intro i hi
    by_cases he : i % 2 = 0
    · rw [if_pos he]
      have e : i = 2 * (i / 2) := by omega
      have := step (i / 2) (by omega)
      rwa [← e] at this
    · rw [if_neg he]
      have e : i = 2 * (i / 2) + 1 := by omega
      by_cases hl : i / 2 < m - 2
      · rw [if_pos hl]
        have := odd (i / 2) hl
        rwa [← e] at this
      · rw [if_neg hl]
        have e2 : i = 2 * (m - 2) + 1 := by omega
        rw [e2]; exact last
  have uniq : ∀ b d, 2 ≤ d → d ≤ m → ∃! i, i < 2 * (m - 1) ∧ (rampStep m)^[i] (true, m) = (b, d) := by
    intro b d h2 hd
    cases b with
    | true =>
      refine ⟨2 * (m - d), ⟨by omega, ?_⟩, ?_⟩
      · rw [step _ (by omega)]
        congr 1
        omega
      · rintro i ⟨hi, h⟩
        rw [val i hi] at h
        split at h
        · simp at h; omega
        · split at h <;> simp at h
    | false =>
      by_cases hdm : d = m
      · subst hdm
        refine ⟨2 * (d - 2) + 1, ⟨by omega, last⟩, ?_⟩
        rintro i ⟨hi, h⟩
        rw [val i hi] at h
        split at h
        · simp at h
        · split at h
          · simp at h; omega
          · omega
      · refine ⟨2 * (m - d - 1) + 1, ⟨by omega, ?_⟩, ?_⟩
        · rw [odd _ (by omega)]
          congr 1
          omega
        · rintro i ⟨hi, h⟩
          rw [val i hi] at h
          split at h
          · simp at h
          · split at h
            · simp at h; omega
            · simp at h; omega
  refine ⟨full, ?_⟩
  intro b d h2 hd
  cases g with
  | true => exact uniq b d h2 hd
  | false =>
    obtain ⟨i, ⟨hi, h⟩, hu⟩ := uniq b d h2 hd
    have back : ∀ j, (rampStep m)^[j] (true, m) = (rampStep m)^[j + 1] (false, m) := by
      intro j
      rw [Function.iterate_succ_apply, first]
    have hN : (rampStep m)^[2 * (m - 1)] (false, m) = (false, m) := by
      rw [show 2 * (m - 1) = 2 * (m - 2) + 1 + 1 by omega, Function.iterate_succ_apply, first, last]
    by_cases hi' : i + 1 < 2 * (m - 1)
    · refine ⟨i + 1, ⟨hi', by rw [← back]; exact h⟩, ?_⟩
      rintro k ⟨hk, hk2⟩
      cases k with
      | zero =>
        have : (rampStep m)^[2 * (m - 2) + 1] (true, m) = (b, d) := by rw [last]; exact hk2
        have := hu (2 * (m - 2) + 1) ⟨by omega, this⟩
        omega
      | succ k =>
        have := hu k ⟨by omega, by rw [back]; exact hk2⟩
        omega
    · have ei : i + 1 = 2 * (m - 1) := by omega
      refine ⟨0, ⟨by omega, ?_⟩, ?_⟩
      · rw [back, ei, hN] at h
        exact h
      · rintro k ⟨hk, hk2⟩
        cases k with
        | zero => rfl
        | succ k =>
          have := hu k ⟨by omega, by rw [back]; exact hk2⟩
          omega

/-- The function that initialises a population makes exactly as many trees as asked, as many with each depth and mode,
and fewer than `2 (depth - 1)` more. -/
theorem C157_population (pop depth : Nat) (hd : 2 ≤ depth) :
    (depth - 1) * (2 * (rampCounts pop depth).1) + (rampCounts pop depth).2 = pop ∧
      (rampCounts pop depth).2 < 2 * (depth - 1) := by
  simp only [rampCounts]
  have h1 := Nat.div_add_mod pop (2 * (depth - 1))
  have h2 := Nat.mod_lt pop (show 2 * (depth - 1) > 0 by omega)
  have e : (depth - 1) * (2 * (pop / (2 * (depth - 1)))) = 2 * (depth - 1) * (pop / (2 * (depth - 1))) := by ring
  rw [e]
  omega

/-! ### C158: typed trees -/

/-- When the typed initialiser makes a tree, it is well typed with the type asked for, of the nodes given, and with
at most `d + 1` levels. -/
theorem C158_init (T : Typed α) (nodes : List α) (grow : Bool) (r : Nat → Nat) (d : Nat) (y : Int) (n : Nat)
    (t : Sub α) (h : stInit T nodes grow r d y n = some t) :
    WellTyped T t ∧ T.ty t.val = y ∧ Exact T.ar t ∧ t.depth ≤ d + 1 ∧ (∀ a ∈ post t, a ∈ nodes) ∧
      (grow = false → ∀ p u, t.at? p = some u → T.ar u.val = 0 → p.length = d) := by
  unfold stInit at h
  cases hg : stGenerate T nodes grow r d y ([], n, true) with
  | none => simp [hg] at h
  | some x =>
    obtain ⟨l, n', ok⟩ := x
    rw [hg] at h
    cases ok with
    | false => simp at h
    | true =>
      simp only at h
      obtain ⟨_, t', rfl, ⟨hE, hH, hF, hM⟩, hW, hy⟩ := stGenerate_spec T nodes grow r d y _ _ _ _ _ hg
      have hseq : ofSeq T.ar (pre t').reverse = some t' :=
        (ofSeq_iff T.ar _ _).mpr ⟨hE, [], by rw [pre_post]; simp⟩
      rw [List.nil_append, hseq] at h
      cases h
      refine ⟨hW, hy, hE, by rw [((exact_iff T.ar _).mp hE).1.2.1]; exact hH, hM, ?_⟩
      intro hg' p u hp hu
      have := (hE p u hp).2.2.2
      exact hF hg' p u hp (List.length_eq_zero_iff.mp (by omega))

/-- The typed crossover keeps trees well typed, keeps the types of the roots and loses no node; it exchanges subtrees
of one type, and leaves the trees alone only if no number drawn has a partner. -/
theorem C158_crossover (T : Typed α) (is : List Nat) (c : Nat) (t1 t2 u1 u2 : Sub α) (h1 : Exact T.ar t1)
    (h2 : Exact T.ar t2) (w1 : WellTyped T t1) (w2 : WellTyped T t2) (h : stXover T is c t1 t2 = some (u1, u2)) :
    WellTyped T u1 ∧ WellTyped T u2 ∧ T.ty u1.val = T.ty t1.val ∧ T.ty u2.val = T.ty t2.val ∧ Exact T.ar u1 ∧
      Exact T.ar u2 ∧ u1.size + u2.size = t1.size + t2.size ∧
      ((u1 = t1 ∧ u2 = t2 ∧ ∀ i ∈ is, ∀ v, t1.at? (getPath t1 i) = some v → ∀ q w, t2.at? q = some w →
          T.ty w.val ≠ T.ty v.val) ∨
        ∃ p q v w, t1.at? p = some v ∧ t2.at? q = some w ∧ T.ty v.val = T.ty w.val ∧ u1.at? p = some w ∧
          u2.at? q = some v) := by
  unfold stXover at h
  cases hp : stPick T t1 t2 is with
  | none => simp [hp] at h
  | some x =>
    obtain ⟨i, ns⟩ := x
    rw [hp] at h
    simp only at h
    obtain ⟨hi, v, hv, rfl, hnone⟩ := stPick_spec T t1 t2 is i ns hp
    cases hj : (possible T t2 (T.ty v.val))[c % (possible T t2 (T.ty v.val)).length]? with
    | none =>
      rw [hj] at h
      simp at h
      obtain ⟨rfl, rfl⟩ := h
      refine ⟨w1, w2, rfl, rfl, h1, h2, rfl, Or.inl ⟨rfl, rfl, ?_⟩⟩
      have hempty : possible T t2 (T.ty v.val) = [] := by
        by_contra hne
        have hpos := List.length_pos_of_ne_nil hne
        rw [List.getElem?_eq_getElem (Nat.mod_lt c hpos)] at hj
        simp at hj
      intro k hk v' hv' q w hq e
      have hn := hnone hempty k hk v' hv'
      have hm := (mem_places t2 q).mpr (by simp [hq])
      obtain ⟨m, hlt, hmq⟩ := List.getElem_of_mem hm
      have hms := getPath_spec t2 h2 m (by rw [← length_places]; exact hlt)
      rw [List.getElem?_eq_getElem hlt, hmq] at hms
      have : m ∈ possible T t2 (T.ty v'.val) := by
        rw [mem_possible]
        refine ⟨by rw [((exact_iff T.ar _).mp h2).1.1, ← length_places]; exact hlt, w, ?_, e⟩
        rw [← Option.some.inj hms]
        exact hq
      rw [hn] at this
      simp at this
    | some j =>
      rw [hj] at h
      simp only at h
      obtain ⟨_, w, hw, hty⟩ := (mem_possible T t2 _ j).mp (List.mem_of_getElem? hj)
      rw [hv, hw] at h
      simp at h
      obtain ⟨rfl, rfl⟩ := h
      have ev := h1.at hv
      have ew := h2.at hw
      have wv := w1.at hv
      have ww := w2.at hw
      obtain ⟨a1, a2, _, _, a5⟩ := C154_assign T.ar t1 w v h1 ew _ hv
      obtain ⟨b1, b2, _, _, b5⟩ := C154_assign T.ar t2 v w h2 ev _ hw
      refine ⟨wellTyped_assign T w ww _ t1 v w1 hv hty, wellTyped_assign T v wv _ t2 w w2 hw hty.symm,
        assign_val w t1 v T _ hv hty, assign_val v t2 w T _ hw hty.symm, a1, b1, by omega,
        Or.inr ⟨_, _, v, w, hv, hw, hty.symm, a2, b2⟩⟩

/-- The typed hoist mutation keeps the tree well typed and its type. -/
theorem C158_hoist (T : Typed α) (i : Nat) (t u : Sub α) (w : WellTyped T t) (hi : i ∈ possible T t (T.ty t.val))
    (h : hoist i t = some u) : WellTyped T u ∧ T.ty u.val = T.ty t.val := by
  obtain ⟨_, v, hv, hy⟩ := (mem_possible T t _ i).mp hi
  unfold hoist at h
  rw [hv] at h
  cases h
  exact ⟨w.at hv, hy⟩

/-- Types of the example: `11` and `12` are functions of one argument returning type 0, of an argument of type 0 and of
type 1; the terminals have type 0. -/
def exTy : Typed Nat := ⟨exAr, fun _ => 0, fun a _ => if a = 12 then 1 else 0⟩

/-- The typed point mutation does not look at the types of the arguments: it can make an ill-typed tree. -/
theorem C158_point_ill_typed :
    WellTyped exTy (refresh 11 [refresh 1 []]) ∧ exTy.ty 12 = exTy.ty 11 ∧ exTy.ar 12 = exTy.ar 11 ∧
      ¬ WellTyped exTy (pointMut exTy.ar 0 1 12 (refresh 11 [refresh 1 []])) := by
  refine ⟨?_, rfl, rfl, ?_⟩
  · rw [wellTyped_iff]
    refine ⟨?_, ?_⟩
    · intro i v _; rfl
    · intro u hu
      simp at hu
      subst hu
      rw [wellTyped_iff]; simp
  · intro h
    have := h [] _ (at_nil _) 0 (refresh 1 []) rfl
    exact absurd this (by decide)

/-- A tree of `n + 1` functions or terminals in a row. -/
def chain : Nat → Sub Nat
  | 0 => refresh 1 []
  | n + 1 => refresh 11 [chain n]

theorem chain_exact (n : Nat) : Exact exAr (chain n) := by
  induction n with
  | zero => exact exact_refresh rfl (by simp)
  | succ n ih => exact exact_refresh rfl (by simpa using ih)

theorem chain_typed (n : Nat) : WellTyped exTy (chain n) := by
  induction n with
  | zero => rw [chain, wellTyped_iff]; simp
  | succ n ih =>
    rw [chain, wellTyped_iff]
    refine ⟨fun i v _ => rfl, by simpa using ih⟩

theorem chain_size (n : Nat) : (chain n).size = n + 1 := by
  induction n with
  | zero => rfl
  | succ n ih => show 1 + ((chain n).size + 0) = _; omega

/-- The maximum size given to the typed crossover is not used: two trees of `n + 1` nodes can give one of `2 n + 1`. -/
theorem C158_crossover_no_limit (n : Nat) :
    ∃ is c u1 u2, (∀ i ∈ is, i < (chain n).size) ∧ stXover exTy is c (chain n) (chain n) = some (u1, u2) ∧
      u1.size = 2 * n + 1 := by
  have hE := chain_exact n
  have hz := chain_size n
  have hp : possible exTy (chain n) 0 = List.range (n + 1) := by
    unfold possible
    rw [hz, List.filter_eq_self]
    intro k hk
    obtain ⟨u, hu⟩ := getPath_at hE (i := k) (by rw [hz]; simpa using hk)
    rw [hu]
    rfl
  obtain ⟨v, hv⟩ := getPath_at hE (i := 0) (by omega)
  have hroot : getPath (chain n) n = [] := by
    cases n with
    | zero => rfl
    | succ n =>
      have e : (chain (n + 1)) = .mk 11 (chain (n + 1)).size (chain (n + 1)).depth (chain (n + 1)).cum [chain n] := rfl
      rw [e, getPath, if_pos (by omega)]
  have hv1 : count v = 1 := by
    have : ∀ n v, (chain n).at? (getPath (chain n) 0) = some v → count v = 1 := by
      intro n
      induction n with
      | zero =>
        intro v hv
        have e : getPath (chain 0) 0 = [] := rfl
        rw [e] at hv
        simp at hv
        subst hv
        rfl
      | succ n ih =>
        intro v hv
        have hsz := chain_size (n + 1)
        have e : getPath (chain (n + 1)) 0 = 0 :: getPath (chain n) 0 := by
          have e : (chain (n + 1)) = .mk 11 (chain (n + 1)).size (chain (n + 1)).depth (chain (n + 1)).cum
            [chain n] := rfl
          rw [e, getPath, if_neg (by omega)]
          simp only [getIn]
          rw [if_pos (by rw [chain_size]; omega)]
        rw [e, at_cons] at hv
        exact ih v hv
    exact this n v hv
  have hx : stXover exTy [0] n (chain n) (chain n) =
      some ((chain n).assign (chain n) (getPath (chain n) 0), v.assign (chain n) []) := by
    unfold stXover stPick
    rw [hv]
    simp only [List.isEmpty_nil, Bool.not_true, Bool.false_eq_true, and_false, if_false]
    rw [show exTy.ty v.val = 0 from rfl, hp]
    simp only [List.length_range]
    rw [Nat.mod_eq_of_lt (by omega), List.getElem?_range (by omega)]
    simp only [hroot, at_nil, hv]
  refine ⟨[0], n, _, _, by intro i hi; simp at hi; omega, hx, ?_⟩
  have h3 := (C154_assign exAr (chain n) (chain n) v hE hE _ hv).2.2.2.2
  have h4 := ((exact_iff exAr _).mp (hE.at hv)).1.1
  omega

example : stInit exTy [1, 11] true (fun _ => 1) 2 0 0 = some (refresh 11 [refresh 11 [refresh 1 []]]) := rfl

/-- If no node returns a type that is asked for, the typed initialiser reads an element of an empty vector. -/
theorem C158_missing_type (T : Typed α) (nodes : List α) (grow : Bool) (r : Nat → Nat) (d : Nat) (y : Int)
    (l : List α) (n : Nat) (ok : Bool) (h : ∀ a ∈ nodes, T.ty a ≠ y) :
    stGenerate T nodes grow r (d + 1) y (l, n, ok) = none := by
  have e1 : allOf T nodes y = [] := by
    unfold allOf; rw [List.filter_eq_nil_iff]; intro a ha; simpa using h a ha
  have e2 : nonterminals T nodes y = [] := by
    unfold nonterminals; rw [List.filter_eq_nil_iff]; intro a ha; simp [h a ha]
  rw [stGenerate, e1, e2]
  simp

example : ∀ a ∈ [1, 11], exTy.ty a ≠ 7 := by decide

end Paradiseo.Gp
