import Verif.Lemmas.QuadTree
/-
C180: the quad tree.  C181: the archive on the quad tree.  C182: the sorted index.  C183: the archive on the
sorted index.
-/
namespace Paradiseo.QT

variable {V : Type}

/-- The tree after the vectors of a list were submitted, and the answers. -/
def run (c : V → Nat → Int) (m lim : Nat) (xs : List V) : Quad V :=
  xs.foldl (fun q x => (q.insert c m lim x).1) ⟨.nil, 0⟩

/-- The vectors in a tree. -/
def Quad.vecs (m : Nat) (q : Quad V) : List V := (q.root.toList (bound m)).map Prod.fst

theorem anti_map {c : V → Nat → Int} {m : Nat} {s t : Multiset (V × Nat)} (h : s.map Prod.fst = t.map Prod.fst)
    (ha : Anti c m s) : Anti c m t := by
  induction s using Quotient.inductionOn with
  | h l =>
    induction t using Quotient.inductionOn with
    | h l' =>
      rw [Multiset.quot_mk_to_coe] at ha h ⊢
      rw [Multiset.quot_mk_to_coe, Multiset.map_coe, Multiset.map_coe, Multiset.coe_eq_coe] at h
      rw [anti_coe] at ha
      rw [anti_coe]
      have h1 : (l.map Prod.fst).Pairwise (Incomp c m) := List.pairwise_map.2 ha
      exact List.pairwise_map.1 ((List.Perm.pairwise_iff (fun hab => hab.symm) h.symm).2 h1)

theorem mem_vecs {m : Nat} {q : Quad V} {v : V} : v ∈ q.vecs m ↔ ∃ y ∈ q.root.ms (bound m), y.1 = v := by
  unfold Quad.vecs Tree.ms
  rw [List.mem_map]
  rfl

/-- One submission. -/
theorem insert_step {c : V → Nat → Int} {m lim : Nat} (hm : 0 < m) (hlim : lim ≤ bound m) (x : V) (q : Quad V)
    (hg : Good c m q.root) (ha : Anti c m (q.root.ms (bound m))) :
    ((∃ y ∈ q.root.ms (bound m), Le c m y.1 x) → q.insert c m lim x = (q, false, [])) ∧
    ((∀ y ∈ q.root.ms (bound m), ¬ Le c m y.1 x) →
      (q.insert c m lim x).2.1 = true ∧ Good c m (q.insert c m lim x).1.root ∧
      Anti c m ((q.insert c m lim x).1.root.ms (bound m)) ∧
      (∀ y ∈ (q.insert c m lim x).2.2, Le c m x y.1) ∧
      ∃ idx lost, (q.root.isNil = false → idx = q.size - 1) ∧ (q.root.isNil = true → idx = 0) ∧
        (∀ y ∈ (q.insert c m lim x).1.root.ms (bound m), y = (x, idx) ∨ ¬ Le c m x y.1) ∧
        (x, idx) ∈ (q.insert c m lim x).1.root.ms (bound m) ∧
        (q.insert c m lim x).1.root.ms (bound m) + ↑(q.insert c m lim x).2.2 + lost =
        {(x, idx)} + q.root.ms (bound m) ∧ (lim = bound m ∨ m ≤ 2 → lost = 0) ∧
        ((∀ y ∈ q.root.ms (bound m), ¬ Le c m x y.1) → lost = 0)) := by
  obtain ⟨root, size⟩ := q
  cases root with
  | nil =>
    refine ⟨fun ⟨y, hy, _⟩ => absurd hy (Multiset.notMem_zero y), fun _ => ⟨rfl, good_leaf _ _ _ _, ?_, ?_,
      0, 0, (fun h => nomatch h), fun _ => rfl, ?_, mem_node.2 (Or.inl rfl), ?_, fun _ => rfl, fun _ => rfl⟩⟩
    · show Anti c m ((leaf x 0).ms (bound m))
      rw [ms_leaf, ← Multiset.cons_zero, anti_cons]
      exact ⟨fun b hb => absurd hb (Multiset.notMem_zero b), anti_zero c m⟩
    · intro y hy; cases hy
    · intro y hy
      have hy' : y ∈ (leaf x 0).ms (bound m) := hy
      rw [ms_leaf, Multiset.mem_singleton] at hy'
      exact Or.inl hy'
    · show (leaf x 0).ms (bound m) + ↑([] : List (V × Nat)) + 0 = {(x, 0)} + (Tree.nil : Tree V).ms (bound m)
      rw [ms_leaf, ms_nil]
      simp
  | node u i kids =>
    obtain ⟨h1, h2⟩ := insertAux_spec hm hlim x (size - 1) (.node u i kids) hg ha
    constructor
    · intro h
      have e := h1 h
      unfold Quad.insert
      simp only [e, Bool.false_eq_true, if_false]
    · intro h
      obtain ⟨a1, a2, a3, a4, a8, lost, a5, a6, a7⟩ := h2 h
      refine ⟨a1, a2, ?_, a3, size - 1, lost, fun _ => rfl, (fun h => nomatch h), a4, a8, a5, a6, a7⟩
      · show Anti c m ((insertAux c m lim x (size - 1) (.node u i kids)).1.ms (bound m))
        have hle : (insertAux c m lim x (size - 1) (.node u i kids)).1.ms (bound m) ≤
            {(x, size - 1)} + (Tree.node u i kids).ms (bound m) := by
          rw [← a5, add_assoc]
          exact Multiset.le_add_right _ _
        generalize hA : (insertAux c m lim x (size - 1) (.node u i kids)).1.ms (bound m) = A at hle a4 a5
        obtain ⟨A', rfl⟩ := Multiset.exists_cons_of_mem (show (x, size - 1) ∈ A by rw [← hA]; exact a8)
        rw [Multiset.singleton_add] at hle
        have hle' := (Multiset.cons_le_cons_iff _).1 hle
        rw [anti_cons]
        refine ⟨?_, anti_le ha hle'⟩
        intro b hb
        have hb' := Multiset.mem_of_le hle' hb
        refine ⟨?_, h b hb'⟩
        rcases a4 b (Multiset.mem_cons_of_mem hb) with rfl | hxb
        · exact absurd (Le.refl' c m x) (h _ hb')
        · exact hxb

/-- What holds of every run: the tree is well formed, its vectors were submitted and are incomparable; if nothing
can be lost every submitted vector is covered. -/
theorem run_inv {c : V → Nat → Int} {m lim : Nat} (hm : 0 < m) (hlim : lim ≤ bound m) (xs : List V) :
    Good c m (run c m lim xs).root ∧ Anti c m ((run c m lim xs).root.ms (bound m)) ∧
    (∀ v ∈ (run c m lim xs).vecs m, v ∈ xs) ∧
    (lim = bound m ∨ m ≤ 2 → ∀ x ∈ xs, ∃ y ∈ (run c m lim xs).vecs m, Le c m y x) := by
  induction xs using List.reverseRecOn with
  | nil => exact ⟨trivial, anti_zero c m, (fun v hv => nomatch hv), (fun _ x hx => nomatch hx)⟩
  | append_singleton xs x ih =>
    obtain ⟨i1, i2, i3, i4⟩ := ih
    have e : run c m lim (xs ++ [x]) = ((run c m lim xs).insert c m lim x).1 := by
      unfold run; rw [List.foldl_append]; rfl
    rw [e]
    generalize run c m lim xs = q at i1 i2 i3 i4 ⊢
    obtain ⟨h1, h2⟩ := insert_step hm hlim x q i1 i2
    by_cases hd : ∃ y ∈ q.root.ms (bound m), Le c m y.1 x
    · rw [h1 hd]
      refine ⟨i1, i2, fun v hv => List.mem_append_left _ (i3 v hv), fun hl z hz => ?_⟩
      rcases List.mem_append.1 hz with hz | hz
      · exact i4 hl z hz
      · obtain ⟨y, hy, hyx⟩ := hd
        rw [List.mem_singleton.1 hz]
        exact ⟨y.1, mem_vecs.2 ⟨y, hy, rfl⟩, hyx⟩
    · obtain ⟨_, a2, a3, a4, idx, lost, _, _, _, a8, a5, a6, _⟩ := h2 fun y hy hyx => hd ⟨y, hy, hyx⟩
      refine ⟨a2, a3, ?_, ?_⟩
      · intro v hv
        obtain ⟨y, hy, rfl⟩ := mem_vecs.1 hv
        have : y ∈ {(x, idx)} + q.root.ms (bound m) := by
          rw [← a5]
          exact Multiset.mem_add.2 (Or.inl (Multiset.mem_add.2 (Or.inl hy)))
        rw [Multiset.mem_add, Multiset.mem_singleton] at this
        rcases this with rfl | this
        · simp
        · exact List.mem_append_left _ (i3 _ (mem_vecs.2 ⟨y, this, rfl⟩))
      · intro hl
        rw [a6 hl, add_zero] at a5
        have hx : ∃ y ∈ ((q.insert c m lim x).1).vecs m, Le c m y x :=
          ⟨x, mem_vecs.2 ⟨_, a8, rfl⟩, Le.refl' c m x⟩
        intro z hz
        rcases List.mem_append.1 hz with hz | hz
        · obtain ⟨y, hy, hyz⟩ := i4 hl z hz
          obtain ⟨y', hy', rfl⟩ := mem_vecs.1 hy
          have : y' ∈ (q.insert c m lim x).1.root.ms (bound m) + ↑(q.insert c m lim x).2.2 := by
            rw [a5]; exact Multiset.mem_add.2 (Or.inr hy')
          rcases Multiset.mem_add.1 this with h | h
          · exact ⟨_, mem_vecs.2 ⟨_, h, rfl⟩, hyz⟩
          · obtain ⟨w, hw, hwx⟩ := hx
            exact ⟨w, hw, hwx.trans' ((a4 y' h).trans' hyz)⟩
        · rw [List.mem_singleton.1 hz]; exact hx

/-! ### C180 -/

/-- **C180** (two objectives, or with the loops of `remove` running to `bound`).  After any sequence of
submissions the tree holds incomparable submitted vectors, one at least as good as each submitted one, and a
further vector is accepted exactly if no submitted vector is at least as good. -/
theorem C180_exact (c : V → Nat → Int) (m lim : Nat) (hm : 0 < m) (hl : (lim = bound m - 1 ∧ m ≤ 2) ∨ lim = bound m)
    (xs : List V) :
    ((run c m lim xs).vecs m).Pairwise (Incomp c m) ∧ (∀ v ∈ (run c m lim xs).vecs m, v ∈ xs) ∧
    (∀ x ∈ xs, ∃ y ∈ (run c m lim xs).vecs m, Le c m y x) ∧
    ∀ x, ((run c m lim xs).insert c m lim x).2.1 = true ↔ ∀ y ∈ xs, ¬ Le c m y x := by
  have hlim : lim ≤ bound m := by omega
  have hl' : lim = bound m ∨ m ≤ 2 := by omega
  obtain ⟨h1, h2, h3, h4⟩ := run_inv (c := c) hm hlim xs
  obtain h4 := h4 hl'
  refine ⟨List.pairwise_map.2 ((anti_coe _ _ _).1 h2), h3, h4, ?_⟩
  intro x
  obtain ⟨s1, s2⟩ := insert_step hm hlim x _ h1 h2
  constructor
  · intro h y hy hyx
    obtain ⟨w, hw, hwy⟩ := h4 y hy
    obtain ⟨w', hw', rfl⟩ := mem_vecs.1 hw
    rw [s1 ⟨w', hw', hwy.trans' hyx⟩] at h
    cases h
  · intro h
    exact (s2 fun y hy hyx => h y.1 (h3 _ (mem_vecs.2 ⟨y, hy, rfl⟩)) hyx).1

/-- **C180** (any number of objectives).  The tree never holds comparable vectors and never rejects a vector
without a submitted one at least as good. -/
theorem C180_sound (c : V → Nat → Int) (m : Nat) (hm : 0 < m) (xs : List V) :
    ((run c m (bound m - 1) xs).vecs m).Pairwise (Incomp c m) ∧ (∀ v ∈ (run c m (bound m - 1) xs).vecs m, v ∈ xs) ∧
    ∀ x, ((run c m (bound m - 1) xs).insert c m (bound m - 1) x).2.1 = false → ∃ y ∈ xs, Le c m y x := by
  obtain ⟨h1, h2, h3, _⟩ := run_inv (c := c) hm (Nat.sub_le (bound m) 1) xs
  refine ⟨List.pairwise_map.2 ((anti_coe _ _ _).1 h2), h3, ?_⟩
  intro x hx
  by_contra hno
  obtain ⟨_, s2⟩ := insert_step hm (Nat.sub_le (bound m) 1) x _ h1 h2
  rw [(s2 fun y hy hyx => hno ⟨y.1, h3 _ (mem_vecs.2 ⟨y, hy, rfl⟩), hyx⟩).1] at hx
  cases hx

/-- One submission: the vectors reported as removed are exactly those dominated, if nothing is lost. -/
theorem C180_removed (c : V → Nat → Int) (m lim : Nat) (hm : 0 < m)
    (hl : (lim = bound m - 1 ∧ m ≤ 2) ∨ lim = bound m) (xs : List V) (x : V) (v : V) :
    ((∃ i, (v, i) ∈ ((run c m lim xs).insert c m lim x).2.2) ↔
      v ∈ (run c m lim xs).vecs m ∧ Le c m x v ∧ ¬ Le c m v x ∧ ∀ y ∈ (run c m lim xs).vecs m, ¬ Le c m y x) := by
  have hlim : lim ≤ bound m := by omega
  have hl' : lim = bound m ∨ m ≤ 2 := by omega
  obtain ⟨h1, h2, _, _⟩ := run_inv (c := c) hm hlim xs
  generalize run c m lim xs = q at h1 h2 ⊢
  obtain ⟨s1, s2⟩ := insert_step hm hlim x q h1 h2
  by_cases hd : ∃ y ∈ q.root.ms (bound m), Le c m y.1 x
  · rw [s1 hd]
    constructor
    · rintro ⟨i, hi⟩; cases hi
    · rintro ⟨_, _, _, h⟩
      obtain ⟨y, hy, hyx⟩ := hd
      exact absurd hyx (h _ (mem_vecs.2 ⟨y, hy, rfl⟩))
  · have hno : ∀ y ∈ q.root.ms (bound m), ¬ Le c m y.1 x := fun y hy h => hd ⟨y, hy, h⟩
    obtain ⟨_, a2, a3, a4, idx, lost, _, _, a9, a8, a5, a6, _⟩ := s2 hno
    rw [a6 hl', add_zero] at a5
    obtain ⟨A, hA⟩ := Multiset.exists_cons_of_mem a8
    rw [hA, Multiset.cons_add, ← Multiset.singleton_add, add_right_inj] at a5
    constructor
    · rintro ⟨i, hi⟩
      have hv : (v, i) ∈ q.root.ms (bound m) := by rw [← a5]; exact Multiset.mem_add.2 (Or.inr hi)
      exact ⟨mem_vecs.2 ⟨_, hv, rfl⟩, a4 _ hi, hno _ hv, fun y hy => by
        obtain ⟨y', hy', rfl⟩ := mem_vecs.1 hy
        exact hno y' hy'⟩
    · rintro ⟨hv, hxv, hvx, _⟩
      obtain ⟨⟨v', i⟩, hv', rfl⟩ := mem_vecs.1 hv
      refine ⟨i, ?_⟩
      have hv2 := hv'
      rw [← a5] at hv2
      rcases Multiset.mem_add.1 hv2 with h | h
      · rcases a9 (v', i) (by rw [hA]; exact Multiset.mem_cons_of_mem h) with he | he
        · have : v' = x := congrArg Prod.fst he
          exact absurd (by rw [this]; exact Le.refl' c m x) hvx
        · exact absurd hxv he
      · exact h

/-- Coordinates of a list. -/
def co (v : List Int) (i : Nat) : Int := v.getD i 0

/-- **C180** (three objectives).  The last two loops of `remove` stop before the slot `bound - 1`: the vector
(2,4,0) is lost when (1,1,4) comes, and (2,4,1), which it dominates, is accepted. -/
theorem C180_lost :
    ((run co 3 (bound 3 - 1) [[2,0,5], [2,3,4], [2,4,0], [5,0,4], [1,1,4]]).insert co 3 (bound 3 - 1) [2,4,1]).2.1 =
      true ∧ Le co 3 [2,4,0] [2,4,1] ∧
    [2,4,0] ∉ (run co 3 (bound 3 - 1) [[2,0,5], [2,3,4], [2,4,0], [5,0,4], [1,1,4]]).vecs 3 ∧
    ∀ x ∈ [[2,0,5], [2,3,4], [5,0,4], [1,1,4]], ¬ Le co 3 x [2,4,0] := by
  have key : ∀ x y : List Int, Le co 3 x y ↔ (List.range 3).all (fun i => decide (co x i ≤ co y i)) = true := by
    intro x y
    simp [Le, List.all_eq_true]
  simp only [key]
  decide +kernel

/-- With the loops running to `bound`, the same submissions. -/
example : (run co 3 (bound 3) [[2,0,5], [2,3,4], [2,4,0], [5,0,4], [1,1,4], [2,4,1]]).vecs 3 =
    [[2,0,5], [1,1,4], [5,0,4], [2,4,0]] := by decide +kernel

example : (run co 2 (bound 2 - 1) [[5,5], [1,9], [9,1], [6,6], [0,8], [1,9]]).vecs 2 = [[5,5], [0,8], [9,1]] := by
  decide +kernel

/-! ### C181 -/

theorem kSucc_swap {c : V → Nat → Int} {m : Nat} (hm : 0 < m) {v w : V} (h : Incomp c m v w) :
    kSucc c m v w ≠ kSucc c m w v := by
  rw [(kSucc_pos hm h).2.2, (kSucc_pos hm h.symm).2.2]
  intro e
  apply h.1
  intro i hi
  have := congrArg (fun n => n.testBit (m - 1 - i)) e
  simp only [slot, bits_testBit] at this
  rw [show m - 1 - (m - 1 - i) = i by omega] at this
  simp only [show m - 1 - i < m by omega, decide_true, Bool.true_and, decide_eq_decide] at this
  by_contra hlt
  exact absurd (this.1 (by omega)) hlt

/-- A vector that is in no tree of a slot is not found there. -/
theorem updateIdx_absent {c : V → Nat → Int} {m : Nat} (obj : V) (n : Nat) (t : Tree V)
    (h : ∀ y ∈ t.ms (bound m), ¬ Le c m y.1 obj) : updateIdx c m obj n t = (t, true) := by
  induction t with
  | nil => rfl
  | node v i kids ih =>
    unfold updateIdx
    rw [if_neg]
    · have := ih (kSucc c m v obj) fun y hy => h y (mem_node.2 (Or.inr ⟨_, kSucc_le v obj, hy⟩))
      dsimp only
      rw [this]
      refine Prod.ext ?_ rfl
      dsimp only
      congr 1
      funext k
      unfold setKid
      split
      · rename_i hk; rw [hk]
      · rfl
    · intro he
      rw [List.all_eq_true] at he
      apply h (v, i) (mem_node.2 (Or.inl rfl))
      intro j hj
      have := he j (List.mem_range.2 hj)
      simp only [decide_eq_true_eq] at this
      exact le_of_eq this

/-- **C181** (update).  In every tree reached by submissions, `update` finds a stored vector only if it is the
root: for every other one nothing is changed. -/
theorem C181_update_only_root (c : V → Nat → Int) (m : Nat) (hm : 0 < m) (xs : List V) (n : Nat) :
    match (run c m (bound m - 1) xs).root with
    | .nil => xs = []
    | .node u i kids =>
      (∀ k ≤ bound m, ∀ y ∈ (kids k).toList (bound m),
        updateIdx c m y.1 n (.node u i kids) = (.node u i kids, true)) ∧
      updateIdx c m u n (.node u i kids) = (.node u n kids, false) := by
  obtain ⟨h1, h2, h3, _⟩ := run_inv (c := c) hm (Nat.sub_le (bound m) 1) xs
  cases hr : (run c m (bound m - 1) xs).root with
  | nil =>
    show xs = []
    cases xs with
    | nil => rfl
    | cons x xs =>
      exfalso
      have hcov : ∀ ys : List V, ys ≠ [] → ((run c m (bound m - 1) ys).root).isNil = false := by
        intro ys
        induction ys using List.reverseRecOn with
        | nil => intro h; exact absurd rfl h
        | append_singleton ys y ih =>
          intro _
          obtain ⟨g1, g2, _, _⟩ := run_inv (c := c) hm (Nat.sub_le (bound m) 1) ys
          have e : run c m (bound m - 1) (ys ++ [y]) = ((run c m (bound m - 1) ys).insert c m (bound m - 1) y).1 := by
            unfold run; rw [List.foldl_append]; rfl
          rw [e]
          obtain ⟨s1, s2⟩ := insert_step hm (Nat.sub_le (bound m) 1) y _ g1 g2
          by_cases hd : ∃ z ∈ (run c m (bound m - 1) ys).root.ms (bound m), Le c m z.1 y
          · rw [s1 hd]
            obtain ⟨z, hz, _⟩ := hd
            cases hq : (run c m (bound m - 1) ys).root with
            | nil => rw [hq] at hz; exact absurd hz (Multiset.notMem_zero z)
            | node _ _ _ => rfl
          · obtain ⟨_, _, _, _, idx, _, _, _, _, a8, _⟩ := s2 fun z hz hzy => hd ⟨z, hz, hzy⟩
            cases hq : ((run c m (bound m - 1) ys).insert c m (bound m - 1) y).1.root with
            | nil => rw [hq] at a8; exact absurd a8 (Multiset.notMem_zero _)
            | node _ _ _ => rfl
      have := hcov (x :: xs) (by simp)
      rw [hr] at this
      cases this
  | node u i kids =>
    rw [hr] at h1 h2
    obtain ⟨g1, g2, g3, g4⟩ := h1
    rw [ms_node, anti_cons] at h2
    refine ⟨?_, ?_⟩
    · intro k hk y hy
      have hin := h2.1 y (Multiset.mem_of_le (kid_le hk) hy)
      have hky : kSucc c m y.1 u = k := g2 k y hy
      have hne : kSucc c m u y.1 ≠ k := by
        rw [← hky]; exact (kSucc_swap hm hin.symm).symm
      unfold updateIdx
      rw [if_neg]
      · dsimp only
        have hle := kSucc_le (c := c) (m := m) u y.1
        rw [updateIdx_absent]
        · refine Prod.ext ?_ rfl
          dsimp only
          congr 1
          funext j
          unfold setKid
          split
          · rename_i hj; rw [hj]
          · rfl
        · intro z hz
          have hsub : (kids (kSucc c m u y.1)).ms (bound m) + (kids k).ms (bound m) ≤
              ∑ n ∈ Finset.range (bound m + 1), (kids n).ms (bound m) := by
            have := Finset.sum_le_sum_of_subset (f := fun n => (kids n).ms (bound m))
              (s := {kSucc c m u y.1, k}) (t := Finset.range (bound m + 1)) (by
                intro a ha
                simp only [Finset.mem_insert, Finset.mem_singleton] at ha
                rw [Finset.mem_range]
                omega)
            rwa [Finset.sum_pair hne] at this
          exact ((anti_add.1 (anti_le h2.2 hsub)).2.2 z hz y hy).1
      · intro he
        rw [List.all_eq_true] at he
        apply hin.1
        intro j hj
        have := he j (List.mem_range.2 hj)
        simp only [decide_eq_true_eq] at this
        exact le_of_eq this
    · unfold updateIdx
      rw [if_pos]
      rw [List.all_eq_true]
      intro j _
      simp

/-- At least as good everywhere. -/
def leB (c : V → Nat → Int) (m : Nat) (v w : V) : Bool := (List.range m).all fun i => decide (c v i ≤ c w i)

theorem leB_iff {c : V → Nat → Int} {m : Nat} {v w : V} : leB c m v w = true ↔ Le c m v w := by
  simp [leB, Le, List.all_eq_true]

/-- What an unbounded archive keeps when no vector dominates an earlier one: each vector unless a kept one is at
least as good. -/
def keep (c : V → Nat → Int) (m : Nat) (xs : List V) : List V :=
  xs.foldl (fun l x => if l.any fun y => leB c m y x then l else l ++ [x]) []

theorem keep_append (c : V → Nat → Int) (m : Nat) (xs : List V) (x : V) :
    keep c m (xs ++ [x]) = if (keep c m xs).any fun y => leB c m y x then keep c m xs else keep c m xs ++ [x] := by
  unfold keep; rw [List.foldl_append]; rfl

/-- No vector is at least as good as an earlier one, unless equal to it. -/
def NoDom (c : V → Nat → Int) (m : Nat) (xs : List V) : Prop := xs.Pairwise fun a b => Le c m b a → Le c m a b

theorem keep_sub (c : V → Nat → Int) (m : Nat) (xs : List V) : (keep c m xs).Sublist xs := by
  induction xs using List.reverseRecOn with
  | nil => exact List.Sublist.refl _
  | append_singleton xs x ih =>
    rw [keep_append]
    split
    · exact ih.trans (List.sublist_append_left _ _)
    · exact ih.append (List.Sublist.refl _)

theorem keep_cover (c : V → Nat → Int) (m : Nat) (xs : List V) (x : V) (hx : x ∈ xs) :
    ∃ y ∈ keep c m xs, Le c m y x := by
  induction xs using List.reverseRecOn with
  | nil => cases hx
  | append_singleton xs z ih =>
    rw [keep_append]
    rcases List.mem_append.1 hx with h | h
    · obtain ⟨y, hy, hyx⟩ := ih h
      split
      · exact ⟨y, hy, hyx⟩
      · exact ⟨y, List.mem_append_left _ hy, hyx⟩
    · rw [List.mem_singleton.1 h]
      split
      · rename_i ha
        obtain ⟨y, hy, hyx⟩ := List.any_eq_true.1 ha
        exact ⟨y, hy, leB_iff.1 hyx⟩
      · exact ⟨z, by simp, Le.refl' c m z⟩

theorem keep_incomp (c : V → Nat → Int) (m : Nat) (xs : List V) (h : NoDom c m xs) :
    (keep c m xs).Pairwise (Incomp c m) := by
  induction xs using List.reverseRecOn with
  | nil => exact List.Pairwise.nil
  | append_singleton xs z ih =>
    rw [NoDom, List.pairwise_append] at h
    rw [keep_append]
    split
    · exact ih h.1
    · rename_i ha
      rw [List.pairwise_append]
      refine ⟨ih h.1, List.pairwise_singleton _ _, ?_⟩
      intro a hma b hmb
      rw [List.mem_singleton.1 hmb]
      have hna : ¬ Le c m a z := by
        intro hl
        exact ha (List.any_eq_true.2 ⟨a, hma, leB_iff.2 hl⟩)
      exact ⟨hna, fun hl => hna (h.2.2 a ((keep_sub c m xs).subset hma) z (by simp) hl)⟩

theorem keep_self (c : V → Nat → Int) (m : Nat) (xs : List V) (h : xs.Pairwise (Incomp c m)) : keep c m xs = xs := by
  induction xs using List.reverseRecOn with
  | nil => rfl
  | append_singleton xs z ih =>
    rw [List.pairwise_append] at h
    rw [keep_append, ih h.1, if_neg]
    intro ha
    obtain ⟨y, hy, hyx⟩ := List.any_eq_true.1 ha
    exact (h.2.2 y hy z (by simp)).1 (leB_iff.1 hyx)

theorem archiveAll_append {I : Type} (D : Index V I) (l : List V) (x : V) (s : I × List V) :
    archiveAll D (l ++ [x]) s = (archiveAll D l s).bind fun s => (archive D s x).map Prod.fst := by
  induction l generalizing s with
  | nil =>
    show (archive D s x).bind (fun r => archiveAll D [] r.1) = _
    cases h : archive D s x <;> simp [archiveAll, h]
  | cons y l ih =>
    show (archive D s y).bind (fun r => archiveAll D (l ++ [x]) r.1) = _
    cases h : archive D s y with
    | none => simp [archiveAll, h]
    | some r => simp [archiveAll, h, ih]

/-- An index right on submissions that dominate nothing gives a right archive. -/
theorem archive_noDom {I : Type} (D : Index V I) (c : V → Nat → Int) (m : Nat) (Inv : I → List V → Prop) (i0 : I)
    (h0 : Inv i0 []) (hrej : ∀ i l x, Inv i l → (∃ y ∈ l, Le c m y x) → (D.submit x i).2.1 = false ∧
      Inv (D.submit x i).1 l)
    (hacc : ∀ i l x, Inv i l → (∀ y ∈ l, Incomp c m y x) → (D.submit x i).2 = (true, []) ∧
      Inv (D.submit x i).1 (l ++ [x]))
    (xs : List V) (hx : NoDom c m xs) :
    ∃ i, Inv i (keep c m xs) ∧ archiveAll D xs (i0, []) = some (i, keep c m xs) := by
  induction xs using List.reverseRecOn with
  | nil => exact ⟨i0, h0, rfl⟩
  | append_singleton xs z ih =>
    have hx' := hx
    rw [NoDom, List.pairwise_append] at hx
    obtain ⟨i, hi, e⟩ := ih hx.1
    rw [archiveAll_append, e, keep_append]
    by_cases ha : ((keep c m xs).any fun y => leB c m y z) = true
    · obtain ⟨y, hy, hyx⟩ := List.any_eq_true.1 ha
      obtain ⟨r1, r2⟩ := hrej i _ z hi ⟨y, hy, leB_iff.1 hyx⟩
      rw [if_pos ha]
      refine ⟨_, r2, ?_⟩
      simp [archive, r1]
    · obtain ⟨r1, r2⟩ := hacc i _ z hi (by
        intro y hy
        have hna : ¬ Le c m y z := by
          intro hl
          exact ha (List.any_eq_true.2 ⟨y, hy, leB_iff.2 hl⟩)
        exact ⟨hna, fun hl => hna (hx.2.2 y ((keep_sub c m xs).subset hy) z (by simp) hl)⟩)
      rw [if_neg ha]
      refine ⟨_, r2, ?_⟩
      simp [archive, r1]

/-- What is in the tree of an archive from which nothing was removed: each vector with the index of the one
before it. -/
def QInv (c : V → Nat → Int) (m : Nat) (q : Quad V) (l : List V) : Prop :=
  Good c m q.root ∧ Anti c m (q.root.ms (bound m)) ∧ q.size = l.length ∧
  q.root.ms (bound m) = ↑(l.zipIdx.map fun p => (p.1, p.2 - 1))

theorem qinv_mem {c : V → Nat → Int} {m : Nat} {q : Quad V} {l : List V} (h : QInv c m q l) :
    ∀ y ∈ q.root.ms (bound m), y.1 ∈ l := by
  intro y hy
  rw [h.2.2.2, Multiset.mem_coe, List.mem_map] at hy
  obtain ⟨p, hp, rfl⟩ := hy
  exact (List.mem_zipIdx' hp).2 ▸ List.getElem_mem _

theorem qinv_mem' {c : V → Nat → Int} {m : Nat} {q : Quad V} {l : List V} (h : QInv c m q l) {v : V} (hv : v ∈ l) :
    ∃ y ∈ q.root.ms (bound m), y.1 = v := by
  obtain ⟨i, hi, rfl⟩ := List.getElem_of_mem hv
  refine ⟨(l[i], i - 1), ?_, rfl⟩
  rw [h.2.2.2, Multiset.mem_coe, List.mem_map]
  exact ⟨(l[i], i), List.mk_mem_zipIdx_iff_getElem?.2 (List.getElem?_eq_getElem hi), rfl⟩

theorem qinv_nil {c : V → Nat → Int} {m : Nat} {q : Quad V} {l : List V} (h : QInv c m q l) :
    q.root.isNil = true ↔ l = [] := by
  constructor
  · intro hn
    cases hl : l with
    | nil => rfl
    | cons a l' =>
      obtain ⟨y, hy, _⟩ := qinv_mem' h (v := a) (by rw [hl]; simp)
      cases hq : q.root with
      | nil => rw [hq] at hy; exact absurd hy (Multiset.notMem_zero y)
      | node _ _ _ => rw [hq] at hn; cases hn
  · intro hn
    cases hq : q.root with
    | nil => rfl
    | node u i kids =>
      have := qinv_mem h (u, i) (by rw [hq]; exact mem_node.2 (Or.inl rfl))
      rw [hn] at this
      cases this

theorem qinv_acc {c : V → Nat → Int} {m : Nat} (hm : 0 < m) {q : Quad V} {l : List V} (h : QInv c m q l) (x : V)
    (hx : ∀ y ∈ l, Incomp c m y x) :
    (q.insert c m (bound m - 1) x).2 = (true, []) ∧ QInv c m (q.insert c m (bound m - 1) x).1 (l ++ [x]) := by
  obtain ⟨g1, g2, g3, g4⟩ := h
  obtain ⟨_, s2⟩ := insert_step hm (Nat.sub_le (bound m) 1) x q g1 g2
  obtain ⟨a1, a2, a3, a4, idx, lost, b1, b2, _, a8, a5, _, a7⟩ :=
    s2 fun y hy => (hx y.1 (qinv_mem ⟨g1, g2, g3, g4⟩ y hy)).1
  have hl0 := a7 fun y hy => (hx y.1 (qinv_mem ⟨g1, g2, g3, g4⟩ y hy)).2
  subst hl0
  rw [add_zero] at a5
  have hnil := qinv_nil ⟨g1, g2, g3, g4⟩
  have hrem : (q.insert c m (bound m - 1) x).2.2 = [] := by
    obtain ⟨A, hA⟩ := Multiset.exists_cons_of_mem a8
    have a5' := a5
    rw [hA, Multiset.cons_add, ← Multiset.singleton_add, add_right_inj] at a5'
    rw [List.eq_nil_iff_forall_not_mem]
    intro y hy
    have h : y ∈ q.root.ms (bound m) := by rw [← a5']; exact Multiset.mem_add.2 (Or.inr hy)
    exact (hx y.1 (qinv_mem ⟨g1, g2, g3, g4⟩ y h)).2 (a4 y hy)
  refine ⟨Prod.ext a1 hrem, a2, a3, ?_, ?_⟩
  · rw [List.length_append, ← g3]
    cases hq : q.root with
    | nil => unfold Quad.insert; rw [hq]; rfl
    | node u i kids =>
      unfold Quad.insert at a1 hrem ⊢
      rw [hq] at a1 hrem ⊢
      dsimp only at a1 hrem ⊢
      rw [if_pos a1, hrem]; rfl
  · rw [hrem, Multiset.coe_nil, add_zero] at a5
    rw [a5, g4, List.zipIdx_append, List.map_append, add_comm, ← Multiset.coe_add]
    congr 1
    have : idx = l.length - 1 := by
      cases hq : q.root.isNil with
      | true => rw [b2 hq, hnil.1 hq]; rfl
      | false => rw [b1 hq, g3]
    rw [this]
    simp

theorem qinv_run {c : V → Nat → Int} {m : Nat} (hm : 0 < m) (xs : List V) (hx : NoDom c m xs) :
    ∃ q, QInv c m q (keep c m xs) ∧ archiveAll (quadIndex c m) xs (⟨.nil, 0⟩, []) = some (q, keep c m xs) := by
  refine archive_noDom (quadIndex c m) c m (QInv c m) ⟨.nil, 0⟩ ⟨trivial, anti_zero c m, rfl, rfl⟩ ?_ ?_ xs hx
  · intro q l x hi hy
    obtain ⟨y, hyl, hyx⟩ := hy
    obtain ⟨z, hz, rfl⟩ := qinv_mem' hi hyl
    have := (insert_step hm (Nat.sub_le (bound m) 1) x q hi.1 hi.2.1).1 ⟨z, hz, hyx⟩
    show (q.insert c m (bound m - 1) x).2.1 = false ∧ QInv c m (q.insert c m (bound m - 1) x).1 l
    rw [this]
    exact ⟨rfl, hi⟩
  · intro q l x hi hy
    exact qinv_acc hm hi x hy

/-- **C181** (nothing dominated).  If no vector dominates an earlier one, the archive on the quad tree keeps
incomparable submitted vectors, one at least as good as each submitted one. -/
theorem C181_no_domination (c : V → Nat → Int) (m : Nat) (hm : 0 < m) (xs : List V) (hx : NoDom c m xs) :
    ∃ q l, archiveAll (quadIndex c m) xs (⟨.nil, 0⟩, []) = some (q, l) ∧ l.Sublist xs ∧ l.Pairwise (Incomp c m) ∧
    ∀ x ∈ xs, ∃ y ∈ l, Le c m y x := by
  obtain ⟨q, _, e⟩ := qinv_run hm xs hx
  exact ⟨q, _, e, keep_sub c m xs, keep_incomp c m xs hx, keep_cover c m xs⟩

/-- **C181** (a dominated vector).  Incomparable vectors were submitted; a new one dominates just one of them,
not the first.  The archive holds both the new one and the one it dominates; with two objectives the vector
submitted before the dominated one is dropped in its place. -/
theorem C181_wrong_one (c : V → Nat → Int) (m : Nat) (hm : 0 < m) (xs : List V) (hx : xs.Pairwise (Incomp c m))
    (j : Nat) (hj : j + 1 < xs.length) (x : V) (hdom : Le c m x xs[j + 1])
    (hothers : ∀ k (hk : k < xs.length), k ≠ j + 1 → ¬ Le c m x xs[k]) (hnot : ∀ y ∈ xs, ¬ Le c m y x) :
    ∃ q l, archiveAll (quadIndex c m) (xs ++ [x]) (⟨.nil, 0⟩, []) = some (q, l) ∧ x ∈ l ∧ xs[j + 1] ∈ l ∧
    (m ≤ 2 → xs[j] ∉ l) := by
  have hnd : NoDom c m xs := hx.imp fun h hl => absurd hl h.2
  obtain ⟨q, hi, e⟩ := qinv_run hm xs hnd
  rw [keep_self c m xs hx] at hi e
  rw [archiveAll_append, e]
  obtain ⟨g1, g2, g3, g4⟩ := hi
  have hi : QInv c m q xs := ⟨g1, g2, g3, g4⟩
  obtain ⟨_, s2⟩ := insert_step hm (Nat.sub_le (bound m) 1) x q g1 g2
  obtain ⟨a1, a2, a3, a4, idx, lost, b1, b2, a9, a8, a5, a6, _⟩ := s2 fun y hy => hnot y.1 (qinv_mem hi y hy)
  have hnod : (xs.zipIdx.map fun p => (p.1, p.2 - 1)).Nodup := by
    have : ((xs.zipIdx.map fun p => (p.1, p.2 - 1)).map Prod.fst).Nodup := by
      rw [List.map_map]
      have e : (Prod.fst ∘ fun p : V × Nat => (p.1, p.2 - 1)) = Prod.fst := rfl
      rw [e, List.zipIdx_map_fst]
      exact hx.imp fun h he => h.1 (by rw [he]; exact Le.refl' c m _)
    exact this.of_map
  -- what is removed is the dominated one with the wrong index
  obtain ⟨A, hA⟩ := Multiset.exists_cons_of_mem a8
  rw [hA, Multiset.cons_add, Multiset.cons_add, ← Multiset.singleton_add, add_right_inj] at a5
  have hremsub : ∀ y ∈ (q.insert c m (bound m - 1) x).2.2, y = (xs[j + 1], j) := by
    intro y hy
    have hin : y ∈ q.root.ms (bound m) := by
      rw [← a5]; exact Multiset.mem_add.2 (Or.inl (Multiset.mem_add.2 (Or.inr hy)))
    rw [g4, Multiset.mem_coe, List.mem_map] at hin
    obtain ⟨⟨v, k⟩, hp, rfl⟩ := hin
    obtain ⟨hk, hv⟩ := List.mem_zipIdx' hp
    have hle := a4 _ hy
    by_cases hkj : k = j + 1
    · subst hkj
      simp only [hv, Nat.add_sub_cancel]
    · exfalso
      dsimp only at hv hle hk
      rw [hv] at hle
      exact hothers k hk hkj hle
  have hremnod : (q.insert c m (bound m - 1) x).2.2.Nodup := by
    rw [← Multiset.coe_nodup]
    refine Multiset.nodup_of_le ?_ (Multiset.coe_nodup.2 hnod)
    rw [← g4, ← a5]
    exact (Multiset.le_add_left _ _).trans (Multiset.le_add_right _ _)
  have hrem : (q.insert c m (bound m - 1) x).2.2 = [] ∨ (q.insert c m (bound m - 1) x).2.2 = [(xs[j + 1], j)] := by
    generalize (q.insert c m (bound m - 1) x).2.2 = R at hremsub hremnod
    cases R with
    | nil => exact Or.inl rfl
    | cons a R =>
      right
      rw [hremsub a (by simp)] at hremnod ⊢
      cases R with
      | nil => rfl
      | cons b R =>
        rw [hremsub b (by simp)] at hremnod
        simp at hremnod
  have hlast : xs.getLast? = some (xs[xs.length - 1]'(by omega)) := by
    rw [List.getLast?_eq_getElem?, List.getElem?_eq_getElem (by omega)]
  have hdl : ∀ k, k < xs.length - 1 → ∀ (hk' : k < xs.length), k ≠ j →
      xs[k] ∈ (xs.set j (xs[xs.length - 1]'(by omega))).dropLast := by
    intro k hk hk' hkj
    rw [List.mem_iff_getElem]
    refine ⟨k, by simp; omega, ?_⟩
    rw [List.getElem_dropLast, List.getElem_set_ne (Ne.symm hkj)]
  have hinj : ∀ k (hk : k < xs.length), k ≠ j → xs[k] ≠ xs[j] := by
    intro k hk hkj he
    rcases Nat.lt_or_gt_of_ne hkj with h | h
    · exact (List.pairwise_iff_getElem.1 hx k j hk (by omega) h).1 (by rw [he]; exact Le.refl' c m _)
    · exact (List.pairwise_iff_getElem.1 hx j k (by omega) hk h).1 (by rw [he]; exact Le.refl' c m _)
  have hxj : x ≠ xs[j] := fun he => hnot xs[j] (List.getElem_mem _) (by rw [← he]; exact Le.refl' c m x)
  rcases hrem with hr | hr
  · refine ⟨(q.insert c m (bound m - 1) x).1, xs ++ [x], ?_, by simp, by simp, ?_⟩
    · simp [archive, quadIndex, a1, hr]
    · intro hm2
      exfalso
      rw [a6 (Or.inr hm2), add_zero, hr, Multiset.coe_nil, add_zero] at a5
      obtain ⟨y, hy, he⟩ := qinv_mem' hi (v := xs[j + 1]) (List.getElem_mem _)
      have := a9 y (by rw [hA, a5]; exact Multiset.mem_cons_of_mem hy)
      rcases this with h | h
      · rw [h] at he
        exact hnot _ (List.getElem_mem hj) (by rw [← he]; exact Le.refl' c m _)
      · rw [he] at h; exact h hdom
  · refine ⟨((q.insert c m (bound m - 1) x).1).update c m (xs[xs.length - 1]'(by omega)) j,
      (xs.set j (xs[xs.length - 1]'(by omega))).dropLast ++ [x], ?_, by simp, ?_, ?_⟩
    · have hj' : j < xs.length := by omega
      simp [archive, quadIndex, a1, hr, applyModif, hlast, hj']
    · apply List.mem_append_left
      by_cases hlj : j + 1 = xs.length - 1
      · rw [List.mem_iff_getElem]
        refine ⟨j, by simp; omega, ?_⟩
        rw [List.getElem_dropLast, List.getElem_set_self]
        congr 1
        omega
      · exact hdl (j + 1) (by omega) hj (by omega)
    · intro _ hmem
      rcases List.mem_append.1 hmem with h | h
      · rw [List.mem_iff_getElem] at h
        obtain ⟨k, hk, he⟩ := h
        rw [List.length_dropLast, List.length_set] at hk
        rw [List.getElem_dropLast] at he
        by_cases hkj : k = j
        · subst hkj
          rw [List.getElem_set_self] at he
          exact hinj _ _ (by omega) he
        · rw [List.getElem_set_ne (Ne.symm hkj)] at he
          exact hinj k (by omega) hkj he
      · exact hxj (List.mem_singleton.1 h).symm

/-- Two objectives: (5,5) and (1,9), then (0,8), which dominates (1,9). -/
example : (archiveAll (quadIndex co 2) [[5,5], [1,9], [0,8]] (⟨.nil, 0⟩, [])).map Prod.snd =
    some [[1,9], [0,8]] := by decide +kernel

/-- **C181** (moeoQuadTreeArchive).  It stores nothing and reports that nothing was stored. -/
theorem C181_quadtree_archive (xs : List V) (x : V) :
    quadTreeArchive (xs.foldl (fun a y => (quadTreeArchive a y).1) []) x = ([], false) := by
  have : ∀ (xs : List V) (a : List V), xs.foldl (fun a y => (quadTreeArchive a y).1) a = a := by
    intro xs
    induction xs with
    | nil => intro a; rfl
    | cons y xs ih => intro a; exact ih a
  rw [this]; rfl

end Paradiseo.QT
