import Verif.Model.SymDag
import Mathlib.Data.List.Perm.Basic
import Mathlib.Data.List.Count
import Mathlib.Data.List.Nodup
import Mathlib.Algebra.BigOperators.Group.List.Basic

/-! Lemmas on shared nodes: the counts are the references. -/

namespace Paradiseo.MathSym.Dag

/-! ### Lists of named things -/

section
variable {β : Type}

theorem lookup_mem : ∀ (l : List (Nat × β)) (h : Nat) (a : β), l.lookup h = some a → (h, a) ∈ l
  | [], _, _, e => by simp at e
  | (k, b) :: l, h, a, e => by
    by_cases hk : h = k
    · subst hk
      simp only [List.lookup, beq_self_eq_true, Option.some.injEq] at e
      simp [e]
    · have hb : (h == k) = false := by simpa using hk
      simp only [List.lookup, hb] at e
      exact List.mem_cons_of_mem _ (lookup_mem l h a e)

theorem lookup_none : ∀ (l : List (Nat × β)) (h : Nat), l.lookup h = none → h ∉ l.map Prod.fst
  | [], _, _ => by simp
  | (k, b) :: l, h, e => by
    by_cases hk : h = k
    · subst hk; simp [List.lookup] at e
    · have hb : (h == k) = false := by simpa using hk
      simp only [List.lookup, hb] at e
      simp only [List.map_cons, List.mem_cons, not_or]
      exact ⟨hk, lookup_none l h e⟩

theorem filter_ne_of_not_mem (l : List (Nat × β)) (h : Nat) (hh : h ∉ l.map Prod.fst) :
    l.filter (fun p => p.1 ≠ h) = l := by
  apply List.filter_eq_self.2
  rintro ⟨k, b⟩ hm
  simp only [decide_eq_true_eq]
  rintro rfl
  exact hh (List.mem_map.2 ⟨_, hm, rfl⟩)

theorem perm_filter : ∀ (l : List (Nat × β)) (h : Nat) (a : β), (l.map Prod.fst).Nodup →
    l.lookup h = some a → l.Perm ((h, a) :: l.filter fun p => p.1 ≠ h)
  | [], _, _, _, e => by simp at e
  | (k, b) :: l, h, a, hn, e => by
    simp only [List.map_cons, List.nodup_cons] at hn
    by_cases hk : h = k
    · subst hk
      simp only [List.lookup, beq_self_eq_true, Option.some.injEq] at e
      subst e
      have : ((h, b) :: l).filter (fun p => p.1 ≠ h) = l := by
        rw [List.filter_cons]
        simpa using filter_ne_of_not_mem l h hn.1
      rw [this]
    · have hb : (h == k) = false := by simpa using hk
      simp only [List.lookup, hb] at e
      have ih := perm_filter l h a hn.2 e
      have : ((k, b) :: l).filter (fun p => p.1 ≠ h) = (k, b) :: l.filter (fun p => p.1 ≠ h) := by
        rw [List.filter_cons]
        simp [Ne.symm hk]
      rw [this]
      exact (ih.cons (k, b)).trans (List.Perm.swap _ _ _)

/-- The element with a name is replaced. -/
def setAt (h : Nat) (b : β) (l : List (Nat × β)) : List (Nat × β) := l.map fun p => if p.1 = h then (h, b) else p

theorem perm_setAt : ∀ (l : List (Nat × β)) (h : Nat) (a b : β), (l.map Prod.fst).Nodup →
    l.lookup h = some a → (setAt h b l).Perm ((h, b) :: l.filter fun p => p.1 ≠ h)
  | [], _, _, _, _, e => by simp at e
  | (k, c) :: l, h, a, b, hn, e => by
    simp only [List.map_cons, List.nodup_cons] at hn
    by_cases hk : h = k
    · subst hk
      have h1 : ((h, c) :: l).filter (fun p => p.1 ≠ h) = l := by
        rw [List.filter_cons]
        simpa using filter_ne_of_not_mem l h hn.1
      have h2 : l.map (fun p => if p.1 = h then (h, b) else p) = l := by
        conv_rhs => rw [← List.map_id l]
        apply List.map_congr_left
        rintro ⟨k, d⟩ hm
        have : k ≠ h := by
          rintro rfl
          exact hn.1 (List.mem_map.2 ⟨_, hm, rfl⟩)
        simp [this]
      rw [h1, setAt, List.map_cons, h2]
      simp
    · have hb : (h == k) = false := by simpa using hk
      simp only [List.lookup, hb] at e
      have ih := perm_setAt l h a b hn.2 e
      have : ((k, c) :: l).filter (fun p => p.1 ≠ h) = (k, c) :: l.filter (fun p => p.1 ≠ h) := by
        rw [List.filter_cons]
        simp [Ne.symm hk]
      rw [this, setAt, List.map_cons, if_neg (Ne.symm hk)]
      exact (ih.cons (k, c)).trans (List.Perm.swap _ _ _)

theorem names_setAt (l : List (Nat × β)) (h : Nat) (b : β) : (setAt h b l).map Prod.fst = l.map Prod.fst := by
  rw [setAt, List.map_map]
  apply List.map_congr_left
  rintro ⟨k, d⟩ _
  by_cases hk : k = h <;> simp [hk]
end

/-! ### Lists of nodes -/

theorem find_mem {l : List Node} {i : Nat} {n : Node} (h : l.find? (fun n => n.id = i) = some n) :
    n ∈ l ∧ n.id = i :=
  ⟨List.mem_of_find?_eq_some h, by simpa using List.find?_some h⟩

theorem find_of_mem : ∀ {l : List Node} {n : Node}, (l.map Node.id).Nodup → n ∈ l →
    l.find? (fun k => k.id = n.id) = some n
  | k :: l, n, hn, hm => by
    simp only [List.map_cons, List.nodup_cons] at hn
    rcases List.mem_cons.1 hm with rfl | hm
    · simp
    · have : k.id ≠ n.id := fun hh => hn.1 (List.mem_map.2 ⟨n, hm, hh.symm⟩)
      rw [List.find?_cons]
      simp only [this, decide_false]
      exact find_of_mem hn.2 hm

theorem node_filter (l : List Node) (i : Nat) (h : i ∉ l.map Node.id) : l.filter (fun k => k.id ≠ i) = l := by
  apply List.filter_eq_self.2
  intro k hm
  simp only [decide_eq_true_eq]
  rintro rfl
  exact h (List.mem_map.2 ⟨_, hm, rfl⟩)

theorem node_map (l : List Node) (i : Nat) (f : Node → Node) (h : i ∉ l.map Node.id) :
    l.map (fun k => if k.id = i then f k else k) = l := by
  conv_rhs => rw [← List.map_id l]
  apply List.map_congr_left
  intro k hm
  have : k.id ≠ i := by
    rintro rfl
    exact h (List.mem_map.2 ⟨_, hm, rfl⟩)
  simp [this]

theorem node_perm : ∀ {l : List Node} {n : Node}, (l.map Node.id).Nodup → n ∈ l →
    l.Perm (n :: l.filter fun k => k.id ≠ n.id)
  | k :: l, n, hn, hm => by
    simp only [List.map_cons, List.nodup_cons] at hn
    rcases List.mem_cons.1 hm with rfl | hm
    · rw [List.filter_cons]
      simp only [ne_eq, not_true_eq_false, decide_false, Bool.false_eq_true, if_false]
      rw [node_filter l n.id hn.1]
    · have : k.id ≠ n.id := fun hh => hn.1 (List.mem_map.2 ⟨n, hm, hh.symm⟩)
      rw [List.filter_cons]
      simp only [ne_eq, this, not_false_eq_true, decide_true, if_true]
      exact ((node_perm hn.2 hm).cons k).trans (List.Perm.swap _ _ _)

theorem node_map_perm (f : Node → Node) : ∀ {l : List Node} {n : Node}, (l.map Node.id).Nodup → n ∈ l →
    (l.map fun k => if k.id = n.id then f k else k).Perm (f n :: l.filter fun k => k.id ≠ n.id)
  | k :: l, n, hn, hm => by
    simp only [List.map_cons, List.nodup_cons] at hn
    rcases List.mem_cons.1 hm with rfl | hm
    · rw [List.filter_cons, List.map_cons]
      simp only [ne_eq, not_true_eq_false, decide_false, Bool.false_eq_true, if_false, if_true]
      rw [node_filter l n.id hn.1, node_map l n.id f hn.1]
    · have : k.id ≠ n.id := fun hh => hn.1 (List.mem_map.2 ⟨n, hm, hh.symm⟩)
      rw [List.filter_cons, List.map_cons]
      simp only [ne_eq, this, not_false_eq_true, decide_true, if_true, if_false]
      exact ((node_map_perm f hn.2 hm).cons k).trans (List.Perm.swap _ _ _)

/-! ### The invariant -/

/-- All arguments stored in the nodes. -/
def allArgs (l : List Node) : List Nat := l.flatMap Node.args

/-- The references to nodes with this token. -/
def tokSum (t : Nat) (l : List Node) : Nat := (l.map fun n => if n.tok = t then n.cnt else 0).sum

/-- The counts of the nodes are the references from outside, `R`, and from other nodes. -/
structure Cons (ns : List Node) (tk : Nat → Nat) (R : List Nat) (next : Nat) : Prop where
  ids : (ns.map Node.id).Nodup
  keys : ∀ a ∈ ns, ∀ b ∈ ns, a.tok = b.tok → a.args = b.args → a.id = b.id
  acyc : ∀ n ∈ ns, ∀ a ∈ n.args, a < n.id
  count : ∀ n ∈ ns, n.cnt = R.count n.id + (allArgs ns).count n.id
  pos : ∀ n ∈ ns, 0 < n.cnt
  closedR : ∀ i ∈ R, i ∈ ns.map Node.id
  closedA : ∀ i ∈ allArgs ns, i ∈ ns.map Node.id
  lt : ∀ n ∈ ns, n.id < next
  toks : ∀ t, tk t = tokSum t ns

theorem allArgs_perm {l l' : List Node} (p : l.Perm l') : (allArgs l).Perm (allArgs l') := p.flatMap_right _

theorem tokSum_perm {l l' : List Node} (p : l.Perm l') (t : Nat) : tokSum t l = tokSum t l' :=
  (p.map _).sum_eq

theorem Cons.perm {ns ns' : List Node} {tk : Nat → Nat} {R R' : List Nat} {next : Nat} (h : Cons ns tk R next)
    (p : ns.Perm ns') (q : R.Perm R') : Cons ns' tk R' next where
  ids := (p.map Node.id).nodup_iff.1 h.ids
  keys a ha b hb := h.keys a (p.mem_iff.2 ha) b (p.mem_iff.2 hb)
  acyc n hn := h.acyc n (p.mem_iff.2 hn)
  count n hn := by rw [h.count n (p.mem_iff.2 hn), q.count_eq, (allArgs_perm p).count_eq]
  pos n hn := h.pos n (p.mem_iff.2 hn)
  closedR i hi := (p.map Node.id).mem_iff.1 (h.closedR i (q.mem_iff.2 hi))
  closedA i hi := (p.map Node.id).mem_iff.1 (h.closedA i ((allArgs_perm p).mem_iff.2 hi))
  lt n hn := h.lt n (p.mem_iff.2 hn)
  toks t := by rw [h.toks t, tokSum_perm p]

theorem allArgs_cons (n : Node) (l : List Node) : allArgs (n :: l) = n.args ++ allArgs l := by
  simp [allArgs]

theorem tokSum_cons (t : Nat) (n : Node) (l : List Node) :
    tokSum t (n :: l) = (if n.tok = t then n.cnt else 0) + tokSum t l := by
  simp [tokSum]

/-- The count of a node is changed together with the references. -/
theorem Cons.recount {n : Node} {l : List Node} {tk tk' : Nat → Nat} {R R' : List Nat} {next c : Nat}
    (h : Cons (n :: l) tk R next) (hc : c = R'.count n.id + (allArgs (n :: l)).count n.id) (hp : 0 < c)
    (hR : ∀ i ∈ R', i ∈ R ∨ i = n.id) (hcount : ∀ i, i ≠ n.id → R'.count i = R.count i)
    (ht : ∀ t, tk' t = (if n.tok = t then c else 0) + tokSum t l) :
    Cons ({ n with cnt := c } :: l) tk' R' next := by
  have hnd := h.ids
  simp only [List.map_cons, List.nodup_cons] at hnd
  have hne : ∀ k ∈ l, k.id ≠ n.id := fun k hk hh => hnd.1 (List.mem_map.2 ⟨k, hk, hh⟩)
  have hargs : allArgs ({ n with cnt := c } :: l) = allArgs (n :: l) := by simp [allArgs]
  refine ⟨by simpa using h.ids, ?_, ?_, ?_, ?_, ?_, ?_, ?_, ?_⟩
  · intro a ha b hb e1 e2
    rcases List.mem_cons.1 ha with rfl | ha <;> rcases List.mem_cons.1 hb with rfl | hb
    · rfl
    · exact h.keys n (by simp) b (by simp [hb]) e1 e2
    · exact h.keys a (by simp [ha]) n (by simp) e1 e2
    · exact h.keys a (by simp [ha]) b (by simp [hb]) e1 e2
  · intro k hk
    rcases List.mem_cons.1 hk with rfl | hk
    · exact h.acyc n (by simp)
    · exact h.acyc k (by simp [hk])
  · intro k hk
    rw [hargs]
    rcases List.mem_cons.1 hk with rfl | hk
    · exact hc
    · rw [h.count k (by simp [hk]), hcount k.id (hne k hk)]
  · intro k hk
    rcases List.mem_cons.1 hk with rfl | hk
    · exact hp
    · exact h.pos k (by simp [hk])
  · intro i hi
    rcases hR i hi with hi | rfl
    · simpa using h.closedR i hi
    · simp
  · intro i hi
    rw [hargs] at hi
    simpa using h.closedA i hi
  · intro k hk
    rcases List.mem_cons.1 hk with rfl | hk
    · exact h.lt n (by simp)
    · exact h.lt k (by simp [hk])
  · intro t
    rw [ht t, tokSum_cons]

theorem Cons.bump {n : Node} {l : List Node} {tk : Nat → Nat} {R : List Nat} {next : Nat}
    (h : Cons (n :: l) tk R next) :
    Cons ({ n with cnt := n.cnt + 1 } :: l) (fun t => if t = n.tok then tk t + 1 else tk t) (n.id :: R) next := by
  apply h.recount
  · rw [h.count n (by simp), List.count_cons_self]
    omega
  · omega
  · intro i hi
    rcases List.mem_cons.1 hi with rfl | hi
    · exact Or.inr rfl
    · exact Or.inl hi
  · intro i hi
    rw [List.count_cons_of_ne (Ne.symm hi)]
  · intro t
    show (if t = n.tok then tk t + 1 else tk t) = _
    rw [h.toks t, tokSum_cons]
    by_cases ht : t = n.tok
    · subst ht; simp; omega
    · simp [ht, Ne.symm ht]

theorem Cons.lower {n : Node} {l : List Node} {tk : Nat → Nat} {R : List Nat} {next : Nat}
    (h : Cons (n :: l) tk (n.id :: R) next) (hc : 1 < n.cnt) :
    Cons ({ n with cnt := n.cnt - 1 } :: l) (fun t => if t = n.tok then tk t - 1 else tk t) R next := by
  apply h.recount
  · have := h.count n (by simp)
    rw [List.count_cons_self] at this
    omega
  · omega
  · intro i hi
    exact Or.inl (List.mem_cons_of_mem _ hi)
  · intro i hi
    rw [List.count_cons_of_ne (Ne.symm hi)]
  · intro t
    show (if t = n.tok then tk t - 1 else tk t) = _
    rw [h.toks t, tokSum_cons]
    by_cases ht : t = n.tok
    · subst ht; simp; omega
    · simp [ht, Ne.symm ht]

theorem Cons.gone {n : Node} {l : List Node} {tk : Nat → Nat} {R : List Nat} {next : Nat}
    (h : Cons (n :: l) tk (n.id :: R) next) (hc : n.cnt ≤ 1) :
    Cons l (fun t => if t = n.tok then tk t - 1 else tk t) (n.args ++ R) next := by
  have hnd := h.ids
  simp only [List.map_cons, List.nodup_cons] at hnd
  have hcount := h.count n (by simp)
  rw [List.count_cons_self, allArgs_cons, List.count_append] at hcount
  have hR : n.id ∉ R := fun hh => by
    have := List.count_pos_iff.2 hh
    omega
  have hA : n.id ∉ allArgs l := fun hh => by
    have := List.count_pos_iff.2 hh
    omega
  have hS : n.id ∉ n.args := fun hh => by
    have := List.count_pos_iff.2 hh
    omega
  have hmem : ∀ k ∈ l, k ∈ n :: l := fun k hk => List.mem_cons_of_mem _ hk
  refine ⟨hnd.2, fun a ha b hb => h.keys a (hmem a ha) b (hmem b hb), fun k hk => h.acyc k (hmem k hk), ?_,
    fun k hk => h.pos k (hmem k hk), ?_, ?_, fun k hk => h.lt k (hmem k hk), ?_⟩
  · intro k hk
    have hne : k.id ≠ n.id := fun hh => hnd.1 (List.mem_map.2 ⟨k, hk, hh⟩)
    rw [h.count k (hmem k hk), List.count_cons_of_ne (Ne.symm hne), allArgs_cons, List.count_append,
      List.count_append]
    omega
  · intro i hi
    have hin : i ∈ (n :: l).map Node.id ∧ i ≠ n.id := by
      rcases List.mem_append.1 hi with hi | hi
      · refine ⟨h.closedA i (by rw [allArgs_cons]; simp [hi]), ?_⟩
        rintro rfl
        exact hS hi
      · refine ⟨h.closedR i (List.mem_cons_of_mem _ hi), ?_⟩
        rintro rfl
        exact hR hi
    rw [List.map_cons, List.mem_cons] at hin
    exact hin.1.resolve_left hin.2
  · intro i hi
    have hin := h.closedA i (by rw [allArgs_cons]; simp [hi])
    rw [List.map_cons, List.mem_cons] at hin
    refine hin.resolve_left ?_
    rintro rfl
    exact hA hi
  · intro t
    show (if t = n.tok then tk t - 1 else tk t) = _
    rw [h.toks t, tokSum_cons]
    have hp := h.pos n (by simp)
    have h1 : n.cnt = 1 := by omega
    by_cases ht : t = n.tok
    · subst ht; simp [h1]
    · simp [ht, Ne.symm ht]

/-- The nodes of the one are nodes of the other, but for their counts. -/
def Sub (a b : List Node) : Prop :=
  ∀ n ∈ a, ∃ k ∈ b, k.id = n.id ∧ k.tok = n.tok ∧ k.args = n.args ∧ k.size = n.size ∧ k.depth = n.depth

theorem Sub.refl (a : List Node) : Sub a a := fun n hn => ⟨n, hn, rfl, rfl, rfl, rfl, rfl⟩

theorem Sub.trans {a b c : List Node} (h : Sub a b) (h' : Sub b c) : Sub a c := by
  intro n hn
  obtain ⟨k, hk, e1, e2, e3, e4, e5⟩ := h n hn
  obtain ⟨j, hj, f1, f2, f3, f4, f5⟩ := h' k hk
  exact ⟨j, hj, f1.trans e1, f2.trans e2, f3.trans e3, f4.trans e4, f5.trans e5⟩

theorem Sub.mapCnt (l : List Node) (i : Nat) (f : Nat → Nat) :
    Sub (l.map fun k => if k.id = i then { k with cnt := f k.cnt } else k) l := by
  intro n hn
  obtain ⟨k, hk, rfl⟩ := List.mem_map.1 hn
  by_cases h : k.id = i <;> exact ⟨k, hk, by simp [h], by simp [h], by simp [h], by simp [h], by simp [h]⟩

theorem Sub.mapCnt' (l : List Node) (i : Nat) (f : Nat → Nat) :
    Sub l (l.map fun k => if k.id = i then { k with cnt := f k.cnt } else k) := by
  intro k hk
  refine ⟨_, List.mem_map.2 ⟨k, hk, rfl⟩, ?_⟩
  by_cases h : k.id = i <;> simp [h]

theorem release_spec (m : Mem) (w R : List Nat) (next : Nat) (h : Cons m.nodes m.tokens (w ++ R) next) :
    ∃ m', m.release w = some m' ∧ Cons m'.nodes m'.tokens R next ∧ Sub m'.nodes m.nodes := by
  generalize hk : m.weight + w.length = k
  induction k using Nat.strong_induction_on generalizing m w with
  | _ k ih =>
    cases w with
    | nil => exact ⟨m, by rw [Mem.release], h, Sub.refl _⟩
    | cons i w =>
      obtain ⟨n, hn, hi⟩ := List.mem_map.1 (h.closedR i (by simp))
      subst hi
      have hf : m.find n.id = some n := find_of_mem h.ids hn
      have hp := node_perm h.ids hn
      have hcons : Cons (n :: m.nodes.filter fun k => k.id ≠ n.id) m.tokens (n.id :: (w ++ R)) next :=
        h.perm hp (List.Perm.refl _)
      have hrel : m.release (n.id :: w)
          = if n.cnt ≤ 1 then (m.erase n).release (n.args ++ w) else (m.dec n).release w := by
        rw [Mem.release]
        split
        · rename_i hh
          rw [hf] at hh
          cases hh
        · rename_i k hh
          rw [hf] at hh
          cases hh
          rfl
      rw [hrel]
      by_cases hc : n.cnt ≤ 1
      · rw [if_pos hc]
        have hg := hcons.gone hc
        rw [← List.append_assoc] at hg
        obtain ⟨m', h1, h2, h3⟩ := ih ((m.erase n).weight + (n.args ++ w).length) (by
          have := erase_weight hf
          simp only [List.length_append, List.length_cons] at this hk ⊢
          omega) (m.erase n) (n.args ++ w) hg rfl
        refine ⟨m', h1, h2, h3.trans ?_⟩
        intro a ha
        exact ⟨a, List.mem_of_mem_filter ha, rfl, rfl, rfl, rfl, rfl⟩
      · rw [if_neg hc]
        have hg := (hcons.lower (by omega)).perm (node_map_perm (fun k => { k with cnt := k.cnt - 1 }) h.ids hn).symm
          (List.Perm.refl _)
        obtain ⟨m', h1, h2, h3⟩ := ih ((m.dec n).weight + w.length) (by
          rw [dec_weight]
          simp only [List.length_cons] at hk
          omega) (m.dec n) w hg rfl
        exact ⟨m', h1, h2, h3.trans (Sub.mapCnt m.nodes n.id fun c => c - 1)⟩

theorem incref_spec (m : Mem) (i : Nat) (R : List Nat) (next : Nat) (h : Cons m.nodes m.tokens R next)
    (hi : i ∈ m.nodes.map Node.id) :
    ∃ m', m.incref i = some m' ∧ Cons m'.nodes m'.tokens (i :: R) next ∧ Sub m'.nodes m.nodes ∧
      Sub m.nodes m'.nodes := by
  obtain ⟨n, hn, rfl⟩ := List.mem_map.1 hi
  have hf : m.find n.id = some n := find_of_mem h.ids hn
  have hcons : Cons (n :: m.nodes.filter fun k => k.id ≠ n.id) m.tokens R next :=
    h.perm (node_perm h.ids hn) (List.Perm.refl _)
  have hst : m.incref n.id = some ⟨m.nodes.map fun k => if k.id = n.id then { k with cnt := k.cnt + 1 } else k,
      fun t => if t = n.tok then m.tokens t + 1 else m.tokens t⟩ := by
    rw [Mem.incref, hf]
  exact ⟨_, hst, hcons.bump.perm (node_map_perm (fun k => { k with cnt := k.cnt + 1 }) h.ids hn).symm
    (List.Perm.refl _), Sub.mapCnt m.nodes n.id fun c => c + 1, Sub.mapCnt' m.nodes n.id fun c => c + 1⟩

theorem Sub.ids {a b : List Node} (h : Sub a b) : ∀ i, i ∈ a.map Node.id → i ∈ b.map Node.id := by
  intro i hi
  obtain ⟨n, hn, rfl⟩ := List.mem_map.1 hi
  obtain ⟨k, hk, e, _⟩ := h n hn
  exact List.mem_map.2 ⟨k, hk, e⟩

theorem increfs_spec (is : List Nat) (m : Mem) (R : List Nat) (next : Nat) (h : Cons m.nodes m.tokens R next)
    (hi : ∀ i ∈ is, i ∈ m.nodes.map Node.id) :
    ∃ m', m.increfs is = some m' ∧ Cons m'.nodes m'.tokens (is ++ R) next ∧ Sub m'.nodes m.nodes ∧
      Sub m.nodes m'.nodes := by
  induction is generalizing m R with
  | nil => exact ⟨m, rfl, h, Sub.refl _, Sub.refl _⟩
  | cons i is ih =>
    obtain ⟨m1, h1, h2, h3, h4⟩ := incref_spec m i R next h (hi i (by simp))
    obtain ⟨m2, k1, k2, k3, k4⟩ := ih m1 (i :: R) h2 fun j hj => h4.ids j (hi j (by simp [hj]))
    refine ⟨m2, by rw [Mem.increfs, h1]; exact k1, k2.perm (List.Perm.refl _) ?_, k3.trans h3, h4.trans k4⟩
    exact List.perm_middle

/-- A new node takes over the references that are its arguments. -/
theorem Cons.fresh {ns : List Node} {tk : Nat → Nat} {R is : List Nat} {next tok size depth : Nat}
    (h : Cons ns tk (is ++ R) next) (hk : ∀ n ∈ ns, n.tok = tok → n.args = is → False) :
    Cons (⟨next, tok, is, 1, size, depth⟩ :: ns) (fun t => if t = tok then tk t + 1 else tk t) (next :: R) (next + 1) := by
  have hne : ∀ k ∈ ns, k.id ≠ next := fun k hk => by have := h.lt k hk; omega
  have hnot : next ∉ ns.map Node.id := fun hh => by
    obtain ⟨k, hk, e⟩ := List.mem_map.1 hh
    exact hne k hk e
  refine ⟨by rw [List.map_cons, List.nodup_cons]; exact ⟨hnot, h.ids⟩, ?_, ?_, ?_, ?_, ?_, ?_, ?_, ?_⟩
  · intro a ha b hb e1 e2
    rcases List.mem_cons.1 ha with rfl | ha <;> rcases List.mem_cons.1 hb with rfl | hb
    · rfl
    · exact absurd (hk b hb e1.symm e2.symm) id
    · exact absurd (hk a ha e1 e2) id
    · exact h.keys a ha b hb e1 e2
  · intro n hn a ha
    rcases List.mem_cons.1 hn with rfl | hn
    · obtain ⟨k, hk, e⟩ := List.mem_map.1 (h.closedR a (List.mem_append_left _ ha))
      rw [← e]
      exact h.lt k hk
    · exact h.acyc n hn a ha
  · intro n hn
    rw [allArgs_cons, List.count_append]
    rcases List.mem_cons.1 hn with rfl | hn
    · rw [List.count_cons_self]
      have h1 : R.count next = 0 := List.count_eq_zero.2 fun hh => hnot (h.closedR next (List.mem_append_right _ hh))
      have h2 : is.count next = 0 := List.count_eq_zero.2 fun hh => hnot (h.closedR next (List.mem_append_left _ hh))
      have h3 : (allArgs ns).count next = 0 := List.count_eq_zero.2 fun hh => hnot (h.closedA next hh)
      show 1 = _
      rw [h1, h2, h3]
    · rw [h.count n hn, List.count_append, List.count_cons_of_ne (Ne.symm (hne n hn))]
      show _ = R.count n.id + (is.count n.id + _)
      omega
  · intro n hn
    rcases List.mem_cons.1 hn with rfl | hn
    · simp
    · exact h.pos n hn
  · intro i hi
    rw [List.map_cons, List.mem_cons]
    rcases List.mem_cons.1 hi with rfl | hi
    · exact Or.inl rfl
    · exact Or.inr (h.closedR i (List.mem_append_right _ hi))
  · intro i hi
    rw [allArgs_cons] at hi
    rw [List.map_cons, List.mem_cons]
    rcases List.mem_append.1 hi with hi | hi
    · exact Or.inr (h.closedR i (List.mem_append_left _ hi))
    · exact Or.inr (h.closedA i hi)
  · intro n hn
    rcases List.mem_cons.1 hn with rfl | hn
    · simp
    · have := h.lt n hn; omega
  · intro t
    show (if t = tok then tk t + 1 else tk t) = _
    rw [h.toks t, tokSum_cons]
    by_cases ht : t = tok
    · subst ht; simp; omega
    · simp [ht, Ne.symm ht]

theorem Cons.next_le {ns : List Node} {tk : Nat → Nat} {R : List Nat} {a b : Nat} (h : Cons ns tk R a) (hab : a ≤ b) :
    Cons ns tk R b :=
  ⟨h.ids, h.keys, h.acyc, h.count, h.pos, h.closedR, h.closedA, fun n hn => by have := h.lt n hn; omega, h.toks⟩

theorem drop_spec (m : Mem) (a : Option Nat) (R : List Nat) (next : Nat)
    (h : Cons m.nodes m.tokens (a.toList ++ R) next) :
    ∃ m', m.drop a = some m' ∧ Cons m'.nodes m'.tokens R next ∧ Sub m'.nodes m.nodes := by
  cases a with
  | none => exact ⟨m, rfl, h, Sub.refl _⟩
  | some i => exact release_spec m [i] R next h

theorem take_spec (m : Mem) (b : Option Nat) (R : List Nat) (next : Nat) (h : Cons m.nodes m.tokens R next)
    (hb : ∀ i, b = some i → i ∈ m.nodes.map Node.id) :
    ∃ m', m.take b = some m' ∧ Cons m'.nodes m'.tokens (b.toList ++ R) next ∧ Sub m'.nodes m.nodes ∧
      Sub m.nodes m'.nodes := by
  cases b with
  | none => exact ⟨m, rfl, h, Sub.refl _, Sub.refl _⟩
  | some i => exact incref_spec m i R next h (hb i rfl)

/-! ### The formulas that nodes stand for -/

mutual
/-- The node stands for the formula. -/
def Den (ns : List Node) : Nat → Tree Nat → Prop
  | i, .node t ts => ∃ n ∈ ns, n.id = i ∧ n.tok = t ∧ DenL ns n.args ts
def DenL (ns : List Node) : List Nat → List (Tree Nat) → Prop
  | [], [] => True
  | i :: is, t :: ts => Den ns i t ∧ DenL ns is ts
  | _, _ => False
end

mutual
theorem den_sub {a b : List Node} (h : Sub a b) : ∀ (t : Tree Nat) (i : Nat), Den a i t → Den b i t
  | .node t ts, i, hd => by
    simp only [Den] at hd ⊢
    obtain ⟨n, hn, e1, e2, e3⟩ := hd
    obtain ⟨k, hk, f1, f2, f3, _⟩ := h n hn
    exact ⟨k, hk, f1.trans e1, f2.trans e2, by rw [f3]; exact denL_sub h ts n.args e3⟩
theorem denL_sub {a b : List Node} (h : Sub a b) : ∀ (ts : List (Tree Nat)) (is : List Nat), DenL a is ts → DenL b is ts
  | [], [], _ => by simp only [DenL]
  | t :: ts, i :: is, hd => by
    simp only [DenL] at hd ⊢
    exact ⟨den_sub h t i hd.1, denL_sub h ts is hd.2⟩
  | [], _ :: _, hd => by simp only [DenL] at hd
  | _ :: _, [], hd => by simp only [DenL] at hd
end

theorem id_inj {ns : List Node} (h : (ns.map Node.id).Nodup) {a b : Node} (ha : a ∈ ns) (hb : b ∈ ns)
    (e : a.id = b.id) : a = b := by
  have h1 := find_of_mem h ha
  rw [e, find_of_mem h hb] at h1
  exact (Option.some.inj h1).symm

mutual
theorem den_unique {ns : List Node} (h : (ns.map Node.id).Nodup) : ∀ (t u : Tree Nat) (i : Nat),
    Den ns i t → Den ns i u → t = u
  | .node t ts, .node u us, i, h1, h2 => by
    simp only [Den] at h1 h2
    obtain ⟨n, hn, e1, e2, e3⟩ := h1
    obtain ⟨k, hk, f1, f2, f3⟩ := h2
    obtain rfl := id_inj h hn hk (e1.trans f1.symm)
    rw [← e2, ← f2, denL_unique h ts us _ e3 f3]
theorem denL_unique {ns : List Node} (h : (ns.map Node.id).Nodup) : ∀ (ts us : List (Tree Nat)) (is : List Nat),
    DenL ns is ts → DenL ns is us → ts = us
  | [], [], [], _, _ => rfl
  | t :: ts, u :: us, i :: is, h1, h2 => by
    simp only [DenL] at h1 h2
    rw [den_unique h t u i h1.1 h2.1, denL_unique h ts us is h1.2 h2.2]
  | [], _, _ :: _, h1, _ => by simp only [DenL] at h1
  | _ :: _, _, [], h1, _ => by simp only [DenL] at h1
  | _, [], _ :: _, _, h2 => by simp only [DenL] at h2
  | _, _ :: _, [], _, h2 => by simp only [DenL] at h2
end

mutual
theorem den_inj {ns : List Node} (hk : ∀ a ∈ ns, ∀ b ∈ ns, a.tok = b.tok → a.args = b.args → a.id = b.id) :
    ∀ (t : Tree Nat) (i j : Nat), Den ns i t → Den ns j t → i = j
  | .node t ts, i, j, h1, h2 => by
    simp only [Den] at h1 h2
    obtain ⟨n, hn, e1, e2, e3⟩ := h1
    obtain ⟨k, hk', f1, f2, f3⟩ := h2
    rw [← e1, ← f1]
    exact hk n hn k hk' (e2.trans f2.symm) (denL_inj hk ts _ _ e3 f3)
theorem denL_inj {ns : List Node} (hk : ∀ a ∈ ns, ∀ b ∈ ns, a.tok = b.tok → a.args = b.args → a.id = b.id) :
    ∀ (ts : List (Tree Nat)) (is js : List Nat), DenL ns is ts → DenL ns js ts → is = js
  | [], [], [], _, _ => rfl
  | t :: ts, i :: is, j :: js, h1, h2 => by
    simp only [DenL] at h1 h2
    rw [den_inj hk t i j h1.1 h2.1, denL_inj hk ts is js h1.2 h2.2]
  | _ :: _, [], _, h1, _ => by simp only [DenL] at h1
  | _ :: _, _ :: _, [], _, h2 => by simp only [DenL] at h2
  | [], _ :: _, _, h1, _ => by simp only [DenL] at h1
  | [], [], _ :: _, _, h2 => by simp only [DenL] at h2
end

theorem den_exists {ns : List Node} {tk : Nat → Nat} {R : List Nat} {next : Nat} (h : Cons ns tk R next) :
    ∀ i, i ∈ ns.map Node.id → ∃ t, Den ns i t := by
  intro i
  induction i using Nat.strong_induction_on with
  | _ i ih =>
    intro hi
    obtain ⟨n, hn, rfl⟩ := List.mem_map.1 hi
    have key : ∀ is : List Nat, (∀ a ∈ is, a ∈ n.args) → ∃ ts, DenL ns is ts := by
      intro is
      induction is with
      | nil => intro _; exact ⟨[], by simp only [DenL]⟩
      | cons a is ih' =>
        intro hs
        have ha := hs a (by simp)
        obtain ⟨t, ht⟩ := ih a (h.acyc n hn a ha) (h.closedA a (List.mem_flatMap.2 ⟨n, hn, ha⟩))
        obtain ⟨ts, hts⟩ := ih' fun b hb => hs b (by simp [hb])
        exact ⟨t :: ts, by simp only [DenL]; exact ⟨ht, hts⟩⟩
    obtain ⟨ts, hts⟩ := key n.args fun a ha => ha
    exact ⟨.node n.tok ts, by simp only [Den]; exact ⟨n, hn, rfl, rfl, hts⟩⟩

/-- What a node stood for among more nodes, it stands for among those left. -/
theorem den_keep {a b : List Node} {tk : Nat → Nat} {R : List Nat} {next : Nat} (h : Cons a tk R next)
    (hb : (b.map Node.id).Nodup) (hs : Sub a b) {i : Nat} {t : Tree Nat} (hd : Den b i t)
    (hi : i ∈ a.map Node.id) : Den a i t := by
  obtain ⟨u, hu⟩ := den_exists h i hi
  rw [den_unique hb t u i hd (den_sub hs u i hu)]
  exact hu

end Paradiseo.MathSym.Dag
