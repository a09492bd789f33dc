import Verif.Model.SharedPtr
import Mathlib.Data.List.Perm.Basic
import Mathlib.Data.List.Count
import Mathlib.Data.List.Nodup

/-!
# Counted pointers (C362)

The specification speaks of the variables of the program only: which of them point to which object.
-/

namespace Paradiseo.SharedPtr

/-! ### Lists of variables -/

/-- The number of variables that use a counter. -/
def uses (c : Nat) (hs : List (Nat × Handle)) : Nat := hs.countP fun p => decide (p.2.cnt = c)

theorem lookup_mem : ∀ (l : List (Nat × Handle)) (h : Nat) (a : Handle), l.lookup h = some a → (h, a) ∈ l
  | [], _, _, e => by simp at e
  | (k, b) :: l, h, a, e => by
    by_cases hk : h = k
    · subst hk
      simp only [List.lookup, beq_self_eq_true, Option.some.injEq] at e
      simp [e]
    · have hb : (h == k) = false := by simpa using hk
      simp only [List.lookup, hb] at e
      exact List.mem_cons_of_mem _ (lookup_mem l h a e)

theorem lookup_of_mem : ∀ (l : List (Nat × Handle)) (h : Nat) (a : Handle), (l.map Prod.fst).Nodup → (h, a) ∈ l →
    l.lookup h = some a
  | [], _, _, _, e => by simp at e
  | (k, b) :: l, h, a, hn, e => by
    simp only [List.map_cons, List.nodup_cons] at hn
    rcases List.mem_cons.1 e with e' | e'
    · cases e'; simp [List.lookup]
    · have hk : h ≠ k := by
        rintro rfl
        exact hn.1 (List.mem_map.2 ⟨(h, a), e', rfl⟩)
      have hb : (h == k) = false := by simpa using hk
      simp only [List.lookup, hb]
      exact lookup_of_mem l h a hn.2 e'

theorem lookup_none : ∀ (l : List (Nat × Handle)) (h : Nat), l.lookup h = none → h ∉ l.map Prod.fst
  | [], _, _ => by simp
  | (k, b) :: l, h, e => by
    by_cases hk : h = k
    · subst hk; simp [List.lookup] at e
    · have hb : (h == k) = false := by simpa using hk
      simp only [List.lookup, hb] at e
      simp only [List.map_cons, List.mem_cons, not_or]
      exact ⟨hk, lookup_none l h e⟩

theorem filter_ne_of_not_mem (l : List (Nat × Handle)) (h : Nat) (hh : h ∉ l.map Prod.fst) :
    l.filter (fun p => p.1 ≠ h) = l := by
  apply List.filter_eq_self.2
  rintro ⟨k, b⟩ hm
  simp only [decide_eq_true_eq]
  rintro rfl
  exact hh (List.mem_map.2 ⟨_, hm, rfl⟩)

theorem perm_filter : ∀ (l : List (Nat × Handle)) (h : Nat) (a : Handle), (l.map Prod.fst).Nodup →
    l.lookup h = some a → l.Perm ((h, a) :: l.filter fun p => p.1 ≠ h)
  | [], _, _, _, e => by simp at e
  | (k, b) :: l, h, a, hn, e => by
    simp only [List.map_cons, List.nodup_cons] at hn
    by_cases hk : h = k
    · subst hk
      simp only [List.lookup, beq_self_eq_true, Option.some.injEq] at e
      subst e
      have : ((h, b) :: l).filter (fun p => p.1 ≠ h) = l := by
        rw [List.filter_cons]
        simpa using filter_ne_of_not_mem l h hn.1
      rw [this]
    · have hb : (h == k) = false := by simpa using hk
      simp only [List.lookup, hb] at e
      have ih := perm_filter l h a hn.2 e
      have : ((k, b) :: l).filter (fun p => p.1 ≠ h) = (k, b) :: l.filter (fun p => p.1 ≠ h) := by
        rw [List.filter_cons]
        simp [Ne.symm hk]
      rw [this]
      exact (ih.cons (k, b)).trans (List.Perm.swap _ _ _)

theorem perm_replace : ∀ (l : List (Nat × Handle)) (h : Nat) (a b : Handle), (l.map Prod.fst).Nodup →
    l.lookup h = some a →
    (l.map fun p => if p.1 = h then (h, b) else p).Perm ((h, b) :: l.filter fun p => p.1 ≠ h)
  | [], _, _, _, _, e => by simp at e
  | (k, c) :: l, h, a, b, hn, e => by
    simp only [List.map_cons, List.nodup_cons] at hn
    by_cases hk : h = k
    · subst hk
      have h1 : ((h, c) :: l).filter (fun p => p.1 ≠ h) = l := by
        rw [List.filter_cons]
        simpa using filter_ne_of_not_mem l h hn.1
      have h2 : l.map (fun p => if p.1 = h then (h, b) else p) = l := by
        conv_rhs => rw [← List.map_id l]
        apply List.map_congr_left
        rintro ⟨k, d⟩ hm
        have : k ≠ h := by
          rintro rfl
          exact hn.1 (List.mem_map.2 ⟨_, hm, rfl⟩)
        simp [this]
      rw [h1, List.map_cons, h2]
      simp
    · have hb : (h == k) = false := by simpa using hk
      simp only [List.lookup, hb] at e
      have ih := perm_replace l h a b hn.2 e
      have : ((k, c) :: l).filter (fun p => p.1 ≠ h) = (k, c) :: l.filter (fun p => p.1 ≠ h) := by
        rw [List.filter_cons]
        simp [Ne.symm hk]
      rw [this, List.map_cons, if_neg (Ne.symm hk)]
      exact (ih.cons (k, c)).trans (List.Perm.swap _ _ _)

theorem names_replace (l : List (Nat × Handle)) (h : Nat) (b : Handle) :
    (l.map fun p => if p.1 = h then (h, b) else p).map Prod.fst = l.map Prod.fst := by
  rw [List.map_map]
  apply List.map_congr_left
  rintro ⟨k, d⟩ _
  by_cases hk : k = h <;> simp [hk]

/-! ### The invariant -/

/-- The counters and the objects of the memory are those of these variables. -/
structure Cons (hs : List (Nat × Handle)) (s : Heap) : Prop where
  own : ∀ p ∈ hs, ∀ o, p.2.ptr = some o → p.2.cnt = o ∧ o ≠ 0
  same : ∀ p ∈ hs, ∀ q ∈ hs, p.2.cnt = q.2.cnt → p.2.ptr = q.2.ptr
  lt : ∀ p ∈ hs, p.2.cnt < s.next
  cnt0 : s.count 0 = some (1 + uses 0 hs)
  cnt : ∀ c, c ≠ 0 → s.count c = if uses c hs = 0 then none else some (uses c hs)
  live : ∀ o, s.live o = true ↔ ∃ p ∈ hs, p.2.ptr = some o
  pos : 0 < s.next
  weak : ∀ w ∈ s.weaks, w.2.cnt < s.next ∧ (∀ o, w.2.ptr = some o → w.2.cnt = o ∧ o ≠ 0) ∧
    (w.2.cnt = 0 → w.2.ptr = none) ∧ ∀ p ∈ hs, p.2.cnt = w.2.cnt → p.2.ptr = w.2.ptr
  zero : ∀ p ∈ hs, p.2.cnt = 0 → p.2.ptr = none
  del : s.deleted.Nodup
  dead : ∀ o ∈ s.deleted, s.live o = false ∧ o < s.next

theorem uses_perm {hs hs' : List (Nat × Handle)} (h : hs.Perm hs') (c : Nat) : uses c hs = uses c hs' :=
  h.countP_eq _

theorem uses_cons (c : Nat) (p : Nat × Handle) (hs : List (Nat × Handle)) :
    uses c (p :: hs) = uses c hs + if p.2.cnt = c then 1 else 0 := by
  unfold uses
  rw [List.countP_cons]
  by_cases h : p.2.cnt = c <;> simp [h]

theorem uses_zero {c : Nat} {hs : List (Nat × Handle)} : uses c hs = 0 ↔ ∀ p ∈ hs, p.2.cnt ≠ c := by
  unfold uses
  simp [List.countP_eq_zero]

theorem Cons.perm {hs hs' : List (Nat × Handle)} {s : Heap} (p : hs.Perm hs') (h : Cons hs s) : Cons hs' s where
  own q hq := h.own q (p.mem_iff.2 hq)
  same q hq r hr := h.same q (p.mem_iff.2 hq) r (p.mem_iff.2 hr)
  lt q hq := h.lt q (p.mem_iff.2 hq)
  cnt0 := by rw [h.cnt0, uses_perm p]
  cnt c hc := by rw [h.cnt c hc, uses_perm p]
  live o := by
    rw [h.live o]
    exact ⟨fun ⟨q, hq, e⟩ => ⟨q, p.mem_iff.1 hq, e⟩, fun ⟨q, hq, e⟩ => ⟨q, p.mem_iff.2 hq, e⟩⟩
  pos := h.pos
  weak w hw := ⟨(h.weak w hw).1, (h.weak w hw).2.1, (h.weak w hw).2.2.1,
    fun q hq => (h.weak w hw).2.2.2 q (p.mem_iff.2 hq)⟩
  zero q hq := h.zero q (p.mem_iff.2 hq)
  del := h.del
  dead := h.dead

/-- The list of variables kept in the memory plays no part. -/
theorem Cons.setHandles {hs hs' : List (Nat × Handle)} {s : Heap} (h : Cons hs s) :
    Cons hs { s with handles := hs' } :=
  ⟨h.own, h.same, h.lt, h.cnt0, h.cnt, h.live, h.pos, h.weak, h.zero, h.del, h.dead⟩

theorem Cons.incref {hs : List (Nat × Handle)} {s : Heap} (h : Cons hs s) (n : Nat) (b : Handle)
    (hlt : b.cnt < s.next) (hown : ∀ o, b.ptr = some o → b.cnt = o ∧ o ≠ 0) (hz : b.cnt = 0 → b.ptr = none)
    (hin : b.cnt = 0 ∨ ∃ p ∈ hs, p.2.cnt = b.cnt) (hsame : ∀ p ∈ hs, p.2.cnt = b.cnt → p.2.ptr = b.ptr) :
    ∃ s', s.incref b.cnt = some s' ∧ Cons ((n, b) :: hs) s' ∧ s'.handles = s.handles ∧ s'.live = s.live ∧
      s'.deleted = s.deleted := by
  have hc : ∃ k, s.count b.cnt = some k ∧
      (if b.cnt = 0 then k = 1 + uses 0 hs else k = uses b.cnt hs) := by
    by_cases h0 : b.cnt = 0
    · exact ⟨_, by rw [h0]; exact h.cnt0, by simp [h0]⟩
    · obtain ⟨p, hp, e⟩ := hin.resolve_left h0
      have : uses b.cnt hs ≠ 0 := fun hh => uses_zero.1 hh p hp e
      exact ⟨_, by rw [h.cnt _ h0, if_neg this], by simp [h0]⟩
  obtain ⟨k, hk, hk'⟩ := hc
  have hst : s.incref b.cnt = some { s with count := fun d => if d = b.cnt then some (k + 1) else s.count d } := by
    rw [Heap.incref, hk]
  refine ⟨_, hst, ⟨?_, ?_, ?_, ?_, ?_, ?_, h.pos, ?_, ?_, h.del, h.dead⟩, rfl, rfl, rfl⟩
  · intro p hp
    rcases List.mem_cons.1 hp with rfl | hp
    · exact hown
    · exact h.own p hp
  · intro p hp q hq e
    rcases List.mem_cons.1 hp with rfl | hp <;> rcases List.mem_cons.1 hq with rfl | hq
    · rfl
    · exact (hsame q hq e.symm).symm
    · exact hsame p hp e
    · exact h.same p hp q hq e
  · intro p hp
    rcases List.mem_cons.1 hp with rfl | hp
    · exact hlt
    · exact h.lt p hp
  · by_cases h0 : b.cnt = 0
    · simp only [h0, if_true] at hk' ⊢
      rw [uses_cons, hk']
      simp [h0, Nat.add_assoc]
    · show (if 0 = b.cnt then _ else s.count 0) = _
      rw [if_neg (Ne.symm h0), h.cnt0, uses_cons]
      simp [h0]
  · intro c hc
    show (if c = b.cnt then _ else s.count c) = _
    by_cases e : c = b.cnt
    · subst e
      simp only [hc, if_false] at hk'
      rw [if_pos rfl, uses_cons, hk']
      simp
    · rw [if_neg e, h.cnt c hc, uses_cons]
      simp [Ne.symm e]
  · intro o
    rw [show Heap.live _ o = s.live o from rfl, h.live o]
    constructor
    · rintro ⟨p, hp, e⟩
      exact ⟨p, List.mem_cons_of_mem _ hp, e⟩
    · rintro ⟨p, hp, e⟩
      rcases List.mem_cons.1 hp with rfl | hp
      · rcases hin with h0 | ⟨q, hq, e'⟩
        · rw [hz h0] at e; cases e
        · exact ⟨q, hq, by rw [hsame q hq e', e]⟩
      · exact ⟨p, hp, e⟩
  · intro w hw
    obtain ⟨w1, w2, w3, w4⟩ := h.weak w hw
    refine ⟨w1, w2, w3, fun p hp e => ?_⟩
    rcases List.mem_cons.1 hp with rfl | hp
    · rcases hin with h0 | ⟨q, hq, e'⟩
      · rw [hz h0, w3 (by rw [← e]; exact h0)]
      · rw [← hsame q hq e', ← w4 q hq (by rw [e', ← e])]
    · exact w4 p hp e
  · intro p hp
    rcases List.mem_cons.1 hp with rfl | hp
    · exact hz
    · exact h.zero p hp

theorem Cons.decref {hs : List (Nat × Handle)} {s : Heap} {n : Nat} {a : Handle} (h : Cons ((n, a) :: hs) s) :
    ∃ s', s.decref a = some s' ∧ Cons hs s' ∧ s'.handles = s.handles ∧ s'.next = s.next ∧ s'.weaks = s.weaks ∧
      (∀ o, s.live o = true → s'.live o = true ∨ o ∈ s'.deleted) ∧ (∀ o ∈ s.deleted, o ∈ s'.deleted) := by
  have hmem : ∀ p ∈ hs, p ∈ (n, a) :: hs := fun p hp => List.mem_cons_of_mem _ hp
  have hself : (n, a) ∈ (n, a) :: hs := List.mem_cons_self
  have ha := h.own _ hself
  by_cases h0 : a.cnt = 0
  · -- the static counter
    have hk : s.count a.cnt = some (1 + (uses 0 hs + 1)) := by
      rw [h0, h.cnt0, uses_cons]
      simp [h0]
    have hp : a.ptr = none := h.zero _ hself h0
    have hst : s.decref a = some { s with count := fun d => if d = a.cnt then some (1 + (uses 0 hs + 1) - 1) else s.count d } := by
      rw [Heap.decref, hk]
      simp only
      rw [if_neg (by omega)]
    refine ⟨_, hst, ⟨fun p hp => h.own p (hmem p hp),
      fun p hp q hq => h.same p (hmem p hp) q (hmem q hq), fun p hp => h.lt p (hmem p hp), ?_, ?_, ?_, h.pos, ?_,
      fun p hp => h.zero p (hmem p hp), h.del, h.dead⟩, rfl, rfl, rfl, fun o ho => Or.inl ho, fun o ho => ho⟩
    · show (if 0 = a.cnt then _ else _) = _
      rw [if_pos h0.symm]
      congr 1
    · intro c hc
      show (if c = a.cnt then _ else s.count c) = _
      rw [if_neg (by omega), h.cnt c hc, uses_cons]
      simp [h0, Ne.symm hc]
    · intro o
      rw [show Heap.live _ o = s.live o from rfl, h.live o]
      constructor
      · rintro ⟨p, hp', e⟩
        rcases List.mem_cons.1 hp' with rfl | hp'
        · rw [hp] at e; cases e
        · exact ⟨p, hp', e⟩
      · rintro ⟨p, hp', e⟩
        exact ⟨p, hmem p hp', e⟩
    · intro w hw
      obtain ⟨w1, w2, w3, w4⟩ := h.weak w hw
      exact ⟨w1, w2, w3, fun p hp => w4 p (hmem p hp)⟩
  · have hu : uses a.cnt ((n, a) :: hs) = uses a.cnt hs + 1 := by rw [uses_cons]; simp
    have hk : s.count a.cnt = some (uses a.cnt hs + 1) := by
      rw [h.cnt _ h0, hu, if_neg (by omega)]
    by_cases hl : uses a.cnt hs = 0
    · -- the last variable
      have hno : ∀ p ∈ hs, p.2.cnt ≠ a.cnt := uses_zero.1 hl
      have hcount : ∀ c, c ≠ 0 →
          (if c = a.cnt then none else s.count c) = if uses c hs = 0 then none else some (uses c hs) := by
        intro c hc
        by_cases e : c = a.cnt
        · subst e; simp [hl]
        · rw [if_neg e, h.cnt c hc, uses_cons]
          simp [Ne.symm e]
      have hcount0 : (if 0 = a.cnt then none else s.count 0) = some (1 + uses 0 hs) := by
        rw [if_neg (Ne.symm h0), h.cnt0, uses_cons]
        simp [h0]
      have hweak : ∀ w ∈ s.weaks, w.2.cnt < s.next ∧ (∀ o, w.2.ptr = some o → w.2.cnt = o ∧ o ≠ 0) ∧
          (w.2.cnt = 0 → w.2.ptr = none) ∧ ∀ p ∈ hs, p.2.cnt = w.2.cnt → p.2.ptr = w.2.ptr := fun w hw =>
        ⟨(h.weak w hw).1, (h.weak w hw).2.1, (h.weak w hw).2.2.1, fun p hp => (h.weak w hw).2.2.2 p (hmem p hp)⟩
      cases hp : a.ptr with
      | none =>
        have hst : s.decref a = some { s with count := fun d => if d = a.cnt then none else s.count d } := by
          rw [Heap.decref, hk]
          simp only [hl, hp, h0, Heap.delete, if_true, if_false, Nat.zero_add]
        refine ⟨_, hst, ⟨fun p hp => h.own p (hmem p hp),
          fun p hp q hq => h.same p (hmem p hp) q (hmem q hq), fun p hp => h.lt p (hmem p hp), hcount0, hcount, ?_,
          h.pos, hweak, fun p hp => h.zero p (hmem p hp), h.del, h.dead⟩, rfl, rfl, rfl,
          fun o ho => Or.inl ho, fun o ho => ho⟩
        intro o
        rw [show Heap.live _ o = s.live o from rfl, h.live o]
        constructor
        · rintro ⟨p, hp', e⟩
          rcases List.mem_cons.1 hp' with rfl | hp'
          · rw [hp] at e; cases e
          · exact ⟨p, hp', e⟩
        · rintro ⟨p, hp', e⟩
          exact ⟨p, hmem p hp', e⟩
      | some o =>
        obtain ⟨e1, e2⟩ := ha o hp
        simp only at e1
        have hlive : s.live o = true := (h.live o).2 ⟨_, hself, hp⟩
        have hnodel : o ∉ s.deleted := fun hh => by
          have := (h.dead o hh).1
          rw [hlive] at this
          cases this
        have holt : o < s.next := by
          have := h.lt _ hself
          simp only at this
          omega
        have hst : s.decref a = some { s with
            live := fun p => if p = o then false else s.live p, deleted := s.deleted ++ [o],
            count := fun d => if d = a.cnt then none else s.count d } := by
          rw [Heap.decref, hk]
          simp only [hl, hp, h0, Heap.delete, hlive, if_true, if_false, Nat.zero_add]
        refine ⟨_, hst, ⟨fun p hp => h.own p (hmem p hp), fun p hp q hq => h.same p (hmem p hp) q (hmem q hq),
          fun p hp => h.lt p (hmem p hp), hcount0, hcount, ?_, h.pos, hweak, fun p hp => h.zero p (hmem p hp), ?_, ?_⟩,
          rfl, rfl, rfl, ?_, ?_⟩
        · intro o'
          show (if o' = o then false else s.live o') = true ↔ _
          by_cases e : o' = o
          · subst e
            simp only [if_true, Bool.false_eq_true, false_iff, not_exists, not_and]
            intro p hp' hpo
            exact hno p hp' (by rw [(h.own p (hmem p hp') o' hpo).1, e1])
          · rw [if_neg e, h.live o']
            constructor
            · rintro ⟨p, hp', e'⟩
              rcases List.mem_cons.1 hp' with rfl | hp'
              · rw [hp] at e'; cases e'; exact absurd rfl e
              · exact ⟨p, hp', e'⟩
            · rintro ⟨p, hp', e'⟩
              exact ⟨p, hmem p hp', e'⟩
        · show (s.deleted ++ [o]).Nodup
          rw [List.nodup_append]
          refine ⟨h.del, by simp, ?_⟩
          intro x hx y hy
          simp only [List.mem_singleton] at hy
          subst hy
          rintro rfl
          exact hnodel hx
        · intro o' ho'
          show (if o' = o then false else s.live o') = false ∧ o' < s.next
          rcases List.mem_append.1 ho' with ho' | ho'
          · have := h.dead o' ho'
            by_cases e : o' = o
            · simp [e, holt]
            · simp [e, this]
          · simp only [List.mem_singleton] at ho'
            subst ho'
            simp [holt]
        · intro o' ho'
          show (if o' = o then false else s.live o') = true ∨ o' ∈ s.deleted ++ [o]
          by_cases e : o' = o
          · right; simp [e]
          · left; simp [e, ho']
        · intro o' ho'
          show o' ∈ s.deleted ++ [o]
          simp [ho']
    · have hst : s.decref a = some { s with count := fun d => if d = a.cnt then some (uses a.cnt hs + 1 - 1) else s.count d } := by
        rw [Heap.decref, hk]
        simp only
        rw [if_neg (by omega)]
      refine ⟨_, hst, ⟨fun p hp => h.own p (hmem p hp),
        fun p hp q hq => h.same p (hmem p hp) q (hmem q hq), fun p hp => h.lt p (hmem p hp), ?_, ?_, ?_, h.pos, ?_,
        fun p hp => h.zero p (hmem p hp), h.del, h.dead⟩, rfl, rfl, rfl, fun o ho => Or.inl ho, fun o ho => ho⟩
      · show (if 0 = a.cnt then _ else _) = _
        rw [if_neg (Ne.symm h0), h.cnt0, uses_cons]
        simp [h0]
      · intro c hc
        show (if c = a.cnt then _ else s.count c) = _
        by_cases e : c = a.cnt
        · subst e
          rw [if_pos rfl, if_neg hl]
          simp
        · rw [if_neg e, h.cnt c hc, uses_cons]
          simp [Ne.symm e]
      · intro o
        rw [show Heap.live _ o = s.live o from rfl, h.live o]
        constructor
        · rintro ⟨p, hp', e⟩
          rcases List.mem_cons.1 hp' with rfl | hp'
          · have : ∃ q ∈ hs, q.2.cnt = a.cnt := by
              by_contra hh
              push Not at hh
              exact hl (uses_zero.2 hh)
            obtain ⟨q, hq, eq⟩ := this
            exact ⟨q, hq, by rw [h.same q (hmem q hq) _ hself eq]; exact e⟩
          · exact ⟨p, hp', e⟩
        · rintro ⟨p, hp', e⟩
          exact ⟨p, hmem p hp', e⟩
      · intro w hw
        obtain ⟨w1, w2, w3, w4⟩ := h.weak w hw
        exact ⟨w1, w2, w3, fun p hp => w4 p (hmem p hp)⟩

/-- The invariant of a program. -/
structure Inv (s : Heap) : Prop where
  names : (s.handles.map Prod.fst).Nodup
  cons : Cons s.handles s

theorem Inv.init : Inv Heap.init := by
  refine ⟨by simp [Heap.init], ⟨by simp [Heap.init], by simp [Heap.init], by simp [Heap.init], rfl, ?_, ?_, by simp [Heap.init],
    by simp [Heap.init], by simp [Heap.init], by simp [Heap.init], by simp [Heap.init]⟩⟩
  · intro c hc
    simp [Heap.init, hc, uses]
  · intro o
    simp [Heap.init]

/-- A handle on something new. -/
theorem Cons.new {s : Heap} (h : Cons s.handles s) (n : Nat) (b : Bool) :
    Cons ((n, ⟨if b then some s.next else none, s.next⟩) :: s.handles)
      { s with count := fun d => if d = s.next then some 1 else s.count d,
               live := fun p => if p = s.next then b else s.live p, next := s.next + 1 } := by
  have hnew : ∀ p ∈ s.handles, p.2.cnt ≠ s.next := fun p hp => by have := h.lt p hp; omega
  have hu : uses s.next s.handles = 0 := uses_zero.2 hnew
  have hpos := h.pos
  have hdead : s.live s.next = false := by
    by_contra hh
    obtain ⟨p, hp, e⟩ := (h.live s.next).1 (by simpa using hh)
    exact hnew p hp (h.own p hp _ e).1
  refine ⟨?_, ?_, ?_, ?_, ?_, ?_, by simp, ?_, ?_, h.del, ?_⟩
  · intro p hp o e
    rcases List.mem_cons.1 hp with rfl | hp
    · cases b <;> simp at e
      subst e
      exact ⟨rfl, by omega⟩
    · exact h.own p hp o e
  · intro p hp q hq e
    rcases List.mem_cons.1 hp with rfl | hp <;> rcases List.mem_cons.1 hq with rfl | hq
    · rfl
    · exact absurd e.symm (hnew q hq)
    · exact absurd e (hnew p hp)
    · exact h.same p hp q hq e
  · intro p hp
    show _ < s.next + 1
    rcases List.mem_cons.1 hp with rfl | hp
    · simp
    · have := h.lt p hp; omega
  · show (if 0 = s.next then _ else s.count 0) = _
    rw [if_neg (by omega), h.cnt0, uses_cons]
    simp [show s.next ≠ 0 by omega]
  · intro c hc
    show (if c = s.next then _ else s.count c) = _
    by_cases e : c = s.next
    · subst e
      rw [if_pos rfl, uses_cons, hu]
      simp
    · rw [if_neg e, h.cnt c hc, uses_cons]
      simp [Ne.symm e]
  · intro o
    show (if o = s.next then b else s.live o) = true ↔ _
    by_cases e : o = s.next
    · subst e
      rw [if_pos rfl]
      constructor
      · intro hb; exact ⟨_, List.mem_cons_self, by simp [hb]⟩
      · rintro ⟨p, hp, e'⟩
        rcases List.mem_cons.1 hp with rfl | hp
        · cases b <;> simp_all
        · exact absurd (h.own p hp _ e').1 (hnew p hp)
    · rw [if_neg e, h.live o]
      constructor
      · rintro ⟨p, hp, e'⟩
        exact ⟨p, List.mem_cons_of_mem _ hp, e'⟩
      · rintro ⟨p, hp, e'⟩
        rcases List.mem_cons.1 hp with rfl | hp
        · cases b <;> simp at e'
          exact absurd e'.symm e
        · exact ⟨p, hp, e'⟩
  · intro w hw
    obtain ⟨w1, w2, w3, w4⟩ := h.weak w hw
    refine ⟨Nat.lt_succ_of_lt w1, w2, w3, fun p hp e => ?_⟩
    rcases List.mem_cons.1 hp with rfl | hp
    · simp only at e
      omega
    · exact w4 p hp e
  · intro p hp e
    rcases List.mem_cons.1 hp with rfl | hp
    · simp only at e
      omega
    · exact h.zero p hp e
  · intro o ho
    have := h.dead o ho
    show (if o = s.next then b else s.live o) = false ∧ o < s.next + 1
    rw [if_neg (by omega)]
    exact ⟨this.1, by omega⟩

/-- Everything that a step keeps. -/
theorem step_inv {s : Heap} (h : Inv s) (op : Op) (ha : s.allowed op = true) :
    ∃ s', s.step op = some s' ∧ Inv s' ∧ (∀ o, s.live o = true → s'.live o = true ∨ o ∈ s'.deleted) ∧
      (∀ o ∈ s.deleted, o ∈ s'.deleted) := by
  cases op with
  | adopt n o => simp [Heap.allowed] at ha
  | default n =>
    simp only [Heap.allowed, Option.isNone_iff_eq_none] at ha
    obtain ⟨s', h1, h2, h3, h4, h5⟩ := (h.cons.setHandles (hs' := (n, ⟨none, 0⟩) :: s.handles)).incref n ⟨none, 0⟩
      h.cons.pos (by simp) (by simp) (Or.inl rfl) (fun p hp e => h.cons.zero p hp e)
    refine ⟨s', h1, ⟨by rw [h3, List.map_cons, List.nodup_cons]; exact ⟨lookup_none _ _ ha, h.names⟩, by rw [h3]; exact h2⟩,
      fun o ho => Or.inl (by rw [h4]; exact ho), fun o ho => by rw [h5]; exact ho⟩
  | fresh n =>
    simp only [Heap.allowed, Option.isNone_iff_eq_none] at ha
    have hn := h.cons.new n true
    refine ⟨_, rfl, ⟨by simp only [List.map_cons, List.nodup_cons]; exact ⟨lookup_none _ _ ha, h.names⟩,
      hn.setHandles⟩, fun o ho => Or.inl ?_, fun o ho => ho⟩
    show (if o = s.next then true else s.live o) = true
    simp [ho]
  | null n =>
    simp only [Heap.allowed, Option.isNone_iff_eq_none] at ha
    have hn := h.cons.new n false
    have e : (fun p => if p = s.next then false else s.live p) = s.live := by
      funext p
      by_cases e : p = s.next
      · subst e
        rw [if_pos rfl]
        by_contra hh
        obtain ⟨q, hq, e⟩ := (h.cons.live s.next).1 (by simpa using Ne.symm hh)
        have := h.cons.lt q hq
        have := (h.cons.own q hq _ e).1
        omega
      · rw [if_neg e]
    rw [e] at hn
    exact ⟨_, rfl, ⟨by simp only [List.map_cons, List.nodup_cons]; exact ⟨lookup_none _ _ ha, h.names⟩,
      hn.setHandles⟩, fun o ho => Or.inl ho, fun o ho => ho⟩
  | copy n g =>
    simp only [Heap.allowed, Bool.and_eq_true, Option.isNone_iff_eq_none, Option.isSome_iff_exists] at ha
    obtain ⟨ha, b, hb⟩ := ha
    have hm := lookup_mem _ _ _ hb
    obtain ⟨s', h1, h2, h3, h4, h5⟩ := (h.cons.setHandles (hs' := (n, b) :: s.handles)).incref n b
      (h.cons.lt _ hm) (h.cons.own _ hm) (h.cons.zero _ hm) (Or.inr ⟨_, hm, rfl⟩) (fun p hp e => h.cons.same p hp _ hm e)
    refine ⟨s', by simp only [Heap.step, hb]; exact h1,
      ⟨by rw [h3, List.map_cons, List.nodup_cons]; exact ⟨lookup_none _ _ ha, h.names⟩, by rw [h3]; exact h2⟩,
      fun o ho => Or.inl (by rw [h4]; exact ho), fun o ho => by rw [h5]; exact ho⟩
  | weak w g =>
    simp only [Heap.allowed, Option.isSome_iff_exists] at ha
    obtain ⟨b, hb⟩ := ha
    have hm := lookup_mem _ _ _ hb
    have hst : s.step (.weak w g) = some { s with weaks := (w, b) :: s.weaks } := by simp only [Heap.step, hb]
    refine ⟨_, hst, ⟨h.names, ⟨h.cons.own, h.cons.same, h.cons.lt, h.cons.cnt0, h.cons.cnt,
      h.cons.live, h.cons.pos, ?_, h.cons.zero, h.cons.del, h.cons.dead⟩⟩, fun o ho => Or.inl ho, fun o ho => ho⟩
    intro w' hw'
    rcases List.mem_cons.1 hw' with rfl | hw'
    · exact ⟨h.cons.lt (g, b) hm, h.cons.own (g, b) hm, h.cons.zero (g, b) hm,
        fun p hp e => h.cons.same p hp (g, b) hm e⟩
    · exact h.cons.weak w' hw'
  | lock n w =>
    simp only [Heap.allowed, Bool.and_eq_true, Option.isNone_iff_eq_none] at ha
    obtain ⟨ha, hw⟩ := ha
    cases hb : s.weaks.lookup w with
    | none => rw [hb] at hw; cases hw
    | some b =>
      rw [hb] at hw
      simp only [List.any_eq_true, decide_eq_true_eq] at hw
      obtain ⟨w1, w2, w3, w4⟩ := h.cons.weak _ (lookup_mem _ _ _ hb)
      obtain ⟨s', h1, h2, h3, h4, h5⟩ := (h.cons.setHandles (hs' := (n, b) :: s.handles)).incref n b
        w1 w2 w3 (Or.inr hw) w4
      refine ⟨s', by simp only [Heap.step, hb]; exact h1,
        ⟨by rw [h3, List.map_cons, List.nodup_cons]; exact ⟨lookup_none _ _ ha, h.names⟩, by rw [h3]; exact h2⟩,
        fun o ho => Or.inl (by rw [h4]; exact ho), fun o ho => by rw [h5]; exact ho⟩
  | destroy n =>
    simp only [Heap.allowed, Option.isSome_iff_exists] at ha
    obtain ⟨a, ha⟩ := ha
    have hp := perm_filter _ _ _ h.names ha
    obtain ⟨s', h1, h2, h3, _, _, h4, h5⟩ := (h.cons.perm hp).decref
    have hst : s.step (.destroy n) = some { s' with handles := s'.handles.filter fun p => p.1 ≠ n } := by
      simp only [Heap.step, ha, h1]
    refine ⟨_, hst, ⟨?_, ?_⟩, h4, h5⟩
    · show ((s'.handles.filter fun p => p.1 ≠ n).map Prod.fst).Nodup
      rw [h3]
      exact h.names.sublist (List.filter_sublist.map _)
    · show Cons (s'.handles.filter fun p => p.1 ≠ n) _
      rw [h3]
      exact h2.setHandles
  | assign n g =>
    simp only [Heap.allowed, Bool.and_eq_true, Option.isSome_iff_exists] at ha
    obtain ⟨⟨a, ha⟩, b, hb⟩ := ha
    by_cases he : a.ptr = b.ptr
    · exact ⟨s, by simp only [Heap.step, ha, hb, he, if_true], h, fun o ho => Or.inl ho, fun o ho => ho⟩
    · have hng : g ≠ n := by
        rintro rfl
        rw [ha] at hb
        cases hb
        exact he rfl
      have hp := perm_filter _ _ _ h.names ha
      have hm : (g, b) ∈ s.handles.filter fun p => p.1 ≠ n := by
        simp [lookup_mem _ _ _ hb, hng]
      obtain ⟨s1, h1, h2, h3, h6, h7, h4, h5⟩ := (h.cons.perm hp).decref
      obtain ⟨s2, k1, k2, k3, k4, k5⟩ :=
        (h2.setHandles (hs' := s1.handles.map fun p => if p.1 = n then (n, b) else p)).incref n b
        (h2.lt _ hm) (h2.own _ hm) (h2.zero _ hm) (Or.inr ⟨_, hm, rfl⟩) (fun p hp e => h2.same p hp _ hm e)
      refine ⟨s2, by simp only [Heap.step, ha, hb, he, if_false, h1]; exact k1, ⟨?_, ?_⟩, ?_, ?_⟩
      · rw [k3]
        show ((s1.handles.map fun p => if p.1 = n then (n, b) else p).map Prod.fst).Nodup
        rw [names_replace, h3]
        exact h.names
      · rw [k3]
        show Cons (s1.handles.map fun p => if p.1 = n then (n, b) else p) s2
        rw [h3]
        exact k2.perm (perm_replace _ n a b h.names ha).symm
      · intro o ho
        rw [k4, k5]
        exact h4 o ho
      · intro o ho
        rw [k5]
        exact h5 o ho

theorem run_inv : ∀ (ops : List Op) {s : Heap}, Inv s →
    match s.run ops with
    | .done s' => Inv s' ∧ (∀ o, s.live o = true → s'.live o = true ∨ o ∈ s'.deleted) ∧
        (∀ o ∈ s.deleted, o ∈ s'.deleted)
    | .ruleBroken => True
    | .undefined => False
  | [], s, h => ⟨h, fun _ ho => Or.inl ho, fun _ ho => ho⟩
  | op :: ops, s, h => by
    rw [Heap.run]
    by_cases ha : s.allowed op = true
    · obtain ⟨s1, h1, h2, h3, h4⟩ := step_inv h op ha
      rw [if_pos ha, h1]
      have ih := run_inv ops h2
      simp only
      cases hr : s1.run ops with
      | done s' =>
        rw [hr] at ih
        simp only at ih ⊢
        refine ⟨ih.1, fun o ho => ?_, fun o ho => ih.2.2 o (h4 o ho)⟩
        rcases h3 o ho with h | h
        · exact ih.2.1 o h
        · exact Or.inr (ih.2.2 o h)
      | ruleBroken => trivial
      | undefined => rw [hr] at ih; exact ih
    · rw [if_neg ha]; trivial

/-! ### The properties -/

/-- No program that keeps the rules of use has undefined behaviour: nothing is deleted twice, no counter or object
is used after it is gone. -/
theorem C362_safe (ops : List Op) : Heap.init.run ops ≠ .undefined := by
  intro h
  have := run_inv ops Inv.init
  rw [h] at this
  exact this

/-- An object exists as long as a variable points to it, and no longer. -/
theorem C362_alive (ops : List Op) (s : Heap) (h : Heap.init.run ops = .done s) (o : Nat) :
    s.live o = true ↔ ∃ n, s.get n = some (some o) := by
  have hi := run_inv ops Inv.init
  rw [h] at hi
  rw [hi.1.cons.live o]
  constructor
  · rintro ⟨⟨n, a⟩, hp, e⟩
    exact ⟨n, by rw [Heap.get, lookup_of_mem _ _ _ hi.1.names hp]; simp only [Option.map_some]; rw [← e]⟩
  · rintro ⟨n, e⟩
    rw [Heap.get, Option.map_eq_some_iff] at e
    obtain ⟨a, ha, e⟩ := e
    exact ⟨(n, a), lookup_mem _ _ _ ha, e⟩

/-- An object that existed at some time, and to which no variable points at the end, has been deleted once. -/
theorem C362_deleted_once (ops ops' : List Op) (s s' : Heap) (h : Heap.init.run ops = .done s)
    (h' : s.run ops' = .done s') (o : Nat) (ho : s.live o = true) (hn : ∀ n, s'.get n ≠ some (some o)) :
    s'.deleted.count o = 1 := by
  have hi := run_inv ops Inv.init
  rw [h] at hi
  have hi' := run_inv ops' hi.1
  rw [h'] at hi'
  obtain ⟨i1, i2, _⟩ := hi'
  rcases i2 o ho with hl | hd
  · exfalso
    obtain ⟨⟨n, a⟩, hp, e⟩ := (i1.cons.live o).1 hl
    exact hn n (by rw [Heap.get, lookup_of_mem _ _ _ i1.names hp]; simp only [Option.map_some]; rw [← e])
  · exact List.count_eq_one_of_mem i1.cons.del hd

/-- The reference count of a variable that points to an object is the number of variables that point to it. -/
theorem C362_refcount (ops : List Op) (s : Heap) (h : Heap.init.run ops = .done s) (n o : Nat)
    (hg : s.get n = some (some o)) :
    s.refcount n = some (s.handles.countP fun p => decide (p.2.ptr = some o)) := by
  have hi := run_inv ops Inv.init
  rw [h] at hi
  have hc := hi.1.cons
  rw [Heap.get, Option.map_eq_some_iff] at hg
  obtain ⟨a, ha, e⟩ := hg
  have hm := lookup_mem _ _ _ ha
  obtain ⟨e1, e2⟩ := hc.own _ hm o e
  simp only at e1
  have hu : uses a.cnt s.handles = s.handles.countP fun p => decide (p.2.ptr = some o) := by
    unfold uses
    apply List.countP_congr
    intro p hp
    simp only [decide_eq_true_eq]
    constructor
    · intro hh
      rw [hc.same p hp _ hm hh]
      exact e
    · intro hh
      rw [(hc.own p hp o hh).1, e1]
  have hne : uses a.cnt s.handles ≠ 0 := fun hh => uses_zero.1 hh _ hm rfl
  rw [Heap.refcount, ha]
  simp only
  rw [hc.cnt _ (by omega), if_neg hne, hu]

/-- An assignment makes the variable point where the other does, and changes no other variable. -/
theorem C362_assign (ops : List Op) (s s' : Heap) (h : Heap.init.run ops = .done s) (n g : Nat)
    (h' : s.run [.assign n g] = .done s') :
    s'.get n = s.get g ∧ ∀ k, k ≠ n → s'.get k = s.get k := by
  have hi := run_inv ops Inv.init
  rw [h] at hi
  have hi' := run_inv [.assign n g] hi.1
  rw [h'] at hi'
  have hs := h'
  simp only [Heap.run] at hs
  split at hs
  · rename_i hal
    simp only [Heap.allowed, Bool.and_eq_true, Option.isSome_iff_exists] at hal
    obtain ⟨⟨a, ha⟩, b, hb⟩ := hal
    by_cases he : a.ptr = b.ptr
    · simp only [Heap.step, ha, hb, he, if_true, Res.done.injEq] at hs
      subst hs
      exact ⟨by simp [Heap.get, ha, hb, he], fun _ _ => rfl⟩
    · simp only [Heap.step, ha, hb, he, if_false] at hs
      obtain ⟨s1, h1, h2, h3, _⟩ := (hi.1.cons.perm (perm_filter _ _ _ hi.1.names ha)).decref
      rw [h1] at hs
      simp only at hs
      have hh : s'.handles = s.handles.map fun p => if p.1 = n then (n, b) else p := by
        rw [Heap.incref] at hs
        split at hs
        · cases hs
        · rename_i heq
          split at heq
          · cases heq
          · cases heq
            cases hs
            simp only [h3]
      have key : ∀ k, s'.handles.lookup k = if k = n then some b else s.handles.lookup k := by
        intro k
        by_cases hk : k = n
        · subst hk
          rw [if_pos rfl]
          apply lookup_of_mem _ _ _ hi'.1.names
          rw [hh]
          exact List.mem_map.2 ⟨_, lookup_mem _ _ _ ha, by simp⟩
        · rw [if_neg hk, hh]
          clear hh hi hi' ha hb hs h1 h2 h3 h h'
          induction s.handles with
          | nil => rfl
          | cons p l ih =>
            obtain ⟨m, c⟩ := p
            by_cases hm : m = n
            · subst hm
              have hb : (k == m) = false := by simpa using hk
              simp [List.lookup, hb, ih]
            · simp only [List.map_cons, hm, if_false, List.lookup]
              rw [ih]
      refine ⟨by rw [Heap.get, key, if_pos rfl, Heap.get, hb], fun k hk => by rw [Heap.get, key, if_neg hk]; rfl⟩
  · cases hs

/-! ### What the rules are for -/

/-- A second variable made from the same plain pointer: the object is deleted twice. -/
theorem C362_adopt_twice : Heap.init.runAny [.fresh 0, .adopt 1 1, .destroy 0, .destroy 1] = none := by
  decide

/-- A weak pointer does not know that its object is gone: locking it then uses a counter that is gone. -/
theorem C362_lock_too_late : Heap.init.runAny [.fresh 0, .weak 0 0, .destroy 0, .lock 1 0] = none := by
  decide

/-! ### Instances -/

/-- Two variables share an object, one of them gets another, the first object is deleted with the second. -/
example : ∃ s, Heap.init.run [.fresh 0, .copy 1 0, .fresh 2, .weak 0 0, .assign 0 2, .lock 3 0, .destroy 1,
    .assign 3 0] = .done s ∧ s.deleted = [1] ∧ s.get 3 = some (some 2) ∧ s.refcount 3 = some 3 :=
  ⟨_, rfl, by decide, by decide, by decide⟩

end Paradiseo.SharedPtr
