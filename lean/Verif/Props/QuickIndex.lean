import Verif.Props.QuadTree
/-
C182: the sorted index of two objectives.  C183: the archive on it.
-/
namespace Paradiseo.QT

variable {V : Type}

/-- The order of the index: the second objective grows, the first one falls. -/
def Sorted2 (c : V → Nat → Int) (l : List (V × Nat)) : Prop :=
  l.Pairwise fun a b => c a.1 1 < c b.1 1 ∧ c b.1 0 < c a.1 0

theorem le2 {c : V → Nat → Int} {v w : V} : Le c 2 v w ↔ c v 0 ≤ c w 0 ∧ c v 1 ≤ c w 1 := by
  constructor
  · intro h; exact ⟨h 0 (by omega), h 1 (by omega)⟩
  · intro h i hi
    have : i = 0 ∨ i = 1 := by omega
    rcases this with rfl | rfl
    · exact h.1
    · exact h.2

theorem dominatedBy2 {c : V → Nat → Int} {v w : V} : dominatedBy c 2 v w = true ↔
    c w 0 ≤ c v 0 ∧ c w 1 ≤ c v 1 ∧ (c w 0 < c v 0 ∨ c w 1 < c v 1) := by
  rw [dominatedBy_iff, le2, le2]
  omega

theorem takeWhile_append_dropWhile' {α : Type} (p : α → Bool) (l : List α) :
    l.takeWhile p ++ l.dropWhile p = l := List.takeWhile_append_dropWhile

theorem mem_takeWhile_imp' {α : Type} {p : α → Bool} {l : List α} {a : α} (h : a ∈ l.takeWhile p) : p a = true :=
  List.all_eq_true.1 List.all_takeWhile a h

/-- Of a list whose second objective grows, the vectors from the first one not below `x` on. -/
theorem hi_ge {c : V → Nat → Int} {l : List (V × Nat)} (hs : Sorted2 c l) (x : V) :
    ∀ e ∈ l.dropWhile (fun e => decide (c e.1 1 < c x 1)), c x 1 ≤ c e.1 1 := by
  induction l with
  | nil => intro e he; cases he
  | cons a l ih =>
    rw [Sorted2, List.pairwise_cons] at hs
    intro e he
    rw [List.dropWhile_cons] at he
    split at he
    · exact ih hs.2 e he
    · rename_i hn
      have ha : c x 1 ≤ c a.1 1 := by
        rw [decide_eq_true_eq] at hn
        omega
      rcases List.mem_cons.1 he with rfl | h
      · exact ha
      · have := (hs.1 e h).1; omega

/-- Of a sorted list all of whose vectors are worse on the second objective, the dominated ones come first. -/
theorem del_filter {c : V → Nat → Int} {l : List (V × Nat)} (hs : Sorted2 c l) (x : V)
    (hge : ∀ e ∈ l, c x 1 ≤ c e.1 1) (hno : ∀ e ∈ l, ¬ Le c 2 e.1 x) :
    l.takeWhile (fun e => dominatedBy c 2 e.1 x) = l.filter (fun e => leB c 2 x e.1) ∧
    l.dropWhile (fun e => dominatedBy c 2 e.1 x) = l.filter (fun e => !leB c 2 x e.1) := by
  have heq : ∀ e ∈ l, dominatedBy c 2 e.1 x = leB c 2 x e.1 := by
    intro e he
    rw [Bool.eq_iff_iff, dominatedBy2, leB_iff, le2]
    have := hno e he
    rw [le2] at this
    omega
  induction l with
  | nil => exact ⟨rfl, rfl⟩
  | cons a l ih =>
    rw [Sorted2, List.pairwise_cons] at hs
    obtain ⟨i1, i2⟩ := ih hs.2 (fun e he => hge e (by simp [he])) (fun e he => hno e (by simp [he]))
      (fun e he => heq e (by simp [he]))
    have ha := heq a (by simp)
    rw [List.takeWhile_cons, List.dropWhile_cons, List.filter_cons, List.filter_cons, ha, i1, i2]
    cases hb : leB c 2 x a.1 with
    | true => simp
    | false =>
      have hb' : ¬ Le c 2 x a.1 := by
        intro h; rw [leB_iff.2 h] at hb; cases hb
      have hga := hge a (by simp)
      rw [le2] at hb'
      have hrest : ∀ e ∈ l, leB c 2 x e.1 = false := by
        intro e he
        rw [Bool.eq_false_iff]
        intro h
        have h2 := le2.1 (leB_iff.1 h)
        have h3 := hs.1 e he
        omega
      have h1 : l.filter (fun e => leB c 2 x e.1) = [] := by
        rw [List.filter_eq_nil_iff]
        intro e he
        rw [hrest e he]
        simp
      have h2 : l.filter (fun e => !leB c 2 x e.1) = l := by
        rw [List.filter_eq_self]
        intro e he
        rw [hrest e he]
        rfl
      simp [h1, h2]

/-- Erasing the keys of some vectors. -/
theorem foldl_eraseKey {c : V → Nat → Int} (del l : List (V × Nat)) :
    del.foldl (fun l e => eraseKey c e.1 l) l = l.filter fun e => del.all fun d => decide (c e.1 1 ≠ c d.1 1) := by
  induction del generalizing l with
  | nil => simp
  | cons d del ih =>
    rw [List.foldl_cons, ih, eraseKey, List.filter_filter]
    congr 1
    funext e
    rw [List.all_cons, Bool.and_comm]

theorem insertKey_new {c : V → Nat → Int} {x : V} {i : Nat} {l : List (V × Nat)}
    (h : ∀ e ∈ l, c e.1 1 ≠ c x 1) : insertKey c x i l =
      l.takeWhile (fun e => decide (c e.1 1 < c x 1)) ++ (x, i) :: l.dropWhile fun e => decide (c e.1 1 < c x 1) := by
  unfold insertKey
  rw [if_neg]
  intro ha
  obtain ⟨e, he, h2⟩ := List.any_eq_true.1 ha
  exact h e he (by simpa using h2)

theorem takeWhile_all {α : Type} {p : α → Bool} {l : List α} (h : ∀ a ∈ l, p a = true) : l.takeWhile p = l := by
  induction l with
  | nil => rfl
  | cons a l ih => rw [List.takeWhile_cons, h a (by simp), if_pos rfl, ih fun b hb => h b (by simp [hb])]

theorem dropWhile_all {α : Type} {p : α → Bool} {l : List α} (h : ∀ a ∈ l, p a = true) : l.dropWhile p = [] := by
  induction l with
  | nil => rfl
  | cons a l ih => rw [List.dropWhile_cons, h a (by simp), if_pos rfl, ih fun b hb => h b (by simp [hb])]

theorem takeWhile_append_neg {α : Type} {p : α → Bool} {l r : List α} (h : ∀ a ∈ l, p a = true)
    (hr : ∀ a ∈ r, p a = false) : (l ++ r).takeWhile p = l ∧ (l ++ r).dropWhile p = r := by
  induction l with
  | nil =>
    cases r with
    | nil => exact ⟨rfl, rfl⟩
    | cons a r =>
      rw [List.nil_append, List.takeWhile_cons, List.dropWhile_cons, hr a (by simp)]
      exact ⟨rfl, rfl⟩
  | cons a l ih =>
    obtain ⟨h1, h2⟩ := ih fun b hb => h b (by simp [hb])
    rw [List.cons_append, List.takeWhile_cons, List.dropWhile_cons, h a (by simp), if_pos rfl, if_pos rfl, h1, h2]
    exact ⟨rfl, rfl⟩

/-- **C182.**  Submitting a vector to the sorted index of two objectives.  It is rejected exactly if a stored one
is at least as good, and then nothing changes.  Otherwise the vectors reported as removed are those it
dominates, in the order of the index; the index after holds the others and the new one, with the number of the
others as its index, and is sorted.  Without the wish to insert, answer and report are the same and the index
stays. -/
theorem C182_submit (c : V → Nat → Int) (x : V) (l : List (V × Nat)) (hs : Sorted2 c l) :
    ((∃ e ∈ l, Le c 2 e.1 x) → ∀ ins, quickInsert c ins x l = (l, false, [])) ∧
    ((∀ e ∈ l, ¬ Le c 2 e.1 x) →
      (quickInsert c true x l).2 = (true, l.filter fun e => leB c 2 x e.1) ∧
      (quickInsert c true x l).1.Perm
        ((x, (l.filter fun e => !leB c 2 x e.1).length) :: l.filter fun e => !leB c 2 x e.1) ∧
      Sorted2 c (quickInsert c true x l).1 ∧
      quickInsert c false x l = (l, true, l.filter fun e => leB c 2 x e.1)) := by
  have hsplit := takeWhile_append_dropWhile' (fun e : V × Nat => decide (c e.1 1 < c x 1)) l
  have hlo : ∀ e ∈ l.takeWhile (fun e => decide (c e.1 1 < c x 1)), c e.1 1 < c x 1 := fun e he => by
    simpa using mem_takeWhile_imp' he
  have hhi := hi_ge hs x
  generalize hL : l.takeWhile (fun e => decide (c e.1 1 < c x 1)) = lo at hsplit hlo
  generalize hH : l.dropWhile (fun e => decide (c e.1 1 < c x 1)) = hi at hsplit hhi
  have hs' := hs
  rw [← hsplit, Sorted2, List.pairwise_append] at hs'
  obtain ⟨slo, shi, slh⟩ := hs'
  -- the last of those below has the least first objective of them
  have hlast : ∀ p, lo.getLast? = some p → ∀ e ∈ lo, c p.1 0 ≤ c e.1 0 := by
    intro p hp e he
    obtain ⟨lo', rfl⟩ : ∃ lo', lo = lo' ++ [p] := by
      rw [List.getLast?_eq_some_iff] at hp
      exact hp
    rw [List.pairwise_append] at slo
    rcases List.mem_append.1 he with h | h
    · have := slo.2.2 e h p (by simp)
      omega
    · rw [List.mem_singleton.1 h]
  have hlmem : ∀ p, lo.getLast? = some p → p ∈ lo := fun p hp => List.mem_of_getLast? hp
  have hlne : lo.getLast? = none → lo = [] := fun h => by simpa using h
  -- those below are dominated by none
  have lonot : ∀ e ∈ lo, ¬ Le c 2 x e.1 := by
    intro e he h
    have := hlo e he
    rw [le2] at h
    omega
  have loflt : lo.filter (fun e => leB c 2 x e.1) = [] := by
    rw [List.filter_eq_nil_iff]
    intro e he h
    exact lonot e he (leB_iff.1 h)
  have loflt' : lo.filter (fun e => !leB c 2 x e.1) = lo := by
    rw [List.filter_eq_self]
    intro e he
    have : leB c 2 x e.1 = false := by
      rw [Bool.eq_false_iff]; intro h; exact lonot e he (leB_iff.1 h)
    rw [this]; rfl
  unfold quickInsert
  rw [hL, hH]
  cases hlst : l.getLast? with
  | none =>
    have hnil : l = [] := by simpa using hlst
    subst hnil
    constructor
    · rintro ⟨e, he, _⟩; cases he
    · intro _
      exact ⟨rfl, List.Perm.refl _, List.pairwise_singleton _ _, rfl⟩
  | some last =>
    dsimp only
    cases hhe : hi with
    | nil =>
      rw [hhe, List.append_nil] at hsplit
      subst hsplit
      have hl1 := hlast last hlst
      have hl2 := hlmem last hlst
      have hl3 := hlo last hl2
      dsimp only
      constructor
      · rintro ⟨e, he, hle⟩ ins
        rw [le2] at hle
        have := hl1 e he
        rw [if_pos]
        rw [dominatedBy2]
        omega
      · intro hno
        have hnd : ¬ dominatedBy c 2 x last.1 = true := by
          intro h
          rw [dominatedBy2] at h
          exact hno last hl2 (le2.2 ⟨h.1, h.2.1⟩)
        have hk : ∀ e ∈ lo, c e.1 1 ≠ c x 1 := fun e he => by have := hlo e he; omega
        rw [if_neg hnd, if_neg hnd, loflt, loflt']
        simp only [if_true]
        rw [insertKey_new hk, takeWhile_all fun e he => by simpa using hlo e he,
          dropWhile_all fun e he => by simpa using hlo e he]
        refine ⟨trivial, List.perm_append_comm, ?_, rfl⟩
        rw [Sorted2, List.pairwise_append]
        refine ⟨slo, List.pairwise_singleton _ _, ?_⟩
        intro a ha b hb
        rw [List.mem_singleton.1 hb]
        have h1 := hlo a ha
        have h2 := hno a ha
        rw [le2] at h2
        dsimp only
        omega
    | cons e hi' =>
      dsimp only
      have he1 := hhi e (by rw [hhe]; simp)
      have hemem : e ∈ l := by rw [← hsplit, hhe]; simp
      have hrest : ∀ f ∈ hi', c e.1 1 < c f.1 1 ∧ c f.1 0 < c e.1 0 := by
        rw [hhe, List.pairwise_cons] at shi
        exact shi.1
      constructor
      · rintro ⟨f, hf, hle⟩ ins
        rw [le2] at hle
        rw [← hsplit, hhe] at hf
        rcases List.mem_append.1 hf with hf | hf
        · split
          · rfl
          · cases hp : lo.getLast? with
            | none => rw [hlne hp] at hf; cases hf
            | some p =>
              rw [if_pos]
              rw [Option.any_some, dominatedBy2]
              have h1 := hlast p hp f hf
              have h2 := hlo p (hlmem p hp)
              omega
        · have hfe : f = e := by
            rcases List.mem_cons.1 hf with h | h
            · exact h
            · have := (hrest f h).1; omega
          subst hfe
          rw [if_pos]
          rw [Bool.or_eq_true, Bool.and_eq_true, decide_eq_true_eq, decide_eq_true_eq, dominatedBy2]
          omega
      · intro hno
        have n1 : ¬ ((decide (c x 0 = c e.1 0) && decide (c x 1 = c e.1 1)) || dominatedBy c 2 x e.1) = true := by
          intro h
          rw [Bool.or_eq_true, Bool.and_eq_true, decide_eq_true_eq, decide_eq_true_eq, dominatedBy2] at h
          exact hno e hemem (le2.2 (by omega))
        have n2 : ¬ (lo.getLast?.any fun p => dominatedBy c 2 x p.1) = true := by
          intro h
          cases hp : lo.getLast? with
          | none => rw [hp] at h; cases h
          | some p =>
            rw [hp, Option.any_some, dominatedBy2] at h
            exact hno p (by rw [← hsplit]; exact List.mem_append_left _ (hlmem p hp)) (le2.2 ⟨h.1, h.2.1⟩)
        rw [if_neg n1, if_neg n1, if_neg n2, if_neg n2]
        have hnohi : ∀ f ∈ hi, ¬ Le c 2 f.1 x := fun f hf => hno f (by rw [← hsplit]; exact List.mem_append_right _ hf)
        obtain ⟨d1, d2⟩ := del_filter shi x hhi hnohi
        rw [← hhe]
        have hdel : hi.takeWhile (fun e => dominatedBy c 2 e.1 x) = l.filter (fun e => leB c 2 x e.1) := by
          rw [d1, ← hsplit, List.filter_append, loflt, List.nil_append]
        have hkeep : l.filter (fun e => !leB c 2 x e.1) = lo ++ hi.filter (fun e => !leB c 2 x e.1) := by
          rw [← hsplit, List.filter_append, loflt']
        have herase : (l.filter (fun e => leB c 2 x e.1)).foldl (fun l e => eraseKey c e.1 l) l =
            l.filter (fun e => !leB c 2 x e.1) := by
          rw [foldl_eraseKey]
          apply List.filter_congr
          intro a ha
          rw [Bool.eq_iff_iff, List.all_eq_true]
          constructor
          · intro h
            cases hb : leB c 2 x a.1 with
            | false => rfl
            | true =>
              have := h a (List.mem_filter.2 ⟨ha, hb⟩)
              simp at this
          · intro h d hd
            rw [decide_eq_true_eq]
            intro heq
            obtain ⟨hd1, hd2⟩ := List.mem_filter.1 hd
            have : a = d := by
              by_contra hne
              rcases List.mem_iff_getElem.1 ha with ⟨i, hi, rfl⟩
              rcases List.mem_iff_getElem.1 hd1 with ⟨j, hj, rfl⟩
              rcases Nat.lt_trichotomy i j with hij | hij | hij
              · have := (List.pairwise_iff_getElem.1 hs i j hi hj hij).1; omega
              · subst hij; exact hne rfl
              · have := (List.pairwise_iff_getElem.1 hs j i hj hi hij).1; omega
            rw [this, hd2] at h
            cases h
        rw [hdel, herase, hkeep]
        -- no key of the kept ones is that of the new one
        have hgt : ∀ f ∈ hi.filter (fun e => !leB c 2 x e.1), c x 1 < c f.1 1 ∧ c f.1 0 < c x 0 := by
          intro f hf
          obtain ⟨hf1, hf2⟩ := List.mem_filter.1 hf
          have h1 := hhi f hf1
          have h2 := hnohi f hf1
          have h3 : ¬ Le c 2 x f.1 := by
            intro h; rw [leB_iff.2 h] at hf2; cases hf2
          rw [le2] at h2 h3
          omega
        have hk : ∀ f ∈ lo ++ hi.filter (fun e => !leB c 2 x e.1), c f.1 1 ≠ c x 1 := by
          intro f hf
          rcases List.mem_append.1 hf with h | h
          · have := hlo f h; omega
          · have := hgt f h; omega
        obtain ⟨t1, t2⟩ := takeWhile_append_neg (p := fun e : V × Nat => decide (c e.1 1 < c x 1)) (l := lo)
          (r := hi.filter (fun e => !leB c 2 x e.1)) (fun e he => by simpa using hlo e he)
          (fun e he => by have := hgt e he; simp; omega)
        simp only [if_true, Bool.false_eq_true, if_false]
        rw [insertKey_new hk, t1, t2]
        refine ⟨trivial, List.perm_middle, ?_, trivial⟩
        rw [Sorted2, List.pairwise_append]
        refine ⟨slo, ?_, ?_⟩
        · rw [List.pairwise_cons]
          exact ⟨fun a ha => hgt a ha, List.Pairwise.sublist List.filter_sublist shi⟩
        · intro a ha b hb
          rcases List.mem_cons.1 hb with rfl | hb
          · have h1 := hlo a ha
            have h2 := hno a (by rw [← hsplit]; exact List.mem_append_left _ ha)
            rw [le2] at h2
            dsimp only
            omega
          · exact slh a ha b (List.mem_filter.1 hb).1

/-- The vectors of the index after some submissions (without an archive), from the empty one. -/
def quickRun (c : V → Nat → Int) (xs : List V) : List (V × Nat) :=
  xs.foldl (fun l x => (quickInsert c true x l).1) []

/-- **C182** (runs).  After any submissions the index is sorted, holds submitted vectors and one at least as good
as each submitted one; a further vector is accepted exactly if no submitted one is at least as good. -/
theorem C182_run (c : V → Nat → Int) (xs : List V) :
    Sorted2 c (quickRun c xs) ∧ ((quickRun c xs).map Prod.fst).Pairwise (Incomp c 2) ∧
    (∀ e ∈ quickRun c xs, e.1 ∈ xs) ∧
    (∀ x ∈ xs, ∃ e ∈ quickRun c xs, Le c 2 e.1 x) ∧
    ∀ x, (quickInsert c true x (quickRun c xs)).2.1 = true ↔ ∀ y ∈ xs, ¬ Le c 2 y x := by
  have inv : Sorted2 c (quickRun c xs) ∧ (∀ e ∈ quickRun c xs, e.1 ∈ xs) ∧
      ∀ x ∈ xs, ∃ e ∈ quickRun c xs, Le c 2 e.1 x := by
    induction xs using List.reverseRecOn with
    | nil => exact ⟨List.Pairwise.nil, (fun e he => nomatch he), (fun x hx => nomatch hx)⟩
    | append_singleton xs z ih =>
      have e : quickRun c (xs ++ [z]) = (quickInsert c true z (quickRun c xs)).1 := by
        unfold quickRun; rw [List.foldl_append]; rfl
      rw [e]
      generalize quickRun c xs = l at ih ⊢
      obtain ⟨i1, i2, i3⟩ := ih
      obtain ⟨s1, s2⟩ := C182_submit c z l i1
      by_cases hd : ∃ e ∈ l, Le c 2 e.1 z
      · rw [s1 hd]
        refine ⟨i1, fun e he => List.mem_append_left _ (i2 e he), ?_⟩
        intro x hx
        rcases List.mem_append.1 hx with h | h
        · exact i3 x h
        · rw [List.mem_singleton.1 h]; exact hd
      · obtain ⟨_, a2, a3, _⟩ := s2 fun e he h => hd ⟨e, he, h⟩
        refine ⟨a3, ?_, ?_⟩
        · intro e he
          rcases List.mem_cons.1 (a2.mem_iff.1 he) with rfl | h
          · simp
          · exact List.mem_append_left _ (i2 e (List.mem_filter.1 h).1)
        · have hz : ∃ e ∈ (quickInsert c true z l).1, Le c 2 e.1 z :=
            ⟨_, a2.mem_iff.2 List.mem_cons_self, Le.refl' c 2 z⟩
          intro x hx
          rcases List.mem_append.1 hx with h | h
          · obtain ⟨y, hy, hyx⟩ := i3 x h
            cases hb : leB c 2 z y.1 with
            | true =>
              obtain ⟨w, hw, hwz⟩ := hz
              exact ⟨w, hw, hwz.trans' ((leB_iff.1 hb).trans' hyx)⟩
            | false =>
              refine ⟨y, a2.mem_iff.2 (List.mem_cons_of_mem _ (List.mem_filter.2 ⟨hy, ?_⟩)), hyx⟩
              rw [hb]; rfl
          · rw [List.mem_singleton.1 h]; exact hz
  obtain ⟨i1, i2, i3⟩ := inv
  refine ⟨i1, ?_, i2, i3, ?_⟩
  · rw [List.pairwise_map]
    refine i1.imp ?_
    intro a b h
    constructor
    · rw [le2]; omega
    · rw [le2]; omega
  · intro x
    obtain ⟨s1, s2⟩ := C182_submit c x _ i1
    constructor
    · intro h y hy hyx
      obtain ⟨e, he, hey⟩ := i3 y hy
      rw [s1 ⟨e, he, hey.trans' hyx⟩] at h
      cases h
    · intro h
      rw [(s2 fun e he hle => h e.1 (i2 e he) hle).1]

example : quickRun co [[5,50], [4,60], [6,40], [7,45], [5,40]] = [([5,40], 1), ([4,60], 1)] := by decide +kernel

/-! ### C183 -/

/-- The index of an archive from which nothing was removed: each vector with its place. -/
def KInv (c : V → Nat → Int) (i : List (V × Nat)) (l : List V) : Prop := Sorted2 c i ∧ i.Perm l.zipIdx

theorem kinv_mem {c : V → Nat → Int} {i : List (V × Nat)} {l : List V} (h : KInv c i l) : ∀ e ∈ i, e.1 ∈ l := by
  intro e he
  have := h.2.mem_iff.1 he
  exact (List.mem_zipIdx' this).2 ▸ List.getElem_mem _

theorem kinv_mem' {c : V → Nat → Int} {i : List (V × Nat)} {l : List V} (h : KInv c i l) {j : Nat}
    (hj : j < l.length) : (l[j], j) ∈ i :=
  h.2.mem_iff.2 (List.mk_mem_zipIdx_iff_getElem?.2 (List.getElem?_eq_getElem hj))

theorem kinv_run {c : V → Nat → Int} (xs : List V) (hx : NoDom c 2 xs) :
    ∃ i, KInv c i (keep c 2 xs) ∧ archiveAll (quickIndex c) xs ([], []) = some (i, keep c 2 xs) := by
  refine archive_noDom (quickIndex c) c 2 (KInv c) [] ⟨List.Pairwise.nil, List.Perm.nil⟩ ?_ ?_ xs hx
  · intro i l x hi hy
    obtain ⟨y, hyl, hyx⟩ := hy
    obtain ⟨j, hj, rfl⟩ := List.getElem_of_mem hyl
    have := (C182_submit c x i hi.1).1 ⟨_, kinv_mem' hi hj, hyx⟩ true
    show (quickInsert c true x i).2.1 = false ∧ KInv c (quickInsert c true x i).1 l
    rw [this]
    exact ⟨rfl, hi⟩
  · intro i l x hi hy
    obtain ⟨a1, a2, a3, _⟩ := (C182_submit c x i hi.1).2 fun e he => (hy e.1 (kinv_mem hi e he)).1
    have hnot : ∀ e ∈ i, leB c 2 x e.1 = false := by
      intro e he
      rw [Bool.eq_false_iff]
      intro h
      exact (hy e.1 (kinv_mem hi e he)).2 (leB_iff.1 h)
    have h1 : i.filter (fun e => leB c 2 x e.1) = [] := by
      rw [List.filter_eq_nil_iff]
      intro e he
      rw [hnot e he]; simp
    have h2 : i.filter (fun e => !leB c 2 x e.1) = i := by
      rw [List.filter_eq_self]
      intro e he
      rw [hnot e he]; rfl
    rw [h1] at a1
    rw [h2] at a2
    refine ⟨a1, a3, ?_⟩
    refine a2.trans ?_
    have hlen : i.length = l.length := by rw [hi.2.length_eq]; simp
    rw [hlen, List.zipIdx_append]
    simp only [List.zipIdx_cons, List.zipIdx_nil, Nat.zero_add]
    exact (List.Perm.cons _ hi.2).trans (List.perm_append_comm (l₁ := [(x, l.length)]))

/-- **C183** (nothing dominated).  If no vector dominates an earlier one, the archive on the sorted index keeps
incomparable submitted vectors, one at least as good as each submitted one. -/
theorem C183_no_domination (c : V → Nat → Int) (xs : List V) (hx : NoDom c 2 xs) :
    ∃ i l, archiveAll (quickIndex c) xs ([], []) = some (i, l) ∧ l.Sublist xs ∧ l.Pairwise (Incomp c 2) ∧
    ∀ x ∈ xs, ∃ y ∈ l, Le c 2 y x := by
  obtain ⟨q, _, e⟩ := kinv_run xs hx
  exact ⟨q, _, e, keep_sub c 2 xs, keep_incomp c 2 xs hx, keep_cover c 2 xs⟩

/-- **C183** (the last one dominated).  Incomparable vectors were submitted; a new one dominates just the last of
them.  The archive replaces the last by the new one, but the dominated vector is in the index again, at the
place of the new one. -/
theorem C183_stale (c : V → Nat → Int) (xs : List V) (y : V) (hx : (xs ++ [y]).Pairwise (Incomp c 2)) (x : V)
    (hdom : Le c 2 x y) (hothers : ∀ z ∈ xs, Incomp c 2 z x) (hnot : ¬ Le c 2 y x) :
    ∃ i, archiveAll (quickIndex c) (xs ++ [y] ++ [x]) ([], []) = some (i, xs ++ [x]) ∧ (y, xs.length) ∈ i ∧
      (y, xs.length) ∉ (xs ++ [x]).zipIdx := by
  have hnd : NoDom c 2 (xs ++ [y]) := hx.imp fun h hl => absurd hl h.2
  obtain ⟨i, hi, e⟩ := kinv_run _ hnd
  rw [keep_self c 2 _ hx] at hi e
  rw [archiveAll_append, e]
  have hno : ∀ z ∈ xs ++ [y], ¬ Le c 2 z x := by
    intro z hz
    rcases List.mem_append.1 hz with h | h
    · exact (hothers z h).1
    · rw [List.mem_singleton.1 h]; exact hnot
  obtain ⟨a1, a2, _, _⟩ := (C182_submit c x i hi.1).2 fun e he => hno e.1 (kinv_mem hi e he)
  have hrem : i.filter (fun e => leB c 2 x e.1) = [(y, xs.length)] := by
    have hp : (i.filter fun e => leB c 2 x e.1).Perm ((xs ++ [y]).zipIdx.filter fun e => leB c 2 x e.1) :=
      hi.2.filter _
    rw [List.zipIdx_append, List.filter_append] at hp
    have h1 : xs.zipIdx.filter (fun e => leB c 2 x e.1) = [] := by
      rw [List.filter_eq_nil_iff]
      intro e he h
      have hm : e.1 ∈ xs := (List.mem_zipIdx' he).2 ▸ List.getElem_mem _
      exact (hothers e.1 hm).2 (leB_iff.1 h)
    rw [h1] at hp
    simp only [List.zipIdx_cons, List.zipIdx_nil, List.nil_append, Nat.zero_add] at hp
    rw [List.filter_cons, leB_iff.2 hdom, if_pos rfl, List.filter_nil] at hp
    exact List.perm_singleton.1 hp
  rw [hrem] at a1
  refine ⟨quickUpdate c y xs.length (quickInsert c true x i).1, ?_, ?_, ?_⟩
  · simp [archive, quickIndex, a1, applyModif]
  · unfold quickUpdate
    rw [insertKey_new]
    · simp
    · intro e he
      have := (List.mem_filter.1 he).2
      simpa using this
  · intro h
    have := List.mk_mem_zipIdx_iff_getElem?.1 h
    simp at this
    rw [this] at hnot
    exact hnot (Le.refl' c 2 y)

/-- **C183** (a non-dominated vector is lost).  Four vectors of two objectives: (6,30) is incomparable with all
others, and the archive ends with (3,35) alone. -/
theorem C183_lost :
    (archiveAll (quickIndex co) [[5,50], [4,40], [6,30], [3,35]] ([], [])).map Prod.snd = some [[3,35]] ∧
    ∀ x ∈ [[5,50], [4,40], [3,35]], ¬ Le co 2 x [6,30] := by
  simp only [← leB_iff]
  decide +kernel

/-- **C183** (outside the archive).  Four vectors after which the archive removes at a place it does not have. -/
theorem C183_outside : archiveAll (quickIndex co) [[5,5], [4,4], [6,3], [3,3]] ([], []) = none := by
  decide +kernel

end Paradiseo.QT
