import Verif.Lemmas.MoeoMatrix
import Verif.Props.Moeo
import Mathlib.Algebra.Order.Group.Defs
import Mathlib.Algebra.BigOperators.Group.List.Basic
/-
Properties C40 (dominance matrix), C41 (indicator-based fitness), C42 (replacements).
-/
namespace Paradiseo.Moeo

/-! ## C40 -/

theorem cnt_card (N : Nat) (f : Nat → Bool) :
    cnt N f = (((Finset.range N).filter fun x => f x = true).card : Int) := by
  unfold cnt
  congr 1
  rw [List.countP_eq_length_filter]
  have hnd : ((List.range N).filter f).Nodup := List.nodup_range.filter _
  rw [← List.toFinset_card_of_nodup hnd]
  congr 1
  ext x; simp

/-- Copies are not singled out: whatever was left by earlier uses, the matrix is the dominance relation
on the concatenated populations, the counts are the numbers of dominated individuals and the ranks the
numbers of dominating ones. -/
theorem C40_matrix {V : Type} (cmp : V → V → Bool) (hasym : ∀ u v, cmp u v = true → cmp v u = false)
    (eqv : V → V → Bool) (ov : Nat → V) (N : Nat) (cs : List Nat) :
    ∃ s, dmRun (fun p q => cmp (ov q) (ov p)) (fun p q => eqv (ov p) (ov q)) false N cs = some s ∧
      (∀ a < N, ∀ b < N, s.m a b = cmp (ov b) (ov a)) ∧
      (∀ a < N, s.count a = ((Finset.range N).filter fun b => cmp (ov b) (ov a) = true).card) ∧
      (∀ b < N, s.rank b = ((Finset.range N).filter fun a => cmp (ov b) (ov a) = true).card) := by
  have h := pairs_inv (dom := fun p q => cmp (ov q) (ov p)) (eqv := fun p q => eqv (ov p) (ov q))
    (nocopy := false) (N := N) (cs := cs) (fun p q hh => hasym _ _ hh)
  have hm : ∀ a < N, ∀ b < N, (dmPairs (fun p q => cmp (ov q) (ov p)) (fun p q => eqv (ov p) (ov q))
      false N cs).m a b = cmp (ov b) (ov a) := by
    intro a ha b hb
    rw [h.m]
    simp only [mem_dmList]
    rcases Nat.lt_trichotomy a b with hab | hab | hab
    · simp [hab, hb]
    · subst hab
      have : cmp (ov a) (ov a) = false := by
        by_contra hc
        have := hasym _ _ (by simpa using hc)
        simp [this] at hc
      simp [this]
    · simp [hab, ha]
  refine ⟨_, by simp only [dmRun, Bool.false_eq_true, if_false], hm, ?_, ?_⟩
  · intro a ha
    rw [h.count a ha, cnt_congr (hm a ha), cnt_card]
  · intro b hb
    rw [h.rank b hb, cnt_congr (fun a ha => hm a ha b hb), cnt_card]

/-- The count-ranking fitness is the opposite of the sum, over the dominators, of the number of
individuals each of them dominates. -/
theorem C40_count_ranking {V : Type} (cmp : V → V → Bool)
    (hasym : ∀ u v, cmp u v = true → cmp v u = false) (eqv : V → V → Bool) (ov : Nat → V) (N : Nat)
    (cs : List Nat) :
    ∃ s, dmRun (fun p q => cmp (ov q) (ov p)) (fun p q => eqv (ov p) (ov q)) false N cs = some s ∧
      ∀ i < N, countRanking s N i = -(∑ k ∈ (Finset.range N).filter (fun k => cmp (ov i) (ov k) = true),
        (((Finset.range N).filter fun b => cmp (ov b) (ov k) = true).card : Int)) := by
  obtain ⟨s, h1, h2, h3, _⟩ := C40_matrix cmp hasym eqv ov N cs
  refine ⟨s, h1, fun i hi => ?_⟩
  unfold countRanking
  congr 1
  have : ∀ n ≤ N, (List.range n).foldl (fun res k => if s.m k i then res + s.count k else res) 0 =
      ∑ k ∈ (Finset.range n).filter (fun k => cmp (ov i) (ov k) = true),
        (((Finset.range N).filter fun b => cmp (ov b) (ov k) = true).card : Int) := by
    intro n hn
    induction n with
    | zero => simp
    | succ n ih =>
      rw [List.range_succ, List.foldl_append, ih (by omega), Finset.range_add_one, Finset.filter_insert]
      simp only [List.foldl_cons, List.foldl_nil, h2 n (by omega) i hi, h3 n (by omega)]
      by_cases hc : cmp (ov i) (ov n) = true
      · rw [if_pos hc, if_pos hc, Finset.sum_insert (by simp)]; ring
      · rw [if_neg hc, if_neg hc]
  exact this N le_rfl

/-- Positions that hold a vector already seen before them, plus the marks `cs` left by earlier uses. -/
def IsCopy {V : Type} (ov : Nat → V) (N : Nat) (cs : List Nat) (c : Nat) : Prop :=
  c ∈ cs ∨ c < N ∧ ∃ k < c, ov k = ov c

/-- Copies singled out. If the old marks are within range: non-copies get the numbers of *non-copies*
they dominate (plus all the copies) and are dominated by; a copy dominates nothing and is dominated by
every non-copy. -/
theorem C40_nocopy {V : Type} [DecidableEq V] (cmp : V → V → Bool)
    (hasym : ∀ u v, cmp u v = true → cmp v u = false) (ov : Nat → V) (N : Nat) (cs : List Nat)
    (hnd : cs.Nodup) (hcs : ∀ c ∈ cs, c < N) :
    ∃ s, dmRun (fun p q => cmp (ov q) (ov p)) (fun p q => decide (ov p = ov q)) true N cs = some s ∧
      (∀ c, c ∈ s.copySet ↔ IsCopy ov N cs c) ∧ s.copySet.Nodup ∧
      (∀ a < N, ∀ b < N, s.m a b = true ↔
        ¬ IsCopy ov N cs a ∧ (IsCopy ov N cs b ∨ cmp (ov b) (ov a) = true)) ∧
      (∀ a < N, ¬ IsCopy ov N cs a →
        s.count a = ((Finset.range N).filter fun b => b ∈ s.copySet ∨ cmp (ov b) (ov a) = true).card ∧
        s.rank a = ((Finset.range N).filter fun b => b ∉ s.copySet ∧ cmp (ov a) (ov b) = true).card) ∧
      (∀ c, IsCopy ov N cs c → s.count c = 0 ∧ s.rank c = (N : Int) - s.copySet.length) := by
  have hirr : ∀ u, cmp u u = false := by
    intro u
    by_contra hc
    have := hasym _ _ (by simpa using hc)
    simp [this] at hc
  have h := pairs_inv (dom := fun p q => cmp (ov q) (ov p)) (eqv := fun p q => decide (ov p = ov q))
    (nocopy := true) (N := N) (cs := cs) (fun p q hh => hasym _ _ hh)
  set s0 := dmPairs (fun p q => cmp (ov q) (ov p)) (fun p q => decide (ov p = ov q)) true N cs with hs0
  have hm0 : ∀ a < N, ∀ b < N, s0.m a b = cmp (ov b) (ov a) := by
    intro a ha b hb
    rw [h.m]
    simp only [mem_dmList]
    rcases Nat.lt_trichotomy a b with hab | hab | hab
    · simp [hab, hb]
    · subst hab; simp [hirr]
    · simp [hab, ha]
  have hcopy : ∀ c, c ∈ s0.copySet ↔ IsCopy ov N cs c := by
    intro c
    rw [h.copies]
    unfold IsCopy
    refine or_congr Iff.rfl ?_
    simp only [true_and, mem_dmList, decide_eq_true_eq]
    constructor
    · rintro ⟨k, ⟨h1, h2⟩, _, _, h3⟩; exact ⟨h2, k, h1, h3⟩
    · rintro ⟨h2, k, h1, h3⟩; exact ⟨k, ⟨h1, h2⟩, by rw [h3]; exact hirr _, by rw [h3]; exact hirr _, h3⟩
  have hlt : ∀ c ∈ s0.copySet, c < N := by
    intro c hc
    rcases (hcopy c).1 hc with hc | hc
    · exact hcs c hc
    · exact hc.1
  obtain ⟨a1, a2, a3, a4⟩ := marks_spec N s0.copySet hlt s0 h.count
  set s1 := s0.copySet.foldl (dmMark N) s0 with hs1
  have hlt1 : ∀ c ∈ s1.copySet, c < N := by rw [a4]; exact hlt
  obtain ⟨b1, b2, b3, b4⟩ := unmarks_spec N s1.copySet hlt1 s1 (fun b => b ∉ s0.copySet) (by
    intro b hb hg
    rw [a3, h.rank b hb]
    apply cnt_congr
    intro x hx
    rw [a1]; simp [hg])
  set s2 := s1.copySet.foldl (dmUnmark N) s1 with hs2
  have e2 : s2.copySet = s0.copySet := by rw [b4, a4]
  have hfin := final_spec ((N : Int) - s0.copySet.length) s2.copySet s2
  -- the last loop reads `copySet.length`, which it does not change
  have hloop : ∀ (C : List Nat) (s : DomMatrix), s.copySet.length = s0.copySet.length →
      C.foldl (fun s c => { s with count := put s.count c 0, rank := put s.rank c ((N : Int) - s.copySet.length) }) s
      = C.foldl (fun s c => { s with count := put s.count c 0, rank := put s.rank c ((N : Int) - s0.copySet.length) }) s := by
    intro C
    induction C with
    | nil => intro s _; rfl
    | cons c C ih =>
      intro s hs
      rw [List.foldl_cons, List.foldl_cons, hs]
      exact ih _ hs
  rw [← hloop s2.copySet s2 (by rw [e2])] at hfin
  obtain ⟨c1, c2, c3, c4⟩ := hfin
  have hrun : dmRun (fun p q => cmp (ov q) (ov p)) (fun p q => decide (ov p = ov q)) true N cs =
      some (s2.copySet.foldl (fun s c => { s with count := put s.count c 0, rank := put s.rank c ((N : Int) - s.copySet.length) }) s2) := by
    unfold dmRun
    rw [if_pos rfl, if_pos]
    rw [List.all_eq_true]
    intro c hc
    exact decide_eq_true (hlt c hc)
  set s3 := s2.copySet.foldl (fun s c => { s with count := put s.count c 0, rank := put s.rank c ((N : Int) - s.copySet.length) }) s2 with hs3
  have e3 : s3.copySet = s0.copySet := by rw [c2, e2]
  have hm3 : ∀ a < N, ∀ b < N, s3.m a b = true ↔
        ¬ IsCopy ov N cs a ∧ (IsCopy ov N cs b ∨ cmp (ov b) (ov a) = true) := by
    intro a ha b hb
    rw [c1, b1, a4, a1, hm0 a ha b hb, ← hcopy, ← hcopy]
    by_cases hca : a ∈ s0.copySet <;> by_cases hcb : b ∈ s0.copySet <;> simp [hca, hcb, ha, hb]
  refine ⟨s3, hrun, ?_, by rw [e3]; exact h.nodup hnd, hm3, ?_, ?_⟩
  · intro c; rw [e3]; exact hcopy c
  · intro a ha hna
    have hna' : a ∉ s0.copySet := fun hh => hna ((hcopy a).1 hh)
    constructor
    · rw [c3, e2, if_neg hna', b3, a2 a ha, cnt_card, e3]
      congr 2
      ext b
      simp only [Finset.mem_filter, Finset.mem_range]
      refine and_congr_right fun hb => ?_
      rw [a1, hm0 a ha b hb]
      by_cases hcb : b ∈ s0.copySet <;> simp [hcb, ha]
    · rw [c4, e2, if_neg hna', b2 a ha hna', cnt_card, e3]
      congr 2
      ext b
      simp only [Finset.mem_filter, Finset.mem_range]
      refine and_congr_right fun hb => ?_
      rw [b1, a4, a1, hm0 b hb a ha]
      by_cases hcb : b ∈ s0.copySet <;> simp [hcb, hna', ha]
  · intro c hc
    have hc' := (hcopy c).2 hc
    rw [c3, c4, e2, if_pos hc', if_pos hc', e3]
    exact ⟨rfl, rfl⟩

example : ((dmRun (fun p q => paretoCmp (⟨![true, true], 0⟩ : Traits 2 ℚ)
      ((fun i => (![![1, 1], ![2, 2], ![1, 1], ![0, 5]] : Fin 4 → Fin 2 → ℚ) (Fin.ofNat 4 i)) q)
      ((fun i => (![![1, 1], ![2, 2], ![1, 1], ![0, 5]] : Fin 4 → Fin 2 → ℚ) (Fin.ofNat 4 i)) p))
    (fun p q => decide ((![![1, 1], ![2, 2], ![1, 1], ![0, 5]] : Fin 4 → Fin 2 → ℚ) (Fin.ofNat 4 p) =
      (![![1, 1], ![2, 2], ![1, 1], ![0, 5]] : Fin 4 → Fin 2 → ℚ) (Fin.ofNat 4 q))) true 4 []).map
    fun s => ([s.count 0, s.count 1, s.count 2, s.count 3], [s.rank 0, s.rank 1, s.rank 2, s.rank 3])) =
    some ([2, 1, 0, 1], [0, 1, 3, 0]) := by decide +kernel

/-- Marks are never cleared. A second use of the same object on a population without any repeated
vector still treats the old position as a copy (it gets count 0, whatever it dominates), and on a
smaller population the matrix is accessed out of range. -/
theorem C40_stale {V : Type} [DecidableEq V] (cmp : V → V → Bool)
    (hasym : ∀ u v, cmp u v = true → cmp v u = false) (ov : Nat → V) (N c : Nat) :
    (c < N → ∃ s, dmRun (fun p q => cmp (ov q) (ov p)) (fun p q => decide (ov p = ov q)) true N [c] = some s ∧
      s.count c = 0) ∧
    (N ≤ c → dmRun (fun p q => cmp (ov q) (ov p)) (fun p q => decide (ov p = ov q)) true N [c] = none) := by
  constructor
  · intro hc
    obtain ⟨s, h1, _, _, _, _, h6⟩ := C40_nocopy cmp hasym ov N [c] (by simp) (by simpa using hc)
    exact ⟨s, h1, (h6 c (Or.inl (by simp))).1⟩
  · intro hc
    have h := pairs_inv (dom := fun p q => cmp (ov q) (ov p)) (eqv := fun p q => decide (ov p = ov q))
      (nocopy := true) (N := N) (cs := [c]) (fun p q hh => hasym _ _ hh)
    unfold dmRun
    rw [if_pos rfl, if_neg]
    rw [List.all_eq_true]
    intro hall
    have := hall c ((h.copies c).2 (Or.inl (by simp)))
    simp at this; omega

/-- A first use on `(1,1), (1,1)` then a second on `(2,2), (1,1)`: the vector `(1,1)`, which dominates the
other, has count 0 and rank 1. -/
example : let T : Traits 2 ℚ := ⟨![true, true], 0⟩
    let run := fun (l : Fin 2 → Fin 2 → ℚ) (cs : List Nat) =>
      dmRun (fun p q => paretoCmp T (l (Fin.ofNat 2 q)) (l (Fin.ofNat 2 p)))
        (fun p q => decide (l (Fin.ofNat 2 p) = l (Fin.ofNat 2 q))) true 2 cs
    ((run ![![1, 1], ![1, 1]] []).bind fun s => (run ![![2, 2], ![1, 1]] s.copySet).map
      fun s => (s.count 1, s.rank 1)) = some (0, 1) := by decide +kernel

/-! ## C41 -/

section Ibea
variable {V F : Type} [AddCommGroup F]

/-- Spec: each fitness is the opposite of the sum, over the *other* individuals, of `e other self`. -/
def Exact (e : V → V → F) (pop : List (MInd V F)) : Prop :=
  ∀ (i : Nat) (x : MInd V F), pop[i]? = some x →
    x.fit = -(((pop.eraseIdx i).map fun y => e y.ov x.ov).sum)

theorem perm_cons_index {α : Type} {l rest : List α} {x : α} (h : l.Perm (x :: rest)) :
    ∃ i, l[i]? = some x ∧ (l.eraseIdx i).Perm rest := by
  obtain ⟨i, hi⟩ := List.mem_iff_getElem?.1 (h.mem_iff.2 (List.mem_cons_self))
  obtain ⟨hl, rfl⟩ := List.getElem?_eq_some_iff.1 hi
  refine ⟨i, hi, ?_⟩
  have := (List.getElem_cons_eraseIdx_perm hl).trans h
  exact this.cons_inv

theorem Exact.perm {e : V → V → F} {pop : List (MInd V F)} (h : Exact e pop) {x : MInd V F}
    {rest : List (MInd V F)} (hp : pop.Perm (x :: rest)) :
    x.fit = -((rest.map fun y => e y.ov x.ov).sum) := by
  obtain ⟨i, h1, h2⟩ := perm_cons_index hp
  rw [h i x h1, (h2.map _).sum_eq]

theorem exact_of_perm {e : V → V → F} {pop : List (MInd V F)}
    (h : ∀ x rest, pop.Perm (x :: rest) → x.fit = -((rest.map fun y => e y.ov x.ov).sum)) :
    Exact e pop := by
  intro i x hx
  obtain ⟨hl, rfl⟩ := List.getElem?_eq_some_iff.1 hx
  exact h _ _ (List.getElem_cons_eraseIdx_perm hl).symm

private theorem fold_skip (e : V → V → F) (y : MInd V F) (l : List (MInd V F)) (n idx : Nat) (acc : F)
    (h : n ≤ idx) :
    (l.zipIdx n).foldl (fun result x => if x.2 ≠ idx then
      match some y with
      | some y => result - e x.1.ov y.ov
      | none => result
     else result) acc = acc - ((l.eraseIdx (idx - n)).map fun z => e z.ov y.ov).sum := by
  induction l generalizing n acc with
  | nil => simp
  | cons a l ih =>
    rw [List.zipIdx_cons, List.foldl_cons]
    by_cases hn : n = idx
    · subst hn
      simp only [ne_eq, not_true_eq_false, if_false, Nat.sub_self, List.eraseIdx_cons_zero]
      -- all further indices differ
      clear ih h
      have : ∀ (l : List (MInd V F)) (m : Nat) (acc : F), n < m →
          (l.zipIdx m).foldl (fun result x => if ¬ x.2 = n then
            result - e x.1.ov y.ov else result) acc = acc - (l.map fun z => e z.ov y.ov).sum := by
        intro l
        induction l with
        | nil => intros; simp
        | cons b l ih =>
          intro m acc hm
          rw [List.zipIdx_cons, List.foldl_cons]
          simp only [show ¬ m = n by omega, not_false_iff, if_true]
          rw [ih (m + 1) _ (by omega), List.map_cons, List.sum_cons]
          abel
      exact this l (n + 1) acc (by omega)
    · simp only [ne_eq, hn, not_false_iff, if_true]
      have e1 : idx - n = (idx - (n + 1)) + 1 := by omega
      have := ih (n + 1) (acc - e a.ov y.ov) (by omega)
      simp only [ne_eq] at this
      rw [this, e1, List.eraseIdx_cons_succ, List.map_cons, List.sum_cons]
      abel

/-- The initial assignment is exact. -/
theorem C41_assign (e : V → V → F) (pop : List (MInd V F)) :
    Exact e (ibeaAssign e pop) ∧ (ibeaAssign e pop).map MInd.ov = pop.map MInd.ov := by
  have hov : (ibeaAssign e pop).map MInd.ov = pop.map MInd.ov := by
    unfold ibeaAssign
    rw [List.map_map]
    have : (MInd.ov ∘ fun x : MInd V F × Nat => { x.1 with fit := ibeaFitness e pop x.2 }) =
        MInd.ov ∘ Prod.fst := rfl
    rw [this, ← List.map_map, List.zipIdx_map_fst]
  refine ⟨?_, hov⟩
  intro i x hx
  unfold ibeaAssign at hx
  rw [List.getElem?_map, List.getElem?_zipIdx] at hx
  cases hy : pop[i]? with
  | none => rw [hy] at hx; simp at hx
  | some y =>
    rw [hy] at hx
    simp only [Option.map_some, Option.some.injEq, Nat.zero_add] at hx
    subst hx
    simp only
    unfold ibeaFitness
    rw [hy, fold_skip e y pop 0 i 0 (Nat.zero_le _), zero_sub, Nat.sub_zero]
    congr 1
    have h1 : ∀ l : List (MInd V F), (l.map fun z => e z.ov y.ov) = (l.map MInd.ov).map fun z => e z y.ov := by
      intro l; rw [List.map_map]; rfl
    simp only [h1, ← List.eraseIdx_map, hov]

/-- Deleting any individual and updating keeps the fitness values exact. -/
theorem C41_delete (e : V → V → F) (pop pop' : List (MInd V F)) (w : MInd V F) (h : Exact e pop)
    (hp : pop.Perm (w :: pop')) : Exact e (ibeaDelete e w.ov pop') := by
  intro i x hx
  unfold ibeaDelete at hx ⊢
  rw [List.getElem?_map] at hx
  cases hy : pop'[i]? with
  | none => rw [hy] at hx; simp at hx
  | some y =>
    rw [hy] at hx
    simp only [Option.map_some, Option.some.injEq] at hx
    subst hx
    obtain ⟨hl, rfl⟩ := List.getElem?_eq_some_iff.1 hy
    have h1 : pop.Perm (pop'[i] :: w :: pop'.eraseIdx i) :=
      hp.trans (((List.getElem_cons_eraseIdx_perm hl).symm.cons w).trans (List.Perm.swap _ _ _))
    have h2 := h.perm h1
    simp only [List.map_cons, List.sum_cons] at h2
    simp only [h2, List.eraseIdx_map, List.map_map, Function.comp_def]
    abel

/-- Adding an individual and updating keeps them exact. -/
theorem C41_add (e : V → V → F) (pop : List (MInd V F)) (v : V) (h : Exact e pop) :
    Exact e ((ibeaAdd e v pop).1 ++ [⟨v, (ibeaAdd e v pop).2⟩]) := by
  have hfold : ∀ (l : List (MInd V F)) (acc : F), l.foldl (fun result x => result - e x.ov v) acc =
      acc - (l.map fun x => e x.ov v).sum := by
    intro l
    induction l with
    | nil => intro acc; simp
    | cons a l ih => intro acc; rw [List.foldl_cons, ih, List.map_cons, List.sum_cons]; abel
  have hsum : ∀ (l : List (MInd V F)) (u : V), ((l.map fun x => { x with fit := x.fit - e v x.ov }).map
      fun y => e y.ov u) = l.map fun y => e y.ov u := by
    intro l u; rw [List.map_map]; rfl
  intro i x hx
  unfold ibeaAdd at hx ⊢
  simp only at hx ⊢
  by_cases hi : i < pop.length
  · rw [List.getElem?_append_left (by simpa using hi), List.getElem?_map, List.getElem?_eq_getElem hi] at hx
    simp only [Option.map_some, Option.some.injEq] at hx
    subst hx
    have := h i _ (List.getElem?_eq_getElem hi)
    rw [List.eraseIdx_append_of_lt_length (by simpa using hi), List.eraseIdx_map, List.map_append, hsum,
      List.sum_append]
    simp only [this, List.map_cons, List.map_nil, List.sum_cons, List.sum_nil]
    abel
  · have hlen : i = pop.length := by
      have := (List.getElem?_eq_some_iff.1 hx).1
      simp at this; omega
    subst hlen
    rw [List.getElem?_append_right (by simp)] at hx
    simp only [List.length_map, Nat.sub_self, List.getElem?_cons_zero, Option.some.injEq] at hx
    subst hx
    rw [List.eraseIdx_append_of_length_le (by simp)]
    simp [hsum, hfold]

end Ibea

/-! ### The replacement by successive deletions -/

/-- Spec of indicator-based environmental selection: from the vectors `A`, remove one whose fitness,
recomputed from scratch on `A`, is smallest. -/
def WorstRemoved {V F : Type} [AddCommGroup F] [LE F] (e : V → V → F) (A A' : List V) : Prop :=
  ∃ w, A.Perm (w :: A') ∧
    ∀ y B, A.Perm (y :: B) → -((A'.map fun z => e z w).sum) ≤ -((B.map fun z => e z y).sum)

/-- `pick` returns the position of an individual of smallest fitness, as `std::min_element` does with
the fitness comparator. -/
def PicksWorst {V F : Type} [LE F] (pick : List (MInd V F) → Nat) : Prop :=
  ∀ l : List (MInd V F), l ≠ [] → ∃ w, l[pick l]? = some w ∧ ∀ y ∈ l, w.fit ≤ y.fit

theorem swap_back_perm {X : Type} {l : List X} {i : Nat} {w b : X} (h1 : l[i]? = some w)
    (h2 : l.getLast? = some b) : l.Perm (w :: (l.set i b).dropLast) := by
  obtain ⟨hl, rfl⟩ := List.getElem?_eq_some_iff.1 h1
  obtain ⟨l', rfl⟩ := List.getLast?_eq_some_iff.1 h2
  by_cases hi : i < l'.length
  · rw [List.set_append_left _ _ hi, List.dropLast_concat, List.getElem_append_left hi]
    have h3 : l'.Perm (l'[i] :: l'.eraseIdx i) := (List.getElem_cons_eraseIdx_perm hi).symm
    have h4 : (l'.set i b).Perm (b :: l'.eraseIdx i) := by
      have := (List.getElem_cons_eraseIdx_perm (l := l'.set i b) (n := i) (by simpa using hi)).symm
      simpa [List.eraseIdx_set_eq] using this
    calc (l' ++ [b]).Perm (b :: l') := List.perm_append_singleton _ _
      _ |>.Perm (b :: l'[i] :: l'.eraseIdx i) := h3.cons b
      _ |>.Perm (l'[i] :: b :: l'.eraseIdx i) := List.Perm.swap _ _ _
      _ |>.Perm (l'[i] :: l'.set i b) := h4.symm.cons _
  · have hie : i = l'.length := by simp at hl; omega
    subst hie
    simp [List.set_append_right, List.perm_append_singleton]

/-- Environmental replacement with the indicator-based fitness: the parents afterwards are as many as
before, are obtained from parents and offspring by repeatedly removing an individual whose freshly
recomputed fitness is smallest, and carry exact fitness values. -/
theorem C41_environmental {V F : Type} [AddCommGroup F] [LinearOrder F] (e : V → V → F)
    (pick : List (MInd V F) → Nat) (hpick : PicksWorst pick) (parents offspring : List (MInd V F)) :
    let r := envReplace MInd.ov (ibeaAssign e) pick (ibeaDelete e) parents offspring
    r.1.length = parents.length ∧ r.2 = [] ∧ Exact e r.1 ∧
    Relation.ReflTransGen (WorstRemoved e) ((parents ++ offspring).map MInd.ov) (r.1.map MInd.ov) := by
  have key : ∀ (k : Nat) (sz : Nat) (pop : List (MInd V F)), pop.length = sz + k → Exact e pop →
      (envLoop MInd.ov pick (ibeaDelete e) sz pop (k + 1)).length = sz ∧
      Exact e (envLoop MInd.ov pick (ibeaDelete e) sz pop (k + 1)) ∧
      Relation.ReflTransGen (WorstRemoved e) (pop.map MInd.ov)
        ((envLoop MInd.ov pick (ibeaDelete e) sz pop (k + 1)).map MInd.ov) := by
    intro k
    induction k with
    | zero =>
      intro sz pop hl he
      rw [envLoop, if_neg (by omega)]
      exact ⟨by simpa using hl, he, .refl⟩
    | succ k ih =>
      intro sz pop hl he
      have hne : pop ≠ [] := by rintro rfl; simp at hl
      obtain ⟨w, hw, hmin⟩ := hpick pop hne
      have hb : pop.getLast? = some (pop.getLast hne) := List.getLast?_eq_some_getLast hne
      have hperm := swap_back_perm hw hb
      unfold envLoop
      rw [if_pos (by omega), hw, hb]
      simp only
      set pop' := (pop.set (pick pop) (pop.getLast hne)).dropLast with hpop'
      have hex := C41_delete e pop pop' w he hperm
      have hlen : (ibeaDelete e w.ov pop').length = sz + k := by
        have := hperm.length_eq
        simp only [List.length_cons] at this
        simp [ibeaDelete]; omega
      obtain ⟨i1, i2, i3⟩ := ih sz _ hlen hex
      refine ⟨i1, i2, .head ?_ i3⟩
      have hov : (ibeaDelete e w.ov pop').map MInd.ov = pop'.map MInd.ov := by
        unfold ibeaDelete; rw [List.map_map]; rfl
      rw [hov]
      have hfit : ∀ x rest, pop.Perm (x :: rest) →
          x.fit = -(((rest.map MInd.ov).map fun z => e z x.ov).sum) := by
        intro x rest hp
        rw [he.perm hp, List.map_map]; rfl
      refine ⟨w.ov, hperm.map MInd.ov, ?_⟩
      intro y B hB
      -- `y` is the vector of some individual of `pop`
      obtain ⟨j, hj, hjB⟩ := perm_cons_index hB
      rw [List.getElem?_map] at hj
      cases hx : pop[j]? with
      | none => rw [hx] at hj; simp at hj
      | some x =>
        rw [hx] at hj
        simp only [Option.map_some, Option.some.injEq] at hj
        subst hj
        obtain ⟨hjl, hxe⟩ := List.getElem?_eq_some_iff.1 hx
        have hpx : pop.Perm (x :: pop.eraseIdx j) := by
          rw [← hxe]; exact (List.getElem_cons_eraseIdx_perm hjl).symm
        rw [← hfit w pop' hperm]
        have : -((B.map fun z => e z x.ov).sum) = x.fit := by
          rw [hfit x _ hpx, ← List.eraseIdx_map, (hjB.map _).sum_eq]
        rw [this]
        exact hmin x (List.mem_of_getElem? hx)
  intro r
  obtain ⟨h1, h2⟩ := C41_assign e (parents ++ offspring)
  have hlen : (ibeaAssign e (parents ++ offspring)).length = parents.length + offspring.length := by
    simp [ibeaAssign]
  obtain ⟨k1, k2, k3⟩ := key offspring.length parents.length _ hlen h1
  exact ⟨k1, rfl, k2, by rw [← h2]; exact k3⟩

/-- A choice function with the required property exists, so the theorem is not vacuous. -/
example {V F : Type} [LinearOrder F] : ∃ pick : List (MInd V F) → Nat, PicksWorst pick := by
  classical
  have : ∀ l : List (MInd V F), ∃ i : Nat, l ≠ [] → ∃ w, l[i]? = some w ∧ ∀ y ∈ l, w.fit ≤ y.fit := by
    intro l
    induction l with
    | nil => exact ⟨0, by simp⟩
    | cons a l ih =>
      by_cases hl : l = []
      · subst hl; exact ⟨0, fun _ => ⟨a, by simp⟩⟩
      · obtain ⟨i, hi⟩ := ih
        obtain ⟨w, h1, h2⟩ := hi hl
        rcases le_total a.fit w.fit with h | h
        · exact ⟨0, fun _ => ⟨a, rfl, by
            intro y hy
            rcases List.mem_cons.1 hy with rfl | hy
            · exact le_rfl
            · exact h.trans (h2 y hy)⟩⟩
        · exact ⟨i + 1, fun _ => ⟨w, by simpa using h1, by
            intro y hy
            rcases List.mem_cons.1 hy with rfl | hy
            · exact h
            · exact h2 y hy⟩⟩
  choose f hf using this
  exact ⟨f, hf⟩

/-! ## C42 -/

/-- Spec: `kept` are the `sz` best of `all`; nobody kept is worse than somebody left out. -/
def KeepsBest {X : Type} (worse : X → X → Bool) (sz : Nat) (all kept : List X) : Prop :=
  kept.length = sz ∧ ∃ dropped, (kept ++ dropped).Perm all ∧
    ∀ a ∈ kept, ∀ b ∈ dropped, worse a b = false

/-- Elitist replacement: with any sort for the reversed comparator, the parents afterwards are the best
of parents and offspring (after fitness and diversity assignment), as many as before; the offspring
population is emptied. -/
theorem C42_elitist {X : Type} (worse : X → X → Bool) (assign sort : List X → List X)
    (hassign : ∀ l, (assign l).length = l.length) (hperm : ∀ l, (sort l).Perm l)
    (hsort : ∀ l, (sort l).Pairwise fun a b => worse a b = false) (parents offspring : List X) :
    let r := elitistReplace assign sort parents offspring
    KeepsBest worse parents.length (assign (parents ++ offspring)) r.1 ∧ r.2 = [] := by
  refine ⟨⟨?_, (sort (assign (parents ++ offspring))).drop parents.length, ?_, ?_⟩, rfl⟩
  · simp [elitistReplace, (hperm _).length_eq, hassign]
  · simp only [elitistReplace, List.take_append_drop]; exact hperm _
  · intro a ha b hb
    have := hsort (assign (parents ++ offspring))
    rw [← List.take_append_drop parents.length (sort (assign (parents ++ offspring)))] at this
    exact (List.pairwise_append.1 this).2.2 a ha b hb

/-- Merge sort with the fitness-then-diversity comparator is such a sort. -/
example : let sort := fun l : List (ℚ × ℚ) => l.mergeSort (fun a b => !ftdCmp a b)
    (∀ l, (sort l).Perm l) ∧ ∀ l, (sort l).Pairwise fun a b => ftdCmp a b = false := by
  refine ⟨fun l => List.mergeSort_perm _ _, fun l => ?_⟩
  have := List.pairwise_mergeSort (le := fun a b : ℚ × ℚ => !ftdCmp a b) ?_ ?_ l
  · exact this.imp (by simp)
  · intro a b c h1 h2
    simp only [Bool.not_eq_true', ftdCmp] at *
    split_ifs at * <;> simp only [decide_eq_false_iff_not, not_lt] at * <;> grind
  · intro a b
    simp only [ftdCmp, Bool.or_eq_true, Bool.not_eq_true']
    split_ifs <;> simp only [decide_eq_false_iff_not, not_lt] at * <;> grind

/-- Environmental replacement when deletions do not change the fitness of the others: it also keeps the
best. -/
theorem C42_environmental {X V : Type} (ov : X → V) (worse : X → X → Bool)
    (assign : List X → List X)
    (hassign : ∀ l, (assign l).length = l.length) (pick : List X → Nat)
    (hpick : ∀ l : List X, l ≠ [] → ∃ w, l[pick l]? = some w ∧ ∀ y ∈ l, worse y w = false)
    (parents offspring : List X) :
    let r := envReplace ov assign pick (fun _ l => l) parents offspring
    KeepsBest worse parents.length (assign (parents ++ offspring)) r.1 ∧ r.2 = [] := by
  have key : ∀ (k sz : Nat) (pop : List X), pop.length = sz + k →
      KeepsBest worse sz pop (envLoop ov pick (fun _ l => l) sz pop (k + 1)) := by
    intro k
    induction k with
    | zero =>
      intro sz pop hl
      rw [envLoop, if_neg (by omega)]
      exact ⟨by simpa using hl, [], by simp, by simp⟩
    | succ k ih =>
      intro sz pop hl
      have hne : pop ≠ [] := by rintro rfl; simp at hl
      obtain ⟨w, hw, hmin⟩ := hpick pop hne
      have hb : pop.getLast? = some (pop.getLast hne) := List.getLast?_eq_some_getLast hne
      have hperm := swap_back_perm hw hb
      unfold envLoop
      rw [if_pos (by omega), hw, hb]
      simp only
      obtain ⟨h1, dropped, h2, h3⟩ := ih sz ((pop.set (pick pop) (pop.getLast hne)).dropLast) (by
        have := hperm.length_eq
        simp only [List.length_cons] at this
        omega)
      refine ⟨h1, w :: dropped, ?_, ?_⟩
      · exact (List.perm_middle.trans (h2.cons w)).trans hperm.symm
      · intro a ha b hb
        rcases List.mem_cons.1 hb with rfl | hb
        · apply hmin
          have : a ∈ (pop.set (pick pop) (pop.getLast hne)).dropLast := h2.mem_iff.1 (List.mem_append_left _ ha)
          exact hperm.mem_iff.2 (List.mem_cons_of_mem _ this)
        · exact h3 a ha b hb
  exact ⟨key _ _ _ (by rw [hassign, List.length_append]), rfl⟩

end Paradiseo.Moeo
