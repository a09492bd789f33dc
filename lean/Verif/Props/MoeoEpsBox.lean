import Verif.Lemmas.MoeoEpsBox
/-
C160: the archive of hyperboxes. The specification speaks of Pareto dominance (`Dominates`, written
without the comparators in Props/Moeo.lean), of the best and the worst value of the members in each
objective, and of being worse by less than a fraction of the range.
-/
namespace Paradiseo.Moeo.Eps

variable {n : Nat} {F : Type} [Field F] [LinearOrder F] [FloorRing F] [IsStrictOrderedRing F]

/-- No member dominates another one. -/
def Antichain (d : Fin n → Bool) (l : List (Fin n → F)) : Prop :=
  l.Pairwise fun a b => ¬ Dominates d a b ∧ ¬ Dominates d b a

omit [FloorRing F] [IsStrictOrderedRing F] in
theorem antichain_of_perm (d : Fin n → Bool) (l m r : List (Fin n → F)) (h : (m ++ r).Perm l)
    (hl : Antichain d l) : Antichain d m := by
  have : (m ++ r).Pairwise fun a b => ¬ Dominates d a b ∧ ¬ Dominates d b a :=
    h.symm.pairwise hl (fun h => ⟨h.2, h.1⟩)
  exact (List.pairwise_append.1 this).1

/-- One call, taken apart: what became of the members. -/
theorem step_cases (T : Traits n F) (eps : Fin n → F)
    (near : (Fin n → Option Int) → (Fin n → F) → (Fin n → F) → Bool) (s : St n F) (p : Fin n → F)
    (hne : s.mem ≠ []) :
    (changeBounds T s p = (-1, s) ∧ step T eps near s p = (false, s)) ∨
    (0 ≤ (changeBounds T s p).1 ∧ ∃ m removed, (m ++ removed).Perm s.mem ∧
      (∀ a ∈ removed, boxCmp T (box T eps (changeBounds T s p).2 a) (box T eps (changeBounds T s p).2 p) = true ∨
        (sameBox (box T eps (changeBounds T s p).2 p) (box T eps (changeBounds T s p).2 a) = true ∧
          paretoCmp T p a = false)) ∧
      ((step T eps near s p = (true, recalc T { (changeBounds T s p).2 with mem := m ++ [p] }) ∧
          ∀ a ∈ m, boxCmp T (box T eps (changeBounds T s p).2 a) (box T eps (changeBounds T s p).2 p) = false ∧
            boxCmp T (box T eps (changeBounds T s p).2 p) (box T eps (changeBounds T s p).2 a) = false ∧
            sameBox (box T eps (changeBounds T s p).2 p) (box T eps (changeBounds T s p).2 a) = false) ∨
        (∃ a ∈ m, boxCmp T (box T eps (changeBounds T s p).2 p) (box T eps (changeBounds T s p).2 a) = true ∧
          (step T eps near s p).2 = if (changeBounds T s p).1 = 1 then
              byDeleting T { (changeBounds T s p).2 with mem := m } p
            else { (changeBounds T s p).2 with mem := m }) ∨
        (∃ a ∈ m, sameBox (box T eps (changeBounds T s p).2 p) (box T eps (changeBounds T s p).2 a) = true ∧
          ((paretoCmp T p a = true ∧
              (step T eps near s p).2 = byDeleting T { (changeBounds T s p).2 with mem := m } p) ∨
            ((step T eps near s p).1 = true ∧ near (box T eps (changeBounds T s p).2 p) p a = false ∧
              (step T eps near s p).2 = { (changeBounds T s p).2 with mem := m }))))) := by
  have hlen : s.mem.length ≠ 0 := by simpa using hne
  have hmem : (changeBounds T s p).2.mem = s.mem := by
    rcases changeBounds_spec T s p with h | h | h
    · exact h.2.1
    · rw [h.1]
    · rw [h.1]
  unfold step
  rw [if_neg hlen]
  rcases hcb : changeBounds T s p with ⟨c, s1⟩
  rw [hcb] at hmem
  simp only [] at hmem ⊢
  by_cases hc : c ≥ 0
  · right
    refine ⟨hc, ?_⟩
    rw [if_pos hc]
    obtain ⟨r, h1, h2, h3⟩ := scan_spec T (box T eps s1) (near (box T eps s1 p) p) p s1.mem.length 0
      s1.mem false (by omega) (by intro j hj; omega)
    rcases hsc : scan T (box T eps s1) (near (box T eps s1 p) p) p s1.mem.length 0 s1.mem false with
      ⟨st, m, res⟩
    rw [hsc] at h1 h3
    refine ⟨m, r, by rw [hmem] at h1; exact h1, h2, ?_⟩
    cases st with
    | run => exact Or.inl ⟨rfl, h3⟩
    | boxDominated =>
      obtain ⟨a, ha, hb⟩ := h3
      exact Or.inr (Or.inl ⟨a, ha, hb, rfl⟩)
    | dominated =>
      obtain ⟨a, ha, hb, hd⟩ := h3
      exact Or.inr (Or.inr ⟨a, ha, hb, Or.inl ⟨hd, rfl⟩⟩)
    | farther =>
      obtain ⟨a, ha, hb, hd, hn⟩ := h3
      have hres : res = true := by
        have key : ∀ (fuel i : Nat) (l : List (Fin n → F)) (r0 : Bool),
            (scan T (box T eps s1) (near (box T eps s1 p) p) p fuel i l r0).1 = .farther →
            (scan T (box T eps s1) (near (box T eps s1 p) p) p fuel i l r0).2.2 = true := by
          intro fuel
          induction fuel with
          | zero => intro i l r0 h; simp [scan] at h
          | succ fuel ih =>
            intro i l r0 h
            unfold scan at h ⊢
            rcases hli : l[i]? with _ | b
            · rw [hli] at h; simp at h
            · rw [hli] at h
              simp only [] at h ⊢
              split_ifs at h ⊢ <;> first | rfl | exact ih _ _ _ h | simp at h
        have := key s1.mem.length 0 s1.mem false (by rw [hsc])
        rw [hsc] at this
        exact this
      exact Or.inr (Or.inr ⟨a, ha, hb, Or.inr ⟨hres, hn, rfl⟩⟩)
  · left
    rw [if_neg hc]
    rcases changeBounds_spec T s p with h | h | h
    · rw [hcb] at h; simp only [] at h; omega
    · rw [hcb] at h; exact ⟨h.1, by simp only [Prod.mk.injEq] at h; rw [h.1.2]⟩
    · rw [hcb] at h; simp only [Prod.mk.injEq] at h; omega

/-- After `changeBounds` accepted the newcomer everybody lies between the bounds. -/
theorem within_after (T : Traits n F) (s : St n F) (p : Fin n → F) (hg : Good T s) (hne : s.mem ≠ [])
    (hc : 0 ≤ (changeBounds T s p).1) : ∀ a ∈ p :: s.mem, Within T (changeBounds T s p).2 a := by
  obtain ⟨hw, -⟩ := hg hne
  rcases changeBounds_spec T s p with h | h | h
  · obtain ⟨-, -, -, -, -, -, -, h⟩ := h
    intro a ha i
    obtain ⟨e1, e2, e3, e4⟩ := h i
    rcases List.mem_cons.1 ha with rfl | ha
    · exact ⟨e3, e4⟩
    · have := hw a ha i
      exact ⟨noWorse_trans _ _ _ _ e1 this.1, noWorse_trans _ _ _ _ this.2 e2⟩
  · rw [h.1] at hc; simp at hc
  · rw [h.1]
    intro a ha
    rcases List.mem_cons.1 ha with rfl | ha
    · exact h.2
    · exact hw a ha

/-- Values that differ in every objective make bounds that differ. -/
theorem spread_bounds (T : Traits n F) (s : St n F) (p : Fin n → F) (hg : Good T s) (hne : s.mem ≠ [])
    (hc : 0 ≤ (changeBounds T s p).1)
    (hs : ∀ i, ∃ a ∈ p :: s.mem, ∃ b ∈ p :: s.mem, a i ≠ b i) :
    ∀ i, (changeBounds T s p).2.lo i < (changeBounds T s p).2.hi i := by
  intro i
  have hw := within_after T s p hg hne hc
  have hnorm : Norm (changeBounds T s p).2 := by
    rcases changeBounds_spec T s p with h | h | h
    · exact h.2.2.1
    · rw [h.1] at hc; simp at hc
    · rcases (hg hne).2 with hn | ⟨x, h1, h2, h3⟩
      · rw [h.1]; exact hn
      · exfalso
        obtain ⟨a, ha, b, hb, hab⟩ := hs i
        have hall : ∀ a ∈ p :: s.mem, a i = x i := by
          intro a ha
          have := hw a ha i
          rw [h.1] at this
          simp only [h2, h3] at this
          exact noWorse_antisymm _ _ _ this.2 this.1
        exact hab ((hall a ha).trans (hall b hb).symm)
  obtain ⟨a, ha, b, hb, hab⟩ := hs i
  have h1 := noWorse_between _ _ _ _ (hw a ha i).1 (hw a ha i).2
  have h2 := noWorse_between _ _ _ _ (hw b hb i).1 (hw b hb i).2
  rw [(hnorm i).1, (hnorm i).2]
  rcases lt_or_gt_of_ne hab with h | h
  · exact lt_of_le_of_lt h1.1 (lt_of_lt_of_le h h2.2)
  · exact lt_of_le_of_lt h2.1 (lt_of_lt_of_le h h1.2)

/-- The bounds always enclose the members, whatever was offered. -/
theorem good_step (T : Traits n F) (eps : Fin n → F)
    (near : (Fin n → Option Int) → (Fin n → F) → (Fin n → F) → Bool) (s : St n F) (p : Fin n → F)
    (hg : Good T s) : Good T (step T eps near s p).2 := by
  by_cases hne : s.mem = []
  · intro _
    unfold step
    rw [if_pos (by simp [hne])]
    exact ⟨fun a ha i => by
      simp only [List.mem_singleton] at ha; subst ha; exact ⟨noWorse_refl _ _, noWorse_refl _ _⟩,
      Or.inr ⟨p, rfl, rfl, rfl⟩⟩
  · rcases step_cases T eps near s p hne with ⟨-, h⟩ | ⟨hc, m, r, hp, -, h⟩
    · rw [h]; exact hg
    · have hw := within_after T s p hg hne hc
      have hsub : ∀ a ∈ m, a ∈ s.mem := fun a ha => hp.subset (by simp [ha])
      have hnf : Norm (changeBounds T s p).2 ∨ (First s ∧ (changeBounds T s p).2 = s) := by
        rcases changeBounds_spec T s p with h | h | h
        · exact Or.inl h.2.2.1
        · rw [h.1] at hc; simp at hc
        · rw [h.1]
          rcases (hg hne).2 with h | h
          · exact Or.inl h
          · exact Or.inr ⟨h, rfl⟩
      have hkeep : m ≠ [] → Good T { (changeBounds T s p).2 with mem := m } := by
        intro hm _
        refine ⟨fun a ha => hw a (List.mem_cons_of_mem _ (hsub a ha)), ?_⟩
        rcases hnf with h | ⟨⟨x, e1, e2, e3⟩, h⟩
        · exact Or.inl h
        · right
          rw [h]
          refine ⟨x, ?_, e2, e3⟩
          rw [e1] at hp
          have := hp.length_eq
          have hpos := List.length_pos_iff.2 hm
          rcases m with _ | ⟨y, _ | ⟨z, m⟩⟩
          · exact absurd rfl hm
          · have := hsub y (by simp)
            rw [e1] at this
            simp at this
            rw [this]
          · simp at this
      have hdel : m ≠ [] → Good T (byDeleting T { (changeBounds T s p).2 with mem := m } p) := by
        intro hm
        rcases byDeleting_cases T { (changeBounds T s p).2 with mem := m } p with h | ⟨h, -⟩
        · rw [h]
          intro _
          have := recalc_spec T { (changeBounds T s p).2 with mem := m } hm
          exact ⟨by rw [recalc_mem]; exact this.1, Or.inl this.2.1⟩
        · rw [h]; exact hkeep hm
      rcases h with ⟨h, -⟩ | ⟨a, ha, -, h⟩ | ⟨a, ha, -, h | h⟩
      · rw [h]
        intro _
        have := recalc_spec T { (changeBounds T s p).2 with mem := m ++ [p] } (by simp)
        exact ⟨by rw [recalc_mem]; exact this.1, Or.inl this.2.1⟩
      · rw [h]
        split_ifs
        · exact hdel (List.ne_nil_of_mem ha)
        · exact hkeep (List.ne_nil_of_mem ha)
      · rw [h.2]; exact hdel (List.ne_nil_of_mem ha)
      · rw [h.2.2]; exact hkeep (List.ne_nil_of_mem ha)

theorem good_feed (T : Traits n F) (eps : Fin n → F)
    (near : (Fin n → Option Int) → (Fin n → F) → (Fin n → F) → Bool) (ps : List (Fin n → F))
    (s : St n F) (hg : Good T s) : Good T (feed T eps near s ps) := by
  induction ps generalizing s with
  | nil => exact hg
  | cons p ps ih => exact ih _ (good_step T eps near s p hg)

omit [FloorRing F] [IsStrictOrderedRing F] in
theorem good_empty (T : Traits n F) : Good T (empty : St n F) := fun h => absurd rfl h

/-- In every reachable state no member is better than `ideal` or worse than `nadir` in any objective. -/
theorem C160_bounds (T : Traits n F) (eps : Fin n → F)
    (near : (Fin n → Option Int) → (Fin n → F) → (Fin n → F) → Bool) (ps : List (Fin n → F)) :
    let s := feed T eps near empty ps
    ∀ a ∈ s.mem, ∀ i, NoWorse (T.minimizing i) (s.ideal i) (a i) ∧
      NoWorse (T.minimizing i) (a i) (s.nadir i) := by
  intro s a ha
  exact (good_feed T eps near ps empty (good_empty T) (List.ne_nil_of_mem ha)).1 a ha

/-- After a call that brought the newcomer in, `ideal` and `nadir` are exactly the best and the worst
values of the members. -/
theorem C160_exact_bounds (T : Traits n F) (eps : Fin n → F)
    (near : (Fin n → Option Int) → (Fin n → F) → (Fin n → F) → Bool) (s : St n F) (p : Fin n → F)
    (hnew : p ∉ s.mem) (hin : p ∈ (step T eps near s p).2.mem) (i : Fin n) :
    let s' := (step T eps near s p).2
    (∃ a ∈ s'.mem, a i = s'.ideal i) ∧ (∃ a ∈ s'.mem, a i = s'.nadir i) ∧
      ∀ a ∈ s'.mem, NoWorse (T.minimizing i) (s'.ideal i) (a i) ∧
        NoWorse (T.minimizing i) (a i) (s'.nadir i) := by
  intro s'
  by_cases hne : s.mem = []
  · have : s' = { s with mem := [p], ideal := p, nadir := p } := by
      simp only [s']; unfold step; rw [if_pos (by simp [hne])]
    rw [this]
    exact ⟨⟨p, by simp, rfl⟩, ⟨p, by simp, rfl⟩, fun a ha => by
      simp only [List.mem_singleton] at ha; subst ha; exact ⟨noWorse_refl _ _, noWorse_refl _ _⟩⟩
  · rcases step_cases T eps near s p hne with ⟨-, h⟩ | ⟨hc, m, r, hp, -, h⟩
    · rw [h] at hin; exact absurd hin hnew
    · have hsub : ∀ a ∈ m, a ∈ s.mem := fun a ha => hp.subset (by simp [ha])
      have hout (s2 : St n F) (h2 : (step T eps near s p).2 = s2) (hm : s2.mem = m) : False := by
        rw [h2, hm] at hin; exact hnew (hsub p hin)
      have hbd : (byDeleting T { (changeBounds T s p).2 with mem := m } p).mem = m := by
        rcases byDeleting_cases T { (changeBounds T s p).2 with mem := m } p with h | ⟨h, -⟩
        · rw [h, recalc_mem]
        · rw [h]
      rcases h with ⟨h, -⟩ | ⟨a, ha, -, h⟩ | ⟨a, ha, -, h | h⟩
      · have hr := recalc_spec T { (changeBounds T s p).2 with mem := m ++ [p] } (by simp)
        have : s' = recalc T { (changeBounds T s p).2 with mem := m ++ [p] } := by
          simp only [s']; rw [h]
        rw [this]
        refine ⟨(hr.2.2 i).1, (hr.2.2 i).2, fun a ha => ?_⟩
        rw [recalc_mem] at ha
        exact hr.1 a ha i
      · refine absurd (hout _ h ?_) id
        split_ifs
        · exact hbd
        · rfl
      · exact absurd (hout _ h.2 hbd) id
      · exact absurd (hout _ h.2.2 rfl) id

omit [FloorRing F] in
theorem pareto_of_dominates (T : Traits n F) (h0 : 0 ≤ T.tol) (u v : Fin n → F)
    (hd : Dominates T.minimizing v u) : paretoCmp T v u = false := by
  rw [Bool.eq_false_iff]
  intro h
  rw [C31_tolerance_spec] at h
  obtain ⟨h1, i, hi⟩ := h
  have := h1 i hi
  have h2 := hd.1 i
  rw [noWorse_iff] at h2
  exact h2 this

/-- What `boxCmp` and `sameBox` say about dominance when no coordinate is degenerate. -/
theorem dominates_box (T : Traits n F) (h0 : 0 ≤ T.tol) (h1 : T.tol < 1) (eps : Fin n → F)
    (heps : ∀ i, 0 < eps i) (s : St n F) (hs : ∀ i, s.lo i < s.hi i) (u v : Fin n → F)
    (hd : Dominates T.minimizing v u) :
    boxCmp T (box T eps s u) (box T eps s v) = true ∨ sameBox (box T eps s u) (box T eps s v) = true := by
  have hb (w : Fin n → F) (i : Fin n) := box_some T eps s w i (hs i)
  have hm (i : Fin n) := idx_mono T eps s v u i (hs i) (heps i) (hd.1 i)
  by_cases he : ∀ i, idx T eps s v i = idx T eps s u i
  · right
    rw [sameBox_iff]
    intro i
    exact ⟨idx T eps s u i, hb u i, by rw [hb v i, he i]⟩
  · left
    push Not at he
    obtain ⟨i, hi⟩ := he
    rw [boxCmp_iff T h0 h1]
    refine ⟨fun j a b ha hb' => ?_, i, _, _, hb u i, hb v i, ?_⟩
    · rw [hb u j] at ha; rw [hb v j] at hb'
      simp only [Option.some.injEq] at ha hb'
      rw [← ha, ← hb']; exact hm j
    · have := hm i
      cases hmm : T.minimizing i <;> rw [hmm] at this <;> simp only [NoWorse, Better] at * <;> omega

/-- The newcomer joins members none of which it dominates or is dominated by. -/
theorem run_antichain (T : Traits n F) (h0 : 0 ≤ T.tol) (h1 : T.tol < 1) (eps : Fin n → F)
    (heps : ∀ i, 0 < eps i) (s : St n F) (hs : ∀ i, s.lo i < s.hi i) (p : Fin n → F)
    (m : List (Fin n → F)) (hm : Antichain T.minimizing m)
    (hrun : ∀ a ∈ m, boxCmp T (box T eps s a) (box T eps s p) = false ∧
      boxCmp T (box T eps s p) (box T eps s a) = false ∧ sameBox (box T eps s p) (box T eps s a) = false) :
    Antichain T.minimizing (m ++ [p]) := by
  unfold Antichain
  rw [List.pairwise_append]
  refine ⟨hm, by simp, ?_⟩
  intro a ha b hb
  rw [List.mem_singleton.1 hb]
  obtain ⟨e1, e2, e3⟩ := hrun a ha
  have hsym : sameBox (box T eps s a) (box T eps s p) = false := by
    rw [Bool.eq_false_iff] at e3 ⊢
    intro h
    apply e3
    rw [sameBox_iff] at h ⊢
    intro i
    obtain ⟨x, hx, hy⟩ := h i
    exact ⟨x, hy, hx⟩
  constructor
  · intro hd
    rcases dominates_box T h0 h1 eps heps s hs p a hd with h | h
    · rw [e2] at h; cases h
    · rw [e3] at h; cases h
  · intro hd
    rcases dominates_box T h0 h1 eps heps s hs a p hd with h | h
    · rw [e1] at h; cases h
    · rw [hsym] at h; cases h

/-- A call keeps the members mutually non-dominated, if every objective takes at least two values among
the members and the newcomer. -/
theorem C160_nondominated (T : Traits n F) (h0 : 0 ≤ T.tol) (h1 : T.tol < 1) (eps : Fin n → F)
    (heps : ∀ i, 0 < eps i) (near : (Fin n → Option Int) → (Fin n → F) → (Fin n → F) → Bool)
    (ps : List (Fin n → F)) (p : Fin n → F)
    (ha : Antichain T.minimizing (feed T eps near empty ps).mem)
    (hs : ∀ i, ∃ a ∈ p :: (feed T eps near empty ps).mem, ∃ b ∈ p :: (feed T eps near empty ps).mem,
      a i ≠ b i) :
    Antichain T.minimizing (feed T eps near empty (ps ++ [p])).mem := by
  have hfs : feed T eps near empty (ps ++ [p]) =
      (step T eps near (feed T eps near empty ps) p).2 := by
    simp [feed]
  rw [hfs]
  have hg := good_feed T eps near ps empty (good_empty T)
  set s := feed T eps near empty ps with hsdef
  by_cases hne : s.mem = []
  · unfold step
    rw [if_pos (by simp [hne])]
    simp [Antichain]
  · rcases step_cases T eps near s p hne with ⟨-, h⟩ | ⟨hc, m, r, hp, -, h⟩
    · rw [h]; exact ha
    · have hb := spread_bounds T s p hg hne hc hs
      have hm := antichain_of_perm _ _ _ _ hp ha
      have hbd : (byDeleting T { (changeBounds T s p).2 with mem := m } p).mem = m := by
        rcases byDeleting_cases T { (changeBounds T s p).2 with mem := m } p with h | ⟨h, -⟩
        · rw [h, recalc_mem]
        · rw [h]
      rcases h with ⟨h, hrun⟩ | ⟨a, ha, -, h⟩ | ⟨a, ha, -, h | h⟩
      · rw [h]
        simp only [recalc_mem]
        exact run_antichain T h0 h1 eps heps _ hb p m hm hrun
      · rw [h]
        split_ifs
        · rw [hbd]; exact hm
        · exact hm
      · rw [h.2, hbd]; exact hm
      · rw [h.2.2]; exact hm

/-- Two objectives, members (0, 10) and (10, 0), then (4, 4): the hypotheses are met. -/
example : Antichain (fun _ => true)
      (feed (⟨fun _ => true, 0⟩ : Traits 2 ℚ) (fun _ => 1 / 4) euclid empty [![0, 10], ![10, 0]]).mem ∧
    ∀ i : Fin 2, ∃ a ∈ (![4, 4] : Fin 2 → ℚ) ::
        (feed (⟨fun _ => true, 0⟩ : Traits 2 ℚ) (fun _ => 1 / 4) euclid empty [![0, 10], ![10, 0]]).mem,
      ∃ b ∈ (![4, 4] : Fin 2 → ℚ) ::
        (feed (⟨fun _ => true, 0⟩ : Traits 2 ℚ) (fun _ => 1 / 4) euclid empty [![0, 10], ![10, 0]]).mem,
      a i ≠ b i := by
  have e : (feed (⟨fun _ => true, 0⟩ : Traits 2 ℚ) (fun _ => 1 / 4) euclid empty [![0, 10], ![10, 0]]).mem =
      [![0, 10], ![10, 0]] := by decide +kernel
  rw [e]
  refine ⟨?_, fun i => ⟨![4, 4], by simp, ![0, 10], by simp, ?_⟩⟩
  · simp [Antichain, Dominates, NoWorse, Better, Fin.forall_fin_two, Fin.exists_fin_two]
  · fin_cases i <;> simp <;> norm_num

/-- `a` is worse than `q` by less than the fraction `e` of the range `r` in an objective. -/
def Close (d : Bool) (e r a q : F) : Prop := if d then a < q + e * r else q - e * r < a

omit [FloorRing F] [IsStrictOrderedRing F] in
theorem mem_step_of (T : Traits n F) (m : List (Fin n → F)) (s : St n F) (p : Fin n → F) :
    (byDeleting T { s with mem := m } p).mem = m := by
  rcases byDeleting_cases T { s with mem := m } p with h | ⟨h, -⟩
  · rw [h, recalc_mem]
  · rw [h]

/-- Whatever leaves or is turned away is represented: unless the newcomer was refused at once for lying
outside the bounds, every former member and the newcomer has in the new archive a member which in no
objective is worse by `eps` times the range or more. The range is the one of the call: it covers the
members and the newcomer. -/
theorem C160_epsilon_cover (T : Traits n F) (h0 : 0 ≤ T.tol) (h1 : T.tol < 1) (eps : Fin n → F)
    (heps : ∀ i, 0 < eps i) (near : (Fin n → Option Int) → (Fin n → F) → (Fin n → F) → Bool)
    (ps : List (Fin n → F)) (p : Fin n → F)
    (hs : ∀ i, ∃ a ∈ p :: (feed T eps near empty ps).mem, ∃ b ∈ p :: (feed T eps near empty ps).mem,
      a i ≠ b i)
    (hacc : ∀ i, NoWorse (T.minimizing i) (p i) ((feed T eps near empty ps).nadir i) ∨
      ∃ j, Better (T.minimizing j) (p j) ((feed T eps near empty ps).ideal j)) :
    ∃ lo hi : Fin n → F,
      (∀ i, ∀ q ∈ p :: (feed T eps near empty ps).mem, lo i ≤ q i ∧ q i ≤ hi i) ∧
      ∀ q ∈ p :: (feed T eps near empty ps).mem,
        ∃ a ∈ (feed T eps near empty (ps ++ [p])).mem,
          ∀ i, Close (T.minimizing i) (eps i) (hi i - lo i) (a i) (q i) := by
  have hfs : feed T eps near empty (ps ++ [p]) =
      (step T eps near (feed T eps near empty ps) p).2 := by
    simp [feed]
  rw [hfs]
  have hg := good_feed T eps near ps empty (good_empty T)
  set s := feed T eps near empty ps with hsdef
  by_cases hne : s.mem = []
  · refine ⟨p, p, ?_, ?_⟩
    · intro i q hq
      rw [hne] at hq
      simp only [List.mem_singleton] at hq
      subst hq; exact ⟨le_refl _, le_refl _⟩
    · -- the spread hypothesis cannot hold with one value only, unless there is no objective
      intro q hq
      refine ⟨p, ?_, ?_⟩
      · unfold step; rw [if_pos (by simp [hne])]; simp
      · intro i
        obtain ⟨a, ha, b, hb, hab⟩ := hs i
        rw [hne] at ha hb
        simp only [List.mem_singleton] at ha hb
        rw [ha, hb] at hab
        exact absurd rfl hab
  · rcases step_cases T eps near s p hne with ⟨hcb, -⟩ | ⟨hc, m, r, hp, hr, h⟩
    · exfalso
      rcases changeBounds_spec T s p with h | h | h
      · rw [hcb] at h; simp at h
      · obtain ⟨-, hnb, i, hi⟩ := h
        rcases hacc i with h | ⟨j, h⟩
        · exact (noWorse_iff _ _ _).1 h hi
        · exact hnb j h
      · rw [hcb] at h; simp at h
    · have hb := spread_bounds T s p hg hne hc hs
      have hw := within_after T s p hg hne hc
      set s1 := (changeBounds T s p).2 with hs1
      have hnorm : Norm s1 := by
        rcases changeBounds_spec T s p with h | h | h
        · exact h.2.2.1
        · rw [h.1] at hc; simp at hc
        · rcases (hg hne).2 with hn | ⟨x, e1, e2, e3⟩
          · rw [hs1, h.1]; exact hn
          · intro i
            exfalso
            obtain ⟨a, ha, b, hb, hab⟩ := hs i
            have hall : ∀ a ∈ p :: s.mem, a i = x i := by
              intro a ha
              have := hw a ha i
              rw [hs1, h.1] at this
              simp only [e2, e3] at this
              exact noWorse_antisymm _ _ _ this.2 this.1
            exact hab ((hall a ha).trans (hall b hb).symm)
      refine ⟨s1.lo, s1.hi, ?_, ?_⟩
      · intro i q hq
        rw [(hnorm i).1, (hnorm i).2]
        exact noWorse_between _ _ _ _ (hw q hq i).1 (hw q hq i).2
      · have hbx (w : Fin n → F) (i : Fin n) := box_some T eps s1 w i (hb i)
        have hcmp (u v : Fin n → F) (h : boxCmp T (box T eps s1 u) (box T eps s1 v) = true) (i : Fin n) :
            NoWorse (T.minimizing i) (idx T eps s1 v i) (idx T eps s1 u i) :=
          ((boxCmp_iff T h0 h1 _ _).1 h).1 i _ _ (hbx u i) (hbx v i)
        have hsame (u v : Fin n → F) (h : sameBox (box T eps s1 u) (box T eps s1 v) = true) (i : Fin n) :
            idx T eps s1 u i = idx T eps s1 v i := by
          obtain ⟨x, hx, hy⟩ := (sameBox_iff _ _).1 h i
          rw [hbx u i, Option.some.injEq] at hx
          rw [hbx v i, Option.some.injEq] at hy
          rw [hx, hy]
        have hI (d : Bool) (x : Int) : NoWorse d x x := by cases d <;> simp [NoWorse]
        have hT (d : Bool) (x y z : Int) (h1 : NoWorse d x y) (h2 : NoWorse d y z) : NoWorse d x z := by
          cases d <;> simp only [NoWorse] at * <;> omega
        -- the newcomer covers the members that left
        have hremoved : ∀ q ∈ r, ∀ i, NoWorse (T.minimizing i) (idx T eps s1 p i) (idx T eps s1 q i) := by
          intro q hq i
          rcases hr q hq with h | ⟨h, -⟩
          · exact hcmp q p h i
          · rw [hsame p q h i]; exact hI _ _
        have hfin (m' : List (Fin n → F)) (hmm : ∀ a ∈ m, a ∈ m')
            (hpc : ∃ a ∈ m', ∀ i, NoWorse (T.minimizing i) (idx T eps s1 a i) (idx T eps s1 p i)) :
            ∀ q ∈ p :: s.mem, ∃ a ∈ m', ∀ i,
              Close (T.minimizing i) (eps i) (s1.hi i - s1.lo i) (a i) (q i) := by
          intro q hq
          obtain ⟨a, ha, hap⟩ := hpc
          have : ∃ b ∈ m', ∀ i, NoWorse (T.minimizing i) (idx T eps s1 b i) (idx T eps s1 q i) := by
            rcases List.mem_cons.1 hq with rfl | hq
            · exact ⟨a, ha, hap⟩
            · rcases List.mem_append.1 (hp.symm.subset hq) with hq | hq
              · exact ⟨q, hmm q hq, fun i => hI _ _⟩
              · exact ⟨a, ha, fun i => hT _ _ _ _ (hap i) (hremoved q hq i)⟩
          obtain ⟨b, hb1, hb2⟩ := this
          refine ⟨b, hb1, fun i => ?_⟩
          exact idx_close T eps s1 b q i (hb i) (heps i) (hb2 i)
        rcases h with ⟨h, -⟩ | ⟨a, ha, hab, h⟩ | ⟨a, ha, hab, h⟩
        · rw [h]
          simp only [recalc_mem]
          exact hfin _ (fun a ha => by simp [ha]) ⟨p, by simp, fun i => hI _ _⟩
        · have hm : (step T eps near s p).2.mem = m := by
            rw [h]; split_ifs
            · exact mem_step_of T m _ p
            · rfl
          rw [hm]
          exact hfin _ (fun a ha => ha) ⟨a, ha, fun i => hcmp p a hab i⟩
        · have hm : (step T eps near s p).2.mem = m := by
            rcases h with h | h
            · rw [h.2]; exact mem_step_of T m _ p
            · rw [h.2.2]
          rw [hm]
          exact hfin _ (fun a ha => ha) ⟨a, ha, fun i => by rw [hsame p a hab i]; exact hI _ _⟩

/-- The hypotheses are met by members (0, 10), (10, 0) and the newcomer (4, 4). -/
example : let s := feed (⟨fun _ => true, 0⟩ : Traits 2 ℚ) (fun _ => 1 / 4) euclid empty [![0, 10], ![10, 0]]
    ∀ i : Fin 2, NoWorse true ((![4, 4] : Fin 2 → ℚ) i) (s.nadir i) := by
  intro s i
  have e : s.nadir i = 10 := by
    fin_cases i <;> decide +kernel
  rw [e]
  fin_cases i <;> simp [NoWorse] <;> norm_num

section TwoObjectives

/-- What holds in every state: the members lie between the bounds, and the bounds are attained unless
they differ in both objectives or only one member came so far. -/
def Inv (T : Traits n F) (s : St n F) : Prop :=
  s.mem ≠ [] → (∀ a ∈ s.mem, Within T s a) ∧
    ((Norm s ∧ Attained s) ∨ (Norm s ∧ ∀ i, s.lo i < s.hi i) ∨ First s)

omit [FloorRing F] [IsStrictOrderedRing F] in
theorem Inv.good {T : Traits n F} {s : St n F} (h : Inv T s) : Good T s := by
  intro hne
  obtain ⟨h1, h2⟩ := h hne
  refine ⟨h1, ?_⟩
  rcases h2 with h | h | h
  · exact Or.inl h.1
  · exact Or.inl h.1
  · exact Or.inr h

omit [FloorRing F] [IsStrictOrderedRing F] in
theorem norm_le {s : St n F} (h : Norm s) (i : Fin n) : s.lo i ≤ s.hi i := by
  rw [(h i).1, (h i).2]; exact min_le_max

omit [FloorRing F] [IsStrictOrderedRing F] in
theorem eq_of_within {T : Traits n F} {s : St n F} (x v : Fin n → F) (i : Fin n) (h : Within T s v)
    (h1 : s.ideal i = x i) (h2 : s.nadir i = x i) : v i = x i := by
  have := h i
  rw [h1, h2] at this
  exact noWorse_antisymm _ _ _ this.2 this.1

omit [FloorRing F] [IsStrictOrderedRing F] in
/-- Equal in one of two objectives and not dominating each other: equal. -/
theorem two_equal (d : Fin 2 → Bool) (a b : Fin 2 → F) (h1 : ¬ Dominates d a b) (h2 : ¬ Dominates d b a)
    (i : Fin 2) (hi : a i = b i) : a = b := by
  have key : ∀ a b : Fin 2 → F, a i = b i → ¬ Dominates d a b → ∀ j, ¬ Better (d j) (a j) (b j) := by
    intro a b hi h j hj
    refine h ⟨fun k => ?_, j, hj⟩
    by_cases hk : k = i
    · subst hk; rw [hi]; exact noWorse_refl _ _
    · have hji : j ≠ i := by
        rintro rfl
        rw [hi] at hj
        exact (noWorse_iff _ _ _).1 (noWorse_refl _ _) hj
      have : k = j := by omega
      rw [this]; exact better_noWorse _ _ _ hj
  funext j
  have e1 := key a b hi h1 j
  have e2 := key b a hi.symm h2 j
  rw [← noWorse_iff] at e1 e2
  exact noWorse_antisymm _ _ _ e2 e1

omit [FloorRing F] [IsStrictOrderedRing F] in
/-- Members that are equal in one of two objectives are equal. -/
theorem all_equal (d : Fin 2 → Bool) (l : List (Fin 2 → F)) (hl : Antichain d l) (i : Fin 2) (c : F)
    (hc : ∀ a ∈ l, a i = c) : ∀ a ∈ l, ∀ b ∈ l, a = b := by
  intro a ha b hb
  by_contra hab
  haveI : Std.Symm fun a b : Fin 2 → F => ¬ Dominates d a b ∧ ¬ Dominates d b a :=
    { symm := fun a b h => ⟨h.2, h.1⟩ }
  have := List.Pairwise.forall (show l.Pairwise _ from hl) ha hb hab
  exact hab (two_equal d a b this.1 this.2 i ((hc a ha).trans (hc b hb).symm))

omit [FloorRing F] [IsStrictOrderedRing F] in
/-- Copies of one vector do not dominate each other. -/
theorem antichain_const (d : Fin n → Bool) (l : List (Fin n → F)) (h : ∀ a ∈ l, ∀ b ∈ l, a = b) :
    Antichain d l := by
  unfold Antichain
  rw [List.pairwise_iff_forall_sublist]
  intro a b hab
  have e : a = b := h a (hab.subset (by simp)) b (hab.subset (by simp))
  subst e
  have : ¬ Dominates d a a := fun ⟨_, i, hi⟩ => (noWorse_iff _ _ _).1 (noWorse_refl _ _) hi
  exact ⟨this, this⟩

/-- A box is not dominated by itself. -/
theorem boxCmp_self (T : Traits n F) (h0 : 0 ≤ T.tol) (h1 : T.tol < 1) (u : Fin n → Option Int) :
    boxCmp T u u = false := by
  rw [Bool.eq_false_iff]
  intro h
  obtain ⟨i, a, b, ha, hb, hab⟩ := ((boxCmp_iff T h0 h1 u u).1 h).2
  rw [ha, Option.some.injEq] at hb
  subst hb
  cases hm : T.minimizing i <;> rw [hm] at hab <;> exact absurd hab (lt_irrefl _)

/-- The best value of an interval lies in a better box than the worst. -/
theorem idx_extreme (T : Traits n F) (eps : Fin n → F) (s : St n F) (u v : Fin n → F) (i : Fin n)
    (h : s.lo i < s.hi i) (he : 0 < eps i) (he1 : eps i ≤ 1)
    (hu : u i = if T.minimizing i then s.lo i else s.hi i)
    (hv : v i = if T.minimizing i then s.hi i else s.lo i) :
    Better (T.minimizing i) (idx T eps s u i) (idx T eps s v i) := by
  have hd : s.hi i - s.lo i ≠ 0 := by intro h'; linarith
  have h1 : (1 : F) ≤ 1 / eps i := by rw [le_div_iff₀ he]; linarith
  unfold idx
  cases hm : T.minimizing i <;> rw [hm] at hu hv <;> simp only [Bool.false_eq_true, if_false, if_true] at hu hv ⊢
  · show _ < _
    rw [hu, hv]
    have e : (s.hi i - s.lo i) * (1 / (s.hi i - s.lo i)) * 1 / eps i = 1 / eps i := by
      field_simp
    rw [e, sub_self, zero_mul, zero_mul, zero_div, Int.ceil_zero]
    exact Int.ceil_pos.2 (by linarith)
  · show _ < _
    rw [hu, hv]
    have e : (s.hi i - s.lo i) * (1 / (s.hi i - s.lo i)) * 1 / eps i = 1 / eps i := by
      field_simp
    rw [e, sub_self, zero_mul, zero_mul, zero_div, Int.floor_zero]
    exact Int.floor_pos.2 h1

/-- The bounds after a call with two objectives. -/
theorem two_step (T : Traits 2 F) (h0 : 0 ≤ T.tol) (h1 : T.tol < 1) (eps : Fin 2 → F)
    (heps : ∀ i, 0 < eps i) (heps1 : ∀ i, eps i ≤ 1)
    (near : (Fin 2 → Option Int) → (Fin 2 → F) → (Fin 2 → F) → Bool) (s : St 2 F) (p : Fin 2 → F)
    (hI : Inv T s) (hA : Antichain T.minimizing s.mem) :
    Inv T (step T eps near s p).2 ∧ Antichain T.minimizing (step T eps near s p).2.mem := by
  by_cases hne : s.mem = []
  · have e : (step T eps near s p).2 = { s with mem := [p], ideal := p, nadir := p } := by
      unfold step; rw [if_pos (by simp [hne])]
    rw [e]
    refine ⟨fun _ => ⟨fun a ha i => ?_, Or.inr (Or.inr ⟨p, rfl, rfl, rfl⟩)⟩, by simp [Antichain]⟩
    simp only [List.mem_singleton] at ha; subst ha; exact ⟨noWorse_refl _ _, noWorse_refl _ _⟩
  rcases step_cases T eps near s p hne with ⟨-, h⟩ | ⟨hc, m, r, hp, hr, h⟩
  · rw [h]; exact ⟨hI, hA⟩
  have hw := within_after T s p hI.good hne hc
  have hm := antichain_of_perm _ _ _ _ hp hA
  have hsub : ∀ a ∈ m, a ∈ s.mem := fun a ha => hp.subset (by simp [ha])
  set s1 := (changeBounds T s p).2 with hs1
  have hrec : ∀ m' : List (Fin 2 → F), m' ≠ [] → Inv T (recalc T { s1 with mem := m' }) := by
    intro m' hm' _
    have := recalc_spec T { s1 with mem := m' } hm'
    exact ⟨by rw [recalc_mem]; exact this.1, Or.inl ⟨this.2.1, this.2.2⟩⟩
  -- three situations: the bounds differ in both objectives; or they do not, and then all members are
  -- equal to some `x`: the newcomer is `x` too, or it pushes every member out
  have hsit : (Norm s1 ∧ ∀ i, s1.lo i < s1.hi i) ∨ (∃ x, (∀ a ∈ s.mem, a = x) ∧ p = x ∧ s1 = s) ∨
      ((changeBounds T s p).1 = 1 ∧ Norm s1 ∧ (∃ i, s1.lo i = s1.hi i) ∧
        ∀ a ∈ s.mem, boxCmp T (box T eps s1 a) (box T eps s1 p) = true) := by
    obtain ⟨-, hb⟩ := hI hne
    -- an attained pair of equal bounds makes all members equal, and the bounds too
    have hatt : (Norm s1 ∧ ∃ i, s1.lo i = s1.hi i) → Attained s →
        ∃ x i, (∀ a ∈ s.mem, a = x) ∧ p i = x i ∧ s.ideal = x ∧ s.nadir = x ∧ s1.lo i = s1.hi i := by
      rintro ⟨hn, i, hi⟩ hat
      have hv : ∀ a ∈ p :: s.mem, a i = s1.lo i := by
        intro a ha
        have := noWorse_between _ _ _ _ (hw a ha i).1 (hw a ha i).2
        rw [← (hn i).1, ← (hn i).2, ← hi] at this
        exact le_antisymm this.2 this.1
      obtain ⟨x, hx⟩ := List.exists_mem_of_ne_nil _ hne
      have hall := all_equal T.minimizing s.mem hA i (s1.lo i)
        (fun a ha => hv a (List.mem_cons_of_mem _ ha))
      refine ⟨x, i, fun a ha => hall a ha x hx, ?_, ?_, ?_, hi⟩
      · rw [hv p (by simp), hv x (List.mem_cons_of_mem _ hx)]
      · funext j
        obtain ⟨a, ha, e⟩ := (hat j).1
        rw [← e, hall a ha x hx]
      · funext j
        obtain ⟨a, ha, e⟩ := (hat j).2
        rw [← e, hall a ha x hx]
    have hdeg : ¬ (∀ i, s1.lo i < s1.hi i) → Norm s1 → ∃ i, s1.lo i = s1.hi i := by
      intro h hn
      push Not at h
      obtain ⟨i, hi⟩ := h
      exact ⟨i, le_antisymm (norm_le hn i) hi⟩
    rcases changeBounds_spec T s p with hcb | hcb | hcb
    · -- some objective was improved
      have hn1 : Norm s1 := hcb.2.2.1
      by_cases hall : ∀ i, s1.lo i < s1.hi i
      · exact Or.inl ⟨hn1, hall⟩
      right; right
      obtain hdg := hdeg hall hn1
      have hat : Attained s := by
        rcases hb with h | h | ⟨x, e1, e2, e3⟩
        · exact h.2
        · exfalso
          apply hall
          intro i
          obtain ⟨c1, c2, -, -⟩ := hcb.2.2.2.2.2.2.2 i
          have hlt := h.2 i
          rw [(h.1 i).1, (h.1 i).2] at hlt
          rw [(hn1 i).1, (hn1 i).2]
          -- ideal and nadir of `s` lie between the new bounds
          obtain ⟨a, ha⟩ := List.exists_mem_of_ne_nil _ hne
          have hwa := (hI hne).1 a ha i
          have b1 := noWorse_between _ _ _ _ c1 (noWorse_trans _ _ _ _ hwa.1
            (noWorse_trans _ _ _ _ hwa.2 c2))
          have b2 := noWorse_between _ _ _ _ (noWorse_trans _ _ _ _ c1
            (noWorse_trans _ _ _ _ hwa.1 hwa.2)) c2
          calc min (s1.ideal i) (s1.nadir i) ≤ min (s.ideal i) (s.nadir i) := le_min b1.1 b2.1
            _ < max (s.ideal i) (s.nadir i) := hlt
            _ ≤ _ := max_le b1.2 b2.2
        · intro j
          rw [e1, e2, e3]
          exact ⟨⟨x, by simp, rfl⟩, ⟨x, by simp, rfl⟩⟩
      obtain ⟨x, i, hx, hpi, hid, hna, hi⟩ := hatt ⟨hn1, hdg⟩ hat
      refine ⟨hcb.1, hn1, hdg, ?_⟩
      intro a ha
      rw [hx a ha]
      obtain ⟨j, hj⟩ := hcb.2.2.2.1
      rw [hid] at hj
      have hji : j ≠ i := by
        rintro rfl
        rw [hpi] at hj
        exact (noWorse_iff _ _ _).1 (noWorse_refl _ _) hj
      have hidj : s1.ideal j = p j := hcb.2.2.2.2.2.1 j (by rw [hid]; exact hj)
      have hnaj : s1.nadir j = x j := by
        have hwx := (hw x (List.mem_cons_of_mem _ (by
          obtain ⟨y, hy⟩ := List.exists_mem_of_ne_nil _ hne
          rw [← hx y hy]; exact hy)) j).2
        rcases hcb.2.2.2.2.2.2.1 j with e | e
        · rw [e] at hwx
          exact absurd hj ((noWorse_iff _ _ _).1 hwx)
        · rw [e, hna]
      have hlt : s1.lo j < s1.hi j := by
        rw [(hn1 j).1, (hn1 j).2, hidj, hnaj]
        have hne' : p j ≠ x j := by
          intro e; rw [e] at hj; exact (noWorse_iff _ _ _).1 (noWorse_refl _ _) hj
        exact min_lt_max.2 hne'
      have hbest : p j = if T.minimizing j then s1.lo j else s1.hi j := by
        rw [(hn1 j).1, (hn1 j).2, hidj, hnaj]
        cases hmm : T.minimizing j <;> rw [hmm] at hj
        · simp [show x j ≤ p j from le_of_lt hj]
        · simp [show p j ≤ x j from le_of_lt hj]
      have hworst : x j = if T.minimizing j then s1.hi j else s1.lo j := by
        rw [(hn1 j).1, (hn1 j).2, hidj, hnaj]
        cases hmm : T.minimizing j <;> rw [hmm] at hj
        · simp [show x j ≤ p j from le_of_lt hj]
        · simp [show p j ≤ x j from le_of_lt hj]
      have hbt := idx_extreme T eps s1 p x j hlt (heps j) (heps1 j) hbest hworst
      rw [boxCmp_iff T h0 h1]
      refine ⟨fun k a b hka hkb => ?_, j, _, _, box_some T eps s1 x j hlt, box_some T eps s1 p j hlt, hbt⟩
      by_cases hk : k = j
      · subst hk
        rw [box_some T eps s1 x k hlt, Option.some.injEq] at hka
        rw [box_some T eps s1 p k hlt, Option.some.injEq] at hkb
        rw [← hka, ← hkb]
        cases hmm : T.minimizing k <;> rw [hmm] at hbt <;> exact le_of_lt hbt
      · have : k = i := by omega
        rw [this] at hka
        unfold box at hka
        rw [if_pos hi.symm] at hka
        cases hka
    · rw [hcb.1] at hc; simp at hc
    · have he : s1 = s := by rw [hs1, hcb.1]
      rcases hb with h | h | ⟨x, e1, e2, e3⟩
      · by_cases hall : ∀ i, s1.lo i < s1.hi i
        · left; exact ⟨by rw [he]; exact h.1, hall⟩
        · right; left
          have hn1 : Norm s1 := by rw [he]; exact h.1
          obtain ⟨x, i, hx, -, hid, hna, -⟩ := hatt ⟨hn1, hdeg hall hn1⟩ h.2
          refine ⟨x, hx, ?_, he⟩
          funext j
          exact eq_of_within x p j (hw p (by simp)) (by rw [he, hid]) (by rw [he, hna])
      · left; rw [he]; exact h
      · right; left
        refine ⟨x, by rw [e1]; simp, ?_, he⟩
        funext j
        exact eq_of_within x p j (hw p (by simp)) (by rw [he, e2]) (by rw [he, e3])
  have hwm : ∀ a ∈ m, Within T s1 a := fun a ha => hw a (List.mem_cons_of_mem _ (hsub a ha))
  rcases hsit with ⟨hn1, hlt⟩ | ⟨x, hx, hpx, he⟩ | ⟨hc1, hn1, ⟨i, hi⟩, hall⟩
  · -- ordinary bounds
    have hkeep : Inv T { s1 with mem := m } := fun _ => ⟨hwm, Or.inr (Or.inl ⟨hn1, hlt⟩)⟩
    have hdel (hmn : m ≠ []) : Inv T (byDeleting T { s1 with mem := m } p) := by
      rcases byDeleting_cases T { s1 with mem := m } p with h | ⟨h, -⟩
      · rw [h]; exact hrec m hmn
      · rw [h]; exact hkeep
    rcases h with ⟨h, hrun⟩ | ⟨a, ha, -, h⟩ | ⟨a, ha, -, h | h⟩
    · rw [h]
      refine ⟨hrec _ (by simp), ?_⟩
      simp only [recalc_mem]
      exact run_antichain T h0 h1 eps heps _ hlt p m hm hrun
    · rw [h]
      split_ifs
      · exact ⟨hdel (List.ne_nil_of_mem ha), by rw [mem_step_of]; exact hm⟩
      · exact ⟨hkeep, hm⟩
    · rw [h.2]; exact ⟨hdel (List.ne_nil_of_mem ha), by rw [mem_step_of]; exact hm⟩
    · rw [h.2.2]; exact ⟨hkeep, hm⟩
  · -- another copy of the only vector
    have hpb : ∀ a ∈ m, a = p := fun a ha => by rw [hpx]; exact hx a (hsub a ha)
    have hkeep (hmn : m ≠ []) : Inv T { s1 with mem := m } := by
      intro _
      refine ⟨hwm, ?_⟩
      rcases (hI hne).2 with ⟨hn, hat⟩ | h | ⟨y, e1, e2, e3⟩
      · left
        rw [he]
        refine ⟨hn, fun j => ?_⟩
        obtain ⟨a, ha⟩ := List.exists_mem_of_ne_nil _ hmn
        have hax := hx a (hsub a ha)
        obtain ⟨⟨b, hb, e⟩, ⟨c, hc', e'⟩⟩ := hat j
        exact ⟨⟨a, ha, by rw [hax, ← hx b hb]; exact e⟩, ⟨a, ha, by rw [hax, ← hx c hc']; exact e'⟩⟩
      · right; left; rw [he]; exact h
      · right; right
        rw [he]
        refine ⟨y, ?_, e2, e3⟩
        rw [e1] at hp
        have hl := hp.length_eq
        rcases m with _ | ⟨z, _ | ⟨z', m⟩⟩
        · exact absurd rfl hmn
        · have := hsub z (by simp)
          rw [e1] at this
          simp at this
          rw [this]
        · simp at hl
    have hdel (hmn : m ≠ []) : Inv T (byDeleting T { s1 with mem := m } p) := by
      rcases byDeleting_cases T { s1 with mem := m } p with h | ⟨h, -⟩
      · rw [h]; exact hrec m hmn
      · rw [h]; exact hkeep hmn
    rcases h with ⟨h, -⟩ | ⟨a, ha, -, h⟩ | ⟨a, ha, -, h | h⟩
    · rw [h]
      refine ⟨hrec _ (by simp), ?_⟩
      simp only [recalc_mem]
      apply antichain_const
      have : ∀ a ∈ m ++ [p], a = p := by
        intro a ha
        rcases List.mem_append.1 ha with ha | ha
        · exact hpb a ha
        · exact List.mem_singleton.1 ha
      intro a ha b hb
      rw [this a ha, this b hb]
    · rw [h]
      split_ifs
      · exact ⟨hdel (List.ne_nil_of_mem ha), by rw [mem_step_of]; exact hm⟩
      · exact ⟨hkeep (List.ne_nil_of_mem ha), hm⟩
    · rw [h.2]; exact ⟨hdel (List.ne_nil_of_mem ha), by rw [mem_step_of]; exact hm⟩
    · rw [h.2.2]; exact ⟨hkeep (List.ne_nil_of_mem ha), hm⟩
  · -- every member is pushed out
    rcases h with ⟨h, hrun⟩ | ⟨a, ha, hab, h⟩ | ⟨a, ha, hab, h⟩
    · have hmn : m = [] := by
        rcases m with _ | ⟨a, m⟩
        · rfl
        · have := (hrun a (by simp)).1
          rw [hall a (hsub a (by simp))] at this
          cases this
      subst hmn
      rw [h]
      refine ⟨hrec _ (by simp), ?_⟩
      simp only [recalc_mem]
      simp [Antichain]
    · exfalso
      have e1 := (boxCmp_iff T h0 h1 _ _).1 (hall a (hsub a ha))
      have e2 := (boxCmp_iff T h0 h1 _ _).1 hab
      obtain ⟨j, u, v, hu, hv, huv⟩ := e1.2
      have := e2.1 j v u hv hu
      cases hmm : T.minimizing j <;> rw [hmm] at this huv <;> exact absurd huv (not_lt.2 this)
    · exfalso
      obtain ⟨u, hu, -⟩ := (sameBox_iff _ _).1 hab i
      unfold box at hu
      rw [if_pos hi.symm] at hu
      cases hu

/-- With two objectives the members never dominate each other, whatever is offered. -/
theorem C160_two_objectives (T : Traits 2 F) (h0 : 0 ≤ T.tol) (h1 : T.tol < 1) (eps : Fin 2 → F)
    (heps : ∀ i, 0 < eps i) (heps1 : ∀ i, eps i ≤ 1)
    (near : (Fin 2 → Option Int) → (Fin 2 → F) → (Fin 2 → F) → Bool) (ps : List (Fin 2 → F)) :
    Antichain T.minimizing (feed T eps near empty ps).mem := by
  have key : ∀ (ps : List (Fin 2 → F)) (s : St 2 F), Inv T s → Antichain T.minimizing s.mem →
      Antichain T.minimizing (feed T eps near s ps).mem := by
    intro ps
    induction ps with
    | nil => intro s _ h; exact h
    | cons p ps ih =>
      intro s hI hA
      have := two_step T h0 h1 eps heps heps1 near s p hI hA
      exact ih _ this.1 this.2
  exact key ps empty (fun h => absurd rfl h) List.Pairwise.nil

/-- A sequence after which several members remain. -/
example : (feed (⟨fun _ => true, 0⟩ : Traits 2 ℚ) (fun _ => 1 / 4) euclid empty
    [![3, 3], ![3, 3], ![0, 10], ![10, 0], ![9, 9], ![4, 5]]).mem = [![3, 3], ![0, 10], ![10, 0]] := by
  decide +kernel

end TwoObjectives

section Defects

/-- All objectives are minimised and the comparator has no tolerance. -/
def mini (k : Nat) : Traits k ℚ := ⟨fun _ => true, 0⟩

/-- A newcomer that is worse than the worst member in one objective and better than the best in none is
refused, though with three objectives it may be dominated by nobody. -/
theorem C160_refuses_nondominated :
    let s := feed (mini 3) (fun _ => 1 / 4) euclid empty [![0, 0, 5], ![5, 5, 0]]
    let p : Fin 3 → ℚ := ![6, 1, 4]
    s.mem = [![0, 0, 5], ![5, 5, 0]] ∧ step (mini 3) (fun _ => 1 / 4) euclid s p = (false, s) ∧
      ∀ a ∈ s.mem, ¬ Dominates (fun _ => true) a p := by
  intro s p
  have e : s.mem = [![0, 0, 5], ![5, 5, 0]] := by decide +kernel
  refine ⟨e, ?_, ?_⟩
  · have hne : s.mem ≠ [] := by rw [e]; simp
    rcases step_cases (mini 3) (fun _ => 1 / 4) euclid s p hne with h | ⟨h, -⟩
    · exact h.2
    · exfalso
      have : (changeBounds (mini 3) s p).1 = -1 := by decide +kernel
      rw [this] at h; simp at h
  · rw [e]
    intro a ha
    simp only [List.mem_cons, List.not_mem_nil, or_false] at ha
    rcases ha with rfl | rfl
    · intro h; have := h.1 2; simp only [NoWorse, p] at this; revert this; simp; norm_num
    · intro h; have := h.1 1; simp only [NoWorse, p] at this; revert this; simp

/-- The answer `true` does not mean that the newcomer was inserted. -/
theorem C160_true_without_insertion :
    let s := feed (mini 2) (fun _ => 1 / 20) euclid empty [![0, 10], ![10, 0], ![51 / 10, 52 / 10]]
    let p : Fin 2 → ℚ := ![53 / 10, 50 / 10]
    (step (mini 2) (fun _ => 1 / 20) euclid s p).1 = true ∧
      p ∉ (step (mini 2) (fun _ => 1 / 20) euclid s p).2.mem := by
  decide +kernel

/-- When an objective has the same value everywhere its coordinate of the box is not a number, two boxes
are never the same and a dominated newcomer can be inserted. -/
theorem C160_constant_objective :
    let s := feed (mini 3) (fun _ => 1 / 2) euclid empty [![0, 0, 5], ![0, 5, 0], ![0, 3, 3]]
    let p : Fin 3 → ℚ := ![0, 31 / 10, 31 / 10]
    let s' := (step (mini 3) (fun _ => 1 / 2) euclid s p).2
    (![0, 3, 3] : Fin 3 → ℚ) ∈ s'.mem ∧ p ∈ s'.mem ∧
      Dominates (fun _ => true) (![0, 3, 3] : Fin 3 → ℚ) p := by
  intro s p s'
  refine ⟨by decide +kernel, by decide +kernel, ?_⟩
  constructor
  · intro i; fin_cases i <;> simp [NoWorse, p] <;> norm_num
  · exact ⟨1, by simp [Better, p]; norm_num⟩

/-- The same vector offered three times is kept twice. -/
theorem C160_duplicates :
    (feed (mini 2) (fun _ => 1 / 4) euclid empty [![1, 2], ![1, 2], ![1, 2]]).mem = [![1, 2], ![1, 2]] := by
  decide +kernel

end Defects

end Paradiseo.Moeo.Eps
