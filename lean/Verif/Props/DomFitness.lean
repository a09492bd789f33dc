import Verif.Props.MoeoFitness
/-
C191: fitness by dominance count, rank and count-ranking agrees with dominance.
-/
namespace Paradiseo.Moeo

variable {V : Type}

/-- A comparator of objective vectors that is a strict order: `cmp u v` says that `v` dominates `u`. -/
structure StrictCmp (cmp : V → V → Bool) : Prop where
  irrefl : ∀ u, cmp u u = false
  trans : ∀ u v w, cmp u v = true → cmp v w = true → cmp u w = true

theorem StrictCmp.asymm {cmp : V → V → Bool} (h : StrictCmp cmp) (u v : V) (huv : cmp u v = true) : cmp v u = false := by
  by_contra hc
  have := h.trans u v u huv (by simpa using hc)
  rw [h.irrefl] at this
  cases this

/-- **C191** (copies not singled out).  Whatever was used before: one that dominates another has a greater
fitness by count, by rank and by count-ranking; those dominated by none, and only those, have the greatest fitness
by rank, the opposite of the start, and the greatest by count-ranking, 0. -/
theorem C191_dominance (cmp : V → V → Bool) (h : StrictCmp cmp) (eqv : V → V → Bool) (ov : Nat → V) (N : Nat)
    (cs : List Nat) (start : Int) :
    ∃ s, dmRun (fun p q => cmp (ov q) (ov p)) (fun p q => eqv (ov p) (ov q)) false N cs = some s ∧
    (∀ a < N, ∀ b < N, cmp (ov b) (ov a) = true →
      countFitness s b < countFitness s a ∧ rankFitness start s b < rankFitness start s a ∧
      countRanking s N b < countRanking s N a) ∧
    (∀ a < N, rankFitness start s a ≤ -start ∧
      (rankFitness start s a = -start ↔ ∀ b < N, cmp (ov a) (ov b) = false) ∧
      countRanking s N a ≤ 0 ∧ (countRanking s N a = 0 ↔ ∀ b < N, cmp (ov a) (ov b) = false)) := by
  obtain ⟨s, h1, _, h3, h4⟩ := C40_matrix cmp h.asymm eqv ov N cs
  obtain ⟨s', h1', h5⟩ := C40_count_ranking cmp h.asymm eqv ov N cs
  rw [h1] at h1'
  cases h1'
  have dominators : ∀ a < N, ∀ b < N, cmp (ov b) (ov a) = true →
      insert a ((Finset.range N).filter fun k => cmp (ov a) (ov k) = true) ⊆
        (Finset.range N).filter fun k => cmp (ov b) (ov k) = true := by
    intro a ha b hb hab k hk
    rw [Finset.mem_insert] at hk
    rcases hk with rfl | hk
    · simp [ha, hab]
    · simp only [Finset.mem_filter, Finset.mem_range] at hk ⊢
      exact ⟨hk.1, h.trans _ _ _ hab hk.2⟩
  have notself : ∀ a, a ∉ (Finset.range N).filter fun k => cmp (ov a) (ov k) = true := by
    intro a ha
    have := (Finset.mem_filter.1 ha).2
    rw [h.irrefl] at this
    cases this
  have cnt_nonneg : ∀ k, (0 : Int) ≤ (((Finset.range N).filter fun b => cmp (ov b) (ov k) = true).card : Int) :=
    fun k => Int.natCast_nonneg _
  refine ⟨s, h1, ?_, ?_⟩
  · intro a ha b hb hab
    refine ⟨?_, ?_, ?_⟩
    · show s.count b < s.count a
      rw [h3 a ha, h3 b hb]
      have hsub : (Finset.range N).filter (fun k => cmp (ov k) (ov b) = true) ⊂
          (Finset.range N).filter fun k => cmp (ov k) (ov a) = true := by
        rw [Finset.ssubset_iff_of_subset]
        · refine ⟨b, by simp [hb, hab], ?_⟩
          intro hm
          have := (Finset.mem_filter.1 hm).2
          rw [h.irrefl] at this
          cases this
        · intro k hk
          simp only [Finset.mem_filter, Finset.mem_range] at hk ⊢
          exact ⟨hk.1, h.trans _ _ _ hk.2 hab⟩
      exact_mod_cast Finset.card_lt_card hsub
    · show -(s.rank b + start) < -(s.rank a + start)
      have hc := Finset.card_le_card (dominators a ha b hb hab)
      rw [Finset.card_insert_of_notMem (notself a)] at hc
      have h4a := h4 a ha
      have h4b := h4 b hb
      omega
    · rw [h5 a ha, h5 b hb]
      have hs := Finset.sum_le_sum_of_subset_of_nonneg (dominators a ha b hb hab)
        (f := fun k => (((Finset.range N).filter fun b => cmp (ov b) (ov k) = true).card : Int))
        (fun k _ _ => cnt_nonneg k)
      rw [Finset.sum_insert (notself a)] at hs
      have hpos : 0 < ((Finset.range N).filter fun k => cmp (ov k) (ov a) = true).card :=
        Finset.card_pos.2 ⟨b, by simp [hb, hab]⟩
      have hpos' : (0 : Int) < (((Finset.range N).filter fun k => cmp (ov k) (ov a) = true).card : Int) := by
        exact_mod_cast hpos
      linarith
  · intro a ha
    have hra := h4 a ha
    have hz : (((Finset.range N).filter fun k => cmp (ov a) (ov k) = true).card = 0) ↔ ∀ b < N, cmp (ov a) (ov b) = false := by
      rw [Finset.card_eq_zero, Finset.filter_eq_empty_iff]
      constructor
      · intro hh b hb
        have := hh (Finset.mem_range.2 hb)
        simpa using this
      · intro hh b hb
        rw [hh b (Finset.mem_range.1 hb)]
        simp
    refine ⟨?_, ?_, ?_, ?_⟩
    · show -(s.rank a + start) ≤ -start
      omega
    · show -(s.rank a + start) = -start ↔ _
      rw [← hz]
      omega
    · rw [h5 a ha]
      have := Finset.sum_nonneg (s := (Finset.range N).filter fun k => cmp (ov a) (ov k) = true)
        (f := fun k => (((Finset.range N).filter fun b => cmp (ov b) (ov k) = true).card : Int)) (fun k _ => cnt_nonneg k)
      linarith
    · rw [h5 a ha, neg_eq_zero, Finset.sum_eq_zero_iff_of_nonneg (fun k _ => cnt_nonneg k)]
      constructor
      · intro hh b hb
        by_contra hc
        have hc : cmp (ov a) (ov b) = true := by simpa using hc
        have := hh b (by simp [hb, hc])
        have h0 : ((Finset.range N).filter fun k => cmp (ov k) (ov b) = true).card = 0 := by exact_mod_cast this
        rw [Finset.card_eq_zero] at h0
        have hm : a ∈ (Finset.range N).filter fun k => cmp (ov k) (ov b) = true := by simp [ha, hc]
        rw [h0] at hm
        exact absurd hm (Finset.notMem_empty _)
      · intro hh k hk
        have := (Finset.mem_filter.1 hk)
        rw [hh k (Finset.mem_range.1 this.1)] at this
        exact absurd this.2 (by simp)

/-- **C191** (copies singled out, first use).  By rank, one that dominates another has a greater fitness if it is
no copy itself, and every copy has a smaller fitness than every one that is none. -/
theorem C191_nocopy [DecidableEq V] (cmp : V → V → Bool) (h : StrictCmp cmp) (ov : Nat → V) (N : Nat) (start : Int) :
    ∃ s, dmRun (fun p q => cmp (ov q) (ov p)) (fun p q => decide (ov p = ov q)) true N [] = some s ∧
    (∀ a < N, ∀ b < N, (∀ k < a, ov k ≠ ov a) → (cmp (ov b) (ov a) = true ∨ ∃ k < b, ov k = ov b) →
      rankFitness start s b < rankFitness start s a) := by
  obtain ⟨s, h1, h2, h3, _, h5, h6⟩ := C40_nocopy cmp h.asymm ov N [] List.nodup_nil (fun c hc => nomatch hc)
  refine ⟨s, h1, ?_⟩
  intro a ha b hb hna hab
  have hca : ¬ IsCopy ov N [] a := by
    rintro (hc | ⟨_, k, hk, e⟩)
    · cases hc
    · exact hna k hk e
  have hra := (h5 a ha hca).2
  show -(s.rank b + start) < -(s.rank a + start)
  by_cases hcb : IsCopy ov N [] b
  · have hrb := (h6 b hcb).2
    -- the dominators of `a` that are no copies, `a` itself and the copies are all different
    have hA : ((Finset.range N).filter fun b => b ∉ s.copySet ∧ cmp (ov a) (ov b) = true).card + 1 ≤
        ((Finset.range N).filter fun b => b ∉ s.copySet).card := by
      have hsub : insert a ((Finset.range N).filter fun b => b ∉ s.copySet ∧ cmp (ov a) (ov b) = true) ⊆
          (Finset.range N).filter fun b => b ∉ s.copySet := by
        intro k hk
        rw [Finset.mem_insert] at hk
        rcases hk with rfl | hk
        · simp only [Finset.mem_filter, Finset.mem_range]
          exact ⟨ha, fun hm => hca ((h2 k).1 hm)⟩
        · simp only [Finset.mem_filter, Finset.mem_range] at hk ⊢
          exact ⟨hk.1, hk.2.1⟩
      have := Finset.card_le_card hsub
      rwa [Finset.card_insert_of_notMem] at this
      intro hm
      have := (Finset.mem_filter.1 hm).2.2
      rw [h.irrefl] at this
      cases this
    have hB : ((Finset.range N).filter fun b => b ∉ s.copySet).card + s.copySet.length = N := by
      have e1 : ((Finset.range N).filter fun b => b ∈ s.copySet).card = s.copySet.length := by
        rw [← List.toFinset_card_of_nodup h3]
        congr 1
        ext k
        simp only [Finset.mem_filter, Finset.mem_range, List.mem_toFinset]
        refine ⟨fun hk => hk.2, fun hk => ⟨?_, hk⟩⟩
        rcases (h2 k).1 hk with hc | ⟨hc, _⟩
        · cases hc
        · exact hc
      have e2 := Finset.card_filter_add_card_filter_not (s := Finset.range N) (fun b => b ∈ s.copySet)
      rw [Finset.card_range] at e2
      omega
    omega
  · have hrb := (h5 b hb hcb).2
    have hab : cmp (ov b) (ov a) = true := by
      rcases hab with h | h
      · exact h
      · exact absurd (Or.inr ⟨hb, h⟩) hcb
    have hsub : insert a ((Finset.range N).filter fun k => k ∉ s.copySet ∧ cmp (ov a) (ov k) = true) ⊆
        (Finset.range N).filter fun k => k ∉ s.copySet ∧ cmp (ov b) (ov k) = true := by
      intro k hk
      rw [Finset.mem_insert] at hk
      rcases hk with rfl | hk
      · simp only [Finset.mem_filter, Finset.mem_range]
        exact ⟨ha, fun hm => hca ((h2 k).1 hm), hab⟩
      · simp only [Finset.mem_filter, Finset.mem_range] at hk ⊢
        exact ⟨hk.1, hk.2.1, h.trans _ _ _ hab hk.2.2⟩
    have := Finset.card_le_card hsub
    rw [Finset.card_insert_of_notMem] at this
    · omega
    · intro hm
      have := (Finset.mem_filter.1 hm).2.2
      rw [h.irrefl] at this
      cases this

/-- The order of the numbers is one such comparator. -/
example : StrictCmp (fun u v : ℚ => decide (v < u)) :=
  ⟨fun u => by simp, fun u v w h1 h2 => by simp only [decide_eq_true_eq] at *; exact h2.trans h1⟩

end Paradiseo.Moeo
