import Verif.Lemmas.IntervalSets
/-
C286: intervals as sets, and the comparisons of intervals.  `In v X`: `v`, a number or an infinity, belongs to `X`.
-/
namespace Paradiseo.IvLib

open Fl

variable {K : Type} [Field K] [LinearOrder K]

/-! ## Sets -/

/-- **C286 (membership).** -/
theorem C286_in (v : Fl K) (X : Iv K) : isIn v X = true ↔ In v X := by
  rw [isIn]
  split
  · next h =>
    refine ⟨fun h' => absurd h' (by simp), fun h' => ?_⟩
    rw [in_not_empty h'] at h
    have hv := ((in_iff (in_not_empty h')).1 h').1
    simp [hv] at h
  · rw [Bool.and_eq_true, In]

/-- **C286 (empty).** -/
theorem C286_empty (X : Iv K) : empty X = true ↔ ∀ v, ¬In v X := by
  refine ⟨fun h v hv => ?_, fun h => ?_⟩
  · rw [in_not_empty hv] at h
    cases h
  · by_contra hc
    exact h _ (lo_in (by simpa using hc))

/-- **C286 (subset).** -/
theorem C286_subset (X Y : Iv K) : subset X Y = true ↔ ∀ v, In v X → In v Y := by
  rw [subset]
  split
  · next h => exact ⟨fun _ v hv => absurd hv ((C286_empty X).1 h v), fun _ => rfl⟩
  · next h =>
    have hX : empty X = false := by simpa using h
    rw [Bool.and_eq_true, Bool.and_eq_true, Bool.not_eq_true']
    refine ⟨?_, fun h => ?_⟩
    · rintro ⟨⟨hY, h1⟩, h2⟩ v hv
      rw [in_iff hX] at hv
      rw [in_iff hY]
      rw [le_iff] at h1 h2
      exact ⟨hv.1, h1.2.2.trans hv.2.1, hv.2.2.trans h2.2.2⟩
    · have hl := h _ (lo_in hX)
      exact ⟨⟨in_not_empty hl, hl.1⟩, (h _ (up_in hX)).2⟩

/-- **C286 (equal).** -/
theorem C286_equal (X Y : Iv K) : equal X Y = true ↔ ∀ v, In v X ↔ In v Y := by
  rw [equal]
  split
  · next h =>
    rw [C286_empty] at h ⊢
    exact ⟨fun h' v => ⟨fun hv => absurd hv (h v), fun hv => absurd hv (h' v)⟩, fun h' v hv => h v ((h' v).2 hv)⟩
  · next h =>
    have hX : empty X = false := by simpa using h
    rw [Bool.and_eq_true, Bool.and_eq_true, Bool.not_eq_true']
    refine ⟨?_, fun h => ?_⟩
    · rintro ⟨⟨hY, h1⟩, h2⟩ v
      rw [in_iff hX, in_iff hY]
      rw [eq_iff] at h1 h2
      rw [h1.2.2, h2.2.2]
    · have h1 := (h _).1 (lo_in hX)
      have hY := in_not_empty h1
      have h2 := (h _).1 (up_in hX)
      have h3 := (h _).2 (lo_in hY)
      have h4 := (h _).2 (up_in hY)
      rw [in_iff hY] at h1 h2
      rw [in_iff hX] at h3 h4
      refine ⟨⟨hY, ?_⟩, ?_⟩
      · rw [eq_iff]; exact ⟨h1.1, h3.1, le_antisymm h3.2.1 h1.2.1⟩
      · rw [eq_iff]; exact ⟨h2.1, h4.1, le_antisymm h2.2.2 h4.2.2⟩

/-- **C286 (proper subset).** -/
theorem C286_proper (X Y : Iv K) :
    properSubset X Y = true ↔ (∀ v, In v X → In v Y) ∧ ∃ v, In v Y ∧ ¬In v X := by
  have key : properSubset X Y = (subset X Y && !equal X Y) := by
    rw [properSubset, subset, equal]
    cases hY : empty Y <;> cases hX : empty X <;> simp
    have e1 : Fl.eq Y.lo X.lo = Fl.eq X.lo Y.lo := by
      cases Y.lo <;> cases X.lo <;> simp [Fl.eq, eq_comm]
    rw [e1]
  rw [key, Bool.and_eq_true, Bool.not_eq_true', C286_subset, ← Bool.not_eq_true, C286_equal]
  refine and_congr_right fun h => ⟨fun hn => ?_, ?_⟩
  · by_contra hc
    push Not at hc
    exact hn fun v => ⟨h v, hc v⟩
  · rintro ⟨v, h1, h2⟩ he
    exact h2 ((he v).2 h1)

/-- **C286 (intersection).** -/
theorem C286_intersect (X Y : Iv K) (v : Fl K) : In v (intersect X Y) ↔ In v X ∧ In v Y := by
  rw [intersect]
  split
  · next h =>
    refine ⟨fun h' => absurd h' (in_none v), ?_⟩
    rintro ⟨h1, h2⟩
    rw [in_not_empty h1, in_not_empty h2] at h
    cases h
  · next h =>
    simp only [Bool.or_eq_true, not_or, Bool.not_eq_true] at h
    obtain ⟨hX, hY⟩ := h
    have eX := empty_iff.1 hX
    have eY := empty_iff.1 hY
    have m1 := max_eq eX.1 eY.1
    have m2 := min_eq eX.2.1 eY.2.1
    split
    · next h =>
      have hE : empty (⟨Fl.max X.lo Y.lo, Fl.min X.up Y.up⟩ : Iv K) = false := by rw [empty]; simp [h]
      rw [in_iff hE, in_iff hX, in_iff hY]
      dsimp only
      rw [m1.2, m2.2, max_le_iff, le_min_iff]
      tauto
    · next h =>
      refine ⟨fun h' => absurd h' (in_none v), ?_⟩
      rintro ⟨h1, h2⟩
      rw [in_iff hX] at h1
      rw [in_iff hY] at h2
      refine absurd ?_ h
      rw [le_iff]
      refine ⟨m1.1, m2.1, ?_⟩
      rw [m1.2, m2.2]
      exact (max_le h1.2.1 h2.2.1).trans (le_min h1.2.2 h2.2.2)

/-- **C286 (hull).** The hull of two intervals contains both, and is contained in every interval that does. -/
theorem C286_hull (X Y : Iv K) : (∀ v, In v X ∨ In v Y → In v (hull X Y)) ∧
    ∀ Z, (∀ v, In v X ∨ In v Y → In v Z) → ∀ v, In v (hull X Y) → In v Z := by
  rw [hull]
  split
  · next h =>
    have hX := (C286_empty X).1 h
    split
    · next h2 =>
      have hY := (C286_empty Y).1 h2
      exact ⟨fun v hv => by rcases hv with hv | hv <;> [exact absurd hv (hX v); exact absurd hv (hY v)],
        fun Z _ v hv => absurd hv (in_none v)⟩
    · exact ⟨fun v hv => by rcases hv with hv | hv <;> [exact absurd hv (hX v); exact hv], fun Z hZ v hv => hZ v (Or.inr hv)⟩
  · next h =>
    split
    · next h2 =>
      have hY := (C286_empty Y).1 h2
      exact ⟨fun v hv => by rcases hv with hv | hv <;> [exact hv; exact absurd hv (hY v)], fun Z hZ v hv => hZ v (Or.inl hv)⟩
    · next h2 =>
      have hX : empty X = false := by simpa using h
      have hY : empty Y = false := by simpa using h2
      have eX := empty_iff.1 hX
      have eY := empty_iff.1 hY
      have m1 := min_eq eX.1 eY.1
      have m2 := max_eq eX.2.1 eY.2.1
      have hE : empty (⟨Fl.min X.lo Y.lo, Fl.max X.up Y.up⟩ : Iv K) = false := by
        rw [empty_iff]
        refine ⟨m1.1, m2.1, ?_⟩
        dsimp only
        rw [m1.2, m2.2]
        exact (min_le_left _ _).trans (eX.2.2.trans (le_max_left _ _))
      refine ⟨fun v hv => ?_, fun Z hZ v hv => ?_⟩
      · rw [in_iff hE]
        dsimp only
        rw [m1.2, m2.2]
        rcases hv with hv | hv
        · rw [in_iff hX] at hv
          exact ⟨hv.1, (min_le_left _ _).trans hv.2.1, hv.2.2.trans (le_max_left _ _)⟩
        · rw [in_iff hY] at hv
          exact ⟨hv.1, (min_le_right _ _).trans hv.2.1, hv.2.2.trans (le_max_right _ _)⟩
      · rw [in_iff hE] at hv
        dsimp only at hv
        rw [m1.2, m2.2] at hv
        have z1 := hZ _ (Or.inl (lo_in hX))
        have z2 := hZ _ (Or.inl (up_in hX))
        have z3 := hZ _ (Or.inr (lo_in hY))
        have z4 := hZ _ (Or.inr (up_in hY))
        have hZe := in_not_empty z1
        rw [in_iff hZe] at z1 z2 z3 z4 ⊢
        exact ⟨hv.1, (le_min z1.2.1 z3.2.1).trans hv.2.1, hv.2.2.trans (max_le z2.2.2 z4.2.2)⟩

/-- **C286 (overlap).** -/
theorem C286_overlap (X Y : Iv K) : overlap X Y = true ↔ ∃ v, In v X ∧ In v Y := by
  rw [overlap]
  split
  · next h =>
    refine ⟨fun h' => absurd h' (by simp), ?_⟩
    rintro ⟨v, h1, h2⟩
    rw [in_not_empty h1, in_not_empty h2] at h
    cases h
  · next h =>
    simp only [Bool.or_eq_true, not_or, Bool.not_eq_true] at h
    obtain ⟨hX, hY⟩ := h
    have eX := empty_iff.1 hX
    have eY := empty_iff.1 hY
    rw [Bool.or_eq_true, Bool.and_eq_true, Bool.and_eq_true]
    refine ⟨?_, ?_⟩
    · rintro (⟨h1, h2⟩ | ⟨h1, h2⟩)
      · exact ⟨Y.lo, ⟨h1, h2⟩, lo_in hY⟩
      · exact ⟨X.lo, lo_in hX, ⟨h1, h2⟩⟩
    · rintro ⟨v, h1, h2⟩
      rw [in_iff hX] at h1
      rw [in_iff hY] at h2
      rcases le_total (toE X.lo) (toE Y.lo) with h | h
      · left
        rw [le_iff, le_iff]
        exact ⟨⟨eX.1, eY.1, h⟩, eY.1, eX.2.1, h2.2.1.trans h1.2.2⟩
      · right
        rw [le_iff, le_iff]
        exact ⟨⟨eY.1, eX.1, h⟩, eX.1, eY.2.1, h1.2.1.trans h2.2.2⟩

/-- **C286 (singleton).** -/
theorem C286_singleton (X : Iv K) : singleton X = true ↔ ∃ v, ∀ w, In w X ↔ w = v := by
  rw [singleton, Bool.and_eq_true, Bool.not_eq_true']
  refine ⟨?_, ?_⟩
  · rintro ⟨hX, h⟩
    rw [eq_iff] at h
    refine ⟨X.lo, fun w => ⟨fun hw => ?_, ?_⟩⟩
    · rw [in_iff hX] at hw
      exact toE_inj hw.1 h.1 (le_antisymm (hw.2.2.trans h.2.2.ge) hw.2.1)
    · rintro rfl
      exact lo_in hX
  · rintro ⟨v, hv⟩
    have hX := in_not_empty ((hv v).2 rfl)
    have e := empty_iff.1 hX
    refine ⟨hX, ?_⟩
    rw [eq_iff, (hv _).1 (lo_in hX), (hv _).1 (up_in hX)]
    rw [(hv _).1 (lo_in hX)] at e
    exact ⟨e.1, e.1, rfl⟩

/-- **C286 (bisection).** Cut at one of its numbers, an interval is the union of the two parts, which share that number
only. -/
theorem C286_bisect (X : Iv K) (m v : Fl K) (hm : In m X) :
    (In v X ↔ In v (bisect m X).1 ∨ In v (bisect m X).2) ∧ (In v (bisect m X).1 → In v (bisect m X).2 → v = m) := by
  have hX := in_not_empty hm
  rw [bisect, hX]
  rw [in_iff hX] at hm
  have e := empty_iff.1 hX
  have h1 : empty (⟨X.lo, m⟩ : Iv K) = false := by rw [empty_iff]; exact ⟨e.1, hm.1, hm.2.1⟩
  have h2 : empty (⟨m, X.up⟩ : Iv K) = false := by rw [empty_iff]; exact ⟨hm.1, e.2.1, hm.2.2⟩
  simp only [Bool.false_eq_true, if_false]
  rw [in_iff hX, in_iff h1, in_iff h2]
  dsimp only
  refine ⟨⟨fun hv => ?_, ?_⟩, fun hv hw => toE_inj hv.1 hm.1 (le_antisymm hv.2.2 hw.2.1)⟩
  · rcases le_total (toE v) (toE m) with h | h
    · exact Or.inl ⟨hv.1, hv.2.1, h⟩
    · exact Or.inr ⟨hv.1, h, hv.2.2⟩
  · rintro (hv | hv)
    · exact ⟨hv.1, hv.2.1, hv.2.2.trans hm.2.2⟩
    · exact ⟨hv.1, hm.2.1.trans hv.2.1, hv.2.2⟩

/-- **C286 (greatest and least).** `max` and `min` of two intervals are the sets of maxima and minima. -/
theorem C286_max_min (X Y : Iv K) (w : Fl K) :
    (In w (imax X Y) ↔ ∃ u v, In u X ∧ In v Y ∧ w = Fl.max u v) ∧
    (In w (imin X Y) ↔ ∃ u v, In u X ∧ In v Y ∧ w = Fl.min u v) := by
  by_cases h : (empty X || empty Y) = true
  · rw [imax, imin, if_pos h, if_pos h]
    have hno : ∀ u v, In u X → In v Y → False := by
      intro u v hu hv
      rw [in_not_empty hu, in_not_empty hv] at h
      cases h
    exact ⟨⟨fun h' => absurd h' (in_none w), fun ⟨u, v, hu, hv, _⟩ => (hno u v hu hv).elim⟩,
      ⟨fun h' => absurd h' (in_none w), fun ⟨u, v, hu, hv, _⟩ => (hno u v hu hv).elim⟩⟩
  · rw [imax, imin, if_neg h, if_neg h]
    simp only [Bool.or_eq_true, not_or, Bool.not_eq_true] at h
    obtain ⟨hX, hY⟩ := h
    have eX := empty_iff.1 hX
    have eY := empty_iff.1 hY
    have a1 := max_eq eX.1 eY.1
    have a2 := max_eq eX.2.1 eY.2.1
    have a3 := min_eq eX.1 eY.1
    have a4 := min_eq eX.2.1 eY.2.1
    have hE1 : empty (⟨Fl.max X.lo Y.lo, Fl.max X.up Y.up⟩ : Iv K) = false := by
      rw [empty_iff]
      refine ⟨a1.1, a2.1, ?_⟩
      dsimp only
      rw [a1.2, a2.2]
      exact max_le_max eX.2.2 eY.2.2
    have hE2 : empty (⟨Fl.min X.lo Y.lo, Fl.min X.up Y.up⟩ : Iv K) = false := by
      rw [empty_iff]
      refine ⟨a3.1, a4.1, ?_⟩
      dsimp only
      rw [a3.2, a4.2]
      exact min_le_min eX.2.2 eY.2.2
    rw [in_iff hE1, in_iff hE2]
    dsimp only
    rw [a1.2, a2.2, a3.2, a4.2]
    refine ⟨⟨fun hw => ?_, ?_⟩, ⟨fun hw => ?_, ?_⟩⟩
    · rw [max_le_iff, le_max_iff] at hw
      rcases hw.2.2 with hu | hu
      · refine ⟨w, Y.lo, (in_iff hX).2 ⟨hw.1, hw.2.1.1, hu⟩, lo_in hY, ?_⟩
        have := max_eq hw.1 eY.1
        exact toE_inj hw.1 this.1 (by rw [this.2, max_eq_left hw.2.1.2])
      · refine ⟨X.lo, w, lo_in hX, (in_iff hY).2 ⟨hw.1, hw.2.1.2, hu⟩, ?_⟩
        have := max_eq eX.1 hw.1
        exact toE_inj hw.1 this.1 (by rw [this.2, max_eq_right hw.2.1.1])
    · rintro ⟨u, v, hu, hv, rfl⟩
      rw [in_iff hX] at hu
      rw [in_iff hY] at hv
      have := max_eq hu.1 hv.1
      rw [this.2]
      exact ⟨this.1, max_le_max hu.2.1 hv.2.1, max_le_max hu.2.2 hv.2.2⟩
    · rw [min_le_iff, le_min_iff] at hw
      rcases hw.2.1 with hu | hu
      · refine ⟨w, Y.up, (in_iff hX).2 ⟨hw.1, hu, hw.2.2.1⟩, up_in hY, ?_⟩
        have := min_eq hw.1 eY.2.1
        exact toE_inj hw.1 this.1 (by rw [this.2, min_eq_left hw.2.2.2])
      · refine ⟨X.up, w, up_in hX, (in_iff hY).2 ⟨hw.1, hu, hw.2.2.2⟩, ?_⟩
        have := min_eq eX.2.1 hw.1
        exact toE_inj hw.1 this.1 (by rw [this.2, min_eq_right hw.2.2.1])
    · rintro ⟨u, v, hu, hv, rfl⟩
      rw [in_iff hX] at hu
      rw [in_iff hY] at hv
      have := min_eq hu.1 hv.1
      rw [this.2]
      exact ⟨this.1, min_le_min hu.2.1 hv.2.1, min_le_min hu.2.2 hv.2.2⟩

/-! ## Comparisons -/

/-- **C286 (certain comparisons).** Of two intervals that are not empty, `<`, `<=`, `==` answer yes if every pair of
numbers is so related, no if no pair is, and throw otherwise. -/
theorem C286_compare (X Y : Iv K) (hX : empty X = false) (hY : empty Y = false) :
    (clt X Y = some true ↔ ∀ u v, In u X → In v Y → lt u v = true) ∧
    (clt X Y = some false ↔ ∀ u v, In u X → In v Y → lt u v = false) ∧
    (cle X Y = some true ↔ ∀ u v, In u X → In v Y → le u v = true) ∧
    (cle X Y = some false ↔ ∀ u v, In u X → In v Y → le u v = false) ∧
    (ceq X Y = some true ↔ ∀ u v, In u X → In v Y → Fl.eq u v = true) ∧
    (ceq X Y = some false ↔ ∀ u v, In u X → In v Y → Fl.eq u v = false) := by
  have eX := empty_iff.1 hX
  have eY := empty_iff.1 hY
  have lf : ∀ u v : Fl K, u ≠ .nan → v ≠ .nan → (lt u v = false ↔ toE v ≤ toE u) := by
    intro u v hu hv
    rw [← Bool.not_eq_true, lt_iff]
    simp [hu, hv]
  have ef : ∀ u v : Fl K, u ≠ .nan → v ≠ .nan → (le u v = false ↔ toE v < toE u) := by
    intro u v hu hv
    rw [← Bool.not_eq_true, le_iff]
    simp [hu, hv]
  have qf : ∀ u v : Fl K, u ≠ .nan → v ≠ .nan → (Fl.eq u v = false ↔ toE u ≠ toE v) := by
    intro u v hu hv
    rw [← Bool.not_eq_true, eq_iff]
    simp [hu, hv]
  have q1 : lt X.up Y.lo = true ↔ toE X.up < toE Y.lo := by rw [lt_iff]; simp [eX.2.1, eY.1]
  have q2 : le Y.up X.lo = true ↔ toE Y.up ≤ toE X.lo := by rw [le_iff]; simp [eX.1, eY.2.1]
  have q3 : le X.up Y.lo = true ↔ toE X.up ≤ toE Y.lo := by rw [le_iff]; simp [eX.2.1, eY.1]
  have q4 : lt Y.up X.lo = true ↔ toE Y.up < toE X.lo := by rw [lt_iff]; simp [eX.1, eY.2.1]
  have q5 : Fl.eq X.up Y.lo = true ↔ toE X.up = toE Y.lo := by rw [eq_iff]; simp [eX.2.1, eY.1]
  have q6 : Fl.eq X.lo Y.up = true ↔ toE X.lo = toE Y.up := by rw [eq_iff]; simp [eX.1, eY.2.1]
  have hxl := lo_in hX
  have hxu := up_in hX
  have hyl := lo_in hY
  have hyu := up_in hY
  have gX := eX.2.2
  have gY := eY.2.2
  rw [clt, cle, ceq, hX, hY]
  simp only [Bool.or_self, Bool.false_eq_true, if_false, Bool.and_eq_true, Bool.or_eq_true, q1, q2, q3, q4, q5, q6]
  refine ⟨?_, ?_, ?_, ?_, ?_, ?_⟩
  · rw [show ((if toE X.up < toE Y.lo then some true else if toE Y.up ≤ toE X.lo then some false else .none) = some true ↔
      toE X.up < toE Y.lo) by split_ifs <;> simp_all]
    refine ⟨fun h u v hu hv => ?_, fun h => q1.1 (h _ _ hxu hyl)⟩
    rw [in_iff hX] at hu
    rw [in_iff hY] at hv
    rw [lt_iff]
    exact ⟨hu.1, hv.1, hu.2.2.trans_lt (h.trans_le hv.2.1)⟩
  · rw [show ((if toE X.up < toE Y.lo then some true else if toE Y.up ≤ toE X.lo then some false else .none) = some false ↔
      toE Y.up ≤ toE X.lo) by
        split_ifs with h1 h2 <;> simp_all
        order]
    refine ⟨fun h u v hu hv => ?_, fun h => (lf _ _ eX.1 eY.2.1).1 (h _ _ hxl hyu)⟩
    rw [in_iff hX] at hu
    rw [in_iff hY] at hv
    rw [lf _ _ hu.1 hv.1]
    exact hv.2.2.trans (h.trans hu.2.1)
  · rw [show ((if toE X.up ≤ toE Y.lo then some true else if toE Y.up < toE X.lo then some false else .none) = some true ↔
      toE X.up ≤ toE Y.lo) by split_ifs <;> simp_all]
    refine ⟨fun h u v hu hv => ?_, fun h => q3.1 (h _ _ hxu hyl)⟩
    rw [in_iff hX] at hu
    rw [in_iff hY] at hv
    rw [le_iff]
    exact ⟨hu.1, hv.1, hu.2.2.trans (h.trans hv.2.1)⟩
  · rw [show ((if toE X.up ≤ toE Y.lo then some true else if toE Y.up < toE X.lo then some false else .none) = some false ↔
      toE Y.up < toE X.lo) by
        split_ifs with h1 h2 <;> simp_all
        order]
    refine ⟨fun h u v hu hv => ?_, fun h => (ef _ _ eX.1 eY.2.1).1 (h _ _ hxl hyu)⟩
    rw [in_iff hX] at hu
    rw [in_iff hY] at hv
    rw [ef _ _ hu.1 hv.1]
    exact hv.2.2.trans_lt (h.trans_le hu.2.1)
  · rw [show ((if toE X.up = toE Y.lo ∧ toE X.lo = toE Y.up then some true else
        if toE X.up < toE Y.lo ∨ toE Y.up < toE X.lo then some false else .none) = some true ↔
      toE X.up = toE Y.lo ∧ toE X.lo = toE Y.up) by split_ifs <;> simp_all]
    refine ⟨fun h u v hu hv => ?_, fun h => ⟨q5.1 (h _ _ hxu hyl), q6.1 (h _ _ hxl hyu)⟩⟩
    rw [in_iff hX] at hu
    rw [in_iff hY] at hv
    rw [eq_iff]
    refine ⟨hu.1, hv.1, ?_⟩
    obtain ⟨-, h1, h2⟩ := hu
    obtain ⟨-, h3, h4⟩ := hv
    obtain ⟨h5, h6⟩ := h
    order
  · rw [show ((if toE X.up = toE Y.lo ∧ toE X.lo = toE Y.up then some true else
        if toE X.up < toE Y.lo ∨ toE Y.up < toE X.lo then some false else .none) = some false ↔
      (toE X.up < toE Y.lo ∨ toE Y.up < toE X.lo)) by
        split_ifs with h1 h2 <;> simp_all]
    refine ⟨fun h u v hu hv => ?_, fun h => ?_⟩
    · rw [in_iff hX] at hu
      rw [in_iff hY] at hv
      rw [qf _ _ hu.1 hv.1]
      rcases h with h | h
      · exact (hu.2.2.trans_lt (h.trans_le hv.2.1)).ne
      · exact (hv.2.2.trans_lt (h.trans_le hu.2.1)).ne'
    · by_contra hc
      push Not at hc
      have hov : overlap X Y = true := by
        rw [overlap, hX, hY]
        simp only [Bool.or_self, Bool.false_eq_true, if_false, Bool.or_eq_true, Bool.and_eq_true]
        rw [le_iff, le_iff, le_iff, le_iff]
        rcases le_total (toE X.lo) (toE Y.lo) with h' | h'
        · exact Or.inl ⟨⟨eX.1, eY.1, h'⟩, eY.1, eX.2.1, hc.1⟩
        · exact Or.inr ⟨⟨eY.1, eX.1, h'⟩, eX.1, eY.2.1, hc.2⟩
      obtain ⟨v, h1, h2⟩ := (C286_overlap X Y).1 hov
      have := h v v h1 h2
      rw [in_iff hX] at h1
      rw [qf _ _ h1.1 h1.1] at this
      exact this rfl

/-- **C286 (comparing the empty interval).** Comparing with an empty interval throws. -/
theorem C286_compare_empty (X Y : Iv K) (h : empty X = true ∨ empty Y = true) :
    clt X Y = .none ∧ cle X Y = .none ∧ ceq X Y = .none := by
  rcases h with h | h <;> simp [clt, cle, ceq, h]

/-- **C286 (explicit comparisons).** Of two intervals that are not empty: "certainly less" is about all the pairs,
"possibly" about some pair. -/
theorem C286_explicit (X Y : Iv K) (hX : empty X = false) (hY : empty Y = false) :
    (cerlt X Y = true ↔ ∀ u v, In u X → In v Y → lt u v = true) ∧
    (poslt X Y = true ↔ ∃ u v, In u X ∧ In v Y ∧ lt u v = true) ∧
    (posle X Y = true ↔ ∃ u v, In u X ∧ In v Y ∧ le u v = true) ∧
    (poseq X Y = true ↔ ∃ v, In v X ∧ In v Y) ∧
    (posne X Y = true ↔ ∃ u v, In u X ∧ In v Y ∧ u ≠ v) := by
  have eX := empty_iff.1 hX
  have eY := empty_iff.1 hY
  refine ⟨?_, ?_, ?_, ?_, ?_⟩
  · rw [cerlt]
    refine ⟨fun h u v hu hv => ?_, fun h => h _ _ (up_in hX) (lo_in hY)⟩
    rw [in_iff hX] at hu
    rw [in_iff hY] at hv
    rw [lt_iff] at h ⊢
    exact ⟨hu.1, hv.1, hu.2.2.trans_lt (h.2.2.trans_le hv.2.1)⟩
  · rw [poslt]
    refine ⟨fun h => ⟨_, _, lo_in hX, up_in hY, h⟩, ?_⟩
    rintro ⟨u, v, hu, hv, h⟩
    rw [in_iff hX] at hu
    rw [in_iff hY] at hv
    rw [lt_iff] at h ⊢
    exact ⟨eX.1, eY.2.1, hu.2.1.trans_lt (h.2.2.trans_le hv.2.2)⟩
  · rw [posle]
    refine ⟨fun h => ⟨_, _, lo_in hX, up_in hY, h⟩, ?_⟩
    rintro ⟨u, v, hu, hv, h⟩
    rw [in_iff hX] at hu
    rw [in_iff hY] at hv
    rw [le_iff] at h ⊢
    exact ⟨eX.1, eY.2.1, hu.2.1.trans (h.2.2.trans hv.2.2)⟩
  · rw [← C286_overlap, poseq, overlap, hX, hY]
    simp only [Bool.or_self, Bool.false_eq_true, if_false, Bool.or_eq_true, Bool.and_eq_true]
    rw [le_iff, le_iff, le_iff, le_iff]
    simp only [ne_eq, eX.1, eX.2.1, eY.1, eY.2.1, not_false_eq_true, true_and]
    refine ⟨fun h => ?_, ?_⟩
    · rcases le_total (toE X.lo) (toE Y.lo) with h' | h'
      · exact Or.inl ⟨h', h.1⟩
      · exact Or.inr ⟨h', h.2⟩
    · rintro (h | h)
      · exact ⟨h.2, h.1.trans eY.2.2⟩
      · exact ⟨h.1.trans eX.2.2, h.2⟩
  · rw [posne, Bool.or_eq_true, Bool.not_eq_true', Bool.not_eq_true', ← Bool.not_eq_true, ← Bool.not_eq_true, eq_iff, eq_iff]
    simp only [ne_eq, eX.1, eX.2.1, eY.1, eY.2.1, not_false_eq_true, true_and]
    refine ⟨?_, ?_⟩
    · rintro (h | h)
      · exact ⟨_, _, up_in hX, lo_in hY, fun h' => h (by rw [h'])⟩
      · exact ⟨_, _, lo_in hX, up_in hY, fun h' => h (by rw [h'])⟩
    · rintro ⟨u, v, hu, hv, hne⟩
      by_contra hc
      push Not at hc
      rw [in_iff hX] at hu
      rw [in_iff hY] at hv
      refine hne (toE_inj hu.1 hv.1 ?_)
      obtain ⟨-, h1, h2⟩ := hu
      obtain ⟨-, h3, h4⟩ := hv
      obtain ⟨h5, h6⟩ := hc
      order

/-- **C286 (explicit comparisons, empty).** The explicit comparisons do not check: the empty interval is "possibly
different" from every interval, itself included, though it has no number to differ. -/
theorem C286_posne_empty (X : Iv K) : posne none X = true ∧ cerlt none X = false ∧ poseq none X = false := by
  simp [posne, cerlt, poseq, none, Fl.eq, lt, le]

/-! ## Absolute value, norm, width -/

variable [IsStrictOrderedRing K]

/-- **C286 (absolute value).** The absolute value of an interval is the set of absolute values. -/
theorem C286_abs (X : Iv K) (w : Fl K) : In w (abs X) ↔ ∃ v, In v X ∧ w = absF v := by
  by_cases h : empty X = true
  · rw [abs, if_pos h]
    exact ⟨fun h' => absurd h' (in_none w), fun ⟨v, hv, _⟩ => absurd hv ((C286_empty X).1 h v)⟩
  · have hX : empty X = false := by simpa using h
    obtain ⟨l, u⟩ := X
    have e := empty_iff.1 hX
    dsimp only at e
    have hneg : ∀ v : Fl K, v ≠ .nan → (isNeg v = true ↔ toE v < toE (.fin (0 : K))) := by
      intro v hv
      rw [isNeg, lt_iff]
      simp [hv]
    have hpos : ∀ v : Fl K, v ≠ .nan → (isPos v = true ↔ toE (.fin (0 : K)) < toE v) := by
      intro v hv
      rw [isPos, lt_iff]
      simp [hv]
    have hn : ∀ v : Fl K, v ≠ .nan → neg v ≠ .nan := fun v hv h' => hv ((neg_nan v).1 h')
    have hle : ∀ a b : Fl K, a ≠ .nan → b ≠ .nan → (toE (neg a) ≤ toE (neg b) ↔ toE b ≤ toE a) := by
      intro a b ha hb
      have := neg_le_neg' (a := a) (b := b)
      rw [Bool.eq_iff_iff, le_iff, le_iff] at this
      simpa [ha, hb, hn] using this
    have h0 : neg (.fin (0 : K)) = .fin 0 := by simp [neg]
    rw [abs, if_neg h]
    simp only [Bool.not_eq_true', ← Bool.not_eq_true, hneg l e.1, hpos u e.2.1]
    split
    · next h1 =>
      refine ⟨fun hw => ⟨w, hw, ?_⟩, ?_⟩
      · rw [in_iff hX] at hw
        rw [absF, if_neg]
        rw [hneg w hw.1]
        order
      · rintro ⟨v, hv, rfl⟩
        have hv' := hv
        rw [in_iff hX] at hv
        rw [absF, if_neg]
        · exact hv'
        · rw [hneg v hv.1]
          dsimp only at hv
          order
    · next h1 =>
      split
      · next h2 =>
        rw [opp, if_neg h]
        dsimp only
        have hE : empty (⟨neg u, neg l⟩ : Iv K) = false := by
          rw [empty_iff]
          exact ⟨hn _ e.2.1, hn _ e.1, (hle _ _ e.2.1 e.1).2 e.2.2⟩
        have hab : ∀ v, v ≠ .nan → toE v ≤ toE u → absF v = neg v := by
          intro v hv hvu
          rw [absF]
          split
          · rfl
          · next hc =>
            rw [hneg v hv] at hc
            have : v = .fin 0 := toE_inj hv (by simp) (by order)
            rw [this, h0]
        refine ⟨fun hw => ⟨neg w, ?_, ?_⟩, ?_⟩
        · rw [in_iff hE] at hw
          rw [in_iff hX]
          refine ⟨hn _ hw.1, ?_, ?_⟩
          · have := (hle (neg l) w (hn _ e.1) hw.1).2 hw.2.2
            rwa [neg_neg'] at this
          · have := (hle w (neg u) hw.1 (hn _ e.2.1)).2 hw.2.1
            rwa [neg_neg'] at this
        · rw [in_iff hE] at hw
          rw [hab _ (hn _ hw.1), neg_neg']
          have := (hle w (neg u) hw.1 (hn _ e.2.1)).2 hw.2.1
          rwa [neg_neg'] at this
        · rintro ⟨v, hv, rfl⟩
          rw [in_iff hX] at hv
          rw [hab v hv.1 hv.2.2, in_iff hE]
          exact ⟨hn _ hv.1, (hle _ _ e.2.1 hv.1).2 hv.2.2, (hle _ _ hv.1 e.1).2 hv.2.1⟩
      · next h2 =>
        push Not at h1 h2
        have m := max_eq (hn _ e.1) e.2.1
        have hE : empty (⟨.fin 0, Fl.max (neg l) u⟩ : Iv K) = false := by
          rw [empty_iff]
          refine ⟨by simp, m.1, ?_⟩
          dsimp only
          rw [m.2]
          exact h2.le.trans (le_max_right _ _)
        refine ⟨fun hw => ?_, ?_⟩
        · rw [in_iff hE] at hw
          dsimp only at hw
          rw [m.2, le_max_iff] at hw
          rcases hw.2.2 with h3 | h3
          · refine ⟨neg w, ?_, ?_⟩
            · rw [in_iff hX]
              have h4 := (hle (neg l) w (hn _ e.1) hw.1).2 h3
              rw [neg_neg'] at h4
              have h5 := (hle w (.fin 0) hw.1 (by simp)).2 hw.2.1
              rw [h0] at h5
              exact ⟨hn _ hw.1, h4, h5.trans h2.le⟩
            · have h5 := (hle w (.fin 0) hw.1 (by simp)).2 hw.2.1
              rw [h0] at h5
              rw [absF]
              split
              · rw [neg_neg']
              · next hc =>
                rw [hneg _ (hn _ hw.1)] at hc
                have : neg w = .fin 0 := toE_inj (hn _ hw.1) (by simp) (by order)
                rw [this]
                rw [← neg_neg' w, this, h0]
          · refine ⟨w, ?_, ?_⟩
            · rw [in_iff hX]
              exact ⟨hw.1, h1.le.trans hw.2.1, h3⟩
            · rw [absF, if_neg]
              rw [hneg _ hw.1]
              exact not_lt.2 hw.2.1
        · rintro ⟨v, hv, rfl⟩
          rw [in_iff hX] at hv
          rw [in_iff hE]
          dsimp only
          rw [m.2, absF]
          split
          · next hc =>
            rw [hneg _ hv.1] at hc
            have h5 := (hle (.fin 0) v (by simp) hv.1).2 hc.le
            rw [h0] at h5
            exact ⟨hn _ hv.1, h5, ((hle _ _ hv.1 e.1).2 hv.2.1).trans (le_max_left _ _)⟩
          · next hc =>
            rw [hneg _ hv.1] at hc
            exact ⟨hv.1, not_lt.1 hc, hv.2.2.trans (le_max_right _ _)⟩

/-- **C286 (norm).** The norm of an interval that is not empty is the greatest of the absolute values. -/
theorem C286_norm (X : Iv K) (hX : empty X = false) :
    (∃ v, In v X ∧ norm X = absF v) ∧ ∀ v, In v X → le (absF v) (norm X) = true := by
  have hl := lo_in hX
  have hu := up_in hX
  rw [norm, hX]
  simp only [Bool.false_eq_true, if_false]
  obtain ⟨l, u⟩ := X
  dsimp only at hl hu ⊢
  have hlu : le l u = true := hl.2
  refine ⟨?_, fun v hv => ?_⟩
  · by_cases h : lt (neg l) u = true
    · refine ⟨u, hu, ?_⟩
      rw [Fl.max, if_pos h, absF]
      revert h hlu
      cases l <;> cases u <;> simp [lt, neg, le, isNeg]
      intro h1 h2 h3
      linarith
    · refine ⟨l, hl, ?_⟩
      rw [Fl.max, if_neg h, absF]
      revert h hlu
      cases l <;> cases u <;> simp [lt, neg, le, isNeg]
      intro h1 h2 h3
      linarith
  · obtain ⟨h1, h2⟩ := hv
    dsimp only at h1 h2
    by_cases h : lt (neg l) u = true
    · rw [Fl.max, if_pos h, absF]
      split
      · next hn =>
        revert h h1 h2 hn
        cases l <;> cases u <;> cases v <;> simp [lt, neg, le, isNeg]
        intros
        linarith
      · exact h2
    · rw [Fl.max, if_neg h, absF]
      split
      · rwa [neg_le_neg']
      · next hn =>
        revert h h1 h2 hn
        cases l <;> cases u <;> cases v <;> simp [lt, neg, le, isNeg]
        intros
        linarith

/-- **C286 (width, widening).** Under outward rounding no two numbers of an interval are further apart than its width,
and a widened interval contains every number within the margin. -/
theorem C286_width (r : Rnd K) (hr : Sound r) (X : Iv K) (x y e : K) (hx : Mem x X) (hy : Mem y X) :
    le (.fin (y - x)) (width r X) = true ∧
      (∀ d, -e ≤ d → d ≤ e → Mem (x + d) (widen r X (.fin e))) := by
  refine ⟨?_, fun d h1 h2 => ?_⟩
  · have h := sub_mem hr hy hx
    rw [width, mem_not_empty hx]
    rw [sub, mem_not_empty hx] at h
    exact h.2
  · rw [widen, mem_not_empty hx]
    obtain ⟨l, u⟩ := X
    rw [mem_iff] at hx
    obtain ⟨hl, hu⟩ := hx
    refine ⟨?_, ?_⟩
    · rcases hl with rfl | ⟨a, rfl, ha⟩
      · rfl
      · exact dn_le hr (by linarith)
    · rcases hu with rfl | ⟨a, rfl, ha⟩
      · rfl
      · exact le_up hr (by linarith)

/-! ## Examples -/

example : intersect (⟨.fin 1, .fin 4⟩ : Iv ℚ) ⟨.fin 3, .pinf⟩ = ⟨.fin 3, .fin 4⟩ ∧
    hull (⟨.fin 1, .fin 4⟩ : Iv ℚ) ⟨.fin 6, .fin 7⟩ = ⟨.fin 1, .fin 7⟩ ∧
    abs (⟨.fin (-3), .fin 2⟩ : Iv ℚ) = ⟨.fin 0, .fin 3⟩ ∧ norm (⟨.fin (-3), .fin 2⟩ : Iv ℚ) = .fin 3 := by decide +kernel

example : clt (⟨.fin 1, .fin 2⟩ : Iv ℚ) ⟨.fin 3, .fin 4⟩ = some true ∧
    clt (⟨.fin 3, .fin 4⟩ : Iv ℚ) ⟨.fin 1, .fin 3⟩ = some false ∧
    clt (⟨.fin 1, .fin 4⟩ : Iv ℚ) ⟨.fin 3, .fin 5⟩ = .none := by decide +kernel

end Paradiseo.IvLib
