import Verif.Props.Moeo
/-
Properties C33–C37 and C68: archives of MOEO.

Specification vocabulary, independent of the update loops: a list of objective vectors is an
*antichain* when no two entries are equal or dominate each other; an archive *covers* a vector when
it holds that vector or one dominating it.
-/
namespace Paradiseo.Moeo

variable {X V : Type}

/-- Mutually non-dominated and pairwise different vectors. -/
def Antichain (cmp : V → V → Bool) (vs : List V) : Prop :=
  vs.Pairwise fun u v => cmp u v = false ∧ cmp v u = false ∧ u ≠ v

/-- The vector `w` or one dominating it is in `vs`. -/
def Covers (cmp : V → V → Bool) (vs : List V) (w : V) : Prop :=
  ∃ v ∈ vs, w = v ∨ cmp w v = true

/-- The comparator is a strict partial order and `==` is equality of the vectors. -/
structure ArchCfg.Exact (A : ArchCfg X V) : Prop where
  irrefl : ∀ v, A.cmp v v = false
  trans : ∀ u v w, A.cmp u v = true → A.cmp v w = true → A.cmp u w = true
  eqv : ∀ u v, A.eqv u v = true ↔ u = v

/-- The library's configuration with tolerance zero satisfies this. -/
theorem exact_pareto {n : Nat} {F : Type} [Field F] [LinearOrder F] [IsStrictOrderedRing F]
    (T : Traits n F) (h0 : T.tol = 0) (ov : X → Fin n → F) (replace : Bool) :
    (⟨ov, paretoCmp T, eqCmp T, replace⟩ : ArchCfg X (Fin n → F)).Exact where
  irrefl v := (C31_asymmetric T h0.ge v v).1
  trans u v w := C31_transitive T h0 u v w
  eqv u v := by
    show eqCmp T u v = true ↔ u = v
    unfold eqCmp
    rw [eqLoop_iff]
    constructor
    · intro h; funext i
      have := h i (List.mem_finRange i)
      rw [h0] at this
      exact sub_eq_zero.mp (abs_eq_zero.mp (le_antisymm this (abs_nonneg _)))
    · rintro rfl i _; simp [h0]

section
variable {A : ArchCfg X V}

theorem Antichain.forall {cmp : V → V → Bool} {vs : List V} (h : Antichain cmp vs)
    (hirr : ∀ v, cmp v v = false) {u v : V} (hu : u ∈ vs) (hv : v ∈ vs) : cmp u v = false := by
  by_cases e : u = v
  · subst e; exact hirr u
  · have : Std.Symm fun u v => cmp u v = false ∧ cmp v u = false ∧ u ≠ v :=
      ⟨fun _ _ h => ⟨h.2.1, h.1, h.2.2.symm⟩⟩
    exact (List.Pairwise.forall h hu hv e).1

theorem Antichain.perm {cmp : V → V → Bool} {vs ws : List V} (h : Antichain cmp vs) (p : vs.Perm ws) :
    Antichain cmp ws :=
  p.pairwise h (fun h => ⟨h.2.1, h.1, h.2.2.symm⟩)

theorem Antichain.sublist {cmp : V → V → Bool} {vs ws : List V} (h : Antichain cmp vs)
    (p : ws.Sublist vs) : Antichain cmp ws := List.Pairwise.sublist p h

/-- If a member blocks the newcomer, no member of an antichain is beaten by the newcomer. -/
theorem none_beaten (hA : A.Exact) {arch : List X} (hac : Antichain A.cmp (arch.map A.ov)) {m x : X}
    (hx : x ∈ arch) (hb : A.blocks m x = true) : ∀ y ∈ arch, A.beaten m y = false := by
  intro y hy
  by_contra hc
  have hxy := hac.forall hA.irrefl (List.mem_map_of_mem hy) (List.mem_map_of_mem hx)
  simp only [ArchCfg.beaten, ArchCfg.blocks, Bool.not_eq_false, Bool.or_eq_true, Bool.and_eq_true,
    hA.eqv, Bool.not_eq_true'] at hb hc
  have : A.cmp (A.ov y) (A.ov x) = true := by
    rcases hb with hb | ⟨hr, hb⟩ <;> rcases hc with hc | ⟨hr', hc⟩
    · exact hA.trans _ _ _ hc hb
    · rw [← hc]; exact hb
    · rw [← hb]; exact hc
    · rw [hr] at hr'; exact absurd hr' (by simp)
  rw [this] at hxy; exact absurd hxy (by simp)

/-- A blocking member is not beaten. -/
theorem blocks_not_beaten (hA : A.Exact) {m x : X} (hb : A.blocks m x = true) : A.beaten m x = false := by
  by_contra hc
  simp only [ArchCfg.beaten, ArchCfg.blocks, Bool.not_eq_false, Bool.or_eq_true, Bool.and_eq_true,
    hA.eqv, Bool.not_eq_true'] at hb hc
  have irr := hA.irrefl
  rcases hb with hb | ⟨hr, hb⟩ <;> rcases hc with hc | ⟨hr', hc⟩
  · have := hA.trans _ _ _ hc hb; rw [irr] at this; exact absurd this (by simp)
  · rw [hc, irr] at hb; exact absurd hb (by simp)
  · rw [hb, irr] at hc; exact absurd hc (by simp)
  · rw [hr] at hr'; exact absurd hr' (by simp)

theorem any_removeLoop (hA : A.Exact) (arch : List X) (m : X) :
    (removeLoop (A.beaten m) arch 0).any (A.blocks m) = arch.any (A.blocks m) := by
  rw [Bool.eq_iff_iff, List.any_eq_true, List.any_eq_true]
  constructor
  · rintro ⟨x, hx, hb⟩; exact ⟨x, ((mem_removeLoop _ _ _).mp hx).1, hb⟩
  · rintro ⟨x, hx, hb⟩; exact ⟨x, (mem_removeLoop _ _ _).mpr ⟨hx, blocks_not_beaten hA hb⟩, hb⟩

/-- Two cases of an update on an antichain. -/
theorem update_cases (hA : A.Exact) {arch : List X} (hac : Antichain A.cmp (arch.map A.ov)) (m : X) :
    (arch.any (A.blocks m) = true ∧ update A arch m = (arch, false)) ∨
    (arch.any (A.blocks m) = false ∧
      update A arch m = (removeLoop (A.beaten m) arch 0 ++ [m], true)) := by
  unfold update
  simp only [any_removeLoop hA]
  cases h : arch.any (A.blocks m)
  · right; simp
  · left
    rw [List.any_eq_true] at h
    obtain ⟨x, hx, hb⟩ := h
    rw [removeLoop_id _ _ _ (none_beaten hA hac hx hb)]; simp

theorem insert_antichain (hA : A.Exact) {arch : List X} (hac : Antichain A.cmp (arch.map A.ov)) {m : X}
    (h : arch.any (A.blocks m) = false) :
    Antichain A.cmp ((removeLoop (A.beaten m) arch 0 ++ [m]).map A.ov) := by
  have hk : Antichain A.cmp ((removeLoop (A.beaten m) arch 0).map A.ov) :=
    (hac.sublist (List.filter_sublist.map A.ov)).perm
      ((removeLoop_filter (A.beaten m) arch).symm.map A.ov)
  unfold Antichain at *
  rw [List.map_append, List.pairwise_append]
  refine ⟨hk, by simp, ?_⟩
  intro u hu v hv
  simp only [List.map_cons, List.map_nil, List.mem_singleton] at hv
  subst hv
  obtain ⟨x, hx, rfl⟩ := List.mem_map.mp hu
  obtain ⟨hx1, hx2⟩ := (mem_removeLoop _ _ _).mp hx
  have hb : A.blocks m x = false := by
    rw [List.any_eq_false] at h; simpa using h x hx1
  simp only [ArchCfg.beaten, ArchCfg.blocks, Bool.or_eq_false_iff, Bool.and_eq_false_iff,
    Bool.not_eq_false'] at hx2 hb
  refine ⟨hx2.1, hb.1, fun e => ?_⟩
  have he : A.eqv (A.ov m) (A.ov x) = true := (hA.eqv _ _).mpr e.symm
  rcases hx2.2 with h1 | h1
  · rcases hb.2 with h2 | h2
    · rw [h1] at h2; exact absurd h2 (by simp)
    · rw [he] at h2; exact absurd h2 (by simp)
  · rw [he] at h1; exact absurd h1 (by simp)

theorem insert_covers (hA : A.Exact) (arch : List X) (m : X) {w : V}
    (hw : Covers A.cmp (arch.map A.ov) w ∨ w = A.ov m) :
    Covers A.cmp ((removeLoop (A.beaten m) arch 0 ++ [m]).map A.ov) w := by
  have hm : A.ov m ∈ (removeLoop (A.beaten m) arch 0 ++ [m]).map A.ov := by simp
  rcases hw with ⟨v, hv, hwv⟩ | rfl
  · obtain ⟨y, hy, rfl⟩ := List.mem_map.mp hv
    cases hb : A.beaten m y
    · refine ⟨A.ov y, ?_, hwv⟩
      rw [List.map_append, List.mem_append]
      exact Or.inl (List.mem_map_of_mem ((mem_removeLoop _ _ _).mpr ⟨hy, hb⟩))
    · refine ⟨A.ov m, hm, ?_⟩
      simp only [ArchCfg.beaten, Bool.or_eq_true, Bool.and_eq_true, hA.eqv] at hb
      rcases hb with hb | ⟨_, hb⟩
      · right
        rcases hwv with rfl | h
        · exact hb
        · exact hA.trans _ _ _ h hb
      · rw [hb]; exact hwv
  · exact ⟨_, hm, Or.inl rfl⟩

theorem blocked_covers (hA : A.Exact) {arch : List X} {m : X} (h : arch.any (A.blocks m) = true) :
    Covers A.cmp (arch.map A.ov) (A.ov m) := by
  rw [List.any_eq_true] at h
  obtain ⟨x, hx, hb⟩ := h
  simp only [ArchCfg.blocks, Bool.or_eq_true, Bool.and_eq_true, hA.eqv] at hb
  exact ⟨A.ov x, List.mem_map_of_mem hx, hb.symm.imp And.right id⟩

end

/-! ## C33: the unbounded archive -/

/-- The archive after a history of submissions, from the empty archive. -/
def archiveOf (A : ArchCfg X V) (hist : List X) : List X := (updatePop A [] hist).1

/-- Content after any history: members were submitted; they form an antichain; their vectors are
exactly the vectors of the submitted individuals that no submitted individual dominates. -/
theorem C33_unbounded_archive (A : ArchCfg X V) (hA : A.Exact) (hist : List X) :
    (∀ x ∈ archiveOf A hist, x ∈ hist) ∧
    Antichain A.cmp ((archiveOf A hist).map A.ov) ∧
    (∀ v, v ∈ (archiveOf A hist).map A.ov ↔
      v ∈ hist.map A.ov ∧ ∀ w ∈ hist.map A.ov, A.cmp v w = false) := by
  -- invariant over the history
  have inv : ∀ hist : List X, (∀ x ∈ archiveOf A hist, x ∈ hist) ∧
      Antichain A.cmp ((archiveOf A hist).map A.ov) ∧
      (∀ w ∈ hist.map A.ov, Covers A.cmp ((archiveOf A hist).map A.ov) w) := by
    intro hist
    induction hist using List.reverseRecOn with
    | nil => simp [archiveOf, updatePop, Antichain]
    | append_singleton hist m ih =>
      obtain ⟨i1, i2, i3⟩ := ih
      have e : archiveOf A (hist ++ [m]) = (update A (archiveOf A hist) m).1 := by
        simp [archiveOf, updatePop, List.foldl_append]
      rw [e]
      rcases update_cases hA i2 m with ⟨h, hu⟩ | ⟨h, hu⟩
      · rw [hu]
        refine ⟨fun x hx => by simp [i1 x hx], i2, ?_⟩
        intro w hw
        rw [List.map_append, List.mem_append] at hw
        rcases hw with hw | hw
        · exact i3 w hw
        · simp at hw; subst hw; exact blocked_covers hA h
      · rw [hu]
        refine ⟨?_, insert_antichain hA i2 h, ?_⟩
        · intro x hx
          rw [List.mem_append] at hx
          rcases hx with hx | hx
          · exact List.mem_append_left _ (i1 x ((mem_removeLoop _ _ _).mp hx).1)
          · exact List.mem_append_right _ hx
        · intro w hw
          rw [List.map_append, List.mem_append] at hw
          refine insert_covers hA _ m ?_
          rcases hw with hw | hw
          · exact Or.inl (i3 w hw)
          · right; simpa using hw
  obtain ⟨i1, i2, i3⟩ := inv hist
  refine ⟨i1, i2, fun v => ⟨fun hv => ?_, fun ⟨hv, hnd⟩ => ?_⟩⟩
  · obtain ⟨x, hx, rfl⟩ := List.mem_map.mp hv
    refine ⟨List.mem_map_of_mem (i1 x hx), fun w hw => ?_⟩
    obtain ⟨y, hy, hwy⟩ := i3 w hw
    by_contra hc
    rw [Bool.not_eq_false] at hc
    have : A.cmp (A.ov x) y = true := by
      rcases hwy with rfl | h
      · exact hc
      · exact hA.trans _ _ _ hc h
    rw [i2.forall hA.irrefl hv hy] at this; exact absurd this (by simp)
  · obtain ⟨y, hy, h | h⟩ := i3 v hv
    · rw [h]; exact hy
    · obtain ⟨x, hx, rfl⟩ := List.mem_map.mp hy
      rw [hnd _ (List.mem_map_of_mem (i1 x hx))] at h; exact absurd h (by simp)

/-- The set of vectors kept does not depend on the order (or repetition) of the submissions. -/
theorem C33_order_independent (A : ArchCfg X V) (hA : A.Exact) (h₁ h₂ : List X)
    (hsame : ∀ v, v ∈ h₁.map A.ov ↔ v ∈ h₂.map A.ov) (v : V) :
    v ∈ (archiveOf A h₁).map A.ov ↔ v ∈ (archiveOf A h₂).map A.ov := by
  rw [(C33_unbounded_archive A hA h₁).2.2, (C33_unbounded_archive A hA h₂).2.2, hsame]
  refine and_congr Iff.rfl ⟨fun h w hw => h w ((hsame w).mpr hw), fun h w hw => h w ((hsame w).mp hw)⟩

/-- Stated for the library's Pareto archive: the kept vectors are the Pareto front of the submitted
ones, for any directions, in any number of objectives. -/
theorem C33_pareto_front {n : Nat} {F : Type} [Field F] [LinearOrder F] [IsStrictOrderedRing F]
    (T : Traits n F) (h0 : T.tol = 0) (ov : X → Fin n → F) (replace : Bool) (hist : List X)
    (v : Fin n → F) :
    v ∈ (archiveOf ⟨ov, paretoCmp T, eqCmp T, replace⟩ hist).map ov ↔
      v ∈ hist.map ov ∧ ¬ ∃ w ∈ hist.map ov, Dominates T.minimizing w v := by
  have := (C33_unbounded_archive _ (exact_pareto T h0 ov replace) hist).2.2 v
  rw [this]
  refine and_congr Iff.rfl ?_
  constructor
  · rintro h ⟨w, hw, hd⟩
    rw [← C31_pareto_spec T h0] at hd
    have h' : paretoCmp T v w = false := h w hw
    rw [h'] at hd; exact absurd hd (by simp)
  · intro h w hw
    rw [← Bool.not_eq_true, C31_pareto_spec T h0]
    exact fun hd => h ⟨w, hw, hd⟩

/-- Among individuals with the same vector the flag decides which one stays: with `replace` the last
submitted, without it the first (a newcomer equal to a member is inserted iff `replace`). -/
theorem C33_replace_flag (A : ArchCfg X V) (hA : A.Exact) (hist : List X) (m x : X)
    (hx : x ∈ archiveOf A hist) (he : A.ov m = A.ov x) :
    if A.replace then
      m ∈ archiveOf A (hist ++ [m]) ∧ (x ≠ m → x ∉ archiveOf A (hist ++ [m]))
    else archiveOf A (hist ++ [m]) = archiveOf A hist := by
  have e : archiveOf A (hist ++ [m]) = (update A (archiveOf A hist) m).1 := by
    simp [archiveOf, updatePop, List.foldl_append]
  obtain ⟨_, hac, _⟩ := C33_unbounded_archive A hA hist
  rw [e]
  cases hr : A.replace
  · simp only [Bool.false_eq_true, if_false]
    rcases update_cases hA hac m with ⟨h, hu⟩ | ⟨h, hu⟩
    · rw [hu]
    · rw [List.any_eq_false] at h
      exact absurd (show A.blocks m x = true by simp [ArchCfg.blocks, hr, hA.eqv, he]) (h x hx)
  · simp only [if_true]
    rcases update_cases hA hac m with ⟨h, hu⟩ | ⟨h, hu⟩
    · exfalso
      rw [List.any_eq_true] at h
      obtain ⟨y, hy, hb⟩ := h
      simp only [ArchCfg.blocks, hr, Bool.not_true, Bool.false_and, Bool.or_false] at hb
      rw [he, hac.forall hA.irrefl (List.mem_map_of_mem hx) (List.mem_map_of_mem hy)] at hb
      exact absurd hb (by simp)
    · rw [hu]
      refine ⟨by simp, fun hne hmem => ?_⟩
      rw [List.mem_append] at hmem
      rcases hmem with hmem | hmem
      · have := ((mem_removeLoop _ _ _).mp hmem).2
        simp [ArchCfg.beaten, hr, (hA.eqv _ _).mpr he] at this
      · simp at hmem; exact hne hmem

/-- Three submissions on two minimised objectives; the dominated (3,3) disappears. -/
example : archiveOf (X := Nat × ℚ × ℚ) ⟨fun x => ![x.2.1, x.2.2], paretoCmp ⟨![true, true], 0⟩,
      eqCmp ⟨![true, true], 0⟩, true⟩
    [(0, 3, 3), (1, 1, 4), (2, 2, 2), (3, 1, 4)] = [(2, 2, 2), (3, 1, 4)] := by decide +kernel

/-! ## C34: the answer of an update -/

/-- The answer is `true` exactly when no member dominates the newcomer and, without `replace`, none
has the same vector. (No assumption on the archive.) -/
theorem C34_answer (A : ArchCfg X V) (hA : A.Exact) (arch : List X) (m : X) :
    (update A arch m).2 = true ↔
      (∀ x ∈ arch, A.cmp (A.ov m) (A.ov x) = false) ∧
      (A.replace = false → ∀ x ∈ arch, A.ov x ≠ A.ov m) := by
  have : (update A arch m).2 = !(arch.any (A.blocks m)) := by
    unfold update; simp only [any_removeLoop hA]
    cases arch.any (A.blocks m) <;> rfl
  rw [this, Bool.not_eq_true', List.any_eq_false]
  constructor
  · intro h
    refine ⟨fun x hx => ?_, fun hr x hx e => ?_⟩
    · have := h x hx; simp [ArchCfg.blocks] at this; exact this.1
    · have := h x hx; simp [ArchCfg.blocks, hr, (hA.eqv _ _).mpr e.symm] at this
  · rintro ⟨h1, h2⟩ x hx hb
    simp only [ArchCfg.blocks, Bool.or_eq_true, Bool.and_eq_true, Bool.not_eq_true', hA.eqv] at hb
    rcases hb with hb | ⟨hr, hb⟩
    · rw [h1 x hx] at hb; exact absurd hb (by simp)
    · exact h2 hr x hx hb.symm

/-- Accepted: the archive becomes the old one without the members the newcomer dominates or (with
`replace`) equals, plus the newcomer. Rejected: nothing changes. -/
theorem C34_effect (A : ArchCfg X V) (hA : A.Exact) (arch : List X)
    (hac : Antichain A.cmp (arch.map A.ov)) (m : X) :
    ((update A arch m).2 = true → (update A arch m).1.Perm
      (m :: arch.filter fun x => !(A.cmp (A.ov x) (A.ov m)) && !(A.eqv (A.ov m) (A.ov x)))) ∧
    ((update A arch m).2 = false → (update A arch m).1 = arch) := by
  rcases update_cases hA hac m with ⟨h, hu⟩ | ⟨h, hu⟩
  · rw [hu]; simp
  · rw [hu]
    refine ⟨fun _ => ?_, by simp⟩
    refine (List.perm_append_singleton m _).trans (List.Perm.cons m ?_)
    refine (removeLoop_filter _ _).trans (List.Perm.of_eq (List.filter_congr fun x hx => ?_))
    have hb : A.blocks m x = false := by
      rw [List.any_eq_false] at h; simpa using h x hx
    simp only [ArchCfg.beaten, ArchCfg.blocks] at hb ⊢
    revert hb
    cases A.cmp (A.ov x) (A.ov m) <;> cases A.eqv (A.ov m) (A.ov x) <;> cases A.replace <;> simp

/-- Submitting a population: the answer is `false` only if nothing changed, and `true` only if one
of the individuals was accepted when its turn came. -/
theorem C34_population (A : ArchCfg X V) (hA : A.Exact) (arch pop : List X)
    (hac : Antichain A.cmp (arch.map A.ov)) :
    ((updatePop A arch pop).2 = false → (updatePop A arch pop).1 = arch) ∧
    ((updatePop A arch pop).2 = true → ∃ a m b, pop = a ++ m :: b ∧
      (update A (updatePop A arch a).1 m).2 = true) := by
  induction pop using List.reverseRecOn with
  | nil => simp [updatePop]
  | append_singleton pop m ih =>
    have e : updatePop A arch (pop ++ [m]) =
        ((update A (updatePop A arch pop).1 m).1,
          (update A (updatePop A arch pop).1 m).2 || (updatePop A arch pop).2) := by
      simp [updatePop, List.foldl_append]
    rw [e]
    constructor
    · intro h
      rw [Bool.or_eq_false_iff] at h
      have ha := ih.1 h.2
      rw [ha] at h ⊢
      exact (C34_effect A hA arch hac m).2 h.1
    · intro h
      rw [Bool.or_eq_true] at h
      rcases h with h | h
      · exact ⟨pop, m, [], rfl, h⟩
      · obtain ⟨a, m', b, hp, hm⟩ := ih.2 h
        exact ⟨a, m', b ++ [m], by simp [hp], hm⟩

/-! ## C35: positive tolerance -/

/-- With `replace`, a chain of solutions each equal (within tolerance) to the previous one leaves only
the last. -/
theorem drift_chain (A : ArchCfg X V) (hr : A.replace = true) (p : Nat → X)
    (hp : ∀ k, A.eqv (A.ov (p (k + 1))) (A.ov (p k)) = true) (k : Nat) :
    archiveOf A ((List.range (k + 1)).map p) = [p k] := by
  induction k with
  | zero =>
    unfold archiveOf updatePop update removeLoop
    simp
  | succ k ih =>
    rw [List.range_succ, List.map_append, List.map_singleton]
    have e : ∀ (h : List X) m, archiveOf A (h ++ [m]) = (update A (archiveOf A h) m).1 := by
      intro h m; simp [archiveOf, updatePop, List.foldl_append]
    rw [e, ih]
    have hb : A.beaten (p (k + 1)) (p k) = true := by
      unfold ArchCfg.beaten; rw [hr, hp]; simp
    have hr : removeLoop (A.beaten (p (k + 1))) [p k] 0 = [] := by
      rw [List.eq_nil_iff_forall_not_mem]
      intro x hx
      rw [mem_removeLoop, List.mem_singleton] at hx
      rw [hx.1, hb] at hx
      exact absurd hx.2 (by simp)
    unfold update
    rw [hr]; simp

/-- With a positive tolerance and `replace`, the archive drifts: for every distance there is a
history on one minimised objective whose final archive is a single solution worse by more than that
distance than a submitted solution (which therefore dominates it). -/
theorem C35_drift (t D : ℚ) (ht : 0 < t) :
    ∃ (hist : List ℚ) (a z : ℚ),
      let A : ArchCfg ℚ (Fin 1 → ℚ) := ⟨fun x => ![x], paretoCmp ⟨![true], t⟩, eqCmp ⟨![true], t⟩, true⟩
      archiveOf A hist = [z] ∧ a ∈ hist ∧ z > a + D ∧ A.cmp (A.ov z) (A.ov a) = true := by
  obtain ⟨N, hN⟩ := exists_nat_gt (max (D / t) 1)
  let A : ArchCfg ℚ (Fin 1 → ℚ) :=
    ⟨fun x => ![x], paretoCmp ⟨![true], t⟩, eqCmp ⟨![true], t⟩, true⟩
  have cmp_iff : ∀ x y : ℚ, A.cmp (A.ov x) (A.ov y) = true ↔ t < |x - y| ∧ y < x := by
    intro x y
    show paretoCmp _ _ _ = true ↔ _
    rw [C31_tolerance_spec]
    constructor
    · rintro ⟨h1, i, h2⟩
      have hi : i = 0 := Subsingleton.elim _ _
      subst hi
      exact ⟨h2, h1 0 h2⟩
    · rintro ⟨h1, h2⟩
      refine ⟨fun i _ => ?_, 0, h1⟩
      have hi : i = 0 := Subsingleton.elim _ _
      subst hi; exact h2
  have eq_iff : ∀ x y : ℚ, A.eqv (A.ov x) (A.ov y) = true ↔ |x - y| ≤ t := by
    intro x y
    show eqCmp _ _ _ = true ↔ _
    unfold eqCmp; rw [eqLoop_iff]
    constructor
    · intro h; exact h 0 (by simp)
    · intro h i _
      have hi : i = 0 := Subsingleton.elim _ _
      subst hi; exact h
  have key := drift_chain A rfl (fun j : Nat => (j : ℚ) * t) (by
    intro k
    rw [eq_iff]
    push_cast
    rw [show ((k : ℚ) + 1) * t - k * t = t by ring, abs_of_pos ht])
  have hN1 : (1 : ℚ) < N := lt_of_le_of_lt (le_max_right _ _) hN
  have hND : D < N * t := by
    have := lt_of_le_of_lt (le_max_left (D / t) 1) hN
    rwa [div_lt_iff₀ ht] at this
  refine ⟨(List.range (N + 1)).map fun j : Nat => (j : ℚ) * t, 0, (N : ℚ) * t, key N, ?_, ?_, ?_⟩
  · rw [List.mem_map]; exact ⟨0, by simp, by simp⟩
  · linarith
  · show A.cmp (A.ov _) (A.ov _) = true
    rw [cmp_iff, sub_zero, abs_of_pos (by positivity)]
    constructor
    · nlinarith
    · positivity

/-- Without `replace` the content depends on the order of submission, and a submitted solution which
no submitted solution dominates may be missing. -/
theorem C35_order_dependent :
    let t : ℚ := 1 / 10 ^ 10
    let A : ArchCfg ℚ (Fin 1 → ℚ) := ⟨fun x => ![x], paretoCmp ⟨![true], t⟩, eqCmp ⟨![true], t⟩, false⟩
    let a : ℚ := 0
    let b : ℚ := t * 3 / 4
    let c : ℚ := t * 3 / 2
    archiveOf A [a, b, c] = [a] ∧ archiveOf A [b, a, c] = [b] ∧
      (∀ w ∈ [b, a, c], A.cmp (A.ov a) (A.ov w) = false) := by decide +kernel

/-! ## C36 and C37: bounded archives -/

/-- One or many solutions submitted in one call. -/
inductive Submission (X : Type) where
  | one (x : X)
  | many (pop : List X)

/-- The solutions of a submission. -/
def Submission.items : Submission X → List X
  | .one x => [x]
  | .many pop => pop

/-- Improvement-only archive after a history of calls. -/
def imprOf (A : ArchCfg X V) (maxSize : Nat) (hist : List (Submission X)) : List X :=
  hist.foldl (fun arch s => match s with
    | .one x => (imprUpdate A maxSize arch x).1
    | .many pop => (imprUpdatePop A maxSize arch pop).1) []

theorem imprUpdate_cases {A : ArchCfg X V} (hA : A.Exact) (maxSize : Nat) {arch : List X}
    (hac : Antichain A.cmp (arch.map A.ov)) (hs : arch.length ≤ maxSize) (m : X) :
    (arch.any (A.blocks m) = true ∧ imprUpdate A maxSize arch m = (arch, false)) ∨
    (arch.any (A.blocks m) = false ∧ imprUpdate A maxSize arch m = (arch, false) ∧
      arch.length = maxSize ∧ ∀ x ∈ arch, A.beaten m x = false) ∨
    (arch.any (A.blocks m) = false ∧
      imprUpdate A maxSize arch m = (removeLoop (A.beaten m) arch 0 ++ [m], true) ∧
      (removeLoop (A.beaten m) arch 0).length < maxSize) := by
  unfold imprUpdate
  simp only [any_removeLoop hA]
  cases h : arch.any (A.blocks m)
  · right
    simp only [Bool.not_false, if_true]
    by_cases hl : (removeLoop (A.beaten m) arch 0).length < maxSize
    · right; rw [if_pos hl]; exact ⟨trivial, rfl, hl⟩
    · left
      rw [if_neg hl]
      have hp := removeLoop_filter (A.beaten m) arch
      have hle : (arch.filter fun x => !A.beaten m x).length ≤ arch.length := List.length_filter_le _ _
      rw [hp.length_eq] at hl
      have hall : ∀ x ∈ arch, A.beaten m x = false := by
        have : (arch.filter fun x => !A.beaten m x).length = arch.length := by omega
        rw [List.length_filter_eq_length_iff] at this
        intro x hx; simpa using this x hx
      rw [removeLoop_id _ _ _ hall]
      exact ⟨trivial, rfl, by omega, hall⟩
  · left
    rw [List.any_eq_true] at h
    obtain ⟨x, hx, hb⟩ := h
    rw [removeLoop_id _ _ _ (none_beaten hA hac hx hb)]; simp

/-- Invariant of one update of an improvement-only archive. -/
theorem imprUpdate_inv {A : ArchCfg X V} (hA : A.Exact) (maxSize : Nat) {arch : List X}
    (hac : Antichain A.cmp (arch.map A.ov)) (hs : arch.length ≤ maxSize) (m : X) :
    (imprUpdate A maxSize arch m).1.length ≤ maxSize ∧
    Antichain A.cmp ((imprUpdate A maxSize arch m).1.map A.ov) ∧
    (∀ x ∈ (imprUpdate A maxSize arch m).1, x ∈ arch ∨ x = m) := by
  rcases imprUpdate_cases hA maxSize hac hs m with ⟨_, hu⟩ | ⟨_, hu, _⟩ | ⟨h, hu, hl⟩
  · rw [hu]; exact ⟨hs, hac, fun x hx => Or.inl hx⟩
  · rw [hu]; exact ⟨hs, hac, fun x hx => Or.inl hx⟩
  · rw [hu]
    refine ⟨by simp; omega, insert_antichain hA hac h, fun x hx => ?_⟩
    rw [List.mem_append] at hx
    rcases hx with hx | hx
    · exact Or.inl ((mem_removeLoop _ _ _).mp hx).1
    · right; simpa using hx

theorem imprPop_inv {A : ArchCfg X V} (hA : A.Exact) (maxSize : Nat) {arch : List X}
    (hac : Antichain A.cmp (arch.map A.ov)) (hs : arch.length ≤ maxSize) (pop : List X) :
    (imprUpdatePop A maxSize arch pop).1.length ≤ maxSize ∧
    Antichain A.cmp ((imprUpdatePop A maxSize arch pop).1.map A.ov) ∧
    (∀ x ∈ (imprUpdatePop A maxSize arch pop).1, x ∈ arch ∨ x ∈ pop) := by
  induction pop using List.reverseRecOn with
  | nil => exact ⟨hs, hac, fun x hx => Or.inl hx⟩
  | append_singleton pop m ih =>
    have e : (imprUpdatePop A maxSize arch (pop ++ [m])).1 =
        (imprUpdate A maxSize (imprUpdatePop A maxSize arch pop).1 m).1 := by
      simp [imprUpdatePop, List.foldl_append]
    rw [e]
    obtain ⟨j1, j2, j3⟩ := imprUpdate_inv hA maxSize ih.2.1 ih.1 m
    refine ⟨j1, j2, fun x hx => ?_⟩
    rcases j3 x hx with h | h
    · rcases ih.2.2 x h with h | h
      · exact Or.inl h
      · exact Or.inr (by simp [h])
    · exact Or.inr (by simp [h])

/-- Improvement-only archive: bound, antichain, members submitted, after any history. -/
theorem C36_improvement_only (A : ArchCfg X V) (hA : A.Exact) (maxSize : Nat)
    (hist : List (Submission X)) :
    (imprOf A maxSize hist).length ≤ maxSize ∧
    Antichain A.cmp ((imprOf A maxSize hist).map A.ov) ∧
    (∀ x ∈ imprOf A maxSize hist, x ∈ hist.flatMap Submission.items) := by
  induction hist using List.reverseRecOn with
  | nil => simp [imprOf, Antichain]
  | append_singleton hist s ih =>
    obtain ⟨i1, i2, i3⟩ := ih
    cases s with
    | one m =>
      have e : imprOf A maxSize (hist ++ [.one m]) = (imprUpdate A maxSize (imprOf A maxSize hist) m).1 := by
        simp [imprOf, List.foldl_append]
      rw [e]
      obtain ⟨j1, j2, j3⟩ := imprUpdate_inv hA maxSize i2 i1 m
      refine ⟨j1, j2, fun x hx => ?_⟩
      rw [List.flatMap_append, List.mem_append]
      exact (j3 x hx).imp (i3 x) (fun h => by simp [Submission.items, h])
    | many pop =>
      have e : imprOf A maxSize (hist ++ [.many pop]) =
          (imprUpdatePop A maxSize (imprOf A maxSize hist) pop).1 := by
        simp [imprOf, List.foldl_append]
      rw [e]
      obtain ⟨j1, j2, j3⟩ := imprPop_inv hA maxSize i2 i1 pop
      refine ⟨j1, j2, fun x hx => ?_⟩
      rw [List.flatMap_append, List.mem_append]
      exact (j3 x hx).imp (i3 x) (fun h => by simpa [Submission.items] using h)

/-- Fitness/diversity bounded archive after a history of calls. -/
def fitDivOf (A : ArchCfg X V) (assign sort : List X → List X) (maxSize : Nat)
    (hist : List (Submission X)) : List X :=
  hist.foldl (fun arch s => match s with
    | .one x => (fitDivUpdate A assign sort maxSize arch x).1
    | .many pop => (fitDivUpdatePop A assign sort maxSize arch pop).1) []

/-- What the fitness and diversity assignments may do (they write fitness and diversity, not the
objective vectors) and what `std::sort` does. -/
structure CutOk (A : ArchCfg X V) (assign sort : List X → List X) : Prop where
  assign_ov : ∀ l, (assign l).map A.ov = l.map A.ov
  sort_perm : ∀ l, (sort l).Perm l

theorem update_inv {A : ArchCfg X V} (hA : A.Exact) {arch : List X}
    (hac : Antichain A.cmp (arch.map A.ov)) (m : X) :
    Antichain A.cmp ((update A arch m).1.map A.ov) ∧ (∀ x ∈ (update A arch m).1, x ∈ arch ∨ x = m) := by
  rcases update_cases hA hac m with ⟨_, hu⟩ | ⟨h, hu⟩
  · rw [hu]; exact ⟨hac, fun x hx => Or.inl hx⟩
  · rw [hu]
    refine ⟨insert_antichain hA hac h, fun x hx => ?_⟩
    rw [List.mem_append] at hx
    rcases hx with hx | hx
    · exact Or.inl ((mem_removeLoop _ _ _).mp hx).1
    · right; simpa using hx

theorem updatePop_inv {A : ArchCfg X V} (hA : A.Exact) {arch : List X}
    (hac : Antichain A.cmp (arch.map A.ov)) (pop : List X) :
    Antichain A.cmp ((updatePop A arch pop).1.map A.ov) ∧
      (∀ x ∈ (updatePop A arch pop).1, x ∈ arch ∨ x ∈ pop) := by
  induction pop using List.reverseRecOn with
  | nil => exact ⟨hac, fun x hx => Or.inl hx⟩
  | append_singleton pop m ih =>
    have e : (updatePop A arch (pop ++ [m])).1 = (update A (updatePop A arch pop).1 m).1 := by
      simp [updatePop, List.foldl_append]
    rw [e]
    obtain ⟨j2, j3⟩ := update_inv hA ih.1 m
    refine ⟨j2, fun x hx => ?_⟩
    rcases j3 x hx with h | h
    · rcases ih.2 x h with h | h
      · exact Or.inl h
      · exact Or.inr (by simp [h])
    · exact Or.inr (by simp [h])

theorem fitDivCut_inv {A : ArchCfg X V} {assign sort : List X → List X} (hc : CutOk A assign sort)
    (maxSize : Nat) {arch : List X} (hac : Antichain A.cmp (arch.map A.ov)) :
    (fitDivCut assign sort maxSize arch).length ≤ maxSize ∧
    Antichain A.cmp ((fitDivCut assign sort maxSize arch).map A.ov) ∧
    (∀ v ∈ (fitDivCut assign sort maxSize arch).map A.ov, v ∈ arch.map A.ov) := by
  unfold fitDivCut
  by_cases h : arch.length > maxSize
  · rw [if_pos h]
    have p : ((sort (assign arch)).map A.ov).Perm (arch.map A.ov) := by
      have := (hc.sort_perm (assign arch)).map A.ov
      rwa [hc.assign_ov] at this
    have sl : (((sort (assign arch)).take maxSize).map A.ov).Sublist ((sort (assign arch)).map A.ov) :=
      (List.take_sublist _ _).map _
    exact ⟨by simp, (hac.perm p.symm).sublist sl, fun v hv => p.mem_iff.mp (sl.subset hv)⟩
  · rw [if_neg h]; exact ⟨by omega, hac, fun v hv => hv⟩

/-- Fitness/diversity bounded archive: bound, antichain, vectors submitted, after any history. -/
theorem C36_fitness_diversity (A : ArchCfg X V) (hA : A.Exact) (assign sort : List X → List X)
    (hc : CutOk A assign sort) (maxSize : Nat) (hist : List (Submission X)) :
    (fitDivOf A assign sort maxSize hist).length ≤ maxSize ∧
    Antichain A.cmp ((fitDivOf A assign sort maxSize hist).map A.ov) ∧
    (∀ v ∈ (fitDivOf A assign sort maxSize hist).map A.ov,
      v ∈ (hist.flatMap Submission.items).map A.ov) := by
  induction hist using List.reverseRecOn with
  | nil => simp [fitDivOf, Antichain]
  | append_singleton hist s ih =>
    obtain ⟨i1, i2, i3⟩ := ih
    have fin : ∀ arch' : List X, Antichain A.cmp (arch'.map A.ov) →
        (∀ x ∈ arch', x ∈ fitDivOf A assign sort maxSize hist ∨ x ∈ s.items) →
        fitDivOf A assign sort maxSize (hist ++ [s]) = fitDivCut assign sort maxSize arch' →
        (fitDivOf A assign sort maxSize (hist ++ [s])).length ≤ maxSize ∧
        Antichain A.cmp ((fitDivOf A assign sort maxSize (hist ++ [s])).map A.ov) ∧
        (∀ v ∈ (fitDivOf A assign sort maxSize (hist ++ [s])).map A.ov,
          v ∈ ((hist ++ [s]).flatMap Submission.items).map A.ov) := by
      intro arch' h1 h2 e
      rw [e]
      obtain ⟨k1, k2, k3⟩ := fitDivCut_inv hc maxSize h1
      refine ⟨k1, k2, fun v hv => ?_⟩
      obtain ⟨x, hx, rfl⟩ := List.mem_map.mp (k3 v hv)
      rw [List.flatMap_append, List.map_append, List.mem_append]
      rcases h2 x hx with h | h
      · exact Or.inl (i3 _ (List.mem_map_of_mem h))
      · exact Or.inr (List.mem_map_of_mem (by simpa using h))
    cases s with
    | one m =>
      obtain ⟨j1, j2⟩ := update_inv hA i2 m
      exact fin _ j1 (fun x hx => (j2 x hx).imp id (fun h => by simp [Submission.items, h]))
        (by simp [fitDivOf, List.foldl_append, fitDivUpdate])
    | many pop =>
      obtain ⟨j1, j2⟩ := updatePop_inv hA i2 pop
      exact fin _ j1 j2 (by simp [fitDivOf, List.foldl_append, fitDivUpdatePop])

/-- Improvement-only archive: what a submission removes is dominated by, or equal to, the submitted
solution, which is then a member; everything that was covered stays covered. -/
theorem C37_improves (A : ArchCfg X V) (hA : A.Exact) (maxSize : Nat) (arch : List X)
    (hac : Antichain A.cmp (arch.map A.ov)) (hs : arch.length ≤ maxSize) (m : X) :
    (∀ x ∈ arch, x ∉ (imprUpdate A maxSize arch m).1 →
      (A.cmp (A.ov x) (A.ov m) = true ∨ A.ov x = A.ov m) ∧ m ∈ (imprUpdate A maxSize arch m).1) ∧
    (∀ w, Covers A.cmp (arch.map A.ov) w →
      Covers A.cmp ((imprUpdate A maxSize arch m).1.map A.ov) w) := by
  rcases imprUpdate_cases hA maxSize hac hs m with ⟨_, hu⟩ | ⟨_, hu, _⟩ | ⟨h, hu, hl⟩
  · rw [hu]; exact ⟨fun x hx hn => absurd hx hn, fun w hw => hw⟩
  · rw [hu]; exact ⟨fun x hx hn => absurd hx hn, fun w hw => hw⟩
  · rw [hu]
    refine ⟨fun x hx hn => ⟨?_, by simp⟩, fun w hw => insert_covers hA arch m (Or.inl hw)⟩
    rw [List.mem_append, not_or, mem_removeLoop] at hn
    have hb : A.beaten m x = true := by
      by_contra hb; exact hn.1 ⟨hx, by simpa using hb⟩
    simp only [ArchCfg.beaten, Bool.or_eq_true, Bool.and_eq_true, hA.eqv] at hb
    exact hb.imp id (fun h => h.2.symm)

/-- Over a whole history the covered region only grows: everything covered after a prefix is covered
at the end. -/
theorem C37_monotone (A : ArchCfg X V) (hA : A.Exact) (maxSize : Nat) (h₁ h₂ : List (Submission X))
    (w : V) (hw : Covers A.cmp ((imprOf A maxSize h₁).map A.ov) w) :
    Covers A.cmp ((imprOf A maxSize (h₁ ++ h₂)).map A.ov) w := by
  induction h₂ using List.reverseRecOn with
  | nil => simpa using hw
  | append_singleton h₂ s ih =>
    obtain ⟨i1, i2, _⟩ := C36_improvement_only A hA maxSize (h₁ ++ h₂)
    rw [← List.append_assoc]
    cases s with
    | one m =>
      have e : imprOf A maxSize ((h₁ ++ h₂) ++ [.one m]) =
          (imprUpdate A maxSize (imprOf A maxSize (h₁ ++ h₂)) m).1 := by
        simp [imprOf, List.foldl_append]
      rw [e]
      exact (C37_improves A hA maxSize _ i2 i1 m).2 w ih
    | many pop =>
      have e : imprOf A maxSize ((h₁ ++ h₂) ++ [.many pop]) =
          (imprUpdatePop A maxSize (imprOf A maxSize (h₁ ++ h₂)) pop).1 := by
        simp [imprOf, List.foldl_append]
      rw [e]
      induction pop using List.reverseRecOn with
      | nil => exact ih
      | append_singleton pop m ihp =>
        have e' : (imprUpdatePop A maxSize (imprOf A maxSize (h₁ ++ h₂)) (pop ++ [m])).1 =
            (imprUpdate A maxSize (imprUpdatePop A maxSize (imprOf A maxSize (h₁ ++ h₂)) pop).1 m).1 := by
          simp [imprUpdatePop, List.foldl_append]
        rw [e']
        obtain ⟨j1, j2, _⟩ := imprPop_inv hA maxSize i2 i1 pop
        exact (C37_improves A hA maxSize _ j2 j1 m).2 w
          (ihp (by simp [imprOf, List.foldl_append]))

/-- A bound of 2: the third incomparable solution is refused, a dominating one enters. -/
example :
    let A : ArchCfg (ℚ × ℚ) (Fin 2 → ℚ) := ⟨fun x => ![x.1, x.2], paretoCmp ⟨![true, true], 0⟩,
      eqCmp ⟨![true, true], 0⟩, true⟩
    imprOf A 2 [.many [(1, 4), (4, 1)], .one (2, 2), .one (1, 3)] = [(4, 1), (1, 3)] := by
  decide +kernel

/-! ## C68: which members the fitness/diversity bounded archive discards -/

/-- When the archive is over-full, the members kept are the *first* in the order of the comparator of
individuals, i.e. the worst ones for the library's comparators (which answer "`a` is worse than
`b`", and are used reversed in the replacements): no discarded member is worse than a kept one. -/
theorem C68_keeps_first (worse : X → X → Bool) (assign sort : List X → List X) (maxSize : Nat)
    (hperm : ∀ l, (sort l).Perm l) (hsorted : ∀ l, (sort l).Pairwise fun a b => worse b a = false)
    (arch : List X) (hfull : arch.length > maxSize) :
    ∃ discarded, (fitDivCut assign sort maxSize arch ++ discarded).Perm (assign arch) ∧
      ∀ k ∈ fitDivCut assign sort maxSize arch, ∀ d ∈ discarded, worse d k = false := by
  refine ⟨(sort (assign arch)).drop maxSize, ?_, ?_⟩
  · unfold fitDivCut; rw [if_pos hfull, List.take_append_drop]; exact hperm _
  · unfold fitDivCut; rw [if_pos hfull]
    have := hsorted (assign arch)
    rw [← List.take_append_drop maxSize (sort (assign arch)), List.pairwise_append] at this
    exact fun k hk d hd => this.2.2 k hk d hd

/-- In particular a member better than all the others is always discarded. -/
theorem C68_discards_best (worse : X → X → Bool) (assign sort : List X → List X) (maxSize : Nat)
    (hperm : ∀ l, (sort l).Perm l) (hsorted : ∀ l, (sort l).Pairwise fun a b => worse b a = false)
    (arch : List X) (hlen : (assign arch).length = arch.length) (hfull : arch.length > maxSize)
    (hnd : (assign arch).Nodup) (b : X)
    (hbest : ∀ x ∈ assign arch, x ≠ b → worse x b = true) :
    b ∉ fitDivCut assign sort maxSize arch := by
  intro hb
  obtain ⟨disc, hp, h⟩ := C68_keeps_first worse assign sort maxSize hperm hsorted arch hfull
  have hlen' := hp.length_eq
  have hcut : (fitDivCut assign sort maxSize arch).length ≤ maxSize := by
    unfold fitDivCut; rw [if_pos hfull]; simp
  rw [List.length_append] at hlen'
  obtain ⟨d, hd⟩ : ∃ d, d ∈ disc := List.exists_mem_of_length_pos (by omega)
  have hdm : d ∈ assign arch := hp.mem_iff.mp (List.mem_append_right _ hd)
  have hne : d ≠ b := by
    rintro rfl
    have := hp.symm.nodup hnd
    rw [List.nodup_append] at this
    exact this.2.2 d hb d hd rfl
  have := h b hb d hd
  rw [hbest d hdm hne] at this
  exact absurd this (by simp)

/-- The hypotheses are met by the library's fitness-then-diversity comparator and a sort: of three
members with fitness 1, 3, 2 and a bound of two, the one of fitness 3 is dropped. -/
example : fitDivCut (X := ℚ × ℚ) id (fun l => l.mergeSort fun a b => !ftdCmp b a) 2
    [(1, 0), (3, 0), (2, 0)] = [(1, 0), (2, 0)] := by
  unfold fitDivCut
  simp [List.mergeSort, List.MergeSort.Internal.splitInTwo, List.merge, ftdCmp]
  norm_num

end Paradiseo.Moeo
