import Verif.Model.MoeoEA
import Verif.Lemmas.MoeoDepth
import Verif.Lemmas.MoeoDMLS
import Verif.Props.MoeoDepth
/-
Helper lemmas for the evolutionary algorithms of MOEO.
-/
namespace Paradiseo.Moeo.Ea

variable {V X : Type}

theorem domAt_irrefl {cmp : V → V → Bool} (h : ∀ v, cmp v v = false) (vs : List V) (p : Nat) :
    domAt cmp vs p p = false := by
  unfold domAt
  cases hp : vs[p]? <;> simp [h]

theorem domAt_true {cmp : V → V → Bool} {vs : List V} {p q : Nat} :
    domAt cmp vs p q = true ↔ ∃ a b, vs[p]? = some a ∧ vs[q]? = some b ∧ cmp b a = true := by
  unfold domAt
  cases hp : vs[p]? <;> cases hq : vs[q]? <;> simp

theorem mapM_range_some (f : Nat → Option Nat) (r : Nat → Nat) (N : Nat)
    (h : ∀ q < N, f q = some (r q)) : (List.range N).mapM f = some ((List.range N).map r) := by
  have : ∀ l : List Nat, (∀ q ∈ l, f q = some (r q)) → l.mapM f = some (l.map r) := by
    intro l
    induction l with
    | nil => intro _; rfl
    | cons a l ih =>
      intro hl
      rw [List.mapM_cons, hl a (by simp), ih (fun q hq => hl q (by simp [hq]))]
      rfl
  exact this _ (fun q hq => h q (by simpa using hq))

/-- The ranks of a strict partial order. -/
theorem ranks_spec {cmp : V → V → Bool} (hirr : ∀ v, cmp v v = false)
    (htr : ∀ u v w, cmp u v = true → cmp v w = true → cmp u w = true) (vs : List V) :
    ∃ r : Nat → Nat, ranks cmp vs = some ((List.range vs.length).map r) ∧
      LocalDepth vs.length (domAt cmp vs) r := by
  obtain ⟨fit, r, h1, h2, h3⟩ := mObjectives_spec (N := vs.length) (dom := domAt cmp vs)
    (domAt_irrefl hirr vs) (by
      intro p q s hpq hqs
      rw [domAt_true] at *
      obtain ⟨a, b, ha, hb, hab⟩ := hpq
      obtain ⟨b', c, hb', hc, hbc⟩ := hqs
      rw [hb] at hb'; cases hb'
      exact ⟨a, c, ha, hc, htr _ _ _ hbc hab⟩)
  refine ⟨r, ?_, h3⟩
  unfold ranks
  rw [h1]
  exact mapM_range_some _ _ _ h2

/-- What the assignments guarantee. -/
structure Assigned (cmp : V → V → Bool) (pop l : List (NInd V)) : Prop where
  ov : l.map (·.ov) = pop.map (·.ov)
  lt : ∀ x ∈ l, ∀ y ∈ l, cmp y.ov x.ov = true → y.fit < x.fit
  nd : ∀ x ∈ l, ∀ y ∈ l, (∀ w ∈ l, cmp x.ov w.ov = false) → (∃ w ∈ l, cmp y.ov w.ov = true) → y.fit < x.fit

theorem assign_spec {cmp : V → V → Bool} (hirr : ∀ v, cmp v v = false)
    (htr : ∀ u v w, cmp u v = true → cmp v w = true → cmp u w = true)
    (crowd : List (NInd V) → Nat → ℚ) {pop : List (NInd V)} (hne : pop ≠ []) :
    ∃ l, assign cmp crowd pop = some l ∧ Assigned cmp pop l := by
  obtain ⟨r, hr, hd⟩ := ranks_spec hirr htr (pop.map (·.ov))
  simp only [List.length_map] at hr hd
  obtain ⟨fs, hfs⟩ : ∃ fs, depthFinal ((List.range pop.length).map r) = some fs := by
    cases pop with
    | nil => exact absurd rfl hne
    | cons a p =>
      simp only [List.length_cons, List.range_succ_eq_map, List.map_cons, depthFinal]
      exact ⟨_, rfl⟩
  obtain ⟨hlen, _, hcmp⟩ := C38_fitness _ _ hfs
  simp only [List.length_map, List.length_range] at hlen
  refine ⟨divAssign crowd (List.zipWith (fun x f => { x with fit := f }) pop fs),
    by simp only [assign, depthAssign, hr, Option.bind_some, hfs, Option.map_some], ?_⟩
  -- members of the result
  have hget : ∀ x ∈ divAssign crowd (List.zipWith (fun x f => { x with fit := f }) pop fs),
      ∃ i, ∃ hi : i < pop.length, x.ov = pop[i].ov ∧ fs[i]? = some x.fit := by
    intro x hx
    unfold divAssign at hx
    rw [List.mem_mapIdx] at hx
    obtain ⟨i, hi, rfl⟩ := hx
    simp only [List.length_zipWith, hlen] at hi
    refine ⟨i, by omega, by simp, ?_⟩
    simp only [List.getElem_zipWith]
    exact List.getElem?_eq_getElem _
  have hov : (divAssign crowd (List.zipWith (fun x f => { x with fit := f }) pop fs)).map (·.ov) =
      pop.map (·.ov) := by
    apply List.ext_getElem
    · simp [divAssign, hlen]
    · intro i h1 h2
      simp [divAssign]
  have hmem : ∀ j (hj : j < pop.length),
      pop[j].ov ∈ (divAssign crowd (List.zipWith (fun x f => { x with fit := f }) pop fs)).map (·.ov) := by
    intro j hj; rw [hov]; exact List.mem_map_of_mem (List.getElem_mem hj)
  have hrank : ∀ i j, i < pop.length → j < pop.length → ∀ x y, fs[i]? = some x → fs[j]? = some y →
      (r i < r j ↔ y < x) := by
    intro i j hi hj x y hx hy
    exact hcmp i j (r i) (r j) x y (by simp [hi]) (by simp [hj]) hx hy
  refine ⟨hov, ?_, ?_⟩
  · intro x hx y hy hc
    obtain ⟨i, hi, hxi, hfi⟩ := hget x hx
    obtain ⟨j, hj, hyj, hfj⟩ := hget y hy
    rw [← hrank i j hi hj _ _ hfi hfj]
    apply hd.gt j hj i hi
    rw [domAt_true]
    exact ⟨x.ov, y.ov, by simp [hxi, hi], by simp [hyj, hj], hc⟩
  · intro x hx y hy hnd ⟨w, hw, hyw⟩
    obtain ⟨i, hi, hxi, hfi⟩ := hget x hx
    obtain ⟨j, hj, hyj, hfj⟩ := hget y hy
    obtain ⟨k, hk, hwk, hfk⟩ := hget w hw
    rw [← hrank i j hi hj _ _ hfi hfj]
    have h1 : r i = 1 := by
      rcases hd.step i hi with h | ⟨p, hp, hdp, _⟩
      · exact h
      · exfalso
        rw [domAt_true] at hdp
        obtain ⟨a, b, ha, hb, hab⟩ := hdp
        simp only [List.getElem?_map, List.getElem?_eq_getElem hp, List.getElem?_eq_getElem hi,
          Option.map_some, Option.some.injEq] at ha hb
        obtain ⟨z, hz, hzo⟩ := List.mem_map.1 (hmem p hp)
        have := hnd z hz
        rw [hzo, ha, hxi, hb, hab] at this
        cases this
    have h2 : r k < r j := by
      apply hd.gt j hj k hk
      rw [domAt_true]
      exact ⟨w.ov, y.ov, by simp [hwk, hk], by simp [hyj, hj], hyw⟩
    have := hd.pos k hk
    omega

theorem worse_of_fit {x y : NInd V} (h : x.fit < y.fit) : worse x y = true := by
  unfold worse ftdCmp
  have h1 : (x.fit : ℚ) < (y.fit : ℚ) := by exact_mod_cast h
  simp [h1, h1.ne]

/-- The result of one replacement and the individuals left out. -/
theorem replaceStep_spec {cmp : V → V → Bool} (hirr : ∀ v, cmp v v = false)
    (htr : ∀ u v w, cmp u v = true → cmp v w = true → cmp u w = true)
    (crowd : List (NInd V) → Nat → ℚ) {sort : List (NInd V) → List (NInd V)}
    (hperm : ∀ l, (sort l).Perm l) (hsort : ∀ l, (sort l).Pairwise fun a b => worse a b = false)
    {par off : List (NInd V)} (hne : par ≠ []) :
    ∃ kept rest l, replaceStep cmp crowd sort par off = some kept ∧ kept.length = par.length ∧
      (kept ++ rest).Perm l ∧ Assigned cmp (par ++ off) l ∧
      ∀ x ∈ kept, ∀ y ∈ rest, worse x y = false := by
  obtain ⟨l, hl, ha⟩ := assign_spec hirr htr crowd (pop := par ++ off) (by simp [hne])
  have hlen : l.length = (par ++ off).length := by
    have := congrArg List.length ha.ov
    simpa using this
  refine ⟨(sort l).take par.length, (sort l).drop par.length, l, ?_, ?_, ?_, ha, ?_⟩
  · simp [replaceStep, hl]
  · simp [(hperm l).length_eq, hlen]
  · rw [List.take_append_drop]; exact hperm l
  · have := hsort l
    rw [← List.take_append_drop par.length (sort l)] at this
    exact (List.pairwise_append.1 this).2.2

/-! ### Archives -/

theorem updatePop_append (A : ArchCfg X V) (arch p q : List X) :
    (updatePop A arch (p ++ q)).1 = (updatePop A (updatePop A arch p).1 q).1 := by
  have h : ∀ (q : List X) (s : List X) (b c : Bool),
      (q.foldl (fun s m => let r := update A s.1 m; (r.1, r.2 || s.2)) (s, b)).1 =
      (q.foldl (fun s m => let r := update A s.1 m; (r.1, r.2 || s.2)) (s, c)).1 := by
    intro q
    induction q with
    | nil => intro s b c; rfl
    | cons m q ih => intro s b c; simp only [List.foldl_cons]; exact ih _ _ _
  simp only [updatePop, List.foldl_append]
  exact h q _ _ _

/-- Submitting a member again only reorders an archive. -/
theorem update_member {A : ArchCfg X V} (hA : A.Exact) {arch : List X}
    (hac : Antichain A.cmp (arch.map A.ov)) {m : X} (hm : m ∈ arch) :
    (update A arch m).1.Perm arch := by
  rcases update_cases hA hac m with ⟨_, hu⟩ | ⟨hb, hu⟩
  · rw [hu]
  · rw [hu]
    have hmem : ∀ x ∈ arch, A.beaten m x = true ↔ A.ov x = A.ov m := by
      intro x hx
      have h1 := hac.forall hA.irrefl (List.mem_map_of_mem hx) (List.mem_map_of_mem hm)
      have hnb : A.blocks m m = false := by
        rw [List.any_eq_false] at hb
        simpa using hb m hm
      have hr : A.replace = true := by
        simp only [ArchCfg.blocks, hA.irrefl, Bool.false_or, Bool.and_eq_false_iff,
          Bool.not_eq_false'] at hnb
        rcases hnb with h | h
        · exact h
        · have := (hA.eqv (A.ov m) (A.ov m)).2 rfl
          rw [h] at this; cases this
      simp only [ArchCfg.beaten, h1, hr, Bool.true_and, Bool.false_or, hA.eqv]
      exact eq_comm
    have hfil := removeLoop_filter (A.beaten m) arch
    refine (List.Perm.append_right [m] hfil).trans ?_
    -- split the archive at `m`
    obtain ⟨l₁, l₂, rfl⟩ := List.append_of_mem hm
    have hne : ∀ x, x ∈ l₁ ∨ x ∈ l₂ → A.ov x ≠ A.ov m := by
      intro x hx
      unfold Antichain at hac
      rw [List.map_append, List.map_cons, List.pairwise_append] at hac
      obtain ⟨_, h2, h3⟩ := hac
      rcases hx with hx | hx
      · exact (h3 _ (List.mem_map_of_mem hx) _ (by simp)).2.2
      · rw [List.pairwise_cons] at h2
        exact ((h2.1 _ (List.mem_map_of_mem hx)).2.2).symm
    have f1 : l₁.filter (fun x => !A.beaten m x) = l₁ := by
      rw [List.filter_eq_self]
      intro x hx
      have := (hmem x (by simp [hx])).not.2 (hne x (Or.inl hx))
      simpa using this
    have f2 : l₂.filter (fun x => !A.beaten m x) = l₂ := by
      rw [List.filter_eq_self]
      intro x hx
      have := (hmem x (by simp [hx])).not.2 (hne x (Or.inr hx))
      simpa using this
    have f3 : A.beaten m m = true := (hmem m (by simp)).2 rfl
    rw [List.filter_append, List.filter_cons, f1, f2, f3]
    simp only [Bool.not_true, Bool.false_eq_true, if_false]
    exact (List.perm_append_singleton m (l₁ ++ l₂)).trans List.perm_middle.symm

theorem updatePop_members {A : ArchCfg X V} (hA : A.Exact) {arch : List X}
    (hac : Antichain A.cmp (arch.map A.ov)) (l : List X) (hl : ∀ x ∈ l, x ∈ arch) :
    (updatePop A arch l).1.Perm arch := by
  induction l using List.reverseRecOn with
  | nil => exact List.Perm.refl _
  | append_singleton l m ih =>
    rw [updatePop_append]
    have p := ih (fun x hx => hl x (by simp [hx]))
    have hm : m ∈ (updatePop A arch l).1 := p.symm.subset (hl m (by simp))
    have : (updatePop A (updatePop A arch l).1 [m]).1 = (update A (updatePop A arch l).1 m).1 := by
      simp [updatePop]
    rw [this]
    exact (update_member hA (updatePop_inv hA hac l).1 hm).trans p

end Paradiseo.Moeo.Ea
