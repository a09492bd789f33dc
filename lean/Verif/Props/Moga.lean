import Verif.Model.Ibea
import Verif.Props.MoeoFitness
import Verif.Props.MoeoEA
/-
C310: MOGA, whose fitness assignment remembers positions from one generation to the next.
-/
namespace Paradiseo.Moeo.Moga

variable {V : Type} [DecidableEq V]

/-! ## Specification -/

/-- Spec: `sort` orders by fitness then diversity, best first. -/
structure Sorts (sort : List (GInd V) → List (GInd V)) : Prop where
  perm : ∀ l, (sort l).Perm l
  ord : ∀ l, (sort l).Pairwise fun a b => worse a b = false

/-- Spec: the positions of those who dominate the vector at position `i`. -/
def dominators (cmp : V → V → Bool) (vs : List V) (i : Nat) : Finset Nat :=
  (Finset.range vs.length).filter fun j => ∃ u ∈ vs[i]?, ∃ w ∈ vs[j]?, cmp u w = true

/-! ## Lemmas -/

/-- The comparator on positions that may be empty. -/
def cmpO (cmp : V → V → Bool) (u v : Option V) : Bool :=
  match v, u with
  | some a, some b => cmp b a
  | _, _ => false

theorem cmpO_iff {cmp : V → V → Bool} {u v : Option V} :
    cmpO cmp u v = true ↔ ∃ x ∈ u, ∃ y ∈ v, cmp x y = true := by
  cases u <;> cases v <;> simp [cmpO]

theorem cmpO_asym {cmp : V → V → Bool} (hc : Ea.Strict cmp) (u v : Option V) (h : cmpO cmp u v = true) :
    cmpO cmp v u = false := by
  cases u <;> cases v <;> simp [cmpO] at h ⊢
  rename_i x y
  by_contra hc'
  have := hc.trans _ _ _ h (by simpa using hc')
  rw [hc.irrefl] at this
  cases this

theorem matrix_eq (cmp : V → V → Bool) (marks : List Nat) (vs : List V) :
    matrix cmp marks vs = dmRun (fun p q => cmpO cmp ((fun i => vs[i]?) q) ((fun i => vs[i]?) p))
      (fun p q => decide ((fun i => vs[i]?) p = (fun i => vs[i]?) q)) true vs.length marks := rfl

/-- Spec: a mark is on the position, or its vector occurs earlier. -/
def Marked (marks : List Nat) (vs : List V) (c : Nat) : Prop :=
  c ∈ marks ∨ c < vs.length ∧ ∃ k < c, vs[k]? = vs[c]?

theorem matrix_spec {cmp : V → V → Bool} (hc : Ea.Strict cmp) {marks : List Nat} (hnd : marks.Nodup) {vs : List V}
    (hm : ∀ c ∈ marks, c < vs.length) :
    ∃ s, matrix cmp marks vs = some s ∧ (∀ c, c ∈ s.copySet ↔ Marked marks vs c) ∧ s.copySet.Nodup ∧
      (∀ i < vs.length, ¬ Marked marks vs i → s.rank i = ((dominators cmp vs i).filter (· ∉ s.copySet)).card) ∧
      ∀ c, Marked marks vs c → s.rank c = (vs.length : Int) - s.copySet.length := by
  obtain ⟨s, h1, h2, h3, _, h5, h6⟩ := C40_nocopy (cmpO cmp) (cmpO_asym hc) (fun i => vs[i]?) vs.length marks hnd hm
  refine ⟨s, (matrix_eq cmp marks vs).trans h1, h2, h3, ?_, fun c hcm => (h6 c hcm).2⟩
  intro i hi hi'
  rw [(h5 i hi hi').2]
  congr 2
  ext b
  simp only [dominators, Finset.mem_filter, cmpO_iff]
  tauto

theorem assign_spec {C : Cfg V} (hc : Ea.Strict C.cmp) {marks : List Nat} (hnd : marks.Nodup) {pop : List (GInd V)}
    (hne : pop ≠ []) (hm : ∀ c ∈ marks, c < pop.length) :
    ∃ l marks', C.assign marks pop = some (l, marks') ∧ l.map (·.ov) = pop.map (·.ov) ∧
      (∀ c, c ∈ marks' ↔ Marked marks (pop.map (·.ov)) c) ∧ marks'.Nodup ∧
      (∀ i x, l[i]? = some x → ¬ Marked marks (pop.map (·.ov)) i →
        x.fit = -(1 + (((dominators C.cmp (pop.map (·.ov)) i).filter (· ∉ marks')).card : Int))) ∧
      ∀ c x, l[c]? = some x → Marked marks (pop.map (·.ov)) c →
        x.fit = -(1 + ((pop.length : Int) - marks'.length)) := by
  obtain ⟨s, h1, h2, h3, h4, h5⟩ := matrix_spec hc hnd (vs := pop.map (·.ov)) (by simpa using hm)
  have hassign : C.assign marks pop = some
      ((pop.mapIdx fun i x => { x with fit := rankFitness 1 s i }).mapIdx
        (fun i x => { x with div := C.crowd (pop.mapIdx fun i x => { x with fit := rankFitness 1 s i }) i }),
        s.copySet) := by
    unfold Cfg.assign rankAssign
    rw [if_neg hne, h1]
    rfl
  refine ⟨_, s.copySet, hassign, ?_, h2, h3, ?_, ?_⟩
  · apply List.ext_getElem?
    intro i
    simp only [List.getElem?_map, List.getElem?_mapIdx, Option.map_map]
    rfl
  · intro i x hx hi
    simp only [List.getElem?_mapIdx, Option.map_map] at hx
    cases hp : pop[i]? with
    | none => rw [hp] at hx; cases hx
    | some y =>
      rw [hp] at hx
      simp only [Option.map_some, Option.some.injEq] at hx
      subst hx
      have hlt : i < (pop.map (·.ov)).length := by simpa using (List.getElem?_eq_some_iff.1 hp).1
      show rankFitness 1 s i = _
      unfold rankFitness
      rw [h4 i hlt hi, add_comm]
  · intro i x hx hi
    simp only [List.getElem?_mapIdx, Option.map_map] at hx
    cases hp : pop[i]? with
    | none => rw [hp] at hx; cases hx
    | some y =>
      rw [hp] at hx
      simp only [Option.map_some, Option.some.injEq] at hx
      subst hx
      show rankFitness 1 s i = _
      unfold rankFitness
      rw [h5 i hi, add_comm, List.length_map]

theorem mem_dominators {cmp : V → V → Bool} {vs : List V} {i j : Nat} :
    j ∈ dominators cmp vs i ↔ ∃ u ∈ vs[i]?, ∃ w ∈ vs[j]?, cmp u w = true := by
  unfold dominators
  rw [Finset.mem_filter, Finset.mem_range]
  constructor
  · exact fun h => h.2
  · rintro ⟨u, hu, w, hw, h⟩
    exact ⟨(List.getElem?_eq_some_iff.1 hw).1, u, hu, w, hw, h⟩

/-- Whoever dominates has fewer dominators. -/
theorem dominators_lt {cmp : V → V → Bool} (hc : Ea.Strict cmp) {vs : List V} {i j : Nat}
    (h : j ∈ dominators cmp vs i) : (dominators cmp vs j).card < (dominators cmp vs i).card := by
  apply Finset.card_lt_card
  rw [Finset.ssubset_iff_of_subset]
  · refine ⟨j, h, fun hj => ?_⟩
    obtain ⟨u, hu, w, hw, h'⟩ := mem_dominators.1 hj
    rw [Option.mem_def] at hu hw
    rw [hu] at hw
    cases hw
    rw [hc.irrefl] at h'
    cases h'
  · intro k hk
    obtain ⟨u, hu, w, hw, h1⟩ := mem_dominators.1 h
    obtain ⟨w', hw', z, hz, h2⟩ := mem_dominators.1 hk
    rw [Option.mem_def] at hw hw'
    rw [hw] at hw'
    cases hw'
    exact mem_dominators.2 ⟨u, hu, z, hz, hc.trans _ _ _ h1 h2⟩

theorem worse_of_fit {a b : GInd V} (h : a.fit < b.fit) : worse a b = true := by
  unfold worse ftdCmp
  have h' : ((a.fit : ℚ)) < (b.fit : ℚ) := by exact_mod_cast h
  rw [if_neg h'.ne]
  simpa using h'

/-! ## C310 -/

/-- One generation without marks and without repeated vectors: as many as there were parents are kept, all of them
parents or offspring; no marks arise; the fitness of everybody kept is minus one minus the number of those among
parents and offspring who dominate it; nobody left out dominates somebody kept; and either everybody kept is
non-dominated or every non-dominated one is kept. -/
theorem C310_generation {C : Cfg V} (hc : Ea.Strict C.cmp) (hs : Sorts C.sort) {par : List (GInd V)}
    (hne : par ≠ []) (off : List (GInd V)) (hnd : ((par ++ off).map (·.ov)).Nodup) :
    ∃ kept rest, C.replace [] par off = some (kept, []) ∧ kept.length = par.length ∧
      (kept.map (·.ov) ++ rest).Perm ((par ++ off).map (·.ov)) ∧
      (∀ x ∈ kept, x.fit = -(1 + ((((par ++ off).map (·.ov)).countP fun w => C.cmp x.ov w : Nat) : Int))) ∧
      (∀ x ∈ kept, ∀ v ∈ rest, C.cmp x.ov v = false) ∧
      ((∀ x ∈ kept, Ea.NonDom C.cmp ((par ++ off).map (·.ov)) x.ov) ∨
        (∀ v ∈ rest, ¬ Ea.NonDom C.cmp ((par ++ off).map (·.ov)) v)) := by
  obtain ⟨l, marks', h1, h2, h3, h4, h5, _⟩ := assign_spec (C := C) hc (marks := []) List.nodup_nil
    (pop := par ++ off) (by simp [hne]) (by simp)
  set vs := (par ++ off).map (·.ov) with hvs
  have hnm : ∀ c : Nat, ¬ Marked [] vs c := by
    rintro c (h | ⟨h, k, hk, he⟩)
    · cases h
    · exact absurd ((List.getElem?_inj (hk.trans h) hnd).1 he) hk.ne
  have hmk : marks' = [] := List.eq_nil_iff_forall_not_mem.2 fun c hcm => hnm c ((h3 c).1 hcm)
  subst hmk
  have hfit : ∀ (i : Nat) (x : GInd V), l[i]? = some x → x.fit = -(1 + ((dominators C.cmp vs i).card : Int)) := by
    intro i x hx
    rw [h5 i x hx (hnm i)]
    simp
  have hpos : ∀ (i : Nat) (x : GInd V), l[i]? = some x → vs[i]? = some x.ov := by
    intro i x hx
    rw [← h2, List.getElem?_map, hx]; rfl
  have hcount : ∀ (i : Nat) (x : GInd V), l[i]? = some x → (dominators C.cmp vs i).card = vs.countP fun w => C.cmp x.ov w := by
    intro i x hx
    have hv := hpos i x hx
    have this : dominators C.cmp vs i = (Finset.range vs.length).filter fun j => ∃ w ∈ vs[j]?, C.cmp x.ov w = true := by
      ext j
      simp only [dominators, Finset.mem_filter, hv, Option.mem_def, Option.some.injEq, exists_eq_left']
    rw [this]
    clear this hv hfit hpos h1 h2 h3 h5 h4 hnm hx
    have key : ∀ (us : List V), ((Finset.range us.length).filter fun j => ∃ w ∈ us[j]?, C.cmp x.ov w = true).card =
        us.countP fun w => C.cmp x.ov w := by
      intro us
      induction us using List.reverseRecOn with
      | nil => simp
      | append_singleton us a ih =>
        rw [List.length_append, List.length_singleton, Finset.range_add_one, Finset.filter_insert,
          List.countP_append]
        have hcong : ((Finset.range us.length).filter fun j => ∃ w ∈ (us ++ [a])[j]?, C.cmp x.ov w = true) =
            (Finset.range us.length).filter fun j => ∃ w ∈ us[j]?, C.cmp x.ov w = true := by
          apply Finset.filter_congr
          intro j hj
          rw [List.getElem?_append_left (Finset.mem_range.1 hj)]
        have hlast : (us ++ [a])[us.length]? = some a := by simp
        by_cases ha : C.cmp x.ov a = true
        · rw [if_pos ⟨a, by simp, ha⟩, Finset.card_insert_of_notMem (by simp), hcong, ih]
          simp [ha]
        · rw [if_neg (by rintro ⟨w, hw, hw'⟩; rw [hlast] at hw; cases hw; exact ha hw'), hcong, ih]
          simp [ha]
    exact key vs
  have hperm := hs.perm l
  have hord := hs.ord l
  have hsplit : (C.sort l).take par.length ++ (C.sort l).drop par.length = C.sort l := List.take_append_drop _ _
  have hlen : l.length = (par ++ off).length := by
    have := congrArg List.length h2
    simpa [hvs] using this
  have hw : ∀ x ∈ (C.sort l).take par.length, ∀ y ∈ (C.sort l).drop par.length, worse x y = false := by
    rw [← hsplit, List.pairwise_append] at hord
    exact hord.2.2
  have hml : ∀ z, z ∈ (C.sort l).take par.length ∨ z ∈ (C.sort l).drop par.length → z ∈ l := by
    intro z hz
    apply hperm.subset
    rw [← hsplit]
    exact List.mem_append.2 hz
  have hnon : ∀ x ∈ l, Ea.NonDom C.cmp vs x.ov ↔ x.fit = -1 := by
    intro x hx
    obtain ⟨i, hi⟩ := List.mem_iff_getElem?.1 hx
    rw [hfit i x hi, hcount i x hi]
    unfold Ea.NonDom
    constructor
    · intro h
      rw [List.countP_eq_zero.2 (by intro a ha; simp [h a ha])]
      simp
    · intro h w hw
      have h0 : (vs.countP fun w => C.cmp x.ov w) = 0 := by omega
      simpa using List.countP_eq_zero.1 h0 w hw
  refine ⟨(C.sort l).take par.length, ((C.sort l).drop par.length).map (·.ov), ?_, ?_, ?_, ?_, ?_, ?_⟩
  · unfold Cfg.replace
    rw [h1]
    rfl
  · rw [List.length_take, hperm.length_eq, hlen]
    simp
  · rw [← List.map_append, hsplit, ← h2]
    exact hperm.map _
  · intro x hx
    obtain ⟨i, hi⟩ := List.mem_iff_getElem?.1 (hml x (Or.inl hx))
    rw [hfit i x hi, hcount i x hi]
  · intro x hx v hv
    obtain ⟨y, hy, rfl⟩ := List.mem_map.1 hv
    by_contra hcmp
    obtain ⟨i, hi⟩ := List.mem_iff_getElem?.1 (hml x (Or.inl hx))
    obtain ⟨j, hj⟩ := List.mem_iff_getElem?.1 (hml y (Or.inr hy))
    have hdom : j ∈ dominators C.cmp vs i :=
      mem_dominators.2 ⟨_, hpos i x hi, _, hpos j y hj, by simpa using hcmp⟩
    have hlt := dominators_lt hc hdom
    have : worse x y = true := worse_of_fit (by rw [hfit i x hi, hfit j y hj]; omega)
    rw [hw x hx y hy] at this
    cases this
  · by_cases hall : ∀ x ∈ (C.sort l).take par.length, Ea.NonDom C.cmp vs x.ov
    · exact Or.inl hall
    · right
      push Not at hall
      obtain ⟨x, hx, hxn⟩ := hall
      intro v hv hn
      obtain ⟨y, hy, rfl⟩ := List.mem_map.1 hv
      have hxf : x.fit ≠ -1 := fun h => hxn ((hnon x (hml x (Or.inl hx))).2 h)
      have hyf : y.fit = -1 := (hnon y (hml y (Or.inr hy))).1 hn
      obtain ⟨i, hi⟩ := List.mem_iff_getElem?.1 (hml x (Or.inl hx))
      have hx1 := hfit i x hi
      have : worse x y = true := worse_of_fit (by omega)
      rw [hw x hx y hy] at this
      cases this

/-- The generations of a run: marks and parents with offspring before each replacement. -/
def Cfg.trace (C : Cfg V) : Nat → Nat → List (GInd V) → List Nat → List (List Nat × List (GInd V))
  | 0, _, _, _ => []
  | fuel + 1, t, pop, marks =>
    (marks, pop ++ C.breed t pop) :: match C.replace marks pop (C.breed t pop) with
      | none => []
      | some r => if C.cont t r.1 then C.trace fuel (t + 1) r.1 r.2 else []

/-- Marks stay: a position marked once is marked in every later generation of the run, and whoever sits there has
the smallest fitness of all, minus one minus the number of unmarked ones, whatever it dominates. -/
theorem C310_marks_stay {C : Cfg V} (hc : Ea.Strict C.cmp) {marks : List Nat} (hnd : marks.Nodup) (fuel t : Nat)
    (pop : List (GInd V)) :
    ∀ g ∈ C.trace fuel t pop marks, marks ⊆ g.1 ∧ g.1.Nodup ∧
      ((∀ c ∈ g.1, c < g.2.length) → g.2 ≠ [] → ∃ l marks', C.assign g.1 g.2 = some (l, marks') ∧
        l.map (·.ov) = g.2.map (·.ov) ∧ ∀ c ∈ marks, ∀ x, l[c]? = some x →
          x.fit = -(1 + ((g.2.length : Int) - marks'.length)) ∧ ∀ y ∈ l, x.fit ≤ y.fit) ∧
      ((∃ c ∈ g.1, g.2.length ≤ c) → C.assign g.1 g.2 = none) := by
  have hlocal : ∀ (m : List Nat) (q : List (GInd V)), m.Nodup →
      ((∀ c ∈ m, c < q.length) → q ≠ [] → ∃ l marks', C.assign m q = some (l, marks') ∧ m ⊆ marks' ∧ marks'.Nodup ∧
        l.map (·.ov) = q.map (·.ov) ∧ ∀ c ∈ m, ∀ x, l[c]? = some x →
          x.fit = -(1 + ((q.length : Int) - marks'.length)) ∧ ∀ y ∈ l, x.fit ≤ y.fit) ∧
      ((∃ c ∈ m, q.length ≤ c) → C.assign m q = none) := by
    intro m q hm
    constructor
    · intro hlt hq
      obtain ⟨l, marks', h1, h2, h3, h4, h5, h6⟩ := assign_spec (C := C) hc hm hq hlt
      refine ⟨l, marks', h1, fun c hcm => (h3 c).2 (Or.inl hcm), h4, h2, ?_⟩
      intro c hcm x hx
      have hf := h6 c x hx (Or.inl hcm)
      refine ⟨hf, fun y hy => ?_⟩
      obtain ⟨j, hj⟩ := List.mem_iff_getElem?.1 hy
      by_cases hjm : Marked m (q.map (·.ov)) j
      · rw [hf, h6 j y hj hjm]
      · rw [hf, h5 j y hj hjm]
        have hsub : (dominators C.cmp (q.map (·.ov)) j).filter (· ∉ marks') ⊆
            Finset.range q.length \ marks'.toFinset := by
          intro k hk
          rw [Finset.mem_filter] at hk
          rw [Finset.mem_sdiff, Finset.mem_range, List.mem_toFinset]
          refine ⟨?_, hk.2⟩
          have := (Finset.mem_filter.1 hk.1).1
          simpa using this
        have hsub2 : marks'.toFinset ⊆ Finset.range q.length := by
          intro k hk
          rw [List.mem_toFinset, h3] at hk
          rw [Finset.mem_range]
          rcases hk with hk | hk
          · exact hlt k hk
          · simpa using hk.1
        have hcard := Finset.card_le_card hsub
        rw [Finset.card_sdiff_of_subset hsub2, Finset.card_range, List.toFinset_card_of_nodup h4] at hcard
        have hle := Finset.card_le_card hsub2
        rw [Finset.card_range, List.toFinset_card_of_nodup h4] at hle
        omega
    · rintro ⟨c, hcm, hle⟩
      unfold Cfg.assign
      split
      · rfl
      · have hnone : matrix C.cmp m (q.map (·.ov)) = none := by
          rw [matrix_eq]
          have h := pairs_inv (dom := fun p r => cmpO C.cmp ((fun i => (q.map (·.ov))[i]?) r)
            ((fun i => (q.map (·.ov))[i]?) p)) (eqv := fun p r => decide ((fun i => (q.map (·.ov))[i]?) p =
            (fun i => (q.map (·.ov))[i]?) r)) (nocopy := true) (N := (q.map (·.ov)).length) (cs := m)
            (fun p r hh => cmpO_asym hc _ _ hh)
          unfold dmRun
          rw [if_pos rfl, if_neg]
          rw [List.all_eq_true]
          intro hall
          have := hall c ((h.copies c).2 (Or.inl hcm))
          simp at this
          omega
        unfold rankAssign
        rw [hnone]
        rfl
  induction fuel generalizing t pop marks with
  | zero => intro g hg; cases hg
  | succ fuel ih =>
    intro g hg
    unfold Cfg.trace at hg
    rcases List.mem_cons.1 hg with rfl | hg
    · refine ⟨fun _ h => h, hnd, ?_, (hlocal marks _ hnd).2⟩
      intro h1 h2
      obtain ⟨l, marks', a1, _, _, a4, a5⟩ := (hlocal marks _ hnd).1 h1 h2
      exact ⟨l, marks', a1, a4, a5⟩
    · unfold Cfg.replace at hg
      by_cases hbad : (∃ c ∈ marks, (pop ++ C.breed t pop).length ≤ c)
      · rw [(hlocal marks _ hnd).2 hbad] at hg
        cases hg
      · push Not at hbad
        by_cases hq : pop ++ C.breed t pop = []
        · have : C.assign marks (pop ++ C.breed t pop) = none := by
            unfold Cfg.assign; rw [if_pos hq]
          rw [this] at hg
          cases hg
        · obtain ⟨l, marks', a1, a2, a3, a4, a5⟩ := (hlocal marks _ hnd).1 hbad hq
          rw [a1] at hg
          simp only [Option.map_some] at hg
          split at hg
          · obtain ⟨b1, b2, b3, b4⟩ := ih a3 (t + 1) _ g hg
            refine ⟨fun c hcm => b1 (a2 hcm), b2, ?_, b4⟩
            intro c1 c2
            obtain ⟨l', m', d1, d2, d3⟩ := b3 c1 c2
            exact ⟨l', m', d1, d2, fun c hcm => d3 c (a2 hcm)⟩
          · cases hg

/-- No repeated vector in any generation: no marks in any generation. -/
theorem C310_clean {C : Cfg V} (hc : Ea.Strict C.cmp) (fuel t : Nat) (pop : List (GInd V))
    (h : ∀ g ∈ C.trace fuel t pop [], (g.2.map (·.ov)).Nodup) : ∀ g ∈ C.trace fuel t pop [], g.1 = [] := by
  induction fuel generalizing t pop with
  | zero => intro g hg; cases hg
  | succ fuel ih =>
    intro g hg
    unfold Cfg.trace at hg h
    rcases List.mem_cons.1 hg with rfl | hg
    · rfl
    · have hnd := h _ (List.mem_cons_self)
      dsimp only at hnd
      cases hr : C.replace [] pop (C.breed t pop) with
      | none => rw [hr] at hg; cases hg
      | some r =>
        rw [hr] at hg h
        have hm : r.2 = [] := by
          unfold Cfg.replace at hr
          by_cases hq : pop ++ C.breed t pop = []
          · have : C.assign [] (pop ++ C.breed t pop) = none := by
              unfold Cfg.assign; rw [if_pos hq]
            rw [this] at hr
            cases hr
          · obtain ⟨l, marks', h1, _, h3, _⟩ := assign_spec (C := C) hc (marks := []) List.nodup_nil hq (by simp)
            rw [h1] at hr
            cases hr
            refine List.eq_nil_iff_forall_not_mem.2 fun c hcm => ?_
            rcases (h3 c).1 hcm with hx | ⟨hx, k, hk, he⟩
            · cases hx
            · exact absurd ((List.getElem?_inj (hk.trans hx) hnd).1 he) hk.ne
        dsimp only at hg h
        split at hg
        · rename_i hcont
          rw [hm] at hg
          refine ih (t + 1) r.1 ?_ g hg
          intro g' hg'
          refine h g' (List.mem_cons_of_mem _ ?_)
          rw [if_pos hcont, hm]
          exact hg'
        · cases hg

/-- A sort to compute with. -/
def notWorse (a b : GInd V) : Prop := worse a b = false

instance : DecidableRel (notWorse (V := V)) := fun a b => inferInstanceAs (Decidable (worse a b = false))

instance : Std.Total (notWorse (V := V)) where
  total a b := by
    unfold notWorse worse ftdCmp
    split_ifs <;> simp_all <;> first | exact le_total _ _ | grind

instance : IsTrans (GInd V) notWorse where
  trans a b c h1 h2 := by
    unfold notWorse worse ftdCmp at *
    split_ifs at * <;> simp_all <;> first | linarith | grind

def isort (l : List (GInd V)) : List (GInd V) := l.insertionSort notWorse

omit [DecidableEq V] in
theorem isort_sorts : Sorts (isort (V := V)) :=
  ⟨fun l => List.perm_insertionSort _ l, fun l => List.pairwise_insertionSort notWorse l⟩

/-- No vector twice: two generations without marks. -/
def exG : Cfg (Nat × Nat × Nat) where
  cmp := Ea.lt2
  crowd _ _ := 0
  sort := isort
  breed t _ := if t = 0 then [⟨(4, 0, 4), 0, 0⟩, ⟨(1, 1, 1), 0, 0⟩] else [⟨(6, 6, 6), 0, 0⟩, ⟨(7, 7, 7), 0, 0⟩]
  cont t _ := t == 0

example : exG.run 5 [⟨(5, 5, 5), 0, 0⟩, ⟨(8, 8, 8), 0, 0⟩] = .done [⟨(4, 0, 4), -1, 0⟩, ⟨(1, 1, 1), -1, 0⟩] := by
  decide +kernel

example : ∀ g ∈ exG.trace 5 0 [⟨(5, 5, 5), 0, 0⟩, ⟨(8, 8, 8), 0, 0⟩] [], (g.2.map (·.ov)).Nodup := by
  decide +kernel

/-- Two equal individuals in the first population are enough to lose the best: two generations later a vector that
nobody ever evaluated dominates is gone, and one that it dominates is in the final population. -/
theorem C310_nondominated_lost : ∃ (C : Cfg (Nat × Nat × Nat)) (pop p : List (GInd (Nat × Nat × Nat))),
    Ea.Strict C.cmp ∧ Sorts C.sort ∧ C.run 5 pop = .done p ∧ pop.length = 2 ∧ p.length = 2 ∧
    ∃ v ∈ (C.breed 0 []).map (·.ov), v ∉ p.map (·.ov) ∧
      Ea.NonDom C.cmp ((pop ++ C.breed 0 [] ++ C.breed 1 []).map (·.ov)) v ∧
      ∃ x ∈ p, C.cmp x.ov v = true := by
  refine ⟨exG, [⟨(5, 5, 5), 0, 0⟩, ⟨(5, 5, 5), 0, 0⟩], [⟨(4, 0, 4), -1, 0⟩, ⟨(6, 6, 6), -2, 0⟩],
    Ea.lt2_strict, isort_sorts, by decide +kernel, rfl, rfl, (1, 1, 1), by decide +kernel, by decide +kernel, ?_,
    by decide +kernel⟩
  unfold Ea.NonDom
  decide +kernel

/-- A mark beyond the end of a shorter population: the next fitness assignment writes outside the matrix. -/
example : exG.assign [3] [⟨(5, 5, 5), 0, 0⟩, ⟨(8, 8, 8), 0, 0⟩] = none := by decide +kernel

end Paradiseo.Moeo.Moga
