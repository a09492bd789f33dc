import Verif.Lemmas.MoeoEA
import Mathlib.Tactic.Linarith
/-
C171-C172: the multi-objective evolutionary algorithms of MOEO.
-/
namespace Paradiseo.Moeo.Ea

variable {V X : Type}

/-! ## C171 NSGA-II -/

/-- Spec: nothing in `all` dominates `v`. -/
def NonDom (cmp : V → V → Bool) (all : List V) (v : V) : Prop := ∀ w ∈ all, cmp v w = false

/-- Spec: the members of the first front of `all`, with repetitions. -/
def front (cmp : V → V → Bool) (all : List V) : List V := all.filter fun v => all.all fun w => !cmp v w

/-- Spec: `sort` orders by fitness then diversity, best first. -/
structure Sorts (sort : List (NInd V) → List (NInd V)) : Prop where
  perm : ∀ l, (sort l).Perm l
  ord : ∀ l, (sort l).Pairwise fun a b => worse a b = false

/-- Spec: the comparator is a strict partial order. -/
structure Strict (cmp : V → V → Bool) : Prop where
  irrefl : ∀ v, cmp v v = false
  trans : ∀ u v w, cmp u v = true → cmp v w = true → cmp u w = true

theorem mem_front {cmp : V → V → Bool} {all : List V} {v : V} :
    v ∈ front cmp all ↔ v ∈ all ∧ NonDom cmp all v := by
  unfold front NonDom
  simp

/-- One generation, on any parents (at least one) and any offspring: as many individuals as before are
kept, they are parents or offspring; nobody left out dominates somebody kept; and either everybody
kept is non-dominated among parents and offspring, or every non-dominated individual is kept. -/
theorem C171_generation {cmp : V → V → Bool} (hc : Strict cmp) (crowd : List (NInd V) → Nat → ℚ)
    {sort : List (NInd V) → List (NInd V)} (hs : Sorts sort) {par : List (NInd V)}
    (hne : par ≠ []) (off : List (NInd V)) :
    ∃ kept rest, replaceStep cmp crowd sort par off = some kept ∧
      kept.length = par.length ∧
      (kept.map (·.ov) ++ rest).Perm ((par ++ off).map (·.ov)) ∧
      (∀ x ∈ kept, ∀ v ∈ rest, cmp x.ov v = false) ∧
      ((∀ x ∈ kept, NonDom cmp ((par ++ off).map (·.ov)) x.ov) ∨
        (∀ v ∈ rest, ¬ NonDom cmp ((par ++ off).map (·.ov)) v)) := by
  obtain ⟨kept, rest, l, h1, h2, h3, h4, h5⟩ := replaceStep_spec hc.irrefl hc.trans crowd hs.perm hs.ord
    (off := off) hne
  have hml : ∀ z, z ∈ kept ∨ z ∈ rest → z ∈ l := fun z hz => h3.subset (List.mem_append.2 hz)
  refine ⟨kept, rest.map (·.ov), h1, h2, ?_, ?_, ?_⟩
  · rw [← List.map_append, ← h4.ov]; exact h3.map _
  · intro x hx v hv
    obtain ⟨y, hy, rfl⟩ := List.mem_map.1 hv
    by_contra hcon
    have := worse_of_fit (h4.lt y (hml y (Or.inr hy)) x (hml x (Or.inl hx)) (by simpa using hcon))
    rw [h5 x hx y hy] at this
    cases this
  · by_contra hcon
    push Not at hcon
    obtain ⟨⟨x, hx, hxd⟩, v, hv, hvn⟩ := hcon
    obtain ⟨y, hy, rfl⟩ := List.mem_map.1 hv
    rw [← h4.ov] at hvn hxd
    have hxd' : ∃ w ∈ l, cmp x.ov w.ov = true := by
      unfold NonDom at hxd
      push Not at hxd
      obtain ⟨w, hw, hwx⟩ := hxd
      obtain ⟨z, hz, rfl⟩ := List.mem_map.1 hw
      exact ⟨z, hz, by simpa using hwx⟩
    have := worse_of_fit (h4.nd y (hml y (Or.inr hy)) x (hml x (Or.inl hx))
      (fun w hw => hvn _ (List.mem_map_of_mem hw)) hxd')
    rw [h5 x hx y hy] at this
    cases this

/-- If the first front of parents and offspring has room in the population, all of it is kept. -/
theorem C171_front_kept {cmp : V → V → Bool} (hc : Strict cmp) (crowd : List (NInd V) → Nat → ℚ)
    {sort : List (NInd V) → List (NInd V)} (hs : Sorts sort) {par off kept : List (NInd V)}
    (hk : replaceStep cmp crowd sort par off = some kept)
    (hroom : (front cmp ((par ++ off).map (·.ov))).length ≤ par.length) :
    ∀ v ∈ (par ++ off).map (·.ov), NonDom cmp ((par ++ off).map (·.ov)) v → v ∈ kept.map (·.ov) := by
  intro v hv hn
  by_cases hne : par = []
  · subst hne
    have : v ∈ front cmp ((([] : List (NInd V)) ++ off).map (·.ov)) := mem_front.2 ⟨hv, hn⟩
    have := List.length_pos_of_mem this
    simp only [List.length_nil] at hroom
    omega
  obtain ⟨kept', rest, h1, h2, h3, _, h5⟩ := C171_generation hc crowd hs hne off
  rw [hk] at h1; cases h1
  rcases List.mem_append.1 (h3.symm.subset hv) with h | h
  · exact h
  · exfalso
    rcases h5 with h5 | h5
    · -- everybody kept is in the front, and `v` too: too many
      have hp : (front cmp ((par ++ off).map (·.ov))).length =
          ((kept.map (·.ov) ++ rest).filter fun v =>
            ((par ++ off).map (·.ov)).all fun w => !cmp v w).length := by
        exact ((h3.filter _).length_eq).symm
      rw [List.filter_append, List.length_append] at hp
      have e1 : (kept.map (·.ov)).filter (fun v => ((par ++ off).map (·.ov)).all fun w => !cmp v w) =
          kept.map (·.ov) := by
        rw [List.filter_eq_self]
        intro u hu
        obtain ⟨x, hx, rfl⟩ := List.mem_map.1 hu
        have := h5 x hx
        unfold NonDom at this
        rw [List.all_eq_true]
        intro w hw; rw [this w hw]; rfl
      have e2 : v ∈ rest.filter (fun v => ((par ++ off).map (·.ov)).all fun w => !cmp v w) := by
        rw [List.mem_filter]
        refine ⟨h, ?_⟩
        rw [List.all_eq_true]
        intro w hw; rw [hn w hw]; rfl
      have := List.length_pos_of_mem e2
      rw [e1, List.length_map] at hp
      omega
    · exact h5 v h hn

/-- Spec: parents and offspring of each generation of a run. -/
def NCfg.trace (C : NCfg V) : Nat → Nat → List (NInd V) → List (List (NInd V) × List (NInd V))
  | 0, _, _ => []
  | fuel + 1, t, pop =>
    (pop, C.breed t pop) ::
      match replaceStep C.cmp C.crowd C.sort pop (C.breed t pop) with
      | none => []
      | some pop' => if C.cont t pop' then C.trace fuel (t + 1) pop' else []

/-- A run on a population of at least one individual has no undefined behaviour and throws nothing; every
generation has as many parents as the initial population, and the result too. -/
theorem C171_size {C : NCfg V} (hc : Strict C.cmp) (hs : Sorts C.sort) {pop : List (NInd V)}
    (hne : pop ≠ []) (fuel : Nat) :
    (C.run fuel pop = .unfinished ∨ ∃ p, C.run fuel pop = .done p ∧ p.length = pop.length) := by
  have key : ∀ (fuel t : Nat) (p : List (NInd V)), p.length = pop.length →
      (C.loop fuel t p = .unfinished ∨ ∃ q, C.loop fuel t p = .done q ∧ q.length = pop.length) := by
    intro fuel
    induction fuel with
    | zero => intro t p _; exact Or.inl rfl
    | succ fuel ih =>
      intro t p hp
      have hpn : p ≠ [] := by
        rintro rfl
        exact hne (List.length_eq_zero_iff.1 hp.symm)
      obtain ⟨kept, rest, h1, h2, _⟩ := C171_generation hc C.crowd hs hpn (C.breed t p)
      unfold NCfg.loop
      rw [h1]
      simp only
      by_cases hcn : C.cont t kept
      · rw [if_pos hcn]; exact ih _ _ (by omega)
      · rw [if_neg hcn]; exact Or.inr ⟨kept, rfl, by omega⟩
  obtain ⟨l, hl, ha⟩ := assign_spec hc.irrefl hc.trans C.crowd hne
  unfold NCfg.run
  rw [hl]
  exact key fuel 0 l (by have := congrArg List.length ha.ov; simpa using this)

/-- Every vector has a non-dominated one of the list above it. -/
theorem covers_front {cmp : V → V → Bool} (hc : Strict cmp) [DecidableEq V] (all : List V) {w : V}
    (hw : w ∈ all) : ∃ v ∈ all, NonDom cmp all v ∧ (w = v ∨ cmp w v = true) := by
  let A : ArchCfg V V := ⟨id, cmp, fun u v => decide (u = v), false⟩
  have hA : A.Exact := ⟨hc.irrefl, hc.trans, fun u v => by simp [A]⟩
  have hac : Antichain A.cmp (([] : List V).map A.ov) := List.Pairwise.nil
  obtain ⟨v, hv, hwv⟩ := updatePop_covers hA hac all (w := w) (Or.inr (by simpa [A] using hw))
  have := ((C33_unbounded_archive A hA all).2.2 v).1 hv
  simp only [A, List.map_id] at this
  exact ⟨v, this.1, this.2, hwv⟩

/-- If at every generation the first front of parents and offspring has room in the population, the
final population covers everything ever evaluated: each initial vector and each offspring vector is in it
or is dominated by one of its vectors. -/
theorem C171_covers {C : NCfg V} (hc : Strict C.cmp) (hs : Sorts C.sort) [DecidableEq V]
    {fuel : Nat} {pop l p : List (NInd V)} (hl : assign C.cmp C.crowd pop = some l)
    (hrun : C.run fuel pop = .done p)
    (hroom : ∀ g ∈ C.trace fuel 0 l, (front C.cmp ((g.1 ++ g.2).map (·.ov))).length ≤ g.1.length) :
    (∀ w ∈ pop.map (·.ov), Covers C.cmp (p.map (·.ov)) w) ∧
    (∀ g ∈ C.trace fuel 0 l, ∀ w ∈ g.2.map (·.ov), Covers C.cmp (p.map (·.ov)) w) := by
  let A : ArchCfg V V := ⟨id, C.cmp, fun u v => decide (u = v), false⟩
  have hA : A.Exact := ⟨hc.irrefl, hc.trans, fun u v => by simp [A]⟩
  have key : ∀ (fuel t : Nat) (q p : List (NInd V)), C.loop fuel t q = .done p →
      (∀ g ∈ C.trace fuel t q, (front C.cmp ((g.1 ++ g.2).map (·.ov))).length ≤ g.1.length) →
      (∀ w ∈ q.map (·.ov), Covers C.cmp (p.map (·.ov)) w) ∧
      (∀ g ∈ C.trace fuel t q, ∀ w ∈ g.2.map (·.ov), Covers C.cmp (p.map (·.ov)) w) := by
    intro fuel
    induction fuel with
    | zero => intro t q p h; cases h
    | succ fuel ih =>
      intro t q p h hr
      unfold NCfg.loop at h
      unfold NCfg.trace at hr ⊢
      cases hk : replaceStep C.cmp C.crowd C.sort q (C.breed t q) with
      | none => rw [hk] at h; cases h
      | some kept =>
        rw [hk] at h hr
        simp only at h hr ⊢
        have hroom := hr (q, C.breed t q) (by simp)
        have hkept := C171_front_kept hc C.crowd hs hk hroom
        have hcov : ∀ w ∈ (q ++ C.breed t q).map (·.ov), Covers C.cmp (kept.map (·.ov)) w := by
          intro w hw
          obtain ⟨v, hv, hn, hwv⟩ := covers_front hc _ hw
          exact ⟨v, hkept v hv hn, hwv⟩
        by_cases hcn : C.cont t kept
        · rw [if_pos hcn] at h hr ⊢
          obtain ⟨i1, i2⟩ := ih (t + 1) kept p h (fun g hg => hr g (by simp [hg]))
          have hcov' : ∀ w ∈ (q ++ C.breed t q).map (·.ov), Covers C.cmp (p.map (·.ov)) w :=
            fun w hw => Covers.of hA (hcov w hw) i1
          refine ⟨fun w hw => hcov' w (by rw [List.map_append]; exact List.mem_append_left _ hw), ?_⟩
          intro g hg w hw
          rcases List.mem_cons.1 hg with rfl | hg
          · exact hcov' w (by rw [List.map_append]; exact List.mem_append_right _ hw)
          · exact i2 g hg w hw
        · rw [if_neg hcn] at h ⊢
          cases h
          refine ⟨fun w hw => hcov w (by rw [List.map_append]; exact List.mem_append_left _ hw), ?_⟩
          intro g hg w hw
          simp only [List.mem_singleton] at hg
          subst hg
          exact hcov w (by rw [List.map_append]; exact List.mem_append_right _ hw)
  have hrun' : C.loop fuel 0 l = .done p := by
    unfold NCfg.run at hrun; rw [hl] at hrun; exact hrun
  obtain ⟨k1, k2⟩ := key fuel 0 l p hrun' hroom
  obtain ⟨l', hl', ha⟩ := assign_spec hc.irrefl hc.trans C.crowd (pop := pop) (by
    rintro rfl
    simp only [assign, depthAssign, ranks, List.map_nil, List.length_nil, List.range_zero] at hl
    cases hm : mObjectives (domAt C.cmp []) 0 <;> rw [hm] at hl <;> simp [depthFinal] at hl)
  rw [hl] at hl'; cases hl'
  exact ⟨fun w hw => k1 w (by rw [ha.ov]; exact hw), k2⟩

/-- Insertion by (fitness, diversity): a sort to compute with. -/
def isort : List (NInd V) → List (NInd V)
  | [] => []
  | x :: l => ins x (isort l)
where
  ins (x : NInd V) : List (NInd V) → List (NInd V)
    | [] => [x]
    | y :: l => if worse x y then y :: ins x l else x :: y :: l

theorem worse_trans_false {x y z : NInd V} (h1 : worse x y = false) (h2 : worse y z = false) :
    worse x z = false := by
  unfold worse ftdCmp at *
  split_ifs at * <;> simp_all <;> first | linarith | grind

theorem worse_asymm {x y : NInd V} (h : worse x y = true) : worse y x = false := by
  unfold worse ftdCmp at *
  split_ifs at * <;> simp_all <;> first | linarith | grind

theorem isort_sorts : Sorts (isort (V := V)) := by
  have hp : ∀ (x : NInd V) l, (isort.ins x l).Perm (x :: l) := by
    intro x l
    induction l with
    | nil => exact List.Perm.refl _
    | cons y l ih =>
      unfold isort.ins
      split
      · exact (ih.cons y).trans (List.Perm.swap x y l)
      · exact List.Perm.refl _
  have perm : ∀ l : List (NInd V), (isort l).Perm l := by
    intro l
    induction l with
    | nil => exact List.Perm.refl _
    | cons x l ih => unfold isort; exact (hp x _).trans (ih.cons x)
  have hins : ∀ (x : NInd V) l, (l.Pairwise fun a b => worse a b = false) →
      (isort.ins x l).Pairwise fun a b => worse a b = false := by
    intro x l
    induction l with
    | nil => intro _; simp [isort.ins]
    | cons y l ih =>
      intro h
      rw [List.pairwise_cons] at h
      unfold isort.ins
      split
      · rename_i hw
        rw [List.pairwise_cons]
        refine ⟨?_, ih h.2⟩
        intro z hz
        rcases List.mem_cons.1 ((hp x l).subset hz) with rfl | hz
        · exact worse_asymm hw
        · exact h.1 z hz
      · rename_i hw
        rw [List.pairwise_cons, List.pairwise_cons]
        refine ⟨?_, h⟩
        intro z hz
        rcases List.mem_cons.1 hz with rfl | hz
        · simpa using hw
        · exact worse_trans_false (by simpa using hw) (h.1 z hz)
  refine ⟨perm, ?_⟩
  intro l
  induction l with
  | nil => exact List.Pairwise.nil
  | cons x l ih => unfold isort; exact hins x _ ih

/-- Both objectives minimised; `lt2 u v`: `v` dominates `u`. -/
def lt2 (u v : Nat × Nat × Nat) : Bool :=
  decide (v.1 ≤ u.1) && decide (v.2.1 ≤ u.2.1) && decide (v.2.2 ≤ u.2.2) && !(decide (u = v))

theorem lt2_strict : Strict lt2 := by
  constructor
  · intro v; simp [lt2]
  · rintro ⟨a, b, c⟩ ⟨d, e, f⟩ ⟨g, h, i⟩ h1 h2
    simp only [lt2, Bool.and_eq_true, decide_eq_true_eq, Bool.not_eq_true', decide_eq_false_iff_not,
      Prod.mk.injEq, not_and] at *
    omega

/-- Two individuals, two generations, three objectives; the room condition holds in both. -/
def exN : NCfg (Nat × Nat × Nat) where
  cmp := lt2
  crowd _ _ := 0
  sort := isort
  breed t _ := if t = 0 then [⟨(1, 1, 1), 0, 0⟩, ⟨(4, 4, 4), 0, 0⟩] else [⟨(0, 5, 1), 0, 0⟩, ⟨(1, 1, 2), 0, 0⟩]
  cont t _ := t == 0

example : exN.run 5 [⟨(2, 2, 2), 0, 0⟩, ⟨(3, 3, 3), 0, 0⟩] = .done [⟨(1, 1, 1), 2, 0⟩, ⟨(0, 5, 1), 2, 0⟩] := by
  decide +kernel

example : ∀ g ∈ exN.trace 5 0 [⟨(2, 2, 2), 1, 0⟩, ⟨(3, 3, 3), 0, 0⟩],
    (front exN.cmp ((g.1 ++ g.2).map (·.ov))).length ≤ g.1.length := by
  decide +kernel

/-- Without room the population can get worse: with population size one, non-dominated parents and an order
of equally ranked individuals that prefers newcomers, the final population consists of a vector that is
dominated by a vector evaluated before and forgotten. -/
theorem C171_forgets : ∃ (C : NCfg (Nat × Nat × Nat)) (pop p : List (NInd (Nat × Nat × Nat))),
    Strict C.cmp ∧ Sorts C.sort ∧ C.run 5 pop = .done p ∧
    ∀ x ∈ p, ∃ y ∈ pop, C.cmp x.ov y.ov = true := by
  refine ⟨⟨lt2, fun pop i => if i + 1 = pop.length then 1 else 0, isort,
    fun t _ => if t = 0 then [⟨(0, 9, 0), 0, 0⟩] else [⟨(2, 2, 2), 0, 0⟩], fun t _ => t == 0⟩,
    [⟨(1, 1, 1), 0, 0⟩], [⟨(2, 2, 2), 0, 1⟩], lt2_strict, isort_sorts, ?_, ?_⟩
  · decide +kernel
  · decide +kernel

/-! ## C172 SEEA, ASEEA, moeoEasyEA -/

/-- Spec: the offspring of all generations of a SEEA run, in order. -/
def seeaOffspring (A : ArchCfg X V) (op : SeeaOp X) (cont : Nat → List X → Bool) :
    Nat → Nat → List X → List X → List X
  | 0, _, _, _ => []
  | fuel + 1, t, pop, arch =>
    if cont t pop then
      seeaBreed op t pop arch ++
        seeaOffspring A op cont fuel (t + 1) pop (updatePop A arch (seeaBreed op t pop arch)).1
    else []

/-- A finished SEEA run started on an empty archive: the population is the initial one, and so is every
population the stopping criterion was given; the archive is what submitting the initial population
and all offspring in order gives, that is, an antichain with exactly the vectors among these that none of
these dominates. -/
theorem C172_seea {A : ArchCfg X V} (hA : A.Exact) (op : SeeaOp X) (cont : Nat → List X → Bool)
    {fuel : Nat} {pop p a : List X} {seen : List (List X)}
    (h : seea A op cont fuel pop [] = .done (p, a, seen)) :
    p = pop ∧ (∀ q ∈ seen, q = pop) ∧
    ∃ offs, offs = seeaOffspring A op cont fuel 0 pop (archiveOf A pop) ∧ a = archiveOf A (pop ++ offs) ∧
      Antichain A.cmp (a.map A.ov) ∧
      ∀ v, v ∈ a.map A.ov ↔ v ∈ (pop ++ offs).map A.ov ∧ ∀ w ∈ (pop ++ offs).map A.ov, A.cmp v w = false := by
  have key : ∀ (fuel t : Nat) (arch : List X) (s : List (List X)), (∀ q ∈ s, q = pop) →
      seeaLoop A op cont fuel t pop arch s = .done (p, a, seen) →
      p = pop ∧ (∀ q ∈ seen, q = pop) ∧ a = (updatePop A arch (seeaOffspring A op cont fuel t pop arch)).1 := by
    intro fuel
    induction fuel with
    | zero => intro t arch s _ h; cases h
    | succ fuel ih =>
      intro t arch s hs h
      have hs' : ∀ q ∈ s ++ [pop], q = pop := by
        intro q hq
        rcases List.mem_append.1 hq with hq | hq
        · exact hs q hq
        · simpa using hq
      unfold seeaLoop at h
      unfold seeaOffspring
      by_cases hcn : cont t pop
      · rw [if_pos hcn] at h ⊢
        rw [updatePop_append]
        exact ih _ _ _ hs' h
      · rw [if_neg hcn] at h ⊢
        simp only [Out.done.injEq, Prod.mk.injEq] at h
        obtain ⟨rfl, rfl, rfl⟩ := h
        exact ⟨rfl, hs', rfl⟩
  obtain ⟨h1, h2, h3⟩ := key fuel 0 _ [] (by simp) h
  have h4 : a = archiveOf A (pop ++ seeaOffspring A op cont fuel 0 pop (archiveOf A pop)) := by
    rw [h3]; unfold archiveOf; rw [updatePop_append]
  refine ⟨h1, h2, _, rfl, h4, ?_, ?_⟩
  · rw [h4]; exact (C33_unbounded_archive A hA _).2.1
  · rw [h4]; exact (C33_unbounded_archive A hA _).2.2

/-- With the constructors that take a transform, the transform is never applied: on any archive (an
antichain) and any population, the final archive has exactly the members that the archive had after the
initial population was submitted, in some order, whatever the transform, the draws and the number of
generations. -/
theorem C172_transform_ignored {A : ArchCfg X V} (hA : A.Exact) (tr : Nat → List X → List X)
    (draw : Nat → Nat → Nat) (cont : Nat → List X → Bool) {fuel : Nat} {pop arch p a : List X}
    {seen : List (List X)} (hac : Antichain A.cmp (arch.map A.ov))
    (h : seea A (.transform tr draw) cont fuel pop arch = .done (p, a, seen)) :
    a.Perm (updatePop A arch pop).1 ∧
    ∀ tr', seea A (.transform tr' draw) cont fuel pop arch = .done (p, a, seen) := by
  have hind : ∀ (tr' : Nat → List X → List X) (fuel t : Nat) (pop arch : List X) (s : List (List X)),
      seeaLoop A (.transform tr' draw) cont fuel t pop arch s =
      seeaLoop A (.transform tr draw) cont fuel t pop arch s := by
    intro tr' fuel
    induction fuel with
    | zero => intros; rfl
    | succ fuel ih =>
      intro t pop arch s
      unfold seeaLoop
      simp only [seeaBreed, ih]
  refine ⟨?_, fun tr' => by unfold seea at h ⊢; rw [hind tr', h]⟩
  have key : ∀ (fuel t : Nat) (ar : List X) (s : List (List X)),
      Antichain A.cmp (ar.map A.ov) → (pop ≠ [] → ar ≠ []) →
      seeaLoop A (.transform tr draw) cont fuel t pop ar s = .done (p, a, seen) → a.Perm ar := by
    intro fuel
    induction fuel with
    | zero => intro t ar s _ _ h; cases h
    | succ fuel ih =>
      intro t ar s hac' hne h
      unfold seeaLoop at h
      by_cases hcn : cont t pop
      · rw [if_pos hcn] at h
        have hmem : ∀ x ∈ seeaBreed (.transform tr draw) t pop ar, x ∈ ar := by
          intro x hx
          simp only [seeaBreed, cloneBreed, List.mem_filterMap, List.mem_range] at hx
          obtain ⟨k, hk, hx⟩ := hx
          have : ar ≠ [] := hne (by rintro rfl; simp at hk)
          rw [source, if_pos (List.length_pos_iff.2 this)] at hx
          exact List.mem_of_getElem? hx
        have hp := updatePop_members hA hac' _ hmem
        refine (ih _ _ _ (hac'.perm (hp.symm.map A.ov)) ?_ h).trans hp
        intro h0 h1
        rw [h1] at hp
        exact hne h0 hp.symm.eq_nil
      · rw [if_neg hcn] at h
        simp only [Out.done.injEq, Prod.mk.injEq] at h
        rw [← h.2.1]
  refine key fuel 0 _ [] (updatePop_inv hA hac pop).1 ?_ h
  intro h0 h1
  obtain ⟨x, hx⟩ := List.exists_mem_of_ne_nil pop h0
  obtain ⟨v, hv, _⟩ := updatePop_covers hA hac pop (w := A.ov x) (Or.inr (List.mem_map_of_mem hx))
  rw [h1] at hv
  cases hv

/-- In each generation these constructors submit as many copies as the population has members (each may be
evaluated again by the user's evaluation function): members of the archive if there is one, else of the
population. -/
theorem C172_transform_copies (tr : Nat → List X → List X) (draw : Nat → Nat → Nat) (t : Nat) (pop arch : List X)
    (hpop : pop ≠ []) :
    (seeaBreed (.transform tr draw) t pop arch).length = pop.length ∧
    ∀ x ∈ seeaBreed (.transform tr draw) t pop arch, x ∈ arch ∨ (arch = [] ∧ x ∈ pop) := by
  have hsrc : 0 < (source pop arch).length := by
    unfold source
    split
    · assumption
    · exact List.length_pos_iff.2 hpop
  constructor
  · simp only [seeaBreed, cloneBreed]
    have key : ∀ l : List Nat, (l.filterMap fun k =>
        (source pop arch)[draw t k % (source pop arch).length]?).length = l.length := by
      intro l
      induction l with
      | nil => rfl
      | cons a l ih =>
        rw [List.filterMap_cons, List.getElem?_eq_getElem (Nat.mod_lt _ hsrc)]
        simp [ih]
    rw [key, List.length_range]
  · intro x hx
    simp only [seeaBreed, cloneBreed, List.mem_filterMap] at hx
    obtain ⟨k, _, hx⟩ := hx
    have := List.mem_of_getElem? hx
    unfold source at this
    split at this
    · exact Or.inl this
    · rename_i h
      refine Or.inr ⟨?_, this⟩
      cases arch with
      | nil => rfl
      | cons a l => simp at h

/-- Three objectives, vectors as individuals. -/
def exA : ArchCfg (Nat × Nat × Nat) (Nat × Nat × Nat) := ⟨id, lt2, fun u v => decide (u = v), true⟩

theorem exA_exact : exA.Exact := ⟨lt2_strict.irrefl, lt2_strict.trans, fun u v => by simp [exA]⟩

/-- Two generations with a transform that would produce the ideal vector: the archive stays. -/
example : seea exA (.transform (fun _ l => l.map fun _ => (0, 0, 0)) (fun t k => t + k)) (fun t _ => t < 2) 5
    [(1, 2, 3), (3, 3, 3), (2, 1, 3)] [] =
    .done ([(1, 2, 3), (3, 3, 3), (2, 1, 3)], [(2, 1, 3), (1, 2, 3)],
      List.replicate 3 [(1, 2, 3), (3, 3, 3), (2, 1, 3)]) := by
  simp only [seea, seeaLoop, updatePop_eq_c]
  rfl

/-- The same operator given as a variation operator: it is applied. -/
example : seea exA (.genOp (fun _ p _ => p.map fun _ => (0, 0, 0))) (fun t _ => t < 2) 5
    [(1, 2, 3), (3, 3, 3), (2, 1, 3)] [] =
    .done ([(1, 2, 3), (3, 3, 3), (2, 1, 3)], [(0, 0, 0)],
      List.replicate 3 [(1, 2, 3), (3, 3, 3), (2, 1, 3)]) := by
  simp only [seea, seeaLoop, updatePop_eq_c]
  rfl

/-- The selection from an archive: with `min ≤ max`, the whole archive if its size is within the bounds;
`max` members at different positions if it is larger; otherwise `min` members, repeating the archive;
undefined if the archive is empty and `min` is positive. With `max < min` the destination is not touched. -/
theorem C172_archive_select (mx mn : Nat) {perm : List Nat → List Nat} (hp : ∀ l, (perm l).Perm l)
    (arch dest : List X) :
    (mx < mn → detArchiveSelect mx mn perm arch dest = .done dest) ∧
    (mn ≤ mx → mn ≤ arch.length → arch.length ≤ mx → detArchiveSelect mx mn perm arch dest = .done arch) ∧
    (mn ≤ mx → mx < arch.length → ∃ r, detArchiveSelect mx mn perm arch dest = .done r ∧ r.length = mx ∧
      r.Subperm arch) ∧
    (mn ≤ mx → arch.length < mn → arch ≠ [] → ∃ r, detArchiveSelect mx mn perm arch dest = .done r ∧
      r.length = mn ∧ ∀ i < mn, r[i]? = arch[i % arch.length]?) ∧
    (mn ≤ mx → 0 < mn → arch = [] → detArchiveSelect mx mn perm arch dest = .ub) := by
  have hfm : ∀ l : List Nat, (∀ i ∈ l, i < arch.length) →
      (l.filterMap fun i => arch[i]?).length = l.length := by
    intro l
    induction l with
    | nil => intro _; rfl
    | cons i l ih =>
      intro h
      rw [List.filterMap_cons, List.getElem?_eq_getElem (h i (by simp))]
      simp [ih (fun j hj => h j (by simp [hj]))]
  refine ⟨?_, ?_, ?_, ?_, ?_⟩
  · intro h; simp [detArchiveSelect, h]
  · intro h1 h2 h3; simp [detArchiveSelect, h2, h3, Nat.not_lt.2 h1]
  · intro h1 h2
    refine ⟨_, by rw [detArchiveSelect, if_neg (by omega), if_neg (by omega), if_pos h2], ?_, ?_⟩
    · rw [hfm]
      · rw [List.length_take, (hp _).length_eq, List.length_range]; omega
      · intro i hi
        have := (hp _).subset (List.mem_of_mem_take hi)
        simpa using this
    · have e : (List.range arch.length).filterMap (fun i => arch[i]?) = arch := by
        apply List.ext_getElem?
        intro i
        have : ∀ (n : Nat), n ≤ arch.length → (List.range n).filterMap (fun i => arch[i]?) = arch.take n := by
          intro n
          induction n with
          | zero => intro _; simp
          | succ n ih =>
            intro hn
            rw [List.range_succ, List.filterMap_append, ih (by omega), List.take_add_one,
              List.getElem?_eq_getElem (by omega : n < arch.length)]
            simp [List.getElem?_eq_getElem (by omega : n < arch.length)]
        rw [this _ le_rfl, List.take_length]
      have s1 : (((perm (List.range arch.length)).take mx).filterMap fun i => arch[i]?).Sublist
          ((perm (List.range arch.length)).filterMap fun i => arch[i]?) :=
        List.Sublist.filterMap _ (List.take_sublist _ _)
      have s2 : ((perm (List.range arch.length)).filterMap fun i => arch[i]?).Perm arch := by
        have := (hp (List.range arch.length)).filterMap (fun i => arch[i]?)
        rwa [e] at this
      exact s1.subperm.trans s2.subperm
  · intro h1 h2 h3
    have hpos := List.length_pos_iff.2 h3
    have e : ∀ i ∈ List.range mn, arch[i % arch.length]? = some (arch[i % arch.length]'(Nat.mod_lt _ hpos)) :=
      fun i _ => List.getElem?_eq_getElem _
    have e2 : (List.range mn).filterMap (fun i => arch[i % arch.length]?) =
        (List.range mn).map (fun i => arch[i % arch.length]'(Nat.mod_lt _ hpos)) := by
      rw [List.filterMap_congr e]; simp
    refine ⟨_, by rw [detArchiveSelect, if_neg (by omega), if_neg (by omega), if_neg (by omega),
      if_neg (by omega)], ?_, ?_⟩
    · rw [e2]; simp
    · intro i hi
      rw [e2]
      simp [hi, e i (by simpa using hi)]
  · intro h1 h2 h3
    subst h3
    simp only [detArchiveSelect, List.length_nil]
    rw [if_neg (by omega), if_neg (by omega), if_neg (by omega), if_pos trivial]

/-- Spec: the offspring of all generations of an ASEEA run. -/
def aseeaOffspring (A : ArchCfg X V) (mx : Nat) (perm : Nat → List Nat → List Nat)
    (tr : Nat → List X → List X) (cont : Nat → List X → Bool) :
    Nat → Nat → List X → List X → List X
  | 0, _, _, _ => []
  | fuel + 1, t, pop, arch =>
    if cont t pop then
      match detArchiveSelect mx 0 (perm t) arch [] with
      | .done par => tr t par ++
          aseeaOffspring A mx perm tr cont fuel (t + 1) [] (updatePop A arch (tr t par)).1
      | _ => []
    else []

/-- A finished ASEEA run started on an empty archive: the archive is what submitting the initial
population and all offspring gives (the non-dominated vectors among these); the population is lost: after
the first generation it is empty, and the stopping criterion is given the empty population at every later
test. -/
theorem C172_aseea {A : ArchCfg X V} (hA : A.Exact) (mx : Nat) (perm : Nat → List Nat → List Nat)
    (tr : Nat → List X → List X) (cont : Nat → List X → Bool)
    {fuel : Nat} {pop p a : List X} {seen : List (List X)}
    (h : aseea A mx perm tr cont fuel pop [] = .done (p, a, seen)) :
    (∃ k, seen = pop :: List.replicate k [] ∧ (p = if k = 0 then pop else []) ∧
      (k = 0 ↔ cont 0 pop = false)) ∧
    ∃ offs, offs = aseeaOffspring A mx perm tr cont fuel 0 pop (archiveOf A pop) ∧
      a = archiveOf A (pop ++ offs) ∧ Antichain A.cmp (a.map A.ov) ∧
      ∀ v, v ∈ a.map A.ov ↔ v ∈ (pop ++ offs).map A.ov ∧ ∀ w ∈ (pop ++ offs).map A.ov, A.cmp v w = false := by
  have key : ∀ (fuel t : Nat) (q arch : List X) (s : List (List X)),
      aseeaLoop A mx perm tr cont fuel t q arch s = .done (p, a, seen) →
      (∃ k, seen = s ++ q :: List.replicate k [] ∧ (p = if k = 0 then q else []) ∧
        (k = 0 ↔ cont t q = false)) ∧
      a = (updatePop A arch (aseeaOffspring A mx perm tr cont fuel t q arch)).1 := by
    intro fuel
    induction fuel with
    | zero => intro t q arch s h; cases h
    | succ fuel ih =>
      intro t q arch s h
      unfold aseeaLoop at h
      unfold aseeaOffspring
      by_cases hcn : cont t q
      · rw [if_pos hcn] at h ⊢
        cases hd : detArchiveSelect mx 0 (perm t) arch [] with
        | done par =>
          rw [hd] at h
          simp only at h ⊢
          obtain ⟨⟨k, hk1, hk2, hk3⟩, i2⟩ := ih _ _ _ _ h
          refine ⟨⟨k + 1, ?_, ?_, ?_⟩, ?_⟩
          · rw [hk1]; simp [List.replicate_succ]
          · rw [hk2]; simp
          · simp [hcn]
          · rw [updatePop_append]; exact i2
        | thrown => rw [hd] at h; cases h
        | ub => rw [hd] at h; cases h
        | unfinished => rw [hd] at h; cases h
      · rw [if_neg hcn] at h ⊢
        simp only [Out.done.injEq, Prod.mk.injEq] at h
        obtain ⟨rfl, rfl, rfl⟩ := h
        exact ⟨⟨0, by simp, by simp, by simpa using hcn⟩, rfl⟩
  obtain ⟨h1, h3⟩ := key fuel 0 _ _ [] h
  have h4 : a = archiveOf A (pop ++ aseeaOffspring A mx perm tr cont fuel 0 pop (archiveOf A pop)) := by
    rw [h3]; unfold archiveOf; rw [updatePop_append]
  refine ⟨by simpa using h1, _, rfl, h4, ?_, ?_⟩
  · rw [h4]; exact (C33_unbounded_archive A hA _).2.1
  · rw [h4]; exact (C33_unbounded_archive A hA _).2.2

example : aseea exA 2 (fun _ l => l.reverse) (fun t l => l.map fun v => (v.1 - t, v.2.1, v.2.2))
    (fun t _ => t < 3) 5 [(3, 2, 3), (3, 3, 3), (4, 1, 3), (9, 0, 0)] [] =
    .done ([], [(1, 1, 3), (6, 0, 0)], [[(3, 2, 3), (3, 3, 3), (4, 1, 3), (9, 0, 0)], [], [], []]) := by
  simp only [aseea, aseeaLoop, updatePop_eq_c]
  rfl

/-- `moeoEasyEA`: a run that ends returns a population of the initial size, and a run throws exactly when
some replacement that was reached changed the size. Fitness and diversity assignment do not change the
size. -/
theorem C172_easy_size {C : ECfg X} (hlen : ∀ l, (C.assign l).length = l.length) (fuel : Nat)
    (pop : List X) :
    (∀ p, C.run fuel pop = .done p → p.length = pop.length) ∧ C.run fuel pop ≠ .ub ∧
    ((∀ l t, (C.replace l (C.breed t l)).length = l.length) → C.run fuel pop ≠ .thrown) ∧
    ((C.replace (C.assign pop) (C.breed 0 (C.assign pop))).length ≠ pop.length → 0 < fuel →
      C.run fuel pop = .thrown) := by
  have key : ∀ (fuel t : Nat) (b : Bool) (q : List X),
      (∀ p, C.loop fuel t b q = .done p → p.length = q.length) ∧ C.loop fuel t b q ≠ .ub ∧
      ((∀ l t, (C.replace l (C.breed t l)).length = l.length) → C.loop fuel t b q ≠ .thrown) := by
    intro fuel
    induction fuel with
    | zero => intro t b q; simp [ECfg.loop]
    | succ fuel ih =>
      intro t b q
      have hl1 : (if (C.flag || b) = true then C.assign q else q).length = q.length := by
        split <;> simp [hlen]
      unfold ECfg.loop
      simp only
      generalize hq1 : (if (C.flag || b) = true then C.assign q else q) = q1 at hl1 ⊢
      split_ifs with h1 h2 h3
      · refine ⟨by simp, by simp, fun hr => ?_⟩
        have := hr q1 t; omega
      · refine ⟨by simp, by simp, fun hr => ?_⟩
        have := hr q1 t; omega
      · obtain ⟨i1, i2, i3⟩ := ih (t + 1) false (C.replace q1 (C.breed t q1))
        exact ⟨fun p hp => by have := i1 p hp; omega, i2, i3⟩
      · refine ⟨?_, by simp, by simp⟩
        intro p hp
        cases hp
        omega
  refine ⟨(key fuel 0 true pop).1, (key fuel 0 true pop).2.1, (key fuel 0 true pop).2.2, ?_⟩
  intro hne hf
  obtain ⟨k, rfl⟩ : ∃ k, fuel = k + 1 := ⟨fuel - 1, by omega⟩
  unfold ECfg.run ECfg.loop
  simp only [Bool.or_true, if_true]
  split_ifs with h1 h2 h3
  · rfl
  · rfl
  · omega
  · omega

/-- Without the flag, fitness and diversity are assigned once, before the first selection: the run is the
run of the algorithm that never assigns, on the assigned initial population. So later selections use
what the replacement left. -/
theorem C172_easy_assigned_once {C : ECfg X} (hlen : ∀ l, (C.assign l).length = l.length)
    (hflag : C.flag = false) (fuel : Nat) (pop : List X) :
    C.run fuel pop = ({ C with assign := id } : ECfg X).run fuel (C.assign pop) := by
  have key : ∀ (fuel t : Nat) (q : List X),
      C.loop fuel t false q = ({ C with assign := id } : ECfg X).loop fuel t false q := by
    intro fuel
    induction fuel with
    | zero => intros; rfl
    | succ fuel ih =>
      intro t q
      unfold ECfg.loop
      simp only [hflag, Bool.or_false, Bool.false_eq_true, if_false, ih]
  unfold ECfg.run
  cases fuel with
  | zero => rfl
  | succ fuel =>
    unfold ECfg.loop
    simp only [Bool.or_true, if_true, id, hlen, key]

/-- With the flag, they are assigned before every selection: the run is the run of the algorithm that
assigns as the first step of breeding and replacement. -/
theorem C172_easy_assigned_always {C : ECfg X} (hflag : C.flag = true) (fuel : Nat) (pop : List X) :
    C.run fuel pop = (⟨id, fun t l => C.breed t (C.assign l),
      fun l o => C.replace (C.assign l) o, C.cont, C.flag⟩ : ECfg X).run fuel pop := by
  have key : ∀ (fuel t : Nat) (b : Bool) (q : List X),
      C.loop fuel t b q = (⟨id, fun t l => C.breed t (C.assign l),
      fun l o => C.replace (C.assign l) o, C.cont, C.flag⟩ : ECfg X).loop fuel t b q := by
    intro fuel
    induction fuel with
    | zero => intros; rfl
    | succ fuel ih =>
      intro t b q
      unfold ECfg.loop
      simp only [hflag, Bool.true_or, if_true, id, ih]
  exact key fuel 0 true pop

/-- A run with and without the flag: `assign` marks, the replacement keeps the best two. -/
example : let C := fun b => (⟨fun l => l.map (· + 100), fun _ l => l.map (· + 1), fun l o => (o ++ l).take l.length,
      fun t _ => t < 2, b⟩ : ECfg Nat)
    (C false).run 9 [1, 2] = .done [104, 105] ∧ (C true).run 9 [1, 2] = .done [304, 305] := by decide

end Paradiseo.Moeo.Ea
