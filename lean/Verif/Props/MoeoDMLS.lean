import Verif.Lemmas.MoeoDMLS
/-
Properties C169 and C170: dominance-based local search (PLS1, PLS2, DMLS) and its hybridisation.

Specification vocabulary: `f` is the evaluation of solutions, `Nb x n` says that `n` is a neighbour
(a move) of `x`; `Antichain` and `Covers` are those of the archive properties.
-/
namespace Paradiseo.Moeo.Dmls

variable {S V N : Type}

/-- The neighbourhood object enumerates exactly the neighbours, in any order, possibly another one at
every call; the incremental evaluation agrees with the evaluation of the moved solution. -/
structure Faithful (C : Cfg S V N) (f : S → V) (Nb : S → N → Prop) : Prop where
  enum : ∀ t k x n, n ∈ C.enum t k x ↔ Nb x n
  eval : ∀ x n, Nb x n → C.P.ev x n = f (C.P.move x n)

/-- The four explorers of the library, with the comparator of the archive. -/
inductive LibExplorer (cmp : V → V → Bool) :
    (Prob S V N → Ind S V → List N → Explored S V) → Prop
  | exhaustive : LibExplorer cmp exhaustive
  | firstImproving : LibExplorer cmp (firstImproving cmp)
  | noDesimproving : LibExplorer cmp (noDesimproving cmp)
  | simpleSub (number : Nat) : LibExplorer cmp (simpleSub number)

/-- The two explorers with which the search always advances. -/
inductive FullExplorer (cmp : V → V → Bool) :
    (Prob S V N → Ind S V → List N → Explored S V) → Prop
  | exhaustive : FullExplorer cmp exhaustive
  | firstImproving : FullExplorer cmp (firstImproving cmp)

/-- The two selections of the library: all unvisited members, or `number ≥ 1` of them at random. -/
inductive LibSelect : (Nat → List (Ind S V) → List Nat) → Prop
  | all : LibSelect (fun _ => unvisited)
  | number (k : Nat) (shuffle : Nat → List Nat → List Nat) (hk : 0 < k)
      (hs : ∀ t l, (shuffle t l).Perm l) : LibSelect (fun t => numberUnvisited k (shuffle t))

theorem LibExplorer.ok {cmp : V → V → Bool} {P : Prob S V N}
    {e : Prob S V N → Ind S V → List N → Explored S V} (h : LibExplorer cmp e) : ExplorerOk cmp P e := by
  cases h
  · exact exhaustive_ok cmp P
  · exact firstImproving_ok cmp P
  · exact noDesimproving_ok cmp P
  · exact simpleSub_ok cmp _ P

/-- Individuals fresh from the evaluation: right vector, flag 0. -/
def Fresh (f : S → V) (pop : List (Ind S V)) : Prop := ∀ x ∈ pop, x.ov = f x.sol ∧ x.flag = 0

theorem inv_start {A : ArchCfg (Ind S V) V} (hov : A.ov = Ind.ov) (hA : A.Exact) {P : Prob S V N}
    {f : S → V} {Nb : S → N → Prop} {pop : List (Ind S V)} (hpop : Fresh f pop) :
    Inv A P f Nb (updatePop A [] pop).1 :=
  inv_updatePop hov hA (by simp [Antichain])
    ⟨by simp, by simp, by simp, fun d hd => (hpop d hd).1, fun d hd => (hpop d hd).2⟩

/-- Whatever explorer, selection, enumeration orders and stopping rule: when the search ends,
the archive holds mutually non-dominated, rightly evaluated members and covers the initial population;
every neighbour of every member marked visited is in the archive (by its vector) or dominated by a
member; and if the user's continuator did not stop the search, every member is marked visited. -/
theorem C169_local_optimum_set (C : Cfg S V N) (hov : C.A.ov = Ind.ov) (hA : C.A.Exact) (f : S → V)
    (Nb : S → N → Prop) (hF : Faithful C f Nb) (hex : LibExplorer C.A.cmp C.explore)
    (pop : List (Ind S V)) (hpop : Fresh f pop) (fuel : Nat) (a : List (Ind S V))
    (h : dmls C fuel [] pop = some a) :
    Antichain C.A.cmp (a.map Ind.ov) ∧ (∀ x ∈ a, x.ov = f x.sol) ∧
    (∀ p ∈ pop, Covers C.A.cmp (a.map Ind.ov) p.ov) ∧
    (∀ x ∈ a, x.flag = 1 → ∀ n, Nb x.sol n → Covers C.A.cmp (a.map Ind.ov) (f (C.P.move x.sol n))) ∧
    ((∀ t, C.cont t a = true) → ∀ x ∈ a, x.flag = 1) := by
  have hI := inv_start (P := C.P) (Nb := Nb) hov hA hpop
  obtain ⟨h1, ⟨t', h2⟩, h3⟩ := loop_inv C hov hA f Nb hF.enum hF.eval hex.ok fuel 0 _ a hI h
  refine ⟨h1.anti, h1.mid.eval, fun p hp => h3 _ ?_, ?_, ?_⟩
  · have := updatePop_covers hA (A := C.A) (arch := []) (by simp [Antichain]) pop (w := p.ov)
      (Or.inr (by rw [hov]; exact List.mem_map_of_mem hp))
    rwa [hov] at this
  · intro x hx hfl n hn
    simpa using h1.mid.visited x hx hfl n hn
  · intro hc x hx
    rw [hc, Bool.true_and, natural, List.any_eq_false] at h2
    simpa using h2 x hx

theorem mem_unvisited {arch : List (Ind S V)} {i : Nat} :
    i ∈ unvisited arch ↔ ∃ x, arch[i]? = some x ∧ x.flag = 0 := by
  unfold unvisited
  rw [List.mem_filter, List.mem_range]
  constructor
  · rintro ⟨h, hf⟩
    rw [List.getElem?_eq_getElem h] at hf ⊢
    exact ⟨_, rfl, by simpa using hf⟩
  · rintro ⟨x, hx, hf⟩
    obtain ⟨h, _⟩ := List.getElem?_eq_some_iff.mp hx
    exact ⟨h, by rw [hx]; simp [hf]⟩

/-- Both selections return members still to visit only, at least one as long as one is left;
`number` at most for the second. -/
theorem C169_selection (sel : Nat → List (Ind S V) → List Nat) (hs : LibSelect sel) (t : Nat)
    (arch : List (Ind S V)) :
    (∀ i ∈ sel t arch, ∃ x, arch[i]? = some x ∧ x.flag = 0) ∧
    ((∃ x ∈ arch, x.flag = 0) → sel t arch ≠ []) ∧ (sel t arch).Nodup := by
  have hnd : (unvisited arch).Nodup := List.Nodup.filter _ List.nodup_range
  have hne : (∃ x ∈ arch, x.flag = 0) → unvisited arch ≠ [] := by
    rintro ⟨x, hx, hf⟩
    obtain ⟨i, hi, e⟩ := List.getElem_of_mem hx
    exact List.ne_nil_of_mem (a := i) (mem_unvisited.mpr ⟨x, by rw [List.getElem?_eq_getElem hi, e], hf⟩)
  cases hs with
  | all => exact ⟨fun i hi => mem_unvisited.mp hi, hne, hnd⟩
  | number k shuffle hk hs =>
    simp only [numberUnvisited]
    split
    · rename_i hl
      refine ⟨fun i hi => ?_, fun _ hn => ?_, ?_⟩
      · exact mem_unvisited.mp ((hs t _).mem_iff.mp (List.mem_of_mem_take hi))
      · have := congrArg List.length hn
        rw [List.length_take, (hs t _).length_eq] at this
        simp only [List.length_nil] at this; omega
      · exact ((hs t _).nodup_iff.mpr hnd).sublist (List.take_sublist _ _)
    · exact ⟨fun i hi => mem_unvisited.mp hi, hne, hnd⟩

/-- The search ends by itself: finitely many attainable vectors (`vals` lists them), an archive that
keeps the first of equal vectors, a neighbour for every solution, one of the two advancing explorers,
either selection.  At most `2 * vals.length + 2` iterations, whatever the user's continuator. -/
theorem C169_terminates (C : Cfg S V N) (hov : C.A.ov = Ind.ov) (hA : C.A.Exact)
    (hr : C.A.replace = false) (f : S → V) (Nb : S → N → Prop) (hF : Faithful C f Nb)
    (hne : ∀ x, ∃ n, Nb x n) (hex : FullExplorer C.A.cmp C.explore) (hsel : LibSelect C.select)
    (vals : List V) (hvals : ∀ x, f x ∈ vals) (pop : List (Ind S V)) (hpop : Fresh f pop) :
    ∃ a, dmls C (2 * vals.length + 2) [] pop = some a := by
  have hasym : ∀ u v, C.A.cmp u v = true → C.A.cmp v u = false := by
    intro u v huv
    by_contra hc
    have := hA.trans _ _ _ huv (by simpa using hc)
    rw [hA.irrefl] at this; exact absurd this (by simp)
  have ho : ExplorerOk C.A.cmp C.P C.explore := by
    generalize C.explore = e at hex
    cases hex
    · exact exhaustive_ok _ _
    · exact firstImproving_ok _ _
  have hp : Progress C.A.cmp C.P C.explore := by
    generalize C.explore = e at hex
    cases hex
    · exact exhaustive_progress _ _
    · exact firstImproving_progress _ hasym _
  have hne' : ∀ t k x, C.enum t k x ≠ [] := fun t k x => by
    obtain ⟨n, hn⟩ := hne x
    exact List.ne_nil_of_mem ((hF.enum t k x n).mpr hn)
  have hs : ∀ t arch, (∀ x ∈ arch, x.flag ≤ 1) → (∃ x ∈ arch, x.flag ≠ 1) →
      ∃ i ∈ C.select t arch, ∃ x, arch[i]? = some x ∧ x.flag ≠ 1 := by
    rintro t arch h1 ⟨x, hx, hf⟩
    obtain ⟨c1, c2, _⟩ := C169_selection C.select hsel t arch
    have h0 : x.flag = 0 := by have := h1 x hx; omega
    obtain ⟨i, hi⟩ := List.exists_mem_of_ne_nil _ (c2 ⟨x, hx, h0⟩)
    obtain ⟨y, hy, hy0⟩ := c1 i hi
    exact ⟨i, hi, y, hy, by omega⟩
  have hI := inv_start (P := C.P) (Nb := Nb) hov hA hpop
  have hphi : phi C.A.cmp vals (updatePop C.A [] pop).1 ≤ 2 * vals.length := by
    have h0 : phi C.A.cmp vals ([] : List (Ind S V)) ≤ 2 * vals.length := by
      have : uncovered C.A.cmp vals ([] : List (Ind S V)) ≤ vals.length := by
        unfold uncovered; exact List.length_filter_le _ _
      unfold phi unv
      simp only [List.filter_nil, List.length_nil]
      omega
    rcases phi_updatePop (A := C.A) hov hA hr (vals := vals) (arch := []) (by simp [Antichain]) pop
      (fun m hm => by rw [(hpop m hm).1]; exact hvals _) with h | h
    · rw [h]; exact h0
    · exact (h.trans_le h0).le
  unfold dmls
  -- the first iteration
  show ∃ a, loop C (2 * vals.length + 1 + 1) 0 _ = some a
  unfold loop
  simp only
  split
  · rename_i hb
    rw [Bool.and_eq_true, natural, List.any_eq_true] at hb
    obtain ⟨x, hx, hf⟩ := hb.2
    have hle := (phi_iterate C hov hA hr f Nb hF.enum hF.eval hne' ho hp vals hvals 0 hI).1
    exact loop_terminates C hov hA hr f Nb hF.enum hF.eval hne' ho hp hs vals hvals _ 1 _
      (inv_iterate C hov hA f Nb hF.enum hF.eval ho 0 hI) ⟨x, hx, by simpa using hf⟩ (by omega)
  · exact ⟨_, rfl⟩

/-- A small bi-objective problem: integers `0..4` on a cycle, vectors `(x mod 3, (4 - x) mod 3)`. -/
def exProb : Prob (Fin 5) (Nat × Nat) Bool where
  move x b := if b then x + 1 else x - 1
  ev x b := let y := if b then x + 1 else x - 1; (y.val % 3, (4 - y.val) % 3)
/-- Its evaluation. -/
def exF (y : Fin 5) : Nat × Nat := (y.val % 3, (4 - y.val) % 3)
/-- Minimisation of both coordinates. -/
def exCmp (u v : Nat × Nat) : Bool := v.1 ≤ u.1 && v.2 ≤ u.2 && (v.1 < u.1 || v.2 < u.2)
/-- An archive that keeps the first of equal vectors (`replace = false`), or the last. -/
def exArch (replace : Bool) : ArchCfg (Ind (Fin 5) (Nat × Nat)) (Nat × Nat) :=
  ⟨Ind.ov, exCmp, fun u v => u == v, replace⟩
theorem exArch_exact (r : Bool) : (exArch r).Exact where
  irrefl v := by simp [exArch, exCmp]
  trans u v w h1 h2 := by
    simp only [exArch, exCmp, Bool.and_eq_true, Bool.or_eq_true, decide_eq_true_eq] at *
    omega
  eqv u v := by simp [exArch]
/-- PLS2 on it. -/
def exCfg : Cfg (Fin 5) (Nat × Nat) Bool :=
  ⟨exArch false, exProb, fun _ _ _ => [true, false], exhaustive, fun _ => unvisited, fun _ _ => true⟩

/-- The hypotheses of the two theorems hold of a concrete run. -/
example : Faithful exCfg exF (fun _ _ => True) ∧ FullExplorer exCfg.A.cmp exCfg.explore ∧
    LibExplorer exCfg.A.cmp exCfg.explore ∧ LibSelect exCfg.select ∧
    Fresh exF [⟨2, exF 2, 0⟩] ∧ (∀ x, exF x ∈ (List.finRange 5).map exF) ∧
    dmls exCfg 12 [] [⟨2, exF 2, 0⟩] = some [⟨3, (0, 1), 1⟩, ⟨1, (1, 0), 1⟩] :=
  ⟨⟨fun _ _ _ n => by cases n <;> simp [exCfg], fun _ n _ => by cases n <;> rfl⟩,
    .exhaustive, .exhaustive, .all, by simp [Fresh], fun x => by simp, by
      rw [dmls_eq_c]; decide +kernel⟩

/-! ## The explorers -/

/-- The first-improving explorer: pushed individuals are neighbours of the source that it does not
dominate; the source is marked or the last one pushed improves on it. -/
theorem C169_first_improving (cmp : V → V → Bool) (hasym : ∀ u v, cmp u v = true → cmp v u = false)
    (P : Prob S V N) (src : Ind S V) (ns : List N) (hns : ns ≠ []) :
    (∀ c ∈ (firstImproving cmp P src ns).1, cmp c.ov src.ov = false ∧ c.flag = 0 ∧
      ∃ n ∈ ns, c.sol = P.move src.sol n ∧ c.ov = P.ev src.sol n) ∧
    ((firstImproving cmp P src ns).2.flag = 1 ∧
        (∀ n ∈ ns, cmp (P.ev src.sol n) src.ov = true ∨ child P src n ∈ (firstImproving cmp P src ns).1) ∨
      ∃ c ∈ (firstImproving cmp P src ns).1, cmp src.ov c.ov = true) := by
  constructor
  · intro c hc
    cases ns with
    | nil => exact absurd rfl hns
    | cons n ns =>
      obtain ⟨m, hm, rfl, h⟩ := firstLoop_dest cmp P src _ c hc
      exact ⟨h, rfl, m, hm, rfl, rfl⟩
  · rcases firstImproving_progress cmp hasym P src ns hns with h | h
    · rcases (firstImproving_ok cmp P).src src ns with h' | ⟨h', hall⟩
      · -- already marked: then nothing is left either way
        cases ns with
        | nil => exact absurd rfl hns
        | cons n ns =>
          cases hl : (firstLoop cmp P src (n :: ns)).2 with
          | nil =>
            left
            exact ⟨by rw [h], fun m hm => (firstLoop_full cmp P src _ hl m hm).symm⟩
          | cons x y => right; exact firstLoop_early cmp hasym P src _ (by rw [hl]; simp)
      · left; exact ⟨by rw [h], fun n hn => (hall n hn).symm⟩
    · exact Or.inr h

/-- The explorer stopping at the first neighbour not dominated by the source pushes at most one
individual; it pushes one as soon as there is such a neighbour. -/
theorem C169_no_desimproving (cmp : V → V → Bool) (P : Prob S V N) (src : Ind S V) (ns : List N) :
    (noDesimproving cmp P src ns).1.length ≤ 1 ∧
    (∀ c ∈ (noDesimproving cmp P src ns).1, cmp c.ov src.ov = false) ∧
    ((noDesimproving cmp P src ns).1 = [] ↔ ∀ n ∈ ns, cmp (P.ev src.sol n) src.ov = true) := by
  have h1 : ∀ ns : List N, (noDesimproving cmp P src ns).1 = (noDesLoop cmp P src ns).1 := by
    intro ns; cases ns <;> rfl
  rw [h1]
  refine ⟨?_, ?_, ?_⟩
  · induction ns with
    | nil => simp [noDesLoop]
    | cons n ns ih => unfold noDesLoop; split <;> simp [ih]
  · intro c hc
    obtain ⟨n, _, rfl, h⟩ := noDesLoop_dest cmp P src ns c hc
    exact h
  · induction ns with
    | nil => simp [noDesLoop]
    | cons n ns ih =>
      unfold noDesLoop
      cases h : cmp (P.ev src.sol n) src.ov
      · simp [h]
      · simp [h, ih]

/-! ## C170: where the search does not end, stale marks, hybridisation -/

/-- If the natural stop is not reached in a set of states closed under iterations, the search without
a user's stop never ends. -/
theorem never_ends (C : Cfg S V N) (hc : ∀ t a, C.cont t a = true) (K : List (Ind S V) → Prop)
    (hK : ∀ t a, K a → K (iterate C t a)) (hn : ∀ a, K a → natural a = true) :
    ∀ fuel t a, K a → loop C fuel t a = none := by
  intro fuel
  induction fuel with
  | zero => intro t a _; rfl
  | succ fuel ih =>
    intro t a ha
    unfold loop
    simp only [hc, hn _ (hK t a ha), Bool.and_self, if_true]
    exact ih _ _ (hK t a ha)

theorem keeps_update {A : ArchCfg (Ind S V) V} (hov : A.ov = Ind.ov) (hr : A.replace = false)
    {x : Ind S V} {arch : List (Ind S V)} (hx : x ∈ arch) (pop : List (Ind S V))
    (hp : ∀ m ∈ pop, A.cmp x.ov m.ov = false) : x ∈ (updatePop A arch pop).1 := by
  induction pop using List.reverseRecOn with
  | nil => exact hx
  | append_singleton pop m ih =>
    have e : (updatePop A arch (pop ++ [m])).1 = (update A (updatePop A arch pop).1 m).1 := by
      simp [updatePop, List.foldl_append]
    rw [e]
    have ih := ih fun y hy => hp y (by simp [hy])
    have hb : A.beaten m x = false := by
      simp [ArchCfg.beaten, hov, hr, hp m (by simp)]
    have := (mem_removeLoop (A.beaten m) (updatePop A arch pop).1 x).mpr ⟨ih, hb⟩
    unfold update
    simp only
    split
    · exact List.mem_append_left _ this
    · exact this

theorem keeps_explore (C : Cfg S V N) (x : Ind S V) (hnil : ∀ t k, C.enum t k x.sol = [])
    (he : C.explore C.P x [] = ([], x)) (t : Nat) : ∀ is k arch dest, x ∈ arch →
      x ∈ (explorePop C t k is arch dest).1 := by
  intro is
  induction is with
  | nil => intro k arch dest h; exact h
  | cons i is ih =>
    intro k arch dest h
    unfold explorePop
    cases hi : arch[i]? with
    | none => exact ih _ _ _ h
    | some src =>
      simp only
      apply ih
      obtain ⟨j, hj, e⟩ := List.getElem_of_mem h
      by_cases hij : i = j
      · subst hij
        rw [List.getElem?_eq_getElem hj, Option.some.injEq, e] at hi
        subst hi
        rw [hnil, he]
        exact List.mem_iff_getElem.mpr ⟨i, by simpa using hj, by simp⟩
      · exact List.mem_iff_getElem.mpr ⟨j, by simpa using hj, by
          rw [List.getElem_set_ne hij]; exact e⟩

/-- No explorer marks a source without neighbours: with an undominated solution without neighbours in
the initial population, the search never stops by itself, whatever the selection and the orders. -/
theorem C170_isolated_solution (C : Cfg S V N) (hov : C.A.ov = Ind.ov) (hA : C.A.Exact)
    (hr : C.A.replace = false) (f : S → V) (Nb : S → N → Prop) (hF : Faithful C f Nb)
    (hex : LibExplorer C.A.cmp C.explore) (hc : ∀ t a, C.cont t a = true)
    (x : Ind S V) (rest : List (Ind S V)) (hpop : Fresh f (x :: rest)) (hiso : ∀ n, ¬ Nb x.sol n)
    (hopt : ∀ y, C.A.cmp (f x.sol) (f y) = false) (fuel : Nat) :
    dmls C fuel [] (x :: rest) = none := by
  have hnil : ∀ t k, C.enum t k x.sol = [] := fun t k =>
    List.eq_nil_iff_forall_not_mem.mpr fun n hn => hiso n ((hF.enum t k _ n).mp hn)
  have he : C.explore C.P x [] = ([], x) := by
    generalize C.explore = e at hex
    cases hex <;> rfl
  have hx0 := hpop x (by simp)
  apply never_ends C hc (fun a => Inv C.A C.P f Nb a ∧ x ∈ a)
  · rintro t a ⟨hI, hx⟩
    refine ⟨inv_iterate C hov hA f Nb hF.enum hF.eval hex.ok t hI, ?_⟩
    have h1 := keeps_explore C x hnil he t (C.select t a) 0 a [] hx
    obtain ⟨j1, _, _⟩ := explorePop_mid C f Nb hF.enum hF.eval hex.ok t (C.select t a) 0 a [] hI.mid
    unfold iterate
    apply keeps_update hov hr h1
    intro m hm
    rw [j1.deval m hm, hx0.1]; exact hopt _
  · rintro a ⟨_, hx⟩
    rw [natural, List.any_eq_true]
    exact ⟨x, hx, by simp [hx0.2]⟩
  · refine ⟨inv_start hov hA hpop, ?_⟩
    have e : updatePop C.A [] (x :: rest) = updatePop C.A [] ([x] ++ rest) := rfl
    have e2 : (updatePop C.A [] (x :: rest)).1 = (updatePop C.A [x] rest).1 := by
      have h0 : update C.A [] x = ([x], true) := by unfold update removeLoop; simp
      have gen : ∀ (l : List (Ind S V)) (a : List (Ind S V)) (b b' : Bool),
          (l.foldl (fun s m => let r := update C.A s.1 m; (r.1, r.2 || s.2)) (a, b)).1 =
          (l.foldl (fun s m => let r := update C.A s.1 m; (r.1, r.2 || s.2)) (a, b')).1 := by
        intro l
        induction l with
        | nil => intro a b b'; rfl
        | cons m l ih => intro a b b'; exact ih _ _ _
      simp only [updatePop, List.foldl_cons, h0]
      exact gen _ _ _ _
    rw [e2]
    apply keeps_update hov hr (by simp)
    intro m hm
    rw [(hpop m (by simp [hm])).1, hx0.1]; exact hopt _

/-- The explorer of at most `number` neighbours never marks a source with more neighbours than that:
the search never stops by itself, whatever the archive policy, the selection and the orders. -/
theorem C170_sub_never_marks (C : Cfg S V N) (hov : C.A.ov = Ind.ov) (hA : C.A.Exact)
    (f : S → V) (Nb : S → N → Prop) (hF : Faithful C f Nb) (number : Nat)
    (hex : C.explore = simpleSub number) (hlen : ∀ t k x, number < (C.enum t k x).length)
    (hc : ∀ t a, C.cont t a = true) (pop : List (Ind S V)) (hpop : Fresh f pop) (hne : pop ≠ [])
    (fuel : Nat) : dmls C fuel [] pop = none := by
  have hok : ExplorerOk C.A.cmp C.P C.explore := by rw [hex]; exact simpleSub_ok _ _ _
  obtain ⟨p, hp⟩ := List.exists_mem_of_ne_nil _ hne
  -- marks stay zero
  have hz : ∀ t is k arch dest, (∀ x ∈ arch, x.flag = 0) →
      ∀ x ∈ (explorePop C t k is arch dest).1, x.flag = 0 := by
    intro t is
    induction is with
    | nil => intro k arch dest h; exact h
    | cons i is ih =>
      intro k arch dest h
      unfold explorePop
      cases hi : arch[i]? with
      | none => exact ih _ _ _ h
      | some src =>
        simp only
        apply ih
        have e : (C.explore C.P src (C.enum t k src.sol)).2 = src := by
          rw [hex]
          have hl := hlen t k src.sol
          generalize C.enum t k src.sol = ns at hl
          cases ns with
          | nil => rfl
          | cons n ns =>
            simp only [simpleSub]
            split
            · rfl
            · have : (n :: ns).drop number ≠ [] := by
                rw [Ne, List.drop_eq_nil_iff]; omega
              simp only
              cases hd : (n :: ns).drop number with
              | nil => exact absurd hd this
              | cons a b => simp
        rw [e]
        intro x hx
        rcases List.mem_or_eq_of_mem_set hx with h' | rfl
        · exact h x h'
        · exact h _ (List.mem_of_getElem? hi)
  have hzu : ∀ arch pop' : List (Ind S V), Antichain C.A.cmp (arch.map Ind.ov) →
      (∀ x ∈ arch, x.flag = 0) → (∀ x ∈ pop', x.flag = 0) →
      ∀ x ∈ (updatePop C.A arch pop').1, x.flag = 0 := by
    intro arch pop' hac h1 h2 x hx
    rcases (updatePop_inv hA (arch := arch) (by rw [hov]; exact hac) pop').2 x hx with h | h
    · exact h1 x h
    · exact h2 x h
  apply never_ends C hc (fun a => Inv C.A C.P f Nb a ∧ (∀ x ∈ a, x.flag = 0) ∧
    Covers C.A.cmp (a.map Ind.ov) p.ov)
  · rintro t a ⟨hI, hx, hcv⟩
    refine ⟨inv_iterate C hov hA f Nb hF.enum hF.eval hok t hI, ?_,
      covers_iterate C hov hA f Nb hF.enum hF.eval hok t hI hcv⟩
    obtain ⟨j1, j2, _⟩ := explorePop_mid C f Nb hF.enum hF.eval hok t (C.select t a) 0 a [] hI.mid
    exact hzu _ _ (by rw [j2]; exact hI.anti) (hz t _ 0 a [] hx) j1.dflag
  · rintro a ⟨_, hx, v, hv, _⟩
    obtain ⟨y, hy, _⟩ := List.mem_map.mp hv
    rw [natural, List.any_eq_true]
    exact ⟨y, hy, by simp [hx y hy]⟩
  · refine ⟨inv_start hov hA hpop, hzu [] pop (by simp [Antichain]) (by simp)
      (fun x hx => (hpop x hx).2), ?_⟩
    have := updatePop_covers hA (A := C.A) (arch := []) (by simp [Antichain]) pop (w := p.ov)
      (Or.inr (by rw [hov]; exact List.mem_map_of_mem hp))
    rwa [hov] at this

/-- With the default policy of the archive (the newcomer replaces a member of equal vector) two
neighbours of equal vectors replace each other for ever. -/
theorem C170_replace_cycles : ∃ C : Cfg Bool Nat Unit,
    C.A.ov = Ind.ov ∧ C.A.Exact ∧ C.A.replace = true ∧ C.explore = exhaustive ∧
    C.select = (fun _ => unvisited) ∧ Faithful C (fun _ => 0) (fun _ _ => True) ∧
    ∀ fuel, dmls C fuel [] [⟨false, 0, 0⟩] = none := by
  refine ⟨⟨⟨Ind.ov, fun u v => v < u, fun u v => u == v, true⟩, ⟨fun x _ => !x, fun _ _ => 0⟩,
    fun _ _ _ => [()], exhaustive, fun _ => unvisited, fun _ _ => true⟩, rfl, ?_, rfl, rfl, rfl, ?_, ?_⟩
  · exact ⟨fun v => by simp, fun u v w h1 h2 => by simp at *; omega, fun u v => by simp⟩
  · exact ⟨fun _ _ _ n => by simp, fun _ _ _ => rfl⟩
  · intro fuel
    unfold dmls
    apply never_ends _ (fun _ _ => rfl) (fun a => ∃ b, a = [⟨b, 0, 0⟩])
    · rintro t a ⟨b, rfl⟩
      refine ⟨!b, ?_⟩
      rw [iterate_eq_c]
      cases b <;> rfl
    · rintro a ⟨b, rfl⟩; cases b <;> rfl
    · refine ⟨false, ?_⟩
      rw [updatePop_eq_c]; rfl

/-- The explorer stopping at the first neighbour not dominated by the source, with a fixed order of
the neighbours: the same neighbour is found again at every iteration, the source is never marked. -/
theorem C170_no_desimproving_livelock : ∃ C : Cfg (Fin 3) (Nat × Nat) (Fin 3),
    C.A.ov = Ind.ov ∧ C.A.Exact ∧ C.A.replace = false ∧ C.explore = noDesimproving C.A.cmp ∧
    C.select = (fun _ => unvisited) ∧
    Faithful C (fun x => (x.val, 2 - x.val)) (fun x y => y ≠ x) ∧
    ∀ fuel, dmls C fuel [] [⟨0, (0, 2), 0⟩] = none := by
  refine ⟨⟨⟨Ind.ov, exCmp, fun u v => u == v, false⟩, ⟨fun _ y => y, fun _ y => (y.val, 2 - y.val)⟩,
    fun _ _ x => (List.finRange 3).filter (· ≠ x), noDesimproving exCmp, fun _ => unvisited,
    fun _ _ => true⟩, rfl, ?_, rfl, rfl, rfl, ?_, ?_⟩
  · refine ⟨fun v => by simp [exCmp], fun u v w h1 h2 => ?_, fun u v => by simp⟩
    simp only [exCmp, Bool.and_eq_true, Bool.or_eq_true, decide_eq_true_eq] at *
    omega
  · exact ⟨fun _ _ _ n => by simp, fun _ _ _ => rfl⟩
  · intro fuel
    unfold dmls
    apply never_ends _ (fun _ _ => rfl)
      (fun a => a = [⟨0, (0, 2), 0⟩] ∨ a = [⟨0, (0, 2), 0⟩, ⟨1, (1, 1), 0⟩])
    · rintro t a (rfl | rfl) <;> right <;> rw [iterate_eq_c] <;> rfl
    · rintro a (rfl | rfl) <;> rfl
    · left; rw [updatePop_eq_c]; rfl

theorem select_none {sel : Nat → List (Ind S V) → List Nat} (hs : LibSelect sel) (t : Nat)
    {arch : List (Ind S V)} (h : ∀ x ∈ arch, x.flag = 1) : sel t arch = [] := by
  obtain ⟨c1, _, _⟩ := C169_selection sel hs t arch
  apply List.eq_nil_iff_forall_not_mem.mpr
  intro i hi
  obtain ⟨x, hx, hf⟩ := c1 i hi
  have := h x (List.mem_of_getElem? hx)
  omega

theorem loop_all_visited (C : Cfg S V N) (hs : LibSelect C.select) {arch : List (Ind S V)}
    (h : ∀ x ∈ arch, x.flag = 1) (fuel t : Nat) : loop C (fuel + 1) t arch = some arch := by
  have e : iterate C t arch = arch := by
    unfold iterate; rw [select_none hs t h]; rfl
  unfold loop
  simp only [e]
  have hn : natural arch = false := by
    rw [natural, List.any_eq_false]
    intro x hx; simp [h x hx]
  simp [hn]

/-- The mark is never cleared by the library outside the explorers (copying, moving or varying an
individual keeps it): a population carrying old marks is returned without any exploration, whatever
its neighbours are worth. -/
theorem C170_stale_marks (C : Cfg S V N) (hA : C.A.Exact)
    (hs : LibSelect C.select) (pop : List (Ind S V)) (h : ∀ x ∈ pop, x.flag = 1) (fuel : Nat) :
    ∃ a, dmls C (fuel + 1) [] pop = some a ∧ ∀ x ∈ a, x ∈ pop := by
  have hm : ∀ x ∈ (updatePop C.A [] pop).1, x ∈ pop := by
    intro x hx
    rcases (updatePop_inv hA (A := C.A) (arch := []) (by simp [Antichain]) pop).2 x hx with h' | h'
    · simp at h'
    · exact h'
  exact ⟨_, loop_all_visited C hs (fun x hx => h x (hm x hx)) fuel 0, hm⟩

/-- The hybrid mutation: the individual is replaced by a member of the archive that it does not
dominate; the answer is always "unchanged". -/
theorem C170_mutation (C : Cfg S V N) (hov : C.A.ov = Ind.ov) (hA : C.A.Exact) (f : S → V)
    (Nb : S → N → Prop) (hF : Faithful C f Nb) (hex : LibExplorer C.A.cmp C.explore)
    (x : Ind S V) (hx : Fresh f [x]) (draw : Nat → Nat) (hd : ∀ n, 0 < n → draw n < n) (fuel : Nat)
    (r : Option (Ind S V)) (b : Bool) (a : List (Ind S V))
    (h : monOp C fuel draw [] x = some (r, b, a)) :
    b = false ∧ ∃ y, r = some y ∧ y ∈ a ∧ y.ov = f y.sol ∧ C.A.cmp y.ov x.ov = false := by
  unfold monOp at h
  rw [Option.map_eq_some_iff] at h
  obtain ⟨a', ha, e⟩ := h
  simp only [Prod.mk.injEq] at e
  obtain ⟨e1, e2, e3⟩ := e
  subst e3
  obtain ⟨k1, k2, k3, _, _⟩ := C169_local_optimum_set C hov hA f Nb hF hex [x] hx fuel a' ha
  obtain ⟨v, hv, hxv⟩ := k3 x (by simp)
  have hpos : 0 < a'.length := by
    cases a' with
    | nil => simp at hv
    | cons y ys => simp
  have hlt := hd _ hpos
  rw [List.getElem?_eq_getElem hlt] at e1
  refine ⟨e2.symm, a'[draw a'.length], e1.symm, List.getElem_mem hlt, k2 _ (List.getElem_mem hlt), ?_⟩
  by_contra hc
  rw [Bool.not_eq_false] at hc
  have hw : C.A.cmp (a'[draw a'.length]).ov v = true := by
    rcases hxv with rfl | h'
    · exact hc
    · exact hA.trans _ _ _ hc h'
  rw [k1.forall hA.irrefl (List.mem_map_of_mem (List.getElem_mem hlt)) hv] at hw
  exact absurd hw (by simp)

/-- The archive of the hybrid mutation is not emptied between calls: once its search has ended, an
individual that it dominates is replaced, without any exploration, by a member left by the earlier
calls. -/
theorem C170_mutation_reuses_archive (C : Cfg S V N) (hov : C.A.ov = Ind.ov) (hA : C.A.Exact)
    (hs : LibSelect C.select) (arch : List (Ind S V)) (hac : Antichain C.A.cmp (arch.map Ind.ov))
    (hv : ∀ y ∈ arch, y.flag = 1) (x y : Ind S V) (hy : y ∈ arch) (hdom : C.A.cmp x.ov y.ov = true)
    (draw : Nat → Nat) (fuel : Nat) :
    monOp C (fuel + 1) draw arch x = some (arch[draw arch.length]?, false, arch) := by
  have e : (updatePop C.A arch [x]).1 = arch := by
    have h1 : (updatePop C.A arch [x]).1 = (update C.A arch x).1 := rfl
    rw [h1]
    rcases update_cases hA (arch := arch) (by rw [hov]; exact hac) x with ⟨_, hu⟩ | ⟨hb, _⟩
    · rw [hu]
    · rw [List.any_eq_false] at hb
      have := hb y hy
      simp [ArchCfg.blocks, hov, hdom] at this
  unfold monOp dmls
  rw [e, loop_all_visited C hs hv]
  rfl

/-- The hybrid updater: the new global archive is an antichain covering what the global archive and
the inner archive covered. -/
theorem C170_updater (C : Cfg S V N) (hov : C.A.ov = Ind.ov) (hA : C.A.Exact) (f : S → V)
    (Nb : S → N → Prop) (hF : Faithful C f Nb) (hex : LibExplorer C.A.cmp C.explore)
    (global : List (Ind S V)) (hg : Antichain C.A.cmp (global.map Ind.ov)) (hgf : Fresh f global)
    (fuel : Nat) (inner' global' : List (Ind S V))
    (h : genUpdater C fuel [] global = some (inner', global')) :
    Antichain C.A.cmp (global'.map Ind.ov) ∧
    (∀ w, Covers C.A.cmp (global.map Ind.ov) w ∨ Covers C.A.cmp (inner'.map Ind.ov) w →
      Covers C.A.cmp (global'.map Ind.ov) w) ∧
    (∀ x ∈ global', x ∈ global ∨ x ∈ inner') ∧
    (∀ w, Covers C.A.cmp (global'.map Ind.ov) w ↔ Covers C.A.cmp (inner'.map Ind.ov) w) := by
  unfold genUpdater at h
  rw [Option.map_eq_some_iff] at h
  obtain ⟨a, ha, e⟩ := h
  simp only [Prod.mk.injEq] at e
  obtain ⟨e1, e2⟩ := e
  subst e1 e2
  obtain ⟨k1, k2, k3, _, _⟩ := C169_local_optimum_set C hov hA f Nb hF hex global hgf fuel a ha
  have hg' : Antichain C.A.cmp (global.map C.A.ov) := by rw [hov]; exact hg
  obtain ⟨u1, u2⟩ := updatePop_inv hA hg' a
  have hcov : ∀ w, Covers C.A.cmp (global.map Ind.ov) w ∨ Covers C.A.cmp (a.map Ind.ov) w →
      Covers C.A.cmp ((updatePop C.A global a).1.map Ind.ov) w := by
    rintro w (hw | hw)
    · have := updatePop_covers hA hg' a (w := w) (Or.inl (by rw [hov]; exact hw))
      rwa [hov] at this
    · refine Covers.of hA hw fun v hv => ?_
      have := updatePop_covers hA hg' a (w := v) (Or.inr (by rw [hov]; exact hv))
      rwa [hov] at this
  refine ⟨by rw [hov] at u1; exact u1, hcov, u2, fun w => ⟨fun hw => ?_, fun hw => hcov w (Or.inr hw)⟩⟩
  refine Covers.of hA hw fun v hv => ?_
  obtain ⟨y, hy, rfl⟩ := List.mem_map.mp hv
  rcases u2 y hy with h' | h'
  · exact k3 y h'
  · exact Covers.self (List.mem_map_of_mem h')

/-- Concrete runs meeting the hypotheses: an isolated optimum, a sub-exploration, a marked individual
next to a better one, a mutation and an update. -/
example : Faithful (⟨exArch false, exProb, fun _ _ _ => [], exhaustive, fun _ => unvisited,
      fun _ _ => true⟩ : Cfg _ _ _) exF (fun _ _ => False) ∧ Fresh exF [⟨3, exF 3, 0⟩] ∧
    (∀ y, exCmp (exF 3) (exF y) = false) :=
  ⟨⟨by simp, by simp⟩, by simp [Fresh], by decide⟩
example : (∀ t k x, 1 < (exCfg.enum t k x).length) ∧
    dmls { exCfg with explore := simpleSub 1 } 5 [] [⟨2, exF 2, 0⟩] = none :=
  ⟨by simp [exCfg], by rw [dmls_eq_c]; decide +kernel⟩
example : dmls exCfg 3 [] [⟨2, (2, 2), 1⟩] = some [⟨2, (2, 2), 1⟩] ∧ exCmp (2, 2) (exF 3) = true :=
  ⟨by rw [dmls_eq_c]; decide +kernel, by decide⟩
example : monOp exCfg 5 (fun _ => 1) [] ⟨2, exF 2, 0⟩ =
    some (some ⟨1, (1, 0), 1⟩, false, [⟨3, (0, 1), 1⟩, ⟨1, (1, 0), 1⟩]) := by
  unfold monOp; rw [dmls_eq_c]; decide +kernel
example : genUpdater exCfg 5 [] [⟨2, exF 2, 0⟩] =
    some ([⟨3, (0, 1), 1⟩, ⟨1, (1, 0), 1⟩], [⟨3, (0, 1), 1⟩, ⟨1, (1, 0), 1⟩]) := by
  unfold genUpdater; rw [dmls_eq_c, updatePop_eq_c]; decide +kernel

end Paradiseo.Moeo.Dmls
