import Verif.Model.MoeoDMLS
import Verif.Props.MoeoArchive
/-
Helper lemmas for the dominance-based local search.
-/
namespace Paradiseo.Moeo

variable {X V : Type}

/-- Submitting a population keeps coverage and covers the population. -/
theorem updatePop_covers {A : ArchCfg X V} (hA : A.Exact) {arch : List X}
    (hac : Antichain A.cmp (arch.map A.ov)) (pop : List X) {w : V}
    (hw : Covers A.cmp (arch.map A.ov) w ∨ w ∈ pop.map A.ov) :
    Covers A.cmp ((updatePop A arch pop).1.map A.ov) w := by
  induction pop using List.reverseRecOn generalizing w with
  | nil => rcases hw with h | h
           · exact h
           · simp at h
  | append_singleton pop m ih =>
    have e : (updatePop A arch (pop ++ [m])).1 = (update A (updatePop A arch pop).1 m).1 := by
      simp [updatePop, List.foldl_append]
    rw [e]
    have hw' : Covers A.cmp ((updatePop A arch pop).1.map A.ov) w ∨ w = A.ov m := by
      rcases hw with h | h
      · exact Or.inl (ih (Or.inl h))
      · rw [List.map_append, List.mem_append] at h
        rcases h with h | h
        · exact Or.inl (ih (Or.inr h))
        · right; simpa using h
    rcases update_cases hA (updatePop_inv hA hac pop).1 m with ⟨h, hu⟩ | ⟨h, hu⟩
    · rw [hu]
      rcases hw' with h' | rfl
      · exact h'
      · exact blocked_covers hA h
    · rw [hu]; exact insert_covers hA _ _ hw'

/-- Coverage is transitive. -/
theorem Covers.of {A : ArchCfg X V} (hA : A.Exact) {vs ws : List V} {w : V}
    (h : Covers A.cmp vs w) (hs : ∀ v ∈ vs, Covers A.cmp ws v) : Covers A.cmp ws w := by
  obtain ⟨v, hv, hwv⟩ := h
  obtain ⟨u, hu, hvu⟩ := hs v hv
  refine ⟨u, hu, ?_⟩
  rcases hwv with rfl | hwv
  · exact hvu
  · rcases hvu with rfl | hvu
    · exact Or.inr hwv
    · exact Or.inr (hA.trans _ _ _ hwv hvu)

theorem Covers.self {cmp : V → V → Bool} {vs : List V} {v : V} (h : v ∈ vs) : Covers cmp vs v :=
  ⟨v, h, Or.inl rfl⟩

/-! ### A structurally recursive form, used to compute concrete runs -/

/-- `removeLoop` with explicit fuel. -/
def removeFuel (bad : X → Bool) : Nat → List X → Nat → List X
  | 0, arr, _ => arr
  | k + 1, arr, j =>
    match arr[j]?, arr.getLast? with
    | some x, some l => if bad x then removeFuel bad k ((arr.set j l).dropLast) j
                        else removeFuel bad k arr (j + 1)
    | _, _ => arr

theorem removeLoop_eq_fuel (bad : X → Bool) (k : Nat) : ∀ (arr : List X) (j : Nat),
    arr.length - j ≤ k → removeLoop bad arr j = removeFuel bad k arr j := by
  induction k with
  | zero =>
    intro arr j h
    unfold removeLoop removeFuel
    rw [dif_neg (by omega)]
  | succ k ih =>
    intro arr j h
    unfold removeLoop removeFuel
    by_cases hj : j < arr.length
    · have hne : arr ≠ [] := by rintro rfl; simp at hj
      rw [dif_pos hj, List.getElem?_eq_getElem hj, List.getLast?_eq_some_getLast hne]
      simp only
      split
      · rw [ih _ _ (by simp only [List.length_dropLast, List.length_set]; omega)]
      · rw [ih _ _ (by omega)]
    · rw [dif_neg hj, List.getElem?_eq_none (by omega)]

/-- `update` computed structurally. -/
def updateC (A : ArchCfg X V) (arch : List X) (m : X) : List X × Bool :=
  let arch := removeFuel (A.beaten m) arch.length arch 0
  let dom := arch.any (A.blocks m)
  if !dom then (arch ++ [m], !dom) else (arch, !dom)

theorem update_eq_c (A : ArchCfg X V) : update A = updateC A := by
  funext arch m
  unfold update updateC
  rw [removeLoop_eq_fuel _ _ _ _ (Nat.sub_le arch.length 0)]

/-- `updatePop` computed structurally. -/
def updatePopC (A : ArchCfg X V) (arch pop : List X) : List X × Bool :=
  pop.foldl (fun s m => let r := updateC A s.1 m; (r.1, r.2 || s.2)) (arch, false)

theorem updatePop_eq_c (A : ArchCfg X V) : updatePop A = updatePopC A := by
  funext arch pop
  unfold updatePop updatePopC
  rw [update_eq_c]

namespace Dmls

variable {S N : Type}

/-- What every explorer guarantees. -/
structure ExplorerOk (cmp : V → V → Bool) (P : Prob S V N)
    (explore : Prob S V N → Ind S V → List N → Explored S V) : Prop where
  src : ∀ src ns, (explore P src ns).2 = src ∨
    ((explore P src ns).2 = { src with flag := 1 } ∧
      ∀ n ∈ ns, child P src n ∈ (explore P src ns).1 ∨ cmp (P.ev src.sol n) src.ov = true)
  dest : ∀ src ns, ∀ c ∈ (explore P src ns).1, ∃ n ∈ ns, c = child P src n

/-- Explorers that always make progress on a source with neighbours. -/
def Progress (cmp : V → V → Bool) (P : Prob S V N)
    (explore : Prob S V N → Ind S V → List N → Explored S V) : Prop :=
  ∀ src ns, ns ≠ [] → (explore P src ns).2 = { src with flag := 1 } ∨
    ∃ c ∈ (explore P src ns).1, cmp src.ov c.ov = true

theorem exhaustive_ok (cmp : V → V → Bool) (P : Prob S V N) : ExplorerOk cmp P exhaustive where
  src src ns := by
    cases ns with
    | nil => left; rfl
    | cons n ns =>
      right; refine ⟨rfl, fun m hm => Or.inl ?_⟩
      exact List.mem_map_of_mem hm
  dest src ns c hc := by
    cases ns with
    | nil => simp [exhaustive] at hc
    | cons n ns =>
      simp only [exhaustive, List.mem_map] at hc
      obtain ⟨m, hm, rfl⟩ := hc; exact ⟨m, hm, rfl⟩

theorem exhaustive_progress (cmp : V → V → Bool) (P : Prob S V N) : Progress cmp P exhaustive := by
  intro src ns hns
  cases ns with
  | nil => exact absurd rfl hns
  | cons n ns => left; rfl

theorem firstLoop_dest (cmp : V → V → Bool) (P : Prob S V N) (src : Ind S V) (ns : List N) :
    ∀ c ∈ (firstLoop cmp P src ns).1, ∃ n ∈ ns, c = child P src n ∧
      cmp (P.ev src.sol n) src.ov = false := by
  induction ns with
  | nil => simp [firstLoop]
  | cons n rest ih =>
    intro c hc
    unfold firstLoop at hc
    simp only at hc
    cases hs : cmp (P.ev src.sol n) src.ov <;> cases ht : cmp src.ov (P.ev src.sol n) <;>
      simp only [hs, ht, Bool.not_false, Bool.not_true, Bool.false_eq_true, if_true, if_false,
        List.mem_append, List.mem_singleton, List.not_mem_nil, false_or] at hc
    · rcases hc with rfl | hc
      · exact ⟨n, by simp, rfl, hs⟩
      · obtain ⟨m, hm, e⟩ := ih c hc; exact ⟨m, by simp [hm], e⟩
    · exact ⟨n, by simp, hc, hs⟩
    · obtain ⟨m, hm, e⟩ := ih c hc; exact ⟨m, by simp [hm], e⟩

/-- Ended with nothing left: every neighbour pushed or dominated by the source. -/
theorem firstLoop_full (cmp : V → V → Bool) (P : Prob S V N) (src : Ind S V) (ns : List N)
    (h : (firstLoop cmp P src ns).2 = []) :
    ∀ n ∈ ns, child P src n ∈ (firstLoop cmp P src ns).1 ∨ cmp (P.ev src.sol n) src.ov = true := by
  induction ns with
  | nil => simp
  | cons n rest ih =>
    unfold firstLoop at h ⊢
    simp only at h ⊢
    cases hs : cmp src.ov (P.ev src.sol n) with
    | true =>
      simp only [hs, if_true] at h ⊢
      subst h
      intro m hm
      simp only [List.mem_singleton] at hm; subst hm
      cases hc : cmp (P.ev src.sol m) src.ov <;> simp
    | false =>
      simp only [hs, Bool.false_eq_true, if_false] at h ⊢
      intro m hm
      rcases List.mem_cons.mp hm with rfl | hm
      · cases hc : cmp (P.ev src.sol m) src.ov <;> simp
      · rcases ih h m hm with h1 | h1
        · left; exact List.mem_append_right _ h1
        · exact Or.inr h1

/-- Ended early: an improving neighbour was met, and pushed when dominance is asymmetric. -/
theorem firstLoop_early (cmp : V → V → Bool) (hasym : ∀ u v, cmp u v = true → cmp v u = false)
    (P : Prob S V N) (src : Ind S V) (ns : List N) (h : (firstLoop cmp P src ns).2 ≠ []) :
    ∃ c ∈ (firstLoop cmp P src ns).1, cmp src.ov c.ov = true := by
  induction ns with
  | nil => simp [firstLoop] at h
  | cons n rest ih =>
    unfold firstLoop at h ⊢
    simp only at h ⊢
    cases hs : cmp src.ov (P.ev src.sol n) with
    | true =>
      refine ⟨child P src n, ?_, hs⟩
      simp [hasym _ _ hs]
    | false =>
      simp only [hs, Bool.false_eq_true, if_false] at h ⊢
      obtain ⟨c, hc, e⟩ := ih h
      exact ⟨c, List.mem_append_right _ hc, e⟩

theorem firstImproving_ok (cmp : V → V → Bool) (P : Prob S V N) :
    ExplorerOk cmp P (firstImproving cmp) where
  src src ns := by
    cases ns with
    | nil => left; rfl
    | cons n ns =>
      simp only [firstImproving]
      cases h : (firstLoop cmp P src (n :: ns)).2 with
      | nil => right; exact ⟨by simp, firstLoop_full cmp P src _ h⟩
      | cons a b => left; simp
  dest src ns c hc := by
    cases ns with
    | nil => simp [firstImproving] at hc
    | cons n ns =>
      obtain ⟨m, hm, e, _⟩ := firstLoop_dest cmp P src _ c hc
      exact ⟨m, hm, e⟩

theorem firstImproving_progress (cmp : V → V → Bool)
    (hasym : ∀ u v, cmp u v = true → cmp v u = false) (P : Prob S V N) :
    Progress cmp P (firstImproving cmp) := by
  intro src ns hns
  cases ns with
  | nil => exact absurd rfl hns
  | cons n ns =>
    simp only [firstImproving]
    cases h : (firstLoop cmp P src (n :: ns)).2 with
    | nil => left; simp
    | cons a b => right; exact firstLoop_early cmp hasym P src _ (by rw [h]; simp)

theorem noDesLoop_dest (cmp : V → V → Bool) (P : Prob S V N) (src : Ind S V) (ns : List N) :
    ∀ c ∈ (noDesLoop cmp P src ns).1, ∃ n ∈ ns, c = child P src n ∧
      cmp (P.ev src.sol n) src.ov = false := by
  induction ns with
  | nil => simp [noDesLoop]
  | cons n rest ih =>
    intro c hc
    unfold noDesLoop at hc
    split at hc
    · rename_i h
      simp only [List.mem_singleton] at hc
      exact ⟨n, by simp, hc, by simpa using h⟩
    · obtain ⟨m, hm, e⟩ := ih c hc; exact ⟨m, by simp [hm], e⟩

theorem noDesLoop_full (cmp : V → V → Bool) (P : Prob S V N) (src : Ind S V) (ns : List N)
    (h : (noDesLoop cmp P src ns).2 = []) :
    ∀ n ∈ ns, child P src n ∈ (noDesLoop cmp P src ns).1 ∨ cmp (P.ev src.sol n) src.ov = true := by
  induction ns with
  | nil => simp
  | cons n rest ih =>
    unfold noDesLoop at h ⊢
    cases hs : cmp (P.ev src.sol n) src.ov with
    | false =>
      simp only [hs, Bool.not_false, if_true] at h ⊢
      subst h
      intro m hm; left; simp at hm; subst hm; simp
    | true =>
      simp only [hs, Bool.not_true, Bool.false_eq_true, if_false] at h ⊢
      intro m hm
      rcases List.mem_cons.mp hm with rfl | hm
      · exact Or.inr hs
      · exact ih h m hm

theorem noDesimproving_ok (cmp : V → V → Bool) (P : Prob S V N) :
    ExplorerOk cmp P (noDesimproving cmp) where
  src src ns := by
    cases ns with
    | nil => left; rfl
    | cons n ns =>
      simp only [noDesimproving]
      cases h : (noDesLoop cmp P src (n :: ns)).2 with
      | nil => right; exact ⟨by simp, noDesLoop_full cmp P src _ h⟩
      | cons a b => left; simp
  dest src ns c hc := by
    cases ns with
    | nil => simp [noDesimproving] at hc
    | cons n ns =>
      obtain ⟨m, hm, e, _⟩ := noDesLoop_dest cmp P src _ c hc
      exact ⟨m, hm, e⟩

theorem simpleSub_ok (cmp : V → V → Bool) (number : Nat) (P : Prob S V N) :
    ExplorerOk cmp P (simpleSub number) where
  src src ns := by
    cases ns with
    | nil => left; rfl
    | cons n ns =>
      simp only [simpleSub]
      by_cases h0 : number = 0
      · left; simp [h0]
      · simp only [h0, if_false]
        cases h : (n :: ns).drop number with
        | nil =>
          right
          refine ⟨by simp, fun m hm => Or.inl ?_⟩
          rw [List.drop_eq_nil_iff] at h
          rw [List.take_of_length_le h]
          exact List.mem_map_of_mem hm
        | cons a b => left; simp
  dest src ns c hc := by
    cases ns with
    | nil => simp [simpleSub] at hc
    | cons n ns =>
      simp only [simpleSub] at hc
      by_cases h0 : number = 0
      · simp [h0] at hc
      · simp only [h0, if_false, List.mem_map] at hc
        obtain ⟨m, hm, rfl⟩ := hc
        exact ⟨m, List.mem_of_mem_take hm, rfl⟩

/-! ### The exploration of the selected members -/

theorem set_map_ov {arch : List (Ind S V)} {i : Nat} {src x : Ind S V} (h : arch[i]? = some src)
    (hx : x.ov = src.ov) : (arch.set i x).map Ind.ov = arch.map Ind.ov := by
  apply List.ext_getElem?
  intro k
  rw [List.getElem?_map, List.getElem?_map, List.getElem?_set]
  by_cases e : i = k
  · subst e
    obtain ⟨hi, _⟩ := List.getElem?_eq_some_iff.mp h
    rw [if_pos rfl, if_pos hi, h]; simp [hx]
  · simp [e]

/-- Invariant of the exploration: `Nb` is the neighbourhood relation, `f` the evaluation. -/
structure Mid (cmp : V → V → Bool) (P : Prob S V N) (f : S → V) (Nb : S → N → Prop)
    (arch dest : List (Ind S V)) : Prop where
  eval : ∀ x ∈ arch, x.ov = f x.sol
  flag : ∀ x ∈ arch, x.flag ≤ 1
  visited : ∀ x ∈ arch, x.flag = 1 → ∀ n, Nb x.sol n →
    Covers cmp (arch.map Ind.ov ++ dest.map Ind.ov) (f (P.move x.sol n))
  deval : ∀ d ∈ dest, d.ov = f d.sol
  dflag : ∀ d ∈ dest, d.flag = 0

theorem explored_ov {cmp : V → V → Bool} {P : Prob S V N}
    {explore : Prob S V N → Ind S V → List N → Explored S V} (ho : ExplorerOk cmp P explore)
    (src : Ind S V) (ns : List N) :
    (explore P src ns).2.ov = src.ov ∧ (explore P src ns).2.sol = src.sol ∧
      ((explore P src ns).2.flag = src.flag ∨ (explore P src ns).2.flag = 1) := by
  rcases ho.src src ns with h | ⟨h, _⟩ <;> rw [h] <;> simp

theorem explorePop_mid (C : Cfg S V N) (f : S → V) (Nb : S → N → Prop)
    (he : ∀ t k x n, n ∈ C.enum t k x ↔ Nb x n)
    (hev : ∀ x n, Nb x n → C.P.ev x n = f (C.P.move x n))
    (ho : ExplorerOk C.A.cmp C.P C.explore) (t : Nat) :
    ∀ is k arch dest, Mid C.A.cmp C.P f Nb arch dest →
      Mid C.A.cmp C.P f Nb (explorePop C t k is arch dest).1 (explorePop C t k is arch dest).2 ∧
      (explorePop C t k is arch dest).1.map Ind.ov = arch.map Ind.ov ∧
      (∀ d ∈ (explorePop C t k is arch dest).2, d ∈ dest ∨ ∃ x ∈ arch, ∃ n, Nb x.sol n ∧
        d.sol = C.P.move x.sol n) := by
  intro is
  induction is with
  | nil => intro k arch dest hM; exact ⟨hM, rfl, fun d hd => Or.inl hd⟩
  | cons i is ih =>
    intro k arch dest hM
    unfold explorePop
    cases hi : arch[i]? with
    | none => simp only; exact ih (k + 1) arch dest hM
    | some src =>
      simp only
      generalize hns : C.enum t k src.sol = ns
      have hsrc : src ∈ arch := List.mem_of_getElem? hi
      obtain ⟨o1, o2, o3⟩ := explored_ov ho src ns
      have hmap := set_map_ov (x := (C.explore C.P src ns).2) hi o1
      have hmem : ∀ x ∈ arch.set i (C.explore C.P src ns).2,
          x ∈ arch ∨ x = (C.explore C.P src ns).2 := fun x hx => by
        rcases List.mem_or_eq_of_mem_set hx with h | h
        · exact Or.inl h
        · exact Or.inr h
      have hnew : Mid C.A.cmp C.P f Nb (arch.set i (C.explore C.P src ns).2)
          (dest ++ (C.explore C.P src ns).1) := by
        refine ⟨?_, ?_, ?_, ?_, ?_⟩
        · intro x hx
          rcases hmem x hx with h | rfl
          · exact hM.eval x h
          · rw [o1, o2]; exact hM.eval src hsrc
        · intro x hx
          rcases hmem x hx with h | rfl
          · exact hM.flag x h
          · have := hM.flag src hsrc
            rcases o3 with h | h <;> omega
        · intro x hx hfl n hn
          rw [hmap, List.map_append, ← List.append_assoc]
          have mono : ∀ w, Covers C.A.cmp (arch.map Ind.ov ++ dest.map Ind.ov) w →
              Covers C.A.cmp (arch.map Ind.ov ++ dest.map Ind.ov ++
                ((C.explore C.P src ns).1).map Ind.ov) w := by
            rintro w ⟨v, hv, e⟩
            exact ⟨v, List.mem_append_left _ hv, e⟩
          rcases hmem x hx with h | rfl
          · exact mono _ (hM.visited x h hfl n hn)
          · rw [o2] at hn ⊢
            rcases ho.src src ns with h | ⟨h, hall⟩
            · rw [h] at hfl
              exact mono _ (hM.visited src hsrc hfl n hn)
            · have hn' : n ∈ ns := by rw [← hns]; exact (he t k src.sol n).mpr hn
              rw [← hev _ _ hn]
              rcases hall n hn' with hc | hc
              · refine ⟨_, List.mem_append_right _ (List.mem_map_of_mem hc), Or.inl rfl⟩
              · exact ⟨src.ov, List.mem_append_left _ (List.mem_append_left _
                  (List.mem_map_of_mem hsrc)), Or.inr hc⟩
        · intro d hd
          rcases List.mem_append.mp hd with hd | hd
          · exact hM.deval d hd
          · obtain ⟨n, hn, rfl⟩ := ho.dest src ns d hd
            exact hev _ _ ((he t k src.sol n).mp (by rw [hns]; exact hn))
        · intro d hd
          rcases List.mem_append.mp hd with hd | hd
          · exact hM.dflag d hd
          · obtain ⟨n, hn, rfl⟩ := ho.dest src ns d hd
            rfl
      obtain ⟨j1, j2, j3⟩ := ih (k + 1) _ _ hnew
      refine ⟨j1, by rw [j2, hmap], fun d hd => ?_⟩
      rcases j3 d hd with h | ⟨x, hx, n, hn, e⟩
      · rcases List.mem_append.mp h with h | h
        · exact Or.inl h
        · obtain ⟨n, hn, rfl⟩ := ho.dest src ns d h
          exact Or.inr ⟨src, hsrc, n, (he t k src.sol n).mp (by rw [hns]; exact hn), rfl⟩
      · rcases hmem x hx with h | rfl
        · exact Or.inr ⟨x, h, n, hn, e⟩
        · rw [o2] at hn e; exact Or.inr ⟨src, hsrc, n, hn, e⟩

/-- Invariant of the search. -/
structure Inv (A : ArchCfg (Ind S V) V) (P : Prob S V N) (f : S → V) (Nb : S → N → Prop)
    (arch : List (Ind S V)) : Prop where
  anti : Antichain A.cmp (arch.map Ind.ov)
  mid : Mid A.cmp P f Nb arch []

theorem inv_updatePop {A : ArchCfg (Ind S V) V} (hov : A.ov = Ind.ov) (hA : A.Exact) {P : Prob S V N}
    {f : S → V} {Nb : S → N → Prop} {arch dest : List (Ind S V)}
    (hac : Antichain A.cmp (arch.map Ind.ov))
    (hM : Mid A.cmp P f Nb arch dest) : Inv A P f Nb (updatePop A arch dest).1 := by
  have hac' : Antichain A.cmp (arch.map A.ov) := by rw [hov]; exact hac
  obtain ⟨u1, u2⟩ := updatePop_inv hA hac' dest
  have hcov : ∀ w, Covers A.cmp (arch.map Ind.ov ++ dest.map Ind.ov) w →
      Covers A.cmp ((updatePop A arch dest).1.map Ind.ov) w := by
    intro w hw
    refine Covers.of hA hw fun v hv => ?_
    have := updatePop_covers hA hac' dest (w := v) (by
      rw [hov]; rcases List.mem_append.mp hv with h | h
      · exact Or.inl (Covers.self h)
      · exact Or.inr h)
    rwa [hov] at this
  refine ⟨by rw [hov] at u1; exact u1, ⟨?_, ?_, ?_, by simp, by simp⟩⟩
  · intro x hx
    rcases u2 x hx with h | h
    · exact hM.eval x h
    · exact hM.deval x h
  · intro x hx
    rcases u2 x hx with h | h
    · exact hM.flag x h
    · have := hM.dflag x h; omega
  · intro x hx hfl n hn
    simp only [List.map_nil, List.append_nil]
    rcases u2 x hx with h | h
    · exact hcov _ (hM.visited x h hfl n hn)
    · have := hM.dflag x h; omega

theorem inv_iterate (C : Cfg S V N) (hov : C.A.ov = Ind.ov) (hA : C.A.Exact) (f : S → V)
    (Nb : S → N → Prop) (he : ∀ t k x n, n ∈ C.enum t k x ↔ Nb x n)
    (hev : ∀ x n, Nb x n → C.P.ev x n = f (C.P.move x n))
    (ho : ExplorerOk C.A.cmp C.P C.explore) (t : Nat) {arch : List (Ind S V)}
    (hI : Inv C.A C.P f Nb arch) : Inv C.A C.P f Nb (iterate C t arch) := by
  obtain ⟨j1, j2, _⟩ := explorePop_mid C f Nb he hev ho t (C.select t arch) 0 arch [] hI.mid
  unfold iterate
  exact inv_updatePop hov hA (by rw [j2]; exact hI.anti) j1

/-- One iteration never loses coverage. -/
theorem covers_iterate (C : Cfg S V N) (hov : C.A.ov = Ind.ov) (hA : C.A.Exact) (f : S → V)
    (Nb : S → N → Prop) (he : ∀ t k x n, n ∈ C.enum t k x ↔ Nb x n)
    (hev : ∀ x n, Nb x n → C.P.ev x n = f (C.P.move x n))
    (ho : ExplorerOk C.A.cmp C.P C.explore) (t : Nat) {arch : List (Ind S V)}
    (hI : Inv C.A C.P f Nb arch) {w : V} (hw : Covers C.A.cmp (arch.map Ind.ov) w) :
    Covers C.A.cmp ((iterate C t arch).map Ind.ov) w := by
  obtain ⟨j1, j2, _⟩ := explorePop_mid C f Nb he hev ho t (C.select t arch) 0 arch [] hI.mid
  unfold iterate
  have := updatePop_covers hA (A := C.A) (arch := (explorePop C t 0 (C.select t arch) arch []).1)
    (by rw [hov, j2]; exact hI.anti) (explorePop C t 0 (C.select t arch) arch []).2 (w := w)
    (Or.inl (by rw [hov, j2]; exact hw))
  rwa [hov] at this

theorem loop_inv (C : Cfg S V N) (hov : C.A.ov = Ind.ov) (hA : C.A.Exact) (f : S → V)
    (Nb : S → N → Prop) (he : ∀ t k x n, n ∈ C.enum t k x ↔ Nb x n)
    (hev : ∀ x n, Nb x n → C.P.ev x n = f (C.P.move x n))
    (ho : ExplorerOk C.A.cmp C.P C.explore) :
    ∀ fuel t (arch a : List (Ind S V)), Inv C.A C.P f Nb arch → loop C fuel t arch = some a →
      Inv C.A C.P f Nb a ∧ (∃ t', (C.cont t' a && natural a) = false) ∧
      ∀ w, Covers C.A.cmp (arch.map Ind.ov) w → Covers C.A.cmp (a.map Ind.ov) w := by
  intro fuel
  induction fuel with
  | zero => intro t arch a _ h; simp [loop] at h
  | succ fuel ih =>
    intro t arch a hI h
    have hI' := inv_iterate C hov hA f Nb he hev ho t hI
    have hc := fun w => covers_iterate C hov hA f Nb he hev ho t hI (w := w)
    unfold loop at h
    simp only at h
    split at h
    · obtain ⟨h1, h2, h3⟩ := ih (t + 1) _ a hI' h
      exact ⟨h1, h2, fun w hw => h3 w (hc w hw)⟩
    · rename_i hb
      simp only [Option.some.injEq] at h
      subst h
      exact ⟨hI', ⟨t, by simpa using hb⟩, hc⟩

/-! ### Termination -/

/-- Number of members still to visit. -/
def unv (arch : List (Ind S V)) : Nat := (arch.filter fun x => x.flag != 1).length

open Classical in
/-- Number of attainable vectors that the archive does not cover. -/
noncomputable def uncovered (cmp : V → V → Bool) (vals : List V) (arch : List (Ind S V)) : Nat :=
  (vals.filter fun v => decide (¬ Covers cmp (arch.map Ind.ov) v)).length

/-- The measure of the search. -/
noncomputable def phi (cmp : V → V → Bool) (vals : List V) (arch : List (Ind S V)) : Nat :=
  2 * uncovered cmp vals arch + unv arch

theorem uncovered_congr {cmp : V → V → Bool} {vals : List V} {a b : List (Ind S V)}
    (h : a.map Ind.ov = b.map Ind.ov) : uncovered cmp vals a = uncovered cmp vals b := by
  unfold uncovered; rw [h]

theorem filter_length_lt {p q : V → Bool} {l : List V} (h : ∀ v ∈ l, q v = true → p v = true)
    {v : V} (hv : v ∈ l) (hp : p v = true) (hq : q v = false) :
    (l.filter q).length < (l.filter p).length := by
  have e : l.filter q = (l.filter p).filter q := by
    rw [List.filter_filter]
    apply List.filter_congr
    intro x hx
    cases hx' : q x
    · simp
    · simp [h x hx hx']
  rw [e]
  apply lt_of_le_of_ne (List.length_filter_le _ _)
  intro he
  have := List.length_filter_eq_length_iff.mp he v (List.mem_filter.mpr ⟨hv, hp⟩)
  rw [hq] at this; exact absurd this (by simp)

/-- An archive that keeps the first of equal vectors: an update that changes the archive lowers the
measure. -/
theorem phi_update {A : ArchCfg (Ind S V) V} (hov : A.ov = Ind.ov) (hA : A.Exact)
    (hr : A.replace = false) {vals : List V} {arch : List (Ind S V)}
    (hac : Antichain A.cmp (arch.map Ind.ov)) {m : Ind S V} (hm : m.ov ∈ vals) :
    (update A arch m).1 = arch ∨ phi A.cmp vals (update A arch m).1 < phi A.cmp vals arch := by
  have hac' : Antichain A.cmp (arch.map A.ov) := by rw [hov]; exact hac
  rcases update_cases hA hac' m with ⟨_, hu⟩ | ⟨hb, hu⟩
  · left; rw [hu]
  · right
    rw [hu]
    simp only
    have hcov := fun (w : V) hw => insert_covers hA arch m (w := w) hw
    rw [hov] at hcov
    have hunc : ¬ Covers A.cmp (arch.map Ind.ov) m.ov := by
      rintro ⟨v, hv, e⟩
      obtain ⟨x, hx, rfl⟩ := List.mem_map.mp hv
      rw [List.any_eq_false] at hb
      have := hb x hx
      simp only [ArchCfg.blocks, hov, hr, Bool.not_false, Bool.true_and, Bool.or_eq_true, hA.eqv,
        not_or] at this
      rcases e with e | e
      · exact this.2 e
      · exact this.1 e
    have h1 : uncovered A.cmp vals (removeLoop (A.beaten m) arch 0 ++ [m]) < uncovered A.cmp vals arch := by
      unfold uncovered
      apply filter_length_lt (v := m.ov) _ hm
      · simp [hunc]
      · simp only [decide_eq_false_iff_not, not_not]
        exact hcov _ (Or.inr rfl)
      · intro v _ hq
        simp only [decide_eq_true_eq] at hq ⊢
        exact fun hc => hq (hcov v (Or.inl hc))
    have h2 : unv (removeLoop (A.beaten m) arch 0 ++ [m]) ≤ unv arch + 1 := by
      unfold unv
      rw [List.filter_append, List.length_append]
      have p := ((removeLoop_filter (A.beaten m) arch).filter fun x : Ind S V => x.flag != 1).length_eq
      rw [p]
      have q : ((arch.filter fun x => !A.beaten m x).filter fun x => x.flag != 1).length ≤
          (arch.filter fun x => x.flag != 1).length :=
        (List.filter_sublist.filter _).length_le
      have r : ([m].filter fun x : Ind S V => x.flag != 1).length ≤ 1 := List.length_filter_le _ _
      omega
    unfold phi; omega

theorem phi_updatePop {A : ArchCfg (Ind S V) V} (hov : A.ov = Ind.ov) (hA : A.Exact)
    (hr : A.replace = false) {vals : List V} {arch : List (Ind S V)}
    (hac : Antichain A.cmp (arch.map Ind.ov)) (pop : List (Ind S V)) (hp : ∀ m ∈ pop, m.ov ∈ vals) :
    (updatePop A arch pop).1 = arch ∨
      phi A.cmp vals (updatePop A arch pop).1 < phi A.cmp vals arch := by
  induction pop using List.reverseRecOn with
  | nil => left; rfl
  | append_singleton pop m ih =>
    have e : (updatePop A arch (pop ++ [m])).1 = (update A (updatePop A arch pop).1 m).1 := by
      simp [updatePop, List.foldl_append]
    rw [e]
    have ih := ih fun x hx => hp x (by simp [hx])
    have hac2 : Antichain A.cmp ((updatePop A arch pop).1.map Ind.ov) := by
      have := (updatePop_inv hA (arch := arch) (by rw [hov]; exact hac) pop).1
      rwa [hov] at this
    rcases phi_update hov hA hr (vals := vals) hac2 (hp m (by simp)) with h | h
    · rw [h]; exact ih
    · right
      rcases ih with ih | ih
      · rw [ih] at h ⊢; exact h
      · omega

theorem unv_set_le {arch : List (Ind S V)} {i : Nat} {src x : Ind S V} (h : arch[i]? = some src)
    (hx : x.flag = src.flag ∨ x.flag = 1) : unv (arch.set i x) ≤ unv arch ∧
      (src.flag ≠ 1 → x.flag = 1 → unv (arch.set i x) < unv arch) := by
  induction arch generalizing i with
  | nil => simp at h
  | cons y ys ih =>
    cases i with
    | zero =>
      simp only [List.getElem?_cons_zero, Option.some.injEq] at h
      subst h
      simp only [List.set_cons_zero, unv, List.filter_cons]
      refine ⟨?_, fun h1 h2 => ?_⟩
      · rcases hx with h | h
        · rw [h]; by_cases hy : y.flag = 1 <;> simp [hy]
        · rw [h]; by_cases hy : y.flag = 1 <;> simp [hy]
      · simp [h1, h2]
    | succ i =>
      simp only [List.getElem?_cons_succ] at h
      obtain ⟨a1, a2⟩ := ih h
      simp only [List.set_cons_succ]
      unfold unv at a1 a2 ⊢
      rw [List.filter_cons, List.filter_cons]
      refine ⟨?_, fun h1 h2 => ?_⟩
      · by_cases hy : y.flag = 1 <;> simp [hy] <;> omega
      · have := a2 h1 h2
        by_cases hy : y.flag = 1 <;> simp [hy] <;> omega

/-- The exploration visits a member or pushes a vector dominating one. -/
theorem explorePop_progress (C : Cfg S V N) (ho : ExplorerOk C.A.cmp C.P C.explore)
    (hp : Progress C.A.cmp C.P C.explore) (hne : ∀ t k x, C.enum t k x ≠ []) (t : Nat) :
    ∀ is k arch dest,
      unv (explorePop C t k is arch dest).1 ≤ unv arch ∧
      (∀ d ∈ dest, d ∈ (explorePop C t k is arch dest).2) ∧
      ((∃ i ∈ is, ∃ x, arch[i]? = some x ∧ x.flag ≠ 1) →
        unv (explorePop C t k is arch dest).1 < unv arch ∨
        ∃ c ∈ (explorePop C t k is arch dest).2, ∃ v ∈ arch.map Ind.ov, C.A.cmp v c.ov = true) := by
  intro is
  induction is with
  | nil => intro k arch dest; simp [explorePop]
  | cons i is ih =>
    intro k arch dest
    unfold explorePop
    cases hi : arch[i]? with
    | none =>
      simp only
      obtain ⟨a1, a2, a3⟩ := ih (k + 1) arch dest
      refine ⟨a1, a2, ?_⟩
      rintro ⟨j, hj, x, hx, hf⟩
      rcases List.mem_cons.mp hj with rfl | hj
      · rw [hi] at hx; exact absurd hx (by simp)
      · exact a3 ⟨j, hj, x, hx, hf⟩
    | some src =>
      simp only
      generalize hns : C.enum t k src.sol = ns
      have hnn : ns ≠ [] := by rw [← hns]; exact hne t k src.sol
      obtain ⟨o1, o2, o3⟩ := explored_ov ho src ns
      obtain ⟨s1, s2⟩ := unv_set_le (x := (C.explore C.P src ns).2) hi o3
      have hmap := set_map_ov (x := (C.explore C.P src ns).2) hi o1
      obtain ⟨a1, a2, a3⟩ := ih (k + 1) (arch.set i (C.explore C.P src ns).2)
        (dest ++ (C.explore C.P src ns).1)
      refine ⟨by omega, fun d hd => a2 d (List.mem_append_left _ hd), ?_⟩
      rintro ⟨j, hj, x, hx, hf⟩
      by_cases hji : j = i
      · subst hji
        rw [hi, Option.some.injEq] at hx
        subst hx
        rcases hp src ns hnn with h | ⟨c, hc, hcc⟩
        · left
          have := s2 hf (by rw [h])
          omega
        · right
          exact ⟨c, a2 c (List.mem_append_right _ hc), src.ov,
            List.mem_map_of_mem (List.mem_of_getElem? hi), hcc⟩
      · rcases List.mem_cons.mp hj with e | hj
        · exact absurd e hji
        · have := a3 ⟨j, hj, x, by rw [List.getElem?_set_ne (Ne.symm hji)]; exact hx, hf⟩
          rw [hmap] at this
          rcases this with h | h
          · left; omega
          · right; exact h

theorem phi_iterate (C : Cfg S V N) (hov : C.A.ov = Ind.ov) (hA : C.A.Exact)
    (hr : C.A.replace = false) (f : S → V)
    (Nb : S → N → Prop) (he : ∀ t k x n, n ∈ C.enum t k x ↔ Nb x n)
    (hev : ∀ x n, Nb x n → C.P.ev x n = f (C.P.move x n)) (hne : ∀ t k x, C.enum t k x ≠ [])
    (ho : ExplorerOk C.A.cmp C.P C.explore) (hp : Progress C.A.cmp C.P C.explore)
    (vals : List V) (hvals : ∀ x, f x ∈ vals) (t : Nat) {arch : List (Ind S V)}
    (hI : Inv C.A C.P f Nb arch) :
    phi C.A.cmp vals (iterate C t arch) ≤ phi C.A.cmp vals arch ∧
    ((∃ i ∈ C.select t arch, ∃ x, arch[i]? = some x ∧ x.flag ≠ 1) →
      phi C.A.cmp vals (iterate C t arch) < phi C.A.cmp vals arch) := by
  obtain ⟨j1, j2, _⟩ := explorePop_mid C f Nb he hev ho t (C.select t arch) 0 arch [] hI.mid
  obtain ⟨p1, _, p3⟩ := explorePop_progress C ho hp hne t (C.select t arch) 0 arch []
  have hI' := inv_iterate C hov hA f Nb he hev ho t hI
  unfold iterate at *
  generalize explorePop C t 0 (C.select t arch) arch [] = r at *
  have hac : Antichain C.A.cmp (r.1.map Ind.ov) := by rw [j2]; exact hI.anti
  have hphi : phi C.A.cmp vals r.1 ≤ phi C.A.cmp vals arch := by
    unfold phi; rw [uncovered_congr j2]; omega
  rcases phi_updatePop hov hA hr (vals := vals) hac r.2
    (fun m hm => by rw [j1.deval m hm]; exact hvals _) with h | h
  · rw [h]
    refine ⟨hphi, fun hsel => ?_⟩
    rcases p3 hsel with h1 | ⟨c, hc, v, hv, hvc⟩
    · unfold phi; rw [uncovered_congr j2]; omega
    · exfalso
      have hcov := updatePop_covers hA (A := C.A) (arch := r.1) (by rw [hov]; exact hac) r.2
        (w := c.ov) (Or.inr (by rw [hov]; exact List.mem_map_of_mem hc))
      rw [h, hov, j2] at hcov
      obtain ⟨u, hu, e⟩ := hcov
      have hvu : C.A.cmp v u = true := by
        rcases e with e | e
        · rw [← e]; exact hvc
        · exact hA.trans _ _ _ hvc e
      rw [hI.anti.forall hA.irrefl hv hu] at hvu
      exact absurd hvu (by simp)
  · exact ⟨(h.trans_le hphi).le, fun _ => h.trans_le hphi⟩

theorem loop_terminates (C : Cfg S V N) (hov : C.A.ov = Ind.ov) (hA : C.A.Exact)
    (hr : C.A.replace = false) (f : S → V)
    (Nb : S → N → Prop) (he : ∀ t k x n, n ∈ C.enum t k x ↔ Nb x n)
    (hev : ∀ x n, Nb x n → C.P.ev x n = f (C.P.move x n)) (hne : ∀ t k x, C.enum t k x ≠ [])
    (ho : ExplorerOk C.A.cmp C.P C.explore) (hp : Progress C.A.cmp C.P C.explore)
    (hs : ∀ t arch, (∀ x ∈ arch, x.flag ≤ 1) → (∃ x ∈ arch, x.flag ≠ 1) →
      ∃ i ∈ C.select t arch, ∃ x, arch[i]? = some x ∧ x.flag ≠ 1)
    (vals : List V) (hvals : ∀ x, f x ∈ vals) :
    ∀ fuel t (arch : List (Ind S V)), Inv C.A C.P f Nb arch → (∃ x ∈ arch, x.flag ≠ 1) →
      phi C.A.cmp vals arch < fuel → ∃ a, loop C fuel t arch = some a := by
  intro fuel
  induction fuel with
  | zero => intro t arch _ _ h; exact absurd h (by simp)
  | succ fuel ih =>
    intro t arch hI hu h
    have hlt := (phi_iterate C hov hA hr f Nb he hev hne ho hp vals hvals t hI).2
      (hs t arch hI.mid.flag hu)
    unfold loop
    simp only
    split
    · rename_i hb
      apply ih (t + 1) _ (inv_iterate C hov hA f Nb he hev ho t hI) _ (by omega)
      rw [Bool.and_eq_true, natural, List.any_eq_true] at hb
      obtain ⟨x, hx, hf⟩ := hb.2
      exact ⟨x, hx, by simpa using hf⟩
    · exact ⟨_, rfl⟩

/-- `iterate` computed structurally. -/
def iterateC (C : Cfg S V N) (t : Nat) (arch : List (Ind S V)) : List (Ind S V) :=
  let r := explorePop C t 0 (C.select t arch) arch []
  (updatePopC C.A r.1 r.2).1

theorem iterate_eq_c (C : Cfg S V N) : iterate C = iterateC C := by
  funext t arch
  unfold iterate iterateC
  rw [updatePop_eq_c]

/-- `loop` computed structurally. -/
def loopC (C : Cfg S V N) : Nat → Nat → List (Ind S V) → Option (List (Ind S V))
  | 0, _, _ => none
  | fuel + 1, t, arch =>
    let arch' := iterateC C t arch
    if C.cont t arch' && natural arch' then loopC C fuel (t + 1) arch' else some arch'

theorem loop_eq_c (C : Cfg S V N) : ∀ fuel t arch, loop C fuel t arch = loopC C fuel t arch := by
  intro fuel
  induction fuel with
  | zero => intro t arch; rfl
  | succ fuel ih => intro t arch; unfold loop loopC; rw [iterate_eq_c]; simp only [ih]

/-- `dmls` computed structurally. -/
def dmlsC (C : Cfg S V N) (fuel : Nat) (arch pop : List (Ind S V)) : Option (List (Ind S V)) :=
  loopC C fuel 0 (updatePopC C.A arch pop).1

theorem dmls_eq_c (C : Cfg S V N) (fuel : Nat) (arch pop : List (Ind S V)) :
    dmls C fuel arch pop = dmlsC C fuel arch pop := by
  unfold dmls dmlsC; rw [updatePop_eq_c, loop_eq_c]

end Dmls
end Paradiseo.Moeo
