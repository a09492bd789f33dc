/-
Property C391: what only compares objective vectors by dominance does not change when each objective is
transformed by an increasing function, or by a decreasing one with its direction reversed.
-/
import Verif.Model.MoeoDMLS
import Verif.Model.MoeoEA
import Verif.Model.MoeoFitness
import Mathlib.Data.Fin.VecNotation
import Mathlib.Order.Monotone.Basic
import Mathlib.Tactic.NormNum
import Mathlib.Tactic.FinCases
import Mathlib.Data.Fintype.Basic
import Mathlib.Algebra.Order.Ring.Rat
import Mathlib.Tactic.Linarith

namespace Paradiseo.Moeo

/-! ### The transformation of the objectives -/

/-- Each objective, on the values `R i` that occur, is regraded increasingly if it keeps its direction and
decreasingly if it changes it, and two values are told apart after it iff they are before. -/
structure Regrade {n : Nat} {F : Type} [Field F] [LinearOrder F] (T T' : Traits n F) (R : Fin n → Set F)
    (φ : Fin n → F → F) : Prop where
  keep : ∀ i, T'.minimizing i = T.minimizing i → StrictMonoOn (φ i) (R i)
  turn : ∀ i, T'.minimizing i ≠ T.minimizing i → StrictAntiOn (φ i) (R i)
  apart : ∀ i, ∀ a ∈ R i, ∀ b ∈ R i, |φ i a - φ i b| > T'.tol ↔ |a - b| > T.tol

/-- The regraded objective vector. -/
def regrade {n : Nat} {F : Type} (φ : Fin n → F → F) (v : Fin n → F) : Fin n → F := fun i => φ i (v i)

section
variable {n : Nat} {F : Type} [Field F] [LinearOrder F]

/-- The two branches of the comparators see the same. -/
theorem Regrade.sides {T T' : Traits n F} {R : Fin n → Set F} {φ : Fin n → F → F} (h : Regrade T T' R φ) (i : Fin n) {a b : F}
    (ha : a ∈ R i) (hb : b ∈ R i) :
    (T'.minimizing i = T.minimizing i ∧ (φ i a < φ i b ↔ a < b) ∧ (φ i b < φ i a ↔ b < a)) ∨
    (T'.minimizing i = !T.minimizing i ∧ (φ i a < φ i b ↔ b < a) ∧ (φ i b < φ i a ↔ a < b)) := by
  by_cases hd : T'.minimizing i = T.minimizing i
  · exact .inl ⟨hd, (h.keep i hd).lt_iff_lt ha hb, (h.keep i hd).lt_iff_lt hb ha⟩
  · refine .inr ⟨?_, (h.turn i hd).lt_iff_gt ha hb, (h.turn i hd).lt_iff_gt hb ha⟩
    cases h1 : T'.minimizing i <;> cases h2 : T.minimizing i <;> simp_all

theorem paretoLoop_regrade {T T' : Traits n F} {R : Fin n → Set F} {φ : Fin n → F → F} (h : Regrade T T' R φ) {u v : Fin n → F}
    (hu : ∀ i, u i ∈ R i) (hv : ∀ i, v i ∈ R i) : ∀ (l : List (Fin n)) (d : Bool),
    paretoLoop T' (regrade φ u) (regrade φ v) l d = paretoLoop T u v l d
  | [], d => rfl
  | i :: l, d => by
    simp only [paretoLoop, regrade, h.apart i _ (hu i) _ (hv i)]
    have ih := paretoLoop_regrade h hu hv l
    rcases h.sides i (hu i) (hv i) with ⟨h1, h2, h3⟩ | ⟨h1, h2, h3⟩ <;>
      cases hm : T.minimizing i <;> simp [h1, hm, h2, h3, ih, gt_iff_lt]

theorem weakLoop_regrade {T T' : Traits n F} {R : Fin n → Set F} {φ : Fin n → F → F} (h : Regrade T T' R φ) {u v : Fin n → F}
    (hu : ∀ i, u i ∈ R i) (hv : ∀ i, v i ∈ R i) : ∀ (l : List (Fin n)),
    weakLoop T' (regrade φ u) (regrade φ v) l = weakLoop T u v l
  | [] => rfl
  | i :: l => by
    simp only [weakLoop, regrade, h.apart i _ (hu i) _ (hv i)]
    have ih := weakLoop_regrade h hu hv l
    rcases h.sides i (hu i) (hv i) with ⟨h1, h2, h3⟩ | ⟨h1, h2, h3⟩ <;>
      cases hm : T.minimizing i <;> simp [h1, hm, h2, h3, ih, gt_iff_lt]

theorem eqLoop_regrade {T T' : Traits n F} {R : Fin n → Set F} {φ : Fin n → F → F} (h : Regrade T T' R φ) {u v : Fin n → F}
    (hu : ∀ i, u i ∈ R i) (hv : ∀ i, v i ∈ R i) : ∀ (l : List (Fin n)),
    eqLoop T' (regrade φ u) (regrade φ v) l = eqLoop T u v l
  | [] => rfl
  | i :: l => by
    simp only [eqLoop, regrade, h.apart i _ (hu i) _ (hv i)]
    have ih := eqLoop_regrade h hu hv l
    rw [ih]

/-- **C391**: dominance, weak dominance and equality of objective vectors are those of the regraded vectors. -/
theorem C391_comparators {T T' : Traits n F} {R : Fin n → Set F} {φ : Fin n → F → F} (h : Regrade T T' R φ) {u v : Fin n → F}
    (hu : ∀ i, u i ∈ R i) (hv : ∀ i, v i ∈ R i) :
    paretoCmp T' (regrade φ u) (regrade φ v) = paretoCmp T u v ∧
    weakCmp T' (regrade φ u) (regrade φ v) = weakCmp T u v ∧
    eqCmp T' (regrade φ u) (regrade φ v) = eqCmp T u v :=
  ⟨paretoLoop_regrade h hu hv _ _, weakLoop_regrade h hu hv _, eqLoop_regrade h hu hv _⟩

/-- Without tolerance every increasing function will do, with a reversed direction every decreasing one. -/
theorem C391_no_tolerance [IsStrictOrderedRing F] {T T' : Traits n F} (h0 : T.tol = 0) (h0' : T'.tol = 0) {R : Fin n → Set F}
    {φ : Fin n → F → F} (hk : ∀ i, T'.minimizing i = T.minimizing i → StrictMonoOn (φ i) (R i))
    (ht : ∀ i, T'.minimizing i ≠ T.minimizing i → StrictAntiOn (φ i) (R i)) : Regrade T T' R φ := by
  refine ⟨hk, ht, fun i a ha b hb => ?_⟩
  rw [h0, h0', gt_iff_lt, gt_iff_lt, abs_pos, abs_pos, sub_ne_zero, sub_ne_zero]
  by_cases hd : T'.minimizing i = T.minimizing i
  · exact ((hk i hd).injOn.eq_iff ha hb).not
  · exact ((ht i hd).injOn.eq_iff ha hb).not

/-- With a tolerance, changing the sign of objectives together with their directions, or shifting them, will do. -/
theorem C391_sign_shift [IsStrictOrderedRing F] (T : Traits n F) (s : Fin n → Bool) (c : Fin n → F) :
    Regrade T ⟨fun i => T.minimizing i ^^ s i, T.tol⟩ (fun _ => Set.univ)
      (fun i a => if s i then c i - a else c i + a) := by
  refine ⟨fun i hi => ?_, fun i hi => ?_, fun i a _ b _ => ?_⟩
  · have : s i = false := by cases hs : s i <;> simp_all
    intro a _ b _ hab
    simpa [this] using hab
  · have : s i = true := by cases hs : s i <;> simp_all
    intro a _ b _ hab
    simpa [this] using hab
  · cases s i
    · simp
    · simp [abs_sub_comm]
end

/-- Three objectives, the second maximised, regraded by a cube, a change of sign and a shift. -/
example : Regrade (⟨![true, false, true], 0⟩ : Traits 3 ℚ) ⟨![true, true, true], 0⟩
    (fun _ => {a | 0 ≤ a}) ![fun a => a ^ 3, fun a => -a, fun a => a + 5] := by
  refine C391_no_tolerance rfl rfl (fun i hi => ?_) (fun i hi => ?_)
  · fin_cases i
    · intro a ha b hb hab
      exact pow_lt_pow_left₀ (n := 3) hab ha (by norm_num)
    · exact absurd hi (by decide)
    · intro a ha b hb hab
      exact add_lt_add_left hab (5 : ℚ)
  · fin_cases i
    · exact absurd hi (by decide)
    · intro a ha b hb hab
      exact neg_lt_neg (α := ℚ) hab
    · exact absurd hi (by decide)

/-- **C391**, and no more: with a tolerance, expressing an objective in a unit ten times as large (an increasing
function) can make dominated vectors equal. -/
theorem C391_not_unit :
    let T : Traits 1 ℚ := ⟨![true], 1⟩
    paretoCmp T ![5] ![0] = true ∧ paretoCmp T (regrade ![fun a => a / 10] ![5]) (regrade ![fun a => a / 10] ![0]) = false ∧
    eqCmp T (regrade ![fun a => a / 10] ![5]) (regrade ![fun a => a / 10] ![0]) = true := by
  decide +kernel

/-- The lexicographic order of objective vectors, used to sort and as `operator<`, ignores the direction: a change of
sign with a change of direction reverses it. -/
theorem C391_not_lex :
    lexCmp (⟨![true], 0⟩ : Traits 1 ℚ) ![1] ![2] = true ∧
    lexCmp (⟨![false], 0⟩ : Traits 1 ℚ) (regrade ![fun a => -a] ![1]) (regrade ![fun a => -a] ![2]) = false := by
  decide +kernel

/-- The archive whose comparator is relaxed by a factor depends on the origin of the objectives. -/
theorem C391_not_eps :
    let T : Traits 1 ℚ := ⟨![true], 0⟩
    epsCmp T 2 ![3] ![1] = true ∧ epsCmp T 2 (regrade ![fun a => a + 3] ![3]) (regrade ![fun a => a + 3] ![1]) = false := by
  decide +kernel

/-! ### Archives, ranks and local searches -/

section
variable {X V V' : Type}

/-- The archive built with the transformed vectors. -/
def ArchCfg.via (A : ArchCfg X V) (g : V → V') (cmp' eqv' : V' → V' → Bool) : ArchCfg X V' :=
  ⟨fun x => g (A.ov x), cmp', eqv', A.replace⟩

/-- **C391**: every archive ends with the same individuals, and gives the same answers. -/
theorem C391_archive (A : ArchCfg X V) {g : V → V'} {cmp' eqv' : V' → V' → Bool}
    (hc : ∀ x y, cmp' (g (A.ov x)) (g (A.ov y)) = A.cmp (A.ov x) (A.ov y))
    (he : ∀ x y, eqv' (g (A.ov x)) (g (A.ov y)) = A.eqv (A.ov x) (A.ov y)) (arch pop : List X) :
    updatePop (A.via g cmp' eqv') arch pop = updatePop A arch pop ∧
    ∀ m, imprUpdatePop (A.via g cmp' eqv') m arch pop = imprUpdatePop A m arch pop := by
  have hb : (A.via g cmp' eqv').beaten = A.beaten := by
    funext m x; simp [ArchCfg.beaten, ArchCfg.via, hc, he]
  have hb' : (A.via g cmp' eqv').blocks = A.blocks := by
    funext m x; simp [ArchCfg.blocks, ArchCfg.via, hc, he]
  constructor
  · unfold updatePop update
    rw [hb, hb']
  · intro m
    unfold imprUpdatePop imprUpdate
    rw [hb, hb']

/-- **C391**: the ranks of the non-dominated sorting, and the counts and ranks of the dominance matrix with or
without copies, are the same. -/
theorem C391_ranks {cmp eqv : V → V → Bool} {g : V → V'} {cmp' eqv' : V' → V' → Bool} (hc : ∀ a b, cmp' (g a) (g b) = cmp a b)
    (he : ∀ a b, eqv' (g a) (g b) = eqv a b) (vs : List V) :
    Ea.ranks cmp' (vs.map g) = Ea.ranks cmp vs ∧
    ∀ (ov : Nat → V) (nocopy : Bool) (N : Nat) (cs : List Nat),
      dmRun (fun p q => cmp' (g (ov q)) (g (ov p))) (fun p q => eqv' (g (ov p)) (g (ov q))) nocopy N cs =
      dmRun (fun p q => cmp (ov q) (ov p)) (fun p q => eqv (ov p) (ov q)) nocopy N cs := by
  have hd : Ea.domAt cmp' (vs.map g) = Ea.domAt cmp vs := by
    funext p q
    simp only [Ea.domAt, List.getElem?_map]
    cases vs[p]? <;> cases vs[q]? <;> simp [hc]
  constructor
  · simp only [Ea.ranks, hd, List.length_map]
  · intro ov nocopy N cs
    simp only [hc, he]

end

namespace Dmls
variable {S V V' N : Type}

/-- An individual, a problem and a configured search with transformed objective vectors. -/
def mapInd (g : V → V') (x : Ind S V) : Ind S V' := ⟨x.sol, g x.ov, x.flag⟩
def mapProb (g : V → V') (P : Prob S V N) : Prob S V' N := ⟨P.move, fun s n => g (P.ev s n)⟩

/-- The explorer does the same on the transformed vectors. -/
def SameExplore (g : V → V') (P : Prob S V N) (e : Prob S V N → Ind S V → List N → Explored S V)
    (e' : Prob S V' N → Ind S V' → List N → Explored S V') : Prop :=
  ∀ src ns, e' (mapProb g P) (mapInd g src) ns = ((e P src ns).1.map (mapInd g), mapInd g (e P src ns).2)

theorem child_map (g : V → V') (P : Prob S V N) (src : Ind S V) (n : N) :
    child (mapProb g P) (mapInd g src) n = mapInd g (child P src n) := rfl

theorem exhaustive_same (g : V → V') (P : Prob S V N) : SameExplore g P exhaustive exhaustive := by
  intro src ns
  cases ns with
  | nil => rfl
  | cons a l =>
    have : child (mapProb g P) (mapInd g src) = mapInd g ∘ child P src := rfl
    simp only [exhaustive, this, List.map_map]
    rfl

theorem simpleSub_same (g : V → V') (P : Prob S V N) (k : Nat) : SameExplore g P (simpleSub k) (simpleSub k) := by
  intro src ns
  cases ns with
  | nil => rfl
  | cons a l =>
    by_cases hk : k = 0
    · simp [simpleSub, hk]
    · have : child (mapProb g P) (mapInd g src) = mapInd g ∘ child P src := rfl
      simp only [simpleSub, hk, if_false, List.map_map, this]
      split_ifs <;> rfl

theorem firstImproving_same {cmp : V → V → Bool} {cmp' : V' → V' → Bool} {g : V → V'} (hc : ∀ a b, cmp' (g a) (g b) = cmp a b)
    (P : Prob S V N) : SameExplore g P (firstImproving cmp) (firstImproving cmp') := by
  have key : ∀ src ns, firstLoop cmp' (mapProb g P) (mapInd g src) ns =
      ((firstLoop cmp P src ns).1.map (mapInd g), (firstLoop cmp P src ns).2) := by
    intro src ns
    induction ns with
    | nil => rfl
    | cons a l ih =>
      simp only [firstLoop, ih, child_map]
      simp only [mapProb, mapInd, hc]
      split_ifs <;> simp [mapInd]
  intro src ns
  cases ns with
  | nil => rfl
  | cons a l =>
    simp only [firstImproving, key]
    split_ifs <;> rfl

theorem noDesimproving_same {cmp : V → V → Bool} {cmp' : V' → V' → Bool} {g : V → V'} (hc : ∀ a b, cmp' (g a) (g b) = cmp a b)
    (P : Prob S V N) : SameExplore g P (noDesimproving cmp) (noDesimproving cmp') := by
  have key : ∀ src ns, noDesLoop cmp' (mapProb g P) (mapInd g src) ns =
      ((noDesLoop cmp P src ns).1.map (mapInd g), (noDesLoop cmp P src ns).2) := by
    intro src ns
    induction ns with
    | nil => rfl
    | cons a l ih =>
      simp only [noDesLoop, ih, child_map]
      simp only [mapProb, mapInd, hc]
      split_ifs <;> simp [mapInd]
  intro src ns
  cases ns with
  | nil => rfl
  | cons a l =>
    simp only [noDesimproving, key]
    split_ifs <;> rfl

/-- The removal loop of the archive under a map. -/
theorem removeLoop_map {X Y : Type} (m : X → Y) {bad : X → Bool} {bad' : Y → Bool} (h : ∀ x, bad' (m x) = bad x) :
    ∀ (arr : List X) (j : Nat), removeLoop bad' (arr.map m) j = (removeLoop bad arr j).map m := by
  intro arr j
  induction arr, j using removeLoop.induct bad with
  | case1 arr j hj hb ih =>
    have e : ((arr.map m).set j ((arr.map m).getLast (by intro h'; simp at h'; simp [h'] at hj))).dropLast =
        ((arr.set j (arr.getLast (by intro h'; simp [h'] at hj))).dropLast).map m := by
      rw [List.map_dropLast, List.map_set, List.getLast_map]
    rw [removeLoop, dif_pos (by simpa using hj), if_pos (by rw [List.getElem_map, h, hb]), e, ih]
    conv_rhs => rw [removeLoop, dif_pos hj, if_pos hb]
  | case2 arr j hj hb ih =>
    rw [removeLoop, dif_pos (by simpa using hj), if_neg (by rw [List.getElem_map, h]; exact hb), ih]
    conv_rhs => rw [removeLoop, dif_pos hj, if_neg hb]
  | case3 arr j hj =>
    rw [removeLoop, dif_neg (by simpa using hj)]
    conv_rhs => rw [removeLoop, dif_neg hj]

theorem updatePop_map {X Y V V' : Type} (m : X → Y) {A : ArchCfg X V} {A' : ArchCfg Y V'} (hr : A'.replace = A.replace)
    (hc : ∀ x y, A'.cmp (A'.ov (m x)) (A'.ov (m y)) = A.cmp (A.ov x) (A.ov y))
    (he : ∀ x y, A'.eqv (A'.ov (m x)) (A'.ov (m y)) = A.eqv (A.ov x) (A.ov y)) (arch pop : List X) :
    (updatePop A' (arch.map m) (pop.map m)).1 = (updatePop A arch pop).1.map m := by
  have step : ∀ a x, update A' (a.map m) (m x) = ((update A a x).1.map m, (update A a x).2) := by
    intro a x
    have hb : ∀ y, A'.beaten (m x) (m y) = A.beaten x y := fun y => by simp [ArchCfg.beaten, hr, hc, he]
    have hb' : ∀ y, A'.blocks (m x) (m y) = A.blocks x y := fun y => by simp [ArchCfg.blocks, hr, hc, he]
    simp only [update, removeLoop_map m hb, List.any_map]
    have : (A'.blocks (m x)) ∘ m = A.blocks x := funext hb'
    rw [this]
    split_ifs <;> simp
  have key : ∀ (l : List X) (s : List X × Bool),
      ((l.map m).foldl (fun s x => ((update A' s.1 x).1, (update A' s.1 x).2 || s.2)) (s.1.map m, s.2)) =
      (((l.foldl (fun s x => ((update A s.1 x).1, (update A s.1 x).2 || s.2)) s).1.map m),
        (l.foldl (fun s x => ((update A s.1 x).1, (update A s.1 x).2 || s.2)) s).2) := by
    intro l
    induction l with
    | nil => intro s; rfl
    | cons x l ih =>
      intro s
      simp only [List.map_cons, List.foldl_cons, step]
      exact ih ((update A s.1 x).1, (update A s.1 x).2 || s.2)
  exact congrArg Prod.fst (key pop (arch, false))

/-- The same search on transformed vectors: same moves, same neighbours, same selection of members, same stopping
criterion, an explorer that does the same. -/
structure Same (g : V → V') (C : Cfg S V N) (C' : Cfg S V' N) : Prop where
  prob : C'.P = mapProb g C.P
  enum : C'.enum = C.enum
  replace : C'.A.replace = C.A.replace
  cmp : ∀ x y, C'.A.cmp (C'.A.ov (mapInd g x)) (C'.A.ov (mapInd g y)) = C.A.cmp (C.A.ov x) (C.A.ov y)
  eqv : ∀ x y, C'.A.eqv (C'.A.ov (mapInd g x)) (C'.A.ov (mapInd g y)) = C.A.eqv (C.A.ov x) (C.A.ov y)
  explore : SameExplore g C.P C.explore C'.explore
  select : ∀ t a, C'.select t (a.map (mapInd g)) = C.select t a
  cont : ∀ t a, C'.cont t (a.map (mapInd g)) = C.cont t a

theorem unvisited_map (g : V → V') (a : List (Ind S V)) : unvisited (a.map (mapInd g)) = unvisited a := by
  unfold unvisited
  rw [List.length_map]
  apply List.filter_congr
  intro i _
  rw [List.getElem?_map]
  cases a[i]? <;> rfl

/-- Both selections of members to explore look at the flags only. -/
theorem C391_select (g : V → V') (k : Nat) (shuffle : List Nat → List Nat) (a : List (Ind S V)) :
    unvisited (a.map (mapInd g)) = unvisited a ∧ numberUnvisited k shuffle (a.map (mapInd g)) = numberUnvisited k shuffle a := by
  simp [numberUnvisited, unvisited_map]

theorem explorePop_map {g : V → V'} {C : Cfg S V N} {C' : Cfg S V' N} (h : Same g C C') (t : Nat) :
    ∀ (is : List Nat) (k : Nat) (arch dest : List (Ind S V)),
      explorePop C' t k is (arch.map (mapInd g)) (dest.map (mapInd g)) =
        ((explorePop C t k is arch dest).1.map (mapInd g), (explorePop C t k is arch dest).2.map (mapInd g)) := by
  intro is
  induction is with
  | nil => intro k arch dest; rfl
  | cons i is ih =>
    intro k arch dest
    simp only [explorePop, List.getElem?_map]
    cases arch[i]? with
    | none => exact ih _ _ _
    | some src =>
      simp only [Option.map_some, h.prob, h.enum]
      rw [show (mapInd g src).sol = src.sol from rfl, h.explore]
      simp only [← List.map_set, ← List.map_append]
      exact ih _ _ _

/-- **C391**: Pareto local searches and all the dominance-based local searches make the same run: on the
transformed objective vectors they end, if they end, after as many iterations with the same archive. -/
theorem C391_dmls {g : V → V'} {C : Cfg S V N} {C' : Cfg S V' N} (h : Same g C C') (fuel : Nat) (arch pop : List (Ind S V)) :
    dmls C' fuel (arch.map (mapInd g)) (pop.map (mapInd g)) = (dmls C fuel arch pop).map (List.map (mapInd g)) := by
  have hit : ∀ t a, iterate C' t (a.map (mapInd g)) = (iterate C t a).map (mapInd g) := by
    intro t a
    have := explorePop_map h t (C.select t a) 0 a []
    rw [List.map_nil] at this
    simp only [iterate, h.select, this]
    exact updatePop_map _ h.replace h.cmp h.eqv _ _
  have hn : ∀ a : List (Ind S V), natural (a.map (mapInd g)) = natural a := by
    intro a
    simp only [natural, List.any_map]
    rfl
  have hl : ∀ fuel t a, loop C' fuel t (a.map (mapInd g)) = (loop C fuel t a).map (List.map (mapInd g)) := by
    intro fuel
    induction fuel with
    | zero => intro t a; rfl
    | succ fuel ih =>
      intro t a
      simp only [loop, hit, h.cont, hn]
      split_ifs
      · exact ih _ _
      · rfl
  unfold dmls
  rw [updatePop_map _ h.replace h.cmp h.eqv]
  exact hl _ _ _

/-- PLS2 (all members, all neighbours) on one integer variable with the objectives `x` and `(x - 2) ^ 2`, minimised, and
the same with the first objective cubed and the second maximised with the opposite sign. -/
def demo (T : Traits 2 ℚ) (ev : Int → Int → Fin 2 → ℚ) : Cfg Int (Fin 2 → ℚ) Int where
  A := ⟨(·.ov), paretoCmp T, eqCmp T, true⟩
  P := ⟨fun x d => x + d, ev⟩
  enum _ _ x := if x < 5 then [1, -1] else [-1]
  explore := exhaustive
  select _ a := unvisited a
  cont t _ := t < 10

def demoEv (x d : Int) : Fin 2 → ℚ := ![(x + d : ℚ), (x + d - 2 : ℚ) ^ 2]
def demoG : (Fin 2 → ℚ) → Fin 2 → ℚ := regrade ![fun a => a ^ 3, fun a => -a]

theorem demo_grade : Regrade (⟨![true, true], 0⟩ : Traits 2 ℚ) ⟨![true, false], 0⟩ (fun _ => Set.univ)
    ![fun a => a ^ 3, fun a => -a] := by
  refine C391_no_tolerance rfl rfl (fun i hi => ?_) (fun i hi => ?_)
  · fin_cases i
    · intro a _ b _ hab
      exact (Odd.strictMono_pow (by decide : Odd 3)) hab
    · exact absurd hi (by decide)
  · fin_cases i
    · exact absurd hi (by decide)
    · intro a _ b _ hab
      exact neg_lt_neg (α := ℚ) hab

theorem demo_same : Same demoG (demo ⟨![true, true], 0⟩ demoEv) (demo ⟨![true, false], 0⟩ fun x d => demoG (demoEv x d)) where
  prob := rfl
  enum := rfl
  replace := rfl
  cmp x y := (C391_comparators (R := fun _ => Set.univ) demo_grade (fun _ => trivial) (fun _ => trivial)).1
  eqv x y := (C391_comparators (R := fun _ => Set.univ) demo_grade (fun _ => trivial) (fun _ => trivial)).2.2
  explore := exhaustive_same _ _
  select _ a := unvisited_map _ a
  cont _ _ := rfl

/-- The second search, started from the individual 4, visits what the first visits. -/
example (fuel : Nat) : dmls (demo ⟨![true, false], 0⟩ fun x d => demoG (demoEv x d)) fuel [] [mapInd demoG ⟨4, ![4, 4], 0⟩] =
    (dmls (demo ⟨![true, true], 0⟩ demoEv) fuel [] [⟨4, ![4, 4], 0⟩]).map (List.map (mapInd demoG)) :=
  C391_dmls demo_same fuel [] [⟨4, ![4, 4], 0⟩]

end Dmls
end Paradiseo.Moeo
