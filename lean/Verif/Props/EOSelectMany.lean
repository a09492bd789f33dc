/-
C84 (selection of many), C85, C86, C87, C88, C89: selections of several individuals.
-/
import Mathlib.Tactic.IntervalCases
import Verif.Props.EOSelect
import Verif.Lemmas.EOReplacement

namespace Paradiseo.Sel

open Paradiseo.EO (Err HowMany IsSort IsNth)
open Paradiseo.Ops (rnd rd swapL)

variable {F : Type*} [Field F] [LinearOrder F] [IsStrictOrderedRing F]
variable {α G : Type} [LinearOrder G]

/-! ### Helper lemmas -/

theorem susShuffle_perm {β : Type*} (r : Nat → Nat) (i t : Nat) (l : List β) (h : i < l.length ∨ i = 0) :
    ∃ l', susShuffle r i t l = .ok l' ∧ l'.Perm l := by
  induction i generalizing t l with
  | zero => exact ⟨l, rfl, .refl _⟩
  | succ i ih =>
    have hi : i + 1 < l.length := by omega
    have hj : rnd r t (i + 2) < l.length := lt_of_lt_of_le (Ops.rnd_lt r t (by omega)) hi
    simp only [susShuffle, Ops.swapL_ok hi hj]
    obtain ⟨l', e, hp⟩ := ih (t + 1) ((l.set (i + 1) l[rnd r t (i + 2)]).set (rnd r t (i + 2)) l[i + 1])
      (by simp; omega)
    exact ⟨l', e, hp.trans (Ops.set_set_perm hi hj)⟩

theorem susSetup_perm {fits : List F} (hne : fits ≠ []) {u : F} {idx : List Nat}
    (h : susIndices fits u = .ok idx) (before : List Nat) (r : Nat → Nat) :
    ∃ l, susSetup before fits u r = .ok l ∧ l.Perm idx := by
  simp only [susSetup, hne, if_false, h]
  apply susShuffle_perm
  rcases idx with _ | ⟨a, idx⟩ <;> simp

/-- Running a selector which pops the indices. -/
theorem selectRun_sus (f : α → F) (u : F) (r : Nat → Nat) (pop : List α) (s : List Nat)
    (hs : ∀ i ∈ s, i < pop.length) :
    ∃ L, selectRun (fun s pop => susSelect s (pop.map f) u r) pop s.length s = .ok (L, []) ∧
      L.map some = s.reverse.map fun i => pop[i]? := by
  induction s using List.reverseRecOn with
  | nil => exact ⟨[], rfl, rfl⟩
  | append_singleton s i ih =>
    obtain ⟨L, e1, e2⟩ := ih fun j hj => hs j (by simp [hj])
    have hi : i < pop.length := hs i (by simp)
    have hsel : susSelect (s ++ [i]) (pop.map f) u r = .ok (i, s) := by
      simp [susSelect, hi]
    refine ⟨pop[i] :: L, ?_, ?_⟩
    · rw [show (s ++ [i]).length = s.length + 1 by simp]
      simp only [selectRun, hsel, Ops.rd_ok hi, e1]
    · simp [e2, List.getElem?_eq_getElem hi]

theorem eval_all (n : Nat) : (HowMany.mk 1 0).eval n = .ok n := by
  simp only [HowMany.eval, if_true, one_mul]
  rw [if_neg (by rw [Int.ceil_natCast]; omega), Int.ceil_natCast]
  rfl

theorem perm_of_positions {pop L : List α} {o : List Nat} (hL : L.map some = o.map fun i => pop[i]?)
    (ho : o.Perm (List.range pop.length)) : L.Perm pop := by
  have h1 : (o.map fun i => pop[i]?).Perm ((List.range pop.length).map fun i => pop[i]?) := ho.map _
  have h2 : ((List.range pop.length).map fun i => pop[i]?) = pop.map some := by
    apply List.ext_getElem?
    intro i
    by_cases hi : i < pop.length <;> simp [hi]
  rw [← hL, h2] at h1
  exact (List.map_perm_map_iff (Option.some_injective α)).mp h1

/-! ### C84: stochastic universal sampling of a whole population -/

/-- Selecting as many as the population holds with stochastic universal sampling: the population
selected is given by a list of positions in which each position occurs its expected number of times,
rounded down or up. -/
theorem C84_select_many [FloorRing F] (f : α → F) (pop : List α) (hw : ∀ x ∈ pop, 0 ≤ f x)
    (hT : 0 < (pop.map f).sum) {u : F} (hu : 0 ≤ u) (hu1 : u < 1) (r : Nat → Nat)
    (hgp : ∀ i < pop.length, ∀ z : Int,
      (u - ((pop.map f).take (i + 1)).sum / (pop.map f).sum) * pop.length ≠ z) (before : List Nat) :
    ∃ (L : List α) (idx : List Nat),
      selectMany ⟨1, 0⟩ (fun s pop => susSetup s (pop.map f) u r)
        (fun s pop => susSelect s (pop.map f) u r) before pop = .ok (L, []) ∧
      L.map some = (idx.map fun i => pop[i]?) ∧ L.length = pop.length ∧
      ∀ (i : Nat) (x : α), pop[i]? = some x →
        (idx.count i : Int) = ⌊pop.length * f x / (pop.map f).sum⌋ ∨
        (idx.count i : Int) = ⌈pop.length * f x / (pop.map f).sum⌉ := by
  have hw' : ∀ a ∈ pop.map f, 0 ≤ a := by
    intro a ha
    obtain ⟨x, hx, rfl⟩ := List.mem_map.mp ha
    exact hw x hx
  obtain ⟨l, e1, e2, e3, e4⟩ := C84_copies hw' hT hu hu1 (by simpa using hgp)
  have hne : pop.map f ≠ [] := by intro h; rw [h] at hT; simp at hT
  obtain ⟨s, g1, g2⟩ := susSetup_perm hne e1 before r
  rw [List.length_map] at e2
  have hsl : s.length = pop.length := by rw [g2.length_eq, e2]
  obtain ⟨L, k1, k2⟩ := selectRun_sus f u r pop s fun i hi => by
    simpa using e3 i (g2.mem_iff.mp hi)
  refine ⟨L, s.reverse, ?_, k2, ?_, ?_⟩
  · simp only [selectMany, eval_all, g1, ← hsl]
    exact k1
  · have := congrArg List.length k2
    simp only [List.length_map, List.length_reverse] at this
    omega
  · intro i x hx
    have hi : i < pop.length := (List.getElem?_eq_some_iff.mp hx).1
    have hxe : pop[i] = x := (List.getElem?_eq_some_iff.mp hx).2
    have := e4 i (by simpa using hi)
    rw [List.count_reverse, g2.count_eq]
    simpa [hxe] using this

/-- Three individuals of fitness 1, 2 and 3 and the draw 1/4. -/
example : ∃ (L : List Nat) (idx : List Nat),
    selectMany ⟨1, 0⟩ (fun s pop => susSetup s (pop.map fun x : Nat => (x : ℚ)) (1 / 4) fun _ => 0)
      (fun s pop => susSelect s (pop.map fun x : Nat => (x : ℚ)) (1 / 4) fun _ => 0) [] [1, 2, 3] =
        .ok (L, []) ∧
      L.map some = (idx.map fun i => [1, 2, 3][i]?) ∧ L.length = 3 ∧
      ∀ (i : Nat) (x : Nat), [1, 2, 3][i]? = some x →
        (idx.count i : Int) = ⌊(3 : ℚ) * x / ([1, 2, 3].map fun x : Nat => (x : ℚ)).sum⌋ ∨
        (idx.count i : Int) = ⌈(3 : ℚ) * x / ([1, 2, 3].map fun x : Nat => (x : ℚ)).sum⌉ := by
  apply C84_select_many (fun x : Nat => (x : ℚ)) [1, 2, 3] (by simp) (by norm_num) (by norm_num)
    (by norm_num)
  intro i hi z h
  simp only [List.length_cons, List.length_nil] at hi
  interval_cases i <;> norm_num at h
  · have h2 : (4 * z : ℚ) = 1 := by linarith
    have h3 : 4 * z = 1 := by exact_mod_cast h2
    omega
  · have h2 : (4 * z : ℚ) = -3 := by linarith
    have h3 : 4 * z = -3 := by exact_mod_cast h2
    omega
  · have h2 : (4 * z : ℚ) = -9 := by linarith
    have h3 : 4 * z = -9 := by exact_mod_cast h2
    omega

/-- On a border the rule fails: with fitnesses 1 and 1 and the draw 0, the first individual is selected
twice and the second never, although both are expected once. -/
theorem C84_border : susIndices [(1 : ℚ), 1] 0 = .ok [0, 0] := by
  have h1 : cumulate 0 [(1 : ℚ), 1] = [1, 2] := by norm_num [cumulate]
  have h2 : upperBound [(1 : ℚ), 2] 0 = .ok 0 := by
    norm_num [upperBound, List.findIdx_cons, List.dropWhile_cons]
  simp only [susIndices, h1, List.getLast?_cons_cons, List.getLast?_singleton, zero_mul, h2,
    List.length_cons, List.length_nil]
  norm_num [susLoop, susAdvance, List.findIdx?_cons]

/-- If all the fitnesses are zero the sampling reads past the end. -/
theorem C84_all_zero (n : Nat) (u : F) (before : List Nat) (r : Nat → Nat) :
    susSetup before (List.replicate (n + 1) 0) u r = .error .ub := by
  have hne : List.replicate (n + 1) (0 : F) ≠ [] := by simp
  have hw : ∀ a ∈ List.replicate (n + 1) (0 : F), 0 ≤ a := by
    intro a ha
    rw [(List.mem_replicate.mp ha).2]
  have hsum : (List.replicate (n + 1) (0 : F)).sum = 0 := by simp
  have hidx : ((cumulate 0 (List.replicate (n + 1) (0 : F))).findIdx fun c => decide (0 < c)) =
      (cumulate 0 (List.replicate (n + 1) (0 : F))).length := by
    rw [List.findIdx_eq_length]
    intro c hc
    obtain ⟨i, hi, rfl⟩ := List.mem_iff_getElem.mp hc
    rw [cumulate_get]
    simp
  simp only [susSetup, hne, if_false, susIndices, cumulate_last hne, hsum, zero_add, mul_zero,
    upperBound_sorted (cumulate_sorted hw 0), hidx]
  simp [susLoop, susAdvance]

/-! ### C85: sequential selection -/

/-- The calls within a cycle. -/
theorem selectRun_seq (arrange : Nat → List α → Except Err (List Nat)) (pop : List α) (o : List Nat)
    (ho : o.length = pop.length) (hv : ∀ i ∈ o, i < pop.length) (c : Nat) (k i : Nat)
    (hik : i + k = pop.length) :
    ∃ L, selectRun (seqSelect arrange) pop k ⟨i, o, c⟩ = .ok (L, ⟨pop.length, o, c⟩) ∧
      L.map some = (o.drop i).map fun i => pop[i]? := by
  induction k generalizing i with
  | zero =>
    obtain rfl : i = pop.length := by omega
    exact ⟨[], rfl, by rw [List.drop_of_length_le (by omega)]; rfl⟩
  | succ k ih =>
    obtain ⟨L, e1, e2⟩ := ih (i + 1) (by omega)
    have hi : i < o.length := by omega
    have hp : o[i] < pop.length := hv _ (List.getElem_mem hi)
    have hsel : seqSelect arrange ⟨i, o, c⟩ pop = .ok (o[i], ⟨i + 1, o, c⟩) := by
      simp [seqSelect, show ¬ (pop.length ≤ i) by omega, List.getElem?_eq_getElem hi]
    refine ⟨pop[o[i]] :: L, ?_, ?_⟩
    · simp only [selectRun, hsel, Ops.rd_ok hp, e1]
    · rw [List.drop_eq_getElem_cons hi, List.map_cons, List.map_cons, e2,
        List.getElem?_eq_getElem hp]

/-- Whatever way the setup arranges the individuals, each cycle of as many calls as there are
individuals returns every individual exactly once, in the order of the arrangement. -/
theorem C85_cycles (arrange : Nat → List α → Except Err (List Nat)) (pop : List α)
    (harr : ∀ c, ∃ o, arrange c pop = .ok o ∧ o.Perm (List.range pop.length)) (s : SeqState)
    (hs : pop.length ≤ s.current) (k : Nat) :
    ∃ (Ls : List (List α)) (s' : SeqState),
      selectRun (seqSelect arrange) pop (k * pop.length) s = .ok (Ls.flatten, s') ∧
      Ls.length = k ∧ pop.length ≤ s'.current ∧
      ∀ L ∈ Ls, L.Perm pop ∧ ∃ c o, arrange c pop = .ok o ∧ L.map some = o.map fun i => pop[i]? := by
  have hsplit : ∀ (a b : Nat) (s : SeqState) (L : List α) (s1 : SeqState),
      selectRun (seqSelect arrange) pop a s = .ok (L, s1) → ∀ M s2,
      selectRun (seqSelect arrange) pop b s1 = .ok (M, s2) →
      selectRun (seqSelect arrange) pop (a + b) s = .ok (L ++ M, s2) := by
    intro a
    induction a with
    | zero =>
      intro b s L s1 h M s2 h2
      simp only [selectRun, Except.ok.injEq, Prod.mk.injEq] at h
      obtain ⟨rfl, rfl⟩ := h
      simpa using h2
    | succ a ih =>
      intro b s L s1 h M s2 h2
      simp only [selectRun] at h
      rw [show a + 1 + b = a + b + 1 by omega]
      simp only [selectRun]
      split at h
      · simp at h
      · rename_i p s' hsel
        split at h
        · simp at h
        · rename_i x hx
          split at h
          · simp at h
          · rename_i L' s'' hrun
            simp only [Except.ok.injEq, Prod.mk.injEq] at h
            obtain ⟨rfl, rfl⟩ := h
            simp only [hsel, hx, ih b s' L' s'' hrun M s2 h2, List.cons_append]
  induction k generalizing s with
  | zero =>
    exact ⟨[], s, by simp [selectRun], rfl, hs, by simp⟩
  | succ k ih =>
    obtain ⟨o, ho, hperm⟩ := harr s.cycle
    have hlen : o.length = pop.length := by simpa using hperm.length_eq
    have hv : ∀ i ∈ o, i < pop.length := fun i hi => by simpa using hperm.mem_iff.mp hi
    obtain ⟨L, e1, e2⟩ := selectRun_seq arrange pop o hlen hv (s.cycle + 1) pop.length 0 (by omega)
    rw [List.drop_zero] at e2
    have hcyc : ∃ s1 : SeqState, pop.length ≤ s1.current ∧
        selectRun (seqSelect arrange) pop pop.length s = .ok (L, s1) := by
      by_cases h0 : pop.length = 0
      · have hL : L = [] := by
          have := congrArg List.length e2
          simp only [List.length_map] at this
          exact List.length_eq_zero_iff.mp (by omega)
        exact ⟨s, hs, by rw [h0, hL]; rfl⟩
      · refine ⟨⟨pop.length, o, s.cycle + 1⟩, le_rfl, ?_⟩
        rw [← e1]
        obtain ⟨m, hm⟩ := Nat.exists_eq_succ_of_ne_zero h0
        have : seqSelect arrange s pop = seqSelect arrange ⟨0, o, s.cycle + 1⟩ pop := by
          have h0' : ¬ (pop.length ≤ 0) := by omega
          simp only [seqSelect, hs, if_true, ho, Except.map, h0', if_false]
        generalize hk : pop.length = n at hm ⊢
        subst hm
        simp only [Nat.succ_eq_add_one, selectRun, this]
    obtain ⟨s1, hs1, hrun⟩ := hcyc
    obtain ⟨Ls, s', f1, f2, f3, f4⟩ := ih s1 hs1
    refine ⟨L :: Ls, s', ?_, by simp [f2], f3, ?_⟩
    · rw [show (k + 1) * pop.length = pop.length + k * pop.length by ring]
      simpa using hsplit _ _ _ _ _ hrun _ _ f1
    · intro M hM
      rcases List.mem_cons.mp hM with rfl | hM
      · exact ⟨perm_of_positions e2 hperm, s.cycle, o, ho, e2⟩
      · exact f4 M hM

/-- The new selector starts a cycle at its first call, for a population of less than 2^32 individuals;
if the individuals are ordered, each cycle runs from the best to the worst. -/
theorem C85_ordered (f : α → G) (sortIdx : List α → List Nat) (pop : List α)
    (hsz : pop.length < 2 ^ 32) (hp : (sortIdx pop).Perm (List.range pop.length))
    (hsort : (sortIdx pop).Pairwise fun i j => ∀ x y, pop[i]? = some x → pop[j]? = some y → f y ≤ f x)
    (k : Nat) :
    ∃ (Ls : List (List α)) (s' : SeqState),
      selectRun (seqSelect fun _ p => .ok (sortIdx p)) pop (k * pop.length) seqInit =
        .ok (Ls.flatten, s') ∧
      Ls.length = k ∧ ∀ L ∈ Ls, L.Perm pop ∧ L.Pairwise fun x y => f y ≤ f x := by
  obtain ⟨Ls, s', h1, h2, _, h4⟩ := C85_cycles (fun _ p => .ok (sortIdx p)) pop
    (fun c => ⟨sortIdx pop, rfl, hp⟩) seqInit (by simp only [seqInit]; omega) k
  refine ⟨Ls, s', h1, h2, fun L hL => ?_⟩
  obtain ⟨hperm, c, o, ho, hm⟩ := h4 L hL
  simp only [Except.ok.injEq] at ho
  subst ho
  refine ⟨hperm, ?_⟩
  have h5 : (L.map some).Pairwise fun a b => ∀ x y, a = some x → b = some y → f y ≤ f x := by
    rw [hm, List.pairwise_map]
    exact hsort
  rw [List.pairwise_map] at h5
  exact h5.imp fun h => h _ _ rfl rfl

/-- The order of [1, 3, 2]: positions 1, 2, 0. -/
example : ∃ (Ls : List (List Nat)) (s' : SeqState),
    selectRun (seqSelect fun _ _ => .ok [1, 2, 0]) [1, 3, 2] (4 * 3) seqInit = .ok (Ls.flatten, s') ∧
      Ls.length = 4 ∧ ∀ L ∈ Ls, L.Perm [1, 3, 2] ∧ L.Pairwise fun x y => id y ≤ id x :=
  C85_ordered id (fun _ => [1, 2, 0]) [1, 3, 2] (by simp) (by decide) (by simp) 4

/-- The scan finds a best position of the whole arrangement. -/
theorem eliteScan_spec (f : α → G) (pop : List α) (L : List Nat) (hv : ∀ i ∈ L, i < pop.length)
    (l : List Nat) (i ib b : Nat) (hl : L.drop i = l) (hb : L[ib]? = some b)
    (hbest : ∀ p ∈ L.take i, ∀ x y, pop[p]? = some x → pop[b]? = some y → f x ≤ f y) :
    ∃ ib' b', eliteScan f pop l i ib b = .ok (ib', b') ∧ L[ib']? = some b' ∧
      ∀ p ∈ L, ∀ x y, pop[p]? = some x → pop[b']? = some y → f x ≤ f y := by
  induction l generalizing i ib b with
  | nil =>
    refine ⟨ib, b, rfl, hb, ?_⟩
    have : L.take i = L := by
      have h := List.take_append_drop i L
      rw [hl, List.append_nil] at h
      exact h
    rwa [this] at hbest
  | cons p l ih =>
    have hi : i < L.length := by
      by_contra h
      rw [List.drop_of_length_le (by omega)] at hl
      simp at hl
    rw [List.drop_eq_getElem_cons hi] at hl
    injection hl with hp hl
    have hpv : p < pop.length := hv p (hp ▸ List.getElem_mem hi)
    have hbv : b < pop.length := hv b (List.mem_of_getElem? hb)
    have htake : L.take (i + 1) = L.take i ++ [p] := by
      rw [List.take_succ_eq_append_getElem hi, hp]
    simp only [eliteScan, Ops.rd_ok hpv, Ops.rd_ok hbv]
    by_cases hlt : f pop[b] < f pop[p]
    · simp only [hlt, if_true]
      apply ih (i + 1) i p hl (by rw [List.getElem?_eq_getElem hi, hp])
      intro q hq x y hx hy
      rw [List.getElem?_eq_getElem hpv, Option.some.injEq] at hy
      subst hy
      rw [htake, List.mem_append, List.mem_singleton] at hq
      rcases hq with hq | rfl
      · exact (hbest q hq x pop[b] hx (List.getElem?_eq_getElem hbv)).trans hlt.le
      · rw [List.getElem?_eq_getElem hpv, Option.some.injEq] at hx
        rw [hx]
    · simp only [hlt, if_false]
      apply ih (i + 1) ib b hl hb
      intro q hq x y hx hy
      rw [htake, List.mem_append, List.mem_singleton] at hq
      rcases hq with hq | rfl
      · exact hbest q hq x y hx hy
      · rw [List.getElem?_eq_getElem hpv, Option.some.injEq] at hx
        rw [List.getElem?_eq_getElem hbv, Option.some.injEq] at hy
        subst hx hy
        exact le_of_not_gt hlt

/-- The elitist variant: the setup puts a best individual first and keeps all the others, so that (by
`C85_cycles`) each cycle returns everybody once and a best individual first. It refuses a population of
one individual. -/
theorem C85_elitist (f : α → G) (pop : List α) (shuffled : List Nat)
    (hp : shuffled.Perm (List.range pop.length)) :
    (2 ≤ pop.length → ∃ b o, eliteArrange f shuffled pop = .ok (b :: o) ∧
      (b :: o).Perm (List.range pop.length) ∧
      ∃ y, pop[b]? = some y ∧ ∀ x ∈ pop, f x ≤ f y) ∧
    (pop.length = 1 → eliteArrange f shuffled pop = .error .thrown) ∧
    (pop.length = 0 → eliteArrange f shuffled pop = .error .ub) := by
  have hlen : shuffled.length = pop.length := by simpa using hp.length_eq
  have hv : ∀ i ∈ shuffled, i < pop.length := fun i hi => by simpa using hp.mem_iff.mp hi
  refine ⟨fun h2 => ?_, fun h1 => ?_, fun h0 => ?_⟩
  · cases hsh : shuffled with
    | nil => rw [hsh] at hlen; simp at hlen; omega
    | cons p0 l =>
      rw [hsh] at hlen hv hp
      have hp0 : p0 < pop.length := hv p0 (by simp)
      obtain ⟨ib, b, e1, e2, e3⟩ := eliteScan_spec f pop (p0 :: l) hv l 1 0 p0 rfl rfl (by
        intro p hpm x y hx hy
        simp only [List.take_succ_cons, List.take_zero, List.mem_singleton] at hpm
        subst hpm
        rw [hx, Option.some.injEq] at hy
        rw [hy])
      have hib : ib < (p0 :: l).length := (List.getElem?_eq_some_iff.mp e2).1
      have hb : (p0 :: l)[ib] = b := (List.getElem?_eq_some_iff.mp e2).2
      have hres : eliteArrange f (p0 :: l) pop = .ok (((p0 :: l).set 0 b).set ib p0) := by
        simp only [eliteArrange, show ¬ (pop.length = 1) by omega, if_false, e1]
      have hperm : (((p0 :: l).set 0 b).set ib p0).Perm (p0 :: l) := by
        have := Ops.set_set_perm (l := p0 :: l) (i := 0) (j := ib) (by simp) hib
        rw [hb] at this
        exact this
      have hhead : (((p0 :: l).set 0 b).set ib p0)[0]? = some b := by
        cases ib with
        | zero =>
          simp only [List.getElem_cons_zero] at hb
          subst hb
          simp
        | succ ib => simp
      cases hfin : ((p0 :: l).set 0 b).set ib p0 with
      | nil => rw [hfin] at hhead; simp at hhead
      | cons c o =>
        rw [hfin] at hhead hperm
        simp only [List.getElem?_cons_zero, Option.some.injEq] at hhead
        subst hhead
        have hbv : c < pop.length := hv c (List.mem_of_getElem? e2)
        refine ⟨c, o, by rw [hres, hfin], hperm.trans hp, pop[c], List.getElem?_eq_getElem hbv, ?_⟩
        intro x hx
        obtain ⟨i, hi, rfl⟩ := List.mem_iff_getElem.mp hx
        exact e3 i (hp.mem_iff.mpr (by simpa using hi)) _ _ (List.getElem?_eq_getElem hi)
          (List.getElem?_eq_getElem hbv)
  · cases hsh : shuffled with
    | nil => rw [hsh] at hlen; simp at hlen; omega
    | cons p0 l => simp [eliteArrange, h1]
  · cases hsh : shuffled with
    | nil => rfl
    | cons p0 l => rw [hsh] at hlen; simp at hlen; omega

example : ∃ b o, eliteArrange id [2, 0, 1] [5, 9, 7] = .ok (b :: o) ∧
    (b :: o).Perm (List.range 3) ∧ ∃ y, [5, 9, 7][b]? = some y ∧ ∀ x ∈ [5, 9, 7], id x ≤ id y :=
  (C85_elitist id [5, 9, 7] [2, 0, 1] (by decide)).1 (by simp)

/-! ### C86: elite selection -/

/-- Elite selection returns the individual at the first place of the population. -/
theorem C86_first (x : α) (pop : List α) : eliteSelect (x :: pop) = .ok 0 := by
  simp [eliteSelect]

/-- So it returns the best of a population sorted from the best to the worst. -/
theorem C86_sorted_best (f : α → G) (pop : List α) (hne : pop ≠ [])
    (hs : pop.Pairwise fun x y => f y ≤ f x) :
    ∃ i y, eliteSelect pop = .ok i ∧ pop[i]? = some y ∧ ∀ x ∈ pop, f x ≤ f y := by
  cases pop with
  | nil => exact absurd rfl hne
  | cons y pop =>
    refine ⟨0, y, C86_first y pop, rfl, fun x hx => ?_⟩
    rcases List.mem_cons.mp hx with rfl | hx
    · exact le_rfl
    · exact (List.pairwise_cons.mp hs).1 x hx

/-- But it does not return the best of a population whose best is not at the first place. -/
theorem C86_not_best (f : α → G) (x y : α) (pop : List α) (hy : y ∈ pop) (h : f x < f y) :
    ∃ i z, eliteSelect (x :: pop) = .ok i ∧ (x :: pop)[i]? = some z ∧ ∃ b ∈ x :: pop, f z < f b :=
  ⟨0, x, C86_first x pop, rfl, y, by simp [hy], h⟩

example : ∃ i z, eliteSelect [1, 2] = .ok i ∧ [1, 2][i]? = some z ∧ ∃ b ∈ [1, 2], id z < id b :=
  C86_not_best id 1 2 [2] (by simp) (by decide)

/-! ### C87: deterministic selection -/

theorem flatten_replicate_get (l : List α) (k j : Nat) (hj : j < k * l.length) :
    (List.replicate k l).flatten[j]? = l[j % l.length]? := by
  induction k generalizing j with
  | zero => simp at hj
  | succ k ih =>
    rw [List.replicate_succ, List.flatten_cons, List.getElem?_append]
    by_cases h : j < l.length
    · rw [if_pos h, Nat.mod_eq_of_lt h]
    · rw [if_neg h, ih (j - l.length) (by rw [Nat.add_mul, Nat.one_mul] at hj; omega),
        Nat.mod_eq_sub_mod (a := j) (by omega)]

/-- Deterministic selection repeats the source cyclically up to the number wanted (at least one). -/
theorem C87_cyclic (h : HowMany) (source : List α) (k : Nat) (hk : h.eval source.length = .ok k)
    (hne : source ≠ []) :
    ∃ dest, detSelect h source = .ok dest ∧ dest.length = max k 1 ∧
      ∀ j < max k 1, dest[j]? = source[j % source.length]? := by
  have hn : 0 < source.length := List.length_pos_iff.mpr hne
  have ht : (if k = 0 then 1 else k) = max k 1 := by split <;> omega
  simp only [detSelect, hk, ht, hn.ne', if_false]
  generalize hm : max k 1 = m
  have hdm := Nat.div_add_mod m source.length
  have hmod := Nat.mod_lt m hn
  have hfl : (if source.length ≤ m then (List.replicate (m / source.length) source).flatten else []) =
      (List.replicate (m / source.length) source).flatten := by
    split
    · rfl
    · rw [Nat.div_eq_of_lt (by omega)]; rfl
  rw [hfl]
  have hlen : (List.replicate (m / source.length) source).flatten.length =
      m / source.length * source.length := by simp
  refine ⟨_, rfl, ?_, fun j hj => ?_⟩
  · rw [List.length_append, hlen, List.length_take, min_eq_left hmod.le, Nat.mul_comm]
    exact hdm
  · rw [List.getElem?_append, hlen]
    split
    · rename_i h1
      exact flatten_replicate_get _ _ _ h1
    · rename_i h1
      have hlt : j - m / source.length * source.length < m % source.length := by
        rw [Nat.mul_comm] at h1 ⊢
        omega
      rw [List.getElem?_take, if_pos hlt]
      congr 1
      have : j = (j - m / source.length * source.length) + source.length * (m / source.length) := by
        rw [Nat.mul_comm] at h1 ⊢
        omega
      conv_rhs => rw [this]
      rw [Nat.add_mul_mod_self_left, Nat.mod_eq_of_lt (by omega)]

example : ∃ dest, detSelect ⟨0, 7⟩ [1, 2, 3] = .ok dest ∧ dest.length = max 7 1 ∧
    ∀ j < max 7 1, dest[j]? = [1, 2, 3][j % 3]? :=
  C87_cyclic ⟨0, 7⟩ [1, 2, 3] 7 rfl (by simp)

/-- An empty source divides by zero. -/
theorem C87_empty (h : HowMany) (k : Nat) (hk : h.eval 0 = .ok k) :
    detSelect h ([] : List α) = .error .ub := by
  simp [detSelect, hk]

/-- Selecting the `mu` best ones gives exactly those, from the best to the worst. -/
theorem C87_rank_mu (f : α → G) {sort : List α → List α} (hs : IsSort f sort) (mu : Nat)
    (source : List α) (h0 : 0 < mu) (hmu : mu ≤ source.length) :
    ∃ dest rest, rankMuSelect sort mu source = .ok dest ∧ dest.length = mu ∧
      (dest ++ rest).Perm source ∧ (dest.Pairwise fun x y => f y ≤ f x) ∧
      ∀ x ∈ dest, ∀ y ∈ rest, f y ≤ f x := by
  have hlen := (hs.perm source).length_eq
  have hk : (HowMany.mk 0 mu).eval (sort source).length = .ok mu := by
    simp [HowMany.eval, show ¬ (mu = 0) by omega, show ¬ ((mu : Int) < 0) by omega]
  obtain ⟨dest, e1, e2, e3⟩ := C87_cyclic ⟨0, mu⟩ (sort source) mu hk (by
    intro h; rw [h] at hlen; simp at hlen; omega)
  have hm : max mu 1 = mu := by omega
  rw [hm] at e2 e3
  have hdest : dest = (sort source).take mu := by
    apply List.ext_getElem?
    intro j
    by_cases hj : j < mu
    · rw [e3 j hj, List.getElem?_take, if_pos hj, Nat.mod_eq_of_lt (by omega)]
    · rw [List.getElem?_eq_none (by omega), List.getElem?_take, if_neg hj]
  have hsorted := hs.sorted source
  refine ⟨dest, (sort source).drop mu, e1, e2, ?_, ?_, ?_⟩
  · rw [hdest, List.take_append_drop]; exact hs.perm source
  · rw [hdest]; exact hsorted.sublist (List.take_sublist _ _)
  · rw [← List.take_append_drop mu (sort source), List.pairwise_append] at hsorted
    rw [hdest]
    exact hsorted.2.2

/-! ### C88: truncated selections -/

/-- The individuals offered to the inner selector are exactly the wanted number of best ones. -/
theorem C88_fertile (f : α → G) {nth : Nat → List α → List α} (hn : IsNth f nth) (h : HowMany)
    (source : List α) (k : Nat) (hk : h.eval source.length = .ok k) :
    (k ≤ source.length → ∃ kept rest, truncSelectOnePop nth h source = .ok kept ∧ kept.length = k ∧
      (kept ++ rest).Perm source ∧ ∀ x ∈ kept, ∀ y ∈ rest, f y ≤ f x) ∧
    (source.length < k → truncSelectOnePop nth h source = .error .ub) := by
  simp only [truncSelectOnePop, hk]
  constructor
  · intro hle
    by_cases he : k = source.length
    · exact ⟨source, [], by rw [if_pos he], he.symm, by simp, by simp⟩
    · have hlen := (hn.perm k source).length_eq
      refine ⟨(nth k source).take k, (nth k source).drop k, ?_, ?_, ?_, hn.split k source⟩
      · rw [if_neg he, if_neg (by omega)]
      · rw [List.length_take]; omega
      · rw [List.take_append_drop]; exact hn.perm k source
  · intro hlt
    rw [if_neg (by omega), if_pos hlt]

/-- The same for the selection of many, where everything selected is one of the best ones. -/
theorem C88_select_many (f : α → G) {sort shuffle : List α → List α} (hs : IsSort f sort)
    (hsh : ∀ l, (shuffle l).Perm l) (dflt : α) (hG hF : HowMany) {σ : Type}
    (setup : σ → List α → Except Err σ) (select : σ → List α → Except Err (Nat × σ)) (s : σ)
    (source : List α) (k : Nat) (hk : hF.eval source.length = .ok k) (hle : k ≤ source.length)
    (L : List α) (s' : σ)
    (hrun : truncSelectMany sort shuffle dflt hG hF setup select s source = .ok (L, s')) :
    ∃ kept rest : List α, kept.length = k ∧ (kept ++ rest).Perm source ∧
      (∀ x ∈ kept, ∀ y ∈ rest, f y ≤ f x) ∧ (∀ x ∈ L, x ∈ kept) ∧
      hG.eval source.length = .ok L.length := by
  have hmem : ∀ (tmp : List α) (n : Nat) (s : σ) (L : List α) (s' : σ),
      selectRun select tmp n s = .ok (L, s') → L.length = n ∧ ∀ x ∈ L, x ∈ tmp := by
    intro tmp n
    induction n with
    | zero =>
      intro s L s' h
      simp only [selectRun, Except.ok.injEq, Prod.mk.injEq] at h
      obtain ⟨rfl, _⟩ := h
      simp
    | succ n ih =>
      intro s L s' h
      simp only [selectRun] at h
      split at h
      · simp at h
      · split at h
        · simp at h
        · rename_i x hx
          split at h
          · simp at h
          · rename_i L' s'' hr
            simp only [Except.ok.injEq, Prod.mk.injEq] at h
            obtain ⟨rfl, rfl⟩ := h
            obtain ⟨h1, h2⟩ := ih _ _ _ hr
            refine ⟨by simp [h1], fun y hy => ?_⟩
            rcases List.mem_cons.mp hy with rfl | hy
            · exact List.mem_of_getElem? (Ops.rd_ok_iff.mp hx)
            · exact h2 y hy
  unfold truncSelectMany at hrun
  split at hrun
  · simp at hrun
  · rename_i g hg
    simp only [truncSelectManyPop, hk] at hrun
    by_cases he : k = source.length
    · simp only [he, if_true] at hrun
      split at hrun
      · simp at hrun
      · obtain ⟨h1, h2⟩ := hmem _ _ _ _ _ hrun
        exact ⟨source, [], he.symm, by simp, by simp, h2, by rw [hg, h1]⟩
    · simp only [he, if_false] at hrun
      have hlen := (hs.perm source).length_eq
      have hrep : k - source.length = 0 := by omega
      rw [hrep, List.replicate_zero, List.append_nil] at hrun
      split at hrun
      · simp at hrun
      · obtain ⟨h1, h2⟩ := hmem _ _ _ _ _ hrun
        refine ⟨(sort source).take k, (sort source).drop k, ?_, ?_, ?_, ?_, by rw [hg, h1]⟩
        · rw [List.length_take]; omega
        · rw [List.take_append_drop]; exact hs.perm source
        · have := hs.sorted source
          rw [← List.take_append_drop k (sort source), List.pairwise_append] at this
          exact this.2.2
        · intro x hx
          exact (hsh _).mem_iff.mp (h2 x hx)

/-- If more fertile individuals are asked for than there are, default individuals, which are not in the
population, are offered to the selector. -/
theorem C88_default_individuals {sort shuffle : List α → List α}
    (hsh : ∀ l, (shuffle l).Perm l) (dflt : α) (h : HowMany) (source : List α) (k : Nat)
    (hk : h.eval source.length = .ok k) (hlt : source.length < k) :
    ∃ tmp, truncSelectManyPop sort shuffle dflt h source = .ok tmp ∧ dflt ∈ tmp := by
  refine ⟨shuffle ((sort source).take k ++ List.replicate (k - source.length) dflt), ?_, ?_⟩
  · simp only [truncSelectManyPop, hk, show k ≠ source.length by omega, if_false]
  · rw [(hsh _).mem_iff, List.mem_append]
    right
    exact List.mem_replicate.mpr ⟨by omega, rfl⟩

/-! ### C89: selecting a given number -/

/-- Whatever the selector, eoSelectMany and eoSelectNumber return the number of individuals asked for,
all from the source, or fail. -/
theorem C89_size_and_members {σ : Type} (h : HowMany) (k : Nat) (setup : σ → List α → Except Err σ)
    (select : σ → List α → Except Err (Nat × σ)) (s s' : σ) (pop L : List α) :
    (selectMany h setup select s pop = .ok (L, s') →
      h.eval pop.length = .ok L.length ∧ ∀ x ∈ L, x ∈ pop) ∧
    (selectNumber k setup select s pop = .ok (L, s') → L.length = k ∧ ∀ x ∈ L, x ∈ pop) := by
  have hmem : ∀ (n : Nat) (s : σ) (L : List α) (s' : σ),
      selectRun select pop n s = .ok (L, s') → L.length = n ∧ ∀ x ∈ L, x ∈ pop := by
    intro n
    induction n with
    | zero =>
      intro s L s' h
      simp only [selectRun, Except.ok.injEq, Prod.mk.injEq] at h
      obtain ⟨rfl, _⟩ := h
      simp
    | succ n ih =>
      intro s L s' h
      simp only [selectRun] at h
      split at h
      · simp at h
      · split at h
        · simp at h
        · rename_i x hx
          split at h
          · simp at h
          · rename_i L' s'' hr
            simp only [Except.ok.injEq, Prod.mk.injEq] at h
            obtain ⟨rfl, rfl⟩ := h
            obtain ⟨h1, h2⟩ := ih _ _ _ hr
            refine ⟨by simp [h1], fun y hy => ?_⟩
            rcases List.mem_cons.mp hy with rfl | hy
            · exact List.mem_of_getElem? (Ops.rd_ok_iff.mp hx)
            · exact h2 y hy
  constructor
  · intro hr
    unfold selectMany at hr
    split at hr
    · simp at hr
    · rename_i g hg
      split at hr
      · simp at hr
      · obtain ⟨h1, h2⟩ := hmem _ _ _ _ hr
        exact ⟨by rw [hg, h1], h2⟩
  · intro hr
    unfold selectNumber at hr
    split at hr
    · simp at hr
    · exact hmem _ _ _ _ hr

end Paradiseo.Sel
