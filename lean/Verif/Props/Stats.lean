import Verif.Lemmas.Stats
/-
Property C166: best, n-th element, quartiles.
Property C167: average, deviation, correlation with the distance.
Property C168: distances and diversity.
-/
namespace Paradiseo.Stat

/-! ## C166: order statistics -/

section Order
variable {F : Type}

/-- What `std::nth_element` guarantees for the comparison `lt`: the same elements, with nothing above the `k`-th before
it and nothing below it after it. -/
def NthSpec (lt : F → F → Bool) (nth : List F → Nat → List F) : Prop :=
  ∀ l k, k < l.length → (nth l k).Perm l ∧ ∀ v, (nth l k)[k]? = some v →
    (∀ i x, i < k → (nth l k)[i]? = some x → lt v x = false) ∧
    (∀ i x, k < i → (nth l k)[i]? = some x → lt x v = false)

/-- `v` is an element with exactly the rank `k`: at most `k` elements are below it and at most `n - 1 - k` above it. -/
def HasRank (lt : F → F → Bool) (l : List F) (k : Nat) (v : F) : Prop :=
  v ∈ l ∧ l.countP (fun x => lt x v) ≤ k ∧ l.countP (fun x => lt v x) + k + 1 ≤ l.length

theorem split_at {l : List F} {k : Nat} {v : F} (h : l[k]? = some v) : l = l.take k ++ v :: l.drop (k + 1) := by
  obtain ⟨hk, e⟩ := List.getElem?_eq_some_iff.1 h
  subst e
  rw [List.cons_getElem_drop_succ, List.take_append_drop]

theorem nth_rank {lt : F → F → Bool} (h : SWO lt) {nth : List F → Nat → List F} (hn : NthSpec lt nth) {l : List F}
    {k : Nat} (hk : k < l.length) : ∃ v, (nth l k)[k]? = some v ∧ HasRank lt l k v := by
  obtain ⟨hp, hv⟩ := hn l k hk
  have hlen := hp.length_eq
  have hk' : k < (nth l k).length := by omega
  refine ⟨_, List.getElem?_eq_getElem hk', ?_⟩
  set v := (nth l k)[k] with hvdef
  have he : (nth l k)[k]? = some v := List.getElem?_eq_getElem hk'
  obtain ⟨h1, h2⟩ := hv v he
  have hs := split_at he
  have before : ∀ x ∈ (nth l k).take k, lt v x = false := by
    intro x hx
    obtain ⟨i, hi, e⟩ := List.mem_iff_getElem.1 hx
    simp only [List.length_take] at hi
    refine h1 i x (by omega) ?_
    rw [← e, List.getElem_take, List.getElem?_eq_getElem]
  have after : ∀ x ∈ (nth l k).drop (k + 1), lt x v = false := by
    intro x hx
    obtain ⟨i, hi, e⟩ := List.mem_iff_getElem.1 hx
    simp only [List.length_drop] at hi
    refine h2 (k + 1 + i) x (by omega) ?_
    rw [← e, List.getElem_drop, List.getElem?_eq_getElem]
  refine ⟨hp.mem_iff.1 (List.getElem_mem hk'), ?_, ?_⟩
  · rw [← hp.countP_eq, hs, List.countP_append, List.countP_cons]
    have e1 : (List.drop (k + 1) (nth l k)).countP (fun x => lt x v) = 0 :=
      List.countP_eq_zero.2 (fun x hx => by simp [after x hx])
    have e2 : (List.take k (nth l k)).countP (fun x => lt x v) ≤ k :=
      le_trans (List.countP_le_length) (by simp)
    rw [e1, h.irrefl v]
    simpa using e2
  · rw [← hp.countP_eq, hs, List.countP_append, List.countP_cons]
    have e1 : (List.take k (nth l k)).countP (fun x => lt v x) = 0 :=
      List.countP_eq_zero.2 (fun x hx => by simp [before x hx])
    have e2 : (List.drop (k + 1) (nth l k)).countP (fun x => lt v x) ≤ l.length - (k + 1) :=
      le_trans (List.countP_le_length) (by simp [hlen])
    rw [e1, h.irrefl v]
    simp only [Bool.false_eq_true, if_false]
    omega

/-- Elements of increasing ranks are not in decreasing order. -/
theorem rank_mono {lt : F → F → Bool} (h : SWO lt) {l : List F} {i j : Nat} (hij : i ≤ j) {v w : F}
    (hv : HasRank lt l i v) (hw : HasRank lt l j w) : lt w v = false := by
  by_contra hc
  have hc' : lt w v = true := by simpa using hc
  -- whatever is not above `w` is below `v`
  have hsub : l.countP (fun x => !lt w x) ≤ l.countP (fun x => lt x v) := by
    apply List.countP_mono_left
    intro x _ hx
    by_contra hxv
    have h1 : lt w x = false := by simpa using hx
    have h2 : lt x v = false := by simpa using hxv
    rw [h.negtrans w x v h1 h2] at hc'
    cases hc'
  have hadd := List.length_eq_countP_add_countP (p := fun x => lt w x) (l := l)
  have e : l.countP (fun x => !lt w x) = l.countP (fun a => decide ¬ lt w a = true) := by
    congr 1; funext a; cases lt w a <;> rfl
  have h1 := hv.2.1
  have h2 := hw.2.2
  omega

theorem nthSpec_sort : NthSpec (fun a b : Nat => decide (a < b)) (fun l _ => l.mergeSort (fun a b => decide (a ≤ b))) := by
  intro l k hk
  refine ⟨List.mergeSort_perm _ _, ?_⟩
  intro v hv
  have hs : (l.mergeSort (fun a b => decide (a ≤ b))).Pairwise (fun a b => decide (a ≤ b) = true) :=
    List.pairwise_mergeSort (by intro a b c; simp; omega) (by intro a b; simp; omega) l
  have hget := List.pairwise_iff_getElem.1 hs
  obtain ⟨h1, e1⟩ := List.getElem?_eq_some_iff.1 hv
  constructor
  · intro i x hi hx
    obtain ⟨h2, e2⟩ := List.getElem?_eq_some_iff.1 hx
    have := hget i k h2 h1 hi
    rw [e1, e2] at this
    simp at this ⊢; exact this
  · intro i x hi hx
    obtain ⟨h2, e2⟩ := List.getElem?_eq_some_iff.1 hx
    have := hget k i h1 h2 hi
    rw [e1, e2] at this
    simp at this ⊢; exact this

theorem swo_nat : SWO (fun a b : Nat => decide (a < b)) :=
  ⟨by simp, by intro a b c; simp; omega, by intro a b c; simp; omega⟩

theorem swo_lt : SWO (fun a b : ℝ => decide (a < b)) :=
  ⟨by simp, by intro a b c; simp only [decide_eq_true_eq]; exact lt_trans,
   by intro a b c; simp only [decide_eq_false_iff_not, not_lt]; intro h1 h2; exact h2.trans h1⟩

theorem swo_gt : SWO (fun a b : ℝ => decide (b < a)) :=
  ⟨by simp, by intro a b c; simp only [decide_eq_true_eq]; intro h1 h2; exact h2.trans h1,
   by intro a b c; simp only [decide_eq_false_iff_not, not_lt]; exact le_trans⟩

/-- **C166** The element at a position: it has that rank, counted from the worst, and the population is only copied. A
position that does not exist stops the program, and so does an empty population, whatever the position: the test that
should leave the value unchanged comes after the assertion. -/
theorem C166_nth_position {lt : F → F → Bool} (h : SWO lt) {nth : List F → Nat → List F} (hn : NthSpec lt nth)
    (k : Nat) (pop : List F) :
    (k < pop.length → ∃ v, nthElementStat nth (.position k) pop = .value v ∧ HasRank lt pop k v) ∧
    (pop.length ≤ k → nthElementStat nth (.position k) pop = .assertion) := by
  constructor
  · intro hk
    obtain ⟨v, e, hr⟩ := nth_rank h hn hk
    refine ⟨v, ?_, hr⟩
    simp only [nthElementStat, ratioOk, whichIndex, if_true, if_pos hk, e]
  · intro hk
    unfold nthElementStat
    rw [if_pos (show ratioOk (.position k) = true from rfl)]
    exact if_neg (not_lt.2 hk)

/-- **C166** The element at a ratio below one always exists: it has the rank `floor (n r)`. The ratio one, which the
assertion on the ratio accepts, stops the program on every population. -/
theorem C166_nth_ratio {lt : F → F → Bool} (h : SWO lt) {nth : List F → Nat → List F} (hn : NthSpec lt nth)
    (r : ℚ) (pop : List F) :
    (0 ≤ r → r < 1 → pop ≠ [] → ∃ v k, nthElementStat nth (.ratio r) pop = .value v ∧ HasRank lt pop k v ∧
      (k : ℚ) ≤ pop.length * r ∧ pop.length * r < k + 1) ∧
    nthElementStat nth (.ratio 1) pop = .assertion ∧
    nthElementStat nth (.ratio r) [] = .assertion := by
  refine ⟨?_, ?_, ?_⟩
  · intro h0 h1 hne
    have hpos : 0 < pop.length := List.length_pos_iff.2 hne
    have hposQ : (0 : ℚ) < pop.length := by exact_mod_cast hpos
    have hnn : (0 : ℚ) ≤ pop.length * r := mul_nonneg hposQ.le h0
    have hfl : 0 ≤ ⌊(pop.length : ℚ) * r⌋ := Int.floor_nonneg.2 hnn
    have hcast : ((⌊(pop.length : ℚ) * r⌋.toNat : ℕ) : ℚ) = (⌊(pop.length : ℚ) * r⌋ : ℚ) := by
      have : ((⌊(pop.length : ℚ) * r⌋.toNat : ℕ) : ℤ) = ⌊(pop.length : ℚ) * r⌋ := Int.toNat_of_nonneg hfl
      exact_mod_cast this
    have hk : ⌊(pop.length : ℚ) * r⌋.toNat < pop.length := by
      have h2 : ((⌊(pop.length : ℚ) * r⌋.toNat : ℕ) : ℚ) < pop.length := by
        rw [hcast]
        exact lt_of_le_of_lt (Int.floor_le _) (by nlinarith)
      exact_mod_cast h2
    obtain ⟨v, e, hr⟩ := nth_rank h hn hk
    refine ⟨v, _, ?_, hr, ?_, ?_⟩
    · simp only [nthElementStat, ratioOk, whichIndex, decide_eq_true h0, decide_eq_true h1.le, Bool.and_self, if_true,
        if_pos hk, e]
    · rw [hcast]; exact Int.floor_le _
    · rw [hcast]; exact Int.lt_floor_add_one _
  · simp [nthElementStat, whichIndex]
  · simp [nthElementStat]

example : nthElementStat (fun l _ => l.mergeSort (fun a b => decide (a ≤ b))) (.ratio (1 / 2)) [5, 3, 9, 1] =
    .value 5 := by
  obtain ⟨v, k, e, hr, h1, h2⟩ := (C166_nth_ratio swo_nat nthSpec_sort (1 / 2) [5, 3, 9, 1]).1 (by norm_num)
    (by norm_num) (by simp)
  rw [e]
  have hk : k = 2 := by
    have a : (k : ℚ) ≤ 2 := by simp at h1; linarith
    have b : (2 : ℚ) < k + 1 := by simp at h2; linarith
    have a' : k ≤ 2 := by exact_mod_cast a
    have b' : 2 < k + 1 := by exact_mod_cast b
    omega
  subst hk
  obtain ⟨hm, h3, h4⟩ := hr
  simp only [List.mem_cons, List.not_mem_nil, or_false] at hm
  rcases hm with rfl | rfl | rfl | rfl
  · rfl
  · revert h4; decide
  · revert h3; decide
  · revert h4; decide

/-- **C166** The quartiles exist for every population that is not empty, have the ranks `n / 4` and `3 (n / 4)` counted
from the worst, and the third is not worse than the first. -/
theorem C166_quartiles {lt : F → F → Bool} (h : SWO lt) {nth : List F → Nat → List F} (hn : NthSpec lt nth)
    {pop : List F} (hne : pop ≠ []) :
    ∃ q1 q3, quartiles nth pop = .value (q1, q3) ∧ HasRank lt pop (pop.length / 4) q1 ∧
      HasRank lt pop (3 * (pop.length / 4)) q3 ∧ lt q3 q1 = false := by
  have hpos : 0 < pop.length := List.length_pos_iff.2 hne
  have hk1 : pop.length / 4 * 1 < pop.length := by omega
  obtain ⟨q1, e1, r1⟩ := nth_rank h hn hk1
  have hp := (hn pop _ hk1).1
  have hk3 : pop.length / 4 * 3 < (nth pop (pop.length / 4 * 1)).length := by rw [hp.length_eq]; omega
  obtain ⟨q3, e3, r3⟩ := nth_rank h hn hk3
  have r3' : HasRank lt pop (3 * (pop.length / 4)) q3 := by
    obtain ⟨a, b, c⟩ := r3
    rw [hp.countP_eq] at b c
    rw [hp.length_eq] at c
    exact ⟨hp.mem_iff.1 a, by omega, by omega⟩
  rw [Nat.mul_one] at r1
  refine ⟨q1, q3, ?_, r1, r3', rank_mono h (by omega) r1 r3'⟩
  unfold quartiles
  rw [if_neg (by omega)]
  rw [Nat.mul_one] at e1 e3
  simp only [Nat.mul_one, e1, e3]

/-- **C166** The interquartile range of a population to maximise is not negative. -/
theorem C166_range_maximise {nth : List ℝ → Nat → List ℝ} (hn : NthSpec (fun a b => decide (a < b)) nth)
    {pop : List ℝ} (hne : pop ≠ []) : ∃ r, interquartile nth pop = .value r ∧ 0 ≤ r := by
  obtain ⟨q1, q3, e, _, _, h⟩ := C166_quartiles swo_lt hn hne
  refine ⟨q3 - q1, by unfold interquartile; rw [e], ?_⟩
  simp only [decide_eq_false_iff_not, not_lt] at h
  linarith

/-- **C166** (defect) The interquartile range of a population to minimise is never positive: the quartiles are counted
from the worst, that is from the largest, and the range is negative as soon as they differ. -/
theorem C166_range_minimise {nth : List ℝ → Nat → List ℝ} (hn : NthSpec (fun a b => decide (b < a)) nth)
    {pop : List ℝ} (hne : pop ≠ []) : ∃ q1 q3, quartiles nth pop = .value (q1, q3) ∧
      interquartile nth pop = .value (q3 - q1) ∧ q3 - q1 ≤ 0 ∧ (q1 ≠ q3 → q3 - q1 < 0) := by
  obtain ⟨q1, q3, e, _, _, h⟩ := C166_quartiles swo_gt hn hne
  refine ⟨q1, q3, e, by unfold interquartile; rw [e], ?_, ?_⟩
  · simp only [decide_eq_false_iff_not, not_lt] at h
    linarith
  · intro hne'
    simp only [decide_eq_false_iff_not, not_lt] at h
    have : q3 < q1 := lt_of_le_of_ne h (fun e => hne' e.symm)
    linarith

/-- **C166** The fitness at a position of the population sorted from the best: at most that many are better. -/
theorem C166_nth_best {lt : F → F → Bool} (h : SWO lt) {sorted : List F}
    (hs : sorted.Pairwise (fun a b => lt a b = false)) {k : Nat} (hk : k < sorted.length) :
    ∃ v ∈ sorted, nthFitness k sorted = .value v ∧ sorted.countP (fun x => lt v x) ≤ k := by
  have e : sorted[k]? = some sorted[k] := List.getElem?_eq_getElem hk
  refine ⟨sorted[k], List.getElem_mem hk, ?_, ?_⟩
  · unfold nthFitness; rw [if_neg (by omega), e]
  · set v := sorted[k]
    have hsp := split_at e
    rw [hsp, List.countP_append, List.countP_cons, h.irrefl v]
    have e1 : (sorted.drop (k + 1)).countP (fun x => lt v x) = 0 := by
      apply List.countP_eq_zero.2
      intro x hx
      obtain ⟨i, hi, rfl⟩ := List.mem_iff_getElem.1 hx
      simp only [List.length_drop] at hi
      rw [List.getElem_drop]
      have := List.pairwise_iff_getElem.1 hs k (k + 1 + i) hk (by omega) (by omega)
      simp only [v, this, Bool.false_eq_true, not_false_eq_true]
    have e2 : (sorted.take k).countP (fun x => lt v x) ≤ k := le_trans (List.countP_le_length) (by simp)
    rw [e1]
    simpa using e2

/-- **C166** (defect) The test on the position is one too lenient: the position equal to the size of the population is
read out of bounds instead of raising the exception. -/
theorem C166_nth_best_range (sorted : List F) (k : Nat) :
    (nthFitness k sorted = .thrown ↔ sorted.length < k) ∧
    (nthFitness k sorted = .outOfBounds ↔ k = sorted.length) := by
  unfold nthFitness
  by_cases h : sorted.length < k
  · rw [if_pos h]
    refine ⟨by simp [h], ?_⟩
    constructor
    · intro h; cases h
    · intro h'; omega
  · rw [if_neg h]
    by_cases h' : k < sorted.length
    · rw [List.getElem?_eq_getElem h']
      exact ⟨⟨fun e => by simp at e, fun hh => absurd hh h⟩, ⟨fun e => by simp at e, fun hh => by omega⟩⟩
    · rw [List.getElem?_eq_none (by omega)]
      exact ⟨⟨fun e => by simp at e, fun hh => absurd hh h⟩, ⟨fun _ => by omega, fun _ => rfl⟩⟩

/-- **C166** The best individual kept over the generations: after any sequence of populations it is an individual of
one of them and no individual of any of them is better. -/
theorem C166_best_so_far {lt : F → F → Bool} (h : SWO lt) (pops : List (List F)) (hne : ∀ p ∈ pops, p ≠ []) :
    (pops = [] ∧ pops.foldl (bestSoFar lt) none = none) ∨
    ∃ b, pops.foldl (bestSoFar lt) none = some b ∧ (∃ p ∈ pops, b ∈ p) ∧ ∀ p ∈ pops, ∀ x ∈ p, lt b x = false := by
  have key : ∀ (pops : List (List F)), (∀ p ∈ pops, p ≠ []) → ∀ v : F, ∃ b,
      pops.foldl (bestSoFar lt) (some v) = some b ∧ (b = v ∨ ∃ p ∈ pops, b ∈ p) ∧ lt b v = false ∧
      ∀ p ∈ pops, ∀ x ∈ p, lt b x = false := by
    intro pops
    induction pops with
    | nil => intro _ v; exact ⟨v, rfl, Or.inl rfl, h.irrefl v, by simp⟩
    | cons p ps ih =>
      intro hne v
      obtain ⟨c, hc, e, hmax⟩ := bestOf_spec h (hne p (by simp))
      have hps : ∀ q ∈ ps, q ≠ [] := fun q hq => hne q (by simp [hq])
      rw [List.foldl_cons]
      by_cases hl : lt v c = true
      · have e' : bestSoFar lt (some v) p = some c := by unfold bestSoFar; rw [e]; simp [hl]
        rw [e']
        obtain ⟨b, hb, hm, hbc, hall⟩ := ih hps c
        refine ⟨b, hb, ?_, ?_, ?_⟩
        · right
          rcases hm with rfl | ⟨q, hq, hbq⟩
          · exact ⟨p, by simp, hc⟩
          · exact ⟨q, by simp [hq], hbq⟩
        · by_contra hbv
          have := h.trans b v c (by simpa using hbv) hl
          rw [hbc] at this; cases this
        · intro q hq x hx
          rcases List.mem_cons.1 hq with rfl | hq
          · exact h.negtrans b c x hbc (hmax x hx)
          · exact hall q hq x hx
      · have e' : bestSoFar lt (some v) p = some v := by unfold bestSoFar; rw [e]; simp [hl]
        rw [e']
        obtain ⟨b, hb, hm, hbv, hall⟩ := ih hps v
        refine ⟨b, hb, ?_, hbv, ?_⟩
        · rcases hm with rfl | ⟨q, hq, hbq⟩
          · exact Or.inl rfl
          · exact Or.inr ⟨q, by simp [hq], hbq⟩
        · intro q hq x hx
          rcases List.mem_cons.1 hq with rfl | hq
          · exact h.negtrans b v x hbv (h.negtrans v c x (by simpa using hl) (hmax x hx))
          · exact hall q hq x hx
  match pops, hne with
  | [], _ => exact Or.inl ⟨rfl, rfl⟩
  | p :: ps, hne =>
    right
    obtain ⟨c, hc, e, hmax⟩ := bestOf_spec h (hne p (by simp))
    have e' : bestSoFar lt none p = some c := by unfold bestSoFar; rw [e]
    rw [List.foldl_cons, e']
    obtain ⟨b, hb, hm, hbc, hall⟩ := key ps (fun q hq => hne q (by simp [hq])) c
    refine ⟨b, hb, ?_, ?_⟩
    · rcases hm with rfl | ⟨q, hq, hbq⟩
      · exact ⟨p, by simp, hc⟩
      · exact ⟨q, by simp [hq], hbq⟩
    · intro q hq x hx
      rcases List.mem_cons.1 hq with rfl | hq
      · exact h.negtrans b c x hbc (hmax x hx)
      · exact hall q hq x hx

example : [[3, 1], [7, 2], [7, 5]].foldl (bestSoFar (fun a b : Nat => decide (a < b))) none = some 7 := by decide

/-- **C166** The individual kept changes only for a strictly better one: of equally good ones the first met stays. -/
theorem C166_kept (lt : F → F → Bool) (v : F) (p : List F) :
    bestSoFar lt (some v) p = some v ∨ ∃ b, bestOf lt p = some b ∧ lt v b = true ∧ bestSoFar lt (some v) p = some b := by
  unfold bestSoFar
  cases bestOf lt p with
  | none => exact Or.inl rfl
  | some b =>
    by_cases hl : lt v b = true
    · right; exact ⟨b, rfl, hl, by simp [hl]⟩
    · left; simp [hl]

/-- **C166** (defect) A dump of more individuals than there are reads out of bounds; otherwise it shows the first ones,
all of them for zero. -/
theorem C166_dump (n : Nat) (pop : List F) :
    (0 < n → n ≤ pop.length → popDump n pop = .value (pop.take n)) ∧ popDump 0 pop = .value pop ∧
    (pop.length < n → popDump n pop = .outOfBounds) := by
  refine ⟨?_, ?_, ?_⟩
  · intro h0 h
    simp only [popDump, if_pos (show n ≠ 0 by omega), if_pos h]
  · simp [popDump]
  · intro h
    simp only [popDump, if_pos (show n ≠ 0 by omega), if_neg (not_le.2 h)]

end Order

/-! ## C167: moments and correlation -/

/-- **C167** The average: `n` times it is the sum, and it lies between any bounds of the fitnesses. Of an empty
population it is not a number. -/
theorem C167_average (pop : List ℝ) :
    (pop = [] → average pop = .nan) ∧
    (pop ≠ [] → ∃ m, average pop = .value m ∧ m * pop.length = pop.sum ∧
      ∀ a b, (∀ x ∈ pop, a ≤ x ∧ x ≤ b) → a ≤ m ∧ m ≤ b) := by
  constructor
  · rintro rfl; simp [average]
  · intro hne
    have hpos : 0 < pop.length := List.length_pos_iff.2 hne
    have hposR : (0 : ℝ) < pop.length := by exact_mod_cast hpos
    refine ⟨pop.sum / pop.length, ?_, by field_simp, ?_⟩
    · unfold average; rw [foldl_add, if_neg (by omega)]
    · intro a b h
      rw [le_div_iff₀ hposR, div_le_iff₀ hposR]
      have h1 := List.card_nsmul_le_sum pop a (fun x hx => (h x hx).1)
      have h2 := List.sum_le_card_nsmul pop b (fun x hx => (h x hx).2)
      simp only [nsmul_eq_mul] at h1 h2
      constructor <;> linarith

example : ∃ m, average [1, 2, 6] = .value m ∧ m * 3 = 9 := by
  obtain ⟨m, e, h, _⟩ := (C167_average [1, 2, 6]).2 (by simp)
  exact ⟨m, e, by simp at h; linarith⟩

/-- **C167** Average and deviation of at least two individuals: the root is always taken of a number that is not
negative, the deviation is the one of a sample (the squared deviations over `n - 1`), and it is zero exactly when all
fitnesses are equal. Of one individual, or none, they are not numbers. -/
theorem C167_deviation (pop : List ℝ) :
    (pop.length ≤ 1 → secondMoment pop = .nan) ∧
    (2 ≤ pop.length → ∃ m s, secondMoment pop = .value (m, s) ∧ m * pop.length = pop.sum ∧ 0 ≤ s ∧
      s * s * (pop.length - 1) = (pop.map fun x => (x - m) * (x - m)).sum ∧
      (s = 0 ↔ ∀ x ∈ pop, ∀ y ∈ pop, x = y)) := by
  constructor
  · intro h
    unfold secondMoment
    rcases (show pop.length = 0 ∨ pop.length = 1 by omega) with e | e
    · simp [e]
    · simp [e]
  · intro h
    have hR : (2 : ℝ) ≤ pop.length := by exact_mod_cast h
    have hn0 : (pop.length : ℝ) ≠ 0 := by linarith
    have hn1 : (0 : ℝ) < (pop.length : ℝ) - 1 := by linarith
    set m := pop.sum / pop.length with hm
    have hms : m * pop.length = pop.sum := by rw [hm]; field_simp
    have hdev := sum_dev pop m
    have hrad : (pop.map fun x => x * x).sum - pop.length * m * m = (pop.map fun x => (x - m) * (x - m)).sum := by
      rw [hdev, ← hms]; ring
    have hnn := sum_sq_nonneg pop (fun x => x - m)
    have hq : 0 ≤ (pop.map fun x => (x - m) * (x - m)).sum / ((pop.length : ℝ) - 1) := div_nonneg hnn hn1.le
    refine ⟨m, Real.sqrt ((pop.map fun x => (x - m) * (x - m)).sum / (pop.length - 1)), ?_, hms, Real.sqrt_nonneg _,
      ?_, ?_⟩
    · simp only [secondMoment]
      rw [foldl_pair, zero_add, zero_add, if_neg hn0, if_neg hn1.ne']
      simp only
      rw [← hm, hrad, if_neg (not_lt.2 hq)]
    · rw [Real.mul_self_sqrt hq]; field_simp
    · rw [Real.sqrt_eq_zero hq, div_eq_zero_iff, or_iff_left hn1.ne', sum_sq_eq_zero]
      constructor
      · intro hz x hx y hy
        have h1 := hz x hx
        have h2 := hz y hy
        linarith
      · intro heq x hx
        have hs : pop.sum = pop.length * x := by
          have : ∀ l : List ℝ, (∀ y ∈ l, y = x) → l.sum = l.length * x := by
            intro l
            induction l with
            | nil => intro _; simp
            | cons z zs ih =>
              intro hl
              rw [List.sum_cons, ih (fun y hy => hl y (by simp [hy])), hl z (by simp), List.length_cons]
              push_cast; ring
          exact this pop (fun y hy => heq y hy x hx)
        have : m = x := by rw [hm, hs]; field_simp
        rw [this, sub_self]

example : ∃ m s, secondMoment [1, 3] = .value (m, s) ∧ m = 2 ∧ s * s = 2 := by
  obtain ⟨m, s, e, h1, _, h2, _⟩ := (C167_deviation [1, 3]).2 (by simp)
  refine ⟨m, s, e, ?_, ?_⟩
  · simp at h1; linarith
  · simp at h1 h2
    have hm : m = 2 := by linarith
    subst hm
    nlinarith

/-- **C167** The average size: the sizes over the number of individuals. -/
theorem C167_average_size {G : Type} (pop : List (List G)) (hne : pop ≠ []) :
    ∃ m, averageSize pop = .value m ∧ m * pop.length = ((pop.map List.length).sum : ℕ) := by
  have hpos : 0 < pop.length := List.length_pos_iff.2 hne
  have hposR : (0 : ℝ) < pop.length := by exact_mod_cast hpos
  refine ⟨((pop.map List.length).sum : ℕ) / pop.length, ?_, by field_simp⟩
  unfold averageSize
  simp only
  rw [if_neg (by omega), ← List.sum_eq_foldl]

/-! ### Correlation -/

section Corr
variable {G : Type}

/-- Mean of a list. -/
noncomputable def mean (l : List ℝ) : ℝ := l.sum / l.length

theorem fdc_eq (dist : (ℝ × G) → (ℝ × G) → ℝ) (better : ℝ → ℝ → Bool) (opt : Option (ℝ × G)) {pop : List (ℝ × G)}
    {b : ℝ × G} (hb : fdcReference better opt pop = some b)
    {md mf : ℝ} (hmd : md = mean (pop.map fun x => dist x b)) (hmf : mf = mean (pop.map (·.1))) :
    fdc dist better opt pop =
      if Real.sqrt ((pop.map fun x => (dist x b - md) * (dist x b - md)).sum) *
          Real.sqrt ((pop.map fun x => (x.1 - mf) * (x.1 - mf)).sum) = 0 then .nan
      else .value ((pop.map fun x => (dist x b - md) * (x.1 - mf)).sum /
        (Real.sqrt ((pop.map fun x => (dist x b - md) * (dist x b - md)).sum) *
          Real.sqrt ((pop.map fun x => (x.1 - mf) * (x.1 - mf)).sum))) := by
  unfold mean at hmd hmf
  rw [List.length_map] at hmd hmf
  have hz : (pop.map fun x => dist x b).zip (pop.map (·.1)) = pop.map fun x => (dist x b, x.1) := by
    rw [List.zip_map']
  simp only [fdc]
  rw [hb]
  simp only
  rw [foldl_add, foldl_add, ← hmd, ← hmf, foldl_sum (fun x => (x - md) * (x - md)),
    foldl_sum (fun x => (x - mf) * (x - mf)), hz, foldl_sum (fun x : ℝ × ℝ => (x.1 - md) * (x.2 - mf))]
  simp only [List.map_map, Function.comp_def, zero_add]

/-- The individual the distances are measured to: the optimum if one was given, otherwise a best individual. -/
def Reference (better : ℝ → ℝ → Bool) (opt : Option (ℝ × G)) (pop : List (ℝ × G)) (b : ℝ × G) : Prop :=
  (opt = some b) ∨ (opt = none ∧ b ∈ pop ∧ ∀ x ∈ pop, better x.1 b.1 = false)

theorem reference_exists {better : ℝ → ℝ → Bool} (h : SWO (fun a b => better b a)) (opt : Option (ℝ × G))
    {pop : List (ℝ × G)} (hne : pop ≠ []) : ∃ b, Reference better opt pop b ∧
      fdcReference better opt pop = some b := by
  cases opt with
  | some o => exact ⟨o, Or.inl rfl, rfl⟩
  | none =>
    have h' : SWO (fun a b : ℝ × G => better b.1 a.1) :=
      ⟨fun a => h.irrefl a.1, fun a b c => h.trans a.1 b.1 c.1, fun a b c => h.negtrans a.1 b.1 c.1⟩
    obtain ⟨b, hb, e, hmax⟩ := bestOf_spec h' hne
    exact ⟨b, Or.inr ⟨rfl, hb, hmax⟩, e⟩

/-- **C167** The correlation of fitness and distance lies between minus one and one; it is not a number exactly when
all individuals are at the same distance or have the same fitness. -/
theorem C167_correlation {better : ℝ → ℝ → Bool} (h : SWO (fun a b => better b a))
    (dist : (ℝ × G) → (ℝ × G) → ℝ) (opt : Option (ℝ × G)) {pop : List (ℝ × G)} (hne : pop ≠ []) :
    ∃ b, Reference better opt pop b ∧
      ((∀ x ∈ pop, ∀ y ∈ pop, dist x b = dist y b) ∨ (∀ x ∈ pop, ∀ y ∈ pop, x.1 = y.1) →
        fdc dist better opt pop = .nan) ∧
      (¬ (∀ x ∈ pop, ∀ y ∈ pop, dist x b = dist y b) → ¬ (∀ x ∈ pop, ∀ y ∈ pop, x.1 = y.1) →
        ∃ r, fdc dist better opt pop = .value r ∧ -1 ≤ r ∧ r ≤ 1) := by
  obtain ⟨b, hr, hb⟩ := reference_exists h opt hne
  refine ⟨b, hr, ?_⟩
  rw [fdc_eq dist better opt hb rfl rfl]
  set md := mean (pop.map fun x => dist x b) with hmd
  set mf := mean (pop.map (·.1)) with hmf
  set D := (pop.map fun x => (dist x b - md) * (dist x b - md)).sum with hD
  set E := (pop.map fun x => (x.1 - mf) * (x.1 - mf)).sum with hE
  set N := (pop.map fun x => (dist x b - md) * (x.1 - mf)).sum with hN
  have hD0 : 0 ≤ D := sum_sq_nonneg pop (fun x => dist x b - md)
  have hE0 : 0 ≤ E := sum_sq_nonneg pop (fun x => x.1 - mf)
  have hpos : 0 < pop.length := List.length_pos_iff.2 hne
  have hposR : (pop.length : ℝ) ≠ 0 := by exact_mod_cast hpos.ne'
  have hconst : ∀ (g : ℝ × G → ℝ), (∀ x ∈ pop, ∀ y ∈ pop, g x = g y) → ∀ x ∈ pop, g x = mean (pop.map g) := by
    intro g hg x hx
    have hs : (pop.map g).sum = pop.length * g x := by
      have : ∀ l : List (ℝ × G), (∀ y ∈ l, g y = g x) → (l.map g).sum = l.length * g x := by
        intro l
        induction l with
        | nil => intro _; simp
        | cons z zs ih =>
          intro hl
          rw [List.map_cons, List.sum_cons, ih (fun y hy => hl y (by simp [hy])), hl z (by simp), List.length_cons]
          push_cast; ring
      exact this pop (fun y hy => hg y hy x hx)
    unfold mean
    rw [hs, List.length_map]; field_simp
  have hDz : (∀ x ∈ pop, ∀ y ∈ pop, dist x b = dist y b) ↔ D = 0 := by
    rw [hD, sum_sq_eq_zero pop (fun x => dist x b - md)]
    constructor
    · intro hc x hx; rw [hmd, ← hconst (fun x => dist x b) hc x hx, sub_self]
    · intro hz x hx y hy
      have h1 := hz x hx
      have h2 := hz y hy
      linarith
  have hEz : (∀ x ∈ pop, ∀ y ∈ pop, x.1 = y.1) ↔ E = 0 := by
    rw [hE, sum_sq_eq_zero pop (fun x => x.1 - mf)]
    constructor
    · intro hc x hx; rw [hmf, ← hconst (fun x => x.1) hc x hx, sub_self]
    · intro hz x hx y hy
      have h1 := hz x hx
      have h2 := hz y hy
      linarith
  rw [hDz, hEz]
  constructor
  · rintro (e | e)
    · rw [if_pos (by rw [e, Real.sqrt_zero, zero_mul])]
    · rw [if_pos (by rw [e, Real.sqrt_zero, mul_zero])]
  · intro hd he
    have hDp : 0 < Real.sqrt D := Real.sqrt_pos.2 (lt_of_le_of_ne hD0 (Ne.symm hd))
    have hEp : 0 < Real.sqrt E := Real.sqrt_pos.2 (lt_of_le_of_ne hE0 (Ne.symm he))
    have hp : 0 < Real.sqrt D * Real.sqrt E := mul_pos hDp hEp
    rw [if_neg hp.ne']
    refine ⟨_, rfl, ?_⟩
    have hc : N * N ≤ D * E := cauchy pop (fun x => dist x b - md) (fun x => x.1 - mf)
    have hsq : (Real.sqrt D * Real.sqrt E) * (Real.sqrt D * Real.sqrt E) = D * E := by
      have h1 := Real.mul_self_sqrt hD0
      have h2 := Real.mul_self_sqrt hE0
      calc (Real.sqrt D * Real.sqrt E) * (Real.sqrt D * Real.sqrt E)
          = (Real.sqrt D * Real.sqrt D) * (Real.sqrt E * Real.sqrt E) := by ring
        _ = D * E := by rw [h1, h2]
    have habs : |N| ≤ Real.sqrt D * Real.sqrt E := by
      apply abs_le_of_sq_le_sq _ hp.le
      nlinarith
    obtain ⟨h1, h2⟩ := abs_le.1 habs
    constructor
    · rw [le_div_iff₀ hp]; linarith
    · rw [div_le_iff₀ hp]; linarith

/-- **C167** A fitness that is an increasing affine function of the distance gives one, a decreasing one minus one. -/
theorem C167_perfect {better : ℝ → ℝ → Bool} (dist : (ℝ × G) → (ℝ × G) → ℝ) (o : ℝ × G) {pop : List (ℝ × G)}
    {α β : ℝ} (hβ : β ≠ 0) (hlin : ∀ x ∈ pop, x.1 = α + β * dist x o)
    (hd : ¬ ∀ x ∈ pop, ∀ y ∈ pop, dist x o = dist y o) :
    fdc dist better (some o) pop = .value (if 0 < β then 1 else -1) := by
  have hne : pop ≠ [] := by rintro rfl; exact hd (by simp)
  have hpos : 0 < pop.length := List.length_pos_iff.2 hne
  have hposR : (pop.length : ℝ) ≠ 0 := by exact_mod_cast hpos.ne'
  rw [fdc_eq dist better (some o) rfl rfl rfl]
  set md := mean (pop.map fun x => dist x o) with hmd
  set mf := mean (pop.map (·.1)) with hmf
  have hmean : mf = α + β * md := by
    rw [hmf, hmd]
    unfold mean
    have : ∀ l : List (ℝ × G), (∀ x ∈ l, x.1 = α + β * dist x o) →
        (l.map (·.1)).sum = l.length * α + β * (l.map fun x => dist x o).sum := by
      intro l
      induction l with
      | nil => intro _; simp
      | cons x xs ih =>
        intro hl
        simp only [List.map_cons, List.sum_cons, List.length_cons, ih (fun y hy => hl y (by simp [hy])),
          hl x (by simp)]
        push_cast; ring
    rw [this pop hlin, List.length_map, List.length_map]
    field_simp
  have hdev : ∀ x ∈ pop, x.1 - mf = β * (dist x o - md) := by
    intro x hx; rw [hlin x hx, hmean]; ring
  set D := (pop.map fun x => (dist x o - md) * (dist x o - md)).sum with hD
  have hD0 : 0 ≤ D := sum_sq_nonneg pop (fun x => dist x o - md)
  have hDne : D ≠ 0 := by
    intro e
    rw [hD, sum_sq_eq_zero pop (fun x => dist x o - md)] at e
    apply hd
    intro x hx y hy
    have h1 := e x hx
    have h2 := e y hy
    linarith
  have hE : (pop.map fun x => (x.1 - mf) * (x.1 - mf)).sum = β * β * D := by
    rw [hD, ← sum_map_mul]
    congr 1
    apply List.map_congr_left
    intro x hx
    rw [hdev x hx]; ring
  have hN : (pop.map fun x => (dist x o - md) * (x.1 - mf)).sum = β * D := by
    rw [hD, ← sum_map_mul]
    congr 1
    apply List.map_congr_left
    intro x hx
    rw [hdev x hx]; ring
  rw [hE, hN]
  have hDp : 0 < D := lt_of_le_of_ne hD0 (Ne.symm hDne)
  have hsE : Real.sqrt (β * β * D) = |β| * Real.sqrt D := by
    rw [Real.sqrt_mul (mul_self_nonneg β), Real.sqrt_mul_self_eq_abs]
  have hprod : Real.sqrt D * Real.sqrt (β * β * D) = |β| * D := by
    rw [hsE]
    calc Real.sqrt D * (|β| * Real.sqrt D) = |β| * (Real.sqrt D * Real.sqrt D) := by ring
      _ = |β| * D := by rw [Real.mul_self_sqrt hD0]
  have habs : 0 < |β| := abs_pos.2 hβ
  rw [hprod, if_neg (mul_pos habs hDp).ne']
  congr 1
  by_cases hb : 0 < β
  · rw [if_pos hb, abs_of_pos hb]; field_simp
  · have hb' : β < 0 := lt_of_le_of_ne (not_lt.1 hb) hβ
    rw [if_neg hb, abs_of_neg hb']; field_simp

example : fdc (fun x y : ℝ × ℝ => |x.2 - y.2|) (fun a b => decide (b < a)) (some (10, 0))
    [(8, 1), (6, 2)] = .value (-1) := by
  have h := C167_perfect (better := fun a b => decide (b < a)) (fun x y : ℝ × ℝ => |x.2 - y.2|) (10, 0)
    (pop := [(8, 1), (6, 2)]) (α := 10) (β := -2) (by norm_num)
    (by intro x hx; simp at hx; rcases hx with rfl | rfl <;> norm_num)
    (by intro h; have := h (8, 1) (by simp) (6, 2) (by simp); norm_num at this)
  rw [h]; norm_num

end Corr

/-! ## C168: distances -/

section Dist

/-- A distance on the lists of one length. -/
structure IsMetric {G : Type} (d : List G → List G → Option ℝ) : Prop where
  defined : ∀ v w, v.length = w.length → ∃ r, d v w = some r ∧ 0 ≤ r ∧ (r = 0 ↔ v = w)
  symm : ∀ v w, v.length = w.length → d v w = d w v
  triangle : ∀ u v w a b c, u.length = v.length → v.length = w.length → d u w = some a → d u v = some b →
    d v w = some c → a ≤ b + c

theorem metric_of_term {G : Type} {term : G → G → ℝ} (h1 : ∀ x y, 0 ≤ term x y) (h2 : ∀ x y, term x y = 0 ↔ x = y)
    (h3 : ∀ x y, term x y = term y x) (h4 : ∀ x y z, term x z ≤ term x y + term y z) :
    IsMetric (fun v w => distLoop term v w 0) := by
  constructor
  · intro v w h
    refine ⟨_, distLoop_eq term v w 0 h.le, ?_, ?_⟩
    · rw [zero_add]; exact zip_sum_nonneg h1 v w
    · rw [zero_add]; exact zip_sum_zero h1 h2 v w h
  · intro v w h
    show distLoop term v w 0 = distLoop term w v 0
    rw [distLoop_eq term v w 0 h.le, distLoop_eq term w v 0 h.ge, zip_sum_symm h3]
  · intro u v w a b c huv hvw ha hb hc
    rw [distLoop_eq term u w 0 (huv.trans hvw).le, Option.some.injEq] at ha
    rw [distLoop_eq term u v 0 huv.le, Option.some.injEq] at hb
    rw [distLoop_eq term v w 0 hvw.le, Option.some.injEq] at hc
    subst ha hb hc
    have := zip_sum_triangle h4 u v w huv hvw
    linarith

/-- **C168** The distance of absolute differences is a distance between vectors of the same size. -/
theorem C168_l1 : IsMetric l1Distance := by
  apply metric_of_term (fun _ _ => abs_nonneg _)
  · intro x y; rw [abs_eq_zero, sub_eq_zero]
  · intro x y; exact abs_sub_comm x y
  · intro x y z; exact abs_sub_le x y z

/-- **C168** The number of different positions is a distance between vectors of the same size. -/
theorem C168_hamming {G : Type} [DecidableEq G] : IsMetric (hammingDistance (G := G)) := by
  apply metric_of_term
  · intro x y; split <;> norm_num
  · intro x y; by_cases h : x = y <;> simp [h]
  · intro x y; by_cases h : x = y
    · simp [h]
    · simp [h, Ne.symm h]
  · intro x y z
    by_cases h1 : x = y <;> by_cases h2 : y = z
    · subst h1 h2; simp
    · subst h1; simp [h2]
    · subst h2; simp [h1]
    · simp only [h1, h2, ne_eq, not_false_eq_true, if_true]
      split <;> norm_num

/-- **C168** The Euclidean distance is a distance between vectors of the same size. -/
theorem C168_euclidean : IsMetric quadDistance := by
  have hq : ∀ v w : List ℝ, v.length = w.length →
      quadDistance v w = some (Real.sqrt (((v.zip w).map fun p => (p.1 - p.2) * (p.1 - p.2)).sum)) := by
    intro v w h
    unfold quadDistance
    rw [distLoop_eq _ v w 0 h.le, zero_add]; rfl
  have hnn := zip_sum_nonneg (term := fun x y : ℝ => (x - y) * (x - y)) (fun _ _ => mul_self_nonneg _)
  constructor
  · intro v w h
    refine ⟨_, hq v w h, Real.sqrt_nonneg _, ?_⟩
    rw [Real.sqrt_eq_zero (hnn v w)]
    exact zip_sum_zero (term := fun x y : ℝ => (x - y) * (x - y)) (fun _ _ => mul_self_nonneg _)
      (fun x y => by rw [mul_self_eq_zero, sub_eq_zero]) v w h
  · intro v w h
    rw [hq v w h, hq w v h.symm,
      zip_sum_symm (term := fun x y : ℝ => (x - y) * (x - y)) (fun x y => by ring) v w]
  · intro u v w a b c huv hvw ha hb hc
    rw [hq _ _ (huv.trans hvw), Option.some.injEq] at ha
    rw [hq _ _ huv, Option.some.injEq] at hb
    rw [hq _ _ hvw, Option.some.injEq] at hc
    subst ha hb hc
    exact quad_triangle u v w huv hvw

/-- **C168** (defect) Vectors of different sizes: a shorter second vector is read past its end, and a shorter first
vector is at distance zero from all its extensions, in one direction only. -/
theorem C168_sizes {G : Type} (term : G → G → ℝ) (h0 : ∀ x, term x x = 0) (v w : List G) :
    (w.length < v.length → distLoop term v w 0 = none) ∧ distLoop term v (v ++ w) 0 = some 0 := by
  refine ⟨distLoop_none term v w 0, ?_⟩
  rw [distLoop_eq term v (v ++ w) 0 (by simp), zero_add]
  congr 1
  induction v with
  | nil => simp
  | cons x xs ih => simp [h0, ih]

/-- **C168** The distance of fitnesses is their absolute difference: symmetric, with the triangle inequality, and zero
for any two individuals of the same fitness. -/
theorem C168_fitness (a b c : ℝ) :
    fitnessDistance a b = |a - b| ∧ fitnessDistance a b = fitnessDistance b a ∧
    fitnessDistance a c ≤ fitnessDistance a b + fitnessDistance b c ∧ (fitnessDistance a b = 0 ↔ a = b) := by
  have h : ∀ x y : ℝ, fitnessDistance x y = |x - y| := fun x y => Real.sqrt_mul_self_eq_abs _
  rw [h, h, h, h]
  exact ⟨rfl, abs_sub_comm a b, abs_sub_le a b c, by rw [abs_eq_zero, sub_eq_zero]⟩

/-! ### Diversity -/

/-- The sum over all pairs of individuals. -/
noncomputable def pairSum {G : Type} (term : G → G → ℝ) (pop qop : List (List G)) : ℝ :=
  (pop.map fun x => (qop.map fun y => ((x.zip y).map fun p => term p.1 p.2).sum).sum).sum

theorem inner_loop {G : Type} (term : G → G → ℝ) (x : List G) : ∀ (qop : List (List G)) (s : ℝ),
    (∀ y ∈ qop, x.length ≤ y.length) → qop.foldlM (fun v y => distLoop term x y v) s =
      some (s + (qop.map fun y => ((x.zip y).map fun p => term p.1 p.2).sum).sum) := by
  intro qop
  induction qop with
  | nil => intro s _; simp
  | cons y ys ih =>
    intro s h
    rw [List.foldlM_cons, distLoop_eq term x y s (h y (by simp))]
    show ys.foldlM _ _ = _
    rw [ih _ (fun z hz => h z (by simp [hz])), List.map_cons, List.sum_cons, add_assoc]

theorem outer_loop {G : Type} (term : G → G → ℝ) (qop : List (List G)) : ∀ (pop : List (List G)) (s : ℝ),
    (∀ x ∈ pop, ∀ y ∈ qop, x.length ≤ y.length) →
    pop.foldlM (fun v x => qop.foldlM (fun v y => distLoop term x y v) v) s = some (s + pairSum term pop qop) := by
  intro pop
  induction pop with
  | nil => intro s _; simp [pairSum]
  | cons x xs ih =>
    intro s h
    rw [List.foldlM_cons, inner_loop term x qop s (h x (by simp))]
    show xs.foldlM _ _ = _
    rw [ih _ (fun z hz => h z (by simp [hz]))]
    simp [pairSum, add_assoc]

theorem inner_loop_none {G : Type} (term : G → G → ℝ) (x : List G) : ∀ (qop : List (List G)) (s : ℝ),
    (∃ y ∈ qop, y.length < x.length) → qop.foldlM (fun v y => distLoop term x y v) s = none := by
  intro qop
  induction qop with
  | nil => rintro s ⟨y, hy, _⟩; cases hy
  | cons y ys ih =>
    rintro s ⟨z, hz, hl⟩
    rw [List.foldlM_cons]
    rcases List.mem_cons.1 hz with rfl | hz
    · rw [distLoop_none term x z s hl]; rfl
    · cases distLoop term x y s with
      | none => rfl
      | some r => exact ih r ⟨z, hz, hl⟩

theorem outer_loop_none {G : Type} (term : G → G → ℝ) (qop : List (List G)) : ∀ (pop : List (List G)) (s : ℝ),
    (∃ x ∈ pop, ∃ y ∈ qop, y.length < x.length) →
    pop.foldlM (fun v x => qop.foldlM (fun v y => distLoop term x y v) v) s = none := by
  intro pop
  induction pop with
  | nil => rintro s ⟨y, hy, _⟩; cases hy
  | cons x xs ih =>
    rintro s ⟨z, hz, hl⟩
    rw [List.foldlM_cons]
    rcases List.mem_cons.1 hz with rfl | hz
    · rw [inner_loop_none term z qop s hl]; rfl
    · cases qop.foldlM (fun v y => distLoop term x y v) s with
      | none => rfl
      | some r => exact ih r ⟨z, hz, hl⟩

theorem pairSum_nonneg {G : Type} {term : G → G → ℝ} (h1 : ∀ x y, 0 ≤ term x y) (pop qop : List (List G)) :
    0 ≤ pairSum term pop qop := by
  apply List.sum_nonneg
  intro a ha
  obtain ⟨x, _, rfl⟩ := List.mem_map.1 ha
  apply List.sum_nonneg
  intro a ha
  obtain ⟨y, _, rfl⟩ := List.mem_map.1 ha
  exact zip_sum_nonneg h1 x y

theorem sum_zero_all {α : Type} {l : List α} {g : α → ℝ} (h : ∀ x ∈ l, 0 ≤ g x) (hs : (l.map g).sum = 0) :
    ∀ x ∈ l, g x = 0 := by
  induction l with
  | nil => simp
  | cons x xs ih =>
    rw [List.map_cons, List.sum_cons] at hs
    have hx := h x (by simp)
    have hxs : 0 ≤ (xs.map g).sum := by
      apply List.sum_nonneg
      intro a ha
      obtain ⟨y, hy, rfl⟩ := List.mem_map.1 ha
      exact h y (by simp [hy])
    intro y hy
    rcases List.mem_cons.1 hy with rfl | hy
    · linarith
    · exact ih (fun z hz => h z (by simp [hz])) (by linarith) y hy

/-- **C168** The diversity of a population whose individuals have the same size (not zero): it is not negative, and zero
exactly when all individuals are equal. -/
theorem C168_diversity {G : Type} {term : G → G → ℝ} (h1 : ∀ x y, 0 ≤ term x y) (h2 : ∀ x y, term x y = 0 ↔ x = y)
    {L : Nat} (hL : 0 < L) {pop : List (List G)} (hne : pop ≠ []) (hl : ∀ x ∈ pop, x.length = L) :
    ∃ v, distanceStat term pop = .value v ∧ 0 ≤ v ∧ (v = 0 ↔ ∀ x ∈ pop, ∀ y ∈ pop, x = y) ∧
      v * ((pop.length : ℝ) * pop.length * L) = pairSum term pop pop := by
  have hloop : pairLoop term pop = some (pairSum term pop pop) := by
    unfold pairLoop
    rw [outer_loop term pop pop 0 (fun x hx y hy => by rw [hl x hx, hl y hy]), zero_add]
  match pop, hne with
  | x :: xs, _ =>
    have hx := hl x (by simp)
    have hpos : (0 : ℝ) < ((x :: xs).length : ℝ) := by simp only [List.length_cons]; positivity
    have hLp : (0 : ℝ) < L := by exact_mod_cast hL
    have hden : 0 < ((x :: xs).length : ℝ) * ((x :: xs).length : ℝ) * (L : ℝ) := by positivity
    have hnn := pairSum_nonneg h1 (x :: xs) (x :: xs)
    refine ⟨pairSum term (x :: xs) (x :: xs) / (((x :: xs).length : ℝ) * ((x :: xs).length : ℝ) * (L : ℝ)), ?_,
      div_nonneg hnn hden.le, ?_, by field_simp⟩
    · unfold distanceStat
      rw [hloop]
      simp only
      rw [hx, if_neg hden.ne']
    · rw [div_eq_zero_iff, or_iff_left hden.ne']
      constructor
      · intro hz y hy z hz'
        unfold pairSum at hz
        have hy0 := sum_zero_all (fun y _ => by
          apply List.sum_nonneg
          intro a ha
          obtain ⟨z, _, rfl⟩ := List.mem_map.1 ha
          exact zip_sum_nonneg h1 y z) hz y hy
        have hz0 := sum_zero_all (fun z _ => zip_sum_nonneg h1 y z) hy0 z hz'
        exact (zip_sum_zero h1 h2 y z (by rw [hl y hy, hl z hz'])).1 hz0
      · intro heq
        unfold pairSum
        apply List.sum_eq_zero
        intro a ha
        obtain ⟨y, hy, rfl⟩ := List.mem_map.1 ha
        apply List.sum_eq_zero
        intro a ha
        obtain ⟨z, hz, rfl⟩ := List.mem_map.1 ha
        exact (zip_sum_zero h1 h2 y z (by rw [hl y hy, hl z hz])).2 (heq y hy z hz)

/-- **C168** (defect) With individuals of two different sizes the loops read out of bounds, and so does an empty
population. -/
theorem C168_diversity_sizes {G : Type} (term : G → G → ℝ) (pop : List (List G)) {x y : List G} (hx : x ∈ pop)
    (hy : y ∈ pop) (h : x.length ≠ y.length) :
    distanceStat term pop = .outOfBounds ∧ distanceStat term ([] : List (List G)) = .outOfBounds := by
  refine ⟨?_, rfl⟩
  have : ∃ a ∈ pop, ∃ b ∈ pop, b.length < a.length := by
    rcases lt_or_gt_of_ne h with h | h
    · exact ⟨y, hy, x, hx, h⟩
    · exact ⟨x, hx, y, hy, h⟩
  unfold distanceStat pairLoop
  rw [outer_loop_none term pop pop 0 this]

/-- **C168** The two distances between genes vanish exactly between equal genes. -/
theorem C168_genes : (∀ x y, 0 ≤ geneDistance x y) ∧ (∀ x y, geneDistance x y = 0 ↔ x = y) ∧
    (∀ x y, geneDistance x y = |x - y|) ∧ (∀ x y, 0 ≤ bitDistance x y) ∧ (∀ x y, bitDistance x y = 0 ↔ x = y) := by
  have h : ∀ x y, geneDistance x y = |x - y| := by
    intro x y
    unfold geneDistance
    split
    · next h => rw [abs_of_neg h]
    · next h => rw [abs_of_nonneg (not_lt.1 h)]
  refine ⟨?_, ?_, h, ?_, ?_⟩
  · intro x y; rw [h]; exact abs_nonneg _
  · intro x y; rw [h, abs_eq_zero, sub_eq_zero]
  · intro x y; unfold bitDistance; split <;> norm_num
  · intro x y; cases x <;> cases y <;> simp [bitDistance]

theorem column (c : List Bool) :
    (c.map fun a => (c.map fun b => bitDistance a b).sum).sum ≤ (c.length : ℝ) * c.length / 2 := by
  have hin : ∀ (l : List Bool) (a : Bool), (l.map fun b => bitDistance a b).sum =
      if a then (l.length : ℝ) - l.count true else (l.count true : ℝ) := by
    intro l a
    induction l with
    | nil => cases a <;> simp
    | cons b bs ih =>
      rw [List.map_cons, List.sum_cons, ih]
      cases a <;> cases b <;> simp [bitDistance] <;> ring
  have hout : ∀ (l : List Bool) (t n : ℝ), (l.map fun a => if a then n - t else t).sum =
      (l.count true : ℝ) * (n - t) + ((l.length : ℝ) - l.count true) * t := by
    intro l t n
    induction l with
    | nil => simp
    | cons b bs ih =>
      rw [List.map_cons, List.sum_cons, ih]
      cases b <;> simp <;> ring
  simp only [hin]
  rw [hout]
  nlinarith [sq_nonneg ((c.length : ℝ) - 2 * (c.count true : ℝ))]

theorem bits_bound : ∀ (L : Nat) (pop : List (List Bool)), (∀ x ∈ pop, x.length = L) →
    pairSum bitDistance pop pop ≤ (pop.length : ℝ) * pop.length / 2 * L := by
  intro L
  induction L with
  | zero =>
    intro pop h
    have : pairSum bitDistance pop pop = 0 := by
      unfold pairSum
      apply List.sum_eq_zero
      intro a ha
      obtain ⟨y, hy, rfl⟩ := List.mem_map.1 ha
      apply List.sum_eq_zero
      intro a ha
      obtain ⟨z, hz, rfl⟩ := List.mem_map.1 ha
      rw [List.length_eq_zero_iff.1 (h y hy)]; simp
    rw [this]; simp
  | succ L ih =>
    intro pop h
    have hsplit : ∀ (p q : List (List Bool)), (∀ x ∈ p, x.length = L + 1) → (∀ x ∈ q, x.length = L + 1) →
        pairSum bitDistance p q = pairSum bitDistance (p.map List.tail) (q.map List.tail) +
          ((p.map (·.headD false)).map fun a => ((q.map (·.headD false)).map fun b => bitDistance a b).sum).sum := by
      intro p q hp hq
      unfold pairSum
      have hinner : ∀ x : List Bool, x.length = L + 1 → ∀ q : List (List Bool), (∀ y ∈ q, y.length = L + 1) →
          (q.map fun y => ((x.zip y).map fun p => bitDistance p.1 p.2).sum).sum =
          ((q.map List.tail).map fun y => ((x.tail.zip y).map fun p => bitDistance p.1 p.2).sum).sum +
          ((q.map (·.headD false)).map fun b => bitDistance (x.headD false) b).sum := by
        intro x hx q
        induction q with
        | nil => intro _; simp
        | cons y ys ihq =>
          intro hq
          have hy := hq y (by simp)
          match x, y, hx, hy with
          | a :: x, b :: y, _, _ =>
            have := ihq (fun z hz => hq z (by simp [hz]))
            simp only [List.map_cons, List.sum_cons] at this ⊢
            rw [this]
            simp only [List.tail_cons, List.headD_cons, List.zip_cons_cons, List.map_cons, List.sum_cons]
            ring
      induction p with
      | nil => simp
      | cons x xs ihp =>
        simp only [List.map_cons, List.sum_cons]
        rw [ihp (fun z hz => hp z (by simp [hz])), hinner x (hp x (by simp)) q hq]
        ring
    rw [hsplit pop pop h h]
    have h1 := ih (pop.map List.tail) (by
      intro x hx
      obtain ⟨y, hy, rfl⟩ := List.mem_map.1 hx
      rw [List.length_tail, h y hy]; rfl)
    have h2 := column (pop.map (·.headD false))
    rw [List.length_map] at h1 h2
    push_cast
    nlinarith

/-- **C168** The diversity of bit strings is at most one half. -/
theorem C168_bits {L : Nat} (hL : 0 < L) {pop : List (List Bool)} (hne : pop ≠ []) (hl : ∀ x ∈ pop, x.length = L) :
    ∃ v, distanceStat bitDistance pop = .value v ∧ 0 ≤ v ∧ v ≤ 1 / 2 := by
  obtain ⟨v, e, h0, _, hs⟩ := C168_diversity C168_genes.2.2.2.1 C168_genes.2.2.2.2 hL hne hl
  refine ⟨v, e, h0, ?_⟩
  have hb := bits_bound L pop hl
  have hpos : (0 : ℝ) < (pop.length : ℝ) := by exact_mod_cast List.length_pos_iff.2 hne
  have hLp : (0 : ℝ) < L := by exact_mod_cast hL
  have hden : 0 < (pop.length : ℝ) * pop.length * L := by positivity
  rw [← hs] at hb
  by_contra hc
  push Not at hc
  have := mul_lt_mul_of_pos_right hc hden
  nlinarith

/-- The bound is reached: all bits set against none. -/
example : ∃ v, distanceStat bitDistance [[true, true], [false, false]] = .value v ∧ v = 1 / 2 := by
  obtain ⟨v, e, _, _, hs⟩ := C168_diversity C168_genes.2.2.2.1 C168_genes.2.2.2.2 (L := 2) (by norm_num)
    (pop := [[true, true], [false, false]]) (by simp) (by simp)
  refine ⟨v, e, ?_⟩
  simp [pairSum, bitDistance] at hs
  linarith

/-- **C168** (defect) Genes of an unsigned type: the difference with a larger gene wraps around, so that the result is
not symmetric. -/
theorem C168_unsigned (w a b : Nat) (hb : b < 2 ^ w) (h : a < b) :
    unsignedDistance w a b = 2 ^ w - (b - a) ∧ unsignedDistance w b a = b - a := by
  unfold unsignedDistance
  constructor
  · rw [Nat.mod_eq_of_lt (by omega)]; omega
  · rw [show b + (2 ^ w - a) = (b - a) + 2 ^ w by omega, Nat.add_mod_right, Nat.mod_eq_of_lt (by omega)]

example : unsignedDistance 32 1 2 = 4294967295 ∧ unsignedDistance 32 2 1 = 1 := by decide +kernel

end Dist

end Paradiseo.Stat
