import Verif.Model.MoeoFitness
import Mathlib.Data.List.Perm.Basic
import Mathlib.Tactic
/-
Lemmas on the dominance-depth assignment: the counter-based peeling of `mObjectives` and the patience
piles of `twoObjectives`.
-/
namespace Paradiseo.Moeo

@[simp] theorem put_same {α : Type} (a : Nat → α) (i : Nat) (v : α) : put a i v i = v := by
  simp [put]

theorem put_ne {α : Type} (a : Nat → α) {i j : Nat} (v : α) (h : j ≠ i) : put a i v j = a j := by
  simp [put, h]

/-- Local characterisation of a depth function: larger than at all dominators, and larger by one than
at some dominator unless it is 1. -/
structure LocalDepth (N : Nat) (dom : Nat → Nat → Bool) (r : Nat → Nat) : Prop where
  pos : ∀ q < N, 1 ≤ r q
  gt : ∀ q < N, ∀ p < N, dom p q = true → r p < r q
  step : ∀ q < N, r q = 1 ∨ ∃ p < N, dom p q = true ∧ r p + 1 = r q

/-- Number of dominators not in `E`. -/
def left (dom : Nat → Nat → Bool) (N : Nat) (E : List Nat) (q : Nat) : Nat :=
  ((List.range N).filter fun p => dom p q && decide (p ∉ E)).length

/-- Invariant of the peeling. `E`: individuals expanded; `todo`: rest of the current front. -/
structure DepthInv (dom : Nat → Nat → Bool) (N c : Nat) (E todo : List Nat) (s : DepthState) : Prop where
  cnt : ∀ q < N, s.n q = left dom N E q
  nodup : (E ++ todo ++ s.next).Nodup
  mem : ∀ q, q ∈ E ++ todo ++ s.next ↔ q < N ∧ s.n q = 0
  some_iff : ∀ q < N, (s.fit q).isSome ↔ s.n q = 0
  fitE : ∀ q ∈ E, ∃ r, s.fit q = some r ∧ r ≤ c
  fitTodo : ∀ q ∈ todo, s.fit q = some c
  fitNext : ∀ q ∈ s.next, s.fit q = some (c + 1)
  pos : ∀ q < N, ∀ r, s.fit q = some r → 1 ≤ r
  gt : ∀ q < N, ∀ r, s.fit q = some r → ∀ p < N, dom p q = true → ∃ r' < r, s.fit p = some r'
  step : ∀ q < N, ∀ r, s.fit q = some r → r = 1 ∨ ∃ p < N, dom p q = true ∧ s.fit p = some (r - 1)

theorem left_nil (dom : Nat → Nat → Bool) (N q : Nat) :
    left dom N [] q = ((List.range N).filter fun p => dom p q).length := by
  simp [left]

theorem left_snoc {dom : Nat → Nat → Bool} {N : Nat} {E : List Nat} {p : Nat} (hp : p < N)
    (hE : p ∉ E) (q : Nat) :
    left dom N (E ++ [p]) q + (if dom p q then 1 else 0) = left dom N E q := by
  unfold left
  have hperm : (List.range N).Perm (p :: (List.range N).erase p) :=
    List.perm_cons_erase (List.mem_range.2 hp)
  have hnd : p ∉ (List.range N).erase p := by
    intro h
    exact ((List.nodup_range (n := N)).mem_erase_iff.1 h).1 rfl
  rw [(hperm.filter _).length_eq, (hperm.filter _).length_eq]
  have : ((List.range N).erase p).filter (fun x => dom x q && decide (x ∉ E ++ [p])) =
      ((List.range N).erase p).filter (fun x => dom x q && decide (x ∉ E)) := by
    apply List.filter_congr
    intro x hx
    have : x ≠ p := fun h => hnd (h ▸ hx)
    simp [this]
  rw [List.filter_cons, List.filter_cons, this]
  by_cases hd : dom p q = true <;> simp [hd, hE]

theorem left_zero {dom : Nat → Nat → Bool} {N : Nat} {E : List Nat} {q : Nat} :
    left dom N E q = 0 ↔ ∀ p < N, dom p q = true → p ∈ E := by
  unfold left
  rw [List.length_eq_zero_iff, List.filter_eq_nil_iff]
  constructor
  · intro h p hp hd
    have := h p (List.mem_range.2 hp)
    simpa [hd] using this
  · intro h p hp
    have := h p (List.mem_range.1 hp)
    simp only [Bool.and_eq_true, decide_eq_true_eq, not_and, not_not]
    exact this

/-- Effect of visiting a duplicate-free list of individuals with positive counters. -/
theorem visit_fold (c : Nat) (l : List Nat) (s : DepthState) (hnd : l.Nodup) :
    let s' := l.foldl (depthVisit c) s
    (∀ q, s'.n q = if q ∈ l then s.n q - 1 else s.n q) ∧
    (∀ q, s'.fit q = if q ∈ l ∧ s.n q - 1 = 0 then some (c + 1) else s.fit q) ∧
    s'.next = s.next ++ l.filter fun q => s.n q - 1 = 0 := by
  induction l generalizing s with
  | nil => simp
  | cons a l ih =>
    rw [List.nodup_cons] at hnd
    obtain ⟨h1, h2, h3⟩ := ih (depthVisit c s a) hnd.2
    simp only [List.foldl_cons]
    have hn : ∀ q, (depthVisit c s a).n q = if q = a then s.n a - 1 else s.n q := by
      intro q
      unfold depthVisit
      by_cases hq : q = a
      · subst hq; by_cases h0 : s.n q - 1 = 0 <;> simp [h0]
      · by_cases h0 : s.n a - 1 = 0 <;> simp [h0, hq, put]
    have hf : ∀ q, (depthVisit c s a).fit q =
        if q = a ∧ s.n a - 1 = 0 then some (c + 1) else s.fit q := by
      intro q
      unfold depthVisit
      by_cases hq : q = a
      · subst hq; by_cases h0 : s.n q - 1 = 0 <;> simp [h0]
      · by_cases h0 : s.n a - 1 = 0 <;> simp [h0, hq, put]
    have hx : (depthVisit c s a).next = if s.n a - 1 = 0 then s.next ++ [a] else s.next := by
      unfold depthVisit
      by_cases h0 : s.n a - 1 = 0 <;> simp [h0]
    refine ⟨?_, ?_, ?_⟩
    · intro q
      rw [h1, hn]
      by_cases hq : q = a
      · subst hq; simp [hnd.1]
      · simp [hq]
    · intro q
      rw [h2, hn, hf]
      by_cases hq : q = a
      · subst hq; simp [hnd.1]
      · simp [hq]
    · rw [h3, hx]
      have : l.filter (fun q => decide ((depthVisit c s a).n q - 1 = 0)) =
          l.filter (fun q => decide (s.n q - 1 = 0)) := by
        apply List.filter_congr
        intro x hx'
        have : x ≠ a := fun h => hnd.1 (h ▸ hx')
        rw [hn, if_neg this]
      rw [this, List.filter_cons]
      by_cases h0 : s.n a - 1 = 0 <;> simp [h0]

theorem mem_dominatedBy {dom : Nat → Nat → Bool} {N p q : Nat} :
    q ∈ dominatedBy dom N p ↔ q < N ∧ dom p q = true := by
  simp [dominatedBy]

theorem nodup_dominatedBy (dom : Nat → Nat → Bool) (N p : Nat) : (dominatedBy dom N p).Nodup :=
  List.nodup_range.filter _

/-- Expanding one individual keeps the invariant. -/
theorem DepthInv.expand {dom : Nat → Nat → Bool} {N c : Nat} (hc : 1 ≤ c) {E todo : List Nat} {p : Nat}
    {s : DepthState} (h : DepthInv dom N c E (p :: todo) s) :
    DepthInv dom N c (E ++ [p]) todo ((dominatedBy dom N p).foldl (depthVisit c) s) := by
  obtain ⟨h1, h2, h3⟩ := visit_fold c (dominatedBy dom N p) s (nodup_dominatedBy dom N p)
  set s' := (dominatedBy dom N p).foldl (depthVisit c) s with hs'
  have hpm : p ∈ E ++ p :: todo ++ s.next := by simp
  have hpN : p < N := ((h.mem p).1 hpm).1
  have hpE : p ∉ E := by
    have := h.nodup
    rw [List.append_assoc, List.nodup_append] at this
    intro hh
    exact this.2.2 p hh p (by simp) rfl
  have hpfit : s.fit p = some c := h.fitTodo p (by simp)
  -- a dominated individual has a positive counter
  have hposq : ∀ q < N, dom p q = true → 1 ≤ s.n q := by
    intro q hq hd
    by_contra hlt
    have : s.n q = 0 := by omega
    rw [h.cnt q hq, left_zero] at this
    exact hpE (this p hpN hd)
  have hn' : ∀ q < N, s'.n q = left dom N (E ++ [p]) q := by
    intro q hq
    have h4 := left_snoc (dom := dom) hpN hpE q
    have h5 := h.cnt q hq
    rw [h1]
    by_cases hd : dom p q = true
    · rw [if_pos (mem_dominatedBy.2 ⟨hq, hd⟩)]; simp [hd] at h4; omega
    · rw [if_neg (fun hm => hd (mem_dominatedBy.1 hm).2)]; simp [hd] at h4; omega
  -- newly ranked
  have hnew : ∀ q, (q ∈ dominatedBy dom N p ∧ s.n q - 1 = 0) ↔
      (q < N ∧ dom p q = true ∧ s.n q = 1) := by
    intro q
    rw [mem_dominatedBy]
    constructor
    · rintro ⟨⟨a, b⟩, d⟩; have := hposq q a b; exact ⟨a, b, by omega⟩
    · rintro ⟨a, b, d⟩; exact ⟨⟨a, b⟩, by omega⟩
  have hfit' : ∀ q, s'.fit q = if q < N ∧ dom p q = true ∧ s.n q = 1 then some (c + 1) else s.fit q := by
    intro q; rw [h2]; simp only [hnew]
  have hnext : ∀ q, q ∈ s'.next ↔ q ∈ s.next ∨ (q < N ∧ dom p q = true ∧ s.n q = 1) := by
    intro q; rw [h3, List.mem_append, List.mem_filter, decide_eq_true_eq, hnew]
  -- old ranks are kept
  have hold : ∀ q < N, ∀ r, s.fit q = some r → s'.fit q = some r := by
    intro q hq r hr
    have : s.n q = 0 := (h.some_iff q hq).1 (by rw [hr]; rfl)
    rw [hfit', if_neg (by omega), hr]
  have hzero : ∀ q < N, s'.n q = 0 ↔ s.n q = 0 ∨ (dom p q = true ∧ s.n q = 1) := by
    intro q hq
    rw [h1]
    by_cases hd : dom p q = true
    · rw [if_pos (mem_dominatedBy.2 ⟨hq, hd⟩)]
      have := hposq q hq hd
      simp only [hd, true_and]; omega
    · rw [if_neg (fun hm => hd (mem_dominatedBy.1 hm).2)]; simp [hd]
  have hlt : ∀ q ∈ E ++ p :: todo ++ s.next, q < N := fun q hq => ((h.mem q).1 hq).1
  refine ⟨hn', ?_, ?_, ?_, ?_, ?_, ?_, ?_, ?_, ?_⟩
  · rw [h3]
    have hnd := h.nodup
    have e : E ++ [p] ++ todo ++ (s.next ++ (dominatedBy dom N p).filter fun q => s.n q - 1 = 0) =
        (E ++ p :: todo ++ s.next) ++ (dominatedBy dom N p).filter fun q => s.n q - 1 = 0 := by simp
    rw [e, List.nodup_append]
    refine ⟨hnd, (nodup_dominatedBy dom N p).filter _, ?_⟩
    intro a ha b hb hab
    subst hab
    rw [List.mem_filter, decide_eq_true_eq, hnew] at hb
    have := ((h.mem a).1 ha).2
    omega
  · intro q
    have e : q ∈ E ++ [p] ++ todo ++ s'.next ↔ q ∈ E ++ p :: todo ++ s.next ∨
        (q < N ∧ dom p q = true ∧ s.n q = 1) := by
      simp only [List.mem_append, hnext, List.mem_cons, List.mem_singleton, List.not_mem_nil, or_false]
      tauto
    rw [e, h.mem]
    constructor
    · rintro (⟨a, b⟩ | ⟨a, b⟩)
      · exact ⟨a, (hzero q a).2 (Or.inl b)⟩
      · exact ⟨a, (hzero q a).2 (Or.inr b)⟩
    · rintro ⟨a, b⟩
      rcases (hzero q a).1 b with b | b
      · exact Or.inl ⟨a, b⟩
      · exact Or.inr ⟨a, b⟩
  · intro q hq
    rw [hzero q hq, hfit']
    by_cases hcond : q < N ∧ dom p q = true ∧ s.n q = 1
    · rw [if_pos hcond]; simp [hcond.2]
    · rw [if_neg hcond, h.some_iff q hq]
      constructor
      · exact Or.inl
      · rintro (a | a)
        · exact a
        · exact absurd ⟨hq, a⟩ hcond
  · intro q hq
    rw [List.mem_append, List.mem_singleton] at hq
    rcases hq with hq | rfl
    · obtain ⟨r, hr, hrc⟩ := h.fitE q hq
      exact ⟨r, hold q (hlt q (by simp [hq])) r hr, hrc⟩
    · exact ⟨c, hold q hpN c hpfit, le_rfl⟩
  · intro q hq
    exact hold q (hlt q (by simp [hq])) c (h.fitTodo q (by simp [hq]))
  · intro q hq
    rcases (hnext q).1 hq with hq | hq
    · exact hold q (hlt q (by simp [hq])) _ (h.fitNext q hq)
    · rw [hfit', if_pos hq]
  · intro q hq r hr
    rw [hfit'] at hr
    split at hr
    · simp at hr; omega
    · exact h.pos q hq r hr
  · intro q hq r hr x hx hd
    rw [hfit'] at hr
    split at hr
    · rename_i hcond
      simp only [Option.some.injEq] at hr
      have hz : s'.n q = 0 := (hzero q hq).2 (Or.inr hcond.2)
      rw [hn' q hq, left_zero] at hz
      have hxE := hz x hx hd
      rw [List.mem_append, List.mem_singleton] at hxE
      rcases hxE with hxE | rfl
      · obtain ⟨r', hr', hrc⟩ := h.fitE x hxE
        exact ⟨r', by omega, hold x hx r' hr'⟩
      · exact ⟨c, by omega, hold x hx c hpfit⟩
    · obtain ⟨r', h1', h2'⟩ := h.gt q hq r hr x hx hd
      exact ⟨r', h1', hold x hx r' h2'⟩
  · intro q hq r hr
    rw [hfit'] at hr
    split at hr
    · rename_i hcond
      simp only [Option.some.injEq] at hr
      refine Or.inr ⟨p, hpN, hcond.2.1, ?_⟩
      rw [← hr]
      exact hold p hpN c hpfit
    · rcases h.step q hq r hr with h' | ⟨x, hx, hd, hf⟩
      · exact Or.inl h'
      · exact Or.inr ⟨x, hx, hd, hold x hx _ hf⟩

/-- Expanding a whole front. -/
theorem DepthInv.front {dom : Nat → Nat → Bool} {N c : Nat} (hc : 1 ≤ c) {E todo : List Nat}
    {s : DepthState} (h : DepthInv dom N c E todo s) :
    DepthInv dom N c (E ++ todo) [] (depthFront dom N c todo s) := by
  induction todo generalizing E s with
  | nil => simpa [depthFront] using h
  | cons p todo ih =>
    have := ih (h.expand hc)
    simpa [depthFront] using this

theorem DepthInv.nextFront {dom : Nat → Nat → Bool} {N c : Nat} {E : List Nat} {s : DepthState}
    (h : DepthInv dom N c E [] s) : DepthInv dom N (c + 1) E s.next { s with next := [] } := by
  refine ⟨h.cnt, ?_, ?_, h.some_iff, ?_, ?_, ?_, h.pos, h.gt, h.step⟩
  · simpa using h.nodup
  · intro q; simpa using h.mem q
  · intro q hq
    obtain ⟨r, h1, h2⟩ := h.fitE q hq
    exact ⟨r, h1, by omega⟩
  · intro q hq; exact h.fitNext q hq
  · intro q hq; simp at hq

/-- When the front is empty everybody has been ranked. -/
theorem DepthInv.done {dom : Nat → Nat → Bool} {N c : Nat} {E : List Nat} {s : DepthState}
    (hirr : ∀ p, dom p p = false)
    (htr : ∀ p q r, dom p q = true → dom q r = true → dom p r = true)
    (h : DepthInv dom N c E [] s) (hnext : s.next = []) :
    ∃ r, (∀ q < N, s.fit q = some (r q)) ∧ LocalDepth N dom r := by
  have key : ∀ k, ∀ q < N, ((List.range N).filter fun p => dom p q).length ≤ k → s.n q = 0 := by
    intro k
    induction k with
    | zero =>
      intro q hq hk
      rw [h.cnt q hq, left_zero]
      intro p hp hd
      have : (List.range N).filter (fun p => dom p q) = [] := List.length_eq_zero_iff.1 (by omega)
      rw [List.filter_eq_nil_iff] at this
      exact absurd hd (this p (List.mem_range.2 hp))
    | succ k ih =>
      intro q hq hk
      rw [h.cnt q hq, left_zero]
      intro p hp hd
      have hp0 : s.n p = 0 := by
        apply ih p hp
        -- dominators of p are dominators of q other than p
        have hsub : ((List.range N).filter fun x => dom x p) ⊆
            ((List.range N).filter fun x => dom x q).erase p := by
          intro x hx
          rw [List.mem_filter, List.mem_range] at hx
          have hxp : x ≠ p := fun e => by rw [e, hirr] at hx; simp at hx
          rw [List.mem_erase_of_ne hxp, List.mem_filter, List.mem_range]
          exact ⟨hx.1, htr x p q hx.2 hd⟩
        have hlen := ((List.nodup_range (n := N)).filter (fun x => dom x p)).length_le_of_subset hsub
        have hmem : p ∈ (List.range N).filter fun x => dom x q := by simp [hp, hd]
        rw [List.length_erase_of_mem hmem] at hlen
        have := List.length_pos_of_mem hmem
        omega
      have := (h.mem p).2 ⟨hp, hp0⟩
      simpa [hnext] using this
  have hall : ∀ q < N, s.n q = 0 := fun q hq => key _ q hq le_rfl
  have hsome : ∀ q < N, (s.fit q).isSome := fun q hq => (h.some_iff q hq).2 (hall q hq)
  refine ⟨fun q => (s.fit q).getD 0, ?_, ?_, ?_, ?_⟩
  · intro q hq
    obtain ⟨r, hr⟩ := Option.isSome_iff_exists.1 (hsome q hq)
    simp [hr]
  · intro q hq
    obtain ⟨r, hr⟩ := Option.isSome_iff_exists.1 (hsome q hq)
    simpa [hr] using h.pos q hq r hr
  · intro q hq p hp hd
    obtain ⟨r, hr⟩ := Option.isSome_iff_exists.1 (hsome q hq)
    obtain ⟨r', h1, h2⟩ := h.gt q hq r hr p hp hd
    simpa [hr, h2] using h1
  · intro q hq
    obtain ⟨r, hr⟩ := Option.isSome_iff_exists.1 (hsome q hq)
    have hpos := h.pos q hq r hr
    rcases h.step q hq r hr with h1 | ⟨p, hp, hd, hf⟩
    · left; simpa [hr] using h1
    · right
      refine ⟨p, hp, hd, ?_⟩
      simp [hr, hf]; omega

theorem depthLoop_spec {dom : Nat → Nat → Bool} {N : Nat} (hirr : ∀ p, dom p p = false)
    (htr : ∀ p q r, dom p q = true → dom q r = true → dom p r = true) (fuel c : Nat) (hc : 1 ≤ c)
    (E todo : List Nat) (s : DepthState) (h : DepthInv dom N c E todo { s with next := [] })
    (hE : c ≤ E.length + 1) (hf : N + 2 ≤ fuel + E.length) :
    ∃ fit r, depthLoop dom N fuel c todo s = some fit ∧ (∀ q < N, fit q = some (r q)) ∧
      LocalDepth N dom r := by
  have hlenN : ∀ l : List Nat, l.Nodup → (∀ q ∈ l, q < N) → l.length ≤ N := by
    intro l hl hm
    have := hl.length_le_of_subset (l₂ := List.range N) (fun q hq => List.mem_range.2 (hm q hq))
    simpa using this
  induction fuel generalizing c E todo s with
  | zero =>
    have := hlenN E (by have := h.nodup; rw [List.append_assoc, List.nodup_append] at this; exact this.1)
      (fun q hq => ((h.mem q).1 (by simp [hq])).1)
    omega
  | succ fuel ih =>
    unfold depthLoop
    by_cases ht : todo = []
    · subst ht
      obtain ⟨r, h1, h2⟩ := h.done hirr htr rfl
      exact ⟨s.fit, r, by simp, h1, h2⟩
    · have hlen := hlenN (E ++ todo) (by simpa using h.nodup)
        (fun q hq => ((h.mem q).1 (by simpa using hq)).1)
      rw [List.length_append] at hlen
      have hpos : 0 < todo.length := List.length_pos_iff.2 ht
      rw [if_neg ht, if_pos (by omega)]
      have h' := (h.front hc).nextFront
      exact ih (c + 1) (by omega) (E ++ todo) _ _ h' (by rw [List.length_append]; omega)
        (by rw [List.length_append]; omega)

theorem dominatorCount_eq {dom : Nat → Nat → Bool} (hasym : ∀ p q, dom p q = true → dom q p = false)
    (N p : Nat) : dominatorCount dom N p = ((List.range N).filter fun q => dom q p).length := by
  unfold dominatorCount
  have : ∀ (l : List Nat) (a : Nat),
      l.foldl (fun n q => if dom p q then n else if dom q p then n + 1 else n) a =
        a + (l.filter fun q => dom q p).length := by
    intro l
    induction l with
    | nil => simp
    | cons x l ih =>
      intro a
      rw [List.foldl_cons, ih, List.filter_cons]
      by_cases h1 : dom p x = true
      · simp [h1, hasym p x h1]
      · by_cases h2 : dom x p = true
        · simp [h1, h2]; omega
        · simp [h1, h2]
  simpa using this (List.range N) 0

theorem depthInit_spec {dom : Nat → Nat → Bool} (hasym : ∀ p q, dom p q = true → dom q p = false)
    (N : Nat) :
    let s := depthInit dom N
    (∀ q < N, s.n q = left dom N [] q) ∧
    (∀ q, s.fit q = if q < N ∧ left dom N [] q = 0 then some 1 else none) ∧
    s.next = (List.range N).filter fun q => left dom N [] q = 0 := by
  have : ∀ k ≤ N,
      let s := (List.range k).foldl (depthInitStep dom N) ⟨fun _ => 0, fun _ => none, []⟩
      (∀ q < k, s.n q = left dom N [] q) ∧
      (∀ q, s.fit q = if q < k ∧ left dom N [] q = 0 then some 1 else none) ∧
      s.next = (List.range k).filter fun q => left dom N [] q = 0 := by
    intro k hk
    induction k with
    | zero => simp
    | succ k ih =>
      obtain ⟨h1, h2, h3⟩ := ih (by omega)
      have hd : dominatorCount dom N k = left dom N [] k := by
        rw [dominatorCount_eq hasym, left_nil]
      rw [List.range_succ, List.foldl_append]
      simp only [List.foldl_cons, List.foldl_nil, depthInitStep, put_same, hd]
      refine ⟨?_, ?_, ?_⟩
      · intro q hq
        by_cases hqk : q = k
        · subst hqk; split <;> simp
        · have := h1 q (by omega)
          split <;> simp [put_ne _ _ hqk, this]
      · intro q
        by_cases hqk : q = k
        · subst hqk
          by_cases h0 : left dom N [] q = 0
          · simp [h0]
          · simp [h0, h2]
        · by_cases h0 : left dom N [] k = 0
          · simp only [h0, if_true, put_ne _ _ hqk, h2]
            have : q < k + 1 ↔ q < k := by omega
            simp [this]
          · simp only [h0, if_false, h2]
            have : q < k + 1 ↔ q < k := by omega
            simp [this]
      · by_cases h0 : left dom N [] k = 0
        · simp [h0, h3, List.filter_append]
        · simp [h0, h3, List.filter_append]
  exact this N le_rfl

theorem mObjectives_spec {dom : Nat → Nat → Bool} {N : Nat} (hirr : ∀ p, dom p p = false)
    (htr : ∀ p q r, dom p q = true → dom q r = true → dom p r = true) :
    ∃ fit r, mObjectives dom N = some fit ∧ (∀ q < N, fit q = some (r q)) ∧ LocalDepth N dom r := by
  have hasym : ∀ p q, dom p q = true → dom q p = false := by
    intro p q h1
    by_contra h2
    have := htr p q p h1 (by simpa using h2)
    rw [hirr] at this; simp at this
  obtain ⟨h1, h2, h3⟩ := depthInit_spec hasym N
  unfold mObjectives
  apply depthLoop_spec hirr htr (N + 2) 1 le_rfl [] _ _ _ (by simp) (by simp)
  have hm : ∀ q, q ∈ (depthInit dom N).next ↔ q < N ∧ left dom N [] q = 0 := by
    intro q; rw [h3]; simp
  refine ⟨h1, ?_, ?_, ?_, ?_, ?_, ?_, ?_, ?_, ?_⟩
  · simp only [List.nil_append, List.append_nil, h3]
    exact List.nodup_range.filter _
  · intro q
    simp only [List.nil_append, List.append_nil, hm]
    constructor
    · rintro ⟨a, b⟩; exact ⟨a, by rw [h1 q a, b]⟩
    · rintro ⟨a, b⟩; exact ⟨a, by rw [← h1 q a, b]⟩
  · intro q hq
    simp only [h2, h1 q hq, hq, true_and]
    split <;> simp_all
  · simp
  · intro q hq
    simp only [h2, (hm q).1 hq, and_self, if_true]
  · simp
  · intro q hq r hr
    simp only [h2] at hr
    split at hr <;> simp_all
  · intro q hq r hr p hp hd
    simp only [h2] at hr
    split at hr
    · rename_i hc
      have := left_zero.1 hc.2 p hp hd
      simp at this
    · simp at hr
  · intro q hq r hr
    simp only [h2] at hr
    split at hr
    · left; simpa using hr.symm
    · simp at hr


/-! ### Patience piles -/

/-- Ranks given by the piles. -/
def piles {F : Type} [LinearOrder F] : List F → List F → List Nat
  | _, [] => []
  | d, v :: l => (upperBound d v + 1) :: piles (patienceStep d v).2 l

/-- The ranks `x.2` are depths for the relation "earlier and not larger". -/
def PileGood {F : Type} [LinearOrder F] (l : List (F × Nat)) : Prop :=
  ∀ (i : Nat) (x : F × Nat), l[i]? = some x → 1 ≤ x.2 ∧
    (∀ (j : Nat) (y : F × Nat), j < i → l[j]? = some y → y.1 ≤ x.1 → y.2 < x.2) ∧
    (x.2 = 1 ∨ ∃ (j : Nat) (y : F × Nat), j < i ∧ l[j]? = some y ∧ y.1 ≤ x.1 ∧ y.2 + 1 = x.2)

/-- Invariant on the pile tops. -/
structure PileInv {F : Type} [LinearOrder F] (past : List (F × Nat)) (d : List F) : Prop where
  sorted : d.Pairwise (· ≤ ·)
  low : ∀ x ∈ past, ∃ t, d[x.2 - 1]? = some t ∧ t ≤ x.1
  top : ∀ f t, d[f]? = some t → (t, f + 1) ∈ past

theorem upperBound_le {F : Type} [LinearOrder F] (d : List F) (v : F) : upperBound d v ≤ d.length :=
  List.findIdx_le_length

theorem upperBound_lt {F : Type} [LinearOrder F] {d : List F} {v t : F} {f : Nat}
    (hf : f < upperBound d v) (h : d[f]? = some t) : t ≤ v := by
  obtain ⟨hl, rfl⟩ := List.getElem?_eq_some_iff.1 h
  have := List.not_of_lt_findIdx hf
  simpa using this

theorem upperBound_ge {F : Type} [LinearOrder F] {d : List F} {v t : F} {f : Nat}
    (hs : d.Pairwise (· ≤ ·)) (hf : upperBound d v ≤ f) (h : d[f]? = some t) : v < t := by
  obtain ⟨hl, rfl⟩ := List.getElem?_eq_some_iff.1 h
  have hu : upperBound d v < d.length := by omega
  have h0 : v < d[upperBound d v] := by
    have := List.findIdx_getElem (p := fun x => decide (v < x)) (w := hu)
    exact of_decide_eq_true this
  rcases Nat.lt_or_eq_of_le hf with hlt | heq
  · exact lt_of_lt_of_le h0 (List.pairwise_iff_getElem.1 hs _ _ hu hl hlt)
  · simpa [heq] using h0

theorem PileInv.step {F : Type} [LinearOrder F] {past : List (F × Nat)} {d : List F}
    (h : PileInv past d) (hg : PileGood past) (v : F) :
    PileInv (past ++ [(v, upperBound d v + 1)]) (patienceStep d v).2 ∧
    PileGood (past ++ [(v, upperBound d v + 1)]) := by
  have hget : ∀ f, (patienceStep d v).2[f]? = if f = upperBound d v then some v else d[f]? := by
    intro f
    unfold patienceStep
    have hle := upperBound_le d v
    by_cases he : upperBound d v = d.length
    · simp only [he, if_true, List.getElem?_append]
      by_cases hf : f < d.length
      · simp [hf, Nat.ne_of_lt hf]
      · by_cases hf' : f = d.length
        · simp [hf']
        · have : d[f]? = none := by simp; omega
          rw [if_neg hf, if_neg hf', this]
          have : f - d.length ≠ 0 := by omega
          simp [this]
    · simp only [he, if_false, List.getElem?_set]
      by_cases hf : f = upperBound d v
      · subst hf; simp; omega
      · rw [if_neg (Ne.symm hf), if_neg hf]
  refine ⟨⟨?_, ?_, ?_⟩, ?_⟩
  · rw [List.pairwise_iff_getElem]
    intro i j hi hj hij
    have hi' : (patienceStep d v).2[i]? = some _ := List.getElem?_eq_getElem hi
    have hj' : (patienceStep d v).2[j]? = some _ := List.getElem?_eq_getElem hj
    rw [hget] at hi' hj'
    generalize (patienceStep d v).2[i] = a at hi' ⊢
    generalize (patienceStep d v).2[j] = b at hj' ⊢
    by_cases h1 : i = upperBound d v
    · rw [if_pos h1] at hi'
      rw [if_neg (by omega)] at hj'
      simp only [Option.some.injEq] at hi'
      rw [← hi']
      exact (upperBound_ge h.sorted (by omega) hj').le
    · rw [if_neg h1] at hi'
      by_cases h2 : j = upperBound d v
      · rw [if_pos h2] at hj'
        simp only [Option.some.injEq] at hj'
        rw [← hj']
        exact upperBound_lt (by omega) hi'
      · rw [if_neg h2] at hj'
        obtain ⟨q1, rfl⟩ := List.getElem?_eq_some_iff.1 hi'
        obtain ⟨q2, rfl⟩ := List.getElem?_eq_some_iff.1 hj'
        exact List.pairwise_iff_getElem.1 h.sorted _ _ q1 q2 hij
  · intro x hx
    rw [List.mem_append, List.mem_singleton] at hx
    rcases hx with hx | rfl
    · obtain ⟨t, h1, h2⟩ := h.low x hx
      rw [hget]
      by_cases he : x.2 - 1 = upperBound d v
      · rw [if_pos he]
        exact ⟨v, rfl, le_trans (upperBound_ge h.sorted (by omega) h1).le h2⟩
      · rw [if_neg he]; exact ⟨t, h1, h2⟩
    · rw [hget]; simp
  · intro f t ht
    rw [hget] at ht
    by_cases he : f = upperBound d v
    · rw [if_pos he] at ht
      simp only [Option.some.injEq] at ht
      simp [he, ht]
    · rw [if_neg he] at ht
      exact List.mem_append_left _ (h.top f t ht)
  · intro i x hx
    rcases Nat.lt_trichotomy i past.length with hi | hi | hi
    · rw [List.getElem?_append_left hi] at hx
      obtain ⟨h1, h2, h3⟩ := hg i x hx
      refine ⟨h1, ?_, ?_⟩
      · intro j y hj hy
        rw [List.getElem?_append_left (by omega)] at hy
        exact h2 j y hj hy
      · rcases h3 with h3 | ⟨j, y, hj, hy, h4⟩
        · exact Or.inl h3
        · exact Or.inr ⟨j, y, hj, by rw [List.getElem?_append_left (by omega)]; exact hy, h4⟩
    · subst hi
      simp only [List.getElem?_append_right (Nat.le_refl _), Nat.sub_self, List.getElem?_cons_zero,
        Option.some.injEq] at hx
      subst hx
      refine ⟨by simp, ?_, ?_⟩
      · intro j y hj hy hle
        rw [List.getElem?_append_left hj] at hy
        have hmem := List.mem_of_getElem? hy
        obtain ⟨t, h1, h2⟩ := h.low y hmem
        have hpos := (hg j y hy).1
        by_contra hcon
        simp only [not_lt] at hcon
        have := upperBound_ge (v := v) h.sorted (by omega) h1
        exact absurd (lt_of_lt_of_le this h2) (not_lt.2 hle)
      · by_cases h0 : upperBound d v = 0
        · left; simp [h0]
        · right
          have hlt : upperBound d v - 1 < d.length := by have := upperBound_le d v; omega
          have hsome : d[upperBound d v - 1]? = some d[upperBound d v - 1] := List.getElem?_eq_getElem hlt
          have hmem := h.top _ _ hsome
          obtain ⟨j, hj⟩ := List.mem_iff_getElem?.1 hmem
          have hjl := (List.getElem?_eq_some_iff.1 hj).1
          refine ⟨j, _, hjl, by rw [List.getElem?_append_left hjl]; exact hj, ?_, by simp; omega⟩
          exact upperBound_lt (v := v) (by omega) hsome
    · rw [List.getElem?_eq_none (by simp; omega)] at hx
      simp at hx

theorem piles_good {F : Type} [LinearOrder F] (l : List F) (past : List (F × Nat)) (d : List F)
    (h : PileInv past d) (hg : PileGood past) : PileGood (past ++ l.zip (piles d l)) := by
  induction l generalizing past d with
  | nil => simpa [piles] using hg
  | cons v l ih =>
    obtain ⟨h1, h2⟩ := h.step hg v
    have := ih _ _ h1 h2
    simpa [piles] using this

theorem piles_length {F : Type} [LinearOrder F] (l d : List F) : (piles d l).length = l.length := by
  induction l generalizing d with
  | nil => rfl
  | cons v l ih => simp [piles, ih]

theorem twoLoop_piles {V F : Type} [LinearOrder F] (val : V → F) (eqv : V → V → Bool) (rm : Bool)
    (N : Nat) (d : List F) (prev : Option V) (l : List V)
    (h : rm = false ∨ (prev.toList ++ l).Pairwise fun a b => eqv b a = false) :
    twoLoop val eqv rm N d prev l = piles d (l.map val) := by
  induction l generalizing d prev with
  | nil => rfl
  | cons v l ih =>
    have hc : prev.any (fun p => rm && eqv v p) = false := by
      cases prev with
      | none => rfl
      | some p =>
        rcases h with rfl | h
        · simp
        · simp only [Option.toList_some, List.singleton_append, List.pairwise_cons] at h
          simp [h.1 v (by simp)]
    unfold twoLoop
    rw [if_neg (by rw [hc]; simp)]
    simp only [List.map_cons, piles]
    rw [ih]
    · rfl
    · rcases h with h | h
      · exact Or.inl h
      · right
        rw [List.pairwise_append] at h
        simpa using h.2.1

end Paradiseo.Moeo
