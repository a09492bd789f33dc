import Verif.Model.EdoAlgo
import Verif.Lemmas.EdoEstim
import Verif.Lemmas.EdoCMA
import Verif.Props.EdoCMA
import Verif.Props.EdoCholesky

/-! # edo: the loop, the criteria on distributions, transformation, matrices of bits (C238 - C241) -/

namespace Paradiseo.Edo

open Paradiseo.EO Finset

variable {D α : Type}

/-! ## C238: what a run of an estimation of distribution algorithm does -/

/-- The generations of a run: each starts from the population the one before left, selects from it, estimates
from the selected and the distribution of the one before, which is accepted, draws as many individuals as
there are, and replaces; all but the last are followed by another.  The run ends with the population
rejected, after the last of them, or with a new distribution rejected. -/
def Follows (p : Parts D α) : Nat → D → List α → List (Gen D α) → Final D α → Prop
  | g, d, pop, [], r => p.select g pop ≠ [] ∧ r.byDistrib = true ∧ r.pop = pop ∧
      r.distrib = p.est d (p.select g pop) ∧ p.dcont g r.distrib = false
  | g, d, pop, e :: tr, r => p.select g pop ≠ [] ∧ e.before = pop ∧ e.selected = p.select g pop ∧
      e.distrib = p.est d e.selected ∧ p.dcont g e.distrib = true ∧ e.current.length = pop.length ∧
      (∀ i, i < pop.length → e.current[i]? = some (p.eval (p.sample g i e.distrib))) ∧
      e.after = p.replace g pop e.current ∧
      ((p.pcont g e.after = true ∧ Follows p (g + 1) e.distrib e.after tr r) ∨
        (p.pcont g e.after = false ∧ tr = [] ∧ r = ⟨e.distrib, e.after, false⟩))

theorem sampled_get (p : Parts D α) (g : Nat) (d : D) (n i : Nat) (hi : i < n) :
    (p.sampled g d n)[i]? = some (p.eval (p.sample g i d)) := by
  simp [Parts.sampled, hi]

theorem loop_follows (p : Parts D α) : ∀ (fuel g : Nat) (d : D) (pop : List α) (tr : List (Gen D α))
    (r : Final D α), p.loop fuel g d pop = .ok (tr, r) → Follows p g d pop tr r := by
  intro fuel
  induction fuel with
  | zero => intro g d pop tr r h; simp [Parts.loop] at h
  | succ n ih =>
    intro g d pop tr r h
    rw [Parts.loop] at h
    by_cases hs : (p.select g pop).isEmpty
    · simp [hs] at h
    · have hs' : p.select g pop ≠ [] := by simpa using hs
      rw [if_neg hs] at h
      dsimp only at h
      by_cases hd : p.dcont g (p.est d (p.select g pop)) = true
      · rw [if_pos hd] at h
        have key : ∀ rest, ((p.pcont g (p.replace g pop (p.sampled g (p.est d (p.select g pop)) pop.length)) = true ∧
            Follows p (g + 1) (p.est d (p.select g pop))
              (p.replace g pop (p.sampled g (p.est d (p.select g pop)) pop.length)) rest r) ∨
            (p.pcont g (p.replace g pop (p.sampled g (p.est d (p.select g pop)) pop.length)) = false ∧ rest = [] ∧
              r = ⟨p.est d (p.select g pop), p.replace g pop (p.sampled g (p.est d (p.select g pop)) pop.length), false⟩)) →
            Follows p g d pop (⟨pop, p.select g pop, p.est d (p.select g pop),
              p.sampled g (p.est d (p.select g pop)) pop.length,
              p.replace g pop (p.sampled g (p.est d (p.select g pop)) pop.length)⟩ :: rest) r := by
          intro rest hr
          exact ⟨hs', rfl, rfl, rfl, hd, by simp [Parts.sampled], fun i hi => sampled_get p g _ _ i hi, rfl, hr⟩
        by_cases hp : p.pcont g (p.replace g pop (p.sampled g (p.est d (p.select g pop)) pop.length)) = true
        · rw [if_pos hp] at h
          cases hl : p.loop n (g + 1) (p.est d (p.select g pop))
              (p.replace g pop (p.sampled g (p.est d (p.select g pop)) pop.length)) with
          | error e => rw [hl] at h; simp at h
          | ok q =>
            obtain ⟨tr', r'⟩ := q
            rw [hl] at h
            simp only [Except.ok.injEq, Prod.mk.injEq] at h
            obtain ⟨rfl, rfl⟩ := h
            exact key _ (.inl ⟨hp, ih _ _ _ _ _ hl⟩)
        · rw [if_neg hp] at h
          simp only [Except.ok.injEq, Prod.mk.injEq] at h
          obtain ⟨rfl, rfl⟩ := h
          exact key _ (.inr ⟨by simpa using hp, rfl, rfl⟩)
      · rw [if_neg hd] at h
        simp only [Except.ok.injEq, Prod.mk.injEq] at h
        obtain ⟨rfl, rfl⟩ := h
        exact ⟨hs', rfl, rfl, rfl, by simpa using hd⟩

/-- Every run that ends is such a sequence of generations, from the initial estimate. -/
theorem C238_generations (p : Parts D α) (fuel : Nat) (d : D) (pop : List α) (tr : List (Gen D α))
    (r : Final D α) (h : p.run fuel d pop = .ok (tr, r)) :
    pop ≠ [] ∧ Follows p 0 (p.estInit d pop) pop tr r := by
  unfold Parts.run at h
  by_cases he : pop.isEmpty
  · simp [he] at h
  · rw [if_neg he] at h
    exact ⟨by simpa using he, loop_follows p fuel 0 _ pop tr r h⟩

theorem follows_sizes (p : Parts D α)
    (hsize : ∀ g (a b : List α), b.length = a.length → (p.replace g a b).length = a.length) :
    ∀ (tr : List (Gen D α)) (g : Nat) (d : D) (pop : List α) (r : Final D α), Follows p g d pop tr r →
      r.pop.length = pop.length ∧ (∀ e ∈ tr, e.current.length = pop.length ∧ e.after.length = pop.length) ∧
      (tr.map fun e => e.current.length).sum = tr.length * pop.length := by
  intro tr
  induction tr with
  | nil => intro g d pop r h; obtain ⟨_, _, h, _⟩ := h; simp [h]
  | cons e tr ih =>
    intro g d pop r h
    obtain ⟨_, _, _, _, _, hl, _, ha, h⟩ := h
    have hal : e.after.length = pop.length := by rw [ha]; exact hsize g _ _ hl
    rcases h with ⟨_, h⟩ | ⟨_, rfl, rfl⟩
    · obtain ⟨h1, h2, h3⟩ := ih _ _ _ _ h
      refine ⟨h1.trans hal, ?_, ?_⟩
      · intro x hx
        rcases List.mem_cons.mp hx with rfl | hx
        · exact ⟨hl, hal⟩
        · rw [← hal]; exact h2 x hx
      · simp only [List.map_cons, List.sum_cons, List.length_cons, h3, hl, hal]
        ring
    · simp [hl, hal]

/-- With a replacement that keeps the size, the size never changes and each completed generation evaluates
as many individuals as there are. -/
theorem C238_sizes (p : Parts D α) (fuel : Nat) (d : D) (pop : List α) (tr : List (Gen D α)) (r : Final D α)
    (hsize : ∀ g (a b : List α), b.length = a.length → (p.replace g a b).length = a.length)
    (h : p.run fuel d pop = .ok (tr, r)) :
    r.pop.length = pop.length ∧ (∀ e ∈ tr, e.after.length = pop.length) ∧
      (tr.map fun e => e.current.length).sum = tr.length * pop.length := by
  obtain ⟨h1, h2, h3⟩ := follows_sizes p hsize tr 0 _ pop r (C238_generations p fuel d pop tr r h).2
  exact ⟨h1, fun e he => (h2 e he).2, h3⟩

theorem follows_best {F : Type} [LinearOrder F] (f : α → F) (p : Parts D α)
    (hbest : ∀ g (a b : List α), ∀ x ∈ a, ∃ y ∈ p.replace g a b, f x ≤ f y) :
    ∀ (tr : List (Gen D α)) (g : Nat) (d : D) (pop : List α) (r : Final D α), Follows p g d pop tr r →
      ∀ x ∈ pop, ∃ y ∈ r.pop, f x ≤ f y := by
  intro tr
  induction tr with
  | nil => intro g d pop r h x hx; obtain ⟨_, _, h, _⟩ := h; exact ⟨x, by rwa [h], le_refl _⟩
  | cons e tr ih =>
    intro g d pop r h x hx
    obtain ⟨_, _, _, _, _, _, _, ha, h⟩ := h
    obtain ⟨y, hy, hxy⟩ := hbest g pop e.current x hx
    rw [← ha] at hy
    rcases h with ⟨_, h⟩ | ⟨_, rfl, rfl⟩
    · obtain ⟨z, hz, hyz⟩ := ih _ _ _ _ h y hy
      exact ⟨z, hz, hxy.trans hyz⟩
    · exact ⟨y, hy, hxy⟩

/-- With a replacement that keeps something as good as each parent, the best is never lost. -/
theorem C238_best {F : Type} [LinearOrder F] (f : α → F) (p : Parts D α) (fuel : Nat) (d : D) (pop : List α)
    (tr : List (Gen D α)) (r : Final D α)
    (hbest : ∀ g (a b : List α), ∀ x ∈ a, ∃ y ∈ p.replace g a b, f x ≤ f y)
    (h : p.run fuel d pop = .ok (tr, r)) : ∀ x ∈ pop, ∃ y ∈ r.pop, f x ≤ f y :=
  follows_best f p hbest tr 0 _ pop r (C238_generations p fuel d pop tr r h).2

theorem follows_final (p : Parts D α) :
    ∀ (tr : List (Gen D α)) (g : Nat) (d : D) (pop : List α) (r : Final D α), Follows p g d pop tr r →
      (r.byDistrib = false → ∃ e ∈ tr.getLast?, r.distrib = e.distrib ∧ r.pop = e.after ∧
        p.pcont (g + tr.length - 1) r.pop = false) ∧
      (r.byDistrib = true → p.dcont (g + tr.length) r.distrib = false ∧
        r.pop = ((tr.getLast?.map Gen.after).getD pop) ∧
        r.distrib = p.est ((tr.getLast?.map Gen.distrib).getD d) (p.select (g + tr.length) r.pop)) := by
  intro tr
  induction tr with
  | nil =>
    intro g d pop r h
    obtain ⟨_, hb, h1, h2, h3⟩ := h
    refine ⟨fun h => by rw [h] at hb; exact absurd hb (by simp), fun _ => ⟨h3, h1, ?_⟩⟩
    rw [h1]; exact h2
  | cons e tr ih =>
    intro g d pop r h
    obtain ⟨_, _, _, _, _, _, _, ha, h⟩ := h
    rcases h with ⟨_, h⟩ | ⟨hp, rfl, rfl⟩
    · obtain ⟨h1, h2⟩ := ih _ _ _ _ h
      have e1 : g + (e :: tr).length = g + 1 + tr.length := by simp only [List.length_cons]; omega
      rw [e1]
      cases htr : tr.getLast? with
      | none =>
        have : tr = [] := by simpa using htr
        subst this
        constructor
        · intro hb
          obtain ⟨x, hx, _⟩ := h1 hb
          simp at hx
        · intro hb
          simpa using h2 hb
      | some x =>
        have hl : (e :: tr).getLast? = some x := by rw [List.getLast?_cons, htr]; rfl
        rw [hl]
        rw [htr] at h1 h2
        exact ⟨h1, h2⟩
    · refine ⟨fun _ => ⟨e, by simp, rfl, rfl, by simpa using hp⟩, fun h => by simp at h⟩

/-- The distribution a run leaves: ended by the criterion on the population, it is the one the last
individuals were drawn from, not an estimate of the population left; ended by the criterion on the
distribution, it is one that was rejected and that no individual was drawn from, and the population is as the
last completed generation left it. -/
theorem C238_final (p : Parts D α) (fuel : Nat) (d : D) (pop : List α) (tr : List (Gen D α)) (r : Final D α)
    (h : p.run fuel d pop = .ok (tr, r)) :
    (r.byDistrib = false → ∃ e ∈ tr.getLast?, r.distrib = e.distrib ∧ r.pop = e.after ∧
      p.pcont (tr.length - 1) r.pop = false) ∧
    (r.byDistrib = true → p.dcont tr.length r.distrib = false ∧
      r.pop = ((tr.getLast?.map Gen.after).getD pop) ∧
      r.distrib = p.est ((tr.getLast?.map Gen.distrib).getD (p.estInit d pop)) (p.select tr.length r.pop)) := by
  simpa using follows_final p tr 0 _ pop r (C238_generations p fuel d pop tr r h).2

theorem loop_stateless (p : Parts D α) (hst : ∀ d d' (xs : List α), p.est d xs = p.est d' xs) (q : Parts D α)
    (hq : q = { p with estInit := q.estInit }) : ∀ (fuel g : Nat) (d d' : D) (pop : List α),
    p.loop fuel g d pop = q.loop fuel g d' pop := by
  intro fuel
  have e1 : q.est = p.est := by rw [hq]
  have e2 : q.select = p.select := by rw [hq]
  have e3 : q.dcont = p.dcont := by rw [hq]
  have e4 : q.sampled = p.sampled := by rw [hq]; rfl
  have e5 : q.replace = p.replace := by rw [hq]
  have e6 : q.pcont = p.pcont := by rw [hq]
  induction fuel with
  | zero => intros; rfl
  | succ n ih =>
    intro g d d' pop
    rw [Parts.loop, Parts.loop, e1, e2, e3, e4, e5, e6, hst d d']
    dsimp only
    rw [ih (g + 1) _ (p.est d' (p.select g pop))]

/-- For an estimator that looks at the selected individuals only, neither the initial estimate nor the
distribution given changes anything. -/
theorem C238_initial_estimate_unused (p : Parts D α) (hst : ∀ d d' (xs : List α), p.est d xs = p.est d' xs)
    (estInit' : D → List α → D) (fuel : Nat) (d d' : D) (pop : List α) :
    p.run fuel d pop = ({ p with estInit := estInit' } : Parts D α).run fuel d' pop := by
  unfold Parts.run
  split
  · rfl
  · exact loop_stateless p hst _ rfl fuel 0 _ _ pop

theorem follows_count (p : Parts Nat α) (hest : ∀ n (xs : List α), p.est n xs = n + 1) :
    ∀ (tr : List (Gen Nat α)) (g : Nat) (d : Nat) (pop : List α) (r : Final Nat α), Follows p g d pop tr r →
      r.distrib = d + tr.length + (if r.byDistrib then 1 else 0) := by
  intro tr
  induction tr with
  | nil =>
    intro g d pop r h
    obtain ⟨_, hb, _, h, _⟩ := h
    rw [h, hest, hb]; simp
  | cons e tr ih =>
    intro g d pop r h
    obtain ⟨_, _, _, hd, _, _, _, _, h⟩ := h
    rcases h with ⟨_, h⟩ | ⟨_, rfl, rfl⟩
    · rw [ih _ _ _ _ h, hd, hest]
      simp only [List.length_cons]; omega
    · rw [hest] at hd
      simp [hd]

/-- With the constructors that take one estimator, it is also the initial one: an adaptive estimator updates
the distribution once more than there are generations, twice before the first individual is drawn. -/
theorem C238_one_estimator (p : Parts Nat α) (hest : ∀ n (xs : List α), p.est n xs = n + 1)
    (hinit : p.estInit = p.est) (fuel d : Nat) (pop : List α) (tr : List (Gen Nat α)) (r : Final Nat α)
    (h : p.run fuel d pop = .ok (tr, r)) :
    r.distrib = d + 1 + tr.length + (if r.byDistrib then 1 else 0) ∧
      ∀ e ∈ tr.head?, e.distrib = d + 2 := by
  have hf := (C238_generations p fuel d pop tr r h).2
  rw [hinit, hest] at hf
  refine ⟨follows_count p hest tr 0 _ pop r hf, ?_⟩
  intro e he
  cases tr with
  | nil => simp at he
  | cons x tr =>
    simp only [List.head?_cons, Option.mem_def, Option.some.injEq] at he
    subst he
    obtain ⟨_, _, _, hd, _⟩ := hf
    rw [hd, hest]

/-- A distribution rejected at once: nothing is drawn and the population is unchanged. -/
theorem C238_rejected_at_once (p : Parts D α) (fuel : Nat) (d : D) (pop : List α) (hne : pop ≠ [])
    (hs : p.select 0 pop ≠ []) (hd : p.dcont 0 (p.est (p.estInit d pop) (p.select 0 pop)) = false) :
    p.run (fuel + 1) d pop = .ok ([], ⟨p.est (p.estInit d pop) (p.select 0 pop), pop, true⟩) := by
  unfold Parts.run
  rw [if_neg (by simpa using hne), Parts.loop, if_neg (by simpa using hs)]
  dsimp only
  rw [if_neg (by simp [hd])]

/-- An algorithm on numbers: the distribution is the sum of the selected plus its old value; two generations. -/
def demo : Parts Nat Nat where
  estInit d xs := d + xs.length
  est d xs := d + xs.sum
  select _ xs := xs.take 1
  dcont _ d := decide (d < 100)
  sample g i d := d + g + i
  eval x := x
  replace _ a b := (a ++ b).drop a.length
  pcont g _ := decide (g < 1)

example : (demo.run 5 0 [3, 1]).map (fun q => (q.1.map Gen.current, q.2.distrib, q.2.pop, q.2.byDistrib)) =
    .ok ([[5, 6], [11, 12]], 10, [11, 12], false) := by decide +kernel

example : (∀ g (a b : List Nat), b.length = a.length → (demo.replace g a b).length = a.length) := by
  intro g a b h; simp [demo, h]

/-! ## C239: criteria on distributions -/

theorem foldl_max_spec (es : List ℝ) : ∀ e : ℝ, (∀ x ∈ e :: es, x ≤ es.foldl max e) ∧ es.foldl max e ∈ e :: es := by
  induction es with
  | nil => intro e; simp
  | cons a es ih =>
    intro e
    obtain ⟨h1, h2⟩ := ih (max e a)
    refine ⟨?_, ?_⟩
    · intro x hx
      rw [List.foldl_cons]
      have hm := h1 (max e a) (by simp)
      rcases List.mem_cons.mp hx with rfl | hx
      · exact (le_max_left _ _).trans hm
      · rcases List.mem_cons.mp hx with rfl | hx
        · exact (le_max_right _ _).trans hm
        · exact h1 x (by simp [hx])
    · rw [List.foldl_cons]
      rcases List.mem_cons.mp h2 with h | h
      · rw [h]; rcases max_choice e a with h | h <;> rw [h] <;> simp
      · simp [h]

theorem foldl_min_spec (es : List ℝ) : ∀ e : ℝ, (∀ x ∈ e :: es, es.foldl min e ≤ x) ∧ es.foldl min e ∈ e :: es := by
  induction es with
  | nil => intro e; simp
  | cons a es ih =>
    intro e
    obtain ⟨h1, h2⟩ := ih (min e a)
    refine ⟨?_, ?_⟩
    · intro x hx
      rw [List.foldl_cons]
      have hm := h1 (min e a) (by simp)
      rcases List.mem_cons.mp hx with rfl | hx
      · exact hm.trans (min_le_left _ _)
      · rcases List.mem_cons.mp hx with rfl | hx
        · exact hm.trans (min_le_right _ _)
        · exact h1 x (by simp [hx])
    · rw [List.foldl_cons]
      rcases List.mem_cons.mp h2 with h | h
      · rw [h]; rcases min_choice e a with h | h <;> rw [h] <;> simp
      · simp [h]

/-- The answer, for a decomposition that succeeded with smallest eigenvalue `lo` and largest `hi`: it goes
on if and only if `lo` is positive and `hi < threshold * lo`, or `lo` is negative and
`hi > threshold * lo`. -/
theorem C239_condition (threshold lo hi : ℝ) (ev : List ℝ) (hlo : lo ∈ ev) (hhi : hi ∈ ev)
    (hb : ∀ x ∈ ev, lo ≤ x ∧ x ≤ hi) :
    ∃ b, illCovar threshold true ev = .ok b ∧
      (b = true ↔ (0 < lo ∧ hi < threshold * lo) ∨ (lo < 0 ∧ threshold * lo < hi)) := by
  cases ev with
  | nil => simp at hlo
  | cons e es =>
    obtain ⟨m1, m2⟩ := foldl_max_spec es e
    obtain ⟨n1, n2⟩ := foldl_min_spec es e
    have em : es.foldl max e = hi := le_antisymm (hb _ m2).2 (m1 _ hhi)
    have en : es.foldl min e = lo := le_antisymm (n1 _ hlo) (hb _ n2).1
    simp only [illCovar, maxCoeff, minCoeff, em, en, Bool.not_true, Bool.false_eq_true, if_false]
    rcases lt_trichotomy lo 0 with h | h | h
    · rw [if_neg h.ne]
      by_cases hc : hi / lo ≥ threshold
      · refine ⟨false, by rw [if_pos hc], ?_⟩
        have := (le_div_iff_of_neg h).mp hc
        simp only [Bool.false_eq_true, false_iff, not_or, not_and, not_lt]
        exact ⟨fun h' => absurd h h'.not_gt, fun _ => this⟩
      · refine ⟨true, by rw [if_neg hc], ?_⟩
        push Not at hc
        simp only [true_iff]
        exact .inr ⟨h, (div_lt_iff_of_neg h).mp hc⟩
    · subst h
      exact ⟨false, by simp, by simp⟩
    · rw [if_neg h.ne']
      by_cases hc : hi / lo ≥ threshold
      · refine ⟨false, by rw [if_pos hc], ?_⟩
        have := (le_div_iff₀ h).mp hc
        simp only [Bool.false_eq_true, false_iff, not_or, not_and, not_lt]
        exact ⟨fun _ => this, fun h' => absurd h h'.not_gt⟩
      · refine ⟨true, by rw [if_neg hc], ?_⟩
        push Not at hc
        simp only [true_iff]
        exact .inl ⟨h, (div_lt_iff₀ h).mp hc⟩

/-- A failed decomposition ends the run. -/
theorem C239_failed (threshold : ℝ) (ev : List ℝ) : illCovar threshold false ev = .ok false := rfl

/-- For a positive definite matrix, with exact eigenvalues, the criterion is the condition number. -/
theorem C239_positive {N : Nat} (hN : 0 < N) {eig : Mat → Mat × (Nat → ℝ)} (heig : IsEig N eig) {C : Mat}
    (hsym : ∀ i j, C i j = C j i) (hpos : PosDef N C) (threshold : ℝ) :
    ∃ b, illCovar threshold true ((List.range N).map (eig C).2) = .ok b ∧
      (b = true ↔ ∀ k l, k < N → l < N → (eig C).2 k / (eig C).2 l < threshold) := by
  have hev : ∀ k, k < N → 0 < (eig C).2 k := by
    intro k hk
    obtain ⟨e, hx⟩ := eig_quad (heig.orth C hsym) (heig.diag C hsym) hk
    rw [← e]
    exact hpos _ hx
  have hne : ((range N).image (eig C).2).Nonempty := ⟨(eig C).2 0, mem_image_of_mem _ (mem_range.mpr hN)⟩
  obtain ⟨k, hk, hke⟩ := mem_image.mp (min'_mem _ hne)
  obtain ⟨l, hl, hle⟩ := mem_image.mp (max'_mem _ hne)
  rw [mem_range] at hk hl
  obtain ⟨b, hb, hiff⟩ := C239_condition threshold ((eig C).2 k) ((eig C).2 l)
    ((List.range N).map (eig C).2) (List.mem_map.mpr ⟨k, by simpa using hk, rfl⟩)
    (List.mem_map.mpr ⟨l, by simpa using hl, rfl⟩) (by
      intro x hx
      obtain ⟨i, hi, rfl⟩ := List.mem_map.mp hx
      have hi' : (eig C).2 i ∈ (range N).image (eig C).2 := mem_image_of_mem _ (by simpa using hi)
      rw [hke, hle]
      exact ⟨min'_le _ _ hi', le_max' _ _ hi'⟩)
  refine ⟨b, hb, ?_⟩
  rw [hiff]
  have hkp := hev k hk
  constructor
  · rintro (⟨_, h⟩ | ⟨h, _⟩)
    · intro i j hi hj
      have h1 : (eig C).2 i ≤ (eig C).2 l := by
        rw [hle]; exact le_max' _ _ (mem_image_of_mem _ (mem_range.mpr hi))
      have h2 : (eig C).2 k ≤ (eig C).2 j := by
        rw [hke]; exact min'_le _ _ (mem_image_of_mem _ (mem_range.mpr hj))
      calc (eig C).2 i / (eig C).2 j ≤ (eig C).2 l / (eig C).2 k :=
            div_le_div₀ (hev l hl).le h1 hkp h2
        _ < threshold := (div_lt_iff₀ hkp).mpr h
    · exact absurd h hkp.not_gt
  · intro h
    exact .inl ⟨hkp, (div_lt_iff₀ hkp).mp (h l k hl hk)⟩

/-- For a matrix that has a negative direction, which is no covariance matrix, it always goes on, as soon as
the threshold is above one. -/
theorem C239_indefinite {N : Nat} {eig : Mat → Mat × (Nat → ℝ)} (heig : IsEig N eig) {C : Mat}
    (hsym : ∀ i j, C i j = C j i) (hneg : ∃ x, quad N C x < 0) {threshold : ℝ} (ht : 1 < threshold) :
    illCovar threshold true ((List.range N).map (eig C).2) = .ok true := by
  obtain ⟨x, hx⟩ := hneg
  have hq : quad N C x = ∑ k ∈ range N, (eig C).2 k * (∑ a ∈ range N, x a * (eig C).1 a k) ^ 2 := by
    rw [quad_congr (heig.diag C hsym), quad_sum]
    refine sum_congr rfl fun k _ => ?_
    have e : quad N (fun a b => (eig C).1 a k * (eig C).2 k * (eig C).1 b k) x =
        (eig C).2 k * quad N (fun a b => (eig C).1 a k * (eig C).1 b k) x := by
      rw [← quad_smul]
      exact quad_congr (fun a b _ _ => by ring) _
    rw [e, quad_outer N (fun a => (eig C).1 a k)]
  obtain ⟨m, hm, hmneg⟩ : ∃ m, m < N ∧ (eig C).2 m < 0 := by
    by_contra hcon
    push Not at hcon
    rw [hq] at hx
    exact absurd hx (not_lt.mpr (sum_nonneg fun k hk => mul_nonneg (hcon k (mem_range.mp hk)) (sq_nonneg _)))
  have hne : ((range N).image (eig C).2).Nonempty := ⟨(eig C).2 m, mem_image_of_mem _ (mem_range.mpr hm)⟩
  obtain ⟨k, hk, hke⟩ := mem_image.mp (min'_mem _ hne)
  obtain ⟨l, hl, hle⟩ := mem_image.mp (max'_mem _ hne)
  rw [mem_range] at hk hl
  obtain ⟨b, hb, hiff⟩ := C239_condition threshold ((eig C).2 k) ((eig C).2 l)
    ((List.range N).map (eig C).2) (List.mem_map.mpr ⟨k, by simpa using hk, rfl⟩)
    (List.mem_map.mpr ⟨l, by simpa using hl, rfl⟩) (by
      intro x hx
      obtain ⟨i, hi, rfl⟩ := List.mem_map.mp hx
      have hi' : (eig C).2 i ∈ (range N).image (eig C).2 := mem_image_of_mem _ (by simpa using hi)
      rw [hke, hle]
      exact ⟨min'_le _ _ hi', le_max' _ _ hi'⟩)
  have hkm : (eig C).2 k ≤ (eig C).2 m := by
    rw [hke]; exact min'_le _ _ (mem_image_of_mem _ (mem_range.mpr hm))
  have hkl : (eig C).2 k ≤ (eig C).2 l := by
    rw [hke]; exact min'_le _ _ (mem_image_of_mem _ (mem_range.mpr hl))
  have hk0 : (eig C).2 k < 0 := hkm.trans_lt hmneg
  rw [hb, hiff.mpr (.inr ⟨hk0, by nlinarith⟩)]

example : ∃ eig, IsEig 2 eig ∧ (∀ i j, V3 i j = V3 j i) ∧ ¬ PosSemi 2 V3 ∧
    illCovar 1000000 true ((List.range 2).map (eig V3).2) = .ok true := by
  obtain ⟨eig, he⟩ := exists_isEig 2
  refine ⟨eig, he, V3_sym, V3_not_semi, C239_indefinite he V3_sym ?_ (by norm_num)⟩
  have := V3_not_semi
  unfold PosSemi at this
  push Not at this
  exact this

theorem finVec_iff (v : List Fl) : finVec v = true ↔ ∀ x ∈ v, ∃ q, x = .fin q := by
  induction v with
  | nil => simp [finVec]
  | cons x v ih =>
    unfold finVec
    cases x <;> simp [Fl.isFinite, ih]

theorem finMat_iff (m : List (List Fl)) : finMat m = true ↔ ∀ r ∈ m, ∀ x ∈ r, ∃ q, x = .fin q := by
  induction m with
  | nil => simp [finMat]
  | cons r m ih =>
    unfold finMat
    cases h : finVec r with
    | true =>
      have h' := (finVec_iff r).mp h
      simp only [Bool.not_true, Bool.false_eq_true, if_false, ih, List.mem_cons, forall_eq_or_imp]
      exact ⟨fun hm => ⟨h', hm⟩, fun hm => hm.2⟩
    | false =>
      have : ¬ ∀ x ∈ r, ∃ q, x = Fl.fin q := fun hc => by rw [(finVec_iff r).mpr hc] at h; simp at h
      simp only [Bool.not_false, if_true, Bool.false_eq_true, false_iff]
      intro hc
      exact this fun x hx => hc r (by simp) x hx

/-- The criterion on finite parameters goes on if and only if every number of the six parameters is finite. -/
theorem C239_finite (d : AdaptParams) : contFinite d = true ↔
    (∀ r ∈ d.covar, ∀ x ∈ r, ∃ q, x = .fin q) ∧ (∀ r ∈ d.coordSys, ∀ x ∈ r, ∃ q, x = .fin q) ∧
    (∀ x ∈ d.scaling, ∃ q, x = .fin q) ∧ (∀ x ∈ d.pathCovar, ∃ q, x = .fin q) ∧
    (∀ x ∈ d.pathSigma, ∃ q, x = .fin q) ∧ ∃ q, d.sigma = .fin q := by
  unfold contFinite
  have hs : d.sigma.isFinite = true ↔ ∃ q, d.sigma = .fin q := by cases d.sigma <;> simp [Fl.isFinite]
  simp only [Bool.and_eq_true, finVec_iff, finMat_iff, hs]
  tauto

/-- The mean is not looked at: the search goes on with a centre that is not a number. -/
theorem C239_mean_ignored (d : AdaptParams) (m : List Fl) : contFinite { d with mean := m } = contFinite d := rfl

example : contFinite ⟨[.nan, .inf true], [[.fin 1, .fin 0], [.fin 0, .fin 1]], [[.fin 1, .fin 0], [.fin 0, .fin 1]],
    [.fin 1, .fin 1], .fin 1, [.fin 0, .fin 0], [.fin 0, .fin 0]⟩ = true ∧
    contFinite ⟨[.fin 0], [[.nan]], [[.fin 1]], [.fin 1], .fin 1, [.fin 0], [.fin 0]⟩ = false := by decide

/-- Combined criteria go on if and only if all do; they are asked in order up to the first that does not. -/
theorem C239_combined (cs : List (D → Bool)) (d : D) :
    ((combinedDistCont cs d).1 = true ↔ ∀ c ∈ cs, c d = true) ∧
    ∀ i, i < cs.length → (i < (combinedDistCont cs d).2 ↔ ∀ j, j < i → ∀ c ∈ cs[j]?, c d = true) := by
  induction cs with
  | nil => simp [combinedDistCont]
  | cons c cs ih =>
    obtain ⟨h1, h2⟩ := ih
    unfold combinedDistCont
    cases hc : c d with
    | false =>
      refine ⟨by simp [hc], ?_⟩
      intro i hi
      simp only [Bool.not_false, if_true]
      constructor
      · intro h j hj; omega
      · intro h
        by_contra hcon
        have := h 0 (by omega) c (by simp)
        rw [hc] at this; simp at this
    | true =>
      refine ⟨by simp [hc, h1], ?_⟩
      intro i hi
      simp only [Bool.not_true, Bool.false_eq_true, if_false]
      cases i with
      | zero => simp
      | succ i =>
        rw [Nat.add_lt_add_iff_right, h2 i (by simpa using hi)]
        constructor
        · intro h j hj
          cases j with
          | zero => simpa using hc
          | succ j => simpa using h j (by omega)
        · intro h j hj
          simpa using h (j + 1) (by omega)

/-! ## C240: transformation of a population, combined estimators -/

/-- The transformation, whatever it estimates and samples from, leaves no individual at all. -/
theorem C240_transform_empties (est : D → List α → D) (sample : Nat → D → α) (fuel : Nat) (d : D)
    (pop : List α) : transformAdaptive est sample (fuel + 1) d pop = .ok (est d pop, []) := rfl

/-- The combined estimator applies each in turn to the same population; what it returns is what the last
returns, and only that, if the last does not look at the distribution. -/
theorem C240_combined (e : D → List α → D) (ests : List (D → List α → D)) (d : D) (pop : List α) :
    combinedEst [] d pop = d ∧ combinedEst (e :: ests) d pop = combinedEst ests (e d pop) pop ∧
    combinedEst (ests ++ [e]) d pop = e (combinedEst ests d pop) pop ∧
    ((∀ d d', e d pop = e d' pop) → combinedEst (ests ++ [e]) d pop = e d pop) := by
  refine ⟨rfl, rfl, by simp [combinedEst], ?_⟩
  intro h
  simp only [combinedEst, List.foldl_append, List.foldl_cons, List.foldl_nil]
  exact h _ _

/-- The combined estimator that is to forget its distribution writes to it after deleting it: no call is
defined, whatever the estimators, the distribution and the population. -/
theorem C240_stateless_undefined (fresh : D) (ests : List (D → List α → D)) (c : Cell D) (pop : List α) :
    combinedStateless fresh ests c pop = .error .ub := by
  cases c <;> rfl

example : combinedEst [fun d (xs : List Nat) => d + xs.sum, fun d xs => d * xs.length] 1 [2, 3] = 12 := by decide

/-! ## C241: matrices of bits -/

/-- The entry of a matrix. -/
def entry {β : Type} (m : List (List β)) (i j : Nat) : Option β := (m[i]?).bind fun r => r[j]?

theorem zipWith_get {β γ δ : Type} (f : β → γ → δ) (xs : List β) (ys : List γ) (i : Nat) (x : β) (y : γ)
    (hx : xs[i]? = some x) (hy : ys[i]? = some y) : (List.zipWith f xs ys)[i]? = some (f x y) := by
  simp [List.getElem?_zipWith, hx, hy]

/-- A matrix has `rows` rows of `cols` entries. -/
def Shape {β : Type} (rows cols : Nat) (m : List (List β)) : Prop :=
  m.length = rows ∧ ∀ r ∈ m, r.length = cols

theorem Shape.entry {β : Type} {rows cols : Nat} {m : List (List β)} (h : Shape rows cols m) {i j : Nat}
    (hi : i < rows) (hj : j < cols) : ∃ r x, m[i]? = some r ∧ r[j]? = some x := by
  have h1 : i < m.length := by rw [h.1]; exact hi
  have h2 : j < m[i].length := by rw [h.2 _ (List.getElem_mem h1)]; exact hj
  exact ⟨m[i], m[i][j], List.getElem?_eq_getElem h1, List.getElem?_eq_getElem h2⟩

theorem addMat_spec {rows cols : Nat} (n : ℚ) {ps : List (List ℚ)} {x : List (List Bool)}
    (hp : Shape rows cols ps) (hx : Shape rows cols x) :
    Shape rows cols (addMat n ps x) ∧ ∀ i j, i < rows → j < cols → ∀ p ∈ Edo.entry ps i j, ∀ b ∈ Edo.entry x i j,
      Edo.entry (addMat n ps x) i j = some (p + (if b then 1 else 0) / n) := by
  refine ⟨⟨by simp [addMat, hp.1, hx.1], ?_⟩, ?_⟩
  · intro r hr
    obtain ⟨i, hi, rfl⟩ := List.getElem_of_mem hr
    simp only [addMat, List.length_zipWith] at hi
    simp only [addMat, List.getElem_zipWith, List.length_zipWith]
    rw [hp.2 _ (List.getElem_mem (by omega)), hx.2 _ (List.getElem_mem (by omega)), min_self]
  · intro i j hi hj p hpm b hbm
    obtain ⟨r, p', hr, hp'⟩ := hp.entry hi hj
    obtain ⟨s, b', hs, hb'⟩ := hx.entry hi hj
    simp only [Edo.entry, hr, hs, Option.bind_some, hp', hb', Option.mem_def, Option.some.injEq] at hpm hbm
    subst hpm; subst hbm
    have e1 : (addMat n ps x)[i]? = some (List.zipWith (fun p (b : Bool) => p + (if b then 1 else 0) / n) r s) :=
      zipWith_get _ _ _ _ _ _ hr hs
    simp only [Edo.entry, e1, Option.bind_some]
    exact zipWith_get _ _ _ _ _ _ hp' hb'

theorem multiLoop_spec {rows cols : Nat} (n : Nat) (hr : 0 < rows) (hc : 0 < cols)
    (xs : List (List (List Bool))) (ps : List (List ℚ)) (hp : Shape rows cols ps)
    (hxs : ∀ x ∈ xs, Shape rows cols x ∧ ones x ≤ n) :
    ∃ qs, multiLoop n rows cols xs ps = .ok qs ∧ Shape rows cols qs ∧ ∀ i j, i < rows → j < cols →
      ∀ p ∈ entry ps i j, entry qs i j =
        some (p + (xs.countP fun x => entry x i j == some true : ℕ) / (n : ℚ)) := by
  induction xs generalizing ps with
  | nil =>
    refine ⟨ps, rfl, hp, ?_⟩
    intro i j _ _ p h
    simpa using h
  | cons x xs ih =>
    obtain ⟨hx, ho⟩ := hxs x (List.mem_cons_self ..)
    obtain ⟨a1, a2⟩ := addMat_spec (n : ℚ) hp hx
    obtain ⟨qs, g1, g2, g3⟩ := ih (addMat n ps x) a1 fun y hy => hxs y (List.mem_cons_of_mem _ hy)
    have hok : eot2d x rows cols = .ok x := by
      unfold eot2d
      rw [if_neg]
      rintro (h | h | h | ⟨r, hr, h⟩)
      · omega
      · exact h hx.1
      · omega
      · exact h (hx.2 r hr)
    refine ⟨qs, ?_, g2, ?_⟩
    · rw [multiLoop, hok]
      dsimp only
      rw [if_neg (by omega), g1]
    · intro i j hi hj p hpm
      obtain ⟨s, b, hs, hb⟩ := hx.entry hi hj
      have hbm : entry x i j = some b := by simp [entry, hs, hb]
      rw [g3 i j hi hj _ (a2 i j hi hj p hpm b hbm), List.countP_cons]
      congr 1
      cases b <;> simp [hbm] <;> ring

theorem shape_zero (rows cols : Nat) : Shape rows cols (List.replicate rows (List.replicate cols (0 : ℚ))) :=
  ⟨by simp, fun r hr => by rw [List.eq_of_mem_replicate hr]; simp⟩

theorem entry_zero (rows cols i j : Nat) (hi : i < rows) (hj : j < cols) :
    entry (List.replicate rows (List.replicate cols (0 : ℚ))) i j = some 0 := by
  simp [entry, hi, hj]

theorem est_eq {rows cols : Nat} (hr : 0 < rows) (hc : 0 < cols) {pop : List (List (List Bool))}
    (hne : pop ≠ []) (hsh : ∀ x ∈ pop, Shape rows cols x) :
    estBinomialMulti pop = multiLoop pop.length rows cols pop
      (List.replicate rows (List.replicate cols 0)) := by
  match pop, hne with
  | [] :: xs, _ =>
    have := (hsh [] (by simp)).1
    simp at this; omega
  | (r :: rs) :: xs, _ =>
    have h1 := (hsh (r :: rs) (by simp)).1
    have h2 := (hsh (r :: rs) (by simp)).2 r (by simp)
    simp only [List.length_cons] at h1
    unfold estBinomialMulti
    dsimp only
    rw [if_neg (by omega), h1, h2]
    rfl

/-- For individuals of one shape, none of which has more ones than there are individuals, each probability is
the frequency of the ones in its place. -/
theorem C241_frequencies {rows cols : Nat} (hr : 0 < rows) (hc : 0 < cols) (pop : List (List (List Bool)))
    (hne : pop ≠ []) (hsh : ∀ x ∈ pop, Shape rows cols x) (hon : ∀ x ∈ pop, ones x ≤ pop.length) :
    ∃ ps, estBinomialMulti pop = .ok ps ∧ Shape rows cols ps ∧ ∀ i j, i < rows → j < cols →
      entry ps i j = some ((pop.countP fun x => entry x i j == some true : ℕ) / (pop.length : ℚ)) := by
  obtain ⟨qs, h1, h2, h3⟩ := multiLoop_spec pop.length hr hc pop _ (shape_zero rows cols)
    fun x hx => ⟨hsh x hx, hon x hx⟩
  refine ⟨qs, by rw [est_eq hr hc hne hsh, h1], h2, ?_⟩
  intro i j hi hj
  rw [h3 i j hi hj 0 (entry_zero rows cols i j hi hj), zero_add]

theorem multiLoop_asserts {rows cols : Nat} (n : Nat) (xs : List (List (List Bool)))
    (x : List (List Bool)) (hx : x ∈ xs) (ho : n < ones x) (ps : List (List ℚ)) :
    multiLoop n rows cols xs ps = .error .asserted := by
  induction xs generalizing ps with
  | nil => simp at hx
  | cons y ys ih =>
    rw [multiLoop]
    by_cases hc : rows = 0 ∨ y.length ≠ rows ∨ cols = 0 ∨ (∃ r ∈ y, r.length ≠ cols)
    · have : eot2d y rows cols = .error .asserted := if_pos hc
      rw [this]
    · have : eot2d y rows cols = .ok y := if_neg hc
      rw [this]
      dsimp only
      rcases List.mem_cons.mp hx with rfl | hx
      · rw [if_pos ho]
      · split
        · rfl
        · exact ih hx _

/-- One individual with more ones than the population has individuals aborts the estimation, though the
frequencies are well defined. -/
theorem C241_too_many_ones {rows cols : Nat} (hr : 0 < rows) (hc : 0 < cols) (pop : List (List (List Bool)))
    (hsh : ∀ x ∈ pop, Shape rows cols x) (x : List (List Bool)) (hx : x ∈ pop) (ho : pop.length < ones x) :
    estBinomialMulti pop = .error .asserted := by
  rw [est_eq hr hc (List.ne_nil_of_mem hx) hsh]
  exact multiLoop_asserts _ _ x hx ho _

theorem sampleMulti_spec (u : Nat → ℚ) {cols : Nat} (pss : List (List ℚ)) : ∀ (rows t : Nat),
    Shape rows cols pss → Shape rows cols (sampleMulti u t pss) ∧ ∀ i j, i < rows → j < cols →
      ∀ p ∈ entry pss i j, entry (sampleMulti u t pss) i j = some (decide (u (t + i * cols + j) < p)) := by
  induction pss with
  | nil =>
    intro rows t h
    refine ⟨h.1 ▸ ⟨rfl, by simp [sampleMulti]⟩, ?_⟩
    intro i j hi _ p hp
    simp [entry] at hp
  | cons ps pss ih =>
    intro rows t h
    have hl : ps.length = cols := h.2 ps (by simp)
    obtain ⟨k, rfl⟩ : ∃ k, rows = k + 1 := ⟨pss.length, by simpa using h.1.symm⟩
    obtain ⟨⟨h1, h2⟩, h3⟩ := ih k (t + ps.length)
      ⟨by simpa using h.1, fun r hr => h.2 r (List.mem_cons_of_mem _ hr)⟩
    obtain ⟨g1, g2⟩ := sampleBinomial_get u t ps
    refine ⟨⟨by simp [sampleMulti, h1], ?_⟩, ?_⟩
    · intro r hr
      rcases List.mem_cons.mp hr with rfl | hr
      · rw [g1, hl]
      · exact h2 r hr
    · intro i j hi hj p hp
      cases i with
      | zero =>
        simp only [entry, List.getElem?_cons_zero, Option.bind_some, Option.mem_def] at hp
        simpa [entry, sampleMulti] using g2 j p hp
      | succ i =>
        have := h3 i j (by omega) hj p (by simpa [entry] using hp)
        simp only [entry, sampleMulti, List.getElem?_cons_succ] at this ⊢
        rw [this, hl]
        congr 3
        ring_nf

/-- A sample has the shape of the distribution, and an entry that all individuals have in common is in every
sample: what is lost is lost for ever. -/
theorem C241_fixed_bits {rows cols : Nat} (hr : 0 < rows) (hc : 0 < cols) (pop : List (List (List Bool)))
    (hne : pop ≠ []) (hsh : ∀ x ∈ pop, Shape rows cols x) (hon : ∀ x ∈ pop, ones x ≤ pop.length)
    (u : Nat → ℚ) (hu : ∀ t, 0 ≤ u t ∧ u t < 1) (t : Nat) :
    ∃ ps, estBinomialMulti pop = .ok ps ∧ Shape rows cols (sampleMulti u t ps) ∧
      ∀ i j (b : Bool), i < rows → j < cols → (∀ x ∈ pop, entry x i j = some b) →
        entry (sampleMulti u t ps) i j = some b := by
  obtain ⟨ps, h1, h2, h3⟩ := C241_frequencies hr hc pop hne hsh hon
  obtain ⟨g1, g2⟩ := sampleMulti_spec u ps rows t h2
  refine ⟨ps, h1, g1, ?_⟩
  intro i j b hi hj hb
  have hpos : (0 : ℚ) < pop.length := by
    have : 0 < pop.length := List.length_pos_iff.mpr hne
    exact_mod_cast this
  rw [g2 i j hi hj _ (h3 i j hi hj)]
  cases b with
  | true =>
    have : (pop.countP fun x => entry x i j == some true) = pop.length := by
      rw [List.countP_eq_length]
      intro x hx
      simp [hb x hx]
    rw [this, div_self hpos.ne']
    simp [(hu _).2]
  | false =>
    have : (pop.countP fun x => entry x i j == some true) = 0 := by
      rw [List.countP_eq_zero]
      intro x hx
      simp [hb x hx]
    rw [this]
    simp [(hu _).1]

example : estBinomialMulti [[[true, false], [true, false]], [[true, true], [false, false]]] =
      .ok [[1, 1/2], [1/2, 0]] ∧
    estBinomialMulti [[[true, true], [true, false]], [[true, true], [false, false]]] = .error .asserted := by
  decide +kernel

end Paradiseo.Edo
