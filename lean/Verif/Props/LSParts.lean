import Verif.Lemmas.LSParts
import Verif.Props.LocalSearch
import Mathlib.Analysis.SpecificLimits.Basic

/-
Properties C23–C30 and C65–C67: tabu lists, annealing, continuators, variable neighbourhoods,
statistics.
-/
namespace Paradiseo.LS

/-! ### C23 -/

/-- A key is tabu exactly when its last `add`, with tenure `h`, is followed by fewer than `h`
updates. -/
theorem C23_tenure (maxSize i h : Nat) (hi : i < maxSize) (pre post : List TabuOp)
    (hpost : ∀ h', .add i h' ∉ post) :
    tabuCheck (tabuRun maxSize (pre ++ .add i h :: post)) i = some (decide (post.countP (· = .update) < h)) := by
  have hl := tabuRun_length maxSize pre
  have h1 : (tabuApply (tabuRun maxSize pre) (.add i h))[i]? = some h := by
    simp only [tabuApply]
    rw [if_pos (by omega), List.getElem?_set_self (by omega)]
  have : tabuRun maxSize (pre ++ .add i h :: post) =
      post.foldl tabuApply (tabuApply (tabuRun maxSize pre) (.add i h)) := by simp [tabuRun]
  rw [tabuCheck, this, tabu_after _ post i hpost h h1]
  simp only [Option.map_some, Option.some.injEq, decide_eq_decide, tabuUpdates]
  omega

/-- A key never added is not tabu. -/
theorem C23_never_added (maxSize i : Nat) (hi : i < maxSize) (ops : List TabuOp)
    (hops : ∀ h, .add i h ∉ ops) : tabuCheck (tabuRun maxSize ops) i = some false := by
  have h1 : (tabuInit maxSize)[i]? = some 0 := by simp [tabuInit, hi]
  rw [tabuCheck, tabuRun, tabu_after _ ops i hops 0 h1]
  simp

/-- A key that does not fit the list is ignored by `add`, but `check` then reads outside. -/
theorem C23_key_too_large (maxSize i : Nat) (hi : maxSize ≤ i) (ops : List TabuOp) :
    tabuCheck (tabuRun maxSize ops) i = none := by
  simp [tabuCheck, List.getElem?_eq_none (show (tabuRun maxSize ops).length ≤ i by
    rw [tabuRun_length]; exact hi)]

/-- In a tabu search, `add` is followed by `update` in the same iteration (moTSexplorer.h:109-122):
after the iteration of the move and `j` further iterations, the move is still tabu iff `j + 1 < h`.
The effective tenure is `h - 1`; a tenure of 1 never forbids anything. -/
theorem C23_effective_tenure (maxSize i h j : Nat) (hi : i < maxSize) (pre : List TabuOp) :
    tabuCheck (tabuRun maxSize (pre ++ [.add i h, .update] ++ List.replicate j .update)) i =
      some (decide (j + 1 < h)) := by
  have := C23_tenure maxSize i h hi pre (.update :: List.replicate j .update) (by
    intro h' hm
    simp only [List.mem_cons, List.mem_replicate] at hm
    rcases hm with hm | hm
    · exact absurd hm (by simp)
    · exact absurd hm.2 (by simp))
  rw [List.append_assoc]
  simp only [List.cons_append, List.nil_append]
  rw [this]
  simp [List.countP_replicate]

example : tabuCheck (tabuRun 4 [.add 1 3, .update, .add 2 5, .update]) 1 = some true ∧
    tabuCheck (tabuRun 4 [.add 1 3, .update, .add 2 5, .update, .update]) 1 = some false := by decide

/-! ### C24 -/

/-- `y` is recognised: some matching element was added, fewer than `maxSize` additions were made since,
and, with a finite tenure, fewer than `howlong` updates. -/
def Remembered {X Y : Type} (eqv : X → Y → Bool) (maxSize howlong : Nat) (ops : List (RingOp X)) (y : Y) : Prop :=
  ∃ pre x post, ops = pre ++ .add x :: post ∧ eqv x y = true ∧
    (post.countP fun o => match o with | .add _ => true | .update => false) < maxSize ∧
    (howlong = 0 ∨ (post.countP fun o => match o with | .add _ => false | .update => true) < howlong)

theorem C24_ring {X Y : Type} (eqv : X → Y → Bool) (maxSize howlong : Nat) (hm : 0 < maxSize)
    (ops : List (RingOp X)) :
    ∃ s, ringRun maxSize howlong ops = some s ∧
      ∀ y, ringCheck eqv howlong s y = true ↔ Remembered eqv maxSize howlong ops y := by
  obtain ⟨s, hs, hi⟩ := ringRun_inv maxSize howlong hm ops
  refine ⟨s, hs, fun y => ?_⟩
  simp only [ringCheck, List.any_eq_true, Prod.exists]
  constructor
  · rintro ⟨x, r, hmem, hcond⟩
    obtain ⟨a, k, hA, hge, hr⟩ := (ring_mem hm hi x r).1 hmem
    obtain ⟨pre, post, rfl, h2, h3⟩ := (ages_getElem? _ _ _ _).1 hA
    have hlen : (ages (pre ++ .add x :: post)).length = ringAdds pre + 1 + ringAdds post := by
      rw [ages_length]; simp [ringAdds, List.countP_append, List.countP_cons]; omega
    refine ⟨pre, x, post, rfl, ?_, ?_, ?_⟩
    · simp at hcond; tauto
    · show ringAdds post < maxSize
      omega
    · show howlong = 0 ∨ ringUpdates post < howlong
      simp at hcond
      omega
  · rintro ⟨pre, x, post, rfl, h1, h2, h3⟩
    have h2' : ringAdds post < maxSize := h2
    have h3' : howlong = 0 ∨ ringUpdates post < howlong := h3
    have hlen : (ages (pre ++ .add x :: post)).length = ringAdds pre + 1 + ringAdds post := by
      rw [ages_length]; simp [ringAdds, List.countP_append, List.countP_cons]; omega
    refine ⟨x, howlong - ringUpdates post, (ring_mem hm hi _ _).2 ⟨ringAdds pre, ringUpdates post,
      (ages_getElem? _ _ _ _).2 ⟨pre, post, rfl, rfl, rfl⟩, by omega, rfl⟩, ?_⟩
    simp [h1]
    omega

/-- A list of capacity 0 divides by zero at the first addition. -/
theorem C24_capacity_zero {X : Type} (howlong : Nat) (x : X) :
    ringRun 0 howlong [.add x] = none := rfl

example : (ringRun 2 3 [.add 7, .update, .add 8]).map (fun s => (ringCheck (· == ·) 3 s 7, ringCheck (· == ·) 3 s 9))
    = some (true, false) := by decide

/-! ### C25 -/

/-- The acceptance rule: better, or the draw is below the Boltzmann probability. -/
theorem C25_accept_iff (better : ℝ → ℝ → Prop) (fx fc T u : ℝ) (hT : T ≠ 0) :
    saAccept better fx fc T u = true ↔ better fx fc ∨ u < Real.exp (-|fc - fx| / T) := by
  unfold saAccept
  by_cases hb : better fx fc
  · simp [hb]
  · simp only [hb, hT, if_false, false_or, decide_eq_true_eq]
    by_cases h : fc < fx
    · rw [if_pos h, abs_of_neg (by linarith)]; simp
    · rw [if_neg h, abs_of_nonneg (by linarith)]; simp

/-- A neighbour of equal fitness is always accepted (the draw is below 1). -/
theorem C25_equal_accepted (better : ℝ → ℝ → Prop) (fx T u : ℝ) (hT : T ≠ 0) (hu : u < 1) :
    saAccept better fx fx T u = true := by
  rw [C25_accept_iff _ _ _ _ _ hT]; right; simpa using hu

/-- At temperature 0 only what the comparator calls better is accepted: not even an equal fitness. -/
theorem C25_frozen (better : ℝ → ℝ → Prop) (fx fc u : ℝ) :
    saAccept better fx fc 0 u = true ↔ better fx fc := by
  unfold saAccept
  by_cases hb : better fx fc <;> simp [hb]

/-- What is accepted at a temperature is accepted at any higher one, and a smaller loss is accepted
whenever a larger one is. -/
theorem C25_accept_monotone (better : ℝ → ℝ → Prop) (fx fc fd T T' u : ℝ) (hT : 0 < T) (hTT : T ≤ T')
    (hd : |fd - fx| ≤ |fc - fx|) (hw : ¬ better fx fc)
    (h : saAccept better fx fc T u = true) : saAccept better fx fd T' u = true := by
  have hT' : 0 < T' := lt_of_lt_of_le hT hTT
  rw [C25_accept_iff _ _ _ _ _ hT.ne'] at h
  rw [C25_accept_iff _ _ _ _ _ hT'.ne']
  right
  refine lt_of_lt_of_le (h.resolve_left hw) (Real.exp_le_exp.2 ?_)
  rw [neg_div, neg_div, neg_le_neg_iff]
  exact div_le_div₀ (abs_nonneg _) hd hT hTT

/-- The temperature of the geometric schedule after any history of `n` updates. -/
theorem C25_geometric (initT alpha finalT : ℝ) (span : Nat) (hs : List Bool) :
    (coolRun (simpleCooling initT alpha finalT span) hs).1 = initT * alpha ^ (hs.length / (span + 1)) := by
  rw [simple_run]

/-- The temperature on the orbit of the annealing explorer. -/
theorem sa_orbit_temp {S M C : Type} (better : ℝ → ℝ → Prop) (cool : Cooling C) (u : Nat → ℝ)
    (nb : Nat → S × ℝ → List (Cand M ℝ)) (app : M → S → S) (t : Nat) (p : (S × ℝ) × SA M C)
    (hp : p.2.temp = cool.init) (n : Nat) :
    ∃ hs : List Bool, hs.length = n ∧ (orbit (saExplorer better cool u nb app) t p n).2.temp = coolRun cool hs := by
  induction n with
  | zero => exact ⟨[], rfl, hp⟩
  | succ n ih =>
    obtain ⟨hs, h1, h2⟩ := ih
    have key : ∀ t q, ∃ a, (stepTo (saExplorer better cool u nb app) t q).2.temp = cool.update q.2.temp a := by
      intro t q
      obtain ⟨sol, e⟩ := q
      simp only [stepTo, lsStep, saExplorer]
      cases hnb : nb t sol with
      | nil => exact ⟨_, by simp [hnb]; rfl⟩
      | cons c l => exact ⟨_, by simp [hnb]; rfl⟩
    obtain ⟨a, ha⟩ := key (t + n) (orbit (saExplorer better cool u nb app) t p n)
    refine ⟨hs ++ [a], by simp [h1], ?_⟩
    rw [coolRun_snoc, ← h2]; exact ha

/-- The run of simulated annealing, iteration by iteration, for any schedule: the schedule is told, each time, whether
the candidate was accepted, and nothing else; the candidate is the first neighbour, it is judged at the temperature
the schedule has reached, and replaces the solution iff it is accepted. -/
theorem C25_run {S M C : Type} (better : ℝ → ℝ → Prop) (cool : Cooling C) (u : Nat → ℝ)
    (nb : Nat → S × ℝ → List (Cand M ℝ)) (app : M → S → S) (sol : S × ℝ) (e : SA M C) :
    let ex := saExplorer better cool u nb app
    let q := orbit ex 0 (sol, ex.initParam sol e)
    let accepted := fun n => (lsStep ex n (q n).1 (q n).2).2.2
    let temp := fun n => coolRun cool ((List.range n).map accepted)
    ∀ n, (q n).2.temp = temp n ∧
      (nb n (q n).1 = [] → accepted n = false ∧ (q (n + 1)).1 = (q n).1) ∧
      ∀ c l, nb n (q n).1 = c :: l →
        accepted n = saAccept better (q n).1.2 c.fit (temp n).1 (u n) ∧
        (q (n + 1)).1 = if accepted n then moveSel app (q n).1 (some c) else (q n).1 := by
  intro ex q accepted temp n
  have hq : ∀ n, q (n + 1) = stepTo ex n (q n) := fun n => by
    show orbit ex 0 _ (n + 1) = _
    rw [orbit, Nat.zero_add]
  have htemp : ∀ n, (q n).2.temp = temp n := by
    intro n
    induction n with
    | zero => rfl
    | succ n ih =>
      simp only [temp, List.range_succ, List.map_append, List.map_cons, List.map_nil]
      rw [coolRun_snoc, hq]
      have : coolRun cool ((List.range n).map accepted) = (q n).2.temp := ih.symm
      rw [this]
      simp only [accepted, stepTo, lsStep, ex, saExplorer]
      cases hnb : nb n (q n).1 with
      | nil => simp [hnb]
      | cons c l => simp [hnb]
  refine ⟨htemp n, fun hnb => ?_, fun c l hnb => ?_⟩
  · rw [hq]
    simp [accepted, stepTo, lsStep, ex, saExplorer, hnb]
  · rw [hq, ← htemp n]
    simp [accepted, stepTo, lsStep, ex, saExplorer, hnb]

/-- With the geometric schedule, 0 < alpha < 1 and a positive final temperature, simulated annealing
ends whatever the neighbourhood, the draws and the continuator, in a number of iterations that does
not depend on them; if the continuator never stops it, the number `n` of iterations is the first at
which the temperature `initT * alpha^(n/(span+1))` is at most the final one. -/
theorem C25_annealing_ends (initT alpha finalT : ℝ) (span : Nat) (h0 : 0 < alpha) (h1 : alpha < 1)
    (hi : 0 < initT) (hf : 0 < finalT) :
    ∃ N, ∀ {S M K : Type} (better : ℝ → ℝ → Prop) (u : Nat → ℝ) (nb : Nat → S × ℝ → List (Cand M ℝ))
      (app : M → S → S) (f : S → ℝ) (cont : K → S × ℝ → Bool × K) (cinit : S × ℝ → K) (x : S)
      (fit : Option ℝ) (e : SA M Nat),
      ∃ res tr b, localSearch f (saExplorer better (simpleCooling initT alpha finalT span) u nb app) cont cinit
          N x fit e = some (res, tr, b) ∧
        (b = true → initT * alpha ^ (tr.length / (span + 1)) ≤ finalT) ∧
        ∀ i, 0 < i → i < tr.length → finalT < initT * alpha ^ (i / (span + 1)) := by
  obtain ⟨k, hk⟩ := exists_pow_lt_of_lt_one (show 0 < finalT / initT by positivity) h1
  have hbelow : ∀ n, k * (span + 1) ≤ n → initT * alpha ^ (n / (span + 1)) ≤ finalT := by
    intro n hn
    have h2 : k ≤ n / (span + 1) := (Nat.le_div_iff_mul_le (Nat.succ_pos span)).2 hn
    have h3 : alpha ^ (n / (span + 1)) ≤ alpha ^ k := pow_le_pow_of_le_one (le_of_lt h0) (le_of_lt h1) h2
    have h4 : alpha ^ (n / (span + 1)) ≤ finalT / initT := le_trans h3 (le_of_lt hk)
    rw [le_div_iff₀ hi] at h4
    linarith
  refine ⟨k * (span + 1) + 1, ?_⟩
  intro S M K better u nb app f cont cinit x fit e
  set ex := saExplorer better (simpleCooling initT alpha finalT span) u nb app with hex
  set p0 : (S × ℝ) × SA M Nat := ((x, fit.getD (f x)), ex.initParam (x, fit.getD (f x)) e) with hp0
  have htemp : ∀ n, (orbit ex 0 p0 n).2.temp.1 = initT * alpha ^ (n / (span + 1)) := by
    intro n
    obtain ⟨hs, g1, g2⟩ := sa_orbit_temp better (simpleCooling initT alpha finalT span) u nb app 0 p0 rfl n
    rw [g2, simple_run, g1]
  have hgo : ∀ n, ex.isContinue (orbit ex 0 p0 n).1 (orbit ex 0 p0 n).2 = true ↔
      finalT < initT * alpha ^ (n / (span + 1)) := by
    intro n
    rw [← htemp n, hex]
    simp only [saExplorer, simpleCooling, gt_iff_lt, decide_eq_true_eq]
  have hsome : ∀ fuel n k0, k * (span + 1) - n < fuel →
      (lsLoop ex cont fuel n (orbit ex 0 p0 n).1 (orbit ex 0 p0 n).2 k0).isSome := by
    intro fuel
    induction fuel with
    | zero => intro n k0 h; omega
    | succ fuel ih =>
      intro n k0 h
      have hst : (lsStep ex n (orbit ex 0 p0 n).1 (orbit ex 0 p0 n).2).1 = (orbit ex 0 p0 (n + 1)).1 := by
        show _ = (stepTo ex (0 + n) _).1; rw [Nat.zero_add]; rfl
      have hst2 : (lsStep ex n (orbit ex 0 p0 n).1 (orbit ex 0 p0 n).2).2.1 = (orbit ex 0 p0 (n + 1)).2 := by
        show _ = (stepTo ex (0 + n) _).2; rw [Nat.zero_add]; rfl
      simp only [lsLoop, hst, hst2]
      split
      · rename_i hc
        rw [Option.isSome_map]
        simp only [Bool.and_eq_true] at hc
        have hlt := (hgo (n + 1)).1 hc.2
        apply ih
        by_contra hge
        exact absurd (hbelow (n + 1) (by omega)) (not_le_of_gt hlt)
      · rfl
  have hrun := hsome (k * (span + 1) + 1) 0 (cinit (x, fit.getD (f x))) (by omega)
  obtain ⟨⟨l, b⟩, hl⟩ := Option.isSome_iff_exists.1 hrun
  have hls : localSearch f ex cont cinit (k * (span + 1) + 1) x fit e =
      some (ex.terminate (l.getLastD p0).1 (l.getLastD p0).2, l, b) := by
    simp only [localSearch]
    have : lsLoop ex cont (k * (span + 1) + 1) 0 (x, fit.getD (f x)) (ex.initParam (x, fit.getD (f x)) e)
        (cinit (x, fit.getD (f x))) = some (l, b) := hl
    rw [this]; rfl
  obtain ⟨n, htr, hcn, hb, -, -⟩ := localSearch_orbit hls
  have hlen : l.length = n + 1 := by rw [htr]; simp
  refine ⟨_, _, _, hls, ?_, ?_⟩
  · intro hbt
    have := hb.resolve_left (by simp [hbt])
    rw [hlen]
    by_contra hgt
    have h5 := (hgo (n + 1)).2 (lt_of_not_ge hgt)
    rw [h5] at this
    exact absurd this (by simp)
  · intro i hi0 hil
    have := hcn (i - 1) (by omega)
    rw [show i - 1 + 1 = i by omega] at this
    exact (hgo i).1 this

example : ∃ (better : ℝ → ℝ → Prop) (fx fc T u : ℝ), 0 < T ∧ ¬ better fx fc ∧ saAccept better fx fc T u = true :=
  ⟨(· < ·), 1, 0, 1, 0, one_pos, by norm_num, (C25_accept_iff _ _ _ _ _ one_ne_zero).2 (Or.inr (Real.exp_pos _))⟩

/-! ### C65: Metropolis-Hastings acceptance -/

/-- For positive fitness values: better always, otherwise with probability worse/better. -/
theorem C65_metropolis_positive (fx fc u : ℚ) (hx : 0 < fx) (hu : u < 1) :
    metropolisAccept fx fc u = true ↔ fx ≤ fc ∨ u < fc / fx := by
  unfold metropolisAccept
  by_cases h1 : fx < fc
  · simp [h1, le_of_lt h1]
  · rw [if_neg h1, if_pos (ne_of_gt hx)]
    by_cases h2 : fc < fx
    · rw [if_pos h2]
      simp [not_le_of_gt h2]
    · have : fc = fx := le_antisymm (le_of_not_gt h1) (le_of_not_gt h2)
      subst this
      rw [if_neg h2, div_self (ne_of_gt hx)]
      simp [hu]

/-- At fitness 0 the rule is inverted: an equal neighbour is refused, a worse one always accepted;
and with negative fitness values every worse neighbour is accepted, whatever the draw. -/
theorem C65_metropolis_zero (fc u : ℚ) :
    metropolisAccept 0 0 u = false ∧ (fc < 0 → metropolisAccept 0 fc u = true) := by
  constructor
  · simp [metropolisAccept]
  · intro h; simp [metropolisAccept, h, not_lt_of_gt h]

theorem C65_metropolis_negative (fx fc u : ℚ) (hx : fx < 0) (hc : fc < fx) (hu : u < 1) :
    metropolisAccept fx fc u = true := by
  unfold metropolisAccept
  rw [if_neg (not_lt_of_gt hc), if_pos (ne_of_lt hx), if_pos hc]
  have : 1 ≤ fc / fx := by
    rw [le_div_iff_of_neg hx]; linarith
  simp; linarith

example : metropolisAccept (2 : ℚ) 1 (1/4) = true ∧ metropolisAccept (2 : ℚ) 1 (3/4) = false := by
  constructor <;> simp [metropolisAccept] <;> norm_num

/-! ### C67: dynamic-span cooling -/

/-- If the schedule says stop for the first time, the last `(nbSpanMax + 1) * triesMax` moves were all
rejected: it never stops a search that still moves. -/
theorem C67_stop_means_frozen (initT alpha : ℝ) (triesMax moveMax nbSpanMax : Nat) (ht : 0 < triesMax)
    (hm : 0 < moveMax) (hs : List Bool) (a : Bool)
    (hgo : (dynSpanCooling initT alpha triesMax moveMax nbSpanMax).go
      (coolRun (dynSpanCooling initT alpha triesMax moveMax nbSpanMax) hs))
    (hstop : ¬ (dynSpanCooling initT alpha triesMax moveMax nbSpanMax).go
      (coolRun (dynSpanCooling initT alpha triesMax moveMax nbSpanMax) (hs ++ [a]))) :
    ∃ pre, hs ++ [a] = pre ++ List.replicate ((nbSpanMax + 1) * triesMax) false := by
  have hinv := dyn_inv initT alpha triesMax moveMax nbSpanMax ht hm (hs ++ [a])
  simp only at hinv
  have hk : nbSpanMax + 1 ≤ (coolRun (dynSpanCooling initT alpha triesMax moveMax nbSpanMax) (hs ++ [a])).2.nbSpan := by
    have : ¬ _ ≤ nbSpanMax := hstop
    omega
  have hmv : (coolRun (dynSpanCooling initT alpha triesMax moveMax nbSpanMax) (hs ++ [a])).2.spanMove = 0 := by
    have hg : (coolRun (dynSpanCooling initT alpha triesMax moveMax nbSpanMax) hs).2.nbSpan ≤ nbSpanMax := hgo
    rw [coolRun_snoc] at hk ⊢
    generalize coolRun (dynSpanCooling initT alpha triesMax moveMax nbSpanMax) hs = st at *
    simp only [dynSpanCooling] at hk ⊢
    by_cases hc : st.2.spanTries + 1 ≥ triesMax ∨
        (if a = true then st.2.spanMove + 1 else st.2.spanMove) ≥ moveMax
    · rw [if_pos hc]
    · rw [if_neg hc] at hk; simp only at hk; omega
  have htrail := hinv.2.2.2 hmv
  have hge : (nbSpanMax + 1) * triesMax ≤ trailing (hs ++ [a]) := by
    have := Nat.mul_le_mul_right triesMax hk
    omega
  -- a suffix of `false`
  have hsuf : ∀ (l : List Bool) (n : Nat), n ≤ (l.takeWhile (!·)).length →
      ∃ r, l = List.replicate n false ++ r := by
    intro l
    induction l with
    | nil => intro n hn; simp at hn; exact ⟨[], by simp [hn]⟩
    | cons b l ih =>
      intro n hn
      cases n with
      | zero => exact ⟨b :: l, rfl⟩
      | succ n =>
        cases b with
        | true => simp at hn
        | false =>
          simp at hn
          obtain ⟨r, hr⟩ := ih n (by simpa using hn)
          exact ⟨r, by rw [List.replicate_succ, List.cons_append, ← hr]⟩
  obtain ⟨r, hr⟩ := hsuf (hs ++ [a]).reverse _ hge
  refine ⟨r.reverse, ?_⟩
  have := congrArg List.reverse hr
  simpa using this

/-- Conversely `(nbSpanMax + 2) * triesMax` rejected moves in a row stop it, after any history. -/
theorem C67_frozen_stops (initT alpha : ℝ) (triesMax moveMax nbSpanMax : Nat) (ht : 0 < triesMax)
    (hm : 0 < moveMax) (hs : List Bool) :
    ¬ (dynSpanCooling initT alpha triesMax moveMax nbSpanMax).go
      (coolRun (dynSpanCooling initT alpha triesMax moveMax nbSpanMax)
        (hs ++ List.replicate ((nbSpanMax + 2) * triesMax) false)) := by
  have hinv := dyn_inv initT alpha triesMax moveMax nbSpanMax ht hm hs
  simp only at hinv
  rw [coolRun, List.foldl_append]
  change ¬ (dynSpanCooling initT alpha triesMax moveMax nbSpanMax).go (List.foldl _
    (coolRun (dynSpanCooling initT alpha triesMax moveMax nbSpanMax) hs) _)
  generalize coolRun (dynSpanCooling initT alpha triesMax moveMax nbSpanMax) hs = st at *
  obtain ⟨T, tr, mv, sp⟩ := st
  simp only at hinv
  have e2 : (nbSpanMax + 2) * triesMax = nbSpanMax * triesMax + 2 * triesMax := by ring
  have main : ∀ j T tr sp, tr < triesMax → (nbSpanMax + 1) * triesMax ≤ j →
      ¬ (dynSpanCooling initT alpha triesMax moveMax nbSpanMax).go ((List.replicate j false).foldl
        (dynSpanCooling initT alpha triesMax moveMax nbSpanMax).update (T, ⟨tr, 0, sp⟩)) := by
    intro j T tr sp htr hj hgo
    have h := dyn_frozen initT alpha triesMax moveMax nbSpanMax hm j T tr sp htr
    simp only at h
    have hg : _ ≤ nbSpanMax := hgo
    have h2 := Nat.mul_le_mul_right triesMax hg
    have e3 : (nbSpanMax + 1) * triesMax = nbSpanMax * triesMax + triesMax := by ring
    omega
  by_cases h0 : mv = 0
  · subst h0
    exact main _ T tr sp hinv.1 (by
      have e3 : (nbSpanMax + 1) * triesMax = nbSpanMax * triesMax + triesMax := by ring
      omega)
  · obtain ⟨T', hT'⟩ := dyn_flush initT alpha triesMax moveMax nbSpanMax (triesMax - 1 - tr) T tr mv sp
      (by omega) hinv.2.1 (by omega)
    have e3 : (nbSpanMax + 1) * triesMax = nbSpanMax * triesMax + triesMax := by ring
    rw [show (nbSpanMax + 2) * triesMax = (triesMax - 1 - tr + 1) +
      ((nbSpanMax + 2) * triesMax - (triesMax - tr)) by omega, List.replicate_add, List.foldl_append, hT']
    exact main _ T' 0 0 ht (by omega)

example : (dynSpanCooling 1 (1/2) 2 2 0).go (coolRun (dynSpanCooling 1 (1/2) 2 2 0) [false]) ∧
    ¬ (dynSpanCooling 1 (1/2) 2 2 0).go (coolRun (dynSpanCooling 1 (1/2) 2 2 0) [false, false]) := by
  constructor <;> simp [coolRun, dynSpanCooling]

/-! ### C26 -/

/-- The combined continuator answers the conjunction of the answers, and each component makes exactly
one step on the solution, whatever the others answer. -/
theorem C26_combined {K Sol : Type} (l : List (ContStep K Sol × K)) (sol : Sol) :
    ((combined l sol).1 = true ↔ ∀ p ∈ l, (p.1 p.2 sol).1 = true) ∧
    (combined l sol).2 = l.map fun p => (p.1, (p.1 p.2 sol).2) := by
  simp only [combined, combinedLoop_spec, Bool.true_and, List.all_eq_true, and_true]

/-- Along any history, the state of each component is the one it would have alone. -/
theorem C26_combined_history {K Sol : Type} (l : List (ContStep K Sol × K)) (sols : List Sol) :
    sols.foldl (fun st s => (combined st s).2) l =
      l.map fun p => (p.1, sols.foldl (fun k s => (p.1 k s).2) p.2) := by
  induction sols generalizing l with
  | nil => simp
  | cons s sols ih =>
    rw [List.foldl_cons, ih, (C26_combined l s).2, List.map_map]
    rfl

example : (combined [((iterCont 2 : ContStep Nat Int), 0), (iterCont 1, 0)] (5 : Int)).1 = false := by decide

/-! ### C27 -/

/-- With an iteration bound `m` a local search ends, after at most `max 1 m` iterations, and exactly
that many when the explorer never stops by itself. -/
theorem C27_iterations {S F E : Type} (f : S → F) (ex : Explorer (S × F) E) (m fuel : Nat) (hf : max 1 m ≤ fuel)
    (x : S) (fit : Option F) (e : E) :
    ∃ res tr b, localSearch f ex (iterCont m) (fun _ => 0) fuel x fit e = some (res, tr, b) ∧
      tr.length ≤ max 1 m ∧ ((∀ s e, ex.isContinue s e = true) → tr.length = max 1 m) := by
  obtain ⟨h1, h2⟩ := lsLoop_iter ex m fuel 0 (x, fit.getD (f x)) (ex.initParam (x, fit.getD (f x)) e) 0
  obtain ⟨⟨l, b⟩, hl⟩ := Option.isSome_iff_exists.1 (h1 (by omega) (by omega))
  have hls : localSearch f ex (iterCont m) (fun _ => 0) fuel x fit e =
      some (ex.terminate (l.getLastD ((x, fit.getD (f x)), ex.initParam (x, fit.getD (f x)) e)).1
        (l.getLastD ((x, fit.getD (f x)), ex.initParam (x, fit.getD (f x)) e)).2, l, b) := by
    simp only [localSearch]
    rw [hl]; rfl
  exact ⟨_, l, b, hls, h2 l b hl⟩

example : ∃ res tr b, localSearch demoF (randomWalk (fun _ s => demoNb demoF s) (fun d x => x + d))
    (iterCont 4) (fun _ => 0) 9 0 none ⟨none, [], false, 0⟩ = some (res, tr, b) ∧ tr.length = 4 :=
  ⟨_, _, _, rfl, by decide⟩

/-! ### C66: statistics of a checkpoint -/

/-- The documented meaning: every statistic is computed at each call whose number is a multiple of
the interval. -/
def EveryInterval (interval n : Nat) : Prop :=
  ∀ calls c j, c < calls → j < n →
    ((checkpointRun interval n calls 1).getD c []).getD j false = decide ((c + 1) % interval = 0)

/-- True with a single statistic. -/
theorem C66_single_stat (interval : Nat) : EveryInterval interval 1 := by
  intro calls c j hc hj
  rw [checkpointRun_get _ _ _ _ _ _ hc hj]
  have : j = 0 := by omega
  subst this
  congr 3; omega

/-- What happens in general: the counter advances at each statistic. -/
theorem C66_actual (interval n calls c j : Nat) (hc : c < calls) (hj : j < n) :
    ((checkpointRun interval n calls 1).getD c []).getD j false = decide ((1 + c * n + j) % interval = 0) :=
  checkpointRun_get _ _ _ _ _ _ hc hj

/-- False with several: with two statistics and an interval of two the first is never computed. -/
theorem C66_two_stats_starve (calls c : Nat) (hc : c < calls) :
    ((checkpointRun 2 2 calls 1).getD c []).getD 0 false = false := by
  rw [checkpointRun_get _ _ _ _ _ _ hc (by omega), decide_eq_false_iff_not]
  omega

theorem C66_two_stats_wrong : ¬ EveryInterval 2 2 := by
  intro h
  have := h 2 1 0 (by omega) (by omega)
  rw [C66_two_stats_starve 2 1 (by omega)] at this
  simp at this

/-- The documented meaning holds exactly with at most one statistic or an interval of one (an interval of 0 is a
division by zero in the code, hence excluded). -/
theorem C66_iff (interval n : Nat) (hi : 0 < interval) : EveryInterval interval n ↔ n ≤ 1 ∨ interval = 1 := by
  constructor
  · intro h
    by_contra hc
    push Not at hc
    have h1 := h interval (interval - 1) 0 (by omega) (by omega)
    have h2 := h interval (interval - 1) 1 (by omega) (by omega)
    rw [C66_actual interval n interval _ _ (by omega) (by omega)] at h1 h2
    have e : (interval - 1 + 1) % interval = 0 := by
      rw [Nat.sub_add_cancel (by omega), Nat.mod_self]
    rw [e] at h1 h2
    simp only [decide_true, decide_eq_true_eq, Nat.add_zero] at h1 h2
    have := Nat.dvd_sub (Nat.dvd_of_mod_eq_zero h2) (Nat.dvd_of_mod_eq_zero h1)
    rw [Nat.add_sub_cancel_left] at this
    have := Nat.le_of_dvd one_pos this
    omega
  · intro h calls c j hc hj
    rw [C66_actual interval n calls c j hc hj]
    rcases h with h | rfl
    · have h1 : n = 1 := by omega
      have h2 : j = 0 := by omega
      subst h1 h2
      congr 3; omega
    · simp only [Nat.mod_one]

example : ¬ EveryInterval 3 2 ∧ EveryInterval 3 1 :=
  ⟨fun h => by simpa using (C66_iff 3 2 (by decide)).1 h, C66_single_stat 3⟩

/-! ### C28 -/

/-- Without cycling, the forward selection uses the operators 0, 1, …, n-1 and stops (n ≥ 2). -/
theorem C28_forward (n fuel : Nat) (hn : 2 ≤ n) (hn64 : n < 2 ^ 64) (hf : n ≤ fuel) :
    selRun (forwardSel false n) fuel (forwardSel false n).init = (List.range n, true) := by
  have := selRun_forward n 0 fuel hn hn64 (by omega) (by omega)
  rw [Nat.sub_zero, ← List.range_eq_range'] at this
  exact this

/-- Without cycling, the backward selection uses n-1, …, 0 and stops (n ≥ 1). -/
theorem C28_backward (n fuel : Nat) (hn : 1 ≤ n) (hf : n ≤ fuel) :
    selRun (backwardSel false n) fuel (backwardSel false n).init = ((List.range n).reverse, true) := by
  have := selRun_backward n (n - 1) fuel (by omega) (by omega)
  rw [show n - 1 + 1 = n by omega] at this
  exact this

/-- The random selection without cycling uses the operators in the shuffled order. -/
theorem C28_random (order : List Nat) (fuel : Nat) (hn : 2 ≤ order.length) (hn64 : order.length < 2 ^ 64)
    (hf : order.length ≤ fuel) :
    selRun (rndSel false order) fuel (rndSel false order).init = (order, true) := by
  have key : ∀ fuel k, selRun (rndSel false order) fuel k =
      ((selRun (forwardSel false order.length) fuel k).1.map (order.getD · 0),
        (selRun (forwardSel false order.length) fuel k).2) := by
    intro fuel
    induction fuel with
    | zero => intro k; rfl
    | succ fuel ih =>
      intro k
      simp only [selRun]
      have e1 : (rndSel false order).cont k = (forwardSel false order.length).cont k := rfl
      have e2 : (rndSel false order).next k = (forwardSel false order.length).next k := rfl
      rw [e1, e2, ih]
      split <;> rfl
  rw [key]
  have h := C28_forward order.length fuel hn hn64 hf
  have e : (rndSel false order).init = (forwardSel false order.length).init := rfl
  rw [e, h]
  simp only [Prod.mk.injEq, and_true]
  apply List.ext_getElem
  · simp
  · intro i h1 h2
    rw [List.getElem_map, List.getElem_range, List.getD_eq_getElem _ _ h2]

/-- With cycling, both selections go round-robin and never stop. -/
theorem C28_cycle (n k : Nat) (hn : 1 ≤ n) :
    (Nat.iterate (forwardSel true n).next k (forwardSel true n).init = k % n) ∧
    (Nat.iterate (backwardSel true n).next k (backwardSel true n).init = n - 1 - k % n) ∧
    (∀ v, (forwardSel true n).cont v = true) ∧ (∀ v, (backwardSel true n).cont v = true) := by
  refine ⟨?_, ?_, fun _ => rfl, fun _ => rfl⟩
  · induction k with
    | zero => simp [forwardSel]
    | succ k ih =>
      rw [Function.iterate_succ_apply', ih]
      simp [forwardSel]
  · induction k with
    | zero => simp [backwardSel]
    | succ k ih =>
      rw [Function.iterate_succ_apply', ih]
      simp only [backwardSel]
      have h1 := Nat.mod_lt k (show n > 0 by omega)
      by_cases h : k % n = n - 1
      · have h2 : (k + 1) % n = 0 := by
          rw [Nat.add_mod, h]
          by_cases h1n : n = 1
          · subst h1n; simp [Nat.mod_one]
          · rw [Nat.mod_eq_of_lt (show 1 < n by omega), show n - 1 + 1 = n by omega, Nat.mod_self]
        rw [h, h2, Nat.mod_eq_of_lt (by omega)]; omega
      · have h2 : (k + 1) % n = k % n + 1 := by
          rw [Nat.add_mod]
          by_cases h1n : n = 1
          · omega
          · rw [Nat.mod_eq_of_lt (show 1 < n by omega), Nat.mod_eq_of_lt (by omega)]
        rw [h2, show n - 1 - k % n + n - 1 = (n - 1 - (k % n + 1)) + n by omega, Nat.add_mod_right,
          Nat.mod_eq_of_lt (by omega)]

/-- With a single operator and no cycling, the forward test wraps around and never stops. -/
theorem C28_single_never_stops (fuel : Nat) :
    selRun (forwardSel false 1) fuel (forwardSel false 1).init = (List.replicate fuel 0, false) := by
  induction fuel with
  | zero => rfl
  | succ fuel ih =>
    have e : (forwardSel false 1).next (forwardSel false 1).init = (forwardSel false 1).init := rfl
    have e2 : (forwardSel false 1).cont (forwardSel false 1).init = true := by decide
    simp only [selRun, e, e2, ih, if_true]
    rfl

/-! ### C29 -/

/-- In any VNS run, after `n` iterations the selection has only advanced: it is `next` iterated from
its initial state some `j ≤ n` times, whatever was improved or accepted; `init` is never called again. -/
theorem C29_never_restarts {S F V : Type} [LinearOrder F] (s : VNSel V) (run : Nat → Nat → S × F → S × F)
    (crit : S × F → S × F → Bool) (sol : S × F) (e : VNS (S × F) V) (n : Nat) :
    let ex := vnsExplorer s run crit
    ∃ j ≤ n, (orbit ex 0 (sol, ex.initParam sol e) n).2.sel = Nat.iterate s.next j s.init ∧
      (orbit ex 0 (sol, ex.initParam sol e) n).2.first = true := by
  intro ex
  induction n with
  | zero => exact ⟨0, le_rfl, rfl, rfl⟩
  | succ n ih =>
    obtain ⟨j, hj, h1, h2⟩ := ih
    have h := vns_first s run crit (0 + n) _ h2
    simp only at h
    have hsel := h.2.1
    by_cases hc : s.cont (orbit ex 0 (sol, ex.initParam sol e) n).2.sel = true
    · rw [if_pos hc] at hsel
      refine ⟨j + 1, by omega, ?_, h.1⟩
      rw [Function.iterate_succ_apply', ← h1]
      exact hsel
    · rw [if_neg hc] at hsel
      exact ⟨j, by omega, hsel.trans h1, h.1⟩

/-- With the cyclic forward selection, iteration `n` uses operator `n mod size`, whatever happens. -/
theorem C29_cyclic {S F : Type} [LinearOrder F] (size : Nat) (hs : 1 ≤ size) (run : Nat → Nat → S × F → S × F)
    (crit : S × F → S × F → Bool) (sol : S × F) (e : VNS (S × F) Nat) (n : Nat) :
    let ex := vnsExplorer (forwardSel true size) run crit
    (orbit ex 0 (sol, ex.initParam sol e) n).2.sel = n % size := by
  intro ex
  have key : (orbit ex 0 (sol, ex.initParam sol e) n).2.sel =
      Nat.iterate (forwardSel true size).next n (forwardSel true size).init := by
    induction n with
    | zero => rfl
    | succ n ih =>
      obtain ⟨j, _, _, h2⟩ := C29_never_restarts (forwardSel true size) run crit sol e n
      have h := (vns_first (forwardSel true size) run crit (0 + n) _ h2).2.1
      rw [if_pos (show (forwardSel true size).cont _ = true from rfl)] at h
      rw [Function.iterate_succ_apply', ← ih]
      exact h
  rw [key, (C28_cycle size n hs).1]

/-- The documented restart fails: the first iteration improves the solution, the move is applied,
and the second iteration still uses operator 1. -/
theorem C29_restart_wrong :
    let ex := vnsExplorer (forwardSel true 3) (fun _ _ (s : Nat × Nat) => (s.1 + 1, s.2 + 1))
      (fun a b => decide (a.2 < b.2))
    let p := orbit ex 0 ((0, 0), ex.initParam (0, 0) ⟨0, (0, 0), (0, 0), false, true⟩) 1
    p.1 = (1, 1) ∧ (forwardSel true 3).current p.2.sel = 1 := by decide

/-- The solution left by a VNS is the best of the initial one and of all local-search results. -/
theorem C29_best {S F V K : Type} [LinearOrder F] {s : VNSel V} {run : Nat → Nat → S × F → S × F}
    {crit : S × F → S × F → Bool} {f : S → F} {cont : K → S × F → Bool × K} {cinit : S × F → K} {fuel : Nat}
    {x : S} {fit : Option F} {e : VNS (S × F) V} {res : S × F} {tr : List ((S × F) × VNS (S × F) V)} {b : Bool}
    (h : localSearch f (vnsExplorer s run crit) cont cinit fuel x fit e = some (res, tr, b)) :
    (res = (x, fit.getD (f x)) ∨ ∃ q ∈ tr, res = q.2.currentSol) ∧
    fit.getD (f x) ≤ res.2 ∧ ∀ q ∈ tr, q.2.currentSol.2 ≤ res.2 := by
  obtain ⟨n, htr, hi, hb, hres, hsol⟩ := localSearch_orbit h
  have key : ∀ k, let o : Nat → (S × F) × VNS (S × F) V := (orbit (vnsExplorer s run crit) 0
        ((x, fit.getD (f x)), (vnsExplorer s run crit).initParam (x, fit.getD (f x)) e))
      ((o k).2.bestSoFar = (x, fit.getD (f x)) ∨ ∃ i, i < k ∧ (o k).2.bestSoFar = (o (i + 1)).2.currentSol) ∧
      fit.getD (f x) ≤ (o k).2.bestSoFar.2 ∧ ∀ i, i < k → (o (i + 1)).2.currentSol.2 ≤ (o k).2.bestSoFar.2 := by
    intro k o
    induction k with
    | zero => exact ⟨Or.inl rfl, le_rfl, by intro i hi; omega⟩
    | succ k ih =>
      obtain ⟨ih1, ih2, ih3⟩ := ih
      obtain ⟨_, _, _, hfirst⟩ := C29_never_restarts s run crit (x, fit.getD (f x)) e k
      have hst := (vns_first s run crit (0 + k) _ hfirst).2.2.2.2.2
      have hst' : (o (k + 1)).2.bestSoFar =
        if (o k).2.bestSoFar.2 < (o (k + 1)).2.currentSol.2 then (o (k + 1)).2.currentSol
        else (o k).2.bestSoFar := hst
      by_cases hlt : (o k).2.bestSoFar.2 < (o (k + 1)).2.currentSol.2
      · rw [if_pos hlt] at hst'
        rw [hst']
        refine ⟨Or.inr ⟨k, by omega, rfl⟩, le_trans ih2 (le_of_lt hlt), ?_⟩
        intro i hi'
        rcases Nat.lt_succ_iff_lt_or_eq.1 hi' with hh | rfl
        · exact le_trans (ih3 i hh) (le_of_lt hlt)
        · exact le_rfl
      · rw [if_neg hlt] at hst'
        rw [hst']
        refine ⟨?_, ih2, ?_⟩
        · rcases ih1 with ih1 | ⟨i, h1, h2⟩
          · exact Or.inl ih1
          · exact Or.inr ⟨i, by omega, h2⟩
        · intro i hi'
          rcases Nat.lt_succ_iff_lt_or_eq.1 hi' with hh | rfl
          · exact ih3 i hh
          · exact le_of_not_gt hlt
  obtain ⟨k1, k2, k3⟩ := key (n + 1)
  have hr : res = (orbit (vnsExplorer s run crit) 0
    ((x, fit.getD (f x)), (vnsExplorer s run crit).initParam (x, fit.getD (f x)) e) (n + 1)).2.bestSoFar := hres
  rw [hr, htr]
  refine ⟨?_, k2, ?_⟩
  · rcases k1 with k1 | ⟨i, h1, h2⟩
    · exact Or.inl k1
    · exact Or.inr ⟨_, List.mem_map.2 ⟨i, List.mem_range.2 h1, rfl⟩, h2⟩
  · intro q hq
    obtain ⟨i, hi', rfl⟩ := List.mem_map.1 hq
    exact k3 i (List.mem_range.1 hi')

/-- `stop` is never reset: a second run of an explorer that stopped by itself does one iteration. -/
theorem C29_second_run {S F V : Type} [LinearOrder F] (s : VNSel V) (run : Nat → Nat → S × F → S × F)
    (crit : S × F → S × F → Bool) (f : S → F) (fuel : Nat) (x : S) (fit : Option F) (e : VNS (S × F) V)
    (he : e.stop = true) :
    ∃ res tr, localSearch f (vnsExplorer s run crit) (fun (_ : Unit) _ => (true, ())) (fun _ => ()) (fuel + 1)
      x fit e = some (res, tr, true) ∧ tr.length = 1 := by
  have hstop : (stepTo (vnsExplorer s run crit) 0
      ((x, fit.getD (f x)), (vnsExplorer s run crit).initParam (x, fit.getD (f x)) e)).2.stop = true := by
    have := (vns_first s run crit 0 ((x, fit.getD (f x)), (vnsExplorer s run crit).initParam (x, fit.getD (f x)) e)
      rfl).2.2.1
    rw [this]
    show (e.stop || _) = true
    rw [he]; rfl
  have hc : (vnsExplorer s run crit).isContinue
      (lsStep (vnsExplorer s run crit) 0 (x, fit.getD (f x)) ((vnsExplorer s run crit).initParam (x, fit.getD (f x)) e)).1
      (lsStep (vnsExplorer s run crit) 0 (x, fit.getD (f x))
        ((vnsExplorer s run crit).initParam (x, fit.getD (f x)) e)).2.1 = false := by
    have h2 : (lsStep (vnsExplorer s run crit) 0 (x, fit.getD (f x))
        ((vnsExplorer s run crit).initParam (x, fit.getD (f x)) e)).2.1.stop = true := hstop
    show (!_) = false
    rw [h2]; rfl
  have hl : lsLoop (vnsExplorer s run crit) (fun (_ : Unit) _ => (true, ())) (fuel + 1) 0 (x, fit.getD (f x))
      ((vnsExplorer s run crit).initParam (x, fit.getD (f x)) e) () = some ([stepTo (vnsExplorer s run crit) 0
        ((x, fit.getD (f x)), (vnsExplorer s run crit).initParam (x, fit.getD (f x)) e)], true) := by
    simp only [lsLoop]
    rw [if_neg (by rw [hc]; simp)]
    rfl
  have hls : ∃ res, localSearch f (vnsExplorer s run crit) (fun (_ : Unit) _ => (true, ())) (fun _ => ()) (fuel + 1)
      x fit e = some (res, [stepTo (vnsExplorer s run crit) 0
        ((x, fit.getD (f x)), (vnsExplorer s run crit).initParam (x, fit.getD (f x)) e)], true) := by
    simp only [localSearch, hl, Option.map_some]
    exact ⟨_, rfl⟩
  obtain ⟨res, hr⟩ := hls
  exact ⟨res, _, hr, rfl⟩

/-! ### C30 -/

/-- The report for a neighbourhood with fitness values `v = c :: l` (any sorting function): the counts
are those of the better, equal and worse neighbours and add up to the size; min and max are attained
bounds; the mean is the average; with at least two neighbours the three quartiles are values of the
neighbourhood of the stated rank, and the squared deviation is the unbiased one. -/
theorem C30_stats (sort : List ℚ → List ℚ) (hsort : ∀ v, (sort v).Perm v ∧ (sort v).Pairwise (· ≤ ·))
    (fx c : ℚ) (l : List ℚ) :
    let v := c :: l
    let r := nbStat sort fx c l
    r.nb = v.length ∧ r.nbSup = v.countP (fx < ·) ∧ r.nbEqual = v.countP (· = fx) ∧ r.nbInf = v.countP (· < fx) ∧
    r.nbSup + r.nbEqual + r.nbInf = r.nb ∧
    (r.min ∈ v ∧ ∀ x ∈ v, r.min ≤ x) ∧ (r.max ∈ v ∧ ∀ x ∈ v, x ≤ r.max) ∧
    r.mean = v.sum / v.length ∧
    r.variance = (if v.length = 1 then 0
      else (v.map fun x => (x - r.mean) * (x - r.mean)).sum / ((v.length : ℚ) - 1)) ∧
    (∀ q k, (q, k) ∈ [(r.q1, v.length / 4), (r.q2, v.length / 2), (r.q3, 3 * v.length / 4)] →
      q ∈ v ∧ k < v.countP (· ≤ q) ∧ v.length - k ≤ v.countP (q ≤ ·)) := by
  intro v r
  have hi := stat_inv fx c l
  have hcount : ∀ w : List ℚ, w.countP (fx < ·) + w.countP (· = fx) + w.countP (· < fx) = w.length := by
    intro w
    induction w with
    | nil => rfl
    | cons x w ih =>
      simp only [List.countP_cons, List.length_cons, decide_eq_true_eq]
      rcases lt_trichotomy fx x with h | h | h
      · simp [h, ne_of_gt h, not_lt_of_gt h]; omega
      · subst h; simp; omega
      · simp [h, ne_of_lt h, not_lt_of_gt h]; omega
  set s := l.foldl (statStep fx) (statFirst fx c) with hs
  have hv : 1 ≤ v.length := by simp [v]
  by_cases h1 : s.nb > 1
  · have hr : r = nbStat sort fx c l := rfl
    simp only [nbStat] at hr
    rw [← hs, if_pos h1] at hr
    have hlen : 1 < v.length := by rw [← hi.nb]; exact h1
    have hq : ∀ k, k < v.length → (sort s.fits).getD k 0 ∈ v ∧ k < v.countP (· ≤ (sort s.fits).getD k 0) ∧
        v.length - k ≤ v.countP ((sort s.fits).getD k 0 ≤ ·) := by
      intro k hk
      have hp := hsort s.fits
      rw [hi.fits] at hp ⊢
      have hk' : k < (sort v).length := by rw [hp.1.length_eq]; exact hk
      rw [List.getD_eq_getElem _ _ hk']
      refine ⟨hp.1.mem_iff.1 (List.getElem_mem hk'), ?_⟩
      have := sorted_rank (sort v) hp.2 k hk'
      rw [hp.1.length_eq, hp.1.countP_eq, hp.1.countP_eq] at this
      exact this
    rw [hr]
    refine ⟨hi.nb, hi.sup, hi.equal, hi.inf, ?_, hi.lowest, hi.best, ?_, ?_, ?_⟩
    · simp only [hi.sup, hi.equal, hi.inf, hi.nb]; exact hcount v
    · simp only [hi.mean, hi.nb]; rfl
    · simp only
      rw [if_neg (by omega), hi.fits, hi.nb]
    · intro q k hqk
      simp only [List.mem_cons, Prod.mk.injEq, List.not_mem_nil, or_false] at hqk
      have hnb : s.nb = v.length := hi.nb
      rcases hqk with ⟨rfl, rfl⟩ | ⟨rfl, rfl⟩ | ⟨rfl, rfl⟩
      · simp only [hnb]; exact hq _ (by omega)
      · simp only [hnb]; exact hq _ (by omega)
      · simp only [hnb]; exact hq _ (by omega)
  · have hr : r = nbStat sort fx c l := rfl
    simp only [nbStat] at hr
    rw [← hs, if_neg h1] at hr
    have hnb := hi.nb
    have hl : l = [] := by
      have : (c :: l).length ≤ 1 := by rw [← hnb]; omega
      simpa using this
    rw [hr]
    refine ⟨hi.nb, hi.sup, hi.equal, hi.inf, ?_, hi.lowest, hi.best, ?_, ?_, ?_⟩
    · simp only [hi.sup, hi.equal, hi.inf, hi.nb]; exact hcount v
    · simp only [hi.mean, hi.nb]; rfl
    · simp only; rw [if_pos (by simp [v, hl])]
    · have hbest : s.best = c := by
        have := hi.best.1
        rw [hl] at this
        simpa using this
      intro q k hqk
      simp only [List.mem_cons, Prod.mk.injEq, List.not_mem_nil, or_false, v, hl, hbest,
        List.length_singleton] at hqk ⊢
      rcases hqk with ⟨rfl, rfl⟩ | ⟨rfl, rfl⟩ | ⟨rfl, rfl⟩ <;> simp

example : ∃ sort : List ℚ → List ℚ, ∀ v, (sort v).Perm v ∧ (sort v).Pairwise (· ≤ ·) := by
  refine ⟨fun v => v.mergeSort (fun a b => decide (a ≤ b)), fun v => ⟨List.mergeSort_perm _ _, ?_⟩⟩
  have := List.pairwise_mergeSort (le := fun a b : ℚ => decide (a ≤ b)) (by
    intro a b c; simp only [decide_eq_true_eq]; exact le_trans) (by
    intro a b; simp only [Bool.or_eq_true, decide_eq_true_eq]; exact le_total a b) v
  simpa using this

end Paradiseo.LS
