import Verif.Model.FoundryEA
import Verif.Props.FastGA

/-! Properties of the foundry of evolutionary algorithms. -/

namespace Paradiseo.FoundryEA

open Paradiseo.EO Paradiseo.Run

/-! ### C306: what is assembled -/

/-- The slot is encoded by the index of one of its operators. -/
def Chosen (enc : List Enc) (slot : Nat) (f : Forges) (n : Nat) : Prop :=
  enc[slot]? = some (.index n) ∧ n < f.ops.length

theorem rank_ok {enc : List Enc} {slot n : Nat} : rank enc slot = .ok n ↔ enc[slot]? = some (.index n) := by
  unfold rank
  cases h : enc[slot]? with
  | none => simp
  | some e => cases e <;> simp

theorem instantiate_ok (f : Forges) (n : Nat) : (∃ r, f.instantiate n = .ok r) ↔ n < f.ops.length := by
  unfold Forges.instantiate
  cases h : f.ops[n]? with
  | none =>
    have := List.getElem?_eq_none_iff.1 h
    simp
    omega
  | some o =>
    have : n < f.ops.length := (List.getElem?_eq_some_iff.1 h).1
    simp only [this, iff_true]
    cases f.noCache <;> cases o.inst <;> exact ⟨_, rfl⟩

theorem get_ok (debug : Bool) (enc : List Enc) (slot : Nat) (f : Forges) :
    (∃ r, get debug enc slot f = .ok r) ↔ ∃ n, Chosen enc slot f n := by
  unfold get Chosen
  cases h : rank enc slot with
  | error e =>
    simp only [reduceCtorEq, exists_false, false_iff, not_exists, not_and]
    intro n hn
    rw [rank_ok.2 hn] at h; cases h
  | ok r =>
    have hr := rank_ok.1 h
    simp only [hr, Option.some.injEq, Enc.index.injEq, exists_eq_left']
    by_cases hl : f.ops.length ≤ r
    · have : ¬ ∃ x, f.instantiate r = .ok x := by rw [instantiate_ok]; omega
      cases debug
      · simp only [Bool.false_and, Bool.false_eq_true, if_false]
        exact ⟨fun h => absurd h this, fun h => by omega⟩
      · simp only [hl, decide_true, Bool.and_self, if_true, reduceCtorEq, exists_false, false_iff]
        omega
    · simp only [hl, decide_false, Bool.and_false, Bool.false_eq_true, if_false]
      exact instantiate_ok f r

theorem checked_ok (enc : List Enc) (l : List (Nat × Forges)) :
    checked enc l = .ok () ↔ ∀ p ∈ l, ∃ n, Chosen enc p.1 p.2 n := by
  induction l with
  | nil => simp [checked]
  | cons p l ih =>
    obtain ⟨slot, f⟩ := p
    rw [checked]
    by_cases h0 : f.ops.length = 0
    · simp only [h0, if_true, reduceCtorEq, List.mem_cons, forall_eq_or_imp, false_iff, not_and]
      rintro ⟨n, -, hn⟩
      omega
    · rw [if_neg h0]
      cases hr : rank enc slot with
      | error e =>
        simp only [reduceCtorEq, List.mem_cons, forall_eq_or_imp, false_iff, not_and]
        rintro ⟨n, hn, -⟩
        rw [rank_ok.2 hn] at hr; cases hr
      | ok r =>
        have hr' := rank_ok.1 hr
        simp only [List.mem_cons, forall_eq_or_imp]
        by_cases hl : f.ops.length ≤ r
        · simp only [hl, if_true, reduceCtorEq, false_iff, not_and]
          rintro ⟨n, hn, hn'⟩
          simp only [hr', Option.some.injEq, Enc.index.injEq] at hn
          omega
        · simp only [hl, if_false, ih]
          exact ⟨fun h => ⟨⟨r, hr', by omega⟩, h⟩, fun h => h.2⟩

/-- An algorithm is made if and only if each of the five slots is encoded by the index of one of its operators; a real
number, too few numbers or an index outside give an error, in debugging builds and in others. -/
theorem C306_made_iff (debug : Bool) (enc : List Enc) (s : Slots) :
    (∃ r, assemble debug enc s = .ok r) ↔
      (∃ n, Chosen enc 0 s.continuators n) ∧ (∃ n, Chosen enc 1 s.crossovers n) ∧ (∃ n, Chosen enc 2 s.mutations n) ∧
      (∃ n, Chosen enc 3 s.selectors n) ∧ ∃ n, Chosen enc 4 s.replacements n := by
  have g0 := get_ok debug enc 0 s.continuators
  have g1 := get_ok debug enc 1 s.crossovers
  have g2 := get_ok debug enc 2 s.mutations
  have g3 := get_ok debug enc 3 s.selectors
  have g4 := get_ok debug enc 4 s.replacements
  have hc := checked_ok enc [(0, s.continuators), (1, s.crossovers), (2, s.mutations), (3, s.selectors), (4, s.replacements)]
  simp only [List.mem_cons, List.not_mem_nil, or_false, forall_eq_or_imp, forall_eq] at hc
  constructor
  · rintro ⟨r, h⟩
    unfold assemble at h
    cases e1 : get debug enc 1 s.crossovers with
    | error e => simp only [e1] at h; split at h <;> cases h
    | ok r1 =>
      cases e2 : get debug enc 2 s.mutations with
      | error e => simp only [e1, e2] at h; split at h <;> cases h
      | ok r2 =>
        cases e3 : get debug enc 3 s.selectors with
        | error e => simp only [e1, e2, e3] at h; split at h <;> cases h
        | ok r3 =>
          cases e0 : get debug enc 0 s.continuators with
          | error e => simp only [e1, e2, e3, e0] at h; split at h <;> cases h
          | ok r0 =>
            cases e4 : get debug enc 4 s.replacements with
            | error e => simp only [e1, e2, e3, e0, e4] at h; split at h <;> cases h
            | ok r4 => exact ⟨g0.1 ⟨_, e0⟩, g1.1 ⟨_, e1⟩, g2.1 ⟨_, e2⟩, g3.1 ⟨_, e3⟩, g4.1 ⟨_, e4⟩⟩
  · rintro ⟨h0, h1, h2, h3, h4⟩
    obtain ⟨r0, e0⟩ := g0.2 h0
    obtain ⟨r1, e1⟩ := g1.2 h1
    obtain ⟨r2, e2⟩ := g2.2 h2
    obtain ⟨r3, e3⟩ := g3.2 h3
    obtain ⟨r4, e4⟩ := g4.2 h4
    unfold assemble
    cases debug
    · simp only [Bool.false_eq_true, if_false, e0, e1, e2, e3, e4]
      exact ⟨_, rfl⟩
    · simp only [if_true, hc.2 ⟨h0, h1, h2, h3, h4⟩, e0, e1, e2, e3, e4]
      exact ⟨_, rfl⟩

theorem instantiate_error {f : Forges} {n : Nat} {e : Err} (h : f.instantiate n = .error e) : e = .thrown := by
  unfold Forges.instantiate at h
  split at h
  · cases h; rfl
  · split at h <;> cases h

/-- Without debugging the error is always an exception that the caller can catch, never a wrong operator. -/
theorem C306_release (enc : List Enc) (s : Slots) (e : Err) (h : assemble false enc s = .error e) : e = .thrown := by
  have hg : ∀ slot f e, get false enc slot f = .error e → e = .thrown := by
    intro slot f e h
    unfold get at h
    cases hr : rank enc slot with
    | error e' =>
      simp only [hr, Except.error.injEq] at h
      subst h
      unfold rank at hr
      split at hr
      · cases hr
      · cases hr; rfl
    | ok r =>
      simp only [hr, Bool.false_and, Bool.false_eq_true, if_false] at h
      exact instantiate_error h
  unfold assemble at h
  simp only [Bool.false_eq_true, if_false] at h
  split at h
  · rename_i e' he; cases h; exact hg _ _ _ he
  · split at h
    · rename_i e' he; cases h; exact hg _ _ _ he
    · split at h
      · rename_i e' he; cases h; exact hg _ _ _ he
      · split at h
        · rename_i e' he; cases h; exact hg _ _ _ he
        · split at h
          · rename_i e' he; cases h; exact hg _ _ _ he
          · cases h

theorem cached_twice {f f1 f2 : Forges} {n k k' : Nat} (hc : f.noCache = false) (h : f.instantiate n = .ok (k, f1))
    (h' : f1.instantiate n = .ok (k', f2)) : k' = k ∧ f2 = f1 := by
  cases ho : f.ops[n]? with
  | none => simp [Forges.instantiate, ho] at h
  | some o =>
    have hn : n < f.ops.length := (List.getElem?_eq_some_iff.1 ho).1
    cases hi : o.inst with
    | some j =>
      simp only [Forges.instantiate, ho, hc, hi, Except.ok.injEq, Prod.mk.injEq] at h
      obtain ⟨rfl, rfl⟩ := h
      simp only [Forges.instantiate, ho, hc, hi, Except.ok.injEq, Prod.mk.injEq] at h'
      exact ⟨h'.1.symm, h'.2.symm⟩
    | none =>
      simp only [Forges.instantiate, ho, hc, hi, Except.ok.injEq, Prod.mk.injEq] at h
      obtain ⟨rfl, rfl⟩ := h
      simp only [Forges.instantiate, List.getElem?_set_self hn, hc, Except.ok.injEq, Prod.mk.injEq] at h'
      exact ⟨h'.1.symm, h'.2.symm⟩

theorem uncached_twice {f f1 f2 : Forges} {n k k' : Nat} (hc : f.noCache = true) (h : f.instantiate n = .ok (k, f1))
    (h' : f1.instantiate n = .ok (k', f2)) : k' ≠ k ∧ k ∈ f2.dead := by
  cases ho : f.ops[n]? with
  | none => simp [Forges.instantiate, ho] at h
  | some o =>
    have hn : n < f.ops.length := (List.getElem?_eq_some_iff.1 ho).1
    cases hi : o.inst <;>
    · simp only [Forges.instantiate, ho, hc, hi, Except.ok.injEq, Prod.mk.injEq] at h
      obtain ⟨rfl, rfl⟩ := h
      simp only [Forges.instantiate, List.getElem?_set_self hn, hc, Except.ok.injEq, Prod.mk.injEq] at h'
      obtain ⟨rfl, rfl⟩ := h'
      simp

/-- What a slot was asked for, in a release build. -/
theorem get_eq {enc : List Enc} {slot n k : Nat} {f f1 : Forges} (h : get false enc slot f = .ok (k, f1))
    (hn : enc[slot]? = some (.index n)) : f.instantiate n = .ok (k, f1) := by
  unfold get at h
  rw [rank_ok.2 hn] at h
  simpa using h

theorem assemble_gets {enc : List Enc} {s s' : Slots} {o : Objects} (h : assemble false enc s = .ok (o, s')) :
    get false enc 0 s.continuators = .ok (o.cont, s'.continuators) ∧
    get false enc 1 s.crossovers = .ok (o.cross, s'.crossovers) ∧
    get false enc 2 s.mutations = .ok (o.mutn, s'.mutations) ∧
    get false enc 3 s.selectors = .ok (o.sel, s'.selectors) ∧
    get false enc 4 s.replacements = .ok (o.repl, s'.replacements) := by
  unfold assemble at h
  simp only [Bool.false_eq_true, if_false] at h
  split at h
  · cases h
  · rename_i h1
    split at h
    · cases h
    · rename_i h2
      split at h
      · cases h
      · rename_i h3
        split at h
        · cases h
        · rename_i h0
          split at h
          · cases h
          · rename_i h4
            simp only [Except.ok.injEq, Prod.mk.injEq] at h
            obtain ⟨rfl, rfl⟩ := h
            exact ⟨h0, h1, h2, h3, h4⟩

/-- Two runs of a foundry with the same encoding: crossover, mutation, selection and replacement are the same objects,
with whatever state they have kept; the continuator is a new one, and the former one has been deleted. -/
theorem C306_two_runs (enc : List Enc) (s s1 s2 : Slots) (o o' : Objects) (hx : s.crossovers.noCache = false)
    (hm : s.mutations.noCache = false) (hl : s.selectors.noCache = false) (hr : s.replacements.noCache = false)
    (hc : s.continuators.noCache = true) (h : assemble false enc s = .ok (o, s1))
    (h' : assemble false enc s1 = .ok (o', s2)) :
    o'.cross = o.cross ∧ o'.mutn = o.mutn ∧ o'.sel = o.sel ∧ o'.repl = o.repl ∧
    o'.cont ≠ o.cont ∧ o.cont ∈ s2.continuators.dead ∧ s2.crossovers = s1.crossovers ∧ s2.mutations = s1.mutations ∧
    s2.selectors = s1.selectors ∧ s2.replacements = s1.replacements := by
  obtain ⟨⟨n0, c0, -⟩, ⟨n1, c1, -⟩, ⟨n2, c2, -⟩, ⟨n3, c3, -⟩, ⟨n4, c4, -⟩⟩ := (C306_made_iff false enc s).1 ⟨_, h⟩
  obtain ⟨a0, a1, a2, a3, a4⟩ := assemble_gets h
  obtain ⟨b0, b1, b2, b3, b4⟩ := assemble_gets h'
  have k0 := uncached_twice hc (get_eq a0 c0) (get_eq b0 c0)
  have k1 := cached_twice hx (get_eq a1 c1) (get_eq b1 c1)
  have k2 := cached_twice hm (get_eq a2 c2) (get_eq b2 c2)
  have k3 := cached_twice hl (get_eq a3 c3) (get_eq b3 c3)
  have k4 := cached_twice hr (get_eq a4 c4) (get_eq b4 c4)
  exact ⟨k1.1, k2.1, k3.1, k4.1, k0.1, k0.2, k1.2, k2.2, k3.2, k4.2⟩

/-- A foundry with two operators in every slot. -/
def two : Slots :=
  let s := Slots.new
  ⟨(s.continuators.add true).add false, (s.crossovers.add true).add false, (s.mutations.add true).add false,
    (s.selectors.add true).add false, (s.replacements.add true).add false⟩

def choice : List Enc := [.index 1, .index 0, .index 1, .index 0, .index 1]

example : two.crossovers.noCache = false ∧ two.continuators.noCache = true ∧ two.selectors.noCache = false := by decide
example : ((assemble false choice two).bind fun r => (assemble false choice r.2).map fun r' => (r.1, r'.1)) =
    .ok (⟨0, 0, 0, 0, 0⟩, ⟨1, 0, 0, 0, 0⟩) := by decide +kernel
example : (assemble false [.index 1, .index 0, .index 1, .real 1, .index 1] two).map (·.1) = .error .thrown := by
  decide +kernel
example : (assemble true [.index 1, .index 0, .index 1, .index 2, .index 1] two).map (·.1) = .error .asserted := by
  decide +kernel

/-- The length of the encoding is only checked in debugging builds; otherwise what is missing is found when it is used,
and what is too much is not. -/
theorem C306_select (enc : List Enc) : (select true enc = .ok enc ↔ enc.length = 5) ∧ select false enc = .ok enc := by
  unfold select
  constructor
  · by_cases h : enc.length = 5 <;> simp [h]
  · simp

/-! ### C307: how long it runs -/

variable {G F τ : Type}

private theorem loop_bound (f : G → F) (breed : Nat → List (Ind G F) → Except Err (List (Ind G F)))
    (replace : Nat → Replacement (Ind G F)) (user : Cont τ (Ind G F)) (maxGen : Nat)
    (hb : ∀ g pop, breed g pop ≠ .error .fuel) (hr : ∀ g pop off, replace g pop off ≠ .error .fuel)
    (hu : ∀ t e pop, user t e pop ≠ .error .fuel) :
    ∀ (fuel : Nat) (s : RunSt G F (Nat × τ)), s.cs.1 = s.gens → (s.gens + 1 ≤ max 1 maxGen) →
      max 1 maxGen ≤ s.gens + fuel →
      (EA.mk f breed replace (contOf maxGen user)).loop fuel s ≠ .error .fuel ∧
      ∀ r, (EA.mk f breed replace (contOf maxGen user)).loop fuel s = .ok r →
        r.gens ≤ max 1 maxGen ∧ ((∀ t e pop, ∃ t', user t e pop = .ok (true, t')) → r.gens = max 1 maxGen) := by
  intro fuel
  induction fuel with
  | zero => intro s h1 h2 h3; omega
  | succ fuel ih =>
    intro s h1 h2 h3
    rw [EA.loop]
    simp only [EA.generation]
    cases hbr : breed s.gens s.pop with
    | error e =>
      simp only [ne_eq, Except.error.injEq, reduceCtorEq, false_implies, implies_true, and_true]
      exact fun e' => hb _ _ (e' ▸ hbr)
    | ok off =>
      dsimp only
      cases hre : replace s.gens s.pop (evalPop f s.evals off).2 with
      | error e =>
        simp only [ne_eq, Except.error.injEq, reduceCtorEq, false_implies, implies_true, and_true]
        exact fun e' => hr _ _ _ (e' ▸ hre)
      | ok q =>
        obtain ⟨q, q'⟩ := q
        dsimp only
        by_cases g1 : s.pop.length > q.length
        · simp [g1]
        · by_cases g2 : s.pop.length < q.length
          · simp [g1, g2]
          · simp only [g1, g2, if_false, contOf, genCont]
            by_cases hm : s.cs.1 + 1 ≥ maxGen
            · simp only [hm, decide_true, Bool.not_true]
              refine ⟨by simp, ?_⟩
              rintro r hr'
              simp only [Except.ok.injEq] at hr'
              subst hr'
              dsimp only
              exact ⟨by omega, fun _ => by omega⟩
            · simp only [hm, decide_false, Bool.not_false]
              cases hus : user s.cs.2 (evalPop f s.evals off).1 q with
              | error e =>
                simp only [ne_eq, Except.error.injEq, reduceCtorEq, false_implies, implies_true, and_true]
                exact fun e' => hu _ _ _ (e' ▸ hus)
              | ok b =>
                obtain ⟨b, t⟩ := b
                cases b
                · dsimp only
                  refine ⟨by simp, ?_⟩
                  rintro r hr'
                  simp only [Except.ok.injEq] at hr'
                  subst hr'
                  dsimp only
                  refine ⟨by omega, fun hall => ?_⟩
                  obtain ⟨t', ht'⟩ := hall s.cs.2 (evalPop f s.evals off).1 q
                  rw [hus] at ht'
                  simp at ht'
                · dsimp only
                  exact ih _ (by simp only; omega) (by simp only; omega) (by simp only; omega)

private theorem gens_pos {f : G → F} {breed : Nat → List (Ind G F) → Except Err (List (Ind G F))}
    {replace : Nat → Replacement (Ind G F)} {user : Cont τ (Ind G F)} {maxGen fuel evals : Nat} {t0 : τ}
    {pop : List (Ind G F)} {r : RunSt G F (Nat × τ)}
    (h : (EA.mk f breed replace (contOf maxGen user)).run fuel pop evals (0, t0) = .ok r) : 1 ≤ r.gens := by
  have key : ∀ (fuel : Nat) (s r : RunSt G F (Nat × τ)),
      (EA.mk f breed replace (contOf maxGen user)).loop fuel s = .ok r → s.gens + 1 ≤ r.gens := by
    intro fuel
    induction fuel with
    | zero => intro s r h; cases h
    | succ fuel ih =>
      intro s r h
      rw [EA.loop] at h
      split at h
      · cases h
      · rename_i s1 hs1
        have hg : s1.gens = s.gens + 1 := by
          unfold EA.generation at hs1
          split at hs1
          · cases hs1
          · split at hs1
            · cases hs1
            · split at hs1
              · cases hs1
              · split at hs1
                · cases hs1
                · cases hs1; rfl
        split at h
        · cases h
        · have := ih _ _ h
          simp only at this
          omega
        · cases h; simp only; omega
  exact le_trans (Nat.le_add_left 1 _) (key _ _ _ h)

/-- Whatever operators are chosen, a run ends after at most the maximal number of generations given to the foundry, but
never before the first; a continuator that never stops gives exactly that number. -/
theorem C307_generations (debug : Bool) (maxGen : Nat) (f : G → F)
    (breed : Objects → Nat → List (Ind G F) → Except Err (List (Ind G F))) (replace : Objects → Nat → Replacement (Ind G F))
    (user : Objects → Cont τ (Ind G F)) (t0 : τ) (hb : ∀ o g pop, breed o g pop ≠ .error .fuel)
    (hr : ∀ o g pop off, replace o g pop off ≠ .error .fuel) (hu : ∀ o t e pop, user o t e pop ≠ .error .fuel)
    (enc : List Enc) (s : Slots) (fuel : Nat) (hf : max 1 maxGen ≤ fuel) (pop : List (Ind G F)) (evals : Nat)
    (r : RunSt G F (Nat × τ)) (s' : Slots)
    (h : run debug maxGen f breed replace user t0 enc s fuel pop evals = .ok (r, s')) :
    1 ≤ r.gens ∧ r.gens ≤ max 1 maxGen ∧
    ((∀ o t e p, ∃ t', user o t e p = .ok (true, t')) → r.gens = max 1 maxGen) := by
  unfold run at h
  cases ha : assemble debug enc s with
  | error e => simp [ha] at h
  | ok o =>
    obtain ⟨o, s1⟩ := o
    simp only [ha] at h
    have key := loop_bound f (breed o) (replace o) (user o) maxGen (hb o) (hr o) (hu o) fuel
      ((EA.mk f (breed o) (replace o) (contOf maxGen (user o))).start pop evals (0, t0)) rfl (by simp only [EA.start]; omega)
      (by simp only [EA.start]; omega)
    cases he : (EA.mk f (breed o) (replace o) (contOf maxGen (user o))).run fuel pop evals (0, t0) with
    | error e => simp [he] at h
    | ok r' =>
      simp only [he, Except.ok.injEq, Prod.mk.injEq] at h
      obtain ⟨rfl, -⟩ := h
      obtain ⟨k1, k2⟩ := key.2 r' he
      refine ⟨?_, k1, fun hall => k2 (hall o)⟩
      exact gens_pos he

/-- It never runs for ever. -/
theorem C307_ends (debug : Bool) (maxGen : Nat) (f : G → F)
    (breed : Objects → Nat → List (Ind G F) → Except Err (List (Ind G F))) (replace : Objects → Nat → Replacement (Ind G F))
    (user : Objects → Cont τ (Ind G F)) (t0 : τ) (hb : ∀ o g pop, breed o g pop ≠ .error .fuel)
    (hr : ∀ o g pop off, replace o g pop off ≠ .error .fuel) (hu : ∀ o t e pop, user o t e pop ≠ .error .fuel)
    (enc : List Enc) (s : Slots) (hs : ∃ r, assemble debug enc s = .ok r) (fuel : Nat) (hf : max 1 maxGen ≤ fuel)
    (pop : List (Ind G F)) (evals : Nat) :
    run debug maxGen f breed replace user t0 enc s fuel pop evals ≠ .error .fuel := by
  obtain ⟨⟨o, s1⟩, ha⟩ := hs
  unfold run
  simp only [ha]
  have key := (loop_bound f (breed o) (replace o) (user o) maxGen (hb o) (hr o) (hu o) fuel
      ((EA.mk f (breed o) (replace o) (contOf maxGen (user o))).start pop evals (0, t0)) rfl (by simp only [EA.start]; omega)
      (by simp only [EA.start]; omega)).1
  cases he : (EA.mk f (breed o) (replace o) (contOf maxGen (user o))).run fuel pop evals (0, t0) with
  | error e =>
    simp only [ne_eq, Except.error.injEq]
    exact fun e' => key (e' ▸ he)
  | ok r => simp

/-- Three generations of a foundry with a continuator that never stops. -/
example : (run false 3 (· * 2) (fun _ _ pop => .ok (pop.map fun x => (Ind.new (x.genome + 1) : Ind Nat Nat)))
      (fun _ _ pop off => .ok (off, pop)) (fun _ t _ _ => .ok (true, t)) () choice two 5 [Ind.new 1] 0).map
      (fun r => (r.1.pop, r.1.gens)) = .ok ([⟨4, 8, false⟩], 3) := by decide +kernel
/-- With a maximum of zero there is still one generation. -/
example : (run false 0 (· * 2) (fun _ _ pop => .ok (pop.map fun x => (Ind.new (x.genome + 1) : Ind Nat Nat)))
      (fun _ _ pop off => .ok (off, pop)) (fun _ t _ _ => .ok (true, t)) () choice two 5 [Ind.new 1] 0).map
      (fun r => r.1.gens) = .ok 1 := by decide +kernel

end Paradiseo.FoundryEA
