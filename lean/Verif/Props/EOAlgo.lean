/-
C100: the loop of the evolutionary algorithm; C101: continuators.
-/
import Verif.Model.EOAlgo
import Verif.Props.EO
import Verif.Props.EOReplacement
import Verif.Props.EOBreed

namespace Paradiseo.Run

open Paradiseo.EO

variable {α G F σ : Type}

/-! ### Lemmas -/

theorem generation_ok {ea : EA G F σ} {s s' : RunSt G F σ} (h : ea.generation s = .ok s') :
    ∃ off pop' o', ea.breed s.gens s.pop = .ok off ∧
      ea.replace s.gens s.pop (evalPop ea.f s.evals off).2 = .ok (pop', o') ∧
      pop'.length = s.pop.length ∧
      s' = ⟨pop', (evalPop ea.f s.evals off).1, s.cs, s.gens + 1,
        s.seen ++ [(evalPop ea.f s.evals off).2]⟩ := by
  unfold EA.generation at h
  split at h
  · simp at h
  · rename_i off ho
    split at h
    · simp at h
    · rename_i pop' o' hr
      split at h
      · simp at h
      · split at h
        · simp at h
        · simp only [Except.ok.injEq] at h
          exact ⟨off, pop', o', ho, hr, by omega, h.symm⟩

/-- What every generation keeps (whatever the continuator does with its own state) holds at the end. -/
theorem loop_inv {ea : EA G F σ} (I : RunSt G F σ → Prop)
    (hstep : ∀ s s' cs, I s → ea.generation s = .ok s' → I { s' with cs := cs }) (n : Nat)
    (s s' : RunSt G F σ) (hs : I s) (h : ea.loop n s = .ok s') : I s' := by
  induction n generalizing s with
  | zero => simp [EA.loop] at h
  | succ n ih =>
    rw [EA.loop] at h
    split at h
    · simp at h
    · rename_i s1 h1
      split at h
      · simp at h
      · exact ih _ (hstep _ _ _ hs h1) h
      · simp only [Except.ok.injEq] at h
        subst h
        exact hstep _ _ _ hs h1

theorem evalPop_length (f : G → F) (c : Nat) (pop : List (Ind G F)) :
    (evalPop f c pop).2.length = pop.length := by
  have := congrArg List.length (C47_evalPop f c pop).1
  simpa using this

/-! ### C100: the loop -/

/-- C100, sizes: a run that returns has kept the size of the population, and has done at least one
generation; a replacement that changes the size makes the run throw. -/
theorem C100_size (ea : EA G F σ) (fuel : Nat) (pop : List (Ind G F)) (evals : Nat) (cs : σ) :
    (∀ s, ea.run fuel pop evals cs = .ok s → s.pop.length = pop.length ∧ 1 ≤ s.gens) ∧
    (∀ s off pop' o', ea.breed s.gens s.pop = .ok off →
      ea.replace s.gens s.pop (evalPop ea.f s.evals off).2 = .ok (pop', o') →
      pop'.length ≠ s.pop.length → ∀ n, ea.loop (n + 1) s = .error .thrown) := by
  constructor
  · intro s h
    unfold EA.run at h
    have hlen : (ea.start pop evals cs).pop.length = pop.length := evalPop_length _ _ _
    constructor
    · refine loop_inv (fun s => s.pop.length = pop.length) ?_ _ _ _ hlen h
      intro s s' cs hs hg
      obtain ⟨off, pop', o', _, _, hl, rfl⟩ := generation_ok hg
      exact hl.trans hs
    · cases fuel with
      | zero => simp [EA.loop] at h
      | succ n =>
        have key : ∀ (n : Nat) (s s' : RunSt G F σ), ea.loop n s = .ok s' → s.gens + 1 ≤ s'.gens := by
          intro n
          induction n with
          | zero => intro s s' h; simp [EA.loop] at h
          | succ n ih =>
            intro s s' h
            rw [EA.loop] at h
            split at h
            · simp at h
            · rename_i s1 h1
              obtain ⟨off, pop', o', _, _, _, rfl⟩ := generation_ok h1
              split at h
              · simp at h
              · have := ih _ _ h
                simp only at this
                omega
              · simp only [Except.ok.injEq] at h
                subst h
                simp
        have := key _ _ _ h
        simp only [EA.start] at this
        omega
  · intro s off pop' o' hb hr hne n
    have hg : ea.generation s = .error .thrown := by
      unfold EA.generation
      simp only [hb, hr]
      split
      · rfl
      · split
        · rfl
        · omega
    rw [EA.loop, hg]

/-- C100, validity: if breeding gives individuals whose fitness, where valid, is right, and the
replacement only keeps parents and offspring, then at the end every individual has the fitness of its
genome, and every offspring ever produced was evaluated rightly. -/
theorem C100_evaluated (ea : EA G F σ) (fuel : Nat) (pop : List (Ind G F)) (evals : Nat) (cs : σ)
    (hbreed : ∀ g p off, p.length = pop.length → (∀ x ∈ p, x.fitness = some (ea.f x.genome)) →
      ea.breed g p = .ok off →
      ∀ x ∈ off, ∀ v, x.fitness = some v → v = ea.f x.genome)
    (hrep : ∀ g p off p' o, ea.replace g p off = .ok (p', o) → ∀ x ∈ p', x ∈ p ∨ x ∈ off)
    (hpop : ∀ x ∈ pop, ∀ v, x.fitness = some v → v = ea.f x.genome)
    (s : RunSt G F σ) (h : ea.run fuel pop evals cs = .ok s) :
    (∀ x ∈ s.pop, x.fitness = some (ea.f x.genome)) ∧
    (∀ o ∈ s.seen, ∀ x ∈ o, x.fitness = some (ea.f x.genome)) ∧ s.seen.length = s.gens := by
  refine (loop_inv (fun s => s.pop.length = pop.length ∧
    (∀ x ∈ s.pop, x.fitness = some (ea.f x.genome)) ∧
    (∀ o ∈ s.seen, ∀ x ∈ o, x.fitness = some (ea.f x.genome)) ∧ s.seen.length = s.gens) ?_ _ _ _ ?_ h).2
  · rintro s s' cs ⟨h0, h1, h2, h3⟩ hg
    obtain ⟨off, pop', o', hb, hr, hl, rfl⟩ := generation_ok hg
    have hoff := (C47_evalPop ea.f s.evals off).2.2.1 (hbreed _ _ _ h0 h1 hb)
    refine ⟨hl.trans h0, fun x hx => ?_, fun o ho => ?_, by simp [h3]⟩
    · rcases hrep _ _ _ _ _ hr x hx with hx | hx
      · exact h1 x hx
      · exact hoff x hx
    · simp only [List.mem_append, List.mem_singleton] at ho
      rcases ho with ho | rfl
      · exact h2 o ho
      · exact hoff
  · exact ⟨evalPop_length _ _ _, (C47_evalPop ea.f evals pop).2.2.1 hpop, by simp [EA.start], by simp [EA.start]⟩

/-- C100, monotone: if the replacement always keeps somebody at least as good as each parent, nobody of
the (evaluated) initial population is better than everybody at the end. -/
theorem C100_best_monotone [LinearOrder F] (ea : EA G F σ) (fuel : Nat) (pop : List (Ind G F))
    (evals : Nat) (cs : σ)
    (hrep : ∀ g p off p' o, ea.replace g p off = .ok (p', o) →
      ∀ x ∈ p, ∃ y ∈ p', x.repFitness ≤ y.repFitness)
    (s : RunSt G F σ) (h : ea.run fuel pop evals cs = .ok s) :
    ∀ x ∈ (ea.start pop evals cs).pop, ∃ y ∈ s.pop, x.repFitness ≤ y.repFitness := by
  refine loop_inv (fun s => ∀ x ∈ (ea.start pop evals cs).pop, ∃ y ∈ s.pop,
    x.repFitness ≤ y.repFitness) ?_ _ _ _ (fun x hx => ⟨x, hx, le_rfl⟩) h
  rintro s s' cs' hI hg x hx
  obtain ⟨off, pop', o', hb, hr, hl, rfl⟩ := generation_ok hg
  obtain ⟨y, hy, hxy⟩ := hI x hx
  obtain ⟨z, hz, hyz⟩ := hrep _ _ _ _ _ hr y hy
  exact ⟨z, hz, hxy.trans hyz⟩

/-- C100, best ever: if the replacement keeps somebody at least as good as each parent and each
offspring, the final population has somebody at least as good as anybody evaluated in the run. -/
theorem C100_best_ever [LinearOrder F] (ea : EA G F σ) (fuel : Nat) (pop : List (Ind G F))
    (evals : Nat) (cs : σ)
    (hrep : ∀ g p off p' o, ea.replace g p off = .ok (p', o) → p'.length = p.length →
      p ≠ [] → ∀ x ∈ p ++ off, ∃ y ∈ p', x.repFitness ≤ y.repFitness) (hne : pop ≠ [])
    (s : RunSt G F σ) (h : ea.run fuel pop evals cs = .ok s) :
    ∀ o ∈ (ea.start pop evals cs).pop :: s.seen, ∀ x ∈ o, ∃ y ∈ s.pop, x.repFitness ≤ y.repFitness := by
  refine (loop_inv (fun s => s.pop ≠ [] ∧ ∀ o ∈ (ea.start pop evals cs).pop :: s.seen, ∀ x ∈ o, ∃ y ∈ s.pop,
    x.repFitness ≤ y.repFitness) ?_ _ _ _ ?_ h).2
  · rintro s s' cs' ⟨hne, hI⟩ hg
    obtain ⟨off, pop', o', hb, hr, hl, rfl⟩ := generation_ok hg
    have key := hrep _ _ _ _ _ hr hl hne
    refine ⟨?_, fun o ho x hx => ?_⟩
    · intro h0
      simp only at h0
      rw [h0] at hl
      exact hne (List.eq_nil_of_length_eq_zero hl.symm)
    · simp only [List.mem_cons, List.mem_append, List.mem_singleton, List.not_mem_nil, or_false] at ho
      have step : ∀ y ∈ s.pop, x.repFitness ≤ y.repFitness → ∃ z ∈ pop', x.repFitness ≤ z.repFitness := by
        intro y hy hxy
        obtain ⟨z, hz, hyz⟩ := key y (List.mem_append_left _ hy)
        exact ⟨z, hz, hxy.trans hyz⟩
      rcases ho with rfl | ho | rfl
      · obtain ⟨y, hy, hxy⟩ := hI _ (by simp) x hx
        exact step y hy hxy
      · obtain ⟨y, hy, hxy⟩ := hI o (by simp [ho]) x hx
        exact step y hy hxy
      · exact key x (List.mem_append_right _ hx)
  · refine ⟨?_, fun o ho x hx => ?_⟩
    · intro h0
      have := evalPop_length ea.f evals pop
      simp only [EA.start] at h0
      rw [h0] at this
      exact hne (List.eq_nil_of_length_eq_zero this.symm)
    · simp only [EA.start, List.mem_singleton] at ho
      subst ho
      exact ⟨x, hx, le_rfl⟩

/-- C100, evaluations: at most one for each initial individual and each offspring. -/
theorem C100_evaluations (ea : EA G F σ) (fuel : Nat) (pop : List (Ind G F)) (evals : Nat) (cs : σ)
    (s : RunSt G F σ) (h : ea.run fuel pop evals cs = .ok s) :
    evals + pop.countP (·.invalid) ≤ s.evals ∧
    s.evals ≤ evals + pop.countP (·.invalid) + (s.seen.map List.length).sum := by
  refine loop_inv (fun s => evals + pop.countP (·.invalid) ≤ s.evals ∧
    s.evals ≤ evals + pop.countP (·.invalid) + (s.seen.map List.length).sum) ?_ _ _ _ ?_ h
  · rintro s s' cs ⟨h1, h2⟩ hg
    obtain ⟨off, pop', o', hb, hr, hl, rfl⟩ := generation_ok hg
    have hc := (C47_evalPop ea.f s.evals off).2.2.2
    have hle : off.countP (·.invalid) ≤ off.length := List.countP_le_length
    have hlen := evalPop_length ea.f s.evals off
    simp only [List.map_append, List.map_cons, List.map_nil, List.sum_append, List.sum_cons,
      List.sum_nil, hlen]
    omega
  · have hc := (C47_evalPop ea.f evals pop).2.2.2
    simp only [EA.start, List.map_nil, List.sum_nil]
    omega

/-- With a generation counter and parts that never fail, the loop does exactly the generations missing to
the total, and at least one. -/
theorem genCont_loop (ea : EA G F Nat) (total : Nat) (hc : ea.cont = genCont total)
    (I : RunSt G F Nat → Prop)
    (hstep : ∀ s cs, I s → ∃ s', ea.generation s = .ok s' ∧ I { s' with cs := cs }) (k : Nat)
    (s : RunSt G F Nat) (hI : I s) (hk : k = max (total - s.cs) 1) :
    ∃ s', ea.loop k s = .ok s' ∧ s'.gens = s.gens + k ∧ I s' := by
  induction k generalizing s with
  | zero => omega
  | succ k ih =>
    obtain ⟨s1, h1, _⟩ := hstep s s.cs hI
    obtain ⟨off, pop', o', hb, hr, hl, hs1⟩ := generation_ok h1
    have hcs : s1.cs = s.cs := by rw [hs1]
    have hgens : s1.gens = s.gens + 1 := by rw [hs1]
    obtain ⟨s2, h2, hI2⟩ := hstep s (s.cs + 1) hI
    rw [h1, Except.ok.injEq] at h2
    subst h2
    by_cases hle : total ≤ s.cs + 1
    · refine ⟨{ s1 with cs := s.cs + 1 }, ?_, ?_, hI2⟩
      · rw [EA.loop, h1]
        simp only [hc, genCont, hcs, hle, ge_iff_le, decide_true, Bool.not_true]
      · simp only
        omega
    · obtain ⟨s3, h3, h4, h5⟩ := ih { s1 with cs := s.cs + 1 } hI2 (by simp only; omega)
      refine ⟨s3, ?_, ?_, h5⟩
      · rw [EA.loop, h1]
        simp only [hc, genCont, hcs, hle, ge_iff_le, decide_false, Bool.not_false]
        exact h3
      · simp only at h4
        omega

/-- C100, the whole: the algorithm with a general breeder whose operators tell the truth and always
produce, "plus" replacement and a generation counter returns after exactly `max total 1` generations (0
and 1 are the same); the population has its size, everybody has the fitness of their genome, and nobody
evaluated in the whole run was better than the best of the final population. -/
theorem C100_plus_ga [LinearOrder F] [Inhabited F] (ea : EA G F Nat) (total : Nat)
    (hc : ea.cont = genCont total)
    (sort : List (Ind G F) → List (Ind G F)) (hsort : IsSort (fun x => x.repFitness) sort)
    (hr : ∀ g, ea.replace g = plusReplacement sort)
    {op : Breed.GenOp (Ind G F)} (hop : Breed.Built op) (hprod : Breed.Productive op)
    (env : Nat → List (Ind G F) → Breed.Env (Ind G F))
    (hsel : ∀ g p, p ≠ [] → ∀ t, ∃ x ∈ p, (env g p).sel t = .ok x)
    (hu : ∀ g p k, 0 ≤ (env g p).u k ∧ (env g p).u k < 1)
    (h : HowMany) (cap : Nat → Nat) (target : Nat) (pop : List (Ind G F)) (hpop : pop ≠ [])
    (htarget : h.eval pop.length = .ok target)
    (hb : ∀ g p, ea.breed g p = Breed.generalBreeder (target + 1) (env g p) h op p (cap g))
    (hup : ∀ x ∈ pop, ∀ v, x.fitness = some v → v = ea.f x.genome) (evals : Nat) :
    ∃ s, ea.run (max total 1) pop evals 0 = .ok s ∧ s.gens = max total 1 ∧
      s.pop.length = pop.length ∧ (∀ x ∈ s.pop, x.fitness = some (ea.f x.genome)) ∧
      (∀ o ∈ s.seen, o.length = target) ∧
      ∀ o ∈ (ea.start pop evals 0).pop :: s.seen, ∀ x ∈ o, ∃ y ∈ s.pop,
        ea.f x.genome ≤ ea.f y.genome := by
  have hgen : ∀ (s : RunSt G F Nat) (cs : Nat), (s.pop.length = pop.length ∧ ∀ o ∈ s.seen, o.length = target) →
      ∃ s', ea.generation s = .ok s' ∧ (s'.pop.length = pop.length ∧ ∀ o ∈ s'.seen, o.length = target) := by
    rintro s cs ⟨hs, hseen⟩
    have hne : s.pop ≠ [] := by
      intro h0
      rw [h0] at hs
      exact hpop (List.eq_nil_of_length_eq_zero hs.symm)
    obtain ⟨off, ho, hol⟩ := Breed.C94_returns hprod (env s.gens s.pop)
      (fun t => (hsel s.gens s.pop hne t).imp fun x hx => hx.2) (hu _ _) h s.pop (cap s.gens) target (by rw [hs, htarget])
    obtain ⟨kept, hk, hkl, _, _⟩ := C48_plus (fun x : Ind G F => x.repFitness) sort hsort s.pop
      (evalPop ea.f s.evals off).2
    refine ⟨⟨kept, (evalPop ea.f s.evals off).1, s.cs, s.gens + 1,
        s.seen ++ [(evalPop ea.f s.evals off).2]⟩, ?_, hkl.trans hs, ?_⟩
    · unfold EA.generation
      simp only [hb, ho, hr, hk, hkl, lt_irrefl, gt_iff_lt, if_false]
    · intro o ho
      simp only [List.mem_append, List.mem_singleton] at ho
      rcases ho with ho | rfl
      · exact hseen o ho
      · rw [evalPop_length, hol]
  obtain ⟨s, hrun, hg, hlen, hseen⟩ := genCont_loop ea total hc
    (fun s => s.pop.length = pop.length ∧ ∀ o ∈ s.seen, o.length = target) (fun s cs hs => hgen s cs hs) (max total 1)
    (ea.start pop evals 0) ⟨evalPop_length _ _ _, by simp [EA.start]⟩ (by simp [EA.start])
  have hmem : ∀ g p off p' o, ea.replace g p off = .ok (p', o) →
      BestOf (fun x : Ind G F => x.repFitness) p' (p ++ off) := by
    intro g p off p' o hro
    obtain ⟨kept, hk, _, hbest, _⟩ := C48_plus (fun x : Ind G F => x.repFitness) sort hsort p off
    rw [hr, hk] at hro
    simp only [Except.ok.injEq, Prod.mk.injEq] at hro
    rw [← hro.1]
    exact hbest
  have hval := C100_evaluated ea (max total 1) pop evals 0
    (by
      intro g p off hpl hp hbr
      have hne : p ≠ [] := by
        rintro rfl
        exact hpop (List.eq_nil_of_length_eq_zero hpl.symm)
      rw [hb] at hbr
      refine (Breed.C93_no_stale_fitness ea.f hop _ (env g p) h p (cap g) ?_ off hbr).1 ?_
      · intro t x hx
        obtain ⟨y, hy, hy2⟩ := hsel g p hne t
        rw [hx, Except.ok.injEq] at hy2
        exact hy2 ▸ hy
      · intro x hx v hv
        have := hp x hx
        rw [hv, Option.some.injEq] at this
        exact this)
    (fun g p off p' o hro x hx => by
      have := (hmem g p off p' o hro).subperm.subset hx
      simpa using this) hup s hrun
  refine ⟨s, hrun, by simpa [EA.start] using hg, hlen, hval.1, hseen, ?_⟩
  have hbest := C100_best_ever ea (max total 1) pop evals 0
    (fun g p off p' o hro hl hne x hx => by
      refine (hmem g p off p' o hro).best ?_ x hx
      intro h0
      rw [h0] at hl
      exact hne (List.eq_nil_of_length_eq_zero hl.symm)) hpop s hrun
  have hrf : ∀ x : Ind G F, x.fitness = some (ea.f x.genome) → x.repFitness = ea.f x.genome := by
    intro x hx
    unfold Ind.fitness at hx
    split at hx
    · simp at hx
    · simpa using hx
  intro o ho x hx
  obtain ⟨y, hy, hxy⟩ := hbest o ho x hx
  have hx' : x.fitness = some (ea.f x.genome) := by
    rcases List.mem_cons.mp ho with rfl | ho
    · exact (C47_evalPop ea.f evals pop).2.2.1 hup x hx
    · exact hval.2.1 o ho x hx
  rw [hrf x hx', hrf y (hval.1 y hy)] at hxy
  exact ⟨y, hy, hxy⟩

/-- An algorithm that meets all the hypotheses: two offspring, the mutation adds one. -/
def exOp : Breed.MonOp (Ind Nat Nat) := fun _ x => (true, { x with genome := x.genome + 1 })

def exEnv (g : Nat) (p : List (Ind Nat Nat)) : Breed.Env (Ind Nat Nat) :=
  ⟨fun t => .ok (p.getD ((g + t) % p.length) (Ind.new 0)), fun _ => 0, fun n => n⟩

def exEA : EA Nat Nat Nat where
  f := id
  breed g p := Breed.generalBreeder (2 + 1) (exEnv g p) ⟨0, 2⟩ (Breed.monGen exOp) p 0
  replace _ := plusReplacement fun l => l.mergeSort fun a b => decide (b.repFitness ≤ a.repFitness)
  cont := genCont 2

example : ∃ s, exEA.run 2 [Ind.new 3, Ind.new 5, ⟨4, 4, false⟩] 0 0 = .ok s ∧ s.gens = 2 ∧
    s.pop.length = 3 ∧ ∀ x ∈ s.pop, x.fitness = some x.genome := by
  obtain ⟨s, h1, h2, h3, h4, _⟩ := C100_plus_ga exEA 2 rfl _ (isSort_mergeSort (fun x : Ind Nat Nat => x.repFitness))
    (fun _ => rfl) (op := Breed.monGen exOp)
    (Breed.Built.mon (by intro k x h; simp [exOp] at h))
    (Breed.C94_simple_operators exOp (fun _ x _ => (false, x)) (fun _ x y => (false, x, y))).1 exEnv
    (fun g p hp t => by
      have hlt : (g + t) % p.length < p.length := Nat.mod_lt _ (List.length_pos_of_ne_nil hp)
      refine ⟨p[(g + t) % p.length], List.getElem_mem _, ?_⟩
      simp only [exEnv, List.getD_eq_getElem?_getD, List.getElem?_eq_getElem hlt, Option.getD_some])
    (fun _ _ _ => by norm_num [exEnv]) ⟨0, 2⟩ (fun _ => 0) 2 [Ind.new 3, Ind.new 5, ⟨4, 4, false⟩] (by simp)
    (by simp [HowMany.eval]) (fun _ _ => rfl)
    (by
      intro x hx v hv
      simp only [List.mem_cons, List.not_mem_nil, or_false] at hx
      rcases hx with rfl | rfl | rfl
      · simp [Ind.new, Ind.fitness] at hv
      · simp [Ind.new, Ind.fitness] at hv
      · simpa [Ind.fitness, exEA] using hv.symm) 0
  exact ⟨s, h1, h2, h3, h4⟩

end Paradiseo.Run
