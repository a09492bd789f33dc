import Verif.Model.FastGA
import Verif.Props.EORunMore

/-
C205: the generations of the fast GA and its evaluation limit.
C206: encoded algorithms.
C207: forges and their caches.
C208: the cellular algorithm.
-/
namespace Paradiseo.Run

open Paradiseo.EO

variable {G F σ : Type}

/-! ### C205 -/

/-- Operators that say when they change something: if they say no, what was right stays right. -/
structure Honest (f : G → F) (ga : FastGA G F σ) : Prop where
  cross : ∀ g i x y, Sound f x → Sound f y → (ga.crossover g i x y).2 = false →
    Sound f (ga.crossover g i x y).1.1 ∧ Sound f (ga.crossover g i x y).1.2
  mutation : ∀ g i x, Sound f x → (ga.mutation g i x).2 = false → Sound f (ga.mutation g i x).1

/-- Selectors and replacement only give what they are given. -/
structure Closed (ga : FastGA G F σ) : Prop where
  selCross : ∀ g i k p x, ga.selCross g i k p = .ok x → x ∈ p
  selAfter : ∀ g i p x, ga.selAfter g i p = .ok x → x ∈ p
  selMut : ∀ g i p x, ga.selMut g i p = .ok x → x ∈ p
  replace : ∀ g p off p' o, ga.replace g p off = .ok (p', o) → ∀ x ∈ p', x ∈ p ∨ x ∈ off

/-- What both evaluators do when they do not throw. -/
def EvalOk (f : G → F) (ev : Nat → List (Ind G F) → Nat × List (Ind G F) × Bool) : Prop :=
  ∀ c l, (ev c l).2.2 = false → (ev c l).1 = c + l.countP (·.invalid) ∧ (ev c l).2.1.length = l.length ∧
    ((∀ x ∈ l, Sound f x) → ∀ x ∈ (ev c l).2.1, x.fitness = some (f x.genome))

theorem plain_ok (f : G → F) : EvalOk f (plainPopEval f) := by
  intro c l _
  obtain ⟨h1, h2, h3, h4⟩ := C47_evalPop f c l
  exact ⟨h4, evalPop_length f c l, h3⟩

theorem limited_spec (f : G → F) (limit c : Nat) (l : List (Ind G F)) :
    ((limitedPopEval f limit c l).2.2 = false → (limitedPopEval f limit c l).1 = (evalPop f c l).1 ∧
      (limitedPopEval f limit c l).2.1 = (evalPop f c l).2 ∧
      (l.countP (·.invalid) = 0 ∨ c + l.countP (·.invalid) < limit)) ∧
    ((limitedPopEval f limit c l).2.2 = true → (limitedPopEval f limit c l).1 = max limit (c + 1)) := by
  obtain ⟨h1, h2⟩ := C104_stop f limit c l
  by_cases hc : l.countP (·.invalid) = 0 ∨ c + l.countP (·.invalid) < limit
  · have := h1 hc
    have e : limitedPopEval f limit c l = ((evalPop f c l).1, (evalPop f c l).2, false) := this
    rw [e]
    exact ⟨fun _ => ⟨rfl, rfl, hc⟩, fun h => absurd h (by simp)⟩
  · obtain ⟨pre, x, post, e1, e2, e3, e4⟩ := h2 (by omega) (by omega)
    simp only [limitedPopEval, e4]
    exact ⟨fun h => absurd h (by simp), fun _ => by simp⟩

theorem limited_ok (f : G → F) (limit : Nat) : EvalOk f (limitedPopEval f limit) := by
  intro c l h
  obtain ⟨h1, h2, _⟩ := (limited_spec f limit c l).1 h
  rw [h1, h2]
  exact plain_ok f c l rfl

theorem sound_invalidate [Inhabited F] (f : G → F) (x : Ind G F) : Sound f x.invalidate := by
  intro v h; simp [Ind.fitness, Ind.invalidate] at h

theorem mutate_sound [Inhabited F] {f : G → F} {ga : FastGA G F σ} (hh : Honest f ga) (g i : Nat) (x : Ind G F)
    (hx : Sound f x) : Sound f (ga.mutate g i x) := by
  simp only [FastGA.mutate]
  split
  · exact sound_invalidate f _
  · rename_i h
    exact hh.mutation g i x hx (by simpa using h)

theorem sound_of_exact {f : G → F} {x : Ind G F} (h : x.fitness = some (f x.genome)) : Sound f x := by
  intro v hv; rw [h] at hv; cases hv; rfl

theorem offspring_ok [Inhabited F] {f : G → F} {ga : FastGA G F σ} (hh : Honest f ga) (hcl : Closed ga)
    (hev : EvalOk f ga.eval) (g i c : Nat) (pop : List (Ind G F)) (hp : ∀ x ∈ pop, Sound f x) (c' : Nat)
    (x : Ind G F) (h : ga.offspring g i c pop = .ok (c', x)) : Sound f x ∧ c ≤ c' ∧ c' ≤ c + 2 := by
  unfold FastGA.offspring at h
  split at h
  · split at h
    · simp at h
    · simp at h
    · rename_i sol1 sol2 h1 h2
      dsimp only at h
      generalize hcr : (if (ga.crossover g i sol1 sol2).2 = true then
        [(ga.crossover g i sol1 sol2).1.1.invalidate, (ga.crossover g i sol1 sol2).1.2.invalidate]
        else [(ga.crossover g i sol1 sol2).1.1, (ga.crossover g i sol1 sol2).1.2]) = crossed at h
      have hs : (∀ x ∈ crossed, Sound f x) ∧ crossed.length = 2 := by
        rw [← hcr]
        split
        · refine ⟨?_, rfl⟩
          intro x hx
          simp only [List.mem_cons, List.not_mem_nil, or_false] at hx
          rcases hx with rfl | rfl <;> exact sound_invalidate f _
        · rename_i hb
          obtain ⟨q1, q2⟩ := hh.cross g i sol1 sol2 (hp _ (hcl.selCross _ _ _ _ _ h1))
            (hp _ (hcl.selCross _ _ _ _ _ h2)) (by simpa using hb)
          refine ⟨?_, rfl⟩
          intro x hx
          simp only [List.mem_cons, List.not_mem_nil, or_false] at hx
          rcases hx with rfl | rfl
          · exact q1
          · exact q2
      split at h
      · simp at h
      · rename_i hthrow
        obtain ⟨k1, k2, k3⟩ := hev c crossed (by simpa using hthrow)
        split at h
        · simp at h
        · rename_i sol3 h3
          simp only [Except.ok.injEq, Prod.mk.injEq] at h
          have hle : crossed.countP (·.invalid) ≤ 2 := by
            rw [← hs.2]; exact List.countP_le_length
          have hx3 := sound_of_exact (k3 hs.1 _ (hcl.selAfter _ _ _ _ h3))
          refine ⟨?_, by omega, by omega⟩
          rw [← h.2]
          split
          · exact mutate_sound hh g i _ hx3
          · exact hx3
  · split at h
    · simp at h
    · rename_i sol3 h3
      simp only [Except.ok.injEq, Prod.mk.injEq] at h
      rw [← h.2, ← h.1]
      exact ⟨mutate_sound hh g i _ (hp _ (hcl.selMut _ _ _ _ h3)), le_rfl, by omega⟩

theorem breed_ok [Inhabited F] {f : G → F} {ga : FastGA G F σ} (hh : Honest f ga) (hcl : Closed ga)
    (hev : EvalOk f ga.eval) (g : Nat) (pop : List (Ind G F)) (hp : ∀ x ∈ pop, Sound f x) :
    ∀ (n i c c' : Nat) (off : List (Ind G F)), ga.breed g pop n i c = .ok (c', off) →
      (∀ x ∈ off, Sound f x) ∧ off.length = n ∧ c ≤ c' ∧ c' ≤ c + 2 * n := by
  intro n
  induction n with
  | zero =>
    intro i c c' off h
    simp only [FastGA.breed, Except.ok.injEq, Prod.mk.injEq] at h
    rw [← h.1, ← h.2]; simp
  | succ n ih =>
    intro i c c' off h
    rw [FastGA.breed] at h
    split at h
    · simp at h
    · rename_i c1 x h1
      split at h
      · simp at h
      · rename_i c2 xs h2
        simp only [Except.ok.injEq, Prod.mk.injEq] at h
        obtain ⟨q1, q2, q3⟩ := offspring_ok hh hcl hev g i c pop hp c1 x h1
        obtain ⟨r1, r2, r3, r4⟩ := ih _ _ _ _ h2
        rw [← h.1, ← h.2]
        refine ⟨?_, by simp [r2], by omega, by omega⟩
        intro y hy
        rcases List.mem_cons.1 hy with rfl | hy
        · exact q1
        · exact r1 y hy

/-- A generation of the fast GA hands the replacement exactly the asked number of offspring, all of them
evaluated rightly; it costs at most three evaluations for each offspring, and leaves a population of
rightly evaluated individuals. -/
theorem C205_generation [Inhabited F] {f : G → F} {ga : FastGA G F σ} (hh : Honest f ga) (hcl : Closed ga)
    (hev : EvalOk f ga.eval) (lam g c : Nat) (pop : List (Ind G F))
    (hp : ∀ x ∈ pop, x.fitness = some (f x.genome)) (c' : Nat) (pop' : List (Ind G F))
    (h : ga.generation lam g c pop = .ok (c', pop')) :
    (∃ off rest, ga.replace g pop off = .ok (pop', rest) ∧ off.length = lam ∧
      ∀ x ∈ off, x.fitness = some (f x.genome)) ∧
    c ≤ c' ∧ c' ≤ c + 3 * lam ∧ ∀ x ∈ pop', x.fitness = some (f x.genome) := by
  unfold FastGA.generation at h
  split at h
  · simp at h
  · rename_i c1 off h1
    obtain ⟨q1, q2, q3, q4⟩ := breed_ok hh hcl hev g pop (fun x hx => sound_of_exact (hp x hx)) _ _ _ _ _ h1
    dsimp only at h
    split at h
    · simp at h
    · rename_i hthrow
      obtain ⟨k1, k2, k3⟩ := hev c1 off (by simpa using hthrow)
      split at h
      · simp at h
      · rename_i p' rest h2
        simp only [Except.ok.injEq, Prod.mk.injEq] at h
        obtain ⟨rfl, rfl⟩ := h
        have hle : off.countP (·.invalid) ≤ lam := by rw [← q2]; exact List.countP_le_length
        refine ⟨⟨_, rest, h2, by omega, k3 q1⟩, by omega, by omega, ?_⟩
        intro x hx
        rcases hcl.replace _ _ _ _ _ h2 x hx with hx | hx
        · exact hp x hx
        · exact k3 q1 x hx

/-- `k` complete generations, numbered from `g`, lead from one count and population to another. -/
inductive Gens [Inhabited F] (ga : FastGA G F σ) (lam : Nat) : Nat → Nat → List (Ind G F) → Nat → Nat →
    List (Ind G F) → Prop
  | none (g c pop) : Gens ga lam g c pop g c pop
  | more {g c pop c1 pop1 g' c' pop'} : ga.generation lam g c pop = .ok (c1, pop1) →
      Gens ga lam (g + 1) c1 pop1 g' c' pop' → Gens ga lam g c pop g' c' pop'

theorem Gens.snoc [Inhabited F] {ga : FastGA G F σ} {lam g c g' c' : Nat} {pop pop' : List (Ind G F)}
    (h : Gens ga lam g c pop g' c' pop') {c2 : Nat} {pop2 : List (Ind G F)}
    (h2 : ga.generation lam g' c' pop' = .ok (c2, pop2)) : Gens ga lam g c pop (g' + 1) c2 pop2 := by
  induction h with
  | none => exact .more h2 (.none _ _ _)
  | more h1 _ ih => exact .more h1 (ih h2)

theorem loop_gens [Inhabited F] {ga : FastGA G F σ} {lam : Nat} :
    ∀ (n g c : Nat) (s : σ) (pop : List (Ind G F)) (r : FastRes G F), ga.loop lam n g c s pop = .ok r →
      ∃ c0, Gens ga lam g c pop r.gens c0 r.pop ∧
        (r.limited = false → r.evals = c0 ∧ g < r.gens) ∧
        (r.limited = true → ga.generation lam r.gens c0 r.pop = .error (.budget r.evals)) := by
  intro n
  induction n with
  | zero => intro g c s pop r h; simp [FastGA.loop] at h
  | succ n ih =>
    intro g c s pop r h
    rw [FastGA.loop] at h
    split at h
    · simp at h
    · rename_i c' h1
      simp only [Except.ok.injEq] at h
      subst h
      exact ⟨c, .none _ _ _, fun h => absurd h (by simp), fun _ => h1⟩
    · rename_i c' pop' h1
      split at h
      · simp at h
      · obtain ⟨c0, q1, q2, q3⟩ := ih _ _ _ _ _ h
        exact ⟨c0, .more h1 q1, fun hl => ⟨(q2 hl).1, by have := (q2 hl).2; omega⟩, q3⟩
      · simp only [Except.ok.injEq] at h
        subst h
        exact ⟨c', .more h1 (.none _ _ _), fun _ => ⟨rfl, by simp⟩, fun h => absurd h (by simp)⟩

theorem gens_inv [Inhabited F] {ga : FastGA G F σ} {lam : Nat} (I : Nat → List (Ind G F) → Prop)
    (hI : ∀ g c pop c' pop', I c pop → ga.generation lam g c pop = .ok (c', pop') → I c' pop')
    {g c g' c' : Nat} {pop pop' : List (Ind G F)} (h : Gens ga lam g c pop g' c' pop') (h0 : I c pop) : I c' pop' := by
  induction h with
  | none => exact h0
  | more h1 _ ih => exact ih (hI _ _ _ _ _ h0 h1)

/-- A run, limited or not, ends with the population left by its last complete generation, all of it rightly
evaluated. A run that was not limited made at least one generation. -/
theorem C205_run [Inhabited F] {f : G → F} {ga : FastGA G F σ} (hh : Honest f ga) (hcl : Closed ga)
    (hev : EvalOk f ga.eval) (lam fuel c : Nat) (s : σ) (pop : List (Ind G F))
    (hp : ∀ x ∈ pop, x.fitness = some (f x.genome)) (r : FastRes G F)
    (h : ga.loop lam fuel 0 c s pop = .ok r) :
    (∃ c0, Gens ga lam 0 c pop r.gens c0 r.pop) ∧ (∀ x ∈ r.pop, x.fitness = some (f x.genome)) ∧
    (r.limited = false → 1 ≤ r.gens ∧ r.evals ≤ c + 3 * lam * r.gens) := by
  obtain ⟨c0, h1, h2, _⟩ := loop_gens _ _ _ _ _ _ h
  refine ⟨⟨c0, h1⟩, ?_, ?_⟩
  · exact gens_inv (fun _ p => ∀ x ∈ p, x.fitness = some (f x.genome))
      (fun g c p c' p' hp hg => (C205_generation hh hcl hev lam g c p hp c' p' hg).2.2.2) h1 hp
  · intro hl
    obtain ⟨q1, q2⟩ := h2 hl
    refine ⟨q2, ?_⟩
    have key : ∀ g c pop g' c' pop', Gens ga lam g c pop g' c' pop' →
        (∀ x ∈ pop, x.fitness = some (f x.genome)) → g ≤ g' ∧ c' ≤ c + 3 * lam * (g' - g) := by
      intro g c pop g' c' pop' hg
      induction hg with
      | none => intro _; simp
      | more hgen hrest ih =>
        rename_i g c pop c1 pop1 g' c' pop'
        intro hp
        obtain ⟨_, _, k3, k4⟩ := C205_generation hh hcl hev lam _ _ _ hp _ _ hgen
        obtain ⟨m1, m2⟩ := ih k4
        refine ⟨by omega, ?_⟩
        have hs : g' - g = (g' - (g + 1)) + 1 := by omega
        rw [hs, Nat.mul_add, Nat.mul_one]
        generalize 3 * lam * (g' - (g + 1)) = z at *
        omega
    have := (key _ _ _ _ _ _ h1 hp).2
    rw [q1]; simpa using this

theorem breed_budget [Inhabited F] {f : G → F} {ga : FastGA G F σ} {limit : Nat} (hev : ga.eval = limitedPopEval f limit)
    (g : Nat) (pop : List (Ind G F)) : ∀ (n i c : Nat), (c = 0 ∨ c < limit) →
      (∀ c' off, ga.breed g pop n i c = .ok (c', off) → c' = 0 ∨ c' < limit) ∧
      (∀ c', ga.breed g pop n i c = .error (.budget c') → c' = max limit 1) := by
  have hone : ∀ c l, (c = 0 ∨ c < limit) → ((ga.eval c l).2.2 = false → (ga.eval c l).1 = 0 ∨ (ga.eval c l).1 < limit) ∧
      ((ga.eval c l).2.2 = true → (ga.eval c l).1 = max limit 1) := by
    intro c l hc
    rw [hev]
    obtain ⟨h1, h2⟩ := limited_spec f limit c l
    constructor
    · intro h
      obtain ⟨q1, _, q3⟩ := h1 h
      rw [q1, (C47_evalPop f c l).2.2.2]
      omega
    · intro h; rw [h2 h]; omega
  intro n
  induction n with
  | zero =>
    intro i c hc
    constructor
    · intro c' off h
      simp only [FastGA.breed, Except.ok.injEq, Prod.mk.injEq] at h
      rw [← h.1]; exact hc
    · intro c' h; simp [FastGA.breed] at h
  | succ n ih =>
    intro i c hc
    have hoff : (∀ c' x, ga.offspring g i c pop = .ok (c', x) → c' = 0 ∨ c' < limit) ∧
        (∀ c', ga.offspring g i c pop = .error (.budget c') → c' = max limit 1) := by
      unfold FastGA.offspring
      split
      · split
        · simp
        · simp
        · rename_i sol1 sol2 _ _
          dsimp only
          generalize (if (ga.crossover g i sol1 sol2).2 = true then
            [(ga.crossover g i sol1 sol2).1.1.invalidate, (ga.crossover g i sol1 sol2).1.2.invalidate]
            else [(ga.crossover g i sol1 sol2).1.1, (ga.crossover g i sol1 sol2).1.2]) = crossed
          split
          · rename_i hthrow
            refine ⟨by simp, fun c' h => ?_⟩
            simp only [Except.error.injEq, Halt.budget.injEq] at h
            rw [← h]; exact (hone _ _ hc).2 hthrow
          · rename_i hthrow
            split
            · simp
            · refine ⟨fun c' x h => ?_, by simp⟩
              simp only [Except.ok.injEq, Prod.mk.injEq] at h
              rw [← h.1]; exact (hone _ _ hc).1 (by simpa using hthrow)
      · split
        · simp
        · exact ⟨fun c' x h => by
            simp only [Except.ok.injEq, Prod.mk.injEq] at h
            rw [← h.1]; exact hc, by simp⟩
    rw [FastGA.breed]
    split
    · rename_i hh h1
      refine ⟨by simp, fun c' h => ?_⟩
      simp only [Except.error.injEq] at h
      subst h
      exact hoff.2 c' h1
    · rename_i c1 x h1
      have hc1 := hoff.1 c1 x h1
      obtain ⟨i1, i2⟩ := ih (i + 1) c1 hc1
      split
      · rename_i hh h2
        refine ⟨by simp, fun c' h => ?_⟩
        simp only [Except.error.injEq] at h
        subst h
        exact i2 c' h2
      · rename_i c2 xs h2
        refine ⟨fun c' off h => ?_, by simp⟩
        simp only [Except.ok.injEq, Prod.mk.injEq] at h
        rw [← h.1]; exact i1 _ _ h2

/-- The evaluation limit of the foundry. A limited run makes exactly `limit` evaluations (one if the limit
is 0), a run that ends by its stopping criterion makes fewer, or none. -/
theorem C205_limit [Inhabited F] {f : G → F} {ga : FastGA G F σ} {limit : Nat} (hev : ga.eval = limitedPopEval f limit)
    (lam fuel : Nat) (s : σ) (pop : List (Ind G F)) (r : FastRes G F) (h : ga.loop lam fuel 0 0 s pop = .ok r) :
    (r.limited = true → r.evals = max limit 1) ∧ (r.limited = false → r.evals = 0 ∨ r.evals < limit) := by
  have hgen : ∀ g c pop, (c = 0 ∨ c < limit) →
      (∀ c' pop', ga.generation lam g c pop = .ok (c', pop') → c' = 0 ∨ c' < limit) ∧
      (∀ c', ga.generation lam g c pop = .error (.budget c') → c' = max limit 1) := by
    intro g c pop hc
    obtain ⟨b1, b2⟩ := breed_budget hev g pop lam 0 c hc
    unfold FastGA.generation
    split
    · rename_i hh h1
      refine ⟨by simp, fun c' h => ?_⟩
      simp only [Except.error.injEq] at h
      subst h
      exact b2 c' h1
    · rename_i c1 off h1
      have hc1 := b1 _ _ h1
      obtain ⟨h1, h2⟩ := limited_spec f limit c1 off
      dsimp only
      split
      · rename_i hthrow
        rw [hev] at hthrow
        refine ⟨by simp, fun c' h => ?_⟩
        simp only [Except.error.injEq, Halt.budget.injEq] at h
        rw [← h, hev, h2 hthrow]; omega
      · rename_i hthrow
        rw [hev] at hthrow
        split
        · simp
        · refine ⟨fun c' pop' h => ?_, by simp⟩
          simp only [Except.ok.injEq, Prod.mk.injEq] at h
          obtain ⟨q1, _, q3⟩ := h1 (by simpa using hthrow)
          rw [← h.1, hev, q1, (C47_evalPop f c1 off).2.2.2]
          omega
  obtain ⟨c0, h1, h2, h3⟩ := loop_gens _ _ _ _ _ _ h
  have hc0 : c0 = 0 ∨ c0 < limit :=
    gens_inv (fun c _ => c = 0 ∨ c < limit) (fun g c p c' p' hc hg => (hgen g c p hc).1 c' p' hg) h1 (Or.inl rfl)
  exact ⟨fun hl => (hgen _ _ _ hc0).2 _ (h3 hl), fun hl => by rw [(h2 hl).1]; exact hc0⟩

/-- A small fast GA on numbers, of fitness the number itself: no crossover, the mutation adds one, the best of
everything is kept, and a limit of evaluations. -/
def demoGA (limit : Nat) : FastGA Nat Nat Nat where
  crossFlip _ _ := false
  selCross _ _ _ p := match p with | [] => .error .ub | x :: _ => .ok x
  crossover _ _ x y := ((x, y), false)
  selAfter _ _ p := match p with | [] => .error .ub | x :: _ => .ok x
  mutFlip _ _ := false
  selMut _ _ p := match p with | [] => .error .ub | x :: _ => .ok x
  mutation _ _ x := ({ x with genome := x.genome + 1 }, true)
  eval := limitedPopEval id limit
  replace _ p off := .ok (off.take p.length, p)
  cont := genCont 3

theorem demo_honest (limit : Nat) : Honest id (demoGA limit) :=
  ⟨fun _ _ _ _ h1 h2 _ => ⟨h1, h2⟩, fun _ _ _ _ h => absurd h (by simp [demoGA])⟩

theorem demo_closed (limit : Nat) : Closed (demoGA limit) := by
  refine ⟨?_, ?_, ?_, ?_⟩
  · intro g i k p x h
    cases p with
    | nil => simp [demoGA] at h
    | cons a l => simp only [demoGA, Except.ok.injEq] at h; rw [← h]; exact List.mem_cons_self
  · intro g i p x h
    cases p with
    | nil => simp [demoGA] at h
    | cons a l => simp only [demoGA, Except.ok.injEq] at h; rw [← h]; exact List.mem_cons_self
  · intro g i p x h
    cases p with
    | nil => simp [demoGA] at h
    | cons a l => simp only [demoGA, Except.ok.injEq] at h; rw [← h]; exact List.mem_cons_self
  · intro g p off p' o h x hx
    simp only [demoGA, Except.ok.injEq, Prod.mk.injEq] at h
    rw [← h.1] at hx
    exact Or.inr (List.mem_of_mem_take hx)

example : EvalOk id (demoGA 4).eval := limited_ok id 4

/-- The generation whose evaluations reach the limit is lost, even if all its offspring were evaluated: with a
limit of one evaluation, enough for one offspring, the run returns the population it was given although the
better offspring was evaluated; with a limit of two it is kept. -/
theorem C205_last_lost :
    (∃ r, (demoGA 1).loop 1 9 0 0 0 [⟨5, 5, false⟩] = .ok r ∧ r.evals = 1 ∧ r.gens = 0 ∧ r.pop = [⟨5, 5, false⟩]) ∧
    (∃ r, (demoGA 2).loop 1 9 0 0 0 [⟨5, 5, false⟩] = .ok r ∧ r.evals = 2 ∧ r.gens = 1 ∧ r.pop = [⟨6, 6, false⟩]) :=
  ⟨⟨_, rfl, rfl, rfl, rfl⟩, ⟨_, rfl, rfl, rfl, rfl⟩⟩

/-- Without a given number of offspring the first run uses the size of its population, and so do all later runs
of the same object, whatever the size of theirs. -/
theorem C205_offspring_size (sizes : List Nat) (n : Nat) (hn : 1 ≤ n) :
    offspringSize 0 n = n ∧ (sizes.foldl offspringSize (offspringSize 0 n)) = n := by
  have h0 : offspringSize 0 n = n := rfl
  refine ⟨h0, ?_⟩
  rw [h0]
  induction sizes with
  | nil => rfl
  | cons m l ih =>
    have : offspringSize n m = n := by simp [offspringSize]; omega
    rw [List.foldl_cons, this, ih]

/-! ### C206 -/

/-- A gene chooses operator number `k` exactly when it lies above `k - 1` and not above `k`; at -1 or below
the conversion is undefined. -/
theorem C206_decode (x : ℚ) (k : Nat) :
    (decodeIndex x = some k ↔ (k : ℚ) - 1 < x ∧ x ≤ k) ∧ (decodeIndex x = none ↔ x ≤ -1) := by
  unfold decodeIndex
  constructor
  · rw [show ((k : ℚ) - 1 < x ∧ x ≤ k) ↔ ⌈x⌉ = (k : Int) by rw [Int.ceil_eq_iff]; push_cast; rfl]
    split
    · rename_i h
      rw [Option.some.injEq]; omega
    · rename_i h
      constructor
      · intro h'; cases h'
      · intro h'; omega
  · split
    · rename_i h
      constructor
      · intro h'; cases h'
      · intro h'
        have : ⌈x⌉ ≤ -1 := Int.ceil_le.2 (by push_cast; exact h')
        omega
    · rename_i h
      constructor
      · intro _
        have : ⌈x⌉ ≤ -1 := by omega
        have := Int.ceil_le.1 this
        push_cast at this
        exact this
      · intro _; rfl

theorem mapM_decode : ∀ (genes : List ℚ) (config : List Nat), genes.mapM decodeIndex = some config ↔
    List.Forall₂ (fun x k => decodeIndex x = some k) genes config := by
  intro genes
  induction genes with
  | nil => intro config; cases config <;> simp
  | cons x l ih =>
    intro config
    rw [List.mapM_cons]
    cases hx : decodeIndex x with
    | none => cases config <;> simp [hx]
    | some k =>
      cases hl : l.mapM decodeIndex with
      | none =>
        simp only [Option.bind_eq_bind, Option.bind_some, Option.bind_none]
        constructor
        · intro h; cases h
        · intro h
          cases h with
          | cons h1 h2 => rw [(ih _).2 h2] at hl; cases hl
      | some l' =>
        simp only [Option.bind_eq_bind, Option.bind_some, Option.pure_def, Option.some.injEq]
        constructor
        · intro h; subst h; exact .cons hx ((ih l').1 hl)
        · intro h
          cases h with
          | cons h1 h2 =>
            rw [hx] at h1; cases h1
            rw [(ih _).2 h2] at hl; cases hl; rfl

/-- An encoded algorithm with as many genes as slots, all above -1: if every gene is at most the number of
operators of its slot less one, the algorithm made of the operators named by the genes is run; otherwise the
fitness is the penalty. -/
theorem C206_fitness (sizes : List Nat) (run : List Nat → F) (penalty : F) (genes : List ℚ)
    (hlen : genes.length = sizes.length) (h : ∀ x ∈ genes, -1 < x) :
    ∃ config, List.Forall₂ (fun (x : ℚ) (k : Nat) => (k : ℚ) - 1 < x ∧ x ≤ k) genes config ∧
      ((∀ (i : Nat) (x : ℚ) (n : Nat), genes[i]? = some x → sizes[i]? = some n → x ≤ (n : ℚ) - 1) →
        foundryFitness sizes run penalty genes = .ok (run config)) ∧
      ((∃ (i : Nat) (x : ℚ) (n : Nat), genes[i]? = some x ∧ sizes[i]? = some n ∧ (n : ℚ) - 1 < x) →
        foundryFitness sizes run penalty genes = .ok penalty) := by
  have hex : ∃ config, genes.mapM decodeIndex = some config := by
    clear hlen
    induction genes with
    | nil => exact ⟨[], rfl⟩
    | cons x l ih =>
      obtain ⟨c, hc⟩ := ih (fun y hy => h y (List.mem_cons_of_mem _ hy))
      cases hx : decodeIndex x with
      | none => exact absurd ((C206_decode x 0).2.1 hx) (not_le.2 (h x List.mem_cons_self))
      | some k => exact ⟨k :: c, by rw [List.mapM_cons, hx, hc]; rfl⟩
  obtain ⟨config, hc⟩ := hex
  have hf := (mapM_decode _ _).1 hc
  have hf2 : List.Forall₂ (fun (x : ℚ) (k : Nat) => (k : ℚ) - 1 < x ∧ x ≤ k) genes config :=
    hf.imp fun x k hx => (C206_decode x k).1.1 hx
  refine ⟨config, hf2, ?_⟩
  have hval : foundryFitness sizes run penalty genes = .ok (if (List.zipWith (fun i n => decide (i < n)) config sizes).all id then
      run config else penalty) := by rw [foundryFitness, hc]
  have hlt : ∀ (x : ℚ) (k n : Nat), (k : ℚ) - 1 < x ∧ x ≤ k → (k < n ↔ x ≤ (n : ℚ) - 1) := by
    rintro x k n ⟨h1, h2⟩
    constructor
    · intro hk
      have : (k : ℚ) ≤ (n : ℚ) - 1 := by
        have : (k : ℚ) + 1 ≤ n := by exact_mod_cast hk
        linarith
      linarith
    · intro hx
      have : (k : ℚ) < n := by linarith
      exact_mod_cast this
  have hall : ∀ (genes : List ℚ) (config sizes : List Nat), genes.length = sizes.length →
      List.Forall₂ (fun (x : ℚ) (k : Nat) => (k : ℚ) - 1 < x ∧ x ≤ k) genes config →
      (((List.zipWith (fun i n => decide (i < n)) config sizes).all id = true) ↔
        ∀ (i : Nat) (x : ℚ) (n : Nat), genes[i]? = some x → sizes[i]? = some n → x ≤ (n : ℚ) - 1) := by
    intro genes config sizes hl hf
    induction hf generalizing sizes with
    | nil => simp
    | @cons x k l1 l2 hxk _ ih =>
      cases sizes with
      | nil => simp at hl
      | cons n s =>
        have ih' := ih s (by simpa using hl)
        simp only [List.zipWith_cons_cons, List.all_cons, id_eq, Bool.and_eq_true, decide_eq_true_eq, ih']
        constructor
        · rintro ⟨h1, h2⟩ i y m hy hm
          cases i with
          | zero => simp at hy hm; subst hy; subst hm; exact (hlt _ _ _ hxk).1 h1
          | succ i => simp at hy hm; exact h2 i y m hy hm
        · intro h
          exact ⟨(hlt _ _ _ hxk).2 (h 0 x n rfl rfl), fun i y m hy hm => h (i + 1) y m hy hm⟩
  have hkey := hall genes config sizes hlen hf2
  rw [hval]
  constructor
  · intro h
    rw [if_pos (hkey.2 h)]
  · rintro ⟨i, x, n, h1, h2, h3⟩
    rw [if_neg]
    intro h
    exact absurd (hkey.1 h i x n h1 h2) (not_le.2 h3)

/-- So genes spread over the range from 0 to the number of operators never choose the first operator, but for
0 itself, and are penalised in the last unit of the range. -/
theorem C206_bias (n : Nat) (x : ℚ) (h0 : 0 < x) :
    ∃ k, decodeIndex x = some k ∧ 1 ≤ k ∧ (k < n ↔ x ≤ (n : ℚ) - 1) := by
  cases hx : decodeIndex x with
  | none => exact absurd ((C206_decode x 0).2.1 hx) (by linarith)
  | some k =>
    have hk := (C206_decode x k).1.1 hx
    refine ⟨k, rfl, ?_, ?_⟩
    · by_contra h
      have : k = 0 := by omega
      subst this
      simp at hk; linarith
    · constructor
      · intro h
        have : (k : ℚ) + 1 ≤ n := by exact_mod_cast h
        linarith
      · intro h
        have : (k : ℚ) < n := by linarith
        exact_mod_cast this

example : foundryFitness [2, 3] (fun c => c.sum) 99 [(1 / 2 : ℚ), 2] = .ok 3 ∧
    foundryFitness [2, 3] (fun c => c.sum) 99 [(3 / 2 : ℚ), 0] = .ok 99 := by decide +kernel

/-! ### C207 -/

/-- Uses of a vector of forges. -/
inductive Use where
  | add (noArgs : Bool)
  | inst (i : Nat)
  | ptr (i : Nat)
  | setup (i : Nat) (noArgs : Bool)

/-- One use; those outside throw and change nothing. -/
def useStep (s : Forges) : Use → Forges
  | .add b => s.add b
  | .inst i => match s.instantiate i with | .ok r => r.2 | .error _ => s
  | .ptr i => match s.instantiatePtr i with | .ok r => r.2 | .error _ => s
  | .setup i b => match s.setup i b with | .ok r => r | .error _ => s

def useAll (s : Forges) (l : List Use) : Forges := l.foldl useStep s

/-- The objects held are alive, were made, and each belongs to one forge. -/
structure Owned (s : Forges) : Prop where
  held : ∀ (i : Nat) (o : Forge) (k : Nat), s.ops[i]? = some o → o.inst = some k → k ∉ s.dead ∧ k < s.made
  dead : ∀ k ∈ s.dead, k < s.made
  once : ∀ (i j : Nat) (o o' : Forge) (k : Nat), s.ops[i]? = some o → s.ops[j]? = some o' → o.inst = some k → o'.inst = some k → i = j

theorem set_get (ops : List Forge) (i j : Nat) (o : Forge) (hi : i < ops.length) :
    (ops.set i o)[j]? = if i = j then some o else ops[j]? := by
  rw [List.getElem?_set]
  split
  · rename_i h; subst h; simp [hi]
  · rfl

theorem inst_none (s : Forges) (i : Nat) (h : s.ops[i]? = none) : s.instantiate i = .error .thrown := by
  simp [Forges.instantiate, h]

theorem inst_hit (s : Forges) (i : Nat) (o : Forge) (k : Nat) (h : s.ops[i]? = some o) (hc : s.noCache = false)
    (hin : o.inst = some k) : s.instantiate i = .ok (k, s) := by
  simp [Forges.instantiate, h, hc, hin]

theorem inst_new (s : Forges) (i : Nat) (o : Forge) (h : s.ops[i]? = some o) (hin : o.inst = none) :
    s.instantiate i = .ok (s.made, { s with ops := s.ops.set i { o with inst := some s.made }, made := s.made + 1 }) := by
  cases hc : s.noCache <;> simp [Forges.instantiate, h, hc, hin]

theorem inst_again (s : Forges) (i : Nat) (o : Forge) (k : Nat) (h : s.ops[i]? = some o) (hc : s.noCache = true)
    (hin : o.inst = some k) : s.instantiate i = .ok (s.made, { s with
      ops := s.ops.set i { o with inst := some s.made }, made := s.made + 1, dead := k :: s.dead }) := by
  simp [Forges.instantiate, h, hc, hin]

theorem owned_step (s : Forges) (h : Owned s) (u : Use) : Owned (useStep s u) := by
  cases u with
  | add b =>
    refine ⟨?_, h.dead, ?_⟩
    · intro i o k ho hk
      simp only [useStep, Forges.add] at ho
      rw [List.getElem?_append] at ho
      split at ho
      · exact h.held i o k ho hk
      · rw [List.getElem?_singleton] at ho
        split at ho
        · cases ho; simp at hk
        · simp at ho
    · intro i j o o' k ho ho' hk hk'
      simp only [useStep, Forges.add] at ho ho'
      rw [List.getElem?_append] at ho ho'
      split at ho
      · split at ho'
        · exact h.once i j o o' k ho ho' hk hk'
        · rw [List.getElem?_singleton] at ho'
          split at ho'
          · cases ho'; simp at hk'
          · simp at ho'
      · rw [List.getElem?_singleton] at ho
        split at ho
        · cases ho; simp at hk
        · simp at ho
  | inst i =>
    simp only [useStep]
    cases ho : s.ops[i]? with
    | none => rw [inst_none s i ho]; exact h
    | some o =>
      have hi : i < s.ops.length := by
        rw [List.getElem?_eq_some_iff] at ho; exact ho.1
      have hmake : ∀ d : List Nat, (∀ k ∈ d, k ∈ s.dead ∨ o.inst = some k) →
          Owned { s with ops := s.ops.set i { o with inst := some s.made }, made := s.made + 1, dead := d } := by
        intro d hd
        have hdm : ∀ k ∈ d, k < s.made := by
          intro k hk
          rcases hd k hk with hk | hk
          · exact h.dead k hk
          · exact (h.held i o k ho hk).2
        refine ⟨?_, fun k hk => by have := hdm k hk; simp only; omega, ?_⟩
        · intro j o1 k h1 hk
          simp only [set_get _ _ _ _ hi] at h1
          split at h1
          · cases h1
            simp only [Option.some.injEq] at hk
            subst hk
            exact ⟨fun hm => by have := hdm _ hm; omega, by simp⟩
          · rename_i hne
            obtain ⟨q1, q2⟩ := h.held j o1 k h1 hk
            refine ⟨fun hm => ?_, by simp only; omega⟩
            rcases hd k hm with hm | hm
            · exact q1 hm
            · exact hne (h.once i j o o1 k ho h1 hm hk)
        · intro j1 j2 o1 o2 k h1 h2 hk1 hk2
          simp only [set_get _ _ _ _ hi] at h1 h2
          split at h1
          · cases h1
            simp only [Option.some.injEq] at hk1
            subst hk1
            split at h2
            · omega
            · have := (h.held j2 o2 _ h2 hk2).2; omega
          · split at h2
            · cases h2
              simp only [Option.some.injEq] at hk2
              subst hk2
              have := (h.held j1 o1 _ h1 hk1).2; omega
            · exact h.once j1 j2 o1 o2 k h1 h2 hk1 hk2
      cases hin : o.inst with
      | none => rw [inst_new s i o ho hin]; exact hmake s.dead (fun k hk => Or.inl hk)
      | some k =>
        cases hc : s.noCache with
        | false => rw [inst_hit s i o k ho hc hin]; exact h
        | true =>
          rw [inst_again s i o k ho hc hin]
          exact hmake (k :: s.dead) (fun k' hk' => by
            rcases List.mem_cons.1 hk' with rfl | hk'
            · exact Or.inr hin
            · exact Or.inl hk')
  | ptr i =>
    simp only [useStep, Forges.instantiatePtr]
    cases ho : s.ops[i]? with
    | none => exact h
    | some o =>
      have hi : i < s.ops.length := by
        rw [List.getElem?_eq_some_iff] at ho; exact ho.1
      have hmake : ∀ (p : Option Nat) (m : Nat), s.made ≤ m →
          Owned { s with ops := s.ops.set i { o with ptr := p }, made := m } := by
        intro p m hm
        have hget : ∀ (j : Nat) (o1 : Forge), (s.ops.set i { o with ptr := p })[j]? = some o1 → ∃ o2 : Forge, s.ops[j]? = some o2 ∧ o2.inst = o1.inst := by
          intro j o1 h1
          rw [set_get _ _ _ _ hi] at h1
          split at h1
          · rename_i hij; subst hij; cases h1; exact ⟨o, ho, rfl⟩
          · exact ⟨o1, h1, rfl⟩
        refine ⟨?_, fun k hk => by have := h.dead k hk; simp only; omega, ?_⟩
        · intro j o1 k h1 hk
          obtain ⟨o2, q1, q2⟩ := hget j o1 h1
          have := h.held j o2 k q1 (q2.trans hk)
          exact ⟨this.1, by have := this.2; simp only; omega⟩
        · intro j1 j2 o1 o2 k h1 h2 hk1 hk2
          obtain ⟨p1, q1, r1⟩ := hget j1 o1 h1
          obtain ⟨p2, q2, r2⟩ := hget j2 o2 h2
          exact h.once j1 j2 p1 p2 k q1 q2 (r1.trans hk1) (r2.trans hk2)
      dsimp only
      split
      · rename_i r hr
        split at hr
        · split at hr
          · cases hr; exact hmake none s.made le_rfl
          · cases hr; exact hmake (some s.made) (s.made + 1) (by omega)
        · cases hr; exact h
      · exact h
  | setup i b =>
    simp only [useStep, Forges.setup]
    cases ho : s.ops[i]? with
    | none => exact h
    | some o =>
      have hi : i < s.ops.length := by
        rw [List.getElem?_eq_some_iff] at ho; exact ho.1
      have hmake : ∀ d : List Nat, (∀ k ∈ d, k ∈ s.dead ∨ o.inst = some k) →
          Owned { s with ops := s.ops.set i ⟨b, none, none⟩, dead := d } := by
        intro d hd
        refine ⟨?_, ?_, ?_⟩
        · intro j o1 k h1 hk
          simp only [set_get _ _ _ _ hi] at h1
          split at h1
          · cases h1; simp at hk
          · rename_i hne
            obtain ⟨q1, q2⟩ := h.held j o1 k h1 hk
            refine ⟨fun hm => ?_, q2⟩
            rcases hd k hm with hm | hm
            · exact q1 hm
            · exact hne (h.once i j o o1 k ho h1 hm hk)
        · intro k hk
          rcases hd k hk with hk | hk
          · exact h.dead k hk
          · exact (h.held i o k ho hk).2
        · intro j1 j2 o1 o2 k h1 h2 hk1 hk2
          simp only [set_get _ _ _ _ hi] at h1 h2
          split at h1
          · cases h1; simp at hk1
          · split at h2
            · cases h2; simp at hk2
            · exact h.once j1 j2 o1 o2 k h1 h2 hk1 hk2
      dsimp only
      cases hin : o.inst with
      | none => exact hmake s.dead (fun k hk => Or.inl hk)
      | some k => exact hmake (k :: s.dead) (fun k' hk' => by
            rcases List.mem_cons.1 hk' with rfl | hk'
            · exact Or.inr hin
            · exact Or.inl hk')

/-- An empty vector of forges. -/
def forges0 (noCache : Bool) : Forges := ⟨[], noCache, 0, []⟩

theorem owned_all (s : Forges) (h : Owned s) (l : List Use) : Owned (useAll s l) := by
  induction l generalizing s with
  | nil => exact h
  | cons u l ih => exact ih _ (owned_step s h u)

theorem owned0 (b : Bool) : Owned (forges0 b) := ⟨by simp [forges0], by simp [forges0], by simp [forges0]⟩

theorem useAll_cache (s : Forges) (l : List Use) : (useAll s l).noCache = s.noCache := by
  induction l generalizing s with
  | nil => rfl
  | cons u l ih =>
    rw [show useAll s (u :: l) = useAll (useStep s u) l from rfl, ih]
    cases u with
    | add b => rfl
    | inst i =>
      simp only [useStep]
      cases ho : s.ops[i]? with
      | none => rw [inst_none s i ho]
      | some o =>
        cases hin : o.inst with
        | none => rw [inst_new s i o ho hin]
        | some k =>
          cases hc : s.noCache with
          | false => rw [inst_hit s i o k ho hc hin]; exact hc
          | true => rw [inst_again s i o k ho hc hin]; exact hc
    | ptr i =>
      simp only [useStep, Forges.instantiatePtr]
      cases s.ops[i]? with
      | none => rfl
      | some o =>
        dsimp only
        split
        · rename_i r hr
          split at hr
          · split at hr <;> cases hr <;> rfl
          · cases hr; rfl
        · rfl
    | setup i b =>
      simp only [useStep, Forges.setup]
      cases s.ops[i]? with
      | none => rfl
      | some o => rfl

/-- With the cache, a forge gives the same living object whatever is done between, as long as it is not set up
anew. -/
theorem C207_cached (l l' : List Use) (i k : Nat) (s' : Forges)
    (h : (useAll (forges0 false) l).instantiate i = .ok (k, s')) (hl : ∀ b, Use.setup i b ∉ l') :
    (∃ s'', (useAll s' l').instantiate i = .ok (k, s'')) ∧ k ∉ (useAll s' l').dead := by
  set s := useAll (forges0 false) l with hs
  have ho : Owned s := owned_all _ (owned0 _) l
  have hcache : s.noCache = false := useAll_cache _ _
  have hs' : s' = useStep s (.inst i) := by simp only [useStep, h]
  have ho' : Owned s' := by rw [hs']; exact owned_step s ho _
  have hcache' : s'.noCache = false := by
    rw [hs']; exact (useAll_cache s [.inst i]).trans hcache
  -- the forge holds the object
  have hheld : ∃ o, s'.ops[i]? = some o ∧ o.inst = some k := by
    simp only [Forges.instantiate, hcache] at h
    cases hop : s.ops[i]? with
    | none => rw [hop] at h; simp at h
    | some o =>
      have hi : i < s.ops.length := by
        rw [List.getElem?_eq_some_iff] at hop; exact hop.1
      rw [hop] at h
      cases hin : o.inst with
      | none =>
        simp only [hin, Except.ok.injEq, Prod.mk.injEq] at h
        obtain ⟨rfl, rfl⟩ := h
        exact ⟨{ o with inst := some s.made }, by simp only [set_get _ _ _ _ hi, if_true], rfl⟩
      | some k' =>
        simp only [hin, Except.ok.injEq, Prod.mk.injEq] at h
        obtain ⟨rfl, rfl⟩ := h
        exact ⟨o, hop, hin⟩
  have key : ∀ (l' : List Use) (s : Forges), s.noCache = false → (∀ b, Use.setup i b ∉ l') →
      (∃ o, s.ops[i]? = some o ∧ o.inst = some k) → ∃ o, (useAll s l').ops[i]? = some o ∧ o.inst = some k := by
    intro l'
    induction l' with
    | nil => intro s _ _ h; exact h
    | cons u l' ih =>
      intro s hc hb hh
      refine ih (useStep s u) ((useAll_cache s [u]).trans hc) (fun b hm => hb b (List.mem_cons_of_mem _ hm)) ?_
      obtain ⟨o, h1, h2⟩ := hh
      have hi : i < s.ops.length := by
        rw [List.getElem?_eq_some_iff] at h1; exact h1.1
      cases u with
      | add b => exact ⟨o, by simp only [useStep, Forges.add]; rw [List.getElem?_append_left hi, h1], h2⟩
      | inst j =>
        simp only [useStep]
        cases hj : s.ops[j]? with
        | none => rw [inst_none s j hj]; exact ⟨o, h1, h2⟩
        | some oj =>
          have hjl : j < s.ops.length := by
            rw [List.getElem?_eq_some_iff] at hj; exact hj.1
          cases hin : oj.inst with
          | some k' => rw [inst_hit s j oj k' hj hc hin]; exact ⟨o, h1, h2⟩
          | none =>
            rw [inst_new s j oj hj hin]
            have hne : j ≠ i := by
              rintro rfl
              rw [h1] at hj; cases hj; rw [h2] at hin; cases hin
            exact ⟨o, by simp only [set_get _ _ _ _ hjl, if_neg hne, h1], h2⟩
      | ptr j =>
        simp only [useStep, Forges.instantiatePtr]
        cases hj : s.ops[j]? with
        | none => exact ⟨o, h1, h2⟩
        | some oj =>
          have hjl : j < s.ops.length := by
            rw [List.getElem?_eq_some_iff] at hj; exact hj.1
          have hset : ∀ p : Option Nat, ∃ o, (s.ops.set j { oj with ptr := p })[i]? = some o ∧ o.inst = some k := by
            intro p
            rw [set_get _ _ _ _ hjl]
            split
            · rename_i hji; subst hji; rw [h1] at hj; cases hj; exact ⟨_, rfl, h2⟩
            · exact ⟨o, h1, h2⟩
          dsimp only
          split
          · rename_i r hr
            split at hr
            · split at hr
              · cases hr; exact hset none
              · cases hr; exact hset (some s.made)
            · cases hr; exact ⟨o, h1, h2⟩
          · exact ⟨o, h1, h2⟩
      | setup j b =>
        simp only [useStep, Forges.setup]
        have hne : j ≠ i := by
          rintro rfl; exact hb b List.mem_cons_self
        cases hj : s.ops[j]? with
        | none => exact ⟨o, h1, h2⟩
        | some oj =>
          have hjl : j < s.ops.length := by
            rw [List.getElem?_eq_some_iff] at hj; exact hj.1
          exact ⟨o, by simp only [set_get _ _ _ _ hjl, if_neg hne, h1], h2⟩
  obtain ⟨o, h1, h2⟩ := key l' s' hcache' hl hheld
  refine ⟨⟨useAll s' l', ?_⟩, ((owned_all s' ho' l').held i o k h1 h2).1⟩
  simp only [Forges.instantiate, h1, h2, (useAll_cache s' l').trans hcache']

theorem dead_mono (s : Forges) (l : List Use) (k : Nat) (h : k ∈ s.dead) : k ∈ (useAll s l).dead := by
  induction l generalizing s with
  | nil => exact h
  | cons u l ih =>
    refine ih _ ?_
    cases u with
    | add b => exact h
    | inst i =>
      simp only [useStep]
      cases ho : s.ops[i]? with
      | none => rw [inst_none s i ho]; exact h
      | some o =>
        cases hin : o.inst with
        | none => rw [inst_new s i o ho hin]; exact h
        | some k0 =>
          cases hc : s.noCache with
          | false => rw [inst_hit s i o k0 ho hc hin]; exact h
          | true => rw [inst_again s i o k0 ho hc hin]; exact List.mem_cons_of_mem _ h
    | ptr i =>
      simp only [useStep, Forges.instantiatePtr]
      cases s.ops[i]? with
      | none => exact h
      | some o =>
        dsimp only
        split
        · rename_i r hr
          split at hr
          · split at hr <;> cases hr <;> exact h
          · cases hr; exact h
        · exact h
    | setup i b =>
      simp only [useStep, Forges.setup]
      cases s.ops[i]? with
      | none => exact h
      | some o =>
        dsimp only
        split
        · exact List.mem_cons_of_mem _ h
        · exact h

/-- Without the cache (the default) every call makes a new object, and deletes the one the same forge gave
before: a reference kept from an earlier call is dangling. -/
theorem C207_uncached (l : List Use) (i k k' : Nat) (s' s'' : Forges)
    (h : (useAll (forges0 true) l).instantiate i = .ok (k, s')) (l' : List Use)
    (h' : (useAll s' l').instantiate i = .ok (k', s'')) : k ≠ k' ∧ k ∈ s''.dead ∧ k' ∉ s''.dead := by
  set s := useAll (forges0 true) l with hs
  have ho : Owned s := owned_all _ (owned0 _) l
  have hcache : s.noCache = true := useAll_cache _ _
  have hs' : s' = useStep s (.inst i) := by simp only [useStep, h]
  have ho' : Owned s' := by rw [hs']; exact owned_step s ho _
  have hcache' : s'.noCache = true := by
    rw [hs']; exact (useAll_cache s [.inst i]).trans hcache
  have first : ∀ (s : Forges) (k : Nat) (s' : Forges), s.noCache = true → s.instantiate i = .ok (k, s') →
      k = s.made ∧ (∃ o, s'.ops[i]? = some o ∧ o.inst = some k) ∧
      (∀ o k0, s.ops[i]? = some o → o.inst = some k0 → k0 ∈ s'.dead) ∧ (∀ k0 ∈ s.dead, k0 ∈ s'.dead) := by
    intro s k s' hc h
    simp only [Forges.instantiate, hc] at h
    cases hop : s.ops[i]? with
    | none => rw [hop] at h; simp at h
    | some o =>
      have hi : i < s.ops.length := by
        rw [List.getElem?_eq_some_iff] at hop; exact hop.1
      rw [hop] at h
      cases hin : o.inst with
      | none =>
        simp only [hin, Except.ok.injEq, Prod.mk.injEq] at h
        obtain ⟨rfl, rfl⟩ := h
        refine ⟨rfl, ⟨{ o with inst := some s.made }, by simp only [set_get _ _ _ _ hi, if_true], rfl⟩, ?_, fun _ h => h⟩
        intro o1 k0 h1 h2
        cases h1; rw [hin] at h2; cases h2
      | some k' =>
        simp only [hin, Except.ok.injEq, Prod.mk.injEq] at h
        obtain ⟨rfl, rfl⟩ := h
        refine ⟨rfl, ⟨{ o with inst := some s.made }, by simp only [set_get _ _ _ _ hi, if_true], rfl⟩, ?_,
          fun _ h => List.mem_cons_of_mem _ h⟩
        intro o1 k0 h1 h2
        cases h1; rw [hin] at h2; cases h2; exact List.mem_cons_self
  -- between: the object is still held, or dead
  have between : ∀ (l' : List Use) (s : Forges), s.noCache = true → k < s.made →
      ((∃ o, s.ops[i]? = some o ∧ o.inst = some k) ∨ k ∈ s.dead) →
      k < (useAll s l').made ∧
      ((∃ o, (useAll s l').ops[i]? = some o ∧ o.inst = some k) ∨ k ∈ (useAll s l').dead) := by
    intro l'
    induction l' with
    | nil => intro s _ h0 h; exact ⟨h0, h⟩
    | cons u l' ih =>
      intro s hc h0 hh
      have hmade : k < (useStep s u).made := by
        cases u with
        | add b => exact h0
        | inst j =>
          simp only [useStep]
          cases hj : s.ops[j]? with
          | none => rw [inst_none s j hj]; exact h0
          | some o =>
            cases hin : o.inst with
            | none => rw [inst_new s j o hj hin]; exact Nat.lt_succ_of_lt h0
            | some k' => rw [inst_again s j o k' hj hc hin]; exact Nat.lt_succ_of_lt h0
        | ptr j =>
          simp only [useStep, Forges.instantiatePtr]
          cases s.ops[j]? with
          | none => exact h0
          | some o =>
            dsimp only
            split
            · rename_i r hr
              split at hr
              · split at hr <;> cases hr <;> simp <;> omega
              · cases hr; exact h0
            · exact h0
        | setup j b =>
          simp only [useStep, Forges.setup]
          cases s.ops[j]? with
          | none => exact h0
          | some o => exact h0
      refine ih (useStep s u) ((useAll_cache s [u]).trans hc) hmade ?_
      rcases hh with ⟨o, h1, h2⟩ | hd
      swap
      · exact Or.inr (dead_mono s [u] k hd)
      have hi : i < s.ops.length := by
        rw [List.getElem?_eq_some_iff] at h1; exact h1.1
      cases u with
      | add b => exact Or.inl ⟨o, by simp only [useStep, Forges.add]; rw [List.getElem?_append_left hi, h1], h2⟩
      | inst j =>
        by_cases hji : j = i
        · subst hji
          right
          simp only [useStep, inst_again s j o k h1 hc h2]
          exact List.mem_cons_self
        · left
          simp only [useStep]
          cases hj : s.ops[j]? with
          | none => rw [inst_none s j hj]; exact ⟨o, h1, h2⟩
          | some oj =>
            have hjl : j < s.ops.length := by
              rw [List.getElem?_eq_some_iff] at hj; exact hj.1
            cases hin : oj.inst with
            | some k' =>
              rw [inst_again s j oj k' hj hc hin]
              exact ⟨o, by simp only [set_get _ _ _ _ hjl, if_neg hji, h1], h2⟩
            | none =>
              rw [inst_new s j oj hj hin]
              exact ⟨o, by simp only [set_get _ _ _ _ hjl, if_neg hji, h1], h2⟩
      | ptr j =>
        left
        simp only [useStep, Forges.instantiatePtr]
        cases hj : s.ops[j]? with
        | none => exact ⟨o, h1, h2⟩
        | some oj =>
          have hjl : j < s.ops.length := by
            rw [List.getElem?_eq_some_iff] at hj; exact hj.1
          have hset : ∀ p : Option Nat, ∃ o, (s.ops.set j { oj with ptr := p })[i]? = some o ∧ o.inst = some k := by
            intro p
            rw [set_get _ _ _ _ hjl]
            split
            · rename_i hji; subst hji; rw [h1] at hj; cases hj; exact ⟨_, rfl, h2⟩
            · exact ⟨o, h1, h2⟩
          dsimp only
          split
          · rename_i r hr
            split at hr
            · split at hr
              · cases hr; exact hset none
              · cases hr; exact hset (some s.made)
            · cases hr; exact ⟨o, h1, h2⟩
          · exact ⟨o, h1, h2⟩
      | setup j b =>
        by_cases hji : j = i
        · subst hji
          right
          simp only [useStep, Forges.setup, h1, h2]
          exact List.mem_cons_self
        · left
          simp only [useStep, Forges.setup]
          cases hj : s.ops[j]? with
          | none => exact ⟨o, h1, h2⟩
          | some oj =>
            have hjl : j < s.ops.length := by
              rw [List.getElem?_eq_some_iff] at hj; exact hj.1
            exact ⟨o, by simp only [set_get _ _ _ _ hjl, if_neg hji, h1], h2⟩
  obtain ⟨e1, e2, _, _⟩ := first s k s' hcache h
  have hmade' : k < s'.made := by
    obtain ⟨o, q1, q2⟩ := e2
    exact (ho'.held i o k q1 q2).2
  obtain ⟨m1, m2⟩ := between l' s' hcache' hmade' (Or.inl e2)
  obtain ⟨g1, g2, g3, g4⟩ := first (useAll s' l') k' s'' ((useAll_cache s' l').trans hcache') h'
  have ho'' : Owned s'' := by
    have : s'' = useStep (useAll s' l') (.inst i) := by simp only [useStep, h']
    rw [this]; exact owned_step _ (owned_all s' ho' l') _
  refine ⟨by omega, ?_, ?_⟩
  · rcases m2 with ⟨o, q1, q2⟩ | hd
    · exact g3 o k q1 q2
    · exact g4 k hd
  · obtain ⟨o, q1, q2⟩ := g2
    exact (ho''.held i o k' q1 q2).1

example : ∃ s, (useAll (forges0 false) [.add true, .inst 0, .add false, .inst 1, .ptr 1]).instantiate 0 = .ok (0, s) := ⟨_, rfl⟩
example : ∃ s, (useAll (forges0 true) [.add true, .inst 0, .add false, .inst 1, .ptr 1]).instantiate 0 = .ok (3, s) ∧
  s.dead = [0] := ⟨_, rfl, rfl⟩

/-- The shared version does not work as documented. A forge without constructor arguments gives the null pointer,
in every state of an uncached vector and before the first plain instantiation of a cached one. A cached vector
gives a new object at each call before the first plain instantiation, and afterwards whatever shared object was
there before, possibly the null pointer. -/
theorem C207_shared (s : Forges) (i : Nat) (o : Forge) (h : s.ops[i]? = some o) :
    (o.noArgs = true → (s.noCache = true ∨ o.inst = none) → ∃ s', s.instantiatePtr i = .ok (none, s')) ∧
    (o.noArgs = false → o.inst = none → ∃ s', s.instantiatePtr i = .ok (some s.made, s') ∧ s'.made = s.made + 1 ∧
      ∃ s'', s'.instantiatePtr i = .ok (some (s.made + 1), s'')) ∧
    (s.noCache = false → o.inst ≠ none → s.instantiatePtr i = .ok (o.ptr, s)) := by
  have hi : i < s.ops.length := by
    rw [List.getElem?_eq_some_iff] at h; exact h.1
  refine ⟨?_, ?_, ?_⟩
  · intro h1 h2
    have : (s.noCache || o.inst.isNone) = true := by
      rcases h2 with h2 | h2 <;> simp [h2]
    simp only [Forges.instantiatePtr, h, this, h1, if_true]
    exact ⟨_, rfl⟩
  · intro h1 h2
    have hc : (s.noCache || o.inst.isNone) = true := by simp [h2]
    refine ⟨_, by simp only [Forges.instantiatePtr, h, hc, h1, if_true]; rfl, rfl, ?_⟩
    simp only [Forges.instantiatePtr, set_get _ _ _ _ hi, if_true, hc, h1]
    exact ⟨_, rfl⟩
  · intro h1 h2
    have hc : (s.noCache || o.inst.isNone) = false := by
      cases hin : o.inst with
      | none => exact absurd hin h2
      | some k => simp [h1]
    simp [Forges.instantiatePtr, h, hc]

/-- A parameter is brought into its range: unchanged inside, the nearer bound outside; not a number is
passed on. -/
theorem C207_parameter (mn mx v : ℚ) (h : mn ≤ mx) :
    scalarInstantiate mn mx (some v) = some (max mn (min v mx)) ∧ scalarInstantiate mn mx none = none := by
  refine ⟨?_, rfl⟩
  simp only [scalarInstantiate]
  by_cases h1 : v < mn
  · rw [if_pos (by rintro ⟨a, _⟩; linarith), if_pos h1, min_eq_left (by linarith), max_eq_left h1.le]
  · by_cases h2 : v > mx
    · rw [if_pos (by rintro ⟨_, a⟩; linarith), if_neg h1, if_pos h2, min_eq_right h2.le, max_eq_right h]
    · rw [if_neg (by push Not; exact ⟨not_lt.1 h1, not_lt.1 h2⟩), min_eq_left (not_lt.1 h2), max_eq_right (not_lt.1 h1)]

/-! ### C208 -/

theorem sweep_spec [Inhabited F] (a : Cellular G F) (g : Nat) : ∀ (n i : Nat) (pop pop' : List (Ind G F)),
    a.sweep g n i pop = .ok pop' → pop'.length = pop.length ∧
    (∀ j, j < i ∨ i + n ≤ j → pop'[j]? = pop[j]?) ∧
    ∀ j, i ≤ j → j < i + n → ∃ old x, pop[j]? = some old ∧ pop'[j]? = some x ∧
      a.cell g j (pop'.take j ++ pop.drop j) old = .ok x := by
  intro n
  induction n with
  | zero =>
    intro i pop pop' h
    simp only [Cellular.sweep, Except.ok.injEq] at h
    subst h
    exact ⟨rfl, fun _ _ => rfl, fun j h1 h2 => by omega⟩
  | succ n ih =>
    intro i pop pop' h
    rw [Cellular.sweep] at h
    split at h
    · simp at h
    · rename_i old hold
      have hi : i < pop.length := by
        rw [List.getElem?_eq_some_iff] at hold; exact hold.1
      split at h
      · simp at h
      · rename_i x hx
        obtain ⟨h1, h2, h3⟩ := ih _ _ _ h
        rw [List.length_set] at h1
        have hget : ∀ j, (pop.set i x)[j]? = if i = j then some x else pop[j]? := by
          intro j
          rw [List.getElem?_set]
          split
          · rename_i hij; subst hij; simp [hi]
          · rfl
        have hpi : pop'[i]? = some x := by rw [h2 i (by omega), hget, if_pos rfl]
        refine ⟨h1, ?_, ?_⟩
        · intro j hj
          rw [h2 j (by omega), hget, if_neg (by omega)]
        · intro j hj1 hj2
          by_cases hji : j = i
          · subst hji
            refine ⟨old, x, hold, hpi, ?_⟩
            have htake : pop'.take j = pop.take j := by
              apply List.ext_getElem?
              intro m
              by_cases hm : m < j
              · rw [List.getElem?_take_of_lt hm, List.getElem?_take_of_lt hm, h2 m (by omega), hget, if_neg (by omega)]
              · rw [List.getElem?_eq_none (by simp; omega), List.getElem?_eq_none (by simp; omega)]
            rw [htake, List.take_append_drop]
            exact hx
          · obtain ⟨o1, x1, q1, q2, q3⟩ := h3 j (by omega) (by omega)
            rw [hget, if_neg (by omega)] at q1
            refine ⟨o1, x1, q1, q2, ?_⟩
            rw [List.drop_set_of_lt (by omega)] at q3
            exact q3

/-- One sweep works through the cells in order, in place: the individual of cell `j` is made from the population
whose earlier cells are new and whose other cells are old. -/
theorem C208_in_place [Inhabited F] (a : Cellular G F) (g : Nat) (pop pop' : List (Ind G F))
    (h : a.sweep g pop.length 0 pop = .ok pop') :
    pop'.length = pop.length ∧ ∀ j, j < pop.length → ∃ old x, pop[j]? = some old ∧ pop'[j]? = some x ∧
      a.cell g j (pop'.take j ++ pop.drop j) old = .ok x := by
  obtain ⟨h1, _, h3⟩ := sweep_spec a g _ _ _ _ h
  exact ⟨h1, fun j hj => h3 j (by omega) (by omega)⟩

/-- Whatever the operators do to the fitness, the individuals of a sweep are rightly evaluated, if those
before were and the selectors give what they are given. If moreover the last selector takes the better of two,
no cell gets worse. -/
theorem C208_cells [Inhabited F] [LinearOrder F] (a : Cellular G F)
    (hch : ∀ g i p x, a.selChild g i p = .ok x → x ∈ p) (hre : ∀ g i p x, a.selRepl g i p = .ok x → x ∈ p)
    (cont : Cont σ (Ind G F)) (fuel : Nat) (s : σ) (pop pop' : List (Ind G F)) (gens : Nat)
    (hp : ∀ x ∈ pop, x.fitness = some (a.f x.genome))
    (h : a.loop cont fuel 0 s pop = .ok (pop', gens)) :
    pop'.length = pop.length ∧ 1 ≤ gens ∧ (∀ x ∈ pop', x.fitness = some (a.f x.genome)) ∧
    ((∀ g i p x y, a.selRepl g i p = .ok x → y ∈ p → a.f y.genome ≤ a.f x.genome) →
      ∀ (j : Nat) (x y : Ind G F), pop[j]? = some x → pop'[j]? = some y → a.f x.genome ≤ a.f y.genome) := by
  have hcell : ∀ g j p old x, old.fitness = some (a.f old.genome) → a.cell g j p old = .ok x →
      x.fitness = some (a.f x.genome) ∧
      ((∀ g i p x y, a.selRepl g i p = .ok x → y ∈ p → a.f y.genome ≤ a.f x.genome) → a.f old.genome ≤ a.f x.genome) := by
    intro g j p old x ho hx
    unfold Cellular.cell at hx
    split at hx
    · simp at hx
    · dsimp only at hx
      split at hx
      · simp at hx
      · rename_i part _ child hchild
        refine ⟨?_, fun hb => hb _ _ _ _ _ hx (by simp)⟩
        have hm := hre _ _ _ _ hx
        simp only [List.mem_cons, List.not_mem_nil, or_false] at hm
        rcases hm with rfl | rfl
        · have := hch _ _ _ _ hchild
          simp only [List.mem_cons, List.not_mem_nil, or_false] at this
          rcases this with rfl | rfl <;>
            simp [evalFuncPtr, Ind.invalid, Ind.invalidate, Ind.setFitness, Ind.fitness]
        · exact ho
  have hsweep : ∀ g p p', (∀ x ∈ p, x.fitness = some (a.f x.genome)) → a.sweep g p.length 0 p = .ok p' →
      p'.length = p.length ∧ (∀ x ∈ p', x.fitness = some (a.f x.genome)) ∧
      ((∀ g i p x y, a.selRepl g i p = .ok x → y ∈ p → a.f y.genome ≤ a.f x.genome) →
        ∀ (j : Nat) (x y : Ind G F), p[j]? = some x → p'[j]? = some y → a.f x.genome ≤ a.f y.genome) := by
    intro g p p' hp hs
    obtain ⟨q1, q2⟩ := C208_in_place a g p p' hs
    refine ⟨q1, ?_, ?_⟩
    · intro x hx
      obtain ⟨j, hj, rfl⟩ := List.mem_iff_getElem.1 hx
      obtain ⟨old, x, r1, r2, r3⟩ := q2 j (by omega)
      rw [List.getElem?_eq_getElem hj] at r2
      cases r2
      exact (hcell _ _ _ _ _ (hp old (List.mem_of_getElem? r1)) r3).1
    · intro hb j x y hx hy
      have hj : j < p.length := by
        rw [List.getElem?_eq_some_iff] at hx; exact hx.1
      obtain ⟨old, x', r1, r2, r3⟩ := q2 j hj
      rw [hx] at r1; cases r1
      rw [hy] at r2; cases r2
      exact (hcell _ _ _ _ _ (hp x (List.mem_of_getElem? hx)) r3).2 hb
  have key : ∀ (fuel g : Nat) (s : σ) (pop pop' : List (Ind G F)) (gens : Nat),
      (∀ x ∈ pop, x.fitness = some (a.f x.genome)) → a.loop cont fuel g s pop = .ok (pop', gens) →
      pop'.length = pop.length ∧ g + 1 ≤ gens ∧ (∀ x ∈ pop', x.fitness = some (a.f x.genome)) ∧
      ((∀ g i p x y, a.selRepl g i p = .ok x → y ∈ p → a.f y.genome ≤ a.f x.genome) →
        ∀ (j : Nat) (x y : Ind G F), pop[j]? = some x → pop'[j]? = some y → a.f x.genome ≤ a.f y.genome) := by
    intro fuel
    induction fuel with
    | zero => intro g s pop pop' gens _ h; simp [Cellular.loop] at h
    | succ fuel ih =>
      intro g s pop pop' gens hp h
      rw [Cellular.loop] at h
      split at h
      · simp at h
      · rename_i p1 hs
        obtain ⟨q1, q2, q3⟩ := hsweep g pop p1 hp hs
        split at h
        · simp at h
        · obtain ⟨r1, r2, r3, r4⟩ := ih _ _ _ _ _ q2 h
          refine ⟨by omega, by omega, r3, fun hb j x y hx hy => ?_⟩
          have hj : j < p1.length := by
            rw [List.getElem?_eq_some_iff] at hx; have := hx.1; omega
          exact (q3 hb j x _ hx (List.getElem?_eq_getElem hj)).trans (r4 hb j _ y (List.getElem?_eq_getElem hj) hy)
        · simp only [Except.ok.injEq, Prod.mk.injEq] at h
          obtain ⟨rfl, rfl⟩ := h
          exact ⟨q1, le_rfl, q2, q3⟩
  obtain ⟨k1, k2, k3, k4⟩ := key _ _ _ _ _ _ hp h
  exact ⟨k1, by omega, k3, k4⟩

/-- A ring of cells on numbers, fitness the number modulo ten. -/
def demoCells : Cellular Nat Nat where
  f x := x % 10
  neighbours p i := p.drop (i + 1) ++ p.take i
  selNeigh _ _ p := match p with | [] => .error .ub | x :: _ => .ok x
  cross _ _ x y := (y, x)
  mut1 _ _ x := { x with genome := x.genome + 1 }
  mut2 _ _ x := { x with genome := x.genome + 3 }
  selChild _ _ p := match p with | x :: _ => .ok x | [] => .error .ub
  selRepl _ _ p := match p with
    | [x, y] => if x.genome % 10 < y.genome % 10 then .ok y else .ok x
    | _ => .error .ub

example : demoCells.loop (genCont 2) 5 0 0 [⟨9, 9, false⟩, ⟨4, 4, false⟩, ⟨7, 7, false⟩] =
    .ok ([⟨9, 9, false⟩, ⟨8, 8, false⟩, ⟨7, 7, false⟩], 2) := by rfl

example : (∀ g i p x, demoCells.selChild g i p = .ok x → x ∈ p) ∧ (∀ g i p x, demoCells.selRepl g i p = .ok x → x ∈ p) ∧
    ∀ g i p x y, demoCells.selRepl g i p = .ok x → y ∈ p → demoCells.f y.genome ≤ demoCells.f x.genome := by
  refine ⟨?_, ?_, ?_⟩
  · intro g i p x h
    cases p with
    | nil => simp [demoCells] at h
    | cons a l => simp only [demoCells, Except.ok.injEq] at h; rw [← h]; exact List.mem_cons_self
  · intro g i p x h
    simp only [demoCells] at h
    split at h
    · split at h <;> cases h <;> simp
    · simp at h
  · intro g i p x y h hy
    simp only [demoCells] at h ⊢
    split at h
    · simp only [List.mem_cons, List.not_mem_nil, or_false] at hy
      split at h <;> cases h <;> rcases hy with rfl | rfl <;> omega
    · simp at h

end Paradiseo.Run
