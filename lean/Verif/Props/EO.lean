/-
Properties C08 (generic neighbour evaluation) and C47 (fitness validity protocol).
-/
import Verif.Model.EO
import Mathlib.Order.Basic
import Mathlib.Data.List.Induction
import Mathlib.Data.Int.Order.Basic

namespace Paradiseo.EO
variable {G F : Type}

/-! ### C08 -/

/-- C08 by copy: always succeeds, the neighbour gets the full evaluation of the moved genome,
the solution is untouched. -/
theorem C08_eval_by_copy [Inhabited F] (f : G → F) (sol : Ind G F) (nb : Neighbor G F) :
    ∃ nb', fullEvalByCopy f sol nb = some (sol, nb') ∧
      nb'.fit = some (f (nb.move sol).genome) ∧ nb'.move = nb.move ∧ nb'.moveBack = nb.moveBack := by
  simp [fullEvalByCopy, evalFuncPtr, Ind.invalidate, Ind.invalid, Ind.fitness, Ind.setFitness]

/-- C08 by modify/undo: if the solution is evaluated and `moveBack` undoes `move` on genomes
(whatever the two do to the fitness), the solution ends with the same genome and the same valid
fitness, and the neighbour gets the full evaluation of the moved genome. -/
theorem C08_eval_by_modif [Inhabited F] (f : G → F) (sol : Ind G F) (nb : Neighbor G F)
    (v : F) (hv : sol.fitness = some v)
    (hback : ∀ y : Ind G F, y.genome = (nb.move sol).genome →
      (nb.moveBack y).genome = sol.genome) :
    ∃ nb', fullEvalByModif f sol nb = some (sol, nb') ∧
      nb'.fit = some (f (nb.move sol).genome) ∧ nb'.move = nb.move ∧ nb'.moveBack = nb.moveBack := by
  obtain ⟨g, r, i⟩ := sol
  have hi : i = false := by
    cases i
    · rfl
    · simp [Ind.fitness] at hv
  subst hi
  have hr : r = v := by simpa [Ind.fitness] using hv
  subst hr
  let moved := nb.move ⟨g, r, false⟩
  let ev : Ind G F := ⟨moved.genome, f moved.genome, false⟩
  refine ⟨{ nb with fit := some (f moved.genome) }, ?_, rfl, rfl, rfl⟩
  have hg := hback ev rfl
  simp only [fullEvalByModif, evalFuncPtr, Ind.invalidate, Ind.invalid, Ind.fitness,
    Ind.setFitness, Option.bind_eq_bind, Option.pure_def, if_true]
  simp only [Bool.false_eq_true, if_false, Option.bind_some]
  congr 2
  change Ind.mk (nb.moveBack ev).genome r false = _
  rw [hg]

/-- Evaluation by modification of a never evaluated solution throws. -/
theorem C08_eval_by_modif_invalid [Inhabited F] (f : G → F) (sol : Ind G F) (nb : Neighbor G F)
    (h : sol.invalid = true) : fullEvalByModif f sol nb = none := by
  have : sol.fitness = none := by simpa [Ind.fitness, Ind.invalid] using h
  simp [fullEvalByModif, this]

/-- The undo hypothesis is needed: without it the solution is silently changed while keeping its
old fitness. -/
theorem C08_needs_undo :
    ∃ (f : Nat → Int) (sol : Ind Nat Int) (nb : Neighbor Nat Int) (sol' : Ind Nat Int)
      (nb' : Neighbor Nat Int), sol.fitness = some (f sol.genome) ∧
      fullEvalByModif f sol nb = some (sol', nb') ∧ sol'.fitness ≠ some (f sol'.genome) :=
  ⟨fun n => n, ⟨0, 0, false⟩, ⟨fun s => { s with genome := s.genome + 1 }, id, none⟩,
    ⟨1, 0, false⟩, ⟨fun s => { s with genome := s.genome + 1 }, id, some 1⟩, rfl, rfl, by decide⟩

/-- Hypotheses of `C08_eval_by_modif` are met by a genuine move with an undo. -/
example : ∀ y : Ind Nat Int, y.genome = (5 : Nat) + 1 → ({ y with genome := y.genome - 1 } : Ind Nat Int).genome = 5 := by
  intro y h; simp [h]

/-! ### C47 -/

/-- Events on an individual. -/
inductive Event (F : Type) where
  | assign (f : F)
  | invalidate
  deriving DecidableEq

/-- Run one event. -/
def step [Inhabited F] (x : Ind G F) : Event F → Ind G F
  | .assign f => x.setFitness f
  | .invalidate => x.invalidate

/-- Specification: what a read must give after a history, on a fresh individual. -/
def expected (h : List (Event F)) : Option F :=
  match h.getLast? with
  | some (.assign f) => some f
  | _ => none

/-- C47: after any history, reading the fitness gives the last assigned value if the last event
was an assignment and throws otherwise; `invalid()` says which. The representation is never
touched. -/
theorem C47_validity [Inhabited F] (g : G) (h : List (Event F)) :
    (h.foldl step (Ind.new g)).fitness = expected h ∧
    ((h.foldl step (Ind.new g)).invalid = true ↔ expected h = none) ∧
    (h.foldl step (Ind.new g)).genome = g := by
  induction h using List.reverseRecOn with
  | nil => simp [Ind.new, Ind.fitness, Ind.invalid, expected]
  | append_singleton h e ih =>
    rw [List.foldl_append]
    have hgen := ih.2.2
    cases e <;>
      simp [step, Ind.setFitness, Ind.invalidate, Ind.fitness, Ind.invalid, expected, hgen]

/-- Comparing individuals throws iff one of the two is invalid; otherwise `<` and `>` are the
comparisons of the fitnesses (for a linear order). -/
theorem C47_compare [LinearOrder F] (x y : Ind G F) :
    (x.lt y = none ↔ (x.invalid = true ∨ y.invalid = true)) ∧
    (x.gt y = none ↔ (x.invalid = true ∨ y.invalid = true)) ∧
    ∀ a b, x.fitness = some a → y.fitness = some b →
      x.lt y = some (decide (a < b)) ∧ x.gt y = some (decide (b < a)) := by
  obtain ⟨g, r, i⟩ := x
  obtain ⟨g', r', i'⟩ := y
  refine ⟨?_, ?_, ?_⟩
  · cases i <;> cases i' <;> simp [Ind.lt, Ind.fitness, Ind.invalid]
  · cases i <;> cases i' <;> simp [Ind.gt, Ind.fitness, Ind.invalid]
  · intro a b ha hb
    have : ∀ p q : F, (!decide (p ≤ q)) = decide (q < p) := by
      intro p q; by_cases h : p ≤ q
      · simp [h]
      · simp [h, not_le.1 h]
    simp [Ind.lt, Ind.gt, ha, hb, this]

/-- Writing then reading an individual preserves what the fitness read gives (value or
exception). -/
theorem C47_print_read (x y : Ind G F) : (y.readFrom x.printOn).fitness = x.fitness := by
  cases h : x.invalidFitness <;> simp [Ind.readFrom, Ind.printOn, Ind.fitness, Ind.invalid, h]

/-- Invariant kept by the evaluators: a valid fitness is the fitness of the genome. -/
def Sound (f : G → F) (x : Ind G F) : Prop := ∀ v, x.fitness = some v → v = f x.genome

/-- Population evaluation: same genomes in the same order, every individual valid; sound
individuals get exactly `f genome`; valid individuals are untouched and the counter grows by
exactly the number of invalid individuals. -/
theorem C47_evalPop (f : G → F) (c : Nat) (pop : List (Ind G F)) :
    (evalPop f c pop).2.map (·.genome) = pop.map (·.genome) ∧
    (∀ x ∈ (evalPop f c pop).2, x.invalid = false) ∧
    ((∀ x ∈ pop, Sound f x) → ∀ x ∈ (evalPop f c pop).2, x.fitness = some (f x.genome)) ∧
    (evalPop f c pop).1 = c + pop.countP (·.invalid) := by
  induction pop generalizing c with
  | nil => simp [evalPop]
  | cons x pop ih =>
    obtain ⟨g, r, i⟩ := x
    cases i
    · obtain ⟨h1, h2, h3, h4⟩ := ih c
      refine ⟨by simpa [evalPop, evalCounter, Ind.invalid] using h1, ?_, ?_, ?_⟩
      · intro y hy
        simp only [evalPop, evalCounter, Ind.invalid, Bool.false_eq_true, if_false,
          List.mem_cons] at hy
        rcases hy with rfl | hy
        · rfl
        · exact h2 y hy
      · intro hs y hy
        simp only [evalPop, evalCounter, Ind.invalid, Bool.false_eq_true, if_false,
          List.mem_cons] at hy
        rcases hy with rfl | hy
        · have := hs ⟨g, r, false⟩ (by simp) r (by simp [Ind.fitness])
          simp [Ind.fitness, this]
        · exact h3 (fun z hz => hs z (List.mem_cons_of_mem _ hz)) y hy
      · simp [evalPop, evalCounter, Ind.invalid] at h4 ⊢
        exact h4
    · obtain ⟨h1, h2, h3, h4⟩ := ih (c + 1)
      refine ⟨by simpa [evalPop, evalCounter, Ind.invalid, evalFuncPtr, Ind.setFitness] using h1,
        ?_, ?_, ?_⟩
      · intro y hy
        simp only [evalPop, evalCounter, Ind.invalid, if_true, List.mem_cons] at hy
        rcases hy with rfl | hy
        · rfl
        · exact h2 y hy
      · intro hs y hy
        simp only [evalPop, evalCounter, Ind.invalid, if_true, List.mem_cons] at hy
        rcases hy with rfl | hy
        · rfl
        · exact h3 (fun z hz => hs z (List.mem_cons_of_mem _ hz)) y hy
      · simp only [evalPop, evalCounter, Ind.invalid, if_true] at h4 ⊢
        rw [h4]; simp; omega

example : ([Event.assign 3, .invalidate, .assign 5].foldl step (Ind.new 7 : Ind Nat Int)).fitness
    = some 5 := by decide
example : ([Event.assign 3, .invalidate].foldl step (Ind.new 7 : Ind Nat Int)).fitness
    = none := by decide
example : (evalPop (fun n : Nat => (n : Int)) 0 [Ind.new 2, ⟨3, 3, false⟩, Ind.new 4]).1 = 2 := by decide

end Paradiseo.EO
