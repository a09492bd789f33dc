/-
Property C392: whole runs of eoEasyEA made of components that only compare do not change when the fitness is transformed
by an increasing function, nor when genomes are recoded and the operators with them.
-/
import Verif.Model.EOAlgo
import Mathlib.Order.Monotone.Basic
import Mathlib.Data.List.Forall2
import Mathlib.Data.List.Sort
import Mathlib.Algebra.Order.Ring.Rat
import Mathlib.Tactic.Linarith

namespace Paradiseo.Run
open Paradiseo.EO

variable {G G' F F' σ σ' : Type}

/-! ### The two runs -/

/-- The individual with its fitness transformed by `φ` and its genome written in another code, `γ`. -/
def regradeInd (φ : F → F') (γ : G → G') (x : Ind G F) : Ind G' F' := ⟨γ x.genome, φ x.repFitness, x.invalidFitness⟩

/-- The recoded genome, both valid or both not, and the transformed fitness if they are. -/
def Twin (φ : F → F') (γ : G → G') (x : Ind G F) (y : Ind G' F') : Prop :=
  y.genome = γ x.genome ∧ y.invalidFitness = x.invalidFitness ∧ (x.invalidFitness = false → y.repFitness = φ x.repFitness)

/-- A breeding does the same: it fails alike or makes twins. -/
def SameBreed (φ : F → F') (γ : G → G') (b : Nat → List (Ind G F) → Except Err (List (Ind G F)))
    (b' : Nat → List (Ind G' F') → Except Err (List (Ind G' F'))) : Prop :=
  ∀ g pop, (∃ e, b g pop = .error e ∧ b' g (pop.map (regradeInd φ γ)) = .error e) ∨
    ∃ off off', b g pop = .ok off ∧ b' g (pop.map (regradeInd φ γ)) = .ok off' ∧ List.Forall₂ (Twin φ γ) off off'

/-- A replacement does the same. -/
def SameReplace (φ : F → F') (γ : G → G') (R : Replacement (Ind G F)) (R' : Replacement (Ind G' F')) : Prop :=
  ∀ pop off, R' (pop.map (regradeInd φ γ)) (off.map (regradeInd φ γ)) =
    (R pop off).map (Prod.map (List.map (regradeInd φ γ)) (List.map (regradeInd φ γ)))

/-- The state of a run with the fitness transformed, and the state of the continuator by `ν`. -/
def regradeSt (φ : F → F') (γ : G → G') (ν : σ → σ') (s : RunSt G F σ) : RunSt G' F' σ' :=
  ⟨s.pop.map (regradeInd φ γ), s.evals, ν s.cs, s.gens, s.seen.map (List.map (regradeInd φ γ))⟩

theorem evalPop_twin (φ : F → F') (γ : G → G') {f : G → F} {f' : G' → F'} (hf : ∀ x, f' (γ x) = φ (f x)) : ∀ {l : List (Ind G F)} {l' : List (Ind G' F')}, List.Forall₂ (Twin φ γ) l l' →
    ∀ c, evalPop f' c l' = ((evalPop f c l).1, (evalPop f c l).2.map (regradeInd φ γ)) := by
  intro l l' h
  induction h with
  | nil => intro c; rfl
  | @cons x y l l' hxy _ ih =>
    intro c
    obtain ⟨h1, h2, h3⟩ := hxy
    have : evalCounter f' c y = ((evalCounter f c x).1, regradeInd φ γ (evalCounter f c x).2) := by
      rcases hi : x.invalidFitness with _ | _
      · rw [hi] at h2
        simp only [evalCounter, Ind.invalid, hi, h2]
        have := h3 hi
        rcases y with ⟨a, b, d⟩
        simp_all [regradeInd]
      · rw [hi] at h2
        simp [evalCounter, evalFuncPtr, Ind.invalid, Ind.setFitness, hi, h2, regradeInd, h1, hf]
    simp only [evalPop, this, ih, List.map_cons]

theorem twin_regrade (φ : F → F') (γ : G → G') (l : List (Ind G F)) : List.Forall₂ (Twin φ γ) l (l.map (regradeInd φ γ)) := by
  induction l with
  | nil => exact .nil
  | cons a l ih => exact .cons ⟨rfl, rfl, fun _ => rfl⟩ ih

/-- A continuator answers the same; `ν` transforms what it remembers. -/
def SameCont (φ : F → F') (γ : G → G') (ν : σ → σ') (c : Cont σ (Ind G F)) (c' : Cont σ' (Ind G' F')) : Prop :=
  ∀ s n pop, c' (ν s) n (pop.map (regradeInd φ γ)) = (c s n pop).map (Prod.map id ν)

/-- **C392**: two runs of eoEasyEA, the second with the transformed objective function, twin parents and components that
do the same, fail alike or go through the same genomes: same generations, evaluations, populations and offspring. -/
theorem C392_run (φ : F → F') (γ : G → G') (ν : σ → σ') (ea : EA G F σ) (ea' : EA G' F' σ') (hf : ∀ x, ea'.f (γ x) = φ (ea.f x))
    (hb : SameBreed φ γ ea.breed ea'.breed) (hr : ∀ g, SameReplace φ γ (ea.replace g) (ea'.replace g))
    (hc : SameCont φ γ ν ea.cont ea'.cont)
    {pop : List (Ind G F)} {pop' : List (Ind G' F')} (hp : List.Forall₂ (Twin φ γ) pop pop') (fuel evals : Nat) (cs : σ) :
    ea'.run fuel pop' evals (ν cs) = (ea.run fuel pop evals cs).map (regradeSt φ γ ν) := by
  have hg : ∀ s, ea'.generation (regradeSt φ γ ν s) = (ea.generation s).map (regradeSt φ γ ν) := by
    intro s
    rcases hb s.gens s.pop with ⟨e, h1, h2⟩ | ⟨off, off', h1, h2, h3⟩
    · simp only [EA.generation, regradeSt, h1, h2]
      rfl
    · simp only [EA.generation, regradeSt, h1, h2, evalPop_twin φ γ hf h3, hr s.gens _ _]
      rcases ea.replace s.gens s.pop (evalPop ea.f s.evals off).2 with e | ⟨p, q⟩
      · rfl
      · simp only [Except.map, Prod.map, List.length_map]
        split_ifs
        · rfl
        · rfl
        · simp [regradeSt]
  have hl : ∀ fuel s, ea'.loop fuel (regradeSt φ γ ν s) = (ea.loop fuel s).map (regradeSt φ γ ν) := by
    intro fuel
    induction fuel with
    | zero => intro s; rfl
    | succ fuel ih =>
      intro s
      simp only [EA.loop, hg]
      rcases ea.generation s with e | s'
      · rfl
      · have : ea'.cont (regradeSt φ γ ν s').cs (regradeSt φ γ ν s').evals (regradeSt φ γ ν s').pop =
            (ea.cont s'.cs s'.evals s'.pop).map (Prod.map id ν) :=
          hc _ _ _
        simp only [Except.map, this]
        rcases ea.cont s'.cs s'.evals s'.pop with e | ⟨b, c⟩
        · rfl
        · cases b
          · rfl
          · exact ih { s' with cs := c }
  unfold EA.run
  rw [← hl]
  congr 1
  unfold EA.start regradeSt
  rw [evalPop_twin φ γ hf hp]
  rfl

/-! ### Components that do the same -/

section Components
variable [LinearOrder F] [LinearOrder F'] {φ : F → F'} {γ : G → G'} (hφ : StrictMono φ)

/-- The fitness compared. -/
def fitOf (x : Ind G F) : F := x.repFitness

include hφ

theorem ltAt_twin (pop : List (Ind G F)) (i j : Nat) : ltAt fitOf (pop.map (regradeInd φ γ)) i j = ltAt fitOf pop i j := by
  simp only [ltAt, List.getElem?_map]
  rcases pop[i]? with _ | a <;> rcases pop[j]? with _ | b
  · rfl
  · rfl
  · rfl
  · exact decide_eq_decide.2 hφ.lt_iff_lt

theorem detTournament_twin (n : Nat) (r : Nat → Nat) (pop : List (Ind G F)) (t : Nat) :
    detTournament fitOf n r (pop.map (regradeInd φ γ)) t = detTournament fitOf n r pop t := by
  have : ∀ k b t, detLoop fitOf (pop.map (regradeInd φ γ)) r k b t = detLoop fitOf pop r k b t := by
    intro k
    induction k with
    | zero => intro b t; rfl
    | succ k ih => intro b t; simp only [detLoop, ih, ltAt_twin hφ, List.length_map]
  simp only [detTournament, this, List.length_map]

theorem invDetTournament_twin (n : Nat) (r : Nat → Nat) (fuel : Nat) (pop : List (Ind G F)) (t : Nat) :
    invDetTournament fitOf n r fuel (pop.map (regradeInd φ γ)) t = invDetTournament fitOf n r fuel pop t := by
  have : ∀ fuel k b t, invLoop fitOf (pop.map (regradeInd φ γ)) r fuel k b t = invLoop fitOf pop r fuel k b t := by
    intro fuel
    induction fuel with
    | zero => intro k b t; cases k <;> rfl
    | succ fuel ih =>
      intro k b t
      cases k with
      | zero => rfl
      | succ k => simp only [invLoop, ih, ltAt_twin hφ, List.length_map]
  simp only [invDetTournament, this, List.length_map]

theorem stochTournament_twin (r : Nat → Nat) (flip : Nat → Bool) (pop : List (Ind G F)) (t : Nat) :
    stochTournament fitOf r flip (pop.map (regradeInd φ γ)) t = stochTournament fitOf r flip pop t := by
  simp only [stochTournament, ltAt_twin hφ, List.length_map]

theorem invStochTournament_twin (r : Nat → Nat) (flip : Nat → Bool) (pop : List (Ind G F)) (t : Nat) :
    invStochTournament fitOf r flip (pop.map (regradeInd φ γ)) t = invStochTournament fitOf r flip pop t := by
  simp only [invStochTournament, ltAt_twin hφ, List.length_map]

theorem minElemAux_twin : ∀ (l : List (Ind G F)) (i b : Nat) (v : F),
    minElemAux fitOf (l.map (regradeInd φ γ)) i b (φ v) = minElemAux fitOf l i b v
  | [], _, _, _ => rfl
  | x :: l, i, b, v => by
    simp only [List.map_cons, minElemAux]
    rw [show fitOf (regradeInd φ γ x) = φ (fitOf x) from rfl]
    simp only [hφ.lt_iff_lt, minElemAux_twin l]

theorem maxElemAux_twin : ∀ (l : List (Ind G F)) (i b : Nat) (v : F),
    maxElemAux fitOf (l.map (regradeInd φ γ)) i b (φ v) = maxElemAux fitOf l i b v
  | [], _, _, _ => rfl
  | x :: l, i, b, v => by
    simp only [List.map_cons, maxElemAux]
    rw [show fitOf (regradeInd φ γ x) = φ (fitOf x) from rfl]
    simp only [hφ.lt_iff_lt, maxElemAux_twin l]

theorem worseElement_twin (pop : List (Ind G F)) : worseElement fitOf (pop.map (regradeInd φ γ)) = worseElement fitOf pop := by
  cases pop with
  | nil => rfl
  | cons x l => exact congrArg Except.ok (minElemAux_twin hφ l 1 0 _)

theorem bestElement_twin (pop : List (Ind G F)) :
    bestElement fitOf (pop.map (regradeInd φ γ)) = (bestElement fitOf pop).map (regradeInd φ γ) := by
  cases pop with
  | nil => rfl
  | cons x l =>
    simp only [bestElement, List.map_cons]
    rw [show fitOf (regradeInd φ γ x) = φ (fitOf x) from rfl, maxElemAux_twin hφ l 1 0, ← List.map_cons, List.getElem?_map]
    cases (x :: l)[maxElemAux fitOf l 1 0 (fitOf x)]? <;> rfl

omit hφ [LinearOrder F] [LinearOrder F'] in
theorem eliminate_twin {pick : List (Ind G F) → Nat → Except Err (Nat × Nat)} {pick' : List (Ind G' F') → Nat → Except Err (Nat × Nat)}
    (h : ∀ pop t, pick' (pop.map (regradeInd φ γ)) t = pick pop t) : ∀ (k : Nat) (pop : List (Ind G F)) (t : Nat),
    (eliminate pick' k (pop.map (regradeInd φ γ)) t).map (fun x => x.1) =
      (eliminate pick k pop t).map fun x => x.1.map (regradeInd φ γ)
  | 0, _, _ => rfl
  | k + 1, pop, t => by
    simp only [eliminate, h]
    rcases pick pop t with e | ⟨i, t'⟩
    · rfl
    · simp only [List.getElem?_map]
      rcases pop[i]? with _ | x
      · rfl
      · have ih := eliminate_twin h k (pop.eraseIdx i) t'
        simp only [Option.map_some, List.eraseIdx_map] at ih ⊢
        rcases h1 : eliminate pick k (pop.eraseIdx i) t' with e | ⟨a, b, c⟩ <;>
          rcases h2 : eliminate pick' k ((pop.eraseIdx i).map (regradeInd φ γ)) t' with e' | ⟨a', b', c'⟩ <;>
          rw [h1, h2] at ih <;> simp_all [Except.map]

/-- A reducer does the same. -/
def SameReduce (φ : F → F') (γ : G → G') (R : Reducer (Ind G F)) (R' : Reducer (Ind G' F')) : Prop :=
  ∀ pop n, R' (pop.map (regradeInd φ γ)) n = (R pop n).map (List.map (regradeInd φ γ))

theorem reducers_twin (n : Nat) (r : Nat → Nat) (fuel : Nat) (flip : Nat → Bool) :
    SameReduce φ γ (linearTruncate fitOf) (linearTruncate fitOf) ∧
    SameReduce φ γ (detTruncate fitOf n r fuel) (detTruncate fitOf n r fuel) ∧
    SameReduce φ γ (stochTruncate fitOf r flip) (stochTruncate fitOf r flip) := by
  refine ⟨fun pop k => ?_, fun pop k => ?_, fun pop k => ?_⟩
  · simp only [linearTruncate, List.length_map]
    split_ifs
    · rfl
    · rfl
    · rw [eliminate_twin (pick := pickWorse fitOf) (fun p t => by simp only [pickWorse, worseElement_twin hφ])]
      cases eliminate (pickWorse fitOf) (pop.length - k) pop 0 <;> rfl
  · simp only [detTruncate, List.length_map]
    split_ifs
    · rfl
    · rfl
    · rfl
    · rw [eliminate_twin (fun p t => invDetTournament_twin hφ (max n 2) r fuel p t)]
      cases eliminate (invDetTournament fitOf (max n 2) r fuel) (pop.length - k) pop 0 <;> rfl
  · simp only [stochTruncate, List.length_map]
    split_ifs
    · rfl
    · rfl
    · rfl
    · rw [eliminate_twin (fun p t => invStochTournament_twin hφ r flip p t)]
      cases eliminate (invStochTournament fitOf r flip) (pop.length - k) pop 0 <;> rfl

omit hφ [LinearOrder F] [LinearOrder F'] in
theorem reduceMerge_twin {R : Reducer (Ind G F)} {R' : Reducer (Ind G' F')} (h : SameReduce φ γ R R') :
    SameReplace φ γ (reduceMerge R plus) (reduceMerge R' plus) := by
  intro pop off
  simp only [reduceMerge, List.length_map, h _ _]
  split_ifs
  · rfl
  · cases R pop (pop.length - off.length) <;> simp [Except.map, plus]

omit hφ [LinearOrder F] [LinearOrder F'] in
theorem mergeReduce_plus_twin {R : Reducer (Ind G F)} {R' : Reducer (Ind G' F')} (h : SameReduce φ γ R R') :
    SameReplace φ γ (mergeReduce plus R) (mergeReduce plus R') := by
  intro pop off
  simp only [mergeReduce, plus, List.length_map, ← List.map_append, h _ _]
  cases R (off ++ pop) pop.length <;> rfl

omit hφ [LinearOrder F] [LinearOrder F'] in
theorem truncate_twin {sort : List (Ind G F) → List (Ind G F)} {sort' : List (Ind G' F') → List (Ind G' F')}
    (h : ∀ l, sort' (l.map (regradeInd φ γ)) = (sort l).map (regradeInd φ γ)) : SameReduce φ γ (truncate sort) (truncate sort') := by
  intro pop n
  simp only [truncate, List.length_map, h, ← List.map_take]
  split_ifs <;> rfl

theorem weakElitist_twin {R : Replacement (Ind G F)} {R' : Replacement (Ind G' F')} (h : SameReplace φ γ R R') :
    SameReplace φ γ (weakElitist fitOf R) (weakElitist fitOf R') := by
  intro pop off
  simp only [weakElitist, bestElement_twin hφ, h _ _]
  rcases bestElement fitOf pop with e | b
  · rfl
  · rcases R pop off with e | ⟨p, q⟩
    · rfl
    · simp only [Except.map, Prod.map, bestElement_twin hφ, worseElement_twin hφ]
      rcases bestElement fitOf p with e | b'
      · rfl
      · simp only [Except.map]
        rw [show fitOf (regradeInd φ γ b') = φ (fitOf b') from rfl, show fitOf (regradeInd φ γ b) = φ (fitOf b) from rfl]
        simp only [hφ.lt_iff_lt]
        split_ifs
        · cases worseElement fitOf p <;> simp
        · rfl

/-- **C392**: the generational, plus, comma, worst, deterministic and stochastic tournament replacements do the same, and with
weak elitism added; for plus and comma if the two sorts break ties alike. -/
theorem C392_replacements (n : Nat) (r : Nat → Nat) (fuel : Nat) (flip : Nat → Bool)
    {sort : List (Ind G F) → List (Ind G F)} {sort' : List (Ind G' F') → List (Ind G' F')}
    (hs : ∀ l, sort' (l.map (regradeInd φ γ)) = (sort l).map (regradeInd φ γ)) (nth : Nat → List (Ind G F) → List (Ind G F))
    (nth' : Nat → List (Ind G' F') → List (Ind G' F')) (R : Replacement (Ind G F)) (R' : Replacement (Ind G' F'))
    (h : (R = generational ∧ R' = generational) ∨ (R = plusReplacement sort ∧ R' = plusReplacement sort') ∨
      (R = commaReplacement nth sort ∧ R' = commaReplacement nth' sort') ∨ (R = ssgaWorse fitOf ∧ R' = ssgaWorse fitOf) ∨
      (R = ssgaDet fitOf n r fuel ∧ R' = ssgaDet fitOf n r fuel) ∨ (R = ssgaStoch fitOf r flip ∧ R' = ssgaStoch fitOf r flip)) :
    SameReplace φ γ R R' ∧ SameReplace φ γ (weakElitist fitOf R) (weakElitist fitOf R') := by
  have key : SameReplace φ γ R R' := by
    obtain ⟨h1, h2, h3⟩ := reducers_twin (γ := γ) hφ n r fuel flip
    rcases h with ⟨rfl, rfl⟩ | ⟨rfl, rfl⟩ | ⟨rfl, rfl⟩ | ⟨rfl, rfl⟩ | ⟨rfl, rfl⟩ | ⟨rfl, rfl⟩
    · intro pop off
      rfl
    · exact mergeReduce_plus_twin (truncate_twin hs)
    · intro pop off
      simp only [commaReplacement, mergeReduce, elitism, and_self, if_true, List.length_map]
      rw [truncate_twin hs off pop.length]
      cases truncate sort off pop.length <;> rfl
    · exact reduceMerge_twin h1
    · exact reduceMerge_twin h2
    · exact reduceMerge_twin h3
  exact ⟨key, weakElitist_twin hφ key⟩

/-- What eoSteadyFitContinue remembers, transformed. -/
def regradeSteady (φ : F → F') (s : Steady F) : Steady F' := ⟨s.gen, s.steady, s.last, s.best.map φ⟩

theorem bestFitness_twin (pop : List (Ind G F)) : bestFitness fitOf (pop.map (regradeInd φ γ)) = (bestFitness fitOf pop).map φ := by
  simp only [bestFitness, bestElement_twin hφ]
  cases bestElement fitOf pop <;> rfl

/-- **C392**: the continuators that count, the one that waits for an improvement, and the one that waits for a target, given the
transformed target, answer the same. -/
theorem C392_continuators (total minGens steadyGens : Nat) (target : F) :
    SameCont φ γ id (genCont total) (genCont total) ∧ SameCont φ γ id (evalCont total) (evalCont total) ∧
    SameCont φ γ id (fitCont fitOf target) (fitCont fitOf (φ target)) ∧
    SameCont φ γ (regradeSteady φ) (steadyCont fitOf minGens steadyGens) (steadyCont fitOf minGens steadyGens) := by
  refine ⟨fun s n pop => rfl, fun s n pop => rfl, fun s n pop => ?_, fun s n pop => ?_⟩
  · simp only [fitCont, bestFitness_twin hφ]
    rcases bestFitness fitOf pop with e | b
    · rfl
    · simp only [Except.map, hφ.le_iff_le]
      rfl
  · simp only [steadyCont, bestFitness_twin hφ]
    rcases bestFitness fitOf pop with e | b
    · rfl
    · rcases s with ⟨g, st, last, best⟩
      simp only [Except.map, regradeSteady]
      cases st
      · by_cases h : g + 1 > minGens <;> simp [h, regradeSteady]
      · rcases best with _ | best
        · rfl
        · rcases last with _ | last
          · rfl
          · simp only [Option.map_some, if_true, hφ.lt_iff_lt]
            by_cases h : best < b
            · simp [h, regradeSteady]
            · by_cases h' : g + 1 - last > steadyGens <;> simp [h, h', regradeSteady]

end Components

/-! ### Breeding with tournaments and operators on genomes -/

/-- Operators which look at the genomes only. -/
def onGenome (o : Nat → G → Bool × G) : Breed.MonOp (Ind G F) := fun k x => ((o k x.genome).1, { x with genome := (o k x.genome).2 })
def onGenomes (o : Nat → G → G → Bool × G × G) : Breed.QuadOp (Ind G F) := fun k x y =>
  ((o k x.genome y.genome).1, { x with genome := (o k x.genome y.genome).2.1 }, { y with genome := (o k x.genome y.genome).2.2 })

/-- `eoSelectTransform` (eo/src/eoBreed.h:60-80) of as many selections as there are parents and `eoSGATransform`; `pick g i pop` is the
position selection number `i` of generation `g` gives. -/
def tournamentBreed [Inhabited F] (pick : Nat → Nat → List (Ind G F) → Except Err (Nat × Nat)) (u : Nat → Nat → ℚ)
    (cross : Nat → G → G → Bool × G × G) (pCross : ℚ) (mutn : Nat → G → Bool × G) (pMut : ℚ) (g : Nat) (pop : List (Ind G F)) :
    Except Err (List (Ind G F)) :=
  match selectPerc 1 pop.length (fun i => match pick g i pop with
    | .error e => .error e
    | .ok (j, _) => match pop[j]? with
      | none => .error .ub
      | some x => .ok x) with
  | .error e => .error e
  | .ok off => .ok (Breed.sgaTransform (u g) (onGenomes cross) pCross (onGenome mutn) pMut off)

theorem mapM_twin (φ : F → F') (γ : G → G') {s : Nat → Except Err (Ind G F)} {s' : Nat → Except Err (Ind G' F')}
    (h : ∀ i, s' i = (s i).map (regradeInd φ γ)) : ∀ l : List Nat, l.mapM s' = (l.mapM s).map (List.map (regradeInd φ γ)) := by
  intro l
  induction l with
  | nil => rfl
  | cons a l ih =>
    simp only [List.mapM_cons, h, ih]
    rcases s a with e | x
    · rfl
    · rcases l.mapM s with e | y <;> rfl

theorem sgaCross_twin [Inhabited F] [Inhabited F'] (φ : F → F') (γ : G → G') (u : Nat → ℚ) (p : ℚ)
    {o : Nat → G → G → Bool × G × G} {o' : Nat → G' → G' → Bool × G' × G'}
    (ho : ∀ k x y, o' k (γ x) (γ y) = ((o k x y).1, γ (o k x y).2.1, γ (o k x y).2.2)) :
    ∀ (n : Nat) {l : List (Ind G F)} {l' : List (Ind G' F')}, l.length ≤ n → List.Forall₂ (Twin φ γ) l l' → ∀ k,
    List.Forall₂ (Twin φ γ) (Breed.sgaCross u p (Breed.invQuad (onGenomes o)) l k).1
        (Breed.sgaCross u p (Breed.invQuad (onGenomes o')) l' k).1 ∧
      (Breed.sgaCross u p (Breed.invQuad (onGenomes (F := F) o)) l k).2 =
        (Breed.sgaCross u p (Breed.invQuad (onGenomes (F := F') o')) l' k).2 := by
  intro n
  induction n with
  | zero =>
    intro l l' hl h k
    cases h with
    | nil => exact ⟨.nil, rfl⟩
    | cons => simp at hl
  | succ n ih =>
    intro l l' hl h k
    rcases h with _ | ⟨h1, _ | ⟨h2, h3⟩⟩
    · exact ⟨.nil, rfl⟩
    · exact ⟨.cons h1 .nil, rfl⟩
    · have hn := ih (by simp only [List.length_cons] at hl; omega) h3
      simp only [Breed.sgaCross]
      split_ifs
      · refine ⟨?_, (hn _).2⟩
        obtain ⟨a1, a2, a3⟩ := h1
        obtain ⟨b1, b2, b3⟩ := h2
        rename_i x x' y y' _ _ _
        rcases hb : (o (k + 1) x.genome y.genome).1 with _ | _
        · simp only [Breed.invQuad, onGenomes, a1, b1, ho, hb, Bool.false_eq_true, if_false]
          exact .cons ⟨rfl, a2, a3⟩ (.cons ⟨rfl, b2, b3⟩ (hn _).1)
        · simp only [Breed.invQuad, onGenomes, a1, b1, ho, hb, if_true]
          exact .cons ⟨rfl, rfl, fun h => by simp [Ind.invalidate] at h⟩
            (.cons ⟨rfl, rfl, fun h => by simp [Ind.invalidate] at h⟩ (hn _).1)
      · exact ⟨.cons h1 (.cons h2 (hn _).1), (hn _).2⟩

theorem sgaMutate_twin [Inhabited F] [Inhabited F'] (φ : F → F') (γ : G → G') (u : Nat → ℚ) (p : ℚ)
    {o : Nat → G → Bool × G} {o' : Nat → G' → Bool × G'} (ho : ∀ k x, o' k (γ x) = ((o k x).1, γ (o k x).2))
    {l : List (Ind G F)} {l' : List (Ind G' F')} (h : List.Forall₂ (Twin φ γ) l l') : ∀ k,
    List.Forall₂ (Twin φ γ) (Breed.sgaMutate u p (Breed.invMon (onGenome o)) l k)
      (Breed.sgaMutate u p (Breed.invMon (onGenome o')) l' k) := by
  induction h with
  | nil => intro k; exact .nil
  | @cons x x' l l' h1 _ ih =>
    intro k
    simp only [Breed.sgaMutate]
    split_ifs
    · obtain ⟨a1, a2, a3⟩ := h1
      rcases hb : (o (k + 1) x.genome).1 with _ | _
      · simp only [Breed.invMon, onGenome, a1, ho, hb, Bool.false_eq_true, if_false]
        exact .cons ⟨rfl, a2, a3⟩ (ih _)
      · simp only [Breed.invMon, onGenome, a1, ho, hb, if_true]
        exact .cons ⟨rfl, rfl, fun h => by simp [Ind.invalidate] at h⟩ (ih _)
    · exact .cons h1 (ih _)

/-- **C392**: breeding by deterministic or stochastic tournaments with crossover and mutation of genomes does the same if the operators do, whatever
the default values of the two fitness types. -/
theorem C392_breeding [LinearOrder F] [LinearOrder F'] [Inhabited F] [Inhabited F'] {φ : F → F'} {γ : G → G'} (hφ : StrictMono φ) (n : Nat)
    (r : Nat → Nat → Nat → Nat) (flip : Nat → Nat → Nat → Bool) (u : Nat → Nat → ℚ) (pCross pMut : ℚ)
    {cross : Nat → G → G → Bool × G × G} {cross' : Nat → G' → G' → Bool × G' × G'}
    (hcr : ∀ k x y, cross' k (γ x) (γ y) = ((cross k x y).1, γ (cross k x y).2.1, γ (cross k x y).2.2))
    {mutn : Nat → G → Bool × G} {mutn' : Nat → G' → Bool × G'} (hmu : ∀ k x, mutn' k (γ x) = ((mutn k x).1, γ (mutn k x).2)) :
    SameBreed φ γ (tournamentBreed (fun g i p => detTournament fitOf n (r g i) p 0) u cross pCross mutn pMut)
      (tournamentBreed (fun g i p => detTournament fitOf n (r g i) p 0) u cross' pCross mutn' pMut) ∧
    SameBreed φ γ (tournamentBreed (fun g i p => stochTournament fitOf (r g i) (flip g i) p 0) u cross pCross mutn pMut)
      (tournamentBreed (fun g i p => stochTournament fitOf (r g i) (flip g i) p 0) u cross' pCross mutn' pMut) := by
  have key : ∀ (pick : Nat → Nat → List (Ind G F) → Except Err (Nat × Nat)) (pick' : Nat → Nat → List (Ind G' F') → Except Err (Nat × Nat)),
      (∀ g i p, pick' g i (p.map (regradeInd φ γ)) = pick g i p) →
      SameBreed φ γ (tournamentBreed pick u cross pCross mutn pMut) (tournamentBreed pick' u cross' pCross mutn' pMut) := by
    intro pick pick' hp g pop
    have hm := mapM_twin φ γ (s := fun i => match pick g i pop with
      | .error e => .error e
      | .ok (j, _) => match pop[j]? with
        | none => .error .ub
        | some x => .ok x) (s' := fun i => match pick' g i (pop.map (regradeInd φ γ)) with
      | .error e => .error e
      | .ok (j, _) => match (pop.map (regradeInd φ γ))[j]? with
        | none => .error .ub
        | some x => .ok x) (fun i => by
          simp only [hp, List.getElem?_map]
          rcases pick g i pop with e | ⟨j, _⟩
          · rfl
          · dsimp only
            rcases pop[j]? with _ | x <;> rfl) (List.range ⌊(1 : ℚ) * (pop.length : ℚ)⌋.toNat)
    unfold tournamentBreed selectPerc
    rw [List.length_map, hm]
    rcases List.mapM _ _ with e | off
    · exact .inl ⟨e, rfl, rfl⟩
    · refine .inr ⟨_, _, rfl, rfl, ?_⟩
      have hc := sgaCross_twin φ γ (u g) pCross hcr off.length le_rfl (twin_regrade φ γ off) 0
      unfold Breed.sgaTransform
      rw [← hc.2]
      exact sgaMutate_twin φ γ (u g) pMut hmu hc.1 _
  exact ⟨key _ _ fun g i p => detTournament_twin hφ n (r g i) p 0, key _ _ fun g i p => stochTournament_twin hφ (r g i) (flip g i) p 0⟩

/-! ### An instance -/

/-- Bit strings with the number of ones, tournaments of two, one crossover and one mutation, plus replacement with weak elitism, stopping
at a target. -/
def demoEA (f : List Bool → ℚ) (target : ℚ) : EA (List Bool) ℚ Unit where
  f := f
  breed := tournamentBreed (fun g i p => detTournament fitOf 2 (fun _ => g + i) p 0) (fun _ k => if k % 2 = 0 then 0 else 1)
    (fun _ x y => (true, x.take 1 ++ y.drop 1, y.take 1 ++ x.drop 1)) (1 / 2) (fun _ x => (true, x.map not)) (1 / 2)
  replace _ := weakElitist fitOf (plusReplacement (List.insertionSort fun x y => fitOf y ≤ fitOf x))
  cont := fitCont fitOf target

theorem demoEA_same (f : List Bool → ℚ) (target : ℚ) (fuel : Nat) (pop : List (Ind (List Bool) ℚ)) :
    (demoEA (fun x => 2 * f x + 1) (2 * target + 1)).run fuel (pop.map (regradeInd (fun q => 2 * q + 1) id)) 0 () =
      ((demoEA f target).run fuel pop 0 ()).map (regradeSt (fun q => 2 * q + 1) id id) := by
  have hφ : StrictMono fun q : ℚ => 2 * q + 1 := fun a b h => by simp only; linarith
  refine C392_run (fun q : ℚ => 2 * q + 1) id id (demoEA f target) _ (fun _ => rfl) ?_ (fun g => ?_) ?_ (twin_regrade _ _ pop) fuel 0 ()
  · exact (C392_breeding hφ 2 (fun g i _ => g + i) (fun _ _ _ => true) _ _ _ (fun _ _ _ => rfl) (fun _ _ => rfl)).1
  · refine (C392_replacements hφ 2 (fun k => k) 0 (fun _ => true) (fun l => ?_) (fun _ l => l) (fun _ l => l) _ _
      (.inr (.inl ⟨rfl, rfl⟩))).2
    exact (List.map_insertionSort _ _ _ _ fun a _ b _ => (hφ.le_iff_le (a := b.repFitness) (b := a.repFitness)).symm).symm
  · exact (C392_continuators hφ 0 0 0 target).2.2.1

/-- It does end, with the target reached. -/
example : (match (demoEA (fun x => (x.count true : ℚ)) 3).run 5
    [⟨[true, false, false], 0, true⟩, ⟨[false, true, true], 0, true⟩] 0 () with
    | .ok s => decide (0 < s.gens ∧ s.pop.any fun x => decide (x.repFitness = 3))
    | .error _ => false) = true := by decide +kernel

end Paradiseo.Run
