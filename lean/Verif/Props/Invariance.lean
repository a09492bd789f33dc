/-
Property C390: what only compares fitnesses does not change when they are transformed by an increasing function.
-/
import Verif.Props.LocalSearch
import Verif.Props.EOReplacement
import Verif.Props.EOSelect
import Verif.Model.LSParts
import Verif.Model.AlgoCtors
import Mathlib.Tactic.NormNum

namespace Paradiseo.LS

variable {S M F F' K : Type}

/-- A neighbour, a solution and the members of a climber with transformed fitness. -/
def mapCand (φ : F → F') (c : Cand M F) : Cand M F' := ⟨c.mv, φ c.fit⟩
def mapSol (φ : F → F') (s : S × F) : S × F' := (s.1, φ s.2)
def mapHC (φ : F → F') (e : HC M F) : HC M F' := ⟨e.selected.map (mapCand φ), e.best.map (mapCand φ), e.isAccept, e.step⟩

/-- The services of two explorers agree up to the transformation. -/
structure Agree {E E' : Type} (φ : F → F') (μ : E → E') (ex : Explorer (S × F) E) (ex' : Explorer (S × F') E') : Prop where
  initParam : ∀ s e, ex'.initParam (mapSol φ s) (μ e) = μ (ex.initParam s e)
  step : ∀ t s e, lsStep ex' t (mapSol φ s) (μ e) =
    (mapSol φ (lsStep ex t s e).1, μ (lsStep ex t s e).2.1, (lsStep ex t s e).2.2)
  isContinue : ∀ s e, ex'.isContinue (mapSol φ s) (μ e) = ex.isContinue s e
  terminate : ∀ s e, ex'.terminate (mapSol φ s) (μ e) = mapSol φ (ex.terminate s e)

theorem lsLoop_agree {E E' : Type} {φ : F → F'} {μ : E → E'} {ex : Explorer (S × F) E} {ex' : Explorer (S × F') E'} (h : Agree φ μ ex ex')
    {cont : K → S × F → Bool × K} {cont' : K → S × F' → Bool × K} (hc : ∀ k s, cont' k (mapSol φ s) = cont k s) :
    ∀ (fuel t : Nat) (s : S × F) (e : E) (k : K), lsLoop ex' cont' fuel t (mapSol φ s) (μ e) k =
      (lsLoop ex cont fuel t s e k).map fun p => (p.1.map (Prod.map (mapSol φ) μ), p.2) := by
  intro fuel
  induction fuel with
  | zero => intro t s e k; rfl
  | succ fuel ih =>
    intro t s e k
    simp only [lsLoop, h.step, hc, h.isContinue]
    split_ifs
    · rw [ih, Option.map_map, Option.map_map]
      rfl
    · rfl

theorem localSearch_agree {E E' : Type} {φ : F → F'} {μ : E → E'} {ex : Explorer (S × F) E} {ex' : Explorer (S × F') E'} (h : Agree φ μ ex ex')
    {cont : K → S × F → Bool × K} {cont' : K → S × F' → Bool × K} (hc : ∀ k s, cont' k (mapSol φ s) = cont k s)
    {cinit : S × F → K} {cinit' : S × F' → K} (hi : ∀ s, cinit' (mapSol φ s) = cinit s) (f : S → F) (fuel : Nat) (x : S)
    (fit : Option F) (e : E) :
    localSearch (fun x => φ (f x)) ex' cont' cinit' fuel x (fit.map φ) (μ e) =
      (localSearch f ex cont cinit fuel x fit e).map fun p =>
        (mapSol φ p.1, p.2.1.map (Prod.map (mapSol φ) μ), p.2.2) := by
  have hs : (x, (fit.map φ).getD (φ (f x))) = mapSol φ (x, fit.getD (f x)) := by cases fit <;> rfl
  simp only [localSearch, hs, h.initParam, hi, lsLoop_agree h hc, Option.map_map]
  congr 1
  funext p
  simp only [Function.comp]
  have : (List.map (Prod.map (mapSol φ) μ) p.1).getLastD
      (mapSol φ (x, fit.getD (f x)), μ (ex.initParam (x, fit.getD (f x)) e)) =
      Prod.map (mapSol φ) μ (p.1.getLastD ((x, fit.getD (f x)), ex.initParam (x, fit.getD (f x)) e)) := by
    rw [List.getLastD_eq_getLast?, List.getLastD_eq_getLast?, List.getLast?_map]
    cases p.1.getLast? <;> rfl
  rw [this]
  simp only [Prod.map, h.terminate]

section
variable [LinearOrder F] [LinearOrder F'] {φ : F → F'} (hφ : StrictMono φ)
include hφ

theorem simpleSelect_map (c : Cand M F) (l : List (Cand M F)) :
    simpleSelect (mapCand φ c) (l.map (mapCand φ)) = mapCand φ (simpleSelect c l) := by
  induction l generalizing c with
  | nil => rfl
  | cons d l ih =>
    simp only [List.map_cons, simpleSelect]
    rw [← ih]
    congr 1
    simp only [mapCand, hφ.lt_iff_lt]
    split_ifs <;> rfl

theorem firstSelect_map (v : F) (c : Cand M F) (l : List (Cand M F)) :
    firstSelect (φ v) (mapCand φ c) (l.map (mapCand φ)) = mapCand φ (firstSelect v c l) := by
  induction l generalizing c with
  | nil => rfl
  | cons d l ih =>
    simp only [List.map_cons, firstSelect]
    rw [ih]
    simp only [mapCand, hφ.lt_iff_lt]
    split_ifs <;> rfl

theorem bestPush_map (v : List (Cand M F)) (d : Cand M F) :
    bestPush (v.map (mapCand φ)) (mapCand φ d) = (bestPush v d).map (mapCand φ) := by
  cases v with
  | nil => rfl
  | cons b v =>
    simp only [List.map_cons, bestPush]
    simp only [mapCand, hφ.lt_iff_lt, hφ.injective.eq_iff]
    split_ifs <;> simp [mapCand]

theorem foldl_bestPush_map (l v : List (Cand M F)) :
    (l.map (mapCand φ)).foldl bestPush (v.map (mapCand φ)) = (l.foldl bestPush v).map (mapCand φ) := by
  induction l generalizing v with
  | nil => rfl
  | cons d l ih => simp only [List.map_cons, List.foldl_cons, bestPush_map hφ, ih]

variable {nb : Nat → S × F → List (Cand M F)} {nb' : Nat → S × F' → List (Cand M F')}
  (hnb : ∀ t s, nb' t (mapSol φ s) = (nb t s).map (mapCand φ)) (app : M → S → S)
include hnb

theorem moveSel_map (s : S × F) (c : Option (Cand M F)) :
    moveSel app (mapSol φ s) (c.map (mapCand φ)) = mapSol φ (moveSel app s c) := by
  cases c <;> rfl

theorem simpleHC_agree : Agree φ (mapHC φ) (simpleHC nb app) (simpleHC nb' app) := by
  refine ⟨fun _ _ => rfl, ?_, fun _ _ => rfl, fun _ _ => rfl⟩
  intro t s e
  have h' := hnb t s
  cases h : nb t s with
  | nil =>
    rw [h, List.map_nil] at h'
    simp [lsStep, simpleHC, h, h', mapHC]
  | cons c l =>
    rw [h, List.map_cons] at h'
    simp only [lsStep, simpleHC, h, h', simpleSelect_map hφ]
    have : (mapSol φ s).2 < (mapCand φ (simpleSelect c l)).fit ↔ s.2 < (simpleSelect c l).fit := hφ.lt_iff_lt
    simp only [this]
    by_cases hlt : s.2 < (simpleSelect c l).fit <;> simp [hlt, mapHC, moveSel, mapSol, mapCand]

theorem firstHC_agree (always : Bool) : Agree φ (mapHC φ) (firstHC always nb app) (firstHC always nb' app) := by
  refine ⟨fun _ _ => rfl, ?_, fun _ _ => rfl, fun _ _ => rfl⟩
  intro t s e
  have h' := hnb t s
  cases h : nb t s with
  | nil =>
    rw [h, List.map_nil] at h'
    simp [lsStep, firstHC, h, h', mapHC]
  | cons c l =>
    have e1 : firstSelect (mapSol φ s).2 (mapCand φ c) (l.map (mapCand φ)) = mapCand φ (firstSelect s.2 c l) :=
      firstSelect_map hφ s.2 c l
    rw [h, List.map_cons] at h'
    simp only [lsStep, firstHC, h, h', e1]
    have : (mapSol φ s).2 < (mapCand φ (firstSelect s.2 c l)).fit ↔ s.2 < (firstSelect s.2 c l).fit := hφ.lt_iff_lt
    simp only [this]
    by_cases hlt : s.2 < (firstSelect s.2 c l).fit <;> simp [hlt, mapHC, moveSel, mapSol, mapCand]

theorem bestExplore_map (r : Nat → Nat) (t : Nat) (s : S × F) (e : HC M F) :
    bestExplore r nb' t (mapSol φ s) (mapHC φ e) =
      (mapSol φ (bestExplore r nb t s e).1, mapHC φ (bestExplore r nb t s e).2) := by
  unfold bestExplore
  rw [hnb]
  cases nb t s with
  | nil => rfl
  | cons c l =>
    have e1 : (mapHC φ e).best ++ [mapCand φ c] = (e.best ++ [c]).map (mapCand φ) := by simp [mapHC]
    simp only [List.map_cons, e1, foldl_bestPush_map hφ, List.length_map, List.getElem?_map]
    rfl

theorem randomBestHC_agree (r : Nat → Nat) : Agree φ (mapHC φ) (randomBestHC r nb app) (randomBestHC r nb' app) := by
  refine ⟨fun _ _ => rfl, ?_, fun _ _ => rfl, fun _ _ => rfl⟩
  intro t s e
  obtain ⟨s1, e1, hq⟩ : ∃ s1 e1, bestExplore r nb t s e = (s1, e1) := ⟨_, _, rfl⟩
  have hq' := bestExplore_map hφ hnb r t s e
  rw [hq] at hq'
  have h' := hnb t s1
  cases h : nb t s1 with
  | nil =>
    rw [h, List.map_nil] at h'
    simp only [lsStep, randomBestHC, hq, hq', h, h']
    cases ha : e1.isAccept <;> simp [mapHC, ha, moveSel_map hφ hnb]
  | cons c l =>
    rw [h, List.map_cons] at h'
    cases hb : e1.best with
    | nil =>
      have e2 : (mapHC φ e1).best = [] := by simp [mapHC, hb]
      simp only [lsStep, randomBestHC, hq, hq', h, h', e2, hb]
      cases ha : e1.isAccept <;> simp [mapHC, ha, moveSel_map hφ hnb]
    | cons b bs =>
      have e2 : (mapHC φ e1).best = mapCand φ b :: bs.map (mapCand φ) := by simp [mapHC, hb]
      have h1 : (mapSol φ s1).2 < (mapCand φ b).fit ↔ s1.2 < b.fit := hφ.lt_iff_lt
      simp only [lsStep, randomBestHC, hq, hq', h, h', e2, hb, h1]
      by_cases hlt : s1.2 < b.fit <;> simp [hlt, mapHC, moveSel_map hφ hnb]

theorem neutralHC_agree (n : Nat) (r : Nat → Nat) : Agree φ (mapHC φ) (neutralHC n r nb app) (neutralHC n r nb' app) := by
  refine ⟨fun _ _ => rfl, ?_, fun _ _ => rfl, fun _ _ => rfl⟩
  intro t s e
  obtain ⟨s1, e1, hq⟩ : ∃ s1 e1, bestExplore r nb t s e = (s1, e1) := ⟨_, _, rfl⟩
  have hq' := bestExplore_map hφ hnb r t s e
  rw [hq] at hq'
  have h' := hnb t s1
  cases h : nb t s1 with
  | nil =>
    rw [h, List.map_nil] at h'
    simp only [lsStep, neutralHC, hq, hq', h, h']
    cases ha : e1.isAccept <;> simp [mapHC, ha, moveSel_map hφ hnb]
  | cons c l =>
    rw [h, List.map_cons] at h'
    cases hb : e1.best with
    | nil =>
      have e2 : (mapHC φ e1).best = [] := by simp [mapHC, hb]
      simp only [lsStep, neutralHC, hq, hq', h, h', e2, hb]
      cases ha : e1.isAccept <;> simp [mapHC, ha, moveSel_map hφ hnb]
    | cons b bs =>
      have e2 : (mapHC φ e1).best = mapCand φ b :: bs.map (mapCand φ) := by simp [mapHC, hb]
      have h1 : (mapSol φ s1).2 < (mapCand φ b).fit ↔ s1.2 < b.fit := hφ.lt_iff_lt
      have h2 : (mapSol φ s1).2 = (mapCand φ b).fit ↔ s1.2 = b.fit := hφ.injective.eq_iff
      simp only [lsStep, neutralHC, hq, hq', h, h', e2, hb, h1, h2]
      by_cases hlt : s1.2 < b.fit <;> by_cases heq : s1.2 = b.fit <;> simp [hlt, heq, mapHC, moveSel_map hφ hnb]

/-- C390: the hill climbers and the neutral hill climber visit the same solutions, in as many iterations, when the fitness and
the evaluation of the neighbours are transformed by an increasing function. -/
theorem C390_climbers (r : Nat → Nat) (n : Nat) (ex : Explorer (S × F) (HC M F)) (ex' : Explorer (S × F') (HC M F'))
    (hex : (ex = simpleHC nb app ∧ ex' = simpleHC nb' app) ∨ (∃ b, ex = firstHC b nb app ∧ ex' = firstHC b nb' app) ∨
      (ex = randomBestHC r nb app ∧ ex' = randomBestHC r nb' app) ∨ (ex = neutralHC n r nb app ∧ ex' = neutralHC n r nb' app))
    (f : S → F) (cont : K → S → Bool × K) (cinit : S → K) (fuel : Nat) (x : S) (e : HC M F) :
    (localSearch (fun x => φ (f x)) ex' (fun k s => cont k s.1) (fun s => cinit s.1) fuel x none (mapHC φ e)).map
        (fun p => (p.1, p.2.1.map fun q => q.1.1, p.2.2)) =
      (localSearch f ex (fun k s => cont k s.1) (fun s => cinit s.1) fuel x none e).map
        (fun p => ((p.1.1, φ p.1.2), p.2.1.map fun q => q.1.1, p.2.2)) := by
  have h : Agree φ (mapHC φ) ex ex' := by
    rcases hex with ⟨rfl, rfl⟩ | ⟨b, rfl, rfl⟩ | ⟨rfl, rfl⟩ | ⟨rfl, rfl⟩
    · exact simpleHC_agree hφ hnb app
    · exact firstHC_agree hφ hnb app b
    · exact randomBestHC_agree hφ hnb app r
    · exact neutralHC_agree hφ hnb app n r
  have := localSearch_agree h (cont := fun k s => cont k s.1) (cont' := fun k s => cont k s.1) (fun _ _ => rfl)
    (cinit := fun s => cinit s.1) (cinit' := fun s => cinit s.1) (fun _ => rfl) f fuel x none e
  rw [Option.map_none] at this
  rw [this, Option.map_map]
  congr 1
  funext p
  simp only [Function.comp, List.map_map]
  rfl

/-- The members of a tabu search with transformed fitness. -/
def mapTS {W : Type} (φ : F → F') (e : TS (S × F) (Cand M F) (W × (S × F))) : TS (S × F') (Cand M F') (W × (S × F')) :=
  ⟨(e.mem.1, mapSol φ e.mem.2), mapSol φ e.bestSoFar, e.selected.map (mapCand φ), e.isAccept⟩

omit hnb in
theorem firstAllowed_map {C C' : Type} (g : C → C') (ok : C → Bool) (ok' : C' → Bool) (h : ∀ c, ok' (g c) = ok c) (l : List C) :
    firstAllowed ok' (l.map g) = (firstAllowed ok l).map fun p => (g p.1, p.2.map g) := by
  induction l with
  | nil => rfl
  | cons c l ih =>
    simp only [List.map_cons, firstAllowed, h]
    split_ifs
    · rfl
    · exact ih

omit hnb in
theorem bestAllowed_map (ok : Cand M F → Bool) (ok' : Cand M F' → Bool) (h : ∀ c, ok' (mapCand φ c) = ok c) (c : Cand M F)
    (l : List (Cand M F)) : bestAllowed ok' (mapCand φ c) (l.map (mapCand φ)) = mapCand φ (bestAllowed ok c l) := by
  induction l generalizing c with
  | nil => rfl
  | cons d l ih =>
    simp only [List.map_cons, bestAllowed]
    rw [← ih]
    congr 1
    have : (mapCand φ c).fit < (mapCand φ d).fit ↔ c.fit < d.fit := hφ.lt_iff_lt
    simp only [h, this]
    split_ifs <;> rfl

theorem tsSize_agree (eqv : M → M → Bool) (size : Nat) :
    Agree φ (mapTS φ) (tsSize eqv size nb app) (tsSize eqv size nb' app) := by
  refine ⟨fun _ _ => rfl, ?_, fun _ _ => rfl, fun _ _ => rfl⟩
  intro t s e
  obtain ⟨⟨w, bs⟩, best, sel, acc⟩ := e
  have hok : ∀ c, (fun c => !(tsMem (F := F') eqv size).check (w, mapSol φ bs) (mapSol φ s) c ||
        (tsMem eqv size).aspir (w, mapSol φ bs) (mapSol φ s) c) (mapCand φ c) =
      (fun c => !(tsMem (F := F) eqv size).check (w, bs) s c || (tsMem eqv size).aspir (w, bs) s c) c := by
    intro c
    have : (mapSol φ bs).2 < (mapCand φ c).fit ↔ bs.2 < c.fit := hφ.lt_iff_lt
    simp only [tsMem, aspirMem, this]
    rfl
  have hsel : tsSelect (fun c => !(tsMem (F := F') eqv size).check (w, mapSol φ bs) (mapSol φ s) c ||
        (tsMem eqv size).aspir (w, mapSol φ bs) (mapSol φ s) c) (nb' t (mapSol φ s)) =
      (tsSelect (fun c => !(tsMem (F := F) eqv size).check (w, bs) s c || (tsMem eqv size).aspir (w, bs) s c) (nb t s)).map
        (mapCand φ) := by
    rw [hnb]
    unfold tsSelect
    rw [firstAllowed_map hφ (mapCand φ) _ _ hok]
    cases firstAllowed (fun c => !(tsMem (F := F) eqv size).check (w, bs) s c || (tsMem eqv size).aspir (w, bs) s c) (nb t s) with
    | none => rfl
    | some p => simp only [Option.map_some]; rw [bestAllowed_map hφ _ _ hok]
  have hint : ∀ (v : Option (Ring M) × (S × F)) (s : S × F), (tsMem (M := M) eqv size).diversify v ((tsMem (M := M) eqv size).intensify v s) = s :=
    fun _ _ => rfl
  have hint' : ∀ (v : Option (Ring M) × (S × F')) (s : S × F'), (tsMem (M := M) eqv size).diversify v ((tsMem (M := M) eqv size).intensify v s) = s :=
    fun _ _ => rfl
  simp only [tsSize, lsStep, tabuSearch, mapTS, hint, hint', hsel]
  cases tsSelect (fun c => !(tsMem (F := F) eqv size).check (w, bs) s c || (tsMem eqv size).aspir (w, bs) s c) (nb t s) with
  | none =>
    have : (mapSol φ bs).2 < (mapSol φ s).2 ↔ bs.2 < s.2 := hφ.lt_iff_lt
    simp only [Option.map_none, Bool.false_eq_true, if_false, tsMem, aspirMem, this]
    split_ifs <;> simp
  | some c =>
    have h1 : (mapSol φ bs).2 < (mapCand φ c).fit ↔ bs.2 < c.fit := hφ.lt_iff_lt
    have h2 : (mapSol φ best).2 < (mapCand φ c).fit ↔ best.2 < c.fit := hφ.lt_iff_lt
    simp only [Option.map_some, if_true, tsMem, aspirMem, moveSel, h1, h2]
    refine Prod.ext rfl (Prod.ext ?_ rfl)
    split_ifs <;> rfl

/-- C390: so does the tabu search of the constructor with a size. -/
theorem C390_tabu (eqv : M → M → Bool) (size : Nat) (f : S → F) (cont : K → S → Bool × K) (cinit : S → K) (fuel : Nat) (x : S)
    (e : TS (S × F) (Cand M F) (Option (Ring M) × (S × F))) :
    (localSearch (fun x => φ (f x)) (tsSize eqv size nb' app) (fun k s => cont k s.1) (fun s => cinit s.1) fuel x none
        (mapTS φ e)).map (fun p => (p.1, p.2.1.map fun q => q.1.1, p.2.2)) =
      (localSearch f (tsSize eqv size nb app) (fun k s => cont k s.1) (fun s => cinit s.1) fuel x none e).map
        (fun p => ((p.1.1, φ p.1.2), p.2.1.map fun q => q.1.1, p.2.2)) := by
  have := localSearch_agree (tsSize_agree hφ hnb app eqv size) (cont := fun k s => cont k s.1) (cont' := fun k s => cont k s.1)
    (fun _ _ => rfl) (cinit := fun s => cinit s.1) (cinit' := fun s => cinit s.1) (fun _ => rfl) f fuel x none e
  rw [Option.map_none] at this
  rw [this, Option.map_map]
  congr 1
  funext p
  simp only [Function.comp, List.map_map]
  rfl

end

/-- C390: Metropolis acceptance does depend on the scale: doubling plus one changes an answer. -/
theorem C390_not_metropolis : metropolisAccept (2 : ℚ) 1 (11 / 20) = false ∧
    metropolisAccept (2 * 2 + 1 : ℚ) (2 * 1 + 1) (11 / 20) = true := by
  constructor <;> norm_num [metropolisAccept]

end Paradiseo.LS

namespace Paradiseo.EO
open Paradiseo.Sel

variable {α F F' : Type} [LinearOrder F] [LinearOrder F'] {φ : F → F'} (hφ : StrictMono φ) (f : α → F)
include hφ

theorem ltAt_map : ltAt (fun a => φ (f a)) = ltAt f := by
  funext pop i j
  simp only [ltAt]
  cases pop[i]? <;> cases pop[j]? <;> simp [hφ.lt_iff_lt]

theorem minElemAux_map (l : List α) (i b : Nat) (v : F) : minElemAux (fun a => φ (f a)) l i b (φ v) = minElemAux f l i b v := by
  induction l generalizing i b v with
  | nil => rfl
  | cons x l ih => simp only [minElemAux, hφ.lt_iff_lt, ih]

theorem maxElemAux_map (l : List α) (i b : Nat) (v : F) : maxElemAux (fun a => φ (f a)) l i b (φ v) = maxElemAux f l i b v := by
  induction l generalizing i b v with
  | nil => rfl
  | cons x l ih => simp only [maxElemAux, hφ.lt_iff_lt, ih]

theorem worseElement_map : worseElement (fun a => φ (f a)) = worseElement f := by
  funext l
  cases l with
  | nil => rfl
  | cons x l => simp only [worseElement, minElemAux_map hφ]

theorem itBestElement_map : itBestElement (fun a => φ (f a)) = itBestElement f := by
  funext l
  cases l with
  | nil => rfl
  | cons x l => simp only [itBestElement, maxElemAux_map hφ]

theorem bestElement_map : bestElement (fun a => φ (f a)) = bestElement f := by
  funext l
  cases l with
  | nil => rfl
  | cons x l => simp only [bestElement, maxElemAux_map hφ]

theorem pickWorse_map : pickWorse (fun a => φ (f a)) = pickWorse f := by
  funext pop t
  simp only [pickWorse, worseElement_map hφ]

theorem detLoop_map (pop : List α) (r : Nat → Nat) (k b t : Nat) :
    detLoop (fun a => φ (f a)) pop r k b t = detLoop f pop r k b t := by
  induction k generalizing b t with
  | zero => rfl
  | succ k ih => simp only [detLoop, ltAt_map hφ, ih]

theorem invLoop_map (pop : List α) (r : Nat → Nat) (fuel k b t : Nat) :
    invLoop (fun a => φ (f a)) pop r fuel k b t = invLoop f pop r fuel k b t := by
  induction fuel generalizing k b t with
  | zero => cases k <;> rfl
  | succ fuel ih => cases k with
    | zero => rfl
    | succ k => simp only [invLoop, ltAt_map hφ, ih]

theorem detTournament_map : detTournament (fun a => φ (f a)) = detTournament f := by
  funext n r pop t
  simp only [detTournament, detLoop_map hφ]

theorem invDetTournament_map : invDetTournament (fun a => φ (f a)) = invDetTournament f := by
  funext n r fuel pop t
  simp only [invDetTournament, invLoop_map hφ]

theorem stochTournament_map : stochTournament (fun a => φ (f a)) = stochTournament f := by
  funext r flip pop t
  simp only [stochTournament, ltAt_map hφ]

theorem invStochTournament_map : invStochTournament (fun a => φ (f a)) = invStochTournament f := by
  funext r flip pop t
  simp only [invStochTournament, ltAt_map hφ]

theorem linearSplit_map : linearSplit (fun a => φ (f a)) = linearSplit f := by
  funext h ret pop elim
  simp only [linearSplit, pickWorse_map hφ]

theorem epScore_mono (pop : List α) (r : Nat → Nat) (v : F) (k t : Nat) :
    epScore (fun a => φ (f a)) pop r (φ v) k t = epScore f pop r v k t := by
  induction k generalizing t with
  | zero => rfl
  | succ k ih => simp only [epScore, hφ.lt_iff_lt, hφ.injective.eq_iff, ih]

theorem epScores_mono (n : Nat) (r : Nat → Nat) (pop l : List α) (t : Nat) :
    epScores (fun a => φ (f a)) n r pop l t = epScores f n r pop l t := by
  induction l generalizing t with
  | nil => rfl
  | cons x l ih => simp only [epScores, epScore_mono hφ, ih]

theorem eliteScan_map (pop : List α) (l : List Nat) (i ib b : Nat) :
    eliteScan (fun a => φ (f a)) pop l i ib b = eliteScan f pop l i ib b := by
  induction l generalizing i ib b with
  | nil => rfl
  | cons p l ih => simp only [eliteScan, hφ.lt_iff_lt, ih]

theorem toSave_mono (v : F) (l : List α) : toSave (fun a => φ (f a)) (φ v) l = toSave f v l := by
  induction l with
  | nil => rfl
  | cons x l ih => cases l with
    | nil => rfl
    | cons y l => simp only [toSave, hφ.lt_iff_lt] at ih ⊢; rw [ih]

/-- C390: the selections that compare choose the same places. -/
theorem C390_selection : detTournament (fun a => φ (f a)) = detTournament f ∧
    stochTournament (fun a => φ (f a)) = stochTournament f ∧ invDetTournament (fun a => φ (f a)) = invDetTournament f ∧
    invStochTournament (fun a => φ (f a)) = invStochTournament f ∧ eliteArrange (fun a => φ (f a)) = eliteArrange f ∧
    bestElement (fun a => φ (f a)) = bestElement f ∧ worseElement (fun a => φ (f a)) = worseElement f := by
  refine ⟨detTournament_map hφ f, stochTournament_map hφ f, invDetTournament_map hφ f, invStochTournament_map hφ f, ?_,
    bestElement_map hφ f, worseElement_map hφ f⟩
  funext sh pop
  cases sh with
  | nil => rfl
  | cons p l => simp only [eliteArrange, eliteScan_map hφ]

/-- C390: the replacements that compare keep the same individuals; the sorts and partial sorts of the standard library are sorts
for both fitnesses or for none. -/
theorem C390_replacement : linearTruncate (fun a => φ (f a)) = linearTruncate f ∧ detTruncate (fun a => φ (f a)) = detTruncate f ∧
    stochTruncate (fun a => φ (f a)) = stochTruncate f ∧ weakElitist (fun a => φ (f a)) = weakElitist f ∧
    epReduce (fun a => φ (f a)) = epReduce f ∧ ssgaWorse (fun a => φ (f a)) = ssgaWorse f ∧
    ssgaDet (fun a => φ (f a)) = ssgaDet f ∧ ssgaStoch (fun a => φ (f a)) = ssgaStoch f ∧
    mggReplacement (fun a => φ (f a)) = mggReplacement f ∧ g3Replacement (fun a => φ (f a)) = g3Replacement f ∧
    reduceMergeReduce (fun a => φ (f a)) = reduceMergeReduce f ∧
    (∀ sort, IsSort (fun a => φ (f a)) sort ↔ IsSort f sort) ∧ (∀ nth, IsNth (fun a => φ (f a)) nth ↔ IsNth f nth) := by
  have a1 : linearTruncate (fun a => φ (f a)) = linearTruncate f := by
    funext pop n; simp only [linearTruncate, pickWorse_map hφ]
  have a2 : detTruncate (fun a => φ (f a)) = detTruncate f := by
    funext k r fuel pop n; simp only [detTruncate, invDetTournament_map hφ]
  have a3 : stochTruncate (fun a => φ (f a)) = stochTruncate f := by
    funext r flip pop n; simp only [stochTruncate, invStochTournament_map hφ]
  refine ⟨a1, a2, a3, ?_, ?_, ?_, ?_, ?_, ?_, ?_, ?_, ?_, ?_⟩
  · funext rep pop off; simp only [weakElitist, bestElement_map hφ, worseElement_map hφ, hφ.lt_iff_lt]
  · funext k r nth pop n; simp only [epReduce, epScores_mono hφ]
  · simp only [ssgaWorse, a1]
  · funext k r fuel; simp only [ssgaDet, a2]
  · funext r flip; simp only [ssgaStoch, a3]
  · funext h k r pop off
    simp only [mggReplacement, linearSplit_map hφ, itBestElement_map hφ, detTournament_map hφ]
  · funext nth h pop off; simp only [g3Replacement, linearSplit_map hφ]
  · funext nth sort he strong hp ho rp ro rf pop off; simp only [reduceMergeReduce, toSave_mono hφ]
  · intro sort
    constructor
    · intro h; exact ⟨h.perm, fun l => (h.sorted l).imp fun hab => hφ.le_iff_le.1 hab⟩
    · intro h; exact ⟨h.perm, fun l => (h.sorted l).imp fun hab => hφ.le_iff_le.2 hab⟩
  · intro nth
    constructor
    · intro h; exact ⟨h.perm, fun n l a ha b hb => hφ.le_iff_le.1 (h.split n l a ha b hb)⟩
    · intro h; exact ⟨h.perm, fun n l a ha b hb => hφ.le_iff_le.2 (h.split n l a ha b hb)⟩

omit hφ in
/-- C390: proportional selection does depend on the scale: with the cubes of the fitnesses it selects somebody else. -/
theorem C390_not_roulette : (propSelect [] [(1 : ℚ), 3] (1 / 5)).map Prod.fst = .ok 0 ∧
    (propSelect [] [(1 : ℚ) ^ 3, 3 ^ 3] (1 / 5)).map Prod.fst = .ok 1 := by
  constructor <;> decide +kernel

/-- An increasing transformation. -/
example : StrictMono fun q : ℚ => 2 * q + 1 := fun a b h => by simp only; linarith

end Paradiseo.EO
