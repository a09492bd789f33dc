import Verif.Model.EOReplacement
import Verif.Model.EdoEstim

/-!
# edo: the loop of the estimation of distribution algorithms, the criteria on distributions, matrices of bits

Model of edo/src/edoAlgoAdaptive.h, edoAlgoStateless.h, edoContAdaptiveIllCovar.h, edoContAdaptiveFinite.h,
edoCombinedContinue.h, edoTransform.h, edoEstimatorCombined.h, edoEstimatorAdaptiveReset.h,
edoEstimatorBinomialMulti.h, edoSamplerBinomialMulti.h.

Simplifications:
* estimators, selection, sampling, replacement and continuators are functions of the number of the
  generation (their random draws and states) and of what they are given; an adaptive estimator reads and
  writes the one distribution it shares with the algorithm;
* numbers are rationals or reals; a quotient by zero is the infinite or undefined number it is in floating
  point; asserts are enabled.
-/

namespace Paradiseo.Edo

open Paradiseo.EO

/-! ### The algorithm -/

/-- The operators of edoAlgoAdaptive (edoAlgoAdaptive.h 233-275). -/
structure Parts (D α : Type) where
  /-- `_estimator_init`, from the shared distribution and the population. -/
  estInit : D → List α → D
  /-- `_estimator`. -/
  est : D → List α → D
  select : Nat → List α → List α
  dcont : Nat → D → Bool
  /-- The `i`-th sample of a generation. -/
  sample : Nat → Nat → D → α
  eval : α → α
  replace : Nat → List α → List α → List α
  pcont : Nat → List α → Bool

/-- What a completed generation did. -/
structure Gen (D α : Type) where
  before : List α
  selected : List α
  distrib : D
  current : List α
  after : List α

/-- How a run ended: the distribution, the population, and whether it was the continuator of the
distribution that ended it. -/
structure Final (D α : Type) where
  distrib : D
  pop : List α
  byDistrib : Bool

/-- The samples of one generation, evaluated (edoAlgoAdaptive.h 215-224): as many as the population has
individuals. -/
def Parts.sampled {D α : Type} (p : Parts D α) (g : Nat) (d : D) (n : Nat) : List α :=
  (List.range n).map fun i => p.eval (p.sample g i d)

/-- The loop of edoAlgoAdaptive::operator() (edoAlgoAdaptive.h 191-229) from generation `g`, with its
completed generations. -/
def Parts.loop {D α : Type} (p : Parts D α) : Nat → Nat → D → List α →
    Except Err (List (Gen D α) × Final D α)
  | 0, _, _, _ => .error .fuel
  | fuel + 1, g, d, pop =>
    if (p.select g pop).isEmpty then .error .asserted
    else
      let d' := p.est d (p.select g pop)
      if p.dcont g d' then
        let current := p.sampled g d' pop.length
        let pop' := p.replace g pop current
        if p.pcont g pop' then
          match p.loop fuel (g + 1) d' pop' with
          | .error e => .error e
          | .ok (tr, r) => .ok (⟨pop, p.select g pop, d', current, pop'⟩ :: tr, r)
        else .ok ([⟨pop, p.select g pop, d', current, pop'⟩], ⟨d', pop', false⟩)
      else .ok ([], ⟨d', pop, true⟩)

/-- edoAlgoAdaptive::operator() (edoAlgoAdaptive.h 179-230). -/
def Parts.run {D α : Type} (p : Parts D α) (fuel : Nat) (d : D) (pop : List α) :
    Except Err (List (Gen D α) × Final D α) :=
  if pop.isEmpty then .error .asserted else p.loop fuel 0 (p.estInit d pop) pop

/-! ### Criteria on distributions -/

/-- `maxCoeff` and `minCoeff`, which need an entry. -/
noncomputable def maxCoeff : List ℝ → Option ℝ
  | [] => none
  | e :: es => some (es.foldl max e)

noncomputable def minCoeff : List ℝ → Option ℝ
  | [] => none
  | e :: es => some (es.foldl min e)

open Classical in
/-- edoContAdaptiveIllCovar::operator() (edoContAdaptiveIllCovar.h 57-102), from the success of the
decomposition and the eigenvalues found; a quotient by zero is not finite. -/
noncomputable def illCovar (threshold : ℝ) (success : Bool) (ev : List ℝ) : Except Err Bool :=
  if !success then .ok false
  else
    match maxCoeff ev, minCoeff ev with
    | some hi, some lo =>
      if lo = 0 then .ok false
      else if hi / lo ≥ threshold then .ok false
      else .ok true
    | _, _ => .error .asserted

/-- A floating point number. -/
inductive Fl where
  | fin (x : ℚ)
  | inf (neg : Bool)
  | nan
  deriving DecidableEq

/-- `std::isfinite`. -/
def Fl.isFinite : Fl → Bool
  | .fin _ => true
  | _ => false

/-- The parameters of a distribution adapted by CMA-ES (edoNormalAdaptive.h 131-137). -/
structure AdaptParams where
  mean : List Fl
  covar : List (List Fl)
  coordSys : List (List Fl)
  scaling : List Fl
  sigma : Fl
  pathCovar : List Fl
  pathSigma : List Fl

/-- `is_finite` of a vector (edoContAdaptiveFinite.h 94-102). -/
def finVec : List Fl → Bool
  | [] => true
  | x :: xs => if !x.isFinite then false else finVec xs

/-- `is_finite` of a matrix (edoContAdaptiveFinite.h 80-92). -/
def finMat : List (List Fl) → Bool
  | [] => true
  | r :: rs => if !finVec r then false else finMat rs

/-- edoContAdaptiveFinite::operator() (edoContAdaptiveFinite.h 48-75). -/
def contFinite (d : AdaptParams) : Bool :=
  finMat d.covar && finVec d.pathCovar && finMat d.coordSys && finVec d.scaling && finVec d.pathSigma &&
    d.sigma.isFinite

/-- edoCombinedContinue::operator() (edoCombinedContinue.h 61-69): the answer and how many were asked. -/
def combinedDistCont {D : Type} : List (D → Bool) → D → Bool × Nat
  | [], _ => (true, 0)
  | c :: cs, d => if !c d then (false, 1) else ((combinedDistCont cs d).1, (combinedDistCont cs d).2 + 1)

/-! ### Transformation of a population, combined estimators -/

/-- The loop of edoTransformAdaptive::operator() (edoTransform.h 77-79): its bound is the size of the
population it fills, so it is run with the number of steps allowed. -/
def fillLoop {D α : Type} (sample : Nat → D → α) (d : D) : Nat → Nat → List α → Except Err (List α)
  | 0, _, _ => .error .fuel
  | fuel + 1, i, pop =>
    if i < pop.length then fillLoop sample d fuel (i + 1) (pop ++ [sample i d]) else .ok pop

/-- edoTransformAdaptive::operator() (edoTransform.h 73-80): estimate, clear, sample. -/
def transformAdaptive {D α : Type} (est : D → List α → D) (sample : Nat → D → α) (fuel : Nat) (d : D)
    (pop : List α) : Except Err (D × List α) :=
  let d' := est d pop
  let cleared : List α := []
  match fillLoop sample d' fuel 0 cleared with
  | .error e => .error e
  | .ok pop' => .ok (d', pop')

/-- edoEstimatorCombinedAdaptive::operator() (edoEstimatorCombined.h 61-67): each estimator in turn writes
the shared distribution. -/
def combinedEst {D α : Type} (ests : List (D → List α → D)) (d : D) (pop : List α) : D :=
  ests.foldl (fun d e => e d pop) d

/-- A distribution on the heap: `none` once deleted. -/
abbrev Cell (D : Type) := Option D

/-- Assignment to the object a reference names: undefined if it was deleted. -/
def Cell.assign {D : Type} (c : Cell D) (d : D) : Except Err (Cell D) :=
  match c with
  | none => .error .ub
  | some _ => .ok (some d)

/-- edoEstimatorCombinedStateless::operator() (edoEstimatorCombined.h 89-94): `delete &_distrib`, then
`_distrib = *(new D)`; `fresh` is the default distribution. -/
def combinedStateless {D α : Type} (fresh : D) (ests : List (D → List α → D)) (c : Cell D) (pop : List α) :
    Except Err (D × Cell D) :=
  match c with
  | none => .error .ub
  | some _ =>
    let deleted : Cell D := none
    match deleted.assign fresh with
    | .error e => .error e
    | .ok c' => match c' with
      | none => .error .ub
      | some d => .ok (combinedEst ests d pop, some (combinedEst ests d pop))

/-! ### Matrices of bits -/

/-- The number of ones of an individual, `indiv.sum()` (edoEstimatorBinomialMulti.h 100). -/
def ones (x : List (List Bool)) : Nat := (x.map fun r => r.countP (· = true)).sum

/-- eot2d and its asserts (edoEstimatorBinomialMulti.h 58-77). -/
def eot2d (x : List (List Bool)) (rows cols : Nat) : Except Err (List (List Bool)) :=
  if rows = 0 ∨ x.length ≠ rows ∨ cols = 0 ∨ (∃ r ∈ x, r.length ≠ cols) then .error .asserted else .ok x

/-- `probas += indiv / popsize` (edoEstimatorBinomialMulti.h 102). -/
def addMat (n : ℚ) (ps : List (List ℚ)) (x : List (List Bool)) : List (List ℚ) :=
  List.zipWith (List.zipWith fun p (b : Bool) => p + (if b then 1 else 0) / n) ps x

/-- The loop over the individuals (edoEstimatorBinomialMulti.h 95-106). -/
def multiLoop (n rows cols : Nat) : List (List (List Bool)) → List (List ℚ) → Except Err (List (List ℚ))
  | [], ps => .ok ps
  | x :: xs, ps =>
    match eot2d x rows cols with
    | .error e => .error e
    | .ok m =>
      if n < ones m then .error .asserted
      else multiLoop n rows cols xs (addMat n ps m)

/-- edoEstimatorBinomialMulti::operator() (edoEstimatorBinomialMulti.h 82-109). -/
def estBinomialMulti (pop : List (List (List Bool))) : Except Err (List (List ℚ)) :=
  match pop with
  | [] => .error .asserted
  | [] :: _ => .error .asserted
  | (r :: rs) :: xs =>
    if r.length = 0 then .error .asserted
    else
      multiLoop (xs.length + 1) (rs.length + 1) r.length ((r :: rs) :: xs)
        (List.replicate (rs.length + 1) (List.replicate r.length 0))

/-- edoSamplerBinomialMulti::sample (edoSamplerBinomialMulti.h 65-92): one flip for each entry, by rows; `t`
counts the draws. -/
def sampleMulti (u : Nat → ℚ) : Nat → List (List ℚ) → List (List Bool)
  | _, [] => []
  | t, ps :: pss => sampleBinomial u t ps :: sampleMulti u (t + ps.length) pss

end Paradiseo.Edo
