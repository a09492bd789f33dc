/-
Model of the reduction, merge and replacement operators of eo (eo/src/eoReduce.h, eoReduceSplit.h,
eoMerge.h, eoReplacement.h, eoMergeReduce.h, eoReduceMerge.h, eoReduceMergeReduce.h,
eoSurviveAndDie.h, eoMGGReplacement.h, eoG3Replacement.h), of the population queries they use
(eoPop.h), of the tournaments (utils/selectors.h) and of `eoHowMany` (utils/eoHowMany.h).

Simplifications: a population is a list of individuals of an arbitrary type `α` with a fitness
`f : α → F` in a linear order (all the fitnesses are valid, bigger is better after the
orientation carried by the fitness type); doubles are rationals; `std::sort`, `std::nth_element`
and `std::shuffle` are arbitrary functions satisfying what the standard promises (`IsSort`,
`IsNth`, permutation); `rng.random(m)` at the `t`-th draw is `r t % m` for an arbitrary stream
`r : Nat → Nat` and `rng.flip` is an arbitrary stream of booleans.
-/
import Mathlib.Data.Rat.Floor
import Mathlib.Data.Prod.Lex
import Mathlib.Order.Basic

namespace Paradiseo.EO

/-- What can go wrong: a C++ exception, undefined behaviour (out of range access, conversion of a
negative number to unsigned), a violated `assert`, or an exhausted number of steps in a loop which
may not terminate. -/
inductive Err where
  | thrown
  | ub
  | asserted
  | fuel
  deriving DecidableEq, Repr

variable {α β F : Type} [LinearOrder F]

/-! ### Standard library -/

/-- What `std::sort` with `eoPop::Cmp2` guarantees (eoPop.h:150-166): best first. -/
structure IsSort (f : α → F) (sort : List α → List α) : Prop where
  perm : ∀ l, (sort l).Perm l
  sorted : ∀ l, (sort l).Pairwise fun a b => f b ≤ f a

/-- What `std::nth_element` with the order "greater first" guarantees (eoPop.h:272-311): the
elements before position `n` are not worse than those from position `n` on. -/
structure IsNth (f : α → F) (nth : Nat → List α → List α) : Prop where
  perm : ∀ n l, (nth n l).Perm l
  split : ∀ n l, ∀ a ∈ (nth n l).take n, ∀ b ∈ (nth n l).drop n, f b ≤ f a

/-- `std::min_element` (eoPop.h:236-260), loop: `i` is the position of the head of the list, `best`
the position of the smallest so far and `bv` its fitness. -/
def minElemAux (f : α → F) : List α → Nat → Nat → F → Nat
  | [], _, best, _ => best
  | x :: xs, i, best, bv =>
    if f x < bv then minElemAux f xs (i + 1) i (f x) else minElemAux f xs (i + 1) best bv

/-- `eoPop::it_worse_element` (eoPop.h:254-260): the first smallest; asserts a non-empty
population. -/
def worseElement (f : α → F) : List α → Except Err Nat
  | [] => .error .asserted
  | x :: xs => .ok (minElemAux f xs 1 0 (f x))

/-- `std::max_element`, loop. -/
def maxElemAux (f : α → F) : List α → Nat → Nat → F → Nat
  | [], _, best, _ => best
  | x :: xs, i, best, bv =>
    if bv < f x then maxElemAux f xs (i + 1) i (f x) else maxElemAux f xs (i + 1) best bv

/-- `eoPop::it_best_element` (eoPop.h:213-219); asserts a non-empty population. -/
def itBestElement (f : α → F) : List α → Except Err Nat
  | [] => .error .asserted
  | x :: xs => .ok (maxElemAux f xs 1 0 (f x))

/-- `eoPop::best_element` (eoPop.h:223-233): throws on an empty population. -/
def bestElement (f : α → F) (pop : List α) : Except Err α :=
  match pop with
  | [] => .error .thrown
  | x :: xs =>
    match (x :: xs)[maxElemAux f xs 1 0 (f x)]? with
    | some b => .ok b
    | none => .error .ub

/-! ### Tournaments -/

/-- `pop[i] < pop[j]` (EO.h:112); positions are in range wherever it is used. -/
def ltAt (f : α → F) (pop : List α) (i j : Nat) : Bool :=
  match pop[i]?, pop[j]? with
  | some a, some b => decide (f a < f b)
  | _, _ => false

/-- Loop of `deterministic_tournament` (utils/selectors.h:278-286): `k` competitors remain.
Result: the position and the number of draws used so far. -/
def detLoop (f : α → F) (pop : List α) (r : Nat → Nat) : Nat → Nat → Nat → Nat × Nat
  | 0, best, t => (best, t)
  | k + 1, best, t =>
    let competitor := r t % pop.length
    detLoop f pop r k (if ltAt f pop best competitor then competitor else best) (t + 1)

/-- `deterministic_tournament` (utils/selectors.h:273-289). `_t_size - 1` is unsigned: a size of 0
means 2^32 - 1 competitors. An empty population gives an iterator which cannot be read. -/
def detTournament (f : α → F) (tSize : Nat) (r : Nat → Nat) (pop : List α) (t : Nat) :
    Except Err (Nat × Nat) :=
  if pop.length = 0 then .error .ub
  else .ok (detLoop f pop r (if tSize = 0 then 2 ^ 32 - 1 else tSize - 1) (r t % pop.length)
    (t + 1))

/-- Loop of `inverse_deterministic_tournament` (utils/selectors.h:308-322): a competitor equal to
the current worst is drawn again, so the loop may not terminate; `fuel` bounds the draws. -/
def invLoop (f : α → F) (pop : List α) (r : Nat → Nat) :
    Nat → Nat → Nat → Nat → Except Err (Nat × Nat)
  | _, 0, worst, t => .ok (worst, t)
  | 0, _ + 1, _, _ => .error .fuel
  | fuel + 1, k + 1, worst, t =>
    let competitor := r t % pop.length
    if competitor = worst then invLoop f pop r fuel (k + 1) worst (t + 1)
    else invLoop f pop r fuel k (if ltAt f pop competitor worst then competitor else worst) (t + 1)

/-- `inverse_deterministic_tournament` (utils/selectors.h:303-325). -/
def invDetTournament (f : α → F) (tSize : Nat) (r : Nat → Nat) (fuel : Nat) (pop : List α)
    (t : Nat) : Except Err (Nat × Nat) :=
  if pop.length = 0 then .error .ub
  else invLoop f pop r fuel (tSize - 1) (r t % pop.length) (t + 1)

/-- `stochastic_tournament` (utils/selectors.h:339-362); `flip` is the stream of the flips. -/
def stochTournament (f : α → F) (r : Nat → Nat) (flip : Nat → Bool) (pop : List α) (t : Nat) :
    Except Err (Nat × Nat) :=
  if pop.length = 0 then .error .ub
  else
    let i1 := r t % pop.length
    let i2 := r (t + 1) % pop.length
    let better := flip (t + 2)
    if ltAt f pop i1 i2 then .ok (if better then i2 else i1, t + 3)
    else .ok (if better then i1 else i2, t + 3)

/-- `inverse_stochastic_tournament` (utils/selectors.h:376-399). -/
def invStochTournament (f : α → F) (r : Nat → Nat) (flip : Nat → Bool) (pop : List α) (t : Nat) :
    Except Err (Nat × Nat) :=
  if pop.length = 0 then .error .ub
  else
    let i1 := r t % pop.length
    let i2 := r (t + 1) % pop.length
    let worse := flip (t + 2)
    if ltAt f pop i1 i2 then .ok (if worse then i1 else i2, t + 3)
    else .ok (if worse then i2 else i1, t + 3)

/-! ### Reduction -/

/-- The loop "choose an individual, erase it" shared by the linear and the tournament reducers
(eoReduce.h:190-194, 232-243, 285-297, eoReduceSplit.h:112-118, 188-195, 241-247). Result: what
remains, the erased individuals in order, and the number of draws used. -/
def eliminate (pick : List α → Nat → Except Err (Nat × Nat)) :
    Nat → List α → Nat → Except Err (List α × List α × Nat)
  | 0, pop, t => .ok (pop, [], t)
  | k + 1, pop, t =>
    match pick pop t with
    | .error e => .error e
    | .ok (i, t') =>
      match pop[i]? with
      | none => .error .ub
      | some x =>
        match eliminate pick k (pop.eraseIdx i) t' with
        | .error e => .error e
        | .ok (rest, el, t'') => .ok (rest, x :: el, t'')

/-- A reducer: `void operator()(eoPop&, unsigned)`; only the population is kept. -/
abbrev Reducer (α : Type) := List α → Nat → Except Err (List α)

/-- `eoTruncate` (eoReduce.h:53-65). -/
def truncate (sort : List α → List α) : Reducer α := fun pop newsize =>
  if pop.length = newsize then .ok pop
  else if pop.length < newsize then .error .thrown
  else .ok ((sort pop).take newsize)

/-- `eoRandomReduce` (eoReduce.h:70-83). -/
def randomReduce (shuffle : List α → List α) : Reducer α := fun pop newsize =>
  if pop.length = newsize then .ok pop
  else if pop.length < newsize then .error .thrown
  else .ok ((shuffle pop).take newsize)

/-- The score of one individual in `eoEPReduce` (eoReduce.h:132-139), in half points; `k`
tournaments remain. -/
def epScore (f : α → F) (pop : List α) (r : Nat → Nat) (fit : F) : Nat → Nat → Nat
  | 0, _ => 0
  | k + 1, t =>
    (match pop[r t % pop.length]? with
      | some c => if f c < fit then 2 else if fit = f c then 1 else 0
      | none => 0) + epScore f pop r fit k (t + 1)

/-- The scores with the individuals (eoReduce.h:127-140); `t` draws used before. -/
def epScores (f : α → F) (tSize : Nat) (r : Nat → Nat) (pop : List α) :
    List α → Nat → List (Nat × α)
  | [], _ => []
  | x :: xs, t => (epScore f pop r (f x) tSize t, x) :: epScores f tSize r pop xs (t + tSize)

/-- The key compared by `eoEPReduce::Cmp` (eoReduce.h:109-116): score, then fitness. -/
def epKey (f : α → F) (p : Nat × α) : Nat ×ₗ F := toLex (p.1, f p.2)

/-- `eoEPReduce` (eoReduce.h:90-174); the constructor replaces sizes below 2 by 2. -/
def epReduce (f : α → F) (tSize : Nat) (r : Nat → Nat)
    (nth : Nat → List (Nat × α) → List (Nat × α)) : Reducer α := fun pop newsize =>
  if pop.length = newsize then .ok pop
  else if pop.length < newsize then .error .thrown
  else .ok (((nth newsize (epScores f (max tSize 2) r pop pop 0)).take newsize).map Prod.snd)

/-- How `eoLinearTruncate` chooses (eoReduce.h:192). -/
def pickWorse (f : α → F) (pop : List α) (t : Nat) : Except Err (Nat × Nat) :=
  match worseElement f pop with
  | .ok i => .ok (i, t)
  | .error e => .error e

/-- `eoLinearTruncate` (eoReduce.h:181-196). -/
def linearTruncate (f : α → F) : Reducer α := fun pop newsize =>
  if pop.length = newsize then .ok pop
  else if pop.length < newsize then .error .thrown
  else (eliminate (pickWorse f) (pop.length - newsize) pop 0).map fun x => x.1

/-- `eoDetTournamentTruncate` (eoReduce.h:203-247); the constructor replaces sizes below 2 by 2. -/
def detTruncate (f : α → F) (tSize : Nat) (r : Nat → Nat) (fuel : Nat) : Reducer α :=
  fun pop newsize =>
  if newsize = 0 then .ok []
  else if pop.length = newsize then .ok pop
  else if pop.length < newsize then .error .thrown
  else (eliminate (invDetTournament f (max tSize 2) r fuel) (pop.length - newsize) pop 0).map
    fun x => x.1

/-- `eoStochTournamentTruncate` (eoReduce.h:254-302). -/
def stochTruncate (f : α → F) (r : Nat → Nat) (flip : Nat → Bool) : Reducer α :=
  fun pop newsize =>
  if newsize = 0 then .ok []
  else if pop.length = newsize then .ok pop
  else if pop.length < newsize then .error .thrown
  else (eliminate (invStochTournament f r flip) (pop.length - newsize) pop 0).map fun x => x.1

/-! ### How many -/

/-- `eoHowMany` (utils/eoHowMany.h:203-205). -/
structure HowMany where
  rate : ℚ
  count : Int

/-- `eoHowMany(double, bool)` (utils/eoHowMany.h:83-87, 183-201): a negative rate means the
complement; an absolute number is truncated toward zero. -/
def HowMany.mk' (rate : ℚ) (asRate : Bool) : Except Err HowMany :=
  if asRate then
    if rate < 0 then
      if 1 + rate < 0 then .error .thrown else .ok ⟨1 + rate, 0⟩
    else .ok ⟨rate, 0⟩
  else .ok ⟨0, if 0 ≤ rate then ⌊rate⌋ else ⌈rate⌉⟩

/-- `operator()` (utils/eoHowMany.h:106-126), in exact arithmetic. The conversion of a negative
number to unsigned is undefined. -/
def HowMany.eval (h : HowMany) (size : Nat) : Except Err Nat :=
  if h.count = 0 then
    if ⌈h.rate * size⌉ < 0 then .error .ub else .ok ⌈h.rate * size⌉.toNat
  else if h.count < 0 then
    if size < (-h.count).toNat then .error .thrown else .ok (size - (-h.count).toNat)
  else .ok h.count.toNat

/-- `operator-` (utils/eoHowMany.h:174-181). -/
def HowMany.neg (h : HowMany) : HowMany :=
  if h.count = 0 then { h with rate := 1 - h.rate } else { h with count := -h.count }

/-! ### Reduction returning the eliminated -/

/-- `eoTruncateSplit` (eoReduceSplit.h:51-85). `newsize` is unsigned, so its test for a negative
value never holds and too large a number gives an iterator out of range. Result: the population
and the second argument after the call. -/
def truncateSplit (nth : Nat → List α → List α) (h : HowMany) (ret : Bool) (pop elim : List α) :
    Except Err (List α × List α) :=
  match h.eval pop.length with
  | .error e => .error e
  | .ok k =>
    if k = 0 then .ok (pop, elim)
    else if pop.length < k then .error .ub
    else
      let pop' := nth (pop.length - k) pop
      .ok (pop'.take (pop.length - k), if ret then elim ++ pop'.drop (pop.length - k) else elim)

/-- `eoRandomSplit` (eoReduceSplit.h:128-162). -/
def randomSplit (shuffle : List α → List α) (h : HowMany) (ret : Bool) (pop elim : List α) :
    Except Err (List α × List α) :=
  match h.eval pop.length with
  | .error e => .error e
  | .ok k =>
    if k = 0 then .ok (pop, elim)
    else if pop.length < k then .error .ub
    else
      let pop' := shuffle pop
      .ok (pop'.take (pop.length - k), if ret then elim ++ pop'.drop (pop.length - k) else elim)

/-- `eoLinearTruncateSplit` (eoReduceSplit.h:91-124): here the size is signed. -/
def linearSplit (f : α → F) (h : HowMany) (ret : Bool) (pop elim : List α) :
    Except Err (List α × List α) :=
  match h.eval pop.length with
  | .error e => .error e
  | .ok k =>
    if k = 0 then .ok (pop, elim)
    else if pop.length < k then .error .thrown
    else
      match eliminate (pickWorse f) k pop 0 with
      | .error e => .error e
      | .ok (rest, el, _) => .ok (rest, if ret then elim ++ el else elim)

/-- `eoDetTournamentTruncateSplit` (eoReduceSplit.h:209-254). -/
def detSplit (f : α → F) (tSize : Nat) (r : Nat → Nat) (fuel : Nat) (h : HowMany) (ret : Bool)
    (pop elim : List α) : Except Err (List α × List α) :=
  match h.eval pop.length with
  | .error e => .error e
  | .ok k =>
    if k = 0 then .ok (pop, elim)
    else
      match eliminate (invDetTournament f (max tSize 2) r fuel) k pop 0 with
      | .error e => .error e
      | .ok (rest, el, _) => .ok (rest, if ret then elim ++ el else elim)

/-! ### Merge -/

/-- A merge: `void operator()(const eoPop&, eoPop&)`, giving the second population. -/
abbrev Merge (α : Type) := List α → List α → Except Err (List α)

/-- `eoPlus` (eoMerge.h:124-138). -/
def plus : Merge α := fun pop offspring => .ok (offspring ++ pop)

/-- The number `eoElitism` computes (eoMerge.h:64-91). -/
def elitismCount (rate : ℚ) (combien size : Nat) : Nat :=
  if combien = 0 then ⌊rate * size⌋.toNat else combien

/-- `eoElitism::operator()` (eoMerge.h:83-103): `nth_element(n, result)` fills `result` with all
the individuals (eoPop.h:301-311), and the loop runs over all of `result`. -/
def elitism (nth : Nat → List α → List α) (rate : ℚ) (combien : Nat) : Merge α :=
  fun pop offspring =>
  if combien = 0 ∧ rate = 0 then .ok offspring
  else if pop.length < elitismCount rate combien pop.length then .error .thrown
  else if pop.length = 0 then .error .asserted
  else .ok (offspring ++ nth (elitismCount rate combien pop.length) pop)

/-! ### Replacement -/

/-- A replacement: both populations after the call. -/
abbrev Replacement (α : Type) := List α → List α → Except Err (List α × List α)

/-- `eoGenerationalReplacement` (eoReplacement.h:84-94). -/
def generational : Replacement α := fun parents offspring => .ok (offspring, parents)

/-- `eoWeakElitistReplacement` (eoReplacement.h:106-130). -/
def weakElitist (f : α → F) (replace : Replacement α) : Replacement α := fun pop offspring =>
  match bestElement f pop with
  | .error e => .error e
  | .ok oldChamp =>
    match replace pop offspring with
    | .error e => .error e
    | .ok (pop', off') =>
      match bestElement f pop' with
      | .error e => .error e
      | .ok newChamp =>
        if f newChamp < f oldChamp then
          match worseElement f pop' with
          | .error e => .error e
          | .ok i => .ok (pop'.set i oldChamp, off')
        else .ok (pop', off')

/-- `eoMergeReduce` (eoMergeReduce.h:51-68). -/
def mergeReduce (merge : Merge α) (reduce : Reducer α) : Replacement α := fun parents offspring =>
  match merge parents offspring with
  | .error e => .error e
  | .ok merged =>
    match reduce merged parents.length with
    | .error e => .error e
    | .ok kept => .ok (kept, parents)

/-- `eoPlusReplacement` (eoMergeReduce.h:75-85). -/
def plusReplacement (sort : List α → List α) : Replacement α := mergeReduce plus (truncate sort)

/-- `eoCommaReplacement` (eoMergeReduce.h:92-111): the merge is `eoNoElitism`, i.e.
`eoElitism(0)` (eoMerge.h:114-118). -/
def commaReplacement (nth : Nat → List α → List α) (sort : List α → List α) : Replacement α :=
  mergeReduce (elitism nth 0 0) (truncate sort)

/-- `eoEPReplacement` (eoMergeReduce.h:119-128). -/
def epReplacement (f : α → F) (tSize : Nat) (r : Nat → Nat)
    (nth : Nat → List (Nat × α) → List (Nat × α)) : Replacement α :=
  mergeReduce plus (epReduce f tSize r nth)

/-- `eoReduceMerge` (eoReduceMerge.h:57-75): the offspring are merged into the parents. -/
def reduceMerge (reduce : Reducer α) (merge : Merge α) : Replacement α := fun parents offspring =>
  if parents.length < offspring.length then .error .thrown
  else
    match reduce parents (parents.length - offspring.length) with
    | .error e => .error e
    | .ok kept =>
      match merge offspring kept with
      | .error e => .error e
      | .ok res => .ok (res, offspring)

/-- `eoSSGAWorseReplacement` (eoReduceMerge.h:81-91). -/
def ssgaWorse (f : α → F) : Replacement α := reduceMerge (linearTruncate f) plus

/-- `eoSSGADetTournamentReplacement` (eoReduceMerge.h:97-108). -/
def ssgaDet (f : α → F) (tSize : Nat) (r : Nat → Nat) (fuel : Nat) : Replacement α :=
  reduceMerge (detTruncate f tSize r fuel) plus

/-- `eoSSGAStochTournamentReplacement` (eoReduceMerge.h:116-127). -/
def ssgaStoch (f : α → F) (r : Nat → Nat) (flip : Nat → Bool) : Replacement α :=
  reduceMerge (stochTruncate f r flip) plus

/-- The loop `while ((temp[index++] > eoLimit) && (index < temp.size())) toSave++;`
(eoReduceMergeReduce.h:122-124): the test reads `temp[index]`, then compares the incremented index
with the size, so the last element of `temp` never counts. -/
def toSave (f : α → F) (limit : F) : List α → Nat
  | [] => 0
  | [_] => 0
  | x :: y :: l => if limit < f x then toSave f limit (y :: l) + 1 else 0

/-- `for (i < toSave) _parents[finalPopSize-1-i] = temp[i]` (eoReduceMergeReduce.h:125-127). -/
def saveLoop (elite : List α) (finalSize : Nat) : Nat → List α → List α
  | 0, pop => pop
  | k + 1, pop =>
    match elite[k]? with
    | some x => (saveLoop elite finalSize k pop).set (finalSize - 1 - k) x
    | none => saveLoop elite finalSize k pop

/-- `eoReduceMergeReduce::operator()` (eoReduceMergeReduce.h:68-130). `nth` is the elite choice
and `sort` the final sort. Writing `reducedParentSize` individuals relies on the reducer returning
that many; positions out of range are undefined. -/
def reduceMergeReduce (f : α → F) (nth : Nat → List α → List α) (sort : List α → List α)
    (hElite : HowMany) (strong : Bool) (hParents hOffspring : HowMany)
    (redP redO redF : Reducer α) : Replacement α := fun parents offspring =>
  match hElite.eval parents.length with
  | .error e => .error e
  | .ok elite =>
    if parents.length < elite then .error .ub
    else
      let sorted := if elite = 0 then parents else nth elite parents
      let temp := sorted.take elite
      let par := sorted.drop elite
      match hParents.eval par.length with
      | .error e => .error e
      | .ok rp =>
        match (if rp = 0 then .ok [] else if rp ≠ par.length then redP par rp else .ok par :
            Except Err (List α)) with
        | .error e => .error e
        | .ok par =>
          match hOffspring.eval offspring.length with
          | .error e => .error e
          | .ok ro =>
            if ro = 0 then .error .thrown
            else
              match (if ro ≠ offspring.length then redO offspring ro else .ok offspring :
                  Except Err (List α)) with
              | .error e => .error e
              | .ok off =>
                let par := par ++ off
                if elite ≠ 0 ∧ strong then
                  match (if par.length ≠ parents.length - elite then
                      redF par (parents.length - elite) else .ok par : Except Err (List α)) with
                  | .error e => .error e
                  | .ok par => .ok (par ++ temp, off)
                else
                  match (if par.length ≠ parents.length then redF par parents.length
                      else .ok par : Except Err (List α)) with
                  | .error e => .error e
                  | .ok par =>
                    if elite = 0 then .ok (par, off)
                    else
                      match (sort par)[elite - 1]? with
                      | none => .error .ub
                      | some limit =>
                        .ok (saveLoop temp parents.length (toSave f (f limit) temp) (sort par),
                          off)

/-- `eoDeterministicSurviveAndDie::operator()` (eoSurviveAndDie.h:91-120): the remaining population
and the lucky ones. `nth1`, `nth2`: the two calls of `nth_element`. -/
def surviveAndDie (nth1 nth2 : Nat → List α → List α) (hSurvive hDie : HowMany) (pop : List α) :
    Except Err (List α × List α) :=
  match hSurvive.eval pop.length with
  | .error e => .error e
  | .ok nbSurvive =>
    if pop.length < nbSurvive then .error .ub
    else
      let sorted := if nbSurvive = 0 then pop else nth1 nbSurvive pop
      let rest := sorted.drop nbSurvive
      match hDie.eval pop.length with
      | .error e => .error e
      | .ok d =>
        let nbDie := min d (pop.length - nbSurvive)
        if rest.length < nbDie then .error .thrown
        else if nbDie = 0 then .ok (rest, sorted.take nbSurvive)
        else
          .ok ((nth2 (rest.length - nbDie) rest).take (rest.length - nbDie),
            sorted.take nbSurvive)

/-- `eoDeterministicSaDReplacement::operator()` (eoSurviveAndDie.h:160-182). -/
def sadReplacement (sadParents sadOffspring : List α → Except Err (List α × List α))
    (reduce : Reducer α) : Replacement α := fun parents offspring =>
  match sadParents parents with
  | .error e => .error e
  | .ok (par, luckyPar) =>
    match sadOffspring offspring with
    | .error e => .error e
    | .ok (off, luckyOff) =>
      if parents.length < luckyOff.length + luckyPar.length then .error .thrown
      else
        match reduce (off ++ par) (parents.length - (luckyOff.length + luckyPar.length)) with
        | .error e => .error e
        | .ok kept => .ok ((kept ++ luckyPar) ++ luckyOff, par)

/-- `eoMGGReplacement::operator()` (eoMGGReplacement.h:67-96); `eliminate` is the loop "tournament,
move the winner to the parents". -/
def mggReplacement (f : α → F) (h : HowMany) (tSize : Nat) (r : Nat → Nat) : Replacement α :=
  fun parents offspring =>
  match linearSplit f h true parents [] with
  | .error e => .error e
  | .ok (par, temp) =>
    if temp.length < 2 then .error .thrown
    else
      match itBestElement f offspring with
      | .error e => .error e
      | .ok i =>
        match offspring[i]? with
        | none => .error .ub
        | some x =>
          match eliminate (detTournament f (max tSize 2) r) (temp.length - 1)
              (offspring.eraseIdx i ++ temp) 0 with
          | .error e => .error e
          | .ok (rest, chosen, _) => .ok (par ++ [x] ++ chosen, rest)

/-- `eoG3Replacement::operator()` (eoG3Replacement.h:60-78). The member initialisers run in the
order of declaration: `split` gets the number, then `operator-` changes it and `reduce` gets the
complement (lines 53-58, 81-82). -/
def g3Replacement (f : α → F) (nth : Nat → List α → List α) (h : HowMany) : Replacement α :=
  fun parents offspring =>
  match linearSplit f h true parents [] with
  | .error e => .error e
  | .ok (par, temp) =>
    match truncateSplit nth h.neg false (offspring ++ temp) temp with
    | .error e => .error e
    | .ok (off, _) =>
      if off.length ≠ temp.length then .error .thrown
      else .ok (par ++ off, off)

end Paradiseo.EO
