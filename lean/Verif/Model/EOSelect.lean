/-
Model of the selectors of EO: roulette wheels (eo/src/utils/selectors.h, utils/eoRNG.h), eoProportionalSelect.h,
eoStochasticUniversalSelect.h, eoSequentialSelect.h, eoDetSelect.h, eoRankMuSelect.h, eoTruncatedSelectOne.h,
eoTruncatedSelectMany.h, eoSelectMany.h, eoSelectNumber.h, eoSelectPerc.h and of the worths eoRanking.h,
eoLinearFitScaling.h, eoSharing.h of /repo.

Fitnesses and weights are elements of an ordered field (`double` in exact arithmetic).  A selector returns
the position of the selected individual.  What the generator returns is a parameter: `u` stands for a
result of `rng.uniform()`, `r` for the stream of the results of `rng.random`.
-/
import Mathlib.Algebra.Order.Floor.Ring
import Mathlib.Algebra.Order.Field.Basic
import Mathlib.Algebra.BigOperators.Group.List.Basic
import Verif.Model.EOOperators

namespace Paradiseo.Sel

open Paradiseo.EO (Err HowMany)
open Paradiseo.Ops (rnd rd swapL)

variable {F : Type*} [Field F] [LinearOrder F]

/-! ### Roulette wheels -/

/-- `return --i;`: undefined if `i` was not moved. -/
def stepBack (i : Nat) : Except Err Nat := if i = 0 then .error .ub else .ok (i - 1)

/-- `while (roulette > 0.0) roulette -= *(i++); return --i;` (utils/selectors.h:227-234, 245-252,
263-270); `w` are the weights from position `i` on. -/
def wheelLoop : List F → F → Nat → Except Err Nat
  | [], x, i => if 0 < x then .error .ub else stepBack i
  | a :: w, x, i => if 0 < x then wheelLoop w (x - a) (i + 1) else stepBack i

/-- roulette_wheel (utils/selectors.h:218-271); `draw` is the result of `uniform(total)`. -/
def rouletteWheel (w : List F) (draw : F) (r : Nat → Nat) : Except Err Nat :=
  if draw = 0 then
    if w.length = 0 then .error .ub else .ok (rnd r 0 w.length)
  else wheelLoop w draw 0

/-- `while (fortune >= 0) fortune -= vec[i++]; return --i;` (utils/eoRNG.h:322-327). -/
def rngWheelLoop : List F → F → Nat → Except Err Nat
  | [], x, i => if 0 ≤ x then .error .ub else stepBack i
  | a :: w, x, i => if 0 ≤ x then rngWheelLoop w (x - a) (i + 1) else stepBack i

/-- eoRng::roulette_wheel (utils/eoRNG.h:313-328); `u` is the result of `uniform()`. -/
def rngRoulette (w : List F) (total u : F) : Except Err Nat :=
  rngWheelLoop w (u * (if total = 0 then w.sum else total)) 0

/-! ### Proportional selection -/

/-- The cumulated fitnesses, `acc` being cumulated before (eoProportionalSelect.h:71-77,
eoStochasticUniversalSelect.h:59-63). -/
def cumulate : F → List F → List F
  | _, [] => []
  | acc, x :: l => (acc + x) :: cumulate (acc + x) l

/-- `std::upper_bound`: the first position of a greater value.  The standard requires that the
values that are not greater come first. -/
def upperBound (cum : List F) (x : F) : Except Err Nat :=
  if (cum.dropWhile fun c => decide (c ≤ x)).all fun c => decide (x < c) then
    .ok (cum.findIdx fun c => decide (x < c))
  else .error .ub

/-- eoProportionalSelect::setup (eoProportionalSelect.h:63-79): the new value of `cumulative`. -/
def propSetup (state fits : List F) : List F := if fits = [] then state else cumulate 0 fits

/-- eoProportionalSelect::operator() (eoProportionalSelect.h:83-99): the position and `cumulative`
after the call. -/
def propSelect (state fits : List F) (u : F) : Except Err (Nat × List F) :=
  let cum := if state = [] then propSetup state fits else state
  match cum.getLast? with
  | none => .error .ub
  | some total =>
    match upperBound cum (u * total) with
    | .error e => .error e
    | .ok i =>
      if fits.length ≤ i then
        if fits.length = 0 then .error .ub else .ok (fits.length - 1, cum)
      else .ok (i, cum)

/-! ### Stochastic universal sampling -/

/-- `while (cumulative[i] < fortune) {i++;}` (eoStochasticUniversalSelect.h:75): the first position
from `i` on whose value is not smaller. -/
def susAdvance (cum : List F) (fortune : F) (i : Nat) : Except Err Nat :=
  match (cum.drop i).findIdx? fun c => decide (fortune ≤ c) with
  | some k => .ok (i + k)
  | none => .error .ub

/-- The sampling loop (eoStochasticUniversalSelect.h:73-83), `k` indices remaining. -/
def susLoop (cum : List F) (total step : F) : Nat → F → Nat → Except Err (List Nat)
  | 0, _, _ => .ok []
  | k + 1, fortune, i =>
    match susAdvance cum fortune i with
    | .error e => .error e
    | .ok j =>
      match (if total ≤ fortune + step then susLoop cum total step k (fortune + step - total) 0
          else susLoop cum total step k (fortune + step) j) with
      | .error e => .error e
      | .ok l => .ok (j :: l)

/-- The indices before the shuffle (eoStochasticUniversalSelect.h:55-83). -/
def susIndices (fits : List F) (u : F) : Except Err (List Nat) :=
  match (cumulate 0 fits).getLast? with
  | none => .ok []
  | some total =>
    match upperBound (cumulate 0 fits) (u * total) with
    | .error e => .error e
    | .ok i => susLoop (cumulate 0 fits) total (total / fits.length) fits.length (u * total) i

/-- The shuffle (eoStochasticUniversalSelect.h:85-88) of the places below `i + 1`, `i` going down. -/
def susShuffle {α : Type*} (r : Nat → Nat) : Nat → Nat → List α → Except Err (List α)
  | 0, _, l => .ok l
  | i + 1, t, l =>
    match swapL l (i + 1) (rnd r t (i + 2)) with
    | .error e => .error e
    | .ok l' => susShuffle r i (t + 1) l'

/-- eoStochasticUniversalSelect::setup (eoStochasticUniversalSelect.h:53-89): the new `indices`;
nothing changes for an empty population. -/
def susSetup (state : List Nat) (fits : List F) (u : F) (r : Nat → Nat) : Except Err (List Nat) :=
  if fits = [] then .ok state
  else
    match susIndices fits u with
    | .error e => .error e
    | .ok l => susShuffle r (l.length - 1) 0 l

/-- eoStochasticUniversalSelect::operator() (eoStochasticUniversalSelect.h:93-100): the position and
the remaining indices. -/
def susSelect (state : List Nat) (fits : List F) (u : F) (r : Nat → Nat) :
    Except Err (Nat × List Nat) :=
  match (if state = [] then susSetup state fits u r else .ok state : Except Err (List Nat)) with
  | .error e => .error e
  | .ok s =>
    match s.getLast? with
    | none => .error .ub
    | some i => if i < fits.length then .ok (i, s.dropLast) else .error .ub

/-! ### Sequential selection -/

/-- State of eoSequentialSelect and eoEliteSequentialSelect: `current`, the positions pointed to by
`eoPters`, and the number of setups done (to number the random arrangements). -/
structure SeqState where
  current : Nat
  ptrs : List Nat
  cycle : Nat

/-- The constructors (eoSequentialSelect.h:61-62, 129). -/
def seqInit : SeqState := ⟨2 ^ 32 - 1, [], 0⟩

/-- operator() (eoSequentialSelect.h:74-82, 154-162); `arrange c pop` is what the `c`-th setup makes of
`eoPters`, for a population that does not change between setups. -/
def seqSelect {α : Type*} (arrange : Nat → List α → Except Err (List Nat)) (s : SeqState)
    (pop : List α) : Except Err (Nat × SeqState) :=
  match (if pop.length ≤ s.current then (arrange s.cycle pop).map fun l => ⟨0, l, s.cycle + 1⟩
      else .ok s : Except Err SeqState) with
  | .error e => .error e
  | .ok s =>
    match s.ptrs[s.current]? with
    | none => .error .ub
    | some p => .ok (p, { s with current := s.current + 1 })

/-- The search for the best (eoSequentialSelect.h:136-145): `l` are the positions from place `i` on,
`ib` and `b` the place and the position of the best so far. -/
def eliteScan {α G : Type*} [LinearOrder G] (f : α → G) (pop : List α) :
    List Nat → Nat → Nat → Nat → Except Err (Nat × Nat)
  | [], _, ib, b => .ok (ib, b)
  | p :: l, i, ib, b =>
    match rd pop p, rd pop b with
    | .ok x, .ok y => if f y < f x then eliteScan f pop l (i + 1) i p else eliteScan f pop l (i + 1) ib b
    | _, _ => .error .ub

/-- eoEliteSequentialSelect::setup (eoSequentialSelect.h:131-152) after the shuffle of the pointers
gave `shuffled`. -/
def eliteArrange {α G : Type*} [LinearOrder G] (f : α → G) (shuffled : List Nat) (pop : List α) :
    Except Err (List Nat) :=
  match shuffled with
  | [] => .error .ub
  | p0 :: l =>
    if pop.length = 1 then .error .thrown
    else
      match eliteScan f pop l 1 0 p0 with
      | .error e => .error e
      | .ok (ib, b) => .ok (((p0 :: l).set 0 b).set ib p0)

/-- eoEliteSelect::operator() (eoSequentialSelect.h:104-108): sorts a vector of pointers, not the
population, and returns `pop[0]`. -/
def eliteSelect {α : Type*} (pop : List α) : Except Err Nat :=
  if pop.length = 0 then .error .ub else .ok 0

/-! ### Selection of many -/

/-- What eoSelectMany, eoSelectNumber and eoSelectPerc do after the target size is known
(eoSelectMany.h:69-74, eoSelectNumber.h:61-66, eoSelectPerc.h:61-66): `k` calls of the selector. -/
def selectRun {α σ : Type*} (select : σ → List α → Except Err (Nat × σ)) (pop : List α) :
    Nat → σ → Except Err (List α × σ)
  | 0, s => .ok ([], s)
  | k + 1, s =>
    match select s pop with
    | .error e => .error e
    | .ok (p, s') =>
      match rd pop p with
      | .error e => .error e
      | .ok x =>
        match selectRun select pop k s' with
        | .error e => .error e
        | .ok (l, s'') => .ok (x :: l, s'')

/-- eoSelectMany::operator() (eoSelectMany.h:65-75). -/
def selectMany {α σ : Type*} (h : HowMany) (setup : σ → List α → Except Err σ)
    (select : σ → List α → Except Err (Nat × σ)) (s : σ) (pop : List α) :
    Except Err (List α × σ) :=
  match h.eval pop.length with
  | .error e => .error e
  | .ok k =>
    match setup s pop with
    | .error e => .error e
    | .ok s' => selectRun select pop k s'

/-- eoSelectNumber::operator() (eoSelectNumber.h:57-67). -/
def selectNumber {α σ : Type*} (k : Nat) (setup : σ → List α → Except Err σ)
    (select : σ → List α → Except Err (Nat × σ)) (s : σ) (pop : List α) :
    Except Err (List α × σ) :=
  match setup s pop with
  | .error e => .error e
  | .ok s' => selectRun select pop k s'

/-- eoDetSelect::operator() (eoDetSelect.h:55-85): all the places of `_dest` are overwritten, by whole
copies and a beginning of the source. -/
def detSelect {α : Type*} (h : HowMany) (source : List α) : Except Err (List α) :=
  match h.eval source.length with
  | .error e => .error e
  | .ok k =>
    let target := if k = 0 then 1 else k
    if source.length = 0 then .error .ub
    else
      .ok ((if source.length ≤ target then
          (List.replicate (target / source.length) source).flatten else []) ++
        source.take (target % source.length))

/-- eoRankMuSelect::operator() (eoRankMuSelect.h:44-51). -/
def rankMuSelect {α : Type*} (sort : List α → List α) (mu : Nat) (source : List α) :
    Except Err (List α) :=
  detSelect ⟨0, mu⟩ (sort source)

/-- eoTruncatedSelectOne::setup (eoTruncatedSelectOne.h:67-91): the population selected from.  More
fertile individuals than there are make `nth_element` run out of range. -/
def truncSelectOnePop {α : Type*} (nth : Nat → List α → List α) (h : HowMany) (source : List α) :
    Except Err (List α) :=
  match h.eval source.length with
  | .error e => .error e
  | .ok k =>
    if k = source.length then .ok source
    else if source.length < k then .error .ub
    else .ok ((nth k source).take k)

/-- The population that eoTruncatedSelectMany selects from (eoTruncatedSelectMany.h:85-110);
`resize` beyond the size appends default individuals. -/
def truncSelectManyPop {α : Type*} (sort shuffle : List α → List α) (dflt : α) (h : HowMany)
    (source : List α) : Except Err (List α) :=
  match h.eval source.length with
  | .error e => .error e
  | .ok k =>
    if k = source.length then .ok source
    else .ok (shuffle ((sort source).take k ++ List.replicate (k - source.length) dflt))

/-- eoTruncatedSelectMany::operator() (eoTruncatedSelectMany.h:79-111). -/
def truncSelectMany {α σ : Type*} (sort shuffle : List α → List α) (dflt : α)
    (hGenitors hFertile : HowMany) (setup : σ → List α → Except Err σ)
    (select : σ → List α → Except Err (Nat × σ)) (s : σ) (source : List α) :
    Except Err (List α × σ) :=
  match hGenitors.eval source.length with
  | .error e => .error e
  | .ok k =>
    match truncSelectManyPop sort shuffle dflt hFertile source with
    | .error e => .error e
    | .ok tmp =>
      match setup s tmp with
      | .error e => .error e
      | .ok s' => selectRun select tmp k s'

/-! ### Worths -/

/-- `alpha*(pSize-i)+beta` (eoRanking.h:83-90), the worth of rank `i` of `n`, best first, with exponent
1; the product `pSize*pSizeMinusOne` is taken in 32 bit unsigned arithmetic. -/
def rankWorth (p : F) (n i : Nat) : F :=
  (2 * p - 2) / ((n * (n - 1) % 2 ^ 32 : Nat)) * ((n : F) - i) + (2 - p) / n

/-- `gamma*pow(tmp, exponent)+beta` (eoRanking.h:95-102), the worth of rank `i` of `n` with another
exponent; `pw` is the power function. -/
def rankWorthExp (pw : F → F) (p : F) (n i : Nat) : F :=
  (2 * p - 2) / n * pw (((n : F) - i) / n) + (2 - p) / n

/-- The loops of eoRanking (eoRanking.h:87-91, 96-103): `rank` are the positions of the individuals
from rank `i` on and `worth` gives the worth of a rank. -/
def rankLoop (worth : Nat → F) : List Nat → Nat → List F → List F
  | [], _, v => v
  | which :: rank, i, v => rankLoop worth rank (i + 1) (v.set which (worth i))

/-- The choice between the two formulas (eoRanking.h:84, 93). -/
def rankWorthOf (p : F) (pw : Option (F → F)) (n : Nat) : Nat → F :=
  match pw with
  | none => rankWorth p n
  | some g => rankWorthExp g p n

/-- eoRanking::operator() (eoRanking.h:70-105); `sortIdx` gives the positions in the order of
`_pop.sort(rank)`; `pw` is `none` for the exponent 1. -/
def ranking {α : Type*} (p : F) (pw : Option (F → F)) (sortIdx : List α → List Nat) (pop : List α) :
    Except Err (List F) :=
  if pop.length ≤ 1 then .error .thrown
  else
    .ok (rankLoop (rankWorthOf p pw pop.length) (sortIdx pop) 0 (List.replicate pop.length 0))

/-- eoLinearFitScaling::operator() (eoLinearFitScaling.h:62-86); `best` is the fitness of the best
individual; a zero denominator gives worths that are not numbers. -/
def linearScaling (p best : F) (fits : List F) : Except Err (List F) :=
  let denom := fits.length * (best - fits.sum / fits.length)
  if denom = 0 then .error .ub
  else .ok (fits.map fun x =>
    max ((p - 1) / denom * x + (best - p * (fits.sum / fits.length)) / denom) 0)

/-- The entry of the similarity matrix (eoSharing.h:110-119) for two places. -/
def similarity (niche : F) (dist : Nat → Nat → F) (i j : Nat) : F :=
  if i = j then 1
  else
    let d := if j < i then dist i j else dist j i
    if niche < d then 0 else 1 - d / niche

/-- eoSharing::operator() (eoSharing.h:99-133); `dist i j` is the distance of the individuals at
places `i` and `j`, only asked for `j < i`.  A zero niche size divides by zero for equal individuals. -/
def sharing (niche : F) (dist : Nat → Nat → F) (fits : List F) : Except Err (List F) :=
  if fits.length ≤ 1 then .error .thrown
  else if niche = 0 then .error .ub
  else .ok ((List.range fits.length).zipWith (fun i f => f /
    ((List.range fits.length).map fun j => similarity niche dist i j).sum) fits)

end Paradiseo.Sel
