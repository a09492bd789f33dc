import Mathlib.Analysis.Real.Sqrt
import Mathlib.Algebra.Order.Floor.Ring
import Mathlib.Data.Rat.Floor
/-
Model of the statistics of EO over a population (eo/src/utils/eoStat.h, eoFDCStat.h, eoPopStat.h) and of its distances
(eo/src/utils/eoDistance.h).

Simplifications: doubles are real numbers, a division by zero or a root of a negative number is the outcome `nan`; an
individual is its fitness where only the fitness matters, or its list of genes; `std::nth_element` and the sorting of
the checkpoint are any functions with their specification.
-/
namespace Paradiseo.Stat

/-- What happens when a statistic is computed. -/
inductive Out (α : Type) where
  | value : α → Out α
  /-- `std::vector` read past its end -/
  | outOfBounds : Out α
  /-- an exception -/
  | thrown : Out α
  /-- an assertion fails -/
  | assertion : Out α
  /-- division of zero by zero, or root of a negative number -/
  | nan : Out α
  /-- the value is left as it was -/
  | unchanged : Out α
deriving DecidableEq

section Order
variable {F : Type}

/-- `std::max_element` with a comparison (`eoPop::best_element`, eoPop.h:222-233). -/
def bestOf (lt : F → F → Bool) : List F → Option F
  | [] => none
  | x :: xs => some (xs.foldl (fun b y => if lt b y then y else b) x)

/-- `eoNthElementFitnessStat::operator()` (utils/eoStat.h:251-257, 281-285) over a population sorted from the best to
the worst. -/
def nthFitness (which : Nat) (sorted : List F) : Out F :=
  if sorted.length < which then .thrown
  else match sorted[which]? with
    | some x => .value x
    | none => .outOfBounds

/-- How `eoNthElementStat` is told which element (utils/eoStat.h:489-499). -/
inductive Which where
  | position : Nat → Which
  | ratio : ℚ → Which

/-- The position asked for (utils/eoStat.h:503-511). -/
def whichIndex (n : Nat) : Which → Nat
  | .position k => k
  | .ratio r => (⌊(n : ℚ) * r⌋).toNat

/-- The assertion on a ratio (utils/eoStat.h:505). -/
def ratioOk : Which → Bool
  | .position _ => true
  | .ratio r => decide (0 ≤ r) && decide (r ≤ 1)

/-- `eoNthElementStat::operator()` (utils/eoStat.h:501-524): the assertion comes before the test for an empty
population. -/
def nthElementStat (nth : List F → Nat → List F) (w : Which) (pop : List F) : Out F :=
  if ratioOk w then
    let k := whichIndex pop.length w
    if k < pop.length then
      match (nth pop k)[k]? with
      | some x => .value x
      | none => .outOfBounds
    else .assertion
  else .assertion

/-- `eoInterquartileRangeStat::operator()` (utils/eoStat.h:542-560): the two quartiles. -/
def quartiles (nth : List F → Nat → List F) (pop : List F) : Out (F × F) :=
  if pop.length = 0 then .unchanged
  else
    let q := pop.length / 4
    let p1 := nth pop (q * 1)
    match p1[q]? with
    | none => .outOfBounds
    | some q1 =>
      let p3 := nth p1 (q * 3)
      match p3[q * 3]? with
      | none => .outOfBounds
      | some q3 => .value (q1, q3)

/-- The value: `Q3 - Q1` (utils/eoStat.h:558). -/
def interquartile [Sub F] (nth : List F → Nat → List F) (pop : List F) : Out F :=
  match quartiles nth pop with
  | .value (q1, q3) => .value (q3 - q1)
  | .outOfBounds => .outOfBounds
  | .thrown => .thrown
  | .assertion => .assertion
  | .nan => .nan
  | .unchanged => .unchanged

/-- `eoBestIndividualStat::operator()` (utils/eoStat.h:391-404): `none` is the individual of the start, whose fitness is
invalid. -/
def bestSoFar (lt : F → F → Bool) (kept : Option F) (pop : List F) : Option F :=
  match bestOf lt pop with
  | none => kept
  | some b => match kept with
    | none => some b
    | some v => if lt v b then some b else some v

/-- The lines of `eoPopStat` and `eoSortedPopStat` (utils/eoPopStat.h:70-82, 120-132): the first `combien` individuals,
all of them for zero. -/
def popDump (combien : Nat) (pop : List F) : Out (List F) :=
  let howmany := if combien ≠ 0 then combien else pop.length
  if howmany ≤ pop.length then .value (pop.take howmany) else .outOfBounds

end Order

/-! ## Moments -/

/-- `eoAverageStat::operator()` (utils/eoStat.h:156-178). -/
noncomputable def average (pop : List ℝ) : Out ℝ :=
  let v := pop.foldl (fun s x => s + x) 0
  if pop.length = 0 then .nan else .value (v / pop.length)

/-- `eoSecondMomentStats::operator()` (utils/eoStat.h:209-225): average and deviation. -/
noncomputable def secondMoment (pop : List ℝ) : Out (ℝ × ℝ) :=
  let result := pop.foldl (fun sq x => (sq.1 + x, sq.2 + x * x)) ((0 : ℝ), (0 : ℝ))
  let n : ℝ := pop.length
  if n = 0 then .nan
  else
    let first := result.1 / n
    if n - 1 = 0 then .nan
    else if (result.2 - n * first * first) / (n - 1) < 0 then .nan
    else .value (first, Real.sqrt ((result.2 - n * first * first) / (n - 1)))

/-- `eoAverageSizeStat::operator()` (utils/eoStat.h:582-596). -/
noncomputable def averageSize {G : Type} (pop : List (List G)) : Out ℝ :=
  let sum : Nat := (pop.map List.length).foldl (· + ·) 0
  if pop.length = 0 then .nan else .value ((sum : ℝ) / (pop.length : ℝ))

/-- The individual the distances are measured to (utils/eoFDCStat.h:66-67). -/
def fdcReference {G : Type} (better : ℝ → ℝ → Bool) (opt : Option (ℝ × G)) (pop : List (ℝ × G)) : Option (ℝ × G) :=
  match opt with
  | some o => some o
  | none => bestOf (fun a b => better b.1 a.1) pop

/-- `eoFDCStat::operator()` (utils/eoFDCStat.h:63-91): correlation of the fitness with the distance to the best
individual, or to the optimum given at the construction. `pop` holds the fitness and the rest of each individual. -/
noncomputable def fdc {G : Type} (dist : (ℝ × G) → (ℝ × G) → ℝ) (better : ℝ → ℝ → Bool) (opt : Option (ℝ × G))
    (pop : List (ℝ × G)) : Out ℝ :=
  match fdcReference better opt pop with
  | none => .assertion
  | some b =>
    let d := pop.map (fun x => dist x b)
    let f := pop.map (·.1)
    let n : ℝ := pop.length
    let ad := d.foldl (fun s x => s + x) (0 : ℝ) / n
    let af := f.foldl (fun s x => s + x) (0 : ℝ) / n
    let sd := d.foldl (fun s x => s + (x - ad) * (x - ad)) (0 : ℝ)
    let sf := f.foldl (fun s x => s + (x - af) * (x - af)) (0 : ℝ)
    let num := (d.zip f).foldl (fun s x => s + (x.1 - ad) * (x.2 - af)) (0 : ℝ)
    if Real.sqrt sd * Real.sqrt sf = 0 then .nan else .value (num / (Real.sqrt sd * Real.sqrt sf))

/-! ## Distances -/

section Dist

/-- The loop shared by the distances (utils/eoDistance.h:52-61, 76-85, 97-106): over the positions of the first vector.
`none`: the second vector is read past its end. -/
def distLoop {G : Type} (term : G → G → ℝ) : List G → List G → ℝ → Option ℝ
  | [], _, sum => some sum
  | _ :: _, [], _ => none
  | x :: xs, y :: ys, sum => distLoop term xs ys (sum + term x y)

/-- `eoQuadDistance` (utils/eoDistance.h:48-62). -/
noncomputable def quadDistance (v w : List ℝ) : Option ℝ :=
  (distLoop (fun x y => (x - y) * (x - y)) v w 0).map Real.sqrt

/-- `eoL1Distance` (utils/eoDistance.h:72-86). -/
noncomputable def l1Distance (v w : List ℝ) : Option ℝ := distLoop (fun x y => |x - y|) v w 0

/-- `eoHammingDistance` (utils/eoDistance.h:93-107). -/
def hammingDistance {G : Type} [DecidableEq G] (v w : List G) : Option ℝ :=
  distLoop (fun x y => if x ≠ y then 1 else 0) v w 0

/-- `eoFitnessDistance` (utils/eoDistance.h:113-122). -/
noncomputable def fitnessDistance (a b : ℝ) : ℝ := Real.sqrt ((a - b) * (a - b))

/-- `eoDistanceStat::operator()` (utils/eoStat.h:434-452): the loops over pairs of individuals and genes. -/
def pairLoop {G : Type} (term : G → G → ℝ) (pop : List (List G)) : Option ℝ :=
  pop.foldlM (fun v x => pop.foldlM (fun v y => distLoop term x y v) v) 0

/-- `eoDistanceStat::operator()` (utils/eoStat.h:434-452), with the distance between genes (422-432). -/
noncomputable def distanceStat {G : Type} (term : G → G → ℝ) (pop : List (List G)) : Out ℝ :=
  match pairLoop term pop with
  | none => .outOfBounds
  | some v => match pop with
    | [] => .outOfBounds
    | x :: _ =>
      let sz : ℝ := pop.length
      if sz * sz * x.length = 0 then .nan else .value (v / (sz * sz * x.length))

/-- The distance between genes of a signed type (utils/eoStat.h:422-427). -/
noncomputable def geneDistance (a b : ℝ) : ℝ := if a - b < 0 then -(a - b) else a - b

/-- The distance between bits (utils/eoStat.h:429-432). -/
noncomputable def bitDistance (a b : Bool) : ℝ := if a == b then 0 else 1

/-- The distance between genes of an unsigned type of `w` bits (utils/eoStat.h:422-427): the subtraction wraps around
and the test for a negative result is never true. -/
def unsignedDistance (w : Nat) (a b : Nat) : Nat := (a + (2 ^ w - b)) % 2 ^ w

end Dist

end Paradiseo.Stat
