import Mathlib.Data.Rat.Defs
import Mathlib.Algebra.Order.Field.Basic
/-
The strategies that choose the weights of the next scalarised search (moeo/src/scalarStuffs/weighting/).

* moeoFixedTimeOneDirectionWeightStrategy.h, moeoFixedTimeBothDirectionWeightStrategy.h
* moeoAnytimeWeightStrategy.h, moeoQexploreWeightStrategy.h, moeoAugmentedQexploreWeightStrategy.h

Exact rational arithmetic, unbounded integers.
-/
namespace Paradiseo.Weights

/-! ### Fixed time -/

section Fixed
variable {K : Type} [Field K] [LinearOrder K]

/-- The new value of `current` (64-70, of both): 1 is followed by 0 and a step. -/
def advance (step cur : K) : K :=
  if (if cur = 1 then 0 else cur) + step > 1 then 1 else (if cur = 1 then 0 else cur) + step

/-- One direction (62-73): the weights and the next `current`. -/
def oneDir (step cur : K) : (K × K) × K := ((cur, 1 - cur), advance step cur)

/-- `current` before call number `k`. -/
def cur (step : K) : Nat → K
  | 0 => 0
  | k + 1 => (oneDir step (cur step k)).2

/-- The weights of call number `k`. -/
def oneDirAt (step : K) (k : Nat) : K × K := (oneDir step (cur step k)).1

/-- Both directions (62-79). -/
structure Both (K : Type) where
  current : K
  direction : Bool

def bothDir (step : K) (s : Both K) : (K × K) × Both K :=
  let d := if s.current = 1 then !s.direction else s.direction
  (if d then (s.current, 1 - s.current) else (1 - s.current, s.current), ⟨advance step s.current, d⟩)

def bothState (step : K) : Nat → Both K
  | 0 => ⟨0, false⟩
  | k + 1 => (bothDir step (bothState step k)).2

def bothDirAt (step : K) (k : Nat) : K × K := (bothDir step (bothState step k)).1

end Fixed

/-! ### Anytime -/

structure Any where
  depth : Nat
  old1 : ℚ
  old2 : ℚ
  toTest : List ℚ

/-- `operator()` (69-90); with nothing to test an error is printed and the weights stay. -/
def anytime (s : Any) : Option (ℚ × ℚ) × Any :=
  if s.depth < 2 then
    (some (s.depth, 1 - s.depth), ⟨s.depth + 1, 0, 1, if s.depth = 0 then s.toTest ++ [1/2] else s.toTest⟩)
  else match s.toTest with
    | [] => (none, s)
    | w :: rest => (some (w, 1 - w), ⟨s.depth, w, s.old1, rest ++ [(w + s.old1) / 2, (w + s.old2) / 2]⟩)

def anyState (o1 o2 : ℚ) : Nat → Any
  | 0 => ⟨0, o1, o2, []⟩
  | k + 1 => (anytime (anyState o1 o2 k)).2

/-- The weights of call number `k` (the old values are not initialised). -/
def anyAt (o1 o2 : ℚ) (k : Nat) : Option (ℚ × ℚ) := (anytime (anyState o1 o2 k)).1

/-! ### Qexplore -/

/-- `coprim` (97-103, and 142-148 of the augmented one). -/
def coprim (a b : Nat) : Bool := if h : b = 0 then a == 1 else coprim b (a % b)
termination_by b
decreasing_by exact Nat.mod_lt a (Nat.pos_of_ne_zero h)

/-- The loop (81-83). -/
def skip (depth num : Nat) : Nat := if num < depth ∧ ¬ coprim depth num then skip depth (num + 1) else num
termination_by depth - num

structure Qe where
  depth : Nat
  num : Nat

/-- `operator()` (68-92). -/
def qexplore (s : Qe) : (ℚ × ℚ) × Qe :=
  if s.depth = 0 then
    if s.num = 0 then ((0, 1), ⟨s.depth, s.num + 1⟩) else ((1, 0), ⟨1, 1⟩)
  else
    let n := skip s.depth s.num
    let d' := if s.depth ≤ n then s.depth + 1 else s.depth
    let n' := if s.depth ≤ n then 1 else n
    (((n' : ℚ) / d', 1 - (n' : ℚ) / d'), ⟨d', n' + 1⟩)

def qeState : Nat → Qe
  | 0 => ⟨0, 0⟩
  | k + 1 => (qexplore (qeState k)).2

def qeAt (k : Nat) : ℚ × ℚ := (qexplore (qeState k)).1

/-! ### Augmented Qexplore -/

/-- `is2pow` (150-161). -/
def is2pow (a : Nat) : Bool := if h : a = 1 ∨ a = 0 then true else if a % 2 ≠ 0 then false else is2pow (a / 2)
termination_by a
decreasing_by omega

structure Aq where
  depth : Nat
  nums : List Nat

/-- `do_reset` (119-127). -/
def Aq.reset (s : Aq) : Aq :=
  let d := if s.depth = 0 then 1 else s.depth * 2
  ⟨d, List.replicate d 0⟩

/-- The counting loop of `translate` (98-103); `none` when one entry has them all. -/
def tally (depth : Nat) (w : List Nat) : List Nat → Option (List Nat)
  | [] => some w
  | n :: ns =>
    let w' := w.modify n (· + 1)
    if depth > 1 ∧ w'[n]? = some depth then none else tally depth w' ns

/-- `translate` (95-117): the weights, if accepted. -/
def translate (dim : Nat) (s : Aq) : Option (List ℚ) :=
  (tally s.depth (List.replicate dim 0) s.nums).bind fun w =>
    if w.any (fun c => coprim c s.depth) && w.any (fun c => c ≠ 1 && !is2pow c) then
      some (w.map fun (c : Nat) => (c : ℚ) / s.depth) else none

/-- The position found by the loop (87): the last one that is not `max`, or 0.  `r` is the list reversed. -/
def lastIdx (mx : Nat) : List Nat → Nat
  | [] => 0
  | n :: r => if r ≠ [] ∧ n = mx then lastIdx mx r else r.length

/-- `next_num` (80-93), with a depth that is not 0. -/
def nextNum (mx : Nat) (nums : List Nat) : List Nat :=
  let idx := lastIdx mx nums.reverse
  nums.take idx ++ List.replicate (nums.length - idx) (nums.getD idx 0 + 1)

/-- One round of the loop (69-75). -/
def Aq.round (dim : Nat) (s : Aq) : Option (List ℚ) × Aq :=
  let s' : Aq := ⟨s.depth, nextNum (dim - 1) s.nums⟩
  (translate dim s, if s'.nums.getD 0 0 > dim - 1 then s'.reset else s')

/-- The loop, with at most `fuel` rounds. -/
def Aq.loop (dim : Nat) : Nat → Aq → Option (List ℚ × Aq)
  | 0, _ => none
  | fuel + 1, s =>
    match (s.round dim).1 with
    | some w => some (w, (s.round dim).2)
    | none => Aq.loop dim fuel (s.round dim).2

/-- `operator()` (64-76). -/
def Aq.call (dim fuel : Nat) (s : Aq) : Option (List ℚ × Aq) :=
  Aq.loop dim fuel (if s.depth = 0 then s.reset else s)

/-- The weights of all calls so far, latest first, on vectors of `dim` objectives (56-58). -/
inductive Aq.Run (dim : Nat) : List (List ℚ) → Aq → Prop
  | init : Run dim [] ⟨0, [0]⟩
  | call {ws : List (List ℚ)} {s : Aq} {fuel : Nat} {w : List ℚ} {s' : Aq} :
      Run dim ws s → s.call dim fuel = some (w, s') → Run dim (w :: ws) s'

end Paradiseo.Weights
