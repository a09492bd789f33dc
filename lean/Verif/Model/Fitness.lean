import Mathlib.Algebra.Order.Field.Basic
/-
Model of the composite fitness types of EO: `eoDualFitness` (eo/src/eoDualFitness.h) with the split of populations and
the statistics built on it, and `eoScalarFitnessAssembled` (eo/src/eoScalarFitnessAssembled.h) with its statistics
(eo/src/utils/eoAssembledFitnessStat.h).

Simplifications: doubles are elements of an ordered field, text is a list of tokens and numbers are printed exactly;
an individual is its fitness.
-/
namespace Paradiseo.Fit

/-! ## Dual fitness -/

/-- `eoDualFitness` (eoDualFitness.h:79-92): the value, the feasibility, and whether the feasibility was given. -/
structure Dual (F : Type) where
  value : F
  feasible : Bool
  init : Bool
deriving DecidableEq

section Dual
variable {F : Type}

/-- Construction from a scalar (eoDualFitness.h:117-122): infeasible, feasibility not given. The default constructor
(104-108) is the same with value zero. -/
def ofScalar (v : F) : Dual F := ⟨v, false, false⟩

/-- Construction from a value and a feasibility (eoDualFitness.h:130-141). -/
def ofPair (v : F) (b : Bool) : Dual F := ⟨v, b, true⟩

/-- `is_feasible()` (eoDualFitness.h:152-156); `none`: the assertion fails. -/
def isFeasible (d : Dual F) : Option Bool := if d.init then some d.feasible else none

/-- `is_feasible(bool)` (eoDualFitness.h:159-163). -/
def setFeasible (d : Dual F) (b : Bool) : Dual F := { d with feasible := b, init := true }

/-- `operator<` (eoDualFitness.h:177-195). -/
def lt (cmp : F → F → Bool) (a b : Dual F) : Option Bool := do
  let fa ← isFeasible a
  let fb ← isFeasible b
  if fa && !fb then
    return false
  else if !fa && fb then
    return true
  else
    return cmp a.value b.value

/-- `operator>` (eoDualFitness.h:198). -/
def gt (cmp : F → F → Bool) (a b : Dual F) : Option Bool := lt cmp b a

/-- `operator<=` (eoDualFitness.h:201). -/
def le (cmp : F → F → Bool) (a b : Dual F) : Option Bool := (lt cmp b a).map (!·)

/-- `operator>=` (eoDualFitness.h:204). -/
def ge (cmp : F → F → Bool) (a b : Dual F) : Option Bool := (lt cmp a b).map (!·)

/-- `operator==` (eoDualFitness.h:207). -/
def eq [DecidableEq F] (a b : Dual F) : Option Bool := do
  let fa ← isFeasible a
  let fb ← isFeasible b
  return fa == fb && decide (a.value = b.value)

section Arith
variable (op : F → F → F)

/-- `operator+=`, `operator-=`, `operator/=` with a scalar (eoDualFitness.h:221-225, 244-248, 267-271). -/
def opAssignScalar (d : Dual F) (c : F) : Dual F := { d with value := op d.value c }

/-- `operator+=`, `operator-=`, `operator/=` with a fitness (eoDualFitness.h:228-240, 251-263, 275-286). -/
def opAssign (d e : Dual F) : Dual F :=
  ⟨op d.value e.value, d.feasible && e.feasible, e.init⟩

/-- `operator+`, `operator-`, `operator/` with a scalar (eoDualFitness.h:288-293, 303-308, 319-324): the operand is
modified, and copied. The pair is the result and the left operand afterwards. -/
def opScalar (d : Dual F) (c : F) : Dual F × Dual F :=
  let this := { d with value := op d.value c }
  (this, this)

/-- `operator+`, `operator-`, `operator/` with a fitness (eoDualFitness.h:296-300, 311-315, 327-331): a copy is
modified. The pair is the result and the left operand afterwards. -/
def opDual (d e : Dual F) : Dual F × Dual F := (opAssign op d e, d)

end Arith

/-- What a stream holds: numbers and the question mark. -/
inductive Tok (F : Type) where
  | num : F → Tok F
  | qmark : Tok F
deriving DecidableEq

variable [Zero F] [One F]

/-- A boolean is printed as 0 or 1. -/
def boolTok (b : Bool) : F := if b then 1 else 0

/-- `operator<<` (eoDualFitness.h:334-343). -/
def print (d : Dual F) : List (Tok F) :=
  if d.init then [.num d.value, .num (boolTok d.feasible)] else [.num d.value, .qmark]

/-- A reading: the object and whether the stream is still good, or the use of a variable that was never given a
value (`BaseT value; is >> value;` at the end of the stream). -/
inductive Read (α : Type) where
  | done : α → Bool → Read α
  | indeterminate : Read α
deriving DecidableEq

/-- `is >> b` for a boolean: zero and one are accepted; on any other text the variable becomes false (or true for
other numbers) and the stream fails. -/
def readBool [DecidableEq F] : Tok F → Bool × Bool
  | .num x => if x = 0 then (false, true) else if x = 1 then (true, true) else (true, false)
  | .qmark => (false, false)

/-- `operator>>` (eoDualFitness.h:346-358). -/
def read [DecidableEq F] : List (Tok F) → Read (Dual F)
  | .num v :: t :: _ => .done (ofPair v (readBool t).1) (readBool t).2
  | _ => .indeterminate

end Dual

/-! ### Populations of dual fitnesses -/

section Pop
variable {F : Type}

/-- `std::max_element` over the fitnesses (`eoPop::best_element`, eoPop.h:222-233): the first one that no later one
beats. -/
def maxElement (cmp : F → F → Bool) : List (Dual F) → Option (Dual F)
  | [] => none
  | x :: xs => xs.foldlM (fun best y => do
      let l ← lt cmp best y
      return if l then y else best) x

/-- `eoDualPopSplit::operator()` (eoDualFitness.h:383-403): feasible and unfeasible individuals, in order. `none`: the
assertion on a feasibility fails. -/
def split : List (Dual F) → Option (List (Dual F) × List (Dual F))
  | pop => pop.foldlM (fun s x => do
      let b ← isFeasible x
      return if b then (s.1 ++ [x], s.2) else (s.1, s.2 ++ [x])) ([], [])

/-- `eoDualPopSplit::merge` (eoDualFitness.h:406-413). -/
def merge (s : List (Dual F) × List (Dual F)) : List (Dual F) := s.1 ++ s.2

/-- `eoDualStatSwitch::operator()` (eoDualFitness.h:450-473); `sf` and `su` are the printed values of the two
statistics. -/
def statSwitch (sf su : List (Dual F) → String) (sep : String) (pop : List (Dual F)) : Option String := do
  let s ← split pop
  let a := if 0 < s.1.length then sf s.1 else "?"
  let b := if 0 < s.2.length then su s.2 else "?"
  return a ++ sep ++ b

/-- `eoFeasibleRatioStat::operator()` (eoFeasibleRatioStat.h:48-61), with assertions. -/
def feasibleRatio [Field F] (pop : List (Dual F)) : Option F := do
  if pop.length = 0 then none
  let count ← pop.foldlM (fun c x => do
    let b ← isFeasible x
    return if b then c + 1 else c) 0
  return ((count : Nat) : F) / (pop.length : F)

/-- `eoAverageStat::operator()` on dual fitnesses (utils/eoStat.h:156-159, 171-178): the sum goes through a double,
whose conversion back builds a fitness from a scalar. -/
def dualAverage [Field F] (pop : List (Dual F)) : Dual F :=
  let v := pop.foldl (fun acc x => ofScalar (acc.value + x.value)) (ofScalar 0)
  (opScalar (· / ·) v (pop.length : F)).1

end Pop

/-! ## Assembled fitness -/

/-- `eoScalarFitnessAssembled`: the terms and the two flags (the message is left out). -/
structure Asm (F : Type) where
  terms : List F
  feasible : Bool
  failed : Bool
deriving DecidableEq

/-- An access to the shared descriptions, or to the terms. -/
inductive Res (α : Type) where
  | ok : α → Res α
  | outOfBounds : Res α
  | indeterminate : Res α
  | thrown : Res α
deriving DecidableEq

section Asm
variable {F : Type}

/-- `std::vector::resize(n, s)`. -/
def resizeTo {α : Type} (l : List α) (n : Nat) (s : α) : List α := l.take n ++ List.replicate (n - l.length) s

/-- `v[i] = s`. -/
def writeAt {α : Type} (l : List α) (i : Nat) (s : α) : Res (List α) :=
  if i < l.length then .ok (l.set i s) else .outOfBounds

/-- `eoScalarFitnessAssembledTraits::setDescription` (eoScalarFitnessAssembled.h:53-60). -/
def setDescription (tr : List String) (idx : Nat) (s : String) : Res (List String) :=
  if idx < tr.length then writeAt tr idx s
  else writeAt (resizeTo tr idx "Unnamed variable") idx s

/-- `eoScalarFitnessAssembledTraits::getDescription` (eoScalarFitnessAssembled.h:62-67). -/
def getDescription (tr : List String) (idx : Nat) : String := (tr[idx]?).getD "Unnamed Variable"

/-- The default constructor (eoScalarFitnessAssembled.h:107-110). -/
def asmDefault [Zero F] (tr : List String) : Asm F := ⟨List.replicate tr.length 0, true, false⟩

/-- Construction with `n` terms (eoScalarFitnessAssembled.h:112-120). -/
def asmOfSize (n : Nat) (v : F) (s : String) (tr : List String) : Asm F × List String :=
  (⟨List.replicate n v, true, false⟩, if tr.length < n then resizeTo tr n s else tr)

/-- Construction from a scalar (eoScalarFitnessAssembled.h:138-141). -/
def asmOfScalar (v : F) : Asm F := ⟨[v], true, false⟩

/-- `push_back(val)` (eoScalarFitnessAssembled.h:153-157). -/
def pushBack (f : Asm F) (v : F) (tr : List String) : Res (Asm F × List String) :=
  let f' := { f with terms := f.terms ++ [v] }
  if tr.length < f'.terms.length then
    match setDescription tr (f'.terms.length - 1) "Unnamed variable" with
    | .ok tr' => .ok (f', tr')
    | _ => .outOfBounds
  else .ok (f', tr)

/-- `push_back(val, descr)` (eoScalarFitnessAssembled.h:160-163). -/
def pushBackDescr (f : Asm F) (v : F) (s : String) (tr : List String) : Res (Asm F × List String) :=
  let f' := { f with terms := f.terms ++ [v] }
  match setDescription tr (f'.terms.length - 1) s with
  | .ok tr' => .ok (f', tr')
  | _ => .outOfBounds

/-- `resize` (eoScalarFitnessAssembled.h:166-169). -/
def asmResize (f : Asm F) (n : Nat) (v : F) (s : String) (tr : List String) : Asm F × List String :=
  ({ f with terms := resizeTo f.terms n v }, resizeTo tr n s)

/-- Assignment of a scalar (eoScalarFitnessAssembled.h:143-150). -/
def asmAssign (f : Asm F) (v : F) (tr : List String) : Res (Asm F × List String) :=
  match f.terms with
  | [] => pushBack f v tr
  | _ :: t => .ok ({ f with terms := v :: t }, tr)

/-- Conversion to a scalar (eoScalarFitnessAssembled.h:205-210). -/
def asmScalar [Zero F] (f : Asm F) : F :=
  match f.terms with
  | [] => 0
  | x :: _ => x

/-- `operator<` (eoScalarFitnessAssembled.h:219-224). -/
def asmLt (cmp : F → F → Bool) (f g : Asm F) : Bool :=
  match f.terms, g.terms with
  | x :: _, y :: _ => cmp x y
  | _, _ => false

/-- `operator>` (eoScalarFitnessAssembled.h:233). -/
def asmGt (cmp : F → F → Bool) (f g : Asm F) : Bool := asmLt cmp g f

/-- `operator<=` (eoScalarFitnessAssembled.h:236). -/
def asmLe (cmp : F → F → Bool) (f g : Asm F) : Bool := !(asmGt cmp f g)

/-- `operator>=` (eoScalarFitnessAssembled.h:239). -/
def asmGe (cmp : F → F → Bool) (f g : Asm F) : Bool := !(asmLt cmp f g)

/-- `operator<<` (eoScalarFitnessAssembled.h:257-266). -/
def asmPrint [Zero F] [One F] (f : Asm F) : List F := f.terms ++ [boolTok f.feasible, boolTok f.failed]

/-- The loop of `operator>>` over the terms (eoScalarFitnessAssembled.h:271-275): `n` numbers; at the end of the
stream the variable was never given a value. -/
def readTerms : Nat → List F → Option (List F × List F)
  | 0, s => some ([], s)
  | _ + 1, [] => none
  | n + 1, x :: s => (readTerms n s).map fun r => (x :: r.1, r.2)

/-- `operator>>` (eoScalarFitnessAssembled.h:269-281): into a fitness that already has its number of terms. `none` for
the rest of the stream: the stream failed. -/
def asmRead [Zero F] [One F] [DecidableEq F] (f : Asm F) (s : List F) : Res (Asm F × Option (List F)) :=
  match readTerms f.terms.length s with
  | none => .indeterminate
  | some (ts, []) => .ok (⟨ts, f.feasible, f.failed⟩, none)
  | some (ts, [a]) => .ok (⟨ts, (readBool (.num a)).1, f.failed⟩, none)
  | some (ts, a :: b :: rest) =>
    if (readBool (.num a)).2 then
      .ok (⟨ts, (readBool (.num a)).1, (readBool (.num b)).1⟩, if (readBool (.num b)).2 then some rest else none)
    else .ok (⟨ts, (readBool (.num a)).1, f.failed⟩, none)

/-- The loop of `eoAssembledFitnessAverageStat` (utils/eoAssembledFitnessStat.h:68-75). -/
def asmAverageLoop [Field F] (k : Nat) : List (Asm F) → F → Nat → Res (F × Nat)
  | [], result, count => .ok (result, count)
  | f :: fs, result, count =>
    if f.failed = false then
      match f.terms[k]? with
      | some x => asmAverageLoop k fs (result + x) (count + 1)
      | none => .outOfBounds
    else asmAverageLoop k fs result count

/-- `eoAssembledFitnessAverageStat::operator()` (utils/eoAssembledFitnessStat.h:64-78). `thrown`: the exception for a
term that does not exist; the size of the first fitness is looked at whatever the population. The result is the
fraction `sum / count`; a count of zero is a division of doubles by zero. -/
def asmAverage [Field F] (k : Nat) (pop : List (Asm F)) : Res (F × Nat) :=
  match pop with
  | [] => .outOfBounds
  | f :: fs =>
    if f.terms.length ≤ k then .thrown
    else asmAverageLoop k (f :: fs) 0 0

/-- `std::max_element` over assembled fitnesses. -/
def asmMaxElement (cmp : F → F → Bool) : List (Asm F) → Option (Asm F)
  | [] => none
  | x :: xs => some (xs.foldl (fun best y => if asmLt cmp best y then y else best) x)

/-- `eoAssembledFitnessBestStat::operator()` (utils/eoAssembledFitnessStat.h:103-108). -/
def asmBest (cmp : F → F → Bool) (k : Nat) (pop : List (Asm F)) : Res F :=
  match pop with
  | [] => .outOfBounds
  | f :: fs =>
    if f.terms.length ≤ k then .thrown
    else match asmMaxElement cmp (f :: fs) with
      | some b => match b.terms[k]? with
        | some x => .ok x
        | none => .outOfBounds
      | none => .outOfBounds

end Asm

end Paradiseo.Fit
