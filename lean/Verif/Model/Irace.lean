import Verif.Model.State
import Verif.Model.EOReplacement
/-
The program that lets irace configure the genetic algorithm: eo/contrib/irace/fastga.cpp 126-170 (the lines describing the
parameters), 298-347 (the problem) and 395-400 (the generations).

`std::size_t` is a 64-bit unsigned number; the quotient of two of them as doubles is taken to be exact.
-/
namespace Paradiseo.Irace

open Paradiseo.EO Paradiseo.State

def W : Nat := 2 ^ 64

/-- A line for irace: whether it is commented out, and the values offered. -/
structure CatLine where
  commented : Bool
  values : List Nat

/-- print_irace_categorical (fastga.cpp 126-146): `slot_size - 1 <= 0` on unsigned numbers. -/
def categorical (slotSize : Nat) : CatLine :=
  ⟨decide ((slotSize + W - 1) % W ≤ 0), 0 :: (List.range' 1 (slotSize - 1))⟩

/-- A line for a range: `none` is the text `(?)`. -/
structure RangeLine (T : Type) where
  commented : Bool
  range : Option (T × T)

/-- print_irace_ranged for `size_t` (fastga.cpp 148-170). -/
def rangedNat (mn mx : Nat) : RangeLine Nat :=
  let d := (mx + W - mn) % W
  ⟨decide (d ≤ 0), if d ≤ 0 then none else some (mn, mx)⟩

/-- print_irace_ranged for `double` (fastga.cpp 148-170), with doubles as integers of some unit. -/
def rangedDouble (mn mx : Int) : RangeLine Int :=
  ⟨decide (mx - mn ≤ 0), if mx - mn ≤ 0 then none else some (mn, mx)⟩

/-- The name for irace (fastga.cpp 134-135, 157-158). -/
def iraceName (longName : Text) : Text := longName.filter (· ≠ '-')

/-- The number of generations (fastga.cpp 395-400); the conversion of an infinity or of NaN is undefined. -/
def generations (maxEvals popSize : Nat) : Except Err Nat :=
  if popSize = 0 then .error .ub
  else
    let g := maxEvals / popSize
    .ok (if g < 1 then 1 else g)

end Paradiseo.Irace
