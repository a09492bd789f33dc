import Verif.Model.State
/-
The exceptions: eo/src/eoExceptions.h 33-337, and what the loop of the parallel master makes of one:
eo/src/mpi/eoMpi.h 735-740.

Texts are lists of characters; numbers are printed in decimal.
-/
namespace Paradiseo.Exceptions

open Paradiseo.State

/-- The characters of a literal. -/
def lit (s : String) : Text := s.toList

/-- An exception object: the class and the arguments of its constructor (eoExceptions.h). Default arguments are those of
the header. -/
inductive Exc where
  | base (msg : Text)                                  -- eoException 33-55
  | invalidFitness (msg : Text := "Invalid fitness".toList) -- 58-63
  | popSize (size : Nat) (msg : Text := [])            -- 66-89
  | popSizeChange (size size' : Nat) (msg : Text := []) -- 92-117
  | stop (msg : Text := [])                            -- 124-129
  | max (msg : Text := [])                             -- 133-138
  | nan                                                -- 148-155
  | maxTime (elapsed : Nat)                            -- 165-185
  | maxEval (threshold : Nat)                          -- 195-215
  | param (msg : Text := [])                           -- 218-222
  | missingParam (name : Text)                         -- 231-250
  | wrongParamType (name : Text)                       -- 260-280
  | system (cmd : Text) (code : Option (Int × Text))   -- 284-317; `none`: the first constructor
  | file (name : Text)                                 -- 320-337

/-- Decimal digits of an `int`. -/
def showInt (i : Int) : Text := if i < 0 then '-' :: showNat i.natAbs else showNat i.natAbs

/-- The member `_msg` of eoException after construction (eoExceptions.h 36-39 and the base initialisers of the classes).
The classes 66-117 have a member of the same name of their own. -/
def Exc.baseMsg : Exc → Text
  | .base m => m
  | .invalidFitness m => m
  | .popSize _ _ => []
  | .popSizeChange _ _ _ => []
  | .stop m => m
  | .max m => m
  | .nan => lit "The objective function returned a bad value (nan or inf)"
  | .maxTime _ => []
  | .maxEval _ => []
  | .param m => m
  | .missingParam _ => []
  | .wrongParamType _ => []
  | .system _ _ => []
  | .file _ => []

/-- what() (eoExceptions.h 46-49): not overridden. Texts contain no null character. -/
def Exc.what (e : Exc) : Text := e.baseMsg

/-- message() (eoExceptions.h 41-44, 75-83, 102-110, 173-179, 203-209, 239-244, 268-274, 297-308, 328-333). -/
def Exc.message : Exc → Text
  | .popSize n m => lit "Bad population size: " ++ showNat n ++ (if m ≠ [] then lit ", " ++ m else [])
  | .popSizeChange a b m => lit "Population size changed from " ++ showNat a ++ lit " to " ++ showNat b ++
      (if m ≠ [] then lit ", " ++ m else [])
  | .maxTime t => lit "The maximum number of allowed seconds has been reached (" ++ showNat t ++ lit ")"
  | .maxEval t => lit "The maximum number of evaluation has been reached (" ++ showNat t ++ lit ")."
  | .missingParam n => lit "The command parameter " ++ n ++ lit " has not been declared"
  | .wrongParamType n => lit "You asked for the parameter " ++ n ++
      lit " but it has not been declared under this type"
  | .system cmd code => lit "System call: `" ++ cmd ++ lit "` ended with error" ++
      match code with
      | none => []
      | some (c, out) => lit " code #" ++ showInt c ++
          if out ≠ [] then lit " with the following output:\n" ++ out else []
  | .file n => lit "Could not open file: " ++ n
  | e => e.baseMsg

/-- What the loop of the master throws when a task throws `e` (eoMpi.h 735-740): the text of a std::runtime_error. -/
def mpiRethrown (e : Exc) : Text := e.what ++ lit " in eoMpi loop"

end Paradiseo.Exceptions
