/-
Model of individuals and their fitness validity (eo/src/EO.h) and of the evaluators which rely on
it: eoEvalFuncPtr, eoEvalFuncCounter, moFullEvalByCopy, moFullEvalByModif.

Simplifications: the fitness type is abstract; C++ exceptions are `none`.
-/
namespace Paradiseo.EO

/-- An individual: its representation and the two private fields of `EO<F>`
(eo/src/EO.h:165-168). -/
structure Ind (G F : Type) where
  genome : G
  repFitness : F
  invalidFitness : Bool
  deriving DecidableEq

variable {G F : Type}

/-- `EO()` (EO.h:69): default fitness, invalid. -/
def Ind.new [Inhabited F] (g : G) : Ind G F := ⟨g, default, true⟩

/-- `fitness() const` (EO.h:79-83): throws (`none`) when invalid. -/
def Ind.fitness (x : Ind G F) : Option F := if x.invalidFitness then none else some x.repFitness

/-- `invalidate()` (EO.h:93). -/
def Ind.invalidate [Inhabited F] (x : Ind G F) : Ind G F :=
  { x with invalidFitness := true, repFitness := default }

/-- `fitness(const Fitness&)` (EO.h:98-102). -/
def Ind.setFitness (x : Ind G F) (f : F) : Ind G F :=
  { x with repFitness := f, invalidFitness := false }

/-- `invalid()` (EO.h:107). -/
def Ind.invalid (x : Ind G F) : Bool := x.invalidFitness

/-- `operator<` (EO.h:112): throws when one fitness is invalid. -/
def Ind.lt [LT F] [DecidableRel (α := F) (· < ·)] (x y : Ind G F) : Option Bool := do
  let a ← x.fitness; let b ← y.fitness; pure (decide (a < b))

/-- `operator>` (EO.h:113): `!(fitness() <= _eo2.fitness())`. -/
def Ind.gt [LE F] [DecidableRel (α := F) (· ≤ ·)] (x y : Ind G F) : Option Bool := do
  let a ← x.fitness; let b ← y.fitness; pure (!decide (a ≤ b))

/-- What is written for the fitness: the tag `INVALID` or the value (EO.h:149-162). The printed
value is kept as a value (text formatting of numbers is not modelled). -/
inductive Token (F : Type) where
  | invalid
  | value (f : F)
  deriving DecidableEq

/-- `printOn` (EO.h:149-162). -/
def Ind.printOn (x : Ind G F) : Token F := if x.invalid then .invalid else .value x.repFitness

/-- `readFrom` (EO.h:127-143): on the tag only the flag is changed. -/
def Ind.readFrom (x : Ind G F) : Token F → Ind G F
  | .invalid => { x with invalidFitness := true }
  | .value f => { x with invalidFitness := false, repFitness := f }

/-- `eoEvalFuncPtr::operator()` (eo/src/eoEvalFuncPtr.h:57-61): evaluates only invalid
individuals. -/
def evalFuncPtr (f : G → F) (x : Ind G F) : Ind G F :=
  if x.invalid then x.setFitness (f x.genome) else x

/-- `eoEvalFuncCounter::operator()` (eo/src/eoEvalFuncCounter.h:46-55) around `eoEvalFuncPtr`;
state: the counter. -/
def evalCounter (f : G → F) (c : Nat) (x : Ind G F) : Nat × Ind G F :=
  if x.invalid then (c + 1, evalFuncPtr f x) else (c, x)

/-- `apply(eval, pop)` (eo/src/apply.h:48-100, sequential order) with the counting evaluator,
i.e. `eoPopLoopEval` (eoPopEvalFunc.h:80-84). -/
def evalPop (f : G → F) : Nat → List (Ind G F) → Nat × List (Ind G F)
  | c, [] => (c, [])
  | c, x :: pop =>
    let (c', x') := evalCounter f c x
    let (c'', pop') := evalPop f c' pop
    (c'', x' :: pop')

/-- A (backable) neighbour: its move and its undo, arbitrary functions on individuals (they may
also touch the fitness), and the stored fitness (mo/src/neighborhood/moNeighbor.h). -/
structure Neighbor (G F : Type) where
  move : Ind G F → Ind G F
  moveBack : Ind G F → Ind G F
  fit : Option F

/-- `moFullEvalByCopy::operator()` (mo/src/eval/moFullEvalByCopy.h:62-73).
Result: the solution after the call and the neighbour. -/
def fullEvalByCopy [Inhabited F] (f : G → F) (sol : Ind G F) (nb : Neighbor G F) :
    Option (Ind G F × Neighbor G F) := do
  let tmp := nb.move sol
  let tmp := tmp.invalidate
  let tmp := evalFuncPtr f tmp
  let v ← tmp.fitness
  pure (sol, { nb with fit := some v })

/-- `moFullEvalByModif::operator()` (mo/src/eval/moFullEvalByModif.h:66-89); throws when the
solution has no valid fitness. -/
def fullEvalByModif [Inhabited F] (f : G → F) (sol : Ind G F) (nb : Neighbor G F) :
    Option (Ind G F × Neighbor G F) := do
  let tmpFit ← sol.fitness
  let sol := nb.move sol
  let sol := sol.invalidate
  let sol := evalFuncPtr f sol
  let v ← sol.fitness
  let sol := nb.moveBack sol
  pure (sol.setFitness tmpFit, { nb with fit := some v })

end Paradiseo.EO
