import Verif.Model.Moeo
import Verif.Model.MoeoFitness
import Mathlib.Algebra.Order.Ring.Rat
import Mathlib.Algebra.Field.Rat
/-
The evolutionary algorithms of MOEO.

* moeo/src/algo/moeoNSGAII.h (operator() 132-149), with
  moeo/src/replacement/moeoElitistReplacement.h (101-116) and
  moeo/src/fitness/moeoDominanceDepthFitnessAssignment.h
* moeo/src/algo/moeoSEEA.h (operator() 132-150, constructors 76-125)
* moeo/src/algo/moeoASEEA.h (operator() 145-160), moeo/src/selection/moeoDetArchiveSelect.h (60-91),
  moeo/src/selection/moeoSelectFromPopAndArch.h (81-93)
* moeo/src/algo/moeoEasyEA.h (operator() 128-168)

What selection, variation operators and evaluation do is not modelled: `breed t pop` is the
evaluated offspring of generation `t`, an oracle.  The crowding distance is any function that gives
one number to each individual.  Fitness is a natural number here (the code stores the rank in a
double).  The ranks are those of
`mObjectives`, used for more than two objectives; `C38_one` and `C39_agree` show that the procedures for
one and two objectives give the same ranks to distinct vectors (with equal vectors the two-objective one
does not, `C39_duplicates`).
-/
namespace Paradiseo.Moeo.Ea

/-- Outcomes of a run. `ub`: undefined behaviour; `unfinished`: the fuel is used up. -/
inductive Out (α : Type) where
  | done (a : α)
  | thrown
  | ub
  | unfinished
  deriving DecidableEq, Repr

/-! ### NSGA-II -/

/-- An individual: objective vector, fitness, diversity (`MOEO`, core/MOEO.h). -/
structure NInd (V : Type) where
  ov : V
  fit : Nat
  div : ℚ
  deriving DecidableEq, Repr

variable {V X : Type}

/-- `comparator(_pop[q], _pop[p])` of `mObjectives`
(fitness/moeoDominanceDepthFitnessAssignment.h:293-311): `p` dominates `q`. -/
def domAt (cmp : V → V → Bool) (vs : List V) (p q : Nat) : Bool :=
  match vs[p]?, vs[q]? with
  | some a, some b => cmp b a
  | _, _ => false

/-- The ranks of all individuals, in the order of the population. -/
def ranks (cmp : V → V → Bool) (vs : List V) : Option (List Nat) :=
  (mObjectives (domAt cmp vs) vs.length).bind fun f => (List.range vs.length).mapM f

/-- `moeoDominanceDepthFitnessAssignment::operator()` (81-119). `none`: empty population (`_pop[0]`). -/
def depthAssign (cmp : V → V → Bool) (pop : List (NInd V)) : Option (List (NInd V)) :=
  ((ranks cmp (pop.map (·.ov))).bind depthFinal).map fun fs =>
    List.zipWith (fun x f => { x with fit := f }) pop fs

/-- The diversity assignment: `crowd` gives the value of the individual at each position. -/
def divAssign (crowd : List (NInd V) → Nat → ℚ) (pop : List (NInd V)) : List (NInd V) :=
  pop.mapIdx fun i x => { x with div := crowd pop i }

/-- `fitnessAssignment(_pop); diversityAssignment(_pop)` (moeoNSGAII.h:137-138,
moeoElitistReplacement.h:107-109). -/
def assign (cmp : V → V → Bool) (crowd : List (NInd V) → Nat → ℚ) (pop : List (NInd V)) :
    Option (List (NInd V)) := (depthAssign cmp pop).map (divAssign crowd)

/-- `moeoFitnessThenDiversityComparator`. -/
def worse (a b : NInd V) : Bool := ftdCmp ((a.fit : ℚ), a.div) ((b.fit : ℚ), b.div)

/-- `moeoElitistReplacement::operator()` (101-116) with these assignments: merge, assign, sort, resize. -/
def replaceStep (cmp : V → V → Bool) (crowd : List (NInd V) → Nat → ℚ)
    (sort : List (NInd V) → List (NInd V)) (parents offspring : List (NInd V)) :
    Option (List (NInd V)) :=
  (assign cmp crowd (parents ++ offspring)).map fun l => (sort l).take parents.length

/-- What the caller of NSGA-II supplies. -/
structure NCfg (V : Type) where
  cmp : V → V → Bool
  crowd : List (NInd V) → Nat → ℚ
  sort : List (NInd V) → List (NInd V)
  breed : Nat → List (NInd V) → List (NInd V)
  cont : Nat → List (NInd V) → Bool

/-- The do-while loop of `moeoNSGAII::operator()` (139-148) from generation `t` on. -/
def NCfg.loop (C : NCfg V) : Nat → Nat → List (NInd V) → Out (List (NInd V))
  | 0, _, _ => .unfinished
  | fuel + 1, t, pop =>
    match replaceStep C.cmp C.crowd C.sort pop (C.breed t pop) with
    | none => .ub
    | some pop => if C.cont t pop then C.loop fuel (t + 1) pop else .done pop

/-- `moeoNSGAII::operator()` (132-149). -/
def NCfg.run (C : NCfg V) (fuel : Nat) (pop : List (NInd V)) : Out (List (NInd V)) :=
  match assign C.cmp C.crowd pop with
  | none => .ub
  | some pop => C.loop fuel 0 pop

/-! ### SEEA -/

/-- The constructors of `moeoSEEA` by what they do with the operator: the first three (76-105) give
the operator to `genBreed`; the last two (111-125) take a transform. -/
inductive SeeaOp (X : Type) where
  | genOp (breed : Nat → List X → List X → List X)
  | transform (tr : Nat → List X → List X) (draw : Nat → Nat → Nat)

/-- What `moeoSelectFromPopAndArch` with ratio 0 (selection/moeoSelectFromPopAndArch.h:81-93) draws
from: the archive unless it is empty (`flip(0.0)` is false). -/
def source (pop arch : List X) : List X := if arch.length > 0 then arch else pop

/-- `genBreed(_pop, offspring)` with `eoSGAGenOp(…, 0.0, …, 0.0)` (`C95_sga_no_rates`: copies of the
selected individuals): as many as the population has. -/
def cloneBreed (draw : Nat → Nat → Nat) (t : Nat) (pop arch : List X) : List X :=
  (List.range pop.length).filterMap fun k =>
    (source pop arch)[draw t k % (source pop arch).length]?

/-- `genBreed(_pop, offspring)` in `operator()` (139-140): `genBreed` whatever the constructor, not
`breed`. -/
def seeaBreed : SeeaOp X → Nat → List X → List X → List X
  | .genOp b => b
  | .transform _ draw => cloneBreed draw

/-- The loop of `moeoSEEA::operator()` (137-149). Third component of the result: the populations the
continuator was given. -/
def seeaLoop (A : ArchCfg X V) (op : SeeaOp X) (cont : Nat → List X → Bool) :
    Nat → Nat → List X → List X → List (List X) → Out (List X × List X × List (List X))
  | 0, _, _, _, _ => .unfinished
  | fuel + 1, t, pop, arch, seen =>
    if cont t pop then
      seeaLoop A op cont fuel (t + 1) pop (updatePop A arch (seeaBreed op t pop arch)).1 (seen ++ [pop])
    else .done (pop, arch, seen ++ [pop])

/-- `moeoSEEA::operator()` (132-150) on a population and an archive object. -/
def seea (A : ArchCfg X V) (op : SeeaOp X) (cont : Nat → List X → Bool) (fuel : Nat)
    (pop arch : List X) : Out (List X × List X × List (List X)) :=
  seeaLoop A op cont fuel 0 pop (updatePop A arch pop).1 []

/-! ### ASEEA -/

/-- `moeoDetArchiveSelect::operator()` (selection/moeoDetArchiveSelect.h:60-91); `dest` is what the
destination held before; `perm` is the shuffled list of indices.  `ub`: `i % 0`. -/
def detArchiveSelect (mx mn : Nat) (perm : List Nat → List Nat) (arch dest : List X) : Out (List X) :=
  if mx < mn then .done dest
  else if mn ≤ arch.length ∧ arch.length ≤ mx then .done arch
  else if mx < arch.length then
    .done (((perm (List.range arch.length)).take mx).filterMap fun i => arch[i]?)
  else if arch.length = 0 then .ub
  else .done ((List.range mn).filterMap fun i => arch[i % arch.length]?)

/-- The loop of `moeoASEEA::operator()` (150-159): parents from the archive, offspring to the archive,
the population is emptied.  `tr t` is transformation and evaluation. -/
def aseeaLoop (A : ArchCfg X V) (mx : Nat) (perm : Nat → List Nat → List Nat)
    (tr : Nat → List X → List X) (cont : Nat → List X → Bool) :
    Nat → Nat → List X → List X → List (List X) → Out (List X × List X × List (List X))
  | 0, _, _, _, _ => .unfinished
  | fuel + 1, t, pop, arch, seen =>
    if cont t pop then
      match detArchiveSelect mx 0 (perm t) arch [] with
      | .done par =>
        aseeaLoop A mx perm tr cont fuel (t + 1) [] (updatePop A arch (tr t par)).1 (seen ++ [pop])
      | .thrown => .thrown
      | .ub => .ub
      | .unfinished => .unfinished
    else .done (pop, arch, seen ++ [pop])

/-- `moeoASEEA::operator()` (145-160). -/
def aseea (A : ArchCfg X V) (mx : Nat) (perm : Nat → List Nat → List Nat)
    (tr : Nat → List X → List X) (cont : Nat → List X → Bool) (fuel : Nat) (pop arch : List X) :
    Out (List X × List X × List (List X)) :=
  aseeaLoop A mx perm tr cont fuel 0 pop (updatePop A arch pop).1 []

/-! ### moeoEasyEA -/

/-- What the caller supplies: `assign` is fitness and diversity assignment, `breed` breeding and
evaluation, `replace` the replacement, `flag` is `evalFitAndDivBeforeSelection`. -/
structure ECfg (X : Type) where
  assign : List X → List X
  breed : Nat → List X → List X
  replace : List X → List X → List X
  cont : Nat → List X → Bool
  flag : Bool

/-- The do-while loop of `moeoEasyEA::operator()` (132-167).  `thrown`: `eoPopSizeChangeException`. -/
def ECfg.loop (C : ECfg X) : Nat → Nat → Bool → List X → Out (List X)
  | 0, _, _, _ => .unfinished
  | fuel + 1, t, first, pop =>
    let pop₁ := if C.flag || first then C.assign pop else pop
    let pop₂ := C.replace pop₁ (C.breed t pop₁)
    if pop.length > pop₂.length then .thrown
    else if pop.length < pop₂.length then .thrown
    else if C.cont t pop₂ then C.loop fuel (t + 1) false pop₂ else .done pop₂

/-- `moeoEasyEA::operator()` (128-168). -/
def ECfg.run (C : ECfg X) (fuel : Nat) (pop : List X) : Out (List X) := C.loop fuel 0 true pop

end Paradiseo.Moeo.Ea
