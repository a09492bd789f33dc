import Mathlib.Algebra.Order.Field.Rat
import Mathlib.Order.Basic
import Mathlib.Logic.Function.Basic

/-!
# eo: particle swarm optimisation

Model of eo/src/PO.h, eoVectorParticle.h, eoStarTopology.h, eoLinearTopology.h, eoRingTopology.h,
eoSocialNeighborhood.h, eoStandardVelocity.h and the other velocities, eoStandardFlight.h, eoEasyPSO.h,
eoSyncEasyPSO.h, eoInitializer.h, eoLinearDecreasingWeightUp.h and eoRealBoundModifier.h.  All particles have
the same number of variables; a vector is a function of its index.  Fitnesses are a linear order in which
larger is better.  A read of an invalid fitness throws: it is the outcome `none`.
-/

namespace Paradiseo.Pso

variable {F : Type} [LinearOrder F]

/-- A vector. -/
abbrev Vec := Nat → ℚ

/-- eoVectorParticle (eoVectorParticle.h 42-151) with PO (PO.h 41-187); `best` is the fitness and `bestPos`
the position that the particle remembers. -/
structure Part (F : Type) where
  pos : Vec
  vel : Vec
  bestPos : Vec
  fit : Option F
  best : F

/-- The population and, for each neighbourhood, its best particle (a copy, eoSocialNeighborhood.h 114-121). -/
structure Swarm (F : Type) where
  pop : Nat → Part F
  nb : Nat → Part F

/-- What the topologies have in common: `look i` is the neighbourhood of which the best particle attracts
the particle `i`, `targets i` are the neighbourhoods the particle `i` informs when it has moved. -/
structure Topo where
  look : Nat → Nat
  targets : Nat → List Nat

/-! ### Topologies -/

/-- eoLinearTopology::setup (eoLinearTopology.h 73-99): the lists of indices of the neighbourhoods for `n`
particles.  The first loop fills `n / ns` neighbourhoods, the second adds the remaining particles, last one
first, to the last neighbourhood. -/
def linearMembers (n ns k : Nat) : List Nat :=
  List.range' (k * ns) ns ++
    if k + 1 = n / ns then (List.range' (n - n % ns) (n % ns)).reverse else []

/-- eoLinearTopology::retrieveNeighborhoodByIndice (eoLinearTopology.h 120-131). -/
def retrieve (n ns i : Nat) : Nat :=
  ((List.range (n / ns)).map (linearMembers n ns)).findIdx fun l => l.contains i

/-- eoLinearTopology (eoLinearTopology.h 137-165). -/
def linearTopo (n ns : Nat) : Topo where
  look := retrieve n ns
  targets i := [retrieve n ns i]

/-- eoStarTopology (eoStarTopology.h 89-111): a single neighbourhood. -/
def starTopo : Topo where
  look _ := 0
  targets _ := [0]

/-- The first value of `unsigned i = -neighborhoodSize+1` (eoRingTopology.h 121). -/
def ringStart (ns : Nat) : Nat := (2 ^ 32 + 1 - ns) % 2 ^ 32

/-- eoRingTopology (eoRingTopology.h 98-140): the loop `for (unsigned i=-neighborhoodSize+1; i <
neighborhoodSize; i++)` over `(_po.size()+_indice+i)%_po.size()`, where `_po.size()` is the number `D` of
variables of the particle. -/
def ringTopo (D ns : Nat) : Topo where
  look i := i
  targets i := (List.range' (ringStart ns) (ns - ringStart ns)).map fun j => (D + i + j) % D

/-- The indices of the `i`-th neighbourhood of the ring (eoRingTopology.h 68-76). -/
def ringMembers (n ns i : Nat) : List Nat := (List.range ns).map fun j => (n + i - ns / 2 + j) % n

/-- `if (_pop[k].fitness() > currentNghd.best().fitness()) currentNghd.best(_pop[k])` over the members
(eoLinearTopology.h 81-98, eoRingTopology.h 73-78). -/
def setupBest (pop : Nat → Part F) : List Nat → Part F → Option (Part F)
  | [], b => some b
  | k :: ks, b =>
    match (pop k).fit, b.fit with
    | some f, some g => setupBest pop ks (if g < f then pop k else b)
    | _, _ => none

/-- `_pop.best_element()` (eoPop.h 223-233) with the order of eoVectorParticle.h 128-134, which compares the
remembered fitnesses: the first of the greatest. -/
def bestElement (pop : Nat → Part F) (n : Nat) : Part F :=
  (List.range n).foldl (fun b k => if b.best < (pop k).best then pop k else b) (pop 0)

/-- globalBest (eoLinearTopology.h 171-190, eoRingTopology.h 162-181): of the bests of the `count`
neighbourhoods, the first one with the greatest remembered fitness. -/
def globalBest (nb : Nat → Part F) (count : Nat) : Part F :=
  (List.range' 1 (count - 1)).foldl (fun b k => if b.best < (nb k).best then nb k else b) (nb 0)

/-! ### Particles -/

/-- The first part of updateNeighborhood, the same in all topologies (eoStarTopology.h 92-97). -/
def personal (p : Part F) : Option (Part F) :=
  match p.fit with
  | none => none
  | some f => some (if p.best < f then { p with best := f, bestPos := p.pos } else p)

/-- `if (_po.fitness() > neighborhoods[k].best().fitness()) neighborhoods[k].best(_po)`
(eoStarTopology.h 99-102, eoLinearTopology.h 149-152, eoRingTopology.h 124-125). -/
def improve (p : Part F) (nb : Nat → Part F) (k : Nat) : Option (Nat → Part F) :=
  match p.fit, (nb k).fit with
  | some f, some g => some (if g < f then Function.update nb k p else nb)
  | _, _ => none

/-- The second part: all neighbourhoods that are informed. -/
def improveAll (p : Part F) : List Nat → (Nat → Part F) → Option (Nat → Part F)
  | [], nb => some nb
  | k :: ks, nb =>
    match improve p nb k with
    | none => none
    | some nb' => improveAll p ks nb'

/-- updateNeighborhood (eoStarTopology.h 89-103, eoLinearTopology.h 137-153, eoRingTopology.h 110-127). -/
def updateNbh (T : Topo) (s : Swarm F) (i : Nat) : Option (Swarm F) :=
  match personal (s.pop i) with
  | none => none
  | some p =>
    match improveAll p (T.targets i) s.nb with
    | none => none
    | some nb => some { pop := Function.update s.pop i p, nb := nb }

/-- A bound of one variable (utils/eoRealBounds.h): minimum and maximum, if any. -/
structure Bnd where
  lo : Option ℚ
  hi : Option ℚ

/-- `if (isMinBounded(j)) v = max(v, minimum(j)); if (isMaxBounded(j)) v = min(v, maximum(j))`
(eoStandardVelocity.h 154-157, eoStandardFlight.h 91-94). -/
def Bnd.clamp (b : Bnd) (v : ℚ) : ℚ :=
  let v := match b.lo with
    | none => v
    | some lo => max v lo
  match b.hi with
  | none => v
  | some hi => min v hi

/-- The new velocity of a variable in eoStandardVelocity (eoStandardVelocity.h 151) and, with the weight as
`omega`, in eoFixedInertiaWeightedVelocity.h 151 and eoVariableInertiaWeightedVelocity.h 157. -/
def standardRule (omega r1 r2 v x pb lb : ℚ) : ℚ := omega * v + r1 * (pb - x) + r2 * (lb - x)

/-- eoConstrictedVariableWeightVelocity (eoConstrictedVariableWeightVelocity.h 165) and, with the weight one,
eoConstrictedVelocity (eoConstrictedVelocity.h 153). -/
def constrictedRule (coeff w r1 r2 v x pb lb : ℚ) : ℚ := coeff * (w * v + r1 * (pb - x) + r2 * (lb - x))

/-- A velocity: `rule` is one of the above with the numbers drawn once for the particle, `lb` the best
particle of the neighbourhood (eoStandardVelocity.h 134-161). -/
def newVel (rule : ℚ → ℚ → ℚ → ℚ → ℚ) (bnd : Nat → Bnd) (p lb : Part F) : Vec :=
  fun j => (bnd j).clamp (rule (p.vel j) (p.pos j) (p.bestPos j) (lb.pos j))

/-- eoStandardFlight (eoStandardFlight.h 78-100). -/
def newPos (bnd : Nat → Bnd) (x v : Vec) : Vec := fun j => (bnd j).clamp (x j + v j)

/-! ### Algorithms -/

/-- The parts of an algorithm: the velocity and the flight are arbitrary functions of the generation, the
index and the particles involved; `eval` is the evaluation function. -/
structure Algo (F : Type) where
  n : Nat
  topo : Topo
  velo : Nat → Nat → Part F → Part F → Vec
  fly : Nat → Nat → Vec → Vec → Vec
  eval : Vec → F

/-- `velocity(_pop[i], i)`. -/
def Algo.veloOne (A : Algo F) (g : Nat) (s : Swarm F) (i : Nat) : Swarm F :=
  let p := s.pop i
  { s with pop := Function.update s.pop i { p with vel := A.velo g i p (s.nb (A.topo.look i)) } }

/-- `flight(_pop[i])`: the particle moves and is invalidated (eoStandardFlight.h 96-99). -/
def Algo.flyOne (A : Algo F) (g : Nat) (s : Swarm F) (i : Nat) : Swarm F :=
  let p := s.pop i
  { s with pop := Function.update s.pop i { p with pos := A.fly g i p.pos p.vel, fit := none } }

/-- `eval(_pop[i])`: an evaluation function sets the fitness of an invalid individual
(eoEvalFuncPtr.h, eoPopEvalFunc.h). -/
def Algo.evalOne (A : Algo F) (s : Swarm F) (i : Nat) : Swarm F :=
  let p := s.pop i
  { s with pop := Function.update s.pop i { p with fit := some (A.eval p.pos) } }

/-- A loop that may throw. -/
def foldM? {σ : Type} (f : σ → Nat → Option σ) : List Nat → σ → Option σ
  | [], s => some s
  | i :: is, s =>
    match f s i with
    | none => none
    | some s' => foldM? f is s'

/-- One generation of eoEasyPSO (eoEasyPSO.h 139-152). -/
def Algo.genAsync (A : Algo F) (g : Nat) (s : Swarm F) : Option (Swarm F) :=
  foldM? (fun s i => updateNbh A.topo (A.evalOne (A.flyOne g (A.veloOne g s i) i) i) i) (List.range A.n) s

/-- One generation of eoSyncEasyPSO (eoSyncEasyPSO.h 195-204). -/
def Algo.genSync (A : Algo F) (g : Nat) (s : Swarm F) : Option (Swarm F) :=
  let s1 := (List.range A.n).foldl (A.veloOne g) s
  let s2 := (List.range A.n).foldl (A.flyOne g) s1
  let s3 := (List.range A.n).foldl A.evalOne s2
  foldM? (updateNbh A.topo) (List.range A.n) s3

/-- `K` generations; how many there are is decided by the continuator. -/
def Algo.run (gen : Nat → Swarm F → Option (Swarm F)) : Nat → Swarm F → Option (Swarm F)
  | 0, s => some s
  | K + 1, s =>
    match Algo.run gen K s with
    | none => none
    | some t => gen K t

/-- eoInitializer (eoInitializer.h 105-113) with eoFirstIsBestInit (eoParticleBestInit.h 68-76): the
particles are evaluated, get their velocities and remember where they are. -/
def initPart (eval : Vec → F) (x v : Vec) : Part F :=
  { pos := x, vel := v, bestPos := x, fit := some (eval x), best := eval x }

/-! ### Weights and bounds that change -/

/-- eoLinearDecreasingWeightUp (eoLinearDecreasingWeightUp.h 63-67) with unsigned counters: `stop -
counter.value()` wraps. -/
def linearWeight (stop : Nat) (ini fin : ℚ) (counter : Nat) : ℚ :=
  (ini - fin) * (((stop + 2 ^ 32 - counter) % 2 ^ 32 : ℕ) : ℚ) / (stop : ℚ) + fin

/-- eoExpDecayingBoundModifier (eoRealBoundModifier.h 93-99): `c` is `pow(gen / stop, alpha)`, the result is
the new maximum. -/
def decayMax (c lo hi : ℚ) : ℚ := max lo ((1 - c) * hi)

end Paradiseo.Pso
