import Verif.Model.EO
import Verif.Model.EOSelect
import Verif.Model.EOBounds
import Mathlib.Data.Real.Basic
import Mathlib.Analysis.Real.Pi.Bounds

/-!
# eo: initialisers, generators, combined operators, updaters

Model of eo/src/eoInit.h, eoCombinedInit.h, eoProportionalCombinedOp.h, eoFlOrMonOp.h, eoCounter.h,
utils/eoUniformInit.h, utils/rnd_generators.h, utils/eoUpdater.h, utils/eoUpdater.cpp, es/eoRealInitBounded.h and
es/eoEsChromInit.h.

An individual is its genes and its fitness (`none` when invalid).  The results of a generator, of `rng.random`, of
`rng.uniform()` and of `rng.flip` are functions of the number of the draw.  `double` is an ordered field.
-/

namespace Paradiseo.Init

open Paradiseo.EO (Err)
open Paradiseo.Ops (rnd)
open Paradiseo.Sel (rngRoulette)

variable {α β F : Type*}

/-- An individual with its genes. -/
structure Chrom (α F : Type*) where
  genes : List α
  fit : Option F

/-! ### Initialisers -/

/-- `std::generate(chrom.begin(), chrom.end(), _generator)` (eoInit.h 125): `n` places, draws from number `t` on. -/
def generate (gen : Nat → α) : Nat → Nat → List α
  | 0, _ => []
  | n + 1, t => gen t :: generate gen n (t + 1)

/-- eoInitFixedLength::operator() (eoInit.h 122-127). -/
def fixedLength (dim : Nat) (gen : Nat → α) (_chrom : Chrom α F) : Chrom α F := ⟨generate gen dim 0, none⟩

/-- `vector::resize`. -/
def resize (dflt : α) (n : Nat) (l : List α) : List α := l.take n ++ List.replicate (n - l.length) dflt

/-- `for (it...) init(*it);` (eoInit.h 165-167): the initialiser is given the atom that is there. -/
def initAtoms (init : Nat → α → α) : Nat → List α → List α
  | _, [] => []
  | t, a :: l => init t a :: initAtoms init (t + 1) l

/-- eoInitVariableLength (eoInit.h 154-169): the constructor and one call; `r` are the results of `rng.random`. -/
def variableLength (minSize maxSize : Nat) (dflt : α) (r : Nat → Nat) (init : Nat → α → α) (chrom : Chrom α F) :
    Except Err (Chrom α F) :=
  if minSize ≥ maxSize then .error .thrown
  else .ok ⟨initAtoms init 1 (resize dflt (minSize + rnd r 0 (maxSize - minSize)) chrom.genes), none⟩

/-- eoInitPermutation::operator() (eoInit.h 194-205): unsigned values from `startFrom` on; `shuffle` is what
`std::shuffle` does with a generator seeded by `std::random_device`. -/
def initPermutation (chromSize startFrom : Nat) (shuffle : List Nat → List Nat) (_chrom : Chrom Nat F) : Chrom Nat F :=
  ⟨shuffle ((List.range chromSize).map fun idx => (idx + startFrom) % 2 ^ 32), none⟩

/-- eoInitAdaptor::operator() (eoInit.h 229-233). -/
def initAdaptor (init : Chrom α F → Chrom α F) (x : Chrom α F) : Bool × Chrom α F := (true, init x)

/-! ### Combined operators -/

/-- The two vectors of eoPropCombinedMonOp, eoPropCombinedBinOp, eoPropCombinedQuadOp
(eoProportionalCombinedOp.h 111-112, 158-159, 228-229) and eoCombinedInit (eoCombinedInit.h 90-91). -/
structure Combined (β K : Type*) where
  ops : List β
  rates : List K

/-- The constructors (eoProportionalCombinedOp.h 76-80, 127-131, 181-185; eoCombinedInit.h 40-45). -/
def Combined.new (first : β) (rate : F) : Combined β F := ⟨[first], [rate]⟩

/-- `add` (eoProportionalCombinedOp.h 84-91, 135-150, 202-208; eoCombinedInit.h 57-63), without the message. -/
def Combined.add (c : Combined β F) (op : β) (rate : F) : Combined β F := ⟨c.ops ++ [op], c.rates ++ [rate]⟩

/-- The constructor and several calls of `add`. -/
def Combined.build (first : β × F) (more : List (β × F)) : Combined β F :=
  more.foldl (fun c p => c.add p.1 p.2) (.new first.1 first.2)

/-- `unsigned what = rng.roulette_wheel(rates); return (*ops[what])(...)` (eoProportionalCombinedOp.h 107-108, 154-155,
224-225; eoCombinedInit.h 82-83): the operator that is called. -/
def Combined.pick [Field F] [LinearOrder F] (c : Combined β F) (u : F) : Except Err β :=
  match rngRoulette c.rates 0 u with
  | .error e => .error e
  | .ok what =>
    match c.ops[what]? with
    | some op => .ok op
    | none => .error .ub

/-! ### Mutations of atoms -/

/-- eoFlOrAllMutation::operator() (eoFlOrMonOp.h 60-69) from atom number `i` on; `atom i` is the atom mutation as
called for atom `i`: what it returns and leaves. -/
def flOrAll (flip : Nat → Bool) (atom : Nat → α → Bool × α) : Nat → List α → Bool × List α
  | _, [] => (false, [])
  | i, a :: l =>
    let rest := flOrAll flip atom (i + 1) l
    if flip i then ((atom i a).1 || rest.1, (atom i a).2 :: rest.2) else (rest.1, a :: rest.2)

/-- eoFlOrKMutation::operator() (eoFlOrMonOp.h 98-108) from round `k` on, `n` rounds left. -/
def flOrK (r : Nat → Nat) (atom : Nat → α → Bool × α) : Nat → Nat → List α → Except Err (Bool × List α)
  | 0, _, l => .ok (false, l)
  | n + 1, k, l =>
    match l[rnd r k l.length]? with
    | none => .error .ub
    | some a =>
      match flOrK r atom n (k + 1) (l.set (rnd r k l.length) (atom k a).2) with
      | .error e => .error e
      | .ok (m, l') => .ok ((atom k a).1 || m, l')

/-! ### Counters and updaters -/

/-- One call of eoProcedureCounter, eoUnaryFunctorCounter or eoBinaryFunctorCounter (eoCounter.h 66-74, 119-128,
167-177): the `unsigned long` is incremented before the function is called, so also if that throws. -/
def counted (f : α → Except Err β) (count : Nat) (x : α) : Except Err β × Nat := (f x, (count + 1) % 2 ^ 64)

/-- Several calls, exceptions being caught in between. -/
def countedRun (f : α → Except Err β) : Nat → List α → List (Except Err β) × Nat
  | c, [] => ([], c)
  | c, x :: xs =>
    let r := counted f c x
    let rest := countedRun f r.2 xs
    (r.1 :: rest.1, rest.2)

/-- eoCountedStateSaver::operator() (eoUpdater.cpp 36-40): the number in the name of the file written, if any, and the
counter.  An interval of 0 is a division by zero. -/
def saverCall (interval counter : Nat) : Except Err (Option Nat × Nat) :=
  if interval = 0 then .error .ub
  else
    let c := (counter + 1) % 2 ^ 32
    .ok (if c % interval = 0 then some c else none, c)

/-- `n` calls: the numbers of the files in the order of writing, and the counter. -/
def saverRun (interval : Nat) : Nat → Nat → Except Err (List Nat × Nat)
  | 0, counter => .ok ([], counter)
  | n + 1, counter =>
    match saverCall interval counter with
    | .error e => .error e
    | .ok (w, c) =>
      match saverRun interval n c with
      | .error e => .error e
      | .ok (ws, c') => .ok (w.toList ++ ws, c')

/-- A run: `n` calls and eoCountedStateSaver::lastCall (eoUpdater.cpp 42-46). -/
def saverWhole (interval : Nat) (saveOnLastCall : Bool) (n counter : Nat) : Except Err (List Nat) :=
  match saverRun interval n counter with
  | .error e => .error e
  | .ok (ws, c) => .ok (ws ++ if saveOnLastCall then [c] else [])

/-- eoTimedStateSaver::operator() (eoUpdater.cpp 16-27) at the times `ts`: the times at which a file is written. -/
def timedRun (interval : Int) : Int → List Int → List Int
  | _, [] => []
  | last, now :: ts => if last + interval ≤ now then now :: timedRun interval now ts else timedRun interval last ts

/-! ### Generators -/

/-- uniform_generator, eoUniformInit with one argument (rnd_generators.h 54-55, 63; eoUniformInit.h 71-73, 92-95). -/
def uniformGen1 [Field F] (max u : F) : F := 0 + max * u

/-- The same with two arguments (rnd_generators.h 56-63; eoUniformInit.h 81-95); `u` is `rng.uniform()`. -/
def uniformGen2 [Field F] [LinearOrder F] (min max u : F) : Except Err F :=
  if max < min then .error .thrown else .ok (min + (max - min) * u)

/-- The same for `int`: `minim + static_cast<int>(uniform.uniform(range))`; the range must be representable. -/
def uniformGenInt [Field F] [LinearOrder F] [FloorRing F] (min max : Int) (u : F) : Except Err Int :=
  if 2 ^ 31 ≤ max - min ∨ max - min < -2 ^ 31 then .error .ub
  else if max < min then .error .thrown else .ok (min + Bounds.truncZ (((max - min : Int) : F) * u))

/-- random_generator for `int` (rnd_generators.h 100-107): `(T) (minim + random.random(range))` is computed in unsigned
32 bit arithmetic and converted back. -/
def randomGenInt (min max : Int) (r : Nat → Nat) : Except Err Int :=
  if 2 ^ 31 ≤ max - min ∨ max - min < -2 ^ 31 then .error .ub
  else if max < min then .error .thrown
  else .ok (Int.bmod ((min % 2 ^ 32 + rnd r 0 (max - min).toNat) % 2 ^ 32) (2 ^ 32))

/-! ### Evolution strategies -/

/-- `isBounded()` of a vector of bounds (utils/eoRealVectorBounds.h 88-94): the intervals, if all are. -/
def intervals : List (Bounds.Bound F) → Option (List (F × F))
  | [] => some []
  | .interval lo hi :: bs => (intervals bs).map ((lo, hi) :: ·)
  | _ :: _ => none

/-- The self-adaptive part of a chromosome: eoReal, eoEsSimple, eoEsStdev, eoEsFull. -/
inductive SelfAdapt (F : Type*) where
  | real
  | simple (stdev : F)
  | stdevs (s : List F)
  | full (s correlations : List F)

/-- Which of the four types is initialised. -/
inductive Kind where
  | real | simple | stdev | full

/-- `scaleUnique` (eoEsChromInit.h 81-90): the average of the ranges. -/
def uniqueSigma [Field F] (bs : List (F × F)) (sigma : F) (toScale : Bool) : F :=
  if toScale then sigma * ((bs.map fun b => b.2 - b.1).sum / (bs.length : F)) else sigma

/-- `vecSigma` (eoEsChromInit.h 93-99). -/
def vecSigma [Field F] (bs : List (F × F)) (sigma : F) (toScale : Bool) : List F :=
  bs.map fun b => if toScale then sigma * (b.2 - b.1) else sigma

/-- create_self_adapt (eoEsChromInit.h 134-187); `c i` is draw number `i` of `rng.uniform()`; the size of the
correlations is computed in 32 bit unsigned arithmetic. -/
noncomputable def createSelfAdapt (k : Kind) (unique : ℝ) (vec : List ℝ) (n : Nat) (c : Nat → ℝ) : SelfAdapt ℝ :=
  match k with
  | .real => .real
  | .simple => .simple unique
  | .stdev => .stdevs vec
  | .full => .full vec ((List.range (n * (n + (2 ^ 32 - 1)) % 2 ^ 32 / 2)).map fun i => c i * (2 * Real.pi) - Real.pi)

/-- eoEsChromInit (eoEsChromInit.h 74-100) and operator() (120-125) with eoRealInitBounded (eoRealInitBounded.h
47-58); `u i` is the draw for variable `i`. -/
noncomputable def esChromInit (k : Kind) (bs : List (Bounds.Bound ℝ)) (sigma : ℝ) (toScale : Bool) (u c : Nat → ℝ)
    (_chrom : Chrom ℝ F) : Except Err (Chrom ℝ F × SelfAdapt ℝ) :=
  match intervals bs with
  | none => .error .thrown
  | some is =>
    .ok (⟨is.zipIdx.map fun p => Bounds.uniformIn p.1.1 p.1.2 (u p.2), none⟩,
      createSelfAdapt k (uniqueSigma is sigma toScale) (vecSigma is sigma toScale) bs.length c)

end Paradiseo.Init
