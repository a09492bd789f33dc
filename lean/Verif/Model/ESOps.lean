import Verif.Model.EOBounds
import Mathlib.Analysis.SpecialFunctions.Log.Basic
import Mathlib.Analysis.SpecialFunctions.Trigonometric.Basic
import Mathlib.Data.Real.Archimedean

/-!
# eo: operators on real vectors and evolution strategies

Model of eo/src/es/eoRealOp.h, eoSBXcross.h, eoNormalMutation.h, eoEsMutate.h, eoEsGlobalXover.h,
eoEsStandardXover.h and eoRealAtomXover.h.  `double` is an ordered field (the real numbers where exponentials
or angles occur); the bounds are those of Model/EOBounds.  What the generator draws for the variable `i` is
given by functions of `i`: `flip i` is the outcome of `rng.flip`, `u i` of `rng.uniform()` (in [0,1)) and
`z i` of `rng.normal()`.
-/

namespace Paradiseo.ES

open Paradiseo.EO (Err)
open Paradiseo.Bounds (Bound truncZ)

variable {F : Type*} [Field F] [LinearOrder F]

/-! ### Bounds of one variable -/

/-- `isMinBounded`, `minimum` (eoRealBounds.h 149-539). -/
def lo? : Bound F → Option F
  | .interval lo _ => some lo
  | .below lo => some lo
  | _ => none

/-- `isMaxBounded`, `maximum`. -/
def hi? : Bound F → Option F
  | .interval _ hi => some hi
  | .above hi => some hi
  | _ => none

/-- `if (bounds.isMinBounded(i)) e = std::max(bounds.minimum(i), e)`. -/
def atLeast (b : Bound F) (e : F) : F :=
  match lo? b with
  | none => e
  | some lo => max lo e

/-- `if (bounds.isMaxBounded(i)) e = std::min(bounds.maximum(i), e)`. -/
def atMost (b : Bound F) (e : F) : F :=
  match hi? b with
  | none => e
  | some hi => min hi e

/-! ### Uniform mutations -/

/-- The constructors with one `_epsilon` for all variables (eoRealOp.h 68-77, 168-177): `epsilon[i]` starts
as `_epsilon` and, for a bounded variable, `epsilon[i] *= _epsilon*bounds.range(i)`.  The same for the
standard deviations in eoNormalMutation.h 71-79. -/
def scaled (eps : F) : Bound F → F
  | .interval lo hi => eps * (eps * (hi - lo))
  | _ => eps

/-- One variable of eoUniformMutation without bounds (eoRealOp.h 104-108). -/
def uniformFree (eps : F) (flip : Bool) (u x : F) : F :=
  if flip then x + (2 * eps * u - eps) else x

/-- One variable with bounds (eoRealOp.h 120-126, 223-229). -/
def uniformIn (b : Bound F) (eps u x : F) : F :=
  let emin := atLeast b (x - eps)
  let emax := atMost b (x + eps)
  emin + (emax - emin) * u

/-- eoUniformMutation without bounds (eoRealOp.h 101-109) with the result. -/
def uniformMutFree (eps : F) (flip : Nat → Bool) (u : Nat → F) : Nat → List F → List F × Bool
  | _, [] => ([], false)
  | i, x :: xs =>
    let r := uniformMutFree eps flip u (i + 1) xs
    (uniformFree eps (flip i) (u i) x :: r.1, flip i || r.2)

/-- eoUniformMutation with bounds (eoRealOp.h 116-130). -/
def uniformMutLoop (flip : Nat → Bool) (u : Nat → F) : Nat → List (Bound F) → List F → List F → List F × Bool
  | i, b :: bs, e :: es, x :: xs =>
    let r := uniformMutLoop flip u (i + 1) bs es xs
    ((if flip i then uniformIn b e (u i) x else x) :: r.1, flip i || r.2)
  | _, _, _, _ => ([], false)

/-- The same with the test of the size (eoRealOp.h 113-130).  The ranges of the third constructor are
taken as they come: when there are fewer than bounds, they are read out of range (here: for any draws). -/
def uniformMut (bs : List (Bound F)) (es : List F) (flip : Nat → Bool) (u : Nat → F) (xs : List F) :
    Except Err (List F × Bool) :=
  if xs.length ≠ bs.length then .error .thrown
  else if es.length < bs.length then .error .ub
  else .ok (uniformMutLoop flip u 0 bs es xs)

/-- eoDetUniformMutation without bounds (eoRealOp.h 206-211): `_eo[lieu] = 2*epsilon[0]*rng.uniform()-
epsilon[0]`, an assignment and not an increment, at the places drawn. -/
def detFree (eps : F) : List (Nat × F) → List F → List F
  | [], xs => xs
  | (lieu, u) :: ds, xs => detFree eps ds (xs.set lieu (2 * eps * u - eps))

/-- eoDetUniformMutation with bounds (eoRealOp.h 217-230). -/
def detIn (bs : List (Bound F)) (es : List F) : List (Nat × F) → List F → List F
  | [], xs => xs
  | (lieu, u) :: ds, xs =>
    match bs[lieu]?, es[lieu]?, xs[lieu]? with
    | some b, some e, some x => detIn bs es ds (xs.set lieu (uniformIn b e u x))
    | _, _, _ => detIn bs es ds xs

/-! ### Crossovers -/

/-- The two children of one variable (eoRealOp.h 325-326, 399-400). -/
def blend (fact r1 r2 : F) : F × F := (fact * r1 + (1 - fact) * r2, (1 - fact) * r1 + fact * r2)

/-- The limits of the factor after one variable (eoRealOp.h 300-316). -/
def segStep (b : Bound F) (r1 r2 : F) (a : F × F) : F × F :=
  if r1 = r2 then a
  else
    let rmin := min r1 r2
    let rmax := max r1 r2
    let len := rmax - rmin
    let a := match lo? b with
      | none => a
      | some lo => (max a.1 ((lo - rmin) / len), min a.2 ((rmax - lo) / len))
    match hi? b with
    | none => a
    | some hi => (max a.1 ((rmax - hi) / len), min a.2 ((hi - rmin) / len))

/-- The loop over the variables (eoRealOp.h 298-317). -/
def segLimits : List (Bound F) → List (F × F) → F × F → F × F
  | b :: bs, (r1, r2) :: rs, a => segLimits bs rs (segStep b r1 r2 a)
  | _, _, a => a

/-- The factor of eoSegmentCrossover (eoRealOp.h 292-319). -/
def segFactor (alpha u : F) (bs : List (Bound F)) (rs : List (F × F)) : F :=
  if alpha = 0 then -alpha + (1 + 2 * alpha) * u
  else
    let a := segLimits bs rs (-alpha, 1 + alpha)
    a.1 + (a.2 - a.1) * u

/-- eoSegmentCrossover (eoRealOp.h 288-329) on the pairs of variables. -/
def segment (alpha u : F) (bs : List (Bound F)) (rs : List (F × F)) : List (F × F) :=
  rs.map fun r => blend (segFactor alpha u bs rs) r.1 r.2

/-- One variable of eoHypercubeCrossover (eoRealOp.h 393-446): `u`, `u'` are the numbers drawn. -/
def cubeOne (alpha : F) (b : Bound F) (u u' : F) (flip : Bool) (r1 r2 : F) : F × F :=
  if r1 = r2 then (r1, r2)
  else if alpha = 0 then blend ((1 + 2 * alpha) * u) r1 r2
  else
    let rmin := min r1 r2
    let rmax := max r1 r2
    let objMin := atLeast b (-alpha * rmax + (1 + alpha) * rmin)
    let objMax := atMost b (-alpha * rmin + (1 + alpha) * rmax)
    let median := (objMin + objMax) / 2
    let valMin := objMin + (median - objMin) * u
    let valMax := median + (objMax - median) * u'
    if flip then (valMin, valMax) else (valMax, valMin)

/-- eoHypercubeCrossover (eoRealOp.h 387-450). -/
def cube (alpha : F) (u u' : Nat → F) (flip : Nat → Bool) :
    Nat → List (Bound F) → List (F × F) → List (F × F) × Bool
  | i, b :: bs, (r1, r2) :: rs =>
    let q := cube alpha u u' flip (i + 1) bs rs
    (cubeOne alpha b (u i) (u' i) (flip i) r1 r2 :: q.1, !decide (r1 = r2) || q.2)
  | _, _, _ => ([], false)

/-- eoRealUXover (eoRealOp.h 488-505).  The exception for different sizes is built but not thrown
(eoRealOp.h 490-491), so a shorter second parent is read out of range. -/
def uxover (flip : Nat → Bool) : Nat → List F → List F → Except Err (List F × List F × Bool)
  | _, [], ys => .ok ([], ys, false)
  | i, x :: xs, ys =>
    if flip i then
      match ys with
      | [] => .error .ub
      | y :: ys =>
        match uxover flip (i + 1) xs ys with
        | .error e => .error e
        | .ok (xs', ys', c) => .ok (y :: xs', x :: ys', !decide (x = y) || c)
    else
      match uxover flip (i + 1) xs ys.tail with
      | .error e => .error e
      | .ok (xs', ys', c) => .ok (x :: xs', ys.take 1 ++ ys', c)

/-- The spread of eoSBXCrossover (eoSBXcross.h 105-108); `exp(c * log 0)` is `exp(-inf)`, zero. -/
noncomputable def sbxBeta (eta u : ℝ) : ℝ :=
  if u ≤ 1 / 2 then (if u = 0 then 0 else Real.exp (1 / (eta + 1) * Real.log (2 * u)))
  else Real.exp (1 / (eta + 1) * Real.log (1 / (2 * (1 - u))))

/-- The children before the bounds (eoSBXcross.h 114-115). -/
noncomputable def sbxPair (beta r1 r2 : ℝ) : ℝ × ℝ :=
  (1 / 2 * ((1 + beta) * r1 + (1 - beta) * r2), 1 / 2 * ((1 - beta) * r1 + (1 + beta) * r2))

/-- `if(!(bounds.isInBounds(i,x))) bounds.foldsInBounds(i,x)` (eoSBXcross.h 118-121). -/
noncomputable def foldIfOut (b : Bound ℝ) (w x : ℝ) : Except Err ℝ :=
  if b.isIn x then .ok x else b.fold w x

/-- One variable of eoSBXCrossover (eoSBXcross.h 101-125). -/
noncomputable def sbxOne (eta : ℝ) (b : Bound ℝ) (u w1 w2 r1 r2 : ℝ) : Except Err (ℝ × ℝ) :=
  match foldIfOut b w1 (sbxPair (sbxBeta eta u) r1 r2).1, foldIfOut b w2 (sbxPair (sbxBeta eta u) r1 r2).2 with
  | .ok x, .ok y => .ok (x, y)
  | .error e, _ => .error e
  | _, .error e => .error e

/-! ### Normal mutations -/

/-- The standard deviations of eoNormalVecMutation without bounds (eoNormalMutation.h 60-61): the member is a
vector and `sigma(_sigma)` is its constructor with a size, so it is `_sigma`, rounded down, zeros. -/
def vecSigmaFree [FloorRing F] (sigma : F) : List F := List.replicate (truncZ sigma).toNat 0

/-- eoNormalVecMutation without bounds (eoNormalMutation.h 91-99): a standard deviation out of range is
undefined. -/
def normalVec (sig : List F) (flip : Nat → Bool) (z : Nat → F) : Nat → List F → Except Err (List F)
  | _, [] => .ok []
  | i, x :: xs =>
    match normalVec sig flip z (i + 1) xs with
    | .error e => .error e
    | .ok ys =>
      if flip i then
        match sig[i]? with
        | none => .error .ub
        | some s => .ok ((x + s * z i) :: ys)
      else .ok (x :: ys)

/-- The state of eoOneFifthMutation (eoNormalMutation.h 269-275). -/
structure OneFifth (F : Type*) where
  sigma : F
  nbMut : Nat → Nat
  nbSuccess : Nat → Nat
  genIndex : Nat

/-- The statistics of operator() (eoNormalMutation.h 229-237): `changed` is the result of the mutation,
`better` the comparison. -/
def OneFifth.record (s : OneFifth F) (changed better : Bool) : OneFifth F :=
  if changed then
    { s with
      nbMut := fun i => if i = s.genIndex then s.nbMut i + 1 else s.nbMut i
      nbSuccess := fun i => if i = s.genIndex ∧ better then s.nbSuccess i + 1 else s.nbSuccess i }
  else s

/-- The sum over the window of size `w`. -/
def total (w : Nat) (f : Nat → Nat) : Nat := (List.range w).foldl (fun a i => a + f i) 0

/-- update (eoNormalMutation.h 244-267): without any mutation the proportion is not a number and the
comparison false. -/
def OneFifth.update (w : Nat) (threshold factor : F) (s : OneFifth F) : OneFifth F :=
  let m := total w s.nbMut
  let k := total w s.nbSuccess
  let g := (s.genIndex + 1) % w
  { sigma := if m ≠ 0 ∧ threshold < (k : F) / (m : F) then s.sigma / factor else s.sigma * factor
    nbMut := fun i => if i = g then 0 else s.nbMut i
    nbSuccess := fun i => if i = g then 0 else s.nbSuccess i
    genIndex := g }

/-- The constructor (eoNormalMutation.h 200-210). -/
def OneFifth.init (sigma : F) : OneFifth F :=
  { sigma := sigma, nbMut := fun _ => 0, nbSuccess := fun _ => 0, genIndex := 0 }

/-- A run: in the generation `t` the calls of the operator have the outcomes `G t`, then update is called.
`run k` is the state before the generation `k`, `mid k` the state before its update. -/
def OneFifth.run (w : Nat) (threshold factor sigma : F) (G : Nat → List (Bool × Bool)) : Nat → OneFifth F
  | 0 => OneFifth.init sigma
  | k + 1 => ((G k).foldl (fun s g => s.record g.1 g.2) (OneFifth.run w threshold factor sigma G k)).update w
      threshold factor

/-- The state before the update of the generation `k`. -/
def OneFifth.mid (w : Nat) (threshold factor sigma : F) (G : Nat → List (Bool × Bool)) (k : Nat) : OneFifth F :=
  (G k).foldl (fun s g => s.record g.1 g.2) (OneFifth.run w threshold factor sigma G k)

/-! ### Self-adaptive mutation -/

/-- `stdev_eps` (eoEsMutate.h 285). -/
noncomputable def stdevEps : ℝ := 1 / 10 ^ 40

/-- A new standard deviation (eoEsMutate.h 100-102, 134-138, 168-172). -/
noncomputable def newStdev (s e : ℝ) : ℝ := if s * Real.exp e < stdevEps then stdevEps else s * Real.exp e

/-- eoEsMutate on eoEsStdev (eoEsMutate.h 129-143): `g` is the global normal number times its factor, `zl`,
`z` the local ones. -/
noncomputable def mutStdev (bs : List (Bound ℝ)) (w : Nat → ℝ) (g tau : ℝ) (zl z : Nat → ℝ)
    (xs ss : List ℝ) : Except Err (List ℝ × List ℝ) :=
  let ss' := ss.mapIdx fun i s => newStdev s (g + tau * zl i)
  let xs' := xs.mapIdx fun i x => x + (ss'.getD i 0) * z i
  match Bounds.foldVec w 0 bs xs' with
  | .error e => .error e
  | .ok ys => .ok (ys, ss')

/-- eoEsMutate on eoEsSimple (eoEsMutate.h 98-110). -/
noncomputable def mutSimple (bs : List (Bound ℝ)) (w : Nat → ℝ) (tau zs : ℝ) (z : Nat → ℝ)
    (xs : List ℝ) (s : ℝ) : Except Err (List ℝ × ℝ) :=
  let s' := newStdev s (tau * zs)
  match Bounds.foldVec w 0 bs (xs.mapIdx fun i x => x + s' * z i) with
  | .error e => .error e
  | .ok ys => .ok (ys, s')

/-- An angle that left the range (eoEsMutate.h 178-181). -/
noncomputable def wrapAngle (c : ℝ) : ℝ := if Real.pi < |c| then c - Real.pi * (truncZ (c / Real.pi) : ℤ) else c

/-- The pairs of variables rotated by eoEsMutate on eoEsFull (eoEsMutate.h 190-205), in order. -/
def rotPairs (n : Nat) : List (Nat × Nat) :=
  (List.range (n - 1)).flatMap fun k => (List.range k).map fun i => (n - k - 1, n - 1 - i)

/-- One rotation (eoEsMutate.h 196-201). -/
noncomputable def rot (n1 n2 : Nat) (c : ℝ) (v : Nat → ℝ) : Nat → ℝ := fun i =>
  if i = n1 then v n1 * Real.cos c - v n2 * Real.sin c
  else if i = n2 then v n1 * Real.sin c + v n2 * Real.cos c
  else v i

/-- All rotations: the angles are used from the last one downwards (eoEsMutate.h 189-205). -/
noncomputable def rotAll (corr : Nat → ℝ) : List (Nat × Nat) → Nat → (Nat → ℝ) → (Nat → ℝ)
  | [], _, v => v
  | (a, b) :: ps, nq, v => rotAll corr ps (nq - 1) (rot a b (corr nq) v)

/-- The step of eoEsMutate on eoEsFull with `n` variables, `q` angles, the standard deviations `s` and normal
numbers `z` (eoEsMutate.h 184-205). -/
noncomputable def fullStep (n q : Nat) (corr s z : Nat → ℝ) : Nat → ℝ :=
  rotAll corr (rotPairs n) (q - 1) fun i => s i * z i

/-- eoEsMutate on eoEsFull (eoEsMutate.h 160-210): new standard deviations, new angles, then the rotated step. -/
noncomputable def mutFull (bs : List (Bound ℝ)) (w : Nat → ℝ) (g tau taub : ℝ) (zl zc z : Nat → ℝ)
    (xs ss cs : List ℝ) : Except Err (List ℝ × List ℝ × List ℝ) :=
  let ss' := ss.mapIdx fun i s => newStdev s (g + tau * zl i)
  let cs' := cs.mapIdx fun i c => wrapAngle (c + taub * zc i)
  let step := fullStep xs.length cs.length (fun i => cs'.getD i 0) (fun i => ss'.getD i 0) z
  match Bounds.foldVec w 0 bs (xs.mapIdx fun i x => x + step i) with
  | .error e => .error e
  | .ok ys => .ok (ys, ss', cs')

/-! ### Recombination -/

/-- eoDoubleExchange (eoRealAtomXover.h 58-67). -/
def exchange (flip : Bool) (r1 r2 : F) : F × Bool :=
  if flip then (if r1 ≠ r2 then (r2, true) else (r1, false)) else (r1, false)

/-- eoDoubleIntermediate (eoRealAtomXover.h 91-96). -/
def intermediate (alpha r1 r2 : F) : F × Bool := (alpha * r2 + (1 - alpha) * r1, true)

/-- The loop of eoEsStandardXover over the variables, or over the standard deviations, or over the angles
(eoEsStandardXover.h 71-74, 92-96, 104-112): `op i` is the crossover of one number. -/
def localXover (op : Nat → F → F → F × Bool) : Nat → List F → List F → Except Err (List F × Bool)
  | _, [], _ => .ok ([], false)
  | _, _ :: _, [] => .error .ub
  | i, x :: xs, y :: ys =>
    match localXover op (i + 1) xs ys with
    | .error e => .error e
    | .ok (zs, c) => .ok ((op i x y).1 :: zs, (op i x y).2 || c)

/-- The loop of eoEsGlobalXover (eoEsGlobalXover.h 76-84, 111-117, 128-142): for every place two individuals
are drawn from the population, `p1 i` and `p2 i`. -/
def globalXover (op : Nat → F → F → F × Bool) (pop : Nat → List F) (p1 p2 : Nat → Nat) (n : Nat) :
    List (Option F) :=
  (List.range n).map fun i =>
    match (pop (p1 i))[i]?, (pop (p2 i))[i]? with
    | some x, some y => some (op i x y).1
    | _, _ => none

end Paradiseo.ES
