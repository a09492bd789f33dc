import Verif.Model.Scalar
import Verif.Model.EOReplacement
/-
Distances of objective vectors: moeo/src/distance/moeoManhattanDistance.h 50-96, moeoEuclideanDistance.h 50-96, with the
normaliser of Scalar.lean.

Exact arithmetic; the number of objectives does not change after a normaliser has been made.
-/
namespace Paradiseo.Scalar

open Paradiseo.EO (Err)

variable {K : Type} [Field K] [LinearOrder K]

/-- moeoManhattanDistance::operator() (77-88), `n` being what the reference `normalizer` refers to. -/
def manhattan (m : Nat) (n : Norm K) (a b : Vec K) : K :=
  (List.range m).foldl (fun r i => r + |n.apply a i - n.apply b i|) 0

/-- moeoEuclideanDistance::operator() (77-88). -/
noncomputable def euclid (m : Nat) (n : Norm ℝ) (a b : Vec ℝ) : ℝ :=
  Real.sqrt ((List.range m).foldl (fun r i => r + (n.apply a i - n.apply b i) * (n.apply a i - n.apply b i)) 0)

/-! ### What the objects refer to -/

inductive Kind where
  | manhattan | euclid
  deriving DecidableEq

/-- What the member `normalizer` of a distance, a reference, was bound to. -/
inductive Target where
  | member (d : Nat)   -- `defaultNormalizer` of the distance object number `d`
  | user (k : Nat)     -- the normaliser number `k` of the user
  | temporary          -- a parameter of a constructor that has returned
  deriving DecidableEq

/-- A distance object; `defaultNormalizer` has the dummy scale. -/
structure Obj where
  kind : Kind
  target : Target

/-- The objects alive; numbers are not used twice for different objects. -/
structure Mem (K : Type) where
  norms : Nat → Option (Norm K)
  dists : Nat → Option Obj

inductive Op (K : Type) where
  | newDefault (d : Nat) (kind : Kind)            -- constructor without argument (69)
  | newGiven (d : Nat) (kind : Kind) (k : Nat)    -- constructor with the normaliser number `k` (64)
  | copy (d d' : Nat)                             -- the copy constructor, of `d` into `d'`
  | destroy (d : Nat)                             -- the end of the life of a distance
  | setNorm (k : Nat) (n : Norm K)                -- a normaliser made, or its scale changed
  | dropNorm (k : Nat)                            -- the end of the life of a normaliser

/-- The effect of an operation. With a normaliser moeoManhattanDistance.h 64 binds to the user's object, but
moeoEuclideanDistance.h 64 takes it by value and binds to the parameter. The implicit copy constructor binds to what the
original is bound to. -/
def Op.apply : Op K → Mem K → Mem K
  | .newDefault d kind, s => { s with dists := Function.update s.dists d (some ⟨kind, .member d⟩) }
  | .newGiven d kind k, s =>
    let target : Target := match kind with
      | .manhattan => .user k
      | .euclid => .temporary
    { s with dists := Function.update s.dists d (some ⟨kind, target⟩) }
  | .copy d d', s => { s with dists := Function.update s.dists d' (s.dists d) }
  | .destroy d, s => { s with dists := Function.update s.dists d none }
  | .setNorm k n, s => { s with norms := Function.update s.norms k (some n) }
  | .dropNorm k, s => { s with norms := Function.update s.norms k none }

/-- The normaliser a distance works with, if it is alive. -/
def Mem.norm (s : Mem K) (d : Nat) : Option (Norm K) :=
  match s.dists d with
  | none => none
  | some o =>
    match o.target with
    | .member d' => (s.dists d').map fun _ => dummy 100
    | .user k => s.norms k
    | .temporary => none

/-- A call of a distance. -/
noncomputable def Mem.call (s : Mem ℝ) (m : Nat) (d : Nat) (a b : Vec ℝ) : Except Err ℝ :=
  match s.dists d, s.norm d with
  | some o, some n => .ok (match o.kind with | .manhattan => manhattan m n a b | .euclid => euclid m n a b)
  | _, _ => .error .ub

end Paradiseo.Scalar
