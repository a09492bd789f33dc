import Verif.Model.MoeoStop
/-
The difference of hypervolumes for dual objective vectors: moeo/src/metric/moeoDualHyperVolumeDifferenceMetric.h 64-169.

A vector is its feasibility and its values; `maximizing` is the order `Compare` of the dual fitness (`std::less<double>` if
true, `std::greater<double>` if not), which is applied to the values. Doubles are an ordered field.
-/
namespace Paradiseo.Moeo

open Paradiseo.EO (Err)

variable {F : Type} [Field F] [LinearOrder F]

/-- `std::min(a, b, cmp)`: `b` if `cmp(b, a)`, otherwise `a`. -/
def stdMin (maximizing : Bool) (a b : F) : F :=
  if (if maximizing then decide (b < a) else decide (a < b)) then b else a

/-- `std::max(a, b, cmp)`: `b` if `cmp(a, b)`, otherwise `a`. -/
def stdMax (maximizing : Bool) (a b : F) : F :=
  if (if maximizing then decide (a < b) else decide (b < a)) then b else a

/-- The bounds of objective `j` (moeoDualHyperVolumeDifferenceMetric.h 82-107), all vectors being of one feasibility. -/
def dualDiffBnd (tiny : F) (maximizing : Bool) (v : Nat → F) (l set2 : List (Nat → F)) (j : Nat) : Bnd F :=
  let worst := set2.foldl (fun m w => stdMin maximizing m (w j)) (l.foldl (fun m w => stdMin maximizing m (w j)) (v j))
  let best := set2.foldl (fun m w => stdMax maximizing m (w j)) (l.foldl (fun m w => stdMax maximizing m (w j)) (v j))
  let fmin := min worst best
  let fmax := max worst best
  if fmin = fmax then ⟨fmin - tiny, fmax + tiny⟩ else ⟨fmin, fmax⟩

/-- `setup` (moeoDualHyperVolumeDifferenceMetric.h 64-110): throws if one of the sets is empty. -/
def dualDiffSetup (tiny : F) (maximizing : Bool) : List (Nat → F) → List (Nat → F) → Option (Nat → Bnd F)
  | v :: l, w :: l' => some (dualDiffBnd tiny maximizing v l (w :: l'))
  | _, _ => none

/-- operator() (moeoDualHyperVolumeDifferenceMetric.h 117-169) in a build with assertions. -/
def dualHvDiff (tiny : F) (maximizing : Bool) (minimizing : Nat → Bool) (normalize : Bool) (rho : F) (ref : Nat → F)
    (K : Nat) (set1 set2 : List (Bool × (Nat → F))) : Except Err F :=
  match set1, set2 with
  | a :: as, b :: bs =>
    if as.all (fun x => x.1 == a.1) && bs.all (fun x => x.1 == b.1) && a.1 == b.1 then
      let s1 := (a :: as).map Prod.snd
      let s2 := (b :: bs).map Prod.snd
      let r := if 1 ≤ rho then
          match dualDiffSetup tiny maximizing s1 s2 with
          | none => none
          | some B =>
            if normalize then hvMinus minimizing B (fun j => if minimizing j then rho else 1 - rho) K s1 s2
            else hvMinus minimizing (fun _ => ⟨0, 1⟩)
              (fun j => if minimizing j then (B j).hi * rho else (B j).hi * (1 - rho)) K s1 s2
        else if normalize then
          match dualDiffSetup tiny maximizing s1 s2 with
          | none => none
          | some B => hvMinus minimizing B ref K s1 s2
        else hvMinus minimizing (fun _ => ⟨0, 1⟩) ref K s1 s2
      match r with
      | some x => .ok x
      | none => .error .thrown
    else .error .asserted
  | _, _ => .error .asserted

end Paradiseo.Moeo
