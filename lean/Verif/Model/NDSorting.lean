import Verif.Model.MoeoFitness
import Mathlib.Algebra.Order.Floor.Defs
import Mathlib.Algebra.BigOperators.Fin
import Mathlib.Data.List.Sort
/-
Model of `eoNDSorting`, `eoNDSorting_I`, `eoNDSorting_II` (eo/src/eoNDSorting.h) and of the cache of
worths `eoPerf2WorthCached` (eo/src/eoPerf2Worth.h).

Individuals are named by their index in the population. `double` is an ordered field. The fitness class is
a template parameter of the code (none is in the repository): the model takes its `dominates` as a
relation, and its components as a function. `niche_penalty` is virtual: the model takes it as a function
of the front. `upperBound`, `put` and `patienceStep` are shared with the moeo fitness assignment
(Model/MoeoFitness.lean), whose code for the binary search is the same.
-/
namespace Paradiseo.Nds
open Paradiseo.Moeo

/-! ### Results -/

/-- Outcome of an assignment of worths. -/
inductive Res (α : Type) where
  | ok (v : α)
  /-- `eoException("eoNDSorting: niche and front should have the same size")` (lines 225, 325). -/
  | sizeError
  /-- `*std::max_element` of an empty vector (line 362), or the loop of the model out of fuel. -/
  | undefined
deriving DecidableEq

section
variable {F : Type} [Field F] [LinearOrder F]

/-- `*std::max_element` (lines 228, 328, 362, 480); only used on non-empty lists. -/
def maxElt : List F → F
  | [] => 0
  | a :: l => l.foldl max a

/-- `value()[front[j]] = i + niche_count[j] / (max_niche + 1.)` for all `j` (lines 230-233, 330-333). -/
def assignFront (i : Nat) (front : List Nat) (niche : List F) (v : Nat → F) : Nat → F :=
  (front.zip niche).foldl (fun v x => put v x.1 ((i : F) + x.2 / (maxElt niche + 1))) v

/-! ### More than two objectives -/

/-- Loop body for one dominated individual (lines 341-347): counters and next front. -/
def visit (s : (Nat → Nat) × List Nat) (q : Nat) : (Nat → Nat) × List Nat :=
  let n := put s.1 q (s.1 q - 1)
  if n q = 0 then (n, s.2 ++ [q]) else (n, s.2)

/-- The loops that remove the current front (lines 337-349); `S[p]` is `dominatedBy dom N p`. -/
def expandFront (dom : Nat → Nat → Bool) (N : Nat) (front : List Nat) (n : Nat → Nat) :
    (Nat → Nat) × List Nat :=
  front.foldl (fun s p => (dominatedBy dom N p).foldl visit s) (n, [])

/-- The loop on the fronts (lines 317-354). -/
def frontLoop (dom : Nat → Nat → Bool) (N : Nat) (niche : List Nat → List F) :
    Nat → Nat → List Nat → (Nat → Nat) → (Nat → F) → Res (Nat → F)
  | 0, _, _, _, _ => .undefined
  | fuel + 1, i, front, n, v =>
    if front = [] then .ok v
    else
      let nc := niche front
      if nc.length ≠ front.length then .sizeError
      else
        let s := expandFront dom N front n
        frontLoop dom N niche fuel (i + 1) s.2 s.1 (assignFront i front nc v)

/-- `m_objectives` without its last line (lines 272-354): the ranks. `old` is what `value()` contains
before. The counters `n` are `dominatorCount` (lines 282-299). -/
def mRanks (dom : Nat → Nat → Bool) (N : Nat) (niche : List Nat → List F) (old : Nat → F) :
    Res (Nat → F) :=
  let n := dominatorCount dom N
  frontLoop dom N niche (N + 1) 0 ((List.range N).filter fun i => n i = 0) n old

/-! ### Two objectives -/

/-- `Sorter` (lines 246-267) on the vectors of objectives; `mx` says which objectives are maximised. -/
def sorter (mx : Fin 2 → Bool) (tol : F) (a b : Fin 2 → F) : Bool :=
  let diff := a 0 - b 0
  if |diff| < tol then
    let diff := a 1 - b 1
    if |diff| < tol then false
    else if mx 1 then decide (diff > 0) else decide (diff < 0)
  else if mx 0 then decide (diff > 0) else decide (diff < 0)

/-- The loop on the sorted indices (lines 173-211): the front of each. `val` is `value2` (193-196), `eqv`
the `==` of fitnesses, `d` the used part of the array, `prev` the previous index and `prev_front`. -/
def twoFronts (val : Nat → F) (eqv : Nat → Nat → Bool) (declone : Bool) (N : Nat) :
    List F → Option Nat → Nat → List Nat → List (Nat × Nat)
  | _, _, _, [] => []
  | d, prev, pf, x :: l =>
    if prev.any (fun p => eqv x p) then
      if declone then (x, N - 1) :: twoFronts val eqv declone N d (some x) pf l
      else (x, pf) :: twoFronts val eqv declone N d (some x) pf l
    else
      let r := patienceStep d (val x)
      (x, r.1) :: twoFronts val eqv declone N r.2 (some x) r.1 l

/-- `value2` (lines 193-196). -/
def value2 (mx : Fin 2 → Bool) (max1 : F) (v : Fin 2 → F) : F := if mx 1 then max1 - v 1 else v 1

/-- `fronts[i]` (lines 188, 208): indices in the order they were added. -/
def frontOf (placed : List (Nat × Nat)) (i : Nat) : List Nat :=
  (placed.filter fun x => decide (x.2 = i)).map Prod.fst

/-- Body of the loop on the fronts (lines 215-235). -/
def nicheStep (niche : List Nat → List F) (placed : List (Nat × Nat)) (r : Res (Nat → F)) (i : Nat) :
    Res (Nat → F) :=
  match r with
  | .ok v =>
    let front := frontOf placed i
    if front = [] then .ok v
    else
      let nc := niche front
      if nc.length ≠ front.length then .sizeError else .ok (assignFront i front nc v)
  | r => r

/-- `two_objectives` without its last line (lines 140-235); `order` is the sorted vector of indices. -/
def twoRanks (mx : Fin 2 → Bool) (max1 : F) (eqv : Nat → Nat → Bool) (declone : Bool)
    (ov : Nat → Fin 2 → F) (niche : List Nat → List F) (order : List Nat) (old : Nat → F) :
    Res (Nat → F) :=
  let placed := twoFronts (fun i => value2 mx max1 (ov i)) eqv declone order.length [] none 0 order
  (List.range order.length).foldl (nicheStep niche placed) (.ok old)

/-! ### One objective, worths -/

/-- `one_objective` (lines 99-120): `order` is the vector sorted by `std::greater`. -/
def oneWorths (order : List Nat) (old : Nat → F) : Nat → F :=
  order.zipIdx.foldl (fun v x => put v x.1 ((order.length - x.2 : Nat) : F)) old

/-- `rank_to_worth` (lines 359-372). -/
def rankToWorth [FloorRing F] (N : Nat) (r : Res (Nat → F)) : Res (Nat → F) :=
  match r with
  | .ok v =>
    if N = 0 then .undefined
    else
      let m : F := (⌈maxElt ((List.range N).map v)⌉ : F)
      .ok fun q => m - v q
  | r => r

/-! ### Niche penalties -/

/-- `dist` (lines 396-402). -/
def sqDist {m : Nat} (a b : Fin m → F) : F := ∑ k, (a k - b k) * (a k - b k)

/-- `eoNDSorting_I::niche_penalty` (lines 385-412). -/
def nicheI {m : Nat} (nicheSize : F) (ov : Nat → Fin m → F) (front : List Nat) : List F :=
  (List.range front.length).map fun i =>
    (List.range front.length).foldl (fun acc j =>
      if i = j then acc
      else
        let dist := sqDist (ov (front.getD i 0)) (ov (front.getD j 0))
        if dist < nicheSize then acc + (1 - (dist / nicheSize) ^ 2) else acc) 0

/-- `nc` for one objective before the boundary (lines 473-478) from `performance` already sorted: pairs
(value, position in the front). -/
def crowdBase (n : Nat) (perf : List (F × Nat)) : Nat → F :=
  let dflt : F × Nat := (0, 0)
  (List.range' 1 (n - 2)).foldl (fun (nc : Nat → F) i =>
    put nc (perf.getD i dflt).2 ((perf.getD (i + 1) dflt).1 - (perf.getD (i - 1) dflt).1)) (fun _ => 0)

/-- `max_dist` (line 480). -/
def crowdMax (n : Nat) (perf : List (F × Nat)) : F := maxElt ((List.range n).map (crowdBase n perf))

/-- `nc` with the boundary (lines 483-484). -/
def crowd (n : Nat) (perf : List (F × Nat)) : Nat → F :=
  let dflt : F × Nat := (0, 0)
  let md := crowdMax n perf
  let nc := crowdBase n perf
  let nc := put nc (perf.getD 0 dflt).2 (nc (perf.getD 0 dflt).2 + (md + 1))
  put nc (perf.getD (n - 1) dflt).2 (nc (perf.getD (n - 1) dflt).2 + (md + 1))

/-- `eoNDSorting_II::niche_penalty` (lines 452-493). `srt` is `std::sort` on the vector
`performance`. -/
def nicheII {m : Nat} (srt : List (F × Nat) → List (F × Nat)) (ov : Nat → Fin m → F) (front : List Nat) :
    List F :=
  let n := front.length
  let perf := fun o : Fin m => srt ((List.range n).map fun i => (ov (front.getD i 0) o, i))
  (List.range n).map fun i =>
    (List.finRange m).foldl (fun acc o => acc + (crowdMax n (perf o) + 1 - crowd n (perf o) i)) 0

end

/-! ### Cached worths -/

/-- `eoPerf2WorthCached`: `value()` and `fitness_cache` (eoPerf2Worth.h:124-237). -/
structure Cached (Φ W : Type) where
  worths : List W
  cache : List Φ

/-- `operator()` (eoPerf2Worth.h:138-169). `fit` reads the fitness of an individual, `compute` is
`calculate_worths`. -/
def Cached.call {ι Φ W : Type} [DecidableEq Φ] (fit : ι → Φ) (compute : List ι → List W) (s : Cached Φ W)
    (pop : List ι) : Cached Φ W :=
  if s.cache.length = pop.length then
    if (s.cache.zip pop).all (fun x => x.1 = fit x.2) then s
    else ⟨compute pop, pop.map fit⟩
  else ⟨compute pop, pop.map fit⟩

/-- `sort_pop` (lines 177-209). `indices` is the sorted vector of indices. Nothing is done on missing
entries (the code would read outside). -/
def Cached.sortPop {ι Φ W : Type} (indices : List Nat) (s : Cached Φ W) (pop : List ι) :
    Option (List ι × Cached Φ W) := do
  let p ← indices.mapM fun i => pop[i]?
  let w ← indices.mapM fun i => s.worths[i]?
  let c ← indices.mapM fun i => s.cache[i]?
  return (p, ⟨w, c⟩)

/-- `resize` (lines 228-233) to a size not larger. -/
def Cached.resize {ι Φ W : Type} (sz : Nat) (s : Cached Φ W) (pop : List ι) : List ι × Cached Φ W :=
  (pop.take sz, ⟨s.worths.take sz, s.cache.take sz⟩)

end Paradiseo.Nds
