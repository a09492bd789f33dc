import Mathlib.Algebra.Order.Field.Basic
import Mathlib.Data.List.Sort
/-
Diversity by sharing and by the k-th nearest neighbour.

* moeo/src/distance/moeoDistanceMatrix.h
* moeo/src/diversity/moeoSharingDiversityAssignment.h, moeoFrontByFrontSharingDiversityAssignment.h
* moeo/src/diversity/moeoNearestNeighborDiversityAssignment.h

Exact arithmetic in an ordered field.  Individuals are numbered; `dist i j` is the given distance of individuals
`i` and `j`.  The power `x ^ alpha` is a function `pw`.
-/
namespace Paradiseo.Diversity

variable {K : Type} [Field K] [LinearOrder K]

/-- moeoDistanceMatrix::operator() (76-91): the distance is asked once for each pair, the later one first. -/
def dMatrix (dist : Nat → Nat → K) (i j : Nat) : K :=
  if i = j then 0 else if j < i then dist i j else dist j i

/-- `sh` (150-162). -/
def sh (niche : K) (pw : K → K) (d : K) : K := if d < niche then 1 - pw (d / niche) else 0

/-- A row of `setSimilarities` (134-142; 117-125). -/
def rowSum (n : Nat) (niche : K) (pw : K → K) (mat : Nat → Nat → K) (i : Nat) : K :=
  (List.range n).foldl (fun s j => s + sh niche pw (mat i j)) 0

/-- The change of the matrix in the front-by-front one (104-114). -/
def frontMatrix {F : Type} [DecidableEq F] (niche : K) (fit : Nat → F) (mat : Nat → Nat → K) (i j : Nat) : K :=
  if i ≠ j ∧ fit i ≠ fit j then niche else mat i j

/-- `operator()` (84-95) with the similarities given; of an empty population the first cell of an empty matrix is
written (moeoDistanceMatrix 81): undefined.  `std::max_element` finds a greatest one. -/
def share (n : Nat) (sim : Nat → K) : Option (Nat → K) :=
  if n = 0 then none
  else
    let mx := (List.range n).foldl (fun a i => if a < sim i then sim i else a) (sim 0)
    some fun i => mx - sim i

def sharing (n : Nat) (niche : K) (pw : K → K) (dist : Nat → Nat → K) : Option (Nat → K) :=
  share n (rowSum n niche pw (dMatrix dist))

def frontSharing {F : Type} [DecidableEq F] (n : Nat) (niche : K) (pw : K → K) (fit : Nat → F) (dist : Nat → Nat → K) :
    Option (Nat → K) :=
  share n (rowSum n niche pw (frontMatrix niche fit (dMatrix dist)))

/-! ### Nearest neighbour -/

/-- `matrice[k]` before sorting (113-129): the distances to the other ones of population and archive, of which
there are `N` together. -/
def row (N : Nat) (dist : Nat → Nat → K) (k : Nat) : List K :=
  (List.range k).map (fun j => dist j k) ++ (List.range' (k + 1) (N - (k + 1))).map (fun l => dist k l)

/-- `getElement` (170-176) of a sorted list; of an empty list it reads the end. -/
def getElement (index : Nat) (l : List K) : Option K := l[min l.length index - 1]?

/-- `operator()` (107-136): the diversity of number `k`. -/
def nearest (N index : Nat) (dist : Nat → Nat → K) (k : Nat) : Option K :=
  (getElement index ((row N dist k).mergeSort (· ≤ ·))).map fun d => -1 * 1 / (2 + d)

end Paradiseo.Diversity
