import Verif.Model.Moeo
import Mathlib.Data.Finset.Card
/-
Model of the fitness assignments of MOEO: dominance depth (moeo/src/fitness/
moeoDominanceDepthFitnessAssignment.h), dominance matrix (moeo/src/utils/moeoDominanceMatrix.h) with
count, rank and count-ranking, the exponential indicator-based assignment
(moeoExpBinaryIndicatorBasedFitnessAssignment.h), and of the elitist and environmental replacements
(moeo/src/replacement).

A population of size `N` is seen through its indices `0..N-1`; `dom p q` stands for
`comparator(_pop[q].objectiveVector(), _pop[p].objectiveVector())`, "`p` dominates `q`".
Vectors indexed by individuals are functions on `Nat`.
-/
namespace Paradiseo.Moeo

/-- Assignment `a[i] = v`. -/
def put {α : Type} (a : Nat → α) (i : Nat) (v : α) : Nat → α := fun j => if j = i then v else a j

/-! ### Dominance depth, more than two objectives -/

/-- Working data of `mObjectives`: the counters `n`, the fitness already given (`none`: not yet), the
front being filled. -/
structure DepthState where
  n : Nat → Nat
  fit : Nat → Option Nat
  next : List Nat

/-- `S[p]` (moeoDominanceDepthFitnessAssignment.h:295-302). -/
def dominatedBy (dom : Nat → Nat → Bool) (N p : Nat) : List Nat := (List.range N).filter (dom p)

/-- `n[p]` after the inner loop over `q` (lines 295-309). -/
def dominatorCount (dom : Nat → Nat → Bool) (N p : Nat) : Nat :=
  (List.range N).foldl (fun n q => if dom p q then n else if dom q p then n + 1 else n) 0

/-- Body of the first loop over `p` (lines 293-317). -/
def depthInitStep (dom : Nat → Nat → Bool) (N : Nat) (s : DepthState) (p : Nat) : DepthState :=
  let n := put s.n p (dominatorCount dom N p)
  if n p = 0 then ⟨n, put s.fit p (some 1), s.next ++ [p]⟩ else { s with n := n }

/-- State after the first loop over `p` (lines 293-317). -/
def depthInit (dom : Nat → Nat → Bool) (N : Nat) : DepthState :=
  (List.range N).foldl (depthInitStep dom N) ⟨fun _ => 0, fun _ => none, []⟩

/-- Inner loop body for one `q` of `S[p]` (lines 330-338); the decrement is on `unsigned`. -/
def depthVisit (counter : Nat) (s : DepthState) (q : Nat) : DepthState :=
  let n := put s.n q (s.n q - 1)
  if n q = 0 then ⟨n, put s.fit q (some (counter + 1)), s.next ++ [q]⟩ else { s with n := n }

/-- Loop over the front `F[counter]` (lines 325-340). -/
def depthFront (dom : Nat → Nat → Bool) (N counter : Nat) (front : List Nat) (s : DepthState) :
    DepthState :=
  front.foldl (fun s p => (dominatedBy dom N p).foldl (depthVisit counter) s) s

/-- `while (! F[counter].empty())` (lines 321-342). `F` has `N + 2` entries: an access outside is
`none`; so is running out of fuel. -/
def depthLoop (dom : Nat → Nat → Bool) (N : Nat) : Nat → Nat → List Nat → DepthState →
    Option (Nat → Option Nat)
  | 0, _, _, _ => none
  | fuel + 1, counter, front, s =>
    if front = [] then some s.fit
    else if counter + 1 < N + 2 then
      let s' := depthFront dom N counter front { s with next := [] }
      depthLoop dom N fuel (counter + 1) s'.next s'
    else none

/-- `mObjectives` (lines 283-343). -/
def mObjectives (dom : Nat → Nat → Bool) (N : Nat) : Option (Nat → Option Nat) :=
  let s := depthInit dom N
  depthLoop dom N (N + 2) 1 s.next s

/-- The end of `operator()` (lines 109-117): `max - fitness`. `none`: empty population. -/
def depthFinal (ranks : List Nat) : Option (List Nat) :=
  match ranks with
  | [] => none
  | r :: l => let m := l.foldl max r; some (ranks.map fun x => m - x)

/-! ### Dominance depth, two objectives -/

/-- `std::upper_bound(d, d + last_front, v)`: first position whose value is greater than `v` (on a
sorted range this is what the binary search returns). -/
def upperBound {F : Type} [LinearOrder F] (d : List F) (v : F) : Nat := d.findIdx fun x => decide (v < x)

/-- One value of the second objective: its front and the new array `d`
(moeoDominanceDepthFitnessAssignment.h:257-263). -/
def patienceStep {F : Type} [LinearOrder F] (d : List F) (v : F) : Nat × List F :=
  let front := upperBound d v
  (front, if front = d.length then d ++ [v] else d.set front v)

/-- The loop of `twoObjectives` (lines 237-267) over the sorted vectors; `val` is the value compared
(`objective 1`, or `max_obj1 -` it when maximised), `N` the population size, `rm` the flag, `eqv` is
`==`. Result: the rank `i + 1` of each (lines 269-275); a removed duplicate goes to `fronts.back()`. -/
def twoLoop {V F : Type} [LinearOrder F] (val : V → F) (eqv : V → V → Bool) (rm : Bool) (N : Nat) :
    List F → Option V → List V → List Nat
  | _, _, [] => []
  | d, prev, v :: l =>
    if prev.any (fun p => rm && eqv v p) then
      N :: twoLoop val eqv rm N d (some v) l
    else
      let r := patienceStep d (val v)
      (r.1 + 1) :: twoLoop val eqv rm N r.2 (some v) l

/-- `twoObjectives` (lines 196-276) on the population already sorted (as `sortedptrpop` is), with
`max_obj1` given. -/
def twoObjectives {F : Type} [Field F] [LinearOrder F] (T : Traits 2 F) (rm : Bool) (maxObj1 : F)
    (sorted : List (Fin 2 → F)) : List Nat :=
  twoLoop (fun v => if T.minimizing 1 then v 1 else maxObj1 - v 1) (eqCmp T) rm sorted.length []
    none sorted

/-- `ObjectiveComparator` (lines 148-162), the order of the sort. -/
def objComparator {n : Nat} {F : Type} [Field F] [LinearOrder F] (T : Traits (n + 1) F)
    (u v : Fin (n + 1) → F) : Bool :=
  if T.minimizing 0 then lexCmp T u v else lexCmp T v u

/-- `oneObjective` (lines 174-189) on the sorted population: ranks. -/
def oneObjective {V : Type} (eqv : V → V → Bool) : List V → List Nat
  | [] => []
  | v :: l => 1 :: go v 1 l
where
  /-- The loop from index 1 (lines 181-188), with the previous vector and the current rank. -/
  go (prev : V) (rank : Nat) : List V → List Nat
  | [] => []
  | v :: l => let r := if !eqv v prev then rank + 1 else rank; r :: go v r l

/-- `updateByDeleting` (lines 126-136) on pairs (vector, fitness). -/
def depthDelete {V : Type} (cmp : V → V → Bool) (deleted : V) (pop : List (V × Int)) : List (V × Int) :=
  pop.map fun x => if cmp x.1 deleted then (x.1, x.2 + 1) else x

/-! ### Dominance matrix -/

/-- Members of `moeoDominanceMatrix` (moeo/src/utils/moeoDominanceMatrix.h:49, 226-230): the matrix,
`countVector`, `rankVector`, and the set `copySet`, which survives from one use to the next. -/
structure DomMatrix where
  m : Nat → Nat → Bool
  count : Nat → Int
  rank : Nat → Int
  copySet : List Nat

/-- Loop body for a pair `k < l` (lines 109-150; the three branches are the same on the concatenation
of the two populations). -/
def dmPair (dom eqv : Nat → Nat → Bool) (nocopy : Bool) (s : DomMatrix) (k l : Nat) : DomMatrix :=
  if dom k l then
    { s with m := put s.m k (put (s.m k) l true), count := put s.count k (s.count k + 1)
             rank := put s.rank l (s.rank l + 1) }
  else if dom l k then
    { s with m := put s.m l (put (s.m l) k true), count := put s.count l (s.count l + 1)
             rank := put s.rank k (s.rank k + 1) }
  else if nocopy && eqv k l then { s with copySet := s.copySet.insert l }
  else s

/-- The two nested loops (lines 107-152) after the initialisation (99-105). -/
def dmPairs (dom eqv : Nat → Nat → Bool) (nocopy : Bool) (N : Nat) (copySet : List Nat) : DomMatrix :=
  (List.range (N - 1)).foldl (fun s k =>
    (List.range' (k + 1) (N - (k + 1))).foldl (fun s l => dmPair dom eqv nocopy s k l) s)
    ⟨fun _ _ => false, fun _ => 0, fun _ => 0, copySet⟩

/-- Second pass, one cell (lines 161-164). -/
def dmMarkStep (c : Nat) (s : DomMatrix) (l : Nat) : DomMatrix :=
  if !s.m l c then { s with m := put s.m l (put (s.m l) c true), count := put s.count l (s.count l + 1) }
  else s

/-- Second pass for one copy `c` (lines 159-167). -/
def dmMark (N : Nat) (s : DomMatrix) (c : Nat) : DomMatrix := (List.range N).foldl (dmMarkStep c) s

/-- Third pass, one cell (lines 171-174). -/
def dmUnmarkStep (c : Nat) (s : DomMatrix) (l : Nat) : DomMatrix :=
  if s.m c l then { s with m := put s.m c (put (s.m c) l false), rank := put s.rank l (s.rank l - 1) }
  else s

/-- Third pass for one copy (lines 169-177). -/
def dmUnmark (N : Nat) (s : DomMatrix) (c : Nat) : DomMatrix := (List.range N).foldl (dmUnmarkStep c) s

/-- `operator()(pop1, pop2)` (lines 91-200), `N` the total size. A mark `≥ N` (left by a previous use
on a larger population) indexes outside the matrix: `none`. -/
def dmRun (dom eqv : Nat → Nat → Bool) (nocopy : Bool) (N : Nat) (copySet : List Nat) :
    Option DomMatrix :=
  let s := dmPairs dom eqv nocopy N copySet
  if nocopy then
    if s.copySet.all (· < N) then
      let s := s.copySet.foldl (dmMark N) s
      let s := s.copySet.foldl (dmUnmark N) s
      some (s.copySet.foldl (fun s c =>
        { s with count := put s.count c 0, rank := put s.rank c ((N : Int) - s.copySet.length) }) s)
    else none
  else some s

/-- `countRanking(i)` (fitness/moeoDominanceCountRankingFitnessAssignment.h:149-158). -/
def countRanking (s : DomMatrix) (N i : Nat) : Int :=
  -((List.range N).foldl (fun res k => if s.m k i then res + s.count k else res) 0)

/-- moeoDominanceCountFitnessAssignment::operator() (fitness/moeoDominanceCountFitnessAssignment.h:105-114):
the fitness of position `k` of archive and population together. -/
def countFitness (s : DomMatrix) (k : Nat) : Int := s.count k

/-- moeoDominanceRankFitnessAssignment::operator() (fitness/moeoDominanceRankFitnessAssignment.h:109-118). -/
def rankFitness (start : Int) (s : DomMatrix) (k : Nat) : Int := -(s.rank k + start)

/-! ### Indicator-based fitness and replacements -/

/-- An individual: objective vector and fitness. -/
structure MInd (V F : Type) where
  ov : V
  fit : F

/-- `computeFitness(pop, idx)` (fitness/moeoExpBinaryIndicatorBasedFitnessAssignment.h:238-249);
`e a b` stands for `exp(-metric(a, b)/kappa)`. The cached `values[i][idx]` (194-217) are the metric
on the current population. -/
def ibeaFitness {V F : Type} [AddGroup F] (e : V → V → F) (pop : List (MInd V F)) (idx : Nat) : F :=
  (pop.zipIdx).foldl (fun result x =>
    if x.2 ≠ idx then
      match pop[idx]? with
      | some y => result - e x.1.ov y.ov
      | none => result
    else result) 0

/-- `operator()` (92-100, 224-230). -/
def ibeaAssign {V F : Type} [AddGroup F] (e : V → V → F) (pop : List (MInd V F)) : List (MInd V F) :=
  pop.zipIdx.map fun x => { x.1 with fit := ibeaFitness e pop x.2 }

/-- `updateByDeleting` (108-121). -/
def ibeaDelete {V F : Type} [AddGroup F] (e : V → V → F) (deleted : V) (pop : List (MInd V F)) :
    List (MInd V F) :=
  pop.map fun x => { x with fit := x.fit + e deleted x.ov }

/-- `updateByAdding` (130-155): new population fitness and the fitness of the added vector. -/
def ibeaAdd {V F : Type} [AddGroup F] (e : V → V → F) (added : V) (pop : List (MInd V F)) :
    List (MInd V F) × F :=
  (pop.map fun x => { x with fit := x.fit - e added x.ov },
   pop.foldl (fun result x => result - e x.ov added) 0)

/-- Deletion loop of `moeoEnvironmentalReplacement::operator()`
(replacement/moeoEnvironmentalReplacement.h:117-129): `pick` is the position returned by
`std::min_element`, `upd` the two `updateByDeleting`. The recursion is on a number of steps larger than the
number of individuals in excess, so that the test of the loop ends it. -/
def envLoop {X V : Type} (ov : X → V) (pick : List X → Nat) (upd : V → List X → List X) (sz : Nat)
    (pop : List X) : Nat → List X
  | 0 => pop
  | k + 1 =>
    if pop.length > sz then
      match pop[pick pop]?, pop.getLast? with
      | some w, some b => envLoop ov pick upd sz (upd (ov w) ((pop.set (pick pop) b).dropLast)) k
      | _, _ => pop
    else pop

/-- `moeoEnvironmentalReplacement::operator()` (105-132): new parents; the offspring are cleared. -/
def envReplace {X V : Type} (ov : X → V) (assign : List X → List X) (pick : List X → Nat)
    (upd : V → List X → List X) (parents offspring : List X) : List X × List X :=
  (envLoop ov pick upd parents.length (assign (parents ++ offspring)) (offspring.length + 1), [])

/-- `moeoElitistReplacement::operator()` (replacement/moeoElitistReplacement.h:101-116): `assign` is
fitness then diversity assignment, `sort` is `std::sort` with the reversed comparator (130-147). -/
def elitistReplace {X : Type} (assign sort : List X → List X) (parents offspring : List X) :
    List X × List X :=
  ((sort (assign (parents ++ offspring))).take parents.length, [])

end Paradiseo.Moeo
