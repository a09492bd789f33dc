import Mathlib.Algebra.Order.Field.Basic
import Mathlib.Algebra.Order.Group.Abs
import Mathlib.Data.List.FinRange
/-
Model of the comparators of objective vectors and individuals (moeo/src/comparator) and of the
archives (moeo/src/archive).

An objective vector with `n` objectives is a function `Fin n → F`, `F` an arbitrary ordered field
(`double` without rounding). The static members of `moeoObjectiveVectorTraits` are the structure
`Traits`; the tolerance is a parameter (the library returns `1e-10`).
As in the code, a comparator applied to `(u, v)` answers "`u` is dominated by `v`".
-/
namespace Paradiseo.Moeo

/-- `moeoObjectiveVectorTraits` (moeo/src/core/moeoObjectiveVectorTraits.h:95-120):
`minimizing(i)`, `maximizing(i) = !minimizing(i)`, `tolerance()`. -/
structure Traits (n : Nat) (F : Type) where
  minimizing : Fin n → Bool
  tol : F

variable {n : Nat} {F : Type} [Field F] [LinearOrder F]

/-- Loop of `moeoParetoObjectiveVectorComparator::operator()`
(comparator/moeoParetoObjectiveVectorComparator.h:56-91) over the remaining indices. -/
def paretoLoop (T : Traits n F) (u v : Fin n → F) : List (Fin n) → Bool → Bool
  | [], dom => dom
  | i :: l, dom =>
    if |u i - v i| > T.tol then
      if T.minimizing i then
        if u i > v i then paretoLoop T u v l true else false
      else
        if u i < v i then paretoLoop T u v l true else false
    else paretoLoop T u v l dom

/-- moeoParetoObjectiveVectorComparator.h:56-91. -/
def paretoCmp (T : Traits n F) (u v : Fin n → F) : Bool := paretoLoop T u v (List.finRange n) false

/-- Loop of `moeoWeakObjectiveVectorComparator::operator()`
(comparator/moeoWeakObjectiveVectorComparator.h:56-80). -/
def weakLoop (T : Traits n F) (u v : Fin n → F) : List (Fin n) → Bool
  | [] => true
  | i :: l =>
    if |u i - v i| > T.tol then
      if T.minimizing i then
        if u i < v i then false else weakLoop T u v l
      else
        if u i > v i then false else weakLoop T u v l
    else weakLoop T u v l

/-- moeoWeakObjectiveVectorComparator.h:56-80. -/
def weakCmp (T : Traits n F) (u v : Fin n → F) : Bool := weakLoop T u v (List.finRange n)

/-- Loop of `moeoStrictObjectiveVectorComparator::operator()`
(comparator/moeoStrictObjectiveVectorComparator.h:56-81). -/
def strictLoop (T : Traits n F) (u v : Fin n → F) : List (Fin n) → Bool
  | [] => true
  | i :: l =>
    if |u i - v i| < T.tol then false
    else if T.minimizing i then
      if u i < v i then false else strictLoop T u v l
    else
      if u i > v i then false else strictLoop T u v l

/-- moeoStrictObjectiveVectorComparator.h:56-81. -/
def strictCmp (T : Traits n F) (u v : Fin n → F) : Bool := strictLoop T u v (List.finRange n)

/-- Loop of `moeoEpsilonObjectiveVectorComparator::operator()`
(comparator/moeoEpsilonObjectiveVectorComparator.h:63-87). -/
def epsLoop (T : Traits n F) (eps : F) (u v : Fin n → F) : List (Fin n) → Bool
  | [] => true
  | i :: l =>
    if |u i / eps - v i| > T.tol then
      if T.minimizing i then
        if u i / eps ≤ v i then false else epsLoop T eps u v l
      else
        if u i / eps ≥ v i then false else epsLoop T eps u v l
    else epsLoop T eps u v l

/-- moeoEpsilonObjectiveVectorComparator.h:63-87. -/
def epsCmp (T : Traits n F) (eps : F) (u v : Fin n → F) : Bool := epsLoop T eps u v (List.finRange n)

/-- Loop of `moeoObjectiveObjectiveVectorComparator::operator()`
(comparator/moeoObjectiveObjectiveVectorComparator.h:56-73), also `operator<` of real objective
vectors (core/moeoRealObjectiveVector.h:118-122). -/
def lexLoop (T : Traits n F) (u v : Fin n → F) : List (Fin n) → Bool
  | [] => false
  | i :: l =>
    if |u i - v i| > T.tol then decide (u i < v i) else lexLoop T u v l

/-- moeoObjectiveObjectiveVectorComparator.h:56-73. -/
def lexCmp (T : Traits n F) (u v : Fin n → F) : Bool := lexLoop T u v (List.finRange n)

/-- Loop of `moeoRealObjectiveVector::operator==` (core/moeoRealObjectiveVector.h:90-100). -/
def eqLoop (T : Traits n F) (u v : Fin n → F) : List (Fin n) → Bool
  | [] => true
  | i :: l => if |u i - v i| > T.tol then false else eqLoop T u v l

/-- moeoRealObjectiveVector.h:90-100. -/
def eqCmp (T : Traits n F) (u v : Fin n → F) : Bool := eqLoop T u v (List.finRange n)

/-- `flag` of the g-dominance comparator
(comparator/moeoGDominanceObjectiveVectorComparator.h:101-123): the two loops set `result` to 0 as
soon as one test succeeds. -/
def gFlag (ref v : Fin n → F) : Nat :=
  let result := (List.finRange n).foldl (fun r i => if v i > ref i then 0 else r) 1
  if result = 0 then
    (List.finRange n).foldl (fun r i => if v i < ref i then 0 else r) 1
  else result

/-- `moeoGDominanceObjectiveVectorComparator::operator()`
(moeoGDominanceObjectiveVectorComparator.h:67-86). -/
def gCmp (T : Traits n F) (ref u v : Fin n → F) : Bool :=
  let flag1 := gFlag ref u
  let flag2 := gFlag ref v
  if flag2 = 0 then false
  else if flag2 = 1 ∧ flag1 = 0 then true
  else paretoCmp T u v

/-- A dual objective vector: feasibility and values (core/moeoDualRealObjectiveVector.h). -/
structure Dual (n : Nat) (F : Type) where
  feasible : Bool
  val : Fin n → F

/-- `moeoParetoDualObjectiveVectorComparator::operator()`
(comparator/moeoParetoDualObjectiveVectorComparator.h:45-54). -/
def dualCmp (T : Traits n F) (u v : Dual n F) : Bool :=
  if u.feasible && !v.feasible then false
  else if !u.feasible && v.feasible then true
  else paretoCmp T u.val v.val

/-! ### Comparators of individuals -/

/-- `moeoFitnessThenDiversityComparator` (comparator/moeoFitnessThenDiversityComparator.h:56-66) on
pairs (fitness, diversity). -/
def ftdCmp (a b : F × F) : Bool := if a.1 = b.1 then decide (a.2 < b.2) else decide (a.1 < b.1)
/-- `moeoDiversityThenFitnessComparator` (comparator/moeoDiversityThenFitnessComparator.h:56-66). -/
def dtfCmp (a b : F × F) : Bool := if a.2 = b.2 then decide (a.1 < b.1) else decide (a.2 < b.2)
/-- `moeoAggregativeComparator` (comparator/moeoAggregativeComparator.h:65-68). -/
def aggCmp (wf wd : F) (a b : F × F) : Bool := decide (wf * a.1 + wd * a.2 < wf * b.1 + wd * b.2)

/-! ### Archives -/

section Archive
variable {X V : Type}

/-- What an archive is built from: the objective vector of an individual, the comparator
(`cmp u v`: `u` is dominated by `v`), `==` on objective vectors, the flag `replace`
(moeo/src/archive/moeoArchive.h:72-82, 228-232). -/
structure ArchCfg (X V : Type) where
  ov : X → V
  cmp : V → V → Bool
  eqv : V → V → Bool
  replace : Bool

/-- The in-place removal loop `for (j=0; j<size();) if (bad) { [j] = back(); pop_back(); } else j++`
(moeoArchive.h:169-186). -/
def removeLoop (bad : X → Bool) (arr : List X) (j : Nat) : List X :=
  if h : j < arr.length then
    if bad arr[j] then
      removeLoop bad ((arr.set j (arr.getLast (by intro h'; simp [h'] at h))).dropLast) j
    else removeLoop bad arr (j + 1)
  else arr
termination_by arr.length - j
decreasing_by
  · simp only [List.length_dropLast, List.length_set]; omega
  · omega

/-- The test of the removal loop (moeoArchive.h:172-181). -/
def ArchCfg.beaten (A : ArchCfg X V) (m x : X) : Bool :=
  A.cmp (A.ov x) (A.ov m) || (A.replace && A.eqv (A.ov m) (A.ov x))

/-- The test of the second loop (moeoArchive.h:192-201). -/
def ArchCfg.blocks (A : ArchCfg X V) (m x : X) : Bool :=
  A.cmp (A.ov m) (A.ov x) || (!A.replace && A.eqv (A.ov m) (A.ov x))

/-- `moeoArchive::update(const MOEOT&)` (moeoArchive.h:166-208), `moeoUnboundedArchive::operator()`
(moeoUnboundedArchive.h:82-85). -/
def update (A : ArchCfg X V) (arch : List X) (m : X) : List X × Bool :=
  let arch := removeLoop (A.beaten m) arch 0
  let dom := arch.any (A.blocks m)
  if !dom then (arch ++ [m], !dom) else (arch, !dom)

/-- `moeoArchive::update(const eoPop&)` (moeoArchive.h:215-225). -/
def updatePop (A : ArchCfg X V) : List X → List X → List X × Bool
  | arch, pop => pop.foldl (fun s m => let r := update A s.1 m; (r.1, r.2 || s.2)) (arch, false)

/-- `moeoImprOnlyBoundedArchive::update` (archive/moeoImprOnlyBoundedArchive.h:121-166). -/
def imprUpdate (A : ArchCfg X V) (maxSize : Nat) (arch : List X) (m : X) : List X × Bool :=
  let arch := removeLoop (A.beaten m) arch 0
  let dom := arch.any (A.blocks m)
  if !dom then
    if arch.length < maxSize then (arch ++ [m], true) else (arch, false)
  else (arch, false)

/-- `moeoImprOnlyBoundedArchive::operator()(const eoPop&)` (moeoImprOnlyBoundedArchive.h:103-113). -/
def imprUpdatePop (A : ArchCfg X V) (maxSize : Nat) : List X → List X → List X × Bool
  | arch, pop =>
    pop.foldl (fun s m => let r := imprUpdate A maxSize s.1 m; (r.1, r.2 || s.2)) (arch, false)

/-- The cut of `moeoFitDivBoundedArchive::operator()` (archive/moeoFitDivBoundedArchive.h:110-115):
`assign` is `fitness(*this); diversity(*this)`, `sort` is `std::sort` with the comparator of
individuals, then `resize(maxSize)`. -/
def fitDivCut (assign sort : List X → List X) (maxSize : Nat) (arch : List X) : List X :=
  if arch.length > maxSize then (sort (assign arch)).take maxSize else arch

/-- `moeoFitDivBoundedArchive::operator()(const MOEOT&)` (moeoFitDivBoundedArchive.h:105-117). -/
def fitDivUpdate (A : ArchCfg X V) (assign sort : List X → List X) (maxSize : Nat) (arch : List X)
    (m : X) : List X × Bool :=
  let r := update A arch m
  (fitDivCut assign sort maxSize r.1, r.2)

/-- `moeoFitDivBoundedArchive::operator()(const eoPop&)` (moeoFitDivBoundedArchive.h:125-137). -/
def fitDivUpdatePop (A : ArchCfg X V) (assign sort : List X → List X) (maxSize : Nat)
    (arch pop : List X) : List X × Bool :=
  let r := updatePop A arch pop
  (fitDivCut assign sort maxSize r.1, r.2)

/-- `dominates(ov)` (moeoArchive.h:89-100). -/
def archDominates (A : ArchCfg X V) (arch : List X) (v : V) : Bool :=
  arch.any fun x => A.cmp v (A.ov x)
/-- `contains(ov)` (moeoArchive.h:107-117). -/
def archContains (A : ArchCfg X V) (arch : List X) (v : V) : Bool :=
  arch.any fun x => A.eqv (A.ov x) v
/-- `equals(arch)` (moeoArchive.h:142-159). -/
def archEquals (A : ArchCfg X V) (a b : List X) : Bool :=
  (a.all fun x => archContains A b (A.ov x)) && (b.all fun x => archContains A a (A.ov x))

end Archive

end Paradiseo.Moeo
