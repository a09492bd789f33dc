import Mathlib.Algebra.Order.Field.Basic
import Mathlib.Algebra.Order.Monoid.WithTop
import Mathlib.Logic.Function.Basic
/-
Model of the crowding diversity assignments of MOEO (moeo/src/diversity). Individuals are identified with
naturals, `obj o x` is the value of objective `o` of `x`, `fit x` its fitness; a population is the list of
its individuals. Diversities are `WithTop F`: `inf()` (the largest double) is `⊤`, absorbing for the
addition (for doubles, adding a normalised distance to the largest double leaves it unchanged).
`std::sort` is any function; the theorems ask that its result is a sorted permutation.
-/
namespace Paradiseo.Moeo
variable {F : Type} [Field F] [LinearOrder F]

/-- The inner loop `for i = 1 .. size-2` (moeoCrowdingDiversityAssignment.h:137-141,
moeoFrontByFrontCrowdingDiversityAssignment.h:147-151), `dist prev next` the distance added. -/
def crowdInner (dist : Nat → Nat → F) : List Nat → (Nat → WithTop F) → (Nat → WithTop F)
  | a :: b :: c :: l, d =>
    crowdInner dist (b :: c :: l) (Function.update d b (d b + ((dist a c : F) : WithTop F)))
  | _, d => d

/-- Lines 135-136 / 144-145: the first and last of the sorted range get `inf()`. -/
def crowdEnds (s : List Nat) (d : Nat → WithTop F) : Nat → WithTop F :=
  match s with
  | [] => d
  | a :: l => Function.update (Function.update d a ⊤) ((a :: l).getLast (by simp)) ⊤

/-- One objective of `moeoCrowdingDiversityAssignment::setDistances` (130-141); `none`: 0/0. -/
def crowdObj (v : Nat → F) (s : List Nat) (d : Nat → WithTop F) : Option (Nat → WithTop F) :=
  match s with
  | [] => some d
  | a :: l =>
    let mn := v a
    let mx := v ((a :: l).getLast (by simp))
    if mx - mn = 0 then none
    else some (crowdInner (fun p n => (v n - v p) / (mx - mn)) (a :: l) (crowdEnds (a :: l) d))

/-- `setDistances` of the plain assignment (115-143): the population is sorted by each objective in
turn. -/
def crowdPlainLoop (obj : Nat → Nat → F) (sortO : Nat → List Nat → List Nat) :
    List Nat → List Nat → (Nat → WithTop F) → Option (Nat → WithTop F)
  | [], _, d => some d
  | o :: os, pop, d => do
    let s := sortO o pop
    let d ← crowdObj (obj o) s d
    crowdPlainLoop obj sortO os s d

/-- `moeoCrowdingDiversityAssignment::operator()` (80-93). -/
def crowdPlain (obj : Nat → Nat → F) (sortO : Nat → List Nat → List Nat) (nObj : Nat) (pop : List Nat)
    (d : Nat → WithTop F) : Option (Nat → WithTop F) :=
  if pop.length ≤ 2 then some (pop.foldl (fun d x => Function.update d x ⊤) d)
  else crowdPlainLoop obj sortO (List.range nObj) pop (pop.foldl (fun d x => Function.update d x 0) d)

/-- One objective of one front in the front-by-front version (132-151): the variables named min and max
hold the last and the first value. -/
def crowdFrontObj (tiny : F) (v : Nat → F) (s : List Nat) (d : Nat → WithTop F) : Nat → WithTop F :=
  match s with
  | [] => d
  | a :: l =>
    let mn := v ((a :: l).getLast (by simp))
    let mx := v a
    let mn' := if mn = mx then mn - tiny else mn
    let mx' := if mn = mx then mx + tiny else mx
    crowdInner (fun p n => (v p - v n) / (mx' - mn')) (a :: l) (crowdEnds (a :: l) d)

/-- Lines 124-152: the front is sorted in place by each objective in turn. -/
def crowdFrontLoop (tiny : F) (obj : Nat → Nat → F) (sortO : Nat → List Nat → List Nat) :
    List Nat → List Nat → (Nat → WithTop F) → (Nat → WithTop F)
  | [], _, d => d
  | o :: os, front, d =>
    crowdFrontLoop tiny obj sortO os (sortO o front) (crowdFrontObj tiny (obj o) (sortO o front) d)

/-- Lines 112-153: a front of one or two gets `inf()`. -/
def crowdFront (tiny : F) (obj : Nat → Nat → F) (sortO : Nat → List Nat → List Nat) (nObj : Nat)
    (front : List Nat) (d : Nat → WithTop F) : Nat → WithTop F :=
  if front.length ≤ 2 then front.foldl (fun d x => Function.update d x ⊤) d
  else crowdFrontLoop tiny obj sortO (List.range nObj) front d

/-- `lastIndex` (167-175) applied to the rest of the sorted population: the run of adjacent individuals
of equal fitness, and what follows. -/
def splitRun (fit : Nat → F) : List Nat → List Nat × List Nat
  | [] => ([], [])
  | [a] => ([a], [])
  | a :: b :: l =>
    if fit a = fit b then
      let r := splitRun fit (b :: l)
      (a :: r.1, r.2)
    else ([a], b :: l)

theorem splitRun_append (fit : Nat → F) (l : List Nat) : (splitRun fit l).1 ++ (splitRun fit l).2 = l := by
  induction l using splitRun.induct fit with
  | case1 => rfl
  | case2 => rfl
  | case3 a b l h ih => rw [splitRun, if_pos h]; simp only [List.cons_append]; rw [ih]
  | case4 a b l h => rw [splitRun, if_neg h]; rfl

theorem splitRun_length (fit : Nat → F) (a : Nat) (l : List Nat) :
    (splitRun fit (a :: l)).2.length < (a :: l).length := by
  have h := congrArg List.length (splitRun_append fit (a :: l))
  rw [List.length_append] at h
  have : 0 < (splitRun fit (a :: l)).1.length := by
    cases l with
    | nil => simp [splitRun]
    | cons b l => rw [splitRun]; split <;> simp
  omega

/-- The `while (a < size)` loop (106-156). -/
def crowdFronts (tiny : F) (fit : Nat → F) (obj : Nat → Nat → F) (sortO : Nat → List Nat → List Nat)
    (nObj : Nat) (l : List Nat) (d : Nat → WithTop F) : Nat → WithTop F :=
  match l with
  | [] => d
  | a :: l =>
    crowdFronts tiny fit obj sortO nObj (splitRun fit (a :: l)).2
      (crowdFront tiny obj sortO nObj (splitRun fit (a :: l)).1 d)
termination_by l.length
decreasing_by exact splitRun_length fit a l

/-- `moeoFrontByFrontCrowdingDiversityAssignment::operator()` (operator inherited, 80-93 of the plain
version; setDistances 84-157); `sortF` sorts the pointers by fitness (then diversity, all zero here). -/
def crowdFBF (tiny : F) (fit : Nat → F) (obj : Nat → Nat → F) (sortF : List Nat → List Nat)
    (sortO : Nat → List Nat → List Nat) (nObj : Nat) (pop : List Nat) (d : Nat → WithTop F) :
    Nat → WithTop F :=
  if pop.length ≤ 2 then pop.foldl (fun d x => Function.update d x ⊤) d
  else crowdFronts tiny fit obj sortO nObj (sortF pop) (pop.foldl (fun d x => Function.update d x 0) d)

end Paradiseo.Moeo
