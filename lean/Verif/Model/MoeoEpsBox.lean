import Verif.Model.Moeo
import Mathlib.Algebra.Order.Floor.Ring
/-
Model of the archive of hyperboxes (moeo/src/archive/moeoEpsilonHyperboxArchive.h).

An individual is its objective vector `Fin n → F`, `F` an ordered field with `floor` (doubles without
rounding). The normaliser (moeo/src/utils/moeoObjectiveVectorNormalizer.h) computes
`(v - lo) * (1 / (hi - lo))`; for `hi = lo` the factor is infinite and, every value being `lo`, the
product is not a number: such a coordinate of a box is `none`. Comparisons with it are false, as for
`double`. The choice between two members of the same box (lines 184-205), a comparison of two
distances, is an arbitrary function `near`; `euclid` is the one of the code.
-/
namespace Paradiseo.Moeo.Eps

variable {n : Nat} {F : Type} [Field F] [LinearOrder F] [FloorRing F]

/-- The state of the archive: members, `ideal`, `nadir`, and the bounds the normaliser was made of. -/
structure St (n : Nat) (F : Type) where
  mem : List (Fin n → F)
  ideal : Fin n → F
  nadir : Fin n → F
  lo : Fin n → F
  hi : Fin n → F

/-- `a` is strictly better than `b` in objective `i`. -/
def better (T : Traits n F) (i : Fin n) (a b : F) : Prop := if T.minimizing i then a < b else b < a

instance (T : Traits n F) (i : Fin n) (a b : F) : Decidable (better T i a b) := by
  unfold better; infer_instance

/-- `hyperbox` (moeoEpsilonHyperboxArchive.h:275-292) with the normaliser
(moeoObjectiveVectorNormalizer.h:182-191, 214-221, `max` is 1). -/
def box (T : Traits n F) (eps : Fin n → F) (s : St n F) (v : Fin n → F) : Fin n → Option Int := fun i =>
  if s.hi i = s.lo i then none
  else
    let r := (v i - s.lo i) * (1 / (s.hi i - s.lo i))
    if T.minimizing i then some ⌊r * 1 / eps i⌋ else some ⌈r * 1 / eps i⌉

/-- The Pareto comparator on two boxes: `u` is dominated by `v`
(comparator/moeoParetoObjectiveVectorComparator.h:56-91). -/
def boxLoop (T : Traits n F) (u v : Fin n → Option Int) : List (Fin n) → Bool → Bool
  | [], dom => dom
  | i :: l, dom =>
    match u i, v i with
    | some a, some b =>
      if |(a : F) - (b : F)| > T.tol then
        if T.minimizing i then
          if (a : F) > b then boxLoop T u v l true else false
        else
          if (a : F) < b then boxLoop T u v l true else false
      else boxLoop T u v l dom
    | _, _ => boxLoop T u v l dom

/-- See `boxLoop`. -/
def boxCmp (T : Traits n F) (u v : Fin n → Option Int) : Bool := boxLoop T u v (List.finRange n) false

/-- Lines 158-159: all coordinates equal (not a number is not equal to itself). -/
def sameBox (u v : Fin n → Option Int) : Bool :=
  (List.finRange n).all fun i => match u i, v i with
    | some a, some b => a == b
    | _, _ => false

/-- `recalculateBounds` (lines 366-398), one objective: `ideal` and `nadir` start at the first member. -/
def recalcOne (T : Traits n F) (i : Fin n) (m : List (Fin n → F)) (v0 : F) : F × F :=
  m.foldl (fun b v => if better T i (v i) b.1 then (v i, b.2)
    else if better T i b.2 (v i) then (b.1, v i) else b) (v0, v0)

/-- `recalculateBounds` (lines 366-398); on an empty archive it would read `operator[](0)`, which does
not happen. -/
def recalc (T : Traits n F) (s : St n F) : St n F :=
  match s.mem with
  | [] => s
  | v0 :: m =>
    let b := fun i => recalcOne T i m (v0 i)
    { s with
      ideal := fun i => (b i).1, nadir := fun i => (b i).2,
      lo := fun i => min (b i).1 (b i).2, hi := fun i => max (b i).1 (b i).2 }

/-- `changeBounds` (lines 299-350). The first loop moves `ideal` where the newcomer is better; then
`nadir` follows where it is worse if some objective was improved, otherwise the answer is -1. -/
def changeBounds (T : Traits n F) (s : St n F) (p : Fin n → F) : Int × St n F :=
  if (List.finRange n).any (fun i => decide (better T i (p i) (s.ideal i))) then
    let ideal := fun i => if better T i (p i) (s.ideal i) then p i else s.ideal i
    let nadir := fun i => if better T i (s.nadir i) (p i) then p i else s.nadir i
    (1, { s with
      ideal := ideal, nadir := nadir,
      lo := fun i => min (ideal i) (nadir i), hi := fun i => max (ideal i) (nadir i) })
  else if (List.finRange n).any (fun i => decide (better T i (s.nadir i) (p i))) then (-1, s)
  else (0, s)

/-- `changeBoundsByDeleting` (lines 356-361). -/
def byDeleting (T : Traits n F) (s : St n F) (p : Fin n → F) : St n F :=
  if (List.finRange n).any (fun i => decide (p i = s.nadir i ∨ p i = s.ideal i)) then recalc T s else s

/-- Lines 137-143 and its copies: the last element takes the place of the removed one. -/
def removeAt {α : Type} (l : List α) (i : Nat) : List α :=
  if i + 1 = l.length then l.dropLast
  else match l.getLast? with
    | some z => (l.set i z).dropLast
    | none => l

/-- The choice the code makes between the newcomer `p` and a member `a` of the same box (lines 184-187):
Euclidean distances of the objective vectors to the indices of the box (squared here). -/
def euclid (corner : Fin n → Option Int) (p a : Fin n → F) : Bool :=
  let d := fun v : Fin n → F => ((List.finRange n).map fun i =>
    (v i - (((corner i).getD 0 : Int) : F)) * (v i - (((corner i).getD 0 : Int) : F))).sum
  decide (d p ≤ d a)

/-- How the scan of the members ended. -/
inductive Stop
  | /-- all members were looked at -/ run
  | /-- a member's box dominates the newcomer's box -/ boxDominated
  | /-- same box, and the member dominates the newcomer -/ dominated
  | /-- same box, and the member is nearer to the corner -/ farther
deriving DecidableEq, Repr

/-- The loop over the members (lines 126-210). `res` is the answer so far. -/
def scan (T : Traits n F) (bx : (Fin n → F) → Fin n → Option Int) (near : (Fin n → F) → Bool)
    (p : Fin n → F) : Nat → Nat → List (Fin n → F) → Bool → Stop × List (Fin n → F) × Bool
  | 0, _, m, res => (.run, m, res)
  | fuel + 1, i, m, res =>
    match m[i]? with
    | none => (.run, m, res)
    | some a =>
      if boxCmp T (bx a) (bx p) then scan T bx near p fuel i (removeAt m i) true
      else if boxCmp T (bx p) (bx a) then (.boxDominated, m, res)
      else if sameBox (bx p) (bx a) then
        if paretoCmp T a p then scan T bx near p fuel i (removeAt m i) true
        else if paretoCmp T p a then (.dominated, m, res)
        else if near a then scan T bx near p fuel i (removeAt m i) true
        else (.farther, m, true)
      else scan T bx near p fuel (i + 1) m res

/-- `operator()(_moeo)` (lines 98-225): the answer and the new state. -/
def step (T : Traits n F) (eps : Fin n → F)
    (near : (Fin n → Option Int) → (Fin n → F) → (Fin n → F) → Bool) (s : St n F) (p : Fin n → F) :
    Bool × St n F :=
  if s.mem.length = 0 then (true, { s with mem := [p], ideal := p, nadir := p })
  else
    let (change, s1) := changeBounds T s p
    if change ≥ 0 then
      match scan T (box T eps s1) (near (box T eps s1 p) p) p s1.mem.length 0 s1.mem false with
      | (.run, m, _) => (true, recalc T { s1 with mem := m ++ [p] })
      | (.boxDominated, m, res) =>
        let s2 := { s1 with mem := m }
        (res, if change = 1 then byDeleting T s2 p else s2)
      | (.dominated, m, res) => (res, byDeleting T { s1 with mem := m } p)
      | (.farther, m, res) => (res, { s1 with mem := m })
    else (false, s1)

/-- The constructor (lines 82-91): an empty archive, normaliser of the interval [0, 1]. The values of
`ideal` and `nadir` are not read before the first member comes. -/
def empty : St n F := { mem := [], ideal := fun _ => 0, nadir := fun _ => 0, lo := fun _ => 0, hi := fun _ => 1 }

/-- A sequence of calls. -/
def feed (T : Traits n F) (eps : Fin n → F)
    (near : (Fin n → Option Int) → (Fin n → F) → (Fin n → F) → Bool) (s : St n F)
    (ps : List (Fin n → F)) : St n F := ps.foldl (fun s p => (step T eps near s p).2) s

end Paradiseo.Moeo.Eps
