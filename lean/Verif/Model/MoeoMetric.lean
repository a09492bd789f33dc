import Verif.Model.Moeo
import Mathlib.Algebra.Order.Field.Basic
import Mathlib.Data.List.FinRange
/-
Model of the quality indicators of MOEO (moeo/src/metric): additive and multiplicative epsilon,
contribution, binary hypervolume indicator, hypervolume of a set. Doubles are an ordered field.
-/
namespace Paradiseo.Moeo
variable {n : Nat} {F : Type} [Field F] [LinearOrder F]

/-- An `eoRealInterval` used as bounds of an objective; `range()` is `maximum - minimum`
(eo/src/utils/eoRealBounds.h:230-246). -/
structure Bnd (F : Type) where
  lo : F
  hi : F
/-- `range()`. -/
def Bnd.range (b : Bnd F) : F := b.hi - b.lo

/-- `setup(_min, _max, _obj)` (metric/moeoNormalizedSolutionVsSolutionBinaryMetric.h:77-85), `tiny` the
constant `1e-6`. -/
def setupBnd (tiny mn mx : F) : Bnd F := if mn = mx then ⟨mn - tiny, mx + tiny⟩ else ⟨mn, mx⟩

/-! ### Epsilon indicators -/

/-- `epsilon(o1, o2, obj)` of the additive indicators (metric/moeoAdditiveEpsilonBinaryMetric.h:89-105,
metric/moeoVecVsVecAdditiveEpsilonBinaryMetric.h:71-87). -/
def addEps (T : Traits n F) (B : Fin n → Bnd F) (o1 o2 : Fin n → F) (k : Fin n) : F :=
  if T.minimizing k then (o1 k - (B k).lo) / (B k).range - (o2 k - (B k).lo) / (B k).range
  else (o2 k - (B k).lo) / (B k).range - (o1 k - (B k).lo) / (B k).range

/-- `moeoAdditiveEpsilonBinaryMetric::operator()` (moeoAdditiveEpsilonBinaryMetric.h:60-73): starts with
objective 0, so there must be one. -/
def addEpsVec (T : Traits (n + 1) F) (B : Fin (n + 1) → Bnd F) (o1 o2 : Fin (n + 1) → F) : F :=
  (List.finRange (n + 1)).tail.foldl (fun result i => max result (addEps T B o1 o2 i))
    (addEps T B o1 o2 0)

/-- One of the loops of `moeoVecVsVecEpsilonBinaryMetric::operator()`
(metric/moeoVecVsVecEpsilonBinaryMetric.h:80-98): first value, then `if (better) replace`. `none`: the
variable is never assigned. -/
def pickLoop {α : Type} (f : α → Option F) (better : F → F → Bool) (l : List α) : Option F :=
  match l with
  | [] => none
  | a :: l => l.foldl (fun acc x => do
      let cur ← acc
      let v ← f x
      pure (if better cur v then v else cur)) (f a)

/-- The three nested loops (lines 80-99): maximum over the second set of the minimum over the first of
the maximum over objectives of `eps`. -/
def epsSets (eps : (Fin n → F) → (Fin n → F) → Fin n → Option F) (set1 set2 : List (Fin n → F)) :
    Option F :=
  pickLoop (fun b => pickLoop (fun a => pickLoop (eps a b) (fun cur v => decide (cur < v)) (List.finRange n))
    (fun cur v => decide (v < cur)) set1) (fun cur v => decide (cur < v)) set2

/-- `epsilon` of `moeoVecVsVecMultiplicativeEpsilonBinaryMetric`
(metric/moeoVecVsVecMultiplicativeEpsilonBinaryMetric.h:70-95); `none`: exception. -/
def mulEps (T : Traits n F) (o1 o2 : Fin n → F) (k : Fin n) : Option F :=
  if o1 k * o2 k ≤ 0 then none else if T.minimizing k then some (o1 k / o2 k) else some (o2 k / o1 k)

/-- Minimum over two sets of an objective, as computed by `setup`
(moeoVecVsVecEpsilonBinaryMetric.h:111-128); the first set must not be empty. -/
def setBnd (set1 set2 : List (Fin n → F)) (k : Fin n) : Option (Bnd F) :=
  match set1 with
  | [] => none
  | a :: l => some ⟨(l ++ set2).foldl (fun m v => min m (v k)) (a k),
      (l ++ set2).foldl (fun m v => max m (v k)) (a k)⟩

/-! ### Contribution -/

/-- The inner loops with `break` of `card_C`, `card_W` (metric/moeoContributionMetric.h:80-110): number of
elements of `set1` related to one of `set2`. -/
def cardRel {V : Type} (rel : V → V → Bool) (set1 set2 : List V) : Nat :=
  set1.foldl (fun c a => if set2.any (rel a) then c + 1 else c) 0

/-- `card_C` (80-91). -/
def cardC (T : Traits n F) (s1 s2 : List (Fin n → F)) : Nat := cardRel (eqCmp T) s1 s2
/-- `card_W` (99-110). -/
def cardW (T : Traits n F) (s1 s2 : List (Fin n → F)) : Nat := cardRel (fun a b => paretoCmp T b a) s1 s2
/-- `card_N` (118-134). -/
def cardN (T : Traits n F) (s1 s2 : List (Fin n → F)) : Nat :=
  s1.foldl (fun c a => if s2.any (fun b => paretoCmp T b a || paretoCmp T a b) then c else c + 1) 0

/-- `moeoContributionMetric::operator()` (58-66); `none`: 0/0. -/
def contribution (T : Traits n F) (s1 s2 : List (Fin n → F)) : Option F :=
  let c := cardC T s1 s2
  let w1 := cardW T s1 s2
  let n1 := cardN T s1 s2
  let w2 := cardW T s2 s1
  let n2 := cardN T s2 s1
  if c + w1 + n1 + w2 + n2 = 0 then none
  else some ((((c : F) / 2 + w1 + n1)) / ((c + w1 + n1 + w2 + n2 : Nat) : F))

/-! ### Binary hypervolume indicator -/

/-- `hypervolume(o1, o2, obj, flag)` (metric/moeoHypervolumeBinaryMetric.h:128-170) on vectors given by
index. -/
def hvRec (rho : F) (B : Nat → Bnd F) (o1 o2 : Nat → F) : Nat → Bool → F
  | 0, flag =>
    let range := rho * (B 0).range
    let mx := (B 0).lo + range
    let v2 := if flag then mx else o2 0
    if o1 0 < v2 then (v2 - o1 0) / range else 0
  | obj + 1, flag =>
    let range := rho * (B (obj + 1)).range
    let mx := (B (obj + 1)).lo + range
    let v1 := o1 (obj + 1)
    let v2 := if flag then mx else o2 (obj + 1)
    if v1 < v2 then
      hvRec rho B o1 o2 obj true * (v2 - v1) / range + hvRec rho B o1 o2 obj false * (mx - v2) / range
    else hvRec rho B o1 o2 obj false * (mx - v1) / range

/-- Transformation of maximised objectives (lines 88-97). -/
def flip (maximizing : Nat → Bool) (B : Nat → Bnd F) (o : Nat → F) : Nat → F := fun i =>
  if maximizing i then (B i).hi - o i + (B i).lo else o i

/-- `operator()(o1, o2)` (84-108) for `n + 1` objectives; `dom21` is `paretoComparator(_o2, _o1)`. -/
def hvBinary (rho : F) (B : Nat → Bnd F) (maximizing : Nat → Bool) (dom21 : Bool) (o1 o2 : Nat → F)
    (n : Nat) : F :=
  let a := flip maximizing B o1
  let b := flip maximizing B o2
  if dom21 then -hvRec rho B a b n false else hvRec rho B b a n false

/-! ### Hypervolume of a set -/

/-- Points of the transformed front, indexed by objective. -/
abbrev Pt (F : Type) := Nat → F

/-- `dominates` (metric/moeoHyperVolumeMetric.h:177-191): `fuel` objectives left, `i` the next one. -/
def hvDomLoop (p q : Pt F) : Nat → Nat → Bool → Bool
  | 0, _, better => better
  | fuel + 1, i, better =>
    if p i > q i then hvDomLoop p q fuel (i + 1) true
    else if p i < q i then false
    else hvDomLoop p q fuel (i + 1) better

/-- `dominates(p, q, k)`. -/
def hvDom (k : Nat) (p q : Pt F) : Bool := hvDomLoop p q k 0 false

/-- `swap` (199-203). -/
def swapAt {α : Type} (l : List α) (i j : Nat) : List α :=
  match l[i]?, l[j]? with
  | some a, some b => (l.set i b).set j a
  | _, _ => l

/-- The loops of `filter_nondominated_set` (219-245) as one loop on `(n, i, j)`: result the permuted
front and the number of points kept in front. -/
def hvFilter (k : Nat) (front : List (Pt F)) (n i j : Nat) : List (Pt F) × Nat :=
  if i < n then
    if j < n then
      match front[i]?, front[j]? with
      | some p, some q =>
        if hvDom k p q then hvFilter k (swapAt front j (n - 1)) (n - 1) i j
        else if hvDom k q p then hvFilter k (swapAt front i (n - 1)) (n - 1) i (i + 1)
        else hvFilter k front n i (j + 1)
      | _, _ => (front, n)
    else hvFilter k front n (i + 1) (i + 2)
  else (front, n)
termination_by (n, n - i, n - j)

/-- `surface_unchanged_to` (254-268); `none`: exception. -/
def hvSurface (front : List (Pt F)) (n obj : Nat) : Option F :=
  match front.take n with
  | [] => none
  | p :: l => some (l.foldl (fun m q => if q obj < m then q obj else m) (p obj))

/-- `reduce_nondominated_set` (280-292). -/
def hvReduce (obj : Nat) (threshold : F) (front : List (Pt F)) (n i : Nat) : List (Pt F) × Nat :=
  if i < n then
    match front[i]? with
    | some p =>
      if p obj ≤ threshold then hvReduce obj threshold (swapAt front i (n - 1)) (n - 1) i
      else hvReduce obj threshold front n (i + 1)
    | none => (front, n)
  else (front, n)
termination_by (n, n - i)

/-- The `while (n > 0)` loop of `calc_hypervolume` (309-337) for `obj + 1` objectives; `sub front m` is
what line 320-327 computes for the first `m` points (with the front it leaves). `none`: exception or fuel
exhausted. -/
def hvLoop (sub : List (Pt F) → Nat → Option (F × List (Pt F))) (obj : Nat) :
    Nat → List (Pt F) → Nat → F → F → Option (F × List (Pt F))
  | 0, _, _, _, _ => none
  | fuel + 1, front, n, volume, distance =>
    if n = 0 then some (volume, front)
    else do
      let (front, m) := hvFilter obj front n 0 1
      let (tempVol, front) ← sub front m
      let tempDist ← hvSurface front n obj
      let volume := volume + tempVol * (tempDist - distance)
      let (front, n) := hvReduce obj tempDist front n 0
      hvLoop sub obj fuel front n volume tempDist

/-- `calc_hypervolume(front, n, no_objectives)` (302-339). -/
def calcHV : Nat → List (Pt F) → Nat → Option (F × List (Pt F))
  | 0, front, n => if n = 0 then some (0, front) else none
  | 1, front, n => hvLoop (fun fr _ => fr[0]?.map fun p => (p 0, fr)) 0 (n + 1) front n 0 0
  | 2, front, n => hvLoop (fun fr _ => fr[0]?.map fun p => (p 0, fr)) 1 (n + 1) front n 0 0
  | k + 3, front, n => hvLoop (fun fr m => calcHV (k + 2) fr m) (k + 2) (n + 1) front n 0 0

/-- Transformation of a set with respect to the reference point (lines 123-134). -/
def hvFront (minimizing : Nat → Bool) (B : Nat → Bnd F) (ref : Nat → F) (set : List (Nat → F)) :
    List (Pt F) :=
  set.map fun v j => if minimizing j then ref j - (v j - (B j).lo) / (B j).range
    else (v j - (B j).lo) / (B j).range - ref j

/-- `operator()` with a given reference point (constructors at 72-86, body 123-136). -/
def hvMetric (minimizing : Nat → Bool) (B : Nat → Bnd F) (ref : Nat → F) (nObj : Nat)
    (set : List (Nat → F)) : Option F :=
  (calcHV nObj (hvFront minimizing B ref set) set.length).map Prod.fst

/-- `setup` (moeoHyperVolumeMetric.h:151-168) for a non-empty set `v :: l`. -/
def hvSetup (v : Nat → F) (l : List (Nat → F)) (j : Nat) : Bnd F :=
  ⟨l.foldl (fun m w => min m (w j)) (v j), l.foldl (fun m w => max m (w j)) (v j)⟩

/-- `operator()` of a metric constructed with a factor `rho ≥ 1` (constructor 50-65, body 97-120);
`none`: exception of `setup` for an empty set. -/
def hvMetricRho (minimizing : Nat → Bool) (normalize : Bool) (rho : F) (nObj : Nat)
    (set : List (Nat → F)) : Option F :=
  match set with
  | [] => none
  | v :: l =>
    if normalize then
      hvMetric minimizing (hvSetup v l) (fun j => if minimizing j then rho else 1 - rho) nObj (v :: l)
    else
      hvMetric minimizing (fun _ => ⟨0, 1⟩)
        (fun j => if minimizing j then (hvSetup v l j).hi * rho else (hvSetup v l j).hi * (1 - rho)) nObj
        (v :: l)

end Paradiseo.Moeo
