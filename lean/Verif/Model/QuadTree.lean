import Mathlib.Data.Nat.Bitwise
import Mathlib.Data.List.Basic
/-
The quad tree of MOEO (an index of mutually non-dominated objective vectors), the other index (a sorted set,
two objectives) and the archive that uses an index.

* moeo/src/scalarStuffs/archive/moeoQuadTree.h
* moeo/src/scalarStuffs/archive/moeoQuickUnboundedArchiveIndex.h
* moeo/src/scalarStuffs/archive/moeoIndexedArchive.h, moeoQuadTreeArchive.h

All objectives are minimised (a maximised one is its negative).  Values are integers: two values are equal or
differ by more than the tolerance 1e-6 of `k_succ` and of the Pareto comparator.  `c v i` is objective `i`.
-/
namespace Paradiseo.QT

variable {V : Type}

/-- moeoParetoObjectiveVectorComparator (56-91) with no difference within the tolerance: `w` dominates `v`. -/
def dominatedBy (c : V → Nat → Int) (m : Nat) (v w : V) : Bool :=
  ((List.range m).all fun i => decide (c w i ≤ c v i)) && ((List.range m).any fun i => decide (c w i < c v i))

/-- `k_succ(v, w)` (238-249). -/
def kSucc (c : V → Nat → Int) (m : Nat) (v w : V) : Nat :=
  if dominatedBy c m w v then 0
  else ((List.range m).map fun i => if c w i ≤ c v i then 2 ^ (m - i - 1) else 0).sum

/-- `bound` (115). -/
def bound (m : Nat) : Nat := 2 ^ m - 1

/-- QuadTreeNode (45-103): `nil` is the null pointer; `kids k` is `subTree[k]` (null when absent). Slots above
`bound` are never used. -/
inductive Tree (V : Type) where
  | nil
  | node (vec : V) (idx : Nat) (kids : Nat → Tree V)

def Tree.isNil : Tree V → Bool
  | .nil => true
  | .node _ _ _ => false

/-- A new node without children. -/
def leaf (v : V) (idx : Nat) : Tree V := .node v idx fun _ => .nil

/-- `subTree[k] = t`. -/
def setKid (kids : Nat → Tree V) (k : Nat) (t : Tree V) : Nat → Tree V := fun j => if j = k then t else kids j

/-- The vectors with their indices: the node, then the subtrees in the order of the slots. -/
def Tree.toList (B : Nat) : Tree V → List (V × Nat)
  | .nil => []
  | .node v idx kids => (v, idx) :: (List.range (B + 1)).flatMap fun k => (kids k).toList B

/-- `reinsert(_node1, _node2)` (319-342) for a `_node2` without children; also the end of `reconsider`
(306-311). -/
def place (c : V → Nat → Int) (m : Nat) (v : V) (idx : Nat) : Tree V → Tree V
  | .nil => leaf v idx
  | .node u i kids =>
    .node u i (setKid kids (kSucc c m v u) (place c m v idx (kids (kSucc c m v u))))

/-- `reinsert` (319-342): the children of the second, slot by slot, then the second itself. The two nodes are
never the same. -/
def reinsert (c : V → Nat → Int) (m : Nat) : Tree V → Tree V → Tree V
  | n1, .nil => n1
  | n1, .node v idx kids =>
    place c m v idx ((List.range (bound m + 1)).foldl (fun t k => reinsert c m t (kids k)) n1)

/-- `reconsider` (285-312): the new root and the vectors removed. -/
def reconsider (c : V → Nat → Int) (m : Nat) : Tree V × List (V × Nat) → Tree V → Tree V × List (V × Nat)
  | a, .nil => a
  | a, .node v idx kids =>
    let a := (List.range (bound m + 1)).foldl (fun a k => reconsider c m a (kids k)) a
    match a.1 with
    | .nil => a
    | .node u i ks =>
      if kSucc c m v u = bound m then (a.1, a.2 ++ [(v, idx)])
      else (.node u i (setKid ks (kSucc c m v u) (place c m v idx (ks (kSucc c m v u)))), a.2)

/-- `replace` (258-279): what takes the place of the node dominated by the new one. -/
def replace (c : V → Nat → Int) (m : Nat) (x : V) (idx : Nat) (u : V) (i : Nat) (kids : Nat → Tree V) :
    Tree V × List (V × Nat) :=
  let a := (List.range (bound m + 1)).foldl (fun a k => reconsider c m a (kids k)) (leaf x idx, [])
  (a.1, a.2 ++ [(u, i)])

/-- The first loop of `remove` (354-356): from `k`, at most `n` steps. -/
def firstSlot (kids : Nat → Tree V) : Nat → Nat → Nat
  | 0, k => k
  | n + 1, k => if (kids k).isNil then firstSlot kids n (k + 1) else k

/-- `remove` (350-371): what takes the place of the node. `lim` is the limit of both loops: `bound - 1`. -/
def remove (c : V → Nat → Int) (m lim : Nat) (kids : Nat → Tree V) : Tree V :=
  let k := firstSlot kids (lim - 1) 1
  (List.range' (k + 1) (lim - (k + 1))).foldl (fun t j => reinsert c m t (kids j)) (kids k)

/-- `test1` (378-397). -/
def test1 (c : V → Nat → Int) (m : Nat) (x : V) : Tree V → Bool
  | .nil => false
  | .node v _ kids =>
    let s := kSucc c m x v
    if s = bound m then true
    else (List.range (bound m + 1)).any fun k =>
      decide (((s ^^^ bound m) &&& (k ^^^ bound m)) = (s ^^^ bound m)) && test1 c m x (kids k)

/-- `test2` (404-424): what is in the slot after, and the vectors removed. -/
def test2 (c : V → Nat → Int) (m lim : Nat) (x : V) : Nat → Tree V → Tree V × List (V × Nat)
  | _, .nil => (.nil, [])
  | 0, t => (t, [])
  | fuel + 1, .node v i kids =>
    let s := kSucc c m x v
    if s = 0 then
      let r := test2 c m lim x fuel (remove c m lim kids)
      (r.1, (v, i) :: r.2)
    else
      let f := fun k => if s &&& k = s then test2 c m lim x fuel (kids k) else (kids k, [])
      (.node v i fun k => if k ≤ bound m then (f k).1 else kids k,
        (List.range (bound m + 1)).flatMap fun k => (f k).2)

/-- Number of nodes. -/
def Tree.count (B : Nat) (t : Tree V) : Nat := (t.toList B).length

/-- `insert_aux` (176-231): the tree after, the vectors removed, whether the new one is in. -/
def insertAux (c : V → Nat → Int) (m lim : Nat) (x : V) (idx : Nat) : Tree V → Tree V × List (V × Nat) × Bool
  | .nil => (leaf x idx, [], true)
  | .node u i kids =>
    let B := bound m
    let s := kSucc c m x u
    if s = B then (.node u i kids, [], false)
    else if s = 0 then
      let r := replace c m x idx u i kids
      (r.1, r.2, true)
    else if (List.range (B + 1)).any fun k =>
        decide (k < s) && decide (((s ^^^ B) &&& (k ^^^ B)) = (s ^^^ B)) && test1 c m x (kids k) then
      (.node u i kids, [], false)
    else
      let f := fun k => if s < k ∧ s &&& k = s then test2 c m lim x ((kids k).count B) (kids k) else (kids k, [])
      let ms := (List.range (B + 1)).flatMap fun k => (f k).2
      let r := insertAux c m lim x idx (kids s)
      (.node u i (setKid (fun k => if k ≤ B then (f k).1 else kids k) s r.1), ms ++ r.2.1, r.2.2)

/-- moeoQuadTree: the root and `current_size`. -/
structure Quad (V : Type) where
  root : Tree V
  size : Nat

/-- `operator()` with `insert` (128-135, 153-167): the index given to the new node is `size() - 1` before
`current_size` is increased, 0 for the first. The flag `_insert` is not looked at. -/
def Quad.insert (c : V → Nat → Int) (m lim : Nat) (x : V) (q : Quad V) : Quad V × Bool × List (V × Nat) :=
  match q.root with
  | .nil => (⟨leaf x 0, q.size + 1⟩, true, [])
  | .node _ _ _ =>
    let r := insertAux c m lim x (q.size - 1) q.root
    (⟨r.1, if r.2.2 then q.size + 1 - r.2.1.length else q.size⟩, r.2.2, r.2.1)

/-- `find_node(obj, current)` (497-509) followed by `set_index(n)` (`update`, 142-147): the slot looked into is
`k_succ(current, obj)`. The flag tells that the vector was not found. -/
def updateIdx (c : V → Nat → Int) (m : Nat) (obj : V) (n : Nat) : Tree V → Tree V × Bool
  | .nil => (.nil, true)
  | .node v i kids =>
    if (List.range m).all fun j => decide (c v j = c obj j) then (.node v n kids, false)
    else
      let s := kSucc c m v obj
      let r := updateIdx c m obj n (kids s)
      (.node v i (setKid kids s r.1), r.2)

def Quad.update (c : V → Nat → Int) (m : Nat) (obj : V) (n : Nat) (q : Quad V) : Quad V :=
  ⟨(updateIdx c m obj n q.root).1, q.size⟩

/-! ### The sorted index of two objectives -/

/-- `index.erase(e)`: by the key, which is the second objective (CompareByLast, 77-94). -/
def eraseKey (c : V → Nat → Int) (x : V) (l : List (V × Nat)) : List (V × Nat) :=
  l.filter fun e => decide (c e.1 1 ≠ c x 1)

/-- `index.insert(e)` of a std::set: nothing if the key is there. -/
def insertKey (c : V → Nat → Int) (x : V) (i : Nat) (l : List (V × Nat)) : List (V × Nat) :=
  if l.any fun e => decide (c e.1 1 = c x 1) then l
  else l.takeWhile (fun e => decide (c e.1 1 < c x 1)) ++ (x, i) :: l.dropWhile fun e => decide (c e.1 1 < c x 1)

/-- `insert(_moeo, _insert)` (172-232): the index after, the flag, the removed. -/
def quickInsert (c : V → Nat → Int) (ins : Bool) (x : V) (l : List (V × Nat)) :
    List (V × Nat) × Bool × List (V × Nat) :=
  let lo := l.takeWhile fun e => decide (c e.1 1 < c x 1)
  let hi := l.dropWhile fun e => decide (c e.1 1 < c x 1)
  match l.getLast? with
  | none => (if ins then insertKey c x l.length l else l, true, [])
  | some last =>
    match hi with
    | [] =>
      if dominatedBy c 2 x last.1 then (l, false, [])
      else (if ins then insertKey c x l.length l else l, true, [])
    | e :: _ =>
      if (decide (c x 0 = c e.1 0) && decide (c x 1 = c e.1 1)) || dominatedBy c 2 x e.1 then (l, false, [])
      else if lo.getLast?.any fun p => dominatedBy c 2 x p.1 then (l, false, [])
      else
        let del := hi.takeWhile fun e => dominatedBy c 2 e.1 x
        let l' := del.foldl (fun l e => eraseKey c e.1 l) l
        (if ins then insertKey c x l'.length l' else l, true, del)

/-- `update` (135-141). -/
def quickUpdate (c : V → Nat → Int) (obj : V) (n : Nat) (l : List (V × Nat)) : List (V × Nat) :=
  insertKey c obj n (eraseKey c obj l)

/-! ### The archive -/

/-- What an index offers (moeoArchiveIndex.h). -/
structure Index (V I : Type) where
  submit : V → I → I × Bool × List (V × Nat)
  update : V → Nat → I → I

def quadIndex (c : V → Nat → Int) (m : Nat) : Index V (Quad V) :=
  ⟨Quad.insert c m (bound m - 1), Quad.update c m⟩

def quickIndex (c : V → Nat → Int) : Index V (List (V × Nat)) := ⟨quickInsert c true, quickUpdate c⟩

/-- `apply_modif` (73-82). `none`: an index outside the archive, undefined. -/
def applyModif {I : Type} (D : Index V I) (s : I × List V) (oldIdx : Nat) : Option (I × List V) :=
  match s.2.getLast? with
  | none => none
  | some last =>
    if oldIdx < s.2.length then some (D.update last oldIdx s.1, (s.2.set oldIdx last).dropLast) else none

/-- moeoIndexedArchive::operator() (39-51): the index object, the archive, the flag. -/
def archive {I : Type} (D : Index V I) (s : I × List V) (x : V) : Option ((I × List V) × Bool) :=
  let r := D.submit x s.1
  if !r.2.1 then some ((r.1, s.2), false)
  else
    match r.2.2.foldl (fun s e => s.bind fun s => applyModif D s e.2) (some (r.1, s.2)) with
    | none => none
    | some s' => some ((s'.1, s'.2 ++ [x]), true)

/-- A population (57-64). -/
def archiveAll {I : Type} (D : Index V I) : List V → I × List V → Option (I × List V)
  | [], s => some s
  | x :: l, s => (archive D s x).bind fun r => archiveAll D l r.1

/-- moeoQuadTreeArchive::operator() (79-81): the archive object, the flag. -/
def quadTreeArchive (arch : List V) (_x : V) : List V × Bool := (arch, false)

end Paradiseo.QT
