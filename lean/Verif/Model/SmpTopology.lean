import Mathlib.Data.List.Basic
import Mathlib.Data.Rat.Defs
import Mathlib.Algebra.Order.Field.Rat

/-!
# smp: communication topologies between islands

Model of smp/src/topology/*.cpp.  A topology is a matrix of booleans stored as a vector of rows.
`m[i][j] = true` means "island i sends its emigrants to island j".
Writes and reads outside the matrix are kept harmless here (a write is ignored, a read gives
`false`); the property theorems show the matrix is always `n` by `n`, so that no modelled loop makes
such an access.  The out-of-range reads the code does make (mesh) are the outcome `ub`.
-/

namespace Paradiseo.Smp

/-- How a call can fail: undefined behaviour, a failed `assert`, an exception. -/
inductive Err where
  | ub
  | asserted
  | thrown
deriving DecidableEq, Repr

/-- `std::vector<std::vector<T>>` (topology.h 85). -/
abbrev Matrix (α : Type) := List (List α)

/-- `matrix[i][j]`. -/
def getM {α : Type} (d : α) (m : Matrix α) (i j : Nat) : α :=
  ((m[i]?.getD [])[j]?).getD d

/-- `matrix[i][j] = b`. -/
def setM {α : Type} (m : Matrix α) (i j : Nat) (b : α) : Matrix α :=
  m.modify i (fun row => row.set j b)

/-- `matrix.assign(n, line)` with `line.assign(n, b)` (complete.cpp 41-43, ring.cpp 41-43); also the
result of `matrix.clear(); matrix.resize(n); line.resize(n)` for `b = false`. -/
def filled (n : Nat) (b : Bool) : Matrix Bool := List.replicate n (List.replicate n b)

/-- Body of the loop of complete.cpp 44-45. -/
def completeStep (m : Matrix Bool) (i : Nat) : Matrix Bool := setM m i i false

/-- Complete::operator() (complete.cpp 33-46). -/
def complete (n : Nat) : Matrix Bool := (List.range n).foldl completeStep (filled n true)

/-- Body of the loop of ring.cpp 45-46. -/
def ringStep (n : Nat) (m : Matrix Bool) (i : Nat) : Matrix Bool := setM m i ((i + 1) % n) true

/-- Ring::operator() (ring.cpp 33-47). -/
def ring (n : Nat) : Matrix Bool := (List.range n).foldl (ringStep n) (filled n false)

/-- Star::operator() (star.cpp 33-47): `line[_center] = true` and `matrix[_center][_center]` are out
of range when the centre is not a node. -/
def star (center n : Nat) : Except Err (Matrix Bool) :=
  if n ≤ center then .error .ub
  else .ok (setM (List.replicate n ((List.replicate n false).set center true)) center center false)

/-- `while((nbNode & 1 << power) == 0) power++` (hypercubic.cpp 40-42).  The fuel is the number of
bits of `unsigned`; a shift by 32 or more is undefined behaviour. -/
def hyperPower (n : Nat) : Nat → Nat → Except Err Nat
  | 0, _ => .error .ub
  | fuel + 1, power =>
    if n &&& (1 <<< power) = 0 then hyperPower n fuel (power + 1) else .ok power

/-- Body of the two inner loops (hypercubic.cpp 58-59). -/
def hyperStep (step : Nat) (m : Matrix Bool) (p : Nat × Nat) : Matrix Bool :=
  let m1 := setM m (p.1 + step) (p.2 + step) (getM false m p.1 p.2)
  let m2 := setM m1 (p.1 + step) p.2 (decide (p.1 = p.2))
  setM m2 p.1 (p.2 + step) (decide (p.1 = p.2))

/-- The pairs the two inner loops run through (hypercubic.cpp 55-56), row by row. -/
def pairs (step : Nat) : List (Nat × Nat) :=
  (List.range step).flatMap fun i => (List.range step).map fun j => (i, j)

/-- Body of the outer loop (hypercubic.cpp 52-60); `d` is `dim - 1`. -/
def hyperDim (m : Matrix Bool) (d : Nat) : Matrix Bool :=
  (pairs (1 <<< d)).foldl (hyperStep (1 <<< d)) m

/-- Hypercubic::operator() (hypercubic.cpp 35-62).  `nbNode` is `unsigned`, so for 0 nodes
`nbNode - 1` wraps, the assertion holds and the search for the power runs off. -/
def hypercubic (n : Nat) : Except Err (Matrix Bool) :=
  if n ≠ 0 ∧ n &&& (n - 1) ≠ 0 then .error .asserted
  else match hyperPower n 32 0 with
    | .error e => .error e
    | .ok power =>
      .ok ((List.range power).foldl hyperDim (setM (filled n false) 0 0 false))

/-- Mesh::factorization (mesh.cpp 79-90).  `i < sqrt(n+1)` is `i * i < n + 1` in exact
arithmetic; the loop stops at the latest at `i = n`. -/
def factorization (n : Nat) : List Nat :=
  (List.range' 1 n).filter fun i => decide (i * i < n + 1) && decide (n / i * i = n)

/-- `while (i < listFact.size() - 1 && listFact[i]*listFact[i]/nbNode < _ratio) i++`
(mesh.cpp 41-42) for a non-empty list: `rest` is the list from position `i` on. -/
def meshSearch (ratio : ℚ) (n : Nat) : List Nat → Nat → Nat
  | x :: y :: l, i => if (x : ℚ) * x / n < ratio then meshSearch ratio n (y :: l) (i + 1) else i
  | _, i => i

/-- Mesh::operator() up to the choice of the height (mesh.cpp 36-55).  For 0 nodes the list is empty
and `listFact[0]` is read; when the search stops at 0, `listFact[i-1]` is read at index
4294967295. -/
def meshHeight (ratio : ℚ) (n : Nat) : Except Err Nat :=
  let fact := factorization n
  let i := meshSearch ratio n fact 0
  match i, fact[i]?, fact[i - 1]? with
  | 0, _, _ => .error .ub
  | _ + 1, some x, some y =>
    let r1 : ℚ := (x : ℚ) * x / n
    let r2 : ℚ := (y : ℚ) * y / n
    .ok (if |r2 - ratio| ≤ ratio - r1 then y else x)
  | _, _, _ => .error .ub

/-- The right-hand side of mesh.cpp 69. -/
def meshLink (width i j : Nat) : Bool :=
  (decide (j - i = 1) && decide (j % width ≠ 0)) || decide (j - i = width)

/-- Body of the inner loop (mesh.cpp 67-70). -/
def meshInner (width i : Nat) (m : Matrix Bool) (j : Nat) : Matrix Bool :=
  setM (setM m i j (meshLink width i j)) j i (meshLink width i j)

/-- Body of the outer loop (mesh.cpp 64-71). -/
def meshOuter (width n : Nat) (m : Matrix Bool) (i : Nat) : Matrix Bool :=
  (List.range' (i + 1) (n - (i + 1))).foldl (meshInner width i) (setM m i i false)

/-- Mesh::operator() (mesh.cpp 34-72). -/
def mesh (ratio : ℚ) (n : Nat) : Except Err (Matrix Bool) :=
  match meshHeight ratio n with
  | .error e => .error e
  | .ok height => .ok ((List.range n).foldl (meshOuter (n / height) n) (filled n false))

/-- Topology::getIdNeighbors (topology.cpp 31-38), CustomBooleanTopology::getIdNeighbors
(customBooleanTopology.cpp 97-105). -/
def neighbors (m : Matrix Bool) (id : Nat) : List Nat :=
  (List.range m.length).filter fun j => getM false m id j

/-- Body of the loop of isolateNode (topology.cpp 50-57). -/
def isolateStep {α : Type} (zero : α) (id : Nat) (m : Matrix α) (i : Nat) : Matrix α :=
  setM (setM m id i zero) i id zero

/-- Topology::isolateNode (topology.cpp 48-58), CustomBooleanTopology::isolateNode
(customBooleanTopology.cpp 112-122) and CustomStochasticTopology::isolateNode
(customStochasticTopology.cpp 120-130, with 0 for `false`). -/
def isolateNode {α : Type} (zero : α) (m : Matrix α) (id : Nat) : Matrix α :=
  (List.range m.length).foldl (isolateStep zero id) m

/-- CustomStochasticTopology::getIdNeighbors (customStochasticTopology.cpp 102-113); `u j` is the
j-th value of `dis(gen)`, a number in [0, 1). -/
def stochNeighbors (m : Matrix ℚ) (u : Nat → ℚ) (id : Nat) : List Nat :=
  (List.range m.length).filter fun j => decide (u j < getM 0 m id j)

/-- One line of a topology file (customBooleanTopology.cpp 54-82).  `size` is `none` as long as no
line was read: the first line fixes the size, even if it is empty.  `conv` turns a number into an
entry. -/
def loadLine {τ α : Type} (conv : τ → α) (size : Option Nat) (m : Matrix α) (line : List τ) :
    Except Err (Option Nat × Matrix α) :=
  let s := size.getD line.length
  if line.length ≠ s ∧ line ≠ [] then .error .thrown
  else .ok (some s, if line = [] then m else m ++ [line.map conv])

/-- The loop over the lines (customBooleanTopology.cpp 54-83, customStochasticTopology.cpp
54-88). -/
def loadLines {τ α : Type} (conv : τ → α) : List (List τ) → Option Nat → Matrix α →
    Except Err (Matrix α)
  | [], _, m => .ok m
  | l :: ls, size, m =>
    match loadLine conv size m l with
    | .error e => .error e
    | .ok (size', m') => loadLines conv ls size' m'

/-- The constructors of the custom topologies (customBooleanTopology.cpp 42-95,
customStochasticTopology.cpp 43-100) on a file that can be opened; a line is the list of numbers
read from it before the first character that is no number. -/
def loadTopology {τ α : Type} (conv : τ → α) (lines : List (List τ)) : Except Err (Matrix α) :=
  match loadLines conv lines none [] with
  | .error e => .error e
  | .ok m => if m.all (fun row => decide (row.length = m.length)) then .ok m else .error .thrown

/-- `(bool) temp` (customBooleanTopology.cpp 65). -/
def boolEntry (x : Int) : Bool := decide (x ≠ 0)

/-- Clamping to [0, 1] (customStochasticTopology.cpp 65-71). -/
def stochEntry (x : ℚ) : ℚ := if x < 0 then 0 else if 1 < x then 1 else x

end Paradiseo.Smp
