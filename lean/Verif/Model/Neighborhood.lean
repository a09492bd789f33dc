/-
Model of the neighbourhood iterators of MO (mo/src/neighborhood and mo/src/problems).

Conventions.
* `Stop.outOfRange`: a read outside a vector; `Stop.outOfFuel`: the loop has not ended within the
  given number of iterations.
* `rng.random(m)` (eo/src/utils/eoRNG.h:198-207) is `r t % m` for an arbitrary stream `r : Nat → Nat`
  read at position `t`: quantifying over all streams covers every value in `[0, m)`.
* `unsigned int` subtraction is `usub`, modulo 2^32; other unsigned operations are on naturals.
-/
namespace Paradiseo.Nbh

inductive Stop where
  | outOfRange
  | outOfFuel
  deriving DecidableEq, Repr

/-- Unsigned 32-bit subtraction. -/
def usub (a b : Nat) : Nat := (a + 2 ^ 32 - b) % 2 ^ 32

/-- The exploration loop of every explorer, once `init` has been called:
`use; while (cont) { next; use }` (e.g. mo/src/explorer/moRandomBestHCexplorer.h:108-140).
Returns the neighbours used, in order, and the final state of the neighbourhood. -/
def visit {S A : Type} (next : S → Except Stop S) (cont : S → Bool) (out : S → A) :
    Nat → S → Except Stop (List A × S)
  | 0, _ => .error .outOfFuel
  | fuel + 1, s =>
    if cont s then do
      let s' ← next s
      let (l, e) ← visit next cont out fuel s'
      pure (out s :: l, e)
    else pure ([out s], s)

/-! ### moOrderNeighborhood -/

/-- `init` (mo/src/neighborhood/moOrderNeighborhood.h:83-86); the state is `currentIndex`. -/
def orderInit : Nat := 0
/-- `next` (moOrderNeighborhood.h:93-96). -/
def orderNext (i : Nat) : Except Stop Nat := pure (i + 1)
/-- `cont` (moOrderNeighborhood.h:105-107): `currentIndex < getNeighborhoodSize() - 1`. -/
def orderCont (size : Nat) (i : Nat) : Bool := decide (i < usub size 1)
/-- `hasNeighbor` (moOrderNeighborhood.h:74-76). -/
def orderHas (size : Nat) : Bool := decide (size > 0)
/-- One full exploration: the keys given to `Neighbor::index`. -/
def orderExplore (size fuel : Nat) : Except Stop (List Nat × Nat) :=
  visit orderNext (orderCont size) id fuel orderInit

/-! ### moRndWithoutReplNeighborhood -/

/-- State of `moRndWithoutReplNeighborhood` (moRndWithoutReplNeighborhood.h:134-135), the last key
given to the neighbour, and the position in the random stream. -/
structure RndState where
  indexVector : List Nat
  maxIndex : Nat
  key : Nat
  t : Nat

/-- Constructor (moRndWithoutReplNeighborhood.h:62-65). -/
def rndNew (size t : Nat) : RndState := ⟨List.range size, 0, 0, t⟩

/-- `next` (moRndWithoutReplNeighborhood.h:97-105): draw, exchange with the last available. The
same code is moBitsWithoutReplNeighborhood.h:166-173. -/
def rndNext (r : Nat → Nat) (s : RndState) : Except Stop RndState :=
  let i := r s.t % s.maxIndex
  match s.indexVector[i]?, s.indexVector[s.maxIndex - 1]? with
  | some tmp, some last =>
    .ok ⟨(s.indexVector.set i last).set (s.maxIndex - 1) tmp, s.maxIndex - 1, tmp, s.t + 1⟩
  | _, _ => .error .outOfRange

/-- `init` (moRndWithoutReplNeighborhood.h:81-90). -/
def rndInit (r : Nat → Nat) (size : Nat) (s : RndState) : Except Stop RndState :=
  rndNext r { s with maxIndex := size }

/-- `cont` (moRndWithoutReplNeighborhood.h:113-115). -/
def rndCont (s : RndState) : Bool := decide (s.maxIndex > 0)

/-- One full exploration of the neighbourhood. -/
def rndExplore (r : Nat → Nat) (size fuel : Nat) (s : RndState) :
    Except Stop (List Nat × RndState) := do
  visit (rndNext r) rndCont (·.key) fuel (← rndInit r size s)

/-! ### moRndWithReplNeighborhood -/

/-- State of `moRndWithReplNeighborhood` (moRndWithReplNeighborhood.h:115-120): `nNeighbors`, last
key, stream position. -/
structure ReplState where
  nNeighbors : Nat
  key : Nat
  t : Nat

/-- `init` (moRndWithReplNeighborhood.h:80-83). -/
def replInit (r : Nat → Nat) (size t : Nat) : ReplState := ⟨1, r t % size, t + 1⟩
/-- `next` (moRndWithReplNeighborhood.h:90-93). -/
def replNext (r : Nat → Nat) (size : Nat) (s : ReplState) : Except Stop ReplState :=
  pure ⟨s.nNeighbors + 1, r s.t % size, s.t + 1⟩
/-- `cont` (moRndWithReplNeighborhood.h:100-105). -/
def replCont (size maxNeighbors : Nat) (s : ReplState) : Bool :=
  if maxNeighbors = 0 then decide (size > 0)
  else decide (size > 0) && decide (s.nNeighbors < maxNeighbors)
/-- One exploration. -/
def replExplore (r : Nat → Nat) (size maxNeighbors t fuel : Nat) :
    Except Stop (List Nat × ReplState) :=
  visit (replNext r size) (replCont size maxNeighbors) (·.key) fuel (replInit r size t)

/-! ### moSwapNeighborhood and moTwoOptExNeighborhood -/

/-- `next` (mo/src/problems/permutation/moSwapNeighborhood.h:68-76, identical
moTwoOptExNeighborhood.h:71-79). `size()` is a `size_t`: subtraction is exact for `size ≥ 2`. -/
def swapNext (size : Nat) (p : Nat × Nat) : Except Stop (Nat × Nat) :=
  if p.2 = size - 1 then pure (p.1 + 1, p.1 + 2) else pure (p.1, p.2 + 1)
/-- `cont` (moSwapNeighborhood.h:83-85, moTwoOptExNeighborhood.h:86-88). -/
def swapCont (size : Nat) (p : Nat × Nat) : Bool :=
  !(decide (p.1 = size - 2) && decide (p.2 = size - 1))
/-- Exploration from `init` = (0,1) (moSwapNeighborhood.h:57-61). -/
def swapExplore (size fuel : Nat) : Except Stop (List (Nat × Nat) × (Nat × Nat)) :=
  visit (swapNext size) (swapCont size) id fuel (0, 1)

/-! ### Keys of moIndexedSwapNeighbor and moShiftNeighbor -/

/-- `n` in `index` (moIndexedSwapNeighbor.h:117): `(unsigned)((1 + sqrt(1 + 8 * _key)) / 2)`.
`8 * _key` is a 32-bit product; the square root and the division are taken exactly, the cast
truncates (`C13_sqrt_floor` relates this to the real square root). -/
def swapRow (key : Nat) : Nat := (1 + Nat.sqrt ((1 + 8 * key) % 2 ^ 32)) / 2
/-- `index(_solution, _key)` (moIndexedSwapNeighbor.h:114-121). -/
def swapIndex (size key : Nat) : Nat × Nat :=
  let n := swapRow key
  let first := key - (n - 1) * n / 2
  (first, size - 1 - (n - 1 - first))
/-- Key computed by `set` (moIndexedSwapNeighbor.h:129-136). -/
def swapKey (size first second : Nat) : Nat :=
  let n := size + first - second
  first + n * (n - 1) / 2

/-- `index(_solution, _key)` (moShiftNeighbor.h:78-85). -/
def shiftIndex (size key : Nat) : Nat × Nat :=
  let first := key % size
  let second := key / size
  if first ≤ second then (first, second + 2) else (first, second)
/-- Key computed by `set` (moShiftNeighbor.h:123-133). -/
def shiftKey (size first second : Nat) : Nat :=
  if first < second then (second - 2) * size + first else second * size + first

/-! ### Moves on permutations. The solution is an array `Nat → α`. -/

variable {α : Type}

/-- Assignment `a[i] = v`. -/
def upd (a : Nat → α) (i : Nat) (v : α) : Nat → α := fun j => if j = i then v else a j

/-- Swap of two positions (moSwapNeighbor.h:46-52, moIndexedSwapNeighbor.h:79-88 `std::swap`). -/
def swapMove (a : Nat → α) (i j : Nat) : Nat → α :=
  let tmp := a i
  let a := upd a i (a j)
  upd a j tmp

/-- `insertion` (moShiftNeighbor.h:172-190). -/
def insertion (a : Nat → α) (first second : Nat) : Nat → α :=
  let tmp := a first
  if first < second then
    let a := (List.range' first (second - 1 - first)).foldl (fun a i => upd a i (a (i + 1))) a
    upd a (second - 1) tmp
  else
    let a := ((List.range' (second + 1) (first - second)).reverse).foldl
      (fun a i => upd a i (a (i - 1))) a
    upd a second tmp

/-- Checked read `_sol[i]` of a vector of `n` cells. -/
def rd (n : Nat) (a : Nat → α) (i : Nat) : Option α := if i < n then some (a i) else none
/-- Checked write `_sol[i] = v`. -/
def wr (n : Nat) (a : Nat → α) (i : Nat) (v : α) : Option (Nat → α) :=
  if i < n then some (upd a i v) else none

/-- `insertion` (moShiftNeighbor.h:172-190) once more, on a vector of `n` cells, every access checked:
`none` when the code reads or writes outside the vector. -/
def insertionChecked (n : Nat) (a : Nat → α) (first second : Nat) : Option (Nat → α) := do
  let tmp ← rd n a first
  if first < second then
    let a ← (List.range' first (second - 1 - first)).foldlM
      (fun a i => do wr n a i (← rd n a (i + 1))) a
    wr n a (second - 1) tmp
  else
    let a ← ((List.range' (second + 1) (first - second)).reverse).foldlM
      (fun a i => do wr n a i (← rd n a (i - 1))) a
    wr n a second tmp

/-- `moShiftNeighbor::move` (moShiftNeighbor.h:53-57). -/
def shiftMove (a : Nat → α) (p : Nat × Nat) : Nat → α := insertion a p.1 p.2
/-- `moShiftNeighbor::moveBack` (moShiftNeighbor.h:63-68). -/
def shiftMoveBack (a : Nat → α) (p : Nat × Nat) : Nat → α :=
  if p.1 < p.2 then insertion a (p.2 - 1) p.1 else insertion a p.2 (p.1 + 1)

/-- `moTwoOptExNeighbor::move` (moTwoOptExNeighbor.h:46-52). -/
def twoOptMove (a : Nat → α) (first second : Nat) : Nat → α :=
  (List.range ((second - first + 1) / 2)).foldl (fun a i => swapMove a (first + i) (second - i)) a

/-! ### Bit flips -/

/-- `moBitNeighbor::move` (mo/src/problems/bitString/moBitNeighbor.h:58-61). -/
def bitMove (x : Nat → Bool) (key : Nat) : Nat → Bool := upd x key (!x key)
/-- `moBitsNeighbor::move` and `moveBack` (moBitsNeighbor.h:104-116). -/
def bitsMove (x : Nat → Bool) (bits : List Nat) : Nat → Bool :=
  bits.foldl (fun x b => upd x b (!x b)) x

/-! ### moBitsWithoutReplNeighborhood -/

/-- `numberOfNeighbors(d)` (mo/src/problems/bitString/moBitsNeighborhood.h:82-94): quotient of two
products (32-bit overflow not modelled). -/
def numberOfNeighbors (length d : Nat) : Nat :=
  let factN := (List.range' 1 d).foldl (fun f k => f * k) 1
  let factL := ((List.range' (length - d + 1) d).reverse).foldl (fun f k => f * k) 1
  factL / factN

/-- One step of the enumeration of the `d`-subsets (moBitsWithoutReplNeighborhood.h:108-132):
`none` when the enumeration is over (`last = true`), otherwise the next vector. The list holds
`bits[d-1], ..., bits[0]`, i.e. the vector reversed, `top` is `length - 1`.
First call: `bits[d-1] < length - 1` → increment it. Otherwise go down while
`bits[j] + 1 == bits[j+1]`, increment `bits[j]` and refill. -/
def nextComb (top : Nat) : List Nat → Option (List Nat)
  | [] => none
  | b :: rest => if b < top then some ((b + 1) :: rest) else carry b rest
where
  /-- The inner `while` (lines 117-118) and the refill (123-126): `above` is `bits[j+1]`, the
  argument list is `bits[j], bits[j-1], …`. Returns the new prefix, reversed. -/
  carry (above : Nat) : List Nat → Option (List Nat)
    | [] => none
    | b :: rest =>
      if b + 1 = above then
        match carry b rest with
        | none => none
        | some [] => none
        | some (b' :: rest') => some ((b' + 1) :: b' :: rest')
      else some ((b + 1 + 1) :: (b + 1) :: rest)

/-- All vectors pushed for one distance `d`, from the vector `bits` on (fuel = number of
iterations of the `while(!last)` loop). -/
def combsFrom (top : Nat) : Nat → List Nat → Except Stop (List (List Nat))
  | 0, _ => .error .outOfFuel
  | fuel + 1, bits =>
    match nextComb top bits with
    | none => pure [bits]
    | some bits' => do pure (bits :: (← combsFrom top fuel bits'))

/-- The vectors pushed for distance `d` (lines 97-132): start at `0,1,…,d-1`. -/
def combsOf (length d fuel : Nat) : Except Stop (List (List Nat)) :=
  combsFrom (length - 1) fuel ((List.range d).reverse)

/-- State machine of `moBitsWithoutReplNeighborhood`: same `init`/`next` as above, and `cont`
(line 183-185): `neighborhoodSize - maxIndex < sampleSize`. -/
def bitsCont (size sample : Nat) (s : RndState) : Bool := decide (size - s.maxIndex < sample)
/-- Constructor clamps the sample size (lines 74-75). -/
def clampSample (size sample : Nat) : Nat := if sample > size ∨ sample = 0 then size else sample
/-- One exploration: the keys (indices in `neighborsVec`). -/
def bitsExplore (r : Nat → Nat) (size sample fuel : Nat) (s : RndState) :
    Except Stop (List Nat × RndState) := do
  visit (rndNext r) (bitsCont size (clampSample size sample)) (·.key) fuel (← rndInit r size s)

/-! ### moBitsWithReplNeighborhood -/

/-- The loop choosing the distance (moBitsWithReplNeighborhood.h:133-134):
`while (n < nSize[d - 1]) d++` from `d = 1`. -/
def chooseDistance (nSize : List Nat) (n : Nat) : Nat → Nat → Except Stop Nat
  | 0, _ => .error .outOfFuel
  | fuel + 1, d =>
    match nSize[d - 1]? with
    | none => .error .outOfRange
    | some m => if n < m then chooseDistance nSize n fuel (d + 1) else .ok d

/-- Drawing `n` distinct positions (moBitsWithReplNeighborhood.h:101-118). -/
def drawBits (r : Nat → Nat) (length : Nat) : Nat → Nat → List Nat → Nat →
    Except Stop (List Nat × List Nat × Nat)
  | 0, _, iv, t => .ok ([], iv, t)
  | n + 1, k, iv, t =>
    let i := r t % (length - k)
    match iv[i]?, iv[length - k - 1]? with
    | some b, some last => do
      let (bs, iv', t') ← drawBits r length n (k + 1) ((iv.set i last).set (length - k - 1) b) (t + 1)
      pure (b :: bs, iv', t')
    | _, _ => .error .outOfRange

/-! ### moBinaryPartition -/

/-- A partition: the two `std::set`s as sorted lists are abstracted to lists without order
(mo/src/problems/partition/moBinaryPartition.h:37-40); iteration is in list order. -/
structure Partition where
  selected : List Nat
  rejected : List Nat

/-- `select(atom)` (moBinaryPartition.h:77-95): erase from rejected, insert in selected
(`List.insert` keeps one occurrence). -/
def Partition.select (p : Partition) (a : Nat) : Partition :=
  ⟨p.selected.insert a, p.rejected.erase a⟩
/-- `reject(atom)` (moBinaryPartition.h:104-122). -/
def Partition.reject (p : Partition) (a : Nat) : Partition :=
  ⟨p.selected.erase a, p.rejected.insert a⟩
/-- `moBinaryPartitionSwapNeighbor::move` (moBinaryPartitionSwapNeighbor.h:96-104). -/
def Partition.move (p : Partition) (sel rej : Nat) : Partition := (p.reject rej).select sel
/-- `moveBack` (moBinaryPartitionSwapNeighbor.h:110-117). -/
def Partition.moveBack (p : Partition) (sel rej : Nat) : Partition := (p.reject sel).select rej

/-- State: `i_select`, `j_reject`. `next` (moBinaryPartitionSwapNeighborhood.h:75-106); it reads
element `i_select` of rejected and `j_reject` of selected. -/
def partNext (p : Partition) (s : Nat × Nat) : Except Stop (Nat × Nat) :=
  let s' := if s.1 = p.rejected.length - 1 then (0, s.2 + 1) else (s.1 + 1, s.2)
  if s'.1 < p.rejected.length ∧ s'.2 < p.selected.length then pure s' else .error .outOfRange
/-- `init` (lines 54-72). -/
def partInit (p : Partition) : Except Stop (Nat × Nat) :=
  if 0 < p.rejected.length ∧ 0 < p.selected.length then pure (0, 0) else .error .outOfRange
/-- `cont` (lines 109-132). -/
def partCont (p : Partition) (s : Nat × Nat) : Bool :=
  !(decide (s.1 = p.rejected.length - 1) && decide (s.2 = p.selected.length - 1))
/-- `hasNeighbor` (lines 138-140). -/
def partHas (p : Partition) : Bool := decide (p.rejected.length > 0)
/-- Exploration: pairs (atom to select, atom to reject). -/
def partExplore (p : Partition) (fuel : Nat) : Except Stop (List (Nat × Nat) × (Nat × Nat)) := do
  visit (partNext p) (partCont p)
    (fun s => (p.rejected.getD s.1 0, p.selected.getD s.2 0)) fuel (← partInit p)

end Paradiseo.Nbh
