/-
Model of the generic permutation and bit-string variation operators of EO
(eo/src/eoOrderXover.h, eoPartiallyMappedXover.h, eoShiftMutation.h, eoSwapMutation.h,
eoTwoOptMutation.h, ga/eoBitOp.h) of /repo.

A genotype is a `List` of genes.  Reading or writing outside the vector is the outcome `.error .ub`,
a loop that has not finished after `fuel` passes is the outcome `.error .fuel`.  The random generator
is an arbitrary stream: the `t`-th call of `rng.random(m)` gives `rnd r t m`, the `t`-th call of
`rng.flip(p)` gives `b t`.  (Each operator numbers its own draws from 0.)
-/
import Verif.Model.EOReplacement

namespace Paradiseo.Ops

open Paradiseo.EO (Err)

variable {α : Type*}

/-- `eoRng::random(m)` (eo/src/utils/eoRNG.h:198-202): a number below `m`, and 0 when `m` is 0. -/
def rnd (r : Nat → Nat) (t m : Nat) : Nat := if m = 0 then 0 else r t % m

/-- Reading `v[i]`. -/
def rd (l : List α) (i : Nat) : Except Err α :=
  match l[i]? with
  | some a => .ok a
  | none => .error .ub

/-- Reading `v[i]` and going on with the value. -/
def readThen {σ : Type*} (l : List α) (f : σ → α → Except Err σ) (s : σ) (i : Nat) : Except Err σ :=
  match rd l i with
  | .ok v => f s v
  | .error e => .error e

/-- Writing `v[i] = a`. -/
def wr (l : List α) (i : Nat) (a : α) : Except Err (List α) :=
  if i < l.length then .ok (l.set i a) else .error .ub

/-- `std::swap(v[i], v[j])`. -/
def swapL (l : List α) (i j : Nat) : Except Err (List α) :=
  match rd l i, rd l j with
  | .ok a, .ok b => .ok ((l.set i b).set j a)
  | _, _ => .error .ub

/-- `do j = rng.random(n); while (i == j);` (eoShiftMutation.h:66, eoSwapMutation.h:67,
eoTwoOptMutation.h:58-60, eoPartiallyMappedXover.h:57-60): the number drawn and the next draw. -/
def drawOther (r : Nat → Nat) (n i : Nat) : Nat → Nat → Except Err (Nat × Nat)
  | 0, _ => .error .fuel
  | fuel + 1, t =>
    if rnd r t n = i then drawOther r n i fuel (t + 1) else .ok (rnd r t n, t + 1)

/-- The two different positions drawn from the `t`-th draw on, and the next draw. -/
def drawTwo (r : Nat → Nat) (n fuel t : Nat) : Except Err (Nat × Nat × Nat) :=
  match drawOther r n (rnd r t n) fuel (t + 1) with
  | .ok (j, t') => .ok (rnd r t n, j, t')
  | .error e => .error e

/-! ### Mutations of permutations -/

/-- `_eo[k] = _eo[k-1];` (eoShiftMutation.h:77). -/
def shiftStep (l : List α) (k : Nat) : Except Err (List α) :=
  match rd l (k - 1) with
  | .ok a => wr l k a
  | .error e => .error e

/-- The loop of the shift mutation (eoShiftMutation.h:73-80): the value at `to` (here `dst`) goes to `from` and
the values between move one place to the right. -/
def shiftCore (l : List α) (frm dst : Nat) : Except Err (List α) :=
  match rd l dst with
  | .error e => .error e
  | .ok tmp =>
    match ((List.range' (frm + 1) (dst - frm)).reverse).foldlM shiftStep l with
    | .ok l => wr l frm tmp
    | .error e => .error e

/-- eoShiftMutation::operator() (eoShiftMutation.h:58-83). -/
def shiftMutation (r : Nat → Nat) (fuel : Nat) (l : List α) : Except Err (List α) :=
  match drawTwo r l.length fuel 0 with
  | .ok (i, j, _) => shiftCore l (min i j) (max i j)
  | .error e => .error e

/-- eoSwapMutation::operator() (eoSwapMutation.h:59-73), `howMany` swaps from the `t`-th draw on. -/
def swapMutationLoop (r : Nat → Nat) (fuel : Nat) : Nat → Nat → List α → Except Err (List α)
  | 0, _, l => .ok l
  | howMany + 1, t, l =>
    match drawTwo r l.length fuel t with
    | .error e => .error e
    | .ok (i, j, t') =>
      match swapL l i j with
      | .ok l' => swapMutationLoop r fuel howMany t' l'
      | .error e => .error e

/-- The constructor (eoSwapMutation.h:45-50) refuses less than one swap. -/
def swapMutation (r : Nat → Nat) (fuel howMany : Nat) (l : List α) : Except Err (List α) :=
  if howMany < 1 then .error .thrown else swapMutationLoop r fuel howMany 0 l

/-- The loop of the two-opt mutation (eoTwoOptMutation.h:63-67). -/
def twoOptCore (l : List α) (frm dst : Nat) : Except Err (List α) :=
  (List.range ((dst - frm) / 2 + 1)).foldlM (fun l k => swapL l (frm + k) (dst - k)) l

/-- eoTwoOptMutation::operator() (eoTwoOptMutation.h:54-69). -/
def twoOptMutation (r : Nat → Nat) (fuel : Nat) (l : List α) : Except Err (List α) :=
  match drawTwo r l.length fuel 0 with
  | .ok (i, j, _) => twoOptCore l (min i j) (max i j)
  | .error e => .error e

/-! ### Order crossover -/

/-- State of eoOrderXover::cross: the child, the marks `verif`, the write index `id`. -/
structure OxState where
  child : List Nat
  verif : Nat → Bool
  id : Nat

/-- `_child[id++] = v; verif[v % size] = true;` (eoOrderXover.h:72-73, 82-83).  The index `v % size`
is always inside `verif`, which has `size` marks. -/
def oxPut (n : Nat) (s : OxState) (v : Nat) : Except Err OxState :=
  match wr s.child s.id v with
  | .ok c => .ok { child := c, verif := fun k => if k = v % n then true else s.verif k, id := s.id + 1 }
  | .error e => .error e

/-- The copied segment (eoOrderXover.h:71-74). -/
def oxCopy (c1 : List Nat) (cut1 cut2 : Nat) (s : OxState) : Except Err OxState :=
  (List.range' cut1 (cut2 - cut1)).foldlM (readThen c1 (oxPut c1.length)) s

/-- `(_direction*i + from + size) % size` (eoOrderXover.h:80): `_direction` is promoted to `int` and
converted to `unsigned`, so the sum is taken modulo 2^32. -/
def oxIndex (dir : Int) (n frm i : Nat) : Nat :=
  ((dir * i + frm + n) % (2 ^ 32 : Int) % n).toNat

/-- One pass of the second loop (eoOrderXover.h:79-85). -/
def oxFillStep (n : Nat) (s : OxState) (v : Nat) : Except Err OxState :=
  if s.verif (v % n) then .ok s else oxPut n s v

/-- The second loop (eoOrderXover.h:79-85). -/
def oxFill (c2 : List Nat) (dir : Int) (n frm : Nat) (s : OxState) : Except Err OxState :=
  (List.range n).foldlM (fun s i => readThen c2 (oxFillStep n) s (oxIndex dir n frm i)) s

/-- eoOrderXover::cross (eoOrderXover.h:64-86).  `from` is the first place of `_chrom2` with the value
`_child[_cut2 - 1]`; the search loop (lines 76-77) runs past the end if there is none. -/
def oxCross (c1 c2 child : List Nat) (dir : Int) (cut1 cut2 : Nat) : Except Err (List Nat) :=
  match oxCopy c1 cut1 cut2 { child := child, verif := fun _ => false, id := 0 } with
  | .error e => .error e
  | .ok s =>
    match rd s.child (cut2 - 1) with
    | .error e => .error e
    | .ok target =>
      match c2.findIdx? (fun v => v == target) with
      | none => .error .ub
      | some frm =>
        match oxFill c2 dir c1.length frm s with
        | .ok s => .ok s.child
        | .error e => .error e

/-- eoOrderXover::operator() (eoOrderXover.h:37-52).  `minusOne` is the value of `char(-1)` as an
`int`: -1 where `char` is signed, 255 where it is unsigned.  (An empty parent makes line 72 read
out of range, found by `oxCopy`.) -/
def orderXover (minusOne : Int) (flip : Bool) (r : Nat → Nat) (c1 c2 : List Nat) :
    Except Err (List Nat × List Nat) :=
  let dir := if flip then 1 else minusOne
  let cut2 := 1 + rnd r 0 c1.length
  let cut1 := rnd r 1 cut2
  match oxCross c1 c2 c1 dir cut1 cut2, oxCross c2 c1 c2 dir cut1 cut2 with
  | .ok d1, .ok d2 => .ok (d1, d2)
  | .error e, _ => .error e
  | _, .error e => .error e

/-! ### Partially mapped crossover -/

/-- The tables `p1`, `p2` of eoPartiallyMappedXover (eoPartiallyMappedXover.h:69-81), built from the
pairs (key, value) of the segment in order; `none` is the initial `-1`. -/
def pmxTable (keys vals : List Nat) : Nat → Option Nat :=
  (keys.zip vals).foldl (fun p kv => fun k => if k = kv.1 then some kv.2 else p k) (fun _ => none)

/-- `while (p[x] != -1) x = p[x];` (eoPartiallyMappedXover.h:85-88, 99-102) with tables of `n` cells. -/
def pmxChase (n : Nat) (p : Nat → Option Nat) : Nat → Nat → Except Err Nat
  | 0, v =>
    if v < n then
      (match p v with
       | none => .ok v
       | some _ => .error .fuel)
    else .error .ub
  | fuel + 1, v =>
    if v < n then
      (match p v with
       | none => .ok v
       | some w => pmxChase n p fuel w)
    else .error .ub

/-- What the three loops (eoPartiallyMappedXover.h:84-103) do with the position `i` of one parent,
`p` and `q` being the tables for positions outside and inside the segment.  Position `i` of a parent
is only read and written in pass `i`, so the loops are a map. -/
def pmxGene (n : Nat) (p q : Nat → Option Nat) (i1 i2 fuel : Nat) (vi : Nat × Nat) : Except Err Nat :=
  if i1 ≤ vi.2 ∧ vi.2 ≤ i2 then
    (match q vi.1 with
     | some w => .ok w
     | none => .error .ub)
  else pmxChase n p fuel vi.1

/-- eoPartiallyMappedXover.h:69-103 for the cut points `i1 ≤ i2`. -/
def pmxCore (s1 s2 : List Nat) (i1 i2 fuel : Nat) : Except Err (List Nat × List Nat) :=
  if s1.length = s2.length then
    let seg1 := (s1.drop i1).take (i2 + 1 - i1)
    let seg2 := (s2.drop i1).take (i2 + 1 - i1)
    let p1 := pmxTable seg2 seg1
    let p2 := pmxTable seg1 seg2
    match s1.zipIdx.mapM (pmxGene s1.length p1 p2 i1 i2 fuel),
          s2.zipIdx.mapM (pmxGene s1.length p2 p1 i1 i2 fuel) with
    | .ok d1, .ok d2 => .ok (d1, d2)
    | .error e, _ => .error e
    | _, .error e => .error e
  else .error .ub

/-- eoPartiallyMappedXover::operator() (eoPartiallyMappedXover.h:53-115): the children and the
returned flag. -/
def pmx (r : Nat → Nat) (fuel : Nat) (s1 s2 : List Nat) : Except Err (List Nat × List Nat × Bool) :=
  if 1 < s1.length then
    match drawTwo r s1.length fuel 0 with
    | .error e => .error e
    | .ok (i, j, _) =>
      match pmxCore s1 s2 (min i j) (max i j) fuel with
      | .ok (d1, d2) => .ok (d1, d2, true)
      | .error e => .error e
  else .ok (s1, s2, false)

/-! ### Bit-string mutations -/

/-- `chrom[i] = !chrom[i]`. -/
def flipBit (l : List Bool) (i : Nat) : Except Err (List Bool) :=
  match rd l i with
  | .ok b => .ok (l.set i (!b))
  | .error e => .error e

/-- eoOneBitFlip (eo/src/ga/eoBitOp.h:57-62). -/
def oneBitFlip (r : Nat → Nat) (l : List Bool) : Except Err (List Bool) :=
  flipBit l (rnd r 0 l.length)

/-- eoDetBitFlip (eoBitOp.h:87-96). -/
def detBitFlip (r : Nat → Nat) (k : Nat) (l : List Bool) : Except Err (List Bool) :=
  (List.range k).foldlM (fun l t => flipBit l (rnd r t l.length)) l

/-- The shuffled indices of eoDetSingleBitFlip (eoBitOp.h:126-136). -/
def shuffleIdx (r : Nat → Nat) (n : Nat) : Except Err (List Nat) :=
  (List.range n).foldlM (fun l i => swapL l i (rnd r i n)) (List.range n)

/-- eoDetSingleBitFlip (eoBitOp.h:123-149): the string and the returned flag. -/
def detSingleBitFlip (r : Nat → Nat) (k : Nat) (l : List Bool) : Except Err (List Bool × Bool) :=
  match shuffleIdx r l.length with
  | .error e => .error e
  | .ok idx =>
    if k ≤ l.length then
      match (idx.take k).foldlM flipBit l with
      | .ok l' => .ok (l', decide (k > 0))
      | .error e => .error e
    else .error .asserted

/-- eoBitMutation (eoBitOp.h:184-196): `b i` is the result of the flip for bit `i`. -/
def bitMutationAux (b : Nat → Bool) : Nat → List Bool → List Bool × Bool
  | _, [] => ([], false)
  | i, x :: xs =>
    let rest := bitMutationAux b (i + 1) xs
    if b i then ((!x) :: rest.1, true) else (x :: rest.1, rest.2)

/-- eoBitMutation::operator() (eoBitOp.h:184-196). -/
def bitMutation (b : Nat → Bool) (l : List Bool) : List Bool × Bool := bitMutationAux b 0 l

/-- eoBitInversion (eoBitOp.h:219-228). -/
def bitInversion (r : Nat → Nat) (fuel : Nat) (l : List α) : Except Err (List α) :=
  match drawTwo r (l.length + 1) fuel 0 with
  | .error e => .error e
  | .ok (u1, u2, _) =>
    let r1 := min u1 u2
    let r2 := max u1 u2
    .ok (l.take r1 ++ ((l.drop r1).take (r2 - r1)).reverse ++ l.drop r2)

/-- The loop of eoBitNext (eoBitOp.h:249-259), on the bits from the last one to the first one. -/
def bitNextRev : List Bool → List Bool
  | [] => []
  | true :: l => false :: bitNextRev l
  | false :: l => true :: l

/-- eoBitNext (eoBitOp.h:247-262). -/
def bitNext (l : List Bool) : List Bool := (bitNextRev l.reverse).reverse

/-- The loop of eoBitPrev (eoBitOp.h:283-293), on the bits from the last one to the first one. -/
def bitPrevRev : List Bool → List Bool
  | [] => []
  | true :: l => false :: l
  | false :: l => true :: bitPrevRev l

/-- eoBitPrev (eoBitOp.h:281-296). -/
def bitPrev (l : List Bool) : List Bool := (bitPrevRev l.reverse).reverse

/-! ### Bit-string crossovers -/

section Xover

variable [DecidableEq α]

/-- Swapping the genes at position `i` of two strings (eoBitOp.h:364-366, 423-425, `swap_ranges`). -/
def swapGene (c : List α × List α) (i : Nat) : Except Err (List α × List α) :=
  match rd c.1 i, rd c.2 i with
  | .ok a, .ok b => .ok (c.1.set i b, c.2.set i a)
  | _, _ => .error .ub

/-- `std::swap_ranges` of `len` genes from position `a` (eoBitOp.h:323, 489-491). -/
def swapRange (c : List α × List α) (a len : Nat) : Except Err (List α × List α) :=
  (List.range' a len).foldlM swapGene c

/-- eo1PtBitXover (eoBitOp.h:316-328): the children and the returned flag. -/
def onePtXover (r : Nat → Nat) (c : List α × List α) : Except Err ((List α × List α) × Bool) :=
  let site := rnd r 0 (min c.1.length c.2.length)
  if c.1.take site ≠ c.2.take site then
    match swapRange c 0 site with
    | .ok d => .ok (d, true)
    | .error e => .error e
  else .ok (c, false)

/-- eoUBitXover (eoBitOp.h:355-372); a coin is only thrown where the genes differ.  (The size check
of line 357 builds an exception without throwing it.)  State: next coin, strings, changed. -/
def uXoverStep (b : Nat → Bool) (s : Nat × (List α × List α) × Bool) (i : Nat) :
    Except Err (Nat × (List α × List α) × Bool) :=
  match rd s.2.1.1 i, rd s.2.1.2 i with
  | .ok x, .ok y =>
    if x ≠ y then
      if b s.1 then .ok (s.1 + 1, (s.2.1.1.set i y, s.2.1.2.set i x), true)
      else .ok (s.1 + 1, s.2)
    else .ok s
  | _, _ => .error .ub

def uXover (b : Nat → Bool) (c : List α × List α) : Except Err ((List α × List α) × Bool) :=
  match (List.range c.1.length).foldlM (uXoverStep b) (0, c, false) with
  | .ok s => .ok s.2
  | .error e => .error e

/-- The loop choosing points (eoBitOp.h:407-415, 475-484): `k` is the unsigned counter, decremented
modulo 2^32; the test comes after each pass, also after `continue`. -/
def choosePoints (r : Nat → Nat) : Nat → Nat → List Bool → Nat → Except Err (List Bool)
  | 0, _, _, _ => .error .fuel
  | fuel + 1, t, points, k =>
    match points[rnd r t points.length]? with
    | none => .error .ub
    | some true => if k = 0 then .ok points else choosePoints r fuel (t + 1) points k
    | some false =>
      let k' := if k = 0 then 2 ^ 32 - 1 else k - 1
      let points' := points.set (rnd r t points.length) true
      if k' = 0 then .ok points' else choosePoints r fuel (t + 1) points' k'

/-- One pass of the swapping loop of eoNPtsBitXover (eoBitOp.h:419-427). -/
def nPtsStep (points : List Bool) (s : (List α × List α) × Bool) (bit : Nat) :
    Except Err ((List α × List α) × Bool) :=
  let change := if points[bit]? = some true then !s.2 else s.2
  if change then
    match swapGene s.1 bit with
    | .ok c => .ok (c, change)
    | .error e => .error e
  else .ok (s.1, change)

/-- eoNPtsBitXover (eoBitOp.h:401-429). -/
def nPtsXover (r : Nat → Nat) (fuel numPoints : Nat) (c : List α × List α) :
    Except Err (List α × List α) :=
  let m := min c.1.length c.2.length
  let maxPoints := min (if m = 0 then 2 ^ 32 - 1 else m - 1) numPoints
  match choosePoints r fuel 0 (List.replicate m false) maxPoints with
  | .error e => .error e
  | .ok points =>
    match (List.range' 1 (points.length - 1)).foldlM (nPtsStep points) (c, false) with
    | .ok s => .ok s.1
    | .error e => .error e

/-- eoBitGxOver (eoBitOp.h:467-494). -/
def gXover (r : Nat → Nat) (fuel geneSize numPoints : Nat) (c : List α × List α) :
    Except Err (List α × List α) :=
  if geneSize = 0 then .error .ub
  else
    let maxGenes := min c.1.length c.2.length / geneSize
    match choosePoints r fuel 0 (List.replicate maxGenes false) (min maxGenes numPoints) with
    | .error e => .error e
    | .ok points =>
      (List.range points.length).foldlM
        (fun c i => if points[i]? = some true then swapRange c (i * geneSize) geneSize else .ok c) c

end Xover

end Paradiseo.Ops
