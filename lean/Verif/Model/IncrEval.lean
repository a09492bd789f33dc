/-
Models of the full and incremental evaluation functions of the `mo` problems.

A solution vector is read as a function from indices (`Nat`) to values together with its size
`n`; every theorem carries the hypotheses that keep the indices the C++ code reads below `n`,
except where the code itself computes an index from data (royal road), where an out-of-range
read is the distinct outcome `none`.
Loops `for (k = 0; k < n; k++)` are left folds over `List.range n`.
Integers are unbounded; `double` sums (NK) are over an arbitrary field.
-/
import Mathlib.Data.Nat.Bitwise
import Mathlib.Algebra.Field.Defs
import Mathlib.Logic.Function.Basic

namespace Paradiseo.IncrEval

/-- `_solution[b] = !_solution[b]` (mo/src/problems/bitString/moBitNeighbor.h:78-84). -/
def flip (x : Nat → Bool) (b : Nat) : Nat → Bool := Function.update x b (!x b)

/-- `std::swap(_solution[i], _solution[j])` (mo/src/problems/permutation/moSwapNeighbor.h:46-52). -/
def swapAt {α : Type} (s : Nat → α) (i j : Nat) : Nat → α :=
  Function.update (Function.update s i (s j)) j (s i)

/-! ### OneMax -/

/-- problems/eval/oneMaxEval.h:47-52. -/
def oneMaxFull (n : Nat) (x : Nat → Bool) : Int :=
  (List.range n).foldl (fun sum i => sum + (if x i then 1 else 0)) 0

/-- mo/src/problems/eval/moOneMaxIncrEval.h:49-54 (`fit` is `_solution.fitness()`). -/
def oneMaxIncr (x : Nat → Bool) (fit : Int) (i : Nat) : Int :=
  if x i = false then fit + 1 else fit - 1

/-- mo/src/problems/eval/moOneMaxBitsIncrEval.h:50-60. -/
def oneMaxBitsIncr (x : Nat → Bool) (fit : Int) (bits : List Nat) : Int :=
  fit + bits.foldl (fun delta b => if x b = false then delta + 1 else delta - 1) 0

/-- A several-bits neighbour flips its bits one after the other
(mo/src/problems/bitString/moBitsNeighbor.h, `move`). -/
def flips (x : Nat → Bool) (bits : List Nat) : Nat → Bool := bits.foldl flip x

/-! ### QAP -/

/-- problems/eval/qapEval.h:105-113. -/
def qapFull (n : Nat) (A B : Nat → Nat → Int) (s : Nat → Nat) : Int :=
  (List.range n).foldl (fun cost i =>
    (List.range n).foldl (fun cost j => cost + A i j * B (s i) (s j)) cost) 0

/-- mo/src/problems/eval/moQAPIncrEval.h:62-79. -/
def qapIncr (n : Nat) (A B : Nat → Nat → Int) (s : Nat → Nat) (fit : Int) (i j : Nat) : Int :=
  let d0 := (A i i - A j j) * (B (s j) (s j) - B (s i) (s i)) +
      (A i j - A j i) * (B (s j) (s i) - B (s i) (s j))
  let d := (List.range n).foldl (fun d k =>
    if k ≠ i ∧ k ≠ j then
      d + (A k i - A k j) * (B (s k) (s j) - B (s k) (s i)) +
        (A i k - A j k) * (B (s j) (s k) - B (s i) (s k))
    else d) d0
  fit + d

/-! ### UBQP -/

/-- problems/eval/ubqpEval.h:163-174. -/
def ubqpFull (n : Nat) (Q : Nat → Nat → Int) (x : Nat → Bool) : Int :=
  (List.range n).foldl (fun fit i =>
    if x i then
      (List.range (i + 1)).foldl (fun fit j => if x j then fit + Q i j else fit) fit
    else fit) 0

/-- The sum `d` computed by both incremental evaluations: `Q[i][i]`, then the row below the
diagonal, then the column (moUBQPSimpleIncrEval.h:60-70, moUBQPdoubleIncrEvaluation.h:84-95). -/
def ubqpD (n : Nat) (Q : Nat → Nat → Int) (x : Nat → Bool) (i : Nat) : Int :=
  let d := Q i i
  let d := (List.range i).foldl (fun d j => if x j then d + Q i j else d) d
  (List.range' (i + 1) (n - (i + 1))).foldl (fun d j => if x j then d + Q j i else d) d

/-- mo/src/problems/eval/moUBQPSimpleIncrEval.h:59-78. -/
def ubqpIncr (n : Nat) (Q : Nat → Nat → Int) (x : Nat → Bool) (fit : Int) (i : Nat) : Int :=
  if x i = false then fit + ubqpD n Q x i else fit - ubqpD n Q x i

/-- First call of the double incremental evaluation (moUBQPdoubleIncrEvaluation.h:81-101). -/
def ubqpTableInit (n : Nat) (Q : Nat → Nat → Int) (x : Nat → Bool) : Nat → Int :=
  fun i => if x i then - ubqpD n Q x i else ubqpD n Q x i

/-- Later calls, after a move of bit `k` was applied (moUBQPdoubleIncrEvaluation.h:104-128);
`x` is the solution after the move. -/
def ubqpTableUpdate (Q : Nat → Nat → Int) (x : Nat → Bool) (k : Nat) (t : Nat → Int) :
    Nat → Int :=
  fun i =>
    if i = k then - t i
    else if x i ≠ x k then
      if i < k then t i + Q k i else t i + Q i k
    else
      if i < k then t i - Q k i else t i - Q i k

/-- State of a search using the double incremental evaluation: solution and table.
One step = apply the selected neighbour, then the table is updated at the next exploration. -/
def ubqpWalk (n : Nat) (Q : Nat → Nat → Int) (x : Nat → Bool) (moves : List Nat) :
    (Nat → Bool) × (Nat → Int) :=
  moves.foldl (fun s k => let x' := flip s.1 k; (x', ubqpTableUpdate Q x' k s.2))
    (x, ubqpTableInit n Q x)

/-- mo/src/eval/moDoubleIncrNeighborhoodEval.h:64-67. -/
def doubleIncrEval (fit : Int) (table : Nat → Int) (i : Nat) : Int := fit + table i

/-- mo/src/problems/eval/moUBQPBitsIncrEval.h:60-94: delta accumulated while the solution is
really moved bit after bit; afterwards the bits are flipped back. Returns the neighbour fitness
and the solution as left by the function. -/
def ubqpBitsIncr (n : Nat) (Q : Nat → Nat → Int) (x : Nat → Bool) (fit : Int)
    (bits : List Nat) : Int × (Nat → Bool) :=
  let r := bits.foldl (fun (s : Int × (Nat → Bool)) b =>
      let d := ubqpD n Q s.2 b
      let delta := if s.2 b = false then s.1 + d else s.1 - d
      (delta, flip s.2 b)) (0, x)
  (fit + r.1, bits.foldl flip r.2)

/-- Conversion of the matrix read from a file to lower triangular form
(problems/eval/ubqpEval.h:137-141). -/
def ubqpLower (Q : Nat → Nat → Int) : Nat → Nat → Int :=
  fun i j => if j < i then Q i j + Q j i else if i = j then Q i j else 0

/-! ### MaxSAT -/

/-- Truth of one literal: `((litteral > 0) && _solution[litteral - 1]) ||
((litteral < 0) && !(_solution[-litteral - 1]))` (problems/eval/maxSATeval.h:231). -/
def litEval (x : Nat → Bool) (l : Int) : Bool :=
  (decide (l > 0) && x (l.toNat - 1)) || (decide (l < 0) && !x ((-l).toNat - 1))

/-- `clauseEval` (maxSATeval.h:222-237): the while loop stops at the first true literal. -/
def clauseEval (c : List Int) (x : Nat → Bool) : Bool :=
  match c with
  | [] => false
  | l :: c => if litEval x l then true else clauseEval c x

/-- maxSATeval.h:244-252. -/
def maxSatFull (cs : List (List Int)) (x : Nat → Bool) : Int :=
  cs.foldl (fun fit c => if clauseEval c x then fit + 1 else fit) 0

/-- One entry of the occurrence table as the random constructor pushes it
(maxSATeval.h:86-91): `variables[-number].push_back(-i)` or `variables[number].push_back(i)`.
Result: the variable number and the pushed value. -/
def occRandom (number : Int) (i : Nat) : Nat × Int :=
  if number < 0 then ((-number).toNat, -(i : Int)) else (number.toNat, (i : Int))

/-- The same entry as the file constructor pushes it (maxSATeval.h:153-160): the sign of
`number` is dropped before it is tested. -/
def occFile (number : Int) (i : Nat) : Nat × Int :=
  let number := if number < 0 then -number else number
  if number < 0 then ((-number).toNat, -(i : Int)) else (number.toNat, (i : Int))

/-- `variables[v]` after the constructor has pushed `occ number i` for every literal `number` of
every clause `i`, in clause order (maxSATeval.h:75-96 and 149-163). -/
def entriesOf (occ : Int → Nat → Nat × Int) (cs : List (List Int)) (v : Nat) : List Int :=
  (cs.zipIdx.flatMap (fun ci => ci.1.map (fun l => occ l ci.2))).filterMap
    (fun e => if e.1 = v then some e.2 else none)

/-- Body of the loop of the incremental evaluation for one affected clause number `nc` with
truth value `litt` of the literal (moMaxSATincrEval.h:84-99). -/
def satStep (cs : List (List Int)) (x : Nat → Bool) (bit : Nat) (nc : Nat) (litt : Bool)
    (delta : Int) : Int :=
  if litt then
    if clauseEval (cs.getD nc []) (flip x bit) = false then delta - 1 else delta
  else
    if clauseEval (cs.getD nc []) x = false then delta + 1 else delta

/-- The incremental evaluation run on a list of occurrences whose sign is given by `neg`
(moMaxSATincrEval.h:57-100, lines 70-103). -/
def maxSatIncr (cs : List (List Int)) (entries : List Int) (x : Nat → Bool) (fit : Int)
    (bit : Nat) : Int :=
  fit + entries.foldl (fun delta nc =>
    if nc < 0 then satStep cs x bit (-nc).toNat (!x bit) delta
    else satStep cs x bit nc.toNat (x bit) delta) 0

/-! ### NK landscapes -/

/-- `sigma` (problems/eval/nkLandscapesEval.h:304-315), state `(accu, n)`. -/
def nkSigma (K : Nat) (link : Nat → Nat) (x : Nat → Bool) : Nat :=
  ((List.range (K + 1)).foldl (fun (s : Nat × Nat) j =>
    ((if x (link j) then s.1 ||| s.2 else s.1), s.2 <<< 1)) (0, 1)).1

/-- Full evaluation (nkLandscapesEval.h:287-294). -/
def nkFull {F : Type} [Field F] (N K : Nat) (links : Nat → Nat → Nat) (tables : Nat → Nat → F)
    (x : Nat → Bool) : F :=
  ((List.range N).foldl (fun accu i => accu + tables i (nkSigma K (links i) x)) 0) / (N : F)

/-- The incremental `sigma` (moNKlandscapesIncrEval.h:106-122), state `(sig, nonSig, n)`;
result `(sig, nonSig)` after the final xor. -/
def nkSigma2 (K : Nat) (link : Nat → Nat) (x : Nat → Bool) (bit : Nat) : Nat × Nat :=
  let s := (List.range (K + 1)).foldl (fun (s : Nat × Nat × Nat) j =>
    ((if x (link j) then s.1 ||| s.2.2 else s.1),
     (if link j = bit then s.2.2 else s.2.1), s.2.2 <<< 1)) (0, 0, 1)
  (s.1, s.1 ^^^ s.2.1)

/-- `inverseLinks[bit]` as built by the constructor (moNKlandscapesIncrEval.h:55-64). -/
def nkInverseLinks (N K : Nat) (links : Nat → Nat → Nat) (bit : Nat) : List Nat :=
  (List.range N).flatMap (fun i =>
    (List.range (K + 1)).filterMap (fun j => if links i j = bit then some i else none))

/-- Sum of the modified contributions for flipping `bit` (moNKlandscapesIncrEval.h:83-87). -/
def nkDelta {F : Type} [Field F] (N K : Nat) (links : Nat → Nat → Nat) (tables : Nat → Nat → F)
    (x : Nat → Bool) (bit : Nat) (delta : F) : F :=
  (nkInverseLinks N K links bit).foldl (fun delta i =>
    let s := nkSigma2 K (links i) x bit
    delta + (tables i s.2 - tables i s.1)) delta

/-- Incremental evaluation (moNKlandscapesIncrEval.h:76-90). -/
def nkIncr {F : Type} [Field F] (N K : Nat) (links : Nat → Nat → Nat) (tables : Nat → Nat → F)
    (x : Nat → Bool) (fit : F) (bit : Nat) : F :=
  fit + nkDelta N K links tables x bit 0 / (N : F)

/-- Several bits (moNKlandscapesBitsIncrEval.h:78-105); returns neighbour fitness and the
solution as left by the function. -/
def nkBitsIncr {F : Type} [Field F] (N K : Nat) (links : Nat → Nat → Nat)
    (tables : Nat → Nat → F) (x : Nat → Bool) (fit : F) (bits : List Nat) :
    F × (Nat → Bool) :=
  let r := bits.foldl (fun (s : F × (Nat → Bool)) b =>
    (nkDelta N K links tables s.2 b s.1, flip s.2 b)) (0, x)
  (fit + r.1 / (N : F), bits.foldl flip r.2)

/-! ### Royal road -/

/-- `while (j < k && _solution[offset + j]) j++` starting from `j` with at most `m = k - j`
steps; an access at an index `≥ x.length` is the outcome `none`
(royalRoadEval.h:63-64, moRoyalRoadIncrEval.h:63-64 and 71). -/
def rrScan (x : List Bool) (offset : Nat) : Nat → Nat → Option Nat
  | j, 0 => some j
  | j, m + 1 =>
    match x[offset + j]? with
    | none => none
    | some true => rrScan x offset (j + 1) m
    | some false => some j

/-- Full evaluation (problems/eval/royalRoadEval.h:52-71). -/
def royalFull (k : Nat) (x : List Bool) : Option Int :=
  (List.range (x.length / k)).foldlM (fun sum i => do
    let j ← rrScan x (i * k) 0 k
    pure (if j = k then sum + 1 else sum)) 0

/-- Incremental evaluation (mo/src/problems/eval/moRoyalRoadIncrEval.h:56-80). -/
def royalIncr (k : Nat) (x : List Bool) (fit : Int) (idx : Nat) : Option Int := do
  let offset := idx / k * k
  let j ← rrScan x offset 0 k
  if j = k then pure (fit - 1)
  else
    let b ← x[idx]?
    if b = false ∧ offset + j = idx then
      let j ← rrScan x offset (j + 1) (k - (j + 1))
      if j = k then pure (fit + 1) else pure fit
    else pure fit

end Paradiseo.IncrEval
