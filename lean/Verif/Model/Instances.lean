import Verif.Model.EOAlgo
import Verif.Model.IncrEval
import Mathlib.Algebra.Field.Rat
import Mathlib.Analysis.SpecialFunctions.Pow.Real

/-
Model of the instance generators and files of the problems in problems/eval: NK landscapes (nkLandscapesEval.h,
nkpLandscapesEval.h, nkqLandscapesEval.h), MaxSAT (maxSATeval.h), and of three more evaluations: building-block royal
road (bbRoyalRoadEval.h), queens (queenEval.h), sets of solutions (moPopSolEval.h).

Simplifications: a text file is a list of lines of words, a word being a number or some text (printing a number and
reading it back gives the number: the six digits of a printed `double` are not modelled); arrays are functions of the
index; 32-bit overflow (tables of 2^(K+1) entries) is not modelled; rational or real numbers for `double`.
-/
namespace Paradiseo.Inst

open Paradiseo.EO

/-! ### Text files -/

/-- A word of a text file. -/
inductive Word where
  | txt (s : String)
  | num (v : Int)
deriving DecidableEq

/-- `s[0]` of a word read as a string; a number begins with a digit or a sign, here '0'. The empty string has the
null character. -/
def Word.first : Word → Char
  | .txt s => s.toList.headD '\x00'
  | .num _ => '0'

/-- What remains to be read: the rest of the current line and the lines after it. -/
abbrev Stream := List (List Word)

/-- `file >> s`: skips line ends; nothing at the end of the file. -/
def readWord : Stream → Option (Word × Stream)
  | [] => none
  | [] :: rest => readWord rest
  | (w :: l) :: rest => some (w, l :: rest)

/-- `getline(file, line, '\n')`. -/
def getline (st : Stream) : Stream := st.tail

/-- The first word, or the empty string if there is none (maxSATeval.h:122, nkLandscapesEval.h:148). -/
def firstWord (st : Stream) : Word × Stream := (readWord st).getD (.txt "", st)

/-- The loop that skips comment lines (maxSATeval.h:123-126, nkLandscapesEval.h:149-152). A read that fails leaves
the word as it is. -/
def skipComments : Nat → Word → Stream → Except Err (Word × Stream)
  | 0, _, _ => .error .fuel
  | fuel + 1, s, st =>
    if s.first = 'c' then
      match readWord (getline st) with
      | none => skipComments fuel s (getline st)
      | some (w, st') => skipComments fuel w st'
    else .ok (s, st)

/-! ### Drawing without replacement -/

/-- Exchange of two entries of an array (nkLandscapesEval.h:334-338). -/
def swapAt (tab : Nat → Nat) (i j : Nat) : Nat → Nat :=
  fun p => if p = i then tab j else if p = j then tab i else tab p

/-- Entries at the positions `ts`, each being moved behind the remaining ones: the `j`-th drawn goes to position
`n - 1 - j`. The drawn entries and the array. -/
def drawFrom (n : Nat) : Nat → List Nat → (Nat → Nat) → List Nat × (Nat → Nat)
  | _, [], tab => ([], tab)
  | j, t :: ts, tab =>
    let r := drawFrom n (j + 1) ts (swapAt tab t (n - 1 - j))
    (tab t :: r.1, r.2)

/-! ### NK landscapes -/

/-- Putting the array back (nkLandscapesEval.h:355-356): from the last drawn to the first. -/
def putBack (n : Nat) : Nat → List Nat → (Nat → Nat) → Nat → Nat
  | _, [], tab => tab
  | j, t :: ts, tab => swapAt (putBack n (j + 1) ts tab) t (n - 1 - j)

/-- `choose` (nkLandscapesEval.h:347-357): links of bit `i`, with the numbers `ts` drawn after the first; and the
array left for the next bit. More links than bits read outside of the array. -/
def choose (n i : Nat) (ts : List Nat) (tab : Nat → Nat) : Except Err (List Nat × (Nat → Nat)) :=
  if ts.length + 1 ≤ n then
    let r := drawFrom n 0 (i :: ts) tab
    .ok (r.1, putBack n 0 (i :: ts) r.2)
  else .error .ub

/-- `randomTables` (nkLandscapesEval.h:396-406): the links of all bits; `draws` are the numbers drawn for each bit,
from bit `i` on. -/
def randomLinks (n : Nat) : Nat → List (List Nat) → (Nat → Nat) → Except Err (List (List Nat))
  | _, [], _ => .ok []
  | i, ts :: draws, tab =>
    match choose n i ts tab with
    | .error e => .error e
    | .ok (l, tab') =>
      match randomLinks n (i + 1) draws tab' with
      | .error e => .error e
      | .ok ls => .ok (l :: ls)

/-- `consecutiveLinks` (nkLandscapesEval.h:364-368). -/
def consecutiveLinks (n k i : Nat) : List Nat := (List.range (k + 1)).map fun j => (i + j) % n

/-- `contribution` of nkLandscapesEval (lines 388-390), nkpLandscapesEval (lines 206-211) and nkqLandscapesEval
(lines 205-207), with the numbers drawn. -/
def contribNK (u : ℚ) : ℚ := u
def contribNKp (p u v : ℚ) : ℚ := if u < p then 0 else v
/-- With a single value the code computes 0/0. -/
def contribNKq (q r : Nat) : Except Err ℚ := if q = 1 then .error .thrown else .ok ((r : ℚ) / ((q : ℚ) - 1))

/-- Reading `k` words (nkLandscapesEval.h:212-228); a failed read leaves the entry as it is (here: is skipped). -/
def readWords : Nat → Stream → List Word × Stream
  | 0, st => ([], st)
  | k + 1, st =>
    match readWord st with
    | none => ([], st)
    | some (w, st') => let r := readWords k st'; (w :: r.1, r.2)

/-- `load` (nkLandscapesEval.h:138-205, nkpLandscapesEval.h:99-166, nkqLandscapesEval.h:98-165). `kind` is the
expected name of the format, `params` how many numbers follow it; `size` gives N and K from them. The words read for
the links and the tables are returned. -/
def load (kind : String) (params : Nat) (size : List Word → Nat × Nat) (fuel : Nat) (st : Stream) :
    Except Err (List Word × List Word) :=
  let (s, st) := firstWord st
  match skipComments fuel s st with
  | .error e => .error e
  | .ok (s, st) =>
    if s.first ≠ 'p' then .error .thrown
    else
      let (s, st) := (readWord st).getD (s, st)
      if s ≠ .txt kind then .error .thrown
      else
        let (ps, st) := readWords params st
        let (n, k) := size ps
        if s.first ≠ 'p' then .error .thrown
        else
          let (s, st) := (readWord st).getD (s, st)
          if s ≠ .txt "links" then .error .thrown
          else
            let (links, st) := readWords ((k + 1) * n) st
            if s.first ≠ 'p' then .error .thrown
            else
              let (s, st) := (readWord st).getD (s, st)
              if s ≠ .txt "tables" then .error .thrown
              else .ok (links, (readWords (2 ^ (k + 1) * n) st).1)

/-- `save` (nkLandscapesEval.h:235-260 and the derived classes): `params` are the numbers after the name of the
format. -/
def save (fileName : List Word) (kind : String) (params : List Word) (links : List Word) (tables : List (List Word)) :
    Stream :=
  [[.txt "c", .txt "name", .txt "of", .txt "the", .txt "file", .txt ":"] ++ fileName,
   [.txt "p", .txt kind] ++ params, [.txt "p", .txt "links"]] ++ links.map (fun w => [w]) ++
  [[.txt "p", .txt "tables"]] ++ tables

/-! ### MaxSAT -/

/-- One clause of the random constructor (maxSATeval.h:76-99): the positions drawn and the coin flips. -/
def satClause (n : Nat) (ds : List (Nat × Bool)) (tab : Nat → Nat) : Except Err (List Int × (Nat → Nat)) :=
  if ds.length ≤ n then
    let r := drawFrom n 0 (ds.map (·.1)) tab
    .ok (List.zipWith (fun (v : Nat) (neg : Bool) => if neg then -(v : Int) else (v : Int)) r.1 (ds.map (·.2)), r.2)
  else .error .ub

def satClauses (n : Nat) : List (List (Nat × Bool)) → (Nat → Nat) → Except Err (List (List Int))
  | [], _ => .ok []
  | ds :: rest, tab =>
    match satClause n ds tab with
    | .error e => .error e
    | .ok (c, tab') =>
      match satClauses n rest tab' with
      | .error e => .error e
      | .ok cs => .ok (c :: cs)

/-- The random constructor (maxSATeval.h:52-102): variables are numbered from 1. -/
def satRandom (n : Nat) (draws : List (List (Nat × Bool))) : Except Err (List (List Int)) :=
  satClauses n draws (fun i => i + 1)

/-- Reading an integer: stream, value, whether the stream has failed. A word that is not a number gives 0; once the
stream has failed, values stay as they are. -/
structure Reader where
  st : Stream
  number : Int
  failed : Bool

def Reader.next (r : Reader) : Reader :=
  if r.failed then r
  else match readWord r.st with
    | none => { r with failed := true }
    | some (.txt _, st') => ⟨st', 0, true⟩
    | some (.num v, st') => ⟨st', v, false⟩

/-- Reading one clause (maxSATeval.h:151-163); a variable number above `n` writes outside of the table. -/
def readClause (n : Nat) : Nat → Reader → List Int → Except Err (List Int × Reader)
  | 0, _, _ => .error .fuel
  | fuel + 1, r, c =>
    let r := r.next
    if r.number ≠ 0 then
      if r.number.natAbs ≤ n then
        readClause n fuel { r with number := if r.number < 0 then -r.number else r.number } (c ++ [r.number])
      else .error .ub
    else .ok (c, r)

def readClauses (n fuel : Nat) : Nat → Reader → Except Err (List (List Int))
  | 0, _ => .ok []
  | m + 1, r =>
    match readClause n fuel r [] with
    | .error e => .error e
    | .ok (c, r') =>
      match readClauses n fuel m r' with
      | .error e => .error e
      | .ok cs => .ok (c :: cs)

/-- The constructor from a file (maxSATeval.h:110-167): number of variables and clauses. Sizes that cannot be read
are indeterminate; `number` is too before the first read, here 0. -/
def satLoad (fuel : Nat) (st : Stream) : Except Err (Nat × List (List Int)) :=
  let (s, st) := firstWord st
  match skipComments fuel s st with
  | .error e => .error e
  | .ok (s, st) =>
    if s.first ≠ 'p' then .error .thrown
    else
      let (s, st) := (readWord st).getD (s, st)
      if s ≠ .txt "cnf" then .error .thrown
      else
        match readWord st with
        | some (.num n, st) =>
          match readWord st with
          | some (.num m, st) =>
            match readClauses n.toNat fuel m.toNat ⟨st, 0, false⟩ with
            | .error e => .error e
            | .ok cs => .ok (n.toNat, cs)
          | _ => .error .ub
        | _ => .error .ub

/-- `save` (maxSATeval.h:185-213). -/
def satSave (n : Nat) (cs : List (List Int)) : Stream :=
  [[.txt "c", .txt "random", .txt "max", .txt "k-SAT", .txt "generated", .txt "by", .txt "maxSATeval"], [.txt "c"],
   [.txt "p", .txt "cnf", .num n, .num cs.length]] ++ cs.map (fun c => c.map .num ++ [.num 0])

/-! ### Building-block royal road -/

/-- Number of differences of a block and a target (bbRoyalRoadEval.h:79-82); `none` if one is too short. -/
def blockDiff (x target : List Bool) (offset : Nat) : Nat → Option Nat
  | 0 => some 0
  | j + 1 => do
    let d ← blockDiff x target offset j
    let a ← x[offset + j]?
    let b ← target[j]?
    pure (if a ≠ b then d + 1 else d)

/-- bbRoyalRoadEval.h:66-92. -/
def bbRoyal (b k : Nat) (targets : List (List Bool × ℚ)) (x : List Bool) : Option ℚ :=
  (List.range b).foldlM (fun sum i =>
    targets.foldlM (fun sum tw => do
      let d ← blockDiff x tw.1 (i * k) k
      pure (if d = 0 then sum + tw.2 else sum + 1 / (1 + (d : ℚ)))) sum) 0

/-! ### Queens -/

/-- queenEval.h:47-54; unsigned arithmetic is modulo 2^32. -/
def queenFit (q : List Nat) : Nat :=
  (List.range (q.length - 1)).foldl (fun fit i =>
    (List.range' (i + 1) (q.length - (i + 1))).foldl (fun fit j =>
      if (q.getD i 0 + j - i) % 2 ^ 32 = q.getD j 0 ∨ (q.getD i 0 + i + (2 ^ 32 - j)) % 2 ^ 32 = q.getD j 0 then fit + 1
      else fit) fit) 0

/-! ### Sets of solutions -/

/-- moPopSolEval.h:62-75 (oneMaxPopEval.h:47-56 is the same): members without a fitness are evaluated. With
`p = 0` the exponent is infinite. -/
noncomputable def popSolFit (eval : ℕ → ℝ) (p : Nat) (sols : List (Option ℝ)) : Except Err ℝ :=
  if p = 0 then .error .thrown
  else .ok (((sols.zipIdx.foldl (fun fit s => fit + (s.1.getD (eval s.2)) ^ p) 0)) ^ ((1 : ℝ) / p))

end Paradiseo.Inst
