import Mathlib.Data.List.Basic
import Mathlib.Order.MinMax
import Mathlib.Order.Lattice

/-!
# The data file of the symbolic regression

Model of eo/contrib/mathsym/regression/Dataset.cpp: load_data, read_data, input_minima, input_maxima.

Simplifications:
* a file is its text; a file that cannot be opened is the empty text;
* `>>` to a double is an argument `num` on the word at hand (no number goes beyond white space): it takes the whole word,
  or its beginning, leaving the rest, or fails and stores some value (zero, or the largest number when the word is out of
  range); at the end of the line it fails and the zero put there by `resize` stays;
* `exit(1)` is an outcome of its own; the counter of the words of a line does not overflow.
-/

namespace Paradiseo.Dataset

abbrev Text := List Char

/-- What `>>` to a double does with a word. -/
inductive Num (K : Type) where
  | full (v : K)
  | part (v : K) (rest : Text)
  | bad (v : K)

/-- Outcomes of load_data. -/
inductive Res (K : Type) where
  /-- "No data could be loaded" (Dataset.cpp 97-99, util.cpp 23-26). -/
  | noData
  /-- Room for 4294967295 inputs is asked for (Dataset.cpp 43 with `n = 0`). -/
  | huge
  /-- "Too few targets in record" (Dataset.cpp 50-53). -/
  | few (record : Nat)
  /-- Inputs and target of each record. -/
  | ok (rows : List (List K × K))
  deriving DecidableEq

/-- White space as `>>` skips it. -/
def isSpace (c : Char) : Bool :=
  c = ' ' || c = '\t' || c = '\n' || c = '\r' || c = Char.ofNat 11 || c = Char.ofNat 12

/-- The words that `>>` to a string finds in a line (Dataset.cpp 36-41), with `cur` read of the present one. -/
def wordsFrom (cur : Text) : Text → List Text
  | [] => if cur = [] then [] else [cur]
  | c :: t =>
    if isSpace c then (if cur = [] then [] else [cur]) ++ wordsFrom [] t else wordsFrom (cur ++ [c]) t

/-- The lines that getline finds (Dataset.cpp 85-88), with `cur` read of the present one: what follows the last newline
counts if it is not empty. -/
def linesFrom (cur : Text) : Text → List Text
  | [] => if cur = [] then [] else [cur]
  | c :: t => if c = '\n' then cur :: linesFrom [] t else linesFrom (cur ++ [c]) t

/-- The lines kept (Dataset.cpp 90-92). -/
def records (t : Text) : List Text := (linesFrom [] t).filter (fun s => decide (s.head? ≠ some '#'))

variable {K : Type} [Zero K]

/-- `is >> x`: the value stored and the words left, `none` once the stream has failed. -/
def get (num : Text → Num K) : List Text → K × Option (List Text)
  | [] => (0, none)
  | w :: ws =>
    match num w with
    | .full v => (v, some ws)
    | .part v r => (v, some (r :: ws))
    | .bad v => (v, none)

/-- The loop over the cells of a record (Dataset.cpp 48-61): the stream is tested before each reading only. -/
def readCells (num : Text → Num K) : Nat → Option (List Text) → Option (List K)
  | 0, _ => some []
  | _ + 1, none => none
  | k + 1, some ws =>
    match readCells num k (get num ws).2 with
    | none => none
    | some vs => some ((get num ws).1 :: vs)

/-- The loop over the records (Dataset.cpp 46-62); `i` is the number of the record. -/
def readAll (num : Text → Num K) (n : Nat) : Nat → List Text → Res K
  | _, [] => .ok []
  | i, s :: ss =>
    match readCells num n (some (wordsFrom [] s)) with
    | none => .few i
    | some vs =>
      match readAll num n (i + 1) ss with
      | .ok rows => .ok ((vs.take (n - 1), (vs.drop (n - 1)).headD 0) :: rows)
      | r => r

/-- load_data (Dataset.cpp 80-103) with read_data (31-64). -/
def load (num : Text → Num K) (t : Text) : Res K :=
  match records t with
  | [] => .noData
  | s :: ss =>
    let n := (wordsFrom [] s).length
    if n = 0 then .huge else readAll num n 0 (s :: ss)

/-- input_minima (Dataset.cpp 105-116); `big` is 1e+50, `m` the number of inputs of the first record. -/
def minima {K : Type} [Min K] (big : K) (m : Nat) (ins : List (List K)) : List K :=
  ins.foldl (fun mn r => List.zipWith min mn r) (List.replicate m big)

/-- input_maxima (Dataset.cpp 118-129); `small` is -1e+50. -/
def maxima {K : Type} [Max K] (small : K) (m : Nat) (ins : List (List K)) : List K :=
  ins.foldl (fun mx r => List.zipWith max mx r) (List.replicate m small)

end Paradiseo.Dataset
