/-
Model of the permutation flow-shop problem that comes with moeo (moeo/tutorial/examples/flowshop): the evaluation
(FlowShopEval.cpp), the crossover (FlowShopOpCrossoverQuad.cpp) and the parser of instances
(FlowShopBenchmarkParser.cpp).

Simplifications: processing times and due dates are functions of machine and job (the parser gives vectors of these
sizes); completion times are natural numbers (no overflow of the unsigned additions), the subtraction of the due date
and the conversions around it are those of 32-bit unsigned and signed numbers; `objVector` holds the numbers exactly.
The two draws of the crossover are `rnd r t m` of Model/EOOperators.lean.  A text is a list of characters; `atoi` is the
one of Model/Factory.lean (no overflow); memory is unlimited.
-/
import Verif.Model.EOOperators
import Verif.Model.Factory

namespace Paradiseo.FlowShop

open Paradiseo.EO (Err)
open Paradiseo.Ops (rnd rd wr)
open Paradiseo.Factory (Text atoi atou)

/-! ### Evaluation -/

/-- The matrix of completion times: machine, job. -/
abbrev Times := Nat → Nat → Nat

/-- `C[i][j] = v`. -/
def upd (C : Times) (i j v : Nat) : Times := fun i' j' => if i' = i ∧ j' = j then v else C i' j'

/-- First machine (FlowShopEval.cpp:86-88). -/
def firstMachine (p : Times) (s : Nat → Nat) (N : Nat) (C : Times) : Times :=
  (List.range' 1 (N - 1)).foldl (fun C j => upd C 0 (s j) (C 0 (s (j - 1)) + p 0 (s j))) C

/-- First job of the sequence (FlowShopEval.cpp:89-90). -/
def firstJob (p : Times) (s : Nat → Nat) (M : Nat) (C : Times) : Times :=
  (List.range' 1 (M - 1)).foldl (fun C i => upd C i (s 0) (C (i - 1) (s 0) + p i (s 0))) C

/-- The inner loop of the rest (FlowShopEval.cpp:92-93), machine `i`. -/
def otherJobs (p : Times) (s : Nat → Nat) (N i : Nat) (C : Times) : Times :=
  (List.range' 1 (N - 1)).foldl
    (fun C j => upd C i (s j) (max (C i (s (j - 1))) (C (i - 1) (s j)) + p i (s j))) C

/-- `completionTime` (FlowShopEval.cpp:78-95); `s j` is `_flowshop[j]`, unwritten entries are 0. -/
def completionTime (M N : Nat) (p : Times) (s : Nat → Nat) : Times :=
  let C := upd (fun _ _ => 0) 0 (s 0) (p 0 (s 0))
  let C := firstMachine p s N C
  let C := firstJob p s M C
  (List.range' 1 (M - 1)).foldl (fun C i => otherJobs p s N i C) C

/-- `(unsigned int) std::max(0, (int) (C - d))` (FlowShopEval.cpp:73) for 32-bit unsigned `C` and `d`. -/
def late (C d : Nat) : Nat :=
  let x := (C + (2 ^ 32 - d)) % 2 ^ 32
  if x < 2 ^ 31 then x else 0

/-- `operator()` (FlowShopEval.cpp:46-75): makespan and tardiness.  Undefined without machines or jobs, when the
sequence has fewer than `N` entries or when one of the first `N` entries is no job. -/
def eval (M N : Nat) (p : Times) (d : Nat → Nat) (seq : List Nat) : Except Err (Nat × Nat) :=
  if M = 0 ∨ N = 0 ∨ seq.length < N ∨ (seq.take N).any (fun x => decide (N ≤ x)) then .error .ub
  else
    let s := fun j => seq.getD j 0
    let C := completionTime M N p s
    .ok (C (M - 1) (s (N - 1)), ((List.range N).map fun j => late (C (M - 1) (s j)) (d (s j))).sum)

/-! ### Crossover -/

/-- `taken_values[v] = true` for the given values (FlowShopOpCrossoverQuad.cpp:87-96). -/
def markAll : List Nat → List Bool → Except Err (List Bool)
  | [], taken => .ok taken
  | v :: vs, taken =>
    match wr taken v true with
    | .ok taken => markAll vs taken
    | .error e => .error e

/-- The loop over the second parent (FlowShopOpCrossoverQuad.cpp:98-108); the list is what remains of the parent. -/
def fill (taken : List Bool) (b : Nat) : Nat → List Nat → List Nat → Except Err (List Nat)
  | _, res, [] => .ok res
  | i, res, v :: vs =>
    if i < b then
      match rd taken v with
      | .error e => .error e
      | .ok true => fill taken b i res vs
      | .ok false =>
        match wr res i v with
        | .error e => .error e
        | .ok res => fill taken b (i + 1) res vs
    else .ok res

/-- `generateOffspring` (FlowShopOpCrossoverQuad.cpp:80-110). -/
def generateOffspring (par1 par2 : List Nat) (point1 point2 : Nat) : Except Err (List Nat) :=
  let a := min point1 point2
  let b := max point1 point2
  match markAll (par1.take (a + 1)) (List.replicate par1.length false) with
  | .error e => .error e
  | .ok taken =>
    match markAll (par1.drop b) taken with
    | .error e => .error e
    | .ok taken => fill taken b (a + 1) par1 par2

/-- The loop drawing the points (FlowShopOpCrossoverQuad.cpp:52-57). -/
def drawPoints (r : Nat → Nat) (n : Nat) : Nat → Nat → Except Err (Nat × Nat)
  | 0, _ => .error .fuel
  | fuel + 1, t =>
    let p1 := rnd r t n
    let p2 := rnd r (t + 1) n
    if max p1 p2 - min p1 p2 ≤ 2 then drawPoints r n fuel (t + 2) else .ok (p1, p2)

/-- An individual: the sequence, and whether its objective vector is valid. -/
structure Sol where
  seq : List Nat
  valid : Bool
  deriving DecidableEq

/-- `moeoVector::value` (moeo/src/core/moeoVector.h:81-97) for a vector of the same size. -/
def Sol.value (_ : Sol) (v : List Nat) : Sol := ⟨v, false⟩

/-- `operator()` (FlowShopOpCrossoverQuad.cpp:47-77): both individuals and the value returned. -/
def crossover (r : Nat → Nat) (fuel : Nat) (x y : Sol) : Except Err (Sol × Sol × Bool) :=
  match drawPoints r (min x.seq.length y.seq.length) fuel 0 with
  | .error e => .error e
  | .ok (p1, p2) =>
    match generateOffspring x.seq y.seq p1 p2 with
    | .error e => .error e
    | .ok o1 =>
      match generateOffspring y.seq x.seq p1 p2 with
      | .error e => .error e
      | .ok o2 =>
        if x.seq ≠ o1 ∨ y.seq ≠ o2 then .ok (x.value o1, y.value o2, true) else .ok (x, y, false)

/-! ### Instances -/

/-- A file being read: what remains, and whether the stream is still good. -/
structure Src where
  rest : Text
  good : Bool

/-- `getline(inputFile, buffer, '\n')`: the buffer is kept when the stream has already failed or reached its end; the
last line without a newline reaches the end. -/
def getline (s : Src) (buffer : Text) : Src × Text :=
  if s.good then
    match s.rest.dropWhile (· ≠ '\n') with
    | [] => (⟨[], false⟩, s.rest)
    | _ :: rest => (⟨rest, true⟩, s.rest.takeWhile (· ≠ '\n'))
  else (s, buffer)

/-- `buffer.find_first_not_of(" ", ...)`: the text from there on, `none` for `npos`. -/
def skipBlanks (t : Text) : Option Text :=
  match t.dropWhile (· = ' ') with
  | [] => none
  | c :: t => some (c :: t)

/-- The loop over the machines (FlowShopBenchmarkParser.cpp:127-133); `substr(npos, ...)` throws. -/
def readTimes : Nat → Option Text → Except Err (List Nat)
  | 0, _ => .ok []
  | _ + 1, none => .error .thrown
  | m + 1, some t =>
    match readTimes m (skipBlanks (t.dropWhile (· ≠ ' '))) with
    | .error e => .error e
    | .ok l => .ok (atou (t.takeWhile (· ≠ ' ')) :: l)

/-- The loop over the jobs (FlowShopBenchmarkParser.cpp:118-134): due date and processing times of each. -/
def readJobs (M : Nat) : Nat → Src → Text → Except Err (List (Nat × List Nat))
  | 0, _, _ => .ok []
  | n + 1, s, buffer =>
    let (s, buffer) := getline s buffer
    let (s, buffer) := getline s buffer
    let due := atou buffer
    let (s, buffer) := getline s buffer
    match readTimes M (skipBlanks buffer) with
    | .error e => .error e
    | .ok times =>
      match readJobs M n s buffer with
      | .error e => .error e
      | .ok l => .ok ((due, times) :: l)

/-- An instance: numbers of machines and jobs, and the jobs. -/
structure Instance where
  M : Nat
  N : Nat
  jobs : List (Nat × List Nat)
  deriving DecidableEq

/-- `init` (FlowShopBenchmarkParser.cpp:93-137) on the text of an existing file. -/
def parse (text : Text) : Except Err Instance :=
  let (s, buffer) := getline ⟨text, true⟩ []
  let N := atou buffer
  let (s, buffer) := getline s buffer
  let M := atou buffer
  let (s, buffer) := getline s buffer
  match readJobs M N s buffer with
  | .error e => .error e
  | .ok jobs => .ok ⟨M, N, jobs⟩

/-- `p[i][j]` and `d[j]` as the evaluator gets them. -/
def Instance.p (I : Instance) : Times := fun i j => ((I.jobs.getD j (0, [])).2).getD i 0

def Instance.d (I : Instance) : Nat → Nat := fun j => (I.jobs.getD j (0, [])).1

end Paradiseo.FlowShop
