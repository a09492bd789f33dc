/-
Model of the Mastermind application (eo/app/mastermind/mastermind.h, mastermind.cpp): the evaluation, the check of the
parameters, initialiser, mutation and crossover.

A chromosome is a list of colours (`int`).  Simplifications: the fitness, a `float`, is a natural number (exact below
2^24); a text is a list of characters (ASCII, so `s[i] - '0'` is the difference of the codes); the generators of numbers
in [0, m) are `rnd r t m` of Model/EOOperators.lean, the `t`-th draw of the call; leaving the program with a failure is
the outcome `.error .thrown`.
-/
import Verif.Model.EOOperators

namespace Paradiseo.Mastermind

open Paradiseo.EO (Err)
open Paradiseo.Ops (rnd rd wr swapL)

/-! ### Evaluation -/

/-- The loop for blacks (mastermind.h:47-52): their number and the copy of the solution, with -1 at their positions. -/
def blacks : List Int → List Int → Except Err (Nat × List Int)
  | [], tmp => .ok (0, tmp)
  | _ :: _, [] => .error .ub
  | c :: chrom, x :: tmp =>
    match blacks chrom tmp with
    | .error e => .error e
    | .ok (black, tmp') => if c = x then .ok (black + 1, -1 :: tmp') else .ok (black, x :: tmp')

/-- The inner loop for whites (mastermind.h:56-62): the first entry equal to `c` becomes -1. -/
def take (c : Int) : List Int → Option (List Int)
  | [] => none
  | x :: tmp => if c = x then some (-1 :: tmp) else (take c tmp).map (x :: ·)

/-- The loop for whites (mastermind.h:55-62). -/
def whites : List Int → List Int → Nat
  | [], _ => 0
  | c :: chrom, tmp =>
    match take c tmp with
    | some tmp' => whites chrom tmp' + 1
    | none => whites chrom tmp

/-- eoChromEvaluator (mastermind.h:41-66). -/
def evaluator (solution chrom : List Int) : Except Err Nat :=
  match blacks chrom solution with
  | .error e => .error e
  | .ok (black, tmp) => .ok (black * chrom.length + whites chrom tmp)

/-! ### Parameters -/

/-- `s[i] - '0'`. -/
def digit (ch : Char) : Int := (ch.toNat : Int) - 48

/-- `*max_element(s.begin(), s.end()) - '0'`, undefined for the empty text. -/
def maxDigit : List Char → Except Err Int
  | [] => .error .ub
  | ch :: s => .ok (s.foldl (fun m x => max m (digit x)) (digit ch))

def defaultSolution : List Char := ['0', '1', '2', '3', '4', '5', '6', '7']

/-- `unsigned(...)` of an `int`. -/
def toUnsigned (x : Int) : Nat := (x % 2 ^ 32).toNat

/-- The check of the parameters (mastermind.h:80-95) for a solution other than the default one. -/
def check (c l : Nat) (s : List Char) : Except Err Unit :=
  if l ≠ 8 ∧ s.length ≠ l then .error .thrown
  else if c ≠ 8 then
    match maxDigit s with
    | .error e => .error e
    | .ok m => if c < toUnsigned m then .error .thrown else .ok ()
  else .ok ()

/-- init_eoChromEvaluator (mastermind.h:75-118) for `c` colours, length `l` and solution `s`: the solution of the game. -/
def initSolution (r : Nat → Nat) (c l : Nat) (s : List Char) : Except Err (List Int) :=
  let drawn := (List.range l).map fun t => (rnd r t c : Int)
  if s ≠ defaultSolution then
    match check c l s with
    | .error e => .error e
    | .ok () => if c ≤ 10 then .ok (s.map digit) else .ok drawn
  else if (l ≠ 8 ∨ c ≠ 8) ∧ c ≤ 10 then .ok drawn
  else if c ≤ 10 then .ok (s.map digit)
  else .ok drawn

/-! ### Operators -/

/-- eoInitChrom (mastermind.h:130-136): the chromosome gets the length of the solution. -/
def initChrom (r : Nat → Nat) (c n : Nat) : List Int := (List.range n).map fun t => (rnd r t c : Int)

/-- eoChromMutation (mastermind.h:146-175).  The order of the two draws in `chrom[position()] = color()` and in
`swap(chrom[position()], chrom[position()])` is left to the compiler; draw 1 is here the colour or the first position. -/
def mutation (r : Nat → Nat) (c : Nat) (chrom : List Int) : Except Err (List Int) :=
  if rnd r 0 2 = 0 then wr chrom (rnd r 2 chrom.length) (rnd r 1 c)
  else swapL chrom (rnd r 1 chrom.length) (rnd r 2 chrom.length)

/-- eoChromXover (mastermind.h:185-190). -/
def xover (r : Nat → Nat) (x y : List Int) : Except Err (List Int × List Int) :=
  let k := rnd r 0 x.length
  if y.length < k then .error .ub
  else .ok (y.take k ++ x.drop k, x.take k ++ y.drop k)

/-- The chromosomes a run can hold: initialised, mutated, crossed (mastermind.cpp:91-128). -/
inductive Reach (c n : Nat) : List Int → Prop where
  | init (r : Nat → Nat) : Reach c n (initChrom r c n)
  | mutation {x x' : List Int} (r : Nat → Nat) : Reach c n x → mutation r c x = .ok x' → Reach c n x'
  | left {x y x' y' : List Int} (r : Nat → Nat) : Reach c n x → Reach c n y → xover r x y = .ok (x', y') → Reach c n x'
  | right {x y x' y' : List Int} (r : Nat → Nat) : Reach c n x → Reach c n y → xover r x y = .ok (x', y') → Reach c n y'

end Paradiseo.Mastermind
