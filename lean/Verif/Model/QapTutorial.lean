/-
Model of the quadratic assignment problem of the smp tutorial (smp/tutorial/Lesson1/QAP.h, QAPGA.h; BaseLesson.h of the
other lessons holds the same code): copying, initialisation, crossover and swap mutation.

The array `solution` of the global size `n` is a list of length `n`; reading or writing outside is `.error .ub` (Ops.rd,
Ops.wr).  `rand()` is an arbitrary stream, the `t`-th draw of the call; `rand() % 0` is `.error .ub`.
-/
import Verif.Model.EOOperators

namespace Paradiseo.QapTutorial

open Paradiseo.EO (Err)
open Paradiseo.Ops (rd wr swapL drawOther)

/-- A `Problem` (QAP.h:40-44): the solution, and the fitness when valid (EO.h). -/
structure Problem where
  solution : List Nat
  fit : Option Int
  deriving DecidableEq

/-- The copy constructor (QAP.h:51-58). -/
def copy (p : Problem) : Problem :=
  match p.fit with
  | some f => ⟨p.solution, some f⟩
  | none => ⟨p.solution, none⟩

/-- `operator=` (QAP.h:64-69): what the target is afterwards, and whether `fitness()` of the source threw. -/
def assign (dst src : Problem) : Problem × Bool :=
  match src.fit with
  | some f => (⟨src.solution, some f⟩, false)
  | none => (⟨src.solution, dst.fit⟩, true)

/-- The loop of the shuffles (QAP.h:83-88, QAPGA.h:81-86): `k` passes from index `i` on, over `i + k` entries. -/
def shuffle (r : Nat → Nat) : Nat → Nat → List Nat → Except Err (List Nat)
  | 0, _, l => .ok l
  | k + 1, i, l =>
    match swapL l i (r i % (k + 1) + i) with
    | .error e => .error e
    | .ok l' => shuffle r k (i + 1) l'

/-- `create` (QAP.h:77-89): the fitness is left as it is. -/
def create (r : Nat → Nat) (n : Nat) (p : Problem) : Except Err Problem :=
  match shuffle r n 0 (List.range n) with
  | .error e => .error e
  | .ok l => .ok ⟨l, p.fit⟩

/-- `evaluate` (QAP.h:91-98) without overflow. -/
def evaluate (a b : Nat → Nat → Int) (s : List Nat) : Int :=
  ((List.range s.length).map fun i => ((List.range s.length).map fun j => a i j * b (s.getD i 0) (s.getD j 0)).sum).sum

/-- ProblemEvalFunc (QAPGA.h:49-53). -/
def evalFunc (a b : Nat → Nat → Int) (p : Problem) : Problem := ⟨p.solution, some (evaluate a b p.solution)⟩

/-- The first loop of the crossover (QAPGA.h:71-77), from index `i` on: unassigned positions and remaining items. -/
def different : Nat → List Nat → List Nat → List (Nat × Nat)
  | i, x :: xs, y :: ys => if x ≠ y then (i, x) :: different (i + 1) xs ys else different (i + 1) xs ys
  | _, _, _ => []

/-- The last loop (QAPGA.h:89-90). -/
def assignAll : List (Nat × Nat) → List Nat → Except Err (List Nat)
  | [], l => .ok l
  | (pos, item) :: rest, l =>
    match wr l pos item with
    | .error e => .error e
    | .ok l' => assignAll rest l'

/-- ProblemXover (QAPGA.h:62-94): the first parent becomes the child, `true` is returned. -/
def xover (r : Nat → Nat) (p1 p2 : Problem) : Except Err (Problem × Problem × Bool) :=
  if p1.solution.length ≠ p2.solution.length then .error .ub
  else
    let d := different 0 p1.solution p2.solution
    match shuffle r d.length 0 (d.map Prod.snd) with
    | .error e => .error e
    | .ok items =>
      match assignAll ((d.map Prod.fst).zip items) p1.solution with
      | .error e => .error e
      | .ok l => .ok (⟨l, p1.fit⟩, p2, true)

/-- ProblemSwapMutation (QAPGA.h:100-117). -/
def swapMutation (r : Nat → Nat) (fuel : Nat) (p : Problem) : Except Err (Problem × Bool) :=
  let n := p.solution.length
  if n = 0 then .error .ub
  else
    let i := r 0 % n
    match drawOther r n i fuel 1 with
    | .error e => .error e
    | .ok (j, _) =>
      match swapL p.solution i j with
      | .error e => .error e
      | .ok l => .ok (⟨l, p.fit⟩, true)

end Paradiseo.QapTutorial
