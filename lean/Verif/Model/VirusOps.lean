import Verif.Model.EOReplacement
import Mathlib.Data.List.Range
/-
Bit strings with a virus: operators and initialisation.

* eo/contrib/MGE/VirusOp.h 40-143, eoInitVirus.h 41-85, eoVirus.h 62-83

The fitness is left out.  Random draws are parameters; accessing a virus bit beyond the end is `ub`.
-/
namespace Paradiseo.VirusOps

open Paradiseo.EO

/-- Genes and virus bits. -/
structure Vir where
  genes : List Bool
  virus : List Bool
  deriving DecidableEq

/-- `rng.random(n)`: a number below `n` (zero for `n = 0`). -/
def pick (r n : Nat) : Nat := if n = 0 then 0 else r % n

/-- VirusBitFlip (VirusOp.h 49-53). -/
def bitFlip (r : Nat) (x : Vir) : Except Err (Vir × Bool) :=
  match x.virus[pick r x.genes.length]? with
  | none => .error .ub
  | some b => .ok (⟨x.genes, x.virus.set (pick r x.genes.length) (!b)⟩, true)

/-- The places with a virus bit (VirusOp.h 69-74). -/
def marks (x : Vir) : List Nat := (List.range x.genes.length).filter fun i => x.virus[i]? == some true

/-- VirusMutation (VirusOp.h 67-82). -/
def mutation (r : Nat) (x : Vir) : Except Err (Vir × Bool) :=
  if x.virus.length < x.genes.length then .error .ub
  else
    match (marks x)[pick r (marks x).length]? with
    | none => .ok (x, false)
    | some i => .ok (⟨x.genes.modify i (!·), x.virus⟩, true)

/-- One step of VirusShiftMutation (VirusOp.h 106-118) at place `i` of `n`; `g`: the coin. -/
def shiftAt (n i : Nat) (g : Bool) (v : List Bool) : List Bool :=
  if v[i]? = some true then
    if g then (if i + 1 < n then (v.set (i + 1) true).set i false else v)
    else (if 1 < i then (v.set (i - 1) true).set i false else v)
  else v

/-- The loop (VirusOp.h 105-119): `k` places from `i` on; `g i` is the coin of place `i`. -/
def shiftLoop (n : Nat) (g : Nat → Bool) : Nat → Nat → List Bool → List Bool
  | 0, _, v => v
  | k + 1, i, v => shiftLoop n g k (i + 1) (shiftAt n i (g i) v)

/-- VirusShiftMutation (VirusOp.h 102-121). -/
def shift (g : Nat → Bool) (x : Vir) : Except Err (Vir × Bool) :=
  if x.virus.length < x.genes.length then .error .ub
  else .ok (⟨x.genes, shiftLoop x.genes.length g x.genes.length 0 x.virus⟩, true)

/-- VirusTransmission (VirusOp.h 136-142). -/
def transmission (x y : Vir) : Except Err (Vir × Bool) :=
  if x.virus.length < x.genes.length ∨ y.virus.length < x.genes.length then .error .ub
  else .ok (⟨x.genes, y.virus.take x.genes.length ++ x.virus.drop x.genes.length⟩, true)

/-- `resize`. -/
def resized (n : Nat) (v : List Bool) : List Bool := v.take n ++ List.replicate (n - v.length) false

/-- eoInitVirus (eoInitVirus.h 47-56); `g`: the draws in order. -/
def initVirus (n : Nat) (g : Nat → Bool) (_ : Vir) : Vir :=
  ⟨(List.range n).map g, (List.range n).map fun i => g (n + i)⟩

/-- eoInitVirus1bit (eoInitVirus.h 72-79). -/
def initVirus1 (n : Nat) (g : Nat → Bool) (x : Vir) : Except Err Vir :=
  if n = 0 then .error .ub else .ok ⟨(List.range n).map g, (resized n x.virus).set 0 true⟩

end Paradiseo.VirusOps
