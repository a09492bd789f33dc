import Verif.Model.Neighborhood
import Mathlib.Order.Defs.LinearOrder
/-
Neighbours that flip every bit with a given probability, and statistics on one or the best neighbour.

* mo/src/problems/bitString/moBitFlipNeighborhood.h 67-137
* mo/src/continuator/moNeighborBestStat.h 94-139, moNeighborFitnessStat.h 73-97

The coins are an argument.  A neighbourhood seen by the statistics is the list of the fitness values of its neighbours
in the order of the enumeration, without any if `hasNeighbor` is false; values are compared with `<`, better values
being greater.
-/
namespace Paradiseo.FlipNbh

/-- A moBitsNeighbor: `bits` and `nBits` (moBitsNeighbor.h 51-54). -/
structure Bits where
  bits : List Nat
  nBits : Nat
  deriving DecidableEq

/-- The body of the loop (moBitFlipNeighborhood.h 92-96). -/
def put (x : Bits) (i : Nat) : Bits :=
  if x.nBits < x.bits.length then ⟨x.bits.set x.nBits i, x.nBits + 1⟩ else ⟨x.bits ++ [i], x.nBits + 1⟩

/-- The loop (moBitFlipNeighborhood.h 90-98): `k` bits from `i` on. -/
def flipLoop (coin : Nat → Bool) : Nat → Nat → Bits → Bits
  | 0, _, x => x
  | k + 1, i, x => flipLoop coin k (i + 1) (if coin i then put x i else x)

/-- The resize at the end (moBitFlipNeighborhood.h 101-102). -/
def shrink (x : Bits) : Bits := if x.nBits < x.bits.length then ⟨x.bits.take x.nBits, x.nBits⟩ else x

/-- randomNeighbor (moBitFlipNeighborhood.h 86-103) for a solution of `n` bits. -/
def randomNeighbor (coin : Nat → Bool) (n : Nat) (old : Bits) : Bits := shrink (flipLoop coin n 0 ⟨old.bits, 0⟩)

/-- How many neighbours are made by `init`, and `next` as long as `cont` (moBitFlipNeighborhood.h 112-137): from
`made` on; `fuel` bounds the number of calls of `next`. -/
def made (sample : Nat) : Nat → Nat → Nat
  | 0, n => n
  | fuel + 1, n => if n < sample then made sample fuel (n + 1) else n

/-- The number of neighbours of an exploration. -/
def visited (sample : Nat) : Nat := made sample sample 1

variable {F : Type} [LinearOrder F]

/-- The loop of moNeighborBestStat (120-131): the best so far, the number of neighbours seen, those to come. -/
def bestLoop (kmax : Nat) : F → Nat → List F → F
  | best, _, [] => best
  | best, k, f :: fs => if kmax = 0 ∨ k < kmax then bestLoop kmax (if best < f then f else best) (k + 1) fs else best

/-- moNeighborBestStat (102-139); `dflt`: `Fitness()`. -/
def bestStat (dflt : F) (kmax : Nat) : List F → F
  | [] => dflt
  | f :: fs => bestLoop kmax f 1 fs

/-- moNeighborFitnessStat (81-97). -/
def oneStat (dflt : F) : List F → F
  | [] => dflt
  | f :: _ => f

end Paradiseo.FlipNbh
