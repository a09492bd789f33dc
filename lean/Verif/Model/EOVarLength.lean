/-
Model of the operators on individuals of variable length: eo/src/eoVariableLengthCrossover.h,
eoVariableLengthMutation.h of /repo.

An individual is the list of its atoms.  `flip t` is the result of the `t`-th `rng.flip(rate)`; the
operators return their Boolean and the individuals afterwards.
-/
import Verif.Model.EOOperators

namespace Paradiseo.VL

open Paradiseo.EO (Err)
open Paradiseo.Ops (rnd)

variable {A : Type}

/-! ### Crossovers -/

/-- The loops over the atoms of one parent (eoVariableLengthCrossover.h:115-121, 139-145): those with a
set flag, and the others, in order; `i` is the index of the first. -/
def splitBy (flag : Nat → Bool) : Nat → List A → List A × List A
  | _, [] => ([], [])
  | i, x :: l =>
    if flag i then (x :: (splitBy flag (i + 1) l).1, (splitBy flag (i + 1) l).2)
    else ((splitBy flag (i + 1) l).1, x :: (splitBy flag (i + 1) l).2)

/-- `do { … } while (sizes wrong && index < 10000)` (eoVariableLengthCrossover.h:110-132): the first try,
from `index` on, with right sizes, and the value of `index` when the loop ends; `n` tries remain. -/
def tries (good : Nat → Bool) : Nat → Nat → Nat
  | 0, index => index
  | n + 1, index => if good index then index + 1 else tries good n (index + 1)

/-- The size test (eoVariableLengthCrossover.h:130-131, 255-256). -/
def sizesOk (lo hi n1 n2 : Nat) : Bool := !(n1 < lo || n2 < lo || n1 > hi || n2 > hi)

/-- The two children of one exchange (eoVariableLengthCrossover.h:139-152): the flags of the second
parent are read from the beginning again. -/
def exchange (flag : Nat → Bool) (x y : List A) : List A × List A :=
  ((splitBy flag 0 x).1 ++ (splitBy flag 0 y).2, (splitBy flag 0 x).2 ++ (splitBy flag 0 y).1)

/-- eoVlAtomExchangeQuadOp::operator() (eoVariableLengthCrossover.h:104-157); `mask k` are the answers of
the exchange after the `k`-th `randomize`. -/
def atomExchange (lo hi : Nat) (mask : Nat → Nat → Bool) (x y : List A) : Bool × List A × List A :=
  let good := fun k => sizesOk lo hi (exchange (mask k) x y).1.length (exchange (mask k) x y).2.length
  let index := tries good 10000 0
  if 10000 ≤ index then (false, x, y)
  else (true, exchange (mask (index - 1)) x y)

/-- eoInnerExchangeQuadOp::operator() (eoVariableLengthCrossover.h:187-198); `op i` is the crossover of
atoms, which may use random numbers. -/
def innerExchange (flip : Nat → Bool) (op : Nat → A → A → Bool × A × A) : Nat → List A → List A →
    Bool × List A × List A
  | i, a :: x, b :: y =>
    let rest := innerExchange flip op (i + 1) x y
    if flip i then
      ((op i a b).1 || rest.1, (op i a b).2.1 :: rest.2.1, (op i a b).2.2 :: rest.2.2)
    else (rest.1, a :: rest.2.1, b :: rest.2.2)
  | _, x, y => (false, x, y)

/-- The temporaries of eoVlUniformQuadOp after `k` tries (eoVariableLengthCrossover.h:236-254): they are
not emptied between the tries.  In a try the flags of the second parent follow those of the first. -/
def uniformTmp (flip : Nat → Bool) (x y : List A) : Nat → List A × List A
  | 0 => ([], [])
  | k + 1 =>
    let base := k * (x.length + y.length)
    ((uniformTmp flip x y k).1 ++ (splitBy flip base x).1 ++ (splitBy flip (base + x.length) y).1,
     (uniformTmp flip x y k).2 ++ (splitBy flip base x).2 ++ (splitBy flip (base + x.length) y).2)

/-- eoVlUniformQuadOp::operator() (eoVariableLengthCrossover.h:233-268). -/
def uniformQuad (lo hi : Nat) (flip : Nat → Bool) (x y : List A) : Bool × List A × List A :=
  let good := fun k => sizesOk lo hi (uniformTmp flip x y (k + 1)).1.length
    (uniformTmp flip x y (k + 1)).2.length
  let index := tries good 10000 0
  if 10000 ≤ index then (false, x, y)
  else (true, uniformTmp flip x y index)

/-- The temporary of eoVlUniformBinOp after `k` tries (eoVariableLengthCrossover.h:298-323). -/
def uniformBinTmp (flip : Nat → Bool) (x y : List A) : Nat → List A
  | 0 => []
  | k + 1 =>
    let base := k * (x.length + y.length)
    uniformBinTmp flip x y k ++ (splitBy flip base x).1 ++ (splitBy flip (base + x.length) y).2

/-- `tmpIsOne`, `tmpIsTwo` after `k` tries (eoVariableLengthCrossover.h:299-322). -/
def tmpIsOne (flip : Nat → Bool) (x y : List A) : Nat → Bool
  | 0 => true
  | k + 1 =>
    let base := k * (x.length + y.length)
    tmpIsOne flip x y k && (splitBy flip base x).2.isEmpty && (splitBy flip (base + x.length) y).2.isEmpty

def tmpIsTwo (flip : Nat → Bool) (x y : List A) : Nat → Bool
  | 0 => true
  | k + 1 =>
    let base := k * (x.length + y.length)
    tmpIsTwo flip x y k && (splitBy flip base x).1.isEmpty && (splitBy flip (base + x.length) y).1.isEmpty

/-- eoVlUniformBinOp::operator() (eoVariableLengthCrossover.h:295-344). -/
def uniformBin (lo hi : Nat) (flip : Nat → Bool) (x y : List A) : Bool × List A :=
  let good := fun k => !((uniformBinTmp flip x y (k + 1)).length < lo ||
    (uniformBinTmp flip x y (k + 1)).length > hi)
  let index := tries good 10000 0
  if 10000 ≤ index then (false, x)
  else
    (!(tmpIsTwo flip x y index || tmpIsOne flip x y index), uniformBinTmp flip x y index)

/-! ### Mutations -/

/-- eoVlAddMutation::operator() (eoVariableLengthMutation.h:66-75); `atom` is the atom made by the
initialiser. -/
def vlAdd (nMax : Nat) (atom : A) (r : Nat → Nat) (x : List A) : Bool × List A :=
  if nMax ≤ x.length then (false, x)
  else (true, x.insertIdx (rnd r 0 (x.length + 1)) atom)

/-- eoVlDelMutation::operator() (eoVariableLengthMutation.h:137-144); `choose` is the chooser. -/
def vlDel (nMin : Nat) (choose : List A → Nat) (x : List A) : Except Err (Bool × List A) :=
  if x.length ≤ nMin then .ok (false, x)
  else if choose x < x.length then .ok (true, x.eraseIdx (choose x))
  else .error .ub

/-- eoUniformGeneChooser::operator() (eoVariableLengthMutation.h:101-104). -/
def uniformChooser (r : Nat → Nat) (x : List A) : Nat := rnd r 0 x.length

end Paradiseo.VL
