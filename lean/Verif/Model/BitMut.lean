import Verif.Model.EOOperators
import Verif.Model.Rng
/-
Bit mutations that draw the number of bits to flip first.

* eo/src/ga/eoStandardBitMutation.h; the flip itself is eoDetSingleBitFlip (eoBitOp.h:123-149).

`ws` gives the words of the generator that the binomial numbers use, `r` the indices drawn by the flip.
Rates are rational numbers; the conversions of doubles to unsigned are truncations, undefined for numbers
of at most −1.
-/
namespace Paradiseo.BitMut

open Paradiseo.Ops Paradiseo.Rng
open Paradiseo.EO (Err)

/-- `rng.binomial(n, p)` on the words from number `t` on. -/
def draw (ws : Nat → W) (t n : Nat) (p : ℚ) : Nat := binomial p ((List.range n).map fun i => ws (t + i))

/-- The rate after `if(_rate == 0) _rate = 1/chrom.size()` (31-34): kept for the next calls. -/
def fixRate (rate : ℚ) (n : Nat) : ℚ := if rate = 0 then 1 / n else rate

/-- eoStandardBitMutation (29-38): the rate kept, the string and the flag. -/
def standard (ws : Nat → W) (r : Nat → Nat) (rate : ℚ) (l : List Bool) : Except Err (ℚ × List Bool × Bool) :=
  if l.length = 0 then .error .asserted
  else
    let rate := fixRate rate l.length
    match detSingleBitFlip r (draw ws 0 l.length rate) l with
    | .ok x => .ok (rate, x)
    | .error e => .error e

/-- eoUniformBitMutation (63-68); `k` is the word drawn. -/
def uniformBits (w : W) (r : Nat → Nat) (l : List Bool) : Except Err (List Bool × Bool) :=
  detSingleBitFlip r (random id l.length w) l

/-- The loop of eoConditionalBitMutation (103-106). -/
def condLoop (ws : Nat → W) (n : Nat) (p : ℚ) : Nat → Nat → Option Nat
  | 0, _ => none
  | fuel + 1, t =>
    let k := draw ws t n p
    if k < 1 then condLoop ws n p fuel (t + n) else some k

/-- eoConditionalBitMutation (97-109). -/
def conditional (ws : Nat → W) (r : Nat → Nat) (fuel : Nat) (rate : ℚ) (l : List Bool) :
    Except Err (ℚ × List Bool × Bool) :=
  if l.length = 0 then .error .asserted
  else
    let rate := fixRate rate l.length
    match condLoop ws l.length rate fuel 0 with
    | none => .error .fuel
    | some k =>
      match detSingleBitFlip r k l with
      | .ok x => .ok (rate, x)
      | .error e => .error e

/-- eoShiftedBitMutation (133-145). -/
def shifted (ws : Nat → W) (r : Nat → Nat) (rate : ℚ) (l : List Bool) : Except Err (ℚ × List Bool × Bool) :=
  if l.length = 0 then .error .asserted
  else
    let rate := fixRate rate l.length
    let k := draw ws 0 l.length rate
    match detSingleBitFlip r (if k = 0 then 1 else k) l with
    | .ok x => .ok (rate, x)
    | .error e => .error e

/-- eoNormalBitMutation (177-194): `z` is the normal deviate drawn (mean and deviation included). -/
def normalBits (z : ℚ) (w : W) (r : Nat → Nat) (l : List Bool) : Except Err (List Bool × Bool) :=
  if l.length = 0 then .error .asserted
  else if z ≤ -1 then .error .ub
  else
    let k := if 0 ≤ z then ⌊z⌋₊ else 0
    detSingleBitFlip r (if l.length ≤ k then random id l.length w else k) l

/-- The loop of `powerlaw` (241-247) from index `i`: `wt` are the unnormalised weights. -/
def fastLoop (cnb trigger : ℚ) (n : Nat) : List ℚ → Nat → ℚ → ℚ
  | [], _, _ => 1
  | wt :: l, i, cursor =>
    if trigger ≤ cursor + wt / cnb then (i : ℚ) / n else fastLoop cnb trigger n l (i + 1) (cursor + wt / cnb)

/-- The rate of eoFastBitMutation (233-249): `wt i` stands for `pow(i, -beta)`. -/
def fastRate (wt : Nat → ℚ) (trigger : ℚ) (n : Nat) : ℚ :=
  let wts := (List.range (n / 2)).map fun i => wt (i + 1)
  fastLoop wts.sum trigger n wts 1 0

/-- eoFastBitMutation (223-228). -/
def fast (wt : Nat → ℚ) (w : W) (ws : Nat → W) (r : Nat → Nat) (l : List Bool) : Except Err (List Bool × Bool) :=
  detSingleBitFlip r (draw ws 0 l.length (fastRate wt (uniform 1 w) l.length)) l

/-- `customlaw` of eoBucketBitMutation (295-309) for the bucket chosen; `c` is what the C function `rand()`
returned. -/
def bucketBits (lo hi : Nat) (c : Nat) : Nat := if lo < hi then c % (hi - lo) + lo else hi

end Paradiseo.BitMut
