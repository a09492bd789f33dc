import Mathlib.Algebra.Order.Ring.Rat
import Mathlib.Algebra.Field.Rat
import Mathlib.Data.Rat.Floor
import Mathlib.Analysis.SpecialFunctions.Pow.Real
/-
The random number generator of EO: the Mersenne Twister as coded, and what is derived from it.

* eo/src/utils/eoRNG.h (class 115-482, inline functions 502-571), eo/src/utils/eoRNG.cpp (constants)

Words are `BitVec 32`.  The array `state` of N + 1 words is a function on indices; `next` is an index
(`none`: the null pointer of the constructor).  The sizes N and M are parameters (624 and 397 in
eoRNG.cpp).  Numbers of type double derived from a word are rational; rounding is a parameter where it
is considered at all.
-/
namespace Paradiseo.Rng

abbrev W := BitVec 32

/-- `K` (eoRNG.cpp). -/
def K : W := 0x9908B0DF#32

/-- `N`, `M` (eoRNG.cpp). -/
def eoN : Nat := 624
def eoM : Nat := 397

/-- `mixBits(u, v)` (502-505). -/
def mixBits (u v : W) : W := (u &&& 0x80000000#32) ||| (v &&& 0x7FFFFFFF#32)

/-- `(mixBits(s0, s1) >> 1) ^ (loBit(s1) ? K : 0U)` (528). -/
def twist (s0 s1 : W) : W :=
  (mixBits s0 s1 >>> 1) ^^^ (if s1 &&& 0x00000001#32 ≠ 0#32 then K else 0#32)

/-- The tempering (534-537, 547-550). -/
def temper (y : W) : W :=
  let y := y ^^^ (y >>> 11)
  let y := y ^^^ ((y <<< 7) &&& 0x9D2C5680#32)
  let y := y ^^^ ((y <<< 15) &&& 0xEFC60000#32)
  y ^^^ (y >>> 18)

/-- The generator. `V` is the type of the cached normal deviate. -/
structure Gen (V : Type) where
  state : Nat → W
  next : Option Nat
  left : Int
  cached : Bool
  cacheValue : V

/-- `a[i] = x`. -/
def upd (a : Nat → W) (i : Nat) (x : W) : Nat → W := fun k => if k = i then x else a k

/-- The loop of `initialize` (514-515) that fills index `i` on, `n` words. -/
def fill : Nat → Nat → W → (Nat → W) → (Nat → W)
  | 0, _, _, a => a
  | n + 1, i, x, a => fill n (i + 1) (x * 69069#32) (upd a i (x * 69069#32))

variable {V : Type}

/-- `initialize` (508-516): neither `next` nor the cache is touched. -/
def initState (N : Nat) (seed : W) (g : Gen V) : Gen V :=
  let x := seed ||| 1#32
  { g with left := 0, state := fill (N - 1) 1 x (upd g.state 0 x) }

/-- `reseed` (147-150). -/
def reseed (N : Nat) (s : W) (g : Gen V) : Gen V := initState N (2#32 * s) g

/-- The constructor (126-131): `mem` and `v` are what memory held. -/
def create (N : Nat) (s : W) (mem : Nat → W) (v : V) : Gen V :=
  initState N (2#32 * s) ⟨mem, none, -1, false, v⟩

/-- The variables of `restart`. -/
structure RS where
  p0 : Nat
  p2 : Nat
  pM : Nat
  s0 : W
  s1 : W
  a : Nat → W

/-- One turn of the loops 527-531. -/
def RS.turn (r : RS) : RS :=
  let a := upd r.a r.p0 (r.a r.pM ^^^ twist r.s0 r.s1)
  ⟨r.p0 + 1, r.p2 + 1, r.pM + 1, r.s1, a r.p2, a⟩

def RS.turns : Nat → RS → RS
  | 0, r => r
  | n + 1, r => RS.turns n r.turn

/-- `restart` (520-538). -/
def restart (N M : Nat) (g : Gen V) : W × Gen V :=
  let r := RS.turns (N - M) ⟨0, 2, M, g.state 0, g.state 1, g.state⟩
  let r := RS.turns (M - 1) { r with pM := 0 }
  let s1 := r.a 0
  let a := upd r.a r.p0 (r.a r.pM ^^^ twist r.s0 s1)
  (temper s1, { g with state := a, left := (N : Int) - 1, next := some 1 })

/-- `rand` (542-551). -/
def rand (N M : Nat) (g : Gen V) : W × Gen V :=
  let left := g.left - 1
  if left < 0 then restart N M { g with left := left }
  else
    let i := g.next.getD 0
    (temper (g.state i), { g with left := left, next := some (i + 1) })

/-- The first `n` numbers. -/
def rands (N M : Nat) : Nat → Gen V → List W × Gen V
  | 0, g => ([], g)
  | n + 1, g =>
    let (w, g) := rand N M g
    let (l, g) := rands N M n g
    (w :: l, g)

/-! ### Derived numbers -/

/-- `uniform(m)` (177-180). -/
def uniform (m : ℚ) (w : W) : ℚ := m * (w.toNat : ℚ) / 4294967296

/-- `uniform(min, max)` (188-191). -/
def uniform2 (lo hi : ℚ) (w : W) : ℚ := lo + uniform (hi - lo) w

/-- `random(m)` (198-201); `round` is the rounding of the product. -/
def random (round : ℚ → ℚ) (m : Nat) (w : W) : Nat := ⌊round (uniform 1 w * m)⌋₊

/-- `flip(bias)` (212-215). -/
def flip (bias : ℚ) (w : W) : Bool := decide (uniform 1 w < bias)

/-- `binomial(n, p)` (221-228) on the next `n` words. -/
def binomial (p : ℚ) : List W → Nat
  | [] => 0
  | w :: l => (if flip p w then 1 else 0) + binomial p l

/-- `eo::random(min, max)` for integers (594-595). -/
def randomInt (lo hi : Int) (w : W) : Int := Int.tdiv (w.toNat * (hi - lo)) 4294967296 + lo

/-- The argument of the outer power in `powerlaw(min, max, gamma)` (235-243), `x` being the uniform draw. -/
noncomputable def powerlawArg (lo hi gamma x : ℝ) : ℝ :=
  x * (hi ^ (-gamma + 1) - lo ^ (-gamma + 1)) + lo ^ (-gamma + 1)

/-- `powerlaw(min, max, gamma)` for a positive argument of the outer power. -/
noncomputable def powerlaw (lo hi gamma x : ℝ) : ℝ := powerlawArg lo hi gamma x ^ (1 / (-gamma + 1))

/-! ### Normal deviates -/

/-- `normal()` (555-571), with the pair of deviates made from two words given by `polar`; `none`: the pair
is rejected. `none` as result: not finished. -/
def normal (N M : Nat) (polar : W → W → Option (V × V)) : Nat → Gen V → Option (V × Gen V)
  | 0, _ => none
  | fuel + 1, g =>
    if g.cached then some (g.cacheValue, { g with cached := false })
    else
      let (w1, g1) := rand N M g
      let (w2, g2) := rand N M g1
      match polar w1 w2 with
      | none => normal N M polar fuel g2
      | some (c, v) => some (v, { g2 with cached := true, cacheValue := c })

/-- `clearCache` (282-285). -/
def clearCache (g : Gen V) : Gen V := { g with cached := false }

/-- A call of the generator. -/
inductive Call where
  | rand
  | normal
  deriving DecidableEq, Repr

/-- A sequence of calls and what they return. `none`: a call does not end within the fuel. -/
def calls (N M : Nat) (polar : W → W → Option (V × V)) (fuel : Nat) :
    List Call → Gen V → Option (List (W ⊕ V) × Gen V)
  | [], g => some ([], g)
  | .rand :: cs, g =>
    (calls N M polar fuel cs (rand N M g).2).map fun r => (.inl (rand N M g).1 :: r.1, r.2)
  | .normal :: cs, g =>
    (normal N M polar fuel g).bind fun x => (calls N M polar fuel cs x.2).map fun r => (.inr x.1 :: r.1, r.2)

/-! ### Persistence -/

/-- What `printOn` (358-366) writes, item by item: `pr` is the cached value as printed; the difference of
`next` and `state` is unspecified (`junk`) when `next` is null. -/
structure Printed (P : Type) where
  words : List W
  next : Nat
  left : Int
  cached : Bool
  value : P

def printOn {P : Type} (N : Nat) (pr : V → P) (junk : Nat) (g : Gen V) : Printed P :=
  ⟨(List.range N).map g.state, g.next.getD junk, g.left, g.cached, pr g.cacheValue⟩

/-- `readFrom` (372-386). -/
def readFrom {P : Type} (rd : P → V) (p : Printed P) (g : Gen V) : Gen V :=
  ⟨fun i => p.words.getD i (g.state i), some p.next, p.left, p.cached, rd p.value⟩

end Paradiseo.Rng
