import Mathlib.Algebra.Order.Field.Basic
import Mathlib.Data.List.Basic
/-
Model of the bounded archive for two minimised objectives that keeps the points contributing most to
the dominated area (moeo/src/archive/moeo2DMinHypervolumeArchive.h).

The archive is a `std::set`; here it is the list of its elements in increasing order, an iterator is
an index (`end()` is the length). Doubles are an arbitrary ordered field. Reading through `end()`, an
iterator that was never set and stepping before `begin()` are the outcome `none`.
-/
namespace Paradiseo.Moeo.Hv2

/-- What the archive reads and writes of an individual: its two objectives and its fitness. -/
structure Pt (F : Type) where
  x : F
  y : F
  fit : F
deriving DecidableEq, Repr

variable {F : Type} [Field F] [LinearOrder F]

/-- `comp` (moeo2DMinHypervolumeArchive.h:54-57): by the second objective, then by the first. -/
def compLt (a b : Pt F) : Bool := decide (a.y < b.y) || (decide (a.y = b.y) && decide (a.x < b.x))

/-- `upper_bound` of the set (line 177): how many elements are not after `p`. -/
def upper (l : List (Pt F)) (p : Pt F) : Nat := (l.takeWhile fun a => !compLt p a).length

/-- The value `compute` (lines 288-316) gives to the element at index `i`: `mx` (`maxValue`) to the
first and to the last element, else the area of the rectangle up to the two neighbours. -/
def area (mx : F) (l : List (Pt F)) : Nat → F
  | 0 => mx
  | j + 1 =>
    match l[j]?, l[j + 1]?, l[j + 2]? with
    | some a, some b, some c => (a.x - b.x) * (c.y - b.y)
    | _, _, _ => mx

/-- `fitness(_it, v)` (lines 230-235). -/
def setFit (l : List (Pt F)) (i : Nat) (v : F) : List (Pt F) := l.modify i fun p => { p with fit := v }

/-- `compute` (lines 288-316). -/
def compute (mx : F) (l : List (Pt F)) (i : Nat) : List (Pt F) := setFit l i (area mx l i)

/-- `computeFitness` (lines 259-281): the element before, the element after, the element. -/
def computeFitness (mx : F) (l : List (Pt F)) (i : Nat) : List (Pt F) :=
  let l1 := if i ≠ 0 then compute mx l (i - 1) else l
  let l2 := if i + 1 < l1.length then compute mx l1 (i + 1) else l1
  compute mx l2 i

/-- Loop of `filterbis` over the elements (lines 362-369), also lines 417-423: smallest fitness below
the value carried along, and where it was met first. -/
def scanMin : List (Pt F) → Nat → F → Option Nat → F × Option Nat
  | [], _, m, k => (m, k)
  | p :: l, i, m, k => if p.fit < m then scanMin l (i + 1) p.fit (some i) else scanMin l (i + 1) m k

/-- `filterbis` (lines 352-378). `minFit` is not reset between two turns; an erased iterator is not
usable any more, so that each turn starts without a choice. The fuel is the number of elements, each
turn erases one. -/
def filterbis (mx : F) (maxSize : Nat) : Nat → F → List (Pt F) → Option (List (Pt F))
  | 0, _, l => some l
  | fuel + 1, minFit, l =>
    if maxSize < l.length then
      match scanMin l 0 minFit none with
      | (_, none) => none
      | (m, some k) =>
        if k = 0 then none
        else
          let l1 := l.eraseIdx k
          if l1.length ≤ k then none
          else filterbis mx maxSize fuel m (compute mx (compute mx l1 (k - 1)) k)
    else some l

/-- `insert(hint, _moeo)`, `hint--`, `computeFitness(hint)`, `filterbis()` (lines 390-393, 406-410,
431-435). -/
def insertFilter (mx : F) (maxSize : Nat) (l : List (Pt F)) (h : Nat) (p : Pt F) :
    Option (List (Pt F)) :=
  let l1 := computeFitness mx (l.take h ++ p :: l.drop h) h
  filterbis mx maxSize l1.length mx l1

/-- `computeTmp(_objVec, -1)` called with `hint` at the element `a` before the newcomer (lines 321-322,
331-338, 400-402). -/
def predArea (mx : F) (l : List (Pt F)) (h : Nat) (p a : Pt F) : Option F :=
  if h - 1 = 0 then some mx
  else match l[h - 2]? with
    | some a' => some ((p.y - a.y) * (a'.x - a.x))
    | none => none

/-- `filter` (lines 383-441) with the three values of `computeTmp` (318-349). The value `succ` reads
the element after `hint`, whatever it is. -/
def filter (mx : F) (maxSize : Nat) (l : List (Pt F)) (h : Nat) (p : Pt F) :
    Option (Bool × List (Pt F)) :=
  if h = 0 ∨ h = l.length then (insertFilter mx maxSize l h p).map fun l' => (true, l')
  else
    match l[h - 1]?, l[h]?, l[h + 1]? with
    | some a, some b, some c =>
      let tmp := (b.y - p.y) * (a.x - p.x)
      match predArea mx l h p a with
      | none => none
      | some pred =>
        let succ := (p.x - b.x) * (c.y - b.y)
        if tmp > succ ∨ tmp > pred then
          (insertFilter mx maxSize l h p).map fun l' => (true, l')
        else if tmp ≤ (scanMin l 0 mx none).1 then some (false, l)
        else (insertFilter mx maxSize l h p).map fun l' => (true, l')
    | _, _, _ => none

/-- The test of `insert(objVec)` (lines 177-187): nothing before, or a smaller first objective than
the element before. -/
def accepts (l : List (Pt F)) (p : Pt F) : Bool :=
  if upper l p = 0 then true else match l[upper l p - 1]? with
    | some a => decide (p.x < a.x)
    | none => false

/-- `insert(objVec)` (lines 169-197) with `remove` (243-252): where the newcomer goes and what is left
of the archive, or nothing when it is refused. -/
def place (l : List (Pt F)) (p : Pt F) : Option (Nat × List (Pt F)) :=
  let it := upper l p
  if accepts l p then some (it, l.take it ++ (l.drop it).dropWhile fun a => decide (p.x ≤ a.x)) else none

/-- `operator()(_moeo)` (lines 95-142). -/
def step (mx : F) (maxSize : Nat) (l : List (Pt F)) (p : Pt F) : Option (Bool × List (Pt F)) :=
  if l.length = 0 then some (true, [{ p with fit := mx }])
  else
    match place l p with
    | none => some (false, l)
    | some (h, l1) =>
      if l1.length < maxSize then
        let l2 := l1.take h ++ p :: l1.drop h
        if l2.length > 2 then some (true, computeFitness mx l2 h)
        else some (true, l2.map fun q => { q with fit := mx })
      else filter mx maxSize l1 h p

/-- The constructor (lines 84-87): at least two places. -/
def capacity (maxSize : Nat) : Nat := max 2 maxSize

/-- `operator()(_pop)` (lines 150-161), also any sequence of calls: the answers are or-ed. -/
def feed (mx : F) (maxSize : Nat) : List (Pt F) → Bool × List (Pt F) → Option (Bool × List (Pt F))
  | [], s => some s
  | p :: ps, (r, l) =>
    match step mx maxSize l p with
    | none => none
    | some (t, l') => feed mx maxSize ps (t || r, l')

end Paradiseo.Moeo.Hv2
