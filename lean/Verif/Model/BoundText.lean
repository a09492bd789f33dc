import Verif.Model.EOBounds
import Verif.Model.Persist
/-
Bounds as text.

* eo/src/utils/eoRealBounds.cpp 25-182 (eoRealVectorBounds), 189-260 (eoGeneralRealBounds)
* eo/src/utils/eoIntBounds.cpp 28-98 (eoGeneralIntBounds)
* eo/src/utils/eoRealVectorBounds.h 313-330, eoRealBounds.h 200-203, 325-328, 427-430, 526-529, 552-555, 677-684

Reading a real number from a text (`read_double`) is a function `rd`; a text without any number gives whatever
`rd` says (the library stores zero), a text of blanks only assigns nothing and is `ub`.  Whole numbers are read as
they are, without overflow of `long`.  Objects are the values of the bounds, not pointers; who owns them is left out.
-/
namespace Paradiseo.BoundText

open Paradiseo.EO Paradiseo.Persist
open Paradiseo.Bounds (Bound)

deriving instance DecidableEq for Bound

/-- The delimiters `",; "` (eoRealBounds.cpp 88, 192). -/
def isDelim (c : Char) : Bool := c == ',' || c == ';' || c == ' '

/-- `"[("` (eoRealBounds.cpp 94). -/
def isOpen (c : Char) : Bool := c == '[' || c == '('

/-- `"[(])"` (eoRealBounds.cpp 193). -/
def isBracket (c : Char) : Bool := c == '[' || c == '(' || c == ']' || c == ')'

/-- remove_leading (eoRealBounds.cpp 25-32); `none`: false, the text stays. -/
def stripDelim (s : Text) : Option Text :=
  match s.dropWhile isDelim with
  | [] => none
  | c :: t => some (c :: t)

/-- read_double (eoRealBounds.cpp 34-40). -/
def readNum {R : Type} (rd : Text → R) (s : Text) : Except Err R :=
  match skipWs s with
  | [] => .error .ub
  | _ => .ok (rd s)

/-- The digits at the beginning; zero without any. -/
def digitsAt (t : Text) : Nat := (t.takeWhile (·.isDigit)).foldl (fun a c => 10 * a + (c.toNat - 48)) 0

/-- A sign and digits at the beginning. -/
def intAt : Text → Int
  | [] => 0
  | c :: t => if c = '-' then - (digitsAt t : Int) else if c = '+' then digitsAt t else digitsAt (c :: t)

/-- What `is >> i` stores (read_int, eoRealBounds.cpp 42-48). -/
def rdInt (s : Text) : Int := intAt (skipWs s)

section
variable {R : Type} [LinearOrder R]

/-- A limit: one of the texts for infinity, or a number (eoRealBounds.cpp 130-135, 141-145, 223-229, 236-242). -/
def limit (inf : List Text) (rd : Text → R) (s : Text) : Except Err (Option R) :=
  if s ∈ inf then .ok none
  else
    match readNum rd s with
    | .error e => .error e
    | .ok v => .ok (some v)

/-- The upper limit: `substr` of a place beyond the end throws (eoRealBounds.cpp 138-145, 232-242). -/
def upper (inf : List Text) (rd : Text → R) (s : Text) : Except Err (Option R) :=
  match stripDelim s with
  | none => .error .thrown
  | some t => limit inf rd t

/-- What is between the brackets (eoRealBounds.cpp 121-145, 212-242, eoIntBounds.cpp 51-81). -/
def limits (minInf maxInf : List Text) (rd : Text → R) (body : Text) : Except Err (Option R × Option R) :=
  let b := (stripDelim body).getD body
  match b.findIdx? isDelim with
  | none => .error .thrown
  | some k =>
    match limit minInf rd (b.take k) with
    | .error e => .error e
    | .ok lo =>
      match upper maxInf rd (b.drop k) with
      | .error e => .error e
      | .ok hi => .ok (lo, hi)

/-- The kind of bounds (eoRealBounds.cpp 148-156, 245-257); `bad`: what intervals are refused, and how. -/
def mkBound (bad : R → R → Option Err) : Option R × Option R → Except Err (Bound R)
  | (some lo, some hi) =>
    match bad lo hi with
    | some e => .error e
    | none => .ok (.interval lo hi)
  | (none, none) => .ok .none
  | (none, some hi) => .ok (.above hi)
  | (some lo, none) => .ok (.below lo)

/-! ### One variable: eoGeneralRealBounds, eoGeneralIntBounds -/

/-- `if (maxBound <= minBound) throw` (eoRealBounds.cpp 248-249, eoIntBounds.cpp 87-88). -/
def badGeneral (lo hi : R) : Option Err := if hi ≤ lo then some .thrown else none

/-- The part of getBoundsFromString behind the first bracket (eoRealBounds.cpp 203-259, eoIntBounds.cpp 42-97). -/
def afterOpen (rd : Text → R) (t : Text) : Except Err (Bound R) :=
  match t.findIdx? isBracket with
  | none => .error .thrown
  | some e =>
    match limits [txt "-inf", txt "-infinity"] [txt "+inf", txt "+infinity"] rd (t.take e) with
    | .error e => .error e
    | .ok p => mkBound badGeneral p

/-- getBoundsFromString (eoRealBounds.cpp 189-260, eoIntBounds.cpp 28-98). -/
def general (rd : Text → R) (s : Text) : Except Err (Bound R) :=
  match stripDelim s with
  | none => .error .thrown
  | some w =>
    match w.findIdx? isBracket with
    | none => .error .thrown
    | some d => afterOpen rd (w.drop (d + 1))

/-- readFrom (eoRealBounds.h 677-684). -/
def generalRead (rd : Text → R) (s : Str) : Except Err (Bound R × Str) :=
  match general rd (getWord s).1 with
  | .error e => .error e
  | .ok b => .ok (b, (getWord s).2)

/-- printOn (eoRealBounds.h 200-203, 325-328, 427-430, 526-529). -/
def boundPrint (sh : R → Text) : Bound R → Text
  | .none => txt "[-inf,+inf]"
  | .interval lo hi => ['['] ++ sh lo ++ [','] ++ sh hi ++ [']']
  | .below lo => ['['] ++ sh lo ++ txt ",+inf]"
  | .above hi => txt "[-inf," ++ sh hi ++ [']']

/-! ### Several variables: eoRealVectorBounds -/

/-- The bounds of the variables, and how many times each group is repeated (`factor`). -/
structure VB (R : Type) where
  items : List (Bound R)
  factor : List Nat
  deriving DecidableEq

/-- eoRealInterval's constructor asserts a range that is not negative (eoRealBounds.h 234). -/
def badVector (lo hi : R) : Option Err := if hi < lo then some .asserted else none

/-- `unsigned count = 1; if (posDeb > 0) count = read_int(...)` (eoRealBounds.cpp 107-114): the conversion to
`unsigned` wraps. -/
def readCount (s : Text) : Except Err Nat :=
  match s with
  | [] => .ok 1
  | c :: t =>
    match readNum rdInt (c :: t) with
    | .error e => .error e
    | .ok n => if (n % 2 ^ 32).toNat ≤ 0 then .error .thrown else .ok (n % 2 ^ 32).toNat

/-- `_value.substr(posDeb+1, posFin-posDeb-1)` (eoRealBounds.cpp 117); the difference wraps if the closing bracket is
in front. -/
def between (w : Text) (d e : Nat) : Text := if d < e then (w.drop (d + 1)).take (e - d - 1) else w.drop (d + 1)

/-- One group (eoRealBounds.cpp 94-163) at the beginning of a text without delimiters in front: count, bounds, rest;
`none`: there is no opening bracket. -/
def group (rd : Text → R) (w : Text) : Except Err (Option (Nat × Bound R × Text)) :=
  match w.findIdx? isOpen with
  | none => .ok none
  | some d =>
    match w.findIdx? (fun c => decide (c = if w[d]? = some '(' then ')' else ']')) with
    | none => .error .thrown
    | some e =>
      match readCount (w.take d) with
      | .error e => .error e
      | .ok n =>
        match limits [txt "-inf"] [txt "+inf"] rd (between w d e) with
        | .error e => .error e
        | .ok p =>
          match mkBound badVector p with
          | .error e => .error e
          | .ok b => .ok (some (n, b, w.drop (e + 1)))

/-- The loop of readFrom (eoRealBounds.cpp 89-164). -/
def groups (rd : Text → R) : Nat → Text → Except Err (List (Nat × Bound R))
  | 0, _ => .error .fuel
  | fuel + 1, v =>
    match stripDelim v with
    | none => .ok []
    | some w =>
      match group rd w with
      | .error e => .error e
      | .ok none => .ok []
      | .ok (some (n, b, r)) =>
        match groups rd fuel r with
        | .error e => .error e
        | .ok gs => .ok ((n, b) :: gs)

/-- The groups as an object (eoRealBounds.cpp 158-163). -/
def ofGroups (gs : List (Nat × Bound R)) : VB R :=
  ⟨gs.flatMap fun g => List.replicate g.1 g.2, gs.map (·.1)⟩

/-- adjust_size (eoRealBounds.cpp 170-182): `back()` of an empty vector is `ub`. -/
def adjust (x : VB R) (dim : Nat) : Except Err (VB R) :=
  if x.items.length < dim then
    match x.items.getLast?, x.factor.getLast? with
    | some b, some f =>
      .ok ⟨x.items ++ List.replicate (dim - x.items.length) b,
        x.factor.dropLast ++ [f + (dim - x.items.length)]⟩
    | _, _ => .error .ub
  else .ok x

/-- readFrom(std::string) (eoRealBounds.cpp 73-167) into an object with `old` variables. -/
def vbRead (rd : Text → R) (old : Nat) (s : Text) : Except Err (VB R) :=
  match groups rd (s.length + 1) s with
  | .error e => .error e
  | .ok gs => adjust (ofGroups gs) old

/-- readFrom(std::istream) (eoRealBounds.cpp 65-71). -/
def vbReadStream (rd : Text → R) (old : Nat) (s : Str) : Except Err (VB R × Str) :=
  match vbRead rd old (getWord s).1 with
  | .error e => .error e
  | .ok x => .ok (x, (getWord s).2)

/-- `if (factor[i] > 1) _os << factor[i]` (eoRealVectorBounds.h 315-316, 325-326). -/
def countPrint (f : Nat) : Text := if 1 < f then State.showNat f else []

/-- The loop of printOn (eoRealVectorBounds.h 320-329) from variable `i` on. -/
def printFrom (sh : R → Text) (items : List (Bound R)) : Nat → List Nat → Except Err Text
  | _, [] => .ok []
  | i, f :: fs =>
    match items[i]? with
    | none => .error .ub
    | some b =>
      match printFrom sh items (i + f) fs with
      | .error e => .error e
      | .ok t => .ok ([';'] ++ countPrint f ++ boundPrint sh b ++ t)

/-- printOn (eoRealVectorBounds.h 313-330). -/
def vbPrint (sh : R → Text) (x : VB R) : Except Err Text :=
  match x.factor with
  | [] => .error .ub
  | f :: fs =>
    match x.items[0]? with
    | none => .error .ub
    | some b =>
      match printFrom sh x.items f fs with
      | .error e => .error e
      | .ok t => .ok (countPrint f ++ boundPrint sh b ++ t)

end
end Paradiseo.BoundText
