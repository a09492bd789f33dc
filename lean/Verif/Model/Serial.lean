import Mathlib.Data.List.Lex
import Mathlib.Data.Char
import Mathlib.Algebra.Order.Round
import Mathlib.Data.Rat.Floor

/-!
# eo/src/serial: the JSON writer and parser

Model of eo/src/serial (Parser.cpp, SerialString.cpp, SerialArray.cpp, SerialObject.cpp).

A text is a list of characters; `str[pos]` at the end of the text is the null character, beyond it is
undefined.  The recursive descent takes a number of calls it may still make (`fuel`): running out of
it is an outcome of its own, so that "does not return" means "runs out of any fuel".
Simplification: positions are unbounded integers and `npos` is represented by `none`.
-/

namespace Paradiseo.Serial

/-- How a function can fail to return a value. -/
inductive PErr where
  | ub     -- undefined behaviour: reading outside of the text
  | fuel   -- not finished yet
deriving DecidableEq, Repr

abbrev Text := List Char

/-- Entities (Entity.h): strings, arrays and objects; an object is a `std::map`, i.e. its members in
ascending order of their keys.  `null` is the null pointer the parser stores for a value it does not
recognise. -/
inductive J where
  | null
  | str (s : Text)
  | arr (l : List J)
  | obj (l : List (Text × J))

/-! ## Writing -/

mutual
/-- Entity::print: String (SerialString.cpp 26-30), Array (SerialArray.cpp 26-45) and Object
(SerialObject.cpp 28-48).  Printing a null pointer is undefined; the theorems exclude it. -/
def print : J → Text
  | .null => []
  | .str s => '"' :: (s ++ ['"'])
  | .arr l => '[' :: (printElems l ++ [']', '\n'])
  | .obj l => '{' :: (printMembers l ++ ['}', '\n'])

/-- The loop of Array::print (SerialArray.cpp 30-42). -/
def printElems : List J → Text
  | [] => []
  | x :: [] => print x
  | x :: y :: l => print x ++ [',', ' '] ++ printElems (y :: l)

/-- The loop of Object::print (SerialObject.cpp 32-45). -/
def printMembers : List (Text × J) → Text
  | [] => []
  | (k, x) :: [] => '"' :: (k ++ ['"', ':'] ++ print x)
  | (k, x) :: m :: l => '"' :: (k ++ ['"', ':'] ++ print x) ++ [',', ' '] ++ printMembers (m :: l)
end

/-! ## Parsing -/

/-- `str[pos]` for a constant string. -/
def charAt (s : Text) (pos : Nat) : Except PErr Char :=
  if pos = s.length then .ok (Char.ofNat 0)
  else match s[pos]? with
    | some c => .ok c
    | none => .error .ub

/-- The characters skipped between tokens (Parser.cpp 102). -/
def ignored (c : Char) : Bool := c == ',' || c == ' ' || c == '\n'

/-- ignoreChars (Parser.cpp 98-104): the new position. -/
def ignoreChars (s : Text) (pos : Nat) : Except PErr Nat :=
  if pos ≤ s.length then .ok (pos + ((s.drop pos).takeWhile ignored).length) else .error .ub

/-- `str.find('"', pos)`. -/
def findQuote (s : Text) (pos : Nat) : Option Nat :=
  if pos ≤ s.length then
    match (s.drop pos).findIdx? (· == '"') with
    | some k => some (pos + k)
    | none => none
  else none

/-- The number of backslashes just before position `q`, and whether there are other characters
before them (Parser.cpp 74-82); otherwise the index wraps around. -/
def backslashes (s : Text) (q : Nat) : Except PErr Nat :=
  let n := ((s.take q).reverse.takeWhile (· == '\\')).length
  if n < q then .ok n else .error .ub

/-- The do-while loop of parseString (Parser.cpp 71-84): the position of the closing quote.  The
position grows in each turn, `s.length + 1` turns are enough. -/
def closing (s : Text) : Nat → Nat → Except PErr Nat
  | 0, _ => .error .fuel
  | n + 1, pos =>
    match findQuote s (pos + 1) with
    | none => .error .ub       -- str[npos - 1]
    | some q =>
      match backslashes s q with
      | .error e => .error e
      | .ok b => if b % 2 = 1 then closing s n q else .ok q

/-- parseString (Parser.cpp 48-89): the string and the position after it.  Note that the search for
the closing quote starts after `pos`, not after the opening quote; if it finds the opening quote, the
length passed to `substr` is `npos`. -/
def parseString (s : Text) (pos : Nat) : Except PErr (Text × Nat) :=
  match closing s (s.length + 1) pos with
  | .error e => .error e
  | .ok q =>
    match findQuote s pos with
    | none => .error .ub
    | some first =>
      .ok (if first < q then (s.take q).drop (first + 1) else s.drop (first + 1), q + 1)

/-- `map[k] = v`. -/
def insertKV (k : Text) (v : J) : List (Text × J) → List (Text × J)
  | [] => [(k, v)]
  | (k', v') :: l =>
    if k = k' then (k, v) :: l
    else if k < k' then (k, v) :: (k', v') :: l
    else (k', v') :: insertKV k v l

/-- `if (child) array->push_back(child)` (Parser.cpp 154-155). -/
def pushChild (acc : List J) : J → List J
  | .null => acc
  | v => acc ++ [v]

mutual
/-- Parser::parseRight (Parser.cpp 117-164): the entity (`J.null` for none) and the new position. -/
def parseRight (s : Text) : Nat → Nat → Except PErr (J × Nat)
  | 0, _ => .error .fuel
  | n + 1, pos =>
    match ignoreChars s pos with
    | .error e => .error e
    | .ok pos =>
      match charAt s pos with
      | .error e => .error e
      | .ok c =>
        let r : Except PErr (J × Nat) :=
          if c = '{' then
            match ignoreChars s (pos + 1) with
            | .error e => .error e
            | .ok pos =>
              match objLoop s n pos [] with
              | .error e => .error e
              | .ok (l, pos) => .ok (.obj l, pos + 1)
          else if c = '"' then
            match parseString s pos with
            | .error e => .error e
            | .ok (v, pos) => .ok (.str v, pos)
          else if c = '[' then
            match ignoreChars s (pos + 1) with
            | .error e => .error e
            | .ok pos =>
              match arrLoop s n pos [] with
              | .error e => .error e
              | .ok (l, pos) => .ok (.arr l, pos + 1)
          else .ok (.null, pos)
        match r with
        | .error e => .error e
        | .ok (v, pos) =>
          match ignoreChars s pos with
          | .error e => .error e
          | .ok pos => .ok (v, pos)

/-- The loop over the members of an object (Parser.cpp 129-133) with parseLeft (Parser.cpp
166-172). -/
def objLoop (s : Text) : Nat → Nat → List (Text × J) → Except PErr (List (Text × J) × Nat)
  | 0, _, _ => .error .fuel
  | n + 1, pos, acc =>
    if pos < s.length ∧ s[pos]? ≠ some '}' then
      match parseString s pos with
      | .error e => .error e
      | .ok (key, pos) =>
        match parseRight s n (pos + 1) with
        | .error e => .error e
        | .ok (v, pos) =>
          match ignoreChars s pos with
          | .error e => .error e
          | .ok pos => objLoop s n pos (insertKV key v acc)
    else .ok (acc, pos)

/-- The loop over the elements of an array (Parser.cpp 151-157). -/
def arrLoop (s : Text) : Nat → Nat → List J → Except PErr (List J × Nat)
  | 0, _, _ => .error .fuel
  | n + 1, pos, acc =>
    if pos < s.length ∧ s[pos]? ≠ some ']' then
      match parseRight s n pos with
      | .error e => .error e
      | .ok (v, pos) =>
        match ignoreChars s pos with
        | .error e => .error e
        | .ok pos => arrLoop s n pos (pushChild acc v)
    else .ok (acc, pos)
end

/-- Parser::parse (Parser.cpp 111-115): the entity read (it is cast to an object unchecked). -/
def parse (fuel : Nat) (s : Text) : Except PErr J :=
  match parseRight s fuel 0 with
  | .error e => .error e
  | .ok (v, _) => .ok v

/-! ## Numbers -/

/-- What is written for a number `1 ≤ x < 2` by eoserial::make (Utils.h 418-425) and PackImpl (Utils.h
269-275), which print with `digits` significant digits where the library uses `digits10 + 1 = 16`; as a
number.  Reading it back (SerialString.h 82-89) gives the double next to it. -/
def written (digits : Nat) (x : ℚ) : ℚ := round (x * 10 ^ (digits - 1)) / 10 ^ (digits - 1)

/-- The double number `k` in [1, 2). -/
def doubleNo (k : Nat) : ℚ := 1 + k / 2 ^ 52

end Paradiseo.Serial
