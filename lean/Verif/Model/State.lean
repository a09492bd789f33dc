import Mathlib.Data.Nat.Digits.Defs
/-
The state object of EO: registration, saving and loading of persistent objects.

* eo/src/utils/eoState.h (tags: 60-101), eo/src/utils/eoState.cpp

A text is a list of characters.  An object is a value of a type `O` with what its `printOn` writes and
what its `readFrom` makes of it.  File opening is not modelled; a stream is its remaining text.
-/
namespace Paradiseo.State

abbrev Text := List Char

/-- `std::string::find`: position of the first occurrence. -/
def find (pat : Text) : Text → Option Nat
  | [] => if pat.isPrefixOf [] then some 0 else none
  | c :: s => if pat.isPrefixOf (c :: s) then some 0 else (find pat s).map (· + 1)

/-- The tags (eoState.h:188-202). -/
structure Tags where
  stateSo : Text
  stateName : Text
  stateSc : Text
  secSo : Text
  secSc : Text
  contS : Text
  contE : Text
  secSep : Text
  secE : Text
  stateE : Text

/-- The default format (constructor 60-71, `formatLatex` 75-87). -/
def latex (name : Text) : Tags where
  stateSo := []
  stateName := name
  stateSc := []
  secSo := "\\section{".toList
  secSc := "}\n".toList
  contS := []
  contE := []
  secSep := []
  secE := "\n".toList
  stateE := []

/-- `formatJSON` (89-101). -/
def json (name : Text) : Tags where
  stateSo := "{ \"".toList
  stateName := name
  stateSc := "\":\n".toList
  secSo := "\t{ \"".toList
  secSc := "\":\n".toList
  contS := "\"".toList
  contE := "\"".toList
  secSep := ",\n".toList
  secE := "\t}\n".toList
  stateE := "}\n".toList

variable {O : Type}

/-! ### Registration -/

/-- A number in decimal, as `operator<<` writes it. -/
def showNat (n : Nat) : Text :=
  if n = 0 then ['0'] else ((Nat.digits 10 n).reverse.map Nat.digitChar)

/-- The loop of `createObjectName` (eoState.cpp:220-227): `C`, `C1`, `C2`, … until free. -/
def freeName (taken : List Text) (cls : Text) : Nat → Nat → Text → Option Text
  | 0, _, _ => none
  | fuel + 1, count, name =>
    if name ∈ taken then freeName taken cls fuel (count + 1) (cls ++ showNat count) else some name

/-- `createObjectName` (207-230); `none` as class: not an `eoObject`. -/
def createName (objs : List (Text × O)) (cls : Option Text) : Option Text :=
  match cls with
  | none => some (showNat objs.length)
  | some c => freeName (objs.map (·.1)) c (objs.length + 1) 1 c

/-- `registerObject` (60-74). `none`: exception (or the naming does not end). -/
def register (objs : List (Text × O)) (cls : Option Text) (o : O) : Option (List (Text × O)) :=
  match createName objs cls with
  | none => none
  | some n => if n ∈ objs.map (·.1) then none else some (objs ++ [(n, o)])

/-! ### Saving -/

/-- `saveSection` (174-183). -/
def saveSection (T : Tags) (pr : O → Text) (x : Text × O) : Text :=
  T.secSo ++ x.1 ++ T.secSc ++ T.contS ++ pr x.2 ++ T.contE ++ T.secE

/-- `save` (186-204). `none`: no object (assertion). -/
def save (T : Tags) (pr : O → Text) : List (Text × O) → Option Text
  | [] => none
  | x :: l => some (T.stateSo ++ T.stateName ++ T.stateSc ++ saveSection T pr x ++
      l.flatMap (fun y => T.secSep ++ saveSection T pr y) ++ T.stateE)

/-! ### Loading -/

/-- `removeComment` (21-29) with `#`. -/
def removeComment (s : Text) : Text := s.takeWhile (· ≠ '#')

/-- `is_section` (31-50): the name if the line is a section header.  The count given to `substr` is
`end - so.size()` in unsigned arithmetic: huge if `end` is smaller. -/
def isSection (T : Tags) (s : Text) : Option Text :=
  match find T.secSo s with
  | none => none
  | some pos =>
    match find T.secSc s with
    | none => none
    | some e =>
      let r := s.drop (pos + T.secSo.length)
      some (if e < T.secSo.length then r else r.take (e - T.secSo.length))

/-- `getline`: the line, what remains, and whether the end of the stream was reached (no newline
after the line). `none`: nothing left (the stream fails). -/
def getline (s : Text) : Option (Text × Text × Bool) :=
  match s with
  | [] => none
  | _ =>
    let line := s.takeWhile (· ≠ '\n')
    match s.drop line.length with
    | [] => some (line, [], true)
    | _ :: r => some (line, r, false)

/-- What loading can come to. -/
inductive LOut (O : Type) where
  | done (objs : List (Text × O))
  | fileError
  | noSection
  | unfinished
  deriving DecidableEq, Repr

/-- How an inner loop of `load` ends: at a header (the line; its remainder and end flag), at the end of
the stream, or with the exception of line 130. -/
inductive Inner where
  | header (content line rest : Text) (eof : Bool)
  | finished (content : Text)
  | noSection
  | unfinished

/-- The loop 112-116 over the lines of an unknown section. -/
def skipLoop (T : Tags) : Nat → Text → Inner
  | 0, _ => .unfinished
  | fuel + 1, s =>
    match getline s with
    | none => .finished []
    | some (l, r, e) =>
      match isSection T l with
      | some _ => .header [] l r e
      | none => skipLoop T fuel r

/-- The loop 127-136 over the lines of a known section. -/
def collectLoop (T : Tags) : Nat → Text → Text → Inner
  | 0, _, _ => .unfinished
  | fuel + 1, s, full =>
    match getline s with
    | none => .finished full
    | some (l, r, e) =>
      if e then .noSection
      else
        match isSection T l with
        | some _ => .header full l r e
        | none => collectLoop T fuel r (full ++ removeComment l ++ ['\n'])

/-- `object->readFrom(the_stream)` (137-138). -/
def readInto (rd : Text → O → O) (name full : Text) (objs : List (Text × O)) : List (Text × O) :=
  objs.map fun x => if x.1 = name then (x.1, rd full x.2) else x

/-- The outer loop of `load` (103-147): current line, rest of the stream, end reached. -/
def loadLoop (T : Tags) (rd : Text → O → O) : Nat → Text → Text → Bool → List (Text × O) → LOut O
  | 0, _, _, _, _ => .unfinished
  | fuel + 1, line, s, eof, objs =>
    if eof then .done objs
    else
      match isSection T line with
      | some name =>
        if name ∈ objs.map (·.1) then
          match collectLoop T (s.length + 1) s [] with
          | .header full l r e => loadLoop T rd fuel l r e (readInto rd name full objs)
          | .finished full => .done (readInto rd name full objs)
          | .noSection => .noSection
          | .unfinished => .unfinished
        else
          match skipLoop T (s.length + 1) s with
          | .header _ l r e => loadLoop T rd fuel l r e objs
          | .finished _ => .done objs
          | .noSection => .noSection
          | .unfinished => .unfinished
      | none =>
        match getline s with
        | none => .done objs
        | some (l, r, e) => loadLoop T rd fuel l r e objs

/-- `load(std::istream&)` (90-149). -/
def load (T : Tags) (rd : Text → O → O) (objs : List (Text × O)) (s : Text) : LOut O :=
  match getline s with
  | none => .fileError
  | some (l, r, e) => loadLoop T rd (s.length + 1) l r e objs

end Paradiseo.State
