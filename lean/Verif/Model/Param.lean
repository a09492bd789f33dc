/-
The command line and parameter file parser of EO, and the textual values of parameters.

* eo/src/utils/eoParser.cpp (constructor 79-116, getValue 173-196, readFrom 208-275, printOn 277-319,
  userNeedsHelp 374-438, doRegisterParam 158-171), eo/src/utils/eoParser.h
* eo/src/utils/eoParam.h: eoValueParam<std::vector<double>> 334-358, eoParamParamType 433-495

A text is a list of characters.  A parameter is modelled by its names, whether it is required, its
description and the text of its value.  The sections of `printOn` are a given list; the order in which a
`std::multimap` enumerates them is not modelled.  `std::map` is an association list without repeated
keys.  Opening a parameter file is not modelled: its contents are given.
-/
namespace Paradiseo.Param

abbrev Text := List Char

/-- `isspace` in the C locale. -/
def isWs (c : Char) : Bool :=
  c == ' ' || c == '\n' || c == '\t' || c == '\r' || c.toNat == 11 || c.toNat == 12

/-- `is >> str`: the next word and the rest. `none`: no word left. -/
def token (s : Text) : Option (Text × Text) :=
  let t := s.dropWhile isWs
  match t with
  | [] => none
  | _ => some (t.takeWhile (!isWs ·), t.dropWhile (!isWs ·))

/-- `getline(is, tempStr)`: what remains after the current line. -/
def restOfLine (s : Text) : Text := (s.dropWhile (· ≠ '\n')).drop 1

/-- The maps of names to values (eoParser.h:337-341). -/
structure Maps where
  long : List (Text × Text)
  short : List (Char × Text)
  deriving DecidableEq, Repr

/-- `map[k] = v`. -/
def put {K : Type} [DecidableEq K] (m : List (K × Text)) (k : K) (v : Text) : List (K × Text) :=
  (k, v) :: m.filter fun x => x.1 ≠ k

/-- `map.find(k)`. -/
def get {K : Type} [DecidableEq K] (m : List (K × Text)) (k : K) : Option Text :=
  (m.find? fun x => x.1 = k).map (·.2)

/-- A word that starts with two dashes (eoParser.cpp:234-250). -/
def longOption (w : Text) : Text × Text :=
  let body := w.drop 2
  (body.takeWhile (· ≠ '='), (body.dropWhile (· ≠ '=')).drop 1)

/-- The value of a word that starts with one dash and has at least two characters (251-269);
`str[2]` of a word of two characters is the null character. -/
def shortValue (w : Text) : Text :=
  match w.drop 2 with
  | [] => []
  | c :: r => if c = '=' then r else c :: r

/-- `str.find("\\section{") == 0` (215). -/
def isSectionWord (w : Text) : Bool := "\\section{".toList.isPrefixOf w

/-- `str.find(p) < str.size()`. -/
def contains (p : Text) : Text → Bool
  | [] => false
  | c :: s => p.isPrefixOf (c :: s) || contains p s

/-- How reading ends: `missing` is the early return with `needHelp` set (227-232). -/
inductive ROut where
  | ok (m : Maps)
  | missing (m : Maps)
  | unfinished
  deriving DecidableEq, Repr

/-- The loop of `readFrom` (213-272). -/
def readLoop : Nat → Bool → Text → Maps → ROut
  | 0, _, _, _ => .unfinished
  | fuel + 1, processing, s, m =>
    match token s with
    | none => .ok m
    | some (w, r) =>
      let processing := if isSectionWord w then contains "Parser".toList w else processing
      if processing then
        match w with
        | '#' :: _ => readLoop fuel processing (restOfLine r) m
        | ['-'] => .missing m
        | '-' :: '-' :: _ =>
          readLoop fuel processing r { m with long := put m.long (longOption w).1 (longOption w).2 }
        | '-' :: c :: _ => readLoop fuel processing r { m with short := put m.short c (shortValue w) }
        | _ => readLoop fuel processing r m
      else readLoop fuel processing r m

/-- `readFrom` (208-275), the maps only. -/
def readFrom (s : Text) (m : Maps) : ROut := readLoop (s.length + 1) true s m

/-- The text the constructor makes of the arguments (108-112). -/
def argText (args : List Text) : Text := args.flatMap (· ++ ['\n'])

/-- The first argument that starts with `@`, without it (89-106). -/
def paramFile (args : List Text) : Option Text :=
  args.findSome? fun a => match a with
    | '@' :: f => some f
    | _ => none

/-- The constructor (79-116): first the parameter file (`file` opens and reads it; `none` is the
exception of line 100), then the arguments.  After `missing` the maps read so far stay. -/
def construct (file : Text → Option Text) (args : List Text) : Option ROut :=
  match paramFile args with
  | none => some (readFrom (argText args) ⟨[], []⟩)
  | some f =>
    match file f with
    | none => none
    | some t =>
      match readFrom t ⟨[], []⟩ with
      | .ok m => some (readFrom (argText args) m)
      | .missing m => some (readFrom (argText args) m)
      | .unfinished => some .unfinished

/-- A parameter (eoParam.h). The short name 0 means none. -/
structure Prm where
  long : Text
  short : Char
  required : Bool
  descr : Text
  value : Text
  deriving DecidableEq, Repr

/-- `eoParser::getValue` (173-196). -/
def Maps.getValue (m : Maps) (p : Prm) : Option Text :=
  if p.short.toNat ≠ 0 then
    match get m.short p.short with
    | some v => some v
    | none => get m.long p.long
  else get m.long p.long

/-- `isItThere` (eoParser.h:164-167). -/
def Maps.isThere (m : Maps) (p : Prm) : Bool := (m.getValue p).isSome

/-- `userNeedsHelp` (374-438): `help`, `missing` (a required parameter was absent when registered), and
with `stop` the names that belong to no parameter. -/
def Maps.needsHelp (m : Maps) (params : List Prm) (stop help missingMsg : Bool) : Bool :=
  help || missingMsg ||
    (stop && (m.long.any (fun x => params.all fun p => decide (p.long ≠ x.1)) ||
      m.short.any (fun x => params.all fun p => decide (p.short ≠ x.1))))

/-- One parameter printed by `printOn` (297-317): `std::setw(40)` pads, it does not cut. -/
def printParam (m : Maps) (p : Prm) : Text :=
  let str := "--".toList ++ p.long ++ ['='] ++ p.value
  (if m.isThere p then [] else "# ".toList) ++ str ++ List.replicate (40 - str.length) ' ' ++
    " # ".toList ++ (if p.short.toNat ≠ 0 then ['-', p.short] ++ " : ".toList else []) ++ p.descr ++
    (if p.required then " REQUIRED ".toList else []) ++ ['\n']

/-- `printSectionHeader` (47-69): a newline, `### `, the name and a blank padded with `#` to 80. -/
def printHeader (upper : Text → Text) (sec : Text) : Text :=
  let s := upper (if sec = [] then "General".toList else sec) ++ [' ']
  ['\n'] ++ "### ".toList ++ s ++ List.replicate (80 - s.length) '#' ++ ['\n']

/-- `printOn` (277-319): sections with their parameters. -/
def printOn (upper : Text → Text) (m : Maps) (secs : List (Text × List Prm)) : Text :=
  secs.flatMap fun x => printHeader upper x.1 ++ x.2.flatMap (printParam m)

/-! ### Values: `std::vector<double>` (here with natural numbers) -/

/-- `is >> number` for an unsigned decimal number on a stream that has not failed: value and rest; `none`:
the stream fails. -/
def readNat (s : Text) : Option (Nat × Text) :=
  let t := s.dropWhile isWs
  let d := t.takeWhile (·.isDigit)
  match d with
  | [] => none
  | _ => some (d.foldl (fun a c => 10 * a + (c.toNat - 48)) 0, t.drop d.length)

/-- The loop 353-355: read characters while they are delimiters; the rest after the last character read.
`none`: the stream fails (the character tested then is not initialised; that it may happen to be a delimiter
and keep the loop going on a stream that failed before its end is not modelled). -/
def skipDelims : Nat → Text → Option Text
  | 0, _ => none
  | fuel + 1, s =>
    match s.dropWhile isWs with
    | [] => none
    | c :: r => if c = ',' ∨ c = ';' then skipDelims fuel r else some r

/-- The loop 351-357 over the elements that are left; `old` are their values after `resize` (kept when
the stream has failed; a failing number read on characters that are no digits gives 0). -/
def readElems : Option Text → List Nat → List Nat
  | _, [] => []
  | none, old => old
  | some s, o :: old =>
    match skipDelims (s.length + 1) s with
    | none => o :: readElems none old
    | some r =>
      match readNat r with
      | some (v, r') => v :: readElems (some r') old
      | none => (if r.dropWhile isWs = [] then o else 0) :: readElems none old

/-- `eoValueParam<std::vector<double>>::setValue` (344-358) on a parameter holding `old`.
`none`: the size is not initialised (no word in the text). -/
def setVector (s : Text) (old : List Nat) : Option (List Nat) :=
  match readNat s with
  | none => if s.dropWhile isWs = [] then none else some []
  | some (sz, r) => some (readElems (some r) ((old ++ List.replicate sz 0).take sz))

/-- `eoValueParam<std::vector<double>>::getValue` (334-340): the size and the elements, a blank after each. -/
def getVector (digits : Nat → Text) (v : List Nat) : Text :=
  digits v.length ++ [' '] ++ v.flatMap fun x => digits x ++ [' ']

/-! ### Values: keyword with arguments -/

/-- The characters of `delim` (485). -/
def isDelim (c : Char) : Bool := c == ' ' || c == '(' || c == ')' || c == ','

/-- The loop 486-493. `t.substr(pos, posEnd)` takes `posEnd` characters; without a delimiter `posEnd` is
`npos` and `posEnd + 1` is 0. -/
def argLoop : Nat → Text → List Text → Option (List Text)
  | 0, _, _ => none
  | fuel + 1, t, acc =>
    let pos := (t.takeWhile isDelim).length
    if pos < t.length then
      let u := t.drop pos
      let tok := u.takeWhile (!isDelim ·)
      if tok.length < u.length then
        let posEnd := pos + tok.length
        argLoop fuel (t.drop (posEnd + 1)) (acc ++ [u.take posEnd])
      else argLoop fuel t (acc ++ [u])
    else some acc

/-- `eoParamParamType::readFrom(std::string&)` (470-494): keyword and arguments. `none`: not finished. -/
def readPPT (fuel : Nat) (s : Text) : Option (Text × List Text) :=
  if '(' ∈ s then
    (argLoop fuel ((s.dropWhile (· ≠ '(')).drop 1) []).map fun l => (s.takeWhile (· ≠ '('), l)
  else some (s, [])

/-- `eoParamParamType::printOn` (441-460). -/
def printPPT (x : Text × List Text) : Text :=
  match x.2 with
  | [] => x.1
  | l => x.1 ++ ['('] ++ [','].intercalate l ++ [')']

end Paradiseo.Param
