import Verif.Model.Param
import Verif.Model.State
import Verif.Model.EOReplacement
/-
Individuals and populations as text.

* eo/src/EO.h 130-162, eoVector.h 109-136, ga/eoBit.h 94-120, eoPop.h 342-365
* eo/src/es/eoEsSimple.h 52-62, eoEsStdev.h 49-64, eoEsFull.h 53-77
* eo/src/eoDualFitness.h 333-356, PO.h 149-178, eoVectorParticle.h 139-145, other/eoString.h 61-68
* eo/contrib/MGE/eoVirus.h 89-118, eo/contrib/eoAged.h 81-94
* moeo/src/core/MOEO.h 324-356, moeoVector.h 114-140, moeoBitVector.h 79-108, moeoRealObjectiveVector.h 166-188
* mo/src/problems/partition/moBinaryPartition.h 129-185
* eo/src/utils/eoHowMany.h 128-171

A stream is the text not yet read and whether it has failed.  How a value of a gene (a fitness, an objective) is
written and read is given by functions (`Fmt`, `FitFmt`); for sizes these are the decimal digits, without signs and
overflow.  Reading a variable to which a failed extraction has assigned nothing is `ub`; genes are of a built-in type.
Going back in a stream (`seekg`) is possible and exact.
-/
namespace Paradiseo.Persist

open Paradiseo.EO Paradiseo.Param

abbrev Text := List Char

def txt (s : String) : Text := s.toList

/-- An input stream: what is not yet read, and `!fail()`. -/
structure Str where
  rest : Text
  ok : Bool
  deriving DecidableEq

/-- A stream that reads a text. -/
def Str.of (t : Text) : Str := ⟨t, true⟩

def skipWs (s : Text) : Text := s.dropWhile isWs

/-- `is >> w` for an empty `std::string w`. -/
def getWord (s : Str) : Text × Str :=
  if s.ok then
    match skipWs s.rest with
    | [] => ([], ⟨[], false⟩)
    | c :: t => ((c :: t).takeWhile (fun d => !isWs d), ⟨(c :: t).dropWhile (fun d => !isWs d), true⟩)
  else ([], s)

/-- How values of a type are written (`operator<<`) and read (`operator>>`): `ext` gets the text from the first
character that is no blank; `none`: the extraction fails and stores `zero`. -/
structure Fmt (V : Type) where
  out : V → Text
  ext : Text → Option (V × Text)
  zero : V

/-- `is >> v`: what is stored in `v` (`none`: nothing, the stream had failed or is at its end) and the stream. -/
def get {V : Type} (f : Fmt V) (s : Str) : Option V × Str :=
  if s.ok then
    match skipWs s.rest with
    | [] => (none, ⟨[], false⟩)
    | c :: t =>
      match f.ext (c :: t) with
      | some (v, r) => (some v, ⟨r, true⟩)
      | none => (some f.zero, ⟨c :: t, false⟩)
  else (none, s)

/-- Sizes and other unsigned numbers in decimal. -/
def natFmt : Fmt Nat := ⟨State.showNat, readNat, 0⟩

/-! ### The fitness -/

/-- How a fitness is written and how `std::istringstream(word) >> fitness` changes it. -/
structure FitFmt (F : Type) where
  out : F → Text
  rd : Text → F → Except Err F

/-- The part `EO` of an individual (EO.h 167-168). -/
structure Head (F : Type) where
  rep : F
  invalid : Bool
  deriving DecidableEq

/-- `fitness()` (EO.h 79-83); `none`: throws. -/
def Head.fitness {F : Type} (h : Head F) : Option F := if h.invalid then none else some h.rep

/-- EO::printOn (EO.h 151-162). -/
def eoPrint {F : Type} (ff : FitFmt F) (h : Head F) : Text :=
  (if h.invalid then txt "INVALID" else ff.out h.rep) ++ [' ']

/-- EO::readFrom (EO.h 130-145). -/
def eoRead {F : Type} (ff : FitFmt F) (h : Head F) (s : Str) : Except Err (Head F × Str) :=
  let w := getWord s
  if w.1 = txt "INVALID" then .ok ({ h with invalid := true }, w.2)
  else
    match ff.rd w.1 h.rep with
    | .error e => .error e
    | .ok v => .ok (⟨v, false⟩, w.2)

/-! ### Vectors -/

/-- eoVector: fitness and genes. -/
structure Vec (F A : Type) where
  head : Head F
  genes : List A
  deriving DecidableEq

section
variable {F A : Type}

/-- `std::copy(..., ostream_iterator(os, " "))`. -/
def atomsPrint (fa : Fmt A) (l : List A) : Text := l.flatMap fun a => fa.out a ++ [' ']

/-- eoVector::printOn (eoVector.h 109-117). -/
def vecPrint (ff : FitFmt F) (fa : Fmt A) (x : Vec F A) : Text :=
  eoPrint ff x.head ++ [' '] ++ State.showNat x.genes.length ++ [' '] ++ atomsPrint fa x.genes

/-- The loop `AtomType atom; is >> atom; operator[](i) = atom` (eoVector.h 130-135). -/
def readAtoms (fa : Fmt A) : Nat → Str → Except Err (List A × Str)
  | 0, s => .ok ([], s)
  | n + 1, s =>
    match get fa s with
    | (none, _) => .error .ub
    | (some a, s1) =>
      match readAtoms fa n s1 with
      | .error e => .error e
      | .ok (l, s2) => .ok (a :: l, s2)

/-- `unsigned sz; is >> sz; resize(sz)` and the loop (eoVector.h 124-135). -/
def sizedRead (fa : Fmt A) (s : Str) : Except Err (List A × Str) :=
  match get natFmt s with
  | (none, _) => .error .ub
  | (some n, s1) => readAtoms fa n s1

/-- eoVector::readFrom (eoVector.h 120-136). -/
def vecRead (ff : FitFmt F) (fa : Fmt A) (x : Vec F A) (s : Str) : Except Err (Vec F A × Str) :=
  match eoRead ff x.head s with
  | .error e => .error e
  | .ok (h, s1) =>
    match sizedRead fa s1 with
    | .error e => .error e
    | .ok (l, s2) => .ok (⟨h, l⟩, s2)

/-! ### Bit strings -/

/-- Bits as characters (`ostream_iterator<bool>`). -/
def bitsOut (l : List Bool) : Text := l.map fun b => if b then '1' else '0'

def bitsIn (w : Text) : List Bool := w.map fun c => decide (c = '1')

/-- eoBit::printOn (eoBit.h 94-100). -/
def bitPrint (ff : FitFmt F) (x : Vec F Bool) : Text :=
  eoPrint ff x.head ++ [' '] ++ State.showNat x.genes.length ++ [' '] ++ bitsOut x.genes

/-- `unsigned s; is >> s; string bits; is >> bits; if (is) ...` (eoBit.h 109-119): the bits and the stream. -/
def bitsRead (old : List Bool) (s : Str) : List Bool × Str :=
  let w := getWord (get natFmt s).2
  (if w.2.ok then bitsIn w.1 else old, w.2)

/-- eoBit::readFrom (eoBit.h 106-120). -/
def bitRead (ff : FitFmt F) (x : Vec F Bool) (s : Str) : Except Err (Vec F Bool × Str) :=
  match eoRead ff x.head s with
  | .error e => .error e
  | .ok (h, s1) => .ok (⟨h, (bitsRead x.genes s1).1⟩, (bitsRead x.genes s1).2)

/-! ### Populations -/

/-- eoPop::printOn (eoPop.h 342-346). -/
def popPrint {X : Type} (pr : X → Text) (l : List X) : Text :=
  State.showNat l.length ++ ['\n'] ++ l.flatMap fun x => pr x ++ ['\n']

/-- The loop over the individuals (eoPop.h 362-364). -/
def readEach {X : Type} (rd : X → Str → Except Err (X × Str)) : List X → Str → Except Err (List X × Str)
  | [], s => .ok ([], s)
  | x :: l, s =>
    match rd x s with
    | .error e => .error e
    | .ok (y, s1) =>
      match readEach rd l s1 with
      | .error e => .error e
      | .ok (ys, s2) => .ok (y :: ys, s2)

/-- `resize`: new elements are `EOT()`. -/
def resize {X : Type} (dflt : X) (n : Nat) (l : List X) : List X := l.take n ++ List.replicate (n - l.length) dflt

/-- eoPop::readFrom (eoPop.h 355-365). -/
def popRead {X : Type} (rd : X → Str → Except Err (X × Str)) (dflt : X) (l : List X) (s : Str) :
    Except Err (List X × Str) :=
  match get natFmt s with
  | (none, _) => .error .ub
  | (some n, s1) => readEach rd (resize dflt n l) s1

/-! ### Individuals of evolution strategies -/

/-- `is >> v[i]` for all places of a vector: a failed extraction at the end leaves the old value. -/
def readInto (fa : Fmt A) : List A → Str → List A × Str
  | [], s => ([], s)
  | a :: l, s =>
    let r := get fa s
    let q := readInto fa l r.2
    (r.1.getD a :: q.1, q.2)

/-- eoEsFull; eoEsStdev without correlations, eoEsSimple with one deviation. -/
structure Es (F A : Type) where
  vec : Vec F A
  stdevs : List A
  corr : List A
  deriving DecidableEq

/-- eoEsSimple::printOn (eoEsSimple.h 52-56). -/
def simplePrint (ff : FitFmt F) (fa : Fmt A) (x : Vec F A × A) : Text :=
  vecPrint ff fa x.1 ++ [' '] ++ fa.out x.2 ++ [' ']

/-- eoEsSimple::readFrom (eoEsSimple.h 58-62). -/
def simpleRead (ff : FitFmt F) (fa : Fmt A) (x : Vec F A × A) (s : Str) : Except Err ((Vec F A × A) × Str) :=
  match vecRead ff fa x.1 s with
  | .error e => .error e
  | .ok (v, s1) => .ok ((v, (get fa s1).1.getD x.2), (get fa s1).2)

/-- eoEsStdev::printOn (eoEsStdev.h 49-55). -/
def stdevPrint (ff : FitFmt F) (fa : Fmt A) (x : Es F A) : Text :=
  vecPrint ff fa x.vec ++ [' '] ++ atomsPrint fa x.stdevs ++ [' ']

/-- eoEsStdev::readFrom (eoEsStdev.h 57-64). -/
def stdevRead (ff : FitFmt F) (fa : Fmt A) (x : Es F A) (s : Str) : Except Err (Es F A × Str) :=
  match vecRead ff fa x.vec s with
  | .error e => .error e
  | .ok (v, s1) =>
    let q := readInto fa (resize fa.zero v.genes.length x.stdevs) s1
    .ok ({ x with vec := v, stdevs := q.1 }, q.2)

/-- eoEsFull::printOn (eoEsFull.h 53-61). -/
def fullPrint (ff : FitFmt F) (fa : Fmt A) (x : Es F A) : Text :=
  stdevPrint ff fa x ++ atomsPrint fa x.corr ++ [' ']

/-- eoEsFull::readFrom (eoEsFull.h 63-77). -/
def fullRead (ff : FitFmt F) (fa : Fmt A) (x : Es F A) (s : Str) : Except Err (Es F A × Str) :=
  match stdevRead ff fa x s with
  | .error e => .error e
  | .ok (y, s1) =>
    let n := y.vec.genes.length
    let q := readInto fa (resize fa.zero (n * (n - 1) / 2) x.corr) s1
    .ok ({ y with corr := q.1 }, q.2)

/-! ### Two-valued fitness -/

/-- eoDualFitness: value, feasible, and whether feasibility was set (eoDualFitness.h). -/
structure Dual (V : Type) where
  value : V
  feasible : Bool
  init : Bool
  deriving DecidableEq

/-- `operator<<` (eoDualFitness.h 333-341). -/
def dualOut {V : Type} (fv : Fmt V) (f : Dual V) : Text :=
  fv.out f.value ++ [' '] ++ (if f.init then (if f.feasible then ['1'] else ['0']) else ['?'])

/-- `operator>>` (eoDualFitness.h 345-356) from a stream of its own: value and feasibility must have been stored. -/
def dualRd {V : Type} (fv : Fmt V) (w : Text) (_ : Dual V) : Except Err (Dual V) :=
  match get fv (Str.of w) with
  | (none, _) => .error .ub
  | (some v, s) =>
    match get natFmt s with
    | (none, _) => .error .ub
    | (some b, _) => .ok ⟨v, b != 0, true⟩

def dualFmt {V : Type} (fv : Fmt V) : FitFmt (Dual V) := ⟨dualOut fv, dualRd fv⟩

/-! ### Representations that are not read as they are written -/

/-- eoVirus (eoVirus.h 123): an eoBit with a second vector of bits. -/
structure Virus (F : Type) where
  bits : Vec F Bool
  virus : List Bool
  deriving DecidableEq

/-- eoVirus::printOn (eoVirus.h 89-96): the end of line between the parts goes to the standard output.
`cout`: whether that is the stream printed on. -/
def virusPrint (ff : FitFmt F) (cout : Bool) (x : Virus F) : Text :=
  bitPrint ff x.bits ++ (if cout then ['\n'] else []) ++ bitsOut x.virus

/-- eoVirus::readFrom (eoVirus.h 102-118). -/
def virusRead (ff : FitFmt F) (x : Virus F) (s : Str) : Except Err (Virus F × Str) :=
  match bitRead ff x.bits s with
  | .error e => .error e
  | .ok (b, s1) => .ok (⟨b, (bitsRead x.virus s1).1⟩, (bitsRead x.virus s1).2)

/-- eoAged::printOn (eoAged.h 91-94): nothing between the object and its age. -/
def agedPrint {X : Type} (pr : X → Text) (x : X × Nat) : Text := pr x.1 ++ State.showNat x.2

/-- eoAged::readFrom (eoAged.h 81-84). -/
def agedRead {X : Type} (rd : X → Str → Except Err (X × Str)) (x : X × Nat) (s : Str) :
    Except Err ((X × Nat) × Str) :=
  match rd x.1 s with
  | .error e => .error e
  | .ok (y, s1) => .ok ((y, (get natFmt s1).1.getD x.2), (get natFmt s1).2)

/-- eoString::printOn (eoString.h 61-68). -/
def stringPrint (ff : FitFmt F) (x : Vec F Char) : Text :=
  eoPrint ff x.head ++ [' '] ++ State.showNat x.genes.length ++ [' '] ++ x.genes ++ ['\n']

/-- eoString has no readFrom of its own: EO::readFrom is called. -/
def stringRead (ff : FitFmt F) (x : Vec F Char) (s : Str) : Except Err (Vec F Char × Str) :=
  match eoRead ff x.head s with
  | .error e => .error e
  | .ok (h, s1) => .ok (⟨h, x.genes⟩, s1)

/-- A particle: fitness, best fitness, positions and best positions (PO.h 181-185, eoVectorParticle.h 148). -/
structure Particle (F A : Type) where
  head : Head F
  best : Head F
  pos : List A
  bestPos : List A
  deriving DecidableEq

/-- PO::printOn (PO.h 149) and eoVectorParticle::printOn (139-145): always the best fitness; as many best positions as
there are. -/
def particlePrint (ff : Fmt F) (fa : Fmt A) (x : Particle F A) : Text :=
  ff.out x.best.rep ++ [' '] ++ [' '] ++ State.showNat x.pos.length ++ [' '] ++ atomsPrint fa x.bestPos

/-- PO::readFrom (PO.h 160-178); eoVectorParticle has none of its own. -/
def particleRead (ff : Fmt F) (x : Particle F A) (s : Str) : Particle F A × Str :=
  let w := getWord s
  if w.1 = txt "INVALID" then ({ x with head := { x.head with invalid := true } }, w.2)
  else
    let s0 : Str := if w.2.ok then s else w.2
    let r := get ff s0
    ({ x with head := ⟨r.1.getD x.head.rep, false⟩ }, r.2)

/-! ### Multi-objective individuals -/

/-- The part MOEO of an individual: objective vector, fitness and diversity (MOEO.h). -/
structure MHead (V : Type) where
  ov : List V
  invalid : Bool
  fit : Option V
  div : Option V
  deriving DecidableEq

/-- `objectiveVector()`; `none`: throws. -/
def MHead.objectives {V : Type} (h : MHead V) : Option (List V) := if h.invalid then none else some h.ov

/-- `operator<<` of moeoRealObjectiveVector (166-172); without objectives it indexes an empty vector. -/
def ovOut {V : Type} (fv : Fmt V) : List V → Text
  | [] => []
  | [v] => fv.out v
  | v :: l => fv.out v ++ [' '] ++ ovOut fv l

/-- MOEO::printOn (MOEO.h 324-334). -/
def moeoPrint {V : Type} (fv : Fmt V) (h : MHead V) : Text :=
  if h.invalid then txt "INVALID " else ovOut fv h.ov ++ [' ']

/-- MOEO::readFrom (MOEO.h 341-356) with `m` objectives. -/
def moeoRead {V : Type} (fv : Fmt V) (m : Nat) (h : MHead V) (s : Str) : MHead V × Str :=
  let w := getWord s
  if w.1 = txt "INVALID" then ({ h with invalid := true }, w.2)
  else
    let s0 : Str := if w.2.ok then s else w.2
    let r := readInto fv (List.replicate m fv.zero) s0
    ({ h with ov := r.1, invalid := false }, r.2)

/-- moeoVector (or moeoBitVector). -/
structure MVec (V A : Type) where
  head : MHead V
  genes : List A
  deriving DecidableEq

variable {V : Type}

/-- moeoVector::printOn (moeoVector.h 114-120). -/
def mvecPrint (fv : Fmt V) (fa : Fmt A) (x : MVec V A) : Text :=
  moeoPrint fv x.head ++ [' '] ++ State.showNat x.genes.length ++ [' '] ++ atomsPrint fa x.genes

/-- moeoVector::readFrom (moeoVector.h 127-140). -/
def mvecRead (fv : Fmt V) (fa : Fmt A) (m : Nat) (x : MVec V A) (s : Str) : Except Err (MVec V A × Str) :=
  let r := moeoRead fv m x.head s
  match sizedRead fa r.2 with
  | .error e => .error e
  | .ok (l, s2) => .ok (⟨r.1, l⟩, s2)

/-- moeoBitVector::printOn (moeoBitVector.h 79-85). -/
def mbitPrint (fv : Fmt V) (x : MVec V Bool) : Text :=
  moeoPrint fv x.head ++ [' '] ++ State.showNat x.genes.length ++ [' '] ++ bitsOut x.genes

/-- moeoBitVector::readFrom (moeoBitVector.h 92-108). -/
def mbitRead (fv : Fmt V) (m : Nat) (x : MVec V Bool) (s : Str) : Except Err (MVec V Bool × Str) :=
  let r := moeoRead fv m x.head s
  .ok (⟨r.1, (bitsRead x.genes r.2).1⟩, (bitsRead x.genes r.2).2)

/-! ### Partitions -/

/-- moBinaryPartition: the sets as lists without repetition. -/
structure Part (F A : Type) where
  head : Head F
  selected : List A
  rejected : List A
  deriving DecidableEq

/-- `std::set::insert`. -/
def insertNew [DecidableEq A] (l : List A) (a : A) : List A := if a ∈ l then l else l ++ [a]

/-- printOn (moBinaryPartition.h 129-136, 151-160): the rejected atoms are not written. -/
def partPrint (ff : FitFmt F) (fa : Fmt A) (x : Part F A) : Text :=
  eoPrint ff x.head ++ [' '] ++ State.showNat x.selected.length ++ [' ', ' '] ++ atomsPrint fa x.selected

/-- The second half of readFrom (moBinaryPartition.h 177-184): `size` keeps its value if nothing is stored. -/
def partRest [DecidableEq A] (fa : Fmt A) (h : Head F) (n : Nat) (sel rej : List A) (s : Str) :
    Except Err (Part F A × Str) :=
  if sel.length ≠ n then .error .asserted
  else
    let m := get natFmt s
    match readAtoms fa (m.1.getD n) m.2 with
    | .error e => .error e
    | .ok (l, s2) =>
      if (l.foldl insertNew rej).length ≠ m.1.getD n then .error .asserted
      else .ok (⟨h, sel, l.foldl insertNew rej⟩, s2)

/-- readFrom (moBinaryPartition.h 167-185). -/
def partRead [DecidableEq A] (ff : FitFmt F) (fa : Fmt A) (x : Part F A) (s : Str) : Except Err (Part F A × Str) :=
  match eoRead ff x.head s with
  | .error e => .error e
  | .ok (h, s1) =>
    match get natFmt s1 with
    | (none, _) => .error .ub
    | (some n, s2) =>
      match readAtoms fa n s2 with
      | .error e => .error e
      | .ok (l, s3) => partRest fa h n (l.foldl insertNew x.selected) x.rejected s3

end

/-! ### Numbers of individuals -/

/-- eoHowMany::printOn (eoHowMany.h 128-136); `shq` writes a rational number. -/
def howManyPrint (shq : ℚ → Text) (h : HowMany) : Text :=
  if h.count = 0 then shq (100 * h.rate) ++ txt "% " else shq h.count ++ [' ']

/-- eoHowMany::readFrom (eoHowMany.h 138-171); `rdq` reads a number from a text of its own; `int(rate)` truncates. -/
def howManyRead (rdq : Text → ℚ) (s : Str) : Except Err (HowMany × Str) :=
  let w := getWord s
  let v := w.1.takeWhile (fun c => decide (c ≠ '%'))
  if v.length < w.1.length then
    (if rdq v / 100 < 0 then .error .thrown else .ok (⟨rdq v / 100, 0⟩, w.2))
  else if rdq v < 0 then .error .thrown
  else .ok (⟨rdq v, ⌊rdq v⌋⟩, w.2)

end Paradiseo.Persist
