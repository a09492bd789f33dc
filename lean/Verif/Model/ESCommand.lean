import Verif.Model.BoundText
import Verif.Model.Init
import Mathlib.Analysis.Real.Sqrt
/-
The evolution strategy that is made from the command line.

* eo/src/es/make_genotype_real.h 64-115, eo/src/es/eoEsChromInit.h 74-117
* eo/src/es/make_op_es.h 70-190, eo/src/es/eoEsMutationInit.h 57-111, eo/src/es/eoEsMutate.h 213-250
* eo/src/utils/eoParam.h 228-232, 344-358 (setValue), eo/src/utils/eoRealVectorBounds.h 228-345 (constructors, copies)

What the parser found is given (`Param.Maps`).  Numbers are rational; how the beginning of a text is read as a number is
an argument (`ext`), a text without a number gives zero.  Sizes are digits with an optional sign, taken modulo 2^32.
What the other make functions do in between is not modelled.
-/
namespace Paradiseo.ESCommand

open Paradiseo.EO Paradiseo.Persist Paradiseo.BoundText Paradiseo.Bounds

/-- The number at the beginning of a text, and the rest. -/
abbrev Ext := List Char → Option (ℚ × List Char)

/-- `is >> x` on a text with something in it. -/
def number (ext : Ext) (t : List Char) : ℚ :=
  match ext (skipWs t) with
  | none => 0
  | some v => v.1

/-- What the parser has for a parameter with these names. -/
def given (m : Param.Maps) (long : String) (short : Char) : Option (List Char) :=
  m.getValue ⟨txt long, short, false, [], []⟩

/-- eoValueParam<double>::setValue (eoParam.h 228-232): a blank text changes nothing. -/
def setNum (ext : Ext) (old : ℚ) (t : List Char) : ℚ :=
  match skipWs t with
  | [] => old
  | _ => number ext t

/-- eoValueParam<std::string>::setValue (eoParam.h 228-232). -/
def setWord (old t : List Char) : List Char :=
  match skipWs t with
  | [] => old
  | c :: u => (c :: u).takeWhile fun d => !Param.isWs d

/-- eoValueParam<unsigned>::setValue. -/
def setSize (old : Nat) (t : List Char) : Nat :=
  match skipWs t with
  | [] => old
  | _ => (rdInt t % 2 ^ 32).toNat

/-- The elements of a vector (eoParam.h 351-357), as `Param.readElems` but for rational numbers. -/
def elems (ext : Ext) : Option (List Char) → List ℚ → List ℚ
  | _, [] => []
  | none, old => old
  | some s, o :: old =>
    match Param.skipDelims (s.length + 1) s with
    | none => o :: elems ext none old
    | some r =>
      match skipWs r with
      | [] => o :: elems ext none old
      | u =>
        match ext u with
        | some (v, r') => v :: elems ext (some r') old
        | none => 0 :: elems ext none old

/-- eoValueParam<std::vector<double>>::setValue (eoParam.h 344-358); `ub`: the size is not initialised. -/
def setVec (ext : Ext) (s : List Char) (old : List ℚ) : Except Err (List ℚ) :=
  match Param.readNat s with
  | none => if skipWs s = [] then .error .ub else .ok []
  | some (sz, r) => .ok (elems ext (some r) ((old ++ List.replicate sz 0).take sz))

/-- A parameter with bounds: the constructor writes the default value (eoParam.h 172), then the text is read
(eoParam.h 228-232, eoRealBounds.cpp 65-71). -/
def boundsParam (ext : Ext) (sh : ℚ → List Char) (d : VB ℚ) (t : Option (List Char)) : Except Err (VB ℚ) :=
  match vbPrint sh d with
  | .error e => .error e
  | .ok _ =>
    match t with
    | none => .ok d
    | some t =>
      match vbReadStream (number ext) d.items.length (Str.of t) with
      | .error e => .error e
      | .ok x => .ok x.1

/-- An initialiser: the bounds, the deviations, and what the parameter `sigmaInit` holds afterwards. -/
structure EsInit where
  bounds : List (ℚ × ℚ)
  unique : ℚ
  vec : List ℚ
  sigmaText : List Char
  deriving DecidableEq

/-- The first deviation and the sizes (eoEsChromInit.h 112-117): `_vecSigma[0]`, then the assertions. -/
def ofVec (is : List (ℚ × ℚ)) (vec : List ℚ) (s : List Char) : Except Err EsInit :=
  match vec with
  | [] => .error .ub
  | v :: vs => if (v :: vs).length = is.length then .ok ⟨is, v, v :: vs, s⟩ else .error .asserted

/-- Lines 100-111 of make_genotype_real.h; the base class refuses bounds that are not bounded
(eoRealInitBounded.h 47-51). -/
def initOf (ext : Ext) (m : Param.Maps) (n : Nat) (bs : List (Bound ℚ)) (scale : Bool) (s : List Char) :
    Except Err EsInit :=
  if number ext s < 0 then .error .thrown
  else if scale then
    match Init.intervals bs with
    | none => .error .thrown
    | some is => .ok ⟨is, Init.uniqueSigma is (number ext s) true, Init.vecSigma is (number ext s) true, s⟩
  else
    match (match given m "vecSigmaInit" 'S' with
      | none => Except.ok (List.replicate n (number ext s))
      | some t => setVec ext t (List.replicate n (number ext s))) with
    | .error e => .error e
    | .ok vec =>
      match Init.intervals bs with
      | none => .error .thrown
      | some is => ofVec is vec s

/-- The number of variables (make_genotype_real.h 72-75). -/
def vecSize (m : Param.Maps) : Nat :=
  match given m "vecSize" 'n' with
  | none => 10
  | some t => setSize 10 t

/-- The text of the deviations (make_genotype_real.h 84-87). -/
def sigmaInit (m : Param.Maps) : List Char :=
  match given m "sigmaInit" 's' with
  | none => txt "0.3"
  | some t => setWord (txt "0.3") t

/-- do_make_genotype (make_genotype_real.h 64-115). -/
def makeGenotype (ext : Ext) (sh : ℚ → List Char) (m : Param.Maps) : Except Err EsInit :=
  match boundsParam ext sh ⟨List.replicate (vecSize m) (.interval (-1) 1), [vecSize m]⟩ (given m "initBounds" 'B') with
  | .error e => .error e
  | .ok b =>
    match skipWs ((sigmaInit m).takeWhile (· ≠ '%')) with
    | [] => .error .ub
    | _ => initOf ext m (vecSize m) b.items ((sigmaInit m).contains '%') ((sigmaInit m).takeWhile (· ≠ '%'))

/-- eoDoubleExchange, eoDoubleIntermediate, eoBinCloneOp. -/
inductive Atom where
  | exchange | intermediate | clone
  deriving DecidableEq

/-- eoEsGlobalXover, eoEsStandardXover. -/
inductive XKind where
  | global | standard
  deriving DecidableEq

/-- The operator that is made: recombination, mutation, and how often each is applied. -/
structure EsVar where
  bounds : VB ℚ
  cross : XKind
  obj : Atom
  stdev : Atom
  pCross : ℚ
  pMut : ℚ
  tauLoc : ℚ
  tauGlob : ℚ
  beta : ℚ
  deriving DecidableEq

/-- Lines 137-151 of make_op_es.h. -/
def atomOf (w : List Char) : Except Err Atom :=
  if w = txt "discrete" then .ok .exchange
  else if w = txt "intermediate" then .ok .intermediate
  else if w = txt "none" then .ok .clone
  else .error .thrown

/-- Lines 154-163 of make_op_es.h. -/
def kindOf (w : List Char) : Except Err XKind :=
  if w = txt "global" then .ok .global
  else if w = txt "standard" then .ok .standard
  else .error .thrown

/-- A number from the command line. -/
def numParam (ext : Ext) (m : Param.Maps) (long : String) (short : Char) (d : ℚ) : ℚ :=
  match given m long short with
  | none => d
  | some t => setNum ext d t

/-- A word from the command line. -/
def wordParam (m : Param.Maps) (long : String) (short : Char) (d : String) : List Char :=
  match given m long short with
  | none => txt d
  | some t => setWord (txt d) t

/-- Lines 115-189 of make_op_es.h. -/
def crossOf (ext : Ext) (m : Param.Maps) (b : VB ℚ) : Except Err EsVar :=
  match atomOf (wordParam m "crossObj" 'O' "discrete") with
  | .error e => .error e
  | .ok o =>
    match atomOf (wordParam m "crossStdev" 'S' "intermediate") with
    | .error e => .error e
    | .ok s =>
      match kindOf (wordParam m "crossType" 'C' "global") with
      | .error e => .error e
      | .ok k =>
        .ok ⟨b, k, o, s, numParam ext m "pCross" 'C' 1, numParam ext m "pMut" 'M' 1,
          numParam ext m "TauLoc" 'l' 1, numParam ext m "TauGlob" 'g' 1, numParam ext m "Beta" 'b' (873 / 10000)⟩

/-- do_make_op (make_op_es.h 70-190) for an initialiser of `n` variables. -/
def makeOp (ext : Ext) (sh : ℚ → List Char) (m : Param.Maps) (n : Nat) : Except Err EsVar :=
  match boundsParam ext sh ⟨List.replicate n .none, [n]⟩ (given m "objectBounds" 'B') with
  | .error e => .error e
  | .ok b =>
    if wordParam m "operator" 'o' "SGA" ≠ txt "SGA" then .error .thrown
    else if numParam ext m "pCross" 'C' 1 < 0 ∨ 1 < numParam ext m "pCross" 'C' 1 then .error .thrown
    else if numParam ext m "pMut" 'M' 1 < 0 ∨ 1 < numParam ext m "pMut" 'M' 1 then .error .thrown
    else crossOf ext m b

/-- The initialiser and the operator. -/
def make (ext : Ext) (sh : ℚ → List Char) (m : Param.Maps) : Except Err (EsInit × EsVar) :=
  match makeGenotype ext sh m with
  | .error e => .error e
  | .ok i =>
    match makeOp ext sh m i.bounds.length with
    | .error e => .error e
    | .ok v => .ok (i, v)

/-! ### The learning rates of the mutation -/

/-- `TauLcl /= sqrt(2*(double) size)` (eoEsMutate.h 216-222); `n`: the number of bounds. -/
noncomputable def tauSimple (tau : ℝ) (n : Nat) : ℝ := tau / √(2 * n)

/-- `TauLcl /= sqrt( 2.0 * sqrt(double(size)) )` (eoEsMutate.h 235). -/
noncomputable def tauLocal (tau : ℝ) (n : Nat) : ℝ := tau / √(2 * √(n : ℝ))

/-- `TauGlb /= sqrt( 2.0 * double(size) )` (eoEsMutate.h 236). -/
noncomputable def tauGlobal (tau : ℝ) (n : Nat) : ℝ := tau / √(2 * n)

/-! ### Copies of vector bounds -/

/-- The bounds objects that live: `none` is freed (or was never made). -/
abbrev Heap := Nat → Option (Bound ℚ)

/-- An eoRealVectorBounds: the pointers of the variables and the pointers it frees (eoRealVectorBounds.h 341-342). -/
structure PVB where
  items : List Nat
  factor : List Nat
  owned : List Nat
  deriving DecidableEq

/-- What is seen through the pointers; `ub`: one of them is freed. -/
def look (h : Heap) : List Nat → Except Err (List (Bound ℚ))
  | [] => .ok []
  | p :: ps =>
    match h p with
    | none => .error .ub
    | some b =>
      match look h ps with
      | .error e => .error e
      | .ok bs => .ok (b :: bs)

/-- Allocate the bounds from address `a` on. -/
def allocate (h : Heap) (a : Nat) (bs : List (Bound ℚ)) : Heap := fun p =>
  if a ≤ p ∧ p < a + bs.length then bs[p - a]? else h p

/-- The copy constructor (eoRealBounds.cpp 51-60): the pointers of the variables are copied, the owned bounds are
duplicated (from address `a` on). -/
def copy (h : Heap) (a : Nat) (x : PVB) : Except Err (Heap × PVB) :=
  match look h x.owned with
  | .error e => .error e
  | .ok bs => .ok (allocate h a bs, ⟨x.items, x.factor, (List.range bs.length).map (a + ·)⟩)

/-- `delete` of the owned bounds (eoRealBounds.cpp 78-83). -/
def free (h : Heap) (ps : List Nat) : Heap := fun p => if p ∈ ps then none else h p

/-- readFrom (eoRealBounds.cpp 73-167) for a text with these groups, no fewer variables than before; new bounds from
address `a` on. -/
def reread (h : Heap) (a : Nat) (gs : List (Nat × Bound ℚ)) (x : PVB) : Heap × PVB :=
  (allocate (free h x.owned) a (gs.map (·.2)),
    ⟨(gs.zipIdx.flatMap fun g => List.replicate g.1.1 (a + g.2)), gs.map (·.1), (List.range gs.length).map (a + ·)⟩)

end Paradiseo.ESCommand
