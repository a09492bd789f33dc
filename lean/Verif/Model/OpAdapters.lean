/-
Adapters between kinds of operators (eo/src/eoOp.h), individuals and operators made of foreign types and functions
(eo/src/other/eoExternalEO.h, eoExternalOpFunctions.h) and the estimation of distribution algorithm of EO
(eo/src/eoSimpleEDA.h).

Operators may use random numbers (a state `σ`); a coin is a function of that state.
-/
import Verif.Model.Persist

namespace Paradiseo.OpAdapters

open Paradiseo.Persist

/-! ### Adapters -/

/-- An eoMonOp: the individual afterwards and whether it says that it changed it. -/
abbrev MonOp (X σ : Type) := X → σ → X × Bool × σ

/-- An eoBinOp: the first individual afterwards; the second is constant. -/
abbrev BinOp (X σ : Type) := X → X → σ → X × Bool × σ

/-- An eoQuadOp: both individuals afterwards. -/
abbrev QuadOp (X σ : Type) := X → X → σ → X × X × Bool × σ

section
variable {X σ : Type}

/-- eoQuad2BinOp (eoOp.h:172-181); `flip` is `eo::rng.flip(0.5)`. -/
def quad2bin (flip : σ → Bool × σ) (q : QuadOp X σ) : BinOp X σ := fun eo1 eo2 s =>
  let c := flip s
  if c.1 then
    let r := q eo1 eo2 c.2
    (r.1, r.2.2.1, r.2.2.2)
  else
    let r := q eo2 eo1 c.2
    (r.2.1, r.2.2.1, r.2.2.2)

/-- eoMon2QuadOp1 (eoOp.h:200-203). -/
def mon2quad1 (m : MonOp X σ) : QuadOp X σ := fun eo1 eo2 s =>
  let r := m eo1 s
  (r.1, eo2, r.2.1, r.2.2)

/-- eoMon2QuadOp2 (eoOp.h:222-225). -/
def mon2quad2 (m : MonOp X σ) : QuadOp X σ := fun eo1 eo2 s =>
  let r := m eo2 s
  (eo1, r.1, r.2.1, r.2.2)

end

/-! ### Foreign individuals -/

/-- eoExternalEO (eoExternalEO.h:40): the part EO and the foreign object. -/
structure Ext (F E : Type) where
  head : Head F
  ext : E
  deriving DecidableEq

section
variable {F E σ : Type}

/-- printOn (eoExternalEO.h:70-74). -/
def extPrint (ff : FitFmt F) (pe : E → Text) (x : Ext F E) : Text := eoPrint ff x.head ++ pe x.ext

/-- readFrom (eoExternalEO.h:60-64). -/
def extRead (ff : FitFmt F) (re : E → Str → Except EO.Err (E × Str)) (x : Ext F E) (s : Str) : Except EO.Err (Ext F E × Str) :=
  match eoRead ff x.head s with
  | .error e => .error e
  | .ok (h, s1) =>
    match re x.ext s1 with
    | .error e => .error e
    | .ok (a, s2) => .ok (⟨h, a⟩, s2)

/-- eoExternalInit (eoExternalOpFunctions.h:55-59). -/
def extInit (init : σ → E × σ) (x : Ext F E) (s : σ) : Ext F E × σ :=
  (⟨{ x.head with invalid := true }, (init s).1⟩, (init s).2)

/-- eoExternalEvalFunc (eoExternalOpFunctions.h:83-87). -/
def extEval (eval : E → F) (x : Ext F E) : Ext F E :=
  if x.head.invalid then ⟨⟨eval x.ext, false⟩, x.ext⟩ else x

/-- eoExternalMonOp (eoExternalOpFunctions.h:114-117). -/
def extMon (m : MonOp E σ) : MonOp (Ext F E) σ := fun x s =>
  let r := m x.ext s
  ({ x with ext := r.1 }, r.2.1, r.2.2)

/-- eoExternalBinOp (eoExternalOpFunctions.h:142-145). -/
def extBin (b : BinOp E σ) : BinOp (Ext F E) σ := fun x y s =>
  let r := b x.ext y.ext s
  ({ x with ext := r.1 }, r.2.1, r.2.2)

/-- eoExternalQuadOp (eoExternalOpFunctions.h:170-173). -/
def extQuad (q : QuadOp E σ) : QuadOp (Ext F E) σ := fun x y s =>
  let r := q x.ext y.ext s
  ({ x with ext := r.1 }, { y with ext := r.2.1 }, r.2.2.1, r.2.2.2)

/-- What the breeders do with an individual for which an operator has returned true (e.g. eoGenOp.h:96-99). -/
def invalidateIf (c : Bool) (x : Ext F E) : Ext F E :=
  if c then { x with head := { x.head with invalid := true } } else x

end

/-! ### The estimation of distribution algorithm -/

section
variable {X Δ σ κ : Type}

/-- `for i: _distrib(pop[i])` (eoPop.h:96-99, apply.h). -/
def drawAll (draw : Δ → X → σ → X × σ) (d : Δ) : List X → σ → List X × σ
  | [], s => ([], s)
  | x :: l, s => ((draw d x s).1 :: (drawAll draw d l (draw d x s).2).1, (drawAll draw d l (draw d x s).2).2)

/-- The parts of the algorithm: the distribution, the evaluation, the update and the continuator with its state. -/
structure Eda (X Δ σ κ : Type) where
  draw : Δ → X → σ → X × σ
  eval : X → X
  update : Δ → List X → Δ
  cont : κ → List X → Bool × κ

/-- The loop (eoSimpleEDA.h:74-91), at most `fuel` generations (`none`: goes on); the populations handed to the update are
noted. -/
def edaLoop (A : Eda X Δ σ κ) : Nat → Δ → List X → σ → κ → List (List X) → Option (Δ × σ × κ × List (List X))
  | 0, _, _, _, _, _ => none
  | n + 1, d, pop, s, k, seen =>
    let p := drawAll A.draw d pop s
    let pop1 := p.1.map A.eval
    let d1 := A.update d pop1
    let c := A.cont k pop1
    if c.1 then edaLoop A n d1 pop1 p.2 c.2 (seen ++ [pop1]) else some (d1, p.2, c.2, seen ++ [pop1])

/-- `operator()` (eoSimpleEDA.h:71-92); `dflt` is the default individual. -/
def simpleEda (A : Eda X Δ σ κ) (dflt : X) (popSize fuel : Nat) (d : Δ) (s : σ) (k : κ) :
    Option (Δ × σ × κ × List (List X)) :=
  let p := drawAll A.draw d (List.replicate popSize dflt) s
  edaLoop A fuel d p.1 p.2 k []

end

end Paradiseo.OpAdapters
