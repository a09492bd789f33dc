import Verif.Model.ILS

/-
Model of the searches as their constructors assemble them: mo/src/algo/moSA.h 63-123 and mo/src/algo/moTS.h 65-144
(the explorers are in LocalSearch.lean and LSParts.lean, the aspiration in ILS.lean).
-/
namespace Paradiseo.LS

/-- The schedule of `moSA(neighborhood, fullEval, eval, initT, alpha, span, finalT)` (moSA.h 63-67); the defaults of the
four numbers are 10, 0.9, 100 and 0.01. -/
noncomputable def saDefaultCool (initT : ℝ := 10) (alpha : ℝ := 9 / 10) (span : Nat := 100) (finalT : ℝ := 1 / 100) :
    Cooling Nat :=
  simpleCooling initT alpha finalT span

/-- The schedule of `moSA(neighborhood, fullEval, eval, cont)` (moSA.h 90-94): `defaultCool(0, 0, 0, 0)`. -/
noncomputable def saContinuatorCool : Cooling Nat := simpleCooling 0 0 0 0

/-- The tabu list of `moTS(neighborhood, fullEval, eval, time, size)` (moTS.h 65-75): a `moNeighborVectorTabuList` of
`size` neighbours without tenure; intensification and diversification do nothing, the aspiration is
`moBestImprAspiration`. `none`: remainder by zero. `eqv` is `Neighbor::equals`. -/
def tsMem {S M F : Type} [LinearOrder F] (eqv : M → M → Bool) (size : Nat) :
    Mem (S × F) (Cand M F) (Option (Ring M) × (S × F)) :=
  aspirMem (fun _ _ => some ⟨[], 0⟩)
    (fun _ c r => match c with
      | some c => r.bind fun r => ringApply size 0 r (.add c.mv)
      | none => r)
    (fun _ _ r => r.bind fun r => ringApply size 0 r .update)
    (fun r _ c => match r with
      | some r => ringCheck eqv 0 r c.mv
      | none => false)

/-- The explorer of `moTS(neighborhood, fullEval, eval, time, size)` (moTS.h 65-75). -/
def tsSize {S M F : Type} [LinearOrder F] (eqv : M → M → Bool) (size : Nat) (nb : Nat → S × F → List (Cand M F))
    (app : M → S → S) : Explorer (S × F) (TS (S × F) (Cand M F) (Option (Ring M) × (S × F))) :=
  tabuSearch (tsMem eqv size) nb app

end Paradiseo.LS
