import Verif.Model.PSO
import Verif.Model.Init
import Mathlib.Analysis.SpecialFunctions.Exp
import Mathlib.Analysis.SpecialFunctions.Sigmoid
import Mathlib.Algebra.Order.Round

/-!
# eo: integer, extended and binary particle swarms

Model of eo/src/eoIntegerVelocity.h, eoExtendedVelocity.h, eoVelocityInit.h and eoSigBinaryFlight.h, on top of
Model/PSO.
-/

namespace Paradiseo.Pso

open Paradiseo.EO (Err)

variable {F : Type} [LinearOrder F]

/-- `round`: to the nearest integer, halves away from zero. -/
def roundC (x : ℚ) : Int := if 0 ≤ x then ⌊x + 1 / 2⌋ else ⌈x - 1 / 2⌉

/-- The new velocity of a variable in eoIntegerVelocity (eoIntegerVelocity.h 151). -/
def integerRule (c1 r2 r3 v x pb lb : ℚ) : ℚ := roundC (c1 * v + r2 * (pb - x) + r3 * (lb - x))

/-- eoExtendedVelocity::operator() (eoExtendedVelocity.h 144-176); `gb` is `topology.globalBest()`. -/
def extendedVel (omega r1 r2 r3 : ℚ) (bnd : Nat → Bnd) (p lb gb : Part F) : Vec :=
  fun j => (bnd j).clamp (omega * p.vel j + r1 * (p.bestPos j - p.pos j) + r2 * (lb.pos j - p.pos j) +
    r3 * (gb.pos j - p.pos j))

/-- eoVelocityInitFixedLength::operator() (eoVelocityInit.h 89-94): `resize` of eoVectorParticle changes the three
vectors (eoVectorParticle.h 100-105); only the velocities are drawn, and the particle is not invalidated. -/
def velocityInitFixed {α : Type} (dflt : α) (combien : Nat) (gen : Nat → α) (pos vel bestPos : List α) :
    List α × List α × List α :=
  (Init.resize dflt combien pos, Init.generate gen combien 0, Init.resize dflt combien bestPos)

/-- `sigmoid` (eoSigBinaryFlight.h 60-64). -/
noncomputable def sigmoidFlight (slope : Nat) (v : ℝ) : ℝ := 1 / (1 + Real.exp (-v / slope))

/-- The number compared with the draw (eoSigBinaryFlight.h 60-64, 74-77): for the slope 0, dividing doubles by zero,
`exp` gets minus infinity, infinity or, for a velocity 0, not a number, with which every comparison is false. -/
noncomputable def flightProb (slope : Nat) (v : ℝ) : ℝ :=
  if slope = 0 then if 0 < v then 1 else 0 else sigmoidFlight slope v

/-- eoSigBinaryFlight::operator() (eoSigBinaryFlight.h 70-85); `u j` is the draw for variable `j`. -/
noncomputable def sigFlight (slope : Nat) (u : Nat → ℝ) (vel : List ℝ) (pos : List Bool) : Except Err (List Bool) :=
  if vel.length < pos.length then .error .ub
  else .ok ((List.range pos.length).map fun j => decide (u j < flightProb slope (vel.getD j 0)))

end Paradiseo.Pso
