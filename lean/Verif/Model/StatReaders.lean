import Mathlib.Data.List.Basic
/-
Statistics of a checkpoint that read another statistic: mo/src/continuator/moMinNeighborStat.h, moMaxNeighborStat.h,
moQ1NeighborStat.h, moQ3NeighborStat.h, moMedianNeighborStat.h, moAverageFitnessNeighborStat.h, moStdFitnessNeighborStat.h,
moSecondMomentNeighborStat.h, moQuartilesNeighborStat.h, moSizeNeighborStat.h, moNbSupNeighborStat.h, moNbInfNeighborStat.h,
moNeutralDegreeNeighborStat.h (each reads a moNeighborhoodStat) and moStatFromStat.h, in the checkpoint of
mo/src/continuator/moCheckpoint.h.
-/
namespace Paradiseo.LS

/-- A statistic of a checkpoint: one that computes its values from the solution (as moNeighborhoodStat.h:70-125 does, all its
members at once; solutions with at least one neighbour), or one that copies a value of the statistic number `k` (moMinNeighborStat.h:65-75 and the like: `init` and
`operator()` do the same and do not look at the solution). -/
inductive Stat (Sol V : Type) where
  | source (g : Sol → V)
  | reader (k : Nat) (h : V → V)

variable {Sol V : Type}

/-- One call of the statistic number `i`, on the values of all statistics (0 where there is none, which is not read). -/
def Stat.call (s : Stat Sol V) (sol : Sol) (i : Nat) (vals : Nat → V) : Nat → V :=
  match s with
  | .source g => fun j => if j = i then g sol else vals j
  | .reader k h => fun j => if j = i then h (vals k) else vals j

/-- The loop over the statistics in `init` (moCheckpoint.h:108-109), from the statistic number `i` on. -/
def initStats (sol : Sol) : Nat → List (Stat Sol V) → (Nat → V) → Nat → V
  | _, [], vals => vals
  | i, s :: l, vals => initStats sol (i + 1) l (s.call sol i vals)

/-- The loop over the statistics in `operator()` (moCheckpoint.h:138-142): the counter grows with every statistic. -/
def callStats (interval : Nat) (sol : Sol) : Nat → Nat → List (Stat Sol V) → (Nat → V) → Nat × (Nat → V)
  | _, counter, [], vals => (counter, vals)
  | i, counter, s :: l, vals =>
    callStats interval sol (i + 1) (counter + 1) l (if counter % interval = 0 then s.call sol i vals else vals)

/-- The values after `init` on the first solution and `operator()` on the others, and the counter. -/
def statsRun (interval : Nat) (stats : List (Stat Sol V)) (vals : Nat → V) (s0 : Sol) (sols : List Sol) : Nat × (Nat → V) :=
  sols.foldl (fun c s => callStats interval s 0 c.1 stats c.2) (1, initStats s0 0 stats vals)

end Paradiseo.LS
