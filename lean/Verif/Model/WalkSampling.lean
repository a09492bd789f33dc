import Verif.Model.Sampling
import Verif.Model.LSParts
import Verif.Model.EOReplacement

/-
Model of what samplings record: mo/src/continuator/moVectorMonitor.h, the table of mo/src/sampling/moSampling.h 149-191,
mo/src/sampling/moAdaptiveWalkSampling.h, moHillClimberSampling.h (with perturb/moLocalSearchInit.h,
continuator/moStatFromStat.h, moValueStat.h, eval/moEvalCounter.h), and continuator/moNeighborhoodStat.h for a fitness
that is minimised and for solutions without neighbours.

Numbers are rational; that `unsigned long` is rounded to `double` is left out.
-/
namespace Paradiseo.LS

open Paradiseo.EO (Err)

/-! ### moVectorMonitor -/

/-- The type of the parameter a monitor is made for (moVectorMonitor.h 56-132), as overload resolution distinguishes
them. -/
inductive PType where
  | double | unsignedInt | unsignedLong | longLong
  | solution
  | scalarLongLong   -- eoScalarFitness<long long int, Compare>
  | scalarDouble     -- eoScalarFitness<double, Compare>
  | scalarOther      -- eoScalarFitness of another scalar type
  | other            -- any other type
  deriving DecidableEq

/-- What a parameter holds at the moment of a call. -/
inductive PVal (S : Type) where
  | num (q : ℚ)
  | sol (s : S)
  deriving DecidableEq

/-- `valueVec` and `eotVec`. -/
structure VecMon (S : Type) where
  vals : List ℚ
  sols : List S
  deriving DecidableEq

/-- operator() (moVectorMonitor.h 148-163). A fitness of another scalar type than `double` and `long long` is read as if
it were a `double` (118); for the remaining types all pointers are null (129-132). -/
def VecMon.record {S : Type} (ty : PType) (v : PVal S) (m : VecMon S) : Except Err (VecMon S) :=
  match ty, v with
  | .solution, .sol s => .ok { m with sols := m.sols ++ [s] }
  | .double, .num q | .unsignedInt, .num q | .unsignedLong, .num q | .longLong, .num q
  | .scalarLongLong, .num q | .scalarDouble, .num q => .ok { m with vals := m.vals ++ [q] }
  | _, _ => .error .ub

/-- A value of the type. -/
def PType.Holds {S : Type} : PType → PVal S → Prop
  | .solution, .sol _ => True
  | .solution, .num _ => False
  | .other, _ => True
  | _, .num _ => True
  | _, .sol _ => False

/-- Calls of a monitor, one after the other. -/
def VecMon.recordAll {S : Type} (ty : PType) : List (PVal S) → VecMon S → Except Err (VecMon S)
  | [], m => .ok m
  | v :: vs, m =>
    match m.record ty v with
    | .error e => .error e
    | .ok m' => m'.recordAll ty vs

/-- getValue (moVectorMonitor.h 187-199), not yet as a text. -/
def VecMon.value {S : Type} (ty : PType) (m : VecMon S) (i : Nat) : Except Err (PVal S) :=
  if ty = .solution then
    match m.sols[i]? with
    | some s => .ok (.sol s)
    | none => .error .ub
  else
    match m.vals[i]? with
    | some q => .ok (.num q)
    | none => .error .ub

/-- size (moVectorMonitor.h 234-239). -/
def VecMon.size {S : Type} (ty : PType) (m : VecMon S) : Nat :=
  if ty = .solution then m.sols.length else m.vals.length

/-! ### The table of a sampling -/

/-- Row `i` of the file (moSampling.h 182-186): the values of all monitors. -/
def exportRow {S : Type} (cols : List (PType × VecMon S)) (i : Nat) : Except Err (List (PVal S)) :=
  cols.mapM fun p => p.2.value p.1 i

/-- fileExport (moSampling.h 149-191): the rows; their number is the size of the first monitor. -/
def exportRows {S : Type} : List (PType × VecMon S) → Except Err (List (List (PVal S)))
  | [] => .error .ub
  | p :: cols => (List.range (p.2.size p.1)).mapM (exportRow (p :: cols))

/-- The file: the header (moSampling.h 168-176) and the rows, with the names of the columns; `append` is `_openFile`,
`old` the contents before. -/
structure Table (S : Type) where
  lines : List (List String ⊕ List (PVal S))

def fileExport {S : Type} (old : Table S) (append header : Bool) (names : List String)
    (cols : List (PType × VecMon S)) : Except Err (Table S) :=
  match exportRows cols with
  | .error e => .error e
  | .ok rows =>
    .ok ⟨(if append then old.lines else []) ++ (if !append && header then [.inl names] else []) ++ rows.map .inr⟩

/-! ### Samplings of walks -/

/-- Number of neighbours a first-improvement step evaluates (explorer/moFirstImprHCexplorer.h 106-131). -/
def firstLooked {M F : Type} [LinearOrder F] (fx : F) : List (Cand M F) → Nat
  | [] => 0
  | [_] => 1
  | c :: d :: l => if fx < c.fit then 1 else firstLooked fx (d :: l) + 1

/-- What is known after a climb: where it ended, the value of the length statistic and the counter of evaluations of
neighbours. -/
structure Walk (S F : Type) where
  res : S × F
  length : Nat
  counter : Nat

/-- moLocalSearchInit (perturb/moLocalSearchInit.h 56-59) with the climber of moAdaptiveWalkSampling (81-110): its
checkpoint has moMinusOneCounterStat; neighbours are evaluated through moEvalCounter (eval/moEvalCounter.h 56-59).
`x`, `fit` are what the initialiser gives, `c` the counter before. -/
def walk {S M F : Type} [LinearOrder F] (f : S → F) (nb : Nat → S × F → List (Cand M F)) (app : M → S → S)
    (fuel : Nat) (c : Nat) (x : S) (fit : Option F) (e : HC M F) : Option (Walk S F) :=
  (localSearch f (firstHC false nb app) (fun (_ : Unit) _ => (true, ())) (fun _ => ()) fuel x fit e).map fun r =>
    ⟨r.1, (minusOne r.2.1.length).2,
      c + ((((x, fit.getD (f x)) :: r.2.1.map (·.1)).dropLast.zipIdx).map fun p => firstLooked p.1.2 (nb p.2 p.1)).sum⟩

/-- moValueStat (continuator/moValueStat.h 63-78) of the counter at the end of a walk, `c` being its value at `init`. -/
def valueStat (restart : Bool) (c now : Nat) : Nat := now - (if restart then c else 0)

/-- What the monitors of the sampling can hold. -/
inductive Rec (S F : Type) where
  | num (n : Nat)
  | sol (s : S × F)

/-- moAdaptiveWalkSampling (81-110): random search whose initialiser is a climb; recorded are the length of the climb, the
number of evaluations of neighbours in it (`restart` is true, 88) and the solution. `walks k`: the climb number `k`,
`start k`: the counter at its `init`. -/
def walkSampling {S F : Type} (nbWalks fuel : Nat) (walks : Nat → Walk S F) (start : Nat → Nat) :
    Option (List (List (Rec S F))) :=
  sampling (fun k => (walks k).res.2) (randomSearch (searchSteps nbWalks) (fun t => (t + 1, (walks (t + 1)).res.2)))
    [fun s => .num (walks s.1).length, fun s => .num (valueStat true (start s.1) (walks s.1).counter),
     fun s => .sol (walks s.1).res]
    (fun (_ : Unit) _ => (true, ())) (fun _ => ()) fuel 0 (some (walks 0).res.2) 0

/-! ### Statistics on the neighbourhood -/

/-- moNeighborhoodStat (93-190) as in `nbStat`, with the order of the fitness (`lt a b`: `b` is better): comparisons of
solutions go by it, the quartiles by the numbers. -/
def statFirstBy (lt : ℚ → ℚ → Bool) (fx c : ℚ) : NbStat :=
  let z : NbStat := ⟨1, 0, 0, 0, c, c, c, [c]⟩
  if fx = c then { z with nbEqual := 1 }
  else if lt fx c then { z with nbSup := 1 } else { z with nbInf := 1 }

def statStepBy (lt : ℚ → ℚ → Bool) (fx : ℚ) (s : NbStat) (c : ℚ) : NbStat :=
  let s1 := { s with mean := s.mean + c, fits := s.fits ++ [c], nb := s.nb + 1 }
  let s2 := if fx = c then { s1 with nbEqual := s1.nbEqual + 1 }
    else if lt fx c then { s1 with nbSup := s1.nbSup + 1 } else { s1 with nbInf := s1.nbInf + 1 }
  { s2 with best := if lt s.best c then c else s.best
            lowest := if lt c s.lowest then c else s.lowest }

def nbStatBy (lt : ℚ → ℚ → Bool) (sort : List ℚ → List ℚ) (fx c : ℚ) (l : List ℚ) : NbReport :=
  let s := l.foldl (statStepBy lt fx) (statFirstBy lt fx c)
  let mean := s.mean / s.nb
  if s.nb > 1 then
    let v := sort s.fits
    { min := s.lowest, max := s.best, mean := mean
      variance := (s.fits.map fun x => (x - mean) * (x - mean)).sum / (s.nb - 1)
      q1 := v.getD (s.nb / 4) 0, q2 := v.getD (s.nb / 2) 0, q3 := v.getD (3 * s.nb / 4) 0
      nb := s.nb, nbInf := s.nbInf, nbEqual := s.nbEqual, nbSup := s.nbSup }
  else
    { min := s.lowest, max := s.best, mean := mean, variance := 0
      q1 := s.best, q2 := s.best, q3 := s.best
      nb := s.nb, nbInf := s.nbInf, nbEqual := s.nbEqual, nbSup := s.nbSup }

/-- A call on a solution whose fitness and whose neighbours' fitness values are given (moNeighborhoodStat.h 101-190):
`value()` and the members; `none`: never set. -/
def nbStatCall (lt : ℚ → ℚ → Bool) (sort : List ℚ → List ℚ) (prev : Option NbReport) (fx : ℚ) :
    List ℚ → Bool × Option NbReport
  | [] => (false, prev)
  | c :: l => (true, some (nbStatBy lt sort fx c l))

/-- A statistic that shows a member after every call (moNeutralDegreeNeighborStat.h 66-76 and the others): on a sequence
of solutions; a member that was never set is undefined. -/
def nbStatSeries {V : Type} (lt : ℚ → ℚ → Bool) (sort : List ℚ → List ℚ) (get : NbReport → V) :
    Option NbReport → List (ℚ × List ℚ) → List (Except Err V)
  | _, [] => []
  | prev, (fx, nb) :: rest =>
    let p := (nbStatCall lt sort prev fx nb).2
    (match p with
      | some r => .ok (get r)
      | none => .error .ub) :: nbStatSeries lt sort get p rest

end Paradiseo.LS
