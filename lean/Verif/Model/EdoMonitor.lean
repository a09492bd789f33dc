import Verif.Model.State
import Verif.Model.EOReplacement
/-
The checkpoint and the snapshots of the estimation-of-distribution algorithms: edo/src/utils/edoCheckPoint.h 50-95,
edo/src/utils/edoFileSnapshot.cpp 42-140.

The directory is the list of the names in it with their contents; calling the shell succeeds. That a file cannot be
opened is left out.
-/
namespace Paradiseo.EdoMonitor

open Paradiseo.EO Paradiseo.State

/-! ### edoCheckPoint -/

/-- What a checkpoint does, in order; the number is the place in the order of adding. -/
inductive Ev where
  | stat (i : Nat) | updater (i : Nat) | monitor (i : Nat) | cont (i : Nat)
  | lastStat (i : Nat) | lastUpdater (i : Nat) | lastMonitor (i : Nat)
  deriving DecidableEq

/-- A continuator: from its state and the distribution, the answer and the new state. -/
abbrev Cont (σ D : Type) := σ → D → Bool × σ

/-- The loop over the continuators (edoCheckPoint.h 67-74). -/
def conts {σ D : Type} (d : D) : Nat → Bool → List (Cont σ D × σ) → Bool × List (Cont σ D × σ) × List Ev
  | _, b, [] => (b, [], [])
  | i, b, (c, s) :: cs =>
    let (a, s') := c s d
    let (b', cs', ev) := conts d (i + 1) (if !a then false else b) cs
    (b', (c, s') :: cs', .cont i :: ev)

/-- operator() (edoCheckPoint.h 50-95); the numbers of statistics, updaters and monitors. -/
def checkpoint {σ D : Type} (stats updaters monitors : Nat) (cs : List (Cont σ D × σ)) (d : D) :
    Bool × List (Cont σ D × σ) × List Ev :=
  let (b, cs', evc) := conts d 0 true cs
  (b, cs',
    (List.range stats).map .stat ++ (List.range updaters).map .updater ++ (List.range monitors).map .monitor ++ evc ++
    if !b then
      (List.range stats).map .lastStat ++ (List.range updaters).map .lastUpdater ++ (List.range monitors).map .lastMonitor
    else [])

/-! ### edoFileSnapshot -/

/-- The arguments of the constructor that are kept (edoFileSnapshot.cpp 49-52); the directory is left out of the names. -/
structure Cfg where
  frequency : Nat := 1
  filename : Text := "gen".toList
  delim : Text := [' ']
  saveFilenames : Bool := true

/-- A directory: names with contents, the last one counts. -/
abbrev Dir := Text → Option Text

def listName : Text := "list_of_files.txt".toList

def Dir.write (d : Dir) (n c : Text) : Dir := fun x => if x = n then some c else d x

def Dir.append (d : Dir) (n c : Text) : Dir := fun x => if x = n then some ((d x).getD [] ++ c) else d x

/-- The constructor (edoFileSnapshot.cpp 54-84): `none` if the directory does not exist, which is then made. -/
def construct (c : Cfg) (rmFiles : Bool) : Option Dir → Dir
  | none => Dir.write (fun _ => none) listName []
  | some d => Dir.write (if rmFiles then fun x => if c.filename <+: x then none else d x else d) listName []

/-- operator()(std::ostream&) (edoFileSnapshot.cpp 126-140) on the values as texts. -/
def line (delim : Text) : List Text → Except Err Text
  | [] => .error .ub
  | v :: vs => .ok (v ++ (vs.map fun w => delim ++ w).flatten ++ ['\n'])

/-- operator() (edoFileSnapshot.cpp 98-124): the counter, an unsigned, and the directory. -/
def call (c : Cfg) (vals : List Text) (p : Nat × Dir) : Except Err (Nat × Dir) :=
  if c.frequency = 0 then .error .ub
  else
    let k := (p.1 + 1) % 2 ^ 32
    if p.1 % c.frequency ≠ 0 then .ok (k, p.2)
    else
      let name := c.filename ++ showNat k
      let d := p.2.write name []
      let d := if c.saveFilenames then d.append listName (name ++ ['\n']) else d
      match line c.delim vals with
      | .error e => .error e
      | .ok l => .ok (k, d.append name l)

/-- One call after the other. -/
def calls (c : Cfg) : List (List Text) → Nat × Dir → Except Err (Nat × Dir)
  | [], p => .ok p
  | v :: vs, p =>
    match call c v p with
    | .error e => .error e
    | .ok q => calls c vs q

end Paradiseo.EdoMonitor
