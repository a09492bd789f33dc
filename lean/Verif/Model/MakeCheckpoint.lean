import Verif.Model.Init
import Verif.Model.Persist
/-
Checkpoints made from the command line.

* eo/src/do/make_checkpoint.h 55-351 (do_make_checkpoint)
* eo/src/do/make_checkpoint_FDC.h 48-301, eo/src/do/make_checkpoint_assembled.h 58-210
* moeo/src/do/make_checkpoint_moeo.h 69-201
* eo/src/utils/make_help.cpp 81-113 (testDirRes)
* eo/src/utils/eoCheckPoint.h 95-143, eo/src/utils/eoSignal.h 74-92, eo/src/utils/eoUpdater.h, eoUpdater.cpp

A statistic is the value it computes from the population of a generation; a monitor is the list of what it prints.  How
a line is written is in `Model/Monitors.lean`; how a parameter is read is in `Model/Param.lean`.  Who owns the objects is
left out, and so are the windows of gnuplot: its monitor is the file it writes.
-/
namespace Paradiseo.MakeCheckpoint

open Paradiseo.EO Paradiseo.Persist

/-! ### The parts of a checkpoint -/

/-- What can be printed. -/
inductive Col where
  | gen
  | eval
  | time
  | best
  | average
  | second
  | pop
  | fits
  | fdc
  | avgTerm (i : Nat)
  | bestTerm (i : Nat)
  deriving DecidableEq

/-- Where a monitor writes. -/
inductive Dest where
  | screen
  | file
  | plot
  | histogram
  | scatter
  | termPlot (i : Nat)
  deriving DecidableEq

/-- An updater. -/
inductive Upd where
  /-- eoIncrementorParam, eoIncrementor on the counter of generations -/
  | count
  /-- eoTimeCounter -/
  | time
  /-- eoCountedStateSaver with its interval -/
  | save (interval : Nat)
  /-- eoTimedStateSaver with its interval -/
  | saveTime (interval : Nat)
  /-- moeoArchiveUpdater -/
  | archive
  /-- moeoArchiveObjectiveVectorSavingUpdater -/
  | storeArch
  /-- moeoBinaryMetricSavingUpdater with the contribution -/
  | contribution
  /-- the same with the entropy -/
  | entropy
  deriving DecidableEq

/-- An eoCheckPoint (eoCheckPoint.h 75-91); the continuators are in `Built`. -/
structure Chk where
  sorted : List Col
  stats : List Col
  updaters : List Upd
  monitors : List (Dest × List Col)

/-- `add` for the four kinds (eoCheckPoint.h 77-81). -/
def Chk.addSorted (c : Chk) (x : Col) : Chk := { c with sorted := c.sorted ++ [x] }
def Chk.addStat (c : Chk) (x : Col) : Chk := { c with stats := c.stats ++ [x] }
def Chk.addUpd (c : Chk) (x : Upd) : Chk := { c with updaters := c.updaters ++ [x] }
def Chk.addMon (c : Chk) (d : Dest) (cols : List Col) : Chk := { c with monitors := c.monitors ++ [(d, cols)] }

/-- What was made: the checkpoint, the eoSignal among its continuators if there is one, and whether testDirRes was
called. -/
structure Built where
  main : Chk
  sig : Option Chk
  dir : Bool

/-- Something added to the eoSignal, if there is one. -/
def Built.onSig (b : Built) (f : Chk → Chk) : Built := { b with sig := b.sig.map f }

/-- Something added to the checkpoint. -/
def Built.onMain (b : Built) (f : Chk → Chk) : Built := { b with main := f b.main }

/-- `if (! mon_ctrlC) checkpoint->add else mon_ctrlCCont->add` (make_checkpoint.h 209-212, 224-227). -/
def Built.onOne (b : Built) (f : Chk → Chk) : Built :=
  match b.sig with
  | none => b.onMain f
  | some _ => b.onSig f

/-- Conditional steps. -/
def when (p : Bool) (f : Built → Built) (b : Built) : Built := if p then f b else b

/-! ### make_checkpoint.h -/

/-- The parameters (make_checkpoint.h 69, 85-86, 125-127, 176, 191, 312, 332); `none`: not given.  `gnuplot`:
HAVE_GNUPLOT. -/
structure Opts where
  ctrlC : Bool
  useEval : Bool
  useTime : Bool
  printBest : Bool
  plotBest : Bool
  fileBest : Bool
  printPop : Bool
  plotHisto : Bool
  saveFrequency : Option Nat
  saveTime : Option Nat
  gnuplot : Bool

/-- The statistics (make_checkpoint.h 129-188): each is added to the checkpoint and to the eoSignal. -/
def addStats (o : Opts) (b : Built) : Built :=
  let both (x : Col) (b : Built) : Built := (b.onMain (·.addStat x)).onSig (·.addStat x)
  let b := when (o.printBest || o.plotBest || o.fileBest) (both .best) b
  let b := when (o.printBest || o.plotBest || o.fileBest) (both .average) b
  let b := when (o.printBest || o.fileBest) (both .second) b
  when o.printPop (fun b => (b.onMain (·.addSorted .pop)).onSig (·.addSorted .pop)) b

/-- `needOutMonitor` (make_checkpoint.h 198-199). -/
def Opts.out (o : Opts) : Bool := o.printBest || o.printPop

/-- Whether there is an eoTimeCounter (make_checkpoint.h 202, 219-222). -/
def Opts.timed (o : Opts) : Bool := o.out && o.useTime

/-- The monitor of the screen (make_checkpoint.h 202-239). -/
def addOut (o : Opts) (b : Built) : Built :=
  let cols := [Col.gen] ++ (if o.useEval then [.eval] else []) ++ (if o.useTime then [.time] else []) ++
    (if o.printBest then [.best, .second] else []) ++ (if o.printPop then [.pop] else [])
  when o.out (fun b => when o.useTime (·.onOne (·.addUpd .time)) (b.onOne (·.addMon .screen cols))) b

/-- The monitors that write files (make_checkpoint.h 242-305). -/
def addFiles (o : Opts) (b : Built) : Built :=
  let b := when (o.fileBest || o.plotBest || o.plotHisto) (fun b => { b with dir := true }) b
  let b := when o.fileBest (·.onMain (·.addMon .file
    ([.gen, .eval] ++ (if o.timed then [.time] else []) ++ [.best, .second]))) b
  let b := when (o.gnuplot && o.plotBest) (·.onMain (·.addMon .plot
    [if o.useEval then .eval else if o.timed then .time else .gen, .best, .average])) b
  when (o.gnuplot && o.plotHisto) (fun b => (b.onMain (·.addStat .fits)).onMain (·.addMon .histogram [.fits])) b

/-- The interval of the state saver (make_checkpoint.h 320): `UINT_MAX` instead of 0. -/
def saveInterval (f : Nat) : Nat := if 0 < f then f else 2 ^ 32 - 1

/-- The state savers (make_checkpoint.h 312-347). -/
def addSavers (saveFrequency saveTime : Option Nat) (b : Built) : Built :=
  let b := match saveFrequency with
    | none => b
    | some f => { b.onMain (·.addUpd (.save (saveInterval f))) with dir := true }
  match saveTime with
  | none => b
  | some t => if 0 < t then { b.onMain (·.addUpd (.saveTime t)) with dir := true } else b

/-- do_make_checkpoint (make_checkpoint.h 55-351). -/
def build (o : Opts) : Built :=
  let b : Built := ⟨⟨[], [], [], []⟩, if o.ctrlC then some ⟨[], [], [], []⟩ else none, false⟩
  let b := b.onMain (·.addUpd .count)
  addSavers o.saveFrequency o.saveTime (addFiles o (addOut o (addStats o b)))

/-! ### make_checkpoint_FDC.h, make_checkpoint_assembled.h -/

/-- The parameters of make_checkpoint_FDC.h. -/
structure FOpts where
  useEval : Bool
  printBest : Bool
  plotBest : Bool
  fileBest : Bool
  printPop : Bool
  printFDC : Bool
  plotFDC : Bool
  plotHisto : Bool
  saveFrequency : Option Nat
  saveTime : Option Nat

/-- do_make_checkpoint of make_checkpoint_FDC.h (48-301): the second moment is made only for the screen (122-130), but
given to the monitor of the file (216); that is a null pointer if it was not made. -/
def buildFDC (o : FOpts) : Except Err Built :=
  let b : Built := ⟨⟨[], [], [.count], []⟩, none, false⟩
  let b := when (o.printBest || o.plotBest || o.fileBest) (·.onMain (·.addStat .best)) b
  let b := when o.plotBest (·.onMain (·.addStat .average)) b
  let b := when o.printBest (·.onMain (·.addStat .second)) b
  let b := when o.printPop (·.onMain (·.addSorted .pop)) b
  let b := when (o.printFDC || o.plotFDC) (·.onMain (·.addStat .fdc)) b
  let b := when (o.printBest || o.printFDC || o.printPop) (·.onMain (·.addMon .screen
    ([Col.gen] ++ (if o.useEval then [.eval] else []) ++ (if o.printBest then [.best, .second] else []) ++
      (if o.printFDC then [.fdc] else []) ++ (if o.printPop then [.pop] else [])))) b
  let b := when (o.fileBest || o.plotBest || o.plotFDC || o.plotHisto) (fun b => { b with dir := true }) b
  if o.fileBest && !o.printBest then .error .ub
  else
    let b := when o.fileBest (·.onMain (·.addMon .file [.gen, .eval, .best, .second])) b
    let b := when o.plotBest (·.onMain (·.addMon .plot [if o.useEval then .eval else .gen, .best, .average])) b
    let b := when o.plotFDC (·.onMain (·.addMon .scatter [.fdc])) b
    let b := when o.plotHisto (fun b => (b.onMain (·.addStat .fits)).onMain (·.addMon .histogram [.fits])) b
    .ok (addSavers o.saveFrequency o.saveTime b)

/-- do_make_checkpoint_assembled (make_checkpoint_assembled.h 58-210): `n` terms; the first is read without a check
(140). -/
def buildAssembled (n : Nat) (plots printFile gnuplot : Bool) (saveFrequency : Option Nat) : Except Err Built :=
  if n = 0 then .error .ub
  else
    let b : Built := ⟨⟨[], (List.range n).map .avgTerm ++ (List.range n).map .bestTerm, [.count, .time],
      [(.screen, [.gen, .eval, .time, .bestTerm 0] ++ (List.range n).map .avgTerm)]⟩, none, true⟩
    let b := when plots (·.onMain (·.addStat .fits)) b
    let b := when (plots && gnuplot) (fun b => (List.range n).foldl
      (fun b k => b.onMain (·.addMon (.termPlot k) [.gen, .bestTerm k, .avgTerm k]))
      (b.onMain (·.addMon .histogram [.fits]))) b
    let b := when printFile (·.onMain (·.addMon .file
      ([.gen, .eval, .time] ++ (List.range n).flatMap fun i => [.bestTerm i, .avgTerm i]))) b
    .ok (addSavers saveFrequency none b)

/-! ### make_checkpoint_moeo.h -/

/-- The parameters of make_checkpoint_moeo.h. -/
structure MOpts where
  printPop : Bool
  saveFrequency : Option Nat
  saveTime : Option Nat
  updateArch : Bool
  storeArch : Bool
  contribution : Bool
  entropy : Bool

/-- do_make_checkpoint_moeo (make_checkpoint_moeo.h 69-201). -/
def buildMoeo (o : MOpts) : Built :=
  let b : Built := ⟨⟨[], [], [.count], []⟩, none, false⟩
  let b := when o.printPop (·.onMain (·.addSorted .pop)) b
  let b := addSavers o.saveFrequency o.saveTime b
  let b := when o.updateArch (·.onMain (·.addUpd .archive)) b
  let b := when o.storeArch (fun b => { b.onMain (·.addUpd .storeArch) with dir := true }) b
  let b := when o.contribution (fun b => { b.onMain (·.addUpd .contribution) with dir := true }) b
  when o.entropy (fun b => { b.onMain (·.addUpd .entropy) with dir := true }) b

/-! ### A run -/

/-- What a run meets: at generation `g` the value each statistic and the time counter compute and the number of
evaluations (`val`), the time in seconds (`clock`), whether a signal came since the last generation, the answer of the
continuator; and how numbers are printed and what parameters hold before they are first computed. -/
structure World (V : Type) where
  val : Col → Nat → V
  num : Nat → V
  init : Col → V
  clock : Nat → Int
  signal : Nat → Bool
  go : Nat → Bool

/-- The parameters, the counter of generations, the lines printed, the counter of the state saver and the numbers of its
files, the last time of the timed saver and its times, the archive events. -/
structure St (V : Type) where
  vals : Col → V
  gens : Nat
  out : List (Dest × List V)
  saver : Nat
  saves : List Nat
  last : Int
  timedSaves : List Int
  arch : List (Upd × Nat)

variable {V : Type}

/-- A statistic called at generation `g`. -/
def store (W : World V) (g : Nat) (s : St V) (x : Col) : St V :=
  { s with vals := fun y => if y = x then W.val x g else s.vals y }

/-- An updater called at generation `g`. -/
def Upd.call (W : World V) (g : Nat) (s : St V) : Upd → Except Err (St V)
  | .count => .ok { s with gens := (s.gens + 1) % 2 ^ 32 }
  | .time => .ok (store W g s .time)
  | .save i =>
    match Init.saverCall i s.saver with
    | .error e => .error e
    | .ok (w, c) => .ok { s with saver := c, saves := s.saves ++ w.toList }
  | .saveTime t =>
    .ok (if s.last + t ≤ W.clock g then { s with last := W.clock g, timedSaves := s.timedSaves ++ [W.clock g] } else s)
  | u => .ok { s with arch := s.arch ++ [(u, g)] }

/-- What a monitor prints of a parameter: the number of evaluations is read where it is counted. -/
def shown (W : World V) (g : Nat) (s : St V) : Col → V
  | .gen => W.num s.gens
  | .eval => W.val .eval g
  | x => s.vals x

/-- Updaters one after the other. -/
def updates (W : World V) (g : Nat) : List Upd → St V → Except Err (St V)
  | [], s => .ok s
  | u :: us, s =>
    match u.call W g s with
    | .error e => .error e
    | .ok s => updates W g us s

/-- eoCheckPoint::operator() up to the continuators (eoCheckPoint.h 97-117). -/
def Chk.call (W : World V) (g : Nat) (c : Chk) (s : St V) : Except Err (St V) :=
  match updates W g c.updaters (c.stats.foldl (store W g) (c.sorted.foldl (store W g) s)) with
  | .error e => .error e
  | .ok s => .ok { s with out := s.out ++ c.monitors.map fun m => (m.1, m.2.map (shown W g s)) }

/-- One generation: the checkpoint, then its continuators: the one given, and the eoSignal, which is a checkpoint of its
own with a continuator that always goes on (eoSignal.h 74-84, 96-101).  The answer of the checkpoint is the second. -/
def Built.gen (W : World V) (b : Built) (g : Nat) (s : St V) : Except Err (St V × Bool) :=
  match b.main.call W g s with
  | .error e => .error e
  | .ok s =>
    match b.sig with
    | none => .ok (s, W.go g)
    | some c =>
      if W.signal g then
        match c.call W g s with
        | .error e => .error e
        | .ok s => .ok (s, W.go g)
      else .ok (s, W.go g)

/-- `lastCall` (eoCheckPoint.h 124-141): only the state saver does something (eoUpdater.cpp 42-46). -/
def lastCall (us : List Upd) (s : St V) : St V :=
  us.foldl (fun s u => match u with
    | .save _ => { s with saves := s.saves ++ [s.saver] }
    | _ => s) s

/-- A run from generation `g` on: until the checkpoint answers no. -/
def Built.run (W : World V) (b : Built) : Nat → Nat → St V → Except Err (St V)
  | 0, _, _ => .error .fuel
  | n + 1, g, s =>
    match b.gen W g s with
    | .error e => .error e
    | .ok (s, true) => b.run W n (g + 1) s
    | .ok (s, false) => .ok (lastCall b.main.updaters s)

/-- Before the first generation; the savers were made at time `start`. -/
def St.new (W : World V) (start : Int) : St V := ⟨W.init, 0, [], 0, [], start, [], []⟩

/-! ### testDirRes -/

/-- An entry of a directory. -/
structure Entry where
  name : Text
  isDir : Bool
  deriving DecidableEq

/-- The directories, by name; `[]` is the root. -/
abbrev Disk := Text → Option (List Entry)

/-- The words of a command: only blanks separate; characters special to the shell are left out. -/
def words (s : Text) : List Text := (s.splitOn ' ').filter (· ≠ [])

/-- `test -d` and what follows: without a further word the text `-d` is tested, which is not empty; with more than one it
is an error.  Whether the status is 0. -/
def shellTest (d : Disk) (name : Text) : Bool :=
  match words name with
  | [] => true
  | [w] => (d w).isSome
  | _ => false

/-- `mkdir` with what follows: those that do not exist are made, if that is possible; the status is not looked at. -/
def shellMkdir (able : Text → Bool) (name : Text) (d : Disk) : Disk :=
  (words name).foldl (fun d w => fun v => if v = w ∧ d w = none ∧ able w then some [] else d v) d

/-- The entries `*` stands for. -/
def globbed (e : Entry) : Bool := e.name.head? ≠ some '.'

/-- `/bin/rm name/*`: of the entries of the directory of the last word, those that `*` stands for and are no
directories are removed.  Other words than the last, possibly names of files, are left out. -/
def shellRm (name : Text) (d : Disk) : Disk :=
  fun v => if some v = (name.splitOn ' ').getLast? then (d v).map (·.filter fun e => !globbed e || e.isDir) else d v

/-- testDirRes (make_help.cpp 81-113). -/
def testDirRes (able : Text → Bool) (name : Text) (erase : Bool) (d : Disk) : Except Err Disk :=
  if !shellTest d name then .ok (shellMkdir able name d)
  else if erase then .ok (shellRm name d)
  else .error .thrown

end Paradiseo.MakeCheckpoint
