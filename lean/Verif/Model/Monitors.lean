import Verif.Model.EOReplacement
import Verif.Model.State
import Mathlib.Algebra.Field.Rat
import Mathlib.Algebra.Order.Field.Rat
/-
Monitors, timers, the logger and signals.

* eo/src/utils/eoFileMonitor.h 47-122, eoFileMonitor.cpp 17-89
* eo/src/utils/eoOStreamMonitor.h 44-82, eoOStreamMonitor.cpp 19-61
* eo/src/utils/eoFileSnapshot.h 54-189
* eo/src/utils/eoTimedMonitor.h 42-88, eo/src/utils/eoTimeCounter.h 41-73, eo/src/utils/eoTimer.h 45-155
* eo/src/utils/eoLogger.h, eoLogger.cpp
* eo/src/utils/eoSignal.h, eo/src/eoSIGContinue.h, eoSIGContinue.cpp
* mo/src/continuator/moCounterMonitorSaver.h 44-94, moValueParamContinuator.h 45-95, moBestFitnessStat.h 43-93
* moeo/src/utils/moeoBinaryMetricSavingUpdater.h 52-117, moeoArchiveObjectiveVectorSavingUpdater.h 52-118

A monitored parameter is its name and, at each call, the text of its value.  A file is its contents; that a file cannot be
opened (`eoFileError`) is left out, except for the logger.  `std::endl` is a newline.
-/
namespace Paradiseo.Monitors

open Paradiseo.EO Paradiseo.State

/-! ### eoFileMonitor -/

/-- The arguments of the constructor (eoFileMonitor.h 61-67). -/
structure FCfg where
  delim : Text
  keep : Bool
  header : Bool
  overwrite : Bool

/-- The file and `firstcall`. -/
structure FSt where
  file : Text
  firstcall : Bool

/-- The loops of printHeader and operator() (eoFileMonitor.cpp 19-30, 77-86): the first is read without a check. -/
def joined (delim : Text) : List Text → Except Err Text
  | [] => .error .ub
  | v :: vs => .ok (v ++ (vs.map fun w => delim ++ w).flatten ++ ['\n'])

/-- The constructor (eoFileMonitor.h 68-83). -/
def fileNew (c : FCfg) (existing : Text) : FSt := ⟨if c.keep then existing else [], true⟩

/-- operator() (eoFileMonitor.cpp 47-73); `names`, `values`: those of the parameters.  The header is written through a
second stream that empties the file. -/
def fileCall (c : FCfg) (names values : List Text) (s : FSt) : Except Err FSt :=
  let opened : FSt := if c.overwrite then ⟨[], s.firstcall⟩ else s
  let headed : Except Err FSt :=
    if c.header && s.firstcall && !c.keep && !c.overwrite then
      match joined c.delim names with
      | .error e => .error e
      | .ok h => .ok ⟨h, false⟩
    else .ok opened
  match headed with
  | .error e => .error e
  | .ok s =>
    match joined c.delim values with
    | .error e => .error e
    | .ok r => .ok ⟨s.file ++ r, s.firstcall⟩

/-- One call after the other. -/
def fileCalls (c : FCfg) (names : List Text) : List (List Text) → FSt → Except Err FSt
  | [], s => .ok s
  | v :: vs, s =>
    match fileCall c names v s with
    | .error e => .error e
    | .ok s => fileCalls c names vs s

/-! ### eoOStreamMonitor -/

/-- The arguments of the constructor (eoOStreamMonitor.h 59-63). -/
structure OCfg where
  delim : Text
  width : Nat
  fill : Char
  printNames : Bool
  nameSep : Text

/-- A stream: what was written, the width the next formatted output is padded to, and the fill character. -/
structure Stream where
  out : Text
  pending : Nat
  fill : Char

/-- Formatted output of a text, adjusted to the left: padded to the width, which is forgotten. -/
def Stream.put (s : Stream) (t : Text) : Stream :=
  ⟨s.out ++ (t ++ List.replicate (s.pending - t.length) s.fill), 0, s.fill⟩

/-- `std::endl`: unformatted, the width stays. -/
def Stream.endl (s : Stream) : Stream := { s with out := s.out ++ ['\n'] }

/-- `out << delim << std::left << std::setfill(fill) << std::setw(width)` (eoOStreamMonitor.cpp 32, 54). -/
def Stream.sep (c : OCfg) (s : Stream) : Stream := { s.put c.delim with pending := c.width, fill := c.fill }

/-- The loops over the parameters (30-33, 49-55): names alone, or values with names if asked for. -/
def Stream.names (c : OCfg) : List Text → Stream → Stream
  | [], s => s
  | n :: ns, s => Stream.names c ns ((s.put n).sep c)

def Stream.values (c : OCfg) : List (Text × Text) → Stream → Stream
  | [], s => s
  | (n, v) :: ps, s =>
    let s := if c.printNames then (s.put n).put c.nameSep else s
    Stream.values c ps ((s.put v).sep c)

/-- operator() (eoOStreamMonitor.cpp 19-61): `first` is `firsttime`. -/
def ostreamCall (c : OCfg) (ps : List (Text × Text)) (first : Bool) (s : Stream) : Stream :=
  let s := if first then (s.names c (ps.map (·.1))).endl else s
  (s.values c ps).endl

/-- One call after the other on a new stream. -/
def ostreamCalls (c : OCfg) : List (List (Text × Text)) → Bool → Stream → Stream
  | [], _, s => s
  | ps :: l, first, s => ostreamCalls c l false (ostreamCall c ps first s)

/-! ### eoFileSnapshot -/

/-- The loop over the vectors (eoFileSnapshot.h 147-155): every one but the first is read from the second parameter. -/
def snapColumns (v second : List Text) : Nat → Except Err (List (List Text))
  | 0 => .ok []
  | n + 1 => if second.length ≠ v.length then .error .thrown else
    match snapColumns v second n with
    | .error e => .error e
    | .ok l => .ok (second :: l)

/-- operator()(std::ostream&) (eoFileSnapshot.h 134-164): the lines; `vecs`: the vectors monitored, each value as text. -/
def snapLines (vecs : List (List Text)) : Except Err (List Text) :=
  match vecs with
  | [] => .error .ub
  | [v] => .ok ((List.range v.length).map fun k => showNat k ++ [' '] ++ (v.getD k []) ++ ['\n'])
  | v :: second :: rest =>
    match snapColumns v second (rest.length + 1) with
    | .error e => .error e
    | .ok cols => .ok ((List.range v.length).map fun k =>
        (((v :: cols).map fun c => c.getD k [] ++ [' ']).flatten) ++ ['\n'])

/-- operator() (eoFileSnapshot.h 110-130): the number in the name and the lines of the file that was written, if one was,
and the counter, an unsigned. -/
def snapCall (frequency counter : Nat) (vecs : List (List Text)) : Except Err (Option (Nat × List Text) × Nat) :=
  if frequency = 0 then .error .ub
  else if counter % frequency ≠ 0 then .ok (none, (counter + 1) % 2 ^ 32)
  else
    match snapLines vecs with
    | .error e => .error e
    | .ok l => .ok (some ((counter + 1) % 2 ^ 32, l), (counter + 1) % 2 ^ 32)

/-- One call after the other. -/
def snapCalls (frequency : Nat) : Nat → List (List (List Text)) → Except Err (List (Option (Nat × List Text)))
  | _, [] => .ok []
  | counter, v :: vs =>
    match snapCall frequency counter v with
    | .error e => .error e
    | .ok (w, c) =>
      match snapCalls frequency c vs with
      | .error e => .error e
      | .ok ws => .ok (w :: ws)

/-! ### Time -/

/-- eoTimedMonitor::operator() (eoTimedMonitor.h 53-73), with a clock in microseconds: `t0`, `t1`, `t2` are the readings
in the order of the code.  Whether the monitors are called, and `last_tick`. -/
def timedCall (seconds last t0 t1 t2 : Nat) : Bool × Nat :=
  let first := decide (last = 0)
  let last := if last = 0 then t0 else last
  let monitor := first || decide (seconds * 1000000 ≤ (t1 - last) % 2 ^ 32)
  (monitor, if monitor then t2 else last)

/-- Call after call; each with its three readings. -/
def timedCalls (seconds : Nat) : Nat → List (Nat × Nat × Nat) → List Bool
  | _, [] => []
  | last, t :: ts =>
    (timedCall seconds last t.1 t.2.1 t.2.2).1 :: timedCalls seconds (timedCall seconds last t.1 t.2.1 t.2.2).2 ts

/-- eoTimeCounter::operator() (eoTimeCounter.h 50-66): `now`, `start` of `time` in seconds, `ticks` of `clock`. -/
def timeCounter (start now ticks : Nat) : ℚ :=
  if 2140 < (now : Int) - (start : Int) then (now : ℚ) - (start : ℚ) else (ticks : ℚ) / 1000000

/-- A time as the system gives it: seconds and microseconds. -/
structure Time where
  sec : Int
  usec : Int

/-- usertime and systime (eoTimer.h 77-99, 110-132): the result and the remainder kept in the timer. -/
def timerRead (start now : Time) (rem : Int) : Int × Int :=
  let result := now.sec - start.sec
  let remainder := now.usec - start.usec
  let r : Int × Int := if 0 ≤ remainder then (result, rem + remainder) else (result - 1, rem + (1000000 - remainder))
  if 1000000 ≤ r.2 then (r.1 + 1, r.2 - 1000000) else r

/-- Several measures with one timer: each with a `restart` before. -/
def timerReads : Int → List (Time × Time) → List Int × Int
  | rem, [] => ([], rem)
  | rem, p :: ps =>
    let r := timerRead p.1 p.2 rem
    let l := timerReads r.2 ps
    (r.1 :: l.1, l.2)

/-- wallclock (eoTimer.h 139-144). -/
def wallclock (start now : Time) : ℚ := ((now.sec - start.sec : Int) : ℚ) + ((now.usec - start.usec : Int) : ℚ) / 1000000

/-! ### eoLogger -/

/-- What is sent to a logger. -/
inductive LogOp where
  /-- a level (eoLogger.cpp 160-164) -/
  | level (l : Nat)
  /-- a text -/
  | text (t : Text)
  /-- `setlevel` with a name (172-176, 211-213) -/
  | setName (n : Text)
  /-- `setlevel` with a level (172-176, 215-217) -/
  | setLevel (l : Nat)
  /-- `file` (166-170): the descriptor, none if the file cannot be opened -/
  | file (fd : Option Nat)
  /-- a stream (178-185): its descriptor if it is a standard one -/
  | stream (fd : Option Nat)

/-- The levels and the descriptor. -/
structure Log where
  selected : Nat
  context : Nat
  fd : Option Nat

/-- `_levels` (eoLogger.cpp 51-57). -/
def levels : List (Text × Nat) :=
  [("quiet".toList, 0), ("errors".toList, 1), ("warnings".toList, 2), ("progress".toList, 3), ("logging".toList, 4),
   ("debug".toList, 5), ("xdebug".toList, 6)]

/-- `_levels[name]`: 0 is inserted for an unknown name. -/
def levelOf (n : Text) : Nat := (levels.lookup n).getD 0

/-- One thing sent to a logger, and what is written, with its descriptor.  `signed`: whether the compiler compares the
enumeration as a signed number, so that the -1 of a `setlevel` with a name is below 0; otherwise it is 2^32 - 1. -/
def logStep (signed : Bool) (s : Log) : LogOp → Log × List (Nat × Text)
  | .level l => ({ s with context := l }, [])
  | .text t => (s, if s.context ≤ s.selected then (match s.fd with | some d => [(d, t)] | none => []) else [])
  | .setName n => ({ s with selected := if signed then levelOf n else 2 ^ 32 - 1 }, [])
  | .setLevel l => ({ s with selected := l }, [])
  | .file fd => ({ s with fd := fd }, [])
  | .stream fd => (match fd with | some d => { s with fd := some d } | none => s, [])

/-- What is written in the order of writing, and the logger afterwards. -/
def logRun (signed : Bool) : Log → List LogOp → List (Nat × Text) × Log
  | s, [] => ([], s)
  | s, o :: os =>
    let r := logStep signed s o
    let l := logRun signed r.1 os
    (r.2 ++ l.1, l.2)

/-- A new logger (eoLogger.cpp 60-74): level `progress`, standard error. -/
def Log.new : Log := ⟨3, 0, some 2⟩

/-! ### Signals -/

/-- What happens to a program: a signal comes, or the checkpoint is called; `b`: what the checkpoint would answer. -/
inductive Event where
  | signal
  | check (b : Bool)

/-- eoSignal (eoSignal.h 74-92), from a flag: for each call whether the checkpoint was run, and the answer. -/
def signalRun : Bool → List Event → List (Bool × Bool)
  | _, [] => []
  | _, .signal :: es => signalRun true es
  | called, .check b :: es => (if called then (true, b) else (false, true)) :: signalRun false es

/-- eoSIGContinue (eoSIGContinue.h 78-87, eoSIGContinue.cpp 40-43): for each call whether the function was called, and
the answer. -/
def sigContinueRun : Bool → List Event → List (Bool × Bool)
  | _, [] => []
  | _, .signal :: es => sigContinueRun true es
  | f, .check _ :: es => (f, true) :: sigContinueRun false es

/-- The constructor of eoSIGContinue (62-75): `existSIGContinue` before and after. -/
def sigContinueNew (exist : Bool) : Except Err Bool := if exist then .error .thrown else .ok true

/-! ### Local search and multi-objective -/

/-- moCounterMonitorSaver::operator() (moCounterMonitorSaver.h 59-63): whether the monitors are called, and the counter. -/
def monitorSaver (interval counter : Nat) : Except Err (Bool × Nat) :=
  if interval = 0 then .error .ub else .ok (decide (counter % interval = 0), (counter + 1) % 2 ^ 32)

def monitorSavers (interval : Nat) : Nat → Nat → Except Err (List Bool)
  | 0, _ => .ok []
  | n + 1, counter =>
    match monitorSaver interval counter with
    | .error e => .error e
    | .ok (b, c) =>
      match monitorSavers interval n c with
      | .error e => .error e
      | .ok l => .ok (b :: l)

/-- moValueParamContinuator (moValueParamContinuator.h 66-79) with an unsigned parameter: the start after `init`. -/
def valueStart (restart : Bool) (value : BitVec 32) : BitVec 32 := if restart then value else 0#32

def valueContinue (value start max : BitVec 32) : Bool := decide ((value - start).toNat < max.toNat)

/-- moBestFitnessStat (moBestFitnessStat.h 54-80): the value and `firstTime`. -/
structure BestStat (F : Type) where
  value : F
  firstTime : Bool

def bestInit {F : Type} (reInit : Bool) (f : F) (s : BestStat F) : BestStat F :=
  if reInit then { s with value := f } else if s.firstTime then ⟨f, false⟩ else s

def bestCall {F : Type} [LinearOrder F] (f : F) (s : BestStat F) : BestStat F :=
  if s.value < f then { s with value := f } else s

/-- A search: `init` with the first solution, then a call per iteration. -/
def bestSearch {F : Type} [LinearOrder F] (reInit : Bool) (f0 : F) (fs : List F) (s : BestStat F) : BestStat F :=
  fs.foldl (fun s f => bestCall f s) (bestInit reInit f0 s)

/-- moeoBinaryMetricSavingUpdater (moeoBinaryMetricSavingUpdater.h 75-99): the last population, if one was seen, the
counter, an unsigned, and the lines of the file. -/
structure MetricSt (P V : Type) where
  old : Option (List P)
  counter : Nat
  lines : List (Nat × V)

def metricCall {P V : Type} (metric : List P → List P → V) (pop : List P) (s : MetricSt P V) : MetricSt P V :=
  match pop with
  | [] => s
  | _ =>
    match s.old with
    | none => { s with old := some pop }
    | some old => ⟨some pop, (s.counter + 1) % 2 ^ 32, s.lines ++ [(s.counter, metric pop old)]⟩

def metricRun {P V : Type} (metric : List P → List P → V) (pops : List (List P)) : MetricSt P V :=
  pops.foldl (fun s p => metricCall metric p s) ⟨none, 1, []⟩

/-- The name of the file of moeoArchiveObjectiveVectorSavingUpdater (72-97) at a value of its counter; `%u` of the
identifier, an int. -/
def savingName (filename : Text) (count : Bool) (id : Int) (counter : Nat) : Text :=
  let ident : Text := showNat (id % 2 ^ 32).toNat
  if count then
    if id = -1 then filename ++ ['.'] ++ showNat counter else filename ++ ['.'] ++ ident ++ ['.'] ++ showNat counter
  else if id = -1 then filename else filename ++ ['.'] ++ ident

end Paradiseo.Monitors
