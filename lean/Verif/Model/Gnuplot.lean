/-
Plotting with gnuplot: eo/src/utils/pipecom.cpp (PipeComSend), eoGnuplot.cpp, eoGnuplot1DMonitor.cpp,
eoGnuplot1DSnapshot.h, eoGnuplot1DSnapshot.cpp; with HAVE_GNUPLOT.

A running gnuplot is the text it has received; it is there all the time (`Check` succeeds).
-/
import Verif.Model.Monitors

namespace Paradiseo.Gnuplot

open Paradiseo.EO Paradiseo.State Paradiseo.Monitors

/-- The conversions that print the argument 0 as a zero. -/
def isIntConv (c : Char) : Bool := c ∈ ['d', 'i', 'u', 'o', 'x', 'X']

/-- `fprintf(to->fWrit, line, 0)` (pipecom.cpp:112): the line is the format.  `left`: the argument 0 has not been used.  A percent sign not
followed by another one or by a conversion of an integer is `ub` here: a string, a missing argument, the end of the text; flags, widths
and `%c` are not distinguished from these. -/
def expand : Bool → Text → Except Err Text
  | _, [] => .ok []
  | left, '%' :: '%' :: t =>
    match expand left t with
    | .error e => .error e
    | .ok r => .ok ('%' :: r)
  | left, '%' :: c :: t =>
    if left && isIntConv c then
      match expand false t with
      | .error e => .error e
      | .ok r => .ok ('0' :: r)
    else .error .ub
  | _, ['%'] => .error .ub
  | left, c :: t =>
    match expand left t with
    | .error e => .error e
    | .ok r => .ok (c :: r)

/-- PipeComSend (pipecom.cpp:107-115): what gnuplot has received afterwards. -/
def send (line received : Text) : Except Err Text :=
  match expand true line with
  | .error e => .error e
  | .ok t => .ok (received ++ t)

/-- `gnuplotCommand` (eoGnuplot.cpp:60-66). -/
def gnuplotCommand (command received : Text) : Except Err Text :=
  match send command received with
  | .error e => .error e
  | .ok r => send ['\n'] r

/-- `initGnuPlot` (eoGnuplot.cpp:90-92). -/
def initGnuPlot (extra : Text) : Except Err Text :=
  match send "set grid\n".toList [] with
  | .error e => .error e
  | .ok r => gnuplotCommand extra r

/-! ### eoGnuplot1DMonitor -/

/-- The loop of `FirstPlot` (eoGnuplot1DMonitor.cpp:69-74) from index `i`; `n` is `vec.size()`. -/
def curves (file : Text) (n : Nat) : Nat → List Text → Text
  | _, [] => []
  | i, name :: names =>
    " '".toList ++ file ++ "' using 1:".toList ++ showNat (i + 1) ++ " title '".toList ++ name ++ "' with lines".toList ++
      (if i < n - 1 then ", ".toList else []) ++ curves file n (i + 1) names

/-- The command of `FirstPlot` (68-75). -/
def plotCommand (file : Text) (names : List Text) : Text :=
  "plot".toList ++ curves file names.length 1 (names.drop 1) ++ ['\n']

/-- The monitor: the file, `firstTime`, and what gnuplot has received. -/
structure Mon where
  file : FSt
  firstTime : Bool
  received : Text

/-- The configuration eoFileMonitor gets (eoGnuplot1DMonitor.h:59). -/
def monCfg : FCfg := ⟨[' '], false, false, false⟩

/-- The constructor (eoGnuplot1DMonitor.h:58-61). -/
def Mon.new (top : Bool) (existing : Text) : Except Err Mon :=
  match initGnuPlot (if top then [] else "set key bottom".toList) with
  | .error e => .error e
  | .ok r => .ok ⟨fileNew monCfg existing, true, r⟩

/-- operator() (eoGnuplot1DMonitor.cpp:36-56): the monitor afterwards, and what was thrown. -/
def Mon.call (path : Text) (names values : List Text) (m : Mon) : Mon × Option Err :=
  match fileCall monCfg names values m.file with
  | .error e => (m, some e)
  | .ok f =>
    let m := { m with file := f }
    if m.firstTime then
      if names.length < 2 then (m, some .thrown)
      else
        match send (plotCommand path names) m.received with
        | .error e => (m, some e)
        | .ok r => ({ m with received := r, firstTime := false }, none)
    else
      match send "replot\n".toList m.received with
      | .error e => (m, some e)
      | .ok r => ({ m with received := r }, none)

/-- Calls one after the other, whatever was thrown. -/
def Mon.calls (path : Text) (names : List Text) : List (List Text) → Mon → Mon × List (Option Err)
  | [], m => (m, [])
  | v :: vs, m =>
    let r := m.call path names v
    let rs := Mon.calls path names vs r.1
    (rs.1, r.2 :: rs.2)

/-! ### eoGnuplot1DSnapshot -/

/-- The snapshots: the counter, the number in `currentFileName` (`none`: empty), and what gnuplot has received. -/
structure Snap where
  counter : Nat
  current : Option Nat
  received : Text

/-- The command (eoGnuplot1DSnapshot.cpp:15-20); `stem` is the directory, a slash and the file name. -/
def snapCommand (stem : Text) (pointSize counter : Nat) (current : Option Nat) : Text :=
  "set title 'Gen. ".toList ++ showNat counter ++ "'; plot '".toList ++
    (match current with
    | none => []
    | some k => stem ++ showNat k) ++ "' notitle with points ps ".toList ++ showNat pointSize ++ ['\n']

/-- operator() (eoGnuplot1DSnapshot.cpp:9-24). -/
def Snap.call (stem : Text) (pointSize frequency : Nat) (vecs : List (List Text)) (s : Snap) : Except Err Snap :=
  match snapCall frequency s.counter vecs with
  | .error e => .error e
  | .ok (w, c) =>
    let current := match w with
      | none => s.current
      | some (k, _) => some k
    match send (snapCommand stem pointSize c current) s.received with
    | .error e => .error e
    | .ok r => .ok ⟨c, current, r⟩

/-- One call after the other. -/
def Snap.calls (stem : Text) (pointSize frequency : Nat) : List (List (List Text)) → Snap → Except Err Snap
  | [], s => .ok s
  | v :: vs, s =>
    match s.call stem pointSize frequency v with
    | .error e => .error e
    | .ok s1 => Snap.calls stem pointSize frequency vs s1

end Paradiseo.Gnuplot
