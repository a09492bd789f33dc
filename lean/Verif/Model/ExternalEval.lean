import Verif.Model.EO
import Verif.Model.EOReplacement
import Verif.Model.State
/-
Evaluation by other programs, dumped solutions, and pipes.

* eo/src/eoEvalCmd.h 52-141
* eo/src/eoEvalNamedPipe.h 64-118
* eo/src/eoEvalDump.h 47-132
* eo/src/utils/pipecom.cpp 107-166

A solution is an individual with the text `printOn` writes for it, which begins with the fitness or with the tag INVALID
(eo/src/EO.h 151-162).  The shell, the program at the other end of a pipe and the disk are arguments.

Not modelled: what the operating system does besides, signals, a process that dies while it is talked to, and texts of
solutions with characters that mean something to a shell.
-/
namespace Paradiseo.ExternalEval

open Paradiseo.EO Paradiseo.State

variable {G F : Type}

/-- What is needed to write and read: `fit`, `genes` are the texts of a fitness and of a genome, `num` the number at the
beginning of a text, if there is one, `zero` what a failed conversion stores. -/
structure Format (G F : Type) where
  fit : F → Text
  genes : G → Text
  num : Text → Option F
  zero : F

/-- `<< sol` (EO.h 151-162 and the printOn of the representations). -/
def Format.sol (p : Format G F) (x : Ind G F) : Text :=
  (if x.invalid then "INVALID".toList else p.fit x.repFitness) ++ [' '] ++ p.genes x.genome

def isSpace (c : Char) : Bool := c = ' ' || c = '\n' || c = '\t' || c = '\r'

/-- `Fitness f; stream >> f;` (eoEvalCmd.h 135-139, eoEvalNamedPipe.h 109-116, eoScalarFitness.h 131-138): at the end of
the stream nothing is stored and a variable never set is read; a text that is no number stores zero. -/
def Format.readFit (p : Format G F) (t : Text) : Except Err F :=
  match t.dropWhile isSpace with
  | [] => .error .ub
  | t' => .ok ((p.num t').getD p.zero)

/-! ### fgets -/

/-- `fgets(buffer, n, stream)` for `n` at least two: up to `n - 1` characters, no further than a newline. -/
def chunk : Nat → Text → Text × Text
  | _, [] => ([], [])
  | 0, t => ([], t)
  | k + 1, c :: t => if c = '\n' then ([c], t) else (c :: (chunk k t).1, (chunk k t).2)

/-- `output += buffer.data()`: up to the first character of code zero. -/
def cString (t : Text) : Text := t.takeWhile (· ≠ '\x00')

/-- The loop of eoEvalCmd.h 123-125 for a buffer of `n`; a buffer of one character never gets to the end. -/
def readAll (n : Nat) : Nat → Text → Text → Except Err Text
  | 0, _, _ => .error .fuel
  | fuel + 1, out, rest =>
    match n, rest with
    | 0, _ => .ok out
    | 1, _ => readAll n fuel out rest
    | _, [] => .ok out
    | k + 2, c :: t => readAll n fuel (out ++ cString (chunk (k + 1) (c :: t)).1) (chunk (k + 1) (c :: t)).2

/-! ### eoEvalCmd -/

/-- The arguments of the constructor (eoEvalCmd.h 71-75). -/
structure Cmd where
  cmd : Text
  pre : Text
  infx : Text
  suffix : Text
  buffer : Nat

/-- The line given to the shell (eoEvalCmd.h 109-111). -/
def Cmd.line (c : Cmd) (sol : Text) : Text :=
  c.pre ++ [' '] ++ c.cmd ++ [' '] ++ c.infx ++ [' '] ++ sol ++ [' '] ++ c.suffix

/-- The solution, `last_call`, and the lines given to the shell so far. -/
structure CmdSt (G F : Type) where
  sol : Ind G F
  last : Text
  run : List Text

/-- operator() and call (eoEvalCmd.h 83-92, 107-140): the outcome, and what is left also if it throws.  `shell` gives the
output and the return code of a line, or that no pipe could be made. -/
def Cmd.eval (c : Cmd) (p : Format G F) (shell : Text → Option (Text × Int)) (fuel : Nat) (s : CmdSt G F) :
    Except Err Unit × CmdSt G F :=
  if !s.sol.invalid then (.ok (), s)
  else
    let line := c.line (p.sol s.sol)
    match shell line with
    | none => (.error .thrown, ⟨s.sol, line, s.run ++ [line]⟩)
    | some (text, code) =>
      match readAll c.buffer fuel [] text with
      | .error e => (.error e, ⟨s.sol, line, s.run ++ [line]⟩)
      | .ok output =>
        if code ≠ 0 then (.error .thrown, ⟨s.sol, line, s.run ++ [line]⟩)
        else
          match p.readFit output with
          | .error e => (.error e, ⟨s.sol, line, s.run ++ [line]⟩)
          | .ok f => (.ok (), ⟨s.sol.setFitness f, line, s.run ++ [line]⟩)

/-! ### eoEvalNamedPipe -/

/-- The name of the input, by default that of the output (eoEvalNamedPipe.h 78-83). -/
def pipeInput (output input : Text) : Text := if input = [] then output else input

/-- operator() and call (eoEvalNamedPipe.h 86-117): `world out text inp` is what can be read at `inp` after `text` was
written to `out`; a file that cannot be opened is empty. -/
def pipeEval (p : Format G F) (world : Text → Text → Text → Text) (output input : Text) (x : Ind G F) :
    Except Err (Ind G F) :=
  if !x.invalid then .ok x
  else
    match p.readFit (world output (p.sol x ++ ['\n']) (pipeInput output input)) with
    | .error e => .error e
    | .ok f => .ok (x.setFitness f)

/-- Ordinary files: one that was just written holds what was written, others what they held. -/
def plainFiles (disk : Text → Text) (out text inp : Text) : Text := if inp = out then text else disk inp

/-! ### eoEvalDump -/

/-- The arguments of the constructor (eoEvalDump.h 51-58). -/
structure Dump where
  name : Text
  single : Bool
  sep : Text

/-- The disk and `_file_count`. -/
structure DumpSt where
  disk : Text → Option Text
  count : Nat

/-- The name of the file of the call (eoEvalDump.h 97-105). -/
def Dump.file (d : Dump) (count : Nat) : Text := if d.single then d.name else d.name ++ d.sep ++ showNat count

/-- operator() (eoEvalDump.h 70-74, 95-118): `eval` the wrapped evaluator, `open_` whether a file can be opened, `debug`
whether that is checked. -/
def Dump.call (d : Dump) (p : Format G F) (eval : Ind G F → Ind G F) (open_ : Text → Bool) (debug : Bool) (s : DumpSt)
    (x : Ind G F) : Except Err (Ind G F × DumpSt) :=
  let y := eval x
  if open_ (d.file s.count) then
    .ok (y, ⟨fun n => if n = d.file s.count then some (p.sol y ++ ['\n']) else s.disk n, (s.count + 1) % 2 ^ 32⟩)
  else if debug then .error .thrown
  else .ok (y, ⟨s.disk, (s.count + 1) % 2 ^ 32⟩)

/-- One solution after the other. -/
def Dump.calls (d : Dump) (p : Format G F) (eval : Ind G F → Ind G F) (open_ : Text → Bool) (debug : Bool) :
    List (Ind G F) → DumpSt → Except Err (List (Ind G F) × DumpSt)
  | [], s => .ok ([], s)
  | x :: xs, s =>
    match d.call p eval open_ debug s x with
    | .error e => .error e
    | .ok (y, s) =>
      match d.calls p eval open_ debug xs s with
      | .error e => .error e
      | .ok (ys, s) => .ok (y :: ys, s)

/-! ### pipecom -/

/-- `fprintf(to->fWrit, line, 0)` (pipecom.cpp 112): the line is a format, `left` the number of arguments not yet used.
Only the conversions `%%`, `%d`, `%i`, `%u` are modelled; the others are taken as undefined. -/
def printf : Nat → Text → Except Err Text
  | _, [] => .ok []
  | left, c :: t =>
    if c ≠ '%' then (printf left t).map (c :: ·)
    else
      match t with
      | [] => .error .ub
      | d :: t =>
        if d = '%' then (printf left t).map ('%' :: ·)
        else if d = 'd' ∨ d = 'i' ∨ d = 'u' then
          match left with
          | 0 => .error .ub
          | n + 1 => (printf n t).map ('0' :: ·)
        else .error .ub

/-- PipeComSend (pipecom.cpp 107-115): what is written. -/
def pipeSend (line : Text) : Except Err Text := printf 1 line

/-- PipeComSendn (pipecom.cpp 118-127). -/
def pipeSendn (data : Text) (n : Nat) : Except Err Text := if n ≤ data.length then .ok (data.take n) else .error .ub

/-- PipeComWaitFor (pipecom.cpp 158-166): whether it was found, and what was not read yet.  The program at the other end
has closed the pipe at the end of the text. -/
def waitFor (what : Text) : Nat → Text → Option (Bool × Text)
  | 0, _ => none
  | fuel + 1, rest =>
    let c := chunk 255 rest
    if cString c.1 = [] then some (false, c.2)
    else if cString c.1 = what then some (true, c.2)
    else waitFor what fuel c.2

end Paradiseo.ExternalEval
