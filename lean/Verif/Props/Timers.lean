import Verif.Model.Monitors
import Mathlib.Tactic.Ring
import Mathlib.Tactic.Linarith
import Mathlib.Tactic.NormNum
import Mathlib.Tactic.IntervalCases
/-
C294: monitors called at intervals of time.
C295: the times measured by a timer.
C296: the logger.
C297: signals.
-/
namespace Paradiseo.Monitors

open Paradiseo.EO Paradiseo.State

/-! ### C294 -/

/-- **C294** (short intervals).  After its first call, a timed monitor with an interval of at most 4294 seconds calls its
monitors exactly if the interval has passed since the last time, as long as it is called within 2^32 microseconds. -/
theorem C294_short (seconds last t0 t1 t2 : Nat) (hl : last ≠ 0) (hlt : t1 - last < 2 ^ 32) :
    (timedCall seconds last t0 t1 t2).1 = true ↔ seconds * 1000000 ≤ t1 - last := by
  have h : (t1 - last) % 4294967296 = t1 - last := Nat.mod_eq_of_lt hlt
  simp [timedCall, hl, h]

/-- **C294** (first call).  At the first call the monitors are called. -/
theorem C294_first (seconds t0 t1 t2 : Nat) : timedCall seconds 0 t0 t1 t2 = (true, t2) := by
  simp [timedCall]

/-- **C294** (missed).  If the processor was busy for longer, the microseconds are counted modulo 2^32: the monitors are not
called although the interval has passed. -/
theorem C294_missed (seconds last t0 t1 t2 k r : Nat) (hl : last ≠ 0) (ht : t1 - last = 2 ^ 32 * k + r)
    (hr : r < seconds * 1000000) (hr' : r < 2 ^ 32) : (timedCall seconds last t0 t1 t2).1 = false := by
  have : (2 ^ 32 * k + r) % 2 ^ 32 = r := by rw [Nat.mul_add_mod, Nat.mod_eq_of_lt hr']
  simp [timedCall, hl, ht, this]
  omega

/-- **C294** (long intervals).  With an interval of 4295 seconds or more the monitors are called the first time and then
never again. -/
theorem C294_long (seconds : Nat) (hs : 4295 ≤ seconds) (t0 t1 t2 : Nat) (h2 : t2 ≠ 0) (ts : List (Nat × Nat × Nat)) :
    timedCalls seconds 0 ((t0, t1, t2) :: ts) = true :: List.replicate ts.length false := by
  rw [timedCalls]
  dsimp only
  rw [C294_first]
  congr 1
  induction ts with
  | nil => rfl
  | cons t ts ih =>
    have : timedCall seconds t2 t.1 t.2.1 t.2.2 = (false, t2) := by
      have hlt : (t.2.1 - t2) % 2 ^ 32 < seconds * 1000000 := by
        have := Nat.mod_lt (t.2.1 - t2) (y := 2 ^ 32) (by norm_num)
        omega
      have hlt' : ¬ seconds * 1000000 ≤ (t.2.1 - t2) % 4294967296 := by
        have : (2 : Nat) ^ 32 = 4294967296 := by norm_num
        omega
      simp [timedCall, h2, hlt']
    rw [timedCalls, this, List.length_cons, List.replicate_succ]
    congr 1

/-- **C294** (time counter).  The time counter gives the time the processor worked during the first 2140 seconds, and the
time that went by afterwards: so it can go back. -/
theorem C294_counter : (∀ start now ticks, now ≤ start + 2140 → timeCounter start now ticks = (ticks : ℚ) / 1000000) ∧
    (∀ start now ticks, start + 2140 < now → timeCounter start now ticks = (now : ℚ) - start) ∧
    ∃ start now now' ticks ticks' : Nat, now < now' ∧ ticks < ticks' ∧
      timeCounter start now' ticks' < timeCounter start now ticks := by
  refine ⟨?_, ?_, 0, 2140, 2141, 8560000000, 8564000000, by norm_num, by norm_num, ?_⟩
  · intro start now ticks h
    unfold timeCounter
    rw [if_neg (by omega)]
  · intro start now ticks h
    unfold timeCounter
    rw [if_pos (by omega)]
  · norm_num [timeCounter]

example : timedCall 1 5 0 1000005 1000006 = (true, 1000006) := by decide

/-! ### C295 -/

/-- The microseconds from one time to another. -/
def micros (a b : Time) : Int := (b.sec - a.sec) * 1000000 + (b.usec - a.usec)

def Valid (t : Time) : Prop := 0 ≤ t.usec ∧ t.usec < 1000000

/-- What a borrow of a second costs: twice the missing microseconds. -/
def excess (a b : Time) : Int := if b.usec < a.usec then 2 * (a.usec - b.usec) else 0

/-- **C295** (one measure).  A measure is the number of full seconds, or one second too much: if the microseconds are less
than at the start - always - or if the remainders kept from earlier measures make up a second. -/
theorem C295_measure (start now : Time) (hs : Valid start) (hn : Valid now) (rem : Int) (hr : 0 ≤ rem) :
    (timerRead start now rem).1 = micros start now / 1000000 +
      (if now.usec < start.usec ∨ 1000000 ≤ rem + (now.usec - start.usec) then 1 else 0) ∧
    0 ≤ (timerRead start now rem).2 := by
  obtain ⟨s1, s2⟩ := start
  obtain ⟨n1, n2⟩ := now
  simp only [Valid] at hs hn
  simp only [timerRead, micros]
  split_ifs <;> simp only <;> omega

/-- **C295** (a series of measures).  The measures of a series, in microseconds, and the remainder in the end make up the
time measured and, for each measure that had to borrow a second, twice the missing microseconds. -/
theorem C295_total (rem : Int) (l : List (Time × Time)) :
    1000000 * (timerReads rem l).1.sum + (timerReads rem l).2 =
      rem + (l.map fun p => micros p.1 p.2).sum + (l.map fun p => excess p.1 p.2).sum := by
  induction l generalizing rem with
  | nil => simp [timerReads]
  | cons p l ih =>
    have h := ih (timerRead p.1 p.2 rem).2
    have h1 : 1000000 * (timerRead p.1 p.2 rem).1 + (timerRead p.1 p.2 rem).2 = rem + micros p.1 p.2 + excess p.1 p.2 := by
      simp only [timerRead, micros, excess]
      split_ifs <;> simp only <;> omega
    simp only [timerReads, List.map_cons, List.sum_cons]
    linarith

/-- **C295** (right series).  If no measure has to borrow, the sum of a series is the number of full seconds of the time
measured, with the remainder of the former series. -/
theorem C295_right (rem : Int) (h0 : 0 ≤ rem) (h1 : rem < 1000000) (l : List (Time × Time))
    (hv : ∀ p ∈ l, Valid p.1 ∧ Valid p.2 ∧ p.1.usec ≤ p.2.usec) :
    (timerReads rem l).1.sum = (rem + (l.map fun p => micros p.1 p.2).sum) / 1000000 := by
  have hx : (l.map fun p => excess p.1 p.2).sum = 0 := by
    induction l with
    | nil => rfl
    | cons p l ih =>
      rw [List.map_cons, List.sum_cons, ih fun q hq => hv q (by simp [hq])]
      have := (hv p (by simp)).2.2
      simp [excess, Int.not_lt.mpr this]
  have hrem : 0 ≤ (timerReads rem l).2 ∧ (timerReads rem l).2 < 1000000 := by
    clear hx
    induction l generalizing rem with
    | nil => exact ⟨h0, h1⟩
    | cons p l ih =>
      have hp := hv p (by simp)
      obtain ⟨⟨a1, a2⟩, ⟨b1, b2⟩⟩ := p
      simp only [Valid] at hp
      have : 0 ≤ (timerRead ⟨a1, a2⟩ ⟨b1, b2⟩ rem).2 ∧ (timerRead ⟨a1, a2⟩ ⟨b1, b2⟩ rem).2 < 1000000 := by
        simp only [timerRead]
        split_ifs <;> simp only <;> omega
      exact ih _ this.1 this.2 fun q hq => hv q (by simp [hq])
  have ht := C295_total rem l
  rw [hx] at ht
  omega

/-- **C295** (wrong).  Two tenths of a second are measured as one second if a second begins in between; and asking twice at the
same time can give different answers. -/
theorem C295_wrong : (timerRead ⟨0, 900000⟩ ⟨1, 100000⟩ 0).1 = 1 ∧
    (timerReads 0 [(⟨0, 0⟩, ⟨0, 500000⟩), (⟨0, 0⟩, ⟨0, 500000⟩)]).1 = [0, 1] := by
  decide

/-- **C295** (wall clock).  The time on the wall clock is exact. -/
theorem C295_wallclock (start now : Time) : wallclock start now * 1000000 = micros start now := by
  unfold wallclock micros
  push_cast
  ring

example : Valid ⟨3, 4⟩ := by unfold Valid; decide

/-! ### C296 -/

/-- The last of the values found. -/
def lastOf {β : Type} (f : LogOp → Option β) (dflt : β) (os : List LogOp) : β := ((os.filterMap f).getLast?).getD dflt

/-- The level of a text: the last level sent before, whenever that was. -/
def levelAt (s : Log) (os : List LogOp) : Nat :=
  lastOf (fun o => match o with | .level l => some l | _ => none) s.context os

/-- The level selected. -/
def selectedAt (signed : Bool) (s : Log) (os : List LogOp) : Nat :=
  lastOf (fun o => match o with
    | .setLevel l => some l
    | .setName n => some (if signed then levelOf n else 2 ^ 32 - 1)
    | _ => none) s.selected os

/-- Where texts go to. -/
def fdAt (s : Log) (os : List LogOp) : Option Nat :=
  lastOf (fun o => match o with
    | .file fd => some fd
    | .stream (some d) => some (some d)
    | _ => none) s.fd os

theorem lastOf_cons {β : Type} (f : LogOp → Option β) (dflt : β) (o : LogOp) (os : List LogOp) :
    lastOf f dflt (o :: os) = lastOf f ((f o).getD dflt) os := by
  unfold lastOf
  rw [List.filterMap_cons]
  cases f o with
  | none => rfl
  | some x =>
    simp only [Option.getD_some]
    rw [List.getLast?_cons]
    rfl

theorem logRun_state (signed : Bool) : ∀ (os : List LogOp) (s : Log),
    (logRun signed s os).2 = ⟨selectedAt signed s os, levelAt s os, fdAt s os⟩
  | [], s => rfl
  | o :: os, s => by
    rw [logRun]
    dsimp only
    rw [logRun_state signed os]
    unfold selectedAt levelAt fdAt
    rw [lastOf_cons, lastOf_cons, lastOf_cons]
    cases o with
    | stream fd => cases fd <;> rfl
    | _ => rfl

theorem logRun_append (signed : Bool) : ∀ (os ps : List LogOp) (s : Log),
    logRun signed s (os ++ ps) =
      ((logRun signed s os).1 ++ (logRun signed (logRun signed s os).2 ps).1, (logRun signed (logRun signed s os).2 ps).2)
  | [], ps, s => rfl
  | o :: os, ps, s => by
    rw [List.cons_append, logRun, logRun_append signed os ps, logRun]
    dsimp only
    rw [List.append_assoc]

/-- **C296** (what is written).  A text is written exactly if the last level sent before it, in this statement or an earlier
one, is at most the level selected last, and there is a place to write to. -/
theorem C296_written (signed : Bool) (s : Log) (os : List LogOp) (t : Text) (ps : List LogOp) :
    (logRun signed s (os ++ .text t :: ps)).1 =
      (logRun signed s os).1 ++
        ((if levelAt s os ≤ selectedAt signed s os then ((fdAt s os).map fun d => (d, t)).toList else []) ++
          (logRun signed ⟨selectedAt signed s os, levelAt s os, fdAt s os⟩ ps).1) := by
  rw [logRun_append, logRun, logRun_state]
  dsimp only [logStep]
  congr 2
  split
  · cases fdAt s os <;> rfl
  · rfl

/-- **C296** (quiet).  A text sent before any level, or at the level quiet, is written whatever level is selected. -/
theorem C296_quiet (signed : Bool) (s : Log) (os : List LogOp) (t : Text) (d : Nat) (hl : levelAt s os = 0)
    (hd : fdAt s os = some d) : (logRun signed s (os ++ [.text t])).1 = (logRun signed s os).1 ++ [(d, t)] := by
  rw [C296_written, hl, hd]
  simp [logRun]

/-- **C296** (selecting more).  Selecting a higher level never loses a text. -/
theorem C296_monotone (signed : Bool) (os : List LogOp) (s : Log) (sel : Nat) (hsel : s.selected ≤ sel)
    (hos : ∀ o ∈ os, ∀ n l, o ≠ .setName n ∧ o ≠ .setLevel l) :
    (logRun signed s os).1.Sublist (logRun signed { s with selected := sel } os).1 := by
  induction os generalizing s with
  | nil => exact List.Sublist.refl _
  | cons o os ih =>
    have hos' := fun p hp => hos p (List.mem_cons_of_mem _ hp)
    have ho := hos o (by simp)
    rw [logRun, logRun]
    dsimp only
    apply List.Sublist.append
    · cases o with
      | text t =>
        simp only [logStep]
        by_cases h : s.context ≤ s.selected
        · rw [if_pos h, if_pos (h.trans hsel)]
        · rw [if_neg h]; exact List.nil_sublist _
      | _ => exact List.Sublist.refl _
    · cases o with
      | setName n => exact absurd rfl (ho n 0).1
      | setLevel l => exact absurd rfl (ho [] l).2
      | stream fd => cases fd <;> exact ih _ hsel hos'
      | level l => exact ih { s with context := l } hsel hos'
      | text t => exact ih s hsel hos'
      | file fd => exact ih { s with fd := fd } hsel hos'

/-- The names of the levels. -/
def levelNames : List String := ["quiet", "errors", "warnings", "progress", "logging", "debug", "xdebug"]

theorem levelOf_names : ∀ (j : Fin levelNames.length), levelOf (levelNames.get j).toList = j := by decide +kernel

/-- **C296** (names).  Where the enumeration is compared as a signed number, a name selects its level and an unknown name
selects quiet; otherwise every name, known or not, selects everything. -/
theorem C296_names (s : Log) (n : Text) :
    (∀ i (hi : i < levelNames.length), n = levelNames[i].toList → (logStep true s (.setName n)).1.selected = i) ∧
    ((∀ m ∈ levelNames, n ≠ m.toList) → (logStep true s (.setName n)).1.selected = 0) ∧
    ∀ l < 2 ^ 32, ∀ t d, s.fd = some d →
      (logRun false s [.setName n, .level l, .text t]).1 = [(d, t)] := by
  refine ⟨?_, ?_, ?_⟩
  · intro i hi hn
    subst hn
    exact levelOf_names ⟨i, hi⟩
  · intro h
    have h' : levels.lookup n = none := by
      rw [List.lookup_eq_none_iff]
      intro p hp
      have : ∀ q ∈ levels, ∃ m ∈ levelNames, q.1 = m.toList := by decide +kernel
      obtain ⟨m, hm, e⟩ := this p hp
      rw [bne_iff_ne]
      rw [e]
      exact h m hm
    show levelOf n = 0
    rw [levelOf, h']
    rfl
  · intro l hl t d hd
    have : l ≤ 2 ^ 32 - 1 := by omega
    simp only [logRun, logStep, hd, Bool.false_eq_true, if_false, if_pos this, List.nil_append, List.append_nil]

/-- **C296** (lost).  After a file that could not be opened nothing is written any more, and nothing is said, until another
file or standard stream is given. -/
theorem C296_lost (signed : Bool) (s : Log) (os : List LogOp) (hos : ∀ o ∈ os, ∀ d, o ≠ .file (some d) ∧ o ≠ .stream (some d)) :
    (logRun signed s (.file none :: os)).1 = [] := by
  have key : ∀ (os : List LogOp) (s : Log), s.fd = none → (∀ o ∈ os, ∀ d, o ≠ .file (some d) ∧ o ≠ .stream (some d)) →
      (logRun signed s os).1 = [] := by
    intro os
    induction os with
    | nil => intro s _ _; rfl
    | cons o os ih =>
      intro s hs hos
      have ho := hos o (by simp)
      have hos' := fun p hp => hos p (List.mem_cons_of_mem _ hp)
      rw [logRun]
      dsimp only
      have h1 : (logStep signed s o).2 = [] := by
        cases o <;> simp [logStep, hs]
      have h2 : (logStep signed s o).1.fd = none := by
        cases o with
        | file fd =>
          cases fd with
          | none => rfl
          | some d => exact absurd rfl (ho d).1
        | stream fd =>
          cases fd with
          | none => exact hs
          | some d => exact absurd rfl (ho d).2
        | _ => exact hs
      rw [h1, ih _ h2 hos']
      rfl
  rw [logRun]
  exact key os _ rfl hos

example : (logRun true Log.new [.level 4, .text "a".toList, .level 1, .text "b".toList, .text "c".toList]).1 =
    [(2, "b".toList), (2, "c".toList)] := by decide +kernel

/-! ### C297 -/

/-- A run: `n` signals and a check, again and again, and some signals in the end. -/
def events (blocks : List (Nat × Bool)) (m : Nat) : List Event :=
  (blocks.map fun p => List.replicate p.1 Event.signal ++ [.check p.2]).flatten ++ List.replicate m .signal

/-- Every run is of this form. -/
theorem events_all (es : List Event) : ∃ blocks m, es = events blocks m := by
  induction es with
  | nil => exact ⟨[], 0, rfl⟩
  | cons e es ih =>
    obtain ⟨blocks, m, rfl⟩ := ih
    cases e with
    | check b => exact ⟨(0, b) :: blocks, m, by simp [events]⟩
    | signal =>
      cases blocks with
      | nil => exact ⟨[], m + 1, by simp [events, List.replicate_succ]⟩
      | cons p blocks => exact ⟨(p.1 + 1, p.2) :: blocks, m, by simp [events, List.replicate_succ]⟩

theorem signalRun_signals (f : Bool) (n : Nat) (es : List Event) :
    signalRun f (List.replicate n .signal ++ es) = signalRun (f || decide (0 < n)) es := by
  induction n generalizing f with
  | zero => simp
  | succ n ih =>
    rw [List.replicate_succ, List.cons_append, signalRun, ih]
    simp

theorem sigContinueRun_signals (f : Bool) (n : Nat) (es : List Event) :
    sigContinueRun f (List.replicate n .signal ++ es) = sigContinueRun (f || decide (0 < n)) es := by
  induction n generalizing f with
  | zero => simp
  | succ n ih =>
    rw [List.replicate_succ, List.cons_append, sigContinueRun, ih]
    simp

/-- **C297** (checkpoint on a signal).  A check runs the checkpoint exactly if at least one signal came since the check
before, however many; otherwise it answers that the run goes on, without asking the criteria. -/
theorem C297_checkpoint (blocks : List (Nat × Bool)) (m : Nat) :
    signalRun false (events blocks m) = blocks.map fun p => if 0 < p.1 then (true, p.2) else (false, true) := by
  induction blocks with
  | nil =>
    have := signalRun_signals false m []
    rw [List.append_nil] at this
    simp only [events, List.map_nil, List.flatten_nil, List.nil_append, this]
    rfl
  | cons p blocks ih =>
    have e : events (p :: blocks) m = List.replicate p.1 .signal ++ (.check p.2 :: events blocks m) := by simp [events]
    rw [e, signalRun_signals, signalRun, ih, List.map_cons]
    simp

/-- **C297** (no signal).  Without a signal a run whose only criterion is a checkpoint on a signal never ends, whatever criteria
that checkpoint was given. -/
theorem C297_endless (answers : List Bool) :
    signalRun false (answers.map .check) = List.replicate answers.length (false, true) := by
  have h := C297_checkpoint (answers.map fun b => (0, b)) 0
  have e : events (answers.map fun b => (0, b)) 0 = answers.map .check := by
    clear h
    simp only [events, List.map_map, List.replicate_zero, List.append_nil]
    induction answers with
    | nil => rfl
    | cons a l ih => simp_all
  rw [e] at h
  rw [h, List.map_map]
  simp [Function.comp_def]

/-- **C297** (function on a signal).  eoSIGContinue calls the function at each check before which a signal came, once, and never
stops the run; a second one cannot be made. -/
theorem C297_function (blocks : List (Nat × Bool)) (m : Nat) :
    sigContinueRun false (events blocks m) = blocks.map (fun p => (decide (0 < p.1), true)) ∧
    ∃ e, sigContinueNew false = .ok e ∧ sigContinueNew e = .error .thrown := by
  refine ⟨?_, true, rfl, rfl⟩
  induction blocks with
  | nil =>
    have := sigContinueRun_signals false m []
    rw [List.append_nil] at this
    simp only [events, List.map_nil, List.flatten_nil, List.nil_append, this]
    rfl
  | cons p blocks ih =>
    have e : events (p :: blocks) m = List.replicate p.1 .signal ++ (.check p.2 :: events blocks m) := by simp [events]
    rw [e, sigContinueRun_signals, sigContinueRun, ih, List.map_cons]
    simp

example : signalRun false [.signal, .signal, .check false, .check false] = [(true, false), (false, true)] := rfl

end Paradiseo.Monitors
