/-
C357, C358: what gnuplot is told.
-/
import Verif.Model.Gnuplot
import Verif.Props.MathSymRaw
import Mathlib.Tactic.NormNum

namespace Paradiseo.Gnuplot

open Paradiseo.EO Paradiseo.State Paradiseo.Monitors

/-! ### C357: the pipe -/

theorem expand_plain : ∀ (left : Bool) (t : Text), '%' ∉ t → expand left t = .ok t
  | _, [], _ => rfl
  | left, c :: t, h => by
    have hc : c ≠ '%' := fun e => h (by simp [e])
    have ih := expand_plain left t fun h' => h (by simp [h'])
    rw [expand.eq_def]
    split
    · rename_i e; simp at e
    · rename_i e; simp only [List.cons.injEq] at e; exact absurd e.1 hc
    · rename_i e; simp only [List.cons.injEq] at e; exact absurd e.1 hc
    · rename_i e; simp only [List.cons.injEq] at e; exact absurd e.1 hc
    · rename_i c' t' _ _ e
      simp only [List.cons.injEq] at e
      obtain ⟨rfl, rfl⟩ := e
      rw [ih]

theorem expand_length (left : Bool) (t : Text) :
    ∀ r, expand left t = .ok r → r.length ≤ t.length ∧ ('%' ∈ t → r.length < t.length) := by
  fun_induction expand left t with
  | case1 => rintro r ⟨⟩; simp
  | case2 left t e he ih => intro r h; simp at h
  | case3 left t r' hr ih =>
    intro r h
    simp only [Except.ok.injEq] at h
    subst h
    have := (ih r' hr).1
    simp only [List.length_cons]
    omega
  | case4 left c t hne hc e he ih => intro r h; simp at h
  | case5 left c t hne hc r' hr ih =>
    intro r h
    simp only [Except.ok.injEq] at h
    subst h
    have := (ih r' hr).1
    simp only [List.length_cons]
    omega
  | case6 left c t hne hc => intro r h; simp at h
  | case7 => intro r h; simp at h
  | case8 left c t h0 h1 h2 e he ih => intro r h; simp at h
  | case9 left c t h0 h1 h2 r' hr ih =>
    intro r h
    simp only [Except.ok.injEq] at h
    subst h
    obtain ⟨g1, g2⟩ := ih r' hr
    have hc : c ≠ '%' := by
      rintro rfl
      cases t with
      | nil => exact h2 rfl rfl
      | cons d t => exact h1 d t rfl rfl
    refine ⟨by simp only [List.length_cons]; omega, fun hm => ?_⟩
    have := g2 ((List.mem_cons.1 hm).resolve_left (Ne.symm hc))
    simp only [List.length_cons]
    omega

/-- **C357** (the pipe).  A line sent to gnuplot arrives as it is exactly if it has no percent sign. -/
theorem C357_pipe (line received : Text) : send line received = .ok (received ++ line) ↔ '%' ∉ line := by
  unfold send
  constructor
  · intro h hm
    cases he : expand true line with
    | error e => rw [he] at h; simp at h
    | ok r =>
      rw [he] at h
      simp only [Except.ok.injEq, List.append_cancel_left_eq] at h
      have := (expand_length true line r he).2 hm
      rw [h] at this
      omega
  · intro h
    rw [expand_plain true line h]

/-- `a%d` arrives as `a0`, `%s` is undefined, and so is a second number. -/
example : send "a%d".toList [] = .ok "a0".toList ∧ send "%s".toList [] = .error .ub ∧ send "%d%d".toList [] = .error .ub ∧
    send "50%".toList [] = .error .ub ∧ send "100%%".toList [] = .ok "100%".toList := by decide +kernel

/-! ### C357: the monitor -/

/-- One curve: column `k` of the file over the first. -/
def curve (file : Text) (k : Nat) (name : Text) : Text :=
  " '".toList ++ file ++ "' using 1:".toList ++ showNat k ++ " title '".toList ++ name ++ "' with lines".toList

/-- The texts with a comma and a blank between them. -/
def commas : List Text → Text
  | [] => []
  | [t] => t
  | t :: ts => t ++ ", ".toList ++ commas ts

/-- Columns from number `k` on. -/
def columns (file : Text) : Nat → List Text → List Text
  | _, [] => []
  | k, name :: names => curve file k name :: columns file (k + 1) names

theorem curves_commas (file : Text) (n : Nat) : ∀ (names : List Text) (i : Nat), i + names.length = n →
    curves file n i names = commas (columns file (i + 1) names)
  | [], _, _ => rfl
  | [name], i, h => by
    have : ¬ i < n - 1 := by simp only [List.length_cons, List.length_nil] at h; omega
    simp [curves, columns, commas, this, curve]
  | name :: name2 :: names, i, h => by
    have hi : i < n - 1 := by simp only [List.length_cons] at h; omega
    have ih := curves_commas file n (name2 :: names) (i + 1) (by simp only [List.length_cons] at h ⊢; omega)
    rw [curves, ih, if_pos hi]
    simp [columns, commas, curve]

/-- **C357** (the plot).  The command plots every column but the first over the first, each under the name of its parameter. -/
theorem C357_plot (file first : Text) (names : List Text) :
    plotCommand file (first :: names) = "plot".toList ++ commas (columns file 2 names) ++ ['\n'] := by
  rw [plotCommand, List.drop_one, List.tail_cons, curves_commas file _ names 1 (by simp only [List.length_cons]; omega)]

theorem columns_get (file : Text) : ∀ (names : List Text) (k i : Nat), (columns file k names)[i]? = names[i]?.map (curve file (k + i))
  | [], _, _ => by simp [columns]
  | name :: names, k, 0 => rfl
  | name :: names, k, i + 1 => by
    rw [columns, List.getElem?_cons_succ, List.getElem?_cons_succ, columns_get file names (k + 1) i]
    congr 2
    omega

/-- The same, column by column. -/
theorem C357_columns (file : Text) (names : List Text) (i : Nat) :
    (columns file 2 names).length = names.length ∧ (columns file 2 names)[i]? = names[i]?.map (curve file (i + 2)) := by
  refine ⟨?_, by rw [columns_get, Nat.add_comm]⟩
  have : ∀ (names : List Text) (k : Nat), (columns file k names).length = names.length := by
    intro names
    induction names with
    | nil => intro k; rfl
    | cons n ns ih => intro k; simp [columns, ih]
  exact this names 2

theorem showNat_plain (n : Nat) : '%' ∉ showNat n := by
  intro h
  have := (MathSym.showNat_spec n).2.1 _ h
  revert this; decide

theorem not_mem_append {c : Char} {a b : Text} : c ∉ a ++ b ↔ c ∉ a ∧ c ∉ b := by simp

theorem curves_plain (file : Text) (n : Nat) (hf : '%' ∉ file) : ∀ (names : List Text) (i : Nat), (∀ t ∈ names, '%' ∉ t) →
    '%' ∉ curves file n i names
  | [], _, _ => by simp [curves]
  | name :: names, i, h => by
    rw [curves]
    have ih := curves_plain file n hf names (i + 1) fun t ht => h t (List.mem_cons_of_mem _ ht)
    have hnm := h name (by simp)
    have hk := showNat_plain (i + 1)
    simp only [List.mem_append, not_or]
    refine ⟨⟨⟨⟨⟨⟨⟨⟨by decide, hf⟩, by decide⟩, hk⟩, by decide⟩, hnm⟩, by decide⟩, ?_⟩, ih⟩
    split <;> decide

theorem plotCommand_plain (file : Text) (names : List Text) (hf : '%' ∉ file) (hn : ∀ t ∈ names, '%' ∉ t) :
    '%' ∉ plotCommand file names :=
  not_mem_append.2 ⟨not_mem_append.2 ⟨by decide, curves_plain file _ hf _ _ fun t ht => hn t (List.mem_of_mem_drop ht)⟩, by decide⟩

theorem replot_send (r : Text) : send "replot\n".toList r = .ok (r ++ "replot\n".toList) := (C357_pipe _ _).2 (by decide)

/-- A line of the file. -/
def line (values : List Text) : Text := List.intercalate [' '] values ++ ['\n']

theorem joined_line : ∀ (values : List Text), values ≠ [] → joined [' '] values = .ok (line values)
  | [], h => absurd rfl h
  | v :: vs, _ => by
    have : ∀ (vs : List Text) (v : Text), v ++ (vs.map fun w => [' '] ++ w).flatten = List.intercalate [' '] (v :: vs) := by
      intro vs
      induction vs with
      | nil => intro v; simp [List.intercalate]
      | cons w ws ih =>
        intro v
        have := ih w
        simp only [List.intercalate] at this ⊢
        rw [List.intersperse_cons₂]
        simp only [List.flatten_cons, ← this]
        simp
    rw [joined, this, line]

theorem fileCall_line (names values : List Text) (s : FSt) (h : values ≠ []) :
    fileCall monCfg names values s = .ok ⟨s.file ++ line values, s.firstcall⟩ := by
  simp [fileCall, monCfg, joined_line values h]

theorem replots (path : Text) (names : List Text) : ∀ (vs : List (List Text)) (m : Mon), m.firstTime = false → (∀ v ∈ vs, v ≠ []) →
    (Mon.calls path names vs m).1 = ⟨⟨m.file.file ++ (vs.map line).flatten, m.file.firstcall⟩, false,
        m.received ++ (List.replicate vs.length "replot\n".toList).flatten⟩ ∧
      (Mon.calls path names vs m).2 = List.replicate vs.length none
  | [], m, hm, _ => by
    obtain ⟨f, b, r⟩ := m
    simp only at hm
    subst hm
    simp [Mon.calls]
  | v :: vs, m, hm, hv => by
    have e : m.call path names v = ({ m with file := ⟨m.file.file ++ line v, m.file.firstcall⟩, received := m.received ++ "replot\n".toList }, none) := by
      rw [Mon.call, fileCall_line names v m.file (hv v (by simp))]
      simp only [hm, Bool.false_eq_true, if_false, replot_send]
    have ih := replots path names vs { m with file := ⟨m.file.file ++ line v, m.file.firstcall⟩, received := m.received ++ "replot\n".toList } hm
      fun w hw => hv w (List.mem_cons_of_mem _ hw)
    simp only [Mon.calls, e, ih]
    simp [List.replicate_succ]

/-- **C357** (the monitor).  With two parameters or more and no percent sign in the name of the file and the names of the parameters, no call throws; gnuplot is told
to plot at the first call and to plot again at each one after it, and the file has a line for each call. -/
theorem C357_monitor (top : Bool) (existing path : Text) (names : List Text) (hn : 2 ≤ names.length) (hp : '%' ∉ path)
    (hq : ∀ t ∈ names, '%' ∉ t) (v : List Text) (vs : List (List Text)) (hv : ∀ w ∈ v :: vs, w ≠ []) :
    ∃ m, Mon.new top existing = .ok m ∧
      m.received = "set grid\n".toList ++ (if top then "\n".toList else "set key bottom\n".toList) ∧
      (Mon.calls path names (v :: vs) m).2 = List.replicate (vs.length + 1) none ∧
      (Mon.calls path names (v :: vs) m).1.file.file = ((v :: vs).map line).flatten ∧
      (Mon.calls path names (v :: vs) m).1.received =
        m.received ++ plotCommand path names ++ (List.replicate vs.length "replot\n".toList).flatten := by
  have hnew : ∃ r, initGnuPlot (if top then [] else "set key bottom".toList) = .ok r ∧
      r = "set grid\n".toList ++ (if top then "\n".toList else "set key bottom\n".toList) := by
    cases top
    · exact ⟨_, by decide +kernel, rfl⟩
    · exact ⟨_, by decide +kernel, rfl⟩
  obtain ⟨r, hr, hr'⟩ := hnew
  refine ⟨⟨fileNew monCfg existing, true, r⟩, by rw [Mon.new, hr], hr', ?_⟩
  have hpl : send (plotCommand path names) r = .ok (r ++ plotCommand path names) := (C357_pipe _ _).2 (plotCommand_plain path names hp hq)
  have e : Mon.call path names v ⟨fileNew monCfg existing, true, r⟩ =
      (⟨⟨line v, true⟩, false, r ++ plotCommand path names⟩, none) := by
    rw [Mon.call, fileCall_line names v _ (hv v (by simp))]
    simp [show ¬ names.length < 2 by omega, hpl, fileNew, monCfg]
  have ih := replots path names vs ⟨⟨line v, true⟩, false, r ++ plotCommand path names⟩ rfl fun w hw => hv w (List.mem_cons_of_mem _ hw)
  refine ⟨?_, ?_, ?_⟩
  · simp only [Mon.calls, e, ih]
    simp [List.replicate_succ]
  · simp only [Mon.calls, e, ih]
    simp
  · simp only [Mon.calls, e, ih]

/-- **C357** (one parameter).  With one parameter every call throws, always anew, after its line has gone into the file; gnuplot is told nothing. -/
theorem C357_few (path name : Text) : ∀ (vs : List (List Text)) (m : Mon), m.firstTime = true → (∀ w ∈ vs, w ≠ []) →
    (Mon.calls path [name] vs m).2 = List.replicate vs.length (some .thrown) ∧
    (Mon.calls path [name] vs m).1.file.file = m.file.file ++ (vs.map line).flatten ∧
    (Mon.calls path [name] vs m).1.received = m.received
  | [], m, _, _ => by simp [Mon.calls]
  | v :: vs, m, hm, hv => by
    have e : m.call path [name] v = ({ m with file := ⟨m.file.file ++ line v, m.file.firstcall⟩ }, some .thrown) := by
      rw [Mon.call, fileCall_line [name] v m.file (hv v (by simp))]
      simp [hm]
    obtain ⟨i1, i2, i3⟩ := C357_few path name vs { m with file := ⟨m.file.file ++ line v, m.file.firstcall⟩ } hm
      fun w hw => hv w (List.mem_cons_of_mem _ hw)
    simp only [Mon.calls, e, i1, i2, i3]
    simp [List.replicate_succ]

/-- **C357** (percent signs).  A percent sign in the name of the file: the first call is undefined or gnuplot is told something else than the command. -/
theorem C357_percent (path : Text) (names values : List Text) (m : Mon) (hm : m.firstTime = true) (hn : 2 ≤ names.length) (hv : values ≠ [])
    (hp : '%' ∈ path) :
    (m.call path names values).2 = some .ub ∨
    (m.call path names values).1.received ≠ m.received ++ plotCommand path names := by
  have hpc : '%' ∈ plotCommand path names := by
    match names, hn with
    | a :: b :: l, _ =>
      rw [plotCommand, List.drop_one, List.tail_cons, curves]
      simp [hp]
  rw [Mon.call, fileCall_line names values m.file hv]
  simp only [hm, if_true, show ¬ names.length < 2 by omega, if_false]
  cases hs : send (plotCommand path names) m.received with
  | error e =>
    left
    have : ∀ left t e, expand left t = .error e → e = Err.ub := by
      intro left t
      fun_induction expand left t with
      | case1 => intro e h; simp at h
      | case2 left t e' he ih => intro e h; simp only [Except.error.injEq] at h; exact ih e (h ▸ he)
      | case3 left t r' hr ih => intro e h; simp at h
      | case4 left c t hne hc e' he ih => intro e h; simp only [Except.error.injEq] at h; exact ih e (h ▸ he)
      | case5 left c t hne hc r' hr ih => intro e h; simp at h
      | case6 left c t hne hc => intro e h; simp only [Except.error.injEq] at h; exact h.symm
      | case7 => intro e h; simp only [Except.error.injEq] at h; exact h.symm
      | case8 left c t h0 h1 h2 e' he ih => intro e h; simp only [Except.error.injEq] at h; exact ih e (h ▸ he)
      | case9 left c t h0 h1 h2 r' hr ih => intro e h; simp at h
    unfold send at hs
    cases hx : expand true (plotCommand path names) with
    | error e' =>
      rw [hx] at hs
      simp only [Except.error.injEq] at hs
      rw [← hs, this _ _ _ hx]
    | ok r => rw [hx] at hs; simp at hs
  | ok r =>
    right
    intro h
    simp only at h
    rw [h] at hs
    exact (C357_pipe _ _).1 hs hpc

example : plotCommand "f".toList ["gen".toList, "best".toList, "mean".toList] =
    "plot 'f' using 1:2 title 'best' with lines,  'f' using 1:3 title 'mean' with lines\n".toList := by decide +kernel

/-! ### C358 -/

/-- The number of the file written last in the first `n` calls, from counter `c`: files are written when the counter is a multiple of the frequency, and
numbered by the counter after it. -/
def lastFile (frequency c : Nat) : Nat → Option Nat
  | 0 => none
  | n + 1 => if (c + n) % frequency = 0 then some (c + n + 1) else lastFile frequency c n

theorem snapCommand_plain (stem : Text) (h : '%' ∉ stem) (ps c : Nat) (k : Option Nat) : '%' ∉ snapCommand stem ps c k := by
  unfold snapCommand
  simp only [List.mem_append, not_or]
  refine ⟨⟨⟨⟨⟨⟨by decide, showNat_plain _⟩, by decide⟩, ?_⟩, by decide⟩, showNat_plain _⟩, by decide⟩
  cases k with
  | none => simp
  | some k => exact not_mem_append.2 ⟨h, showNat_plain _⟩

/-- **C358** (commands).  Every call tells gnuplot to plot, whether a file was written or not: under the number of the call, the file that was written last,
which is one with an empty name if none was. -/
theorem C358_commands (stem : Text) (hst : '%' ∉ stem) (pointSize frequency c : Nat) (hf : 0 < frequency) :
    ∀ (vs : List (List (List Text))) (_ : c + vs.length < 2 ^ 32) (_ : ∀ v ∈ vs, ∃ l, snapLines v = .ok l) (r : Text),
      Snap.calls stem pointSize frequency vs ⟨c, none, r⟩ = .ok ⟨c + vs.length, lastFile frequency c vs.length,
        r ++ ((List.range vs.length).map fun i => snapCommand stem pointSize (c + i + 1) (lastFile frequency c (i + 1))).flatten⟩ := by
  have snoc : ∀ (vs : List (List (List Text))) (v : List (List Text)) (s : Snap),
      Snap.calls stem pointSize frequency (vs ++ [v]) s =
        match Snap.calls stem pointSize frequency vs s with
        | .error e => .error e
        | .ok s1 => s1.call stem pointSize frequency v := by
    intro vs
    induction vs with
    | nil => intro v s; simp only [List.nil_append, Snap.calls]; cases Snap.call stem pointSize frequency v s <;> rfl
    | cons w ws ih =>
      intro v s
      simp only [List.cons_append, Snap.calls]
      cases Snap.call stem pointSize frequency w s with
      | error e => rfl
      | ok s1 => exact ih v s1
  intro vs
  induction vs using List.reverseRecOn with
  | nil => intro _ _ r; simp [Snap.calls, lastFile]
  | append_singleton vs v ih =>
    intro hlen hv r
    rw [List.length_append, List.length_singleton] at hlen
    rw [snoc, ih (by omega) (fun w hw => hv w (by simp [hw])) r]
    obtain ⟨l, hl⟩ := hv v (by simp)
    have hmod : (c + vs.length + 1) % 2 ^ 32 = c + vs.length + 1 := Nat.mod_eq_of_lt (by omega)
    have hcall : snapCall frequency (c + vs.length) v =
        if (c + vs.length) % frequency = 0 then .ok (some (c + vs.length + 1, l), c + vs.length + 1) else .ok (none, c + vs.length + 1) := by
      unfold snapCall
      rw [if_neg (by omega), hl]
      by_cases h : (c + vs.length) % frequency = 0
      · simp only [h, ne_eq, not_true_eq_false, if_false, if_true, hmod]
      · simp only [h, ne_eq, not_false_eq_true, if_true, if_false, hmod]
    have hcmd : ∀ k, send (snapCommand stem pointSize (c + vs.length + 1) k)
        (r ++ ((List.range vs.length).map fun i => snapCommand stem pointSize (c + i + 1) (lastFile frequency c (i + 1))).flatten) = .ok _ :=
      fun k => (C357_pipe _ _).2 (snapCommand_plain stem hst _ _ k)
    simp only [Snap.call, hcall]
    by_cases h : (c + vs.length) % frequency = 0
    · simp only [h, if_true, hcmd]
      simp [lastFile, h, List.range_succ, Nat.add_assoc]
    · simp only [h, if_false, hcmd]
      simp [lastFile, h, List.range_succ, Nat.add_assoc]

/-- **C358** (numbers).  From counter 0 the file shown after call `n + 1` is the one of call `n - n % frequency + 1`: the title names the right generation exactly
when that call has written a file. From another counter nothing is shown until it reaches a multiple of the frequency. -/
theorem C358_titles (frequency : Nat) (hf : 0 < frequency) (n : Nat) :
    lastFile frequency 0 (n + 1) = some (n - n % frequency + 1) ∧
    (lastFile frequency 0 (n + 1) = some (n + 1) ↔ frequency ∣ n) ∧
    ∀ c, (∀ i < n, ¬ frequency ∣ c + i) → lastFile frequency c n = none := by
  have h1 : lastFile frequency 0 (n + 1) = some (n - n % frequency + 1) := by
    induction n with
    | zero => simp [lastFile]
    | succ n ih =>
      rw [lastFile]
      split
      · rename_i h
        rw [Nat.zero_add] at h
        rw [h, Nat.zero_add, Nat.sub_zero]
      · rename_i h
        rw [Nat.zero_add] at h
        rw [ih]
        have e : (n + 1) % frequency = n % frequency + 1 := by
          have hlt := Nat.mod_lt n hf
          by_cases hh : n % frequency + 1 = frequency
          · exfalso; apply h
            rw [Nat.add_mod]
            rcases Nat.lt_or_ge 1 frequency with g | g
            · rw [Nat.mod_eq_of_lt g, hh, Nat.mod_self]
            · have : frequency = 1 := by omega
              subst this; simp [Nat.mod_one]
          · rw [Nat.add_mod, Nat.mod_eq_of_lt (show 1 < frequency by omega), Nat.mod_eq_of_lt (by omega)]
        rw [e]
        congr 2
        omega
  refine ⟨h1, ?_, ?_⟩
  · rw [h1]
    have hle := Nat.mod_le n frequency
    constructor
    · intro h
      simp only [Option.some.injEq] at h
      exact Nat.dvd_of_mod_eq_zero (by omega)
    · intro h
      rw [Nat.mod_eq_zero_of_dvd h]
      simp
  · intro c h
    clear h1
    induction n with
    | zero => rfl
    | succ n ih =>
      rw [lastFile, if_neg fun hh => h n (by omega) (Nat.dvd_of_mod_eq_zero hh)]
      exact ih fun i hi => h i (by omega)

/-- Every tenth call: the fifth one shows file 1 under the title "Gen. 5". -/
example : (Snap.calls "d/g".toList 5 10 (List.replicate 5 [["7".toList]]) ⟨0, none, []⟩).map (fun s => s.received.drop 228) =
    .ok "set title 'Gen. 5'; plot 'd/g1' notitle with points ps 5\n".toList ∧ lastFile 10 0 5 = some 1 := by decide +kernel

end Paradiseo.Gnuplot
