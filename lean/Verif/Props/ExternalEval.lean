import Verif.Model.ExternalEval
import Verif.Props.MathSymRaw

/-! Properties of the evaluation by other programs, of dumped solutions and of pipes. -/

namespace Paradiseo.ExternalEval

open Paradiseo.EO Paradiseo.State

variable {G F : Type}

/-! ### Chunks -/

theorem chunk_append (k : Nat) (t : Text) : (chunk k t).1 ++ (chunk k t).2 = t := by
  induction k generalizing t with
  | zero => cases t <;> rfl
  | succ k ih =>
    cases t with
    | nil => rfl
    | cons c t =>
      unfold chunk
      split
      · rfl
      · simp [ih t]

theorem chunk_length (k : Nat) (t : Text) : (chunk k t).1.length ≤ k := by
  induction k generalizing t with
  | zero => cases t <;> simp [chunk]
  | succ k ih =>
    cases t with
    | nil => simp [chunk]
    | cons c t =>
      unfold chunk
      split
      · simp
      · simpa using ih t

theorem chunk_pos (k : Nat) (c : Char) (t : Text) : 0 < (chunk (k + 1) (c :: t)).1.length := by
  unfold chunk
  split <;> simp

theorem cString_self {t : Text} (h : '\x00' ∉ t) : cString t = t := by
  unfold cString
  induction t with
  | nil => rfl
  | cons c t ih =>
    simp only [List.mem_cons, not_or] at h
    rw [List.takeWhile_cons_of_pos (by simpa using fun e => h.1 e.symm), ih h.2]

/-- A chunk of a line that fits is the line. -/
theorem chunk_line (l : Text) (rest : Text) (k : Nat) (h : '\n' ∉ l) (hk : l.length + 1 ≤ k) :
    chunk k (l ++ '\n' :: rest) = (l ++ ['\n'], rest) := by
  induction l generalizing k with
  | nil =>
    obtain ⟨k, rfl⟩ := Nat.exists_eq_add_of_le' hk
    simp [chunk]
  | cons c l ih =>
    obtain ⟨k, rfl⟩ := Nat.exists_eq_add_of_le' (show 1 ≤ k by simp at hk; omega)
    simp only [List.mem_cons, not_or] at h
    simp only [List.length_cons] at hk
    simp only [List.cons_append, chunk]
    rw [if_neg (fun e => h.1 e.symm), ih k h.2 (by omega)]

theorem dropWhile_nil {q : Char → Bool} {t : Text} : t.dropWhile q = [] ↔ ∀ x ∈ t, q x = true := by
  induction t with
  | nil => simp
  | cons c t ih =>
    by_cases h : q c = true
    · rw [List.dropWhile_cons_of_pos h, ih]; simp [h]
    · rw [List.dropWhile_cons_of_neg h]; simp [h]

/-! ### C302: commands -/

private theorem readAll_spec (n : Nat) (hn : 2 ≤ n) : ∀ (fuel : Nat) (out rest : Text), '\x00' ∉ rest → rest.length < fuel →
    readAll n fuel out rest = .ok (out ++ rest) := by
  obtain ⟨k, rfl⟩ := Nat.exists_eq_add_of_le' hn
  intro fuel
  induction fuel with
  | zero => intro out rest _ h; omega
  | succ fuel ih =>
    intro out rest h0 h
    cases rest with
    | nil => simp [readAll]
    | cons c t =>
      have ha := chunk_append (k + 1) (c :: t)
      have hp := chunk_pos k c t
      have hl : (chunk (k + 1) (c :: t)).1.length + (chunk (k + 1) (c :: t)).2.length = (c :: t).length := by
        rw [← List.length_append, ha]
      have h1 : '\x00' ∉ (chunk (k + 1) (c :: t)).1 := fun hm => h0 (by rw [← ha]; exact List.mem_append_left _ hm)
      have h2 : '\x00' ∉ (chunk (k + 1) (c :: t)).2 := fun hm => h0 (by rw [← ha]; exact List.mem_append_right _ hm)
      have e : readAll (k + 2) (fuel + 1) out (c :: t) =
          readAll (k + 2) fuel (out ++ cString (chunk (k + 1) (c :: t)).1) (chunk (k + 1) (c :: t)).2 := by
        rw [readAll]
      rw [e, ih _ _ h2 (by omega), cString_self h1, List.append_assoc, ha]

/-- Whatever the size of the buffer is, from two on: all of the output of the command is read. -/
theorem C302_output (n : Nat) (hn : 2 ≤ n) (text : Text) (h : '\x00' ∉ text) (fuel : Nat) (hf : text.length < fuel) :
    readAll n fuel [] text = .ok text := by simpa using readAll_spec n hn fuel [] text h hf

/-- With a buffer of one character the evaluation never ends. -/
theorem C302_buffer_of_one (fuel : Nat) (out text : Text) : readAll 1 fuel out text = .error .fuel := by
  induction fuel generalizing out text with
  | zero => rfl
  | succ fuel ih => rw [readAll]; exact ih out text

/-- If the output has characters of code zero, what is read depends on the size of the buffer. -/
theorem C302_zero_characters : readAll 2 10 [] ['a', '\x00', 'b'] = .ok ['a', 'b'] ∧
    readAll 128 10 [] ['a', '\x00', 'b'] = .ok ['a'] := by decide +kernel

/-- A solution that has a fitness is left alone, no command is run. -/
theorem C302_valid (c : Cmd) (p : Format G F) (shell : Text → Option (Text × Int)) (fuel : Nat) (s : CmdSt G F)
    (h : s.sol.invalid = false) : c.eval p shell fuel s = (.ok (), s) := by simp [Cmd.eval, h]

/-- The line given to the shell for a solution without fitness: the tag INVALID is an argument of the command. -/
theorem C302_line (c : Cmd) (p : Format G F) (x : Ind G F) (h : x.invalid = true) :
    c.line (p.sol x) = c.pre ++ " ".toList ++ c.cmd ++ " ".toList ++ c.infx ++ " INVALID ".toList ++ p.genes x.genome ++
      " ".toList ++ c.suffix := by
  simp [Cmd.line, Format.sol, h, List.append_assoc]

/-- A solution without fitness: exactly one line is run and remembered.  The evaluation succeeds exactly if the command
could be started, returned zero and printed something that is not blank; then the fitness is the number printed, or zero
if no number was printed; otherwise the solution is what it was.  The representation is never changed. -/
theorem C302_outcome (c : Cmd) (p : Format G F) (shell : Text → Option (Text × Int)) (fuel : Nat) (s : CmdSt G F)
    (h : s.sol.invalid = true) (hb : 2 ≤ c.buffer)
    (ht : ∀ text code, shell (c.line (p.sol s.sol)) = some (text, code) → '\x00' ∉ text ∧ text.length < fuel) :
    (c.eval p shell fuel s).2.last = c.line (p.sol s.sol) ∧
    (c.eval p shell fuel s).2.run = s.run ++ [c.line (p.sol s.sol)] ∧
    ((c.eval p shell fuel s).1 = .ok () ↔
      ∃ text, shell (c.line (p.sol s.sol)) = some (text, 0) ∧ ∃ ch ∈ text, isSpace ch = false) ∧
    (∀ text, shell (c.line (p.sol s.sol)) = some (text, 0) → (∃ ch ∈ text, isSpace ch = false) →
      (c.eval p shell fuel s).2.sol = ⟨s.sol.genome, (p.num (text.dropWhile isSpace)).getD p.zero, false⟩) ∧
    ((c.eval p shell fuel s).1 ≠ .ok () → (c.eval p shell fuel s).2.sol = s.sol) := by
  unfold Cmd.eval
  simp only [h, Bool.not_true, Bool.false_eq_true, if_false]
  cases hs : shell (c.line (p.sol s.sol)) with
  | none => simp
  | some r =>
    obtain ⟨text, code⟩ := r
    obtain ⟨h0, hf⟩ := ht text code hs
    simp only [C302_output c.buffer hb text h0 fuel hf]
    by_cases hc : code = 0
    · subst hc
      simp only [ne_eq, not_true_eq_false, if_false, Format.readFit]
      by_cases hd : text.dropWhile isSpace = []
      · simp only [hd]
        have hd' : ∀ ch ∈ text, isSpace ch = true := dropWhile_nil.1 hd
        have : ¬ ∃ ch ∈ text, isSpace ch = false := by
          rintro ⟨ch, h1, h2⟩
          rw [hd' ch h1] at h2; cases h2
        simp only [Option.some.injEq, Prod.mk.injEq, and_true, exists_eq_left', this]
        simp
        intro x hx hx'
        exact absurd ⟨x, hx, hx'⟩ this
      · obtain ⟨a, l, hal⟩ := List.exists_cons_of_ne_nil hd
        simp only [hal]
        have : ∃ ch ∈ text, isSpace ch = false := by
          by_contra hcon
          push Not at hcon
          exact hd (dropWhile_nil.2 fun x hx => by simpa using hcon x hx)
        simp only [Option.some.injEq, Prod.mk.injEq, and_true, exists_eq_left', this]
        simp [Ind.setFitness]
        intro _ _ _
        rw [hal]
    · simp only [ne_eq, hc, not_false_eq_true, if_true, Option.some.injEq, Prod.mk.injEq, and_false]
      simp

/-- A little language of numbers: one digit. -/
def digits : Format Nat Nat :=
  ⟨fun n => showNat n, fun n => showNat n, fun t => match t with
    | c :: _ => if c.isDigit then some (c.toNat - 48) else none
    | [] => none, 0⟩

def echo : Cmd := ⟨"f".toList, ">&1".toList, [], [], 128⟩

/-- A command that prints seven; one that complains but returns zero; one that fails. -/
example : ((echo.eval digits (fun _ => some (" 7\n".toList, 0)) 10 ⟨Ind.new 3, [], []⟩).1,
    (echo.eval digits (fun _ => some (" 7\n".toList, 0)) 10 ⟨Ind.new 3, [], []⟩).2.sol) =
    (.ok (), ⟨3, 7, false⟩) := by decide +kernel
example : (echo.eval digits (fun _ => some (" 7\n".toList, 0)) 10 ⟨Ind.new 3, [], []⟩).2.last =
    ">&1 f  INVALID 3 ".toList := by decide +kernel
example : (echo.eval digits (fun _ => some ("error\n".toList, 0)) 10 ⟨Ind.new 3, [], []⟩).2.sol = ⟨3, 0, false⟩ := by
  decide +kernel
example : ((echo.eval digits (fun _ => some ("7".toList, 1)) 10 ⟨Ind.new 3, [], []⟩).1,
    (echo.eval digits (fun _ => some ("7".toList, 1)) 10 ⟨Ind.new 3, [], []⟩).2.sol) =
    (.error .thrown, Ind.new 3) := by decide +kernel

/-- A command that succeeds without printing a number gives the solution the fitness zero, with no error. -/
theorem C302_no_number (c : Cmd) (p : Format G F) (shell : Text → Option (Text × Int)) (fuel : Nat) (s : CmdSt G F)
    (h : s.sol.invalid = true) (hb : 2 ≤ c.buffer) (text : Text)
    (hs : shell (c.line (p.sol s.sol)) = some (text, 0)) (h0 : '\x00' ∉ text) (hf : text.length < fuel)
    (hne : ∃ ch ∈ text, isSpace ch = false) (hn : p.num (text.dropWhile isSpace) = none) :
    (c.eval p shell fuel s).1 = .ok () ∧ (c.eval p shell fuel s).2.sol.fitness = some p.zero := by
  obtain ⟨-, -, h3, h4, -⟩ := C302_outcome c p shell fuel s h hb (by
    intro t code e
    rw [hs] at e
    simp only [Option.some.injEq, Prod.mk.injEq] at e
    rw [← e.1]
    exact ⟨h0, hf⟩)
  refine ⟨h3.2 ⟨text, hs, hne⟩, ?_⟩
  rw [h4 text hs hne, hn]
  rfl

/-! ### C303: named pipes -/

/-- A solution that has a fitness is left alone. -/
theorem C303_valid (p : Format G F) (world : Text → Text → Text → Text) (out inp : Text) (x : Ind G F)
    (h : x.invalid = false) : pipeEval p world out inp x = .ok x := by simp [pipeEval, h]

/-- A program at the other end that answers the text of a solution by a number: the solution gets that number. -/
theorem C303_dialogue (p : Format G F) (world : Text → Text → Text → Text) (out inp : Text) (hi : inp ≠ [])
    (program : Text → Text) (hw : ∀ t, world out (t ++ "\n".toList) inp = program t) (x : Ind G F) (h : x.invalid = true)
    (f : F) (hf : p.num ((program ("INVALID ".toList ++ p.genes x.genome)).dropWhile isSpace) = some f)
    (hne : ∃ ch ∈ program ("INVALID ".toList ++ p.genes x.genome), isSpace ch = false) :
    pipeEval p world out inp x = .ok ⟨x.genome, f, false⟩ := by
  have e : world out (p.sol x ++ ['\n']) inp = program ("INVALID ".toList ++ p.genes x.genome) := by
    have := hw (p.sol x)
    simp only [Format.sol, h, if_true] at this ⊢
    exact this
  unfold pipeEval pipeInput
  simp only [h, Bool.not_true, Bool.false_eq_true, if_false, hi, e, Format.readFit]
  cases hd : (program ("INVALID ".toList ++ p.genes x.genome)).dropWhile isSpace with
  | nil =>
    obtain ⟨ch, h1, h2⟩ := hne
    rw [dropWhile_nil.1 hd ch h1] at h2; cases h2
  | cons a l => rw [hd] at hf; simp [hf, Ind.setFitness]

/-- Without a name for the input the output is read; if that is an ordinary file and not a pipe, the evaluation reads what
it has just written: every solution silently gets the fitness zero. -/
theorem C303_same_plain_file (p : Format G F) (hn : ∀ t, p.num ('I' :: t) = none) (disk : Text → Text) (out inp : Text)
    (hi : inp = [] ∨ inp = out) (x : Ind G F) (h : x.invalid = true) :
    pipeEval p (plainFiles disk) out inp x = .ok ⟨x.genome, p.zero, false⟩ := by
  have e : pipeInput out inp = out := by
    unfold pipeInput
    rcases hi with rfl | rfl
    · simp
    · split <;> rfl
  unfold pipeEval
  simp only [h, Bool.not_true, Bool.false_eq_true, if_false, e, plainFiles, if_true]
  have hs : p.sol x ++ ['\n'] = 'I' :: ("NVALID ".toList ++ p.genes x.genome ++ ['\n']) := by
    simp [Format.sol, h]
  rw [hs]
  have hd : ∀ t : Text, ('I' :: t).dropWhile isSpace = 'I' :: t := fun t => by
    rw [List.dropWhile_cons_of_neg (by decide)]
  simp only [Format.readFit, hd, hn, Option.getD_none, Ind.setFitness]

/-- With two ordinary files the fitness does not depend on the solution. -/
theorem C303_two_plain_files (p : Format G F) (disk : Text → Text) (out inp : Text) (hi : inp ≠ []) (hne : inp ≠ out)
    (x y : Ind G F) (hx : x.invalid = true) (hy : y.invalid = true) :
    (pipeEval p (plainFiles disk) out inp x).map Ind.fitness = (pipeEval p (plainFiles disk) out inp y).map Ind.fitness := by
  unfold pipeEval pipeInput
  simp only [hx, hy, Bool.not_true, Bool.false_eq_true, if_false, hi, plainFiles, hne]
  cases p.readFit (disk inp) <;> simp [Except.map, Ind.setFitness, Ind.fitness]

example : pipeEval digits (fun _ t _ => if t = "INVALID 3\n".toList then "8".toList else []) ['o'] ['i'] (Ind.new 3) =
    .ok ⟨3, 8, false⟩ := by decide +kernel
example : ∀ t, digits.num ('I' :: t) = none := fun _ => by
  simp only [digits]
  rw [if_neg (by decide)]
example : pipeEval digits (plainFiles fun _ => []) ['o'] [] (Ind.new 3) = .ok ⟨3, 0, false⟩ := by decide +kernel

/-! ### C304: dumps -/

theorem showNat_injective {m n : Nat} (h : showNat m = showNat n) : m = n := by
  rw [← (MathSym.showNat_spec m).2.2, ← (MathSym.showNat_spec n).2.2, h]

/-- The names of different calls are different, as long as the counter does not wrap. -/
theorem C304_names (d : Dump) (h : d.single = false) (i j : Nat) : d.file i = d.file j ↔ i = j := by
  simp only [Dump.file, h, Bool.false_eq_true, if_false, List.append_cancel_left_eq]
  exact ⟨showNat_injective, fun e => by rw [e]⟩

/-- A sequence of calls writes one file for each solution, with the evaluated solution and nothing else; other files are
what they were, also those of other numbers. -/
theorem C304_files (d : Dump) (h : d.single = false) (p : Format G F) (eval : Ind G F → Ind G F) (debug : Bool)
    (open_ : Text → Bool) (ho : ∀ n, open_ n = true) (xs : List (Ind G F)) :
    ∀ s : DumpSt, s.count + xs.length < 2 ^ 32 →
    ∃ s', d.calls p eval open_ debug xs s = .ok (xs.map eval, s') ∧ s'.count = s.count + xs.length ∧
      (∀ i (hi : i < xs.length), s'.disk (d.file (s.count + i)) = some (p.sol (eval xs[i]) ++ "\n".toList)) ∧
      ∀ n, (∀ i, i < xs.length → n ≠ d.file (s.count + i)) → s'.disk n = s.disk n := by
  induction xs with
  | nil => intro s _; exact ⟨s, rfl, rfl, fun i hi => absurd hi (by simp), fun _ _ => rfl⟩
  | cons x xs ih =>
    intro s hc
    simp only [List.length_cons] at hc
    have hm : (s.count + 1) % 2 ^ 32 = s.count + 1 := Nat.mod_eq_of_lt (by omega)
    obtain ⟨s', h1, h2, h3, h4⟩ := ih ⟨fun n => if n = d.file s.count then some (p.sol (eval x) ++ ['\n']) else s.disk n,
      s.count + 1⟩ (by simp only; omega)
    refine ⟨s', ?_, by simp only at h2; rw [h2, List.length_cons]; omega, ?_, ?_⟩
    · simp only [Dump.calls, Dump.call, ho, if_true, hm, h1, List.map_cons]
    · intro i hi
      cases i with
      | zero =>
        rw [h4 _ fun j _ e => by
          have := (C304_names d h _ _).1 e
          simp only at this
          omega]
        simp
      | succ i =>
        have := h3 i (by simpa using hi)
        simp only at this
        rw [show s.count + (i + 1) = s.count + 1 + i by omega]
        simpa using this
    · intro n hn
      rw [h4 n fun i hi => by
        have := hn (i + 1) (by simpa using hi)
        rwa [show s.count + (i + 1) = s.count + 1 + i by omega] at this]
      have := hn 0 (by simp)
      simp only [Nat.add_zero] at this
      simp [this]

/-- With a single file only the last solution is kept. -/
theorem C304_single (d : Dump) (h : d.single = true) (p : Format G F) (eval : Ind G F → Ind G F) (debug : Bool)
    (open_ : Text → Bool) (ho : ∀ n, open_ n = true) (xs : List (Ind G F)) (x : Ind G F) :
    ∀ s : DumpSt, ∃ s', d.calls p eval open_ debug (xs ++ [x]) s = .ok ((xs ++ [x]).map eval, s') ∧
      s'.disk d.name = some (p.sol (eval x) ++ "\n".toList) ∧ ∀ n, n ≠ d.name → s'.disk n = s.disk n := by
  induction xs with
  | nil =>
    intro s
    simp [Dump.calls, Dump.call, Dump.file, h, ho]
    intro n h1 h2
    exact absurd h2 h1
  | cons y xs ih =>
    intro s
    obtain ⟨s', h1, h2, h3⟩ := ih ⟨fun n => if n = d.name then some (p.sol (eval y) ++ ['\n']) else s.disk n,
      (s.count + 1) % 2 ^ 32⟩
    refine ⟨s', ?_, h2, fun n hn => by rw [h3 n hn]; simp [hn]⟩
    simp only [List.cons_append, Dump.calls, Dump.call, Dump.file, h, if_true, ho, h1, List.map_cons]

/-- A file that cannot be opened: an exception in debugging builds; otherwise the solution is lost without notice, and
its number is used up. -/
theorem C304_closed (d : Dump) (p : Format G F) (eval : Ind G F → Ind G F) (open_ : Text → Bool) (s : DumpSt)
    (x : Ind G F) (h : open_ (d.file s.count) = false) :
    d.call p eval open_ true s x = .error .thrown ∧
    d.call p eval open_ false s x = .ok (eval x, ⟨s.disk, (s.count + 1) % 2 ^ 32⟩) := by simp [Dump.call, h]

example : ((Dump.mk "sol".toList false ".".toList).calls digits (evalFuncPtr (· * 2)) (fun _ => true) true
      [Ind.new 1, Ind.new 4] ⟨fun _ => none, 9⟩).map (fun r => (r.2.disk "sol.9".toList, r.2.disk "sol.10".toList)) =
    .ok (some "2 1\n".toList, some "8 4\n".toList) := by decide +kernel
example : ((Dump.mk "sol".toList true ".".toList).calls digits (evalFuncPtr (· * 2)) (fun _ => true) true
      [Ind.new 1, Ind.new 4] ⟨fun _ => none, 9⟩).map (fun r => r.2.disk "sol".toList) = .ok (some "8 4\n".toList) := by
  decide +kernel

/-! ### C305: pipes -/

private theorem printf_count (N : Nat) : ∀ (left : Nat) (t out : Text), t.length ≤ N → printf left t = .ok out →
    out.count '%' ≤ t.count '%' ∧ ('%' ∈ t → out.count '%' < t.count '%') := by
  induction N with
  | zero =>
    intro left t out hN h
    obtain rfl := List.length_eq_zero_iff.1 (Nat.le_zero.1 hN)
    simp only [printf, Except.ok.injEq] at h; subst h; simp
  | succ N ih =>
    intro left t out hN h
    cases t with
    | nil => simp only [printf, Except.ok.injEq] at h; subst h; simp
    | cons c t =>
      simp only [List.length_cons] at hN
      rw [printf.eq_def] at h
      dsimp only at h
      by_cases hc : c = '%'
      · subst hc
        simp only [ne_eq, not_true_eq_false, if_false] at h
        cases t with
        | nil => cases h
        | cons d t =>
          simp only [List.length_cons] at hN
          dsimp only at h
          have hd : ('%' :: d :: t).count '%' ≥ t.count '%' + 1 := by
            rw [List.count_cons_self, List.count_cons]; omega
          by_cases h1 : d = '%'
          · subst h1
            simp only [if_true] at h
            cases hp : printf left t with
            | error e => simp [hp, Except.map] at h
            | ok o =>
              simp only [hp, Except.map, Except.ok.injEq] at h
              subst h
              have := (ih left t o (by omega) hp).1
              simp
              omega
          · by_cases h2 : d = 'd' ∨ d = 'i' ∨ d = 'u'
            · simp only [h1, h2, if_true, if_false] at h
              cases left with
              | zero => cases h
              | succ n =>
                dsimp only at h
                cases hp : printf n t with
                | error e => simp [hp, Except.map] at h
                | ok o =>
                  simp only [hp, Except.map, Except.ok.injEq] at h
                  subst h
                  have := (ih n t o (by omega) hp).1
                  have : ('0' :: o).count '%' = o.count '%' := by rw [List.count_cons_of_ne (by decide)]
                  exact ⟨by omega, fun _ => by omega⟩
            · simp only [h1, h2, if_false] at h
              cases h
      · simp only [ne_eq, hc, not_false_eq_true, if_true] at h
        cases hp : printf left t with
        | error e => simp [hp, Except.map] at h
        | ok o =>
          simp only [hp, Except.map, Except.ok.injEq] at h
          subst h
          obtain ⟨i1, i2⟩ := ih left t o (by omega) hp
          rw [List.count_cons_of_ne hc, List.count_cons_of_ne hc]
          refine ⟨i1, fun hm => i2 ?_⟩
          rcases List.mem_cons.1 hm with h' | h'
          · exact absurd h'.symm hc
          · exact h'

private theorem printf_plain (left : Nat) (t : Text) (h : '%' ∉ t) : printf left t = .ok t := by
  induction t with
  | nil => rfl
  | cons c t ih =>
    simp only [List.mem_cons, not_or] at h
    rw [printf.eq_def]
    dsimp only
    rw [if_pos (fun e => h.1 e.symm), ih h.2]
    rfl

/-- A line arrives at the other end as it is if and only if it has no percent sign: it is used as a format. -/
theorem C305_send (line : Text) : pipeSend line = .ok line ↔ '%' ∉ line := by
  constructor
  · intro h hm
    have := (printf_count _ 1 line line (Nat.le_refl _) h).2 hm
    omega
  · exact printf_plain 1 line

/-- For example a percentage in the title of a plot. -/
theorem C305_percent : pipeSend "set title '5%d'".toList = .ok "set title '50'".toList ∧
    pipeSend "set title '5% off'".toList = .error .ub := by decide +kernel

/-- The other function sends the characters as they are. -/
theorem C305_sendn (data : Text) : pipeSendn data data.length = .ok data := by simp [pipeSendn]

/-- The text a program writes: its lines. -/
def linesOf (ls : List Text) : Text := (ls.map (· ++ "\n".toList)).flatten

/-- Lines that fit into the buffer. -/
def Fits (l : Text) : Prop := '\n' ∉ l ∧ '\x00' ∉ l ∧ l.length ≤ 254

private theorem chunk_linesOf (l : Text) (ls : List Text) (h : Fits l) :
    chunk 255 (linesOf (l :: ls)) = (l ++ ['\n'], linesOf ls) := by
  have : linesOf (l :: ls) = l ++ '\n' :: linesOf ls := by simp [linesOf]
  rw [this]
  exact chunk_line l _ 255 h.1 (by have := h.2.2; omega)

private theorem cString_line (l : Text) (h : Fits l) : cString (l ++ ['\n']) = l ++ ['\n'] := by
  apply cString_self
  intro hm
  rcases List.mem_append.1 hm with h' | h'
  · exact h.2.1 h'
  · simp at h'

/-- Waiting for a line, given with its newline: if the program writes it, the wait ends there, and what follows has not
been read. -/
theorem C305_wait_found (before after : List Text) (l : Text) (hb : ∀ x ∈ before, Fits x) (hl : Fits l)
    (hn : l ∉ before) (fuel : Nat) (hf : before.length < fuel) :
    waitFor (l ++ "\n".toList) fuel (linesOf (before ++ l :: after)) = some (true, linesOf after) := by
  induction before generalizing fuel with
  | nil =>
    obtain ⟨fuel, rfl⟩ := Nat.exists_eq_add_of_le' hf
    simp only [List.nil_append, waitFor, List.length_nil, Nat.zero_add, chunk_linesOf l after hl, cString_line l hl]
    simp
  | cons x before ih =>
    obtain ⟨fuel, rfl⟩ := Nat.exists_eq_add_of_le' (show 1 ≤ fuel by simp at hf; omega)
    have hx := hb x List.mem_cons_self
    simp only [List.mem_cons, not_or] at hn
    simp only [List.cons_append, waitFor, chunk_linesOf x _ hx, cString_line x hx]
    rw [if_neg (by simp), if_neg (by simpa using fun e => hn.1 e.symm)]
    exact ih (fun y hy => hb y (List.mem_cons_of_mem _ hy)) hn.2 fuel (by simpa using hf)

/-- If it does not, everything it writes is read, and the wait fails. -/
theorem C305_wait_missing (ls : List Text) (what : Text) (hb : ∀ x ∈ ls, Fits x)
    (hn : ∀ x ∈ ls, x ++ "\n".toList ≠ what) (fuel : Nat) (hf : ls.length < fuel) :
    waitFor what fuel (linesOf ls) = some (false, []) := by
  induction ls generalizing fuel with
  | nil =>
    obtain ⟨fuel, rfl⟩ := Nat.exists_eq_add_of_le' hf
    simp [waitFor, linesOf, chunk, cString]
  | cons x ls ih =>
    obtain ⟨fuel, rfl⟩ := Nat.exists_eq_add_of_le' (show 1 ≤ fuel by simp at hf; omega)
    have hx := hb x List.mem_cons_self
    simp only [waitFor, chunk_linesOf x _ hx, cString_line x hx]
    rw [if_neg (by simp), if_neg (by simpa using hn x List.mem_cons_self)]
    exact ih (fun y hy => hb y (List.mem_cons_of_mem _ hy)) (fun y hy => hn y (List.mem_cons_of_mem _ hy)) fuel
      (by simpa using hf)

/-- In particular a text given without its newline is never found. -/
theorem C305_wait_without_newline (ls : List Text) (what : Text) (hb : ∀ x ∈ ls, Fits x) (hw : '\n' ∉ what) (fuel : Nat)
    (hf : ls.length < fuel) : waitFor what fuel (linesOf ls) = some (false, []) :=
  C305_wait_missing ls what hb (fun x _ e => hw (e ▸ by simp)) fuel hf

/-- Nor is one that does not fit into the buffer, whatever the program writes. -/
theorem C305_wait_long (what : Text) (hw : 255 < what.length) (fuel : Nat) (rest left : Text) :
    waitFor what fuel rest ≠ some (true, left) := by
  induction fuel generalizing rest with
  | zero => simp [waitFor]
  | succ fuel ih =>
    simp only [waitFor]
    split
    · simp
    · split
      · rename_i h
        have h1 : (cString (chunk 255 rest).1).length ≤ (chunk 255 rest).1.length :=
          (List.takeWhile_prefix _).length_le
        have h2 := chunk_length 255 rest
        rw [h] at h1
        omega
      · exact ih _

example : waitFor "ok\n".toList 5 "hello\nok\nmore".toList = some (true, "more".toList) := by decide +kernel
example : Fits "ok".toList ∧ "ok".toList ∉ ["hello".toList] := by
  refine ⟨⟨?_, ?_, ?_⟩, ?_⟩ <;> decide

end Paradiseo.ExternalEval
