import Verif.Model.Monitors
import Verif.Lemmas.State
import Verif.Props.MathSymRaw
/-
C291: the file of a file monitor.
C292: the columns of a monitor on a stream.
C293: snapshots.
-/
namespace Paradiseo.Monitors

open Paradiseo.EO Paradiseo.State

/-! ### C291 -/

/-- What a reader of the file sees: lines, and in each line the texts between the separators. -/
def table (d : Char) (t : Text) : List (List Text) := ((t.splitOn '\n').dropLast).map fun l => l.splitOn d

theorem joined_eq (d : Char) (vs : List Text) (h : vs ≠ []) :
    joined [d] vs = .ok ([d].intercalate vs ++ ['\n']) := by
  cases vs with
  | nil => exact absurd rfl h
  | cons v vs =>
    simp only [joined]
    congr 2
    induction vs generalizing v with
    | nil => simp
    | cons w vs ih =>
      rw [List.intercalate_cons_cons, ← ih w (by simp)]
      simp

/-- The contents of a file with these rows. -/
def rows (d : Char) (l : List (List Text)) : Text := (l.map fun r => [d].intercalate r ++ ['\n']).flatten

theorem fileCall_eq (c : FCfg) (d : Char) (hd : c.delim = [d]) (names v : List Text) (hn : names ≠ []) (hv : v ≠ []) (s : FSt) :
    fileCall c names v s = .ok
      (if c.overwrite then ⟨rows d [v], s.firstcall⟩
       else if c.header && s.firstcall && !c.keep then ⟨rows d [names] ++ rows d [v], false⟩
       else ⟨s.file ++ rows d [v], s.firstcall⟩) := by
  obtain ⟨file, fc⟩ := s
  unfold fileCall
  rw [hd, joined_eq d names hn, joined_eq d v hv]
  cases c.overwrite <;> cases c.header <;> cases fc <;> cases c.keep <;> simp [rows]

theorem rows_append (d : Char) (l m : List (List Text)) : rows d (l ++ m) = rows d l ++ rows d m := by
  simp [rows]

theorem rows_cons (d : Char) (v : List Text) (m : List (List Text)) : rows d (v :: m) = rows d [v] ++ rows d m := by
  rw [← rows_append]; rfl

theorem fileCalls_over (c : FCfg) (d : Char) (hd : c.delim = [d]) (names : List Text) (hn : names ≠ [])
    (ho : c.overwrite = true) : ∀ (vs : List (List Text)) (v : List Text), v ≠ [] → (∀ w ∈ vs, w ≠ []) → ∀ s : FSt,
    ∃ s', fileCalls c names (v :: vs) s = .ok s' ∧ s'.file = rows d [(v :: vs).getLast (by simp)] := by
  intro vs
  induction vs with
  | nil =>
    intro v hv _ s
    refine ⟨_, by rw [fileCalls, fileCall_eq c d hd names v hn hv]; rfl, ?_⟩
    simp [ho]
  | cons w vs ih =>
    intro v hv hw s
    rw [fileCalls, fileCall_eq c d hd names v hn hv]
    obtain ⟨s', h1, h2⟩ := ih w (hw w (by simp)) (fun x hx => hw x (by simp [hx])) _
    exact ⟨s', h1, by rw [h2]; simp⟩

theorem fileCalls_app (c : FCfg) (d : Char) (hd : c.delim = [d]) (names : List Text) (hn : names ≠ [])
    (ho : c.overwrite = false) : ∀ (vs : List (List Text)), (∀ w ∈ vs, w ≠ []) → ∀ s : FSt,
    (c.header && s.firstcall && !c.keep) = false →
    ∃ s', fileCalls c names vs s = .ok s' ∧ s'.file = s.file ++ rows d vs := by
  intro vs
  induction vs with
  | nil =>
    intro _ s _
    exact ⟨s, rfl, by simp [rows]⟩
  | cons v vs ih =>
    intro hw s hf
    rw [fileCalls, fileCall_eq c d hd names v hn (hw v (by simp))]
    simp only [ho, hf, Bool.false_eq_true, if_false]
    obtain ⟨s', h1, h2⟩ := ih (fun x hx => hw x (by simp [hx])) ⟨s.file ++ rows d [v], s.firstcall⟩ hf
    refine ⟨s', h1, ?_⟩
    rw [h2, rows_cons d v vs, List.append_assoc]

/-- What the file holds in the end: with `overwrite` the last values only; otherwise what was there before if it is kept,
the names if they are asked for and nothing was kept, and one line per call. -/
def expected (c : FCfg) (names : List Text) (vs : List (List Text)) : List (List Text) :=
  if c.overwrite then vs.getLast?.toList else if c.header && !c.keep then names :: vs else vs

/-- **C291** (contents). -/
theorem C291_contents (c : FCfg) (d : Char) (hd : c.delim = [d]) (names : List Text) (hn : names ≠ []) (existing : Text)
    (vs : List (List Text)) (hne : vs ≠ []) (hvs : ∀ v ∈ vs, v ≠ []) :
    ∃ s, fileCalls c names vs (fileNew c existing) = .ok s ∧
      s.file = (if c.keep && !c.overwrite then existing else []) ++ rows d (expected c names vs) := by
  cases vs with
  | nil => exact absurd rfl hne
  | cons v vs =>
    by_cases ho : c.overwrite = true
    · obtain ⟨s, h1, h2⟩ := fileCalls_over c d hd names hn ho vs v (hvs v (by simp)) (fun w hw => hvs w (by simp [hw]))
        (fileNew c existing)
      refine ⟨s, h1, ?_⟩
      rw [h2]
      simp [expected, ho, List.getLast?_eq_some_getLast]
    · rw [Bool.not_eq_true] at ho
      by_cases hf : (c.header && !c.keep) = true
      · rw [fileCalls, fileCall_eq c d hd names v hn (hvs v (by simp))]
        have hf' : (c.header && (fileNew c existing).firstcall && !c.keep) = true := by
          simpa [fileNew] using hf
        simp only [ho, hf', Bool.false_eq_true, if_false, if_true]
        obtain ⟨s, h1, h2⟩ := fileCalls_app c d hd names hn ho vs (fun w hw => hvs w (by simp [hw]))
          ⟨rows d [names] ++ rows d [v], false⟩ (by simp)
        refine ⟨s, h1, ?_⟩
        have hk : c.keep = false := by simp at hf; exact hf.2
        have he : expected c names (v :: vs) = names :: v :: vs := by simp only [expected, ho, hf, Bool.false_eq_true, if_false, if_true]
        rw [h2, he, hk]
        simp [rows]
      · rw [Bool.not_eq_true] at hf
        obtain ⟨s, h1, h2⟩ := fileCalls_app c d hd names hn ho (v :: vs) hvs (fileNew c existing) (by
          simpa [fileNew] using hf)
        refine ⟨s, h1, ?_⟩
        rw [h2]
        simp only [expected, ho, hf, Bool.false_eq_true, if_false, fileNew, Bool.not_false, Bool.and_true]

theorem splitOn_rows (l : List Text) (h : ∀ r ∈ l, '\n' ∉ r) :
    ((l.map fun r => r ++ ['\n']).flatten).splitOn '\n' = l ++ [[]] := by
  have : (l.map fun r => r ++ ['\n']).flatten = ['\n'].intercalate (l ++ [[]]) := by
    induction l with
    | nil => rfl
    | cons a l ih =>
      rw [List.map_cons, List.flatten_cons, ih fun r hr => h r (by simp [hr])]
      cases l with
      | nil => simp
      | cons b l => simp [List.intercalate_cons_cons]
  rw [this]
  apply List.splitOn_intercalate
  · intro x hx
    rcases List.mem_append.mp hx with hx | hx
    · exact h x hx
    · simp at hx; subst hx; simp
  · simp

theorem not_mem_intercalate {c d : Char} (hcd : c ≠ d) : ∀ q : List Text, (∀ t ∈ q, c ∉ t) → c ∉ [d].intercalate q
  | [], _ => by simp
  | [a], h => by simpa using h a (by simp)
  | a :: b :: q, h => by
    rw [List.intercalate_cons_cons]
    have := not_mem_intercalate hcd (b :: q) fun t ht => h t (by simp [ht])
    simp only [List.mem_append, List.mem_singleton, not_or]
    exact ⟨⟨h a (by simp), hcd⟩, this⟩

/-- **C291** (read back).  If no name and no value contains the separator or a newline, reading the file gives the table of
the values back. -/
theorem C291_table (c : FCfg) (d : Char) (hd : c.delim = [d]) (names : List Text) (hn : names ≠ []) (existing : Text)
    (vs : List (List Text)) (hne : vs ≠ []) (hvs : ∀ v ∈ vs, v ≠ []) (hk : c.keep = false)
    (hplain : ∀ r ∈ names :: vs, ∀ t ∈ r, d ∉ t ∧ '\n' ∉ t) (hdn : d ≠ '\n') :
    ∃ s, fileCalls c names vs (fileNew c existing) = .ok s ∧ table d s.file = expected c names vs := by
  obtain ⟨s, h1, h2⟩ := C291_contents c d hd names hn existing vs hne hvs
  refine ⟨s, h1, ?_⟩
  have hin : ∀ r ∈ expected c names vs, r ∈ names :: vs := by
    intro r hr
    unfold expected at hr
    split at hr
    · rw [Option.mem_toList] at hr
      exact List.mem_cons_of_mem _ (List.mem_of_mem_getLast? hr)
    · split at hr
      · exact hr
      · exact List.mem_cons_of_mem _ hr
  have hnil : ∀ r ∈ expected c names vs, r ≠ [] := by
    intro r hr
    rcases List.mem_cons.mp (hin r hr) with rfl | h
    · exact hn
    · exact hvs r h
  rw [h2, hk]
  simp only [Bool.false_and, Bool.false_eq_true, if_false, List.nil_append, table, rows]
  generalize expected c names vs = l at *
  have e : (l.map fun r => [d].intercalate r ++ ['\n']) = (l.map fun r => [d].intercalate r).map fun r => r ++ ['\n'] := by
    rw [List.map_map]; rfl
  rw [e, splitOn_rows, List.dropLast_concat, List.map_map]
  · conv_rhs => rw [← List.map_id l]
    apply List.map_congr_left
    intro r hr
    simp only [Function.comp_apply, id]
    exact List.splitOn_intercalate d (fun t ht => (hplain r (hin r hr) t ht).1) (hnil r hr)
  · intro r hr
    obtain ⟨q, hq, rfl⟩ := List.mem_map.mp hr
    exact not_mem_intercalate (Ne.symm hdn) q fun t ht => (hplain q (hin q hq) t ht).2

/-- **C291** (nothing to monitor).  Without a parameter the first call is undefined. -/
theorem C291_empty (c : FCfg) (vs : List (List Text)) (s : FSt) : fileCalls c [] ([] :: vs) s = .error .ub := by
  have : fileCall c [] [] s = .error .ub := by
    unfold fileCall
    cases c.overwrite <;> cases c.header <;> cases s.firstcall <;> cases c.keep <;> rfl
  rw [fileCalls, this]

example : table ',' "a,b\n1,2\n".toList = [["a".toList, "b".toList], ["1".toList, "2".toList]] := by decide +kernel

/-! ### C292 -/

/-- A text padded on the right. -/
def pad (w : Nat) (f : Char) (t : Text) : Text := t ++ List.replicate (w - t.length) f

/-- A cell of a row: the value padded, or the padded name, the separator and the value. -/
def cell (c : OCfg) (p : Text × Text) : Text :=
  if c.printNames then pad c.width c.fill p.1 ++ c.nameSep ++ p.2 else pad c.width c.fill p.2

/-- A row: every cell is followed by the delimiter. -/
def row (c : OCfg) (ps : List (Text × Text)) : Text := (ps.map fun p => cell c p ++ c.delim).flatten

/-- The row of names: the first one is not padded. -/
def headerRow (c : OCfg) : List Text → Text
  | [] => []
  | n :: ns => n ++ c.delim ++ (ns.map fun n => pad c.width c.fill n ++ c.delim).flatten

theorem names_eq (c : OCfg) : ∀ (ns : List Text) (s : Stream), s.pending = c.width → s.fill = c.fill →
    s.names c ns = ⟨s.out ++ (ns.map fun n => pad c.width c.fill n ++ c.delim).flatten, c.width, c.fill⟩
  | [], s, h1, h2 => by
    obtain ⟨o, p, f⟩ := s
    simp only at h1 h2
    subst h1; subst h2
    simp [Stream.names]
  | n :: ns, s, h1, h2 => by
    rw [Stream.names, names_eq c ns _ rfl rfl]
    simp [Stream.sep, Stream.put, pad, h1, h2]

theorem values_eq (c : OCfg) : ∀ (ps : List (Text × Text)) (s : Stream), s.pending = c.width → s.fill = c.fill →
    s.values c ps = ⟨s.out ++ row c ps, c.width, c.fill⟩
  | [], s, h1, h2 => by
    obtain ⟨o, p, f⟩ := s
    simp only at h1 h2
    subst h1; subst h2
    simp [Stream.values, row]
  | (n, v) :: ps, s, h1, h2 => by
    rw [Stream.values]
    by_cases hp : c.printNames = true
    · simp only [hp, if_true]
      rw [values_eq c ps _ rfl rfl]
      simp [Stream.sep, Stream.put, pad, h1, h2, row, cell, hp]
    · simp only [hp, if_false]
      rw [values_eq c ps _ rfl rfl]
      simp [Stream.sep, Stream.put, pad, h1, h2, row, cell, hp]

theorem calls_eq (c : OCfg) : ∀ (l : List (List (Text × Text))) (s : Stream), s.pending = c.width → s.fill = c.fill →
    ostreamCalls c l false s = ⟨s.out ++ (l.map fun ps => row c ps ++ ['\n']).flatten, c.width, c.fill⟩
  | [], s, h1, h2 => by
    obtain ⟨o, p, f⟩ := s
    simp only at h1 h2
    subst h1; subst h2
    simp [ostreamCalls]
  | ps :: l, s, h1, h2 => by
    have : ostreamCall c ps false s = ⟨s.out ++ row c ps ++ ['\n'], c.width, c.fill⟩ := by
      unfold ostreamCall
      simp [values_eq c ps s h1 h2, Stream.endl]
    rw [ostreamCalls, this, calls_eq c l _ rfl rfl]
    simp

/-- **C292** (what is written).  On a stream without a pending width, a monitor writes the names of the parameters, the first
one as it is and the others padded, and then a row of padded values per call; afterwards the stream is left with a width:
whatever is written next on it, by whomever, is padded too. -/
theorem C292_output (c : OCfg) (ps : List (Text × Text)) (hps : ps ≠ []) (l : List (List (Text × Text)))
    (out : Text) (f : Char) (t : Text) :
    ∃ s, ostreamCalls c (ps :: l) true ⟨out, 0, f⟩ = s ∧
      s.out = out ++ (headerRow c (ps.map (·.1)) ++ ['\n'] ++ ((ps :: l).map fun ps => row c ps ++ ['\n']).flatten) ∧
      (s.put t).out = s.out ++ pad c.width c.fill t := by
  cases ps with
  | nil => exact absurd rfl hps
  | cons p ps =>
    have h1 : Stream.names c ((p :: ps).map (·.1)) ⟨out, 0, f⟩ =
        ⟨out ++ headerRow c ((p :: ps).map (·.1)), c.width, c.fill⟩ := by
      rw [List.map_cons, Stream.names, names_eq c _ _ rfl rfl]
      simp [Stream.sep, Stream.put, headerRow]
    have h2 : ostreamCall c (p :: ps) true ⟨out, 0, f⟩ =
        ⟨out ++ (headerRow c ((p :: ps).map (·.1)) ++ ['\n'] ++ row c (p :: ps) ++ ['\n']), c.width, c.fill⟩ := by
      unfold ostreamCall
      simp only [if_true]
      rw [h1, values_eq c _ _ rfl rfl]
      simp [Stream.endl]
    refine ⟨_, rfl, ?_, ?_⟩
    · rw [ostreamCalls, h2, calls_eq c l _ rfl rfl]
      simp
    · rw [ostreamCalls, h2, calls_eq c l _ rfl rfl]
      simp [Stream.put, pad]

theorem prefix_cells {α : Type} (w : Nat) : ∀ (l : List (List α)), (∀ x ∈ l, x.length = w) → ∀ i (hi : i < l.length),
    l.flatten.drop (i * w) = (l.drop i).flatten
  | [], _, i, hi => absurd hi (by simp)
  | x :: l, h, 0, _ => by simp
  | x :: l, h, i + 1, hi => by
    have hx := h x (by simp)
    rw [List.flatten_cons, List.drop_succ_cons, Nat.succ_mul, Nat.add_comm, ← List.drop_drop,
      List.drop_append_of_le_length (by omega), ← hx, List.drop_length, List.nil_append, hx]
    exact prefix_cells w l (fun y hy => h y (by simp [hy])) i (by simpa using hi)

/-- **C292** (columns).  If the values fit in the width, the i-th value of every row begins at the same place, i times the
width and the delimiter; the i-th name begins there only if the first name has exactly the width (and the other names
fit), or for i = 0. -/
theorem C292_columns (c : OCfg) (hp : c.printNames = false) (ps : List (Text × Text))
    (hw : ∀ p ∈ ps, p.2.length ≤ c.width) (i : Nat) (p : Text × Text) (hi : ps[i]? = some p) :
    p.2 <+: (row c ps).drop (i * (c.width + c.delim.length)) ∧
    ((∀ p ∈ ps, p.1.length ≤ c.width) → 0 < i → ∀ n0, (ps.map (·.1)).head? = some n0 →
      p.1 <+: (headerRow c (ps.map (·.1))).drop (n0.length + c.delim.length + (i - 1) * (c.width + c.delim.length)) ∧
      (n0.length + c.delim.length + (i - 1) * (c.width + c.delim.length) = i * (c.width + c.delim.length) ↔
        n0.length = c.width)) := by
  have key : ∀ (g : Text × Text → Text) (qs : List (Text × Text)), (∀ q ∈ qs, (g q).length ≤ c.width) → ∀ j q,
      qs[j]? = some q →
      g q <+: ((qs.map fun p => pad c.width c.fill (g p) ++ c.delim).flatten).drop (j * (c.width + c.delim.length)) := by
    intro g qs hq j q hj
    have hjl : j < qs.length := (List.getElem?_eq_some_iff.mp hj).1
    rw [prefix_cells (c.width + c.delim.length) _ _ j (by simpa using hjl)]
    · have : (qs.map fun p => pad c.width c.fill (g p) ++ c.delim).drop j =
          (pad c.width c.fill (g q) ++ c.delim) :: (qs.map fun p => pad c.width c.fill (g p) ++ c.delim).drop (j + 1) := by
        rw [List.drop_eq_getElem_cons (by simpa using hjl)]
        congr 1
        have := (List.getElem?_eq_some_iff.mp hj).2
        simp [this]
      rw [this, List.flatten_cons]
      unfold pad
      exact ⟨_, by simp only [List.append_assoc]; rfl⟩
    · intro x hx
      obtain ⟨r, hr, rfl⟩ := List.mem_map.mp hx
      have := hq r hr
      simp only [pad, List.length_append, List.length_replicate]
      omega
  constructor
  · have := key (·.2) ps hw i p hi
    simpa [row, cell, hp] using this
  · intro hn h0 n0 hn0
    cases ps with
    | nil => simp at hi
    | cons q ps =>
      simp only [List.map_cons, List.head?_cons, Option.some.injEq] at hn0
      subst hn0
      obtain ⟨j, rfl⟩ : ∃ j, i = j + 1 := ⟨i - 1, by omega⟩
      constructor
      · have := key (·.1) ps (fun r hr => hn r (by simp [hr])) j p (by simpa using hi)
        rw [List.map_cons, headerRow, ← List.drop_drop, ← List.length_append, List.drop_append_of_le_length (by simp),
          List.drop_length, List.nil_append, List.map_map]
        rw [Nat.add_sub_cancel]
        exact this
      · rw [Nat.add_sub_cancel, Nat.succ_mul]
        omega

example : (ostreamCalls ⟨[' '], 4, '.', false, []⟩ [[("ab".toList, "1".toList), ("c".toList, "22".toList)]] true
    ⟨[], 0, ' '⟩).out = "ab c... \n1... 22.. \n".toList := by decide +kernel

/-! ### C293 -/

theorem snapColumns_eq (v second : List Text) : ∀ n,
    snapColumns v second (n + 1) = if second.length = v.length then .ok (List.replicate (n + 1) second) else .error .thrown := by
  intro n
  induction n with
  | zero =>
    unfold snapColumns
    by_cases h : second.length = v.length <;> simp [h, snapColumns]
  | succ n ih =>
    rw [snapColumns, ih]
    by_cases h : second.length = v.length
    · simp [h, List.replicate_succ]
    · simp [h]

/-- The columns of a file of several vectors. -/
def columnsText (cols : List (List Text)) (k : Nat) : Text := ((cols.map fun c => c.getD k [] ++ [' ']).flatten) ++ ['\n']

/-- **C293** (several vectors).  The file of several vectors has the first vector in its first column and the second one in
all the others: of the third and later vectors nothing is ever written, not even their sizes are looked at. -/
theorem C293_columns (v second : List Text) (rest : List (List Text)) :
    snapLines (v :: second :: rest) =
      if second.length = v.length then
        .ok ((List.range v.length).map fun k => columnsText (v :: List.replicate (rest.length + 1) second) k)
      else .error .thrown := by
  unfold snapLines
  dsimp only
  rw [snapColumns_eq]
  by_cases h : second.length = v.length
  · simp only [h, if_true]
    rfl
  · simp only [h, if_false]

/-- **C293** (one vector).  The file of one vector has a line per value, with its place; without any vector the call is
undefined. -/
theorem C293_single (v : List Text) :
    (∃ l, snapLines [v] = .ok l ∧ l.length = v.length ∧
      ∀ k x, v[k]? = some x → l[k]? = some (showNat k ++ [' '] ++ x ++ ['\n'])) ∧
    snapLines [] = .error .ub := by
  refine ⟨⟨_, rfl, by simp, ?_⟩, rfl⟩
  intro k x hk
  have hlt : k < v.length := (List.getElem?_eq_some_iff.mp hk).1
  have := (List.getElem?_eq_some_iff.mp hk).2
  simp [hlt, this]

/-- **C293** (files).  A file is written at the calls number 0, frequency, 2 * frequency, … (if the counter starts at 0); the
number in its name is one more than that of the call. -/
theorem C293_files (frequency counter : Nat) (hf : 0 < frequency) : ∀ (vs : List (List (List Text)))
    (_ : counter + vs.length < 2 ^ 32) (w : List (Option (Nat × List Text))) (_ : snapCalls frequency counter vs = .ok w),
    w.length = vs.length ∧ ∀ i v, vs[i]? = some v →
      ∃ x, w[i]? = some x ∧ (x.isSome ↔ frequency ∣ counter + i) ∧
        ∀ n l, x = some (n, l) → n = counter + i + 1 ∧ snapLines v = .ok l := by
  intro vs
  induction vs generalizing counter with
  | nil =>
    intro _ w h
    cases h
    exact ⟨rfl, by simp⟩
  | cons v vs ih =>
    intro hlt w h
    rw [List.length_cons] at hlt
    have hmod : (counter + 1) % 2 ^ 32 = counter + 1 := Nat.mod_eq_of_lt (by omega)
    rw [snapCalls] at h
    cases hc : snapCall frequency counter v with
    | error e => rw [hc] at h; cases h
    | ok r =>
      obtain ⟨x, c⟩ := r
      rw [hc] at h
      dsimp only at h
      have hx : c = counter + 1 ∧ (x.isSome ↔ frequency ∣ counter) ∧
          ∀ n l, x = some (n, l) → n = counter + 1 ∧ snapLines v = .ok l := by
        unfold snapCall at hc
        rw [if_neg (by omega), hmod] at hc
        split at hc
        · rename_i h0
          cases hc
          exact ⟨rfl, by simpa [Nat.dvd_iff_mod_eq_zero] using h0, by simp⟩
        · rename_i h0
          cases hs : snapLines v with
          | error e => rw [hs] at hc; cases hc
          | ok l =>
            rw [hs] at hc
            cases hc
            refine ⟨rfl, by simpa [Nat.dvd_iff_mod_eq_zero] using h0, ?_⟩
            intro n l' e
            cases e
            exact ⟨rfl, rfl⟩
      obtain ⟨rfl, hx1, hx2⟩ := hx
      cases hr : snapCalls frequency (counter + 1) vs with
      | error e => rw [hr] at h; cases h
      | ok ws =>
        rw [hr] at h
        cases h
        obtain ⟨h1, h2⟩ := ih (counter + 1) (by omega) ws hr
        refine ⟨by simp [h1], ?_⟩
        intro i u hu
        cases i with
        | zero =>
          simp only [List.getElem?_cons_zero, Option.some.injEq] at hu
          subst hu
          exact ⟨x, by simp, by simpa using hx1, by simpa using hx2⟩
        | succ i =>
          rw [List.getElem?_cons_succ] at hu
          obtain ⟨y, g1, g2, g3⟩ := h2 i u hu
          refine ⟨y, by simpa using g1, ?_, ?_⟩
          · rw [g2]
            rw [show counter + (i + 1) = counter + 1 + i by omega]
          · intro n l e
            obtain ⟨e1, e2⟩ := g3 n l e
            exact ⟨by omega, e2⟩

/-- **C293** (frequency).  With a frequency of 0 the first call divides by zero; otherwise the calls fail only if the
vectors do. -/
theorem C293_frequency (frequency counter : Nat) (vs : List (List (List Text))) :
    (frequency = 0 → vs ≠ [] → snapCalls frequency counter vs = .error .ub) ∧
    (0 < frequency → (∀ v ∈ vs, ∃ l, snapLines v = .ok l) → ∃ w, snapCalls frequency counter vs = .ok w) := by
  constructor
  · rintro rfl hne
    cases vs with
    | nil => exact absurd rfl hne
    | cons v vs => simp [snapCalls, snapCall]
  · intro hf
    induction vs generalizing counter with
    | nil => intro _; exact ⟨_, rfl⟩
    | cons v vs ih =>
      intro hv
      obtain ⟨l, hl⟩ := hv v (by simp)
      have : ∃ x c, snapCall frequency counter v = .ok (x, c) := by
        unfold snapCall
        rw [if_neg (by omega), hl]
        split
        · exact ⟨_, _, rfl⟩
        · exact ⟨_, _, rfl⟩
      obtain ⟨x, c, hc⟩ := this
      obtain ⟨w, hw⟩ := ih c (fun u hu => hv u (by simp [hu]))
      exact ⟨_, by rw [snapCalls, hc]; dsimp only; rw [hw]⟩

example : snapLines [["a".toList], ["b".toList], ["c".toList]] = .ok ["a b b \n".toList] := by decide +kernel

example : snapLines [["a".toList], ["b".toList], ["c".toList, "d".toList]] = .ok ["a b b \n".toList] := by decide +kernel

end Paradiseo.Monitors
