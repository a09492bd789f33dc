import Verif.Model.Dataset
import Verif.Props.MathSymInterval

/-!
# C367: the data file of the symbolic regression
-/

namespace Paradiseo.Dataset

/-! ### Specification: what a file of the intended kind looks like -/

/-- A line that somebody writes: a comment, or cells. -/
inductive Item where
  | comment (c : Text)
  | row (ws : List Text)

/-- White space by its code: the blank, and from tabulator to carriage return. -/
def White (c : Char) : Prop := c.toNat = 32 ∨ (9 ≤ c.toNat ∧ c.toNat ≤ 13)

/-- A cell is a word that does not start a comment. -/
def Cell (w : Text) : Prop := w ≠ [] ∧ (∀ c ∈ w, ¬White c) ∧ w.head? ≠ some '#'

/-- A separator is white space within a line. -/
def Sep (sep : Text) : Prop := sep ≠ [] ∧ ∀ c ∈ sep, White c ∧ c ≠ '\n'

/-- The text of a line; the separator goes between cells. -/
def Item.text (sep : Text) : Item → Text
  | .comment c => '#' :: c
  | .row [] => []
  | .row (w :: ws) => w ++ ws.flatMap (fun v => sep ++ v)

def Item.Ok : Item → Prop
  | .comment c => '\n' ∉ c
  | .row ws => ∀ w ∈ ws, Cell w

/-- The text of a file. -/
def fileText (sep : Text) (items : List Item) : Text := items.flatMap fun it => it.text sep ++ ['\n']

/-- The rows among the lines. -/
def rowsOf : List Item → List (List Text)
  | [] => []
  | .comment _ :: l => rowsOf l
  | .row ws :: l => ws :: rowsOf l

/-- The record made of the cells of a row when there are to be `n`: inputs, then the target, zero if it is missing. -/
def recordOf {K : Type} [Zero K] (n : Nat) (vs : List K) : List K × K := (vs.take (n - 1), (vs[n - 1]?).getD 0)

/-! ### Lemmas -/

theorem isSpace_iff (c : Char) : isSpace c = true ↔ White c := by
  have h : ∀ n, n < 128 → (c = Char.ofNat n ↔ c.toNat = n) := by
    intro n hn
    constructor
    · rintro rfl
      have : n.isValidChar := Or.inl (by omega)
      simp [Char.ofNat, this, Char.toNat, Char.ofNatAux]
    · rintro rfl
      simp
  simp only [isSpace, Bool.or_eq_true, decide_eq_true_eq, White]
  rw [show (' ' : Char) = Char.ofNat 32 from rfl, show ('\t' : Char) = Char.ofNat 9 from rfl,
    show ('\n' : Char) = Char.ofNat 10 from rfl, show ('\r' : Char) = Char.ofNat 13 from rfl, h 32 (by omega), h 9 (by omega),
    h 10 (by omega), h 13 (by omega), h 11 (by omega), h 12 (by omega)]
  omega

theorem Cell.space {w : Text} (h : Cell w) : ∀ c ∈ w, isSpace c = false := fun c hc => by
  rw [← Bool.not_eq_true, isSpace_iff]
  exact h.2.1 c hc

theorem Sep.space {w : Text} (h : Sep w) : ∀ c ∈ w, isSpace c = true := fun c hc => (isSpace_iff c).2 (h.2 c hc).1

theorem wordsFrom_cell (cur w t : Text) (hw : ∀ c ∈ w, isSpace c = false) :
    wordsFrom cur (w ++ t) = wordsFrom (cur ++ w) t := by
  induction w generalizing cur with
  | nil => simp
  | cons c w ih =>
    have hc : isSpace c = false := hw c (by simp)
    simp only [List.cons_append, wordsFrom, hc]
    simp only [Bool.false_eq_true, if_false]
    rw [ih _ (fun c hc => hw c (by simp [hc]))]
    simp

theorem wordsFrom_sep (sep t : Text) (hs : ∀ c ∈ sep, isSpace c = true) :
    wordsFrom [] (sep ++ t) = wordsFrom [] t := by
  induction sep with
  | nil => rfl
  | cons c s ih =>
    have hc : isSpace c = true := hs c (by simp)
    simp only [List.cons_append, wordsFrom, hc, if_true]
    simpa using ih (fun c hc => hs c (by simp [hc]))

theorem wordsFrom_sep' (cur sep t : Text) (hcur : cur ≠ []) (hn : sep ≠ []) (hs : ∀ c ∈ sep, isSpace c = true) :
    wordsFrom cur (sep ++ t) = cur :: wordsFrom [] t := by
  cases sep with
  | nil => exact absurd rfl hn
  | cons c s =>
    have hc : isSpace c = true := hs c (by simp)
    simp only [List.cons_append, wordsFrom, hc, if_true, if_neg hcur]
    rw [wordsFrom_sep s t (fun c hc => hs c (by simp [hc]))]
    rfl

theorem wordsFrom_rest (sep : Text) (hs : Sep sep) (cur : Text) (hcur : cur ≠ []) (ws : List Text)
    (h : ∀ w ∈ ws, Cell w) : wordsFrom cur (ws.flatMap fun v => sep ++ v) = cur :: ws := by
  induction ws generalizing cur with
  | nil => simp [wordsFrom, hcur]
  | cons w ws ih =>
    have hw := h w (by simp)
    rw [List.flatMap_cons, List.append_assoc, wordsFrom_sep' _ _ _ hcur hs.1 hs.space,
      wordsFrom_cell _ _ _ hw.space, List.nil_append, ih w hw.1 (fun w hw => h w (by simp [hw]))]

theorem words_row (sep : Text) (hs : Sep sep) (ws : List Text) (h : ∀ w ∈ ws, Cell w) :
    wordsFrom [] ((Item.row ws).text sep) = ws := by
  cases ws with
  | nil => rfl
  | cons w ws =>
    have hw := h w (by simp)
    rw [Item.text, wordsFrom_cell _ _ _ hw.space, List.nil_append,
      wordsFrom_rest sep hs w hw.1 ws (fun w hw => h w (by simp [hw]))]

theorem linesFrom_line (cur l t : Text) (hl : '\n' ∉ l) :
    linesFrom cur (l ++ '\n' :: t) = (cur ++ l) :: linesFrom [] t := by
  induction l generalizing cur with
  | nil => simp [linesFrom]
  | cons c l ih =>
    have hc : c ≠ '\n' := fun h => hl (by simp [h])
    simp only [List.cons_append, linesFrom, if_neg hc]
    rw [ih _ (fun h => hl (by simp [h]))]
    simp

theorem text_noline (sep : Text) (hs : Sep sep) (it : Item) (h : it.Ok) : '\n' ∉ it.text sep := by
  have hcell : ∀ w, Cell w → '\n' ∉ w := fun w hw hm => by
    have := hw.space _ hm
    simp [isSpace] at this
  cases it with
  | comment c => simpa [Item.text] using (show '\n' ∉ c from h)
  | row ws =>
    cases ws with
    | nil => simp [Item.text]
    | cons w ws =>
      simp only [Item.text, List.mem_append, List.mem_flatMap, not_or, not_exists, not_and]
      refine ⟨hcell _ (h w (by simp)), fun v hv => ⟨fun hm => (hs.2 _ hm).2 rfl, hcell _ (h v (by simp [hv]))⟩⟩

theorem row_keep (sep : Text) (ws : List Text) (h : ∀ w ∈ ws, Cell w) :
    ((Item.row ws).text sep).head? ≠ some '#' := by
  cases ws with
  | nil => simp [Item.text]
  | cons w ws =>
    have hw := h w (by simp)
    cases w with
    | nil => exact absurd rfl hw.1
    | cons c w => simpa [Item.text] using hw.2.2

theorem records_file (sep : Text) (hs : Sep sep) (items : List Item) (h : ∀ it ∈ items, it.Ok) :
    records (fileText sep items) = (rowsOf items).map fun ws => (Item.row ws).text sep := by
  induction items with
  | nil => rfl
  | cons it items ih =>
    have hit := h it (by simp)
    have ih := ih (fun i hi => h i (by simp [hi]))
    rw [records] at ih ⊢
    have : fileText sep (it :: items) = it.text sep ++ '\n' :: fileText sep items := by
      simp [fileText]
    rw [this, linesFrom_line _ _ _ (text_noline sep hs it hit), List.nil_append]
    cases it with
    | comment c =>
      rw [List.filter_cons_of_neg (by simp [Item.text]), ih]
      rfl
    | row ws =>
      rw [List.filter_cons_of_pos (by simpa using row_keep sep ws hit), ih]
      rfl

variable {K : Type} [Zero K]

theorem readCells_full {num : Text → Num K} {val : Text → K} :
    ∀ (n : Nat) (ws : List Text), (∀ w ∈ ws, num w = .full (val w)) →
      readCells num n (some ws) =
        if n ≤ ws.length + 1 then some ((ws.map val).take n ++ List.replicate (n - ws.length) 0) else none
  | 0, ws, h => by simp [readCells]
  | 1, [], h => by simp [readCells, get]
  | n + 2, [], h => by simp [readCells, get]
  | n + 1, w :: ws, h => by
    have hw := h w (by simp)
    rw [readCells, get, hw]
    simp only
    rw [readCells_full n ws (fun w hw => h w (by simp [hw]))]
    by_cases hn : n ≤ ws.length + 1
    · rw [if_pos hn, if_pos (by simp; omega)]
      simp
    · rw [if_neg hn, if_neg (by simp; omega)]

theorem recordOf_cells (n : Nat) (hn : 0 < n) (vs : List K) (h : n ≤ vs.length + 1) :
    let us := vs.take n ++ List.replicate (n - vs.length) 0
    (us.take (n - 1), (us.drop (n - 1)).headD 0) = recordOf n vs := by
  intro us
  obtain ⟨m, rfl⟩ : ∃ m, n = m + 1 := ⟨n - 1, by omega⟩
  simp only [Nat.add_sub_cancel, recordOf, us]
  by_cases h2 : vs.length = m
  · subst h2
    rw [List.take_of_length_le (by omega : vs.length ≤ vs.length + 1)]
    simp
  · have h3 : m + 1 ≤ vs.length := by omega
    rw [show m + 1 - vs.length = 0 from by omega]
    simp only [List.replicate_zero, List.append_nil, List.take_take, Prod.mk.injEq]
    refine ⟨by congr 1; omega, ?_⟩
    rw [List.drop_take, show m + 1 - m = 1 from by omega]
    rw [List.getElem?_eq_getElem (by omega), List.drop_eq_getElem_cons (by omega), List.take_succ_cons]
    simp

/-! ### The theorems -/

/-- What a file of numbers is read as. The number of columns is that of the first row; comments are skipped; further cells
are ignored; a row that lacks two cells or more stops the program, its number being reported; one that lacks just the last
is taken with the target zero. -/
theorem C367_file {num : Text → Num K} {val : Text → K} {sep : Text} (hs : Sep sep) {items : List Item}
    (hok : ∀ it ∈ items, it.Ok) {r : List Text} {rs : List (List Text)} (hr : rowsOf items = r :: rs)
    (hnum : ∀ ws ∈ r :: rs, ∀ w ∈ ws, num w = .full (val w)) :
    load num (fileText sep items) =
      if r = [] then .huge
      else match (r :: rs).findIdx? (fun ws => decide (ws.length + 1 < r.length)) with
        | some i => .few i
        | none => .ok ((r :: rs).map fun ws => recordOf r.length (ws.map val)) := by
  have hrows : ∀ ws ∈ r :: rs, ∀ w ∈ ws, Cell w := by
    rw [← hr]
    clear hr hnum
    induction items with
    | nil => simp [rowsOf]
    | cons it items ih =>
      have ih := ih (fun i hi => hok i (by simp [hi]))
      cases it with
      | comment c => simpa [rowsOf] using ih
      | row ws =>
        intro vs hvs
        simp only [rowsOf, List.mem_cons] at hvs
        rcases hvs with rfl | hvs
        · exact hok (.row vs) (by simp)
        · exact ih vs hvs
  rw [load, records_file sep hs items hok, hr, List.map_cons]
  simp only [words_row sep hs r (hrows r (by simp))]
  by_cases h0 : r = []
  · simp [h0]
  · rw [if_neg (by simpa using h0), if_neg h0]
    have hn : 0 < r.length := List.length_pos_iff.mpr h0
    have key : ∀ (l : List (List Text)) (i : Nat), (∀ ws ∈ l, ∀ w ∈ ws, Cell w) →
        (∀ ws ∈ l, ∀ w ∈ ws, num w = .full (val w)) →
        readAll num r.length i (l.map fun ws => (Item.row ws).text sep) =
          match l.findIdx? (fun ws => decide (ws.length + 1 < r.length)) with
          | some k => .few (i + k)
          | none => .ok (l.map fun ws => recordOf r.length (ws.map val)) := by
      intro l
      induction l with
      | nil => intro i _ _; rfl
      | cons ws l ih =>
        intro i hc hv
        rw [List.map_cons, readAll, words_row sep hs ws (hc ws (by simp)),
          readCells_full _ _ (hv ws (by simp)),
          ih (i + 1) (fun w hw => hc w (by simp [hw])) (fun w hw => hv w (by simp [hw])), List.findIdx?_cons]
        by_cases hlt : ws.length + 1 < r.length
        · rw [if_neg (by omega)]
          simp [hlt]
        · rw [if_pos (by omega)]
          have := recordOf_cells r.length hn (ws.map val) (by simp; omega)
          simp only [List.length_map] at this
          simp only [hlt, decide_false, Bool.false_eq_true, if_false]
          cases hf : l.findIdx? (fun ws => decide (ws.length + 1 < r.length)) with
          | none => simp only [Option.map_none, List.map_cons]; rw [this]
          | some k => simp [Nat.add_assoc, Nat.add_comm 1]
    have := key (r :: rs) 0 hrows hnum
    simpa using this

/-- A table with the same number of cells in all rows is read as it was written: the last cell of a row is its target. -/
theorem C367_table {num : Text → Num K} {val : Text → K} {sep : Text} (hs : Sep sep) {items : List Item}
    (hok : ∀ it ∈ items, it.Ok) {ins : List (List Text × Text)} (hne : ins ≠ []) (m : Nat)
    (hm : ∀ p ∈ ins, p.1.length = m) (hr : rowsOf items = ins.map fun p => p.1 ++ [p.2])
    (hnum : ∀ p ∈ ins, ∀ w ∈ p.1 ++ [p.2], num w = .full (val w)) :
    load num (fileText sep items) = .ok (ins.map fun p => (p.1.map val, val p.2)) := by
  cases ins with
  | nil => exact absurd rfl hne
  | cons p ps =>
    have hp := hm p (by simp)
    rw [C367_file (val := val) hs hok (r := p.1 ++ [p.2]) (rs := ps.map fun p => p.1 ++ [p.2]) (by simpa using hr)
      (by
        intro ws hws
        simp only [List.mem_cons, List.mem_map] at hws
        rcases hws with rfl | ⟨q, hq, rfl⟩
        · exact hnum p (by simp)
        · exact hnum q (by simp [hq]))]
    rw [if_neg (by simp), ← List.map_cons (f := fun p : List Text × Text => p.1 ++ [p.2])]
    have h1 : ((p :: ps).map fun p : List Text × Text => p.1 ++ [p.2]).findIdx?
        (fun ws => decide (ws.length + 1 < (p.1 ++ [p.2]).length)) = none := by
      rw [List.findIdx?_eq_none_iff]
      intro ws hws
      simp only [List.mem_map] at hws
      obtain ⟨q, hq, rfl⟩ := hws
      simp [hm q hq, hp]
    rw [h1]
    simp only [List.map_map, Res.ok.injEq]
    apply List.map_congr_left
    intro q hq
    simp [recordOf, hp, hm q hq, List.take_append]

/-- The last line need not end with a newline. -/
theorem C367_last_line (num : Text → Num K) {t : Text} {c : Char} (hc : c ≠ '\n') :
    load num (t ++ [c] ++ ['\n']) = load num (t ++ [c]) := by
  have h : ∀ (t cur : Text), linesFrom cur (t ++ [c] ++ ['\n']) = linesFrom cur (t ++ [c]) := by
    intro t
    induction t with
    | nil => intro cur; simp [linesFrom, hc]
    | cons d t ih =>
      intro cur
      simp only [List.cons_append, linesFrom]
      split
      · rw [ih]
      · rw [ih]
  rw [load, load, records, records, h]

/-- A target that is no number is stored as whatever `>>` stores, which is zero for text, without complaint, if the inputs
before it could be read. -/
theorem C367_unreadable {num : Text → Num K} {val : Text → K} {sep : Text} (hs : Sep sep) {ws : List Text} {w : Text}
    (hc : ∀ v ∈ ws ++ [w], Cell v) (hnum : ∀ v ∈ ws, num v = .full (val v)) {x : K} (hw : num w = .bad x) :
    load num (fileText sep [.row (ws ++ [w])]) = .ok [(ws.map val, x)] := by
  have hr := records_file sep hs [.row (ws ++ [w])] (by simpa [Item.Ok] using hc)
  rw [load, hr]
  simp only [rowsOf, List.map_cons, List.map_nil, words_row sep hs _ hc]
  rw [if_neg (by simp)]
  have h : ∀ ws : List Text, (∀ v ∈ ws, num v = .full (val v)) →
      readCells num (ws.length + 1) (some (ws ++ [w])) = some (ws.map val ++ [x]) := by
    intro ws
    induction ws with
    | nil => intro _; simp [readCells, get, hw]
    | cons v ws ih =>
      intro h
      simp only [List.length_cons, List.cons_append]
      rw [readCells, get, h v (by simp)]
      simp only
      rw [ih (fun u hu => h u (by simp [hu]))]
      simp
  rw [readAll, words_row sep hs _ hc]
  simp only [List.length_append, List.length_cons, List.length_nil, Nat.zero_add]
  rw [h ws hnum]
  simp [readAll]

/-- An input that is no number stops the program, if cells follow it. -/
theorem C367_bad_input {num : Text → Num K} {val : Text → K} {sep : Text} (hs : Sep sep) {us ws : List Text} {w : Text}
    (hne : ws ≠ []) (hc : ∀ v ∈ us ++ w :: ws, Cell v) (hnum : ∀ v ∈ us, num v = .full (val v)) {x : K}
    (hw : num w = .bad x) : load num (fileText sep [.row (us ++ w :: ws)]) = .few 0 := by
  have hr := records_file sep hs [.row (us ++ w :: ws)] (by simpa [Item.Ok] using hc)
  rw [load, hr]
  simp only [rowsOf, List.map_cons, List.map_nil, words_row sep hs _ hc]
  rw [if_neg (by simp)]
  have h : ∀ us : List Text, (∀ v ∈ us, num v = .full (val v)) →
      readCells num (us ++ w :: ws).length (some (us ++ w :: ws)) = none := by
    intro us
    induction us with
    | nil =>
      intro _
      cases ws with
      | nil => exact absurd rfl hne
      | cons v ws => simp [readCells, get, hw]
    | cons v us ih =>
      intro h
      simp only [List.length_cons, List.cons_append]
      rw [readCells, get, h v (by simp)]
      simp only
      rw [ih (fun u hu => h u (by simp [hu]))]
  rw [readAll, words_row sep hs _ hc, h us hnum]

/-- Without any line that is not a comment the program stops; so it does for a file that cannot be opened. -/
theorem C367_no_data (num : Text → Num K) {sep : Text} (hs : Sep sep) {items : List Item}
    (hok : ∀ it ∈ items, it.Ok) (h : rowsOf items = []) : load num (fileText sep items) = .noData := by
  rw [load, records_file sep hs items hok, h]
  rfl

/-! ### Minima and maxima -/

section
variable {K : Type} [LinearOrder K]

theorem minima_spec (big : K) (m : Nat) (ins : List (List K)) (hm : ∀ r ∈ ins, r.length = m) :
    ∀ init : List K, init.length = m →
      let mn := ins.foldl (fun mn r => List.zipWith min mn r) init
      mn.length = m ∧ ∀ j (hj : j < m) (x : K), mn[j]? = some x →
        (x ≤ init[j]?.getD big) ∧ (∀ r ∈ ins, ∀ y, r[j]? = some y → x ≤ y) ∧
        (init[j]? = some x ∨ ∃ r ∈ ins, r[j]? = some x) := by
  induction ins with
  | nil =>
    intro init hi
    refine ⟨hi, fun j hj x hx => ⟨?_, by simp, .inl hx⟩⟩
    simp only [List.foldl_nil] at hx
    simp [hx]
  | cons r ins ih =>
    intro init hi
    have hr := hm r (by simp)
    have hz : (List.zipWith min init r).length = m := by simp [hi, hr]
    obtain ⟨h1, h2⟩ := ih (fun r h => hm r (by simp [h])) (List.zipWith min init r) hz
    refine ⟨h1, fun j hj x hx => ?_⟩
    obtain ⟨h3, h4, h5⟩ := h2 j hj x hx
    have e1 : init[j]? = some init[j] := List.getElem?_eq_getElem (by omega)
    have e2 : r[j]? = some r[j] := List.getElem?_eq_getElem (by omega)
    have e3 : (List.zipWith min init r)[j]? = some (min init[j] r[j]) := by
      rw [List.getElem?_zipWith, e1, e2]
    rw [e3] at h3 h5
    simp only [Option.getD_some] at h3
    refine ⟨by rw [e1]; exact le_trans h3 (min_le_left _ _), ?_, ?_⟩
    · intro s hs y hy
      rcases List.mem_cons.mp hs with rfl | hs
      · rw [e2] at hy
        obtain rfl := Option.some.inj hy
        exact le_trans h3 (min_le_right _ _)
      · exact h4 s hs y hy
    · rcases h5 with h5 | ⟨s, hs, h5⟩
      · have := Option.some.inj h5
        rcases min_choice init[j] r[j] with h | h
        · left; rw [e1, ← this, h]
        · right; exact ⟨r, by simp, by rw [e2, ← this, h]⟩
      · right; exact ⟨s, by simp [hs], h5⟩

theorem maxima_dual (small : K) (m : Nat) (ins : List (List K)) :
    maxima small m ins = minima (K := Kᵒᵈ) (OrderDual.toDual small) m ins := rfl

/-- The least and the greatest input of each column: one for each column, all data between them; the least is in the column
as soon as one entry there is at most 1e+50 (`big`), the greatest as soon as one is at least -1e+50 (`small`). -/
theorem C367_box (big small : K) {m : Nat} {ins : List (List K)} (hm : ∀ r ∈ ins, r.length = m) :
    (minima big m ins).length = m ∧ (maxima small m ins).length = m ∧
    ∀ j < m, ∃ a b, (minima big m ins)[j]? = some a ∧ (maxima small m ins)[j]? = some b ∧
      (∀ r ∈ ins, ∀ y, r[j]? = some y → a ≤ y ∧ y ≤ b) ∧
      ((∃ r ∈ ins, ∃ y, r[j]? = some y ∧ y ≤ big) → ∃ r ∈ ins, r[j]? = some a) ∧
      ((∃ r ∈ ins, ∃ y, r[j]? = some y ∧ small ≤ y) → ∃ r ∈ ins, r[j]? = some b) ∧
      ((∀ r ∈ ins, ∀ y, r[j]? = some y → big < y) → a = big) ∧
      ((∀ r ∈ ins, ∀ y, r[j]? = some y → y < small) → b = small) := by
  have side : ∀ {K : Type} [LinearOrder K] (big : K) (m : Nat) (ins : List (List K)), (∀ r ∈ ins, r.length = m) →
      (minima big m ins).length = m ∧ ∀ j < m, ∃ a, (minima big m ins)[j]? = some a ∧
        (∀ r ∈ ins, ∀ y, r[j]? = some y → a ≤ y) ∧
        ((∃ r ∈ ins, ∃ y, r[j]? = some y ∧ y ≤ big) → ∃ r ∈ ins, r[j]? = some a) ∧
        ((∀ r ∈ ins, ∀ y, r[j]? = some y → big < y) → a = big) := by
    intro K _ big m ins hm
    obtain ⟨h1, h2⟩ := minima_spec big m ins hm (List.replicate m big) (by simp)
    refine ⟨h1, fun j hj => ?_⟩
    have hj' : j < (minima big m ins).length := by rw [show (minima big m ins).length = m from h1]; exact hj
    have e : (minima big m ins)[j]? = some (minima big m ins)[j] := List.getElem?_eq_getElem hj'
    obtain ⟨h3, h4, h5⟩ := h2 j hj _ e
    have e0 : (List.replicate m big)[j]? = some big := by simp [hj]
    rw [e0] at h3 h5
    simp only [Option.getD_some] at h3
    refine ⟨_, e, h4, ?_, ?_⟩
    · rintro ⟨r, hr, y, hy, hyb⟩
      rcases h5 with h5 | h5
      · have hb := Option.some.inj h5
        have h6 := h4 r hr y hy
        refine ⟨r, hr, ?_⟩
        rw [hy, ← hb]
        congr 1
        exact le_antisymm hyb (hb ▸ h6)
      · exact h5
    · intro hall
      rcases h5 with h5 | ⟨r, hr, h5⟩
      · exact (Option.some.inj h5).symm
      · exact absurd (hall r hr _ h5) (not_lt.mpr h3)
  obtain ⟨a1, a2⟩ := side big m ins hm
  obtain ⟨b1, b2⟩ := side (K := Kᵒᵈ) (OrderDual.toDual small) m ins hm
  refine ⟨a1, b1, fun j hj => ?_⟩
  obtain ⟨a, ha, ha1, ha2, ha3⟩ := a2 j hj
  obtain ⟨b, hb, hb1, hb2, hb3⟩ := b2 j hj
  exact ⟨a, b, ha, hb, fun r hr y hy => ⟨ha1 r hr y hy, hb1 r hr y hy⟩, ha2, hb2, ha3, hb3⟩

end

/-- An expression accepted by the check of bounds made from the data has a value on all records of the data, also on those
not used for training. -/
theorem C367_checked {B : MathSym.Fn → ℝ × ℝ → MathSym.Iv} (hB : MathSym.Encloses B) {L : List (MathSym.Expr ℝ)}
    {e : MathSym.Expr ℝ} {m : Nat} {ins : List (List ℝ)} (hm : ∀ r ∈ ins, r.length = m) (big small : ℝ)
    (h : MathSym.inBounds B L ((minima big m ins).zip (maxima small m ins)) e = .ok true) :
    ∀ r ∈ ins, ∃ v, MathSym.eval MathSym.apR L r e = some v ∧ -(10 ^ 10) < v ∧ v < 10 ^ 10 := by
  intro r hr
  obtain ⟨q, -, hq⟩ := MathSym.C251_sound hB h
  obtain ⟨h1, h2, h3⟩ := C367_box big small hm
  have hlen := hm r hr
  obtain ⟨v, -, hv, -, h4⟩ := hq r (by
    rw [List.forall₂_iff_get]
    refine ⟨by simp [h1, h2, hlen], fun j hj hj' => ?_⟩
    obtain ⟨a, b, ha, hb, hall, -⟩ := h3 j (by omega)
    have hy := hall r hr (r[j]) (List.getElem?_eq_getElem _)
    simp only [List.get_eq_getElem, List.getElem_zip]
    rw [List.getElem?_eq_some_iff] at ha hb
    obtain ⟨_, ha⟩ := ha
    obtain ⟨_, hb⟩ := hb
    rw [MathSym.Within, ha, hb]
    exact hy)
  exact ⟨v, hv, h4⟩

/-! ### Examples -/

/-- Numbers without sign; a word may go on after the number. -/
def natNum (w : Text) : Num ℤ :=
  match w.takeWhile Char.isDigit, w.dropWhile Char.isDigit with
  | [], _ => .bad 0
  | ds, [] => .full (ds.foldl (fun n c => 10 * n + (c.toNat - 48 : ℤ)) 0)
  | ds, r => .part (ds.foldl (fun n c => 10 * n + (c.toNat - 48 : ℤ)) 0) r

/-- A table with comments, a blank between the cells. -/
example : load natNum "# a b t\n1 2 3\n#\n4 5 60".toList = .ok [([1, 2], 3), ([4, 5], 60)] := by decide +kernel

/-- The second record has no target: it is read as zero. -/
example : load natNum "1 2 3\n4 5\n".toList = .ok [([1, 2], 3), ([4, 5], 0)] := by decide +kernel

/-- Two cells are missing. -/
example : load natNum "1 2 3\n4 5 6\n7\n".toList = .few 2 := by decide +kernel

/-- A comma: what is after it is no number. -/
example : load natNum "1 2 3\n4,5 6 7\n".toList = .few 1 := by decide +kernel

/-- An empty first line. -/
example : load natNum "\n1 2 3\n".toList = .huge := by decide +kernel

/-- The hypotheses of C367_file hold of the second text above. -/
example : load natNum (fileText [' '] [.comment ['a'], .row [['1'], ['2'], ['3']], .row [['4'], ['5']]])
    = .ok [([1, 2], 3), ([4, 5], 0)] := by
  rw [C367_file (val := fun w => w.foldl (fun n c => 10 * n + (c.toNat - 48 : ℤ)) 0) (r := [['1'], ['2'], ['3']])
    (rs := [[['4'], ['5']]]) (by simp [Sep, ← isSpace_iff, isSpace])
    (by simp [Item.Ok, Cell, ← isSpace_iff, isSpace]) rfl
    (by
      intro ws hws w hw
      simp only [List.mem_cons, List.not_mem_nil, or_false] at hws
      rcases hws with rfl | rfl
      · simp only [List.mem_cons, List.not_mem_nil, or_false] at hw
        rcases hw with rfl | rfl | rfl <;> rfl
      · simp only [List.mem_cons, List.not_mem_nil, or_false] at hw
        rcases hw with rfl | rfl <;> rfl)]
  decide +kernel

/-- The least and greatest inputs; data above `big` are not the least of their column. -/
example : minima (100 : ℤ) 2 [[3, 500], [7, 200]] = [3, 100] ∧ maxima (-100 : ℤ) 2 [[3, 500], [7, 200]] = [7, 500] := by
  decide +kernel

end Paradiseo.Dataset
