import Verif.Model.Serial
import Mathlib.Data.List.Induction

/-! Lemmas on the JSON writer and parser: what is printed is read back. -/

namespace Paradiseo.Serial

/-- Every quote in the text is escaped and the text does not end in the middle of an escape; the flag
tells whether the character before was an escaping backslash. -/
def closed : Bool → Text → Bool
  | b, [] => !b
  | b, c :: l =>
    if c = '\\' then closed (!b) l
    else if c = '"' then b && closed false l
    else closed false l

/-- The flag after reading a text. -/
def flag : Bool → Text → Bool
  | b, [] => b
  | b, c :: l => flag (if c = '\\' then !b else false) l

theorem flag_append (b : Bool) (u v : Text) : flag b (u ++ v) = flag (flag b u) v := by
  induction u generalizing b with
  | nil => rfl
  | cons c l ih => simp [flag, ih]

theorem closed_append (b : Bool) (u v : Text) (hu : '"' ∉ u) :
    closed b (u ++ v) = closed (flag b u) v := by
  induction u generalizing b with
  | nil => rfl
  | cons c l ih =>
    simp only [List.mem_cons, not_or] at hu
    simp only [List.cons_append, closed, flag]
    by_cases hc : c = '\\'
    · simp [hc, ih _ hu.2]
    · simp [hc, Ne.symm hu.1, ih _ hu.2]

/-- Length of the run of backslashes at the end. -/
def run (u : Text) : Nat := (u.reverse.takeWhile (· == '\\')).length

theorem run_snoc (u : Text) (c : Char) : run (u ++ [c]) = if c = '\\' then run u + 1 else 0 := by
  by_cases h : c = '\\' <;> simp [run, h]

theorem run_flag (pre u : Text) :
    run (pre ++ '"' :: u) ≤ u.length ∧ (run (pre ++ '"' :: u) % 2 = 1 ↔ flag false u = true) := by
  induction u using List.reverseRecOn with
  | nil => simp [run, flag]
  | append_singleton u c ih =>
    have : pre ++ '"' :: (u ++ [c]) = (pre ++ '"' :: u) ++ [c] := by simp
    rw [this, run_snoc, flag_append]
    by_cases h : c = '\\'
    · subst h
      simp only [if_true, flag, List.length_append, List.length_singleton]
      constructor
      · omega
      · have := ih.2
        cases hf : flag false u
        · simp [hf] at this ⊢; omega
        · simp [hf] at this ⊢; omega
    · simp [h, flag]

theorem findIdx_quote (u rest : Text) (hu : '"' ∉ u) :
    (u ++ '"' :: rest).findIdx? (· == '"') = some u.length := by
  induction u with
  | nil => simp [List.findIdx?_cons]
  | cons c l ih =>
    simp only [List.mem_cons, not_or] at hu
    rw [List.cons_append, List.findIdx?_cons, ih hu.2]
    simp [Ne.symm hu.1]

theorem findQuote_spec (pre u rest : Text) (hu : '"' ∉ u) :
    findQuote (pre ++ (u ++ '"' :: rest)) pre.length = some (pre.length + u.length) := by
  simp [findQuote, findIdx_quote u rest hu]

theorem split_quote (w : Text) : '"' ∉ w ∨ ∃ u v, w = u ++ '"' :: v ∧ '"' ∉ u := by
  induction w with
  | nil => simp
  | cons c l ih =>
    by_cases hc : c = '"'
    · exact Or.inr ⟨[], l, by simp [hc], by simp⟩
    · rcases ih with h | ⟨u, v, rfl, h⟩
      · exact Or.inl (by simp [h, Ne.symm hc])
      · exact Or.inr ⟨c :: u, v, by simp, by simp [h, Ne.symm hc]⟩

theorem closing_spec (rest : Text) (k : Nat) : ∀ (w pre : Text) (n : Nat), w.length ≤ k →
    w.length < n → closed false w = true →
    closing (pre ++ '"' :: (w ++ '"' :: rest)) n pre.length = .ok (pre.length + 1 + w.length) := by
  induction k with
  | zero =>
    intro w pre n hk hn hc
    obtain rfl : w = [] := List.length_eq_zero_iff.mp (by omega)
    cases n with
    | zero => omega
    | succ n =>
      have h1 := findQuote_spec (pre ++ ['"']) [] rest (by simp)
      simp only [List.append_assoc, List.singleton_append, List.nil_append, List.length_append,
        List.length_singleton, List.length_nil, Nat.add_zero] at h1
      rw [closing]
      simp only [List.nil_append, h1]
      have h2 : backslashes (pre ++ '"' :: '"' :: rest) (pre.length + 1) = .ok 0 := by
        have : (pre ++ '"' :: '"' :: rest).take (pre.length + 1) = pre ++ ['"'] := by
          rw [List.take_append, List.take_of_length_le (by omega)]; simp
        simp [backslashes, this]
      rw [h2]
      simp
  | succ k ih =>
    intro w pre n hk hn hc
    cases n with
    | zero => omega
    | succ n =>
      rw [closing]
      rcases split_quote w with hw | ⟨u, v, rfl, hu⟩
      · have h1 := findQuote_spec (pre ++ ['"']) w rest hw
        simp only [List.append_assoc, List.singleton_append, List.length_append,
          List.length_singleton] at h1
        rw [h1]
        obtain ⟨r1, r2⟩ := run_flag pre w
        have hf : flag false w = false := by
          have := closed_append false w [] hw
          rw [List.append_nil, hc, closed] at this
          simpa using this.symm
        have h2 : backslashes (pre ++ '"' :: (w ++ '"' :: rest)) (pre.length + 1 + w.length) =
            .ok (run (pre ++ '"' :: w)) := by
          have : (pre ++ '"' :: (w ++ '"' :: rest)).take (pre.length + 1 + w.length) =
              pre ++ '"' :: w := by
            have e : pre ++ '"' :: (w ++ '"' :: rest) = (pre ++ '"' :: w) ++ '"' :: rest := by simp
            rw [e, List.take_append_of_le_length (by simp; omega), List.take_of_length_le (by simp; omega)]
          simp only [backslashes, this]
          rw [if_pos]
          · rfl
          · have : ((pre ++ '"' :: w).reverse.takeWhile (· == '\\')).length = run (pre ++ '"' :: w) :=
              rfl
            omega
        simp only [h2]
        rw [if_neg]
        intro hcon
        rw [r2, hf] at hcon
        simp at hcon
      · have e0 : pre ++ '"' :: (u ++ '"' :: v ++ '"' :: rest) =
            (pre ++ ['"']) ++ (u ++ '"' :: (v ++ '"' :: rest)) := by simp
        have h1 := findQuote_spec (pre ++ ['"']) u (v ++ '"' :: rest) hu
        simp only [List.length_append, List.length_singleton] at h1
        rw [e0, h1]
        obtain ⟨r1, r2⟩ := run_flag pre u
        have hc' : flag false u = true ∧ closed false v = true := by
          rw [closed_append _ _ _ hu] at hc
          simpa [closed] using hc
        have h2 : backslashes (pre ++ ['"'] ++ (u ++ '"' :: (v ++ '"' :: rest)))
            (pre.length + 1 + u.length) = .ok (run (pre ++ '"' :: u)) := by
          have : (pre ++ ['"'] ++ (u ++ '"' :: (v ++ '"' :: rest))).take (pre.length + 1 + u.length) =
              pre ++ '"' :: u := by
            have e : pre ++ ['"'] ++ (u ++ '"' :: (v ++ '"' :: rest)) =
              (pre ++ '"' :: u) ++ '"' :: (v ++ '"' :: rest) := by simp
            rw [e, List.take_append_of_le_length (by simp; omega), List.take_of_length_le (by simp; omega)]
          simp only [backslashes, this]
          rw [if_pos]
          · rfl
          · have : ((pre ++ '"' :: u).reverse.takeWhile (· == '\\')).length = run (pre ++ '"' :: u) :=
              rfl
            omega
        simp only [h2]
        rw [if_pos (r2.mpr hc'.1)]
        simp only [List.length_append, List.length_cons] at hk hn
        have := ih v (pre ++ '"' :: u) n (by omega) (by omega) hc'.2
        have e : pre ++ '"' :: u ++ '"' :: (v ++ '"' :: rest) =
          pre ++ ['"'] ++ (u ++ '"' :: (v ++ '"' :: rest)) := by simp
        rw [e] at this
        simp only [List.length_append, List.length_cons] at this ⊢
        rw [show pre.length + 1 + u.length = pre.length + (u.length + 1) by omega, this]
        congr 1
        omega

theorem parseString_spec (pre w rest : Text) (hw : closed false w = true) :
    parseString (pre ++ '"' :: (w ++ '"' :: rest)) pre.length =
      .ok (w, pre.length + (w.length + 2)) := by
  have h1 := closing_spec rest w.length w pre ((pre ++ '"' :: (w ++ '"' :: rest)).length + 1) le_rfl
    (by simp; omega) hw
  have h2 := findQuote_spec pre [] (w ++ '"' :: rest) (by simp)
  simp only [List.nil_append, List.length_nil, Nat.add_zero] at h2
  rw [parseString, h1]
  simp only [h2]
  rw [if_pos (by omega)]
  have : (pre ++ '"' :: (w ++ '"' :: rest)).take (pre.length + 1 + w.length) = pre ++ '"' :: w := by
    have e : pre ++ '"' :: (w ++ '"' :: rest) = (pre ++ '"' :: w) ++ '"' :: rest := by simp
    rw [e, List.take_append_of_le_length (by simp; omega), List.take_of_length_le (by simp; omega)]
  rw [this]
  have : (pre ++ '"' :: w).drop (pre.length + 1) = w := by
    have e : pre ++ '"' :: w = (pre ++ ['"']) ++ w := by simp
    rw [e, List.drop_append_of_le_length (by simp), List.drop_of_length_le (by simp)]
    simp
  rw [this]
  congr 2
  omega

/-! Trees that can be written and read back. -/

mutual
/-- No null pointer, all strings closed, keys of objects ascending (as in a `std::map`). -/
def WF : J → Prop
  | .null => False
  | .str s => closed false s = true
  | .arr l => WFElems l
  | .obj l => WFMembers l ∧ (l.map Prod.fst).Pairwise (· < ·)

def WFElems : List J → Prop
  | [] => True
  | x :: l => WF x ∧ WFElems l

def WFMembers : List (Text × J) → Prop
  | [] => True
  | (k, x) :: l => closed false k = true ∧ WF x ∧ WFMembers l
end

mutual
/-- The number of calls needed. -/
def cost : J → Nat
  | .null => 1
  | .str _ => 1
  | .arr l => 1 + costElems l
  | .obj l => 1 + costMembers l

def costElems : List J → Nat
  | [] => 1
  | x :: l => 1 + cost x + costElems l

def costMembers : List (Text × J) → Nat
  | [] => 1
  | (_, x) :: l => 1 + cost x + costMembers l
end

theorem print_head {t : J} (h : WF t) : ∃ c l, print t = c :: l ∧ ignored c = false ∧ c ≠ ']' ∧
    c ≠ '}' := by
  cases t with
  | null => simp [WF] at h
  | str s => exact ⟨'"', _, by rw [print], by decide, by decide, by decide⟩
  | arr l => exact ⟨'[', _, by rw [print], by decide, by decide, by decide⟩
  | obj l => exact ⟨'{', _, by rw [print], by decide, by decide, by decide⟩

theorem ignore_at (pre rest : Text) :
    ignoreChars (pre ++ rest) pre.length = .ok (pre.length + (rest.takeWhile ignored).length) := by
  simp [ignoreChars]

theorem insert_last (k : Text) (v : J) (l : List (Text × J)) (h : ∀ p ∈ l, p.1 < k) :
    insertKV k v l = l ++ [(k, v)] := by
  induction l with
  | nil => rfl
  | cons p l ih =>
    obtain ⟨k', v'⟩ := p
    have h1 : k' < k := h (k', v') (by simp)
    rw [insertKV, if_neg (ne_of_gt h1), if_neg (not_lt_of_gt h1), ih fun q hq => h q (by simp [hq])]
    rfl

/-- Printing followed by something. -/
theorem elems_head {x : J} {l : List J} (h : WF x) : ∃ c r, printElems (x :: l) = c :: r ∧
    ignored c = false ∧ c ≠ ']' ∧ c ≠ '}' := by
  obtain ⟨c, r, e, h1, h2, h3⟩ := print_head h
  cases l with
  | nil => exact ⟨c, r, by rw [printElems, e], h1, h2, h3⟩
  | cons y l => exact ⟨c, _, by rw [printElems, e]; rfl, h1, h2, h3⟩

theorem members_head (p : Text × J) (l : List (Text × J)) :
    ∃ r, printMembers (p :: l) = '"' :: r := by
  obtain ⟨k, x⟩ := p
  cases l with
  | nil => exact ⟨_, by rw [printMembers]⟩
  | cons y l => exact ⟨_, by rw [printMembers]; rfl⟩

mutual
theorem parse_print (t : J) (h : WF t) (n : Nat) (hn : cost t ≤ n) (pre rest : Text) :
    parseRight (pre ++ (print t ++ rest)) n pre.length =
      .ok (t, pre.length + (print t).length + (rest.takeWhile ignored).length) := by
  obtain ⟨c, r, e, hc, _, _⟩ := print_head h
  have h0 : ignoreChars (pre ++ (print t ++ rest)) pre.length = .ok pre.length := by
    rw [ignore_at, e]
    simp [hc]
  cases n with
  | zero => cases t <;> simp [cost] at hn
  | succ n =>
    rw [parseRight, h0]
    cases t with
    | null => simp [WF] at h
    | str s =>
      have hw : closed false s = true := by simpa [WF] using h
      have hs : pre ++ (print (.str s) ++ rest) = pre ++ '"' :: (s ++ '"' :: rest) := by
        simp [print]
      have hch : charAt (pre ++ (print (.str s) ++ rest)) pre.length = .ok '"' := by
        simp [hs, charAt]
      simp only [hch, Char.reduceEq, if_false, if_true]
      rw [hs, parseString_spec pre s rest hw]
      have := ignore_at (pre ++ '"' :: (s ++ ['"'])) rest
      simp only [List.append_assoc, List.cons_append, List.length_append, List.length_cons,
        List.length_nil, List.nil_append] at this
      simp only [this, print, List.length_cons, List.length_append, List.length_nil]
    | arr l =>
      have hw : WFElems l := by simpa [WF] using h
      rw [cost] at hn
      have hs : pre ++ (print (.arr l) ++ rest) = (pre ++ ['[']) ++ (printElems l ++ ']' :: ('\n' :: rest)) := by
        simp [print]
      have hch : charAt (pre ++ (print (.arr l) ++ rest)) pre.length = .ok '[' := by
        simp [hs, charAt]
      simp only [hch, Char.reduceEq, if_false, if_true]
      have hig : ignoreChars (pre ++ (print (.arr l) ++ rest)) (pre.length + 1) = .ok (pre.length + 1) := by
        have := ignore_at (pre ++ ['[']) (printElems l ++ ']' :: ('\n' :: rest))
        rw [hs]
        simp only [List.length_append, List.length_singleton] at this
        rw [this]
        have : ((printElems l ++ ']' :: ('\n' :: rest)).takeWhile ignored).length = 0 := by
          cases l with
          | nil => simp [printElems, ignored]
          | cons x l =>
            rw [WFElems] at hw
            obtain ⟨c, r, e, hc, _, _⟩ := elems_head (l := l) hw.1
            rw [e]
            simp [hc]
        rw [this, Nat.add_zero]
      have hloop := parse_elems l hw n (by omega) (pre ++ ['[']) ('\n' :: rest) []
      simp only [List.length_append, List.length_singleton, List.nil_append] at hloop
      simp only [hig]
      rw [hs, hloop]
      have := ignore_at (pre ++ ['['] ++ printElems l ++ [']']) ('\n' :: rest)
      have e2 : pre ++ ['['] ++ printElems l ++ [']'] ++ '\n' :: rest =
        pre ++ ['['] ++ (printElems l ++ ']' :: '\n' :: rest) := by simp
      rw [e2] at this
      simp only [List.length_append, List.length_singleton] at this
      simp only [this, print]
      simp [ignored]
      omega
    | obj l =>
      have hw : WFMembers l ∧ (l.map Prod.fst).Pairwise (· < ·) := by simpa [WF] using h
      rw [cost] at hn
      have hs : pre ++ (print (.obj l) ++ rest) = (pre ++ ['{']) ++ (printMembers l ++ '}' :: ('\n' :: rest)) := by
        simp [print]
      have hch : charAt (pre ++ (print (.obj l) ++ rest)) pre.length = .ok '{' := by
        simp [hs, charAt]
      simp only [hch, if_true]
      have hig : ignoreChars (pre ++ (print (.obj l) ++ rest)) (pre.length + 1) = .ok (pre.length + 1) := by
        have := ignore_at (pre ++ ['{']) (printMembers l ++ '}' :: ('\n' :: rest))
        rw [hs]
        simp only [List.length_append, List.length_singleton] at this
        rw [this]
        have : ((printMembers l ++ '}' :: ('\n' :: rest)).takeWhile ignored).length = 0 := by
          cases l with
          | nil => simp [printMembers, ignored]
          | cons x l =>
            obtain ⟨r, e⟩ := members_head x l
            rw [e]
            simp [ignored]
        rw [this, Nat.add_zero]
      have hloop := parse_members l hw.1 n (by omega) (pre ++ ['{']) ('\n' :: rest) [] (by simpa using hw.2)
      simp only [List.length_append, List.length_singleton, List.nil_append] at hloop
      simp only [hig]
      rw [hs, hloop]
      have := ignore_at (pre ++ ['{'] ++ printMembers l ++ ['}']) ('\n' :: rest)
      have e2 : pre ++ ['{'] ++ printMembers l ++ ['}'] ++ '\n' :: rest =
        pre ++ ['{'] ++ (printMembers l ++ '}' :: '\n' :: rest) := by simp
      rw [e2] at this
      simp only [List.length_append, List.length_singleton] at this
      simp only [this, print]
      simp [ignored]
      omega

theorem parse_elems (l : List J) (h : WFElems l) (n : Nat) (hn : costElems l ≤ n)
    (pre rest : Text) (acc : List J) :
    arrLoop (pre ++ (printElems l ++ ']' :: rest)) n pre.length acc =
      .ok (acc ++ l, pre.length + (printElems l).length) := by
  cases n with
  | zero => cases l <;> simp [costElems] at hn
  | succ n =>
    cases l with
    | nil =>
      rw [arrLoop, if_neg (by simp [printElems])]
      simp [printElems]
    | cons x l =>
      rw [WFElems] at h
      rw [costElems] at hn
      obtain ⟨c, r, e, hc, hc', _⟩ := elems_head (l := l) h.1
      rw [arrLoop, if_pos (by rw [e]; simp [hc'])]
      have hx : pushChild acc x = acc ++ [x] := by
        cases x with
        | null => simp [WF] at h
        | _ => rfl
      cases l with
      | nil =>
        have h1 := parse_print x h.1 n (by omega) pre (']' :: rest)
        have h2 := parse_elems [] (by simp [WFElems]) n (by omega) (pre ++ print x) rest (acc ++ [x])
        have h3 := ignore_at (pre ++ print x) (']' :: rest)
        simp only [printElems, List.nil_append, List.length_append, List.append_assoc,
          List.length_nil, Nat.add_zero, List.append_nil] at h2 h3 ⊢
        simp only [h1]
        have e3 : (List.takeWhile ignored (']' :: rest)).length = 0 := by simp [ignored]
        rw [e3, Nat.add_zero] at h3 ⊢
        simp only [h3, hx]
        exact h2
      | cons y l =>
        have hy : WF y := by have := h.2; rw [WFElems] at this; exact this.1
        obtain ⟨c, r, e, hc, _, _⟩ := elems_head (l := l) hy
        have h1 := parse_print x h.1 n (by omega) pre ([',', ' '] ++ (printElems (y :: l) ++ ']' :: rest))
        have h2 := parse_elems (y :: l) h.2 n (by omega) (pre ++ print x ++ [',', ' ']) rest (acc ++ [x])
        have h3 := ignore_at (pre ++ print x ++ [',', ' ']) (printElems (y :: l) ++ ']' :: rest)
        have e3 : (List.takeWhile ignored ([',', ' '] ++ (printElems (y :: l) ++ ']' :: rest))).length = 2 := by
          rw [e]
          have i1 : ignored ',' = true := by decide
          have i2 : ignored ' ' = true := by decide
          simp [List.takeWhile_cons, i1, i2, hc]
        have e4 : (List.takeWhile ignored (printElems (y :: l) ++ ']' :: rest)).length = 0 := by
          rw [e]
          simp [hc]
        have es : pre ++ (printElems (x :: y :: l) ++ ']' :: rest) =
            pre ++ (print x ++ ([',', ' '] ++ (printElems (y :: l) ++ ']' :: rest))) := by
          simp [printElems]
        have es2 : pre ++ print x ++ [',', ' '] ++ (printElems (y :: l) ++ ']' :: rest) =
            pre ++ (print x ++ ([',', ' '] ++ (printElems (y :: l) ++ ']' :: rest))) := by simp
        rw [e3] at h1
        rw [e4, es2] at h3
        rw [es2] at h2
        simp only [List.length_append, List.length_cons, List.length_nil, Nat.add_zero] at h2 h3
        rw [es]
        simp only [h1]
        have e5 : pre.length + (print x).length + 2 = pre.length + (print x).length + (0 + 1 + 1) := rfl
        rw [e5]
        simp only [h3, hx]
        rw [h2]
        simp only [printElems, List.length_append, List.append_assoc, List.singleton_append,
          List.length_cons, List.length_nil]
        congr 2
        omega

theorem parse_members (l : List (Text × J)) (h : WFMembers l) (n : Nat) (hn : costMembers l ≤ n)
    (pre rest : Text) (acc : List (Text × J))
    (hs : ((acc ++ l).map Prod.fst).Pairwise (· < ·)) :
    objLoop (pre ++ (printMembers l ++ '}' :: rest)) n pre.length acc =
      .ok (acc ++ l, pre.length + (printMembers l).length) := by
  cases n with
  | zero => cases l <;> simp [costMembers] at hn
  | succ n =>
    cases l with
    | nil =>
      rw [objLoop, if_neg (by simp [printMembers])]
      simp [printMembers]
    | cons p l =>
      obtain ⟨k, x⟩ := p
      rw [WFMembers] at h
      rw [costMembers] at hn
      obtain ⟨r, e⟩ := members_head (k, x) l
      rw [objLoop, if_pos (by rw [e]; simp)]
      have hins : insertKV k x acc = acc ++ [(k, x)] := by
        apply insert_last
        intro p hp
        rw [List.map_append, List.pairwise_append] at hs
        exact hs.2.2 p.1 (List.mem_map_of_mem hp) k (by simp)
      have hs' : ((acc ++ [(k, x)] ++ l).map Prod.fst).Pairwise (· < ·) := by simpa using hs
      cases l with
      | nil =>
        have es : pre ++ (printMembers [(k, x)] ++ '}' :: rest) =
            pre ++ '"' :: (k ++ '"' :: (':' :: (print x ++ '}' :: rest))) := by simp [printMembers]
        have es2 : pre ++ '"' :: (k ++ '"' :: (':' :: (print x ++ '}' :: rest))) =
            (pre ++ '"' :: (k ++ ['"', ':'])) ++ (print x ++ '}' :: rest) := by simp
        have es3 : pre ++ '"' :: (k ++ '"' :: (':' :: (print x ++ '}' :: rest))) =
            (pre ++ '"' :: (k ++ ['"', ':']) ++ print x) ++ '}' :: rest := by simp
        have h0 := parseString_spec pre k (':' :: (print x ++ '}' :: rest)) h.1
        have h1 := parse_print x h.2.1 n (by omega) (pre ++ '"' :: (k ++ ['"', ':'])) ('}' :: rest)
        have h2 := parse_members [] (by simp [WFMembers]) n (by omega)
          (pre ++ '"' :: (k ++ ['"', ':']) ++ print x) rest (acc ++ [(k, x)]) hs'
        have h3 := ignore_at (pre ++ '"' :: (k ++ ['"', ':']) ++ print x) ('}' :: rest)
        have e3 : (List.takeWhile ignored ('}' :: rest)).length = 0 := by simp [ignored]
        rw [← es2, e3, Nat.add_zero] at h1
        rw [← es3, e3, Nat.add_zero] at h3
        simp only [printMembers, List.nil_append] at h2
        rw [← es3] at h2
        rw [es]
        simp only [h0]
        have e4 : pre.length + (k.length + 2) + 1 = (pre ++ '"' :: (k ++ ['"', ':'])).length := by
          simp; omega
        rw [e4]
        simp only [h1]
        rw [← List.length_append]
        simp only [h3, hins]
        rw [h2]
        simp [printMembers]
      | cons m l =>
        obtain ⟨r, e⟩ := members_head m l
        have es : pre ++ (printMembers ((k, x) :: m :: l) ++ '}' :: rest) =
            pre ++ '"' :: (k ++ '"' :: (':' :: (print x ++
              ([',', ' '] ++ (printMembers (m :: l) ++ '}' :: rest))))) := by simp [printMembers]
        have es2 : pre ++ '"' :: (k ++ '"' :: (':' :: (print x ++
              ([',', ' '] ++ (printMembers (m :: l) ++ '}' :: rest))))) =
            (pre ++ '"' :: (k ++ ['"', ':'])) ++ (print x ++
              ([',', ' '] ++ (printMembers (m :: l) ++ '}' :: rest))) := by simp
        have es3 : pre ++ '"' :: (k ++ '"' :: (':' :: (print x ++
              ([',', ' '] ++ (printMembers (m :: l) ++ '}' :: rest))))) =
            (pre ++ '"' :: (k ++ ['"', ':']) ++ print x ++ [',', ' ']) ++
              (printMembers (m :: l) ++ '}' :: rest) := by simp
        have h0 := parseString_spec pre k (':' :: (print x ++
              ([',', ' '] ++ (printMembers (m :: l) ++ '}' :: rest)))) h.1
        have h1 := parse_print x h.2.1 n (by omega) (pre ++ '"' :: (k ++ ['"', ':']))
          ([',', ' '] ++ (printMembers (m :: l) ++ '}' :: rest))
        have h2 := parse_members (m :: l) h.2.2 n (by omega)
          (pre ++ '"' :: (k ++ ['"', ':']) ++ print x ++ [',', ' ']) rest (acc ++ [(k, x)]) hs'
        have h3 := ignore_at (pre ++ '"' :: (k ++ ['"', ':']) ++ print x ++ [',', ' '])
          (printMembers (m :: l) ++ '}' :: rest)
        have e3 : (List.takeWhile ignored ([',', ' '] ++ (printMembers (m :: l) ++ '}' :: rest))).length =
            ([',', ' '] : Text).length := by
          rw [e]
          simp [ignored]
        have e3' : (List.takeWhile ignored (printMembers (m :: l) ++ '}' :: rest)).length = 0 := by
          rw [e]
          simp [ignored]
        rw [← es2, e3] at h1
        rw [← es3, e3', Nat.add_zero] at h3
        rw [← es3] at h2
        rw [es]
        simp only [h0]
        have e4 : pre.length + (k.length + 2) + 1 = (pre ++ '"' :: (k ++ ['"', ':'])).length := by
          simp; omega
        rw [e4]
        simp only [h1]
        rw [← List.length_append, ← List.length_append]
        simp only [h3, hins]
        rw [h2]
        simp [printMembers]
        omega
end

end Paradiseo.Serial
