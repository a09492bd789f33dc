import Verif.Lemmas.Serial
import Mathlib.Algebra.Order.Round
import Mathlib.Data.Rat.Floor
import Mathlib.Tactic.NormNum
import Mathlib.Tactic.Linarith

/-! Properties of the JSON serialization. -/

namespace Paradiseo.Serial

/-! ## C117: round trip -/

mutual
theorem parseRight_mono (s : Text) (n m : Nat) (hnm : n ≤ m) (pos : Nat)
    (h : parseRight s n pos ≠ .error .fuel) : parseRight s m pos = parseRight s n pos := by
  cases n with
  | zero => rw [parseRight] at h; exact absurd rfl h
  | succ n =>
    cases m with
    | zero => omega
    | succ m =>
      rw [parseRight] at h
      rw [parseRight, parseRight]
      cases h1 : ignoreChars s pos with
      | error e => rfl
      | ok p =>
        simp only [h1] at h ⊢
        cases h2 : charAt s p with
        | error e => rfl
        | ok c =>
          simp only [h2] at h ⊢
          by_cases hc1 : c = '{'
          · simp only [hc1, if_true] at h ⊢
            cases h3 : ignoreChars s (p + 1) with
            | error e => rfl
            | ok q =>
              simp only [h3] at h ⊢
              rw [objLoop_mono s n m (by omega) q []]
              intro hcon
              rw [hcon] at h
              exact h rfl
          · by_cases hc2 : c = '"'
            · simp only [hc2, Char.reduceEq, if_false]
            · by_cases hc3 : c = '['
              · simp only [hc3, Char.reduceEq, if_true, if_false] at h ⊢
                cases h3 : ignoreChars s (p + 1) with
                | error e => rfl
                | ok q =>
                  simp only [h3] at h ⊢
                  rw [arrLoop_mono s n m (by omega) q []]
                  intro hcon
                  rw [hcon] at h
                  exact h rfl
              · simp only [hc1, hc2, hc3, if_false]

theorem objLoop_mono (s : Text) (n m : Nat) (hnm : n ≤ m) (pos : Nat) (acc : List (Text × J))
    (h : objLoop s n pos acc ≠ .error .fuel) : objLoop s m pos acc = objLoop s n pos acc := by
  cases n with
  | zero => rw [objLoop] at h; exact absurd rfl h
  | succ n =>
    cases m with
    | zero => omega
    | succ m =>
      rw [objLoop] at h
      rw [objLoop, objLoop]
      by_cases hc : pos < s.length ∧ s[pos]? ≠ some '}'
      · rw [if_pos hc] at h ⊢
        rw [if_pos hc]
        cases h1 : parseString s pos with
        | error e => rfl
        | ok r =>
          obtain ⟨key, p⟩ := r
          simp only [h1] at h ⊢
          have hr := parseRight_mono s n m (by omega) (p + 1)
            (by intro hcon; rw [hcon] at h; exact h rfl)
          rw [hr]
          cases h2 : parseRight s n (p + 1) with
          | error e => rfl
          | ok r =>
            obtain ⟨v, q⟩ := r
            simp only [h2] at h ⊢
            cases h3 : ignoreChars s q with
            | error e => rfl
            | ok q' =>
              simp only [h3] at h ⊢
              exact objLoop_mono s n m (by omega) q' _ h
      · rw [if_neg hc, if_neg hc]

theorem arrLoop_mono (s : Text) (n m : Nat) (hnm : n ≤ m) (pos : Nat) (acc : List J)
    (h : arrLoop s n pos acc ≠ .error .fuel) : arrLoop s m pos acc = arrLoop s n pos acc := by
  cases n with
  | zero => rw [arrLoop] at h; exact absurd rfl h
  | succ n =>
    cases m with
    | zero => omega
    | succ m =>
      rw [arrLoop] at h
      rw [arrLoop, arrLoop]
      by_cases hc : pos < s.length ∧ s[pos]? ≠ some ']'
      · rw [if_pos hc] at h ⊢
        rw [if_pos hc]
        have hr := parseRight_mono s n m (by omega) pos
          (by intro hcon; rw [hcon] at h; exact h rfl)
        rw [hr]
        cases h2 : parseRight s n pos with
        | error e => rfl
        | ok r =>
          obtain ⟨v, q⟩ := r
          simp only [h2] at h ⊢
          cases h3 : ignoreChars s q with
          | error e => rfl
          | ok q' =>
            simp only [h3] at h ⊢
            exact arrLoop_mono s n m (by omega) q' _ h
      · rw [if_neg hc, if_neg hc]
end

/-- The parser comes to a result (`Returns`) for a text. -/
def Returns (s : Text) (t : J) : Prop := ∃ n, parse n s = .ok t

/-- The result does not depend on the number of calls allowed. -/
theorem returns_unique {s : Text} {t t' : J} (h : Returns s t) (h' : Returns s t') : t = t' := by
  obtain ⟨n, hn⟩ := h
  obtain ⟨m, hm⟩ := h'
  have key : ∀ {n m : Nat} {t t' : J}, n ≤ m → parse n s = .ok t → parse m s = .ok t' → t = t' := by
    intro n m t t' hnm hn hm
    unfold parse at hn hm
    have := parseRight_mono s n m hnm 0 (by intro hcon; rw [hcon] at hn; simp at hn)
    rw [this, ] at hm
    rw [hn] at hm
    simpa using hm
  rcases Nat.le_total n m with h | h
  · exact key h hn hm
  · exact (key h hm hn).symm

/-- Every tree of strings, arrays and objects, of any depth, is read back from what is printed,
provided its strings and keys contain quotes only when escaped and no escape is left open at their
end. -/
theorem C117_round_trip (t : J) (h : WF t) : Returns (print t) t := by
  refine ⟨cost t, ?_⟩
  have := parse_print t h (cost t) le_rfl [] []
  simp only [List.nil_append, List.append_nil, List.length_nil] at this
  rw [parse, this]

/-- So two such trees with the same text are equal. -/
theorem C117_print_injective (t t' : J) (h : WF t) (h' : WF t') (he : print t = print t') : t = t' :=
  returns_unique (C117_round_trip t h) (he ▸ C117_round_trip t' h')

example : WF (.obj [("ab".toList, .arr [.str "1".toList, .arr [], .obj []]),
    ("b".toList, .str "say \\\"hi\\\" \\\\".toList)]) := by
  simp only [WF, WFElems, WFMembers, List.map_cons, List.map_nil]
  decide +kernel

theorem closing_not_closed (k : Nat) : ∀ (w pre : Text) (n : Nat), w.length ≤ k →
    w.length + 1 < n → closed false w = false →
    closing (pre ++ '"' :: (w ++ ['"'])) n pre.length = .error .ub ∨
      ∃ q, pre.length < q ∧ q < pre.length + 1 + w.length ∧
        closing (pre ++ '"' :: (w ++ ['"'])) n pre.length = .ok q := by
  induction k with
  | zero =>
    intro w pre n hk hn hc
    obtain rfl : w = [] := List.length_eq_zero_iff.mp (by omega)
    simp [closed] at hc
  | succ k ih =>
    intro w pre n hk hn hc
    rcases split_quote w with hw | ⟨u, v, rfl, hu⟩
    · left
      obtain ⟨n, rfl⟩ : ∃ m, n = m + 2 := ⟨n - 2, by omega⟩
      have h1 := findQuote_spec (pre ++ ['"']) w [] hw
      simp only [List.append_assoc, List.singleton_append, List.length_append,
        List.length_singleton] at h1
      obtain ⟨r1, r2⟩ := run_flag pre w
      have hf : flag false w = true := by
        have := closed_append false w [] hw
        rw [List.append_nil, hc, closed] at this
        simpa using this.symm
      have h2 : backslashes (pre ++ '"' :: (w ++ ['"'])) (pre.length + 1 + w.length) =
          .ok (run (pre ++ '"' :: w)) := by
        have : (pre ++ '"' :: (w ++ ['"'])).take (pre.length + 1 + w.length) = pre ++ '"' :: w := by
          have e : pre ++ '"' :: (w ++ ['"']) = (pre ++ '"' :: w) ++ ['"'] := by simp
          rw [e, List.take_append_of_le_length (by simp; omega), List.take_of_length_le (by simp; omega)]
        simp only [backslashes, this]
        rw [if_pos]
        · rfl
        · have : ((pre ++ '"' :: w).reverse.takeWhile (· == '\\')).length = run (pre ++ '"' :: w) :=
            rfl
          omega
      rw [closing, h1]
      simp only [h2]
      rw [if_pos (r2.mpr hf), closing]
      have h3 : findQuote (pre ++ '"' :: (w ++ ['"'])) (pre.length + 1 + w.length + 1) = none := by
        have e : (pre ++ '"' :: (w ++ ['"'])).drop (pre.length + 1 + w.length + 1) = [] :=
          List.drop_of_length_le (by simp; omega)
        simp [findQuote, e]
      rw [h3]
    · rw [List.length_append, List.length_cons] at hk hn
      cases hfu : flag false u with
      | false =>
        right
        refine ⟨pre.length + 1 + u.length, by omega, by simp, ?_⟩
        have hcu : closed false u = true := by
          have := closed_append false u [] hu
          rw [List.append_nil] at this
          rw [this, hfu]
          rfl
        have := closing_spec (v ++ ['"']) u.length u pre n le_rfl (by omega) hcu
        simpa using this
      | true =>
        have hcv : closed false v = false := by
          rw [closed_append _ _ _ hu, hfu] at hc
          simpa [closed] using hc
        obtain ⟨n, rfl⟩ : ∃ m, n = m + 1 := ⟨n - 1, by omega⟩
        have e0 : pre ++ '"' :: (u ++ '"' :: v ++ ['"']) =
            (pre ++ ['"']) ++ (u ++ '"' :: (v ++ ['"'])) := by simp
        have h1 := findQuote_spec (pre ++ ['"']) u (v ++ ['"']) hu
        simp only [List.length_append, List.length_singleton] at h1
        obtain ⟨r1, r2⟩ := run_flag pre u
        have h2 : backslashes (pre ++ ['"'] ++ (u ++ '"' :: (v ++ ['"'])))
            (pre.length + 1 + u.length) = .ok (run (pre ++ '"' :: u)) := by
          have : (pre ++ ['"'] ++ (u ++ '"' :: (v ++ ['"']))).take (pre.length + 1 + u.length) =
              pre ++ '"' :: u := by
            have e : pre ++ ['"'] ++ (u ++ '"' :: (v ++ ['"'])) =
              (pre ++ '"' :: u) ++ '"' :: (v ++ ['"']) := by simp
            rw [e, List.take_append_of_le_length (by simp; omega), List.take_of_length_le (by simp; omega)]
          simp only [backslashes, this]
          rw [if_pos]
          · rfl
          · have : ((pre ++ '"' :: u).reverse.takeWhile (· == '\\')).length = run (pre ++ '"' :: u) :=
              rfl
            omega
        have hstep : closing (pre ++ '"' :: (u ++ '"' :: v ++ ['"'])) (n + 1) pre.length =
            closing (pre ++ '"' :: u ++ '"' :: (v ++ ['"'])) n (pre ++ '"' :: u).length := by
          rw [closing, e0, h1]
          simp only [h2]
          rw [if_pos (r2.mpr hfu)]
          have e : pre ++ '"' :: u ++ '"' :: (v ++ ['"']) =
            pre ++ ['"'] ++ (u ++ '"' :: (v ++ ['"'])) := by simp
          have e' : (pre ++ '"' :: u).length = pre.length + 1 + u.length := by simp; omega
          rw [e, e']
        rw [hstep]
        rcases ih v (pre ++ '"' :: u) n (by omega) (by omega) hcv with h | ⟨q, q1, q2, q3⟩
        · exact Or.inl h
        · refine Or.inr ⟨q, ?_, ?_, q3⟩
          · simp only [List.length_append, List.length_cons] at q1; omega
          · simp only [List.length_append, List.length_cons] at q2 ⊢; omega

/-- The condition on strings is necessary: a string is read back from its own text if and only if it
meets it. -/
theorem C117_string_iff (w : Text) :
    Returns (print (.str w)) (.str w) ↔ closed false w = true := by
  constructor
  · intro h
    by_contra hcon
    rw [Bool.not_eq_true] at hcon
    obtain ⟨n, hn⟩ := h
    cases n with
    | zero => simp [parse, parseRight] at hn
    | succ n =>
      have hs : print (.str w) = '"' :: (w ++ ['"']) := by rw [print]
      have hi : ignoreChars ('"' :: (w ++ ['"'])) 0 = .ok 0 := by simp [ignoreChars, ignored]
      have hch : charAt ('"' :: (w ++ ['"'])) 0 = .ok '"' := by simp [charAt]
      rw [parse, hs, parseRight, hi] at hn
      simp only [hch, Char.reduceEq, if_false, if_true] at hn
      have hc := closing_not_closed w.length w [] ((('"' :: (w ++ ['"'])) : Text).length + 1) le_rfl
        (by simp) hcon
      simp only [List.nil_append, List.length_nil, Nat.zero_add] at hc
      rcases hc with hc | ⟨q, q1, q2, q3⟩
      · rw [parseString, hc] at hn
        simp at hn
      · rw [parseString, q3] at hn
        have hf : findQuote ('"' :: (w ++ ['"'])) 0 = some 0 := by
          simp [findQuote, List.findIdx?_cons]
        simp only [hf, if_pos q1] at hn
        split at hn
        · simp at hn
        · rename_i v p heq
          split at heq
          · simp at heq
          · simp only [Except.ok.injEq, Prod.mk.injEq] at heq hn
            rw [← heq.1] at hn
            simp only [J.str.injEq] at hn
            have := congrArg List.length hn
            simp at this
            omega
  · intro h
    exact C117_round_trip (.str w) (by simpa [WF] using h)

-- a quote inside, and a backslash at the end
example : ¬ Returns (print (.str "say \"hi\"".toList)) (.str "say \"hi\"".toList) := by
  rw [C117_string_iff]; decide +kernel

example : ¬ Returns (print (.str "C:\\".toList)) (.str "C:\\".toList) := by
  rw [C117_string_iff]; decide +kernel

/-- A member stored twice: the later value replaces the earlier one, the other members stay. -/
theorem C117_last_wins (k : Text) (v : J) (l : List (Text × J)) :
    (insertKV k v l).lookup k = some v ∧ ∀ k', k' ≠ k → (insertKV k v l).lookup k' = l.lookup k' := by
  induction l with
  | nil =>
    refine ⟨by simp [insertKV], fun k' hk => ?_⟩
    simp [insertKV, List.lookup, beq_eq_false_iff_ne.mpr hk]
  | cons p l ih =>
    obtain ⟨a, b⟩ := p
    simp only [insertKV]
    split
    · rename_i hka
      subst hka
      refine ⟨by simp [List.lookup], fun k' hk => ?_⟩
      simp [List.lookup, beq_eq_false_iff_ne.mpr hk]
    · rename_i hka
      split
      · refine ⟨by simp [List.lookup], fun k' hk => ?_⟩
        simp [List.lookup, beq_eq_false_iff_ne.mpr hk]
      · refine ⟨?_, fun k' hk => ?_⟩
        · simp [List.lookup, beq_eq_false_iff_ne.mpr hka, ih.1]
        · by_cases h : k' = a
          · subst h; simp [List.lookup]
          · simp [List.lookup, beq_eq_false_iff_ne.mpr h, ih.2 k' hk]

example : parse 50 "{\"a\":\"x\",\"b\":\"y\",\"a\":\"z\"}".toList =
    .ok (.obj [("a".toList, .str "z".toList), ("b".toList, .str "y".toList)]) := rfl

/-- Plain texts, without quotes and backslashes, are always fine. -/
theorem C117_plain (w : Text) (h1 : '"' ∉ w) (h2 : '\\' ∉ w) : closed false w = true := by
  induction w with
  | nil => rfl
  | cons c l ih =>
    simp only [List.mem_cons, not_or] at h1 h2
    rw [closed, if_neg (Ne.symm h2.1), if_neg (Ne.symm h1.1)]
    exact ih h1.2 h2.2

/-! ## C118: texts that were not printed by the library -/

/-- An array that contains anything but strings, arrays and objects, for instance an unquoted number,
keeps the parser busy for ever. -/
theorem C118_never_returns (c : Char) (rest : Text)
    (hc : ignored c = false ∧ c ≠ '{' ∧ c ≠ '"' ∧ c ≠ '[' ∧ c ≠ ']') (n : Nat) :
    parse n ('[' :: c :: rest) = .error .fuel := by
  have hi : ignoreChars ('[' :: c :: rest) 1 = .ok 1 := by simp [ignoreChars, hc.1]
  have hch : charAt ('[' :: c :: rest) 1 = .ok c := by simp [charAt]
  have hstuck : ∀ n, parseRight ('[' :: c :: rest) (n + 1) 1 = .ok (.null, 1) := by
    intro n
    rw [parseRight, hi]
    simp only [hch, hc.2.1, hc.2.2.1, hc.2.2.2.1, if_false, hi]
  have hloop : ∀ n acc, arrLoop ('[' :: c :: rest) n 1 acc = .error .fuel := by
    intro n
    induction n with
    | zero => intro acc; rw [arrLoop]
    | succ n ih =>
      intro acc
      rw [arrLoop, if_pos (by simp [hc.2.2.2.2])]
      cases n with
      | zero => rw [parseRight]
      | succ n => simp only [hstuck, hi, ih]
  cases n with
  | zero => rw [parse, parseRight]
  | succ n =>
    have h0 : ignoreChars ('[' :: c :: rest) 0 = .ok 0 := by simp [ignoreChars, ignored]
    have hch0 : charAt ('[' :: c :: rest) 0 = .ok '[' := by simp [charAt]
    rw [parse, parseRight, h0]
    simp only [hch0, Char.reduceEq, if_false, if_true, hi, hloop]

example (n : Nat) : parse n "[1, 2]".toList = .error .fuel :=
  C118_never_returns '1' ", 2]".toList (by decide) n

-- blanks before a colon, a tabulator, an unquoted value: undefined behaviour
example : parse 50 "{\"a\" : \"b\"}".toList = .error .ub := rfl
example : parse 50 "{\t\"a\":\"b\"}".toList = .error .ub := rfl
example : parse 50 "{\"a\":1}".toList = .error .ub := rfl

/-- A value that is not a string, an array or an object is stored as a null pointer, and the parser
goes on right there; where no further quote follows it reads outside of the text. -/
theorem C118_unquoted_value (key v : Text) (hk : closed false key = true) (hv : '"' ∉ v)
    (hv' : ∃ c r, v = c :: r ∧ ignored c = false ∧ c ≠ '{' ∧ c ≠ '[' ∧ c ≠ '}') (n : Nat) :
    parse (n + 3) ('{' :: '"' :: (key ++ '"' :: ':' :: (v ++ ['}']))) = .error .ub := by
  obtain ⟨c, r, rfl, h1, h2, h3, h4⟩ := hv'
  simp only [List.mem_cons, not_or] at hv
  generalize hs : '{' :: '"' :: (key ++ '"' :: ':' :: (c :: r ++ ['}'])) = s
  have e1 : s = ['{'] ++ '"' :: (key ++ '"' :: (':' :: (c :: r ++ ['}']))) := by rw [← hs]; rfl
  have e2 : s = ('{' :: '"' :: (key ++ ['"', ':'])) ++ (c :: (r ++ ['}'])) := by rw [← hs]; simp
  have hps : parseString s 1 = .ok (key, 1 + (key.length + 2)) := by
    have := parseString_spec ['{'] key (':' :: (c :: r ++ ['}'])) hk
    rw [← e1] at this
    exact this
  have hlen : ('{' :: '"' :: (key ++ ['"', ':'])).length = 1 + (key.length + 2) + 1 := by
    simp; omega
  have hi2 : ignoreChars s (1 + (key.length + 2) + 1) = .ok (1 + (key.length + 2) + 1) := by
    have := ignore_at ('{' :: '"' :: (key ++ ['"', ':'])) (c :: (r ++ ['}']))
    rw [← e2, hlen] at this
    rw [this]
    simp [h1]
  have hget : s[1 + (key.length + 2) + 1]? = some c := by
    rw [e2, ← hlen, List.getElem?_append_right le_rfl]
    simp
  have hlt : 1 + (key.length + 2) + 1 < s.length := by
    rw [e2, List.length_append, hlen]
    simp
  have hch2 : charAt s (1 + (key.length + 2) + 1) = .ok c := by
    rw [charAt, if_neg (by omega), hget]
  have hnull : ∀ m, parseRight s (m + 1) (1 + (key.length + 2) + 1) =
      .ok (.null, 1 + (key.length + 2) + 1) := by
    intro m
    rw [parseRight, hi2]
    simp only [hch2, h2, h3, Ne.symm hv.1, if_false, hi2]
  have hnoq : parseString s (1 + (key.length + 2) + 1) = .error .ub := by
    have : findQuote s (1 + (key.length + 2) + 1 + 1) = none := by
      rw [findQuote, if_pos (by omega)]
      have e3 : s.drop (1 + (key.length + 2) + 1 + 1) = r ++ ['}'] := by
        have : s = (('{' :: '"' :: (key ++ ['"', ':'])) ++ [c]) ++ (r ++ ['}']) := by
          rw [e2]; simp
        rw [this, List.drop_append_of_le_length (by rw [List.length_append, hlen]; simp),
          List.drop_of_length_le (by rw [List.length_append, hlen]; simp)]
        rfl
      rw [e3]
      have : (r ++ ['}']).findIdx? (· == '"') = none := by
        rw [List.findIdx?_eq_none_iff]
        intro x hx
        simp only [List.mem_append, List.mem_singleton] at hx
        rcases hx with hx | rfl
        · simp only [beq_eq_false_iff_ne]
          rintro rfl
          exact hv.2 hx
        · decide
      rw [this]
    rw [parseString, closing, this]
  have h0 : ignoreChars s 0 = .ok 0 := by
    rw [← hs]; simp [ignoreChars, ignored]
  have hch0 : charAt s 0 = .ok '{' := by
    rw [← hs]; simp [charAt]
  have hi1 : ignoreChars s 1 = .ok 1 := by
    rw [← hs]; simp [ignoreChars, ignored]
  rw [parse, parseRight, h0]
  simp only [hch0, if_true, hi1]
  rw [objLoop, if_pos (by rw [← hs]; simp)]
  simp only [hps, hnull, hi2]
  rw [objLoop, if_pos ⟨hlt, by rw [hget]; simpa using h4⟩]
  simp only [hnoq]

example (n : Nat) : parse (n + 3) "{\"a\":1}".toList = .error .ub :=
  C118_unquoted_value ['a'] ['1'] rfl (by decide) ⟨'1', [], rfl, by decide⟩ n

/-! ## C119: numbers -/

/-- Sixteen digits do not tell two doubles apart: 1 and the next one are written alike, so a number
packed and unpacked may change. -/
theorem C119_number_lost : written 16 (doubleNo 0) = written 16 (doubleNo 1) ∧
    doubleNo 0 ≠ doubleNo 1 := by
  constructor
  · unfold written doubleNo
    congr 1
    norm_num [round_eq, Int.floor_eq_iff]
  · unfold doubleNo
    norm_num

/-- Seventeen digits would do in this range: different doubles are written differently. -/
theorem C119_seventeen_suffice (j k : Nat) (h : written 17 (doubleNo j) = written 17 (doubleNo k)) :
    j = k := by
  unfold written at h
  have h10 : ((10 : ℚ) ^ (17 - 1)) ≠ 0 := by norm_num
  rw [div_left_inj' h10] at h
  have hj := abs_le.mp (abs_sub_round (doubleNo j * 10 ^ (17 - 1)))
  have hk := abs_le.mp (abs_sub_round (doubleNo k * 10 ^ (17 - 1)))
  rw [h] at hj
  unfold doubleNo at hj hk
  rcases Nat.lt_trichotomy j k with hlt | heq | hgt
  · exfalso
    have : (j : ℚ) + 1 ≤ k := by exact_mod_cast hlt
    norm_num at hj hk
    linarith [hj.1, hj.2, hk.1, hk.2]
  · exact heq
  · exfalso
    have : (k : ℚ) + 1 ≤ j := by exact_mod_cast hgt
    norm_num at hj hk
    linarith [hj.1, hj.2, hk.1, hk.2]

end Paradiseo.Serial
