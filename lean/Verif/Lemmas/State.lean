import Verif.Model.State
import Mathlib.Data.List.Infix
import Mathlib.Data.List.Nodup
import Mathlib.Data.List.Perm.Subperm
import Mathlib.Tactic.IntervalCases
/-
Helper lemmas for the state object of EO.
-/
namespace Paradiseo.State

variable {O : Type}

/-! ### find -/

theorem find_none_iff (pat s : Text) : find pat s = none ↔ ¬ pat <:+: s := by
  induction s with
  | nil =>
    unfold find
    cases pat with
    | nil => simp
    | cons a p => simp [List.isPrefixOf]
  | cons c s ih =>
    unfold find
    by_cases h : pat.isPrefixOf (c :: s)
    · rw [if_pos h]
      simp only [reduceCtorEq, false_iff, not_not]
      exact (List.isPrefixOf_iff_prefix.1 h).isInfix
    · rw [if_neg h, Option.map_eq_none_iff, ih, List.infix_cons_iff]
      rw [List.isPrefixOf_iff_prefix] at h
      simp [h]

theorem not_infix_of_mem {pat s : Text} {c : Char} (h1 : c ∈ pat) (h2 : c ∉ s) : ¬ pat <:+: s :=
  fun h => h2 (h.subset h1)

/-- A closing tag with a newline is found in no line. -/
theorem isSection_none {T : Tags} (hT : '\n' ∈ T.secSc) {line : Text} (h : '\n' ∉ line) :
    isSection T line = none := by
  unfold isSection
  cases find T.secSo line with
  | none => rfl
  | some pos =>
    have : find T.secSc line = none := (find_none_iff _ _).2 (not_infix_of_mem hT h)
    rw [this]

theorem isSection_none_so {T : Tags} {line : Text} (h : find T.secSo line = none) :
    isSection T line = none := by
  unfold isSection; rw [h]

/-! ### getline -/

theorem getline_nil : getline [] = none := rfl

theorem getline_some {s : Text} (h : s ≠ []) : ∃ l r e, getline s = some (l, r, e) ∧ '\n' ∉ l ∧
    r.length < s.length := by
  unfold getline
  cases s with
  | nil => exact absurd rfl h
  | cons c s =>
    simp only
    have hl : '\n' ∉ (c :: s).takeWhile (· ≠ '\n') := by
      intro hm
      have key : ∀ s : Text, '\n' ∉ s.takeWhile (· ≠ '\n') := by
        intro s
        induction s with
        | nil => simp
        | cons a s ih =>
          rw [List.takeWhile_cons]
          split
          · rename_i ha
            simp only [ne_eq, decide_not, Bool.not_eq_eq_eq_not, Bool.not_true,
              decide_eq_false_iff_not] at ha
            rw [List.mem_cons, not_or]
            exact ⟨fun e => ha e.symm, ih⟩
          · simp
      exact key _ hm
    generalize hg : (c :: s).takeWhile (· ≠ '\n') = l at hl ⊢
    cases hd : (c :: s).drop l.length with
    | nil => exact ⟨l, [], true, rfl, hl, by simp⟩
    | cons a r =>
      refine ⟨l, r, false, rfl, hl, ?_⟩
      have := congrArg List.length hd
      simp only [List.length_drop, List.length_cons] at this ⊢
      omega

theorem getline_line {l : Text} (r : Text) (h : '\n' ∉ l) :
    getline (l ++ '\n' :: r) = some (l, r, false) := by
  have htw : (l ++ '\n' :: r).takeWhile (· ≠ '\n') = l := by
    rw [List.takeWhile_append_of_pos]
    · simp
    · intro a ha
      have : a ≠ '\n' := fun e => h (e ▸ ha)
      simp [this]
  have hne : l ++ '\n' :: r ≠ [] := by simp
  unfold getline
  cases hs : l ++ '\n' :: r with
  | nil => exact absurd hs hne
  | cons a t =>
    simp only
    rw [← hs, htw]
    have : (l ++ '\n' :: r).drop l.length = '\n' :: r := by simp
    rw [this]

/-! ### Numbers -/

theorem digitChar_inj {a b : Nat} (ha : a < 10) (hb : b < 10) (h : Nat.digitChar a = Nat.digitChar b) :
    a = b := by
  interval_cases a <;> interval_cases b <;> first | rfl | (exact absurd h (by decide))

theorem showNat_inj {m n : Nat} (hm : m ≠ 0) (hn : n ≠ 0) (h : showNat m = showNat n) : m = n := by
  unfold showNat at h
  rw [if_neg hm, if_neg hn] at h
  rw [← Nat.digits_inj_iff (b := 10)]
  have h' : (Nat.digits 10 m).map Nat.digitChar = (Nat.digits 10 n).map Nat.digitChar := by
    have := congrArg List.reverse h
    simpa [← List.map_reverse] using this
  have key : ∀ l k : List Nat, (∀ x ∈ l, x < 10) → (∀ x ∈ k, x < 10) →
      l.map Nat.digitChar = k.map Nat.digitChar → l = k := by
    intro l
    induction l with
    | nil => intro k _ _ h; cases k <;> simp_all
    | cons a l ih =>
      intro k hl hk h
      cases k with
      | nil => simp at h
      | cons b k =>
        simp only [List.map_cons, List.cons.injEq] at h
        rw [digitChar_inj (hl a (by simp)) (hk b (by simp)) h.1,
          ih k (fun x hx => hl x (by simp [hx])) (fun x hx => hk x (by simp [hx])) h.2]
  exact key _ _ (fun x hx => Nat.digits_lt_base (by omega) hx) (fun x hx => Nat.digits_lt_base (by omega) hx) h'

/-- The candidates of the naming loop: the class, then the class with 1, 2, … -/
def cand (cls : Text) (k : Nat) : Text := if k = 0 then cls else cls ++ showNat k

theorem showNat_ne_nil (n : Nat) : showNat n ≠ [] := by
  unfold showNat
  split
  · simp
  · rename_i h
    simp [Nat.digits_ne_nil_iff_ne_zero.2 h]

theorem cand_inj {cls : Text} {i j : Nat} (h : cand cls i = cand cls j) : i = j := by
  unfold cand at h
  split_ifs at h with h1 h2 h2
  · omega
  · exact absurd (List.self_eq_append_right.1 h) (showNat_ne_nil j)
  · exact absurd (List.append_right_eq_self.1 h) (showNat_ne_nil i)
  · exact showNat_inj h1 h2 (List.append_cancel_left h)

theorem freeName_cand (taken : List Text) (cls : Text) (fuel k : Nat) :
    freeName taken cls fuel (k + 1) (cand cls k) =
      ((List.range' k fuel).find? fun i => decide (cand cls i ∉ taken)).map (cand cls) := by
  induction fuel generalizing k with
  | zero => rfl
  | succ fuel ih =>
    unfold freeName
    rw [List.range'_succ, List.find?_cons]
    by_cases h : cand cls k ∈ taken
    · rw [if_pos h]
      have : cls ++ showNat (k + 1) = cand cls (k + 1) := by simp [cand]
      rw [this, ih (k + 1)]
      simp [h]
    · rw [if_neg h]; simp [h]

/-! ### Reading what was written, with a closing tag that can be found -/

/-- The default tags with a closing tag without the newline. -/
def latexFixed : Tags := { latex [] with secSc := "}".toList }

theorem find_append_self (pat s : Text) : find pat (pat ++ s) = some 0 := by
  cases pat with
  | nil => cases s <;> simp [find, List.isPrefixOf]
  | cons a p =>
    unfold find
    simp only [List.cons_append]
    rw [if_pos]
    rw [List.isPrefixOf_iff_prefix]
    exact ⟨s, by simp⟩

theorem find_single {c : Char} (l r : Text) (h : c ∉ l) : find [c] (l ++ c :: r) = some l.length := by
  induction l with
  | nil => exact find_append_self [c] r
  | cons a l ih =>
    simp only [List.mem_cons, not_or] at h
    simp only [List.cons_append, find]
    rw [if_neg (by simp [List.isPrefixOf, h.1]), ih h.2]
    simp

theorem isSection_header {name : Text} (h : '}' ∉ name) :
    isSection latexFixed ("\\section{".toList ++ name ++ ['}']) = some name := by
  have h1 : find latexFixed.secSo ("\\section{".toList ++ name ++ ['}']) = some 0 := by
    rw [List.append_assoc]; exact find_append_self _ _
  have h2 : find latexFixed.secSc ("\\section{".toList ++ name ++ ['}']) = some (9 + name.length) := by
    have := find_single (c := '}') ("\\section{".toList ++ name) [] (by
      rw [List.mem_append, not_or]; exact ⟨by decide, h⟩)
    rw [List.length_append] at this
    exact this
  unfold isSection
  rw [h1, h2]
  simp only
  have h3 : latexFixed.secSo.length = 9 := rfl
  rw [h3, if_neg (by omega)]
  have h4 : ("\\section{".toList ++ name ++ ['}']).drop (0 + 9) = name ++ ['}'] := by
    rw [List.append_assoc]; rfl
  rw [h4]
  simp

/-- Every text is its lines. -/
theorem exists_lines (c : Text) : ∃ ls : List Text, (∀ l ∈ ls, '\n' ∉ l) ∧
    c ++ ['\n'] = ls.flatMap (· ++ ['\n']) := by
  induction c with
  | nil => exact ⟨[[]], by simp, by simp⟩
  | cons a c ih =>
    obtain ⟨ls, h1, h2⟩ := ih
    by_cases ha : a = '\n'
    · subst ha
      exact ⟨[] :: ls, by simpa using h1, by simp [h2]⟩
    · cases ls with
      | nil => simp at h2
      | cons l ls =>
        refine ⟨(a :: l) :: ls, ?_, ?_⟩
        · intro x hx
          rcases List.mem_cons.1 hx with rfl | hx
          · simp only [List.mem_cons, not_or]
            exact ⟨fun e => ha e.symm, h1 l (by simp)⟩
          · exact h1 x (by simp [hx])
        · simp only [List.cons_append, h2, List.flatMap_cons]

theorem takeWhile_hash {l : Text} (h : '#' ∉ l) : removeComment l = l := by
  unfold removeComment
  induction l with
  | nil => rfl
  | cons a l ih =>
    rw [List.mem_cons, not_or] at h
    rw [List.takeWhile_cons, if_pos (by simpa using fun e => h.1 e.symm), ih h.2]

theorem getline_suffix_len {s l r : Text} {e : Bool} (h : getline s = some (l, r, e)) :
    r.length < s.length := by
  cases s with
  | nil => cases h
  | cons c s =>
    obtain ⟨l', r', e', h1, _, h3⟩ := getline_some (s := c :: s) (by simp)
    rw [h] at h1; cases h1; exact h3

theorem readInto_not_mem (rd : Text → O → O) {name : Text} (full : Text) {objs : List (Text × O)}
    (h : name ∉ objs.map (·.1)) : readInto rd name full objs = objs := by
  unfold readInto
  conv_rhs => rw [← List.map_id objs]
  apply List.map_congr_left
  intro x hx
  rw [if_neg]
  · rfl
  · intro e; exact h (List.mem_map.2 ⟨x, hx, e⟩)

/-- The lines of a section are collected up to the next header or the end. -/
theorem collect_lines (ls : List Text) (hl : ∀ l ∈ ls, '\n' ∉ l) (hh : ∀ l ∈ ls, '#' ∉ l)
    (hs : ∀ l ∈ ls, isSection latexFixed l = none) (tail : Text) (full : Text) (fuel : Nat)
    (hf : (ls.flatMap (· ++ ['\n']) ++ tail).length < fuel) :
    ∃ fuel', tail.length < fuel' ∧
      collectLoop latexFixed fuel (ls.flatMap (· ++ ['\n']) ++ tail) full =
      collectLoop latexFixed fuel' tail (full ++ ls.flatMap (· ++ ['\n'])) := by
  induction ls generalizing full fuel with
  | nil => exact ⟨fuel, by simpa using hf, by simp⟩
  | cons l ls ih =>
    cases fuel with
    | zero => simp at hf
    | succ fuel =>
      have e : (l :: ls).flatMap (· ++ ['\n']) ++ tail = l ++ '\n' :: (ls.flatMap (· ++ ['\n']) ++ tail) := by
        simp
      rw [e] at hf ⊢
      have hlen : (ls.flatMap (· ++ ['\n']) ++ tail).length < fuel := by
        rw [List.length_append, List.length_cons] at hf; omega
      obtain ⟨f', hf', he⟩ := ih (fun x hx => hl x (by simp [hx])) (fun x hx => hh x (by simp [hx]))
        (fun x hx => hs x (by simp [hx])) (full ++ removeComment l ++ ['\n']) fuel hlen
      refine ⟨f', hf', ?_⟩
      rw [collectLoop, getline_line _ (hl l (by simp))]
      simp only [Bool.false_eq_true, if_false, hs l (by simp)]
      rw [he, takeWhile_hash (hh l (by simp))]
      simp

end Paradiseo.State
