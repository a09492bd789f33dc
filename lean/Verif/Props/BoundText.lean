import Verif.Model.BoundText
import Verif.Lemmas.Persist
/-
C275, C276: bounds as text.

The specification is what the text stands for: groups of a count and two limits; a limit is a number or infinite.
Of the writing and reading of numbers only this is assumed: a number is written without delimiters, brackets and
blanks, not as one of the texts for infinity, and read as it was (`NumGood`).
-/
namespace Paradiseo.BoundText

open Paradiseo.EO Paradiseo.Persist
open Paradiseo.Param (isWs digit_not_ws)
open Paradiseo.Bounds (Bound)

/-- A text without delimiters, brackets, blanks. -/
def Plain (t : Text) : Prop := t ≠ [] ∧ ∀ c ∈ t, isDelim c = false ∧ isBracket c = false ∧ isWs c = false

/-- The texts that stand for infinity. -/
def infinities : List Text := [txt "-inf", txt "+inf", txt "-infinity", txt "+infinity"]

/-- A number that is read as it was written. -/
def NumGood {R : Type} (rd : Text → R) (sh : R → Text) (v : R) : Prop :=
  Plain (sh v) ∧ sh v ∉ infinities ∧ rd (sh v) = v

/-- The numbers in bounds. -/
def numbers {R : Type} : Bound R → List R
  | .none => []
  | .interval lo hi => [lo, hi]
  | .below lo => [lo]
  | .above hi => [hi]

/-! ### Searching in texts -/

theorem findIdx_append {p : Char → Bool} {xs ys : Text} {c : Char} (h : ∀ x ∈ xs, p x = false) (hc : p c = true) :
    (xs ++ c :: ys).findIdx? p = some xs.length := by
  induction xs with
  | nil => rw [List.nil_append, List.findIdx?_cons, if_pos hc]; rfl
  | cons a xs ih =>
    rw [List.cons_append, List.findIdx?_cons, if_neg (by simp [h a (by simp)]),
      ih fun x hx => h x (by simp [hx])]
    rfl

theorem findIdx_none {p : Char → Bool} {xs : Text} (h : ∀ x ∈ xs, p x = false) : xs.findIdx? p = none :=
  List.findIdx?_eq_none_iff.2 h

theorem strip_cons {c : Char} (h : isDelim c = false) (t : Text) : stripDelim (c :: t) = some (c :: t) := by
  rw [stripDelim, List.dropWhile_cons, if_neg (by simp [h])]

theorem strip_delim {c : Char} (h : isDelim c = true) (t : Text) : stripDelim (c :: t) = stripDelim t := by
  rw [stripDelim, List.dropWhile_cons, if_pos h, stripDelim]

theorem strip_plain {a : Text} (h : Plain a) (t : Text) : stripDelim (a ++ t) = some (a ++ t) := by
  cases a with
  | nil => exact absurd rfl h.1
  | cons c a => exact strip_cons (h.2 c (by simp)).1 _

theorem strip_no_delim : ∀ (s : Text), ∃ u, stripDelim s = none ∧ (∀ c ∈ s, isDelim c = true) ∨
    ∃ c t, isDelim c = false ∧ s = u ++ c :: t ∧ stripDelim s = some (c :: t) ∧ ∀ c ∈ u, isDelim c = true
  | [] => ⟨[], Or.inl ⟨rfl, by simp⟩⟩
  | a :: s => by
    by_cases ha : isDelim a = true
    · obtain ⟨u, h | ⟨c, t, h1, h2, h3, h4⟩⟩ := strip_no_delim s
      · exact ⟨[], Or.inl ⟨by rw [strip_delim ha, h.1], by
          intro c hc
          rcases List.mem_cons.1 hc with rfl | hc
          · exact ha
          · exact h.2 c hc⟩⟩
      · exact ⟨a :: u, Or.inr ⟨c, t, h1, by rw [h2, List.cons_append], by rw [strip_delim ha, h3], by
          intro c hc
          rcases List.mem_cons.1 hc with rfl | hc
          · exact ha
          · exact h4 c hc⟩⟩
    · rw [Bool.not_eq_true] at ha
      exact ⟨[], Or.inr ⟨a, s, ha, rfl, strip_cons ha s, by simp⟩⟩

section
variable {R : Type} [LinearOrder R]

/-- Two limits separated by a comma. -/
theorem limits_eq (I J : List Text) (rd : Text → R) {a b : Text} (ha : a ≠ []) (hd : ∀ c ∈ a, isDelim c = false)
    (hb : ∃ c t, b = c :: t ∧ isDelim c = false) :
    limits I J rd (a ++ ',' :: b) =
      match limit I rd a with
      | .error e => .error e
      | .ok lo =>
        match limit J rd b with
        | .error e => .error e
        | .ok hi => .ok (lo, hi) := by
  have h1 : stripDelim (a ++ ',' :: b) = some (a ++ ',' :: b) := by
    cases a with
    | nil => exact absurd rfl ha
    | cons c a => exact strip_cons (hd c (by simp)) _
  have h2 : (a ++ ',' :: b).findIdx? isDelim = some a.length := findIdx_append hd (by decide)
  have h3 : upper J rd (',' :: b) = limit J rd b := by
    obtain ⟨c, t, rfl, hc⟩ := hb
    rw [upper, strip_delim (by decide), strip_cons hc]
  rw [limits, h1, Option.getD_some, h2]
  dsimp only
  rw [List.take_left, List.drop_left, h3]
  rfl

theorem plain_head {b : Text} (h : Plain b) : ∃ c t, b = c :: t ∧ isDelim c = false := by
  cases b with
  | nil => exact absurd rfl h.1
  | cons c t => exact ⟨c, t, rfl, (h.2 c (by simp)).1⟩

theorem plain_delim {a : Text} (h : Plain a) : ∀ c ∈ a, isDelim c = false := fun c hc => (h.2 c hc).1

theorem limit_num {I : List Text} {rd : Text → R} {sh : R → Text} {v : R} (h : NumGood rd sh v)
    (hI : ∀ t ∈ I, t ∈ infinities) : limit I rd (sh v) = .ok (some v) := by
  have hn : ¬ sh v ∈ I := fun hm => h.2.1 (hI _ hm)
  have hs : skipWs (sh v) = sh v := by
    have := skip_word (w := sh v) ⟨h.1.1, fun c hc => (h.1.2 c hc).2.2⟩ []
    simpa using this
  rw [limit, if_neg hn, readNum, hs]
  cases hc : sh v with
  | nil => exact absurd hc h.1.1
  | cons c t =>
    have := h.2.2
    rw [hc] at this
    simp only [this]

theorem limit_inf {I : List Text} {rd : Text → R} {t : Text} (h : t ∈ I) : limit I rd t = .ok none := by
  rw [limit, if_pos h]

/-- The part between the brackets. -/
def body (sh : R → Text) : Bound R → Text
  | .none => txt "-inf" ++ ',' :: txt "+inf"
  | .interval lo hi => sh lo ++ ',' :: sh hi
  | .below lo => sh lo ++ ',' :: txt "+inf"
  | .above hi => txt "-inf" ++ ',' :: sh hi

theorem boundPrint_eq (sh : R → Text) (b : Bound R) : boundPrint sh b = '[' :: (body sh b ++ [']']) := by
  cases b <;> simp [boundPrint, body, txt]

theorem plain_inf : Plain (txt "-inf") ∧ Plain (txt "+inf") := by
  constructor <;> refine ⟨by decide, ?_⟩ <;> decide

theorem body_chars {rd : Text → R} {sh : R → Text} {b : Bound R} (h : ∀ v ∈ numbers b, NumGood rd sh v) :
    ∀ c ∈ body sh b, isBracket c = false ∧ isWs c = false := by
  have hp : ∀ {t : Text}, Plain t → ∀ c ∈ t, isBracket c = false ∧ isWs c = false := fun h c hc => (h.2 c hc).2
  have hcomma : isBracket ',' = false ∧ isWs ',' = false := by decide
  intro c hc
  cases b with
  | none =>
    rcases List.mem_append.1 hc with hc | hc
    · exact hp plain_inf.1 c hc
    · rcases List.mem_cons.1 hc with rfl | hc
      · exact hcomma
      · exact hp plain_inf.2 c hc
  | interval lo hi =>
    rcases List.mem_append.1 hc with hc | hc
    · exact hp (h lo (by simp [numbers])).1 c hc
    · rcases List.mem_cons.1 hc with rfl | hc
      · exact hcomma
      · exact hp (h hi (by simp [numbers])).1 c hc
  | below lo =>
    rcases List.mem_append.1 hc with hc | hc
    · exact hp (h lo (by simp [numbers])).1 c hc
    · rcases List.mem_cons.1 hc with rfl | hc
      · exact hcomma
      · exact hp plain_inf.2 c hc
  | above hi =>
    rcases List.mem_append.1 hc with hc | hc
    · exact hp plain_inf.1 c hc
    · rcases List.mem_cons.1 hc with rfl | hc
      · exact hcomma
      · exact hp (h hi (by simp [numbers])).1 c hc

/-- The limits of bounds. -/
def ends : Bound R → Option R × Option R
  | .none => (none, none)
  | .interval lo hi => (some lo, some hi)
  | .below lo => (some lo, none)
  | .above hi => (none, some hi)

theorem limits_body {I J : List Text} {rd : Text → R} {sh : R → Text} {b : Bound R}
    (h : ∀ v ∈ numbers b, NumGood rd sh v) (hI : ∀ t ∈ I, t ∈ infinities) (hJ : ∀ t ∈ J, t ∈ infinities)
    (h1 : txt "-inf" ∈ I) (h2 : txt "+inf" ∈ J) : limits I J rd (body sh b) = .ok (ends b) := by
  cases b with
  | none =>
    rw [body, limits_eq _ _ _ plain_inf.1.1 (plain_delim plain_inf.1) (plain_head plain_inf.2), limit_inf h1,
      limit_inf h2]
    rfl
  | interval lo hi =>
    have g1 := h lo (by simp [numbers])
    have g2 := h hi (by simp [numbers])
    rw [body, limits_eq _ _ _ g1.1.1 (plain_delim g1.1) (plain_head g2.1), limit_num g1 hI, limit_num g2 hJ]
    rfl
  | below lo =>
    have g1 := h lo (by simp [numbers])
    rw [body, limits_eq _ _ _ g1.1.1 (plain_delim g1.1) (plain_head plain_inf.2), limit_num g1 hI, limit_inf h2]
    rfl
  | above hi =>
    have g2 := h hi (by simp [numbers])
    rw [body, limits_eq _ _ _ plain_inf.1.1 (plain_delim plain_inf.1) (plain_head g2.1), limit_inf h1,
      limit_num g2 hJ]
    rfl

/-! ### Groups -/

theorem group_eq (rd : Text → R) {cnt b r : Text} (hc : ∀ c ∈ cnt, isBracket c = false)
    (hb : ∀ c ∈ b, c ≠ ']') :
    group rd (cnt ++ '[' :: (b ++ ']' :: r)) =
      match readCount cnt with
      | .error e => .error e
      | .ok n =>
        match limits [txt "-inf"] [txt "+inf"] rd b with
        | .error e => .error e
        | .ok p =>
          match mkBound badVector p with
          | .error e => .error e
          | .ok b => .ok (some (n, b, r)) := by
  have h1 : (cnt ++ '[' :: (b ++ ']' :: r)).findIdx? isOpen = some cnt.length :=
    findIdx_append (fun x hx => by
      have := hc x hx
      simp only [isBracket, Bool.or_eq_false_iff] at this
      simp [isOpen, this.1.1]) (by decide)
  have h2 : (cnt ++ '[' :: (b ++ ']' :: r))[cnt.length]? = some '[' := by
    rw [List.getElem?_append_right (Nat.le_refl _), Nat.sub_self]; rfl
  have h3 : (cnt ++ '[' :: (b ++ ']' :: r)).findIdx? (fun c => decide (c = ']')) = some (cnt.length + 1 + b.length) := by
    have := findIdx_append (p := fun c => decide (c = ']')) (xs := cnt ++ '[' :: b) (ys := r) (c := ']') (by
      intro x hx
      rcases List.mem_append.1 hx with hx | hx
      · have := hc x hx
        simp only [isBracket, Bool.or_eq_false_iff, beq_eq_false_iff_ne] at this
        simp [this.1.2]
      · rcases List.mem_cons.1 hx with rfl | hx
        · decide
        · simp [hb x hx]) (by decide)
    rw [List.append_assoc, List.cons_append] at this
    rw [this]
    simp only [List.length_append, List.length_cons]
    congr 1
    omega
  have h4 : (cnt ++ '[' :: (b ++ ']' :: r)).take cnt.length = cnt := List.take_left
  have h5 : (cnt ++ '[' :: (b ++ ']' :: r)).drop (cnt.length + 1) = b ++ ']' :: r := by
    rw [← List.drop_drop, List.drop_left]; rfl
  have h6 : between (cnt ++ '[' :: (b ++ ']' :: r)) cnt.length (cnt.length + 1 + b.length) = b := by
    rw [between, if_pos (by omega), h5, show cnt.length + 1 + b.length - cnt.length - 1 = b.length by omega,
      List.take_left]
  have h7 : (cnt ++ '[' :: (b ++ ']' :: r)).drop (cnt.length + 1 + b.length + 1) = r := by
    rw [show cnt.length + 1 + b.length + 1 = (cnt.length + 1) + (b.length + 1) by omega, ← List.drop_drop, h5,
      ← List.drop_drop, List.drop_left]
    rfl
  rw [group, h1]
  simp only [h2]
  rw [if_neg (by decide), h3]
  simp only [h4, h6, h7]
  rfl

theorem digitsAt_show (n : Nat) {t : Text} (ht : ∀ c u, t = c :: u → c.isDigit = false) :
    digitsAt (State.showNat n ++ t) = n := by
  obtain ⟨-, h2, h3⟩ := MathSym.showNat_spec n
  have : (State.showNat n ++ t).takeWhile (·.isDigit) = State.showNat n := by
    rw [List.takeWhile_append, MathSym.takeWhile_all h2, if_pos rfl]
    cases t with
    | nil => simp
    | cons c u => rw [List.takeWhile_cons, if_neg (by simp [ht c u rfl]), List.append_nil]
  rw [digitsAt, this]
  exact h3

theorem digit_plain {c : Char} (h : c.isDigit = true) :
    isDelim c = false ∧ isBracket c = false ∧ isWs c = false ∧ c ≠ '-' ∧ c ≠ '+' := by
  have hne : ∀ d : Char, d.isDigit = false → c ≠ d := by
    rintro d hd rfl
    rw [hd] at h
    exact Bool.noConfusion h
  refine ⟨?_, ?_, digit_not_ws h, hne _ (by decide), hne _ (by decide)⟩
  · have h1 := hne ',' (by decide)
    have h2 := hne ';' (by decide)
    have h3 := hne ' ' (by decide)
    simp [isDelim, h1, h2, h3]
  · have h1 := hne '[' (by decide)
    have h2 := hne '(' (by decide)
    have h3 := hne ']' (by decide)
    have h4 := hne ')' (by decide)
    simp [isBracket, h1, h2, h3, h4]

theorem show_plain (n : Nat) : Plain (State.showNat n) := by
  obtain ⟨h1, h2, -⟩ := MathSym.showNat_spec n
  exact ⟨h1, fun c hc => ⟨(digit_plain (h2 c hc)).1, (digit_plain (h2 c hc)).2.1, (digit_plain (h2 c hc)).2.2.1⟩⟩

theorem rdInt_show (n : Nat) {t : Text} (ht : ∀ c u, t = c :: u → c.isDigit = false) :
    rdInt (State.showNat n ++ t) = n := by
  obtain ⟨h1, h2, -⟩ := MathSym.showNat_spec n
  have hs := skip_word (w := State.showNat n) ⟨h1, fun c hc => digit_not_ws (h2 c hc)⟩ t
  have hd := digitsAt_show n ht
  rw [rdInt, hs]
  cases hc : State.showNat n with
  | nil => exact absurd hc h1
  | cons c u =>
    have hdig := digit_plain (h2 c (by simp [hc]))
    rw [hc] at hd
    rw [List.cons_append] at hd ⊢
    rw [intAt, if_neg hdig.2.2.2.1, if_neg hdig.2.2.2.2, hd]

theorem rdInt_neg (n : Nat) {t : Text} (ht : ∀ c u, t = c :: u → c.isDigit = false) :
    rdInt ('-' :: (State.showNat n ++ t)) = - (n : Int) := by
  have hs : skipWs ('-' :: (State.showNat n ++ t)) = '-' :: (State.showNat n ++ t) := by
    rw [skipWs, List.dropWhile_cons, if_neg (by decide)]
  rw [rdInt, hs, intAt, if_pos rfl, digitsAt_show n ht]

theorem readCount_print {n : Nat} (h0 : 0 < n) (hn : n < 2 ^ 32) : readCount (countPrint n) = .ok n := by
  by_cases h1 : 1 < n
  · rw [countPrint, if_pos h1]
    have hp := show_plain n
    have hs : skipWs (State.showNat n) = State.showNat n := by
      simpa using skip_word (w := State.showNat n) ⟨hp.1, fun c hc => (hp.2 c hc).2.2⟩ []
    have hr : rdInt (State.showNat n) = n := by
      simpa using rdInt_show n (t := []) (by simp)
    have hq : readNum rdInt (State.showNat n) = .ok (n : Int) := by
      rw [readNum, hs]
      cases hc : State.showNat n with
      | nil => exact absurd hc hp.1
      | cons c u => rw [hc] at hr; simp only [hr]
    have hm : ((n : Int) % 2 ^ 32).toNat = n := by omega
    cases hc : State.showNat n with
    | nil => exact absurd hc hp.1
    | cons c u =>
      rw [hc] at hq
      simp only [readCount, hq, hm]
      rw [if_neg (by omega)]
  · rw [countPrint, if_neg h1]
    have : n = 1 := by omega
    rw [this]; rfl

theorem countPrint_plain (n : Nat) : ∀ c ∈ countPrint n, isDelim c = false ∧ isBracket c = false ∧ isWs c = false := by
  intro c hc
  by_cases h1 : 1 < n
  · rw [countPrint, if_pos h1] at hc
    exact (show_plain n).2 c hc
  · rw [countPrint, if_neg h1] at hc
    simp at hc

/-- Bounds that can be written and read. -/
def BoundGood (rd : Text → R) (sh : R → Text) (b : Bound R) : Prop :=
  (∀ v ∈ numbers b, NumGood rd sh v) ∧ ∀ lo hi, b = .interval lo hi → lo ≤ hi

/-- A group that can be written and read. -/
def GroupGood (rd : Text → R) (sh : R → Text) (g : Nat × Bound R) : Prop :=
  0 < g.1 ∧ g.1 < 2 ^ 32 ∧ BoundGood rd sh g.2

theorem mkBound_ends {bad : R → R → Option Err} {b : Bound R} (h : ∀ lo hi, b = .interval lo hi → bad lo hi = none) :
    mkBound bad (ends b) = .ok b := by
  cases b with
  | interval lo hi => simp only [ends, mkBound, h lo hi rfl]
  | _ => rfl

/-- The text of a group. -/
def groupText (sh : R → Text) (g : Nat × Bound R) : Text := countPrint g.1 ++ boundPrint sh g.2

theorem group_print {rd : Text → R} {sh : R → Text} {g : Nat × Bound R} (h : GroupGood rd sh g) (r : Text) :
    group rd (groupText sh g ++ r) = .ok (some (g.1, g.2, r)) := by
  have e : groupText sh g ++ r = countPrint g.1 ++ '[' :: (body sh g.2 ++ ']' :: r) := by
    simp [groupText, boundPrint_eq]
  have hb := body_chars h.2.2.1
  rw [e, group_eq rd (fun c hc => (countPrint_plain g.1 c hc).2.1) (fun c hc hcon => by
      have := (hb c hc).1
      rw [hcon] at this
      exact absurd this (by decide)), readCount_print h.1 h.2.1]
  have hl := limits_body (I := [txt "-inf"]) (J := [txt "+inf"]) h.2.2.1 (by decide) (by decide) (by simp) (by simp)
  simp only [hl]
  rw [mkBound_ends (bad := badVector) (b := g.2) (fun lo hi hh => by
    rw [badVector, if_neg (not_lt.2 (h.2.2.2 lo hi hh))])]

theorem groupText_head (sh : R → Text) (g : Nat × Bound R) (r : Text) :
    stripDelim (groupText sh g ++ r) = some (groupText sh g ++ r) := by
  rw [groupText, boundPrint_eq]
  cases hc : countPrint g.1 with
  | nil => exact strip_cons (by decide) _
  | cons c t => exact strip_cons (countPrint_plain g.1 c (by simp [hc])).1 _

/-- The text of groups, each after a semicolon. -/
def groupsText (sh : R → Text) (gs : List (Nat × Bound R)) : Text := gs.flatMap fun g => ';' :: groupText sh g

theorem groups_print {rd : Text → R} {sh : R → Text} : ∀ {gs : List (Nat × Bound R)}, (∀ g ∈ gs, GroupGood rd sh g) →
    ∀ n, (groupsText sh gs).length < n → groups rd n (groupsText sh gs) = .ok gs
  | [], _, n, hn => by
    cases n with
    | zero => simp at hn
    | succ n => rfl
  | g :: gs, h, n, hn => by
    have e : groupsText sh (g :: gs) = ';' :: (groupText sh g ++ groupsText sh gs) := rfl
    cases n with
    | zero => simp at hn
    | succ n =>
      have hl : (groupsText sh gs).length < n := by
        rw [e, List.length_cons, List.length_append] at hn
        omega
      have ih := groups_print (fun g' hg => h g' (by simp [hg])) n hl
      rw [e, groups, strip_delim (by decide), groupText_head]
      simp only [group_print (h g (by simp)), ih]

theorem groups_strip (rd : Text → R) (n : Nat) (t : Text) : groups rd n (';' :: t) = groups rd n t := by
  cases n with
  | zero => rfl
  | succ n => rw [groups, groups, strip_delim (by decide)]

theorem printFrom_groups (sh : R → Text) : ∀ (gs : List (Nat × Bound R)) (pre : List (Bound R)),
    (∀ g ∈ gs, 0 < g.1) →
    printFrom sh (pre ++ (ofGroups gs).items) pre.length (ofGroups gs).factor = .ok (groupsText sh gs)
  | [], pre, _ => rfl
  | g :: gs, pre, h => by
    have ih := printFrom_groups sh gs (pre ++ List.replicate g.1 g.2) fun g' hg => h g' (by simp [hg])
    have h0 := h g (by simp)
    have e1 : (ofGroups (g :: gs)).items = List.replicate g.1 g.2 ++ (ofGroups gs).items := rfl
    have e2 : (ofGroups (g :: gs)).factor = g.1 :: (ofGroups gs).factor := rfl
    have h1 : (pre ++ (List.replicate g.1 g.2 ++ (ofGroups gs).items))[pre.length]? = some g.2 := by
      rw [List.getElem?_append_right (Nat.le_refl _), Nat.sub_self, List.getElem?_append_left (by simpa using h0),
        List.getElem?_replicate, if_pos h0]
    rw [List.append_assoc, List.length_append, List.length_replicate] at ih
    rw [e1, e2, printFrom, h1]
    simp only [ih]
    simp [groupsText, groupText]

/-! ### C275: bounds of several variables -/

theorem vbPrint_groups (sh : R → Text) (g : Nat × Bound R) (gs : List (Nat × Bound R)) (h : ∀ g' ∈ g :: gs, 0 < g'.1) :
    vbPrint sh (ofGroups (g :: gs)) = .ok (groupText sh g ++ groupsText sh gs) := by
  have h0 := h g (by simp)
  have e1 : (ofGroups (g :: gs)).items = List.replicate g.1 g.2 ++ (ofGroups gs).items := rfl
  have e2 : (ofGroups (g :: gs)).factor = g.1 :: (ofGroups gs).factor := rfl
  have h1 : (List.replicate g.1 g.2 ++ (ofGroups gs).items)[0]? = some g.2 := by
    rw [List.getElem?_append_left (by simpa using h0), List.getElem?_replicate, if_pos h0]
  have h2 := printFrom_groups sh gs (List.replicate g.1 g.2) fun g' hg => h g' (by simp [hg])
  rw [List.length_replicate] at h2
  rw [vbPrint, e2]
  simp only [e1, h1, h2]
  simp [groupText]

theorem vbRead_groups {rd : Text → R} {sh : R → Text} {g : Nat × Bound R} {gs : List (Nat × Bound R)}
    (h : ∀ g' ∈ g :: gs, GroupGood rd sh g') (old : Nat) :
    vbRead rd old (groupText sh g ++ groupsText sh gs) = adjust (ofGroups (g :: gs)) old := by
  have h1 : groups rd ((groupText sh g ++ groupsText sh gs).length + 1) (groupText sh g ++ groupsText sh gs) =
      .ok (g :: gs) := by
    have hk := groups_print h ((groupText sh g ++ groupsText sh gs).length + 2) (by
      simp [groupsText])
    rw [show groupsText sh (g :: gs) = ';' :: (groupText sh g ++ groupsText sh gs) from rfl, groups_strip] at hk
    -- one less of fuel is enough
    have hl : (groupsText sh gs).length < (groupText sh g ++ groupsText sh gs).length := by
      rw [List.length_append, groupText, boundPrint_eq]
      simp
    have ih := groups_print (fun g' hg => h g' (by simp [hg])) _ hl
    rw [groups, groupText_head]
    simp only [group_print (h g (by simp)), ih]
  rw [vbRead, h1]

theorem groupText_chars {rd : Text → R} {sh : R → Text} {g : Nat × Bound R} (h : GroupGood rd sh g) :
    ∀ c ∈ groupText sh g, isWs c = false := by
  intro c hc
  rw [groupText, boundPrint_eq] at hc
  rcases List.mem_append.1 hc with hc | hc
  · exact (countPrint_plain g.1 c hc).2.2
  · rcases List.mem_cons.1 hc with rfl | hc
    · decide
    · rcases List.mem_append.1 hc with hc | hc
      · exact (body_chars h.2.2.1 c hc).2
      · rw [List.mem_singleton] at hc
        subst hc
        decide

theorem text_word {rd : Text → R} {sh : R → Text} {g : Nat × Bound R} {gs : List (Nat × Bound R)}
    (h : ∀ g' ∈ g :: gs, GroupGood rd sh g') : Word (groupText sh g ++ groupsText sh gs) := by
  refine ⟨by rw [groupText, boundPrint_eq]; simp, fun c hc => ?_⟩
  rcases List.mem_append.1 hc with hc | hc
  · exact groupText_chars (h g (by simp)) c hc
  · obtain ⟨g', hg, hc⟩ := List.mem_flatMap.1 hc
    rcases List.mem_cons.1 hc with rfl | hc
    · decide
    · exact groupText_chars (h g' (by simp [hg])) c hc

/-- Bounds made of groups (counts positive) are written, and read from that text - as the next word of a stream or
directly - they are the same, if the object read into did not have more variables. -/
theorem C275_restored {rd : Text → R} {sh : R → Text} {gs : List (Nat × Bound R)} (hne : gs ≠ [])
    (h : ∀ g ∈ gs, GroupGood rd sh g) :
    ∃ t, vbPrint sh (ofGroups gs) = .ok t ∧ ∀ old ≤ (ofGroups gs).items.length,
      vbRead rd old t = .ok (ofGroups gs) ∧
      ∀ r, Sep r → vbReadStream rd old ⟨t ++ r, true⟩ = .ok (ofGroups gs, ⟨r, true⟩) := by
  cases gs with
  | nil => exact absurd rfl hne
  | cons g gs =>
    refine ⟨_, vbPrint_groups sh g gs fun g' hg => (h g' hg).1, fun old ho => ?_⟩
    have h1 : vbRead rd old (groupText sh g ++ groupsText sh gs) = .ok (ofGroups (g :: gs)) := by
      rw [vbRead_groups h, adjust, if_neg (by omega)]
    refine ⟨h1, fun r hr => ?_⟩
    rw [vbReadStream, getWord_word (text_word h) hr rfl, h1]

theorem items_last (gs : List (Nat × Bound R)) (g : Nat × Bound R) (h : 0 < g.1) :
    (ofGroups (gs ++ [g])).items.getLast? = some g.2 := by
  obtain ⟨n, b⟩ := g
  cases n with
  | zero => exact absurd h (Nat.lt_irrefl 0)
  | succ n =>
    have : (ofGroups (gs ++ [(n + 1, b)])).items = ((ofGroups gs).items ++ List.replicate n b) ++ [b] := by
      simp [ofGroups, List.replicate_succ']
    rw [this, List.getLast?_concat]

/-- Read into an object with more variables, the last group is repeated for those that are missing: never are there
fewer variables than before. -/
theorem C275_extended {rd : Text → R} {sh : R → Text} {gs : List (Nat × Bound R)} {g : Nat × Bound R}
    (h : ∀ g' ∈ gs ++ [g], GroupGood rd sh g') {old : Nat} (ho : (ofGroups (gs ++ [g])).items.length ≤ old) :
    ∃ t, vbPrint sh (ofGroups (gs ++ [g])) = .ok t ∧
      vbRead rd old t = .ok (ofGroups (gs ++ [(g.1 + (old - (ofGroups (gs ++ [g])).items.length), g.2)])) := by
  have hg0 : 0 < g.1 := (h g (by simp)).1
  obtain ⟨g0, gs0, e⟩ : ∃ g0 gs0, gs ++ [g] = g0 :: gs0 := by cases gs <;> simp
  refine ⟨_, by rw [e]; exact vbPrint_groups sh g0 gs0 fun g' hg => (h g' (by rw [e]; exact hg)).1, ?_⟩
  rw [vbRead_groups (by rw [← e]; exact h), ← e, adjust]
  by_cases hlt : (ofGroups (gs ++ [g])).items.length < old
  · rw [if_pos hlt, items_last gs g hg0]
    have hf : (ofGroups (gs ++ [g])).factor = gs.map (·.1) ++ [g.1] := by simp [ofGroups]
    rw [hf, List.getLast?_concat, List.dropLast_concat]
    simp only
    generalize old - (ofGroups (gs ++ [g])).items.length = m
    have hi : (ofGroups (gs ++ [g])).items = (ofGroups gs).items ++ List.replicate g.1 g.2 := by simp [ofGroups]
    rw [hi, List.append_assoc, ← List.replicate_add]
    simp [ofGroups]
  · rw [if_neg hlt, show old - (ofGroups (gs ++ [g])).items.length = 0 by omega]
    rfl

theorem adjust_length {x y : VB R} {dim : Nat} (h : adjust x dim = .ok y) :
    y.items.length = max x.items.length dim ∧ y.items.take x.items.length = x.items := by
  rw [adjust] at h
  by_cases hlt : x.items.length < dim
  · rw [if_pos hlt] at h
    split at h
    · injection h with h
      rw [← h]
      refine ⟨?_, by simp⟩
      simp only [List.length_append, List.length_replicate]
      omega
    · exact absurd h (by simp)
  · rw [if_neg hlt] at h
    injection h with h
    rw [← h]
    exact ⟨by omega, by simp⟩

/-- Reading never makes the number of variables smaller. -/
theorem C275_size {rd : Text → R} {old : Nat} {s : Text} {x : VB R} (h : vbRead rd old s = .ok x) :
    old ≤ x.items.length := by
  rw [vbRead] at h
  split at h
  · exact absurd h (by simp)
  · have := (adjust_length h).1
    omega

/-- A text without an opening bracket - as left by a missing argument - is no error: read into an object with
variables it is undefined, read into an empty one it gives an object that cannot be written. -/
theorem C275_no_bracket (rd : Text → R) (sh : R → Text) {s : Text} (h : ∀ c ∈ s, isOpen c = false) :
    (∀ old, 0 < old → vbRead rd old s = .error .ub) ∧
      ∃ x, vbRead rd 0 s = .ok x ∧ x.items = [] ∧ vbPrint sh x = .error .ub := by
  have hg : groups rd (s.length + 1) s = .ok [] := by
    rw [groups]
    obtain ⟨u, h1 | ⟨c, t, -, h2, h3, -⟩⟩ := strip_no_delim s
    · rw [h1.1]
    · rw [h3]
      have : group rd (c :: t) = .ok none := by
        rw [group, findIdx_none fun x hx => h x (by rw [h2]; exact List.mem_append_right _ hx)]
      simp only [this]
  refine ⟨fun old ho => ?_, ⟨[], []⟩, ?_, rfl, rfl⟩
  · rw [vbRead, hg]
    show adjust (⟨[], []⟩ : VB R) old = _
    rw [adjust, if_pos (by simpa using ho)]
    rfl
  · rw [vbRead, hg]
    rfl

/-- The count of a group is taken modulo 2^32: a count of minus `k` makes 2^32 - `k` variables. -/
theorem C275_negative_count {rd : Text → R} {sh : R → Text} {b : Bound R} (hb : BoundGood rd sh b) {k : Nat}
    (h0 : 0 < k) (hk : k < 2 ^ 32) :
    vbRead rd 0 ('-' :: (State.showNat k ++ boundPrint sh b)) = .ok (ofGroups [(2 ^ 32 - k, b)]) := by
  have hp := show_plain k
  have hcnt : ∀ c ∈ '-' :: State.showNat k, isBracket c = false := by
    intro c hc
    rcases List.mem_cons.1 hc with rfl | hc
    · decide
    · exact (hp.2 c hc).2.1
  have hr : rdInt ('-' :: State.showNat k) = - (k : Int) := by
    simpa using rdInt_neg k (t := []) (by simp)
  have hc : readCount ('-' :: State.showNat k) = .ok (2 ^ 32 - k) := by
    have hs : skipWs ('-' :: State.showNat k) = '-' :: State.showNat k := by
      rw [skipWs, List.dropWhile_cons, if_neg (by decide)]
    have hm : ((- (k : Int)) % 2 ^ 32).toNat = 2 ^ 32 - k := by omega
    have hq : readNum rdInt ('-' :: State.showNat k) = .ok (- (k : Int)) := by
      rw [readNum, hs]
      simp only [hr]
    simp only [readCount, hq, hm]
    rw [if_neg (by omega)]
  have hbc := body_chars hb.1
  have e : '-' :: (State.showNat k ++ boundPrint sh b) = ('-' :: State.showNat k) ++ '[' :: (body sh b ++ ']' :: []) := by
    rw [boundPrint_eq]; rfl
  have hg : group rd ('-' :: (State.showNat k ++ boundPrint sh b)) = .ok (some (2 ^ 32 - k, b, [])) := by
    rw [e, group_eq rd hcnt (fun c hc hcon => by
      have := (hbc c hc).1
      rw [hcon] at this
      exact absurd this (by decide)), hc]
    have hl := limits_body (I := [txt "-inf"]) (J := [txt "+inf"]) hb.1 (by decide) (by decide) (by simp) (by simp)
    simp only [hl]
    rw [mkBound_ends (bad := badVector) (b := b) (fun lo hi hh => by
      rw [badVector, if_neg (not_lt.2 (hb.2 lo hi hh))])]
  have hgs : groups rd (('-' :: (State.showNat k ++ boundPrint sh b)).length + 1)
      ('-' :: (State.showNat k ++ boundPrint sh b)) = .ok [(2 ^ 32 - k, b)] := by
    rw [groups, strip_cons (by decide)]
    simp only [hg, List.length_cons, groups]
    rfl
  rw [vbRead, hgs]
  exact if_neg (by simp)

/-- Only a count that is a multiple of 2^32 is refused. -/
theorem C275_count {c : Char} {t : Text} (hw : skipWs (c :: t) ≠ []) :
    readCount (c :: t) = .error .thrown ↔ (2 ^ 32 : Int) ∣ rdInt (c :: t) := by
  have hq : readNum rdInt (c :: t) = .ok (rdInt (c :: t)) := by
    rw [readNum]
    split
    · rename_i h; exact absurd h hw
    · rfl
  simp only [readCount, hq]
  rw [Int.dvd_iff_emod_eq_zero]
  constructor
  · intro h
    by_contra hne
    rw [if_neg (by omega)] at h
    exact absurd h (by simp)
  · intro h
    rw [if_pos (by omega)]

/-- The texts "-infinity" and "+infinity" are no infinities here: they are read as numbers, which gives zero. -/
theorem C275_infinity {rd : Text → R} {sh : R → Text} {zero v : R} (hv : NumGood rd sh v)
    (h1 : rd (txt "-infinity") = zero) (h2 : rd (txt "+infinity") = zero) :
    (zero ≤ v → vbRead rd 0 (txt "[-infinity," ++ sh v ++ [']']) = .ok (ofGroups [(1, .interval zero v)])) ∧
    (v ≤ zero → vbRead rd 0 (['['] ++ sh v ++ txt ",+infinity]") = .ok (ofGroups [(1, .interval v zero)])) ∧
    vbRead rd 0 (txt "[-infinity,+infinity]") = .ok (ofGroups [(1, .interval zero zero)]) := by
  have key : ∀ (a b : Text) (x y : R), Plain a → Plain b → limit [txt "-inf"] rd a = .ok (some x) →
      limit [txt "+inf"] rd b = .ok (some y) → x ≤ y →
      vbRead rd 0 ('[' :: (a ++ ',' :: b ++ [']'])) = .ok (ofGroups [(1, .interval x y)]) := by
    intro a b x y ha hb hx hy hxy
    have hbody : ∀ c ∈ a ++ ',' :: b, c ≠ ']' := by
      intro c hc hcon
      subst hcon
      rcases List.mem_append.1 hc with hc | hc
      · exact absurd (ha.2 _ hc).2.1 (by decide)
      · rcases List.mem_cons.1 hc with hc | hc
        · exact absurd hc (by decide)
        · exact absurd (hb.2 _ hc).2.1 (by decide)
    have hg := group_eq rd (cnt := []) (b := a ++ ',' :: b) (r := []) (by simp) hbody
    rw [limits_eq _ _ _ ha.1 (plain_delim ha) (plain_head hb), hx, hy] at hg
    have hg' : group rd ('[' :: (a ++ ',' :: b ++ [']'])) = .ok (some (1, .interval x y, [])) := by
      rw [List.nil_append] at hg
      rw [hg]
      simp only [readCount, mkBound, badVector]
      rw [if_neg (not_lt.2 hxy)]
    rw [vbRead, groups, strip_cons (by decide)]
    simp only [hg', List.length_cons, groups]
    exact if_neg (by simp)
  have pm : Plain (txt "-infinity") := by refine ⟨by decide, ?_⟩; decide
  have pp : Plain (txt "+infinity") := by refine ⟨by decide, ?_⟩; decide
  have lm : limit [txt "-inf"] rd (txt "-infinity") = .ok (some zero) := by
    rw [limit, if_neg (by decide), ← h1]
    rfl
  have lp : limit [txt "+inf"] rd (txt "+infinity") = .ok (some zero) := by
    rw [limit, if_neg (by decide), ← h2]
    rfl
  refine ⟨fun hz => ?_, fun hz => ?_, ?_⟩
  · have := key (txt "-infinity") (sh v) zero v pm hv.1 lm (limit_num hv (by decide)) hz
    rw [← this]; simp [txt]
  · have := key (sh v) (txt "+infinity") v zero hv.1 pp (limit_num hv (by decide)) lp hz
    rw [← this]; simp [txt]
  · exact key (txt "-infinity") (txt "+infinity") zero zero pm pp lm lp le_rfl

/-- A blank before the closing bracket makes the upper infinity a number, which gives zero. -/
theorem C275_blank {rd : Text → R} {sh : R → Text} {zero v : R} (hv : NumGood rd sh v)
    (h1 : rd (txt "+inf ") = zero) (hz : v ≤ zero) :
    vbRead rd 0 (['['] ++ sh v ++ txt ",+inf ]") = .ok (ofGroups [(1, .interval v zero)]) := by
  have hbody : ∀ c ∈ sh v ++ ',' :: txt "+inf ", c ≠ ']' := by
    intro c hc hcon
    subst hcon
    rcases List.mem_append.1 hc with hc | hc
    · exact absurd (hv.1.2 _ hc).2.1 (by decide)
    · exact absurd hc (by decide)
  have hl : limit [txt "+inf"] rd (txt "+inf ") = .ok (some zero) := by
    rw [limit, if_neg (by decide), ← h1]
    rfl
  have hg := group_eq rd (cnt := []) (b := sh v ++ ',' :: txt "+inf ") (r := []) (by simp) hbody
  rw [limits_eq (b := txt "+inf ") _ _ _ hv.1.1 (plain_delim hv.1) ⟨'+', _, rfl, by decide⟩, limit_num hv (by decide), hl] at hg
  have hg' : group rd ('[' :: (sh v ++ ',' :: txt "+inf " ++ [']'])) = .ok (some (1, .interval v zero, [])) := by
    rw [List.nil_append] at hg
    rw [hg]
    simp only [readCount, mkBound, badVector]
    rw [if_neg (not_lt.2 hz)]
  have e : ['['] ++ sh v ++ txt ",+inf ]" = '[' :: (sh v ++ ',' :: txt "+inf " ++ [']']) := by simp [txt]
  rw [e, vbRead, groups, strip_cons (by decide)]
  simp only [hg', List.length_cons, groups]
  exact if_neg (by simp)

/-- From a stream only the text up to the first blank counts: what follows is left, without any complaint; and if
the blank is between the brackets, reading throws. -/
theorem C275_first_word {rd : Text → R} {w r : Text} (hw : Word w) (old : Nat) :
    vbReadStream rd old ⟨w ++ ' ' :: r, true⟩ =
      (match vbRead rd old w with
        | .error e => .error e
        | .ok x => .ok (x, ⟨' ' :: r, true⟩)) ∧
    (∀ u, w = '[' :: u → (∀ c ∈ u, c ≠ ']') → vbReadStream rd old ⟨w ++ ' ' :: r, true⟩ = .error .thrown) := by
  have h1 : getWord ⟨w ++ ' ' :: r, true⟩ = (w, ⟨' ' :: r, true⟩) := getWord_word hw (sep_cons blank _) rfl
  refine ⟨?_, fun u hu hc => ?_⟩
  · rw [vbReadStream, h1]
    rfl
  · have hg : group rd ('[' :: u) = .error .thrown := by
      have hn : ('[' :: u).findIdx? (fun c => decide (c = ']')) = none := findIdx_none (by
        intro x hx
        rcases List.mem_cons.1 hx with rfl | hx
        · decide
        · simpa using hc x hx)
      rw [group, List.findIdx?_cons, if_pos (by decide)]
      show (match ('[' :: u).findIdx? (fun c => decide (c = ']')) with
        | none => _
        | some e => _) = _
      rw [hn]
    rw [vbReadStream, h1]
    subst hu
    rw [vbRead, groups, strip_cons (by decide)]
    simp only [hg]

end

/-! Concrete cases: whole numbers. -/

/-- How whole numbers are written. -/
def shInt (n : Int) : Text := if 0 ≤ n then State.showNat n.toNat else '-' :: State.showNat (-n).toNat

theorem int_good (n : Int) : NumGood rdInt shInt n := by
  have hd : ∀ k : Nat, ∀ c ∈ State.showNat k, c.isDigit = true := fun k => (MathSym.showNat_spec k).2.1
  have hi : ∀ t ∈ infinities, ∃ c ∈ t, c.isDigit = false ∧ c ≠ '-' := by decide
  have hin : shInt n ∉ infinities := by
    intro hm
    obtain ⟨c, hc, h1, h2⟩ := hi _ hm
    by_cases h0 : 0 ≤ n
    · rw [shInt, if_pos h0] at hc
      rw [hd _ c hc] at h1
      exact absurd h1 (by simp)
    · rw [shInt, if_neg h0] at hc
      rcases List.mem_cons.1 hc with hc | hc
      · exact h2 hc
      · rw [hd _ c hc] at h1
        exact absurd h1 (by simp)
  by_cases h0 : 0 ≤ n
  · refine ⟨?_, hin, ?_⟩
    · rw [shInt, if_pos h0]; exact show_plain _
    · rw [shInt, if_pos h0]
      have := rdInt_show n.toNat (t := []) (by simp)
      rw [List.append_nil] at this
      rw [this]; omega
  · refine ⟨?_, hin, ?_⟩
    · rw [shInt, if_neg h0]
      refine ⟨by simp, fun c hc => ?_⟩
      rcases List.mem_cons.1 hc with rfl | hc
      · decide
      · exact (show_plain _).2 c hc
    · rw [shInt, if_neg h0]
      have := rdInt_neg (-n).toNat (t := []) (by simp)
      rw [List.append_nil] at this
      rw [this]; omega

example : ∃ t, vbPrint shInt (ofGroups [(10, .interval (-1) 1), (1, .below 0)]) = .ok t ∧
    vbRead rdInt 3 t = .ok (ofGroups [(10, .interval (-1) 1), (1, .below 0)]) := by
  obtain ⟨t, h1, h2⟩ := C275_restored (rd := rdInt) (sh := shInt)
    (gs := [(10, .interval (-1) 1), (1, .below 0)]) (by simp) (by
      intro g hg
      rcases List.mem_cons.1 hg with rfl | hg
      · exact ⟨by norm_num, by norm_num, fun v _ => int_good v, by
          intro lo hi h
          injection h with h1 h2
          omega⟩
      · rw [List.mem_singleton] at hg
        subst hg
        exact ⟨by norm_num, by norm_num, fun v _ => int_good v, by simp⟩)
  exact ⟨t, h1, (h2 3 (by simp [ofGroups])).1⟩

example : vbRead rdInt 0 (txt "2[-1,1];[0,+inf]") = .ok ⟨[.interval (-1) 1, .interval (-1) 1, .below 0], [2, 1]⟩ := by
  decide +kernel
example : vbRead rdInt 0 (txt "[-infinity,5]") = .ok ⟨[.interval 0 5], [1]⟩ := by decide +kernel
example : vbRead rdInt 0 (txt "[1,]") = .error .thrown := by decide +kernel
example : rdInt (txt "-infinity") = 0 ∧ rdInt (txt "+inf ") = 0 := by decide +kernel
example : ∀ c ∈ txt "10", isOpen c = false := by decide

/-! ### C276: bounds of one variable -/

section
variable {R : Type} [LinearOrder R]

theorem afterOpen_eq (rd : Text → R) {b r : Text} {c : Char} (hb : ∀ x ∈ b, isBracket x = false)
    (hc : isBracket c = true) :
    afterOpen rd (b ++ c :: r) =
      match limits [txt "-inf", txt "-infinity"] [txt "+inf", txt "+infinity"] rd b with
      | .error e => .error e
      | .ok p => mkBound badGeneral p := by
  rw [afterOpen, findIdx_append hb hc]
  simp only [List.take_left]
  rfl

theorem general_open (rd : Text → R) : ∀ {u : Text} {c : Char} (t : Text), (∀ x ∈ u, isBracket x = false) →
    isBracket c = true → general rd (u ++ c :: t) = afterOpen rd t
  | [], c, t, _, hc => by
    have hd : isDelim c = false := by
      by_contra h
      rw [Bool.not_eq_false, isDelim] at h
      simp only [Bool.or_eq_true, beq_iff_eq] at h
      rcases h with (rfl | rfl) | rfl <;> exact absurd hc (by decide)
    rw [List.nil_append, general, strip_cons hd]
    simp only [List.findIdx?_cons, hc, if_true]
    rfl
  | a :: u, c, t, hu, hc => by
    by_cases ha : isDelim a = true
    · have ih := general_open rd (u := u) t (fun x hx => hu x (by simp [hx])) hc
      rw [general] at ih ⊢
      rw [List.cons_append, strip_delim ha]
      exact ih
    · rw [Bool.not_eq_true] at ha
      rw [List.cons_append, general, strip_cons ha]
      have := findIdx_append (p := isBracket) (ys := t) (c := c) hu hc
      rw [List.cons_append] at this
      simp only [this, List.length_cons]
      congr 1
      rw [← List.drop_drop, List.drop_succ_cons, List.drop_left]
      rfl

/-- What is written of bounds is read back, unless they are an interval of one point: for that an exception is
thrown. -/
theorem C276_restored {rd : Text → R} {sh : R → Text} {b : Bound R} (h : BoundGood rd sh b) :
    ((∀ v, b ≠ .interval v v) → ∀ r, Sep r →
      generalRead rd ⟨boundPrint sh b ++ r, true⟩ = .ok (b, ⟨r, true⟩)) ∧
    (∀ v, b = .interval v v → general rd (boundPrint sh b) = .error .thrown) := by
  have hbc := body_chars h.1
  have hl := limits_body (I := [txt "-inf", txt "-infinity"]) (J := [txt "+inf", txt "+infinity"]) h.1 (by decide)
    (by decide) (by simp) (by simp)
  have hg : general rd (boundPrint sh b) = mkBound badGeneral (ends b) := by
    have := general_open rd (u := []) (c := '[') (body sh b ++ [']']) (by simp) (by decide)
    rw [boundPrint_eq]
    rw [List.nil_append] at this
    rw [this, afterOpen_eq rd (fun x hx => (hbc x hx).1) (by decide), hl]
  constructor
  · intro hv r hr
    have hw : Word (boundPrint sh b) := by
      rw [boundPrint_eq]
      refine ⟨by simp, fun c hc => ?_⟩
      rcases List.mem_cons.1 hc with rfl | hc
      · decide
      · rcases List.mem_append.1 hc with hc | hc
        · exact (hbc c hc).2
        · rw [List.mem_singleton] at hc
          subst hc
          decide
    rw [generalRead, getWord_word hw hr rfl, hg, mkBound_ends]
    intro lo hi hh
    have hle := h.2 lo hi hh
    have hne : lo ≠ hi := by
      rintro rfl
      exact hv lo hh
    rw [badGeneral, if_neg (not_le.2 (lt_of_le_of_ne hle hne))]
  · intro v hv
    rw [hg, hv]
    simp only [ends, mkBound, badGeneral, le_refl, if_true]

/-- The kind of brackets does not matter, nor what is before and behind them: "]0,1[" and "7(0,1)[2,3]" are all the
closed interval. -/
theorem C276_brackets (rd : Text → R) {u b r : Text} {c d : Char} (hu : ∀ x ∈ u, isBracket x = false)
    (hb : ∀ x ∈ b, isBracket x = false) (hc : isBracket c = true) (hd : isBracket d = true) :
    general rd (u ++ c :: (b ++ d :: r)) = general rd ('[' :: (b ++ [']'])) := by
  have h2 := general_open rd (u := []) (c := '[') (b ++ [']']) (by simp) (by decide)
  rw [List.nil_append] at h2
  rw [general_open rd _ hu hc, h2, afterOpen_eq rd hb hd, afterOpen_eq rd hb (by decide)]

/-- Bounds read from any text are never void. -/
theorem C276_legal {rd : Text → R} {s : Text} {lo hi : R} (h : general rd s = .ok (.interval lo hi)) : lo < hi := by
  rw [general] at h
  split at h
  · exact absurd h (by simp)
  · split at h
    · exact absurd h (by simp)
    · rw [afterOpen] at h
      split at h
      · exact absurd h (by simp)
      · split at h
        · exact absurd h (by simp)
        · rename_i p _
          obtain ⟨l, m⟩ := p
          cases l <;> cases m <;> simp only [mkBound] at h
          · cases h
          · cases h
          · cases h
          · rename_i x y _
            by_cases hxy : y ≤ x
            · simp [badGeneral, hxy] at h
            · simp only [badGeneral, if_neg hxy] at h
              injection h with h
              injection h with h1 h2
              rw [← h1, ← h2]
              exact not_le.1 hxy

/-- Texts without two brackets, and texts with only one limit between them, throw. -/
theorem C276_thrown (rd : Text → R) :
    (∀ s, (∀ c ∈ s, isBracket c = false) → general rd s = .error .thrown) ∧
    (∀ u b r c d, (∀ x ∈ u, isBracket x = false) → (∀ x ∈ b, isBracket x = false ∧ isDelim x = false) →
      isBracket c = true → isBracket d = true → general rd (u ++ c :: (b ++ d :: r)) = .error .thrown) := by
  constructor
  · intro s h
    rw [general]
    obtain ⟨u, h1 | ⟨c, t, -, h2, h3, -⟩⟩ := strip_no_delim s
    · rw [h1.1]
    · rw [h3]
      simp only [findIdx_none (p := isBracket) (xs := c :: t) fun x hx =>
        h x (by rw [h2]; exact List.mem_append_right _ hx)]
  · intro u b r c d hu hb hc hd
    rw [general_open rd _ hu hc, afterOpen_eq rd (fun x hx => (hb x hx).1) hd]
    have hn : b.findIdx? isDelim = none := findIdx_none fun x hx => (hb x hx).2
    have hs : (stripDelim b).getD b = b := by
      cases b with
      | nil => rfl
      | cons a b => rw [strip_cons (hb a (by simp)).2]; rfl
    have : limits [txt "-inf", txt "-infinity"] [txt "+inf", txt "+infinity"] rd b = .error .thrown := by
      simp only [limits, hs, hn]
    rw [this]

end

/-- For whole numbers whatever follows the digits is dropped: "1e3" and "1.9" are one. -/
theorem C276_integer {a b : Nat} {s t : Text} (hs : ∀ x ∈ s, isDelim x = false ∧ isBracket x = false)
    (ht : ∀ x ∈ t, isDelim x = false ∧ isBracket x = false) (hs1 : ∀ c u, s = c :: u → c.isDigit = false)
    (ht1 : ∀ c u, t = c :: u → c.isDigit = false) (hab : a < b) :
    general rdInt ('[' :: (State.showNat a ++ s ++ ',' :: (State.showNat b ++ t) ++ [']'])) =
      .ok (.interval (a : Int) b) := by
  have pl : ∀ (n : Nat) (s : Text), (∀ x ∈ s, isDelim x = false ∧ isBracket x = false) →
      ∀ x ∈ State.showNat n ++ s, isDelim x = false ∧ isBracket x = false := by
    intro n s hs x hx
    rcases List.mem_append.1 hx with hx | hx
    · exact ⟨((show_plain n).2 x hx).1, ((show_plain n).2 x hx).2.1⟩
    · exact hs x hx
  have lim : ∀ (n : Nat) (s : Text) (I : List Text), (∀ t ∈ I, t ∈ infinities) →
      (∀ c u, s = c :: u → c.isDigit = false) → limit I rdInt (State.showNat n ++ s) = .ok (some (n : Int)) := by
    intro n s I hI hs1
    obtain ⟨g1, g2, -⟩ := MathSym.showNat_spec n
    have hi : ∀ t ∈ infinities, ∀ c u, t = c :: u → c.isDigit = false := by
      intro t ht c u hcu
      subst hcu
      have : ∀ t ∈ infinities, ∀ c ∈ t.head?, c.isDigit = false := by decide
      exact this _ ht c rfl
    have hsk := skip_word (w := State.showNat n) ⟨g1, fun c hc => digit_not_ws (g2 c hc)⟩ s
    have hr := rdInt_show n hs1
    cases hc : State.showNat n with
    | nil => exact absurd hc g1
    | cons c u =>
      rw [hc] at hsk hr
      have hn : ¬ (c :: u ++ s) ∈ I := by
        intro hm
        have := hi _ (hI _ hm) c (u ++ s) rfl
        rw [g2 c (by simp [hc])] at this
        exact absurd this (by simp)
      rw [limit, if_neg hn, readNum, hsk]
      simp only [List.cons_append] at hr ⊢
      rw [hr]
  have hne : State.showNat a ++ s ≠ [] := by
    intro h
    exact (MathSym.showNat_spec a).1 (List.append_eq_nil_iff.1 h).1
  have hh : ∃ c u, State.showNat b ++ t = c :: u ∧ isDelim c = false := by
    cases hc : State.showNat b ++ t with
    | nil => exact absurd (List.append_eq_nil_iff.1 hc).1 (MathSym.showNat_spec b).1
    | cons c u => exact ⟨c, u, rfl, (pl b t ht c (by simp [hc])).1⟩
  have h2 := general_open rdInt (u := []) (c := '[') (State.showNat a ++ s ++ ',' :: (State.showNat b ++ t) ++ [']'])
    (by simp) (by decide)
  rw [List.nil_append] at h2
  rw [h2, afterOpen_eq rdInt (by
    intro x hx
    rcases List.mem_append.1 hx with hx | hx
    · exact (pl a s hs x hx).2
    · rcases List.mem_cons.1 hx with rfl | hx
      · decide
      · exact (pl b t ht x hx).2) (by decide),
    limits_eq _ _ _ hne (fun c hc => (pl a s hs c hc).1) hh, lim a s _ (by decide) hs1, lim b t _ (by decide) ht1]
  simp only [mkBound, badGeneral]
  rw [if_neg (by omega)]

example : general rdInt (txt "]0,1[") = .ok (.interval 0 1) ∧
    general rdInt (txt "7(0,1)[2,3]") = .ok (.interval 0 1) := by decide +kernel
example : general rdInt (txt "[0,1e3]") = .ok (.interval 0 1) := by decide +kernel
example : general rdInt (txt "[5,5]") = .error .thrown := by decide +kernel
example : general rdInt (txt "[-infinity,5]") = .ok (.above 5) := by decide +kernel
example : BoundGood rdInt shInt (.interval (-3) 4) :=
  ⟨fun v _ => int_good v, by intro lo hi h; injection h with h1 h2; omega⟩

section
variable {R : Type} [LinearOrder R]

/-- The three characters that separate. -/
def separators : Text := [',', ';', ' ']

theorem sep_delim {c : Char} (h : c ∈ separators) : isDelim c = true := by
  rcases List.mem_cons.1 h with rfl | h
  · rfl
  · rcases List.mem_cons.1 h with rfl | h
    · rfl
    · rw [List.mem_singleton] at h; subst h; rfl

theorem strip_seps {w : Text} (h : ∀ c ∈ w, c ∈ separators) (t : Text) : stripDelim (w ++ t) = stripDelim t := by
  induction w with
  | nil => rfl
  | cons c w ih =>
    rw [List.cons_append, strip_delim (sep_delim (h c (by simp)))]
    exact ih fun c hc => h c (by simp [hc])

theorem limits_seps (I J : List Text) (rd : Text → R) {w u a b : Text} (hw : ∀ c ∈ w, c ∈ separators)
    (hu : ∀ c ∈ u, c ∈ separators) (hu0 : u ≠ []) (ha : a ≠ []) (hd : ∀ c ∈ a, isDelim c = false)
    (hb : ∃ c t, b = c :: t ∧ isDelim c = false) :
    limits I J rd (w ++ (a ++ (u ++ b))) = limits I J rd (a ++ ',' :: b) := by
  obtain ⟨e, u', rfl⟩ : ∃ e u', u = e :: u' := by cases u with
    | nil => exact absurd rfl hu0
    | cons e u' => exact ⟨e, u', rfl⟩
  rw [limits_eq I J rd ha hd hb]
  have h1 : stripDelim (w ++ (a ++ (e :: u' ++ b))) = some (a ++ (e :: u' ++ b)) := by
    rw [strip_seps hw]
    cases a with
    | nil => exact absurd rfl ha
    | cons c a => exact strip_cons (hd c (by simp)) _
  have h2 : (a ++ (e :: u' ++ b)).findIdx? isDelim = some a.length :=
    findIdx_append hd (sep_delim (hu e (by simp)))
  have h3 : upper J rd (e :: u' ++ b) = limit J rd b := by
    obtain ⟨c, t, rfl, hc⟩ := hb
    rw [upper, strip_seps hu, strip_cons hc]
  rw [limits, h1, Option.getD_some, h2]
  dsimp only
  rw [List.take_left, List.drop_left, h3]
  rfl

/-- Commas, semicolons and blanks separate alike, any number of them, also in front of the first number. -/
theorem C276_separators {rd : Text → R} {sh : R → Text} {lo hi : R} (h1 : NumGood rd sh lo) (h2 : NumGood rd sh hi)
    (hlt : lo < hi) {w u : Text} (hw : ∀ c ∈ w, c ∈ separators) (hu : ∀ c ∈ u, c ∈ separators) (hu0 : u ≠ []) :
    general rd ('[' :: (w ++ (sh lo ++ (u ++ sh hi)) ++ [']'])) = .ok (.interval lo hi) := by
  have hsb : ∀ c ∈ separators, isBracket c = false := by decide
  have g := general_open rd (u := []) (c := '[') (w ++ (sh lo ++ (u ++ sh hi)) ++ [']']) (by simp) (by decide)
  rw [List.nil_append] at g
  rw [g, afterOpen_eq rd (by
    intro x hx
    rcases List.mem_append.1 hx with hx | hx
    · exact hsb x (hw x hx)
    · rcases List.mem_append.1 hx with hx | hx
      · exact (h1.1.2 x hx).2.1
      · rcases List.mem_append.1 hx with hx | hx
        · exact hsb x (hu x hx)
        · exact (h2.1.2 x hx).2.1) (by decide),
    limits_seps _ _ _ hw hu hu0 h1.1.1 (plain_delim h1.1) (plain_head h2.1),
    limits_eq _ _ _ h1.1.1 (plain_delim h1.1) (plain_head h2.1), limit_num h1 (by decide), limit_num h2 (by decide)]
  simp only [mkBound, badGeneral]
  rw [if_neg (not_le.2 hlt)]

/-- A limit of other blanks only, like a tab: no number is read and what is used is undefined. -/
theorem C276_unread (rd : Text → R) {a b : Text} (ha : a ≠ []) (hw : ∀ c ∈ a, c ∈ ['\t', '\n', '\r'])
    (hb : ∀ c ∈ b, isBracket c = false) :
    general rd ('[' :: (a ++ ',' :: b ++ [']'])) = .error .ub := by
  have k : ∀ c ∈ ['\t', '\n', '\r'], isDelim c = false ∧ isBracket c = false ∧ isWs c = true := by decide
  have g := general_open rd (u := []) (c := '[') (a ++ ',' :: b ++ [']']) (by simp) (by decide)
  rw [List.nil_append] at g
  have hl : limits [txt "-inf", txt "-infinity"] [txt "+inf", txt "+infinity"] rd (a ++ ',' :: b) = .error .ub := by
    have h1 : stripDelim (a ++ ',' :: b) = some (a ++ ',' :: b) := by
      cases a with
      | nil => exact absurd rfl ha
      | cons c a => exact strip_cons (k c (hw c (by simp))).1 _
    have h2 : (a ++ ',' :: b).findIdx? isDelim = some a.length :=
      findIdx_append (fun c hc => (k c (hw c hc)).1) (by decide)
    have h3 : limit [txt "-inf", txt "-infinity"] rd a = .error .ub := by
      have hn : a ∉ [txt "-inf", txt "-infinity"] := by
        intro hm
        obtain ⟨c, t, rfl⟩ : ∃ c t, a = c :: t := by cases a with
          | nil => exact absurd rfl ha
          | cons c t => exact ⟨c, t, rfl⟩
        have h0 : ∀ t ∈ [txt "-inf", txt "-infinity"], ∀ c ∈ t.head?, isWs c = false := by decide
        have := h0 _ hm c rfl
        rw [(k c (hw c (by simp))).2.2] at this
        cases this
      have hs : skipWs a = [] := by
        rw [skipWs]
        have : ∀ c ∈ a, isWs c = true := fun c hc => (k c (hw c hc)).2.2
        clear hw ha h1 h2 hn g
        induction a with
        | nil => rfl
        | cons c a ih => rw [List.dropWhile_cons, if_pos (this c (by simp))]; exact ih fun c hc => this c (by simp [hc])
      rw [limit, if_neg hn, readNum, hs]
    rw [limits, h1, Option.getD_some, h2]
    dsimp only
    rw [List.take_left, h3]
  rw [g, afterOpen_eq rd (by
    intro x hx
    rcases List.mem_append.1 hx with hx | hx
    · exact (k x (hw x hx)).2.1
    · rcases List.mem_cons.1 hx with rfl | hx
      · decide
      · exact hb x hx) (by decide), hl]

/-- Round brackets do what square ones do, with any separators inside, whatever the count and what follows. -/
theorem C275_round (rd : Text → R) {cnt b r : Text} (hc : ∀ c ∈ cnt, isBracket c = false)
    (hb : ∀ c ∈ b, c ≠ ']' ∧ c ≠ ')') :
    group rd (cnt ++ '(' :: (b ++ ')' :: r)) = group rd (cnt ++ '[' :: (b ++ ']' :: r)) := by
  rw [group_eq rd hc fun c h => (hb c h).1]
  have h1 : (cnt ++ '(' :: (b ++ ')' :: r)).findIdx? isOpen = some cnt.length :=
    findIdx_append (fun x hx => by
      have := hc x hx
      simp only [isBracket, Bool.or_eq_false_iff] at this
      simp [isOpen, this.1.1]) (by decide)
  have h2 : (cnt ++ '(' :: (b ++ ')' :: r))[cnt.length]? = some '(' := by
    rw [List.getElem?_append_right (Nat.le_refl _), Nat.sub_self]; rfl
  have h3 : (cnt ++ '(' :: (b ++ ')' :: r)).findIdx? (fun c => decide (c = ')')) = some (cnt.length + 1 + b.length) := by
    have := findIdx_append (p := fun c => decide (c = ')')) (xs := cnt ++ '(' :: b) (ys := r) (c := ')') (by
      intro x hx
      rcases List.mem_append.1 hx with hx | hx
      · have := hc x hx
        simp only [isBracket, Bool.or_eq_false_iff, beq_eq_false_iff_ne] at this
        simp [this.2]
      · rcases List.mem_cons.1 hx with rfl | hx
        · decide
        · simp [(hb x hx).2]) (by decide)
    rw [List.append_assoc, List.cons_append] at this
    rw [this]
    simp only [List.length_append, List.length_cons]
    congr 1
    omega
  have h4 : (cnt ++ '(' :: (b ++ ')' :: r)).take cnt.length = cnt := List.take_left
  have h5 : (cnt ++ '(' :: (b ++ ')' :: r)).drop (cnt.length + 1) = b ++ ')' :: r := by
    rw [← List.drop_drop, List.drop_left]; rfl
  have h6 : between (cnt ++ '(' :: (b ++ ')' :: r)) cnt.length (cnt.length + 1 + b.length) = b := by
    rw [between, if_pos (by omega), h5, show cnt.length + 1 + b.length - cnt.length - 1 = b.length by omega,
      List.take_left]
  have h7 : (cnt ++ '(' :: (b ++ ')' :: r)).drop (cnt.length + 1 + b.length + 1) = r := by
    rw [show cnt.length + 1 + b.length + 1 = (cnt.length + 1) + (b.length + 1) by omega, ← List.drop_drop, h5,
      ← List.drop_drop, List.drop_left]
    rfl
  rw [group, h1]
  simp only [h2]
  rw [if_pos trivial, h3]
  simp only [h4, h6, h7]
  rfl

end

example : group rdInt (txt "3(0;9)[2,3]") = .ok (some (3, .interval 0 9, txt "[2,3]")) := by decide +kernel
example : general rdInt (txt "[ 0 ; 9]") = .ok (.interval 0 9) := by decide +kernel
example : NumGood rdInt shInt (-3) ∧ NumGood rdInt shInt 9 := ⟨int_good _, int_good _⟩

end Paradiseo.BoundText
