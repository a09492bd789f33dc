import Verif.Model.Param
import Mathlib.Data.List.Basic
/-
Helper lemmas for the parser and the parameters of EO.
-/
namespace Paradiseo.Param

/-! ### Words -/

/-- A non-empty text without white space. -/
def Word (w : Text) : Prop := w ≠ [] ∧ ∀ c ∈ w, isWs c = false

theorem token_ws {c : Char} (s : Text) (h : isWs c = true) : token (c :: s) = token s := by
  unfold token
  simp [List.dropWhile_cons, h]

theorem takeWhile_eq_self {α : Type} {p : α → Bool} {l : List α} (h : ∀ x ∈ l, p x = true) :
    l.takeWhile p = l := by
  induction l with
  | nil => rfl
  | cons a l ih =>
    rw [List.takeWhile_cons, if_pos (h a (by simp)), ih (fun x hx => h x (by simp [hx]))]

theorem mem_takeWhile {α : Type} {p : α → Bool} {l : List α} {x : α} (h : x ∈ l.takeWhile p) :
    p x = true := by
  induction l with
  | nil => simp at h
  | cons a l ih =>
    rw [List.takeWhile_cons] at h
    split at h
    · rcases List.mem_cons.1 h with rfl | h
      · assumption
      · exact ih h
    · simp at h

theorem takeWhile_stop {α : Type} {p : α → Bool} {l : List α} {b : α} (r : List α)
    (h : ∀ x ∈ l, p x = true) (hb : p b = false) : (l ++ b :: r).takeWhile p = l := by
  induction l with
  | nil => simp [List.takeWhile_cons, hb]
  | cons a l ih =>
    rw [List.cons_append, List.takeWhile_cons, if_pos (h a (by simp)), ih (fun x hx => h x (by simp [hx]))]

theorem dropWhile_stop {α : Type} {p : α → Bool} {l : List α} {b : α} (r : List α)
    (h : ∀ x ∈ l, p x = true) (hb : p b = false) : (l ++ b :: r).dropWhile p = b :: r := by
  induction l with
  | nil => simp [List.dropWhile_cons, hb]
  | cons a l ih =>
    rw [List.cons_append, List.dropWhile_cons, if_pos (h a (by simp)), ih (fun x hx => h x (by simp [hx]))]

theorem dropWhile_all {α : Type} {p : α → Bool} {l : List α}
    (h : ∀ x ∈ l, p x = true) : l.dropWhile p = [] := by
  induction l with
  | nil => rfl
  | cons a l ih =>
    rw [List.dropWhile_cons, if_pos (h a (by simp)), ih (fun x hx => h x (by simp [hx]))]

theorem token_word {w : Text} (hw : Word w) {b : Char} (hb : isWs b = true) (r : Text) :
    token (w ++ b :: r) = some (w, b :: r) := by
  obtain ⟨hne, hws⟩ := hw
  have h1 : (w ++ b :: r).dropWhile isWs = w ++ b :: r := by
    cases w with
    | nil => exact absurd rfl hne
    | cons a w => simp [List.dropWhile_cons, hws a (by simp)]
  have h2 : (w ++ b :: r).takeWhile (!isWs ·) = w :=
    takeWhile_stop r (fun x hx => by simp [hws x hx]) (by simp [hb])
  have h3 : (w ++ b :: r).dropWhile (!isWs ·) = b :: r :=
    dropWhile_stop r (fun x hx => by simp [hws x hx]) (by simp [hb])
  unfold token
  simp only [h1, h2, h3]
  cases hw' : w ++ b :: r with
  | nil => simp at hw'
  | cons a t => rfl

theorem token_length {s w r : Text} (h : token s = some (w, r)) : r.length < s.length := by
  unfold token at h
  simp only at h
  have h1 : (s.dropWhile isWs).length ≤ s.length := (List.dropWhile_suffix _).length_le
  cases ht : s.dropWhile isWs with
  | nil => rw [ht] at h; cases h
  | cons a t =>
    rw [ht] at h h1
    simp only [Option.some.injEq, Prod.mk.injEq] at h
    have ha : isWs a = false := by
      have := List.head?_dropWhile_not isWs s
      rw [ht] at this
      simpa using this
    rw [← h.2, List.dropWhile_cons, if_pos (by simp [ha])]
    have : (t.dropWhile (!isWs ·)).length ≤ t.length := (List.dropWhile_suffix _).length_le
    simp only [List.length_cons] at h1
    omega

theorem restOfLine_length (s : Text) : (restOfLine s).length ≤ s.length := by
  unfold restOfLine
  have : (s.dropWhile (· ≠ '\n')).length ≤ s.length := (List.dropWhile_suffix _).length_le
  rw [List.length_drop]; omega

theorem restOfLine_line {l : Text} (r : Text) (h : '\n' ∉ l) : restOfLine (l ++ '\n' :: r) = r := by
  unfold restOfLine
  rw [dropWhile_stop r]
  · rfl
  · intro x hx
    have : x ≠ '\n' := fun e => h (e ▸ hx)
    simp [this]
  · simp

/-- The fuel does not matter once it exceeds the length. -/
theorem readLoop_fuel (f g : Nat) (p : Bool) (s : Text) (m : Maps) (hf : s.length < f) (hg : s.length < g) :
    readLoop f p s m = readLoop g p s m := by
  induction f generalizing g p s m with
  | zero => omega
  | succ f ih =>
    cases g with
    | zero => omega
    | succ g =>
      unfold readLoop
      cases ht : token s with
      | none => rfl
      | some x =>
        obtain ⟨w, r⟩ := x
        have hlt := token_length ht
        have hrl := restOfLine_length r
        simp only
        generalize (if isSectionWord w = true then contains "Parser".toList w else p) = q
        cases q
        · exact ih g false r m (by omega) (by omega)
        · simp only [if_true]
          split
          · exact ih g true (restOfLine r) m (by omega) (by omega)
          · rfl
          · exact ih g true r _ (by omega) (by omega)
          · exact ih g true r _ (by omega) (by omega)
          · exact ih g true r m (by omega) (by omega)

/-- Reading in state `p`. -/
def rd (p : Bool) (s : Text) (m : Maps) : ROut := readLoop (s.length + 1) p s m

theorem rd_nil (p : Bool) (m : Maps) : rd p [] m = .ok m := rfl

theorem rd_ws {c : Char} (h : isWs c = true) (p : Bool) (s : Text) (m : Maps) :
    rd p (c :: s) m = rd p s m := by
  unfold rd
  rw [readLoop_fuel (s.length + 1) ((c :: s).length + 1) p s m (by omega) (by rw [List.length_cons]; omega)]
  rw [List.length_cons]
  unfold readLoop
  rw [token_ws s h]

theorem rd_blanks (l : Text) (h : ∀ c ∈ l, isWs c = true) (p : Bool) (s : Text) (m : Maps) :
    rd p (l ++ s) m = rd p s m := by
  induction l with
  | nil => rfl
  | cons a l ih => rw [List.cons_append, rd_ws (h a (by simp)), ih (fun c hc => h c (by simp [hc]))]

/-- What one word does to the maps. -/
def stepMaps (m : Maps) (w : Text) : Maps :=
  match w with
  | '-' :: '-' :: _ => { m with long := put m.long (longOption w).1 (longOption w).2 }
  | '-' :: c :: _ => { m with short := put m.short c (shortValue w) }
  | _ => m

/-- A word the reading goes past: not a comment, not a lone dash, not a section. -/
structure Plain (w : Text) : Prop where
  word : Word w
  noComment : w.head? ≠ some '#'
  noDash : w ≠ ['-']
  noSection : isSectionWord w = false

theorem rd_word {w : Text} (hw : Plain w) {b : Char} (hb : isWs b = true) (r : Text) (m : Maps) :
    rd true (w ++ b :: r) m = rd true (b :: r) (stepMaps m w) := by
  have hlen : (b :: r).length < (w ++ b :: r).length := by
    have := hw.word.1
    rw [List.length_append]
    have := List.length_pos_iff.2 this
    omega
  unfold rd
  rw [readLoop_fuel ((b :: r).length + 1) ((w ++ b :: r).length) true (b :: r) _ (by omega) hlen]
  generalize (w ++ b :: r).length = f at *
  rw [readLoop, token_word hw.word hb]
  simp only [hw.noSection, Bool.false_eq_true, if_false, if_true]
  unfold stepMaps
  obtain ⟨hwd, hc, hd, _⟩ := hw
  split
  · rename_i h; simp at hc
  · rename_i h; exact absurd rfl hd
  · rfl
  · split
    · rename_i h; cases h; simp_all
    · rename_i h; cases h; rfl
    · rename_i h; exact absurd rfl (h _ _)
  · rename_i h3 h4
    split
    · exact absurd rfl (h3 _)
    · exact absurd rfl (h4 _ _)
    · rfl

theorem rd_comment {w : Text} (hw : Word w) (h : w.head? = some '#') (l : Text) (hl : '\n' ∉ l)
    (r : Text) (m : Maps) (hws : l = [] ∨ ∃ b l', l = b :: l' ∧ isWs b = true) :
    rd true (w ++ l ++ '\n' :: r) m = rd true r m := by
  obtain ⟨c, w', rfl⟩ : ∃ c w', w = c :: w' := by cases w with
    | nil => simp at h
    | cons c w' => exact ⟨c, w', rfl⟩
  simp only [List.head?_cons, Option.some.injEq] at h
  subst h
  have hlen : r.length < (('#' :: w') ++ l ++ '\n' :: r).length := by
    simp only [List.length_append, List.length_cons]; omega
  have htok : token (('#' :: w') ++ l ++ '\n' :: r) = some ('#' :: w', l ++ '\n' :: r) := by
    rcases hws with rfl | ⟨b, l', rfl, hb⟩
    · rw [List.append_nil]; exact token_word hw (by decide) r
    · rw [List.append_assoc, List.cons_append]; exact token_word hw hb _
  unfold rd
  rw [readLoop_fuel (r.length + 1) ((('#' :: w') ++ l ++ '\n' :: r).length) true r _ (by omega) hlen]
  generalize (('#' :: w') ++ l ++ '\n' :: r).length = f at *
  rw [readLoop, htok]
  have hsec : isSectionWord ('#' :: w') = false := rfl
  simp only [hsec, Bool.false_eq_true, if_false, if_true]
  rw [restOfLine_line r hl]

theorem rd_dash {b : Char} (hb : isWs b = true) (r : Text) (m : Maps) :
    rd true ('-' :: b :: r) m = .missing m := by
  unfold rd
  rw [readLoop]
  have := token_word (w := ['-']) ⟨by simp, by decide⟩ hb r
  simp only [List.cons_append, List.nil_append] at this
  rw [this]
  have hsec : isSectionWord ['-'] = false := rfl
  simp only [hsec, Bool.false_eq_true, if_false, if_true]

/-- Words, each followed by a newline. -/
theorem rd_words (ws : List Text) (h : ∀ w ∈ ws, Plain w) (r : Text) (m : Maps) :
    rd true (argText ws ++ r) m = rd true r (ws.foldl stepMaps m) := by
  induction ws generalizing m with
  | nil => rfl
  | cons w ws ih =>
    have e : argText (w :: ws) ++ r = w ++ '\n' :: (argText ws ++ r) := by simp [argText]
    rw [e, rd_word (h w (by simp)) (by decide), rd_ws (by decide), ih (fun x hx => h x (by simp [hx]))]
    rfl

/-! ### Maps -/

theorem get_put {K : Type} [DecidableEq K] (m : List (K × Text)) (k : K) (v : Text) (j : K) :
    get (put m k v) j = if k = j then some v else get m j := by
  unfold get put
  rw [List.find?_cons]
  by_cases h : k = j
  · simp [h]
  · simp only [h, decide_false, if_false]
    congr 1
    rw [List.find?_filter]
    congr 1
    funext x
    by_cases hx : x.1 = j
    · simp [hx]; exact fun e => h e.symm
    · simp [hx]

/-! ### Which word gives what -/

/-- The word gives the long name `n` the value `v`. -/
def LongGives (n v w : Text) : Prop :=
  '=' ∉ n ∧ (w = "--".toList ++ n ++ '=' :: v ∨ (w = "--".toList ++ n ∧ v = []))

/-- The word gives the short name `c` the value `v`. -/
def ShortGives (c : Char) (v w : Text) : Prop :=
  c ≠ '-' ∧ (w = '-' :: c :: '=' :: v ∨ (w = '-' :: c :: v ∧ v.head? ≠ some '='))

/-- The last word of the list that gives something gives `v`. -/
def LastGives (G : Text → Text → Prop) (ws : List Text) (v : Text) : Prop :=
  ∃ pre w post, ws = pre ++ w :: post ∧ G v w ∧ ∀ u ∈ post, ∀ v', ¬ G v' u

theorem longGives_iff (n v w : Text) :
    LongGives n v w ↔ ∃ t, w = '-' :: '-' :: t ∧ longOption w = (n, v) := by
  constructor
  · rintro ⟨hn, rfl | ⟨rfl, rfl⟩⟩
    · refine ⟨n ++ '=' :: v, rfl, ?_⟩
      have hx : ∀ x ∈ n, decide (x ≠ '=') = true := by
        intro x hx
        have : x ≠ '=' := fun e => hn (e ▸ hx)
        simp [this]
      have e : ("--".toList ++ n ++ '=' :: v).drop 2 = n ++ '=' :: v := rfl
      unfold longOption
      simp only [e]
      rw [takeWhile_stop v hx (by simp), dropWhile_stop v hx (by simp)]
      rfl
    · refine ⟨n, rfl, ?_⟩
      have hx : ∀ x ∈ n, decide (x ≠ '=') = true := by
        intro x hx
        have : x ≠ '=' := fun e => hn (e ▸ hx)
        simp [this]
      have e : ("--".toList ++ n).drop 2 = n := rfl
      unfold longOption
      simp only [e]
      rw [takeWhile_eq_self hx, dropWhile_all hx]
      rfl
  · rintro ⟨t, rfl, h⟩
    have e : ('-' :: '-' :: t).drop 2 = t := rfl
    unfold longOption at h
    simp only [e, Prod.mk.injEq] at h
    have hn : '=' ∉ n := by
      rw [← h.1]
      intro hm
      have := mem_takeWhile hm
      simp at this
    refine ⟨hn, ?_⟩
    have ht : n ++ t.dropWhile (· ≠ '=') = t := by
      rw [← h.1]; exact List.takeWhile_append_dropWhile
    cases hd : t.dropWhile (· ≠ '=') with
    | nil =>
      right
      rw [hd] at ht h
      rw [List.append_nil] at ht
      rw [← ht]
      exact ⟨rfl, h.2.symm⟩
    | cons c r =>
      left
      have hc : c = '=' := by
        have := List.head?_dropWhile_not (fun x : Char => decide (x ≠ '=')) t
        rw [hd] at this
        simpa using this
      rw [hd] at ht h
      rw [← ht, hc]
      have : r = v := h.2
      rw [this]
      rfl

theorem shortGives_iff (c : Char) (v w : Text) :
    ShortGives c v w ↔ c ≠ '-' ∧ ∃ t, w = '-' :: c :: t ∧ shortValue w = v := by
  unfold ShortGives
  refine and_congr_right fun _ => ?_
  constructor
  · rintro (rfl | ⟨rfl, h⟩)
    · exact ⟨'=' :: v, rfl, rfl⟩
    · refine ⟨v, rfl, ?_⟩
      cases v with
      | nil => rfl
      | cons a v =>
        have ha : a ≠ '=' := by simpa using h
        simp [shortValue, ha]
  · rintro ⟨t, rfl, h⟩
    cases t with
    | nil => right; simp only [shortValue] at h; subst h; exact ⟨rfl, by simp⟩
    | cons a t =>
      by_cases ha : a = '='
      · left; subst ha; simp [shortValue] at h; rw [h]
      · right; simp [shortValue, ha] at h; subst h; exact ⟨rfl, by simpa using ha⟩

theorem stepMaps_long {n v w : Text} (m : Maps) (h : LongGives n v w) :
    get (stepMaps m w).long n = some v := by
  obtain ⟨t, rfl, hl⟩ := (longGives_iff n v w).1 h
  have e : stepMaps m ('-' :: '-' :: t) =
    { m with long := put m.long (longOption ('-' :: '-' :: t)).1 (longOption ('-' :: '-' :: t)).2 } := rfl
  rw [e, hl, get_put, if_pos rfl]

theorem stepMaps_long_other {n w : Text} (m : Maps) (h : ∀ v, ¬ LongGives n v w) :
    get (stepMaps m w).long n = get m.long n := by
  unfold stepMaps
  split
  · rename_i t
    simp only
    rw [get_put, if_neg]
    intro e
    exact h _ ((longGives_iff n _ _).2 ⟨t, rfl, by rw [← e]⟩)
  · rfl
  · rfl

theorem stepMaps_short {c : Char} {v w : Text} (m : Maps) (h : ShortGives c v w) :
    get (stepMaps m w).short c = some v := by
  obtain ⟨hc, t, rfl, hl⟩ := (shortGives_iff c v w).1 h
  unfold stepMaps
  split
  · rename_i h; cases h; exact absurd rfl hc
  · rename_i h; cases h; simp only; rw [hl, get_put, if_pos rfl]
  · rename_i h; exact absurd rfl (h _ _)

theorem stepMaps_short_other {c : Char} {w : Text} (m : Maps) (h : ∀ v, ¬ ShortGives c v w) :
    get (stepMaps m w).short c = get m.short c := by
  unfold stepMaps
  split
  · rfl
  · rename_i d t hd
    simp only
    rw [get_put, if_neg]
    intro e
    subst e
    exact h _ ((shortGives_iff _ _ _).2 ⟨fun e => hd e, t, rfl, rfl⟩)
  · rfl

theorem not_lastGives {G : Text → Text → Prop} {ws : List Text} :
    (¬ ∃ v, LastGives G ws v) ↔ ∀ w ∈ ws, ∀ v, ¬ G v w := by
  constructor
  · intro h
    induction ws with
    | nil => simp
    | cons w ws ih =>
      have h1 : ∀ u ∈ ws, ∀ v, ¬ G v u := ih fun ⟨v, pre, u, post, e, hg, hp⟩ =>
        h ⟨v, w :: pre, u, post, by rw [e]; rfl, hg, hp⟩
      intro u hu v hg
      rcases List.mem_cons.1 hu with rfl | hu
      · exact h ⟨v, [], u, ws, rfl, hg, h1⟩
      · exact h1 u hu v hg
  · rintro h ⟨v, pre, w, post, rfl, hg, _⟩
    exact h w (by simp) v hg

section Last

variable {K : Type} (look : Maps → Option Text) (G : Text → Text → Prop)

theorem foldl_look_other (h2 : ∀ m w, (∀ v, ¬ G v w) → look (stepMaps m w) = look m)
    (ws : List Text) (m : Maps) (h : ∀ w ∈ ws, ∀ v, ¬ G v w) :
    look (ws.foldl stepMaps m) = look m := by
  induction ws generalizing m with
  | nil => rfl
  | cons w ws ih =>
    rw [List.foldl_cons, ih _ fun u hu => h u (by simp [hu]), h2 _ _ (h w (by simp))]

theorem foldl_look (h1 : ∀ m v w, G v w → look (stepMaps m w) = some v)
    (h2 : ∀ m w, (∀ v, ¬ G v w) → look (stepMaps m w) = look m)
    (ws : List Text) (m : Maps) (v : Text) :
    look (ws.foldl stepMaps m) = some v ↔
      LastGives G ws v ∨ ((∀ w ∈ ws, ∀ v, ¬ G v w) ∧ look m = some v) := by
  have key : ∀ u, LastGives G ws u → look (ws.foldl stepMaps m) = some u := by
    rintro u ⟨pre, w, post, rfl, hg, hp⟩
    rw [List.foldl_append, List.foldl_cons, foldl_look_other look G h2 post _ hp, h1 _ _ _ hg]
  constructor
  · intro h
    by_cases hx : ∃ u, LastGives G ws u
    · obtain ⟨u, hu⟩ := hx
      rw [key u hu, Option.some.injEq] at h
      exact .inl (h ▸ hu)
    · have := not_lastGives.1 hx
      rw [foldl_look_other look G h2 ws m this] at h
      exact .inr ⟨this, h⟩
  · rintro (h | ⟨h, h'⟩)
    · exact key v h
    · rw [foldl_look_other look G h2 ws m h, h']

end Last

theorem foldl_long (ws : List Text) (m : Maps) (n v : Text) :
    get (ws.foldl stepMaps m).long n = some v ↔
      LastGives (LongGives n) ws v ∨ ((∀ w ∈ ws, ∀ v, ¬ LongGives n v w) ∧ get m.long n = some v) :=
  foldl_look (fun m => get m.long n) (LongGives n) (fun m _ _ h => stepMaps_long m h)
    (fun m _ h => stepMaps_long_other m h) ws m v

theorem foldl_short (ws : List Text) (m : Maps) (c : Char) (v : Text) :
    get (ws.foldl stepMaps m).short c = some v ↔
      LastGives (ShortGives c) ws v ∨ ((∀ w ∈ ws, ∀ v, ¬ ShortGives c v w) ∧ get m.short c = some v) :=
  foldl_look (fun m => get m.short c) (ShortGives c) (fun m _ _ h => stepMaps_short m h)
    (fun m _ h => stepMaps_short_other m h) ws m v

theorem get_mem {K : Type} [DecidableEq K] {m : List (K × Text)} {k : K} :
    (∃ v, get m k = some v) ↔ ∃ x ∈ m, x.1 = k := by
  unfold get
  constructor
  · rintro ⟨v, h⟩
    rw [Option.map_eq_some_iff] at h
    obtain ⟨x, hx, _⟩ := h
    exact ⟨x, List.mem_of_find?_eq_some hx, by simpa using List.find?_some hx⟩
  · rintro ⟨x, hx, hk⟩
    cases h : m.find? fun x => x.1 = k with
    | some y => exact ⟨y.2, rfl⟩
    | none =>
      rw [List.find?_eq_none] at h
      exact absurd hk (by simpa using h x hx)

theorem readFrom_words (ws : List Text) (h : ∀ w ∈ ws, Plain w) (m : Maps) :
    readFrom (argText ws) m = .ok (ws.foldl stepMaps m) := by
  have := rd_words ws h [] m
  rw [List.append_nil] at this
  exact this

/-! ### Printing and reading back -/

theorem longWord_plain {n v : Text} (hn : ∀ c ∈ n, isWs c = false) (hv : ∀ c ∈ v, isWs c = false) :
    Plain ("--".toList ++ n ++ '=' :: v) := by
  refine ⟨⟨by simp, ?_⟩, by simp, by simp, rfl⟩
  intro c hc
  simp only [List.mem_append, List.mem_cons] at hc
  rcases hc with (hc | hc) | rfl | hc
  · revert c; decide
  · exact hn c hc
  · rfl
  · exact hv c hc

/-- Words the reading passes over without effect, each after a blank. -/
def Trail (t : Text) : Prop :=
  ∃ ws : List Text, t = ws.flatMap (fun w => ' ' :: w) ∧ ∀ w ∈ ws, w = [] ∨ (Plain w ∧ w.head? ≠ some '-')

theorem stepMaps_other (m : Maps) {w : Text} (h : w.head? ≠ some '-') : stepMaps m w = m := by
  unfold stepMaps
  split
  · simp at h
  · simp at h
  · rfl

theorem rd_trail {t : Text} (h : Trail t) {b : Char} (hb : isWs b = true) (r : Text) (m : Maps) :
    rd true (t ++ b :: r) m = rd true (b :: r) m := by
  obtain ⟨ws, rfl, h⟩ := h
  induction ws with
  | nil => rfl
  | cons w ws ih =>
    have ih := ih fun x hx => h x (by simp [hx])
    rw [List.flatMap_cons, List.append_assoc, List.cons_append, rd_ws (by decide)]
    rcases h w (by simp) with rfl | ⟨hp, hd⟩
    · exact ih
    · have hcase : ∃ c s, ws.flatMap (fun w => ' ' :: w) ++ b :: r = c :: s ∧ isWs c = true := by
        cases ws with
        | nil => exact ⟨b, r, rfl, hb⟩
        | cons u ws => exact ⟨' ', _, rfl, by decide⟩
      obtain ⟨c, s, e, hc⟩ := hcase
      rw [e] at ih ⊢
      rw [rd_word hp hc, stepMaps_other m hd, ih]

theorem rd_comment_line {l : Text} (hl : '\n' ∉ l) (r : Text) (m : Maps) :
    rd true ('#' :: l ++ '\n' :: r) m = rd true r m := by
  have e : l = l.takeWhile (!isWs ·) ++ l.dropWhile (!isWs ·) := List.takeWhile_append_dropWhile.symm
  have hw : Word ('#' :: l.takeWhile (!isWs ·)) := by
    refine ⟨by simp, ?_⟩
    intro c hc
    rcases List.mem_cons.1 hc with rfl | hc
    · rfl
    · simpa using mem_takeWhile hc
  have hd : l.dropWhile (!isWs ·) = [] ∨ ∃ b l', l.dropWhile (!isWs ·) = b :: l' ∧ isWs b = true := by
    cases hx : l.dropWhile (!isWs ·) with
    | nil => exact .inl rfl
    | cons b l' =>
      refine .inr ⟨b, l', rfl, ?_⟩
      have := List.head?_dropWhile_not (fun c => !isWs c) l
      rw [hx] at this
      simpa using this
  have := rd_comment hw rfl (l.dropWhile (!isWs ·))
    (fun h => hl (by rw [e]; exact List.mem_append_right _ h)) r m hd
  rw [← this]
  congr 1
  conv_lhs => rw [e]
  simp

/-- What the printing of parameters needs so that it can be read back: `first` is the first word of the
value. -/
structure Printable (first : Prm → Text) (p : Prm) : Prop where
  name : ∀ c ∈ p.long, isWs c = false
  first_ws : ∀ c ∈ first p, isWs c = false
  value : ∃ t, p.value = first p ++ t ∧ Trail t
  descr : '\n' ∉ p.descr
  short : p.short ≠ '\n'

theorem trail_newline {t : Text} (h : Trail t) : '\n' ∉ t := by
  obtain ⟨ws, rfl, h⟩ := h
  intro hm
  obtain ⟨w, hw, hc⟩ := List.mem_flatMap.1 hm
  rcases List.mem_cons.1 hc with hc | hc
  · exact absurd hc (by decide)
  · rcases h w hw with rfl | ⟨hp, _⟩
    · simp at hc
    · exact absurd (hp.word.2 _ hc) (by decide)

theorem ws_newline {t : Text} (h : ∀ c ∈ t, isWs c = false) : '\n' ∉ t :=
  fun hm => absurd (h _ hm) (by decide)

theorem rd_printParam {first : Prm → Text} {p : Prm} (h : Printable first p) (m m' : Maps) (r : Text) :
    rd true (printParam m p ++ r) m' =
      rd true r (if m.isThere p then stepMaps m' ("--".toList ++ p.long ++ '=' :: first p) else m') := by
  obtain ⟨hn, hf, ⟨t, hv, ht⟩, hd, hs⟩ := h
  have hcom : '\n' ∉ (if p.short.toNat ≠ 0 then ['-', p.short] ++ " : ".toList else []) ++ p.descr ++
      (if p.required then " REQUIRED ".toList else []) := by
    intro hm
    simp only [List.mem_append] at hm
    rcases hm with (hm | hm) | hm
    · split at hm
      · simp only [List.mem_append, List.mem_cons] at hm
        rcases hm with (hm | hm | hm) | hm
        · exact absurd hm (by decide)
        · exact hs hm.symm
        · simp at hm
        · revert hm; decide
      · simp at hm
    · exact hd hm
    · split at hm
      · revert hm; decide
      · simp at hm
  have hval : '\n' ∉ "--".toList ++ p.long ++ ['='] ++ p.value := by
    rw [hv]
    intro hm
    simp only [List.mem_append] at hm
    rcases hm with ((hm | hm) | hm) | hm | hm
    · revert hm; decide
    · exact ws_newline hn hm
    · revert hm; decide
    · exact ws_newline hf hm
    · exact trail_newline ht hm
  unfold printParam
  simp only
  generalize hcomdef : (if p.short.toNat ≠ 0 then ['-', p.short] ++ " : ".toList else []) = c1 at hcom ⊢
  generalize hreqdef : (if p.required then " REQUIRED ".toList else []) = c2 at hcom ⊢
  generalize hstr : "--".toList ++ p.long ++ ['='] ++ p.value = str at hval ⊢
  generalize 40 - str.length = k
  cases hth : m.isThere p
  · simp only [Bool.false_eq_true, if_false]
    have hl : '\n' ∉ ' ' :: (str ++ List.replicate k ' ' ++ " # ".toList ++ c1 ++ p.descr ++ c2) := by
      intro hm
      simp only [List.mem_cons, List.mem_append] at hm hcom
      rcases hm with hm | ((((hm | hm) | hm) | hm) | hm) | hm
      · exact absurd hm (by decide)
      · exact hval hm
      · exact absurd (List.eq_of_mem_replicate hm) (by decide)
      · revert hm; decide
      · exact hcom (.inl (.inl hm))
      · exact hcom (.inl (.inr hm))
      · exact hcom (.inr hm)
    rw [← rd_comment_line hl r m']
    congr 1
    simp
  · simp only [if_true]
    have hp := longWord_plain hn hf
    have e : [] ++ str ++ List.replicate k ' ' ++ " # ".toList ++ c1 ++ p.descr ++ c2 ++ ['\n'] ++ r =
        ("--".toList ++ p.long ++ '=' :: first p) ++ (t ++ (List.replicate k ' ' ++
          (' ' :: ('#' :: (' ' :: (c1 ++ p.descr ++ c2)) ++ '\n' :: r)))) := by
      rw [← hstr, hv]; simp
    rw [e]
    have hb : ∀ s : Text, ∃ c u, List.replicate k ' ' ++ (' ' :: s) = c :: u ∧ isWs c = true := by
      intro s
      cases k with
      | zero => exact ⟨' ', s, rfl, by decide⟩
      | succ k => exact ⟨' ', _, rfl, by decide⟩
    have hb2 : ∀ s : Text, ∃ c u, t ++ (List.replicate k ' ' ++ (' ' :: s)) = c :: u ∧ isWs c = true := by
      intro s
      obtain ⟨ws, rfl, _⟩ := ht
      cases ws with
      | nil => exact hb s
      | cons w ws => exact ⟨' ', _, rfl, by decide⟩
    have hnc : '\n' ∉ ' ' :: (c1 ++ p.descr ++ c2) := by
      intro hm
      rcases List.mem_cons.1 hm with hm | hm
      · exact absurd hm (by decide)
      · exact hcom hm
    generalize hs3 : ('#' :: (' ' :: (c1 ++ p.descr ++ c2)) ++ '\n' :: r) = s3
    obtain ⟨c, u, e2, hc⟩ := hb2 s3
    rw [e2, rd_word hp hc, ← e2]
    obtain ⟨c', u', e3, hc'⟩ := hb s3
    rw [e3, rd_trail ht hc', ← e3, rd_blanks _ (fun c hc => by rw [List.eq_of_mem_replicate hc]; decide),
      rd_ws (by decide), ← hs3, rd_comment_line hnc]

theorem rd_printHeader {upper : Text → Text} {sec : Text}
    (h : '\n' ∉ upper (if sec = [] then "General".toList else sec)) (m : Maps) (r : Text) :
    rd true (printHeader upper sec ++ r) m = rd true r m := by
  unfold printHeader
  simp only
  generalize upper (if sec = [] then "General".toList else sec) = s at h ⊢
  generalize 80 - (s ++ [' ']).length = k
  have hl : '\n' ∉ "## ".toList ++ s ++ [' '] ++ List.replicate k '#' := by
    intro hm
    simp only [List.mem_append] at hm
    rcases hm with ((hm | hm) | hm) | hm
    · revert hm; decide
    · exact h hm
    · revert hm; decide
    · exact absurd (List.eq_of_mem_replicate hm) (by decide)
  have e : ['\n'] ++ "### ".toList ++ (s ++ [' ']) ++ List.replicate k '#' ++ ['\n'] ++ r =
      '\n' :: ('#' :: ("## ".toList ++ s ++ [' '] ++ List.replicate k '#') ++ '\n' :: r) := by
    simp
  rw [e, rd_ws (by decide), rd_comment_line hl]

theorem rd_params {first : Prm → Text} (ps : List Prm) (h : ∀ p ∈ ps, Printable first p) (m m' : Maps)
    (r : Text) :
    rd true (ps.flatMap (printParam m) ++ r) m' =
      rd true r (((ps.filter m.isThere).map fun p => "--".toList ++ p.long ++ '=' :: first p).foldl
        stepMaps m') := by
  induction ps generalizing m' with
  | nil => rfl
  | cons p ps ih =>
    rw [List.flatMap_cons, List.append_assoc, rd_printParam (h p (by simp)),
      ih (fun x hx => h x (by simp [hx]))]
    cases hx : m.isThere p <;> simp [List.filter_cons, hx]

theorem rd_printOn {first : Prm → Text} {upper : Text → Text} (secs : List (Text × List Prm))
    (hs : ∀ x ∈ secs, '\n' ∉ upper (if x.1 = [] then "General".toList else x.1))
    (h : ∀ x ∈ secs, ∀ p ∈ x.2, Printable first p) (m m' : Maps) (r : Text) :
    rd true (printOn upper m secs ++ r) m' =
      rd true r ((((secs.flatMap (·.2)).filter m.isThere).map
        fun p => "--".toList ++ p.long ++ '=' :: first p).foldl stepMaps m') := by
  unfold printOn
  induction secs generalizing m' with
  | nil => rfl
  | cons x secs ih =>
    rw [List.flatMap_cons, List.append_assoc, List.append_assoc, rd_printHeader (hs x (by simp)),
      rd_params x.2 (h x (by simp)),
      ih (fun y hy => hs y (by simp [hy])) (fun y hy => h y (by simp [hy]))]
    rw [List.flatMap_cons, List.filter_append, List.map_append, List.foldl_append]

end Paradiseo.Param
