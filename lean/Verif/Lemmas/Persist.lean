import Verif.Model.Persist
import Verif.Props.MathSymRaw
/-
Reading what was written: words, numbers, lists of values.
-/
namespace Paradiseo.Persist

open Paradiseo.EO Paradiseo.Param

/-- Nothing that could belong to the word before. -/
def Sep (r : Text) : Prop := ∀ c t, r = c :: t → isWs c = true

/-- A word: not empty, no blank. -/
def Word (w : Text) : Prop := w ≠ [] ∧ ∀ c ∈ w, isWs c = false

/-- A value that `operator>>` reads as `operator<<` has written it. -/
def Good {V : Type} (f : Fmt V) (v : V) : Prop :=
  Word (f.out v) ∧ ∀ r, Sep r → f.ext (f.out v ++ r) = some (v, r)

/-- A fitness written as one word and read from it. -/
def FGood {F : Type} (ff : FitFmt F) (v : F) : Prop :=
  Word (ff.out v) ∧ ff.out v ≠ txt "INVALID" ∧ ∀ old, ff.rd (ff.out v) old = .ok v

/-- `y` is read from what is written of `x`, whatever the object held before; up to blanks, the rest of the stream is
what was written after it. -/
def Restores {X : Type} (pr : X → Text) (rd : X → Str → Except Err (X × Str)) (same : X → X → Prop) (x : X) : Prop :=
  ∀ (old : X) (s r : Text), Sep r → skipWs s = skipWs (pr x ++ r) →
    ∃ y r', rd old ⟨s, true⟩ = .ok (y, ⟨r', true⟩) ∧ same x y ∧ skipWs r' = skipWs r

section
variable {V F A : Type}

theorem sep_nil : Sep [] := by intro c t h; cases h

theorem sep_cons {c : Char} (h : isWs c = true) (t : Text) : Sep (c :: t) := by
  intro d u hd
  rw [List.cons.injEq] at hd
  rw [← hd.1]
  exact h

theorem skip_cons {c : Char} (h : isWs c = true) (t : Text) : skipWs (c :: t) = skipWs t := by
  rw [skipWs, List.dropWhile_cons, if_pos h, skipWs]

theorem skip_word {w : Text} (h : Word w) (r : Text) : skipWs (w ++ r) = w ++ r := by
  cases w with
  | nil => exact absurd rfl h.1
  | cons a w =>
    rw [skipWs, List.cons_append, List.dropWhile_cons, if_neg (by simp [h.2 a (by simp)])]

theorem takeWhile_word : ∀ {w : Text}, (∀ c ∈ w, isWs c = false) → ∀ {r}, Sep r →
    (w ++ r).takeWhile (fun d => !isWs d) = w ∧ (w ++ r).dropWhile (fun d => !isWs d) = r
  | [], _, r, hr => by
    cases r with
    | nil => exact ⟨rfl, rfl⟩
    | cons c t =>
      have := hr c t rfl
      simp [this]
  | a :: w, h, r, hr => by
    have ih := takeWhile_word (w := w) (fun c hc => h c (by simp [hc])) hr
    have ha := h a (by simp)
    simp only [List.cons_append, List.takeWhile_cons, List.dropWhile_cons, ha, Bool.not_false, if_true]
    exact ⟨by rw [ih.1], ih.2⟩

theorem getWord_word {w r s : Text} (hw : Word w) (hr : Sep r) (hs : skipWs s = skipWs (w ++ r)) :
    getWord ⟨s, true⟩ = (w, ⟨r, true⟩) := by
  rw [skip_word hw] at hs
  have ht := takeWhile_word hw.2 hr
  cases w with
  | nil => exact absurd rfl hw.1
  | cons a w =>
    unfold getWord
    simp only [if_true, hs]
    rw [List.cons_append] at ht ⊢
    simp only [ht.1, ht.2]

theorem get_good {f : Fmt V} {v : V} {r s : Text} (h : Good f v) (hr : Sep r)
    (hs : skipWs s = skipWs (f.out v ++ r)) : get f ⟨s, true⟩ = (some v, ⟨r, true⟩) := by
  rw [skip_word h.1] at hs
  have he := h.2 r hr
  have hn := h.1.1
  generalize f.out v = w at hs he hn
  cases w with
  | nil => exact absurd rfl hn
  | cons a w =>
    unfold get
    simp only [if_true, hs]
    rw [List.cons_append] at he ⊢
    simp only [he]

theorem ws_not_digit {c : Char} (h : isWs c = true) : c.isDigit = false := by
  by_contra hd
  have : c.isDigit = true := by simpa using hd
  rw [digit_not_ws this] at h
  cases h

theorem nat_good (n : Nat) : Good natFmt n := by
  obtain ⟨h1, h2, -⟩ := MathSym.showNat_spec n
  refine ⟨⟨h1, fun c hc => digit_not_ws (h2 c hc)⟩, fun r hr => ?_⟩
  exact MathSym.readNat_showNat n fun c s h => ws_not_digit (hr c s h)

theorem atomsPrint_cons (fa : Fmt A) (a : A) (l : List A) (r : Text) :
    atomsPrint fa (a :: l) ++ r = fa.out a ++ (' ' :: (atomsPrint fa l ++ r)) := by
  simp [atomsPrint]

theorem blank : isWs ' ' = true := by decide

/-- The values are read; what follows remains. -/
theorem readAtoms_print (fa : Fmt A) : ∀ (l : List A), (∀ a ∈ l, Good fa a) → ∀ (s r : Text),
    skipWs s = skipWs (atomsPrint fa l ++ r) →
    ∃ r', readAtoms fa l.length ⟨s, true⟩ = .ok (l, ⟨r', true⟩) ∧ skipWs r' = skipWs r
  | [], _, s, r, hs => ⟨s, rfl, hs⟩
  | a :: l, h, s, r, hs => by
    rw [atomsPrint_cons] at hs
    have h1 := get_good (h a (by simp)) (sep_cons blank _) hs
    obtain ⟨r', h2, h3⟩ := readAtoms_print fa l (fun b hb => h b (by simp [hb])) _ r (skip_cons blank _)
    refine ⟨r', ?_, h3⟩
    rw [List.length_cons, readAtoms, h1]
    simp only [h2]

theorem readInto_print (fa : Fmt A) : ∀ (l old : List A), (∀ a ∈ l, Good fa a) → old.length = l.length → ∀ (s r : Text),
    skipWs s = skipWs (atomsPrint fa l ++ r) →
    ∃ r', readInto fa old ⟨s, true⟩ = (l, ⟨r', true⟩) ∧ skipWs r' = skipWs r
  | [], [], _, _, s, r, hs => ⟨s, rfl, hs⟩
  | [], _ :: _, _, he, _, _, _ => by cases he
  | _ :: _, [], _, he, _, _, _ => by cases he
  | a :: l, o :: old, h, he, s, r, hs => by
    rw [atomsPrint_cons] at hs
    have h1 := get_good (h a (by simp)) (sep_cons blank _) hs
    obtain ⟨r', h2, h3⟩ := readInto_print fa l old (fun b hb => h b (by simp [hb])) (by simpa using he) _ r
      (skip_cons blank _)
    refine ⟨r', ?_, h3⟩
    rw [readInto]
    simp only [h1, h2, Option.getD_some]

theorem length_resize (d : A) (n : Nat) (l : List A) : (resize d n l).length = n := by
  unfold resize
  rw [List.length_append, List.length_take, List.length_replicate]
  omega

theorem sizedRead_print (fa : Fmt A) (l : List A) (h : ∀ a ∈ l, Good fa a) (s r : Text)
    (hs : skipWs s = skipWs (State.showNat l.length ++ ([' '] ++ atomsPrint fa l) ++ r)) :
    ∃ r', sizedRead fa ⟨s, true⟩ = .ok (l, ⟨r', true⟩) ∧ skipWs r' = skipWs r := by
  have h1 : get natFmt ⟨s, true⟩ = (some l.length, ⟨' ' :: (atomsPrint fa l ++ r), true⟩) :=
    get_good (nat_good _) (sep_cons blank _) (by rw [hs]; simp [natFmt])
  obtain ⟨r', h2, h3⟩ := readAtoms_print fa l h _ r (skip_cons blank (atomsPrint fa l ++ r))
  refine ⟨r', ?_, h3⟩
  rw [sizedRead, h1]
  exact h2

/-- What is left of the part `EO`. -/
theorem eoRead_print (ff : FitFmt F) (x old : Head F) (hx : x.invalid = false → FGood ff x.rep) (s r : Text)
    (hs : skipWs s = skipWs (eoPrint ff x ++ r)) :
    ∃ h, eoRead ff old ⟨s, true⟩ = .ok (h, ⟨' ' :: r, true⟩) ∧ h.fitness = x.fitness := by
  unfold eoPrint at hs
  rw [List.append_assoc] at hs
  cases hi : x.invalid with
  | true =>
    rw [hi, if_pos rfl] at hs
    have hw := getWord_word (w := txt "INVALID") ⟨by decide, by decide⟩ (sep_cons blank r) hs
    refine ⟨{ old with invalid := true }, ?_, ?_⟩
    · rw [eoRead, hw]
      simp
    · simp [Head.fitness, hi]
  | false =>
    rw [hi, if_neg (by simp)] at hs
    have hg := hx hi
    have hw := getWord_word hg.1 (sep_cons blank r) hs
    refine ⟨⟨x.rep, false⟩, ?_, ?_⟩
    · rw [eoRead, hw]
      simp only [if_neg hg.2.1, hg.2.2]
    · simp [Head.fitness, hi]

theorem bitsRead_print (old l : List Bool) (hl : l ≠ []) (n : Nat) (s r : Text) (hr : Sep r)
    (hs : skipWs s = skipWs (State.showNat n ++ ([' '] ++ bitsOut l) ++ r)) :
    bitsRead old ⟨s, true⟩ = (l, ⟨r, true⟩) := by
  have h1 : get natFmt ⟨s, true⟩ = (some n, ⟨' ' :: (bitsOut l ++ r), true⟩) :=
    get_good (nat_good _) (sep_cons blank _) (by rw [hs]; simp [natFmt])
  have hw : Word (bitsOut l) := by
    refine ⟨by simpa [bitsOut] using hl, ?_⟩
    intro c hc
    obtain ⟨b, -, rfl⟩ := List.mem_map.1 hc
    cases b <;> decide
  have h2 := getWord_word hw hr (skip_cons blank (bitsOut l ++ r))
  unfold bitsRead
  simp only [h1, h2, if_true]
  congr 1
  simp only [bitsIn, bitsOut, List.map_map]
  conv_rhs => rw [← List.map_id l]
  apply List.map_congr_left
  intro b _
  cases b <;> rfl

theorem readEach_print {X : Type} (pr : X → Text) (rd : X → Str → Except Err (X × Str)) (same : X → X → Prop) :
    ∀ (l old : List X), old.length = l.length → (∀ x ∈ l, Restores pr rd same x) → ∀ (s r : Text),
    skipWs s = skipWs ((l.flatMap fun x => pr x ++ ['\n']) ++ r) →
    ∃ ys r', readEach rd old ⟨s, true⟩ = .ok (ys, ⟨r', true⟩) ∧ List.Forall₂ same l ys ∧ skipWs r' = skipWs r
  | [], [], _, _, s, r, hs => ⟨[], s, rfl, .nil, hs⟩
  | [], _ :: _, he, _, _, _, _ => by cases he
  | _ :: _, [], he, _, _, _, _ => by cases he
  | x :: l, o :: old, he, h, s, r, hs => by
    rw [List.flatMap_cons, List.append_assoc, List.append_assoc] at hs
    obtain ⟨y, r1, h1, h2, h3⟩ := h x (by simp) o s _ (sep_cons (c := '\n') (by decide) _) hs
    replace h3 : skipWs r1 = skipWs ('\n' :: ((l.flatMap fun x => pr x ++ ['\n']) ++ r)) := h3
    rw [skip_cons (by decide)] at h3
    obtain ⟨ys, r2, h4, h5, h6⟩ := readEach_print pr rd same l old (by simpa using he)
      (fun z hz => h z (by simp [hz])) r1 r h3
    refine ⟨y :: ys, r2, ?_, .cons h2 h5, h6⟩
    rw [readEach, h1]
    simp only [h4]

end

end Paradiseo.Persist
