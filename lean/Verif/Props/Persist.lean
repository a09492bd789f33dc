import Verif.Lemmas.Persist
/-
C267 - C270: individuals and populations written and read back.
-/
namespace Paradiseo.Persist

open Paradiseo.EO Paradiseo.Param

variable {F A : Type}

/-- Same genes, same fitness (or both not evaluated). -/
def SameVec (x y : Vec F A) : Prop := y.genes = x.genes ∧ y.head.fitness = x.head.fitness

/-- The fitness, if there is one, is written as one word. -/
def HeadGood (ff : FitFmt F) (h : Head F) : Prop := h.invalid = false → FGood ff h.rep

/-! ### C267 -/

/-- A vector of genes is read, whatever follows it. -/
theorem vec_any (ff : FitFmt F) (fa : Fmt A) (x old : Vec F A) (hf : HeadGood ff x.head)
    (hg : ∀ a ∈ x.genes, Good fa a) (s r : Text) (hs : skipWs s = skipWs (vecPrint ff fa x ++ r)) :
    ∃ y r', vecRead ff fa old ⟨s, true⟩ = .ok (y, ⟨r', true⟩) ∧ SameVec x y ∧ skipWs r' = skipWs r := by
  obtain ⟨h, h1, h2⟩ := eoRead_print ff x.head old.head hf s
    ([' '] ++ State.showNat x.genes.length ++ [' '] ++ atomsPrint fa x.genes ++ r) (by rw [hs]; simp [vecPrint])
  obtain ⟨r', h3, h4⟩ := sizedRead_print fa x.genes hg
    (' ' :: ([' '] ++ State.showNat x.genes.length ++ [' '] ++ atomsPrint fa x.genes ++ r)) r (by
      rw [skip_cons blank]
      simp only [List.append_assoc, List.cons_append, List.nil_append]
      rw [skip_cons blank])
  refine ⟨⟨h, x.genes⟩, r', ?_, ⟨rfl, h2⟩, h4⟩
  rw [vecRead, h1]
  simp only [h3]

/-- A vector of genes is read as it was written. -/
theorem C267_vector (ff : FitFmt F) (fa : Fmt A) (x : Vec F A) (hf : HeadGood ff x.head)
    (hg : ∀ a ∈ x.genes, Good fa a) : Restores (vecPrint ff fa) (vecRead ff fa) SameVec x :=
  fun old s r _ hs => vec_any ff fa x old hf hg s r hs

/-- A population is read as it was written, whatever the population held before, if its individuals are. -/
theorem C267_population {X : Type} (pr : X → Text) (rd : X → Str → Except Err (X × Str)) (same : X → X → Prop)
    (dflt : X) (l : List X) (h : ∀ x ∈ l, Restores pr rd same x) :
    Restores (popPrint pr) (popRead rd dflt) (List.Forall₂ same) l := by
  intro old s r _ hs
  have h1 : get natFmt ⟨s, true⟩ = (some l.length, ⟨'\n' :: ((l.flatMap fun x => pr x ++ ['\n']) ++ r), true⟩) :=
    get_good (nat_good _) (sep_cons (by decide) _) (by rw [hs]; simp [natFmt, popPrint])
  obtain ⟨ys, r', h2, h3, h4⟩ := readEach_print pr rd same l (resize dflt l.length old) (length_resize _ _ _) h
    ('\n' :: ((l.flatMap fun x => pr x ++ ['\n']) ++ r)) r (skip_cons (by decide) _)
  refine ⟨ys, r', ?_, h3, h4⟩
  rw [popRead, h1]
  exact h2

/-- A population of vectors saved and loaded: the same genes, the same fitness, in the same order. -/
theorem C267_saved (ff : FitFmt F) (fa : Fmt A) (dflt : Vec F A) (old l : List (Vec F A))
    (h : ∀ x ∈ l, HeadGood ff x.head ∧ ∀ a ∈ x.genes, Good fa a) :
    ∃ l' s, popRead (vecRead ff fa) dflt old (Str.of (popPrint (vecPrint ff fa) l)) = .ok (l', s) ∧
      l'.map (·.genes) = l.map (·.genes) ∧ l'.map (·.head.fitness) = l.map (·.head.fitness) := by
  obtain ⟨l', r', h1, h2, -⟩ := C267_population (vecPrint ff fa) (vecRead ff fa) SameVec dflt l
    (fun x hx => C267_vector ff fa x (h x hx).1 (h x hx).2) old (popPrint (vecPrint ff fa) l) [] sep_nil (by simp)
  refine ⟨l', _, h1, ?_⟩
  clear h1 h
  induction h2 with
  | nil => exact ⟨rfl, rfl⟩
  | cons h _ ih => exact ⟨by simp [h.1, ih.1], by simp [h.2, ih.2]⟩

/-- A fitness that is written as several words: the first goes to the fitness, the second is taken for the number of
genes, and the genes are looked for behind it. -/
theorem C267_words (ff : FitFmt F) (fa : Fmt A) (x old : Vec F A) (w t : Text) (k : Nat) (v : F)
    (hx : x.head.invalid = false) (ho : ff.out x.head.rep = w ++ ' ' :: (State.showNat k ++ ' ' :: t))
    (hw : Word w) (hi : w ≠ txt "INVALID") (hr : ff.rd w old.head.rep = .ok v) (more : Text) :
    vecRead ff fa old (Str.of (vecPrint ff fa x ++ more)) =
      (match readAtoms fa k ⟨' ' :: (t ++ [' ', ' '] ++ State.showNat x.genes.length ++ [' '] ++
          atomsPrint fa x.genes ++ more), true⟩ with
        | .error e => .error e
        | .ok (l, s) => .ok (⟨⟨v, false⟩, l⟩, s)) := by
  generalize hrest : t ++ [' ', ' '] ++ State.showNat x.genes.length ++ [' '] ++ atomsPrint fa x.genes ++ more = rest
  have hp : vecPrint ff fa x ++ more = w ++ ' ' :: (State.showNat k ++ ' ' :: rest) := by
    simp [vecPrint, eoPrint, hx, ho, ← hrest]
  rw [hp]
  have h1 : getWord (Str.of (w ++ ' ' :: (State.showNat k ++ ' ' :: rest))) =
      (w, ⟨' ' :: (State.showNat k ++ ' ' :: rest), true⟩) := getWord_word hw (sep_cons blank _) rfl
  have h2 : get natFmt ⟨' ' :: (State.showNat k ++ ' ' :: rest), true⟩ = (some k, ⟨' ' :: rest, true⟩) :=
    get_good (nat_good _) (sep_cons blank _) (by rw [skip_cons blank]; rfl)
  rw [vecRead, eoRead, h1]
  simp only [if_neg hi, hr]
  rw [sizedRead, h2]
  rfl

/-- An evaluated individual with a dual fitness cannot be read back: the feasibility is read from a text that holds the
value only, and is then used although nothing was stored. -/
theorem C267_dual {V : Type} (fv : Fmt V) (x old : Head (Dual V)) (hx : x.invalid = false)
    (hg : Good fv x.rep.value) (hi : fv.out x.rep.value ≠ txt "INVALID") (more : Text) :
    eoRead (dualFmt fv) old (Str.of (eoPrint (dualFmt fv) x ++ more)) = .error .ub := by
  have hw := getWord_word (w := fv.out x.rep.value) (s := eoPrint (dualFmt fv) x ++ more)
    (r := ' ' :: ((if x.rep.init then (if x.rep.feasible then ['1'] else ['0']) else ['?']) ++ ' ' :: more)) hg.1
    (sep_cons blank _) (by simp [eoPrint, hx, dualFmt, dualOut])
  have h1 : get fv (Str.of (fv.out x.rep.value)) = (some x.rep.value, ⟨[], true⟩) :=
    get_good hg sep_nil (by simp)
  have h2 : get natFmt ⟨[], true⟩ = (none, ⟨[], false⟩) := rfl
  rw [eoRead]
  rw [Str.of, hw]
  simp only [if_neg hi, dualFmt, dualRd, h1, h2]

/-- A dual fitness whose feasibility was set is read back from a stream of its own. -/
theorem C267_dual_alone {V : Type} (fv : Fmt V) (f old : Dual V) (hf : f.init = true) (hg : Good fv f.value) :
    dualRd fv (dualOut fv f) old = .ok f := by
  obtain ⟨v, b, i⟩ := f
  obtain rfl : i = true := hf
  have ho : dualOut fv ⟨v, b, true⟩ = fv.out v ++ ' ' :: State.showNat (if b then 1 else 0) := by
    cases b <;> simp [dualOut] <;> decide +kernel
  have h1 : get fv (Str.of (dualOut fv ⟨v, b, true⟩)) = (some v, ⟨' ' :: State.showNat (if b then 1 else 0), true⟩) := by
    rw [ho]; exact get_good hg (sep_cons blank _) rfl
  have h2 : get natFmt ⟨' ' :: State.showNat (if b then 1 else 0), true⟩ = (some (if b then 1 else 0), ⟨[], true⟩) :=
    get_good (nat_good _) sep_nil (by rw [skip_cons blank]; simp [natFmt])
  rw [dualRd, h1]
  simp only [h2]
  cases b <;> rfl

/-! ### C268 -/

/-- A bit string that is not empty is read as it was written. -/
theorem C268_bits (ff : FitFmt F) (x : Vec F Bool) (hf : HeadGood ff x.head) (hx : x.genes ≠ []) :
    Restores (bitPrint ff) (bitRead ff) SameVec x := by
  intro old s r hr hs
  obtain ⟨h, h1, h2⟩ := eoRead_print ff x.head old.head hf s
    ([' '] ++ State.showNat x.genes.length ++ [' '] ++ bitsOut x.genes ++ r) (by rw [hs]; simp [bitPrint])
  have h3 := bitsRead_print old.genes x.genes hx x.genes.length
    (' ' :: ([' '] ++ State.showNat x.genes.length ++ [' '] ++ bitsOut x.genes ++ r)) r hr (by
      rw [skip_cons blank]
      simp only [List.append_assoc, List.cons_append, List.nil_append]
      rw [skip_cons blank])
  refine ⟨⟨h, x.genes⟩, r, ?_, ⟨rfl, h2⟩, rfl⟩
  rw [bitRead, h1]
  simp only [h3]

/-- An empty bit string takes the next word of the stream for its bits. -/
theorem C268_empty (ff : FitFmt F) (x old : Vec F Bool) (hf : HeadGood ff x.head) (hx : x.genes = []) (w r : Text)
    (hw : Word w) (hr : Sep r) :
    ∃ y, bitRead ff old (Str.of (bitPrint ff x ++ '\n' :: (w ++ r))) = .ok (y, ⟨r, true⟩) ∧
      y.genes = w.map fun c => decide (c = '1') := by
  obtain ⟨h, h1, -⟩ := eoRead_print ff x.head old.head hf (bitPrint ff x ++ '\n' :: (w ++ r))
    ([' '] ++ State.showNat x.genes.length ++ [' '] ++ '\n' :: (w ++ r)) (by simp [bitPrint, hx, bitsOut])
  have h2 : get natFmt ⟨' ' :: ([' '] ++ State.showNat x.genes.length ++ [' '] ++ '\n' :: (w ++ r)), true⟩ =
      (some x.genes.length, ⟨' ' :: '\n' :: (w ++ r), true⟩) :=
    get_good (nat_good _) (sep_cons blank _) (by
      rw [skip_cons blank]
      simp only [List.append_assoc, List.cons_append, List.nil_append]
      rw [skip_cons blank]; rfl)
  have h3 : getWord ⟨' ' :: '\n' :: (w ++ r), true⟩ = (w, ⟨r, true⟩) :=
    getWord_word hw hr (by rw [skip_cons blank, skip_cons (by decide)])
  refine ⟨⟨h, bitsIn w⟩, ?_, rfl⟩
  rw [bitRead, Str.of, h1]
  simp only [bitsRead, h2, h3, if_true]

/-- Exactly the bit strings that are not empty can be read from anything that is written behind them. -/
theorem C268_iff (ff : FitFmt F) (x : Vec F Bool) (hf : HeadGood ff x.head) :
    Restores (bitPrint ff) (bitRead ff) SameVec x ↔ x.genes ≠ [] := by
  refine ⟨fun h hx => ?_, C268_bits ff x hf⟩
  obtain ⟨y, r', h1, h2, -⟩ := h x (bitPrint ff x ++ '\n' :: (['1'] ++ [])) ('\n' :: (['1'] ++ []))
    (sep_cons (by decide) _) rfl
  obtain ⟨z, h3, h4⟩ := C268_empty ff x x hf hx ['1'] [] ⟨by simp, by decide⟩ sep_nil
  rw [Str.of, h1] at h3
  rw [Except.ok.injEq, Prod.mk.injEq] at h3
  rw [← h3.1, h2.1, hx] at h4
  simp at h4

/-- A population of bit strings, none empty, saved and loaded. -/
theorem C268_saved (ff : FitFmt F) (dflt : Vec F Bool) (old l : List (Vec F Bool))
    (h : ∀ x ∈ l, HeadGood ff x.head ∧ x.genes ≠ []) :
    ∃ l' s, popRead (bitRead ff) dflt old (Str.of (popPrint (bitPrint ff) l)) = .ok (l', s) ∧
      l'.map (·.genes) = l.map (·.genes) ∧ l'.map (·.head.fitness) = l.map (·.head.fitness) := by
  obtain ⟨l', r', h1, h2, -⟩ := C267_population (bitPrint ff) (bitRead ff) SameVec dflt l
    (fun x hx => C268_bits ff x (h x hx).1 (h x hx).2) old (popPrint (bitPrint ff) l) [] sep_nil (by simp)
  refine ⟨l', _, h1, ?_⟩
  clear h1 h
  induction h2 with
  | nil => exact ⟨rfl, rfl⟩
  | cons h _ ih => exact ⟨by simp [h.1, ih.1], by simp [h.2, ih.2]⟩

/-- Natural numbers as fitness. -/
def natFit : FitFmt Nat where
  out := State.showNat
  rd w old := .ok ((get natFmt (Str.of w)).1.getD old)

/-- Two individuals not evaluated, the first empty: what is read is an individual of seven bits and one that is
empty, evaluated, of fitness 1. -/
theorem C268_mixed :
    popRead (bitRead natFit) ⟨⟨0, true⟩, []⟩ [] (Str.of (popPrint (bitPrint natFit) [⟨⟨0, true⟩, []⟩, ⟨⟨0, true⟩, [true]⟩])) =
      .ok ([⟨⟨0, true⟩, List.replicate 7 false⟩, ⟨⟨1, false⟩, []⟩], ⟨[], false⟩) := by
  decide +kernel

/-! ### C269 -/

/-- Nothing can be read any more. -/
def Over (s : Str) : Prop := s.ok = false ∨ skipWs s.rest = []

theorem getWord_over {s : Str} (h : Over s) : ∃ t, getWord s = ([], ⟨t, false⟩) := by
  unfold getWord
  rcases h with h | h
  · rw [if_neg (by simp [h])]
    exact ⟨s.rest, by rw [← h]⟩
  · split
    · simp only [h]
      exact ⟨_, rfl⟩
    · obtain ⟨t, o⟩ := s
      exact ⟨t, by cases o <;> simp_all⟩

theorem get_failed {V : Type} (f : Fmt V) (t : Text) : get f ⟨t, false⟩ = (none, ⟨t, false⟩) := by
  simp [get]

theorem get_over {V : Type} (f : Fmt V) {s : Str} (h : Over s) : ∃ t, get f s = (none, ⟨t, false⟩) := by
  unfold get
  rcases h with h | h
  · rw [if_neg (by simp [h])]
    exact ⟨s.rest, by rw [← h]⟩
  · split
    · simp only [h]
      exact ⟨_, rfl⟩
    · obtain ⟨t, o⟩ := s
      exact ⟨t, by cases o <;> simp_all⟩

/-- An individual read from a stream that is over counts as evaluated afterwards, with the fitness value it had. -/
theorem C269_evaluated (ff : FitFmt F) (x : Head F) (s : Str) (hs : Over s) (hrd : ff.rd [] x.rep = .ok x.rep) :
    ∃ y s', eoRead ff x s = .ok (y, s') ∧ y.fitness = some x.rep := by
  obtain ⟨t, ht⟩ := getWord_over hs
  refine ⟨⟨x.rep, false⟩, ⟨t, false⟩, ?_, rfl⟩
  rw [eoRead, ht]
  simp only [if_neg (show ([] : Text) ≠ txt "INVALID" by decide), hrd]

/-- A vector cannot be read from a stream that is over: its size is what the memory held. -/
theorem C269_vector (ff : FitFmt F) (fa : Fmt A) (x : Vec F A) (s : Str) (hs : Over s) (v : F)
    (hrd : ff.rd [] x.head.rep = .ok v) : vecRead ff fa x s = .error .ub := by
  obtain ⟨t, ht⟩ := getWord_over hs
  rw [vecRead, eoRead, ht]
  simp only [if_neg (show ([] : Text) ≠ txt "INVALID" by decide), hrd]
  rw [sizedRead, get_failed]

/-- Nor can a population. -/
theorem C269_population {X : Type} (rd : X → Str → Except Err (X × Str)) (dflt : X) (l : List X) (s : Str)
    (hs : Over s) : popRead rd dflt l s = .error .ub := by
  obtain ⟨t, ht⟩ := get_over natFmt hs
  rw [popRead, ht]

theorem bitRead_over (ff : FitFmt F) (x : Vec F Bool) (s : Str) (hs : Over s)
    (hrd : ff.rd [] x.head.rep = .ok x.head.rep) :
    ∃ t, bitRead ff x s = .ok (⟨⟨x.head.rep, false⟩, x.genes⟩, ⟨t, false⟩) := by
  obtain ⟨t, ht⟩ := getWord_over hs
  refine ⟨t, ?_⟩
  rw [bitRead, eoRead, ht]
  simp only [if_neg (show ([] : Text) ≠ txt "INVALID" by decide), hrd]
  have h1 := get_failed natFmt t
  have h2 : getWord ⟨t, false⟩ = ([], ⟨t, false⟩) := rfl
  simp only [bitsRead, h1, h2]
  simp

theorem readEach_over (ff : FitFmt F) : ∀ (l : List (Vec F Bool)) (s : Str), Over s →
    (∀ x ∈ l, ff.rd [] x.head.rep = .ok x.head.rep) →
    ∃ s', readEach (bitRead ff) l s = .ok (l.map fun x => ⟨⟨x.head.rep, false⟩, x.genes⟩, s')
  | [], s, _, _ => ⟨s, rfl⟩
  | x :: l, s, hs, h => by
    obtain ⟨t, h1⟩ := bitRead_over ff x s hs (h x (by simp))
    obtain ⟨s', h2⟩ := readEach_over ff l ⟨t, false⟩ (.inl rfl) (fun y hy => h y (by simp [hy]))
    refine ⟨s', ?_⟩
    rw [readEach, h1]
    simp only [h2, List.map_cons]

theorem readEach_append {X : Type} (rd : X → Str → Except Err (X × Str)) : ∀ (l m : List X) (s s1 s2 : Str)
    (ys zs : List X), readEach rd l s = .ok (ys, s1) → readEach rd m s1 = .ok (zs, s2) →
    readEach rd (l ++ m) s = .ok (ys ++ zs, s2)
  | [], m, s, s1, s2, ys, zs, h1, h2 => by
    rw [readEach, Except.ok.injEq, Prod.mk.injEq] at h1
    rw [← h1.1, h1.2]
    exact h2
  | x :: l, m, s, s1, s2, ys, zs, h1, h2 => by
    rw [readEach] at h1
    rw [List.cons_append, readEach]
    cases hx : rd x s with
    | error e => rw [hx] at h1; cases h1
    | ok p =>
      obtain ⟨y, t⟩ := p
      rw [hx] at h1
      simp only at h1 ⊢
      cases hl : readEach rd l t with
      | error e => rw [hl] at h1; cases h1
      | ok q =>
        obtain ⟨ws, t2⟩ := q
        rw [hl] at h1
        simp only [Except.ok.injEq, Prod.mk.injEq] at h1
        rw [readEach_append rd l m t t2 s2 ws zs hl (by rw [h1.2]; exact h2)]
        simp [← h1.1]

/-- A file that breaks off: it announces `l.length + k` bit strings and holds those of `l`.  The load succeeds; the `k`
that are missing are as new ones, but evaluated. -/
theorem C269_truncated (ff : FitFmt F) (dflt : Vec F Bool) (l : List (Vec F Bool)) (k : Nat)
    (h : ∀ x ∈ l, HeadGood ff x.head ∧ x.genes ≠ []) (hrd : ff.rd [] dflt.head.rep = .ok dflt.head.rep) :
    ∃ l' s, popRead (bitRead ff) dflt []
        (Str.of (State.showNat (l.length + k) ++ '\n' :: l.flatMap fun x => bitPrint ff x ++ ['\n'])) = .ok (l' ++
          List.replicate k ⟨⟨dflt.head.rep, false⟩, dflt.genes⟩, s) ∧
      l'.map (·.genes) = l.map (·.genes) ∧ l'.map (·.head.fitness) = l.map (·.head.fitness) := by
  have h1 : get natFmt (Str.of (State.showNat (l.length + k) ++ '\n' :: l.flatMap fun x => bitPrint ff x ++ ['\n'])) =
      (some (l.length + k), ⟨'\n' :: l.flatMap fun x => bitPrint ff x ++ ['\n'], true⟩) :=
    get_good (nat_good _) (sep_cons (by decide) _) rfl
  obtain ⟨ys, r', h2, h3, h4⟩ := readEach_print (bitPrint ff) (bitRead ff) SameVec l
    (List.replicate l.length dflt) (by simp) (fun x hx => C268_bits ff x (h x hx).1 (h x hx).2)
    ('\n' :: l.flatMap fun x => bitPrint ff x ++ ['\n']) [] (by rw [skip_cons (by decide), List.append_nil])
  obtain ⟨s', h5⟩ := readEach_over ff (List.replicate k dflt) ⟨r', true⟩ (.inr h4)
    (fun x hx => by rw [List.eq_of_mem_replicate hx]; exact hrd)
  refine ⟨ys, s', ?_, ?_⟩
  · rw [popRead, h1]
    simp only
    have hres : resize dflt (l.length + k) [] = List.replicate l.length dflt ++ List.replicate k dflt := by
      rw [resize, List.take_nil, List.nil_append, List.length_nil, Nat.sub_zero, List.replicate_add]
    rw [hres]
    rw [List.map_replicate] at h5
    exact readEach_append _ _ _ _ _ _ _ _ h2 h5
  · clear h1 h2 h4 h5 h
    induction h3 with
    | nil => exact ⟨rfl, rfl⟩
    | cons h _ ih => exact ⟨by simp [h.1, ih.1], by simp [h.2, ih.2]⟩

/-! ### C270 -/

/-- Individuals with one deviation. -/
theorem C270_simple (ff : FitFmt F) (fa : Fmt A) (x : Vec F A × A) (hf : HeadGood ff x.1.head)
    (hg : ∀ a ∈ x.1.genes, Good fa a) (hd : Good fa x.2) :
    Restores (simplePrint ff fa) (simpleRead ff fa) (fun x y => SameVec x.1 y.1 ∧ y.2 = x.2) x := by
  intro old s r hr hs
  obtain ⟨y, r1, h1, h2, h3⟩ := C267_vector ff fa x.1 hf hg old.1 s (' ' :: (fa.out x.2 ++ ' ' :: r))
    (sep_cons blank _) (by rw [hs]; simp [simplePrint])
  rw [skip_cons blank] at h3
  have h4 := get_good hd (sep_cons blank r) h3
  refine ⟨(y, x.2), ' ' :: r, ?_, ⟨h2, rfl⟩, skip_cons blank _⟩
  rw [simpleRead, h1]
  simp only [h4, Option.getD_some]

/-- Individuals with one deviation per gene. -/
theorem C270_stdev (ff : FitFmt F) (fa : Fmt A) (x : Es F A) (hf : HeadGood ff x.vec.head)
    (hg : ∀ a ∈ x.vec.genes, Good fa a) (hd : ∀ a ∈ x.stdevs, Good fa a) (hl : x.stdevs.length = x.vec.genes.length) :
    Restores (stdevPrint ff fa) (stdevRead ff fa) (fun x y => SameVec x.vec y.vec ∧ y.stdevs = x.stdevs) x := by
  intro old s r hr hs
  obtain ⟨y, r1, h1, h2, h3⟩ := C267_vector ff fa x.vec hf hg old.vec s (' ' :: (atomsPrint fa x.stdevs ++ ' ' :: r))
    (sep_cons blank _) (by rw [hs]; simp [stdevPrint])
  rw [skip_cons blank] at h3
  obtain ⟨r2, h4, h5⟩ := readInto_print fa x.stdevs (resize fa.zero y.genes.length old.stdevs) hd
    (by rw [length_resize, h2.1, hl]) r1 (' ' :: r) h3
  refine ⟨{ old with vec := y, stdevs := x.stdevs }, r2, ?_, ⟨h2, rfl⟩, by rw [h5, skip_cons blank]⟩
  rw [stdevRead, h1]
  simp only [h4]

/-- Individuals with deviations and correlations. -/
theorem C270_full (ff : FitFmt F) (fa : Fmt A) (x : Es F A) (hf : HeadGood ff x.vec.head)
    (hg : ∀ a ∈ x.vec.genes, Good fa a) (hd : ∀ a ∈ x.stdevs, Good fa a) (hc : ∀ a ∈ x.corr, Good fa a)
    (hl : x.stdevs.length = x.vec.genes.length)
    (hm : x.corr.length = x.vec.genes.length * (x.vec.genes.length - 1) / 2) :
    Restores (fullPrint ff fa) (fullRead ff fa)
      (fun x y => SameVec x.vec y.vec ∧ y.stdevs = x.stdevs ∧ y.corr = x.corr) x := by
  intro old s r hr hs
  obtain ⟨y, r1, h1, h2, h3⟩ := C267_vector ff fa x.vec hf hg old.vec s
    (' ' :: (atomsPrint fa x.stdevs ++ ' ' :: (atomsPrint fa x.corr ++ ' ' :: r)))
    (sep_cons blank _) (by rw [hs]; simp [fullPrint, stdevPrint])
  rw [skip_cons blank] at h3
  obtain ⟨r2, h4, h5⟩ := readInto_print fa x.stdevs (resize fa.zero y.genes.length old.stdevs) hd
    (by rw [length_resize, h2.1, hl]) r1 _ h3
  rw [skip_cons blank] at h5
  have hlen : (resize fa.zero (y.genes.length * (y.genes.length - 1) / 2) old.corr).length = x.corr.length := by
    rw [length_resize, h2.1, hm]
  obtain ⟨r3, h6, h7⟩ := readInto_print fa x.corr _ hc hlen r2 (' ' :: r) h5
  refine ⟨{ old with vec := y, stdevs := x.stdevs, corr := x.corr }, r3, ?_, ⟨h2, rfl, rfl⟩,
    by rw [h7, skip_cons blank]⟩
  rw [fullRead, stdevRead, h1]
  simp only [h4, h6]

/-- With more deviations than genes the next individual begins in the middle: of two individuals not evaluated, the
second is read as evaluated, with the deviation left over as its fitness and no genes. -/
theorem C270_mismatch :
    popRead (stdevRead natFit natFmt) ⟨⟨⟨0, true⟩, []⟩, [], []⟩ [] (Str.of (popPrint (stdevPrint natFit natFmt)
        [⟨⟨⟨0, true⟩, [5]⟩, [3, 4], []⟩, ⟨⟨⟨0, true⟩, [6]⟩, [7], []⟩])) =
      .ok ([⟨⟨⟨0, true⟩, [5]⟩, [3], []⟩, ⟨⟨⟨4, false⟩, []⟩, [], []⟩], ⟨"INVALID  1 6  7  \n".toList, false⟩) := by
  decide +kernel

/-! ### Cases -/

theorem natFit_good (n : Nat) : FGood natFit n := by
  obtain ⟨h1, h2, -⟩ := MathSym.showNat_spec n
  refine ⟨(nat_good n).1, ?_, fun old => ?_⟩
  · intro h
    have h3 := h2 'I' (by
      have : State.showNat n = txt "INVALID" := h
      rw [this]; decide)
    revert h3; decide
  · have : get natFmt (Str.of (State.showNat n)) = (some n, ⟨[], true⟩) :=
      get_good (nat_good n) sep_nil (by simp [natFmt])
    simp [natFit, this]

example (l : List (Vec Nat Nat)) : ∀ x ∈ l, HeadGood natFit x.head ∧ ∀ a ∈ x.genes, Good natFmt a :=
  fun _ _ => ⟨fun _ => natFit_good _, fun a _ => nat_good a⟩

example : natFit.rd [] 7 = .ok 7 := by decide +kernel

example : vecPrint natFit natFmt ⟨⟨12, false⟩, [3, 40]⟩ = "12  2 3 40 ".toList := by decide +kernel

example : bitPrint natFit ⟨⟨0, true⟩, [true, false]⟩ = "INVALID  2 10".toList := by decide +kernel

example : eoRead (dualFmt natFmt) ⟨⟨0, false, false⟩, true⟩ (Str.of "3 1  2 10".toList) = .error .ub := by decide +kernel

end Paradiseo.Persist
