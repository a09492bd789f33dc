import Verif.Props.Persist
import Mathlib.Data.Rat.Encodable
/-
C271 - C274: representations that are not read as they are written; multi-objective individuals; partitions; numbers
of individuals.
-/
namespace Paradiseo.Persist

open Paradiseo.EO Paradiseo.Param

variable {F A V : Type}

/-! ### C271 -/

theorem bits_word {l : List Bool} (hl : l ≠ []) : Word (bitsOut l) := by
  refine ⟨by simpa [bitsOut] using hl, ?_⟩
  intro c hc
  obtain ⟨b, -, rfl⟩ := List.mem_map.1 hc
  cases b <;> decide

theorem bitsIn_out (l : List Bool) : bitsIn (bitsOut l) = l := by
  simp only [bitsIn, bitsOut, List.map_map]
  conv_rhs => rw [← List.map_id l]
  apply List.map_congr_left
  intro b _
  cases b <;> rfl

theorem bitsIn_append (u v : Text) : bitsIn (u ++ v) = bitsIn u ++ bitsIn v := by simp [bitsIn]

/-- Reading a bit string when more characters follow its bits without a blank. -/
theorem bitRead_glued (ff : FitFmt F) (x old : Vec F Bool) (hf : HeadGood ff x.head) (hx : x.genes ≠ []) (u r : Text)
    (hu : ∀ c ∈ u, isWs c = false) (hr : Sep r) :
    ∃ h, bitRead ff old (Str.of (bitPrint ff x ++ u ++ r)) = .ok (⟨h, x.genes ++ bitsIn u⟩, ⟨r, true⟩) ∧
      h.fitness = x.head.fitness := by
  obtain ⟨h, h1, h2⟩ := eoRead_print ff x.head old.head hf (bitPrint ff x ++ u ++ r)
    ([' '] ++ State.showNat x.genes.length ++ [' '] ++ bitsOut x.genes ++ u ++ r) (by simp [bitPrint])
  have h3 : get natFmt ⟨' ' :: ([' '] ++ State.showNat x.genes.length ++ [' '] ++ bitsOut x.genes ++ u ++ r), true⟩ =
      (some x.genes.length, ⟨' ' :: (bitsOut x.genes ++ u ++ r), true⟩) :=
    get_good (nat_good _) (sep_cons blank _) (by
      rw [skip_cons blank]
      simp only [List.append_assoc, List.cons_append, List.nil_append]
      rw [skip_cons blank]; rfl)
  have hw : Word (bitsOut x.genes ++ u) := by
    refine ⟨by simp [(bits_word hx).1], ?_⟩
    intro c hc
    rcases List.mem_append.1 hc with hc | hc
    · exact (bits_word hx).2 c hc
    · exact hu c hc
  have h4 := getWord_word hw hr (skip_cons blank (bitsOut x.genes ++ u ++ r))
  refine ⟨h, ?_, h2⟩
  rw [bitRead, Str.of, h1]
  simp only [bitsRead, h3, h4, if_true, bitsIn_append, bitsIn_out]

theorem bitsRead_end (old : List Bool) (l : List Bool) (w : Text) (hw : skipWs w = bitsOut l) :
    (bitsRead old ⟨w, true⟩).1 = old := by
  have hover : Over (get natFmt ⟨w, true⟩).2 := by
    by_cases hl : l = []
    · subst hl
      obtain ⟨t, ht⟩ := get_over natFmt (s := ⟨w, true⟩) (.inr hw)
      rw [ht]
      exact .inl rfl
    · have hd : ∀ c ∈ bitsOut l, c.isDigit = true := by
        intro c hc
        obtain ⟨b, -, rfl⟩ := List.mem_map.1 hc
        cases b <;> decide
      have hne : bitsOut l ≠ [] := (bits_word hl).1
      unfold get
      simp only [if_true, hw]
      cases hb : bitsOut l with
      | nil => exact absurd hb hne
      | cons c t =>
        have e1 : (c :: t).dropWhile isWs = c :: t := by
          rw [List.dropWhile_cons, if_neg (by rw [digit_not_ws (hd c (by rw [hb]; simp))]; simp)]
        have e2 : (c :: t).takeWhile (·.isDigit) = c :: t :=
          MathSym.takeWhile_all (fun d hdm => hd d (by rw [hb]; exact hdm))
        have e3 : readNat (c :: t) = some ((c :: t).foldl (fun a c => 10 * a + (c.toNat - 48)) 0, []) := by
          unfold readNat
          simp only [e1, e2]
          simp
        simp only [natFmt, e3]
        exact .inr rfl
  obtain ⟨t, ht⟩ := getWord_over hover
  simp only [bitsRead, ht]
  simp

/-- A virus written to a file: its genes and the second vector come back as one bit string; the second vector keeps
what it held. -/
theorem C271_virus (ff : FitFmt F) (x old : Virus F) (hf : HeadGood ff x.bits.head) (hx : x.bits.genes ≠ []) :
    ∃ y s, virusRead ff old (Str.of (virusPrint ff false x)) = .ok (y, s) ∧
      y.bits.genes = x.bits.genes ++ x.virus ∧ y.virus = old.virus := by
  obtain ⟨h, h1, h2⟩ := bitRead_glued ff x.bits old.bits hf hx (bitsOut x.virus) []
    (by intro c hc
        obtain ⟨b, -, rfl⟩ := List.mem_map.1 hc
        cases b <;> decide) sep_nil
  have hp : virusPrint ff false x = bitPrint ff x.bits ++ bitsOut x.virus ++ [] := by simp [virusPrint]
  have h3 := bitsRead_end old.virus [] [] rfl
  refine ⟨⟨⟨h, x.bits.genes ++ x.virus⟩, old.virus⟩, (bitsRead old.virus ⟨[], true⟩).2, ?_, rfl, rfl⟩
  rw [virusRead, hp, h1]
  simp only [h3, bitsIn_out]

/-- Written to the standard output the genes can be read, the second vector cannot. -/
theorem C271_virus_cout (ff : FitFmt F) (x old : Virus F) (hf : HeadGood ff x.bits.head) (hx : x.bits.genes ≠ []) :
    ∃ y s, virusRead ff old (Str.of (virusPrint ff true x)) = .ok (y, s) ∧
      SameVec x.bits y.bits ∧ y.virus = old.virus := by
  obtain ⟨y, r, h1, h2, h3⟩ := C268_bits ff x.bits hf hx old.bits (virusPrint ff true x) ('\n' :: bitsOut x.virus)
    (sep_cons (by decide) _) (by simp [virusPrint])
  have hsk : skipWs r = bitsOut x.virus := by
    rw [h3, skip_cons (by decide)]
    by_cases hv : x.virus = []
    · rw [hv]; rfl
    · have := skip_word (bits_word hv) []
      rwa [List.append_nil] at this
  refine ⟨⟨y, old.virus⟩, (bitsRead old.virus ⟨r, true⟩).2, ?_, h2, rfl⟩
  rw [virusRead, Str.of, h1]
  simp only [bitsRead_end old.virus x.virus r hsk]

/-- The age of a vector is read. -/
theorem C271_aged_vector (ff : FitFmt F) (fa : Fmt A) (x : Vec F A × Nat) (hf : HeadGood ff x.1.head)
    (hg : ∀ a ∈ x.1.genes, Good fa a) :
    Restores (agedPrint (vecPrint ff fa)) (agedRead (vecRead ff fa)) (fun x y => SameVec x.1 y.1 ∧ y.2 = x.2) x := by
  intro old s r hr hs
  obtain ⟨y, r1, h1, h2, h3⟩ := vec_any ff fa x.1 old.1 hf hg s (State.showNat x.2 ++ r) (by
    rw [hs]; simp [agedPrint])
  have h4 : get natFmt ⟨r1, true⟩ = (some x.2, ⟨r, true⟩) := get_good (nat_good _) hr h3
  refine ⟨(y, x.2), r, ?_, ⟨h2, rfl⟩, rfl⟩
  rw [agedRead, h1]
  simp only [h4, Option.getD_some]

/-- The age of a bit string becomes bits: one more for every digit. -/
theorem C271_aged_bits (ff : FitFmt F) (x old : Vec F Bool × Nat) (hf : HeadGood ff x.1.head) (hx : x.1.genes ≠ []) :
    ∃ y s, agedRead (bitRead ff) old (Str.of (agedPrint (bitPrint ff) x)) = .ok (y, s) ∧
      y.1.genes = x.1.genes ++ (State.showNat x.2).map (fun c => decide (c = '1')) ∧
      x.1.genes.length < y.1.genes.length ∧ y.2 = old.2 := by
  obtain ⟨hn, hd, -⟩ := MathSym.showNat_spec x.2
  obtain ⟨h, h1, h2⟩ := bitRead_glued ff x.1 old.1 hf hx (State.showNat x.2) []
    (fun c hc => digit_not_ws (hd c hc)) sep_nil
  rw [List.append_nil] at h1
  have h3 : get natFmt ⟨[], true⟩ = (none, ⟨[], false⟩) := rfl
  refine ⟨(⟨h, x.1.genes ++ bitsIn (State.showNat x.2)⟩, old.2), ⟨[], false⟩, ?_, rfl, ?_, rfl⟩
  · rw [agedRead]
    rw [agedPrint, h1]
    simp only [h3, Option.getD_none]
  · have := List.length_pos_of_ne_nil hn
    simp only [List.length_append, bitsIn, List.length_map]
    omega

/-- Of a string only the fitness is read. -/
theorem C271_string (ff : FitFmt F) (x old : Vec F Char) (hf : HeadGood ff x.head) :
    ∃ y s, stringRead ff old (Str.of (stringPrint ff x)) = .ok (y, s) ∧ y.head.fitness = x.head.fitness ∧
      y.genes = old.genes := by
  obtain ⟨h, h1, h2⟩ := eoRead_print ff x.head old.head hf (stringPrint ff x)
    ([' '] ++ State.showNat x.genes.length ++ [' '] ++ x.genes ++ ['\n']) (by simp [stringPrint])
  refine ⟨⟨h, old.genes⟩,
    ⟨' ' :: ([' '] ++ State.showNat x.genes.length ++ [' '] ++ x.genes ++ ['\n']), true⟩, ?_, h2, rfl⟩
  rw [stringRead, Str.of, h1]

/-- Of two strings in a population both come back empty, and the second with the length of the first as its fitness,
whether it had one or not. -/
theorem C271_strings (ff : FitFmt F) (rep v : F) (x y : Vec F Char) (hf : HeadGood ff x.head)
    (hv : ff.rd (State.showNat x.genes.length) rep = .ok v) :
    ∃ x' y' s, popRead (stringRead ff) ⟨⟨rep, true⟩, []⟩ [] (Str.of (popPrint (stringPrint ff) [x, y])) =
        .ok ([x', y'], s) ∧
      x'.head.fitness = x.head.fitness ∧ y'.head.fitness = some v ∧ x'.genes = [] ∧ y'.genes = [] := by
  generalize ht : ['\n'] ++ (stringPrint ff y ++ ['\n']) = tail
  have h0 : get natFmt (Str.of (popPrint (stringPrint ff) [x, y])) =
      (some 2, ⟨'\n' :: (stringPrint ff x ++ tail), true⟩) :=
    get_good (nat_good 2) (sep_cons (by decide) _) (by simp [popPrint, natFmt, ← ht])
  obtain ⟨h, h1, h2⟩ := eoRead_print ff x.head ⟨rep, true⟩ hf ('\n' :: (stringPrint ff x ++ tail))
    ([' '] ++ State.showNat x.genes.length ++ ' ' :: (x.genes ++ '\n' :: tail)) (by
      rw [skip_cons (by decide)]; simp [stringPrint])
  obtain ⟨hn, hd, -⟩ := MathSym.showNat_spec x.genes.length
  have h3 : getWord ⟨' ' :: ([' '] ++ State.showNat x.genes.length ++ ' ' :: (x.genes ++ '\n' :: tail)), true⟩ =
      (State.showNat x.genes.length, ⟨' ' :: (x.genes ++ '\n' :: tail), true⟩) :=
    getWord_word ⟨hn, fun c hc => digit_not_ws (hd c hc)⟩ (sep_cons blank _) (by
      rw [skip_cons blank]
      simp only [List.append_assoc, List.cons_append, List.nil_append]
      rw [skip_cons blank])
  have h4 : State.showNat x.genes.length ≠ txt "INVALID" := (natFit_good x.genes.length).2.1
  refine ⟨⟨h, []⟩, ⟨⟨v, false⟩, []⟩, ⟨' ' :: (x.genes ++ '\n' :: tail), true⟩, ?_, h2, rfl, rfl, rfl⟩
  rw [popRead, h0]
  have hres : resize (⟨⟨rep, true⟩, []⟩ : Vec F Char) 2 [] = [⟨⟨rep, true⟩, []⟩, ⟨⟨rep, true⟩, []⟩] := rfl
  simp only [hres, readEach, stringRead, h1]
  rw [eoRead, h3]
  simp only [if_neg h4, hv]

/-- Of a particle only a fitness is read: what was its best one; positions, best positions and best fitness stay. -/
theorem C271_particle (ff : Fmt F) (fa : Fmt A) (x old : Particle F A) (hg : Good ff x.best.rep)
    (hi : ff.out x.best.rep ≠ txt "INVALID") (more : Text) :
    ∃ s, particleRead ff old (Str.of (particlePrint ff fa x ++ more)) =
      (⟨⟨x.best.rep, false⟩, old.best, old.pos, old.bestPos⟩, s) := by
  generalize hr : [' '] ++ State.showNat x.pos.length ++ [' '] ++ atomsPrint fa x.bestPos ++ more = r
  have hp : particlePrint ff fa x ++ more = ff.out x.best.rep ++ ' ' :: r := by simp [particlePrint, ← hr]
  have h1 : getWord (Str.of (ff.out x.best.rep ++ ' ' :: r)) = (ff.out x.best.rep, ⟨' ' :: r, true⟩) :=
    getWord_word hg.1 (sep_cons blank _) rfl
  have h2 : get ff (Str.of (ff.out x.best.rep ++ ' ' :: r)) = (some x.best.rep, ⟨' ' :: r, true⟩) :=
    get_good hg (sep_cons blank _) rfl
  refine ⟨⟨' ' :: r, true⟩, ?_⟩
  rw [particleRead, hp, h1]
  simp only [if_neg hi, if_true, h2, Option.getD_some]

/-! ### C272 -/

/-- The objective vector, if it is valid, has the number of objectives, and its first word is not the tag. -/
def MGood (fv : Fmt V) (m : Nat) (h : MHead V) : Prop :=
  h.invalid = false → h.ov.length = m ∧ 0 < m ∧ (∀ v ∈ h.ov, Good fv v ∧ fv.out v ≠ txt "INVALID")

def SameM (x y : MVec V A) : Prop := y.genes = x.genes ∧ y.head.objectives = x.head.objectives

theorem ovOut_atoms (fv : Fmt V) : ∀ (l : List V), l ≠ [] → ovOut fv l ++ [' '] = atomsPrint fv l
  | [], h => absurd rfl h
  | [v], _ => by simp [ovOut, atomsPrint]
  | v :: w :: l, _ => by
    have ih := ovOut_atoms fv (w :: l) (by simp)
    rw [ovOut, List.append_assoc, ih]
    · simp [atomsPrint]
    · simp

theorem moeoRead_print (fv : Fmt V) (m : Nat) (x old : MHead V) (hx : MGood fv m x) (s r : Text)
    (hs : skipWs s = skipWs (moeoPrint fv x ++ ' ' :: r)) :
    ∃ h r', moeoRead fv m old ⟨s, true⟩ = (h, ⟨r', true⟩) ∧ h.objectives = x.objectives ∧ skipWs r' = skipWs r := by
  unfold moeoPrint at hs
  cases hi : x.invalid with
  | true =>
    rw [hi, if_pos rfl] at hs
    have hw := getWord_word (w := txt "INVALID") (r := ' ' :: ' ' :: r) ⟨by decide, by decide⟩ (sep_cons blank _)
      (s := s) (by rw [hs]; simp [txt])
    refine ⟨{ old with invalid := true }, ' ' :: ' ' :: r, ?_, ?_, by rw [skip_cons blank, skip_cons blank]⟩
    · rw [moeoRead, hw]
      simp
    · simp [MHead.objectives, hi]
  | false =>
    obtain ⟨h1, h2, h3⟩ := hx hi
    rw [hi, if_neg (by simp)] at hs
    have hne : x.ov ≠ [] := by intro h; rw [h] at h1; simp at h1; omega
    rw [ovOut_atoms fv x.ov hne] at hs
    obtain ⟨v, l, hv⟩ := List.exists_cons_of_ne_nil hne
    have hw : getWord ⟨s, true⟩ = (fv.out v, ⟨' ' :: (atomsPrint fv l ++ ' ' :: r), true⟩) :=
      getWord_word (h3 v (by rw [hv]; simp)).1.1 (sep_cons blank _) (by rw [hs, hv, atomsPrint_cons])
    obtain ⟨r', h4, h5⟩ := readInto_print fv x.ov (List.replicate m fv.zero) (fun a ha => (h3 a ha).1)
      (by rw [List.length_replicate, h1]) s (' ' :: r) hs
    refine ⟨{ old with ov := x.ov, invalid := false }, r', ?_, ?_, by rw [h5, skip_cons blank]⟩
    · rw [moeoRead, hw]
      simp only [if_neg (h3 v (by rw [hv]; simp)).2, if_true, h4]
    · simp [MHead.objectives, hi]

/-- Genes and objective vector of a multi-objective vector are read. -/
theorem C272_vector (fv : Fmt V) (fa : Fmt A) (m : Nat) (x : MVec V A) (hx : MGood fv m x.head)
    (hg : ∀ a ∈ x.genes, Good fa a) : Restores (mvecPrint fv fa) (mvecRead fv fa m) SameM x := by
  intro old s r _ hs
  obtain ⟨h, r1, h1, h2, h3⟩ := moeoRead_print fv m x.head old.head hx s
    (State.showNat x.genes.length ++ [' '] ++ atomsPrint fa x.genes ++ r) (by rw [hs]; simp [mvecPrint])
  obtain ⟨r', h4, h5⟩ := sizedRead_print fa x.genes hg r1 r (by rw [h3]; simp)
  refine ⟨⟨h, x.genes⟩, r', ?_, ⟨rfl, h2⟩, h5⟩
  rw [mvecRead, h1]
  simp only [h4]

/-- So are those of a bit string that is not empty. -/
theorem C272_bits (fv : Fmt V) (m : Nat) (x : MVec V Bool) (hx : MGood fv m x.head) (hn : x.genes ≠ []) :
    Restores (mbitPrint fv) (mbitRead fv m) SameM x := by
  intro old s r hr hs
  obtain ⟨h, r1, h1, h2, h3⟩ := moeoRead_print fv m x.head old.head hx s
    (State.showNat x.genes.length ++ [' '] ++ bitsOut x.genes ++ r) (by rw [hs]; simp [mbitPrint])
  have h4 := bitsRead_print old.genes x.genes hn x.genes.length r1 r hr (by rw [h3]; simp)
  refine ⟨⟨h, x.genes⟩, r, ?_, ⟨rfl, h2⟩, rfl⟩
  rw [mbitRead, h1]
  simp only [h4]

/-- Fitness and diversity are not: they stay as they were. -/
theorem C272_kept (fv : Fmt V) (m : Nat) (h : MHead V) (s : Str) :
    (moeoRead fv m h s).1.fit = h.fit ∧ (moeoRead fv m h s).1.div = h.div := by
  unfold moeoRead
  simp only
  split <;> exact ⟨rfl, rfl⟩

/-- Hence the individuals of a population loaded into a new one have neither. -/
theorem C272_population (fv : Fmt V) (fa : Fmt A) (m : Nat) : ∀ (l l' : List (MVec V A)) (s s' : Str),
    (∀ x ∈ l, x.head.fit = none ∧ x.head.div = none) → readEach (mvecRead fv fa m) l s = .ok (l', s') →
    ∀ y ∈ l', y.head.fit = none ∧ y.head.div = none
  | [], l', s, s', _, h, y, hy => by
    rw [readEach, Except.ok.injEq, Prod.mk.injEq] at h
    rw [← h.1] at hy
    cases hy
  | x :: l, l', s, s', hl, h, y, hy => by
    rw [readEach] at h
    cases hx : mvecRead fv fa m x s with
    | error e => rw [hx] at h; cases h
    | ok p =>
      obtain ⟨z, t⟩ := p
      rw [hx] at h
      simp only at h
      cases hr : readEach (mvecRead fv fa m) l t with
      | error e => rw [hr] at h; cases h
      | ok q =>
        obtain ⟨zs, t2⟩ := q
        rw [hr] at h
        simp only [Except.ok.injEq, Prod.mk.injEq] at h
        rw [← h.1] at hy
        rcases List.mem_cons.1 hy with rfl | hy
        · have hk := C272_kept fv m x.head s
          rw [mvecRead] at hx
          cases hsz : sizedRead fa (moeoRead fv m x.head s).2 with
          | error e => rw [hsz] at hx; cases hx
          | ok q =>
            rw [hsz] at hx
            simp only [Except.ok.injEq, Prod.mk.injEq] at hx
            rw [← hx.1]
            have := hl x (by simp)
            exact ⟨hk.1.trans this.1, hk.2.trans this.2⟩
        · exact C272_population fv fa m l zs t t2 (fun w hw => hl w (by simp [hw])) hr y hy

/-- Written with two objectives and read with three: the number of genes becomes the third objective. -/
theorem C272_objectives :
    mvecRead natFmt natFmt 3 ⟨⟨[0, 0, 0], true, none, none⟩, []⟩
        (Str.of (mvecPrint natFmt natFmt ⟨⟨[8, 9], false, none, none⟩, [1, 5]⟩)) =
      .ok (⟨⟨[8, 9, 2], false, none, none⟩, [5]⟩, ⟨[' '], true⟩) := by
  decide +kernel

/-! ### C273 -/

theorem foldl_insertNew [DecidableEq A] : ∀ (l init : List A), init.Nodup →
    (l.foldl insertNew init).Nodup ∧ ∀ a, a ∈ l.foldl insertNew init ↔ a ∈ init ∨ a ∈ l
  | [], init, h => ⟨h, by simp⟩
  | b :: l, init, h => by
    have h1 : (insertNew init b).Nodup ∧ ∀ a, a ∈ insertNew init b ↔ a ∈ init ∨ a = b := by
      unfold insertNew
      split
      · rename_i hb
        exact ⟨h, fun a => ⟨.inl, fun h => h.elim id (fun e => e ▸ hb)⟩⟩
      · rename_i hb
        refine ⟨List.Nodup.append h (by simp) (by simpa using hb), fun a => by simp⟩
    obtain ⟨h2, h3⟩ := foldl_insertNew l (insertNew init b) h1.1
    refine ⟨h2, fun a => ?_⟩
    rw [List.foldl_cons, h3, h1.2, List.mem_cons, or_assoc]

/-- The selected atoms are read; then the rest of the stream. -/
theorem partRead_print [DecidableEq A] (ff : FitFmt F) (fa : Fmt A) (x old : Part F A) (hf : HeadGood ff x.head)
    (hg : ∀ a ∈ x.selected, Good fa a) :
    ∃ h t, skipWs t = [] ∧ h.fitness = x.head.fitness ∧ partRead ff fa old (Str.of (partPrint ff fa x)) =
      partRest fa h x.selected.length (x.selected.foldl insertNew old.selected) old.rejected ⟨t, true⟩ := by
  obtain ⟨h, h1, h2⟩ := eoRead_print ff x.head old.head hf (partPrint ff fa x)
    ([' '] ++ State.showNat x.selected.length ++ [' ', ' '] ++ atomsPrint fa x.selected) (by simp [partPrint])
  have h3 : get natFmt ⟨' ' :: ([' '] ++ State.showNat x.selected.length ++ [' ', ' '] ++ atomsPrint fa x.selected), true⟩ =
      (some x.selected.length, ⟨' ' :: ' ' :: atomsPrint fa x.selected, true⟩) :=
    get_good (nat_good _) (sep_cons blank _) (by
      rw [skip_cons blank]
      simp only [List.append_assoc, List.cons_append, List.nil_append]
      rw [skip_cons blank]; rfl)
  obtain ⟨t, h4, h5⟩ := readAtoms_print fa x.selected hg (' ' :: ' ' :: atomsPrint fa x.selected) []
    (by rw [skip_cons blank, skip_cons blank, List.append_nil])
  refine ⟨h, t, h5, h2, ?_⟩
  rw [partRead, Str.of, h1]
  simp only [h3, h4]

/-- A partition with selected atoms cannot be read from what was written of it: the rejected ones are read from a
stream that is over. -/
theorem C273_undefined [DecidableEq A] (ff : FitFmt F) (fa : Fmt A) (x old : Part F A) (hf : HeadGood ff x.head)
    (hg : ∀ a ∈ x.selected, Good fa a) (hn : x.selected ≠ []) (hd : x.selected.Nodup) (ho : old.selected = []) :
    partRead ff fa old (Str.of (partPrint ff fa x)) = .error .ub := by
  obtain ⟨h, t, ht, -, h1⟩ := partRead_print ff fa x old hf hg
  rw [h1, ho, partRest]
  have hf2 := foldl_insertNew x.selected [] List.nodup_nil
  have hlen : (x.selected.foldl insertNew []).length = x.selected.length := by
    apply le_antisymm
    · exact (List.subperm_of_subset hf2.1 (fun a ha => by simpa using (hf2.2 a).1 ha)).length_le
    · exact (List.subperm_of_subset hd (fun a ha => (hf2.2 a).2 (.inr ha))).length_le
  rw [if_neg (by simp [hlen])]
  obtain ⟨u, hu⟩ := get_over natFmt (s := ⟨t, true⟩) (.inr ht)
  simp only [hu, Option.getD_none]
  obtain ⟨k, hk⟩ : ∃ k, x.selected.length = k + 1 := ⟨x.selected.length - 1, by
    have := List.length_pos_of_ne_nil hn
    omega⟩
  rw [hk, readAtoms, get_failed]

/-- Nothing selected: it is read, and the rejected atoms are gone. -/
theorem C273_rejected [DecidableEq A] (ff : FitFmt F) (fa : Fmt A) (x : Part F A) (rep : F) (hf : HeadGood ff x.head)
    (hn : x.selected = []) :
    ∃ y s, partRead ff fa ⟨⟨rep, true⟩, [], []⟩ (Str.of (partPrint ff fa x)) = .ok (y, s) ∧
      y.selected = [] ∧ y.rejected = [] := by
  obtain ⟨h, t, ht, -, h1⟩ := partRead_print ff fa x ⟨⟨rep, true⟩, [], []⟩ hf (by simp [hn])
  obtain ⟨u, hu⟩ := get_over natFmt (s := ⟨t, true⟩) (.inr ht)
  refine ⟨⟨h, [], []⟩, ⟨u, false⟩, ?_, rfl, rfl⟩
  rw [h1, hn, partRest]
  simp only [hu]
  simp [readAtoms]

/-- An object that has another atom selected: the assertion on the number of atoms fails. -/
theorem C273_asserted [DecidableEq A] (ff : FitFmt F) (fa : Fmt A) (x old : Part F A) (hf : HeadGood ff x.head)
    (hg : ∀ a ∈ x.selected, Good fa a) (hd : x.selected.Nodup) (hod : old.selected.Nodup) (a : A)
    (ha : a ∈ old.selected) (hna : a ∉ x.selected) :
    partRead ff fa old (Str.of (partPrint ff fa x)) = .error .asserted := by
  obtain ⟨h, t, ht, -, h1⟩ := partRead_print ff fa x old hf hg
  have hf2 := foldl_insertNew x.selected old.selected hod
  have hlen : x.selected.length < (x.selected.foldl insertNew old.selected).length := by
    have := (List.subperm_of_subset (l₁ := a :: x.selected) (List.nodup_cons.2 ⟨hna, hd⟩) (fun b hb => by
      rcases List.mem_cons.1 hb with rfl | hb
      · exact (hf2.2 b).2 (.inl ha)
      · exact (hf2.2 b).2 (.inr hb))).length_le
    rw [List.length_cons] at this
    omega
  rw [h1, partRest, if_pos (by omega)]

/-! ### C274 -/

/-- Texts of numbers: words without `%`, read as written. -/
def QGood (shq : ℚ → Text) (rdq : Text → ℚ) (q : ℚ) : Prop :=
  Word (shq q) ∧ '%' ∉ shq q ∧ rdq (shq q) = q

theorem takeWhile_percent : ∀ {w : Text}, '%' ∉ w → ∀ u,
    (w ++ u).takeWhile (fun c => decide (c ≠ '%')) = w ++ u.takeWhile (fun c => decide (c ≠ '%'))
  | [], _, u => rfl
  | c :: w, h, u => by
    have hc : c ≠ '%' := fun e => h (by rw [e]; simp)
    rw [List.cons_append, List.takeWhile_cons, if_pos (by simpa using hc),
      takeWhile_percent (fun hm => h (by simp [hm])) u, List.cons_append]

/-- A number of individuals that is not negative is read as it was written: it stands for the same number in
populations of all sizes. -/
theorem C274_restored (shq : ℚ → Text) (rdq : Text → ℚ) (h : HowMany) (hc : 0 ≤ h.count) (hr : 0 ≤ h.rate)
    (hg1 : QGood shq rdq (100 * h.rate)) (hg2 : QGood shq rdq h.count) :
    ∃ h' s, howManyRead rdq (Str.of (howManyPrint shq h)) = .ok (h', s) ∧ ∀ n, h'.eval n = h.eval n := by
  unfold howManyPrint
  by_cases h0 : h.count = 0
  · rw [if_pos h0]
    obtain ⟨g1, g2, g3⟩ := hg1
    have hw : getWord (Str.of (shq (100 * h.rate) ++ txt "% ")) = (shq (100 * h.rate) ++ ['%'], ⟨[' '], true⟩) :=
      getWord_word (w := shq (100 * h.rate) ++ ['%']) (r := [' '])
        ⟨by simp, fun c hc => (List.mem_append.1 hc).elim (g1.2 c) (fun h => by rw [List.mem_singleton.1 h]; decide)⟩
        (sep_cons blank _) (by simp [txt])
    have ht := takeWhile_percent g2 ['%']
    have ht2 : (['%'] : Text).takeWhile (fun c => decide (c ≠ '%')) = [] := by decide
    rw [ht2, List.append_nil] at ht
    refine ⟨⟨h.rate, 0⟩, ⟨[' '], true⟩, ?_, fun n => by simp [HowMany.eval, h0]⟩
    rw [howManyRead, hw]
    have e : 100 * h.rate / 100 = h.rate := by ring
    simp only [ht, g3, e]
    rw [if_pos (by simp), if_neg (by push Not; exact hr)]
  · rw [if_neg h0]
    obtain ⟨g1, g2, g3⟩ := hg2
    have hw : getWord (Str.of (shq h.count ++ [' '])) = (shq h.count, ⟨[' '], true⟩) :=
      getWord_word g1 (sep_cons blank _) rfl
    have ht := takeWhile_percent g2 []
    rw [List.append_nil, List.takeWhile_nil, List.append_nil] at ht
    refine ⟨⟨h.count, h.count⟩, ⟨[' '], true⟩, ?_, fun n => by simp [HowMany.eval, h0]⟩
    rw [howManyRead, hw]
    have hq : ¬ (h.count : ℚ) < 0 := by push Not; exact_mod_cast hc
    simp only [ht, g3]
    rw [if_neg (by omega), if_neg hq, Int.floor_intCast]

/-- A negative number (all but so many) is written, but reading it raises an exception. -/
theorem C274_negative (shq : ℚ → Text) (rdq : Text → ℚ) (h : HowMany) (hc : h.count < 0)
    (hg : QGood shq rdq h.count) : howManyRead rdq (Str.of (howManyPrint shq h)) = .error .thrown := by
  have h0 : h.count ≠ 0 := by omega
  rw [howManyPrint, if_neg h0]
  obtain ⟨g1, g2, g3⟩ := hg
  have hw : getWord (Str.of (shq h.count ++ [' '])) = (shq h.count, ⟨[' '], true⟩) :=
    getWord_word g1 (sep_cons blank _) rfl
  have ht := takeWhile_percent g2 []
  rw [List.append_nil, List.takeWhile_nil, List.append_nil] at ht
  rw [howManyRead, hw]
  have hq : (h.count : ℚ) < 0 := by exact_mod_cast hc
  simp only [ht, g3]
  rw [if_neg (by omega), if_pos hq]

/-! ### Cases -/

example : ∃ (shq : ℚ → Text) (rdq : Text → ℚ), ∀ q, QGood shq rdq q := by
  refine ⟨fun q => State.showNat (Encodable.encode q),
    fun t => ((Encodable.decode (number t) : Option ℚ)).getD 0, fun q => ?_⟩
  obtain ⟨h1, h2, h3⟩ := MathSym.showNat_spec (Encodable.encode q)
  refine ⟨(nat_good _).1, fun h => ?_, ?_⟩
  · have := h2 '%' h
    revert this; decide
  · simp only [h3, Encodable.encodek, Option.getD_some]

example : virusPrint natFit false ⟨⟨⟨0, true⟩, [true, false]⟩, [true, true]⟩ = "INVALID  2 1011".toList := by
  decide +kernel

example : agedRead (bitRead natFit) (⟨⟨0, true⟩, []⟩, 0)
    (Str.of (agedPrint (bitPrint natFit) (⟨⟨0, true⟩, [true, false]⟩, 31))) =
    .ok ((⟨⟨0, true⟩, [true, false, false, true]⟩, 0), ⟨[], false⟩) := by decide +kernel

example : popRead (stringRead natFit) ⟨⟨0, true⟩, []⟩ [] (Str.of (popPrint (stringPrint natFit)
    [⟨⟨7, false⟩, "abc".toList⟩, ⟨⟨0, true⟩, "de".toList⟩])) =
    .ok ([⟨⟨7, false⟩, []⟩, ⟨⟨3, false⟩, []⟩], ⟨" abc\n\nINVALID  2 de\n\n".toList, true⟩) := by decide +kernel

example : MGood natFmt 2 ⟨[8, 9], false, none, none⟩ :=
  fun _ => ⟨rfl, by decide, fun v _ => ⟨nat_good v, (natFit_good v).2.1⟩⟩

example : partRead natFit natFmt ⟨⟨0, true⟩, [], []⟩ (Str.of (partPrint natFit natFmt ⟨⟨0, true⟩, [3, 1], [2]⟩)) =
    .error .ub := by decide +kernel

example : partRead natFit natFmt ⟨⟨0, true⟩, [5], []⟩ (Str.of (partPrint natFit natFmt ⟨⟨0, true⟩, [3, 1], [2]⟩)) =
    .error .asserted := by decide +kernel

end Paradiseo.Persist
