import Verif.Lemmas.Param
/-
C174: what the parser of EO makes of a command line and of a parameter file.
C175: values of parameters printed and read back.
-/
namespace Paradiseo.Param

/-! ### C174 -/

theorem foldl_get_some (ws : List Text) (m : Maps) (p : Prm) (v : Text) :
    (ws.foldl stepMaps m).getValue p = some v ↔
      (p.short.toNat ≠ 0 ∧ get (ws.foldl stepMaps m).short p.short = some v) ∨
      ((p.short.toNat = 0 ∨ get (ws.foldl stepMaps m).short p.short = none) ∧
        get (ws.foldl stepMaps m).long p.long = some v) := by
  unfold Maps.getValue
  by_cases h : p.short.toNat = 0
  · simp [h]
  · simp only [ne_eq, h, not_false_eq_true, if_true, true_and, false_or]
    cases hs : get (ws.foldl stepMaps m).short p.short <;> simp

theorem shorts_none (ws : List Text) (c : Char) :
    get (ws.foldl stepMaps ⟨[], []⟩).short c = none ↔ ∀ w ∈ ws, ∀ v, ¬ ShortGives c v w := by
  constructor
  · intro h
    rw [← not_lastGives]
    rintro ⟨v, hv⟩
    rw [(foldl_short ws _ c v).2 (.inl hv)] at h
    cases h
  · intro h
    cases hx : get (ws.foldl stepMaps ⟨[], []⟩).short c with
    | none => rfl
    | some v =>
      rcases (foldl_short ws _ c v).1 hx with hl | ⟨_, h'⟩
      · exact absurd ⟨v, hl⟩ (not_lastGives.2 h)
      · cases h'

theorem getValue_words (ws : List Text) (p : Prm) (v : Text) :
    (ws.foldl stepMaps ⟨[], []⟩).getValue p = some v ↔
      (p.short.toNat ≠ 0 ∧ LastGives (ShortGives p.short) ws v) ∨
      ((p.short.toNat = 0 ∨ ∀ w ∈ ws, ∀ u, ¬ ShortGives p.short u w) ∧
        LastGives (LongGives p.long) ws v) := by
  rw [foldl_get_some, shorts_none, foldl_short, foldl_long]
  have e1 : ∀ n : Text, get (⟨[], []⟩ : Maps).long n = none := fun _ => rfl
  have e2 : ∀ n : Char, get (⟨[], []⟩ : Maps).short n = none := fun _ => rfl
  simp only [e1, e2, reduceCtorEq, and_false, or_false]

theorem paramFile_none {ws : List Text} (h : ∀ w ∈ ws, w.head? ≠ some '@') : paramFile ws = none := by
  unfold paramFile
  rw [List.findSome?_eq_none_iff]
  intro a ha
  have := h a ha
  split
  · simp at this
  · rfl

/-- **C174** (arguments that are plain words).  The last word with the short name of a parameter gives its
value; only without any such word does the last word with its long name count — even one that comes after. -/
theorem C174_arguments (file : Text → Option Text) (args : List Text) (h : ∀ w ∈ args, Plain w)
    (hat : ∀ w ∈ args, w.head? ≠ some '@') :
    ∃ m, construct file args = some (.ok m) ∧ ∀ p v, m.getValue p = some v ↔
      (p.short.toNat ≠ 0 ∧ LastGives (ShortGives p.short) args v) ∨
      ((p.short.toNat = 0 ∨ ∀ w ∈ args, ∀ u, ¬ ShortGives p.short u w) ∧
        LastGives (LongGives p.long) args v) := by
  have hf : paramFile args = none := paramFile_none hat
  refine ⟨_, by simp only [construct, hf]; rw [readFrom_words args h], ?_⟩
  exact fun p v => getValue_words args p v

/-- **C174** (parameter file).  The first argument that starts with `@` names a parameter file, whose words
are read before those of the command line. -/
theorem C174_file (file : Text → Option Text) (pre post : List Text) (f : Text) (fw : List Text)
    (hpre : ∀ w ∈ pre, w.head? ≠ some '@') (hfile : file f = some (argText fw)) (hfw : ∀ w ∈ fw, Plain w)
    (h : ∀ w ∈ pre ++ ('@' :: f) :: post, Plain w) :
    ∃ m, construct file (pre ++ ('@' :: f) :: post) = some (.ok m) ∧ ∀ p v, m.getValue p = some v ↔
      (p.short.toNat ≠ 0 ∧ LastGives (ShortGives p.short) (fw ++ (pre ++ ('@' :: f) :: post)) v) ∨
      ((p.short.toNat = 0 ∨ ∀ w ∈ fw ++ (pre ++ ('@' :: f) :: post), ∀ u, ¬ ShortGives p.short u w) ∧
        LastGives (LongGives p.long) (fw ++ (pre ++ ('@' :: f) :: post)) v) := by
  have hf : paramFile (pre ++ ('@' :: f) :: post) = some f := by
    unfold paramFile
    rw [List.findSome?_append, List.findSome?_cons]
    have := paramFile_none hpre
    unfold paramFile at this
    rw [this]
    rfl
  refine ⟨_, by simp only [construct, hf, hfile]; rw [readFrom_words fw hfw]; simp only []; rw [readFrom_words _ h], ?_⟩
  intro p v
  rw [← List.foldl_append]
  exact getValue_words _ p v

/-- **C174** (the file wins).  A short name in the parameter file beats the long name of the same parameter
on the command line, which comes later and is meant to override the file. -/
theorem C174_file_wins (file : Text → Option Text) (args : List Text) (f : Text) (fw : List Text)
    (hfile : file f = some (argText fw)) (hfw : ∀ w ∈ fw, Plain w)
    (h : ∀ w ∈ ('@' :: f) :: args, Plain w) (p : Prm) (v : Text) (h0 : p.short.toNat ≠ 0)
    (hs : LastGives (ShortGives p.short) fw v) (hno : ∀ w ∈ args, ∀ u, ¬ ShortGives p.short u w) :
    ∃ m, construct file (('@' :: f) :: args) = some (.ok m) ∧ m.getValue p = some v := by
  obtain ⟨m, hm, hg⟩ := C174_file file [] args f fw (by simp) hfile hfw h
  refine ⟨m, hm, (hg p v).2 (.inl ⟨h0, ?_⟩)⟩
  obtain ⟨a, w, b, rfl, hw, hb⟩ := hs
  refine ⟨a, w, b ++ ('@' :: f) :: args, by simp, hw, ?_⟩
  intro u hu
  rcases List.mem_append.1 hu with hu | hu
  · exact hb u hu
  · rcases List.mem_cons.1 hu with rfl | hu
    · rintro v' ⟨_, e | ⟨e, _⟩⟩ <;> cases e
    · exact hno u hu

/-- **C174** (blanks).  An argument with a blank is read as two arguments: the value of an option stops at
its first blank, and the rest is taken for another argument. -/
theorem C174_blank (pre post : List Text) (a b : Text) (hpre : ∀ w ∈ pre, Plain w) (ha : Plain a)
    (m : Maps) :
    readFrom (argText (pre ++ (a ++ ' ' :: b) :: post)) m =
      readFrom (argText (pre ++ a :: b :: post)) m := by
  have e1 : argText (pre ++ (a ++ ' ' :: b) :: post) = argText pre ++ (a ++ ' ' :: (b ++ '\n' :: argText post)) := by
    simp [argText]
  have e2 : argText (pre ++ a :: b :: post) = argText pre ++ (a ++ '\n' :: (b ++ '\n' :: argText post)) := by
    simp [argText]
  rw [e1, e2]
  have r : ∀ s m, readFrom s m = rd true s m := fun _ _ => rfl
  rw [r, r, rd_words pre hpre, rd_words pre hpre, rd_word ha (by decide), rd_word ha (by decide),
    rd_ws (by decide), rd_ws (by decide)]

/-- **C174** (comments).  An argument that starts with `#` has no effect. -/
theorem C174_comment (pre post : List Text) (a : Text) (hpre : ∀ w ∈ pre, Plain w) (ha : '\n' ∉ a) (m : Maps) :
    readFrom (argText (pre ++ ('#' :: a) :: post)) m = readFrom (argText (pre ++ post)) m := by
  have e1 : argText (pre ++ ('#' :: a) :: post) = argText pre ++ ('#' :: a ++ '\n' :: argText post) := by
    simp [argText]
  have e2 : argText (pre ++ post) = argText pre ++ argText post := by simp [argText]
  rw [e1, e2]
  have r : ∀ s m, readFrom s m = rd true s m := fun _ _ => rfl
  rw [r, r, rd_words pre hpre, rd_words pre hpre, rd_comment_line ha]

/-- **C174** (a lone dash).  An argument `-` ends the reading: what comes before is kept, whatever comes
after is ignored, and help is shown. -/
theorem C174_dash (pre post : List Text) (hpre : ∀ w ∈ pre, Plain w) (m : Maps) :
    ∃ m', readFrom (argText pre) m = .ok m' ∧ readFrom (argText (pre ++ ['-'] :: post)) m = .missing m' := by
  refine ⟨_, readFrom_words pre hpre m, ?_⟩
  have e1 : argText (pre ++ ['-'] :: post) = argText pre ++ ('-' :: '\n' :: argText post) := by
    simp [argText]
  rw [e1]
  have r : ∀ s m, readFrom s m = rd true s m := fun _ _ => rfl
  rw [r, rd_words pre hpre, rd_dash (by decide)]

/-- **C174** (unknown names).  With the check on, help is shown exactly if asked for, if a required parameter
was missing, or if some word gives a name that no parameter has. -/
theorem C174_unknown (args : List Text) (h : ∀ w ∈ args, Plain w) (params : List Prm) (help missingMsg : Bool) :
    ∃ m, readFrom (argText args) ⟨[], []⟩ = .ok m ∧
      (m.needsHelp params true help missingMsg = true ↔ help = true ∨ missingMsg = true ∨
        ∃ w ∈ args, (∃ n v, LongGives n v w ∧ ∀ p ∈ params, p.long ≠ n) ∨
          (∃ c v, ShortGives c v w ∧ ∀ p ∈ params, p.short ≠ c)) := by
  refine ⟨_, readFrom_words args h _, ?_⟩
  have hl : ∀ n, (∃ x ∈ (args.foldl stepMaps ⟨[], []⟩).long, x.1 = n) ↔ ∃ w ∈ args, ∃ v, LongGives n v w := by
    intro n
    rw [← get_mem]
    constructor
    · rintro ⟨v, hv⟩
      rcases (foldl_long args _ n v).1 hv with ⟨a, w, b, rfl, hw, _⟩ | ⟨_, h'⟩
      · exact ⟨w, by simp, v, hw⟩
      · cases h'
    · rintro ⟨w, hw, v, hg⟩
      by_cases hx : ∃ v, LastGives (LongGives n) args v
      · obtain ⟨v, hv⟩ := hx
        exact ⟨v, (foldl_long args _ n v).2 (.inl hv)⟩
      · exact absurd hg (not_lastGives.1 hx w hw v)
  have hs : ∀ c, (∃ x ∈ (args.foldl stepMaps ⟨[], []⟩).short, x.1 = c) ↔ ∃ w ∈ args, ∃ v, ShortGives c v w := by
    intro n
    rw [← get_mem]
    constructor
    · rintro ⟨v, hv⟩
      rcases (foldl_short args _ n v).1 hv with ⟨a, w, b, rfl, hw, _⟩ | ⟨_, h'⟩
      · exact ⟨w, by simp, v, hw⟩
      · cases h'
    · rintro ⟨w, hw, v, hg⟩
      by_cases hx : ∃ v, LastGives (ShortGives n) args v
      · obtain ⟨v, hv⟩ := hx
        exact ⟨v, (foldl_short args _ n v).2 (.inl hv)⟩
      · exact absurd hg (not_lastGives.1 hx w hw v)
  generalize args.foldl stepMaps ⟨[], []⟩ = m at hl hs
  unfold Maps.needsHelp
  simp only [Bool.or_eq_true, Bool.true_and, List.any_eq_true, List.all_eq_true, decide_eq_true_eq, or_assoc]
  refine or_congr_right (or_congr_right ?_)
  constructor
  · rintro (⟨x, hx, hp⟩ | ⟨x, hx, hp⟩)
    · obtain ⟨w, hw, v, hg⟩ := (hl x.1).1 ⟨x, hx, rfl⟩
      exact ⟨w, hw, .inl ⟨x.1, v, hg, hp⟩⟩
    · obtain ⟨w, hw, v, hg⟩ := (hs x.1).1 ⟨x, hx, rfl⟩
      exact ⟨w, hw, .inr ⟨x.1, v, hg, hp⟩⟩
  · rintro ⟨w, hw, ⟨n, v, hg, hp⟩ | ⟨c, v, hg, hp⟩⟩
    · obtain ⟨x, hx, rfl⟩ := (hl n).2 ⟨w, hw, v, hg⟩
      exact .inl ⟨x, hx, hp⟩
    · obtain ⟨x, hx, rfl⟩ := (hs c).2 ⟨w, hw, v, hg⟩
      exact .inr ⟨x, hx, hp⟩

theorem printed_read (first : Prm → Text) (upper : Text → Text) (m : Maps) (secs : List (Text × List Prm))
    (hs : ∀ x ∈ secs, '\n' ∉ upper (if x.1 = [] then "General".toList else x.1))
    (h : ∀ x ∈ secs, ∀ p ∈ x.2, Printable first p) (heq : ∀ x ∈ secs, ∀ p ∈ x.2, '=' ∉ p.long)
    (hnd : ((secs.flatMap (·.2)).map (·.long)).Nodup) :
    ∃ m', readFrom (printOn upper m secs) ⟨[], []⟩ = .ok m' ∧ (∀ c, get m'.short c = none) ∧
      ∀ n v, get m'.long n = some v ↔
        ∃ x ∈ secs, ∃ p ∈ x.2, m.isThere p = true ∧ p.long = n ∧ first p = v := by
  have e := rd_printOn secs hs h m ⟨[], []⟩ []
  rw [List.append_nil, rd_nil] at e
  refine ⟨_, e, ?_, ?_⟩
  · intro c
    rw [shorts_none]
    intro w hw v hg
    obtain ⟨p, _, rfl⟩ := List.mem_map.1 hw
    obtain ⟨hc, e | ⟨e, _⟩⟩ := hg
    · injection e with _ e; injection e with e _; exact hc e.symm
    · injection e with _ e; injection e with e _; exact hc e.symm
  · intro n v
    rw [foldl_long]
    have e1 : get (⟨[], []⟩ : Maps).long n = none := rfl
    simp only [e1, reduceCtorEq, and_false, or_false]
    have hmem : ∀ p, p ∈ (secs.flatMap (·.2)).filter m.isThere ↔
        ∃ x ∈ secs, p ∈ x.2 ∧ m.isThere p = true := by
      intro p; simp only [List.mem_filter, List.mem_flatMap]
      constructor
      · rintro ⟨⟨x, hx, hp⟩, ht⟩; exact ⟨x, hx, hp, ht⟩
      · rintro ⟨x, hx, hp, ht⟩; exact ⟨⟨x, hx, hp⟩, ht⟩
    have hnd' : (((secs.flatMap (·.2)).filter m.isThere).map (·.long)).Nodup :=
      hnd.sublist (List.filter_sublist.map _)
    have hgives : ∀ p x, x ∈ secs → p ∈ x.2 → ∀ u,
        LongGives n u ("--".toList ++ p.long ++ '=' :: first p) ↔ p.long = n ∧ first p = u := by
      intro p x hx hp u
      have hself : LongGives p.long (first p) ("--".toList ++ p.long ++ '=' :: first p) :=
        ⟨heq x hx p hp, .inl rfl⟩
      rw [longGives_iff] at hself ⊢
      obtain ⟨t, ht, hl⟩ := hself
      constructor
      · rintro ⟨_, _, hl'⟩
        rw [hl] at hl'
        simpa using hl'
      · rintro ⟨rfl, rfl⟩
        exact ⟨t, ht, hl⟩
    generalize hL : (secs.flatMap (·.2)).filter m.isThere = L at hmem hnd'
    constructor
    · rintro ⟨pre, w, post, hsplit, hg, _⟩
      have hw : w ∈ L.map fun p => "--".toList ++ p.long ++ '=' :: first p := by rw [hsplit]; simp
      obtain ⟨p, hp, rfl⟩ := List.mem_map.1 hw
      obtain ⟨x, hx, hpx, ht⟩ := (hmem p).1 hp
      obtain ⟨h1, h2⟩ := (hgives p x hx hpx v).1 hg
      exact ⟨x, hx, p, hpx, ht, h1, h2⟩
    · rintro ⟨x, hx, p, hpx, ht, rfl, rfl⟩
      obtain ⟨A, B, hAB⟩ := List.append_of_mem ((hmem p).2 ⟨x, hx, hpx, ht⟩)
      refine ⟨A.map fun p => "--".toList ++ p.long ++ '=' :: first p, _,
        B.map fun p => "--".toList ++ p.long ++ '=' :: first p, by rw [hAB, List.map_append, List.map_cons],
        (hgives p x hx hpx _).2 ⟨rfl, rfl⟩, ?_⟩
      intro u hu v' hg
      obtain ⟨q, hq, rfl⟩ := List.mem_map.1 hu
      obtain ⟨y, hy, hqy, _⟩ := (hmem q).1 (by rw [hAB]; simp [hq])
      have := ((hgives q y hy hqy v').1 hg).1
      rw [hAB, List.map_append, List.map_cons] at hnd'
      have h3 := (List.nodup_append.1 hnd').2.1
      rw [List.nodup_cons] at h3
      exact h3.1 (List.mem_map.2 ⟨q, hq, this⟩)

/-- **C174** (the printed parameters).  Reading what was printed gives back, under the long names, the values
of exactly those parameters that the user had set — the others are printed as comments. -/
theorem C174_print_read (upper : Text → Text) (m : Maps) (secs : List (Text × List Prm))
    (hs : ∀ x ∈ secs, '\n' ∉ upper (if x.1 = [] then "General".toList else x.1))
    (h : ∀ x ∈ secs, ∀ p ∈ x.2, (∀ c ∈ p.long, isWs c = false ∧ c ≠ '=') ∧ (∀ c ∈ p.value, isWs c = false) ∧
      '\n' ∉ p.descr ∧ p.short ≠ '\n')
    (hnd : ((secs.flatMap (·.2)).map (·.long)).Nodup) :
    ∃ m', readFrom (printOn upper m secs) ⟨[], []⟩ = .ok m' ∧ (∀ c, get m'.short c = none) ∧
      ∀ n v, get m'.long n = some v ↔
        ∃ x ∈ secs, ∃ p ∈ x.2, m.isThere p = true ∧ p.long = n ∧ p.value = v := by
  refine printed_read (fun p => p.value) upper m secs hs ?_ ?_ hnd
  · intro x hx p hp
    obtain ⟨h1, h2, h3, h4⟩ := h x hx p hp
    exact ⟨fun c hc => (h1 c hc).1, h2, ⟨[], by simp, [], rfl, by simp⟩, h3, h4⟩
  · intro x hx p hp hm
    exact ((h x hx p hp).1 _ hm).2 rfl

/-- **C174** (the printed parameters, values with blanks).  Of a value with several words only the first
word comes back. -/
theorem C174_print_read_blanks (first : Prm → Text) (upper : Text → Text) (m : Maps)
    (secs : List (Text × List Prm))
    (hs : ∀ x ∈ secs, '\n' ∉ upper (if x.1 = [] then "General".toList else x.1))
    (h : ∀ x ∈ secs, ∀ p ∈ x.2, (∀ c ∈ p.long, isWs c = false ∧ c ≠ '=') ∧ (∀ c ∈ first p, isWs c = false) ∧
      (∃ ws : List Text, p.value = first p ++ ws.flatMap (fun w => ' ' :: w) ∧
        ∀ w ∈ ws, w = [] ∨ (Plain w ∧ w.head? ≠ some '-')) ∧ '\n' ∉ p.descr ∧ p.short ≠ '\n')
    (hnd : ((secs.flatMap (·.2)).map (·.long)).Nodup) :
    ∃ m', readFrom (printOn upper m secs) ⟨[], []⟩ = .ok m' ∧ (∀ c, get m'.short c = none) ∧
      ∀ n v, get m'.long n = some v ↔
        ∃ x ∈ secs, ∃ p ∈ x.2, m.isThere p = true ∧ p.long = n ∧ first p = v := by
  refine printed_read first upper m secs hs ?_ ?_ hnd
  · intro x hx p hp
    obtain ⟨h1, h2, ⟨ws, h3, h4⟩, h5, h6⟩ := h x hx p hp
    exact ⟨fun c hc => (h1 c hc).1, h2, ⟨_, h3, ws, rfl, h4⟩, h5, h6⟩
  · intro x hx p hp hm
    exact ((h x hx p hp).1 _ hm).2 rfl

/-! Cases that meet the hypotheses. -/

/-- Population size. -/
def popSize : Prm := ⟨"popSize".toList, 'P', false, "Population Size".toList, "20".toList⟩

/-- The usual command lines. -/
theorem plain_ex : ∀ w ∈ ["--popSize=20".toList, "-P=10".toList, "-P7".toList, "--verbose".toList, "@file".toList], Plain w := by
  have key : ∀ w : Text, (w ≠ [] ∧ (∀ c ∈ w, isWs c = false) ∧ w.head? ≠ some '#' ∧ w ≠ ['-'] ∧
      isSectionWord w = false) → Plain w := fun w h => ⟨⟨h.1, h.2.1⟩, h.2.2.1, h.2.2.2.1, h.2.2.2.2⟩
  intro w hw
  apply key
  revert w
  decide

example : LastGives (ShortGives 'P') ["-P=10".toList] "10".toList :=
  ⟨[], _, [], rfl, ⟨by decide, .inl rfl⟩, by simp⟩

example : (construct (fun _ => some (argText ["-P=10".toList])) ["@file".toList, "--popSize=20".toList]).map
    (fun o => match o with | .ok m => m.getValue popSize | _ => none) = some (some "10".toList) := by decide +kernel

example : (construct (fun _ => none) ["--popSize=10".toList, "-P=7".toList, "--popSize=30".toList]).map
    (fun o => match o with | .ok m => m.getValue popSize | _ => none) = some (some "7".toList) := by decide +kernel

/-- Asking for the value of a string with a blank. -/
example : (construct (fun _ => none) ["--popSize=10 --seed=3".toList]) =
    some (.ok ⟨[("seed".toList, "3".toList), ("popSize".toList, "10".toList)], []⟩) := by decide +kernel

example : Printable (fun p => p.value) popSize :=
  ⟨by decide, by decide, ⟨[], by simp, [], rfl, by simp⟩, by decide, by decide⟩

example : readFrom (printOn id ⟨[("popSize".toList, "20".toList)], []⟩ [([], [popSize])]) ⟨[], []⟩ =
    .ok ⟨[("popSize".toList, "20".toList)], []⟩ := by decide +kernel

example : readFrom (printOn id ⟨[], []⟩ [([], [popSize])]) ⟨[], []⟩ = .ok ⟨[], []⟩ := by decide +kernel

/-! ### C175 -/

/-- The number a list of decimal digits denotes. -/
def number (d : Text) : Nat := d.foldl (fun a c => 10 * a + (c.toNat - 48)) 0

theorem digit_not_ws {c : Char} (h : c.isDigit = true) : isWs c = false := by
  have : 48 ≤ c.toNat := by
    simp only [Char.isDigit, Bool.and_eq_true, decide_eq_true_eq] at h
    exact h.1
  have hne : ∀ d : Char, d.toNat < 48 → c ≠ d := by
    rintro d hd rfl; omega
  simp only [isWs, Bool.or_eq_false_iff, beq_eq_false_iff_ne, ne_eq]
  refine ⟨⟨⟨⟨⟨hne _ (by decide), hne _ (by decide)⟩, hne _ (by decide)⟩, hne _ (by decide)⟩, ?_⟩, ?_⟩ <;> omega

theorem readNat_digits {d : Text} (hne : d ≠ []) (hd : ∀ c ∈ d, c.isDigit = true) (r : Text) :
    readNat (d ++ ' ' :: r) = some (number d, ' ' :: r) := by
  have h1 : (d ++ ' ' :: r).dropWhile isWs = d ++ ' ' :: r := by
    cases d with
    | nil => exact absurd rfl hne
    | cons a d => simp [List.dropWhile_cons, digit_not_ws (hd a (by simp))]
  have h2 : (d ++ ' ' :: r).takeWhile (·.isDigit) = d := takeWhile_stop r hd (by decide)
  unfold readNat
  simp only [h1, h2]
  cases d with
  | nil => exact absurd rfl hne
  | cons a d => simp [number, List.drop_append]

theorem isDigit_not_comma {c : Char} (h : c.isDigit = true) : ¬ (c = ',' ∨ c = ';') := by
  rintro (rfl | rfl) <;> exact absurd h (by decide)

/-- **C175** (vectors).  Setting a vector parameter to its own printed value gives a first element without its
first digit: the text is not read as it was written. -/
theorem C175_vector_first (digits : Nat → Text)
    (hd : ∀ n, digits n ≠ [] ∧ (∀ c ∈ digits n, c.isDigit = true) ∧ number (digits n) = n)
    (x : Nat) (xs old : List Nat) (c : Char) (ds : Text) (hx : digits x = c :: ds) (hds : ds ≠ []) :
    ∃ l, setVector (getVector digits (x :: xs)) old = some (number ds :: l) := by
  obtain ⟨hne, hdig, hnum⟩ := hd (x :: xs).length
  obtain ⟨_, hdx, _⟩ := hd x
  rw [hx] at hdx
  have e : getVector digits (x :: xs) = digits (x :: xs).length ++ ' ' ::
      (c :: ds ++ ' ' :: xs.flatMap fun x => digits x ++ [' ']) := by
    simp [getVector, hx]
  unfold setVector
  rw [e, readNat_digits hne hdig, hnum]
  simp only
  generalize hr : (old ++ List.replicate (x :: xs).length 0).take (x :: xs).length = o
  have hlen : o.length = (x :: xs).length := by
    rw [← hr, List.length_take, List.length_append, List.length_replicate]; omega
  cases o with
  | nil => simp at hlen
  | cons o os =>
    unfold readElems
    have hs : ∀ (f : Nat) (r : Text), skipDelims (f + 1) (' ' :: (c :: ds ++ r)) = some (ds ++ r) := by
      intro f r
      unfold skipDelims
      have : (' ' :: (c :: ds ++ r)).dropWhile isWs = c :: (ds ++ r) := by
        rw [List.dropWhile_cons, if_pos (by decide), List.cons_append, List.dropWhile_cons,
          if_neg (by simp [digit_not_ws (hdx c (by simp))])]
      rw [this]
      simp only [isDigit_not_comma (hdx c (by simp)), if_false]
    rw [hs, ]
    simp only
    rw [readNat_digits hds fun c hc => hdx c (by simp [hc])]
    exact ⟨_, rfl⟩

theorem number_lt {c : Char} {ds : Text} (hc : c.isDigit = true) (h0 : c ≠ '0') :
    number ds < number (c :: ds) := by
  have gen : ∀ (ds : Text) (a b : Nat), a < b →
      ds.foldl (fun a c => 10 * a + (c.toNat - 48)) a < ds.foldl (fun a c => 10 * a + (c.toNat - 48)) b := by
    intro ds
    induction ds with
    | nil => intro a b h; exact h
    | cons d ds ih => intro a b h; rw [List.foldl_cons, List.foldl_cons]; exact ih _ _ (by omega)
  unfold number
  rw [List.foldl_cons]
  apply gen
  have h1 : 48 ≤ c.toNat := by
    simp only [Char.isDigit, Bool.and_eq_true, decide_eq_true_eq] at hc
    exact hc.1
  have h2 : c.toNat ≠ 48 := by
    intro e
    exact h0 (Char.toNat_inj.1 e)
  omega

/-- **C175** (vectors are not restored).  A vector whose first element is written with two digits or more, the
first not zero, is not restored from its printed value. -/
theorem C175_vector_not_restored (digits : Nat → Text)
    (hd : ∀ n, digits n ≠ [] ∧ (∀ c ∈ digits n, c.isDigit = true) ∧ number (digits n) = n)
    (x : Nat) (xs old : List Nat) (c : Char) (ds : Text) (hx : digits x = c :: ds) (hds : ds ≠ []) (h0 : c ≠ '0') :
    setVector (getVector digits (x :: xs)) old ≠ some (x :: xs) := by
  obtain ⟨l, hl⟩ := C175_vector_first digits hd x xs old c ds hx hds
  rw [hl]
  intro e
  rw [Option.some.injEq, List.cons.injEq] at e
  obtain ⟨_, hdx, hnum⟩ := hd x
  rw [hx] at hdx hnum
  have := number_lt (ds := ds) (hdx c (by simp)) h0
  omega

/-- **C175** (a vector of one digit).  A vector of one element below ten keeps whatever it held. -/
theorem C175_vector_one_digit (c s : Char) (hc : c.isDigit = true) (hs : s = '1') (o : Nat) (old : List Nat) :
    setVector [s, ' ', c, ' '] (o :: old) = some [o] := by
  subst hs
  have h1 : readNat ['1', ' ', c, ' '] = some (1, [' ', c, ' ']) := rfl
  have hws := digit_not_ws hc
  unfold setVector
  rw [h1]
  simp only [List.cons_append, List.take_succ_cons, List.take_zero]
  unfold readElems
  have h2 : skipDelims ([' ', c, ' '].length + 1) [' ', c, ' '] = some [' '] := by
    unfold skipDelims
    have : [' ', c, ' '].dropWhile isWs = [c, ' '] := by
      rw [List.dropWhile_cons, if_pos (by decide), List.dropWhile_cons, if_neg (by simp [hws])]
    rw [this]
    simp only [isDigit_not_comma hc, if_false]
  rw [h2]
  rfl

example : setVector "2 10 20 ".toList [] = some [0, 0] := by decide +kernel

example : setVector "2 3 4 ".toList [] = some [4, 0] := by decide +kernel

/-! Keyword with arguments. -/

/-- A non-empty argument without delimiters. -/
def Arg (a : Text) : Prop := a ≠ [] ∧ ∀ c ∈ a, isDelim c = false

theorem argLoop_step {a : Text} (ha : Arg a) {b : Char} (hb : isDelim b = true) (r : Text) (fuel : Nat)
    (acc : List Text) : argLoop (fuel + 1) (a ++ b :: r) acc = argLoop fuel r (acc ++ [a]) := by
  obtain ⟨hne, hd⟩ := ha
  have h1 : (a ++ b :: r).takeWhile isDelim = [] := by
    cases a with
    | nil => exact absurd rfl hne
    | cons c a => rw [List.cons_append, List.takeWhile_cons, if_neg (by simp [hd c (by simp)])]
  have h2 : (a ++ b :: r).takeWhile (!isDelim ·) = a :=
    takeWhile_stop r (fun c hc => by simp [hd c hc]) (by simp [hb])
  rw [argLoop]
  simp only [h1, List.length_nil, List.drop_zero, h2, Nat.zero_add]
  rw [if_pos (by simp; omega), if_pos (by simp)]
  have e1 : (a ++ b :: r).drop (a.length + 1) = r := by
    rw [List.drop_append]; simp
  have e2 : (a ++ b :: r).take a.length = a := by simp
  rw [e1, e2]

theorem intercalate_cons_cons (a b : Text) (l : List Text) :
    [','].intercalate (a :: b :: l) = a ++ ',' :: [','].intercalate (b :: l) := by
  simp [List.intercalate, List.intersperse]

theorem argLoop_args (args : List Text) (hne : args ≠ []) (h : ∀ a ∈ args, Arg a) {b : Char} (hb : isDelim b = true)
    (r : Text) (fuel : Nat) (acc : List Text) :
    argLoop (fuel + args.length) ([','].intercalate args ++ b :: r) acc = argLoop fuel r (acc ++ args) := by
  induction args generalizing acc with
  | nil => exact absurd rfl hne
  | cons a l ih =>
    cases l with
    | nil =>
      have e : [','].intercalate [a] = a := by simp [List.intercalate]
      rw [e]
      exact argLoop_step (h a (by simp)) hb r fuel acc
    | cons b' l =>
      rw [intercalate_cons_cons, List.append_assoc, List.cons_append]
      have e : fuel + (a :: b' :: l).length = (fuel + (b' :: l).length) + 1 := by simp; omega
      rw [e, argLoop_step (h a (by simp)) (by decide), ih (by simp) (fun x hx => h x (by simp [hx]))]
      simp

theorem readPPT_paren {k : Text} (hk : '(' ∉ k) (t : Text) (fuel : Nat) :
    readPPT fuel (k ++ '(' :: t) = (argLoop fuel t []).map fun l => (k, l) := by
  have hx : ∀ x ∈ k, decide (x ≠ '(') = true := by
    intro x hx
    have : x ≠ '(' := fun e => hk (e ▸ hx)
    simp [this]
  unfold readPPT
  rw [if_pos (by simp), takeWhile_stop t hx (by simp), dropWhile_stop t hx (by simp)]
  rfl

/-- **C175** (keyword with arguments).  What is printed is read back: the keyword and the arguments, if these
are non-empty and without delimiters. -/
theorem C175_keyword_roundtrip (k : Text) (args : List Text) (hk : '(' ∉ k) (h : ∀ a ∈ args, Arg a)
    (fuel : Nat) (hf : args.length < fuel) : readPPT fuel (printPPT (k, args)) = some (k, args) := by
  cases args with
  | nil => simp [printPPT, readPPT, hk]
  | cons a l =>
    have e : printPPT (k, a :: l) = k ++ '(' :: ([','].intercalate (a :: l) ++ ')' :: []) := by
      simp [printPPT]
    obtain ⟨f, rfl⟩ : ∃ f, fuel = (f + 1) + (a :: l).length := ⟨fuel - (a :: l).length - 1, by omega⟩
    rw [e, readPPT_paren hk, argLoop_args (a :: l) (by simp) h (by decide)]
    rfl

theorem argLoop_open {a : Text} (ha : Arg a) (fuel : Nat) (acc : List Text) : argLoop fuel a acc = none := by
  induction fuel generalizing acc with
  | zero => rfl
  | succ fuel ih =>
    have ⟨hne, hd⟩ := ha
    have h1 : a.takeWhile isDelim = [] := by
      cases a with
      | nil => exact absurd rfl hne
      | cons c a => rw [List.takeWhile_cons, if_neg (by simp [hd c (by simp)])]
    have h2 : a.takeWhile (!isDelim ·) = a := takeWhile_eq_self fun c hc => by simp [hd c hc]
    rw [argLoop]
    simp only [h1, List.length_nil, List.drop_zero, h2]
    rw [if_pos (List.length_pos_iff.2 hne), if_neg (by omega)]
    exact ih _

theorem argLoop_mono {fuel : Nat} {t : Text} {acc l : List Text} (h : argLoop fuel t acc = some l) :
    argLoop (fuel + 1) t acc = some l := by
  induction fuel generalizing t acc with
  | zero => cases h
  | succ fuel ih =>
    rw [argLoop] at h ⊢
    simp only at h ⊢
    split at h
    · rename_i h1
      rw [if_pos h1]
      split at h
      · rename_i h2
        rw [if_pos h2]
        exact ih h
      · rename_i h2
        rw [if_neg h2]
        exact ih h
    · rename_i h1
      rw [if_neg h1]
      exact h

/-- **C175** (missing parenthesis).  Without the closing parenthesis the reading never ends. -/
theorem C175_keyword_unclosed (k : Text) (args : List Text) (hk : '(' ∉ k) (hne : args ≠ [])
    (h : ∀ a ∈ args, Arg a) (fuel : Nat) :
    readPPT fuel (k ++ '(' :: [','].intercalate args) = none := by
  rw [readPPT_paren hk, Option.map_eq_none_iff]
  have key : ∀ f, argLoop (f + args.length) ([','].intercalate args) [] = none := by
    intro f
    rcases List.eq_nil_or_concat args with rfl | ⟨l, a, rfl⟩
    · exact absurd rfl hne
    · cases l with
      | nil =>
        have e : [','].intercalate ([] ++ [a]) = a := by simp [List.intercalate]
        rw [List.concat_eq_append, e]
        exact argLoop_open (h a (by simp)) _ _
      | cons b l =>
        have e : [','].intercalate ((b :: l).concat a) = [','].intercalate (b :: l) ++ ',' :: a := by
          rw [List.concat_eq_append]
          clear h hne
          induction l generalizing b with
          | nil => simp [List.intercalate, List.intersperse]
          | cons c l ih =>
            rw [List.cons_append, List.cons_append, intercalate_cons_cons, ← List.cons_append, ih c,
              intercalate_cons_cons]
            simp
        have e2 : f + ((b :: l).concat a).length = (f + 1) + (b :: l).length := by
          rw [List.length_concat]; omega
        rw [e, e2, argLoop_args (b :: l) (by simp) (fun x hx => h x (by rw [List.concat_eq_append]; exact List.mem_append_left _ hx)) (by decide)]
        exact argLoop_open (h a (by simp)) _ _
  cases hx : argLoop fuel ([','].intercalate args) [] with
  | none => rfl
  | some l =>
    have : ∀ n, argLoop (fuel + n) ([','].intercalate args) [] = some l := by
      intro n
      induction n with
      | zero => exact hx
      | succ n ih => exact argLoop_mono ih
    have h2 := this args.length
    rw [key fuel] at h2
    cases h2

/-- **C175** (blanks between arguments).  Blanks before the last argument end up as a parenthesis at its end. -/
theorem C175_keyword_blank (k a b : Text) (hk : '(' ∉ k) (ha : Arg a) (hb : Arg b) (n : Nat) (hn : 0 < n)
    (fuel : Nat) :
    readPPT (fuel + 3) (k ++ '(' :: (a ++ ',' :: (List.replicate n ' ' ++ (b ++ [')'])))) =
      some (k, [a, b ++ [')']]) := by
  rw [readPPT_paren hk, argLoop_step ha (by decide)]
  obtain ⟨hne, hd⟩ := hb
  have h1 : (List.replicate n ' ' ++ (b ++ [')'])).takeWhile isDelim = List.replicate n ' ' := by
    cases b with
    | nil => exact absurd rfl hne
    | cons c b =>
      rw [List.cons_append]
      exact takeWhile_stop _ (fun x hx => by rw [List.eq_of_mem_replicate hx]; rfl) (hd c (by simp))
  have h2 : (List.replicate n ' ' ++ (b ++ [')'])).drop n = b ++ [')'] := by
    rw [List.drop_append]; simp
  have h3 : (b ++ [')']).takeWhile (!isDelim ·) = b :=
    takeWhile_stop [] (fun c hc => by simp [hd c hc]) (by decide)
  rw [argLoop]
  simp only [h1, List.length_replicate, h2, h3]
  rw [if_pos (by simp), if_pos (by simp)]
  have e1 : (List.replicate n ' ' ++ (b ++ [')'])).drop (n + b.length + 1) = [] := by
    apply List.drop_eq_nil_of_le; simp; omega
  have e2 : (b ++ [')']).take (n + b.length) = b ++ [')'] := by
    apply List.take_of_length_le; simp; omega
  rw [e1, e2]
  rfl

example : readPPT 9 "Ranking(2.0,1.5)".toList = some ("Ranking".toList, ["2.0".toList, "1.5".toList]) := by decide +kernel

example : readPPT 9 "Ranking(2.0, 1.5)".toList = some ("Ranking".toList, ["2.0".toList, "1.5)".toList]) := by decide +kernel

example : readPPT 50 "Ranking(2.0".toList = none := by decide +kernel

end Paradiseo.Param
