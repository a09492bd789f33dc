import Verif.Lemmas.State
/-
C173: saving and loading the state of a run.
-/
namespace Paradiseo.State

variable {O : Type}

/-! ## C173 -/

/-- Loading restores nothing. In both formats the tag that closes a section header ends with a newline,
and a line read by `getline` has none, so no line is ever recognised as a header: for every stream that is
not empty, every object keeps its value. An empty stream is reported as a file error. -/
theorem C173_load_restores_nothing (T : Tags) (hT : (∃ n, T = latex n) ∨ (∃ n, T = json n))
    (rd : Text → O → O) (objs : List (Text × O)) (s : Text) :
    load T rd objs s = if s = [] then .fileError else .done objs := by
  have hnl : '\n' ∈ T.secSc := by
    rcases hT with ⟨n, rfl⟩ | ⟨n, rfl⟩
    · show '\n' ∈ "}\n".toList; decide
    · show '\n' ∈ "\":\n".toList; decide
  have key : ∀ (fuel : Nat) (line s : Text) (e : Bool), '\n' ∉ line → s.length < fuel →
      loadLoop T rd fuel line s e objs = .done objs := by
    intro fuel
    induction fuel with
    | zero => intro line s e _ h; omega
    | succ fuel ih =>
      intro line s e hl hf
      unfold loadLoop
      by_cases he : e = true
      · rw [if_pos he]
      · rw [if_neg he, isSection_none hnl hl]
        simp only
        cases s with
        | nil => rw [getline_nil]
        | cons c s =>
          obtain ⟨l, r, e', h1, h2, h3⟩ := getline_some (s := c :: s) (by simp)
          rw [h1]
          exact ih l r e' h2 (by omega)
  unfold load
  cases s with
  | nil => rfl
  | cons c s =>
    obtain ⟨l, r, e, h1, h2, h3⟩ := getline_some (s := c :: s) (by simp)
    rw [h1, if_neg (by simp)]
    exact key _ l r e h2 (by omega)

/-- In particular what a state saved is not restored by any state of the same format. -/
theorem C173_saved_not_restored (T : Tags) (hT : (∃ n, T = latex n) ∨ (∃ n, T = json n))
    (pr : O → Text) (rd : Text → O → O) (saved objs : List (Text × O)) (text : Text)
    (hs : save T pr saved = some text) : load T rd objs text = .done objs := by
  rw [C173_load_restores_nothing T hT]
  rw [if_neg]
  rintro rfl
  cases saved with
  | nil => simp [save] at hs
  | cons x l =>
    have hso : T.secSo ≠ [] := by
      rcases hT with ⟨n, rfl⟩ | ⟨n, rfl⟩
      · show "\\section{".toList ≠ []; decide
      · show "\t{ \"".toList ≠ []; decide
    simp only [save, Option.some.injEq, List.append_eq_nil_iff, saveSection] at hs
    exact hso hs.1.1.2.1.1.1.1.1.1

/-- A number object and a population, saved in the default format and loaded in a new state. -/
example : save (latex []) (fun t : Text => t) [("rng".toList, "7 8\n".toList), ("pop".toList, "1\n5 10\n".toList)] =
      some "\\section{rng}\n7 8\n\n\\section{pop}\n1\n5 10\n\n".toList ∧
    load (latex []) (fun s _ => s) [("rng".toList, []), ("pop".toList, [])]
      "\\section{rng}\n7 8\n\n\\section{pop}\n1\n5 10\n\n".toList =
      .done [("rng".toList, []), ("pop".toList, [])] := by
  refine ⟨by decide +kernel, by decide +kernel⟩

/-- What is written: the state name between its tags, then for every object, in the order of registration,
its name and what it prints, between the tags of the format, separated. Without any object: assertion. -/
theorem C173_save (T : Tags) (pr : O → Text) (objs : List (Text × O)) :
    save T pr objs = if objs = [] then none else
      some (T.stateSo ++ T.stateName ++ T.stateSc ++
        T.secSep.intercalate (objs.map fun x =>
          T.secSo ++ x.1 ++ T.secSc ++ T.contS ++ pr x.2 ++ T.contE ++ T.secE) ++ T.stateE) := by
  cases objs with
  | nil => rfl
  | cons x l =>
    rw [if_neg (by simp)]
    have key : ∀ (l : List (Text × O)) (x : Text × O), T.secSep.intercalate ((x :: l).map fun x =>
          T.secSo ++ x.1 ++ T.secSc ++ T.contS ++ pr x.2 ++ T.contE ++ T.secE) =
        saveSection T pr x ++ l.flatMap (fun y => T.secSep ++ saveSection T pr y) := by
      intro l
      induction l with
      | nil => intro x; simp [List.intercalate, saveSection]
      | cons y l ih =>
        intro x
        have := ih y
        simp only [List.map_cons, List.intercalate, List.intersperse_cons_cons, List.flatten_cons] at this ⊢
        rw [this]
        simp [saveSection]
    rw [key]
    simp [save]

/-- Registering an object that has a class name always succeeds, under a name no other object has: the class
name, or the class name followed by the smallest number that makes it free. -/
theorem C173_register (objs : List (Text × O)) (cls : Text) (o : O) :
    ∃ k, register objs (some cls) o = some (objs ++ [(if k = 0 then cls else cls ++ showNat k, o)]) ∧
      (if k = 0 then cls else cls ++ showNat k) ∉ objs.map (·.1) ∧
      ∀ j < k, (if j = 0 then cls else cls ++ showNat j) ∈ objs.map (·.1) := by
  have h := freeName_cand (objs.map (·.1)) cls (objs.length + 1) 0
  -- some candidate among the first n + 1 is free
  have hex : ∃ i ∈ List.range' 0 (objs.length + 1), cand cls i ∉ objs.map (·.1) := by
    by_contra hcon
    push Not at hcon
    have hsub : (List.range' 0 (objs.length + 1)).map (cand cls) ⊆ objs.map (·.1) := by
      intro t ht
      obtain ⟨i, hi, rfl⟩ := List.mem_map.1 ht
      exact hcon i hi
    have hnd : ((List.range' 0 (objs.length + 1)).map (cand cls)).Nodup :=
      List.Nodup.map (fun i j h => cand_inj h) List.nodup_range'
    have := (hnd.subperm hsub).length_le
    simp at this
  cases hf : (List.range' 0 (objs.length + 1)).find? fun i => decide (cand cls i ∉ objs.map (·.1)) with
  | none =>
    exfalso
    rw [List.find?_eq_none] at hf
    obtain ⟨i, hi, hn⟩ := hex
    exact hf i hi (by simpa using hn)
  | some k =>
    rw [hf] at h
    obtain ⟨hk, as, bs, hsplit, has⟩ := List.find?_eq_some_iff_append.1 hf
    have hk' : cand cls k ∉ objs.map (·.1) := of_decide_eq_true hk
    refine ⟨k, ?_, hk', ?_⟩
    · have hc : createName objs (some cls) = some (cand cls k) := by
        unfold createName; exact h
      unfold register
      rw [hc]
      simp only
      rw [if_neg hk']
      rfl
    · intro j hj
      have hj' : j ∈ as := by
        have hkk : k < objs.length + 1 := by
          have : k ∈ List.range' 0 (objs.length + 1) := by rw [hsplit]; simp
          simpa using this
        have hmem : j ∈ List.range' 0 (objs.length + 1) := by simp; omega
        have hsorted : (List.range' 0 (objs.length + 1)).Pairwise (· < ·) := List.pairwise_lt_range'
        rw [hsplit] at hmem hsorted
        rcases List.mem_append.1 hmem with h | h
        · exact h
        · exfalso
          rw [List.pairwise_append] at hsorted
          rcases List.mem_cons.1 h with h | h
          · omega
          · have := (List.pairwise_cons.1 hsorted.2.1).1 j h
            omega
      have := has j hj'
      have h2 : cand cls j ∈ objs.map (·.1) := by
        by_contra hc
        simp only [hc, not_false_eq_true, decide_true, Bool.not_true, Bool.false_eq_true] at this
      exact h2

/-- Any number of registrations of objects with class names succeeds, in order, with different names. -/
theorem C173_register_all (l : List (Text × O)) :
    ∃ objs, l.foldlM (fun objs x => register objs (some x.1) x.2) ([] : List (Text × O)) = some objs ∧
      objs.map (·.2) = l.map (·.2) ∧ (objs.map (·.1)).Nodup := by
  have key : ∀ (l acc : List (Text × O)), (acc.map (·.1)).Nodup →
      ∃ objs, l.foldlM (fun objs x => register objs (some x.1) x.2) acc = some objs ∧
        objs.map (·.2) = acc.map (·.2) ++ l.map (·.2) ∧ (objs.map (·.1)).Nodup := by
    intro l
    induction l with
    | nil => intro acc h; exact ⟨acc, rfl, by simp, h⟩
    | cons x l ih =>
      intro acc h
      obtain ⟨k, h1, h2, _⟩ := C173_register acc x.1 x.2
      obtain ⟨objs, i1, i2, i3⟩ := ih (acc ++ [(if k = 0 then x.1 else x.1 ++ showNat k, x.2)]) (by
        rw [List.map_append, List.nodup_append]
        refine ⟨h, by simp, ?_⟩
        intro a ha b hb
        simp only [List.map_cons, List.map_nil, List.mem_singleton] at hb
        subst hb
        rintro rfl
        exact h2 ha)
      refine ⟨objs, ?_, by rw [i2]; simp, i3⟩
      rw [List.foldlM_cons, h1]
      exact i1
  obtain ⟨objs, h1, h2, h3⟩ := key l [] (by simp)
  exact ⟨objs, h1, by simpa using h2, h3⟩

/-- Three populations and a generator: `eoPop`, `RNG`, `eoPop1`, `eoPop2`. -/
example : ([("eoPop".toList, 0), ("RNG".toList, 1), ("eoPop".toList, 2), ("eoPop".toList, 3)] :
      List (Text × Nat)).foldlM (fun objs x => register objs (some x.1) x.2) ([] : List (Text × Nat)) =
    some [("eoPop".toList, 0), ("RNG".toList, 1), ("eoPop1".toList, 2), ("eoPop2".toList, 3)] := by
  decide +kernel

/-! ### One character -/

/-- Spec: a text that can stand in a section. -/
def Clean (c : Text) : Prop := '#' ∉ c ∧ ¬ "\\section{".toList <:+: c

/-- Spec: a name that can stand in a header. -/
def CleanName (n : Text) : Prop := '}' ∉ n ∧ '\n' ∉ n

/-- The newline in the closing tag is the only obstacle: if loading looked for the brace alone, then a file
saved in the default format (without state name) would give every object registered under a saved name what
the saved object printed (and a newline), in whatever order the objects are registered, and leave the others. -/
theorem C173_one_character (pr : O → Text) (rd : Text → O → O) (saved objs : List (Text × O)) (text : Text)
    (hsave : save (latex []) pr saved = some text) (hnd : (saved.map (·.1)).Nodup)
    (hname : ∀ x ∈ saved, CleanName x.1) (hclean : ∀ x ∈ saved, Clean (pr x.2)) :
    load latexFixed rd objs text = .done (objs.map fun x =>
      match saved.find? (fun y => y.1 == x.1) with
      | some y => (x.1, rd (pr y.2 ++ ['\n']) x.2)
      | none => x) := by
  -- the text
  have htext : ∀ l : List (Text × O), l.flatMap (fun y => (latex []).secSep ++ saveSection (latex []) pr y) =
      l.flatMap fun y => "\\section{".toList ++ y.1 ++ ['}'] ++ '\n' :: (pr y.2 ++ ['\n']) := by
    intro l
    congr 1
    funext y
    show [] ++ ("\\section{".toList ++ y.1 ++ ['}', '\n'] ++ [] ++ pr y.2 ++ [] ++ ['\n']) = _
    simp
  have hline : ∀ y ∈ saved, '\n' ∉ "\\section{".toList ++ y.1 ++ ['}'] := by
    intro y hy
    rw [List.mem_append, List.mem_append, not_or, not_or]
    exact ⟨⟨by decide, (hname y hy).2⟩, by decide⟩
  -- lines of the content of a section
  have hlines : ∀ y ∈ saved, ∃ ls : List Text, (∀ l ∈ ls, '\n' ∉ l) ∧ (∀ l ∈ ls, '#' ∉ l) ∧
      (∀ l ∈ ls, isSection latexFixed l = none) ∧ pr y.2 ++ ['\n'] = ls.flatMap (· ++ ['\n']) := by
    intro y hy
    obtain ⟨ls, h1, h2⟩ := exists_lines (pr y.2)
    have hinf : ∀ l ∈ ls, l <:+: pr y.2 ++ ['\n'] := by
      intro l hl
      rw [h2]
      obtain ⟨a, b, rfl⟩ := List.append_of_mem hl
      exact ⟨a.flatMap (· ++ ['\n']), '\n' :: b.flatMap (· ++ ['\n']), by simp⟩
    refine ⟨ls, h1, ?_, ?_, h2⟩
    · intro l hl hm
      have := (hinf l hl).subset hm
      simp only [List.mem_append, List.mem_singleton] at this
      rcases this with h | h
      · exact (hclean y hy).1 h
      · exact absurd h (by decide)
    · intro l hl
      apply isSection_none_so
      rw [find_none_iff]
      intro hpat
      have h3 : "\\section{".toList <:+: pr y.2 ++ ['\n'] := hpat.trans (hinf l hl)
      obtain ⟨a, b, hab⟩ := h3
      apply (hclean y hy).2
      rcases List.eq_nil_or_concat b with rfl | ⟨b', z, rfl⟩
      · exfalso
        have := congrArg List.getLast? hab
        simp at this
      · refine ⟨a, b', ?_⟩
        rw [List.concat_eq_append, ← List.append_assoc] at hab
        exact (List.append_inj' hab rfl).1
  -- the inner loops reach the next header or the end
  have hskip : ∀ (ls : List Text), (∀ l ∈ ls, '\n' ∉ l) → (∀ l ∈ ls, isSection latexFixed l = none) →
      ∀ (tail : Text) (fuel : Nat), (ls.flatMap (· ++ ['\n']) ++ tail).length < fuel →
      ∃ fuel', tail.length < fuel' ∧
        skipLoop latexFixed fuel (ls.flatMap (· ++ ['\n']) ++ tail) = skipLoop latexFixed fuel' tail := by
    intro ls
    induction ls with
    | nil => intro _ _ tail fuel hf; exact ⟨fuel, by simpa using hf, by simp⟩
    | cons l ls ih =>
      intro h1 h2 tail fuel hf
      cases fuel with
      | zero => simp at hf
      | succ fuel =>
        have e : (l :: ls).flatMap (· ++ ['\n']) ++ tail = l ++ '\n' :: (ls.flatMap (· ++ ['\n']) ++ tail) := by
          simp
        rw [e] at hf ⊢
        obtain ⟨f', hf', he⟩ := ih (fun x hx => h1 x (by simp [hx])) (fun x hx => h2 x (by simp [hx])) tail fuel
          (by rw [List.length_append, List.length_cons] at hf; omega)
        refine ⟨f', hf', ?_⟩
        rw [skipLoop, getline_line _ (h1 l (by simp))]
        simp only [h2 l (by simp)]
        exact he
  -- the outer loop
  have key : ∀ (l : List (Text × O)) (y : Text × O) (objs : List (Text × O)) (fuel : Nat),
      (∀ x ∈ y :: l, x ∈ saved) → l.length < fuel →
      loadLoop latexFixed rd fuel ("\\section{".toList ++ y.1 ++ ['}'])
        (pr y.2 ++ ['\n'] ++ l.flatMap fun y => "\\section{".toList ++ y.1 ++ ['}'] ++ '\n' :: (pr y.2 ++ ['\n']))
        false objs =
      .done ((y :: l).foldl (fun acc x => readInto rd x.1 (pr x.2 ++ ['\n']) acc) objs) := by
    intro l
    induction l with
    | nil =>
      intro y objs fuel hs hf
      obtain ⟨k, rfl⟩ : ∃ k, fuel = k + 1 := ⟨fuel - 1, by omega⟩
      have hy := hs y (by simp)
      obtain ⟨ls, l1, l2, l3, l4⟩ := hlines y hy
      unfold loadLoop
      rw [if_neg (by simp), isSection_header (hname y hy).1]
      simp only [List.flatMap_nil, List.foldl_cons, List.foldl_nil]
      by_cases hmem : y.1 ∈ objs.map (·.1)
      · rw [if_pos hmem]
        obtain ⟨f', hf', he⟩ := collect_lines ls l1 l2 l3 [] []
          ((ls.flatMap (· ++ ['\n']) ++ []).length + 1) (by omega)
        rw [l4, he]
        cases f' with
        | zero => simp at hf'
        | succ f' => simp [collectLoop, getline_nil]
      · rw [if_neg hmem]
        obtain ⟨f', hf', he⟩ := hskip ls l1 l3 [] ((ls.flatMap (· ++ ['\n']) ++ []).length + 1) (by omega)
        rw [l4, he]
        have hid : readInto rd y.1 (ls.flatMap (· ++ ['\n'])) objs = objs := readInto_not_mem rd _ hmem
        cases f' with
        | zero => simp at hf'
        | succ f' => simp [skipLoop, getline_nil, hid]
    | cons z l ih =>
      intro y objs fuel hs hf
      obtain ⟨k, rfl⟩ : ∃ k, fuel = k + 1 := ⟨fuel - 1, by omega⟩
      have hy := hs y (by simp)
      have hz := hs z (by simp)
      obtain ⟨ls, l1, l2, l3, l4⟩ := hlines y hy
      have htail : (z :: l).flatMap (fun y => "\\section{".toList ++ y.1 ++ ['}'] ++ '\n' :: (pr y.2 ++ ['\n'])) =
          ("\\section{".toList ++ z.1 ++ ['}']) ++ '\n' :: (pr z.2 ++ ['\n'] ++
            l.flatMap fun y => "\\section{".toList ++ y.1 ++ ['}'] ++ '\n' :: (pr y.2 ++ ['\n'])) := by
        simp
      have hrec : ∀ objs, loadLoop latexFixed rd k ("\\section{".toList ++ z.1 ++ ['}'])
          (pr z.2 ++ ['\n'] ++ l.flatMap fun y => "\\section{".toList ++ y.1 ++ ['}'] ++ '\n' :: (pr y.2 ++ ['\n']))
          false objs = _ := fun objs =>
        ih z objs k (fun x hx => hs x (by simp only [List.mem_cons] at hx ⊢; tauto)) (by simp at hf; omega)
      unfold loadLoop
      rw [if_neg (by simp), isSection_header (hname y hy).1]
      simp only
      rw [htail]
      generalize htl : (pr z.2 ++ ['\n'] ++
            l.flatMap fun y => "\\section{".toList ++ y.1 ++ ['}'] ++ '\n' :: (pr y.2 ++ ['\n'])) = tl at hrec ⊢
      rw [List.foldl_cons]
      by_cases hmem : y.1 ∈ objs.map (·.1)
      · rw [if_pos hmem]
        obtain ⟨f', hf', he⟩ := collect_lines ls l1 l2 l3 (("\\section{".toList ++ z.1 ++ ['}']) ++ '\n' :: tl) []
          ((ls.flatMap (· ++ ['\n']) ++ (("\\section{".toList ++ z.1 ++ ['}']) ++ '\n' :: tl)).length + 1) (by omega)
        rw [l4, he]
        cases f' with
        | zero => simp at hf'
        | succ f' =>
          rw [collectLoop, getline_line _ (hline z hz)]
          simp only [Bool.false_eq_true, if_false, isSection_header (hname z hz).1, List.nil_append]
          exact hrec _
      · rw [if_neg hmem]
        obtain ⟨f', hf', he⟩ := hskip ls l1 l3 (("\\section{".toList ++ z.1 ++ ['}']) ++ '\n' :: tl)
          ((ls.flatMap (· ++ ['\n']) ++ (("\\section{".toList ++ z.1 ++ ['}']) ++ '\n' :: tl)).length + 1) (by omega)
        have hid : readInto rd y.1 (pr y.2 ++ ['\n']) objs = objs := readInto_not_mem rd _ hmem
        rw [hid, l4, he]
        cases f' with
        | zero => simp at hf'
        | succ f' =>
          rw [skipLoop, getline_line _ (hline z hz)]
          simp only [isSection_header (hname z hz).1]
          exact hrec _
  -- the folds, object by object
  have hfold : ∀ (l : List (Text × O)) (objs : List (Text × O)), (l.map (·.1)).Nodup →
      l.foldl (fun acc x => readInto rd x.1 (pr x.2 ++ ['\n']) acc) objs = objs.map fun x =>
        match l.find? (fun y => y.1 == x.1) with
        | some y => (x.1, rd (pr y.2 ++ ['\n']) x.2)
        | none => x := by
    intro l
    induction l with
    | nil => intro objs _; simp
    | cons y l ih =>
      intro objs hn
      rw [List.map_cons, List.nodup_cons] at hn
      rw [List.foldl_cons, ih _ hn.2]
      unfold readInto
      rw [List.map_map]
      apply List.map_congr_left
      intro x _
      simp only [Function.comp, List.find?_cons]
      by_cases hxy : x.1 = y.1
      · rw [if_pos hxy]
        have hnone : l.find? (fun z => z.1 == x.1) = none := by
          rw [List.find?_eq_none]
          intro z hz
          simp only [beq_iff_eq]
          intro e
          exact hn.1 (List.mem_map.2 ⟨z, hz, e.trans hxy⟩)
        simp only [hnone]
        simp [hxy]
      · rw [if_neg hxy]
        have : (y.1 == x.1) = false := by simpa using fun e => hxy e.symm
        rw [this]
  cases saved with
  | nil => simp [save] at hsave
  | cons y l =>
    have ht : text = ("\\section{".toList ++ y.1 ++ ['}']) ++ '\n' :: (pr y.2 ++ ['\n'] ++
        l.flatMap fun y => "\\section{".toList ++ y.1 ++ ['}'] ++ '\n' :: (pr y.2 ++ ['\n'])) := by
      have h0 : save (latex []) pr (y :: l) = some ([] ++ [] ++ [] ++ saveSection (latex []) pr y ++
          l.flatMap (fun y => (latex []).secSep ++ saveSection (latex []) pr y) ++ []) := rfl
      rw [h0, htext] at hsave
      have h1 : saveSection (latex []) pr y =
          "\\section{".toList ++ y.1 ++ ['}', '\n'] ++ [] ++ pr y.2 ++ [] ++ ['\n'] := rfl
      rw [h1, Option.some.injEq] at hsave
      rw [← hsave]
      simp
    have hlen : l.length < text.length + 1 := by
      have : ∀ l : List (Text × O), l.length ≤ (l.flatMap fun y =>
          "\\section{".toList ++ y.1 ++ ['}'] ++ '\n' :: (pr y.2 ++ ['\n'])).length := by
        intro l
        induction l with
        | nil => simp
        | cons a l ih => simp only [List.length_cons, List.flatMap_cons, List.length_append]; omega
      have := this l
      rw [ht]
      simp only [List.length_append, List.length_cons]
      omega
    unfold load
    rw [ht, getline_line _ (hline y (by simp))]
    simp only
    rw [ht] at hlen
    rw [key l y objs _ (fun x hx => hx) hlen, hfold _ _ hnd]

/-- The example above, with the brace alone. -/
example : load latexFixed (fun s _ => s) [("pop".toList, []), ("rng".toList, []), ("x".toList, "k".toList)]
      "\\section{rng}\n7 8\n\n\\section{pop}\n1\n5 10\n\n".toList =
      .done [("pop".toList, "1\n5 10\n\n".toList), ("rng".toList, "7 8\n\n".toList), ("x".toList, "k".toList)] := by
  decide +kernel

end Paradiseo.State
