import Verif.Model.SymCompile

/-! Lemmas on printed formulas and the reading of them. -/

namespace Paradiseo.MathSym

variable {V : Type}

/-! ### Comments -/

theorem strip_ch {c : Char} (h : c ≠ '/') (r : Code V) : strip .code (.ch c :: r) = .ch c :: strip .code r := by
  rw [strip]
  · intro r' hh _; cases hh; exact h rfl
  · intro r' hh _; cases hh; exact h rfl

theorem strip_num (v : V) (r : Code V) : strip .code (.num v :: r) = .num v :: strip .code r := by
  rw [strip] <;> intro _ hh <;> cases hh

theorem strip_input (i : Nat) (r : Code V) : strip .code (.input i :: r) = .input i :: strip .code r := by
  rw [strip] <;> intro _ hh <;> cases hh

theorem strip_loc (i : Nat) (r : Code V) : strip .code (.loc i :: r) = .loc i :: strip .code r := by
  rw [strip] <;> intro _ hh <;> cases hh

theorem strip_name (f : Fn) (r : Code V) : strip .code (.name f :: r) = .name f :: strip .code r := by
  rw [strip] <;> intro _ hh <;> cases hh

theorem strip_slash {g : G V} (h1 : g ≠ .ch '/') (h2 : g ≠ .ch '*') (r : Code V) :
    strip .code (.ch '/' :: g :: r) = .ch '/' :: strip .code (g :: r) := by
  rw [strip]
  · intro r' _ hh; cases hh; exact h1 rfl
  · intro r' _ hh; cases hh; exact h2 rfl

theorem strip_open (r : Code V) : strip .code (openMark ++ r) = strip .code r := by
  show strip .block (.ch 'f' :: .ch '*' :: .ch '/' :: r) = _
  rfl

theorem strip_close (r : Code V) : strip .code (closeMark ++ r) = strip .code r := by
  show strip .block (.ch 'e' :: .ch 'o' :: .ch 'f' :: .ch '*' :: .ch '/' :: r) = _
  rfl

/-! ### Reading -/

/-- What follows is the end or one of these characters. -/
def Ends (cs : List Char) (r : Code V) : Prop := r = [] ∨ ∃ c ∈ cs, ∃ r', r = .ch c :: r'

theorem Ends.ch {cs : List Char} {c : Char} (h : c ∈ cs) (r : Code V) : Ends cs (.ch c :: r) :=
  Or.inr ⟨c, h, r, rfl⟩

theorem Ends.mono {cs ds : List Char} (h : ∀ c ∈ cs, c ∈ ds) {r : Code V} (hr : Ends cs r) : Ends ds r := by
  rcases hr with rfl | ⟨c, hc, r', rfl⟩
  · exact Or.inl rfl
  · exact Or.inr ⟨c, h c hc, r', rfl⟩

def endsE : List Char := [')', ',', ':']
def endsR : List Char := [')', ',', ':', '?']
def endsA : List Char := [')', ',', ':', '?', '<']
def endsM : List Char := [')', ',', ':', '?', '<', '+', '-']

/-- The text is read as a primary expression whatever follows. -/
def PrimAt (s : Code V) (a : CE V) : Prop := ∃ N, ∀ n, N ≤ n → ∀ r, parse n .prim (s ++ r) = some (a, r)

/-- The text is read at this level when followed by one of these characters. -/
def ReadAt (l : Lvl V) (cs : List Char) (s : Code V) (a : CE V) : Prop :=
  ∃ N, ∀ n, N ≤ n → ∀ r, Ends cs r → parse n l (s ++ r) = some (a, r)

theorem mulRest_end (n : Nat) (a : CE V) {r : Code V} (h : Ends endsM r) :
    parse (n + 1) (.mulRest a) r = some (a, r) := by
  rcases h with rfl | ⟨c, hc, r', rfl⟩
  · rfl
  · simp only [endsM, List.mem_cons, List.not_mem_nil, or_false] at hc
    rcases hc with rfl | rfl | rfl | rfl | rfl | rfl | rfl <;> rfl

theorem addRest_end (n : Nat) (a : CE V) {r : Code V} (h : Ends endsA r) :
    parse (n + 1) (.addRest a) r = some (a, r) := by
  rcases h with rfl | ⟨c, hc, r', rfl⟩
  · rfl
  · simp only [endsA, List.mem_cons, List.not_mem_nil, or_false] at hc
    rcases hc with rfl | rfl | rfl | rfl | rfl <;> rfl

theorem un_of_prim {s : Code V} {a : CE V} (h : PrimAt s a) :
    ∃ N, ∀ n, N ≤ n → ∀ r, parse n .un (s ++ r) = some (a, r) := by
  obtain ⟨N, hN⟩ := h
  refine ⟨N + 1, fun n hn r => ?_⟩
  obtain ⟨m, rfl⟩ : ∃ m, n = m + 1 := ⟨n - 1, by omega⟩
  have hp := hN (m + 1) (by omega)
  have hq := hN m (by omega) r
  cases s with
  | nil => exact absurd (hp []) (by simp [parse])
  | cons g s =>
    rw [← hq, List.cons_append, parse]
    intro r' hh
    cases hh
    have := hp r
    rw [List.cons_append, parse] at this
    · cases this
    all_goals (intros; simp_all)

/-- A sequence of texts, each after a separator. -/
def flat (c : Char) : List (Code V × CE V) → Code V
  | [] => []
  | p :: ps => .ch c :: p.1 ++ flat c ps

theorem mulRest_flat : ∀ ps : List (Code V × CE V), (∀ p ∈ ps, PrimAt p.1 p.2) →
    ∃ N, ∀ n, N ≤ n → ∀ a r, Ends endsM r →
      parse n (.mulRest a) (flat '*' ps ++ r) = some (ps.foldl (fun a p => .mul a p.2) a, r)
  | [], _ => ⟨1, fun n hn a r hr => by
      obtain ⟨m, rfl⟩ : ∃ m, n = m + 1 := ⟨n - 1, by omega⟩
      exact mulRest_end m a hr⟩
  | p :: ps, h => by
      obtain ⟨N1, h1⟩ := un_of_prim (h p (by simp))
      obtain ⟨N2, h2⟩ := mulRest_flat ps fun q hq => h q (by simp [hq])
      refine ⟨N1 + N2 + 1, fun n hn a r hr => ?_⟩
      obtain ⟨m, rfl⟩ : ∃ m, n = m + 1 := ⟨n - 1, by omega⟩
      have e : flat '*' (p :: ps) ++ r = .ch '*' :: (p.1 ++ (flat '*' ps ++ r)) := by simp [flat]
      rw [e, parse, h1 m (by omega)]
      exact h2 m (by omega) _ r hr

theorem mul_flat {s : Code V} {a : CE V} (h : PrimAt s a) (ps : List (Code V × CE V))
    (hp : ∀ p ∈ ps, PrimAt p.1 p.2) :
    ReadAt .mul endsM (s ++ flat '*' ps) (ps.foldl (fun a p => .mul a p.2) a) := by
  obtain ⟨N1, h1⟩ := un_of_prim h
  obtain ⟨N2, h2⟩ := mulRest_flat ps hp
  refine ⟨N1 + N2 + 1, fun n hn r hr => ?_⟩
  obtain ⟨m, rfl⟩ : ∃ m, n = m + 1 := ⟨n - 1, by omega⟩
  rw [parse, List.append_assoc, h1 m (by omega)]
  exact h2 m (by omega) a r hr

theorem mul_of_prim {s : Code V} {a : CE V} (h : PrimAt s a) : ReadAt .mul endsM s a := by
  have := mul_flat h [] (by simp)
  simpa [flat] using this

theorem addRest_flat : ∀ ps : List (Code V × CE V), (∀ p ∈ ps, PrimAt p.1 p.2) →
    ∃ N, ∀ n, N ≤ n → ∀ a r, Ends endsA r →
      parse n (.addRest a) (flat '+' ps ++ r) = some (ps.foldl (fun a p => .add a p.2) a, r)
  | [], _ => ⟨1, fun n hn a r hr => by
      obtain ⟨m, rfl⟩ : ∃ m, n = m + 1 := ⟨n - 1, by omega⟩
      exact addRest_end m a hr⟩
  | p :: ps, h => by
      obtain ⟨N1, h1⟩ := mul_of_prim (h p (by simp))
      obtain ⟨N2, h2⟩ := addRest_flat ps fun q hq => h q (by simp [hq])
      refine ⟨N1 + N2 + 1, fun n hn a r hr => ?_⟩
      obtain ⟨m, rfl⟩ : ∃ m, n = m + 1 := ⟨n - 1, by omega⟩
      have e : flat '+' (p :: ps) ++ r = .ch '+' :: (p.1 ++ (flat '+' ps ++ r)) := by simp [flat]
      have en : Ends endsM (flat '+' ps ++ r) := by
        cases ps with
        | nil => exact hr.mono (by decide)
        | cons q qs => exact Ends.ch (by decide) _
      rw [e, parse, h1 m (by omega) _ en]
      exact h2 m (by omega) _ r hr

theorem add_of_mul {s : Code V} {a : CE V} (h : ReadAt .mul endsM s a) (ps : List (Code V × CE V))
    (hp : ∀ p ∈ ps, PrimAt p.1 p.2) :
    ReadAt .add endsA (s ++ flat '+' ps) (ps.foldl (fun a p => .add a p.2) a) := by
  obtain ⟨N1, h1⟩ := h
  obtain ⟨N2, h2⟩ := addRest_flat ps hp
  refine ⟨N1 + N2 + 1, fun n hn r hr => ?_⟩
  obtain ⟨m, rfl⟩ : ∃ m, n = m + 1 := ⟨n - 1, by omega⟩
  have en : Ends endsM (flat '+' ps ++ r) := by
    cases ps with
    | nil => exact hr.mono (by decide)
    | cons q qs => exact Ends.ch (by decide) _
  rw [parse, List.append_assoc, h1 m (by omega) _ en]
  exact h2 m (by omega) a r hr

theorem rel_of_add {s : Code V} {a : CE V} (h : ReadAt .add endsA s a) : ReadAt .rel endsR s a := by
  obtain ⟨N, hN⟩ := h
  refine ⟨N + 1, fun n hn r hr => ?_⟩
  obtain ⟨m, rfl⟩ : ∃ m, n = m + 1 := ⟨n - 1, by omega⟩
  rw [parse, hN m (by omega) r (hr.mono (by decide))]
  rcases hr with rfl | ⟨c, hc, r', rfl⟩
  · rfl
  · simp only [endsR, List.mem_cons, List.not_mem_nil, or_false] at hc
    rcases hc with rfl | rfl | rfl | rfl <;> rfl

theorem rel_lt {s t : Code V} {a b : CE V} (h : ReadAt .add endsA s a) (h' : ReadAt .add endsA t b) :
    ReadAt .rel endsR (s ++ .ch '<' :: t) (.lt a b) := by
  obtain ⟨N, hN⟩ := h
  obtain ⟨M, hM⟩ := h'
  refine ⟨N + M + 1, fun n hn r hr => ?_⟩
  obtain ⟨m, rfl⟩ : ∃ m, n = m + 1 := ⟨n - 1, by omega⟩
  rw [parse, List.append_assoc, List.cons_append,
    hN m (by omega) (.ch '<' :: (t ++ r)) (Ends.ch (by decide) _)]
  show (match parse m .add (t ++ r) with
      | some (b, r2) => some (CE.lt a b, r2)
      | none => none) = _
  rw [hM m (by omega) r (hr.mono (by decide))]

theorem expr_of_rel {s : Code V} {a : CE V} (h : ReadAt .rel endsR s a) : ReadAt .expr endsE s a := by
  obtain ⟨N, hN⟩ := h
  refine ⟨N + 1, fun n hn r hr => ?_⟩
  obtain ⟨m, rfl⟩ : ∃ m, n = m + 1 := ⟨n - 1, by omega⟩
  rw [parse, hN m (by omega) r (hr.mono (by decide))]
  rcases hr with rfl | ⟨c, hc, r', rfl⟩
  · rfl
  · simp only [endsE, List.mem_cons, List.not_mem_nil, or_false] at hc
    rcases hc with rfl | rfl | rfl <;> rfl

theorem expr_cond {s t u : Code V} {a b c : CE V} (hs : ReadAt .rel endsR s a) (ht : ReadAt .expr endsE t b)
    (hu : ReadAt .expr endsE u c) : ReadAt .expr endsE (s ++ .ch '?' :: (t ++ .ch ':' :: u)) (.cond a b c) := by
  obtain ⟨N, hN⟩ := hs
  obtain ⟨M, hM⟩ := ht
  obtain ⟨K, hK⟩ := hu
  refine ⟨N + M + K + 1, fun n hn r hr => ?_⟩
  obtain ⟨m, rfl⟩ : ∃ m, n = m + 1 := ⟨n - 1, by omega⟩
  have e : s ++ .ch '?' :: (t ++ .ch ':' :: u) ++ r = s ++ .ch '?' :: (t ++ .ch ':' :: (u ++ r)) := by simp
  rw [e, parse, hN m (by omega) _ (Ends.ch (by decide) _)]
  show (match parse m .expr (t ++ .ch ':' :: (u ++ r)) with
      | some (b, .ch ':' :: r2) =>
        match parse m .expr r2 with
        | some (c, r3) => some (CE.cond a b c, r3)
        | none => none
      | _ => none) = _
  rw [hM m (by omega) _ (Ends.ch (by decide) _)]
  show (match parse m .expr (u ++ r) with
        | some (c, r3) => some (CE.cond a b c, r3)
        | none => none) = _
  rw [hK m (by omega) r hr]

theorem add_of_prim {s : Code V} {a : CE V} (h : PrimAt s a) : ReadAt .add endsA s a := by
  have := add_of_mul (mul_of_prim h) [] (by simp)
  simpa [flat] using this

theorem expr_of_prim {s : Code V} {a : CE V} (h : PrimAt s a) : ReadAt .expr endsE s a :=
  expr_of_rel (rel_of_add (add_of_prim h))

theorem prim_paren {s : Code V} {a : CE V} (h : ReadAt .expr endsE s a) : PrimAt (.ch '(' :: s ++ [.ch ')']) a := by
  obtain ⟨N, hN⟩ := h
  refine ⟨N + 1, fun n hn r => ?_⟩
  obtain ⟨m, rfl⟩ : ∃ m, n = m + 1 := ⟨n - 1, by omega⟩
  have e : .ch '(' :: s ++ [.ch ')'] ++ r = .ch '(' :: (s ++ .ch ')' :: r) := by simp
  rw [e, parse, hN m (by omega) _ (Ends.ch (by decide) _)]
  rfl

theorem prim_call1 (f : Fn) {s : Code V} {a : CE V} (h : ReadAt .expr endsE s a) :
    PrimAt (.name f :: .ch '(' :: s ++ [.ch ')']) (.call1 f a) := by
  obtain ⟨N, hN⟩ := h
  refine ⟨N + 1, fun n hn r => ?_⟩
  obtain ⟨m, rfl⟩ : ∃ m, n = m + 1 := ⟨n - 1, by omega⟩
  have e : .name f :: .ch '(' :: s ++ [.ch ')'] ++ r = .name f :: .ch '(' :: (s ++ .ch ')' :: r) := by simp
  rw [e, parse, hN m (by omega) _ (Ends.ch (by decide) _)]
  rfl

theorem prim_call2 (f : Fn) {s t : Code V} {a b : CE V} (h : ReadAt .expr endsE s a) (h' : ReadAt .expr endsE t b) :
    PrimAt (.name f :: .ch '(' :: s ++ .ch ',' :: t ++ [.ch ')']) (.call2 f a b) := by
  obtain ⟨N, hN⟩ := h
  obtain ⟨M, hM⟩ := h'
  refine ⟨N + M + 1, fun n hn r => ?_⟩
  obtain ⟨m, rfl⟩ : ∃ m, n = m + 1 := ⟨n - 1, by omega⟩
  have e : .name f :: .ch '(' :: s ++ .ch ',' :: t ++ [.ch ')'] ++ r
      = .name f :: .ch '(' :: (s ++ .ch ',' :: (t ++ .ch ')' :: r)) := by simp
  rw [e, parse, hN m (by omega) _ (Ends.ch (by decide) _)]
  show (match parse m .expr (t ++ .ch ')' :: r) with
      | some (b, .ch ')' :: r2) => some (CE.call2 f a b, r2)
      | _ => none) = _
  rw [hM m (by omega) _ (Ends.ch (by decide) _)]
  rfl

theorem prim_num (v : V) : PrimAt [.num v] (.num v) :=
  ⟨1, fun n hn r => by obtain ⟨m, rfl⟩ : ∃ m, n = m + 1 := ⟨n - 1, by omega⟩; rfl⟩

theorem prim_input (i : Nat) : PrimAt (V := V) [.input i] (.input i) :=
  ⟨1, fun n hn r => by obtain ⟨m, rfl⟩ : ∃ m, n = m + 1 := ⟨n - 1, by omega⟩; rfl⟩

theorem prim_loc (i : Nat) : PrimAt (V := V) [.loc i] (.loc i) :=
  ⟨1, fun n hn r => by obtain ⟨m, rfl⟩ : ∃ m, n = m + 1 := ⟨n - 1, by omega⟩; rfl⟩

/-- "(1./s)". -/
theorem prim_inv [One V] {s : Code V} {a : CE V} (h : PrimAt s a) :
    PrimAt (.ch '(' :: .num 1 :: .ch '/' :: s ++ [.ch ')']) (.div (.num 1) a) := by
  have hm : ReadAt .mul endsM (.num 1 :: .ch '/' :: s) (.div (.num 1) a) := by
    obtain ⟨N1, h1⟩ := un_of_prim (prim_num (1 : V))
    obtain ⟨N2, h2⟩ := un_of_prim h
    refine ⟨N1 + N2 + 3, fun n hn r hr => ?_⟩
    obtain ⟨m, rfl⟩ : ∃ m, n = m + 3 := ⟨n - 3, by omega⟩
    have e : .num 1 :: .ch '/' :: s ++ r = [.num 1] ++ (.ch '/' :: (s ++ r)) := by simp
    rw [e, parse, h1 (m + 2) (by omega)]
    show parse (m + 2) (.mulRest (.num 1)) (.ch '/' :: (s ++ r)) = _
    rw [parse, h2 (m + 1) (by omega)]
    exact mulRest_end m _ hr
  have ha := add_of_mul hm [] (by simp)
  simp only [flat, List.append_nil, List.foldl_nil] at ha
  exact prim_paren (expr_of_rel (rel_of_add ha))

/-- "(-s)". -/
theorem prim_min {s : Code V} {a : CE V} (h : PrimAt s a) :
    PrimAt (.ch '(' :: .ch '-' :: s ++ [.ch ')']) (.neg a) := by
  have hm : ReadAt .mul endsM (.ch '-' :: s) (.neg a) := by
    obtain ⟨N2, h2⟩ := un_of_prim h
    refine ⟨N2 + 3, fun n hn r hr => ?_⟩
    obtain ⟨m, rfl⟩ : ∃ m, n = m + 3 := ⟨n - 3, by omega⟩
    have hu : parse (m + 2) .un (.ch '-' :: s ++ r) = some (.neg a, r) := by
      rw [List.cons_append, parse, h2 (m + 1) (by omega)]
    rw [parse, hu]
    exact mulRest_end (m + 1) _ hr
  have ha := add_of_mul hm [] (by simp)
  simp only [flat, List.append_nil, List.foldl_nil] at ha
  exact prim_paren (expr_of_rel (rel_of_add ha))

end Paradiseo.MathSym
