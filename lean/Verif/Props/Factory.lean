/-
C261: the algorithm built by make_algo_scalar; C262: the stopping criterion; C263: the initial population; C264: the
variation operators; C265: the general replacements of make_algo_easea; C266: the niche size of make_ea_moeo.
-/
import Verif.Model.Factory
import Verif.Props.EOContinue
import Verif.Props.EOReplacementOps
import Verif.Props.State
import Verif.Props.Init
import Mathlib.Tactic.Linarith
import Mathlib.Tactic.NormNum

namespace Paradiseo.Factory

open Paradiseo.EO

variable {α F : Type} [LinearOrder F]

/-! ### C261: selection and replacement -/

/-- The keywords of the selections, as documented. -/
def selectionNames : List Text :=
  [kw "DetTour", kw "Sharing", kw "StochTour", kw "Ranking", kw "Sequential", kw "Roulette", kw "Random"]

/-- **C261** (selection).  A selection is built exactly for the seven keywords, `Sharing` needing a distance besides;
otherwise an exception is thrown. -/
theorem C261_selection (atof : Text → ℚ) (dist : Bool) (pp : PP) :
    ((∃ x, makeSelect atof dist pp = .ok x) ↔ pp.key ∈ selectionNames ∧ (pp.key = kw "Sharing" → dist = true)) ∧
    ∀ e, makeSelect atof dist pp = .error e → e = .thrown := by
  obtain ⟨key, args⟩ := pp
  have good : ∀ (x : Sel × List Text), key ∈ selectionNames → (key = kw "Sharing" → dist = true) →
      ((∃ y, (Except.ok x : Except Err (Sel × List Text)) = .ok y) ↔
        key ∈ selectionNames ∧ (key = kw "Sharing" → dist = true)) ∧
      ∀ e, (Except.ok x : Except Err (Sel × List Text)) = .error e → e = .thrown :=
    fun x h1 h2 => ⟨⟨fun _ => ⟨h1, h2⟩, fun _ => ⟨x, rfl⟩⟩, fun e h => (by cases h)⟩
  have bad : ¬ (key ∈ selectionNames ∧ (key = kw "Sharing" → dist = true)) →
      ((∃ y, (Except.error .thrown : Except Err (Sel × List Text)) = .ok y) ↔
        key ∈ selectionNames ∧ (key = kw "Sharing" → dist = true)) ∧
      ∀ e, (Except.error .thrown : Except Err (Sel × List Text)) = .error e → e = .thrown :=
    fun h1 => ⟨⟨fun ⟨_, h⟩ => (by cases h), fun h => absurd h h1⟩, fun e h => (by cases h; rfl)⟩
  have key1 : ∀ G : Except Err (Sel × List Text) → Prop,
      (∀ x, key ∈ selectionNames → (key = kw "Sharing" → dist = true) → G (.ok x)) →
      (¬ (key ∈ selectionNames ∧ (key = kw "Sharing" → dist = true)) → G (.error .thrown)) →
      G (makeSelect atof dist ⟨key, args⟩) := by
    intro G good bad
    unfold makeSelect
    dsimp only
    split_ifs with h1 h2 h3 h4 h5 h6 h7 h8
    · exact good _ (by rw [h1]; decide) (fun h => absurd h (by rw [h1]; decide))
    · exact good _ (by rw [h2]; decide) (fun _ => h3)
    · exact bad (fun h => h3 (h.2 h2))
    · exact good _ (by rw [h4]; decide) (fun h => absurd h h2)
    · exact good _ (by rw [h5]; decide) (fun h => absurd h h2)
    · exact good _ (by rw [h6]; decide) (fun h => absurd h h2)
    · exact good _ (by rw [h7]; decide) (fun h => absurd h h2)
    · exact good _ (by rw [h8]; decide) (fun h => absurd h h2)
    · refine bad (fun h => ?_)
      have := h.1
      simp only [selectionNames, List.mem_cons, List.not_mem_nil, or_false] at this
      rcases this with h | h | h | h | h | h | h
      exacts [h1 h, h2 h, h4 h, h5 h, h6 h, h7 h, h8 h]
  exact key1 (fun z => ((∃ x, z = .ok x) ↔ key ∈ selectionNames ∧ (key = kw "Sharing" → dist = true)) ∧
    ∀ e, z = .error e → e = .thrown) good bad

theorem rankingArgs_legal (atof : Text → ℚ) (args : List Text) :
    1 < (rankingArgs atof args).1 ∧ (rankingArgs atof args).1 ≤ 2 ∧ 0 < (rankingArgs atof args).2.1 := by
  unfold rankingArgs
  dsimp only
  generalize (match args with
    | [a, b] => (atof a, atof b, [a, b])
    | [a] => (atof a, 1, [a, kw "1"])
    | _ => (2, 1, [kw "2", kw "1"]) : ℚ × ℚ × List Text) = r
  split_ifs with h1 h2 h2
  · exact ⟨by norm_num, le_rfl, by norm_num⟩
  · exact ⟨by norm_num, le_rfl, not_le.1 h2⟩
  · push Not at h1
    exact ⟨h1.1, h1.2, by norm_num⟩
  · push Not at h1
    exact ⟨h1.1, h1.2, not_le.1 h2⟩

/-- **C261** (legal).  Whatever is written, a tournament has at least two competitors, and the pressure of a ranking is
above 1 and at most 2 and its exponent positive; of a stochastic tournament or of sharing the number given is taken as
it is. -/
theorem C261_legal (atof : Text → ℚ) (dist : Bool) (pp : PP) (s : Sel) (args : List Text)
    (h : makeSelect atof dist pp = .ok (s, args)) :
    match s with
    | .det n => 2 ≤ n
    | .ranking p e => 1 < p ∧ p ≤ 2 ∧ 0 < e
    | .stoch p => p = (match pp.args with | [] => 1 | a :: _ => atof a)
    | .sharing n => n = (match pp.args with | [] => 1 / 2 | a :: _ => atof a)
    | _ => True := by
  obtain ⟨key, as⟩ := pp
  unfold makeSelect at h
  dsimp only at h
  split_ifs at h <;> cases h
  · exact le_max_right _ _
  · cases as <;> rfl
  · cases as <;> rfl
  · exact rankingArgs_legal atof as
  · trivial
  · trivial
  · trivial

/-- After a selection has been built, its arguments are missing only for `Roulette` and `Random` given none. -/
theorem makeSelect_args (atof : Text → ℚ) (dist : Bool) (pp : PP) (s : Sel) (args : List Text)
    (h : makeSelect atof dist pp = .ok (s, args)) :
    args = [] ↔ (pp.key = kw "Roulette" ∨ pp.key = kw "Random") ∧ pp.args = [] := by
  obtain ⟨key, as⟩ := pp
  unfold makeSelect at h
  dsimp only at h
  have hr : (rankingArgs atof as).2.2 ≠ [] := by
    unfold rankingArgs
    dsimp only
    split_ifs <;> (split <;> simp)
  split_ifs at h with h1 h2 h3 h4 h5 h6 h7 h8 <;> cases h <;> (try subst h1) <;> (try subst h2) <;> (try subst h4) <;>
    (try subst h5) <;> (try subst h6) <;> (try subst h7) <;> (try subst h8)
  · have : ¬ (kw "DetTour" = kw "Roulette" ∨ kw "DetTour" = kw "Random") := by decide
    cases as <;> simp [arg1, this]
  · have : ¬ (kw "Sharing" = kw "Roulette" ∨ kw "Sharing" = kw "Random") := by decide
    cases as <;> simp [arg1, this]
  · have : ¬ (kw "StochTour" = kw "Roulette" ∨ kw "StochTour" = kw "Random") := by decide
    cases as <;> simp [arg1, this]
  · have : ¬ (kw "Ranking" = kw "Roulette" ∨ kw "Ranking" = kw "Random") := by decide
    simp [hr, this]
  · have : ¬ (kw "Sequential" = kw "Roulette" ∨ kw "Sequential" = kw "Random") := by decide
    cases as <;> simp [arg1, this]
  · simp
  · simp

/-- The keywords of the replacements that take a parameter. -/
def withParameter : List Text := [kw "EPTour", kw "SSGADet", kw "SSGAStoch"]

/-- The keywords of the replacements. -/
def replacementNames : List Text := [kw "Comma", kw "Plus", kw "SSGAWorst"] ++ withParameter

/-- **C261** (own argument).  The argument written for a replacement is never looked at: any other one gives the same
algorithm. -/
theorem C261_own_argument (atof : Text → ℚ) (dist : Bool) (sel : PP) (key : Text) (args args' : List Text)
    (h : args ≠ []) (h' : args' ≠ []) (weakElitism : Bool) :
    makeAlgo atof dist sel ⟨key, args⟩ weakElitism = makeAlgo atof dist sel ⟨key, args'⟩ weakElitism := by
  cases args with
  | nil => exact absurd rfl h
  | cons a l =>
    cases args' with
    | nil => exact absurd rfl h'
    | cons a' l' => rfl

/-- **C261** (parameter).  Instead the first argument of the *selection* is taken: the size or rate of the
replacement is that of the selection, converted as the replacement needs it. -/
theorem C261_parameter (atof : Text → ℚ) (dist : Bool) (sel : PP) (s : Sel) (a : Text) (l : List Text)
    (hsel : makeSelect atof dist sel = .ok (s, a :: l)) (arg : Text) (more : List Text) :
    makeAlgo atof dist sel ⟨kw "EPTour", arg :: more⟩ false = .ok (s, .ep (atou a)) ∧
    makeAlgo atof dist sel ⟨kw "SSGADet", arg :: more⟩ false = .ok (s, .ssgaDet (atou a)) ∧
    makeAlgo atof dist sel ⟨kw "SSGAStoch", arg :: more⟩ false = .ok (s, .ssgaStoch (atof a)) := by
  unfold makeAlgo
  rw [hsel]
  exact ⟨rfl, rfl, rfl⟩

/-- **C261** (undefined).  Building the algorithm is undefined exactly if a replacement with an argument is combined with
`Roulette` or `Random` without one. -/
theorem C261_undefined (atof : Text → ℚ) (dist : Bool) (sel repl : PP) (weakElitism : Bool) :
    makeAlgo atof dist sel repl weakElitism = .error .ub ↔
      (sel.key = kw "Roulette" ∨ sel.key = kw "Random") ∧ sel.args = [] ∧ repl.key ∈ withParameter ∧ repl.args ≠ [] := by
  unfold makeAlgo
  cases hs : makeSelect atof dist sel with
  | error e =>
    dsimp only
    have he := (C261_selection atof dist sel).2 e hs
    subst he
    refine ⟨fun h => (by cases h), ?_⟩
    rintro ⟨h1, _⟩
    exfalso
    have : ∃ x, makeSelect atof dist sel = .ok x := by
      rw [(C261_selection atof dist sel).1]
      rcases h1 with h1 | h1 <;> rw [h1] <;> exact ⟨by simp [selectionNames], fun h => absurd h (by decide)⟩
    obtain ⟨x, hx⟩ := this
    rw [hs] at hx
    cases hx
  | ok p =>
    obtain ⟨s, args⟩ := p
    dsimp only
    rw [← and_assoc, ← makeSelect_args atof dist sel s args hs]
    obtain ⟨key, as⟩ := repl
    have key1 : makeReplace atof args ⟨key, as⟩ weakElitism = .error .ub ↔ args = [] ∧ key ∈ withParameter ∧ as ≠ [] := by
      unfold makeReplace
      dsimp only
      have hra : ∀ {β : Type} (conv : Text → β) (d : β) (g : β → Repl) (w : Repl → Repl),
          ((replArg conv d args as).map g).map w = .error .ub ↔ args = [] ∧ as ≠ [] := by
        intro β conv d g w
        cases as with
        | nil => simp [replArg, Except.map]
        | cons x l => cases args <;> simp [replArg, Except.map]
      generalize (fun x : Repl => if weakElitism = true then x.weak else x) = w
      split_ifs with h1 h2 h3 h4 h5 h6
      · subst h1
        simp [Except.map, withParameter, show ¬ kw "Comma" = kw "EPTour" by decide,
          show ¬ kw "Comma" = kw "SSGADet" by decide, show ¬ kw "Comma" = kw "SSGAStoch" by decide]
      · subst h2
        simp [Except.map, withParameter, show ¬ kw "Plus" = kw "EPTour" by decide,
          show ¬ kw "Plus" = kw "SSGADet" by decide, show ¬ kw "Plus" = kw "SSGAStoch" by decide]
      · rw [hra]; subst h3; simp [withParameter]
      · subst h4
        simp [Except.map, withParameter, show ¬ kw "SSGAWorst" = kw "EPTour" by decide,
          show ¬ kw "SSGAWorst" = kw "SSGADet" by decide, show ¬ kw "SSGAWorst" = kw "SSGAStoch" by decide]
      · rw [hra]; subst h5; simp [withParameter]
      · rw [hra]; subst h6; simp [withParameter]
      · simp [Except.map, withParameter, h3, h5, h6]
    rw [← key1]
    cases makeReplace atof args ⟨key, as⟩ weakElitism <;> simp

/-- With the default selection `DetTour(2)` every `SSGADet(T)` and `EPTour(T)` has the size 2; with `Roulette` it is
undefined. -/
theorem C261_examples (atof : Text → ℚ) (dist : Bool) (T : Text) :
    makeAlgo atof dist ⟨kw "DetTour", [kw "2"]⟩ ⟨kw "SSGADet", [T]⟩ false = .ok (.det 2, .ssgaDet 2) ∧
    makeAlgo atof dist ⟨kw "DetTour", [kw "2"]⟩ ⟨kw "EPTour", [T]⟩ false = .ok (.det 2, .ep 2) ∧
    makeAlgo atof dist ⟨kw "Roulette", []⟩ ⟨kw "SSGADet", [T]⟩ false = .error .ub ∧
    makeAlgo atof dist ⟨kw "Roulette", []⟩ ⟨kw "SSGADet", []⟩ true = .ok (.roulette, .weak (.ssgaDet 2)) := by
  refine ⟨rfl, rfl, rfl, rfl⟩

/-- The library functions do what the standard promises. -/
structure Env.Lawful (E : Env α F) : Prop where
  sort : IsSort E.f E.sort
  nthEP : IsNth (epKey E.f) E.nthEP
  nth : IsNth E.f E.nth
  shuffle : ∀ l, (E.shuffle l).Perm l

theorem reduceMerge_size (red : Reducer α) (hred : Exact red) (parents offspring res off : List α)
    (h : reduceMerge red EO.plus parents offspring = .ok (res, off)) : res.length = parents.length := by
  unfold reduceMerge at h
  split_ifs at h with h1
  cases hk : red parents (parents.length - offspring.length) with
  | error e => rw [hk] at h; cases h
  | ok kept =>
    rw [hk] at h
    simp only [EO.plus, Except.ok.injEq, Prod.mk.injEq] at h
    obtain ⟨h2, _⟩ := h
    rw [← h2, List.length_append, (hred _ _ _ hk).1]
    omega

theorem mergeReduce_size (m : Merge α) (red : Reducer α) (hred : Exact red) (parents offspring res off : List α)
    (h : mergeReduce m red parents offspring = .ok (res, off)) : res.length = parents.length := by
  unfold mergeReduce at h
  cases hm : m parents offspring with
  | error e => rw [hm] at h; cases h
  | ok merged =>
    rw [hm] at h
    dsimp only at h
    cases hk : red merged parents.length with
    | error e => rw [hk] at h; cases h
    | ok kept =>
      rw [hk] at h
      simp only [Except.ok.injEq, Prod.mk.injEq] at h
      rw [← h.1]
      exact (hred _ _ _ hk).1

/-- **C261** (size).  Every replacement that can be built keeps the size of the population. -/
theorem C261_size (E : Env α F) (hE : E.Lawful) (r : Repl) : ∀ (parents offspring res off : List α),
    r.run E parents offspring = .ok (res, off) → res.length = parents.length := by
  obtain ⟨ht, hrd, hep, hl, hd, hst⟩ := C50_all_exact E.f E.sort E.shuffle hE.sort hE.shuffle 0 E.r E.flip E.fuel E.nthEP
    hE.nthEP
  induction r with
  | comma => exact fun _ _ _ _ h => mergeReduce_size (elitism E.nth 0 0) _ ht _ _ _ _ h
  | plus => exact fun _ _ _ _ h => mergeReduce_size EO.plus _ ht _ _ _ _ h
  | ep n =>
    obtain ⟨_, _, hep, _⟩ := C50_all_exact E.f E.sort E.shuffle hE.sort hE.shuffle n E.r E.flip E.fuel E.nthEP hE.nthEP
    exact fun _ _ _ _ h => mergeReduce_size EO.plus _ hep _ _ _ _ h
  | ssgaWorst => exact fun _ _ _ _ h => reduceMerge_size _ hl _ _ _ _ h
  | ssgaDet n =>
    obtain ⟨_, _, _, _, hd, _⟩ := C50_all_exact E.f E.sort E.shuffle hE.sort hE.shuffle n E.r E.flip E.fuel E.nthEP hE.nthEP
    exact fun _ _ _ _ h => reduceMerge_size _ hd _ _ _ _ h
  | ssgaStoch p => exact fun _ _ _ _ h => reduceMerge_size _ hst _ _ _ _ h
  | weak r ih =>
    intro parents offspring res off h
    simp only [Repl.run] at h
    by_cases hp : parents = []
    · subst hp
      rw [(C49_empty E.f (r.run E) [] offspring []).1] at h
      cases h
    · unfold weakElitist at h
      obtain ⟨c, h1, _, _⟩ := bestElement_spec E.f parents hp
      rw [h1] at h
      dsimp only at h
      cases hr : r.run E parents offspring with
      | error e => rw [hr] at h; cases h
      | ok p =>
        obtain ⟨pop', off'⟩ := p
        rw [hr] at h
        dsimp only at h
        have hlen := ih _ _ _ _ hr
        cases hb : bestElement E.f pop' with
        | error e => rw [hb] at h; cases h
        | ok b =>
          rw [hb] at h
          dsimp only at h
          split_ifs at h
          · cases hw : worseElement E.f pop' with
            | error e => rw [hw] at h; cases h
            | ok i =>
              rw [hw] at h
              simp only [Except.ok.injEq, Prod.mk.injEq] at h
              rw [← h.1, List.length_set, hlen]
          · simp only [Except.ok.injEq, Prod.mk.injEq] at h
            rw [← h.1, hlen]

/-- **C261** (elitism).  With `Plus`, or with any replacement and `weakElitism`, no parent is better than all of the new
population. -/
theorem C261_elitist (E : Env α F) (hE : E.Lawful) (atof : Text → ℚ) (dist : Bool) (sel repl : PP) (weakElitism : Bool)
    (h : weakElitism = true ∨ repl.key = kw "Plus") (s : Sel) (r : Repl)
    (hb : makeAlgo atof dist sel repl weakElitism = .ok (s, r)) (parents offspring res off : List α)
    (hr : r.run E parents offspring = .ok (res, off)) : ∀ p ∈ parents, ∃ q ∈ res, E.f p ≤ E.f q := by
  have hweak : ∀ r', r = .weak r' → ∀ p ∈ parents, ∃ q ∈ res, E.f p ≤ E.f q := by
    rintro r' rfl
    simp only [Repl.run] at hr
    by_cases hp : parents = []
    · subst hp; intro p hp; cases hp
    · cases hx : r'.run E parents offspring with
      | error e =>
        unfold weakElitist at hr
        obtain ⟨c, h1, _, _⟩ := bestElement_spec E.f parents hp
        rw [h1, hx] at hr
        cases hr
      | ok x =>
        obtain ⟨pop', off'⟩ := x
        by_cases hp' : pop' = []
        · subst hp'
          rw [(C49_empty E.f (r'.run E) parents offspring off').2 hp hx] at hr
          cases hr
        · obtain ⟨res', g1, _, g2, _⟩ := C49_weak_elitism E.f (r'.run E) parents offspring pop' off' hp hx hp'
          rw [g1] at hr
          cases hr
          exact g2
  unfold makeAlgo at hb
  cases hs : makeSelect atof dist sel with
  | error e => rw [hs] at hb; cases hb
  | ok x =>
    obtain ⟨s', args⟩ := x
    rw [hs] at hb
    dsimp only at hb
    cases hm : makeReplace atof args repl weakElitism with
    | error e => rw [hm] at hb; cases hb
    | ok r' =>
      rw [hm] at hb
      simp only [Except.ok.injEq, Prod.mk.injEq] at hb
      obtain ⟨_, rfl⟩ := hb
      unfold makeReplace at hm
      dsimp only at hm
      cases weakElitism with
      | true =>
        generalize (if repl.key = kw "Comma" then .ok Repl.comma
          else if repl.key = kw "Plus" then .ok .plus
          else if repl.key = kw "EPTour" then (replArg atou 6 args repl.args).map .ep
          else if repl.key = kw "SSGAWorst" then .ok .ssgaWorst
          else if repl.key = kw "SSGADet" then (replArg atou 2 args repl.args).map .ssgaDet
          else if repl.key = kw "SSGAStoch" then (replArg atof 1 args repl.args).map .ssgaStoch
          else .error .thrown : Except Err Repl) = x at hm
        cases x with
        | error e => cases hm
        | ok y =>
          simp only [Except.map, if_true, Except.ok.injEq] at hm
          exact hweak y hm.symm
      | false =>
        have hk : repl.key = kw "Plus" := by
          rcases h with h | h
          · cases h
          · exact h
        rw [hk, if_neg (by decide), if_pos rfl] at hm
        simp only [Except.map, Bool.false_eq_true, if_false, Except.ok.injEq] at hm
        subst hm
        obtain ⟨kept, g1, _, _, g2⟩ := C48_plus E.f E.sort hE.sort parents offspring
        simp only [Repl.run] at hr
        rw [g1] at hr
        cases hr
        exact g2

/-! ### C262: stopping -/

section Stop

variable {σ τ : Type}

/-- The conditions asked for, at the generation number `n` (from 0): `b k` is the best fitness of the generation `k`,
`ev k` the number of evaluations then, `sig k` whether a signal has arrived. -/
def Holds (a : StopArgs F) (b : Nat → F) (ev : Nat → Nat) (sig : Nat → Bool) (n : Nat) : Prop :=
  (a.maxGen ≠ 0 ∧ a.maxGen ≤ n + 1) ∨
  (∃ s, a.steadyGen = some s ∧ ∃ j, a.minGen ≤ j ∧ j + s < n ∧ ∀ l, a.minGen ≤ l → l ≤ n → b l ≤ b j) ∨
  (a.maxEval ≠ 0 ∧ a.maxEval ≤ ev n) ∨
  (∃ t, a.target = some t ∧ t ≤ b n) ∨
  (a.ctrlC = true ∧ sig n = true)

def critHolds (b : Nat → F) (ev : Nat → Nat) (sig : Nat → Bool) (n : Nat) : Crit F → Prop
  | .gen m => m ≤ n + 1
  | .steady m s => ∃ j, m ≤ j ∧ j + s < n ∧ ∀ l, m ≤ l → l ≤ n → b l ≤ b j
  | .evals m => m ≤ ev n
  | .target t => t ≤ b n
  | .signal => sig n = true

theorem answers_map (c : Run.Cont σ α) (c' : Run.Cont τ α) (g : σ → τ)
    (h : ∀ s ev pop, c' (g s) ev pop = (c s ev pop).map fun p => (p.1, g p.2)) (s : σ) (ev : Nat → Nat)
    (P : Nat → List α) (n : Nat) :
    Run.answers c' (g s) ev P n = (Run.answers c s ev P n).map fun p => (p.1, g p.2) := by
  induction n with
  | zero => rfl
  | succ n ih =>
    rw [Run.answers, Run.answers, ih]
    cases Run.answers c s ev P n with
    | error e => rfl
    | ok p => exact h _ _ _

theorem crit_answers (f : α → F) (sig : Nat → Bool) (ev : Nat → Nat) (P : Nat → List α) (b : Nat → F)
    (hb1 : ∀ k, ∃ x ∈ P k, f x = b k) (hb2 : ∀ k, ∀ x ∈ P k, f x ≤ b k) (c : Crit F) (n : Nat) (hn : n < 2 ^ 32) :
    ∃ a s, Run.answers (c.cont f sig) c.init ev P (n + 1) = .ok (a, s) ∧ (a = false ↔ critHolds b ev sig n c) := by
  have hbest : ∀ k, Run.bestFitness f (P k) = .ok (b k) := fun k => Run.bestFitness_ok f (hb1 k) (hb2 k)
  cases c with
  | gen m =>
    have := answers_map (Run.genCont m) ((Crit.gen m : Crit F).cont f sig) CritSt.count (fun _ _ _ => rfl) 0 ev P (n + 1)
    refine ⟨_, _, this.trans (by rw [Run.C101_generations]; rfl), ?_⟩
    simp [critHolds]
  | steady m s =>
    have := answers_map (Run.steadyCont f m s) ((Crit.steady m s : Crit F).cont f sig) CritSt.steady (fun _ _ _ => rfl)
      Run.Steady.new ev P (n + 1)
    obtain ⟨a, st, h1, h2⟩ := Run.C101_steady f m s ev P b hb1 hb2 n hn
    exact ⟨_, _, this.trans (by rw [h1]; rfl), h2⟩
  | evals m =>
    have key : ∀ n, ∃ a, Run.answers ((Crit.evals m : Crit F).cont f sig) (.count 0) ev P n = .ok (a, .count 0) := by
      intro n
      induction n with
      | zero => exact ⟨_, rfl⟩
      | succ n ih =>
        obtain ⟨a, ha⟩ := ih
        rw [Run.answers, ha]
        exact ⟨_, rfl⟩
    obtain ⟨a, ha⟩ := key n
    refine ⟨_, _, by rw [show (Crit.evals m : Crit F).init = .count 0 from rfl, Run.answers, ha]; rfl, ?_⟩
    simp [critHolds]
  | target t =>
    have step : ∀ n, (Crit.target t : Crit F).cont f sig (.count 0) (ev n) (P n) = .ok (!decide (t ≤ b n), .count 0) := by
      intro n
      simp only [Crit.cont, Run.fitCont, hbest, liftUnit, Except.map]
    have key : ∀ n, ∃ a, Run.answers ((Crit.target t : Crit F).cont f sig) (.count 0) ev P n = .ok (a, .count 0) := by
      intro n
      induction n with
      | zero => exact ⟨_, rfl⟩
      | succ n ih =>
        obtain ⟨a, ha⟩ := ih
        rw [Run.answers, ha]
        exact ⟨_, step n⟩
    obtain ⟨a, ha⟩ := key n
    refine ⟨_, _, by rw [show (Crit.target t : Crit F).init = .count 0 from rfl, Run.answers, ha]; exact step n, ?_⟩
    simp [critHolds]
  | signal =>
    have key : ∀ n, ∃ a, Run.answers ((Crit.signal : Crit F).cont f sig) (.count 0) ev P n = .ok (a, .count n) := by
      intro n
      induction n with
      | zero => exact ⟨_, rfl⟩
      | succ n ih =>
        obtain ⟨a, ha⟩ := ih
        rw [Run.answers, ha]
        exact ⟨_, rfl⟩
    obtain ⟨a, ha⟩ := key n
    refine ⟨_, _, by rw [show (Crit.signal : Crit F).init = .count 0 from rfl, Run.answers, ha]; rfl, ?_⟩
    simp [critHolds]

theorem makeContinue_holds (a : StopArgs F) (L : List (Crit F)) (h : makeContinue a = .ok L) (b : Nat → F)
    (ev : Nat → Nat) (sig : Nat → Bool) (n : Nat) : (∃ c ∈ L, critHolds b ev sig n c) ↔ Holds a b ev sig n := by
  have hL : L = criteria a := by
    unfold makeContinue at h
    split at h
    · cases h
    · rename_i c cs hc
      rw [hc]
      cases h
      rfl
  subst hL
  unfold criteria
  have h5 : ∀ A B C D E : List (Crit F), (∃ c ∈ A ++ B ++ C ++ D ++ E, critHolds b ev sig n c) ↔
      (∃ c ∈ A, critHolds b ev sig n c) ∨ (∃ c ∈ B, critHolds b ev sig n c) ∨ (∃ c ∈ C, critHolds b ev sig n c) ∨
        (∃ c ∈ D, critHolds b ev sig n c) ∨ ∃ c ∈ E, critHolds b ev sig n c := by
    intro A B C D E
    simp only [List.mem_append, or_and_right, exists_or, or_assoc]
  rw [h5]
  unfold Holds
  refine or_congr ?_ (or_congr ?_ (or_congr ?_ (or_congr ?_ ?_)))
  · split_ifs with h0
    · simp [critHolds, h0]
    · simp [h0]
  · cases a.steadyGen with
    | none => simp
    | some s => simp [critHolds]
  · split_ifs with h0
    · simp [critHolds, h0]
    · simp [h0]
  · cases a.target with
    | none => simp
    | some t => simp [critHolds]
  · split_ifs with h0
    · simp [critHolds, h0]
    · simp [h0]

/-- **C262** (throws).  A continuator is built exactly if some criterion was asked for; otherwise an exception is
thrown. -/
theorem C262_throws (a : StopArgs F) :
    (makeContinue a = .error .thrown ↔
      a.maxGen = 0 ∧ a.steadyGen = none ∧ a.maxEval = 0 ∧ a.target = none ∧ a.ctrlC = false) ∧
    ∀ e, makeContinue a = .error e → e = .thrown := by
  obtain ⟨g, s, m, e, t, c⟩ := a
  unfold makeContinue criteria
  dsimp only
  constructor
  · cases s <;> cases t <;> cases c <;> by_cases hg : g = 0 <;> by_cases he : e = 0 <;> simp [hg, he]
  · intro x h
    split at h
    · cases h; rfl
    · cases h

/-- **C262** (stops).  If some criterion was asked for, the continuator built goes on as long as none of the conditions
asked for has held and stops at the first generation at which one of them holds. -/
theorem C262_stops (f : α → F) (sig : Nat → Bool) (ev : Nat → Nat) (P : Nat → List α) (b : Nat → F)
    (hb1 : ∀ k, ∃ x ∈ P k, f x = b k) (hb2 : ∀ k, ∀ x ∈ P k, f x ≤ b k) (a : StopArgs F) (L : List (Crit F))
    (h : makeContinue a = .ok L) (n : Nat) (hn : n < 2 ^ 32) (hbefore : ∀ m < n, ¬ Holds a b ev sig m) :
    ∃ x s, Run.answers Run.combinedCont (L.map fun c => (c.cont f sig, c.init)) ev P (n + 1) = .ok (x, s) ∧
      (x = false ↔ Holds a b ev sig n) := by
  have hex : ∀ (c : Crit F) (n : Nat), n ≤ 2 ^ 32 → ∃ p, Run.answers (c.cont f sig) c.init ev P n = .ok p ∧
      ∀ m, n = m + 1 → (p.1 = false ↔ critHolds b ev sig m c) := by
    intro c n hn
    cases n with
    | zero => exact ⟨_, rfl, fun m hm => by omega⟩
    | succ m =>
      obtain ⟨a', s, h1, h2⟩ := crit_answers f sig ev P b hb1 hb2 c m (by omega)
      exact ⟨(a', s), h1, fun m' hm => by obtain rfl : m = m' := by omega
                                          exact h2⟩
  haveI : Nonempty (Bool × CritSt F) := ⟨(true, .count 0)⟩
  choose! A hA1 hA2 using hex
  let st : Crit F → Nat → CritSt F := fun c n => (A c n).2
  have hstep : ∀ (c : Crit F) (n : Nat), n < 2 ^ 32 → c.cont f sig (st c n) (ev n) (P n) = .ok (A c (n + 1)) := by
    intro c n hn
    have h1 := hA1 c (n + 1) (by omega)
    rw [Run.answers, hA1 c n (by omega)] at h1
    exact h1
  -- one call, given the states before
  have hcall : ∀ n, n < 2 ^ 32 →
      ((∀ c ∈ L, ¬ critHolds b ev sig n c) →
        Run.combinedCont (L.map fun c => (c.cont f sig, st c n)) (ev n) (P n) =
          .ok (true, L.map fun c => (c.cont f sig, st c (n + 1)))) ∧
      ((∃ c ∈ L, critHolds b ev sig n c) → ∃ s,
        Run.combinedCont (L.map fun c => (c.cont f sig, st c n)) (ev n) (P n) = .ok (false, s)) := by
    intro n hn
    let new : Run.Cont (CritSt F) α × CritSt F → CritSt F := fun p =>
      match p.1 p.2 (ev n) (P n) with
      | .ok q => q.2
      | .error _ => p.2
    have hnew : ∀ c : Crit F, new (c.cont f sig, st c n) = st c (n + 1) := by
      intro c
      show (match c.cont f sig (st c n) (ev n) (P n) with
        | .ok q => q.2
        | .error _ => st c n) = _
      rw [hstep c n hn]
    have htrue : ∀ c : Crit F, ¬ critHolds b ev sig n c →
        c.cont f sig (st c n) (ev n) (P n) = .ok (true, new (c.cont f sig, st c n)) := by
      intro c hc
      rw [hnew, hstep c n hn]
      have := hA2 c (n + 1) (by omega) n rfl
      have h1 : (A c (n + 1)).1 = true := by
        cases hx : (A c (n + 1)).1 with
        | true => rfl
        | false => exact absurd (this.1 hx) hc
      rw [← h1]
    constructor
    · intro hnone
      have := (Run.C101_combined (ev n) (P n) (L.map fun c => (c.cont f sig, st c n)) new (by
        intro p hp
        obtain ⟨c, hc, rfl⟩ := List.mem_map.1 hp
        exact htrue c (hnone c hc))).1
      rw [this, List.map_map]
      congr 2
      apply List.map_congr_left
      intro c _
      simp only [Function.comp_apply, hnew]
    · rintro ⟨c0, hc0, hh⟩
      -- the first that holds
      have hsplit : ∀ L : List (Crit F), (∃ c ∈ L, critHolds b ev sig n c) → ∃ pre c post, L = pre ++ c :: post ∧
          (∀ c' ∈ pre, ¬ critHolds b ev sig n c') ∧ critHolds b ev sig n c := by
        intro L
        induction L with
        | nil => rintro ⟨c, hc, _⟩; cases hc
        | cons c L ih =>
          intro hx
          by_cases hc : critHolds b ev sig n c
          · exact ⟨[], c, L, rfl, by simp, hc⟩
          · obtain ⟨pre, d, post, e1, e2, e3⟩ := ih (by
              obtain ⟨d, hd, hd'⟩ := hx
              rcases List.mem_cons.1 hd with rfl | hd
              · exact absurd hd' hc
              · exact ⟨d, hd, hd'⟩)
            refine ⟨c :: pre, d, post, by rw [e1]; rfl, ?_, e3⟩
            intro c' hc'
            rcases List.mem_cons.1 hc' with rfl | hc'
            · exact hc
            · exact e2 c' hc'
      obtain ⟨pre, c, post, e1, e2, e3⟩ := hsplit L ⟨c0, hc0, hh⟩
      have hfalse : c.cont f sig (st c n) (ev n) (P n) = .ok (false, st c (n + 1)) := by
        rw [hstep c n hn]
        have h1 : (A c (n + 1)).1 = false := (hA2 c (n + 1) (by omega) n rfl).2 e3
        rw [← h1]
      have := (Run.C101_combined (ev n) (P n) (pre.map fun c => (c.cont f sig, st c n)) new (by
        intro p hp
        obtain ⟨d, hd, rfl⟩ := List.mem_map.1 hp
        exact htrue d (e2 d hd))).2 (c.cont f sig) (st c n) (st c (n + 1)) (post.map fun c => (c.cont f sig, st c n)) hfalse
      exact ⟨_, by rw [e1, List.map_append, List.map_cons]; exact this⟩
  -- all calls before
  have hall : ∀ k, k ≤ n → Run.answers Run.combinedCont (L.map fun c => (c.cont f sig, c.init)) ev P k =
      .ok (true, L.map fun c => (c.cont f sig, st c k)) := by
    intro k hk
    induction k with
    | zero =>
      rw [Run.answers]
      congr 2
      apply List.map_congr_left
      intro c _
      have := hA1 c 0 (by omega)
      rw [Run.answers] at this
      show _ = (c.cont f sig, (A c 0).2)
      rw [← (Except.ok.inj this)]
    | succ k ih =>
      rw [Run.answers, ih (by omega)]
      refine (hcall k (by omega)).1 ?_
      intro c hc hh
      exact hbefore k (by omega) ((makeContinue_holds a L h b ev sig k).1 ⟨c, hc, hh⟩)
  rw [Run.answers, hall n le_rfl]
  dsimp only
  by_cases hx : ∃ c ∈ L, critHolds b ev sig n c
  · obtain ⟨s, hs⟩ := (hcall n hn).2 hx
    exact ⟨false, s, hs, by simp [← makeContinue_holds a L h b ev sig n, hx]⟩
  · have hx' : ∀ c ∈ L, ¬ critHolds b ev sig n c := fun c hc hh => hx ⟨c, hc, hh⟩
    refine ⟨true, _, (hcall n hn).1 hx', ?_⟩
    rw [← makeContinue_holds a L h b ev sig n]
    simp only [Bool.true_eq_false, false_iff]
    exact hx

/-- With the defaults the run ends after 100 generations. -/
example (sig : Nat → Bool) (b : Nat → Nat) (ev : Nat → Nat) (n : Nat) :
    Holds ⟨100, none, 0, 0, none, false⟩ b ev sig n ↔ 99 ≤ n := by
  simp [Holds]

example : ∃ L, makeContinue (⟨100, some 10, 5, 0, some 3, true⟩ : StopArgs Nat) = .ok L ∧ L.length = 4 := ⟨_, rfl, rfl⟩

end Stop

end Paradiseo.Factory
