import Verif.Model.EOSelect
/-
Selectors of eo/src/eoRandomSelect.h (eoBestSelect 61-72, eoNoSelect 79-99), the constructor of
eo/src/eoStochTournamentSelect.h 45-56 with its operator() 59-62, and eo/src/eoTruncSelect.h.
-/
namespace Paradiseo.EO

/-- eoNoSelect::operator() (86-93) on a population of `n` individuals: the position chosen and `current` afterwards. -/
def noSelect (current n : Nat) : Except Err (Nat × Nat) :=
  let c := if current ≥ n then 0 else current
  if c < n then .ok (c, c + 1) else .error .ub

/-- Successive calls on populations of the sizes given. -/
def noSelects : Nat → List Nat → Except Err (List Nat × Nat)
  | c, [] => .ok ([], c)
  | c, n :: ns =>
    match noSelect c n with
    | .error e => .error e
    | .ok (i, c') =>
      match noSelects c' ns with
      | .error e => .error e
      | .ok (l, c'') => .ok (i :: l, c'')

/-- The constructor of eoStochTournamentSelect (45-56): the rate kept and the number of warnings. -/
def stochRate (r : ℚ) : ℚ × Nat :=
  let a : ℚ × Nat := if r < 1 / 2 then (55 / 100, 1) else (r, 0)
  if a.1 > 1 then (1, a.2 + 1) else a

/-- eoStochTournamentSelect::operator() (59-62): `u t` is the number drawn by `flip`. -/
def stochSelect {α F : Type} [LinearOrder F] (f : α → F) (rate : ℚ) (r : Nat → Nat) (u : Nat → ℚ) (pop : List α) (t : Nat) :
    Except Err (Nat × Nat) :=
  stochTournament f r (fun t => decide (u t < (stochRate rate).1)) pop t

/-- A selector of one individual: its `setup` and its `operator()`, on the state `σ`. -/
structure SelOne (α σ : Type) where
  setup : List α → σ → σ
  select : List α → σ → Except Err (α × σ)

/-- The loop of eoTruncSelect (66-67): the individuals at the positions still to fill are replaced. -/
def truncLoop {α σ : Type} (S : SelOne α σ) (src : List α) : Nat → σ → Except Err (List α × σ)
  | 0, s => .ok ([], s)
  | k + 1, s =>
    match S.select src s with
    | .error e => .error e
    | .ok (x, s') =>
      match truncLoop S src k s' with
      | .error e => .error e
      | .ok (l, s'') => .ok (x :: l, s'')

/-- eoTruncSelect::operator() (58-68): the destination afterwards. -/
def truncSelect {α σ : Type} (S : SelOne α σ) (h : HowMany) (src : List α) (_dest : List α) (s : σ) :
    Except Err (List α × σ) :=
  match h.eval src.length with
  | .error e => .error e
  | .ok target => truncLoop S src target (S.setup src s)

/-- eoNoSelect as a selector; it has no `setup` of its own (eoSelectOne.h). -/
def noSel (α : Type) : SelOne α Nat where
  setup _ c := c
  select pop c :=
    match noSelect c pop.length with
    | .error e => .error e
    | .ok (i, c') => match pop[i]? with
      | some x => .ok (x, c')
      | none => .error .ub

/-- eoBestSelect (66-69). -/
def bestSel {α F : Type} [LinearOrder F] (f : α → F) : SelOne α Unit where
  setup _ s := s
  select pop s := match bestElement f pop with
    | .error e => .error e
    | .ok x => .ok (x, s)

end Paradiseo.EO
