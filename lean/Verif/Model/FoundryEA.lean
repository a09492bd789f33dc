import Verif.Model.FastGA
/-
The foundry of evolutionary algorithms: eo/src/eoAlgoFoundry.h 184-301 and eo/src/eoAlgoFoundryEA.h 84-197, on the forges
of `FastGA`.

An object is its number in its own slot.  The objects are made and kept as eoForge.h does; what they do in a run is given by
arguments.  Not modelled: `name()` (it asks every slot for its object, like `assemble`).
-/
namespace Paradiseo.FoundryEA

open Paradiseo.EO Paradiseo.Run

/-- `std::variant<size_t, double>` (eoAlgoFoundry.h 201). -/
inductive Enc where
  | index (n : Nat)
  | real (q : ℚ)
deriving DecidableEq

/-- The five slots (eoAlgoFoundryEA.h 104-108) in the order of their indices. -/
structure Slots where
  continuators : Forges
  crossovers : Forges
  mutations : Forges
  selectors : Forges
  replacements : Forges

/-- The constructor (eoAlgoFoundryEA.h 90-99): only the continuators are always made anew. -/
def Slots.new : Slots :=
  ⟨⟨[], true, 0, []⟩, ⟨[], false, 0, []⟩, ⟨[], false, 0, []⟩, ⟨[], false, 0, []⟩, ⟨[], false, 0, []⟩⟩

/-- `select` (eoAlgoFoundry.h 236-240); the assertion is only there in debugging builds. -/
def select (debug : Bool) (enc : List Enc) : Except Err (List Enc) :=
  if debug && decide (enc.length ≠ 5) then .error .asserted else .ok enc

/-- `rank` (eoAlgoFoundry.h 262-265): `at` and `std::get` throw. -/
def rank (enc : List Enc) (slot : Nat) : Except Err Nat :=
  match enc[slot]? with
  | some (.index n) => .ok n
  | _ => .error .thrown

/-- `continuator()`, `crossover()`, … (eoAlgoFoundryEA.h 159-195). -/
def get (debug : Bool) (enc : List Enc) (slot : Nat) (f : Forges) : Except Err (Nat × Forges) :=
  match rank enc slot with
  | .error e => .error e
  | .ok r => if debug && decide (f.ops.length ≤ r) then .error .asserted else f.instantiate r

/-- The assertions at the beginning of operator() (eoAlgoFoundryEA.h 115-119). -/
def checked (enc : List Enc) : List (Nat × Forges) → Except Err Unit
  | [] => .ok ()
  | (slot, f) :: l =>
    if f.ops.length = 0 then .error .asserted
    else
      match rank enc slot with
      | .error e => .error e
      | .ok r => if f.ops.length ≤ r then .error .asserted else checked enc l

/-- The objects of a run: their numbers. -/
structure Objects where
  cont : Nat
  cross : Nat
  mutn : Nat
  sel : Nat
  repl : Nat
deriving DecidableEq

/-- The part of operator() that makes the algorithm (eoAlgoFoundryEA.h 115-131). -/
def assemble (debug : Bool) (enc : List Enc) (s : Slots) : Except Err (Objects × Slots) :=
  match (if debug then checked enc [(0, s.continuators), (1, s.crossovers), (2, s.mutations), (3, s.selectors),
      (4, s.replacements)] else .ok ()) with
  | .error e => .error e
  | .ok () =>
    match get debug enc 1 s.crossovers with
    | .error e => .error e
    | .ok (x, fx) =>
      match get debug enc 2 s.mutations with
      | .error e => .error e
      | .ok (m, fm) =>
        match get debug enc 3 s.selectors with
        | .error e => .error e
        | .ok (l, fl) =>
          match get debug enc 0 s.continuators with
          | .error e => .error e
          | .ok (c, fc) =>
            match get debug enc 4 s.replacements with
            | .error e => .error e
            | .ok (r, fr) => .ok (⟨c, x, m, l, r⟩, ⟨fc, fx, fm, fl, fr⟩)

variable {G F τ : Type}

/-- `eoCombinedContinue gen_cont(common_cont); gen_cont.add(continuator())` (eoAlgoFoundryEA.h 127-129): the state is that
of the counter of generations, made anew in every run, and that of the continuator. -/
def contOf (maxGen : Nat) (user : Cont τ (Ind G F)) : Cont (Nat × τ) (Ind G F) := fun s evals pop =>
  match genCont maxGen s.1 evals pop with
  | .error e => .error e
  | .ok (false, n) => .ok (false, (n, s.2))
  | .ok (true, n) =>
    match user s.2 evals pop with
    | .error e => .error e
    | .ok (b, t) => .ok (b, (n, t))

/-- operator() (eoAlgoFoundryEA.h 113-134): `parts o` are breeding and replacement with the objects `o`, `user` and `t0` the
continuator and its state when it has just been made. -/
def run (debug : Bool) (maxGen : Nat) (f : G → F)
    (breed : Objects → Nat → List (Ind G F) → Except Err (List (Ind G F))) (replace : Objects → Nat → Replacement (Ind G F))
    (user : Objects → Cont τ (Ind G F)) (t0 : τ) (enc : List Enc) (s : Slots) (fuel : Nat) (pop : List (Ind G F))
    (evals : Nat) : Except Err (RunSt G F (Nat × τ) × Slots) :=
  match assemble debug enc s with
  | .error e => .error e
  | .ok (o, s) =>
    match (EA.mk f (breed o) (replace o) (contOf maxGen (user o))).run fuel pop evals (0, t0) with
    | .error e => .error e
    | .ok r => .ok (r, s)

end Paradiseo.FoundryEA
