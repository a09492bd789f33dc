import Verif.Model.Moeo
import Verif.Model.EOReplacement
import Mathlib.Data.Fin.VecNotation
import Mathlib.Data.List.Sort

/-!
# moeo: dichotomic, random and equal weights

Model of moeo/src/scalarStuffs/weighting: moeoDichoWeightStrategy.h, moeoRandWeightStrategy.h,
moeoDummyWeightStrategy.h.

Simplifications: two objectives; exact arithmetic in an ordered field; tolerance of comparisons as in `Traits`;
`std::sort` is a stable sort; an iterator is a place, `none` if it does not point into the vector any more; a
quotient by zero is `none`.  The random generator the default constructors name (`default_random`) is bound before
it is made, but used only after.
-/

namespace Paradiseo.Moeo

open Paradiseo.EO

variable {F : Type} [Field F] [LinearOrder F] {X : Type}

/-- `normal` (moeoDichoWeightStrategy.h 122-134); `none` if the sum is zero. -/
def dichoNormal (u v : Fin 2 → F) : Option (F × F) :=
  let d0 := if v 0 < u 0 then u 0 - v 0 else v 0 - u 0
  let d1 := if v 1 < u 1 then u 1 - v 1 else v 1 - u 1
  if d0 + d1 = 0 then none else some (d0 / (d0 + d1), d1 / (d0 + d1))

/-- The members of moeoDichoWeightStrategy (moeoDichoWeightStrategy.h 147-150); `second` is `num != 0`. -/
structure Dicho (X : Type) where
  arch : List X
  toAdd : List X
  second : Bool
  it : Option Nat

/-- A new strategy (moeoDichoWeightStrategy.h 56, 62). -/
def Dicho.init : Dicho X := ⟨[], [], false, none⟩

/-- `std::sort` with cmpParetoSort (moeoDichoWeightStrategy.h 85, 108, 135-143): the first objective falls. -/
def dichoSort (ov : X → Fin 2 → F) (l : List X) : List X := l.insertionSort fun a b => ov b 0 ≤ ov a 0

variable (A : ArchCfg X (Fin 2 → F))

/-- Fewer than two in the archive (moeoDichoWeightStrategy.h 73-88).  An archive that accepts moves its elements. -/
def Dicho.start (s : Dicho X) (m : X) : Option (F × F) × Dicho X :=
  let r := update A s.arch m
  if s.second then (some (1, 0), { s with arch := dichoSort A.ov r.1, second := false, it := some 0 })
  else (some (0, 1), { s with arch := r.1, second := true, it := if r.2 then none else s.it })

/-- The iterator stands at `i`, which is not the last (moeoDichoWeightStrategy.h 91-92, 98-101). -/
def Dicho.step (s : Dicho X) (i : Nat) (u v : X) (m : X) : Option (F × F) × Dicho X :=
  (dichoNormal (A.ov u) (A.ov v), { s with toAdd := s.toAdd ++ [m], it := some (i + 1) })

/-- The archive after a sweep (moeoDichoWeightStrategy.h 106-109). -/
def Dicho.merge (s : Dicho X) : Dicho X :=
  { s with arch := dichoSort A.ov (updatePop A s.arch s.toAdd).1, toAdd := [], it := some 0 }

/-- The call after a sweep (moeoDichoWeightStrategy.h 110), when the iterator stands at the beginning. -/
def Dicho.again (s : Dicho X) (m : X) : Option (F × F) × Dicho X :=
  match s.arch with
  | u :: v :: _ => s.step A 0 u v m
  | _ => s.start A m

/-- `operator()` (moeoDichoWeightStrategy.h 69-115): the weights, `none` if they are no numbers, and the state. -/
def Dicho.call (s : Dicho X) (m : X) : Except Err (Option (F × F) × Dicho X) :=
  if s.arch.length < 2 then .ok (s.start A m)
  else
    match s.it with
    | none => .error .ub
    | some i =>
      match s.arch[i]?, s.arch[i + 1]? with
      | some u, some v => .ok (s.step A i u v m)
      | _, _ => .ok ((s.merge A).again A m)

/-- Calls in order: all weights and the last state. -/
def Dicho.calls : Dicho X → List X → Except Err (List (Option (F × F)) × Dicho X)
  | s, [] => .ok ([], s)
  | s, m :: ms =>
    match s.call A m with
    | .error e => .error e
    | .ok (w, s1) =>
      match s1.calls ms with
      | .error e => .error e
      | .ok (ws, s2) => .ok (w :: ws, s2)

/-! ### Random and equal weights -/

/-- moeoRandWeightStrategy (moeoRandWeightStrategy.h 65-76): `draws` are the numbers drawn, one per weight. -/
def randWeights (draws : List F) : List (Option F) :=
  draws.map fun d => if draws.foldl (· + ·) 0 = 0 then none else some (d / draws.foldl (· + ·) 0)

/-- moeoDummyWeightStrategy (moeoDummyWeightStrategy.h 54-58). -/
def equalWeights (ws : List F) : List F := ws.map fun _ => 1 / (ws.length : F)

end Paradiseo.Moeo
