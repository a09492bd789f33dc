import Verif.Model.EOReplacement
/-
The store of functors: eo/src/eoFunctorStore.h 44-106 and eo/src/eoFunctorStore.cpp 13-18.

An object is a number; the heap is the set of objects that have been allocated and not deleted. Destructors of functors
do not touch the store.
-/
namespace Paradiseo.FunctorStore

open Paradiseo.EO

/-- Objects on the heap. -/
abbrev Heap := Nat → Bool

/-- storeFunctor (eoFunctorStore.h 55-70): the new vector, and the number in the warning of a debug build if there is
one. -/
def storeFunctor (vec : List Nat) (r : Nat) : List Nat × Option Nat :=
  let existing := vec.count r
  (vec ++ [r], if existing > 0 then some (existing + 1) else none)

/-- `delete`: undefined unless the object is on the heap. -/
def delete (h : Heap) (r : Nat) : Except Err Heap :=
  if h r then .ok fun x => if x = r then false else h x else .error .ub

/-- ~eoFunctorStore (eoFunctorStore.cpp 13-18): the heap afterwards. -/
def destroy : List Nat → Heap → Except Err Heap
  | [], h => .ok h
  | r :: vec, h =>
    match delete h r with
    | .error e => .error e
    | .ok h' => destroy vec h'

/-- Functors stored one after the other in a new store: the vector and the warnings. -/
def storeAll : List Nat → List Nat → List Nat × List Nat
  | vec, [] => (vec, [])
  | vec, r :: rs =>
    let p := storeFunctor vec r
    let q := storeAll p.1 rs
    (q.1, p.2.toList ++ q.2)

end Paradiseo.FunctorStore
