import Mathlib.Data.List.Basic

/-!
# mathsym: counted pointers

Model of eo/contrib/mathsym/shared_ptr.h.

Simplifications:
* variables of type `shared_ptr` and `weak_ptr` have numbers as names; a program is a list of declarations,
  assignments and ends of scope;
* objects and counters have numbers as addresses; an object made with `new` and the counter made for it in the
  same constructor have the same number, 0 is the static counter; a number is not used again;
* objects hold no counted pointers themselves;
* counters do not wrap around.
-/

namespace Paradiseo.SharedPtr

/-- A `shared_ptr` or a `weak_ptr` (shared_ptr.h 27-28, 73-74). -/
structure Handle where
  ptr : Option Nat
  cnt : Nat
  deriving DecidableEq

/-- The memory: variables, counters (`none` is no memory), objects that exist, addresses used, objects deleted. -/
structure Heap where
  handles : List (Nat × Handle)
  weaks : List (Nat × Handle)
  count : Nat → Option Nat
  live : Nat → Bool
  next : Nat
  deleted : List Nat

/-- Before the first variable: the static counter is 1 (shared_ptr.h 31). -/
def Heap.init : Heap := ⟨[], [], fun c => if c = 0 then some 1 else none, fun _ => false, 1, []⟩

/-- A step of a program. -/
inductive Op where
  | default (h : Nat)
  | fresh (h : Nat)
  | null (h : Nat)
  | adopt (h o : Nat)
  | copy (h g : Nat)
  | assign (h g : Nat)
  | destroy (h : Nat)
  | weak (w g : Nat)
  | lock (h w : Nat)
  deriving DecidableEq

/-- incref (shared_ptr.h 34): undefined when the counter is gone. -/
def Heap.incref (s : Heap) (c : Nat) : Option Heap :=
  match s.count c with
  | none => none
  | some n => some { s with count := fun d => if d = c then some (n + 1) else s.count d }

/-- `delete ptr` (shared_ptr.h 33): undefined when the object is gone. -/
def Heap.delete (s : Heap) : Option Nat → Option Heap
  | none => some s
  | some o => if s.live o then some { s with live := fun p => if p = o then false else s.live p,
                                             deleted := s.deleted ++ [o] } else none

/-- decref (shared_ptr.h 33): undefined when the counter is gone, and when the static counter would be deleted. -/
def Heap.decref (s : Heap) (a : Handle) : Option Heap :=
  match s.count a.cnt with
  | none => none
  | some n =>
    if n = 1 then
      if a.cnt = 0 then none
      else
        match s.delete a.ptr with
        | none => none
        | some s1 => some { s1 with count := fun d => if d = a.cnt then none else s1.count d }
    else some { s with count := fun d => if d = a.cnt then some (n - 1) else s.count d }

/-- One step; `none` is undefined behaviour (or a variable that does not exist). -/
def Heap.step (s : Heap) : Op → Option Heap
  -- shared_ptr() (shared_ptr.h 40)
  | .default h => ({ s with handles := (h, ⟨none, 0⟩) :: s.handles }).incref 0
  -- shared_ptr(new T) (shared_ptr.h 44)
  | .fresh h => some { s with handles := (h, ⟨some s.next, s.next⟩) :: s.handles,
                              count := fun d => if d = s.next then some 1 else s.count d,
                              live := fun p => if p = s.next then true else s.live p, next := s.next + 1 }
  -- shared_ptr((T*) 0) (shared_ptr.h 44)
  | .null h => some { s with handles := (h, ⟨none, s.next⟩) :: s.handles,
                             count := fun d => if d = s.next then some 1 else s.count d, next := s.next + 1 }
  -- shared_ptr(p) with a pointer that is in use (shared_ptr.h 44)
  | .adopt h o => some { s with handles := (h, ⟨some o, s.next⟩) :: s.handles,
                                count := fun d => if d = s.next then some 1 else s.count d, next := s.next + 1 }
  -- shared_ptr(const shared_ptr&) (shared_ptr.h 43)
  | .copy h g =>
    match s.handles.lookup g with
    | none => none
    | some b => ({ s with handles := (h, b) :: s.handles }).incref b.cnt
  -- operator= (shared_ptr.h 47-54)
  | .assign h g =>
    match s.handles.lookup h, s.handles.lookup g with
    | some a, some b =>
      if a.ptr = b.ptr then some s
      else
        match s.decref a with
        | none => none
        | some s1 =>
          ({ s1 with handles := s1.handles.map fun (p : Nat × Handle) => if p.1 = h then (h, b) else p }).incref b.cnt
    | _, _ => none
  -- ~shared_ptr() (shared_ptr.h 41)
  | .destroy h =>
    match s.handles.lookup h with
    | none => none
    | some a =>
      match s.decref a with
      | none => none
      | some s1 => some { s1 with handles := s1.handles.filter fun p => p.1 ≠ h }
  -- weak_ptr(const shared_ptr&) (shared_ptr.h 81)
  | .weak w g =>
    match s.handles.lookup g with
    | none => none
    | some b => some { s with weaks := (w, b) :: s.weaks }
  -- lock() (shared_ptr.h 83, 45)
  | .lock h w =>
    match s.weaks.lookup w with
    | none => none
    | some b => ({ s with handles := (h, b) :: s.handles }).incref b.cnt

/-- The rules of use: a new variable has a new name, the variables used exist, an object is handed over when it is
made and not again, a weak pointer is locked only while a `shared_ptr` to its object exists. -/
def Heap.allowed (s : Heap) : Op → Bool
  | .default h => (s.handles.lookup h).isNone
  | .fresh h => (s.handles.lookup h).isNone
  | .null h => (s.handles.lookup h).isNone
  | .adopt _ _ => false
  | .copy h g => (s.handles.lookup h).isNone && (s.handles.lookup g).isSome
  | .assign h g => (s.handles.lookup h).isSome && (s.handles.lookup g).isSome
  | .destroy h => (s.handles.lookup h).isSome
  | .weak _ g => (s.handles.lookup g).isSome
  | .lock h w =>
    (s.handles.lookup h).isNone &&
      match s.weaks.lookup w with
      | none => false
      | some b => s.handles.any fun p => p.2.cnt = b.cnt

/-- How a program ends. -/
inductive Res where
  | done (s : Heap)
  | ruleBroken
  | undefined

/-- A program that keeps the rules, or stops where it breaks one. -/
def Heap.run (s : Heap) : List Op → Res
  | [] => .done s
  | op :: ops =>
    if s.allowed op then
      match s.step op with
      | none => .undefined
      | some s1 => s1.run ops
    else .ruleBroken

/-- The same without looking at the rules. -/
def Heap.runAny (s : Heap) : List Op → Option Heap
  | [] => some s
  | op :: ops =>
    match s.step op with
    | none => none
    | some s1 => s1.runAny ops

/-- refcount (shared_ptr.h 68). -/
def Heap.refcount (s : Heap) (h : Nat) : Option Nat :=
  match s.handles.lookup h with
  | none => none
  | some a => s.count a.cnt

/-- get (shared_ptr.h 56). -/
def Heap.get (s : Heap) (h : Nat) : Option (Option Nat) := (s.handles.lookup h).map Handle.ptr

end Paradiseo.SharedPtr
