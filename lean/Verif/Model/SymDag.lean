import Verif.Model.SymTree

/-!
# mathsym: formulas as shared nodes with reference counts

Model of eo/contrib/mathsym/sym/Sym.h, Sym.cpp (constructors) and SymImpl.cpp.

Simplifications:
* variables of type `Sym` have numbers as names; a program is a list of declarations, assignments and ends of
  scope; a node has a number instead of an address, not used again;
* the table `dag` is a list of nodes found by their key (token and arguments): hashing is not modelled;
* the vector of arguments that a constructor gets is made of existing variables; the copies in it, and in the key
  before `fixate` (SymImpl.cpp 61-66), come and go without effect on the end of the step;
* counters do not wrap around; `factory` is not modelled.
-/

namespace Paradiseo.MathSym.Dag

/-- An entry of `dag`: key (SymImpl.h 57-84) and value (SymImpl.h 86-107). -/
structure Node where
  id : Nat
  tok : Nat
  args : List Nat
  cnt : Nat
  size : Nat
  depth : Nat
  deriving DecidableEq

/-- `dag` and `token_count` (Sym.h 146-148). -/
structure Mem where
  nodes : List Node
  tokens : Nat → Nat

/-- The node with this number. -/
def Mem.find (m : Mem) (i : Nat) : Option Node := m.nodes.find? fun n => n.id = i

/-- The node with this key (`dag.insert` finding an equal key; SymImpl.cpp 87-90). -/
def Mem.findKey (m : Mem) (tok : Nat) (args : List Nat) : Option Node :=
  m.nodes.find? fun n => n.tok = tok && n.args = args

/-- incref (Sym.h 127-132): undefined when the node is gone. -/
def Mem.incref (m : Mem) (i : Nat) : Option Mem :=
  match m.find i with
  | none => none
  | some n =>
    some ⟨m.nodes.map fun k => if k.id = i then { k with cnt := k.cnt + 1 } else k,
      fun t => if t = n.tok then m.tokens t + 1 else m.tokens t⟩

/-- `fixate` (SymImpl.cpp 61-66): a copy of every argument. -/
def Mem.increfs (m : Mem) : List Nat → Option Mem
  | [] => some m
  | i :: is =>
    match m.incref i with
    | none => none
    | some m1 => m1.increfs is

/-- The number of arguments stored. -/
def Mem.weight (m : Mem) : Nat := (m.nodes.map fun n => n.args.length).sum

theorem sum_filter_add_le (l : List Node) (i : Nat) (n : Node)
    (h : l.find? (fun n => n.id = i) = some n) :
    ((l.filter fun k => k.id ≠ i).map fun n => n.args.length).sum + n.args.length
      ≤ (l.map fun n => n.args.length).sum := by
  have hle : ∀ l : List Node, ((l.filter fun k => k.id ≠ i).map fun n => n.args.length).sum
      ≤ (l.map fun n => n.args.length).sum := by
    intro l
    induction l with
    | nil => simp
    | cons k l ih => by_cases hk : k.id = i <;> simp [hk] <;> simp at ih <;> omega
  induction l with
  | nil => simp at h
  | cons k l ih =>
    by_cases hk : k.id = i
    · simp only [List.find?_cons, hk, decide_true, Option.some.injEq] at h
      subst h
      have := hle l
      simp [hk] at this ⊢
      omega
    · simp only [List.find?_cons, hk, decide_false] at h
      have := ih h
      simp [hk] at this ⊢
      omega

theorem sum_dec (l : List Node) (i : Nat) :
    ((l.map fun k => if k.id = i then { k with cnt := k.cnt - 1 } else k).map fun n => n.args.length)
      = l.map fun n => n.args.length := by
  rw [List.map_map]
  apply List.map_congr_left
  intro k _
  by_cases hk : k.id = i <;> simp [hk]

/-- `--token_count[token()]` and `dag.erase(node)` (Sym.h 135-137). -/
def Mem.erase (m : Mem) (n : Node) : Mem :=
  ⟨m.nodes.filter fun k => k.id ≠ n.id, fun t => if t = n.tok then m.tokens t - 1 else m.tokens t⟩

/-- `--token_count[token()]` and `--refcount` (Sym.h 135-136). -/
def Mem.dec (m : Mem) (n : Node) : Mem :=
  ⟨m.nodes.map fun k => if k.id = n.id then { k with cnt := k.cnt - 1 } else k,
    fun t => if t = n.tok then m.tokens t - 1 else m.tokens t⟩

theorem erase_weight {m : Mem} {i : Nat} {n : Node} (h : m.find i = some n) :
    (m.erase n).weight + n.args.length ≤ m.weight := by
  have hi : n.id = i := by simpa using List.find?_some h
  subst hi
  exact sum_filter_add_le m.nodes n.id n h

theorem dec_weight (m : Mem) (n : Node) : (m.dec n).weight = m.weight := by
  simp only [Mem.weight, Mem.dec, sum_dec]

/-- decref (Sym.h 133-140) for each of these references; a node whose count gets to zero is erased, and its
arguments are given up in turn (the destructor of SymArgs, SymImpl.cpp 39-41).  Undefined when a node is gone. -/
def Mem.release (m : Mem) (w : List Nat) : Option Mem :=
  match w with
  | [] => some m
  | i :: w =>
    match _h : m.find i with
    | none => none
    | some n => if n.cnt ≤ 1 then (m.erase n).release (n.args ++ w) else (m.dec n).release w
termination_by m.weight + w.length
decreasing_by
  · have := erase_weight _h
    simp only [List.length_append, List.length_cons] at this ⊢
    omega
  · simp only [dec_weight, List.length_cons]
    omega

/-- The variables with their nodes (`none` is an empty one, Sym.h 60), the memory, the numbers used. -/
structure St where
  vars : List (Nat × Option Nat)
  mem : Mem
  next : Nat

/-- Before the first variable. -/
def St.init : St := ⟨[], ⟨[], fun _ => 0⟩, 0⟩

/-- A step of a program. -/
inductive Op where
  | empty (h : Nat)
  | leaf (h tok : Nat)
  | make (h tok : Nat) (gs : List Nat)
  | copy (h g : Nat)
  | assign (h g : Nat)
  | assignArg (h g i : Nat)
  | destroy (h : Nat)

/-- The nodes of the variables of an argument vector; all must be there and not empty. -/
def St.ids (s : St) : List Nat → Option (List Nat)
  | [] => some []
  | g :: gs =>
    match s.vars.lookup g, s.ids gs with
    | some (some i), some is => some (i :: is)
    | _, _ => none

/-- get_size (Sym.cpp 33-39). -/
def Mem.sizes (m : Mem) (is : List Nat) : Nat :=
  (is.map fun i => match m.find i with | some n => n.size | none => 0).sum

/-- get_depth (Sym.cpp 41-47). -/
def Mem.depths (m : Mem) (is : List Nat) : Nat :=
  is.foldl (fun d i => max d (match m.find i with | some n => n.depth | none => 0)) 1

/-- The constructors from a token and arguments (Sym.cpp 49-72, 74-96) and from a token (98-119), up to the depth
of a new node: the node of the key, found or new, with one more reference. -/
def St.construct (s : St) (h tok : Nat) (is : List Nat) (depth : Nat) : Option St :=
  match s.mem.findKey tok is with
  | some n =>
    match s.mem.incref n.id with
    | none => none
    | some m => some ⟨(h, some n.id) :: s.vars, m, s.next⟩
  | none =>
    match s.mem.increfs is with
    | none => none
    | some m =>
      some ⟨(h, some s.next) :: s.vars,
        ⟨⟨s.next, tok, is, 1, 1 + s.mem.sizes is, depth⟩ :: m.nodes,
          fun t => if t = tok then m.tokens t + 1 else m.tokens t⟩, s.next + 1⟩

/-- Giving up what a variable holds (Sym.h 133-140). -/
def Mem.drop (m : Mem) : Option Nat → Option Mem
  | none => some m
  | some i => m.release [i]

/-- One more reference to a node, or to none (Sym.h 127-132). -/
def Mem.take (m : Mem) : Option Nat → Option Mem
  | none => some m
  | some i => m.incref i

/-- A variable gets another node. -/
def setVar (h : Nat) (a : Option Nat) (l : List (Nat × Option Nat)) : List (Nat × Option Nat) :=
  l.map fun p => if p.1 = h then (h, a) else p

/-- One step; `none` is undefined behaviour (or a variable that does not exist). -/
def St.step (s : St) : Op → Option St
  -- Sym() (Sym.h 60)
  | .empty h => some ⟨(h, none) :: s.vars, s.mem, s.next⟩
  -- Sym(token) (Sym.cpp 98-119)
  | .leaf h tok => s.construct h tok [] 1
  -- Sym(token, args) (Sym.cpp 49-72)
  | .make h tok gs =>
    match s.ids gs with
    | none => none
    | some is => s.construct h tok is (1 + s.mem.depths is)
  -- Sym(const Sym&) (Sym.h 67)
  | .copy h g =>
    match s.vars.lookup g with
    | none => none
    | some b =>
      match s.mem.take b with
      | none => none
      | some m => some ⟨(h, b) :: s.vars, m, s.next⟩
  -- operator= (Sym.h 70-76)
  | .assign h g =>
    match s.vars.lookup h, s.vars.lookup g with
    | some a, some b =>
      if b = a then some s
      else
        match s.mem.drop a with
        | none => none
        | some m =>
          match m.take b with
          | none => none
          | some m1 => some ⟨setVar h b s.vars, m1, s.next⟩
    | _, _ => none
  -- operator= with an element of args() of the formula in g (Sym.h 70-76, 100): the element is in the node of g,
  -- and is read after the old formula has been given up
  | .assignArg h g i =>
    match s.vars.lookup h, s.vars.lookup g with
    | some a, some (some j) =>
      match s.mem.find j with
      | none => none
      | some n =>
        match n.args[i]? with
        | none => none
        | some b =>
          if some b = a then some s
          else
            match s.mem.drop a with
            | none => none
            | some m =>
              match m.find j with
              | none => none
              | some _ =>
                match m.take (some b) with
                | none => none
                | some m1 => some ⟨setVar h (some b) s.vars, m1, s.next⟩
    | _, _ => none
  -- ~Sym() (Sym.h 68)
  | .destroy h =>
    match s.vars.lookup h with
    | none => none
    | some a =>
      match s.mem.drop a with
      | none => none
      | some m => some ⟨s.vars.filter fun p => p.1 ≠ h, m, s.next⟩

/-- How a program ends. -/
inductive Res where
  | done (s : St)
  | ruleBroken
  | undefined

/-- The argument is there (`args()[i]` in range). -/
def St.hasArg (s : St) (g i : Nat) : Bool :=
  match s.vars.lookup g with
  | some (some j) =>
    match s.mem.find j with
    | some n => decide (i < n.args.length)
    | none => false
  | _ => false

/-- The rules of use: a new variable has a new name, the variables used exist, arguments are not empty and in
range, and a variable is not assigned an element of its own arguments. -/
def St.allowed (s : St) : Op → Bool
  | .empty h => (s.vars.lookup h).isNone
  | .leaf h _ => (s.vars.lookup h).isNone
  | .make h _ gs => (s.vars.lookup h).isNone && (s.ids gs).isSome
  | .copy h g => (s.vars.lookup h).isNone && (s.vars.lookup g).isSome
  | .assign h g => (s.vars.lookup h).isSome && (s.vars.lookup g).isSome
  | .assignArg h g i => (s.vars.lookup h).isSome && s.hasArg g i && decide (h ≠ g)
  | .destroy h => (s.vars.lookup h).isSome

/-- A program that keeps the rules, or stops where it breaks one. -/
def St.run (s : St) : List Op → Res
  | [] => .done s
  | op :: ops =>
    if s.allowed op then
      match s.step op with
      | none => .undefined
      | some s1 => s1.run ops
    else .ruleBroken

/-- The same without looking at the rules. -/
def St.runAny (s : St) : List Op → Option St
  | [] => some s
  | op :: ops =>
    match s.step op with
    | none => none
    | some s1 => s1.runAny ops

/-- operator== (Sym.h 89-91). -/
def St.equal (s : St) (h g : Nat) : Option Bool :=
  match s.vars.lookup h, s.vars.lookup g with
  | some a, some b => some (decide (a = b))
  | _, _ => none

/-- refcount() (Sym.h 87). -/
def St.refcount (s : St) (h : Nat) : Option Nat :=
  match s.vars.lookup h with
  | none => none
  | some none => some 0
  | some (some i) => (s.mem.find i).map Node.cnt

/-- size() (Sym.h 103). -/
def St.size (s : St) (h : Nat) : Option Nat :=
  match s.vars.lookup h with
  | none => none
  | some none => some 0
  | some (some i) => (s.mem.find i).map Node.size

/-- depth() (Sym.h 104). -/
def St.depth (s : St) (h : Nat) : Option Nat :=
  match s.vars.lookup h with
  | none => none
  | some none => some 0
  | some (some i) => (s.mem.find i).map Node.depth

end Paradiseo.MathSym.Dag
