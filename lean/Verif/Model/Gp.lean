import Mathlib.Data.List.Basic
import Mathlib.Order.Lattice
import Mathlib.Algebra.BigOperators.Group.List.Basic
import Mathlib.Data.Nat.Basic

/-!
# eo: genetic programming

Model of eo/src/gp/parse_tree.h, eoParseTree.h, eoParseTreeOp.h, eoParseTreeDepthInit.h,
eoStParseTreeDepthInit.h and eoStParseTreeOp.h.  A subtree is a value: the pointers to the arguments and to the
parent are the structure, a place in a tree is the list of argument numbers that leads to it from the root.  The
remembered sizes and depths are stored as in the code, so they can be wrong.  `ar` is `Node::arity`, `d0` is
`Node()`, which has arity zero (parse_tree.h 27-28).  Sizes do not overflow.
-/

namespace Paradiseo.Gp

variable {α : Type}

/-! ### Subtrees -/

/-- `subtree` (parse_tree.h 587-593): content, `_size`, `_depth`, `_cumulative_size`, arguments. -/
inductive Sub (α : Type) where
  | mk (a : α) (size depth cum : Nat) (args : List (Sub α))

/-- The content. -/
def Sub.val : Sub α → α | .mk a _ _ _ _ => a
/-- `size()` (parse_tree.h 354). -/
def Sub.size : Sub α → Nat | .mk _ s _ _ _ => s
/-- `depth()` (parse_tree.h 357). -/
def Sub.depth : Sub α → Nat | .mk _ _ d _ _ => d
/-- `cumulative_size()` (parse_tree.h 356). -/
def Sub.cum : Sub α → Nat | .mk _ _ _ c _ => c
/-- `args`. -/
def Sub.args : Sub α → List (Sub α) | .mk _ _ _ _ as => as

/-- The default constructor (parse_tree.h 217). -/
def Sub.fresh (d0 : α) : Sub α := .mk d0 1 0 0 []

/-- updateAfterInsert without the parents (parse_tree.h 396-407). -/
def refresh (a : α) (as : List (Sub α)) : Sub α :=
  let size := 1 + (as.map Sub.size).sum
  .mk a size (as.foldl (fun d t => max d t.depth) 0 + 1) ((as.map Sub.cum).sum + size) as

/-- `operator=(const T&)` on a root, copy(const T&) (parse_tree.h 254, 495-522). -/
def setVal (ar : α → Nat) (d0 : α) (b : α) (t : Sub α) : Sub α :=
  refresh b (if ar b = ar t.val then t.args else List.replicate (ar b) (.fresh d0))

/-- The subtree at a place. -/
def Sub.at? : Sub α → List Nat → Option (Sub α)
  | t, [] => some t
  | .mk _ _ _ _ as, k :: p =>
    match as[k]? with
    | none => none
    | some t => t.at? p

/-- `tree[i] = s` for `s` in another tree (parse_tree.h 241-252): copy, then updateAfterInsert of the place and
of all its parents. -/
def Sub.assign (s : Sub α) : Sub α → List Nat → Sub α
  | _, [] => refresh s.val s.args
  | .mk a _ _ _ as, k :: p => refresh a (as.modify k fun t => s.assign t p)

/-- `tree[i] = s` for `s` in the same tree (parse_tree.h 243-247): copy of a copy, and nothing is updated. -/
def Sub.assignSame (s : Sub α) : Sub α → List Nat → Sub α
  | _, [] => s
  | .mk a sz d c as, k :: p => .mk a sz d c (as.modify k fun t => s.assignSame t p)

/-- `tree[i] = node` (parse_tree.h 254). -/
def Sub.assignVal (ar : α → Nat) (d0 b : α) : Sub α → List Nat → Sub α
  | t, [] => setVal ar d0 b t
  | .mk a _ _ _ as, k :: p => refresh a (as.modify k fun t => t.assignVal ar d0 b p)

mutual
/-- imp_get_node (parse_tree.h 431-445): the place of the node number `w`. -/
def getPath : Sub α → Nat → List Nat
  | .mk _ s _ _ as, w =>
    if w = s - 1 then []
    else match getIn as w with
      | .inl p => p
      | .inr _ => []
/-- The loop over the arguments, the last one first: the place, or what is left of `which`. -/
def getIn : List (Sub α) → Nat → List Nat ⊕ Nat
  | [], w => .inr w
  | t :: ts, w =>
    match getIn ts w with
    | .inl [] => .inl []
    | .inl (k :: p) => .inl ((k + 1) :: p)
    | .inr w' => if w' < t.size then .inl (0 :: getPath t w') else .inr (w' - t.size)
end

mutual
/-- imp_select_cumulative (parse_tree.h 415-429). -/
def selPath : Sub α → Nat → List Nat
  | .mk _ s _ c as, w =>
    if c - s ≤ w then []
    else match selIn as w with
      | .inl p => p
      | .inr _ => []
/-- The loop over the arguments. -/
def selIn : List (Sub α) → Nat → List Nat ⊕ Nat
  | [], w => .inr w
  | t :: ts, w =>
    match selIn ts w with
    | .inl [] => .inl []
    | .inl (k :: p) => .inl ((k + 1) :: p)
    | .inr w' => if w' < t.cum then .inl (0 :: selPath t w') else .inr (w' - t.cum)
end

/-- `base_iterator::operator++` (parse_tree.h 702-727): the parent after its first argument, otherwise the first
node of the argument before. -/
def next (t : Sub α) (p : List Nat) : Option (List Nat) :=
  match p.getLast? with
  | none => none
  | some 0 => some p.dropLast
  | some (k + 1) =>
    match t.at? (p.dropLast ++ [k]) with
    | none => none
    | some u => some (p.dropLast ++ [k] ++ getPath u 0)

/-- Iterating from `begin()` (parse_tree.h 896), at most `n` steps. -/
def iterate (t : Sub α) : Nat → Option (List Nat) → List (List Nat)
  | 0, _ => []
  | _, none => []
  | n + 1, some p => p :: iterate t n (next t p)

mutual
/-- subtree::init (parse_tree.h 565-585) on the sequence read backwards: the subtree and the rest.  Nothing: the
beginning of the sequence is passed (an exception only with assertions). -/
def parse (ar : α → Nat) : Nat → List α → Option (Sub α × List α)
  | 0, _ => none
  | _ + 1, [] => none
  | f + 1, a :: l =>
    match parseArgs ar f (ar a) l with
    | none => none
    | some (as, r) => some (refresh a as, r)
/-- The loop over the arguments. -/
def parseArgs (ar : α → Nat) : Nat → Nat → List α → Option (List (Sub α) × List α)
  | 0, 0, l => some ([], l)
  | 0, _ + 1, _ => none
  | _ + 1, 0, l => some ([], l)
  | f + 1, k + 1, l =>
    match parse ar f l with
    | none => none
    | some (t, r) =>
      match parseArgs ar f k r with
      | none => none
      | some (ts, r') => some (t :: ts, r')
end

/-- The constructor from a sequence (parse_tree.h 233-237, 606-607): what is left at the front is ignored. -/
def ofSeq (ar : α → Nat) (l : List α) : Option (Sub α) := (parse ar (2 * l.length + 1) l.reverse).map (·.1)

/-! ### Trees -/

/-- `parse_tree` (parse_tree.h 967-968); the last element of `pushed` is the first here. -/
structure PTree (α : Type) where
  root : Sub α
  pushed : List (Sub α)

/-- The default constructor (parse_tree.h 602). -/
def PTree.fresh (d0 : α) : PTree α := ⟨.fresh d0, []⟩

/-- clear (parse_tree.h 373-374, 628). -/
def PTree.clear (d0 : α) : PTree α := ⟨.mk d0 0 0 0 [], []⟩

/-- push_back (parse_tree.h 919-932): nothing if there are too few subtrees. -/
def PTree.push (ar : α → Nat) (t : PTree α) (b : α) : Option (PTree α) :=
  let st := if t.root.size = 0 then t.pushed else t.root :: t.pushed
  if st.length < ar b then none else some ⟨refresh b (st.take (ar b)), st.drop (ar b)⟩

/-- Pushing a sequence. -/
def PTree.pushAll (ar : α → Nat) : PTree α → List α → Option (PTree α)
  | t, [] => some t
  | t, b :: l =>
    match t.push ar b with
    | none => none
    | some t' => t'.pushAll ar l

/-- pruneTree (eoParseTree.h 90-99), `fuel` rounds: the root is replaced by the node before the last. -/
def prune (max : Nat) : Nat → Sub α → Sub α
  | 0, t => t
  | f + 1, t =>
    if max < 1 then t
    else if max < t.size then
      match t.at? (getPath t (t.size - 2)) with
      | none => t
      | some s => prune max f (s.assignSame t [])
    else t

/-! ### Operators -/

/-- eoSubtreeXOver (eoParseTreeOp.h 64-77): `i`, `j` are the numbers drawn. -/
def subtreeXover (max i j : Nat) (t1 t2 : Sub α) : Option (Sub α × Sub α) :=
  match t1.at? (getPath t1 i), t2.at? (getPath t2 j) with
  | some s1, some s2 =>
    let u1 := s2.assign t1 (getPath t1 i)
    let u2 := s1.assign t2 (getPath t2 j)
    some (prune max u1.size u1, prune max u2.size u2)
  | _, _ => none

/-- eoBranchMutation (eoParseTreeOp.h 111-125): `t2` is the tree of the initialiser.  eoExpansionMutation and
eoCollapseSubtreeMutation (228-258, 295-321) do the same with `i` and `j` drawn until the nodes have the arity
wanted. -/
def branchMut (max i j : Nat) (t1 t2 : Sub α) : Option (Sub α) :=
  match t2.at? (getPath t2 j) with
  | some s => let u := s.assign t1 (getPath t1 i); some (prune max u.size u)
  | none => none

/-- eoPointMutation (eoParseTreeOp.h 171-191) with the node `b` drawn last, of the same arity.  eoStPointMutation
(eoStParseTreeOp.h 237-248) with `b` of the same arity and type. -/
def pointMut (ar : α → Nat) (d0 : α) (i : Nat) (b : α) (t : Sub α) : Sub α := t.assignVal ar d0 b (getPath t i)

/-- eoHoistMutation (eoParseTreeOp.h 358-373): copies of the subtree.  eoStHoistMutation (eoStParseTreeOp.h
285-303) with `i` among the nodes of the type of the root. -/
def hoist (i : Nat) (t : Sub α) : Option (Sub α) := t.at? (getPath t i)

/-! ### Initialisers -/

/-- `rng.random(k)`, the draw number `n` of the stream. -/
def rnd (r : Nat → Nat) (n k : Nat) : Nat := if k = 0 then 0 else r n % k

/-- `k` times. -/
def times {σ : Type} (f : σ → Option σ) : Nat → σ → Option σ
  | 0, s => some s
  | k + 1, s =>
    match f s with
    | none => none
    | some s' => times f k s'

/-- generate (eoParseTreeDepthInit.h 123-162) with `the_max = d + 1`: the state is the sequence, here with the
last node pushed to the front at the end, and the number of draws.  `nodes` is sorted by arity, the first `term` are
terminals.  Nothing: a node beyond the end. -/
def generate (ar : α → Nat) (nodes : List α) (term : Nat) (grow : Bool) (r : Nat → Nat) :
    Nat → List α × Nat → Option (List α × Nat)
  | 0, (l, n) =>
    match nodes[rnd r n term]? with
    | none => none
    | some a => some (l ++ [a], n + 1)
  | d + 1, (l, n) =>
    let k := if grow then rnd r n nodes.length else term + rnd r n (nodes.length - term)
    match nodes[k]? with
    | none => none
    | some a => times (generate ar nodes term grow r d) (ar a) (l ++ [a], n + 1)

/-- eoParseTreeDepthInit::operator() (eoParseTreeDepthInit.h 100-106); the constructor sorts (92). -/
def depthInit (ar : α → Nat) (nodes : List α) (grow : Bool) (r : Nat → Nat) (d n : Nat) : Option (Sub α) :=
  let sorted := nodes.mergeSort fun a b => ar a ≤ ar b
  match generate ar sorted (sorted.findIdx fun a => 0 < ar a) grow r d ([], n) with
  | none => none
  | some (l, _) => ofSeq ar l.reverse

/-- The change of mode and depth after each tree when half and half (eoParseTreeDepthInit.h 108-119). -/
def rampStep (maxDepth : Nat) (s : Bool × Nat) : Bool × Nat :=
  if s.1 then (!s.1, if 2 < s.2 then s.2 - 1 else maxDepth) else (!s.1, s.2)

/-- The sizes of the parts of eoInitRampedHalfAndHalf (eoParseTreeDepthInit.h 188-218) for a depth of at least two:
the number of trees per depth and mode, then those added. -/
def rampCounts (pop depth : Nat) : Nat × Nat :=
  let part := pop / (2 * (depth - 1))
  (part, pop - (depth - 1) * (2 * part))

/-! ### Strongly typed trees -/

/-- A node with its type and the types of its arguments. -/
structure Typed (α : Type) where
  ar : α → Nat
  ty : α → Int
  argTy : α → Nat → Int

/-- `node[type][TERMINAL]`, `[NONTERMINAL]`, `[ALL]` (eoStParseTreeDepthInit.h 98-119). -/
def terminals (T : Typed α) (nodes : List α) (y : Int) : List α := nodes.filter fun a => T.ty a = y ∧ T.ar a = 0
def nonterminals (T : Typed α) (nodes : List α) (y : Int) : List α := nodes.filter fun a => T.ty a = y ∧ T.ar a ≠ 0
def allOf (T : Typed α) (nodes : List α) (y : Int) : List α := nodes.filter fun a => T.ty a = y

/-- A loop over the arguments with their numbers. -/
def eachArg {σ : Type} (f : Nat → σ → Option σ) : Nat → Nat → σ → Option σ
  | 0, _, s => some s
  | k + 1, i, s =>
    match f i s with
    | none => none
    | some s' => eachArg f k (i + 1) s'

/-- generate (eoStParseTreeDepthInit.h 143-182), `the_max = d + 1`: the third component is `ok`.  Nothing: an
element of an empty vector. -/
def stGenerate (T : Typed α) (nodes : List α) (grow : Bool) (r : Nat → Nat) :
    Nat → Int → List α × Nat × Bool → Option (List α × Nat × Bool)
  | 0, y, (l, n, ok) =>
    let ts := terminals T nodes y
    if ts.isEmpty then some (l, n, false)
    else match ts[rnd r n ts.length]? with
      | none => none
      | some a => some (l ++ [a], n + 1, ok)
  | d + 1, y, (l, n, ok) =>
    let ts := if grow then allOf T nodes y else nonterminals T nodes y
    match ts[rnd r n ts.length]? with
    | none => none
    | some a => eachArg (fun i s => stGenerate T nodes grow r d (T.argTy a i) s) (T.ar a) 0 (l ++ [a], n + 1, ok)

/-- One round of operator() (eoStParseTreeDepthInit.h 133-140): a tree if the sequence is good. -/
def stInit (T : Typed α) (nodes : List α) (grow : Bool) (r : Nat → Nat) (d : Nat) (y : Int) (n : Nat) :
    Option (Sub α) :=
  match stGenerate T nodes grow r d y ([], n, true) with
  | some (l, _, true) => ofSeq T.ar l.reverse
  | _ => none

/-- get_possible_nodes (eoStParseTreeOp.h 41-49). -/
def possible (T : Typed α) (t : Sub α) (y : Int) : List Nat :=
  (List.range t.size).filter fun n =>
    match t.at? (getPath t n) with
    | none => false
    | some u => T.ty u.val = y

/-- The loop of eoStSubtreeXOver (eoStParseTreeOp.h 87-100) over the numbers drawn, all different: the first with a
partner of its type, otherwise the last one. -/
def stPick (T : Typed α) (t1 t2 : Sub α) : List Nat → Option (Nat × List Nat)
  | [] => none
  | i :: is =>
    match t1.at? (getPath t1 i) with
    | none => none
    | some u =>
      let ns := possible T t2 (T.ty u.val)
      if ns.isEmpty ∧ !is.isEmpty then stPick T t1 t2 is else some (i, ns)

/-- eoStSubtreeXOver (eoStParseTreeOp.h 79-123): `is` are the different numbers drawn, `c` the choice. -/
def stXover (T : Typed α) (is : List Nat) (c : Nat) (t1 t2 : Sub α) : Option (Sub α × Sub α) :=
  match stPick T t1 t2 is with
  | none => none
  | some (i, ns) =>
    match ns[c % ns.length]? with
    | none => some (t1, t2)
    | some j =>
      match t1.at? (getPath t1 i), t2.at? (getPath t2 j) with
      | some s1, some s2 => some (s2.assign t1 (getPath t1 i), s1.assign t2 (getPath t2 j))
      | _, _ => none

end Paradiseo.Gp
