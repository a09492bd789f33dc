import Mathlib.Data.List.Basic
import Verif.Model.EOReplacement

/-!
# mathsym: expressions as trees, their places, crossover, mutation and generation

Model of eo/contrib/mathsym/sym/Sym.cpp 121-153, gen/NodeSelector.cpp, gen/TreeBuilder.cpp,
gen/LanguageTable.cpp, eo_interface/eoSymCrossover.cpp, eoSymMutate.cpp, eoSymInit.h.

Simplifications:
* an expression is the value it denotes: the shared nodes and their counters are not represented, equality of
  expressions is equality of token and arguments (SymImpl.cpp 87-90);
* draws made while a tree is walked are functions of the place of the node (the argument numbers that lead to
  it from the root), which is one way to number them; sizes do not overflow.
-/

namespace Paradiseo.MathSym

open Paradiseo.EO

variable {T : Type}

/-- An expression: a token and arguments (Sym.h 56-103). -/
inductive Tree (T : Type) where
  | node (t : T) (args : List (Tree T))

/-- `token()` (Sym.h 98). -/
def Tree.token : Tree T → T | .node t _ => t
/-- `args()` (Sym.h 100). -/
def Tree.args : Tree T → List (Tree T) | .node _ as => as

mutual
/-- `size()` as stored by the constructors (Sym.cpp 57, 82, 104). -/
def Tree.size : Tree T → Nat
  | .node _ as => 1 + sizes as
/-- get_size (Sym.cpp 33-39). -/
def sizes : List (Tree T) → Nat
  | [] => 0
  | a :: as => a.size + sizes as
end

mutual
/-- get_subtree (Sym.cpp 144-153): an index that is too large gives the root back. -/
def Tree.get : Tree T → Nat → Tree T
  | .node t as, 0 => .node t as
  | .node t as, w + 1 => (getArgs as w).getD (.node t as)
/-- The loop of get_subtree over the arguments (Sym.cpp 148-151). -/
def getArgs : List (Tree T) → Nat → Option (Tree T)
  | [], _ => none
  | a :: as, w => if w < a.size then some (a.get w) else getArgs as (w - a.size)
end

open Classical in
mutual
/-- insert_subtree_impl (Sym.cpp 121-139): the new expression and whether something changed.  When no argument
has the place, `newvec[i]` is out of range. -/
noncomputable def Tree.insertImpl : Tree T → Nat → Tree T → Except Err (Tree T × Bool)
  | .node t as, 0, nw => .ok (nw, decide (nw ≠ .node t as))
  | .node t as, w + 1, nw =>
    match insertArgs as w nw with
    | .error e => .error e
    | .ok (as', ch) => if ch then .ok (.node t as', true) else .ok (.node t as, false)
/-- The loop of insert_subtree_impl over the arguments (Sym.cpp 128-137). -/
noncomputable def insertArgs : List (Tree T) → Nat → Tree T → Except Err (List (Tree T) × Bool)
  | [], _, _ => .error .ub
  | a :: as, w, nw =>
    if w < a.size then
      match a.insertImpl w nw with
      | .error e => .error e
      | .ok (a', ch) => .ok (a' :: as, ch)
    else
      match insertArgs as (w - a.size) nw with
      | .error e => .error e
      | .ok (as', ch) => .ok (a :: as', ch)
end

/-- insert_subtree (Sym.cpp 141-143). -/
noncomputable def Tree.insert (t : Tree T) (w : Nat) (nw : Tree T) : Except Err (Tree T) :=
  match t.insertImpl w nw with
  | .error e => .error e
  | .ok (t', _) => .ok t'

/-! ### Selection of nodes, crossover -/

/-- NodeSelector::NodeSelection (NodeSelector.h 27-40). -/
structure Selection (T : Type) where
  root : Tree T
  idx : Nat
  sub : Option (Tree T)

/-- `subtree()` (NodeSelector.cpp 24-29). -/
def Selection.subtree (s : Selection T) : Tree T := s.sub.getD (s.root.get s.idx)

/-- RandomNodeSelector::select_node (NodeSelector.cpp 31-34); `r` is the draw below the size. -/
def randomSelect (r : Nat) (t : Tree T) : Selection T := ⟨t, r, none⟩

/-- The loop of BiasedNodeSelector::select_node (NodeSelector.cpp 40-46): `r k` is draw number `k`. -/
def biasedLoop (r : Nat → Nat) (t : Tree T) : Nat → Nat → Nat → Option (Tree T) → Nat × Option (Tree T)
  | 0, _, p, res => (p, res)
  | n + 1, k, p, _ =>
    if (t.get p).args.length > 0 then (p, some (t.get p))
    else biasedLoop r t n (k + 1) (r k) (some (t.get p))

/-- BiasedNodeSelector::select_node (NodeSelector.cpp 36-49). -/
def biasedSelect (rounds : Nat) (r : Nat → Nat) (t : Tree T) : Selection T :=
  ⟨t, (biasedLoop r t rounds 1 (r 0) none).1, (biasedLoop r t rounds 1 (r 0) none).2⟩

/-- subtree_quad (eoSymCrossover.cpp 28-38) on the two selections. -/
noncomputable def subtreeQuad (a b : Tree T) (sa sb : Selection T) : Except Err (Tree T × Tree T) :=
  match a.insert sa.idx sb.subtree with
  | .error e => .error e
  | .ok a' =>
    match b.insert sb.idx sa.subtree with
    | .error e => .error e
    | .ok b' => .ok (a', b')

/-- subtree_bin (eoSymCrossover.cpp 40-47). -/
noncomputable def subtreeBin (a : Tree T) (sa sb : Selection T) : Except Err (Tree T) :=
  a.insert sa.idx sb.subtree

open Classical in
mutual
/-- homologous_binimpl (eoSymCrossover.cpp 49-72); `u p` is the draw at place `p`. -/
noncomputable def homolog (u : List Nat → Bool) : List Nat → Tree T → Tree T → Tree T
  | p, .node ta as, .node tb bs =>
    if Tree.node ta as = Tree.node tb bs then .node ta as
    else
      let mixed := homologArgs u p 0 as bs
      let args := mixed ++ (if u p then as else bs).drop mixed.length
      if !(u p) ∨ (∃ i, i < mixed.length ∧ mixed[i]? ≠ as[i]?) then
        .node (if u p then ta else tb) args
      else .node ta as
/-- The loop over the arguments both have (eoSymCrossover.cpp 60-69). -/
noncomputable def homologArgs (u : List Nat → Bool) : List Nat → Nat → List (Tree T) → List (Tree T) →
    List (Tree T)
  | _, _, [], _ => []
  | _, _, _ :: _, [] => []
  | p, i, a :: as, b :: bs => homolog u (p ++ [i]) a b :: homologArgs u p (i + 1) as bs
end

open Classical in
/-- homologous_bin (eoSymCrossover.cpp 74-79). -/
noncomputable def homologousBin (u : List Nat → Bool) (a b : Tree T) : Tree T × Bool :=
  if a = b then (a, false) else (homolog u [] a b, decide (a ≠ homolog u [] a b))

mutual
/-- set_size_levels (eoSymCrossover.cpp 81-88): level and size of every node. -/
def levels : Nat → Tree T → List (Nat × Nat)
  | l, .node t as => (l, (Tree.node t as).size) :: levelsArgs (l + 1) as
def levelsArgs : Nat → List (Tree T) → List (Nat × Nat)
  | _, [] => []
  | l, a :: as => levels l a ++ levelsArgs l as
end

/-- The loop of size_level_xover (eoSymCrossover.cpp 106-115) from try number `k`: the pair of places it keeps;
`r k` is the pair drawn at try `k`. -/
def sizeLevelTry (la lb : List (Nat × Nat)) (r : Nat → Nat × Nat) : Nat → Nat → Option (Nat × Nat)
  | 0, _ => none
  | fuel + 1, k =>
    match la[(r k).1]?, lb[(r k).2]? with
    | some x, some y =>
      if k < 5 ∧ x.2 ≠ y.2 ∧ x.1 ≠ y.1 then sizeLevelTry la lb r fuel (k + 1) else some (r k)
    | _, _ => none

open Classical in
/-- size_level_xover (eoSymCrossover.cpp 91-121). -/
noncomputable def sizeLevelXover (a b : Tree T) (r : Nat → Nat × Nat) : Except Err (Tree T × Bool) :=
  match sizeLevelTry (levels 1 a) (levels 1 b) r 6 0 with
  | none => .error .ub
  | some (p0, p1) =>
    match a.insert p0 (b.get p1) with
    | .error e => .error e
    | .ok a' => .ok (a', decide (a ≠ a'))

/-! ### The language, mutation of nodes, generation -/

/-- LanguageImpl (LanguageTable.cpp 28-37): terminals, functions with their arity, tokens by arity. -/
structure Language (T : Type) where
  vars : List (Tree T)
  functions : List (T × Nat)
  perArity : List (List T)

/-- The empty table (LanguageTable.cpp 39-41). -/
def Language.empty : Language T := ⟨[], [], []⟩

/-- LanguageTable::add_function (LanguageTable.cpp 61-73). -/
def Language.add (l : Language T) (f : T × Nat) : Language T :=
  let per := if l.perArity.length ≤ f.2 then l.perArity ++ List.replicate (f.2 + 1 - l.perArity.length) []
    else l.perArity
  ⟨if f.2 > 0 then l.vars else l.vars ++ [.node f.1 []],
   if f.2 > 0 then l.functions ++ [f] else l.functions,
   per.set f.2 (per.getD f.2 [] ++ [f.1])⟩

/-- get_random_function of a token and an arity (LanguageTable.cpp 89-95): `c` is the number drawn, which is
below the number of candidates. -/
def Language.pick (l : Language T) (c : Nat) (t : T) (arity : Nat) : T :=
  match l.perArity[arity]? with
  | none => t
  | some [] => t
  | some (x :: xs) => (x :: xs).getD (c % (xs.length + 1)) x

open Classical in
mutual
/-- do_mutate (eoSymMutate.cpp 24-47): `flip p` is the flip at place `p`, `c p` the choice. -/
noncomputable def doMutate (l : Language T) (flip : List Nat → Bool) (c : List Nat → Nat) :
    List Nat → Tree T → Tree T × Bool
  | p, .node t as =>
    let t' := if flip p then l.pick (c p) t as.length else t
    let r := mutateArgs l flip c p 0 as
    if t' ≠ t ∨ r.2 = true then (.node t' r.1, true) else (.node t as, false)
/-- The loop over the arguments (eoSymMutate.cpp 36-41). -/
noncomputable def mutateArgs (l : Language T) (flip : List Nat → Bool) (c : List Nat → Nat) :
    List Nat → Nat → List (Tree T) → List (Tree T) × Bool
  | _, _, [] => ([], false)
  | p, i, a :: as =>
    let r := doMutate l flip c (p ++ [i]) a
    let s := mutateArgs l flip c p (i + 1) as
    ((if r.2 then r.1 else a) :: s.1, r.2 || s.2)
end

/-- The draws of TreeBuilder::build_tree at each place. -/
structure BuildDraws (T : Type) where
  /-- `rng.random(2) == 0` when growing. -/
  stop : List Nat → Bool
  /-- `rng.flip(vcprob)`. -/
  isVar : List Nat → Bool
  /-- The number drawn by `rng.choice`. -/
  choice : List Nat → Nat
  /-- The constant made by `erc()`. -/
  erc : List Nat → Tree T

/-- `rng.choice` (eoRNG.h): the element drawn, out of range for an empty vector. -/
def choose {α : Type} (c : Nat) (xs : List α) : Except Err α :=
  match xs[c % xs.length]? with
  | none => .error .ub
  | some x => .ok x

/-- TreeBuilder::make_terminal (TreeBuilder.cpp 21-27). -/
def makeTerminal (l : Language T) (d : BuildDraws T) (p : List Nat) : Except Err (Tree T) :=
  if d.isVar p then choose (d.choice p) l.vars else .ok (d.erc p)

/-- Build the arguments in order, stop at the first failure. -/
def buildArgs {α : Type} (f : Nat → Except Err α) : Nat → Nat → Except Err (List α)
  | 0, _ => .ok []
  | n + 1, i =>
    match f i with
    | .error e => .error e
    | .ok a =>
      match buildArgs f n (i + 1) with
      | .error e => .error e
      | .ok as => .ok (a :: as)

/-- TreeBuilder::build_tree (TreeBuilder.cpp 29-45). -/
def buildTree (l : Language T) (d : BuildDraws T) (grow : Bool) : Nat → List Nat → Except Err (Tree T)
  | 0, p => makeTerminal l d p
  | n + 1, p =>
    if grow && d.stop p then makeTerminal l d p
    else
      match choose (d.choice p) l.functions with
      | .error e => .error e
      | .ok f =>
        match buildArgs (fun i => buildTree l d grow n (p ++ [i])) f.2 0 with
        | .error e => .error e
        | .ok as => .ok (.node f.1 as)

/-- The depth eoSymInit asks for (eoSymInit.h 56-59): `rng.random(max_depth-2) + 2`, where the subtraction is of
32-bit unsigned numbers and `random(m)` is the integer part of `u * m` for a draw `u` in [0, 1). -/
def initDepth (u : ℚ) (maxDepth : Nat) : Nat :=
  ⌊u * ((maxDepth + (2 ^ 32 - 2)) % 2 ^ 32 : Nat)⌋₊ + 2

end Paradiseo.MathSym
