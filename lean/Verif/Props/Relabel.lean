/-
Property C395: permutation operators do not depend on how the elements are numbered, nor do genetic algorithms made of them.
-/
import Verif.Props.BitUnbiased
import Verif.Model.Neighborhood
import Mathlib.Logic.Equiv.Defs
import Mathlib.Data.List.Perm.Basic
import Mathlib.Data.List.Perm.Lattice

namespace Paradiseo.Ops
open Paradiseo.EO (Err)

section
variable {α β : Type} (f : α → β)

theorem rd_map (l : List α) (i : Nat) : rd (l.map f) i = (rd l i).map f := by
  simp only [rd, List.getElem?_map]
  cases l[i]? <;> rfl

theorem wr_map (l : List α) (i : Nat) (a : α) : wr (l.map f) i (f a) = (wr l i a).map (List.map f) := by
  simp only [wr, List.length_map]
  split_ifs
  · simp [Except.map, List.map_set]
  · rfl

theorem swapL_map (l : List α) (i j : Nat) : swapL (l.map f) i j = (swapL l i j).map (List.map f) := by
  simp only [swapL, rd_map]
  rcases rd l i with e | a <;> rcases rd l j with e' | b <;> simp [Except.map, List.map_set]

theorem shiftCore_map (l : List α) (i j : Nat) : shiftCore (l.map f) i j = (shiftCore l i j).map (List.map f) := by
  have hs : ∀ (s : List α) k, shiftStep (s.map f) k = (shiftStep s k).map (List.map f) := by
    intro s k
    simp only [shiftStep, rd_map]
    rcases rd s (k - 1) with e | a
    · rfl
    · exact wr_map f s k a
  simp only [shiftCore, rd_map]
  rcases rd l j with e | a
  · rfl
  · simp only [Except.map]
    rw [foldlM_comm (List.map f) hs]
    rcases List.foldlM shiftStep l (List.range' (i + 1) (j - i)).reverse with e | l'
    · rfl
    · exact wr_map f l' i a

theorem swapMutationLoop_map (r : Nat → Nat) (fuel : Nat) : ∀ (k t : Nat) (l : List α),
    swapMutationLoop r fuel k t (l.map f) = (swapMutationLoop r fuel k t l).map (List.map f)
  | 0, _, _ => rfl
  | k + 1, t, l => by
    simp only [swapMutationLoop, List.length_map]
    rcases drawTwo r l.length fuel t with e | ⟨i, j, t'⟩
    · rfl
    · simp only [swapL_map]
      rcases swapL l i j with e | l'
      · rfl
      · exact swapMutationLoop_map r fuel k t' l'

/-- **C395**: the mutations of permutations move elements without looking at them: renaming the elements, by any function, before the mutation
is renaming them after it, and failures are the same. -/
theorem C395_mutations (r : Nat → Nat) (fuel k : Nat) (l : List α) :
    swapMutation r fuel k (l.map f) = (swapMutation r fuel k l).map (List.map f) ∧
    shiftMutation r fuel (l.map f) = (shiftMutation r fuel l).map (List.map f) ∧
    twoOptMutation r fuel (l.map f) = (twoOptMutation r fuel l).map (List.map f) := by
  refine ⟨?_, ?_, ?_⟩
  · simp only [swapMutation]
    split_ifs
    · rfl
    · exact swapMutationLoop_map f r fuel k 0 l
  · simp only [shiftMutation, List.length_map]
    rcases drawTwo r l.length fuel 0 with e | ⟨i, j, t⟩
    · rfl
    · exact shiftCore_map f l _ _
  · simp only [twoOptMutation, List.length_map]
    rcases drawTwo r l.length fuel 0 with e | ⟨i, j, t⟩
    · rfl
    · exact foldlM_comm (List.map f) (fun s k => swapL_map f s _ _) _ _

end

/-! ### Crossovers -/

/-- A renumbering of the elements `0, …, n - 1`. -/
def Renumbers (n : Nat) (π : Equiv.Perm Nat) : Prop := ∀ v, π v < n ↔ v < n

section
variable {n : Nat} {π : Equiv.Perm Nat}

/-- The state of the order crossover, renumbered. -/
def oxRename (π : Equiv.Perm Nat) (s : OxState) : OxState :=
  { child := s.child.map π, verif := fun k => s.verif (π.symm k), id := s.id }

theorem oxPut_rename (hπ : Renumbers n π) (s : OxState) (v : Nat) (hv : v < n) :
    oxPut n (oxRename π s) (π v) = (oxPut n s v).map (oxRename π) := by
  have e := wr_map π s.child s.id v
  simp only [oxPut, oxRename, e]
  rcases wr s.child s.id v with e | c
  · rfl
  · simp only [Except.map, oxRename, Nat.mod_eq_of_lt hv, Nat.mod_eq_of_lt ((hπ v).2 hv), Equiv.symm_apply_eq]

theorem oxFillStep_rename (hπ : Renumbers n π) (s : OxState) (v : Nat) (hv : v < n) :
    oxFillStep n (oxRename π s) (π v) = (oxFillStep n s v).map (oxRename π) := by
  have e : (oxRename π s).verif (π v % n) = s.verif (v % n) := by
    simp [oxRename, Nat.mod_eq_of_lt hv, Nat.mod_eq_of_lt ((hπ v).2 hv)]
  simp only [oxFillStep, e]
  split_ifs
  · rfl
  · exact oxPut_rename hπ s v hv

theorem readThen_rename (l : List Nat) (hl : ∀ v ∈ l, v < n) {g : OxState → Nat → Except Err OxState}
    (hg : ∀ s v, v < n → g (oxRename π s) (π v) = (g s v).map (oxRename π)) (s : OxState) (i : Nat) :
    readThen (l.map π) g (oxRename π s) i = (readThen l g s i).map (oxRename π) := by
  simp only [readThen, rd_map]
  cases h : l[i]? with
  | none => simp [rd, h, Except.map]
  | some v => simp [rd, h, Except.map, hg s v (hl v (List.mem_of_getElem? h))]

theorem oxCross_rename (hπ : Renumbers n π) (c1 c2 : List Nat) (hn : c1.length = n) (h1 : ∀ v ∈ c1, v < n) (h2 : ∀ v ∈ c2, v < n)
    (dir : Int) (cut1 cut2 : Nat) :
    oxCross (c1.map π) (c2.map π) (c1.map π) dir cut1 cut2 = (oxCross c1 c2 c1 dir cut1 cut2).map (List.map π) := by
  have hcopy : oxCopy (c1.map π) cut1 cut2 { child := c1.map π, verif := fun _ => false, id := 0 } =
      (oxCopy c1 cut1 cut2 { child := c1, verif := fun _ => false, id := 0 }).map (oxRename π) := by
    simp only [oxCopy, List.length_map, hn]
    exact foldlM_comm (oxRename π) (fun s i => readThen_rename c1 h1 (fun s v hv => oxPut_rename hπ s v hv) s i) _
      { child := c1, verif := fun _ => false, id := 0 }
  simp only [oxCross, hcopy, List.length_map]
  rcases oxCopy c1 cut1 cut2 { child := c1, verif := fun _ => false, id := 0 } with e | s
  · rfl
  · have hr : rd (oxRename π s).child (cut2 - 1) = _ := rd_map π s.child (cut2 - 1)
    simp only [Except.map, hr]
    rcases rd s.child (cut2 - 1) with e | t
    · rfl
    · have hfind : (c2.map π).findIdx? (fun v => v == π t) = c2.findIdx? (fun v => v == t) := by
        rw [List.findIdx?_map]
        congr 1
        funext v
        by_cases h : v = t
        · simp [h]
        · simp [h]
      simp only [hfind]
      rcases c2.findIdx? (fun v => v == t) with _ | frm
      · rfl
      · have hfill : oxFill (c2.map π) dir c1.length frm (oxRename π s) = (oxFill c2 dir c1.length frm s).map (oxRename π) := by
          rw [hn]
          exact foldlM_comm (oxRename π) (g := fun s i => readThen c2 (oxFillStep n) s (oxIndex dir n frm i))
            (fun s i => readThen_rename c2 h2 (fun s v hv => oxFillStep_rename hπ s v hv) s _) _ s
        simp only [hfill]
        rcases oxFill c2 dir c1.length frm s with e | s' <;> rfl

theorem pmxTable_rename (π : Equiv.Perm Nat) (keys vals : List Nat) :
    pmxTable (keys.map π) (vals.map π) = fun k => (pmxTable keys vals (π.symm k)).map π := by
  have key : ∀ (l : List (Nat × Nat)) (p : Nat → Option Nat),
      (l.map (Prod.map π π)).foldl (fun p kv => fun k => if k = kv.1 then some kv.2 else p k) (fun k => (p (π.symm k)).map π) =
      fun k => (l.foldl (fun p kv => fun k => if k = kv.1 then some kv.2 else p k) p (π.symm k)).map π := by
    intro l
    induction l with
    | nil => intro p; rfl
    | cons kv l ih =>
      intro p
      rw [List.map_cons, List.foldl_cons, List.foldl_cons, ← ih]
      congr 1
      funext k
      by_cases h : k = π kv.1
      · subst h; simp
      · have h' : π.symm k ≠ kv.1 := fun e => h (by rw [← e]; simp)
        simp [h, h']
  have := key (keys.zip vals) fun _ => none
  rw [pmxTable, List.zip_map]
  exact this

theorem pmxChase_rename (hπ : Renumbers n π) (p : Nat → Option Nat) : ∀ fuel v,
    pmxChase n (fun k => (p (π.symm k)).map π) fuel (π v) = (pmxChase n p fuel v).map π
  | 0, v => by
    simp only [pmxChase, hπ v, Equiv.symm_apply_apply]
    split_ifs
    · cases p v <;> rfl
    · rfl
  | fuel + 1, v => by
    simp only [pmxChase, hπ v, Equiv.symm_apply_apply]
    split_ifs
    · cases p v with
      | none => rfl
      | some w => exact pmxChase_rename hπ p fuel w
    · rfl

theorem mapM_rename {A : Type} (ρ : A → A) {g g' : A → Except Err Nat} (h : ∀ a, g' (ρ a) = (g a).map π) : ∀ l : List A,
    (l.map ρ).mapM g' = (l.mapM g).map (List.map π)
  | [] => rfl
  | a :: l => by
    rw [List.map_cons, List.mapM_cons, List.mapM_cons, h, mapM_rename ρ h l]
    rcases g a with e | b
    · rfl
    · rcases l.mapM g with e | c <;> rfl

theorem pmxCore_rename (s1 s2 : List Nat) (hπ : Renumbers s1.length π) (i1 i2 fuel : Nat) :
    pmxCore (s1.map π) (s2.map π) i1 i2 fuel = (pmxCore s1 s2 i1 i2 fuel).map (Prod.map (List.map π) (List.map π)) := by
  have hgene : ∀ (p q : Nat → Option Nat) (vi : Nat × Nat),
      pmxGene s1.length (fun k => (p (π.symm k)).map π) (fun k => (q (π.symm k)).map π) i1 i2 fuel (Prod.map π id vi) =
        (pmxGene s1.length p q i1 i2 fuel vi).map π := by
    intro p q vi
    simp only [pmxGene, Prod.map, id, Equiv.symm_apply_apply]
    split_ifs
    · cases q vi.1 <;> rfl
    · exact pmxChase_rename hπ p fuel vi.1
  have hz : ∀ s : List Nat, (s.map π).zipIdx = s.zipIdx.map (Prod.map π id) := fun s => List.zipIdx_map ..
  simp only [pmxCore, List.length_map]
  split_ifs
  · simp only [← List.map_drop, ← List.map_take, pmxTable_rename, hz]
    rw [mapM_rename (Prod.map π id) (hgene _ _), mapM_rename (Prod.map π id) (hgene _ _)]
    rcases List.mapM (pmxGene s1.length (pmxTable ((s2.drop i1).take (i2 + 1 - i1)) ((s1.drop i1).take (i2 + 1 - i1)))
      (pmxTable ((s1.drop i1).take (i2 + 1 - i1)) ((s2.drop i1).take (i2 + 1 - i1))) i1 i2 fuel) s1.zipIdx with e | d1 <;>
    rcases List.mapM (pmxGene s1.length (pmxTable ((s1.drop i1).take (i2 + 1 - i1)) ((s2.drop i1).take (i2 + 1 - i1)))
      (pmxTable ((s2.drop i1).take (i2 + 1 - i1)) ((s1.drop i1).take (i2 + 1 - i1))) i1 i2 fuel) s2.zipIdx with e' | d2 <;> rfl
  · rfl

/-- **C395**: the order crossover and the partially mapped crossover of permutations of `0, …, n - 1`: renumbering the elements of both parents
is renumbering those of the children, with the same answer and the same failures. -/
theorem C395_crossovers (hπ : Renumbers n π) (minusOne : Int) (flip : Bool) (r : Nat → Nat) (fuel : Nat) (c1 c2 : List Nat)
    (hn : c1.length = n) :
    (c2.length = n → (∀ v ∈ c1, v < n) → (∀ v ∈ c2, v < n) → orderXover minusOne flip r (c1.map π) (c2.map π) =
      (orderXover minusOne flip r c1 c2).map (Prod.map (List.map π) (List.map π))) ∧
    pmx r fuel (c1.map π) (c2.map π) =
      (pmx r fuel c1 c2).map (Prod.map (List.map π) (Prod.map (List.map π) id)) := by
  refine ⟨fun hn2 h1 h2 => ?_, ?_⟩
  · simp only [orderXover, List.length_map, oxCross_rename hπ c1 c2 hn h1 h2, oxCross_rename hπ c2 c1 hn2 h2 h1]
    generalize oxCross c1 c2 c1 _ _ _ = a
    generalize oxCross c2 c1 c2 _ _ _ = b
    rcases a with e | d1 <;> rcases b with e' | d2 <;> rfl
  · simp only [pmx, List.length_map]
    split_ifs
    · rcases drawTwo r c1.length fuel 0 with e | ⟨i, j, t⟩
      · rfl
      · simp only [pmxCore_rename c1 c2 (hn ▸ hπ)]
        rcases pmxCore c1 c2 (min i j) (max i j) fuel with e | ⟨d1, d2⟩ <;> rfl
    · rfl

end

/-- It has to be a renumbering of `0, …, n - 1`: on the elements 1 to n the partially mapped crossover leaves its tables. -/
theorem C395_not_from_one : ∃ (π : Equiv.Perm Nat) (r : Nat → Nat) (c1 c2 d1 d2 : List Nat),
    pmx r 3 c1 c2 = .ok (d1, d2, true) ∧ pmx r 3 (c1.map π) (c2.map π) = .error .ub :=
  ⟨Equiv.swap 0 3, id, [0, 1, 2], [1, 2, 0], [1, 2, 0], [0, 1, 2], by decide +kernel, by decide +kernel⟩

/-- A renumbering, and the operators at work with and without it. -/
example : Renumbers 3 (Equiv.swap 0 2) := by
  intro v
  by_cases h0 : v = 0
  · subst h0; simp
  · by_cases h2 : v = 2
    · subst h2; simp
    · rw [Equiv.swap_apply_of_ne_of_ne h0 h2]
example : orderXover (-1) true (fun _ => 1) [0, 1, 2, 3] [3, 1, 0, 2] = .ok ([1, 0, 2, 3], [1, 2, 3, 0]) ∧
    orderXover (-1) true (fun _ => 1) [2, 1, 0, 3] [3, 1, 2, 0] = .ok ([1, 2, 0, 3], [1, 0, 3, 2]) := by decide +kernel
example : shiftMutation (fun t => t + 1) 3 ["a", "b", "c", "d"] = .ok ["a", "c", "b", "d"] := by decide +kernel

end Paradiseo.Ops

namespace Paradiseo.Nbh
variable {α β : Type}

/-- **C395**: the moves of the permutation neighbourhoods (swap, shift and its inverse, two-opt) too. -/
theorem C395_moves (f : α → β) (a : Nat → α) (i j : Nat) :
    swapMove (fun k => f (a k)) i j = (fun k => f (swapMove a i j k)) ∧
    shiftMove (fun k => f (a k)) (i, j) = (fun k => f (shiftMove a (i, j) k)) ∧
    shiftMoveBack (fun k => f (a k)) (i, j) = (fun k => f (shiftMoveBack a (i, j) k)) ∧
    twoOptMove (fun k => f (a k)) i j = (fun k => f (twoOptMove a i j k)) := by
  have hupd : ∀ (a : Nat → α) i v, upd (fun k => f (a k)) i (f v) = fun k => f (upd a i v k) := by
    intro a i v
    funext k
    simp only [upd]
    split_ifs <;> rfl
  have hswap : ∀ (a : Nat → α) i j, swapMove (fun k => f (a k)) i j = fun k => f (swapMove a i j k) := by
    intro a i j
    simp only [swapMove, hupd]
  have hfold : ∀ (g : (Nat → α) → Nat → Nat → α) (g' : (Nat → β) → Nat → Nat → β),
      (∀ a i, g' (fun k => f (a k)) i = fun k => f (g a i k)) →
      ∀ (l : List Nat) a, l.foldl g' (fun k => f (a k)) = fun k => f (l.foldl g a k) := by
    intro g g' h l
    induction l with
    | nil => intro a; rfl
    | cons i l ih => intro a; rw [List.foldl_cons, List.foldl_cons, h, ih]
  have hins : ∀ (a : Nat → α) i j, insertion (fun k => f (a k)) i j = fun k => f (insertion a i j k) := by
    intro a i j
    simp only [insertion]
    by_cases h : i < j
    · simp only [h, if_true]
      rw [hfold (fun a i => upd a i (a (i + 1))) _ (fun a i => hupd a i _), hupd]
    · simp only [h, if_false]
      rw [hfold (fun a i => upd a i (a (i - 1))) _ (fun a i => hupd a i _), hupd]
  refine ⟨hswap a i j, hins a i j, ?_, ?_⟩
  · simp only [shiftMoveBack]
    split_ifs
    · exact hins a _ _
    · exact hins a _ _
  · exact hfold (fun a k => swapMove a (i + k) (j - k)) _ (fun a k => hswap a _ _) _ a

end Paradiseo.Nbh

namespace Paradiseo.Run
open Paradiseo.EO Paradiseo.Ops

/-- Permutations of `0, …, n - 1`. -/
abbrev PermOf (n : Nat) := { l : List Nat // l.Perm (List.range n) }

/-- What an operator made, as a permutation; `x` if it is none (which does not happen, C56). -/
def asPerm {n : Nat} (x : PermOf n) (l : List Nat) : PermOf n := if h : l.Perm (List.range n) then ⟨l, h⟩ else x

/-- The operators as the breeding uses them; an operator that fails ends the run, here it leaves the permutation. -/
def permMut {n : Nat} (o : Nat → List Nat → Except Err (List Nat)) (k : Nat) (x : PermOf n) : Bool × PermOf n :=
  match o k x.1 with
  | .ok y => (true, asPerm x y)
  | .error _ => (false, x)
/-- Crossovers. -/
def permCross {n : Nat} (o : Nat → List Nat → List Nat → Except Err (List Nat × List Nat × Bool)) (k : Nat) (x y : PermOf n) :
    Bool × PermOf n × PermOf n :=
  match o k x.1 y.1 with
  | .ok (a, b, c) => (c, asPerm x a, asPerm y b)
  | .error _ => (false, x, y)

/-- The order crossover answers `true` (eoOrderXover.h:51). -/
def orderOp (minusOne : Int) (flip : Nat → Bool) (r : Nat → Nat → Nat) (k : Nat) (x y : List Nat) :
    Except Err (List Nat × List Nat × Bool) :=
  (orderXover minusOne (flip k) (r k) x y).map fun c => (c.1, c.2, true)

theorem map_range_perm {n : Nat} {π : Equiv.Perm Nat} (hπ : Renumbers n π) : ((List.range n).map π).Perm (List.range n) := by
  refine (List.perm_ext_iff_of_nodup (List.nodup_range.map π.injective) List.nodup_range).2 fun v => ?_
  simp only [List.mem_map, List.mem_range]
  constructor
  · rintro ⟨w, hw, rfl⟩
    exact (hπ w).2 hw
  · intro hv
    exact ⟨π.symm v, (hπ _).1 (by simpa using hv), by simp⟩

theorem map_perm_iff {n : Nat} {π : Equiv.Perm Nat} (hπ : Renumbers n π) (l : List Nat) :
    (l.map π).Perm (List.range n) ↔ l.Perm (List.range n) := by
  constructor
  · intro h
    have := h.trans (map_range_perm hπ).symm
    exact (List.map_perm_map_iff π.injective).1 this
  · intro h
    exact (h.map π).trans (map_range_perm hπ)

/-- A permutation with the elements renumbered. -/
def renumber {n : Nat} {π : Equiv.Perm Nat} (hπ : Renumbers n π) (x : PermOf n) : PermOf n :=
  ⟨x.1.map π, (map_perm_iff hπ x.1).2 x.2⟩

theorem asPerm_renumber {n : Nat} {π : Equiv.Perm Nat} (hπ : Renumbers n π) (x : PermOf n) (l : List Nat) :
    asPerm (renumber hπ x) (l.map π) = renumber hπ (asPerm x l) := by
  simp only [asPerm, map_perm_iff hπ]
  split_ifs <;> rfl

/-- A genetic algorithm for permutations: tournaments, a crossover, a mutation, a replacement and a continuator that counts. -/
def permGA {F : Type} [LinearOrder F] [Inhabited F] {n : Nat} (f : PermOf n → F) (t : Nat) (r : Nat → Nat → Nat → Nat) (u : Nat → Nat → ℚ)
    (cross : Nat → List Nat → List Nat → Except Err (List Nat × List Nat × Bool)) (pCross : ℚ)
    (mutn : Nat → List Nat → Except Err (List Nat)) (pMut : ℚ) (R : Replacement (Ind (PermOf n) F)) (gens : Nat) :
    EA (PermOf n) F Nat where
  f := f
  breed := tournamentBreed (fun g i p => detTournament fitOf t (r g i) p 0) u (permCross cross) pCross (permMut mutn) pMut
  replace _ := R
  cont := genCont gens

/-- **C395**: a genetic algorithm with order or partially mapped crossover and with swap, shift or two-opt mutation, on the problem with
renumbered elements (a traveller's cities, a workshop's jobs) from the renumbered population: the renumbered run, with the same fitnesses,
generations and evaluations. -/
theorem C395_run {F : Type} [LinearOrder F] [Inhabited F] {n : Nat} {π : Equiv.Perm Nat} (hπ : Renumbers n π) (f f' : PermOf n → F)
    (hf : ∀ x, f' (renumber hπ x) = f x) (t : Nat) (r : Nat → Nat → Nat → Nat) (u : Nat → Nat → ℚ) (cr mr : Nat → Nat → Nat)
    (flip : Nat → Bool) (minusOne : Int) (fuelOp howMany : Nat) (pCross pMut : ℚ)
    (cross : Nat → List Nat → List Nat → Except Err (List Nat × List Nat × Bool))
    (hc : cross = orderOp minusOne flip cr ∨ cross = fun k x y => pmx (cr k) fuelOp x y)
    (mutn : Nat → List Nat → Except Err (List Nat))
    (hm : mutn = (fun i l => swapMutation (mr i) fuelOp howMany l) ∨ mutn = (fun i l => shiftMutation (mr i) fuelOp l) ∨
      mutn = fun i l => twoOptMutation (mr i) fuelOp l)
    (R : Replacement (Ind (PermOf n) F)) (hR : SameReplace id (renumber hπ) R R) (gens : Nat) (pop : List (Ind (PermOf n) F))
    (fuel evals c : Nat) :
    (permGA f' t r u cross pCross mutn pMut R gens).run fuel (pop.map (regradeInd id (renumber hπ))) evals c =
      ((permGA f t r u cross pCross mutn pMut R gens).run fuel pop evals c).map (regradeSt id (renumber hπ) id) := by
  refine C392_run id (renumber hπ) id (permGA f t r u cross pCross mutn pMut R gens)
    (permGA f' t r u cross pCross mutn pMut R gens) (fun x => hf x) ?_ (fun _ => hR) ?_
    (twin_regrade _ _ pop) fuel evals c
  · refine (C392_breeding strictMono_id t r (fun _ _ _ => true) u pCross pMut (fun k x y => ?_) (fun k x => ?_)).1
    · have hx : x.1.length = n := by simpa using x.2.length_eq
      have hy : y.1.length = n := by simpa using y.2.length_eq
      have hlt : ∀ z : PermOf n, ∀ v ∈ z.1, v < n := fun z v hv => List.mem_range.1 (z.2.mem_iff.1 hv)
      have h := C395_crossovers hπ minusOne (flip k) (cr k) fuelOp x.1 y.1 hx
      have key : ∀ o : List Nat → List Nat → Except Err (List Nat × List Nat × Bool),
          o (x.1.map π) (y.1.map π) = (o x.1 y.1).map (Prod.map (List.map π) (Prod.map (List.map π) id)) →
          permCross (fun _ => o) k (renumber hπ x) (renumber hπ y) = ((permCross (fun _ => o) k x y).1,
            renumber hπ (permCross (fun _ => o) k x y).2.1, renumber hπ (permCross (fun _ => o) k x y).2.2) := by
        intro o ho
        have ho' : o (renumber hπ x).1 (renumber hπ y).1 = _ := ho
        simp only [permCross, ho']
        rcases o x.1 y.1 with e | ⟨a, b, d⟩
        · rfl
        · exact congrArg₂ (fun p q => (d, p, q)) (asPerm_renumber hπ x a) (asPerm_renumber hπ y b)
      rcases hc with rfl | rfl
      · refine key (orderOp minusOne flip cr k) ?_
        simp only [orderOp, h.1 hy (hlt x) (hlt y)]
        rcases orderXover minusOne (flip k) (cr k) x.1 y.1 with e | ⟨a, b⟩ <;> rfl
      · exact key (pmx (cr k) fuelOp) h.2
    · have key : ∀ o : List Nat → Except Err (List Nat), o (x.1.map π) = (o x.1).map (List.map π) →
          permMut (fun _ => o) k (renumber hπ x) = ((permMut (fun _ => o) k x).1, renumber hπ (permMut (fun _ => o) k x).2) := by
        intro o ho
        have ho' : o (renumber hπ x).1 = _ := ho
        simp only [permMut, ho']
        rcases o x.1 with e | a
        · rfl
        · exact congrArg (fun p => (true, p)) (asPerm_renumber hπ x a)
      have h := C395_mutations π (mr k) fuelOp howMany x.1
      rcases hm with rfl | rfl | rfl
      · exact key (fun l => swapMutation (mr k) fuelOp howMany l) h.1
      · exact key (fun l => shiftMutation (mr k) fuelOp l) h.2.1
      · exact key (fun l => twoOptMutation (mr k) fuelOp l) h.2.2
  · exact (C392_continuators strictMono_id gens 0 0 default).1

/-- A replacement that meets the hypothesis. -/
example {F : Type} [LinearOrder F] {n : Nat} {π : Equiv.Perm Nat} (hπ : Renumbers n π) :
    SameReplace (F := F) id (renumber hπ) (weakElitist fitOf (ssgaWorse fitOf)) (weakElitist fitOf (ssgaWorse fitOf)) :=
  (C392_replacements strictMono_id 0 (fun _ => 0) 0 (fun _ => true) (sort := fun l => l) (sort' := fun l => l) (fun _ => rfl)
    (fun _ l => l) (fun _ l => l) _ _ (.inr (.inr (.inr (.inl ⟨rfl, rfl⟩))))).2

end Paradiseo.Run
