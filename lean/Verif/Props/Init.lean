import Verif.Model.Init
import Verif.Props.EOSelect
import Mathlib.Algebra.Order.Floor.Ring
import Mathlib.Data.List.Perm.Basic

/-!
# Initialisers, generators, combined operators, updaters (C217–C223)
-/

namespace Paradiseo.Init

open Paradiseo.EO (Err)
open Paradiseo.Ops (rnd)
open Paradiseo.Sel (rngRoulette)

variable {α β F : Type*}

/-! ### C217: initialisers of vectors -/

theorem generate_length (gen : Nat → α) : ∀ n t, (generate gen n t).length = n
  | 0, _ => rfl
  | n + 1, t => by rw [generate, List.length_cons, generate_length gen n]

theorem generate_get (gen : Nat → α) : ∀ (n t i : Nat), i < n → (generate gen n t)[i]? = some (gen (t + i))
  | 0, _, i, h => by omega
  | n + 1, t, 0, _ => rfl
  | n + 1, t, i + 1, h => by
    rw [generate, List.getElem?_cons_succ, generate_get gen n (t + 1) i (by omega)]
    congr 2; omega

/-- The fixed length initialiser: the announced number of atoms, atom `i` is draw number `i` of the generator, the
fitness is invalid; nothing of the individual before is left. -/
theorem C217_fixed (dim : Nat) (gen : Nat → α) (x : Chrom α F) :
    (fixedLength dim gen x).genes.length = dim ∧ (fixedLength dim gen x).fit = none ∧
      ∀ i < dim, (fixedLength dim gen x).genes[i]? = some (gen i) := by
  refine ⟨generate_length gen dim 0, rfl, fun i hi => ?_⟩
  rw [fixedLength, generate_get gen dim 0 i hi, Nat.zero_add]

theorem initAtoms_length (init : Nat → α → α) : ∀ t l, (initAtoms init t l).length = l.length
  | _, [] => rfl
  | t, a :: l => by rw [initAtoms, List.length_cons, List.length_cons, initAtoms_length init]

theorem initAtoms_get (init : Nat → α → α) : ∀ (t : Nat) (l : List α) (i : Nat),
    (initAtoms init t l)[i]? = l[i]?.map (init (t + i))
  | _, [], _ => rfl
  | t, a :: l, 0 => rfl
  | t, a :: l, i + 1 => by
    rw [initAtoms, List.getElem?_cons_succ, List.getElem?_cons_succ, initAtoms_get init (t + 1) l i]
    congr 2; omega

theorem resize_length (d : α) (n : Nat) (l : List α) : (resize d n l).length = n := by
  rw [resize, List.length_append, List.length_take, List.length_replicate]; omega

theorem resize_get (d : α) (n : Nat) (l : List α) (i : Nat) (h : i < n) :
    (resize d n l)[i]? = some (l[i]?.getD d) := by
  rw [resize]
  by_cases hi : i < l.length
  · rw [List.getElem?_append_left (by rw [List.length_take]; omega), List.getElem?_take_of_lt h,
      List.getElem?_eq_getElem hi]
    rfl
  · rw [List.getElem?_append_right (by rw [List.length_take]; omega), List.getElem?_replicate,
      if_pos (by rw [List.length_take]; omega), List.getElem?_eq_none (by omega)]
    rfl

/-- The variable length initialiser, when it can be constructed: the length is at least the minimum and below the
maximum, the fitness is invalid, and each atom is what the atom initialiser made of the atom that was there. -/
theorem C217_variable (lo hi : Nat) (h : lo < hi) (d : α) (r : Nat → Nat) (init : Nat → α → α) (x : Chrom α F) :
    ∃ y, variableLength lo hi d r init x = .ok y ∧ lo ≤ y.genes.length ∧ y.genes.length < hi ∧ y.fit = none ∧
      ∀ i < y.genes.length, y.genes[i]? = some (init (1 + i) (x.genes[i]?.getD d)) := by
  have hr : rnd r 0 (hi - lo) < hi - lo := by
    rw [rnd, if_neg (by omega)]
    exact Nat.mod_lt _ (by omega)
  refine ⟨_, by rw [variableLength, if_neg (by omega)], ?_, ?_, rfl, fun i hi' => ?_⟩
  · rw [initAtoms_length, resize_length]; omega
  · rw [initAtoms_length, resize_length]; omega
  · rw [initAtoms_length, resize_length] at hi'
    rw [initAtoms_get, resize_get d _ _ i hi', Option.map_some]

/-- Every length from the minimum to one below the maximum occurs; the maximum itself never does, and the constructor
refuses a minimum equal to the maximum: no initialiser makes individuals of one length only by giving it twice. -/
theorem C217_variable_lengths (lo hi : Nat) (d : α) (init : Nat → α → α) (x : Chrom α F) (n : Nat) :
    (∃ r y, variableLength lo hi d r init x = .ok y ∧ y.genes.length = n) ↔ lo ≤ n ∧ n < hi := by
  constructor
  · rintro ⟨r, y, hy, rfl⟩
    have hlt : lo < hi := by
      by_contra hc
      rw [variableLength, if_pos (by omega)] at hy
      exact absurd hy (by simp)
    obtain ⟨z, hz, h1, h2, _⟩ := C217_variable lo hi hlt d r init x
    rw [hz] at hy
    cases hy
    exact ⟨h1, h2⟩
  · rintro ⟨h1, h2⟩
    refine ⟨fun _ => n - lo, _, by rw [variableLength, if_neg (by omega)], ?_⟩
    rw [initAtoms_length, resize_length, rnd, if_neg (by omega), Nat.mod_eq_of_lt (by omega)]
    omega

theorem C217_variable_refuses (lo hi : Nat) (h : hi ≤ lo) (d : α) (r : Nat → Nat) (init : Nat → α → α) (x : Chrom α F) :
    variableLength lo hi d r init x = .error .thrown := by
  rw [variableLength, if_pos h]

/-- An atom initialiser that only sets some part of the atom keeps the rest of the old individual. -/
theorem C217_old_atoms_show : ∃ (init : Nat → Nat → Nat) (x x' y y' : Chrom Nat Nat),
    variableLength 1 2 0 (fun _ => 0) init x = .ok y ∧ variableLength 1 2 0 (fun _ => 0) init x' = .ok y' ∧
      y.genes ≠ y'.genes :=
  ⟨fun _ a => 2 * a, ⟨[1], none⟩, ⟨[2], none⟩, ⟨[2], none⟩, ⟨[4], none⟩, rfl, rfl, by decide⟩

example : ∃ y, variableLength 2 4 0 (fun _ => 1) (fun t _ => t) (⟨[7], some 3⟩ : Chrom Nat Nat) = .ok y ∧
    y.genes = [1, 2, 3] := ⟨_, rfl, rfl⟩

/-! ### C218: permutations -/

/-- The permutation initialiser: whatever the shuffle does, the genes are the numbers from `startFrom` on, each once. -/
theorem C218_permutation (n s : Nat) (h : s + n ≤ 2 ^ 32) (sh : List Nat → List Nat) (hs : ∀ l, (sh l).Perm l)
    (x : Chrom Nat F) :
    (initPermutation n s sh x).genes.Nodup ∧ (initPermutation n s sh x).genes.length = n ∧
      (∀ v, v ∈ (initPermutation n s sh x).genes ↔ s ≤ v ∧ v < s + n) ∧ (initPermutation n s sh x).fit = none := by
  have e : ((List.range n).map fun idx => (idx + s) % 2 ^ 32) = (List.range n).map fun idx => idx + s := by
    apply List.map_congr_left
    intro i hi
    rw [List.mem_range] at hi
    exact Nat.mod_eq_of_lt (by omega)
  have hp := hs ((List.range n).map fun idx => (idx + s) % 2 ^ 32)
  refine ⟨?_, ?_, fun v => ?_, rfl⟩
  · rw [initPermutation]
    apply hp.nodup_iff.2
    rw [e]
    exact List.nodup_range.map fun a b hab => by simpa using hab
  · rw [initPermutation]
    rw [hp.length_eq, List.length_map, List.length_range]
  · rw [initPermutation]
    rw [hp.mem_iff, e, List.mem_map]
    constructor
    · rintro ⟨i, hi, rfl⟩
      rw [List.mem_range] at hi
      omega
    · rintro ⟨h1, h2⟩
      exact ⟨v - s, List.mem_range.2 (by omega), by omega⟩

/-- The library's generator has no part in it: with at least two places two different permutations can come out of the
same call, whatever the seed given to `eo::rng`. -/
theorem C218_not_reproducible (n s : Nat) (hn : 2 ≤ n) (h : s + n ≤ 2 ^ 32) (x : Chrom Nat F) :
    ∃ sh sh' : List Nat → List Nat, (∀ l, (sh l).Perm l) ∧ (∀ l, (sh' l).Perm l) ∧
      (initPermutation n s sh x).genes ≠ (initPermutation n s sh' x).genes := by
  refine ⟨id, List.reverse, fun l => List.Perm.refl l, fun l => List.reverse_perm l, fun hc => ?_⟩
  have h0 := congrArg (fun l : List Nat => l[0]?) hc
  simp only [initPermutation, id] at h0
  rw [List.getElem?_reverse (by simp; omega)] at h0
  simp only [List.length_map, List.length_range, List.getElem?_map] at h0
  rw [List.getElem?_range (by omega), List.getElem?_range (by omega), Option.map_some, Option.map_some] at h0
  have := Option.some.inj h0
  rw [Nat.mod_eq_of_lt (by omega), Nat.mod_eq_of_lt (by omega)] at this
  omega

/-- Beyond 2^32 the numbers start again at 0. -/
theorem C218_wraps : (initPermutation 3 (2 ^ 32 - 1) id (⟨[], none⟩ : Chrom Nat Nat)).genes = [4294967295, 0, 1] := by
  decide

example : (initPermutation 4 10 List.reverse (⟨[], none⟩ : Chrom Nat Nat)).genes = [13, 12, 11, 10] := by decide

/-! ### C219: combined operators -/

theorem build_eq (p : β × F) (more : List (β × F)) :
    (Combined.build p more).ops = p.1 :: more.map (·.1) ∧ (Combined.build p more).rates = p.2 :: more.map (·.2) := by
  rw [Combined.build]
  have key : ∀ (more : List (β × F)) (c : Combined β F),
      (more.foldl (fun c p => c.add p.1 p.2) c).ops = c.ops ++ more.map (·.1) ∧
      (more.foldl (fun c p => c.add p.1 p.2) c).rates = c.rates ++ more.map (·.2) := by
    intro more
    induction more with
    | nil => intro c; simp
    | cons q more ih =>
      intro c
      rw [List.foldl_cons]
      obtain ⟨h1, h2⟩ := ih (c.add q.1 q.2)
      rw [h1, h2, Combined.add]
      simp
  obtain ⟨h1, h2⟩ := key more (.new p.1 p.2)
  rw [h1, h2, Combined.new]
  simp

/-- The operators given to a combined operator, with their rates, in the order in which they were given. -/
def given (p : β × F) (more : List (β × F)) : List (β × F) := p :: more

section
variable [Field F] [LinearOrder F] [IsStrictOrderedRing F]

/-- Which operator is called: number `i` exactly if the draw falls into its interval. -/
theorem C219_interval (p : β × F) (more : List (β × F)) (hr : ∀ q ∈ given p more, 0 ≤ q.2)
    (hT : 0 < ((given p more).map (·.2)).sum) {u : F} (hu : 0 ≤ u) (op : β) :
    (Combined.build p more).pick u = .ok op ↔
      ∃ i rate, (given p more)[i]? = some (op, rate) ∧
        (((given p more).map (·.2)).take i).sum ≤ u * ((given p more).map (·.2)).sum ∧
        u * ((given p more).map (·.2)).sum < (((given p more).map (·.2)).take i).sum + rate := by
  obtain ⟨h1, h2⟩ := build_eq p more
  have e2 : (Combined.build p more).rates = (given p more).map (·.2) := by rw [h2]; rfl
  have e1 : (Combined.build p more).ops = (given p more).map (·.1) := by rw [h1]; rfl
  have hw : ∀ a ∈ (given p more).map (·.2), 0 ≤ a := by
    intro a ha
    obtain ⟨q, hq, rfl⟩ := List.mem_map.1 ha
    exact hr q hq
  rw [Combined.pick, e1, e2]
  generalize given p more = l at *
  have hsucc : ∀ (i : Nat) (q : β × F), l[i]? = some q → ((l.map (·.2)).take (i + 1)).sum = ((l.map (·.2)).take i).sum + q.2 := by
    intro i q hq
    rw [List.take_add_one, List.sum_append, List.getElem?_map, hq]
    simp
  constructor
  · intro h
    cases hx : rngRoulette (l.map (·.2)) 0 u with
    | error e => rw [hx] at h; exact absurd h (by simp)
    | ok i =>
      rw [hx] at h
      dsimp only at h
      obtain ⟨g1, g2, g3⟩ := (Sel.C54_rng_wheel hw hT hu i).1 hx
      rw [List.length_map] at g1
      have hq : l[i]? = some l[i] := List.getElem?_eq_getElem g1
      rw [List.getElem?_map, hq, Option.map_some] at h
      cases h
      exact ⟨i, l[i].2, hq, g2, by rw [← hsucc i _ hq]; exact g3⟩
  · rintro ⟨i, rate, hi, g2, g3⟩
    have hx : rngRoulette (l.map (·.2)) 0 u = .ok i := by
      refine (Sel.C54_rng_wheel hw hT hu i).2 ⟨?_, g2, ?_⟩
      · rw [List.length_map]
        exact (List.getElem?_eq_some_iff.1 hi).1
      · rw [hsucc i _ hi]; exact g3
    rw [hx]
    dsimp only
    rw [List.getElem?_map, hi, Option.map_some]

/-- Some operator is always called, and one with a positive rate. -/
theorem C219_total (p : β × F) (more : List (β × F)) (hr : ∀ q ∈ given p more, 0 ≤ q.2)
    (hT : 0 < ((given p more).map (·.2)).sum) {u : F} (hu : 0 ≤ u) (hu1 : u < 1) :
    ∃ op rate, (Combined.build p more).pick u = .ok op ∧ (op, rate) ∈ given p more ∧ 0 < rate := by
  have hw : ∀ a ∈ (given p more).map (·.2), 0 ≤ a := by
    intro a ha
    obtain ⟨q, hq, rfl⟩ := List.mem_map.1 ha
    exact hr q hq
  obtain ⟨i, a, h1, h2, h3⟩ := Sel.C54_rng_wheel_total hw hT hu hu1
  rw [List.getElem?_map] at h2
  cases hq : (given p more)[i]? with
  | none => rw [hq] at h2; exact absurd h2 (by simp)
  | some q =>
    rw [hq, Option.map_some] at h2
    cases h2
    refine ⟨q.1, q.2, ?_, List.mem_of_getElem? hq, h3⟩
    obtain ⟨e1, e2⟩ := build_eq p more
    have e2' : (Combined.build p more).rates = (given p more).map (·.2) := by rw [e2]; rfl
    have e1' : (Combined.build p more).ops = (given p more).map (·.1) := by rw [e1]; rfl
    rw [Combined.pick, e1', e2', h1]
    dsimp only
    rw [List.getElem?_map, hq, Option.map_some]

/-- If all rates are zero the rates are read past their end. -/
theorem C219_all_zero (p : β × F) (more : List (β × F)) (hz : ∀ q ∈ given p more, q.2 = 0) (u : F) :
    (Combined.build p more).pick u = .error .ub := by
  obtain ⟨e1, e2⟩ := build_eq p more
  have e2' : (Combined.build p more).rates = (given p more).map (·.2) := by rw [e2]; rfl
  have hw : ∀ a ∈ (given p more).map (·.2), a = 0 := by
    intro a ha
    obtain ⟨q, hq, rfl⟩ := List.mem_map.1 ha
    exact hz q hq
  rw [Combined.pick, e2', Sel.C54_rng_wheel_beyond (fun a ha => (hw a ha).ge)]
  rw [if_pos rfl, List.sum_eq_zero hw, mul_zero]

end

example : (Combined.build ("a", (1 : ℚ)) [("b", 0), ("c", 3)]).pick (1 / 4) = .ok "c" := by decide +kernel

/-! ### C220: mutations of atoms -/

theorem flOrAll_spec (flip : Nat → Bool) (atom : Nat → α → Bool × α) : ∀ (i : Nat) (l : List α),
    (flOrAll flip atom i l).2.length = l.length ∧
    (∀ (j : Nat) (a : α), l[j]? = some a →
      (flOrAll flip atom i l).2[j]? = some (if flip (i + j) then (atom (i + j) a).2 else a)) ∧
    ((flOrAll flip atom i l).1 = true ↔
      ∃ (j : Nat) (a : α), l[j]? = some a ∧ flip (i + j) = true ∧ (atom (i + j) a).1 = true)
  | i, [] => by simp [flOrAll]
  | i, a :: l => by
    obtain ⟨h1, h2, h3⟩ := flOrAll_spec flip atom (i + 1) l
    rw [flOrAll]
    have e : ∀ j, i + 1 + j = i + (j + 1) := fun j => by omega
    refine ⟨?_, ?_, ?_⟩
    · split <;> simp [h1]
    · intro j b hb
      cases j with
      | zero =>
        rw [List.getElem?_cons_zero] at hb
        cases hb
        rw [Nat.add_zero]
        by_cases hf : flip i <;> simp [hf]
      | succ j =>
        rw [List.getElem?_cons_succ] at hb
        have := h2 j b hb
        rw [e] at this
        rw [← this]
        split <;> rfl
    · constructor
      · intro h
        by_cases hf : flip i
        · rw [if_pos hf] at h
          rcases Bool.or_eq_true_iff.1 h with h | h
          · exact ⟨0, a, rfl, by simpa using hf, by simpa using h⟩
          · obtain ⟨j, b, g1, g2, g3⟩ := h3.1 h
            rw [e] at g2 g3
            exact ⟨j + 1, b, g1, g2, g3⟩
        · rw [if_neg hf] at h
          obtain ⟨j, b, g1, g2, g3⟩ := h3.1 h
          rw [e] at g2 g3
          exact ⟨j + 1, b, g1, g2, g3⟩
      · rintro ⟨j, b, g1, g2, g3⟩
        cases j with
        | zero =>
          rw [List.getElem?_cons_zero] at g1
          cases g1
          rw [Nat.add_zero] at g2 g3
          rw [if_pos g2]
          simp [g3]
        | succ j =>
          rw [List.getElem?_cons_succ] at g1
          rw [← e] at g2 g3
          have := h3.2 ⟨j, b, g1, g2, g3⟩
          split <;> simp [this]

/-- eoFlOrAllMutation: exactly the atoms that were drawn are mutated, the others are kept; it reports a change exactly if
the mutation of some atom did. -/
theorem C220_all (flip : Nat → Bool) (atom : Nat → α → Bool × α) (l : List α) :
    (flOrAll flip atom 0 l).2.length = l.length ∧
    (∀ (j : Nat) (a : α), l[j]? = some a → (flOrAll flip atom 0 l).2[j]? = some (if flip j then (atom j a).2 else a)) ∧
    ((flOrAll flip atom 0 l).1 = true ↔ ∃ (j : Nat) (a : α), l[j]? = some a ∧ flip j = true ∧ (atom j a).1 = true) := by
  have := flOrAll_spec flip atom 0 l
  simpa only [Nat.zero_add] using this

/-- It returns false only if nothing has changed, when the atom mutations are honest. -/
theorem C220_all_false (flip : Nat → Bool) (atom : Nat → α → Bool × α) (l : List α)
    (hon : ∀ j a, (atom j a).1 = false → (atom j a).2 = a) (h : (flOrAll flip atom 0 l).1 = false) :
    (flOrAll flip atom 0 l).2 = l := by
  obtain ⟨h1, h2, h3⟩ := C220_all flip atom l
  apply List.ext_getElem?
  intro j
  cases hj : l[j]? with
  | none =>
    rw [List.getElem?_eq_none_iff] at hj ⊢
    omega
  | some a =>
    rw [h2 j a hj]
    by_cases hf : flip j
    · rw [if_pos hf]
      congr 1
      apply hon
      by_contra hc
      have := h3.2 ⟨j, a, hj, hf, by simpa using hc⟩
      rw [h] at this
      exact absurd this (by simp)
    · rw [if_neg hf]

/-- The number of places at which two vectors differ. -/
def differ [DecidableEq α] (l l' : List α) : Nat := (l.zip l').countP fun p => decide (p.1 ≠ p.2)

theorem differ_set [DecidableEq α] (a : α) : ∀ (l l' : List α) (i : Nat),
    differ l l' ≤ differ (l.set i a) l' + 1
  | [], _, _ => by simp [differ]
  | x :: l, [], i => by simp [differ]
  | x :: l, y :: l', 0 => by
    simp only [differ, List.set_cons_zero, List.zip_cons_cons, List.countP_cons]
    split <;> split <;> omega
  | x :: l, y :: l', i + 1 => by
    have := differ_set a l l' i
    simp only [differ, List.set_cons_succ, List.zip_cons_cons, List.countP_cons] at this ⊢
    omega

/-- eoFlOrKMutation on a vector that is not empty: at most `nb` atoms change, the length is kept, and with honest atom
mutations `false` means that nothing changed. -/
theorem C220_k [DecidableEq α] (r : Nat → Nat) (atom : Nat → α → Bool × α) : ∀ (n k : Nat) (l : List α), l ≠ [] →
    ∃ m l', flOrK r atom n k l = .ok (m, l') ∧ l'.length = l.length ∧ differ l l' ≤ n ∧
      ((∀ j a, (atom j a).1 = false → (atom j a).2 = a) → m = false → l' = l)
  | 0, k, l, _ => by
    refine ⟨false, l, rfl, rfl, ?_, fun _ _ => rfl⟩
    have : differ l l = 0 := by
      rw [differ, List.countP_eq_zero]
      intro p hp
      obtain ⟨i, hi, he⟩ := List.getElem_of_mem hp
      rw [List.getElem_zip] at he
      rw [← he]
      simp
    omega
  | n + 1, k, l, hl => by
    have hpos := List.length_pos_iff.2 hl
    have hlt : rnd r k l.length < l.length := by
      rw [rnd, if_neg (by omega)]
      exact Nat.mod_lt _ hpos
    have hg : l[rnd r k l.length]? = some l[rnd r k l.length] := List.getElem?_eq_getElem hlt
    obtain ⟨m, l', h1, h2, h3, h4⟩ := C220_k r atom n (k + 1) (l.set (rnd r k l.length) (atom k l[rnd r k l.length]).2)
      (by intro hc; have := congrArg List.length hc; rw [List.length_set, List.length_nil] at this; omega)
    refine ⟨(atom k l[rnd r k l.length]).1 || m, l', ?_, ?_, ?_, ?_⟩
    · rw [flOrK, hg]
      dsimp only
      rw [h1]
    · rw [h2, List.length_set]
    · have := differ_set (atom k l[rnd r k l.length]).2 l l' (rnd r k l.length)
      omega
    · intro hon hm
      rw [Bool.or_eq_false_iff] at hm
      have e := h4 hon hm.2
      rw [e, hon _ _ hm.1, List.set_getElem_self]

/-- On an empty vector it reads outside it, as soon as one mutation is asked for. -/
theorem C220_k_empty (r : Nat → Nat) (atom : Nat → α → Bool × α) (n k : Nat) (hn : 0 < n) :
    flOrK r atom n k [] = .error .ub := by
  obtain ⟨m, rfl⟩ : ∃ m, n = m + 1 := ⟨n - 1, by omega⟩
  rfl

example : flOrAll (fun i => i != 1) (fun _ a => (a == 2, a + 10)) 0 [1, 2, 3] = (false, [11, 2, 13]) := by decide
example : ∃ m l', flOrK (fun k => k) (fun _ a => (true, a + 10)) 2 0 [1, 2, 3] = .ok (m, l') ∧ l' = [11, 12, 3] ∧
    m = true := ⟨_, _, rfl, by decide, by decide⟩

/-! ### C221: counters and state savers -/

/-- A counter gives the results of the function it wraps, and counts every call, also those that throw (up to 2^64). -/
theorem C221_counter (f : α → Except Err β) : ∀ (xs : List α) (c : Nat), c + xs.length < 2 ^ 64 →
    countedRun f c xs = (xs.map f, c + xs.length)
  | [], c, _ => rfl
  | x :: xs, c, h => by
    rw [List.length_cons] at h
    rw [countedRun]
    dsimp only [counted]
    rw [Nat.mod_eq_of_lt (by omega), C221_counter f xs (c + 1) (by omega)]
    rw [List.map_cons, List.length_cons]
    congr 1
    omega

/-- The numbers of the files an eoCountedStateSaver writes in `n` calls, below the wrap of its counter: the multiples of
the interval, each once, in increasing order. -/
theorem C221_saver (interval : Nat) (hi : 0 < interval) : ∀ (n c : Nat), c + n < 2 ^ 32 →
    saverRun interval n c = .ok ((List.range' (c + 1) n).filter fun k => k % interval = 0, c + n)
  | 0, c, _ => rfl
  | n + 1, c, h => by
    rw [saverRun, saverCall, if_neg (by omega)]
    dsimp only
    rw [Nat.mod_eq_of_lt (by omega), C221_saver interval hi n (c + 1) (by omega)]
    dsimp only
    rw [List.range'_succ, List.filter_cons]
    by_cases hc : (c + 1) % interval = 0
    · simp [hc]; omega
    · simp [hc]; omega

/-- Files of different numbers are different files: a saver that does not save at the end never overwrites one of its
files.  One that does overwrites a file at the end exactly if the number of calls is a (positive) multiple of the
interval; the last number is then the one that was written last. -/
theorem C221_saver_names (interval n : Nat) (hi : 0 < interval) (hn : n < 2 ^ 32) :
    ∃ ws, saverWhole interval false n 0 = .ok ws ∧ ws.Nodup ∧ saverWhole interval true n 0 = .ok (ws ++ [n]) ∧
      (n ∈ ws ↔ 0 < n ∧ interval ∣ n) := by
  refine ⟨(List.range' 1 n).filter fun k => k % interval = 0, ?_, ?_, ?_, ?_⟩
  · rw [saverWhole, C221_saver interval hi n 0 (by omega)]
    simp
  · exact List.Nodup.filter _ List.nodup_range'
  · rw [saverWhole, C221_saver interval hi n 0 (by omega)]
    simp
  · rw [List.mem_filter, List.mem_range'_1]
    simp only [decide_eq_true_eq]
    rw [← Nat.dvd_iff_mod_eq_zero]
    constructor
    · rintro ⟨⟨h1, _⟩, h2⟩; exact ⟨h1, h2⟩
    · rintro ⟨h1, h2⟩; exact ⟨⟨h1, by omega⟩, h2⟩

/-- An interval of 0 is a division by zero at the first call. -/
theorem C221_saver_zero (n c : Nat) (hn : 0 < n) : saverRun 0 n c = .error .ub := by
  obtain ⟨m, rfl⟩ : ∃ m, n = m + 1 := ⟨n - 1, by omega⟩
  rfl

/-- A timed saver writes at times at least the interval apart (the first at least the interval after the start), and it
lets no call pass without writing if that long has gone since it last wrote. -/
theorem C221_timed (interval : Int) : ∀ (ts : List Int) (start : Int),
    (start :: timedRun interval start ts).IsChain (fun a b => a + interval ≤ b) ∧
    (timedRun interval start ts).Sublist ts ∧
    ∀ t ∈ ts, t ∈ timedRun interval start ts ∨ ∃ s ∈ start :: timedRun interval start ts, t < s + interval
  | [], start => by simp [timedRun]
  | now :: ts, start => by
    rw [timedRun]
    by_cases h : start + interval ≤ now
    · rw [if_pos h]
      obtain ⟨h1, h2, h3⟩ := C221_timed interval ts now
      refine ⟨List.isChain_cons_cons.2 ⟨h, h1⟩, h2.cons_cons now, fun t ht => ?_⟩
      rcases List.mem_cons.1 ht with rfl | ht
      · left; simp
      · rcases h3 t ht with h | ⟨s, hs, hlt⟩
        · left; simp [h]
        · right; exact ⟨s, List.mem_cons_of_mem _ hs, hlt⟩
    · rw [if_neg h]
      obtain ⟨h1, h2, h3⟩ := C221_timed interval ts start
      refine ⟨h1, h2.cons now, fun t ht => ?_⟩
      rcases List.mem_cons.1 ht with rfl | ht
      · right; exact ⟨start, by simp, by omega⟩
      · exact h3 t ht

example : saverWhole 3 true 7 0 = .ok [3, 6, 7] := by decide
example : timedRun 10 0 [4, 9, 12, 20, 25] = [12, 25] := by decide
example : countedRun (fun x : Nat => if x = 2 then .error .thrown else .ok x) 0 [1, 2, 3] =
    ([.ok 1, .error .thrown, .ok 3], 3) := by rfl

/-! ### C222: generators -/

section
variable [Field F] [LinearOrder F] [IsStrictOrderedRing F]

/-- A uniform generator with two arguments: below the maximum and at least the minimum; every such value comes out for
some draw; equal arguments give that value, a minimum above the maximum is refused. -/
theorem C222_uniform (lo hi : F) (h : lo < hi) (v : F) :
    (∃ u, 0 ≤ u ∧ u < 1 ∧ uniformGen2 lo hi u = .ok v) ↔ lo ≤ v ∧ v < hi := by
  have hp : 0 < hi - lo := sub_pos.2 h
  constructor
  · rintro ⟨u, h0, h1, hv⟩
    rw [uniformGen2, if_neg (not_lt.2 h.le)] at hv
    cases hv
    constructor
    · have := mul_nonneg hp.le h0; linarith
    · nlinarith
  · rintro ⟨h1, h2⟩
    refine ⟨(v - lo) / (hi - lo), div_nonneg (by linarith) hp.le, (div_lt_one hp).2 (by linarith), ?_⟩
    rw [uniformGen2, if_neg (not_lt.2 h.le), mul_div_cancel₀ _ hp.ne']
    congr 1
    ring

theorem C222_uniform_edge (lo hi u : F) :
    uniformGen2 lo lo u = .ok lo ∧ (hi < lo → uniformGen2 lo hi u = .error .thrown) := by
  refine ⟨?_, fun h => by rw [uniformGen2, if_pos h]⟩
  rw [uniformGen2, if_neg (lt_irrefl lo)]
  simp

/-- With one argument nothing is refused: a negative maximum gives numbers from there (excluded) to 0. -/
theorem C222_uniform_one (m u : F) (h0 : 0 ≤ u) (h1 : u < 1) :
    (0 < m → 0 ≤ uniformGen1 m u ∧ uniformGen1 m u < m) ∧ (m < 0 → m < uniformGen1 m u ∧ uniformGen1 m u ≤ 0) := by
  rw [uniformGen1, zero_add]
  refine ⟨fun h => ⟨mul_nonneg h.le h0, by nlinarith⟩, fun h => ⟨by nlinarith, by nlinarith⟩⟩

variable [FloorRing F]

/-- Uniform generators of integers: exactly the integers from the minimum to one below the maximum. -/
theorem C222_uniform_int (lo hi : Int) (h : lo < hi) (hr : hi - lo < 2 ^ 31) (v : Int) :
    (∃ u : F, 0 ≤ u ∧ u < 1 ∧ uniformGenInt lo hi u = .ok v) ↔ lo ≤ v ∧ v < hi := by
  have hp : (0 : F) < ((hi - lo : Int) : F) := by exact_mod_cast sub_pos.2 h
  have hc1 : ¬ (2 ^ 31 ≤ hi - lo ∨ hi - lo < -2 ^ 31) := by omega
  constructor
  · rintro ⟨u, h0, h1, hv⟩
    have hnn := mul_nonneg hp.le h0
    rw [uniformGenInt, if_neg hc1, if_neg (by omega), Bounds.truncZ, if_pos hnn] at hv
    cases hv
    have h2 : 0 ≤ ⌊((hi - lo : Int) : F) * u⌋ := Int.floor_nonneg.2 hnn
    have h3 : ⌊((hi - lo : Int) : F) * u⌋ < hi - lo := Int.floor_lt.2 (by nlinarith)
    omega
  · rintro ⟨h1, h2⟩
    have hnn : (0 : F) ≤ ((v - lo : Int) : F) := by exact_mod_cast sub_nonneg.2 h1
    refine ⟨((v - lo : Int) : F) / ((hi - lo : Int) : F), div_nonneg hnn hp.le, (div_lt_one hp).2 ?_, ?_⟩
    · exact_mod_cast (show v - lo < hi - lo by omega)
    · rw [uniformGenInt, if_neg hc1, if_neg (by omega), mul_div_cancel₀ _ hp.ne', Bounds.truncZ, if_pos hnn, Int.floor_intCast]
      congr 1
      omega

end

/-- random_generator<int>: the detour over unsigned numbers does no harm, also with negative bounds. -/
theorem C222_random_int (lo hi : Int) (h : lo < hi) (hr : hi - lo < 2 ^ 31) (hlo : -2 ^ 31 ≤ lo) (hhi : hi < 2 ^ 31) (v : Int) :
    (∃ r, randomGenInt lo hi r = .ok v) ↔ lo ≤ v ∧ v < hi := by
  have hc1 : ¬ (2 ^ 31 ≤ hi - lo ∨ hi - lo < -2 ^ 31) := by omega
  have key : ∀ k : Nat, (k : Int) < hi - lo → Int.bmod ((lo % 2 ^ 32 + (k : Int)) % 2 ^ 32) (2 ^ 32) = lo + k := by
    intro k hk
    rw [Int.bmod_def]
    have e : (lo % 2 ^ 32 + (k : Int)) % 2 ^ 32 % ((2 ^ 32 : Nat) : Int) = (lo + k) % 4294967296 := by
      have e0 : ((2 ^ 32 : Nat) : Int) = 4294967296 := by norm_num
      rw [e0, show (2 : Int) ^ 32 = 4294967296 by norm_num]
      omega
    rw [e]
    norm_num
    split <;> omega
  constructor
  · rintro ⟨r, hv⟩
    rw [randomGenInt, if_neg hc1, if_neg (by omega)] at hv
    have hk : ((rnd r 0 (hi - lo).toNat : Nat) : Int) < hi - lo := by
      rw [rnd, if_neg (by omega)]
      have := Nat.mod_lt (r 0) (show (hi - lo).toNat > 0 by omega)
      omega
    rw [key _ hk] at hv
    cases hv
    omega
  · rintro ⟨h1, h2⟩
    refine ⟨fun _ => (v - lo).toNat, ?_⟩
    have hk : rnd (fun _ => (v - lo).toNat) 0 (hi - lo).toNat = (v - lo).toNat := by
      rw [rnd, if_neg (by omega), Nat.mod_eq_of_lt (by omega)]
    rw [randomGenInt, if_neg hc1, if_neg (by omega), hk, key _ (by omega)]
    congr 1
    omega

example : randomGenInt (-5) 5 (fun _ => 13) = .ok (-2) := by decide +kernel
example : uniformGenInt (-5) 5 (99 / 100 : ℚ) = .ok 4 := by decide +kernel
example : uniformGen2 (-1) 3 (1 / 2 : ℚ) = .ok 1 := by decide +kernel

/-! ### C223: chromosomes of evolution strategies -/

theorem intervals_length : ∀ (bs : List (Bounds.Bound F)) (is : List (F × F)), intervals bs = some is →
    bs = is.map fun b => Bounds.Bound.interval b.1 b.2
  | [], is, h => by cases h; rfl
  | .interval lo hi :: bs, is, h => by
    rw [intervals] at h
    cases hx : intervals bs with
    | none => rw [hx] at h; exact absurd h (by simp)
    | some js =>
      rw [hx] at h
      cases h
      rw [intervals_length bs js hx]
      simp
  | .none :: bs, is, h => by exact absurd h (by simp [intervals])
  | .below _ :: bs, is, h => by exact absurd h (by simp [intervals])
  | .above _ :: bs, is, h => by exact absurd h (by simp [intervals])

theorem intervals_map (is : List (F × F)) : intervals (is.map fun b => Bounds.Bound.interval b.1 b.2) = some is := by
  induction is with
  | nil => rfl
  | cons b is ih => rw [List.map_cons, intervals, ih]; rfl

/-- The bounds of a chromosome as pairs. -/
abbrev box (is : List (ℝ × ℝ)) : List (Bounds.Bound ℝ) := is.map fun b => .interval b.1 b.2

/-- The genes: one for each pair of bounds, inside them; the fitness is invalid; something unbounded is refused. -/
theorem C223_genes (k : Kind) (is : List (ℝ × ℝ)) (hb : ∀ b ∈ is, b.1 < b.2) (sigma : ℝ) (sc : Bool) (u c : Nat → ℝ)
    (hu : ∀ i, 0 ≤ u i ∧ u i < 1) (x : Chrom ℝ F) :
    ∃ y s, esChromInit k (box is) sigma sc u c x = .ok (y, s) ∧ y.genes.length = is.length ∧ y.fit = none ∧
      ∀ (i : Nat) (b : ℝ × ℝ), is[i]? = some b → ∃ v, y.genes[i]? = some v ∧ b.1 ≤ v ∧ v < b.2 := by
  refine ⟨_, _, by rw [esChromInit, intervals_map], by simp, rfl, fun i b hi => ?_⟩
  refine ⟨Bounds.uniformIn b.1 b.2 (u i), ?_, ?_, ?_⟩
  · dsimp only
    rw [List.getElem?_map, List.getElem?_zipIdx, hi]
    simp
  · have := hb b (List.mem_of_getElem? hi)
    have h0 := (hu i).1
    rw [Bounds.uniformIn]
    nlinarith
  · have := hb b (List.mem_of_getElem? hi)
    have h1 := (hu i).2
    rw [Bounds.uniformIn]
    nlinarith

theorem C223_unbounded (k : Kind) (bs : List (Bounds.Bound ℝ)) (sigma : ℝ) (sc : Bool) (u c : Nat → ℝ) (x : Chrom ℝ F) :
    esChromInit k bs sigma sc u c x = .error .thrown ↔ ¬ ∃ is, bs = box is := by
  constructor
  · rintro h ⟨is, rfl⟩
    rw [esChromInit, intervals_map] at h
    exact absurd h (by simp)
  · intro h
    rw [esChromInit]
    cases hx : intervals bs with
    | none => rfl
    | some is => exact absurd ⟨is, intervals_length bs is hx⟩ h

/-- The step sizes: without scaling all are sigma; with scaling each is sigma times the range of its variable, and the
single one is sigma times the average range, which is the average of the individual ones. -/
theorem C223_sigmas (is : List (ℝ × ℝ)) (sigma : ℝ) (sc : Bool) (u c : Nat → ℝ) (x : Chrom ℝ F) :
    (∃ y, esChromInit .real (box is) sigma sc u c x = .ok (y, .real)) ∧
    (∃ y s, esChromInit .simple (box is) sigma sc u c x = .ok (y, .simple s) ∧ (sc = false → s = sigma) ∧
      (sc = true → is ≠ [] → s * is.length = ((is.map fun b => sigma * (b.2 - b.1)).sum))) ∧
    ∃ y vs, esChromInit .stdev (box is) sigma sc u c x = .ok (y, .stdevs vs) ∧ vs.length = is.length ∧
      ∀ (i : Nat) (b : ℝ × ℝ), is[i]? = some b → vs[i]? = some (if sc then sigma * (b.2 - b.1) else sigma) := by
  refine ⟨⟨_, by rw [esChromInit, intervals_map]; rfl⟩, ⟨_, _, by rw [esChromInit, intervals_map]; rfl, ?_, ?_⟩,
    ⟨_, _, by rw [esChromInit, intervals_map]; rfl, by rw [vecSigma, List.length_map], fun i b hi => ?_⟩⟩
  · rintro rfl; rfl
  · rintro rfl hne
    rw [uniqueSigma, if_pos rfl]
    have hl : (is.length : ℝ) ≠ 0 := by
      exact_mod_cast (List.length_pos_iff.2 hne).ne'
    rw [mul_assoc, div_mul_cancel₀ _ hl, List.sum_map_mul_left]
  · rw [vecSigma, List.getElem?_map, hi, Option.map_some]

/-- Positive bounds on the ranges and a positive sigma give positive step sizes. -/
theorem C223_sigmas_positive (is : List (ℝ × ℝ)) (hb : ∀ b ∈ is, b.1 < b.2) (sigma : ℝ) (hs : 0 < sigma) (sc : Bool) :
    (∀ v ∈ vecSigma is sigma sc, 0 < v) ∧ (is ≠ [] → 0 < uniqueSigma is sigma sc) := by
  have hd : ∀ b ∈ is, 0 < b.2 - b.1 := fun b hb' => sub_pos.2 (hb b hb')
  constructor
  · intro v hv
    obtain ⟨b, hb', rfl⟩ := List.mem_map.1 hv
    split
    · exact mul_pos hs (hd b hb')
    · exact hs
  · intro hne
    rw [uniqueSigma]
    split
    · have hl : (0 : ℝ) < is.length := by exact_mod_cast List.length_pos_iff.2 hne
      refine mul_pos hs (div_pos ?_ hl)
      obtain ⟨b, is, rfl⟩ := List.exists_cons_of_ne_nil hne
      rw [List.map_cons, List.sum_cons]
      have h1 := hd b (by simp)
      have h2 : 0 ≤ (is.map fun b => b.2 - b.1).sum := List.sum_nonneg fun a ha => by
        obtain ⟨b', hb', rfl⟩ := List.mem_map.1 ha
        exact (hd b' (by simp [hb'])).le
      linarith
    · exact hs

/-- The correlations: one for each pair of variables (below 2^16 variables), between -π and π. -/
theorem C223_correlations (is : List (ℝ × ℝ)) (hn : is.length ≤ 2 ^ 16) (sigma : ℝ) (sc : Bool) (u c : Nat → ℝ)
    (hc : ∀ i, 0 ≤ c i ∧ c i < 1) (x : Chrom ℝ F) :
    ∃ y vs co, esChromInit .full (box is) sigma sc u c x = .ok (y, .full vs co) ∧ vs = vecSigma is sigma sc ∧
      co.length = is.length * (is.length - 1) / 2 ∧ ∀ a ∈ co, -Real.pi ≤ a ∧ a < Real.pi := by
  refine ⟨_, _, _, by rw [esChromInit, intervals_map]; rfl, rfl, ?_, ?_⟩
  · rw [List.length_map, List.length_range, List.length_map]
    generalize is.length = n at hn
    cases n with
    | zero => rfl
    | succ m =>
      congr 1
      have e : (m + 1) * (m + 1 + (2 ^ 32 - 1)) = (m + 1) * m + 2 ^ 32 * (m + 1) := by
        have : m + 1 + (2 ^ 32 - 1) = m + 2 ^ 32 := by omega
        rw [this]; ring
      rw [e, Nat.add_mul_mod_self_left]
      rw [Nat.add_sub_cancel]
      apply Nat.mod_eq_of_lt
      have : (m + 1) * m ≤ 2 ^ 16 * (2 ^ 16 - 1) := Nat.mul_le_mul hn (by omega)
      omega
  · intro a ha
    obtain ⟨i, _, rfl⟩ := List.mem_map.1 ha
    have hp := Real.pi_pos
    obtain ⟨h0, h1⟩ := hc i
    constructor <;> nlinarith

/-- With 65537 variables their number wraps around: there are 32768 instead of 2147516416. -/
theorem C223_correlations_wrap (is : List (ℝ × ℝ)) (hn : is.length = 65537) (sigma : ℝ) (sc : Bool) (u c : Nat → ℝ)
    (x : Chrom ℝ F) :
    ∃ y vs co, esChromInit .full (box is) sigma sc u c x = .ok (y, .full vs co) ∧ co.length = 32768 ∧
      is.length * (is.length - 1) / 2 = 2147516416 := by
  refine ⟨_, _, _, by rw [esChromInit, intervals_map]; rfl, ?_, by rw [hn]⟩
  rw [List.length_map, List.length_range, List.length_map, hn]
  norm_num

example : ∃ is : List (ℝ × ℝ), (∀ b ∈ is, b.1 < b.2) ∧ is ≠ [] ∧ is.length ≤ 2 ^ 16 ∧ vecSigma is 2 true = [2, 6] :=
  ⟨[(0, 1), (-1, 2)], by simp; norm_num, by simp, by simp, by simp [vecSigma]; norm_num⟩

end Paradiseo.Init
