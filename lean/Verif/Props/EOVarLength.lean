/-
C98, C99: operators on individuals of variable length.
-/
import Mathlib.Data.List.Perm.Basic
import Mathlib.Data.List.Flatten
import Mathlib.Tactic.Linarith
import Mathlib.Algebra.BigOperators.Group.List.Basic
import Verif.Model.EOVarLength

namespace Paradiseo.VL

open Paradiseo.EO (Err)
open Paradiseo.Ops (rnd)

variable {A : Type}

/-! ### Lemmas -/

theorem splitBy_perm (flag : Nat → Bool) (i : Nat) (l : List A) :
    ((splitBy flag i l).1 ++ (splitBy flag i l).2).Perm l := by
  induction l generalizing i with
  | nil => exact List.Perm.refl _
  | cons x l ih =>
    rw [splitBy]
    split
    · exact (ih (i + 1)).cons x
    · exact List.perm_middle.trans ((ih (i + 1)).cons x)

theorem splitBy_sublist (flag : Nat → Bool) (i : Nat) (l : List A) :
    (splitBy flag i l).1.Sublist l ∧ (splitBy flag i l).2.Sublist l := by
  induction l generalizing i with
  | nil => exact ⟨List.Sublist.refl _, List.Sublist.refl _⟩
  | cons x l ih =>
    rw [splitBy]
    split
    · exact ⟨(ih (i + 1)).1.cons_cons x, (ih (i + 1)).2.cons x⟩
    · exact ⟨(ih (i + 1)).1.cons x, (ih (i + 1)).2.cons_cons x⟩

theorem splitBy_false {flag : Nat → Bool} {i : Nat} {l : List A}
    (h : ∀ k, i ≤ k → k < i + l.length → flag k = false) : splitBy flag i l = ([], l) := by
  induction l generalizing i with
  | nil => rfl
  | cons x l ih =>
    rw [splitBy, h i le_rfl (by simp), ih (fun k h1 h2 => h k (by omega) (by simp; omega))]
    simp

theorem splitBy_true {flag : Nat → Bool} {i : Nat} {l : List A}
    (h : ∀ k, i ≤ k → k < i + l.length → flag k = true) : splitBy flag i l = (l, []) := by
  induction l generalizing i with
  | nil => rfl
  | cons x l ih =>
    rw [splitBy, h i le_rfl (by simp), ih (fun k h1 h2 => h k (by omega) (by simp; omega))]
    simp

theorem exchange_perm (flag : Nat → Bool) (x y : List A) :
    ((exchange flag x y).1 ++ (exchange flag x y).2).Perm (x ++ y) := by
  unfold exchange
  have h1 := splitBy_perm flag 0 x
  have h2 := splitBy_perm flag 0 y
  set a := (splitBy flag 0 x).1
  set b := (splitBy flag 0 x).2
  set c := (splitBy flag 0 y).1
  set d := (splitBy flag 0 y).2
  have e : (a ++ d ++ (b ++ c)).Perm ((a ++ b) ++ (c ++ d)) := by
    have : (d ++ (b ++ c)).Perm (b ++ (c ++ d)) := by
      refine List.perm_append_comm.trans ?_
      rw [List.append_assoc]
    simpa [List.append_assoc] using List.Perm.append_left a this
  exact e.trans (h1.append h2)

/-- The loop of tries: what its index means. -/
theorem tries_spec (good : Nat → Bool) (n i : Nat) :
    tries good n i ≤ i + n ∧
    (tries good n i < i + n → i < tries good n i ∧ good (tries good n i - 1) = true) ∧
    (∀ k, i ≤ k → k + 1 < tries good n i → good k = false) ∧
    (∀ k, i ≤ k → k < i + n → good k = true → tries good n i ≤ k + 1) := by
  induction n generalizing i with
  | zero =>
    refine ⟨by simp [tries], by simp [tries], fun k h1 h2 => ?_, fun k h1 h2 => by omega⟩
    simp only [tries] at h2
    omega
  | succ n ih =>
    obtain ⟨h1, h2, h3, h4⟩ := ih (i + 1)
    rw [tries]
    split
    · rename_i hg
      refine ⟨by omega, fun _ => ⟨by omega, by simpa using hg⟩, fun k a b => by omega,
        fun k a _ _ => by omega⟩
    · rename_i hg
      refine ⟨by omega, fun h => ?_, fun k a b => ?_, fun k a b c => ?_⟩
      · obtain ⟨g1, g2⟩ := h2 (by omega)
        exact ⟨by omega, g2⟩
      · rcases Nat.eq_or_lt_of_le a with rfl | hlt
        · simpa using hg
        · exact h3 k (by omega) b
      · rcases Nat.eq_or_lt_of_le a with rfl | hlt
        · exact absurd c hg
        · exact h4 k (by omega) (by omega) c

theorem insertIdx_at (l1 l2 : List A) (a : A) : (l1 ++ l2).insertIdx l1.length a = l1 ++ a :: l2 := by
  induction l1 with
  | nil => simp
  | cons b l1 ih => simpa using ih

theorem sizesOk_iff {lo hi a b : Nat} :
    sizesOk lo hi a b = true ↔ lo ≤ a ∧ a ≤ hi ∧ lo ≤ b ∧ b ≤ hi := by
  simp only [sizesOk, Bool.not_eq_true', Bool.or_eq_false_iff, decide_eq_false_iff_not, not_lt]
  omega

/-! ### C98: crossovers of variable length -/

/-- Exchange of atoms: if it says that it changed the parents, both children have allowed sizes, together
they have exactly the atoms of the parents, each in the order of the parents; if it says no, nothing has
changed.  It says yes exactly if one of the first 9999 tries gives allowed sizes (the last try of the
10000 announced is wasted). -/
theorem C98_atom_exchange (lo hi : Nat) (mask : Nat → Nat → Bool) (x y : List A) :
    ((atomExchange lo hi mask x y).1 = true →
      lo ≤ (atomExchange lo hi mask x y).2.1.length ∧ (atomExchange lo hi mask x y).2.1.length ≤ hi ∧
      lo ≤ (atomExchange lo hi mask x y).2.2.length ∧ (atomExchange lo hi mask x y).2.2.length ≤ hi ∧
      ((atomExchange lo hi mask x y).2.1 ++ (atomExchange lo hi mask x y).2.2).Perm (x ++ y) ∧
      (atomExchange lo hi mask x y).2.1.Sublist (x ++ y) ∧
      (atomExchange lo hi mask x y).2.2.Sublist (x ++ y)) ∧
    ((atomExchange lo hi mask x y).1 = false → (atomExchange lo hi mask x y).2 = (x, y)) ∧
    ((atomExchange lo hi mask x y).1 = true ↔ ∃ k < 9999,
      lo ≤ (exchange (mask k) x y).1.length ∧ (exchange (mask k) x y).1.length ≤ hi ∧
      lo ≤ (exchange (mask k) x y).2.length ∧ (exchange (mask k) x y).2.length ≤ hi) := by
  set good := fun k => sizesOk lo hi (exchange (mask k) x y).1.length (exchange (mask k) x y).2.length
    with hgood
  obtain ⟨h1, h2, h3, h4⟩ := tries_spec good 10000 0
  simp only [Nat.zero_add] at h1 h2 h4
  unfold atomExchange
  simp only [← hgood]
  by_cases hidx : 10000 ≤ tries good 10000 0
  · simp only [hidx, if_true]
    refine ⟨by simp, fun _ => trivial, ?_⟩
    constructor
    · simp
    · rintro ⟨k, hk, hg⟩
      have := h4 k (by omega) (by omega) (sizesOk_iff.mpr hg)
      omega
  · simp only [hidx, if_false]
    obtain ⟨g1, g2⟩ := h2 (by omega)
    have g3 := sizesOk_iff.mp g2
    refine ⟨fun _ => ⟨g3.1, g3.2.1, g3.2.2.1, g3.2.2.2, exchange_perm _ _ _, ?_, ?_⟩, by simp, ?_⟩
    · exact (splitBy_sublist _ 0 x).1.append (splitBy_sublist _ 0 y).2
    · exact (splitBy_sublist _ 0 x).2.append (splitBy_sublist _ 0 y).1
    · simp only [true_iff]
      exact ⟨tries good 10000 0 - 1, by omega, g3⟩

example : atomExchange 1 3 (fun k i => decide (k = 0 ∧ i = 0)) [1, 2] [7, 8] = (true, [1, 8], [2, 7]) := by
  decide +kernel

/-- Crossing atoms pairwise: the sizes stay, atoms beyond the shorter parent stay, and, if the crossover
of atoms tells the truth, so does the whole. -/
theorem C98_inner_exchange (flip : Nat → Bool) (op : Nat → A → A → Bool × A × A)
    (hop : ∀ i a b, (op i a b).1 = false → (op i a b).2 = (a, b)) (i : Nat) (x y : List A) :
    (innerExchange flip op i x y).2.1.length = x.length ∧
    (innerExchange flip op i x y).2.2.length = y.length ∧
    (innerExchange flip op i x y).2.1.drop (min x.length y.length) =
      x.drop (min x.length y.length) ∧
    (innerExchange flip op i x y).2.2.drop (min x.length y.length) =
      y.drop (min x.length y.length) ∧
    ((innerExchange flip op i x y).1 = false → (innerExchange flip op i x y).2 = (x, y)) := by
  induction x generalizing i y with
  | nil => simp [innerExchange]
  | cons a x ih =>
    cases y with
    | nil => simp [innerExchange]
    | cons b y =>
      obtain ⟨h1, h2, h3, h4, h5⟩ := ih (i + 1) y
      rw [innerExchange]
      by_cases hf : flip i = true
      · simp only [hf, if_true, List.length_cons, h1, h2, Bool.or_eq_false_iff]
        refine ⟨trivial, trivial, ?_, ?_, ?_⟩
        · rw [show min (x.length + 1) (y.length + 1) = min x.length y.length + 1 by omega]
          simpa using h3
        · rw [show min (x.length + 1) (y.length + 1) = min x.length y.length + 1 by omega]
          simpa using h4
        · rintro ⟨e1, e2⟩
          have := hop i a b e1
          have e3 := h5 e2
          rw [Prod.ext_iff] at this e3
          simp only at this e3
          rw [this.1, this.2, e3.1, e3.2]
      · simp only [hf, if_false, List.length_cons, h1, h2, Bool.false_eq_true]
        refine ⟨trivial, trivial, ?_, ?_, ?_⟩
        · rw [show min (x.length + 1) (y.length + 1) = min x.length y.length + 1 by omega]
          simpa using h3
        · rw [show min (x.length + 1) (y.length + 1) = min x.length y.length + 1 by omega]
          simpa using h4
        · intro e2
          have e3 := h5 e2
          rw [Prod.ext_iff] at e3
          simp only at e3
          rw [e3.1, e3.2]

theorem uniformTmp_perm (flip : Nat → Bool) (x y : List A) (k : Nat) :
    ((uniformTmp flip x y k).1 ++ (uniformTmp flip x y k).2).Perm
      (List.replicate k (x ++ y)).flatten := by
  induction k with
  | zero => simp [uniformTmp]
  | succ k ih =>
    simp only [uniformTmp, List.replicate_succ', List.flatten_append, List.flatten_cons,
      List.flatten_nil, List.append_nil]
    have h1 := splitBy_perm flip (k * (x.length + y.length)) x
    have h2 := splitBy_perm flip (k * (x.length + y.length) + x.length) y
    set a := (splitBy flip (k * (x.length + y.length)) x).1
    set b := (splitBy flip (k * (x.length + y.length)) x).2
    set c := (splitBy flip (k * (x.length + y.length) + x.length) y).1
    set d := (splitBy flip (k * (x.length + y.length) + x.length) y).2
    set p := (uniformTmp flip x y k).1
    set q := (uniformTmp flip x y k).2
    have e : (p ++ a ++ c ++ (q ++ b ++ d)).Perm ((p ++ q) ++ ((a ++ b) ++ (c ++ d))) := by
      classical
      rw [List.perm_iff_count]
      intro z
      simp only [List.count_append]
      omega
    exact e.trans (ih.append (h1.append h2))

/-- The uniform crossover of variable length does not empty its temporaries between tries: if it succeeds
in try `j`, the children together hold `j` copies of all the atoms of the parents (and their sizes are
allowed); if it fails nothing has changed. -/
theorem C98_uniform_copies (lo hi : Nat) (flip : Nat → Bool) (x y : List A) :
    ((uniformQuad lo hi flip x y).1 = true → ∃ j, 1 ≤ j ∧ j < 10000 ∧
      lo ≤ (uniformQuad lo hi flip x y).2.1.length ∧ (uniformQuad lo hi flip x y).2.1.length ≤ hi ∧
      lo ≤ (uniformQuad lo hi flip x y).2.2.length ∧ (uniformQuad lo hi flip x y).2.2.length ≤ hi ∧
      ((uniformQuad lo hi flip x y).2.1 ++ (uniformQuad lo hi flip x y).2.2).Perm
        (List.replicate j (x ++ y)).flatten ∧
      (j = 1 ↔ sizesOk lo hi (uniformTmp flip x y 1).1.length (uniformTmp flip x y 1).2.length = true)) ∧
    ((uniformQuad lo hi flip x y).1 = false → (uniformQuad lo hi flip x y).2 = (x, y)) := by
  set good := fun k => sizesOk lo hi (uniformTmp flip x y (k + 1)).1.length
    (uniformTmp flip x y (k + 1)).2.length with hgood
  obtain ⟨h1, h2, h3, h4⟩ := tries_spec good 10000 0
  simp only [Nat.zero_add] at h1 h2 h4
  unfold uniformQuad
  simp only [← hgood]
  by_cases hidx : 10000 ≤ tries good 10000 0
  · simp [hidx]
  · simp only [hidx, if_false]
    obtain ⟨g1, g2⟩ := h2 (by omega)
    have hs : tries good 10000 0 - 1 + 1 = tries good 10000 0 := by omega
    have g3 : sizesOk lo hi (uniformTmp flip x y (tries good 10000 0 - 1 + 1)).1.length
      (uniformTmp flip x y (tries good 10000 0 - 1 + 1)).2.length = true := g2
    rw [hs] at g3
    have g4 := sizesOk_iff.mp g3
    refine ⟨fun _ => ⟨tries good 10000 0, by omega, by omega, g4.1, g4.2.1, g4.2.2.1, g4.2.2.2,
      uniformTmp_perm _ _ _ _, ?_⟩, by simp⟩
    constructor
    · intro hj
      rw [hj] at g3
      exact g3
    · intro hg
      have := h4 0 (by omega) (by omega) hg
      omega

/-- Hence, if the first try does not give allowed sizes and a later one does, the children have more
atoms than the parents. -/
theorem C98_uniform_duplicates (lo hi : Nat) (flip : Nat → Bool) (x y : List A) (hne : x ++ y ≠ [])
    (hfirst : sizesOk lo hi (uniformTmp flip x y 1).1.length (uniformTmp flip x y 1).2.length = false)
    (hok : (uniformQuad lo hi flip x y).1 = true) :
    (x ++ y).length < ((uniformQuad lo hi flip x y).2.1 ++ (uniformQuad lo hi flip x y).2.2).length := by
  obtain ⟨j, hj, _, _, _, _, _, hp, h1⟩ := (C98_uniform_copies lo hi flip x y).1 hok
  have hj2 : j ≠ 1 := by
    intro h
    rw [h1.mp h] at hfirst
    simp at hfirst
  have hlen := hp.length_eq
  rw [List.length_flatten, List.map_replicate, List.sum_replicate, nsmul_eq_mul', mul_comm] at hlen
  rw [hlen]
  have hpos : 0 < (x ++ y).length := List.length_pos_of_ne_nil hne
  nlinarith [Nat.lt_of_le_of_ne hj (Ne.symm hj2)]

/-- The first try puts both atoms into the first child, the second try one into each. -/
example : uniformQuad 1 5 (fun t => decide (t < 3)) [1] [2] = (true, [1, 2, 1], [2]) := by
  decide +kernel

/-- The uniform crossover of variable length on one parent (the second constant) does not tell the truth:
when all the atoms come from the second parent it returns `false`, although the first parent has become a
copy of the second (its fitness then stays that of the old one, see C93). -/
theorem C98_bin_untruthful (lo hi : Nat) (x y : List A) (hlo : lo ≤ y.length) (hhi : y.length ≤ hi)
    (flip : Nat → Bool) (hf : ∀ t < x.length + y.length, flip t = false) :
    uniformBin lo hi flip x y = (false, y) := by
  have s1 : splitBy flip 0 x = ([], x) := splitBy_false fun k _ h => hf k (by omega)
  have s2 : splitBy flip x.length y = ([], y) := splitBy_false fun k _ h => hf k (by omega)
  have ht : uniformBinTmp flip x y 1 = y := by simp [uniformBinTmp, s1, s2]
  have h2 : tmpIsTwo flip x y 1 = true := by simp [tmpIsTwo, s1, s2]
  have hg : ∀ n, tries (fun k => !(decide ((uniformBinTmp flip x y (k + 1)).length < lo) ||
      decide ((uniformBinTmp flip x y (k + 1)).length > hi))) (n + 1) 0 = 1 := by
    intro n
    rw [tries]
    simp only [Nat.zero_add, ht]
    rw [if_pos]
    simp
    omega
  unfold uniformBin
  simp only [hg 9999, ht, h2]
  simp

example : uniformBin 1 5 (fun _ => false) [1, 1, 1] [2] = (false, [2]) :=
  C98_bin_untruthful 1 5 _ _ (by simp) (by simp) _ (by simp)

theorem splitBy_eq (flip : Nat → Bool) (x : List A) (base : Nat) :
    splitBy flip base x = (((x.zipIdx base).filter fun p => flip p.2).map Prod.fst,
      ((x.zipIdx base).filter fun p => !flip p.2).map Prod.fst) := by
  induction x generalizing base with
  | nil => simp [splitBy]
  | cons a xs ih =>
    simp only [splitBy, ih, List.zipIdx_cons, List.filter_cons]
    cases flip base <;> simp

theorem filter_zipIdx_nil (f : Nat → Bool) (x : List A) (base : Nat) :
    (((x.zipIdx base).filter fun p => f p.2).map Prod.fst).isEmpty = true ↔
      ∀ t, base ≤ t → t < base + x.length → f t = false := by
  induction x generalizing base with
  | nil => simp; intro t h1 h2; omega
  | cons a xs ih =>
    rw [List.zipIdx_cons, List.filter_cons]
    constructor
    · intro h t h1 h2
      simp only at h
      by_cases hb : f base = true
      · simp [hb] at h
      · simp only [hb, Bool.false_eq_true, if_false] at h
        by_cases ht : t = base
        · subst ht; simpa using hb
        · exact (ih (base + 1)).mp h t (by omega) (by simp at h2; omega)
    · intro h
      have hb : f base = false := h base le_rfl (by simp)
      simp only [hb, Bool.false_eq_true, if_false]
      exact (ih (base + 1)).mpr fun t h1 h2 => h t (by omega) (by simp; omega)

/-- The uniform crossover of variable length on one parent, when the first try respects the bounds: the
child is made of the atoms of the first parent whose coin fell on heads, followed by those of the second
whose coin fell on tails; it says "changed" unless all coins fell on the same side. -/
theorem C98_bin_first_try (lo hi : Nat) (flip : Nat → Bool) (x y child : List A)
    (hc : child = ((x.zipIdx.filter fun p => flip p.2).map Prod.fst) ++
      (((y.zipIdx x.length).filter fun p => !flip p.2).map Prod.fst))
    (hlo : lo ≤ child.length) (hhi : child.length ≤ hi) :
    (uniformBin lo hi flip x y).2 = child ∧
      ((uniformBin lo hi flip x y).1 = true ↔
        (∃ t < x.length + y.length, flip t = true) ∧ ∃ t < x.length + y.length, flip t = false) := by
  have ht : uniformBinTmp flip x y 1 = child := by
    simp [uniformBinTmp, splitBy_eq, hc]
  have hg : ∀ n, tries (fun k => !(decide ((uniformBinTmp flip x y (k + 1)).length < lo) ||
      decide ((uniformBinTmp flip x y (k + 1)).length > hi))) (n + 1) 0 = 1 := by
    intro n
    rw [tries]
    simp only [Nat.zero_add, ht]
    rw [if_pos]
    simp
    omega
  have h1 : tmpIsOne flip x y 1 = true ↔ ∀ t < x.length + y.length, flip t = true := by
    simp only [tmpIsOne, Nat.zero_mul, Nat.zero_add, Bool.true_and, Bool.and_eq_true, splitBy_eq]
    rw [filter_zipIdx_nil (fun t => !flip t), filter_zipIdx_nil (fun t => !flip t)]
    simp only [Bool.not_eq_false']
    constructor
    · rintro ⟨g1, g2⟩ t ht
      rcases Nat.lt_or_ge t x.length with h | h
      · exact g1 t (by omega) (by omega)
      · exact g2 t h (by omega)
    · intro g
      exact ⟨fun t _ h => g t (by omega), fun t _ h => g t (by omega)⟩
  have h2 : tmpIsTwo flip x y 1 = true ↔ ∀ t < x.length + y.length, flip t = false := by
    simp only [tmpIsTwo, Nat.zero_mul, Nat.zero_add, Bool.true_and, Bool.and_eq_true, splitBy_eq]
    rw [filter_zipIdx_nil flip, filter_zipIdx_nil flip]
    constructor
    · rintro ⟨g1, g2⟩ t ht
      rcases Nat.lt_or_ge t x.length with h | h
      · exact g1 t (by omega) (by omega)
      · exact g2 t h (by omega)
    · intro g
      exact ⟨fun t _ h => g t (by omega), fun t _ h => g t (by omega)⟩
  unfold uniformBin
  simp only [hg 9999, ht]
  rw [if_neg (by omega)]
  refine ⟨rfl, ?_⟩
  rw [Bool.not_eq_true', Bool.or_eq_false_iff, ← Bool.not_eq_true (tmpIsTwo flip x y 1),
    ← Bool.not_eq_true (tmpIsOne flip x y 1), h1, h2]
  push Not
  simp

example : uniformBin 1 5 (fun t => t % 2 == 0) [1, 2, 3] [4, 5] = (true, [1, 3, 4]) := by
  have := C98_bin_first_try 1 5 (fun t => t % 2 == 0) [1, 2, 3] [4, 5] [1, 3, 4] rfl (by simp) (by simp)
  exact Prod.ext (this.2.mpr ⟨⟨0, by simp, rfl⟩, ⟨1, by simp, rfl⟩⟩) this.1

/-! ### C99: mutations of variable length -/

/-- Adding: below the maximum size exactly one new atom is inserted somewhere, the others stay in order;
at the maximum nothing happens.  The maximum is never exceeded. -/
theorem C99_add (nMax : Nat) (atom : A) (r : Nat → Nat) (x : List A) :
    (x.length < nMax → ∃ l1 l2, x = l1 ++ l2 ∧ vlAdd nMax atom r x = (true, l1 ++ atom :: l2)) ∧
    (nMax ≤ x.length → vlAdd nMax atom r x = (false, x)) ∧
    (x.length ≤ nMax → (vlAdd nMax atom r x).2.length ≤ nMax) := by
  unfold vlAdd
  have hpos : rnd r 0 (x.length + 1) ≤ x.length := by
    have := Nat.mod_lt (r 0) (show 0 < x.length + 1 by omega)
    simp only [rnd]
    split <;> omega
  refine ⟨fun h => ?_, fun h => by simp [h], fun h => ?_⟩
  · refine ⟨x.take (rnd r 0 (x.length + 1)), x.drop (rnd r 0 (x.length + 1)),
      (List.take_append_drop _ _).symm, ?_⟩
    rw [if_neg (by omega)]
    have := insertIdx_at (x.take (rnd r 0 (x.length + 1))) (x.drop (rnd r 0 (x.length + 1))) atom
    rw [List.take_append_drop, List.length_take, Nat.min_eq_left hpos] at this
    rw [this]
  · split
    · exact h
    · simp only [List.length_insertIdx]
      split <;> omega

/-- Every place can be chosen. -/
theorem C99_add_anywhere {nMax : Nat} (atom : A) (l1 l2 : List A) (h : (l1 ++ l2).length < nMax) :
    ∃ r, vlAdd nMax atom r (l1 ++ l2) = (true, l1 ++ atom :: l2) := by
  refine ⟨fun _ => l1.length, ?_⟩
  unfold vlAdd
  rw [if_neg (by omega)]
  have : rnd (fun _ => l1.length) 0 ((l1 ++ l2).length + 1) = l1.length := by
    simp only [rnd, Nat.succ_ne_zero, if_false, List.length_append]
    exact Nat.mod_eq_of_lt (by omega)
  rw [this, insertIdx_at]

/-- Removing: above the minimum size exactly one atom is removed, the others stay in order; at the
minimum nothing happens.  With the uniform chooser nothing undefined happens, even for empty
individuals. -/
theorem C99_del (nMin : Nat) (choose : List A → Nat) (x : List A)
    (hc : x ≠ [] → choose x < x.length) :
    (nMin < x.length → ∃ l1 a l2, x = l1 ++ a :: l2 ∧ l1.length = choose x ∧
      vlDel nMin choose x = .ok (true, l1 ++ l2)) ∧
    (x.length ≤ nMin → vlDel nMin choose x = .ok (false, x)) ∧
    ∃ b y, vlDel nMin choose x = .ok (b, y) ∧ (nMin ≤ x.length → nMin ≤ y.length) := by
  unfold vlDel
  by_cases h : x.length ≤ nMin
  · simp only [h, if_true]
    exact ⟨fun h' => absurd h' (by omega), fun _ => trivial, false, x, rfl, id⟩
  · have hne : x ≠ [] := by
      rintro rfl
      simp at h
    have hlt := hc hne
    simp only [h, if_false, hlt, if_true]
    refine ⟨fun _ => ⟨x.take (choose x), x[choose x], x.drop (choose x + 1), ?_, ?_, ?_⟩,
      fun h' => absurd h' id, true, _, rfl, fun _ => ?_⟩
    · simp
    · simp; omega
    · rw [List.eraseIdx_eq_take_drop_succ]
    · rw [List.length_eraseIdx_of_lt hlt]
      omega

/-- The uniform chooser meets the hypothesis. -/
theorem C99_uniform_chooser (r : Nat → Nat) (x : List A) (h : x ≠ []) :
    uniformChooser r x < x.length := by
  have hpos := List.length_pos_of_ne_nil h
  simp only [uniformChooser, rnd]
  split
  · exact hpos
  · exact Nat.mod_lt _ hpos

example : vlDel 1 (uniformChooser fun _ => 4) [5, 6, 7] = .ok (true, [5, 7]) := by decide +kernel

end Paradiseo.VL
