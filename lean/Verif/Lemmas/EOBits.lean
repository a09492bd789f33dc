/-
Helper lemmas for the bit-string operators.
-/
import Verif.Lemmas.EOOperators

namespace Paradiseo.Ops

open Paradiseo.EO (Err)

variable {α : Type*}

/-! ### swapping genes of two strings -/

/-- The pair of strings `d` is `c` with the genes at the positions in `S` exchanged. -/
structure Mixed (c d : List α × List α) (S : Nat → Prop) : Prop where
  len1 : d.1.length = c.1.length
  len2 : d.2.length = c.2.length
  swapped : ∀ i, S i → i < c.1.length ∧ i < c.2.length ∧ d.1[i]? = c.2[i]? ∧ d.2[i]? = c.1[i]?
  kept : ∀ i, ¬ S i → d.1[i]? = c.1[i]? ∧ d.2[i]? = c.2[i]?

theorem Mixed.refl (c : List α × List α) : Mixed c c fun _ => False :=
  ⟨rfl, rfl, fun _ h => h.elim, fun _ _ => ⟨rfl, rfl⟩⟩

theorem Mixed.congr {c d : List α × List α} {S T : Nat → Prop} (h : Mixed c d S)
    (hST : ∀ i, S i ↔ T i) : Mixed c d T :=
  ⟨h.len1, h.len2, fun i hi => h.swapped i ((hST i).2 hi), fun i hi => h.kept i fun hs => hi ((hST i).1 hs)⟩

theorem Mixed.trans {c d e : List α × List α} {S T : Nat → Prop} (h1 : Mixed c d S) (h2 : Mixed d e T)
    (hdis : ∀ i, S i → ¬ T i) : Mixed c e fun i => S i ∨ T i := by
  refine ⟨h2.len1.trans h1.len1, h2.len2.trans h1.len2, ?_, ?_⟩
  · rintro i (hi | hi)
    · obtain ⟨a, b, e1, e2⟩ := h1.swapped i hi
      obtain ⟨f1, f2⟩ := h2.kept i (hdis i hi)
      exact ⟨a, b, f1.trans e1, f2.trans e2⟩
    · obtain ⟨a, b, e1, e2⟩ := h2.swapped i hi
      obtain ⟨f1, f2⟩ := h1.kept i fun hs => hdis i hs hi
      exact ⟨h1.len1 ▸ a, h1.len2 ▸ b, e1.trans f2, e2.trans f1⟩
  · intro i hi
    obtain ⟨f1, f2⟩ := h1.kept i fun hs => hi (Or.inl hs)
    obtain ⟨g1, g2⟩ := h2.kept i fun hs => hi (Or.inr hs)
    exact ⟨g1.trans f1, g2.trans f2⟩

theorem mixed_set {c : List α × List α} {i : Nat} (h1 : i < c.1.length) (h2 : i < c.2.length) :
    Mixed c (c.1.set i c.2[i], c.2.set i c.1[i]) fun j => j = i := by
  refine ⟨by simp, by simp, ?_, ?_⟩
  · rintro j rfl
    exact ⟨h1, h2, by simp [h1, h2], by simp [h1, h2]⟩
  · intro j hj
    exact ⟨List.getElem?_set_ne (Ne.symm hj), List.getElem?_set_ne (Ne.symm hj)⟩

theorem swapGene_ok {c : List α × List α} {i : Nat} (h1 : i < c.1.length) (h2 : i < c.2.length) :
    swapGene c i = .ok (c.1.set i c.2[i], c.2.set i c.1[i]) := by
  simp [swapGene, rd_ok h1, rd_ok h2]

theorem swapRange_ok (c : List α × List α) (a len : Nat) (h1 : a + len ≤ c.1.length)
    (h2 : a + len ≤ c.2.length) :
    ∃ d, swapRange c a len = .ok d ∧ Mixed c d fun i => a ≤ i ∧ i < a + len := by
  unfold swapRange
  induction len with
  | zero => exact ⟨c, rfl, (Mixed.refl c).congr fun i => ⟨False.elim, fun h => by omega⟩⟩
  | succ m ih =>
    obtain ⟨d, e1, e2⟩ := ih (by omega) (by omega)
    rw [List.range'_concat, List.foldlM_append, e1]
    have g1 : a + 1 * m < d.1.length := by rw [e2.len1]; omega
    have g2 : a + 1 * m < d.2.length := by rw [e2.len2]; omega
    refine ⟨_, ?_, (e2.trans (mixed_set g1 g2) (fun i hi => by omega)).congr fun i => by omega⟩
    simp only [List.foldlM_cons, List.foldlM_nil]
    show (swapGene d (a + 1 * m) >>= pure) = _
    rw [swapGene_ok g1 g2]
    rfl

/-- A mixing always gives the same genes back. -/
theorem Mixed.apply_apply {c d e : List α × List α} {S : Nat → Prop} (h1 : Mixed c d S)
    (h2 : Mixed d e S) : e = c := by
  apply Prod.ext <;> apply List.ext_getElem? <;> intro i <;> by_cases hi : S i
  · rw [(h2.swapped i hi).2.2.1, (h1.swapped i hi).2.2.2]
  · rw [(h2.kept i hi).1, (h1.kept i hi).1]
  · rw [(h2.swapped i hi).2.2.2, (h1.swapped i hi).2.2.1]
  · rw [(h2.kept i hi).2, (h1.kept i hi).2]

/-! ### choosing points -/

theorem choosePoints_ok {r : Nat → Nat} {fuel t k : Nat} {points res : List Bool} (hk : 0 < k)
    (h : choosePoints r fuel t points k = .ok res) :
    res.length = points.length ∧ res.count true = points.count true + k := by
  induction fuel generalizing t points k with
  | zero => simp [choosePoints] at h
  | succ f ih =>
    unfold choosePoints at h
    split at h
    · simp at h
    · rw [if_neg (by omega)] at h
      exact ih hk h
    · rename_i hp
      dsimp only at h
      rw [if_neg (show ¬ k = 0 by omega)] at h
      obtain ⟨hi, hpe⟩ := List.getElem?_eq_some_iff.1 hp
      have hc : (points.set (rnd r t points.length) true).count true = points.count true + 1 := by
        rw [List.count_set hi, hpe]
        simp
      split at h
      · rename_i hk1
        simp only [Except.ok.injEq] at h
        subst h
        exact ⟨by simp, by rw [hc]; omega⟩
      · rename_i hk1
        obtain ⟨h1, h2⟩ := ih (by omega) h
        exact ⟨by rw [h1]; simp, by rw [h2, hc]; omega⟩

/-- The choice never reads outside the points, and never ends when more points are to be chosen than
there are left. -/
theorem choosePoints_stuck {r : Nat → Nat} {fuel t k : Nat} {points : List Bool}
    (h0 : 0 < points.length) (hk : points.count false < k) :
    choosePoints r fuel t points k = .error .fuel := by
  induction fuel generalizing t points k with
  | zero => rfl
  | succ f ih =>
    unfold choosePoints
    split
    · rename_i hp
      rw [List.getElem?_eq_none_iff] at hp
      have := rnd_lt r t h0
      omega
    · rw [if_neg (by omega)]
      exact ih h0 hk
    · rename_i hp
      obtain ⟨hi, hpe⟩ := List.getElem?_eq_some_iff.1 hp
      dsimp only
      have hc : (points.set (rnd r t points.length) true).count false = points.count false - 1 := by
        rw [List.count_set hi, hpe]
        simp
      have hpos : 0 < points.count false := List.count_pos_iff.2 (hpe ▸ List.getElem_mem hi)
      rw [if_neg (show ¬ k = 0 by omega), if_neg (by omega)]
      exact ih (by simpa using h0) (by omega)

theorem choosePoints_error {r : Nat → Nat} {fuel t k : Nat} {points : List Bool} {e : Err}
    (h0 : 0 < points.length) (h : choosePoints r fuel t points k = .error e) : e = .fuel := by
  induction fuel generalizing t points k with
  | zero => simp [choosePoints] at h; exact h.symm
  | succ f ih =>
    unfold choosePoints at h
    split at h
    · rename_i hp
      rw [List.getElem?_eq_none_iff] at hp
      have := rnd_lt r t h0
      omega
    · split at h
      · simp at h
      · exact ih h0 h
    · dsimp only at h
      generalize (if k = 0 then 2 ^ 32 - 1 else k - 1) = k' at h
      split at h
      · simp at h
      · exact ih (by simpa using h0) h

/-- The choice ends if each point turns up among the draws from any time on. -/
theorem choosePoints_mono {r : Nat → Nat} {fuel t k : Nat} {points res : List Bool}
    (h : choosePoints r fuel t points k = .ok res) :
    choosePoints r (fuel + 1) t points k = .ok res := by
  induction fuel generalizing t points k with
  | zero => simp [choosePoints] at h
  | succ f ih =>
    unfold choosePoints at h ⊢
    split at h
    · simp at h
    · split
      · rename_i hk; rw [if_pos hk] at h; exact h
      · rename_i hk; rw [if_neg hk] at h; exact ih h
    · dsimp only at h ⊢
      generalize (if k = 0 then 2 ^ 32 - 1 else k - 1) = k' at h ⊢
      split
      · rename_i hk; rw [if_pos hk] at h; exact h
      · rename_i hk; rw [if_neg hk] at h; exact ih h

/-! ### flips -/

/-- Number of positions at which two strings differ (specification). -/
def hamming : List Bool → List Bool → Nat
  | a :: l, b :: l' => (if a = b then 0 else 1) + hamming l l'
  | _, _ => 0

theorem hamming_self (l : List Bool) : hamming l l = 0 := by
  induction l with
  | nil => rfl
  | cons a l ih => simp [hamming, ih]

theorem hamming_set_eq {l l' : List Bool} {i : Nat} {b : Bool} (h1 : l[i]? = some b)
    (h2 : l'[i]? = some b) : hamming l (l'.set i (!b)) = hamming l l' + 1 := by
  induction l generalizing l' i with
  | nil => simp at h1
  | cons a l ih =>
    cases l' with
    | nil => simp at h2
    | cons a' l' =>
      cases i with
      | zero =>
        simp only [List.getElem?_cons_zero, Option.some.injEq] at h1 h2
        subst h1 h2
        simp [hamming]; omega
      | succ i =>
        simp only [List.getElem?_cons_succ] at h1 h2
        simp only [List.set_cons_succ, hamming, ih h1 h2]
        omega

theorem hamming_set_ne {l l' : List Bool} {i : Nat} {b : Bool} (h1 : l[i]? = some (!b))
    (h2 : l'[i]? = some b) : hamming l (l'.set i (!b)) + 1 = hamming l l' := by
  induction l generalizing l' i with
  | nil => simp at h1
  | cons a l ih =>
    cases l' with
    | nil => simp at h2
    | cons a' l' =>
      cases i with
      | zero =>
        simp only [List.getElem?_cons_zero, Option.some.injEq] at h1 h2
        subst h1 h2
        simp [hamming]; omega
      | succ i =>
        simp only [List.getElem?_cons_succ] at h1 h2
        simp only [List.set_cons_succ, hamming, ← ih h1 h2]
        omega

theorem flipBit_ok {l : List Bool} {i : Nat} (h : i < l.length) :
    flipBit l i = .ok (l.set i (!l[i])) := by
  simp [flipBit, rd_ok h]

theorem flips_fresh (l : List Bool) (ps : List Nat) (hnd : ps.Nodup) (l' : List Bool)
    (hl : l'.length = l.length) (hin : ∀ i ∈ ps, i < l.length) (hs : ∀ i ∈ ps, l'[i]? = l[i]?) :
    ∃ m, ps.foldlM flipBit l' = Except.ok m ∧ m.length = l.length ∧
      hamming l m = hamming l l' + ps.length ∧
      (∀ i ∈ ps, m[i]? = l[i]?.map (!·)) ∧ ∀ i, i ∉ ps → m[i]? = l'[i]? := by
  induction ps generalizing l' with
  | nil => exact ⟨l', rfl, hl, by simp, by simp, fun _ _ => rfl⟩
  | cons p ps ih =>
    rw [List.nodup_cons] at hnd
    have hp : p < l'.length := by rw [hl]; exact hin p List.mem_cons_self
    have hp2 : p < l.length := by omega
    have he := hs p List.mem_cons_self
    rw [List.foldlM_cons, flipBit_ok hp]
    obtain ⟨m, e1, e2, e3, e4, e5⟩ := ih hnd.2 (l'.set p (!l'[p])) (by simpa using hl)
      (fun i hi => hin i (List.mem_cons_of_mem _ hi))
      (fun i hi => by
        rw [List.getElem?_set_ne (fun h => hnd.1 (by rw [h]; exact hi))]
        exact hs i (List.mem_cons_of_mem _ hi))
    refine ⟨m, e1, e2, ?_, ?_, ?_⟩
    · rw [e3, hamming_set_eq (b := l'[p]) (by rw [← he]; exact List.getElem?_eq_getElem hp)
        (List.getElem?_eq_getElem hp), List.length_cons]
      omega
    · intro i hi
      rcases List.mem_cons.1 hi with rfl | hi
      · rw [e5 i hnd.1, List.getElem?_set_self hp, ← he, List.getElem?_eq_getElem hp]
        rfl
      · exact e4 i hi
    · intro i hi
      rw [List.mem_cons, not_or] at hi
      rw [e5 i hi.2, List.getElem?_set_ne (Ne.symm hi.1)]

theorem shuffle_fold (r : Nat → Nat) (n m : Nat) (hm : m ≤ n) :
    ∃ idx, (List.range m).foldlM (fun l i => swapL l i (rnd r i n)) (List.range n) =
      Except.ok idx ∧ idx.Perm (List.range n) := by
  induction m with
  | zero => exact ⟨_, rfl, List.Perm.refl _⟩
  | succ m ih =>
    obtain ⟨idx, e1, e2⟩ := ih (by omega)
    have hl : idx.length = n := by rw [e2.length_eq, List.length_range]
    have h1 : m < idx.length := by omega
    have h2 : rnd r m n < idx.length := by rw [hl]; exact rnd_lt r m (by omega)
    rw [List.range_succ, List.foldlM_append, e1]
    refine ⟨_, ?_, (set_set_perm h1 h2).trans e2⟩
    simp only [List.foldlM_cons, List.foldlM_nil]
    show (swapL idx m (rnd r m n) >>= pure) = _
    rw [swapL_ok h1 h2]
    rfl

end Paradiseo.Ops
