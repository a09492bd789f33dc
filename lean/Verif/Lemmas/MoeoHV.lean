import Verif.Model.MoeoMetric
import Mathlib.Data.List.GetD
import Mathlib.Data.List.Perm.Basic
import Mathlib.Data.List.Perm.Subperm
import Mathlib.Tactic
/-
Lemmas on the list algorithms of the hypervolume metric.
-/
namespace Paradiseo.Moeo

/-- The two lists agree from position `n` on and have the same elements before. -/
def SameUpTo {α : Type} (n : Nat) (l l' : List α) : Prop :=
  (l'.take n).Perm (l.take n) ∧ l'.drop n = l.drop n

namespace SameUpTo
variable {α : Type} {l l' l'' : List α} {n m : Nat}

theorem refl (n : Nat) (l : List α) : SameUpTo n l l := ⟨List.Perm.refl _, rfl⟩

theorem trans (h1 : SameUpTo n l l') (h2 : SameUpTo n l' l'') : SameUpTo n l l'' :=
  ⟨h2.1.trans h1.1, h2.2.trans h1.2⟩

theorem length_eq (h : SameUpTo n l l') : l'.length = l.length := by
  have h1 := h.1.length_eq
  have h2 := congrArg List.length h.2
  rw [← List.take_append_drop n l', ← List.take_append_drop n l, List.length_append, List.length_append, h1, h2]

theorem mono (hmn : m ≤ n) (h : SameUpTo m l l') : SameUpTo n l l' := by
  have e : ∀ x : List α, x.take n = x.take m ++ (x.drop m).take (n - m) := by
    intro x
    have : n = m + (n - m) := by omega
    conv_lhs => rw [this, List.take_add]
  refine ⟨?_, ?_⟩
  · rw [e, e, h.2]; exact h.1.append_right _
  · have e' : ∀ x : List α, x.drop n = (x.drop m).drop (n - m) := by
      intro x; rw [List.drop_drop]; congr 1; omega
    rw [e', e', h.2]

theorem mem_iff (h : SameUpTo n l l') (a : α) : a ∈ l'.take n ↔ a ∈ l.take n := h.1.mem_iff

end SameUpTo

theorem getElem?_swapAt {α : Type} (l : List α) (i j k : Nat) (hi : i < l.length) (hj : j < l.length) :
    (swapAt l i j)[k]? = if k = j then l[i]? else if k = i then l[j]? else l[k]? := by
  unfold swapAt
  rw [List.getElem?_eq_getElem hi, List.getElem?_eq_getElem hj]
  simp only [List.getElem?_set, List.length_set]
  by_cases h1 : k = j
  · subst h1; simp [hj]
  · by_cases h2 : k = i
    · subst h2; simp [h1, hi, Ne.symm h1]
    · simp [h1, h2, Ne.symm h1, Ne.symm h2]

theorem length_swapAt {α : Type} (l : List α) (i j : Nat) : (swapAt l i j).length = l.length := by
  unfold swapAt; split <;> simp

theorem swapAt_perm {α : Type} (l : List α) (i j : Nat) : (swapAt l i j).Perm l := by
  unfold swapAt
  split
  · rename_i a b ha hb
    obtain ⟨hi, rfl⟩ := List.getElem?_eq_some_iff.1 ha
    obtain ⟨hj, rfl⟩ := List.getElem?_eq_some_iff.1 hb
    exact List.set_set_perm hi hj
  · exact List.Perm.refl _

theorem swapAt_same {α : Type} (l : List α) (i j n : Nat) (hi : i < n) (hj : j < n) (hn : n ≤ l.length) :
    SameUpTo n l (swapAt l i j) := by
  have hd : (swapAt l i j).drop n = l.drop n := by
    apply List.ext_getElem?
    intro k
    rw [List.getElem?_drop, List.getElem?_drop, getElem?_swapAt l i j _ (by omega) (by omega),
      if_neg (by omega), if_neg (by omega)]
  refine ⟨?_, hd⟩
  have := swapAt_perm l i j
  rw [← List.take_append_drop n (swapAt l i j), hd] at this
  conv_rhs at this => rw [← List.take_append_drop n l]
  exact (List.perm_append_right_iff _).1 this

variable {F : Type} [Field F] [LinearOrder F]

theorem hvDomLoop_iff (p q : Pt F) (fuel i : Nat) (b : Bool) :
    hvDomLoop p q fuel i b = true ↔
      (∀ j, i ≤ j → j < i + fuel → q j ≤ p j) ∧ (b = true ∨ ∃ j, i ≤ j ∧ j < i + fuel ∧ q j < p j) := by
  induction fuel generalizing i b with
  | zero =>
    simp only [hvDomLoop]
    constructor
    · intro h; exact ⟨fun j h1 h2 => by omega, Or.inl h⟩
    · rintro ⟨_, h | ⟨j, h1, h2, _⟩⟩
      · exact h
      · omega
  | succ fuel ih =>
    have split1 : ∀ P : Nat → Prop, (∀ j, i ≤ j → j < i + (fuel + 1) → P j) ↔
        (P i ∧ ∀ j, i + 1 ≤ j → j < i + 1 + fuel → P j) := by
      intro P
      constructor
      · intro h; exact ⟨h i le_rfl (by omega), fun j h1 h2 => h j (by omega) (by omega)⟩
      · rintro ⟨h1, h2⟩ j hj1 hj2
        by_cases hij : i = j
        · subst hij; exact h1
        · exact h2 j (by omega) (by omega)
    have split2 : ∀ P : Nat → Prop, (∃ j, i ≤ j ∧ j < i + (fuel + 1) ∧ P j) ↔
        (P i ∨ ∃ j, i + 1 ≤ j ∧ j < i + 1 + fuel ∧ P j) := by
      intro P
      constructor
      · rintro ⟨j, h1, h2, h3⟩
        by_cases hij : i = j
        · subst hij; exact Or.inl h3
        · exact Or.inr ⟨j, by omega, by omega, h3⟩
      · rintro (h | ⟨j, h1, h2, h3⟩)
        · exact ⟨i, le_rfl, by omega, h⟩
        · exact ⟨j, by omega, by omega, h3⟩
    rw [split1, split2]
    unfold hvDomLoop
    by_cases h1 : q i < p i
    · rw [if_pos h1, ih]
      constructor
      · rintro ⟨h, _⟩; exact ⟨⟨h1.le, h⟩, Or.inr (Or.inl h1)⟩
      · rintro ⟨⟨_, h⟩, _⟩; exact ⟨h, Or.inl rfl⟩
    · rw [if_neg h1]
      by_cases h2 : p i < q i
      · rw [if_pos h2]
        constructor
        · intro h; simp at h
        · rintro ⟨⟨h, _⟩, _⟩; exact absurd h2 (not_lt.2 h)
      · rw [if_neg h2, ih]
        constructor
        · rintro ⟨h, h'⟩
          refine ⟨⟨not_lt.1 h2, h⟩, ?_⟩
          rcases h' with h' | h'
          · exact Or.inl h'
          · exact Or.inr (Or.inr h')
        · rintro ⟨⟨_, h⟩, h'⟩
          refine ⟨h, ?_⟩
          rcases h' with h' | h' | h'
          · exact Or.inl h'
          · exact absurd h' h1
          · exact Or.inr h'

theorem hvDom_iff (k : Nat) (p q : Pt F) :
    hvDom k p q = true ↔ (∀ j < k, q j ≤ p j) ∧ ∃ j < k, q j < p j := by
  unfold hvDom
  rw [hvDomLoop_iff]
  simp

/-- Every point of `R` is covered on the first `k` objectives by one of `R'`. -/
def HvCovers (k : Nat) (R' R : List (Pt F)) : Prop := ∀ p ∈ R, ∃ q ∈ R', ∀ j < k, p j ≤ q j

theorem HvCovers.refl (k : Nat) (R : List (Pt F)) : HvCovers k R R := fun p hp => ⟨p, hp, fun _ _ => le_rfl⟩

theorem HvCovers.trans {k : Nat} {R1 R2 R3 : List (Pt F)} (h1 : HvCovers k R1 R2) (h2 : HvCovers k R2 R3) :
    HvCovers k R1 R3 := by
  intro p hp
  obtain ⟨q, hq, h⟩ := h2 p hp
  obtain ⟨r, hr, h'⟩ := h1 q hq
  exact ⟨r, hr, fun j hj => (h j hj).trans (h' j hj)⟩

theorem mem_take_iff_getElem? {α : Type} (l : List α) (n : Nat) (a : α) :
    a ∈ l.take n ↔ ∃ i < n, l[i]? = some a := by
  rw [List.mem_iff_getElem?]
  constructor
  · rintro ⟨i, h⟩
    rw [List.getElem?_take] at h
    split at h
    · rename_i hi; exact ⟨i, hi, h⟩
    · simp at h
  · rintro ⟨i, hi, h⟩
    exact ⟨i, by rw [List.getElem?_take, if_pos hi, h]⟩

/-- Mutual non-domination of the points at positions `a < b`. -/
def Incomp (k : Nat) (front : List (Pt F)) (a b : Nat) : Prop :=
  ∀ p q, front[a]? = some p → front[b]? = some q → hvDom k p q = false ∧ hvDom k q p = false

/-- Moving the dominated point `x` to the end and dropping it. -/
theorem covers_drop (k : Nat) (front : List (Pt F)) (n x y : Nat) (hx : x < n) (hy : y < n)
    (hxy : x ≠ y) (hn : n ≤ front.length) (p q : Pt F) (hp : front[x]? = some p)
    (hq : front[y]? = some q) (hd : ∀ j < k, p j ≤ q j) :
    HvCovers k ((swapAt front x (n - 1)).take (n - 1)) (front.take n) := by
  intro r hr
  obtain ⟨i, hi, hri⟩ := (mem_take_iff_getElem? _ _ _).1 hr
  have hsw := fun k => getElem?_swapAt front x (n - 1) k (by omega) (by omega)
  -- position of an element other than `x` after the swap
  have key : ∀ i < n, i ≠ x → ∀ r, front[i]? = some r → r ∈ (swapAt front x (n - 1)).take (n - 1) := by
    intro i hi hix r hri
    rw [mem_take_iff_getElem?]
    by_cases hl : i = n - 1
    · subst hl
      exact ⟨x, by omega, by rw [hsw, if_neg (by omega), if_pos rfl, hri]⟩
    · exact ⟨i, by omega, by rw [hsw, if_neg hl, if_neg hix, hri]⟩
  by_cases hix : i = x
  · subst hix
    rw [hp] at hri; cases hri
    exact ⟨q, key y hy (Ne.symm hxy) q hq, hd⟩
  · exact ⟨r, key i hi hix r hri, fun _ _ => le_rfl⟩

theorem hvFilter_spec (k : Nat) (front : List (Pt F)) (n i j : Nat) (hij : i < j) (hn : n ≤ front.length)
    (hI : ∀ a b, a < b → b < n → a < i → Incomp k front a b)
    (hJ : ∀ b, i < b → b < j → b < n → Incomp k front i b) :
    let r := hvFilter k front n i j
    r.2 ≤ n ∧ (0 < n → 0 < r.2) ∧ SameUpTo n front r.1 ∧ HvCovers k (r.1.take r.2) (front.take n) ∧
      ∀ a b, a < b → b < r.2 → Incomp k r.1 a b := by
  induction front, n, i, j using hvFilter.induct (F := F) k with
  | case1 front n i j hin hjn p q hq hp hdom ih =>
    -- the second point is dominated
    rw [hvFilter]
    simp only [hin, hjn, if_true, hp, hq]
    rw [if_pos hdom]
    have hsw := fun k => getElem?_swapAt front j (n - 1) k (by omega) (by omega)
    obtain ⟨h1, h2, h3, h4, h5⟩ := ih hij (by rw [length_swapAt]; omega)
      (by
        intro a b hab hb hai p q hp hq
        rw [hsw, if_neg (by omega), if_neg (by omega)] at hp
        rw [hsw, if_neg (by omega)] at hq
        by_cases hbj : b = j
        · rw [if_pos hbj] at hq
          exact hI a (n - 1) (by omega) (by omega) hai p q hp hq
        · rw [if_neg hbj] at hq
          exact hI a b hab (by omega) hai p q hp hq)
      (by
        intro b hib hbj hbn p q hp hq
        rw [hsw, if_neg (by omega), if_neg (by omega)] at hp
        rw [hsw, if_neg (by omega), if_neg (by omega)] at hq
        exact hJ b hib hbj (by omega) p q hp hq)
    refine ⟨by omega, fun _ => h2 (by omega), ?_, ?_, h5⟩
    · exact (swapAt_same front j (n - 1) n hjn (by omega) hn).trans (h3.mono (by omega))
    · refine h4.trans (covers_drop k front n j i hjn hin (by omega) hn q p hq hp ?_)
      exact fun l hl => ((hvDom_iff k p q).1 hdom).1 l hl
  | case2 front n i j hin hjn p q hq hp hnd hdom ih =>
    rw [hvFilter]
    simp only [hin, hjn, if_true, hp, hq]
    rw [if_neg hnd, if_pos hdom]
    have hsw := fun k => getElem?_swapAt front i (n - 1) k (by omega) (by omega)
    obtain ⟨h1, h2, h3, h4, h5⟩ := ih (by omega) (by rw [length_swapAt]; omega)
      (by
        intro a b hab hb hai p q hp hq
        rw [hsw, if_neg (by omega), if_neg (by omega)] at hp
        rw [hsw, if_neg (by omega)] at hq
        by_cases hbj : b = i
        · rw [if_pos hbj] at hq
          exact hI a (n - 1) (by omega) (by omega) hai p q hp hq
        · rw [if_neg hbj] at hq
          exact hI a b hab (by omega) hai p q hp hq)
      (by intro b hib hbj; omega)
    refine ⟨by omega, fun _ => h2 (by omega), ?_, ?_, h5⟩
    · exact (swapAt_same front i (n - 1) n hin (by omega) hn).trans (h3.mono (by omega))
    · refine h4.trans (covers_drop k front n i j hin hjn (by omega) hn p q hp hq ?_)
      exact fun l hl => ((hvDom_iff k q p).1 hdom).1 l hl
  | case3 front n i j hin hjn p q hq hp hnd hnd' ih =>
    rw [hvFilter]
    simp only [hin, hjn, if_true, hp, hq]
    rw [if_neg hnd, if_neg hnd']
    refine ih (by omega) hn hI ?_
    intro b hib hbj hbn
    by_cases hb : b = j
    · subst hb
      intro p' q' hp' hq'
      rw [hp] at hp'; rw [hq] at hq'
      cases hp'; cases hq'
      simp at hnd hnd'
      exact ⟨hnd, hnd'⟩
    · exact hJ b hib (by omega) hbn
  | case4 front n i j hin hjn hnone =>
    exfalso
    exact hnone _ _ (List.getElem?_eq_getElem (by omega)) (List.getElem?_eq_getElem (by omega))
  | case5 front n i j hin hjn ih =>
    rw [hvFilter]
    simp only [hin, hjn, if_true, if_false]
    refine ih (by omega) hn ?_ ?_
    · intro a b hab hb hai
      by_cases ha : a = i
      · subst ha; exact hJ b hab (by omega) hb
      · exact hI a b hab hb (by omega)
    · intro b hib hbj; omega
  | case6 front n i j hin =>
    rw [hvFilter]
    simp only [hin, if_false]
    exact ⟨le_rfl, fun h => h, SameUpTo.refl _ _, HvCovers.refl _ _,
      fun a b hab hb => hI a b hab hb (by omega)⟩

theorem hvReduce_spec (obj : Nat) (t : F) (front : List (Pt F)) (n i : Nat) (hn : n ≤ front.length)
    (hI : ∀ a < i, a < n → ∀ p, front[a]? = some p → t < p obj) :
    let r := hvReduce obj t front n i
    r.2 ≤ n ∧ SameUpTo n front r.1 ∧ (∀ p, p ∈ r.1.take r.2 ↔ p ∈ front.take n ∧ t < p obj) ∧
      ((∃ a < n, i ≤ a ∧ ∃ p, front[a]? = some p ∧ p obj ≤ t) → r.2 < n) := by
  induction front, n, i using hvReduce.induct (F := F) obj t with
  | case1 front n i hin p hp hle ih =>
    rw [hvReduce]
    simp only [hin, if_true, hp, hle]
    have hsw := fun k => getElem?_swapAt front i (n - 1) k (by omega) (by omega)
    obtain ⟨h1, h2, h3, h4⟩ := ih (by rw [length_swapAt]; omega) (by
      intro a hai han q hq
      rw [hsw, if_neg (by omega), if_neg (by omega)] at hq
      exact hI a hai (by omega) q hq)
    have hs := swapAt_same front i (n - 1) n hin (by omega) hn
    refine ⟨by omega, hs.trans (h2.mono (by omega)), ?_, fun _ => by omega⟩
    intro q
    rw [h3]
    constructor
    · rintro ⟨hq, ht⟩
      refine ⟨?_, ht⟩
      rw [← hs.mem_iff]
      exact List.take_subset_take_left _ (by omega) hq
    · rintro ⟨hq, ht⟩
      refine ⟨?_, ht⟩
      obtain ⟨a, ha, hqa⟩ := (mem_take_iff_getElem? _ _ _).1 hq
      have hai : a ≠ i := by
        intro h; subst h; rw [hp] at hqa; cases hqa; exact absurd ht (not_lt.2 hle)
      rw [mem_take_iff_getElem?]
      by_cases hl : a = n - 1
      · exact ⟨i, by omega, by rw [hsw, if_neg (by omega), if_pos rfl, ← hl, hqa]⟩
      · exact ⟨a, by omega, by rw [hsw, if_neg hl, if_neg hai, hqa]⟩
  | case2 front n i hin p hp hle ih =>
    rw [hvReduce]
    simp only [hin, if_true, hp, hle, if_false]
    obtain ⟨h1, h2, h3, h4⟩ := ih hn (by
      intro a hai han q hq
      by_cases h : a = i
      · subst h; rw [hp] at hq; cases hq; exact not_le.1 hle
      · exact hI a (by omega) han q hq)
    refine ⟨h1, h2, h3, ?_⟩
    rintro ⟨a, han, hia, q, hq, hqt⟩
    refine h4 ⟨a, han, ?_, q, hq, hqt⟩
    rcases Nat.eq_or_lt_of_le hia with h | h
    · subst h; rw [hp] at hq; cases hq; exact absurd hqt hle
    · exact h
  | case3 front n i hin hnone =>
    exfalso
    rw [List.getElem?_eq_getElem (by omega)] at hnone; simp at hnone
  | case4 front n i hin =>
    rw [hvReduce]
    simp only [hin, if_false]
    refine ⟨le_rfl, SameUpTo.refl _ _, ?_, ?_⟩
    · intro p
      constructor
      · intro hp
        obtain ⟨a, ha, h⟩ := (mem_take_iff_getElem? _ _ _).1 hp
        exact ⟨hp, hI a (by omega) ha p h⟩
      · exact fun h => h.1
    · rintro ⟨a, h1, h2, _⟩; omega

theorem hvSurface_spec (front : List (Pt F)) (n obj : Nat) (hn : n ≤ front.length) (h0 : 0 < n) :
    ∃ t, hvSurface front n obj = some t ∧ (∀ p ∈ front.take n, t ≤ p obj) ∧ ∃ p ∈ front.take n, p obj = t := by
  unfold hvSurface
  cases hl : front.take n with
  | nil =>
    have := congrArg List.length hl
    rw [List.length_take, min_eq_left hn, List.length_nil] at this; omega
  | cons p l =>
    refine ⟨_, rfl, ?_⟩
    have key : ∀ (l : List (Pt F)) (m : F),
        let r := l.foldl (fun m q => if q obj < m then q obj else m) m
        r ≤ m ∧ (∀ q ∈ l, r ≤ q obj) ∧ (r = m ∨ ∃ q ∈ l, q obj = r) := by
      intro l
      induction l with
      | nil => intro m; simp
      | cons q l ih =>
        intro m
        obtain ⟨h1, h2, h3⟩ := ih (if q obj < m then q obj else m)
        simp only [List.foldl_cons]
        have hm : (if q obj < m then q obj else m) ≤ m ∧ (if q obj < m then q obj else m) ≤ q obj := by
          split
          · rename_i h; exact ⟨h.le, le_rfl⟩
          · rename_i h; exact ⟨le_rfl, not_lt.1 h⟩
        refine ⟨h1.trans hm.1, ?_, ?_⟩
        · intro x hx
          rcases List.mem_cons.1 hx with rfl | hx
          · exact h1.trans hm.2
          · exact h2 x hx
        · rcases h3 with h3 | ⟨x, hx, h3⟩
          · rw [h3]
            split
            · exact Or.inr ⟨q, by simp, rfl⟩
            · exact Or.inl rfl
          · exact Or.inr ⟨x, by simp [hx], h3⟩
    obtain ⟨h1, h2, h3⟩ := key l (p obj)
    refine ⟨?_, ?_⟩
    · intro q hq
      rcases List.mem_cons.1 hq with rfl | hq
      · exact h1
      · exact h2 q hq
    · rcases h3 with h3 | ⟨x, hx, h3⟩
      · exact ⟨p, by simp, h3.symm⟩
      · exact ⟨x, by simp [hx], h3⟩

end Paradiseo.Moeo
