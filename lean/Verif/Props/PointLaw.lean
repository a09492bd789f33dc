/-
Property C374: the law of choices made by drawing again: two different positions (eoShiftMutation.h:66, eoSwapMutation.h:67,
eoTwoOptMutation.h:58-60, eoPartiallyMappedXover.h:57-60, eoBitInversion), the points of eoNPtsBitXover and eoBitGxOver
(ga/eoBitOp.h:407-415, 475-484), and the bits flipped by eoDetBitFlip (ga/eoBitOp.h:87-96).
-/
import Verif.Props.TournamentLaw
import Verif.Props.EOBits
import Mathlib.Data.Fintype.Fin
import Mathlib.Logic.Equiv.Fintype
import Mathlib.Algebra.Ring.Parity

namespace Paradiseo.Ops

open Paradiseo.EO (Err streamOf streamOf_mod)

theorem rnd_streamOf {n T : Nat} (d : Fin T → Fin n) (s : Nat) (h : s < T) : rnd (streamOf d) s n = (d ⟨s, h⟩).1 := by
  rw [rnd, if_neg (by have := (d ⟨s, h⟩).2; omega), streamOf_mod d s h]

/-! ### Two different positions -/

theorem drawOther_iff (r : Nat → Nat) (n i j : Nat) : ∀ k t : Nat,
    drawOther r n i (k + 1) t = .ok (j, t + k + 1) ↔
      (∀ m, m < k → rnd r (t + m) n = i) ∧ rnd r (t + k) n = j ∧ j ≠ i := by
  intro k
  induction k with
  | zero =>
    intro t
    unfold drawOther
    by_cases h : rnd r t n = i
    · simp only [h, if_true, drawOther, Nat.add_zero]
      constructor
      · intro h; exact absurd h (by simp)
      · rintro ⟨_, h2, h3⟩; exact absurd h2.symm h3
    · simp only [if_neg h, Except.ok.injEq, Prod.mk.injEq, Nat.add_zero, and_true]
      constructor
      · rintro rfl; exact ⟨fun m hm => absurd hm (by omega), rfl, h⟩
      · rintro ⟨_, h2, _⟩; exact h2
  | succ k ih =>
    intro t
    rw [drawOther]
    by_cases h : rnd r t n = i
    · rw [if_pos h, show t + (k + 1) + 1 = t + 1 + k + 1 by omega, ih (t + 1)]
      constructor
      · rintro ⟨h1, h2, h3⟩
        refine ⟨fun m hm => ?_, by rw [← h2]; congr 1; omega, h3⟩
        cases m with
        | zero => simpa using h
        | succ m => rw [← h1 m (by omega)]; congr 1; omega
      · rintro ⟨h1, h2, h3⟩
        refine ⟨fun m hm => ?_, by rw [← h2]; congr 1; omega, h3⟩
        rw [← h1 (m + 1) (by omega)]; congr 1; omega
    · rw [if_neg h]
      constructor
      · intro h'
        simp only [Except.ok.injEq, Prod.mk.injEq] at h'
        omega
      · rintro ⟨h1, _, _⟩
        exact absurd (h1 0 (by omega)) h

/-- **C374** (two different positions).  For every number `k` of draws thrown away, each pair of different positions is given
by exactly one of the sequences of `k + 2` draws: all the pairs are equally likely. -/
theorem C374_two (n k : Nat) (i j : Fin n) (hij : i ≠ j) :
    ∃! d : Fin (k + 2) → Fin n, drawTwo (streamOf d) n (k + 1) 0 = .ok (i.1, j.1, k + 2) := by
  have key : ∀ d : Fin (k + 2) → Fin n, drawTwo (streamOf d) n (k + 1) 0 = .ok (i.1, j.1, k + 2) ↔
      ∀ m : Fin (k + 2), d m = if m.1 ≤ k then i else j := by
    intro d
    have h0 : rnd (streamOf d) 0 n = (d 0).1 := rnd_streamOf d 0 (by omega)
    have e := drawOther_iff (streamOf d) n (d 0).1 j.1 k (0 + 1)
    rw [show 0 + 1 + k + 1 = k + 2 by omega] at e
    unfold drawTwo
    rw [h0]
    constructor
    · intro h m
      cases hd : drawOther (streamOf d) n (d 0).1 (k + 1) (0 + 1) with
      | error x => rw [hd] at h; simp at h
      | ok p =>
        rw [hd] at h
        simp only [Except.ok.injEq, Prod.mk.injEq] at h
        obtain ⟨h1, h2, h3⟩ := h
        obtain ⟨g1, g2, g3⟩ := e.1 (by rw [hd, ← h2, ← h3])
        have hi : d 0 = i := Fin.ext h1
        by_cases hm : m.1 ≤ k
        · rw [if_pos hm]
          by_cases hm0 : m.1 = 0
          · rw [← hi]; congr 1; exact Fin.ext hm0
          · have := g1 (m.1 - 1) (by omega)
            rw [show 0 + 1 + (m.1 - 1) = m.1 by omega, rnd_streamOf d m.1 m.2] at this
            rw [← hi]; exact Fin.ext this
        · rw [if_neg hm]
          have hm' : m.1 = k + 1 := by have := m.2; omega
          have := g2
          rw [show 0 + 1 + k = m.1 by omega, rnd_streamOf d m.1 m.2] at this
          exact Fin.ext this
    · intro h
      have hi : d 0 = i := by rw [h 0]; simp
      have := e.2 ⟨fun m hm => by
          rw [rnd_streamOf d (0 + 1 + m) (by omega), h, if_pos (by show 0 + 1 + m ≤ k; omega), hi],
        by rw [rnd_streamOf d (0 + 1 + k) (by omega), h, if_neg (by show ¬ 0 + 1 + k ≤ k; omega)],
        by rw [hi]; exact fun h => hij (Fin.ext h.symm)⟩
      rw [this]
      simp [hi]
  refine ⟨fun m => if m.1 ≤ k then i else j, (key _).2 fun m => rfl, fun d h => ?_⟩
  funext m
  exact (key d).1 h m

example : drawTwo (streamOf (![2, 2, 2, 0] : Fin 4 → Fin 3)) 3 3 0 = .ok (2, 0, 4) := by decide

/-! ### Moving one set of positions onto another -/

theorem card_true {n : Nat} (p : List Bool) (hp : p.length = n) :
    Fintype.card {i : Fin n // p[i.1]'(by omega) = true} = p.count true := by
  rw [Fintype.card_subtype]
  exact Fin.card_filter_univ_eq_vector_get_eq_count true (⟨p, hp⟩ : List.Vector Bool n)

theorem exists_perm {n : Nat} (p q : List Bool) (hp : p.length = n) (hq : q.length = n)
    (h : p.count true = q.count true) :
    ∃ σ : Equiv.Perm (Fin n), ∀ i : Fin n, q[(σ i).1]'(by omega) = p[i.1]'(by omega) := by
  have e : {i : Fin n // p[i.1]'(by omega) = true} ≃ {i : Fin n // q[i.1]'(by omega) = true} :=
    Fintype.equivOfCardEq (by rw [card_true p hp, card_true q hq, h])
  refine ⟨e.extendSubtype, fun i => ?_⟩
  cases hi : p[i.1]'(by omega) with
  | true => exact e.extendSubtype_mem i hi
  | false =>
    have := e.extendSubtype_not_mem i (by rw [hi]; simp)
    simpa using this

/-! ### Points of the crossovers -/

/-- `points'` is `points` with its positions moved by `σ`. -/
def Moved {n : Nat} (σ : Equiv.Perm (Fin n)) (points points' : List Bool) : Prop :=
  points.length = n ∧ points'.length = n ∧ ∀ i : Fin n, points'[(σ i).1]? = points[i.1]?

theorem Moved.set {n : Nat} {σ : Equiv.Perm (Fin n)} {p p' : List Bool} (h : Moved σ p p') (j : Fin n) (b : Bool) :
    Moved σ (p.set j.1 b) (p'.set (σ j).1 b) := by
  obtain ⟨h1, h2, h3⟩ := h
  refine ⟨by simpa using h1, by simpa using h2, fun i => ?_⟩
  by_cases hij : i = j
  · subst hij
    rw [List.getElem?_set_self (by omega), List.getElem?_set_self (by omega)]
  · rw [List.getElem?_set_ne (fun h => hij (Fin.ext h.symm)),
      List.getElem?_set_ne (fun h => hij (σ.injective (Fin.ext h.symm))), h3]

theorem Moved.unique {n : Nat} {σ : Equiv.Perm (Fin n)} {p p' q' : List Bool} (h : Moved σ p p') (h' : Moved σ p q') :
    p' = q' := by
  apply List.ext_getElem?
  intro i
  by_cases hi : i < n
  · have e1 := h.2.2 (σ.symm ⟨i, hi⟩)
    have e2 := h'.2.2 (σ.symm ⟨i, hi⟩)
    simp only [Equiv.apply_symm_apply] at e1 e2
    rw [e1, e2]
  · rw [List.getElem?_eq_none (by have := h.2.1; omega), List.getElem?_eq_none (by have := h'.2.1; omega)]

theorem Moved.symm {n : Nat} {σ : Equiv.Perm (Fin n)} {p p' : List Bool} (h : Moved σ p p') : Moved σ.symm p' p := by
  refine ⟨h.2.1, h.1, fun i => ?_⟩
  have := h.2.2 (σ.symm i)
  rw [Equiv.apply_symm_apply] at this
  exact this.symm

theorem choosePoints_moved {n : Nat} (hn : 0 < n) (σ : Equiv.Perm (Fin n)) (r r' : Nat → Nat) : ∀ (fuel t k : Nat)
    (p p' q : List Bool), Moved σ p p' →
    (∀ s, s < fuel → ∃ j : Fin n, rnd r (t + s) n = j.1 ∧ rnd r' (t + s) n = (σ j).1) →
    choosePoints r fuel t p k = .ok q → ∃ q', choosePoints r' fuel t p' k = .ok q' ∧ Moved σ q q' := by
  intro fuel
  induction fuel with
  | zero => intro t k p p' q _ _ h; simp [choosePoints] at h
  | succ fuel ih =>
    intro t k p p' q hm hr h
    obtain ⟨j, hj1, hj2⟩ := hr 0 (by omega)
    rw [Nat.add_zero] at hj1 hj2
    have hr' : ∀ s, s < fuel → ∃ j : Fin n, rnd r (t + 1 + s) n = j.1 ∧ rnd r' (t + 1 + s) n = (σ j).1 := by
      intro s hs
      have := hr (s + 1) (by omega)
      rwa [show t + (s + 1) = t + 1 + s by omega] at this
    unfold choosePoints at h ⊢
    rw [hm.1, hj1] at h
    rw [hm.2.1, hj2, hm.2.2 j]
    cases hp : p[j.1]? with
    | none => rw [hp] at h; simp at h
    | some b =>
      rw [hp] at h
      cases b with
      | true =>
        simp only at h ⊢
        split at h
        · rename_i hk
          rw [if_pos hk]
          cases h
          exact ⟨p', rfl, hm⟩
        · rename_i hk
          rw [if_neg hk]
          exact ih _ _ _ _ _ hm hr' h
      | false =>
        simp only at h ⊢
        generalize (if k = 0 then 2 ^ 32 - 1 else k - 1) = k' at h ⊢
        by_cases hk : k' = 0
        · rw [if_pos hk] at h ⊢
          cases h
          exact ⟨_, rfl, hm.set j true⟩
        · rw [if_neg hk] at h ⊢
          exact ih _ _ _ _ _ (hm.set j true) hr' h

theorem choosePoints_moved_iff {n : Nat} (hn : 0 < n) (σ : Equiv.Perm (Fin n)) (L k : Nat) (p q : List Bool)
    (h : Moved σ p q) (d : Fin L → Fin n) :
    choosePoints (streamOf d) L 0 (List.replicate n false) k = .ok p →
    choosePoints (streamOf (σ ∘ d)) L 0 (List.replicate n false) k = .ok q := by
  intro hd
  obtain ⟨q', h1, h2⟩ := choosePoints_moved hn σ (streamOf d) (streamOf (σ ∘ d)) L 0 k (List.replicate n false)
    (List.replicate n false) p ⟨by simp, by simp, fun i => by simp⟩ (fun s hs => by
      rw [Nat.zero_add]
      exact ⟨d ⟨s, hs⟩, rnd_streamOf d s hs, rnd_streamOf (σ ∘ d) s hs⟩) hd
  rw [h1, h2.unique h]

/-- **C374** (points).  For every number of draws, any two sets of as many points are chosen by equally many sequences of draws. -/
theorem C374_points (n L k : Nat) (hn : 0 < n) (p q : List Bool) (hp : p.length = n) (hq : q.length = n)
    (h : p.count true = q.count true) :
    (Finset.univ.filter fun d : Fin L → Fin n =>
      choosePoints (streamOf d) L 0 (List.replicate n false) k = .ok p).card =
    (Finset.univ.filter fun d : Fin L → Fin n =>
      choosePoints (streamOf d) L 0 (List.replicate n false) k = .ok q).card := by
  obtain ⟨σ, hσ⟩ := exists_perm p q hp hq h
  have hm : Moved σ p q := ⟨hp, hq, fun i => by
    rw [List.getElem?_eq_getElem (by omega), List.getElem?_eq_getElem (by omega), hσ i]⟩
  refine Finset.card_bij' (fun d _ => σ ∘ d) (fun d _ => σ.symm ∘ d) ?_ ?_ ?_ ?_
  · intro d hd
    simp only [Finset.mem_filter, Finset.mem_univ, true_and] at hd ⊢
    exact choosePoints_moved_iff hn σ L k p q hm d hd
  · intro d hd
    simp only [Finset.mem_filter, Finset.mem_univ, true_and] at hd ⊢
    exact choosePoints_moved_iff hn σ.symm L k q p hm.symm d hd
  · intro d _; funext i; simp
  · intro d _; funext i; simp

example : choosePoints (streamOf (![2, 2, 0] : Fin 3 → Fin 4)) 3 0 (List.replicate 4 false) 2 =
    .ok [true, false, true, false] := by decide

/-! ### eoDetBitFlip -/

theorem detBitFlip_parity (r : Nat → Nat) (l : List Bool) (h0 : 0 < l.length) (k : Nat) :
    ∃ l', detBitFlip r k l = .ok l' ∧ l'.length = l.length ∧
      ∀ i, ∀ h : i < l.length, ∀ h' : i < l'.length,
        (l'[i] ≠ l[i] ↔ Odd ((List.range k).countP fun t => decide (rnd r t l.length = i))) := by
  unfold detBitFlip
  induction k with
  | zero => exact ⟨l, rfl, rfl, fun i h h' => by simp⟩
  | succ k ih =>
    obtain ⟨l', h1, h2, h3⟩ := ih
    have hk : rnd r k l'.length < l'.length := rnd_lt r k (by omega)
    rw [List.range_succ, List.foldlM_append, h1]
    refine ⟨l'.set (rnd r k l'.length) (!l'[rnd r k l'.length]), ?_, by simpa using h2, ?_⟩
    · simp only [List.foldlM_cons, List.foldlM_nil]
      show (flipBit l' (rnd r k l'.length) >>= pure) = _
      rw [flipBit, rd_ok hk]
      rfl
    · intro i h h'
      have hi : i < l'.length := by omega
      rw [List.countP_append, List.getElem_set]
      have h3' := h3 i h hi
      by_cases he : rnd r k l'.length = i
      · subst he
        rw [if_pos rfl]
        simp only [List.countP_cons, List.countP_nil, h2, decide_true, if_true, Nat.zero_add]
        rw [Nat.odd_add_one]
        simp only [h2] at h3'
        rw [← h3']
        have hk2 : rnd r k l.length < l'.length := by rw [← h2]; exact hk
        have hk3 : rnd r k l.length < l.length := by rw [← h2]; rw [h2] at hk2 ⊢; exact hk2
        generalize l'[rnd r k l.length] = a
        generalize l[rnd r k l.length] = b
        cases a <;> cases b <;> simp
      · rw [if_neg he]
        rw [h2] at he
        simpa [he] using h3'

theorem detBitFlip_iff {n : Nat} (hn : 0 < n) (l a : List Bool) (hl : l.length = n) (ha : a.length = n) (k : Nat)
    (d : Fin k → Fin n) : detBitFlip (streamOf d) k l = .ok a ↔
      ∀ i : Fin n, (a[i.1]'(by omega) ≠ l[i.1]'(by omega) ↔
        Odd ((List.range k).countP fun t => decide (rnd (streamOf d) t n = i.1))) := by
  obtain ⟨l', h1, h2, h3⟩ := detBitFlip_parity (streamOf d) l (by omega) k
  rw [h1]
  simp only [hl] at h3
  constructor
  · intro h
    cases h
    exact fun i => h3 i.1 i.2 (by omega)
  · intro h
    congr 1
    apply List.ext_getElem (by omega)
    intro i g1 g2
    have e1 := h3 i (by omega) (by omega)
    have e2 := h ⟨i, by omega⟩
    rw [← e1] at e2
    simp only at e2
    revert e2
    generalize l'[i] = x
    generalize a[i] = y
    generalize l[i]'(by omega) = z
    cases x <;> cases y <;> cases z <;> simp

theorem hamming_count : ∀ (l a : List Bool), hamming l a = (List.zipWith xor l a).count true
  | [], _ => by simp [hamming]
  | _ :: _, [] => by simp [hamming]
  | x :: l, y :: a => by
    rw [hamming, hamming_count l a, List.zipWith_cons_cons, List.count_cons]
    cases x <;> cases y <;> simp <;> omega

/-- **C374** (eoDetBitFlip).  Any two strings at the same Hamming distance from the parent are given by equally many of the
sequences of draws. -/
theorem C374_detBitFlip (l a b : List Bool) (k : Nat) (ha : a.length = l.length) (hb : b.length = l.length)
    (h : hamming l a = hamming l b) :
    (Finset.univ.filter fun d : Fin k → Fin l.length => detBitFlip (streamOf d) k l = .ok a).card =
    (Finset.univ.filter fun d : Fin k → Fin l.length => detBitFlip (streamOf d) k l = .ok b).card := by
  rcases Nat.eq_zero_or_pos l.length with h0 | h0
  · have e1 : a = [] := List.length_eq_zero_iff.1 (by omega)
    have e2 : b = [] := List.length_eq_zero_iff.1 (by omega)
    rw [e1, e2]
  rw [hamming_count, hamming_count] at h
  obtain ⟨σ, hσ⟩ := exists_perm (n := l.length) (List.zipWith xor l a) (List.zipWith xor l b) (by simp [ha])
    (by simp [hb]) h
  simp only [List.getElem_zipWith] at hσ
  have hcount : ∀ (τ : Equiv.Perm (Fin l.length)) (d : Fin k → Fin l.length) (i : Fin l.length),
      ((List.range k).countP fun t => decide (rnd (streamOf (τ ∘ d)) t l.length = (τ i).1)) =
      (List.range k).countP fun t => decide (rnd (streamOf d) t l.length = i.1) := by
    intro τ d i
    apply List.countP_congr
    intro t ht
    have ht' := List.mem_range.1 ht
    rw [rnd_streamOf (τ ∘ d) t ht', rnd_streamOf d t ht']
    simp only [Function.comp, decide_eq_true_eq, Fin.val_inj, EmbeddingLike.apply_eq_iff_eq]
  have bool : ∀ x y z w : Bool, xor x y = xor z w → (y ≠ x ↔ w ≠ z) := by decide
  refine Finset.card_bij' (fun d _ => σ ∘ d) (fun d _ => σ.symm ∘ d) ?_ ?_ ?_ ?_
  · intro d hd
    simp only [Finset.mem_filter, Finset.mem_univ, true_and] at hd ⊢
    rw [detBitFlip_iff h0 l a rfl ha] at hd
    rw [detBitFlip_iff h0 l b rfl hb]
    intro i
    have e := hcount σ d (σ.symm i)
    have g := hσ (σ.symm i)
    simp only [Equiv.apply_symm_apply] at e g
    rw [e, ← hd (σ.symm i)]
    exact bool _ _ _ _ g
  · intro d hd
    simp only [Finset.mem_filter, Finset.mem_univ, true_and] at hd ⊢
    rw [detBitFlip_iff h0 l b rfl hb] at hd
    rw [detBitFlip_iff h0 l a rfl ha]
    intro i
    have e := hcount σ.symm d (σ i)
    simp only [Equiv.symm_apply_apply] at e
    rw [e, ← hd (σ i)]
    exact bool _ _ _ _ (hσ i).symm
  · intro d _; funext i; simp
  · intro d _; funext i; simp

example : hamming [true, false, true] [false, false, true] = hamming [true, false, true] [true, false, false] ∧
    detBitFlip (streamOf (![1, 0, 1] : Fin 3 → Fin 3)) 3 [true, false, true] = .ok [false, false, true] := by decide

end Paradiseo.Ops
