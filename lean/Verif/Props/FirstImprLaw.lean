import Verif.Props.ReplLaw
import Mathlib.Logic.Equiv.Basic
import Mathlib.Algebra.BigOperators.Option

/-!
# C406: which neighbour a first-improvement climber takes

The climber of `moFirstImprHCexplorer` (mo/src/explorer/moFirstImprHCexplorer.h:85-155) over a
neighbourhood with replacement takes the first improving neighbour drawn. All the improving
neighbours are then equally likely, whatever their fitness.
-/

namespace Paradiseo.Nbh

/-- One iteration of the first-improvement climber from a solution of fitness `f0`, when the
exploration would visit the neighbours `L`: the neighbour it moves to, `none` if it does not move. -/
def firstTaken {F : Type} [LinearOrder F] (fit : Nat → F) (f0 : F) (e : LS.HC Nat F)
    (L : List Nat) : Option Nat :=
  let X := LS.firstHC false
    (fun _ (_ : Unit × F) => L.map (fun k => (⟨k, fit k⟩ : LS.Cand Nat F))) (fun _ s => s)
  let p := X.explore 0 ((), f0) e
  if (X.accept 0 p.1 p.2).1 then p.2.selected.map (·.mv) else none

theorem firstSelect_find {F : Type} [LinearOrder F] (fit : Nat → F) (f0 : F) :
    ∀ (l : List Nat) (c : Nat),
      (if f0 < (LS.firstSelect f0 (⟨c, fit c⟩ : LS.Cand Nat F)
          (l.map (fun k => (⟨k, fit k⟩ : LS.Cand Nat F)))).fit
        then some (LS.firstSelect f0 (⟨c, fit c⟩ : LS.Cand Nat F)
          (l.map (fun k => (⟨k, fit k⟩ : LS.Cand Nat F)))).mv else none) =
        (c :: l).find? (fun k => decide (f0 < fit k)) := by
  intro l
  induction l with
  | nil =>
    intro c
    by_cases h : f0 < fit c <;> simp [LS.firstSelect, h]
  | cons d l ih =>
    intro c
    by_cases h : f0 < fit c
    · simp [LS.firstSelect, h]
    · rw [List.map_cons, LS.firstSelect, if_neg h, ih d]
      simp [h]

theorem firstTaken_find {F : Type} [LinearOrder F] (fit : Nat → F) (f0 : F) (e : LS.HC Nat F)
    (L : List Nat) (hL : L ≠ []) :
    firstTaken fit f0 e L = L.find? (fun k => decide (f0 < fit k)) := by
  obtain ⟨c, l, rfl⟩ := List.exists_cons_of_ne_nil hL
  rw [← firstSelect_find]
  simp only [firstTaken, LS.firstHC, List.map_cons, decide_eq_true_eq, Option.map_some]

/-- The first of the draws `d` that improves. -/
def firstOf {F : Type} [LinearOrder F] {size m : Nat} (fit : Nat → F) (f0 : F)
    (d : Fin m → Fin size) : Option (Fin size) :=
  (List.ofFn d).find? (fun k => decide (f0 < fit k.val))

theorem taken_firstOf {F : Type} [LinearOrder F] {size m : Nat} (t : Nat) (h0 : 0 < size)
    (hm : 0 < m) (fit : Nat → F) (f0 : F) (e : LS.HC Nat F) (d : Fin m → Fin size) :
    (replVisited (drawsFrom t d) size m t).map (firstTaken fit f0 e) =
      some ((firstOf fit f0 d).map Fin.val) := by
  rw [visited_draws t h0 hm, Option.map_some, firstTaken_find]
  · have : List.ofFn (fun i => (d i).val) = (List.ofFn d).map Fin.val := by
      rw [List.map_ofFn]; rfl
    rw [this, List.find?_map]
    rfl
  · intro h
    have := congrArg List.length h
    simp at this
    omega

theorem firstOf_swap {F : Type} [LinearOrder F] {size m : Nat} (fit : Nat → F) (f0 : F)
    (c c' : Fin size) (hc : f0 < fit c) (hc' : f0 < fit c') (d : Fin m → Fin size) :
    firstOf fit f0 (Equiv.swap c c' ∘ d) = (firstOf fit f0 d).map (Equiv.swap c c') := by
  unfold firstOf
  rw [← List.map_ofFn, List.find?_map]
  congr 2
  funext k
  simp only [Function.comp]
  congr 1
  rcases eq_or_ne k c with rfl | h1
  · simp [hc, hc']
  rcases eq_or_ne k c' with rfl | h2
  · simp [hc, hc']
  rw [Equiv.swap_apply_of_ne_of_ne h1 h2]

theorem firstOf_card {F : Type} [LinearOrder F] {size m : Nat} (fit : Nat → F) (f0 : F)
    (c c' : Fin size) (hc : f0 < fit c) (hc' : f0 < fit c') :
    (Finset.univ.filter (fun d : Fin m → Fin size => firstOf fit f0 d = some c)).card =
      (Finset.univ.filter (fun d : Fin m → Fin size => firstOf fit f0 d = some c')).card := by
  apply Finset.card_bij (fun d _ => Equiv.swap c c' ∘ d)
  · intro d hd
    simp only [Finset.mem_filter, Finset.mem_univ, true_and] at hd ⊢
    rw [firstOf_swap fit f0 c c' hc hc', hd]
    simp
  · intro d _ d' _ h
    funext i
    exact (Equiv.swap c c').injective (congrFun h i)
  · intro d hd
    refine ⟨Equiv.swap c c' ∘ d, ?_, ?_⟩
    · simp only [Finset.mem_filter, Finset.mem_univ, true_and] at hd ⊢
      rw [firstOf_swap fit f0 c c' hc hc', hd]
      simp
    · funext i
      simp

theorem taken_some {F : Type} [LinearOrder F] {size m : Nat} (t : Nat) (h0 : 0 < size)
    (hm : 0 < m) (fit : Nat → F) (f0 : F) (e : LS.HC Nat F) (c : Fin size)
    (d : Fin m → Fin size) :
    (replVisited (drawsFrom t d) size m t).map (firstTaken fit f0 e) = some (some c.val) ↔
      firstOf fit f0 d = some c := by
  rw [taken_firstOf t h0 hm, Option.some.injEq]
  cases firstOf fit f0 d with
  | none => simp
  | some k => simp [Fin.ext_iff]

/-- C406: two improving neighbours are taken by the same number of sequences of draws, whatever
their fitness. -/
theorem C406_fair {F : Type} [LinearOrder F] (size m t : Nat) (h0 : 0 < size) (hm : 0 < m)
    (fit : Nat → F) (f0 : F) (e : LS.HC Nat F) (c c' : Fin size) (hc : f0 < fit c)
    (hc' : f0 < fit c') :
    Fintype.card {d : Fin m → Fin size //
      (replVisited (drawsFrom t d) size m t).map (firstTaken fit f0 e) = some (some c.val)} =
    Fintype.card {d : Fin m → Fin size //
      (replVisited (drawsFrom t d) size m t).map (firstTaken fit f0 e) = some (some c'.val)} := by
  rw [Fintype.card_subtype, Fintype.card_subtype]
  simp only [taken_some t h0 hm]
  exact firstOf_card fit f0 c c' hc hc'

/-- C406: with `b` improving neighbours, each is taken by `N` sequences of draws where
`(size - b) ^ m + b * N = size ^ m`. -/
theorem C406_count {F : Type} [LinearOrder F] (size m t : Nat) (h0 : 0 < size) (hm : 0 < m)
    (fit : Nat → F) (f0 : F) (e : LS.HC Nat F) (c : Fin size) (hc : f0 < fit c) :
    (size - (Finset.univ.filter (fun k : Fin size => f0 < fit k)).card) ^ m +
      (Finset.univ.filter (fun k : Fin size => f0 < fit k)).card *
        Fintype.card {d : Fin m → Fin size //
          (replVisited (drawsFrom t d) size m t).map (firstTaken fit f0 e) = some (some c.val)} =
      size ^ m := by
  rw [Fintype.card_subtype]
  simp only [taken_some t h0 hm]
  have hall : (Finset.univ : Finset (Fin m → Fin size)).card =
      ∑ o : Option (Fin size),
        (Finset.univ.filter (fun d : Fin m → Fin size => firstOf fit f0 d = o)).card :=
    Finset.card_eq_sum_card_fiberwise (fun _ _ => Finset.mem_coe.2 (Finset.mem_univ _))
  rw [Fintype.sum_option, Finset.card_univ, Fintype.card_fun, Fintype.card_fin,
    Fintype.card_fin] at hall
  rw [hall]
  congr 1
  · rw [← C405_miss size m t h0 hm, Fintype.card_subtype]
    congr 1
    ext d
    simp only [Finset.mem_filter, Finset.mem_univ, true_and]
    rw [visited_draws t h0 hm]
    simp only [firstOf, List.find?_eq_none, List.mem_ofFn, decide_eq_true_eq]
    constructor
    · rintro h x ⟨i, rfl⟩ hlt
      exact h _ rfl (d i) hlt (List.mem_ofFn.2 ⟨i, rfl⟩)
    · rintro h L hL b hb hmem
      obtain rfl := Option.some.inj hL
      obtain ⟨i, hi⟩ := List.mem_ofFn.1 hmem
      exact h b ⟨i, Fin.ext hi⟩ hb
  · rw [← Finset.sum_filter_add_sum_filter_not Finset.univ (fun k : Fin size => f0 < fit k)]
    rw [Finset.sum_congr rfl (fun k hk => firstOf_card (m := m) fit f0 k c
      (Finset.mem_filter.1 hk).2 hc), Finset.sum_const, smul_eq_mul]
    symm
    rw [Nat.add_eq_left]
    apply Finset.sum_eq_zero
    intro k hk
    rw [Finset.card_eq_zero, Finset.filter_eq_empty_iff]
    intro d _ hd
    have := List.find?_some hd
    exact (Finset.mem_filter.1 hk).2 (by simpa using this)

/-- Neighbours 3 and 4 of five improve: each is taken by 8 of the 25 pairs of draws. -/
example : Fintype.card {d : Fin 2 → Fin 5 //
    (replVisited (drawsFrom 0 d) 5 2 0).map (firstTaken (fun k => k) 2 ⟨none, [], true, 0⟩) =
      some (some (3 : Fin 5).val)} = 8 := by
  have := C406_count 5 2 0 (by decide) (by decide) (fun k => k) 2 ⟨none, [], true, 0⟩ 3 (by decide)
  have hb : (Finset.univ.filter (fun k : Fin 5 => 2 < k.val)).card = 2 := by decide
  rw [hb] at this
  omega

end Paradiseo.Nbh
