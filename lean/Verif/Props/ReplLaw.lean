import Verif.Props.Neighborhood
import Verif.Lemmas.LocalSearch
import Mathlib.Data.Fintype.BigOperators
import Mathlib.Data.Fintype.Pi
import Mathlib.Data.Fintype.Card

/-!
# C405: the law of an exploration with replacement

`moRndWithReplNeighborhood` (mo/src/neighborhood/moRndWithReplNeighborhood.h:80-105) draws a key
uniformly at each step. C11 says how many neighbours are visited. Here: which ones. The draws of one
exploration are `m` numbers below `size`; all `size ^ m` sequences are equally likely.
-/

namespace Paradiseo.Nbh

/-- The generator whose draws, from position `t` on, are those of `d` (and `0` elsewhere). -/
def drawsFrom {size m : Nat} (t : Nat) (d : Fin m → Fin size) (j : Nat) : Nat :=
  if h : j - t < m then (d ⟨j - t, h⟩).val else 0

/-- What one exploration visits, `none` if it does not end. -/
def replVisited (r : Nat → Nat) (size m t : Nat) : Option (List Nat) :=
  match replExplore r size m t m with
  | .ok (L, _) => some L
  | .error _ => none

theorem repl_visit_keys (r : Nat → Nat) (size m : Nat) (h0 : 0 < size) :
    ∀ (k : Nat) (s : ReplState), s.nNeighbors + k = m → 0 < s.nNeighbors →
      ∃ e, visit (replNext r size) (replCont size m) (·.key) (k + 1) s =
        .ok (s.key :: (List.range k).map (fun i => r (s.t + i) % size), e) := by
  intro k
  induction k with
  | zero =>
    intro s hk hn
    refine ⟨s, visit_stop _ _ ?_⟩
    have hm : m ≠ 0 := by omega
    simp [replCont, hm]; omega
  | succ k ih =>
    intro s hk hn
    obtain ⟨e, h1⟩ := ih ⟨s.nNeighbors + 1, r s.t % size, s.t + 1⟩ (by simp; omega) (by simp)
    refine ⟨e, visit_step _ _ _ _ _ ?_ rfl ?_⟩
    · have hm : m ≠ 0 := by omega
      simp [replCont, hm, h0]; omega
    · rw [h1, List.range_succ_eq_map, List.map_cons, List.map_map]
      congr 4
      funext i
      simp only [Function.comp, Nat.succ_eq_add_one]
      congr 2
      omega

/-- C405: the neighbours visited are the keys drawn, in the order of the draws. -/
theorem C405_visited (r : Nat → Nat) (size m t : Nat) (h0 : 0 < size) (hm : 0 < m) :
    replVisited r size m t = some ((List.range m).map (fun i => r (t + i) % size)) := by
  obtain ⟨k, rfl⟩ : ∃ k, m = k + 1 := ⟨m - 1, by omega⟩
  obtain ⟨e, h⟩ := repl_visit_keys r size (k + 1) h0 k (replInit r size t)
    (by simp [replInit]; omega) (by simp [replInit])
  unfold replVisited replExplore
  rw [h]
  simp only [replInit, Option.some.injEq]
  rw [List.range_succ_eq_map, List.map_cons, List.map_map]
  congr 1
  apply List.map_congr_left
  intro i _
  simp only [Function.comp, Nat.succ_eq_add_one]
  congr 2
  omega

/-- The neighbours visited when the draws are `d` are the values of `d`. -/
theorem visited_draws {size m : Nat} (t : Nat) (h0 : 0 < size) (hm : 0 < m)
    (d : Fin m → Fin size) :
    replVisited (drawsFrom t d) size m t = some (List.ofFn (fun i => (d i).val)) := by
  rw [C405_visited _ _ _ _ h0 hm]
  congr 1
  apply List.ext_getElem
  · simp
  · intro i h1 h2
    have hi : i < m := by simpa using h1
    simp [drawsFrom, hi, Nat.mod_eq_of_lt (d ⟨i, hi⟩).isLt]

/-- C405: every sequence of `m` neighbours is visited by exactly one of the `size ^ m` sequences of
draws: the exploration is uniform over the sequences of neighbours. -/
theorem C405_uniform (size m t : Nat) (h0 : 0 < size) (hm : 0 < m) (L : List Nat)
    (hL : L.length = m) (hk : ∀ k ∈ L, k < size) :
    ∃! d : Fin m → Fin size, replVisited (drawsFrom t d) size m t = some L := by
  subst hL
  refine ⟨fun i => ⟨L[i], hk _ (List.getElem_mem _)⟩, ?_, ?_⟩
  · simp only
    rw [visited_draws t h0 hm]
    simp
  · intro d hd
    rw [visited_draws t h0 hm, Option.some.injEq] at hd
    funext i
    apply Fin.ext
    have : (List.ofFn (fun i => (d i).val))[i.val]? = L[i.val]? := by rw [hd]
    simpa using this

/-- C405: the exploration meets none of the neighbours of `B` (say, those that improve) for exactly
`(size - |B|) ^ m` of the `size ^ m` sequences of draws. -/
theorem C405_miss (size m t : Nat) (h0 : 0 < size) (hm : 0 < m) (B : Finset (Fin size)) :
    Fintype.card {d : Fin m → Fin size //
      ∀ L, replVisited (drawsFrom t d) size m t = some L → ∀ b ∈ B, b.val ∉ L} =
      (size - B.card) ^ m := by
  have e : ∀ d : Fin m → Fin size,
      (∀ L, replVisited (drawsFrom t d) size m t = some L → ∀ b ∈ B, b.val ∉ L) ↔
        ∀ i, d i ∈ Bᶜ := by
    intro d
    rw [visited_draws t h0 hm]
    constructor
    · intro h i
      rw [Finset.mem_compl]
      intro hb
      exact h _ rfl _ hb (by simp)
    · rintro h L hL b hb hmem
      obtain rfl := Option.some.inj hL
      simp only [List.mem_ofFn] at hmem
      obtain ⟨i, hi⟩ := hmem
      have := Finset.mem_compl.1 (h i)
      rw [Fin.ext hi] at this
      exact this hb
  have e2 : {d : Fin m → Fin size //
      ∀ L, replVisited (drawsFrom t d) size m t = some L → ∀ b ∈ B, b.val ∉ L} ≃
      {d : Fin m → Fin size // ∀ i, d i ∈ Bᶜ} := Equiv.subtypeEquivRight e
  rw [Fintype.card_congr e2, Fintype.card_congr (Equiv.subtypePiEquivPi)]
  simp [Fintype.card_pi]

/-- C405: hence, unless every neighbour is in `B`, no bound on the number of draws excludes a miss:
an explorer that stops when it saw no improving neighbour may stop where one exists. -/
theorem C405_never_sure (size m t : Nat) (h0 : 0 < size) (hm : 0 < m) (B : Finset (Fin size))
    (hB : B.card < size) :
    ∃ r : Nat → Nat, ∃ L, replVisited r size m t = some L ∧ L.length = m ∧
      ∀ b ∈ B, b.val ∉ L := by
  obtain ⟨c, hc⟩ : ∃ c, c ∉ B := by
    by_contra h
    push Not at h
    have : B = Finset.univ := Finset.eq_univ_iff_forall.2 h
    rw [this] at hB
    simp at hB
  refine ⟨drawsFrom t (fun _ : Fin m => c), _, visited_draws t h0 hm _, by simp, ?_⟩
  intro b hb hmem
  simp only [List.mem_ofFn] at hmem
  obtain ⟨_, hi⟩ := hmem
  rw [Fin.ext hi] at hc
  exact hc hb

/-- Three draws among five neighbours, two of which improve. -/
example : Fintype.card {d : Fin 3 → Fin 5 //
    ∀ L, replVisited (drawsFrom 7 d) 5 3 7 = some L → ∀ b ∈ ({1, 4} : Finset (Fin 5)), b.val ∉ L} =
      27 := by
  rw [C405_miss 5 3 7 (by decide) (by decide)]
  rfl

example : replVisited (drawsFrom 2 (![4, 0, 4] : Fin 3 → Fin 5)) 5 3 2 = some [4, 0, 4] := by
  decide +kernel

/-- One iteration of the simple hill climber (`moLocalSearch` with `moSimpleHCexplorer`) from a
solution of fitness `f0`, when the exploration visits the neighbours `L` and neighbour `k` has
fitness `fit k`: does it move? -/
def climbs {F : Type} [LinearOrder F] (fit : Nat → F) (f0 : F) (e : LS.HC Nat F) (L : List Nat) :
    Bool :=
  let X := LS.simpleHC (fun _ (_ : Unit × F) => L.map (fun k => (⟨k, fit k⟩ : LS.Cand Nat F)))
    (fun _ s => s)
  let p := X.explore 0 ((), f0) e
  (X.accept 0 p.1 p.2).1

theorem climbs_iff {F : Type} [LinearOrder F] (fit : Nat → F) (f0 : F) (e : LS.HC Nat F)
    (L : List Nat) (hL : L ≠ []) : climbs fit f0 e L = true ↔ ∃ k ∈ L, f0 < fit k := by
  obtain ⟨c, l, rfl⟩ := List.exists_cons_of_ne_nil hL
  simp only [climbs, LS.simpleHC, List.map_cons, decide_eq_true_eq]
  constructor
  · intro h
    have := LS.simpleSelect_mem (⟨c, fit c⟩ : LS.Cand Nat F)
      (l.map (fun k => (⟨k, fit k⟩ : LS.Cand Nat F)))
    rw [← List.map_cons (f := fun k => (⟨k, fit k⟩ : LS.Cand Nat F)), List.mem_map] at this
    obtain ⟨k, hk, he⟩ := this
    rw [← he] at h
    exact ⟨k, hk, h⟩
  · rintro ⟨k, hk, h⟩
    have hs := LS.simpleSelect_ge (⟨c, fit c⟩ : LS.Cand Nat F)
      (l.map (fun k => (⟨k, fit k⟩ : LS.Cand Nat F)))
    rcases List.mem_cons.1 hk with rfl | hk
    · exact lt_of_lt_of_le h hs.1
    · exact lt_of_lt_of_le h (hs.2 _ (List.mem_map.2 ⟨k, hk, rfl⟩))

/-- C405: a simple hill climber on such an exploration stops, though `b` of the `size` neighbours
improve, for exactly `(size - b) ^ m` of the `size ^ m` sequences of draws. -/
theorem C405_climber {F : Type} [LinearOrder F] (size m t : Nat) (h0 : 0 < size) (hm : 0 < m)
    (fit : Nat → F) (f0 : F) (e : LS.HC Nat F) :
    Fintype.card {d : Fin m → Fin size //
      (replVisited (drawsFrom t d) size m t).map (climbs fit f0 e) = some false} =
      (size - (Finset.univ.filter (fun k : Fin size => f0 < fit k)).card) ^ m := by
  rw [← C405_miss size m t h0 hm]
  apply Fintype.card_congr
  apply Equiv.subtypeEquivRight
  intro d
  rw [visited_draws t h0 hm]
  have hne : List.ofFn (fun i => (d i).val) ≠ [] := by
    intro h
    have := congrArg List.length h
    simp at this
    omega
  rw [Option.map_some, Option.some.injEq, ← Bool.not_eq_true, climbs_iff _ _ _ _ hne]
  constructor
  · rintro h L hL b hb hmem
    obtain rfl := Option.some.inj hL
    exact h ⟨_, hmem, (Finset.mem_filter.1 hb).2⟩
  · rintro h ⟨k, hk, hlt⟩
    obtain ⟨i, rfl⟩ := List.mem_ofFn.1 hk
    exact h _ rfl (d i) (Finset.mem_filter.2 ⟨Finset.mem_univ _, hlt⟩) hk

/-- Neighbours 3 and 4 of five improve: the climber stops for 9 of the 25 pairs of draws. -/
example : Fintype.card {d : Fin 2 → Fin 5 //
    (replVisited (drawsFrom 0 d) 5 2 0).map (climbs (fun k => k) 2 ⟨none, [], true, 0⟩) =
      some false} = 9 := by
  rw [C405_climber 5 2 0 (by decide) (by decide)]
  rfl

end Paradiseo.Nbh
