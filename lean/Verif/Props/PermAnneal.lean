/-
Property C385: annealing at a fixed temperature and Metropolis-Hastings walks on permutations, with the moves of the
library, converge in law.
-/
import Verif.Props.MetropolisLimit
import Verif.Props.Connected
import Mathlib.Data.Fintype.Perm

namespace Paradiseo.LS

open Finset Filter Topology
open Paradiseo.Nbh (swapMove swapIndex swapKey shiftMove shiftIndex shiftKey shiftMoveBack twoOptMove swapMove_apply C15_swap
  C15_shift C15_shift_spec C15_twoOpt C13_swap_key_bijection C14_shift_key_bijection C378_swap C378_twoOpt C378_shift C378_indexed_swap)

variable {n : Nat} {M : Type}

/-- The array that stores a permutation. -/
def arr (σ : Equiv.Perm (Fin n)) (i : Nat) : Nat := if h : i < n then σ ⟨i, h⟩ else i

/-- `app` does to permutations what the moves `mv` do to the arrays that store them. -/
def Implements (mv : M → (Nat → Nat) → Nat → Nat) (app : M → Equiv.Perm (Fin n) → Equiv.Perm (Fin n)) : Prop :=
  ∀ m σ, ∀ l < n, arr (app m σ) l = mv m (arr σ) l

/-- What the walks need of the moves. -/
structure PermMoves (n : Nat) (mv : M → (Nat → Nat) → Nat → Nat) : Prop where
  keep : ∀ m a, ((List.range n).map (mv m a)).Perm ((List.range n).map a)
  loc : ∀ m a a', (∀ l < n, a l = a' l) → ∀ l < n, mv m a l = mv m a' l
  back : ∃ inv : M → M, (∀ m, inv (inv m) = m) ∧ ∀ m a, ∀ l < n, mv (inv m) (mv m a) l = a l
  reach : ∀ a b : Nat → Nat, ((List.range n).map a).Perm ((List.range n).map b) →
    ∃ ms : List M, ∀ l < n, ms.foldl (fun a m => mv m a) a l = b l

theorem arr_inj {σ τ : Equiv.Perm (Fin n)} (h : ∀ l < n, arr σ l = arr τ l) : σ = τ := by
  ext i
  have := h i.1 i.2
  simpa only [arr, i.2, dif_pos] using this

theorem arr_range (σ : Equiv.Perm (Fin n)) : ((List.range n).map (arr σ)).Perm (List.range n) := by
  refine (List.perm_ext_iff_of_nodup (List.Nodup.map_on ?_ List.nodup_range) List.nodup_range).2 ?_
  · intro i hi j hj h
    rw [List.mem_range] at hi hj
    simp only [arr, hi, hj, dif_pos] at h
    have := σ.injective (Fin.ext h)
    exact congrArg Fin.val this
  · intro v
    simp only [List.mem_map, List.mem_range]
    constructor
    · rintro ⟨i, hi, rfl⟩
      simp [arr, hi]
    · intro hv
      refine ⟨(σ.symm ⟨v, hv⟩).1, (σ.symm ⟨v, hv⟩).2, ?_⟩
      simp [arr]

/-- The moves are operations on permutations. -/
theorem exists_implements {mv : M → (Nat → Nat) → Nat → Nat} (h : PermMoves n mv) :
    ∃ app : M → Equiv.Perm (Fin n) → Equiv.Perm (Fin n), Implements mv app := by
  have key : ∀ m (σ : Equiv.Perm (Fin n)), ∃ τ : Equiv.Perm (Fin n), ∀ l < n, arr τ l = mv m (arr σ) l := by
    intro m σ
    have hp := (h.keep m (arr σ)).trans (arr_range σ)
    have hlt : ∀ l < n, mv m (arr σ) l < n := by
      intro l hl
      have := hp.mem_iff.1 (List.mem_map_of_mem (f := mv m (arr σ)) (List.mem_range.2 hl))
      simpa using this
    have hinj : Function.Injective fun i : Fin n => (⟨mv m (arr σ) i.1, hlt i.1 i.2⟩ : Fin n) := by
      intro i j hij
      have hnd := hp.nodup_iff.2 List.nodup_range
      have := List.inj_on_of_nodup_map hnd (List.mem_range.2 i.2) (List.mem_range.2 j.2) (congrArg Fin.val hij)
      exact Fin.ext this
    refine ⟨Equiv.ofBijective _ (Finite.injective_iff_bijective.1 hinj), fun l hl => ?_⟩
    simp [arr, hl]
  choose app happ using key
  exact ⟨app, happ⟩

theorem symmetric_of [Fintype M] {S : Type} [Fintype S] [DecidableEq S] (app : M → S → S) (inv : M → M)
    (hi : ∀ m, inv (inv m) = m) (h : ∀ m x, app (inv m) (app m x) = x) : SymmetricMoves app := by
  intro x y
  refine card_bij' (fun m _ => inv m) (fun m _ => inv m) ?_ ?_ (fun m _ => hi m) (fun m _ => hi m)
  · intro m hm
    simp only [mem_filter, mem_univ, true_and] at hm ⊢
    rw [← hm]; exact h m x
  · intro m hm
    simp only [mem_filter, mem_univ, true_and] at hm ⊢
    rw [← hm]; exact h m y

theorem perm_symmetric [Fintype M] {mv : M → (Nat → Nat) → Nat → Nat} (h : PermMoves n mv)
    {app : M → Equiv.Perm (Fin n) → Equiv.Perm (Fin n)} (ha : Implements mv app) : SymmetricMoves app := by
  obtain ⟨inv, hi, hb⟩ := h.back
  refine symmetric_of app inv hi fun m σ => arr_inj fun l hl => ?_
  rw [ha _ _ l hl, h.loc _ _ _ (ha m σ) l hl, hb m _ l hl]

theorem perm_connected {mv : M → (Nat → Nat) → Nat → Nat} (h : PermMoves n mv)
    {app : M → Equiv.Perm (Fin n) → Equiv.Perm (Fin n)} (ha : Implements mv app) : ConnectedMoves app := by
  intro σ τ
  obtain ⟨ms, hms⟩ := h.reach (arr σ) (arr τ) ((arr_range σ).trans (arr_range τ).symm)
  have key : ∀ (ms : List M) (σ : Equiv.Perm (Fin n)) (a : Nat → Nat), (∀ l < n, arr σ l = a l) →
      ∃ τ, (∀ l < n, arr τ l = ms.foldl (fun a m => mv m a) a l) ∧
        Relation.ReflTransGen (fun a b => ∃ m, app m a = b) σ τ := by
    intro ms
    induction ms with
    | nil => exact fun σ a h => ⟨σ, h, .refl⟩
    | cons m ms ih =>
      intro σ a hσ
      obtain ⟨τ, h1, h2⟩ := ih (app m σ) (mv m a) fun l hl => by
        rw [ha m σ l hl]; exact h.loc m _ _ hσ l hl
      exact ⟨τ, h1, .head ⟨m, rfl⟩ h2⟩
  obtain ⟨τ', h1, h2⟩ := key ms σ (arr σ) fun _ _ => rfl
  rwa [arr_inj fun l hl => (h1 l hl).trans (hms l hl)] at h2

/-- Spec: on the permutations of `n` elements, with the moves `mv`, annealing at a fixed temperature converges in law to the
Boltzmann distribution and the Metropolis-Hastings walk to the distribution proportional to the fitness, from every start, for
every fitness function that is not constant. -/
def WalksConverge (n : Nat) [Fintype M] (mv : M → (Nat → Nat) → Nat → Nat) : Prop :=
  ∀ app : M → Equiv.Perm (Fin n) → Equiv.Perm (Fin n), Implements mv app →
    ∀ f : Equiv.Perm (Fin n) → ℝ, (∃ x y, f x ≠ f y) → ∀ x y : Equiv.Perm (Fin n),
      (∀ (C : Type) (cool : Cooling C) (e : SA M C), 0 < e.temp.1 →
        Tendsto (fun t => runProb (saStep (· < ·) cool f app e) t x y) atTop
          (𝓝 (Real.exp (f y / e.temp.1) / ∑ z, Real.exp (f z / e.temp.1))) ∧
        Tendsto (fun t => runProb (saStep (· > ·) cool f app e) t x y) atTop
          (𝓝 (Real.exp (- f y / e.temp.1) / ∑ z, Real.exp (- f z / e.temp.1)))) ∧
      ∀ (nbStep : Nat) (e : HC M ℝ), (∀ z, 0 < f z) →
        Tendsto (fun t => runProb (mhStep nbStep f app e) t x y) atTop (𝓝 (f y / ∑ z, f z))

theorem converge_of [Fintype M] [Nonempty M] {mv : M → (Nat → Nat) → Nat → Nat} (h : PermMoves n mv) : WalksConverge n mv := by
  intro app ha f hf x y
  have hs := perm_symmetric h ha
  have hc := perm_connected h ha
  exact ⟨fun C cool e hT => ⟨C383_annealing cool f app hs hc hf e hT x y, C383_annealing_min cool f app hs hc hf e hT x y⟩,
    fun nbStep e hp => C383_metropolis nbStep f hp hf app hs hc e x y⟩

/-! ### The moves of the library -/

/-- The swap with a key of the indexed swap neighbourhood. -/
def keySwap (n : Nat) (k : Fin (n * (n - 1) / 2)) (a : Nat → Nat) : Nat → Nat :=
  swapMove a (swapIndex n k).1 (swapIndex n k).2

/-- The shift with a key of the shift neighbourhood. -/
def keyShift (n : Nat) (k : Fin (n * (n - 1))) (a : Nat → Nat) : Nat → Nat := shiftMove a (shiftIndex n k)

/-- The inversion of a part. -/
def pairInvert (n : Nat) (p : {p : Fin n × Fin n // p.1 < p.2}) (a : Nat → Nat) : Nat → Nat := twoOptMove a p.1.1 p.1.2

theorem keySwap_moves (hn : 2 ≤ n) (hb : 1 + 8 * (n * (n - 1) / 2) < 2 ^ 32) : PermMoves n (keySwap n) := by
  have hk := (C13_swap_key_bijection n hn hb).1
  refine ⟨fun m a => ?_, fun m a a' h l hl => ?_, ⟨id, fun _ => rfl, fun m a l _ => ?_⟩, fun a b hp => ?_⟩
  · obtain ⟨h1, h2, -⟩ := hk m m.2
    exact (C15_swap n a _ _ (by omega) h2).2.1
  · obtain ⟨h1, h2, -⟩ := hk m m.2
    simp only [keySwap, swapMove_apply]
    rw [h _ h2, h _ (by omega), h l hl]
  · obtain ⟨h1, h2, -⟩ := hk m m.2
    simp only [keySwap, id]
    rw [(C15_swap n a _ _ (by omega) h2).1]
  · obtain ⟨keys, -, h2, h3⟩ := C378_indexed_swap n hb a b hp
    refine ⟨keys.pmap (fun k h => ⟨k, h⟩) h2, fun l hl => ?_⟩
    rw [← h3 l hl]
    refine congrFun ?_ l
    clear h3 hp
    induction keys generalizing a with
    | nil => rfl
    | cons k keys ih =>
      simp only [List.pmap_cons, List.foldl_cons]
      exact ih _ _

theorem keyShift_moves (hn : 2 ≤ n) : PermMoves n (keyShift n) := by
  obtain ⟨hk, hk'⟩ := C14_shift_key_bijection n (by omega)
  have loc : ∀ f s, f < n → s ≤ n → ∀ a a' : Nat → Nat, (∀ l < n, a l = a' l) →
      ∀ l < n, shiftMove a (f, s) l = shiftMove a' (f, s) l := by
    intro f s hf hs a a' h l hl
    have e : (List.range n).map a = (List.range n).map a' := List.map_congr_left fun i hi => h i (List.mem_range.1 hi)
    have := C15_shift_spec n a f s hf hs
    rw [e, h f hf, ← C15_shift_spec n a' f s hf hs] at this
    exact List.map_inj_left.1 this l (List.mem_range.2 hl)
  -- the pair that undoes a shift
  let b : Nat × Nat → Nat × Nat := fun p => if p.1 < p.2 then (p.2 - 1, p.1) else (p.2, p.1 + 1)
  have hb : ∀ p : Nat × Nat, p.1 < n → p.2 ≤ n → p.2 ≠ p.1 → p.2 ≠ p.1 + 1 →
      (b p).1 < n ∧ (b p).2 ≤ n ∧ (b p).2 ≠ (b p).1 ∧ (b p).2 ≠ (b p).1 + 1 ∧ b (b p) = p := by
    rintro ⟨f, s⟩ h1 h2 h3 h4
    simp only at h1 h2 h3 h4
    simp only [b]
    by_cases h : f < s
    · simp only [h, if_true]
      rw [if_neg (by omega)]
      refine ⟨by omega, by omega, by omega, by omega, ?_⟩
      simp only [Prod.mk.injEq, true_and]; omega
    · simp only [h, if_false]
      rw [if_pos (by omega)]
      refine ⟨by omega, by omega, by omega, by omega, ?_⟩
      simp only [Prod.mk.injEq, and_true]; omega
  have hmb : ∀ (a : Nat → Nat) p, shiftMoveBack a p = shiftMove a (b p) := by
    intro a p
    simp only [shiftMoveBack, shiftMove, b]
    split_ifs <;> rfl
  let inv : Fin (n * (n - 1)) → Fin (n * (n - 1)) := fun k =>
    ⟨shiftKey n (b (shiftIndex n k)).1 (b (shiftIndex n k)).2, by
      obtain ⟨h1, h2, h3, h4, -⟩ := hk k k.2
      obtain ⟨g1, g2, g3, g4, -⟩ := hb _ h1 h2 h3 h4
      exact (hk' _ _ g1 g2 g3 g4).1⟩
  have hinv : ∀ k, shiftIndex n (inv k) = b (shiftIndex n k) := by
    intro k
    obtain ⟨h1, h2, h3, h4, -⟩ := hk k k.2
    obtain ⟨g1, g2, g3, g4, -⟩ := hb _ h1 h2 h3 h4
    exact (hk' _ _ g1 g2 g3 g4).2
  refine ⟨fun m a => ?_, fun m a a' h => ?_, ⟨inv, fun m => ?_, fun m a l _ => ?_⟩, fun a b' hp => ?_⟩
  · obtain ⟨h1, h2, -⟩ := hk m m.2
    exact (C15_shift n a _ _ h1 h2).2
  · obtain ⟨h1, h2, -⟩ := hk m m.2
    exact loc _ _ h1 h2 a a' h
  · obtain ⟨h1, h2, h3, h4, h5⟩ := hk m m.2
    apply Fin.ext
    show shiftKey n (b (shiftIndex n (inv m))).1 (b (shiftIndex n (inv m))).2 = m
    rw [hinv, (hb _ h1 h2 h3 h4).2.2.2.2, h5]
  · obtain ⟨h1, h2, -⟩ := hk m m.2
    simp only [keyShift]
    rw [hinv, ← hmb]
    exact congrFun (C15_shift n a _ _ h1 h2).1 l
  · obtain ⟨keys, -, h2, h3⟩ := C378_shift n a b' hp
    refine ⟨keys.pmap (fun k h => ⟨k, h⟩) h2, fun l hl => ?_⟩
    rw [← h3 l hl]
    refine congrFun ?_ l
    clear h3 hp
    induction keys generalizing a with
    | nil => rfl
    | cons k keys ih =>
      simp only [List.pmap_cons, List.foldl_cons]
      exact ih _ _

theorem pairInvert_moves (n : Nat) : PermMoves n (pairInvert n) := by
  refine ⟨fun m a => ?_, fun m a a' h l hl => ?_, ⟨id, fun _ => rfl, fun m a l _ => ?_⟩, fun a b hp => ?_⟩
  · exact (C15_twoOpt n a _ _ (le_of_lt m.2) m.1.2.2).2.2
  · simp only [pairInvert]
    rw [(C15_twoOpt n a _ _ (le_of_lt m.2) m.1.2.2).1, (C15_twoOpt n a' _ _ (le_of_lt m.2) m.1.2.2).1]
    have := m.1.2.2
    split_ifs with hc
    · exact h _ (by omega)
    · exact h l hl
  · simp only [pairInvert, id]
    rw [(C15_twoOpt n a _ _ (le_of_lt m.2) m.1.2.2).2.1]
  · obtain ⟨ms, -, h2, h3⟩ := C378_twoOpt n a b hp
    refine ⟨ms.pmap (fun p (h : p.1 < p.2 ∧ p.2 < n) => ⟨(⟨p.1, by omega⟩, ⟨p.2, h.2⟩), h.1⟩) h2, fun l hl => ?_⟩
    rw [← h3 l hl]
    refine congrFun ?_ l
    clear h3 hp
    induction ms generalizing a with
    | nil => rfl
    | cons k keys ih =>
      simp only [List.pmap_cons, List.foldl_cons]
      exact ih _ _

/-! ### C385 -/

/-- C385: swaps given by uniformly drawn keys (as long as the keys do not overflow). -/
theorem C385_swap (hn : 2 ≤ n) (hb : 1 + 8 * (n * (n - 1) / 2) < 2 ^ 32) : WalksConverge n (keySwap n) := by
  have h2 : 1 ≤ n * (n - 1) / 2 := by
    have : 2 * 1 ≤ n * (n - 1) := Nat.mul_le_mul hn (by omega)
    omega
  haveI : Nonempty (Fin (n * (n - 1) / 2)) := ⟨⟨0, by omega⟩⟩
  exact converge_of (keySwap_moves hn hb)

/-- C385: shifts given by uniformly drawn keys. -/
theorem C385_shift (hn : 2 ≤ n) : WalksConverge n (keyShift n) := by
  have h2 : 2 * 1 ≤ n * (n - 1) := Nat.mul_le_mul hn (by omega)
  haveI : Nonempty (Fin (n * (n - 1))) := ⟨⟨0, by omega⟩⟩
  exact converge_of (keyShift_moves hn)

/-- C385: inversions of a part, the pair of ends drawn uniformly. -/
theorem C385_twoOpt (hn : 2 ≤ n) : WalksConverge n (pairInvert n) := by
  haveI : Nonempty {p : Fin n × Fin n // p.1 < p.2} := ⟨⟨(⟨0, by omega⟩, ⟨1, by omega⟩), by simp [Fin.lt_def]⟩⟩
  exact converge_of (pairInvert_moves n)

/-- C385: the moves are operations on permutations, so the statements are about something. -/
theorem C385_implemented (hn : 2 ≤ n) (hb : 1 + 8 * (n * (n - 1) / 2) < 2 ^ 32) :
    (∃ app : _ → Equiv.Perm (Fin n) → _, Implements (keySwap n) app) ∧
    (∃ app : _ → Equiv.Perm (Fin n) → _, Implements (keyShift n) app) ∧
    ∃ app : _ → Equiv.Perm (Fin n) → _, Implements (pairInvert n) app :=
  ⟨exists_implements (keySwap_moves hn hb), exists_implements (keyShift_moves hn), exists_implements (pairInvert_moves n)⟩

example : (2 ≤ 20 ∧ 1 + 8 * (20 * (20 - 1) / 2) < 2 ^ 32) ∧
    ∃ f : Equiv.Perm (Fin 20) → ℝ, (∃ x y, f x ≠ f y) ∧ ∀ z, 0 < f z := by
  refine ⟨by norm_num, fun σ => (σ 0).1 + 1, ⟨1, Equiv.swap 0 1, ?_⟩, fun z => by positivity⟩
  simp

end Paradiseo.LS
