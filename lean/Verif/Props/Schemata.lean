/-
Property C404: what bit-flip mutation, uniform and one-point crossover do to schemata.
-/
import Verif.Props.BitLaw

open Finset

namespace Paradiseo.Ops
open Paradiseo.EO (flipsOf flipProb)

/-- A schema gives some bits and leaves the others open; a string fits if it has the given bits. -/
def Fits (σ : List (Option Bool)) (x : List Bool) : Prop := x.length = σ.length ∧ ∀ (i : Nat) b, σ[i]? = some (some b) → x[i]? = some b

/-- The number of given bits that a string has. -/
def hits (σ : List (Option Bool)) (x : List Bool) : Nat := (List.zipWith (fun s a => decide (s = some a)) σ x).count true
/-- The number of given bits that it has not. -/
def misfits (σ : List (Option Bool)) (x : List Bool) : Nat := (List.zipWith (fun s a => decide (s = some (!a))) σ x).count true
/-- The number of given bits. -/
def order (σ : List (Option Bool)) : Nat := σ.countP Option.isSome

theorem fits_cons (s : Option Bool) (σ : List (Option Bool)) (a : Bool) (x : List Bool) :
    Fits (s :: σ) (a :: x) ↔ s ≠ some (!a) ∧ Fits σ x := by
  constructor
  · rintro ⟨h1, h2⟩
    refine ⟨?_, by simpa using h1, fun i b h => by simpa using h2 (i + 1) b (by simpa using h)⟩
    rintro rfl
    have := h2 0 (!a) rfl
    cases a <;> simp at this
  · rintro ⟨h1, h2, h3⟩
    refine ⟨by simpa using h2, fun i b h => ?_⟩
    cases i with
    | zero =>
      have h : s = some b := by simpa using h
      subst h
      cases a <;> cases b <;> simp at h1 ⊢
    | succ i => simpa using h3 i b (by simpa using h)

theorem fits_misfits (σ : List (Option Bool)) (x : List Bool) (hx : x.length = σ.length) :
    (Fits σ x ↔ misfits σ x = 0) ∧ hits σ x + misfits σ x = order σ := by
  induction σ generalizing x with
  | nil =>
    cases x with
    | nil => exact ⟨by simp [Fits, misfits], rfl⟩
    | cons => simp at hx
  | cons s σ ih =>
    cases x with
    | nil => simp at hx
    | cons a x =>
      obtain ⟨h1, h2⟩ := ih x (by simpa using hx)
      rw [fits_cons, h1]
      unfold hits misfits order at *
      simp only [List.zipWith_cons_cons, List.count_cons, List.countP_cons]
      rcases s with - | b
      · simp; omega
      · cases a <;> cases b <;> simp <;> omega

open Classical in
/-- **C404** (mutation).  The mutant of a string that has `k` of the given bits and lacks `m` fits the schema with probability
`p^m (1-p)^k`. -/
theorem C404_mutation (p : ℝ) (σ : List (Option Bool)) (x : List Bool) (hx : x.length = σ.length) :
    ∑ φ : Fin x.length → Bool with Fits σ (bitMutation (flipsOf φ) x).1, flipProb p φ = p ^ misfits σ x * (1 - p) ^ hits σ x := by
  rw [sum_filter]
  induction x generalizing σ with
  | nil =>
    cases σ with
    | nil => simp [bitMutation, bitMutationAux, flipProb, Fits, misfits, hits]
    | cons => simp at hx
  | cons a x ih =>
    cases σ with
    | nil => simp at hx
    | cons s σ =>
      have ih := ih σ (by simpa using hx)
      have hstep : ∀ (f : Bool) (φ : Fin x.length → Bool),
          (bitMutation (flipsOf (Fin.cons f φ : Fin (x.length + 1) → Bool)) (a :: x)).1 =
            (if f then !a else a) :: (bitMutation (flipsOf φ) x).1 := by
        intro f φ
        have e : (fun k => flipsOf (Fin.cons f φ : Fin (x.length + 1) → Bool) (k + 1)) = flipsOf φ :=
          funext fun k => flipsOf_cons_succ f φ k
        simp only [bitMutation, bitMutationAux, flipsOf_cons_zero, bitMutationAux_shift, e]
        cases f <;> rfl
      show ∑ φ : Fin (x.length + 1) → Bool, _ = _
      rw [sum_flips]
      simp only [hstep, fits_cons, flipProb_cons, if_true, Bool.false_eq_true, if_false]
      have key : ∀ (P : Prop) [Decidable P] (q : ℝ), (∑ φ : Fin x.length → Bool,
          if P ∧ Fits σ (bitMutation (flipsOf φ) x).1 then q * flipProb p φ else 0) =
          if P then q * (p ^ misfits σ x * (1 - p) ^ hits σ x) else 0 := by
        intro P _ q
        rw [← ih]
        by_cases hP : P
        · simp only [hP, true_and, if_true, mul_sum]
          exact sum_congr rfl fun φ _ => by split_ifs <;> simp
        · simp [hP]
      rw [key, key]
      unfold misfits hits
      simp only [List.zipWith_cons_cons, List.count_cons]
      rcases s with - | b
      · simp; ring
      · cases a <;> cases b <;> simp [pow_succ] <;> ring

open Classical in
/-- **C404** (mutation of a string that fits).  It still does with probability `(1-p)^o` for a schema of `o` given bits. -/
theorem C404_mutation_keeps (p : ℝ) (σ : List (Option Bool)) (x : List Bool) (hx : Fits σ x) :
    ∑ φ : Fin x.length → Bool with Fits σ (bitMutation (flipsOf φ) x).1, flipProb p φ = (1 - p) ^ order σ := by
  obtain ⟨h1, h2⟩ := fits_misfits σ x hx.1
  have h0 := h1.1 hx
  rw [C404_mutation p σ x hx.1, h0, pow_zero, one_mul]
  congr 1
  omega

open Classical in
theorem uChild_schema (p : ℝ) (σ : List (Option Bool)) (xs ys : List Bool) (h1 : xs.length = ys.length) (hx : Fits σ xs) (m : Nat)
    (hm : m = coins xs ys) :
    ∑ φ : Fin m → Bool, (if Fits σ (uChild (flipsOf φ) 0 xs ys) then flipProb p φ else 0) = (1 - p) ^ misfits σ ys := by
  induction xs generalizing ys σ m with
  | nil =>
    cases ys with
    | cons => simp at h1
    | nil =>
      subst hm
      simp only [uChild, hx, if_true]
      rw [show misfits σ [] = 0 by simp [misfits], pow_zero]
      exact Paradiseo.EO.flipProb_sum _ p
  | cons x xs ih =>
    cases ys with
    | nil => simp at h1
    | cons y ys => cases σ with
      | nil => simp [Fits] at hx
      | cons s σ =>
        obtain ⟨hs, hx⟩ := (fits_cons _ _ _ _).1 hx
        have ih := ih σ ys (by simpa using h1) hx
        by_cases hxy : x ≠ y
        · rw [coins, if_pos hxy] at hm
          subst hm
          have ih := ih _ rfl
          rw [sum_flips]
          have hstep : ∀ (f : Bool) (φ : Fin (coins xs ys) → Bool),
              uChild (flipsOf (Fin.cons f φ : Fin (coins xs ys + 1) → Bool)) 0 (x :: xs) (y :: ys) =
                (if f then y else x) :: uChild (flipsOf φ) 0 xs ys := by
            intro f φ
            have e : (fun k => flipsOf (Fin.cons f φ : Fin (coins xs ys + 1) → Bool) (k + 1)) = flipsOf φ :=
              funext fun k => flipsOf_cons_succ f φ k
            rw [uChild, if_pos hxy, flipsOf_cons_zero, uChild_shift, e]
          simp only [hstep, fits_cons, flipProb_cons, if_true, Bool.false_eq_true, if_false]
          have key : ∀ (P : Prop) [Decidable P] (q : ℝ), (∑ φ : Fin (coins xs ys) → Bool,
              if P ∧ Fits σ (uChild (flipsOf φ) 0 xs ys) then q * flipProb p φ else 0) =
              if P then q * (1 - p) ^ misfits σ ys else 0 := by
            intro P _ q
            rw [← ih]
            by_cases hP : P
            · simp only [hP, true_and, if_true, mul_sum]
              exact sum_congr rfl fun φ _ => by split_ifs <;> simp
            · simp [hP]
          rw [key, key]
          unfold misfits
          simp only [List.zipWith_cons_cons, List.count_cons]
          rcases s with - | b
          · simp; ring
          · cases x <;> cases y <;> cases b <;> simp [pow_succ] at hxy hs ⊢ <;> ring
        · rw [coins, if_neg hxy] at hm
          have ih := ih m hm
          push Not at hxy
          subst hxy
          simp only [uChild, ne_eq, not_true_eq_false, if_false, fits_cons, hs, not_false_eq_true, true_and]
          rw [ih]
          unfold misfits
          simp [List.count_cons, hs]

open Classical in
/-- **C404** (uniform crossover).  If the first parent fits and the second lacks `m` of the given bits, the first child fits with probability
`(1-p)^m`. -/
theorem C404_uniform (p : ℝ) (σ : List (Option Bool)) (xs ys : List Bool) (h1 : xs.length = ys.length) (hx : Fits σ xs) :
    ∑ φ : Fin (coins xs ys) → Bool with ∃ d flag, uXover (flipsOf φ) (xs, ys) = .ok (d, flag) ∧ Fits σ d.1, flipProb p φ =
      (1 - p) ^ misfits σ ys := by
  rw [← uChild_schema p σ xs ys h1 hx _ rfl, sum_filter]
  refine sum_congr rfl fun φ _ => ?_
  obtain ⟨d, flag, e1, e2⟩ := uXover_child (flipsOf φ) xs ys h1
  by_cases h : Fits σ (uChild (flipsOf φ) 0 xs ys)
  · rw [if_pos h, if_pos ⟨d, flag, e1, e2 ▸ h⟩]
  · rw [if_neg h, if_neg]
    rintro ⟨d', flag', e1', e2'⟩
    rw [e1] at e1'
    injection e1' with e1'
    injection e1' with e3 _
    exact h (e2 ▸ e3 ▸ e2')

/-! ### One point -/

theorem onePt_at (site : Nat) (c : List Bool × List Bool) (h1 : site < c.1.length) (h2 : site < c.2.length) :
    ∃ d flag, onePtXover (fun _ => site) c = .ok (d, flag) ∧ Mixed c d fun i => i < site := by
  have hr : rnd (fun _ => site) 0 (min c.1.length c.2.length) = site := by
    rw [rnd, if_neg (by omega)]
    exact Nat.mod_eq_of_lt (by omega)
  unfold onePtXover
  simp only [hr]
  by_cases h : c.1.take site ≠ c.2.take site
  · rw [if_pos h]
    obtain ⟨d, e1, e2⟩ := swapRange_ok c 0 site (by omega) (by omega)
    rw [e1]
    exact ⟨d, true, rfl, e2.congr fun i => by omega⟩
  · rw [if_neg h]
    have h' := not_not.1 h
    rw [take_eq_iff] at h'
    exact ⟨c, false, rfl, rfl, rfl, fun i hi => ⟨by omega, by omega, h' i hi, (h' i hi).symm⟩, fun _ _ => ⟨rfl, rfl⟩⟩

open Classical in
/-- **C404** (one-point crossover).  If a parent fits a schema whose given bits lie between the positions `a` and `b`, of the `n` cuts that may
be drawn at most `b - a` give children of which none fits; and exactly so many if `a` and `b` are given and the parents differ there. -/
theorem C404_one_point (σ : List (Option Bool)) (xs ys : List Bool) (n a b : Nat) (h1 : xs.length = n) (h2 : ys.length = n)
    (hx : Fits σ xs) (hb : b < n) (hab : a ≤ b) (hσ : ∀ (i : Nat) c, σ[i]? = some (some c) → a ≤ i ∧ i ≤ b) :
    #{site ∈ range n | ∀ d flag, onePtXover (fun _ => site) (xs, ys) = .ok (d, flag) → ¬ Fits σ d.1 ∧ ¬ Fits σ d.2} ≤ b - a ∧
    ((∃ c, σ[a]? = some (some c)) → (∃ c, σ[b]? = some (some c)) → xs[a]? ≠ ys[a]? → xs[b]? ≠ ys[b]? →
      #{site ∈ range n | ∀ d flag, onePtXover (fun _ => site) (xs, ys) = .ok (d, flag) → ¬ Fits σ d.1 ∧ ¬ Fits σ d.2} = b - a) := by
  have hcard : #(Ioc a b) = b - a := Nat.card_Ioc a b
  have hsub : {site ∈ range n | ∀ d flag, onePtXover (fun _ => site) (xs, ys) = .ok (d, flag) → ¬ Fits σ d.1 ∧ ¬ Fits σ d.2} ⊆ Ioc a b := by
    intro site hs
    rw [mem_filter, mem_range] at hs
    obtain ⟨d, flag, e, m⟩ := onePt_at site (xs, ys) (by simpa [h1] using hs.1) (by simpa [h2] using hs.1)
    obtain ⟨n1, n2⟩ := hs.2 d flag e
    rw [mem_Ioc]
    by_contra hne
    rcases Nat.lt_or_ge a site with hlt | hge
    · have hbs : b < site := by omega
      refine n2 ⟨m.len2.trans (h2.trans (h1.symm.trans hx.1)), fun i c hi => ?_⟩
      have := hσ i c hi
      rw [(m.swapped i (by omega)).2.2.2]
      exact hx.2 i c hi
    · refine n1 ⟨m.len1.trans hx.1, fun i c hi => ?_⟩
      have := hσ i c hi
      rw [(m.kept i (by omega)).1]
      exact hx.2 i c hi
  refine ⟨hcard ▸ card_le_card hsub, ?_⟩
  rintro ⟨ca, ha⟩ ⟨cb, hbb⟩ hda hdb
  rw [← hcard]
  congr 1
  refine Subset.antisymm hsub fun site hs => ?_
  rw [mem_Ioc] at hs
  rw [mem_filter, mem_range]
  refine ⟨by omega, fun d flag e => ?_⟩
  obtain ⟨d', flag', e', m⟩ := onePt_at site (xs, ys) (by simp only [h1]; omega) (by simp only [h2]; omega)
  rw [e'] at e
  injection e with e
  injection e with e _
  subst e
  constructor
  · intro hf
    have q1 := hf.2 a ca ha
    rw [(m.swapped a hs.1).2.2.1] at q1
    exact hda ((hx.2 a ca ha).trans q1.symm)
  · intro hf
    have q1 := hf.2 b cb hbb
    rw [(m.kept b (by omega)).2] at q1
    exact hdb ((hx.2 b cb hbb).trans q1.symm)

/-- The schema 1*0: fitted by 110, not by 000, given bits from 0 to 2. -/
example : Fits [some true, none, some false] [true, true, false] ∧ misfits [some true, none, some false] [false, false, false] = 1 ∧
    order [some true, none, some false] = 2 ∧
    (∀ (i : Nat) c, [some true, none, some false][i]? = some (some c) → 0 ≤ i ∧ i ≤ 2) := by
  refine ⟨((fits_misfits _ _ rfl).1).2 rfl, rfl, rfl, fun i c h => ⟨Nat.zero_le _, ?_⟩⟩
  by_contra hi
  rw [List.getElem?_eq_none (by simp; omega)] at h
  cases h

end Paradiseo.Ops
