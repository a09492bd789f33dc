/-
Property C379: the exact laws of the bit-flip mutation and of the uniform crossover.
-/
import Verif.Props.EAConvergence
import Verif.Props.EOBits

open Finset

namespace Paradiseo.Ops
open Paradiseo.EO (flipsOf flipProb)

theorem flipsOf_cons_zero {n : Nat} (a : Bool) (φ : Fin n → Bool) : flipsOf (Fin.cons a φ : Fin (n + 1) → Bool) 0 = a := by
  simp [flipsOf, show (⟨0, Nat.succ_pos n⟩ : Fin (n + 1)) = 0 from rfl]

theorem flipsOf_cons_succ {n : Nat} (a : Bool) (φ : Fin n → Bool) (k : Nat) :
    flipsOf (Fin.cons a φ : Fin (n + 1) → Bool) (k + 1) = flipsOf φ k := by
  unfold flipsOf
  by_cases h : k < n
  · rw [dif_pos (by omega), dif_pos h]; rfl
  · rw [dif_neg (by omega), dif_neg h]

theorem flipProb_cons {n : Nat} (p : ℝ) (a : Bool) (φ : Fin n → Bool) :
    flipProb p (Fin.cons a φ : Fin (n + 1) → Bool) = (if a then p else 1 - p) * flipProb p φ := by
  simp only [flipProb, Fin.prod_univ_succ, Fin.cons_zero, Fin.cons_succ]

/-- Sums over the flips of `n + 1` bits. -/
theorem sum_flips {n : Nat} (g : (Fin (n + 1) → Bool) → ℝ) :
    ∑ φ, g φ = ∑ φ : Fin n → Bool, g (Fin.cons true φ) + ∑ φ : Fin n → Bool, g (Fin.cons false φ) := by
  rw [← (Fin.consEquiv fun _ => Bool).sum_comp, Fintype.sum_prod_type]
  simp only [Fintype.sum_bool]
  rfl

/-! ### Mutation -/

theorem bitMutationAux_shift (b : Nat → Bool) (i : Nat) (l : List Bool) :
    bitMutationAux b (i + 1) l = bitMutationAux (fun k => b (k + 1)) i l := by
  induction l generalizing i with
  | nil => rfl
  | cons x l ih => simp only [bitMutationAux, ih]

/-- C379: the bit-flip mutation with probability `p` for each bit turns `x` into `y` of the same length with
probability `p^d (1-p)^(n-d)`, `d` the number of bits in which they differ. -/
theorem C379_mutation (p : ℝ) (x y : List Bool) (h : y.length = x.length) :
    ∑ φ : Fin x.length → Bool with (bitMutation (flipsOf φ) x).1 = y, flipProb p φ =
      p ^ (List.zipWith (· != ·) x y).count true * (1 - p) ^ (List.zipWith (· != ·) x y).count false := by
  rw [sum_filter]
  induction x generalizing y with
  | nil =>
    cases y with
    | nil => simp [bitMutation, bitMutationAux, flipProb]
    | cons => simp at h
  | cons a x ih =>
    cases y with
    | nil => simp at h
    | cons c y =>
      have ih := ih y (by simpa using h)
      have hstep : ∀ (f : Bool) (φ : Fin x.length → Bool),
          (bitMutation (flipsOf (Fin.cons f φ : Fin (x.length + 1) → Bool)) (a :: x)).1 =
            (if f then !a else a) :: (bitMutation (flipsOf φ) x).1 := by
        intro f φ
        have e : (fun k => flipsOf (Fin.cons f φ : Fin (x.length + 1) → Bool) (k + 1)) = flipsOf φ :=
          funext fun k => flipsOf_cons_succ f φ k
        simp only [bitMutation, bitMutationAux, flipsOf_cons_zero, bitMutationAux_shift, e]
        cases f <;> rfl
      show ∑ φ : Fin (x.length + 1) → Bool, _ = _
      rw [sum_flips]
      simp only [hstep, List.cons.injEq, flipProb_cons, if_true, Bool.false_eq_true, if_false, List.zipWith_cons_cons]
      have key : ∀ (P : Prop) [Decidable P] (q : ℝ), (∑ φ : Fin x.length → Bool,
          if P ∧ (bitMutation (flipsOf φ) x).1 = y then q * flipProb p φ else 0) =
          if P then q * ∑ φ : Fin x.length → Bool, (if (bitMutation (flipsOf φ) x).1 = y then flipProb p φ else 0) else 0 := by
        intro P _ q
        by_cases hP : P
        · simp only [hP, true_and, if_true, mul_sum]
          exact sum_congr rfl fun φ _ => by split_ifs <;> simp
        · simp [hP]
      rw [key, key, ih]
      cases a <;> cases c <;> simp [pow_succ] <;> ring

/-! ### Uniform crossover -/

section
variable {α : Type} [DecidableEq α]

/-- The number of positions in which two strings differ: the coins thrown. -/
def coins : List α → List α → Nat
  | x :: xs, y :: ys => if x ≠ y then coins xs ys + 1 else coins xs ys
  | _, _ => 0

/-- The first child when the exchanges are given by the coins from number `t` on. -/
def uChild (b : Nat → Bool) : Nat → List α → List α → List α
  | t, x :: xs, y :: ys => if x ≠ y then (if b t then y else x) :: uChild b (t + 1) xs ys else x :: uChild b t xs ys
  | _, xs, _ => xs

theorem uChild_shift (b : Nat → Bool) (t : Nat) (xs ys : List α) :
    uChild b (t + 1) xs ys = uChild (fun k => b (k + 1)) t xs ys := by
  induction xs generalizing ys t with
  | nil => rfl
  | cons x xs ih => cases ys with
    | nil => rfl
    | cons y ys => simp only [uChild, ih]

theorem diffsBefore_cons (x y : α) (xs ys : List α) (i : Nat) :
    diffsBefore (x :: xs, y :: ys) (i + 1) = (if x ≠ y then 1 else 0) + diffsBefore (xs, ys) i := by
  induction i with
  | zero => rw [diffsBefore_succ]; simp [diffsBefore]
  | succ i ih =>
    rw [diffsBefore_succ, ih, diffsBefore_succ]
    simp only [List.getElem?_cons_succ]
    omega

theorem uChild_get (b : Nat → Bool) (t : Nat) (xs ys : List α) (h : xs.length = ys.length) (i : Nat) :
    (uChild b t xs ys)[i]? =
      if xs[i]? ≠ ys[i]? ∧ b (t + diffsBefore (xs, ys) i) = true then ys[i]? else xs[i]? := by
  induction xs generalizing ys t i with
  | nil => cases ys with
    | nil => simp [uChild]
    | cons => simp at h
  | cons x xs ih => cases ys with
    | nil => simp at h
    | cons y ys =>
      have h' : xs.length = ys.length := by simpa using h
      cases i with
      | zero =>
        by_cases hx : x ≠ y
        · by_cases hb : b t = true <;> simp [uChild, hx, diffsBefore, hb]
        · simp [uChild, hx]
      | succ i =>
        rw [diffsBefore_cons]
        by_cases hx : x ≠ y
        · simp only [uChild, if_pos hx, List.getElem?_cons_succ]
          rw [ih (t + 1) ys h' i, Nat.add_assoc]
        · simp only [uChild, if_neg hx, List.getElem?_cons_succ, Nat.zero_add]
          rw [ih t ys h' i]

theorem uXover_child (b : Nat → Bool) (xs ys : List α) (h : xs.length = ys.length) :
    ∃ d flag, uXover b (xs, ys) = .ok (d, flag) ∧ d.1 = uChild b 0 xs ys := by
  obtain ⟨d, flag, h1, h2, -⟩ := C58_uniform b (xs, ys) (le_of_eq h)
  refine ⟨d, flag, h1, List.ext_getElem? fun i => ?_⟩
  rw [uChild_get b 0 xs ys h i, Nat.zero_add]
  by_cases hi : xs[i]? ≠ ys[i]? ∧ b (diffsBefore (xs, ys) i) = true
  · rw [if_pos hi]
    have hlt : i < xs.length := by
      by_contra hge
      apply hi.1
      rw [List.getElem?_eq_none (by omega), List.getElem?_eq_none (by omega)]
    exact (h2.swapped i ⟨hlt, hi.1, hi.2⟩).2.2.1
  · rw [if_neg hi]
    exact (h2.kept i fun hs => hi ⟨hs.2.1, hs.2.2⟩).1

/-- The probability that the first child has `z` where the parents have `x` and `y`. -/
def geneProb (p : ℝ) (x y z : α) : ℝ :=
  if z = x ∧ z = y then 1 else if z = y then p else if z = x then 1 - p else 0

/-- The product of these over the strings. -/
def childProb (p : ℝ) : List α → List α → List α → ℝ
  | x :: xs, y :: ys, z :: zs => geneProb p x y z * childProb p xs ys zs
  | _, _, _ => 1

theorem uChild_law (p : ℝ) (xs ys zs : List α) (h1 : xs.length = ys.length) (h2 : zs.length = xs.length) (m : Nat)
    (hm : m = coins xs ys) :
    ∑ φ : Fin m → Bool, (if uChild (flipsOf φ) 0 xs ys = zs then flipProb p φ else 0) = childProb p xs ys zs := by
  induction xs generalizing ys zs m with
  | nil =>
    cases ys with
    | cons => simp at h1
    | nil => cases zs with
      | cons => simp at h2
      | nil => subst hm; simp only [uChild, childProb, if_true]; exact Paradiseo.EO.flipProb_sum _ p
  | cons x xs ih =>
    cases ys with
    | nil => simp at h1
    | cons y ys => cases zs with
      | nil => simp at h2
      | cons z zs =>
        have ih := ih ys zs (by simpa using h1) (by simpa using h2)
        by_cases hx : x ≠ y
        · rw [coins, if_pos hx] at hm
          subst hm
          have ih := ih _ rfl
          rw [sum_flips]
          have hstep : ∀ (f : Bool) (φ : Fin (coins xs ys) → Bool),
              uChild (flipsOf (Fin.cons f φ : Fin (coins xs ys + 1) → Bool)) 0 (x :: xs) (y :: ys) =
                (if f then y else x) :: uChild (flipsOf φ) 0 xs ys := by
            intro f φ
            have e : (fun k => flipsOf (Fin.cons f φ : Fin (coins xs ys + 1) → Bool) (k + 1)) = flipsOf φ :=
              funext fun k => flipsOf_cons_succ f φ k
            rw [uChild, if_pos hx, flipsOf_cons_zero, uChild_shift, e]
          simp only [hstep, List.cons.injEq, flipProb_cons, if_true, Bool.false_eq_true, if_false]
          have key : ∀ (P : Prop) [Decidable P] (q : ℝ), (∑ φ : Fin (coins xs ys) → Bool,
              if P ∧ uChild (flipsOf φ) 0 xs ys = zs then q * flipProb p φ else 0) =
              if P then q * childProb p xs ys zs else 0 := by
            intro P _ q
            rw [← ih]
            by_cases hP : P
            · simp only [hP, true_and, if_true, mul_sum]
              exact sum_congr rfl fun φ _ => by split_ifs <;> simp
            · simp [hP]
          rw [key, key, childProb, geneProb]
          by_cases hzy : z = y
          · subst hzy
            simp [hx, hx.symm]
          · by_cases hzx : z = x
            · subst hzx; simp [hx, hx.symm]
            · simp [hzy, hzx, Ne.symm hzy, Ne.symm hzx]
        · rw [coins, if_neg hx] at hm
          have ih := ih m hm
          push Not at hx
          subst hx
          simp only [uChild, ne_eq, not_true_eq_false, if_false, List.cons.injEq, childProb, geneProb, and_self]
          by_cases hz : z = x
          · subst hz; simpa using ih
          · simp [hz, Ne.symm hz]

open Classical in
/-- C379: the uniform crossover of two strings of the same length that differ in `k` positions throws `k` coins, each
exchanging the genes with probability `p`; the first child is `zs` with the product of the probabilities of its genes: 1 where
the parents agree with it, `p` where only the second has the gene, `1 - p` where only the first has it, 0 where none has. -/
theorem C379_crossover {α : Type} [DecidableEq α] (p : ℝ) (xs ys zs : List α) (h1 : xs.length = ys.length) (h2 : zs.length = xs.length) :
    ∑ φ : Fin (coins xs ys) → Bool with ∃ d flag, uXover (flipsOf φ) (xs, ys) = .ok (d, flag) ∧ d.1 = zs, flipProb p φ =
      childProb p xs ys zs := by
  rw [← uChild_law p xs ys zs h1 h2 _ rfl, sum_filter]
  refine sum_congr rfl fun φ _ => ?_
  obtain ⟨d, flag, e1, e2⟩ := uXover_child (flipsOf φ) xs ys h1
  by_cases h : uChild (flipsOf φ) 0 xs ys = zs
  · rw [if_pos h, if_pos ⟨d, flag, e1, e2.trans h⟩]
  · rw [if_neg h, if_neg]
    rintro ⟨d', flag', e1', e2'⟩
    rw [e1] at e1'
    injection e1' with e1'
    injection e1' with e3 _
    exact h (e2.symm.trans (e3 ▸ e2'))

end

example : ([true, false] : List Bool).length = ([false, false] : List Bool).length ∧
    (List.zipWith (· != ·) [true, false] [false, false]).count true = 1 ∧ coins [1, 2, 3] [1, 3, 4] = 2 := by decide

end Paradiseo.Ops
