/-
Property C373: which of the shuffles written out in the code are uniform.  Those of eoStochasticUniversalSelect
(eoStochasticUniversalSelect.h:85-88) and of the QAP tutorial (QAP.h:83-88, QAPGA.h:81-86) give every order for exactly one
sequence of draws; that of eoDetSingleBitFlip (ga/eoBitOp.h:126-136) does not treat the orders alike.
-/
import Verif.Props.RndOrder
import Verif.Props.TournamentLaw
import Verif.Props.QapTutorial
import Verif.Lemmas.EOSelect
import Verif.Lemmas.EOBits
import Mathlib.Data.Fintype.Perm
import Mathlib.Data.List.Permutation
import Mathlib.Data.Nat.Factorial.Basic
import Mathlib.Data.Nat.Factorial.BigOperators
import Mathlib.Data.Fintype.List

namespace Paradiseo.ShuffleLaw

open Paradiseo.Nbh (PossibleDraws orderOf possible_cons possible_succ possible_zero orderOf_unique)
open Paradiseo.Ops (rnd swapL swapL_ok shuffleIdx shuffle_fold detSingleBitFlip)
open Paradiseo.EO (streamOf)

/-! ### eoStochasticUniversalSelect -/

theorem set_set_comm' (l : List Nat) (i j : Nat) (hi : i < l.length) (hj : j < l.length) :
    (l.set i l[j]).set j l[i] = (l.set j l[i]).set i l[j] := by
  by_cases h : i = j
  · subst h; rfl
  · exact List.set_comm _ _ h

theorem sus_orderOf (r : Nat → Nat) : ∀ (i t : Nat) (l ds : List Nat), i < l.length →
    PossibleDraws (i + 1) (ds ++ [0]) → (∀ k, ∀ h : k < ds.length, r (t + k) = ds[k]) →
    Sel.susShuffle r i t l = .ok ((orderOf l (i + 1) (ds ++ [0])).reverse ++ l.drop (i + 1)) := by
  intro i
  induction i with
  | zero =>
    intro t l ds hl hp hr
    have : ds = [] := by have := hp.1; simpa using this
    subst this
    simp only [Sel.susShuffle, List.nil_append, orderOf, List.getElem?_eq_getElem hl, Option.getD_some]
    congr 1
    cases l with
    | nil => simp at hl
    | cons a l => simp
  | succ i ih =>
    intro t l ds hl hp hr
    cases ds with
    | nil => have := hp.1; simp at this
    | cons d ds' =>
      rw [List.cons_append] at hp
      obtain ⟨hd, hp'⟩ := (possible_cons _ _ _).1 hp
      have hdl : d < l.length := by omega
      have h0 : rnd r t (i + 2) = d := by
        have := hr 0 (by simp)
        simp only [Nat.add_zero, List.getElem_cons_zero] at this
        rw [rnd, if_neg (by omega), this, Nat.mod_eq_of_lt hd]
      unfold Sel.susShuffle
      rw [h0, swapL_ok hl hdl, set_set_comm' l (i + 1) d hl hdl]
      simp only
      rw [ih (t + 1) _ ds' (by simp; omega) hp' (fun k h => by
        have := hr (k + 1) (by simpa using h)
        simp only [List.getElem_cons_succ] at this
        rw [← this]; congr 1; omega)]
      rw [List.cons_append, orderOf, List.getElem?_eq_getElem hl, List.getElem?_eq_getElem hdl, Option.getD_some,
        Option.getD_some, List.reverse_cons, List.append_assoc, List.singleton_append]
      congr 2
      rw [List.drop_eq_getElem_cons (by simpa using hl), List.getElem_set_self, List.drop_set_of_lt (by omega),
        List.drop_set_of_lt (by omega)]

/-- **C373** (stochastic universal sampling).  Of `n + 1` different entries, every order is given by exactly one of the
possible sequences of `n` draws, the first among `n + 1` values, the last among two. -/
theorem C373_sus (n : Nat) (l p : List Nat) (hl : l.length = n + 1) (hn : l.Nodup) (hp : p.Perm l) :
    ∃! ds : List Nat, (ds.length = n ∧ ∀ k, ∀ h : k < ds.length, ds[k] < n + 1 - k) ∧
      Sel.susShuffle (fun t => ds.getD t 0) n 0 l = .ok p := by
  have possible : ∀ ds : List Nat, (ds.length = n ∧ ∀ k, ∀ h : k < ds.length, ds[k] < n + 1 - k) ↔
      PossibleDraws (n + 1) (ds ++ [0]) := by
    intro ds
    unfold PossibleDraws
    constructor
    · rintro ⟨h1, h2⟩
      refine ⟨by simp [h1], fun k h => ?_⟩
      by_cases hk : k < ds.length
      · rw [List.getElem_append_left hk]; exact h2 k hk
      · rw [List.getElem_append_right (by omega)]
        simp at h
        simp
        omega
    · rintro ⟨h1, h2⟩
      refine ⟨by simpa using h1, fun k h => ?_⟩
      have := h2 k (by simp; omega)
      rwa [List.getElem_append_left h] at this
  have run : ∀ ds : List Nat, PossibleDraws (n + 1) (ds ++ [0]) →
      Sel.susShuffle (fun t => ds.getD t 0) n 0 l = .ok (orderOf l (n + 1) (ds ++ [0])).reverse := by
    intro ds h
    rw [sus_orderOf _ n 0 l ds (by omega) h (fun k hk => by
      simp [List.getD_eq_getElem?_getD, List.getElem?_eq_getElem hk]), ← hl, List.drop_length, List.append_nil]
  obtain ⟨ds2, ⟨h1, h2⟩, h3⟩ := orderOf_unique (n + 1) l p.reverse (by omega)
    (by rw [← hl, List.take_length]; exact hn) (by
      rw [← hl, List.take_length]; exact (List.reverse_perm p).trans hp)
  have hne : ds2 ≠ [] := by intro h; rw [h] at h1; have := h1.1; simp at this
  have hlast : ds2 = ds2.dropLast ++ [0] := by
    have h4 := h1.2 (ds2.length - 1) (by have := h1.1; omega)
    have h5 := h1.1
    conv_lhs => rw [← List.dropLast_append_getLast hne, List.getLast_eq_getElem]
    congr 2
    omega
  refine ⟨ds2.dropLast, ⟨(possible _).2 (hlast ▸ h1), ?_⟩, ?_⟩
  · rw [run _ (hlast ▸ h1), ← hlast, h2, List.reverse_reverse]
  · rintro ds ⟨g1, g2⟩
    rw [run ds ((possible ds).1 g1)] at g2
    have := h3 (ds ++ [0]) ⟨(possible ds).1 g1, by
      injection g2 with g2; rw [← g2, List.reverse_reverse]⟩
    rw [← this, List.dropLast_concat]

/-! ### The QAP tutorial -/

/-- The entries in the order given by the draws, `a` being those still to be placed. -/
def placed : List Nat → List Nat → List Nat
  | a, d :: ds => a[d]?.getD 0 :: placed ((a.set d (a[0]?.getD 0)).tail) ds
  | _, [] => []

theorem placed_perm (a : List Nat) (d : Nat) (hd : d < a.length) :
    (a[d]?.getD 0 :: (a.set d (a[0]?.getD 0)).tail).Perm a := by
  have h0 : 0 < a.length := by omega
  rw [List.getElem?_eq_getElem hd, List.getElem?_eq_getElem h0, Option.getD_some, Option.getD_some]
  have h := List.set_set_perm hd h0
  have e : (a.set d a[0]).set 0 a[d] = a[d] :: (a.set d a[0]).tail := by
    cases hs : a.set d a[0] with
    | nil => have := congrArg List.length hs; rw [List.length_set, List.length_nil] at this; omega
    | cons x xs => rfl
  rw [e] at h
  exact h

theorem placed_unique : ∀ (k : Nat) (a p : List Nat), a.length = k → a.Nodup → p.Perm a →
    ∃! ds, PossibleDraws k ds ∧ placed a ds = p := by
  intro k
  induction k with
  | zero =>
    intro a p ha _ hp
    have : a = [] := List.length_eq_zero_iff.1 ha
    subst this
    have : p = [] := by simpa using hp
    subst this
    exact ⟨[], ⟨(possible_zero _).2 rfl, rfl⟩, fun ds h => (possible_zero _).1 h.1⟩
  | succ k ih =>
    intro a p ha hn hp
    cases p with
    | nil => have := hp.length_eq; simp [ha] at this
    | cons x p' =>
      obtain ⟨d, hd, hdx⟩ := List.getElem_of_mem (hp.subset (List.mem_cons_self : x ∈ x :: p'))
      have hv : a[d]?.getD 0 = x := by rw [List.getElem?_eq_getElem hd, Option.getD_some, hdx]
      have hpp := placed_perm a d hd
      rw [hv] at hpp
      obtain ⟨ds, ⟨h1, h2⟩, h3⟩ := ih (a.set d (a[0]?.getD 0)).tail p' (by simp [ha])
        (List.nodup_cons.1 (hpp.nodup_iff.2 hn)).2 ((List.perm_cons x).1 (hp.trans hpp.symm))
      refine ⟨d :: ds, ⟨(possible_cons _ _ _).2 ⟨by omega, h1⟩, by rw [placed, hv, h2]⟩, ?_⟩
      rintro ds2 ⟨g1, g2⟩
      obtain ⟨d2, ds2', rfl, gd, gp⟩ := possible_succ g1
      rw [placed] at g2
      have g3 := (List.cons.inj g2).1
      have hd2 : d2 < a.length := by omega
      rw [List.getElem?_eq_getElem hd2, Option.getD_some] at g3
      have : d2 = d := by
        refine (List.nodup_iff_injective_getElem.1 hn (a₁ := ⟨d2, hd2⟩) (a₂ := ⟨d, hd⟩) ?_) |> congrArg Fin.val
        simp only
        rw [g3, hdx]
      subst this
      rw [h3 ds2' ⟨gp, (List.cons.inj g2).2⟩]

theorem qap_placed (r : Nat → Nat) : ∀ (k i : Nat) (l ds : List Nat), l.length = i + k → PossibleDraws k ds →
    (∀ j, ∀ h : j < ds.length, r (i + j) = ds[j]) →
    QapTutorial.shuffle r k i l = .ok (l.take i ++ placed (l.drop i) ds) := by
  intro k
  induction k with
  | zero =>
    intro i l ds hl hp hr
    rw [(possible_zero ds).1 hp]
    simp [QapTutorial.shuffle, placed, List.take_of_length_le (show l.length ≤ i by omega)]
  | succ k ih =>
    intro i l ds hl hp hr
    obtain ⟨d, ds', rfl, hd, hp'⟩ := possible_succ hp
    have h0 : r i % (k + 1) = d := by
      have := hr 0 (by simp)
      simp only [Nat.add_zero, List.getElem_cons_zero] at this
      rw [this, Nat.mod_eq_of_lt hd]
    have hi : i < l.length := by omega
    have hdi : d + i < l.length := by omega
    unfold QapTutorial.shuffle
    rw [h0, swapL_ok hi hdi]
    simp only
    rw [ih (i + 1) _ ds' (by simp; omega) hp' (fun j h => by
      have := hr (j + 1) (by simpa using h)
      simp only [List.getElem_cons_succ] at this
      rw [← this]; congr 1; omega)]
    have hdd : d < (l.drop i).length := by simp; omega
    have e1 : ((l.set i l[d + i]).set (d + i) l[i]).take (i + 1) = l.take i ++ [l[d + i]] := by
      rw [set_set_comm' l i (d + i) hi hdi, List.take_succ, List.getElem?_set_self (by simpa using hi),
        List.take_set_of_le (by omega), List.take_set_of_le (by omega)]
      rfl
    have e2 : ((l.set i l[d + i]).set (d + i) l[i]).drop (i + 1) = ((l.drop i).set d l[i]).tail := by
      rw [set_set_comm' l i (d + i) hi hdi, List.drop_set_of_lt (by omega), ← List.drop_one, List.drop_set,
        List.drop_set]
      by_cases h : d = 0
      · subst h; simp [List.drop_drop]
      · rw [if_neg (by omega), if_neg (by omega), List.drop_drop]
        congr 1
        omega
    rw [e1, e2, placed, List.getElem?_eq_getElem hdd, Option.getD_some, List.getElem_drop,
      List.getElem?_eq_getElem (show 0 < (l.drop i).length by omega), Option.getD_some, List.getElem_drop]
    simp [Nat.add_comm]

/-- **C373** (QAP tutorial).  Every order of the different entries `l` is given by exactly one of the possible sequences of
draws. -/
theorem C373_qap (l p : List Nat) (hn : l.Nodup) (hp : p.Perm l) :
    ∃! ds, PossibleDraws l.length ds ∧ QapTutorial.shuffle (fun t => ds.getD t 0) l.length 0 l = .ok p := by
  have run : ∀ ds, PossibleDraws l.length ds →
      QapTutorial.shuffle (fun t => ds.getD t 0) l.length 0 l = .ok (placed l ds) := by
    intro ds h
    rw [qap_placed _ l.length 0 l ds (by omega) h (fun k hk => by
      simp [List.getD_eq_getElem?_getD, List.getElem?_eq_getElem hk])]
    simp
  obtain ⟨ds, ⟨h1, h2⟩, h3⟩ := placed_unique l.length l p rfl hn hp
  refine ⟨ds, ⟨h1, by rw [run ds h1, h2]⟩, ?_⟩
  rintro ds2 ⟨g1, g2⟩
  rw [run ds2 g1] at g2
  exact h3 ds2 ⟨g1, by injection g2⟩

/-! ### eoDetSingleBitFlip -/

open Classical in
/-- **C373** (eoDetSingleBitFlip, the order).  From three bits on, the orders of the indices are not equally frequent among the
`n^n` equally likely draws. -/
theorem C373_detSingle_order (n : Nat) (hn : 3 ≤ n) :
    ¬ ∃ c, ∀ p : List Nat, p.Perm (List.range n) →
      (Finset.univ.filter fun d : Fin n → Fin n => shuffleIdx (streamOf d) n = .ok p).card = c := by
  rintro ⟨c, hc⟩
  have hsum := Finset.card_eq_sum_card_fiberwise (s := (Finset.univ : Finset (Fin n → Fin n)))
    (t := (List.range n).permutations.toFinset)
    (f := fun d => match shuffleIdx (streamOf d) n with | .ok p => p | .error _ => [])
    (by
      intro d _
      obtain ⟨idx, h1, h2⟩ := shuffle_fold (streamOf d) n n le_rfl
      have h1' : shuffleIdx (streamOf d) n = .ok idx := h1
      simp only [h1', Finset.mem_coe, List.mem_toFinset, List.mem_permutations]
      exact h2)
  have heach : ∀ p ∈ (List.range n).permutations.toFinset,
      ((Finset.univ : Finset (Fin n → Fin n)).filter fun d =>
        (match shuffleIdx (streamOf d) n with | .ok p => p | .error _ => []) = p).card = c := by
    intro p hp
    rw [List.mem_toFinset, List.mem_permutations] at hp
    rw [← hc p hp]
    congr 1
    ext d
    simp only [Finset.mem_filter, Finset.mem_univ, true_and]
    obtain ⟨idx, h1, h2⟩ := shuffle_fold (streamOf d) n n le_rfl
    have h1' : shuffleIdx (streamOf d) n = .ok idx := h1
    simp only [h1', Except.ok.injEq]
  rw [Finset.sum_congr rfl heach, Finset.sum_const, List.toFinset_card_of_nodup
    (List.nodup_permutations _ List.nodup_range), List.length_permutations, List.length_range] at hsum
  simp only [Finset.card_univ, Fintype.card_fun, Fintype.card_fin, smul_eq_mul] at hsum
  have hdvd : n - 1 ∣ n ^ n := by
    rw [hsum]
    exact Dvd.dvd.mul_right (Nat.dvd_factorial (by omega) (by omega)) _
  have hcop : Nat.Coprime (n - 1) (n ^ n) := by
    apply Nat.Coprime.pow_right
    have : n = (n - 1) + 1 := by omega
    conv_rhs => rw [this]
    simp
  have := Nat.Coprime.eq_one_of_dvd hcop hdvd
  omega

/-- **C373** (eoDetSingleBitFlip, the bits).  Asked to flip one bit of three, it flips the first for 9, the second for 10 and the
third for 8 of the 27 equally likely draws. -/
theorem C373_detSingle_bits (a b c : Bool) :
    (Finset.univ.filter fun d : Fin 3 → Fin 3 =>
      detSingleBitFlip (streamOf d) 1 [a, b, c] = .ok ([!a, b, c], true)).card = 9 ∧
    (Finset.univ.filter fun d : Fin 3 → Fin 3 =>
      detSingleBitFlip (streamOf d) 1 [a, b, c] = .ok ([a, !b, c], true)).card = 10 ∧
    (Finset.univ.filter fun d : Fin 3 → Fin 3 =>
      detSingleBitFlip (streamOf d) 1 [a, b, c] = .ok ([a, b, !c], true)).card = 8 := by
  cases a <;> cases b <;> cases c <;> decide +kernel

example : Sel.susShuffle (fun t => [2, 0, 1].getD t 0) 3 0 [10, 11, 12, 13] = .ok [13, 11, 10, 12] := by decide
example : QapTutorial.shuffle (fun t => [2, 0, 1, 0].getD t 0) 4 0 [10, 11, 12, 13] = .ok [12, 11, 13, 10] := by decide

end Paradiseo.ShuffleLaw
