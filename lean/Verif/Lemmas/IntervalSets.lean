import Verif.Lemmas.IntervalLib
import Mathlib.Order.WithBot
import Mathlib.Tactic.Order
/-
Lemmas on the order of floating-point numbers.
-/
namespace Paradiseo.IvLib

open Fl

variable {K : Type} [Field K] [LinearOrder K]

/-- A floating-point number as an element of a linear order; what is not a number goes to the least element. -/
def toE : Fl K → WithBot (WithTop K)
  | .nan => ⊥
  | .ninf => ⊥
  | .fin a => ((a : WithTop K) : WithBot (WithTop K))
  | .pinf => ((⊤ : WithTop K) : WithBot (WithTop K))

theorem le_iff {a b : Fl K} : le a b = true ↔ a ≠ .nan ∧ b ≠ .nan ∧ toE a ≤ toE b := by
  cases a <;> cases b <;> simp [le, toE]

theorem lt_iff {a b : Fl K} : lt a b = true ↔ a ≠ .nan ∧ b ≠ .nan ∧ toE a < toE b := by
  cases a <;> cases b <;> simp [lt, toE]
  exact WithBot.coe_lt_coe.2 (WithTop.coe_lt_top _)

theorem eq_iff {a b : Fl K} : Fl.eq a b = true ↔ a ≠ .nan ∧ b ≠ .nan ∧ toE a = toE b := by
  cases a <;> cases b <;> simp [Fl.eq, toE]

theorem toE_inj {a b : Fl K} (ha : a ≠ .nan) (hb : b ≠ .nan) (h : toE a = toE b) : a = b := by
  cases a <;> cases b <;> simp_all [toE]

theorem min_eq {a b : Fl K} (ha : a ≠ .nan) (hb : b ≠ .nan) : Fl.min a b ≠ .nan ∧ toE (Fl.min a b) = Min.min (toE a) (toE b) := by
  rw [Fl.min]
  split
  · next h =>
    rw [lt_iff] at h
    exact ⟨hb, (min_eq_right h.2.2.le).symm⟩
  · next h =>
    rw [lt_iff] at h
    simp only [hb, ha, ne_eq, not_false_eq_true, true_and, not_lt] at h
    exact ⟨ha, (min_eq_left h).symm⟩

theorem max_eq {a b : Fl K} (ha : a ≠ .nan) (hb : b ≠ .nan) : Fl.max a b ≠ .nan ∧ toE (Fl.max a b) = Max.max (toE a) (toE b) := by
  rw [Fl.max]
  split
  · next h =>
    rw [lt_iff] at h
    exact ⟨hb, (max_eq_right h.2.2.le).symm⟩
  · next h =>
    rw [lt_iff] at h
    simp only [hb, ha, ne_eq, not_false_eq_true, true_and, not_lt] at h
    exact ⟨ha, (max_eq_left h).symm⟩

/-- `v` belongs to the interval; infinities may belong to it. -/
def In (v : Fl K) (i : Iv K) : Prop := le i.lo v = true ∧ le v i.up = true

theorem empty_iff {i : Iv K} : empty i = false ↔ i.lo ≠ .nan ∧ i.up ≠ .nan ∧ toE i.lo ≤ toE i.up := by
  rw [empty, Bool.not_eq_false', le_iff]

theorem not_empty_iff {i : Iv K} : ¬empty i = true ↔ i.lo ≠ .nan ∧ i.up ≠ .nan ∧ toE i.lo ≤ toE i.up := by
  rw [Bool.not_eq_true, empty_iff]

theorem in_iff {v : Fl K} {i : Iv K} (h : empty i = false) : In v i ↔ v ≠ .nan ∧ toE i.lo ≤ toE v ∧ toE v ≤ toE i.up := by
  rw [empty_iff] at h
  rw [In, le_iff, le_iff]
  tauto

theorem in_not_empty {v : Fl K} {i : Iv K} (h : In v i) : empty i = false := by
  rw [In, le_iff, le_iff] at h
  rw [empty_iff]
  exact ⟨h.1.1, h.2.2.1, h.1.2.2.trans h.2.2.2⟩

theorem in_none (v : Fl K) : ¬In v none := by
  rintro ⟨h, _⟩
  simp [none, le] at h

theorem lo_in {i : Iv K} (h : empty i = false) : In i.lo i := by
  rw [in_iff h]
  rw [empty_iff] at h
  exact ⟨h.1, le_rfl, h.2.2⟩

theorem up_in {i : Iv K} (h : empty i = false) : In i.up i := by
  rw [in_iff h]
  rw [empty_iff] at h
  exact ⟨h.2.1, h.2.2, le_rfl⟩

theorem neg_neg' [IsStrictOrderedRing K] (a : Fl K) : neg (neg a) = a := by cases a <;> simp [neg]

theorem neg_nan (a : Fl K) : neg a = .nan ↔ a = .nan := by cases a <;> simp [neg]

theorem neg_le_neg' [IsStrictOrderedRing K] {a b : Fl K} : le (neg a) (neg b) = le b a := by
  cases a <;> cases b <;> simp [le, neg]

/-- The absolute value. -/
def absF (v : Fl K) : Fl K := if isNeg v then neg v else v

end Paradiseo.IvLib
