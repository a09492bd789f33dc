import Verif.Model.IntervalCmp
import Verif.Props.IntervalSets
import Mathlib.Data.Prod.Lex
/-
C368: the alternative comparisons of intervals.  `In v X`: `v`, a number or an infinity, belongs to `X`.
-/
namespace Paradiseo.IvLib

open Fl

variable {K : Type} [Field K] [LinearOrder K]

/-! ### Specification -/

/-- The relation of two numbers that an operator is about. -/
def Op.rel : Op → Fl K → Fl K → Bool
  | .lt, u, v => Fl.lt u v
  | .le, u, v => Fl.le u v
  | .gt, u, v => Fl.lt v u
  | .ge, u, v => Fl.le v u
  | .eq, u, v => Fl.eq u v
  | .ne, u, v => !Fl.eq u v

/-- The relation on a linear order that an operator is about. -/
def Op.on {A : Type} [LinearOrder A] : Op → A → A → Prop
  | .lt, a, b => a < b
  | .le, a, b => a ≤ b
  | .gt, a, b => b < a
  | .ge, a, b => b ≤ a
  | .eq, a, b => a = b
  | .ne, a, b => a ≠ b

/-- The operator that holds when the given one does not. -/
def Op.not : Op → Op
  | .lt => .ge | .le => .gt | .gt => .le | .ge => .lt | .eq => .ne | .ne => .eq

/-! ### Lemmas -/

theorem rel_iff (op : Op) {u v : Fl K} (hu : u ≠ .nan) (hv : v ≠ .nan) : op.rel u v = true ↔ op.on (toE u) (toE v) := by
  cases op <;> simp [Op.rel, Op.on, lt_iff, le_iff, ← Bool.not_eq_true, eq_iff, hu, hv]

theorem rel_not (op : Op) {u v : Fl K} (hu : u ≠ .nan) (hv : v ≠ .nan) : op.rel u v = false ↔ op.not.rel u v = true := by
  rw [← Bool.not_eq_true, rel_iff op hu hv, rel_iff _ hu hv]
  cases op <;> simp [Op.on, Op.not]

theorem certain_iff (op : Op) {X Y : Iv K} (hX : empty X = false) (hY : empty Y = false) :
    ∃ b, certain op X Y = some b ∧ (b = true ↔ ∀ u v, In u X → In v Y → op.rel u v = true) := by
  have eX := empty_iff.1 hX
  have eY := empty_iff.1 hY
  unfold certain
  rw [testII, hX, hY]
  refine ⟨_, rfl, ?_⟩
  have e : (∀ u v, In u X → In v Y → op.rel u v = true) ↔
      (∀ u v, In u X → In v Y → op.on (toE u) (toE v)) :=
    forall_congr' fun u => forall_congr' fun v => forall_congr' fun hu => forall_congr' fun hv =>
      rel_iff op ((in_iff hX).1 hu).1 ((in_iff hY).1 hv).1
  rw [e]
  have hll := fun h : ∀ u v, In u X → In v Y → op.on (toE u) (toE v) => h _ _ (lo_in hX) (lo_in hY)
  have hlu := fun h : ∀ u v, In u X → In v Y → op.on (toE u) (toE v) => h _ _ (lo_in hX) (up_in hY)
  have hul := fun h : ∀ u v, In u X → In v Y → op.on (toE u) (toE v) => h _ _ (up_in hX) (lo_in hY)
  have mem : ∀ {u v}, In u X → In v Y → toE X.lo ≤ toE u ∧ toE u ≤ toE X.up ∧ toE Y.lo ≤ toE v ∧ toE v ≤ toE Y.up :=
    fun hu hv => ⟨((in_iff hX).1 hu).2.1, ((in_iff hX).1 hu).2.2, ((in_iff hY).1 hv).2.1, ((in_iff hY).1 hv).2.2⟩
  have g1 := eX.2.2
  have g2 := eY.2.2
  cases op with
  | lt =>
    simp only [lt_iff, ne_eq, eX.2.1, eY.1, not_false_eq_true, true_and, Op.on] at *
    refine ⟨fun h u v hu hv => ?_, hul⟩
    obtain ⟨a, b, c, d⟩ := mem hu hv
    order
  | le =>
    simp only [le_iff, ne_eq, eX.2.1, eY.1, not_false_eq_true, true_and, Op.on] at *
    refine ⟨fun h u v hu hv => ?_, hul⟩
    obtain ⟨a, b, c, d⟩ := mem hu hv
    order
  | gt =>
    simp only [lt_iff, ne_eq, eX.1, eY.2.1, not_false_eq_true, true_and, Op.on] at *
    refine ⟨fun h u v hu hv => ?_, hlu⟩
    obtain ⟨a, b, c, d⟩ := mem hu hv
    order
  | ge =>
    simp only [le_iff, ne_eq, eX.1, eY.2.1, not_false_eq_true, true_and, Op.on] at *
    refine ⟨fun h u v hu hv => ?_, hlu⟩
    obtain ⟨a, b, c, d⟩ := mem hu hv
    order
  | eq =>
    simp only [eq_iff, ne_eq, eX.1, eX.2.1, eY.1, eY.2.1, not_false_eq_true, true_and, Op.on, Bool.and_eq_true] at *
    refine ⟨fun ⟨h1, h2⟩ u v hu hv => ?_, fun h => ⟨hul h, hlu h⟩⟩
    obtain ⟨a, b, c, d⟩ := mem hu hv
    order
  | ne =>
    simp only [lt_iff, ne_eq, eX.1, eX.2.1, eY.1, eY.2.1, not_false_eq_true, true_and, Op.on, Bool.or_eq_true] at *
    refine ⟨fun h u v hu hv => ?_, fun h => ?_⟩
    · obtain ⟨a, b, c, d⟩ := mem hu hv
      rcases h with h | h
      · exact (lt_of_le_of_lt b (lt_of_lt_of_le h c)).ne
      · exact (lt_of_le_of_lt d (lt_of_lt_of_le h a)).ne'
    · by_contra hc
      push Not at hc
      rcases le_total (toE X.lo) (toE Y.lo) with h' | h'
      · exact h Y.lo Y.lo ((in_iff hX).2 ⟨(empty_iff.1 hY).1, h', hc.1⟩) (lo_in hY) rfl
      · exact h X.lo X.lo (lo_in hX) ((in_iff hY).2 ⟨(empty_iff.1 hX).1, h', hc.2⟩) rfl

/-- "Possibly" is "not certainly not". -/
theorem possible_eq (op : Op) {X Y : Iv K} (hX : empty X = false) (hY : empty Y = false) :
    ∃ b, possible op X Y = some (!b) ∧ certain op.not X Y = some b := by
  have eX := empty_iff.1 hX
  have eY := empty_iff.1 hY
  unfold certain possible
  rw [testII, hX, hY]
  refine ⟨_, ?_, rfl⟩
  simp only [Bool.or_self, Bool.false_eq_true, if_false, Option.some.injEq]
  rw [Bool.eq_iff_iff]
  cases op <;>
    simp [Op.not, lt_iff, le_iff, eq_iff, ← Bool.not_eq_true, eX.1, eX.2.1, eY.1, eY.2.1, and_comm, or_comm]

theorem tribool_eq (op : Op) {X Y : Iv K} (hX : empty X = false) (hY : empty Y = false) :
    ∃ a b, tribool op X Y = some (tri true a b) ∧ certain op X Y = some a ∧ certain op.not X Y = some b := by
  unfold certain tribool
  rw [testII, hX, hY]
  refine ⟨_, _, ?_, rfl, rfl⟩
  cases op <;> rfl

/-! ### The theorems -/

/-- **C368 (certain).** For intervals that are not empty, an operator of `compare::certain` answers whether all pairs of
their numbers are so related. -/
theorem C368_certain (op : Op) {X Y : Iv K} (hX : empty X = false) (hY : empty Y = false) :
    ∃ b, certain op X Y = some b ∧ (b = true ↔ ∀ u v, In u X → In v Y → op.rel u v = true) :=
  certain_iff op hX hY

/-- **C368 (possible).** An operator of `compare::possible` answers whether some pair is. -/
theorem C368_possible (op : Op) {X Y : Iv K} (hX : empty X = false) (hY : empty Y = false) :
    ∃ b, possible op X Y = some b ∧ (b = true ↔ ∃ u v, In u X ∧ In v Y ∧ op.rel u v = true) := by
  obtain ⟨b, h1, h2⟩ := possible_eq op hX hY
  obtain ⟨b', h3, h4⟩ := certain_iff op.not hX hY
  rw [h2, Option.some.injEq] at h3
  subst h3
  refine ⟨_, h1, ?_⟩
  rw [Bool.not_eq_true', ← Bool.not_eq_true, h4]
  push Not
  refine exists_congr fun u => exists_congr fun v => ?_
  constructor
  · rintro ⟨hu, hv, h⟩
    refine ⟨hu, hv, ?_⟩
    by_contra hc
    exact h ((rel_not op ((in_iff hX).1 hu).1 ((in_iff hY).1 hv).1).1 (by simpa using hc))
  · rintro ⟨hu, hv, h⟩
    refine ⟨hu, hv, fun hc => ?_⟩
    rw [(rel_not op ((in_iff hX).1 hu).1 ((in_iff hY).1 hv).1).2 hc] at h
    cases h

/-- **C368 (tribool).** An operator of `compare::tribool` answers yes if all pairs are so related, no if none is, and is
indeterminate otherwise. -/
theorem C368_tribool (op : Op) {X Y : Iv K} (hX : empty X = false) (hY : empty Y = false) :
    ∃ r, tribool op X Y = some r ∧ (r = some true ↔ ∀ u v, In u X → In v Y → op.rel u v = true) ∧
      (r = some false ↔ ∀ u v, In u X → In v Y → op.rel u v = false) := by
  obtain ⟨a, b, h1, h2, h3⟩ := tribool_eq op hX hY
  obtain ⟨a', h4, h5⟩ := certain_iff op hX hY
  obtain ⟨b', h6, h7⟩ := certain_iff op.not hX hY
  rw [h2, Option.some.injEq] at h4
  rw [h3, Option.some.injEq] at h6
  subst h4 h6
  have hno : b = true ↔ ∀ u v, In u X → In v Y → op.rel u v = false := by
    rw [h7]
    exact forall_congr' fun u => forall_congr' fun v => forall_congr' fun hu => forall_congr' fun hv =>
      (rel_not op ((in_iff hX).1 hu).1 ((in_iff hY).1 hv).1).symm
  refine ⟨_, h1, ?_, ?_⟩
  · rw [← h5]
    cases a <;> cases b <;> simp [tri]
  · rw [← hno]
    cases ha : a <;> cases hb : b <;> simp [tri]
    subst ha hb
    have := h5.1 rfl _ _ (lo_in hX) (lo_in hY)
    rw [hno.1 rfl _ _ (lo_in hX) (lo_in hY)] at this
    cases this

open Classical in
/-- **C368 (lexicographic).** The operators of `compare::lexicographic` are those of the total order by lower ends, then
by upper ends. -/
theorem C368_lexicographic (op : Op) {X Y : Iv K} (hX : empty X = false) (hY : empty Y = false) :
    lexi op X Y = some (decide (op.on (toLex (toE X.lo, toE X.up)) (toLex (toE Y.lo, toE Y.up)))) := by
  have eX := empty_iff.1 hX
  have eY := empty_iff.1 hY
  unfold lexi
  rw [testII, hX, hY]
  simp only [Bool.or_self, Bool.false_eq_true, if_false, Option.some.injEq]
  rw [Bool.eq_iff_iff]
  cases op <;>
    simp [Op.on, Prod.Lex.toLex_lt_toLex, Prod.Lex.toLex_le_toLex, lt_iff, le_iff, eq_iff, ← Bool.not_eq_true, eX.1, eX.2.1, eY.1,
      eY.2.1]
  all_goals tauto

/-- **C368 (lexicographic, equality).** Two intervals are equal in this order just when they have the same numbers. -/
theorem C368_lexicographic_eq {X Y : Iv K} (hX : empty X = false) (hY : empty Y = false) :
    lexi .eq X Y = some true ↔ ∀ v, In v X ↔ In v Y := by
  rw [← C286_equal, lexi, testII, equal, hX, hY]
  simp

/-- **C368 (set).** The operators of `compare::set` are inclusion and equality of the sets of numbers; they take empty
intervals. -/
theorem C368_set (X Y : Iv K) :
    (setCmp .le X Y = some true ↔ ∀ v, In v X → In v Y) ∧
    (setCmp .lt X Y = some true ↔ (∀ v, In v X → In v Y) ∧ ∃ v, In v Y ∧ ¬In v X) ∧
    (setCmp .ge X Y = some true ↔ ∀ v, In v Y → In v X) ∧
    (setCmp .gt X Y = some true ↔ (∀ v, In v Y → In v X) ∧ ∃ v, In v X ∧ ¬In v Y) ∧
    (setCmp .eq X Y = some true ↔ ∀ v, In v X ↔ In v Y) ∧
    (setCmp .ne X Y = some true ↔ ¬∀ v, In v X ↔ In v Y) := by
  simp only [setCmp, Option.some.injEq, C286_subset, C286_proper, C286_equal, true_and, Bool.not_eq_true',
    ← Bool.not_eq_true]
  refine ⟨forall_congr' fun v => iff_comm, not_congr (forall_congr' fun v => iff_comm)⟩

/-- **C368 (exceptions).** All but those of `compare::set` throw if an interval is empty or the number is NaN; those of
`compare::set` throw whenever the other operand is a number. -/
theorem C368_throws (op : Op) (X Y : Iv K) (y : Fl K) :
    ((empty X = true ∨ empty Y = true) ↔ certain op X Y = .none) ∧
    ((empty X = true ∨ empty Y = true) ↔ possible op X Y = .none) ∧
    ((empty X = true ∨ empty Y = true) ↔ tribool op X Y = .none) ∧
    ((empty X = true ∨ empty Y = true) ↔ lexi op X Y = .none) ∧
    ((empty X = true ∨ y = .nan) ↔ certainN op X y = .none) ∧
    ((empty X = true ∨ y = .nan) ↔ possibleN op X y = .none) ∧
    ((empty X = true ∨ y = .nan) ↔ triboolN op X y = .none) ∧
    ((empty X = true ∨ y = .nan) ↔ lexiN op X y = .none) ∧
    setCmp op X Y ≠ .none ∧ setCmpN op X y = .none := by
  refine ⟨?_, ?_, ?_, ?_, ?_, ?_, ?_, ?_, by simp [setCmp], rfl⟩ <;>
    simp [certain, possible, tribool, lexi, certainN, possibleN, triboolN, lexiN, testII, testIN] <;>
    cases empty X <;> simp

/-- **C368 (numbers).** Comparing with a number is comparing with the interval that holds just this number. -/
theorem C368_number (op : Op) (X : Iv K) {y : Fl K} (hy : y ≠ .nan) :
    certainN op X y = certain op X ⟨y, y⟩ ∧ possibleN op X y = possible op X ⟨y, y⟩ ∧
    triboolN op X y = tribool op X ⟨y, y⟩ ∧ lexiN op X y = lexi op X ⟨y, y⟩ := by
  have he : empty (⟨y, y⟩ : Iv K) = false := by rw [empty_iff]; exact ⟨hy, hy, le_rfl⟩
  have ht : testIN X y = testII X ⟨y, y⟩ := by simp [testIN, testII, he, hy]
  refine ⟨by unfold certainN certain; rw [ht], by unfold possibleN possible; rw [ht],
    by unfold triboolN tribool; rw [ht], ?_⟩
  unfold lexiN lexi
  rw [ht]
  cases hX : empty X
  · have eX := empty_iff.1 hX
    have g := eX.2.2
    rw [testII, hX, he]
    simp only [Bool.or_self, Bool.false_eq_true, if_false, Option.some.injEq]
    cases op <;> simp only <;> rw [Bool.eq_iff_iff] <;>
      simp only [Bool.or_eq_true, Bool.and_eq_true, lt_iff, le_iff, eq_iff, ne_eq, eX.1, eX.2.1, hy, not_false_eq_true,
        true_and]
    · refine ⟨Or.inl, ?_⟩
      rintro (h | ⟨h1, h2⟩)
      · exact h
      · order
    · constructor
      · intro h
        rcases h.lt_or_eq with h | h
        · exact Or.inl h
        · exact Or.inr ⟨h.symm, by order⟩
      · rintro (h | ⟨h1, h2⟩)
        · exact h.le
        · order
  · simp [testII, hX]

variable [IsStrictOrderedRing K]

/-- **C368 (two numbers).** The operations of arith3.hpp on two finite numbers enclose the exact result; dividing by zero
gives the empty interval, and so does NaN. -/
theorem C368_scalar {r : Rnd K} (hr : Sound r) (a b : K) :
    Mem (a + b) (addNN r (.fin a) (.fin b)) ∧ Mem (a - b) (subNN r (.fin a) (.fin b)) ∧
    Mem (a * b) (mulNN r (.fin a) (.fin b)) ∧ (b ≠ 0 → Mem (a / b) (divNN r (.fin a) (.fin b))) ∧
    (∀ x, divNN r x (.fin 0) = none) ∧
    (∀ x, addNN r .nan x = none ∧ addNN r x .nan = none ∧ subNN r .nan x = none ∧ subNN r x .nan = none ∧
      mulNN r .nan x = none ∧ mulNN r x .nan = none ∧ divNN r .nan x = none ∧ divNN r x .nan = none) := by
  have h : ∀ z : K, Mem z ⟨r.dn z, r.up z⟩ := fun z => ⟨dn_le hr le_rfl, le_up hr le_rfl⟩
  refine ⟨?_, ?_, ?_, fun hb => ?_, fun x => by simp [divNN, isZero, Fl.eq], fun x => by simp [addNN, subNN, mulNN, divNN]⟩
  · simpa [addNN, Fl.add] using h (a + b)
  · simpa [subNN, Fl.sub, Fl.add, neg, sub_eq_add_neg] using h (a - b)
  · simpa [mulNN, Fl.mul] using h (a * b)
  · simpa [divNN, Fl.div, isZero, Fl.eq, hb] using h (a / b)

/-! ### Examples -/

example : certain .lt (⟨.fin 1, .fin 2⟩ : Iv ℚ) ⟨.fin 3, .fin 4⟩ = some true ∧
    certain .lt (⟨.fin 1, .fin 4⟩ : Iv ℚ) ⟨.fin 3, .fin 5⟩ = some false ∧
    possible .gt (⟨.fin 1, .fin 4⟩ : Iv ℚ) ⟨.fin 3, .fin 5⟩ = some true ∧
    tribool .ge (⟨.fin 1, .fin 4⟩ : Iv ℚ) ⟨.fin 3, .fin 5⟩ = some .none ∧
    tribool .ne (⟨.fin 1, .fin 2⟩ : Iv ℚ) ⟨.fin 3, .pinf⟩ = some (some true) ∧
    lexi .lt (⟨.fin 1, .fin 4⟩ : Iv ℚ) ⟨.fin 1, .fin 5⟩ = some true ∧
    setCmp .lt (⟨.fin 1, .fin 4⟩ : Iv ℚ) ⟨.fin 1, .fin 5⟩ = some true ∧
    certain .lt (⟨.fin 1, .fin 2⟩ : Iv ℚ) none = .none := by decide +kernel

end Paradiseo.IvLib
