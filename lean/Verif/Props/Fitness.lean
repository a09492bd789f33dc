import Verif.Model.Fitness
import Mathlib.Algebra.Order.Ring.Rat
import Mathlib.Data.List.Perm.Basic
import Mathlib.Tactic.Linarith
import Mathlib.Tactic.FieldSimp
import Mathlib.Tactic.Ring
/-
Property C164: dual fitness (value and feasibility).
Property C165: assembled fitness (several terms).
-/
namespace Paradiseo.Fit

/-! ## Specification -/

/-- A strict weak order: what `std::sort`, `std::max_element` and the selectors need of a comparison. -/
structure StrictWeak {α : Type} (P : α → Prop) (r : α → α → Prop) : Prop where
  irrefl : ∀ a, P a → ¬ r a a
  trans : ∀ a b c, P a → P b → P c → r a b → r b c → r a c
  incomp : ∀ a b c, P a → P b → P c → ¬ r a b → ¬ r b a → ¬ r b c → ¬ r c b → ¬ r a c ∧ ¬ r c a

section Dual
variable {F : Type}

/-- `a` is worse than `b`: infeasible against feasible, or in the same situation with a worse value. -/
def Worse (cmp : F → F → Bool) (a b : Dual F) : Prop :=
  (a.feasible = false ∧ b.feasible = true) ∨ (a.feasible = b.feasible ∧ cmp a.value b.value = true)

theorem lt_init {cmp : F → F → Bool} {a b : Dual F} (ha : a.init = true) (hb : b.init = true) :
    ∃ r, lt cmp a b = some r ∧ (r = true ↔ Worse cmp a b) := by
  unfold lt isFeasible Worse
  rw [if_pos ha, if_pos hb]
  cases ea : a.feasible <;> cases eb : b.feasible <;> simp

theorem lt_noinit {cmp : F → F → Bool} {a b : Dual F} (h : a.init = false ∨ b.init = false) :
    lt cmp a b = none := by
  unfold lt isFeasible
  cases ha : a.init
  · simp
  · have hb : b.init = false := by rcases h with h | h <;> simp_all
    simp [hb]

/-- **C164** `<` holds exactly when the left fitness is worse; asking for a comparison with a fitness whose feasibility
was never given stops the program. -/
theorem C164_less (cmp : F → F → Bool) (a b : Dual F) :
    lt cmp a b = some true ↔ a.init = true ∧ b.init = true ∧ Worse cmp a b := by
  constructor
  · intro h
    have ha : a.init = true := by
      cases e : a.init
      · rw [lt_noinit (Or.inl e)] at h; cases h
      · rfl
    have hb : b.init = true := by
      cases e : b.init
      · rw [lt_noinit (Or.inr e)] at h; cases h
      · rfl
    obtain ⟨r, e, hr⟩ := lt_init (cmp := cmp) ha hb
    rw [e] at h
    exact ⟨ha, hb, hr.1 (by injection h)⟩
  · rintro ⟨ha, hb, h⟩
    obtain ⟨r, e, hr⟩ := lt_init (cmp := cmp) ha hb
    rw [e, hr.2 h]

/-- **C164** A comparison has a result exactly when both feasibilities were given. -/
theorem C164_less_defined (cmp : F → F → Bool) (a b : Dual F) :
    (lt cmp a b).isSome = true ↔ a.init = true ∧ b.init = true := by
  constructor
  · intro h
    constructor
    · cases e : a.init
      · rw [lt_noinit (Or.inl e)] at h; cases h
      · rfl
    · cases e : b.init
      · rw [lt_noinit (Or.inr e)] at h; cases h
      · rfl
  · rintro ⟨ha, hb⟩
    obtain ⟨r, e, _⟩ := lt_init (cmp := cmp) ha hb
    rw [e]; rfl

/-- **C164** If the comparison of values is a strict weak order, so is the comparison of dual fitnesses. -/
theorem C164_strict_weak {cmp : F → F → Bool} (hc : StrictWeak (fun _ => True) (fun x y => cmp x y = true)) :
    StrictWeak (fun d : Dual F => d.init = true) (fun a b => lt cmp a b = some true) := by
  constructor
  · intro a ha h
    rw [C164_less] at h
    rcases h.2.2 with ⟨h1, h2⟩ | ⟨_, h⟩
    · rw [h1] at h2; cases h2
    · exact hc.irrefl _ trivial h
  · intro a b c ha hb hcc
    simp only [C164_less, Worse]
    rintro ⟨_, _, h1⟩ ⟨_, _, h2⟩
    refine ⟨ha, hcc, ?_⟩
    rcases h1 with ⟨h1, h1'⟩ | ⟨h1, h1'⟩ <;> rcases h2 with ⟨h2, h2'⟩ | ⟨h2, h2'⟩
    · rw [h1'] at h2; cases h2
    · exact Or.inl ⟨h1, h2 ▸ h1'⟩
    · exact Or.inl ⟨h1.trans h2, h2'⟩
    · exact Or.inr ⟨h1.trans h2, hc.trans _ _ _ trivial trivial trivial h1' h2'⟩
  · intro a b c ha hb hcc
    simp only [C164_less, Worse, ha, hb, hcc, true_and]
    intro h1 h2 h3 h4
    have key : ∀ x y : Dual F, ¬ ((x.feasible = false ∧ y.feasible = true) ∨ (x.feasible = y.feasible ∧
        cmp x.value y.value = true)) → ¬ ((y.feasible = false ∧ x.feasible = true) ∨ (y.feasible = x.feasible ∧
        cmp y.value x.value = true)) → x.feasible = y.feasible ∧ ¬ cmp x.value y.value = true ∧
        ¬ cmp y.value x.value = true := by
      intro x y
      cases x.feasible <;> cases y.feasible <;> simp
      all_goals (intro h h'; exact ⟨h, h'⟩)
    obtain ⟨e1, n1, n1'⟩ := key a b h1 h2
    obtain ⟨e2, n2, n2'⟩ := key b c h3 h4
    have := hc.incomp _ _ _ trivial trivial trivial n1 n1' n2 n2'
    constructor
    · rintro (⟨x, y⟩ | ⟨_, x⟩)
      · rw [e1, e2, y] at x; cases x
      · exact this.1 x
    · rintro (⟨x, y⟩ | ⟨_, x⟩)
      · rw [e1, e2, x] at y; cases y
      · exact this.2 x

example : StrictWeak (fun _ : ℚ => True) (fun x y => decide (x < y) = true) := by
  constructor
  · intro a _; simp
  · intro a b c _ _ _; simp only [decide_eq_true_eq]; exact lt_trans
  · intro a b c _ _ _; simp only [decide_eq_true_eq, not_lt]
    intro h1 h2 h3 h4; exact ⟨h3.trans h1, h2.trans h4⟩

/-- **C164** The other comparisons say the same thing: of two fitnesses whose feasibility is given, exactly one of
"less", "greater" and "neither" holds (for a strict weak order of values), `<=` is "not greater" and `>=` is "not
less". -/
theorem C164_operators {cmp : F → F → Bool} (hc : StrictWeak (fun _ => True) (fun x y => cmp x y = true))
    {a b : Dual F} (ha : a.init = true) (hb : b.init = true) :
    gt cmp a b = some (decide (lt cmp b a = some true)) ∧
    le cmp a b = some (decide (gt cmp a b ≠ some true)) ∧
    ge cmp a b = some (decide (lt cmp a b ≠ some true)) ∧
    ¬ (lt cmp a b = some true ∧ gt cmp a b = some true) ∧
    (le cmp a b = some true ∨ ge cmp a b = some true) := by
  have hsw := C164_strict_weak hc
  obtain ⟨r, e, _⟩ := lt_init (cmp := cmp) ha hb
  obtain ⟨s, e', _⟩ := lt_init (cmp := cmp) hb ha
  have hno : ¬ (lt cmp a b = some true ∧ lt cmp b a = some true) := fun h =>
    hsw.irrefl a ha (hsw.trans a b a ha hb ha h.1 h.2)
  unfold gt le ge
  rw [e, e'] at *
  cases r <;> cases s <;> simp_all

example : gt (fun x y : ℚ => decide (x < y)) (ofPair 3 true) (ofPair 5 false) = some true ∧
    eq (ofPair (3 : ℚ) true) (ofPair 3 false) = some false := by decide +kernel

/-- **C164** Equality: same feasibility and same value. -/
theorem C164_equal [DecidableEq F] {a b : Dual F} (ha : a.init = true) (hb : b.init = true) :
    eq a b = some true ↔ a = b := by
  obtain ⟨v, f, i⟩ := a
  obtain ⟨w, g, j⟩ := b
  simp only at ha hb
  subst ha hb
  unfold eq isFeasible
  simp [and_comm]

/-- **C164** Feasible is better, whatever the values and the direction of optimisation. -/
theorem C164_feasible_better (cmp : F → F → Bool) (v w : F) :
    lt cmp (ofPair v false) (ofPair w true) = some true ∧ lt cmp (ofPair w true) (ofPair v false) = some false := by
  constructor <;> rfl

theorem maxElement_aux {cmp : F → F → Bool} (hc : StrictWeak (fun _ => True) (fun x y => cmp x y = true)) :
    ∀ (xs : List (Dual F)) (x : Dual F), x.init = true → (∀ y ∈ xs, y.init = true) →
      ∃ b, xs.foldlM (fun best y => do
          let l ← lt cmp best y
          return if l then y else best) x = some b ∧ b ∈ x :: xs ∧ b.init = true ∧
        ∀ y ∈ x :: xs, lt cmp b y ≠ some true := by
  have hsw := C164_strict_weak hc
  intro xs
  induction xs with
  | nil =>
    intro x hx _
    exact ⟨x, rfl, by simp, hx, by intro y hy; simp only [List.mem_singleton] at hy; subst hy; exact hsw.irrefl y hx⟩
  | cons z zs ih =>
    intro x hx hz
    have hzi := hz z (by simp)
    obtain ⟨r, e, _⟩ := lt_init (cmp := cmp) hx hzi
    rw [List.foldlM_cons, e]
    cases r with
    | true =>
      obtain ⟨b, hb, hm, hbi, hmax⟩ := ih z hzi (fun y hy => hz y (by simp [hy]))
      refine ⟨b, hb, by simp at hm ⊢; tauto, hbi, ?_⟩
      intro y hy
      rcases List.mem_cons.1 hy with rfl | hy
      · intro hlt
        exact hmax z (by simp) (hsw.trans b y z hbi hx hzi hlt e)
      · exact hmax y hy
    | false =>
      obtain ⟨b, hb, hm, hbi, hmax⟩ := ih x hx (fun y hy => hz y (by simp [hy]))
      refine ⟨b, hb, by simp at hm ⊢; tauto, hbi, ?_⟩
      intro y hy
      rcases List.mem_cons.1 hy with rfl | hy
      · exact hmax y (by simp)
      · rcases List.mem_cons.1 hy with rfl | hy
        · -- x is not below y = z, and b is not below x
          intro hlt
          have h1 : lt cmp x y ≠ some true := by rw [e]; simp
          have h2 := hmax x (by simp)
          by_cases h3 : lt cmp y x = some true
          · exact h2 (hsw.trans b y x hbi hzi hx hlt h3)
          · by_cases h4 : lt cmp x b = some true
            · exact h1 (hsw.trans x b y hx hbi hzi h4 hlt)
            · exact (hsw.incomp b x y hbi hx hzi h2 h4 h1 h3).1 hlt
        · exact hmax y (by simp [hy])

/-- **C164** The best individual of a population with at least one feasible individual is feasible, and no feasible
individual has a better value; in a population without feasible individual it has the best value of all. -/
theorem C164_best {cmp : F → F → Bool} (hc : StrictWeak (fun _ => True) (fun x y => cmp x y = true))
    {pop : List (Dual F)} (hne : pop ≠ []) (hi : ∀ x ∈ pop, x.init = true) :
    ∃ b ∈ pop, maxElement cmp pop = some b ∧ ((∃ x ∈ pop, x.feasible = true) → b.feasible = true) ∧
      ∀ x ∈ pop, x.feasible = b.feasible → cmp b.value x.value = false := by
  match pop, hne with
  | x :: xs, _ =>
    obtain ⟨b, hb, hm, hbi, hmax⟩ := maxElement_aux hc xs x (hi x (by simp)) (fun y hy => hi y (by simp [hy]))
    refine ⟨b, hm, hb, ?_, ?_⟩
    · rintro ⟨y, hy, hf⟩
      by_contra hbf
      apply hmax y hy
      rw [C164_less]
      exact ⟨hbi, hi y hy, Or.inl ⟨by simpa using hbf, hf⟩⟩
    · intro y hy he
      by_contra hv
      apply hmax y hy
      rw [C164_less]
      exact ⟨hbi, hi y hy, Or.inr ⟨he.symm, by simpa using hv⟩⟩

example : maxElement (fun x y : ℚ => decide (x < y)) [ofPair 9 false, ofPair 1 true, ofPair 2 true, ofPair 2 true] =
    some (ofPair 2 true) := by decide +kernel

/-- **C164** A population with a fitness whose feasibility was not given has a best individual only if it has a single
individual. -/
theorem C164_best_needs_feasibility (cmp : F → F → Bool) (x y : Dual F) (xs : List (Dual F))
    (h : x.init = false) : maxElement cmp (x :: y :: xs) = none ∧ maxElement cmp [x] = some x := by
  constructor
  · simp only [maxElement, List.foldlM_cons, lt_noinit (cmp := cmp) (b := y) (Or.inl h)]
    rfl
  · rfl

/-- **C164** A population sorted from the best to the worst has its feasible individuals first. -/
theorem C164_sorted {cmp : F → F → Bool} {pop : List (Dual F)} (hi : ∀ x ∈ pop, x.init = true)
    (hs : pop.Pairwise (fun a b => lt cmp a b ≠ some true)) :
    pop = pop.filter (fun d => d.feasible) ++ pop.filter (fun d => !d.feasible) := by
  induction pop with
  | nil => rfl
  | cons x xs ih =>
    rw [List.pairwise_cons] at hs
    have ihx := ih (fun y hy => hi y (by simp [hy])) hs.2
    cases hf : x.feasible
    · have hall : ∀ y ∈ xs, y.feasible = false := by
        intro y hy
        by_contra hy'
        apply hs.1 y hy
        rw [C164_less]
        exact ⟨hi x (by simp), hi y (by simp [hy]), Or.inl ⟨hf, by simpa using hy'⟩⟩
      have e1 : xs.filter (fun d => d.feasible) = [] := List.filter_eq_nil_iff.2 (fun y hy => by simp [hall y hy])
      rw [List.filter_cons_of_neg (by simp [hf]), List.filter_cons_of_pos (by simp [hf]), e1, List.nil_append]
      rw [e1, List.nil_append] at ihx
      rw [← ihx]
    · rw [List.filter_cons_of_pos (by simp [hf]), List.filter_cons_of_neg (by simp [hf]), List.cons_append, ← ihx]

/-! ### Arithmetic -/

/-- **C164** An operation between two fitnesses: the values are combined, the result is feasible exactly when both are,
and the operands of `+`, `-`, `/` are left as they were. -/
theorem C164_arithmetic (op : F → F → F) (a b : Dual F) :
    (opDual op a b).1.value = op a.value b.value ∧
    ((opDual op a b).1.feasible = true ↔ a.feasible = true ∧ b.feasible = true) ∧
    (opDual op a b).2 = a ∧ opAssign op a b = (opDual op a b).1 := by
  refine ⟨rfl, ?_, rfl, rfl⟩
  show (a.feasible && b.feasible) = true ↔ _
  simp

/-- **C164** Summing a population with `+=` from a first fitness: the sum of the values, feasible exactly when all
are. -/
theorem C164_sum [AddMonoid F] (a : Dual F) (l : List (Dual F)) :
    (l.foldl (opAssign (· + ·)) a).value = a.value + (l.map (·.value)).sum ∧
    ((l.foldl (opAssign (· + ·)) a).feasible = true ↔ a.feasible = true ∧ ∀ x ∈ l, x.feasible = true) := by
  induction l generalizing a with
  | nil => simp
  | cons x xs ih =>
    rw [List.foldl_cons]
    obtain ⟨h1, h2⟩ := ih (opAssign (· + ·) a x)
    rw [h1, h2]
    simp only [opAssign, List.map_cons, List.sum_cons, Bool.and_eq_true, List.mem_cons, forall_eq_or_imp, add_assoc,
      and_assoc, and_self]

example : ([ofPair (2 : ℚ) true, ofPair 3 true].foldl (opAssign (· + ·)) (ofPair 1 true)) = ofPair 6 true := by
  decide +kernel

/-- **C164** (defect) Adding, subtracting or dividing by a scalar modifies the left operand: `x + c` leaves `x` with
the value of the sum. -/
theorem C164_scalar_modifies (op : F → F → F) (a : Dual F) (c : F) (h : op a.value c ≠ a.value) :
    (opScalar op a c).2 ≠ a ∧ (opScalar op a c).1 = (opScalar op a c).2 := by
  refine ⟨?_, rfl⟩
  intro e
  exact h (congrArg Dual.value e)

example : (opScalar (· + ·) (ofPair (1 : ℚ) true) 2).2 = ofPair 3 true := by decide +kernel

/-- **C164** (defect) The mark "feasibility given" is overwritten by the one of the right operand: a fitness whose
feasibility was given loses it, and one whose feasibility was never given receives it, with the feasibility of the
default. -/
theorem C164_init_overwritten (op : F → F → F) (a b : Dual F) :
    isFeasible (opAssign op a b) = if b.init then some (a.feasible && b.feasible) else none := rfl

/-- **C164** (defect) The average of a population of dual fitnesses never has a feasibility: it is infeasible even when
all individuals are feasible, and comparing it stops the program. -/
theorem C164_average [Field F] (cmp : F → F → Bool) (pop : List (Dual F)) (d : Dual F) :
    (dualAverage pop).value = (pop.map (·.value)).sum / (pop.length : F) ∧
    (dualAverage pop).feasible = false ∧ isFeasible (dualAverage pop) = none ∧ lt cmp (dualAverage pop) d = none := by
  have key : ∀ (l : List (Dual F)) (a : F),
      l.foldl (fun acc x => ofScalar (acc.value + x.value)) (ofScalar a) = ofScalar (a + (l.map (·.value)).sum) := by
    intro l
    induction l with
    | nil => intro a; simp
    | cons x xs ih =>
      intro a
      rw [List.foldl_cons, show (ofScalar ((ofScalar a).value + x.value) : Dual F) = ofScalar (a + x.value) from rfl,
        ih, List.map_cons, List.sum_cons, add_assoc]
  have hv : dualAverage pop = ofScalar ((pop.map (·.value)).sum / (pop.length : F)) := by
    unfold dualAverage
    rw [key, zero_add]
    rfl
  rw [hv]
  exact ⟨rfl, rfl, rfl, lt_noinit (Or.inl rfl)⟩

/-! ### Text -/

variable [Field F] [DecidableEq F]

/-- **C164** A fitness whose feasibility was given is read back from what was printed. -/
theorem C164_round_trip (d : Dual F) (h : d.init = true) (rest : List (Tok F)) :
    read (print d ++ rest) = .done d true := by
  obtain ⟨v, f, i⟩ := d
  simp only at h
  subst h
  cases f
  · simp [print, read, boolTok, readBool, ofPair]
  · simp [print, read, boolTok, readBool, ofPair]

/-- **C164** (defect) What is printed for a fitness whose feasibility was not given cannot be read: the stream fails,
and the object is left marked as an infeasible fitness whose feasibility was given. -/
theorem C164_unread (d : Dual F) (h : d.init = false) (rest : List (Tok F)) :
    read (print d ++ rest) = .done (ofPair d.value false) false := by
  obtain ⟨v, f, i⟩ := d
  simp only at h
  subst h
  simp [print, read, readBool, ofPair]

end Dual

/-! ### Splitting -/

section Split
variable {F : Type}

theorem split_aux (pop : List (Dual F)) (hi : ∀ x ∈ pop, x.init = true) : ∀ s : List (Dual F) × List (Dual F),
    pop.foldlM (fun s x => do
      let b ← isFeasible x
      return if b then (s.1 ++ [x], s.2) else (s.1, s.2 ++ [x])) s =
      some (s.1 ++ pop.filter (·.feasible), s.2 ++ pop.filter (fun d => !d.feasible)) := by
  induction pop with
  | nil => intro s; simp
  | cons x xs ih =>
    intro s
    rw [List.foldlM_cons]
    have hx : isFeasible x = some x.feasible := by unfold isFeasible; rw [if_pos (hi x (by simp))]
    rw [hx]
    show xs.foldlM _ (if x.feasible then _ else _) = _
    rw [ih (fun y hy => hi y (by simp [hy]))]
    cases hf : x.feasible <;> simp [List.filter_cons, hf]

/-- **C164** The split keeps every individual once: the feasible ones on one side, the others on the other, each in
the order of the population; merging gives the population back up to order. -/
theorem C164_split {pop : List (Dual F)} (hi : ∀ x ∈ pop, x.init = true) :
    ∃ s, split pop = some s ∧ (∀ x, x ∈ s.1 ↔ x ∈ pop ∧ x.feasible = true) ∧
      (∀ x, x ∈ s.2 ↔ x ∈ pop ∧ x.feasible = false) ∧ s.1.Sublist pop ∧ s.2.Sublist pop ∧ (merge s).Perm pop := by
  refine ⟨(pop.filter (·.feasible), pop.filter (fun d => !d.feasible)), ?_, ?_, ?_, List.filter_sublist,
    List.filter_sublist, ?_⟩
  · unfold split
    rw [split_aux pop hi]
    simp
  · intro x; simp
  · intro x; simp
  · exact List.filter_append_perm _ _

/-- **C164** Splitting a population sorted from the best to the worst and merging gives the same population. -/
theorem C164_split_sorted {cmp : F → F → Bool} {pop : List (Dual F)} (hi : ∀ x ∈ pop, x.init = true)
    (hs : pop.Pairwise (fun a b => lt cmp a b ≠ some true)) : (split pop).map merge = some pop := by
  unfold split
  rw [split_aux pop hi]
  simp only [Option.map_some, merge, List.nil_append, Option.some.injEq]
  exact (C164_sorted hi hs).symm

example : split [ofPair (1 : ℚ) false, ofPair 2 true, ofPair 3 false] =
    some ([ofPair 2 true], [ofPair 1 false, ofPair 3 false]) := by decide +kernel

/-- **C164** Each of the two statistics is called on its own part, and never on an empty one. -/
theorem C164_switch {pop : List (Dual F)} (hi : ∀ x ∈ pop, x.init = true) (sf su : List (Dual F) → String)
    (sep : String) :
    statSwitch sf su sep pop = some (
      (if ∃ x ∈ pop, x.feasible = true then sf (pop.filter (·.feasible)) else "?") ++ sep ++
      (if ∃ x ∈ pop, x.feasible = false then su (pop.filter (fun d => !d.feasible)) else "?")) := by
  unfold statSwitch split
  rw [split_aux pop hi]
  show some _ = some _
  have e1 : (0 < (pop.filter (·.feasible)).length) ↔ ∃ x ∈ pop, x.feasible = true := by
    rw [List.length_pos_iff_exists_mem]; simp
  have e2 : (0 < (pop.filter (fun d => !d.feasible)).length) ↔ ∃ x ∈ pop, x.feasible = false := by
    rw [List.length_pos_iff_exists_mem]; simp
  simp only [List.nil_append, e1, e2]

/-- **C164** The ratio of feasible individuals: their share of the population, between zero and one, one exactly when
all are feasible. -/
theorem C164_ratio [Field F] [LinearOrder F] [IsStrictOrderedRing F] {pop : List (Dual F)} (hne : pop ≠ [])
    (hi : ∀ x ∈ pop, x.init = true) :
    ∃ r, feasibleRatio pop = some r ∧ r * (pop.length : F) = ((pop.filter (·.feasible)).length : F) ∧
      0 ≤ r ∧ r ≤ 1 ∧ (r = 1 ↔ ∀ x ∈ pop, x.feasible = true) ∧ (r = 0 ↔ ∀ x ∈ pop, x.feasible = false) := by
  have key : ∀ (l : List (Dual F)), (∀ x ∈ l, x.init = true) → ∀ c : Nat, l.foldlM (fun c x => do
      let b ← isFeasible x
      return if b then c + 1 else c) c = some (c + (l.filter (·.feasible)).length) := by
    intro l
    induction l with
    | nil => intro _ c; simp
    | cons x xs ih =>
      intro h c
      rw [List.foldlM_cons]
      have hx : isFeasible x = some x.feasible := by unfold isFeasible; rw [if_pos (h x (by simp))]
      rw [hx]
      show xs.foldlM _ (if x.feasible then c + 1 else c) = _
      rw [ih (fun y hy => h y (by simp [hy]))]
      cases hf : x.feasible <;> simp [List.filter_cons, hf]; omega
  have hpos : 0 < pop.length := List.length_pos_iff.2 hne
  have hposF : (0 : F) < (pop.length : F) := by exact_mod_cast hpos
  have hle : (pop.filter (·.feasible)).length ≤ pop.length := List.length_filter_le _ _
  refine ⟨((pop.filter (·.feasible)).length : F) / (pop.length : F), ?_, ?_, ?_, ?_, ?_, ?_⟩
  · unfold feasibleRatio
    rw [if_neg (by omega), key pop hi 0, Nat.zero_add]
    rfl
  · field_simp
  · positivity
  · rw [div_le_one hposF]; exact_mod_cast hle
  · rw [div_eq_one_iff_eq hposF.ne']
    constructor
    · intro h
      have h' : (pop.filter (·.feasible)).length = pop.length := by exact_mod_cast h
      simpa [List.length_filter_eq_length_iff] using h'
    · intro h
      have h' : (pop.filter (·.feasible)).length = pop.length := by
        rw [List.length_filter_eq_length_iff]; exact h
      exact_mod_cast h'
  · rw [div_eq_zero_iff]
    constructor
    · rintro (h | h)
      · have h' : (pop.filter (·.feasible)).length = 0 := by exact_mod_cast h
        rw [List.length_eq_zero_iff, List.filter_eq_nil_iff] at h'
        intro x hx; simpa using h' x hx
      · exact absurd h hposF.ne'
    · intro h
      left
      have : pop.filter (·.feasible) = [] := List.filter_eq_nil_iff.2 (fun x hx => by simp [h x hx])
      rw [this]; simp

end Split

/-! ## Assembled fitness -/

section Asm
variable {F : Type}

/-- **C165** Among fitnesses with at least one term the comparison is the one of the first terms (the others, the
feasibility and the failure do not matter), and a strict weak order if that of the values is one. -/
theorem C165_order {cmp : F → F → Bool} (hc : StrictWeak (fun _ => True) (fun x y => cmp x y = true)) :
    StrictWeak (fun f : Asm F => f.terms ≠ []) (fun f g => asmLt cmp f g = true) ∧
    ∀ x y xs ys a b c d, asmLt cmp ⟨x :: xs, a, b⟩ ⟨y :: ys, c, d⟩ = cmp x y := by
  refine ⟨⟨?_, ?_, ?_⟩, fun _ _ _ _ _ _ _ _ => rfl⟩
  · rintro ⟨_ | ⟨x, xs⟩, a, b⟩ h
    · exact absurd rfl h
    · exact hc.irrefl x trivial
  · rintro ⟨_ | ⟨x, xs⟩, a, b⟩ ⟨_ | ⟨y, ys⟩, c, d⟩ ⟨_ | ⟨z, zs⟩, e, f⟩ h1 h2 h3
    all_goals first | exact absurd rfl h1 | exact absurd rfl h2 | exact absurd rfl h3 | skip
    exact hc.trans x y z trivial trivial trivial
  · rintro ⟨_ | ⟨x, xs⟩, a, b⟩ ⟨_ | ⟨y, ys⟩, c, d⟩ ⟨_ | ⟨z, zs⟩, e, f⟩ h1 h2 h3
    all_goals first | exact absurd rfl h1 | exact absurd rfl h2 | exact absurd rfl h3 | skip
    exact hc.incomp x y z trivial trivial trivial

/-- **C165** The four comparisons agree. -/
theorem C165_operators (cmp : F → F → Bool) (f g : Asm F) :
    asmGt cmp f g = asmLt cmp g f ∧ (asmLe cmp f g = true ↔ asmGt cmp f g = false) ∧
    (asmGe cmp f g = true ↔ asmLt cmp f g = false) := by
  refine ⟨rfl, ?_, ?_⟩
  · unfold asmLe; simp
  · unfold asmGe; simp

/-- **C165** (defect) A fitness without terms is equivalent to every other one: with two fitnesses one of which is
better, the comparison is not a strict weak order, and sorting a population holding a fitness without terms is
undefined. -/
theorem C165_empty_term (cmp : F → F → Bool) (x y : F) (h : cmp x y = true) :
    ¬ StrictWeak (fun _ : Asm F => True) (fun f g => asmLt cmp f g = true) := by
  intro hs
  have := hs.incomp (asmOfScalar x) ⟨[], true, false⟩ (asmOfScalar y) trivial trivial trivial
    (by simp [asmLt, asmOfScalar]) (by simp [asmLt]) (by simp [asmLt]) (by simp [asmLt, asmOfScalar])
  exact this.1 h

theorem resizeTo_length {α : Type} (l : List α) (n : Nat) (s : α) : (resizeTo l n s).length = n := by
  unfold resizeTo
  simp only [List.length_append, List.length_take, List.length_replicate]
  omega

/-- **C165** (defect) Naming a term: in range only that name changes; out of range the name is written past the end of
the shared vector of names. -/
theorem C165_describe (tr : List String) (idx : Nat) (s : String) :
    (idx < tr.length → ∃ tr', setDescription tr idx s = .ok tr' ∧ tr'.length = tr.length ∧
      getDescription tr' idx = s ∧ ∀ k, k ≠ idx → getDescription tr' k = getDescription tr k) ∧
    (tr.length ≤ idx → setDescription tr idx s = .outOfBounds) := by
  constructor
  · intro h
    refine ⟨tr.set idx s, ?_, by simp, ?_, ?_⟩
    · unfold setDescription writeAt; rw [if_pos h, if_pos h]
    · unfold getDescription; rw [List.getElem?_set_self h]; rfl
    · intro k hk
      unfold getDescription
      rw [List.getElem?_set_ne hk.symm]
  · intro h
    unfold setDescription writeAt
    rw [if_neg (by omega), if_neg (by rw [resizeTo_length]; omega)]

/-- **C165** (defect) Appending a term is safe exactly when the shared vector already holds a name for it: a fitness
can only be assembled term by term after the names were declared. -/
theorem C165_push (f : Asm F) (v : F) (s : String) (tr : List String) :
    (f.terms.length < tr.length → ∃ tr', pushBack f v tr = .ok ({ f with terms := f.terms ++ [v] }, tr) ∧
      pushBackDescr f v s tr = .ok ({ f with terms := f.terms ++ [v] }, tr') ∧
      getDescription tr' f.terms.length = s) ∧
    (tr.length ≤ f.terms.length → pushBack f v tr = .outOfBounds ∧ pushBackDescr f v s tr = .outOfBounds) := by
  have hl : (f.terms ++ [v]).length - 1 = f.terms.length := by simp
  constructor
  · intro h
    obtain ⟨tr', e, _, hd, _⟩ := (C165_describe tr f.terms.length s).1 h
    refine ⟨tr', ?_, ?_, hd⟩
    · unfold pushBack
      rw [if_neg (by simp; omega)]
    · unfold pushBackDescr
      simp only [hl, e]
  · intro h
    constructor
    · unfold pushBack
      rw [if_pos (by simp; omega)]
      simp only [hl, (C165_describe tr f.terms.length _).2 h]
    · unfold pushBackDescr
      simp only [hl, (C165_describe tr f.terms.length s).2 h]

example : pushBack (asmDefault [] : Asm ℚ) 3 [] = .outOfBounds := by decide +kernel

/-- **C165** Assigning a scalar changes the first term only; on a fitness without terms, and without declared names, it
writes out of bounds. -/
theorem C165_assign (f : Asm F) (v : F) (tr : List String) :
    (f.terms ≠ [] → ∃ g, asmAssign f v tr = .ok (g, tr) ∧ g.terms.length = f.terms.length ∧
      g.terms[0]? = some v ∧ (∀ k, 0 < k → g.terms[k]? = f.terms[k]?) ∧ g.feasible = f.feasible ∧
      g.failed = f.failed) ∧
    (f.terms = [] → tr = [] → asmAssign f v tr = .outOfBounds) := by
  obtain ⟨ts, a, b⟩ := f
  constructor
  · intro h
    match ts, h with
    | x :: t, _ =>
      refine ⟨⟨v :: t, a, b⟩, rfl, rfl, rfl, ?_, rfl, rfl⟩
      intro k hk
      match k, hk with
      | k + 1, _ => rfl
  · rintro rfl rfl
    exact ((C165_push (F := F) ⟨[], a, b⟩ v "" []).2 (le_refl _)).1

/-- **C165** Names are shared: resizing one fitness fixes the number of terms of every fitness built afterwards with
the default constructor, and forgets the names of the other fitnesses beyond that number. -/
theorem C165_shared_names [Zero F] (f : Asm F) (n : Nat) (v : F) (s : String) (tr : List String) :
    (asmResize f n v s tr).1.terms.length = n ∧
    (asmDefault (asmResize f n v s tr).2 : Asm F).terms.length = n ∧
    (∀ k, n ≤ k → getDescription (asmResize f n v s tr).2 k = "Unnamed Variable") ∧
    (∀ k, k < n → k < tr.length → getDescription (asmResize f n v s tr).2 k = getDescription tr k) ∧
    (∀ k, k < n → tr.length ≤ k → getDescription (asmResize f n v s tr).2 k = s) := by
  refine ⟨resizeTo_length _ _ _, ?_, ?_, ?_, ?_⟩
  · simp only [asmDefault, List.length_replicate]; exact resizeTo_length _ _ _
  · intro k hk
    unfold getDescription
    rw [List.getElem?_eq_none (by rw [show (asmResize f n v s tr).2.length = n from resizeTo_length _ _ _]; exact hk)]
    rfl
  · intro k hk hk'
    unfold getDescription
    show ((resizeTo tr n s)[k]?).getD _ = _
    unfold resizeTo
    rw [List.getElem?_append_left (by simp; omega), List.getElem?_take_of_lt hk]
  · intro k hk hk'
    unfold getDescription
    show ((resizeTo tr n s)[k]?).getD _ = _
    unfold resizeTo
    rw [List.getElem?_append_right (by simp; omega), List.getElem?_replicate]
    rw [if_pos (by simp; omega)]
    rfl

/-! ### Text -/

theorem readTerms_append (ts : List F) (s : List F) : readTerms ts.length (ts ++ s) = some (ts, s) := by
  induction ts with
  | nil => rfl
  | cons x xs ih => simp [readTerms, ih]

theorem readTerms_some : ∀ {n : Nat} {s : List F} {r : List F × List F}, readTerms n s = some r →
    r.1.length = n ∧ s = r.1 ++ r.2 := by
  intro n
  induction n with
  | zero => intro s r h; simp only [readTerms, Option.some.injEq] at h; subst h; simp
  | succ n ih =>
    intro s r h
    match s with
    | [] => cases h
    | x :: s =>
      simp only [readTerms, Option.map_eq_some_iff] at h
      obtain ⟨r', e, rfl⟩ := h
      obtain ⟨h1, h2⟩ := ih e
      simp [h1, ← h2]

theorem readTerms_short : ∀ {n : Nat} {s : List F}, s.length < n → readTerms n s = none := by
  intro n
  induction n with
  | zero => intro s h; omega
  | succ n ih =>
    intro s h
    match s with
    | [] => rfl
    | x :: s => simp only [readTerms]; rw [ih (by simp at h; omega)]; rfl

variable [Field F] [DecidableEq F]

/-- **C165** Reading into a fitness with as many terms gives back the terms, the feasibility and the failure, and leaves
the stream after them. -/
theorem C165_round_trip (f g : Asm F) (h : g.terms.length = f.terms.length) (rest : List F) :
    asmRead g (asmPrint f ++ rest) = .ok (f, some rest) := by
  unfold asmRead asmPrint
  rw [h, List.append_assoc, readTerms_append]
  obtain ⟨ts, a, b⟩ := f
  cases a <;> cases b <;> simp [boolTok, readBool]

/-- **C165** (defect) The number of terms is not in the text: reading into a fitness with another number of terms never
gives the printed fitness back, and with more terms, at the end of the text, the stream fails or terms get values
that were never read. -/
theorem C165_wrong_size (f g : Asm F) (h : g.terms.length ≠ f.terms.length) :
    (∀ rest r, asmRead g (asmPrint f ++ rest) = .ok r → r.1 ≠ f) ∧
    (f.terms.length < g.terms.length → ∀ r, asmRead g (asmPrint f) = .ok r → r.2 = none) ∧
    (f.terms.length + 2 < g.terms.length → asmRead g (asmPrint f) = .indeterminate) := by
  refine ⟨?_, ?_, ?_⟩
  · intro rest r hr he
    apply h
    unfold asmRead at hr
    cases e : readTerms g.terms.length (asmPrint f ++ rest) with
    | none => rw [e] at hr; cases hr
    | some q =>
      obtain ⟨ts, s⟩ := q
      have hl := (readTerms_some e).1
      rw [e] at hr
      have : r.1.terms = ts := by
        match s, hr with
        | [], hr => injection hr with hr; rw [← hr]
        | [a], hr => injection hr with hr; rw [← hr]
        | a :: b :: s, hr =>
          simp only at hr
          split at hr <;> (injection hr with hr; rw [← hr])
      rw [← hl, ← he, this]
  · intro hlt r hr
    unfold asmRead at hr
    cases e : readTerms g.terms.length (asmPrint f) with
    | none => rw [e] at hr; cases hr
    | some q =>
      obtain ⟨ts, s⟩ := q
      obtain ⟨hl, hs⟩ := readTerms_some e
      have hlen := congrArg List.length hs
      simp only [asmPrint, List.length_append, List.length_cons, List.length_nil] at hlen
      simp only at hl
      rw [e] at hr
      match s, hr, hlen with
      | [], hr, _ => injection hr with hr; rw [← hr]
      | [a], hr, _ => injection hr with hr; rw [← hr]
      | a :: b :: s, hr, hlen => simp only [List.length_cons] at hlen; omega
  · intro hlt
    unfold asmRead
    rw [readTerms_short (by simp [asmPrint]; omega)]

/-! ### Statistics -/

theorem average_loop (k : Nat) : ∀ (pop : List (Asm F)) (a : F) (c : Nat),
    (∀ f ∈ pop, f.failed = false → k < f.terms.length) →
    asmAverageLoop k pop a c = .ok
      (a + ((pop.filter (fun f => !f.failed)).map (fun f => f.terms.getD k 0)).sum,
       c + (pop.filter (fun f => !f.failed)).length) := by
  intro pop
  induction pop with
  | nil => intro a c _; simp [asmAverageLoop]
  | cons f fs ih =>
    intro a c h
    unfold asmAverageLoop
    cases hf : f.failed
    · have hk := h f (by simp) hf
      rw [if_pos rfl, List.getElem?_eq_getElem hk]
      simp only
      rw [ih _ _ (fun g hg => h g (by simp [hg]))]
      simp only [List.filter_cons, hf, Bool.not_false, if_true, List.map_cons, List.sum_cons, List.length_cons,
        List.getD_eq_getElem?_getD, List.getElem?_eq_getElem hk, Option.getD_some]
      congr 2
      · ring
      · omega
    · rw [if_neg (by simp), ih _ _ (fun g hg => h g (by simp [hg]))]
      simp [List.filter_cons, hf]

theorem average_loop_oob (k : Nat) : ∀ (pop : List (Asm F)) (a : F) (c : Nat),
    (∃ f ∈ pop, f.failed = false ∧ f.terms.length ≤ k) → asmAverageLoop k pop a c = .outOfBounds := by
  intro pop
  induction pop with
  | nil => rintro a c ⟨f, hf, _⟩; cases hf
  | cons f fs ih =>
    rintro a c ⟨g, hg, h1, h2⟩
    unfold asmAverageLoop
    rcases List.mem_cons.1 hg with rfl | hg
    · rw [if_pos h1, List.getElem?_eq_none h2]
    · cases f.failed
      · rw [if_pos rfl]
        cases f.terms[k]? with
        | none => rfl
        | some x => exact ih _ _ ⟨g, hg, h1, h2⟩
      · rw [if_neg (by simp)]; exact ih _ _ ⟨g, hg, h1, h2⟩

/-- **C165** The average of a term: the sum of that term over the fitnesses that did not fail, and their number. -/
theorem C165_average (k : Nat) (pop : List (Asm F)) (hne : pop ≠ []) (h : ∀ f ∈ pop, k < f.terms.length) :
    asmAverage k pop = .ok (((pop.filter (fun f => !f.failed)).map (fun f => f.terms.getD k 0)).sum,
      (pop.filter (fun f => !f.failed)).length) := by
  match pop, hne with
  | f :: fs, _ =>
    unfold asmAverage
    simp only
    rw [if_neg (by have := h f (by simp); omega), average_loop k _ _ _ (fun g hg _ => h g hg), zero_add, Nat.zero_add]

example : asmAverage 1 [(⟨[1, 4], true, false⟩ : Asm ℚ), ⟨[1, 100], true, true⟩, ⟨[3, 6], false, false⟩] =
    .ok (10, 2) := by decide +kernel

/-- **C165** (defect) Whether the term exists is looked at on the first individual only: an exception if it lacks the
term, even when it failed, and a reading out of bounds if a later one that did not fail lacks it, or if the population
is empty. -/
theorem C165_average_range (k : Nat) (f : Asm F) (fs : List (Asm F)) :
    (f.terms.length ≤ k → asmAverage k (f :: fs) = .thrown) ∧
    (k < f.terms.length → (∃ g ∈ fs, g.failed = false ∧ g.terms.length ≤ k) →
      asmAverage k (f :: fs) = .outOfBounds) ∧
    asmAverage k ([] : List (Asm F)) = .outOfBounds := by
  refine ⟨?_, ?_, rfl⟩
  · intro h; unfold asmAverage; simp only; rw [if_pos h]
  · rintro h ⟨g, hg, h1, h2⟩
    unfold asmAverage
    simp only
    rw [if_neg (by omega)]
    exact average_loop_oob k _ _ _ ⟨g, by simp [hg], h1, h2⟩

end Asm

section Best
variable {F : Type}

theorem asmMax_aux {cmp : F → F → Bool} (hc : StrictWeak (fun _ => True) (fun x y => cmp x y = true)) :
    ∀ (xs : List (Asm F)) (x : Asm F), x.terms ≠ [] → (∀ y ∈ xs, y.terms ≠ []) →
      (xs.foldl (fun best y => if asmLt cmp best y then y else best) x) ∈ x :: xs ∧
      ∀ y ∈ x :: xs, asmLt cmp (xs.foldl (fun best y => if asmLt cmp best y then y else best) x) y ≠ true := by
  have hsw := (C165_order hc).1
  intro xs
  induction xs with
  | nil =>
    intro x hx _
    exact ⟨by simp, by intro y hy; simp only [List.mem_singleton] at hy; subst hy; exact hsw.irrefl y hx⟩
  | cons z zs ih =>
    intro x hx hz
    have hzi := hz z (by simp)
    have hzs : ∀ y ∈ zs, y.terms ≠ [] := fun y hy => hz y (by simp [hy])
    rw [List.foldl_cons]
    by_cases hl : asmLt cmp x z = true
    · rw [if_pos hl]
      obtain ⟨hm, hmax⟩ := ih z hzi hzs
      refine ⟨List.mem_cons_of_mem _ hm, ?_⟩
      intro y hy
      rcases List.mem_cons.1 hy with rfl | hy
      · intro hlt
        have hb : (zs.foldl (fun best y => if asmLt cmp best y then y else best) z).terms ≠ [] := by
          rcases List.mem_cons.1 hm with e | e
          · rw [e]; exact hzi
          · exact hzs _ e
        exact hmax z (by simp) (hsw.trans _ y z hb hx hzi hlt hl)
      · exact hmax y hy
    · rw [if_neg hl]
      obtain ⟨hm, hmax⟩ := ih x hx hzs
      have hb : (zs.foldl (fun best y => if asmLt cmp best y then y else best) x).terms ≠ [] := by
        rcases List.mem_cons.1 hm with e | e
        · rw [e]; exact hx
        · exact hzs _ e
      refine ⟨by simp at hm ⊢; tauto, ?_⟩
      intro y hy
      rcases List.mem_cons.1 hy with rfl | hy
      · exact hmax y (by simp)
      · rcases List.mem_cons.1 hy with rfl | hy
        · intro hlt
          have h2 := hmax x (by simp)
          by_cases h3 : asmLt cmp y x = true
          · exact h2 (hsw.trans _ y x hb hzi hx hlt h3)
          · by_cases h4 : asmLt cmp x (zs.foldl (fun best y => if asmLt cmp best y then y else best) x) = true
            · exact hl (hsw.trans x _ y hx hb hzi h4 hlt)
            · exact (hsw.incomp _ x y hb hx hzi h2 h4 hl h3).1 hlt
        · exact hmax y (by simp [hy])

/-- **C165** The best value of a term is that term of an individual whose first term no other one beats (failed
individuals are not left out). -/
theorem C165_best {cmp : F → F → Bool} (hc : StrictWeak (fun _ => True) (fun x y => cmp x y = true)) (k : Nat)
    (pop : List (Asm F)) (hne : pop ≠ []) (h : ∀ f ∈ pop, k < f.terms.length) :
    ∃ b ∈ pop, (∀ f ∈ pop, asmLt cmp b f = false) ∧ ∃ x, b.terms[k]? = some x ∧ asmBest cmp k pop = .ok x := by
  match pop, hne with
  | f :: fs, _ =>
    have hn : ∀ g ∈ f :: fs, g.terms ≠ [] := by
      intro g hg e
      have := h g hg
      rw [e] at this; simp at this
    obtain ⟨hm, hmax⟩ := asmMax_aux hc fs f (hn f (by simp)) (fun g hg => hn g (by simp [hg]))
    refine ⟨_, hm, fun g hg => by simpa using hmax g hg, _, List.getElem?_eq_getElem (h _ hm), ?_⟩
    unfold asmBest
    simp only
    rw [if_neg (by have := h f (by simp); omega)]
    simp only [asmMaxElement]
    rw [List.getElem?_eq_getElem (h _ hm)]

example : asmBest (fun x y : ℚ => decide (x < y)) 1 [⟨[1, 4], true, false⟩, ⟨[7, 5], true, true⟩] = .ok 5 := by
  decide +kernel

end Best

end Paradiseo.Fit
