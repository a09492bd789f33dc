import Verif.Lemmas.MoeoDepth
import Verif.Props.Moeo
/-
Properties C38, C39 and C71: dominance-depth fitness.
-/
namespace Paradiseo.Moeo

/-! ## Specification: depth as the length of the longest dominating chain -/

/-- `q, l₀, l₁, …` : every element dominates the one before it; all are in the population `mem`. -/
def UpChain (mem : Nat → Prop) (dom : Nat → Nat → Prop) (q : Nat) (l : List Nat) : Prop :=
  List.IsChain (fun a b => dom b a) (q :: l) ∧ ∀ x ∈ l, mem x

/-- `k` is the number of elements of the longest chain of successive dominators starting from `q`,
`q` included. -/
def IsDepth (mem : Nat → Prop) (dom : Nat → Nat → Prop) (q k : Nat) : Prop :=
  (∃ l, UpChain mem dom q l ∧ l.length + 1 = k) ∧ ∀ l, UpChain mem dom q l → l.length + 1 ≤ k

theorem isDepth_unique {mem : Nat → Prop} {dom : Nat → Nat → Prop} {q k k' : Nat}
    (h : IsDepth mem dom q k) (h' : IsDepth mem dom q k') : k = k' := by
  obtain ⟨⟨l, a, b⟩, c⟩ := h
  obtain ⟨⟨l', a', b'⟩, c'⟩ := h'
  have := c _ a'; have := c' _ a; omega

/-- From the local characterisation to chains. -/
theorem isDepth_of_local {mem : Nat → Prop} {dom : Nat → Nat → Prop} {r : Nat → Nat}
    (hpos : ∀ q, mem q → 1 ≤ r q) (hgt : ∀ q, mem q → ∀ p, mem p → dom p q → r p < r q)
    (hstep : ∀ q, mem q → r q = 1 ∨ ∃ p, mem p ∧ dom p q ∧ r p + 1 = r q) (q : Nat) (hq : mem q) :
    IsDepth mem dom q (r q) := by
  constructor
  · have : ∀ k q, mem q → r q = k → ∃ l, UpChain mem dom q l ∧ l.length + 1 = k := by
      intro k
      induction k with
      | zero => intro q hq h; have := hpos q hq; omega
      | succ k ih =>
        intro q hq h
        rcases hstep q hq with h1 | ⟨p, hp, hd, hr⟩
        · exact ⟨[], ⟨by simp, by simp⟩, by simp; omega⟩
        · obtain ⟨l, ⟨h1, h2⟩, h3⟩ := ih p hp (by omega)
          refine ⟨p :: l, ⟨?_, ?_⟩, by simp; omega⟩
          · exact List.isChain_cons_cons.2 ⟨hd, h1⟩
          · intro x hx
            rcases List.mem_cons.1 hx with rfl | hx
            · exact hp
            · exact h2 x hx
    exact this _ q hq rfl
  · intro l
    induction l generalizing q with
    | nil => intro _; simpa using hpos q hq
    | cons p l ih =>
      rintro ⟨h1, h2⟩
      rw [List.isChain_cons_cons] at h1
      have hp := h2 p (by simp)
      have := ih p hp ⟨h1.2, fun x hx => h2 x (by simp [hx])⟩
      have := hgt q hq p hp h1.1
      simp; omega

/-! ## C38 -/

/-- With more than two objectives and any strict partial order as comparator: the assignment ends, never
indexes the array of fronts outside, and gives every individual its depth. -/
theorem C38_depth {V : Type} (cmp : V → V → Bool) (hirr : ∀ v, cmp v v = false)
    (htr : ∀ u v w, cmp u v = true → cmp v w = true → cmp u w = true) (ov : Nat → V) (N : Nat) :
    ∃ fit, mObjectives (fun p q => cmp (ov q) (ov p)) N = some fit ∧
      ∀ q < N, ∃ k, fit q = some k ∧ IsDepth (· < N) (fun p q => cmp (ov q) (ov p) = true) q k := by
  obtain ⟨fit, r, h1, h2, h3⟩ := mObjectives_spec (N := N) (dom := fun p q => cmp (ov q) (ov p))
    (fun p => hirr _) (fun p q r a b => htr _ _ _ b a)
  refine ⟨fit, h1, fun q hq => ⟨r q, h2 q hq, ?_⟩⟩
  exact isDepth_of_local h3.pos h3.gt h3.step q hq

/-- In particular with Pareto dominance (tolerance 0). -/
theorem C38_pareto {n : Nat} {F : Type} [Field F] [LinearOrder F] [IsStrictOrderedRing F]
    (T : Traits n F) (h0 : T.tol = 0) (ov : Nat → Fin n → F) (N : Nat) :
    ∃ fit, mObjectives (fun p q => paretoCmp T (ov q) (ov p)) N = some fit ∧
      ∀ q < N, ∃ k, fit q = some k ∧
        IsDepth (· < N) (fun p q => Dominates T.minimizing (ov p) (ov q)) q k := by
  have := C38_depth (paretoCmp T) (fun v => (C31_asymmetric T h0.ge v v).1)
    (fun u v w => C31_transitive T h0 u v w) ov N
  simpa only [C31_pareto_spec T h0] using this

/-- Three objectives: `(1,1,1)`, `(2,2,2)`, `(0,5,0)`, `(3,6,3)` get 1, 2, 1, 3. -/
example : (mObjectives (fun p q => paretoCmp (⟨![true, true, true], 0⟩ : Traits 3 ℚ)
      ((fun i => (![![1, 1, 1], ![2, 2, 2], ![0, 5, 0], ![3, 6, 3]] : Fin 4 → Fin 3 → ℚ) (Fin.ofNat 4 i)) q)
      ((fun i => (![![1, 1, 1], ![2, 2, 2], ![0, 5, 0], ![3, 6, 3]] : Fin 4 → Fin 3 → ℚ) (Fin.ofNat 4 i)) p)) 4).map
    (fun f => [f 0, f 1, f 2, f 3]) = some [some 1, some 2, some 1, some 3] := by decide +kernel

/-- The final fitness reverses the ranks: the larger the better, the last front has 0. -/
theorem C38_fitness (ranks fitness : List Nat) (h : depthFinal ranks = some fitness) :
    fitness.length = ranks.length ∧ 0 ∈ fitness ∧
    ∀ i j : Nat, ∀ a b x y : Nat, ranks[i]? = some a → ranks[j]? = some b → fitness[i]? = some x →
      fitness[j]? = some y → (a < b ↔ y < x) := by
  cases ranks with
  | nil => simp [depthFinal] at h
  | cons r l =>
    simp only [depthFinal, Option.some.injEq] at h
    have hmax : ∀ (l : List Nat) (r : Nat), (∀ x ∈ r :: l, x ≤ l.foldl max r) ∧ l.foldl max r ∈ r :: l := by
      intro l
      induction l with
      | nil => intro r; simp
      | cons a l ih =>
        intro r
        obtain ⟨h1, h2⟩ := ih (max r a)
        rw [List.foldl_cons]
        constructor
        · intro x hx
          rcases List.mem_cons.1 hx with rfl | hx
          · exact le_trans (le_max_left _ a) (h1 _ (by simp))
          · rcases List.mem_cons.1 hx with rfl | hx
            · exact le_trans (le_max_right r _) (h1 _ (by simp))
            · exact h1 x (by simp [hx])
        · rcases List.mem_cons.1 h2 with h2 | h2
          · rcases le_total r a with hra | hra
            · rw [h2, max_eq_right hra]; simp
            · rw [h2, max_eq_left hra]; simp
          · simp [h2]
    obtain ⟨h1, h2⟩ := hmax l r
    subst h
    refine ⟨by simp, ?_, ?_⟩
    · exact List.mem_map.2 ⟨_, h2, by simp⟩
    · intro i j a b x y ha hb hx hy
      rw [List.getElem?_map, ha] at hx
      rw [List.getElem?_map, hb] at hy
      simp only [Option.map_some, Option.some.injEq] at hx hy
      have := h1 a (List.mem_of_getElem? ha)
      have := h1 b (List.mem_of_getElem? hb)
      omega

/-- With one objective (tolerance 0): after the sort, each individual has its depth. -/
theorem C38_one {F : Type} [Field F] [LinearOrder F] [IsStrictOrderedRing F] (T : Traits 1 F)
    (h0 : T.tol = 0) (sorted : List (Fin 1 → F))
    (hs : sorted.Pairwise fun a b => objComparator T b a = false) :
    (oneObjective (eqCmp T) sorted).length = sorted.length ∧
    ∀ q k, (oneObjective (eqCmp T) sorted)[q]? = some k →
      IsDepth (· < sorted.length) (fun p q => ∃ u v, sorted[p]? = some v ∧ sorted[q]? = some u ∧
        Dominates T.minimizing v u) q k := by
  -- strictly-better-or-equal along the list
  have hobj : ∀ a b : Fin 1 → F, objComparator T b a = false ↔ NoWorse (T.minimizing 0) (a 0) (b 0) := by
    intro a b
    unfold objComparator
    have hl : ∀ u v : Fin 1 → F, lexCmp T u v = true ↔ u 0 < v 0 := by
      intro u v
      rw [C32_lex_spec T h0]
      constructor
      · rintro ⟨i, _, h⟩
        rwa [Subsingleton.elim i 0] at h
      · intro h; exact ⟨0, fun j hj => by simp at hj, h⟩
    cases hm : T.minimizing 0 <;>
      simp only [Bool.false_eq_true, if_false, if_true, ← Bool.not_eq_true, hl, not_lt, NoWorse]
  have heq : ∀ a b : Fin 1 → F, eqCmp T a b = true ↔ a 0 = b 0 := by
    intro a b
    unfold eqCmp
    rw [eqLoop_iff]
    simp [h0, sub_eq_zero]
  have hdom : ∀ a b : Fin 1 → F, Dominates T.minimizing a b ↔ Better (T.minimizing 0) (a 0) (b 0) := by
    intro a b
    unfold Dominates
    constructor
    · rintro ⟨_, i, h⟩; rwa [Subsingleton.elim i 0] at h
    · intro h
      refine ⟨fun i => ?_, 0, h⟩
      rw [Subsingleton.elim i 0]
      cases hm : T.minimizing 0 <;> rw [hm] at h <;> exact le_of_lt h
  have hnb : ∀ a b : Fin 1 → F, NoWorse (T.minimizing 0) (a 0) (b 0) ↔
      Better (T.minimizing 0) (a 0) (b 0) ∨ a 0 = b 0 := by
    intro a b
    cases hm : T.minimizing 0
    · simp only [NoWorse, Better, le_iff_lt_or_eq, eq_comm]
    · simp only [NoWorse, Better, le_iff_lt_or_eq]
  have hbt : ∀ a b c : F, Better (T.minimizing 0) a b → NoWorse (T.minimizing 0) b c →
      Better (T.minimizing 0) a c := by
    intro a b c
    cases hm : T.minimizing 0
    · exact fun h1 h2 => lt_of_le_of_lt h2 h1
    · exact fun h1 h2 => lt_of_lt_of_le h1 h2
  simp only [hobj] at hs
  -- the ranking loop
  have hlen : ∀ (l : List (Fin 1 → F)) prev rank, (oneObjective.go (eqCmp T) prev rank l).length = l.length := by
    intro l
    induction l with
    | nil => intros; rfl
    | cons a l ih => intro prev rank; simp [oneObjective.go, ih]
  -- pairs (vector, rank): ordered, and equal ranks mean equal values
  have hgo : ∀ (l : List (Fin 1 → F)) prev rank, 1 ≤ rank →
      (prev :: l).Pairwise (fun a b => NoWorse (T.minimizing 0) (a 0) (b 0)) →
      ((prev, rank) :: l.zip (oneObjective.go (eqCmp T) prev rank l)).Pairwise (fun x y =>
        x.2 = y.2 ∧ x.1 0 = y.1 0 ∨ x.2 < y.2 ∧ Better (T.minimizing 0) (x.1 0) (y.1 0)) ∧
      ∀ y ∈ l.zip (oneObjective.go (eqCmp T) prev rank l), y.2 = rank ∨ (rank < y.2 ∧
        ∃ x ∈ (prev, rank) :: l.zip (oneObjective.go (eqCmp T) prev rank l),
          x.2 + 1 = y.2) := by
    intro l
    induction l with
    | nil => intro prev rank _ _; simp
    | cons a l ih =>
      intro prev rank hr hp
      rw [List.pairwise_cons] at hp
      set r := if !eqCmp T a prev then rank + 1 else rank with hrdef
      have hrr : r = rank ∧ a 0 = prev 0 ∨ r = rank + 1 ∧ Better (T.minimizing 0) (prev 0) (a 0) := by
        by_cases he : eqCmp T a prev = true
        · left; exact ⟨by simp [hrdef, he], (heq a prev).1 he⟩
        · right
          refine ⟨by simp [hrdef, he], ?_⟩
          rcases (hnb prev a).1 (hp.1 a (by simp)) with h | h
          · exact h
          · exact absurd ((heq a prev).2 h.symm) he
      obtain ⟨h1, h2⟩ := ih a r (by omega) hp.2
      have hz : (a :: l).zip (oneObjective.go (eqCmp T) prev rank (a :: l)) =
          (a, r) :: l.zip (oneObjective.go (eqCmp T) a r l) := by
        simp [oneObjective.go, hrdef]
      rw [hz]
      constructor
      · rw [List.pairwise_cons]
        refine ⟨?_, h1⟩
        intro y hy
        have key : ∀ y : (Fin 1 → F) × Nat, (r = y.2 ∧ a 0 = y.1 0 ∨ r < y.2 ∧
            Better (T.minimizing 0) (a 0) (y.1 0)) →
            (rank = y.2 ∧ prev 0 = y.1 0 ∨ rank < y.2 ∧ Better (T.minimizing 0) (prev 0) (y.1 0)) := by
          rintro y (⟨e1, e2⟩ | ⟨e1, e2⟩)
          · rcases hrr with ⟨f1, f2⟩ | ⟨f1, f2⟩
            · left; exact ⟨by omega, by rw [← f2, e2]⟩
            · right; exact ⟨by omega, by rw [← e2]; exact f2⟩
          · rcases hrr with ⟨f1, f2⟩ | ⟨f1, f2⟩
            · right; exact ⟨by omega, by rw [← f2]; exact e2⟩
            · right
              refine ⟨by omega, hbt _ _ _ f2 ?_⟩
              exact (hnb a y.1).2 (Or.inl e2)
        apply key
        rcases List.mem_cons.1 hy with rfl | hy
        · left; simp
        · exact (List.pairwise_cons.1 h1).1 y hy
      · intro y hy
        rcases List.mem_cons.1 hy with rfl | hy
        · rcases hrr with ⟨f1, _⟩ | ⟨f1, _⟩
          · left; exact f1
          · right; exact ⟨by simp [f1], (prev, rank), by simp, by simp [f1]⟩
        · rcases h2 y hy with h | ⟨h3, x, hx, hxy⟩
          · rcases hrr with ⟨f1, _⟩ | ⟨f1, _⟩
            · left; omega
            · right; exact ⟨by omega, (prev, rank), by simp, by simp; omega⟩
          · right
            exact ⟨by omega, x, List.mem_cons_of_mem _ hx, hxy⟩
  cases sorted with
  | nil => simp [oneObjective]
  | cons v l =>
    have hl : (oneObjective (eqCmp T) (v :: l)).length = (v :: l).length := by
      simp [oneObjective, hlen]
    refine ⟨hl, ?_⟩
    obtain ⟨h1, h2⟩ := hgo l v 1 le_rfl hs
    have hz : (v :: l).zip (oneObjective (eqCmp T) (v :: l)) =
        (v, 1) :: l.zip (oneObjective.go (eqCmp T) v 1 l) := by simp [oneObjective]
    rw [← hz] at h1 h2
    set ranks := oneObjective (eqCmp T) (v :: l) with hranks
    set S := v :: l with hS
    have hget : ∀ (q : Nat) (hq : q < S.length), (S.zip ranks)[q]? = some (S[q], ranks[q]'(by omega)) := by
      intro q hq
      rw [List.getElem?_eq_getElem (by simp; omega), List.getElem_zip]
    have hpair := List.pairwise_iff_getElem.1 h1
    intro q k hk
    obtain ⟨hq, hk⟩ := List.getElem?_eq_some_iff.1 hk
    have := isDepth_of_local (mem := (· < S.length))
      (dom := fun p q => ∃ u v, S[p]? = some v ∧ S[q]? = some u ∧ Dominates T.minimizing v u)
      (r := fun q => ranks.getD q 0) ?_ ?_ ?_ q (by omega)
    · have e : ranks.getD q 0 = k := by simp [List.getD, List.getElem?_eq_getElem hq, hk]
      simpa only [e] using this
    · intro q hq
      have e : ranks.getD q 0 = ranks[q]'(by omega) := by
        simp [List.getD, List.getElem?_eq_getElem (show q < ranks.length by omega)]
      rw [e]
      rcases Nat.eq_zero_or_pos q with rfl | hpos
      · simp [hranks, oneObjective, hS]
      · have := hpair 0 q (by simp; omega) (by simp; omega) hpos
        simp only [List.getElem_zip] at this
        have e0 : ranks[0]'(by omega) = 1 := by simp [hranks, oneObjective, hS]
        rw [e0] at this
        omega
    · rintro q hq p hp ⟨u, w, hw, hu, hd⟩
      obtain ⟨hp', rfl⟩ := List.getElem?_eq_some_iff.1 hw
      obtain ⟨hq', rfl⟩ := List.getElem?_eq_some_iff.1 hu
      rw [hdom] at hd
      have e : ∀ q (hq : q < S.length), ranks.getD q 0 = ranks[q]'(by omega) := by
        intro q hq
        simp [List.getD, List.getElem?_eq_getElem (show q < ranks.length by omega)]
      rw [e p hp, e q hq]
      have hirr : ∀ a : F, ¬ Better (T.minimizing 0) a a := by
        intro a; cases T.minimizing 0 <;> exact lt_irrefl a
      rcases Nat.lt_trichotomy p q with hlt | heq' | hgt
      · have := hpair p q (by simp; omega) (by simp; omega) hlt
        simp only [List.getElem_zip] at this
        rcases this with ⟨_, h⟩ | ⟨h, _⟩
        · rw [h] at hd; exact absurd hd (hirr _)
        · exact h
      · subst heq'; exact absurd hd (hirr _)
      · have := hpair q p (by simp; omega) (by simp; omega) hgt
        simp only [List.getElem_zip] at this
        rcases this with ⟨_, h⟩ | ⟨_, h⟩
        · rw [h] at hd; exact absurd hd (hirr _)
        · exfalso
          exact hirr _ (hbt _ _ _ hd ((hnb _ _).2 (Or.inl h)))
    · intro q hq
      have e : ∀ q (hq : q < S.length), ranks.getD q 0 = ranks[q]'(by omega) := by
        intro q hq
        simp [List.getD, List.getElem?_eq_getElem (show q < ranks.length by omega)]
      rw [e q hq]
      by_cases hq0 : ranks[q]'(by omega) = 1
      · exact Or.inl hq0
      · right
        have hmem : (S[q], ranks[q]'(by omega)) ∈ S.zip ranks := List.mem_of_getElem? (hget q hq)
        have hmem' : (S[q], ranks[q]'(by omega)) ∈ l.zip (oneObjective.go (eqCmp T) v 1 l) := by
          rw [hz] at hmem
          rcases List.mem_cons.1 hmem with h | h
          · exact absurd (congrArg Prod.snd h) hq0
          · exact h
        rcases h2 _ hmem' with h | ⟨_, x, hx, hxy⟩
        · exact absurd h hq0
        · obtain ⟨p, hp⟩ := List.mem_iff_getElem?.1 hx
          have hpl : p < S.length := by
            have := (List.getElem?_eq_some_iff.1 hp).1
            simp at this; omega
          rw [hget p hpl, Option.some.injEq] at hp
          refine ⟨p, hpl, ⟨S[q], S[p], by simp [hpl], by simp [hq], ?_⟩, ?_⟩
          · rw [hdom]
            have hne : p ≠ q := by
              rintro rfl
              rw [← hp] at hxy; simp at hxy
            rcases Nat.lt_or_gt_of_ne hne with hlt | hgt
            · have := hpair p q (by simp; omega) (by simp; omega) hlt
              simp only [List.getElem_zip] at this
              rw [← hp] at hxy
              simp only at hxy
              rcases this with ⟨h, _⟩ | ⟨_, h⟩
              · omega
              · exact h
            · have := hpair q p (by simp; omega) (by simp; omega) hgt
              simp only [List.getElem_zip] at this
              rw [← hp] at hxy
              simp only at hxy
              omega
          · rw [e p hpl]
            rw [← hp] at hxy
            exact hxy

example : oneObjective (eqCmp (⟨![false], 0⟩ : Traits 1 ℚ)) [![5], ![5], ![3], ![1]] = [1, 1, 2, 3] := by
  decide +kernel

/-! ## C39 -/

/-- Domination between two positions of a list. -/
def DomAt {n : Nat} {F : Type} [LE F] [LT F] (d : Fin n → Bool) (l : List (Fin n → F)) (p q : Nat) : Prop :=
  ∃ u v, l[p]? = some v ∧ l[q]? = some u ∧ Dominates d v u

/-- The two-objective algorithm gives every individual its depth, whether duplicates are to be removed or
not, when the vectors are distinct and either both objectives have the same direction or no two vectors
agree on the first objective. Any result of the sort is allowed. -/
theorem C39_two {F : Type} [Field F] [LinearOrder F] [IsStrictOrderedRing F] (T : Traits 2 F)
    (h0 : T.tol = 0) (rm : Bool) (maxObj1 : F) (sorted : List (Fin 2 → F))
    (hs : sorted.Pairwise fun a b => objComparator T b a = false)
    (hd : sorted.Nodup)
    (hdir : T.minimizing 0 = T.minimizing 1 ∨ sorted.Pairwise fun a b => a 0 ≠ b 0) :
    (twoObjectives T rm maxObj1 sorted).length = sorted.length ∧
    ∀ q k, (twoObjectives T rm maxObj1 sorted)[q]? = some k →
      IsDepth (· < sorted.length) (DomAt T.minimizing sorted) q k := by
  set val : (Fin 2 → F) → F := fun v => if T.minimizing 1 then v 1 else maxObj1 - v 1 with hval
  have hle : ∀ a b : Fin 2 → F, val a ≤ val b ↔ NoWorse (T.minimizing 1) (a 1) (b 1) := by
    intro a b
    cases hm : T.minimizing 1
    · simp only [hval, hm, NoWorse, Bool.false_eq_true, if_false, sub_le_sub_iff_left]
    · simp only [hval, hm, NoWorse, if_true]
  have heq : ∀ a b : Fin 2 → F, eqCmp T a b = true ↔ a = b := by
    intro a b
    unfold eqCmp
    rw [eqLoop_iff]
    simp only [List.mem_finRange, true_implies, h0, abs_nonpos_iff, sub_eq_zero]
    exact ⟨fun h => funext h, fun h i => by rw [h]⟩
  have hpil : twoObjectives T rm maxObj1 sorted = piles [] (sorted.map val) := by
    unfold twoObjectives
    rw [twoLoop_piles]
    right
    refine hd.imp ?_
    intro a b hne
    rw [← Bool.not_eq_true, heq]; exact Ne.symm hne
  have hlen : (twoObjectives T rm maxObj1 sorted).length = sorted.length := by
    rw [hpil, piles_length, List.length_map]
  refine ⟨hlen, ?_⟩
  have hgood : PileGood ((sorted.map val).zip (twoObjectives T rm maxObj1 sorted)) := by
    rw [hpil]
    have := piles_good (sorted.map val) [] [] ⟨by simp, by simp, by simp⟩ (by intro i x; simp)
    simpa using this
  set R := twoObjectives T rm maxObj1 sorted with hR
  -- lexicographic order of the sort
  have hlex : ∀ u v : Fin 2 → F, lexCmp T u v = true ↔ u 0 < v 0 ∨ u 0 = v 0 ∧ u 1 < v 1 := by
    intro u v
    rw [C32_lex_spec T h0]
    constructor
    · rintro ⟨i, h1, h2⟩
      fin_cases i
      · exact Or.inl h2
      · exact Or.inr ⟨h1 0 (by decide), h2⟩
    · rintro (h | ⟨h1, h2⟩)
      · exact ⟨0, fun j hj => by simp at hj, h⟩
      · refine ⟨1, fun j hj => ?_, h2⟩
        have : j = 0 := by omega
        rw [this]; exact h1
  have hfirst : ∀ a b : Fin 2 → F, objComparator T b a = false →
      NoWorse (T.minimizing 0) (a 0) (b 0) ∧
        (a 0 = b 0 → NoWorse (T.minimizing 0) (a 1) (b 1)) := by
    intro a b h
    unfold objComparator at h
    cases hm : T.minimizing 0
    · rw [hm] at h
      simp only [Bool.false_eq_true, if_false, ← Bool.not_eq_true, hlex, not_or, not_lt, not_and] at h
      exact ⟨h.1, fun e => h.2 e⟩
    · rw [hm] at h
      simp only [if_true, ← Bool.not_eq_true, hlex, not_or, not_lt, not_and] at h
      exact ⟨h.1, fun e => h.2 e.symm⟩
  -- earlier dominates later iff not worse on the second objective; later never dominates earlier
  have hij : ∀ i j (hi : i < sorted.length) (hj : j < sorted.length), i < j →
      (Dominates T.minimizing sorted[i] sorted[j] ↔ val sorted[i] ≤ val sorted[j]) ∧
      ¬ Dominates T.minimizing sorted[j] sorted[i] := by
    intro i j hi hj hlt
    have hne : sorted[i] ≠ sorted[j] := List.pairwise_iff_getElem.1 hd i j hi hj hlt
    obtain ⟨f1, f2⟩ := hfirst _ _ (List.pairwise_iff_getElem.1 hs i j hi hj hlt)
    have hdir' : sorted[i] 0 = sorted[j] 0 → T.minimizing 0 = T.minimizing 1 := by
      intro e
      rcases hdir with h | h
      · exact h
      · exact absurd e (List.pairwise_iff_getElem.1 h i j hi hj hlt)
    generalize sorted[i] = a at *
    generalize sorted[j] = b at *
    have hne1 : a 0 = b 0 → a 1 ≠ b 1 := by
      intro e0 e1
      apply hne
      funext k; fin_cases k
      · exact e0
      · exact e1
    have hnb : ∀ (m : Bool) (x y : F), NoWorse m x y → x ≠ y → Better m x y := by
      intro m x y h hn
      cases m
      · exact lt_of_le_of_ne h (Ne.symm hn)
      · exact lt_of_le_of_ne h hn
    have hnot : ∀ (m : Bool) (x y : F), NoWorse m x y → Better m y x → False := by
      intro m x y h1 h2
      cases m
      · exact absurd h2 (not_lt.2 h1)
      · exact absurd h2 (not_lt.2 h1)
    have hbn : ∀ (m : Bool) (x y : F), NoWorse m x y → NoWorse m y x → x = y := by
      intro m x y h1 h2
      cases m
      · exact le_antisymm h2 h1
      · exact le_antisymm h1 h2
    constructor
    · rw [hle]
      constructor
      · rintro ⟨h1, _⟩; exact h1 1
      · intro h
        refine ⟨fun k => ?_, ?_⟩
        · fin_cases k
          · exact f1
          · exact h
        · by_cases e : a 0 = b 0
          · exact ⟨1, hnb _ _ _ h (hne1 e)⟩
          · exact ⟨0, hnb _ _ _ f1 e⟩
    · rintro ⟨h1, k, h2⟩
      have e0 : a 0 = b 0 := hbn _ _ _ f1 (h1 0)
      have e1 := f2 e0
      rw [hdir' e0] at e1
      exact hne1 e0 (hbn _ _ _ e1 (h1 1))
  have hget : ∀ (q : Nat) (hq : q < sorted.length),
      ((sorted.map val).zip R)[q]? = some (val sorted[q], R[q]'(by omega)) := by
    intro q hq
    rw [List.getElem?_eq_getElem (by simp; omega), List.getElem_zip, List.getElem_map]
  have hgetD : ∀ q (hq : q < sorted.length), R.getD q 0 = R[q]'(by omega) := by
    intro q hq
    simp [List.getD, List.getElem?_eq_getElem (show q < R.length by omega)]
  intro q k hk
  obtain ⟨hq, hk⟩ := List.getElem?_eq_some_iff.1 hk
  have := isDepth_of_local (mem := (· < sorted.length)) (dom := DomAt T.minimizing sorted)
    (r := fun q => R.getD q 0) ?_ ?_ ?_ q (by omega)
  · simpa only [hgetD q (by omega), hk] using this
  · intro q hq
    rw [hgetD q hq]
    exact (hgood q _ (hget q hq)).1
  · rintro q hq p hp ⟨u, w, hw, hu, hd'⟩
    obtain ⟨_, rfl⟩ := List.getElem?_eq_some_iff.1 hw
    obtain ⟨_, rfl⟩ := List.getElem?_eq_some_iff.1 hu
    rw [hgetD q hq, hgetD p hp]
    rcases Nat.lt_trichotomy p q with hlt | heq' | hgt
    · exact (hgood q _ (hget q hq)).2.1 p _ hlt (hget p hp) (((hij p q hp hq hlt).1).1 hd')
    · subst heq'
      obtain ⟨_, k, hk⟩ := hd'
      exfalso
      revert hk
      cases T.minimizing k <;> exact lt_irrefl _
    · exact absurd hd' (hij q p hq hp hgt).2
  · intro q hq
    rw [hgetD q hq]
    rcases (hgood q _ (hget q hq)).2.2 with h | ⟨j, y, hj, hy, h1, h2⟩
    · exact Or.inl h
    · right
      have hjl : j < sorted.length := by omega
      rw [hget j hjl, Option.some.injEq] at hy
      subst hy
      refine ⟨j, hjl, ⟨sorted[q], sorted[j], by simp [hjl], by simp [hq], ?_⟩, ?_⟩
      · exact ((hij j q hjl hq hj).1).2 h1
      · rw [hgetD j hjl]; exact h2

example : twoObjectives (⟨![true, true], 0⟩ : Traits 2 ℚ) true 7 [![1, 4], ![2, 3], ![2, 5], ![3, 6], ![4, 1]]
    = [1, 1, 2, 3, 1] := by decide +kernel
example : ([![1, 4], ![2, 3], ![2, 5], ![3, 6], ![4, 1]] : List (Fin 2 → ℚ)).Pairwise
    (fun a b => objComparator (⟨![true, true], 0⟩ : Traits 2 ℚ) b a = false) := by decide +kernel

/-- Both algorithms agree where both are right. -/
theorem C39_agree {F : Type} [Field F] [LinearOrder F] [IsStrictOrderedRing F] (T : Traits 2 F)
    (h0 : T.tol = 0) (rm : Bool) (maxObj1 : F) (sorted : List (Fin 2 → F)) (dflt : Fin 2 → F)
    (hs : sorted.Pairwise fun a b => objComparator T b a = false) (hd : sorted.Nodup)
    (hdir : T.minimizing 0 = T.minimizing 1 ∨ sorted.Pairwise fun a b => a 0 ≠ b 0) :
    ∃ fit, mObjectives (fun p q => paretoCmp T (sorted.getD q dflt) (sorted.getD p dflt)) sorted.length =
        some fit ∧
      ∀ q < sorted.length, fit q = (twoObjectives T rm maxObj1 sorted)[q]? := by
  obtain ⟨fit, h1, h2⟩ := C38_pareto T h0 (fun i => sorted.getD i dflt) sorted.length
  obtain ⟨h3, h4⟩ := C39_two T h0 rm maxObj1 sorted hs hd hdir
  refine ⟨fit, h1, fun q hq => ?_⟩
  obtain ⟨k, hk, hdk⟩ := h2 q hq
  rw [hk, List.getElem?_eq_getElem (by omega)]
  congr 1
  have h5 := h4 q _ (List.getElem?_eq_getElem (by omega))
  refine isDepth_unique hdk ?_
  -- the two descriptions of domination agree inside the population
  have hc : ∀ l, UpChain (· < sorted.length) (DomAt T.minimizing sorted) q l ↔
      UpChain (· < sorted.length)
        (fun p q => Dominates T.minimizing (sorted.getD p dflt) (sorted.getD q dflt)) q l := by
    intro l
    have : ∀ (l : List Nat) (q : Nat), q < sorted.length → (∀ x ∈ l, x < sorted.length) →
        (List.IsChain (fun a b => DomAt T.minimizing sorted b a) (q :: l) ↔
          List.IsChain (fun a b => Dominates T.minimizing (sorted.getD b dflt) (sorted.getD a dflt)) (q :: l)) := by
      intro l
      induction l with
      | nil => intro q _ _; simp
      | cons a l ih =>
        intro q hq hl
        have ha := hl a (by simp)
        rw [List.isChain_cons_cons, List.isChain_cons_cons, ih a ha (fun x hx => hl x (by simp [hx]))]
        refine and_congr ?_ Iff.rfl
        simp [DomAt, List.getElem?_eq_getElem ha, List.getElem?_eq_getElem hq, List.getD]
    constructor
    · rintro ⟨a, b⟩; exact ⟨(this l q hq b).1 a, b⟩
    · rintro ⟨a, b⟩; exact ⟨(this l q hq b).2 a, b⟩
  unfold IsDepth at h5 ⊢
  simpa only [hc] using h5

/-- Repeated vectors: without duplicate removal equal vectors, which do not dominate each other, are
given successive ranks; with it the second one is sent to the last front, whatever it is. -/
theorem C39_duplicates {F : Type} [Field F] [LinearOrder F] [IsStrictOrderedRing F] (T : Traits 2 F)
    (h0 : T.tol = 0) (maxObj1 : F) (v : Fin 2 → F) :
    twoObjectives T false maxObj1 [v, v] = [1, 2] ∧
    twoObjectives T true maxObj1 [v, v, v] = [1, 3, 3] ∧ ¬ Dominates T.minimizing v v := by
  have heq : eqCmp T v v = true := by
    unfold eqCmp; rw [eqLoop_iff]; simp [h0]
  refine ⟨?_, ?_, ?_⟩
  · simp [twoObjectives, twoLoop, patienceStep, upperBound]
  · simp [twoObjectives, twoLoop, patienceStep, upperBound, heq]
  · rintro ⟨_, k, hk⟩
    revert hk
    cases T.minimizing k <;> exact lt_irrefl _

/-- Opposite directions with a tie on the first objective: the dominated vector is ranked first. -/
theorem C39_mixed_wrong {F : Type} [Field F] [LinearOrder F] [IsStrictOrderedRing F] (T : Traits 2 F)
    (h0 : T.tol = 0) (hmix : T.minimizing 0 ≠ T.minimizing 1) (maxObj1 : F) :
    ∃ u v : Fin 2 → F, Dominates T.minimizing v u ∧ objComparator T v u = false ∧
      ∀ rm, twoObjectives T rm maxObj1 [u, v] = [1, 1] := by
  have hlex : ∀ u v : Fin 2 → F, u 0 = v 0 → lexCmp T u v = true → u 1 < v 1 := by
    intro u v e h
    rw [C32_lex_spec T h0] at h
    obtain ⟨i, h1, h2⟩ := h
    fin_cases i
    · exact absurd h2 (by simp [e])
    · exact h2
  cases hm0 : T.minimizing 0
  · have hm1 : T.minimizing 1 = true := by cases h : T.minimizing 1 <;> simp_all
    refine ⟨![0, 1], ![0, 0], ⟨?_, 1, ?_⟩, ?_, ?_⟩
    · intro i; fin_cases i
      · simp [NoWorse, hm0]
      · simp [NoWorse, hm1]
    · rw [hm1]; simp [Better]
    · unfold objComparator
      rw [hm0, ← Bool.not_eq_true]
      intro h
      simp only [Bool.false_eq_true, if_false, if_true] at h
      have := hlex _ _ (by simp) h
      simp at this
      exact absurd this (not_lt.2 zero_le_one)
    · intro rm
      have hne : eqCmp T ![0, 0] ![0, 1] = false := by
        rw [← Bool.not_eq_true]; unfold eqCmp; rw [eqLoop_iff]
        intro h
        have := h 1 (List.mem_finRange _)
        simp [h0] at this
        exact absurd this (not_le.2 zero_lt_one)
      simp [twoObjectives, twoLoop, patienceStep, upperBound, hm1, hne]
  · have hm1 : T.minimizing 1 = false := by cases h : T.minimizing 1 <;> simp_all
    refine ⟨![0, 0], ![0, 1], ⟨?_, 1, ?_⟩, ?_, ?_⟩
    · intro i; fin_cases i
      · simp [NoWorse, hm0]
      · simp [NoWorse, hm1]
    · rw [hm1]; simp [Better]
    · unfold objComparator
      rw [hm0, ← Bool.not_eq_true]
      intro h
      simp only [Bool.false_eq_true, if_false, if_true] at h
      have := hlex _ _ (by simp) h
      simp at this
      exact absurd this (not_lt.2 zero_le_one)
    · intro rm
      have hne : eqCmp T ![0, 1] ![0, 0] = false := by
        rw [← Bool.not_eq_true]; unfold eqCmp; rw [eqLoop_iff]
        intro h
        have := h 1 (List.mem_finRange _)
        simp [h0] at this
        exact absurd this (not_le.2 zero_lt_one)
      simp [twoObjectives, twoLoop, patienceStep, upperBound, hm1, hne]

/-! ## C71 -/

/-- Deleting an individual that dominates nobody: the update changes nothing, and the depths of the
remaining individuals are indeed unchanged. -/
theorem C71_delete_undominating {V : Type} (cmp : V → V → Bool) (mem : Nat → Prop) (ov : Nat → V)
    (d : Nat) (hno : ∀ q, mem q → cmp (ov q) (ov d) = false) :
    (∀ pop : List (V × Int), (∀ x ∈ pop, ∃ q, mem q ∧ x.1 = ov q) → depthDelete cmp (ov d) pop = pop) ∧
    ∀ q k, mem q → (IsDepth mem (fun p q => cmp (ov q) (ov p) = true) q k ↔
      IsDepth (fun x => mem x ∧ x ≠ d) (fun p q => cmp (ov q) (ov p) = true) q k) := by
  constructor
  · intro pop hpop
    unfold depthDelete
    conv_rhs => rw [← List.map_id pop]
    apply List.map_congr_left
    intro x hx
    obtain ⟨q, hq, e⟩ := hpop x hx
    simp [e, hno q hq]
  · intro q k hq
    have hc : ∀ (l : List Nat) (q : Nat), mem q →
        (UpChain mem (fun p q => cmp (ov q) (ov p) = true) q l ↔
          UpChain (fun x => mem x ∧ x ≠ d) (fun p q => cmp (ov q) (ov p) = true) q l) := by
      intro l
      induction l with
      | nil => intro q _; simp [UpChain]
      | cons a l ih =>
        intro q hq
        unfold UpChain at ih ⊢
        rw [List.isChain_cons_cons]
        constructor
        · rintro ⟨⟨h1, h2⟩, h3⟩
          have ha := h3 a (by simp)
          obtain ⟨h4, h5⟩ := (ih a ha).1 ⟨h2, fun x hx => h3 x (by simp [hx])⟩
          refine ⟨⟨h1, h4⟩, ?_⟩
          intro x hx
          rcases List.mem_cons.1 hx with rfl | hx
          · refine ⟨ha, ?_⟩
            rintro rfl
            rw [hno q hq] at h1; simp at h1
          · exact h5 x hx
        · rintro ⟨h1, h3⟩; exact ⟨h1, fun x hx => (h3 x hx).1⟩
    unfold IsDepth
    simp only [hc _ q hq]

/-- In general the update is wrong: with three mutually non-dominated vectors dominating a fourth, after
two of the three are deleted the dominated one has a better fitness than its remaining dominator. -/
theorem C71_delete_wrong {V : Type} (cmp : V → V → Bool) (a b c q : V)
    (ha : cmp q a = true) (hb : cmp q b = true) (hc : cmp q c = true)
    (hac : cmp c a = false) (hcb : cmp c b = false) :
    depthFinal [1, 1, 1, 2] = some [1, 1, 1, 0] ∧
    depthDelete cmp b ((depthDelete cmp a [(b, 1), (c, 1), (q, 0)]).drop 1) = [(c, 1), (q, 2)] ∧
    cmp q c = true := by
  refine ⟨by decide, ?_, hc⟩
  simp [depthDelete, ha, hb, hac, hcb]

example : ∃ (a b c q : Fin 3 → ℚ), let T : Traits 3 ℚ := ⟨![true, true, true], 0⟩
    paretoCmp T q a = true ∧ paretoCmp T q b = true ∧ paretoCmp T q c = true ∧
    paretoCmp T c a = false ∧ paretoCmp T c b = false :=
  ⟨![0, 1, 1], ![1, 0, 1], ![1, 1, 0], ![2, 2, 2], by decide +kernel⟩

end Paradiseo.Moeo
