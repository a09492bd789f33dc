/-
Properties C55 (how many) and C74-C79: the composed replacement operators.
-/
import Verif.Props.EOReplacement
import Mathlib.Tactic.NormNum
import Mathlib.Tactic.Ring

namespace Paradiseo.EO
variable {α F : Type} [LinearOrder F]

/-! ### C55: how many -/

/-- C55, rates in [0,1]: the number lies within the size and is the rate of the size rounded up. -/
theorem C55_rate (rate : ℚ) (h0 : 0 ≤ rate) (h1 : rate ≤ 1) (n : Nat) :
    ∃ h k, HowMany.mk' rate true = .ok h ∧ h.eval n = .ok k ∧ k ≤ n ∧
      rate * n ≤ k ∧ (k : ℚ) < rate * n + 1 := by
  have hn : (0 : ℚ) ≤ n := Nat.cast_nonneg n
  have hnn : 0 ≤ rate * n := mul_nonneg h0 hn
  have hle : rate * n ≤ n := by nlinarith
  have hc0 : 0 ≤ ⌈rate * n⌉ := by
    have := Int.le_ceil (rate * n)
    have h2 : (0 : ℚ) ≤ (⌈rate * n⌉ : ℤ) := hnn.trans this
    exact_mod_cast h2
  have hk : ((⌈rate * n⌉.toNat : ℕ) : ℚ) = (⌈rate * n⌉ : ℤ) := by
    have : ((⌈rate * n⌉.toNat : ℕ) : ℤ) = ⌈rate * n⌉ := Int.toNat_of_nonneg hc0
    exact_mod_cast this
  refine ⟨⟨rate, 0⟩, ⌈rate * n⌉.toNat, ?_, ?_, ?_, ?_, ?_⟩
  · simp [HowMany.mk', not_lt.2 h0]
  · simp only [HowMany.eval, if_true]
    rw [if_neg (not_lt.2 hc0)]
  · have : ⌈rate * n⌉ ≤ (n : ℤ) := Int.ceil_le.2 (by exact_mod_cast hle)
    omega
  · rw [hk]; exact Int.le_ceil _
  · rw [hk]; exact Int.ceil_lt_add_one _

/-- C55, negative rates: down to -1 they mean the complement, below they are refused. -/
theorem C55_negative_rate (rate : ℚ) (h0 : rate < 0) :
    (-1 ≤ rate → HowMany.mk' rate true = HowMany.mk' (1 + rate) true) ∧
    (rate < -1 → HowMany.mk' rate true = .error .thrown) := by
  refine ⟨fun h => ?_, fun h => ?_⟩
  · have h1 : ¬ (1 + rate < 0) := by linarith
    simp [HowMany.mk', h0, h1]
  · have h1 : 1 + rate < 0 := by linarith
    simp [HowMany.mk', h0, h1]

/-- C55, rates above one are accepted and give more than the size. -/
theorem C55_rate_above_one (rate : ℚ) (h1 : 1 < rate) (n : Nat) (hn : 0 < n) :
    ∃ h k, HowMany.mk' rate true = .ok h ∧ h.eval n = .ok k ∧ n < k := by
  have hn' : (0 : ℚ) < n := by exact_mod_cast hn
  have hlt : (n : ℚ) < rate * n := by nlinarith
  have hc : (n : ℤ) < ⌈rate * n⌉ := Int.lt_ceil.2 (by exact_mod_cast hlt)
  refine ⟨⟨rate, 0⟩, ⌈rate * n⌉.toNat, ?_, ?_, by omega⟩
  · have : ¬ rate < 0 := by linarith
    simp [HowMany.mk', this]
  · simp only [HowMany.eval, if_true]
    rw [if_neg (by omega)]

/-- C55, counts: a positive count is returned as it is, a negative one is subtracted from the size
and throws when it is larger than the size. -/
theorem C55_count (c : Nat) (hc : 0 < c) (n : Nat) :
    HowMany.mk' c false = .ok ⟨0, c⟩ ∧ HowMany.mk' (-c) false = .ok ⟨0, -c⟩ ∧
    (HowMany.mk 0 c).eval n = .ok c ∧
    (c ≤ n → (HowMany.mk 0 (-c)).eval n = .ok (n - c)) ∧
    (n < c → (HowMany.mk 0 (-c)).eval n = .error .thrown) := by
  have hcz : (c : ℤ) ≠ 0 := by omega
  have h1 : ¬ (c : ℤ) < 0 := by omega
  have h2 : ¬ (-(c : ℤ)) = 0 := by omega
  have h3 : (-(c : ℤ)) < 0 := by omega
  refine ⟨?_, ?_, ?_, ?_, ?_⟩
  · simp [HowMany.mk']
  · have hq : ¬ (0 : ℚ) ≤ -(c : ℚ) := by
      have : (0 : ℚ) < c := by exact_mod_cast hc
      linarith
    have : ⌈-(c : ℚ)⌉ = -(c : ℤ) := by
      have h : (-(c : ℚ)) = ((-(c : ℤ) : ℤ) : ℚ) := by push_cast; ring
      rw [h, Int.ceil_intCast]
    simp only [HowMany.mk', Bool.false_eq_true, if_false, if_neg hq, this]
  · simp only [HowMany.eval, if_neg hcz, if_neg h1]
    rfl
  · intro h
    have h4 : ¬ n < (-(-(c : ℤ))).toNat := by omega
    simp only [HowMany.eval, if_neg h2, if_pos h3, if_neg h4]
    congr 1
    omega
  · intro h
    have h4 : n < (-(-(c : ℤ))).toNat := by omega
    simp only [HowMany.eval, if_neg h2, if_pos h3, if_pos h4]

/-- C55, complement: an involution; for a count the two numbers add up to the size; for a rate they
add up to the size only when the rate of the size is an integer, and to one more otherwise. -/
theorem C55_complement (h : HowMany) (n : Nat) :
    h.neg.neg = h ∧
    (∀ c : Nat, h.count = c → 0 < c → c ≤ n →
      ∃ a b, h.eval n = .ok a ∧ h.neg.eval n = .ok b ∧ a + b = n) ∧
    (h.count = 0 → 0 ≤ h.rate → h.rate ≤ 1 →
      ∃ a b, h.eval n = .ok a ∧ h.neg.eval n = .ok b ∧
        ((∃ z : ℤ, h.rate * n = z) → a + b = n) ∧
        ((¬ ∃ z : ℤ, h.rate * n = z) → a + b = n + 1)) := by
  obtain ⟨rate, count⟩ := h
  refine ⟨?_, ?_, ?_⟩
  · by_cases hc : count = 0
    · simp [HowMany.neg, hc]
    · have : ¬ (-count = 0) := by omega
      simp [HowMany.neg, hc]
  · intro c hc hc0 hcn
    simp only at hc
    subst hc
    have h0 : ¬ ((c : ℤ) = 0) := by omega
    have h1 : ¬ ((c : ℤ) < 0) := by omega
    refine ⟨c, n - c, ?_, ?_, by omega⟩
    · simp only [HowMany.eval, if_neg h0, if_neg h1]
      rfl
    · have h2 : ¬ (-(c : ℤ)) = 0 := by omega
      have h3 : (-(c : ℤ)) < 0 := by omega
      have h4 : ¬ n < (-(-(c : ℤ))).toNat := by omega
      simp only [HowMany.eval, HowMany.neg, if_neg h0, if_neg h2, if_pos h3, if_neg h4]
      congr 1
      omega
  · intro hc h0 h1
    simp only at hc h0 h1
    subst hc
    have hn : (0 : ℚ) ≤ n := Nat.cast_nonneg n
    have hA : 0 ≤ rate * n := mul_nonneg h0 hn
    have hB : (1 - rate) * n = (n : ℤ) - rate * n := by push_cast; ring
    have hcA : 0 ≤ ⌈rate * n⌉ := by
      have h2 : (0 : ℚ) ≤ (⌈rate * n⌉ : ℤ) := hA.trans (Int.le_ceil _)
      exact_mod_cast h2
    have hB0 : 0 ≤ (1 - rate) * n := mul_nonneg (by linarith) hn
    have hcB : 0 ≤ ⌈(1 - rate) * n⌉ := by
      have h2 : (0 : ℚ) ≤ (⌈(1 - rate) * n⌉ : ℤ) := hB0.trans (Int.le_ceil _)
      exact_mod_cast h2
    have hceil : ⌈(1 - rate) * n⌉ = n - ⌊rate * n⌋ := by
      rw [hB, sub_eq_add_neg, add_comm, Int.ceil_add_intCast, Int.ceil_neg]; ring
    refine ⟨⌈rate * n⌉.toNat, ⌈(1 - rate) * n⌉.toNat, ?_, ?_, ?_, ?_⟩
    · simp only [HowMany.eval, if_true, if_neg (not_lt.2 hcA)]
    · simp only [HowMany.eval, HowMany.neg, if_true, if_neg (not_lt.2 hcB)]
    · rintro ⟨z, hz⟩
      simp only at hz
      rw [hz, Int.floor_intCast] at hceil
      have h2 : ⌈rate * n⌉ = z := by rw [hz, Int.ceil_intCast]
      omega
    · intro hz
      · have h2 : ⌈rate * n⌉ = ⌊rate * n⌋ + 1 := by
          rw [Int.ceil_eq_iff]
          refine ⟨?_, ?_⟩
          · push_cast
            have : (⌊rate * n⌋ : ℚ) ≠ rate * n := fun h => hz ⟨_, h.symm⟩
            have := lt_of_le_of_ne (Int.floor_le (rate * n)) this
            linarith
          · push_cast
            exact (Int.lt_floor_add_one _).le
        omega

/-- A third of 4 rounds up to 2 and two thirds of 4 to 3: five in all. -/
example : (HowMany.mk (1/3) 0).eval 4 = .ok 2 ∧ (HowMany.mk (1/3) 0).neg.eval 4 = .ok 3 := by
  constructor <;> decide +kernel

/-! ### Contract of a reducer -/

/-- What the replacements need from a reducer: if it returns, it returns the requested number of
individuals taken from its input. -/
def Exact (red : Reducer α) : Prop :=
  ∀ pop n kept, red pop n = .ok kept → kept.length = n ∧ kept.Subperm pop

/-- C50: all six reducers meet the contract. -/
theorem C50_all_exact (f : α → F) (sort shuffle : List α → List α) (hs : IsSort f sort)
    (hsh : ∀ l, (shuffle l).Perm l) (tSize : Nat) (r : Nat → Nat) (flip : Nat → Bool) (fuel : Nat)
    (nth : Nat → List (Nat × α) → List (Nat × α)) (hn : IsNth (epKey f) nth) :
    Exact (truncate sort) ∧ Exact (randomReduce shuffle) ∧ Exact (epReduce f tSize r nth) ∧
    Exact (linearTruncate f) ∧ Exact (detTruncate f tSize r fuel) ∧
    Exact (stochTruncate f r flip) := by
  refine ⟨?_, ?_, ?_, ?_, ?_, ?_⟩ <;> intro pop n kept h
  · rcases Nat.lt_or_ge pop.length n with hl | hl
    · rw [(C50_truncate f sort hs pop n).1 hl] at h; cases h
    · obtain ⟨k, h1, h2, h3⟩ := (C50_truncate f sort hs pop n).2 hl
      rw [h1] at h; cases h; exact ⟨h2, h3.subperm⟩
  · rcases Nat.lt_or_ge pop.length n with hl | hl
    · rw [(C50_random shuffle hsh pop n).1 hl] at h; cases h
    · obtain ⟨k, h1, h2, h3⟩ := (C50_random shuffle hsh pop n).2 hl
      rw [h1] at h; cases h; exact ⟨h2, h3⟩
  · rcases Nat.lt_or_ge pop.length n with hl | hl
    · rw [(C50_ep f tSize r nth hn pop n).1 hl] at h; cases h
    · obtain ⟨k, h1, h2, h3, _⟩ := (C50_ep f tSize r nth hn pop n).2 hl
      rw [h1] at h; cases h; exact ⟨h2, h3⟩
  · rcases Nat.lt_or_ge pop.length n with hl | hl
    · rw [(C50_linear f pop n).1 hl] at h; cases h
    · obtain ⟨k, h1, h2, h3, _⟩ := (C50_linear f pop n).2 hl
      rw [h1] at h; cases h; exact ⟨h2, h3.subperm⟩
  · rcases Nat.lt_or_ge pop.length n with hl | hl
    · rw [(C50_deterministic f tSize r fuel pop n).1 hl] at h; cases h
    · rcases (C50_deterministic f tSize r fuel pop n).2 hl with h1 | ⟨k, h1, h2, h3⟩
      · rw [h1] at h; cases h
      · rw [h1] at h; cases h; exact ⟨h2, h3.subperm⟩
  · rcases Nat.lt_or_ge pop.length n with hl | hl
    · rw [(C50_stochastic f r flip pop n).1 hl] at h; cases h
    · obtain ⟨k, h1, h2, h3⟩ := (C50_stochastic f r flip pop n).2 hl
      rw [h1] at h; cases h; exact ⟨h2, h3.subperm⟩

/-! ### C74, C75: reduce-merge-reduce -/

theorem maybe_exact {red : Reducer α} (hr : Exact red) (pop : List α) (n : Nat) (kept : List α)
    (h : (if n ≠ pop.length then red pop n else .ok pop : Except Err (List α)) = .ok kept) :
    kept.length = n ∧ kept.Subperm pop := by
  split at h
  · exact hr _ _ _ h
  · next hne => cases h; exact ⟨(not_not.1 hne).symm, List.Subperm.refl _⟩

theorem maybe_exact' {red : Reducer α} (hr : Exact red) (pop : List α) (n : Nat) (kept : List α)
    (h : (if pop.length ≠ n then red pop n else .ok pop : Except Err (List α)) = .ok kept) :
    kept.length = n ∧ kept.Subperm pop :=
  maybe_exact hr pop n kept (by simpa only [ne_comm] using h)

theorem saveLoop_length (temp : List α) (n : Nat) : ∀ (k : Nat) (pop : List α),
    (saveLoop temp n k pop).length = pop.length := by
  intro k
  induction k with
  | zero => intro pop; rfl
  | succ k ih =>
    intro pop
    simp only [saveLoop]
    split
    · simp [ih]
    · exact ih pop

/-- Everything a successful reduce-merge-reduce does, step by step. -/
theorem rmr_steps (f : α → F) (nth : Nat → List α → List α) (sort : List α → List α)
    (hElite : HowMany) (strong : Bool) (hParents hOffspring : HowMany) (redP redO redF : Reducer α)
    (hP : Exact redP) (hO : Exact redO) (hF : Exact redF) (parents offspring res off' : List α)
    (h : reduceMergeReduce f nth sort hElite strong hParents hOffspring redP redO redF
      parents offspring = .ok (res, off')) :
    ∃ elite sorted par par2, hElite.eval parents.length = .ok elite ∧ elite ≤ parents.length ∧
      sorted = (if elite = 0 then parents else nth elite parents) ∧
      par.Subperm (sorted.drop elite) ∧ off'.Subperm offspring ∧ off' ≠ [] ∧
      par2.Subperm (par ++ off') ∧
      ((elite ≠ 0 ∧ strong = true ∧ par2.length = parents.length - elite ∧
          res = par2 ++ sorted.take elite) ∨
       (elite = 0 ∧ par2.length = parents.length ∧ res = par2) ∨
       (elite ≠ 0 ∧ strong = false ∧ par2.length = parents.length ∧
         ∃ limit, (sort par2)[elite - 1]? = some limit ∧
         res = saveLoop (sorted.take elite) parents.length
           (toSave f (f limit) (sorted.take elite)) (sort par2))) := by
  unfold reduceMergeReduce at h
  cases he : hElite.eval parents.length with
  | error e => simp only [he, reduceCtorEq] at h
  | ok elite =>
    simp only [he] at h
    by_cases hlt : parents.length < elite
    · simp [hlt] at h
    rw [if_neg hlt] at h
    set sorted := (if elite = 0 then parents else nth elite parents) with hsorted
    cases hp : hParents.eval (sorted.drop elite).length with
    | error e => simp only [hp, reduceCtorEq] at h
    | ok rp =>
      simp only [hp] at h
      cases hpar : (if rp = 0 then .ok [] else if rp ≠ (sorted.drop elite).length then
          redP (sorted.drop elite) rp else .ok (sorted.drop elite) : Except Err (List α)) with
      | error e => simp only [hpar, reduceCtorEq] at h
      | ok par =>
        simp only [hpar] at h
        have hparsub : par.Subperm (sorted.drop elite) := by
          by_cases h0 : rp = 0
          · rw [if_pos h0] at hpar; cases hpar; exact (List.nil_sublist _).subperm
          · rw [if_neg h0] at hpar; exact (maybe_exact hP _ _ _ hpar).2
        cases ho : hOffspring.eval offspring.length with
        | error e => simp only [ho, reduceCtorEq] at h
        | ok ro =>
          simp only [ho] at h
          by_cases hro : ro = 0
          · simp [hro] at h
          rw [if_neg hro] at h
          cases hoff : (if ro ≠ offspring.length then redO offspring ro else .ok offspring :
              Except Err (List α)) with
          | error e => simp only [hoff, reduceCtorEq] at h
          | ok off =>
            simp only [hoff] at h
            obtain ⟨hol, hosub⟩ := maybe_exact hO _ _ _ hoff
            have hone : off ≠ [] := by rintro rfl; exact hro hol.symm
            by_cases hst : elite ≠ 0 ∧ strong = true
            · rw [if_pos hst] at h
              cases hfin : (if (par ++ off).length ≠ parents.length - elite then
                  redF (par ++ off) (parents.length - elite) else .ok (par ++ off) :
                  Except Err (List α)) with
              | error e => simp only [hfin, reduceCtorEq] at h
              | ok par2 =>
                simp only [hfin, Except.ok.injEq, Prod.mk.injEq] at h
                obtain ⟨rfl, rfl⟩ := h
                obtain ⟨h1, h2⟩ := maybe_exact' hF _ _ _ hfin
                exact ⟨elite, sorted, par, par2, rfl, by omega, rfl, hparsub, hosub, hone, h2,
                  Or.inl ⟨hst.1, hst.2, h1, rfl⟩⟩
            · rw [if_neg hst] at h
              cases hfin : (if (par ++ off).length ≠ parents.length then
                  redF (par ++ off) parents.length else .ok (par ++ off) :
                  Except Err (List α)) with
              | error e => simp only [hfin, reduceCtorEq] at h
              | ok par2 =>
                simp only [hfin] at h
                obtain ⟨h1, h2⟩ := maybe_exact' hF _ _ _ hfin
                by_cases h0 : elite = 0
                · rw [if_pos h0] at h
                  simp only [Except.ok.injEq, Prod.mk.injEq] at h
                  obtain ⟨rfl, rfl⟩ := h
                  exact ⟨elite, sorted, par, par2, rfl, by omega, rfl, hparsub, hosub, hone, h2,
                    Or.inr (Or.inl ⟨h0, h1, rfl⟩)⟩
                · rw [if_neg h0] at h
                  have hs : strong = false := by
                    cases strong
                    · rfl
                    · exact absurd ⟨h0, rfl⟩ hst
                  cases hl : (sort par2)[elite - 1]? with
                  | none => simp only [hl, reduceCtorEq] at h
                  | some limit =>
                    simp only [hl, Except.ok.injEq, Prod.mk.injEq] at h
                    obtain ⟨rfl, rfl⟩ := h
                    exact ⟨elite, sorted, par, par2, rfl, by omega, rfl, hparsub, hosub, hone, h2,
                      Or.inr (Or.inr ⟨h0, hs, h1, limit, hl, rfl⟩)⟩

/-- C74: with exact reducers, reduce-merge-reduce keeps the population size, whatever the
elitism. -/
theorem C74_size (f : α → F) (nth : Nat → List α → List α) (hn : IsNth f nth)
    (sort : List α → List α) (hs : IsSort f sort)
    (hElite : HowMany) (strong : Bool) (hParents hOffspring : HowMany) (redP redO redF : Reducer α)
    (hP : Exact redP) (hO : Exact redO) (hF : Exact redF) (parents offspring res off' : List α)
    (h : reduceMergeReduce f nth sort hElite strong hParents hOffspring redP redO redF
      parents offspring = .ok (res, off')) : res.length = parents.length := by
  obtain ⟨elite, sorted, par, par2, h1, h2, h3, h4, h5, h6, h7, h8⟩ :=
    rmr_steps f nth sort hElite strong hParents hOffspring redP redO redF hP hO hF _ _ _ _ h
  have hsl : sorted.length = parents.length := by
    rw [h3]; split
    · rfl
    · exact (hn.perm _ _).length_eq
  rcases h8 with ⟨_, _, g1, rfl⟩ | ⟨_, g1, rfl⟩ | ⟨_, _, g1, limit, _, rfl⟩
  · rw [List.length_append, List.length_take]; omega
  · exact g1
  · rw [saveLoop_length, (hs.perm _).length_eq, g1]

/-- C74, strong elitism: the new population is made of the best parents in the requested number,
and others taken from the rest of the parents and from the offspring; so no parent is better than
all the new individuals. -/
theorem C74_strong_elitism (f : α → F) (nth : Nat → List α → List α) (hn : IsNth f nth)
    (sort : List α → List α)
    (hElite hParents hOffspring : HowMany) (redP redO redF : Reducer α)
    (hP : Exact redP) (hO : Exact redO) (hF : Exact redF) (parents offspring res off' : List α)
    (elite : Nat) (he : hElite.eval parents.length = .ok elite) (h0 : elite ≠ 0)
    (h : reduceMergeReduce f nth sort hElite true hParents hOffspring redP redO redF
      parents offspring = .ok (res, off')) :
    ∃ elites others rest, res = others ++ elites ∧ elites.length = elite ∧
      (elites ++ rest).Perm parents ∧ (∀ a ∈ elites, ∀ b ∈ rest, f b ≤ f a) ∧
      others.Subperm (rest ++ offspring) ∧ ∀ p ∈ parents, ∃ q ∈ res, f p ≤ f q := by
  obtain ⟨elite', sorted, par, par2, h1, h2, h3, h4, h5, h6, h7, h8⟩ :=
    rmr_steps f nth sort hElite true hParents hOffspring redP redO redF hP hO hF _ _ _ _ h
  rw [h1] at he
  cases he
  rw [if_neg h0] at h3
  rcases h8 with ⟨_, _, g1, rfl⟩ | ⟨h0', _⟩ | ⟨_, hst, _⟩
  · have hb : BestOf f (sorted.take elite) parents := by rw [h3]; exact bestOf_nth_take hn _ _
    have hlen : (sorted.take elite).length = elite := by
      rw [List.length_take, h3, (hn.perm _ _).length_eq]; omega
    refine ⟨sorted.take elite, par2, sorted.drop elite, rfl, hlen, ?_, ?_, ?_, ?_⟩
    · rw [List.take_append_drop, h3]; exact hn.perm _ _
    · rw [h3]; exact hn.split _ _
    · exact h7.trans (List.Subperm.append h4 h5)
    · intro p hp
      obtain ⟨q, hq, hpq⟩ := hb.best (by intro hnil; rw [hnil] at hlen; exact h0 hlen.symm) p hp
      exact ⟨q, List.mem_append_right _ hq, hpq⟩
  · exact absurd h0' h0
  · cases hst

/-- C75, weak elitism of one individual never saves it: the new population is, in some order, taken
from the offspring and the parents other than the elite. -/
theorem C75_weak_one_never_saves (f : α → F) (nth : Nat → List α → List α) (hn : IsNth f nth)
    (sort : List α → List α) (hs : IsSort f sort)
    (hElite hParents hOffspring : HowMany) (redP redO redF : Reducer α)
    (hP : Exact redP) (hO : Exact redO) (hF : Exact redF) (parents offspring res off' : List α)
    (he : hElite.eval parents.length = .ok 1)
    (h : reduceMergeReduce f nth sort hElite false hParents hOffspring redP redO redF
      parents offspring = .ok (res, off')) :
    ∃ champ rest, (champ :: rest).Perm parents ∧ (∀ b ∈ parents, f b ≤ f champ) ∧
      res.Subperm (rest ++ offspring) := by
  obtain ⟨elite', sorted, par, par2, h1, h2, h3, h4, h5, h6, h7, h8⟩ :=
    rmr_steps f nth sort hElite false hParents hOffspring redP redO redF hP hO hF _ _ _ _ h
  rw [h1] at he
  cases he
  rw [if_neg (by omega)] at h3
  have hperm : sorted.Perm parents := by rw [h3]; exact hn.perm _ _
  cases hsd : sorted with
  | nil => rw [hsd] at hperm; have := hperm.length_eq; simp at this; omega
  | cons champ rest =>
    rw [hsd] at hperm
    refine ⟨champ, rest, hperm, ?_, ?_⟩
    · intro b hb
      rcases List.mem_cons.1 (hperm.mem_iff.2 hb) with rfl | hb
      · exact le_rfl
      · have := hn.split 1 parents champ (by rw [← h3, hsd]; simp) b (by rw [← h3, hsd]; simpa using hb)
        exact this
    · rcases h8 with ⟨_, hst, _⟩ | ⟨h0, _⟩ | ⟨_, _, g1, limit, _, rfl⟩
      · cases hst
      · cases h0
      · rw [hsd] at h4
        rw [hsd]
        simp only [List.take_succ_cons, List.take_zero, toSave, saveLoop]
        exact (hs.perm _).subperm.trans (h7.trans (List.Subperm.append h4 h5))

/-- C75: hence, when the best parent is strictly better than all the others and than all the
offspring, weak elitism of one individual always loses the best fitness. -/
theorem C75_weak_one_loses_best (f : α → F) (nth : Nat → List α → List α) (hn : IsNth f nth)
    (sort : List α → List α) (hs : IsSort f sort)
    (hElite hParents hOffspring : HowMany) (redP redO redF : Reducer α)
    (hP : Exact redP) (hO : Exact redO) (hF : Exact redF) (parents offspring res off' : List α)
    (he : hElite.eval parents.length = .ok 1)
    (h : reduceMergeReduce f nth sort hElite false hParents hOffspring redP redO redF
      parents offspring = .ok (res, off'))
    (best : α) (others : List α) (hp : parents.Perm (best :: others))
    (ho : ∀ b ∈ others ++ offspring, f b < f best) : ∀ q ∈ res, f q < f best := by
  obtain ⟨champ, rest, h1, h2, h3⟩ := C75_weak_one_never_saves f nth hn sort hs hElite hParents
    hOffspring redP redO redF hP hO hF parents offspring res off' he h
  intro q hq
  have hbest : best ∈ champ :: rest := (h1.trans hp).mem_iff.2 (by simp)
  have hcb : best = champ := by
    rcases List.mem_cons.1 ((h1.trans hp).mem_iff.1 (List.mem_cons_self (a := champ))) with h | h
    · exact h.symm
    · exact absurd (h2 best (hp.mem_iff.2 (by simp)))
        (not_le.2 (ho champ (List.mem_append_left _ h)))
  subst hcb
  have hro : rest.Perm others := (h1.trans hp).cons_inv
  rcases List.mem_append.1 (h3.subset hq) with h | h
  · exact ho q (List.mem_append_left _ (hro.mem_iff.1 h))
  · exact ho q (List.mem_append_right _ h)

/-- The situation of C75 happens: 9 is lost although one elite is asked for. -/
example : reduceMergeReduce (fun x : Nat => x) (fun _ l => l) (fun l => l) ⟨0, 1⟩ false ⟨1, 0⟩
    ⟨1, 0⟩ (linearTruncate fun x => x) (linearTruncate fun x => x) (linearTruncate fun x => x)
    [9, 5] [7, 6] = .ok ([7, 6], [7, 6]) := by
  decide +kernel

/-! ### C76: survive and die -/

/-- C76: the result of the survive-and-die replacement with an exact reducer has the size of the
parents; it contains the requested best parents and best offspring, and is taken from parents and
offspring. -/
theorem C76_survive_and_die (f : α → F) (n1 n2 n3 n4 : Nat → List α → List α)
    (hn1 : IsNth f n1) (hn2 : IsNth f n2) (hn3 : IsNth f n3) (hn4 : IsNth f n4)
    (hSP hDP hSO hDO : HowMany) (red : Reducer α) (hred : Exact red)
    (parents offspring res off' : List α) (sp so : Nat)
    (hsp : hSP.eval parents.length = .ok sp) (hso : hSO.eval offspring.length = .ok so)
    (h : sadReplacement (surviveAndDie n1 n2 hSP hDP) (surviveAndDie n3 n4 hSO hDO) red
      parents offspring = .ok (res, off')) :
    res.length = parents.length ∧ res.Subperm (parents ++ offspring) ∧
    ∃ kept luckyP luckyO, res = kept ++ luckyP ++ luckyO ∧
      luckyP.length = sp ∧ BestOf f luckyP parents ∧
      luckyO.length = so ∧ BestOf f luckyO offspring ∧
      (0 < sp → ∀ p ∈ parents, ∃ q ∈ res, f p ≤ f q) ∧
      (0 < so → ∀ p ∈ offspring, ∃ q ∈ res, f p ≤ f q) := by
  have sad : ∀ (m1 m2 : Nat → List α → List α), IsNth f m1 → IsNth f m2 → ∀ (hS hD : HowMany)
      (pop rest lucky : List α) (s : Nat), hS.eval pop.length = .ok s →
      surviveAndDie m1 m2 hS hD pop = .ok (rest, lucky) →
      lucky.length = s ∧ BestOf f lucky pop ∧ (rest ++ lucky).Subperm pop := by
    intro m1 m2 hm1 hm2 hS hD pop rest lucky s hs h
    unfold surviveAndDie at h
    simp only [hs] at h
    by_cases hlt : pop.length < s
    · simp [hlt] at h
    rw [if_neg hlt] at h
    set sorted := (if s = 0 then pop else m1 s pop) with hsorted
    have hperm : sorted.Perm pop := by
      rw [hsorted]; split
      · exact List.Perm.refl _
      · exact hm1.perm _ _
    have hb : BestOf f (sorted.take s) pop := by
      rw [hsorted]; split
      · next h0 => rw [h0]; exact ⟨pop, by simp, by simp⟩
      · exact bestOf_nth_take hm1 _ _
    have hl : (sorted.take s).length = s := by
      rw [List.length_take, hperm.length_eq]; omega
    have htd : (sorted.drop s ++ sorted.take s).Perm pop := by
      refine List.perm_append_comm.trans ?_
      rw [List.take_append_drop]; exact hperm
    cases hd : hD.eval pop.length with
    | error e => simp [hd] at h
    | ok d =>
      simp only [hd] at h
      split at h
      · cases h
      split at h
      · cases h
        exact ⟨hl, hb, htd.subperm⟩
      · cases h
        refine ⟨hl, hb, ?_⟩
        refine List.Subperm.trans ?_ htd.subperm
        refine List.Subperm.append ?_ (List.Subperm.refl _)
        exact (List.take_sublist _ _).subperm.trans (hm2.perm _ _).subperm
  unfold sadReplacement at h
  cases h1 : surviveAndDie n1 n2 hSP hDP parents with
  | error e => simp [h1] at h
  | ok x =>
    obtain ⟨par, lp⟩ := x
    simp only [h1] at h
    cases h2 : surviveAndDie n3 n4 hSO hDO offspring with
    | error e => simp [h2] at h
    | ok y =>
      obtain ⟨off, lo⟩ := y
      simp only [h2] at h
      obtain ⟨a1, a2, a3⟩ := sad n1 n2 hn1 hn2 _ _ _ _ _ _ hsp h1
      obtain ⟨b1, b2, b3⟩ := sad n3 n4 hn3 hn4 _ _ _ _ _ _ hso h2
      split at h
      · cases h
      · next hle =>
        cases h3 : red (off ++ par) (parents.length - (lo.length + lp.length)) with
        | error e => simp [h3] at h
        | ok kept =>
          simp only [h3, Except.ok.injEq, Prod.mk.injEq] at h
          obtain ⟨rfl, rfl⟩ := h
          obtain ⟨c1, c2⟩ := hred _ _ _ h3
          refine ⟨?_, ?_, kept, lp, lo, rfl, a1, a2, b1, b2, ?_, ?_⟩
          · rw [List.length_append, List.length_append, c1]; omega
          · have h4 : (kept ++ lp ++ lo).Subperm (off ++ par ++ lp ++ lo) :=
              (c2.append (List.Subperm.refl _)).append (List.Subperm.refl _)
            have h5 : (off ++ par ++ lp ++ lo).Perm ((par ++ lp) ++ (off ++ lo)) := by
              have : (off ++ par ++ lp ++ lo) = off ++ ((par ++ lp) ++ lo) := by simp
              rw [this]
              have e2 : (par ++ lp) ++ (off ++ lo) = (par ++ lp) ++ off ++ lo := by simp
              rw [e2, ← List.append_assoc]
              exact List.perm_append_comm.append_right lo
            exact h4.trans (h5.subperm.trans (a3.append b3))
          · intro h0 p hp
            obtain ⟨q, hq, hpq⟩ := a2.best (by rintro rfl; simp at a1; omega) p hp
            exact ⟨q, by simp [hq], hpq⟩
          · intro h0 p hp
            obtain ⟨q, hq, hpq⟩ := b2.best (by rintro rfl; simp at b1; omega) p hp
            exact ⟨q, by simp [hq], hpq⟩

example : sadReplacement (surviveAndDie (fun _ l => l) (fun _ l => l) ⟨0, 1⟩ ⟨0, 1⟩)
    (surviveAndDie (fun _ l => l) (fun _ l => l) ⟨0, 1⟩ ⟨0, 0⟩) (linearTruncate fun x : Nat => x)
    [9, 5, 1] [7, 6] = .ok ([6, 9, 7], [5]) := by decide +kernel

/-! ### C77: MGG -/

theorem linearSplit_ok (f : α → F) (h : HowMany) (pop elim : List α) (k : Nat)
    (hk : h.eval pop.length = .ok k) (hle : k ≤ pop.length) :
    ∃ rest el, linearSplit f h true pop elim = .ok (rest, elim ++ el) ∧
      (rest ++ el).Perm pop ∧ el.length = k ∧ ∀ a ∈ rest, ∀ b ∈ el, f b ≤ f a := by
  unfold linearSplit
  simp only [hk]
  by_cases h0 : k = 0
  · rw [if_pos h0]
    exact ⟨pop, [], by simp, by simp, by simp [h0], by simp⟩
  · rw [if_neg h0, if_neg (by omega)]
    obtain ⟨rest, el, h1, h2, h3, _, h5⟩ := eliminate_worse f k pop 0 hle
    exact ⟨rest, el, by simp [h1], h2, h3, h5⟩

theorem detTournament_lt (f : α → F) (tSize : Nat) (ht : 0 < tSize) (r : Nat → Nat) (pop : List α)
    (t : Nat) (hpop : 0 < pop.length) :
    ∃ i t', detTournament f tSize r pop t = .ok (i, t') ∧ i < pop.length := by
  obtain ⟨i, hi, h1, _⟩ := C53_det_tournament f tSize ht r pop hpop t
  exact ⟨i, _, h1, hi⟩

/-- C77: MGG replacement of two or more parents, with at least one offspring, always succeeds:
individuals are only moved between the two populations, the size of the parents is preserved, the
best offspring enters, and when some parent is not replaced no parent is better than all the new
ones. -/
theorem C77_mgg (f : α → F) (h : HowMany) (tSize : Nat) (r : Nat → Nat)
    (parents offspring : List α) (k : Nat) (hk : h.eval parents.length = .ok k) (h2 : 2 ≤ k)
    (hle : k ≤ parents.length) (ho : offspring ≠ []) :
    ∃ res off', mggReplacement f h tSize r parents offspring = .ok (res, off') ∧
      res.length = parents.length ∧ (res ++ off').Perm (parents ++ offspring) ∧
      (∃ x ∈ res, x ∈ offspring ∧ ∀ y ∈ offspring, f y ≤ f x) ∧
      (k < parents.length → ∀ p ∈ parents ++ offspring, ∃ q ∈ res, f p ≤ f q) := by
  obtain ⟨par, el, e1, e2, e3, e4⟩ := linearSplit_ok f h parents [] k hk hle
  rw [List.nil_append] at e1
  obtain ⟨i, x, i1, i2, i3⟩ := itBestElement_spec f offspring ho
  obtain ⟨hi, _⟩ := List.getElem?_eq_some_iff.1 i2
  obtain ⟨rest, chosen, t', c1⟩ := eliminate_total (detTournament f (max tSize 2) r) 0
    (fun p t hp => detTournament_lt f (max tSize 2) (by omega) r p t hp) (el.length - 1)
    (offspring.eraseIdx i ++ el) 0 (by rw [List.length_append]; omega)
  obtain ⟨d1, d2, d3⟩ := eliminate_ok _ _ _ _ _ _ _ c1
  have hpl := e2.length_eq
  rw [List.length_append] at hpl
  have hx := perm_cons_eraseIdx i2
  refine ⟨par ++ [x] ++ chosen, rest, ?_, ?_, ?_, ?_, ?_⟩
  · unfold mggReplacement
    simp only [e1, if_neg (show ¬ el.length < 2 by omega), i1, i2, c1]
  · simp only [List.length_append, List.length_singleton, d1]; omega
  · have s1 : (par ++ [x] ++ chosen ++ rest).Perm (par ++ ([x] ++ (offspring.eraseIdx i ++ el))) := by
      simp only [List.append_assoc]
      exact (((d3).append_left [x])).append_left par
    refine s1.trans ?_
    have s2 : ([x] ++ (offspring.eraseIdx i ++ el)).Perm (offspring ++ el) := by
      rw [← List.append_assoc]; exact hx.append_right el
    refine (s2.append_left par).trans ?_
    refine (List.perm_append_comm.append_left par).trans ?_
    rw [← List.append_assoc]
    exact e2.append_right offspring
  · exact ⟨x, by simp, List.mem_of_getElem? i2, i3⟩
  · intro hlt p hp
    rcases List.mem_append.1 hp with hp | hp
    · have hb : BestOf f par parents := ⟨el, e2, e4⟩
      obtain ⟨q, hq, hpq⟩ := hb.best (by rintro rfl; simp at hpl; omega) p hp
      exact ⟨q, by simp [hq], hpq⟩
    · exact ⟨x, by simp, i3 p hp⟩

/-- C77, errors: killing fewer than two parents throws. -/
theorem C77_mgg_few (f : α → F) (h : HowMany) (tSize : Nat) (r : Nat → Nat)
    (parents offspring : List α) (k : Nat) (hk : h.eval parents.length = .ok k) (h2 : k < 2)
    (hle : k ≤ parents.length) : mggReplacement f h tSize r parents offspring = .error .thrown := by
  obtain ⟨par, el, e1, e2, e3, e4⟩ := linearSplit_ok f h parents [] k hk hle
  rw [List.nil_append] at e1
  unfold mggReplacement
  simp only [e1, if_pos (show el.length < 2 by omega)]

example : (HowMany.mk 0 2).eval 3 = .ok 2 := by decide +kernel

/-! ### C78: G3 -/

/-- C78: G3 replacement with an absolute number of parents: succeeds, keeps the size, keeps the
best remaining parents, and the rest are the best of the offspring and the removed parents; so
nothing present before is better than all the new ones. -/
theorem C78_g3 (f : α → F) (nth : Nat → List α → List α) (hn : IsNth f nth)
    (parents offspring : List α) (k : Nat) (h0 : 0 < k) (hle : k ≤ parents.length) :
    ∃ par off, g3Replacement f nth ⟨0, k⟩ parents offspring = .ok (par ++ off, off) ∧
      (par ++ off).length = parents.length ∧
      BestOf f par parents ∧ off.length = k ∧
      (∃ removed, (par ++ removed).Perm parents ∧ BestOf f off (offspring ++ removed)) ∧
      ∀ p ∈ parents ++ offspring, ∃ q ∈ par ++ off, f p ≤ f q := by
  have hk : (HowMany.mk 0 k).eval parents.length = .ok k := (C55_count k h0 _).2.2.1
  obtain ⟨par, el, e1, e2, e3, e4⟩ := linearSplit_ok f ⟨0, k⟩ parents [] k hk hle
  rw [List.nil_append] at e1
  have hpl := e2.length_eq
  rw [List.length_append] at hpl
  have hneg : (HowMany.mk 0 k).neg = HowMany.mk 0 (-k) := by
    have : ¬ ((k : ℤ) = 0) := by omega
    simp [HowMany.neg, this]; omega
  have hev : (HowMany.mk 0 k).neg.eval (offspring ++ el).length = .ok offspring.length := by
    rw [hneg, (C55_count k h0 _).2.2.2.1 (by rw [List.length_append]; omega)]
    congr 1
    rw [List.length_append]; omega
  have key : ∃ off, truncateSplit nth (HowMany.mk 0 k).neg false (offspring ++ el) el =
      .ok (off, el) ∧ off.length = k ∧ BestOf f off (offspring ++ el) := by
    unfold truncateSplit
    simp only [hev]
    by_cases hz : offspring.length = 0
    · rw [if_pos hz]
      exact ⟨_, rfl, by rw [List.length_append]; omega, BestOf.refl f _⟩
    · rw [if_neg hz, if_neg (by rw [List.length_append]; omega)]
      refine ⟨_, rfl, ?_, bestOf_nth_take hn _ _⟩
      rw [List.length_take, (hn.perm _ _).length_eq, List.length_append]; omega
  obtain ⟨off, o1, o2, o3⟩ := key
  refine ⟨par, off, ?_, by rw [List.length_append]; omega, ⟨el, e2, e4⟩, o2,
    ⟨el, e2, o3⟩, ?_⟩
  · unfold g3Replacement
    simp only [e1, o1, if_neg (show ¬ off.length ≠ el.length by omega)]
  · intro p hp
    have hbo := o3.best (by rintro rfl; simp at o2; omega)
    rcases List.mem_append.1 hp with hp | hp
    · rcases List.mem_append.1 (e2.mem_iff.2 hp) with hp | hp
      · exact ⟨p, List.mem_append_left _ hp, le_rfl⟩
      · obtain ⟨q, hq, hpq⟩ := hbo p (List.mem_append_right _ hp)
        exact ⟨q, List.mem_append_right _ hq, hpq⟩
    · obtain ⟨q, hq, hpq⟩ := hbo p (List.mem_append_left _ hp)
      exact ⟨q, List.mem_append_right _ hq, hpq⟩

/-- C78: with a rate the complement is taken of another size, and the replacement throws: half of
four parents, with four offspring. -/
theorem C78_g3_rate_throws (nth : Nat → List Nat → List Nat)
    (hn : IsNth (fun x : Nat => x) nth) :
    g3Replacement (fun x : Nat => x) nth ⟨1/2, 0⟩ [4, 3, 2, 1] [8, 7, 6, 5] = .error .thrown := by
  have h1 : (HowMany.mk (1/2) 0).eval 4 = .ok 2 := by decide +kernel
  have h2 : (HowMany.mk (1/2) 0).neg.eval 6 = .ok 3 := by decide +kernel
  obtain ⟨par, el, e1, e2, e3, e4⟩ := linearSplit_ok (fun x : Nat => x) ⟨1/2, 0⟩ [4, 3, 2, 1] [] 2 h1
    (by decide)
  rw [List.nil_append] at e1
  unfold g3Replacement
  simp only [e1]
  have hl : ([8, 7, 6, 5] ++ el).length = 6 := by rw [List.length_append, e3]; rfl
  have : truncateSplit nth (HowMany.mk (1/2) 0).neg false ([8, 7, 6, 5] ++ el) el =
      .ok ((nth 3 ([8, 7, 6, 5] ++ el)).take 3, el) := by
    unfold truncateSplit
    simp only [hl, h2]
    rfl
  have h3 : ((nth 3 ([8, 7, 6, 5] ++ el)).take 3).length = 3 := by
    rw [List.length_take, (hn.perm _ _).length_eq, hl]; rfl
  simp only [this, h3, e3]
  rfl

/-! ### C79: steady state -/

/-- C79: steady-state replacement with any exact reducer: more offspring than parents throws;
otherwise a result has the size of the parents, ends with all the offspring, and the others are
parents. -/
theorem C79_reduce_merge (red : Reducer α) (hred : Exact red) (parents offspring : List α) :
    (parents.length < offspring.length →
      reduceMerge red plus parents offspring = .error .thrown) ∧
    (offspring.length ≤ parents.length → ∀ res off',
      reduceMerge red plus parents offspring = .ok (res, off') →
      off' = offspring ∧ res.length = parents.length ∧
      ∃ kept, res = kept ++ offspring ∧ kept.Subperm parents) := by
  unfold reduceMerge
  refine ⟨fun h => if_pos h, fun h res off' hr => ?_⟩
  rw [if_neg (by omega)] at hr
  cases h1 : red parents (parents.length - offspring.length) with
  | error e => simp [h1] at hr
  | ok kept =>
    simp only [h1, plus, Except.ok.injEq, Prod.mk.injEq] at hr
    obtain ⟨rfl, rfl⟩ := hr
    obtain ⟨h2, h3⟩ := hred _ _ _ h1
    exact ⟨rfl, by rw [List.length_append, h2]; omega, kept, rfl, h3⟩

/-- C79, replace the worst: always succeeds with at most as many offspring as parents; the parents
kept are the best ones. With fewer offspring than parents nothing is lost of the best fitness. -/
theorem C79_ssga_worse (f : α → F) (parents offspring : List α)
    (h : offspring.length ≤ parents.length) :
    ∃ kept, ssgaWorse f parents offspring = .ok (kept ++ offspring, offspring) ∧
      (kept ++ offspring).length = parents.length ∧ BestOf f kept parents ∧
      (offspring.length < parents.length →
        ∀ p ∈ parents ++ offspring, ∃ q ∈ kept ++ offspring, f p ≤ f q) := by
  obtain ⟨kept, h1, h2, h3, h4⟩ := (C50_linear f parents (parents.length - offspring.length)).2
    (by omega)
  refine ⟨kept, ?_, by rw [List.length_append]; omega, h4, ?_⟩
  · unfold ssgaWorse reduceMerge
    rw [if_neg (by omega)]
    simp only [h1, plus]
  · intro hlt p hp
    rcases List.mem_append.1 hp with hp | hp
    · obtain ⟨q, hq, hpq⟩ := h4.best (by rintro rfl; simp at h2; omega) p hp
      exact ⟨q, List.mem_append_left _ hq, hpq⟩
    · exact ⟨p, List.mem_append_right _ hp, le_rfl⟩

/-- C79, deterministic tournaments: with fewer offspring than parents the best fitness is never
lost. -/
theorem C79_ssga_det (f : α → F) (tSize : Nat) (r : Nat → Nat) (fuel : Nat)
    (parents offspring res off' : List α) (h : offspring.length < parents.length)
    (hr : ssgaDet f tSize r fuel parents offspring = .ok (res, off')) :
    res.length = parents.length ∧ ∀ p ∈ parents ++ offspring, ∃ q ∈ res, f p ≤ f q := by
  have hr' := hr
  unfold ssgaDet reduceMerge at hr
  rw [if_neg (by omega)] at hr
  cases h1 : detTruncate f tSize r fuel parents (parents.length - offspring.length) with
  | error e => simp [h1] at hr
  | ok kept =>
    simp only [h1, plus, Except.ok.injEq, Prod.mk.injEq] at hr
    obtain ⟨rfl, rfl⟩ := hr
    have hb := C73_det_truncate_keeps_best f tSize r fuel parents kept _ (by omega) h1
    refine ⟨?_, ?_⟩
    · rcases (C50_deterministic f tSize r fuel parents (parents.length - offspring.length)).2
        (by omega) with h2 | ⟨k, h2, h3, _⟩
      · rw [h2] at h1; cases h1
      · rw [h2] at h1; cases h1
        rw [List.length_append, h3]; omega
    · intro p hp
      rcases List.mem_append.1 hp with hp | hp
      · obtain ⟨q, hq, hpq⟩ := hb p hp
        exact ⟨q, List.mem_append_left _ hq, hpq⟩
      · exact ⟨p, List.mem_append_right _ hp, le_rfl⟩

example : ssgaWorse (fun x : Nat => x) [3, 1, 2] [5] = .ok ([3, 2, 5], [5]) := by decide

/-! ### C80: splits -/

/-- C80: when the number to eliminate is within the size, the splits return that many and the rest
together make up the population; the truncating and linear ones eliminate the worst. -/
theorem C80_splits (f : α → F) (nth : Nat → List α → List α) (hn : IsNth f nth)
    (shuffle : List α → List α) (hsh : ∀ l, (shuffle l).Perm l) (h : HowMany) (pop elim : List α)
    (k : Nat) (hk : h.eval pop.length = .ok k) (hle : k ≤ pop.length) :
    (∃ kept el, truncateSplit nth h true pop elim = .ok (kept, elim ++ el) ∧ el.length = k ∧
      (kept ++ el).Perm pop ∧ ∀ a ∈ kept, ∀ b ∈ el, f b ≤ f a) ∧
    (∃ kept el, linearSplit f h true pop elim = .ok (kept, elim ++ el) ∧ el.length = k ∧
      (kept ++ el).Perm pop ∧ ∀ a ∈ kept, ∀ b ∈ el, f b ≤ f a) ∧
    (∃ kept el, randomSplit shuffle h true pop elim = .ok (kept, elim ++ el) ∧ el.length = k ∧
      (kept ++ el).Perm pop) := by
  refine ⟨?_, ?_, ?_⟩
  · unfold truncateSplit
    simp only [hk]
    by_cases h0 : k = 0
    · rw [if_pos h0]; exact ⟨pop, [], by simp, by simp [h0], by simp, by simp⟩
    · rw [if_neg h0, if_neg (by omega)]
      refine ⟨_, _, rfl, ?_, ?_, hn.split _ _⟩
      · rw [List.length_drop, (hn.perm _ _).length_eq]; omega
      · rw [List.take_append_drop]; exact hn.perm _ _
  · obtain ⟨rest, el, h1, h2, h3, h4⟩ := linearSplit_ok f h pop elim k hk hle
    exact ⟨rest, el, h1, h3, h2, h4⟩
  · unfold randomSplit
    simp only [hk]
    by_cases h0 : k = 0
    · rw [if_pos h0]; exact ⟨pop, [], by simp, by simp [h0], by simp⟩
    · rw [if_neg h0, if_neg (by omega)]
      refine ⟨_, _, rfl, ?_, ?_⟩
      · rw [List.length_drop, (hsh _).length_eq]; omega
      · rw [List.take_append_drop]; exact hsh _

/-- C80: when the number is too large only the linear split notices; the unsigned sizes of the two
others wrap around. -/
theorem C80_too_many (f : α → F) (nth : Nat → List α → List α) (shuffle : List α → List α)
    (h : HowMany) (ret : Bool) (pop elim : List α) (k : Nat) (hk : h.eval pop.length = .ok k)
    (hlt : pop.length < k) :
    linearSplit f h ret pop elim = .error .thrown ∧
    truncateSplit nth h ret pop elim = .error .ub ∧
    randomSplit shuffle h ret pop elim = .error .ub := by
  have h0 : k ≠ 0 := by omega
  refine ⟨?_, ?_, ?_⟩
  · unfold linearSplit; simp only [hk, if_neg h0, if_pos hlt]
  · unfold truncateSplit; simp only [hk, if_neg h0, if_pos hlt]
  · unfold randomSplit; simp only [hk, if_neg h0, if_pos hlt]

/-- C80: splitting away the whole population by deterministic tournaments never returns. -/
theorem C80_det_all_diverges (f : α → F) (tSize : Nat) (r : Nat → Nat) (fuel : Nat) (h : HowMany)
    (ret : Bool) (pop elim : List α) (hpop : pop ≠ [])
    (hk : h.eval pop.length = .ok pop.length) :
    detSplit f tSize r fuel h ret pop elim = .error .fuel := by
  have key : ∀ (n : Nat) (l : List α) (t : Nat), l.length = n + 1 →
      eliminate (invDetTournament f (max tSize 2) r fuel) (n + 1) l t = .error .fuel := by
    intro n
    induction n with
    | zero =>
      intro l t hl
      obtain ⟨x, rfl⟩ := List.length_eq_one_iff.1 hl
      rw [eliminate]
      simp only [C53_inverse_single_diverges f (max tSize 2) (by omega) r fuel x t]
    | succ n ih =>
      intro l t hl
      rw [eliminate]
      cases hp : invDetTournament f (max tSize 2) r fuel l t with
      | error e =>
        rw [invDetTournament, if_neg (by omega)] at hp
        simp only [invLoop_error _ _ _ _ _ _ _ _ hp]
      | ok p =>
        obtain ⟨i, t1⟩ := p
        have hi := invDet_lt _ _ _ _ _ _ _ _ (by omega) hp
        simp only [List.getElem?_eq_getElem hi,
          ih (l.eraseIdx i) t1 (by rw [List.length_eraseIdx_of_lt hi]; omega)]
  unfold detSplit
  have hl : pop.length ≠ 0 := fun h0 => hpop (List.eq_nil_of_length_eq_zero h0)
  obtain ⟨n, hn⟩ : ∃ n, pop.length = n + 1 := ⟨pop.length - 1, by omega⟩
  simp only [hk, if_neg hl]
  rw [hn, key n pop 0 hn]

/-- C80: when the split by deterministic tournaments returns, the eliminated are as many as asked, together with the rest they
are the population, and they are added after what the second population held iff they are wanted. -/
theorem C80_det (f : α → F) (tSize : Nat) (r : Nat → Nat) (fuel : Nat) (h : HowMany) (ret : Bool) (pop elim kept elim' : List α)
    (k : Nat) (hk : h.eval pop.length = .ok k) (hres : detSplit f tSize r fuel h ret pop elim = .ok (kept, elim')) :
    ∃ el, el.length = k ∧ kept.Sublist pop ∧ (kept ++ el).Perm pop ∧ elim' = if ret then elim ++ el else elim := by
  unfold detSplit at hres
  simp only [hk] at hres
  by_cases h0 : k = 0
  · rw [if_pos h0, Except.ok.injEq, Prod.mk.injEq] at hres
    obtain ⟨rfl, rfl⟩ := hres
    exact ⟨[], h0.symm, List.Sublist.refl _, by simp, by simp⟩
  · rw [if_neg h0] at hres
    cases he : eliminate (invDetTournament f (max tSize 2) r fuel) k pop 0 with
    | error e => rw [he] at hres; cases hres
    | ok q =>
      obtain ⟨rest, el, t'⟩ := q
      rw [he] at hres
      simp only [Except.ok.injEq, Prod.mk.injEq] at hres
      obtain ⟨h1, h2, h3⟩ := eliminate_ok _ _ _ _ _ _ _ he
      refine ⟨el, h1, hres.1 ▸ h2, ?_, hres.2.symm⟩
      rw [← hres.1]
      exact List.perm_append_comm.trans h3

/-- C80: when the eliminated are not wanted the second population stays as it is and the first one is the same. -/
theorem C80_not_returned (f : α → F) (nth : Nat → List α → List α) (shuffle : List α → List α) (tSize : Nat) (r : Nat → Nat)
    (fuel : Nat) (h : HowMany) (pop elim : List α) :
    truncateSplit nth h false pop elim = (truncateSplit nth h true pop elim).map (fun p => (p.1, elim)) ∧
    linearSplit f h false pop elim = (linearSplit f h true pop elim).map (fun p => (p.1, elim)) ∧
    randomSplit shuffle h false pop elim = (randomSplit shuffle h true pop elim).map (fun p => (p.1, elim)) ∧
    detSplit f tSize r fuel h false pop elim = (detSplit f tSize r fuel h true pop elim).map (fun p => (p.1, elim)) := by
  refine ⟨?_, ?_, ?_, ?_⟩
  · unfold truncateSplit
    cases h.eval pop.length with
    | error e => rfl
    | ok k => dsimp only; split_ifs <;> first | rfl | contradiction
  · unfold linearSplit
    cases h.eval pop.length with
    | error e => rfl
    | ok k =>
      dsimp only
      split_ifs <;> first | contradiction | rfl | (cases eliminate (pickWorse f) k pop 0 <;> rfl)
  · unfold randomSplit
    cases h.eval pop.length with
    | error e => rfl
    | ok k => dsimp only; split_ifs <;> first | rfl | contradiction
  · unfold detSplit
    cases h.eval pop.length with
    | error e => rfl
    | ok k =>
      dsimp only
      split_ifs <;> first | contradiction | rfl |
        (cases eliminate (invDetTournament f (max tSize 2) r fuel) k pop 0 <;> rfl)

/-- One of three is eliminated by a tournament of two and added to the second population. -/
example : detSplit (fun x : Nat => x) 2 (fun t => t % 3) 5 ⟨0, 1⟩ true [3, 1, 2] [7] = .ok ([3, 2], [7, 1]) := by decide +kernel

end Paradiseo.EO
