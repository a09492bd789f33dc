import Verif.Model.MoeoEntropy
import Mathlib.Data.List.Basic
import Mathlib.Analysis.SpecialFunctions.Log.Deriv
import Mathlib.Analysis.Complex.ExponentialBounds
import Mathlib.Tactic.IntervalCases

/-!
# Property C231: the entropy metric
-/

namespace Paradiseo.Moeo

open Paradiseo.EO (Err)

/-! ## Removing dominated vectors -/

section Remove

variable {α : Type}

/-- `a` is dominated by no member of `f`. -/
def nondominated (dom : α → α → Bool) (f : List α) (a : α) : Bool := !f.any fun b => dom a b

theorem isDominatedAt_eq {dom : α → α → Bool} (hirr : ∀ a, dom a a = false) (f : List α) (i : Nat) (hi : i < f.length) :
    isDominatedAt dom f i = f.any fun b => dom f[i] b := by
  rw [Bool.eq_iff_iff]
  unfold isDominatedAt
  simp only [List.any_eq_true, List.mem_range, Bool.and_eq_true, decide_eq_true_eq, List.getElem?_eq_getElem hi]
  constructor
  · rintro ⟨j, hj, _, h⟩
    simp only [List.getElem?_eq_getElem hj] at h
    exact ⟨f[j], List.getElem_mem hj, h⟩
  · rintro ⟨b, hb, h⟩
    obtain ⟨j, hj, rfl⟩ := List.mem_iff_getElem.1 hb
    refine ⟨j, hj, ?_, by simpa only [List.getElem?_eq_getElem hj] using h⟩
    rintro rfl
    rw [hirr] at h
    cases h

theorem dropAt_spec (f : List α) (i : Nat) (hi : i < f.length) :
    f.Perm (f[i] :: dropAt f i) ∧ (dropAt f i).take i = f.take i := by
  obtain ⟨g, x, rfl⟩ : ∃ g x, f = g ++ [x] := ⟨f.dropLast, f.getLast (by intro h; simp [h] at hi),
    (List.dropLast_append_getLast _).symm⟩
  have e : dropAt (g ++ [x]) i = ((g ++ [x]).set i x).dropLast := by simp [dropAt]
  rw [e]
  by_cases hig : i < g.length
  · have e2 : ((g ++ [x]).set i x).dropLast = g.set i x := by
      rw [List.set_append_left _ _ hig, List.dropLast_concat]
    rw [e2, List.getElem_append_left hig]
    refine ⟨?_, ?_⟩
    · have h1 : g = g.take i ++ g[i] :: g.drop (i + 1) := by
        rw [← List.drop_eq_getElem_cons, List.take_append_drop]
      have h2 : g.set i x = g.take i ++ x :: g.drop (i + 1) := by
        rw [List.set_eq_take_append_cons_drop, if_pos hig]
      rw [h2]
      conv_lhs => rw [h1]
      rw [List.append_assoc, List.cons_append]
      refine List.perm_middle.trans (List.Perm.cons _ ?_)
      refine List.Perm.append_left _ ?_
      exact List.perm_append_comm
    · rw [List.take_set_of_le le_rfl, List.take_append_of_le_length (by omega)]
  · have hi' : i = g.length := by simp at hi; omega
    subst hi'
    have e2 : ((g ++ [x]).set g.length x).dropLast = g := by
      rw [List.set_append_right _ _ le_rfl]; simp
    rw [e2]
    refine ⟨?_, by simp⟩
    simpa using List.perm_append_singleton x g

theorem filter_nondominated_drop {dom : α → α → Bool} (htr : ∀ a b c, dom a b → dom b c → dom a c)
    (hirr : ∀ a, dom a a = false) {f g : List α} {x : α} (hp : f.Perm (x :: g)) (hx : f.any (fun b => dom x b) = true) :
    (g.filter (nondominated dom g)).Perm (f.filter (nondominated dom f)) := by
  have h1 : nondominated dom f x = false := by simp [nondominated, hx]
  have h2 : ∀ a, nondominated dom f a = nondominated dom g a := by
    intro a
    unfold nondominated
    congr 1
    rw [Bool.eq_iff_iff]
    simp only [List.any_eq_true] at hx ⊢
    obtain ⟨b, hb, hxb⟩ := hx
    have hb' : b ∈ g := by
      rcases List.mem_cons.1 (hp.mem_iff.1 hb) with rfl | h
      · rw [hirr] at hxb; cases hxb
      · exact h
    constructor
    · rintro ⟨c, hc, hac⟩
      rcases List.mem_cons.1 (hp.mem_iff.1 hc) with rfl | h
      · exact ⟨b, hb', htr _ _ _ hac hxb⟩
      · exact ⟨c, h, hac⟩
    · rintro ⟨c, hc, hac⟩
      exact ⟨c, hp.mem_iff.2 (List.mem_cons_of_mem _ hc), hac⟩
  have h3 := hp.filter (nondominated dom f)
  rw [List.filter_cons_of_neg (by simp [h1])] at h3
  have h4 : g.filter (nondominated dom f) = g.filter (nondominated dom g) :=
    List.filter_congr fun a _ => h2 a
  rw [h4] at h3
  exact h3.symm

theorem removeDominatedFrom_perm {dom : α → α → Bool} (htr : ∀ a b c, dom a b → dom b c → dom a c)
    (hirr : ∀ a, dom a a = false) (f : List α) (i : Nat) (hpre : ∀ a ∈ f.take i, nondominated dom f a = true) :
    (removeDominatedFrom dom f i).Perm (f.filter (nondominated dom f)) := by
  induction hm : f.length - i using Nat.strong_induction_on generalizing f i with
  | _ m ih =>
    subst hm
    unfold removeDominatedFrom
    split
    · rename_i hi
      rw [isDominatedAt_eq hirr f i hi]
      obtain ⟨hp, ht⟩ := dropAt_spec f i hi
      have hlen := hp.length_eq
      rw [List.length_cons] at hlen
      split
      · rename_i hd
        have hsub : ∀ a, a ∈ dropAt f i → a ∈ f := fun a ha => hp.mem_iff.2 (List.mem_cons_of_mem _ ha)
        refine (ih _ (by omega) (dropAt f i) i ?_ rfl).trans (filter_nondominated_drop htr hirr hp hd)
        intro a ha
        rw [ht] at ha
        have := hpre a ha
        simp only [nondominated, Bool.not_eq_true', List.any_eq_false] at this ⊢
        exact fun b hb => this b (hsub b hb)
      · rename_i hd
        refine ih _ (by omega) f (i + 1) ?_ rfl
        intro a ha
        rw [List.take_succ_eq_append_getElem hi] at ha
        rcases List.mem_append.1 ha with ha | ha
        · exact hpre a ha
        · rw [List.mem_singleton] at ha
          subst ha
          simpa [nondominated] using hd
    · rename_i hi
      have : f.take i = f := List.take_of_length_le (by omega)
      rw [this] at hpre
      rw [List.filter_eq_self.2 hpre]

/-- Exactly the vectors that no other vector of the set dominates are kept, with their multiplicity (in another order). -/
theorem C231_nondominated {dom : α → α → Bool} (htr : ∀ a b c, dom a b → dom b c → dom a c)
    (hirr : ∀ a, dom a a = false) (f : List α) :
    (removeDominated dom f).Perm (f.filter fun a => !f.any fun b => dom a b) :=
  removeDominatedFrom_perm htr hirr f 0 (by simp)

/-- A set without dominated vectors is left as it is. -/
theorem removeDominatedFrom_self {dom : α → α → Bool} (f : List α) (h : ∀ a ∈ f, ∀ b ∈ f, dom a b = false) (i : Nat) :
    removeDominatedFrom dom f i = f := by
  induction hm : f.length - i using Nat.strong_induction_on generalizing i with
  | _ m ih =>
    subst hm
    unfold removeDominatedFrom
    split
    · rename_i hi
      have : isDominatedAt dom f i = false := by
        unfold isDominatedAt
        rw [List.any_eq_false]
        intro j hj
        rw [List.mem_range] at hj
        simp [List.getElem?_eq_getElem hi, List.getElem?_eq_getElem hj, h _ (List.getElem_mem hi) _ (List.getElem_mem hj)]
      rw [this, if_neg (by simp)]
      exact ih _ (by omega) (i + 1) rfl
    · rfl

theorem removeDominated_self {dom : α → α → Bool} (f : List α) (h : ∀ a ∈ f, ∀ b ∈ f, dom a b = false) :
    removeDominated dom f = f := removeDominatedFrom_self f h 0

end Remove

/-! ## The value -/

/-- The number of niches the members of the set are spread over: each member counts for one over what is in its
niche. -/
noncomputable def nichesOf (counts : List (Nat × Nat)) : ℝ :=
  ((counts.filter fun p => 0 < p.1).map fun p => ((p.2 : ℝ))⁻¹).sum

theorem omegaOf_eq (counts : List (Nat × Nat)) : omegaOf counts = nichesOf counts := by
  unfold omegaOf nichesOf
  induction counts with
  | nil => rfl
  | cons p l ih =>
    rw [List.map_cons, List.sum_cons, ih, List.filter_cons]
    by_cases h : 0 < p.1 <;> simp [h]

/-- The entropy of the niches as in the literature: with `c` members, `n` of the set and `m` altogether in the niche of a
member, minus the sum of `n / (m c) * log (n / c)` over `log omega`. -/
noncomputable def entropyIntended (counts : List (Nat × Nat)) : ℝ :=
  -(counts.map fun p => if 0 < p.1 then
    (p.1 : ℝ) / (p.2 * counts.length) * Real.log ((p.1 : ℝ) / counts.length) else 0).sum / Real.log (nichesOf counts)

/-- The sum of the weights. -/
noncomputable def weightSum (counts : List (Nat × Nat)) : ℝ :=
  (counts.map fun p => if 0 < p.1 then (p.1 : ℝ) / (p.2 * counts.length) else 0).sum

theorem log_two_pos : (0 : ℝ) < Real.log 2 := Real.log_pos (by norm_num)

theorem entropySum_eq (counts : List (Nat × Nat)) :
    entropySum counts = (counts.map fun p => if 0 < p.1 then
      (p.1 : ℝ) / (p.2 * counts.length) * Real.log ((p.1 : ℝ) / counts.length) else 0).sum -
        Real.log (Real.log 2) * weightSum counts := by
  unfold entropySum weightSum
  have hsub : ∀ (l : List (Nat × Nat)) (f g : Nat × Nat → ℝ), (l.map f).sum - (l.map g).sum = (l.map fun p => f p - g p).sum := by
    intro l f g
    induction l with
    | nil => simp
    | cons a l ih => simp only [List.map_cons, List.sum_cons, ← ih]; ring
  rw [← List.sum_map_mul_left, hsub]
  congr 1
  apply List.map_congr_left
  intro p hp
  split
  · rename_i h
    have hlen : 0 < counts.length := List.length_pos_of_mem hp
    have h1 : (0 : ℝ) < (p.1 : ℝ) / counts.length := by positivity
    rw [Real.log_div h1.ne' log_two_pos.ne']
    ring
  · simp

/-- What is returned is `log 2` times the intended entropy, plus a term that does not vanish: `log 2 · log (log 2)` times
the sum of the weights over `log omega`. -/
theorem C231_value (counts : List (Nat × Nat)) :
    entropySum counts / (-Real.log (omegaOf counts)) * Real.log 2 =
      Real.log 2 * entropyIntended counts +
        Real.log 2 * Real.log (Real.log 2) * weightSum counts / Real.log (nichesOf counts) := by
  rw [entropySum_eq, omegaOf_eq]
  unfold entropyIntended
  rw [div_neg]
  ring

/-- If each of `c` vectors is alone in its niche, which is the best spread possible and of entropy 1, the value returned
is `log 2 · (1 + log (log 2) / log c)`. -/
theorem C231_isolated (c : Nat) (hc : 2 ≤ c) :
    entropyIntended (List.replicate c (1, 1)) = 1 ∧
    entropySum (List.replicate c (1, 1)) / (-Real.log (omegaOf (List.replicate c (1, 1)))) * Real.log 2 =
      Real.log 2 * (1 + Real.log (Real.log 2) / Real.log c) := by
  have hc0 : (c : ℝ) ≠ 0 := by exact_mod_cast (by omega : c ≠ 0)
  have hl : Real.log c ≠ 0 := (Real.log_pos (by exact_mod_cast (by omega : 1 < c))).ne'
  have ho : omegaOf (List.replicate c (1, 1)) = c := by
    simp [omegaOf]
  have hw : weightSum (List.replicate c (1, 1)) = 1 := by
    simp [weightSum, hc0]
  have hi : entropyIntended (List.replicate c (1, 1)) = 1 := by
    unfold entropyIntended
    rw [← omegaOf_eq, ho]
    simp only [List.map_replicate, List.length_replicate, Nat.cast_one, one_mul, zero_lt_one, if_true, List.sum_replicate,
      one_div, Real.log_inv, nsmul_eq_mul]
    field_simp
  refine ⟨hi, ?_⟩
  rw [C231_value, hi, hw, ← omegaOf_eq, ho]
  field_simp

theorem log_log_two_neg : Real.log (Real.log 2) < 0 :=
  Real.log_neg log_two_pos (lt_trans Real.log_two_lt_d9 (by norm_num))

/-- Never 1. -/
theorem C231_isolated_below_one (c : Nat) (hc : 2 ≤ c) :
    entropySum (List.replicate c (1, 1)) / (-Real.log (omegaOf (List.replicate c (1, 1)))) * Real.log 2 < 7 / 10 := by
  rw [(C231_isolated c hc).2]
  have hl : 0 < Real.log c := Real.log_pos (by exact_mod_cast (by omega : 1 < c))
  have h1 : Real.log (Real.log 2) / Real.log c < 0 := div_neg_of_neg_of_pos log_log_two_neg hl
  have h2 := log_two_pos
  have h3 := Real.log_two_lt_d9
  nlinarith

/-- The vector `(a, b)`. -/
noncomputable def vec2 (a b : ℝ) : Nat → ℝ := fun j => if j = 0 then a else b

theorem eucl_vec2 (a b c d : ℝ) : eucl 2 (vec2 a b) (vec2 c d) = Real.sqrt ((a - c) ^ 2 + (b - d) ^ 2) := by
  simp [eucl, vec2, List.range_succ]

/-- The program on the two extreme vectors of a front, twice: the value is `log 2 + log (log 2)`, about 0.33, and not 1. -/
theorem C231_two_points (dom eq : (Nat → ℝ) → (Nat → ℝ) → Bool)
    (hdom : ∀ a b, a ∈ [vec2 0 1, vec2 1 0] → b ∈ [vec2 0 1, vec2 1 0] → dom a b = false)
    (heq : ∀ a, eq a a = true) :
    entropyMetric 2 dom eq [vec2 0 1, vec2 1 0] [vec2 0 1, vec2 1 0] = .ok (some (Real.log 2 + Real.log (Real.log 2))) := by
  have e1 : removeDominated dom [vec2 0 1, vec2 1 0] = [vec2 0 1, vec2 1 0] :=
    removeDominated_self _ fun a ha b hb => hdom a b ha hb
  have e2 : computeUnion eq [vec2 0 1, vec2 1 0] [vec2 0 1, vec2 1 0] = [vec2 0 1, vec2 1 0] := by
    simp [computeUnion, heq]
  have elo : ∀ j, preLo [vec2 0 1, vec2 1 0] j = 0 := by
    intro j
    simp only [preLo, vec2, List.foldl_cons, List.foldl_nil]
    by_cases h : j = 0 <;> simp [h]
  have ehi : ∀ j, preHi [vec2 0 1, vec2 1 0] j = 1 := by
    intro j
    simp only [preHi, vec2, List.foldl_cons, List.foldl_nil]
    by_cases h : j = 0 <;> simp [h]
  have e3 : normEntropy (preLo [vec2 0 1, vec2 1 0]) (preHi [vec2 0 1, vec2 1 0]) [vec2 0 1, vec2 1 0] =
      [vec2 0 1, vec2 1 0] := by
    unfold normEntropy
    simp only [elo, ehi, sub_zero, div_one]
    rw [List.map_id']
  have hs : ¬ Real.sqrt (1 + 1) < 1 := by
    rw [not_lt, Real.le_sqrt (by norm_num) (by norm_num)]
    norm_num
  have en1 : niche 2 [vec2 0 1, vec2 1 0] (vec2 0 1) 2 = 1 := by
    have h1 : eucl 2 (vec2 0 1) (vec2 0 1) < ((2 : Nat) : ℝ) / (2 : Nat) := by rw [eucl_vec2]; norm_num
    have h2 : ¬ eucl 2 (vec2 1 0) (vec2 0 1) < ((2 : Nat) : ℝ) / (2 : Nat) := by
      rw [eucl_vec2]; norm_num
    simp only [niche, List.countP_cons, List.countP_nil, h1, h2, decide_true, decide_false]
    norm_num
  have en2 : niche 2 [vec2 0 1, vec2 1 0] (vec2 1 0) 2 = 1 := by
    have h1 : eucl 2 (vec2 1 0) (vec2 1 0) < ((2 : Nat) : ℝ) / (2 : Nat) := by rw [eucl_vec2]; norm_num
    have h2 : ¬ eucl 2 (vec2 0 1) (vec2 1 0) < ((2 : Nat) : ℝ) / (2 : Nat) := by
      rw [eucl_vec2]; norm_num
    simp only [niche, List.countP_cons, List.countP_nil, h1, h2, decide_true, decide_false]
    norm_num
  have ec : nicheCounts 2 [vec2 0 1, vec2 1 0] [vec2 0 1, vec2 1 0] [vec2 0 1, vec2 1 0] = List.replicate 2 (1, 1) := by
    simp [nicheCounts, en1, en2, List.replicate]
  have ho : omegaOf (List.replicate 2 (1, 1)) = 2 := by simp [omegaOf]; norm_num
  unfold entropyMetric
  simp only [e1, e3, e2, ec]
  rw [if_neg (by simp), if_neg (by simp [elo, ehi]), if_neg (by rw [ho]; exact log_two_pos.ne'),
    (C231_isolated 2 le_rfl).2]
  congr 2
  have := log_two_pos.ne'
  push_cast
  field_simp

/-- An empty first set is read out of bounds; a first set with a single vector divides by zero. -/
theorem C231_small (K : Nat) (hK : 0 < K) (dom eq : (Nat → ℝ) → (Nat → ℝ) → Bool) (hirr : ∀ a, dom a a = false)
    (set2 : List (Nat → ℝ)) (v : Nat → ℝ) :
    entropyMetric K dom eq [] set2 = .error .ub ∧ entropyMetric K dom eq [v] set2 = .ok none := by
  have e1 : removeDominated dom ([] : List (Nat → ℝ)) = [] := removeDominated_self _ (by simp)
  have e2 : removeDominated dom [v] = [v] := removeDominated_self _ (by simp [hirr])
  constructor
  · simp [entropyMetric, e1]
  · unfold entropyMetric
    simp only [e2]
    rw [if_neg (by simp), if_pos ⟨0, hK, rfl⟩]

example : ∃ dom : (Nat → ℝ) → (Nat → ℝ) → Bool, (∀ a b c, dom a b → dom b c → dom a c) ∧ (∀ a, dom a a = false) ∧
    dom (vec2 2 1) (vec2 0 1) = true := by
  classical
  refine ⟨fun a b => decide (b 0 < a 0), ?_, ?_, ?_⟩
  · intro a b c h1 h2
    simp only [decide_eq_true_eq] at *
    linarith
  · simp
  · simp [vec2]

end Paradiseo.Moeo
