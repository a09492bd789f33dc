/-
C146-C150: mutations and crossovers of real vectors, evolution strategies.
-/
import Verif.Lemmas.ESAdapt
import Mathlib.Analysis.SpecialFunctions.Pow.Real
import Mathlib.Data.Rat.Floor
import Mathlib.Tactic.NormNum
import Mathlib.Tactic.IntervalCases

namespace Paradiseo.ES

open Paradiseo.EO (Err)
open Paradiseo.Bounds (Bound truncZ)

section field
variable {F : Type*} [Field F] [LinearOrder F] [IsStrictOrderedRing F]

/-- Every component lies in its bound. -/
def AllIn (bs : List (Bound F)) (xs : List F) : Prop :=
  ∀ (j : Nat) (b : Bound F) (x : F), bs[j]? = some b → xs[j]? = some x → b.Mem x

/-! ### C146: uniform mutations -/

/-- Without bounds: the length is kept, a component that is not chosen stays, a chosen one moves by at most
epsilon, and the answer is true exactly when some component was chosen. -/
theorem C146_free (eps : F) (he : 0 ≤ eps) (flip : Nat → Bool) (u : Nat → F) (hu : ∀ i, 0 ≤ u i ∧ u i ≤ 1)
    (xs : List F) :
    (uniformMutFree eps flip u 0 xs).1.length = xs.length ∧
    (∀ (i : Nat) (x y : F), xs[i]? = some x → (uniformMutFree eps flip u 0 xs).1[i]? = some y →
      |y - x| ≤ eps ∧ (flip i = false → y = x)) ∧
    ((uniformMutFree eps flip u 0 xs).2 = true ↔ ∃ i < xs.length, flip i = true) := by
  refine ⟨uniformMutFree_length eps flip u 0 xs, fun i x y hx hy => ?_, by
    simpa using uniformMutFree_flag eps flip u 0 xs⟩
  rw [uniformMutFree_get, hx, zero_add] at hy
  simp only [Option.map_some, Option.some.injEq, uniformFree] at hy
  subst hy
  split
  · rename_i h
    refine ⟨?_, fun h' => by simp [h] at h'⟩
    rw [abs_le]
    constructor <;> nlinarith [hu i, mul_nonneg he (hu i).1, mul_nonneg he (sub_nonneg.2 (hu i).2)]
  · simpa using he

example : (uniformMutFree (1 / 2 : ℚ) (fun i => i == 1) (fun _ => 1 / 4) 0 [1, 2, 3]) = ([1, 7 / 4, 3], true) := by
  norm_num [uniformMutFree, uniformFree]

/-- With bounds: a vector of another size than the bounds is refused; otherwise, from a vector inside the
bounds, the result is inside, and each component moves by at most its range. -/
theorem C146_bounded (bs : List (Bound F)) (es : List F) (hes : ∀ e ∈ es, 0 ≤ e) (flip : Nat → Bool) (u : Nat → F)
    (hu : ∀ i, 0 ≤ u i ∧ u i ≤ 1) (xs : List F) :
    (xs.length ≠ bs.length → uniformMut bs es flip u xs = .error .thrown) ∧
    (xs.length = bs.length → bs.length ≤ es.length → AllIn bs xs → ∃ ys c,
      uniformMut bs es flip u xs = .ok (ys, c) ∧ ys.length = xs.length ∧ AllIn bs ys ∧
      (∀ (i : Nat) (e x y : F), es[i]? = some e → xs[i]? = some x → ys[i]? = some y →
        |y - x| ≤ e ∧ (flip i = false → y = x)) ∧
      (c = true ↔ ∃ i < xs.length, flip i = true)) := by
  refine ⟨fun h => by simp [uniformMut, h], fun h1 h2 h3 => ?_⟩
  have hlen := uniformMutLoop_length flip u 0 bs es xs h2 h1
  refine ⟨_, _, by simp [uniformMut, h1, not_lt.2 h2]; rfl, hlen, ?_, ?_, ?_⟩
  · intro j b y hb hy
    have hj : j < xs.length := by
      have := (List.getElem?_eq_some_iff.1 hy).1
      omega
    obtain ⟨x, hx⟩ : ∃ x, xs[j]? = some x := ⟨_, List.getElem?_eq_getElem hj⟩
    obtain ⟨e, he⟩ : ∃ e, es[j]? = some e := ⟨_, List.getElem?_eq_getElem (by omega)⟩
    have := uniformMutLoop_get flip u 0 bs es xs h2 h1 j b e x hb he hx
    rw [this, zero_add, Option.some.injEq] at hy
    subst hy
    split
    · exact (uniformIn_spec b (hes e (List.mem_of_getElem? he)) (hu j).1 (hu j).2 (h3 j b x hb hx)).1
    · exact h3 j b x hb hx
  · intro j e x y he hx hy
    obtain ⟨b, hb⟩ : ∃ b, bs[j]? = some b :=
      ⟨_, List.getElem?_eq_getElem (by have := (List.getElem?_eq_some_iff.1 hx).1; omega)⟩
    have := uniformMutLoop_get flip u 0 bs es xs h2 h1 j b e x hb he hx
    rw [this, zero_add, Option.some.injEq] at hy
    subst hy
    have he0 := hes e (List.mem_of_getElem? he)
    split
    · rename_i hf
      exact ⟨(uniformIn_spec b he0 (hu j).1 (hu j).2 (h3 j b x hb hx)).2, fun h' => by simp [hf] at h'⟩
    · simpa using he0
  · simpa using uniformMutLoop_flag flip u 0 bs es xs h2 h1

example : uniformMut [.interval (0 : ℚ) 2, .above 5] [1, 1] (fun _ => true) (fun _ => 1 / 2) [1 / 2, 5] =
    .ok ([3 / 4, 9 / 2], true) := by
  norm_num [uniformMut, uniformMutLoop, uniformIn, atLeast, atMost, lo?, hi?]

/-- A component that is outside its interval by more than the range is not brought back: it stays outside,
on the same side. -/
theorem C146_outside_stays_outside {lo hi e u x : F} (hlh : lo ≤ hi) (he : 0 ≤ e) (h0 : 0 ≤ u) (h1 : u < 1) :
    (hi + e < x → hi < uniformIn (.interval lo hi) e u x) ∧
    (x < lo - e → 0 < u → uniformIn (.interval lo hi) e u x < lo) := by
  constructor
  · intro h
    simp only [uniformIn, atLeast, atMost, lo?, hi?]
    rw [max_eq_right (by linarith), min_eq_left (by linarith)]
    nlinarith
  · intro h hu
    simp only [uniformIn, atLeast, atMost, lo?, hi?]
    rw [max_eq_left (by linarith), min_eq_right (by linarith)]
    nlinarith

example : uniformIn (.interval (0 : ℚ) 1) (1 / 10) (1 / 2) 3 = 39 / 20 := by
  norm_num [uniformIn, atLeast, atMost, lo?, hi?]

/-- The constructors that scale one epsilon by the width of each interval multiply by epsilon twice: the range
is not epsilon times the width unless epsilon is 0 or 1, and smaller below 1. -/
theorem C146_scaled_twice {eps lo hi : F} (hlh : lo < hi) :
    scaled eps (.interval lo hi) = eps ^ 2 * (hi - lo) ∧
    (scaled eps (.interval lo hi) = eps * (hi - lo) ↔ eps = 0 ∨ eps = 1) ∧
    (0 < eps → eps < 1 → scaled eps (.interval lo hi) < eps * (hi - lo)) := by
  have hw : 0 < hi - lo := by linarith
  refine ⟨by simp only [scaled]; ring, ⟨fun h => ?_, ?_⟩, fun h0 h1 => ?_⟩
  · simp only [scaled] at h
    have : eps * (eps - 1) * (hi - lo) = 0 := by linear_combination h
    rcases mul_eq_zero.1 this with h | h
    · rcases mul_eq_zero.1 h with h | h
      · exact .inl h
      · exact .inr (by linarith)
    · exact absurd h hw.ne'
  · rintro (rfl | rfl) <;> simp [scaled]
  · simp only [scaled]
    have := mul_pos h0 hw
    nlinarith

example : scaled (1 / 100 : ℚ) (.interval 0 10) = 1 / 1000 := by norm_num [scaled]

/-- The mutation of a given number of components, without bounds, does not move the chosen components but
replaces them by numbers near zero: a chosen component ends in [-eps, eps] wherever it was. -/
theorem C146_det_free_replaces (eps : F) (he : 0 ≤ eps) (ds : List (Nat × F)) (hd : ∀ d ∈ ds, 0 ≤ d.2 ∧ d.2 ≤ 1)
    (xs : List F) :
    (detFree eps ds xs).length = xs.length ∧
    (∀ i, i ∉ ds.map Prod.fst → (detFree eps ds xs)[i]? = xs[i]?) ∧
    (∀ i, i ∈ ds.map Prod.fst → i < xs.length → ∃ y, (detFree eps ds xs)[i]? = some y ∧ |y| ≤ eps) := by
  refine ⟨detFree_length eps ds xs, fun i => (detFree_spec eps ds xs i).1, fun i hi hl => ?_⟩
  obtain ⟨u, hu, e⟩ := (detFree_spec eps ds xs i).2 hi hl
  refine ⟨_, e, ?_⟩
  obtain ⟨d, hdm, rfl⟩ := List.mem_map.1 hu
  have := hd d hdm
  rw [abs_le]
  constructor <;> nlinarith [mul_nonneg he this.1, mul_nonneg he (sub_nonneg.2 this.2)]

example : detFree (1 / 10 : ℚ) [(1, 1 / 2)] [100, 200, 300] = [100, 0, 300] := by norm_num [detFree]

/-- With bounds the chosen components stay in their bounds and the others are kept. -/
theorem C146_det_bounded (bs : List (Bound F)) (es : List F) (hes : ∀ e ∈ es, 0 ≤ e) (ds : List (Nat × F))
    (hd : ∀ d ∈ ds, 0 ≤ d.2 ∧ d.2 ≤ 1) (xs : List F) (hx : AllIn bs xs) :
    (detIn bs es ds xs).length = xs.length ∧ AllIn bs (detIn bs es ds xs) ∧
    ∀ i, i ∉ ds.map Prod.fst → (detIn bs es ds xs)[i]? = xs[i]? :=
  detIn_spec bs es hes ds xs hd hx

example : detIn [.interval (0 : ℚ) 2, .above 5] [1, 1] [(1, 1 / 2), (1, 1)] [1 / 2, 5] = [1 / 2, 5] := by
  norm_num [detIn, uniformIn, atLeast, atMost, lo?, hi?]

/-! ### C147: crossovers -/

/-- Segment crossover of parents inside the bounds: one factor for all components, both children are inside,
they lie on the line through the parents, symmetrically about its middle, at most `alpha` beyond. -/
theorem C147_segment (alpha u : F) (ha : 0 ≤ alpha) (hu : 0 ≤ u ∧ u ≤ 1) (bs : List (Bound F)) (rs : List (F × F))
    (hb : rs.length ≤ bs.length) (hr : AllIn bs (rs.map Prod.fst) ∧ AllIn bs (rs.map Prod.snd)) :
    (segment alpha u bs rs).length = rs.length ∧
    ∃ f, -alpha ≤ f ∧ f ≤ 1 + alpha ∧
    ∀ (i : Nat) (r c : F × F) (b : Bound F), rs[i]? = some r → (segment alpha u bs rs)[i]? = some c → bs[i]? = some b →
      c.1 = r.2 + f * (r.1 - r.2) ∧ c.1 + c.2 = r.1 + r.2 ∧ b.Mem c.1 ∧ b.Mem c.2 := by
  refine ⟨by simp [segment], segFactor alpha u bs rs, ?_⟩
  have mem : ∀ (j : Nat) (b : Bound F) (r : F × F), bs[j]? = some b → rs[j]? = some r → b.Mem r.1 ∧ b.Mem r.2 :=
    fun j b r h1 h2 => ⟨hr.1 j b r.1 h1 (by simp [h2]), hr.2 j b r.2 h1 (by simp [h2])⟩
  by_cases h0 : alpha = 0
  · subst h0
    have e : segFactor 0 u bs rs = u := by simp [segFactor]
    rw [e]
    refine ⟨by simpa using hu.1, by simpa using hu.2, fun i r c b h1 h2 h3 => ?_⟩
    simp only [segment, e, List.getElem?_map, h1, Option.map_some, Option.some.injEq] at h2
    subst h2
    obtain ⟨m1, m2⟩ := mem i b r h3 h1
    have := blend_unit_mem m1 m2 hu.1 hu.2
    exact ⟨by simp only [blend]; ring, by simp only [blend]; ring, this.1, this.2⟩
  · obtain ⟨⟨s1, s2⟩, s3⟩ := segLimits_spec bs rs (-alpha, 1 + alpha) (by simpa using ha) (by simpa using ha) mem
    obtain ⟨m1, m2⟩ := segLimits_mono bs rs (-alpha, 1 + alpha)
    obtain ⟨f1, f2⟩ := between hu.1 hu.2 (s1.trans (zero_le_one.trans s2))
    have e : segFactor alpha u bs rs = _ := if_neg h0
    rw [← e] at f1 f2
    refine ⟨m1.trans f1, f2.trans m2, fun i r c b h1 h2 h3 => ?_⟩
    simp only [segment, List.getElem?_map, h1, Option.map_some, Option.some.injEq] at h2
    subst h2
    obtain ⟨n1, n2⟩ := mem i b r h3 h1
    have := blend_mem n1 n2 (s3 i b r h3 h1) f1 f2
    exact ⟨by simp only [blend]; ring, by simp only [blend]; ring, this.1, this.2⟩

example : AllIn [.interval (0 : ℚ) 4, .none] ([(1, 3), (5, 5)].map Prod.fst) ∧
    AllIn [.interval (0 : ℚ) 4, .none] ([(1, 3), (5, 5)].map Prod.snd) := by
  constructor <;>
  · intro j b x hb hx
    match j with
    | 0 => simp at hb hx; subst hb hx; norm_num [Bound.Mem]
    | 1 => simp at hb hx; subst hb hx; trivial
    | j + 2 => simp at hb

/-- Hypercube crossover of parents inside the bounds: the children are inside, each component in the interval
of the parents' components stretched by `alpha` times its width on both sides; the answer is true exactly when
the parents differ. -/
theorem C147_hypercube (alpha : F) (ha : 0 ≤ alpha) (u u' : Nat → F) (flip : Nat → Bool)
    (hu : ∀ i, 0 ≤ u i ∧ u i ≤ 1) (hu' : ∀ i, 0 ≤ u' i ∧ u' i ≤ 1) (bs : List (Bound F)) (rs : List (F × F))
    (hb : rs.length ≤ bs.length) (hr : AllIn bs (rs.map Prod.fst) ∧ AllIn bs (rs.map Prod.snd)) :
    (cube alpha u u' flip 0 bs rs).1.length = rs.length ∧
    (∀ (i : Nat) (r c : F × F) (b : Bound F), rs[i]? = some r → (cube alpha u u' flip 0 bs rs).1[i]? = some c →
      bs[i]? = some b → b.Mem c.1 ∧ b.Mem c.2 ∧ InBox alpha r.1 r.2 c.1 ∧ InBox alpha r.1 r.2 c.2) ∧
    ((cube alpha u u' flip 0 bs rs).2 = true ↔ ∃ r ∈ rs, r.1 ≠ r.2) := by
  refine ⟨cube_length 0 bs rs hb, fun i r c b h1 h2 h3 => ?_, cube_flag 0 bs rs hb⟩
  rw [cube_get 0 bs rs i b r h3 h1, Option.some.injEq] at h2
  subst h2
  obtain ⟨⟨a, b⟩, c, d⟩ := cubeOne_spec ha (flip (0 + i)) (hu (0 + i)) (hu' (0 + i))
    (hr.1 i b r.1 h3 (by simp [h1])) (hr.2 i b r.2 h3 (by simp [h1]))
  exact ⟨a, b, c, d⟩

example : (cube (1 / 2 : ℚ) (fun _ => 1 / 2) (fun _ => 1 / 2) (fun _ => true) 0 [.interval 0 4] [(1, 3)]) =
    ([(1, 3)], true) := by
  norm_num [cube, cubeOne, atLeast, atMost, lo?, hi?]

omit [Field F] [IsStrictOrderedRing F] in
/-- Uniform crossover of parents of the same size exchanges the components chosen and keeps the others; the
answer is true exactly when the parents are changed. -/
theorem C147_uniform (flip : Nat → Bool) (xs ys : List F) (h : xs.length = ys.length) :
    ∃ xs' ys' c, uxover flip 0 xs ys = .ok (xs', ys', c) ∧ xs'.length = xs.length ∧ ys'.length = ys.length ∧
    (∀ (i : Nat) (x y : F), xs[i]? = some x → ys[i]? = some y →
      xs'[i]? = some (if flip i then y else x) ∧ ys'[i]? = some (if flip i then x else y)) ∧
    (c = true ↔ xs' ≠ xs) := by
  simpa using uxover_spec flip 0 xs ys h

example : uxover (fun i => i == 0) 0 [(1 : ℚ), 2] [3, 4] = .ok ([3, 2], [1, 4], true) := by
  norm_num [uxover]

omit [Field F] [IsStrictOrderedRing F] in
/-- The test for different sizes builds an exception that is not thrown: a component chosen beyond the end of
the second parent is read out of range. -/
theorem C147_uniform_sizes (flip : Nat → Bool) (xs ys : List F) (i : Nat) (h1 : ys.length ≤ i) (h2 : i < xs.length)
    (hf : flip i = true) : uxover flip 0 xs ys = .error .ub := by
  have key : ∀ (xs ys : List F) (k i : Nat), ys.length ≤ i → i < xs.length → flip (k + i) = true →
      uxover flip k xs ys = .error .ub := by
    intro xs
    induction xs with
    | nil => intro ys k i _ h; simp at h
    | cons x xs ih =>
      intro ys k i h1 h2 hf
      cases i with
      | zero =>
        have : ys = [] := List.eq_nil_of_length_eq_zero (by omega)
        subst this
        rw [add_zero] at hf
        simp [uxover, hf]
      | succ i =>
        simp only [List.length_cons] at h2
        have ht : uxover flip (k + 1) xs ys.tail = .error .ub :=
          ih ys.tail (k + 1) i (by simp; omega) (by omega) (by rwa [show k + 1 + i = k + (i + 1) by omega])
        cases ys with
        | nil =>
          simp only [uxover]
          split
          · rfl
          · simp only [ht]
        | cons y ys =>
          simp only [List.tail_cons] at ht
          simp only [uxover, List.tail_cons, ht]
          split <;> rfl
  exact key xs ys 0 i h1 h2 (by simpa using hf)

end field

/-- Simulated binary crossover of one component: before the bounds the children have the parents' middle, and
their distance is that of the parents times the spread. -/
theorem C147_sbx (eta u r1 r2 : ℝ) :
    let c := sbxPair (sbxBeta eta u) r1 r2
    c.1 + c.2 = r1 + r2 ∧ |c.1 - c.2| = sbxBeta eta u * |r1 - r2| := by
  refine ⟨by simp only [sbxPair]; ring, ?_⟩
  rw [show (sbxPair (sbxBeta eta u) r1 r2).1 - (sbxPair (sbxBeta eta u) r1 r2).2 = sbxBeta eta u * (r1 - r2) by
    simp only [sbxPair]; ring, abs_mul, abs_of_nonneg (sbxBeta_nonneg eta u)]

/-- The spread contracts in exactly the lower half of the draws. -/
theorem C147_sbx_spread {eta u : ℝ} (he : 0 ≤ eta) (h0 : 0 ≤ u) (h1 : u < 1) :
    0 ≤ sbxBeta eta u ∧ (sbxBeta eta u ≤ 1 ↔ u ≤ 1 / 2) ∧
    (0 < u → sbxBeta eta u ^ (eta + 1) = if u ≤ 1 / 2 then 2 * u else 1 / (2 * (1 - u))) := by
  refine ⟨sbxBeta_nonneg eta u, sbxBeta_le_one_iff he h0 h1, fun hu => ?_⟩
  have hne : eta + 1 ≠ 0 := by linarith
  have key : ∀ y : ℝ, 0 < y → Real.exp (1 / (eta + 1) * Real.log y) ^ (eta + 1) = y := by
    intro y hy
    rw [← Real.exp_mul, show 1 / (eta + 1) * Real.log y * (eta + 1) = Real.log y by field_simp, Real.exp_log hy]
  unfold sbxBeta
  split
  · rw [if_neg hu.ne', key _ (by linarith)]
  · exact key _ (by have : 0 < 2 * (1 - u) := by linarith
                    positivity)

/-- After the folding both children are in their bound. -/
theorem C147_sbx_bounds (eta : ℝ) (b : Bound ℝ) {u w1 w2 r1 r2 : ℝ} {c : ℝ × ℝ} (hw1 : 0 ≤ w1 ∧ w1 < 1)
    (hw2 : 0 ≤ w2 ∧ w2 < 1) (h : sbxOne eta b u w1 w2 r1 r2 = .ok c) (hb : ∀ lo hi, b = .interval lo hi → lo < hi) :
    b.Mem c.1 ∧ b.Mem c.2 := by
  have key : ∀ {w x y : ℝ}, 0 ≤ w ∧ w < 1 → foldIfOut b w x = .ok y → b.Mem y := by
    intro w x y hw hf
    unfold foldIfOut at hf
    split at hf
    · rename_i hin
      simp only [Except.ok.injEq] at hf
      subst hf
      exact (Bounds.C61_is_in b x).1 hin
    · cases b with
      | none => trivial
      | below c =>
        obtain ⟨y', e, m, _⟩ := (Bounds.C61_fold_one_sided c w x).1
        rw [e] at hf
        simp only [Except.ok.injEq] at hf
        subst hf
        exact m
      | above c =>
        obtain ⟨y', e, m, _⟩ := (Bounds.C61_fold_one_sided c w x).2
        rw [e] at hf
        simp only [Except.ok.injEq] at hf
        subst hf
        exact m
      | interval lo hi =>
        have hlh := hb lo hi rfl
        exact Bounds.fold_ok_mem hlh hw hf
  unfold sbxOne at h
  split at h
  · rename_i x y hx hy
    simp only [Except.ok.injEq] at h
    subst h
    exact ⟨key hw1 hx, key hw2 hy⟩
  · simp at h
  · simp at h

/-! ### C148: normal mutations -/

/-- The normal mutation with a standard deviation per variable, built without bounds, never changes anything:
every call either reads a standard deviation out of range, which happens when a component past the integer
part of the given standard deviation is chosen, or returns the vector as it was. -/
theorem C148_vector_free {F : Type*} [Field F] [LinearOrder F] [FloorRing F] (sigma : F) (flip : Nat → Bool)
    (z : Nat → F) (xs : List F) :
    normalVec (vecSigmaFree sigma) flip z 0 xs =
      if ∃ i < xs.length, (truncZ sigma).toNat ≤ i ∧ flip i = true then .error .ub else .ok xs := by
  have key : ∀ (xs : List F) (k : Nat), normalVec (vecSigmaFree sigma) flip z k xs =
      if ∃ i < xs.length, (truncZ sigma).toNat ≤ k + i ∧ flip (k + i) = true then .error .ub else .ok xs := by
    intro xs
    induction xs with
    | nil => intro k; simp [normalVec]
    | cons x xs ih =>
      intro k
      simp only [normalVec, ih (k + 1)]
      by_cases h : ∃ i < xs.length, (truncZ sigma).toNat ≤ k + 1 + i ∧ flip (k + 1 + i) = true
      · rw [if_pos h, if_pos]
        obtain ⟨i, h1, h2, h3⟩ := h
        exact ⟨i + 1, by simpa using h1, by omega, by rwa [show k + (i + 1) = k + 1 + i by omega]⟩
      · rw [if_neg h]
        have hiff : (∃ i < (x :: xs).length, (truncZ sigma).toNat ≤ k + i ∧ flip (k + i) = true) ↔
            ((truncZ sigma).toNat ≤ k ∧ flip k = true) := by
          constructor
          · rintro ⟨i, h1, h2, h3⟩
            cases i with
            | zero => exact ⟨h2, h3⟩
            | succ i =>
              exact absurd ⟨i, by simpa using h1, by omega, by rwa [show k + 1 + i = k + (i + 1) by omega]⟩ h
          · rintro ⟨h1, h2⟩
            exact ⟨0, by simp, h1, h2⟩
        simp only [hiff]
        by_cases hf : flip k = true
        · by_cases hk : (truncZ sigma).toNat ≤ k
          · simp [vecSigmaFree, hf, hk, List.getElem?_replicate, not_lt.2 hk]
          · simp [vecSigmaFree, hf, hk, List.getElem?_replicate, not_le.1 hk]
        · simp [hf]
  simpa using key xs 0

example : normalVec (vecSigmaFree (5 / 2 : ℚ)) (fun _ => true) (fun _ => 1) 0 [7, 8] = .ok [7, 8] ∧
    normalVec (vecSigmaFree (1 / 2 : ℚ)) (fun _ => true) (fun _ => 1) 0 [7, 8] = .error .ub := by
  rw [C148_vector_free, C148_vector_free]
  have e1 : truncZ (5 / 2 : ℚ) = 2 := by simp [truncZ]; norm_num
  have e2 : truncZ (1 / 2 : ℚ) = 0 := by simp [truncZ]; norm_num
  rw [e1, e2]
  refine ⟨if_neg ?_, if_pos ⟨0, by simp⟩⟩
  rintro ⟨i, h1, h2, _⟩
  simp at h1 h2
  omega

section oneFifth
variable {F : Type*} [Field F] [LinearOrder F] [IsStrictOrderedRing F]

/-- The one-fifth rule: at the end of the generation `k` the step size is divided by the factor when more
than the threshold of the mutations of the last `w` generations were successes, and multiplied otherwise, in
particular when there was no mutation at all. -/
theorem C148_one_fifth (w : Nat) (hw : 0 < w) (threshold factor sigma : F) (G : Nat → List (Bool × Bool)) (k : Nat) :
    let m := ∑ t ∈ Finset.Ico (k + 1 - w) (k + 1), changes (G t)
    let n := ∑ t ∈ Finset.Ico (k + 1 - w) (k + 1), successes (G t)
    let s := (OneFifth.run w threshold factor sigma G k).sigma
    (OneFifth.run w threshold factor sigma G (k + 1)).sigma =
      if 0 < m ∧ threshold < (n : F) / (m : F) then s / factor else s * factor := by
  obtain ⟨h1, h2, h3⟩ := mid_totals hw threshold factor sigma G k
  change ((OneFifth.mid w threshold factor sigma G k).update w threshold factor).sigma = _
  simp only [OneFifth.update, h1, h2, h3, Nat.pos_iff_ne_zero, window]

/-- The step size stays positive for ever, and never grows in a step when no threshold can be passed. -/
theorem C148_one_fifth_positive (w : Nat) (hw : 0 < w) (threshold factor sigma : F) (hs : 0 < sigma)
    (hf : 0 < factor) (hf1 : factor < 1) (G : Nat → List (Bool × Bool)) (k : Nat) :
    0 < (OneFifth.run w threshold factor sigma G k).sigma ∧
    (1 ≤ threshold → (OneFifth.run w threshold factor sigma G k).sigma = sigma * factor ^ k) := by
  have le : ∀ g : List (Bool × Bool), successes g ≤ changes g := by
    intro g
    induction g with
    | nil => simp [successes, changes]
    | cons a g ih =>
      obtain ⟨c, b⟩ := a
      simp only [successes, changes] at ih ⊢
      cases c <;> cases b <;> simp <;> omega
  induction k with
  | zero => simpa [OneFifth.run, OneFifth.init] using hs
  | succ k ih =>
    have := C148_one_fifth w hw threshold factor sigma G k
    dsimp only at this
    rw [this]
    constructor
    · split
      · exact div_pos ih.1 hf
      · exact mul_pos ih.1 hf
    · intro ht
      rw [if_neg, ih.2 ht, pow_succ, mul_assoc]
      rintro ⟨h1, h2⟩
      have hm : (0 : F) < ((∑ t ∈ Finset.Ico (k + 1 - w) (k + 1), changes (G t) : ℕ) : F) := by exact_mod_cast h1
      rw [lt_div_iff₀ hm] at h2
      have hle : ((∑ t ∈ Finset.Ico (k + 1 - w) (k + 1), successes (G t) : ℕ) : F) ≤
          ((∑ t ∈ Finset.Ico (k + 1 - w) (k + 1), changes (G t) : ℕ) : F) :=
        Nat.cast_le.2 (Finset.sum_le_sum fun t _ => le (G t))
      nlinarith

/-- Without mutations (an operator that is never called, or never chosen) the step size decays to nothing. -/
theorem C148_one_fifth_idle (w : Nat) (hw : 0 < w) (threshold factor sigma : F) (G : Nat → List (Bool × Bool))
    (hG : ∀ t, changes (G t) = 0) (k : Nat) :
    (OneFifth.run w threshold factor sigma G k).sigma = sigma * factor ^ k := by
  induction k with
  | zero => simp [OneFifth.run, OneFifth.init]
  | succ k ih =>
    have := C148_one_fifth w hw threshold factor sigma G k
    dsimp only at this
    rw [this, if_neg (by simp [hG]), ih, pow_succ, mul_assoc]

example : (OneFifth.run 2 (1 / 5 : ℚ) (4 / 5) 1 (fun _ => [(true, true), (true, false), (false, true)]) 1).sigma =
    5 / 4 := by
  have := C148_one_fifth 2 (by norm_num) (1 / 5 : ℚ) (4 / 5) 1 (fun _ => [(true, true), (true, false), (false, true)]) 0
  dsimp only at this
  rw [this]
  norm_num [changes, successes, OneFifth.run, OneFifth.init]

end oneFifth

/-! ### C149: self-adaptive mutation -/

/-- The mutation with a standard deviation per variable: all standard deviations are afterwards at least 1e-40,
hence positive, whatever they were, and the vector is in its bounds. -/
theorem C149_stdevs (bs : List (Bound ℝ)) (hbs : ∀ lo hi, Bound.interval lo hi ∈ bs → lo < hi) (w : Nat → ℝ)
    (hw : ∀ t, 0 ≤ w t ∧ w t < 1) (g tau : ℝ) (zl z : Nat → ℝ) (xs ss ys ss' : List ℝ)
    (h : mutStdev bs w g tau zl z xs ss = .ok (ys, ss')) :
    ss'.length = ss.length ∧ ys.length = xs.length ∧ AllIn bs ys ∧ ∀ s ∈ ss', (1 : ℝ) / 10 ^ 40 ≤ s := by
  simp only [mutStdev] at h
  split at h
  · simp at h
  · rename_i ys' hf
    simp only [Except.ok.injEq, Prod.mk.injEq] at h
    obtain ⟨rfl, rfl⟩ := h
    refine ⟨by simp, by simpa using foldVec_length w 0 bs _ _ hf, foldVec_ok_in w hw 0 bs _ _ hbs hf, fun s hs => ?_⟩
    rw [List.mem_mapIdx] at hs
    obtain ⟨i, hi, rfl⟩ := hs
    exact newStdev_ge _ _

/-- The same with one standard deviation for all, -/
theorem C149_simple (bs : List (Bound ℝ)) (hbs : ∀ lo hi, Bound.interval lo hi ∈ bs → lo < hi) (w : Nat → ℝ)
    (hw : ∀ t, 0 ≤ w t ∧ w t < 1) (tau zs : ℝ) (z : Nat → ℝ) (xs ys : List ℝ) (s s' : ℝ)
    (h : mutSimple bs w tau zs z xs s = .ok (ys, s')) :
    ys.length = xs.length ∧ AllIn bs ys ∧ (1 : ℝ) / 10 ^ 40 ≤ s' := by
  simp only [mutSimple] at h
  split at h
  · simp at h
  · rename_i ys' hf
    simp only [Except.ok.injEq, Prod.mk.injEq] at h
    obtain ⟨rfl, rfl⟩ := h
    exact ⟨by simpa using foldVec_length w 0 bs _ _ hf, foldVec_ok_in w hw 0 bs _ _ hbs hf, newStdev_ge _ _⟩

/-- An angle is brought back between -π and π, -/
theorem C149_angle_range (c : ℝ) : |wrapAngle c| ≤ Real.pi := by
  unfold wrapAngle
  split
  · have hpi := Real.pi_pos
    have h := (truncZ_abs (c / Real.pi)).1
    have e : c - Real.pi * (truncZ (c / Real.pi) : ℤ) = Real.pi * (c / Real.pi - (truncZ (c / Real.pi) : ℤ)) := by
      field_simp
    rw [e, abs_mul, abs_of_pos hpi]
    nlinarith
  · rename_i h
    exact not_lt.1 h

/-- and with angles, which end between -π and π. -/
theorem C149_full (bs : List (Bound ℝ)) (hbs : ∀ lo hi, Bound.interval lo hi ∈ bs → lo < hi) (w : Nat → ℝ)
    (hw : ∀ t, 0 ≤ w t ∧ w t < 1) (g tau taub : ℝ) (zl zc z : Nat → ℝ) (xs ss cs ys ss' cs' : List ℝ)
    (h : mutFull bs w g tau taub zl zc z xs ss cs = .ok (ys, ss', cs')) :
    ss'.length = ss.length ∧ cs'.length = cs.length ∧ ys.length = xs.length ∧ AllIn bs ys ∧
      (∀ s ∈ ss', (1 : ℝ) / 10 ^ 40 ≤ s) ∧ ∀ c ∈ cs', |c| ≤ Real.pi := by
  simp only [mutFull] at h
  split at h
  · simp at h
  · rename_i ys' hf
    simp only [Except.ok.injEq, Prod.mk.injEq] at h
    obtain ⟨rfl, rfl, rfl⟩ := h
    refine ⟨by simp, by simp, by simpa using foldVec_length w 0 bs _ _ hf, foldVec_ok_in w hw 0 bs _ _ hbs hf,
      fun s hs => ?_, fun c hc => ?_⟩
    · rw [List.mem_mapIdx] at hs
      obtain ⟨i, hi, rfl⟩ := hs
      exact newStdev_ge _ _
    · rw [List.mem_mapIdx] at hc
      obtain ⟨i, hi, rfl⟩ := hc
      exact C149_angle_range _

/-- The step of a variable is its own new standard deviation times its own draw, here without bounds; and a
standard deviation that stays above the smallest allowed is multiplied by a log-normal factor with a part
common to all. -/
theorem C149_step (w : Nat → ℝ) (g tau : ℝ) (zl z : Nat → ℝ) (xs ss : List ℝ) (hl : xs.length = ss.length) :
    ∃ ys ss', mutStdev [] w g tau zl z xs ss = .ok (ys, ss') ∧ ∀ (i : Nat) (x s : ℝ), xs[i]? = some x → ss[i]? = some s →
      ∃ s', ss'[i]? = some s' ∧ ys[i]? = some (x + s' * z i) ∧
        s' = max (1 / 10 ^ 40) (s * Real.exp g * Real.exp (tau * zl i)) := by
  refine ⟨_, _, rfl, fun i x s hx hs => ⟨newStdev s (g + tau * zl i), by simp [hs], ?_, ?_⟩⟩
  · simp [hx, hs]
  · rw [mul_assoc, ← Real.exp_add, newStdev, stdevEps]
    split
    · rename_i h; rw [max_eq_left h.le]
    · rename_i h; rw [max_eq_right (not_lt.1 h)]

/-- The same with one standard deviation, which is changed first. -/
theorem C149_step_simple (w : Nat → ℝ) (tau zs : ℝ) (z : Nat → ℝ) (xs : List ℝ) (s : ℝ) :
    ∃ ys s', mutSimple [] w tau zs z xs s = .ok (ys, s') ∧ s' = max (1 / 10 ^ 40) (s * Real.exp (tau * zs)) ∧
      ∀ (i : Nat) (x : ℝ), xs[i]? = some x → ys[i]? = some (x + s' * z i) := by
  refine ⟨_, _, rfl, ?_, fun i x hx => by simp [hx]⟩
  rw [newStdev, stdevEps]
  split
  · rename_i h; rw [max_eq_left h.le]
  · rename_i h; rw [max_eq_right (not_lt.1 h)]

/-- With angles, the step is the rotation by the new angles of the new standard deviations times the draws: its
length does not depend on the angles. -/
theorem C149_step_full (w : Nat → ℝ) (g tau taub : ℝ) (zl zc z : Nat → ℝ) (xs ss cs : List ℝ) :
    ∃ ys ss' cs', mutFull [] w g tau taub zl zc z xs ss cs = .ok (ys, ss', cs') ∧
      (∀ (i : Nat) (s : ℝ), ss[i]? = some s →
        ss'[i]? = some (max (1 / 10 ^ 40) (s * Real.exp g * Real.exp (tau * zl i)))) ∧
      (∀ (i : Nat) (x : ℝ), xs[i]? = some x →
        ys[i]? = some (x + fullStep xs.length cs'.length (fun i => cs'.getD i 0) (fun i => ss'.getD i 0) z i)) ∧
      ∑ i ∈ Finset.range xs.length, (ys.getD i 0 - xs.getD i 0) ^ 2 =
        ∑ i ∈ Finset.range xs.length, (ss'.getD i 0 * z i) ^ 2 := by
  refine ⟨_, _, _, rfl, ?_, ?_, ?_⟩
  · intro i s hs
    simp only [List.getElem?_mapIdx, hs, Option.map_some]
    rw [mul_assoc, ← Real.exp_add, newStdev, stdevEps]
    split
    · rename_i h; rw [max_eq_left h.le]
    · rename_i h; rw [max_eq_right (not_lt.1 h)]
  · intro i x hx
    simp [hx]
  · rw [← rotAll_norm (fun i => (cs.mapIdx fun i c => wrapAngle (c + taub * zc i)).getD i 0) (rotPairs xs.length)
      (cs.length - 1) (fun i => (ss.mapIdx fun i s => newStdev s (g + tau * zl i)).getD i 0 * z i)
      fun _ hp => (mem_rotPairs hp).2]
    refine Finset.sum_congr rfl fun i hi => ?_
    have hi' : i < xs.length := Finset.mem_range.1 hi
    simp only [List.getD_eq_getElem?_getD, List.getElem?_mapIdx, List.getElem?_eq_getElem hi', Option.map_some,
      Option.getD_some, add_sub_cancel_left, fullStep]

/-- The folding at the end of the three mutations does return when the intervals are not degenerate and the
moved components not absurdly far. -/
theorem C149_returns (bs : List (Bound ℝ)) (w : Nat → ℝ) (hw : ∀ t, 0 ≤ w t ∧ w t < 1) (xs : List ℝ)
    (step : Nat → ℝ) (hlen : bs.length ≤ xs.length)
    (hbs : ∀ lo hi : ℝ, Bound.interval lo hi ∈ bs → lo < hi ∧
      ∀ (i : Nat) (x : ℝ), xs[i]? = some x → x + step i - lo < 2 ^ 63 * (2 * (hi - lo)) ∧
        hi - (x + step i) < 2 ^ 63 * (2 * (hi - lo))) :
    ∃ ys, Bounds.foldVec w 0 bs (xs.mapIdx fun i x => x + step i) = .ok ys ∧ AllIn bs ys := by
  obtain ⟨ys, e, hin, hl, _⟩ := Bounds.C61_fold_vector w hw bs 0 (xs.mapIdx fun i x => x + step i) (by simpa)
    (fun lo hi h => ⟨(hbs lo hi h).1, fun r hr => by
      rw [List.mem_mapIdx] at hr
      obtain ⟨i, hi', rfl⟩ := hr
      exact (hbs lo hi h).2 i _ (List.getElem?_eq_getElem hi')⟩)
  obtain ⟨a, ha, hiff⟩ := Bounds.C61_vector_is_in bs ys (by rw [hl]; simpa)
  rw [hin] at ha
  exact ⟨ys, e, hiff.1 (by simpa using ha.symm)⟩

example : ∃ ys, Bounds.foldVec (fun _ => (0 : ℝ)) 0 [.interval 0 1, .none] ([1 / 2, 3].mapIdx fun i x => x + (i : ℝ)) =
    .ok ys ∧ AllIn [.interval 0 1, .none] ys :=
  C149_returns _ _ (by simp) _ _ (by simp) (by
    intro lo hi h
    simp at h
    obtain ⟨rfl, rfl⟩ := h
    refine ⟨by norm_num, fun i x hx => ?_⟩
    match i with
    | 0 => simp at hx; subst hx; norm_num
    | 1 => simp at hx; subst hx; norm_num
    | i + 2 => simp at hx)

/-- The rotations of the mutation with angles keep the length of the step. -/
theorem C149_rotation_keeps_length (n q : Nat) (corr s z : Nat → ℝ) :
    ∑ i ∈ Finset.range n, fullStep n q corr s z i ^ 2 = ∑ i ∈ Finset.range n, (s i * z i) ^ 2 :=
  rotAll_norm corr _ _ _ fun _ hp => (mem_rotPairs hp).2

/-- But the first variable is never rotated, with any number of variables and whatever the angles: its step is
independent of those of the others. -/
theorem C149_first_never_rotated (n q : Nat) (corr s z : Nat → ℝ) : fullStep n q corr s z 0 = s 0 * z 0 := by
  unfold fullStep
  rw [rotAll_other]
  intro p hp
  have := mem_rotPairs hp
  omega

/-- Of the n(n-1)/2 angles of an individual the first n-1 are not used at all. -/
theorem C149_angles_unused (n : Nat) (hn : 1 ≤ n) (corr corr' s z : Nat → ℝ)
    (h : ∀ j, n - 1 ≤ j → j < n * (n - 1) / 2 → corr j = corr' j) :
    fullStep n (n * (n - 1) / 2) corr s z = fullStep n (n * (n - 1) / 2) corr' s z := by
  have hlen : (rotPairs n).length = (n - 1) * (n - 1 - 1) / 2 := by
    rw [rotPairs_length, Finset.sum_range_id]
  have hq : n * (n - 1) / 2 = (n - 1) * (n - 1 - 1) / 2 + (n - 1) := by
    obtain ⟨m, rfl⟩ : ∃ m, n = m + 1 := ⟨n - 1, by omega⟩
    rw [Nat.add_sub_cancel, ← Finset.sum_range_id, ← Nat.add_sub_cancel (n := m + 1) (m := 1), Nat.add_sub_cancel]
    rw [show (m + 1) * m / 2 = ∑ i ∈ Finset.range (m + 1), i by rw [Finset.sum_range_id, Nat.add_sub_cancel],
      Finset.sum_range_succ]
  unfold fullStep
  rcases Nat.eq_zero_or_pos (rotPairs n).length with h0 | h0
  · rw [List.eq_nil_of_length_eq_zero h0]
    rfl
  · refine rotAll_angles corr corr' _ _ _ (by omega) fun j h1 h2 => h j (by omega) (by omega)

/-- With two variables there is one angle and no rotation. -/
theorem C149_two_variables (corr s z : Nat → ℝ) : fullStep 2 1 corr s z = fun i => s i * z i := rfl

/-- With three, one rotation: of the second and third variable, by the last angle. -/
theorem C149_three_variables (corr s z : Nat → ℝ) :
    fullStep 3 3 corr s z = rot 1 2 (corr 2) fun i => s i * z i := rfl

/-- The angles are brought back by multiples of π, not of 2π: the rotation an angle stands for is negated when
the multiple is odd. -/
theorem C149_angle_negated (c : ℝ) (hc : Real.pi < |c|) :
    Real.cos (wrapAngle c) = (-1) ^ (truncZ (c / Real.pi)).natAbs * Real.cos c ∧
    Real.sin (wrapAngle c) = (-1) ^ (truncZ (c / Real.pi)).natAbs * Real.sin c := by
  unfold wrapAngle
  rw [if_pos hc, mul_comm]
  generalize truncZ (c / Real.pi) = k
  constructor
  · rw [Real.cos_sub_int_mul_pi]
    congr 1
    rcases Int.even_or_odd k with h | h
    · rw [h.neg_one_zpow, (Int.natAbs_even.2 h).neg_one_pow]
    · rw [h.neg_one_zpow, (Int.natAbs_odd.2 h).neg_one_pow]
  · rw [Real.sin_sub_int_mul_pi]
    congr 1
    rcases Int.even_or_odd k with h | h
    · rw [h.neg_one_zpow, (Int.natAbs_even.2 h).neg_one_pow]
    · rw [h.neg_one_zpow, (Int.natAbs_odd.2 h).neg_one_pow]

/-- An angle just past π, mutated to 5π/4, becomes π/4: the opposite rotation. -/
theorem C149_angle_witness : wrapAngle (5 * Real.pi / 4) = Real.pi / 4 ∧
    Real.cos (wrapAngle (5 * Real.pi / 4)) = -Real.cos (5 * Real.pi / 4) := by
  have hpi := Real.pi_pos
  have h1 : wrapAngle (5 * Real.pi / 4) = Real.pi / 4 := by
    unfold wrapAngle
    rw [abs_of_pos (by positivity), if_pos (by linarith)]
    have e : 5 * Real.pi / 4 / Real.pi = 5 / 4 := by field_simp
    have e2 : truncZ (5 / 4 : ℝ) = 1 := by
      rw [truncZ, if_pos (by norm_num), Int.floor_eq_iff]
      norm_num
    rw [e, e2]
    push_cast
    ring
  refine ⟨h1, ?_⟩
  rw [h1, show 5 * Real.pi / 4 = Real.pi / 4 + Real.pi by ring, Real.cos_add_pi, neg_neg]

/-! ### C150: recombination -/

section recomb
variable {F : Type*} [Field F] [LinearOrder F] [IsStrictOrderedRing F]

/-- What a recombination of two numbers may give: something between them, and an honest answer if there was
a change. -/
def Between (op : Nat → F → F → F × Bool) : Prop :=
  ∀ i x y, min x y ≤ (op i x y).1 ∧ (op i x y).1 ≤ max x y ∧ ((op i x y).1 ≠ x → (op i x y).2 = true)

omit [Field F] [IsStrictOrderedRing F] in
/-- Both recombinations of numbers are such. -/
theorem C150_exchange (flip : Nat → Bool) : Between (F := F) (fun i => exchange (flip i)) := by
  intro i x y
  simp only [exchange]
  split
  · split
    · simp
    · rename_i h
      simp
  · simp

theorem C150_intermediate (alpha : Nat → F) (h : ∀ i, 0 ≤ alpha i ∧ alpha i ≤ 1) :
    Between (F := F) (fun i => intermediate (alpha i)) := by
  intro i x y
  obtain ⟨h0, h1⟩ := h i
  refine ⟨?_, ?_, fun _ => rfl⟩
  · simp only [intermediate]
    nlinarith [min_le_left x y, min_le_right x y]
  · simp only [intermediate]
    nlinarith [le_max_left x y, le_max_right x y]

omit [IsStrictOrderedRing F] [Field F] in
/-- The exchange answers true only when there was a change. -/
theorem C150_exchange_truthful (flip : Bool) (x y : F) : (exchange flip x y).2 = true ↔ (exchange flip x y).1 ≠ x := by
  cases flip
  · simp [exchange]
  · by_cases h : x = y
    · simp [exchange, h]
    · simp [exchange, h, Ne.symm h]

omit [Field F] [IsStrictOrderedRing F] in
/-- Local recombination of two vectors of the same length: each component between those of the parents;
positive standard deviations stay positive; the answer is true when the vector is changed. -/
theorem C150_local [Zero F] (op : Nat → F → F → F × Bool) (hop : Between op) (xs ys : List F) (h : xs.length ≤ ys.length) :
    ∃ zs c, localXover op 0 xs ys = .ok (zs, c) ∧ zs.length = xs.length ∧
    (∀ (i : Nat) (x y z : F), xs[i]? = some x → ys[i]? = some y → zs[i]? = some z →
      min x y ≤ z ∧ z ≤ max x y ∧ (0 < x → 0 < y → 0 < z)) ∧
    (zs ≠ xs → c = true) := by
  obtain ⟨zs, c, e, l, hg, hc⟩ := localXover_spec op 0 xs ys h
  refine ⟨zs, c, e, l, fun i x y z hx hy hz => ?_, fun hne => ?_⟩
  · rw [hg i x y hx hy, zero_add, Option.some.injEq] at hz
    subst hz
    obtain ⟨h1, h2, _⟩ := hop i x y
    exact ⟨h1, h2, fun p q => lt_of_lt_of_le (lt_min p q) h1⟩
  · rw [hc]
    by_contra hno
    apply hne
    apply List.ext_getElem? 
    intro i
    by_cases hi : i < xs.length
    · obtain ⟨x, hx⟩ : ∃ x, xs[i]? = some x := ⟨_, List.getElem?_eq_getElem hi⟩
      obtain ⟨y, hy⟩ : ∃ y, ys[i]? = some y := ⟨_, List.getElem?_eq_getElem (by omega)⟩
      rw [hg i x y hx hy, hx, zero_add]
      by_contra hd
      exact hno ⟨i, x, y, hx, hy, by rw [zero_add]; exact (hop i x y).2.2 fun e' => hd (by rw [e'])⟩
    · rw [List.getElem?_eq_none (by omega), List.getElem?_eq_none (by omega)]

omit [Field F] [IsStrictOrderedRing F] in
/-- Local recombination with a shorter second parent reads out of range. -/
theorem C150_local_sizes (op : Nat → F → F → F × Bool) (xs ys : List F) (h : ys.length < xs.length) :
    localXover op 0 xs ys = .error .ub := by
  have key : ∀ (xs ys : List F) (k : Nat), ys.length < xs.length → localXover op k xs ys = .error .ub := by
    intro xs
    induction xs with
    | nil => intro ys k h; simp at h
    | cons x xs ih =>
      intro ys k h
      cases ys with
      | nil => rfl
      | cons y ys => simp only [localXover, ih ys (k + 1) (by simpa using h)]
  exact key xs ys 0 h

omit [Field F] [IsStrictOrderedRing F] in
/-- Global recombination, each component from two individuals of the population drawn for it: when all have
`n` components, the child has, each between two values that the population has at this place; so a box that
contains the population contains the child. -/
theorem C150_global (op : Nat → F → F → F × Bool) (hop : Between op) (pop : Nat → List F) (p1 p2 : Nat → Nat) (n : Nat)
    (hn : ∀ j, (pop j).length = n) (lo hi : Nat → F)
    (hbox : ∀ j i x, (pop j)[i]? = some x → lo i ≤ x ∧ x ≤ hi i) :
    (globalXover op pop p1 p2 n).length = n ∧
    ∀ i < n, ∃ z, (globalXover op pop p1 p2 n)[i]? = some (some z) ∧ lo i ≤ z ∧ z ≤ hi i := by
  refine ⟨by simp [globalXover], fun i hi' => ?_⟩
  obtain ⟨x, hx⟩ : ∃ x, (pop (p1 i))[i]? = some x := ⟨_, List.getElem?_eq_getElem (by rw [hn]; exact hi')⟩
  obtain ⟨y, hy⟩ : ∃ y, (pop (p2 i))[i]? = some y := ⟨_, List.getElem?_eq_getElem (by rw [hn]; exact hi')⟩
  obtain ⟨h1, h2, _⟩ := hop i x y
  have bx := hbox _ i x hx
  have by' := hbox _ i y hy
  refine ⟨(op i x y).1, by simp [globalXover, hi', hx, hy], (le_min bx.1 by'.1).trans h1, h2.trans (max_le bx.2 by'.2)⟩

example : localXover (fun _ => intermediate (1 / 4 : ℚ)) 0 [0, 4] [4, 8] = .ok ([1, 5], true) := by
  norm_num [localXover, intermediate]

end recomb

end Paradiseo.ES
