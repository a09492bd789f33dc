import Verif.Lemmas.ESOps
import Mathlib.Algebra.BigOperators.Group.Finset.Basic
import Mathlib.Algebra.BigOperators.Intervals
import Mathlib.Data.Nat.ModEq

namespace Paradiseo.ES

open Paradiseo.EO (Err)
open Paradiseo.Bounds (Bound truncZ)

/-! ### SBX -/

theorem sbxBeta_nonneg (eta u : ℝ) : 0 ≤ sbxBeta eta u := by
  unfold sbxBeta
  split
  · split
    · exact le_rfl
    · exact (Real.exp_pos _).le
  · exact (Real.exp_pos _).le

theorem sbxBeta_le_one_iff {eta u : ℝ} (he : 0 ≤ eta) (h0 : 0 ≤ u) (h1 : u < 1) :
    sbxBeta eta u ≤ 1 ↔ u ≤ 1 / 2 := by
  have hc : 0 < 1 / (eta + 1) := by positivity
  unfold sbxBeta
  split
  · rename_i h
    simp only [h, iff_true]
    split
    · exact zero_le_one
    · rename_i hu
      have hu' : 0 < u := lt_of_le_of_ne h0 (Ne.symm hu)
      rw [Real.exp_le_one_iff]
      exact mul_nonpos_of_nonneg_of_nonpos hc.le (Real.log_nonpos (by linarith) (by linarith))
  · rename_i h
    simp only [h, iff_false, not_le]
    rw [Real.one_lt_exp_iff]
    refine mul_pos hc (Real.log_pos ?_)
    push Not at h
    rw [lt_div_iff₀ (by linarith)]
    linarith

/-! ### One-fifth rule -/

theorem total_eq (w : Nat) (f : Nat → Nat) : total w f = ∑ i ∈ Finset.range w, f i := by
  unfold total
  induction w with
  | zero => rfl
  | succ w ih => rw [List.range_succ, List.foldl_append, ih, Finset.sum_range_succ]; rfl

/-- The window of the last `w` generations up to `k`. -/
def window (w k : Nat) : Finset Nat := Finset.Ico (k + 1 - w) (k + 1)

/-- A window holds every remainder at most once; the new generation replaces the one `w` before. -/
theorem window_succ {w k i : Nat} (hw : 0 < w) (c c' : Nat → Nat) (hc : ∀ t ≤ k, c' t = c t) (h0 : c' (k + 1) = 0) :
    (if i = (k + 1) % w then 0 else ∑ t ∈ (window w k).filter (fun t => t % w = i), c t) =
      ∑ t ∈ (window w (k + 1)).filter (fun t => t % w = i), c' t := by
  split
  · rename_i h
    symm
    apply Finset.sum_eq_zero
    intro t ht
    simp only [window, Finset.mem_filter, Finset.mem_Ico] at ht
    obtain ⟨⟨h1, h2⟩, h3⟩ := ht
    have : t = k + 1 := by
      have hmod : t ≡ k + 1 [MOD w] := by rw [Nat.ModEq, h3, h]
      have hd : w ∣ k + 1 - t := (Nat.modEq_iff_dvd' (by omega)).1 hmod
      have := Nat.eq_zero_of_dvd_of_lt hd (by omega)
      omega
    rw [this, h0]
  · rename_i h
    have hset : (window w k).filter (fun t => t % w = i) = (window w (k + 1)).filter (fun t => t % w = i) := by
      ext t
      simp only [window, Finset.mem_filter, Finset.mem_Ico]
      constructor
      · rintro ⟨⟨h1, h2⟩, h3⟩
        refine ⟨⟨?_, by omega⟩, h3⟩
        by_contra hlt
        have ht : t + w = k + 1 := by omega
        apply h
        rw [← h3, ← ht, Nat.add_mod_right]
      · rintro ⟨⟨h1, h2⟩, h3⟩
        refine ⟨⟨by omega, ?_⟩, h3⟩
        by_contra hlt
        have ht : t = k + 1 := by omega
        apply h
        rw [← h3, ht]
    rw [hset]
    apply Finset.sum_congr rfl
    intro t ht
    simp only [window, Finset.mem_filter, Finset.mem_Ico] at ht
    have : t ≠ k + 1 := by
      rintro rfl
      exact h ht.2.symm
    rw [hc t (by omega)]

theorem window_total {w k : Nat} (hw : 0 < w) (c : Nat → Nat) :
    ∑ i ∈ Finset.range w, ∑ t ∈ (window w k).filter (fun t => t % w = i), c t = ∑ t ∈ window w k, c t := by
  apply Finset.sum_fiberwise_of_maps_to
  intro t _
  exact Finset.mem_range.2 (Nat.mod_lt _ hw)

/-- How many mutations of a generation changed something, and how many of these were successes. -/
def changes (g : List (Bool × Bool)) : Nat := (g.filter fun r => r.1).length
def successes (g : List (Bool × Bool)) : Nat := (g.filter fun r => r.1 && r.2).length

section
variable {F : Type*} [Field F] [LinearOrder F]

omit [LinearOrder F] in
theorem record_foldl : ∀ (g : List (Bool × Bool)) (s : OneFifth F),
    (g.foldl (fun s g => s.record g.1 g.2) s).sigma = s.sigma ∧
    (g.foldl (fun s g => s.record g.1 g.2) s).genIndex = s.genIndex ∧
    (∀ i, (g.foldl (fun s g => s.record g.1 g.2) s).nbMut i =
      s.nbMut i + if i = s.genIndex then changes g else 0) ∧
    (∀ i, (g.foldl (fun s g => s.record g.1 g.2) s).nbSuccess i =
      s.nbSuccess i + if i = s.genIndex then successes g else 0)
  | [], s => by simp [changes, successes]
  | (c, b) :: g, s => by
    obtain ⟨h1, h2, h3, h4⟩ := record_foldl g (s.record c b)
    simp only [List.foldl_cons]
    have e1 : (s.record c b).sigma = s.sigma := by unfold OneFifth.record; split <;> rfl
    have e2 : (s.record c b).genIndex = s.genIndex := by unfold OneFifth.record; split <;> rfl
    refine ⟨h1.trans e1, h2.trans e2, fun i => ?_, fun i => ?_⟩
    · rw [h3, e2]
      cases c <;> by_cases hi : i = s.genIndex <;> simp [OneFifth.record, hi, changes] <;> omega
    · rw [h4, e2]
      cases c <;> cases b <;> by_cases hi : i = s.genIndex <;> simp [OneFifth.record, hi, successes] <;> omega

/-- The counters before a generation. -/
theorem run_counts {w : Nat} (hw : 0 < w) (threshold factor sigma : F) (G : Nat → List (Bool × Bool)) (k : Nat) :
    let c := fun t => if t < k then changes (G t) else 0
    let c' := fun t => if t < k then successes (G t) else 0
    let s := OneFifth.run w threshold factor sigma G k
    s.genIndex = k % w ∧
    (∀ i < w, s.nbMut i = ∑ t ∈ (window w k).filter (fun t => t % w = i), c t) ∧
    (∀ i < w, s.nbSuccess i = ∑ t ∈ (window w k).filter (fun t => t % w = i), c' t) := by
  have add : ∀ (c0 : Nat → Nat) (k i : Nat), i < w →
      (∑ t ∈ (window w k).filter (fun t => t % w = i), if t < k then c0 t else 0) +
        (if i = k % w then c0 k else 0) =
      ∑ t ∈ (window w k).filter (fun t => t % w = i), if t < k + 1 then c0 t else 0 := by
    intro c0 k i _
    split
    · rename_i h
      have hmem : k ∈ (window w k).filter (fun t => t % w = i) := by
        simp only [window, Finset.mem_filter, Finset.mem_Ico]
        omega
      rw [← Finset.add_sum_erase _ _ hmem, ← Finset.add_sum_erase _ (fun t => if t < k + 1 then c0 t else 0) hmem]
      simp only [lt_irrefl, if_false, zero_add, Nat.lt_succ_self, if_true]
      rw [add_comm]
      congr 1
      apply Finset.sum_congr rfl
      intro t ht
      simp only [window, Finset.mem_erase, Finset.mem_filter, Finset.mem_Ico] at ht
      rw [if_pos (by omega), if_pos (by omega)]
    · rename_i h
      rw [add_zero]
      apply Finset.sum_congr rfl
      intro t ht
      simp only [window, Finset.mem_filter, Finset.mem_Ico] at ht
      have : t ≠ k := by
        rintro rfl
        exact h ht.2.symm
      rw [if_pos (by omega), if_pos (by omega)]
  induction k with
  | zero => simp [OneFifth.run, OneFifth.init]
  | succ k ih =>
    obtain ⟨i1, i2, i3⟩ := ih
    obtain ⟨r1, r2, r3, r4⟩ := record_foldl (G k) (OneFifth.run w threshold factor sigma G k)
    have hg : (OneFifth.run w threshold factor sigma G (k + 1)).genIndex = (k + 1) % w := by
      simp only [OneFifth.run, OneFifth.update, r2, i1]
      rw [Nat.mod_add_mod]
    have hmod : (k % w + 1) % w = (k + 1) % w := Nat.mod_add_mod _ _ _
    refine ⟨hg, fun i hi => ?_, fun i hi => ?_⟩
    · simp only [OneFifth.run, OneFifth.update, r2, i1, hmod]
      rw [r3, i2 i hi, i1, add (fun t => changes (G t)) k i hi]
      refine window_succ hw _ _ (fun t ht => ?_) ?_
      · rfl
      · simp
    · simp only [OneFifth.run, OneFifth.update, r2, i1, hmod]
      rw [r4, i3 i hi, i1, add (fun t => successes (G t)) k i hi]
      refine window_succ hw _ _ (fun t ht => ?_) ?_
      · rfl
      · simp

/-- The totals used by the update of the generation `k`: those of the last `w` generations. -/
theorem mid_totals {w : Nat} (hw : 0 < w) (threshold factor sigma : F) (G : Nat → List (Bool × Bool)) (k : Nat) :
    let s := OneFifth.mid w threshold factor sigma G k
    total w s.nbMut = ∑ t ∈ window w k, changes (G t) ∧ total w s.nbSuccess = ∑ t ∈ window w k, successes (G t) ∧
      s.sigma = (OneFifth.run w threshold factor sigma G k).sigma := by
  obtain ⟨i1, i2, i3⟩ := run_counts hw threshold factor sigma G k
  obtain ⟨r1, r2, r3, r4⟩ := record_foldl (G k) (OneFifth.run w threshold factor sigma G k)
  have key : ∀ (c0 : Nat → Nat), ∑ i ∈ Finset.range w,
      ((∑ t ∈ (window w k).filter (fun t => t % w = i), if t < k then c0 t else 0) +
        if i = k % w then c0 k else 0) = ∑ t ∈ window w k, c0 t := by
    intro c0
    rw [Finset.sum_add_distrib, window_total hw, Finset.sum_ite_eq' (Finset.range w) (k % w),
      if_pos (Finset.mem_range.2 (Nat.mod_lt _ hw))]
    have hmem : k ∈ window w k := by simp only [window, Finset.mem_Ico]; omega
    rw [← Finset.add_sum_erase _ _ hmem, ← Finset.add_sum_erase _ c0 hmem]
    simp only [lt_irrefl, if_false, zero_add]
    rw [add_comm]
    congr 1
    apply Finset.sum_congr rfl
    intro t ht
    simp only [window, Finset.mem_erase, Finset.mem_Ico] at ht
    rw [if_pos (by omega)]
  refine ⟨?_, ?_, r1⟩
  · rw [total_eq, ← key fun t => changes (G t)]
    apply Finset.sum_congr rfl
    intro i hi
    have := r3 i
    rw [i2 i (Finset.mem_range.1 hi), i1] at this
    exact this
  · rw [total_eq, ← key fun t => successes (G t)]
    apply Finset.sum_congr rfl
    intro i hi
    have := r4 i
    rw [i3 i (Finset.mem_range.1 hi), i1] at this
    exact this

end

/-! ### Self-adaptation -/

theorem stdevEps_pos : 0 < stdevEps := by unfold stdevEps; positivity

theorem newStdev_ge (s e : ℝ) : stdevEps ≤ newStdev s e := by
  unfold newStdev
  split
  · exact le_rfl
  · rename_i h; exact le_of_not_gt h

theorem foldVec_length {F : Type*} [Field F] [LinearOrder F] [FloorRing F] (w : Nat → F) :
    ∀ (t : Nat) (bs : List (Bound F)) (xs ys : List F), Bounds.foldVec w t bs xs = .ok ys → ys.length = xs.length
  | _, [], xs, ys, h => by
    simp only [Bounds.foldVec, Except.ok.injEq] at h
    rw [h]
  | _, _ :: _, [], ys, h => by simp [Bounds.foldVec] at h
  | t, b :: bs, x :: xs, ys, h => by
    simp only [Bounds.foldVec] at h
    split at h
    · simp at h
    · split at h
      · simp at h
      · rename_i y _ _ w' hw
        simp only [Except.ok.injEq] at h
        rw [← h]
        simp [foldVec_length w (t + 1) bs xs w' hw]

theorem foldVec_ok_in {F : Type*} [Field F] [LinearOrder F] [IsStrictOrderedRing F] [FloorRing F] (w : Nat → F)
    (hw : ∀ t, 0 ≤ w t ∧ w t < 1) : ∀ (t : Nat) (bs : List (Bound F)) (xs ys : List F),
    (∀ lo hi, Bound.interval lo hi ∈ bs → lo < hi) → Bounds.foldVec w t bs xs = .ok ys →
    ∀ (j : Nat) (b : Bound F) (y : F), bs[j]? = some b → ys[j]? = some y → b.Mem y
  | _, [], _, _, _, _ => by simp
  | _, _ :: _, [], _, _, h => by simp [Bounds.foldVec] at h
  | t, b :: bs, x :: xs, ys, hb, h => by
    simp only [Bounds.foldVec] at h
    split at h
    · simp at h
    · split at h
      · simp at h
      · rename_i y hy _ w' hw'
        simp only [Except.ok.injEq] at h
        subst h
        intro j b' y' e1 e2
        cases j with
        | zero =>
          simp only [List.getElem?_cons_zero, Option.some.injEq] at e1 e2
          subst e1 e2
          cases b with
          | none => trivial
          | interval lo hi => exact Bounds.fold_ok_mem (hb lo hi (by simp)) (hw t) hy
          | below c =>
            obtain ⟨z, e, m, _⟩ := (Bounds.C61_fold_one_sided c (w t) x).1
            rw [e] at hy
            simp only [Except.ok.injEq] at hy
            subst hy
            exact m
          | above c =>
            obtain ⟨z, e, m, _⟩ := (Bounds.C61_fold_one_sided c (w t) x).2
            rw [e] at hy
            simp only [Except.ok.injEq] at hy
            subst hy
            exact m
        | succ j =>
          exact foldVec_ok_in w hw (t + 1) bs xs w' (fun lo hi h => hb lo hi (by simp [h])) hw' j b' y'
            (by simpa using e1) (by simpa using e2)

/-! ### Rotations -/

theorem mem_rotPairs {n : Nat} {p : Nat × Nat} (h : p ∈ rotPairs n) : 1 ≤ p.1 ∧ p.1 < p.2 ∧ p.2 < n := by
  simp only [rotPairs, List.mem_flatMap, List.mem_range, List.mem_map] at h
  obtain ⟨k, hk, i, hi, rfl⟩ := h
  dsimp only
  omega

theorem rotPairs_mem {n a b : Nat} (h1 : 1 ≤ a) (h2 : a < b) (h3 : b < n) : (a, b) ∈ rotPairs n := by
  simp only [rotPairs, List.mem_flatMap, List.mem_range, List.mem_map, Prod.mk.injEq]
  exact ⟨n - a - 1, by omega, n - 1 - b, by omega, by omega, by omega⟩

theorem rotPairs_length (n : Nat) : (rotPairs n).length = ∑ k ∈ Finset.range (n - 1), k := by
  unfold rotPairs
  rw [List.length_flatMap]
  simp only [List.length_map, List.length_range]
  induction n - 1 with
  | zero => rfl
  | succ m ih => rw [List.range_succ, Finset.sum_range_succ, ← ih]; simp

theorem rot_norm {n a b : Nat} (hab : a ≠ b) (ha : a < n) (hb : b < n) (c : ℝ) (v : Nat → ℝ) :
    ∑ i ∈ Finset.range n, rot a b c v i ^ 2 = ∑ i ∈ Finset.range n, v i ^ 2 := by
  have key : ∀ f : Nat → ℝ, ∑ i ∈ Finset.range n, f i =
      f a + f b + ∑ i ∈ ((Finset.range n).erase a).erase b, f i := by
    intro f
    rw [← Finset.add_sum_erase _ f (Finset.mem_range.2 ha),
      ← Finset.add_sum_erase _ f (Finset.mem_erase.2 ⟨hab.symm, Finset.mem_range.2 hb⟩), add_assoc]
  rw [key, key]
  have e1 : rot a b c v a = v a * Real.cos c - v b * Real.sin c := by simp [rot]
  have e2 : rot a b c v b = v a * Real.sin c + v b * Real.cos c := by simp [rot, hab.symm]
  have e3 : ∑ i ∈ ((Finset.range n).erase a).erase b, rot a b c v i ^ 2 =
      ∑ i ∈ ((Finset.range n).erase a).erase b, v i ^ 2 := by
    apply Finset.sum_congr rfl
    intro i hi
    simp only [Finset.mem_erase] at hi
    simp [rot, hi.1, hi.2.1]
  rw [e1, e2, e3]
  have := Real.sin_sq_add_cos_sq c
  linear_combination (v a ^ 2 + v b ^ 2) * this

theorem rotAll_norm {n : Nat} (corr : Nat → ℝ) : ∀ (ps : List (Nat × Nat)) (nq : Nat) (v : Nat → ℝ),
    (∀ p ∈ ps, p.1 < p.2 ∧ p.2 < n) →
    ∑ i ∈ Finset.range n, rotAll corr ps nq v i ^ 2 = ∑ i ∈ Finset.range n, v i ^ 2
  | [], _, _, _ => rfl
  | (a, b) :: ps, nq, v, h => by
    have h0 := h (a, b) (by simp)
    dsimp only at h0
    simp only [rotAll]
    rw [rotAll_norm corr ps _ _ (fun p hp => h p (by simp [hp])), rot_norm (by omega) (by omega) h0.2]

theorem rotAll_other (corr : Nat → ℝ) (i : Nat) : ∀ (ps : List (Nat × Nat)) (nq : Nat) (v : Nat → ℝ),
    (∀ p ∈ ps, p.1 ≠ i ∧ p.2 ≠ i) → rotAll corr ps nq v i = v i
  | [], _, _, _ => rfl
  | (a, b) :: ps, nq, v, h => by
    have h0 := h (a, b) (by simp)
    simp only [rotAll]
    rw [rotAll_other corr i ps _ _ (fun p hp => h p (by simp [hp]))]
    simp [rot, h0.1.symm, h0.2.symm]

theorem rotAll_angles (corr corr' : Nat → ℝ) : ∀ (ps : List (Nat × Nat)) (nq : Nat) (v : Nat → ℝ),
    ps.length ≤ nq + 1 → (∀ j, nq + 1 - ps.length ≤ j → j ≤ nq → corr j = corr' j) →
    rotAll corr ps nq v = rotAll corr' ps nq v
  | [], _, _, _, _ => rfl
  | (a, b) :: ps, nq, v, hl, h => by
    simp only [rotAll]
    simp only [List.length_cons] at hl h
    rw [h nq (by omega) le_rfl]
    rcases Nat.eq_zero_or_pos nq with h0 | h0
    · subst h0
      have : ps = [] := List.eq_nil_of_length_eq_zero (by omega)
      subst this
      rfl
    · exact rotAll_angles corr corr' ps (nq - 1) _ (by omega) fun j h1 h2 => h j (by omega) (by omega)

/-! ### Angles -/

theorem truncZ_abs (x : ℝ) : |x - truncZ x| < 1 ∧ |x - truncZ x| ≤ |x| := by
  unfold truncZ
  split
  · rename_i h
    have h1 := Int.floor_le x
    have h2 := Int.lt_floor_add_one x
    have h3 : (0 : ℝ) ≤ ⌊x⌋ := by exact_mod_cast Int.floor_nonneg.2 h
    rw [abs_of_nonneg (by linarith), abs_of_nonneg h]
    constructor <;> linarith
  · rename_i h
    push Not at h
    have h1 := Int.le_ceil x
    have h2 := Int.ceil_lt_add_one x
    have h3 : ((⌈x⌉ : ℤ) : ℝ) ≤ 0 := by exact_mod_cast Int.ceil_le.2 (by simpa using h.le)
    rw [abs_of_nonpos (by linarith), abs_of_neg h]
    constructor <;> linarith

end Paradiseo.ES
