import Verif.Model.ILS
import Verif.Props.LSParts
import Mathlib.Tactic.Ring

/-
Properties C195–C200: perturbing operators, the continuators and statistics that count, random search,
aspiration.
-/
namespace Paradiseo.LS

variable {S M F K T Sol : Type}

/-! ### C195 -/

/-- The result of applying `op 0`, `op 1`, …, `op (n - 1)` in turn. -/
def applyAll (op : Nat → S → S × Bool) (n : Nat) (s : S) : S :=
  (List.range n).foldl (fun x i => (op i x).1) s

theorem monOpLoop_spec (op : Nat → S → S × Bool) (n : Nat) :
    ∀ i s b, (monOpLoop op n i s b).1 = (List.range n).foldl (fun x j => (op (i + j) x).1) s ∧
      ((monOpLoop op n i s b).2 = true ↔
        b = true ∨ ∃ j < n, (op (i + j) ((List.range j).foldl (fun x k => (op (i + k) x).1) s)).2 = true) := by
  induction n with
  | zero => intro i s b; simp [monOpLoop]
  | succ n ih =>
    intro i s b
    obtain ⟨h1, h2⟩ := ih (i + 1) (op i s).1 ((op i s).2 || b)
    have hshift : ∀ (m : Nat), (List.range (m + 1)).foldl (fun x j => (op (i + j) x).1) s =
        (List.range m).foldl (fun x j => (op (i + 1 + j) x).1) (op i s).1 := by
      intro m
      rw [List.range_succ_eq_map, List.foldl_cons, List.foldl_map]
      simp only [Nat.add_zero, Nat.succ_eq_add_one]
      congr 1
      funext x j
      rw [Nat.add_right_comm i 1 j]; rfl
    refine ⟨?_, ?_⟩
    · show (monOpLoop op n (i + 1) (op i s).1 ((op i s).2 || b)).1 = _
      rw [h1, hshift]
    · show (monOpLoop op n (i + 1) (op i s).1 ((op i s).2 || b)).2 = true ↔ _
      rw [h2]
      constructor
      · rintro (h | ⟨j, hj, h⟩)
        · rw [Bool.or_eq_true] at h
          rcases h with h | h
          · exact Or.inr ⟨0, by omega, h⟩
          · exact Or.inl h
        · refine Or.inr ⟨j + 1, by omega, ?_⟩
          rw [hshift, show i + (j + 1) = i + 1 + j by omega]
          exact h
      · rintro (h | ⟨j, hj, h⟩)
        · exact Or.inl (by rw [h, Bool.or_true])
        · cases j with
          | zero => exact Or.inl (by rw [show (op i s).2 = true from h, Bool.true_or])
          | succ j =>
            refine Or.inr ⟨j, by omega, ?_⟩
            rw [hshift, show i + (j + 1) = i + 1 + j by omega] at h
            exact h

/-- The perturbation by an operator applies it as often as asked, leaves the solution correctly
evaluated whatever evaluator is used and whatever the fitness was before, and reports whether any
application changed something. -/
theorem C195_perturb (op : Nat → S → S × Bool) (f : S → F) (ev : FullEval S F)
    (hev : ev = plainEval f ∨ ev = lazyEval f) (n : Nat) (sol : S × Option F) :
    let r := monOpPerturb op ev n sol
    r.1.1 = applyAll op n sol.1 ∧ r.1.2 = some (f r.1.1) ∧
    (r.2 = true ↔ ∃ j < n, (op j (applyAll op j sol.1)).2 = true) := by
  obtain ⟨h1, h2⟩ := monOpLoop_spec op n 0 sol.1 false
  simp only [Nat.zero_add] at h1 h2
  refine ⟨h1, ?_, ?_⟩
  · rcases hev with h | h <;> subst h <;> rfl
  · show (monOpLoop op n 0 sol.1 false).2 = true ↔ _
    rw [h2]
    simp [applyAll]

/-- The number of applications drawn lies between the two limits, and every number from the lower limit
up to but not including the upper one can be drawn: never the upper limit itself, unless both are equal. -/
theorem C195_times (lo hi : Nat) (h : lo ≤ hi) (hhi : hi < 2 ^ 32) :
    (∀ r, lo ≤ monOpTimes lo hi r ∧ monOpTimes lo hi r ≤ hi ∧ (monOpTimes lo hi r = hi → lo = hi)) ∧
    (∀ k, lo ≤ k → k < hi → ∃ r, monOpTimes lo hi r = k) := by
  have hm : (hi + (2 ^ 32 - lo)) % 2 ^ 32 = hi - lo := by
    rw [show hi + (2 ^ 32 - lo) = (hi - lo) + 2 ^ 32 by omega, Nat.add_mod_right, Nat.mod_eq_of_lt (by omega)]
  have hval : ∀ r, monOpTimes lo hi r = lo + (if hi - lo = 0 then 0 else r % (hi - lo)) := by
    intro r
    simp only [monOpTimes, hm]
    rw [Nat.mod_eq_of_lt]
    split
    · omega
    · have := Nat.mod_lt r (show hi - lo > 0 by omega)
      omega
  constructor
  · intro r
    rw [hval]
    split
    · omega
    · have := Nat.mod_lt r (show hi - lo > 0 by omega)
      omega
  · intro k h1 h2
    refine ⟨k - lo, ?_⟩
    rw [hval, if_neg (by omega), Nat.mod_eq_of_lt (by omega)]
    omega

/-- When the limits are given in the wrong order the number of applications can be anything up to the
largest 32-bit number. -/
theorem C195_times_swapped (lo hi : Nat) (h : hi < lo) (hlo : lo < 2 ^ 32) (k : Nat) (hk : k < 2 ^ 32)
    (hk' : k < hi ∨ lo ≤ k) : ∃ r, monOpTimes lo hi r = k := by
  have hm : (hi + (2 ^ 32 - lo)) % 2 ^ 32 = hi + (2 ^ 32 - lo) := Nat.mod_eq_of_lt (by omega)
  rcases hk' with hk' | hk'
  · refine ⟨k + 2 ^ 32 - lo, ?_⟩
    simp only [monOpTimes, hm]
    rw [if_neg (by omega), Nat.mod_eq_of_lt (a := k + 2 ^ 32 - lo) (by omega),
      show lo + (k + 2 ^ 32 - lo) = k + 2 ^ 32 by omega, Nat.add_mod_right, Nat.mod_eq_of_lt hk]
  · refine ⟨k - lo, ?_⟩
    simp only [monOpTimes, hm]
    rw [if_neg (by omega), Nat.mod_eq_of_lt (a := k - lo) (by omega), show lo + (k - lo) = k by omega,
      Nat.mod_eq_of_lt hk]

/-- The diversification by an operator leaves the solution correctly evaluated when the evaluator always
computes. -/
theorem C195_diversify_plain (op : S → S × Bool) (f : S → F) (sol : S × Option F) :
    (monOpDiversify op (plainEval f) sol).1 = ((op sol.1).1, some (f (op sol.1).1)) := rfl

/-- With the counting evaluator, which skips solutions that have a fitness, the diversification keeps
the fitness of the old solution. -/
theorem C195_diversify_stale (op : S → S × Bool) (f : S → F) (x : S) :
    (monOpDiversify op (lazyEval f) (x, some (f x))).1 = ((op x).1, some (f x)) := rfl

example : ∃ (op : Nat → Nat × Bool) (f : Nat → Nat),
    (monOpDiversify op (lazyEval f) (0, some (f 0))).1.2 ≠ some (f (monOpDiversify op (lazyEval f) (0, some (f 0))).1.1) :=
  ⟨fun x => (x + 1, true), id, by decide⟩

/-! ### C196 -/

/-- The continuator called on the pairs (fitness of the solution, fitness of the best) of a list, from a
counter `cpt`: the answers. -/
def noImproveRun [LinearOrder F] (m : Nat) : Nat → List (F × F) → List Bool
  | _, [] => []
  | cpt, p :: l => (noImprove m cpt p.1 p.2).1 :: noImproveRun m (noImprove m cpt p.1 p.2).2 l

open Classical in
theorem noImproveRun_get [LinearOrder F] (m : Nat) (l : List (F × F)) :
    ∀ (cpt t : Nat), t < l.length →
      (noImproveRun m cpt l)[t]? = some (decide (
        (∀ i ≤ t, ∀ p, l[i]? = some p → p.1 ≤ p.2) ∧ cpt + t + 1 < m ∨
        ∃ i ≤ t, (∃ p, l[i]? = some p ∧ p.2 < p.1) ∧
          (∀ j, i < j → j ≤ t → ∀ p, l[j]? = some p → p.1 ≤ p.2) ∧ t - i < m)) := by
  classical
  induction l with
  | nil => intro cpt t ht; simp at ht
  | cons p l ih =>
    intro cpt t ht
    have hle : (p.1 < p.2 ∨ p.1 = p.2) ↔ p.1 ≤ p.2 := le_iff_lt_or_eq.symm
    cases t with
    | zero =>
      simp only [noImproveRun, List.getElem?_cons_zero, noImprove, Option.some.injEq]
      rw [decide_eq_decide]
      by_cases h : p.1 ≤ p.2
      · rw [if_pos (hle.2 h)]
        constructor
        · intro hm
          refine Or.inl ⟨?_, by omega⟩
          intro i hi q hq
          have : i = 0 := by omega
          subst this
          simp at hq; subst hq; exact h
        · rintro (⟨_, h2⟩ | ⟨i, hi, ⟨q, hq, hlt⟩, _⟩)
          · omega
          · have : i = 0 := by omega
            subst this
            simp at hq; subst hq
            exact absurd h (not_le.2 hlt)
      · rw [if_neg (fun h' => h (hle.1 h'))]
        constructor
        · intro hm
          exact Or.inr ⟨0, le_rfl, ⟨p, rfl, not_le.1 h⟩, fun j h1 h2 => by omega, by omega⟩
        · rintro (⟨h1, _⟩ | ⟨i, hi, _, _, h2⟩)
          · exact absurd (h1 0 le_rfl p rfl) h
          · omega
    | succ t =>
      simp only [noImproveRun, List.getElem?_cons_succ]
      rw [ih _ t (by simpa using ht)]
      rw [Option.some.injEq, decide_eq_decide]
      by_cases h : p.1 ≤ p.2
      · have hc : (noImprove m cpt p.1 p.2).2 = cpt + 1 := if_pos (hle.2 h)
        rw [hc]
        constructor
        · rintro (⟨h1, h2⟩ | ⟨i, hi, h1, h2, h3⟩)
          · refine Or.inl ⟨?_, by omega⟩
            intro i hi q hq
            cases i with
            | zero => simp at hq; subst hq; exact h
            | succ i => exact h1 i (by omega) q (by simpa using hq)
          · refine Or.inr ⟨i + 1, by omega, ?_, ?_, by omega⟩
            · obtain ⟨q, hq, hlt⟩ := h1
              exact ⟨q, by simpa using hq, hlt⟩
            · intro j j1 j2 q hq
              cases j with
              | zero => omega
              | succ j => exact h2 j (by omega) (by omega) q (by simpa using hq)
        · rintro (⟨h1, h2⟩ | ⟨i, hi, h1, h2, h3⟩)
          · refine Or.inl ⟨fun i hi q hq => h1 (i + 1) (by omega) q (by simpa using hq), by omega⟩
          · cases i with
            | zero =>
              obtain ⟨q, hq, hlt⟩ := h1
              simp at hq; subst hq
              exact absurd h (not_le.2 hlt)
            | succ i =>
              obtain ⟨q, hq, hlt⟩ := h1
              refine Or.inr ⟨i, by omega, ⟨q, by simpa using hq, hlt⟩, ?_, by omega⟩
              intro j j1 j2 q hq
              exact h2 (j + 1) (by omega) (by omega) q (by simpa using hq)
      · have hc : (noImprove m cpt p.1 p.2).2 = 0 := if_neg (fun h' => h (hle.1 h'))
        rw [hc]
        constructor
        · rintro (⟨h1, h2⟩ | ⟨i, hi, h1, h2, h3⟩)
          · refine Or.inr ⟨0, by omega, ⟨p, rfl, not_le.1 h⟩, ?_, by omega⟩
            intro j j1 j2 q hq
            cases j with
            | zero => omega
            | succ j => exact h1 j (by omega) q (by simpa using hq)
          · obtain ⟨q, hq, hlt⟩ := h1
            refine Or.inr ⟨i + 1, by omega, ⟨q, by simpa using hq, hlt⟩, ?_, by omega⟩
            intro j j1 j2 q hq
            cases j with
            | zero => omega
            | succ j => exact h2 j (by omega) (by omega) q (by simpa using hq)
        · rintro (⟨h1, h2⟩ | ⟨i, hi, h1, h2, h3⟩)
          · exact absurd (h1 0 (by omega) p rfl) h
          · cases i with
            | zero =>
              refine Or.inl ⟨fun i hi q hq => h2 (i + 1) (by omega) (by omega) q (by simpa using hq), by omega⟩
            | succ i =>
              obtain ⟨q, hq, hlt⟩ := h1
              refine Or.inr ⟨i, by omega, ⟨q, by simpa using hq, hlt⟩, ?_, by omega⟩
              intro j j1 j2 q hq
              exact h2 (j + 1) (by omega) (by omega) q (by simpa using hq)

/-- The continuator says "stop" at call `t` (counted from 0) exactly when `m` calls were made and the
solution was better than the best at none of the last `m` of them. -/
theorem C196_stop_iff [LinearOrder F] (m : Nat) (l : List (F × F)) (t : Nat) (ht : t < l.length) :
    (noImproveRun m 0 l)[t]? = some false ↔
      m ≤ t + 1 ∧ ∀ i ≤ t, t < i + m → ∀ p, l[i]? = some p → p.1 ≤ p.2 := by
  classical
  rw [noImproveRun_get m l 0 t ht, Option.some.injEq, decide_eq_false_iff_not]
  constructor
  · intro h
    have h1 : m ≤ t + 1 := by
      by_contra hlt
      apply h
      by_cases hall : ∀ i ≤ t, ∀ p, l[i]? = some p → p.1 ≤ p.2
      · exact Or.inl ⟨hall, by omega⟩
      · -- take the last improving call
        push Not at hall
        obtain ⟨i0, hi0, p0, hp0, hlt0⟩ := hall
        let P : Nat → Prop := fun i => i ≤ t ∧ ∃ p, l[i]? = some p ∧ p.2 < p.1
        have hex : ∃ i, P i := ⟨i0, hi0, p0, hp0, hlt0⟩
        obtain ⟨i, hPi, hmax⟩ : ∃ i, P i ∧ ∀ j, P j → j ≤ i := by
          have hne : ((Finset.range (t + 1)).filter P).Nonempty :=
            ⟨i0, Finset.mem_filter.2 ⟨Finset.mem_range.2 (by omega), hi0, p0, hp0, hlt0⟩⟩
          refine ⟨_, (Finset.mem_filter.1 (Finset.max'_mem _ hne)).2, fun j hj => Finset.le_max' _ _ ?_⟩
          exact Finset.mem_filter.2 ⟨Finset.mem_range.2 (by have := hj.1; omega), hj⟩
        refine Or.inr ⟨i, hPi.1, hPi.2, ?_, by omega⟩
        intro j j1 j2 q hq
        by_contra hqn
        have := hmax j ⟨j2, q, hq, not_le.1 hqn⟩
        omega
    refine ⟨h1, ?_⟩
    intro i hi him p hp
    by_contra hn
    apply h
    have hlt := not_le.1 hn
    let P : Nat → Prop := fun i => i ≤ t ∧ ∃ p, l[i]? = some p ∧ p.2 < p.1
    obtain ⟨k, hPk, hmax⟩ : ∃ i, P i ∧ ∀ j, P j → j ≤ i := by
      have hne : ((Finset.range (t + 1)).filter P).Nonempty :=
        ⟨i, Finset.mem_filter.2 ⟨Finset.mem_range.2 (by omega), hi, p, hp, hlt⟩⟩
      refine ⟨_, (Finset.mem_filter.1 (Finset.max'_mem _ hne)).2, fun j hj => Finset.le_max' _ _ ?_⟩
      exact Finset.mem_filter.2 ⟨Finset.mem_range.2 (by have := hj.1; omega), hj⟩
    have hik : i ≤ k := hmax i ⟨hi, p, hp, hlt⟩
    refine Or.inr ⟨k, hPk.1, hPk.2, ?_, by have := hPk.1; omega⟩
    intro j j1 j2 q hq
    by_contra hqn
    have := hmax j ⟨j2, q, hq, not_le.1 hqn⟩
    omega
  · rintro ⟨h1, h2⟩ (⟨_, h4⟩ | ⟨i, hi, ⟨p, hp, hlt⟩, _, h4⟩)
    · omega
    · exact absurd (h2 i hi (by omega) p hp) (not_le.2 hlt)

example : noImproveRun 2 0 [(1, 3), (4, 3), (2, 3), (3, 3)] = [true, true, true, false] := by decide

/-- If the best is never worse than the solution when the continuator is called, as when it is kept by
a statistic of the same checkpoint or by the tabu search itself, the continuator is an iteration
counter: it stops at call number `m`, however much the search improves. -/
theorem C196_tracked_best [LinearOrder F] (m : Nat) (l : List (F × F)) (h : ∀ p ∈ l, p.1 ≤ p.2) (t : Nat)
    (ht : t < l.length) : (noImproveRun m 0 l)[t]? = some (decide (t + 1 < m)) := by
  have := C196_stop_iff m l t ht
  by_cases hm : t + 1 < m
  · rw [decide_eq_true hm]
    rcases hx : (noImproveRun m 0 l)[t]? with _ | b
    · rw [noImproveRun_get m l 0 t ht] at hx; simp at hx
    · cases b
      · have := (this.1 hx).1; omega
      · rfl
  · rw [decide_eq_false hm, this]
    refine ⟨by omega, fun i _ _ p hp => h p (List.mem_of_getElem? hp)⟩

/-- A checkpoint with the best-so-far statistic and the continuator that refers to it, on any sequence
of solutions: the answers are those of an iteration counter. -/
theorem C196_checkpoint [LinearOrder F] (m : Nat) (l : List (S × F)) (k : BestStat (S × F)) :
    ∀ cpt, (l.foldl (fun (r : List Bool × (BestStat (S × F) × Nat)) s =>
        let q := bestCheck m r.2 s; (r.1 ++ [q.1], q.2)) ([], (k, cpt))).1 =
      (List.range l.length).map fun i => decide (cpt + i + 1 < m) := by
  intro cpt
  have key : ∀ (l : List (S × F)) (acc : List Bool) (k : BestStat (S × F)) (cpt : Nat),
      (l.foldl (fun (r : List Bool × (BestStat (S × F) × Nat)) s =>
        let q := bestCheck m r.2 s; (r.1 ++ [q.1], q.2)) (acc, (k, cpt))).1 =
      acc ++ (List.range l.length).map fun i => decide (cpt + i + 1 < m) := by
    intro l
    induction l with
    | nil => intro acc k cpt; simp
    | cons s l ih =>
      intro acc k cpt
      have hb : s.2 ≤ (bestStep k s).value.2 := by
        simp only [bestStep]
        split
        · exact le_rfl
        · rename_i h; exact not_lt.1 h
      have hc : (bestCheck m (k, cpt) s) = (decide (cpt + 1 < m), (bestStep k s, cpt + 1)) := by
        simp only [bestCheck, noImprove]
        rw [if_pos (le_iff_lt_or_eq.1 hb)]
      simp only [List.foldl_cons, hc]
      rw [ih, List.length_cons, List.range_succ_eq_map]
      simp only [List.map_cons, List.map_map, List.append_assoc, List.singleton_append, Nat.add_zero]
      congr 2
      apply List.map_congr_left
      intro i _
      simp only [Function.comp, decide_eq_decide]
      omega
  simpa using key l [] k cpt

example : (([(0, 1), (0, 2), (0, 3), (0, 4)] : List (Nat × Nat)).foldl (fun (r : List Bool × (BestStat (Nat × Nat) × Nat)) s =>
    let q := bestCheck 3 r.2 s; (r.1 ++ [q.1], q.2)) ([], (⟨(0, 0), true⟩, 0))).1 = [true, true, false, false] := by decide

/-! ### C197 -/

/-- The search goes on exactly as long as fewer than `m` evaluations were made since `init`, when the
counter is restarted and fewer than 2^32 evaluations had been made before. -/
theorem C197_budget (m v0 v : Nat) (h0 : v0 < 2 ^ 32) (h : v0 ≤ v) (hv : v < 2 ^ 64) :
    evalsCont m (evalsInit true v0) v = decide (v - v0 < m) := by
  simp only [evalsCont, evalsInit, if_true, toU32, usub64]
  rw [Nat.mod_eq_of_lt h0, show v + 2 ^ 64 - v0 = (v - v0) + 2 ^ 64 by omega, Nat.add_mod_right,
    Nat.mod_eq_of_lt (by omega)]

/-- Without restart the budget is counted from the creation of the counter, over all runs. -/
theorem C197_no_restart (m v0 v : Nat) (hv : v < 2 ^ 64) :
    evalsCont m (evalsInit false v0) v = decide (v < m) := by
  have h0 : evalsInit false v0 = 0 := rfl
  rw [h0]
  have h1 : usub64 v 0 = v := by simp only [usub64]; omega
  rw [evalsCont, h1]

/-- Once 2^32 evaluations have been made before the start, the start is lost in the conversion to 32 bits,
and a run with any budget expressible on 32 bits stops after its first iteration. -/
theorem C197_overflow (m v0 v : Nat) (h0 : 2 ^ 32 ≤ v0) (h : v0 ≤ v) (hv : v < 2 ^ 64) (hm : m < 2 ^ 32) :
    evalsCont m (evalsInit true v0) v = false := by
  simp only [evalsCont, evalsInit, if_true, toU32, usub64, decide_eq_false_iff_not, not_lt]
  have h1 : v0 % 2 ^ 32 + 2 ^ 32 ≤ v0 := by
    have := Nat.div_add_mod v0 (2 ^ 32)
    have h2 : 1 ≤ v0 / 2 ^ 32 := (Nat.one_le_div_iff (by norm_num)).2 h0
    omega
  rw [show v + 2 ^ 64 - v0 % 2 ^ 32 = (v - v0 % 2 ^ 32) + 2 ^ 64 by omega, Nat.add_mod_right,
    Nat.mod_eq_of_lt (by omega)]
  omega

/-- The number of evaluations at the end. `c t` is the counter after `t` iterations; the run stops at
the first iteration `t ≥ 1` whose answer is false. At that point at least `m` evaluations were made, and
fewer than `m` plus those of the last iteration. -/
theorem C197_overshoot (m : Nat) (hm : 1 ≤ m) (c : Nat → Nat) (hmono : ∀ t, c t ≤ c (t + 1)) (h0 : c 0 < 2 ^ 32)
    (t : Nat) (ht : 1 ≤ t) (hv : c t < 2 ^ 64) (hstop : evalsCont m (evalsInit true (c 0)) (c t) = false)
    (hgo : ∀ i, 1 ≤ i → i < t → evalsCont m (evalsInit true (c 0)) (c i) = true) :
    m ≤ c t - c 0 ∧ c t - c 0 < m + (c t - c (t - 1)) := by
  have hle : ∀ i j, i ≤ j → c i ≤ c j := fun i j h => monotone_nat_of_le_succ hmono h
  rw [C197_budget m _ _ h0 (hle 0 t (by omega)) hv, decide_eq_false_iff_not, not_lt] at hstop
  refine ⟨hstop, ?_⟩
  have h1 := hle 0 (t - 1) (by omega)
  have h2 := hle (t - 1) t (by omega)
  rcases Nat.lt_or_ge 1 t with h3 | h3
  · have := hgo (t - 1) (by omega) (by omega)
    rw [C197_budget m _ _ h0 h1 (by omega), decide_eq_true_eq] at this
    omega
  · have : t - 1 = 0 := by omega
    rw [this]
    omega

example : evalsCont 10 (evalsInit true 5) 14 = true ∧ evalsCont 10 (evalsInit true 5) 15 = false := by decide

/-- The time limit: by default every run has the whole time, counted from its own start; with a starting
time set from outside all runs share one budget. -/
theorem C197_time (max start now : Int) (k : Timer) (hk : k.external = false) (ext : Int) :
    timerCont max now (timerInit start k) = decide (now < start + max) ∧
    timerCont max now (timerInit start (timerSet ext k)) = decide (now < ext + max) := by
  have h1 : timerInit start k = { k with start := start } := if_pos (by rw [hk]; rfl)
  have h2 : timerInit start (timerSet ext k) = ⟨ext, true⟩ := rfl
  rw [h1, h2]
  simp only [timerCont, decide_eq_decide]
  constructor <;> constructor <;> intro h <;> omega

/-! ### C198 -/

/-- `best` is the first best of a non-empty list. -/
def FirstBest [LinearOrder F] (l : List (S × F)) (best : S × F) : Prop :=
  ∃ pre post, l = pre ++ best :: post ∧ (∀ s ∈ pre, s.2 < best.2) ∧ ∀ s ∈ post, s.2 ≤ best.2

theorem bestFold [LinearOrder F] (l : List (S × F)) : ∀ (seen : List (S × F)) (k : BestStat (S × F)),
    FirstBest seen k.value → FirstBest (seen ++ l) (l.foldl bestStep k).value ∧
      (l.foldl bestStep k).firstTime = k.firstTime := by
  induction l with
  | nil => intro seen k h; exact ⟨by simpa using h, rfl⟩
  | cons s l ih =>
    intro seen k h
    obtain ⟨pre, post, h1, h2, h3⟩ := h
    have hstep : FirstBest (seen ++ [s]) (bestStep k s).value := by
      simp only [bestStep]
      split
      · rename_i hlt
        refine ⟨seen, [], by simp, ?_, by simp⟩
        intro u hu
        rw [h1] at hu
        rcases List.mem_append.1 hu with hu | hu
        · exact (h2 u hu).trans hlt
        · rcases List.mem_cons.1 hu with hu | hu
          · rw [hu]; exact hlt
          · exact (h3 u hu).trans_lt hlt
      · rename_i hlt
        refine ⟨pre, post ++ [s], by simp [h1], h2, ?_⟩
        intro u hu
        rcases List.mem_append.1 hu with hu | hu
        · exact h3 u hu
        · rw [List.mem_singleton.1 hu]; exact not_lt.1 hlt
    have hft : (bestStep k s).firstTime = k.firstTime := by
      simp only [bestStep]; split <;> rfl
    obtain ⟨g1, g2⟩ := ih (seen ++ [s]) (bestStep k s) hstep
    exact ⟨by simpa using g1, by rw [List.foldl_cons, g2, hft]⟩

/-- By default the statistic holds the first best of the start and of the solutions after each iteration
of the last run. -/
theorem C198_run [LinearOrder F] (k : BestStat (S × F)) (s0 : S × F) (l : List (S × F)) :
    FirstBest (s0 :: l) (bestRun true k (s0, l)).value := by
  have := (bestFold l [s0] (bestInit true s0 k) ⟨[], [], rfl, by simp, by simp⟩).1
  simpa [bestRun] using this

/-- Without reinitialisation it holds the first best over all runs, of the start of the first run and of
the solutions after each iteration of every run: the starts of the later runs are not looked at. -/
theorem C198_runs [LinearOrder F] (dummy : S × F) (s0 : S × F) (l : List (S × F))
    (runs : List ((S × F) × List (S × F))) :
    FirstBest (s0 :: l ++ (runs.map (·.2)).flatten)
      ((s0, l) :: runs |>.foldl (bestRun false) ⟨dummy, true⟩).value := by
  have key : ∀ (runs : List ((S × F) × List (S × F))) (seen : List (S × F)) (k : BestStat (S × F)),
      k.firstTime = false → FirstBest seen k.value →
      FirstBest (seen ++ (runs.map (·.2)).flatten) (runs.foldl (bestRun false) k).value := by
    intro runs
    induction runs with
    | nil => intro seen k _ h; simpa using h
    | cons r runs ih =>
      intro seen k hk h
      have hb : bestInit false r.1 k = k := by
        simp only [bestInit]; rw [if_neg (by decide), if_neg (by rw [hk]; decide)]
      obtain ⟨g1, g2⟩ := bestFold r.2 seen k h
      have := ih (seen ++ r.2) (bestRun false k r) (by simp only [bestRun]; rw [hb, g2, hk])
        (by simp only [bestRun]; rw [hb]; exact g1)
      simpa using this
  obtain ⟨g1, g2⟩ := bestFold l [s0] ⟨s0, false⟩ ⟨[], [], rfl, by simp, by simp⟩
  have h0 : bestRun false (⟨dummy, true⟩ : BestStat (S × F)) (s0, l) = l.foldl bestStep ⟨s0, false⟩ := rfl
  rw [List.foldl_cons, h0]
  have := key runs ([s0] ++ l) _ g2 g1
  simpa using this

/-- So a later run that starts from the best solution ever seen and moves away from it is not recorded. -/
theorem C198_start_lost :
    ∃ (runs : List ((Nat × Nat) × List (Nat × Nat))) (k : BestStat (Nat × Nat)),
      runs.foldl (bestRun false) ⟨(0, 0), true⟩ = k ∧ ∃ r ∈ runs, k.value.2 < r.1.2 :=
  ⟨[((0, 1), [(0, 2)]), ((0, 9), [(0, 3)])], _, rfl, ((0, 9), [(0, 3)]), by simp, by decide⟩

/-! ### C199 -/

/-- Random search as constructed with `nbSolMax`, whatever the continuator allows: it draws at most
`max 1 (nbSolMax - 1)` solutions, exactly that many when the continuator never stops it, and ends with
the last solution drawn. -/
theorem C199_random_search {f : S → F} (nbSolMax : Nat) (draw : Nat → S × F)
    {cont : K → S × F → Bool × K} {cinit : S × F → K} {fuel : Nat} {x : S} {fit : Option F}
    {e : Nat} {res : S × F} {tr : List ((S × F) × Nat)} {b : Bool}
    (h : localSearch f (randomSearch (searchSteps nbSolMax) draw) cont cinit fuel x fit e = some (res, tr, b)) :
    tr.map (·.1) = (List.range tr.length).map draw ∧ 1 ≤ tr.length ∧ res = draw (tr.length - 1) ∧
    tr.length ≤ max 1 (nbSolMax - 1) ∧ (b = true → tr.length = max 1 (nbSolMax - 1)) := by
  obtain ⟨n, htr, hi, hb, hres, hsol⟩ := localSearch_orbit h
  set o := orbit (randomSearch (searchSteps nbSolMax) draw) 0
    ((x, fit.getD (f x)), (randomSearch (searchSteps nbSolMax) draw).initParam (x, fit.getD (f x)) e) with ho
  have hstep : ∀ k, o (k + 1) = (draw k, (o k).2 + 1) := by
    intro k
    show stepTo _ (0 + k) (o k) = _
    rw [Nat.zero_add]
    rfl
  have hcnt : ∀ k, (o k).2 = k := by
    intro k
    induction k with
    | zero => rfl
    | succ k ih => rw [hstep, ih]
  have hlen : tr.length = n + 1 := by rw [htr]; simp
  have hsteps : searchSteps nbSolMax = nbSolMax - 1 := by
    simp only [searchSteps]; split <;> omega
  have hgo : ∀ i, i < n → i + 1 < nbSolMax - 1 := by
    intro i hin
    have := hi i hin
    have h2 : (randomSearch (searchSteps nbSolMax) draw).isContinue (o (i + 1)).1 (o (i + 1)).2 =
        decide ((o (i + 1)).2 < searchSteps nbSolMax) := rfl
    have h3 := h2.symm.trans this
    rw [hcnt, hsteps, decide_eq_true_eq] at h3
    exact h3
  refine ⟨?_, by omega, ?_, ?_, ?_⟩
  · rw [hlen, htr, List.map_map]
    apply List.map_congr_left
    intro i _
    show (o (i + 1)).1 = draw i
    rw [hstep]
  · rw [hlen]
    show res = draw n
    have : res = (o (n + 1)).1 := hres
    rw [this, hstep]
  · rw [hlen]
    rcases Nat.eq_zero_or_pos n with h0 | h0
    · omega
    · have := hgo (n - 1) (by omega); omega
  · intro hbt
    rcases hb with hb | hb
    · rw [hbt] at hb; exact absurd hb (by decide)
    · have h3 : decide ((o (n + 1)).2 < searchSteps nbSolMax) = false := hb
      rw [hcnt, hsteps, decide_eq_false_iff_not, not_lt] at h3
      rw [hlen]
      rcases Nat.eq_zero_or_pos n with h0 | h0
      · omega
      · have := hgo (n - 1) (by omega); omega

/-- Random search can end with a solution worse than others it drew and than its start. -/
theorem C199_not_best :
    ∃ (draw : Nat → Nat × Nat) (res : Nat × Nat) (tr : List ((Nat × Nat) × Nat)),
      localSearch id (randomSearch (searchSteps 4) draw) (fun (_ : Unit) _ => (true, ())) (fun _ => ()) 9 5 none 0 =
        some (res, tr, true) ∧ res.2 < id 5 ∧ ∃ q ∈ tr, res.2 < q.1.2 :=
  ⟨fun t => (9 - 4 * t, 9 - 4 * t), _, _, rfl, by decide, _, List.mem_cons_self, by decide⟩

/-! ### C200 -/

/-- Tabu search with the best-improvement aspiration and any tabu list. A move applied in iteration `n`
is not tabu, or leads to a solution strictly better than every solution the search had until then. -/
theorem C200_aspiration [LinearOrder F] (tinit : S × F → T → T)
    (tadd tupd : S × F → Option (Cand M F) → T → T) (tcheck : T → S × F → Cand M F → Bool)
    (nb : Nat → S × F → List (Cand M F)) (app : M → S → S) (sol : S × F)
    (e : TS (S × F) (Cand M F) (T × (S × F))) (n : Nat) :
    let ex := tabuSearch (aspirMem tinit tadd tupd tcheck) nb app
    let o := orbit ex 0 (sol, ex.initParam sol e)
    (o (n + 1)).2.isAccept = true → ∃ c ∈ nb n (o n).1, (o (n + 1)).1 = (app c.mv (o n).1.1, c.fit) ∧
      (tcheck (o n).2.mem.1 (o n).1 c = false ∨ ∀ i ≤ n, (o i).1.2 < (o (n + 1)).1.2) := by
  intro ex o hacc
  have hbest : ∀ k, (∀ i ≤ k, (o i).1.2 ≤ (o k).2.mem.2.2) ∧ ∃ i ≤ k, (o k).2.mem.2 = (o i).1 := by
    intro k
    induction k with
    | zero =>
      refine ⟨fun i hi => ?_, 0, le_rfl, rfl⟩
      have : i = 0 := by omega
      subst this
      exact le_rfl
    | succ k ih =>
      have hmem : (o (k + 1)).2.mem.2 = if (o k).2.mem.2.2 < (o (k + 1)).1.2 then (o (k + 1)).1 else (o k).2.mem.2 := by
        show (stepTo ex (0 + k) (o k)).2.mem.2 = if (o k).2.mem.2.2 < (stepTo ex (0 + k) (o k)).1.2 then
          (stepTo ex (0 + k) (o k)).1 else (o k).2.mem.2
        generalize o k = q
        obtain ⟨s, w⟩ := q
        simp only [stepTo, lsStep, ex, tabuSearch, aspirMem]
        cases tsSelect (fun c => !tcheck w.mem.1 s c || decide (w.mem.2.2 < c.fit)) (nb (0 + k) s) <;> simp
      refine ⟨fun i hi => ?_, ?_⟩
      · rw [hmem]
        split
        · rename_i hlt
          rcases Nat.lt_succ_iff_lt_or_eq.1 (Nat.lt_succ_of_le hi) with h | h
          · exact (ih.1 i (by omega)).trans hlt.le
          · rw [h]
        · rename_i hlt
          rcases Nat.lt_succ_iff_lt_or_eq.1 (Nat.lt_succ_of_le hi) with h | h
          · exact ih.1 i (by omega)
          · rw [h]; exact not_lt.1 hlt
      · rw [hmem]
        split
        · exact ⟨k + 1, le_rfl, rfl⟩
        · obtain ⟨i, hi, h⟩ := ih.2
          exact ⟨i, by omega, h⟩
  have hst : o (n + 1) = stepTo ex n (o n) := by
    show stepTo ex (0 + n) (o n) = _
    rw [Nat.zero_add]
  have hall := C22_allowed_best (aspirMem tinit tadd tupd tcheck) nb app n (o n).1 (o n).2
  have hmoved : (lsStep ex n (o n).1 (o n).2).2.2 = (o (n + 1)).2.isAccept := by
    rw [hst]
    generalize o n = q
    obtain ⟨s, w⟩ := q
    simp only [stepTo, lsStep, ex, tabuSearch]
    cases tsSelect (fun c => !(aspirMem tinit tadd tupd tcheck).check w.mem ((aspirMem tinit tadd tupd tcheck).diversify w.mem
      ((aspirMem tinit tadd tupd tcheck).intensify w.mem s)) c || (aspirMem tinit tadd tupd tcheck).aspir w.mem
      ((aspirMem tinit tadd tupd tcheck).diversify w.mem ((aspirMem tinit tadd tupd tcheck).intensify w.mem s)) c)
      (nb n ((aspirMem tinit tadd tupd tcheck).diversify w.mem ((aspirMem tinit tadd tupd tcheck).intensify w.mem s))) <;> simp
  obtain ⟨c, hc, hal, _, hq⟩ := hall.1 (hmoved.trans hacc)
  refine ⟨c, hc, ?_, ?_⟩
  · rw [hst]; exact hq
  · rcases hal with hal | hal
    · exact Or.inl hal
    · right
      have h1 : (o n).2.mem.2.2 < c.fit := of_decide_eq_true hal
      have h2 : (o (n + 1)).1.2 = c.fit := by rw [hst]; exact congrArg Prod.snd hq
      intro i hi
      rw [h2]
      exact ((hbest n).1 i hi).trans_lt h1

/-- Conversely no neighbour better than everything seen is left out for being tabu: the chosen one is at
least as good as each of these. -/
theorem C200_no_loss [LinearOrder F] (tinit : S × F → T → T)
    (tadd tupd : S × F → Option (Cand M F) → T → T) (tcheck : T → S × F → Cand M F → Bool)
    (nb : Nat → S × F → List (Cand M F)) (app : M → S → S) (s : S × F)
    (e : TS (S × F) (Cand M F) (T × (S × F))) (t : Nat) (d : Cand M F) (hd : d ∈ nb t s) (hb : e.mem.2.2 < d.fit) :
    let q := lsStep (tabuSearch (aspirMem tinit tadd tupd tcheck) nb app) t s e
    q.2.2 = true ∧ d.fit ≤ q.1.2 := by
  intro q
  have hall := C22_allowed_best (aspirMem tinit tadd tupd tcheck) nb app t s e
  have hok : (aspirMem tinit tadd tupd tcheck).aspir e.mem s d = true := decide_eq_true hb
  have hmv : q.2.2 = true := by
    rcases hx : q.2.2 with _ | _
    · exact absurd (Or.inr hok) ((hall.2 hx).1 d hd)
    · rfl
  obtain ⟨c, _, _, hbest, hq⟩ := hall.1 hmv
  refine ⟨hmv, ?_⟩
  have : q.1.2 = c.fit := congrArg Prod.snd hq
  rw [this]
  exact hbest d hd (Or.inr hok)

end Paradiseo.LS
