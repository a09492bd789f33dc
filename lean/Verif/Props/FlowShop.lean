/-
C337 - C339: the permutation flow-shop problem (Model/FlowShop.lean).
-/
import Verif.Model.FlowShop
import Verif.Props.FactoryMore
import Mathlib.Data.List.Perm.Lattice
import Mathlib.Algebra.BigOperators.Group.List.Basic

namespace Paradiseo.FlowShop

open Paradiseo.EO (Err)
open Paradiseo.Ops (rnd rd wr)
open Paradiseo.Factory (Text atoi atou digitsValue)

/-! ### C337: evaluation -/

/-- What a schedule of the sequence `s` has to respect; `f i k` is when machine `i` finishes job `k`: no operation starts
before time 0, a job goes through the machines in order, and a machine takes the jobs in the order of the sequence, one at a
time. -/
structure Feasible (M N : Nat) (p : Nat → Nat → Nat) (s : Nat → Nat) (f : Nat → Nat → Nat) : Prop where
  start : ∀ i < M, ∀ j < N, p i (s j) ≤ f i (s j)
  machines : ∀ i, i + 1 < M → ∀ j < N, f i (s j) + p (i + 1) (s j) ≤ f (i + 1) (s j)
  jobs : ∀ i < M, ∀ j, j + 1 < N → f i (s j) + p i (s (j + 1)) ≤ f i (s (j + 1))

section Completion

variable (p : Times) (s : Nat → Nat)

/-- The recurrence of the completion times. -/
def E : Nat → Nat → Nat
  | 0, 0 => p 0 (s 0)
  | 0, j + 1 => E 0 j + p 0 (s (j + 1))
  | i + 1, 0 => E i 0 + p (i + 1) (s 0)
  | i + 1, j + 1 => max (E (i + 1) j) (E i (j + 1)) + p (i + 1) (s (j + 1))

variable {p s}

theorem upd_same (C : Times) (i j v : Nat) : upd C i j v i j = v := by simp [upd]

theorem upd_other (C : Times) {i j v i' j' : Nat} (h : ¬ (i' = i ∧ j' = j)) : upd C i j v i' j' = C i' j' := by
  simp [upd, h]

theorem firstMachine_eq {N : Nat} (hinj : ∀ a < N, ∀ b < N, s a = s b → a = b) (C : Times) (h0 : C 0 (s 0) = E p s 0 0) :
    ∀ k, k < N → ∀ j ≤ k,
      ((List.range' 1 k).foldl (fun C j => upd C 0 (s j) (C 0 (s (j - 1)) + p 0 (s j))) C) 0 (s j) = E p s 0 j := by
  intro k
  induction k with
  | zero => intro _ j hj; rw [Nat.le_zero.1 hj]; exact h0
  | succ k ih =>
    intro hk j hj
    rw [List.range'_1_concat, List.foldl_append]
    simp only [List.foldl_cons, List.foldl_nil]
    have e : 1 + k = k + 1 := by omega
    rw [e]
    rcases Nat.lt_or_ge j (k + 1) with h | h
    · rw [upd_other]
      · exact ih (by omega) j (by omega)
      · rintro ⟨_, h'⟩
        have := hinj j (by omega) (k + 1) hk h'
        omega
    · have : j = k + 1 := by omega
      rw [this, upd_same, Nat.add_sub_cancel, ih (by omega) k (le_refl k), E]

theorem firstJob_eq (C : Times) (h0 : C 0 (s 0) = E p s 0 0) :
    ∀ k, (∀ i ≤ k,
      ((List.range' 1 k).foldl (fun C i => upd C i (s 0) (C (i - 1) (s 0) + p i (s 0))) C) i (s 0) = E p s i 0) ∧
      ∀ x, ((List.range' 1 k).foldl (fun C i => upd C i (s 0) (C (i - 1) (s 0) + p i (s 0))) C) 0 x = C 0 x := by
  intro k
  induction k with
  | zero => exact ⟨fun i hi => by rw [Nat.le_zero.1 hi]; exact h0, fun x => rfl⟩
  | succ k ih =>
    rw [List.range'_1_concat, List.foldl_append]
    simp only [List.foldl_cons, List.foldl_nil]
    have e : 1 + k = k + 1 := by omega
    rw [e]
    refine ⟨fun i hi => ?_, fun x => ?_⟩
    · rcases Nat.lt_or_ge i (k + 1) with h | h
      · rw [upd_other _ (by omega)]
        exact ih.1 i (by omega)
      · have : i = k + 1 := by omega
        rw [this, upd_same, Nat.add_sub_cancel, ih.1 k (le_refl k), E]
    · rw [upd_other _ (by omega)]
      exact ih.2 x

theorem otherJobs_eq {N : Nat} (hinj : ∀ a < N, ∀ b < N, s a = s b → a = b) (i : Nat) (C : Times)
    (hrow : ∀ j < N, C i (s j) = E p s i j) (h0 : C (i + 1) (s 0) = E p s (i + 1) 0) :
    ∀ k, k < N → (∀ j ≤ k, ((List.range' 1 k).foldl
      (fun C j => upd C (i + 1) (s j) (max (C (i + 1) (s (j - 1))) (C (i + 1 - 1) (s j)) + p (i + 1) (s j))) C) (i + 1) (s j) =
        E p s (i + 1) j) ∧
      ∀ i' x, i' ≠ i + 1 → ((List.range' 1 k).foldl
      (fun C j => upd C (i + 1) (s j) (max (C (i + 1) (s (j - 1))) (C (i + 1 - 1) (s j)) + p (i + 1) (s j))) C) i' x = C i' x := by
  intro k
  induction k with
  | zero => exact fun _ => ⟨fun j hj => by rw [Nat.le_zero.1 hj]; exact h0, fun _ _ _ => rfl⟩
  | succ k ih =>
    intro hk
    obtain ⟨h1, h2⟩ := ih (by omega)
    rw [List.range'_1_concat, List.foldl_append]
    simp only [List.foldl_cons, List.foldl_nil]
    have e : 1 + k = k + 1 := by omega
    rw [e]
    refine ⟨fun j hj => ?_, fun i' x hi => ?_⟩
    · rcases Nat.lt_or_ge j (k + 1) with h | h
      · rw [upd_other]
        · exact h1 j (by omega)
        · rintro ⟨_, h'⟩
          have := hinj j (by omega) (k + 1) hk h'
          omega
      · have : j = k + 1 := by omega
        simp only [Nat.add_sub_cancel] at h1 h2 ⊢
        rw [this, upd_same, h1 k (le_refl k), h2 i _ (by omega), hrow (k + 1) hk, E]
    · rw [upd_other _ (fun h => hi h.1)]
      exact h2 i' x hi

theorem rest_eq {N : Nat} (hN : 0 < N) (hinj : ∀ a < N, ∀ b < N, s a = s b → a = b) (M : Nat) (C : Times)
    (hrow : ∀ j < N, C 0 (s j) = E p s 0 j) (h0 : ∀ i < M, C i (s 0) = E p s i 0) :
    ∀ k, k < M → (∀ i ≤ k, ∀ j < N, ((List.range' 1 k).foldl (fun C i => otherJobs p s N i C) C) i (s j) = E p s i j) ∧
      ∀ i, k < i → ∀ x, ((List.range' 1 k).foldl (fun C i => otherJobs p s N i C) C) i x = C i x := by
  intro k
  induction k with
  | zero => exact fun _ => ⟨fun i hi j hj => by rw [Nat.le_zero.1 hi]; exact hrow j hj, fun _ _ _ => rfl⟩
  | succ k ih =>
    intro hk
    obtain ⟨h1, h2⟩ := ih (by omega)
    rw [List.range'_1_concat, List.foldl_append]
    simp only [List.foldl_cons, List.foldl_nil]
    have e : 1 + k = k + 1 := by omega
    rw [e]
    obtain ⟨g1, g2⟩ := otherJobs_eq (p := p) hinj k ((List.range' 1 k).foldl (fun C i => otherJobs p s N i C) C)
      (h1 k (le_refl k)) (by rw [h2 (k + 1) (by omega)]; exact h0 _ hk) (N - 1) (by omega)
    refine ⟨fun i hi j hj => ?_, fun i hi x => ?_⟩
    · rcases Nat.lt_or_ge i (k + 1) with h | h
      · exact (g2 i (s j) (by omega)).trans (h1 i (by omega) j hj)
      · have : i = k + 1 := by omega
        rw [this]
        exact g1 j (by omega)
    · exact (g2 i x (by omega)).trans (h2 i (by omega) x)

theorem completion_eq {M N : Nat} (hM : 0 < M) (hN : 0 < N) (hinj : ∀ a < N, ∀ b < N, s a = s b → a = b) {i j : Nat}
    (hi : i < M) (hj : j < N) : completionTime M N p s i (s j) = E p s i j := by
  have a1 : ∀ j < N, firstMachine p s N (upd (fun _ _ => 0) 0 (s 0) (p 0 (s 0))) 0 (s j) = E p s 0 j := fun j hj =>
    firstMachine_eq hinj _ (by rw [upd_same, E]) (N - 1) (by omega) j (by omega)
  have a2 := firstJob_eq (p := p) (s := s) _ (a1 0 hN) (M - 1)
  exact (rest_eq hN hinj M _ (fun j hj => (a2.2 (s j)).trans (a1 j hj)) (fun i hi => a2.1 i (by omega)) (M - 1)
    (by omega)).1 i (by omega) j hj

theorem E_start (i j : Nat) : p i (s j) ≤ E p s i j := by
  cases i <;> cases j <;> simp [E]

theorem E_machines (i j : Nat) : E p s i j + p (i + 1) (s j) ≤ E p s (i + 1) j := by
  cases j with
  | zero => simp [E]
  | succ j => rw [E]; have := le_max_right (E p s (i + 1) j) (E p s i (j + 1)); omega

theorem E_jobs (i j : Nat) : E p s i j + p i (s (j + 1)) ≤ E p s i (j + 1) := by
  cases i with
  | zero => simp [E]
  | succ i => rw [E]; have := le_max_left (E p s (i + 1) j) (E p s i (j + 1)); omega

theorem E_le {M N : Nat} {f : Nat → Nat → Nat} (hf : Feasible M N p s f) : ∀ i j, i < M → j < N → E p s i j ≤ f i (s j)
  | 0, 0, hi, hj => by rw [E]; exact hf.start 0 hi 0 hj
  | 0, j + 1, hi, hj => by
    rw [E]
    have := E_le hf 0 j hi (by omega)
    have := hf.jobs 0 hi j hj
    omega
  | i + 1, 0, hi, hj => by
    rw [E]
    have := E_le hf i 0 (by omega) hj
    have := hf.machines i hi 0 hj
    omega
  | i + 1, j + 1, hi, hj => by
    rw [E]
    have h1 := E_le hf i (j + 1) (by omega) hj
    have h2 := E_le hf (i + 1) j hi (by omega)
    have h3 := hf.machines i hi (j + 1) hj
    have h4 := hf.jobs (i + 1) hi j hj
    rcases max_choice (E p s (i + 1) j) (E p s i (j + 1)) with h | h <;> rw [h] <;> omega

theorem E_mono_job (i : Nat) {j k : Nat} (h : j ≤ k) : E p s i j ≤ E p s i k := by
  induction k with
  | zero => rw [Nat.le_zero.1 h]
  | succ k ih =>
    rcases Nat.lt_or_ge j (k + 1) with h' | h'
    · have := ih (by omega); have := E_jobs (p := p) (s := s) i k; omega
    · rw [show j = k + 1 by omega]

theorem E_mono_machine (j : Nat) {i k : Nat} (h : i ≤ k) : E p s i j ≤ E p s k j := by
  induction k with
  | zero => rw [Nat.le_zero.1 h]
  | succ k ih =>
    rcases Nat.lt_or_ge i (k + 1) with h' | h'
    · have := ih (by omega); have := E_machines (p := p) (s := s) k j; omega
    · rw [show i = k + 1 by omega]

end Completion

/-- The difference with the due date, for numbers below 2^31. -/
theorem late_eq {C d : Nat} (hC : C < 2 ^ 31) (hd : d < 2 ^ 31) : late C d = C - d := by
  unfold late
  dsimp only
  split <;> omega

theorem eval_perm {M N : Nat} {p : Times} {d : Nat → Nat} {seq : List Nat} (hM : 0 < M) (hN : 0 < N)
    (hs : seq.Perm (List.range N)) : eval M N p d seq = .ok (E p (fun j => seq.getD j 0) (M - 1) (N - 1),
      ((List.range N).map fun j => late (E p (fun j => seq.getD j 0) (M - 1) j) (d (seq.getD j 0))).sum) ∧
      seq.length = N ∧ (∀ a < N, ∀ b < N, seq.getD a 0 = seq.getD b 0 → a = b) := by
  have hl : seq.length = N := by rw [hs.length_eq, List.length_range]
  have hnd : seq.Nodup := hs.nodup_iff.2 List.nodup_range
  have hinj : ∀ a < N, ∀ b < N, seq.getD a 0 = seq.getD b 0 → a = b := by
    intro a ha b hb h
    rw [List.getD_eq_getElem _ _ (by omega), List.getD_eq_getElem _ _ (by omega)] at h
    exact (List.Nodup.getElem_inj_iff hnd).1 h
  refine ⟨?_, hl, hinj⟩
  unfold eval
  rw [if_neg]
  · dsimp only
    rw [completion_eq hM hN hinj (by omega) (by omega)]
    congr 2
    congr 1
    apply List.map_congr_left
    intro j hj
    rw [completion_eq hM hN hinj (by omega) (List.mem_range.1 hj)]
  · rintro (h | h | h | h)
    · omega
    · omega
    · omega
    · rw [List.any_eq_true] at h
      obtain ⟨x, hx, h⟩ := h
      have := List.mem_range.1 (hs.subset (List.mem_of_mem_take hx))
      simp at h
      omega

/-- **C337** (schedule).  For a permutation of the jobs the objective values are makespan and total tardiness of the best
schedule of this sequence: there are finishing times, respecting machines and jobs, not later than those of any other
schedule of the sequence for any operation, such that the first value is the last finishing time on any machine and the
second the sum of the delays on the last machine. -/
theorem C337_schedule (M N : Nat) (p : Nat → Nat → Nat) (d : Nat → Nat) (seq : List Nat) (hM : 0 < M) (hN : 0 < N)
    (hs : seq.Perm (List.range N)) : ∃ f : Nat → Nat → Nat, ∃ makespan tardiness : Nat,
      eval M N p d seq = .ok (makespan, tardiness) ∧
      Feasible M N p (fun j => seq.getD j 0) f ∧
      (∀ g, Feasible M N p (fun j => seq.getD j 0) g → ∀ i < M, ∀ k < N, f i k ≤ g i k) ∧
      (∀ i < M, ∀ k < N, f i k ≤ makespan) ∧ (∃ i < M, ∃ k < N, f i k = makespan) ∧
      ((∀ k < N, d k < 2 ^ 31) → makespan < 2 ^ 31 →
        tardiness = ((List.range N).map fun k => f (M - 1) k - d k).sum) := by
  obtain ⟨he, hl, hinj⟩ := eval_perm (p := p) (d := d) hM hN hs
  set s := fun j => seq.getD j 0 with hsdef
  have hidx : ∀ k < N, ∃ j < N, s j = k := by
    intro k hk
    have : k ∈ seq := hs.symm.subset (List.mem_range.2 hk)
    obtain ⟨j, hj, h⟩ := List.getElem_of_mem this
    exact ⟨j, by omega, by rw [hsdef]; dsimp only; rw [List.getD_eq_getElem _ _ hj, h]⟩
  have hrange : ∀ j < N, s j < N := by
    intro j hj
    rw [hsdef]
    dsimp only
    rw [List.getD_eq_getElem _ _ (by omega)]
    exact List.mem_range.1 (hs.subset (List.getElem_mem _))
  have hC : ∀ i < M, ∀ j < N, completionTime M N p s i (s j) = E p s i j := fun i hi j hj =>
    completion_eq hM hN hinj hi hj
  refine ⟨completionTime M N p s, _, _, he, ⟨?_, ?_, ?_⟩, ?_, ?_, ?_, ?_⟩
  · intro i hi j hj
    rw [hC i hi j hj]; exact E_start i j
  · intro i hi j hj
    rw [hC i (by omega) j hj, hC (i + 1) hi j hj]; exact E_machines i j
  · intro i hi j hj
    rw [hC i hi j (by omega), hC i hi (j + 1) hj]; exact E_jobs i j
  · intro g hg i hi k hk
    obtain ⟨j, hj, rfl⟩ := hidx k hk
    rw [hC i hi j hj]
    exact E_le hg i j hi hj
  · intro i hi k hk
    obtain ⟨j, hj, rfl⟩ := hidx k hk
    rw [hC i hi j hj]
    exact (E_mono_job i (show j ≤ N - 1 by omega)).trans (E_mono_machine (N - 1) (show i ≤ M - 1 by omega))
  · exact ⟨M - 1, by omega, s (N - 1), hrange _ (by omega), hC _ (by omega) _ (by omega)⟩
  · intro hd hm
    have hb : ∀ j < N, E p s (M - 1) j < 2 ^ 31 := fun j hj =>
      lt_of_le_of_lt (E_mono_job (M - 1) (show j ≤ N - 1 by omega)) hm
    have h1 : (List.range N).map (fun j => late (E p s (M - 1) j) (d (seq.getD j 0))) =
        (List.range N).map (fun j => (fun k => completionTime M N p s (M - 1) k - d k) (s j)) := by
      apply List.map_congr_left
      intro j hj
      have hj := List.mem_range.1 hj
      dsimp only
      rw [hC (M - 1) (by omega) j hj]
      exact late_eq (hb j hj) (hd _ (hrange j hj))
    rw [h1]
    have h2 : (List.range N).map s = seq := by
      apply List.ext_getElem
      · simp [hl]
      · intro n h1 h2
        simp only [List.getElem_map, List.getElem_range, hsdef]
        exact List.getD_eq_getElem _ _ h2
    have h3 : (List.range N).map (fun j => (fun k => completionTime M N p s (M - 1) k - d k) (s j)) =
        seq.map (fun k => completionTime M N p s (M - 1) k - d k) := by
      conv_rhs => rw [← h2]
      rw [List.map_map]
      rfl
    rw [h3]
    exact (hs.map _).sum_eq

/-- **C337** (large delays).  A delay of 2^31 or more counts as none at all. -/
theorem C337_large_delay (C d : Nat) (hC : C < 2 ^ 32) (h : d + 2 ^ 31 ≤ C) : late C d = 0 := by
  unfold late
  dsimp only
  split <;> omega

/-- **C337** (negative due dates).  A due date of `-k`, which becomes 2^32 - k, adds `k` to the delay. -/
theorem C337_negative_due (C k : Nat) (hk : 0 < k) (h : C + k < 2 ^ 31) : late C (2 ^ 32 - k) = C + k := by
  unfold late
  dsimp only
  split <;> omega

/-- **C337** (undefined).  Without machines, without jobs or for a sequence that is too short the evaluation is undefined. -/
theorem C337_undefined (M N : Nat) (p : Nat → Nat → Nat) (d : Nat → Nat) (seq : List Nat)
    (h : M = 0 ∨ N = 0 ∨ seq.length < N ∨ ∃ x ∈ seq.take N, N ≤ x) : eval M N p d seq = .error .ub := by
  unfold eval
  rw [if_pos]
  rcases h with h | h | h | ⟨x, hx, h⟩
  · exact .inl h
  · exact .inr (.inl h)
  · exact .inr (.inr (.inl h))
  · exact .inr (.inr (.inr (List.any_eq_true.2 ⟨x, hx, by simpa using h⟩)))

/-- Two machines, three jobs. -/
example : eval 2 3 (fun i j => ([[3, 1, 2], [2, 4, 1]].getD i []).getD j 0) (fun j => [4, 5, 20].getD j 0) [1, 0, 2] =
    .ok (8, 3) := by decide +kernel

/-! ### C338: crossover -/

/-- What an offspring is made of: the first parent outside the positions strictly between `a` and `b`, and there the other
jobs in their order in the second parent. -/
def IsOffspring (a b : Nat) (par1 par2 child : List Nat) : Prop :=
  child = par1.take (a + 1) ++ par2.filter (fun v => decide (v ∈ (par1.take b).drop (a + 1))) ++ par1.drop b

theorem markAll_eq : ∀ (vs : List Nat) (taken : List Bool), (∀ v ∈ vs, v < taken.length) →
    ∃ taken', markAll vs taken = .ok taken' ∧ taken'.length = taken.length ∧
      ∀ v < taken.length, taken'[v]? = some (decide (v ∈ vs) || taken.getD v false)
  | [], taken, _ => ⟨taken, rfl, rfl, fun v hv => by simp [hv]⟩
  | x :: vs, taken, h => by
    have hx : x < taken.length := h x (by simp)
    obtain ⟨t', h1, h2, h3⟩ := markAll_eq vs (taken.set x true) (fun v hv => by
      rw [List.length_set]; exact h v (by simp [hv]))
    rw [List.length_set] at h2 h3
    refine ⟨t', ?_, h2, fun v hv => ?_⟩
    · unfold markAll wr
      rw [if_pos hx]
      exact h1
    · rw [h3 v hv]
      congr 1
      rw [List.getD_eq_getElem _ _ (by rw [List.length_set]; exact hv), List.getD_eq_getElem _ _ hv, List.getElem_set]
      by_cases hxv : x = v
      · subst hxv; simp
      · have : ¬ v = x := fun e => hxv e.symm
        simp [hxv, this]

theorem fill_eq (taken : List Bool) (b : Nat) : ∀ (vs : List Nat) (i : Nat) (res : List Nat), i ≤ b → b ≤ res.length →
    (∀ v ∈ vs, v < taken.length) → (vs.filter fun v => !taken.getD v false).length = b - i →
    fill taken b i res vs = .ok (res.take i ++ (vs.filter fun v => !taken.getD v false) ++ res.drop b)
  | [], i, res, hi, hb, _, hc => by
    have : i = b := by simp at hc; omega
    subst this
    simp [fill]
  | v :: vs, i, res, hi, hb, ht, hc => by
    unfold fill
    have hv : v < taken.length := ht v (by simp)
    by_cases h : i < b
    · rw [if_pos h]
      have hrd : rd taken v = .ok (taken.getD v false) := by
        unfold rd; rw [List.getElem?_eq_getElem hv, List.getD_eq_getElem _ _ hv]
      rw [hrd]
      cases hb' : taken.getD v false with
      | true =>
        have hf : (v :: vs).filter (fun v => !taken.getD v false) = vs.filter (fun v => !taken.getD v false) := by
          rw [List.filter_cons]; simp only [hb', Bool.not_true, Bool.false_eq_true, if_false]
        rw [hf] at hc ⊢
        exact fill_eq taken b vs i res hi hb (fun w hw => ht w (by simp [hw])) hc
      | false =>
        have hf : (v :: vs).filter (fun v => !taken.getD v false) = v :: vs.filter (fun v => !taken.getD v false) := by
          rw [List.filter_cons]; simp only [hb', Bool.not_false, if_true]
        rw [hf] at hc ⊢
        rw [List.length_cons] at hc
        dsimp only
        have hwr : wr res i v = .ok (res.set i v) := by unfold wr; rw [if_pos (by omega)]
        rw [hwr]
        dsimp only
        rw [fill_eq taken b vs (i + 1) (res.set i v) (by omega) (by rw [List.length_set]; exact hb)
          (fun w hw => ht w (by simp [hw])) (by omega)]
        congr 1
        have e1 : (res.set i v).take (i + 1) = res.take i ++ [v] := by
          rw [List.take_add_one, List.take_set_of_le (le_refl i), List.getElem?_set_self (by omega)]
          rfl
        have e2 : (res.set i v).drop b = res.drop b := List.drop_set_of_lt (by omega)
        rw [e1, e2]
        simp
    · have hib : i = b := by omega
      rw [if_neg h]
      subst hib
      have : (v :: vs).filter (fun v => !taken.getD v false) = [] := List.length_eq_zero_iff.1 (by omega)
      rw [this]
      simp

theorem generateOffspring_eq {n : Nat} {x y : List Nat} (hx : x.Perm (List.range n)) (hy : y.Perm (List.range n))
    (p1 p2 : Nat) (h1 : p1 < n) (h2 : p2 < n) (hne : min p1 p2 < max p1 p2) :
    ∃ o, generateOffspring x y p1 p2 = .ok o ∧ IsOffspring (min p1 p2) (max p1 p2) x y o ∧ o.Perm (List.range n) := by
  have hlx : x.length = n := by rw [hx.length_eq, List.length_range]
  have hndx : x.Nodup := hx.nodup_iff.2 List.nodup_range
  unfold generateOffspring
  dsimp only
  have hb2 : max p1 p2 < n := by omega
  generalize min p1 p2 = a at *
  generalize max p1 p2 = b at *
  have hxn : ∀ v ∈ x, v < n := fun v hv => List.mem_range.1 (hx.subset hv)
  have hrl : (List.replicate x.length false).length = n := by rw [List.length_replicate, hlx]
  obtain ⟨t1, e1, l1, g1⟩ := markAll_eq (x.take (a + 1)) (List.replicate x.length false)
    (fun v hv => by rw [hrl]; exact hxn v (List.mem_of_mem_take hv))
  rw [hrl] at l1 g1
  obtain ⟨t2, e2, l2, g2⟩ := markAll_eq (x.drop b) t1 (fun v hv => by rw [l1]; exact hxn v (List.mem_of_mem_drop hv))
  rw [l1] at l2 g2
  rw [e1]
  dsimp only
  rw [e2]
  dsimp only
  have hsplit : x = x.take (a + 1) ++ ((x.take b).drop (a + 1) ++ x.drop b) := by
    have hab : x.take (a + 1) = (x.take b).take (a + 1) := by rw [List.take_take]; congr 1; omega
    rw [← List.append_assoc, hab, List.take_append_drop, List.take_append_drop]
  have hmid : ∀ v < n, (!t2.getD v false) = decide (v ∈ (x.take b).drop (a + 1)) := by
    intro v hv
    have hT : t2.getD v false = (decide (v ∈ x.drop b) || decide (v ∈ x.take (a + 1))) := by
      rw [List.getD_eq_getElem?_getD, g2 v hv, Option.getD_some, List.getD_eq_getElem?_getD, g1 v hv, Option.getD_some]
      rw [List.getD_eq_getElem _ _ (by rw [hrl]; exact hv), List.getElem_replicate, Bool.or_false]
    rw [hT]
    have hmem : v ∈ x := hx.symm.subset (List.mem_range.2 hv)
    have hnd' := hndx
    rw [hsplit] at hmem hnd'
    rw [List.nodup_append] at hnd'
    obtain ⟨_, hnd2, hdis⟩ := hnd'
    rw [List.nodup_append] at hnd2
    obtain ⟨_, _, hdis2⟩ := hnd2
    by_cases hm : v ∈ (x.take b).drop (a + 1)
    · have n1 : v ∉ x.drop b := fun h => hdis2 v hm v h rfl
      have n2 : v ∉ x.take (a + 1) := fun h => hdis v h v (List.mem_append.2 (.inl hm)) rfl
      simp [hm, n1, n2]
    · rw [List.mem_append, List.mem_append] at hmem
      rcases hmem with h | h | h
      · simp [hm, h]
      · exact absurd h hm
      · simp [hm, h]
  have hfil : y.filter (fun v => !t2.getD v false) = y.filter (fun v => decide (v ∈ (x.take b).drop (a + 1))) := by
    apply List.filter_congr
    intro v hv
    exact hmid v (List.mem_range.1 (hy.subset hv))
  have hxf : x.filter (fun v => decide (v ∈ (x.take b).drop (a + 1))) = (x.take b).drop (a + 1) := by
    have hnd' := hndx
    rw [hsplit] at hnd'
    rw [List.nodup_append] at hnd'
    obtain ⟨_, hnd2, hdis⟩ := hnd'
    rw [List.nodup_append] at hnd2
    obtain ⟨_, _, hdis2⟩ := hnd2
    generalize hm : (x.take b).drop (a + 1) = mid at *
    rw [hsplit, List.filter_append, List.filter_append]
    have f1 : (x.take (a + 1)).filter (fun v => decide (v ∈ mid)) = [] := by
      rw [List.filter_eq_nil_iff]
      intro v hv h
      exact hdis v hv v (List.mem_append.2 (.inl (by simpa using h))) rfl
    have f2 : (x.drop b).filter (fun v => decide (v ∈ mid)) = [] := by
      rw [List.filter_eq_nil_iff]
      intro v hv h
      exact hdis2 v (by simpa using h) v hv rfl
    have f3 : mid.filter (fun v => decide (v ∈ mid)) = mid := by
      rw [List.filter_eq_self]; intro v hv; simpa using hv
    rw [f1, f2, f3]
    simp
  have hperm : (y.filter (fun v => decide (v ∈ (x.take b).drop (a + 1)))).Perm ((x.take b).drop (a + 1)) := by
    have := (hy.trans hx.symm).filter (fun v => decide (v ∈ (x.take b).drop (a + 1)))
    rw [hxf] at this
    exact this
  have hlen : ((x.take b).drop (a + 1)).length = b - (a + 1) := by
    rw [List.length_drop, List.length_take]; omega
  refine ⟨_, fill_eq t2 b y (a + 1) x (by omega) (by omega)
    (fun v hv => by rw [l2]; exact List.mem_range.1 (hy.subset hv))
    (by rw [hfil, hperm.length_eq, hlen]), by rw [hfil]; rfl, ?_⟩
  rw [hfil]
  refine List.Perm.trans ?_ hx
  conv_rhs => rw [hsplit]
  rw [List.append_assoc]
  exact List.Perm.append_left _ (List.Perm.append_right _ hperm)

theorem drawPoints_spec (r : Nat → Nat) (n : Nat) : ∀ (fuel t : Nat),
    drawPoints r n fuel t = .error .fuel ∨ ∃ p1 p2, drawPoints r n fuel t = .ok (p1, p2) ∧ p1 < n ∧ p2 < n ∧
      min p1 p2 + 3 ≤ max p1 p2
  | 0, t => .inl rfl
  | fuel + 1, t => by
    unfold drawPoints
    dsimp only
    by_cases h : max (rnd r t n) (rnd r (t + 1) n) - min (rnd r t n) (rnd r (t + 1) n) ≤ 2
    · rw [if_pos h]
      exact drawPoints_spec r n fuel (t + 2)
    · rw [if_neg h]
      have hn : n ≠ 0 := by
        rintro rfl
        apply h
        simp [rnd]
      refine .inr ⟨_, _, rfl, ?_, ?_, by omega⟩
      · unfold rnd; rw [if_neg hn]; exact Nat.mod_lt _ (by omega)
      · unfold rnd; rw [if_neg hn]; exact Nat.mod_lt _ (by omega)

/-- **C338** (offspring).  Crossing two permutations of the same jobs either is still drawing points, or gives two
permutations: each keeps its own parent up to the first point and from the second point on, the points being at least three
positions apart, and has the other jobs in the order of the other parent.  The value returned says whether anything
changed; then both individuals lose their objective vectors, otherwise neither. -/
theorem C338_offspring (r : Nat → Nat) (fuel n : Nat) (x y : Sol) (hx : x.seq.Perm (List.range n))
    (hy : y.seq.Perm (List.range n)) :
    crossover r fuel x y = .error .fuel ∨ ∃ (x' y' : Sol) (changed : Bool), ∃ a b : Nat,
      crossover r fuel x y = .ok (x', y', changed) ∧ a + 3 ≤ b ∧ b < n ∧
      IsOffspring a b x.seq y.seq x'.seq ∧ IsOffspring a b y.seq x.seq y'.seq ∧
      x'.seq.Perm (List.range n) ∧ y'.seq.Perm (List.range n) ∧
      (changed = true ↔ x'.seq ≠ x.seq ∨ y'.seq ≠ y.seq) ∧
      (changed = true → x'.valid = false ∧ y'.valid = false) ∧ (changed = false → x' = x ∧ y' = y) := by
  have hlx : x.seq.length = n := by rw [hx.length_eq, List.length_range]
  have hly : y.seq.length = n := by rw [hy.length_eq, List.length_range]
  unfold crossover
  rw [hlx, hly, min_self]
  rcases drawPoints_spec r n fuel 0 with h | ⟨p1, p2, h, h1, h2, h3⟩
  · rw [h]; exact .inl rfl
  · right
    rw [h]
    obtain ⟨o1, e1, s1, q1⟩ := generateOffspring_eq hx hy p1 p2 h1 h2 (by omega)
    obtain ⟨o2, e2, s2, q2⟩ := generateOffspring_eq hy hx p1 p2 h1 h2 (by omega)
    dsimp only
    rw [e1]
    dsimp only
    rw [e2]
    dsimp only
    by_cases hc : x.seq ≠ o1 ∨ y.seq ≠ o2
    · rw [if_pos hc]
      refine ⟨_, _, true, min p1 p2, max p1 p2, rfl, h3, by omega, s1, s2, q1, q2, ?_, fun _ => ⟨rfl, rfl⟩, by simp⟩
      simp only [true_iff, Sol.value]
      rcases hc with hc | hc
      · exact .inl (fun e => hc e.symm)
      · exact .inr (fun e => hc e.symm)
    · rw [if_neg hc]
      push Not at hc
      rw [← hc.1] at s1
      rw [← hc.2] at s2
      exact ⟨_, _, false, min p1 p2, max p1 p2, rfl, h3, by omega, s1, s2, hx, hy, by simp, by simp, fun _ => ⟨rfl, rfl⟩⟩

/-- **C338** (few jobs).  With fewer than four jobs the crossover never ends, whatever is drawn. -/
theorem C338_never_ends (r : Nat → Nat) (fuel : Nat) (x y : Sol) (h : min x.seq.length y.seq.length ≤ 3) :
    crossover r fuel x y = .error .fuel := by
  have key : ∀ fuel t, drawPoints r (min x.seq.length y.seq.length) fuel t = .error .fuel := by
    intro fuel t
    rcases drawPoints_spec r (min x.seq.length y.seq.length) fuel t with h' | ⟨p1, p2, _, h1, h2, h3⟩
    · exact h'
    · omega
  unfold crossover
  rw [key]

/-- **C338** (ends).  With four jobs or more, two points far enough apart end it. -/
theorem C338_ends (r : Nat → Nat) (n : Nat) (x y : Sol) (hx : x.seq.Perm (List.range n)) (hy : y.seq.Perm (List.range n))
    (k : Nat) (hk : 3 ≤ max (rnd r (2 * k) n) (rnd r (2 * k + 1) n) - min (rnd r (2 * k) n) (rnd r (2 * k + 1) n)) :
    crossover r (k + 1) x y ≠ .error .fuel := by
  have key : ∀ j m, m + j = k → drawPoints r n (j + 1) (2 * m) ≠ .error .fuel := by
    intro j
    induction j with
    | zero =>
      intro m hm
      have : m = k := by omega
      subst this
      unfold drawPoints
      dsimp only
      rw [if_neg (by omega)]
      simp
    | succ j ih =>
      intro m hm
      unfold drawPoints
      dsimp only
      split
      · have := ih (m + 1) (by omega)
        rw [show 2 * m + 2 = 2 * (m + 1) by omega]
        exact this
      · simp
  have hlx : x.seq.length = n := by rw [hx.length_eq, List.length_range]
  have hly : y.seq.length = n := by rw [hy.length_eq, List.length_range]
  intro h
  rcases drawPoints_spec r n (k + 1) 0 with h' | ⟨p1, p2, h', h1, h2, h3⟩
  · exact key k 0 (by omega) h'
  · unfold crossover at h
    rw [hlx, hly, min_self, h'] at h
    obtain ⟨o1, e1, -, -⟩ := generateOffspring_eq hx hy p1 p2 h1 h2 (by omega)
    obtain ⟨o2, e2, -, -⟩ := generateOffspring_eq hy hx p1 p2 h1 h2 (by omega)
    dsimp only at h
    rw [e1] at h
    dsimp only at h
    rw [e2] at h
    dsimp only at h
    split at h <;> exact absurd h (by simp)

/-- Points 1 and 5 of six jobs. -/
example : crossover (fun t => [1, 5].getD t 0) 1 ⟨[0, 1, 2, 3, 4, 5], true⟩ ⟨[5, 4, 3, 2, 1, 0], true⟩ =
    .ok (⟨[0, 1, 4, 3, 2, 5], false⟩, ⟨[5, 4, 1, 2, 3, 0], false⟩, true) := by decide +kernel

/-! ### C339: reading instances -/

/-- A text of digits for the number `n`. -/
def Num (t : Text) (n : Nat) : Prop := t ≠ [] ∧ (∀ c ∈ t, c.isDigit = true) ∧ digitsValue t = n ∧ n < 2 ^ 31

/-- A line of numbers separated by blanks. -/
inductive TimesLine : List Nat → Text → Prop
  | blanks (k : Nat) : TimesLine [] (List.replicate k ' ')
  | last (k : Nat) (t : Text) (n : Nat) : Num t n → TimesLine [n] (List.replicate k ' ' ++ t)
  | cons (k : Nat) (t : Text) (n : Nat) (ns : List Nat) (rest : Text) : Num t n → TimesLine ns rest →
      TimesLine (n :: ns) (List.replicate k ' ' ++ (t ++ ' ' :: rest))

/-- The three lines of a job: its index, its due date and its processing times. -/
structure JobText where
  index : Text
  due : Text
  times : Text

/-- The lines are those of a job with this due date and these processing times. -/
def IsJob (j : JobText) (v : Nat × List Nat) : Prop := '\n' ∉ j.index ∧ Num j.due v.1 ∧ TimesLine v.2 j.times

/-- The lines of the jobs, each ended by a newline. -/
def jobsText : List JobText → Text
  | [] => []
  | j :: J => j.index ++ '\n' :: (j.due ++ '\n' :: (j.times ++ '\n' :: jobsText J))

/-- A whole file: numbers of jobs and of machines, a line that is not used, then the rest. -/
def fileText (tN tM seed rest : Text) : Text := tN ++ '\n' :: (tM ++ '\n' :: (seed ++ '\n' :: rest))

theorem atou_num {t : Text} {n : Nat} (h : Num t n) (rest : Text) (hr : ∀ c ∈ rest.head?, c.isDigit = false) :
    atou (t ++ rest) = n := by
  obtain ⟨h1, h2, h3, h4⟩ := h
  have := Paradiseo.Factory.C266_truncated t rest h1 h2 hr [] []
  have e : atoi (t ++ rest) = (digitsValue t : Int) := by
    have : ((atoi (t ++ rest) : Int) : ℚ) = ((digitsValue t : Int) : ℚ) := by rw [Int.cast_natCast]; exact this
    exact_mod_cast this
  unfold atou Paradiseo.Factory.toUnsigned
  rw [e, h3]
  omega

theorem atou_num' {t : Text} {n : Nat} (h : Num t n) : atou t = n := by
  have := atou_num h [] (by simp)
  rwa [List.append_nil] at this

theorem Num.notMem {t : Text} {n : Nat} (h : Num t n) {c : Char} (hc : c.isDigit = false) : c ∉ t := by
  intro hm
  have := h.2.1 c hm
  rw [hc] at this
  exact absurd this (by simp)

theorem TimesLine.noNewline {ns : List Nat} {l : Text} (h : TimesLine ns l) : '\n' ∉ l := by
  induction h with
  | blanks k => intro h; exact absurd (List.eq_of_mem_replicate h) (by decide)
  | last k t n hn =>
    intro h
    rcases List.mem_append.1 h with h | h
    · exact absurd (List.eq_of_mem_replicate h) (by decide)
    · exact hn.notMem (by decide) h
  | cons k t n ns rest hn _ ih =>
    intro h
    rcases List.mem_append.1 h with h | h
    · exact absurd (List.eq_of_mem_replicate h) (by decide)
    · rcases List.mem_append.1 h with h | h
      · exact hn.notMem (by decide) h
      · rcases List.mem_cons.1 h with h | h
        · exact absurd h (by decide)
        · exact ih h

theorem dropWhile_notMem (l r : Text) (c : Char) (h : c ∉ l) : (l ++ c :: r).dropWhile (· ≠ c) = c :: r := by
  induction l with
  | nil => simp
  | cons x l ih =>
    have hx : x ≠ c := fun e => h (by simp [e])
    rw [List.cons_append, List.dropWhile_cons, if_pos (by simpa using hx)]
    exact ih (fun hm => h (by simp [hm]))

theorem takeWhile_notMem (l r : Text) (c : Char) (h : c ∉ l) : (l ++ c :: r).takeWhile (· ≠ c) = l := by
  induction l with
  | nil => simp
  | cons x l ih =>
    have hx : x ≠ c := fun e => h (by simp [e])
    rw [List.cons_append, List.takeWhile_cons, if_pos (by simpa using hx), ih (fun hm => h (by simp [hm]))]

theorem dropWhile_all (l : Text) (c : Char) (h : c ∉ l) : l.dropWhile (· ≠ c) = [] := by
  induction l with
  | nil => rfl
  | cons x l ih =>
    have hx : x ≠ c := fun e => h (by simp [e])
    rw [List.dropWhile_cons, if_pos (by simpa using hx), ih (fun hm => h (by simp [hm]))]

theorem takeWhile_all (l : Text) (c : Char) (h : c ∉ l) : l.takeWhile (· ≠ c) = l := by
  induction l with
  | nil => rfl
  | cons x l ih =>
    have hx : x ≠ c := fun e => h (by simp [e])
    rw [List.takeWhile_cons, if_pos (by simpa using hx), ih (fun hm => h (by simp [hm]))]

theorem getline_line (l r b : Text) (h : '\n' ∉ l) : getline ⟨l ++ '\n' :: r, true⟩ b = (⟨r, true⟩, l) := by
  unfold getline
  dsimp only
  rw [if_pos rfl, dropWhile_notMem l r '\n' h, takeWhile_notMem l r '\n' h]

theorem getline_last (l b : Text) (h : '\n' ∉ l) : getline ⟨l, true⟩ b = (⟨[], false⟩, l) := by
  unfold getline
  dsimp only
  rw [if_pos rfl, dropWhile_all l '\n' h]

theorem getline_bad (r b : Text) : getline ⟨r, false⟩ b = (⟨r, false⟩, b) := rfl

theorem skipBlanks_replicate (k : Nat) (t : Text) : skipBlanks (List.replicate k ' ' ++ t) = skipBlanks t := by
  unfold skipBlanks
  have : (List.replicate k ' ' ++ t).dropWhile (· = ' ') = t.dropWhile (· = ' ') := by
    induction k with
    | zero => rfl
    | succ k ih => rw [List.replicate_succ, List.cons_append, List.dropWhile_cons, if_pos (by simp), ih]
  rw [this]

theorem skipBlanks_num {t : Text} {n : Nat} (h : Num t n) (rest : Text) : skipBlanks (t ++ rest) = some (t ++ rest) := by
  cases t with
  | nil => exact absurd rfl h.1
  | cons c t =>
    have hc : c ≠ ' ' := by
      rintro rfl
      exact h.notMem (c := ' ') (by decide) (by simp)
    unfold skipBlanks
    rw [List.cons_append, List.dropWhile_cons, if_neg (by simpa using hc)]

theorem readTimes_none (m : Nat) (h : 0 < m) : readTimes m none = .error .thrown := by
  cases m with
  | zero => omega
  | succ m => rfl

theorem readTimes_line {ns : List Nat} {l : Text} (h : TimesLine ns l) : ∀ m,
    readTimes m (skipBlanks l) = if m ≤ ns.length then .ok (ns.take m) else .error .thrown := by
  induction h with
  | blanks k =>
    intro m
    have : skipBlanks (List.replicate k ' ') = none := by
      have := skipBlanks_replicate k []
      rw [List.append_nil] at this
      rw [this]
      rfl
    rw [this]
    cases m with
    | zero => rfl
    | succ m => rfl
  | last k t n hn =>
    intro m
    have e := skipBlanks_num hn []
    rw [List.append_nil] at e
    rw [skipBlanks_replicate, e]
    have hsp : ' ' ∉ t := hn.notMem (by decide)
    cases m with
    | zero => rfl
    | succ m =>
      unfold readTimes
      rw [dropWhile_all t ' ' hsp, takeWhile_all t ' ' hsp, atou_num' hn]
      have : skipBlanks [] = none := rfl
      rw [this]
      cases m with
      | zero => rfl
      | succ m => rw [readTimes_none _ (by omega)]; simp
  | cons k t n ns rest hn _ ih =>
    intro m
    rw [skipBlanks_replicate, skipBlanks_num hn]
    have hsp : ' ' ∉ t := hn.notMem (by decide)
    cases m with
    | zero => rfl
    | succ m =>
      unfold readTimes
      rw [dropWhile_notMem t rest ' ' hsp, takeWhile_notMem t rest ' ' hsp, atou_num' hn]
      have : skipBlanks (' ' :: rest) = skipBlanks rest := skipBlanks_replicate 1 rest
      rw [this, ih m]
      by_cases hm : m ≤ ns.length
      · rw [if_pos hm, if_pos (by simp; omega)]; rfl
      · rw [if_neg hm, if_neg (by simp; omega)]

/-- The number at the beginning of a line, after blanks. -/
theorem atou_line {ns : List Nat} {l : Text} (h : TimesLine ns l) (hne : ns ≠ []) : atou l = ns.headD 0 := by
  have hb : ∀ k (t : Text), atou (List.replicate k ' ' ++ t) = atou t := by
    intro k t
    unfold atou
    congr 1
    unfold atoi
    have : (List.replicate k ' ' ++ t).dropWhile Char.isWhitespace = t.dropWhile Char.isWhitespace := by
      induction k with
      | zero => rfl
      | succ k ih => rw [List.replicate_succ, List.cons_append, List.dropWhile_cons, if_pos (by decide), ih]
    rw [this]
  cases h with
  | blanks k => exact absurd rfl hne
  | last k t n hn => rw [hb, atou_num' hn]; rfl
  | cons k t n ns rest hn _ => rw [hb, atou_num hn _ (by simp)]; rfl

theorem readJobs_all (M : Nat) {J : List JobText} {V : List (Nat × List Nat)} (h : List.Forall₂ IsJob J V)
    (hM : ∀ v ∈ V, M ≤ v.2.length) (tail : Text) (n : Nat) : ∀ b : Text, ∃ b' : Text,
      readJobs M (J.length + n) ⟨jobsText J ++ tail, true⟩ b =
        match readJobs M n ⟨tail, true⟩ b' with
        | .error e => .error e
        | .ok l => .ok (V.map (fun v => (v.1, v.2.take M)) ++ l) := by
  induction h with
  | nil =>
    intro b
    refine ⟨b, ?_⟩
    rw [List.length_nil, Nat.zero_add]
    show readJobs M n ⟨tail, true⟩ b = _
    cases readJobs M n ⟨tail, true⟩ b <;> rfl
  | @cons j v J V hj _ ih =>
    intro b
    obtain ⟨h1, h2, h3⟩ := hj
    obtain ⟨b', hb⟩ := ih (fun w hw => hM w (by simp [hw])) j.times
    refine ⟨b', ?_⟩
    generalize readJobs M n ⟨tail, true⟩ b' = R at hb ⊢
    rw [List.length_cons, show J.length + 1 + n = (J.length + n) + 1 by omega]
    unfold readJobs
    have e : jobsText (j :: J) ++ tail = j.index ++ '\n' :: (j.due ++ '\n' :: (j.times ++ '\n' :: (jobsText J ++ tail))) := by
      simp [jobsText]
    rw [e, getline_line _ _ _ h1]
    dsimp only
    rw [getline_line _ _ _ (h2.notMem (by decide))]
    dsimp only
    rw [getline_line _ _ _ h3.noNewline]
    dsimp only
    rw [readTimes_line h3, if_pos (hM v (by simp)), atou_num' h2]
    dsimp only
    rw [hb]
    cases R <;> rfl

theorem parse_head (tN tM seed rest : Text) {N M : Nat} (hN : Num tN N) (hM : Num tM M) (hs : '\n' ∉ seed) :
    parse (fileText tN tM seed rest) =
      match readJobs M N ⟨rest, true⟩ seed with
      | .error e => .error e
      | .ok jobs => .ok ⟨M, N, jobs⟩ := by
  unfold parse fileText
  rw [getline_line _ _ _ (hN.notMem (by decide))]
  dsimp only
  rw [getline_line _ _ _ (hM.notMem (by decide))]
  dsimp only
  rw [getline_line _ _ _ hs]
  dsimp only
  rw [atou_num' hN, atou_num' hM]
  rfl

/-- **C339** (read).  A file in the format of the benchmarks gives the numbers it holds: the announced number of jobs with
their due dates and the first `M` processing times of each, whatever follows in the file. -/
theorem C339_read (tN tM seed extra : Text) (M : Nat) (J : List JobText) (V : List (Nat × List Nat)) (hN : Num tN V.length)
    (hM : Num tM M) (hs : '\n' ∉ seed) (h : List.Forall₂ IsJob J V) (hl : ∀ v ∈ V, M ≤ v.2.length) :
    parse (fileText tN tM seed (jobsText J ++ extra)) = .ok ⟨M, V.length, V.map fun v => (v.1, v.2.take M)⟩ := by
  obtain ⟨b', hb⟩ := readJobs_all M h hl extra 0 seed
  rw [parse_head _ _ _ _ hN hM hs]
  rw [Nat.add_zero, h.length_eq] at hb
  rw [hb]
  simp [readJobs]

/-- One more job, whose last line is not ended by a newline. -/
theorem readJobs_last (M : Nat) {j : JobText} {v : Nat × List Nat} (hj : IsJob j v) (hM : M ≤ v.2.length) (n : Nat) (b : Text) :
    readJobs M (n + 1) ⟨j.index ++ '\n' :: (j.due ++ '\n' :: j.times), true⟩ b =
      match readJobs M n ⟨[], false⟩ j.times with
      | .error e => .error e
      | .ok l => .ok ((v.1, v.2.take M) :: l) := by
  obtain ⟨h1, h2, h3⟩ := hj
  generalize hR : readJobs M n ⟨[], false⟩ j.times = R
  unfold readJobs
  rw [getline_line _ _ _ h1]
  dsimp only
  rw [getline_line _ _ _ (h2.notMem (by decide))]
  dsimp only
  rw [getline_last _ _ h3.noNewline]
  dsimp only
  rw [readTimes_line h3, if_pos hM, atou_num' h2, hR]
  cases R <;> rfl

theorem readJobs_bad (M : Nat) (hM0 : 0 < M) {ns : List Nat} {l : Text} (h : TimesLine ns l) (hM : M ≤ ns.length) : ∀ n,
    readJobs M n ⟨[], false⟩ l = .ok (List.replicate n (ns.headD 0, ns.take M))
  | 0 => rfl
  | n + 1 => by
    unfold readJobs
    rw [getline_bad]
    dsimp only
    rw [getline_bad]
    dsimp only
    rw [getline_bad]
    dsimp only
    rw [readTimes_line h, if_pos hM]
    dsimp only
    rw [readJobs_bad M hM0 h hM n, atou_line h (by rintro rfl; simp at hM; omega)]
    rfl

/-- **C339** (missing jobs).  A file with fewer jobs than announced whose last line has no newline is accepted: every missing
job is a copy of the last one, due at its own first processing time. -/
theorem C339_missing_repeated (tN tM seed : Text) (N M : Nat) (J : List JobText) (V : List (Nat × List Nat)) (j : JobText)
    (v : Nat × List Nat) (hN : Num tN N) (hM : Num tM M) (hM0 : 0 < M) (hs : '\n' ∉ seed) (h : List.Forall₂ IsJob J V)
    (hl : ∀ v ∈ V, M ≤ v.2.length) (hj : IsJob j v) (hv : M ≤ v.2.length) (hlen : V.length < N) :
    parse (fileText tN tM seed (jobsText J ++ (j.index ++ '\n' :: (j.due ++ '\n' :: j.times)))) =
      .ok ⟨M, N, V.map (fun v => (v.1, v.2.take M)) ++ (v.1, v.2.take M) ::
        List.replicate (N - V.length - 1) (v.2.headD 0, v.2.take M)⟩ := by
  obtain ⟨b', hb⟩ := readJobs_all M h hl (j.index ++ '\n' :: (j.due ++ '\n' :: j.times)) (N - V.length) seed
  rw [parse_head _ _ _ _ hN hM hs]
  rw [h.length_eq, show V.length + (N - V.length) = N by omega] at hb
  rw [hb, show N - V.length = (N - V.length - 1) + 1 by omega, readJobs_last M hj hv, readJobs_bad M hM0 hj.2.2 hv]
  simp

/-- **C339** (missing jobs, newline).  If the last line is ended by a newline, the missing jobs are noticed. -/
theorem C339_missing_thrown (tN tM seed : Text) (N M : Nat) (J : List JobText) (V : List (Nat × List Nat))
    (hN : Num tN N) (hM : Num tM M) (hM0 : 0 < M) (hs : '\n' ∉ seed) (h : List.Forall₂ IsJob J V)
    (hl : ∀ v ∈ V, M ≤ v.2.length) (hlen : V.length < N) :
    parse (fileText tN tM seed (jobsText J)) = .error .thrown := by
  obtain ⟨b', hb⟩ := readJobs_all M h hl [] (N - V.length) seed
  rw [parse_head _ _ _ _ hN hM hs]
  rw [h.length_eq, show V.length + (N - V.length) = N by omega, List.append_nil] at hb
  have : readJobs M (N - V.length) ⟨[], true⟩ b' = .error .thrown := by
    rw [show N - V.length = (N - V.length - 1) + 1 by omega]
    unfold readJobs
    have h1 : getline ⟨[], true⟩ b' = (⟨[], false⟩, []) := rfl
    rw [h1]
    dsimp only
    rw [getline_bad]
    dsimp only
    rw [getline_bad]
    dsimp only
    have h2 : skipBlanks [] = none := rfl
    rw [h2, readTimes_none M hM0]
  rw [hb, this]

/-- **C339** (short line).  A line with fewer processing times than machines is noticed. -/
theorem C339_short_line (tN tM seed extra : Text) (N M : Nat) (J : List JobText) (V : List (Nat × List Nat)) (j : JobText)
    (v : Nat × List Nat) (hN : Num tN N) (hM : Num tM M) (hs : '\n' ∉ seed) (h : List.Forall₂ IsJob J V)
    (hl : ∀ v ∈ V, M ≤ v.2.length) (hj : IsJob j v) (hv : v.2.length < M) (hlen : V.length < N) :
    parse (fileText tN tM seed (jobsText (J ++ [j]) ++ extra)) = .error .thrown := by
  have e : ∀ J : List JobText, jobsText (J ++ [j]) ++ extra = jobsText J ++ (jobsText [j] ++ extra) := by
    intro J
    induction J with
    | nil => rfl
    | cons x J ih => simp only [List.cons_append, jobsText, List.append_assoc, ih]
  obtain ⟨b', hb⟩ := readJobs_all M h hl (jobsText [j] ++ extra) (N - V.length) seed
  rw [e, parse_head _ _ _ _ hN hM hs]
  rw [h.length_eq, show V.length + (N - V.length) = N by omega] at hb
  have : readJobs M (N - V.length) ⟨jobsText [j] ++ extra, true⟩ b' = .error .thrown := by
    rw [show N - V.length = (N - V.length - 1) + 1 by omega]
    obtain ⟨h1, h2, h3⟩ := hj
    unfold readJobs
    have e : jobsText [j] ++ extra = j.index ++ '\n' :: (j.due ++ '\n' :: (j.times ++ '\n' :: extra)) := by
      simp [jobsText]
    rw [e, getline_line _ _ _ h1]
    dsimp only
    rw [getline_line _ _ _ (h2.notMem (by decide))]
    dsimp only
    rw [getline_line _ _ _ h3.noNewline]
    dsimp only
    rw [readTimes_line h3, if_neg (by omega)]
  rw [hb, this]

/-- Two jobs announced, one present: its copy is due at 54. -/
example : parse "2\n3\n873654221\n0\n468\n54 79 16".toList =
    .ok ⟨3, 2, [(468, [54, 79, 16]), (54, [54, 79, 16])]⟩ := by decide +kernel

example : parse "2\n3\n873654221\n0\n468\n54 79 16 \n1\n325\n83 3 89 \n".toList =
    .ok ⟨3, 2, [(468, [54, 79, 16]), (325, [83, 3, 89])]⟩ := by decide +kernel

/-- The hypotheses of C339_read on a file of one job. -/
example : IsJob ⟨"0".toList, "468".toList, " 54  79 16".toList⟩ (468, [54, 79, 16]) :=
  ⟨by decide, ⟨by decide, by decide, by decide +kernel, by decide⟩,
    .cons 1 "54".toList 54 [79, 16] " 79 16".toList ⟨by decide, by decide, by decide +kernel, by decide⟩
      (.cons 1 "79".toList 79 [16] "16".toList ⟨by decide, by decide, by decide +kernel, by decide⟩
        (.last 0 "16".toList 16 ⟨by decide, by decide, by decide +kernel, by decide⟩))⟩

end Paradiseo.FlowShop
