import Verif.Lemmas.SmpScheduler
import Verif.Lemmas.SmpSchedulerLive

/-! Properties of the smp schedulers: every individual is handed to exactly one worker, once. -/

namespace Paradiseo.Smp

/-! ## C111: linear policy -/

/-- For any number of workers greater than zero and any population size the packages together hold
every individual exactly once, there is one package per worker, and the sizes of any two packages
differ by at most one. -/
theorem C111_packages (w n : Nat) (hw : 0 < w) :
    ∃ ps, linearPackages w n = .ok ps ∧ ps.length = w ∧ ps.flatten.Perm (List.range n) ∧
      ∀ p ∈ ps, ∀ q ∈ ps, p.length ≤ q.length + 1 := by
  obtain ⟨ps, hps⟩ : ∃ ps, linearPackages w n = .ok ps := by
    unfold linearPackages
    rw [if_neg (by omega)]
    exact ⟨_, rfl⟩
  obtain ⟨-, h1, h2, h3⟩ := linearPackages_spec hps
  refine ⟨ps, hps, h1, h2, ?_⟩
  have key : ∀ p ∈ ps, n / w ≤ p.length ∧ p.length ≤ n / w + 1 := by
    intro p hp
    obtain ⟨i, hi, rfl⟩ := List.getElem_of_mem hp
    have := h3 i (by omega)
    rw [List.getElem?_eq_getElem hi, Option.some.injEq] at this
    rw [this]
    by_cases hm : i < n % w <;> simp [hm]
  intro p hp q hq
  have := key p hp
  have := key q hq
  omega

/-- Without workers the call is undefined. -/
theorem C111_no_workers (n : Nat) : linearPackages 0 n = .error .ub := by simp [linearPackages]

/-- However the machine interleaves the workers, when they have ended `func` was applied to every
individual exactly once; a function of the individual alone gives the same population as the
sequential loop. -/
theorem C111_any_interleaving {α : Type} (func : α → α) (w : Nat) (hw : 0 < w) (pop : List α)
    (ps : List (List Nat)) (hps : linearPackages w pop.length = .ok ps) :
    (∃ tr, Merge ps tr) ∧
    ∀ tr, Merge ps tr → tr.Perm (List.range pop.length) ∧ applyTrace func pop tr = pop.map func := by
  refine ⟨merge_exists ps, ?_⟩
  intro tr htr
  obtain ⟨-, h1, h2, h3⟩ := linearPackages_spec hps
  have hp := (merge_perm htr).trans h2
  refine ⟨hp, ?_⟩
  apply List.ext_getElem?
  intro k
  rw [applyTrace_get func tr (hp.nodup_iff.mpr List.nodup_range), List.getElem?_map]
  split
  · rfl
  · rename_i hk
    have : ¬ k < pop.length := fun h => hk (hp.mem_iff.mpr (List.mem_range.mpr h))
    rw [List.getElem?_eq_none (by omega)]
    rfl

example : linearPackages 3 8 = .ok [[0, 1, 6], [2, 3, 7], [4, 5]] := by decide +kernel
example : linearPackages 4 2 = .ok [[0], [1], [], []] := by decide +kernel
example : Merge [[0, 1], [2]] [0, 2, 1] :=
  .step _ 0 0 [1] _ rfl (.step _ 1 2 [] _ rfl (.step _ 0 1 [] _ rfl (.done _ (by simp))))

/-! ## C112: progressive policy -/

/-- Under every interleaving of the calling thread and the workers, when the call returns `func` was
applied to every individual exactly once, and all packages are empty again.  (Sequentially
consistent memory; see `C112_unlocked_reads` for the reads that are not protected.) -/
theorem C112_once (w n : Nat) (s : PSt) (h : PReach w n s) (hr : s.Returned w) :
    s.trace.Perm (List.range n) ∧ ∀ i, i < w → s.packs i = [] := by
  have hI := pinv_reach h
  obtain ⟨hj, he⟩ := hr
  have hp : ∀ i, i < w → s.packs i = [] := fun i hi => (hI.exit i (he i hi)).2
  refine ⟨?_, hp⟩
  rw [List.perm_iff_count]
  intro x
  have hc := hI.count x
  have hz : ∑ i ∈ Finset.range w, (pending s i).count x = 0 := by
    apply Finset.sum_eq_zero
    intro i hi
    have hi' := Finset.mem_range.mp hi
    have : pending s i = [] := by
      unfold pending
      rw [he i hi', hp i hi']
    rw [this]
    rfl
  rw [hz, hI.all (Or.inr hj)] at hc
  rw [Nat.add_zero] at hc
  rw [hc]
  by_cases hx : x < n
  · rw [if_pos hx, List.count_eq_one_of_mem List.nodup_range (List.mem_range.mpr hx)]
  · rw [if_neg hx, List.count_eq_zero_of_not_mem (fun h => hx (List.mem_range.mp h))]

/-- At no moment of any execution was `func` applied twice to the same individual. -/
theorem C112_never_twice (w n : Nat) (s : PSt) (h : PReach w n s) :
    s.trace.Nodup ∧ ∀ x ∈ s.trace, x < n := by
  have hI := pinv_reach h
  constructor
  · rw [List.nodup_iff_count_le_one]
    intro x
    have := hI.count x
    split at this <;> omega
  · intro x hx
    have hc := hI.count x
    have h1 : 0 < s.trace.count x := List.count_pos_iff.mpr hx
    have hle := hI.le
    split at hc <;> omega

/-- No execution gets stuck: as long as the call has not returned, some thread can take a step. -/
theorem C112_no_deadlock (w n : Nat) (s : PSt) (h : PReach w n s) (hr : ¬ s.Returned w) :
    ∃ s', PStep w n s s' := by
  have hI := pinv_reach h
  have wk : ∀ i, i < w → (workerStep i s).isSome → ∃ s', PStep w n s s' := by
    intro i hi h
    obtain ⟨s', hs'⟩ := Option.isSome_iff_exists.mp h
    exact ⟨s', .worker s s' i hi hs'⟩
  have mn : (mainStep w n s).isSome → ∃ s', PStep w n s s' := by
    intro h
    obtain ⟨s', hs'⟩ := Option.isSome_iff_exists.mp h
    exact ⟨s', .main s s' hs'⟩
  have busy : ∀ i, i < w → ((∃ k, s.worker i = .work k) ∨ s.worker i = .leave) →
      ∃ s', PStep w n s s' := by
    intro i hi hw
    rcases hw with ⟨k, hw⟩ | hw
    · cases hk : (s.packs i)[k]? with
      | none => exact wk i hi (by simp [workerStep, hw, hk])
      | some x => exact wk i hi (by simp [workerStep, hw, hk])
    · exact wk i hi (by simp [workerStep, hw])
  cases hm : s.main with
  | loop => exact mn (by simp [mainStep, hm])
  | scan i =>
    by_cases hi : i < w
    · by_cases hp : s.packs i = [] ∧ s.counter < n
      · exact mn (by simp [mainStep, hm, hi, hp])
      · exact mn (by simp [mainStep, hm, hi, hp])
    · exact mn (by simp [mainStep, hm, hi])
  | want i =>
    have hi := hI.mainIdx i (Or.inl hm)
    cases hl : s.lock i with
    | none => exact mn (by simp [mainStep, hm, hl])
    | some o =>
      cases o with
      | main =>
        obtain ⟨j, hj⟩ := (hI.lockM i).mp hl
        rw [hm] at hj
        cases hj
      | worker => exact busy i hi ((hI.lockW i).mp hl)
  | fill i j =>
    by_cases hc : j < s.planning i ∧ s.counter < n
    · exact mn (by simp [mainStep, hm, hc])
    · exact mn (by simp [mainStep, hm, hc])
  | finish => exact mn (by simp [mainStep, hm])
  | join =>
    have : ∃ i, i < w ∧ s.worker i ≠ .exited := by
      by_contra hcon
      push Not at hcon
      exact hr ⟨hm, hcon⟩
    obtain ⟨i, hi, hne⟩ := this
    cases hw : s.worker i with
    | top => exact wk i hi (by simp [workerStep, hw])
    | sawDone => exact wk i hi (by simp [workerStep, hw])
    | want =>
      cases hl : s.lock i with
      | none => exact wk i hi (by simp [workerStep, hw, hl])
      | some o =>
        cases o with
        | main =>
          obtain ⟨j, hj⟩ := (hI.lockM i).mp hl
          rw [hm] at hj
          cases hj
        | worker => exact busy i hi ((hI.lockW i).mp hl)
    | work k => exact busy i hi (Or.inl ⟨k, hw⟩)
    | leave => exact busy i hi (Or.inr hw)
    | exited => exact absurd hw hne

/-- Nor does it come to where it can only go round in circles: with a worker and fewer than 2^32 - 1
individuals, every execution can be continued until the call returns. -/
theorem C112_can_return (w n : Nat) (hw : 0 < w) (hn : n + 2 ≤ 2 ^ 32) (s : PSt) (h : PReach w n s) :
    ∃ t, PReach w n t ∧ PPath w n s t ∧ t.Returned w := by
  obtain ⟨t, h1, h2⟩ := can_return hn hw (live_reach hn h)
  refine ⟨t, ?_, h1, h2⟩
  clear h2
  induction h1 with
  | refl => exact h
  | step a b _ hs ih => exact ih.step a b hs

/-- A number of steps of one thread. -/
def runMain (w n : Nat) : Nat → PSt → Option PSt
  | 0, s => some s
  | k + 1, s => match mainStep w n s with
    | none => none
    | some s' => runMain w n k s'

def runWorker (i : Nat) : Nat → PSt → Option PSt
  | 0, s => some s
  | k + 1, s => match workerStep i s with
    | none => none
    | some s' => runWorker i k s'

theorem reach_runMain {w n k : Nat} {s s' : PSt} (h : PReach w n s)
    (hr : runMain w n k s = some s') : PReach w n s' := by
  induction k generalizing s with
  | zero => cases hr; exact h
  | succ k ih =>
    unfold runMain at hr
    split at hr
    · cases hr
    · rename_i t ht
      exact ih (h.step _ _ (.main _ _ ht)) hr

theorem reach_runWorker {w n i k : Nat} (hi : i < w) {s s' : PSt} (h : PReach w n s)
    (hr : runWorker i k s = some s') : PReach w n s' := by
  induction k generalizing s with
  | zero => cases hr; exact h
  | succ k ih =>
    unfold runWorker at hr
    split at hr
    · cases hr
    · rename_i t ht
      exact ih (h.step _ _ (.worker _ _ i hi ht)) hr

/-- The calling thread looks whether a package is empty without holding its mutex, while the worker
may be emptying it under the mutex: with one worker and three individuals an execution comes to a
state in which the calling thread is about to read the package and the worker, holding the mutex, is
about to clear it.  In C++ this is a data race, hence undefined behaviour. -/
theorem C112_unlocked_reads : ∃ s, PReach 1 3 s ∧ s.main = .scan 0 ∧ s.counter < 3 ∧
    s.lock 0 = some .worker ∧ s.worker 0 = .work 2 ∧ s.packs 0 = [0, 1] := by
  have hm : ∃ s, runMain 1 3 8 PSt.init = some s ∧ s.main = .scan 0 ∧ s.counter = 2 ∧
      s.lock 0 = none ∧ s.worker 0 = .top ∧ s.done = false ∧ s.packs 0 = [0, 1] := by
    refine ⟨_, rfl, ?_⟩
    simp [PSt.init]
  obtain ⟨s, h1, h2, h3, h4, h5, h6, h7⟩ := hm
  have hs := reach_runMain .init h1
  have hw : ∃ s', runWorker 0 4 s = some s' ∧ s'.main = .scan 0 ∧ s'.counter = 2 ∧
      s'.lock 0 = some .worker ∧ s'.worker 0 = .work 2 ∧ s'.packs 0 = [0, 1] := by
    simp [runWorker, workerStep, h2, h3, h4, h5, h6, h7]
  obtain ⟨s', g1, g2, g3, g4, g5, g6⟩ := hw
  exact ⟨s', reach_runWorker (by norm_num) hs g1, g2, by omega, g4, g5, g6⟩

/-- Without workers the call never returns if there is an individual. -/
theorem C112_no_workers (n : Nat) (hn : 0 < n) (s : PSt) (h : PReach 0 n s) : ¬ s.Returned 0 := by
  have key : ∀ s, PReach 0 n s → s.counter = 0 ∧ (s.main = .loop ∨ ∃ i, s.main = .scan i) := by
    intro s h
    induction h with
    | init => exact ⟨rfl, Or.inl rfl⟩
    | step s s' _ hs ih =>
      obtain ⟨hc, hm⟩ := ih
      cases hs with
      | worker i hi _ => omega
      | main h =>
        rcases hm with hm | ⟨i, hm⟩
        · simp only [mainStep, hm, Option.some.injEq] at h
          subst h
          refine ⟨hc, Or.inr ⟨0, ?_⟩⟩
          simp [hc, hn]
        · simp only [mainStep, hm, Nat.not_lt_zero, if_false, Option.some.injEq] at h
          subst h
          exact ⟨hc, Or.inl rfl⟩
  intro hr
  obtain ⟨-, hm | ⟨i, hm⟩⟩ := key s h <;> rw [hr.1] at hm <;> cases hm

/-- An execution that returns: one worker, one individual. -/
example : ∃ s, PReach 1 1 s ∧ s.Returned 1 ∧ s.trace = [0] := by
  have hm : ∃ s, runMain 1 1 8 PSt.init = some s ∧ s.main = .join ∧
      s.lock 0 = none ∧ s.worker 0 = .top ∧ s.done = true ∧ s.packs 0 = [0] ∧ s.trace = [] := by
    refine ⟨_, rfl, ?_⟩
    simp [PSt.init]
  obtain ⟨s, h1, h2, h4, h5, h6, h7, h8⟩ := hm
  have hs := reach_runMain .init h1
  have hw : ∃ s', runWorker 0 8 s = some s' ∧ s'.main = .join ∧ s'.worker 0 = .exited ∧
      s'.trace = [0] := by
    simp [runWorker, workerStep, h2, h4, h5, h6, h7, h8]
  obtain ⟨s', g1, g2, g3, g4⟩ := hw
  refine ⟨s', reach_runWorker (by norm_num) hs g1, ⟨g2, ?_⟩, g4⟩
  intro i hi
  have : i = 0 := by omega
  rw [this]
  exact g3

end Paradiseo.Smp
