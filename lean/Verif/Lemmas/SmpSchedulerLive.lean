import Verif.Lemmas.SmpScheduler

/-! From every state the dynamic scheduler can come to, it can return. -/

namespace Paradiseo.Smp

/-- An execution from a state to another. -/
inductive PPath (w n : Nat) (s : PSt) : PSt → Prop where
  | refl : PPath w n s s
  | step (t u : PSt) (h : PPath w n s t) (hs : PStep w n t u) : PPath w n s u

theorem PPath.trans {w n : Nat} {s t u : PSt} (h : PPath w n s t) (h' : PPath w n t u) : PPath w n s u := by
  induction h' with
  | refl => exact h
  | step a b _ hs ih => exact ih.step a b hs

theorem PPath.main {w n : Nat} {s t : PSt} (h : mainStep w n s = some t) : PPath w n s t :=
  .step s t .refl (.main s t h)

theorem PPath.worker {w n i : Nat} {s t : PSt} (hi : i < w) (h : workerStep i s = some t) : PPath w n s t :=
  .step s t .refl (.worker s t i hi h)

/-- Sizes of the packages. -/
structure Plan (n : Nat) (s : PSt) : Prop where
  two : s.counter < n → ∀ i, 2 ≤ s.planning i ∧ s.planning i ≤ s.counter + 2
  fill : s.counter < n → ∀ i j, s.main = .fill i j → j ≤ s.planning i ∧ s.planning i + j ≤ s.counter + 2

theorem workerStep_frame {i : Nat} {s t : PSt} (h : workerStep i s = some t) :
    t.main = s.main ∧ t.counter = s.counter ∧ t.planning = s.planning ∧ t.done = s.done ∧
    (∀ j, j ≠ i → t.worker j = s.worker j ∧ t.packs j = s.packs j ∧ t.lock j = s.lock j) := by
  unfold workerStep at h
  split at h
  · simp only [Option.some.injEq] at h; subst h; simp +contextual
  · simp only [Option.some.injEq] at h; subst h; simp +contextual
  · split at h
    · simp only [Option.some.injEq] at h; subst h; simp +contextual
    · simp at h
  · split at h
    · simp only [Option.some.injEq] at h; subst h; simp +contextual
    · simp only [Option.some.injEq] at h; subst h; simp +contextual
  · simp only [Option.some.injEq] at h; subst h; simp +contextual
  · simp at h

theorem plan_step {w n : Nat} (hn : n + 2 ≤ 2 ^ 32) {s s' : PSt} (h : Plan n s) (hs : PStep w n s s') :
    Plan n s' := by
  obtain ⟨two, fill⟩ := h
  cases hs with
  | worker i hi h =>
    obtain ⟨h1, h2, h3, _⟩ := workerStep_frame h
    constructor
    · rw [h2, h3]; exact two
    · rw [h1, h2, h3]; exact fill
  | main h =>
    unfold mainStep at h
    split at h
    · rename_i hm
      simp only [Option.some.injEq] at h; subst h
      exact ⟨two, fun _ i j hf => by simp only at hf; split at hf <;> simp at hf⟩
    · rename_i k hm
      split at h
      · split at h
        · simp only [Option.some.injEq] at h; subst h
          exact ⟨two, fun _ i j hf => by simp at hf⟩
        · simp only [Option.some.injEq] at h; subst h
          exact ⟨two, fun _ i j hf => by simp at hf⟩
      · simp only [Option.some.injEq] at h; subst h
        exact ⟨two, fun _ i j hf => by simp at hf⟩
    · rename_i k hm
      split at h
      · simp only [Option.some.injEq] at h; subst h
        refine ⟨two, fun hc i j hf => ?_⟩
        simp only [MPc.fill.injEq] at hf
        obtain ⟨rfl, rfl⟩ := hf
        have := two hc k
        simp only
        omega
      · simp at h
    · rename_i k j hm
      split at h
      · rename_i hc
        simp only [Option.some.injEq] at h; subst h
        have hf := fill hc.2 k j hm
        constructor
        · intro _ i
          have := two hc.2 i
          simp only
          omega
        · intro _ i j' hf'
          simp only [MPc.fill.injEq] at hf'
          obtain ⟨rfl, rfl⟩ := hf'
          simp only
          omega
      · rename_i hc
        simp only [Option.some.injEq] at h; subst h
        refine ⟨?_, fun _ i j hf => by simp at hf⟩
        intro hcn i
        simp only at hcn
        have hf := fill hcn k j hm
        have h2 := two hcn i
        have h2k := two hcn k
        simp only
        by_cases hik : i = k
        · subst hik
          rw [Function.update_self]
          have : s.planning i * 2 % 2 ^ 32 = s.planning i * 2 := Nat.mod_eq_of_lt (by omega)
          omega
        · rw [Function.update_of_ne hik]
          exact h2
    · simp only [Option.some.injEq] at h; subst h
      exact ⟨two, fun _ i j hf => by simp at hf⟩
    · simp at h

theorem plan_init (n : Nat) : Plan n PSt.init :=
  ⟨fun _ i => by simp [PSt.init], fun _ i j h => by simp [PSt.init] at h⟩

/-- What holds along executions. -/
structure Live (w n : Nat) (s : PSt) : Prop where
  inv : PInv w n s
  plan : Plan n s

theorem live_step {w n : Nat} (hn : n + 2 ≤ 2 ^ 32) {s s' : PSt} (h : Live w n s) (hs : PStep w n s s') :
    Live w n s' := by
  refine ⟨?_, plan_step hn h.plan hs⟩
  cases hs with
  | main h' => exact pinv_main h.inv h'
  | worker i hi h' => exact pinv_worker hi h.inv h'

theorem live_path {w n : Nat} (hn : n + 2 ≤ 2 ^ 32) {s s' : PSt} (h : Live w n s) (hs : PPath w n s s') :
    Live w n s' := by
  induction hs with
  | refl => exact h
  | step a b _ hs ih => exact live_step hn ih hs

theorem live_reach {w n : Nat} (hn : n + 2 ≤ 2 ^ 32) {s : PSt} (h : PReach w n s) : Live w n s := by
  refine ⟨pinv_reach h, ?_⟩
  induction h with
  | init => exact plan_init n
  | step a b _ hs ih => exact plan_step hn ih hs

/-- A path on which the calling thread does nothing and only worker `i` moves. -/
structure WPath (w n i : Nat) (s t : PSt) : Prop where
  path : PPath w n s t
  main : t.main = s.main
  counter : t.counter = s.counter
  planning : t.planning = s.planning
  done : t.done = s.done
  other : ∀ j, j ≠ i → t.worker j = s.worker j ∧ t.packs j = s.packs j ∧ t.lock j = s.lock j

theorem WPath.refl (w n i : Nat) (s : PSt) : WPath w n i s s :=
  ⟨.refl, rfl, rfl, rfl, rfl, fun _ _ => ⟨rfl, rfl, rfl⟩⟩

theorem WPath.trans {w n i : Nat} {s t u : PSt} (h : WPath w n i s t) (h' : WPath w n i t u) : WPath w n i s u :=
  ⟨h.path.trans h'.path, h'.main.trans h.main, h'.counter.trans h.counter, h'.planning.trans h.planning,
    h'.done.trans h.done, fun j hj => by
      obtain ⟨a, b, c⟩ := h.other j hj
      obtain ⟨a', b', c'⟩ := h'.other j hj
      exact ⟨a'.trans a, b'.trans b, c'.trans c⟩⟩

theorem WPath.one {w n i : Nat} {s t : PSt} (hi : i < w) (h : workerStep i s = some t) : WPath w n i s t := by
  obtain ⟨h1, h2, h3, h4, h5⟩ := workerStep_frame h
  exact ⟨.worker hi h, h1, h2, h3, h4, h5⟩

/-- A worker that holds its mutex can empty its package and release it. -/
theorem release {w n i : Nat} (hi : i < w) {s : PSt} (hI : PInv w n s)
    (hw : (∃ k, s.worker i = .work k) ∨ s.worker i = .leave) :
    ∃ t, WPath w n i s t ∧ t.worker i = .top ∧ t.packs i = [] ∧ t.lock i = none := by
  have leave : ∀ s : PSt, s.worker i = .leave → s.packs i = [] →
      ∃ t, WPath w n i s t ∧ t.worker i = .top ∧ t.packs i = [] ∧ t.lock i = none := by
    intro s h1 h2
    have hs : workerStep i s = some { s with worker := Function.update s.worker i .top
                                             lock := Function.update s.lock i none } := by
      simp [workerStep, h1]
    exact ⟨_, .one hi hs, by simp, by simpa using h2, by simp⟩
  have work : ∀ m k (s : PSt), s.worker i = .work k → (s.packs i).length ≤ k + m →
      ∃ t, WPath w n i s t ∧ t.worker i = .top ∧ t.packs i = [] ∧ t.lock i = none := by
    intro m
    induction m with
    | zero =>
      intro k s h1 h2
      have hk : (s.packs i)[k]? = none := List.getElem?_eq_none_iff.mpr h2
      have hs : workerStep i s = some { s with worker := Function.update s.worker i .leave
                                               packs := Function.update s.packs i [] } := by
        simp [workerStep, h1, hk]
      obtain ⟨t, g1, g2⟩ := leave { s with worker := Function.update s.worker i .leave, packs := Function.update s.packs i [] } (by simp) (by simp)
      exact ⟨t, (WPath.one hi hs).trans g1, g2⟩
    | succ m ih =>
      intro k s h1 h2
      cases hk : (s.packs i)[k]? with
      | none =>
        have hs : workerStep i s = some { s with worker := Function.update s.worker i .leave
                                                 packs := Function.update s.packs i [] } := by
          simp [workerStep, h1, hk]
        obtain ⟨t, g1, g2⟩ := leave { s with worker := Function.update s.worker i .leave, packs := Function.update s.packs i [] } (by simp) (by simp)
        exact ⟨t, (WPath.one hi hs).trans g1, g2⟩
      | some x =>
        have hs : workerStep i s = some { s with worker := Function.update s.worker i (.work (k + 1))
                                                 trace := s.trace ++ [x] } := by
          simp [workerStep, h1, hk]
        obtain ⟨t, g1, g2⟩ := ih (k + 1) { s with worker := Function.update s.worker i (.work (k + 1)), trace := s.trace ++ [x] } (by simp) (by simp only; omega)
        exact ⟨t, (WPath.one hi hs).trans g1, g2⟩
  rcases hw with ⟨k, hw⟩ | hw
  · exact work (s.packs i).length k s hw (by omega)
  · exact leave s hw (hI.leave i hw)

/-- From `want` with a free mutex the worker comes back to the top with an empty package. -/
theorem want_top {w n i : Nat} (hn : n + 2 ≤ 2 ^ 32) (hi : i < w) {s : PSt} (hI : Live w n s)
    (hw : s.worker i = .want) (hl : s.lock i = none) :
    ∃ t, WPath w n i s t ∧ t.worker i = .top ∧ t.packs i = [] ∧ t.lock i = none := by
  have hs : workerStep i s = some { s with worker := Function.update s.worker i (.work 0)
                                           lock := Function.update s.lock i (some .worker) } := by
    simp [workerStep, hw, hl]
  obtain ⟨t, g1, g2⟩ := release hi (live_step hn hI (.worker _ _ i hi hs)).inv (Or.inl ⟨0, by simp⟩)
  exact ⟨t, (WPath.one hi hs).trans g1, g2⟩

theorem lock_cases {w n i : Nat} {s : PSt} (hI : PInv w n s) (hm : ∀ j, s.main ≠ .fill i j) :
    s.lock i = none ∨ (∃ k, s.worker i = .work k) ∨ s.worker i = .leave := by
  cases hl : s.lock i with
  | none => exact Or.inl rfl
  | some o =>
    cases o with
    | main =>
      obtain ⟨j, hj⟩ := (hI.lockM i).mp hl
      exact absurd hj (hm j)
    | worker => exact Or.inr ((hI.lockW i).mp hl)

/-- Before the end, a worker whose mutex is not held by the calling thread can empty its package. -/
theorem drain {w n i : Nat} (hn : n + 2 ≤ 2 ^ 32) (hi : i < w) {s : PSt} (hI : Live w n s)
    (hm : ∀ j, s.main ≠ .fill i j) (hd : s.done = false) :
    ∃ t, WPath w n i s t ∧ t.packs i = [] ∧ t.lock i = none := by
  rcases lock_cases hI.inv hm with hl | hw
  · cases hw : s.worker i with
    | want =>
      obtain ⟨t, h1, _, h2, h3⟩ := want_top hn hi hI hw hl
      exact ⟨t, h1, h2, h3⟩
    | top =>
      have hs : workerStep i s = some { s with worker := Function.update s.worker i .want } := by
        simp [workerStep, hw, hd]
      obtain ⟨t, h1, _, h2, h3⟩ := want_top hn hi (live_step hn hI (.worker _ _ i hi hs)) (by simp) hl
      exact ⟨t, (WPath.one hi hs).trans h1, h2, h3⟩
    | sawDone => have := hI.inv.saw i hw; rw [hd] at this; cases this
    | exited => have := (hI.inv.exit i hw).1; rw [hd] at this; cases this
    | work k => have := (hI.inv.lockW i).mpr (Or.inl ⟨k, hw⟩); rw [hl] at this; cases this
    | leave => have := (hI.inv.lockW i).mpr (Or.inr hw); rw [hl] at this; cases this
  · obtain ⟨t, h1, _, h2, h3⟩ := release hi hI.inv hw
    exact ⟨t, h1, h2, h3⟩

/-- The calling thread can go from `want` to one more individual in a package. -/
theorem want_more {w n i : Nat} (hn : n + 2 ≤ 2 ^ 32) {s : PSt} (hI : Live w n s) (hm : s.main = .want i)
    (hc : s.counter < n) : ∃ t, PPath w n s t ∧ t.counter = s.counter + 1 := by
  have hi := hI.inv.mainIdx i (Or.inl hm)
  have go : ∀ s : PSt, Live w n s → s.main = .want i → s.counter < n → s.lock i = none →
      ∃ t, PPath w n s t ∧ t.counter = s.counter + 1 := by
    intro s hI hm hc hl
    have h1 : mainStep w n s = some { s with main := .fill i 0, lock := Function.update s.lock i (some .main) } := by
      simp [mainStep, hm, hl]
    have hp := (hI.plan.two hc i).1
    have h2 : mainStep w n { s with main := .fill i 0, lock := Function.update s.lock i (some .main) } =
        some { s with main := .fill i (0 + 1), lock := Function.update s.lock i (some .main)
                      counter := s.counter + 1
                      packs := Function.update s.packs i (s.packs i ++ [s.counter]) } := by
      simp only [mainStep]
      rw [if_pos ⟨by omega, hc⟩]
    exact ⟨_, (PPath.main h1).trans (PPath.main h2), rfl⟩
  rcases lock_cases hI.inv (i := i) (by rw [hm]; simp) with hl | hw
  · exact go s hI hm hc hl
  · obtain ⟨t, h1, _, _, h3⟩ := release hi hI.inv hw
    obtain ⟨u, g1, g2⟩ := go t (live_path hn hI h1.path) (by rw [h1.main, hm]) (by rw [h1.counter]; exact hc) h3
    exact ⟨u, h1.path.trans g1, by rw [g2, h1.counter]⟩

/-- From the head of its loop too. -/
theorem loop_more {w n : Nat} (hn : n + 2 ≤ 2 ^ 32) (hw : 0 < w) {s : PSt} (hI : Live w n s)
    (hm : s.main = .loop) (hc : s.counter < n) : ∃ t, PPath w n s t ∧ t.counter = s.counter + 1 := by
  have hd : s.done = false := by
    cases hd : s.done with
    | false => rfl
    | true => have := hI.inv.done.mp hd; rw [hm] at this; cases this
  have h1 : mainStep w n s = some { s with main := .scan 0 } := by simp [mainStep, hm, hc]
  obtain ⟨t, g1, g2, g3⟩ := drain hn hw (live_step hn hI (.main _ _ h1)) (by simp) hd
  have hm' : t.main = .scan 0 := by rw [g1.main]
  have hc' : t.counter = s.counter := by rw [g1.counter]
  have h2 : mainStep w n t = some { t with main := .want 0 } := by
    simp [mainStep, hm', hw, g2, hc', hc]
  have hIt := live_path hn (live_step hn hI (.main _ _ h1)) g1.path
  obtain ⟨u, k1, k2⟩ := want_more hn (live_step hn hIt (.main _ _ h2)) rfl (show t.counter < n by omega)
  exact ⟨u, ((PPath.main h1).trans g1.path).trans ((PPath.main h2).trans k1), by rw [k2]; simp only; omega⟩

theorem scan_more {w n : Nat} (hn : n + 2 ≤ 2 ^ 32) (hw : 0 < w) (m : Nat) : ∀ (i : Nat) (s : PSt), w ≤ i + m →
    Live w n s → s.main = .scan i → s.counter < n → ∃ t, PPath w n s t ∧ t.counter = s.counter + 1 := by
  induction m with
  | zero =>
    intro i s hi hI hm hc
    have h1 : mainStep w n s = some { s with main := .loop } := by
      simp only [mainStep, hm]
      rw [if_neg (by omega)]
    obtain ⟨u, k1, k2⟩ := loop_more hn hw (live_step hn hI (.main _ _ h1)) rfl hc
    exact ⟨u, (PPath.main h1).trans k1, k2⟩
  | succ m ih =>
    intro i s hi hI hm hc
    by_cases hiw : i < w
    · by_cases hp : s.packs i = []
      · have h1 : mainStep w n s = some { s with main := .want i } := by
          simp [mainStep, hm, hiw, hp, hc]
        obtain ⟨u, k1, k2⟩ := want_more hn (live_step hn hI (.main _ _ h1)) rfl hc
        exact ⟨u, (PPath.main h1).trans k1, k2⟩
      · have h1 : mainStep w n s = some { s with main := .scan (i + 1) } := by
          simp [mainStep, hm, hiw, hp]
        obtain ⟨u, k1, k2⟩ := ih (i + 1) _ (by omega) (live_step hn hI (.main _ _ h1)) rfl hc
        exact ⟨u, (PPath.main h1).trans k1, k2⟩
    · have h1 : mainStep w n s = some { s with main := .loop } := by
        simp only [mainStep, hm]
        rw [if_neg (by omega)]
      obtain ⟨u, k1, k2⟩ := loop_more hn hw (live_step hn hI (.main _ _ h1)) rfl hc
      exact ⟨u, (PPath.main h1).trans k1, k2⟩

/-- As long as individuals are left, one more can be given to a worker. -/
theorem more {w n : Nat} (hn : n + 2 ≤ 2 ^ 32) (hw : 0 < w) {s : PSt} (hI : Live w n s) (hc : s.counter < n) :
    ∃ t, PPath w n s t ∧ t.counter = s.counter + 1 := by
  cases hm : s.main with
  | loop => exact loop_more hn hw hI hm hc
  | scan i => exact scan_more hn hw w i s (by omega) hI hm hc
  | want i => exact want_more hn hI hm hc
  | fill i j =>
    by_cases hj : j < s.planning i
    · have h1 : mainStep w n s = some { s with main := .fill i (j + 1), counter := s.counter + 1
                                               packs := Function.update s.packs i (s.packs i ++ [s.counter]) } := by
        simp [mainStep, hm, hj, hc]
      exact ⟨_, .main h1, rfl⟩
    · have h1 : mainStep w n s = some { s with main := .scan (i + 1), lock := Function.update s.lock i none
                                               planning := Function.update s.planning i (s.planning i * 2 % 2 ^ 32) } := by
        simp [mainStep, hm, hj]
      obtain ⟨u, k1, k2⟩ := scan_more hn hw w (i + 1) _ (by omega) (live_step hn hI (.main _ _ h1)) rfl hc
      exact ⟨u, (PPath.main h1).trans k1, k2⟩
  | finish => have := hI.inv.all (Or.inl hm); omega
  | join => have := hI.inv.all (Or.inr hm); omega

theorem all_given {w n : Nat} (hn : n + 2 ≤ 2 ^ 32) (hw : 0 < w) (m : Nat) : ∀ s : PSt, Live w n s → n ≤ s.counter + m →
    ∃ t, PPath w n s t ∧ n ≤ t.counter := by
  induction m with
  | zero => intro s hI h; exact ⟨s, .refl, by omega⟩
  | succ m ih =>
    intro s hI h
    by_cases hc : s.counter < n
    · obtain ⟨t, h1, h2⟩ := more hn hw hI hc
      obtain ⟨u, k1, k2⟩ := ih t (live_path hn hI h1) (by omega)
      exact ⟨u, h1.trans k1, k2⟩
    · exact ⟨s, .refl, by omega⟩

/-- Once all are given, the calling thread can come to its end. -/
theorem to_join {w n : Nat} (hn : n + 2 ≤ 2 ^ 32) {s : PSt} (hI : Live w n s) (hc : n ≤ s.counter) :
    ∃ t, PPath w n s t ∧ t.main = .join := by
  have finish : ∀ s : PSt, s.main = .finish → ∃ t, PPath w n s t ∧ t.main = .join := by
    intro s hm
    have h1 : mainStep w n s = some { s with main := .join, done := true } := by simp [mainStep, hm]
    exact ⟨_, .main h1, rfl⟩
  have loop : ∀ s : PSt, s.main = .loop → n ≤ s.counter → ∃ t, PPath w n s t ∧ t.main = .join := by
    intro s hm hc
    have h1 : mainStep w n s = some { s with main := .finish } := by
      simp only [mainStep, hm]
      rw [if_neg (by omega)]
    obtain ⟨u, k1, k2⟩ := finish _ (show ({ s with main := .finish } : PSt).main = .finish from rfl)
    exact ⟨u, (PPath.main h1).trans k1, k2⟩
  have scan : ∀ m i (s : PSt), w ≤ i + m → s.main = .scan i → n ≤ s.counter →
      ∃ t, PPath w n s t ∧ t.main = .join := by
    intro m
    induction m with
    | zero =>
      intro i s hi hm hc
      have h1 : mainStep w n s = some { s with main := .loop } := by
        simp only [mainStep, hm]
        rw [if_neg (by omega)]
      obtain ⟨u, k1, k2⟩ := loop _ (show ({ s with main := .loop } : PSt).main = .loop from rfl) hc
      exact ⟨u, (PPath.main h1).trans k1, k2⟩
    | succ m ih =>
      intro i s hi hm hc
      by_cases hiw : i < w
      · have h1 : mainStep w n s = some { s with main := .scan (i + 1) } := by
          simp only [mainStep, hm]
          rw [if_pos hiw, if_neg (by omega)]
        obtain ⟨u, k1, k2⟩ := ih (i + 1) _ (by omega)
          (show ({ s with main := .scan (i + 1) } : PSt).main = .scan (i + 1) from rfl) hc
        exact ⟨u, (PPath.main h1).trans k1, k2⟩
      · exact ih i s (by omega) hm hc
  have fill : ∀ i j (s : PSt), s.main = .fill i j → n ≤ s.counter → ∃ t, PPath w n s t ∧ t.main = .join := by
    intro i j s hm hc
    have h1 : mainStep w n s = some { s with main := .scan (i + 1), lock := Function.update s.lock i none
                                             planning := Function.update s.planning i (s.planning i * 2 % 2 ^ 32) } := by
      simp only [mainStep, hm]
      rw [if_neg (by omega)]
    obtain ⟨u, k1, k2⟩ := scan w (i + 1) _ (by omega)
      (show PSt.main { s with main := .scan (i + 1), lock := Function.update s.lock i none
                              planning := Function.update s.planning i (s.planning i * 2 % 2 ^ 32) } = _ from rfl) hc
    exact ⟨u, (PPath.main h1).trans k1, k2⟩
  cases hm : s.main with
  | loop => exact loop s hm hc
  | scan i => exact scan w i s (by omega) hm hc
  | fill i j => exact fill i j s hm hc
  | finish => exact finish s hm
  | join => exact ⟨s, .refl, hm⟩
  | want i =>
    have hi := hI.inv.mainIdx i (Or.inl hm)
    have go : ∀ s : PSt, s.main = .want i → n ≤ s.counter → s.lock i = none →
        ∃ t, PPath w n s t ∧ t.main = .join := by
      intro s hm hc hl
      have h1 : mainStep w n s = some { s with main := .fill i 0, lock := Function.update s.lock i (some .main) } := by
        simp [mainStep, hm, hl]
      obtain ⟨u, k1, k2⟩ := fill i 0 _
        (show PSt.main { s with main := .fill i 0, lock := Function.update s.lock i (some .main) } = _ from rfl) hc
      exact ⟨u, (PPath.main h1).trans k1, k2⟩
    rcases lock_cases hI.inv (i := i) (by rw [hm]; simp) with hl | hw
    · exact go s hm hc hl
    · obtain ⟨t, h1, _, _, h3⟩ := release hi hI.inv hw
      obtain ⟨u, g1, g2⟩ := go t (by rw [h1.main, hm]) (by rw [h1.counter]; exact hc) h3
      exact ⟨u, h1.path.trans g1, g2⟩

/-- Then every worker can come to its end. -/
theorem to_exit {w n i : Nat} (hn : n + 2 ≤ 2 ^ 32) (hi : i < w) {s : PSt} (hI : Live w n s) (hm : s.main = .join) :
    ∃ t, WPath w n i s t ∧ t.worker i = .exited := by
  have hd := hI.inv.done.mpr hm
  have saw : ∀ s : PSt, s.worker i = .sawDone → s.packs i = [] → ∃ t, WPath w n i s t ∧ t.worker i = .exited := by
    intro s hw hp
    have h1 : workerStep i s = some { s with worker := Function.update s.worker i .exited } := by
      simp [workerStep, hw, hp]
    exact ⟨_, .one hi h1, by simp⟩
  have top : ∀ s : PSt, s.worker i = .top → s.packs i = [] → s.done = true →
      ∃ t, WPath w n i s t ∧ t.worker i = .exited := by
    intro s hw hp hd
    have h1 : workerStep i s = some { s with worker := Function.update s.worker i .sawDone } := by
      simp [workerStep, hw, hd]
    obtain ⟨u, k1, k2⟩ := saw { s with worker := Function.update s.worker i .sawDone } (by simp) hp
    exact ⟨u, (WPath.one hi h1).trans k1, k2⟩
  have want : ∀ s : PSt, Live w n s → s.main = .join → s.worker i = .want →
      ∃ t, WPath w n i s t ∧ t.worker i = .exited := by
    intro s hI hm hw
    have hd := hI.inv.done.mpr hm
    have hl : s.lock i = none := by
      rcases lock_cases hI.inv (i := i) (by rw [hm]; simp) with hl | h | h
      · exact hl
      · obtain ⟨k, h⟩ := h; rw [hw] at h; cases h
      · rw [hw] at h; cases h
    obtain ⟨t, h1, h2, h3, _⟩ := want_top hn hi hI hw hl
    obtain ⟨u, k1, k2⟩ := top t h2 h3 (by rw [h1.done]; exact hd)
    exact ⟨u, h1.trans k1, k2⟩
  have sawAny : ∀ s : PSt, Live w n s → s.main = .join → s.worker i = .sawDone →
      ∃ t, WPath w n i s t ∧ t.worker i = .exited := by
    intro s hI hm hw
    by_cases hp : s.packs i = []
    · exact saw s hw hp
    · have h1 : workerStep i s = some { s with worker := Function.update s.worker i .want } := by
        simp [workerStep, hw, hp]
      obtain ⟨u, k1, k2⟩ := want _ (live_step hn hI (.worker _ _ i hi h1)) hm
        (by simp)
      exact ⟨u, (WPath.one hi h1).trans k1, k2⟩
  cases hw : s.worker i with
  | exited => exact ⟨s, .refl w n i s, hw⟩
  | want => exact want s hI hm hw
  | sawDone => exact sawAny s hI hm hw
  | top =>
    have h1 : workerStep i s = some { s with worker := Function.update s.worker i .sawDone } := by
      simp [workerStep, hw, hd]
    obtain ⟨u, k1, k2⟩ := sawAny _ (live_step hn hI (.worker _ _ i hi h1)) hm
      (by simp)
    exact ⟨u, (WPath.one hi h1).trans k1, k2⟩
  | work k =>
    obtain ⟨t, h1, h2, h3, _⟩ := release hi hI.inv (Or.inl ⟨k, hw⟩)
    obtain ⟨u, k1, k2⟩ := top t h2 h3 (by rw [h1.done]; exact hd)
    exact ⟨u, h1.trans k1, k2⟩
  | leave =>
    obtain ⟨t, h1, h2, h3, _⟩ := release hi hI.inv (Or.inr hw)
    obtain ⟨u, k1, k2⟩ := top t h2 h3 (by rw [h1.done]; exact hd)
    exact ⟨u, h1.trans k1, k2⟩

theorem all_exit {w n : Nat} (hn : n + 2 ≤ 2 ^ 32) (m : Nat) : m ≤ w → ∀ s : PSt, Live w n s → s.main = .join →
    ∃ t, PPath w n s t ∧ t.main = .join ∧ ∀ i, i < m → t.worker i = .exited := by
  induction m with
  | zero => intro _ s _ hm; exact ⟨s, .refl, hm, fun i hi => by omega⟩
  | succ m ih =>
    intro hmw s hI hm
    obtain ⟨t, h1, h2, h3⟩ := ih (by omega) s hI hm
    obtain ⟨u, k1, k2⟩ := to_exit hn (show m < w by omega) (live_path hn hI h1) h2
    refine ⟨u, h1.trans k1.path, by rw [k1.main, h2], ?_⟩
    intro i hi
    by_cases him : i = m
    · subst him; exact k2
    · rw [(k1.other i him).1]; exact h3 i (by omega)

theorem can_return {w n : Nat} (hn : n + 2 ≤ 2 ^ 32) (hw : 0 < w) {s : PSt} (hI : Live w n s) :
    ∃ t, PPath w n s t ∧ t.Returned w := by
  obtain ⟨a, a1, a2⟩ := all_given hn hw n s hI (by omega)
  have hIa := live_path hn hI a1
  obtain ⟨b, b1, b2⟩ := to_join hn hIa a2
  have hIb := live_path hn hIa b1
  obtain ⟨c, c1, c2, c3⟩ := all_exit hn w (le_refl _) b hIb b2
  exact ⟨c, (a1.trans b1).trans c1, c2, c3⟩

end Paradiseo.Smp
