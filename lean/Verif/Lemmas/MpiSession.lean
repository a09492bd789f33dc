import Verif.Model.MpiSession
import Verif.Props.Mpi
import Mathlib.Algebra.Group.Action.Defs

/-! The run of an evaluator over several populations is a sequence of jobs and the end of the workers. -/

namespace Paradiseo.Mpi

variable {α σ : Type}

/-- The tasks among the orders of a worker. -/
def tasks (q : List (Order α)) : List (Nat × List α) :=
  q.filterMap fun o => match o with
    | .cont i l => some (i, l)
    | _ => none

/-- How many of the orders are no tasks. -/
def noise (q : List (Order α)) : Nat :=
  (q.map fun o => match o with
    | .cont _ _ => 0
    | _ => 1).sum

@[simp] theorem tasks_nil : tasks ([] : List (Order α)) = [] := rfl
@[simp] theorem tasks_cont (i : Nat) (l : List α) (q : List (Order α)) : tasks (.cont i l :: q) = (i, l) :: tasks q := rfl
@[simp] theorem tasks_finish (q : List (Order α)) : tasks (.finish :: q) = tasks q := rfl
@[simp] theorem tasks_kill (q : List (Order α)) : tasks (.kill :: q) = tasks q := rfl
@[simp] theorem tasks_append (p q : List (Order α)) : tasks (p ++ q) = tasks p ++ tasks q := List.filterMap_append
@[simp] theorem tasks_replicate (n : Nat) : tasks (List.replicate n (.finish : Order α)) = [] := by
  induction n with
  | zero => rfl
  | succ n ih => rw [List.replicate_succ, tasks_finish, ih]

@[simp] theorem noise_nil : noise ([] : List (Order α)) = 0 := rfl
@[simp] theorem noise_cont (i : Nat) (l : List α) (q : List (Order α)) : noise (.cont i l :: q) = noise q := by simp [noise]
@[simp] theorem noise_finish (q : List (Order α)) : noise (.finish :: q) = noise q + 1 := by simp [noise]; omega
@[simp] theorem noise_kill (q : List (Order α)) : noise (.kill :: q) = noise q + 1 := by simp [noise]; omega
@[simp] theorem noise_append (p q : List (Order α)) : noise (p ++ q) = noise p + noise q := by simp [noise]
@[simp] theorem noise_finishes (n : Nat) : noise (List.replicate n (.finish : Order α)) = n := by simp [noise]
@[simp] theorem noise_kills (n : Nat) : noise (List.replicate n (.kill : Order α)) = n := by simp [noise]

/-- The job in a session. -/
def SSt.core (s : SSt α σ) : MSt α σ where
  phase := s.phase
  alg := s.alg
  index := s.index
  table := s.table
  assigned := s.assigned
  inbox := fun w => tasks (s.queue w)
  outbox := s.outbox
  finishes := s.finishes
  calls := s.calls

theorem core_send (s : SSt α σ) (w : Nat) : (s.send w).core = s.core.send s.packet w := by
  unfold SSt.send MSt.send SSt.core
  dsimp only
  congr 1
  funext v
  by_cases h : v = w
  · subst h; simp
  · simp [Function.update_of_ne h]

theorem core_assign' (A : Assign σ) (s : SSt α σ) : (s.assign A).core = s.core.assign A s.packet := by
  unfold SSt.assign MSt.assign
  have e : s.core.alg = s.alg := rfl
  rw [e]
  split
  · rfl
  · rw [core_send]; rfl

/-- Steps of a session within a job: the master's or a worker's step of the job, or an order that is ignored. -/
theorem core_step {A : Pool σ} {dyn : Bool} {f : α → α} {s s' : SSt α σ} (hm : s.mode = .running)
    (hk : ∀ w, Order.kill ∉ s.queue w) (h : SStep A dyn f s s') :
    MStep A.toAssign s.packet f s.total s.core s'.core ∨
    (s'.core = s.core ∧ ∃ w rest, s.queue w = .finish :: rest ∧
      s' = { s with queue := Function.update s.queue w rest }) := by
  cases h with
  | begin t rest hm' ht => rw [hm] at hm'; simp at hm'
  | stop hm' ht => rw [hm] at hm'; simp at hm'
  | next hm' hp h => left; rw [core_assign']; exact MStep.next s.core hp h
  | response w l rest hm' hp h =>
    left; rw [core_assign']
    exact MStep.response s.core w l rest hp h
  | finish hm' hp h =>
    left
    have := MStep.finish (A := A.toAssign) (packetSize := s.packet) (f := f) (total := s.total) s.core hp h
    convert this using 1
    unfold SSt.core
    simp
  | last w l rest hm' hp ht h =>
    left
    have := MStep.last (A := A.toAssign) (packetSize := s.packet) (f := f) (total := s.total) s.core w l rest hp ht h
    convert this using 1
    unfold SSt.core SSt.handle MSt.handle
    simp only [MSt.mk.injEq, true_and, and_true]
    funext v
    by_cases hv : v = w
    · subst hv; simp
    · simp [Function.update_of_ne hv]
  | leave hm' hp ht => left; exact MStep.leave s.core hp ht
  | work w i l rest hg h =>
    left
    have := MStep.work (A := A.toAssign) (packetSize := s.packet) (f := f) (total := s.total) s.core w i l (tasks rest)
      (by simp [SSt.core, h])
    convert this using 1
    unfold SSt.core
    simp only [MSt.mk.injEq, true_and, and_true]
    funext v
    by_cases hv : v = w
    · subst hv; simp
    · simp [Function.update_of_ne hv]
  | ignore w rest hg h =>
    right
    refine ⟨?_, w, rest, h, rfl⟩
    unfold SSt.core
    simp only [MSt.mk.injEq, true_and, and_true]
    funext v
    by_cases hv : v = w
    · subst hv; simp [h]
    · simp [Function.update_of_ne hv]
  | quit w rest hg h => exact absurd (show Order.kill ∈ s.queue w by rw [h]; simp) (hk w)

/-- With a packet size of 0 only the empty table is treated, and then the size plays no role. -/
theorem step_pos {A : Assign σ} {W : Finset Nat} {I : σ → Finset Nat → Nat → Prop} {p p' tot : Nat} {f : α → α}
    {t : List α} {B : Prop} {F : Finset Nat} {k : Nat} {s s' : MSt α σ} (hp : 0 < p ∨ t = [])
    (h : MInv W I p' f t B F k s) (hs : MStep A p f tot s s') : MStep A (max p 1) f tot s s' := by
  rcases hp with hp | rfl
  · rwa [Nat.max_eq_left hp]
  · have h1 := h.len
    have h2 := h.ind
    simp only [List.length_nil] at h1 h2
    cases hs with
    | next hph hne => exact absurd (by omega) hne
    | response w l rest hph ho => exact absurd (show s.index = 0 by omega) (h.waits hph).1
    | finish hph he => exact .finish s hph he
    | last w l rest hph ht ho => exact .last s w l rest hph ht ho
    | leave hph ht => exact .leave s hph ht
    | work w i l rest hi => exact .work s w i l rest hi

/-- A finished job on table `t` with the results `r`. -/
def Done (A : Pool σ) (f : α → α) (n : Nat) (Fresh : σ → Prop) (p : Nat) (t : List α) (r : List α × List Nat) : Prop :=
  ∃ a j m, Fresh a ∧ MReach A.toAssign (max p 1) f n (MSt.start a t) j m ∧ m.phase = .done ∧ r = (m.table, m.calls)

/-- What a session needs of the assignment algorithm: `Fresh` holds after `reinit`. -/
structure Reinits (A : Pool σ) (ws : List Nat) (I : σ → Finset Nat → Nat → Prop) (Fresh : σ → Prop) : Prop where
  lawful : Lawful A.toAssign ws.toFinset I
  fresh : ∀ a, Fresh a → ∃ k, I a ws.toFinset k
  reinit : ∀ s k, I s ws.toFinset k → Fresh (A.reinit s ws.length)

/-- The packet size for a table. -/
def packetFor (dyn : Bool) (p0 n : Nat) (t : List α) : Nat := if dyn then p0 else ceilDiv t.length n

/-- The invariant of a session. -/
structure SInv (A : Pool σ) (dyn : Bool) (p0 : Nat) (f : α → α) (ws : List Nat) (I : σ → Finset Nat → Nat → Prop)
    (Fresh : σ → Prop) (tables : List (List α)) (s : SSt α σ) : Prop where
  pack : dyn = true → s.packet = p0
  finished : ∃ fin : List (List α), List.Forall₂ (fun t r => Done A f ws.length Fresh (packetFor dyn p0 ws.length t) t r)
      fin s.results ∧
    (s.mode = .idle → fin ++ s.todo = tables ∧ (∃ k, I s.alg ws.toFinset k) ∧
      ∀ w, tasks (s.queue w) = [] ∧ s.outbox w = []) ∧
    (s.mode = .running → ∃ t a n, fin ++ t :: s.todo = tables ∧ Fresh a ∧ s.packet = packetFor dyn p0 ws.length t ∧
      s.total = ws.length ∧ s.phase ≠ .done ∧
      MReach A.toAssign (max s.packet 1) f ws.length (MSt.start a t) n s.core) ∧
    (s.mode = .over → fin = tables ∧ s.todo = [] ∧ ∀ w, s.outbox w = [])
  alive : s.mode ≠ .over → ∀ w, Order.kill ∉ s.queue w ∧ s.gone w = false ∧ s.kills w = 0 ∧ (w ∉ ws → s.queue w = [])
  ending : s.mode = .over → ∀ w, s.kills w = (if w ∈ ws then 1 else 0) ∧
    if w ∈ ws then (s.gone w = false ∧ ∃ j, s.queue w = List.replicate j .finish ++ [.kill]) ∨
      (s.gone w = true ∧ s.queue w = []) else s.queue w = [] ∧ s.gone w = false

/-- The number of steps that can still be taken. -/
def smeasure (ws : List Nat) (s : SSt α σ) : Nat :=
  (s.todo.map fun t => 4 * t.length + 4 + ws.length).sum + ∑ w ∈ ws.toFinset, noise (s.queue w) +
    match s.mode with
    | .idle => 1 + 2 * ws.length
    | .running => 1 + 2 * ws.length + measure ws.toFinset s.core + ∑ w ∈ ws.toFinset, (1 - s.finishes w)
    | .over => 0


theorem queue_nil {q : List (Order α)} (h1 : tasks q = []) (h2 : noise q = 0) : q = [] := by
  cases q with
  | nil => rfl
  | cons o q => cases o <;> simp at h1 h2

/-- What a step of a job leaves alone. -/
structure Frame (s s' : SSt α σ) : Prop where
  todo : s'.todo = s.todo
  packet : s'.packet = s.packet
  total : s'.total = s.total
  kills : s'.kills = s.kills
  gone : s'.gone = s.gone
  noKill : ∀ w, Order.kill ∉ s'.queue w
  noise : ∀ w, noise (s'.queue w) + s.finishes w = noise (s.queue w) + s'.finishes w
  mode : (s'.mode = .running ∧ s'.phase ≠ .done ∧ s'.results = s.results) ∨
    (s'.mode = .idle ∧ s'.phase = .done ∧ s'.results = s.results ++ [(s'.table, s'.calls)])

theorem frame_assign {A : Assign σ} {s s₀ : SSt α σ} (hm : s.mode = .running) (hk : ∀ w, Order.kill ∉ s.queue w)
    (h1 : s.todo = s₀.todo) (h2 : s.packet = s₀.packet) (h3 : s.total = s₀.total) (h4 : s.kills = s₀.kills)
    (h5 : s.gone = s₀.gone) (h6 : s.queue = s₀.queue) (h7 : s.finishes = s₀.finishes) (h8 : s.results = s₀.results) :
    Frame s₀ (s.assign A) := by
  unfold SSt.assign
  split
  · exact ⟨h1, h2, h3, h4, h5, hk, fun w => by dsimp only; rw [h6, h7], .inl ⟨hm, by simp, h8⟩⟩
  · refine ⟨h1, h2, h3, h4, h5, ?_, ?_, .inl ⟨hm, by simp [SSt.send], h8⟩⟩
    · intro w
      unfold SSt.send
      dsimp only
      generalize (A.get s.alg).1.toNat = v
      by_cases hv : w = v
      · subst hv
        rw [Function.update_self]
        simpa using hk w
      · rw [Function.update_of_ne hv]; exact hk w
    · intro w
      unfold SSt.send
      dsimp only
      generalize (A.get s.alg).1.toNat = v
      rw [h7, h6]
      by_cases hv : w = v
      · subst hv
        rw [Function.update_self]
        simp
      · rw [Function.update_of_ne hv]

theorem run_step {A : Pool σ} {dyn : Bool} {f : α → α} {s s' : SSt α σ} (hm : s.mode = .running)
    (hph : s.phase ≠ .done) (hk : ∀ w, Order.kill ∉ s.queue w) (h : SStep A dyn f s s') :
    (MStep A.toAssign s.packet f s.total s.core s'.core ∧ Frame s s') ∨
    (s'.core = s.core ∧ ∃ w rest, s.queue w = .finish :: rest ∧
      s' = { s with queue := Function.update s.queue w rest }) := by
  by_cases hi : ∃ w rest, s.queue w = .finish :: rest ∧ s' = { s with queue := Function.update s.queue w rest }
  · obtain ⟨w, rest, h1, rfl⟩ := hi
    refine .inr ⟨?_, w, rest, h1, rfl⟩
    unfold SSt.core
    simp only [MSt.mk.injEq, true_and, and_true]
    funext v
    by_cases hv : v = w
    · subst hv; simp [h1]
    · simp [Function.update_of_ne hv]
  · refine .inl ⟨(core_step hm hk h).resolve_right fun h' => hi h'.2, ?_⟩
    cases h with
    | begin t rest hm' ht => rw [hm] at hm'; simp at hm'
    | stop hm' ht => rw [hm] at hm'; simp at hm'
    | next hm' hp h => exact frame_assign hm hk rfl rfl rfl rfl rfl rfl rfl rfl
    | response w l rest hm' hp h => exact frame_assign hm hk rfl rfl rfl rfl rfl rfl rfl rfl
    | finish hm' hp h =>
      refine ⟨rfl, rfl, rfl, rfl, rfl, ?_, ?_, .inl ⟨hm, by simp, rfl⟩⟩
      · intro w hw
        rcases List.mem_append.1 hw with h1 | h1
        · exact hk w h1
        · have := List.eq_of_mem_replicate h1
          simp at this
      · intro w
        simp
        omega
    | last w l rest hm' hp ht h =>
      refine ⟨rfl, rfl, rfl, rfl, rfl, ?_, ?_, .inl ⟨hm, ?_, rfl⟩⟩
      · intro v
        by_cases hv : v = w
        · subst hv
          simpa using hk v
        · simpa [Function.update_of_ne hv] using hk v
      · intro v
        by_cases hv : v = w
        · subst hv
          simp
          omega
        · simp [Function.update_of_ne hv]
      · rw [show (SSt.handle A.toAssign s w l rest).phase = s.phase from rfl, hp]
        simp
    | leave hm' hp ht => exact ⟨rfl, rfl, rfl, rfl, rfl, hk, fun _ => rfl, .inr ⟨rfl, rfl, rfl⟩⟩
    | work w i l rest hg h =>
      refine ⟨rfl, rfl, rfl, rfl, rfl, ?_, ?_, .inl ⟨hm, hph, rfl⟩⟩
      · intro v
        by_cases hv : v = w
        · subst hv
          simp only [Function.update_self]
          intro h1
          exact hk v (by rw [h]; exact List.mem_cons_of_mem _ h1)
        · simpa [Function.update_of_ne hv] using hk v
      · intro v
        by_cases hv : v = w
        · subst hv
          simp [h]
        · simp [Function.update_of_ne hv]
    | ignore w rest hg h => exact absurd ⟨w, rest, h, rfl⟩ hi
    | quit w rest hg h => exact absurd (show Order.kill ∈ s.queue w by rw [h]; simp) (hk w)

/-! ### One step -/

section
variable {A : Pool σ} {dyn : Bool} {p0 : Nat} {f : α → α} {ws : List Nat} {I : σ → Finset Nat → Nat → Prop}
  {Fresh : σ → Prop} {tables : List (List α)} {s s' : SSt α σ}

/-- The invariant of the job in a session. -/
theorem job_inv (hnd : ws.Nodup) (hA : Reinits A ws I Fresh) {a : σ} {t : List α} {p n : Nat} {m : MSt α σ} (ha : Fresh a)
    (hr : MReach A.toAssign (max p 1) f ws.length (MSt.start a t) n m) :
    ∃ F k, MInv ws.toFinset I (max p 1) f t False F k m := by
  obtain ⟨k, hk⟩ := hA.fresh a ha
  rw [← List.toFinset_card_of_nodup hnd] at hr
  have h0 : MInv ws.toFinset I (max p 1) f t False ws.toFinset k (MSt.start a t) := minv_start hk rfl False.elim
  exact (minv_reach hA.lawful (by omega) h0 hr).1

theorem sinv_ignore (h : SInv A dyn p0 f ws I Fresh tables s) (hm : s.mode ≠ .over) {w : Nat} {rest : List (Order α)}
    (hq : s.queue w = .finish :: rest) :
    SInv A dyn p0 f ws I Fresh tables { s with queue := Function.update s.queue w rest } ∧
    smeasure ws { s with queue := Function.update s.queue w rest } < smeasure ws s := by
  have hal := h.alive hm
  have hw : w ∈ ws := by
    by_contra hw
    rw [(hal w).2.2.2 hw] at hq
    simp at hq
  have hcore : ({ s with queue := Function.update s.queue w rest } : SSt α σ).core = s.core := by
    unfold SSt.core
    simp only [MSt.mk.injEq, true_and, and_true]
    funext v
    by_cases hv : v = w
    · subst hv; simp [hq]
    · simp [Function.update_of_ne hv]
  have htasks : ∀ v, tasks (Function.update s.queue w rest v) = tasks (s.queue v) :=
    fun v => congrFun (congrArg MSt.inbox hcore) v
  have hsum := sum_update (W := ws.toFinset) (g := fun v => noise (s.queue v))
    (h := fun v => noise (Function.update s.queue w rest v)) (w := w) (List.mem_toFinset.2 hw)
    (fun v hv => by rw [Function.update_of_ne hv])
  simp only [Function.update_self, hq, noise_finish] at hsum
  obtain ⟨fin, hfin, hidle, hrun, hover⟩ := h.finished
  refine ⟨⟨h.pack, ⟨fin, hfin, ?_, ?_, hover⟩, ?_, ?_⟩, ?_⟩
  · intro h'
    obtain ⟨e1, e2, e3⟩ := hidle h'
    exact ⟨e1, e2, fun v => ⟨(htasks v).trans (e3 v).1, (e3 v).2⟩⟩
  · intro h'
    rw [hcore]
    exact hrun h'
  · intro _ v
    have hv0 := hal v
    by_cases hv : v = w
    · subst hv
      simp only [Function.update_self]
      refine ⟨fun h1 => hv0.1 (by rw [hq]; exact List.mem_cons_of_mem _ h1), hv0.2.1, hv0.2.2.1, fun h1 => absurd hw h1⟩
    · simpa only [Function.update_of_ne hv] using hv0
  · intro h'; exact absurd h' hm
  · unfold smeasure
    rw [hcore]
    dsimp only
    omega

theorem sinv_step (hnd : ws.Nodup) (hA : Reinits A ws I Fresh)
    (hpk : ∀ t ∈ tables, 0 < packetFor dyn p0 ws.length t ∨ t = [])
    (h : SInv A dyn p0 f ws I Fresh tables s) (hs : SStep A dyn f s s') :
    SInv A dyn p0 f ws I Fresh tables s' ∧ smeasure ws s' < smeasure ws s := by
  have hcard := List.toFinset_card_of_nodup hnd
  obtain ⟨fin, hfin, hidle, hrun, hover⟩ := h.finished
  cases hm : s.mode with
  | running =>
    obtain ⟨t, a, n, e1, e2, e3, e4, e5, e6⟩ := hrun hm
    have hal := h.alive (by rw [hm]; simp)
    obtain ⟨F, k, hinv⟩ := job_inv hnd hA e2 e6
    rcases run_step hm e5 (fun w => (hal w).1) hs with ⟨hst, hfr⟩ | ⟨hcore, w, rest, hq, rfl⟩
    · have hst' := step_pos (by rw [e3]; exact hpk t (by rw [← e1]; simp)) hinv hst
      rw [e4] at hst'
      have hr' := MReach.step n _ _ e6 hst'
      have hlt : measure ws.toFinset s'.core < measure ws.toFinset s.core :=
        (minv_step hA.lawful (by omega) hinv (by rw [hcard]; exact hst')).2
      obtain ⟨F', k', hinv'⟩ := job_inv hnd hA e2 hr'
      have hf : ∀ w, s.finishes w ≤ if w ∈ ws then 1 else 0 := by
        intro w
        have h1 : s.finishes w = _ := hinv.fins w
        rw [h1]
        have h2 : w ∈ F → w ∈ ws := fun h => List.mem_toFinset.1 (hinv.sub h)
        by_cases h3 : w ∈ ws
        · rw [if_pos h3]; split <;> omega
        · rw [if_neg h3, if_neg (fun h => h3 (h2 h.2))]
      have hf' : ∀ w, s'.finishes w ≤ if w ∈ ws then 1 else 0 := by
        intro w
        have h1 : s'.finishes w = _ := hinv'.fins w
        rw [h1]
        have h2 : w ∈ F' → w ∈ ws := fun h => List.mem_toFinset.1 (hinv'.sub h)
        by_cases h3 : w ∈ ws
        · rw [if_pos h3]; split <;> omega
        · rw [if_neg h3, if_neg (fun h => h3 (h2 h.2))]
      have hout : ∀ w, w ∉ ws → s'.queue w = [] := by
        intro w hw
        refine queue_nil (hinv'.free w (.inr (by simpa using hw))).1 ?_
        have h1 := hfr.noise w
        have h2 := (hal w).2.2.2 hw
        have h3 := hf w
        have h4 := hf' w
        rw [if_neg hw] at h3 h4
        rw [h2] at h1
        simp at h1
        omega
      have hsum : ∑ w ∈ ws.toFinset, noise (s'.queue w) + ∑ w ∈ ws.toFinset, (1 - s'.finishes w) =
          ∑ w ∈ ws.toFinset, noise (s.queue w) + ∑ w ∈ ws.toFinset, (1 - s.finishes w) := by
        rw [← Finset.sum_add_distrib, ← Finset.sum_add_distrib]
        refine Finset.sum_congr rfl fun w hw => ?_
        have h1 := hfr.noise w
        have h3 := hf w
        have h4 := hf' w
        rw [if_pos (List.mem_toFinset.1 hw)] at h3 h4
        omega
      rcases hfr.mode with ⟨m1, m2, m3⟩ | ⟨m1, m2, m3⟩
      · refine ⟨⟨fun hd => hfr.packet.trans (h.pack hd), ⟨fin, by rw [m3]; exact hfin, ?_, ?_, ?_⟩, ?_, ?_⟩, ?_⟩
        · intro h'; rw [m1] at h'; simp at h'
        · intro _
          exact ⟨t, a, n + 1, by rw [hfr.todo]; exact e1, e2, hfr.packet.trans e3, hfr.total.trans e4, m2, by
            rw [hfr.packet]; exact hr'⟩
        · intro h'; rw [m1] at h'; simp at h'
        · exact fun _ w => ⟨hfr.noKill w, by rw [hfr.gone]; exact (hal w).2.1, by rw [hfr.kills]; exact (hal w).2.2.1,
            hout w⟩
        · exact fun h' => by rw [m1] at h'; simp at h'
        · unfold smeasure
          rw [hfr.todo, m1, hm]
          dsimp only
          omega
      · have hF : F' = ws.toFinset := hinv'.all m2
        have hfree : ∀ w, s'.core.inbox w = [] ∧ s'.core.outbox w = [] := by
          intro w
          apply hinv'.free
          rw [hF]
          exact Classical.em _
        refine ⟨⟨fun hd => hfr.packet.trans (h.pack hd), ⟨fin ++ [t], ?_, ?_, ?_, ?_⟩, ?_, ?_⟩, ?_⟩
        · rw [m3]
          refine List.rel_append hfin (.cons ⟨a, n + 1, s'.core, e2, ?_, m2, rfl⟩ .nil)
          rw [← e3]; exact hr'
        · intro _
          refine ⟨by rw [hfr.todo, List.append_assoc]; exact e1, ⟨k', ?_⟩, hfree⟩
          rw [← hF]; exact hinv'.alg
        · intro h'; rw [m1] at h'; simp at h'
        · intro h'; rw [m1] at h'; simp at h'
        · exact fun _ w => ⟨hfr.noKill w, by rw [hfr.gone]; exact (hal w).2.1, by rw [hfr.kills]; exact (hal w).2.2.1,
            hout w⟩
        · exact fun h' => by rw [m1] at h'; simp at h'
        · unfold smeasure
          rw [hfr.todo, m1, hm]
          dsimp only
          omega
    · exact sinv_ignore h (by rw [hm]; simp) hq
  | idle =>
    obtain ⟨e1, ⟨k, e2⟩, e3⟩ := hidle hm
    have hal := h.alive (by rw [hm]; simp)
    have hidles : ∀ w, (A.idles s.alg).count w = if w ∈ ws then 1 else 0 := by
      intro w
      rw [hA.lawful.idles _ _ _ w e2 subset_rfl]
      simp
    cases hs with
    | begin t rest hm' ht =>
      have hav : A.availableWorkers s.alg = ws.length := by
        rw [hA.lawful.available _ _ _ e2 subset_rfl, hcard]
      have hfr := hA.reinit s.alg k e2
      obtain ⟨k', hk'⟩ := hA.fresh _ hfr
      have hcore : (s.begin A dyn t rest).core = MSt.start (A.reinit s.alg ws.length) t := by
        unfold SSt.begin SSt.core MSt.start
        simp only [MSt.mk.injEq, true_and, and_true, hav]
        exact ⟨funext fun w => (e3 w).1, funext fun w => (e3 w).2⟩
      refine ⟨⟨?_, ⟨fin, hfin, ?_, ?_, ?_⟩, ?_, ?_⟩, ?_⟩
      · intro hd
        simp only [SSt.begin, hd, if_true]
        exact h.pack hd
      · intro h'; simp [SSt.begin] at h'
      · intro _
        refine ⟨t, A.reinit s.alg ws.length, 0, by rw [← e1, ht]; rfl, hfr, ?_, ?_, by simp [SSt.begin], ?_⟩
        · simp only [SSt.begin, packetFor, hav]
          split
          · exact h.pack ‹_›
          · rfl
        · simp only [SSt.begin, hav]
          rw [hA.lawful.available _ _ _ hk' subset_rfl, hcard]
        · rw [hcore]; exact .init
      · intro h'; simp [SSt.begin] at h'
      · exact fun _ => hal
      · intro h'; simp [SSt.begin] at h'
      · unfold smeasure
        rw [hm, hcore, ht]
        have hms : measure ws.toFinset (MSt.start (A.reinit s.alg ws.length) t) = 4 * t.length + 3 := by
          simp [measure, MSt.start]
        simp only [SSt.begin, hms, List.map_cons, List.sum_cons, Nat.sub_zero, Finset.sum_const, smul_eq_mul, hcard]
        omega
    | next hm' hp h => rw [hm] at hm'; simp at hm'
    | response w l rest hm' hp h => rw [hm] at hm'; simp at hm'
    | finish hm' hp h => rw [hm] at hm'; simp at hm'
    | last w l rest hm' hp ht h => rw [hm] at hm'; simp at hm'
    | leave hm' hp ht => rw [hm] at hm'; simp at hm'
    | stop hm' ht =>
      refine ⟨⟨h.pack, ⟨fin, hfin, ?_, ?_, ?_⟩, ?_, ?_⟩, ?_⟩
      · intro h'; simp at h'
      · intro h'; simp at h'
      · intro _
        exact ⟨by rw [← e1, ht, List.append_nil], ht, fun w => (e3 w).2⟩
      · intro h'; simp at h'
      · intro _ w
        simp only [hidles, (hal w).2.2.1, Nat.zero_add, true_and]
        by_cases hw : w ∈ ws
        · rw [if_pos hw, if_pos hw]
          refine .inl ⟨(hal w).2.1, (s.queue w).length + 1, ?_⟩
          rw [List.replicate_add]
          congr 2
          refine List.eq_replicate_of_mem fun o ho => ?_
          cases o with
          | finish => rfl
          | kill => exact absurd ho (hal w).1
          | cont i l =>
            exfalso
            have : (i, l) ∈ tasks (s.queue w) := List.mem_filterMap.2 ⟨_, ho, rfl⟩
            rw [(e3 w).1] at this
            simp at this
        · rw [if_neg hw, if_neg hw]
          exact ⟨by simp [(hal w).2.2.2 hw], (hal w).2.1⟩
      · unfold smeasure
        rw [hm]
        simp only [hidles, noise_append, noise_finishes, noise_kills]
        have : ∑ w ∈ ws.toFinset, (noise (s.queue w) + (if w ∈ ws then 1 else 0) + (if w ∈ ws then 1 else 0)) =
            ∑ w ∈ ws.toFinset, noise (s.queue w) + 2 * ws.length := by
          rw [Finset.sum_add_distrib, Finset.sum_add_distrib, Finset.sum_congr rfl
            (fun w hw => if_pos (List.mem_toFinset.1 hw)), Finset.sum_const, hcard, smul_eq_mul]
          omega
        rw [this]
        omega
    | work w i l rest hg h => have := (e3 w).1; rw [h] at this; simp at this
    | ignore w rest hg hq => exact sinv_ignore h (by rw [hm]; simp) hq
    | quit w rest hg h => exact absurd (show Order.kill ∈ s.queue w by rw [h]; simp) (hal w).1
  | over =>
    have hen := h.ending hm
    have hcases : ∀ w o rest, s.queue w = o :: rest → w ∈ ws ∧ s.gone w = false ∧
        ((o = .kill ∧ rest = []) ∨ (o = .finish ∧ ∃ j, rest = List.replicate j .finish ++ [.kill])) := by
      intro w o rest hq
      have := (hen w).2
      by_cases hw : w ∈ ws
      · rw [if_pos hw] at this
        rcases this with ⟨h1, j, h2⟩ | ⟨_, h2⟩
        · refine ⟨hw, h1, ?_⟩
          rw [hq] at h2
          cases j with
          | zero => simp at h2; exact .inl h2
          | succ j =>
            rw [List.replicate_succ, List.cons_append, List.cons.injEq] at h2
            exact .inr ⟨h2.1, j, h2.2⟩
        · rw [h2] at hq; simp at hq
      · rw [if_neg hw, hq] at this
        simp at this
    have hdec : ∀ w o rest, s.queue w = o :: rest → (o = .kill ∨ o = .finish) → ∑ v ∈ ws.toFinset,
        noise (Function.update s.queue w rest v) < ∑ v ∈ ws.toFinset, noise (s.queue v) := by
      intro w o rest hq ho
      have hsum := sum_update (W := ws.toFinset) (g := fun v => noise (s.queue v))
        (h := fun v => noise (Function.update s.queue w rest v)) (w := w) (List.mem_toFinset.2 (hcases w o rest hq).1)
        (fun v hv => by rw [Function.update_of_ne hv])
      simp only [Function.update_self, hq] at hsum
      rcases ho with rfl | rfl <;> simp at hsum <;> omega
    cases hs with
    | begin t rest hm' ht => rw [hm] at hm'; simp at hm'
    | next hm' hp h => rw [hm] at hm'; simp at hm'
    | response w l rest hm' hp h => rw [hm] at hm'; simp at hm'
    | finish hm' hp h => rw [hm] at hm'; simp at hm'
    | last w l rest hm' hp ht h => rw [hm] at hm'; simp at hm'
    | leave hm' hp ht => rw [hm] at hm'; simp at hm'
    | stop hm' ht => rw [hm] at hm'; simp at hm'
    | work w i l rest hg hq =>
      rcases (hcases w _ _ hq).2.2 with ⟨h1, _⟩ | ⟨h1, _⟩ <;> simp at h1
    | ignore w rest hg hq =>
      obtain ⟨hw, _, h1⟩ := hcases w _ _ hq
      obtain ⟨j, hj⟩ : ∃ j, rest = List.replicate j .finish ++ [.kill] := by
        rcases h1 with ⟨h2, _⟩ | ⟨_, h2⟩
        · simp at h2
        · exact h2
      refine ⟨⟨h.pack, ⟨fin, hfin, ?_, ?_, hover⟩, ?_, ?_⟩, ?_⟩
      · intro h'; rw [show _ = _ from hm] at h'; simp at h'
      · intro h'; rw [show _ = _ from hm] at h'; simp at h'
      · intro h'; exact absurd hm h'
      · intro _ v
        refine ⟨(hen v).1, ?_⟩
        by_cases hv : v = w
        · subst hv
          simp only [Function.update_self, if_pos hw]
          exact .inl ⟨hg, j, hj⟩
        · simpa only [Function.update_of_ne hv] using (hen v).2
      · have := hdec w _ _ hq (.inr rfl)
        unfold smeasure
        simp only [hm]
        omega
    | quit w rest hg hq =>
      obtain ⟨hw, _, h1⟩ := hcases w _ _ hq
      have hj : rest = [] := by
        rcases h1 with ⟨_, h2⟩ | ⟨h2, _⟩
        · exact h2
        · simp at h2
      refine ⟨⟨h.pack, ⟨fin, hfin, ?_, ?_, hover⟩, ?_, ?_⟩, ?_⟩
      · intro h'; rw [show _ = _ from hm] at h'; simp at h'
      · intro h'; rw [show _ = _ from hm] at h'; simp at h'
      · intro h'; exact absurd hm h'
      · intro _ v
        refine ⟨(hen v).1, ?_⟩
        by_cases hv : v = w
        · subst hv
          simp only [Function.update_self, if_pos hw]
          exact .inr ⟨trivial, hj⟩
        · simpa only [Function.update_of_ne hv] using (hen v).2
      · have := hdec w _ _ hq (.inl rfl)
        unfold smeasure
        simp only [hm]
        omega

end

end Paradiseo.Mpi
