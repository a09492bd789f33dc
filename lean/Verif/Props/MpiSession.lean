import Verif.Lemmas.MpiSession

/-! C346 and C347: the evaluation of populations by worker processes over a whole run. -/

namespace Paradiseo.Mpi

variable {α σ : Type}

section
variable {A : Pool σ} {dyn : Bool} {p0 : Nat} {f : α → α} {ws : List Nat} {I : σ → Finset Nat → Nat → Prop}
  {Fresh : σ → Prop} {tables : List (List α)} {s s' : SSt α σ} {a : σ}

theorem sinv_start {k : Nat} (hI : I a ws.toFinset k) :
    SInv A dyn p0 f ws I Fresh tables (SSt.start a p0 tables) where
  pack := fun _ => rfl
  finished := ⟨[], .nil, fun _ => ⟨rfl, ⟨k, hI⟩, fun _ => ⟨rfl, rfl⟩⟩, fun h => by simp [SSt.start] at h,
    fun h => by simp [SSt.start] at h⟩
  alive := fun _ w => by simp [SSt.start]
  ending := fun h => by simp [SSt.start] at h

theorem sinv_reach (hnd : ws.Nodup) (hA : Reinits A ws I Fresh)
    (hpk : ∀ t ∈ tables, 0 < packetFor dyn p0 ws.length t ∨ t = []) {k n : Nat} (hI : I a ws.toFinset k)
    (hr : SReach A dyn f (SSt.start a p0 tables) n s) :
    SInv A dyn p0 f ws I Fresh tables s ∧ smeasure ws s + n ≤ smeasure ws (SSt.start (α := α) a p0 tables) := by
  induction hr with
  | init => exact ⟨sinv_start hI, le_rfl⟩
  | step n s s' _ hs ih =>
    obtain ⟨h1, h2⟩ := sinv_step hnd hA hpk ih.1 hs
    exact ⟨h1, by omega⟩

/-- Something can be done until all is over, if every job has enough runs. -/
theorem sinv_progress (hnd : ws.Nodup) (hA : Reinits A ws I Fresh)
    (hB : ∀ t ∈ tables, ∀ a, Fresh a → ∃ k, I a ws.toFinset k ∧ t.length ≤ k * max (packetFor dyn p0 ws.length t) 1)
    (h : SInv A dyn p0 f ws I Fresh tables s) (hd : ¬ (s.mode = .over ∧ ∀ w, s.queue w = [])) :
    ∃ s', SStep A dyn f s s' := by
  have hcard := List.toFinset_card_of_nodup hnd
  obtain ⟨fin, hfin, hidle, hrun, hover⟩ := h.finished
  cases hm : s.mode with
  | idle =>
    cases ht : s.todo with
    | nil => exact ⟨_, .stop s hm ht⟩
    | cons t rest => exact ⟨_, .begin s t rest hm ht⟩
  | over =>
    have : ∃ w, s.queue w ≠ [] := by
      by_contra hc
      push Not at hc
      exact hd ⟨hm, hc⟩
    obtain ⟨w, hw⟩ := this
    have hen := (h.ending hm w).2
    split at hen
    · rcases hen with ⟨h1, j, h2⟩ | ⟨_, h2⟩
      · cases j with
        | zero => exact ⟨_, .quit s w [] h1 h2⟩
        | succ j => exact ⟨_, .ignore s w _ h1 h2⟩
      · exact absurd h2 hw
    · exact absurd hen.1 hw
  | running =>
    obtain ⟨t, a, n, e1, e2, e3, e4, e5, e6⟩ := hrun hm
    have hal := h.alive (by rw [hm]; simp)
    obtain ⟨k, hk, hb⟩ := hB t (by rw [← e1]; simp) a e2
    rw [e3] at e6
    generalize hq : max (packetFor dyn p0 ws.length t) 1 = q at e6 hb
    rw [← hcard] at e6
    have h0 : MInv ws.toFinset I q f t True ws.toFinset k (MSt.start a t) := minv_start hk rfl fun _ => hb
    obtain ⟨⟨F, k', hinv⟩, _⟩ := minv_reach hA.lawful (by omega) h0 e6
    obtain ⟨m', hst⟩ := minv_progress hA.lawful hinv trivial e5
    cases hst with
    | next hp hne => exact ⟨_, .next s hm hp hne⟩
    | response w l rest hp ho => exact ⟨_, .response s w l rest hm hp ho⟩
    | finish hp he => exact ⟨_, .finish s hm hp he⟩
    | last w l rest hp ht ho => exact ⟨_, .last s w l rest hm hp (by rw [e4, ← hcard]; exact ht) ho⟩
    | leave hp ht => exact ⟨_, .leave s hm hp (by rw [e4, ← hcard]; exact ht)⟩
    | work w i l rest hi =>
      cases hq : s.queue w with
      | nil => simp [SSt.core, hq] at hi
      | cons o q =>
        cases o with
        | cont i l => exact ⟨_, .work s w i l q (hal w).2.1 hq⟩
        | finish => exact ⟨_, .ignore s w q (hal w).2.1 hq⟩
        | kill => exact absurd (show Order.kill ∈ s.queue w by rw [hq]; simp) (hal w).1

end

/-- What a user expects of a run when the evaluator has been destroyed: every population was evaluated, each
individual once; every worker was sent the order to leave once, and nobody else; and once no order is under way all workers
have left. -/
def Served (f : α → α) (ws : List Nat) (tables : List (List α)) (s : SSt α σ) : Prop :=
  s.results.map Prod.fst = tables.map (fun t => t.map f) ∧
  (∀ (i : Nat) (r : List α × List Nat), s.results[i]? = some r → ∀ q, r.2.count q = if q < r.1.length then 1 else 0) ∧
  (∀ w, s.kills w = if w ∈ ws then 1 else 0) ∧ (∀ w, s.outbox w = []) ∧
  ((∀ w, s.queue w = []) → ∀ w, s.gone w = decide (w ∈ ws))

/-- A run ends: it is over after a number of steps that depends only on the sizes, and until then there is always
something to do. -/
def RunEnds (A : Pool σ) (dyn : Bool) (f : α → α) (ws : List Nat) (tables : List (List α)) (s₀ : SSt α σ) : Prop :=
  ∀ n s, SReach A dyn f s₀ n s →
    n ≤ (tables.map fun t => 4 * t.length + 4 + ws.length).sum + 1 + 2 * ws.length ∧
    (¬ (s.mode = .over ∧ ∀ w, s.queue w = []) → ∃ s', SStep A dyn f s s')

section
variable {A : Pool σ} {dyn : Bool} {p0 : Nat} {f : α → α} {ws : List Nat} {I : σ → Finset Nat → Nat → Prop}
  {Fresh : σ → Prop} {tables : List (List α)} {s s' : SSt α σ} {a : σ}

theorem served_of_inv (hnd : ws.Nodup) (hA : Reinits A ws I Fresh) (h : SInv A dyn p0 f ws I Fresh tables s)
    (hm : s.mode = .over) : Served f ws tables s := by
  obtain ⟨fin, hfin, hidle', hrun', hover⟩ := h.finished
  obtain ⟨e, _, hout⟩ := hover hm
  rw [← e]
  have hen := h.ending hm
  have happ : ∀ t r, Done A f ws.length Fresh (packetFor dyn p0 ws.length t) t r → r.1 = t.map f ∧
      ∀ q, r.2.count q = if q < r.1.length then 1 else 0 := by
    rintro t r ⟨a, j, m, ha, hr, hd, rfl⟩
    obtain ⟨F, k, hinv⟩ := job_inv hnd hA ha hr
    obtain ⟨h1, h2, _⟩ := applied_of_inv hinv hd
    refine ⟨h1, fun q => ?_⟩
    dsimp only
    rw [h1, List.length_map]
    exact h2 q
  refine ⟨?_, ?_, fun w => (hen w).1, hout, ?_⟩
  · clear hout
    generalize s.results = rs at hfin
    clear h hover hidle' hrun' e
    induction hfin with
    | nil => rfl
    | cons hd _ ih => simp [(happ _ _ hd).1, ih]
  · intro i r hr
    have : ∃ t, Done A f ws.length Fresh (packetFor dyn p0 ws.length t) t r := by
      clear hout hidle' hrun' hover h e
      generalize s.results = rs at hfin hr
      induction hfin generalizing i with
      | nil => simp at hr
      | cons hd _ ih =>
        cases i with
        | zero => simp at hr; subst hr; exact ⟨_, hd⟩
        | succ i => exact ih i (by simpa using hr)
    obtain ⟨t, ht⟩ := this
    exact (happ t r ht).2
  · intro hq w
    have := (hen w).2
    by_cases hw : w ∈ ws
    · rw [if_pos hw] at this
      rcases this with ⟨_, j, h2⟩ | ⟨h1, _⟩
      · rw [hq w] at h2; simp at h2
      · simp [h1, hw]
    · rw [if_neg hw] at this
      simp [this.2, hw]

theorem start_measure (ws : List Nat) (a : σ) (p0 : Nat) (tables : List (List α)) :
    smeasure ws (SSt.start a p0 tables) =
      (tables.map fun t => 4 * t.length + 4 + ws.length).sum + 1 + 2 * ws.length := by
  simp [smeasure, SSt.start]
  omega

end

/-! ### The two algorithms -/

theorem dynamic_reinits (ws : List Nat) (hpos : ∀ w ∈ ws, 0 < w) (hne : ws ≠ []) :
    Reinits dynamicPool ws (fun s F _ => s.Nodup ∧ ∀ w, w ∈ s ↔ w ∈ F)
      (fun s => s.Nodup ∧ ∀ w, w ∈ s ↔ w ∈ ws.toFinset) where
  lawful := by
    refine dynamic_lawful _ ?_ ?_
    · rw [List.mem_toFinset]
      intro h
      exact absurd (hpos 0 h) (by omega)
    · obtain ⟨w, hw⟩ := List.exists_mem_of_ne_nil ws hne
      exact ⟨w, List.mem_toFinset.mpr hw⟩
  fresh := fun _ h => ⟨0, h⟩
  reinit := fun _ _ h => h

theorem packet_pos (dyn : Bool) (p0 n : Nat) (hn : 0 < n) (hp : 0 < p0) (t : List α) :
    0 < packetFor dyn p0 n t ∨ t = [] := by
  unfold packetFor
  split
  · exact .inl hp
  · cases t with
    | nil => exact .inr rfl
    | cons x t =>
      left
      unfold ceilDiv
      exact Nat.div_pos (by simp) hn

/-- **C346** (dynamic assignment).  A run with the dynamic assignment and at least one worker ends, whatever the order in
which messages travel and workers compute, and when it is over every population was evaluated and every worker has
left. -/
theorem C346_dynamic (ws : List Nat) (hnd : ws.Nodup) (hpos : ∀ w ∈ ws, 0 < w) (hne : ws ≠ []) (dyn : Bool) (p0 : Nat)
    (hp : 0 < p0) (f : α → α) (tables : List (List α)) :
    RunEnds dynamicPool dyn f ws tables (SSt.start ws p0 tables) ∧
    ∀ n s, SReach dynamicPool dyn f (SSt.start ws p0 tables) n s → s.mode = .over → Served f ws tables s := by
  have hA := dynamic_reinits ws hpos hne
  have hpk : ∀ t ∈ tables, 0 < packetFor dyn p0 ws.length t ∨ t = [] :=
    fun t _ => packet_pos dyn p0 _ (List.length_pos_of_ne_nil hne) hp t
  have hI : (ws.Nodup ∧ ∀ w, w ∈ ws ↔ w ∈ ws.toFinset) := ⟨hnd, fun w => by simp⟩
  refine ⟨fun n s hr => ?_, fun n s hr hm => ?_⟩
  · obtain ⟨h1, h2⟩ := sinv_reach hnd hA hpk (k := 0) hI hr
    rw [start_measure] at h2
    refine ⟨by omega, fun hd => sinv_progress hnd hA ?_ h1 hd⟩
    intro t _ a ha
    exact ⟨t.length, ha, Nat.le_mul_of_pos_right _ (by omega)⟩
  · exact served_of_inv hnd hA (sinv_reach hnd hA hpk (k := 0) hI hr).1 hm

theorem staticGet_ranks : ∀ (l l' : List (Int × Nat × Bool)) (r : Nat), staticGet l = some (r, l') →
    l'.map (fun x => x.2.1) = l.map fun x => x.2.1 := by
  intro l l' r h
  obtain ⟨l1, a, l2, rfl, _, rfl⟩ := staticGet_some h
  simp

theorem staticConfirm_ranks (rank : Nat) (l : List (Int × Nat × Bool)) :
    (staticConfirm rank l).map (fun x => x.2.1) = l.map fun x => x.2.1 := by
  induction l with
  | nil => rfl
  | cons x l ih =>
    obtain ⟨a, r, b⟩ := x
    unfold staticConfirm
    split
    · rfl
    · simp [ih]

theorem init_ranks {ws : List Nat} {runs : Nat} {s : Static} (h : Static.init ws runs = some s) :
    s.slots.map (fun x => x.2.1) = ws := by
  unfold Static.init at h
  split at h
  · simp at h
  · simp only [Option.some.injEq] at h
    subst h
    simp only [List.map_map]
    exact List.zipIdx_map_fst ..

theorem static_reinits (ws : List Nat) (hnd : ws.Nodup) (hpos : ∀ w ∈ ws, 0 < w) (hne : ws ≠ []) :
    Reinits staticPool ws (fun s F k => StaticInv ws.toFinset s F k ∧ s.slots.map (fun x => x.2.1) = ws)
      (fun s => Static.init ws ws.length = some s) := by
  have hW : 0 ∉ ws.toFinset := by
    rw [List.mem_toFinset]
    intro h
    exact absurd (hpos 0 h) (by omega)
  have hL := static_lawful ws.toFinset hW
  have hget : ∀ s : Static, ((static.get s).2.slots).map (fun x => x.2.1) = s.slots.map fun x => x.2.1 := by
    intro s
    unfold static
    dsimp only
    cases hg : staticGet s.slots with
    | none => rfl
    | some p => exact staticGet_ranks _ _ _ hg
  refine ⟨⟨?_, ?_, ?_, ?_, ?_⟩, ?_, ?_⟩
  · rintro s F k ⟨h1, h2⟩ hF
    rcases hL.get s F k h1 hF with ⟨g1, g2⟩ | ⟨r, g1, g2, g3, g4⟩
    · exact .inl ⟨g1, g2, (hget s).trans h2⟩
    · exact .inr ⟨r, g1, g2, g3, g4, (hget s).trans h2⟩
  · rintro s F k w ⟨h1, h2⟩ hF hw hwF
    exact ⟨hL.confirm s F k w h1 hF hw hwF, (staticConfirm_ranks w s.slots).trans h2⟩
  · rintro s F k ⟨h1, _⟩ hF
    exact hL.available s F k h1 hF
  · rintro s F k w ⟨h1, _⟩ hF
    exact hL.idles s F k w h1 hF
  · rintro s k ⟨h1, _⟩ hk
    exact hL.live s k h1 hk
  · intro a ha
    exact ⟨ws.length, init_inv hnd ha, init_ranks ha⟩
  · rintro s k ⟨_, h2⟩
    have hlen : ws.length ≠ 0 := fun h => hne (List.eq_nil_of_length_eq_zero h)
    show Static.init ws ws.length = some ((Static.init (s.slots.map fun x => x.2.1) ws.length).getD s)
    rw [h2]
    unfold Static.init
    rw [if_neg hlen]
    rfl

theorem ceilDiv_enough (n m : Nat) (hm : 0 < m) : n ≤ m * max (ceilDiv n m) 1 := by
  unfold ceilDiv
  have h1 := Nat.div_add_mod (n + m - 1) m
  have h2 := Nat.mod_lt (n + m - 1) hm
  have h3 : m * ((n + m - 1) / m) ≤ m * max ((n + m - 1) / m) 1 := Nat.mul_le_mul_left _ (by omega)
  omega

/-- **C346** (static assignment).  The same with the static assignment, whatever number of runs it was made for, if the
loops are not dynamic: then the packets are made as many as there are workers. -/
theorem C346_static (ws : List Nat) (hnd : ws.Nodup) (hpos : ∀ w ∈ ws, 0 < w) (p0 : Nat) (hp : 0 < p0) (f : α → α)
    (tables : List (List α)) (runs : Nat) (a : Static) (ha : Static.init ws runs = some a) :
    RunEnds staticPool false f ws tables (SSt.start a p0 tables) ∧
    ∀ n s, SReach staticPool false f (SSt.start a p0 tables) n s → s.mode = .over → Served f ws tables s := by
  have hne : ws ≠ [] := by
    rintro rfl
    simp [Static.init] at ha
  have hA := static_reinits ws hnd hpos hne
  have hpk : ∀ t ∈ tables, 0 < packetFor false p0 ws.length t ∨ t = [] :=
    fun t _ => packet_pos false p0 _ (List.length_pos_of_ne_nil hne) hp t
  have hI : StaticInv ws.toFinset a ws.toFinset runs ∧ a.slots.map (fun x => x.2.1) = ws :=
    ⟨init_inv hnd ha, init_ranks ha⟩
  refine ⟨fun n s hr => ?_, fun n s hr hm => ?_⟩
  · obtain ⟨h1, h2⟩ := sinv_reach hnd hA hpk hI hr
    rw [start_measure] at h2
    refine ⟨by omega, fun hd => sinv_progress hnd hA ?_ h1 hd⟩
    intro t _ a' ha'
    refine ⟨ws.length, ⟨init_inv hnd ha', init_ranks ha'⟩, ?_⟩
    exact ceilDiv_enough _ _ (List.length_pos_of_ne_nil hne)
  · exact served_of_inv hnd hA (sinv_reach hnd hA hpk hI hr).1 hm

/-- **C347** (the default).  With the static assignment and the loops dynamic, as they are by default, a run in which a
population has more packets than there are workers never comes to its end: after a bounded number of steps nothing
happens any more, and the evaluator has not been destroyed. -/
theorem C347_static_default (ws : List Nat) (hnd : ws.Nodup) (hpos : ∀ w ∈ ws, 0 < w) (p0 : Nat) (hp : 0 < p0) (f : α → α)
    (tables : List (List α)) (runs : Nat) (a : Static) (ha : Static.init ws runs = some a)
    (hbig : ∃ t ∈ tables, ws.length * p0 < t.length) (n : Nat) (s : SSt α Static)
    (hr : SReach staticPool true f (SSt.start a p0 tables) n s) :
    s.mode ≠ .over ∧ s.results.length < tables.length ∧ (∀ w, s.gone w = false ∧ s.kills w = 0) ∧
    n ≤ (tables.map fun t => 4 * t.length + 4 + ws.length).sum + 1 + 2 * ws.length := by
  have hne : ws ≠ [] := by
    rintro rfl
    simp [Static.init] at ha
  have hA := static_reinits ws hnd hpos hne
  have hpk : ∀ t ∈ tables, 0 < packetFor true p0 ws.length t ∨ t = [] :=
    fun t _ => packet_pos true p0 _ (List.length_pos_of_ne_nil hne) hp t
  have hI : StaticInv ws.toFinset a ws.toFinset runs ∧ a.slots.map (fun x => x.2.1) = ws :=
    ⟨init_inv hnd ha, init_ranks ha⟩
  obtain ⟨h1, h2⟩ := sinv_reach hnd hA hpk hI hr
  rw [start_measure] at h2
  obtain ⟨fin, hfin, hidle, hrun, hover⟩ := h1.finished
  have hsmall : ∀ t ∈ fin, t.length ≤ ws.length * p0 := by
    clear hidle hrun hover h1 h2
    generalize s.results = rs at hfin
    induction hfin with
    | nil => simp
    | cons hd _ ih =>
      intro t ht
      rcases List.mem_cons.1 ht with rfl | ht
      · obtain ⟨a', j, m, ha', hr', hd', _⟩ := hd
        by_contra hc
        push Not at hc
        have e : max (packetFor true p0 ws.length t) 1 = p0 := Nat.max_eq_left hp
        rw [e] at hr'
        exact (C121_static_short ws hnd hpos p0 hp f t ws.length a' ha' hc j m hr').1 hd'
      · exact ih t ht
  have hlen := hfin.length_eq
  obtain ⟨t, ht, hb⟩ := hbig
  have hlt : fin.length < tables.length := by
    cases hm : s.mode with
    | idle =>
      rw [← (hidle hm).1] at ht ⊢
      rcases List.mem_append.1 ht with h | h
      · have := hsmall t h; omega
      · have := List.length_pos_of_mem h
        rw [List.length_append]; omega
    | running =>
      obtain ⟨t', _, _, e, _⟩ := hrun hm
      rw [← e, List.length_append, List.length_cons]; omega
    | over =>
      rw [← (hover hm).1] at ht
      have := hsmall t ht
      omega
  have hno : s.mode ≠ .over := by
    intro hm
    rw [(hover hm).1] at hlt
    omega
  exact ⟨hno, by omega, fun w => ⟨(h1.alive hno w).2.1, (h1.alive hno w).2.2.1⟩, by omega⟩

/-! ### Examples -/

/-- A whole run: one worker, one population, the destructor, and the worker leaves. -/
example : ∃ s, SReach dynamicPool true (fun x : Nat => x + 1) (SSt.start [1] 2 [[5, 6]]) 10 s ∧ s.mode = .over ∧
    s.results = [([6, 7], [0, 1])] ∧ s.gone 1 = true ∧ s.queue 1 = [] := by
  refine ⟨_, .step _ _ _ (.step _ _ _ (.step _ _ _ (.step _ _ _ (.step _ _ _ (.step _ _ _ (.step _ _ _ (.step _ _ _
    (.step _ _ _ (.step _ _ _ .init
    (.begin _ [5, 6] [] rfl rfl)) (.next _ rfl rfl (by decide))) (.work _ 1 0 [5, 6] [] rfl rfl))
    (.finish _ rfl rfl rfl)) (.last _ 1 [6, 7] [] rfl rfl (by decide) rfl)) (.leave _ rfl rfl rfl))
    (.stop _ rfl rfl)) (.ignore _ 1 [.finish, .kill] rfl rfl)) (.ignore _ 1 [.kill] rfl rfl)) (.quit _ 1 [] rfl rfl),
    rfl, rfl, rfl, rfl⟩

example : RunEnds dynamicPool false (fun x : Nat => x + 1) [4, 2] [[5, 6, 7], [], [8]]
    (SSt.start [4, 2] 3 [[5, 6, 7], [], [8]]) :=
  (C346_dynamic [4, 2] (by decide) (by decide) (by decide) false 3 (by decide) _ _).1

example : RunEnds staticPool false (fun x : Nat => x + 1) [4, 2] [[5, 6, 7], [], [8]]
    (SSt.start (⟨[(2, 4, false), (1, 2, false)], 2⟩ : Static) 1 [[5, 6, 7], [], [8]]) :=
  (C346_static [4, 2] (by decide) (by decide) 1 (by decide) _ _ 3 _ rfl).1

/-- The default packet size is 1: two workers and three individuals are enough for C347. -/
example (n : Nat) (s : SSt Nat Static)
    (hr : SReach staticPool true (fun x : Nat => x + 1)
      (SSt.start (⟨[(2, 4, false), (1, 2, false)], 2⟩ : Static) 1 [[5, 6, 7]]) n s) : s.mode ≠ .over :=
  (C347_static_default [4, 2] (by decide) (by decide) 1 (by decide) _ _ 3 _ rfl ⟨[5, 6, 7], by decide, by decide⟩ n s hr).1

end Paradiseo.Mpi
