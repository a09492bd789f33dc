import Verif.Lemmas.Mpi

/-! Properties of the jobs of eo/src/mpi (C120–C122). -/

namespace Paradiseo.Mpi

variable {α : Type}

/-- What a user of the parallel application of a function expects when the job is over: every entry of
the table was replaced by its image, the function was called once for each entry, every worker was told
once to stop (and nobody else was), and no message is left in the channels. -/
def Applied {σ : Type} (f : α → α) (ws : List Nat) (t0 : List α) (s : MSt α σ) : Prop :=
  s.table = t0.map f ∧
  (∀ q, s.calls.count q = if q < t0.length then 1 else 0) ∧
  (∀ w, s.finishes w = if w ∈ ws then 1 else 0) ∧
  ∀ w, s.inbox w = [] ∧ s.outbox w = []

/-- An execution ends: it is over after a number of steps that depends only on the size of the table, and
until then there is always something to do. -/
def Ends {σ : Type} (A : Assign σ) (p : Nat) (f : α → α) (ws : List Nat) (s₀ : MSt α σ) : Prop :=
  ∀ n s, MReach A p f ws.length s₀ n s →
    n ≤ 4 * s₀.table.length + 3 ∧ (s.phase ≠ .done → ∃ s', MStep A p f ws.length s s')

theorem applied_of_inv {σ : Type} {ws : List Nat} {I : σ → Finset Nat → Nat → Prop} {p : Nat}
    {f : α → α} {t0 : List α} {B : Prop} {F : Finset Nat} {k : Nat} {s : MSt α σ}
    (h : MInv ws.toFinset I p f t0 B F k s) (hd : s.phase = .done) : Applied f ws t0 s := by
  have hF := h.all hd
  have hi := h.ended (Or.inr hd)
  have hfree : ∀ w, s.inbox w = [] ∧ s.outbox w = [] := by
    intro w
    apply h.free
    rw [hF]
    exact Classical.em _
  refine ⟨?_, ?_, ?_, hfree⟩
  · apply List.ext_getElem?
    intro q
    rw [List.getElem?_map]
    rcases Nat.lt_or_ge q t0.length with hq | hq
    · rcases h.ready q (by omega) with h1 | ⟨w, h1, h2, _⟩
      · exact h1
      · rw [hF] at h2
        exact absurd h1 h2
    · have h1 := h.len
      rw [List.getElem?_eq_none (by omega), List.getElem?_eq_none hq]
      rfl
  · intro q
    have := h.cnt q
    simpa [hfree, pend, hi] using this
  · intro w
    rw [h.fins, hF]
    simp [hd]

theorem ends_of_inv {σ : Type} {A : Assign σ} {ws : List Nat} {I : σ → Finset Nat → Nat → Prop}
    {p : Nat} {f : α → α} {t0 : List α} {k : Nat} {a : σ} (hnd : ws.Nodup)
    (hA : Lawful A ws.toFinset I) (hp : 0 < p) (hI : I a ws.toFinset k) (hB : t0.length ≤ k * p) :
    Ends A p f ws (MSt.start a t0) := by
  intro n s hr
  rw [← List.toFinset_card_of_nodup hnd] at hr ⊢
  have h0 : MInv ws.toFinset I p f t0 True ws.toFinset k (MSt.start a t0) :=
    minv_start hI rfl fun _ => hB
  obtain ⟨⟨F, k', h1⟩, h2⟩ := minv_reach hA hp h0 hr
  refine ⟨?_, fun hd => minv_progress hA h1 trivial hd⟩
  have : measure ws.toFinset (MSt.start a t0) = 4 * t0.length + 3 := by
    simp [measure, MSt.start]
  simp only [MSt.start] at this h2 ⊢
  omega

/-- **C120** With the dynamic assignment, whatever the order in which messages travel and workers
compute, a job that is over has applied the function. -/
theorem C120_dynamic (ws : List Nat) (hnd : ws.Nodup) (hpos : ∀ w ∈ ws, 0 < w) (p : Nat) (hp : 0 < p)
    (f : α → α) (t0 : List α) (n : Nat) (s : MSt α (List Nat))
    (hr : MReach dynamic p f ws.length (MSt.start ws t0) n s) (hd : s.phase = .done) :
    Applied f ws t0 s := by
  rcases ws.eq_nil_or_concat with rfl | ⟨l, r, rfl⟩
  · -- without workers only the empty table is ever finished
    have key : ∀ n (s : MSt α (List Nat)), MReach dynamic p f 0 (MSt.start [] t0) n s →
        s.alg = [] ∧ s.index = 0 ∧ s.table = t0 ∧ (∀ w, s.inbox w = [] ∧ s.outbox w = []) ∧
        s.calls = [] ∧ (∀ w, s.finishes w = 0) ∧ (s.phase = .fin ∨ s.phase = .done → t0 = []) := by
      intro n s hr
      induction hr with
      | init => simp [MSt.start]
      | step n s s' _ hs ih =>
        obtain ⟨h1, h2, h3, h4, h5, h6, h7⟩ := ih
        cases hs with
        | next hp h => simp [MSt.assign, dynamic, h1, h2, h3, h4, h5, h6]
        | response w l rest hp h => rw [(h4 w).2] at h; simp at h
        | finish hp h =>
          rw [h2, h3] at h
          have : t0 = [] := List.eq_nil_of_length_eq_zero h.symm
          simp [h1, h2, h3, h4, h5, h6, dynamic, this]
        | last w l rest hp ht h => rw [(h4 w).2] at h; simp at h
        | leave hp ht =>
          have := h7 (Or.inl hp)
          simp [h1, h2, h3, h4, h5, h6, this]
        | work w i l rest h => rw [(h4 w).1] at h; simp at h
    obtain ⟨h1, h2, h3, h4, h5, h6, h7⟩ := key n s hr
    have := h7 (Or.inr hd)
    subst this
    exact ⟨by simp [h3], by simp [h5], by simp [h6], h4⟩
  · generalize hws : l.concat r = ws at *
    have hW : 0 ∉ ws.toFinset := by
      rw [List.mem_toFinset]
      intro h
      exact absurd (hpos 0 h) (by omega)
    have hne : ws.toFinset.Nonempty := ⟨r, by rw [← hws]; simp⟩
    have hA := dynamic_lawful ws.toFinset hW hne
    rw [← List.toFinset_card_of_nodup hnd] at hr
    have h0 : MInv ws.toFinset _ p f t0 False ws.toFinset 0 (MSt.start ws t0) :=
      minv_start (I := fun s F (_ : Nat) => s.Nodup ∧ ∀ w, w ∈ s ↔ w ∈ F)
        ⟨hnd, fun w => by simp [MSt.start]⟩ rfl False.elim
    obtain ⟨⟨F, k, h1⟩, _⟩ := minv_reach hA hp h0 hr
    exact applied_of_inv h1 hd

/-- **C120** The same with the static assignment, whatever the announced number of runs. -/
theorem C120_static (ws : List Nat) (hnd : ws.Nodup) (hpos : ∀ w ∈ ws, 0 < w) (p : Nat) (hp : 0 < p)
    (f : α → α) (t0 : List α) (runs : Nat) (a : Static) (ha : Static.init ws runs = some a) (n : Nat)
    (s : MSt α Static)
    (hr : MReach static p f ws.length (MSt.start a t0) n s) (hd : s.phase = .done) :
    Applied f ws t0 s := by
  have hW : 0 ∉ ws.toFinset := by
    rw [List.mem_toFinset]
    intro h
    exact absurd (hpos 0 h) (by omega)
  rw [← List.toFinset_card_of_nodup hnd] at hr
  have h0 : MInv ws.toFinset (StaticInv ws.toFinset) p f t0 False ws.toFinset runs (MSt.start a t0) :=
    minv_start (init_inv hnd ha) rfl False.elim
  obtain ⟨⟨F, k, h1⟩, _⟩ := minv_reach (static_lawful _ hW) hp h0 hr
  exact applied_of_inv h1 hd

/-- **C121** With the dynamic assignment and at least one worker, every execution ends. -/
theorem C121_dynamic (ws : List Nat) (hnd : ws.Nodup) (hpos : ∀ w ∈ ws, 0 < w) (hne : ws ≠ [])
    (p : Nat) (hp : 0 < p) (f : α → α) (t0 : List α) : Ends dynamic p f ws (MSt.start ws t0) := by
  have hW : 0 ∉ ws.toFinset := by
    rw [List.mem_toFinset]
    intro h
    exact absurd (hpos 0 h) (by omega)
  refine ends_of_inv (k := t0.length) hnd (dynamic_lawful _ hW ?_) hp ⟨hnd, fun w => by simp⟩ ?_
  · obtain ⟨w, hw⟩ := List.exists_mem_of_ne_nil ws hne
    exact ⟨w, List.mem_toFinset.mpr hw⟩
  · exact Nat.le_mul_of_pos_right _ hp

/-- **C121** With the static assignment, every execution ends if the announced number of runs is at
least the number of packets. -/
theorem C121_static (ws : List Nat) (hnd : ws.Nodup) (hpos : ∀ w ∈ ws, 0 < w) (p : Nat) (hp : 0 < p)
    (f : α → α) (t0 : List α) (runs : Nat) (a : Static) (ha : Static.init ws runs = some a)
    (hruns : t0.length ≤ runs * p) : Ends static p f ws (MSt.start a t0) := by
  have hW : 0 ∉ ws.toFinset := by
    rw [List.mem_toFinset]
    intro h
    exact absurd (hpos 0 h) (by omega)
  exact ends_of_inv hnd (static_lawful _ hW) hp (init_inv hnd ha) hruns

/-- **C121** With fewer announced runs than packets, no execution ever comes to its end. -/
theorem C121_static_short (ws : List Nat) (hnd : ws.Nodup) (hpos : ∀ w ∈ ws, 0 < w) (p : Nat)
    (hp : 0 < p) (f : α → α) (t0 : List α) (runs : Nat) (a : Static)
    (ha : Static.init ws runs = some a) (hruns : runs * p < t0.length) (n : Nat) (s : MSt α Static)
    (hr : MReach static p f ws.length (MSt.start a t0) n s) :
    s.phase ≠ .done ∧ n ≤ 4 * t0.length + 3 := by
  have hW : 0 ∉ ws.toFinset := by
    rw [List.mem_toFinset]
    intro h
    exact absurd (hpos 0 h) (by omega)
  have hi := static_index (init_inv hnd ha).total hr
  rw [← List.toFinset_card_of_nodup hnd] at hr
  have h0 : MInv ws.toFinset (StaticInv ws.toFinset) p f t0 False ws.toFinset runs (MSt.start a t0) :=
    minv_start (init_inv hnd ha) rfl False.elim
  obtain ⟨⟨F, k, h1⟩, h2⟩ := minv_reach (static_lawful _ hW) hp h0 hr
  constructor
  · intro hd
    have h3 := h1.ended (Or.inr hd)
    have h4 : left s.alg.slots = k := h1.alg.total
    rw [h4, h3] at hi
    have h5 : (0 : Int) ≤ (k : Int) * p := Int.mul_nonneg (by omega) (by omega)
    have h6 : ((runs * p : Nat) : Int) < t0.length := by exact_mod_cast hruns
    push_cast at h6
    omega
  · have : measure ws.toFinset (MSt.start a t0) = 4 * t0.length + 3 := by
      simp [measure, MSt.start]
    omega

/-- **C122** The static assignment shares the runs out: the shares of two workers differ by at most one,
the earlier worker has the larger one, and together they are the announced number. -/
theorem C122_shares (ws : List Nat) (runs : Nat) (a : Static) (ha : Static.init ws runs = some a) :
    a.slots.map (fun x => x.2.1) = ws ∧ (∀ x ∈ a.slots, x.2.2 = false) ∧
    (a.slots.map fun x => x.1).sum = runs ∧
    ∀ (i j : Nat) (x y : Int × Nat × Bool), i ≤ j → a.slots[i]? = some x → a.slots[j]? = some y →
      y.1 ≤ x.1 ∧ x.1 ≤ y.1 + 1 := by
  unfold Static.init at ha
  split at ha
  · simp at ha
  · rename_i hlen
    simp only [Option.some.injEq] at ha
    subst ha
    refine ⟨?_, ?_, ?_, ?_⟩
    · simp only
      rw [List.map_map]
      exact List.zipIdx_map_fst 0 ws
    · intro x hx
      obtain ⟨⟨r, i⟩, _, rfl⟩ := List.mem_map.mp hx
      rfl
    · have h2 := sum_zipIdx_ite ws (runs - (runs / ws.length) * ws.length) 0
        ((runs / ws.length : Nat) : Int)
      simp only
      rw [List.map_map]
      have h3 := Nat.div_add_mod runs ws.length
      have h4 := Nat.mod_lt runs (Nat.pos_of_ne_zero hlen)
      rw [Nat.mul_comm] at h3
      have h5 : min (runs - (runs / ws.length) * ws.length - 0) ws.length = runs % ws.length := by
        omega
      rw [h5] at h2
      have h6 : ((runs / ws.length : Nat) : Int) * ws.length + ((runs % ws.length : Nat) : Int)
          = runs := by exact_mod_cast h3
      rw [h6] at h2
      exact h2
    · intro i j x y hij hx hy
      simp only [List.getElem?_map, List.getElem?_zipIdx, Option.map_map, Option.map_eq_some_iff] at hx hy
      obtain ⟨u, _, rfl⟩ := hx
      obtain ⟨v, _, rfl⟩ := hy
      simp only [Function.comp_apply]
      constructor <;> split <;> split <;> omega

/-- Any use of an assignment algorithm: `get` and `confirm`, where only workers that have a task are
confirmed.  The lists are the ranks handed out so far, and those not yet confirmed. -/
inductive Uses {σ : Type} (A : Assign σ) (s₀ : σ) : σ → List Nat → List Nat → Prop where
  | start : Uses A s₀ s₀ [] []
  | nobody (s : σ) (given out : List Nat) (h : Uses A s₀ s given out) (hg : (A.get s).1 ≤ 0) :
      Uses A s₀ (A.get s).2 given out
  | get (s : σ) (given out : List Nat) (r : Nat) (h : Uses A s₀ s given out) (hr : 0 < r)
      (hg : (A.get s).1 = r) : Uses A s₀ (A.get s).2 (r :: given) (r :: out)
  | confirm (s : σ) (given out : List Nat) (r : Nat) (h : Uses A s₀ s given out) (hr : r ∈ out) :
      Uses A s₀ (A.confirm s r) given (out.erase r)

theorem uses_inv {ws : List Nat} {runs : Nat} {a s : Static} {given out : List Nat}
    (hnd : ws.Nodup) (hpos : ∀ w ∈ ws, 0 < w) (ha : Static.init ws runs = some a)
    (h : Uses static a s given out) :
    (∃ F k, StaticInv ws.toFinset s F k ∧ F ⊆ ws.toFinset ∧ k + given.length = runs) ∧
    (∀ x ∈ a.slots, ∃ c b, (c, x.2.1, b) ∈ s.slots ∧ x.1 = c + given.count x.2.1 - out.count x.2.1 ∧
      out.count x.2.1 = if b then 1 else 0) ∧ ∀ r ∈ out, r ∈ ws := by
  have hW : 0 ∉ ws.toFinset := by
    rw [List.mem_toFinset]
    intro h
    exact absurd (hpos 0 h) (by omega)
  have hA := static_lawful ws.toFinset hW
  induction h with
  | start =>
    refine ⟨⟨_, _, init_inv hnd ha, subset_rfl, by simp⟩, ?_, by simp⟩
    intro x hx
    have h1 := (C122_shares ws runs a ha).2.1 x hx
    exact ⟨x.1, x.2.2, hx, by simp, by simp [h1]⟩
  | nobody s given out _ hg ih =>
    have hs : (static.get s).2 = s := by
      cases h1 : staticGet s.slots with
      | none => simp [static, h1]
      | some q =>
        exfalso
        obtain ⟨⟨F, k, h2, h3, h4⟩, _⟩ := ih
        obtain ⟨r, l'⟩ := q
        obtain ⟨l1, c, l2, g1, _, _⟩ := staticGet_some h1
        have h5 : r ∈ ws.toFinset := by
          rw [← h2.ranks, g1]
          simp
        have h6 := hpos r (List.mem_toFinset.mp h5)
        have h7 : (static.get s).1 = r := by simp [static, h1]
        omega
    rw [hs]
    exact ih
  | get s given out r _ hr hg ih =>
    obtain ⟨⟨F, k, h2, h3, h4⟩, h5, hout⟩ := ih
    cases h1 : staticGet s.slots with
    | none => simp [static, h1] at hg
    | some q =>
      obtain ⟨r', l'⟩ := q
      have h6 : r' = r := by simpa [static, h1] using hg
      subst h6
      have hl := left_get h1
      obtain ⟨l1, c0, l2, g1, g2, g3⟩ := staticGet_some h1
      have hrW : r' ∈ ws.toFinset := by
        rw [← h2.ranks, g1]
        simp
      have hget : (static.get s).2 = ⟨l', s.freeWorkers - 1⟩ := by simp [static, h1]
      refine ⟨?_, ?_, ?_⟩
      · rcases hA.get _ _ _ h2 h3 with ⟨i1, _⟩ | ⟨r'', i1, _, _, i2⟩
        · omega
        · refine ⟨_, k - 1, i2, (Finset.erase_subset _ _).trans h3, ?_⟩
          have i3 := h2.total
          have i4 := i2.total
          rw [hget] at i4
          simp only at i4
          simp only [List.length_cons]
          omega
      · intro x hx
        obtain ⟨c, b, j1, j2, j3⟩ := h5 x hx
        rw [hget]
        simp only
        by_cases hxr : x.2.1 = r'
        · rw [hxr] at j1 j2 j3 ⊢
          obtain ⟨rfl, rfl⟩ := nodup_rank h2.nodup j1 (show (c0, r', false) ∈ s.slots by simp [g1])
          refine ⟨c, true, by simp [g3], ?_, ?_⟩
          · simp
            omega
          · simp at j3 ⊢
            exact j3
        · refine ⟨c, b, ?_, ?_, ?_⟩
          · rw [g1] at j1
            rw [g3]
            simp only [List.mem_append, List.mem_cons, Prod.mk.injEq, hxr, false_and, and_false,
              false_or] at j1 ⊢
            exact j1
          · rw [List.count_cons_of_ne (Ne.symm hxr), List.count_cons_of_ne (Ne.symm hxr)]
            exact j2
          · rw [List.count_cons_of_ne (Ne.symm hxr)]
            exact j3
      · intro v hv
        rcases List.mem_cons.mp hv with rfl | hv
        · exact List.mem_toFinset.mp hrW
        · exact hout v hv
  | confirm s given out r _ hr ih =>
    obtain ⟨⟨F, k, h2, h3, h4⟩, h5, hout⟩ := ih
    have hrws := hout r hr
    have hr1 : r ∈ ws.toFinset := List.mem_toFinset.mpr hrws
    have hslot : ∃ x ∈ a.slots, x.2.1 = r := by
      have h6 := (C122_shares ws runs a ha).1
      rw [← h6] at hrws
      obtain ⟨x, hx, hx'⟩ := List.mem_map.mp hrws
      exact ⟨x, hx, hx'⟩
    have hcnt : 0 < out.count r := List.count_pos_iff.mpr hr
    have hbusy : ∃ c0, (c0, r, true) ∈ s.slots ∧ out.count r = 1 := by
      obtain ⟨x, hx, rfl⟩ := hslot
      obtain ⟨c, b, j1, j2, j3⟩ := h5 x hx
      cases b with
      | true => exact ⟨c, j1, by simpa using j3⟩
      | false => simp at j3; omega
    obtain ⟨c0, hc0, hone⟩ := hbusy
    have hrF : r ∉ F := by
      intro hcon
      obtain ⟨c', hc'⟩ := (h2.frees r).mp hcon
      have := (nodup_rank h2.nodup hc0 hc').2
      simp at this
    have hconf := hA.confirm _ _ _ _ h2 h3 hr1 hrF
    obtain ⟨l1, l2, g1⟩ := List.append_of_mem hc0
    have hnd2 := h2.nodup
    rw [g1] at hnd2
    simp only [List.map_append, List.map_cons, List.nodup_append, List.nodup_cons] at hnd2
    have hc : (static.confirm s r).slots = l1 ++ (c0 - 1, r, false) :: l2 := by
      simp only [static]
      rw [g1]
      apply staticConfirm_split
      intro hcon
      exact hnd2.2.2 r hcon r (by simp) rfl
    refine ⟨⟨_, k, hconf, Finset.insert_subset hr1 h3, h4⟩, ?_, fun v hv => hout v (List.mem_of_mem_erase hv)⟩
    intro x hx
    obtain ⟨c, b, j1, j2, j3⟩ := h5 x hx
    rw [hc]
    by_cases hxr : x.2.1 = r
    · rw [hxr] at j1 j2 j3 ⊢
      obtain ⟨rfl, rfl⟩ := nodup_rank h2.nodup j1 hc0
      refine ⟨c - 1, false, by simp, ?_, ?_⟩
      · rw [List.count_erase_self]
        omega
      · rw [List.count_erase_self]
        simp
        omega
    · refine ⟨c, b, ?_, ?_, ?_⟩
      · rw [g1] at j1
        simp only [List.mem_append, List.mem_cons, Prod.mk.injEq, hxr, false_and, and_false,
          false_or] at j1 ⊢
        exact j1
      · rw [List.count_erase_of_ne hxr]
        exact j2
      · rw [List.count_erase_of_ne hxr]
        exact j3

/-- **C122** However tasks and answers alternate, no worker is ever handed more tasks than its share;
when as many tasks as announced have been handed out, every worker has got exactly its share; and if
nobody is found, every worker is busy or has got its share. -/
theorem C122_static_uses (ws : List Nat) (hnd : ws.Nodup) (hpos : ∀ w ∈ ws, 0 < w) (runs : Nat)
    (a s : Static) (given out : List Nat) (ha : Static.init ws runs = some a)
    (h : Uses static a s given out) (x : Int × Nat × Bool) (hx : x ∈ a.slots) :
    (given.count x.2.1 : Int) ≤ x.1 ∧ given.length ≤ runs ∧
    (given.length = runs → (given.count x.2.1 : Int) = x.1) ∧
    ((static.get s).1 ≤ 0 → x.2.1 ∈ out ∨ (given.count x.2.1 : Int) = x.1) := by
  obtain ⟨⟨F, k, h2, h3, h4⟩, h5, _⟩ := uses_inv hnd hpos ha h
  obtain ⟨c, b, j1, j2, j3⟩ := h5 x hx
  have h6 := h2.nonneg _ j1
  simp only [slotLeft] at h6
  have h7 : (out.count x.2.1 : Int) = if b then 1 else 0 := by rw [j3]; split <;> rfl
  refine ⟨by split at h6 <;> simp_all <;> omega, by omega, ?_, ?_⟩
  · intro hlen
    have hk : left s.slots = 0 := by have := h2.total; omega
    have h8 : slotLeft (c, x.2.1, b) = 0 := by
      obtain ⟨l1, l2, g⟩ := List.append_of_mem j1
      have hn : ∀ l : List (Int × Nat × Bool), (∀ y ∈ l, 0 ≤ slotLeft y) → 0 ≤ (l.map slotLeft).sum := by
        intro l hl
        apply List.sum_nonneg
        intro y hy
        obtain ⟨z, hz, rfl⟩ := List.mem_map.mp hy
        exact hl z hz
      have n1 := hn l1 fun y hy => h2.nonneg y (by simp [g, hy])
      have n2 := hn l2 fun y hy => h2.nonneg y (by simp [g, hy])
      have n3 := h2.nonneg _ j1
      rw [g] at hk
      simp only [left, List.map_append, List.map_cons, List.sum_append, List.sum_cons] at hk
      omega
    simp only [slotLeft] at h8
    split at h8 <;> simp_all <;> omega
  · intro hg
    cases b with
    | true =>
      left
      apply List.count_pos_iff.mp
      simp at j3
      omega
    | false =>
      right
      cases h1 : staticGet s.slots with
      | none =>
        have := staticGet_none.mp h1 _ j1
        simp at this h7 h6
        omega
      | some q =>
        obtain ⟨r, l'⟩ := q
        obtain ⟨l1, c', l2, g1, _, _⟩ := staticGet_some h1
        have h8 : r ∈ ws.toFinset := by
          rw [← h2.ranks, g1]
          simp
        have h9 := hpos r (List.mem_toFinset.mp h8)
        have h10 : (static.get s).1 = r := by simp [static, h1]
        omega

/-! ### Witnesses and examples -/

/-- The static algorithm with the worker 1 and one announced run. -/
def shortA : Static := ⟨[(1, 1, false)], 1⟩

example : Static.init [1] 1 = some shortA := rfl

/-- **C121** A concrete deadlock: two packets, one announced run.  The master waits for an answer, and
no process has anything left to do. -/
theorem C121_deadlock : ∃ n s, MReach static 1 (fun x : Nat => x + 1) 1 (MSt.start shortA [5, 6]) n s ∧
    s.phase ≠ .done ∧ ∀ s', ¬ MStep static 1 (fun x : Nat => x + 1) 1 s s' := by
  refine ⟨4, _, .step _ _ _ (.step _ _ _ (.step _ _ _ (.step _ _ _ .init
    (.next _ rfl (by decide))) (.next _ rfl (by decide))) (.work _ 1 0 [5] [] rfl))
    (.response _ 1 [6] [] rfl rfl), by decide, ?_⟩
  intro s' hs
  cases hs with
  | next hp h => exact absurd hp (by decide)
  | response w l rest hp h =>
    by_cases hw : w = 1
    · subst hw; simp [MSt.assign, MSt.handle, MSt.send, MSt.start, static, shortA, staticGet, staticConfirm] at h
    · simp [MSt.assign, MSt.handle, MSt.send, MSt.start, static, shortA, staticGet, staticConfirm, hw] at h
  | finish hp h => exact absurd hp (by decide)
  | last w l rest hp ht h => exact absurd hp (by decide)
  | leave hp ht => exact absurd hp (by decide)
  | work w i l rest h =>
    by_cases hw : w = 1
    · subst hw; simp [MSt.assign, MSt.handle, MSt.send, MSt.start, static, shortA, staticGet, staticConfirm] at h
    · simp [MSt.assign, MSt.handle, MSt.send, MSt.start, static, shortA, staticGet, staticConfirm, hw] at h

/-- **C121** Rank 0 cannot be a worker: the master takes it for "nobody" and waits for an answer that
never comes. -/
theorem C121_rank_zero : ∃ n s, MReach dynamic 1 (fun x : Nat => x + 1) 1 (MSt.start [0] [5]) n s ∧
    s.phase ≠ .done ∧ ∀ s', ¬ MStep dynamic 1 (fun x : Nat => x + 1) 1 s s' := by
  refine ⟨1, _, .step _ _ _ .init (.next _ rfl (by decide)), by decide, ?_⟩
  intro s' hs
  cases hs with
  | next hp h => exact absurd hp (by decide)
  | response w l rest hp h => simp [MSt.assign, MSt.start, dynamic] at h
  | finish hp h => exact absurd hp (by decide)
  | last w l rest hp ht h => exact absurd hp (by decide)
  | leave hp ht => exact absurd hp (by decide)
  | work w i l rest h => simp [MSt.assign, MSt.start, dynamic] at h

/-- A complete run with two workers, in which the second answer overtakes the first. -/
example : ∃ n s, MReach dynamic 2 (fun x : Nat => x + 1) 2 (MSt.start [1, 2] [5, 6, 7]) n s ∧
    s.phase = .done ∧ s.table = [6, 7, 8] := by
  refine ⟨8, _, .step _ _ _ (.step _ _ _ (.step _ _ _ (.step _ _ _ (.step _ _ _ (.step _ _ _
    (.step _ _ _ (.step _ _ _ .init
    (.next _ rfl (by decide))) (.next _ rfl (by decide))) (.work _ 1 2 [7] [] rfl))
    (.finish _ rfl rfl)) (.last _ 1 [8] [] rfl (by decide) rfl)) (.work _ 2 0 [5, 6] [] rfl))
    (.last _ 2 [6, 7] [] rfl (by decide) rfl)) (.leave _ rfl rfl), rfl, rfl⟩

example : Ends dynamic 2 (fun x : Nat => x + 1) [1, 2] (MSt.start [1, 2] [5, 6, 7]) :=
  C121_dynamic [1, 2] (by decide) (by decide) (by decide) 2 (by decide) _ _

example : Static.init [4, 2, 9] 8 = some ⟨[(3, 4, false), (3, 2, false), (2, 9, false)], 3⟩ := rfl

example : Ends static 2 (fun x : Nat => x + 1) [4, 2, 9]
    (MSt.start (⟨[(1, 4, false), (1, 2, false), (0, 9, false)], 3⟩ : Static) [5, 6, 7]) :=
  C121_static [4, 2, 9] (by decide) (by decide) 2 (by decide) _ _ 2 _ rfl (by decide)

/-- A use of the static algorithm that meets the hypotheses of C122. -/
example : Uses static (⟨[(1, 4, false), (1, 2, false)], 2⟩ : Static) ⟨[(0, 4, false), (1, 2, true)], 1⟩
    [2, 4] [2] := by
  have h1 := Uses.get (A := static) (s₀ := (⟨[(1, 4, false), (1, 2, false)], 2⟩ : Static)) _ _ _ 4
    .start (by decide) rfl
  have h2 := Uses.get _ _ _ 2 h1 (by decide) rfl
  exact Uses.confirm _ _ _ 4 h2 (by decide)

end Paradiseo.Mpi
