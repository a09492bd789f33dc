import Verif.Model.MakeCheckpoint
import Mathlib.Data.List.Count
/-
C311 - C316: checkpoints made from the command line.

The specification: what each output is promised to show (`screenCols` ...), and the value of a parameter in a generation
(`cell`): the number of the generation, or what the statistic computes from its population.
-/
namespace Paradiseo.MakeCheckpoint

open Paradiseo.EO Paradiseo.Persist

variable {V : Type}

/-! ### Specification -/

/-- The value of a parameter in generation `g`, counted from 0. -/
def cell (W : World V) (g : Nat) : Col → V
  | .gen => W.num ((g + 1) % 2 ^ 32)
  | x => W.val x g

/-- The generation of the last signal seen before generation `g`. -/
def lastSignal (W : World V) (g : Nat) : Option Nat := ((List.range g).filter W.signal).getLast?

/-- The numbers of the states saved in `n` generations, at the end of the run too. -/
def savedStates (n : Nat) : Option Nat → List Nat
  | none => []
  | some 0 => [n]
  | some (f + 1) => (List.range n).filterMap (fun g => if (f + 1) ∣ (g + 1) then some (g + 1) else none) ++ [n]

/-- The criterion answers yes `N` times and then no. -/
def StopsAt (W : World V) (N : Nat) : Prop := (∀ g < N, W.go g = true) ∧ W.go N = false

/-- A parameter as a checkpoint shows it whose clock is read by the monitor of Ctrl-C only. -/
def late (W : World V) (g : Nat) : Col → V
  | .time =>
    match lastSignal W g with
    | none => W.init .time
    | some h => W.val .time h
  | x => cell W g x

/-- What the screen shows. -/
def screenCols (o : Opts) : List Col :=
  [.gen] ++ (if o.useEval then [.eval] else []) ++ (if o.useTime then [.time] else []) ++
    (if o.printBest then [.best, .second] else []) ++ (if o.printPop then [.pop] else [])

/-- Whether something is printed on the screen. -/
def prints (o : Opts) : Bool := o.printBest || o.printPop

/-- What the files show: the time only if it is shown on the screen. -/
def fileTables (o : Opts) : List (Dest × List Col) :=
  (if o.fileBest then
    [(.file, [.gen, .eval] ++ (if o.useTime && prints o then [.time] else []) ++ [.best, .second])] else []) ++
  (if o.gnuplot && o.plotBest then
    [(.plot, [if o.useEval then .eval else if o.useTime && prints o then .time else .gen, .best, .average])] else []) ++
  (if o.gnuplot && o.plotHisto then [(.histogram, [.fits])] else [])

/-- What the screen shows, if anything. -/
def screenTables (o : Opts) : List (Dest × List Col) := if prints o then [(.screen, screenCols o)] else []

/-! ### One call -/

/-- The intervals of state savers and of timed ones. -/
def intervals (us : List Upd) : List Nat := us.filterMap fun u => match u with | .save i => some i | _ => none
def timeIntervals (us : List Upd) : List Nat := us.filterMap fun u => match u with | .saveTime i => some i | _ => none
/-- The updaters of an archive. -/
def isArch : Upd → Bool
  | .archive | .storeArch | .contribution | .entropy => true
  | _ => false

theorem updates_spec (W : World V) (g : Nat) (us : List Upd) (s : St V) (h0 : ∀ i ∈ intervals us, i ≠ 0) :
    ∃ s', updates W g us s = .ok s' ∧
      s'.vals = (if Upd.time ∈ us then (store W g s .time).vals else s.vals) ∧ s'.out = s.out ∧
      (us.count .count = 0 → s'.gens = s.gens) ∧ (us.count .count = 1 → s'.gens = (s.gens + 1) % 2 ^ 32) ∧
      s'.arch = s.arch ++ (us.filter isArch).map (·, g) ∧
      (intervals us = [] → s'.saver = s.saver ∧ s'.saves = s.saves) ∧
      (∀ i, intervals us = [i] → s'.saver = (s.saver + 1) % 2 ^ 32 ∧
        s'.saves = s.saves ++ if (s.saver + 1) % 2 ^ 32 % i = 0 then [(s.saver + 1) % 2 ^ 32] else []) ∧
      (timeIntervals us = [] → s'.last = s.last ∧ s'.timedSaves = s.timedSaves) ∧
      (∀ t, timeIntervals us = [t] → s'.last = (if s.last + t ≤ W.clock g then W.clock g else s.last) ∧
        s'.timedSaves = s.timedSaves ++ if s.last + t ≤ W.clock g then [W.clock g] else []) := by
  induction us generalizing s with
  | nil => exact ⟨s, rfl, by simp, rfl, by simp, by simp, by simp, by simp [intervals], by simp [intervals],
      by simp [timeIntervals], by simp [timeIntervals]⟩
  | cons u us ih =>
    have h0' : ∀ i ∈ intervals us, i ≠ 0 := by
      intro i hi
      apply h0 i
      unfold intervals at hi ⊢
      rw [List.filterMap_cons]
      split
      · exact hi
      · exact List.mem_cons_of_mem _ hi
    cases u with
    | count =>
      obtain ⟨s', a1, a2, a3, a4, a5, a6, a7, a8, a9, a10⟩ := ih { s with gens := (s.gens + 1) % 2 ^ 32 } h0'
      refine ⟨s', ?_, ?_, a3, ?_, ?_, ?_, ?_, ?_, ?_, ?_⟩
      · simp only [updates, Upd.call, a1]
      · simpa [store] using a2
      · simp
      · intro h; rw [List.count_cons_self] at h; exact a4 (by omega)
      · simpa [isArch] using a6
      · exact a7
      · exact a8
      · exact a9
      · exact a10
    | time =>
      obtain ⟨s', a1, a2, a3, a4, a5, a6, a7, a8, a9, a10⟩ := ih (store W g s .time) h0'
      refine ⟨s', ?_, ?_, a3, ?_, ?_, ?_, a7, a8, a9, a10⟩
      · simp only [updates, Upd.call, a1]
      · rw [a2]
        funext y
        by_cases ht : Upd.time ∈ us
        · by_cases hy : y = .time <;> simp [ht, store, hy]
        · simp [ht, store]
      · intro h; rw [List.count_cons_of_ne (by decide)] at h; exact a4 h
      · intro h; rw [List.count_cons_of_ne (by decide)] at h; exact a5 h
      · simpa [isArch, store] using a6
    | save i =>
      have hi : i ≠ 0 := h0 i (by simp [intervals])
      obtain ⟨s', a1, a2, a3, a4, a5, a6, a7, a8, a9, a10⟩ := ih { s with
        saver := (s.saver + 1) % 2 ^ 32, saves := s.saves ++ Option.toList
          (if (s.saver + 1) % 2 ^ 32 % i = 0 then some ((s.saver + 1) % 2 ^ 32) else none) } h0'
      refine ⟨s', ?_, ?_, a3, ?_, ?_, ?_, ?_, ?_, a9, a10⟩
      · simp only [updates, Upd.call, Init.saverCall, if_neg hi, a1]
      · simpa [store] using a2
      · intro h; rw [List.count_cons_of_ne (by simp)] at h; exact a4 h
      · intro h; rw [List.count_cons_of_ne (by simp)] at h; exact a5 h
      · simpa [isArch] using a6
      · intro h; simp [intervals] at h
      · intro j h
        simp only [intervals, List.filterMap_cons, List.cons.injEq] at h
        obtain ⟨rfl, h⟩ := h
        obtain ⟨b1, b2⟩ := a7 h
        refine ⟨b1, ?_⟩
        rw [b2]
        congr 1
        split <;> rfl
    | saveTime t =>
      obtain ⟨s', a1, a2, a3, a4, a5, a6, a7, a8, a9, a10⟩ := ih (if s.last + t ≤ W.clock g then
        { s with last := W.clock g, timedSaves := s.timedSaves ++ [W.clock g] } else s) h0'
      have e1 : (if s.last + t ≤ W.clock g then
        { s with last := W.clock g, timedSaves := s.timedSaves ++ [W.clock g] } else s).vals = s.vals := by split <;> rfl
      have e2 : (if s.last + t ≤ W.clock g then
        { s with last := W.clock g, timedSaves := s.timedSaves ++ [W.clock g] } else s).out = s.out := by split <;> rfl
      have e3 : (if s.last + t ≤ W.clock g then
        { s with last := W.clock g, timedSaves := s.timedSaves ++ [W.clock g] } else s).gens = s.gens := by split <;> rfl
      have e4 : (if s.last + t ≤ W.clock g then
        { s with last := W.clock g, timedSaves := s.timedSaves ++ [W.clock g] } else s).arch = s.arch := by split <;> rfl
      have e5 : (if s.last + t ≤ W.clock g then
        { s with last := W.clock g, timedSaves := s.timedSaves ++ [W.clock g] } else s).saver = s.saver := by split <;> rfl
      have e6 : (if s.last + t ≤ W.clock g then
        { s with last := W.clock g, timedSaves := s.timedSaves ++ [W.clock g] } else s).saves = s.saves := by split <;> rfl
      refine ⟨s', ?_, ?_, a3.trans e2, ?_, ?_, ?_, ?_, ?_, ?_, ?_⟩
      · simp only [updates, Upd.call, a1]
      · simpa [store, e1] using a2
      · intro h; rw [List.count_cons_of_ne (by simp)] at h; exact (a4 h).trans e3
      · intro h; rw [List.count_cons_of_ne (by simp)] at h; rw [a5 h, e3]
      · simpa [isArch, e4] using a6
      · intro h; obtain ⟨b1, b2⟩ := a7 h; exact ⟨b1.trans e5, b2.trans e6⟩
      · intro i h; have := a8 i h; rw [e5, e6] at this; exact this
      · intro h; simp [timeIntervals] at h
      · intro j h
        simp only [timeIntervals, List.filterMap_cons, List.cons.injEq] at h
        obtain ⟨rfl, h⟩ := h
        obtain ⟨b1, b2⟩ := a9 h
        rw [b1, b2]
        constructor
        · split <;> rfl
        · split
          · rfl
          · simp
    | archive | storeArch | contribution | entropy =>
      obtain ⟨s', a1, a2, a3, a4, a5, a6, a7, a8, a9, a10⟩ := ih { s with arch := s.arch ++ [(_, g)] } h0'
      refine ⟨s', ?_, ?_, a3, ?_, ?_, ?_, a7, a8, a9, a10⟩
      · simp only [updates, Upd.call]; exact a1
      · simpa [store] using a2
      · intro h; rw [List.count_cons_of_ne (by simp)] at h; exact a4 h
      · intro h; rw [List.count_cons_of_ne (by simp)] at h; exact a5 h
      · rw [a6, List.filter_cons_of_pos rfl]; simp

theorem stores_vals (W : World V) (g : Nat) (l : List Col) (s : St V) :
    (l.foldl (store W g) s).vals = (fun y => if y ∈ l then W.val y g else s.vals y) ∧
      ∃ v, l.foldl (store W g) s = { s with vals := v } := by
  induction l generalizing s with
  | nil => exact ⟨by simp, s.vals, rfl⟩
  | cons x l ih =>
    obtain ⟨h1, v, h2⟩ := ih (store W g s x)
    refine ⟨?_, v, ?_⟩
    · rw [List.foldl_cons, h1]
      funext y
      by_cases hy : y ∈ l
      · simp [hy]
      · by_cases hx : y = x
        · subst hx; simp [hy, store]
        · simp [hy, hx, store]
    · rw [List.foldl_cons, h2]; rfl

/-- What a checkpoint computes in a call. -/
def Chk.computes (c : Chk) (x : Col) : Prop := x ∈ c.sorted ∨ x ∈ c.stats ∨ x = .time ∧ Upd.time ∈ c.updaters

instance (c : Chk) (x : Col) : Decidable (c.computes x) :=
  inferInstanceAs (Decidable (x ∈ c.sorted ∨ x ∈ c.stats ∨ x = .time ∧ Upd.time ∈ c.updaters))

theorem call_spec (W : World V) (g : Nat) (c : Chk) (s : St V) (h0 : ∀ i ∈ intervals c.updaters, i ≠ 0) :
    ∃ s', c.call W g s = .ok s' ∧
      (∀ x, c.computes x → s'.vals x = W.val x g) ∧ (∀ x, ¬ c.computes x → s'.vals x = s.vals x) ∧
      s'.out = s.out ++ c.monitors.map (fun m => (m.1, m.2.map (shown W g s'))) ∧
      (c.updaters.count .count = 0 → s'.gens = s.gens) ∧
      (c.updaters.count .count = 1 → s'.gens = (s.gens + 1) % 2 ^ 32) ∧
      s'.arch = s.arch ++ (c.updaters.filter isArch).map (·, g) ∧
      (intervals c.updaters = [] → s'.saver = s.saver ∧ s'.saves = s.saves) ∧
      (∀ i, intervals c.updaters = [i] → s'.saver = (s.saver + 1) % 2 ^ 32 ∧
        s'.saves = s.saves ++ if (s.saver + 1) % 2 ^ 32 % i = 0 then [(s.saver + 1) % 2 ^ 32] else []) ∧
      (timeIntervals c.updaters = [] → s'.last = s.last ∧ s'.timedSaves = s.timedSaves) ∧
      (∀ t, timeIntervals c.updaters = [t] → s'.last = (if s.last + t ≤ W.clock g then W.clock g else s.last) ∧
        s'.timedSaves = s.timedSaves ++ if s.last + t ≤ W.clock g then [W.clock g] else []) := by
  obtain ⟨p1, v1, q1⟩ := stores_vals W g c.sorted s
  obtain ⟨p2, v2, q2⟩ := stores_vals W g c.stats (c.sorted.foldl (store W g) s)
  obtain ⟨s1, a1, a2, a3, a4, a5, a6, a7, a8, a9, a10⟩ := updates_spec W g c.updaters
    (c.stats.foldl (store W g) (c.sorted.foldl (store W g) s)) h0
  have hv : ∀ x, s1.vals x = if c.computes x then W.val x g else s.vals x := by
    intro x
    have hbase : (c.stats.foldl (store W g) (c.sorted.foldl (store W g) s)).vals x =
        if x ∈ c.sorted ∨ x ∈ c.stats then W.val x g else s.vals x := by
      rw [p2]
      dsimp only
      by_cases h1 : x ∈ c.stats
      · simp [h1]
      · rw [if_neg h1, p1]; simp [h1]
    rw [a2]
    by_cases ht : Upd.time ∈ c.updaters
    · rw [if_pos ht]
      by_cases hx : x = .time
      · subst hx
        rw [if_pos (show c.computes .time from Or.inr (Or.inr ⟨rfl, ht⟩))]
        simp [store]
      · have : (store W g (c.stats.foldl (store W g) (c.sorted.foldl (store W g) s)) .time).vals x =
            (c.stats.foldl (store W g) (c.sorted.foldl (store W g) s)).vals x := by simp [store, hx]
        rw [this, hbase]
        simp [Chk.computes, hx]
    · rw [if_neg ht, hbase]
      simp [Chk.computes, ht]
  rw [q2, q1] at a3 a4 a5 a6 a7 a8 a9 a10
  refine ⟨{ s1 with out := s1.out ++ c.monitors.map fun m => (m.1, m.2.map (shown W g s1)) }, ?_, ?_, ?_, ?_,
    a4, a5, a6, a7, a8, a9, a10⟩
  · rw [Chk.call, a1]
  · intro x hx; rw [← if_pos (c := c.computes x) hx (t := W.val x g) (e := s.vals x)]; exact hv x
  · intro x hx; rw [← if_neg (c := c.computes x) hx (t := W.val x g) (e := s.vals x)]; exact hv x
  · dsimp only
    rw [a3]
    rfl

/-! ### A run -/

theorem run_inv (W : World V) (b : Built) {I : Nat → St V → Prop}
    (hstep : ∀ g s, I g s → ∃ s', b.gen W g s = .ok (s', W.go g) ∧ I (g + 1) s') :
    ∀ (k g : Nat) (s : St V), (∀ j < k, W.go (g + j) = true) → W.go (g + k) = false → I g s →
      ∃ s', b.run W (k + 1) g s = .ok (lastCall b.main.updaters s') ∧ I (g + k + 1) s'
  | 0, g, s, _, h2, hI => by
    obtain ⟨s', a1, a2⟩ := hstep g s hI
    refine ⟨s', ?_, a2⟩
    rw [Nat.add_zero] at h2
    rw [h2] at a1
    simp only [Built.run, a1]
  | k + 1, g, s, h1, h2, hI => by
    obtain ⟨s', a1, a2⟩ := hstep g s hI
    have hg : W.go g = true := h1 0 (by omega)
    rw [hg] at a1
    obtain ⟨s'', b1, b2⟩ := run_inv W b hstep k (g + 1) s'
      (fun j hj => by rw [show g + 1 + j = g + (j + 1) by omega]; exact h1 (j + 1) (by omega))
      (by rw [show g + 1 + k = g + (k + 1) by omega]; exact h2) a2
    refine ⟨s'', ?_, by rw [show g + (k + 1) + 1 = g + 1 + k + 1 by omega]; exact b2⟩
    rw [Built.run, a1]
    exact b1

/-- What the checkpoint itself shows of a parameter in generation `g`: of a time that only the eoSignal computes, that
of the last signal. -/
def seen (W : World V) (b : Built) (g : Nat) (x : Col) : V :=
  if x = .time ∧ ¬ b.main.computes .time then
    match lastSignal W g with
    | none => W.init .time
    | some h => W.val .time h
  else cell W g x

/-- The checkpoint counts generations once, the eoSignal only prints, and everything printed is computed. -/
structure Sound (b : Built) : Prop where
  count : b.main.updaters.count .count = 1
  intervals : ∀ i ∈ intervals b.main.updaters, i ≠ 0
  shown : ∀ m ∈ b.main.monitors, ∀ x ∈ m.2, x = .gen ∨ x = .eval ∨ b.main.computes x ∨
    x = .time ∧ ∃ c, b.sig = some c ∧ c.computes .time
  sigCount : ∀ c, b.sig = some c → c.updaters = [] ∨ c.updaters = [.time]
  sigShown : ∀ c, b.sig = some c → ∀ m ∈ c.monitors, ∀ x ∈ m.2, x = .gen ∨ x = .eval ∨ c.computes x
  sigOnly : ∀ c, b.sig = some c → c.computes .time → ¬ b.main.computes .time

/-- The lines of a generation. -/
def linesOf (W : World V) (b : Built) (g : Nat) : List (Dest × List V) :=
  b.main.monitors.map (fun m => (m.1, m.2.map (seen W b g))) ++
    match b.sig with
    | none => []
    | some c => if W.signal g then c.monitors.map (fun m => (m.1, m.2.map (cell W g))) else []

theorem lastSignal_succ (W : World V) (g : Nat) :
    lastSignal W (g + 1) = if W.signal g then some g else lastSignal W g := by
  unfold lastSignal
  rw [List.range_succ, List.filter_append]
  by_cases h : W.signal g = true
  · rw [if_pos h, List.filter_cons_of_pos h, List.filter_nil, List.getLast?_append]; rfl
  · rw [if_neg h, List.filter_cons_of_neg h, List.filter_nil, List.append_nil]

/-- The numbers of the files of a saver after `g` generations. -/
def savesUpTo (i g : Nat) : List Nat :=
  (List.range g).flatMap fun h => if (h + 1) % 2 ^ 32 % i = 0 then [(h + 1) % 2 ^ 32] else []

/-- After `g` generations. -/
structure After (W : World V) (b : Built) (start : Int) (g : Nat) (s : St V) : Prop where
  gens : s.gens = g % 2 ^ 32
  time : (∃ c, b.sig = some c ∧ c.computes .time) → s.vals .time =
    match lastSignal W g with
    | none => W.init .time
    | some h => W.val .time h
  out : s.out = (List.range g).flatMap (linesOf W b)
  saver0 : intervals b.main.updaters = [] → s.saves = []
  saver1 : ∀ i, intervals b.main.updaters = [i] → s.saver = g % 2 ^ 32 ∧ s.saves = savesUpTo i g
  timed0 : timeIntervals b.main.updaters = [] → s.timedSaves = []
  timed1 : ∀ t : Nat, timeIntervals b.main.updaters = [t] → ∀ l : List Int,
    s.timedSaves ++ Init.timedRun t s.last l = Init.timedRun t start ((List.range g).map W.clock ++ l)
  arch : s.arch = (List.range g).flatMap fun h => (b.main.updaters.filter isArch).map (·, h)

theorem timedRun_append (t : Int) (l : List Int) : ∀ last, ∀ l', ∃ last',
    Init.timedRun t last (l ++ l') = Init.timedRun t last l ++ Init.timedRun t last' l' := by
  induction l with
  | nil => exact fun last l' => ⟨last, rfl⟩
  | cons a l ih =>
    intro last l'
    rw [List.cons_append]
    simp only [Init.timedRun]
    split
    · obtain ⟨last', h⟩ := ih a l'
      exact ⟨last', by rw [h]; rfl⟩
    · exact ih last l'

theorem shown_cell (W : World V) (g : Nat) (s : St V) (hg : s.gens = (g + 1) % 2 ^ 32) (x : Col)
    (hx : x = .gen ∨ x = .eval ∨ s.vals x = W.val x g) : shown W g s x = cell W g x := by
  cases x <;> simp_all [shown, cell]

theorem gen_step (W : World V) {b : Built} (hb : Sound b) (start : Int) (g : Nat) (s : St V)
    (h : After W b start g s) : ∃ s', b.gen W g s = .ok (s', W.go g) ∧ After W b start (g + 1) s' := by
  obtain ⟨s1, a1, a2, a3, a4, -, a5, a6, a7, a8, a9, a10⟩ := call_spec W g b.main s hb.intervals
  have hgens : s1.gens = (g + 1) % 2 ^ 32 := by rw [a5 hb.count, h.gens]; omega
  have hmain : b.main.monitors.map (fun m => (m.1, m.2.map (shown W g s1))) =
      b.main.monitors.map (fun m => (m.1, m.2.map (seen W b g))) := by
    apply List.map_congr_left
    intro m hm
    congr 1
    apply List.map_congr_left
    intro x hx
    unfold seen
    by_cases hc : x = .time ∧ ¬ b.main.computes .time
    · rw [if_pos hc]
      obtain ⟨rfl, hc⟩ := hc
      rcases hb.shown m hm _ hx with h' | h' | h' | ⟨-, h'⟩
      · cases h'
      · cases h'
      · exact absurd h' hc
      · show s1.vals .time = _
        rw [a3 _ hc, h.time h']
    · rw [if_neg hc]
      apply shown_cell W g s1 hgens
      rcases hb.shown m hm _ hx with h' | h' | h' | ⟨h', -⟩
      · exact Or.inl h'
      · exact Or.inr (Or.inl h')
      · exact Or.inr (Or.inr (a2 x h'))
      · subst h'
        exact Or.inr (Or.inr (a2 _ (by by_contra hn; exact hc ⟨rfl, hn⟩)))
  have hsaver1 : ∀ i, intervals b.main.updaters = [i] → s1.saver = (g + 1) % 2 ^ 32 ∧
      s1.saves = savesUpTo i (g + 1) := by
    intro i hi
    obtain ⟨b1, b2⟩ := a8 i hi
    obtain ⟨c1, c2⟩ := h.saver1 i hi
    have e : (s.saver + 1) % 2 ^ 32 = (g + 1) % 2 ^ 32 := by rw [c1]; omega
    refine ⟨b1.trans e, ?_⟩
    rw [b2, e, c2, savesUpTo, savesUpTo, List.range_succ, List.flatMap_append]
    simp
  have htimed1 : ∀ t : Nat, timeIntervals b.main.updaters = [t] → ∀ l : List Int,
      s1.timedSaves ++ Init.timedRun t s1.last l = Init.timedRun t start ((List.range (g + 1)).map W.clock ++ l) := by
    intro t ht l
    obtain ⟨b1, b2⟩ := a10 t ht
    have := h.timed1 t ht (W.clock g :: l)
    rw [List.range_succ, List.map_append, List.append_assoc]
    simp only [List.map_cons, List.map_nil, List.cons_append, List.nil_append]
    rw [← this, b1, b2]
    simp only [Init.timedRun]
    split <;> simp
  have harch : s1.arch = (List.range (g + 1)).flatMap fun h => (b.main.updaters.filter isArch).map (·, h) := by
    rw [a6, h.arch, List.range_succ, List.flatMap_append]
    simp
  have hsaver0 : intervals b.main.updaters = [] → s1.saves = [] := fun hi => (a7 hi).2.trans (h.saver0 hi)
  have htimed0 : timeIntervals b.main.updaters = [] → s1.timedSaves = [] := fun hi => (a9 hi).2.trans (h.timed0 hi)
  have hout : s1.out = (List.range g).flatMap (linesOf W b) ++
      b.main.monitors.map (fun m => (m.1, m.2.map (seen W b g))) := by rw [a4, h.out, hmain]
  have hrange : ∀ f : Nat → List (Dest × List V), (List.range (g + 1)).flatMap f = (List.range g).flatMap f ++ f g := by
    intro f; rw [List.range_succ, List.flatMap_append]; simp
  cases hs : b.sig with
  | none =>
    refine ⟨s1, by simp only [Built.gen, a1, hs], ⟨hgens, ?_, ?_, hsaver0, hsaver1, htimed0, htimed1, harch⟩⟩
    · rintro ⟨c, hc, -⟩; rw [hs] at hc; cases hc
    · rw [hrange, hout, linesOf, hs, List.append_nil]
  | some c =>
    have hnm : c.computes .time → s1.vals .time = s.vals .time := fun hc => a3 _ (hb.sigOnly c hs hc)
    by_cases hsg : W.signal g = true
    · have hu := hb.sigCount c hs
      have hi0 : intervals c.updaters = [] := by rcases hu with e | e <;> rw [e] <;> rfl
      have ht0 : timeIntervals c.updaters = [] := by rcases hu with e | e <;> rw [e] <;> rfl
      have hc0 : c.updaters.count .count = 0 := by rcases hu with e | e <;> rw [e] <;> decide
      have hr0 : c.updaters.filter isArch = [] := by rcases hu with e | e <;> rw [e] <;> rfl
      obtain ⟨s2, d1, d2, d3, d4, d5, -, d6, d7, -, d9, -⟩ := call_spec W g c s1 (by rw [hi0]; simp)
      obtain ⟨d7a, d7b⟩ := d7 hi0
      obtain ⟨d9a, d9b⟩ := d9 ht0
      have hg2 : s2.gens = (g + 1) % 2 ^ 32 := (d5 hc0).trans hgens
      have hsig : c.monitors.map (fun m => (m.1, m.2.map (shown W g s2))) =
          c.monitors.map (fun m => (m.1, m.2.map (cell W g))) := by
        apply List.map_congr_left
        intro m hm
        congr 1
        apply List.map_congr_left
        intro x hx
        apply shown_cell W g s2 hg2
        rcases hb.sigShown c hs m hm x hx with h' | h' | h'
        · exact Or.inl h'
        · exact Or.inr (Or.inl h')
        · exact Or.inr (Or.inr (d2 x h'))
      refine ⟨s2, by simp only [Built.gen, a1, hs, if_pos hsg, d1], ⟨hg2, ?_, ?_, ?_, ?_, ?_, ?_, ?_⟩⟩
      · rintro ⟨c', hc', hct⟩
        rw [hs] at hc'; cases hc'
        rw [lastSignal_succ, if_pos hsg]
        exact d2 _ hct
      · rw [hrange, d4, hout, hsig, linesOf, hs]
        simp only [if_pos hsg, List.append_assoc]
      · intro hi; rw [d7b]; exact hsaver0 hi
      · intro i hi; rw [d7a, d7b]; exact hsaver1 i hi
      · intro hi; rw [d9b]; exact htimed0 hi
      · intro t ht l; rw [d9a, d9b]; exact htimed1 t ht l
      · rw [d6, hr0, harch]; simp
    · refine ⟨s1, by simp only [Built.gen, a1, hs, if_neg hsg], ⟨hgens, ?_, ?_, hsaver0, hsaver1, htimed0, htimed1,
        harch⟩⟩
      · rintro ⟨c', hc', hct⟩
        have hex := h.time ⟨c', hc', hct⟩
        rw [hs] at hc'; cases hc'
        rw [lastSignal_succ, if_neg hsg, hnm hct, hex]
      · rw [hrange, hout, linesOf, hs]
        simp only [if_neg hsg, List.append_nil]

theorem after_new (W : World V) (b : Built) (start : Int) : After W b start 0 (St.new W start) :=
  ⟨rfl, fun _ => rfl, rfl, fun _ => rfl, fun _ _ => ⟨rfl, rfl⟩, fun _ => rfl, fun _ _ _ => rfl, rfl⟩

theorem lastCall_spec (us : List Upd) (s : St V) : (lastCall us s).out = s.out ∧ (lastCall us s).arch = s.arch ∧
    (lastCall us s).timedSaves = s.timedSaves ∧ (lastCall us s).saver = s.saver ∧
    (lastCall us s).saves = s.saves ++ (intervals us).map fun _ => s.saver := by
  unfold lastCall
  induction us generalizing s with
  | nil => simp [intervals]
  | cons u us ih =>
    rw [List.foldl_cons]
    cases u <;> simp only [intervals, List.filterMap_cons] <;> first | exact ih s | skip
    obtain ⟨h1, h2, h3, h4, h5⟩ := ih { s with saves := s.saves ++ [s.saver] }
    refine ⟨h1, h2, h3, h4, ?_⟩
    rw [h5]
    simp [intervals]

theorem run_spec (W : World V) {b : Built} (hb : Sound b) (start : Int) {N : Nat} (hN : StopsAt W N) :
    ∃ s, b.run W (N + 1) 0 (St.new W start) = .ok s ∧ s.out = (List.range (N + 1)).flatMap (linesOf W b) ∧
      (intervals b.main.updaters = [] → s.saves = []) ∧
      (∀ i, intervals b.main.updaters = [i] → s.saves = savesUpTo i (N + 1) ++ [(N + 1) % 2 ^ 32]) ∧
      (timeIntervals b.main.updaters = [] → s.timedSaves = []) ∧
      (∀ t : Nat, timeIntervals b.main.updaters = [t] →
        s.timedSaves = Init.timedRun t start ((List.range (N + 1)).map W.clock)) ∧
      s.arch = (List.range (N + 1)).flatMap fun h => (b.main.updaters.filter isArch).map (·, h) := by
  obtain ⟨s, h1, h2⟩ := run_inv W b (gen_step W hb start) N 0 (St.new W start)
    (fun j hj => by rw [Nat.zero_add]; exact hN.1 j hj) (by rw [Nat.zero_add]; exact hN.2) (after_new W b start)
  rw [Nat.zero_add] at h2
  obtain ⟨c1, c2, c3, c4, c5⟩ := lastCall_spec b.main.updaters s
  refine ⟨_, h1, c1.trans h2.out, ?_, ?_, ?_, ?_, c2.trans h2.arch⟩
  · intro hi; rw [c5, hi, h2.saver0 hi]; rfl
  · intro i hi; obtain ⟨e1, e2⟩ := h2.saver1 i hi; rw [c5, hi, e1, e2]; rfl
  · intro hi; exact c3.trans (h2.timed0 hi)
  · intro t ht
    have := h2.timed1 t ht []
    rw [c3]
    simpa [Init.timedRun] using this

/-! ### What is made -/

/-- The statistics. -/
def statsOf (o : Opts) : List Col :=
  (if o.printBest || o.plotBest || o.fileBest then [.best, .average] else []) ++
    (if o.printBest || o.fileBest then [.second] else [])

def popOf (o : Opts) : List Col := if o.printPop then [.pop] else []

/-- The updaters that save. -/
def saversOf (f t : Option Nat) : List Upd :=
  (match f with | none => [] | some f => [.save (saveInterval f)]) ++
    (match t with | none => [] | some t => if 0 < t then [.saveTime t] else [])

theorem addStats_eq (o : Opts) (b : Built) : addStats o b =
    ⟨⟨b.main.sorted ++ popOf o, b.main.stats ++ statsOf o, b.main.updaters, b.main.monitors⟩,
      b.sig.map fun c => ⟨c.sorted ++ popOf o, c.stats ++ statsOf o, c.updaters, c.monitors⟩, b.dir⟩ := by
  obtain ⟨⟨a1, a2, a3, a4⟩, sig, dir⟩ := b
  obtain ⟨c, e, t, pb, lb, fb, pp, ph, sf, st, gp⟩ := o
  cases pb <;> cases lb <;> cases fb <;> cases pp <;> cases sig <;>
    simp [addStats, when, Built.onMain, Built.onSig, Chk.addStat, Chk.addSorted, popOf, statsOf]

theorem addOut_none (o : Opts) (m : Chk) (d : Bool) : addOut o ⟨m, none, d⟩ =
    ⟨⟨m.sorted, m.stats, m.updaters ++ (if o.useTime && prints o then [.time] else []), m.monitors ++ screenTables o⟩,
      none, d⟩ := by
  obtain ⟨a1, a2, a3, a4⟩ := m
  unfold addOut screenTables
  rw [show o.out = prints o from rfl]
  cases prints o <;> cases h : o.useTime <;>
    simp [when, Built.onOne, Built.onMain, Chk.addUpd, Chk.addMon, screenCols, h]

theorem addOut_some (o : Opts) (m c : Chk) (d : Bool) : addOut o ⟨m, some c, d⟩ =
    ⟨m, some ⟨c.sorted, c.stats, c.updaters ++ (if o.useTime && prints o then [.time] else []),
      c.monitors ++ screenTables o⟩, d⟩ := by
  obtain ⟨a1, a2, a3, a4⟩ := c
  unfold addOut screenTables
  rw [show o.out = prints o from rfl]
  cases prints o <;> cases h : o.useTime <;>
    simp [when, Built.onOne, Built.onSig, Chk.addUpd, Chk.addMon, screenCols, h]

theorem addFiles_eq (o : Opts) (b : Built) : addFiles o b =
    ⟨⟨b.main.sorted, b.main.stats ++ (if o.gnuplot && o.plotHisto then [.fits] else []), b.main.updaters,
      b.main.monitors ++ fileTables o⟩, b.sig, b.dir || (o.fileBest || o.plotBest || o.plotHisto)⟩ := by
  obtain ⟨⟨a1, a2, a3, a4⟩, sig, dir⟩ := b
  unfold addFiles fileTables Opts.timed
  rw [show o.out = prints o from rfl, Bool.and_comm (prints o)]
  cases o.fileBest <;> cases o.plotBest <;> cases o.plotHisto <;> cases o.gnuplot <;>
    simp [when, Built.onMain, Chk.addStat, Chk.addMon]

theorem addSavers_eq (f t : Option Nat) (b : Built) : addSavers f t b =
    ⟨⟨b.main.sorted, b.main.stats, b.main.updaters ++ saversOf f t, b.main.monitors⟩, b.sig,
      b.dir || (f.isSome || t.any (0 < ·))⟩ := by
  obtain ⟨⟨a1, a2, a3, a4⟩, sig, dir⟩ := b
  cases f <;> cases t with
  | none => simp [addSavers, saversOf, Built.onMain, Chk.addUpd]
  | some t =>
    by_cases ht : 0 < t <;> simp [addSavers, saversOf, Built.onMain, Chk.addUpd, ht]

theorem build_free {o : Opts} (h : o.ctrlC = false) : build o =
    ⟨⟨popOf o, statsOf o ++ (if o.gnuplot && o.plotHisto then [.fits] else []),
      [.count] ++ (if o.useTime && prints o then [.time] else []) ++ saversOf o.saveFrequency o.saveTime,
      screenTables o ++ fileTables o⟩, none,
      (o.fileBest || o.plotBest || o.plotHisto) || (o.saveFrequency.isSome || o.saveTime.any (0 < ·))⟩ := by
  unfold build
  dsimp only
  rw [h, addStats_eq, Built.onMain]
  simp only [Bool.false_eq_true, if_false, Option.map_none]
  rw [addOut_none, addFiles_eq, addSavers_eq]
  simp [Chk.addUpd]

theorem build_sig {o : Opts} (h : o.ctrlC = true) : build o =
    ⟨⟨popOf o, statsOf o ++ (if o.gnuplot && o.plotHisto then [.fits] else []),
      [.count] ++ saversOf o.saveFrequency o.saveTime, fileTables o⟩,
      some ⟨popOf o, statsOf o, if o.useTime && prints o then [.time] else [], screenTables o⟩,
      (o.fileBest || o.plotBest || o.plotHisto) || (o.saveFrequency.isSome || o.saveTime.any (0 < ·))⟩ := by
  unfold build
  dsimp only
  rw [h, addStats_eq, Built.onMain]
  simp only [if_true, Option.map_some]
  rw [addOut_some, addFiles_eq, addSavers_eq]
  simp [Chk.addUpd]

theorem saversOf_count (f t : Option Nat) : (saversOf f t).count .count = 0 := by
  unfold saversOf
  cases f <;> cases t <;> try (split) <;> simp
  all_goals (split <;> simp)

theorem saversOf_time (f t : Option Nat) : Upd.time ∉ saversOf f t := by
  unfold saversOf
  cases f <;> cases t <;> simp
  all_goals (split <;> simp)

theorem saversOf_intervals (f t : Option Nat) :
    intervals (saversOf f t) = match f with | none => [] | some f => [saveInterval f] := by
  unfold saversOf
  cases f <;> cases t <;> simp [intervals]
  all_goals (split <;> simp)

theorem saversOf_timeIntervals (f t : Option Nat) :
    timeIntervals (saversOf f t) = match t with | none => [] | some t => if 0 < t then [t] else [] := by
  unfold saversOf
  cases f <;> cases t <;> simp [timeIntervals]
  all_goals (split <;> simp)

theorem saversOf_arch (f t : Option Nat) : (saversOf f t).filter isArch = [] := by
  unfold saversOf
  cases f <;> cases t <;> simp [isArch]
  all_goals (split <;> simp [isArch])

theorem saveInterval_ne (f : Nat) : saveInterval f ≠ 0 := by unfold saveInterval; split <;> omega

theorem screen_computed (o : Opts) (m : Dest × List Col) (hm : m ∈ screenTables o) (x : Col) (hx : x ∈ m.2) :
    x = .gen ∨ x = .eval ∨ x ∈ popOf o ∨ x ∈ statsOf o ∨ x = .time ∧ (o.useTime && prints o) = true := by
  unfold screenTables at hm
  split at hm
  · rename_i hp
    rw [List.mem_singleton] at hm
    subst hm
    have hx' : x ∈ screenCols o := hx
    unfold screenCols at hx'
    simp only [List.mem_append, List.mem_singleton] at hx'
    rcases hx' with (((h | h) | h) | h) | h
    · exact Or.inl h
    · split at h
      · exact Or.inr (Or.inl (List.mem_singleton.1 h))
      · cases h
    · split at h
      · rename_i ht; exact Or.inr (Or.inr (Or.inr (Or.inr ⟨List.mem_singleton.1 h, by rw [ht, hp]; rfl⟩)))
      · cases h
    · split at h
      · rename_i hb
        refine Or.inr (Or.inr (Or.inr (Or.inl ?_)))
        unfold statsOf
        rw [hb]
        simp only [List.mem_cons, List.not_mem_nil, or_false] at h
        rcases h with rfl | rfl <;> simp
      · cases h
    · exact Or.inr (Or.inr (Or.inl h))
  · cases hm

theorem file_computed (o : Opts) (m : Dest × List Col) (hm : m ∈ fileTables o) (x : Col) (hx : x ∈ m.2) :
    x = .gen ∨ x = .eval ∨ x ∈ statsOf o ++ (if o.gnuplot && o.plotHisto then [.fits] else []) ∨
      x = .time ∧ (o.useTime && prints o) = true := by
  unfold fileTables at hm
  simp only [List.mem_append] at hm
  rcases hm with (hm | hm) | hm <;> split at hm <;> try (cases hm; done)
  all_goals (rename_i hb; rw [List.mem_singleton] at hm; subst hm)
  · simp only [List.cons_append, List.nil_append, List.mem_cons, List.mem_append, List.not_mem_nil, or_false] at hx
    rcases hx with h | h | h | h | h
    · exact Or.inl h
    · exact Or.inr (Or.inl h)
    · split at h
      · rename_i ht; exact Or.inr (Or.inr (Or.inr ⟨List.mem_singleton.1 h, ht⟩))
      · cases h
    all_goals (subst h; refine Or.inr (Or.inr (Or.inl ?_)); unfold statsOf; rw [hb]; simp)
  · simp only [List.mem_cons, List.not_mem_nil, or_false] at hx
    rcases hx with h | h | h
    · subst h
      split
      · exact Or.inr (Or.inl rfl)
      · split
        · rename_i ht; exact Or.inr (Or.inr (Or.inr ⟨rfl, ht⟩))
        · exact Or.inl rfl
    all_goals
      subst h
      refine Or.inr (Or.inr (Or.inl ?_))
      rw [Bool.and_eq_true] at hb
      unfold statsOf
      rw [hb.2]
      simp
  · rw [List.mem_singleton] at hx
    subst hx
    refine Or.inr (Or.inr (Or.inl ?_))
    rw [if_pos hb]
    simp

theorem statsOf_time (o : Opts) : Col.time ∉ statsOf o := by
  unfold statsOf; split <;> split <;> simp

theorem sig_untimed (o : Opts) : ¬ Chk.computes
    ⟨popOf o, statsOf o ++ (if o.gnuplot && o.plotHisto then [.fits] else []),
      [.count] ++ saversOf o.saveFrequency o.saveTime, fileTables o⟩ .time := by
  rintro (h | h | ⟨-, h⟩)
  · dsimp only [popOf] at h; split at h <;> simp at h
  · dsimp only at h
    rcases List.mem_append.1 h with h | h
    · exact statsOf_time o h
    · split at h <;> simp at h
  · dsimp only at h
    rcases List.mem_append.1 h with h | h
    · simp at h
    · exact saversOf_time _ _ h

theorem build_sound (o : Opts) : Sound (build o) := by
  cases h : o.ctrlC with
  | false =>
    rw [build_free h]
    refine ⟨?_, ?_, ?_, ?_, ?_, ?_⟩
    · dsimp only
      rw [List.count_append, List.count_append, saversOf_count]
      split <;> rfl
    · dsimp only
      have : intervals ([.count] ++ (if o.useTime && prints o then [.time] else []) ++
          saversOf o.saveFrequency o.saveTime) = intervals (saversOf o.saveFrequency o.saveTime) := by
        split <;> simp [intervals]
      rw [this, saversOf_intervals]
      intro i hi
      split at hi
      · cases hi
      · rw [List.mem_singleton.1 hi]; exact saveInterval_ne _
    · intro m hm x hx
      have key : ∀ y, y = Col.time ∧ (o.useTime && prints o) = true → Chk.computes
          ⟨popOf o, statsOf o ++ (if o.gnuplot && o.plotHisto then [.fits] else []),
            [.count] ++ (if o.useTime && prints o then [.time] else []) ++ saversOf o.saveFrequency o.saveTime,
            screenTables o ++ fileTables o⟩ y := by
        rintro y ⟨rfl, ht⟩
        refine Or.inr (Or.inr ⟨rfl, ?_⟩)
        dsimp only
        rw [if_pos ht]
        simp
      rcases List.mem_append.1 hm with hm | hm
      · rcases screen_computed o m hm x hx with h' | h' | h' | h' | h'
        · exact Or.inl h'
        · exact Or.inr (Or.inl h')
        · exact Or.inr (Or.inr (Or.inl (Or.inl h')))
        · exact Or.inr (Or.inr (Or.inl (Or.inr (Or.inl (List.mem_append_left _ h')))))
        · exact Or.inr (Or.inr (Or.inl (key x h')))
      · rcases file_computed o m hm x hx with h' | h' | h' | h'
        · exact Or.inl h'
        · exact Or.inr (Or.inl h')
        · exact Or.inr (Or.inr (Or.inl (Or.inr (Or.inl h'))))
        · exact Or.inr (Or.inr (Or.inl (key x h')))
    all_goals (intro c hc; cases hc)
  | true =>
    rw [build_sig h]
    have hct : ∀ y, y = Col.time ∧ (o.useTime && prints o) = true → Chk.computes
          ⟨popOf o, statsOf o, if o.useTime && prints o then [.time] else [], screenTables o⟩ y := by
      rintro y ⟨rfl, ht⟩
      refine Or.inr (Or.inr ⟨rfl, ?_⟩)
      dsimp only
      rw [if_pos ht]
      simp
    refine ⟨?_, ?_, ?_, ?_, ?_, ?_⟩
    · dsimp only
      rw [List.count_append, saversOf_count]
      rfl
    · dsimp only
      have : intervals ([.count] ++ saversOf o.saveFrequency o.saveTime) =
          intervals (saversOf o.saveFrequency o.saveTime) := by simp [intervals]
      rw [this, saversOf_intervals]
      intro i hi
      split at hi
      · cases hi
      · rw [List.mem_singleton.1 hi]; exact saveInterval_ne _
    · intro m hm x hx
      rcases file_computed o m hm x hx with h' | h' | h' | h'
      · exact Or.inl h'
      · exact Or.inr (Or.inl h')
      · exact Or.inr (Or.inr (Or.inl (Or.inr (Or.inl h'))))
      · exact Or.inr (Or.inr (Or.inr ⟨h'.1, _, rfl, h'.1 ▸ hct x h'⟩))
    · intro c hc
      cases hc
      dsimp only
      split
      · exact Or.inr rfl
      · exact Or.inl rfl
    · intro c hc m hm x hx
      cases hc
      rcases screen_computed o m hm x hx with h' | h' | h' | h' | h'
      · exact Or.inl h'
      · exact Or.inr (Or.inl h')
      · exact Or.inr (Or.inr (Or.inl h'))
      · exact Or.inr (Or.inr (Or.inr (Or.inl h')))
      · exact Or.inr (Or.inr (hct x h'))
    · intro c hc _ hm
      cases hc
      exact sig_untimed o hm

theorem linesOf_none (W : World V) {b : Built} (hb : Sound b) (h : b.sig = none) (g : Nat) :
    linesOf W b g = b.main.monitors.map fun m => (m.1, m.2.map (cell W g)) := by
  unfold linesOf
  rw [h, List.append_nil]
  apply List.map_congr_left
  intro m hm
  congr 1
  apply List.map_congr_left
  intro x hx
  unfold seen
  rw [if_neg]
  rintro ⟨rfl, hn⟩
  rcases hb.shown m hm _ hx with h' | h' | h' | ⟨-, c, hc, -⟩
  · cases h'
  · cases h'
  · exact hn h'
  · rw [h] at hc; cases hc

theorem run_none (W : World V) {b : Built} (hb : Sound b) (h : b.sig = none) (start : Int) {N : Nat}
    (hN : StopsAt W N) : ∃ s, b.run W (N + 1) 0 (St.new W start) = .ok s ∧ s.out =
      (List.range (N + 1)).flatMap fun g => b.main.monitors.map fun m => (m.1, m.2.map (cell W g)) := by
  obtain ⟨s, h1, h2, -⟩ := run_spec W hb start hN
  refine ⟨s, h1, h2.trans ?_⟩
  congr 1
  funext g
  exact linesOf_none W hb h g

/-! ### C311: what is printed -/

/-- **C311.** A checkpoint made from the command line, whose monitor does not wait for Ctrl-C: for all options, all
statistics and all populations, a run in which the criterion says stop at the `N+1`-st generation prints in each
generation one line for each output asked for, with the columns asked for, and every value is that of this generation.
The time is in the file only if something is printed on the screen. -/
theorem C311_lines {o : Opts} (hc : o.ctrlC = false) (W : World V) (start : Int) {N : Nat} (hN : StopsAt W N) :
    ∃ s, (build o).run W (N + 1) 0 (St.new W start) = .ok s ∧ s.out = (List.range (N + 1)).flatMap fun g =>
      (screenTables o ++ fileTables o).map fun m => (m.1, m.2.map (cell W g)) := by
  have := run_none W (build_sound o) (by rw [build_free hc]) start hN
  rwa [build_free hc] at this ⊢

/-- **C311.** The results directory is looked at if and only if a file, a plot or a saved state is asked for: also for
plots that are not made because there is no gnuplot. -/
theorem C311_directory (o : Opts) : (build o).dir = true ↔
    o.fileBest = true ∨ o.plotBest = true ∨ o.plotHisto = true ∨ (∃ f, o.saveFrequency = some f) ∨
      ∃ t, 0 < t ∧ o.saveTime = some t := by
  have : (build o).dir = ((o.fileBest || o.plotBest || o.plotHisto) ||
      (o.saveFrequency.isSome || o.saveTime.any (0 < ·))) := by
    cases h : o.ctrlC
    · rw [build_free h]
    · rw [build_sig h]
  rw [this]
  simp only [Bool.or_eq_true, Option.isSome_iff_exists, Option.any_eq_true, decide_eq_true_eq, or_assoc]
  constructor
  · rintro (h | h | h | h | ⟨t, h1, h2⟩)
    · exact Or.inl h
    · exact Or.inr (Or.inl h)
    · exact Or.inr (Or.inr (Or.inl h))
    · exact Or.inr (Or.inr (Or.inr (Or.inl h)))
    · exact Or.inr (Or.inr (Or.inr (Or.inr ⟨t, h2, h1⟩)))
  · rintro (h | h | h | h | ⟨t, h1, h2⟩)
    · exact Or.inl h
    · exact Or.inr (Or.inl h)
    · exact Or.inr (Or.inr (Or.inl h))
    · exact Or.inr (Or.inr (Or.inr (Or.inl h)))
    · exact Or.inr (Or.inr (Or.inr (Or.inr ⟨t, h2, h1⟩)))

/-- A world whose values are numbers: the statistic `best` is the generation times ten, all the others its square; a
signal comes before the third generation; it stops after the fourth. -/
def sampleWorld : World Nat :=
  ⟨fun x g => if x = .best then 10 * g else if x = .time then 100 + g else g * g, id, fun _ => 7, fun g => 2 * g,
    fun g => g == 2, fun g => g != 3⟩

def sampleOpts (ctrlC : Bool) : Opts :=
  { ctrlC, useEval := false, useTime := true, printBest := true, plotBest := true, fileBest := true, printPop := false,
    plotHisto := false, saveFrequency := some 3, saveTime := some 4, gnuplot := false }

theorem sampleStops : StopsAt sampleWorld 3 := ⟨by decide, by decide⟩

example : ∃ s, (build (sampleOpts false)).run sampleWorld 4 0 (St.new sampleWorld 0) = .ok s ∧
    s.out.take 3 = [(.screen, [1, 100, 0, 0]), (.file, [1, 0, 100, 0, 0]), (.screen, [2, 101, 10, 1])] := by
  obtain ⟨s, h1, h2⟩ := C311_lines (o := sampleOpts false) rfl sampleWorld 0 sampleStops
  exact ⟨s, h1, by rw [h2]; decide +kernel⟩

/-! ### C312: the monitor of Ctrl-C -/

/-- **C312.** With the monitor that waits for Ctrl-C: each generation writes its files, in which every value is that of
this generation except the time, which is that of the last generation before it with a signal (and that of the start if
there was none); and the screen shows a line in the generations with a signal only, in which every value is that of the
generation. -/
theorem C312_signal {o : Opts} (hc : o.ctrlC = true) (W : World V) (start : Int) {N : Nat} (hN : StopsAt W N) :
    ∃ s, (build o).run W (N + 1) 0 (St.new W start) = .ok s ∧ s.out = (List.range (N + 1)).flatMap fun g =>
      ((fileTables o).map fun m => (m.1, m.2.map (late W g))) ++
        if W.signal g then (screenTables o).map fun m => (m.1, m.2.map (cell W g)) else [] := by
  obtain ⟨s, h1, h2, -⟩ := run_spec W (build_sound o) start hN
  refine ⟨s, h1, h2.trans ?_⟩
  congr 1
  funext g
  unfold linesOf
  have hs : seen W (build o) g = late W g := by
    funext x
    unfold seen
    rw [build_sig hc]
    by_cases hx : x = .time
    · subst hx; rw [if_pos ⟨rfl, sig_untimed o⟩]; rfl
    · rw [if_neg (fun h => hx h.1)]; cases x <;> first | rfl | exact absurd rfl hx
  rw [hs, build_sig hc]

example : ∃ s, (build (sampleOpts true)).run sampleWorld 4 0 (St.new sampleWorld 0) = .ok s ∧
    s.out = [(.file, [1, 0, 7, 0, 0]), (.file, [2, 1, 7, 10, 1]), (.file, [3, 4, 7, 20, 4]),
      (.screen, [3, 102, 20, 4]), (.file, [4, 9, 102, 30, 9])] := by
  obtain ⟨s, h1, h2⟩ := C312_signal (o := sampleOpts true) rfl sampleWorld 0 sampleStops
  exact ⟨s, h1, by rw [h2]; decide +kernel⟩

/-! ### C313: saved states -/

theorem savesUpTo_eq (f n : Nat) (hn : n < 2 ^ 32 - 1) :
    savesUpTo (saveInterval f) n ++ [n % 2 ^ 32] = savedStates n (some f) := by
  rw [Nat.mod_eq_of_lt (show n < 2 ^ 32 by omega)]
  cases f with
  | zero =>
    have : savesUpTo (saveInterval 0) n = [] := by
      unfold savesUpTo saveInterval
      rw [List.flatMap_eq_nil_iff]
      intro h hh
      rw [List.mem_range] at hh
      rw [if_neg]
      rw [if_neg (by omega)]
      rw [Nat.mod_eq_of_lt (show h + 1 < 2 ^ 32 by omega), Nat.mod_eq_of_lt (show h + 1 < 2 ^ 32 - 1 by omega)]
      omega
    rw [this]
    rfl
  | succ f =>
    unfold savedStates savesUpTo saveInterval
    rw [if_pos (by omega)]
    congr 1
    clear * - hn
    induction n with
    | zero => rfl
    | succ n ih =>
      rw [List.range_succ, List.flatMap_append, List.filterMap_append, ih (by omega)]
      congr 1
      rw [List.flatMap_cons, List.flatMap_nil, List.append_nil, List.filterMap_cons, List.filterMap_nil,
        Nat.mod_eq_of_lt (show n + 1 < 2 ^ 32 by omega)]
      by_cases h : f + 1 ∣ n + 1
      · rw [if_pos (Nat.mod_eq_zero_of_dvd h), if_pos h]
      · rw [if_neg (fun h' => h (Nat.dvd_of_mod_eq_zero h')), if_neg h]

theorem build_intervals (o : Opts) :
    intervals (build o).main.updaters = (match o.saveFrequency with | none => [] | some f => [saveInterval f]) ∧
    timeIntervals (build o).main.updaters =
      (match o.saveTime with | none => [] | some t => if 0 < t then [t] else []) := by
  have hi : ∀ l, intervals (([.count] ++ (if o.useTime && prints o then [.time] else [])) ++ l) = intervals l ∧
      timeIntervals (([.count] ++ (if o.useTime && prints o then [.time] else [])) ++ l) = timeIntervals l := by
    intro l; split <;> simp [intervals, timeIntervals]
  have hj : ∀ l, intervals ([.count] ++ l) = intervals l ∧ timeIntervals ([.count] ++ l) = timeIntervals l := by
    intro l; simp [intervals, timeIntervals]
  cases h : o.ctrlC
  · rw [build_free h]
    dsimp only
    rw [(hi _).1, (hi _).2, saversOf_intervals, saversOf_timeIntervals]
    exact ⟨rfl, rfl⟩
  · rw [build_sig h]
    dsimp only
    rw [(hj _).1, (hj _).2, saversOf_intervals, saversOf_timeIntervals]
    exact ⟨rfl, rfl⟩

/-- **C313.** For all options and all runs of fewer than `2^32 - 2` generations: the states saved every so many
generations are those whose number is a multiple of the frequency, and the last one (twice, if its number is a multiple);
with frequency 0 the last one only; without the parameter none.  The states saved every so many seconds are those of the
first generation so many seconds after the one saved before or after the start; none if the interval is 0. -/
theorem C313_states (o : Opts) (W : World V) (start : Int) {N : Nat} (hN : StopsAt W N) (hlt : N + 1 < 2 ^ 32 - 1) :
    ∃ s, (build o).run W (N + 1) 0 (St.new W start) = .ok s ∧ s.saves = savedStates (N + 1) o.saveFrequency ∧
      s.timedSaves = match o.saveTime with
        | none | some 0 => []
        | some (t + 1) => Init.timedRun (t + 1) start ((List.range (N + 1)).map W.clock) := by
  obtain ⟨s, h1, -, h3, h4, h5, h6, -⟩ := run_spec W (build_sound o) start hN
  obtain ⟨hi, ht⟩ := build_intervals o
  refine ⟨s, h1, ?_, ?_⟩
  · cases hf : o.saveFrequency with
    | none => rw [hf] at hi; exact h3 hi
    | some f => rw [hf] at hi; rw [h4 _ hi]; exact savesUpTo_eq f (N + 1) hlt
  · cases hf : o.saveTime with
    | none => rw [hf] at ht; exact h5 ht
    | some t =>
      rw [hf] at ht
      cases t with
      | zero => exact h5 ht
      | succ t => exact h6 (t + 1) ht

example : ∃ s, (build (sampleOpts true)).run sampleWorld 4 0 (St.new sampleWorld 0) = .ok s ∧
    s.saves = [3, 4] ∧ s.timedSaves = [4] := by
  obtain ⟨s, h1, h2, h3⟩ := C313_states (sampleOpts true) sampleWorld 0 sampleStops (by decide)
  exact ⟨s, h1, by rw [h2]; decide, by rw [h3]; decide⟩

/-! ### C314: the two other ones of EO -/

/-- What the checkpoint with the fitness-distance correlation prints. -/
def fdcTables (o : FOpts) : List (Dest × List Col) :=
  (if o.printBest || o.printFDC || o.printPop then [(.screen,
    [Col.gen] ++ (if o.useEval then [.eval] else []) ++ (if o.printBest then [.best, .second] else []) ++
      (if o.printFDC then [.fdc] else []) ++ (if o.printPop then [.pop] else []))] else []) ++
  (if o.fileBest then [(.file, [.gen, .eval, .best, .second])] else []) ++
  (if o.plotBest then [(.plot, [if o.useEval then .eval else .gen, .best, .average])] else []) ++
  (if o.plotFDC then [(.scatter, [.fdc])] else []) ++
  (if o.plotHisto then [(.histogram, [.fits])] else [])

/-- Its statistics. -/
def fdcStats (o : FOpts) : List Col :=
  (if o.printBest || o.plotBest || o.fileBest then [.best] else []) ++ (if o.plotBest then [.average] else []) ++
  (if o.printBest then [.second] else []) ++ (if o.printFDC || o.plotFDC then [.fdc] else []) ++
  (if o.plotHisto then [.fits] else [])

/-- Everything printed is computed. -/
def covered (c : Chk) : Bool :=
  c.monitors.all fun m => m.2.all fun x => x = .gen || x = .eval || decide (c.computes x)

theorem covered_spec {c : Chk} (h : covered c = true) (m : Dest × List Col) (hm : m ∈ c.monitors) (x : Col)
    (hx : x ∈ m.2) : x = .gen ∨ x = .eval ∨ c.computes x := by
  have := List.all_eq_true.1 (List.all_eq_true.1 h m hm) x hx
  simpa [or_assoc] using this

theorem buildFDC_eq (o : FOpts) (h : ¬ (o.fileBest = true ∧ o.printBest = false)) : buildFDC o =
    .ok ⟨⟨if o.printPop then [.pop] else [], fdcStats o, [.count] ++ saversOf o.saveFrequency o.saveTime,
      fdcTables o⟩, none, (o.fileBest || o.plotBest || o.plotFDC || o.plotHisto) ||
        (o.saveFrequency.isSome || o.saveTime.any (0 < ·))⟩ := by
  obtain ⟨ue, pb, lb, fb, pp, pf, lf, ph, sf, st⟩ := o
  unfold buildFDC
  dsimp only
  simp only [addSavers_eq]
  cases pb <;> cases fb <;> first | exact absurd ⟨rfl, rfl⟩ h | skip
  all_goals (cases lb <;> cases pp <;> cases pf <;> cases lf <;> cases ph <;> rfl)

theorem fdc_covered (o : FOpts) (h : ¬ (o.fileBest = true ∧ o.printBest = false)) (us : List Upd) :
    covered ⟨if o.printPop then [.pop] else [], fdcStats o, us, fdcTables o⟩ = true := by
  obtain ⟨ue, pb, lb, fb, pp, pf, lf, ph, sf, st⟩ := o
  cases pb <;> cases fb <;> first | exact absurd ⟨rfl, rfl⟩ h | skip
  all_goals (cases ue <;> cases lb <;> cases pp <;> cases pf <;> cases lf <;> cases ph <;> rfl)

/-- **C314.** The checkpoint with the fitness-distance correlation: asked for the file of the best fitness but not to
print it on the screen, it reads a null pointer; in all other cases it is made. -/
theorem C314_fdc_crash (o : FOpts) :
    buildFDC o = .error .ub ↔ o.fileBest = true ∧ o.printBest = false := by
  constructor
  · intro h
    by_contra hn
    rw [buildFDC_eq o hn] at h
    cases h
  · rintro ⟨h1, h2⟩
    simp [buildFDC, h1, h2]

theorem sound_plain {c : Chk} {l : List Upd} {f t : Option Nat} {d : Bool} (hu : c.updaters = l ++ saversOf f t)
    (hl : l.count .count = 1) (hi : intervals l = []) (hc : covered c = true) : Sound ⟨c, none, d⟩ := by
  refine ⟨?_, ?_, ?_, ?_, ?_, ?_⟩
  · dsimp only
    rw [hu, List.count_append, saversOf_count, hl]
  · dsimp only
    have : intervals (l ++ saversOf f t) = intervals l ++ intervals (saversOf f t) := List.filterMap_append
    rw [hu, this, hi, saversOf_intervals]
    intro i h
    split at h
    · cases h
    · rw [List.nil_append, List.mem_singleton] at h; rw [h]; exact saveInterval_ne _
  · intro m hm x hx
    rcases covered_spec hc m hm x hx with h | h | h
    · exact Or.inl h
    · exact Or.inr (Or.inl h)
    · exact Or.inr (Or.inr (Or.inl h))
  all_goals (intro c hc; cases hc)

/-- **C314.** Made, it prints in each generation a line for each output asked for, with the values of this
generation. -/
theorem C314_fdc_lines (o : FOpts) (h : ¬ (o.fileBest = true ∧ o.printBest = false)) : ∃ b, buildFDC o = .ok b ∧
    ∀ (V : Type) (W : World V) (start : Int) (N : Nat), StopsAt W N →
      ∃ s, b.run W (N + 1) 0 (St.new W start) = .ok s ∧ s.out = (List.range (N + 1)).flatMap fun g =>
        (fdcTables o).map fun m => (m.1, m.2.map (cell W g)) := by
  refine ⟨_, buildFDC_eq o h, fun V W start N hN => ?_⟩
  exact run_none W (sound_plain rfl rfl rfl (fdc_covered o h _)) rfl start hN

example : ¬ ((⟨true, true, false, true, false, true, false, false, none, none⟩ : FOpts).fileBest = true ∧
    (⟨true, true, false, true, false, true, false, false, none, none⟩ : FOpts).printBest = false) := by decide
example : buildFDC ⟨true, false, false, true, false, true, false, false, none, none⟩ = .error .ub :=
  (C314_fdc_crash _).2 ⟨rfl, rfl⟩

/-- What the checkpoint for fitnesses of `n` terms prints. -/
def assembledTables (n : Nat) (plots printFile gnuplot : Bool) : List (Dest × List Col) :=
  [(.screen, [.gen, .eval, .time, .bestTerm 0] ++ (List.range n).map .avgTerm)] ++
  (if plots && gnuplot then (.histogram, [.fits]) ::
    (List.range n).map (fun k => (Dest.termPlot k, [.gen, .bestTerm k, .avgTerm k])) else []) ++
  (if printFile then
    [(.file, [.gen, .eval, .time] ++ (List.range n).flatMap fun i => [.bestTerm i, .avgTerm i])] else [])

theorem addMons_eq (f : Nat → Dest × List Col) (l : List Nat) (b : Built) :
    l.foldl (fun b k => b.onMain (·.addMon (f k).1 (f k).2)) b =
      ⟨⟨b.main.sorted, b.main.stats, b.main.updaters, b.main.monitors ++ l.map f⟩, b.sig, b.dir⟩ := by
  induction l generalizing b with
  | nil => simp
  | cons a l ih =>
    rw [List.foldl_cons, ih]
    simp [Built.onMain, Chk.addMon]

theorem buildAssembled_eq (n : Nat) (hn : n ≠ 0) (plots printFile gnuplot : Bool) (f : Option Nat) :
    buildAssembled n plots printFile gnuplot f = .ok ⟨⟨[], (List.range n).map .avgTerm ++ (List.range n).map .bestTerm ++
      (if plots then [.fits] else []), [.count, .time] ++ saversOf f none,
      assembledTables n plots printFile gnuplot⟩, none, true⟩ := by
  unfold buildAssembled
  rw [if_neg hn]
  dsimp only
  rw [addSavers_eq]
  have := addMons_eq fun k => (Dest.termPlot k, [.gen, .bestTerm k, .avgTerm k])
  dsimp only at this
  simp only [this]
  cases plots <;> cases printFile <;> cases gnuplot <;>
    simp [when, Built.onMain, Chk.addStat, Chk.addMon, assembledTables]

theorem assembled_covered (n : Nat) (hn : n ≠ 0) (plots printFile gnuplot : Bool) (f : Option Nat) :
    covered ⟨[], (List.range n).map .avgTerm ++ (List.range n).map .bestTerm ++ (if plots then [.fits] else []),
      [.count, .time] ++ saversOf f none, assembledTables n plots printFile gnuplot⟩ = true := by
  cases plots <;> cases printFile <;> cases gnuplot <;>
    simp +contextual [covered, assembledTables, Chk.computes, Nat.pos_of_ne_zero hn]

/-- **C314.** The checkpoint for fitnesses with terms reads a first term that does not exist if there is none; otherwise
it prints in each generation what is asked for, with the values of this generation. -/
theorem C314_assembled (n : Nat) (plots printFile gnuplot : Bool) (f : Option Nat) :
    (n = 0 → buildAssembled n plots printFile gnuplot f = .error .ub) ∧
    (n ≠ 0 → ∃ b, buildAssembled n plots printFile gnuplot f = .ok b ∧
      ∀ (V : Type) (W : World V) (start : Int) (N : Nat), StopsAt W N →
        ∃ s, b.run W (N + 1) 0 (St.new W start) = .ok s ∧ s.out = (List.range (N + 1)).flatMap fun g =>
          (assembledTables n plots printFile gnuplot).map fun m => (m.1, m.2.map (cell W g))) := by
  refine ⟨fun h => by rw [h]; rfl, fun h => ⟨_, buildAssembled_eq n h plots printFile gnuplot f, ?_⟩⟩
  intro V W start N hN
  exact run_none W (sound_plain rfl rfl rfl (assembled_covered n h plots printFile gnuplot f)) rfl start hN

example : ∃ b s, buildAssembled 2 true true false none = .ok b ∧
    b.run sampleWorld 4 0 (St.new sampleWorld 0) = .ok s ∧
    s.out.take 2 = [(.screen, [1, 0, 100, 0, 0, 0]), (.file, [1, 0, 100, 0, 0, 0, 0])] := by
  obtain ⟨b, h1, h2⟩ := (C314_assembled 2 true true false none).2 (by decide)
  obtain ⟨s, h3, h4⟩ := h2 _ sampleWorld 0 3 sampleStops
  exact ⟨b, s, h1, h3, by rw [h4]; decide +kernel⟩

/-! ### C315: the one of MOEO -/

/-- What is done with the archive in a generation, in this order. -/
def archiveSteps (o : MOpts) : List Upd :=
  (if o.updateArch then [.archive] else []) ++ (if o.storeArch then [.storeArch] else []) ++
  (if o.contribution then [.contribution] else []) ++ (if o.entropy then [.entropy] else [])

theorem buildMoeo_eq (o : MOpts) : buildMoeo o =
    ⟨⟨if o.printPop then [.pop] else [], [], [.count] ++ saversOf o.saveFrequency o.saveTime ++ archiveSteps o, []⟩, none,
      (o.saveFrequency.isSome || o.saveTime.any (0 < ·)) || (o.storeArch || o.contribution || o.entropy)⟩ := by
  obtain ⟨pp, sf, st, ua, sa, c, e⟩ := o
  unfold buildMoeo
  dsimp only
  rw [addSavers_eq]
  cases pp <;> cases ua <;> cases sa <;> cases c <;> cases e <;>
    simp [when, Built.onMain, Chk.addSorted, Chk.addUpd, archiveSteps]

theorem archiveSteps_facts (o : MOpts) : (archiveSteps o).count .count = 0 ∧ intervals (archiveSteps o) = [] ∧
    timeIntervals (archiveSteps o) = [] ∧ (archiveSteps o).filter isArch = archiveSteps o := by
  obtain ⟨pp, sf, st, ua, sa, c, e⟩ := o
  cases ua <;> cases sa <;> cases c <;> cases e <;>
    simp [archiveSteps, intervals, timeIntervals, isArch]

/-- **C315.** The checkpoint of MOEO, for all options and all runs: nothing is ever printed, even if the population is
asked for; in each generation the archive is updated first, and then stored and compared; the states are saved as those
of EO. -/
theorem C315_moeo (o : MOpts) (W : World V) (start : Int) {N : Nat} (hN : StopsAt W N) (hlt : N + 1 < 2 ^ 32 - 1) :
    ∃ s, (buildMoeo o).run W (N + 1) 0 (St.new W start) = .ok s ∧ s.out = [] ∧
      s.arch = (List.range (N + 1)).flatMap (fun g => (archiveSteps o).map (·, g)) ∧
      s.saves = savedStates (N + 1) o.saveFrequency ∧
      s.timedSaves = match o.saveTime with
        | none | some 0 => []
        | some (t + 1) => Init.timedRun (t + 1) start ((List.range (N + 1)).map W.clock) := by
  obtain ⟨f1, f2, f3, f4⟩ := archiveSteps_facts o
  have hint : intervals (buildMoeo o).main.updaters = intervals (saversOf o.saveFrequency o.saveTime) := by
    have : ∀ l m, intervals ([.count] ++ l ++ m) = intervals l ++ intervals m := by intro l m; simp [intervals]
    rw [buildMoeo_eq, this, f2, List.append_nil]
  have htint : timeIntervals (buildMoeo o).main.updaters = timeIntervals (saversOf o.saveFrequency o.saveTime) := by
    have : ∀ l m, timeIntervals ([.count] ++ l ++ m) = timeIntervals l ++ timeIntervals m := by
      intro l m; simp [timeIntervals]
    rw [buildMoeo_eq, this, f3, List.append_nil]
  have hb : Sound (buildMoeo o) := by
    refine ⟨?_, ?_, ?_, ?_, ?_, ?_⟩
    · rw [buildMoeo_eq]
      dsimp only
      rw [List.count_append, List.count_append, saversOf_count, f1]
      rfl
    · rw [hint, saversOf_intervals]
      intro i h
      split at h
      · cases h
      · rw [List.mem_singleton] at h; rw [h]; exact saveInterval_ne _
    all_goals rw [buildMoeo_eq]; dsimp only
    · intro m hm; cases hm
    all_goals (intro c hc; cases hc)
  obtain ⟨s, h1, h2, h3, h4, h5, h6, h7⟩ := run_spec W hb start hN
  rw [saversOf_intervals] at hint
  rw [saversOf_timeIntervals] at htint
  refine ⟨s, h1, ?_, ?_, ?_, ?_⟩
  · rw [h2]
    have : linesOf W (buildMoeo o) = fun _ => [] := by
      funext g
      unfold linesOf
      rw [buildMoeo_eq]
      rfl
    rw [this]
    simp
  · rw [h7, buildMoeo_eq]
    dsimp only
    rw [List.filter_append, List.filter_append, saversOf_arch, f4]
    rfl
  · cases hf : o.saveFrequency with
    | none => rw [hf] at hint; exact h3 hint
    | some f => rw [hf] at hint; rw [h4 _ hint]; exact savesUpTo_eq f (N + 1) hlt
  · cases hf : o.saveTime with
    | none => rw [hf] at htint; exact h5 htint
    | some t =>
      rw [hf] at htint
      cases t with
      | zero => exact h5 htint
      | succ t => exact h6 (t + 1) htint

example : ∃ s, (buildMoeo ⟨true, some 0, none, true, false, true, false⟩).run sampleWorld 4 0 (St.new sampleWorld 0) =
      .ok s ∧ s.out = [] ∧ s.saves = [4] ∧
    s.arch.take 3 = [(.archive, 0), (.contribution, 0), (.archive, 1)] := by
  obtain ⟨s, h1, h2, h3, h4, -⟩ := C315_moeo ⟨true, some 0, none, true, false, true, false⟩ sampleWorld 0 sampleStops
    (by decide)
  exact ⟨s, h1, h2, by rw [h4]; decide, by rw [h3]; decide +kernel⟩

/-! ### C316: the results directory -/

theorem splitOn_plain {name : Text} (h : ' ' ∉ name) : name.splitOn ' ' = [name] := by
  have := List.splitOn_intercalate (ls := [name]) ' ' (by simpa using h) (by simp)
  simpa using this

theorem words_plain {name : Text} (h : ' ' ∉ name) (hn : name ≠ []) : words name = [name] := by
  unfold words
  rw [splitOn_plain h]
  simp [hn]

/-- **C316.** The results directory, for all disks and all names without a blank.  If it does not exist it is made,
unless that is impossible, which is not noticed; and nothing else changes. -/
theorem C316_missing (able : Text → Bool) {name : Text} (h : ' ' ∉ name) (hn : name ≠ []) (erase : Bool) {d : Disk}
    (hd : d name = none) : ∃ d', testDirRes able name erase d = .ok d' ∧
      d' name = (if able name then some [] else none) ∧ ∀ v, v ≠ name → d' v = d v := by
  refine ⟨shellMkdir able name d, ?_, ?_, ?_⟩
  · simp [testDirRes, shellTest, words_plain h hn, hd]
  · simp only [shellMkdir, words_plain h hn, List.foldl_cons, List.foldl_nil, hd, true_and]
  · intro v hv
    simp [shellMkdir, words_plain h hn, hv]

/-- **C316.** If it exists and may be erased, the files in it are removed that are not hidden; the hidden ones, its
directories and everything elsewhere stay. -/
theorem C316_erase (able : Text → Bool) {name : Text} (h : ' ' ∉ name) (hn : name ≠ []) {d : Disk} {es : List Entry}
    (hd : d name = some es) : ∃ d', testDirRes able name true d = .ok d' ∧
      (∃ es', d' name = some es' ∧ es'.Sublist es ∧
        ∀ e ∈ es, e ∈ es' ↔ e.isDir = true ∨ e.name.head? = some '.') ∧
      ∀ v, v ≠ name → d' v = d v := by
  refine ⟨shellRm name d, ?_, ⟨es.filter fun e => !globbed e || e.isDir, ?_, List.filter_sublist, ?_⟩, ?_⟩
  · simp [testDirRes, shellTest, words_plain h hn, hd]
  · simp [shellRm, splitOn_plain h, hd]
  · intro e he
    rw [List.mem_filter]
    simp [he, globbed, or_comm]
  · intro v hv
    simp [shellRm, splitOn_plain h, hv]

/-- **C316.** If it exists and may not be erased, it is refused, even if it is empty. -/
theorem C316_refused (able : Text → Bool) {name : Text} (h : ' ' ∉ name) (hn : name ≠ []) {d : Disk} {es : List Entry}
    (hd : d name = some es) : testDirRes able name false d = .error .thrown := by
  simp [testDirRes, shellTest, words_plain h hn, hd]

/-- **C316.** With an empty name and leave to erase, the files of the root directory are removed that are not hidden. -/
theorem C316_root (able : Text → Bool) (d : Disk) {es : List Entry} (hd : d [] = some es) :
    ∃ d' es', testDirRes able [] true d = .ok d' ∧ d' [] = some es' ∧
      ∀ e ∈ es, e ∈ es' ↔ e.isDir = true ∨ e.name.head? = some '.' := by
  refine ⟨shellRm [] d, es.filter fun e => !globbed e || e.isDir, rfl, ?_, ?_⟩
  · have : ([] : Text).splitOn ' ' = [[]] := by decide
    simp [shellRm, this, hd]
  · intro e he
    rw [List.mem_filter]
    simp [he, globbed, or_comm]

/-- **C316.** A name with a blank in it is two names: both directories are made, and an existing one is neither erased nor
refused. -/
theorem C316_blank (able : Text → Bool) {a b : Text} (ha : ' ' ∉ a) (hb : ' ' ∉ b) (ha0 : a ≠ []) (hb0 : b ≠ [])
    (erase : Bool) (d : Disk) : ∃ d', testDirRes able (a ++ ' ' :: b) erase d = .ok d' ∧
      ∀ v, d' v = if (v = a ∨ v = b) ∧ d v = none ∧ able v = true then some [] else d v := by
  have hsplit : (a ++ ' ' :: b).splitOn ' ' = [a, b] := by
    have := List.splitOn_intercalate (ls := [a, b]) ' ' (by simpa using ⟨ha, hb⟩) (by simp)
    simpa [List.intercalate] using this
  have hw : words (a ++ ' ' :: b) = [a, b] := by
    unfold words
    rw [hsplit]
    simp [ha0, hb0]
  refine ⟨shellMkdir able (a ++ ' ' :: b) d, by simp [testDirRes, shellTest, hw], ?_⟩
  intro v
  simp only [shellMkdir, hw, List.foldl_cons, List.foldl_nil]
  by_cases h1 : v = a <;> by_cases h2 : v = b <;> by_cases h3 : d v = none <;> by_cases h4 : able v = true <;>
    simp_all

def sampleDisk : Disk := fun v => if v = "Res".toList then
    some [⟨"best.xg".toList, false⟩, ⟨".keep".toList, false⟩, ⟨"old".toList, true⟩] else none

example : ∃ es, sampleDisk "Res".toList = some es ∧ ' ' ∉ "Res".toList := ⟨_, rfl, by decide⟩
example : sampleDisk "My".toList = none := by decide
example : (testDirRes (fun _ => true) "Res".toList true sampleDisk).map (fun d => d "Res".toList) =
    .ok (some [⟨".keep".toList, false⟩, ⟨"old".toList, true⟩]) := by decide +kernel

end Paradiseo.MakeCheckpoint
