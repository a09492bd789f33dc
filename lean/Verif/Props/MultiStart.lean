import Verif.Lemmas.MultiStart
import Verif.Props.Serial
import Verif.Props.Rng
import Mathlib.Data.List.Sort
/-
C288: restarts distributed over workers.
C289: the seeds of the workers.
C290: what the communicator delivers.
-/
namespace Paradiseo.MultiStart

open Paradiseo.Mpi

variable {S E σ : Type}

/-! ### C288 -/

/-- What a user expects of finished restarts: the individuals of former jobs are followed by one individual per run asked
for; those of one worker are, in order, the results of its first runs; the worker is in the state after these runs;
every worker was told once to stop, nobody else was, and no message is left. -/
def Finished (proc : S → E × S) (ws : List Nat) (runs : Int) (b0 : List (Nat × E)) (s0 : Nat → S) (share : Nat → Nat)
    (s : St S E σ) : Prop :=
  ∃ l, s.bests = b0 ++ l ∧ l.length = runs.toNat ∧ (∀ p ∈ l, p.1 ∈ ws) ∧
    (∀ w, ofW w l = results proc (share w) (s0 w) ∧ s.wrk w = after proc (share w) (s0 w)) ∧
    (∀ w, s.finishes w = if w ∈ ws then 1 else 0) ∧ ∀ w, s.inbox w = 0 ∧ s.outbox w = []

theorem finished_of_inv {A : Assign σ} {a : σ} {ws : List Nat} {I : σ → Finset Nat → Nat → Prop}
    {proc : S → E × S} {runs : Int} {b0 : List (Nat × E)} {s0 : Nat → S} {B : Prop} {F : Finset Nat} {k : Nat}
    {s : St S E σ} (h : Inv A a proc ws.toFinset I runs b0 s0 B F k s) (hd : s.phase = .done) :
    Finished proc ws runs b0 s0 (fun w => s.given.count w) s ∧ s.given.length = runs.toNat ∧
      ∃ out, Uses A a s.alg s.given out := by
  have hF := h.all hd
  have hi := h.ended (Or.inr hd)
  have hfree : ∀ w, s.inbox w = 0 ∧ s.outbox w = [] := by
    intro w
    apply h.free
    rw [hF]
    exact Classical.em _
  obtain ⟨l, h1, h2, h3, h4⟩ := h.old
  have ht := h.total
  have hlen : s.given.length = runs.toNat := by omega
  refine ⟨⟨l, h1, ?_, ?_, ?_, ?_, hfree⟩, hlen, ?_⟩
  · have : ∑ w ∈ ws.toFinset, (s.inbox w + (s.outbox w).length) = 0 :=
      Finset.sum_eq_zero fun w _ => by simp [hfree w]
    omega
  · intro p hp
    exact List.mem_toFinset.mp (h3 p hp)
  · intro w
    obtain ⟨n, g1, g2, g3⟩ := h4 w
    have hn : n = s.given.count w := by rw [g3, (hfree w).1]; rfl
    rw [(hfree w).2, List.append_nil] at g1
    subst hn
    exact ⟨g1.symm, g2⟩
  · intro w
    rw [h.fins, hF]
    simp [hd]
  · obtain ⟨out, g, _⟩ := h.uses
    exact ⟨out, g⟩

theorem zero_not {ws : List Nat} (hpos : ∀ w ∈ ws, 0 < w) : 0 ∉ ws.toFinset := by
  rw [List.mem_toFinset]
  intro h
  exact absurd (hpos 0 h) (by omega)

/-- **C288** (dynamic assignment).  Whatever the order in which messages travel and workers compute, restarts that are
over have given one individual per run. -/
theorem C288_dynamic (ws : List Nat) (hnd : ws.Nodup) (hpos : ∀ w ∈ ws, 0 < w) (hne : ws ≠ []) (proc : S → E × S)
    (runs : Int) (b0 : List (Nat × E)) (s0 : Nat → S) (n : Nat) (s : St S E (List Nat))
    (hr : Reach dynamic proc ws.length (St.start ws runs b0 s0) n s) (hd : s.phase = .done) :
    ∃ share, Finished proc ws runs b0 s0 share s := by
  have hne' : ws.toFinset.Nonempty := by
    obtain ⟨w, hw⟩ := List.exists_mem_of_ne_nil ws hne
    exact ⟨w, List.mem_toFinset.mpr hw⟩
  rw [← List.toFinset_card_of_nodup hnd] at hr
  have h0 := inv_start (A := dynamic) (a := ws) (proc := proc) (W := ws.toFinset)
    (I := fun s F (_ : Nat) => s.Nodup ∧ ∀ w, w ∈ s ↔ w ∈ F) (runs := runs) (b0 := b0) (wrk := s0) (B := False)
    (k := 0) ⟨hnd, fun w => by simp⟩ False.elim
  obtain ⟨⟨F, k, h1⟩, _⟩ := inv_reach (dynamic_lawful _ (zero_not hpos) hne') h0 hr
  exact ⟨_, (finished_of_inv h1 hd).1⟩

/-- **C288** (dynamic assignment, end).  Every execution is over after at most four steps per run and three more, and
until then there is always something to do. -/
theorem C288_dynamic_ends (ws : List Nat) (hnd : ws.Nodup) (hpos : ∀ w ∈ ws, 0 < w) (hne : ws ≠ [])
    (proc : S → E × S) (runs : Int) (b0 : List (Nat × E)) (s0 : Nat → S) (n : Nat) (s : St S E (List Nat))
    (hr : Reach dynamic proc ws.length (St.start ws runs b0 s0) n s) :
    n ≤ 4 * runs.toNat + 3 ∧ (s.phase ≠ .done → ∃ s', Step dynamic proc ws.length s s') := by
  have hne' : ws.toFinset.Nonempty := by
    obtain ⟨w, hw⟩ := List.exists_mem_of_ne_nil ws hne
    exact ⟨w, List.mem_toFinset.mpr hw⟩
  rw [← List.toFinset_card_of_nodup hnd] at hr ⊢
  have h0 := inv_start (A := dynamic) (a := ws) (proc := proc) (W := ws.toFinset)
    (I := fun s F (_ : Nat) => s.Nodup ∧ ∀ w, w ∈ s ↔ w ∈ F) (runs := runs) (b0 := b0) (wrk := s0) (B := True)
    (k := runs.toNat) ⟨hnd, fun w => by simp⟩ (fun _ => le_refl _)
  have hA := dynamic_lawful _ (zero_not hpos) hne'
  obtain ⟨⟨F, k, h1⟩, h2⟩ := inv_reach hA h0 hr
  refine ⟨?_, fun hd => inv_progress hA h1 trivial hd⟩
  have : measure ws.toFinset (St.start ws runs b0 s0 : St S E (List Nat)) = 4 * runs.toNat + 3 := by
    simp [measure, St.start]
  omega

/-- **C288** (static assignment).  The same; and if the number of runs announced to the assignment is the number asked
for, every worker has done its share, whatever the timing. -/
theorem C288_static (ws : List Nat) (hnd : ws.Nodup) (hpos : ∀ w ∈ ws, 0 < w) (proc : S → E × S)
    (announced : Nat) (runs : Int) (a : Static) (ha : Static.init ws announced = some a) (b0 : List (Nat × E))
    (s0 : Nat → S) (n : Nat) (s : St S E Static)
    (hr : Reach static proc ws.length (St.start a runs b0 s0) n s) (hd : s.phase = .done) :
    ∃ share, Finished proc ws runs b0 s0 share s ∧ (∀ w, w ∉ ws → share w = 0) ∧
      (runs = announced → ∀ x ∈ a.slots, (share x.2.1 : Int) = x.1) := by
  rw [← List.toFinset_card_of_nodup hnd] at hr
  have h0 := inv_start (A := static) (a := a) (proc := proc) (W := ws.toFinset) (I := StaticInv ws.toFinset)
    (runs := runs) (b0 := b0) (wrk := s0) (B := False) (k := announced) (init_inv hnd ha) False.elim
  obtain ⟨⟨F, k, h1⟩, _⟩ := inv_reach (static_lawful _ (zero_not hpos)) h0 hr
  obtain ⟨h2, h3, out, h4⟩ := finished_of_inv h1 hd
  refine ⟨_, h2, ?_, ?_⟩
  · intro w hw
    rw [List.count_eq_zero]
    exact fun hc => hw (List.mem_toFinset.mp (h1.mem w hc))
  · intro he x hx
    exact (C122_static_uses ws hnd hpos announced a s.alg s.given out ha h4 x hx).2.2.1 (by omega)

/-- **C288** (static assignment, end).  Every execution ends if at least as many runs were announced as are asked for. -/
theorem C288_static_ends (ws : List Nat) (hnd : ws.Nodup) (hpos : ∀ w ∈ ws, 0 < w) (proc : S → E × S)
    (announced : Nat) (runs : Int) (hruns : runs ≤ announced) (a : Static) (ha : Static.init ws announced = some a)
    (b0 : List (Nat × E)) (s0 : Nat → S) (n : Nat) (s : St S E Static)
    (hr : Reach static proc ws.length (St.start a runs b0 s0) n s) :
    n ≤ 4 * runs.toNat + 3 ∧ (s.phase ≠ .done → ∃ s', Step static proc ws.length s s') := by
  rw [← List.toFinset_card_of_nodup hnd] at hr ⊢
  have h0 := inv_start (A := static) (a := a) (proc := proc) (W := ws.toFinset) (I := StaticInv ws.toFinset)
    (runs := runs) (b0 := b0) (wrk := s0) (B := True) (k := announced) (init_inv hnd ha) (fun _ => by omega)
  have hA := static_lawful _ (zero_not hpos)
  obtain ⟨⟨F, k, h1⟩, h2⟩ := inv_reach hA h0 hr
  refine ⟨?_, fun hd => inv_progress hA h1 trivial hd⟩
  have : measure ws.toFinset (St.start a runs b0 s0 : St S E Static) = 4 * runs.toNat + 3 := by
    simp [measure, St.start]
  omega

theorem perm_of_ofW {l l' : List (Nat × E)} (h : ∀ w, ofW w l = ofW w l') : l.Perm l' := by
  classical
  rw [List.perm_iff_count]
  rintro ⟨w, e⟩
  have key : ∀ m : List (Nat × E), m.count (w, e) = (ofW w m).count e := by
    intro m
    induction m with
    | nil => rfl
    | cons p m ih =>
      obtain ⟨v, f⟩ := p
      by_cases hv : v = w
      · subst hv
        by_cases hf : f = e
        · subst hf
          simp only [List.count_cons_self, ih, ofW, List.filter_cons, decide_true, if_true, List.map_cons]
        · have : (v, f) ≠ (v, e) := by simpa using hf
          simp only [List.count_cons_of_ne this, ih, ofW, List.filter_cons, decide_true, if_true, List.map_cons,
            List.count_cons_of_ne hf]
      · have : (v, f) ≠ (w, e) := by simp [hv]
        simp only [List.count_cons_of_ne this, ih, ofW, List.filter_cons, hv, decide_false, Bool.false_eq_true, if_false]
  rw [key l, key l', h]

/-- **C288** (static assignment, timing).  With the announced number of runs, two executions of the same job give the same
individuals, up to their order. -/
theorem C288_static_same (ws : List Nat) (hnd : ws.Nodup) (hpos : ∀ w ∈ ws, 0 < w) (proc : S → E × S)
    (runs : Nat) (a : Static) (ha : Static.init ws runs = some a) (b0 : List (Nat × E))
    (s0 : Nat → S) (n n' : Nat) (s s' : St S E Static)
    (hr : Reach static proc ws.length (St.start a runs b0 s0) n s) (hd : s.phase = .done)
    (hr' : Reach static proc ws.length (St.start a runs b0 s0) n' s') (hd' : s'.phase = .done) :
    s.bests.Perm s'.bests ∧ s.wrk = s'.wrk := by
  obtain ⟨sh, ⟨l, h1, _, _, h2, _⟩, h3, h4⟩ := C288_static ws hnd hpos proc runs runs a ha b0 s0 n s hr hd
  obtain ⟨sh', ⟨l', h1', _, _, h2', _⟩, h3', h4'⟩ := C288_static ws hnd hpos proc runs runs a ha b0 s0 n' s' hr' hd'
  have hsh : ∀ w, sh w = sh' w := by
    intro w
    by_cases hw : w ∈ ws
    · have := (C122_shares ws runs a ha).1
      rw [← this] at hw
      obtain ⟨x, hx, rfl⟩ := List.mem_map.mp hw
      have e1 := h4 rfl x hx
      have e2 := h4' rfl x hx
      omega
    · rw [h3 w hw, h3' w hw]
  constructor
  · rw [h1, h1']
    apply List.Perm.append_left
    apply perm_of_ofW
    intro w
    rw [(h2 w).1, (h2' w).1, hsh]
  · funext w
    rw [(h2 w).2, (h2' w).2, hsh]

/-- A run that returns the number of the run. -/
def countRuns (s : Nat) : Nat × Nat := (s, s + 1)

theorem snoc {A : Assign σ} {proc : S → E × S} {t : Nat} {s0 s s' : St S E σ} {k : Nat} (h : Reach A proc t s0 k s)
    (hs : Step A proc t s s') : Reach A proc t s0 (k + 1) s' := .step k s s' h hs

/-- **C288** (dynamic assignment, timing).  With the dynamic assignment the individuals depend on who answers first: two
workers whose runs give 10, 11, … and 20, 21, …, and three runs. -/
theorem C288_dynamic_differs : ∃ n n', ∃ s s' : St Nat Nat (List Nat),
    Reach dynamic countRuns 2 (St.start [1, 2] 3 [] (fun w => 10 * w)) n s ∧ s.phase = .done ∧
    Reach dynamic countRuns 2 (St.start [1, 2] 3 [] (fun w => 10 * w)) n' s' ∧ s'.phase = .done ∧
    s.bests.map (·.2) = [10, 20, 11] ∧ s'.bests.map (·.2) = [20, 10, 21] := by
  have h3 := snoc (snoc (snoc (Reach.init (A := dynamic) (proc := countRuns) (total := 2)
    (s₀ := St.start [1, 2] 3 [] (fun w => 10 * w))) (Step.next _ rfl (by decide))) (Step.next _ rfl (by decide)))
    (Step.next _ rfl (by decide))
  have a7 := snoc (snoc (snoc (snoc h3 (Step.work _ 1 (by decide))) (Step.response _ 1 10 [] rfl rfl))
    (Step.work _ 2 (by decide))) (Step.work _ 1 (by decide))
  have a11 := snoc (snoc (snoc (snoc a7 (Step.finish _ rfl (by decide))) (Step.last _ 2 20 [] rfl (by decide) rfl))
    (Step.last _ 1 11 [] rfl (by decide) rfl)) (Step.leave _ rfl rfl)
  have b7 := snoc (snoc (snoc (snoc h3 (Step.work _ 2 (by decide))) (Step.response _ 2 20 [] rfl rfl))
    (Step.work _ 1 (by decide))) (Step.work _ 2 (by decide))
  have b11 := snoc (snoc (snoc (snoc b7 (Step.finish _ rfl (by decide))) (Step.last _ 1 10 [] rfl (by decide) rfl))
    (Step.last _ 2 21 [] rfl (by decide) rfl)) (Step.leave _ rfl rfl)
  exact ⟨_, _, _, _, a11, rfl, b11, rfl, rfl, rfl⟩

/-- **C288** (going on with the population).  If the algorithm never loses the best individual of the population it is
given, the individuals a worker sends get no worse from run to run, and none is worse than the best of the evaluated
original population. -/
theorem C288_same_population {P T : Type} [LinearOrder E] (original : P) (algo : P → T → P × T) (best : P → E)
    (hbest : ∀ p t, best p ≤ best (algo p t).1) (n : Nat) (p : P) (t : T) :
    (results (runSame original algo best) n ((p, true), t)).Pairwise (· ≤ ·) ∧
    ∀ e ∈ results (runSame original algo best) n ((p, true), t), best original ≤ e := by
  have key : ∀ (n : Nat) (p : P) (t : T),
      (results (runSame original algo best) n ((p, false), t)).Pairwise (· ≤ ·) ∧
      ∀ e ∈ results (runSame original algo best) n ((p, false), t), best p ≤ e := by
    intro n
    induction n with
    | zero => intro p t; simp [results]
    | succ n ih =>
      intro p t
      have e1 : runSame original algo best ((p, false), t) =
        (best (algo p t).1, (((algo p t).1, false), (algo p t).2)) := rfl
      rw [results, e1]
      obtain ⟨h1, h2⟩ := ih (algo p t).1 (algo p t).2
      refine ⟨List.pairwise_cons.mpr ⟨h2, h1⟩, ?_⟩
      intro e he
      rcases List.mem_cons.mp he with rfl | he
      · exact hbest p t
      · exact (hbest p t).trans (h2 e he)
  cases n with
  | zero => simp [results]
  | succ n =>
    have := key (n + 1) original t
    exact this

/-- **C288** (beginning anew).  With the original population, what a worker sends does not depend on the population its
job holds; an algorithm without memory (that neither uses nor changes anything but the population) sends the same
individual every time. -/
theorem C288_original_population {P T : Type} (original : P) (eval algo : P → T → P × T) (best : P → E) (n : Nat)
    (p p' : P) (t : T) :
    results (runOriginal original eval algo best) n (p, t) = results (runOriginal original eval algo best) n (p', t) ∧
    ((∀ q u, (eval q u).2 = u ∧ (algo q u).2 = u) →
      ∃ e, ∀ x ∈ results (runOriginal original eval algo best) n (p, t), x = e) := by
  have hp : ∀ p, runOriginal original eval algo best (p, t) = runOriginal original eval algo best (p', t) := fun _ => rfl
  refine ⟨?_, ?_⟩
  · cases n with
    | zero => rfl
    | succ n => rw [results, results, hp]
  · intro hm
    refine ⟨best (algo (eval original t).1 (eval original t).2).1, ?_⟩
    induction n generalizing p with
    | zero => intro x hx; cases hx
    | succ n ih =>
      intro x hx
      rw [results] at hx
      rcases List.mem_cons.mp hx with rfl | hx
      · rfl
      · have : (runOriginal original eval algo best (p, t)).2 = ((algo (eval original t).1 (eval original t).2).1, t) := by
          unfold runOriginal
          refine Prod.ext rfl ?_
          show (algo (eval original t).1 (eval original t).2).2 = t
          rw [(hm _ _).2, (hm _ _).1]
        rw [this] at hx
        exact ih _ x hx

/-! ### C289 -/

open Paradiseo.Rng

/-- **C289** (whose seed).  Every worker gets a seed: the one announced in its place, or else a number drawn by the
master. -/
theorem C289_sent (seeds draws : List W) (nb : Nat) (hd : nb ≤ seeds.length + draws.length) :
    (seedsSent seeds draws nb).length = nb ∧
    ∀ i < nb, (seedsSent seeds draws nb)[i]? = if i < seeds.length then seeds[i]? else draws[i - seeds.length]? := by
  unfold seedsSent
  refine ⟨by simp; omega, ?_⟩
  intro i hi
  rw [List.getElem?_take_of_lt hi]
  split
  · rename_i h
    rw [List.getElem?_append_left h]
  · rename_i h
    rw [List.getElem?_append_right (by omega), List.getElem?_take_of_lt (by omega)]

/-- **C289** (a number is found).  The number whose multiples are used is not zero; it is the one given, if that is not
zero. -/
theorem C289_number (n : W) (draws : List W) (s : W) (h : multiplesSeed n draws = some s) :
    s ≠ 0#32 ∧ (n ≠ 0#32 → s = n) ∧ (n = 0#32 → s ∈ draws) := by
  unfold multiplesSeed at h
  split at h
  · rename_i hn
    cases h
    exact ⟨hn, fun _ => rfl, fun e => absurd e hn⟩
  · rename_i hn
    have h1 := List.find?_some h
    have h2 := List.mem_of_find?_eq_some h
    exact ⟨by simpa using h1, fun e => absurd e hn, fun _ => h2⟩

theorem multiples_get (seed c : W) (n i : Nat) (hi : i < n) :
    (multiples seed c n).1[i]? = some ((c + BitVec.ofNat 32 (i + 1)) * seed) := by
  simp [multiples, hi]

theorem mod31 (seed c : W) (i : Nat) :
    ((c + BitVec.ofNat 32 (i + 1)) * seed).toNat % 2 ^ 31 = (c.toNat + i + 1) * seed.toNat % 2 ^ 31 := by
  rw [BitVec.toNat_mul, BitVec.toNat_add, BitVec.toNat_ofNat]
  rw [Nat.mod_mod_of_dvd _ (by norm_num : (2 : Nat) ^ 31 ∣ 2 ^ 32)]
  rw [Nat.mul_mod, Nat.mod_mod_of_dvd _ (by norm_num : (2 : Nat) ^ 31 ∣ 2 ^ 32)]
  rw [Nat.mul_mod (c.toNat + i + 1) seed.toNat]
  congr 2
  rw [Nat.add_mod, Nat.mod_mod_of_dvd _ (by norm_num : (2 : Nat) ^ 31 ∣ 2 ^ 32), ← Nat.add_mod, ← Nat.add_assoc]

/-- **C289** (multiples of a number).  Two workers whose places differ by `d` draw the same random numbers for ever
exactly if 2^31 divides `d` times the number; otherwise they differ within the first N draws. -/
theorem C289_multiples {V : Type} (N M : Nat) (hM : 2 ≤ M) (hMN : M < N) (seed c : W) (n i d : Nat) (hid : i + d < n)
    (s t : W) (hs : (multiples seed c n).1[i]? = some s) (ht : (multiples seed c n).1[i + d]? = some t) (g g' : Gen V) :
    (2 ^ 31 ∣ d * seed.toNat → ∀ k, (rands N M k (reseed N s g)).1 = (rands N M k (reseed N t g')).1) ∧
    (¬ 2 ^ 31 ∣ d * seed.toNat → (rands N M N (reseed N s g)).1 ≠ (rands N M N (reseed N t g')).1) := by
  rw [multiples_get seed c n i (by omega)] at hs
  rw [multiples_get seed c n (i + d) (by omega)] at ht
  cases hs
  cases ht
  have key : (((c + BitVec.ofNat 32 (i + 1)) * seed).toNat % 2 ^ 31 =
      ((c + BitVec.ofNat 32 (i + d + 1)) * seed).toNat % 2 ^ 31) ↔ 2 ^ 31 ∣ d * seed.toNat := by
    rw [mod31, mod31]
    have e : (c.toNat + (i + d) + 1) * seed.toNat = (c.toNat + i + 1) * seed.toNat + d * seed.toNat := by ring
    rw [e]
    generalize (c.toNat + i + 1) * seed.toNat = x
    generalize d * seed.toNat = y
    omega
  exact ⟨fun h => C176_same N M (by omega) hMN _ _ g g' (key.mpr h),
    fun h => C176_different N M hM hMN _ _ g g' (fun e => h (key.mp e))⟩

/-- **C289** (odd numbers).  With an odd number, up to 2^31 workers draw different random numbers. -/
theorem C289_odd {V : Type} (N M : Nat) (hM : 2 ≤ M) (hMN : M < N) (seed c : W) (n i j : Nat) (hodd : seed.toNat % 2 = 1)
    (hij : i < j) (hj : j < n) (hn : n ≤ 2 ^ 31) (s t : W) (hs : (multiples seed c n).1[i]? = some s)
    (ht : (multiples seed c n).1[j]? = some t) (g g' : Gen V) :
    (rands N M N (reseed N s g)).1 ≠ (rands N M N (reseed N t g')).1 := by
  obtain ⟨d, rfl⟩ : ∃ d, j = i + d := ⟨j - i, by omega⟩
  refine (C289_multiples N M hM hMN seed c n i d hj s t hs ht g g').2 ?_
  intro hdvd
  have hco : Nat.Coprime (2 ^ 31) seed.toNat := by
    apply Nat.Coprime.pow_left
    rw [Nat.coprime_two_left, Nat.odd_iff]
    exact hodd
  have := Nat.le_of_dvd (by omega) (hco.dvd_of_dvd_mul_right hdvd)
  omega

/-- **C289** (a number with many factors of two).  With 2^30, the third worker repeats the first. -/
theorem C289_even {V : Type} (N M : Nat) (hM : 2 ≤ M) (hMN : M < N) (g g' : Gen V) (k : Nat) :
    ∃ s t, (multiples 1073741824#32 0#32 3).1[0]? = some s ∧ (multiples 1073741824#32 0#32 3).1[2]? = some t ∧
      (rands N M k (reseed N s g)).1 = (rands N M k (reseed N t g')).1 :=
  ⟨_, _, multiples_get _ _ 3 0 (by omega), multiples_get _ _ 3 2 (by omega),
    (C289_multiples N M hM hMN 1073741824#32 0#32 3 0 2 (by omega) _ _ (multiples_get _ _ 3 0 (by omega))
      (multiples_get _ _ 3 2 (by omega)) g g').1 (by decide) k⟩

/-- **C289** (jobs one after the other).  The multiples go on from job to job. -/
theorem C289_next_job (seed c : W) (m n : Nat) :
    (multiples seed c (m + n)).1 = (multiples seed c m).1 ++ (multiples seed (multiples seed c m).2 n).1 ∧
    (multiples seed c (m + n)).2 = (multiples seed (multiples seed c m).2 n).2 := by
  constructor
  · simp only [multiples, List.range_add, List.map_append, List.map_map]
    congr 1
    apply List.map_congr_left
    intro j _
    simp only [Function.comp_apply]
    congr 1
    rw [BitVec.add_assoc, ← BitVec.ofNat_add, ← Nat.add_assoc]
  · simp only [multiples]
    rw [BitVec.add_assoc, ← BitVec.ofNat_add]

/-! ### C290 -/

open Paradiseo.Serial

theorem recv_send (junk : Nat → Text) (buf : Buf) (s : Text) :
    (recvText junk buf (sendText s)).1 = s.takeWhile (fun c => decide (c ≠ '\x00')) := by
  have key : ∀ (s r : Text), ((s ++ ['\x00']) ++ r).takeWhile (fun c => decide (c ≠ '\x00')) =
      s.takeWhile (fun c => decide (c ≠ '\x00')) := by
    intro s r
    induction s with
    | nil => simp
    | cons c s ih =>
      by_cases hc : c = '\x00'
      · subst hc; simp
      · simp only [List.cons_append, List.takeWhile_cons, hc, ne_eq, not_false_eq_true, decide_true, if_true]
        rw [← ih]
  unfold recvText sendText
  exact key s _

/-- **C290** (texts).  Whatever was received before with the same communicator, the texts received are the texts sent, each
up to its first null character. -/
theorem C290_texts (junk : Nat → Text) (buf : Buf) (l : List Text) :
    recvTexts junk buf (l.map sendText) = l.map fun s => s.takeWhile (fun c => decide (c ≠ '\x00')) := by
  induction l generalizing buf with
  | nil => rfl
  | cons s l ih => simp only [List.map_cons, recvTexts, ih, recv_send]

/-- **C290** (exactly).  A text arrives unchanged if and only if it has no null character. -/
theorem C290_exact (junk : Nat → Text) (buf : Buf) (s : Text) :
    (recvText junk buf (sendText s)).1 = s ↔ '\x00' ∉ s := by
  rw [recv_send]
  induction s with
  | nil => simp
  | cons c s ih =>
    by_cases hc : c = '\x00'
    · subst hc; simp
    · simp only [List.takeWhile_cons, ne_eq, hc, not_false_eq_true, decide_true, if_true, List.cons.injEq, true_and,
        List.mem_cons, Ne.symm hc, false_or]
      exact ih

/-- **C290** (buffer).  The size announced is that of the message, and the buffer is always large enough for it: nothing is
written beyond it. -/
theorem C290_buffer (junk : Nat → Text) (hj : ∀ n, (junk n).length = n) (buf : Buf) (s : Text) :
    (sendText s).1 = (sendText s).2.length ∧
    ∃ b, (recvText junk buf (sendText s)).2 = some b ∧ s.length + 1 ≤ b.length ∧
      ∀ b0, buf = some b0 → b.length = max b0.length (s.length + 1) := by
  refine ⟨by simp [sendText], ?_⟩
  unfold recvText sendText
  refine ⟨_, rfl, by simp, ?_⟩
  rintro b0 rfl
  simp only [List.length_append, List.length_drop, List.length_singleton]
  split
  · rw [hj]; omega
  · omega

/-- **C290** (objects).  An object whose text has no null character and that the parser can read back is received as it
was packed. -/
theorem C290_object (junk : Nat → Text) (buf : Buf) (t : J) (h : WF t) (h0 : '\x00' ∉ print t) :
    Returns (recvText junk buf (sendText (print t))).1 t := by
  rw [(C290_exact junk buf (print t)).mpr h0]
  exact C117_round_trip t h

/-- **C290** (objects with null characters).  A null character in a string cuts the text of the object, and the parser reads
outside of it. -/
theorem C290_object_cut (junk : Nat → Text) (buf : Buf) (t : J) :
    ¬ Returns (recvText junk buf (sendText (print (.obj [("a".toList, .str ['x', '\x00', 'y'])])))).1 t := by
  rw [recv_send]
  have e : (print (.obj [("a".toList, .str ['x', '\x00', 'y'])])).takeWhile (fun c => decide (c ≠ '\x00')) =
      ['{', '"', 'a', '"', ':', '"', 'x'] := by decide +kernel
  rw [e]
  rintro ⟨n, hn⟩
  have h10 : parseRight ['{', '"', 'a', '"', ':', '"', 'x'] 10 0 = .error .ub := by rfl
  unfold parse at hn
  rcases Nat.le_total 10 n with h | h
  · rw [parseRight_mono _ 10 n h 0 (by rw [h10]; simp), h10] at hn
    simp at hn
  · by_cases hf : parseRight ['{', '"', 'a', '"', ':', '"', 'x'] n 0 = .error .fuel
    · rw [hf] at hn; simp at hn
    · rw [← parseRight_mono _ n 10 h 0 hf, h10] at hn
      simp at hn

/-- **C290** (tables).  A table is received entry by entry if as many entries are asked for as were sent; asking for fewer
gives the first ones, asking for more reads outside of the table. -/
theorem C290_table (junk : Nat → Text) (buf : Buf) (l : List J) (size : Nat) (h : WF (packTable l))
    (h0 : '\x00' ∉ print (packTable l)) :
    ∃ t, Returns (recvText junk buf (sendText (print (packTable l)))).1 t ∧
      (size = l.length → unpackTable size t = .ok l) ∧
      (size < l.length → unpackTable size t = .ok (l.take size)) ∧
      (l.length < size → unpackTable size t = .error .ub) := by
  refine ⟨packTable l, C290_object junk buf _ h h0, ?_, ?_, ?_⟩
  · rintro rfl
    simp [unpackTable, packTable]
  · intro hs
    simp [unpackTable, packTable, hs.le]
  · intro hs
    simp [unpackTable, packTable, Nat.not_le.mpr hs]

/-- **C290** (broadcast).  A broadcast changes no variable: a process other than the root keeps the value it had. -/
theorem C290_broadcast (root rank : Nat) (sent mine : Int) (h : sent ≠ mine) : broadcast root rank sent mine ≠ sent :=
  Ne.symm h

example : WF (packTable [.str "1".toList, .str "2".toList]) ∧
    '\x00' ∉ print (packTable [.str "1".toList, .str "2".toList]) := by
  constructor
  · simp only [packTable, WF, WFElems, WFMembers, List.map_cons, List.map_nil]
    decide +kernel
  · decide +kernel

example : ∃ a, Static.init [1, 2] 3 = some a := ⟨_, rfl⟩

example : (multiples 3#32 0#32 2).1 = [3#32, 6#32] := rfl

end Paradiseo.MultiStart
