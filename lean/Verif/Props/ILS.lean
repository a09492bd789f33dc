import Verif.Model.ILS
import Verif.Props.LSParts

/-
Properties C192–C194: iterated local search and its perturbations.

Vocabulary: `orbit ex 0 p n` is the pair (solution, explorer) after `n` iterations from `p`.
-/
namespace Paradiseo.LS

variable {S M F K P Sol : Type}

/-- State of an iterated local search after `n` iterations. -/
def ilsAt (ls : Nat → Sol → Sol) (pert : Perturb Sol P) (crit : Sol → Sol → Bool) (sol : Sol) (e : ILS Sol P)
    (n : Nat) : Sol × ILS Sol P :=
  let ex := ilsExplorer ls pert crit
  orbit ex 0 (sol, ex.initParam sol e) n

/-- The candidate of iteration `t` replaces the solution. -/
def Accepted (ls : Nat → Sol → Sol) (pert : Perturb Sol P) (crit : Sol → Sol → Bool) (sol : Sol) (e : ILS Sol P)
    (t : Nat) : Prop :=
  crit (ilsAt ls pert crit sol e t).1 (ilsAt ls pert crit sol e (t + 1)).2.current = true

theorem ils_zero (ls : Nat → Sol → Sol) (pert : Perturb Sol P) (crit : Sol → Sol → Bool) (sol : Sol)
    (e : ILS Sol P) : ilsAt ls pert crit sol e 0 = (sol, { e with first := true, mem := pert.init sol e.mem }) := rfl

theorem ils_succ (ls : Nat → Sol → Sol) (pert : Perturb Sol P) (crit : Sol → Sol → Bool) (sol : Sol)
    (e : ILS Sol P) (n : Nat) :
    let o := ilsAt ls pert crit sol e
    let r := if (o n).2.first then ((o n).1, (o n).2.mem) else pert.apply n (o n).1 (o n).2.mem
    let c := ls n r.1
    let s := if crit (o n).1 c then c else (o n).1
    o (n + 1) = (s, ⟨false, c, pert.update s (if crit (o n).1 c then pert.add s r.2 else r.2)⟩) := by
  intro o r c s
  show stepTo (ilsExplorer ls pert crit) (0 + n) (o n) = _
  rw [Nat.zero_add]
  rfl

theorem ils_first (ls : Nat → Sol → Sol) (pert : Perturb Sol P) (crit : Sol → Sol → Bool) (sol : Sol)
    (e : ILS Sol P) (n : Nat) : (ilsAt ls pert crit sol e n).2.first = decide (n = 0) := by
  cases n with
  | zero => rfl
  | succ n => rw [ils_succ]; simp

theorem ils_mem (ls : Nat → Sol → Sol) (pert : Perturb Sol P) (crit : Sol → Sol → Bool) (sol : Sol)
    (e : ILS Sol P) (n : Nat) :
    let o := ilsAt ls pert crit sol e
    let w := if n = 0 then (o n).2.mem else (pert.apply n (o n).1 (o n).2.mem).2
    (o (n + 1)).2.mem = pert.update (o (n + 1)).1
      (if crit (o n).1 (o (n + 1)).2.current = true then pert.add (o (n + 1)).1 w else w) := by
  intro o w
  have hs : o (n + 1) = _ := ils_succ ls pert crit sol e n
  have hw : w = (if (o n).2.first = true then ((o n).1, (o n).2.mem) else pert.apply n (o n).1 (o n).2.mem).2 := by
    show (if n = 0 then (o n).2.mem else (pert.apply n (o n).1 (o n).2.mem).2) = _
    rw [ils_first]
    by_cases h : n = 0 <;> simp [h]
  rw [hw, hs]

/-! ### C192 -/

/-- The first candidate is the local search from the given solution, not perturbed; the candidate of
every later iteration is the local search from the perturbed current solution. The solution moves to
the candidate exactly when the criterion accepts it, and stays otherwise. -/
theorem C192_candidates (ls : Nat → Sol → Sol) (pert : Perturb Sol P) (crit : Sol → Sol → Bool) (sol : Sol)
    (e : ILS Sol P) :
    let o := ilsAt ls pert crit sol e
    (o 1).2.current = ls 0 sol ∧
    (∀ n, (o (n + 2)).2.current = ls (n + 1) (pert.apply (n + 1) (o (n + 1)).1 (o (n + 1)).2.mem).1) ∧
    (∀ n, Accepted ls pert crit sol e n → (o (n + 1)).1 = (o (n + 1)).2.current) ∧
    (∀ n, ¬ Accepted ls pert crit sol e n → (o (n + 1)).1 = (o n).1) := by
  intro o
  refine ⟨rfl, ?_, ?_, ?_⟩
  · intro n
    show (ilsAt ls pert crit sol e (n + 1 + 1)).2.current = _
    rw [ils_succ, ils_first]
    simp [o]
  · intro n h
    have hs := ils_succ ls pert crit sol e n
    simp only [Accepted] at h
    simp only at hs
    rw [hs] at h
    show (ilsAt ls pert crit sol e (n + 1)).1 = (ilsAt ls pert crit sol e (n + 1)).2.current
    rw [hs]
    simp only at h ⊢
    rw [if_pos h]
  · intro n h
    have hs := ils_succ ls pert crit sol e n
    simp only [Accepted] at h
    simp only at hs
    rw [hs] at h
    show (ilsAt ls pert crit sol e (n + 1)).1 = (ilsAt ls pert crit sol e n).1
    rw [hs]
    simp only at h ⊢
    rw [if_neg h]

/-- With the criterion "better" the search ends with the best of its start and of all results of the
inner local search. -/
theorem C192_better [LinearOrder F] {ls : Nat → S × F → S × F} {pert : Perturb (S × F) P}
    {f : S → F} {cont : K → S × F → Bool × K} {cinit : S × F → K} {fuel : Nat} {x : S} {fit : Option F}
    {e : ILS (S × F) P} {res : S × F} {tr : List ((S × F) × ILS (S × F) P)} {b : Bool}
    (h : localSearch f (ilsExplorer ls pert betterAccept) cont cinit fuel x fit e = some (res, tr, b)) :
    (res = (x, fit.getD (f x)) ∨ ∃ q ∈ tr, res = q.2.current) ∧
    fit.getD (f x) ≤ res.2 ∧ ∀ q ∈ tr, q.2.current.2 ≤ res.2 := by
  obtain ⟨n, htr, hi, hb, hres, hsol⟩ := localSearch_orbit h
  set o := ilsAt ls pert betterAccept (x, fit.getD (f x)) e with ho
  have key : ∀ k, ((o k).1 = (x, fit.getD (f x)) ∨ ∃ i, i < k ∧ (o k).1 = (o (i + 1)).2.current) ∧
      fit.getD (f x) ≤ (o k).1.2 ∧ ∀ i, i < k → (o (i + 1)).2.current.2 ≤ (o k).1.2 := by
    intro k
    induction k with
    | zero => exact ⟨Or.inl rfl, le_rfl, by intro i hi; omega⟩
    | succ k ih =>
      obtain ⟨h1, h2, h3⟩ := ih
      obtain ⟨_, _, ha, hn⟩ := C192_candidates ls pert betterAccept (x, fit.getD (f x)) e
      by_cases hk : Accepted ls pert betterAccept (x, fit.getD (f x)) e k
      · have h4 : (o (k + 1)).1 = (o (k + 1)).2.current := ha k hk
        have h5 : (o k).1.2 < (o (k + 1)).2.current.2 := by
          have := hk
          simp only [Accepted, betterAccept, decide_eq_true_eq] at this
          exact this
        refine ⟨Or.inr ⟨k, by omega, h4⟩, ?_, ?_⟩
        · rw [h4]; exact h2.trans h5.le
        · intro i hi
          rcases Nat.lt_succ_iff_lt_or_eq.1 hi with hi | hi
          · rw [h4]; exact (h3 i hi).trans h5.le
          · rw [hi, h4]
      · have h4 : (o (k + 1)).1 = (o k).1 := hn k hk
        have h5 : (o (k + 1)).2.current.2 ≤ (o k).1.2 := by
          have := hk
          simp only [Accepted, betterAccept, decide_eq_true_eq] at this
          exact not_lt.1 this
        refine ⟨?_, ?_, ?_⟩
        · rw [h4]
          rcases h1 with h1 | ⟨i, hi, h1⟩
          · exact Or.inl h1
          · exact Or.inr ⟨i, by omega, h1⟩
        · rw [h4]; exact h2
        · intro i hi
          rw [h4]
          rcases Nat.lt_succ_iff_lt_or_eq.1 hi with hi | hi
          · exact h3 i hi
          · rw [hi]; exact h5
  have hr : res = (o (n + 1)).1 := hres
  have hmem : ∀ i, i < n + 1 → o (i + 1) ∈ tr := by
    intro i hi
    rw [htr]
    exact List.mem_map.2 ⟨i, List.mem_range.2 hi, rfl⟩
  obtain ⟨k1, k2, k3⟩ := key (n + 1)
  refine ⟨?_, hr ▸ k2, ?_⟩
  · rcases k1 with k1 | ⟨i, hi, k1⟩
    · exact Or.inl (hr ▸ k1)
    · exact Or.inr ⟨o (i + 1), hmem i hi, hr ▸ k1⟩
  · intro q hq
    rw [htr] at hq
    obtain ⟨i, hi, rfl⟩ := List.mem_map.1 hq
    rw [hr]
    exact k3 i (List.mem_range.1 hi)

/-- With the default criterion, which accepts everything, the search ends with the result of its last
inner local search, whatever came before. -/
theorem C192_always {ls : Nat → S × F → S × F} {pert : Perturb (S × F) P}
    {f : S → F} {cont : K → S × F → Bool × K} {cinit : S × F → K} {fuel : Nat} {x : S} {fit : Option F}
    {e : ILS (S × F) P} {res : S × F} {tr : List ((S × F) × ILS (S × F) P)} {b : Bool}
    (h : localSearch f (ilsExplorer ls pert alwaysAccept) cont cinit fuel x fit e = some (res, tr, b)) :
    (∀ q ∈ tr, q.1 = q.2.current) ∧ ∃ q, tr.getLast? = some q ∧ res = q.2.current := by
  obtain ⟨n, htr, hi, hb, hres, hsol⟩ := localSearch_orbit h
  obtain ⟨_, _, ha, _⟩ := C192_candidates ls pert alwaysAccept (x, fit.getD (f x)) e
  refine ⟨?_, ilsAt ls pert alwaysAccept (x, fit.getD (f x)) e (n + 1), ?_, ?_⟩
  · intro q hq
    rw [htr] at hq
    obtain ⟨i, hi, rfl⟩ := List.mem_map.1 hq
    exact ha i rfl
  · rw [htr]; simp [List.range_succ]; rfl
  · rw [hres]; exact ha n rfl

/-- A run of the default iterated local search that ends with something worse than what it was given:
the inner local search is a hill climber that never worsens, on values 0..9 of fitness `x % 10`, and
the perturbation moves to another basin. -/
theorem C192_default_may_worsen :
    ∃ (ls : Nat → Nat × Nat → Nat × Nat) (pert : Perturb (Nat × Nat) Unit) (res : Nat × Nat)
      (tr : List ((Nat × Nat) × ILS (Nat × Nat) Unit)) (b : Bool),
      (∀ t s, s.2 ≤ (ls t s).2) ∧
      localSearch (fun x => x % 10) (ilsExplorer ls pert alwaysAccept) (iterCont 2) (fun _ => 0) 5 9 none
        ⟨true, (0, 0), ()⟩ = some (res, tr, b) ∧ res.2 < 9 % 10 :=
  ⟨fun _ s => s, ⟨fun _ s p => ((s.1 + 1, (s.1 + 1) % 10), p), fun _ p => p, fun _ p => p, fun _ p => p⟩,
    _, _, _, fun _ _ => le_rfl, rfl, by decide⟩

/-- The number of inner local searches of `moILS(ls, eval, op, n)` is `n`, or 1 if `n` is 0. -/
theorem C192_iterations (ls : Nat → S × F → S × F) (pert : Perturb (S × F) P) (crit : S × F → S × F → Bool)
    (f : S → F) (n fuel : Nat) (hf : max 1 n ≤ fuel) (x : S) (fit : Option F) (e : ILS (S × F) P) :
    ∃ res tr b, localSearch f (ilsExplorer ls pert crit) (iterCont n) (fun _ => 0) fuel x fit e = some (res, tr, b) ∧
      tr.length = max 1 n := by
  obtain ⟨res, tr, b, h1, _, h3⟩ := C27_iterations f (ilsExplorer ls pert crit) n fuel hf x fit e
  exact ⟨res, tr, b, h1, h3 fun _ _ => rfl⟩

/-- If the inner local search and the perturbation leave correctly evaluated solutions correctly
evaluated, every solution of the search is. -/
theorem C192_exact {ls : Nat → S × F → S × F} {pert : Perturb (S × F) P} {crit : S × F → S × F → Bool}
    {f : S → F} (hls : ∀ t x, (ls t (x, f x)).2 = f (ls t (x, f x)).1)
    (hp : ∀ t x m, (pert.apply t (x, f x) m).1.2 = f (pert.apply t (x, f x) m).1.1)
    (x : S) (e : ILS (S × F) P) (n : Nat) :
    (ilsAt ls pert crit (x, f x) e n).1.2 = f (ilsAt ls pert crit (x, f x) e n).1.1 := by
  induction n with
  | zero => rfl
  | succ n ih =>
    have hs := ils_succ ls pert crit (x, f x) e n
    simp only at hs
    rw [hs]
    have hx : (ilsAt ls pert crit (x, f x) e n).1 =
        ((ilsAt ls pert crit (x, f x) e n).1.1, f (ilsAt ls pert crit (x, f x) e n).1.1) := by
      rw [← ih]
    generalize hq : (if (ilsAt ls pert crit (x, f x) e n).2.first = true then
      ((ilsAt ls pert crit (x, f x) e n).1, (ilsAt ls pert crit (x, f x) e n).2.mem)
      else pert.apply n (ilsAt ls pert crit (x, f x) e n).1 (ilsAt ls pert crit (x, f x) e n).2.mem) = r
    have hr : r.1.2 = f r.1.1 := by
      rw [← hq]
      split
      · exact ih
      · rw [hx]; exact hp _ _ _
    have hc : (ls n r.1).2 = f (ls n r.1).1 := by
      have : r.1 = (r.1.1, f r.1.1) := by rw [← hr]
      rw [this]; exact hls _ _
    simp only
    split
    · exact hc
    · exact ih

/-! ### C193 -/

/-- The memory after a sequence of iterations, `true` for those in which the move was applied. -/
def countAfter (l : List Bool) : Count :=
  l.foldl (fun c moved => countUpdate (if moved then countAdd c else c)) countInit

/-- After any sequence of iterations: the number of moves is right, the "number of no moves" counts
all iterations, and the counter is the number of iterations since the last move plus one (the number
of iterations when there was no move). -/
theorem C193_counts (l : List Bool) :
    (countAfter l).nbMove = l.count true ∧ (countAfter l).nbNoMove = l.length ∧
    (countAfter l).counter = (l.reverse.takeWhile (fun m => !m)).length + (if true ∈ l then 1 else 0) := by
  induction l using List.reverseRecOn with
  | nil => simp [countAfter, countInit]
  | append_singleton l m ih =>
    obtain ⟨h1, h2, h3⟩ := ih
    have : countAfter (l ++ [m]) = countUpdate (if m then countAdd (countAfter l) else countAfter l) := by
      simp [countAfter]
    rw [this]
    cases m
    · simp [countUpdate, h1, h2, h3]; omega
    · simp [countUpdate, countAdd, h1, h2]

/-- The number of iterations without move is not what `getNbNoMove` returns, as soon as there was a
move. -/
theorem C193_no_move_wrong (l : List Bool) (h : true ∈ l) : (countAfter l).nbNoMove ≠ l.count false := by
  rw [(C193_counts l).2.1]
  have : 0 < l.count true := List.count_pos_iff.2 h
  have h2 := List.length_eq_countP_add_countP (l := l) (· == true)
  have h3 : l.countP (fun a => !(a == true)) = l.count false := by
    rw [List.count]; congr 1; funext a; cases a <;> rfl
  have h4 : l.countP (· == true) = l.count true := rfl
  simp only [decide_not] at h2
  have h5 : l.countP (fun a => !decide ((a == true) = true)) = l.countP (fun a => !(a == true)) := by
    congr 1; funext a; cases a <;> rfl
  omega

example : (countAfter [true, false, true]).nbNoMove = 3 ∧ [true, false, true].count false = 1 := by decide

/-- Iterated local search with restarts, any inner local search and criterion. `R t` tells whether
iteration `t` starts from a fresh solution: at least `threshold` iterations have passed, and none of the
last `threshold - 1` ones, the first one excepted, ended with a move or began with a restart. When there
is no restart the perturbation does nothing. -/
theorem C193_restarts (ls : Nat → Sol → Sol) (crit : Sol → Sol → Bool) (threshold : Nat) (fresh : Nat → Sol)
    (sol : Sol) (e : ILS Sol Count) :
    let o := ilsAt ls (restartPerturb threshold fresh) crit sol e
    let moved := Accepted ls (restartPerturb threshold fresh) crit sol e
    ∃ R : Nat → Prop,
      (∀ t, R t ↔ 1 ≤ t ∧ threshold ≤ t ∧ ∀ i, 1 ≤ i → i < t → t < i + threshold → ¬ moved i ∧ ¬ R i) ∧
      ∀ t, (R t → (o (t + 1)).2.current = ls t (fresh t)) ∧
        (¬ R t → (o (t + 1)).2.current = ls t (o t).1) := by
  intro o moved
  have hmv : ∀ n, moved n ↔ crit (o n).1 (o (n + 1)).2.current = true := fun n => Iff.rfl
  set R : Nat → Prop := fun t => 1 ≤ t ∧ threshold ≤ (o t).2.mem.counter with hR
  have hcur : ∀ t, (R t → (o (t + 1)).2.current = ls t (fresh t)) ∧
      (¬ R t → (o (t + 1)).2.current = ls t (o t).1) := by
    intro t
    cases t with
    | zero => exact ⟨fun h => absurd h.1 (by omega), fun _ => rfl⟩
    | succ t =>
      have h2 := (C192_candidates ls (restartPerturb threshold fresh) crit sol e).2.1 t
      refine ⟨fun h => ?_, fun h => ?_⟩
      · refine h2.trans ?_
        show ls (t + 1) (if threshold ≤ (o (t + 1)).2.mem.counter then _ else _ : Sol × Count).1 = _
        rw [if_pos h.2]
      · refine h2.trans ?_
        show ls (t + 1) (if threshold ≤ (o (t + 1)).2.mem.counter then _ else _ : Sol × Count).1 = _
        rw [if_neg (fun h' => h ⟨by omega, h'⟩)]
  classical
  have hcount : ∀ t, (o (t + 1)).2.mem.counter =
      if moved t ∨ R t ∨ t = 0 then 1 else (o t).2.mem.counter + 1 := by
    intro t
    have hmem : (o (t + 1)).2.mem = _ := ils_mem ls (restartPerturb threshold fresh) crit sol e t
    rw [hmem]
    show (if crit (o t).1 (o (t + 1)).2.current = true then countAdd _ else
      (if t = 0 then (o t).2.mem else ((restartPerturb threshold fresh).apply t (o t).1 (o t).2.mem).2)).counter + 1 = _
    by_cases hm : moved t
    · rw [if_pos (Or.inl hm), if_pos ((hmv t).1 hm)]
      rfl
    · rw [if_neg (fun h => hm ((hmv t).2 h))]
      cases t with
      | zero => rw [if_pos rfl, if_pos (Or.inr (Or.inr rfl))]; rfl
      | succ t =>
        rw [if_neg (Nat.succ_ne_zero t)]
        show (if threshold ≤ (o (t + 1)).2.mem.counter then _ else _ : Sol × Count).2.counter + 1 = _
        by_cases hr : threshold ≤ (o (t + 1)).2.mem.counter
        · rw [if_pos hr, if_pos (Or.inr (Or.inl ⟨by omega, hr⟩))]; rfl
        · rw [if_neg hr, if_neg (by rintro (h | h | h); exacts [hm h, hr h.2, by omega])]
  refine ⟨R, ?_, hcur⟩
  -- the counter is at least `c` exactly when the last `c` iterations exist and the last `c - 1` were quiet
  have key : ∀ t c, 1 ≤ c → (c ≤ (o t).2.mem.counter ↔
      c ≤ t ∧ ∀ i, 1 ≤ i → i < t → t < i + c → ¬ moved i ∧ ¬ R i) := by
    intro t
    induction t with
    | zero =>
      intro c hc
      have : (o 0).2.mem.counter = 0 := rfl
      omega
    | succ t ih =>
      intro c hc
      rw [hcount]
      by_cases hE : moved t ∨ R t ∨ t = 0
      · rw [if_pos hE]
        constructor
        · intro h
          have : c = 1 := by omega
          subst this
          exact ⟨by omega, fun i h1 h2 h3 => by omega⟩
        · intro ⟨h1, h2⟩
          by_contra hlt
          rcases Nat.eq_zero_or_pos t with h0 | h0
          · omega
          · have := h2 t h0 (by omega) (by omega)
            rcases hE with hE | hE | hE
            · exact this.1 hE
            · exact this.2 hE
            · omega
      · rw [if_neg hE]
        push Not at hE
        rcases Nat.eq_or_lt_of_le hc with h1 | h1
        · subst h1
          exact ⟨fun _ => ⟨by omega, fun i _ _ _ => by omega⟩, fun _ => by omega⟩
        · have := ih (c - 1) (by omega)
          constructor
          · intro h
            obtain ⟨g1, g2⟩ := this.1 (by omega)
            refine ⟨by omega, fun i i1 i2 i3 => ?_⟩
            rcases Nat.lt_succ_iff_lt_or_eq.1 i2 with i2 | i2
            · exact g2 i i1 i2 (by omega)
            · rw [i2]; exact ⟨hE.1, hE.2.1⟩
          · intro ⟨g1, g2⟩
            have := this.2 ⟨by omega, fun i i1 i2 i3 => g2 i i1 (by omega) (by omega)⟩
            omega
  intro t
  rcases Nat.eq_zero_or_pos threshold with h0 | h0
  · subst h0
    exact ⟨fun h => ⟨h.1, by omega, fun i _ _ _ => by omega⟩, fun h => ⟨h.1, by omega⟩⟩
  · show 1 ≤ t ∧ threshold ≤ (o t).2.mem.counter ↔ _
    rw [key t threshold h0]

/-- With a threshold of at most one, every perturbation is a restart, even right after a move. -/
theorem C193_threshold_one (ls : Nat → Sol → Sol) (crit : Sol → Sol → Bool) (threshold : Nat) (ht : threshold ≤ 1)
    (fresh : Nat → Sol) (sol : Sol) (e : ILS Sol Count) (t : Nat) (h1 : 1 ≤ t) :
    (ilsAt ls (restartPerturb threshold fresh) crit sol e (t + 1)).2.current = ls t (fresh t) := by
  obtain ⟨R, hR, hc⟩ := C193_restarts ls crit threshold fresh sol e
  exact (hc t).1 ((hR t).2 ⟨h1, by omega, fun i _ _ _ => by omega⟩)

/-- When nothing is ever accepted the restarts come exactly every `threshold` iterations. -/
theorem C193_period (ls : Nat → Sol → Sol) (threshold : Nat) (ht : 1 ≤ threshold)
    (fresh : Nat → Sol) (sol : Sol) (e : ILS Sol Count) (t : Nat) :
    (ilsAt ls (restartPerturb threshold fresh) (fun _ _ => false) sol e (t + 1)).2.current =
      ls t (if 1 ≤ t ∧ threshold ∣ t then fresh t else sol) := by
  obtain ⟨R, hR, hc⟩ := C193_restarts ls (fun _ _ => false) threshold fresh sol e
  have hm : ∀ i, ¬ Accepted ls (restartPerturb threshold fresh) (fun _ _ => false) sol e i := by
    intro i; simp [Accepted]
  have hsol : ∀ n, (ilsAt ls (restartPerturb threshold fresh) (fun _ _ => false) sol e n).1 = sol := by
    intro n
    induction n with
    | zero => rfl
    | succ n ih => rw [(C192_candidates ls (restartPerturb threshold fresh) _ sol e).2.2.2 n (hm n), ih]
  have key : ∀ t, R t ↔ 1 ≤ t ∧ threshold ∣ t := by
    intro t
    induction t using Nat.strong_induction_on with
    | _ t ih =>
      rw [hR]
      constructor
      · rintro ⟨h1, h2, h3⟩
        refine ⟨h1, ?_⟩
        by_contra hd
        have hq : threshold * (t / threshold) + t % threshold = t := Nat.div_add_mod t threshold
        have hlt := Nat.mod_lt t (show threshold > 0 by omega)
        have hpos : 0 < t % threshold := Nat.pos_of_ne_zero fun h => hd (Nat.dvd_of_mod_eq_zero h)
        have hdiv : 1 ≤ t / threshold := (Nat.one_le_div_iff (by omega)).2 h2
        have hge : threshold ≤ threshold * (t / threshold) := Nat.le_mul_of_pos_right _ hdiv
        have := (h3 (threshold * (t / threshold)) (by omega) (by omega) (by omega)).2
        exact this ((ih _ (by omega)).2 ⟨by omega, Dvd.intro _ rfl⟩)
      · rintro ⟨h1, k, rfl⟩
        have hk : 1 ≤ k := by
          rcases Nat.eq_zero_or_pos k with h | h
          · subst h; omega
          · exact h
        have hge : threshold ≤ threshold * k := Nat.le_mul_of_pos_right _ hk
        refine ⟨h1, hge, fun i i1 i2 i3 => ⟨hm i, fun h => ?_⟩⟩
        obtain ⟨_, j, rfl⟩ := (ih i i2).1 h
        have hjk : j < k := Nat.lt_of_mul_lt_mul_left i2
        have : threshold * (j + 1) ≤ threshold * k := Nat.mul_le_mul_left _ hjk
        rw [Nat.mul_succ] at this
        omega
  by_cases h : 1 ≤ t ∧ threshold ∣ t
  · rw [if_pos h]; exact (hc t).1 ((key t).2 h)
  · rw [if_neg h, (hc t).2 (fun hr => h ((key t).1 hr)), hsol]

/-! ### C194 -/

/-- Iterated local search perturbed through another neighbourhood of constant size `n ≥ 1`. If `i < t`
is the last iteration that moved (or 0 if none did), the perturbation of iteration `t` uses the
neighbour of index `(t - i) mod n` of the current solution, with its own evaluation: right after a move
always the second one. -/
theorem C194_position {ls : Nat → S × F → S × F} {crit : S × F → S × F → Bool} {other : S × F → List M}
    {app : M → S → S} {eval : S × F → M → F} {n : Nat} (hn : 1 ≤ n) (ho : ∀ s, (other s).length = n)
    (sol : S × F) (e : ILS (S × F) (NhState M)) (i t : Nat) (hit : i < t)
    (hi : i = 0 ∨ Accepted ls (nhPerturb other app eval) crit sol e i)
    (hq : ∀ j, i < j → j < t → ¬ Accepted ls (nhPerturb other app eval) crit sol e j) :
    let o := ilsAt ls (nhPerturb other app eval) crit sol e
    ∃ m, (other (o t).1)[(t - i) % n]? = some m ∧
      (o (t + 1)).2.current = ls t (app m (o t).1.1, eval (o t).1 m) := by
  intro o
  have hlen : ∀ s k, k < n → ∃ m, (other s)[k]? = some m := by
    intro s k hk
    exact ⟨(other s)[k]'(by rw [ho]; exact hk), List.getElem?_eq_getElem _⟩
  have hinit : ∀ s (w : NhState M), (nhInit other s w).pos = 0 ∧ (nhInit other s w).current = (other s)[0]? ∧
      (other s)[0]?.isSome = true := by
    intro s w
    obtain ⟨m, hm⟩ := hlen s 0 (by omega)
    cases hs : other s with
    | nil => rw [hs] at hm; simp at hm
    | cons a l => simp [nhInit, hs]
  -- one update from a consistent state
  have hupd : ∀ s (w : NhState M), w.pos < n →
      let w' := (nhPerturb other app eval).update s w
      w'.pos = (w.pos + 1) % n ∧ w'.current = (other s)[(w.pos + 1) % n]? := by
    intro s w hw
    simp only [nhPerturb]
    split
    · rename_i h
      rw [ho] at h
      rw [Nat.mod_eq_of_lt h]
      exact ⟨rfl, rfl⟩
    · rename_i h
      rw [ho] at h
      have : w.pos + 1 = n := by omega
      rw [this, Nat.mod_self]
      exact ⟨(hinit s w).1, (hinit s w).2.1⟩
  have happly : ∀ t s (w : NhState M), ((nhPerturb other app eval).apply t s w).2 = w := by
    intro t s w
    simp only [nhPerturb]
    split <;> rfl
  have hmem : ∀ k, (o (k + 1)).2.mem = (nhPerturb other app eval).update (o (k + 1)).1
      (if crit (o k).1 (o (k + 1)).2.current = true then nhInit other (o (k + 1)).1 (o k).2.mem else (o k).2.mem) := by
    intro k
    have h : (o (k + 1)).2.mem = _ := ils_mem ls (nhPerturb other app eval) crit sol e k
    rw [h]
    have hw : (if k = 0 then (o k).2.mem else ((nhPerturb other app eval).apply k (o k).1 (o k).2.mem).2) =
        (o k).2.mem := by
      split
      · rfl
      · exact happly _ _ _
    show (nhPerturb other app eval).update (o (k + 1)).1 (if crit (o k).1 (o (k + 1)).2.current = true then
      nhInit other (o (k + 1)).1 (if k = 0 then (o k).2.mem else ((nhPerturb other app eval).apply k (o k).1 (o k).2.mem).2)
      else (if k = 0 then (o k).2.mem else ((nhPerturb other app eval).apply k (o k).1 (o k).2.mem).2)) = _
    rw [hw]
  have key : ∀ d, i + 1 + d ≤ t → (o (i + 1 + d)).2.mem.pos = (1 + d) % n ∧
      (o (i + 1 + d)).2.mem.current = (other (o (i + 1 + d)).1)[(1 + d) % n]? := by
    intro d
    induction d with
    | zero =>
      intro _
      rw [Nat.add_zero, Nat.add_zero, hmem]
      have hp0 : (if crit (o i).1 (o (i + 1)).2.current = true then nhInit other (o (i + 1)).1 (o i).2.mem
          else (o i).2.mem).pos = 0 := by
        by_cases hc : crit (o i).1 (o (i + 1)).2.current = true
        · rw [if_pos hc]; exact (hinit _ _).1
        · rw [if_neg hc]
          rcases hi with hi | hi
          · subst hi; exact (hinit sol e.mem).1
          · exact absurd hi hc
      have := hupd (o (i + 1)).1 _ (by rw [hp0]; omega)
      simp only [hp0, Nat.zero_add] at this
      exact this
    | succ d ih =>
      intro hd
      obtain ⟨h1, h2⟩ := ih (by omega)
      show (o (i + 1 + d + 1)).2.mem.pos = (1 + d + 1) % n ∧ (o (i + 1 + d + 1)).2.mem.current =
        (other (o (i + 1 + d + 1)).1)[(1 + d + 1) % n]?
      have hna : ¬ crit (o (i + 1 + d)).1 (o (i + 1 + d + 1)).2.current = true := hq (i + 1 + d) (by omega) (by omega)
      rw [hmem, if_neg hna]
      have := hupd (o (i + 1 + d + 1)).1 (o (i + 1 + d)).2.mem (by rw [h1]; exact Nat.mod_lt _ (by omega))
      simp only [h1, Nat.mod_add_mod] at this
      exact this
  obtain ⟨d, rfl⟩ : ∃ d, t = i + 1 + d := ⟨t - (i + 1), by omega⟩
  obtain ⟨h1, h2⟩ := key d le_rfl
  have hidx : i + 1 + d - i = 1 + d := by omega
  rw [hidx]
  obtain ⟨m, hm⟩ := hlen (o (i + 1 + d)).1 ((1 + d) % n) (Nat.mod_lt _ (by omega))
  refine ⟨m, hm, ?_⟩
  have h3 := (C192_candidates ls (nhPerturb other app eval) crit sol e).2.1 (i + d)
  have h4 : i + 1 + d = i + d + 1 := by omega
  rw [h4] at h2 hm ⊢
  refine h3.trans ?_
  show ls (i + d + 1) ((nhPerturb other app eval).apply _ (o (i + d + 1)).1 (o (i + d + 1)).2.mem).1 = _
  congr 1
  rw [hm] at h2
  simp only [nhPerturb]
  obtain ⟨m0, hm0⟩ := hlen (o (i + d + 1)).1 0 (by omega)
  cases hs : other (o (i + d + 1)).1 with
  | nil => rw [hs] at hm0; simp at hm0
  | cons a l => simp [h2]

/-- When every candidate is accepted, every perturbation applies the second neighbour (the first if
there is only one). -/
theorem C194_always_second {ls : Nat → S × F → S × F} {other : S × F → List M}
    {app : M → S → S} {eval : S × F → M → F} {n : Nat} (hn : 1 ≤ n) (ho : ∀ s, (other s).length = n)
    (sol : S × F) (e : ILS (S × F) (NhState M)) (t : Nat) (ht : 1 ≤ t) :
    let o := ilsAt ls (nhPerturb other app eval) alwaysAccept sol e
    ∃ m, (other (o t).1)[1 % n]? = some m ∧
      (o (t + 1)).2.current = ls t (app m (o t).1.1, eval (o t).1 m) := by
  have := C194_position (ls := ls) (crit := alwaysAccept) (app := app) (eval := eval) hn ho sol e (t - 1) t
    (by omega) (Or.inr rfl) (fun j h1 h2 => by omega)
  rwa [show t - (t - 1) = 1 by omega] at this

/-- As long as nothing is accepted, `n` successive perturbations use all `n` neighbours of the current
solution, each once. -/
theorem C194_all_neighbours {ls : Nat → S × F → S × F} {other : S × F → List M}
    {app : M → S → S} {eval : S × F → M → F} {n : Nat} (hn : 1 ≤ n) (ho : ∀ s, (other s).length = n)
    (sol : S × F) (e : ILS (S × F) (NhState M)) (t : Nat) (ht : 1 ≤ t) (k : Nat) (hk : k < n) :
    ∃! j, j < n ∧ ∃ m, (other sol)[k]? = some m ∧ (t + j) % n = k ∧
      (ilsAt ls (nhPerturb other app eval) (fun _ _ => false) sol e (t + j + 1)).2.current =
        ls (t + j) (app m sol.1, eval sol m) := by
  have hna : ∀ i, ¬ Accepted ls (nhPerturb other app eval) (fun _ _ => false) sol e i := by
    intro i; simp [Accepted]
  have hsol : ∀ n, (ilsAt ls (nhPerturb other app eval) (fun _ _ => false) sol e n).1 = sol := by
    intro n
    induction n with
    | zero => rfl
    | succ n ih => rw [(C192_candidates ls (nhPerturb other app eval) _ sol e).2.2.2 n (hna n), ih]
  have hpos : ∀ j, ∃ m, (other sol)[(t + j) % n]? = some m ∧
      (ilsAt ls (nhPerturb other app eval) (fun _ _ => false) sol e (t + j + 1)).2.current =
        ls (t + j) (app m sol.1, eval sol m) := by
    intro j
    have := C194_position (ls := ls) (crit := fun _ _ => false) (app := app) (eval := eval) hn ho sol e 0 (t + j)
      (by omega) (Or.inl rfl) (fun j _ _ => hna j)
    dsimp only at this
    rw [hsol] at this
    exact this
  have hex : ∃ j, j < n ∧ (t + j) % n = k := by
    refine ⟨(k + (n - t % n)) % n, Nat.mod_lt _ (by omega), ?_⟩
    have hlt := Nat.mod_lt t (show n > 0 by omega)
    rw [Nat.add_mod_mod, Nat.add_mod]
    have : (t % n + (k + (n - t % n)) % n) % n = (k + n) % n := by
      rw [Nat.add_mod_mod]; congr 1; omega
    rw [this, Nat.add_mod_right, Nat.mod_eq_of_lt hk]
  obtain ⟨j, hj, hjk⟩ := hex
  refine ⟨j, ⟨hj, ?_⟩, ?_⟩
  · obtain ⟨m, h1, h2⟩ := hpos j
    rw [hjk] at h1
    exact ⟨m, h1, hjk, h2⟩
  · rintro j' ⟨hj', _, _, hjk', _⟩
    have hmod : (t + j') ≡ (t + j) [MOD n] := by rw [Nat.ModEq, hjk', hjk]
    have := Nat.ModEq.add_left_cancel' t hmod
    rw [Nat.ModEq, Nat.mod_eq_of_lt hj', Nat.mod_eq_of_lt hj] at this
    exact this

example : (ilsAt (fun _ (s : Nat × Nat) => s) (nhPerturb (fun _ => [10, 20, 30]) (fun m x => x + m) (fun s m => s.2 + m))
    alwaysAccept (0, 0) ⟨true, (0, 0), ⟨0, none⟩⟩ 4).1 = (60, 60) := by decide

end Paradiseo.LS
