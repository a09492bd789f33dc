import Verif.Model.Sampling
import Verif.Props.LSCount
import Mathlib.Algebra.Order.BigOperators.Ring.Finset
import Mathlib.Tactic.FieldSimp
import Mathlib.Tactic.Linarith
import Mathlib.Tactic.Positivity

/-
Properties C201–C204: landscape sampling and its statistics.
-/
namespace Paradiseo.LS

open Finset

variable {S M F K E V Sol : Type}

/-! ### C201 -/

theorem zip_record (stats : List (Sol → V)) (past : List Sol) (s : Sol) :
    List.zipWith (fun v g => v ++ [g s]) (stats.map fun g => past.map g) stats =
      stats.map fun g => (past ++ [s]).map g := by
  induction stats with
  | nil => rfl
  | cons g l ih =>
    simp only [List.map_cons, List.zipWith_cons_cons, ih]
    simp

theorem lsLoopK_sample (ex : Explorer Sol E) (stats : List (Sol → V)) (cont : K → Sol → Bool × K) :
    ∀ (fuel t : Nat) (sol : Sol) (e : E) (k : K) (past : List Sol),
      (lsLoopK ex (sampleCont stats cont) fuel t sol e (k, stats.map fun g => past.map g)).map
          (fun p => p.2.2.2) =
        (lsLoop ex cont fuel t sol e k).map
          (fun p => stats.map fun g => (past ++ p.1.map (·.1)).map g) := by
  intro fuel
  induction fuel with
  | zero => intros; rfl
  | succ fuel ih =>
    intro t sol e k past
    simp only [lsLoopK, lsLoop, sampleCont, zip_record]
    by_cases hc : ((cont k (lsStep ex t sol e).1).1 && ex.isContinue (lsStep ex t sol e).1 (lsStep ex t sol e).2.1) = true
    · rw [if_pos hc, if_pos hc, Option.map_map, Option.map_map]
      have := ih (t + 1) (lsStep ex t sol e).1 (lsStep ex t sol e).2.1 (cont k (lsStep ex t sol e).1).2
        (past ++ [(lsStep ex t sol e).1])
      have e1 : ((fun p : List (Sol × E) × Bool × K × List (List V) => p.2.2.2) ∘
          fun p : List (Sol × E) × Bool × K × List (List V) =>
          (((lsStep ex t sol e).1, (lsStep ex t sol e).2.1) :: p.1, p.2)) = fun p => p.2.2.2 := rfl
      have e2 : ((fun p : List (Sol × E) × Bool => stats.map fun g => (past ++ p.1.map (·.1)).map g) ∘
          fun p : List (Sol × E) × Bool => (((lsStep ex t sol e).1, (lsStep ex t sol e).2.1) :: p.1, p.2)) =
          fun p => stats.map fun g => (past ++ [(lsStep ex t sol e).1] ++ p.1.map (·.1)).map g := by
        funext p; simp
      rw [e1, e2]
      exact this
    · rw [if_neg hc, if_neg hc]
      simp

/-- What a sampling holds after a run: for every statistic its value on the starting solution and on the
solution after each iteration, in order, where the iterations are those the search would make without
being sampled. -/
theorem C201_records (f : S → F) (ex : Explorer (S × F) E) (stats : List (S × F → V))
    (cont : K → S × F → Bool × K) (cinit : S × F → K) (fuel : Nat) (x : S) (fit : Option F) (e : E) :
    sampling f ex stats cont cinit fuel x fit e =
      (localSearch f ex cont cinit fuel x fit e).map fun r =>
        stats.map fun g => (solutions (x, fit.getD (f x)) r.2.1).map g := by
  have h := lsLoopK_sample ex stats cont fuel 0 (x, fit.getD (f x)) (ex.initParam (x, fit.getD (f x)) e)
    (cinit (x, fit.getD (f x))) [(x, fit.getD (f x))]
  have hz := zip_record stats [] (x, fit.getD (f x))
  simp only [sampling, localSearch]
  have h0 : (stats.map fun _ => ([] : List V)) = stats.map fun g => ([] : List (S × F)).map g := rfl
  rw [h0, hz, List.nil_append, h, Option.map_map]
  rfl

/-- A sampling by random search asked for `nbSol` solutions records `nbSol` of them, but never fewer than
two. -/
theorem C201_random_search (f : S → F) (nbSol : Nat) (draw : Nat → S × F) (stats : List (S × F → V)) (fuel : Nat)
    (x : S) (fit : Option F) (e : Nat) (vs : List (List V))
    (h : sampling f (randomSearch (searchSteps nbSol) draw) stats (fun (_ : Unit) _ => (true, ())) (fun _ => ())
      fuel x fit e = some vs) :
    ∀ v ∈ vs, v.length = max 2 nbSol := by
  rw [C201_records, Option.map_eq_some_iff] at h
  obtain ⟨⟨res, tr, b⟩, h1, h2⟩ := h
  have hb : b = true := by
    have : ∀ (fuel t : Nat) sol e k l b, lsLoop (randomSearch (searchSteps nbSol) draw)
        (fun (_ : Unit) (_ : S × F) => (true, ())) fuel t sol e k = some (l, b) → b = true := by
      intro fuel
      induction fuel with
      | zero => intro t sol e k l b h; simp [lsLoop] at h
      | succ fuel ih =>
        intro t sol e k l b h
        simp only [lsLoop] at h
        split at h
        · rw [Option.map_eq_some_iff] at h
          obtain ⟨⟨l', b'⟩, h1, h2⟩ := h
          rw [Prod.mk.injEq] at h2
          rw [← h2.2]
          exact ih _ _ _ _ _ _ h1
        · rw [Option.some.injEq, Prod.mk.injEq] at h
          exact h.2.symm
    simp only [localSearch, Option.map_eq_some_iff] at h1
    obtain ⟨⟨l, b'⟩, h3, h4⟩ := h1
    simp only [Prod.mk.injEq] at h4
    rw [← h4.2.2]
    exact this _ _ _ _ _ _ _ h3
  have hl := (C199_random_search nbSol draw h1).2.2.2.2 hb
  intro v hv
  rw [← h2] at hv
  obtain ⟨g, _, rfl⟩ := List.mem_map.1 hv
  simp only [solutions, List.map_cons, List.length_cons, List.length_map, hl]
  omega

theorem lsLoop_iter_exact (ex : Explorer Sol E) (m : Nat)
    (hc : ∀ t p, ex.isContinue (stepTo ex t p).1 (stepTo ex t p).2 = true) :
    ∀ (fuel t : Nat) (sol : Sol) (e : E) (k : Nat) (l : List (Sol × E)) (b : Bool),
      lsLoop ex (iterCont m) fuel t sol e k = some (l, b) → l.length = max 1 (m - k) := by
  intro fuel
  induction fuel with
  | zero => intro t sol e k l b h; simp [lsLoop] at h
  | succ fuel ih =>
    intro t sol e k l b h
    have h0 : ex.isContinue (lsStep ex t sol e).1 (lsStep ex t sol e).2.1 = true := hc t (sol, e)
    simp only [lsLoop, iterCont, h0, Bool.and_true, decide_eq_true_eq] at h
    split at h
    · rename_i hlt
      rw [Option.map_eq_some_iff] at h
      obtain ⟨⟨l', b'⟩, h1, h2⟩ := h
      rw [Prod.mk.injEq] at h2
      rw [← h2.1, List.length_cons, ih _ _ _ _ _ _ h1]
      omega
    · rename_i hlt
      rw [Option.some.injEq, Prod.mk.injEq] at h
      rw [← h.1, List.length_singleton]
      omega

/-- A random walk of `nbStep` steps records `nbStep + 1` values (two when no step is asked for). -/
theorem C201_random_walk (f : S → F) (nb : Nat → S × F → List (Cand M F)) (app : M → S → S) (nbStep fuel : Nat)
    (stats : List (S × F → V)) (x : S) (fit : Option F) (e : HC M F) (vs : List (List V))
    (hne : ∀ t s, nb t s ≠ [])
    (h : sampling f (randomWalk nb app) stats (iterCont nbStep) (fun _ => 0) fuel x fit e = some vs) :
    ∀ v ∈ vs, v.length = max 2 (nbStep + 1) := by
  rw [C201_records, Option.map_eq_some_iff] at h
  obtain ⟨⟨res, tr, b⟩, h1, h2⟩ := h
  have hl : tr.length = max 1 nbStep := by
    have hc : ∀ t p, (randomWalk nb app).isContinue (stepTo (randomWalk nb app) t p).1
        (stepTo (randomWalk nb app) t p).2 = true := by
      rintro t ⟨s, e⟩
      cases hn : nb t s with
      | nil => exact absurd hn (hne t s)
      | cons c l => simp [stepTo, lsStep, randomWalk, hn]
    simp only [localSearch, Option.map_eq_some_iff] at h1
    obtain ⟨⟨l, b'⟩, h3, h4⟩ := h1
    simp only [Prod.mk.injEq] at h4
    rw [← h4.2.1]
    exact lsLoop_iter_exact _ _ hc _ _ _ _ _ _ _ h3
  intro v hv
  rw [← h2] at hv
  obtain ⟨g, _, rfl⟩ := List.mem_map.1 hv
  simp only [solutions, List.map_cons, List.length_cons, List.length_map, hl]
  omega

theorem minusOne_value (n : Nat) : (minusOne n).1 = n ∧ (minusOne n).2 = n - 1 := by
  induction n with
  | zero => exact ⟨rfl, rfl⟩
  | succ n ih =>
    simp only [minusOne, ih.1]
    exact ⟨trivial, by rw [if_pos (by omega)]⟩

/-- The length shown for a walk by a climber (best or first improvement) that stopped by itself is the
number of its moves: every iteration but the last strictly improves, and the last one changes nothing. -/
theorem C201_walk_length [LinearOrder F] {nb : Nat → S × F → List (Cand M F)} {app : M → S → S}
    {ex : Explorer (S × F) (HC M F)} (hex : ex = simpleHC nb app ∨ ex = firstHC false nb app)
    {f : S → F} {cont : K → S × F → Bool × K} {cinit : S × F → K} {fuel : Nat} {x : S} {fit : Option F}
    {e : HC M F} {res : S × F} {tr : List ((S × F) × HC M F)}
    (h : localSearch f ex cont cinit fuel x fit e = some (res, tr, true)) :
    let sols := solutions (x, fit.getD (f x)) tr
    let moves := (minusOne tr.length).2
    sols.length = moves + 2 ∧
    (∀ i a b, i < moves → sols[i]? = some a → sols[i + 1]? = some b → a.2 < b.2) ∧
    sols[moves]? = some res ∧ sols[moves + 1]? = some res := by
  intro sols moves
  have key : ∃ inv, Climbs ex nb app inv ∧ (∀ s e, ex.isContinue s e = e.isAccept) ∧
      (∀ s e, ex.terminate s e = s) ∧ (∀ s e, inv (ex.initParam s e)) := by
    rcases hex with rfl | rfl
    · exact ⟨_, simpleHC_climbs nb app, fun _ _ => rfl, fun _ _ => rfl, fun _ _ => trivial⟩
    · exact ⟨_, firstHC_climbs false nb app, fun _ _ => rfl, fun _ _ => rfl, fun _ _ => trivial⟩
  obtain ⟨inv, hc, hcont, hterm, hinit⟩ := key
  obtain ⟨n, htr, hi, hb, hres, hsol⟩ := localSearch_orbit h
  set p0 := ((x, fit.getD (f x)), ex.initParam (x, fit.getD (f x)) e) with hp0
  have hlen : tr.length = n + 1 := by rw [htr]; simp
  have hmoves : moves = n := by
    show (minusOne tr.length).2 = n
    rw [(minusOne_value _).2, hlen]; rfl
  have hinv : ∀ k, inv (orbit ex 0 p0 k).2 := orbit_climbs hc 0 p0 (hinit _ _)
  rw [hmoves]
  have hlast : (orbit ex 0 p0 (n + 1)).1 = (orbit ex 0 p0 n).1 := by
    rcases hb with hb | hb
    · exact absurd hb (by decide)
    · rw [hcont] at hb
      rcases hc.step (0 + n) _ (hinv n) with ⟨h1, _⟩ | ⟨_, h2, _⟩
      · exact absurd (h1.symm.trans hb) (by decide)
      · exact h2
  refine ⟨by simp [sols, solutions, hlen], ?_, ?_, ?_⟩
  · intro i a b hin ha hb'
    rw [hsol i (by omega)] at ha
    rw [hsol (i + 1) (by omega)] at hb'
    cases ha; cases hb'
    have h1 := hi i hin
    rw [hcont] at h1
    rcases hc.step (0 + i) _ (hinv i) with ⟨_, h2, _⟩ | ⟨h2, _⟩
    · exact h2
    · exact absurd (h2.symm.trans h1) (by decide)
  · rw [hsol n (by omega), hres, hterm, hlast]
  · rw [hsol (n + 1) (by omega), hres, hterm]

example : ∃ res tr, localSearch demoF (simpleHC (fun _ s => demoNb demoF s) (fun d x => x + d))
    (fun (_ : Unit) _ => (true, ())) (fun _ => ()) 10 0 none ⟨none, [], false, 0⟩ = some (res, tr, true) ∧
    (minusOne tr.length).2 = 3 := ⟨_, _, rfl, by decide⟩

example : sampling id (randomSearch (searchSteps 3) (fun t => (t, 10 + t))) [fun s => s.2, fun s => s.1]
    (fun (_ : Unit) _ => (true, ())) (fun _ => ()) 9 7 none 0 = some [[7, 10, 11], [7, 0, 1]] := by decide

/-! ### C202 -/

/-- Minimum, maximum, mean and standard deviation of a list of numbers. -/
theorem C202_basic (x : ℝ) (l : List ℝ) :
    let r := basic (x :: l)
    (r.min ∈ x :: l ∧ ∀ d ∈ x :: l, r.min ≤ d) ∧ (r.max ∈ x :: l ∧ ∀ d ∈ x :: l, d ≤ r.max) ∧
    r.avg = (x :: l).sum / (x :: l).length ∧
    r.std = Real.sqrt (((x :: l).map fun d => (d - r.avg) ^ 2).sum / (x :: l).length) := by
  have key : ∀ (l : List ℝ) (b : Basic),
      let r := l.foldl basicStep b
      ((r.min = b.min ∨ r.min ∈ l) ∧ r.min ≤ b.min ∧ ∀ d ∈ l, r.min ≤ d) ∧
      ((r.max = b.max ∨ r.max ∈ l) ∧ b.max ≤ r.max ∧ ∀ d ∈ l, d ≤ r.max) ∧
      r.avg = b.avg + l.sum ∧ r.std = b.std + (l.map fun d => d * d).sum := by
    intro l
    induction l with
    | nil => intro b; simp
    | cons d l ih =>
      intro b
      obtain ⟨⟨h1, h2, h3⟩, ⟨h4, h5, h6⟩, h7, h8⟩ := ih (basicStep b d)
      have m1 : (basicStep b d).min ≤ b.min ∧ (basicStep b d).min ≤ d ∧
          ((basicStep b d).min = b.min ∨ (basicStep b d).min = d) := by
        simp only [basicStep]
        split
        · rename_i h; exact ⟨h.le, le_rfl, Or.inr rfl⟩
        · rename_i h; exact ⟨le_rfl, not_lt.1 h, Or.inl rfl⟩
      have m2 : b.max ≤ (basicStep b d).max ∧ d ≤ (basicStep b d).max ∧
          ((basicStep b d).max = b.max ∨ (basicStep b d).max = d) := by
        simp only [basicStep]
        split
        · rename_i h; exact ⟨h.le, le_rfl, Or.inr rfl⟩
        · rename_i h; exact ⟨le_rfl, not_lt.1 h, Or.inl rfl⟩
      simp only [List.foldl_cons]
      refine ⟨⟨?_, h2.trans m1.1, ?_⟩, ⟨?_, m2.1.trans h5, ?_⟩, ?_, ?_⟩
      · rcases h1 with h1 | h1
        · rcases m1.2.2 with h | h
          · exact Or.inl (h1.trans h)
          · exact Or.inr (by rw [h1, h]; exact List.mem_cons_self)
        · exact Or.inr (List.mem_cons_of_mem _ h1)
      · intro u hu
        rcases List.mem_cons.1 hu with hu | hu
        · rw [hu]; exact h2.trans m1.2.1
        · exact h3 u hu
      · rcases h4 with h4 | h4
        · rcases m2.2.2 with h | h
          · exact Or.inl (h4.trans h)
          · exact Or.inr (by rw [h4, h]; exact List.mem_cons_self)
        · exact Or.inr (List.mem_cons_of_mem _ h4)
      · intro u hu
        rcases List.mem_cons.1 hu with hu | hu
        · rw [hu]; exact m2.2.1.trans h5
        · exact h6 u hu
      · rw [h7]; simp [basicStep, add_assoc]
      · rw [h8]; simp [basicStep, add_assoc]
  obtain ⟨⟨h1, h2, h3⟩, ⟨h4, h5, h6⟩, h7, h8⟩ := key (x :: l) ⟨x, x, 0, 0⟩
  intro r
  have hn : (0 : ℝ) < ((x :: l).length : ℝ) := by simp; positivity
  have havg : r.avg = (x :: l).sum / (x :: l).length := by
    show ((x :: l).foldl basicStep ⟨x, x, 0, 0⟩).avg / _ = _
    rw [h7, zero_add]
  refine ⟨⟨?_, h3⟩, ⟨?_, h6⟩, havg, ?_⟩
  · rcases h1 with h1 | h1
    · show ((x :: l).foldl basicStep ⟨x, x, 0, 0⟩).min ∈ _
      rw [h1]; exact List.mem_cons_self
    · exact h1
  · rcases h4 with h4 | h4
    · show ((x :: l).foldl basicStep ⟨x, x, 0, 0⟩).max ∈ _
      rw [h4]; exact List.mem_cons_self
    · exact h4
  · have hsq : ∀ (a : ℝ) (l : List ℝ), (l.map fun d => (d - a) ^ 2).sum =
        (l.map fun d => d * d).sum - 2 * a * l.sum + l.length * a ^ 2 := by
      intro a l
      induction l with
      | nil => simp
      | cons d l ih => simp [ih]; ring
    have hv : (((x :: l).map fun d => (d - r.avg) ^ 2).sum / (x :: l).length : ℝ) =
        ((x :: l).map fun d => d * d).sum / (x :: l).length - r.avg * r.avg := by
      rw [hsq, havg]
      field_simp
      ring
    have hnn : (0 : ℝ) ≤ ((x :: l).map fun d => (d - r.avg) ^ 2).sum / (x :: l).length := by
      apply div_nonneg _ hn.le
      apply List.sum_nonneg
      intro y hy
      obtain ⟨d, _, rfl⟩ := List.mem_map.1 hy
      positivity
    have hstd : r.std = if ((x :: l).map fun d => d * d).sum / ((x :: l).length : ℝ) - r.avg * r.avg > 0 then
        Real.sqrt (((x :: l).map fun d => d * d).sum / ((x :: l).length : ℝ) - r.avg * r.avg) else
        ((x :: l).map fun d => d * d).sum / ((x :: l).length : ℝ) - r.avg * r.avg := by
      have h9 : ((x :: l).foldl basicStep ⟨x, x, 0, 0⟩).std = ((x :: l).map fun d => d * d).sum := by
        rw [h8, zero_add]
      rw [← h9]; rfl
    rw [hstd, ← hv]
    split
    · rfl
    · rename_i h
      have : ((x :: l).map fun d => (d - r.avg) ^ 2).sum / ((x :: l).length : ℝ) = 0 :=
        le_antisymm (not_lt.1 h) hnn
      rw [this, Real.sqrt_zero]

theorem distRow_spec {X : Type} (dist : X → X → ℝ) (data : Nat → X) (i : Nat) :
    ∀ k, k ≤ i → ∀ (m : Nat → Nat → ℝ) a b, distRow dist data i k m a b =
      if a = i ∧ b < k then dist (data i) (data b)
      else if b = i ∧ a < k then dist (data i) (data a) else m a b := by
  intro k
  induction k with
  | zero => intro _ m a b; simp [distRow]
  | succ k ih =>
    intro hk m a b
    have ih' := ih (by omega) m
    simp only [distRow, setCell]
    by_cases h1 : a = k ∧ b = i
    · obtain ⟨rfl, rfl⟩ := h1
      have : ¬ a = b := by omega
      simp [this]
    · rw [if_neg h1]
      by_cases h2 : a = i ∧ b = k
      · obtain ⟨rfl, rfl⟩ := h2
        simp
      · rw [if_neg h2, ih']
        by_cases h3 : a = i ∧ b < k
        · rw [if_pos h3, if_pos ⟨h3.1, by omega⟩]
        · have h3' : ¬ (a = i ∧ b < k + 1) := by omega
          rw [if_neg h3, if_neg h3']
          by_cases h4 : b = i ∧ a < k
          · have h4' : b = i ∧ a < k + 1 := by omega
            rw [if_pos h4, if_pos h4']
          · have h4' : ¬ (b = i ∧ a < k + 1) := by omega
            rw [if_neg h4, if_neg h4']

/-- The matrix of distances: symmetric with a zero diagonal whatever the function; below the diagonal it
holds the distance from the later to the earlier individual, so it holds the distance of every pair when
that is symmetric and vanishes on equal arguments. -/
theorem C202_distances {X : Type} (dist : X → X → ℝ) (data : Nat → X) (n : Nat) (m : Nat → Nat → ℝ) (i j : Nat)
    (hi : i < n) (hj : j < n) :
    let r := distances dist data n m
    r i j = r j i ∧ r i i = 0 ∧ (j < i → r i j = dist (data i) (data j)) ∧
    ((∀ a b, dist a b = dist b a) → (∀ a, dist a a = 0) → r i j = dist (data i) (data j)) := by
  have key : ∀ n, ∀ i j, i < n → j < n → distances dist data n m i j =
      if i = j then 0 else if j < i then dist (data i) (data j) else dist (data j) (data i) := by
    intro n
    induction n with
    | zero => intro i j hi; omega
    | succ n ih =>
      intro i j hi hj
      rw [distances, distRow_spec dist data n n le_rfl]
      by_cases h1 : i = n ∧ j < n
      · rw [if_pos h1, if_neg (by omega), if_pos (by omega), h1.1]
      · rw [if_neg h1]
        by_cases h2 : j = n ∧ i < n
        · rw [if_pos h2, if_neg (by omega), if_neg (by omega), h2.1]
        · rw [if_neg h2]
          simp only [setCell]
          by_cases h3 : i = n ∧ j = n
          · rw [if_pos h3, if_pos (by omega)]
          · rw [if_neg h3]
            exact ih i j (by omega) (by omega)
  intro r
  have h1 := key n i j hi hj
  have h2 := key n j i hj hi
  have h3 := key n i i hi hi
  refine ⟨?_, ?_, ?_, ?_⟩
  · show distances dist data n m i j = distances dist data n m j i
    rw [h1, h2]
    by_cases h : i = j
    · subst h; rfl
    · rw [if_neg h, if_neg (Ne.symm h)]
      by_cases h' : j < i
      · rw [if_pos h', if_neg (by omega)]
      · rw [if_neg h', if_pos (by omega)]
  · exact h3.trans (if_pos rfl)
  · intro hji
    exact h1.trans (by rw [if_neg (by omega), if_pos hji])
  · intro hs h0
    refine h1.trans ?_
    by_cases h : i = j
    · subst h; rw [if_pos rfl, h0]
    · rw [if_neg h]
      split
      · rfl
      · exact hs _ _

/-! ### C203 -/

/-- Mean, covariance and standard deviation of `N` pairs (of `N` values), and their correlation. -/
noncomputable def mean (N : Nat) (a : Nat → ℝ) : ℝ := (∑ i ∈ range N, a i) / N

noncomputable def covariance (N : Nat) (a b : Nat → ℝ) : ℝ :=
  (∑ i ∈ range N, (a i - mean N a) * (b i - mean N b)) / N

noncomputable def deviation (N : Nat) (a : Nat → ℝ) : ℝ :=
  Real.sqrt ((∑ i ∈ range N, (a i - mean N a) ^ 2) / N)

noncomputable def correlation (N : Nat) (a b : Nat → ℝ) : ℝ :=
  covariance N a b / (deviation N a * deviation N b)

theorem covariance_eq (N : Nat) (hN : 0 < N) (a b : Nat → ℝ) :
    covariance N a b = (∑ i ∈ range N, a i * b i) / N - mean N a * mean N b := by
  have hN' : (N : ℝ) ≠ 0 := by positivity
  have : (∑ i ∈ range N, (a i - mean N a) * (b i - mean N b)) =
      (∑ i ∈ range N, a i * b i) - mean N a * (∑ i ∈ range N, b i) - mean N b * (∑ i ∈ range N, a i)
        + N * (mean N a * mean N b) := by
    rw [Finset.mul_sum, Finset.mul_sum, ← Finset.sum_sub_distrib, ← Finset.sum_sub_distrib]
    rw [show (N : ℝ) * (mean N a * mean N b) = ∑ i ∈ range N, mean N a * mean N b by simp]
    rw [← Finset.sum_add_distrib]
    apply Finset.sum_congr rfl
    intro i _
    ring
  rw [covariance, this]
  have ha : ∑ i ∈ range N, a i = N * mean N a := by rw [mean]; field_simp
  have hb : ∑ i ∈ range N, b i = N * mean N b := by rw [mean]; field_simp
  rw [ha, hb]
  field_simp
  ring

theorem deviation_eq (N : Nat) (hN : 0 < N) (a : Nat → ℝ) :
    deviation N a = Real.sqrt ((∑ i ∈ range N, a i * a i) / N - mean N a * mean N a) ∧
    0 ≤ (∑ i ∈ range N, a i * a i) / N - mean N a * mean N a := by
  have h := covariance_eq N hN a a
  have h2 : covariance N a a = (∑ i ∈ range N, (a i - mean N a) ^ 2) / N := by
    rw [covariance]; congr 1; apply Finset.sum_congr rfl; intro i _; ring
  constructor
  · rw [deviation, ← h2, h]
  · rw [← h, h2]
    exact div_nonneg (Finset.sum_nonneg fun i _ => sq_nonneg _) (Nat.cast_nonneg _)

/-- The accumulators hold the sums over the first `k` positions, for the lags up to `s`. -/
def AccInv (data : Nat → ℝ) (s k : Nat) (a : Acc) : Prop :=
  a.k = k ∧ ∀ j ≤ s, a.m j = ∑ i ∈ range k, data (i + j) ∧
    a.sig j = ∑ i ∈ range k, data (i + j) * data (i + j) ∧
    a.cov j = ∑ i ∈ range k, data i * data (i + j)

theorem accRow_spec (data : Nat → ℝ) (a : Acc) : ∀ c, (accRow data c a).k = a.k ∧ ∀ j,
    (accRow data c a).m j = a.m j + (if j < c then data (a.k + j) else 0) ∧
    (accRow data c a).sig j = a.sig j + (if j < c then data (a.k + j) * data (a.k + j) else 0) ∧
    (accRow data c a).cov j = a.cov j + (if j < c then data a.k * data (a.k + j) else 0) := by
  intro c
  induction c with
  | zero => simp [accRow]
  | succ c ih =>
    obtain ⟨h0, h⟩ := ih
    refine ⟨h0, fun j => ?_⟩
    obtain ⟨h1, h2, h3⟩ := h j
    simp only [accRow, setAt]
    by_cases hj : j = c
    · subst hj
      obtain ⟨h1, h2, h3⟩ := h j
      simp only [if_true, Nat.lt_succ_self, h1, h2, h3, lt_irrefl, if_false, add_zero, and_self]
    · rw [if_neg hj, if_neg hj, if_neg hj, h1, h2, h3]
      have : (j < c + 1) = (j < c) := propext (by omega)
      simp only [this, and_self]

theorem accWhile_spec (data : Nat → ℝ) (n s : Nat) : ∀ (fuel k : Nat) (a : Acc), AccInv data s k a →
    k ≤ n - s → n - s ≤ k + fuel → AccInv data s (n - s) (accWhile data n s fuel a) := by
  intro fuel
  induction fuel with
  | zero =>
    intro k a h h1 h2
    have : k = n - s := by omega
    rw [← this]; exact h
  | succ fuel ih =>
    intro k a h h1 h2
    obtain ⟨hk, hinv⟩ := h
    simp only [accWhile]
    by_cases hlt : a.k + s < n
    · rw [if_pos hlt]
      obtain ⟨r0, hr⟩ := accRow_spec data a (s + 1)
      refine ih (k + 1) _ ⟨by show a.k + 1 = k + 1; rw [hk], ?_⟩ (by omega) (by omega)
      intro j hj
      obtain ⟨g1, g2, g3⟩ := hinv j hj
      obtain ⟨q1, q2, q3⟩ := hr j
      simp only [Nat.lt_succ_of_le hj, if_true] at q1 q2 q3
      rw [Finset.sum_range_succ, Finset.sum_range_succ, Finset.sum_range_succ, ← g1, ← g2, ← g3, ← hk]
      exact ⟨q1, q2, q3⟩
    · rw [if_neg hlt]
      have : k = n - s := by omega
      rw [← this]; exact ⟨hk, hinv⟩

theorem accClose_spec (data : Nat → ℝ) (n s : Nat) (hs : s + 1 < n) (a : Acc)
    (h : AccInv data (s + 1) (n - (s + 1)) a) :
    (accClose n (s + 1) a).2 = correlation (n - (s + 1)) data (fun i => data (i + (s + 1))) ∧
    AccInv data s (n - (s + 1)) (accClose n (s + 1) a).1 := by
  obtain ⟨hk, hinv⟩ := h
  set N := n - (s + 1) with hN
  have hNpos : 0 < N := by omega
  obtain ⟨m1, g1, c1⟩ := hinv (s + 1) le_rfl
  obtain ⟨m0, g0, c0⟩ := hinv 0 (by omega)
  simp only [Nat.add_zero] at m0 g0 c0
  constructor
  · obtain ⟨d1, p1⟩ := deviation_eq N hNpos (fun i => data (i + (s + 1)))
    obtain ⟨d0, p0⟩ := deviation_eq N hNpos data
    have hcov := covariance_eq N hNpos data (fun i => data (i + (s + 1)))
    simp only [accClose, ← hN, m1, g1, c1, m0, g0]
    have e1 : (∑ i ∈ range N, data (i + (s + 1))) / (N : ℝ) = mean N (fun i => data (i + (s + 1))) := rfl
    have e0 : (∑ i ∈ range N, data i) / (N : ℝ) = mean N data := rfl
    rw [e1, e0, ← hcov, ← d0]
    have e2 : (if (∑ i ∈ range N, data (i + (s + 1)) * data (i + (s + 1))) / (N : ℝ) -
        mean N (fun i => data (i + (s + 1))) * mean N (fun i => data (i + (s + 1))) ≤ 0 then 0 else
        Real.sqrt ((∑ i ∈ range N, data (i + (s + 1)) * data (i + (s + 1))) / (N : ℝ) -
        mean N (fun i => data (i + (s + 1))) * mean N (fun i => data (i + (s + 1))))) =
        deviation N (fun i => data (i + (s + 1))) := by
      rw [d1]
      split
      · rename_i hle
        have : (∑ i ∈ range N, data (i + (s + 1)) * data (i + (s + 1))) / (N : ℝ) -
          mean N (fun i => data (i + (s + 1))) * mean N (fun i => data (i + (s + 1))) = 0 := le_antisymm hle p1
        rw [this, Real.sqrt_zero]
      · rfl
    rw [e2, correlation, mul_comm]
  · refine ⟨hk, fun j hj => ?_⟩
    obtain ⟨q1, q2, q3⟩ := hinv j (by omega)
    simp only [accClose, setAt]
    rw [if_neg (by omega), if_neg (by omega), if_neg (by omega)]
    exact ⟨q1, q2, q3⟩

theorem rhoLoop_spec (data : Nat → ℝ) (n : Nat) : ∀ (s k : Nat) (a : Acc) (rho : Nat → ℝ), s < n →
    AccInv data s k a → k ≤ n - s →
    ∀ j, rhoLoop data n s a rho j = if 1 ≤ j ∧ j ≤ s then correlation (n - j) data (fun i => data (i + j)) else rho j := by
  intro s
  induction s with
  | zero => intro k a rho _ _ _ j; rw [if_neg (by omega)]; rfl
  | succ s ih =>
    intro k a rho hs h hk j
    have h1 := accWhile_spec data n (s + 1) n k a h hk (by omega)
    obtain ⟨h2, h3⟩ := accClose_spec data n s hs _ h1
    simp only [rhoLoop]
    rw [ih (n - (s + 1)) _ _ (by omega) h3 (by omega)]
    by_cases hj : 1 ≤ j ∧ j ≤ s
    · rw [if_pos hj, if_pos ⟨hj.1, by omega⟩]
    · rw [if_neg hj]
      simp only [setAt]
      by_cases hj' : j = s + 1
      · rw [if_pos hj', if_pos ⟨by omega, by omega⟩, h2, hj']
      · rw [if_neg hj', if_neg (by omega)]

theorem rhos_spec (data : Nat → ℝ) (n nbS : Nat) (h : nbS < n) (s : Nat) :
    (s = 0 → rhos data n nbS s = 1) ∧
    (1 ≤ s → s ≤ nbS → rhos data n nbS s = correlation (n - s) data (fun i => data (i + s))) := by
  have h0 : AccInv data nbS 0 ⟨0, fun _ => 0, fun _ => 0, fun _ => 0⟩ := ⟨rfl, fun j _ => by simp⟩
  have := rhoLoop_spec data n nbS 0 _ (setAt (fun _ => 0) 0 1) h h0 (by omega) s
  constructor
  · intro hs
    rw [rhos, this, if_neg (by omega), hs]; rfl
  · intro h1 h2
    rw [rhos, this, if_pos ⟨h1, h2⟩]

/-- The autocorrelation returned for lag `s` is the correlation coefficient of the `n - s` pairs of values
that are `s` apart. With at least as many lags as values, or no lag at all, nothing sensible is
returned. -/
theorem C203_autocorrelation (data : Nat → ℝ) (n nbS : Nat) (hn : 1 ≤ n) :
    (1 ≤ nbS → nbS < n → ∃ rho phi, autocorrelation data n nbS = .ok rho phi ∧ rho 0 = 1 ∧
      ∀ s, 1 ≤ s → s ≤ nbS → rho s = correlation (n - s) data (fun i => data (i + s))) ∧
    (nbS = 0 → autocorrelation data n nbS = .outOfBounds) ∧
    (1 ≤ nbS → n ≤ nbS → autocorrelation data n nbS = .notANumber) := by
  refine ⟨?_, ?_, ?_⟩
  · intro h1 h2
    refine ⟨rhos data n nbS, phis (rhos data n nbS), ?_, (rhos_spec data n nbS h2 0).1 rfl, fun s g1 g2 =>
      (rhos_spec data n nbS h2 s).2 g1 g2⟩
    rw [autocorrelation, if_neg (by omega), if_neg (by omega), if_neg (by omega)]
  · intro h
    rw [autocorrelation, if_neg (by omega), if_pos h]
  · intro h1 h2
    rw [autocorrelation, if_neg (by omega), if_neg (by omega), if_pos h2]

/-- It lies between -1 and 1. -/
theorem C203_range (N : Nat) (a b : Nat → ℝ) (hN : 0 < N) : |correlation N a b| ≤ 1 := by
  rw [correlation, abs_div]
  apply div_le_one_of_le₀ _ (abs_nonneg _)
  have hcs := Finset.sum_mul_sq_le_sq_mul_sq (range N) (fun i => a i - mean N a) (fun i => b i - mean N b)
  have hNr : (0 : ℝ) < N := by positivity
  rw [deviation, deviation, abs_of_nonneg (mul_nonneg (Real.sqrt_nonneg _) (Real.sqrt_nonneg _)),
    ← Real.sqrt_mul (div_nonneg (Finset.sum_nonneg fun i _ => sq_nonneg _) hNr.le)]
  apply Real.abs_le_sqrt
  rw [covariance, div_pow, div_mul_div_comm, ← pow_two]
  gcongr

/-! ### C204 -/

theorem loopSum_eq {R : Type} [Field R] (g : Nat → R) (k : Nat) : loopSum g k = ∑ j ∈ Ico 1 k, g j := by
  induction k with
  | zero => simp [loopSum]
  | succ k ih =>
    cases k with
    | zero => simp [loopSum]
    | succ k => rw [Finset.sum_Ico_succ_top (by omega), ← ih]; rfl

/-- Absolute difference of two lags. -/
def lagDist (i j : Nat) : Nat := (i - j) + (j - i)

/-- The denominator used for lag `k ≥ 2`. -/
def phiDen {R : Type} [Field R] (rho : Nat → R) (k : Nat) : R :=
  1 - ∑ j ∈ Ico 1 k, phiRow rho (k - 1) j * rho j

/-- For every order `k` the row of coefficients solves the equations of Yule and Walker for the given
autocorrelations: `∑ⱼ φₖⱼ ρ(|i - j|) = ρ(i)` for `i = 1 … k`, as long as no denominator vanished. So the
partial autocorrelation returned for lag `k` is the last coefficient of the autoregression of order `k`. -/
theorem C204_yule_walker {R : Type} [Field R] (rho : Nat → R) (h0 : rho 0 = 1) (k : Nat) (hk : 1 ≤ k)
    (hden : ∀ q, 2 ≤ q → q ≤ k → phiDen rho q ≠ 0) :
    phis rho k = phiRow rho k k ∧
    ∀ i, 1 ≤ i → i ≤ k → ∑ j ∈ Icc 1 k, phiRow rho k j * rho (lagDist i j) = rho i := by
  refine ⟨by rw [phis, if_neg (by omega)], ?_⟩
  induction k with
  | zero => omega
  | succ k ih =>
    cases k with
    | zero =>
      intro i h1 h2
      have : i = 1 := by omega
      subst this
      simp [phiRow, lagDist, h0]
    | succ k =>
      have ih' := ih (by omega) (fun q q1 q2 => hden q q1 (by omega))
      have hd := hden (k + 2) (by omega) le_rfl
      set a := phiRow rho (k + 1) with ha
      set p := (rho (k + 2) - ∑ j ∈ Ico 1 (k + 2), a j * rho (k + 2 - j)) / phiDen rho (k + 2) with hp
      have hden' : phiDen rho (k + 2) = 1 - ∑ j ∈ Ico 1 (k + 2), a j * rho j := rfl
      have hrow : ∀ j, phiRow rho (k + 2) j = if j = k + 2 then p else if 1 ≤ j ∧ j < k + 2 then
          a j - p * a (k + 2 - j) else 0 := by
        intro j
        simp only [phiRow, loopSum_eq]
        rfl
      -- reflection of a sum over 1 … k + 1
      have hrefl : ∀ g : Nat → R, ∑ j ∈ Ico 1 (k + 2), g (k + 2 - j) = ∑ j ∈ Ico 1 (k + 2), g j := by
        intro g
        refine Finset.sum_nbij' (fun j => k + 2 - j) (fun j => k + 2 - j) ?_ ?_ ?_ ?_ ?_
        · intro j hj; rw [Finset.mem_Ico] at hj ⊢; omega
        · intro j hj; rw [Finset.mem_Ico] at hj ⊢; omega
        · intro j hj; rw [Finset.mem_Ico] at hj; show k + 2 - (k + 2 - j) = j; omega
        · intro j hj; rw [Finset.mem_Ico] at hj; show k + 2 - (k + 2 - j) = j; omega
        · intro j _; rfl
      have hset : Icc 1 (k + 1 + 1) = insert (k + 2) (Ico 1 (k + 2)) := by
        ext j; simp only [Finset.mem_Icc, Finset.mem_insert, Finset.mem_Ico]; omega
      have hprev : Icc 1 (k + 1) = Ico 1 (k + 2) := by
        ext j; simp only [Finset.mem_Icc, Finset.mem_Ico]; omega
      rw [hprev] at ih'
      intro i h1 h2
      rw [hset, Finset.sum_insert (by simp)]
      have hsum : ∑ j ∈ Ico 1 (k + 2), phiRow rho (k + 1 + 1) j * rho (lagDist i j) =
          ∑ j ∈ Ico 1 (k + 2), a j * rho (lagDist i j) - p * ∑ j ∈ Ico 1 (k + 2), a (k + 2 - j) * rho (lagDist i j) := by
        rw [Finset.mul_sum, ← Finset.sum_sub_distrib]
        apply Finset.sum_congr rfl
        intro j hj
        rw [Finset.mem_Ico] at hj
        rw [hrow, if_neg (by omega), if_pos hj]
        ring
      have hlast : phiRow rho (k + 1 + 1) (k + 2) = p := by rw [hrow, if_pos rfl]
      rw [hsum, hlast]
      rcases Nat.lt_or_ge i (k + 2) with hi | hi
      · have e1 : ∑ j ∈ Ico 1 (k + 2), a (k + 2 - j) * rho (lagDist i j) = rho (k + 2 - i) := by
          rw [← ih' (k + 2 - i) (by omega) (by omega),
            ← hrefl (fun j => a j * rho (lagDist (k + 2 - i) j))]
          apply Finset.sum_congr rfl
          intro j hj
          rw [Finset.mem_Ico] at hj
          have : lagDist i j = lagDist (k + 2 - i) (k + 2 - j) := by simp only [lagDist]; omega
          rw [this]
        rw [e1, ih' i h1 (by omega)]
        have e2 : lagDist i (k + 2) = k + 2 - i := by simp only [lagDist]; omega
        rw [e2]; ring
      · have hik : i = k + 2 := by omega
        subst hik
        have e1 : ∑ j ∈ Ico 1 (k + 2), a (k + 2 - j) * rho (lagDist (k + 2) j) = ∑ j ∈ Ico 1 (k + 2), a j * rho j := by
          rw [← hrefl (fun j => a j * rho j)]
          apply Finset.sum_congr rfl
          intro j hj
          rw [Finset.mem_Ico] at hj
          have : lagDist (k + 2) j = k + 2 - j := by simp only [lagDist]; omega
          rw [this]
        have e2 : ∑ j ∈ Ico 1 (k + 2), a j * rho (lagDist (k + 2) j) = ∑ j ∈ Ico 1 (k + 2), a j * rho (k + 2 - j) := by
          apply Finset.sum_congr rfl
          intro j hj
          rw [Finset.mem_Ico] at hj
          have : lagDist (k + 2) j = k + 2 - j := by simp only [lagDist]; omega
          rw [this]
        have e3 : lagDist (k + 2) (k + 2) = 0 := by simp [lagDist]
        rw [e1, e2, e3, h0]
        have hpd : p * phiDen rho (k + 2) = rho (k + 2) - ∑ j ∈ Ico 1 (k + 2), a j * rho (k + 2 - j) := by
          rw [hp]; field_simp
        rw [hden'] at hpd
        linear_combination hpd

example : (∀ q, 2 ≤ q → q ≤ 2 → phiDen (fun k => (1 / 2 : ℚ) ^ k) q ≠ 0) ∧
    phis (fun k => (1 / 2 : ℚ) ^ k) 2 = 0 ∧ phis (fun k => (1 / 2 : ℚ) ^ k) 1 = 1 / 2 := by
  refine ⟨?_, ?_, ?_⟩
  · intro q h1 h2
    have : q = 2 := by omega
    subst this
    simp [phiDen, phiRow]; norm_num
  · simp [phis, phiRow, loopSum]; norm_num
  · simp [phis, phiRow]

/-- The first partial autocorrelation is the autocorrelation of lag one, and the second one is
`(ρ₂ - ρ₁²) / (1 - ρ₁²)`. -/
theorem C204_first {R : Type} [Field R] (rho : Nat → R) :
    phis rho 1 = rho 1 ∧ phis rho 2 = (rho 2 - rho 1 * rho 1) / (1 - rho 1 * rho 1) := by
  constructor
  · simp [phis, phiRow]
  · simp [phis, phiRow, loopSum]

/-- The partial autocorrelations need not lie between -1 and 1, since every lag has its own means and
deviations: the four values 0, 1, 2, 0 give -5/3 for lag two. -/
theorem C204_out_of_range :
    ∃ (data : Nat → ℝ) (rho phi : Nat → ℝ), autocorrelation data 4 2 = .ok rho phi ∧ phi 2 = -5 / 3 := by
  set data : Nat → ℝ := fun i => if i = 1 then 1 else if i = 2 then 2 else 0 with hd
  refine ⟨data, rhos data 4 2, phis (rhos data 4 2), by simp [autocorrelation], ?_⟩
  have r1 : rhos data 4 2 1 = -1 / 2 := by
    rw [(rhos_spec data 4 2 (by omega) 1).2 le_rfl (by omega)]
    have hs : Real.sqrt (2 / 3) * Real.sqrt (2 / 3) = 2 / 3 := Real.mul_self_sqrt (by norm_num)
    have d1 : deviation (4 - 1) data = Real.sqrt (2 / 3) := by
      simp only [deviation, mean, Finset.sum_range_succ, hd]; norm_num
    have d2 : deviation (4 - 1) (fun i => data (i + 1)) = Real.sqrt (2 / 3) := by
      simp only [deviation, mean, Finset.sum_range_succ, hd]; norm_num
    have c : covariance (4 - 1) data (fun i => data (i + 1)) = -1 / 3 := by
      simp only [covariance, mean, Finset.sum_range_succ, hd]; norm_num
    rw [correlation, d1, d2, c, hs]; norm_num
  have r2 : rhos data 4 2 2 = -1 := by
    rw [(rhos_spec data 4 2 (by omega) 2).2 (by omega) le_rfl]
    have d1 : deviation (4 - 2) data = 1 / 2 := by
      have : deviation (4 - 2) data = Real.sqrt ((1 / 2) ^ 2) := by
        simp only [deviation, mean, Finset.sum_range_succ, hd]; norm_num
      rw [this, Real.sqrt_sq (by norm_num)]
    have d2 : deviation (4 - 2) (fun i => data (i + 2)) = 1 := by
      have : deviation (4 - 2) (fun i => data (i + 2)) = Real.sqrt (1 ^ 2) := by
        simp only [deviation, mean, Finset.sum_range_succ, hd]; norm_num
      rw [this, Real.sqrt_sq (by norm_num)]
    have c : covariance (4 - 2) data (fun i => data (i + 2)) = -1 / 2 := by
      simp only [covariance, mean, Finset.sum_range_succ, hd]; norm_num
    rw [correlation, d1, d2, c]; norm_num
  rw [(C204_first _).2, r1, r2]; norm_num

end Paradiseo.LS
