/-
Property C377: a random walk visits, one after the other, the first neighbour it is given.
-/
import Verif.Props.Sampling

namespace Paradiseo.LS

variable {S M F V : Type}

/-- The walk from `s` whose first step has number `t`: each time to the first neighbour given, staying where there is none. -/
def walkFrom (nb : Nat → S × F → List (Cand M F)) (app : M → S → S) : Nat → S × F → Nat → S × F
  | _, s, 0 => s
  | t, s, n + 1 => match nb t s with
    | [] => walkFrom nb app (t + 1) s n
    | c :: _ => walkFrom nb app (t + 1) (app c.mv s.1, c.fit) n

theorem randomWalk_step (nb : Nat → S × F → List (Cand M F)) (app : M → S → S) (t : Nat) (s : S × F) (e : HC M F) :
    (lsStep (randomWalk nb app) t s e).1 = walkFrom nb app t s 1 ∧
    (∀ n, walkFrom nb app t s (n + 1) = walkFrom nb app (t + 1) (lsStep (randomWalk nb app) t s e).1 n) ∧
    (randomWalk nb app).isContinue (lsStep (randomWalk nb app) t s e).1 (lsStep (randomWalk nb app) t s e).2.1 =
      !(nb t s).isEmpty := by
  cases h : nb t s <;> simp [lsStep, randomWalk, walkFrom, h, moveSel]

theorem randomWalk_loop (nb : Nat → S × F → List (Cand M F)) (app : M → S → S) (m : Nat) :
    ∀ (fuel t : Nat) (s : S × F) (e : HC M F) (k : Nat), max 1 (m - k) ≤ fuel →
      ∃ L l b, lsLoop (randomWalk nb app) (iterCont m) fuel t s e k = some (l, b) ∧ 1 ≤ L ∧ L ≤ max 1 (m - k) ∧
        l.map (·.1) = (List.range L).map (fun i => walkFrom nb app t s (i + 1)) ∧
        (∀ i, i + 1 < L → nb (t + i) (walkFrom nb app t s i) ≠ []) ∧
        (L < max 1 (m - k) → nb (t + (L - 1)) (walkFrom nb app t s (L - 1)) = []) := by
  intro fuel
  induction fuel with
  | zero => intro t s e k h; omega
  | succ fuel ih =>
    intro t s e k hf
    obtain ⟨h1, h2, h3⟩ := randomWalk_step nb app t s e
    simp only [lsLoop, iterCont, h3]
    by_cases hgo : k + 1 < m ∧ nb t s ≠ []
    · obtain ⟨L, l, b, hl, hL1, hL2, hw, hne, hstop⟩ := ih (t + 1) (lsStep (randomWalk nb app) t s e).1
        (lsStep (randomWalk nb app) t s e).2.1 (k + 1) (by omega)
      refine ⟨L + 1, ((lsStep (randomWalk nb app) t s e).1, (lsStep (randomWalk nb app) t s e).2.1) :: l, b,
        ?_, by omega, by omega, ?_, ?_, ?_⟩
      · have : (decide (k + 1 < m) && !(nb t s).isEmpty) = true := by simp [hgo.1, hgo.2]
        rw [if_pos this, hl]; rfl
      · rw [List.map_cons, hw, List.range_succ_eq_map, List.map_cons, List.map_map]
        congr 1
        apply List.map_congr_left
        intro i _
        exact (h2 (i + 1)).symm
      · intro i hi
        cases i with
        | zero => exact hgo.2
        | succ i =>
          rw [h2 i, show t + (i + 1) = t + 1 + i by omega]
          exact hne i (by omega)
      · intro h
        have := hstop (by omega)
        obtain ⟨L', rfl⟩ : ∃ L', L = L' + 1 := ⟨L - 1, by omega⟩
        simp only [Nat.add_sub_cancel] at this ⊢
        rw [h2 L', show t + (L' + 1) = t + 1 + L' by omega]
        exact this
    · have : (decide (k + 1 < m) && !(nb t s).isEmpty) ≠ true := by
        simpa using fun h => by simpa [h] using hgo
      rw [if_neg this]
      refine ⟨1, _, _, rfl, le_rfl, by omega, ?_, by omega, ?_⟩
      · simp [h1]
      · intro h
        simp only [Nat.sub_self, Nat.add_zero, walkFrom]
        by_contra hn
        exact hgo ⟨by omega, hn⟩

/-- C377: the sampling along a random walk of `nbStep` steps ends within `max 1 nbStep` iterations; it records each
statistic at the start and after each of `L` iterations of the walk to the first neighbour given.  The walk goes on
for all `max 1 nbStep` iterations, unless it reaches, before the last one, a solution without neighbours: the iteration
that finds none is the last one. -/
theorem C377_random_walk (f : S → F) (nb : Nat → S × F → List (Cand M F)) (app : M → S → S) (nbStep fuel : Nat)
    (stats : List (S × F → V)) (x : S) (fit : Option F) (e : HC M F) (hf : max 1 nbStep ≤ fuel) :
    let walk := walkFrom nb app 0 (x, fit.getD (f x))
    ∃ L, 1 ≤ L ∧ L ≤ max 1 nbStep ∧ (∀ i, i + 1 < L → nb i (walk i) ≠ []) ∧
      (L < max 1 nbStep → nb (L - 1) (walk (L - 1)) = []) ∧
      sampling f (randomWalk nb app) stats (iterCont nbStep) (fun _ => 0) fuel x fit e =
        some (stats.map fun g => (List.range (L + 1)).map fun i => g (walk i)) := by
  intro walk
  obtain ⟨L, l, b, hl, hL1, hL2, hw, hne, hstop⟩ := randomWalk_loop nb app nbStep fuel 0 (x, fit.getD (f x))
    ((randomWalk nb app).initParam (x, fit.getD (f x)) e) 0 hf
  simp only [Nat.zero_add, Nat.sub_zero] at hne hstop hL2
  refine ⟨L, hL1, hL2, hne, hstop, ?_⟩
  rw [C201_records]
  simp only [localSearch, hl, Option.map_some, solutions, hw, Option.some.injEq]
  apply List.map_congr_left
  intro g _
  rw [List.range_succ_eq_map]
  simp only [List.map_cons, List.map_map]
  rfl

/-- C377: when every solution has neighbours, exactly `max 1 nbStep` iterations are made. -/
theorem C377_full (f : S → F) (nb : Nat → S × F → List (Cand M F)) (app : M → S → S) (nbStep fuel : Nat)
    (stats : List (S × F → V)) (x : S) (fit : Option F) (e : HC M F) (hf : max 1 nbStep ≤ fuel) (hne : ∀ t s, nb t s ≠ []) :
    sampling f (randomWalk nb app) stats (iterCont nbStep) (fun _ => 0) fuel x fit e =
      some (stats.map fun g => (List.range (max 1 nbStep + 1)).map fun i => g (walkFrom nb app 0 (x, fit.getD (f x)) i)) := by
  obtain ⟨L, -, h2, -, h4, h5⟩ := C377_random_walk f nb app nbStep fuel stats x fit e hf
  have : L = max 1 nbStep := by
    by_contra h
    exact hne _ _ (h4 (by omega))
  rw [h5, this]

/-- Three steps on the integers, alternately by 1 and by 10, fitness `x`. -/
example : sampling (fun x : Int => x) (randomWalk (fun t s => [⟨if t % 2 = 0 then 1 else 10, s.1 + if t % 2 = 0 then 1 else 10⟩])
    (fun (m : Int) x => x + m)) [fun s => s.2] (iterCont 3) (fun _ => 0) 5 0 none
    { selected := none, isAccept := false, best := [], step := 0 } = some [[0, 1, 11, 12]] := by
  rfl

end Paradiseo.LS
