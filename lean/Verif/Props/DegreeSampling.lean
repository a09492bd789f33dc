import Verif.Model.DegreeSampling
import Verif.Props.CloudSampling
/-
C369: fitness-distance and neutral degree samplings.
-/
namespace Paradiseo.LS

open Paradiseo.EO (Err)

variable {S : Type}

/-- The solutions a sampling of `nbSol` random solutions sees: at least two. -/
def sampled (nbSol : Nat) (draw : Nat → S) (x : S) : List S := x :: (List.range (max 2 nbSol - 1)).map draw

private theorem random_trace (f : S → ℚ) (nbSol : Nat) (draw : Nat → S) (fuel : Nat) (hf : max 1 nbSol ≤ fuel) (x : S) :
    ∃ r, localSearch f (randomSearch (searchSteps nbSol) (fun t => (draw t, f (draw t)))) (fun (_ : Unit) _ => (true, ()))
      (fun _ => ()) fuel x none 0 = some r ∧
      (x, f x) :: r.2.1.map (·.1) = (sampled nbSol draw x).map fun y => (y, f y) := by
  have hl := randomSearch_loop (searchSteps nbSol) (fun t => (draw t, f (draw t))) fuel 0
    (x, f x) 0 (by unfold searchSteps; split <;> omega)
  have hm : max 2 nbSol - 1 = max 1 (searchSteps nbSol - 0) := by unfold searchSteps; split <;> omega
  simp only [localSearch, Option.getD_none]
  rw [show (randomSearch (searchSteps nbSol) fun t => (draw t, f (draw t))).initParam (x, f x) 0 = 0 from rfl, hl]
  refine ⟨_, rfl, ?_⟩
  simp only [sampled, List.map_cons, List.map_map, hm]
  congr 1
  apply List.map_congr_left
  intro i _
  simp

/-- C369: a fitness-distance sampling has one row for each of `max 2 nbSol` solutions, in the order they were drawn: the
fitness and the distance to the reference. -/
theorem C369_distance (f : S → ℚ) (dist : S → S → ℚ) (ref : S) (nbSol : Nat) (draw : Nat → S) (fuel : Nat)
    (hf : max 1 nbSol ≤ fuel) (x : S) :
    fdcSampling f dist ref nbSol draw fuel x =
      some [(sampled nbSol draw x).map f, (sampled nbSol draw x).map fun y => dist y ref] ∧
    (sampled nbSol draw x).length = max 2 nbSol := by
  refine ⟨?_, by simp [sampled]⟩
  obtain ⟨r, h1, h2⟩ := random_trace f nbSol draw fuel hf x
  unfold fdcSampling
  rw [C201_records, h1]
  simp only [Option.map_some, solutions, Option.getD_none]
  rw [h2]
  simp [List.map_map, Function.comp_def]

/-- C369: a neutral degree sampling has the same solutions; if all of them have neighbours, the second column is the number of
neighbours whose fitness is that of the solution, whether the fitness is maximised or minimised. -/
theorem C369_degree (f : S → ℚ) (minimised : Bool) (sort : List ℚ → List ℚ) (look : S → List ℚ) (nbSol : Nat)
    (draw : Nat → S) (fuel : Nat) (hf : max 1 nbSol ≤ fuel) (x : S) (hn : ∀ y ∈ sampled nbSol draw x, look y ≠ []) :
    ndSampling f (ltOf minimised) sort look nbSol draw fuel x =
      some ((sampled nbSol draw x).map f, (sampled nbSol draw x).map fun y => .ok ((look y).count (f y))) := by
  obtain ⟨r, h1, h2⟩ := random_trace f nbSol draw fuel hf x
  unfold ndSampling
  rw [h1]
  simp only [Option.map_some]
  rw [h2]
  simp only [List.map_map, Function.comp_def]
  congr 2
  have hcount : ∀ (fx c : ℚ) (l : List ℚ), (nbStatBy (ltOf minimised) sort fx c l).nbEqual = (c :: l).count fx := by
    intro fx c l
    have step : ∀ (l : List ℚ) (s : NbStat), (l.foldl (statStepBy (ltOf minimised) fx) s).nbEqual = s.nbEqual + l.count fx := by
      intro l
      induction l with
      | nil => intro s; simp
      | cons a l ih =>
        intro s
        rw [List.foldl_cons, ih, List.count_cons]
        by_cases ha : fx = a
        · subst ha; simp [statStepBy]; omega
        · have ha' : ¬ (a == fx) = true := by simpa using fun h => ha h.symm
          simp only [statStepBy, if_neg ha, if_neg ha']
          split <;> simp
    have hfirst : (statFirstBy (ltOf minimised) fx c).nbEqual = [c].count fx := by
      by_cases ha : fx = c
      · subst ha; simp [statFirstBy]
      · have ha' : ¬ (c == fx) = true := by simpa using fun h => ha h.symm
        simp only [statFirstBy, if_neg ha, List.count_cons, if_neg ha', List.count_nil]
        split <;> simp
    have : (c :: l).count fx = [c].count fx + l.count fx := by
      rw [← List.count_append]; rfl
    rw [this, ← hfirst, ← step]
    unfold nbStatBy
    dsimp only
    split <;> rfl
  have series : ∀ (ys : List S) (prev : Option NbReport), (∀ y ∈ ys, look y ≠ []) →
      nbStatSeries (ltOf minimised) sort (·.nbEqual) prev (ys.map fun y => (f y, look y)) =
        ys.map fun y => .ok ((look y).count (f y)) := by
    intro ys
    induction ys with
    | nil => intro _ _; rfl
    | cons y ys ih =>
      intro prev h
      simp only [List.map_cons, nbStatSeries]
      rw [ih _ fun z hz => h z (List.mem_cons_of_mem _ hz)]
      congr 1
      cases hy : look y with
      | nil => exact absurd hy (h y List.mem_cons_self)
      | cons c l => simp only [nbStatCall, hcount]
  exact series _ _ hn

/-- C369: the condition is needed: the row of a solution without neighbours repeats the number of the row before. -/
theorem C369_isolated (f : S → ℚ) (lt : ℚ → ℚ → Bool) (sort : List ℚ → List ℚ) (look : S → List ℚ) (nbSol : Nat)
    (draw : Nat → S) (fuel : Nat) (hf : max 1 nbSol ≤ fuel) (x y : S) (i : Nat)
    (hy : (sampled nbSol draw x)[i + 1]? = some y) (hn : look y = []) :
    ∃ c d, ndSampling f lt sort look nbSol draw fuel x = some (c, d) ∧ d[i + 1]? = d[i]? ∧ d[i]? ≠ none := by
  obtain ⟨r, h1, h2⟩ := random_trace f nbSol draw fuel hf x
  unfold ndSampling
  rw [h1]
  simp only [Option.map_some]
  rw [h2]
  simp only [List.map_map, Function.comp_def]
  refine ⟨_, _, rfl, ?_⟩
  have hi : i + 1 < (sampled nbSol draw x).length := (List.getElem?_eq_some_iff.1 hy).1
  rw [C331_series _ _ _ _ (i + 1) (by simpa using hi), C331_series _ _ _ _ i (by simp; omega)]
  refine ⟨?_, by simp⟩
  have : lastWithNeighbors ((sampled nbSol draw x).map fun y => (f y, look y)) (i + 1) =
      lastWithNeighbors ((sampled nbSol draw x).map fun y => (f y, look y)) i := by
    unfold lastWithNeighbors
    rw [List.take_add_one (i := i + 1), List.getElem?_map, hy]
    simp [hn]
  rw [this]

/-- Numbers with the moves +1 and -1, fitness 0 up to 2 and 1 above. -/
private def step2 (x : Int) : ℚ := if x ≤ 2 then 0 else 1

example : fdcSampling step2 (fun a b => ((a - b : Int) : ℚ)) 7 3 (fun t => (t : Int) + 2) 9 0 =
    some [[0, 0, 1], [-7, -5, -4]] := by decide +kernel

example : ((ndSampling step2 (ltOf false) id (fun y => [step2 (y + 1), step2 (y - 1)]) 3 (fun t => (t : Int) + 2) 9 0).map
    fun r => (r.1, r.2.map Except.toOption)) = some ([0, 0, 1], [some 2, some 1, some 1]) := by decide +kernel

end Paradiseo.LS
