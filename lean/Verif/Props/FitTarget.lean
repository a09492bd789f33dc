/-
Property C382: a local search with a target fitness.
-/
import Verif.Model.FitTarget
import Verif.Props.LocalSearch

namespace Paradiseo.LS

variable {S M F E : Type} [LinearOrder F]

theorem fitTarget_loop (ex : Explorer (S × F) E) (m : F) :
    ∀ (fuel t : Nat) (s : S × F) (e : E) (l : List ((S × F) × E)) (b : Bool),
      lsLoop ex (fitTarget m) fuel t s e () = some (l, b) →
      ∃ front last, l = front ++ [last] ∧ (∀ p ∈ front, p.1.2 < m) ∧ (b = true ↔ last.1.2 < m) := by
  intro fuel
  induction fuel with
  | zero => intro t s e l b h; simp [lsLoop] at h
  | succ fuel ih =>
    intro t s e l b h
    simp only [lsLoop] at h
    by_cases hgo : ((fitTarget m () (lsStep ex t s e).1).1 && ex.isContinue (lsStep ex t s e).1 (lsStep ex t s e).2.1) = true
    · rw [if_pos hgo] at h
      have hlt : (lsStep ex t s e).1.2 < m := of_decide_eq_true (Bool.and_eq_true_iff.1 hgo).1
      rw [Option.map_eq_some_iff] at h
      obtain ⟨⟨l', b'⟩, h1, h2⟩ := h
      simp only [Prod.mk.injEq] at h2
      obtain ⟨front, last, e1, e2, e3⟩ := ih _ _ _ _ _ h1
      refine ⟨((lsStep ex t s e).1, (lsStep ex t s e).2.1) :: front, last, by rw [← h2.1, e1]; rfl, ?_, by rw [← h2.2]; exact e3⟩
      intro p hp
      rcases List.mem_cons.1 hp with rfl | hp
      · exact hlt
      · exact e2 p hp
    · rw [if_neg hgo, Option.some.injEq, Prod.mk.injEq] at h
      exact ⟨[], _, h.1.symm, by simp, by rw [← h.2]; simp [fitTarget]⟩

/-- C382: whatever the local search, with a target fitness it makes at least one iteration, all its iterations but the last stay
below the target, and the continuator stopped it iff the last one reaches the target. -/
theorem C382_target (f : S → F) (ex : Explorer (S × F) E) (m : F) (fuel : Nat) (x : S) (fit : Option F) (e : E)
    (res : S × F) (tr : List ((S × F) × E)) (b : Bool)
    (h : localSearch f ex (fitTarget m) (fun _ => ()) fuel x fit e = some (res, tr, b)) :
    ∃ front last, tr = front ++ [last] ∧ (∀ p ∈ front, p.1.2 < m) ∧ (b = false ↔ m ≤ last.1.2) := by
  simp only [localSearch, Option.map_eq_some_iff] at h
  obtain ⟨⟨l, b'⟩, h1, h2⟩ := h
  simp only [Prod.mk.injEq] at h2
  obtain ⟨front, last, e1, e2, e3⟩ := fitTarget_loop ex m _ _ _ _ _ _ h1
  refine ⟨front, last, by rw [← h2.2.1, e1], e2, ?_⟩
  rw [← h2.2.2, ← not_lt, ← e3]
  simp

/-- C382: a climber (best or first improvement) with a target fitness that ends has reached the target, at the first iteration
that does, or has found a solution without better neighbours. -/
theorem C382_climber (f : S → F) (nb : Nat → S × F → List (Cand M F)) (app : M → S → S) (ex : Explorer (S × F) (HC M F))
    (hex : ex = simpleHC nb app ∨ ex = firstHC false nb app) (m : F) (fuel : Nat) (x : S) (fit : Option F) (e : HC M F)
    (res : S × F) (tr : List ((S × F) × HC M F)) (b : Bool)
    (h : localSearch f ex (fitTarget m) (fun _ => ()) fuel x fit e = some (res, tr, b)) :
    m ≤ res.2 ∨ ∀ c ∈ nb (tr.length - 1) res, c.fit ≤ res.2 := by
  have key : ∃ inv, Climbs ex nb app inv ∧ (∀ s e, ex.isContinue s e = e.isAccept) ∧
      (∀ s e, ex.terminate s e = s) ∧ (∀ s e, inv (ex.initParam s e)) := by
    rcases hex with rfl | rfl
    · exact ⟨_, simpleHC_climbs nb app, fun _ _ => rfl, fun _ _ => rfl, fun _ _ => trivial⟩
    · exact ⟨_, firstHC_climbs false nb app, fun _ _ => rfl, fun _ _ => rfl, fun _ _ => trivial⟩
  obtain ⟨inv, hc, hcont, hterm, hinit⟩ := key
  obtain ⟨-, h2, h3, -⟩ := climbs_run hc hcont hterm hinit h
  obtain ⟨front, last, e1, -, e3⟩ := C382_target f ex m fuel x fit e res tr b h
  cases b with
  | true => exact Or.inr (h3 rfl)
  | false =>
    left
    have : last.1 = res := by
      rw [e1] at h2
      simpa [solutions, List.getLast?_cons] using h2
    rw [← this]
    exact e3.1 rfl

/-- C382: the starting solution is not tested: even when it already reaches the target fitness, one iteration is made, and
a search that does not climb may make it worse (a random walk on the integers from 5, target 4, ends in 4). -/
theorem C382_start_not_tested :
    localSearch (fun x : Int => x) (randomWalk (fun _ s => [⟨(), s.1 - 1⟩]) (fun (_ : Unit) x => x - 1)) (fitTarget 4)
      (fun _ => ()) 3 5 none { selected := none, isAccept := false, best := [], step := 0 } =
    some ((4, 4), [((4, 4), { selected := some ⟨(), 4⟩, isAccept := true, best := [], step := 0 })], false) := by rfl

end Paradiseo.LS
