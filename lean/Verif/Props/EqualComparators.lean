import Verif.Model.EqualComparators
import Verif.Props.LocalSearch
/-
C334: hill climbing with comparators that accept equals.
-/
namespace Paradiseo.LS

variable {K S M F : Type}

private theorem selectBy_default [LinearOrder F] (c : Cand M F) (l : List (Cand M F)) :
    simpleSelectBy false c l = simpleSelect c l := by
  induction l generalizing c with
  | nil => rfl
  | cons d l ih => simp only [simpleSelectBy, simpleSelect, cmpBy, ih]; simp

private theorem firstBy_default [LinearOrder F] (fx : F) (c : Cand M F) (l : List (Cand M F)) :
    firstSelectBy false fx c l = firstSelect fx c l := by
  induction l generalizing c with
  | nil => rfl
  | cons d l ih => simp only [firstSelectBy, firstSelect, cmpBy, ih]; simp

/-- C334: with the comparators that do not accept equals these are the climbers of C18 and C19. -/
theorem C334_default [LinearOrder F] (nb : Nat → S × F → List (Cand M F)) (app : M → S → S) (ac : Bool) :
    simpleHCBy false false nb app = simpleHC nb app ∧ firstHCBy false ac nb app = firstHC ac nb app := by
  constructor
  · unfold simpleHCBy simpleHC
    simp only [Explorer.mk.injEq, true_and]
    refine ⟨?_, ?_, trivial⟩
    · funext t sol e
      cases nb t sol with
      | nil => rfl
      | cons c l => simp only [selectBy_default]
    · funext t sol e
      cases nb t sol with
      | nil => rfl
      | cons c l => cases e.selected <;> simp [cmpBy]
  · unfold firstHCBy firstHC
    simp only [Explorer.mk.injEq, true_and]
    refine ⟨?_, ?_, trivial⟩
    · funext t sol e
      cases nb t sol with
      | nil => rfl
      | cons c l => simp only [firstBy_default]
    · funext t sol e
      cases nb t sol with
      | nil => rfl
      | cons c l => cases e.selected <;> simp [cmpBy]

private theorem cmpBy_false [LinearOrder F] (eqs : Bool) (a b : F) (h : cmpBy eqs a b = false) : b ≤ a := by
  cases eqs <;> simp [cmpBy] at h
  · exact h
  · exact h.le

private theorem cmpBy_true [LinearOrder F] (eqs : Bool) (a b : F) (h : cmpBy eqs a b = true) : a ≤ b := by
  cases eqs <;> simp [cmpBy] at h
  · exact h.le
  · exact h

private theorem selectBy_spec [LinearOrder F] (eqN : Bool) (c : Cand M F) (l : List (Cand M F)) :
    simpleSelectBy eqN c l ∈ c :: l ∧ ∀ d ∈ c :: l, d.fit ≤ (simpleSelectBy eqN c l).fit := by
  induction l generalizing c with
  | nil => simp [simpleSelectBy]
  | cons d l ih =>
    rw [simpleSelectBy]
    cases h : cmpBy eqN c.fit d.fit with
    | false =>
      obtain ⟨h1, h2⟩ := ih c
      simp only [Bool.false_eq_true, if_false]
      refine ⟨by rcases List.mem_cons.1 h1 with h1 | h1 <;> simp [h1], ?_⟩
      intro x hx
      rcases List.mem_cons.1 hx with rfl | hx
      · exact h2 x (by simp)
      · rcases List.mem_cons.1 hx with rfl | hx
        · exact le_trans (cmpBy_false _ _ _ h) (h2 c (by simp))
        · exact h2 x (by simp [hx])
    | true =>
      obtain ⟨h1, h2⟩ := ih d
      simp only [if_true]
      refine ⟨by rcases List.mem_cons.1 h1 with h1 | h1 <;> simp [h1], ?_⟩
      intro x hx
      rcases List.mem_cons.1 hx with rfl | hx
      · exact le_trans (cmpBy_true _ _ _ h) (h2 d (by simp))
      · exact h2 x hx

/-- `c` is the last element of `l` of greatest fitness. -/
def IsLastMax [LinearOrder F] (l : List (Cand M F)) (c : Cand M F) : Prop :=
  ∃ pre post, l = pre ++ c :: post ∧ (∀ d ∈ pre, d.fit ≤ c.fit) ∧ (∀ d ∈ post, d.fit < c.fit)

/-- C334: the comparator of neighbours decides between equally good ones: the last of the best is considered instead of the
first. -/
theorem C334_last [LinearOrder F] (c : Cand M F) (l : List (Cand M F)) :
    IsLastMax (c :: l) (simpleSelectBy true c l) := by
  induction l generalizing c with
  | nil => exact ⟨[], [], rfl, by simp, by simp⟩
  | cons d l ih =>
    rw [simpleSelectBy]
    by_cases h : c.fit ≤ d.fit
    · simp only [cmpBy, if_true, h, decide_true]
      obtain ⟨pre, post, h1, h2, h3⟩ := ih d
      refine ⟨c :: pre, post, by rw [h1]; rfl, ?_, h3⟩
      intro x hx
      rcases List.mem_cons.1 hx with rfl | hx
      · exact le_trans h ((selectBy_spec true d l).2 d (by simp))
      · exact h2 x hx
    · simp only [cmpBy, if_true, h, decide_false, Bool.false_eq_true, if_false]
      obtain ⟨pre, post, h1, h2, h3⟩ := ih c
      cases pre with
      | nil =>
        simp only [List.nil_append, List.cons.injEq] at h1
        refine ⟨[], d :: post, by rw [List.nil_append, ← h1.1, h1.2], by simp, ?_⟩
        intro x hx
        rcases List.mem_cons.1 hx with rfl | hx
        · rw [← h1.1]; exact not_le.1 h
        · exact h3 x hx
      | cons a pre =>
        simp only [List.cons_append, List.cons.injEq] at h1
        refine ⟨a :: d :: pre, post, by rw [List.cons_append, List.cons_append, ← h1.2, h1.1], ?_, h3⟩
        intro x hx
        rcases List.mem_cons.1 hx with rfl | hx
        · exact h2 x (by simp)
        · rcases List.mem_cons.1 hx with rfl | hx
          · exact le_trans (not_le.1 h).le ((selectBy_spec true c l).2 c (by simp))
          · exact h2 x (by simp [hx])

private theorem firstBy_spec [LinearOrder F] (eqS : Bool) (fx : F) (c : Cand M F) (l : List (Cand M F)) :
    firstSelectBy eqS fx c l ∈ c :: l ∧
      (cmpBy eqS fx (firstSelectBy eqS fx c l).fit = false → ∀ d ∈ c :: l, cmpBy eqS fx d.fit = false) := by
  induction l generalizing c with
  | nil => simp [firstSelectBy]
  | cons d l ih =>
    rw [firstSelectBy]
    cases h : cmpBy eqS fx c.fit with
    | true => simp [h]
    | false =>
      obtain ⟨h1, h2⟩ := ih d
      simp only [Bool.false_eq_true, if_false]
      refine ⟨by simp only [List.mem_cons] at h1 ⊢; tauto, ?_⟩
      intro hf x hx
      rcases List.mem_cons.1 hx with rfl | hx
      · exact h
      · exact h2 hf x hx

/-- One iteration of a climber whose comparator of the solution accepts equals if `eqS`. -/
def StepBy [LinearOrder F] (eqS : Bool) (nb : Nat → S × F → List (Cand M F)) (app : M → S → S)
    (ex : Explorer (S × F) (HC M F)) : Prop :=
  ∀ t p, ((stepTo ex t p).2.isAccept = true ∧
      ∃ c ∈ nb t p.1, (if eqS then p.1.2 ≤ c.fit else p.1.2 < c.fit) ∧ (stepTo ex t p).1 = (app c.mv p.1.1, c.fit)) ∨
    ((stepTo ex t p).2.isAccept = false ∧ (stepTo ex t p).1 = p.1 ∧
      ∀ c ∈ nb t p.1, if eqS then c.fit < p.1.2 else c.fit ≤ p.1.2)

private theorem cmpBy_iff [LinearOrder F] (eqS : Bool) (a b : F) :
    (cmpBy eqS a b = true ↔ if eqS then a ≤ b else a < b) ∧ (cmpBy eqS a b = false ↔ if eqS then b < a else b ≤ a) := by
  cases eqS <;> simp [cmpBy]

private theorem simpleBy_step [LinearOrder F] (eqN eqS : Bool) (nb : Nat → S × F → List (Cand M F)) (app : M → S → S) :
    StepBy eqS nb app (simpleHCBy eqN eqS nb app) := by
  rintro t ⟨⟨x, fx⟩, e⟩
  cases hnb : nb t (x, fx) with
  | nil => right; simp [stepTo, lsStep, simpleHCBy, hnb]
  | cons c l =>
    obtain ⟨h1, h2⟩ := selectBy_spec eqN c l
    cases h : cmpBy eqS fx (simpleSelectBy eqN c l).fit with
    | true =>
      left
      refine ⟨?_, simpleSelectBy eqN c l, h1, (cmpBy_iff eqS _ _).1.1 h, ?_⟩ <;>
        simp [stepTo, lsStep, simpleHCBy, hnb, h, moveSel]
    | false =>
      right
      refine ⟨?_, ?_, ?_⟩
      · simp [stepTo, lsStep, simpleHCBy, hnb, h]
      · simp [stepTo, lsStep, simpleHCBy, hnb, h]
      · intro d hd
        have hs := (cmpBy_iff eqS _ _).2.1 h
        have hd' := h2 d hd
        cases eqS
        · exact le_trans hd' hs
        · exact lt_of_le_of_lt hd' hs

private theorem firstBy_step [LinearOrder F] (eqS ac : Bool) (nb : Nat → S × F → List (Cand M F)) (app : M → S → S) :
    StepBy eqS nb app (firstHCBy eqS ac nb app) := by
  rintro t ⟨⟨x, fx⟩, e⟩
  cases hnb : nb t (x, fx) with
  | nil => right; simp [stepTo, lsStep, firstHCBy, hnb]
  | cons c l =>
    obtain ⟨h1, h2⟩ := firstBy_spec eqS fx c l
    cases h : cmpBy eqS fx (firstSelectBy eqS fx c l).fit with
    | true =>
      left
      refine ⟨?_, firstSelectBy eqS fx c l, h1, (cmpBy_iff eqS _ _).1.1 h, ?_⟩ <;>
        simp [stepTo, lsStep, firstHCBy, hnb, h, moveSel]
    | false =>
      right
      refine ⟨?_, ?_, fun d hd => (cmpBy_iff eqS _ _).2.1 (h2 h d hd)⟩
      · simp [stepTo, lsStep, firstHCBy, hnb, h]
      · simp [stepTo, lsStep, firstHCBy, hnb, h]

/-- C334: one iteration of the steepest and of the first-improvement climber, whatever the comparators: it moves to a
neighbour the comparator of the solution accepts, or there is none and the solution stays. -/
theorem C334_step [LinearOrder F] (eqN eqS ac : Bool) (nb : Nat → S × F → List (Cand M F)) (app : M → S → S) :
    StepBy eqS nb app (simpleHCBy eqN eqS nb app) ∧ StepBy eqS nb app (firstHCBy eqS ac nb app) :=
  ⟨simpleBy_step eqN eqS nb app, firstBy_step eqS ac nb app⟩

private theorem run_by [LinearOrder F] {ex : Explorer (S × F) (HC M F)} {nb : Nat → S × F → List (Cand M F)}
    {app : M → S → S} (hs : StepBy true nb app ex) (hcont : ∀ s e, ex.isContinue s e = e.isAccept)
    (hterm : ∀ s e, ex.terminate s e = s)
    {f : S → F} {cont : K → S × F → Bool × K} {cinit : S × F → K} {fuel : Nat} {x : S} {fit : Option F}
    {e : HC M F} {res : S × F} {tr : List ((S × F) × HC M F)} {b : Bool}
    (h : localSearch f ex cont cinit fuel x fit e = some (res, tr, b)) :
    (∀ i a c, (solutions (x, fit.getD (f x)) tr)[i]? = some a → (solutions (x, fit.getD (f x)) tr)[i + 1]? = some c →
      a.2 ≤ c.2) ∧
    (solutions (x, fit.getD (f x)) tr).getLast? = some res ∧
    (b = true → ∀ c ∈ nb (tr.length - 1) res, c.fit < res.2) := by
  obtain ⟨n, htr, hi, hb, hres, hsol⟩ := localSearch_orbit h
  have hlen : tr.length = n + 1 := by rw [htr]; simp
  have hslen : (solutions (x, fit.getD (f x)) tr).length = n + 2 := by simp [solutions, hlen]
  rw [hterm] at hres
  refine ⟨?_, ?_, ?_⟩
  · intro i a c ha hc'
    have hlt : i + 1 < n + 2 := by
      rw [← hslen]; exact (List.getElem?_eq_some_iff.1 hc').1
    rw [hsol i (by omega)] at ha
    rw [hsol (i + 1) hlt] at hc'
    simp only [Option.some.injEq] at ha hc'
    subst ha hc'
    rw [orbit]
    rcases hs (0 + i) (orbit ex 0 _ i) with ⟨-, d, -, h3, h4⟩ | ⟨-, h4, -⟩
    · rw [h4]; simpa using h3
    · rw [h4]
  · rw [List.getLast?_eq_getElem?, hslen, hsol (n + 2 - 1) (by omega), hres]; rfl
  · intro hbt
    have hstop := hb.resolve_left (by simp [hbt])
    rw [hcont, orbit] at hstop
    rw [hlen, hres, orbit]
    rcases hs (0 + n) (orbit ex 0 _ n) with ⟨h3, -⟩ | ⟨-, h3, h4⟩
    · rw [h3] at hstop; cases hstop
    · rw [h3]
      have : n + 1 - 1 = 0 + n := by omega
      rw [this]
      simpa using h4

/-- C334: when the comparator of the solution accepts equals, no iteration makes the solution worse, the result is the last
solution, and if the search ended by itself every neighbour of the result is strictly worse. -/
theorem C334_strict [LinearOrder F] (eqN : Bool) {nb : Nat → S × F → List (Cand M F)} {app : M → S → S} {first : Bool}
    {f : S → F} {cont : K → S × F → Bool × K} {cinit : S × F → K} {fuel : Nat} {x : S} {fit : Option F}
    {e : HC M F} {res : S × F} {tr : List ((S × F) × HC M F)} {b : Bool}
    (h : localSearch f (if first then firstHCBy true false nb app else simpleHCBy eqN true nb app) cont cinit fuel x fit e =
      some (res, tr, b)) :
    (∀ i a c, (solutions (x, fit.getD (f x)) tr)[i]? = some a → (solutions (x, fit.getD (f x)) tr)[i + 1]? = some c →
      a.2 ≤ c.2) ∧
    (solutions (x, fit.getD (f x)) tr).getLast? = some res ∧
    (b = true → ∀ c ∈ nb (tr.length - 1) res, c.fit < res.2) := by
  cases first
  · exact run_by (simpleBy_step eqN true nb app) (fun _ _ => rfl) (fun _ _ => rfl) h
  · exact run_by (firstBy_step true false nb app) (fun _ _ => rfl) (fun _ _ => rfl) h

private theorem loop_none [LinearOrder F] {ex : Explorer (S × F) (HC M F)} {nb : Nat → S × F → List (Cand M F)}
    {app : M → S → S} (hs : StepBy true nb app ex) (hcont : ∀ s e, ex.isContinue s e = e.isAccept)
    (P : S × F → Prop) (hex : ∀ t s, P s → ∃ c ∈ nb t s, s.2 ≤ c.fit)
    (hcl : ∀ t s, P s → ∀ c ∈ nb t s, s.2 ≤ c.fit → P (app c.mv s.1, c.fit))
    (cont : K → S × F → Bool × K) (hk : ∀ k s, (cont k s).1 = true) (fuel : Nat) :
    ∀ t s e k, P s → lsLoop ex cont fuel t s e k = none := by
  induction fuel with
  | zero => intro t s e k _; rfl
  | succ fuel ih =>
    intro t s e k hp
    have hst := hs t (s, e)
    simp only [stepTo] at hst
    rcases hst with ⟨h1, c, h2, h3, h4⟩ | ⟨-, -, h3⟩
    · have hp' : P (lsStep ex t s e).1 := by
        rw [h4]; exact hcl t s hp c h2 (by simpa using h3)
      rw [lsLoop]
      simp only [hk, hcont, h1, Bool.and_self, if_true]
      rw [ih _ _ _ _ hp']
      rfl
    · obtain ⟨c, hc, hle⟩ := hex t s hp
      have := h3 c hc
      simp only [if_true] at this
      exact absurd hle (not_le.2 this)

/-- C334: such a climber that is only stopped by itself never ends from a solution on a plateau: if from every solution of a
set there is a neighbour at least as good, and all such neighbours are in the set, then it is still running after any number
of iterations, whereas the strict climber of C19 ends on every finite space. -/
theorem C334_never [LinearOrder F] (eqN first : Bool) (nb : Nat → S × F → List (Cand M F)) (app : M → S → S)
    (P : S × F → Prop) (hex : ∀ t s, P s → ∃ c ∈ nb t s, s.2 ≤ c.fit)
    (hcl : ∀ t s, P s → ∀ c ∈ nb t s, s.2 ≤ c.fit → P (app c.mv s.1, c.fit))
    (f : S → F) (cont : K → S × F → Bool × K) (hk : ∀ k s, (cont k s).1 = true) (cinit : S × F → K) (fuel : Nat)
    (x : S) (fit : Option F) (e : HC M F) (hx : P (x, fit.getD (f x))) :
    localSearch f (if first then firstHCBy true false nb app else simpleHCBy eqN true nb app) cont cinit fuel x fit e =
      none := by
  unfold localSearch
  dsimp only
  cases first
  · simp only [Bool.false_eq_true, if_false]
    rw [loop_none (simpleBy_step eqN true nb app) (fun _ _ => rfl) P hex hcl cont hk fuel _ _ _ _ hx]
    rfl
  · simp only [if_true]
    rw [loop_none (firstBy_step true false nb app) (fun _ _ => rfl) P hex hcl cont hk fuel _ _ _ _ hx]
    rfl

/-! Two solutions of fitness 3 that are neighbours of each other: both hypotheses of `C334_never` hold for the set of the
two. -/

private def flip2 : Nat → Bool × Nat → List (Cand Unit Nat) := fun _ _ => [⟨(), 3⟩]

example : ∀ (t : Nat) (s : Bool × Nat), s.2 = 3 → ∃ c ∈ flip2 t s, s.2 ≤ c.fit := by
  intro t s h; exact ⟨⟨(), 3⟩, by simp [flip2], by rw [h]⟩

example : ∀ (t : Nat) (s : Bool × Nat), s.2 = 3 → ∀ c ∈ flip2 t s, s.2 ≤ c.fit →
    (fun s : Bool × Nat => s.2 = 3) ((fun (_ : Unit) (b : Bool) => !b) c.mv s.1, c.fit) := by
  intro t s _ c hc _; simp only [flip2, List.mem_singleton] at hc; rw [hc]

/-- From 0, moves to 1, 2 and so on with fitness 1, 2, 2, then only worse ones: the climber ends at 3. -/
private def line : Nat → Nat × Nat → List (Cand Nat Nat) := fun _ s =>
  if s.1 < 3 then [⟨s.1 + 1, min (s.1 + 1) 2⟩] else [⟨0, 0⟩, ⟨1, 1⟩]

example : (localSearch (fun x => min x 2) (simpleHCBy true true line (fun m _ => m)) (fun (_ : Unit) _ => (true, ()))
    (fun _ => ()) 9 0 none ⟨none, [], false, 0⟩).map (fun r => (r.1, r.2.1.length, r.2.2)) = some ((3, 2), 4, true) := by
  decide

end Paradiseo.LS
