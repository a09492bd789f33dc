/-
C355: adapters of operators and foreign individuals.  C356: the estimation of distribution algorithm of EO.
-/
import Verif.Model.OpAdapters
import Verif.Props.Persist

namespace Paradiseo.OpAdapters

open Paradiseo.Persist

/-! ### C355: operators -/

section
variable {X σ : Type}

/-- An operator that says `false` only if it has changed nothing. -/
def TrueMon (m : MonOp X σ) : Prop := ∀ x s, (m x s).2.1 = false → (m x s).1 = x
def TrueBin (b : BinOp X σ) : Prop := ∀ x y s, (b x y s).2.1 = false → (b x y s).1 = x
def TrueQuad (q : QuadOp X σ) : Prop := ∀ x y s, (q x y s).2.2.1 = false → (q x y s).1 = x ∧ (q x y s).2.1 = y

/-- An operator that treats its two individuals alike: exchanging them exchanges the results. -/
def Alike (q : QuadOp X σ) : Prop := ∀ x y s, (q y x s).1 = (q x y s).2.1 ∧ (q y x s).2.1 = (q x y s).1

/-- **C355** (truth).  The adapters tell the truth about changes if what they adapt does. -/
theorem C355_truth (flip : σ → Bool × σ) (q : QuadOp X σ) (m : MonOp X σ) :
    (TrueQuad q → TrueBin (quad2bin flip q)) ∧ (TrueMon m → TrueQuad (mon2quad1 m) ∧ TrueQuad (mon2quad2 m)) := by
  refine ⟨fun h x y s hf => ?_, fun h => ⟨fun x y s hf => ⟨h x s hf, rfl⟩, fun x y s hf => ⟨rfl, h y s hf⟩⟩⟩
  unfold quad2bin at hf ⊢
  cases hc : (flip s).1 with
  | true =>
    simp only [hc, if_true] at hf ⊢
    exact (h _ _ _ hf).1
  | false =>
    simp only [hc] at hf ⊢
    exact (h _ _ _ hf).2

/-- **C355** (the coin).  For an operator that treats both individuals alike the coin of the adapter chooses nothing: the child is always
the one made from the first individual, never the other one. -/
theorem C355_coin (flip : σ → Bool × σ) (q : QuadOp X σ) (h : Alike q) (x y : X) (s : σ) :
    (quad2bin flip q x y s).1 = (q x y (flip s).2).1 := by
  unfold quad2bin
  cases hc : (flip s).1 with
  | true => simp [hc]
  | false => simpa [hc] using (h x y _).2

/-- **C355** (children).  Whatever always holds between two parents and both children of the operator holds between the parents and the child of the
adapter, if it does not matter which parent is which. -/
theorem C355_child (flip : σ → Bool × σ) (q : QuadOp X σ) (R : X → X → X → Prop) (hsym : ∀ a b c, R a b c → R b a c)
    (h : ∀ x y s, R x y (q x y s).1 ∧ R x y (q x y s).2.1) (x y : X) (s : σ) : R x y (quad2bin flip q x y s).1 := by
  unfold quad2bin
  cases hc : (flip s).1 with
  | true => simpa [hc] using (h x y _).1
  | false => simpa [hc] using hsym _ _ _ (h y x _).2

/-- **C355** (one-sided operators).  The two adapters for operators on one individual change one individual by that operator and never the other. Adapted
once more they change the individual or only a copy that is thrown away, as the coin falls; in the second case the individual is the same as before,
but is said to be changed whenever the copy was. -/
theorem C355_mon (flip : σ → Bool × σ) (m : MonOp X σ) (x y : X) (s : σ) :
    ((mon2quad1 m x y s).1 = (m x s).1 ∧ (mon2quad1 m x y s).2.1 = y ∧
      (mon2quad2 m x y s).1 = x ∧ (mon2quad2 m x y s).2.1 = (m y s).1) ∧
    ((flip s).1 = true → (quad2bin flip (mon2quad1 m) x y s) = m x (flip s).2) ∧
    ((flip s).1 = false → (quad2bin flip (mon2quad1 m) x y s).1 = x ∧
      (quad2bin flip (mon2quad1 m) x y s).2.1 = (m y (flip s).2).2.1) := by
  refine ⟨⟨rfl, rfl, rfl, rfl⟩, fun h => ?_, fun h => ?_⟩
  · simp [quad2bin, mon2quad1, h]
  · simp [quad2bin, mon2quad1, h]

/-- One-point crossover of pairs treats both alike and tells the truth. -/
def swapTail : QuadOp (Nat × Nat) Unit := fun x y _ => ((x.1, y.2), (y.1, x.2), decide (x ≠ y), ())

example : Alike swapTail ∧ TrueQuad swapTail := by
  refine ⟨fun x y s => ⟨rfl, rfl⟩, fun x y s h => ?_⟩
  have hxy : x = y := by simpa [swapTail] using h
  subst hxy
  exact ⟨rfl, rfl⟩

end

/-! ### C355: foreign individuals -/

section
variable {F E σ : Type}

/-- A fitness that is there is that of the object. -/
def Right (eval : E → F) (x : Ext F E) : Prop := ∀ f, x.head.fitness = some f → f = eval x.ext

/-- **C355** (text).  A foreign individual comes back from its text if the foreign object does and its fitness is written as one word. -/
theorem C355_text (ff : FitFmt F) (pe : E → Text) (re : E → Str → Except EO.Err (E × Str)) (x : Ext F E)
    (hf : HeadGood ff x.head) (he : Restores pe re (fun a b => b = a) x.ext) :
    Restores (extPrint ff pe) (extRead ff re) (fun a b => b.ext = a.ext ∧ b.head.fitness = a.head.fitness) x := by
  intro old s r hr hs
  obtain ⟨h, h1, h2⟩ := eoRead_print ff x.head old.head hf s (pe x.ext ++ r) (by rw [hs]; simp [extPrint])
  obtain ⟨e, r', h3, h4, h5⟩ := he old.ext (' ' :: (pe x.ext ++ r)) r hr (skip_cons blank _)
  refine ⟨⟨h, e⟩, r', ?_, ⟨h4, h2⟩, h5⟩
  rw [extRead, h1]
  simp only [h3]

/-- **C355** (evaluation and initialisation).  An initialised individual holds what the function gave and has no fitness; an evaluated one has the
object it had before and, if its fitness was right, the fitness of the object; evaluating again changes nothing. -/
theorem C355_eval (eval : E → F) (init : σ → E × σ) (x : Ext F E) (s : σ) :
    ((extInit init x s).1.ext = (init s).1 ∧ (extInit init x s).1.head.fitness = none) ∧
    ((extEval eval x).ext = x.ext ∧ (Right eval x → (extEval eval x).head.fitness = some (eval x.ext))) ∧
    extEval eval (extEval eval x) = extEval eval x ∧
    (extEval eval (extInit init x s).1).head.fitness = some (eval (init s).1) := by
  refine ⟨⟨rfl, rfl⟩, ⟨?_, fun h => ?_⟩, ?_, rfl⟩
  · unfold extEval
    cases x.head.invalid <;> rfl
  · cases hi : x.head.invalid with
    | true => simp [extEval, hi, Head.fitness]
    | false =>
      have := h x.head.rep (by simp [Head.fitness, hi])
      simp [extEval, hi, Head.fitness, ← this]
  · cases hi : x.head.invalid with
    | true => simp [extEval, hi]
    | false => simp [extEval, hi]

/-- **C355** (a fitness is kept).  An individual which has a fitness is left as it is, right or wrong. -/
theorem C355_kept (eval : E → F) (x : Ext F E) (v : F) (h : x.head.fitness = some v) : extEval eval x = x := by
  cases hi : x.head.invalid with
  | true => simp [Head.fitness, hi] at h
  | false => simp [extEval, hi]

example : extEval (fun n : Nat => n) ⟨⟨7, false⟩, 3⟩ = ⟨⟨7, false⟩, 3⟩ := C355_kept _ _ 7 rfl

/-- **C355** (operators).  The operators do to the objects what the functions do and leave the fitness alone, so that a fitness which was right is wrong
after a change until the individual is invalidated; if the functions tell the truth, then invalidating the individuals whenever the operator says
`true` keeps every fitness right. -/
theorem C355_stale (eval : E → F) (m : MonOp E σ) (b : BinOp E σ) (q : QuadOp E σ) (x y : Ext F E) (s : σ)
    (hx : Right eval x) (hy : Right eval y) :
    (TrueMon m → Right eval (invalidateIf (extMon m x s).2.1 (extMon m x s).1)) ∧
    (TrueBin b → Right eval (invalidateIf (extBin b x y s).2.1 (extBin b x y s).1)) ∧
    (TrueQuad q → Right eval (invalidateIf (extQuad q x y s).2.2.1 (extQuad q x y s).1) ∧
      Right eval (invalidateIf (extQuad q x y s).2.2.1 (extQuad q x y s).2.1)) ∧
    ((extMon m x s).1.head = x.head ∧ (extMon m x s).1.ext = (m x.ext s).1 ∧ (extMon m x s).2 = (m x.ext s).2) ∧
    ((extBin b x y s).1.head = x.head ∧ (extBin b x y s).1.ext = (b x.ext y.ext s).1 ∧
      (extBin b x y s).2 = (b x.ext y.ext s).2) ∧
    ((extQuad q x y s).1.head = x.head ∧ (extQuad q x y s).2.1.head = y.head ∧
      (extQuad q x y s).1.ext = (q x.ext y.ext s).1 ∧ (extQuad q x y s).2.1.ext = (q x.ext y.ext s).2.1 ∧
      (extQuad q x y s).2.2 = (q x.ext y.ext s).2.2) := by
  have key : ∀ (z : Ext F E) (e : E) (c : Bool), Right eval z → (c = false → e = z.ext) →
      Right eval (invalidateIf c { z with ext := e }) := by
    intro z e c hz he f hf
    cases c with
    | true => simp [invalidateIf, Head.fitness] at hf
    | false =>
      rw [he rfl] at hf ⊢
      exact hz f (by simpa [invalidateIf] using hf)
  exact ⟨fun h => key x _ _ hx fun hc => h _ _ hc, fun h => key x _ _ hx fun hc => h _ _ _ hc,
    fun h => ⟨key x _ _ hx fun hc => (h _ _ _ hc).1, key y _ _ hy fun hc => (h _ _ _ hc).2⟩,
    ⟨rfl, rfl, rfl⟩, ⟨rfl, rfl, rfl⟩, rfl, rfl, rfl, rfl, rfl⟩

/-- A number as foreign object. -/
example (ff : FitFmt F) (x : Ext F Nat) (hf : HeadGood ff x.head) :
    Restores (extPrint ff natFmt.out)
      (extRead ff fun _ s => match get natFmt s with | (none, _) => .error .ub | (some n, s1) => .ok (n, s1))
      (fun a b => b.ext = a.ext ∧ b.head.fitness = a.head.fitness) x := by
  refine C355_text ff _ _ x hf fun old s r hr hs => ?_
  have h := get_good (nat_good x.ext) hr hs
  refine ⟨x.ext, r, ?_, rfl, rfl⟩
  simp only [h]

end

/-! ### C356 -/

section
variable {X Δ σ κ : Type}

/-- `n` individuals drawn one after the other. -/
def sample (draw : Δ → σ → X × σ) (d : Δ) : Nat → σ → List X × σ
  | 0, s => ([], s)
  | n + 1, s => ((draw d s).1 :: (sample draw d n (draw d s).2).1, (sample draw d n (draw d s).2).2)

/-- The runs of an algorithm that draws, evaluates and updates until the continuator says no: from a distribution, a state of the random numbers and
of the continuator, the populations in order, to the final ones. -/
inductive Runs (draw : Δ → σ → X × σ) (eval : X → X) (update : Δ → List X → Δ) (cont : κ → List X → Bool × κ) (popSize : Nat) :
    Δ → σ → κ → List (List X) → Δ → σ → κ → Prop
  | last (d s k pop s' k') : ((sample draw d popSize s).1.map eval) = pop → (sample draw d popSize s).2 = s' →
      cont k pop = (false, k') → Runs draw eval update cont popSize d s k [pop] (update d pop) s' k'
  | more (d s k pop s' k' pops df sf kf) : ((sample draw d popSize s).1.map eval) = pop → (sample draw d popSize s).2 = s' →
      cont k pop = (true, k') → Runs draw eval update cont popSize (update d pop) s' k' pops df sf kf →
      Runs draw eval update cont popSize d s k (pop :: pops) df sf kf

/-- A distribution that overwrites the individual it is given. -/
def Overwrites (draw : Δ → X → σ → X × σ) (draw' : Δ → σ → X × σ) : Prop := ∀ d x s, draw d x s = draw' d s

theorem drawAll_sample (draw : Δ → X → σ → X × σ) (draw' : Δ → σ → X × σ) (h : Overwrites draw draw') (d : Δ) :
    ∀ (l : List X) (s : σ), drawAll draw d l s = sample draw' d l.length s
  | [], _ => rfl
  | x :: l, s => by
    rw [drawAll, drawAll_sample draw draw' h d l, h d x s]
    rfl

theorem length_sample (draw : Δ → σ → X × σ) (d : Δ) : ∀ (n : Nat) (s : σ), (sample draw d n s).1.length = n
  | 0, _ => rfl
  | n + 1, s => by simp [sample, length_sample draw d n]

theorem edaLoop_iff (A : Eda X Δ σ κ) (draw' : Δ → σ → X × σ) (h : Overwrites A.draw draw') (popSize : Nat) :
    ∀ (fuel : Nat) (d : Δ) (pop : List X) (s : σ) (k : κ) (seen pops : List (List X)) (df : Δ) (sf : σ) (kf : κ),
      pop.length = popSize →
      (edaLoop A fuel d pop s k seen = some (df, sf, kf, seen ++ pops) ↔
        pops.length ≤ fuel ∧ Runs draw' A.eval A.update A.cont popSize d s k pops df sf kf) := by
  intro fuel
  induction fuel with
  | zero =>
    intro d pop s k seen pops df sf kf _
    refine ⟨fun h => by simp [edaLoop] at h, fun ⟨h1, h2⟩ => ?_⟩
    cases h2 <;> simp at h1
  | succ n ih =>
    intro d pop s k seen pops df sf kf hl
    rw [edaLoop]
    simp only [drawAll_sample A.draw draw' h d pop s, hl]
    generalize hp : (sample draw' d popSize s).1.map A.eval = pop1
    generalize hs : (sample draw' d popSize s).2 = s1
    have hl1 : pop1.length = popSize := by rw [← hp, List.length_map, length_sample]
    generalize hc : A.cont k pop1 = c
    obtain ⟨c1, k1⟩ := c
    cases c1 with
    | false =>
      simp only [Bool.false_eq_true, if_false, Option.some.injEq, Prod.mk.injEq, List.append_cancel_left_eq]
      constructor
      · rintro ⟨rfl, rfl, rfl, rfl⟩
        exact ⟨by simp, .last _ _ _ _ _ _ hp hs hc⟩
      · rintro ⟨-, hr⟩
        cases hr with
        | last _ _ _ pop' _ _ g1 g2 g3 =>
          rw [hp] at g1; subst g1
          rw [hs] at g2; subst g2
          rw [hc] at g3
          simp only [Prod.mk.injEq, true_and] at g3
          subst g3
          exact ⟨rfl, rfl, rfl, rfl⟩
        | more _ _ _ pop' _ _ _ _ _ _ g1 g2 g3 _ =>
          rw [hp] at g1; subst g1
          rw [hc] at g3
          simp at g3
    | true =>
      simp only [if_true]
      constructor
      · intro hr
        have hpre : ∃ rest, pops = pop1 :: rest := by
          have : ∀ (fuel : Nat) (d : Δ) (pop : List X) (s : σ) (k : κ) (seen : List (List X)) r,
              edaLoop A fuel d pop s k seen = some r → ∃ rest, r.2.2.2 = seen ++ rest := by
            intro fuel
            induction fuel with
            | zero => intro d pop s k seen r h; simp [edaLoop] at h
            | succ n ih =>
              intro d pop s k seen r h
              rw [edaLoop] at h
              split at h
              · obtain ⟨rest, hr⟩ := ih _ _ _ _ _ _ h
                exact ⟨_, by rw [hr, List.append_assoc]⟩
              · simp only [Option.some.injEq] at h
                exact ⟨_, by rw [← h]⟩
          obtain ⟨rest, hr'⟩ := this _ _ _ _ _ _ _ hr
          simp only [List.append_assoc, List.append_cancel_left_eq] at hr'
          exact ⟨rest, by simpa using hr'⟩
        obtain ⟨rest, rfl⟩ := hpre
        have e : seen ++ pop1 :: rest = (seen ++ [pop1]) ++ rest := by simp
        rw [e] at hr
        obtain ⟨h1, h2⟩ := (ih _ _ _ _ _ _ _ _ _ hl1).1 hr
        exact ⟨by simpa using h1, .more _ _ _ _ _ _ _ _ _ _ hp hs hc h2⟩
      · rintro ⟨hle, hr⟩
        cases hr with
        | last _ _ _ pop' _ _ g1 g2 g3 =>
          rw [hp] at g1; subst g1
          rw [hc] at g3
          simp at g3
        | more _ _ _ pop' _ _ rest _ _ _ g1 g2 g3 g4 =>
          rw [hp] at g1; subst g1
          rw [hs] at g2; subst g2
          rw [hc] at g3
          simp only [Prod.mk.injEq, true_and] at g3
          subst g3
          have e : seen ++ pop1 :: rest = (seen ++ [pop1]) ++ rest := by simp
          rw [e]
          exact (ih _ _ _ _ _ _ _ _ _ hl1).2 ⟨by simpa using hle, g4⟩

/-- **C356** (the algorithm).  With a distribution that overwrites the individuals it is given, the algorithm is what it says it is - draw a population
from the distribution, evaluate it, update the distribution with it, until the continuator says no - from the state of the random numbers after one more
population, which is drawn before the loop and never looked at. -/
theorem C356_runs (A : Eda X Δ σ κ) (draw' : Δ → σ → X × σ) (h : Overwrites A.draw draw') (dflt : X) (popSize : Nat) (d : Δ)
    (s : σ) (k : κ) (pops : List (List X)) (df : Δ) (sf : σ) (kf : κ) :
    (∃ fuel, simpleEda A dflt popSize fuel d s k = some (df, sf, kf, pops)) ↔
      Runs draw' A.eval A.update A.cont popSize d (sample draw' d popSize s).2 k pops df sf kf := by
  have e : ∀ fuel, simpleEda A dflt popSize fuel d s k =
      edaLoop A fuel d (sample draw' d popSize s).1 (sample draw' d popSize s).2 k [] := by
    intro fuel
    rw [simpleEda]
    simp only [drawAll_sample A.draw draw' h d (List.replicate popSize dflt) s, List.length_replicate]
  constructor
  · rintro ⟨fuel, hr⟩
    rw [e] at hr
    exact ((edaLoop_iff A draw' h popSize fuel d _ _ k [] pops df sf kf (length_sample _ _ _ _)).1 hr).2
  · intro hr
    refine ⟨pops.length, ?_⟩
    rw [e]
    exact (edaLoop_iff A draw' h popSize pops.length d _ _ k [] pops df sf kf (length_sample _ _ _ _)).2 ⟨le_rfl, hr⟩

theorem runs_spec (draw : Δ → σ → X × σ) (eval : X → X) (update : Δ → List X → Δ) (cont : κ → List X → Bool × κ) (popSize : Nat)
    {d : Δ} {s : σ} {k : κ} {pops : List (List X)} {df : Δ} {sf : σ} {kf : κ}
    (h : Runs draw eval update cont popSize d s k pops df sf kf) :
    pops ≠ [] ∧ df = pops.foldl update d ∧ ∀ pop ∈ pops, pop.length = popSize ∧ ∃ l : List X, pop = l.map eval := by
  induction h with
  | last d s k pop s' k' h1 _ _ =>
    refine ⟨by simp, rfl, ?_⟩
    simp only [List.mem_singleton, forall_eq]
    exact ⟨by rw [← h1, List.length_map, length_sample], _, h1.symm⟩
  | more d s k pop s' k' pops df sf kf h1 _ _ _ ih =>
    obtain ⟨-, i2, i3⟩ := ih
    refine ⟨by simp, by rw [i2]; rfl, ?_⟩
    intro p hp
    rcases List.mem_cons.1 hp with rfl | hp
    · exact ⟨by rw [← h1, List.length_map, length_sample], _, h1.symm⟩
    · exact i3 p hp

/-- **C356** (numbers).  A run that ends has had at least one generation; the distribution is the first one updated with the populations in order; each
population has the given size and consists of evaluated individuals.  With a distribution that counts, the individuals drawn are the population size times one more
than the number of generations. -/
theorem C356_numbers (A : Eda X Δ Nat κ) (draw' : Δ → Nat → X × Nat) (h : Overwrites A.draw draw')
    (hcount : ∀ d n, (draw' d n).2 = n + 1) (dflt : X) (popSize fuel : Nat) (d : Δ) (k : κ) (pops : List (List X)) (df : Δ)
    (drawn : Nat) (kf : κ) (hr : simpleEda A dflt popSize fuel d 0 k = some (df, drawn, kf, pops)) :
    pops ≠ [] ∧ df = pops.foldl A.update d ∧ (∀ pop ∈ pops, pop.length = popSize ∧ ∃ l : List X, pop = l.map A.eval) ∧
    drawn = popSize * (pops.length + 1) := by
  have hrun := (C356_runs A draw' h dflt popSize d 0 k pops df drawn kf).1 ⟨fuel, hr⟩
  obtain ⟨h1, h2, h3⟩ := runs_spec _ _ _ _ _ hrun
  refine ⟨h1, h2, h3, ?_⟩
  have hs : ∀ (d : Δ) (n s : Nat), (sample draw' d n s).2 = s + n := by
    intro d n
    induction n with
    | zero => intro s; rfl
    | succ n ih => intro s; rw [sample, ih, hcount]; omega
  have key : ∀ {d : Δ} {s : Nat} {k : κ} {pops : List (List X)} {df : Δ} {sf : Nat} {kf : κ},
      Runs draw' A.eval A.update A.cont popSize d s k pops df sf kf → sf = s + popSize * pops.length := by
    intro d s k pops df sf kf hr
    induction hr with
    | last d s k pop s' k' _ g _ => rw [← g, hs]; simp
    | more d s k pop s' k' pops df sf kf _ g _ _ ih =>
      rw [ih, ← g, hs, List.length_cons, Nat.mul_add]; omega
  rw [key hrun, hs, Nat.mul_add]
  omega

/-- Two generations of three: nine draws. -/
example :
    let A : Eda Nat Nat Nat Nat := ⟨fun d _ s => (d + s, s + 1), fun x => x * 10, fun d p => d + p.length, fun k _ => (decide (k < 1), k + 1)⟩
    Overwrites A.draw (fun d s => (d + s, s + 1)) ∧
    simpleEda A 0 3 5 100 0 0 = some (106, 9, 2, [[1030, 1040, 1050], [1090, 1100, 1110]]) :=
  ⟨fun _ _ _ => rfl, by decide +kernel⟩

end

end Paradiseo.OpAdapters
