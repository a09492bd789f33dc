import Verif.Props.Velocity
import Mathlib.Tactic.Linarith
import Mathlib.Tactic.Ring
import Mathlib.Order.Monotone.Basic
import Mathlib.Algebra.Module.LinearMap.Defs

/-!
# Particle swarms and changes of coordinates (C394)

Two swarm algorithms, the second on the first problem written in other coordinates, with transformed bounds and
any increasing transformation of the fitness, make the same run.
-/

namespace Paradiseo.Pso

variable {F F' : Type} [LinearOrder F] [LinearOrder F']

/-- A particle written in other coordinates: positions by `κ`, velocities by `μ`, fitnesses by `φ`. -/
def recoord (φ : F → F') (κ μ : Vec → Vec) (p : Part F) : Part F' :=
  { pos := κ p.pos, vel := μ p.vel, bestPos := κ p.bestPos, fit := p.fit.map φ, best := φ p.best }

/-- A swarm written in other coordinates. -/
def recoordAll (φ : F → F') (κ μ : Vec → Vec) (s : Swarm F) : Swarm F' :=
  { pop := fun i => recoord φ κ μ (s.pop i), nb := fun k => recoord φ κ μ (s.nb k) }

/-- The second algorithm has the same particles and topology, and its velocity, its flight and its evaluation
function are those of the first one in other coordinates. -/
structure SameSwarm (φ : F → F') (κ μ : Vec → Vec) (A : Algo F) (A' : Algo F') : Prop where
  n : A'.n = A.n
  topo : A'.topo = A.topo
  velo : ∀ g i p lb, A'.velo g i (recoord φ κ μ p) (recoord φ κ μ lb) = μ (A.velo g i p lb)
  fly : ∀ g i x v, A'.fly g i (κ x) (μ v) = κ (A.fly g i x v)
  eval : ∀ x, A'.eval (κ x) = φ (A.eval x)

section
variable {φ : F → F'} {κ μ : Vec → Vec} {A : Algo F} {A' : Algo F'}

private theorem update_recoord (f : Nat → Part F) (i : Nat) (p : Part F) :
    (fun k => recoord φ κ μ (Function.update f i p k)) =
      Function.update (fun k => recoord φ κ μ (f k)) i (recoord φ κ μ p) := by
  funext k
  by_cases h : k = i
  · subst h; simp
  · simp [h]

private theorem veloOne_recoord (h : SameSwarm φ κ μ A A') (g : Nat) (s : Swarm F) (i : Nat) :
    A'.veloOne g (recoordAll φ κ μ s) i = recoordAll φ κ μ (A.veloOne g s i) := by
  simp only [Algo.veloOne, recoordAll, update_recoord, h.topo, h.velo]
  rfl

private theorem flyOne_recoord (h : SameSwarm φ κ μ A A') (g : Nat) (s : Swarm F) (i : Nat) :
    A'.flyOne g (recoordAll φ κ μ s) i = recoordAll φ κ μ (A.flyOne g s i) := by
  simp only [Algo.flyOne, recoordAll, update_recoord]
  simp only [recoord, h.fly, Option.map_none]

private theorem evalOne_recoord (h : SameSwarm φ κ μ A A') (s : Swarm F) (i : Nat) :
    A'.evalOne (recoordAll φ κ μ s) i = recoordAll φ κ μ (A.evalOne s i) := by
  simp only [Algo.evalOne, recoordAll, update_recoord]
  simp only [recoord, h.eval, Option.map_some]

private theorem personal_recoord (hφ : StrictMono φ) (p : Part F) :
    personal (recoord φ κ μ p) = (personal p).map (recoord φ κ μ) := by
  obtain ⟨x, v, y, f, b⟩ := p
  cases f with
  | none => rfl
  | some f =>
    by_cases hb : b < f <;> simp [personal, recoord, hφ.lt_iff_lt, hb]

private theorem improve_recoord (hφ : StrictMono φ) (p : Part F) (nb : Nat → Part F) (k : Nat) :
    improve (recoord φ κ μ p) (fun k => recoord φ κ μ (nb k)) k =
      (improve p nb k).map fun nb k => recoord φ κ μ (nb k) := by
  have e1 : (recoord φ κ μ p).fit = p.fit.map φ := rfl
  have e2 : (recoord φ κ μ (nb k)).fit = (nb k).fit.map φ := rfl
  unfold improve
  rw [e1, e2]
  cases p.fit with
  | none => rfl
  | some f =>
    cases (nb k).fit with
    | none => rfl
    | some g =>
      by_cases hb : g < f
      · simp [hφ.lt_iff_lt, hb, update_recoord]
      · simp [hφ.lt_iff_lt, hb]

private theorem improveAll_recoord (hφ : StrictMono φ) (p : Part F) (l : List Nat) :
    ∀ nb : Nat → Part F, improveAll (recoord φ κ μ p) l (fun k => recoord φ κ μ (nb k)) =
      (improveAll p l nb).map fun nb k => recoord φ κ μ (nb k) := by
  induction l with
  | nil => intro nb; rfl
  | cons k ks ih =>
    intro nb
    simp only [improveAll, improve_recoord hφ]
    cases improve p nb k with
    | none => rfl
    | some nb' => exact ih nb'

private theorem updateNbh_recoord (hφ : StrictMono φ) (T : Topo) (s : Swarm F) (i : Nat) :
    updateNbh T (recoordAll φ κ μ s) i = (updateNbh T s i).map (recoordAll φ κ μ) := by
  have e : personal ((recoordAll φ κ μ s).pop i) = (personal (s.pop i)).map (recoord φ κ μ) :=
    personal_recoord hφ _
  unfold updateNbh
  rw [e]
  cases personal (s.pop i) with
  | none => rfl
  | some p =>
    have e' : improveAll (recoord φ κ μ p) (T.targets i) (recoordAll φ κ μ s).nb = _ :=
      improveAll_recoord hφ p (T.targets i) s.nb
    simp only [Option.map_some, e']
    cases improveAll p (T.targets i) s.nb with
    | none => rfl
    | some nb => simp [recoordAll, update_recoord]

private theorem foldM_recoord {f : Swarm F → Nat → Option (Swarm F)} {f' : Swarm F' → Nat → Option (Swarm F')}
    (h : ∀ s i, f' (recoordAll φ κ μ s) i = (f s i).map (recoordAll φ κ μ)) (l : List Nat) :
    ∀ s, foldM? f' l (recoordAll φ κ μ s) = (foldM? f l s).map (recoordAll φ κ μ) := by
  induction l with
  | nil => intro s; rfl
  | cons i is ih =>
    intro s
    simp only [foldM?, h]
    cases f s i with
    | none => rfl
    | some t => exact ih t

private theorem foldl_recoord {f : Swarm F → Nat → Swarm F} {f' : Swarm F' → Nat → Swarm F'}
    (h : ∀ s i, f' (recoordAll φ κ μ s) i = recoordAll φ κ μ (f s i)) (l : List Nat) :
    ∀ s, l.foldl f' (recoordAll φ κ μ s) = recoordAll φ κ μ (l.foldl f s) := by
  induction l with
  | nil => intro s; rfl
  | cons i is ih => intro s; simp only [List.foldl_cons, h, ih]

private theorem genAsync_recoord (hφ : StrictMono φ) (h : SameSwarm φ κ μ A A') (g : Nat) (s : Swarm F) :
    A'.genAsync g (recoordAll φ κ μ s) = (A.genAsync g s).map (recoordAll φ κ μ) := by
  unfold Algo.genAsync
  rw [h.n]
  refine foldM_recoord (fun s i => ?_) _ s
  rw [veloOne_recoord h, flyOne_recoord h, evalOne_recoord h, h.topo, updateNbh_recoord hφ]

private theorem genSync_recoord (hφ : StrictMono φ) (h : SameSwarm φ κ μ A A') (g : Nat) (s : Swarm F) :
    A'.genSync g (recoordAll φ κ μ s) = (A.genSync g s).map (recoordAll φ κ μ) := by
  simp only [Algo.genSync, h.n, h.topo, foldl_recoord (veloOne_recoord h g), foldl_recoord (flyOne_recoord h g),
    foldl_recoord (evalOne_recoord h)]
  exact foldM_recoord (updateNbh_recoord hφ A.topo) _ _

private theorem run_recoord {gen : Nat → Swarm F → Option (Swarm F)} {gen' : Nat → Swarm F' → Option (Swarm F')}
    (h : ∀ g s, gen' g (recoordAll φ κ μ s) = (gen g s).map (recoordAll φ κ μ)) (K : Nat) (s : Swarm F) :
    Algo.run gen' K (recoordAll φ κ μ s) = (Algo.run gen K s).map (recoordAll φ κ μ) := by
  induction K with
  | zero => rfl
  | succ K ih =>
    simp only [Algo.run, ih]
    cases Algo.run gen K s with
    | none => rfl
    | some t => exact h K t

/-- **C394.** Both algorithms, with any topology, any velocity and any flight: on the problem in other
coordinates, with any increasing transformation of the fitness, every run is the run on the first problem written
in the other coordinates: it ends in an exception exactly if that one does. -/
theorem C394_run (hφ : StrictMono φ) (h : SameSwarm φ κ μ A A') (K : Nat) (s : Swarm F) :
    Algo.run A'.genAsync K (recoordAll φ κ μ s) = (Algo.run A.genAsync K s).map (recoordAll φ κ μ) ∧
    Algo.run A'.genSync K (recoordAll φ κ μ s) = (Algo.run A.genSync K s).map (recoordAll φ κ μ) :=
  ⟨run_recoord (genAsync_recoord hφ h) K s, run_recoord (genSync_recoord hφ h) K s⟩

private theorem setupBest_recoord (hφ : StrictMono φ) (pop : Nat → Part F) (l : List Nat) : ∀ b : Part F,
    setupBest (fun i => recoord φ κ μ (pop i)) l (recoord φ κ μ b) =
      (setupBest pop l b).map (recoord φ κ μ) := by
  induction l with
  | nil => intro b; rfl
  | cons k ks ih =>
    intro b
    have e1 : (recoord φ κ μ (pop k)).fit = (pop k).fit.map φ := rfl
    have e2 : (recoord φ κ μ b).fit = b.fit.map φ := rfl
    unfold setupBest
    rw [e1, e2]
    cases (pop k).fit with
    | none => rfl
    | some f =>
      cases b.fit with
      | none => rfl
      | some g =>
        by_cases hb : g < f <;> simp [hφ.lt_iff_lt, hb, ih]

private theorem pick_recoord (hφ : StrictMono φ) (pop : Nat → Part F) (l : List Nat) : ∀ b : Part F,
    l.foldl (fun b k => if b.best < (recoord φ κ μ (pop k)).best then recoord φ κ μ (pop k) else b)
        (recoord φ κ μ b) =
      recoord φ κ μ (l.foldl (fun b k => if b.best < (pop k).best then pop k else b) b) := by
  induction l with
  | nil => intro b; rfl
  | cons k ks ih =>
    intro b
    have e : ((recoord φ κ μ b).best < (recoord φ κ μ (pop k)).best) ↔ b.best < (pop k).best := hφ.lt_iff_lt
    simp only [List.foldl_cons, e]
    by_cases hb : b.best < (pop k).best
    · simp only [hb, if_true]; exact ih _
    · simp only [hb, if_false]; exact ih _

/-- The start and the end too: initialised particles, the bests with which the neighbourhoods are set up, the
best element of the population and the global best are those of the first swarm in the other coordinates. -/
theorem C394_start_and_end (hφ : StrictMono φ) (h : ∀ x, A'.eval (κ x) = φ (A.eval x)) (pop : Nat → Part F) :
    (∀ x v, initPart A'.eval (κ x) (μ v) = recoord φ κ μ (initPart A.eval x v)) ∧
    (∀ l b, setupBest (fun i => recoord φ κ μ (pop i)) l (recoord φ κ μ b) =
      (setupBest pop l b).map (recoord φ κ μ)) ∧
    (∀ n, bestElement (fun i => recoord φ κ μ (pop i)) n = recoord φ κ μ (bestElement pop n)) ∧
    (∀ n, globalBest (fun i => recoord φ κ μ (pop i)) n = recoord φ κ μ (globalBest pop n)) :=
  ⟨fun x v => by simp [initPart, recoord, h], fun l b => setupBest_recoord hφ pop l b,
    fun _ => pick_recoord hφ pop _ _, fun _ => pick_recoord hφ pop _ _⟩

end

/-! ### Without bounds: every change of coordinates -/

/-- **C394.** Without bounds, since the numbers are drawn once per particle, the swarms of the standard and of the
constricted velocities are the same in all coordinates: for every linear map, a rotation for instance, and every
translation. -/
theorem C394_free (φ : F → F') (L : Vec →ₗ[ℚ] Vec) (c : Vec) (A : Algo F) (A' : Algo F')
    (hn : A'.n = A.n) (ht : A'.topo = A.topo) (he : ∀ x, A'.eval (L x + c) = φ (A.eval x))
    (w r1 r2 : Nat → Nat → ℚ)
    (hv : ∀ g i p lb, A.velo g i p lb = newVel (standardRule (w g i) (r1 g i) (r2 g i)) free p lb)
    (hv' : ∀ g i p lb, A'.velo g i p lb = newVel (standardRule (w g i) (r1 g i) (r2 g i)) free p lb)
    (hf : ∀ g i, A.fly g i = newPos free) (hf' : ∀ g i, A'.fly g i = newPos free) :
    SameSwarm φ (fun x => L x + c) L A A' := by
  have hvec : ∀ (w r1 r2 : ℚ) {G : Type} [LinearOrder G] (p lb : Part G),
      newVel (standardRule w r1 r2) free p lb =
        w • p.vel + r1 • (p.bestPos - p.pos) + r2 • (lb.pos - p.pos) := by
    intro w r1 r2 G _ p lb
    funext j
    simp [newVel, free, Bnd.clamp, standardRule]
  have hpos : ∀ x v : Vec, newPos free x v = x + v := by
    intro x v
    funext j
    simp [newPos, free, Bnd.clamp]
  refine ⟨hn, ht, fun g i p lb => ?_, fun g i x v => ?_, he⟩
  · rw [hv', hv, hvec, hvec]
    simp only [recoord, map_add, map_smul, map_sub, add_sub_add_right_eq_sub]
  · rw [hf', hf, hpos, hpos, map_add]
    abel

/-! ### With bounds: changes of every coordinate -/

/-- Scale, mirror and shift every variable, and exchange variables. -/
def boxPos (a c : Nat → ℚ) (σ : Nat → Nat) (x : Vec) : Vec := fun j => a j * x (σ j) + c j
/-- The same for velocities. -/
def boxVel (a : Nat → ℚ) (σ : Nat → Nat) (v : Vec) : Vec := fun j => a j * v (σ j)

/-- The bound of a variable that is scaled by `a`, mirrored if `a < 0`, and shifted by `c`. -/
def Bnd.move (a c : ℚ) (b : Bnd) : Bnd :=
  if 0 ≤ a then { lo := b.lo.map fun x => a * x + c, hi := b.hi.map fun x => a * x + c }
  else { lo := b.hi.map fun x => a * x + c, hi := b.lo.map fun x => a * x + c }

private theorem clamp_move (a c : ℚ) (b : Bnd) (hb : b.Ok) (v : ℚ) :
    (b.move a c).clamp (a * v + c) = a * b.clamp v + c := by
  obtain ⟨lo, hi⟩ := b
  by_cases ha : 0 ≤ a
  · have hm : Monotone fun x : ℚ => a * x + c := fun x y h => by
      have := mul_le_mul_of_nonneg_left h ha
      show a * x + c ≤ a * y + c
      linarith
    have h1 : ∀ x y, max (a * x + c) (a * y + c) = a * max x y + c := fun x y => (hm.map_max (a := x) (b := y)).symm
    have h2 : ∀ x y, min (a * x + c) (a * y + c) = a * min x y + c := fun x y => (hm.map_min (a := x) (b := y)).symm
    cases lo <;> cases hi <;> simp only [Bnd.move, ha, if_true, Bnd.clamp, Option.map_none, Option.map_some, h1, h2]
  · have hm : Antitone fun x : ℚ => a * x + c := fun x y h => by
      have := mul_le_mul_of_nonpos_left h (le_of_not_ge ha)
      show a * y + c ≤ a * x + c
      linarith
    have h1 : ∀ x y, max (a * x + c) (a * y + c) = a * min x y + c := fun x y => (hm.map_min (a := x) (b := y)).symm
    have h2 : ∀ x y, min (a * x + c) (a * y + c) = a * max x y + c := fun x y => (hm.map_max (a := x) (b := y)).symm
    cases lo with
    | none => cases hi <;> simp only [Bnd.move, ha, if_false, Bnd.clamp, Option.map_none, Option.map_some, h1, h2]
    | some lo =>
      cases hi with
      | none => simp only [Bnd.move, ha, if_false, Bnd.clamp, Option.map_none, Option.map_some, h1, h2]
      | some hi =>
        have hlo : lo ≤ hi := by simpa [Bnd.Ok] using hb
        simp only [Bnd.move, ha, if_false, Bnd.clamp, Option.map_some, h1, h2]
        congr 2
        rw [max_min_distrib_right, max_eq_left hlo]

/-- **C394.** With bounds on the velocities and on the positions, the swarms of the standard and of the constricted
velocities (C143_constricted) are the same when variables are scaled, mirrored, shifted and exchanged, and the bounds
with them. -/
theorem C394_boxes (φ : F → F') (a c : Nat → ℚ) (σ : Nat → Nat) (A : Algo F) (A' : Algo F')
    (hn : A'.n = A.n) (ht : A'.topo = A.topo) (he : ∀ x, A'.eval (boxPos a c σ x) = φ (A.eval x))
    (w r1 r2 : Nat → Nat → ℚ) (vb xb : Nat → Nat → Bnd) (hvb : ∀ g j, (vb g j).Ok) (hxb : ∀ g j, (xb g j).Ok)
    (hv : ∀ g i p lb, A.velo g i p lb = newVel (standardRule (w g i) (r1 g i) (r2 g i)) (vb g) p lb)
    (hv' : ∀ g i p lb, A'.velo g i p lb =
      newVel (standardRule (w g i) (r1 g i) (r2 g i)) (fun j => (vb g (σ j)).move (a j) 0) p lb)
    (hf : ∀ g i, A.fly g i = newPos (xb g))
    (hf' : ∀ g i, A'.fly g i = newPos fun j => (xb g (σ j)).move (a j) (c j)) :
    SameSwarm φ (boxPos a c σ) (boxVel a σ) A A' := by
  refine ⟨hn, ht, fun g i p lb => ?_, fun g i x v => ?_, he⟩
  · rw [hv', hv]
    funext j
    have e : standardRule (w g i) (r1 g i) (r2 g i) (a j * p.vel (σ j)) (a j * p.pos (σ j) + c j)
        (a j * p.bestPos (σ j) + c j) (a j * lb.pos (σ j) + c j) =
        a j * standardRule (w g i) (r1 g i) (r2 g i) (p.vel (σ j)) (p.pos (σ j)) (p.bestPos (σ j)) (lb.pos (σ j))
          + 0 := by
      unfold standardRule; ring
    simp only [newVel, recoord, boxPos, boxVel]
    rw [e, clamp_move _ _ _ (hvb g _), add_zero]
  · rw [hf', hf]
    funext j
    have e : a j * x (σ j) + c j + a j * v (σ j) = a j * (x (σ j) + v (σ j)) + c j := by ring
    simp only [newPos, boxPos, boxVel]
    rw [e, clamp_move _ _ _ (hxb g _)]

/-- Integer swarms: the same for variables that are mirrored, shifted and exchanged. -/
theorem C394_integer (φ : F → F') (a c : Nat → ℚ) (ha : ∀ j, a j = 1 ∨ a j = -1) (σ : Nat → Nat) (A : Algo F)
    (A' : Algo F') (hn : A'.n = A.n) (ht : A'.topo = A.topo) (he : ∀ x, A'.eval (boxPos a c σ x) = φ (A.eval x))
    (c1 : ℚ) (r2 r3 : Nat → Nat → ℚ) (vb xb : Nat → Nat → Bnd) (hvb : ∀ g j, (vb g j).Ok)
    (hxb : ∀ g j, (xb g j).Ok)
    (hv : ∀ g i p lb, A.velo g i p lb = newVel (integerRule c1 (r2 g i) (r3 g i)) (vb g) p lb)
    (hv' : ∀ g i p lb, A'.velo g i p lb =
      newVel (integerRule c1 (r2 g i) (r3 g i)) (fun j => (vb g (σ j)).move (a j) 0) p lb)
    (hf : ∀ g i, A.fly g i = newPos (xb g))
    (hf' : ∀ g i, A'.fly g i = newPos fun j => (xb g (σ j)).move (a j) (c j)) :
    SameSwarm φ (boxPos a c σ) (boxVel a σ) A A' := by
  refine ⟨hn, ht, fun g i p lb => ?_, fun g i x v => ?_, he⟩
  · rw [hv', hv]
    funext j
    have e : integerRule c1 (r2 g i) (r3 g i) (a j * p.vel (σ j)) (a j * p.pos (σ j) + c j)
        (a j * p.bestPos (σ j) + c j) (a j * lb.pos (σ j) + c j) =
        a j * integerRule c1 (r2 g i) (r3 g i) (p.vel (σ j)) (p.pos (σ j)) (p.bestPos (σ j)) (lb.pos (σ j))
          + 0 := by
      have hr := fun x => (C227_round x).2.1
      unfold integerRule
      rcases ha j with h | h
      · rw [h, add_zero, one_mul]
        congr 2
        ring
      · have e : c1 * (-1 * p.vel (σ j)) + r2 g i * (-1 * p.bestPos (σ j) + c j - (-1 * p.pos (σ j) + c j)) +
            r3 g i * (-1 * lb.pos (σ j) + c j - (-1 * p.pos (σ j) + c j)) =
            -(c1 * p.vel (σ j) + r2 g i * (p.bestPos (σ j) - p.pos (σ j)) +
              r3 g i * (lb.pos (σ j) - p.pos (σ j))) := by ring
        rw [h, e, hr]
        push_cast
        ring
    simp only [newVel, recoord, boxPos, boxVel]
    rw [e, clamp_move _ _ _ (hvb g _), add_zero]
  · rw [hf', hf]
    funext j
    have e : a j * x (σ j) + c j + a j * v (σ j) = a j * (x (σ j) + v (σ j)) + c j := by ring
    simp only [newPos, boxPos, boxVel]
    rw [e, clamp_move _ _ _ (hxb g _)]

/-- Scaling an integer swarm by two changes it: a pull of one quarter is rounded to rest, twice that pull is not. -/
theorem C394_integer_not_scaled : ∃ c1 r2 r3 v x pb lb : ℚ,
    integerRule c1 r2 r3 (2 * v) (2 * x) (2 * pb) (2 * lb) ≠ 2 * integerRule c1 r2 r3 v x pb lb := by
  refine ⟨1, 1 / 4, 0, 0, 0, 1, 0, ?_⟩
  have h1 : integerRule 1 (1 / 4) 0 0 0 1 0 = 0 := (C227_stuck _ _ _ _ _ _).2 (by norm_num [abs_of_pos])
  have h2 : integerRule 1 (1 / 4) 0 (2 * 0) (2 * 0) (2 * 1) (2 * 0) ≠ 0 := by
    rw [show (2 : ℚ) * 0 = 0 by norm_num]
    intro h
    have := (C227_stuck _ _ _ _ _ _).1 h
    norm_num [abs_of_pos] at this
  rw [h1]
  simpa using h2

/-- A turn of the first two variables by an eighth (and a scaling). -/
def turn : Vec →ₗ[ℚ] Vec where
  toFun x := fun j => if j = 0 then x 0 + x 1 else if j = 1 then x 1 - x 0 else x j
  map_add' x y := by
    funext j
    by_cases h0 : j = 0
    · simp [h0]; ring
    · by_cases h1 : j = 1
      · simp [h1]; ring
      · simp [h0, h1]
  map_smul' q x := by
    funext j
    by_cases h0 : j = 0
    · simp [h0]; ring
    · by_cases h1 : j = 1
      · simp [h1]; ring
      · simp [h0, h1]

/-- A bound prevents that: if the first variable has a maximum, no bounds at all make the flight in turned
coordinates the turned flight. -/
theorem C394_bounded_not_turned : ∀ xb' : Nat → Bnd, ∃ x v : Vec,
    newPos xb' (turn x) (turn v) ≠ turn (newPos (fun j => if j = 0 then ⟨none, some 0⟩ else ⟨none, none⟩) x v) := by
  intro xb'
  by_contra hc
  push Not at hc
  have h1 := congrFun (hc 0 (fun j => if j = 0 then 1 else 0)) 0
  have h2 := congrFun (hc 0 (fun j => if j = 1 then 1 else 0)) 0
  simp [turn, newPos, Bnd.clamp] at h1 h2
  rw [h1] at h2
  norm_num at h2

/-! ### Instances -/

/-- A swarm of three particles minimising the distance from 3 in the first variable within `[-5, 5]`. -/
def demoSwarm : Algo ℚ where
  n := 3
  topo := starTopo
  velo _ i p lb := newVel (standardRule (1 / 2) (1 / 3) (i + 1)) (fun _ => ⟨some (-1), some 1⟩) p lb
  fly _ _ := newPos fun _ => ⟨some (-5), some 5⟩
  eval x := -|x 0 - 3|

/-- The same in other units: all variables are mirrored, enlarged and shifted, and the fitness is
rescaled. -/
def demoSwarm' : Algo ℚ where
  n := 3
  topo := starTopo
  velo _ i p lb :=
    newVel (standardRule (1 / 2) (1 / 3) (i + 1)) (fun _ => (⟨some (-1), some 1⟩ : Bnd).move (-2) 0) p lb
  fly _ _ := newPos fun _ => (⟨some (-5), some 5⟩ : Bnd).move (-2) 7
  eval y := 5 * -|(7 - y 0) / 2 - 3| + 1

example : SameSwarm (fun q => 5 * q + 1) (boxPos (fun _ => -2) (fun _ => 7) id) (boxVel (fun _ => -2) id)
    demoSwarm demoSwarm' := by
  refine C394_boxes _ _ _ id _ _ rfl rfl (fun x => ?_) (fun _ _ => 1 / 2) (fun _ _ => 1 / 3)
    (fun _ i => (i : ℚ) + 1) (fun _ _ => ⟨some (-1), some 1⟩) (fun _ _ => ⟨some (-5), some 5⟩) ?_ ?_
    (fun _ _ _ _ => rfl) (fun _ _ _ _ => rfl) (fun _ _ => rfl) (fun _ _ => rfl)
  · have e : (7 - (-2 * x 0 + 7)) / 2 = x 0 := by ring
    simp [demoSwarm, demoSwarm', boxPos, e]
  · intro _ _ lo hi h1 h2
    simp at h1 h2
    linarith
  · intro _ _ lo hi h1 h2
    simp at h1 h2
    linarith

/-- and the first swarm does move: the first particle from 0 to 1, the second from 5 to 4. -/
example : (match Algo.run demoSwarm.genAsync 1
      { pop := fun i => initPart demoSwarm.eval (fun _ => 5 * i) (fun _ => 0),
        nb := fun _ => initPart demoSwarm.eval (fun _ => 4) (fun _ => 0) } with
    | none => []
    | some t => [(t.pop 0).pos 0, (t.pop 1).pos 0, (t.pop 2).pos 0]) = [1, 4, 5] := by decide +kernel

end Paradiseo.Pso
