import Verif.Model.Velocity
import Verif.Props.PSO
import Verif.Props.Init

/-!
# Integer, extended and binary particle swarms (C227–C228)
-/

namespace Paradiseo.Pso

open Paradiseo.EO (Err)

variable {F : Type} [LinearOrder F]

/-! ### C227 -/

/-- A whole number. -/
def Whole (x : ℚ) : Prop := ∃ n : Int, x = n

/-- The bounds that are there are whole numbers. -/
def Bnd.Whole (b : Bnd) : Prop := (∀ lo, b.lo = some lo → Pso.Whole lo) ∧ ∀ hi, b.hi = some hi → Pso.Whole hi

theorem clamp_whole {b : Bnd} (hb : b.Whole) {v : ℚ} (hv : Whole v) : Whole (b.clamp v) := by
  obtain ⟨lo, hi⟩ := b
  have hmin : ∀ w, Whole w → ∀ h, hi = some h → Whole (min w h) := fun w hw h e => by
    rcases min_choice w h with h' | h' <;> rw [h']
    · exact hw
    · exact hb.2 h e
  have hmax : ∀ l, lo = some l → Whole (max v l) := fun l e => by
    rcases max_choice v l with h' | h' <;> rw [h']
    · exact hv
    · exact hb.1 l e
  cases lo with
  | none =>
    cases hi with
    | none => exact hv
    | some h => exact hmin v hv h rfl
  | some l =>
    cases hi with
    | none => exact hmax l rfl
    | some h => exact hmin _ (hmax l rfl) h rfl

/-- `round` gives the nearest whole number, halves away from zero, and leaves whole numbers alone. -/
theorem C227_round (x : ℚ) : |(roundC x : ℚ) - x| ≤ 1 / 2 ∧ roundC (-x) = -roundC x ∧ (|x| < 1 / 2 ↔ roundC x = 0) ∧
    ∀ n : Int, roundC n = n := by
  refine ⟨?_, ?_, ?_, ?_⟩
  · rw [roundC, abs_le]
    split
    · have := Int.floor_le (x + 1 / 2)
      have := Int.lt_floor_add_one (x + 1 / 2)
      constructor <;> linarith
    · have := Int.le_ceil (x - 1 / 2)
      have := Int.ceil_lt_add_one (x - 1 / 2)
      constructor <;> linarith
  · rw [roundC, roundC]
    rcases lt_trichotomy x 0 with h | h | h
    · rw [if_pos (by linarith), if_neg (by linarith), ← Int.floor_neg]
      congr 1
      ring
    · subst h
      norm_num
    · rw [if_neg (by linarith), if_pos (by linarith), ← Int.ceil_neg]
      congr 1
      ring
  · rw [roundC, abs_lt]
    split
    · rw [Int.floor_eq_iff]
      push_cast
      constructor
      · rintro ⟨_, h⟩; constructor <;> linarith
      · rintro ⟨_, h⟩; constructor <;> linarith
    · rw [Int.ceil_eq_iff]
      push_cast
      constructor
      · rintro ⟨h, _⟩; constructor <;> linarith
      · rintro ⟨h, _⟩; constructor <;> linarith
  · intro n
    rw [roundC]
    split
    · rw [Int.floor_eq_iff]; constructor <;> push_cast <;> linarith
    · rw [Int.ceil_eq_iff]; constructor <;> push_cast <;> linarith

/-- With whole bounds, from a whole start, everything stays whole and within the bounds for all generations, whatever
the coefficients and the draws. -/
theorem C227_run (A : Algo F) (count : Nat) (hlook : ∀ i, i < A.n → A.topo.look i < count)
    (xb vb : Nat → Bnd) (hxb : ∀ j, (xb j).Ok ∧ (xb j).Whole) (hvb : ∀ j, (vb j).Ok ∧ (vb j).Whole)
    (c1 : ℚ) (r2 r3 : Nat → Nat → ℚ)
    (hv : ∀ g i p lb, A.velo g i p lb = newVel (integerRule c1 (r2 g i) (r3 g i)) vb p lb)
    (hf : ∀ g i, A.fly g i = newPos xb) (s : Swarm F)
    (hp : ∀ i, i < A.n → ∀ j, ((xb j).Holds ((s.pop i).pos j) ∧ Whole ((s.pop i).pos j)) ∧
      ((xb j).Holds ((s.pop i).bestPos j) ∧ Whole ((s.pop i).bestPos j)) ∧
      ((vb j).Holds ((s.pop i).vel j) ∧ Whole ((s.pop i).vel j)))
    (hn : ∀ k, k < count → ∀ j, (xb j).Holds ((s.nb k).pos j) ∧ Whole ((s.nb k).pos j))
    (gen : Nat → Swarm F → Option (Swarm F)) (hgen : gen = A.genAsync ∨ gen = A.genSync)
    (K : Nat) (t : Swarm F) (h : Algo.run gen K s = some t) :
    (∀ i, i < A.n → ∀ j, ((xb j).Holds ((t.pop i).pos j) ∧ Whole ((t.pop i).pos j)) ∧
      ((xb j).Holds ((t.pop i).bestPos j) ∧ Whole ((t.pop i).bestPos j)) ∧
      ((vb j).Holds ((t.pop i).vel j) ∧ Whole ((t.pop i).vel j))) ∧
    ∀ k, k < count → ∀ j, (xb j).Holds ((t.nb k).pos j) ∧ Whole ((t.nb k).pos j) := by
  have key := run_keeps (Stays (fun x => ∀ j, (xb j).Holds (x j) ∧ Whole (x j))
      (fun v => ∀ j, (vb j).Holds (v j) ∧ Whole (v j)) A.n count) gen
    (fun g a b ha hb => stays_gen hlook (fun g i p lb _ _ _ _ _ j => by
        rw [hv]; exact ⟨clamp_holds _ (hvb j).1 _, clamp_whole (hvb j).2 ⟨_, rfl⟩⟩)
      (fun g i x v _ hx hv' j => by
        rw [hf]
        refine ⟨clamp_holds _ (hxb j).1 _, clamp_whole (hxb j).2 ?_⟩
        obtain ⟨m, hm⟩ := (hx j).2
        obtain ⟨n, hn⟩ := (hv' j).2
        exact ⟨m + n, by rw [hm, hn]; push_cast; ring⟩) gen hgen g a b ha hb) s
    ⟨fun i hi j => (hp i hi j).1, fun i hi j => (hp i hi j).2.1, fun i hi j => (hp i hi j).2.2, hn⟩ K t h
  exact ⟨fun i hi j => ⟨key.pos i hi j, key.own i hi j, key.vel i hi j⟩, key.nb⟩

/-- A particle without velocity is drawn nowhere, even if its memory and its neighbourhood are elsewhere, as long as the
coefficients times the distances do not reach one half. -/
theorem C227_stuck (c1 r2 r3 x pb lb : ℚ) : integerRule c1 r2 r3 0 x pb lb = 0 ↔ |r2 * (pb - x) + r3 * (lb - x)| < 1 / 2 := by
  rw [integerRule]
  have h := (C227_round (c1 * 0 + r2 * (pb - x) + r3 * (lb - x))).2.2.1
  rw [mul_zero, zero_add] at h ⊢
  rw [h]
  norm_cast

example : integerRule 1 (1/5) (1/5) 0 0 1 1 = 0 := by
  rw [C227_stuck]; norm_num
example : integerRule 1 (3/10) (1/5) 0 0 1 1 = 1 := by
  have : roundC (1 * 0 + 3/10 * (1 - 0) + 1/5 * (1 - 0)) = 1 := by
    rw [roundC, if_pos (by norm_num), Int.floor_eq_iff]; constructor <;> norm_num
  rw [integerRule, this]; norm_num

/-- The extended velocity respects its bounds, and with the neighbourhood's best as the swarm's best it is the standard
one with the two coefficients added. -/
theorem C227_extended (omega r1 r2 r3 : ℚ) (bnd : Nat → Bnd) (hb : ∀ j, (bnd j).Ok) (p lb gb : Part F) :
    (∀ j, (bnd j).Holds (extendedVel omega r1 r2 r3 bnd p lb gb j)) ∧
    extendedVel omega r1 r2 r3 bnd p lb lb = newVel (standardRule omega r1 (r2 + r3)) bnd p lb ∧
    extendedVel omega r1 r2 0 bnd p lb gb = newVel (standardRule omega r1 r2) bnd p lb ∧
    extendedVel omega r1 0 r3 bnd p lb gb = newVel (standardRule omega r1 r3) bnd p gb := by
  refine ⟨fun j => clamp_holds _ (hb j) _, ?_, ?_, ?_⟩ <;>
  · funext j
    rw [extendedVel, newVel, standardRule]
    congr 1
    ring

/-- Giving a particle of `n` variables `n` velocities leaves its positions and its memory alone.  With another number
the positions are cut or filled up, although the fitness, computed before (eoInitializer), stays. -/
theorem C227_velocity_init {α : Type} (dflt : α) (gen : Nat → α) (pos vel : List α) :
    (∀ n, (velocityInitFixed dflt n gen pos vel pos).2.1 = (List.range n).map gen) ∧
    velocityInitFixed dflt pos.length gen pos vel pos = (pos, (List.range pos.length).map gen, pos) ∧
    ∀ n, n ≠ pos.length → (velocityInitFixed dflt n gen pos vel pos).1 ≠ pos := by
  have hg : ∀ n, Init.generate gen n 0 = (List.range n).map gen := fun n => by
    apply List.ext_getElem?
    intro k
    by_cases hk : k < n
    · rw [Init.generate_get gen n 0 k hk, List.getElem?_map, List.getElem?_range hk, Nat.zero_add]
      rfl
    · rw [List.getElem?_eq_none (by rw [Init.generate_length]; omega), List.getElem?_eq_none (by simpa using hk)]
  refine ⟨fun n => hg n, ?_, ?_⟩
  · rw [velocityInitFixed, hg]
    simp [Init.resize]
  · intro n hn h
    have := congrArg List.length h
    rw [velocityInitFixed, Init.resize_length] at this
    exact hn this

/-! ### C228 -/

theorem sigmoid_pos (slope : Nat) (v : ℝ) : 0 < sigmoidFlight slope v ∧ sigmoidFlight slope v < 1 := by
  have := Real.exp_pos (-v / slope)
  rw [sigmoidFlight]
  refine ⟨by positivity, ?_⟩
  rw [div_lt_one (by positivity)]
  linarith

/-- The flight sets bit `j` exactly if the draw is below the sigmoid of the velocity; the old positions do not matter. -/
theorem C228_bits (slope : Nat) (hs : 0 < slope) (u : Nat → ℝ) (vel : List ℝ) (pos : List Bool) (hl : vel.length = pos.length) :
    ∃ bits : List Bool, sigFlight slope u vel pos = .ok bits ∧ bits.length = pos.length ∧
      ∀ (j : Nat) (v : ℝ), vel[j]? = some v → (bits[j]? = some true ↔ u j * (1 + Real.exp (-v / slope)) < 1) := by
  rw [sigFlight, if_neg (by omega)]
  refine ⟨_, rfl, by simp, fun j v hv => ?_⟩
  obtain ⟨hj, _⟩ := List.getElem?_eq_some_iff.1 hv
  rw [List.getElem?_map, List.getElem?_range (by omega)]
  rw [Option.map_some, Option.some.injEq, decide_eq_true_iff, List.getD_eq_getElem?_getD, hv, Option.getD_some, flightProb, if_neg (by omega), sigmoidFlight,
    lt_div_iff₀ (by have := Real.exp_pos (-v / slope); positivity)]

/-- The probability: strictly between 0 and 1, greater for a greater velocity, one half for velocity zero, and
symmetric. -/
theorem C228_probability (slope : Nat) (hs : 0 < slope) :
    (∀ v, 0 < flightProb slope v ∧ flightProb slope v < 1) ∧ StrictMono (flightProb slope) ∧ flightProb slope 0 = 1 / 2 ∧
    ∀ v, flightProb slope (-v) = 1 - flightProb slope v := by
  have h : flightProb slope = sigmoidFlight slope := by
    funext v; rw [flightProb, if_neg (by omega)]
  have hs' : (0 : ℝ) < slope := by exact_mod_cast hs
  rw [h]
  refine ⟨sigmoid_pos slope, fun v w hvw => ?_, ?_, fun v => ?_⟩
  · rw [sigmoidFlight, sigmoidFlight]
    apply one_div_lt_one_div_of_lt
    · have := Real.exp_pos (-w / slope); positivity
    · have : Real.exp (-w / slope) < Real.exp (-v / slope) := by
        rw [Real.exp_lt_exp]
        exact div_lt_div_of_pos_right (by linarith) hs'
      linarith
  · rw [sigmoidFlight]; norm_num
  · rw [sigmoidFlight, sigmoidFlight, neg_neg]
    have e : Real.exp (-v / slope) = (Real.exp (v / slope))⁻¹ := by rw [neg_div, Real.exp_neg]
    have := Real.exp_pos (v / slope)
    rw [e]
    field_simp
    ring

/-- So, whatever the velocities, every bit string can be the next position. -/
theorem C228_reachable (slope : Nat) (hs : 0 < slope) (vel : List ℝ) (pos target : List Bool) (hl : vel.length = pos.length)
    (ht : target.length = pos.length) :
    ∃ u : Nat → ℝ, (∀ j, 0 ≤ u j ∧ u j < 1) ∧ sigFlight slope u vel pos = .ok target := by
  refine ⟨fun j => if target.getD j false then 0 else flightProb slope (vel.getD j 0), fun j => ?_, ?_⟩
  · obtain ⟨h, _⟩ := C228_probability slope hs
    have := h (vel.getD j 0)
    dsimp only
    split
    · norm_num
    · exact ⟨this.1.le, this.2⟩
  · rw [sigFlight, if_neg (by omega)]
    congr 1
    apply List.ext_getElem
    · simp [ht]
    · intro j h1 h2
      rw [List.getElem_map, List.getElem_range]
      have e : target.getD j false = target[j] := by simp [List.getD_eq_getElem?_getD, h2]
      rw [e]
      obtain ⟨h, _⟩ := C228_probability slope hs
      have := h (vel.getD j 0)
      cases target[j]
      · simp
      · simpa using this.1

/-- With slope 0 nothing is random any more: the bits are the signs of the velocities. -/
theorem C228_slope_zero (u : Nat → ℝ) (hu : ∀ j, 0 ≤ u j ∧ u j < 1) (vel : List ℝ) (pos : List Bool)
    (hl : vel.length = pos.length) :
    ∃ bits : List Bool, sigFlight 0 u vel pos = .ok bits ∧ bits.length = pos.length ∧
      ∀ (j : Nat) (v : ℝ), vel[j]? = some v → (bits[j]? = some true ↔ 0 < v) := by
  rw [sigFlight, if_neg (by omega)]
  refine ⟨_, rfl, by simp, fun j v hv => ?_⟩
  obtain ⟨hj, _⟩ := List.getElem?_eq_some_iff.1 hv
  rw [List.getElem?_map, List.getElem?_range (by omega)]
  rw [Option.map_some, Option.some.injEq, decide_eq_true_iff, List.getD_eq_getElem?_getD, hv, Option.getD_some, flightProb, if_pos rfl]
  by_cases h : 0 < v
  · simp [h, (hu j).2]
  · simp [h, (hu j).1]

end Paradiseo.Pso
