/-
Property C397: operators on real vectors in other units.
-/
import Verif.Model.ESOps
import Verif.Props.EasyEAInvariance
import Mathlib.Tactic.Linarith
import Mathlib.Tactic.FieldSimp
import Mathlib.Tactic.Ring
import Mathlib.Tactic.NormNum

namespace Paradiseo.ES

open Paradiseo.EO (Err)
open Paradiseo.Bounds (Bound)

section
variable {F : Type} [Field F] [LinearOrder F] [IsStrictOrderedRing F]

/-- A vector in other units: the variable `i` is multiplied by `a i`, then `c i` is added. -/
def units (a c : Nat → F) : Nat → List F → List F
  | _, [] => []
  | i, x :: xs => (a i * x + c i) :: units a c (i + 1) xs

/-- Both parents. -/
def units2 (a c : Nat → F) : Nat → List (F × F) → List (F × F)
  | _, [] => []
  | i, (x, y) :: xs => (a i * x + c i, a i * y + c i) :: units2 a c (i + 1) xs

/-- The bounds in other units, the factors being positive. -/
def boundTo (a c : F) : Bound F → Bound F
  | .none => .none
  | .interval lo hi => .interval (a * lo + c) (a * hi + c)
  | .below lo => .below (a * lo + c)
  | .above hi => .above (a * hi + c)
def boundsTo (a c : Nat → F) : Nat → List (Bound F) → List (Bound F)
  | _, [] => []
  | i, b :: bs => boundTo (a i) (c i) b :: boundsTo a c (i + 1) bs

omit [LinearOrder F] [IsStrictOrderedRing F] in
@[simp] theorem units_length (a c : Nat → F) : ∀ (i : Nat) (xs : List F), (units a c i xs).length = xs.length
  | _, [] => rfl
  | i, _ :: xs => by simp [units, units_length a c (i + 1) xs]

omit [LinearOrder F] [IsStrictOrderedRing F] in
@[simp] theorem boundsTo_length (a c : Nat → F) : ∀ (i : Nat) (bs : List (Bound F)), (boundsTo a c i bs).length = bs.length
  | _, [] => rfl
  | i, _ :: bs => by simp [boundsTo, boundsTo_length a c (i + 1) bs]

private theorem aff_mono {a : F} (ha : 0 < a) (c : F) : StrictMono fun x : F => a * x + c := fun x y h => by
  have := mul_lt_mul_of_pos_left h ha
  show a * x + c < a * y + c
  linarith
private theorem aff_max {a : F} (ha : 0 < a) (c x y : F) : max (a * x + c) (a * y + c) = a * max x y + c :=
  ((aff_mono ha c).monotone.map_max (a := x) (b := y)).symm
private theorem aff_min {a : F} (ha : 0 < a) (c x y : F) : min (a * x + c) (a * y + c) = a * min x y + c :=
  ((aff_mono ha c).monotone.map_min (a := x) (b := y)).symm
private theorem aff_eq {a : F} (ha : 0 < a) (c x y : F) : a * x + c = a * y + c ↔ x = y := (aff_mono ha c).injective.eq_iff

theorem atLeast_to {a : F} (ha : 0 < a) (c : F) (b : Bound F) (e : F) : atLeast (boundTo a c b) (a * e + c) = a * atLeast b e + c := by
  cases b <;> simp only [boundTo, atLeast, lo?, aff_max ha]
theorem atMost_to {a : F} (ha : 0 < a) (c : F) (b : Bound F) (e : F) : atMost (boundTo a c b) (a * e + c) = a * atMost b e + c := by
  cases b <;> simp only [boundTo, atMost, hi?, aff_min ha]

theorem uniformIn_to {a : F} (ha : 0 < a) (c : F) (b : Bound F) (eps u x : F) :
    uniformIn (boundTo a c b) (a * eps) u (a * x + c) = a * uniformIn b eps u x + c := by
  have e1 : a * x + c - a * eps = a * (x - eps) + c := by ring
  have e2 : a * x + c + a * eps = a * (x + eps) + c := by ring
  simp only [uniformIn, e1, e2, atLeast_to ha, atMost_to ha]
  ring

/-- **C397**: the uniform mutations with and without bounds and the normal mutation by variable: mutating the vector in other units, with
bounds and ranges in these units, is mutating it and changing the units; with the same answer and the same failures.  The range that
the constructors compute for a variable with two bounds is in its units already. -/
theorem C397_mutations (a c : Nat → F) (ha : ∀ i, 0 < a i) (flip : Nat → Bool) (u z : Nat → F) (xs : List F) :
    (∀ (s eps : F) , uniformMutFree (s * eps) flip u 0 (units (fun _ => s) c 0 xs) =
      Prod.map (units (fun _ => s) c 0) id (uniformMutFree eps flip u 0 xs)) ∧
    (∀ bs es, uniformMut (boundsTo a c 0 bs) (units a (fun _ => 0) 0 es) flip u (units a c 0 xs) =
      (uniformMut bs es flip u xs).map (Prod.map (units a c 0) id)) ∧
    (∀ sig, normalVec (units a (fun _ => 0) 0 sig) flip z 0 (units a c 0 xs) = (normalVec sig flip z 0 xs).map (units a c 0)) ∧
    (∀ (s t eps lo hi : F), scaled eps (boundTo s t (.interval lo hi)) = s * scaled eps (.interval lo hi)) := by
  refine ⟨fun s eps => ?_, fun bs es => ?_, fun sig => ?_, fun s t eps lo hi => ?_⟩
  · have key : ∀ (xs : List F) i, uniformMutFree (s * eps) flip u i (units (fun _ => s) c i xs) =
        Prod.map (units (fun _ => s) c i) id (uniformMutFree eps flip u i xs) := by
      intro xs
      induction xs with
      | nil => intro i; rfl
      | cons x xs ih =>
        intro i
        simp only [units, uniformMutFree, ih (i + 1), Prod.map, id]
        congr 2
        simp only [uniformFree]
        split_ifs
        · ring
        · rfl
    exact key xs 0
  · have key : ∀ (xs : List F) (bs : List (Bound F)) (es : List F) i,
        uniformMutLoop flip u i (boundsTo a c i bs) (units a (fun _ => 0) i es) (units a c i xs) =
        Prod.map (units a c i) id (uniformMutLoop flip u i bs es xs) := by
      intro xs
      induction xs with
      | nil => intro bs es i; cases bs <;> cases es <;> rfl
      | cons x xs ih =>
        intro bs es i
        cases bs with
        | nil => rfl
        | cons b bs =>
          cases es with
          | nil => rfl
          | cons e es =>
            simp only [units, boundsTo, uniformMutLoop, ih bs es (i + 1), Prod.map, id, add_zero, uniformIn_to (ha i)]
            congr 2
            split_ifs <;> rfl
    simp only [uniformMut, units_length, boundsTo_length, key]
    split_ifs <;> rfl
  · have hsig : ∀ (sig : List F) i k, (units a (fun _ => 0) i sig)[k]? = sig[k]?.map (fun s => a (i + k) * s) := by
      intro sig
      induction sig with
      | nil => intro i k; simp [units]
      | cons s sig ih =>
        intro i k
        cases k with
        | zero => simp [units]
        | succ k =>
          simp only [units, List.getElem?_cons_succ, ih]
          rw [show i + 1 + k = i + (k + 1) by omega]
    have key : ∀ (xs : List F) i, normalVec (units a (fun _ => 0) 0 sig) flip z i (units a c i xs) =
        (normalVec sig flip z i xs).map (units a c i) := by
      intro xs
      induction xs with
      | nil => intro i; rfl
      | cons x xs ih =>
        intro i
        simp only [units, normalVec, ih (i + 1), hsig]
        rcases normalVec sig flip z (i + 1) xs with e | ys
        · rfl
        · simp only [Except.map, Nat.zero_add]
          split_ifs
          · cases sig[i]? with
            | none => rfl
            | some s =>
              simp only [Option.map_some, units]
              congr 2
              ring
          · rfl
    exact key xs 0
  · simp only [boundTo, scaled]
    ring

/-! ### Crossovers -/

theorem segStep_to {a : F} (ha : 0 < a) (c : F) (b : Bound F) (x y : F) (l : F × F) :
    segStep (boundTo a c b) (a * x + c) (a * y + c) l = segStep b x y l := by
  have ha' := ha.ne'
  have hq : ∀ p q r s : F, (a * p + c - (a * q + c)) / (a * r + c - (a * s + c)) = (p - q) / (r - s) := by
    intro p q r s
    rw [show a * p + c - (a * q + c) = a * (p - q) by ring, show a * r + c - (a * s + c) = a * (r - s) by ring,
      mul_div_mul_left _ _ ha']
  simp only [segStep, aff_eq ha, aff_min ha, aff_max ha]
  by_cases h : x = y
  · simp [h]
  · simp only [h, if_false]
    cases b <;> simp only [boundTo, lo?, hi?, hq]

theorem segLimits_to (a c : Nat → F) (ha : ∀ i, 0 < a i) : ∀ (rs : List (F × F)) (bs : List (Bound F)) (i : Nat) (l : F × F),
    segLimits (boundsTo a c i bs) (units2 a c i rs) l = segLimits bs rs l
  | [], bs, _, _ => by cases bs <;> rfl
  | (x, y) :: rs, [], _, _ => rfl
  | (x, y) :: rs, b :: bs, i, l => by
    simp only [boundsTo, units2, segLimits, segStep_to (ha i)]
    exact segLimits_to a c ha rs bs (i + 1) _

omit [IsStrictOrderedRing F] [LinearOrder F] in
theorem blend_to (a c f x y : F) : blend f (a * x + c) (a * y + c) = Prod.map (fun v => a * v + c) (fun v => a * v + c) (blend f x y) := by
  simp only [blend, Prod.map]
  refine Prod.ext ?_ ?_ <;> simp only <;> ring

theorem cubeOne_to {a : F} (ha : 0 < a) (c alpha : F) (b : Bound F) (u u' : F) (flip : Bool) (x y : F) :
    cubeOne alpha (boundTo a c b) u u' flip (a * x + c) (a * y + c) =
      Prod.map (fun v => a * v + c) (fun v => a * v + c) (cubeOne alpha b u u' flip x y) := by
  have e1 : ∀ p q : F, -alpha * (a * p + c) + (1 + alpha) * (a * q + c) = a * (-alpha * p + (1 + alpha) * q) + c := by
    intro p q; ring
  simp only [cubeOne, aff_eq ha, aff_min ha, aff_max ha, e1, atLeast_to ha, atMost_to ha, blend_to]
  split_ifs
  · rfl
  · rfl
  · simp only [Prod.map]
    refine Prod.ext ?_ ?_ <;> simp only <;> ring
  · simp only [Prod.map]
    refine Prod.ext ?_ ?_ <;> simp only <;> ring

theorem uxover_to (a c : Nat → F) (ha : ∀ i, 0 < a i) (flip : Nat → Bool) : ∀ (xs ys : List F) (i : Nat), xs.length ≤ ys.length →
    uxover flip i (units a c i xs) (units a c i ys) =
      (uxover flip i xs ys).map (Prod.map (units a c i) (Prod.map (units a c i) id))
  | [], ys, i, _ => rfl
  | x :: xs, [], i, h => absurd h (by simp)
  | x :: xs, y :: ys, i, h => by
    have ih := uxover_to a c ha flip xs ys (i + 1) (by simpa using h)
    simp only [units, uxover, List.tail_cons, ih]
    split_ifs
    · rcases uxover flip (i + 1) xs ys with e | ⟨p, q, r⟩
      · rfl
      · simp only [Except.map, Prod.map, units, aff_eq (ha i), id]
    · rcases uxover flip (i + 1) xs ys with e | ⟨p, q, r⟩
      · rfl
      · simp [Except.map, Prod.map, units]

omit [LinearOrder F] [IsStrictOrderedRing F] in
theorem blendAll_to (a c : Nat → F) (f : F) : ∀ (rs : List (F × F)) (i : Nat),
    (units2 a c i rs).map (fun r => blend f r.1 r.2) = units2 a c i (rs.map fun r => blend f r.1 r.2)
  | [], _ => rfl
  | (x, y) :: rs, i => by
    have h := blend_to (a i) (c i) f x y
    simp only [units2, List.map_cons, blendAll_to a c f rs (i + 1), h, Prod.map]

/-- **C397**: the segment, hypercube and uniform crossovers with or without bounds, and the exchange and the intermediate
recombination of evolution strategies: the children of the parents in other units are the children in other units. -/
theorem C397_crossovers (a c : Nat → F) (ha : ∀ i, 0 < a i) (alpha v : F) (u u' : Nat → F) (flip : Nat → Bool) (bs : List (Bound F))
    (rs : List (F × F)) (xs ys : List F) (hl : xs.length ≤ ys.length) :
    segment alpha v (boundsTo a c 0 bs) (units2 a c 0 rs) = units2 a c 0 (segment alpha v bs rs) ∧
    cube alpha u u' flip 0 (boundsTo a c 0 bs) (units2 a c 0 rs) = Prod.map (units2 a c 0) id (cube alpha u u' flip 0 bs rs) ∧
    uxover flip 0 (units a c 0 xs) (units a c 0 ys) =
      (uxover flip 0 xs ys).map (Prod.map (units a c 0) (Prod.map (units a c 0) id)) ∧
    (∀ s t x y : F, 0 < s → ∀ b, exchange b (s * x + t) (s * y + t) = Prod.map (fun r => s * r + t) id (exchange b x y)) ∧
    (∀ s t x y : F, intermediate alpha (s * x + t) (s * y + t) = Prod.map (fun r => s * r + t) id (intermediate alpha x y)) := by
  refine ⟨?_, ?_, uxover_to a c ha flip xs ys 0 hl, fun s t x y hs b => ?_, fun s t x y => ?_⟩
  · simp only [segment, segFactor, segLimits_to a c ha]
    exact blendAll_to a c _ rs 0
  · have key : ∀ (rs : List (F × F)) (bs : List (Bound F)) i, cube alpha u u' flip i (boundsTo a c i bs) (units2 a c i rs) =
        Prod.map (units2 a c i) id (cube alpha u u' flip i bs rs) := by
      intro rs
      induction rs with
      | nil => intro bs i; cases bs <;> rfl
      | cons r rs ih =>
        intro bs i
        obtain ⟨x, y⟩ := r
        cases bs with
        | nil => rfl
        | cons b bs =>
          simp only [boundsTo, units2, cube, cubeOne_to (ha i), ih bs (i + 1), aff_eq (ha i), Prod.map, id]
    exact key rs bs 0
  · simp only [exchange, ne_eq, aff_eq hs]
    split_ifs <;> rfl
  · simp only [intermediate, Prod.map, id]
    refine Prod.ext ?_ rfl
    simp only
    ring

end

/-- eoDetUniformMutation without bounds is different: it forgets where it was, so that shifting the origin changes what it does. -/
theorem C397_det_not : ∃ (eps : ℚ) (ds : List (Nat × ℚ)) (xs : List ℚ),
    detFree eps ds (units (fun _ => 1) (fun _ => 7) 0 xs) ≠ units (fun _ => 1) (fun _ => 7) 0 (detFree eps ds xs) :=
  ⟨1, [(0, 1 / 4)], [0, 0], by decide +kernel⟩

/-- Simulated binary crossover before the bounds. -/
theorem C397_sbx (a c beta x y : ℝ) :
    sbxPair beta (a * x + c) (a * y + c) = Prod.map (fun v => a * v + c) (fun v => a * v + c) (sbxPair beta x y) := by
  simp only [sbxPair, Prod.map]
  refine Prod.ext ?_ ?_ <;> simp only <;> ring

/-- The variables shifted. -/
noncomputable def shifted (c : Nat → ℝ) (xs : List ℝ) : List ℝ := xs.mapIdx fun i x => x + c i

/-- **C397**: the three self-adaptive mutations without bounds do not depend on the origin. -/
theorem C397_es_origin (c w : Nat → ℝ) (g tau taub s zs : ℝ) (zl zc z : Nat → ℝ) (xs ss cs : List ℝ) :
    mutSimple [] w tau zs z (shifted c xs) s = (mutSimple [] w tau zs z xs s).map (Prod.map (shifted c) id) ∧
    mutStdev [] w g tau zl z (shifted c xs) ss = (mutStdev [] w g tau zl z xs ss).map (Prod.map (shifted c) id) ∧
    mutFull [] w g tau taub zl zc z (shifted c xs) ss cs = (mutFull [] w g tau taub zl zc z xs ss cs).map (Prod.map (shifted c) id) := by
  have key : ∀ st : Nat → ℝ, (shifted c xs).mapIdx (fun i x => x + st i) = shifted c (xs.mapIdx fun i x => x + st i) := by
    intro st
    apply List.ext_getElem?
    intro i
    simp only [shifted, List.getElem?_mapIdx]
    cases xs[i]? with
    | none => rfl
    | some x => simp only [Option.map_some]; congr 1; ring
  have hlen : (shifted c xs).length = xs.length := by simp [shifted]
  refine ⟨?_, ?_, ?_⟩
  · simp only [mutSimple, Bounds.foldVec, key fun i => newStdev s (tau * zs) * z i]
    rfl
  · simp only [mutStdev, Bounds.foldVec]
    rw [key fun i => (ss.mapIdx fun i s => newStdev s (g + tau * zl i)).getD i 0 * z i]
    rfl
  · simp only [mutFull, Bounds.foldVec, hlen]
    rw [key]
    rfl

/-- The unit matters only because of the smallest standard deviation: above it, the mutation with one standard deviation does
not depend on the unit; at it, it does. -/
theorem C397_es_unit (a : ℝ) (w : Nat → ℝ) (tau s zs : ℝ) (z : Nat → ℝ) (xs : List ℝ)
    (h1 : 1 / 10 ^ 40 ≤ s * Real.exp (tau * zs)) (h2 : 1 / 10 ^ 40 ≤ a * (s * Real.exp (tau * zs))) :
    mutSimple [] w tau zs z (xs.map (a * ·)) (a * s) = (mutSimple [] w tau zs z xs s).map (Prod.map (List.map (a * ·)) (a * ·)) ∧
    ∃ b > 0, newStdev (b * s) (tau * zs) ≠ b * newStdev s (tau * zs) := by
  have e1 : newStdev s (tau * zs) = s * Real.exp (tau * zs) := by
    rw [newStdev, stdevEps, if_neg (not_lt.2 h1)]
  have e2 : newStdev (a * s) (tau * zs) = a * (s * Real.exp (tau * zs)) := by
    rw [newStdev, stdevEps, mul_assoc, if_neg (not_lt.2 h2)]
  have hpos : 0 < s * Real.exp (tau * zs) := lt_of_lt_of_le (by positivity) h1
  refine ⟨?_, 1 / 10 ^ 40 / (s * Real.exp (tau * zs)) / 2, by positivity, ?_⟩
  · simp only [mutSimple, Bounds.foldVec, e1, e2, Except.map, Prod.map]
    congr 2
    apply List.ext_getElem?
    intro i
    simp only [List.getElem?_mapIdx, List.getElem?_map]
    cases xs[i]? with
    | none => rfl
    | some x => simp only [Option.map_some]; congr 1; ring
  · have e3 : 1 / 10 ^ 40 / (s * Real.exp (tau * zs)) / 2 * s * Real.exp (tau * zs) = 1 / 10 ^ 40 / 2 := by
      rw [mul_assoc, div_div, mul_comm _ (2 : ℝ), ← div_div, div_mul_cancel₀ _ hpos.ne']
    have hlt : (1 : ℝ) / 10 ^ 40 / 2 < 1 / 10 ^ 40 := half_lt_self (by positivity)
    rw [e1, newStdev, e3, stdevEps, if_pos hlt, ← mul_assoc, e3]
    exact hlt.ne'

/-- The operators at work in metres and in centimetres. -/
example : uniformMut [Bound.interval (0 : ℚ) 1, .below 0] [1 / 2, 1] (fun _ => true) (fun _ => 1 / 4) [1 / 4, 3] =
      .ok ([3 / 16, 5 / 2], true) ∧
    uniformMut [Bound.interval (0 : ℚ) 100, .below 0] [50, 100] (fun _ => true) (fun _ => 1 / 4) [25, 300] =
      .ok ([75 / 4, 250], true) := by decide +kernel
example : boundsTo (fun _ => 100) (fun _ => 0) 0 [Bound.interval (0 : ℚ) 1, .below 0] = [.interval 0 100, .below 0] ∧
    units (fun _ => (100 : ℚ)) (fun _ => 0) 0 [1 / 4, 3] = [25, 300] := by
  constructor
  · norm_num [boundsTo, boundTo]
  · decide +kernel

end Paradiseo.ES

namespace Paradiseo.Run
open Paradiseo.EO Paradiseo.ES Paradiseo.Bounds

/-- The segment crossover of two vectors, which answers `true` (eoRealOp.h 328). -/
def segCross (alpha : ℚ) (u : Nat → ℚ) (bs : List (Bound ℚ)) (k : Nat) (x y : List ℚ) : Bool × List ℚ × List ℚ :=
  (true, (segment alpha (u k) bs (x.zip y)).map Prod.fst, (segment alpha (u k) bs (x.zip y)).map Prod.snd)

/-- The uniform mutation; one that fails ends the run, here it leaves the vector. -/
def uniMut (bs : List (Bound ℚ)) (es : List ℚ) (flip : Nat → Nat → Bool) (u : Nat → Nat → ℚ) (k : Nat) (x : List ℚ) : Bool × List ℚ :=
  match uniformMut bs es (flip k) (u k) x with
  | .ok (y, b) => (b, y)
  | .error _ => (false, x)

/-- A genetic algorithm for real vectors. -/
def realGA {F : Type} [LinearOrder F] [Inhabited F] (f : List ℚ → F) (t : Nat) (r : Nat → Nat → Nat → Nat) (u : Nat → Nat → ℚ)
    (alpha : ℚ) (cu : Nat → ℚ) (pCross : ℚ) (bs : List (Bound ℚ)) (es : List ℚ) (flip : Nat → Nat → Bool) (mu : Nat → Nat → ℚ) (pMut : ℚ)
    (R : Replacement (Ind (List ℚ) F)) (gens : Nat) : EA (List ℚ) F Nat where
  f := f
  breed := tournamentBreed (fun g i p => detTournament fitOf t (r g i) p 0) u (segCross alpha cu bs) pCross (uniMut bs es flip mu) pMut
  replace _ := R
  cont := genCont gens

theorem units2_zip (a c : Nat → ℚ) : ∀ (x y : List ℚ) (i : Nat), (units a c i x).zip (units a c i y) = units2 a c i (x.zip y)
  | [], _, _ => by simp [units, units2]
  | _ :: _, [], _ => by simp [units, units2]
  | x :: xs, y :: ys, i => by simp [units, units2, units2_zip a c xs ys (i + 1)]

theorem units2_parts (a c : Nat → ℚ) : ∀ (rs : List (ℚ × ℚ)) (i : Nat), (units2 a c i rs).map Prod.fst = units a c i (rs.map Prod.fst) ∧
    (units2 a c i rs).map Prod.snd = units a c i (rs.map Prod.snd)
  | [], _ => ⟨rfl, rfl⟩
  | (x, y) :: rs, i => by simp [units, units2, units2_parts a c rs (i + 1)]

/-- **C397**: a genetic algorithm with segment crossover and uniform mutation, with or without bounds, on the problem in other units,
from the population in these units, makes the run in these units: same fitnesses, generations and evaluations. -/
theorem C397_run {F : Type} [LinearOrder F] [Inhabited F] (f f' : List ℚ → F) (a c : Nat → ℚ) (ha : ∀ i, 0 < a i)
    (hf : ∀ x, f' (units a c 0 x) = f x) (t : Nat) (r : Nat → Nat → Nat → Nat) (u : Nat → Nat → ℚ)
    (alpha : ℚ) (cu : Nat → ℚ) (pCross : ℚ) (bs : List (Bound ℚ)) (es : List ℚ) (flip : Nat → Nat → Bool) (mu : Nat → Nat → ℚ) (pMut : ℚ)
    (R : Replacement (Ind (List ℚ) F)) (hR : SameReplace id (units a c 0) R R) (gens : Nat) (pop : List (Ind (List ℚ) F))
    (fuel evals k : Nat) :
    (realGA f' t r u alpha cu pCross (boundsTo a c 0 bs) (units a (fun _ => 0) 0 es) flip mu pMut R gens).run fuel
        (pop.map (regradeInd id (units a c 0))) evals k =
      ((realGA f t r u alpha cu pCross bs es flip mu pMut R gens).run fuel pop evals k).map (regradeSt id (units a c 0) id) := by
  refine C392_run id (units a c 0) id (realGA f t r u alpha cu pCross bs es flip mu pMut R gens)
    (realGA f' t r u alpha cu pCross (boundsTo a c 0 bs) (units a (fun _ => 0) 0 es) flip mu pMut R gens) (fun x => hf x) ?_ (fun _ => hR) ?_
    (twin_regrade _ _ pop) fuel evals k
  · refine (C392_breeding strictMono_id t r (fun _ _ _ => true) u pCross pMut (fun k x y => ?_) (fun k x => ?_)).1
    · have h := (C397_crossovers a c ha alpha (cu k) (fun _ => 0) (fun _ => 0) (fun _ => true) bs (x.zip y) [] [] le_rfl).1
      simp only [segCross, units2_zip, h, units2_parts]
    · have h := (C397_mutations a c ha (flip k) (mu k) (fun _ => 0) x).2.1 bs es
      simp only [uniMut, h]
      rcases uniformMut bs es (flip k) (mu k) x with e | ⟨y, b⟩ <;> rfl
  · exact (C392_continuators strictMono_id gens 0 0 default).1

end Paradiseo.Run
