/-
Property C398: distributions learned in other units.
-/
import Verif.Model.EdoEstim
import Verif.Model.EdoAlgo
import Verif.Props.RealUnits

namespace Paradiseo.Edo

open Paradiseo.ES (units)

/-! ### Uniform distributions -/

theorem mergeBound_to (f : ℚ → ℚ → ℚ) (a c : Nat → ℚ) (hf : ∀ i x y, f (a i * x + c i) (a i * y + c i) = a i * f x y + c i) :
    ∀ (ms vs : List ℚ) (i : Nat), mergeBound f (units a c i ms) (units a c i vs) = (mergeBound f ms vs).map (units a c i)
  | ms, [], i => by cases ms <;> rfl
  | [], _ :: _, _ => rfl
  | m :: ms, v :: vs, i => by
    simp only [units, mergeBound, mergeBound_to f a c hf ms vs (i + 1)]
    cases mergeBound f ms vs with
    | none => rfl
    | some ws => simp [units, hf]

private theorem aff_lt {a : ℚ} (ha : 0 < a) (c x y : ℚ) : a * x + c < a * y + c ↔ x < y := by
  rw [add_lt_add_iff_right, mul_lt_mul_iff_right₀ ha]

theorem boxLoop_to (a c : Nat → ℚ) (ha : ∀ i, 0 < a i) : ∀ (pop : List (List ℚ)) (b : List ℚ × List ℚ),
    boxLoop (pop.map (units a c 0)) (Prod.map (units a c 0) (units a c 0) b) =
      (boxLoop pop b).map (Prod.map (units a c 0) (units a c 0))
  | [], b => rfl
  | x :: xs, b => by
    have h1 := mergeBound_to lower a c (fun i x y => by simp only [lower, aff_lt (ha i)]; split_ifs <;> rfl) b.1 x 0
    have h2 := mergeBound_to upper a c (fun i x y => by simp only [upper, gt_iff_lt, aff_lt (ha i)]; split_ifs <;> rfl) b.2 x 0
    simp only [List.map_cons, boxLoop, Prod.map, h1, h2]
    cases mergeBound lower b.1 x with
    | none => rfl
    | some lo =>
      cases mergeBound upper b.2 x with
      | none => rfl
      | some hi => exact boxLoop_to a c ha xs (lo, hi)

/-- **C398**: the box learned from a population in other units is the box in these units, samples of it are the samples in these
units, and so are solutions put back into it. -/
theorem C398_uniform (a c : Nat → ℚ) (ha : ∀ i, 0 < a i) (pop : List (List ℚ)) (u : Nat → ℚ) (lo hi x : List ℚ) :
    estUniform (pop.map (units a c 0)) = (estUniform pop).map (Prod.map (units a c 0) (units a c 0)) ∧
    sampleUniform u 0 (units a c 0 lo) (units a c 0 hi) = (sampleUniform u 0 lo hi).map (units a c 0) ∧
    boundBound (units a c 0 lo) (units a c 0 hi) (units a c 0 x) = (boundBound lo hi x).map (units a c 0) ∧
    (∀ t, boundDraw (fun l h k => uniformIn l h (u k)) t (units a c 0 lo) (units a c 0 hi) (units a c 0 x) =
      (boundDraw (fun l h k => uniformIn l h (u k)) t lo hi x).map (Prod.map (units a c 0) id)) := by
  refine ⟨?_, ?_, ?_, fun t => ?_⟩
  · cases pop with
    | nil => rfl
    | cons x xs => exact boxLoop_to a c ha xs (x, x)
  · have key : ∀ (lo hi : List ℚ) i t, sampleUniform u t (units a c i lo) (units a c i hi) = (sampleUniform u t lo hi).map (units a c i) := by
      intro lo
      induction lo with
      | nil => intro hi i t; cases hi <;> rfl
      | cons l lo ih =>
        intro hi i t
        cases hi with
        | nil => rfl
        | cons h hi =>
          simp only [units, sampleUniform, ih hi (i + 1) (t + 1)]
          cases sampleUniform u (t + 1) lo hi with
          | none => rfl
          | some ws => simp only [Option.map_some, units, uniformIn]; congr 2; ring
    exact key lo hi 0 0
  · have key : ∀ (x lo hi : List ℚ) i, boundBound (units a c i lo) (units a c i hi) (units a c i x) = (boundBound lo hi x).map (units a c i) := by
      intro x
      induction x with
      | nil => intro lo hi i; cases lo <;> cases hi <;> rfl
      | cons v x ih =>
        intro lo hi i
        cases lo with
        | nil => rfl
        | cons l lo =>
          cases hi with
          | nil => rfl
          | cons h hi =>
            simp only [units, boundBound, ih lo hi (i + 1)]
            cases boundBound lo hi x with
            | none => rfl
            | some ws =>
              simp only [Option.map_some, units, clamp1, gt_iff_lt, aff_lt (ha i)]
              split_ifs <;> rfl
    exact key x lo hi 0
  · have key : ∀ (x lo hi : List ℚ) i t, boundDraw (fun l h k => uniformIn l h (u k)) t (units a c i lo) (units a c i hi) (units a c i x) =
        (boundDraw (fun l h k => uniformIn l h (u k)) t lo hi x).map (Prod.map (units a c i) id) := by
      intro x
      induction x with
      | nil => intro lo hi i t; cases lo <;> cases hi <;> rfl
      | cons v x ih =>
        intro lo hi i t
        cases lo with
        | nil => rfl
        | cons l lo =>
          cases hi with
          | nil => rfl
          | cons h hi =>
            simp only [units, boundDraw, ih lo hi (i + 1), gt_iff_lt, aff_lt (ha i)]
            split_ifs
            · cases boundDraw (fun l h k => uniformIn l h (u k)) (t + 1) lo hi x with
              | none => rfl
              | some ws => simp only [Option.map_some, Prod.map, units, uniformIn, id]; congr 3; ring
            · cases boundDraw (fun l h k => uniformIn l h (u k)) t lo hi x with
              | none => rfl
              | some ws => rfl
    exact key x lo hi 0 t

/-! ### Independent normal distributions -/

/-- The recurrences in both units: the means may differ before the first value. -/
structure VarTo (a c : ℚ) (v v' : Var) : Prop where
  nonneg : 0 ≤ v.n
  n : v'.n = v.n
  m2 : v'.m2 = a ^ 2 * v.m2
  mean : v.n = 0 ∨ v'.mean = a * v.mean + c

theorem VarTo.update {a c : ℚ} {v v' : Var} (h : VarTo a c v v') (x : ℚ) : VarTo a c (v.update x) (v'.update (a * x + c)) ∧ 0 < (v.update x).n := by
  obtain ⟨n, m, s⟩ := v
  obtain ⟨n', m', s'⟩ := v'
  obtain ⟨h0, h1, h2, h3⟩ := h
  simp only at h0 h1 h2 h3
  subst h1 h2
  have hp : n' + 1 ≠ 0 := by positivity
  refine ⟨⟨by simp only [Var.update]; linarith, rfl, ?_, Or.inr ?_⟩, by simp only [Var.update]; linarith⟩
  · rcases h3 with rfl | rfl
    · simp only [Var.update]; ring
    · simp only [Var.update]; field_simp; ring
  · rcases h3 with rfl | rfl
    · simp only [Var.update]; ring
    · simp only [Var.update]; field_simp; ring

/-- Variable by variable. -/
inductive VarsTo (a c : Nat → ℚ) (P : Var → Prop) : Nat → List Var → List Var → Prop
  | nil (i) : VarsTo a c P i [] []
  | cons {i v v' vs vs'} (h : VarTo (a i) (c i) v v') (hp : P v) (hs : VarsTo a c P (i + 1) vs vs') : VarsTo a c P i (v :: vs) (v' :: vs')

theorem VarsTo.row {a c : Nat → ℚ} {P : Var → Prop} {i : Nat} {vs vs' : List Var} (h : VarsTo a c P i vs vs') : ∀ x : List ℚ,
    match varRow vs x, varRow vs' (units a c i x) with
    | none, none => True
    | some ws, some ws' => VarsTo a c (fun v => 0 < v.n) i ws ws'
    | _, _ => False := by
  induction h with
  | nil i => intro x; cases x <;> exact VarsTo.nil _
  | @cons i v v' vs vs' h hp hs ih =>
    intro x
    cases x with
    | nil => trivial
    | cons y x =>
      have := ih x
      simp only [units, varRow]
      generalize varRow vs x = r at this ⊢
      generalize varRow vs' (units a c (i + 1) x) = r' at this ⊢
      cases r <;> cases r' <;> simp only at this ⊢
      exact VarsTo.cons (h.update y).1 (h.update y).2 this

theorem VarsTo.loop {a c : Nat → ℚ} : ∀ (pop : List (List ℚ)) {vs vs' : List Var}, VarsTo a c (fun v => 0 < v.n) 0 vs vs' →
    match varLoop pop vs, varLoop (pop.map (units a c 0)) vs' with
    | none, none => True
    | some ws, some ws' => VarsTo a c (fun v => 0 < v.n) 0 ws ws'
    | _, _ => False
  | [], _, _, h => h
  | x :: xs, vs, vs', h => by
    have := h.row x
    simp only [List.map_cons, varLoop]
    generalize varRow vs x = r at this ⊢
    generalize varRow vs' (units a c 0 x) = r' at this ⊢
    cases r <;> cases r' <;> simp only at this ⊢
    exact VarsTo.loop xs this

theorem varsTo_init (a c : Nat → ℚ) : ∀ (n i : Nat), VarsTo a c (fun _ => True) i (List.replicate n Var.init) (List.replicate n Var.init)
  | 0, _ => .nil _
  | n + 1, i => .cons ⟨le_refl (0 : ℚ), rfl, by simp [Var.init], Or.inl rfl⟩ trivial (varsTo_init a c n (i + 1))

theorem VarsTo.result {a c : Nat → ℚ} {i : Nat} {vs vs' : List Var} (h : VarsTo a c (fun v => 0 < v.n) i vs vs') :
    vs'.map Var.mean = units a c i (vs.map Var.mean) ∧
    vs'.map Var.varN = units (fun k => a k ^ 2) (fun _ => 0) i (vs.map Var.varN) := by
  induction h with
  | nil => exact ⟨rfl, rfl⟩
  | cons h hp _ ih =>
    refine ⟨?_, ?_⟩
    · simp only [List.map_cons, units, ih.1, h.mean.resolve_left hp.ne']
    · simp only [List.map_cons, units, ih.2, Var.varN, h.n, h.m2]
      congr 1
      ring

/-- **C398**: the means and variances learned from a population in other units, and the samples of them. -/
theorem C398_normal (a c : Nat → ℚ) (pop : List (List ℚ)) :
    estNormalMono (pop.map (units a c 0)) =
      (estNormalMono pop).map (Prod.map (units a c 0) (units (fun k => a k ^ 2) (fun _ => 0) 0)) ∧
    ∀ (b d : Nat → ℝ) (_ : ∀ i, 0 < b i) (mean variance z : Nat → ℝ) (i : Nat),
      sampleNormalMono (fun i => b i * mean i + d i) (fun i => b i ^ 2 * variance i) z i = b i * sampleNormalMono mean variance z i + d i := by
  refine ⟨?_, fun b d hb mean variance z i => ?_⟩
  · cases pop with
    | nil => rfl
    | cons x xs =>
      simp only [List.map_cons, estNormalMono, ES.units_length, varLoop]
      have h := (varsTo_init a c x.length 0).row x
      generalize varRow (List.replicate x.length Var.init) x = r at h ⊢
      generalize varRow (List.replicate x.length Var.init) (units a c 0 x) = r' at h ⊢
      cases r with
      | none =>
        cases r' with
        | none => rfl
        | some ws' => exact absurd h id
      | some ws =>
        cases r' with
        | none => exact absurd h id
        | some ws' =>
          have h := VarsTo.loop xs h
          simp only
          generalize varLoop xs ws = q at h ⊢
          generalize varLoop (xs.map (units a c 0)) ws' = q' at h ⊢
          cases q with
          | none =>
            cases q' with
            | none => rfl
            | some _ => exact absurd h id
          | some vs =>
            cases q' with
            | none => exact absurd h id
            | some vs' => simp only [Option.map_some, Prod.map, (VarsTo.result h).1, (VarsTo.result h).2]
  · simp only [sampleNormalMono, Real.sqrt_mul (sq_nonneg (b i)), Real.sqrt_sq (hb i).le]
    ring

/-! ### Normal distributions with a covariance matrix -/

/-- The rows of a factor in other units. -/
def rowsTo (a : Nat → ℝ) (L : Mat) : Mat := fun i k => a i * L i k
/-- A covariance matrix in other units. -/
def covTo (a : Nat → ℝ) (V : Mat) : Mat := fun i j => a i * a j * V i j

theorem loopN_to {β : Type} (γ : β → β) (f f' : β → Nat → Option β) (h : ∀ s k, f' (γ s) k = (f s k).map γ) :
    ∀ (n k : Nat) (s : β), loopN f' k n (γ s) = (loopN f k n s).map γ
  | 0, _, _ => rfl
  | n + 1, k, s => by
    simp only [loopN, h]
    cases f s k with
    | none => rfl
    | some s' => exact loopN_to γ f f' h n (k + 1) s'

theorem setMat_to (a : Nat → ℝ) (L : Mat) (i j : Nat) (v : ℝ) : setMat (rowsTo a L) i j (a i * v) = rowsTo a (setMat L i j v) := by
  funext p q
  simp only [setMat, rowsTo]
  split_ifs with h
  · rw [h.1]
  · rfl

theorem dotRows_to (a : Nat → ℝ) (L : Mat) (j i n : Nat) : dotRows (rowsTo a L) j i n = a j * a i * dotRows L j i n := by
  have key : ∀ (l : List Nat) (s : ℝ), l.foldl (fun s k => s + rowsTo a L j k * rowsTo a L i k) (a j * a i * s) =
      a j * a i * l.foldl (fun s k => s + L j k * L i k) s := by
    intro l
    induction l with
    | nil => intro s; rfl
    | cons k l ih =>
      intro s
      simp only [List.foldl_cons, ← ih]
      congr 1
      simp only [rowsTo]
      ring
  have := key (List.range n) 0
  rwa [mul_zero] at this

theorem div_to {a b : ℝ} (hb : 0 < b) (x y : ℝ) : div? (a * b * x) (b * y) = (div? x y).map (a * ·) := by
  simp only [div?, mul_eq_zero, hb.ne', false_or]
  split_ifs with h
  · rfl
  · simp only [Option.map_some]
    congr 1
    field_simp

theorem sqrt_to {a : ℝ} (ha : 0 < a) (x : ℝ) : sqrt? (a * a * x) = (sqrt? x).map (a * ·) := by
  have h : a * a * x < 0 ↔ x < 0 := by
    have := mul_pos ha ha
    constructor <;> intro h <;> nlinarith
  simp only [sqrt?, h]
  split_ifs
  · rfl
  · rw [Real.sqrt_mul (mul_self_nonneg a), Real.sqrt_mul_self ha.le]
    rfl

/-- **C398**: the factors of the three variants. -/
theorem C398_cholesky (a : Nat → ℝ) (ha : ∀ i, 0 < a i) (V : Mat) (N : Nat) :
    ∀ piv ∈ [pivLLT, pivAbs, pivZero], factorize piv (covTo a V) N = (factorize piv V N).map (rowsTo a) := by
  intro piv hpiv
  have hp : ∀ i x, piv (a i * a i * x) = (piv x).map (a i * ·) := by
    intro i x
    have hpos := mul_pos (ha i) (ha i)
    simp only [List.mem_cons, List.not_mem_nil, or_false] at hpiv
    rcases hpiv with rfl | rfl | rfl
    · exact sqrt_to (ha i) x
    · rw [pivAbs, abs_mul, abs_of_pos hpos]; exact sqrt_to (ha i) |x|
    · simp only [pivZero, mul_nonneg_iff_of_pos_left hpos]
      split_ifs
      · exact sqrt_to (ha i) x
      · simp
  have hentry : ∀ i L j, lltEntry (covTo a V) i (rowsTo a L) j = (lltEntry V i L j).map (rowsTo a) := by
    intro i L j
    have e : covTo a V j i - dotRows (rowsTo a L) j i i = a j * a i * (V j i - dotRows L j i i) := by
      rw [dotRows_to, covTo]; ring
    simp only [lltEntry, e]
    rw [show rowsTo a L i i = a i * L i i from rfl, div_to (ha i)]
    cases div? (V j i - dotRows L j i i) (L i i) with
    | none => rfl
    | some v => simp only [Option.map_some, setMat_to]
  have hcol : ∀ L i, lltCol piv (covTo a V) N (rowsTo a L) i = (lltCol piv V N L i).map (rowsTo a) := by
    intro L i
    have e : covTo a V i i - dotRows (rowsTo a L) i i i = a i * a i * (V i i - dotRows L i i i) := by
      rw [dotRows_to, covTo]; ring
    simp only [lltCol, e, hp]
    cases piv (V i i - dotRows L i i i) with
    | none => rfl
    | some v =>
      simp only [Option.map_some, setMat_to]
      exact loopN_to _ _ _ (fun s k => hentry i s k) _ _ _
  have hfirst : ∀ L j, lltFirst (covTo a V) (rowsTo a L) j = (lltFirst V L j).map (rowsTo a) := by
    intro L j
    simp only [lltFirst]
    rw [show rowsTo a L 0 0 = a 0 * L 0 0 from rfl, show covTo a V 0 j = a j * a 0 * V 0 j by rw [covTo]; ring, div_to (ha 0)]
    cases div? (V 0 j) (L 0 0) with
    | none => rfl
    | some v => simp only [Option.map_some, setMat_to]
  simp only [factorize]
  split_ifs
  · rfl
  · rw [show covTo a V 0 0 = a 0 * a 0 * V 0 0 from rfl, sqrt_to (ha 0)]
    cases sqrt? (V 0 0) with
    | none => rfl
    | some v =>
      have h0 : setMat (fun _ _ => 0) 0 0 (a 0 * v) = rowsTo a (setMat (fun _ _ => 0) 0 0 v) := by
        rw [← setMat_to]
        congr 1
        funext i k
        simp [rowsTo]
      simp only [Option.map_some, h0]
      rw [loopN_to (rowsTo a) (lltFirst V) _ hfirst]
      cases loopN (lltFirst V) 1 (N - 1) (setMat (fun _ _ => 0) 0 0 v) with
      | none => rfl
      | some L => exact loopN_to (rowsTo a) (lltCol piv V N) _ hcol _ _ _

/-- **C398**: what is learned with a covariance matrix follows the units, and samples of any mean and covariance matrix follow units and
origin. -/
theorem C398_multi (a d : Nat → ℝ) (ha : ∀ i, 0 < a i) (n N : Nat) (s : Nat → Nat → ℝ) (mean : Nat → ℝ) (V : Mat) (z : Nat → ℝ) :
    covMean n (fun p i => a i * s p i) = (fun i => a i * covMean n s i) ∧
    covMatrix n (fun p i => a i * s p i) = covTo a (covMatrix n s) ∧
    sampleNormalMulti N (fun i => a i * mean i + d i) (covTo a V) z =
      (sampleNormalMulti N mean V z).map fun x i => a i * x i + d i := by
  refine ⟨?_, ?_, ?_⟩
  · funext i
    simp only [covMean, mul_one, ← Finset.mul_sum, mul_div_assoc]
  · funext i j
    simp only [covMatrix, covTo, ← mul_div_assoc, Finset.mul_sum]
    congr 1
    exact Finset.sum_congr rfl fun p _ => by ring
  · simp only [sampleNormalMulti, C398_cholesky a ha V N pivLLT (by simp)]
    cases factorize pivLLT V N with
    | none => rfl
    | some L =>
      simp only [Option.map_some]
      congr 1
      funext i
      simp only [rowsTo, mul_add, Finset.mul_sum, mul_assoc]
      ring

/-- The matrix learned does not follow the origin: shifting a population by `d` where it is not centred changes its matrix. -/
theorem C398_multi_origin {n : Nat} (hn : 0 < n) (s : Nat → Nat → ℝ) (d : Nat → ℝ) (i : Nat) :
    covMatrix n (fun p i => s p i + d i) i i = covMatrix n s i i ↔ d i = 0 ∨ d i = -2 * covMean n s i := by
  have hn' : (n : ℝ) ≠ 0 := by exact_mod_cast hn.ne'
  have e : covMatrix n (fun p i => s p i + d i) i i = covMatrix n s i i + d i * (d i + 2 * covMean n s i) := by
    simp only [covMatrix, covMean, mul_one]
    have : ∑ p ∈ Finset.range n, (s p i + d i) * (s p i + d i) =
        ∑ p ∈ Finset.range n, s p i * s p i + 2 * d i * ∑ p ∈ Finset.range n, s p i + n * (d i * d i) := by
      rw [Finset.mul_sum, ← Finset.sum_add_distrib]
      have h : (n : ℝ) * (d i * d i) = ∑ p ∈ Finset.range n, d i * d i := by simp
      rw [h, ← Finset.sum_add_distrib]
      exact Finset.sum_congr rfl fun p _ => by ring
    rw [this]
    field_simp
    ring
  rw [e, add_eq_left, mul_eq_zero]
  constructor
  · rintro (h | h)
    · exact Or.inl h
    · exact Or.inr (by linarith)
  · rintro (h | h)
    · exact Or.inl h
    · exact Or.inr (by linarith)

/-! ### Whole runs -/

/-- A generation in other units. -/
def genTo {D α : Type} (δ : D → D) (γ : α → α) (g : Gen D α) : Gen D α :=
  ⟨g.before.map γ, g.selected.map γ, δ g.distrib, g.current.map γ, g.after.map γ⟩
def finalTo {D α : Type} (δ : D → D) (γ : α → α) (r : Final D α) : Final D α := ⟨δ r.distrib, r.pop.map γ, r.byDistrib⟩

/-- The operators do the same in both units. -/
structure SameParts {D α : Type} (δ : D → D) (γ : α → α) (p p' : Parts D α) : Prop where
  estInit : ∀ d l, p'.estInit (δ d) (l.map γ) = δ (p.estInit d l)
  est : ∀ d l, p'.est (δ d) (l.map γ) = δ (p.est d l)
  select : ∀ g l, p'.select g (l.map γ) = (p.select g l).map γ
  dcont : ∀ g d, p'.dcont g (δ d) = p.dcont g d
  sample : ∀ g i d, p'.eval (p'.sample g i (δ d)) = γ (p.eval (p.sample g i d))
  replace : ∀ g l l', p'.replace g (l.map γ) (l'.map γ) = (p.replace g l l').map γ
  pcont : ∀ g l, p'.pcont g (l.map γ) = p.pcont g l

/-- **C398**: an estimation of distribution algorithm whose operators do the same in both units makes the same run. -/
theorem C398_run {D α : Type} {δ : D → D} {γ : α → α} {p p' : Parts D α} (h : SameParts δ γ p p') (fuel : Nat) (d : D) (pop : List α) :
    p'.run fuel (δ d) (pop.map γ) = (p.run fuel d pop).map (Prod.map (List.map (genTo δ γ)) (finalTo δ γ)) := by
  have key : ∀ fuel g d pop, p'.loop fuel g (δ d) (pop.map γ) =
      (p.loop fuel g d pop).map (Prod.map (List.map (genTo δ γ)) (finalTo δ γ)) := by
    intro fuel
    induction fuel with
    | zero => intro g d pop; rfl
    | succ fuel ih =>
      intro g d pop
      have hs : ∀ d n, p'.sampled g (δ d) n = (p.sampled g d n).map γ := by
        intro d n
        simp only [Parts.sampled, List.map_map]
        exact List.map_congr_left fun i _ => h.sample g i d
      simp only [Parts.loop, h.select, List.isEmpty_map, h.est, h.dcont, hs, List.length_map, h.replace, h.pcont, ih]
      split_ifs
      · rfl
      · cases p.loop fuel (g + 1) (p.est d (p.select g pop))
          (p.replace g pop (p.sampled g (p.est d (p.select g pop)) pop.length)) with
        | error e => rfl
        | ok r => rfl
      · rfl
      · rfl
  simp only [Parts.run, List.isEmpty_map, h.estInit, key]
  split_ifs <;> rfl

/-- An algorithm that learns a box from the better half and continues with what it sampled. -/
def boxEDA (f : List ℚ → ℚ) (u : Nat → Nat → Nat → ℚ) (gens : Nat) : Parts (List ℚ × List ℚ) (List ℚ × ℚ) where
  estInit d _ := d
  est d l := (estUniform (l.map Prod.fst)).getD d
  select _ l := (l.mergeSort fun x y => decide (y.2 ≤ x.2)).take ((l.length + 1) / 2)
  dcont _ _ := true
  sample g i d := ((sampleUniform (u g i) 0 d.1 d.2).getD d.1, 0)
  eval x := (x.1, f x.1)
  replace _ _ l := l
  pcont g _ := decide (g < gens)

/-- Its run on the problem in other units. -/
theorem C398_box_run (a c : Nat → ℚ) (ha : ∀ i, 0 < a i) (f f' : List ℚ → ℚ) (hf : ∀ x, f' (units a c 0 x) = f x)
    (u : Nat → Nat → Nat → ℚ) (gens fuel : Nat) (d : List ℚ × List ℚ) (pop : List (List ℚ × ℚ)) :
    (boxEDA f' u gens).run fuel (Prod.map (units a c 0) (units a c 0) d) (pop.map (Prod.map (units a c 0) id)) =
      ((boxEDA f u gens).run fuel d pop).map
        (Prod.map (List.map (genTo (Prod.map (units a c 0) (units a c 0)) (Prod.map (units a c 0) id)))
          (finalTo (Prod.map (units a c 0) (units a c 0)) (Prod.map (units a c 0) id))) := by
  refine C398_run (p := boxEDA f u gens) (p' := boxEDA f' u gens)
    ⟨fun d l => rfl, fun d l => ?_, fun g l => ?_, fun _ _ => rfl, fun g i d => ?_, fun _ _ _ => rfl, fun _ _ => rfl⟩ fuel d pop
  · have h := (C398_uniform a c ha (l.map Prod.fst) (fun _ => 0) [] [] []).1
    have e : (l.map (Prod.map (units a c 0) id)).map Prod.fst = (l.map Prod.fst).map (units a c 0) := by
      simp [List.map_map, Function.comp_def]
    simp only [boxEDA, e, h]
    cases estUniform (l.map Prod.fst) <;> rfl
  · simp only [boxEDA, List.length_map, List.map_take]
    rw [List.map_mergeSort (s := fun x y : List ℚ × ℚ => decide (y.2 ≤ x.2))]
    intro x _ y _
    rfl
  · have h := (C398_uniform a c ha [] (u g i) d.1 d.2 []).2.1
    simp only [boxEDA, Prod.map, h, id]
    cases sampleUniform (u g i) 0 d.1 d.2 <;> simp [hf]

/-- A population of three in two units, for the two one-pass estimators. -/
example : estUniform [[1, 5], [3, 4], [2, 6]] = some ([1, 4], [3, 6]) ∧
    estUniform [[100, 50], [300, 40], [200, 60]] = some ([100, 40], [300, 60]) ∧
    estNormalMono [[1], [3]] = some ([2], [1]) ∧ estNormalMono [[103], [109]] = some ([106], [9]) := by decide +kernel

end Paradiseo.Edo
