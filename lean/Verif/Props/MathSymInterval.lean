import Verif.Model.MathSymEval
import Mathlib.Analysis.SpecialFunctions.Pow.Real
import Mathlib.Analysis.Complex.ExponentialBounds

/-!
# C251, C252: expressions accepted by the check of bounds; evaluation of two populations

`InDom f v`: the function `f` has a value at `v` in the sense of calculus.  `apD` is evaluation that gives no value
outside the domain.  The specification of acceptance: for all inputs in the box, evaluation stays inside all
domains, and the value lies in the reported interval and strictly between minus and plus ten to the tenth.
-/

namespace Paradiseo.MathSym

open Paradiseo.EO

/-- A value lies in an interval. -/
def Within (p : ℝ × ℝ) (v : ℝ) : Prop := p.1 ≤ v ∧ v ≤ p.2

/-- The domain of the functions of one argument, and of the base of a power. -/
def InDom : Fn → ℝ → Prop
  | .inv, v => v ≠ 0
  | .tan, v => Real.cos v ≠ 0
  | .asin, v => -1 ≤ v ∧ v ≤ 1
  | .acos, v => -1 ≤ v ∧ v ≤ 1
  | .acosh, v => 1 ≤ v
  | .atanh, v => -1 < v ∧ v < 1
  | .log, v => 0 < v
  | .sqrt, v => 0 ≤ v
  | .pow, v => 0 < v
  | _, _ => True

open Classical in
/-- The built-in functions inside their domains only. -/
noncomputable def apD (f : Fn) (vs : List ℝ) : Option ℝ :=
  match vs with
  | [] => apR f []
  | v :: vs => if InDom f v then apR f (v :: vs) else none

/-- What is assumed of the interval library: a result with finite ends encloses the values, and the function has
a value everywhere on the argument. -/
def Encloses (B : Fn → ℝ × ℝ → Iv) : Prop :=
  ∀ f g, unR f = some g → ∀ p q, B f p = some q → ∀ v, Within p v → InDom f v ∧ Within q (g v)

/-! ### Arithmetic of intervals -/

theorem within_add {p q : ℝ × ℝ} {u v : ℝ} (hu : Within p u) (hv : Within q v) : Within (ivAdd p q) (u + v) :=
  ⟨add_le_add hu.1 hv.1, add_le_add hu.2 hv.2⟩

theorem mul_between {a b v t : ℝ} (h1 : a ≤ v) (h2 : v ≤ b) : min (a * t) (b * t) ≤ v * t ∧ v * t ≤ max (a * t) (b * t) := by
  rcases le_total 0 t with ht | ht
  · exact ⟨le_trans (min_le_left _ _) (mul_le_mul_of_nonneg_right h1 ht),
      le_trans (mul_le_mul_of_nonneg_right h2 ht) (le_max_right _ _)⟩
  · exact ⟨le_trans (min_le_right _ _) (mul_le_mul_of_nonpos_right h2 ht),
      le_trans (mul_le_mul_of_nonpos_right h1 ht) (le_max_left _ _)⟩

theorem within_mul {p q : ℝ × ℝ} {u v : ℝ} (hu : Within p u) (hv : Within q v) : Within (ivMul p q) (u * v) := by
  obtain ⟨a, b⟩ := p
  obtain ⟨c, d⟩ := q
  have h1 := mul_between (t := v) hu.1 hu.2
  have h2 := mul_between (t := a) hv.1 hv.2
  have h3 := mul_between (t := b) hv.1 hv.2
  simp only [Within, ivMul] at *
  constructor
  · refine le_trans ?_ h1.1
    refine le_min ?_ ?_
    · refine le_trans (min_le_left _ _) ?_
      rw [mul_comm a c, mul_comm a d, mul_comm a v]; exact h2.1
    · refine le_trans (min_le_right _ _) ?_
      rw [mul_comm b c, mul_comm b d, mul_comm b v]; exact h3.1
  · refine le_trans h1.2 ?_
    refine max_le ?_ ?_
    · refine le_trans ?_ (le_max_left _ _)
      rw [mul_comm a c, mul_comm a d, mul_comm a v]; exact h2.2
    · refine le_trans ?_ (le_max_right _ _)
      rw [mul_comm b c, mul_comm b d, mul_comm b v]; exact h3.2

theorem within_foldl {g : ℝ × ℝ → ℝ × ℝ → ℝ × ℝ} {o : ℝ → ℝ → ℝ}
    (hg : ∀ {p q : ℝ × ℝ} {u v : ℝ}, Within p u → Within q v → Within (g p q) (o u v)) :
    ∀ {ps : List (ℝ × ℝ)} {vs : List ℝ} (p : ℝ × ℝ) (u : ℝ), List.Forall₂ Within ps vs → Within p u →
      Within (ps.foldl g p) (vs.foldl o u) := by
  intro ps vs p u h
  induction h generalizing p u with
  | nil => exact fun h => h
  | cons h _ ih => intro hp; exact ih _ _ (hg hp h)

theorem validIv_some {p : ℝ × ℝ} (h : validIv (some p) = true) : -(10 ^ 10) < p.1 ∧ p.2 < 10 ^ 10 := by
  obtain ⟨a, b⟩ := p
  simpa [validIv] using h

/-! ### Evaluation on intervals -/

variable {B : Fn → ℝ × ℝ → Iv}

theorem ivAp_sound (hB : Encloses B) {f : Fn} {ps : List (ℝ × ℝ)} {vs : List ℝ} {q : ℝ × ℝ}
    (h : ivAp B f ps = .ok (some q)) (hv : List.Forall₂ Within ps vs) : ∃ v, apD f vs = some v ∧ Within q v := by
  cases hv with
  | nil =>
    cases f <;> simp only [ivAp, reduceCtorEq, Except.ok.injEq, Option.some.injEq, List.foldl_nil] at h
    · subst h; exact ⟨0, rfl, le_refl _, le_refl _⟩
    · subst h; exact ⟨1, rfl, le_refl _, le_refl _⟩
  | @cons p v ps vs hpv hv =>
    have un : ∀ {f : Fn} {g : ℝ → ℝ}, unR f = some g → apR f (v :: vs) = some (g v) → B f p = some q →
        ∃ w, apD f (v :: vs) = some w ∧ Within q w := by
      intro f g h1 h2 h3
      obtain ⟨h4, h5⟩ := hB f g h1 p q h3 v hpv
      exact ⟨g v, by rw [apD, if_pos h4, h2], h5⟩
    cases f with
    | sum =>
      simp only [ivAp, Except.ok.injEq, Option.some.injEq] at h
      subst h
      exact ⟨_, by rw [apD, if_pos (show InDom .sum v from trivial)]; rfl,
        within_foldl (fun h1 h2 => within_add h1 h2) _ _ (List.Forall₂.cons hpv hv) ⟨le_refl _, le_refl _⟩⟩
    | prod =>
      simp only [ivAp, Except.ok.injEq, Option.some.injEq] at h
      subst h
      exact ⟨_, by rw [apD, if_pos (show InDom .prod v from trivial)]; rfl,
        within_foldl (fun h1 h2 => within_mul h1 h2) _ _ (List.Forall₂.cons hpv hv) ⟨le_refl _, le_refl _⟩⟩
    | pow =>
      cases hv with
      | nil => simp [ivAp, unR] at h
      | @cons p2 v2 ps vs h2 hv =>
        simp only [ivAp] at h
        split at h
        · exact absurd h (by simp)
        · rename_i lg hlg
          split at h
          · obtain ⟨h4, h5⟩ := hB .log _ rfl _ _ hlg v hpv
            have h6 := within_mul h2 h5
            obtain ⟨-, h7⟩ := hB .exp _ rfl _ _ (Except.ok.inj h) _ h6
            have hpos : 0 < v := h4
            refine ⟨v ^ v2, by rw [apD, if_pos (show InDom .pow v from hpos)]; rfl, ?_⟩
            rw [Real.rpow_def_of_pos hpos, mul_comm]
            exact h7
          · exact absurd h (by simp)
    | ifltz =>
      match hv with
      | .nil => simp [ivAp, unR] at h
      | .cons h2 .nil => simp [ivAp, unR] at h
      | @List.Forall₂.cons _ _ _ p2 v2 _ _ h2 (@List.Forall₂.cons _ _ _ p3 v3 _ _ h3 hv) =>
        simp only [ivAp, Except.ok.injEq, Option.some.injEq] at h
        refine ⟨if v < 0 then v2 else v3, by rw [apD, if_pos (show InDom .ifltz v from trivial), apR], ?_⟩
        subst h
        split
        · rename_i h
          rw [if_pos (lt_of_le_of_lt hpv.2 h)]
          exact h2
        · split
          · rename_i h
            rw [if_neg (not_lt.mpr (le_trans h hpv.1))]
            exact h3
          · split
            · exact ⟨le_trans (min_le_left _ _) h2.1, le_trans h2.2 (le_max_left _ _)⟩
            · exact ⟨le_trans (min_le_right _ _) h3.1, le_trans h3.2 (le_max_right _ _)⟩
    | sqrt =>
      simp only [ivAp, Except.ok.injEq] at h
      split at h
      · exact absurd h (by simp)
      · exact un rfl rfl h
    | acos =>
      simp only [ivAp, Except.ok.injEq] at h
      split at h
      · exact absurd h (by simp)
      · exact un rfl rfl h
    | asin =>
      simp only [ivAp, Except.ok.injEq] at h
      split at h
      · exact absurd h (by simp)
      · exact un rfl rfl h
    | acosh =>
      simp only [ivAp, Except.ok.injEq] at h
      split at h
      · exact absurd h (by simp)
      · exact un rfl rfl h
    | min =>
      simp only [ivAp, Except.ok.injEq, Option.some.injEq] at h
      subst h
      exact ⟨-v, by rw [apD, if_pos (show InDom .min v from trivial)]; rfl, neg_le_neg hpv.2, neg_le_neg hpv.1⟩
    | _ =>
      simp only [ivAp, unR, Except.ok.injEq] at h
      exact un rfl rfl h

theorem forall2_get {ps : List (ℝ × ℝ)} {vs : List ℝ} (h : List.Forall₂ Within ps vs) {i : Nat} {p : ℝ × ℝ}
    (hp : ps[i]? = some p) : ∃ v, vs[i]? = some v ∧ Within p v := by
  induction h generalizing i with
  | nil => simp at hp
  | cons h _ ih =>
    cases i with
    | zero => simp only [List.getElem?_cons_zero, Option.some.injEq] at hp; subst hp; exact ⟨_, rfl, h⟩
    | succ i => simp only [List.getElem?_cons_succ] at hp ⊢; exact ih hp

mutual
theorem ivalT_sound (hB : Encloses B) {ci : Nat → List (ℝ × ℝ) → Except Err Iv} {cd : Nat → List ℝ → Option ℝ}
    (hc : ∀ k ps vs q, ci k ps = .ok (some q) → List.Forall₂ Within ps vs → ∃ v, cd k vs = some v ∧ Within q v)
    {bs : List (ℝ × ℝ)} {x : List ℝ} (hx : List.Forall₂ Within bs x) :
    ∀ (e : Expr ℝ) {q : ℝ × ℝ}, ivalT B ci bs e = .ok (some q) → ∃ v, evalT apD cd x e = some v ∧ Within q v
  | .node (.var i) as, q, h => by
    rw [ivalT] at h
    split at h
    · exact absurd h (by simp)
    · split at h
      · exact absurd h (by simp)
      · rename_i p hp
        simp only [Except.ok.injEq, Option.some.injEq] at h
        subst h
        rw [evalT]
        exact forall2_get hx hp
  | .node (.const c) as, q, h => by
    rw [ivalT] at h
    split at h
    · exact absurd h (by simp)
    · simp only [Except.ok.injEq, Option.some.injEq] at h
      subst h
      exact ⟨c, by rw [evalT], le_refl _, le_refl _⟩
  | .node (.fn f) as, q, h => by
    rw [ivalT] at h
    split at h
    · exact absurd h (by simp)
    · rename_i ps hps
      obtain ⟨vs, h1, h2⟩ := ivalArgs_sound hB hc hx as hps
      rw [evalT, h1]
      exact ivAp_sound hB h h2
  | .node (.lam k) as, q, h => by
    rw [ivalT] at h
    split at h
    · exact absurd h (by simp)
    · rename_i ps hps
      obtain ⟨vs, h1, h2⟩ := ivalArgs_sound hB hc hx as hps
      rw [evalT, h1]
      exact hc k ps vs q h h2
theorem ivalArgs_sound (hB : Encloses B) {ci : Nat → List (ℝ × ℝ) → Except Err Iv} {cd : Nat → List ℝ → Option ℝ}
    (hc : ∀ k ps vs q, ci k ps = .ok (some q) → List.Forall₂ Within ps vs → ∃ v, cd k vs = some v ∧ Within q v)
    {bs : List (ℝ × ℝ)} {x : List ℝ} (hx : List.Forall₂ Within bs x) :
    ∀ (as : List (Expr ℝ)) {ps : List (ℝ × ℝ)}, ivalArgs B ci bs as = .ok ps →
      ∃ vs, evalArgs apD cd x as = some vs ∧ List.Forall₂ Within ps vs
  | [], ps, h => by
    simp only [ivalArgs, Except.ok.injEq] at h
    subst h
    exact ⟨[], by rw [evalArgs], List.Forall₂.nil⟩
  | a :: as, ps, h => by
    rw [ivalArgs] at h
    split at h
    · exact absurd h (by simp)
    · exact absurd h (by simp)
    · rename_i p hp
      split at h
      · split at h
        · exact absurd h (by simp)
        · rename_i qs hqs
          simp only [Except.ok.injEq] at h
          subst h
          obtain ⟨v, h1, h2⟩ := ivalT_sound hB hc hx a hp
          obtain ⟨vs, h3, h4⟩ := ivalArgs_sound hB hc hx as hqs
          exact ⟨v :: vs, by rw [evalArgs, h1, h3], List.Forall₂.cons h2 h4⟩
      · exact absurd h (by simp)
end

theorem callIv_sound (hB : Encloses B) : ∀ (L : List (Expr ℝ)) k ps vs q, callIv B L k ps = .ok (some q) →
    List.Forall₂ Within ps vs → ∃ v, callL apD L k vs = some v ∧ Within q v
  | [], k, ps, vs, q, h, _ => by simp [callIv] at h
  | b :: L, k, ps, vs, q, h, hv => by
    rw [callIv] at h
    rw [callL]
    split at h
    · rename_i hk
      rw [if_pos hk]
      exact ivalT_sound hB (callIv_sound hB L) hv b h
    · rename_i hk
      rw [if_neg hk]
      exact callIv_sound hB L k ps vs q h hv

/-! ### Values inside the domains are values -/

theorem apD_le {f : Fn} {vs : List ℝ} {v : ℝ} (h : apD f vs = some v) : apR f vs = some v := by
  cases vs with
  | nil => exact h
  | cons a as =>
    rw [apD] at h
    split at h
    · exact h
    · exact absurd h (by simp)

mutual
theorem evalT_le {cd cr : Nat → List ℝ → Option ℝ} (hc : ∀ k vs v, cd k vs = some v → cr k vs = some v) {x : List ℝ} :
    ∀ (e : Expr ℝ) {v : ℝ}, evalT apD cd x e = some v → evalT apR cr x e = some v
  | .node (.var i) as, v, h => by rw [evalT] at h ⊢; exact h
  | .node (.const c) as, v, h => by rw [evalT] at h ⊢; exact h
  | .node (.fn f) as, v, h => by
    rw [evalT] at h ⊢
    split at h
    · exact absurd h (by simp)
    · rename_i vs hvs
      rw [evalArgs_le hc as hvs]
      exact apD_le h
  | .node (.lam k) as, v, h => by
    rw [evalT] at h ⊢
    split at h
    · exact absurd h (by simp)
    · rename_i vs hvs
      rw [evalArgs_le hc as hvs]
      exact hc _ _ _ h
theorem evalArgs_le {cd cr : Nat → List ℝ → Option ℝ} (hc : ∀ k vs v, cd k vs = some v → cr k vs = some v)
    {x : List ℝ} :
    ∀ (as : List (Expr ℝ)) {vs : List ℝ}, evalArgs apD cd x as = some vs → evalArgs apR cr x as = some vs
  | [], vs, h => by rw [evalArgs] at h ⊢; exact h
  | a :: as, vs, h => by
    rw [evalArgs] at h ⊢
    split at h
    · rename_i u us hu hus
      rw [evalT_le hc a hu, evalArgs_le hc as hus]
      exact h
    · exact absurd h (by simp)
end

theorem callL_le : ∀ (L : List (Expr ℝ)) k vs v, callL apD L k vs = some v → callL apR L k vs = some v
  | [], k, vs, v, h => by simp [callL] at h
  | b :: L, k, vs, v, h => by
    rw [callL] at h ⊢
    split at h
    · rename_i hk
      rw [if_pos hk]
      exact evalT_le (callL_le L) b h
    · rename_i hk
      rw [if_neg hk]
      exact callL_le L k vs v h

/-! ### The theorems -/

/-- An accepted expression has a value on all inputs in the box, never leaves the domain of a function while
it is computed, and the value is in the reported bounds, all of them between minus and plus ten to the tenth. -/
theorem C251_sound (hB : Encloses B) {L : List (Expr ℝ)} {bs : List (ℝ × ℝ)} {e : Expr ℝ}
    (h : inBounds B L bs e = .ok true) :
    ∃ q : ℝ × ℝ, calcBounds B L bs e = .ok (some q) ∧ ∀ x, List.Forall₂ Within bs x →
      ∃ v, eval apD L x e = some v ∧ eval apR L x e = some v ∧ Within q v ∧ -(10 ^ 10) < v ∧ v < 10 ^ 10 := by
  rw [inBounds] at h
  split at h
  · rename_i iv hiv
    simp only [Except.ok.injEq] at h
    cases iv with
    | none => simp [validIv] at h
    | some q =>
      refine ⟨q, hiv, fun x hx => ?_⟩
      obtain ⟨v, h1, h2⟩ := ivalT_sound hB (callIv_sound hB L) hx e hiv
      obtain ⟨h3, h4⟩ := validIv_some h
      exact ⟨v, h1, evalT_le (callL_le L) e h1, h2, lt_of_lt_of_le h3 h2.1, lt_of_le_of_lt h2.2 h4⟩
  · exact absurd h (by simp)
  · exact absurd h (by simp)

/-- In an accepted expression all arguments are accepted. -/
theorem C251_parts {L : List (Expr ℝ)} {bs : List (ℝ × ℝ)} {t : Tok ℝ} {as : List (Expr ℝ)}
    (h : inBounds B L bs (.node t as) = .ok true) : ∀ a ∈ as, inBounds B L bs a = .ok true := by
  have key : ∀ (as : List (Expr ℝ)) ps, ivalArgs B (callIv B L) bs as = .ok ps →
      ∀ a ∈ as, inBounds B L bs a = .ok true := by
    intro as
    induction as with
    | nil => intro ps _ a ha; cases ha
    | cons b as ih =>
      intro ps h a ha
      rw [ivalArgs] at h
      split at h
      · exact absurd h (by simp)
      · exact absurd h (by simp)
      · rename_i p hp
        split at h
        · rename_i hv
          split at h
          · exact absurd h (by simp)
          · rename_i qs hqs
            rcases List.mem_cons.1 ha with rfl | ha
            · rw [inBounds, calcBounds, hp]
              simp only [hv]
            · exact ih qs hqs a ha
        · exact absurd h (by simp)
  have hargs : ∃ ps, ivalArgs B (callIv B L) bs as = .ok ps := by
    cases hps : ivalArgs B (callIv B L) bs as with
    | ok ps => exact ⟨ps, rfl⟩
    | error e =>
      rw [inBounds, calcBounds] at h
      cases t <;> (rw [ivalT, hps] at h; cases e <;> simp at h)
  obtain ⟨ps, hps⟩ := hargs
  exact key as ps hps

/-- An arc sine or arc cosine is accepted only if its argument is the number one on the whole box: the test for
the lower end of the domain compares with plus one. -/
theorem C251_asin (hB : Encloses B) {L : List (Expr ℝ)} {bs : List (ℝ × ℝ)} {f : Fn} (hf : f = .asin ∨ f = .acos)
    {a : Expr ℝ} (h : inBounds B L bs (efn f [a]) = .ok true) :
    ∀ x, List.Forall₂ Within bs x → eval apR L x a = some 1 := by
  intro x hx
  have ha := C251_parts h a (by simp)
  obtain ⟨q, h1, h2⟩ := C251_sound hB ha
  obtain ⟨v, -, h3, h4, -⟩ := h2 x hx
  have hv : validIv (some q) = true := by
    rw [inBounds, h1] at ha
    simpa using ha
  have hq : ¬ (q.1 < 1 ∨ q.2 > 1) := by
    intro hq
    rw [calcBounds] at h1
    rw [inBounds, calcBounds, efn, ivalT, ivalArgs, h1] at h
    simp only [hv, if_true, ivalArgs] at h
    rcases hf with rfl | rfl <;> simp only [ivAp, if_pos hq, validIv] at h <;> simp at h
  push Not at hq
  rw [h3]
  exact congrArg some (le_antisymm (le_trans h4.2 hq.2) (le_trans hq.1 h4.1))

/-- In particular the arc sine of a constant is accepted for the constant one only. -/
theorem C251_asin_const (hB : Encloses B) {L : List (Expr ℝ)} {c : ℝ}
    (h : inBounds B L [] (efn .asin [econst c]) = .ok true) : c = 1 := by
  have := C251_asin hB (Or.inl rfl) h [] List.Forall₂.nil
  rw [eval, econst, evalT] at this
  exact Option.some.inj this

/-! ### Two populations -/

/-- What evaluation should leave: a fitness that was there stays; an acceptable individual gets its error, another
the worst fitness. -/
def evaluated {α : Type} (good : α → Bool) (worst : ℝ) (err : α → ℝ) (q : α × Option ℝ) : α × Option ℝ :=
  (q.1, some (match q.2 with | some f => f | none => if good q.1 then err q.1 else worst))

theorem modify_at {α : Type} (pre : List α) (a : α) (l : List α) (g : α → α) :
    (pre ++ a :: l).modify pre.length g = pre ++ g a :: l := by
  induction pre with
  | nil => rfl
  | cons b pre ih => simp [ih]

theorem popAssign_first {α : Type} (good : α → Bool) (worst : ℝ) (err : α → ℝ) (rest : List (Nat × ℝ))
    (p2 : List (α × Option ℝ)) : ∀ (l pre : List (α × Option ℝ)),
    popAssign ((popScan good worst pre.length l).1.map (fun r => (r.1, err r.2)) ++ rest)
      (pre ++ (popScan good worst pre.length l).2) p2 =
    popAssign rest (pre ++ l.map (evaluated good worst err)) p2
  | [], pre => by simp [popScan]
  | (a, some f) :: l, pre => by
    have ih := popAssign_first good worst err rest p2 l (pre ++ [(a, some f)])
    simp only [List.length_append, List.length_cons, List.length_nil, List.append_assoc, List.cons_append,
      List.nil_append] at ih
    simp only [popScan]
    rw [ih]; rfl
  | (a, none) :: l, pre => by
    cases hg : good a with
    | true =>
      have ih := popAssign_first good worst err rest p2 l (pre ++ [(a, some (err a))])
      simp only [List.length_append, List.length_cons, List.length_nil, List.append_assoc, List.cons_append,
        List.nil_append] at ih
      simp only [popScan, hg, if_true, List.map_cons, List.cons_append, popAssign]
      rw [if_pos (by simp), modify_at, ih]
      simp [evaluated, hg]
    | false =>
      have ih := popAssign_first good worst err rest p2 l (pre ++ [(a, some worst)])
      simp only [List.length_append, List.length_cons, List.length_nil, List.append_assoc, List.cons_append,
        List.nil_append] at ih
      simp only [popScan, hg, Bool.false_eq_true, if_false]
      rw [ih]
      simp [evaluated, hg]

theorem popAssign_second {α : Type} (good : α → Bool) (worst : ℝ) (err : α → ℝ)
    (p1 : List (α × Option ℝ)) : ∀ (l pre : List (α × Option ℝ)),
    popAssign ((popScan good worst (p1.length + pre.length) l).1.map (fun r => (r.1, err r.2)))
      p1 (pre ++ (popScan good worst (p1.length + pre.length) l).2) =
    (p1, pre ++ l.map (evaluated good worst err))
  | [], pre => by simp [popScan, popAssign]
  | (a, some f) :: l, pre => by
    have ih := popAssign_second good worst err p1 l (pre ++ [(a, some f)])
    simp only [List.length_append, List.length_cons, List.length_nil, List.append_assoc, List.cons_append,
      List.nil_append, ← Nat.add_assoc] at ih
    simp only [popScan]
    rw [ih]; rfl
  | (a, none) :: l, pre => by
    cases hg : good a with
    | true =>
      have ih := popAssign_second good worst err p1 l (pre ++ [(a, some (err a))])
      simp only [List.length_append, List.length_cons, List.length_nil, List.append_assoc, List.cons_append,
        List.nil_append, ← Nat.add_assoc] at ih
      simp only [popScan, hg, if_true, List.map_cons, popAssign]
      rw [if_neg (by omega), Nat.add_sub_cancel_left, modify_at, ih]
      simp [evaluated, hg]
    | false =>
      have ih := popAssign_second good worst err p1 l (pre ++ [(a, some worst)])
      simp only [List.length_append, List.length_cons, List.length_nil, List.append_assoc, List.cons_append,
        List.nil_append, ← Nat.add_assoc] at ih
      simp only [popScan, hg, Bool.false_eq_true, if_false]
      rw [ih]
      simp [evaluated, hg]

/-- Evaluation of two populations: each individual of both gets its own error. -/
theorem C252_errors {α : Type} (good : α → Bool) (worst : ℝ) (err : α → ℝ) (p1 p2 : List (α × Option ℝ)) :
    popEval good worst (List.map err) p1 p2 =
      (p1.map (evaluated good worst err), p2.map (evaluated good worst err)) := by
  have hz : ∀ l : List (Nat × α), (l.map Prod.fst).zip ((l.map Prod.snd).map err) = l.map fun r => (r.1, err r.2) := by
    intro l; induction l with
    | nil => rfl
    | cons a l ih => simp only [List.map_cons, List.zip_cons_cons, ih]
  have h1 := popAssign_first good worst err
    ((popScan good worst p1.length p2).1.map (fun r => (r.1, err r.2))) (popScan good worst p1.length p2).2 p1 []
  have h2 := popAssign_second good worst err (p1.map (evaluated good worst err)) p2 []
  simp only [List.length_nil, List.nil_append, List.length_map, Nat.add_zero] at h1 h2
  rw [popEval, hz, List.map_append, h1, h2]

/-- Without a check of bounds (the check that refuses everything) all new individuals get the worst fitness,
whatever their error is. -/
theorem C252_no_check {α : Type} (small : α → Bool) (worst : ℝ) (err : α → ℝ) (p1 p2 : List (α × Option ℝ)) :
    popEval (fun a => small a && noBounds a) worst (List.map err) p1 p2 =
      (p1.map fun q => (q.1, some (q.2.getD worst)), p2.map fun q => (q.1, some (q.2.getD worst))) := by
  rw [C252_errors]
  have : evaluated (fun a => small a && noBounds a) worst err = fun q => (q.1, some (q.2.getD worst)) := by
    funext q
    obtain ⟨a, f⟩ := q
    cases f <;> simp [evaluated, noBounds]
  rw [this]

/-! ### The hypotheses can be met -/

/-- A library that knows the exponential only. -/
noncomputable def expOnly : Fn → ℝ × ℝ → Iv
  | .exp, p => some (Real.exp p.1, Real.exp p.2)
  | _, _ => none

theorem expOnly_encloses : Encloses expOnly := by
  intro f g hg p q hq v hv
  cases f <;> simp only [expOnly, reduceCtorEq, Option.some.injEq] at hq
  subst hq
  simp only [unR, Option.some.injEq] at hg
  subst hg
  exact ⟨trivial, Real.exp_le_exp.2 hv.1, Real.exp_le_exp.2 hv.2⟩

example : inBounds expOnly [] [((0 : ℝ), (1 : ℝ))] (efn .exp [evar 0]) = .ok true := by
  have h : Real.exp 1 < 3 := Real.exp_one_lt_d9.trans (by norm_num)
  have h1 : validIv (some ((0 : ℝ), (1 : ℝ))) = true := by simp [validIv]; norm_num
  rw [inBounds, calcBounds, efn, evar, ivalT, ivalArgs, ivalT, ivalArgs]
  simp only [List.getElem?_cons_zero, h1, if_true, ivalArgs, ivAp, unR, expOnly]
  simp only [validIv, Except.ok.injEq, decide_eq_true_eq]
  constructor
  · have := Real.exp_pos (0 : ℝ)
    have h10 : (0 : ℝ) < 10 ^ 10 := by norm_num
    linarith
  · have h10 : (3 : ℝ) < 10 ^ 10 := by norm_num
    linarith

example : List.Forall₂ Within [((0 : ℝ), (1 : ℝ))] [1 / 2] :=
  List.Forall₂.cons ⟨by norm_num, by norm_num⟩ List.Forall₂.nil

end Paradiseo.MathSym
