import Mathlib.Analysis.SpecialFunctions.Trigonometric.InverseDeriv
import Mathlib.Analysis.SpecialFunctions.Trigonometric.ArctanDeriv
import Mathlib.Analysis.SpecialFunctions.Pow.Deriv
import Mathlib.Analysis.SpecialFunctions.ExpDeriv
import Mathlib.Analysis.SpecialFunctions.Sqrt
import Verif.Props.MathSym

/-!
# mathsym: differentiation (C249, C250)

Specification: the derivative is that of analysis (`HasDerivAt`) of the value of the expression as a function of one
input, the others held fixed.
-/

namespace Paradiseo.MathSym

open Paradiseo.EO Set

/-- The value of the expression as a function of input `i`, the other inputs as in `x`. -/
noncomputable def along (L : List (Expr ℝ)) (x : List ℝ) (i : Nat) (e : Expr ℝ) (s : ℝ) : ℝ :=
  (eval apR L (x.set i s) e).getD 0

/-- Where a function of one argument is differentiable; only those with a right rule. -/
def Dom : Fn → ℝ → Prop
  | .min, _ => True
  | .tan, v => Real.cos v ≠ 0
  | .asin, v => -1 < v ∧ v < 1
  | .acos, v => -1 < v ∧ v < 1
  | .sinh, _ => True
  | .tanh, _ => True
  | .asinh, _ => True
  | .acosh, v => 1 < v
  | .atanh, v => -1 < v ∧ v < 1
  | .exp, _ => True
  | .log, v => 0 < v
  | .sqr, _ => True
  | .sqrt, v => 0 < v
  | _, _ => False

/-- Expressions of sums, products and the functions with a right rule, at inputs where all of them are
differentiable. -/
inductive Dif (L : List (Expr ℝ)) (x : List ℝ) : Expr ℝ → Prop
  | var (j : Nat) : j < x.length → Dif L x (evar j)
  | const (c : ℝ) : Dif L x (econst c)
  | sum (as : List (Expr ℝ)) : (∀ a ∈ as, Dif L x a) → Dif L x (efn .sum as)
  | prod (as : List (Expr ℝ)) : (∀ a ∈ as, Dif L x a) → Dif L x (efn .prod as)
  | un (f : Fn) (a : Expr ℝ) (v : ℝ) : Dif L x a → eval apR L x a = some v → Dom f v → Dif L x (efn f [a])

variable {L : List (Expr ℝ)} {x : List ℝ}

theorem evalArgs_all {call : Nat → List ℝ → Option ℝ} {y : List ℝ} : (as : List (Expr ℝ)) →
    (∀ a ∈ as, (evalT apR call y a).isSome) →
    evalArgs apR call y as = some (as.map fun a => (evalT apR call y a).getD 0)
  | [], _ => rfl
  | a :: as, h => by
    obtain ⟨v, hv⟩ := Option.isSome_iff_exists.mp (h a (by simp))
    rw [evalArgs, evalArgs_all as (fun b hb => h b (by simp [hb])), hv, List.map_cons, hv]
    rfl

theorem dom_un {f : Fn} {v : ℝ} (h : Dom f v) : ∃ g, unR f = some g := by
  cases f <;> first | exact ⟨_, rfl⟩ | exact absurd h (fun h => h)

theorem dif_total {e : Expr ℝ} (h : Dif L x e) : ∀ y : List ℝ, y.length = x.length → (eval apR L y e).isSome := by
  induction h with
  | var j hj => intro y hy; rw [eval, evar, evalT, List.getElem?_eq_getElem (by omega)]; rfl
  | const c => intro y _; rfl
  | sum as _ ih =>
    intro y hy
    rw [eval, evalT_fn _ y (evalArgs_all as fun a ha => ih a ha y hy), apR_sum]; rfl
  | prod as _ ih =>
    intro y hy
    rw [eval, evalT_fn _ y (evalArgs_all as fun a ha => ih a ha y hy), apR_prod]; rfl
  | un f a v _ _ hd ih =>
    intro y hy
    obtain ⟨g, hg⟩ := dom_un hd
    obtain ⟨u, hu⟩ := Option.isSome_iff_exists.mp (ih y hy)
    rw [eval, evalT_un _ y hg hu]; rfl

theorem getD_lt {j : Nat} (h : j < x.length) : x.getD j 0 = x[j] := by
  rw [List.getD_eq_getElem?_getD, List.getElem?_eq_getElem h]; rfl

theorem set_self {i : Nat} : x.set i (x.getD i 0) = x := by
  by_cases h : i < x.length
  · rw [getD_lt h, List.set_getElem_self]
  · rw [List.set_eq_of_length_le (by omega)]

theorem along_some {i : Nat} {e : Expr ℝ} (h : ∀ y : List ℝ, y.length = x.length → (eval apR L y e).isSome) (s : ℝ) :
    eval apR L (x.set i s) e = some (along L x i e s) := by
  obtain ⟨v, hv⟩ := Option.isSome_iff_exists.mp (h (x.set i s) (by simp))
  rw [along, hv]; rfl

theorem along_here {i : Nat} {e : Expr ℝ} (h : ∀ y : List ℝ, y.length = x.length → (eval apR L y e).isSome) :
    eval apR L x e = some (along L x i e (x.getD i 0)) := by
  have := along_some (i := i) h (x.getD i 0)
  rwa [set_self] at this

/-- Differentiation returns an expression whose value is the derivative. -/
def Right (L : List (Expr ℝ)) (x : List ℝ) (i : Nat) (e : Expr ℝ) : Prop :=
  ∃ e' d, diff i e = .ok e' ∧ eval apR L x e' = some d ∧ HasDerivAt (along L x i e) d (x.getD i 0)

/-! ### Sums -/

theorem sum_rule {i : Nat} : (as : List (Expr ℝ)) → (∀ a ∈ as, Right L x i a) →
    ∃ ds vs, diffArgs i as = .ok ds ∧ ds.length = as.length ∧ evalArgs apR (callL apR L) x ds = some vs ∧
      HasDerivAt (fun s => (as.map fun a => along L x i a s).sum) vs.sum (x.getD i 0)
  | [], _ => ⟨[], [], rfl, rfl, rfl, by simpa using hasDerivAt_const (x.getD i 0) (0 : ℝ)⟩
  | a :: as, h => by
    obtain ⟨a', d, h1, h2, h3⟩ := h a (by simp)
    obtain ⟨ds, vs, k1, k2, k3, k4⟩ := sum_rule as (fun b hb => h b (by simp [hb]))
    refine ⟨a' :: ds, d :: vs, by rw [diffArgs, h1, k1], by simp [k2], ?_, ?_⟩
    · rw [evalArgs, k3]
      rw [eval] at h2
      rw [h2]
    · simpa using h3.fun_add k4

/-! ### Products -/

/-- An expression and its derivative. -/
def Pair (L : List (Expr ℝ)) (x : List ℝ) (i : Nat) (b e : Expr ℝ) : Prop :=
  ∃ d, eval apR L x b = some (along L x i b (x.getD i 0)) ∧ eval apR L x e = some d ∧
    HasDerivAt (along L x i b) d (x.getD i 0)

theorem pair_values {i : Nat} : {bs es : List (Expr ℝ)} → List.Forall₂ (Pair L x i) bs es →
    evalArgs apR (callL apR L) x bs = some (bs.map fun b => along L x i b (x.getD i 0))
  | _, _, .nil => rfl
  | _, _, .cons h t => by
    obtain ⟨d, h1, _, _⟩ := h
    rw [eval] at h1
    rw [evalArgs, h1, pair_values t]; rfl

theorem forall₂_reverse {α β : Type} {R : α → β → Prop} {as : List α} {bs : List β} (h : List.Forall₂ R as bs) :
    List.Forall₂ R as.reverse bs.reverse := by
  rwa [List.forall₂_reverse_iff]

theorem prod_rule {i : Nat} : (bs es : List (Expr ℝ)) → bs ≠ [] → List.Forall₂ (Pair L x i) bs es →
    ∃ d, eval apR L x (prodRule bs es) = some d ∧
      HasDerivAt (fun s => (bs.map fun b => along L x i b s).prod) d (x.getD i 0)
  | [], _, h, _ => absurd rfl h
  | [b], _, _, .cons h .nil => by
    obtain ⟨d, _, h2, h3⟩ := h
    exact ⟨d, by rw [prodRule]; exact h2, by simpa using h3⟩
  | [b, a], _, _, .cons hb (.cons ha .nil) => by
    obtain ⟨db, b1, b2, b3⟩ := hb
    obtain ⟨da, a1, a2, a3⟩ := ha
    refine ⟨_, by rw [prodRule]; exact evalT_add _ x (evalT_mul _ x a1 b2) (evalT_mul _ x b1 a2), ?_⟩
    have := b3.fun_mul a3
    simp only [List.map_cons, List.map_nil, List.prod_cons, List.prod_nil, mul_one]
    exact this.congr_deriv (by ring)
  | c :: b :: a :: rest, dc :: drest, _, .cons hc ht => by
    obtain ⟨D, i1, i2⟩ := prod_rule (b :: a :: rest) drest (by simp) ht
    obtain ⟨d, c1, c2, c3⟩ := hc
    cases ht with
    | cons h1 t1 =>
      cases t1 with
      | cons h2 t2 =>
        rename_i db _ da dt
        have hf : eval apR L x (efn .prod (b :: a :: rest).reverse) =
            some (((b :: a :: rest).map fun b => along L x i b (x.getD i 0)).prod) := by
          have hv := pair_values (forall₂_reverse (List.Forall₂.cons h1 (List.Forall₂.cons h2 t2)))
          rw [eval, evalT_fn _ x hv, apR_prod, List.map_reverse, List.prod_reverse]
        refine ⟨_, by rw [prodRule] <;> first | exact evalT_add _ x (evalT_mul _ x c1 i1) (evalT_mul _ x hf c2) | simp, ?_⟩
        have := c3.fun_mul i2
        simp only [List.map_cons, List.prod_cons] at this ⊢
        exact this.congr_deriv (by ring)

/-! ### Functions of one argument -/

/-- The chain rule, with the value `r` of the rule used and the derivative `t` of the function. -/
theorem chain {i : Nat} {f : Fn} {a g : Expr ℝ} {gf : ℝ → ℝ} {r t : ℝ} (hf : f ≠ .min) (hg : unR f = some gf)
    (hd : derivative f a = some g) (ht : ∀ y : List ℝ, y.length = x.length → (eval apR L y a).isSome)
    (ha : Right L x i a) (hr : eval apR L x g = some r)
    (hder : HasDerivAt gf t (along L x i a (x.getD i 0))) :
    ∃ e' d, diff i (efn f [a]) = .ok e' ∧ eval apR L x e' = some (r * d) ∧
      HasDerivAt (along L x i (efn f [a])) (t * d) (x.getD i 0) := by
  obtain ⟨a', d, h1, h2, h3⟩ := ha
  refine ⟨emul g a', d, ?_, evalT_mul _ x hr h2, ?_⟩
  · cases f <;> first | (simp [unR] at hg; done) | (exact absurd rfl hf) | (rw [efn, diff, hd] <;> first | (simp only [h1]; done) | (simp; done))
  · have : along L x i (efn f [a]) = gf ∘ along L x i a := by
      funext s
      have := evalT_un (callL apR L) (x.set i s) hg (along_some (i := i) ht s)
      rw [along, eval, this]; rfl
    rw [this]
    exact hder.comp _ h3

theorem hasDerivAt_tanh (v : ℝ) : HasDerivAt Real.tanh (1 - Real.tanh v * Real.tanh v) v := by
  have hc : Real.cosh v ≠ 0 := (Real.cosh_pos v).ne'
  have := (Real.hasDerivAt_sinh v).div (Real.hasDerivAt_cosh v) hc
  have he : Real.tanh = fun s => Real.sinh s / Real.cosh s := by funext s; exact Real.tanh_eq_sinh_div_cosh s
  rw [Real.tanh_eq_sinh_div_cosh, he]
  exact this.congr_deriv (by field_simp)

theorem hasDerivAt_artanh {v : ℝ} (h1 : -1 < v) (h2 : v < 1) : HasDerivAt Real.artanh (1 / (1 - v * v)) v := by
  have he : Real.artanh =ᶠ[nhds v] fun s => 1 / 2 * (Real.log (1 + s) - Real.log (1 - s)) := by
    have : Ioo (-1 : ℝ) 1 ∈ nhds v := Ioo_mem_nhds h1 h2
    filter_upwards [this] with s hs
    rw [Real.artanh_eq_half_log ⟨hs.1.le, hs.2.le⟩,
      Real.log_div (by linarith [hs.1]) (by linarith [hs.2])]
  refine HasDerivAt.congr_of_eventuallyEq ?_ he
  have d1 : HasDerivAt (fun s : ℝ => Real.log (1 + s)) (1 / (1 + v)) v := by
    have := ((hasDerivAt_id v).const_add 1).log (by simp; linarith)
    simpa using this
  have d2 : HasDerivAt (fun s : ℝ => Real.log (1 - s)) (-1 / (1 - v)) v := by
    have := ((hasDerivAt_id v).const_sub 1).log (by simp; linarith)
    simpa using this
  have := (d1.fun_sub d2).const_mul (1 / 2)
  refine this.congr_deriv ?_
  have p1 : (1 + v) ≠ 0 := by linarith
  have p2 : (1 - v) ≠ 0 := by linarith
  rw [show 1 - v * v = (1 + v) * (1 - v) by ring]
  field_simp
  ring

/-- The rules that are right. -/
theorem rule_right {call : Nat → List ℝ → Option ℝ} {f : Fn} {a : Expr ℝ} {v : ℝ} (hf : f ≠ .min) (hd : Dom f v)
    (ha : evalT apR call x a = some v) :
    ∃ g gf r, derivative f a = some g ∧ unR f = some gf ∧ evalT apR call x g = some r ∧ HasDerivAt gf r v := by
  have one : evalT apR call x eone = some 1 := by
    rw [eone, evalT_fn call x (as := []) (vs := []) rfl, apR_prod]; rfl
  have sq : evalT apR call x (efn .sqr [a]) = some (v * v) := evalT_un call x (f := .sqr) rfl ha
  cases f with
  | min => exact absurd rfl hf
  | tan =>
    have hd : Real.cos v ≠ 0 := hd
    refine ⟨_, _, _, rfl, rfl, evalT_add call x one (evalT_un call x (f := .sqr) rfl (evalT_un call x (f := .tan) rfl ha)), ?_⟩
    have := Real.hasDerivAt_tan hd
    convert this using 1
    have h1 := Real.sin_sq_add_cos_sq v
    rw [Real.tan_eq_sin_div_cos]
    field_simp
    nlinarith
  | asin =>
    refine ⟨_, _, _, rfl, rfl, evalT_un call x (f := .inv) rfl (evalT_un call x (f := .sqrt) rfl (evalT_sub call x one sq)), ?_⟩
    have := Real.hasDerivAt_arcsin (x := v) (by linarith [hd.1]) (by linarith [hd.2])
    convert this using 1
    rw [pow_two]
  | acos =>
    refine ⟨_, _, _, rfl, rfl, evalT_neg call x (evalT_un call x (f := .inv) rfl (evalT_un call x (f := .sqrt) rfl (evalT_sub call x one sq))), ?_⟩
    have := Real.hasDerivAt_arccos (x := v) (by linarith [hd.1]) (by linarith [hd.2])
    convert this using 1
    rw [pow_two]
  | sinh => exact ⟨_, _, _, rfl, rfl, evalT_un call x (f := .cosh) rfl ha, Real.hasDerivAt_sinh v⟩
  | tanh =>
    exact ⟨_, _, _, rfl, rfl, evalT_sub call x one (evalT_un call x (f := .sqr) rfl (evalT_un call x (f := .tanh) rfl ha)),
      hasDerivAt_tanh v⟩
  | asinh =>
    refine ⟨_, _, _, rfl, rfl, evalT_un call x (f := .inv) rfl (evalT_un call x (f := .sqrt) rfl (evalT_add call x one sq)), ?_⟩
    have := Real.hasDerivAt_arsinh v
    convert this using 1
    rw [one_div, pow_two]
  | acosh =>
    have hd : 1 < v := hd
    refine ⟨_, _, _, rfl, rfl, evalT_un call x (f := .inv) rfl (evalT_mul call x
      (evalT_un call x (f := .sqrt) rfl (evalT_sub call x ha one))
      (evalT_un call x (f := .sqrt) rfl (evalT_add call x ha one))), ?_⟩
    have := Real.hasDerivAt_arcosh (x := v) hd
    convert this using 1
    rw [← Real.sqrt_mul (by linarith), one_div]
    congr 2
    ring
  | atanh =>
    exact ⟨_, _, _, rfl, rfl, evalT_un call x (f := .inv) rfl (evalT_sub call x one sq), hasDerivAt_artanh hd.1 hd.2⟩
  | exp => exact ⟨_, _, _, rfl, rfl, evalT_un call x (f := .exp) rfl ha, Real.hasDerivAt_exp v⟩
  | log =>
    have hd : 0 < v := hd
    refine ⟨_, _, _, rfl, rfl, evalT_un call x (f := .inv) rfl ha, ?_⟩
    simpa using Real.hasDerivAt_log hd.ne'
  | sqr =>
    refine ⟨_, _, _, rfl, rfl, evalT_mul call x (a := econst 2) (u := 2) rfl ha, ?_⟩
    have := (hasDerivAt_id v).mul (hasDerivAt_id v)
    have h2 : HasDerivAt (fun v : ℝ => v * v) (1 * v + v * 1) v := this
    convert h2 using 1
    ring
  | sqrt =>
    have hd : 0 < v := hd
    refine ⟨_, _, _, rfl, rfl, evalT_mul call x (a := econst (1 / 2)) (u := 1 / 2) rfl (evalT_un call x (f := .inv) rfl (evalT_un call x (f := .sqrt) rfl ha)), ?_⟩
    have := Real.hasDerivAt_sqrt hd.ne'
    convert this using 1
    field_simp
  | sum => exact absurd hd (fun h => h)
  | prod => exact absurd hd (fun h => h)
  | inv => exact absurd hd (fun h => h)
  | pow => exact absurd hd (fun h => h)
  | ifltz => exact absurd hd (fun h => h)
  | sin => exact absurd hd (fun h => h)
  | cos => exact absurd hd (fun h => h)
  | atan => exact absurd hd (fun h => h)
  | cosh => exact absurd hd (fun h => h)

/-- Of sums, products and the functions with a right rule the derivative returned has as value the derivative. -/
theorem C249_derivative {i : Nat} (hi : i < x.length) {e : Expr ℝ} (h : Dif L x e) :
    ∃ e' d, diff i e = .ok e' ∧ eval apR L x e' = some d ∧ HasDerivAt (along L x i e) d (x.getD i 0) := by
  induction h with
  | var j hj =>
    by_cases hji : j = i
    · subst hji
      refine ⟨eone, 1, by simp [evar, diff], by rw [eval, eone, evalT_fn _ x (as := []) (vs := []) rfl, apR_prod]; rfl, ?_⟩
      have : along L x j (evar j) = fun s => s := by
        funext s
        rw [along, eval, evar, evalT, List.getElem?_set_self hj]; rfl
      rw [this]
      exact hasDerivAt_id _
    · refine ⟨ezero, 0, by simp [evar, diff, hji], by rw [eval, ezero, evalT_fn _ x (as := []) (vs := []) rfl, apR_sum]; rfl, ?_⟩
      have : along L x i (evar j) = fun _ => x.getD j 0 := by
        funext s
        rw [along, eval, evar, evalT, List.getElem?_set_ne (fun h => hji h.symm), List.getElem?_eq_getElem hj,
          getD_lt hj]; rfl
      rw [this]
      exact hasDerivAt_const _ _
  | const c =>
    exact ⟨ezero, 0, by simp [econst, diff], by rw [eval, ezero, evalT_fn _ x (as := []) (vs := []) rfl, apR_sum]; rfl,
      hasDerivAt_const _ c⟩
  | sum as hdif ih =>
    obtain ⟨ds, vs, k1, k2, k3, k4⟩ := sum_rule as ih
    have hF : along L x i (efn .sum as) = fun s => (as.map fun a => along L x i a s).sum := by
      funext s
      rw [along, eval, evalT_fn _ _ (evalArgs_all as fun a ha => dif_total (hdif a ha) (x.set i s) (by simp)), apR_sum]
      rfl
    rw [hF]
    cases as with
    | nil =>
      have : ([] : List (Expr ℝ)) = ds := Except.ok.inj k1
      subst this
      have hvs : ([] : List ℝ) = vs := Option.some.inj k3
      subst hvs
      exact ⟨ezero, 0, rfl, by rw [eval, ezero, evalT_fn _ x (as := []) (vs := []) rfl, apR_sum]; rfl, by simpa using k4⟩
    | cons a as =>
      cases ds with
      | nil => simp at k2
      | cons d ds =>
        rw [diffArgs] at k1
        rcases hd : diff i a with er | d'
        · rw [hd] at k1; simp at k1
        rcases hds : diffArgs i as with er | ds'
        · rw [hd, hds] at k1; simp at k1
        rw [hd, hds] at k1
        obtain ⟨e1, e2⟩ := List.cons.inj (Except.ok.inj k1)
        subst e1; subst e2
        by_cases hne : as = []
        · subst hne
          have hds0 : ds' = [] := List.length_eq_zero_iff.mp (by simpa using k2)
          subst hds0
          refine ⟨d', vs.sum, by rw [efn, diff, hd, hds]; rfl, ?_, k4⟩
          rw [evalArgs] at k3
          rcases hv : evalT apR (callL apR L) x d' with _ | v
          · rw [hv] at k3; simp at k3
          · rw [hv, evalArgs] at k3
            have : [v] = vs := Option.some.inj k3
            rw [eval, hv, ← this]; simp
        · refine ⟨efn .sum (d' :: ds'), vs.sum, ?_, by rw [eval, evalT_fn _ x k3, apR_sum], k4⟩
          rw [efn, diff, hd, hds]
          simp [hne]
  | prod as hdif ih =>
    have hF : along L x i (efn .prod as) = fun s => (as.map fun a => along L x i a s).prod := by
      funext s
      rw [along, eval, evalT_fn _ _ (evalArgs_all as fun a ha => dif_total (hdif a ha) (x.set i s) (by simp)), apR_prod]
      rfl
    rw [hF]
    have hpairs : ∀ bs : List (Expr ℝ), (∀ b ∈ bs, b ∈ as) → ∃ ds, diffArgs i bs = .ok ds ∧
        List.Forall₂ (Pair L x i) bs ds := by
      intro bs
      induction bs with
      | nil => intro _; exact ⟨[], rfl, .nil⟩
      | cons b bs ihb =>
        intro hb
        obtain ⟨b', d, h1, h2, h3⟩ := ih b (hb b (by simp))
        obtain ⟨ds, k1, k2⟩ := ihb (fun c hc => hb c (by simp [hc]))
        exact ⟨b' :: ds, by rw [diffArgs, h1, k1],
          .cons ⟨d, along_here (dif_total (hdif b (hb b (by simp)))), h2, h3⟩ k2⟩
    cases as with
    | nil =>
      exact ⟨ezero, 0, rfl, by rw [eval, ezero, evalT_fn _ x (as := []) (vs := []) rfl, apR_sum]; rfl,
        by simpa using hasDerivAt_const (x.getD i 0) (1 : ℝ)⟩
    | cons a as =>
      obtain ⟨ds, k1, k2⟩ := hpairs (a :: as) (fun _ h => h)
      obtain ⟨D, p1, p2⟩ := prod_rule (a :: as).reverse ds.reverse (by simp) (forall₂_reverse k2)
      rw [diffArgs] at k1
      rcases hd : diff i a with er | d'
      · rw [hd] at k1; simp at k1
      rcases hds : diffArgs i as with er | ds'
      · rw [hd, hds] at k1; simp at k1
      rw [hd, hds] at k1
      have hk : d' :: ds' = ds := Except.ok.inj k1
      refine ⟨_, D, by rw [efn, diff, hd, hds], by rw [hk]; exact p1, ?_⟩
      have : (fun s => ((a :: as).map fun a => along L x i a s).prod) =
          fun s => ((a :: as).reverse.map fun b => along L x i b s).prod := by
        funext s; rw [List.map_reverse, List.prod_reverse]
      rw [this]; exact p2
  | un f a v hdif hv hdom ih =>
    have hv' : v = along L x i a (x.getD i 0) := by
      have := along_here (i := i) (dif_total hdif)
      rw [hv] at this; exact Option.some.inj this
    by_cases hmin : f = .min
    · subst hmin
      obtain ⟨a', d, h1, h2, h3⟩ := ih
      refine ⟨eneg a', -d, by rw [efn, diff, h1], evalT_neg _ x h2, ?_⟩
      have : along L x i (efn .min [a]) = fun s => -along L x i a s := by
        funext s
        rw [along, eval, evalT_un _ (x.set i s) (f := .min) rfl (along_some (i := i) (dif_total hdif) s)]; rfl
      rw [this]
      exact h3.fun_neg
    · obtain ⟨g, gf, r, r1, r2, r3, r4⟩ := rule_right hmin hdom hv
      obtain ⟨e', d, c1, c2, c3⟩ := chain hmin r2 r1 (dif_total hdif) ih r3 (t := r) (by rw [← hv']; exact r4)
      exact ⟨e', r * d, c1, c2, c3⟩

/-- An expression within the fragment: `x₀ · tan x₁ + √x₀` at (1, 0). -/
example : Dif [] [1, 0] (efn .sum [efn .prod [evar 0, efn .tan [evar 1]], efn .sqrt [evar 0]]) := by
  refine .sum _ ?_
  intro a ha
  simp only [List.mem_cons, List.not_mem_nil, or_false] at ha
  rcases ha with rfl | rfl
  · refine .prod _ ?_
    intro a ha
    simp only [List.mem_cons, List.not_mem_nil, or_false] at ha
    rcases ha with rfl | rfl
    · exact .var 0 (by simp)
    · exact .un _ _ 0 (.var 1 (by simp)) rfl (by simp [Dom])
  · exact .un _ _ 1 (.var 0 (by simp)) rfl (by simp [Dom])

/-! ### C250: the rules that are wrong -/

/-- For the reciprocal, sine, cosine and hyperbolic cosine what is returned is minus the derivative. -/
theorem C250_sign {i : Nat} (hi : i < x.length) {f : Fn} {a : Expr ℝ} {v : ℝ} (h : Dif L x a)
    (hv : eval apR L x a = some v) (hf : f = .inv ∧ v ≠ 0 ∨ f = .sin ∨ f = .cos ∨ f = .cosh) :
    ∃ e' d, diff i (efn f [a]) = .ok e' ∧ eval apR L x e' = some (-d) ∧
      HasDerivAt (along L x i (efn f [a])) d (x.getD i 0) := by
  have hR : Right L x i a := C249_derivative hi h
  have hv' : v = along L x i a (x.getD i 0) := by
    have := along_here (i := i) (dif_total h)
    rw [hv] at this; exact Option.some.inj this
  have key : ∀ {g : Expr ℝ} {gf : ℝ → ℝ} {r : ℝ}, f ≠ .min → unR f = some gf → derivative f a = some g →
      eval apR L x g = some (-r) → HasDerivAt gf r v →
      ∃ e' d, diff i (efn f [a]) = .ok e' ∧ eval apR L x e' = some (-d) ∧
        HasDerivAt (along L x i (efn f [a])) d (x.getD i 0) := by
    intro g gf r h1 h2 h3 h4 h5
    obtain ⟨e', d, c1, c2, c3⟩ := chain h1 h2 h3 (dif_total h) hR h4 (t := r) (by rw [← hv']; exact h5)
    exact ⟨e', r * d, c1, by rw [c2]; congr 1; ring, c3⟩
  rcases hf with ⟨rfl, h0⟩ | rfl | rfl | rfl
  · refine key (r := -(v * v)⁻¹) (by simp) rfl rfl ?_ ?_
    · have := evalT_un (callL apR L) x (f := .inv) rfl (evalT_un (callL apR L) x (f := .sqr) rfl hv)
      rw [eval, this]; simp
    · have := hasDerivAt_inv h0
      simp only [one_div]
      exact this.congr_deriv (by rw [pow_two])
  · refine key (r := Real.cos v) (by simp) rfl rfl ?_ (Real.hasDerivAt_sin v)
    exact evalT_neg _ x (evalT_un _ x (f := .cos) rfl hv)
  · refine key (r := -Real.sin v) (by simp) rfl rfl ?_ (Real.hasDerivAt_cos v)
    rw [neg_neg]
    exact evalT_un _ x (f := .sin) rfl hv
  · refine key (r := Real.sinh v) (by simp) rfl rfl ?_ (Real.hasDerivAt_cosh v)
    exact evalT_neg _ x (evalT_un _ x (f := .sinh) rfl hv)

/-- For the arc tangent the rule takes a square root too many: what is returned is `√(1 + v²)` times the
derivative, right only where the argument is zero or does not change. -/
theorem C250_atan {i : Nat} (hi : i < x.length) {a : Expr ℝ} {v : ℝ} (h : Dif L x a) (hv : eval apR L x a = some v) :
    ∃ e' d, diff i (efn .atan [a]) = .ok e' ∧ eval apR L x e' = some (Real.sqrt (1 + v * v) * d) ∧
      HasDerivAt (along L x i (efn .atan [a])) d (x.getD i 0) ∧
      (Real.sqrt (1 + v * v) * d = d ↔ v = 0 ∨ d = 0) := by
  have hR : Right L x i a := C249_derivative hi h
  have hv' : v = along L x i a (x.getD i 0) := by
    have := along_here (i := i) (dif_total h)
    rw [hv] at this; exact Option.some.inj this
  have one : evalT apR (callL apR L) x eone = some 1 := by
    rw [eone, evalT_fn _ x (as := []) (vs := []) rfl, apR_prod]; rfl
  obtain ⟨e', d, c1, c2, c3⟩ := chain (f := .atan) (by simp) rfl rfl (dif_total h) hR
    (evalT_un _ x (f := .inv) rfl (evalT_un _ x (f := .sqrt) rfl (evalT_add _ x one
      (evalT_un _ x (f := .sqr) rfl hv)))) (t := 1 / (1 + v ^ 2)) (by rw [← hv']; exact Real.hasDerivAt_arctan v)
  have hpos : 0 < 1 + v * v := by nlinarith [mul_self_nonneg v]
  have hs : 0 < Real.sqrt (1 + v * v) := Real.sqrt_pos.mpr hpos
  have hss : Real.sqrt (1 + v * v) * Real.sqrt (1 + v * v) = 1 + v * v := Real.mul_self_sqrt hpos.le
  refine ⟨e', 1 / (1 + v ^ 2) * d, c1, ?_, c3, ?_⟩
  · rw [c2]
    congr 1
    generalize Real.sqrt (1 + v * v) = w at hs hss
    rw [pow_two, ← hss]
    field_simp
  · constructor
    · intro heq
      by_contra hne
      push Not at hne
      have h1 : Real.sqrt (1 + v * v) = 1 := mul_right_cancel₀ hne.2 (by rw [heq, one_mul])
      rw [h1] at hss
      exact hne.1 (mul_self_eq_zero.mp (by linarith))
    · rintro (rfl | hd)
      · simp
      · rw [hd, mul_zero]

/-- Of a power the same is returned whatever the variable: exponent times power over base. -/
theorem C250_pow {i : Nat} {a b : Expr ℝ} {u v : ℝ} (ha : eval apR L x a = some u) (hb : eval apR L x b = some v) :
    ∃ e', diff i (efn .pow [a, b]) = .ok e' ∧ eval apR L x e' = some (u ^ v * v / u) := by
  refine ⟨_, rfl, ?_⟩
  have hp : eval apR L x (epow a b) = some (u ^ v) := by
    have h : evalArgs apR (callL apR L) x [a, b] = some [u, v] :=
      evalArgs_append _ _ _ (evalArgs_one _ _ _ ha) (evalArgs_one _ _ _ hb)
    rw [eval, epow, evalT_fn _ x h]; rfl
  have := evalT_mul _ x (evalT_mul _ x hp hb) (evalT_un _ x (f := .inv) rfl ha)
  rw [eval, this]
  congr 1
  ring

/-- That is right for a variable raised to a constant. -/
theorem C250_pow_right {i : Nat} (hi : i < x.length) {c : ℝ} (hx : 0 < x.getD i 0) :
    ∃ e' d, diff i (efn .pow [evar i, econst c]) = .ok e' ∧ eval apR L x e' = some d ∧
      HasDerivAt (along L x i (efn .pow [evar i, econst c])) d (x.getD i 0) := by
  have ha : eval apR L x (evar i) = some (x.getD i 0) := by
    rw [eval, evar, evalT, List.getElem?_eq_getElem hi, getD_lt hi]
  obtain ⟨e', h1, h2⟩ := C250_pow (L := L) (x := x) (i := i) (b := econst c) (v := c) ha rfl
  refine ⟨e', _, h1, h2, ?_⟩
  have : along L x i (efn .pow [evar i, econst c]) = fun s => s ^ c := by
    funext s
    have : evalT apR (callL apR L) (x.set i s) (evar i) = some s := by
      rw [evar, evalT, List.getElem?_set_self hi]
    have h : evalArgs apR (callL apR L) (x.set i s) [evar i, econst c] = some [s, c] :=
      evalArgs_append _ _ _ (evalArgs_one _ _ _ this) (evalArgs_one _ _ _ rfl)
    rw [along, eval, evalT_fn _ _ h]; rfl
  rw [this]
  have := Real.hasDerivAt_rpow_const (p := c) (Or.inl hx.ne')
  refine this.congr_deriv ?_
  rw [Real.rpow_sub_one hx.ne']
  ring

/-- A constant power of a constant is given the derivative 1. -/
theorem C250_pow_wrong (hi : 0 < x.length) :
    ∃ e', diff 0 (efn .pow [econst 2, econst 1]) = .ok e' ∧ eval apR L x e' = some 1 ∧
      HasDerivAt (along L x 0 (efn .pow [econst 2, econst 1])) 0 (x.getD 0 0) := by
  obtain ⟨e', h1, h2⟩ := C250_pow (L := L) (x := x) (i := 0) (a := econst 2) (b := econst 1) (u := 2) (v := 1) rfl rfl
  refine ⟨e', h1, by rw [h2]; norm_num, ?_⟩
  exact hasDerivAt_const _ ((2 : ℝ) ^ (1 : ℝ))

/-- Conditionals, and calls of lambdas with arguments, cannot be differentiated: an exception. -/
theorem C250_throws (i k : Nat) (a : Expr ℝ) (as : List (Expr ℝ)) :
    diff i (efn .ifltz (a :: as)) = .error .thrown ∧ diff i (.node (.lam k) (a :: as)) = .error .thrown := by
  constructor
  · rfl
  · rw [diff]; rfl

end Paradiseo.MathSym
