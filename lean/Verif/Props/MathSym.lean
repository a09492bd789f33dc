import Verif.Model.MathSym
import Verif.Props.SymTree
import Mathlib.Tactic.Linarith
import Mathlib.Tactic.NormNum
import Mathlib.Tactic.Ring
import Mathlib.Tactic.FieldSimp

/-!
# Properties of expressions of functions (mathsym): operators, simplification, constants, lambdas

Specification: the value `eval` of an expression on its inputs, for the functions on reals `apR`; for what only
moves nodes around, for any functions.
-/

namespace Paradiseo.MathSym

open Paradiseo.EO

variable {V : Type}

/-! ### Evaluation of lists -/

theorem evalArgs_append (ap : Fn → List V → Option V) (call : Nat → List V → Option V) (x : List V)
    {as bs : List (Expr V)} {us vs : List V} (h1 : evalArgs ap call x as = some us)
    (h2 : evalArgs ap call x bs = some vs) : evalArgs ap call x (as ++ bs) = some (us ++ vs) := by
  induction as generalizing us with
  | nil =>
    have : us = [] := by simpa [evalArgs] using h1.symm
    subst this
    exact h2
  | cons a as ih =>
    rw [evalArgs] at h1
    rcases ha : evalT ap call x a with _ | v
    · rw [ha] at h1; simp at h1
    · rcases hb : evalArgs ap call x as with _ | ws
      · rw [ha, hb] at h1; simp at h1
      · rw [ha, hb] at h1
        have : v :: ws = us := Option.some.inj h1
        subst this
        rw [List.cons_append, evalArgs, ha, ih hb]; rfl

theorem evalArgs_one (ap : Fn → List V → Option V) (call : Nat → List V → Option V) (x : List V)
    {a : Expr V} {v : V} (h : evalT ap call x a = some v) : evalArgs ap call x [a] = some [v] := by
  rw [evalArgs, h, evalArgs]

theorem foldl_add (vs : List ℝ) : ∀ s : ℝ, vs.foldl (· + ·) s = s + vs.sum := by
  induction vs with
  | nil => intro s; simp
  | cons v vs ih => intro s; rw [List.foldl_cons, ih, List.sum_cons]; ring

theorem foldl_mul (vs : List ℝ) : ∀ s : ℝ, vs.foldl (· * ·) s = s * vs.prod := by
  induction vs with
  | nil => intro s; simp
  | cons v vs ih => intro s; rw [List.foldl_cons, ih, List.prod_cons]; ring

theorem apR_sum (vs : List ℝ) : apR .sum vs = some vs.sum := by
  rw [apR, foldl_add]; simp

theorem apR_prod (vs : List ℝ) : apR .prod vs = some vs.prod := by
  rw [apR, foldl_mul]; simp

/-! ### C245: arithmetic on expressions -/

section Ops

variable (call : Nat → List ℝ → Option ℝ) (x : List ℝ)

mutual
theorem collect_sum : (e : Expr ℝ) → (v : ℝ) → evalT apR call x e = some v →
    ∃ vs, evalArgs apR call x (collect .sum e) = some vs ∧ vs.sum = v
  | .node (.fn g) as, v, h => by
    by_cases hg : g = .sum
    · subst hg
      rw [evalT] at h
      rcases ha : evalArgs apR call x as with _ | ws
      · rw [ha] at h; simp at h
      · rw [ha] at h
        have h' : ws.sum = v := by
          have := h
          simp only [apR_sum] at this
          exact Option.some.inj this
        obtain ⟨vs, e1, e2⟩ := collectArgs_sum as ws ha
        exact ⟨vs, by rw [collect, if_pos rfl]; exact e1, by rw [e2, h']⟩
    · exact ⟨[v], by rw [collect, if_neg hg]; exact evalArgs_one _ _ _ h, by simp⟩
  | .node (.var i) as, v, h => ⟨[v], by rw [collect]; exact evalArgs_one _ _ _ h, by simp⟩
  | .node (.const c) as, v, h => ⟨[v], by rw [collect]; exact evalArgs_one _ _ _ h, by simp⟩
  | .node (.lam k) as, v, h => ⟨[v], by rw [collect]; exact evalArgs_one _ _ _ h, by simp⟩
theorem collectArgs_sum : (as : List (Expr ℝ)) → (ws : List ℝ) → evalArgs apR call x as = some ws →
    ∃ vs, evalArgs apR call x (collectArgs .sum as) = some vs ∧ vs.sum = ws.sum
  | [], ws, h => by
    have : ws = [] := by simpa [evalArgs] using h.symm
    subst this
    exact ⟨[], rfl, rfl⟩
  | a :: as, ws, h => by
    rw [evalArgs] at h
    rcases ha : evalT apR call x a with _ | v
    · rw [ha] at h; simp at h
    · rcases hb : evalArgs apR call x as with _ | us
      · rw [ha, hb] at h; simp at h
      · rw [ha, hb] at h
        have : v :: us = ws := Option.some.inj h
        subst this
        obtain ⟨vs1, e1, e2⟩ := collect_sum a v ha
        obtain ⟨vs2, e3, e4⟩ := collectArgs_sum as us hb
        exact ⟨vs1 ++ vs2, by rw [collectArgs]; exact evalArgs_append _ _ _ e1 e3, by simp [e2, e4]⟩
end

mutual
theorem collect_prod : (e : Expr ℝ) → (v : ℝ) → evalT apR call x e = some v →
    ∃ vs, evalArgs apR call x (collect .prod e) = some vs ∧ vs.prod = v
  | .node (.fn g) as, v, h => by
    by_cases hg : g = .prod
    · subst hg
      rw [evalT] at h
      rcases ha : evalArgs apR call x as with _ | ws
      · rw [ha] at h; simp at h
      · rw [ha] at h
        have h' : ws.prod = v := by
          have := h
          simp only [apR_prod] at this
          exact Option.some.inj this
        obtain ⟨vs, e1, e2⟩ := collectArgs_prod as ws ha
        exact ⟨vs, by rw [collect, if_pos rfl]; exact e1, by rw [e2, h']⟩
    · exact ⟨[v], by rw [collect, if_neg hg]; exact evalArgs_one _ _ _ h, by simp⟩
  | .node (.var i) as, v, h => ⟨[v], by rw [collect]; exact evalArgs_one _ _ _ h, by simp⟩
  | .node (.const c) as, v, h => ⟨[v], by rw [collect]; exact evalArgs_one _ _ _ h, by simp⟩
  | .node (.lam k) as, v, h => ⟨[v], by rw [collect]; exact evalArgs_one _ _ _ h, by simp⟩
theorem collectArgs_prod : (as : List (Expr ℝ)) → (ws : List ℝ) → evalArgs apR call x as = some ws →
    ∃ vs, evalArgs apR call x (collectArgs .prod as) = some vs ∧ vs.prod = ws.prod
  | [], ws, h => by
    have : ws = [] := by simpa [evalArgs] using h.symm
    subst this
    exact ⟨[], rfl, rfl⟩
  | a :: as, ws, h => by
    rw [evalArgs] at h
    rcases ha : evalT apR call x a with _ | v
    · rw [ha] at h; simp at h
    · rcases hb : evalArgs apR call x as with _ | us
      · rw [ha, hb] at h; simp at h
      · rw [ha, hb] at h
        have : v :: us = ws := Option.some.inj h
        subst this
        obtain ⟨vs1, e1, e2⟩ := collect_prod a v ha
        obtain ⟨vs2, e3, e4⟩ := collectArgs_prod as us hb
        exact ⟨vs1 ++ vs2, by rw [collectArgs]; exact evalArgs_append _ _ _ e1 e3, by simp [e2, e4]⟩
end

theorem evalT_fn {f : Fn} {as : List (Expr ℝ)} {vs : List ℝ} (h : evalArgs apR call x as = some vs) :
    evalT apR call x (efn f as) = apR f vs := by
  rw [efn, evalT, h]

theorem evalT_add {a b : Expr ℝ} {u v : ℝ} (ha : evalT apR call x a = some u)
    (hb : evalT apR call x b = some v) : evalT apR call x (eadd a b) = some (u + v) := by
  obtain ⟨us, e1, e2⟩ := collect_sum call x a u ha
  obtain ⟨vs, e3, e4⟩ := collect_sum call x b v hb
  rw [eadd, evalT_fn call x (evalArgs_append _ _ _ e1 e3), apR_sum, List.sum_append, e2, e4]

theorem evalT_mul {a b : Expr ℝ} {u v : ℝ} (ha : evalT apR call x a = some u)
    (hb : evalT apR call x b = some v) : evalT apR call x (emul a b) = some (u * v) := by
  obtain ⟨us, e1, e2⟩ := collect_prod call x a u ha
  obtain ⟨vs, e3, e4⟩ := collect_prod call x b v hb
  rw [emul, evalT_fn call x (evalArgs_append _ _ _ e1 e3), apR_prod, List.prod_append, e2, e4]

theorem evalT_neg {a : Expr ℝ} {u : ℝ} (ha : evalT apR call x a = some u) :
    evalT apR call x (eneg a) = some (-u) := by
  rw [eneg, evalT_fn call x (evalArgs_one _ _ _ ha)]; rfl

theorem evalT_un {f : Fn} {g : ℝ → ℝ} (hf : unR f = some g) {a : Expr ℝ} {u : ℝ}
    (ha : evalT apR call x a = some u) : evalT apR call x (efn f [a]) = some (g u) := by
  rw [evalT_fn call x (evalArgs_one _ _ _ ha)]
  cases f <;> first | (simp [unR] at hf; done) | (simp only [apR, hf]; rfl)

theorem evalT_sub {a b : Expr ℝ} {u v : ℝ} (ha : evalT apR call x a = some u)
    (hb : evalT apR call x b = some v) : evalT apR call x (esub a b) = some (u - v) := by
  obtain ⟨us, e1, e2⟩ := collect_sum call x a u ha
  obtain ⟨vs, e3, e4⟩ := collect_sum call x b v hb
  have h1 : evalT apR call x (efn .sum (collect .sum b)) = some v := by
    rw [evalT_fn call x e3, apR_sum, e4]
  have h2 := evalT_un call x (f := .min) rfl h1
  rw [esub, evalT_fn call x (evalArgs_append _ _ _ e1 (evalArgs_one _ _ _ h2)), apR_sum, List.sum_append, e2]
  simp [sub_eq_add_neg]

theorem evalT_div {a b : Expr ℝ} {u v : ℝ} (ha : evalT apR call x a = some u)
    (hb : evalT apR call x b = some v) : evalT apR call x (ediv a b) = some (u / v) := by
  obtain ⟨us, e1, e2⟩ := collect_prod call x a u ha
  obtain ⟨vs, e3, e4⟩ := collect_prod call x b v hb
  have h1 : evalT apR call x (efn .prod (collect .prod b)) = some v := by
    rw [evalT_fn call x e3, apR_prod, e4]
  have h2 := evalT_un call x (f := .inv) rfl h1
  rw [ediv, evalT_fn call x (evalArgs_append _ _ _ e1 (evalArgs_one _ _ _ h2)), apR_prod, List.prod_append, e2]
  simp [div_eq_mul_inv]

end Ops

/-- Sums, differences, products, quotients and opposites of expressions have the value they say. -/
theorem C245_values (L : List (Expr ℝ)) (x : List ℝ) {a b : Expr ℝ} {u v : ℝ}
    (ha : eval apR L x a = some u) (hb : eval apR L x b = some v) :
    eval apR L x (eadd a b) = some (u + v) ∧ eval apR L x (esub a b) = some (u - v) ∧
    eval apR L x (emul a b) = some (u * v) ∧ eval apR L x (ediv a b) = some (u / v) ∧
    eval apR L x (eneg a) = some (-u) ∧ eval apR L x (epow a b) = some (u ^ v) := by
  refine ⟨evalT_add _ x ha hb, evalT_sub _ x ha hb, evalT_mul _ x ha hb, evalT_div _ x ha hb,
    evalT_neg _ x ha, ?_⟩
  have h : evalArgs apR (callL apR L) x [a, b] = some [u, v] :=
    evalArgs_append _ _ _ (evalArgs_one _ _ _ ha) (evalArgs_one _ _ _ hb)
  show evalT apR _ x (efn .pow [a, b]) = _
  rw [evalT_fn _ x h]; rfl

mutual
theorem collect_flat (f : Fn) : (e : Expr V) → ∀ a ∈ collect f e, a.token ≠ Tok.fn f
  | .node (.fn g) as => by
    intro a ha
    rw [collect] at ha
    by_cases hg : g = f
    · rw [if_pos hg] at ha
      exact collectArgs_flat f as a ha
    · rw [if_neg hg, List.mem_singleton] at ha
      rw [ha]
      intro h
      exact hg (Tok.fn.inj h)
  | .node (.var i) as => by
    intro a ha
    rw [collect, List.mem_singleton] at ha
    rw [ha]; exact fun h => nomatch h
  | .node (.const i) as => by
    intro a ha
    rw [collect, List.mem_singleton] at ha
    rw [ha]; exact fun h => nomatch h
  | .node (.lam i) as => by
    intro a ha
    rw [collect, List.mem_singleton] at ha
    rw [ha]; exact fun h => nomatch h
theorem collectArgs_flat (f : Fn) : (as : List (Expr V)) → ∀ a ∈ collectArgs f as, a.token ≠ Tok.fn f
  | [] => by intro a ha; simp [collectArgs] at ha
  | b :: as => by
    intro a ha
    rw [collectArgs, List.mem_append] at ha
    rcases ha with h | h
    · exact collect_flat f b a h
    · exact collectArgs_flat f as a h
end

/-- Sums and products are flat: a sum has no sum among its arguments, a product no product. -/
theorem C245_flat (a b : Expr V) :
    (∀ c ∈ (eadd a b).args, c.token ≠ Tok.fn .sum) ∧ (∀ c ∈ (emul a b).args, c.token ≠ Tok.fn .prod) ∧
    (∀ c ∈ (esub a b).args, c.token ≠ Tok.fn .sum) ∧ (∀ c ∈ (ediv a b).args, c.token ≠ Tok.fn .prod) := by
  refine ⟨?_, ?_, ?_, ?_⟩ <;> intro c hc
  · rcases List.mem_append.mp hc with h | h
    · exact collect_flat _ _ _ h
    · exact collect_flat _ _ _ h
  · rcases List.mem_append.mp hc with h | h
    · exact collect_flat _ _ _ h
    · exact collect_flat _ _ _ h
  · rcases List.mem_append.mp hc with h | h
    · exact collect_flat _ _ _ h
    · rw [List.mem_singleton] at h
      rw [h]; exact fun h => nomatch h
  · rcases List.mem_append.mp hc with h | h
    · exact collect_flat _ _ _ h
    · rw [List.mem_singleton] at h
      rw [h]; exact fun h => nomatch h

example : eval apR [] [3, 5] (evar 0) = some 3 ∧ eval apR [] [3, 5] (evar 1) = some 5 := ⟨rfl, rfl⟩

/-! ### C246: folding of constants -/

section Simp

variable (ap : Fn → List V → Option V) (call : Nat → List V → Option V) (zero one : V)

theorem allConst_eval : ∀ {as : List (Expr V)}, as.all isConst = true →
    ∃ vs, ∀ x, evalArgs ap call x as = some vs
  | [], _ => ⟨[], fun _ => rfl⟩
  | a :: as, h => by
    rw [List.all_cons, Bool.and_eq_true] at h
    obtain ⟨vs, e⟩ := allConst_eval h.2
    rcases a with ⟨t, bs⟩
    cases t with
    | const c => exact ⟨c :: vs, fun x => by rw [evalArgs, evalT, e x]⟩
    | fn f => simp [isConst] at h
    | var f => simp [isConst] at h
    | lam f => simp [isConst] at h

theorem foldLeaf_eval (hz : ap .sum [] = some zero) (ho : ap .prod [] = some one) (t : Tok V) (x : List V) :
    evalT ap call x (foldLeaf zero one t) = evalT ap call x (.node t []) := by
  cases t with
  | fn f =>
    cases f <;> first
      | rfl
      | (show some zero = _; rw [evalT, evalArgs]; exact hz.symm)
      | (show some one = _; rw [evalT, evalArgs]; exact ho.symm)
  | var i => rfl
  | const c => rfl
  | lam k => rfl

mutual
theorem simplify_eval (hz : ap .sum [] = some zero) (ho : ap .prod [] = some one) :
    (e e' : Expr V) → simplify (evalT ap call []) zero one e = .ok e' →
      ∀ x, evalT ap call x e' = evalT ap call x e
  | .node t as, e', h, x => by
    rw [simplify] at h
    rcases hs : simplifyArgs (evalT ap call []) zero one as with er | as'
    · rw [hs] at h; simp at h
    · rw [hs] at h
      dsimp only at h
      have ih := simplifyArgs_eval hz ho as as' hs
      by_cases he : as.isEmpty
      · rw [if_pos he] at h
        have has : as = [] := by simpa using he
        subst has
        have h' := Except.ok.inj h
        subst h'
        exact foldLeaf_eval ap call zero one hz ho t x
      · rw [if_neg he] at h
        have ev : evalT ap call x (.node t as') = evalT ap call x (.node t as) := by
          cases t with
          | fn f => rw [evalT, evalT, ih.1 x]
          | lam f => rw [evalT, evalT, ih.1 x]
          | var i => rw [evalT, evalT]
          | const c => rw [evalT, evalT]
        by_cases ha : as'.all isConst
        · rw [if_pos ha] at h
          rcases hv : evalT ap call [] (.node t as) with _ | v
          · rw [hv] at h; simp at h
          · rw [hv] at h
            have h' := Except.ok.inj h
            subst h'
            show some v = _
            rw [← hv]
            obtain ⟨vs, e⟩ := allConst_eval ap call ha
            cases t with
            | fn f => rw [evalT, evalT, ← ih.1 x, ← ih.1 [], e x, e []]
            | lam f => rw [evalT, evalT, ← ih.1 x, ← ih.1 [], e x, e []]
            | var i =>
              rw [evalT] at hv
              simp at hv
            | const c => rw [evalT, evalT]
        · rw [if_neg ha] at h
          have h' := Except.ok.inj h
          subst h'
          exact ev
theorem simplifyArgs_eval (hz : ap .sum [] = some zero) (ho : ap .prod [] = some one) :
    (as as' : List (Expr V)) → simplifyArgs (evalT ap call []) zero one as = .ok as' →
      (∀ x, evalArgs ap call x as' = evalArgs ap call x as) ∧ as'.length = as.length
  | [], as', h => by
    have h' := Except.ok.inj h
    subst h'
    exact ⟨fun _ => rfl, rfl⟩
  | a :: as, as', h => by
    rw [simplifyArgs] at h
    rcases h1 : simplify (evalT ap call []) zero one a with er | a'
    · rw [h1] at h; simp at h
    · rw [h1] at h
      dsimp only at h
      rcases h2 : simplifyArgs (evalT ap call []) zero one as with er | as''
      · rw [h2] at h; simp at h
      · rw [h2] at h
        have h' := Except.ok.inj h
        subst h'
        have e1 := simplify_eval hz ho a a' h1
        have e2 := simplifyArgs_eval hz ho as as'' h2
        refine ⟨fun x => ?_, by simp [e2.2]⟩
        rw [evalArgs, evalArgs, e1 x, e2.1 x]
end

/-- Nothing is left to fold: no node whose arguments are all constants, no empty sum, no empty product. -/
def Folded (s : Expr V) : Prop :=
  (s.args ≠ [] → s.args.all isConst = false) ∧ s ≠ efn .sum [] ∧ s ≠ efn .prod []

mutual
theorem simplify_folded (ev : Expr V → Option V) : (e e' : Expr V) → simplify ev zero one e = .ok e' →
    ∀ p s, e'.at? p = some s → Folded s
  | .node t as, e', h => by
    rw [simplify] at h
    have hconst : ∀ (c : V) p s, (econst c).at? p = some s → Folded s := by
      intro c p s hp
      cases p with
      | nil =>
        have : econst c = s := Option.some.inj hp
        subst this
        exact ⟨fun h => absurd rfl h, (fun h => nomatch h), (fun h => nomatch h)⟩
      | cons k p => simp [econst, Tree.at?] at hp
    rcases hs : simplifyArgs ev zero one as with er | as'
    · rw [hs] at h; simp at h
    · rw [hs] at h
      dsimp only at h
      have ih := simplifyArgs_folded ev as as' hs
      by_cases he : as.isEmpty
      · rw [if_pos he] at h
        have has : as = [] := by simpa using he
        subst has
        have hleaf : (Tree.node t [] ≠ efn .sum []) → (Tree.node t [] ≠ efn .prod []) →
            ∀ p s, (Tree.node t []).at? p = some s → Folded s := by
          intro n1 n2 p s hp
          cases p with
          | nil =>
            have : Tree.node t [] = s := Option.some.inj hp
            subst this
            exact ⟨fun h => absurd rfl h, n1, n2⟩
          | cons k p => simp [Tree.at?] at hp
        have h' := Except.ok.inj h
        subst h'
        cases t with
        | fn f =>
          by_cases h1 : f = .sum
          · subst h1; exact hconst zero
          · by_cases h2 : f = .prod
            · subst h2; exact hconst one
            · have h' : foldLeaf zero one (.fn f) = Tree.node (.fn f) [] := by
                cases f <;> first | exact absurd rfl h1 | exact absurd rfl h2 | rfl
              rw [h']
              refine hleaf ?_ ?_
              · intro hh; exact h1 (by cases hh; rfl)
              · intro hh; exact h2 (by cases hh; rfl)
        | var i => exact hleaf (fun h => nomatch h) (fun h => nomatch h)
        | const c => exact hleaf (fun h => nomatch h) (fun h => nomatch h)
        | lam k => exact hleaf (fun h => nomatch h) (fun h => nomatch h)
      · rw [if_neg he] at h
        by_cases ha : as'.all isConst
        · rw [if_pos ha] at h
          rcases hv : ev (.node t as) with _ | v
          · rw [hv] at h; simp at h
          · rw [hv] at h
            have h' := Except.ok.inj h
            rw [← h']; exact hconst v
        · rw [if_neg ha] at h
          have h' := Except.ok.inj h
          subst h'
          intro p s hp
          cases p with
          | nil =>
            have : Tree.node t as' = s := Option.some.inj hp
            subst this
            have hne : as' ≠ [] := by
              intro h
              rw [h] at ha
              simp at ha
            refine ⟨fun _ => by simpa [Tree.args] using ha, ?_, ?_⟩
            · intro hh; injection hh with _ h2; exact hne h2
            · intro hh; injection hh with _ h2; exact hne h2
          | cons k p =>
            rw [Tree.at?] at hp
            rcases hk : as'[k]? with _ | a
            · rw [hk] at hp; simp at hp
            · rw [hk] at hp
              exact ih a (List.mem_of_getElem? hk) p s hp
theorem simplifyArgs_folded (ev : Expr V → Option V) : (as as' : List (Expr V)) →
    simplifyArgs ev zero one as = .ok as' → ∀ a ∈ as', ∀ p s, a.at? p = some s → Folded s
  | [], as', h => by
    have h' := Except.ok.inj h
    subst h'
    intro a ha
    simp at ha
  | a :: as, as', h => by
    rw [simplifyArgs] at h
    rcases h1 : simplify ev zero one a with er | a'
    · rw [h1] at h; simp at h
    · rw [h1] at h
      dsimp only at h
      rcases h2 : simplifyArgs ev zero one as with er | as''
      · rw [h2] at h; simp at h
      · rw [h2] at h
        have h' := Except.ok.inj h
        subst h'
        intro b hb
        rcases List.mem_cons.mp hb with hb | hb
        · rw [hb]; exact simplify_folded ev a a' h1
        · exact simplifyArgs_folded ev as as'' h2 b hb
end

mutual
theorem simplify_total (hz : ap .sum [] = some zero) (ho : ap .prod [] = some one) (x : List V) :
    (e : Expr V) → (v : V) → (∀ p s, e.at? p = some s → (evalT ap call x s).isSome) →
      (∀ p s, e.at? p = some s → isVar s = true → s.args = []) →
      evalT ap call x e = some v → ∃ e', simplify (evalT ap call []) zero one e = .ok e'
  | .node t as, v, hsub, hleaf, hv => by
    have hargs : ∀ a ∈ as, ∀ p s, a.at? p = some s → (evalT ap call x s).isSome := by
      intro a ha p s hp
      obtain ⟨k, hk⟩ := List.getElem?_of_mem ha
      exact hsub (k :: p) s (by rw [Tree.at?, hk]; exact hp)
    have hargs' : ∀ a ∈ as, ∀ p s, a.at? p = some s → isVar s = true → s.args = [] := by
      intro a ha p s hp
      obtain ⟨k, hk⟩ := List.getElem?_of_mem ha
      exact hleaf (k :: p) s (by rw [Tree.at?, hk]; exact hp)
    obtain ⟨as', e⟩ := simplifyArgs_total hz ho x as hargs hargs'
    have ih := simplifyArgs_eval ap call zero one hz ho as as' e
    rw [simplify, e]
    dsimp only
    by_cases he : as.isEmpty
    · rw [if_pos he]
      exact ⟨_, rfl⟩
    · rw [if_neg he]
      by_cases ha : as'.all isConst
      · rw [if_pos ha]
        obtain ⟨vs, e'⟩ := allConst_eval ap call ha
        have : evalT ap call [] (.node t as) = some v ∨ ∃ i, t = .var i := by
          cases t with
          | fn f => left; rw [← hv, evalT, evalT, ← ih.1 x, ← ih.1 [], e' x, e' []]
          | lam f => left; rw [← hv, evalT, evalT, ← ih.1 x, ← ih.1 [], e' x, e' []]
          | var i => right; exact ⟨i, rfl⟩
          | const c => left; rw [← hv, evalT, evalT]
        rcases hh : evalT ap call [] (.node t as) with _ | w
        · rcases this with h | ⟨i, h⟩
          · rw [hh] at h; simp at h
          · exfalso
            subst h
            have : as = [] := hleaf [] _ rfl rfl
            rw [this] at he; simp at he
        · exact ⟨_, rfl⟩
      · rw [if_neg ha]
        exact ⟨_, rfl⟩
theorem simplifyArgs_total (hz : ap .sum [] = some zero) (ho : ap .prod [] = some one) (x : List V) :
    (as : List (Expr V)) → (∀ a ∈ as, ∀ p s, a.at? p = some s → (evalT ap call x s).isSome) →
      (∀ a ∈ as, ∀ p s, a.at? p = some s → isVar s = true → s.args = []) →
      ∃ as', simplifyArgs (evalT ap call []) zero one as = .ok as'
  | [], _, _ => ⟨[], rfl⟩
  | a :: as, h, h' => by
    have h0 := h a (by simp) [] a (by cases a; rfl)
    obtain ⟨v, hv⟩ := Option.isSome_iff_exists.mp h0
    obtain ⟨a', e1⟩ := simplify_total hz ho x a v (h a (by simp)) (h' a (by simp)) hv
    obtain ⟨as', e2⟩ := simplifyArgs_total hz ho x as (fun b hb => h b (by simp [hb]))
      (fun b hb => h' b (by simp [hb]))
    exact ⟨a' :: as', by rw [simplifyArgs, e1]; dsimp only; rw [e2]⟩
end

mutual
theorem simplify_id (ev : Expr V → Option V) : (e : Expr V) → (∀ p s, e.at? p = some s → Folded s) →
    simplify ev zero one e = .ok e
  | .node t as, h => by
    have hargs : ∀ a ∈ as, ∀ p s, a.at? p = some s → Folded s := by
      intro a ha p s hp
      obtain ⟨k, hk⟩ := List.getElem?_of_mem ha
      exact h (k :: p) s (by rw [Tree.at?, hk]; exact hp)
    have h0 := h [] (.node t as) rfl
    rw [simplify, simplifyArgs_id ev as hargs]
    dsimp only
    by_cases he : as.isEmpty
    · rw [if_pos he]
      have has : as = [] := by simpa using he
      subst has
      have : foldLeaf zero one t = .node t [] := by
        cases t with
        | fn f =>
          cases f <;> first | exact absurd rfl h0.2.1 | exact absurd rfl h0.2.2 | rfl
        | var i => rfl
        | const c => rfl
        | lam k => rfl
      rw [this]
    · rw [if_neg he]
      have : as.all isConst = false := h0.1 (by
        intro hh
        have hh' : as = [] := hh
        rw [hh'] at he; simp at he)
      rw [this]; rfl
theorem simplifyArgs_id (ev : Expr V → Option V) : (as : List (Expr V)) →
    (∀ a ∈ as, ∀ p s, a.at? p = some s → Folded s) → simplifyArgs ev zero one as = .ok as
  | [], _ => rfl
  | a :: as, h => by
    rw [simplifyArgs, simplify_id ev a (h a (by simp))]
    dsimp only
    rw [simplifyArgs_id ev as (fun b hb => h b (by simp [hb]))]
end

end Simp

/-- Simplification does not change the value of an expression, on any inputs. -/
theorem C246_value (L : List (Expr ℝ)) {e e' : Expr ℝ} (h : simplify (eval apR L []) 0 1 e = .ok e')
    (x : List ℝ) : eval apR L x e' = eval apR L x e :=
  simplify_eval apR (callL apR L) 0 1 (by rw [apR_sum]; simp) (by rw [apR_prod]; simp) e e' h x

/-- It leaves nothing to fold, and a second simplification changes nothing. -/
theorem C246_folded (L : List (Expr ℝ)) {e e' : Expr ℝ} (h : simplify (eval apR L []) 0 1 e = .ok e') :
    (∀ p s, e'.at? p = some s → Folded s) ∧ simplify (eval apR L []) 0 1 e' = .ok e' := by
  have := simplify_folded 0 1 (eval apR L []) e e' h
  exact ⟨this, simplify_id 0 1 _ e' this⟩

/-- It succeeds on every expression all of whose parts have a value on some inputs. -/
theorem C246_total (L : List (Expr ℝ)) (x : List ℝ) {e : Expr ℝ}
    (hval : ∀ p s, e.at? p = some s → (eval apR L x s).isSome)
    (hvar : ∀ p s, e.at? p = some s → isVar s = true → s.args = []) :
    ∃ e', simplify (eval apR L []) 0 1 e = .ok e' := by
  obtain ⟨v, hv⟩ := Option.isSome_iff_exists.mp (hval [] e (by cases e; rfl))
  exact simplify_total apR (callL apR L) 0 1 (by rw [apR_sum]; simp) (by rw [apR_prod]; simp) x e v
    hval hvar hv

example : ∃ e', simplify (eval apR [] []) 0 1 (efn .sum [econst 1, efn .prod []]) = .ok e' ∧
    ∀ x, eval apR [] x e' = some 2 := by
  refine ⟨econst 2, ?_, fun x => rfl⟩
  have h1 : eval apR [] [] (efn .sum [econst 1, efn .prod []]) = some 2 := by
    norm_num [eval, efn, econst, evalT, evalArgs, apR]
  rw [efn, simplify, simplifyArgs, simplifyArgs, econst, efn, simplify, simplify]
  simp only [simplifyArgs, foldLeaf, List.isEmpty_nil, if_true, List.isEmpty_cons, Bool.false_eq_true, if_false,
    List.all_cons, isConst, List.all_nil, Bool.and_true]
  have h1' : eval apR [] [] (Tree.node (Tok.fn Fn.sum) [Tree.node (Tok.const 1) [], Tree.node (Tok.fn Fn.prod) []]) =
    some 2 := h1
  rw [h1']
  rfl

/-! ### C247: reading and writing constants -/

/-- `P` holds at every node. -/
def AllNodes (P : Expr V → Prop) (e : Expr V) : Prop := ∀ p s, e.at? p = some s → P s

theorem AllNodes.root {P : Expr V → Prop} {e : Expr V} (h : AllNodes P e) : P e := h [] e (by cases e; rfl)

theorem AllNodes.arg {P : Expr V → Prop} {t : Tok V} {as : List (Expr V)} (h : AllNodes P (.node t as)) :
    ∀ a ∈ as, AllNodes P a := by
  intro a ha p s hp
  obtain ⟨k, hk⟩ := List.getElem?_of_mem ha
  exact h (k :: p) s (by rw [Tree.at?, hk]; exact hp)

theorem AllNodes.mk {P : Expr V → Prop} {t : Tok V} {as : List (Expr V)} (h0 : P (.node t as))
    (h : ∀ a ∈ as, AllNodes P a) : AllNodes P (.node t as) := by
  intro p s hp
  cases p with
  | nil =>
    have : Tree.node t as = s := Option.some.inj hp
    rw [← this]; exact h0
  | cons k p =>
    rw [Tree.at?] at hp
    rcases hk : as[k]? with _ | a
    · rw [hk] at hp; simp at hp
    · rw [hk] at hp
      exact h a (List.mem_of_getElem? hk) p s hp

/-- Constants and variables have no arguments, as SymConst and SymVar make them. -/
def Leafy (e : Expr V) : Prop := AllNodes (fun s => isConst s = true ∨ isVar s = true → s.args = []) e

mutual
/-- An expression without its constants. -/
def erase : Expr V → Expr Unit
  | .node (.const _) _ => .node (.const ()) []
  | .node (.fn f) as => .node (.fn f) (eraseArgs as)
  | .node (.var i) as => .node (.var i) (eraseArgs as)
  | .node (.lam k) as => .node (.lam k) (eraseArgs as)
def eraseArgs : List (Expr V) → List (Expr Unit)
  | [] => []
  | a :: as => erase a :: eraseArgs as
end

mutual
theorem set_get : (e : Expr V) → Leafy e → (r : List V) → setConsts e (getConsts e ++ r) = .ok (e, r)
  | .node (.const c) as, h, r => by
    have : as = [] := h.root (Or.inl rfl)
    subst this
    rfl
  | .node (.fn f) as, h, r => by
    rw [getConsts, setConsts, setArgs_get as (fun a ha => AllNodes.arg h a ha) r]
  | .node (.var f) as, h, r => by
    rw [getConsts, setConsts, setArgs_get as (fun a ha => AllNodes.arg h a ha) r]
  | .node (.lam f) as, h, r => by
    rw [getConsts, setConsts, setArgs_get as (fun a ha => AllNodes.arg h a ha) r]
theorem setArgs_get : (as : List (Expr V)) → (∀ a ∈ as, Leafy a) → (r : List V) →
    setConstsArgs as (getConstsArgs as ++ r) = .ok (as, r)
  | [], _, r => rfl
  | a :: as, h, r => by
    rw [getConstsArgs, List.append_assoc, setConstsArgs, set_get a (h a (by simp)) _]
    dsimp only
    rw [setArgs_get as (fun b hb => h b (by simp [hb])) r]
end

mutual
theorem get_set : (e : Expr V) → Leafy e → (cs : List V) → (e' : Expr V) → (r : List V) →
    setConsts e cs = .ok (e', r) →
      cs = getConsts e' ++ r ∧ erase e' = erase e ∧ (getConsts e').length = (getConsts e).length
  | .node (.const c) as, h, cs, e', r, hs => by
    cases cs with
    | nil => simp [setConsts] at hs
    | cons d cs =>
      have has : as = [] := h.root (Or.inl rfl)
      subst has
      rw [setConsts] at hs
      have h' := Except.ok.inj hs
      have h1 : econst d = e' := congrArg Prod.fst h'
      have h2 : cs = r := congrArg Prod.snd h'
      subst h1; subst h2
      exact ⟨rfl, rfl, rfl⟩
  | .node (.fn f) as, h, cs, e', r, hs => by
    rw [setConsts] at hs
    rcases ha : setConstsArgs as cs with er | ⟨as', cs'⟩
    · rw [ha] at hs; simp at hs
    · rw [ha] at hs
      have h' := Except.ok.inj hs
      have h1 : Tree.node (.fn f) as' = e' := congrArg Prod.fst h'
      have h2 : cs' = r := congrArg Prod.snd h'
      subst h1; subst h2
      obtain ⟨i1, i2, i3⟩ := get_setArgs as (fun a ha => AllNodes.arg h a ha) cs as' cs' ha
      exact ⟨by rw [getConsts]; exact i1, by rw [erase, erase, i2], by rw [getConsts, getConsts]; exact i3⟩
  | .node (.var f) as, h, cs, e', r, hs => by
    rw [setConsts] at hs
    rcases ha : setConstsArgs as cs with er | ⟨as', cs'⟩
    · rw [ha] at hs; simp at hs
    · rw [ha] at hs
      have h' := Except.ok.inj hs
      have h1 : Tree.node (.var f) as' = e' := congrArg Prod.fst h'
      have h2 : cs' = r := congrArg Prod.snd h'
      subst h1; subst h2
      obtain ⟨i1, i2, i3⟩ := get_setArgs as (fun a ha => AllNodes.arg h a ha) cs as' cs' ha
      exact ⟨by rw [getConsts]; exact i1, by rw [erase, erase, i2], by rw [getConsts, getConsts]; exact i3⟩
  | .node (.lam f) as, h, cs, e', r, hs => by
    rw [setConsts] at hs
    rcases ha : setConstsArgs as cs with er | ⟨as', cs'⟩
    · rw [ha] at hs; simp at hs
    · rw [ha] at hs
      have h' := Except.ok.inj hs
      have h1 : Tree.node (.lam f) as' = e' := congrArg Prod.fst h'
      have h2 : cs' = r := congrArg Prod.snd h'
      subst h1; subst h2
      obtain ⟨i1, i2, i3⟩ := get_setArgs as (fun a ha => AllNodes.arg h a ha) cs as' cs' ha
      exact ⟨by rw [getConsts]; exact i1, by rw [erase, erase, i2], by rw [getConsts, getConsts]; exact i3⟩
theorem get_setArgs : (as : List (Expr V)) → (∀ a ∈ as, Leafy a) → (cs : List V) → (as' : List (Expr V)) →
    (r : List V) → setConstsArgs as cs = .ok (as', r) →
      cs = getConstsArgs as' ++ r ∧ eraseArgs as' = eraseArgs as ∧
        (getConstsArgs as').length = (getConstsArgs as).length
  | [], _, cs, as', r, hs => by
    have h' := Except.ok.inj hs
    have h1 : [] = as' := congrArg Prod.fst h'
    have h2 : cs = r := congrArg Prod.snd h'
    subst h1; subst h2
    exact ⟨rfl, rfl, rfl⟩
  | a :: as, h, cs, as', r, hs => by
    rw [setConstsArgs] at hs
    rcases ha : setConsts a cs with er | ⟨a', cs'⟩
    · rw [ha] at hs; simp at hs
    · rw [ha] at hs
      dsimp only at hs
      rcases hb : setConstsArgs as cs' with er | ⟨as'', cs''⟩
      · rw [hb] at hs; simp at hs
      · rw [hb] at hs
        have h' := Except.ok.inj hs
        have h1 : a' :: as'' = as' := congrArg Prod.fst h'
        have h2 : cs'' = r := congrArg Prod.snd h'
        subst h1; subst h2
        obtain ⟨i1, i2, i3⟩ := get_set a (h a (by simp)) cs a' cs' ha
        obtain ⟨j1, j2, j3⟩ := get_setArgs as (fun b hb => h b (by simp [hb])) cs' as'' cs'' hb
        refine ⟨?_, by rw [eraseArgs, eraseArgs, i2, j2], by simp [getConstsArgs, i3, j3]⟩
        rw [getConstsArgs, i1, j1, List.append_assoc]
end

mutual
theorem set_total : (e : Expr V) → Leafy e → (cs : List V) →
    (∃ e' r, setConsts e cs = .ok (e', r) ∧ cs.length = r.length + (getConsts e).length) ∨
      (setConsts e cs = .error .ub ∧ cs.length < (getConsts e).length)
  | .node (.const c) as, h, cs => by
    have has : as = [] := h.root (Or.inl rfl)
    subst has
    cases cs with
    | nil => exact Or.inr ⟨rfl, by simp [getConsts, getConstsArgs]⟩
    | cons d cs => exact Or.inl ⟨econst d, cs, rfl, by simp [getConsts, getConstsArgs]⟩
  | .node (.fn f) as, h, cs => by
    rw [setConsts, getConsts]
    rcases setArgs_total as (fun a ha => AllNodes.arg h a ha) cs with ⟨as', r, e, hl⟩ | ⟨e, hl⟩
    · exact Or.inl ⟨.node (.fn f) as', r, by rw [e], hl⟩
    · exact Or.inr ⟨by rw [e], hl⟩
  | .node (.var f) as, h, cs => by
    rw [setConsts, getConsts]
    rcases setArgs_total as (fun a ha => AllNodes.arg h a ha) cs with ⟨as', r, e, hl⟩ | ⟨e, hl⟩
    · exact Or.inl ⟨.node (.var f) as', r, by rw [e], hl⟩
    · exact Or.inr ⟨by rw [e], hl⟩
  | .node (.lam f) as, h, cs => by
    rw [setConsts, getConsts]
    rcases setArgs_total as (fun a ha => AllNodes.arg h a ha) cs with ⟨as', r, e, hl⟩ | ⟨e, hl⟩
    · exact Or.inl ⟨.node (.lam f) as', r, by rw [e], hl⟩
    · exact Or.inr ⟨by rw [e], hl⟩
theorem setArgs_total : (as : List (Expr V)) → (∀ a ∈ as, Leafy a) → (cs : List V) →
    (∃ as' r, setConstsArgs as cs = .ok (as', r) ∧ cs.length = r.length + (getConstsArgs as).length) ∨
      (setConstsArgs as cs = .error .ub ∧ cs.length < (getConstsArgs as).length)
  | [], _, cs => Or.inl ⟨[], cs, rfl, by simp [getConstsArgs]⟩
  | a :: as, h, cs => by
    rw [setConstsArgs, getConstsArgs, List.length_append]
    rcases set_total a (h a (by simp)) cs with ⟨a', r, e, hl⟩ | ⟨e, hl⟩
    · rw [e]
      dsimp only
      rcases setArgs_total as (fun b hb => h b (by simp [hb])) r with ⟨as', r', e', hl'⟩ | ⟨e', hl'⟩
      · exact Or.inl ⟨a' :: as', r', by rw [e'], by omega⟩
      · exact Or.inr ⟨by rw [e'], by omega⟩
    · exact Or.inr ⟨by rw [e], by omega⟩
end

/-- Writing back the constants read changes nothing. -/
theorem C247_set_get {e : Expr V} (h : Leafy e) : setConsts e (getConsts e) = .ok (e, []) := by
  have := set_get e h []
  rwa [List.append_nil] at this

/-- Writing as many constants as there are puts exactly those there and touches nothing else. -/
theorem C247_get_set {e : Expr V} (h : Leafy e) {cs : List V} (hn : cs.length = (getConsts e).length) :
    ∃ e', setConsts e cs = .ok (e', []) ∧ getConsts e' = cs ∧ erase e' = erase e := by
  rcases set_total e h cs with ⟨e', r, hs, hl⟩ | ⟨_, hl⟩
  · have hr : r = [] := List.length_eq_zero_iff.mp (by omega)
    subst hr
    obtain ⟨h1, h2, _⟩ := get_set e h cs e' [] hs
    exact ⟨e', hs, by rw [h1]; simp, h2⟩
  · omega

/-- With fewer constants than there are, it reads beyond the end. -/
theorem C247_too_few {e : Expr V} (h : Leafy e) (cs : List V) :
    setConsts e cs = .error .ub ↔ cs.length < (getConsts e).length := by
  rcases set_total e h cs with ⟨e', r, hs, hl⟩ | ⟨hs, hl⟩
  · rw [hs]; exact ⟨fun h => (nomatch h), fun h => absurd h (by omega)⟩
  · exact ⟨fun _ => hl, fun _ => hs⟩

/-- The constants are changed by the mutation exactly when there are some; each moves by its draw times the
deviation over their number, and nothing else changes. -/
theorem C247_mutate (stdev : ℝ) (z : Nat → ℝ) {e : Expr ℝ} (h : Leafy e) :
    ∃ e' b, mutateConstants stdev z e = .ok (e', b) ∧ (b = true ↔ getConsts e ≠ []) ∧ erase e' = erase e ∧
      (getConsts e').length = (getConsts e).length ∧
      ∀ i c, (getConsts e)[i]? = some c →
        (getConsts e')[i]? = some (c + z i * stdev / (getConsts e).length) := by
  unfold mutateConstants
  by_cases he : (getConsts e).isEmpty
  · rw [if_pos he]
    have he' : getConsts e = [] := by simpa using he
    refine ⟨e, false, rfl, by simp [he'], rfl, rfl, ?_⟩
    intro i c hc; rw [he'] at hc; simp at hc
  · rw [if_neg he]
    obtain ⟨e', hs, hg, her⟩ := C247_get_set h
      (cs := (getConsts e).mapIdx fun i v => v + z i * stdev / (getConsts e).length) (by simp)
    rw [hs]
    refine ⟨e', true, rfl, by simpa using he, her, by rw [hg]; simp, ?_⟩
    intro i c hc
    rw [hg, List.getElem?_mapIdx, hc]; rfl

example : Leafy (efn .sum [econst (1 : ℝ), evar 0, econst 2]) ∧
    getConsts (efn .sum [econst (1 : ℝ), evar 0, econst 2]) = [1, 2] := by
  refine ⟨AllNodes.mk (fun h => ?_) ?_, rfl⟩
  · rcases h with h | h <;> cases h
  · intro a ha
    have hleaf : ∀ t : Tok ℝ, AllNodes (fun s => isConst s = true ∨ isVar s = true → s.args = []) (.node t []) :=
      fun t => AllNodes.mk (fun _ => rfl) (fun a ha => by simp at ha)
    simp only [List.mem_cons, List.not_mem_nil, or_false] at ha
    rcases ha with rfl | rfl | rfl <;> exact hleaf _

end Paradiseo.MathSym
