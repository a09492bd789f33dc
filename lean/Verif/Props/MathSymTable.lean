import Verif.Model.MathSymEval
import Verif.Props.MathSymLambda

/-!
# C253: expressions compiled to a table

Specification: running the table gives the values of the expressions.
-/

namespace Paradiseo.MathSym

open Paradiseo.EO

/-- The value of an entry. -/
def entryVal (cs vs F : List ℝ) : Entry → Option ℝ
  | .constant i => cs[i]?
  | .inp i => vs[i]?
  | .function i => F[i]?

/-- What the table stands for on inputs `x`: `vs` the values of its variables, `F` those of its functions. -/
structure Stands (x : List ℝ) (c : Comp) (vs F : List ℝ) : Prop where
  inputs : readAll x c.vars = some vs
  len : F.length = c.functions.length
  funs : ∀ (k : Nat) (f : MFn) (args : List Entry), c.functions[k]? = some (f, args) →
    ∃ us w, List.Forall₂ (fun en u => entryVal c.constants vs (F.take k) en = some u) args us ∧
      mfAp f us = some w ∧ F[k]? = some w
  shared : ∀ (e : Expr ℝ) (en : Entry), (e, en) ∈ c.map → ∃ v, eval apR [] x e = some v ∧
    entryVal c.constants vs F en = some v

theorem prefix_get {α : Type} {l l' : List α} (h : l <+: l') {i : Nat} {a : α} (ha : l[i]? = some a) : l'[i]? = some a := by
  obtain ⟨t, rfl⟩ := h
  rw [List.getElem?_append_left (List.getElem?_eq_some_iff.1 ha).1]
  exact ha

theorem entryVal_mono {cs cs' vs vs' F F' : List ℝ} (h1 : cs <+: cs') (h2 : vs <+: vs') (h3 : F <+: F') {en : Entry}
    {v : ℝ} (h : entryVal cs vs F en = some v) : entryVal cs' vs' F' en = some v := by
  cases en with
  | constant i => exact prefix_get h1 h
  | inp i => exact prefix_get h2 h
  | function i => exact prefix_get h3 h

theorem forall2_imp {α β : Type} {R S : α → β → Prop} (h : ∀ a b, R a b → S a b) {l : List α} {m : List β}
    (hl : List.Forall₂ R l m) : List.Forall₂ S l m := by
  induction hl with
  | nil => exact .nil
  | cons a _ ih => exact .cons (h _ _ a) ih

theorem readAll_append {x : List ℝ} : ∀ {is : List Nat} {vs : List ℝ} {i : Nat} {v : ℝ}, readAll x is = some vs →
    x[i]? = some v → readAll x (is ++ [i]) = some (vs ++ [v])
  | [], vs, i, v, h, hv => by
    simp only [readAll, Option.some.injEq] at h
    subst h
    simp [readAll, hv]
  | j :: is, vs, i, v, h, hv => by
    rw [readAll] at h
    split at h
    · rename_i u us hu hus
      simp only [Option.some.injEq] at h
      subst h
      rw [List.cons_append, readAll, hu, readAll_append hus hv]
      rfl
    · exact absurd h (by simp)

theorem readAll_length {x : List ℝ} : ∀ {is : List Nat} {vs : List ℝ}, readAll x is = some vs → vs.length = is.length
  | [], vs, h => by simp only [readAll, Option.some.injEq] at h; subst h; rfl
  | j :: is, vs, h => by
    rw [readAll] at h
    split at h
    · rename_i u us hu hus
      simp only [Option.some.injEq] at h
      subst h
      simp [readAll_length hus]
    · exact absurd h (by simp)

section
variable {x : List ℝ} {c : Comp} {vs F : List ℝ}

theorem stands_const (h : Stands x c vs F) {e : Expr ℝ} {v : ℝ} (he : eval apR [] x e = some v) :
    Stands x (c.addConst e v).1 vs F ∧ entryVal (c.addConst e v).1.constants vs F (c.addConst e v).2 = some v := by
  have hp : c.constants <+: c.constants ++ [v] := ⟨_, rfl⟩
  have hv : entryVal (c.constants ++ [v]) vs F (.constant c.constants.length) = some v := by simp [entryVal]
  refine ⟨⟨h.inputs, h.len, ?_, ?_⟩, hv⟩
  · intro k f args hk
    obtain ⟨us, w, h1, h2, h3⟩ := h.funs k f args hk
    exact ⟨us, w, forall2_imp (fun a b => entryVal_mono hp (List.prefix_refl _) (List.prefix_refl _)) h1, h2, h3⟩
  · intro e' en hm
    rcases List.mem_cons.1 hm with hm | hm
    · cases hm; exact ⟨v, he, hv⟩
    · obtain ⟨w, h1, h2⟩ := h.shared e' en hm
      exact ⟨w, h1, entryVal_mono hp (List.prefix_refl _) (List.prefix_refl _) h2⟩

theorem stands_var (h : Stands x c vs F) {e : Expr ℝ} {i : Nat} {v : ℝ} (hi : x[i]? = some v)
    (he : eval apR [] x e = some v) :
    Stands x (c.addVar e i).1 (vs ++ [v]) F ∧
      entryVal (c.addVar e i).1.constants (vs ++ [v]) F (c.addVar e i).2 = some v := by
  have hp : vs <+: vs ++ [v] := ⟨_, rfl⟩
  have hv : entryVal c.constants (vs ++ [v]) F (.inp c.vars.length) = some v := by
    simp [entryVal, ← readAll_length h.inputs]
  refine ⟨⟨readAll_append h.inputs hi, h.len, ?_, ?_⟩, hv⟩
  · intro k f args hk
    obtain ⟨us, w, h1, h2, h3⟩ := h.funs k f args hk
    exact ⟨us, w, forall2_imp (fun a b => entryVal_mono (List.prefix_refl _) hp (List.prefix_refl _)) h1, h2, h3⟩
  · intro e' en hm
    rcases List.mem_cons.1 hm with hm | hm
    · cases hm; exact ⟨v, he, hv⟩
    · obtain ⟨w, h1, h2⟩ := h.shared e' en hm
      exact ⟨w, h1, entryVal_mono (List.prefix_refl _) hp (List.prefix_refl _) h2⟩

theorem stands_fun (h : Stands x c vs F) {e : Expr ℝ} {f : MFn} {args : List Entry} {us : List ℝ} {v : ℝ}
    (ha : List.Forall₂ (fun en u => entryVal c.constants vs F en = some u) args us) (hf : mfAp f us = some v)
    (he : eval apR [] x e = some v) :
    Stands x (c.addFun e f args).1 vs (F ++ [v]) ∧
      entryVal (c.addFun e f args).1.constants vs (F ++ [v]) (c.addFun e f args).2 = some v := by
  have hp : F <+: F ++ [v] := ⟨_, rfl⟩
  have hv : entryVal c.constants vs (F ++ [v]) (.function c.functions.length) = some v := by
    simp [entryVal, ← h.len]
  refine ⟨⟨h.inputs, by simp [Comp.addFun, h.len], ?_, ?_⟩, hv⟩
  · intro k g as hk
    by_cases hlt : k < c.functions.length
    · have hk' : c.functions[k]? = some (g, as) := by
        rw [← List.getElem?_append_left (l₂ := [(f, args)]) hlt]; exact hk
      obtain ⟨us, w, h1, h2, h3⟩ := h.funs k g as hk'
      refine ⟨us, w, ?_, h2, prefix_get hp h3⟩
      rw [List.take_append_of_le_length (by have := h.len; omega)]
      exact h1
    · have hlen : k < (c.functions ++ [(f, args)]).length := (List.getElem?_eq_some_iff.1 hk).1
      have hk1 : k = c.functions.length := by simp at hlen; omega
      subst hk1
      have : (f, args) = (g, as) := by
        have := hk
        simp only [Comp.addFun, List.getElem?_concat_length, Option.some.injEq] at this
        exact this
      cases this
      refine ⟨us, v, ?_, hf, by simp [← h.len]⟩
      rw [← h.len, List.take_left]
      exact ha
  · intro e' en hm
    rcases List.mem_cons.1 hm with hm | hm
    · cases hm; exact ⟨v, he, hv⟩
    · obtain ⟨w, h1, h2⟩ := h.shared e' en hm
      exact ⟨w, h1, entryVal_mono (List.prefix_refl _) (List.prefix_refl _) hp h2⟩

end

/-! ### Sums and products of more than two -/

theorem evalArgs_concat {x : List ℝ} : ∀ {as : List (Expr ℝ)} {a : Expr ℝ} {vs : List ℝ},
    evalArgs apR (callL apR []) x (as ++ [a]) = some vs →
    ∃ us v, vs = us ++ [v] ∧ evalArgs apR (callL apR []) x as = some us ∧ evalT apR (callL apR []) x a = some v
  | [], a, vs, h => by
    simp only [List.nil_append, evalArgs] at h
    split at h
    · rename_i v us hv hus
      simp only [Option.some.injEq] at hus h
      subst hus; subst h
      exact ⟨[], v, rfl, by simp [evalArgs], hv⟩
    · exact absurd h (by simp)
  | b :: as, a, vs, h => by
    rw [List.cons_append, evalArgs] at h
    split at h
    · rename_i w ws hw hws
      simp only [Option.some.injEq] at h
      subst h
      obtain ⟨us, v, h1, h2, h3⟩ := evalArgs_concat hws
      subst h1
      exact ⟨w :: us, v, rfl, by rw [evalArgs, hw, h2], h3⟩
    · exact absurd h (by simp)

theorem makeBinary_value {f : Fn} (hf : f = .sum ∨ f = .prod) {x : List ℝ} : ∀ (rs : List (Expr ℝ)) {v : ℝ},
    2 ≤ rs.length → eval apR [] x (efn f rs.reverse) = some v → eval apR [] x (makeBinary f rs) = some v
  | [], _, h, _ => by simp at h
  | [_], _, h, _ => by simp at h
  | [b, a], v, _, h => h
  | an :: b :: a :: rs, v, _, h => by
    rw [eval, efn, evalT] at h
    split at h
    · exact absurd h (by simp)
    · rename_i ws hws
      rw [List.reverse_cons] at hws
      obtain ⟨us, w, h1, h2, h3⟩ := evalArgs_concat hws
      subst h1
      have hb : ∃ u, apR f us = some u ∧ apR f [u, w] = some v := by
        rcases hf with rfl | rfl
        · refine ⟨_, rfl, ?_⟩
          rw [← h]
          simp [apR, List.foldl_append]
        · refine ⟨_, rfl, ?_⟩
          rw [← h]
          simp [apR, List.foldl_append]
      obtain ⟨u, hu, hv⟩ := hb
      have ih := makeBinary_value hf (x := x) (b :: a :: rs) (v := u) (by simp) (by
        rw [eval, efn, evalT, h2]; exact hu)
      rw [makeBinary, eval, efn, evalT, evalArgs, evalArgs, evalArgs]
      · rw [eval] at ih
        rw [ih, h3]; exact hv
      · simp

theorem value_one {f : Fn} (hf : f = .sum ∨ f = .prod) {x : List ℝ} {a : Expr ℝ} {v : ℝ}
    (h : eval apR [] x (efn f [a]) = some v) : eval apR [] x a = some v := by
  rw [eval, efn, evalT] at h
  split at h
  · exact absurd h (by simp)
  · rename_i ws hws
    rw [evalArgs, evalArgs] at hws
    rw [eval]
    split at hws
    · rename_i u us hu hus
      simp only [Option.some.injEq] at hus hws
      subst hus; subst hws
      rw [hu]
      rcases hf with rfl | rfl <;> simpa [apR] using h
    · exact absurd hws (by simp)

theorem value_two {f : Fn} {x : List ℝ} {a b : Expr ℝ} {v : ℝ}
    (h : eval apR [] x (efn f [a, b]) = some v) : ∃ u w, eval apR [] x a = some u ∧ eval apR [] x b = some w ∧
      apR f [u, w] = some v := by
  rw [eval, efn, evalT] at h
  split at h
  · exact absurd h (by simp)
  · rename_i ws hws
    obtain ⟨us, w, h1, h2, h3⟩ := evalArgs_concat (as := [a]) hws
    obtain ⟨us', u, h4, h5, h6⟩ := evalArgs_concat (as := []) h2
    simp only [evalArgs, Option.some.injEq] at h5
    subst h5; subst h4; subst h1
    exact ⟨u, w, h6, h3, h⟩

theorem value_first {f : Fn} {x : List ℝ} {a : Expr ℝ} {as : List (Expr ℝ)} {v : ℝ}
    (h : eval apR [] x (efn f (a :: as)) = some v) : ∃ u us, eval apR [] x a = some u ∧ apR f (u :: us) = some v := by
  rw [eval, efn, evalT] at h
  split at h
  · exact absurd h (by simp)
  · rename_i ws hws
    rw [evalArgs] at hws
    split at hws
    · rename_i u us hu hus
      simp only [Option.some.injEq] at hws
      subst hws
      exact ⟨u, us, hu, h⟩
    · exact absurd hws (by simp)

/-! ### Adding an expression -/

/-- The table got longer. -/
def Grew (c c' : Comp) (vs vs' F F' : List ℝ) : Prop :=
  c.constants <+: c'.constants ∧ vs <+: vs' ∧ F <+: F'

theorem Grew.trans {c c' c'' : Comp} {vs vs' vs'' F F' F'' : List ℝ} (h : Grew c c' vs vs' F F')
    (h' : Grew c' c'' vs' vs'' F' F'') : Grew c c'' vs vs'' F F'' :=
  ⟨h.1.trans h'.1, h.2.1.trans h'.2.1, h.2.2.trans h'.2.2⟩

theorem find_mem {c : Comp} {e : Expr ℝ} {en : Entry} (h : c.find e = some en) : (e, en) ∈ c.map := by
  rw [Comp.find, Option.map_eq_some_iff] at h
  obtain ⟨p, h1, h2⟩ := h
  have h3 := List.find?_some h1
  have h4 := List.mem_of_find?_eq_some h1
  simp only [decide_eq_true_eq] at h3
  obtain ⟨e', en'⟩ := p
  cases h3; cases h2
  exact h4

theorem addTwo_value {x : List ℝ} {add : Comp → Expr ℝ → Except Err (Comp × Entry)}
    (hadd : ∀ {c c' : Comp} {e : Expr ℝ} {en : Entry} {vs F : List ℝ} {v : ℝ},
      Stands x c vs F → add c e = .ok (c', en) → eval apR [] x e = some v →
      ∃ vs' F', Stands x c' vs' F' ∧ Grew c c' vs vs' F F' ∧ entryVal c'.constants vs' F' en = some v)
    {c c' : Comp} {a b : Expr ℝ} {f : Fn} {g : MFn} {en : Entry} {vs F : List ℝ} {v : ℝ}
    (hg : ∀ u w, apR f [u, w] = mfAp g [u, w])
    (hs : Stands x c vs F) (h : addTwo add c (efn f [a, b]) g a b = .ok (c', en))
    (he : eval apR [] x (efn f [a, b]) = some v) :
    ∃ vs' F', Stands x c' vs' F' ∧ Grew c c' vs vs' F F' ∧ entryVal c'.constants vs' F' en = some v := by
  rw [addTwo] at h
  obtain ⟨u, w, hu, hw, huw⟩ := value_two he
  split at h
  · exact absurd h (by simp)
  · rename_i c1 ea h1
    split at h
    · exact absurd h (by simp)
    · rename_i c2 eb h2
      simp only [Except.ok.injEq] at h
      obtain ⟨vs1, F1, s1, g1, e1⟩ := hadd hs h1 hu
      obtain ⟨vs2, F2, s2, g2, e2⟩ := hadd s1 h2 hw
      have e1' := entryVal_mono g2.1 g2.2.1 g2.2.2 e1
      obtain ⟨s3, e3⟩ := stands_fun s2 (f := g) (us := [u, w]) (.cons e1' (.cons e2 .nil)) (by rw [← hg]; exact huw) he
      rw [h] at s3 e3
      refine ⟨_, _, s3, (g1.trans g2).trans ⟨?_, List.prefix_refl _, ⟨_, rfl⟩⟩, e3⟩
      rw [show c' = (c2.addFun (efn f [a, b]) g [ea, eb]).1 by rw [h]]
      exact List.prefix_refl _

theorem addOne_value {x : List ℝ} {add : Comp → Expr ℝ → Except Err (Comp × Entry)}
    (hadd : ∀ {c c' : Comp} {e : Expr ℝ} {en : Entry} {vs F : List ℝ} {v : ℝ},
      Stands x c vs F → add c e = .ok (c', en) → eval apR [] x e = some v →
      ∃ vs' F', Stands x c' vs' F' ∧ Grew c c' vs vs' F F' ∧ entryVal c'.constants vs' F' en = some v)
    {c c' : Comp} {a : Expr ℝ} {f : Fn} {en : Entry} {vs F : List ℝ} {v : ℝ}
    (hs : Stands x c vs F) (h : addOne add c (efn f [a]) f a = .ok (c', en))
    (he : eval apR [] x (efn f [a]) = some v) :
    ∃ vs' F', Stands x c' vs' F' ∧ Grew c c' vs vs' F F' ∧ entryVal c'.constants vs' F' en = some v := by
  rw [addOne] at h
  obtain ⟨u, us, hu, hus⟩ := value_first he
  split at h
  · exact absurd h (by simp)
  · rename_i c1 ea h1
    split at h
    · exact absurd h (by simp)
    · rename_i g hg
      simp only [Except.ok.injEq] at h
      obtain ⟨vs1, F1, s1, g1, e1⟩ := hadd hs h1 hu
      have hf : mfAp g [u] = some v := by
        rw [← hus]
        cases f <;> simp only [mfOf, reduceCtorEq, Option.some.injEq] at hg <;> subst hg <;> rfl
      obtain ⟨s3, e3⟩ := stands_fun s1 (f := g) (us := [u]) (.cons e1 .nil) hf he
      rw [h] at s3 e3
      refine ⟨_, _, s3, g1.trans ⟨?_, List.prefix_refl _, ⟨_, rfl⟩⟩, e3⟩
      rw [show c' = (c1.addFun (efn f [a]) g [ea]).1 by rw [h]]
      exact List.prefix_refl _

theorem doAdd_value {x : List ℝ} : ∀ (fuel : Nat) {c c' : Comp} {e : Expr ℝ} {en : Entry} {vs F : List ℝ} {v : ℝ},
    Stands x c vs F → doAdd fuel c e = .ok (c', en) → eval apR [] x e = some v →
    ∃ vs' F', Stands x c' vs' F' ∧ Grew c c' vs vs' F F' ∧ entryVal c'.constants vs' F' en = some v
  | 0, _, _, _, _, _, _, _, _, h, _ => by simp [doAdd] at h
  | fuel + 1, c, c', .node t as, en, vs, F, v, hs, h, he => by
    rw [doAdd] at h
    split at h
    · rename_i en' hfind
      simp only [Except.ok.injEq, Prod.mk.injEq] at h
      obtain ⟨rfl, rfl⟩ := h
      obtain ⟨w, h1, h2⟩ := hs.shared _ _ (find_mem hfind)
      rw [he, Option.some.injEq] at h1
      subst h1
      exact ⟨vs, F, hs, ⟨List.prefix_refl _, List.prefix_refl _, List.prefix_refl _⟩, h2⟩
    · rw [addFresh.eq_def] at h
      split at h
      · rename_i w _
        have : v = w := by rw [eval, evalT] at he; exact (Option.some.inj he).symm
        subst this
        obtain ⟨s3, e3⟩ := stands_const hs he
        simp only [Except.ok.injEq] at h
        rw [h] at s3 e3
        refine ⟨vs, F, s3, ⟨?_, List.prefix_refl _, List.prefix_refl _⟩, e3⟩
        rw [show c' = (c.addConst (.node (.const v) as) v).1 by rw [h]]
        exact ⟨_, rfl⟩
      · rename_i i _
        have hi : x[i]? = some v := by rw [eval, evalT] at he; exact he
        obtain ⟨s3, e3⟩ := stands_var hs hi he
        simp only [Except.ok.injEq] at h
        rw [h] at s3 e3
        refine ⟨_, F, s3, ⟨?_, ⟨_, rfl⟩, List.prefix_refl _⟩, e3⟩
        rw [show c' = (c.addVar (.node (.var i) as) i).1 by rw [h]]
        exact List.prefix_refl _
      · exact doAdd_value fuel hs h (by rw [← he]; rfl)
      · exact doAdd_value fuel hs h (value_one (Or.inl rfl) he)
      · exact addTwo_value (doAdd_value fuel) (fun u w => by simp [apR, mfAp]) hs h he
      · rename_i h0 h1 h2
        refine doAdd_value fuel hs h (makeBinary_value (Or.inl rfl) _ ?_ (by rw [List.reverse_reverse]; exact he))
        match as, h0, h1 with
        | [], h0, _ => exact absurd rfl h0
        | [a], _, h1 => exact absurd rfl (h1 a)
        | _ :: _ :: _, _, _ => simp
      · exact doAdd_value fuel hs h (by rw [← he]; rfl)
      · exact doAdd_value fuel hs h (value_one (Or.inr rfl) he)
      · exact addTwo_value (doAdd_value fuel) (fun u w => by simp [apR, mfAp]) hs h he
      · rename_i h0 h1 h2
        refine doAdd_value fuel hs h (makeBinary_value (Or.inr rfl) _ ?_ (by rw [List.reverse_reverse]; exact he))
        match as, h0, h1 with
        | [], h0, _ => exact absurd rfl h0
        | [a], _, h1 => exact absurd rfl (h1 a)
        | _ :: _ :: _, _, _ => simp
      · exact absurd h (by simp)
      · rename_i a as
        obtain ⟨u, us, hu, hus⟩ := value_first he
        refine doAdd_value fuel hs h ?_
        have hv : u * u = v := by simpa [apR, unR] using hus
        rw [eval] at hu
        rw [eval, efn, evalT, evalArgs, evalArgs, evalArgs, hu]
        simp [apR, hv]
      · exact addOne_value (doAdd_value fuel) hs h he
      · exact absurd h (by simp)

theorem addAll_value {x : List ℝ} {fuel : Nat} : ∀ {es : List (Expr ℝ)} {vals : List ℝ} {c c' : Comp}
    {ens : List Entry} {vs F : List ℝ}, Stands x c vs F →
    List.Forall₂ (fun e v => eval apR [] x e = some v) es vals → addAll fuel c es = .ok (c', ens) →
    ∃ vs' F', Stands x c' vs' F' ∧ Grew c c' vs vs' F F' ∧
      List.Forall₂ (fun en v => entryVal c'.constants vs' F' en = some v) ens vals
  | [], vals, c, c', ens, vs, F, hs, hv, h => by
    cases hv
    simp only [addAll, Except.ok.injEq, Prod.mk.injEq] at h
    obtain ⟨rfl, rfl⟩ := h
    exact ⟨vs, F, hs, ⟨List.prefix_refl _, List.prefix_refl _, List.prefix_refl _⟩, .nil⟩
  | e :: es, _, c, c', ens, vs, F, hs, .cons hv hvs, h => by
    rw [addAll] at h
    split at h
    · exact absurd h (by simp)
    · rename_i c1 en h1
      split at h
      · exact absurd h (by simp)
      · rename_i c2 ens' h2
        simp only [Except.ok.injEq, Prod.mk.injEq] at h
        obtain ⟨rfl, rfl⟩ := h
        obtain ⟨vs1, F1, s1, g1, e1⟩ := doAdd_value fuel hs h1 hv
        obtain ⟨vs2, F2, s2, g2, e2⟩ := addAll_value s1 hvs h2
        exact ⟨vs2, F2, s2, g1.trans g2, .cons (entryVal_mono g2.1 g2.2.1 g2.2.2 e1) e2⟩

/-! ### Running the table -/

theorem place_get {c : Comp} {vs F : List ℝ} (hv : vs.length = c.vars.length) {en : Entry} {v : ℝ}
    (h : entryVal c.constants vs F en = some v) : (c.constants ++ vs ++ F)[c.place en]? = some v := by
  cases en with
  | constant i => exact prefix_get ⟨vs ++ F, by simp⟩ h
  | inp i =>
    have h' : vs[i]? = some v := h
    refine prefix_get (l := c.constants ++ vs) ⟨F, rfl⟩ ?_
    rw [Comp.place, List.getElem?_append_right (by omega), Nat.add_sub_cancel]
    exact h'
  | function i =>
    have h' : F[i]? = some v := h
    rw [Comp.place, List.getElem?_append_right (by simp; omega)]
    rw [List.length_append, show i + c.vars.length + c.constants.length - (c.constants.length + vs.length) = i by omega]
    exact h'

theorem readAll_places {c : Comp} {vs F : List ℝ} (hv : vs.length = c.vars.length) : ∀ {ens : List Entry} {us : List ℝ},
    List.Forall₂ (fun en v => entryVal c.constants vs F en = some v) ens us →
    readAll (c.constants ++ vs ++ F) (ens.map c.place) = some us
  | _, _, .nil => by simp [readAll]
  | _, _, .cons h hs => by
    rw [List.map_cons, readAll, place_get hv h, readAll_places hv hs]

theorem runFuns_value {x : List ℝ} {c : Comp} {vs F : List ℝ} (hs : Stands x c vs F) : ∀ (n k : Nat),
    k + n = c.functions.length →
    runFuns (c.constants ++ vs ++ F.take k) ((c.functions.drop k).map fun p => (p.1, p.2.map c.place)) =
      some (c.constants ++ vs ++ F)
  | 0, k, hk => by
    rw [List.drop_of_length_le (by omega), List.take_of_length_le (by have := hs.len; omega)]
    rfl
  | n + 1, k, hk => by
    have hlt : k < c.functions.length := by omega
    obtain ⟨us, w, h1, h2, h3⟩ := hs.funs k (c.functions[k]).1 (c.functions[k]).2 (List.getElem?_eq_getElem hlt)
    rw [List.drop_eq_getElem_cons hlt, List.map_cons, runFuns, readAll_places (readAll_length hs.inputs) h1]
    dsimp only
    rw [h2]
    dsimp only
    have : c.constants ++ vs ++ F.take k ++ [w] = c.constants ++ vs ++ F.take (k + 1) := by
      rw [List.take_add_one, h3]; simp
    rw [this]
    exact runFuns_value hs n (k + 1) (by omega)

theorem runTable_value {x : List ℝ} {c : Comp} {vs F : List ℝ} (hs : Stands x c vs F) {ens : List Entry} {us : List ℝ}
    (h : List.Forall₂ (fun en v => entryVal c.constants vs F en = some v) ens us) : runTable c ens x = some us := by
  have h1 := runFuns_value hs c.functions.length 0 (by omega)
  simp only [List.take_zero, List.append_nil, List.drop_zero] at h1
  rw [runTable, hs.inputs]
  dsimp only
  rw [h1]
  exact readAll_places (readAll_length hs.inputs) h

theorem stands_empty (x : List ℝ) : Stands x Comp.empty [] [] where
  inputs := rfl
  len := rfl
  funs := by intro k f args h; simp [Comp.empty] at h
  shared := by intro e en h; cases h

/-! ### Expressions without lambdas -/

mutual
theorem evalT_noLambda {c1 c2 : Nat → List ℝ → Option ℝ} {x : List ℝ} : ∀ (e : Expr ℝ), NoLambda e →
    evalT apR c1 x e = evalT apR c2 x e
  | .node (.var i) as, _ => by rw [evalT, evalT]
  | .node (.const v) as, _ => by rw [evalT, evalT]
  | .node (.fn f) as, h => by rw [evalT, evalT, evalArgs_noLambda as (AllNodes.arg h)]
  | .node (.lam k) as, h => absurd rfl (AllNodes.root h k)
theorem evalArgs_noLambda {c1 c2 : Nat → List ℝ → Option ℝ} {x : List ℝ} : ∀ (as : List (Expr ℝ)),
    (∀ a ∈ as, NoLambda a) → evalArgs apR c1 x as = evalArgs apR c2 x as
  | [], _ => by rw [evalArgs, evalArgs]
  | a :: as, h => by
    rw [evalArgs, evalArgs, evalT_noLambda a (h a (by simp)), evalArgs_noLambda as (fun b hb => h b (by simp [hb]))]
end

theorem expandList_values {L : List (Expr ℝ)} (hL : WFL L) {n fe : Nat} {x : List ℝ} : ∀ {es es' : List (Expr ℝ)}
    {vals : List ℝ}, (∀ e ∈ es, Good n e) → expandList (expandAll L fe) es = .ok es' →
    List.Forall₂ (fun e v => eval apR L x e = some v) es vals →
    List.Forall₂ (fun e v => eval apR [] x e = some v) es' vals
  | [], es', _, _, h, .nil => by
    simp only [expandList, Except.ok.injEq] at h
    subst h
    exact .nil
  | e :: es, es', _, hg, h, .cons hv hvs => by
    rw [expandList] at h
    split at h
    · exact absurd h (by simp)
    · rename_i a ha
      split at h
      · exact absurd h (by simp)
      · rename_i as has
        simp only [Except.ok.injEq] at h
        subst h
        obtain ⟨h1, h2⟩ := C248_expand apR hL (hg e (by simp)) ha
        refine .cons ?_ (expandList_values hL (fun b hb => hg b (by simp [hb])) has hvs)
        have := h2 x _ hv
        rw [eval] at this ⊢
        rw [evalT_noLambda a h1]
        exact this

/-! ### The theorems -/

/-- On all inputs on which the expressions have values, running the table gives exactly these. -/
theorem C253_table {L : List (Expr ℝ)} (hL : WFL L) {n fe fa : Nat} {es : List (Expr ℝ)} (hg : ∀ e ∈ es, Good n e)
    {c : Comp} {outs : List Entry} (h : setupTable L fe fa es = .ok (c, outs)) {x vals : List ℝ}
    (hv : List.Forall₂ (fun e v => eval apR L x e = some v) es vals) : runTable c outs x = some vals := by
  rw [setupTable] at h
  split at h
  · exact absurd h (by simp)
  · rename_i es' hes
    obtain ⟨vs, F, h1, -, h2⟩ := addAll_value (stands_empty x) (expandList_values hL hg hes hv) h
    exact runTable_value h1 h2

/-- The expressions that can be compiled. -/
inductive Compiles : Expr ℝ → Prop
  | const (v : ℝ) (as) : Compiles (.node (.const v) as)
  | var (i : Nat) (as) : Compiles (.node (.var i) as)
  | sum (as : List (Expr ℝ)) (h : ∀ a ∈ as, Compiles a) : Compiles (efn .sum as)
  | prod (as : List (Expr ℝ)) (h : ∀ a ∈ as, Compiles a) : Compiles (efn .prod as)
  | sqr (a : Expr ℝ) (as) (h : Compiles a) : Compiles (efn .sqr (a :: as))
  | min (a : Expr ℝ) (h : Compiles a) : Compiles (efn .min [a])
  | inv (a : Expr ℝ) (h : Compiles a) : Compiles (efn .inv [a])
  | exp (a : Expr ℝ) (h : Compiles a) : Compiles (efn .exp [a])

/-- Enough depth for an expression. -/
def Enough (n : Nat) (e : Expr ℝ) : Prop := ∀ m, n ≤ m → ∀ c, ∃ r, doAdd m c e = .ok r

theorem Enough.mono {n m : Nat} {e : Expr ℝ} (h : Enough n e) (hnm : n ≤ m) : Enough m e :=
  fun k hk c => h k (le_trans hnm hk) c

theorem enough_list : ∀ {as : List (Expr ℝ)}, (∀ a ∈ as, ∃ n, Enough n a) → ∃ n, ∀ a ∈ as, Enough n a
  | [], _ => ⟨0, fun a ha => by cases ha⟩
  | a :: as, h => by
    obtain ⟨n, hn⟩ := h a (by simp)
    obtain ⟨m, hm⟩ := enough_list (as := as) (fun b hb => h b (by simp [hb]))
    refine ⟨max n m, fun b hb => ?_⟩
    rcases List.mem_cons.1 hb with rfl | hb
    · exact hn.mono (le_max_left _ _)
    · exact (hm b hb).mono (le_max_right _ _)

theorem enough_fresh {n : Nat} {t : Tok ℝ} {as : List (Expr ℝ)}
    (h : ∀ m, n ≤ m → ∀ c, ∃ r, addFresh (doAdd m) c t as = .ok r) : Enough (n + 1) (.node t as) := by
  intro m hm c
  obtain ⟨m, rfl⟩ : ∃ k, m = k + 1 := ⟨m - 1, by omega⟩
  rw [doAdd]
  split
  · exact ⟨_, rfl⟩
  · exact h m (by omega) c

theorem enough_two {n : Nat} {f : Fn} (hf : f = .sum ∨ f = .prod) {a b : Expr ℝ} (ha : Enough n a) (hb : Enough n b) :
    Enough (n + 1) (efn f [a, b]) := by
  refine enough_fresh fun m hm c => ?_
  obtain ⟨⟨c1, ea⟩, h1⟩ := ha m hm c
  obtain ⟨⟨c2, eb⟩, h2⟩ := hb m hm c1
  rcases hf with rfl | rfl <;> (rw [addFresh, addTwo, h1]; dsimp only; rw [h2]; exact ⟨_, rfl⟩)

theorem enough_binary {f : Fn} (hf : f = .sum ∨ f = .prod) : ∀ (rs : List (Expr ℝ)), 2 ≤ rs.length →
    (∃ n, ∀ a ∈ rs, Enough n a) → ∃ n, Enough n (makeBinary f rs)
  | [], h, _ => by simp at h
  | [_], h, _ => by simp at h
  | [b, a], _, ⟨n, hn⟩ => ⟨n + 1, enough_two hf (hn a (by simp)) (hn b (by simp))⟩
  | an :: b :: a :: rs, _, ⟨n, hn⟩ => by
    obtain ⟨m, hm⟩ := enough_binary hf (b :: a :: rs) (by simp) ⟨n, fun x hx => hn x (by simp at hx ⊢; tauto)⟩
    refine ⟨max n m + 1, ?_⟩
    rw [makeBinary]
    · exact enough_two hf (hm.mono (le_max_right _ _)) ((hn an (by simp)).mono (le_max_left _ _))
    · simp

theorem enough_many {f : Fn} (hf : f = .sum ∨ f = .prod) (as : List (Expr ℝ)) (h : ∃ n, ∀ a ∈ as, Enough n a) :
    ∃ n, Enough n (efn f as) := by
  have hc : ∀ v, Enough 1 (econst v) := fun v => enough_fresh fun m _ c => ⟨_, by rw [addFresh]⟩
  match as, h with
  | [], _ => exact ⟨2, enough_fresh fun m hm c => by rcases hf with rfl | rfl <;> (rw [addFresh]; exact hc _ m hm c)⟩
  | [a], ⟨n, hn⟩ =>
    exact ⟨n + 1, enough_fresh fun m hm c => by
      rcases hf with rfl | rfl <;> (rw [addFresh]; exact hn a (by simp) m hm c)⟩
  | [a, b], ⟨n, hn⟩ => exact ⟨n + 1, enough_two hf (hn a (by simp)) (hn b (by simp))⟩
  | a :: b :: d :: rs, ⟨n, hn⟩ =>
    obtain ⟨m, hm⟩ := enough_binary hf (a :: b :: d :: rs).reverse (by simp) ⟨n, fun x hx => hn x (List.mem_reverse.1 hx)⟩
    exact ⟨m + 1, enough_fresh fun k hk c => by
      rcases hf with rfl | rfl <;> (rw [addFresh] <;> first | exact hm k hk c | simp)⟩

theorem enough_compiles {e : Expr ℝ} (h : Compiles e) : ∃ n, Enough n e := by
  have one : ∀ {f : Fn} {g : MFn} {a : Expr ℝ}, f = .min ∨ f = .inv ∨ f = .exp → (∃ n, Enough n a) →
      ∃ n, Enough n (efn f [a]) := by
    intro f g a hf ⟨n, hn⟩
    refine ⟨n + 1, enough_fresh fun m hm c => ?_⟩
    obtain ⟨⟨c1, ea⟩, h1⟩ := hn m hm c
    rcases hf with rfl | rfl | rfl <;>
      (rw [addFresh] <;> first | (rw [addOne, h1]; exact ⟨_, rfl⟩) | simp)
  induction h with
  | const v as => exact ⟨1, enough_fresh fun m _ c => ⟨_, by rw [addFresh]⟩⟩
  | var i as => exact ⟨1, enough_fresh fun m _ c => ⟨_, by rw [addFresh]⟩⟩
  | sum as _ ih => exact enough_many (Or.inl rfl) as (enough_list ih)
  | prod as _ ih => exact enough_many (Or.inr rfl) as (enough_list ih)
  | sqr a as _ ih =>
    obtain ⟨n, hn⟩ := ih
    exact ⟨n + 2, enough_fresh fun m hm c => by rw [addFresh]; exact enough_two (Or.inr rfl) hn hn m hm c⟩
  | min a _ ih => exact one (g := .min) (by simp) ih
  | inv a _ ih => exact one (g := .inv) (by simp) ih
  | exp a _ ih => exact one (g := .exp) (by simp) ih

/-- Compilation of the supported functions ends. -/
theorem C253_ends {es : List (Expr ℝ)} (h : ∀ e ∈ es, Compiles e) :
    ∃ n, ∀ m, n ≤ m → ∀ c, ∃ r, addAll m c es = .ok r := by
  obtain ⟨n, hn⟩ := enough_list fun e he => enough_compiles (h e he)
  refine ⟨n, fun m hm => ?_⟩
  clear h
  induction es with
  | nil => exact fun c => ⟨_, rfl⟩
  | cons e es ih =>
    intro c
    obtain ⟨⟨c1, en⟩, h1⟩ := hn e (by simp) m hm c
    obtain ⟨⟨c2, ens⟩, h2⟩ := ih (fun a ha => hn a (by simp [ha])) c1
    rw [addAll, h1]
    dsimp only
    rw [h2]
    exact ⟨_, rfl⟩

/-- Any other function of any number of arguments ends the program when the table is made. -/
theorem C253_exit {f : Fn} (hf : f ≠ .sum ∧ f ≠ .prod ∧ f ≠ .sqr ∧ f ≠ .min ∧ f ≠ .inv ∧ f ≠ .exp)
    {as es : List (Expr ℝ)} (hc : ∀ a ∈ as, Compiles a) :
    ∃ n, ∀ m, n ≤ m → addAll m Comp.empty (efn f as :: es) = .error .asserted := by
  obtain ⟨n, hn⟩ := enough_list fun e he => enough_compiles (hc e he)
  refine ⟨n + 1, fun m hm => ?_⟩
  obtain ⟨m, rfl⟩ : ∃ k, m = k + 1 := ⟨m - 1, by omega⟩
  have : doAdd (m + 1) Comp.empty (efn f as) = .error .asserted := by
    rw [efn, doAdd]
    have : Comp.empty.find (.node (.fn f) as) = none := rfl
    rw [this]
    dsimp only
    match as, hn with
    | [], _ => cases f <;> simp_all [addFresh]
    | [a], hn =>
      obtain ⟨⟨c1, ea⟩, h1⟩ := hn a (by simp) m (by omega) Comp.empty
      cases f <;> simp_all [addFresh, addOne, mfOf]
    | _ :: _ :: _, _ => cases f <;> simp_all [addFresh]
  rw [addAll, this]

example : Compiles (efn .sum [evar 0, efn .exp [efn .sqr [evar 1]], econst 3]) :=
  .sum _ (by
    intro a ha
    simp only [List.mem_cons, List.not_mem_nil, or_false] at ha
    rcases ha with rfl | rfl | rfl
    · exact .var _ _
    · exact .exp _ (.sqr _ _ (.var _ _))
    · exact .const _ _)

end Paradiseo.MathSym
