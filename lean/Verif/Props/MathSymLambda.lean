import Verif.Props.MathSym

/-!
# mathsym: lambdas (C248)

Specification.  An expression is *well made below n* when constants and variables have no arguments and it uses
only lambdas with numbers below `n`; a list of bodies is well made when body `k` is well made below `k`.  The
value of an expression is that of `eval`.
-/

namespace Paradiseo.MathSym

open Paradiseo.EO

variable {V : Type} (ap : Fn → List V → Option V)

/-- What is asked of one node. -/
def Nd (n : Nat) (s : Expr V) : Prop :=
  (isConst s = true ∨ isVar s = true → s.args = []) ∧ ∀ k, s.token = .lam k → k < n

/-- Well made below `n`. -/
def Good (n : Nat) (e : Expr V) : Prop := AllNodes (Nd n) e

/-- Well made bodies. -/
def WFL (L : List (Expr V)) : Prop := ∀ k b, bodyOf L k = some b → Good k b

/-- No lambda occurs. -/
def NoLambda (e : Expr V) : Prop := AllNodes (fun s => ∀ k, s.token ≠ .lam k) e

theorem Good.mono {n m : Nat} (h : n ≤ m) {e : Expr V} (g : Good n e) : Good m e :=
  fun p s hp => ⟨(g p s hp).1, fun k hk => lt_of_lt_of_le ((g p s hp).2 k hk) h⟩

theorem Good.noLambda {e : Expr V} (g : Good 0 e) : NoLambda e :=
  fun p s hp k hk => absurd ((g p s hp).2 k hk) (by omega)

/-! ### Calls -/

theorem bodyOf_cons (b : Expr V) (L : List (Expr V)) (k : Nat) :
    bodyOf (b :: L) k = if k = L.length then some b else bodyOf L k := by
  unfold bodyOf
  rw [List.reverse_cons]
  by_cases h : k < L.length
  · rw [List.getElem?_append_left (by simpa using h), if_neg (by omega)]
  · rw [List.getElem?_append_right (by simp; omega)]
    by_cases hk : k = L.length
    · simp [hk]
    · rw [if_neg hk, List.getElem?_eq_none (by simp; omega), List.getElem?_eq_none (by simp; omega)]

theorem bodyOf_lt {L : List (Expr V)} {k : Nat} {b : Expr V} (h : bodyOf L k = some b) : k < L.length := by
  obtain ⟨hk, _⟩ := List.getElem?_eq_some_iff.mp h
  simpa using hk

theorem bodyOf_append (M L : List (Expr V)) {k : Nat} (hk : k < L.length) : bodyOf (M ++ L) k = bodyOf L k := by
  induction M with
  | nil => rfl
  | cons b M ih => rw [List.cons_append, bodyOf_cons, if_neg (by simp; omega), ih]

theorem callL_append (M L : List (Expr V)) {k : Nat} (hk : k < L.length) :
    callL ap (M ++ L) k = callL ap L k := by
  induction M with
  | nil => rfl
  | cons b M ih => funext vs; rw [List.cons_append, callL, if_neg (by simp; omega), ih]

mutual
theorem evalT_congr {n : Nat} {c d : Nat → List V → Option V} (hcd : ∀ k, k < n → c k = d k) (x : List V) :
    (e : Expr V) → Good n e → evalT ap c x e = evalT ap d x e
  | .node (.var i) as, _ => rfl
  | .node (.const i) as, _ => rfl
  | .node (.fn f) as, g => by rw [evalT, evalT, evalArgs_congr hcd x as g.arg]
  | .node (.lam k) as, g => by rw [evalT, evalT, evalArgs_congr hcd x as g.arg, hcd k (g.root.2 k rfl)]
theorem evalArgs_congr {n : Nat} {c d : Nat → List V → Option V} (hcd : ∀ k, k < n → c k = d k) (x : List V) :
    (as : List (Expr V)) → (∀ a ∈ as, Good n a) → evalArgs ap c x as = evalArgs ap d x as
  | [], _ => rfl
  | a :: as, g => by
    rw [evalArgs, evalArgs, evalT_congr hcd x a (g a (by simp)),
      evalArgs_congr hcd x as (fun b hb => g b (by simp [hb]))]
end

theorem eval_append (M L : List (Expr V)) (x : List V) {e : Expr V} (g : Good L.length e) :
    eval ap (M ++ L) x e = eval ap L x e :=
  evalT_congr ap (fun _ hk => callL_append ap M L hk) x e g

theorem WFL.tail {b : Expr V} {L : List (Expr V)} (h : WFL (b :: L)) : WFL L := by
  intro k c hk
  refine h k c ?_
  rw [bodyOf_cons, if_neg (by have := bodyOf_lt hk; omega)]; exact hk

theorem WFL.cons {b : Expr V} {L : List (Expr V)} (h : WFL L) (g : Good L.length b) : WFL (b :: L) := by
  intro k c hk
  rw [bodyOf_cons] at hk
  by_cases he : k = L.length
  · rw [if_pos he] at hk
    rw [← Option.some.inj hk, he]; exact g
  · rw [if_neg he] at hk; exact h k c hk

/-- A call is the value of the body on the arguments. -/
theorem callL_body : (L : List (Expr V)) → WFL L → (k : Nat) → (vs : List V) →
    callL ap L k vs = (bodyOf L k).bind (eval ap L vs)
  | [], _, k, vs => by simp [callL, bodyOf]
  | b :: L, h, k, vs => by
    rw [callL, bodyOf_cons]
    by_cases he : k = L.length
    · rw [if_pos he, if_pos he]
      have := eval_append ap [b] L vs (h k b (by rw [bodyOf_cons, if_pos he]) |>.mono (by omega))
      exact this.symm
    · rw [if_neg he, if_neg he, callL_body L h.tail]
      rcases hb : bodyOf L k with _ | c
      · rfl
      · have := eval_append ap [b] L vs ((h.tail k c hb).mono (by have := bodyOf_lt hb; omega))
        exact this.symm

/-! ### Expansion -/

theorem evalArgs_get {c : Nat → List V → Option V} {x : List V} : {as : List (Expr V)} → {vs : List V} →
    evalArgs ap c x as = some vs → as.length = vs.length ∧ ∀ (i : Nat) (a : Expr V), as[i]? = some a → evalT ap c x a = vs[i]?
  | [], vs, h => by
    have : ([] : List V) = vs := Option.some.inj h
    subst this; exact ⟨rfl, fun i a h => by simp at h⟩
  | a :: as, vs, h => by
    rw [evalArgs] at h
    rcases ha : evalT ap c x a with _ | v
    · rw [ha] at h; simp at h
    · rcases hb : evalArgs ap c x as with _ | ws
      · rw [ha, hb] at h; simp at h
      · rw [ha, hb] at h
        have : v :: ws = vs := Option.some.inj h
        subst this
        obtain ⟨h1, h2⟩ := evalArgs_get hb
        refine ⟨by simp [h1], ?_⟩
        intro i d hd
        cases i with
        | zero =>
          have : a = d := Option.some.inj (by simpa using hd)
          rw [← this, ha]; rfl
        | succ i => exact h2 i d (by simpa using hd)

theorem evalArgs_some {c : Nat → List V → Option V} {x : List V} : {as : List (Expr V)} →
    (∀ a ∈ as, (evalT ap c x a).isSome) → ∃ vs, evalArgs ap c x as = some vs
  | [], _ => ⟨[], rfl⟩
  | a :: as, h => by
    obtain ⟨v, hv⟩ := Option.isSome_iff_exists.mp (h a (by simp))
    obtain ⟨vs, hvs⟩ := evalArgs_some (as := as) (fun b hb => h b (by simp [hb]))
    exact ⟨v :: vs, by rw [evalArgs, hv, hvs]⟩

mutual
theorem subst_eval {c : Nat → List V → Option V} {x vs : List V} {args : List (Expr V)}
    (hargs : evalArgs ap c x args = some vs) : (b : Expr V) → (e : Expr V) → subst args b = .ok e →
      evalT ap c x e = evalT ap c vs b
  | .node (.var i) as, e, h => by
    rw [subst] at h
    rcases ha : args[i]? with _ | a
    · rw [ha] at h; simp at h
    · rw [ha] at h
      have : a = e := Except.ok.inj h
      subst this
      rw [(evalArgs_get ap hargs).2 i a ha, evalT]
  | .node (.const d) as, e, h => by
    rw [subst] at h
    rcases ha : substArgs args as with er | as'
    · rw [ha] at h; simp at h
    · rw [ha] at h
      have : Tree.node (.const d) as' = e := Except.ok.inj h
      subst this
      rw [evalT, evalT]
  | .node (.fn f) as, e, h => by
    rw [subst] at h
    rcases ha : substArgs args as with er | as'
    · rw [ha] at h; simp at h
    · rw [ha] at h
      have : Tree.node (.fn f) as' = e := Except.ok.inj h
      subst this
      rw [evalT, evalT, substArgs_eval hargs as as' ha]
  | .node (.lam k) as, e, h => by
    rw [subst] at h
    rcases ha : substArgs args as with er | as'
    · rw [ha] at h; simp at h
    · rw [ha] at h
      have : Tree.node (.lam k) as' = e := Except.ok.inj h
      subst this
      rw [evalT, evalT, substArgs_eval hargs as as' ha]
theorem substArgs_eval {c : Nat → List V → Option V} {x vs : List V} {args : List (Expr V)}
    (hargs : evalArgs ap c x args = some vs) : (bs : List (Expr V)) → (es : List (Expr V)) →
      substArgs args bs = .ok es → evalArgs ap c x es = evalArgs ap c vs bs
  | [], es, h => by
    have : [] = es := Except.ok.inj h
    subst this; rfl
  | b :: bs, es, h => by
    rw [substArgs] at h
    rcases ha : subst args b with er | a'
    · rw [ha] at h; simp at h
    · rw [ha] at h
      dsimp only at h
      rcases hb : substArgs args bs with er | as'
      · rw [hb] at h; simp at h
      · rw [hb] at h
        have : a' :: as' = es := Except.ok.inj h
        subst this
        rw [evalArgs, evalArgs, subst_eval hargs b a' ha, substArgs_eval hargs bs as' hb]
end

mutual
theorem subst_good {n : Nat} {args : List (Expr V)} (hargs : ∀ a ∈ args, Good n a) :
    (b : Expr V) → (e : Expr V) → Good n b → subst args b = .ok e → Good n e
  | .node (.var i) as, e, _, h => by
    rw [subst] at h
    rcases ha : args[i]? with _ | a
    · rw [ha] at h; simp at h
    · rw [ha] at h
      have : a = e := Except.ok.inj h
      subst this
      exact hargs a (List.mem_of_getElem? ha)
  | .node (.const d) as, e, g, h => by
    have has : as = [] := g.root.1 (Or.inl rfl)
    subst has
    have : Tree.node (.const d) [] = e := Except.ok.inj h
    subst this
    exact g
  | .node (.fn f) as, e, g, h => by
    rw [subst] at h
    rcases ha : substArgs args as with er | as'
    · rw [ha] at h; simp at h
    · rw [ha] at h
      have : Tree.node (.fn f) as' = e := Except.ok.inj h
      subst this
      exact AllNodes.mk ⟨fun h => (by rcases h with h | h <;> cases h), fun k hk => by cases hk⟩
        (substArgs_good hargs as as' g.arg ha)
  | .node (.lam k) as, e, g, h => by
    rw [subst] at h
    rcases ha : substArgs args as with er | as'
    · rw [ha] at h; simp at h
    · rw [ha] at h
      have : Tree.node (.lam k) as' = e := Except.ok.inj h
      subst this
      exact AllNodes.mk ⟨fun h => (by rcases h with h | h <;> cases h), fun j hj => g.root.2 j hj⟩
        (substArgs_good hargs as as' g.arg ha)
theorem substArgs_good {n : Nat} {args : List (Expr V)} (hargs : ∀ a ∈ args, Good n a) :
    (bs : List (Expr V)) → (es : List (Expr V)) → (∀ b ∈ bs, Good n b) → substArgs args bs = .ok es →
      ∀ e ∈ es, Good n e
  | [], es, _, h => by
    have : [] = es := Except.ok.inj h
    subst this; intro e he; simp at he
  | b :: bs, es, g, h => by
    rw [substArgs] at h
    rcases ha : subst args b with er | a'
    · rw [ha] at h; simp at h
    · rw [ha] at h
      dsimp only at h
      rcases hb : substArgs args bs with er | as'
      · rw [hb] at h; simp at h
      · rw [hb] at h
        have : a' :: as' = es := Except.ok.inj h
        subst this
        intro e he
        rcases List.mem_cons.mp he with rfl | he
        · exact subst_good hargs b _ (g b (by simp)) ha
        · exact substArgs_good hargs bs as' (fun c hc => g c (by simp [hc])) hb e he
end

mutual
theorem subst_total {c : Nat → List V → Option V} {n : Nat} {vs : List V} {args : List (Expr V)}
    (hl : args.length = vs.length) : (b : Expr V) → Good n b → (evalT ap c vs b).isSome → ∃ e, subst args b = .ok e
  | .node (.var i) as, _, h => by
    rw [evalT] at h
    rw [subst]
    rcases ha : args[i]? with _ | a
    · rw [List.getElem?_eq_none_iff] at ha
      rw [List.getElem?_eq_none (by omega)] at h; simp at h
    · exact ⟨a, rfl⟩
  | .node (.const d) as, g, h => by
    have has : as = [] := g.root.1 (Or.inl rfl)
    subst has
    exact ⟨_, rfl⟩
  | .node (.fn f) as, g, h => by
    rw [evalT] at h
    rcases ha : evalArgs ap c vs as with _ | ws
    · rw [ha] at h; simp at h
    · obtain ⟨es, hes⟩ := substArgs_total hl as g.arg (by rw [ha]; rfl)
      exact ⟨.node (.fn f) es, by rw [subst, hes]⟩
  | .node (.lam k) as, g, h => by
    rw [evalT] at h
    rcases ha : evalArgs ap c vs as with _ | ws
    · rw [ha] at h; simp at h
    · obtain ⟨es, hes⟩ := substArgs_total hl as g.arg (by rw [ha]; rfl)
      exact ⟨.node (.lam k) es, by rw [subst, hes]⟩
theorem substArgs_total {c : Nat → List V → Option V} {n : Nat} {vs : List V} {args : List (Expr V)}
    (hl : args.length = vs.length) : (bs : List (Expr V)) → (∀ b ∈ bs, Good n b) →
      (evalArgs ap c vs bs).isSome → ∃ es, substArgs args bs = .ok es
  | [], _, _ => ⟨[], rfl⟩
  | b :: bs, g, h => by
    rw [evalArgs] at h
    rcases ha : evalT ap c vs b with _ | v
    · rw [ha] at h; simp at h
    · rcases hb : evalArgs ap c vs bs with _ | ws
      · rw [ha, hb] at h; simp at h
      · obtain ⟨e, he⟩ := subst_total hl b (g b (by simp)) (by rw [ha]; rfl)
        obtain ⟨es, hes⟩ := substArgs_total hl bs (fun d hd => g d (by simp [hd])) (by rw [hb]; rfl)
        exact ⟨e :: es, by rw [substArgs, he]; dsimp only; rw [hes]⟩
end

theorem expandList_mem {f : Expr V → Except Err (Expr V)} : {as as' : List (Expr V)} →
    expandList f as = .ok as' → ∀ a' ∈ as', ∃ a ∈ as, f a = .ok a'
  | [], as', h => by
    have : [] = as' := Except.ok.inj h
    subst this; intro a ha; simp at ha
  | a :: as, as', h => by
    rw [expandList] at h
    rcases ha : f a with er | a1
    · rw [ha] at h; simp at h
    · rw [ha] at h
      dsimp only at h
      rcases hb : expandList f as with er | as1
      · rw [hb] at h; simp at h
      · rw [hb] at h
        have : a1 :: as1 = as' := Except.ok.inj h
        subst this
        intro b hb'
        rcases List.mem_cons.mp hb' with rfl | hb'
        · exact ⟨a, by simp, ha⟩
        · obtain ⟨c, hc, hf⟩ := expandList_mem hb b hb'
          exact ⟨c, by simp [hc], hf⟩

theorem expandList_eval {f : Expr V → Except Err (Expr V)} {c : Nat → List V → Option V} {x : List V} :
    {as as' : List (Expr V)} → {vs : List V} → expandList f as = .ok as' →
      (∀ a ∈ as, ∀ a' v, f a = .ok a' → evalT ap c x a = some v → evalT ap c x a' = some v) →
      evalArgs ap c x as = some vs → evalArgs ap c x as' = some vs
  | [], as', vs, h, _, hv => by
    have : [] = as' := Except.ok.inj h
    subst this; exact hv
  | a :: as, as', vs, h, hf, hv => by
    rw [expandList] at h
    rcases ha : f a with er | a1
    · rw [ha] at h; simp at h
    · rw [ha] at h
      dsimp only at h
      rcases hb : expandList f as with er | as1
      · rw [hb] at h; simp at h
      · rw [hb] at h
        have : a1 :: as1 = as' := Except.ok.inj h
        subst this
        rw [evalArgs] at hv
        rcases h1 : evalT ap c x a with _ | v
        · rw [h1] at hv; simp at hv
        · rcases h2 : evalArgs ap c x as with _ | ws
          · rw [h1, h2] at hv; simp at hv
          · rw [h1, h2] at hv
            rw [evalArgs, hf a (by simp) a1 v ha h1,
              expandList_eval hb (fun d hd => hf d (by simp [hd])) h2]
            exact hv

theorem unlambda_good {L : List (Expr V)} {t : Tok V} {as' : List (Expr V)} {nw : Expr V} {k : Nat} (hL : WFL L)
    (ht : t = .lam k) (g : ∀ a ∈ as', Good 0 a) (h : unlambda L (.node t as') = .ok nw) : Good k nw := by
  subst ht
  unfold unlambda at h
  dsimp only at h
  rcases hb : bodyOf L k with _ | b
  · rw [hb] at h; simp at h
  · rw [hb] at h
    exact subst_good (fun a ha => (g a ha).mono (by omega)) b nw (hL k b hb) h

theorem unlambda_eval {L : List (Expr V)} {x : List V} {e nw : Expr V} {v : V} (hL : WFL L)
    (h : unlambda L e = .ok nw) (hv : eval ap L x e = some v) : eval ap L x nw = some v := by
  obtain ⟨t, as⟩ := e
  cases t with
  | fn f => rw [← Except.ok.inj h]; exact hv
  | var f => rw [← Except.ok.inj h]; exact hv
  | const f => rw [← Except.ok.inj h]; exact hv
  | lam k =>
    unfold unlambda at h
    dsimp only at h
    rcases hb : bodyOf L k with _ | b
    · rw [hb] at h; simp at h
    · rw [hb] at h
      rw [eval, evalT] at hv
      rcases ha : evalArgs ap (callL ap L) x as with _ | vs
      · rw [ha] at hv; simp at hv
      · rw [ha] at hv
        dsimp only at hv
        rw [callL_body ap L hL, hb] at hv
        rw [eval, subst_eval ap ha b nw h]
        exact hv

theorem eval_args {L : List (Expr V)} {x : List V} {t : Tok V} {as as' : List (Expr V)} {v : V}
    (hv : eval ap L x (.node t as) = some v)
    (h : ∀ vs, evalArgs ap (callL ap L) x as = some vs → evalArgs ap (callL ap L) x as' = some vs) :
    eval ap L x (.node t as') = some v := by
  rw [eval] at hv ⊢
  cases t with
  | var i => rw [evalT] at hv ⊢; exact hv
  | const c => rw [evalT] at hv ⊢; exact hv
  | fn f =>
    rw [evalT] at hv ⊢
    rcases ha : evalArgs ap (callL ap L) x as with _ | vs
    · rw [ha] at hv; simp at hv
    · rw [ha] at hv; rw [h vs ha]; exact hv
  | lam f =>
    rw [evalT] at hv ⊢
    rcases ha : evalArgs ap (callL ap L) x as with _ | vs
    · rw [ha] at hv; simp at hv
    · rw [ha] at hv; rw [h vs ha]; exact hv

theorem expandAll_spec {L : List (Expr V)} (hL : WFL L) : (fuel : Nat) → (n : Nat) → (e e' : Expr V) → Good n e →
    expandAll L fuel e = .ok e' →
      Good 0 e' ∧ ∀ x v, eval ap L x e = some v → eval ap L x e' = some v
  | 0, _, _, _, _, h => by simp [expandAll] at h
  | fuel + 1, n, .node t as, e', g, h => by
    rw [expandAll] at h
    rcases ha : expandList (expandAll L fuel) as with er | as'
    · rw [ha] at h; simp at h
    rw [ha] at h
    dsimp only at h
    rcases hu : unlambda L (.node t as') with er | nw
    · rw [hu] at h; simp at h
    rw [hu] at h
    dsimp only at h
    have gas : ∀ a ∈ as', Good 0 a := by
      intro a' ha'
      obtain ⟨a, hm, hf⟩ := expandList_mem ha a' ha'
      exact (expandAll_spec hL fuel n a a' (g.arg a hm) hf).1
    have hval : ∀ x v, eval ap L x (.node t as) = some v → eval ap L x nw = some v := by
      intro x v hv
      refine unlambda_eval ap hL hu (eval_args ap hv ?_)
      intro vs hvs
      exact expandList_eval ap ha (fun a hm a' v hf hv => (expandAll_spec hL fuel n a a' (g.arg a hm) hf).2 x v hv)
        hvs
    have gnw : ∃ m, Good m nw ∧ (nw = .node t as → Good 0 nw) := by
      cases t with
      | lam k =>
        have gk := unlambda_good hL rfl gas hu
        refine ⟨k, gk, ?_⟩
        intro he
        have := gk.root.2 k (by rw [he]; rfl)
        omega
      | fn f =>
        have hnw : Tree.node (.fn f) as' = nw := Except.ok.inj hu
        have : Good 0 nw := by
          rw [← hnw]
          exact AllNodes.mk ⟨fun h => (by rcases h with h | h <;> cases h), fun k hk => by cases hk⟩ gas
        exact ⟨0, this, fun _ => this⟩
      | var f =>
        have has : as = [] := g.root.1 (Or.inr rfl)
        subst has
        have has' : [] = as' := Except.ok.inj ha
        subst has'
        have hnw : Tree.node (.var f) [] = nw := Except.ok.inj hu
        have : Good 0 nw := by
          rw [← hnw]
          exact AllNodes.mk ⟨fun _ => rfl, fun k hk => by cases hk⟩ (fun a ha => by simp at ha)
        exact ⟨0, this, fun _ => this⟩
      | const f =>
        have has : as = [] := g.root.1 (Or.inl rfl)
        subst has
        have has' : [] = as' := Except.ok.inj ha
        subst has'
        have hnw : Tree.node (.const f) [] = nw := Except.ok.inj hu
        have : Good 0 nw := by
          rw [← hnw]
          exact AllNodes.mk ⟨fun _ => rfl, fun k hk => by cases hk⟩ (fun a ha => by simp at ha)
        exact ⟨0, this, fun _ => this⟩
    obtain ⟨m, gm, g0⟩ := gnw
    by_cases he : nw ≠ .node t as
    · rw [if_pos he] at h
      obtain ⟨h1, h2⟩ := expandAll_spec hL fuel m nw e' gm h
      exact ⟨h1, fun x v hv => h2 x v (hval x v hv)⟩
    · rw [if_neg he] at h
      rw [← Except.ok.inj h]
      exact ⟨g0 (not_not.mp he), hval⟩

/-- Expanding all lambdas leaves none and keeps every value the expression has. -/
theorem C248_expand {L : List (Expr V)} (hL : WFL L) {n : Nat} {e e' : Expr V} (g : Good n e) {fuel : Nat}
    (h : expandAll L fuel e = .ok e') :
    NoLambda e' ∧ ∀ x v, eval ap L x e = some v → eval ap L x e' = some v := by
  obtain ⟨h1, h2⟩ := expandAll_spec ap hL fuel n e e' g h
  exact ⟨h1.noLambda, h2⟩

theorem expandList_mono {f f' : Expr V → Except Err (Expr V)} (hf : ∀ a a', f a = .ok a' → f' a = .ok a') :
    {as as' : List (Expr V)} → expandList f as = .ok as' → expandList f' as = .ok as'
  | [], as', h => h
  | a :: as, as', h => by
    rw [expandList] at h ⊢
    rcases ha : f a with er | a1
    · rw [ha] at h; simp at h
    · rw [ha] at h
      rw [hf a a1 ha]
      dsimp only at h ⊢
      rcases hb : expandList f as with er | as1
      · rw [hb] at h; simp at h
      · rw [hb] at h
        rw [expandList_mono hf hb]; exact h

theorem expandAll_mono {L : List (Expr V)} : (fuel : Nat) → (e e' : Expr V) → expandAll L fuel e = .ok e' →
    expandAll L (fuel + 1) e = .ok e'
  | 0, _, _, h => by simp [expandAll] at h
  | fuel + 1, .node t as, e', h => by
    rw [expandAll] at h ⊢
    rcases ha : expandList (expandAll L fuel) as with er | as'
    · rw [ha] at h; simp at h
    rw [ha] at h
    rw [expandList_mono (fun a a' => expandAll_mono fuel a a') ha]
    dsimp only at h ⊢
    rcases hu : unlambda L (.node t as') with er | nw
    · rw [hu] at h; simp at h
    rw [hu] at h
    dsimp only at h ⊢
    by_cases he : nw ≠ .node t as
    · rw [if_pos he] at h ⊢
      exact expandAll_mono fuel nw e' h
    · rw [if_neg he] at h ⊢
      exact h

theorem expandAll_le {L : List (Expr V)} {f g : Nat} (hfg : f ≤ g) {e e' : Expr V} (h : expandAll L f e = .ok e') :
    expandAll L g e = .ok e' := by
  induction hfg with
  | refl => exact h
  | step _ ih => exact expandAll_mono _ e e' ih

theorem expandList_id {f : Expr V → Except Err (Expr V)} : {as : List (Expr V)} → (∀ a ∈ as, f a = .ok a) →
    expandList f as = .ok as
  | [], _ => rfl
  | a :: as, h => by
    rw [expandList, h a (by simp)]
    dsimp only
    rw [expandList_id (fun b hb => h b (by simp [hb]))]

theorem size_arg {a : Expr V} : {as : List (Expr V)} → a ∈ as → a.size ≤ sizes as
  | [], h => by simp at h
  | b :: as, h => by
    rw [sizes]
    rcases List.mem_cons.mp h with rfl | h
    · omega
    · have := size_arg h; omega

theorem expandAll_id {L : List (Expr V)} : (fuel : Nat) → (e : Expr V) → e.size ≤ fuel → NoLambda e →
    expandAll L fuel e = .ok e
  | 0, .node t as, h, _ => by rw [Tree.size] at h; omega
  | fuel + 1, .node t as, h, g => by
    rw [Tree.size] at h
    rw [expandAll, expandList_id (fun a ha => expandAll_id fuel a (by have := size_arg ha; omega) (g.arg a ha))]
    dsimp only
    have : unlambda L (.node t as) = .ok (.node t as) := by
      cases t with
      | lam k => exact absurd rfl (g.root k)
      | fn f => rfl
      | var f => rfl
      | const f => rfl
    rw [this]
    simp

theorem expandList_total {L : List (Expr V)} : {as : List (Expr V)} →
    (∀ a ∈ as, ∃ fuel a', expandAll L fuel a = .ok a') → ∃ fuel as', expandList (expandAll L fuel) as = .ok as'
  | [], _ => ⟨0, [], rfl⟩
  | a :: as, h => by
    obtain ⟨f1, a', h1⟩ := h a (by simp)
    obtain ⟨f2, as', h2⟩ := expandList_total (as := as) (fun b hb => h b (by simp [hb]))
    refine ⟨max f1 f2, a' :: as', ?_⟩
    rw [expandList, expandAll_le (le_max_left f1 f2) h1]
    dsimp only
    rw [expandList_mono (fun a a' => expandAll_le (le_max_right f1 f2)) h2]

/-- Of an expression that has a value, the expansion ends. -/
theorem C248_expand_ends {L : List (Expr V)} (hL : WFL L) : (n : Nat) → {e : Expr V} → Good n e →
    (x : List V) → (eval ap L x e).isSome → ∃ fuel e', expandAll L fuel e = .ok e' := by
  intro n
  induction n using Nat.strong_induction_on with
  | _ n ihn =>
  intro e
  induction hs : e.size using Nat.strong_induction_on generalizing e with
  | _ sz ihe =>
  intro g x hv
  obtain ⟨t, as⟩ := e
  rw [Tree.size] at hs
  obtain ⟨v, hv⟩ := Option.isSome_iff_exists.mp hv
  have hargs : ∀ a ∈ as, ∃ fuel a', expandAll L fuel a = .ok a' := by
    intro a ha
    refine ihe a.size (by have := size_arg ha; omega) rfl (g.arg a ha) x ?_
    obtain ⟨i, hi⟩ := List.getElem?_of_mem ha
    cases t with
    | var j => rw [show as = [] from g.root.1 (Or.inr rfl)] at ha; simp at ha
    | const j => rw [show as = [] from g.root.1 (Or.inl rfl)] at ha; simp at ha
    | fn f =>
      rw [eval, evalT] at hv
      rcases hb : evalArgs ap (callL ap L) x as with _ | vs
      · rw [hb] at hv; simp at hv
      · obtain ⟨h1, h2⟩ := evalArgs_get ap hb
        rw [eval, h2 i a hi]
        rw [List.getElem?_eq_getElem (by rw [← h1]; exact (List.getElem?_eq_some_iff.mp hi).1)]; rfl
    | lam f =>
      rw [eval, evalT] at hv
      rcases hb : evalArgs ap (callL ap L) x as with _ | vs
      · rw [hb] at hv; simp at hv
      · obtain ⟨h1, h2⟩ := evalArgs_get ap hb
        rw [eval, h2 i a hi]
        rw [List.getElem?_eq_getElem (by rw [← h1]; exact (List.getElem?_eq_some_iff.mp hi).1)]; rfl
  obtain ⟨f1, as', h1⟩ := expandList_total hargs
  have gas : ∀ a ∈ as', Good 0 a := by
    intro a' ha'
    obtain ⟨a, hm, hf⟩ := expandList_mem h1 a' ha'
    exact (expandAll_spec ap hL f1 n a a' (g.arg a hm) hf).1
  have hv' : eval ap L x (.node t as') = some v := by
    refine eval_args ap hv ?_
    intro vs hvs
    exact expandList_eval ap h1 (fun a hm a' v hf hv => (expandAll_spec ap hL f1 n a a' (g.arg a hm) hf).2 x v hv)
      hvs
  -- enough fuel for the rest gives enough fuel for the whole
  have key : ∀ nw, unlambda L (.node t as') = .ok nw → (∃ f2 e', expandAll L f2 nw = .ok e') →
      ∃ fuel e', expandAll L fuel (.node t as) = .ok e' := by
    intro nw hu ⟨f2, e', h2⟩
    refine ⟨max f1 f2 + 1, ?_⟩
    rw [expandAll, expandList_mono (fun a a' => expandAll_le (le_max_left f1 f2)) h1]
    dsimp only
    rw [hu]
    dsimp only
    by_cases he : nw ≠ .node t as
    · rw [if_pos he]; exact ⟨e', expandAll_le (le_max_right f1 f2) h2⟩
    · rw [if_neg he]; exact ⟨nw, rfl⟩
  have nolam : (∀ k, t ≠ .lam k) → ∃ fuel e', expandAll L fuel (.node t as) = .ok e' := by
    intro ht
    have hu : unlambda L (.node t as') = .ok (.node t as') := by
      cases t with
      | lam k => exact absurd rfl (ht k)
      | fn f => rfl
      | var f => rfl
      | const f => rfl
    have : NoLambda (.node t as') := AllNodes.mk ht (fun a ha => (gas a ha).noLambda)
    exact key _ hu ⟨_, _, expandAll_id _ _ le_rfl this⟩
  cases t with
  | fn f => exact nolam (fun k hk => by cases hk)
  | var f => exact nolam (fun k hk => by cases hk)
  | const f => exact nolam (fun k hk => by cases hk)
  | lam k =>
    rw [eval, evalT] at hv'
    rcases hb : evalArgs ap (callL ap L) x as' with _ | vs
    · rw [hb] at hv'; simp at hv'
    · rw [hb] at hv'
      dsimp only at hv'
      have hv2 := hv'
      rw [callL_body ap L hL] at hv'
      rcases hbd : bodyOf L k with _ | b
      · rw [hbd] at hv'; simp at hv'
      · rw [hbd] at hv'
        obtain ⟨nw, hnw⟩ := subst_total ap (evalArgs_get ap hb).1 b (hL k b hbd) (c := callL ap L) (by
          have : evalT ap (callL ap L) vs b = some v := hv'
          rw [this]; rfl)
        have hu : unlambda L (.node (.lam k) as') = .ok nw := by
          unfold unlambda; dsimp only; rw [hbd]; exact hnw
        refine key nw hu ?_
        refine ihn k (g.root.2 k rfl) (unlambda_good hL rfl gas hu) x ?_
        rw [unlambda_eval ap hL hu (v := v) (by rw [eval, evalT, hb]; exact hv2)]; rfl

/-! ### Compression -/

open Classical in
/-- Add what is not there. -/
noncomputable def addNew (args : List (Expr V)) (c : Expr V) : List (Expr V) :=
  if c ∈ args then args else args ++ [c]

theorem placeArg_cases (e : Expr V) (args : List (Expr V)) :
    ∃ i : Nat, placeArg e args = (evar i, addNew args e) ∧ (addNew args e)[i]? = some e := by
  classical
  unfold placeArg addNew
  rcases h : args.findIdx? (fun a => decide (a = e)) with _ | i
  · have hne : e ∉ args := by
      intro hm
      rw [List.findIdx?_eq_none_iff] at h
      have := h e hm
      simp at this
    exact ⟨args.length, by simp [hne], by simp [hne]⟩
  · obtain ⟨hi, h1, _⟩ := List.findIdx?_eq_some_iff_getElem.mp h
    have h1 : args[i] = e := by simpa using h1
    have hm : e ∈ args := by rw [← h1]; exact List.getElem_mem hi
    exact ⟨i, by simp [hm], by simp [hm, ← h1]⟩

mutual
theorem createLambda_good {n : Nat} {repl : Expr V → Bool} : (e : Expr V) → (args : List (Expr V)) → Good n e →
    (∀ a ∈ args, Good n a) →
      Good n (createLambda repl e args).1 ∧ ∀ a ∈ (createLambda repl e args).2, Good n a
  | .node t as, args, g, ga => by
    rw [createLambda]
    by_cases hr : repl (.node t as) = true
    · rw [if_pos hr]
      obtain ⟨i, h1, h2⟩ := placeArg_cases (.node t as) args
      rw [h1]
      refine ⟨AllNodes.mk ⟨fun _ => rfl, fun k hk => by cases hk⟩ (fun a ha => by simp at ha), ?_⟩
      intro a ha
      dsimp only [addNew] at ha
      split at ha
      · exact ga a ha
      · rcases List.mem_append.mp ha with ha | ha
        · exact ga a ha
        · rw [List.mem_singleton.mp ha]; exact g
    · rw [if_neg hr]
      obtain ⟨h1, h2⟩ := createLambdaArgs_good (n := n) (repl := repl) as args g.arg ga
      refine ⟨AllNodes.mk ⟨?_, fun k hk => g.root.2 k hk⟩ h1, h2⟩
      intro hc
      have has : as = [] := g.root.1 (by cases t <;> first | exact hc | exact Or.inl hc)
      subst has
      rfl
theorem createLambdaArgs_good {n : Nat} {repl : Expr V → Bool} : (as : List (Expr V)) → (args : List (Expr V)) →
    (∀ a ∈ as, Good n a) → (∀ a ∈ args, Good n a) →
      (∀ a ∈ (createLambdaArgs repl as args).1, Good n a) ∧ ∀ a ∈ (createLambdaArgs repl as args).2, Good n a
  | [], args, _, ga => ⟨fun a ha => by simp [createLambdaArgs] at ha, ga⟩
  | a :: as, args, g, ga => by
    rw [createLambdaArgs]
    obtain ⟨h1, h2⟩ := createLambda_good (n := n) (repl := repl) a args (g a (by simp)) ga
    obtain ⟨h3, h4⟩ := createLambdaArgs_good (n := n) (repl := repl) as _ (fun b hb => g b (by simp [hb])) h2
    refine ⟨?_, h4⟩
    intro b hb
    rcases List.mem_cons.mp hb with rfl | hb
    · exact h1
    · exact h3 b hb
end

mutual
theorem createLambda_eval {n : Nat} {repl : Expr V → Bool} (hr : ∀ s, isVar s = true → repl s = true)
    {c : Nat → List V → Option V} {x : List V} : (e : Expr V) → (args : List (Expr V)) → (v : V) → Good n e →
    evalT ap c x e = some v →
      (∃ ext, (createLambda repl e args).2 = args ++ ext ∧ ∀ a ∈ ext, (evalT ap c x a).isSome) ∧
      ∀ A vs, (createLambda repl e args).2 <+: A → evalArgs ap c x A = some vs →
        evalT ap c vs (createLambda repl e args).1 = some v
  | .node t as, args, v, g, hv => by
    rw [createLambda]
    by_cases hrp : repl (.node t as) = true
    · rw [if_pos hrp]
      obtain ⟨i, h1, h2⟩ := placeArg_cases (.node t as) args
      rw [h1]
      constructor
      · by_cases hm : Tree.node t as ∈ args
        · exact ⟨[], by simp [addNew, hm], fun a ha => by simp at ha⟩
        · refine ⟨[.node t as], by simp [addNew, hm], ?_⟩
          intro a ha
          rw [List.mem_singleton.mp ha, hv]; rfl
      · intro A vs hA hvs
        obtain ⟨B, rfl⟩ := hA
        dsimp only
        have h3 : (addNew args (.node t as) ++ B)[i]? = some (.node t as) := by
          rw [List.getElem?_append_left (List.getElem?_eq_some_iff.mp h2).1]; exact h2
        rw [evar, evalT, ← (evalArgs_get ap hvs).2 i _ h3, hv]
    · rw [if_neg hrp]
      dsimp only
      cases t with
      | var i => exact absurd (hr _ rfl) hrp
      | const d =>
        have has : as = [] := g.root.1 (Or.inl rfl)
        subst has
        exact ⟨⟨[], by simp [createLambdaArgs], fun a ha => by simp at ha⟩, fun A vs _ _ => by
          rw [evalT] at hv ⊢; exact hv⟩
      | fn f =>
        rw [evalT] at hv
        rcases hb : evalArgs ap c x as with _ | ws
        · rw [hb] at hv; simp at hv
        · rw [hb] at hv
          obtain ⟨h1, h2⟩ := createLambdaArgs_eval (n := n) hr as args ws g.arg hb
          refine ⟨h1, fun A vs hA hvs => ?_⟩
          rw [evalT, h2 A vs hA hvs]; exact hv
      | lam f =>
        rw [evalT] at hv
        rcases hb : evalArgs ap c x as with _ | ws
        · rw [hb] at hv; simp at hv
        · rw [hb] at hv
          obtain ⟨h1, h2⟩ := createLambdaArgs_eval (n := n) hr as args ws g.arg hb
          refine ⟨h1, fun A vs hA hvs => ?_⟩
          rw [evalT, h2 A vs hA hvs]; exact hv
theorem createLambdaArgs_eval {n : Nat} {repl : Expr V → Bool} (hr : ∀ s, isVar s = true → repl s = true)
    {c : Nat → List V → Option V} {x : List V} : (as : List (Expr V)) → (args : List (Expr V)) → (ws : List V) →
    (∀ a ∈ as, Good n a) → evalArgs ap c x as = some ws →
      (∃ ext, (createLambdaArgs repl as args).2 = args ++ ext ∧ ∀ a ∈ ext, (evalT ap c x a).isSome) ∧
      ∀ A vs, (createLambdaArgs repl as args).2 <+: A → evalArgs ap c x A = some vs →
        evalArgs ap c vs (createLambdaArgs repl as args).1 = some ws
  | [], args, ws, _, hv => by
    rw [createLambdaArgs]
    exact ⟨⟨[], by simp, fun a ha => by simp at ha⟩, fun A vs _ _ => by rw [evalArgs] at hv ⊢; exact hv⟩
  | a :: as, args, ws, g, hv => by
    rw [evalArgs] at hv
    rcases h1 : evalT ap c x a with _ | v
    · rw [h1] at hv; simp at hv
    · rcases h2 : evalArgs ap c x as with _ | us
      · rw [h1, h2] at hv; simp at hv
      · rw [h1, h2] at hv
        rw [createLambdaArgs]
        obtain ⟨⟨e1, i1, i2⟩, i3⟩ := createLambda_eval (n := n) hr a args v (g a (by simp)) h1
        obtain ⟨⟨e2, j1, j2⟩, j3⟩ := createLambdaArgs_eval (n := n) hr as (createLambda repl a args).2 us
          (fun b hb => g b (by simp [hb])) h2
        dsimp only
        constructor
        · refine ⟨e1 ++ e2, by rw [j1, i1, List.append_assoc], ?_⟩
          intro b hb
          rcases List.mem_append.mp hb with hb | hb
          · exact i2 b hb
          · exact j2 b hb
        · intro A vs hA hvs
          rw [evalArgs, j3 A vs hA hvs, i3 A vs (List.IsPrefix.trans (by rw [j1]; exact List.prefix_append _ _) hA) hvs]
          exact hv
end

theorem shouldReplace_var (root s : Expr V) (h : isVar s = true) : shouldReplace root s = true := by
  unfold shouldReplace; simp [h]

theorem newLambda_spec (L : List (Expr V)) (b : Expr V) :
    (newLambda L b = (L, (newLambda L b).2) ∨ newLambda L b = (b :: L, L.length)) ∧
      bodyOf (newLambda L b).1 (newLambda L b).2 = some b := by
  classical
  unfold newLambda
  rcases h : L.reverse.findIdx? (fun a => decide (a = b)) with _ | k
  · refine ⟨Or.inr ?_, ?_⟩
    · simp [h]
    · simp [h, bodyOf_cons]
  · obtain ⟨hi, h1, _⟩ := List.findIdx?_eq_some_iff_getElem.mp h
    have h1 : L.reverse[k] = b := by simpa using h1
    refine ⟨Or.inl ?_, ?_⟩
    · simp [h]
    · simp only [h, bodyOf]
      rw [List.getElem?_eq_getElem hi, h1]

/-- What `compress` promises of what it returns. -/
def Kept (L : List (Expr V)) (e : Expr V) (L' : List (Expr V)) (e' : Expr V) : Prop :=
  (∃ M, L' = M ++ L) ∧ WFL L' ∧ Good L'.length e' ∧ ∀ x v, eval ap L x e = some v → eval ap L' x e' = some v

theorem compressList_spec {f : List (Expr V) → Expr V → Except Err (List (Expr V) × Expr V)}
    (hf : ∀ L e L' e', WFL L → Good L.length e → f L e = .ok (L', e') → Kept ap L e L' e') :
    (as : List (Expr V)) → (L L' : List (Expr V)) → (as' : List (Expr V)) → WFL L → (∀ a ∈ as, Good L.length a) →
      compressList f L as = .ok (L', as') →
        (∃ M, L' = M ++ L) ∧ WFL L' ∧ (∀ a ∈ as', Good L'.length a) ∧
          ∀ x vs, evalArgs ap (callL ap L) x as = some vs → evalArgs ap (callL ap L') x as' = some vs
  | [], L, L', as', hL, _, h => by
    have h' := Except.ok.inj h
    have h1 : L = L' := congrArg Prod.fst h'
    have h2 : [] = as' := congrArg Prod.snd h'
    subst h1; subst h2
    exact ⟨⟨[], rfl⟩, hL, fun a ha => by simp at ha, fun x vs hv => hv⟩
  | a :: as, L, L', as', hL, g, h => by
    rw [compressList] at h
    rcases ha : f L a with er | ⟨L1, a1⟩
    · rw [ha] at h; simp at h
    rw [ha] at h
    dsimp only at h
    rcases hb : compressList f L1 as with er | ⟨L2, as1⟩
    · rw [hb] at h; simp at h
    rw [hb] at h
    have h' := Except.ok.inj h
    have h1 : L2 = L' := congrArg Prod.fst h'
    have h2 : a1 :: as1 = as' := congrArg Prod.snd h'
    subst h1; subst h2
    obtain ⟨⟨M1, e1⟩, w1, g1, v1⟩ := hf L a L1 a1 hL (g a (by simp)) ha
    have hle : L.length ≤ L1.length := by rw [e1]; simp
    obtain ⟨⟨M2, e2⟩, w2, g2, v2⟩ := compressList_spec hf as L1 L2 as1 w1
      (fun b hb => (g b (by simp [hb])).mono hle) hb
    have hle2 : L1.length ≤ L2.length := by rw [e2]; simp
    refine ⟨⟨M2 ++ M1, by rw [e2, e1, List.append_assoc]⟩, w2, ?_, ?_⟩
    · intro b hb
      rcases List.mem_cons.mp hb with rfl | hb
      · exact g1.mono hle2
      · exact g2 b hb
    · intro x vs hv
      rw [evalArgs] at hv
      rcases k1 : evalT ap (callL ap L) x a with _ | v
      · rw [k1] at hv; simp at hv
      · rcases k2 : evalArgs ap (callL ap L) x as with _ | ws
        · rw [k1, k2] at hv; simp at hv
        · rw [k1, k2] at hv
          have k3 : eval ap L2 x a1 = some v := by
            rw [e2, eval_append ap M2 L1 x g1]; exact v1 x v k1
          have k4 : evalArgs ap (callL ap L1) x as = some ws := by
            rw [← k2]
            refine evalArgs_congr ap (n := L.length) ?_ x as (fun b hb => g b (by simp [hb]))
            intro k hk
            rw [e1, callL_append ap M1 L hk]
          rw [eval] at k3
          rw [evalArgs, k3, v2 x ws k4]
          exact hv

theorem compress_spec : (fuel : Nat) → (L : List (Expr V)) → (e : Expr V) → (L' : List (Expr V)) → (e' : Expr V) →
    WFL L → Good L.length e → compress fuel L e = .ok (L', e') → Kept ap L e L' e'
  | 0, _, _, _, _, _, _, h => by simp [compress] at h
  | fuel + 1, L, e, L', e', hL, g, h => by
    rw [compress] at h
    dsimp only at h
    by_cases hs : (createLambda (shouldReplace e) e []).1.size < e.size
    swap
    · rw [if_neg hs] at h
      have h' := Except.ok.inj h
      have h1 : L = L' := congrArg Prod.fst h'
      have h2 : e = e' := congrArg Prod.snd h'
      subst h1; subst h2
      exact ⟨⟨[], rfl⟩, hL, g, fun x v hv => hv⟩
    rw [if_pos hs] at h
    generalize hr : createLambda (shouldReplace e) e [] = r at h hs
    obtain ⟨gb, ga⟩ := createLambda_good (n := L.length) (repl := shouldReplace e) e [] g (fun a ha => by simp at ha)
    rw [hr] at gb ga
    rcases hc : compress fuel L r.1 with er | ⟨L1, body⟩
    · rw [hc] at h; simp at h
    rw [hc] at h
    dsimp only at h
    obtain ⟨⟨M1, e1⟩, w1, g1, v1⟩ := compress_spec fuel L r.1 L1 body hL gb hc
    obtain ⟨hn, hbody⟩ := newLambda_spec L1 body
    generalize hnl : newLambda L1 body = nl at h hn hbody
    obtain ⟨L2, k⟩ := nl
    dsimp only at h hn hbody
    have hk : k < L2.length := bodyOf_lt hbody
    have hext : (∃ M, L2 = M ++ L1) ∧ WFL L2 := by
      rcases hn with hn | hn
      · have : L2 = L1 := congrArg Prod.fst hn
        rw [this]; exact ⟨⟨[], rfl⟩, w1⟩
      · have : L2 = body :: L1 := congrArg Prod.fst hn
        rw [this]; exact ⟨⟨[body], rfl⟩, w1.cons g1⟩
    obtain ⟨⟨M2, e2⟩, w2⟩ := hext
    have l1 : L.length ≤ L1.length := by rw [e1]; simp
    have l2 : L1.length ≤ L2.length := by rw [e2]; simp
    rcases hl : compressList (compress fuel) L2 r.2 with er | ⟨L3, args⟩
    · rw [hl] at h; simp at h
    rw [hl] at h
    dsimp only at h
    obtain ⟨⟨M3, e3⟩, w3, g3, v3⟩ := compressList_spec ap (compress_spec fuel) r.2 L2 L3 args w2
      (fun a ha => (ga a ha).mono (by omega)) hl
    have l3 : L2.length ≤ L3.length := by rw [e3]; simp
    have gl : Good L3.length (.node (.lam k) args) :=
      AllNodes.mk ⟨fun h => (by rcases h with h | h <;> cases h), fun j hj => by cases hj; omega⟩ g3
    obtain ⟨⟨M4, e4⟩, w4, g4, v4⟩ := compress_spec fuel L3 _ L' e' w3 gl h
    refine ⟨⟨M4 ++ M3 ++ M2 ++ M1, by rw [e4, e3, e2, e1]; simp⟩, w4, g4, ?_⟩
    intro x v hv
    refine v4 x v ?_
    obtain ⟨⟨ext, k1, k2⟩, k3⟩ := createLambda_eval ap (n := L.length) (shouldReplace_var e) e [] v g hv
    rw [hr] at k1 k3
    rw [List.nil_append] at k1
    obtain ⟨vs, hvs⟩ := evalArgs_some ap (c := callL ap L) (x := x) (as := r.2) (by rw [k1]; exact k2)
    have hb := v1 vs v (k3 r.2 vs (List.prefix_refl _) hvs)
    have hvs2 : evalArgs ap (callL ap L2) x r.2 = some vs := by
      rw [← hvs]
      refine evalArgs_congr ap (n := L.length) ?_ x r.2 ga
      intro j hj
      rw [e2, e1, ← List.append_assoc, callL_append ap (M2 ++ M1) L hj]
    rw [eval, evalT, v3 x vs hvs2]
    dsimp only
    rw [callL_body ap L3 w3, e3, bodyOf_append M3 L2 hk, hbody]
    have g1' : Good L2.length body := g1.mono l2
    rw [Option.bind_some, eval_append ap M3 L2 vs g1', e2, eval_append ap M2 L1 vs g1]
    exact hb

/-- Compressing an expression keeps every value it has; bodies made earlier stay. -/
theorem C248_compress {L : List (Expr V)} (hL : WFL L) {e : Expr V} (g : Good L.length e) {fuel : Nat}
    {L' : List (Expr V)} {e' : Expr V} (h : compress fuel L e = .ok (L', e')) :
    (∃ M, L' = M ++ L) ∧ WFL L' ∧ Good L'.length e' ∧ ∀ x v, eval ap L x e = some v → eval ap L' x e' = some v :=
  compress_spec ap fuel L e L' e' hL g h

/-! ### The end of compression -/

mutual
/-- The parts that become arguments, from left to right. -/
def cuts (repl : Expr V → Bool) : Expr V → List (Expr V)
  | .node t as => if repl (.node t as) then [.node t as] else cutsArgs repl as
def cutsArgs (repl : Expr V → Bool) : List (Expr V) → List (Expr V)
  | [] => []
  | a :: as => cuts repl a ++ cutsArgs repl as
end

mutual
theorem createLambda_args (repl : Expr V → Bool) : (e : Expr V) → (args : List (Expr V)) →
    (createLambda repl e args).2 = (cuts repl e).foldl addNew args
  | .node t as, args => by
    rw [createLambda, cuts]
    by_cases h : repl (.node t as) = true
    · rw [if_pos h, if_pos h]
      obtain ⟨i, h1, _⟩ := placeArg_cases (.node t as) args
      rw [h1]; rfl
    · rw [if_neg h, if_neg h]
      exact createLambdaArgs_args repl as args
theorem createLambdaArgs_args (repl : Expr V → Bool) : (as : List (Expr V)) → (args : List (Expr V)) →
    (createLambdaArgs repl as args).2 = (cutsArgs repl as).foldl addNew args
  | [], args => rfl
  | a :: as, args => by
    rw [createLambdaArgs, cutsArgs, List.foldl_append, ← createLambda_args repl a args]
    exact createLambdaArgs_args repl as _
end

mutual
theorem createLambda_size (repl : Expr V → Bool) : (e : Expr V) → (args : List (Expr V)) →
    (createLambda repl e args).1.size + ((cuts repl e).map Tree.size).sum = e.size + (cuts repl e).length
  | .node t as, args => by
    rw [createLambda, cuts]
    by_cases h : repl (.node t as) = true
    · rw [if_pos h, if_pos h]
      obtain ⟨i, h1, _⟩ := placeArg_cases (.node t as) args
      rw [h1]
      simp [evar, Tree.size, sizes]; omega
    · rw [if_neg h, if_neg h]
      have := createLambdaArgs_size repl as args
      simp only [Tree.size]
      omega
theorem createLambdaArgs_size (repl : Expr V → Bool) : (as : List (Expr V)) → (args : List (Expr V)) →
    sizes (createLambdaArgs repl as args).1 + ((cutsArgs repl as).map Tree.size).sum =
      sizes as + (cutsArgs repl as).length
  | [], args => rfl
  | a :: as, args => by
    rw [createLambdaArgs, cutsArgs]
    have h1 := createLambda_size repl a args
    have h2 := createLambdaArgs_size repl as (createLambda repl a args).2
    simp only [sizes, List.map_append, List.sum_append, List.length_append]
    omega
end

mutual
theorem cuts_size (repl : Expr V → Bool) : (e : Expr V) → ((cuts repl e).map Tree.size).sum ≤ e.size
  | .node t as => by
    rw [cuts]
    by_cases h : repl (.node t as) = true
    · rw [if_pos h]; simp
    · rw [if_neg h, Tree.size]
      have := cutsArgs_size repl as
      omega
theorem cutsArgs_size (repl : Expr V → Bool) : (as : List (Expr V)) →
    ((cutsArgs repl as).map Tree.size).sum ≤ sizes as
  | [] => le_rfl
  | a :: as => by
    rw [cutsArgs, sizes, List.map_append, List.sum_append]
    have h1 := cuts_size repl a
    have h2 := cutsArgs_size repl as
    omega
end

mutual
theorem cuts_repl (repl : Expr V → Bool) : (e : Expr V) → ∀ c ∈ cuts repl e, repl c = true
  | .node t as, c, hc => by
    rw [cuts] at hc
    by_cases h : repl (.node t as) = true
    · rw [if_pos h, List.mem_singleton] at hc; rw [hc]; exact h
    · rw [if_neg h] at hc; exact cutsArgs_repl repl as c hc
theorem cutsArgs_repl (repl : Expr V → Bool) : (as : List (Expr V)) → ∀ c ∈ cutsArgs repl as, repl c = true
  | [], c, hc => by simp [cutsArgs] at hc
  | a :: as, c, hc => by
    rw [cutsArgs] at hc
    rcases List.mem_append.mp hc with hc | hc
    · exact cuts_repl repl a c hc
    · exact cutsArgs_repl repl as c hc
end

mutual
theorem cuts_good {n : Nat} (repl : Expr V → Bool) : (e : Expr V) → Good n e → ∀ c ∈ cuts repl e, Good n c
  | .node t as, g, c, hc => by
    rw [cuts] at hc
    by_cases h : repl (.node t as) = true
    · rw [if_pos h, List.mem_singleton] at hc; rw [hc]; exact g
    · rw [if_neg h] at hc; exact cutsArgs_good repl as g.arg c hc
theorem cutsArgs_good {n : Nat} (repl : Expr V → Bool) : (as : List (Expr V)) → (∀ a ∈ as, Good n a) →
    ∀ c ∈ cutsArgs repl as, Good n c
  | [], _, c, hc => by simp [cutsArgs] at hc
  | a :: as, g, c, hc => by
    rw [cutsArgs] at hc
    rcases List.mem_append.mp hc with hc | hc
    · exact cuts_good repl a (g a (by simp)) c hc
    · exact cutsArgs_good repl as (fun b hb => g b (by simp [hb])) c hc
end

mutual
theorem occ_cuts {repl : Expr V → Bool} {a : Expr V} (ha : repl a = true) : (e : Expr V) →
    occ a e = ((cuts repl e).map (occ a)).sum
  | .node t as => by
    rw [cuts]
    by_cases h : repl (.node t as) = true
    · rw [if_pos h]; simp
    · rw [if_neg h, occ, if_neg (fun hh => h (by rw [hh]; exact ha)), occArgs_cuts ha as]; omega
theorem occArgs_cuts {repl : Expr V → Bool} {a : Expr V} (ha : repl a = true) : (as : List (Expr V)) →
    occArgs a as = ((cutsArgs repl as).map (occ a)).sum
  | [] => rfl
  | b :: as => by
    rw [cutsArgs, occArgs, List.map_append, List.sum_append, occ_cuts ha b, occArgs_cuts ha as]
end

mutual
theorem occ_small {a : Expr V} : (e : Expr V) → e.size < a.size → occ a e = 0
  | .node t as, h => by
    rw [occ, if_neg (fun hh => by rw [hh] at h; omega), occArgs_small as (by rw [Tree.size] at h; omega)]
theorem occArgs_small {a : Expr V} : (as : List (Expr V)) → sizes as < a.size → occArgs a as = 0
  | [], _ => rfl
  | b :: as, h => by
    rw [sizes] at h
    rw [occArgs, occ_small b (by omega), occArgs_small as (by omega)]
end

theorem occ_le {a : Expr V} (e : Expr V) (h : e.size ≤ a.size) : occ a e ≤ 1 ∧ (occ a e = 1 → e = a) := by
  obtain ⟨t, as⟩ := e
  rw [occ, occArgs_small as (by rw [Tree.size] at h; omega)]
  split
  · rename_i he; exact ⟨by omega, fun _ => he⟩
  · exact ⟨by omega, fun h => by omega⟩

open Classical in
theorem occ_count {a : Expr V} : (cs : List (Expr V)) → (∀ c ∈ cs, c.size ≤ a.size) →
    (cs.map (occ a)).sum ≤ cs.count a
  | [], _ => le_rfl
  | c :: cs, h => by
    have ih := occ_count cs (fun d hd => h d (by simp [hd]))
    obtain ⟨h1, h2⟩ := occ_le c (h c (by simp))
    rw [List.map_cons, List.sum_cons, List.count_cons]
    by_cases hc : occ a c = 1
    · have := h2 hc
      rw [if_pos (by simpa using this)]; omega
    · omega

open Classical in
theorem addNew_mem (a : Expr V) : (cs : List (Expr V)) → (args : List (Expr V)) → a ∈ args →
    ((cs.foldl addNew args).map Tree.size).sum + a.size * cs.count a ≤
      (args.map Tree.size).sum + (cs.map Tree.size).sum
  | [], args, _ => by simp
  | c :: cs, args, h => by
    rw [List.foldl_cons, List.map_cons, List.sum_cons, List.count_cons]
    unfold addNew
    by_cases hc : c ∈ args
    · rw [if_pos hc]
      have := addNew_mem a cs args h
      unfold addNew at this
      by_cases hca : c = a
      · subst hca
        simp only [beq_self_eq_true, if_true]
        rw [Nat.mul_add]; omega
      · rw [if_neg (by simpa using hca), Nat.add_zero]; omega
    · rw [if_neg hc]
      have := addNew_mem a cs (args ++ [c]) (by simp [h])
      unfold addNew at this
      rw [List.map_append, List.sum_append] at this
      rw [if_neg (by simp only [beq_iff_eq]; rintro rfl; exact hc h)]
      simp at this ⊢
      omega

open Classical in
theorem addNew_twice (a : Expr V) : (cs : List (Expr V)) → (args : List (Expr V)) → 2 ≤ cs.count a →
    ((cs.foldl addNew args).map Tree.size).sum + a.size ≤ (args.map Tree.size).sum + (cs.map Tree.size).sum
  | [], args, h => by simp at h
  | c :: cs, args, h => by
    rw [List.foldl_cons, List.map_cons, List.sum_cons]
    rw [List.count_cons] at h
    by_cases hca : c = a
    · subst hca
      simp only [beq_self_eq_true, if_true] at h
      have h1 := addNew_mem c cs (addNew args c) (by unfold addNew; split <;> simp_all)
      have h2 : c.size ≤ c.size * cs.count c := Nat.le_mul_of_pos_right _ (by omega)
      have h3 : ((addNew args c).map Tree.size).sum ≤ (args.map Tree.size).sum + c.size := by
        unfold addNew; split <;> simp
      omega
    · rw [if_neg (by simpa using hca)] at h
      have h1 := addNew_twice a cs (addNew args c) (by omega)
      have h3 : ((addNew args c).map Tree.size).sum ≤ (args.map Tree.size).sum + c.size := by
        unfold addNew; split <;> simp
      omega

theorem exists_max (cs : List (Expr V)) (h : cs ≠ []) : ∃ a ∈ cs, ∀ c ∈ cs, c.size ≤ a.size := by
  induction cs with
  | nil => exact absurd rfl h
  | cons c cs ih =>
    by_cases hcs : cs = []
    · subst hcs; exact ⟨c, by simp, fun d hd => by rw [List.mem_singleton.mp hd]⟩
    · obtain ⟨a, ha, hm⟩ := ih hcs
      by_cases hle : c.size ≤ a.size
      · refine ⟨a, by simp [ha], fun d hd => ?_⟩
        rcases List.mem_cons.mp hd with rfl | hd
        · exact hle
        · exact hm d hd
      · refine ⟨c, by simp, fun d hd => ?_⟩
        rcases List.mem_cons.mp hd with rfl | hd
        · exact le_rfl
        · have := hm d hd; omega

theorem sizes_eq (as : List (Expr V)) : sizes as = (as.map Tree.size).sum := by
  induction as with
  | nil => rfl
  | cons a as ih => rw [sizes, ih, List.map_cons, List.sum_cons]

/-- When the body is smaller than the expression, so is the call of it. -/
theorem call_smaller {n : Nat} {e : Expr V} (g : Good n e)
    (hs : (createLambda (shouldReplace e) e []).1.size < e.size) :
    1 + sizes (createLambda (shouldReplace e) e []).2 < e.size := by
  classical
  have h1 := createLambda_size (shouldReplace e) e []
  have hsum : (cuts (shouldReplace e) e).length < ((cuts (shouldReplace e) e).map Tree.size).sum := by omega
  have hne : cuts (shouldReplace e) e ≠ [] := by intro h; rw [h] at hsum; simp at hsum
  obtain ⟨a, ha, hmax⟩ := exists_max _ hne
  have hrepl := cuts_repl _ e a ha
  have ga := cuts_good _ e g a ha
  have ha2 : 2 ≤ a.size := by
    by_contra hlt
    have : ((cuts (shouldReplace e) e).map Tree.size).sum ≤ (cuts (shouldReplace e) e).length := by
      rw [← List.length_map (f := Tree.size)]
      calc _ ≤ ((cuts (shouldReplace e) e).map Tree.size).length * 1 := by
            refine List.sum_le_card_nsmul _ 1 ?_
            intro x hx
            obtain ⟨c, hc, rfl⟩ := List.mem_map.mp hx
            have := hmax c hc; omega
        _ = _ := by omega
    omega
  have hnv : isVar a = false := by
    by_contra hv
    have hv : isVar a = true := by simpa using hv
    have := ga.root.1 (Or.inr hv)
    obtain ⟨t, as⟩ := a
    have has : as = [] := this
    subst has
    simp [Tree.size, sizes] at ha2
  have hocc : 2 ≤ occ a e := by
    have hh := hrepl
    unfold shouldReplace at hh
    rw [hnv] at hh
    simp only [Bool.or_false, decide_eq_true_eq] at hh
    generalize occ a e = o at hh ⊢
    by_contra hlt
    have : o = 0 ∨ o = 1 := by omega
    rcases this with rfl | rfl <;> omega
  have hcount : 2 ≤ (cuts (shouldReplace e) e).count a := by
    have := occ_count (a := a) (cuts (shouldReplace e) e) hmax
    rw [← occ_cuts hrepl e] at this
    omega
  have h2 := addNew_twice a (cuts (shouldReplace e) e) [] hcount
  rw [createLambda_args, sizes_eq]
  have h3 := cuts_size (shouldReplace e) e
  simp only [List.map_nil, List.sum_nil] at h2
  omega

theorem compressList_total {fuel : Nat}
    (hf : ∀ (L : List (Expr V)) (e : Expr V), WFL L → Good L.length e → e.size ≤ fuel →
      ∃ L' e', compress fuel L e = .ok (L', e') ∧ e'.size ≤ e.size) :
    (as : List (Expr V)) → (L : List (Expr V)) → WFL L → (∀ a ∈ as, Good L.length a) → sizes as ≤ fuel →
      ∃ L' as', compressList (compress fuel) L as = .ok (L', as') ∧ sizes as' ≤ sizes as
  | [], L, _, _, _ => ⟨L, [], rfl, le_rfl⟩
  | a :: as, L, hL, g, hs => by
    rw [sizes] at hs
    obtain ⟨L1, a1, h1, s1⟩ := hf L a hL (g a (by simp)) (by omega)
    obtain ⟨⟨M, e1⟩, w1, _, _⟩ := compress_spec (fun _ _ => none) fuel L a L1 a1 hL (g a (by simp)) h1
    obtain ⟨L2, as1, h2, s2⟩ := compressList_total hf as L1 w1
      (fun b hb => (g b (by simp [hb])).mono (by rw [e1]; simp)) (by omega)
    refine ⟨L2, a1 :: as1, ?_, by rw [sizes, sizes]; omega⟩
    rw [compressList, h1]
    dsimp only
    rw [h2]

/-- Compression ends within a depth of recursion of the size of the expression, and never makes it larger. -/
theorem C248_compress_ends : (fuel : Nat) → (L : List (Expr V)) → (e : Expr V) → WFL L → Good L.length e →
    e.size ≤ fuel → ∃ L' e', compress fuel L e = .ok (L', e') ∧ e'.size ≤ e.size
  | 0, _, e, _, _, h => by obtain ⟨t, as⟩ := e; rw [Tree.size] at h; omega
  | fuel + 1, L, e, hL, g, hsz => by
    rw [compress]
    dsimp only
    by_cases hs : (createLambda (shouldReplace e) e []).1.size < e.size
    swap
    · rw [if_neg hs]; exact ⟨L, e, rfl, le_rfl⟩
    rw [if_pos hs]
    have hcall := call_smaller g hs
    obtain ⟨gb, ga⟩ := createLambda_good (n := L.length) (repl := shouldReplace e) e [] g (fun a ha => by simp at ha)
    generalize createLambda (shouldReplace e) e [] = r at *
    obtain ⟨L1, body, hc, _⟩ := C248_compress_ends fuel L r.1 hL gb (by omega)
    rw [hc]
    dsimp only
    obtain ⟨⟨M1, e1⟩, w1, g1, _⟩ := compress_spec (fun _ _ => none) fuel L r.1 L1 body hL gb hc
    obtain ⟨hn, hbody⟩ := newLambda_spec L1 body
    generalize hnl : newLambda L1 body = nl at hn hbody ⊢
    obtain ⟨L2, k⟩ := nl
    dsimp only at hn hbody ⊢
    have hk : k < L2.length := bodyOf_lt hbody
    have hext : (∃ M, L2 = M ++ L1) ∧ WFL L2 := by
      rcases hn with hn | hn
      · have : L2 = L1 := congrArg Prod.fst hn
        rw [this]; exact ⟨⟨[], rfl⟩, w1⟩
      · have : L2 = body :: L1 := congrArg Prod.fst hn
        rw [this]; exact ⟨⟨[body], rfl⟩, w1.cons g1⟩
    obtain ⟨⟨M2, e2⟩, w2⟩ := hext
    have l1 : L.length ≤ L1.length := by rw [e1]; simp
    have l2 : L1.length ≤ L2.length := by rw [e2]; simp
    have ga2 : ∀ a ∈ r.2, Good L2.length a := fun a ha => (ga a ha).mono (by omega)
    obtain ⟨L3, args, hl, s3⟩ := compressList_total (C248_compress_ends fuel) r.2 L2 w2 ga2 (by omega)
    rw [hl]
    dsimp only
    obtain ⟨⟨M3, e3⟩, w3, g3, _⟩ := compressList_spec (fun _ _ => none) (compress_spec (fun _ _ => none) fuel)
      r.2 L2 L3 args w2 ga2 hl
    have l3 : L2.length ≤ L3.length := by rw [e3]; simp
    have gl : Good L3.length (.node (.lam k) args) :=
      AllNodes.mk ⟨fun h => (by rcases h with h | h <;> cases h), fun j hj => by cases hj; omega⟩ g3
    obtain ⟨L4, e4, h4, s4⟩ := C248_compress_ends fuel L3 (.node (.lam k) args) w3 gl (by rw [Tree.size]; omega)
    refine ⟨L4, e4, h4, ?_⟩
    rw [Tree.size] at s4
    omega

theorem good_leaf (n : Nat) (t : Tok V) (ht : ∀ k, t = .lam k → k < n) : Good n (.node t []) :=
  AllNodes.mk ⟨fun _ => rfl, fun k hk => ht k hk⟩ (fun a ha => by simp at ha)

/-- A body that uses its argument twice, and a call of it: well made, with a value. -/
example : WFL (V := ℝ) [efn .sum [evar 0, evar 0]] ∧ Good 1 (Tree.node (.lam 0) [econst (3 : ℝ)]) ∧
    eval apR [efn .sum [evar 0, evar 0]] [] (Tree.node (.lam 0) [econst 3]) = some 6 := by
  refine ⟨?_, ?_, ?_⟩
  · refine WFL.cons (fun k b hb => by simp [bodyOf] at hb) ?_
    refine AllNodes.mk ⟨fun h => (by rcases h with h | h <;> cases h), fun k hk => by cases hk⟩ ?_
    intro a ha
    simp only [List.mem_cons, List.not_mem_nil, or_false, or_self] at ha
    subst ha
    exact good_leaf _ _ (fun k hk => by cases hk)
  · refine AllNodes.mk ⟨fun h => (by rcases h with h | h <;> cases h), fun k hk => by cases hk; omega⟩ ?_
    intro a ha
    rw [List.mem_singleton.mp ha]
    exact good_leaf _ _ (fun k hk => by cases hk)
  · norm_num [eval, evalT, evalArgs, callL, econst, efn, evar, apR]

end Paradiseo.MathSym
