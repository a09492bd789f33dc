import Verif.Lemmas.SymCompileText

/-!
# A formula printed as C is compiled to the formula (C359)

The specification: the value of the formula, `eval` of MathSym (FunDef.cpp 54-91), which the program uses when it
does not compile.  The text is read by a reader of C (`strip` removes comments, `parse` follows the grammar of
expressions) that knows nothing of formulas.
-/

namespace Paradiseo.MathSym

/-! ### The text has the value of the formula -/

/-- The C expression printed for a formula that takes no inverse of a lambda is read by the compiler, and its
value on any inputs is that of the formula. -/
theorem C359_value (L : List (Expr ℝ)) (x : List ℝ) (e : Expr ℝ) (v : ℝ) (he : eval apR L x e = some v)
    (ho : okT (lamOk L) [] e = true) :
    ∃ t a, cprint L e = some t ∧ Reads t a ∧ a.val x (fun _ => none) = some v := by
  obtain ⟨t, ht, hp⟩ := text_T (x := x) (loc := fun _ => none) (lam_text L) VarOK.top e v he ho
  obtain ⟨a, ha, hv⟩ := hp.reads
  exact ⟨t, a, ht, ha, hv⟩

/-- The compiler reads a text in one way only. -/
theorem C359_unique {V : Type} {t : Code V} {a b : CE V} (h : Reads t a) (h' : Reads t b) : a = b := by
  obtain ⟨N, hN⟩ := h
  obtain ⟨M, hM⟩ := h'
  have := (hN (N + M) (by omega)).symm.trans (hM (N + M) (by omega))
  simpa using this

/-! ### Formulas without lambdas -/

mutual
/-- No lambda anywhere in the formula. -/
def noLam {V : Type} : Expr V → Bool
  | .node (.lam _) _ => false
  | .node (.var _) as => noLams as
  | .node (.const _) as => noLams as
  | .node (.fn _) as => noLams as
def noLams {V : Type} : List (Expr V) → Bool
  | [] => true
  | a :: as => noLam a && noLams as
end

theorem callLike_noLam {V : Type} : ∀ e : Expr V, noLam e = true → callLike [] e = false
  | .node (.lam _) _, h => by simp [noLam] at h
  | .node (.var _) _, _ => by simp [callLike]
  | .node (.const _) _, _ => rfl
  | .node (.fn _) _, _ => rfl

mutual
theorem ok_noLam {V : Type} (okLam : Nat → List Bool → Bool) : ∀ e : Expr V, noLam e = true → okT okLam [] e = true
  | .node (.lam _) _, h => by simp [noLam] at h
  | .node (.var _) _, _ => by simp [okT]
  | .node (.const _) _, _ => by simp [okT]
  | .node (.fn f) as, h => by
    simp only [noLam] at h
    simp only [okT, ok_noLams okLam as h, Bool.true_and, Bool.not_eq_true', Bool.and_eq_false_iff]
    right
    cases as with
    | nil => rfl
    | cons a as =>
      simp only [noLams, Bool.and_eq_true] at h
      exact callLike_noLam a h.1
theorem ok_noLams {V : Type} (okLam : Nat → List Bool → Bool) :
    ∀ as : List (Expr V), noLams as = true → okArgs okLam [] as = true
  | [], _ => rfl
  | a :: as, h => by
    simp only [noLams, Bool.and_eq_true] at h
    simp only [okArgs, ok_noLam okLam a h.1, ok_noLams okLam as h.2, Bool.and_self]
end

/-- The C expression printed for a formula without lambdas has the value of the formula. -/
theorem C359_no_lambda (L : List (Expr ℝ)) (x : List ℝ) (e : Expr ℝ) (v : ℝ) (he : eval apR L x e = some v)
    (hn : noLam e = true) :
    ∃ t a, cprint L e = some t ∧ Reads t a ∧ a.val x (fun _ => none) = some v :=
  C359_value L x e v he (ok_noLam _ e hn)

/-! ### The inverse of a lambda -/

theorem sepBy_nl {V : Type} (c : Char) (hc : c ≠ '\n') : ∀ ts : List (Code V), (∀ t ∈ ts, .ch '\n' ∉ t) →
    .ch '\n' ∉ sepBy c ts
  | [], _ => by simp [sepBy]
  | t :: ts, h => by
    have h1 := h t (by simp)
    have h2 := sepBy_nl c hc ts fun u hu => h u (by simp [hu])
    simp only [sepBy, List.cons_append, List.mem_cons, List.mem_append, not_or]
    exact ⟨by simpa using hc.symm, h1, h2⟩

theorem fnPrint_nl {V : Type} [Zero V] [One V] {f : Fn} {cs : List (Code V)} {t : Code V}
    (h : fnPrint f cs = some t) (hc : ∀ c ∈ cs, .ch '\n' ∉ c) : .ch '\n' ∉ t := by
  match cs, hc with
  | [], _ => cases f <;> simp [fnPrint] at h <;> subst h <;> simp
  | [a], hc =>
    have ha := hc a (by simp)
    cases f <;> simp [fnPrint] at h <;> subst h <;> simp [ha, sepBy]
  | [a, b], hc =>
    have ha := hc a (by simp)
    have hb := hc b (by simp)
    cases f <;> simp [fnPrint] at h <;> subst h <;> simp [ha, hb, sepBy]
  | a :: b :: c :: cs, hc =>
    have ha := hc a (by simp)
    have hb := hc b (by simp)
    have hcc := hc c (by simp)
    have h1 := sepBy_nl '+' (by decide) (b :: c :: cs) fun u hu => hc u (by simp_all)
    have h2 := sepBy_nl '*' (by decide) (b :: c :: cs) fun u hu => hc u (by simp_all)
    cases f <;> simp [fnPrint] at h <;> subst h <;> simp [ha, hb, hcc] <;> assumption

mutual
theorem cprintT_nl {V : Type} [Zero V] [One V] {lam : Nat → List (Code V) → Option (Code V)}
    (H : ∀ k cs t, lam k cs = some t → (∀ c ∈ cs, .ch '\n' ∉ c) → .ch '\n' ∉ t) {names : List (Code V)}
    (hn : ∀ c ∈ names, .ch '\n' ∉ c) : ∀ (e : Expr V) (t : Code V), cprintT lam names e = some t → .ch '\n' ∉ t
  | .node (.var i) _, t, h => by
    simp only [cprintT] at h
    split at h
    · cases h; simp
    · exact hn t (List.mem_of_getElem? h)
  | .node (.const c) _, t, h => by simp only [cprintT] at h; cases h; simp
  | .node (.fn f) as, t, h => by
    simp only [cprintT] at h
    cases hcs : cprintArgs lam names as with
    | none => rw [hcs] at h; cases h
    | some cs => rw [hcs] at h; exact fnPrint_nl h (cprintArgs_nl H hn as cs hcs)
  | .node (.lam k) as, t, h => by
    simp only [cprintT] at h
    cases hcs : cprintArgs lam names as with
    | none => rw [hcs] at h; cases h
    | some cs => rw [hcs] at h; exact H k cs t h (cprintArgs_nl H hn as cs hcs)
theorem cprintArgs_nl {V : Type} [Zero V] [One V] {lam : Nat → List (Code V) → Option (Code V)}
    (H : ∀ k cs t, lam k cs = some t → (∀ c ∈ cs, .ch '\n' ∉ c) → .ch '\n' ∉ t) {names : List (Code V)}
    (hn : ∀ c ∈ names, .ch '\n' ∉ c) : ∀ (as : List (Expr V)) (cs : List (Code V)),
    cprintArgs lam names as = some cs → ∀ c ∈ cs, .ch '\n' ∉ c
  | [], cs, h => by simp only [cprintArgs] at h; cases h; simp
  | a :: as, cs, h => by
    simp only [cprintArgs] at h
    cases h1 : cprintT lam names a with
    | none => rw [h1] at h; cases h
    | some u =>
      cases h2 : cprintArgs lam names as with
      | none => rw [h1, h2] at h; cases h
      | some us =>
        rw [h1, h2] at h
        cases h
        intro c hc
        rcases List.mem_cons.1 hc with rfl | hc
        · exact cprintT_nl H hn a _ h1
        · exact cprintArgs_nl H hn as us h2 c hc
end

theorem lamPrint_nl {V : Type} [Zero V] [One V] : ∀ (L : List (Expr V)) (k : Nat) (cs : List (Code V)) (t : Code V),
    lamPrint L k cs = some t → (∀ c ∈ cs, .ch '\n' ∉ c) → .ch '\n' ∉ t
  | [], _, _, _, h, _ => by cases h
  | b :: L, k, cs, t, h, hc => by
    by_cases hk : k = L.length
    · simp only [lamPrint, hk, if_true] at h
      cases hb : cprintT (lamPrint L) cs b with
      | none => rw [hb] at h; cases h
      | some u =>
        rw [hb] at h
        cases h
        have := cprintT_nl (lamPrint_nl L) hc b u hb
        simp [openMark, closeMark, this]
    · simp only [lamPrint, hk, if_false] at h
      exact lamPrint_nl L k cs t h hc

theorem lamPrint_head {V : Type} [Zero V] [One V] : ∀ (L : List (Expr V)) (k : Nat) (cs : List (Code V)) (t : Code V),
    lamPrint L k cs = some t → ∃ t', t = .ch '/' :: t'
  | [], _, _, _, h => by cases h
  | b :: L, k, cs, t, h => by
    by_cases hk : k = L.length
    · simp only [lamPrint, hk, if_true] at h
      cases hb : cprintT (lamPrint L) cs b with
      | none => rw [hb] at h; cases h
      | some u => rw [hb] at h; cases h; exact ⟨_, rfl⟩
    · simp only [lamPrint, hk, if_false] at h
      exact lamPrint_head L k cs t h

theorem strip_line_nil {V : Type} : ∀ t : Code V, .ch '\n' ∉ t → strip .line t = []
  | [], _ => by rw [strip]
  | g :: t, h => by
    simp only [List.mem_cons, not_or] at h
    rw [strip]
    · exact strip_line_nil t h.2
    · intro hh; exact h.1 hh.symm

/-- The inverse of a lambda is printed as a text that the compiler rejects: the slash of the division and the
slash that opens the comment before the body start a comment that goes on to the end of the line. -/
theorem C359_inverse_of_lambda {V : Type} [Zero V] [One V] (L : List (Expr V)) (k : Nat) (as : List (Expr V))
    (t : Code V) (h : cprint L (efn .inv [.node (.lam k) as]) = some t) (a : CE V) : ¬ Reads t a := by
  rintro ⟨N, hN⟩
  have hr := hN (N + 14) (by omega)
  simp only [cprint, efn, cprintT, cprintArgs] at h
  cases hcs : cprintArgs (lamPrint L) [] as with
  | none => rw [hcs] at h; cases h
  | some cs =>
    rw [hcs] at h
    cases hl : lamPrint L k cs with
    | none => simp [hl] at h
    | some u =>
      simp only [hl, fnPrint, Option.some.injEq] at h
      obtain ⟨u', rfl⟩ := lamPrint_head L k cs u hl
      have hu := lamPrint_nl L k cs _ hl (cprintArgs_nl (lamPrint_nl L) (by simp) as cs hcs)
      have hu' : .ch '\n' ∉ u' ++ [.ch ')'] := by simp_all
      have e : strip .code t = [.ch '(', .num 1] := by
        rw [← h, List.cons_append, strip_ch (by decide), List.cons_append, strip_num]
        show _ :: _ :: strip .line (u' ++ [.ch ')']) = _
        rw [strip_line_nil _ hu']
      rw [e] at hr
      have : parse (N + 14) .expr [.ch '(', .num (1 : V)] = none := rfl
      rw [this] at hr
      cases hr

/-! ### Instances -/

/-- (x0 + 3) · (1 / -x1), on (1, 2). -/
example : ∃ t a, cprint [] (efn .prod [efn .sum [evar 0, econst 3], efn .inv [efn .min [evar 1]]]) = some t ∧
    Reads t a ∧ a.val [1, 2] (fun _ => none) = some ((1 + 3) * (1 / -2)) := by
  apply C359_no_lambda [] [1, 2]
  · simp [eval, evalT, evalArgs, efn, evar, econst, apR, unR]
  · rfl

/-- A lambda F(a, b) = a · b called on (x0, 1 / x1): the call is read. -/
example : ∃ t a, cprint [efn .prod [evar 0, evar 1]] (.node (.lam 0) [evar 0, efn .inv [evar 1]]) = some t ∧
    Reads t a ∧ a.val [3, 2] (fun _ => none) = some (3 * (1 / 2)) := by
  apply C359_value _ [3, 2]
  · simp [eval, callL, evalT, evalArgs, efn, evar, apR, unR]
  · rfl

/-- The inverse of that lambda has a value and a text, and the text is not read. -/
example : eval apR [efn .prod [evar 0, evar 1]] [3, 2] (efn .inv [.node (.lam 0) [evar 0, evar 1]]) = some (1 / (3 * 2)) ∧
    ∃ t, cprint [efn .prod [evar 0, evar 1]] (efn .inv [.node (.lam 0) [evar 0, evar (V := ℝ) 1]]) = some t ∧
      ∀ a, ¬ Reads t a := by
  refine ⟨by simp [eval, callL, evalT, evalArgs, efn, evar, apR, unR], _, rfl, fun a => ?_⟩
  exact C359_inverse_of_lambda [efn .prod [evar 0, evar 1]] 0 [evar 0, evar 1] _ rfl a

end Paradiseo.MathSym
