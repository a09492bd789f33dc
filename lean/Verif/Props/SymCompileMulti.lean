import Verif.Lemmas.SymCompileText
import Mathlib.Data.Finset.Card

/-!
# Several formulas compiled together (C360, C361)

The specification: the values of the formulas; the set of their subformulas, written below on its own (`subs`);
the text of each formula printed by itself.
-/

namespace Paradiseo.MathSym

section
variable {V : Type}

mutual
/-- The formula and everything under it. -/
def subs : Expr V → List (Expr V)
  | .node t as => .node t as :: subsArgs as
def subsArgs : List (Expr V) → List (Expr V)
  | [] => []
  | a :: as => subs a ++ subsArgs as
end

mutual
/-- Variables and constants have no arguments. -/
def leafy : Expr V → Bool
  | .node (.var _) as => as.isEmpty
  | .node (.const _) as => as.isEmpty
  | .node (.fn _) as => leafyArgs as
  | .node (.lam _) as => leafyArgs as
def leafyArgs : List (Expr V) → Bool
  | [] => true
  | a :: as => leafy a && leafyArgs as
end

mutual
/-- No lambda that is called has an inverse of a lambda in its body; inverses of lambdas in the formula itself do
not matter. -/
def okM (L : List (Expr V)) : Expr V → Bool
  | .node (.var _) as => okMs L as
  | .node (.const _) as => okMs L as
  | .node (.fn _) as => okMs L as
  | .node (.lam k) as => okMs L as && lamOk L k (as.map fun _ => false)
def okMs (L : List (Expr V)) : List (Expr V) → Bool
  | [] => true
  | a :: as => okM L a && okMs L as
end

/-- The line declares a variable. -/
def Line.isDecl : Line V → Bool
  | .decl _ _ => true
  | .out _ _ => false
end

/-! ### Names -/

theorem char_digit {a b : Nat} (ha : a < 10) (hb : b < 10) (h : Char.ofNat (48 + a) = Char.ofNat (48 + b)) : a = b := by
  have e : (Char.ofNat (48 + a)).toNat = (Char.ofNat (48 + b)).toNat := by rw [h]
  have k : ∀ c, c < 10 → (Char.ofNat (48 + c)).toNat = 48 + c := by decide
  rw [k a ha, k b hb] at e
  omega

theorem makeVarDigits_inj : ∀ n m : Nat, makeVarDigits n = makeVarDigits m → n = m := by
  intro n
  induction n using Nat.strong_induction_on with
  | _ n ih =>
    intro m h
    rw [makeVarDigits, makeVarDigits.eq_def m] at h
    simp only [List.cons.injEq] at h
    have h0 := char_digit (Nat.mod_lt _ (by omega)) (Nat.mod_lt _ (by omega)) h.1
    have hd : n / 10 = m / 10 := by
      by_cases h1 : n / 10 = 0
      · by_cases h2 : m / 10 = 0
        · omega
        · exfalso
          have := h.2
          rw [dif_pos h1, dif_neg h2, makeVarDigits] at this
          cases this
      · by_cases h2 : m / 10 = 0
        · exfalso
          have := h.2
          rw [dif_neg h1, dif_pos h2, makeVarDigits] at this
          cases this
        · have := h.2
          rw [dif_neg h1, dif_neg h2] at this
          exact ih (n / 10) (by omega) (m / 10) this
    omega

/-- Different variables have different names. -/
theorem C360_names (n m : Nat) (h : makeVar n = makeVar m) : n = m :=
  makeVarDigits_inj n m (by simpa [makeVar] using h)

/-! ### Values -/

theorem Runs.append {x : List ℝ} {ls ls' : List (Line ℝ)} {m m1 m2 : Mem} (h : Runs x ls m m1)
    (h' : Runs x ls' m1 m2) : Runs x (ls ++ ls') m m2 := by
  induction h with
  | done => exact h'
  | decl h1 h2 h3 _ ih => exact Runs.decl h1 h2 h3 (ih h')
  | out h1 _ ih => exact Runs.out h1 (ih h')

/-- What holds of the map, the lines and the memory that running the lines leaves. -/
structure EmitInv (L : List (Expr ℝ)) (x : List ℝ) (s : Emit ℝ) (m : Mem) : Prop where
  vals : ∀ e n, mapFind s.map e = some n → n < s.map.length ∧ ∃ v, eval apR L x e = some v ∧ m.get n = some v
  fresh : ∀ n, s.map.length ≤ n → m.get n = none
  runs : Runs x s.lines ⟨[], []⟩ m

theorem Mem.get_cons (n k : Nat) (v : ℝ) (l : List (List Char × ℝ)) (o : List (Nat × ℝ)) :
    Mem.get ⟨(makeVar n, v) :: l, o⟩ k = if k = n then some v else Mem.get ⟨l, o⟩ k := by
  unfold Mem.get
  by_cases h : k = n
  · subst h; simp
  · have : ¬ makeVar k = makeVar n := fun hh => h (C360_names k n hh)
    have hb : (makeVar k == makeVar n) = false := by simpa using this
    simp [List.lookup, h, hb]

theorem locTexts {x : List ℝ} (m : Mem) : ∀ (ns : List Nat) (vs : List ℝ),
    ns.map m.get = vs.map some →
    Texts x m.get (ns.map fun n => [.loc n]) vs (vs.map fun _ => false)
  | [], [], _ => trivial
  | n :: ns, v :: vs, h => by
    simp only [List.map_cons, List.cons.injEq] at h
    exact ⟨⟨[.loc n], .loc n, fun r => strip_loc n r, prim_loc n, h.1, _, _, rfl, by simp, by simp⟩,
      locTexts m ns vs h.2⟩
  | [], _ :: _, h => by simp at h
  | _ :: _, [], h => by simp at h

theorem tok_text {L : List (Expr ℝ)} {x : List ℝ} {m : Mem} {t : Tok ℝ} {as : List (Expr ℝ)} {v : ℝ}
    (he : eval apR L x (.node t as) = some v) (ho : okM L (.node t as) = true) {ns : List Nat} {vs : List ℝ}
    (hvs : evalArgs apR (callL apR L) x as = some vs) (hns : ns.map m.get = vs.map some) :
    ∃ c a, tokPrint L t (ns.map fun n => [.loc n]) = some c ∧ Reads c a ∧ a.val x m.get = some v := by
  have hT := locTexts (x := x) m ns vs hns
  have hlen : as.map (fun _ => false) = vs.map fun _ => false := by
    have : ∀ (as : List (Expr ℝ)) (vs : List ℝ), evalArgs apR (callL apR L) x as = some vs →
        as.map (fun _ => false) = vs.map fun _ => false := by
      intro as
      induction as with
      | nil => intro vs h; simp only [evalArgs, Option.some.injEq] at h; subst h; rfl
      | cons a as ih =>
        intro vs h
        simp only [evalArgs] at h
        cases h1 : evalT apR (callL apR L) x a with
        | none => rw [h1] at h; cases h
        | some w =>
          cases h2 : evalArgs apR (callL apR L) x as with
          | none => rw [h1, h2] at h; cases h
          | some ws =>
            rw [h1, h2] at h
            cases h
            simp [ih ws h2]
    exact this as vs hvs
  cases t with
  | var i =>
    simp only [eval, evalT] at he
    refine ⟨_, .input i, rfl, ?_, he⟩
    obtain ⟨N, hN⟩ := expr_of_prim (prim_input (V := ℝ) i)
    exact ⟨N, fun n hn => hN n hn [] (Or.inl rfl)⟩
  | const c =>
    simp only [eval, evalT, Option.some.injEq] at he
    subst he
    obtain ⟨u, hu, hp⟩ := text_T (x := x) (loc := m.get) (lam_text L) VarOK.top (.node (.const c) as) c rfl
      (by simp [okT])
    simp only [cprintT, Option.some.injEq] at hu
    subst hu
    obtain ⟨a, ha, hv⟩ := hp.reads
    exact ⟨_, a, rfl, ha, hv⟩
  | fn f =>
    simp only [eval, evalT, hvs] at he
    obtain ⟨u, hu, hp⟩ := fn_text hT he (fun _ => by cases vs <;> simp)
    obtain ⟨a, ha, hv⟩ := hp.reads
    exact ⟨u, a, hu, ha, hv⟩
  | lam k =>
    simp only [eval, evalT, hvs] at he
    simp only [okM, Bool.and_eq_true, hlen] at ho
    obtain ⟨u, hu, hp⟩ := lam_text L k _ vs _ v hT he ho.2
    obtain ⟨a, ha, hv⟩ := hp.reads
    exact ⟨u, a, hu, ha, hv⟩

theorem args_eval {L : List (Expr ℝ)} {x : List ℝ} {t : Tok ℝ} {as : List (Expr ℝ)} {v : ℝ}
    (he : eval apR L x (.node t as) = some v) (hl : leafy (.node t as) = true) :
    (∃ vs, evalArgs apR (callL apR L) x as = some vs) ∧ leafyArgs as = true := by
  cases t with
  | var i =>
    simp only [leafy, List.isEmpty_iff] at hl
    subst hl
    exact ⟨⟨_, rfl⟩, rfl⟩
  | const c =>
    simp only [leafy, List.isEmpty_iff] at hl
    subst hl
    exact ⟨⟨_, rfl⟩, rfl⟩
  | fn f =>
    simp only [eval, evalT] at he
    refine ⟨?_, by simpa only [leafy] using hl⟩
    cases h : evalArgs apR (callL apR L) x as with
    | none => rw [h] at he; cases he
    | some vs => exact ⟨vs, rfl⟩
  | lam k =>
    simp only [eval, evalT] at he
    refine ⟨?_, by simpa only [leafy] using hl⟩
    cases h : evalArgs apR (callL apR L) x as with
    | none => rw [h] at he; cases he
    | some vs => exact ⟨vs, rfl⟩

theorem okMs_of {L : List (Expr ℝ)} {t : Tok ℝ} {as : List (Expr ℝ)} (ho : okM L (.node t as) = true) :
    okMs L as = true := by
  cases t <;> simp_all [okM]

mutual
theorem findEntry_spec {L : List (Expr ℝ)} {x : List ℝ} : ∀ (e : Expr ℝ) (v : ℝ) (s : Emit ℝ) (m : Mem),
    eval apR L x e = some v → leafy e = true → okM L e = true → EmitInv L x s m →
    ∃ n s' m', findEntry L e s = some (n, s') ∧ EmitInv L x s' m' ∧ m'.get n = some v ∧ m'.outs = m.outs ∧
      ∀ k w, m.get k = some w → m'.get k = some w
  | .node t as, v, s, m, he, hl, ho, hs => by
    rw [findEntry]
    cases hf : mapFind s.map (.node t as) with
    | some n =>
      obtain ⟨_, w, hw, hm⟩ := hs.vals _ n hf
      rw [he] at hw
      cases hw
      exact ⟨n, s, m, rfl, hs, hm, rfl, fun _ _ h => h⟩
    | none =>
      obtain ⟨⟨vs, hvs⟩, hla⟩ := args_eval he hl
      obtain ⟨ns, s1, m1, h1, h2, h3, h4, h5⟩ := findEntries_spec as vs s m hvs hla (okMs_of ho) hs
      obtain ⟨c, a, hc, ha, hv⟩ := tok_text he ho hvs h3
      have hfr := h2.fresh s1.map.length (Nat.le_refl _)
      refine ⟨s1.map.length, _, ⟨(makeVar s1.map.length, v) :: m1.locals, m1.outs⟩, by rw [h1]; simp only [hc]; rfl,
        ⟨?_, ?_, ?_⟩, by rw [Mem.get_cons, if_pos rfl], h4, ?_⟩
      · intro e' n' hn'
        simp only [mapFind] at hn'
        split at hn'
        · rename_i heq
          subst heq
          cases hn'
          exact ⟨by simp, v, he, by rw [Mem.get_cons, if_pos rfl]⟩
        · obtain ⟨g1, w, g2, g3⟩ := h2.vals e' n' hn'
          exact ⟨by simp; omega, w, g2, by rw [Mem.get_cons, if_neg (by omega)]; exact g3⟩
      · intro n' hn'
        simp only [List.length_cons] at hn'
        rw [Mem.get_cons, if_neg (by omega)]
        exact h2.fresh n' (by omega)
      · exact h2.runs.append (Runs.decl ha hv hfr (Runs.done _))
      · intro k w hk
        have := h5 k w hk
        rw [Mem.get_cons, if_neg]
        · exact this
        · rintro rfl
          rw [hfr] at this
          cases this
theorem findEntries_spec {L : List (Expr ℝ)} {x : List ℝ} : ∀ (as : List (Expr ℝ)) (vs : List ℝ) (s : Emit ℝ)
    (m : Mem), evalArgs apR (callL apR L) x as = some vs → leafyArgs as = true → okMs L as = true →
    EmitInv L x s m →
    ∃ ns s' m', findEntries L as s = some (ns, s') ∧ EmitInv L x s' m' ∧ ns.map m'.get = vs.map some ∧
      m'.outs = m.outs ∧ ∀ k w, m.get k = some w → m'.get k = some w
  | [], vs, s, m, he, _, _, hs => by
    simp only [evalArgs, Option.some.injEq] at he
    subst he
    exact ⟨[], s, m, by rw [findEntries], hs, rfl, rfl, fun _ _ h => h⟩
  | a :: as, vs, s, m, he, hl, ho, hs => by
    simp only [leafyArgs, Bool.and_eq_true] at hl
    simp only [okMs, Bool.and_eq_true] at ho
    simp only [evalArgs] at he
    cases h1 : evalT apR (callL apR L) x a with
    | none => rw [h1] at he; cases he
    | some w =>
      cases h2 : evalArgs apR (callL apR L) x as with
      | none => rw [h1, h2] at he; cases he
      | some ws =>
        rw [h1, h2] at he
        cases he
        obtain ⟨n, s1, m1, a1, a2, a3, a4, a5⟩ := findEntry_spec a w s m h1 hl.1 ho.1 hs
        obtain ⟨ns, s2, m2, b1, b2, b3, b4, b5⟩ := findEntries_spec as ws s1 m1 h2 hl.2 ho.2 a2
        refine ⟨n :: ns, s2, m2, by rw [findEntries, a1]; simp only [b1], b2, ?_, by rw [b4, a4],
          fun k w h => b5 k w (a5 k w h)⟩
        simp only [List.map_cons, b3, b5 n w a3]
end

/-- The outputs that the values should be: number and value, in the order in which they are set. -/
def outsFrom : Nat → List ℝ → List (Nat × ℝ)
  | _, [] => []
  | i, v :: vs => (i, v) :: outsFrom (i + 1) vs

theorem writeEntries_spec {L : List (Expr ℝ)} {x : List ℝ} : ∀ (es : List (Expr ℝ)) (vs : List ℝ) (i : Nat)
    (s : Emit ℝ) (m : Mem), evalArgs apR (callL apR L) x es = some vs → leafyArgs es = true → okMs L es = true →
    EmitInv L x s m →
    ∃ s' m', writeEntries L i es s = some s' ∧ Runs x s'.lines ⟨[], []⟩ m' ∧
      m'.outs = (outsFrom i vs).reverse ++ m.outs
  | [], vs, i, s, m, he, _, _, hs => by
    simp only [evalArgs, Option.some.injEq] at he
    subst he
    exact ⟨s, m, rfl, hs.runs, rfl⟩
  | e :: es, vs, i, s, m, he, hl, ho, hs => by
    simp only [leafyArgs, Bool.and_eq_true] at hl
    simp only [okMs, Bool.and_eq_true] at ho
    simp only [evalArgs] at he
    cases h1 : evalT apR (callL apR L) x e with
    | none => rw [h1] at he; cases he
    | some w =>
      cases h2 : evalArgs apR (callL apR L) x es with
      | none => rw [h1, h2] at he; cases he
      | some ws =>
        rw [h1, h2] at he
        cases he
        obtain ⟨n, s1, m1, a1, a2, a3, a4, a5⟩ := findEntry_spec e w s m h1 hl.1 ho.1 hs
        obtain ⟨s2, m2, b1, b2, b3⟩ := writeEntries_spec es ws (i + 1) ⟨s1.map, s1.lines ++ [.out i n]⟩
          ⟨m1.locals, (i, w) :: m1.outs⟩ h2 hl.2 ho.2
          ⟨a2.vals, a2.fresh, a2.runs.append (Runs.out a3 (Runs.done _))⟩
        refine ⟨s2, m2, by rw [writeEntries, a1]; exact b1, b2, ?_⟩
        rw [b3, a4]
        simp [outsFrom]

/-- The function that is compiled for several formulas runs, and sets output number i to the value of formula
number i, each once and in order: when the formulas have values, and no lambda called in them has an inverse of a
lambda in its body. -/
theorem C360_values (L : List (Expr ℝ)) (x : List ℝ) (es : List (Expr ℝ)) (vs : List ℝ)
    (he : evalArgs apR (callL apR L) x es = some vs) (hl : leafyArgs es = true) (ho : okMs L es = true) :
    ∃ ls m, compileMulti L es = some ls ∧ Runs x ls ⟨[], []⟩ m ∧ m.outs.reverse = outsFrom 0 vs := by
  obtain ⟨s, m, h1, h2, h3⟩ := writeEntries_spec es vs 0 ⟨[], []⟩ ⟨[], []⟩ he hl ho
    ⟨fun e n h => by simp [mapFind] at h, fun n _ => rfl, Runs.done _⟩
  refine ⟨s.lines, m, by simp [compileMulti, h1], h2, ?_⟩
  rw [h3]
  simp

/-- Running the lines has one result only. -/
theorem C360_deterministic {x : List ℝ} {ls : List (Line ℝ)} {m a b : Mem} (h : Runs x ls m a)
    (h' : Runs x ls m b) : a = b := by
  induction h with
  | done => cases h'; rfl
  | decl h1 h2 h3 _ ih =>
    cases h' with
    | decl k1 k2 k3 k4 =>
      obtain ⟨N, hN⟩ := h1
      obtain ⟨M, hM⟩ := k1
      have := (hN (N + M) (by omega)).symm.trans (hM (N + M) (by omega))
      simp only [Option.some.injEq, Prod.mk.injEq, and_true] at this
      subst this
      rw [h2] at k2
      cases k2
      exact ih k4
  | out h1 _ ih =>
    cases h' with
    | out k1 k2 =>
      rw [h1] at k1
      cases k1
      exact ih k2

/-! ### Every subformula once -/

section
variable {V : Type}

theorem mapFind_none {B : Type} : ∀ (m : List (Expr V × B)) (e : Expr V),
    mapFind m e = none ↔ e ∉ m.map Prod.fst
  | [], e => by simp [mapFind]
  | (k, b) :: m, e => by
    simp only [mapFind]
    split
    · rename_i h; simp [h]
    · rename_i h
      simp only [mapFind_none m e, List.map_cons, List.mem_cons, not_or]
      exact ⟨fun h' => ⟨fun hh => h hh.symm, h'⟩, fun h' => h'.2⟩

theorem self_subs : ∀ e : Expr V, e ∈ subs e
  | .node t as => by simp [subs]

mutual
theorem subs_size : ∀ (e f : Expr V), f ∈ subs e → f.size ≤ e.size
  | .node t as, f, h => by
    simp only [subs, List.mem_cons] at h
    rcases h with rfl | h
    · exact Nat.le_refl _
    · have := subsArgs_size as f h
      simp only [Tree.size]
      omega
theorem subsArgs_size : ∀ (as : List (Expr V)) (f : Expr V), f ∈ subsArgs as → f.size ≤ sizes as
  | [], f, h => by simp [subsArgs] at h
  | a :: as, f, h => by
    simp only [subsArgs, List.mem_append] at h
    simp only [sizes]
    rcases h with h | h
    · have := subs_size a f h; omega
    · have := subsArgs_size as f h; omega
end

mutual
theorem subs_trans : ∀ (e f g : Expr V), f ∈ subs e → g ∈ subs f → g ∈ subs e
  | .node t as, f, g, h, h' => by
    simp only [subs, List.mem_cons] at h ⊢
    rcases h with rfl | h
    · simpa only [subs, List.mem_cons] using h'
    · exact Or.inr (subsArgs_trans as f g h h')
theorem subsArgs_trans : ∀ (as : List (Expr V)) (f g : Expr V), f ∈ subsArgs as → g ∈ subs f → g ∈ subsArgs as
  | [], f, g, h, _ => by simp [subsArgs] at h
  | a :: as, f, g, h, h' => by
    simp only [subsArgs, List.mem_append] at h ⊢
    rcases h with h | h
    · exact Or.inl (subs_trans a f g h h')
    · exact Or.inr (subsArgs_trans as f g h h')
end

/-- What holds of the formulas that have a variable and the lines. -/
structure KeysInv (s : Emit V) : Prop where
  nodup : (s.map.map Prod.fst).Nodup
  closed : ∀ e f, e ∈ s.map.map Prod.fst → f ∈ subs e → f ∈ s.map.map Prod.fst
  count : (s.lines.filter Line.isDecl).length = s.map.length

mutual
theorem findEntry_keys [Zero V] [One V] {L : List (Expr V)} : ∀ (e : Expr V) (s : Emit V) (n : Nat) (s' : Emit V),
    findEntry L e s = some (n, s') → KeysInv s →
    KeysInv s' ∧ ∀ f, f ∈ s'.map.map Prod.fst ↔ f ∈ s.map.map Prod.fst ∨ f ∈ subs e
  | .node t as, s, n, s', h, hs => by
    rw [findEntry] at h
    cases hf : mapFind s.map (.node t as) with
    | some k =>
      rw [hf] at h
      cases h
      have hmem : .node t as ∈ s.map.map Prod.fst := by
        by_contra hh
        rw [(mapFind_none s.map _).2 hh] at hf
        cases hf
      exact ⟨hs, fun f => ⟨Or.inl, fun h => h.elim id (hs.closed _ f hmem)⟩⟩
    | none =>
      rw [hf] at h
      cases h1 : findEntries L as s with
      | none => rw [h1] at h; cases h
      | some p =>
        obtain ⟨ns, s1⟩ := p
        rw [h1] at h
        cases h2 : tokPrint L t (ns.map fun n => [.loc n]) with
        | none => simp [h2] at h
        | some c =>
          simp only [h2, Option.some.injEq, Prod.mk.injEq] at h
          obtain ⟨rfl, rfl⟩ := h
          obtain ⟨k1, k2⟩ := findEntries_keys as s ns s1 h1 hs
          have hne : .node t as ∉ s1.map.map Prod.fst := by
            intro hh
            rcases (k2 _).1 hh with hh | hh
            · exact (mapFind_none s.map _).1 hf hh
            · have := subsArgs_size as _ hh
              simp only [Tree.size] at this
              omega
          refine ⟨⟨?_, ?_, ?_⟩, ?_⟩
          · rw [List.map_cons, List.nodup_cons]
            exact ⟨hne, k1.nodup⟩
          · intro e f he hfm
            simp only [List.map_cons, List.mem_cons] at he ⊢
            rcases he with rfl | he
            · simp only [subs, List.mem_cons] at hfm
              exact hfm.imp id fun h => (k2 f).2 (Or.inr h)
            · exact Or.inr (k1.closed e f he hfm)
          · have e : ([Line.decl s1.map.length c].filter Line.isDecl).length = 1 := rfl
            rw [List.filter_append, List.length_append, k1.count, e, List.length_cons]
          · intro f
            simp only [List.map_cons, List.mem_cons, k2 f, subs]
            tauto
theorem findEntries_keys [Zero V] [One V] {L : List (Expr V)} : ∀ (as : List (Expr V)) (s : Emit V) (ns : List Nat)
    (s' : Emit V), findEntries L as s = some (ns, s') → KeysInv s →
    KeysInv s' ∧ ∀ f, f ∈ s'.map.map Prod.fst ↔ f ∈ s.map.map Prod.fst ∨ f ∈ subsArgs as
  | [], s, ns, s', h, hs => by
    rw [findEntries] at h
    cases h
    exact ⟨hs, fun f => by simp [subsArgs]⟩
  | a :: as, s, ns, s', h, hs => by
    rw [findEntries] at h
    cases h1 : findEntry L a s with
    | none => rw [h1] at h; cases h
    | some p =>
      obtain ⟨n, s1⟩ := p
      rw [h1] at h
      cases h2 : findEntries L as s1 with
      | none => simp [h2] at h
      | some q =>
        obtain ⟨ns', s2⟩ := q
        simp only [h2, Option.some.injEq, Prod.mk.injEq] at h
        obtain ⟨rfl, rfl⟩ := h
        obtain ⟨a1, a2⟩ := findEntry_keys a s n s1 h1 hs
        obtain ⟨b1, b2⟩ := findEntries_keys as s1 ns' s2 h2 a1
        refine ⟨b1, fun f => ?_⟩
        rw [b2 f, a2 f, subsArgs, List.mem_append, or_assoc]
end

theorem writeEntries_keys [Zero V] [One V] {L : List (Expr V)} : ∀ (es : List (Expr V)) (i : Nat) (s s' : Emit V),
    writeEntries L i es s = some s' → KeysInv s →
    KeysInv s' ∧ ∀ f, f ∈ s'.map.map Prod.fst ↔ f ∈ s.map.map Prod.fst ∨ f ∈ subsArgs es
  | [], i, s, s', h, hs => by
    rw [writeEntries] at h
    cases h
    exact ⟨hs, fun f => by simp [subsArgs]⟩
  | e :: es, i, s, s', h, hs => by
    rw [writeEntries] at h
    cases h1 : findEntry L e s with
    | none => rw [h1] at h; cases h
    | some p =>
      obtain ⟨n, s1⟩ := p
      rw [h1] at h
      obtain ⟨a1, a2⟩ := findEntry_keys e s n s1 h1 hs
      obtain ⟨b1, b2⟩ := writeEntries_keys es (i + 1) ⟨s1.map, s1.lines ++ [.out i n]⟩ s' h
        ⟨a1.nodup, a1.closed, by simp [List.filter_append, Line.isDecl, a1.count]⟩
      refine ⟨b1, fun f => ?_⟩
      rw [b2 f, a2 f, subsArgs, List.mem_append, or_assoc]

open Classical in
/-- The function declares exactly one variable for every different subformula of the formulas, however often it
occurs. -/
theorem C360_shared [Zero V] [One V] (L : List (Expr V)) (es : List (Expr V)) (ls : List (Line V))
    (h : compileMulti L es = some ls) :
    (ls.filter Line.isDecl).length = (subsArgs es).toFinset.card := by
  simp only [compileMulti, Option.map_eq_some_iff] at h
  obtain ⟨s, hs, rfl⟩ := h
  obtain ⟨k, hk⟩ := writeEntries_keys es 0 ⟨[], []⟩ s hs ⟨by simp, by simp, rfl⟩
  have e : (s.map.map Prod.fst).toFinset = (subsArgs es).toFinset := by
    ext f
    rw [List.mem_toFinset, List.mem_toFinset, hk f]
    simp
  rw [k.count, ← e, List.toFinset_card_of_nodup k.nodup, List.length_map]

/-! ### A function for each formula -/

mutual
theorem findCode_spec [Zero V] [One V] {L : List (Expr V)} : ∀ (e : Expr V) (m : List (Expr V × Code V)),
    leafy e = true → (∀ f c, mapFind m f = some c → cprint L f = some c) →
    match findCode L e m with
    | none => cprint L e = none
    | some (c, m') => cprint L e = some c ∧ ∀ f c, mapFind m' f = some c → cprint L f = some c
  | .node t as, m, hl, hm => by
    rw [findCode]
    cases hf : mapFind m (.node t as) with
    | some c => exact ⟨hm _ _ hf, hm⟩
    | none =>
      have hla : leafyArgs as = true := by
        cases t <;> simp only [leafy, List.isEmpty_iff] at hl
        · exact hl
        · subst hl; rfl
        · subst hl; rfl
        · exact hl
      have hp : cprint L (.node t as) = (cprintArgs (lamPrint L) [] as).bind (tokPrint L t) := by
        cases t <;> simp only [leafy, List.isEmpty_iff] at hl
        · simp only [cprint, cprintT]
          cases cprintArgs (lamPrint L) [] as <;> rfl
        · subst hl; rfl
        · subst hl; rfl
        · simp only [cprint, cprintT]
          cases cprintArgs (lamPrint L) [] as <;> rfl
      have ha := findCodes_spec as m hla hm
      cases h1 : findCodes L as m with
      | none =>
        rw [h1] at ha
        simp only
        rw [hp, ha]
        rfl
      | some p =>
        obtain ⟨cs, m1⟩ := p
        rw [h1] at ha
        simp only at ha ⊢
        have hp' : cprint L (.node t as) = tokPrint L t cs := by rw [hp, ha.1]; rfl
        cases h2 : tokPrint L t cs with
        | none => simp only; rw [hp', h2]
        | some c =>
          simp only
          refine ⟨by rw [hp', h2], fun f d hd => ?_⟩
          simp only [mapFind] at hd
          split at hd
          · rename_i heq
            subst heq
            cases hd
            rw [hp', h2]
          · exact ha.2 f d hd
theorem findCodes_spec [Zero V] [One V] {L : List (Expr V)} : ∀ (as : List (Expr V)) (m : List (Expr V × Code V)),
    leafyArgs as = true → (∀ f c, mapFind m f = some c → cprint L f = some c) →
    match findCodes L as m with
    | none => cprintArgs (lamPrint L) [] as = none
    | some (cs, m') => cprintArgs (lamPrint L) [] as = some cs ∧
        ∀ f c, mapFind m' f = some c → cprint L f = some c
  | [], m, _, hm => by rw [findCodes]; exact ⟨rfl, hm⟩
  | a :: as, m, hl, hm => by
    simp only [leafyArgs, Bool.and_eq_true] at hl
    rw [findCodes]
    have ha := findCode_spec a m hl.1 hm
    cases h1 : findCode L a m with
    | none =>
      rw [h1] at ha
      simp only [cprint] at ha
      simp only [cprintArgs, ha]
    | some p =>
      obtain ⟨c, m1⟩ := p
      rw [h1] at ha
      simp only at ha ⊢
      have hb := findCodes_spec as m1 hl.2 ha.2
      have hc := ha.1
      simp only [cprint] at hc
      cases h2 : findCodes L as m1 with
      | none =>
        rw [h2] at hb
        simp only [cprintArgs, hc, hb]
      | some q =>
        obtain ⟨cs, m2⟩ := q
        rw [h2] at hb
        simp only at hb ⊢
        exact ⟨by simp only [cprintArgs, hc, hb.1], hb.2⟩
end

/-- Compiling one function for each formula writes for each the text that the formula has by itself, although the
texts of subformulas are kept and used again. -/
theorem C361_texts [Zero V] [One V] (L : List (Expr V)) (es : List (Expr V)) (hl : leafyArgs es = true) :
    compileEach L es = cprintArgs (lamPrint L) [] es := by
  have h := findCodes_spec (L := L) es [] hl (fun f c h => by simp [mapFind] at h)
  unfold compileEach
  cases h1 : findCodes L es [] with
  | none => rw [h1] at h; simp only at h; rw [h]; rfl
  | some p => obtain ⟨cs, m⟩ := p; rw [h1] at h; simp only at h; rw [h.1]; rfl

/-- That is: as many texts as formulas, text number i that of formula number i. -/
theorem C361_each [Zero V] [One V] (L : List (Expr V)) (es : List (Expr V)) (hl : leafyArgs es = true)
    (ts : List (Code V)) (h : compileEach L es = some ts) : es.map (cprint L) = ts.map some := by
  rw [C361_texts L es hl] at h
  clear hl
  induction es generalizing ts with
  | nil => simp only [cprintArgs, Option.some.injEq] at h; subst h; rfl
  | cons e es ih =>
    simp only [cprintArgs] at h
    cases h1 : cprintT (lamPrint L) [] e with
    | none => rw [h1] at h; cases h
    | some t =>
      cases h2 : cprintArgs (lamPrint L) [] es with
      | none => rw [h1, h2] at h; cases h
      | some us =>
        rw [h1, h2] at h
        cases h
        simp only [List.map_cons, ih us h2, cprint, h1]
end

/-- So every function has the value of its formula, when the formulas take no inverse of a lambda. -/
theorem C361_values (L : List (Expr ℝ)) (x : List ℝ) (es : List (Expr ℝ)) (vs : List ℝ)
    (he : evalArgs apR (callL apR L) x es = some vs) (hl : leafyArgs es = true)
    (ho : okArgs (lamOk L) [] es = true) :
    ∃ ts as, compileEach L es = some ts ∧ List.Forall₂ Reads ts as ∧
      as.map (fun a => a.val x fun _ => none) = vs.map some := by
  obtain ⟨ts, h1, h2⟩ := text_args (x := x) (loc := fun _ => none) (lam_text L) VarOK.top es vs he ho
  have key : ∀ (ts : List (Code ℝ)) (vs : List ℝ) (bs : List Bool), Texts x (fun _ => none) ts vs bs →
      ∃ as, List.Forall₂ Reads ts as ∧ as.map (fun a => a.val x fun _ => none) = vs.map some := by
    intro ts
    induction ts with
    | nil =>
      intro vs bs h
      match vs, bs, h with
      | [], [], _ => exact ⟨[], .nil, rfl⟩
    | cons t ts ih =>
      intro vs bs h
      match vs, bs, h with
      | v :: vs, b :: bs, h =>
        obtain ⟨a, ha, hv⟩ := h.1.reads
        obtain ⟨as, k1, k2⟩ := ih vs bs h.2
        exact ⟨a :: as, .cons ha k1, by simp [hv, k2]⟩
  obtain ⟨as, k1, k2⟩ := key ts vs _ h2
  exact ⟨ts, as, by rw [C361_texts L es hl, h1], k1, k2⟩

/-! ### Instances -/

/-- x0 · x0 + x1 and 1 / (x0 · x0) on (2, 3). -/
example : ∃ ls m, compileMulti []
      [efn .sum [efn .prod [evar 0, evar 0], evar 1], efn .inv [efn .prod [evar 0, evar 0]]] = some ls ∧
    Runs [2, 3] ls ⟨[], []⟩ m ∧ m.outs.reverse = [(0, 2 * 2 + 3), (1, 1 / (2 * 2))] := by
  obtain ⟨ls, m, h1, h2, h3⟩ := C360_values [] [2, 3]
    [efn .sum [efn .prod [evar 0, evar 0], evar 1], efn .inv [efn .prod [evar 0, evar 0]]]
    [2 * 2 + 3, 1 / (2 * 2)] (by simp [evalT, evalArgs, efn, evar, apR, unR]) rfl rfl
  exact ⟨ls, m, h1, h2, h3⟩

example : makeVar 210 = ['a', '0', '1', '2'] := by
  simp [makeVar, makeVarDigits]

end Paradiseo.MathSym
