import Verif.Lemmas.SymCompile

/-! The text of a formula is read as a primary expression with the value of the formula. -/

namespace Paradiseo.MathSym

/-! ### The formulas whose text can be read -/

section
variable {V : Type}

/-- The text is that of a lambda: the formula is one, or it is a variable that stands for one. -/
def callLike (env : List Bool) : Expr V → Bool
  | .node (.var i) _ => env.getD i false
  | .node (.lam _) _ => true
  | _ => false

/-- The first argument is (or stands for) a lambda. -/
def firstCall (env : List Bool) : List (Expr V) → Bool
  | [] => false
  | a :: _ => callLike env a

mutual
/-- No inverse of a lambda; `env` tells which variables stand for a lambda. -/
def okT (okLam : Nat → List Bool → Bool) (env : List Bool) : Expr V → Bool
  | .node (.var _) _ => true
  | .node (.const _) _ => true
  | .node (.fn f) as => okArgs okLam env as && !(decide (f = .inv) && firstCall env as)
  | .node (.lam k) as => okArgs okLam env as && okLam k (as.map (callLike env))
def okArgs (okLam : Nat → List Bool → Bool) (env : List Bool) : List (Expr V) → Bool
  | [] => true
  | a :: as => okT okLam env a && okArgs okLam env as
end

/-- No inverse of a lambda in the body of lambda `k`, the arguments being lambdas or not. -/
def lamOk : List (Expr V) → Nat → List Bool → Bool
  | [], _, _ => true
  | b :: L, k, env => if k = L.length then okT (lamOk L) env b else lamOk L k env
end

/-! ### Texts with their values -/

/-- The text is read as a primary expression with this value; the flag tells whether it starts with a comment. -/
def PrimText (x : List ℝ) (loc : Nat → Option ℝ) (t : Code ℝ) (v : ℝ) (b : Bool) : Prop :=
  ∃ s a, (∀ r, strip .code (t ++ r) = s ++ strip .code r) ∧ PrimAt s a ∧ a.val x loc = some v ∧
    ∃ g t', t = g :: t' ∧ g ≠ .ch '*' ∧ (g = .ch '/' ↔ b = true)

/-- Texts of arguments with their values and flags. -/
def Texts (x : List ℝ) (loc : Nat → Option ℝ) : List (Code ℝ) → List ℝ → List Bool → Prop
  | [], [], [] => True
  | t :: ts, v :: vs, b :: bs => PrimText x loc t v b ∧ Texts x loc ts vs bs
  | _, _, _ => False

variable {x : List ℝ} {loc : Nat → Option ℝ}

theorem Texts.parts {c : Char} (hc : c ≠ '/') : ∀ {ts : List (Code ℝ)} {vs : List ℝ} {bs : List Bool},
    Texts x loc ts vs bs → ∃ ps : List (Code ℝ × CE ℝ), (∀ p ∈ ps, PrimAt p.1 p.2) ∧
      (∀ r, strip .code (sepBy c ts ++ r) = flat c ps ++ strip .code r) ∧
      ps.map (fun p => p.2.val x loc) = vs.map some
  | [], [], [], _ => ⟨[], by simp, by simp [sepBy, flat], rfl⟩
  | t :: ts, v :: vs, b :: bs, h => by
    obtain ⟨⟨s, a, h1, h2, h3, _⟩, h'⟩ := h
    obtain ⟨ps, p1, p2, p3⟩ := Texts.parts hc h'
    refine ⟨(s, a) :: ps, ?_, ?_, by simp [h3, p3]⟩
    · intro p hp
      rcases List.mem_cons.1 hp with rfl | hp
      · exact h2
      · exact p1 p hp
    · intro r
      have e : sepBy c (t :: ts) ++ r = .ch c :: (t ++ (sepBy c ts ++ r)) := by simp [sepBy]
      rw [e, strip_ch hc, h1, p2]
      simp [flat]

theorem foldAdd_val : ∀ (ps : List (Code ℝ × CE ℝ)) (vs : List ℝ) (a : CE ℝ) (v : ℝ),
    ps.map (fun p => p.2.val x loc) = vs.map some → a.val x loc = some v →
    (ps.foldl (fun a p => CE.add a p.2) a).val x loc = some (vs.foldl (· + ·) v)
  | [], [], _, _, _, h => h
  | p :: ps, w :: vs, a, v, h, ha => by
    simp only [List.map_cons, List.cons.injEq] at h
    exact foldAdd_val ps vs _ _ h.2 (by simp [CE.val, ha, h.1])
  | [], _ :: _, _, _, h, _ => by simp at h
  | _ :: _, [], _, _, h, _ => by simp at h

theorem foldMul_val : ∀ (ps : List (Code ℝ × CE ℝ)) (vs : List ℝ) (a : CE ℝ) (v : ℝ),
    ps.map (fun p => p.2.val x loc) = vs.map some → a.val x loc = some v →
    (ps.foldl (fun a p => CE.mul a p.2) a).val x loc = some (vs.foldl (· * ·) v)
  | [], [], _, _, _, h => h
  | p :: ps, w :: vs, a, v, h, ha => by
    simp only [List.map_cons, List.cons.injEq] at h
    exact foldMul_val ps vs _ _ h.2 (by simp [CE.val, ha, h.1])
  | [], _ :: _, _, _, h, _ => by simp at h
  | _ :: _, [], _, _, h, _ => by simp at h

theorem Texts.cons {cs : List (Code ℝ)} {v : ℝ} {vs : List ℝ} {bs : List Bool} (h : Texts x loc cs (v :: vs) bs) :
    ∃ t ts b bs', cs = t :: ts ∧ bs = b :: bs' ∧ PrimText x loc t v b ∧ Texts x loc ts vs bs' := by
  match cs, bs, h with
  | t :: ts, b :: bs', h => exact ⟨t, ts, b, bs', rfl, rfl, h.1, h.2⟩

theorem Texts.nil {cs : List (Code ℝ)} {bs : List Bool} (h : Texts x loc cs [] bs) : cs = [] := by
  match cs, bs, h with
  | [], [], _ => rfl

/-- The functions that are printed by their name. -/
theorem call_text {f : Fn} {v w : ℝ} {t : Code ℝ} {b : Bool} (h : PrimText x loc t v b)
    (hf : (unR f).map (fun g => g v) = some w) :
    PrimText x loc (.name f :: .ch '(' :: t ++ [.ch ')']) w false := by
  obtain ⟨s, a, h1, h2, h3, _⟩ := h
  refine ⟨_, _, ?_, prim_call1 f (expr_of_prim h2), by simp [CE.val, h3, hf], _, _, rfl, by simp, by simp⟩
  intro r
  have e : .name f :: .ch '(' :: t ++ [.ch ')'] ++ r = .name f :: .ch '(' :: (t ++ .ch ')' :: r) := by simp
  rw [e, strip_name, strip_ch (by decide), h1, strip_ch (by decide)]
  simp

theorem fn_text {f : Fn} {cs : List (Code ℝ)} {vs : List ℝ} {bs : List Bool} {v : ℝ} (h : Texts x loc cs vs bs)
    (hv : apR f vs = some v) (hi : f = .inv → bs.head? ≠ some true) :
    ∃ t, fnPrint f cs = some t ∧ PrimText x loc t v false := by
  cases vs with
  | nil =>
    obtain rfl := h.nil
    cases f <;> simp [apR] at hv
    · subst hv
      exact ⟨_, rfl, [.num 0], _, fun r => strip_num 0 r, prim_num 0, rfl, _, _, rfl, by simp, by simp⟩
    · subst hv
      exact ⟨_, rfl, [.num 1], _, fun r => strip_num 1 r, prim_num 1, rfl, _, _, rfl, by simp, by simp⟩
  | cons v0 vs =>
    obtain ⟨t, ts, b, bs', rfl, rfl, ht, hts⟩ := h.cons
    have ht0 := ht
    obtain ⟨s, a, h1, h2, h3, g, t', h4, h5, h6⟩ := ht
    cases f
    case sum =>
      obtain ⟨ps, p1, p2, p3⟩ := hts.parts (c := '+') (by decide)
      have hv' : vs.foldl (· + ·) v0 = v := by simpa [apR] using hv
      refine ⟨_, rfl, _, _, ?_, prim_paren (expr_of_rel (rel_of_add (add_of_mul (mul_of_prim h2) ps p1))), ?_,
        _, _, rfl, by simp, by simp⟩
      · intro r
        have e : .ch '(' :: t ++ sepBy '+' ts ++ [.ch ')'] ++ r
            = .ch '(' :: (t ++ (sepBy '+' ts ++ .ch ')' :: r)) := by simp
        rw [e, strip_ch (by decide), h1, p2, strip_ch (by decide)]
        simp
      · rw [foldAdd_val ps vs a v0 p3 h3, hv']
    case prod =>
      obtain ⟨ps, p1, p2, p3⟩ := hts.parts (c := '*') (by decide)
      have hv' : vs.foldl (· * ·) v0 = v := by simpa [apR] using hv
      have hm := add_of_mul (mul_flat h2 ps p1) [] (by simp)
      simp only [flat, List.append_nil, List.foldl_nil] at hm
      refine ⟨_, rfl, _, _, ?_, prim_paren (expr_of_rel (rel_of_add hm)), ?_, _, _, rfl, by simp, by simp⟩
      · intro r
        have e : .ch '(' :: t ++ sepBy '*' ts ++ [.ch ')'] ++ r
            = .ch '(' :: (t ++ (sepBy '*' ts ++ .ch ')' :: r)) := by simp
        rw [e, strip_ch (by decide), h1, p2, strip_ch (by decide)]
        simp
      · rw [foldMul_val ps vs a v0 p3 h3, hv']
    case pow =>
      cases vs with
      | nil => simp [apR, unR] at hv
      | cons v1 vs =>
        obtain ⟨u, us, b1, bs1, rfl, rfl, hu, hus⟩ := hts.cons
        obtain ⟨s', a', k1, k2, k3, _⟩ := hu
        refine ⟨_, rfl, _, _, ?_, prim_call2 .pow (expr_of_prim h2) (expr_of_prim k2), ?_, _, _, rfl, by simp, by simp⟩
        · intro r
          have e : .name .pow :: .ch '(' :: t ++ .ch ',' :: u ++ [.ch ')'] ++ r
              = .name .pow :: .ch '(' :: (t ++ .ch ',' :: (u ++ .ch ')' :: r)) := by simp
          rw [e, strip_name, strip_ch (by decide), h1, strip_ch (by decide), k1, strip_ch (by decide)]
          simp
        · simpa [CE.val, h3, k3, apR] using hv
    case ifltz =>
      match vs, hts, hv with
      | [], _, hv => simp [apR, unR] at hv
      | [_], _, hv => simp [apR, unR] at hv
      | v1 :: v2 :: vs, hts, hv =>
        obtain ⟨u, us, b1, bs1, rfl, rfl, hu, hus⟩ := hts.cons
        obtain ⟨w, ws, b2, bs2, rfl, rfl, hw, _⟩ := hus.cons
        obtain ⟨s', a', k1, k2, k3, _⟩ := hu
        obtain ⟨s'', a'', l1, l2, l3, _⟩ := hw
        have hc : PrimAt (.ch '(' :: (s ++ .ch '<' :: [.num 0]) ++ [.ch ')']) (.lt a (.num (0 : ℝ))) :=
          prim_paren (expr_of_rel (rel_lt (add_of_prim h2) (add_of_prim (prim_num (0 : ℝ)))))
        have hall := prim_paren (expr_cond (rel_of_add (add_of_prim hc)) (expr_of_prim k2) (expr_of_prim l2))
        refine ⟨_, rfl, _, _, ?_, hall, ?_, _, _, rfl, by simp, by simp⟩
        · intro r
          have e : .ch '(' :: .ch '(' :: t ++ .ch '<' :: .num 0 :: .ch ')' :: .ch '?' :: u ++ .ch ':' :: w ++ [.ch ')'] ++ r
              = .ch '(' :: .ch '(' :: (t ++ .ch '<' :: .num 0 :: .ch ')' :: .ch '?' :: (u ++ .ch ':' :: (w ++ .ch ')' :: r))) := by
            simp
          rw [e, strip_ch (by decide), strip_ch (by decide), h1, strip_ch (by decide), strip_num,
            strip_ch (by decide), strip_ch (by decide), k1, strip_ch (by decide), l1, strip_ch (by decide)]
          simp
        · by_cases hlt : v0 < 0 <;> simp [CE.val, h3, k3, l3, apR, hlt] at hv ⊢ <;> exact hv
    case inv =>
      have hb : b ≠ true := by simpa using hi rfl
      have hv' : (1 : ℝ) / v0 = v := by simpa [apR, unR] using hv
      refine ⟨_, rfl, _, _, ?_, prim_inv h2, by simp [CE.val, h3, ← hv'], _, _, rfl, by simp, by simp⟩
      intro r
      have e : .ch '(' :: .num 1 :: .ch '/' :: t ++ [.ch ')'] ++ r
          = .ch '(' :: .num 1 :: .ch '/' :: (t ++ .ch ')' :: r) := by simp
      have hg : g ≠ .ch '/' := fun hh => hb (h6.1 hh)
      have e2 : strip .code (.ch '/' :: (t ++ .ch ')' :: r)) = .ch '/' :: strip .code (t ++ .ch ')' :: r) := by
        rw [h4, List.cons_append]
        exact strip_slash hg h5 _
      rw [e, strip_ch (by decide), strip_num, e2, h1, strip_ch (by decide)]
      simp
    case min =>
      have hv' : -v0 = v := by simpa [apR, unR] using hv
      refine ⟨_, rfl, _, _, ?_, prim_min h2, by simp [CE.val, h3, ← hv'], _, _, rfl, by simp, by simp⟩
      intro r
      have e : .ch '(' :: .ch '-' :: t ++ [.ch ')'] ++ r
          = .ch '(' :: .ch '-' :: (t ++ .ch ')' :: r) := by simp
      rw [e, strip_ch (by decide), strip_ch (by decide), h1, strip_ch (by decide)]
      simp
    all_goals exact ⟨_, rfl, call_text ht0 (by simpa [apR] using hv)⟩

/-- What variables print as has their values. -/
def VarOK (x : List ℝ) (loc : Nat → Option ℝ) (names : List (Code ℝ)) (xs : List ℝ) (env : List Bool) : Prop :=
  ∀ i v, xs[i]? = some v → ∃ t, (if names.isEmpty then some [.input i] else names[i]?) = some t ∧
    PrimText x loc t v (env.getD i false)

theorem VarOK.top : VarOK x loc [] x [] := fun i v h =>
  ⟨_, rfl, [.input i], _, fun r => strip_input i r, prim_input i, h, _, _, rfl, by simp, by simp⟩

theorem Texts.get : ∀ {cs : List (Code ℝ)} {vs : List ℝ} {bs : List Bool}, Texts x loc cs vs bs →
    ∀ i v, vs[i]? = some v → ∃ t, cs[i]? = some t ∧ PrimText x loc t v (bs.getD i false)
  | [], [], [], _, i, v, h => by simp at h
  | t :: ts, v :: vs, b :: bs, h, 0, w, hw => by
    simp only [List.getElem?_cons_zero, Option.some.injEq] at hw
    subst hw
    exact ⟨t, rfl, h.1⟩
  | t :: ts, v :: vs, b :: bs, h, i + 1, w, hw => by
    obtain ⟨u, hu, hp⟩ := Texts.get h.2 i w (by simpa using hw)
    exact ⟨u, by simpa using hu, by simpa using hp⟩

theorem VarOK.args {cs : List (Code ℝ)} {vs : List ℝ} {bs : List Bool} (h : Texts x loc cs vs bs) :
    VarOK x loc cs vs bs := by
  intro i v hv
  obtain ⟨t, ht, hp⟩ := h.get i v hv
  refine ⟨t, ?_, hp⟩
  cases cs with
  | nil => simp at ht
  | cons c cs => simpa using ht

/-- What is needed of the printing of lambdas. -/
def LamOK (x : List ℝ) (loc : Nat → Option ℝ) (lam : Nat → List (Code ℝ) → Option (Code ℝ))
    (call : Nat → List ℝ → Option ℝ) (okLam : Nat → List Bool → Bool) : Prop :=
  ∀ k cs vs bs v, Texts x loc cs vs bs → call k vs = some v → okLam k bs = true →
    ∃ t, lam k cs = some t ∧ PrimText x loc t v true

mutual
theorem text_T {lam : Nat → List (Code ℝ) → Option (Code ℝ)} {call : Nat → List ℝ → Option ℝ}
    {okLam : Nat → List Bool → Bool} (H : LamOK x loc lam call okLam) {names : List (Code ℝ)} {xs : List ℝ}
    {env : List Bool} (hv : VarOK x loc names xs env) : ∀ (e : Expr ℝ) (v : ℝ),
    evalT apR call xs e = some v → okT okLam env e = true →
    ∃ t, cprintT lam names e = some t ∧ PrimText x loc t v (callLike env e)
  | .node (.var i) as, v, he, _ => by
    simp only [evalT] at he
    obtain ⟨t, ht, hp⟩ := hv i v he
    exact ⟨t, by simpa only [cprintT] using ht, hp⟩
  | .node (.const c) as, v, he, _ => by
    simp only [evalT, Option.some.injEq] at he
    subst he
    have hp : PrimAt (.ch '(' :: [.num c] ++ [.ch ')']) (.num c) := prim_paren (expr_of_prim (prim_num c))
    refine ⟨_, rfl, _, _, ?_, hp, rfl, _, _, rfl, by simp, by simp [callLike]⟩
    intro r
    show strip .code (.ch '(' :: .num c :: .ch ')' :: r) = _
    rw [strip_ch (by decide), strip_num, strip_ch (by decide)]
    simp
  | .node (.fn f) as, v, he, ho => by
    simp only [okT, Bool.and_eq_true] at ho
    simp only [evalT] at he
    cases hvs : evalArgs apR call xs as with
    | none => rw [hvs] at he; cases he
    | some vs =>
      rw [hvs] at he
      obtain ⟨cs, hcs, hts⟩ := text_args H hv as vs hvs ho.1
      obtain ⟨t, ht, hp⟩ := fn_text hts he (fun hf => by
        cases as with
        | nil => simp
        | cons a as => simpa [hf, firstCall] using ho.2)
      exact ⟨t, by simp only [cprintT, hcs, ht], hp⟩
  | .node (.lam k) as, v, he, ho => by
    simp only [okT, Bool.and_eq_true] at ho
    simp only [evalT] at he
    cases hvs : evalArgs apR call xs as with
    | none => rw [hvs] at he; cases he
    | some vs =>
      rw [hvs] at he
      obtain ⟨cs, hcs, hts⟩ := text_args H hv as vs hvs ho.1
      obtain ⟨t, ht, hp⟩ := H k cs vs _ v hts he ho.2
      exact ⟨t, by simp only [cprintT, hcs, ht], hp⟩
theorem text_args {lam : Nat → List (Code ℝ) → Option (Code ℝ)} {call : Nat → List ℝ → Option ℝ}
    {okLam : Nat → List Bool → Bool} (H : LamOK x loc lam call okLam) {names : List (Code ℝ)} {xs : List ℝ}
    {env : List Bool} (hv : VarOK x loc names xs env) : ∀ (as : List (Expr ℝ)) (vs : List ℝ),
    evalArgs apR call xs as = some vs → okArgs okLam env as = true →
    ∃ cs, cprintArgs lam names as = some cs ∧ Texts x loc cs vs (as.map (callLike env))
  | [], vs, he, _ => by
    simp only [evalArgs, Option.some.injEq] at he
    subst he
    exact ⟨[], rfl, trivial⟩
  | a :: as, vs, he, ho => by
    simp only [okArgs, Bool.and_eq_true] at ho
    simp only [evalArgs] at he
    cases h1 : evalT apR call xs a with
    | none => rw [h1] at he; cases he
    | some w =>
      cases h2 : evalArgs apR call xs as with
      | none => rw [h1, h2] at he; cases he
      | some ws =>
        rw [h1, h2] at he
        cases he
        obtain ⟨t, ht, hp⟩ := text_T H hv a w h1 ho.1
        obtain ⟨cs, hcs, hts⟩ := text_args H hv as ws h2 ho.2
        exact ⟨t :: cs, by simp only [cprintArgs, ht, hcs], hp, hts⟩
end

theorem lam_text : ∀ L : List (Expr ℝ), LamOK x loc (lamPrint L) (callL apR L) (lamOk L)
  | [] => fun k cs vs bs v _ hc _ => by cases hc
  | b :: L => fun k cs vs bs v ht hc ho => by
    by_cases hk : k = L.length
    · simp only [callL, hk, if_true] at hc
      simp only [lamOk, hk, if_true] at ho
      obtain ⟨t, h1, s, a, h2, h3, h4, _⟩ := text_T (lam_text L) (VarOK.args ht) b v hc ho
      refine ⟨openMark ++ t ++ closeMark, by simp only [lamPrint, hk, if_true, h1, Option.map_some], s, a, ?_, h3, h4,
        .ch '/', _, rfl, by simp, by simp⟩
      intro r
      rw [List.append_assoc, List.append_assoc, strip_open, h2, strip_close]
    · simp only [callL, hk, if_false] at hc
      simp only [lamOk, hk, if_false] at ho
      obtain ⟨t, h1, h2⟩ := lam_text L k cs vs bs v ht hc ho
      exact ⟨t, by simp only [lamPrint, hk, if_false, h1], h2⟩

theorem PrimText.reads {t : Code ℝ} {v : ℝ} {b : Bool} (h : PrimText x loc t v b) :
    ∃ a, Reads t a ∧ a.val x loc = some v := by
  obtain ⟨s, a, h1, h2, h3, _⟩ := h
  obtain ⟨N, hN⟩ := expr_of_prim h2
  refine ⟨a, ⟨N, fun n hn => ?_⟩, h3⟩
  have e := h1 []
  rw [List.append_nil] at e
  rw [e]
  exact hN n hn _ (Or.inl (by rw [strip]))

end Paradiseo.MathSym
