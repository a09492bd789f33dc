import Verif.Model.MathSymRaw
import Verif.Props.Param
import Mathlib.Data.Nat.Digits.Lemmas
import Mathlib.Tactic.IntervalCases

/-!
# C257, C258: raw text of expressions; numbers of constants and lambdas
-/

namespace Paradiseo.MathSym

open Paradiseo.EO Paradiseo.Param

/-! ### Numbers in decimal -/

theorem digitChar_val {d : Nat} (h : d < 10) : (Nat.digitChar d).toNat - 48 = d ∧ (Nat.digitChar d).isDigit = true := by
  interval_cases d <;> decide

theorem number_digits : ∀ (ds : List Nat), (∀ d ∈ ds, d < 10) →
    number (ds.reverse.map Nat.digitChar) = Nat.ofDigits 10 ds
  | [], _ => rfl
  | d :: ds, h => by
    have ih := number_digits ds fun e he => h e (by simp [he])
    rw [number] at ih ⊢
    rw [List.reverse_cons, List.map_append, List.foldl_append, ih, Nat.ofDigits_cons]
    simp only [List.map_cons, List.map_nil, List.foldl_cons, List.foldl_nil]
    rw [(digitChar_val (h d (by simp))).1]
    omega

theorem showNat_spec (n : Nat) : State.showNat n ≠ [] ∧ (∀ c ∈ State.showNat n, c.isDigit = true) ∧
    number (State.showNat n) = n := by
  unfold State.showNat
  split
  · rename_i h
    subst h
    exact ⟨by simp, by decide, by decide⟩
  · rename_i h
    refine ⟨?_, ?_, ?_⟩
    · simp [Nat.digits_ne_nil_iff_ne_zero.2 h]
    · intro c hc
      obtain ⟨d, hd, rfl⟩ := List.mem_map.1 hc
      exact (digitChar_val (Nat.digits_lt_base (by norm_num) (List.mem_reverse.1 hd))).2
    · rw [number_digits _ fun d hd => Nat.digits_lt_base (by norm_num) hd, Nat.ofDigits_digits]

theorem takeWhile_all : ∀ {d : List Char}, (∀ c ∈ d, c.isDigit = true) → d.takeWhile (·.isDigit) = d
  | [], _ => rfl
  | a :: d, h => by
    rw [List.takeWhile_cons, if_pos (h a (by simp)), takeWhile_all fun c hc => h c (by simp [hc])]

/-- A text that cannot continue a number. -/
def Stops (r : Text) : Prop := ∀ c s, r = c :: s → c.isDigit = false

theorem readNat_showNat (n : Nat) {r : Text} (hr : Stops r) : readNat (State.showNat n ++ r) = some (n, r) := by
  obtain ⟨h1, h2, h3⟩ := showNat_spec n
  generalize State.showNat n = d at h1 h2 h3
  have e1 : (d ++ r).dropWhile isWs = d ++ r := by
    cases d with
    | nil => exact absurd rfl h1
    | cons a d => simp [List.dropWhile_cons, digit_not_ws (h2 a (by simp))]
  have e2 : (d ++ r).takeWhile (·.isDigit) = d := by
    cases r with
    | nil =>
      rw [List.append_nil]
      exact takeWhile_all h2
    | cons c r => exact takeWhile_stop r h2 (hr c r rfl)
  unfold readNat
  simp only [e1, e2]
  cases d with
  | nil => exact absurd rfl h1
  | cons a d => rw [number] at h3; simp [h3]

theorem readNat_blank (n : Nat) {r : Text} (hr : Stops r) : readNat (' ' :: (State.showNat n ++ r)) = some (n, r) := by
  have h := readNat_showNat n hr
  unfold readNat at h ⊢
  rw [List.dropWhile_cons, if_pos (by decide)]
  exact h

/-! ### Expressions -/

section
variable {V : Type}

mutual
/-- Constants and variables have no arguments. -/
def Plain : Tree (RTok V) → Prop
  | .node (.const _) as => as = []
  | .node (.var _) as => as = []
  | .node (.fn _) as => Plains as
def Plains : List (Tree (RTok V)) → Prop
  | [] => True
  | a :: as => Plain a ∧ Plains as
end

theorem stops_raw (sh : V → Text) (e : Tree (RTok V)) (r : Text) : Stops (writeRaw sh e ++ r) := by
  intro c s h
  obtain ⟨t, as⟩ := e
  cases t <;> rw [writeRaw, List.cons_append, List.cons.injEq] at h <;> rw [← h.1] <;> decide

theorem stops_raws (sh : V → Text) (as : List (Tree (RTok V))) {r : Text} (hr : Stops r) : Stops (writeRaws sh as ++ r) := by
  cases as with
  | nil => rw [writeRaws]; exact hr
  | cons a as => rw [writeRaws, List.append_assoc]; exact stops_raw sh a _

mutual
theorem readRaw_write {sh : V → Text} {rd : Text → Option (V × Text)}
    (hd : ∀ v r, rd (sh v ++ ')' :: r) = some (v, ')' :: r)) : ∀ (e : Tree (RTok V)) (r : Text), Plain e → Stops r →
    ∃ n, ∀ fuel, n ≤ fuel → readRaw rd fuel (writeRaw sh e ++ r) = .ok (e, r)
  | .node (.const v) as, r, h, hr => by
    have : as = [] := by rw [Plain] at h; exact h
    subst this
    refine ⟨1, fun fuel hf => ?_⟩
    obtain ⟨k, rfl⟩ : ∃ k, fuel = k + 1 := ⟨fuel - 1, by omega⟩
    have : writeRaw sh (.node (.const v) []) ++ r = 'c' :: '(' :: (sh v ++ ')' :: r) := by
      rw [writeRaw, writeRaws]; simp
    rw [this, readRaw, List.drop_one, List.tail_cons, hd]
    rfl
  | .node (.var i) as, r, h, hr => by
    have : as = [] := by rw [Plain] at h; exact h
    subst this
    refine ⟨1, fun fuel hf => ?_⟩
    obtain ⟨k, rfl⟩ : ∃ k, fuel = k + 1 := ⟨fuel - 1, by omega⟩
    have : writeRaw sh (.node (.var i) []) ++ r = 'v' :: (State.showNat i ++ r) := by
      rw [writeRaw, writeRaws]; simp
    rw [this, readRaw, readNat_showNat i hr]
  | .node (.fn t) as, r, h, hr => by
    rw [Plain] at h
    obtain ⟨n, hn⟩ := readMany_write hd as r h hr
    refine ⟨n + 1, fun fuel hf => ?_⟩
    obtain ⟨k, rfl⟩ : ∃ k, fuel = k + 1 := ⟨fuel - 1, by omega⟩
    have : writeRaw sh (.node (.fn t) as) ++ r = 'f' :: (State.showNat t ++ ' ' :: (State.showNat as.length ++
        (writeRaws sh as ++ r))) := by
      rw [writeRaw]; simp
    rw [this, readRaw, readNat_showNat t (by intro c s h; rw [List.cons.injEq] at h; rw [← h.1]; decide)]
    dsimp only
    rw [readNat_blank as.length (stops_raws sh as hr)]
    dsimp only
    rw [hn k (by omega)]
theorem readMany_write {sh : V → Text} {rd : Text → Option (V × Text)}
    (hd : ∀ v r, rd (sh v ++ ')' :: r) = some (v, ')' :: r)) : ∀ (as : List (Tree (RTok V))) (r : Text), Plains as →
    Stops r → ∃ n, ∀ fuel, n ≤ fuel → readMany (readRaw rd fuel) as.length (writeRaws sh as ++ r) = .ok (as, r)
  | [], r, _, _ => ⟨0, fun fuel _ => by rw [writeRaws]; rfl⟩
  | a :: as, r, h, hr => by
    rw [Plains] at h
    obtain ⟨m, hm⟩ := readMany_write hd as r h.2 hr
    obtain ⟨n, hn⟩ := readRaw_write hd a (writeRaws sh as ++ r) h.1 (stops_raws sh as hr)
    refine ⟨max n m, fun fuel hf => ?_⟩
    rw [writeRaws, List.append_assoc, List.length_cons, readMany, hn fuel (le_trans (le_max_left _ _) hf)]
    dsimp only
    rw [hm fuel (le_trans (le_max_right _ _) hf)]
end

/-- Reading what was written gives the same expression and leaves the text behind it, if that does not start with a
digit. -/
theorem C257_round_trip {sh : V → Text} {rd : Text → Option (V × Text)}
    (hd : ∀ v r, rd (sh v ++ ')' :: r) = some (v, ')' :: r)) (e : Tree (RTok V)) (h : Plain e) (r : Text)
    (hr : ∀ c s, r = c :: s → c.isDigit = false) :
    ∃ n, ∀ fuel, n ≤ fuel → readRaw rd fuel (writeRaw sh e ++ r) = .ok (e, r) :=
  readRaw_write hd e r h hr

/-- Different expressions are written differently. -/
theorem C257_injective {sh : V → Text} {rd : Text → Option (V × Text)}
    (hd : ∀ v r, rd (sh v ++ ')' :: r) = some (v, ')' :: r)) {e e' : Tree (RTok V)} (h : Plain e) (h' : Plain e')
    (he : writeRaw sh e = writeRaw sh e') : e = e' := by
  have hs : Stops [] := by intro c s h; cases h
  obtain ⟨n, hn⟩ := readRaw_write hd e [] h hs
  obtain ⟨m, hm⟩ := readRaw_write hd e' [] h' hs
  have h1 := hn (max n m) (le_max_left _ _)
  have h2 := hm (max n m) (le_max_right _ _)
  rw [he, h2] at h1
  simp only [Except.ok.injEq, Prod.mk.injEq, and_true] at h1
  exact h1.symm

end

/-- The empty text ends the program. -/
theorem C257_empty {V : Type} (rd : Text → Option (V × Text)) (n : Nat) : readRaw rd (n + 1) [] = .error .asserted := rfl

/-- Numbers as constants: the hypothesis can be met. -/
example : ∀ (v : Nat) r, readNat (State.showNat v ++ ')' :: r) = some (v, ')' :: r) := fun v r =>
  readNat_showNat v (by intro c s h; rw [List.cons.injEq] at h; rw [← h.1]; decide)

example : Plain (V := Nat) (.node (.fn 3) [.node (.const 5) [], .node (.var 12) []]) := by
  simp [Plain, Plains]

/-! ### Tokens -/

section
variable {V B : Type} [DecidableEq V] [DecidableEq B]

/-- The table is in order: free numbers are free, each once; a constant or lambda has one number. -/
structure InOrder (s : Tokens V B) : Prop where
  nodup : s.free.Nodup
  isFree : ∀ t ∈ s.free, t < s.size ∧ s.what t = none
  inside : ∀ t, s.size ≤ t → s.what t = none
  once : ∀ t u o, s.what t = some o → s.what u = some o → o ≠ .other → t = u

theorem InOrder.lt {s : Tokens V B} (h : InOrder s) {t : Nat} {o : Obj V B} (ho : s.what t = some o) : t < s.size := by
  by_contra hn
  rw [h.inside t (by omega)] at ho
  cases ho

theorem inOrder_init (n : Nat) : InOrder (Tokens.init n : Tokens V B) where
  nodup := List.nodup_nil
  isFree := by intro t ht; cases ht
  inside := by intro t ht; simp only [Tokens.init] at ht ⊢; rw [if_neg (by omega)]
  once := by
    intro t u o h1 h2 h3
    simp only [Tokens.init] at h1
    split at h1
    · exact absurd (Option.some.inj h1).symm h3
    · cases h1

theorem inOrder_addTokens {s : Tokens V B} (h : InOrder s) : InOrder s.addTokens where
  nodup := by
    simp only [Tokens.addTokens]
    rw [List.nodup_append]
    refine ⟨List.nodup_reverse.2 List.nodup_range', h.nodup, ?_⟩
    intro a ha b hb hab
    subst hab
    have h1 := (List.mem_range'_1.1 (List.mem_reverse.1 ha)).1
    have h2 := (h.isFree a hb).1
    omega
  isFree := by
    intro t ht
    simp only [Tokens.addTokens] at ht ⊢
    rcases List.mem_append.1 ht with ht | ht
    · have h1 := List.mem_range'_1.1 (List.mem_reverse.1 ht)
      exact ⟨by omega, h.inside t h1.1⟩
    · exact ⟨by have := (h.isFree t ht).1; omega, (h.isFree t ht).2⟩
  inside := fun t ht => h.inside t (by simp only [Tokens.addTokens] at ht; omega)
  once := h.once

theorem inOrder_free {s : Tokens V B} (h : InOrder s) {t : Nat} {o : Obj V B} (ho : s.what t = some o) :
    InOrder { s with what := fun u => if u = t then none else s.what u, free := t :: s.free } where
  nodup := by
    refine List.nodup_cons.2 ⟨fun ht => ?_, h.nodup⟩
    rw [(h.isFree t ht).2] at ho
    cases ho
  isFree := by
    intro u hu
    dsimp only
    rcases List.mem_cons.1 hu with rfl | hu
    · exact ⟨h.lt ho, by rw [if_pos rfl]⟩
    · exact ⟨(h.isFree u hu).1, by split; rfl; exact (h.isFree u hu).2⟩
  inside := by
    intro u hu
    dsimp only
    split
    · rfl
    · exact h.inside u hu
  once := by
    intro u w o' h1 h2 h3
    dsimp only at h1 h2
    split at h1
    · cases h1
    · split at h2
      · cases h2
      · exact h.once u w o' h1 h2 h3

theorem inOrder_drop {s : Tokens V B} (h : InOrder s) (t : Nat) : InOrder (s.drop t) ∧
    ∀ u, u ≠ t → (s.drop t).what u = s.what u := by
  rw [Tokens.drop]
  split
  · rename_i v ho
    exact ⟨inOrder_free h ho, fun u hu => if_neg hu⟩
  · rename_i v ho
    exact ⟨inOrder_free h ho, fun u hu => if_neg hu⟩
  · exact ⟨h, fun u _ => rfl⟩

theorem inOrder_drops (unused : List Nat) : ∀ {s : Tokens V B}, InOrder s → InOrder (unused.foldl Tokens.drop s) ∧
    ∀ u, u ∉ unused → (unused.foldl Tokens.drop s).what u = s.what u := by
  induction unused with
  | nil => exact fun h => ⟨h, fun u _ => rfl⟩
  | cons t unused ih =>
    intro s h
    obtain ⟨h1, h2⟩ := inOrder_drop h t
    obtain ⟨h3, h4⟩ := ih h1
    refine ⟨h3, fun u hu => ?_⟩
    rw [List.mem_cons, not_or] at hu
    rw [List.foldl_cons, h4 u hu.2, h2 u hu.1]

theorem inOrder_extend {s : Tokens V B} (h : InOrder s) (unused : List Nat) : InOrder (s.extend unused) ∧
    (s.extend unused).free ≠ [] ∧ ∀ u, u ∉ unused → (s.extend unused).what u = s.what u := by
  obtain ⟨h1, h2⟩ := inOrder_drops unused h
  rw [Tokens.extend]
  split
  · rename_i hf
    refine ⟨inOrder_addTokens h1, ?_, h2⟩
    simp [Tokens.addTokens, List.range'_succ]
  · rename_i hf
    exact ⟨h1, fun he => hf he, h2⟩

theorem pop_spec {s : Tokens V B} (h : InOrder s) (unused : List Nat) : ∃ t s', s.pop unused = some (t, s') ∧
    (∃ fr, InOrder { s' with free := t :: fr } ∧ s'.free = fr) ∧ ∀ u, u ∉ unused → s'.what u = s.what u := by
  have key : ∃ s1 : Tokens V B, s.ready unused = s1 ∧ InOrder s1 ∧ s1.free ≠ [] ∧
      ∀ u, u ∉ unused → s1.what u = s.what u := by
    rw [Tokens.ready]
    cases hf : s.free with
    | nil =>
      obtain ⟨h1, h2, h3⟩ := inOrder_extend h unused
      exact ⟨_, rfl, h1, h2, h3⟩
    | cons a l => exact ⟨s, rfl, h, by rw [hf]; simp, fun u _ => rfl⟩
  obtain ⟨s1, e, h1, h2, h3⟩ := key
  cases hf : s1.free with
  | nil => exact absurd hf h2
  | cons t fr =>
    refine ⟨t, { s1 with free := fr }, ?_, ⟨fr, ?_, rfl⟩, h3⟩
    · rw [Tokens.pop, e, hf]
    · have : { s1 with free := t :: fr } = s1 := by rw [← hf]
      dsimp only
      rw [this]
      exact h1

/-- Give a popped number to an object that has none. -/
theorem inOrder_give {s' : Tokens V B} {t : Nat} {fr : List Nat} (h : InOrder { s' with free := t :: fr })
    (hf : s'.free = fr) {o : Obj V B} (ho : ∀ u, s'.what u ≠ some o) (vals lams : Nat) :
    InOrder ({ s' with what := fun u => if u = t then some o else s'.what u, values := vals, lambdas := lams } : Tokens V B)
    where
  nodup := by
    have := (List.nodup_cons.1 h.nodup).2
    dsimp only; rw [hf]; exact this
  isFree := by
    intro u hu
    dsimp only at hu ⊢
    rw [hf] at hu
    have h1 := h.isFree u (List.mem_cons_of_mem _ hu)
    have hne : u ≠ t := fun he => (List.nodup_cons.1 h.nodup).1 (he ▸ hu)
    rw [if_neg hne]
    exact h1
  inside := by
    intro u hu
    dsimp only at hu ⊢
    have h1 := (h.isFree t (by simp)).1
    dsimp only at h1
    rw [if_neg (by omega)]
    exact h.inside u hu
  once := by
    intro u w o' h1 h2 h3
    dsimp only at h1 h2
    split at h1
    · split at h2
      · omega
      · rw [← Option.some.inj h1] at h2
        exact absurd h2 (ho w)
    · split at h2
      · rw [← Option.some.inj h2] at h1
        exact absurd h1 (ho u)
      · exact h.once u w o' h1 h2 h3

theorem find_some {s : Tokens V B} {o : Obj V B} {t : Nat} (h : s.find o = some t) : s.what t = some o := by
  have := List.find?_some h
  simpa using this

theorem find_none {s : Tokens V B} (hs : InOrder s) {o : Obj V B} (h : s.find o = none) : ∀ u, s.what u ≠ some o := by
  intro u hu
  rw [Tokens.find, List.find?_eq_none] at h
  have := h u (List.mem_range.2 (hs.lt hu))
  simp [hu] at this

theorem drop_what {s : Tokens V B} (t u : Nat) {o : Obj V B} (h : (s.drop t).what u = some o) : s.what u = some o := by
  rw [Tokens.drop] at h
  split at h
  · dsimp only at h
    split at h
    · cases h
    · exact h
  · dsimp only at h
    split at h
    · cases h
    · exact h
  · exact h

theorem drops_what (unused : List Nat) : ∀ {s : Tokens V B} (u : Nat) {o : Obj V B},
    (unused.foldl Tokens.drop s).what u = some o → s.what u = some o := by
  induction unused with
  | nil => exact fun u o h => h
  | cons t unused ih => intro s u o h; exact drop_what t u (ih u h)

theorem pop_what {s s' : Tokens V B} {unused : List Nat} {t : Nat} (h : s.pop unused = some (t, s')) (u : Nat)
    {o : Obj V B} (ho : s'.what u = some o) : s.what u = some o := by
  rw [Tokens.pop] at h
  split at h
  · cases h
  · simp only [Option.some.injEq, Prod.mk.injEq] at h
    obtain ⟨-, rfl⟩ := h
    dsimp only at ho
    rw [Tokens.ready] at ho
    split at ho
    · rw [Tokens.extend] at ho
      split at ho
      · exact drops_what unused u ho
      · exact drops_what unused u ho
    · exact ho

/-- A constant gets a number that stands for it and for nothing else; every number in use keeps its meaning. -/
theorem C258_constant {s s' : Tokens V B} (h : InOrder s) {unused : List Nat} {v : V} {t : Nat}
    (hr : s.symConst unused v = .ok (t, s')) : InOrder s' ∧ s'.what t = some (.const v) ∧
      ∀ u, u ∉ unused → s.what u ≠ none → s'.what u = s.what u := by
  rw [Tokens.symConst] at hr
  split at hr
  · rename_i w hw
    simp only [Except.ok.injEq, Prod.mk.injEq] at hr
    obtain ⟨rfl, rfl⟩ := hr
    exact ⟨h, find_some hw, fun u _ _ => rfl⟩
  · rename_i hnone
    obtain ⟨t1, s1, hp, ⟨fr, h1, h2⟩, h3⟩ := pop_spec h unused
    rw [hp] at hr
    dsimp only at hr
    generalize (if s1.values < t1 then t1 + 1 else s1.values) = vals at hr
    split at hr
    · simp only [Except.ok.injEq, Prod.mk.injEq] at hr
      obtain ⟨rfl, rfl⟩ := hr
      refine ⟨inOrder_give h1 h2 (fun u hu => find_none h hnone u (pop_what hp u hu)) _ _, if_pos rfl, ?_⟩
      intro u hu hu'
      dsimp only
      rw [if_neg, h3 u hu]
      rintro rfl
      rw [← h3 u hu] at hu'
      exact hu' (h1.isFree u (by simp)).2
    · cases hr

/-- The same for lambdas; and a lambda is always made. -/
theorem C258_lambda {s : Tokens V B} (h : InOrder s) (unused : List Nat) (b : B) :
    ∃ t s', s.newLam unused b = .ok (t, s') ∧ InOrder s' ∧ s'.what t = some (.lam b) ∧
      ∀ u, u ∉ unused → s.what u ≠ none → s'.what u = s.what u := by
  rw [Tokens.newLam]
  cases hf : s.find (.lam b) with
  | some w => exact ⟨w, s, rfl, h, find_some hf, fun u _ _ => rfl⟩
  | none =>
    obtain ⟨t1, s1, hp, ⟨fr, h1, h2⟩, h3⟩ := pop_spec h unused
    dsimp only
    rw [hp]
    dsimp only
    have hlt : t1 < (if s1.lambdas ≤ t1 then t1 + 1 else s1.lambdas) := by split <;> omega
    rw [if_pos hlt]
    generalize (if s1.lambdas ≤ t1 then t1 + 1 else s1.lambdas) = lams
    refine ⟨t1, _, rfl, inOrder_give h1 h2 (fun u hu => find_none h hf u (pop_what hp u hu)) _ _, if_pos rfl, ?_⟩
    intro u hu hu'
    dsimp only
    rw [if_neg, h3 u hu]
    rintro rfl
    rw [← h3 u hu] at hu'
    exact hu' (h1.isFree u (by simp)).2

/-- A constant is written outside its table exactly when the number it gets equals the size of the table. -/
theorem C258_outside {s : Tokens V B} (h : InOrder s) {unused : List Nat} {v : V} (hv : s.find (.const v) = none) :
    ∃ t s', s.pop unused = some (t, s') ∧ (s.symConst unused v = .error .ub ↔ t = s'.values) := by
  obtain ⟨t, s', hp, -, -⟩ := pop_spec h unused
  refine ⟨t, s', hp, ?_⟩
  rw [Tokens.symConst, hv]
  dsimp only
  rw [hp]
  dsimp only
  by_cases h1 : s'.values < t
  · rw [if_pos h1, if_pos (by omega)]
    simp; omega
  · rw [if_neg h1]
    by_cases h2 : t < s'.values
    · rw [if_pos h2]; simp; omega
    · rw [if_neg h2]; simp; omega

end

/-- It happens: one constant, sixty-seven lambdas, one more constant. -/
theorem C258_outside_reachable :
    (Tokens.init 22 : Tokens Nat Nat).run
      ((Call.const [] 0 :: (List.range 67).map fun i => Call.lam [] i) ++ [Call.const [] 1]) = .error .ub := by
  have h : ∀ x : Except Err (Tokens Nat Nat), (match x with | .error .ub => true | _ => false) = true → x = .error .ub := by
    intro x hx
    split at hx
    · rfl
    · cases hx
  apply h
  decide +kernel

section
variable {V B : Type} [DecidableEq V] [DecidableEq B]

/-- The invariant of programs without lambdas. -/
structure NoLams (s : Tokens V B) : Prop where
  order : InOrder s
  some_ : 1 ≤ s.size
  vals : s.values ≤ s.size
  freeIn : ∀ t ∈ s.free, t < s.values
  constIn : ∀ t v, s.what t = some (.const v) → t < s.values
  none_ : ∀ t b, s.what t ≠ some (.lam b)

theorem noLams_drop {s : Tokens V B} (h : NoLams s) (t : Nat) : NoLams (s.drop t) := by
  have ho := (inOrder_drop h.order t).1
  have hn : ∀ u b, (s.drop t).what u ≠ some (.lam b) := fun u b hu => h.none_ u b (drop_what t u hu)
  have hc : ∀ u v, (s.drop t).what u = some (.const v) → u < s.values := fun u v hu => h.constIn u v (drop_what t u hu)
  have e : (s.drop t).size = s.size ∧ (s.drop t).values = s.values ∧ ∀ u ∈ (s.drop t).free, u < s.values := by
    rw [Tokens.drop]
    split
    · rename_i v hv
      refine ⟨rfl, rfl, fun u hu => ?_⟩
      rcases List.mem_cons.1 hu with rfl | hu
      · exact h.constIn u v hv
      · exact h.freeIn u hu
    · rename_i b hb
      exact absurd hb (h.none_ t b)
    · exact ⟨rfl, rfl, h.freeIn⟩
  exact ⟨ho, by rw [e.1]; exact h.some_, by rw [e.1, e.2.1]; exact h.vals, by rw [e.2.1]; exact e.2.2,
    by rw [e.2.1]; exact hc, hn⟩

theorem noLams_drops (unused : List Nat) : ∀ {s : Tokens V B}, NoLams s → NoLams (unused.foldl Tokens.drop s) := by
  induction unused with
  | nil => exact fun h => h
  | cons t unused ih => exact fun h => ih (noLams_drop h t)

theorem noLams_const {s : Tokens V B} (h : NoLams s) (unused : List Nat) (v : V) :
    ∃ t s', s.symConst unused v = .ok (t, s') ∧ NoLams s' := by
  rw [Tokens.symConst]
  cases hf : s.find (.const v) with
  | some t => exact ⟨t, s, rfl, h⟩
  | none =>
    obtain ⟨t, s', hp, ⟨fr, h1, h2⟩, -⟩ := pop_spec h.order unused
    dsimp only
    rw [hp]
    dsimp only
    have hfind := fun u hu => find_none h.order hf u (pop_what hp u hu)
    have key : (t < s'.values ∨ s'.values < t) ∧ 1 ≤ s'.size ∧ s'.values ≤ s'.size ∧
        (∀ u ∈ s'.free, u < s'.values ∨ u < t) ∧
        (∀ u w, s'.what u = some (.const w) → u < s'.values) ∧ ∀ u b, s'.what u ≠ some (.lam b) := by
      have base : ∀ {s1 : Tokens V B}, NoLams s1 → s1.free = t :: s'.free → s' = { s1 with free := s'.free } →
          (t < s'.values ∨ s'.values < t) ∧ 1 ≤ s'.size ∧ s'.values ≤ s'.size ∧
          (∀ u ∈ s'.free, u < s'.values ∨ u < t) ∧
          (∀ u w, s'.what u = some (.const w) → u < s'.values) ∧ ∀ u b, s'.what u ≠ some (.lam b) := by
        intro s1 g hfr he
        have e1 : s'.values = s1.values := by rw [he]
        have e2 : s'.size = s1.size := by rw [he]
        have e3 : s'.what = s1.what := by rw [he]
        rw [e1, e2, e3]
        exact ⟨Or.inl (g.freeIn t (by rw [hfr]; simp)), g.some_, g.vals,
          fun u hu => Or.inl (g.freeIn u (by rw [hfr]; simp [hu])), g.constIn, g.none_⟩
      have hp' := hp
      rw [Tokens.pop, Tokens.ready] at hp'
      cases hs : s.free with
      | cons a l =>
        rw [hs] at hp'
        dsimp only at hp'
        rw [hs] at hp'
        simp only [Option.some.injEq, Prod.mk.injEq] at hp'
        obtain ⟨rfl, hp'⟩ := hp'
        subst hp'
        exact base h hs rfl
      | nil =>
        rw [hs] at hp'
        dsimp only at hp'
        have hd := noLams_drops unused h
        rw [Tokens.extend] at hp'
        generalize unused.foldl Tokens.drop s = d at hp' hd
        cases hdf : d.free with
        | cons a l =>
          rw [hdf] at hp'
          dsimp only at hp'
          rw [hdf] at hp'
          simp only [Option.some.injEq, Prod.mk.injEq] at hp'
          obtain ⟨rfl, hp'⟩ := hp'
          subst hp'
          exact base hd hdf rfl
        | nil =>
          rw [hdf] at hp'
          dsimp only at hp'
          have hfree : d.addTokens.free = (d.size + d.size) :: (List.range' d.size d.size).reverse := by
            simp [Tokens.addTokens, hdf, List.range'_concat]
          rw [hfree] at hp'
          simp only [Option.some.injEq, Prod.mk.injEq] at hp'
          obtain ⟨rfl, hp'⟩ := hp'
          have e1 : s'.values = d.values := by rw [← hp']; rfl
          have e2 : s'.size = d.size + d.size + 1 := by rw [← hp']; rfl
          have e3 : s'.what = d.what := by rw [← hp']; rfl
          have e4 : s'.free = (List.range' d.size d.size).reverse := by rw [← hp']
          rw [e1, e2, e3, e4]
          have := hd.vals
          have := hd.some_
          refine ⟨Or.inr (by omega), by omega, by omega, fun u hu => Or.inr ?_, hd.constIn, hd.none_⟩
          have := List.mem_range'_1.1 (List.mem_reverse.1 hu)
          omega
    obtain ⟨k1, k2, k3, k4, k5, k6⟩ := key
    have ht : t < s'.size := (h1.isFree t (by simp)).1
    generalize hvals : (if s'.values < t then t + 1 else s'.values) = vals
    have hv1 : s'.values ≤ vals ∧ t < vals ∧ vals ≤ s'.size := by
      rw [← hvals]; split <;> omega
    rw [if_pos hv1.2.1]
    refine ⟨t, _, rfl, inOrder_give h1 h2 hfind _ _, k2, hv1.2.2, ?_, ?_, ?_⟩
    · intro u hu
      dsimp only at hu ⊢
      rcases k4 u hu with h' | h' <;> omega
    · intro u w hu
      dsimp only at hu ⊢
      split at hu
      · omega
      · have := k5 u w hu
        omega
    · intro u b hu
      dsimp only at hu
      split at hu
      · cases hu
      · exact k6 u b hu

theorem inOrder_var {s : Tokens V B} (h : InOrder s) : InOrder s.addVar where
  nodup := h.nodup
  isFree := by
    intro t ht
    have h1 := h.isFree t ht
    simp only [Tokens.addVar]
    exact ⟨by omega, by rw [if_neg (by omega)]; exact h1.2⟩
  inside := by
    intro t ht
    simp only [Tokens.addVar] at ht ⊢
    rw [if_neg (by omega)]
    exact h.inside t (by omega)
  once := by
    intro t u o h1 h2 h3
    simp only [Tokens.addVar] at h1 h2
    split at h1
    · exact absurd (Option.some.inj h1).symm h3
    · split at h2
      · exact absurd (Option.some.inj h2).symm h3
      · exact h.once t u o h1 h2 h3

/-- Whatever is called in whatever order, the table stays in order as long as no constant is written outside. -/
theorem C258_sequence (builtins : Nat) (cs : List (Call V B)) {s' : Tokens V B}
    (hr : (Tokens.init builtins : Tokens V B).run cs = .ok s') : InOrder s' := by
  have key : ∀ (cs : List (Call V B)) (s : Tokens V B), InOrder s → s.run cs = .ok s' → InOrder s' := by
    intro cs
    induction cs with
    | nil =>
      intro s h hr
      rw [Tokens.run] at hr
      exact Except.ok.inj hr ▸ h
    | cons c cs ih =>
      intro s h hr
      rw [Tokens.run] at hr
      cases hc : s.call c with
      | error e => rw [hc] at hr; cases hr
      | ok s1 =>
        rw [hc] at hr
        refine ih s1 ?_ hr
        cases c with
        | const unused v =>
          rw [Tokens.call] at hc
          cases hs : s.symConst unused v with
          | error e => rw [hs] at hc; cases hc
          | ok r =>
            rw [hs] at hc
            exact Except.ok.inj hc ▸ (C258_constant h (t := r.1) (s' := r.2) hs).1
        | lam unused b =>
          rw [Tokens.call] at hc
          obtain ⟨t, s2, e, h2, -⟩ := C258_lambda h unused b
          rw [e] at hc
          exact Except.ok.inj hc ▸ h2
        | var => exact Except.ok.inj hc ▸ inOrder_var h
        | drop t => exact Except.ok.inj hc ▸ (inOrder_drop h t).1
  exact key cs _ (inOrder_init _) hr

theorem noLams_var {s : Tokens V B} (h : NoLams s) : NoLams s.addVar where
  order := inOrder_var h.order
  some_ := by simp [Tokens.addVar]
  vals := by have := h.vals; simp only [Tokens.addVar]; omega
  freeIn := h.freeIn
  constIn := by
    intro t v ht
    simp only [Tokens.addVar] at ht ⊢
    split at ht
    · cases ht
    · exact h.constIn t v ht
  none_ := by
    intro t b ht
    simp only [Tokens.addVar] at ht
    split at ht
    · cases ht
    · exact h.none_ t b ht

/-- A program that makes no lambdas never writes outside the table, whatever constants and variables it makes and
whatever is freed. -/
theorem C258_no_lambdas (builtins : Nat) (hb : 1 ≤ builtins) (cs : List (Call V B))
    (hc : ∀ c ∈ cs, ∀ unused b, c ≠ .lam unused b) :
    ∃ s', (Tokens.init builtins : Tokens V B).run cs = .ok s' ∧ InOrder s' := by
  have key : ∀ (cs : List (Call V B)) (s : Tokens V B), NoLams s → (∀ c ∈ cs, ∀ unused b, c ≠ .lam unused b) →
      ∃ s', s.run cs = .ok s' ∧ InOrder s' := by
    intro cs
    induction cs with
    | nil => exact fun s h _ => ⟨s, rfl, h.order⟩
    | cons c cs ih =>
      intro s h hc
      have hc' : ∀ c ∈ cs, ∀ unused b, c ≠ .lam unused b := fun d hd => hc d (by simp [hd])
      cases c with
      | const unused v =>
        obtain ⟨t, s', e, h'⟩ := noLams_const h unused v
        rw [Tokens.run, Tokens.call, e]
        exact ih s' h' hc'
      | lam unused b => exact absurd rfl (hc _ (by simp) unused b)
      | var => rw [Tokens.run, Tokens.call]; exact ih _ (noLams_var h) hc'
      | drop t => rw [Tokens.run, Tokens.call]; exact ih _ (noLams_drop h t) hc'
  refine key cs _ ⟨inOrder_init _, hb, Nat.zero_le _, (by intro t ht; cases ht), ?_, ?_⟩ hc
  · intro t v ht
    simp only [Tokens.init] at ht
    split at ht <;> cases ht
  · intro t b ht
    simp only [Tokens.init] at ht
    split at ht <;> cases ht

example : InOrder (Tokens.init 22 : Tokens Nat Nat) := inOrder_init 22

end

end Paradiseo.MathSym
