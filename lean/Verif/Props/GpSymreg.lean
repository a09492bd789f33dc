/-
C353, C354: the symbolic regression application.
-/
import Verif.Model.GpSymreg
import Mathlib.Data.List.Induction
import Mathlib.Tactic.Ring

namespace Paradiseo.GpSymreg

/-! ### C353: what is reported -/

/-- What a reader of formulas does with what it reads. -/
structure Meaning (β : Type) where
  x : β
  lit : Nat → β
  neg : β → β
  sin : β → β
  cos : β → β
  fn : Char → β → β → β
  op : Char → β → β → β

/-- A reader of formulas: `X`, numerals, `-(a)`, `sin(a)`, `cos(a)`, `plus(a,b)`, ..., `(a+b)`, ... -/
def read {β : Type} (M : Meaning β) : Nat → List Char → Option (β × List Char)
  | 0, _ => none
  | n + 1, s =>
    let un (f : β → β) (s : List Char) : Option (β × List Char) :=
      match read M n s with
      | some (a, ')' :: s) => some (f a, s)
      | _ => none
    let bin (f : β → β → β) (s : List Char) : Option (β × List Char) :=
      match read M n s with
      | some (a, ',' :: s) =>
        match read M n s with
        | some (b, ')' :: s) => some (f a b, s)
        | _ => none
      | _ => none
    match s with
    | 'X' :: s => some (M.x, s)
    | '2' :: s => some (M.lit 2, s)
    | '4' :: s => some (M.lit 4, s)
    | '6' :: s => some (M.lit 6, s)
    | '-' :: '(' :: s => un M.neg s
    | 's' :: 'i' :: 'n' :: '(' :: s => un M.sin s
    | 'c' :: 'o' :: 's' :: '(' :: s => un M.cos s
    | 'p' :: 'l' :: 'u' :: 's' :: '(' :: s => bin (M.fn '+') s
    | 'm' :: 'i' :: 'n' :: 'u' :: 's' :: '(' :: s => bin (M.fn '-') s
    | 'm' :: 'u' :: 'l' :: 't' :: 'i' :: 'p' :: 'l' :: 'y' :: '(' :: s => bin (M.fn '*') s
    | 'd' :: 'i' :: 'v' :: 'i' :: 'd' :: 'e' :: '(' :: s => bin (M.fn '/') s
    | '(' :: s =>
      match read M n s with
      | some (a, c :: s) =>
        match read M n s with
        | some (b, ')' :: s) => if c ∈ ['+', '-', '*', '/'] then some (M.op c a b, s) else none
        | _ => none
      | _ => none
    | _ => none

/-- A tree with its nodes replaced by meanings. -/
def Tree.fold {β : Type} (M : Meaning β) : Tree → β
  | .x => M.x
  | .const k => M.lit (2 * (k.val + 1))
  | .un .neg a => M.neg (a.fold M)
  | .un .sin a => M.sin (a.fold M)
  | .un .cos a => M.cos (a.fold M)
  | .fn f a b => M.fn f.sign (a.fold M) (b.fold M)
  | .op f a b => M.op f.sign (a.fold M) (b.fold M)

theorem read_text {β : Type} (M : Meaning β) :
    ∀ (t : Tree) (n : Nat) (s : List Char), t.size ≤ n → read M n (t.text ++ s) = some (t.fold M, s)
  | t, 0, s, h => by cases t <;> simp [Tree.size] at h
  | .x, n + 1, s, _ => rfl
  | .const k, n + 1, s, _ => by
    match k with
    | 0 => rfl
    | 1 => rfl
    | 2 => rfl
  | .un f a, n + 1, s, h => by
    have ih := read_text M a n (')' :: s) (by simp [Tree.size] at h; omega)
    have e : (Tree.un f a).text ++ s = f.label ++ '(' :: (a.text ++ ')' :: s) := by simp [Tree.text]
    rw [e]
    cases f <;> simp [Un.label, read, ih, Tree.fold]
  | .fn f a b, n + 1, s, h => by
    have ih1 := read_text M a n (',' :: (b.text ++ ')' :: s)) (by simp [Tree.size] at h; omega)
    have ih2 := read_text M b n (')' :: s) (by simp [Tree.size] at h; omega)
    have e : (Tree.fn f a b).text ++ s = f.label ++ '(' :: (a.text ++ ',' :: (b.text ++ ')' :: s)) := by simp [Tree.text]
    rw [e]
    cases f <;> simp [Bin.label, Bin.sign, read, ih1, ih2, Tree.fold]
  | .op f a b, n + 1, s, h => by
    have ih1 := read_text M a n (f.sign :: (b.text ++ ')' :: s)) (by simp [Tree.size] at h; omega)
    have ih2 := read_text M b n (')' :: s) (by simp [Tree.size] at h; omega)
    have e : (Tree.op f a b).text ++ s = '(' :: (a.text ++ f.sign :: (b.text ++ ')' :: s)) := by simp [Tree.text]
    rw [e]
    cases f <;> simp only [Bin.sign] at ih1 <;> simp [read, ih1, ih2, Bin.sign, Tree.fold]

/-- The operation a sign stands for. -/
def opOf (c : Char) : Bin := if c = '+' then .plus else if c = '-' then .minus else if c = '*' then .times else .divide

/-- Reading a formula as itself. -/
def asTree : Meaning Tree where
  x := .x
  lit n := .const (if n = 2 then 0 else if n = 4 then 1 else 2)
  neg := .un .neg
  sin := .un .sin
  cos := .un .cos
  fn c := .fn (opOf c)
  op c := .op (opOf c)

/-- Reading a formula as a number, `v` for `X`: the usual operations, except that dividing by zero gives zero. -/
def asNumber {D : Type} (A : Arith D) (v : D) : Meaning D :=
  let bin (c : Char) (a b : D) : D :=
    if c = '+' then A.add a b else if c = '-' then A.sub a b else if c = '*' then A.mul a b
    else if A.isZero b then A.ofRat 0 else A.div a b
  { x := v, lit := fun n => A.ofRat n, neg := A.neg, sin := A.sin, cos := A.cos, fn := bin, op := bin }

theorem fold_asTree : ∀ t : Tree, t.fold asTree = t
  | .x => rfl
  | .const k => by
    match k with
    | 0 => rfl
    | 1 => rfl
    | 2 => rfl
  | .un f a => by cases f <;> simp only [Tree.fold, fold_asTree a] <;> rfl
  | .fn f a b => by cases f <;> simp only [Tree.fold, fold_asTree a, fold_asTree b] <;> rfl
  | .op f a b => by cases f <;> simp only [Tree.fold, fold_asTree a, fold_asTree b] <;> rfl

theorem fold_asNumber {D : Type} (A : Arith D) (v : D) : ∀ t : Tree, t.fold (asNumber A v) = t.eval A v
  | .x => rfl
  | .const k => by simp [Tree.fold, Tree.eval, asNumber]
  | .un f a => by cases f <;> simp only [Tree.fold, fold_asNumber A v a] <;> rfl
  | .fn f a b => by cases f <;> simp only [Tree.fold, fold_asNumber A v a, fold_asNumber A v b] <;> rfl
  | .op f a b => by cases f <;> simp only [Tree.fold, fold_asNumber A v a, fold_asNumber A v b] <;> rfl

/-- **C353** (formulas).  The text of a formula can be read back: two different formulas never have the same text. -/
theorem C353_text (a b : Tree) :
    (∀ s, read asTree a.size (a.text ++ s) = some (a, s)) ∧ (a.text = b.text → a = b) := by
  have key (t : Tree) (n : Nat) (s : List Char) (h : t.size ≤ n) : read asTree n (t.text ++ s) = some (t, s) := by
    rw [read_text asTree t n s h, fold_asTree]
  refine ⟨fun s => key a _ s le_rfl, fun h => ?_⟩
  have h1 := key a (max a.size b.size) [] (by omega)
  have h2 := key b (max a.size b.size) [] (by omega)
  rw [h, h2] at h1
  simp only [Option.some.injEq, Prod.mk.injEq, and_true] at h1
  exact h1.symm

/-- **C353** (values).  What the application computes for a formula is what its text says. -/
theorem C353_value {D : Type} (A : Arith D) (v : D) (t : Tree) :
    read (asNumber A v) t.size t.text = some (t.eval A v, []) := by
  have := read_text (asNumber A v) t t.size [] le_rfl
  rwa [List.append_nil, fold_asNumber] at this

/-- `(X*(X+2))` and `divide(sin(X),-(4))`. -/
example :
    (Tree.op .times .x (.op .plus .x (.const 0))).text = "(X*(X+2))".toList ∧
    (Tree.fn .divide (.un .sin .x) (.un .neg (.const 1))).text = "divide(sin(X),-(4))".toList := by decide

variable {D : Type}

/-- The comparison is a strict one of numbers, except that NaNs are not less than anything and nothing is less than they. -/
structure Numbers (A : Arith D) (nan : D → Prop) : Prop where
  irrefl : ∀ a, A.lt a a = false
  trans : ∀ a b c, A.lt a b = true → A.lt b c = true → A.lt a c = true
  total : ∀ a b c, ¬ nan a → ¬ nan b → ¬ nan c → A.lt a b = false → A.lt b c = false → A.lt a c = false
  nanl : ∀ a b, nan a → A.lt a b = false
  nanr : ∀ a b, nan a → A.lt b a = false
  lit : ¬ nan (A.ofRat 1000)

/-- **C353** (the best formula).  Whatever has been evaluated, the formula reported at the end is the first one of those with the smallest
error of all that were evaluated, if one had an error below 1000, and none otherwise. -/
theorem C353_best (A : Arith D) (nan : D → Prop) (hA : Numbers A nan) (maxSize : Nat) (ts : List Tree) :
    ((evaluateAll A maxSize ts).tree = none ↔ ∀ t ∈ ts, A.lt (error A t) (A.ofRat 1000) = false) ∧
    ∀ t, (evaluateAll A maxSize ts).tree = some t →
      (evaluateAll A maxSize ts).value = error A t ∧ A.lt (error A t) (A.ofRat 1000) = true ∧
      ∃ before after, ts = before ++ t :: after ∧ (∀ u ∈ ts, A.lt (error A u) (error A t) = false) ∧
        ∀ u ∈ before, nan (error A u) ∨ A.lt (error A t) (error A u) = true := by
  have key : ∀ ts : List Tree,
      ((evaluateAll A maxSize ts).tree = none → (evaluateAll A maxSize ts).value = A.ofRat 1000 ∧
        ∀ t ∈ ts, A.lt (error A t) (A.ofRat 1000) = false) ∧
      ∀ t, (evaluateAll A maxSize ts).tree = some t →
        (evaluateAll A maxSize ts).value = error A t ∧ A.lt (error A t) (A.ofRat 1000) = true ∧
        ∃ before after, ts = before ++ t :: after ∧ (∀ u ∈ ts, A.lt (error A u) (error A t) = false) ∧
          ∀ u ∈ before, nan (error A u) ∨ A.lt (error A t) (error A u) = true := by
    intro ts
    induction ts using List.reverseRecOn with
    | nil => exact ⟨fun _ => ⟨rfl, by simp⟩, fun t h => by simp [evaluateAll, Best.start] at h⟩
    | append_singleton ts u ih =>
      have e : evaluateAll A maxSize (ts ++ [u]) =
          if A.lt (error A u) (evaluateAll A maxSize ts).value then ⟨error A u, some u⟩ else evaluateAll A maxSize ts := by
        unfold evaluateAll
        rw [List.foldl_append]
        rfl
      rw [e]
      obtain ⟨ih1, ih2⟩ := ih
      by_cases hlt : A.lt (error A u) (evaluateAll A maxSize ts).value = true
      · rw [if_pos hlt]
        have hnu : ¬ nan (error A u) := fun h => by rw [hA.nanl _ _ h] at hlt; simp at hlt
        refine ⟨fun h => by simp at h, fun t ht => ?_⟩
        simp only [Option.some.injEq] at ht
        subst ht
        cases ht : (evaluateAll A maxSize ts).tree with
        | none =>
          obtain ⟨h1, h2⟩ := ih1 ht
          rw [h1] at hlt
          refine ⟨rfl, hlt, ts, [], rfl, ?_, fun v hv => ?_⟩
          rotate_left
          · by_cases hnv : nan (error A v)
            · exact .inl hnv
            · right
              cases hc : A.lt (error A u) (error A v) with
              | true => rfl
              | false =>
                have := hA.total _ _ _ hnu hnv hA.lit hc (h2 v hv)
                rw [hlt] at this
                simp at this
          intro v hv
          rcases List.mem_append.1 hv with hv | hv
          · cases hc : A.lt (error A v) (error A u) with
            | false => rfl
            | true =>
              have := hA.trans _ _ _ hc hlt
              rw [h2 v hv] at this
              simp at this
          · rw [List.mem_singleton.1 hv]; exact hA.irrefl _
        | some t =>
          obtain ⟨h1, h2, before, after, h3, h4, h5⟩ := ih2 t ht
          rw [h1] at hlt
          have hnt : ¬ nan (error A t) := fun h => by rw [hA.nanl _ _ h] at h2; simp at h2
          have h6 : A.lt (error A u) (A.ofRat 1000) = true := hA.trans _ _ _ hlt h2
          refine ⟨rfl, h6, ts, [], rfl, ?_, ?_⟩
          · intro v hv
            rcases List.mem_append.1 hv with hv | hv
            · cases hc : A.lt (error A v) (error A u) with
              | false => rfl
              | true =>
                have := hA.trans _ _ _ hc hlt
                rw [h4 v hv] at this
                simp at this
            · rw [List.mem_singleton.1 hv]; exact hA.irrefl _
          · intro v hv
            by_cases hnv : nan (error A v)
            · exact .inl hnv
            · right
              cases hc : A.lt (error A u) (error A v) with
              | true => rfl
              | false =>
                have := hA.total _ _ _ hnu hnv hnt hc (h4 v hv)
                rw [hlt] at this
                simp at this
      · rw [if_neg hlt]
        have hlt' : A.lt (error A u) (evaluateAll A maxSize ts).value = false := by simpa using hlt
        refine ⟨fun h => ?_, fun t ht => ?_⟩
        · obtain ⟨h1, h2⟩ := ih1 h
          refine ⟨h1, fun v hv => ?_⟩
          rcases List.mem_append.1 hv with hv | hv
          · exact h2 v hv
          · rw [List.mem_singleton.1 hv, ← h1]; exact hlt'
        · obtain ⟨h1, h2, before, after, h3, h4, h5⟩ := ih2 t ht
          refine ⟨h1, h2, before, after ++ [u], by rw [h3]; simp, ?_, h5⟩
          intro v hv
          rcases List.mem_append.1 hv with hv | hv
          · exact h4 v hv
          · rw [List.mem_singleton.1 hv, ← h1]; exact hlt'
  obtain ⟨h1, h2⟩ := key ts
  refine ⟨⟨fun h => (h1 h).2, fun h => ?_⟩, h2⟩
  cases ht : (evaluateAll A maxSize ts).tree with
  | none => rfl
  | some t =>
    obtain ⟨_, g2, before, after, g3, _⟩ := h2 t ht
    have := h t (by rw [g3]; simp)
    rw [g2] at this
    simp at this

/-! ### C354: the points -/

/-- **C354** (the points).  The error is taken at twenty points, not at the twenty-one from -1 to 1 in steps of a tenth: the counter is
rounded to single precision in each step, and the twentieth step gets beyond 1. -/
theorem C354_points : points.length = 20 ∧ points.head? = some (-1) ∧ points.getLast? = some (15099497 / 16777216) ∧
    step (15099497 / 16777216) = 8388609 / 8388608 ∧ (0 : Rat) ∉ points ∧ ∀ x ∈ points, x < 91 / 100 := by
  decide +kernel

/-- **C354** (what is fitted).  So the error of a formula depends only on its values at these twenty points; what it is at 1, or in between, does
not matter. -/
theorem C354_error (A : Arith D) (t u : Tree) (h : ∀ x ∈ points, t.eval A (A.ofRat x) = u.eval A (A.ofRat x)) :
    error A t = error A u := by
  unfold error
  have : ∀ (l : List Rat) (a : D), (∀ x ∈ l, t.eval A (A.ofRat x) = u.eval A (A.ofRat x)) →
      l.foldl (fun fit x => A.add fit (A.pow (A.sub (sextic A (A.ofRat x)) (t.eval A (A.ofRat x))) 2)) a =
      l.foldl (fun fit x => A.add fit (A.pow (A.sub (sextic A (A.ofRat x)) (u.eval A (A.ofRat x))) 2)) a := by
    intro l
    induction l with
    | nil => intros; rfl
    | cons x l ih =>
      intro a hl
      rw [List.foldl_cons, List.foldl_cons, hl x (by simp)]
      exact ih _ fun y hy => hl y (List.mem_cons_of_mem _ hy)
  exact this _ _ h

/-- **C354** (objectives).  The two objectives of a tree are its error and the share of the permitted size it takes, neither depending on what was
evaluated before; the size can be counted in the text, by its letters `X`, numerals and opening parentheses. -/
theorem C354_objectives (A : Arith D) (maxSize : Nat) (b c : Best D) (t : Tree) :
    (evaluate A maxSize b t).1 = (evaluate A maxSize c t).1 ∧ (evaluate A maxSize b t).1.1 = error A t ∧
    (evaluate A maxSize b t).1.2 = A.div (A.ofRat t.size) (A.mul (A.ofRat 1) (A.ofRat maxSize)) ∧
    t.size = (t.text.filter fun c => c ∈ ['X', '2', '4', '6', '(']).length := by
  refine ⟨rfl, rfl, rfl, ?_⟩
  have key : ∀ t : Tree, t.size = (t.text.filter fun c => c ∈ ['X', '2', '4', '6', '(']).length := by
    intro t
    induction t with
    | x => rfl
    | const k =>
      match k with
      | 0 => rfl
      | 1 => rfl
      | 2 => rfl
    | un f a ih => cases f <;> simp [Tree.text, Un.label, Tree.size, ih]
    | fn f a b ih1 ih2 => cases f <;> simp [Tree.text, Bin.label, Tree.size, ih1, ih2]
    | op f a b ih1 ih2 => cases f <;> simp [Tree.text, Bin.sign, Tree.size, ih1, ih2]
  exact key t

/-- Exact arithmetic, with 0 in place of sine and cosine; no number is a NaN. -/
def ratArith : Arith Rat :=
  ⟨id, (· + ·), (· - ·), (· * ·), (· / ·), fun a => a == 0, (- ·), fun _ => 0, fun _ => 0, (· ^ ·), fun a b => decide (a < b)⟩

example : Numbers ratArith (fun _ => False) where
  irrefl a := by simp [ratArith]
  trans a b c := by simp only [ratArith, decide_eq_true_eq]; exact lt_trans
  total a b c _ _ _ := by
    simp only [ratArith, decide_eq_false_iff_not, not_lt]
    exact fun h1 h2 => le_trans h2 h1
  nanl a b h := h.elim
  nanr a b h := h.elim
  lit := id

/-- **C354** (target).  The target is `x²(x²-1)²`. -/
theorem C354_target (x : Rat) : sextic ratArith x = x ^ 2 * (x ^ 2 - 1) ^ 2 := by
  simp only [sextic, ratArith, id]
  ring

/-- A formula that is not the polynomial, but has the value of the polynomial at all twenty points, could be reported with error 0; the polynomial
itself, `X*X*(X*X-1)*(X*X-1)` written with the available nodes, has error 0 in exact arithmetic. -/
example :
    let xx := Tree.op .times .x .x
    let y := Tree.op .minus xx (.op .divide .x .x)
    error ratArith (.op .times xx (.op .times y y)) = 0 ∧
    (evaluateAll ratArith 100 [.const 0, .x, .op .times xx (.op .times y y), .x]).tree = some (.op .times xx (.op .times y y)) := by
  decide +kernel

end Paradiseo.GpSymreg
