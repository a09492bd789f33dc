import Verif.Model.Gp
import Mathlib.Data.List.Chain
import Mathlib.Data.List.Nodup
import Mathlib.Data.List.Count
import Mathlib.Tactic.Linarith

/-!
# Specification and helper lemmas for genetic programming
-/

namespace Paradiseo.Gp

variable {α : Type}

/-! ### What a tree is, without what it remembers -/

mutual
/-- The number of nodes. -/
def count : Sub α → Nat
  | .mk _ _ _ _ as => 1 + countL as
def countL : List (Sub α) → Nat
  | [] => 0
  | t :: ts => count t + countL ts
end

mutual
/-- The number of levels. -/
def height : Sub α → Nat
  | .mk _ _ _ _ as => 1 + heightL as
def heightL : List (Sub α) → Nat
  | [] => 0
  | t :: ts => max (height t) (heightL ts)
end

mutual
/-- The sum over all nodes of the number of nodes below. -/
def total : Sub α → Nat
  | .mk _ _ _ _ as => 1 + countL as + totalL as
def totalL : List (Sub α) → Nat
  | [] => 0
  | t :: ts => total t + totalL ts
end

mutual
/-- The nodes in the documented order: the arguments from the last to the first, then the node. -/
def post : Sub α → List α
  | .mk a _ _ _ as => postL as ++ [a]
def postL : List (Sub α) → List α
  | [] => []
  | t :: ts => postL ts ++ post t
end

mutual
/-- The places in the same order. -/
def places : Sub α → List (List Nat)
  | .mk _ _ _ _ as => placesL 0 as ++ [[]]
def placesL : Nat → List (Sub α) → List (List Nat)
  | _, [] => []
  | k, t :: ts => placesL (k + 1) ts ++ (places t).map (k :: ·)
end

/-- What is remembered is right everywhere, and every node has as many arguments as its arity. -/
def Exact (ar : α → Nat) (t : Sub α) : Prop :=
  ∀ p u, t.at? p = some u →
    u.size = count u ∧ u.depth = height u ∧ u.cum = total u ∧ u.args.length = ar u.val

/-! ### Induction -/

theorem Sub.ind {P : Sub α → Prop} (h : ∀ a s d c as, (∀ t ∈ as, P t) → P (.mk a s d c as)) : ∀ t, P t := by
  intro t
  refine Sub.rec (motive_1 := P) (motive_2 := fun l => ∀ t ∈ l, P t) (fun a s d c as ih => h a s d c as ih)
    (by simp) (fun t ts h1 h2 => ?_) t
  intro u hu
  rcases List.mem_cons.mp hu with rfl | hu
  · exact h1
  · exact h2 u hu

theorem Sub.eta (t : Sub α) : t = .mk t.val t.size t.depth t.cum t.args := by cases t; rfl

@[simp] theorem at_nil (t : Sub α) : t.at? [] = some t := by cases t; simp [Sub.at?]

theorem at_cons (t : Sub α) (k : Nat) (p : List Nat) :
    t.at? (k :: p) = (t.args[k]?).bind (fun u => u.at? p) := by
  cases t with
  | mk a s d c as =>
    show (match as[k]? with | none => none | some t => t.at? p) = (as[k]?).bind fun u => u.at? p
    cases as[k]? <;> rfl

theorem at_append (t : Sub α) (p q : List Nat) :
    t.at? (p ++ q) = (t.at? p).bind fun u => u.at? q := by
  induction p generalizing t with
  | nil => simp
  | cons k p ih =>
    rw [List.cons_append, at_cons, at_cons]
    cases h : t.args[k]? with
    | none => rfl
    | some u => simp [ih]

theorem count_eq (t : Sub α) : count t = 1 + countL t.args := by cases t; rfl
theorem height_eq (t : Sub α) : height t = 1 + heightL t.args := by cases t; rfl
theorem total_eq (t : Sub α) : total t = 1 + countL t.args + totalL t.args := by cases t; rfl
theorem post_eq (t : Sub α) : post t = postL t.args ++ [t.val] := by cases t; rfl
theorem places_eq (t : Sub α) : places t = placesL 0 t.args ++ [[]] := by cases t; rfl

theorem count_pos (t : Sub α) : 0 < count t := by rw [count_eq]; omega

theorem exact_iff (ar : α → Nat) (t : Sub α) :
    Exact ar t ↔ (t.size = count t ∧ t.depth = height t ∧ t.cum = total t ∧ t.args.length = ar t.val) ∧
      ∀ u ∈ t.args, Exact ar u := by
  constructor
  · intro h
    refine ⟨h [] t (by simp), ?_⟩
    intro u hu p v hv
    obtain ⟨k, hk, rfl⟩ := List.getElem_of_mem hu
    refine h (k :: p) v ?_
    rw [at_cons, List.getElem?_eq_getElem hk]
    exact hv
  · rintro ⟨h1, h2⟩ p
    cases p with
    | nil => intro u hu; simp at hu; subst hu; exact h1
    | cons k p =>
      intro u hu
      rw [at_cons] at hu
      cases hk : t.args[k]? with
      | none => simp [hk] at hu
      | some v =>
        rw [hk] at hu
        exact h2 v (List.mem_of_getElem? hk) p u hu

theorem Exact.at {ar : α → Nat} {t u : Sub α} (h : Exact ar t) {p : List Nat} (hp : t.at? p = some u) :
    Exact ar u := by
  intro q v hv
  exact h (p ++ q) v (by rw [at_append, hp]; exact hv)

@[simp] theorem refresh_val (a : α) (as : List (Sub α)) : (refresh a as).val = a := rfl
@[simp] theorem refresh_args (a : α) (as : List (Sub α)) : (refresh a as).args = as := rfl

theorem sum_size {ar : α → Nat} (as : List (Sub α)) (h : ∀ u ∈ as, Exact ar u) :
    (as.map Sub.size).sum = countL as := by
  induction as with
  | nil => rfl
  | cons t ts ih =>
    simp only [List.map_cons, List.sum_cons, countL]
    rw [ih (fun u hu => h u (List.mem_cons_of_mem _ hu)), ((exact_iff ar t).mp (h t (by simp))).1.1]

theorem sum_cum {ar : α → Nat} (as : List (Sub α)) (h : ∀ u ∈ as, Exact ar u) :
    (as.map Sub.cum).sum = totalL as := by
  induction as with
  | nil => rfl
  | cons t ts ih =>
    simp only [List.map_cons, List.sum_cons, totalL]
    rw [ih (fun u hu => h u (List.mem_cons_of_mem _ hu)), ((exact_iff ar t).mp (h t (by simp))).1.2.2.1]

theorem fold_depth {ar : α → Nat} (as : List (Sub α)) (h : ∀ u ∈ as, Exact ar u) (n : Nat) :
    as.foldl (fun d t => max d t.depth) n = max n (heightL as) := by
  induction as generalizing n with
  | nil => simp [heightL]
  | cons t ts ih =>
    simp only [List.foldl_cons, heightL]
    rw [ih (fun u hu => h u (List.mem_cons_of_mem _ hu)), ((exact_iff ar t).mp (h t (by simp))).1.2.1]
    omega

theorem exact_refresh {ar : α → Nat} {a : α} {as : List (Sub α)} (hl : as.length = ar a)
    (h : ∀ u ∈ as, Exact ar u) : Exact ar (refresh a as) := by
  rw [exact_iff]
  refine ⟨⟨?_, ?_, ?_, hl⟩, h⟩
  · show 1 + (as.map Sub.size).sum = 1 + countL as
    rw [sum_size as h]
  · show as.foldl (fun d t => max d t.depth) 0 + 1 = 1 + heightL as
    rw [fold_depth as h]; omega
  · show (as.map Sub.cum).sum + (1 + (as.map Sub.size).sum) = 1 + countL as + totalL as
    rw [sum_size as h, sum_cum as h]; omega

theorem refresh_self {ar : α → Nat} {t : Sub α} (h : Exact ar t) : refresh t.val t.args = t := by
  obtain ⟨⟨h1, h2, h3, _⟩, h5⟩ := (exact_iff ar t).mp h
  cases t with
  | mk a s d c as =>
    have e : refresh a as = .mk a (1 + (as.map Sub.size).sum) (as.foldl (fun d t => max d t.depth) 0 + 1)
        ((as.map Sub.cum).sum + (1 + (as.map Sub.size).sum)) as := rfl
    show refresh a as = _
    rw [e, sum_size as h5, fold_depth as h5, sum_cum as h5]
    simp only [Sub.size, Sub.depth, Sub.cum, count, height, total, Sub.args] at h1 h2 h3
    subst h1 h2 h3
    congr 1
    · omega
    · omega

/-! ### Places -/

theorem placesL_shift (k : Nat) (as : List (Sub α)) :
    placesL (k + 1) as = (placesL k as).map (fun p => match p with | [] => [] | i :: q => (i + 1) :: q) := by
  induction as generalizing k with
  | nil => rfl
  | cons t ts ih =>
    simp only [placesL, List.map_append, List.map_map]
    rw [ih (k + 1)]
    congr 1

theorem length_placesL (as : List (Sub α)) (h : ∀ t ∈ as, (places t).length = count t) (k : Nat) :
    (placesL k as).length = countL as := by
  induction as generalizing k with
  | nil => rfl
  | cons t ts ih =>
    simp only [placesL, countL, List.length_append, List.length_map]
    rw [ih (fun u hu => h u (List.mem_cons_of_mem _ hu)), h t (by simp)]
    omega

theorem length_places (t : Sub α) : (places t).length = count t := by
  induction t using Sub.ind with | h a s d c as ih => ?_
  simp only [places, count, List.length_append, List.length_singleton]
  rw [length_placesL as ih]
  omega

theorem mem_placesL (as : List (Sub α)) (k : Nat) (p : List Nat) :
    p ∈ placesL k as ↔ ∃ i q t, p = (k + i) :: q ∧ as[i]? = some t ∧ q ∈ places t := by
  induction as generalizing k with
  | nil => simp [placesL]
  | cons t ts ih =>
    simp only [placesL, List.mem_append, List.mem_map, ih]
    constructor
    · rintro (⟨i, q, u, rfl, h1, h2⟩ | ⟨q, h1, rfl⟩)
      · exact ⟨i + 1, q, u, by congr 1; omega, by simpa using h1, h2⟩
      · exact ⟨0, q, t, rfl, rfl, h1⟩
    · rintro ⟨i, q, u, rfl, h1, h2⟩
      cases i with
      | zero =>
        simp at h1
        subst h1
        exact Or.inr ⟨q, h2, rfl⟩
      | succ i => exact Or.inl ⟨i, q, u, by congr 1; omega, by simpa using h1, h2⟩

theorem mem_places (t : Sub α) (p : List Nat) : p ∈ places t ↔ (t.at? p).isSome := by
  induction t using Sub.ind generalizing p with | h a s d c as ih => ?_
  simp only [places, List.mem_append, List.mem_singleton, mem_placesL]
  cases p with
  | nil => simp
  | cons k p =>
    rw [at_cons]
    simp only [Sub.args, reduceCtorEq, or_false, Nat.zero_add, List.cons.injEq]
    constructor
    · rintro ⟨i, q, u, ⟨rfl, rfl⟩, h1, h2⟩
      rw [h1]
      exact (ih u (List.mem_of_getElem? h1) _).mp h2
    · intro h
      cases hk : as[k]? with
      | none => simp [hk] at h
      | some u =>
        rw [hk] at h
        exact ⟨k, p, u, ⟨rfl, rfl⟩, hk, (ih u (List.mem_of_getElem? hk) p).mpr h⟩

theorem nodup_placesL (as : List (Sub α)) (h : ∀ t ∈ as, (places t).Nodup) (k : Nat) : (placesL k as).Nodup := by
  induction as generalizing k with
  | nil => simp [placesL]
  | cons t ts ih =>
    simp only [placesL]
    rw [List.nodup_append]
    refine ⟨ih (fun u hu => h u (List.mem_cons_of_mem _ hu)) (k + 1), ?_, ?_⟩
    · exact (h t (by simp)).map (fun x y e => (List.cons.inj e).2)
    · intro x hx y hy e
      subst e
      obtain ⟨i, q, u, rfl, _, _⟩ := (mem_placesL ts (k + 1) x).mp hx
      obtain ⟨q', _, e⟩ := List.mem_map.mp hy
      have := (List.cons.inj e).1
      omega

theorem nodup_places (t : Sub α) : (places t).Nodup := by
  induction t using Sub.ind with | h a s d c as ih => ?_
  simp only [places]
  rw [List.nodup_append]
  refine ⟨nodup_placesL as ih 0, by simp, ?_⟩
  intro x hx y hy e
  subst e
  obtain ⟨i, q, u, e, _, _⟩ := (mem_placesL as 0 x).mp hx
  simp at hy
  simp [hy] at e

/-- The labels at the places are the nodes in order. -/
theorem post_placesL (as : List (Sub α))
    (h : ∀ t ∈ as, post t = (places t).filterMap fun p => (t.at? p).map Sub.val) (pre : List (Sub α)) :
    postL as = (placesL pre.length as).filterMap fun p =>
      match p with
      | [] => none
      | k :: q => ((pre ++ as)[k]?).bind fun u => (u.at? q).map Sub.val := by
  induction as generalizing pre with
  | nil => rfl
  | cons t ts ih =>
    simp only [postL, placesL, List.filterMap_append]
    have e1 := ih (fun u hu => h u (List.mem_cons_of_mem _ hu)) (pre ++ [t])
    simp only [List.length_append, List.length_singleton, List.append_assoc, List.singleton_append] at e1
    rw [e1]
    congr 1
    rw [List.filterMap_map, h t (by simp)]
    congr 1
    funext p
    simp

theorem post_places (t : Sub α) : post t = (places t).filterMap fun p => (t.at? p).map Sub.val := by
  induction t using Sub.ind with | h a s d c as ih => ?_
  simp only [post, places, List.filterMap_append]
  have e1 := post_placesL as ih []
  simp only [List.length_nil, List.nil_append] at e1
  rw [e1]
  congr 1
  · refine List.filterMap_congr ?_
    intro p hp
    obtain ⟨i, q, u, rfl, h1, h2⟩ := (mem_placesL as 0 p).mp hp
    rw [at_cons]
    simp [Sub.args, Option.map_bind]

theorem length_post (t : Sub α) : (post t).length = count t := by
  have hl : ∀ as : List (Sub α), (∀ u ∈ as, (post u).length = count u) → (postL as).length = countL as := by
    intro as h
    induction as with
    | nil => rfl
    | cons t ts ih =>
      simp only [postL, countL, List.length_append]
      rw [ih (fun u hu => h u (List.mem_cons_of_mem _ hu)), h t (by simp)]
      omega
  induction t using Sub.ind with | h a s d c as ih => ?_
  simp only [post, count, List.length_append, List.length_singleton]
  rw [hl as ih]
  omega

/-! ### operator[] -/

/-- Inserting an argument number in front of what the loop over the others returns. -/
def shift1 : List Nat ⊕ Nat → List Nat ⊕ Nat
  | .inl [] => .inl []
  | .inl (k :: p) => .inl ((k + 1) :: p)
  | .inr w => .inr w

theorem getIn_spec {ar : α → Nat} (as : List (Sub α)) (he : ∀ t ∈ as, Exact ar t)
    (h : ∀ t ∈ as, ∀ i < count t, (places t)[i]? = some (getPath t i)) (w : Nat) :
    getIn as w = match (placesL 0 as)[w]? with
      | some p => .inl p
      | none => .inr (w - countL as) := by
  induction as with
  | nil => simp [getIn, placesL, countL]
  | cons t ts ih =>
    have ih := ih (fun u hu => he u (List.mem_cons_of_mem _ hu)) (fun u hu => h u (List.mem_cons_of_mem _ hu))
    have hl : (placesL 0 ts).length = countL ts := length_placesL ts (fun u _ => length_places u) 0
    have hs : t.size = count t := ((exact_iff ar t).mp (he t (by simp))).1.1
    have ht := h t (by simp)
    have e0 : placesL 0 (t :: ts) = (placesL 0 ts).map (fun p : List Nat => match p with
        | [] => [] | i :: q => (i + 1) :: q) ++ (places t).map (0 :: ·) := by
      rw [← placesL_shift]; rfl
    rw [getIn, ih, e0]
    by_cases hw : w < (placesL 0 ts).length
    · rw [List.getElem?_append_left (by simpa using hw), List.getElem?_map, List.getElem?_eq_getElem hw]
      simp only [Option.map_some]
      generalize (placesL 0 ts)[w] = q
      cases q <;> rfl
    · rw [List.getElem?_append_right (by simp; omega), List.length_map, hl, List.getElem?_map,
        List.getElem?_eq_none (by omega)]
      simp only
      by_cases h2 : w - countL ts < t.size
      · rw [if_pos h2, ht _ (by omega)]
        rfl
      · rw [if_neg h2, List.getElem?_eq_none (by rw [length_places]; omega)]
        simp only [Option.map_none, countL]
        congr 1
        omega

theorem getPath_spec {ar : α → Nat} (t : Sub α) (he : Exact ar t) :
    ∀ i < count t, (places t)[i]? = some (getPath t i) := by
  induction t using Sub.ind with | h a s d c as ih => ?_
  intro i hi
  have hex := (exact_iff ar _).mp he
  have hs : s = 1 + countL as := hex.1.1
  have hl : (placesL 0 as).length = countL as := length_placesL as (fun u _ => length_places u) 0
  have hin := getIn_spec as hex.2 (fun u hu => ih u hu (hex.2 u hu)) i
  simp only [count] at hi
  rw [getPath, places]
  by_cases h1 : i = s - 1
  · rw [if_pos h1, List.getElem?_append_right (by omega)]
    have : i - (placesL 0 as).length = 0 := by omega
    rw [this]; rfl
  · have h2 : i < (placesL 0 as).length := by omega
    rw [if_neg h1, hin, List.getElem?_append_left h2, List.getElem?_eq_getElem h2]

theorem getPath_at {ar : α → Nat} {t : Sub α} (he : Exact ar t) {i : Nat} (hi : i < t.size) :
    ∃ u, t.at? (getPath t i) = some u := by
  rw [((exact_iff ar t).mp he).1.1] at hi
  have := (mem_places t (getPath t i)).mp (List.mem_of_getElem? (getPath_spec t he i hi))
  exact Option.isSome_iff_exists.mp this

/-! ### Iterators -/

theorem next_cons (t u : Sub α) (k : Nat) (p : List Nat) (hp : p ≠ []) (hk : t.args[k]? = some u) :
    next t (k :: p) = (next u p).map (k :: ·) := by
  have e1 : (k :: p).getLast? = p.getLast? := by cases p with | nil => contradiction | cons a l => rfl
  have e2 : (k :: p).dropLast = k :: p.dropLast := by cases p with | nil => contradiction | cons a l => rfl
  unfold next
  rw [e1, e2]
  cases hl : p.getLast? with
  | none => rfl
  | some j =>
    cases j with
    | zero => rfl
    | succ j =>
      simp only [List.cons_append]
      rw [at_cons, hk]
      simp only [Option.bind_some]
      cases u.at? (p.dropLast ++ [j]) <;> rfl

theorem places_last (t : Sub α) : (places t).getLast? = some [] := by
  rw [places_eq]; simp

theorem placesL_last (as : List (Sub α)) (k : Nat) :
    (placesL k as).getLast? = if as = [] then none else some [k] := by
  cases as with
  | nil => rfl
  | cons t ts =>
    have h := places_last t
    simp only [placesL, List.getLast?_append, List.getLast?_map, h]
    simp

theorem places_head {ar : α → Nat} {t : Sub α} (he : Exact ar t) : (places t).head? = some (getPath t 0) := by
  rw [List.head?_eq_getElem?]
  exact getPath_spec t he 0 (count_pos t)

theorem next_chainL {ar : α → Nat} (t : Sub α) (ts : List (Sub α)) (pre : List (Sub α))
    (hts : t.args = pre ++ ts) (he : ∀ u ∈ ts, Exact ar u)
    (h : ∀ u ∈ ts, List.IsChain (fun p q => next u p = some q) (places u)) :
    List.IsChain (fun p q => next t p = some q) (placesL pre.length ts) := by
  induction ts generalizing pre with
  | nil => exact List.IsChain.nil
  | cons u us ih =>
    have ih := ih (pre ++ [u]) (by simp [hts]) (fun v hv => he v (List.mem_cons_of_mem _ hv))
      (fun v hv => h v (List.mem_cons_of_mem _ hv))
    rw [List.length_append, List.length_singleton] at ih
    have hk : t.args[pre.length]? = some u := by rw [hts]; simp
    simp only [placesL]
    rw [List.isChain_append]
    refine ⟨ih, ?_, ?_⟩
    · have hu := h u (by simp)
      rw [List.isChain_map]
      have hu' : List.IsChain (fun p q => next u p = some q ∧ p ≠ []) (places u) := by
        refine hu.imp ?_
        intro p q hpq
        refine ⟨hpq, ?_⟩
        rintro rfl
        simp [next] at hpq
      refine hu'.imp ?_
      rintro p q ⟨h1, h2⟩
      rw [next_cons t u pre.length p h2 hk, h1]
      rfl
    · intro x hx y hy
      rw [placesL_last] at hx
      by_cases hus : us = []
      · simp [hus] at hx
      · rw [if_neg hus] at hx
        simp at hx
        subst hx
        rw [List.head?_map, places_head (he u (by simp))] at hy
        simp at hy
        subst hy
        simp [next, at_cons, hk]

theorem next_chain {ar : α → Nat} (t : Sub α) (he : Exact ar t) :
    List.IsChain (fun p q => next t p = some q) (places t) := by
  induction t using Sub.ind with | h a s d c as ih => ?_
  have hex := (exact_iff ar _).mp he
  rw [places, List.isChain_append]
  refine ⟨next_chainL (.mk a s d c as) as [] rfl hex.2 (fun u hu => ih u hu (hex.2 u hu)), by simp, ?_⟩
  intro x hx y hy
  rw [placesL_last] at hx
  simp at hy
  subst hy
  by_cases h0 : as = []
  · simp [h0] at hx
  · rw [if_neg h0] at hx
    simp at hx
    subst hx
    simp [next]

theorem iterate_chain (t : Sub α) (l : List (List Nat)) (hc : List.IsChain (fun p q => next t p = some q) l)
    (hl : ∀ p, l.getLast? = some p → next t p = none) (n : Nat) (hn : l.length ≤ n) :
    iterate t n l.head? = l := by
  induction l generalizing n with
  | nil => cases n <;> rfl
  | cons p l ih =>
    cases n with
    | zero => simp at hn
    | succ n =>
      simp only [List.head?_cons, iterate]
      congr 1
      cases l with
      | nil =>
        rw [hl p rfl]
        cases n <;> rfl
      | cons q l =>
        rw [List.isChain_cons_cons] at hc
        rw [hc.1]
        exact ih hc.2 (fun x hx => hl x (by simpa using hx)) n (by simpa using hn)

/-! ### select_cumulative -/

mutual
/-- What each number selects. -/
def picks : Sub α → List (List Nat)
  | .mk _ _ _ _ as => picksL 0 as ++ List.replicate (1 + countL as) []
def picksL : Nat → List (Sub α) → List (List Nat)
  | _, [] => []
  | k, t :: ts => picksL (k + 1) ts ++ (picks t).map (k :: ·)
end

theorem picksL_shift (k : Nat) (as : List (Sub α)) :
    picksL (k + 1) as = (picksL k as).map (fun p => match p with | [] => [] | i :: q => (i + 1) :: q) := by
  induction as generalizing k with
  | nil => rfl
  | cons t ts ih =>
    simp only [picksL, List.map_append, List.map_map]
    rw [ih (k + 1)]
    congr 1

theorem length_picksL (as : List (Sub α)) (h : ∀ t ∈ as, (picks t).length = total t) (k : Nat) :
    (picksL k as).length = totalL as := by
  induction as generalizing k with
  | nil => rfl
  | cons t ts ih =>
    simp only [picksL, totalL, List.length_append, List.length_map]
    rw [ih (fun u hu => h u (List.mem_cons_of_mem _ hu)), h t (by simp)]
    omega

theorem length_picks (t : Sub α) : (picks t).length = total t := by
  induction t using Sub.ind with | h a s d c as ih => ?_
  simp only [picks, total, List.length_append, List.length_replicate]
  rw [length_picksL as ih]
  omega

theorem selIn_spec {ar : α → Nat} (as : List (Sub α)) (he : ∀ t ∈ as, Exact ar t)
    (h : ∀ t ∈ as, ∀ i < total t, (picks t)[i]? = some (selPath t i)) (w : Nat) :
    selIn as w = match (picksL 0 as)[w]? with
      | some p => .inl p
      | none => .inr (w - totalL as) := by
  induction as with
  | nil => simp [selIn, picksL, totalL]
  | cons t ts ih =>
    have ih := ih (fun u hu => he u (List.mem_cons_of_mem _ hu)) (fun u hu => h u (List.mem_cons_of_mem _ hu))
    have hl : (picksL 0 ts).length = totalL ts := length_picksL ts (fun u _ => length_picks u) 0
    have hs : t.cum = total t := ((exact_iff ar t).mp (he t (by simp))).1.2.2.1
    have ht := h t (by simp)
    have e0 : picksL 0 (t :: ts) = (picksL 0 ts).map (fun p : List Nat => match p with
        | [] => [] | i :: q => (i + 1) :: q) ++ (picks t).map (0 :: ·) := by
      rw [← picksL_shift]; rfl
    rw [selIn, ih, e0]
    by_cases hw : w < (picksL 0 ts).length
    · rw [List.getElem?_append_left (by simpa using hw), List.getElem?_map, List.getElem?_eq_getElem hw]
      simp only [Option.map_some]
      generalize (picksL 0 ts)[w] = q
      cases q <;> rfl
    · rw [List.getElem?_append_right (by simp; omega), List.length_map, hl, List.getElem?_map,
        List.getElem?_eq_none (by omega)]
      simp only
      by_cases h2 : w - totalL ts < t.cum
      · rw [if_pos h2, ht _ (by omega)]
        rfl
      · rw [if_neg h2, List.getElem?_eq_none (by rw [length_picks]; omega)]
        simp only [Option.map_none, totalL]
        congr 1
        omega

theorem selPath_spec {ar : α → Nat} (t : Sub α) (he : Exact ar t) :
    ∀ i < total t, (picks t)[i]? = some (selPath t i) := by
  induction t using Sub.ind with | h a s d c as ih => ?_
  intro i hi
  have hex := (exact_iff ar _).mp he
  have hs : s = 1 + countL as := hex.1.1
  have hc : c = 1 + countL as + totalL as := hex.1.2.2.1
  have hl : (picksL 0 as).length = totalL as := length_picksL as (fun u _ => length_picks u) 0
  have hin := selIn_spec as hex.2 (fun u hu => ih u hu (hex.2 u hu)) i
  simp only [total] at hi
  rw [selPath, picks]
  by_cases h1 : c - s ≤ i
  · rw [if_pos h1, List.getElem?_append_right (by omega), List.getElem?_replicate, if_pos (by omega)]
  · have h2 : i < (picksL 0 as).length := by omega
    rw [if_neg h1, hin, List.getElem?_append_left h2, List.getElem?_eq_getElem h2]

theorem count_map_cons (k : Nat) (q : List Nat) (l : List (List Nat)) :
    (l.map (k :: ·)).count (k :: q) = l.count q :=
  List.count_map_of_injective l (k :: ·) (fun _ _ h => (List.cons.inj h).2) q

theorem head_picksL (as : List (Sub α)) (k : Nat) (p : List Nat) (h : p ∈ picksL k as) :
    ∃ i q, p = (k + i) :: q := by
  induction as generalizing k with
  | nil => simp [picksL] at h
  | cons t ts ih =>
    simp only [picksL, List.mem_append, List.mem_map] at h
    rcases h with h | ⟨q, _, rfl⟩
    · obtain ⟨i, q, rfl⟩ := ih (k + 1) h
      exact ⟨i + 1, q, by congr 1; omega⟩
    · exact ⟨0, q, rfl⟩

theorem count_picksL (as : List (Sub α)) (k i : Nat) (q : List Nat) (u : Sub α) (hu : as[i]? = some u) :
    (picksL k as).count ((k + i) :: q) = (picks u).count q := by
  induction as generalizing k i with
  | nil => simp at hu
  | cons t ts ih =>
    simp only [picksL, List.count_append]
    cases i with
    | zero =>
      simp at hu
      subst hu
      rw [Nat.add_zero, count_map_cons, List.count_eq_zero_of_not_mem, Nat.zero_add]
      intro h
      obtain ⟨i, q', e⟩ := head_picksL ts (k + 1) _ h
      have := (List.cons.inj e).1
      omega
    | succ i =>
      have e : (k + (i + 1)) = (k + 1) + i := by omega
      rw [e, ih (k + 1) i (by simpa using hu), List.count_eq_zero_of_not_mem (l := (picks t).map (k :: ·)),
        Nat.add_zero]
      intro h
      obtain ⟨q', _, e⟩ := List.mem_map.mp h
      have := (List.cons.inj e).1
      omega

theorem count_picks (t : Sub α) (p : List Nat) (u : Sub α) (h : t.at? p = some u) :
    (picks t).count p = count u := by
  induction p generalizing t with
  | nil =>
    simp at h
    subst h
    cases t with
    | mk a s d c as =>
      simp only [picks, count, List.count_append, List.count_replicate_self]
      rw [List.count_eq_zero_of_not_mem, Nat.zero_add]
      intro h
      obtain ⟨i, q', e⟩ := head_picksL as 0 _ h
      simp at e
  | cons k p ih =>
    rw [at_cons] at h
    cases hk : t.args[k]? with
    | none => simp [hk] at h
    | some v =>
      rw [hk] at h
      cases t with
      | mk a s d c as =>
        have e := count_picksL as 0 k p v hk
        rw [Nat.zero_add] at e
        simp only [picks, List.count_append]
        rw [e, ih v h, List.count_eq_zero_of_not_mem, Nat.add_zero]
        simp [List.mem_replicate]

/-! ### Assignment -/

theorem countL_modify (as : List (Sub α)) (k : Nat) (f : Sub α → Sub α) (v : Sub α) (h : as[k]? = some v) :
    countL (as.modify k f) + count v = countL as + count (f v) := by
  induction as generalizing k with
  | nil => simp at h
  | cons t ts ih =>
    cases k with
    | zero => simp at h; subst h; simp [countL]; omega
    | succ k =>
      have := ih k (by simpa using h)
      simp only [List.modify_succ_cons, countL]
      omega

theorem postL_modify (as : List (Sub α)) (k : Nat) (f : Sub α → Sub α) (v : Sub α) (r s : List α) (h : as[k]? = some v)
    (hp : (post (f v) ++ r).Perm (post v ++ s)) : (postL (as.modify k f) ++ r).Perm (postL as ++ s) := by
  induction as generalizing k with
  | nil => simp at h
  | cons t ts ih =>
    cases k with
    | zero =>
      simp at h
      subst h
      simp only [List.modify_zero_cons, postL, List.append_assoc]
      exact hp.append_left _
    | succ k =>
      have := ih k (by simpa using h)
      simp only [List.modify_succ_cons, postL, List.append_assoc]
      refine (List.perm_append_comm_assoc _ _ _).trans ?_
      refine List.Perm.trans ?_ (List.perm_append_comm_assoc _ _ _).symm
      exact this.append_left _

theorem mem_modify {as : List (Sub α)} {k : Nat} {f : Sub α → Sub α} {x : Sub α} (h : x ∈ as.modify k f) :
    x ∈ as ∨ ∃ v, as[k]? = some v ∧ x = f v := by
  obtain ⟨i, hi⟩ := List.mem_iff_getElem?.mp h
  rw [List.getElem?_modify] at hi
  by_cases e : k = i
  · subst e
    simp at hi
    obtain ⟨v, h1, h2⟩ := hi
    exact Or.inr ⟨v, h1, h2.symm⟩
  · simp [e] at hi
    exact Or.inl (List.mem_of_getElem? hi)

theorem assign_cons (s t : Sub α) (k : Nat) (p : List Nat) :
    s.assign t (k :: p) = refresh t.val (t.args.modify k fun u => s.assign u p) := by cases t; rfl

theorem assign_nil (s t : Sub α) : s.assign t [] = refresh s.val s.args := by cases t; rfl

theorem assignVal_nil (ar : α → Nat) (d0 b : α) (t : Sub α) : t.assignVal ar d0 b [] = setVal ar d0 b t := by
  cases t; rfl

theorem assignVal_cons (ar : α → Nat) (d0 b : α) (t : Sub α) (k : Nat) (p : List Nat) :
    t.assignVal ar d0 b (k :: p) = refresh t.val (t.args.modify k fun u => u.assignVal ar d0 b p) := by cases t; rfl

theorem assignSame_cons (s t : Sub α) (k : Nat) (p : List Nat) :
    s.assignSame t (k :: p) = .mk t.val t.size t.depth t.cum (t.args.modify k fun u => s.assignSame u p) := by
  cases t; rfl

theorem assignSame_nil (s t : Sub α) : s.assignSame t [] = s := by cases t; rfl

theorem exact_assign {ar : α → Nat} (s : Sub α) (hs : Exact ar s) (p : List Nat) (t : Sub α) (ht : Exact ar t) :
    Exact ar (s.assign t p) := by
  induction p generalizing t with
  | nil => rw [assign_nil, refresh_self hs]; exact hs
  | cons k p ih =>
    have hex := (exact_iff ar t).mp ht
    rw [assign_cons]
    refine exact_refresh (by rw [List.length_modify]; exact hex.1.2.2.2) ?_
    intro u hu
    rcases mem_modify hu with h | ⟨v, h1, rfl⟩
    · exact hex.2 u h
    · exact ih v (hex.2 v (List.mem_of_getElem? h1))

theorem assign_at {ar : α → Nat} (s : Sub α) (hs : Exact ar s) (p : List Nat) (t : Sub α) (h : (t.at? p).isSome) :
    (s.assign t p).at? p = some s := by
  induction p generalizing t with
  | nil => rw [assign_nil, refresh_self hs]; simp
  | cons k p ih =>
    rw [at_cons] at h
    rw [assign_cons, at_cons, refresh_args, List.getElem?_modify]
    cases hk : t.args[k]? with
    | none => simp [hk] at h
    | some v =>
      rw [hk] at h
      simp only [if_true, Option.map_some, Option.bind_some]
      exact ih v h

/-- Two places neither of which is above the other. -/
def Apart (p q : List Nat) : Prop := ¬ p <+: q ∧ ¬ q <+: p

theorem assign_apart (s : Sub α) (p q : List Nat) (h : Apart p q) (t : Sub α) :
    (s.assign t p).at? q = t.at? q := by
  induction p generalizing q t with
  | nil => exact absurd (List.nil_prefix) h.1
  | cons k p ih =>
    cases q with
    | nil => exact absurd (List.nil_prefix) h.2
    | cons j q =>
      rw [assign_cons, at_cons, at_cons, refresh_args, List.getElem?_modify]
      by_cases e : k = j
      · subst e
        have h' : Apart p q := ⟨fun x => h.1 (List.cons_prefix_cons.mpr ⟨rfl, x⟩),
          fun x => h.2 (List.cons_prefix_cons.mpr ⟨rfl, x⟩)⟩
        cases hk : t.args[k]? with
        | none => rfl
        | some v =>
          simp only [if_true, Option.map_some, Option.bind_some]
          exact ih q h' v
      · simp [e]

theorem assign_above (s : Sub α) (q : List Nat) (k : Nat) (r : List Nat) (t : Sub α) :
    ((s.assign t (q ++ k :: r)).at? q).map Sub.val = (t.at? q).map Sub.val := by
  induction q generalizing t with
  | nil => rw [List.nil_append, assign_cons]; simp
  | cons j q ih =>
    rw [List.cons_append, assign_cons, at_cons, at_cons, refresh_args, List.getElem?_modify]
    cases hk : t.args[j]? with
    | none => rfl
    | some v =>
      simp only [if_true, Option.map_some, Option.bind_some]
      exact ih v

theorem count_assign (s : Sub α) (p : List Nat) (t u : Sub α) (h : t.at? p = some u) :
    count (s.assign t p) + count u = count t + count s := by
  induction p generalizing t with
  | nil =>
    simp at h; subst h
    rw [assign_nil, count_eq (refresh _ _), refresh_args, count_eq s]
    omega
  | cons k p ih =>
    rw [at_cons] at h
    cases hk : t.args[k]? with
    | none => simp [hk] at h
    | some v =>
      rw [hk] at h
      have h1 := ih v h
      have h2 := countL_modify t.args k (fun u => s.assign u p) v hk
      rw [assign_cons, count_eq (refresh _ _), refresh_args, count_eq t]
      omega

theorem post_assign (s : Sub α) (p : List Nat) (t u : Sub α) (h : t.at? p = some u) :
    (post (s.assign t p) ++ post u).Perm (post t ++ post s) := by
  induction p generalizing t with
  | nil =>
    simp at h; subst h
    rw [assign_nil, post_eq (refresh _ _), refresh_args, refresh_val, ← post_eq s]
    exact List.perm_append_comm
  | cons k p ih =>
    rw [at_cons] at h
    cases hk : t.args[k]? with
    | none => simp [hk] at h
    | some v =>
      rw [hk] at h
      have h1 := ih v h
      have h2 := postL_modify t.args k (fun u => s.assign u p) v (post u) (post s) hk h1
      rw [assign_cons, post_eq (refresh _ _), refresh_args, refresh_val, post_eq t, List.append_assoc,
        List.append_assoc]
      refine (List.perm_append_comm_assoc _ _ _).trans ?_
      refine List.Perm.trans ?_ (List.perm_append_comm_assoc _ _ _).symm
      exact h2.append_left _

/-- A new content of the same arity changes that content only. -/
theorem assignVal_at (ar : α → Nat) (d0 b : α) (p : List Nat) (t u : Sub α) (h : t.at? p = some u)
    (hb : ar b = ar u.val) (q : List Nat) :
    ((t.assignVal ar d0 b p).at? q).map Sub.val = if q = p then some b else (t.at? q).map Sub.val := by
  induction p generalizing t q with
  | nil =>
    simp at h
    subst h
    rw [assignVal_nil, setVal, if_pos hb]
    cases q with
    | nil => simp
    | cons j q => simp [at_cons]
  | cons k p ih =>
    rw [at_cons] at h
    cases hk : t.args[k]? with
    | none => simp [hk] at h
    | some v =>
      rw [hk] at h
      rw [assignVal_cons]
      cases q with
      | nil => simp
      | cons j q =>
        rw [at_cons, at_cons, refresh_args, List.getElem?_modify]
        by_cases e : k = j
        · subst e
          simp only [hk, if_true, Option.map_some, Option.bind_some, List.cons.injEq, true_and]
          exact ih v h q
        · have e' : ¬ (j :: q = k :: p) := fun x => e (List.cons.inj x).1.symm
          simp [e, e']

theorem assignVal_val (ar : α → Nat) (d0 b : α) (k : Nat) (p : List Nat) (t : Sub α) :
    (t.assignVal ar d0 b (k :: p)).val = t.val := by rw [assignVal_cons]; rfl

theorem exact_assignVal (ar : α → Nat) (d0 b : α) (p : List Nat) (t u : Sub α) (h : t.at? p = some u)
    (hb : ar b = ar u.val) (ht : Exact ar t) : Exact ar (t.assignVal ar d0 b p) := by
  induction p generalizing t with
  | nil =>
    simp at h
    subst h
    have hex := (exact_iff ar t).mp ht
    rw [assignVal_nil, setVal, if_pos hb]
    exact exact_refresh (by rw [hex.1.2.2.2, hb]) hex.2
  | cons k p ih =>
    rw [at_cons] at h
    have hex := (exact_iff ar t).mp ht
    rw [assignVal_cons]
    refine exact_refresh (by rw [List.length_modify]; exact hex.1.2.2.2) ?_
    intro w hw
    rcases mem_modify hw with h' | ⟨v, h1, rfl⟩
    · exact hex.2 w h'
    · rw [h1] at h
      exact ih v h (hex.2 v (List.mem_of_getElem? h1))

theorem count_assignSame (s : Sub α) (p : List Nat) (t u : Sub α) (h : t.at? p = some u) :
    count (s.assignSame t p) + count u = count t + count s := by
  induction p generalizing t with
  | nil =>
    simp at h; subst h
    rw [assignSame_nil]
    omega
  | cons k p ih =>
    rw [at_cons] at h
    cases hk : t.args[k]? with
    | none => simp [hk] at h
    | some v =>
      rw [hk] at h
      have h1 := ih v h
      have h2 := countL_modify t.args k (fun u => s.assignSame u p) v hk
      rw [assignSame_cons, count_eq t]
      show 1 + _ + _ = _
      omega

/-! ### Sequences -/

mutual
/-- The nodes backwards. -/
def pre : Sub α → List α
  | .mk a _ _ _ as => a :: preL as
def preL : List (Sub α) → List α
  | [] => []
  | t :: ts => pre t ++ preL ts
end

theorem pre_eq (t : Sub α) : pre t = t.val :: preL t.args := by cases t; rfl

theorem preL_post (as : List (Sub α)) (h : ∀ u ∈ as, pre u = (post u).reverse) : preL as = (postL as).reverse := by
  induction as with
  | nil => rfl
  | cons t ts ih =>
    simp only [preL, postL, List.reverse_append]
    rw [ih (fun u hu => h u (List.mem_cons_of_mem _ hu)), h t (by simp)]

theorem pre_post (t : Sub α) : pre t = (post t).reverse := by
  induction t using Sub.ind with | h a s d c as ih => ?_
  simp only [pre, post, List.reverse_append, List.reverse_singleton]
  rw [preL_post as ih]
  rfl

theorem parseArgs_pre (ar : α → Nat) (as : List (Sub α))
    (h : ∀ t ∈ as, ∀ f r, 2 * count t ≤ f + 1 → parse ar f (pre t ++ r) = some (t, r)) (f : Nat) (r : List α)
    (hf : 2 * countL as ≤ f) : parseArgs ar f as.length (preL as ++ r) = some (as, r) := by
  induction as generalizing f with
  | nil => cases f <;> rfl
  | cons t ts ih =>
    have := count_pos t
    simp only [countL] at hf
    cases f with
    | zero => omega
    | succ f =>
      simp only [List.length_cons, preL, List.append_assoc, parseArgs]
      rw [h t (by simp) f _ (by omega)]
      simp only
      rw [ih (fun u hu => h u (List.mem_cons_of_mem _ hu)) f (by omega)]

theorem parse_pre {ar : α → Nat} (t : Sub α) (he : Exact ar t) :
    ∀ f r, 2 * count t ≤ f + 1 → parse ar f (pre t ++ r) = some (t, r) := by
  induction t using Sub.ind with | h a s d c as ih => ?_
  intro f r hf
  have hex := (exact_iff ar _).mp he
  have h := parseArgs_pre ar as (fun u hu => ih u hu (hex.2 u hu))
  simp only [count] at hf
  cases f with
  | zero => omega
  | succ f =>
    simp only [pre, List.cons_append, parse]
    have hl : as.length = ar a := hex.1.2.2.2
    rw [← hl, h f r (by omega)]
    have := refresh_self he
    simp only [Sub.val, Sub.args] at this
    simp only [this]

theorem parse_sound (ar : α → Nat) (f : Nat) :
    (∀ l t r, parse ar f l = some (t, r) → Exact ar t ∧ l = pre t ++ r) ∧
    (∀ k l ts r, parseArgs ar f k l = some (ts, r) → ts.length = k ∧ (∀ t ∈ ts, Exact ar t) ∧ l = preL ts ++ r) := by
  induction f with
  | zero =>
    refine ⟨fun l t r h => by simp [parse] at h, fun k l ts r h => ?_⟩
    cases k with
    | zero => simp [parseArgs] at h; obtain ⟨rfl, rfl⟩ := h; simp [preL]
    | succ k => simp [parseArgs] at h
  | succ f ih =>
    constructor
    · intro l t r h
      cases l with
      | nil => simp [parse] at h
      | cons a l =>
        simp only [parse] at h
        cases hp : parseArgs ar f (ar a) l with
        | none => simp [hp] at h
        | some x =>
          obtain ⟨as, r'⟩ := x
          rw [hp] at h
          simp at h
          obtain ⟨rfl, rfl⟩ := h
          obtain ⟨h1, h2, h3⟩ := ih.2 _ _ _ _ hp
          refine ⟨exact_refresh h1 h2, ?_⟩
          rw [pre_eq, refresh_val, refresh_args, h3]
          rfl
    · intro k l ts r h
      cases k with
      | zero => simp [parseArgs] at h; obtain ⟨rfl, rfl⟩ := h; simp [preL]
      | succ k =>
        simp only [parseArgs] at h
        cases hp : parse ar f l with
        | none => simp [hp] at h
        | some x =>
          obtain ⟨t, r1⟩ := x
          rw [hp] at h
          simp only at h
          cases hq : parseArgs ar f k r1 with
          | none => simp [hq] at h
          | some y =>
            obtain ⟨us, r2⟩ := y
            rw [hq] at h
            simp at h
            obtain ⟨rfl, rfl⟩ := h
            obtain ⟨h1, h2⟩ := ih.1 _ _ _ hp
            obtain ⟨h3, h4, h5⟩ := ih.2 _ _ _ _ hq
            refine ⟨by simp [h3], ?_, ?_⟩
            · intro u hu
              rcases List.mem_cons.mp hu with rfl | hu
              · exact h1
              · exact h4 u hu
            · rw [h2, h5]; simp [preL]

theorem ofSeq_iff (ar : α → Nat) (l : List α) (t : Sub α) :
    ofSeq ar l = some t ↔ Exact ar t ∧ ∃ q, l = q ++ post t := by
  constructor
  · intro h
    unfold ofSeq at h
    rw [Option.map_eq_some_iff] at h
    obtain ⟨⟨t', r⟩, h1, rfl⟩ := h
    obtain ⟨h2, h3⟩ := (parse_sound ar _).1 _ _ _ h1
    refine ⟨h2, r.reverse, ?_⟩
    have := congrArg List.reverse h3
    rw [List.reverse_reverse, List.reverse_append, pre_post, List.reverse_reverse] at this
    exact this
  · rintro ⟨h, q, rfl⟩
    unfold ofSeq
    rw [List.reverse_append, ← pre_post, parse_pre t h _ _ (by rw [List.length_append, length_post]; omega)]
    rfl

/-! ### push_back -/

/-- All complete subtrees, the last pushed first. -/
def stack (t : PTree α) : List (Sub α) := if t.root.size = 0 then t.pushed else t.root :: t.pushed

theorem push_eq (ar : α → Nat) (t : PTree α) (b : α) :
    t.push ar b = if (stack t).length < ar b then none
      else some ⟨refresh b ((stack t).take (ar b)), (stack t).drop (ar b)⟩ := rfl

theorem pushAll_append (ar : α → Nat) (t : PTree α) (l m : List α) :
    t.pushAll ar (l ++ m) = (t.pushAll ar l).bind fun u => u.pushAll ar m := by
  induction l generalizing t with
  | nil => rfl
  | cons b l ih =>
    simp only [List.cons_append, PTree.pushAll]
    cases t.push ar b with
    | none => rfl
    | some u => exact ih u

theorem stack_refresh (b : α) (as r : List (Sub α)) : stack ⟨refresh b as, r⟩ = refresh b as :: r := by
  unfold stack
  rw [if_neg]
  show ¬ (1 + (as.map Sub.size).sum = 0)
  omega

theorem pushAll_postL (ar : α → Nat) (as : List (Sub α)) (he : ∀ t ∈ as, Exact ar t)
    (h : ∀ t ∈ as, ∀ st : PTree α, st.pushAll ar (post t) = some ⟨t, stack st⟩) (st : PTree α) :
    ∃ st', st.pushAll ar (postL as) = some st' ∧ stack st' = as ++ stack st := by
  induction as generalizing st with
  | nil => exact ⟨st, rfl, rfl⟩
  | cons t ts ih =>
    obtain ⟨st1, h1, h2⟩ := ih (fun u hu => he u (List.mem_cons_of_mem _ hu))
      (fun u hu => h u (List.mem_cons_of_mem _ hu)) st
    refine ⟨⟨t, stack st1⟩, ?_, ?_⟩
    · rw [postL, pushAll_append, h1]
      exact h t (by simp) st1
    · have e : t = refresh t.val t.args := (refresh_self (he t (by simp))).symm
      rw [e, stack_refresh, ← e, h2]
      rfl

theorem pushAll_post {ar : α → Nat} (t : Sub α) (he : Exact ar t) (st : PTree α) :
    st.pushAll ar (post t) = some ⟨t, stack st⟩ := by
  induction t using Sub.ind generalizing st with | h a s d c as ih => ?_
  have hex := (exact_iff ar _).mp he
  obtain ⟨st', h1, h2⟩ := pushAll_postL ar as hex.2 (fun u hu st => ih u hu (hex.2 u hu) st) st
  have hl : as.length = ar a := hex.1.2.2.2
  rw [post, pushAll_append, h1]
  simp only [Option.bind_some, PTree.pushAll]
  rw [push_eq, h2, if_neg (by simp; omega), ← hl]
  simp only [List.take_left', List.drop_left']
  have := refresh_self he
  simp only [Sub.val, Sub.args] at this
  rw [this]

theorem postL_append (as bs : List (Sub α)) : postL (as ++ bs) = postL bs ++ postL as := by
  induction as with
  | nil => simp [postL]
  | cons t ts ih => simp [postL, ih]

theorem push_sound (ar : α → Nat) (st st' : PTree α) (b : α) (h : st.push ar b = some st')
    (he : ∀ t ∈ stack st, Exact ar t) :
    (∀ t ∈ stack st', Exact ar t) ∧ postL (stack st') = postL (stack st) ++ [b] := by
  rw [push_eq] at h
  by_cases hl : (stack st).length < ar b
  · simp [hl] at h
  · rw [if_neg hl] at h
    simp at h
    subst h
    rw [stack_refresh]
    constructor
    · intro t ht
      rcases List.mem_cons.mp ht with rfl | ht
      · exact exact_refresh (by simp; omega) (fun u hu => he u (List.mem_of_mem_take hu))
      · exact he t (List.mem_of_mem_drop ht)
    · rw [postL, post_eq, refresh_args, refresh_val, ← List.append_assoc, ← postL_append, List.take_append_drop]

theorem pushAll_sound (ar : α → Nat) (l : List α) (st st' : PTree α) (h : st.pushAll ar l = some st')
    (he : ∀ t ∈ stack st, Exact ar t) :
    (∀ t ∈ stack st', Exact ar t) ∧ postL (stack st') = postL (stack st) ++ l := by
  induction l generalizing st with
  | nil => simp [PTree.pushAll] at h; subst h; exact ⟨he, by simp⟩
  | cons b l ih =>
    simp only [PTree.pushAll] at h
    cases hp : st.push ar b with
    | none => simp [hp] at h
    | some s1 =>
      rw [hp] at h
      obtain ⟨h1, h2⟩ := push_sound ar st s1 b hp he
      obtain ⟨h3, h4⟩ := ih s1 h h1
      exact ⟨h3, by rw [h4, h2]; simp⟩

/-! ### Pruning -/

theorem getPath_before {ar : α → Nat} {t : Sub α} (he : Exact ar t) (h : 1 < count t) :
    getPath t (t.size - 2) = [0] := by
  have hs : t.size = count t := ((exact_iff ar t).mp he).1.1
  have h1 := getPath_spec t he (t.size - 2) (by omega)
  rw [hs] at h1 ⊢
  have hl : (placesL 0 t.args).length = countL t.args := length_placesL t.args (fun u _ => length_places u) 0
  have hc := count_eq t
  rw [places_eq, List.getElem?_append_left (by omega)] at h1
  have h2 : (placesL 0 t.args).getLast? = some [0] := by
    rw [placesL_last, if_neg]
    intro e
    rw [e] at hc
    simp [countL] at hc
    omega
  rw [List.getLast?_eq_getElem?, show (placesL 0 t.args).length - 1 = count t - 2 by omega, h1] at h2
  exact Option.some.inj h2

theorem count_at_lt (p : List Nat) (t u : Sub α) (hp : p ≠ []) (h : t.at? p = some u) : count u < count t := by
  have hm : ∀ (as : List (Sub α)) (k : Nat) v, as[k]? = some v → count v ≤ countL as := by
    intro as
    induction as with
    | nil => simp
    | cons t ts ih =>
      intro k v hk
      cases k with
      | zero => simp at hk; subst hk; simp [countL]
      | succ k => have := ih k v (by simpa using hk); simp [countL]; omega
  induction p generalizing t with
  | nil => contradiction
  | cons k p ih =>
    rw [at_cons] at h
    cases hk : t.args[k]? with
    | none => simp [hk] at h
    | some v =>
      rw [hk] at h
      have h1 := hm _ _ _ hk
      rw [count_eq t]
      by_cases e : p = []
      · subst e; simp at h; subst h; omega
      · have := ih v e h; omega

theorem prune_spec {ar : α → Nat} (max : Nat) (hm : 1 ≤ max) (f : Nat) (t : Sub α) (he : Exact ar t)
    (hf : count t ≤ f) :
    ∃ k u, prune max f t = u ∧ t.at? (List.replicate k 0) = some u ∧ Exact ar u ∧ count u ≤ max ∧
      ∀ j < k, ∀ v, t.at? (List.replicate j 0) = some v → max < count v := by
  induction f generalizing t with
  | zero => have := count_pos t; omega
  | succ f ih =>
    have hs : t.size = count t := ((exact_iff ar t).mp he).1.1
    rw [prune, if_neg (by omega)]
    by_cases h1 : max < t.size
    · rw [if_pos h1, getPath_before he (by omega)]
      obtain ⟨v, hv⟩ : ∃ v, t.at? [0] = some v := by
        rw [at_cons]
        have hc := count_eq t
        cases ha : t.args with
        | nil => rw [ha] at hc; simp [countL] at hc; omega
        | cons v vs => exact ⟨v, by simp⟩
      have hlt := count_at_lt [0] t v (by simp) hv
      rw [hv]
      simp only [assignSame_nil]
      obtain ⟨k, u, h2, h3, h4, h5, h6⟩ := ih v (he.at hv) (by omega)
      refine ⟨k + 1, u, h2, ?_, h4, h5, ?_⟩
      · rw [List.replicate_succ, ← List.singleton_append, at_append, hv]; exact h3
      · intro j hj w hw
        cases j with
        | zero => simp at hw; subst hw; omega
        | succ j =>
          rw [List.replicate_succ, ← List.singleton_append, at_append, hv] at hw
          exact h6 j (by omega) w hw
    · rw [if_neg h1]
      exact ⟨0, t, rfl, by simp, he, by omega, by simp⟩

theorem prune_zero (f : Nat) (t : Sub α) : prune 0 f t = t := by cases f <;> simp [prune]

theorem prune_small (max f : Nat) (t : Sub α) (h : t.size ≤ max) : prune max f t = t := by
  cases f with
  | zero => rfl
  | succ f =>
    rw [prune]
    by_cases h1 : max < 1
    · rw [if_pos h1]
    · rw [if_neg h1, if_neg (by omega)]

end Paradiseo.Gp
