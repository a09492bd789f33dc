import Verif.Lemmas.NDSorting
import Verif.Props.MoeoDepth
/-
Property C162: worths of the non-dominated sorting of EO (`eoNDSorting` and its two penalties).
Property C163: the cache of worths.
-/
namespace Paradiseo.Nds
open Paradiseo.Moeo

section
variable {F : Type} [Field F] [LinearOrder F] [IsStrictOrderedRing F]

/-! ## Specification -/

/-- `front` lists, once each, the individuals of depth `k`. -/
def IsFront (N : Nat) (dom : Nat → Nat → Prop) (k : Nat) (front : List Nat) : Prop :=
  front.Nodup ∧ ∀ x, x ∈ front ↔ x < N ∧ IsDepth (· < N) dom x k

/-- What the worths of a population must be: worths are not negative, a dominating individual is worth more, the
integer above the worth gives the depth, and inside a front the smaller penalty is worth more. -/
structure GoodWorths [FloorRing F] (N : Nat) (dom : Nat → Nat → Prop) (niche : List Nat → List F)
    (w : Nat → F) : Prop where
  nonneg : ∀ q < N, 0 ≤ w q
  better : ∀ p < N, ∀ q < N, dom p q → w q < w p
  level : ∃ M : ℤ, ∀ q < N, ∀ k, IsDepth (· < N) dom q k → ⌈w q⌉ + k = M
  crowd : ∀ q < N, ∀ k, IsDepth (· < N) dom q k → ∃ front, IsFront N dom k front ∧
    ∀ (i j : Nat) (x y : Nat) (a b : F), front[i]? = some x → front[j]? = some y →
      (niche front)[i]? = some a → (niche front)[j]? = some b → (w y < w x ↔ a < b)

/-- The penalties of the fronts are not negative. -/
def NicheOk (N : Nat) (dom : Nat → Nat → Prop) (niche : List Nat → List F) : Prop :=
  ∀ k front, IsFront N dom k front → ∀ c ∈ niche front, 0 ≤ c

theorem worths_of_placed [FloorRing F] {N : Nat} (hN : 0 < N) {dom : Nat → Nat → Prop}
    {niche : List Nat → List F} (hn : ∀ l, (niche l).length = l.length) {fr : Nat → List Nat}
    {r : Nat → Nat} {v : Nat → F}
    (hd : ∀ q < N, IsDepth (· < N) dom q (r q + 1)) (hgt : ∀ p < N, ∀ q < N, dom p q → r p < r q)
    (hp : Placed N niche fr r v) (hok : NicheOk N dom niche) :
    ∃ w, rankToWorth N (.ok v) = .ok w ∧ GoodWorths N dom niche w := by
  set M : ℤ := ⌈maxElt ((List.range N).map v)⌉ with hM
  have hfront : ∀ q < N, IsFront N dom (r q + 1) (fr (r q)) := by
    intro q hq
    obtain ⟨h1, h2, _⟩ := hp q hq
    refine ⟨h1, fun x => ?_⟩
    rw [h2]
    constructor
    · rintro ⟨a, b⟩; exact ⟨a, b ▸ hd x a⟩
    · rintro ⟨a, b⟩
      have := isDepth_unique b (hd x a)
      exact ⟨a, by omega⟩
  have hfrac : ∀ l : List F, (∀ c ∈ l, 0 ≤ c) → ∀ c ∈ l, 0 ≤ c / (maxElt l + 1) ∧ c / (maxElt l + 1) < 1 := by
    intro l hl c hc
    have h0 := hl c hc
    have h1 := le_maxElt hc
    have h2 : (0 : F) < maxElt l + 1 := by linarith
    exact ⟨div_nonneg h0 h2.le, by rw [div_lt_one h2]; linarith⟩
  have hv : ∀ q < N, (r q : F) ≤ v q ∧ v q < r q + 1 := by
    intro q hq
    obtain ⟨_, _, j, c, hj, hc, e⟩ := hp q hq
    have := hfrac _ (hok _ _ (hfront q hq)) c (List.mem_of_getElem? hc)
    rw [e]
    constructor <;> linarith
  refine ⟨fun q => (M : F) - v q, by unfold rankToWorth; simp [hM]; omega, ?_, ?_, ?_, ?_⟩
  · intro q hq
    have h1 : v q ≤ maxElt ((List.range N).map v) :=
      le_maxElt (List.mem_map_of_mem (List.mem_range.2 hq))
    have h2 : maxElt ((List.range N).map v) ≤ (M : F) := Int.le_ceil _
    show 0 ≤ (M : F) - v q
    linarith
  · intro p hp' q hq hpq
    have h1 := (hv p hp').2
    have h2 := (hv q hq).1
    have h3 : r p + 1 ≤ r q := hgt p hp' q hq hpq
    have h4 : ((r p : F) + 1) ≤ (r q : F) := by exact_mod_cast h3
    show (M : F) - v q < (M : F) - v p
    linarith
  · refine ⟨M + 1, ?_⟩
    intro q hq k hk
    have hk' := isDepth_unique hk (hd q hq)
    subst hk'
    have : ⌈(M : F) - v q⌉ = M - r q := by
      rw [Int.ceil_eq_iff]
      obtain ⟨h1, h2⟩ := hv q hq
      push_cast
      constructor <;> linarith
    rw [this]; push_cast; ring
  · intro q hq k hk
    have hk' := isDepth_unique hk (hd q hq)
    subst hk'
    refine ⟨fr (r q), hfront q hq, ?_⟩
    obtain ⟨hnd, hm, _⟩ := hp q hq
    have hval : ∀ (i : Nat) (x : Nat) (a : F), (fr (r q))[i]? = some x → (niche (fr (r q)))[i]? = some a →
        v x = (r q : F) + a / (maxElt (niche (fr (r q))) + 1) := by
      intro i x a hx ha
      obtain ⟨hxN, hxr⟩ := (hm x).1 (List.mem_of_getElem? hx)
      obtain ⟨_, _, j, c, hj, hc, e⟩ := hp x hxN
      rw [hxr] at hj hc e
      have : i = j := by
        obtain ⟨hi', hi⟩ := List.getElem?_eq_some_iff.1 hx
        obtain ⟨hj', hj⟩ := List.getElem?_eq_some_iff.1 hj
        exact (hnd.getElem_inj_iff).1 (hi.trans hj.symm)
      subst this
      rw [ha, Option.some.injEq] at hc
      rw [e, hc]
    intro i j x y a b hx hy ha hb
    rw [hval i x a hx ha, hval j y b hy hb]
    have h0 := hok _ _ (hfront q hq) a (List.mem_of_getElem? ha)
    have h1 := le_maxElt (List.mem_of_getElem? ha)
    have h2 : (0 : F) < maxElt (niche (fr (r q))) + 1 := by linarith
    have : a / (maxElt (niche (fr (r q))) + 1) < b / (maxElt (niche (fr (r q))) + 1) ↔ a < b :=
      div_lt_div_iff_of_pos_right h2
    rw [← this]
    constructor <;> intro h <;> linarith

/-! ## C162 -/

/-- More than two objectives: for any strict partial order, any population that is not empty, any earlier
contents of the worths and any penalties that are not negative, the assignment ends and gives good worths. -/
theorem C162_general [FloorRing F] (N : Nat) (hN : 0 < N) (dom : Nat → Nat → Bool)
    (hirr : ∀ p, dom p p = false)
    (htr : ∀ p q r, dom p q = true → dom q r = true → dom p r = true)
    (niche : List Nat → List F) (hn : ∀ l, (niche l).length = l.length)
    (hok : NicheOk N (fun p q => dom p q = true) niche) (old : Nat → F) :
    ∃ w, rankToWorth N (mRanks dom N niche old) = .ok w ∧
      GoodWorths N (fun p q => dom p q = true) niche w := by
  obtain ⟨v, r, fr, e, hl, hp⟩ := mRanks_spec hirr htr niche hn old
  rw [e]
  refine worths_of_placed hN hn (r := fun q => r q - 1) ?_ ?_ hp hok
  · intro q hq
    have := isDepth_of_local (mem := (· < N)) (dom := fun p q => dom p q = true) (r := r) hl.pos hl.gt
      hl.step q hq
    have h2 := hl.pos q hq
    have e1 : r q - 1 + 1 = r q := by omega
    simpa only [e1] using this
  · intro p hp q hq hd
    have := hl.gt q hq p hp hd
    have := hl.pos p hp
    show r p - 1 < r q - 1
    omega

/-- Vectors on a grid: two values of an objective are equal or differ by at least the tolerance. -/
def OnGrid (N : Nat) (tol : F) (ov : Nat → Fin 2 → F) : Prop :=
  ∀ p < N, ∀ q < N, ∀ k, ov p k = ov q k ∨ tol ≤ |ov p k - ov q k|

/-- `d k = true` when objective `k` is minimised. -/
def minimised (mx : Fin 2 → Bool) : Fin 2 → Bool := fun k => !mx k

theorem sorter_iff {mx : Fin 2 → Bool} {tol : F} (ht : 0 < tol) {a b : Fin 2 → F}
    (hg : ∀ k, a k = b k ∨ tol ≤ |a k - b k|) (hs : sorter mx tol b a = false) :
    NoWorse (minimised mx 0) (a 0) (b 0) ∧ (a 0 = b 0 → NoWorse (minimised mx 1) (a 1) (b 1)) := by
  have h01 : ∀ k, |b k - a k| < tol ↔ a k = b k := by
    intro k
    rw [abs_sub_comm]
    constructor
    · intro h
      rcases hg k with h' | h'
      · exact h'
      · exact absurd h (not_lt.2 h')
    · intro h; rw [h]; simpa using ht
  unfold sorter at hs
  simp only [h01] at hs
  by_cases e0 : a 0 = b 0
  · rw [if_pos e0] at hs
    refine ⟨by rw [e0]; cases minimised mx 0 <;> exact le_rfl, fun _ => ?_⟩
    by_cases e1 : a 1 = b 1
    · rw [e1]; cases minimised mx 1 <;> exact le_rfl
    · rw [if_neg e1] at hs
      cases hm : mx 1
      · simp only [hm, Bool.false_eq_true, if_false, decide_eq_false_iff_not, not_lt, sub_nonneg] at hs
        simpa [minimised, hm, NoWorse] using hs
      · simp only [hm, if_true, gt_iff_lt, decide_eq_false_iff_not, not_lt, sub_nonpos] at hs
        simpa [minimised, hm, NoWorse] using hs
  · rw [if_neg e0] at hs
    refine ⟨?_, fun e => absurd e e0⟩
    cases hm : mx 0
    · simp only [hm, Bool.false_eq_true, if_false, decide_eq_false_iff_not, not_lt, sub_nonneg] at hs
      simpa [minimised, hm, NoWorse] using hs
    · simp only [hm, if_true, gt_iff_lt, decide_eq_false_iff_not, not_lt, sub_nonpos] at hs
      simpa [minimised, hm, NoWorse] using hs

/-- Domination of individuals by their vectors. -/
def DomOf (mx : Fin 2 → Bool) (ov : Nat → Fin 2 → F) (p q : Nat) : Prop :=
  Dominates (minimised mx) (ov p) (ov q)

/-- The first objective decides the order, ties by the second; so an earlier individual dominates a later
one that differs when it is not worse on the second. -/
theorem sorted_facts {mx : Fin 2 → Bool} {tol max1 : F} (ht : 0 < tol) {N : Nat} {ov : Nat → Fin 2 → F}
    (hg : OnGrid N tol ov) {order : List Nat} (hperm : order.Perm (List.range N))
    (hs : order.Pairwise fun a b => sorter mx tol (ov b) (ov a) = false) :
    (order.Pairwise fun a b => ¬ DomOf mx ov b a ∧ (decide (ov b = ov a) = false →
      (DomOf mx ov a b ↔ value2 mx max1 (ov a) ≤ value2 mx max1 (ov b)))) ∧
    ∀ l1 p x l2, order = l1 ++ p :: x :: l2 → ∀ a ∈ l1, decide (ov x = ov a) = true →
      decide (ov x = ov p) = true := by
  have hmem : ∀ a ∈ order, a < N := fun a ha => List.mem_range.1 (hperm.mem_iff.1 ha)
  have hs' : order.Pairwise fun a b => NoWorse (minimised mx 0) (ov a 0) (ov b 0) ∧
      (ov a 0 = ov b 0 → NoWorse (minimised mx 1) (ov a 1) (ov b 1)) := by
    refine hs.imp_of_mem ?_
    intro a b ha hb h
    exact sorter_iff ht (fun k => hg a (hmem a ha) b (hmem b hb) k) h
  have hanti : ∀ (m : Bool) (x y : F), NoWorse m x y → NoWorse m y x → x = y := by
    intro m x y h1 h2
    cases m
    · exact le_antisymm h2 h1
    · exact le_antisymm h1 h2
  have hnb : ∀ (m : Bool) (x y : F), NoWorse m x y → x ≠ y → Better m x y := by
    intro m x y h hn
    cases m
    · exact lt_of_le_of_ne h (Ne.symm hn)
    · exact lt_of_le_of_ne h hn
  have hirr : ∀ (m : Bool) (x : F), ¬ Better m x x := by
    intro m x; cases m <;> exact lt_irrefl x
  constructor
  · refine hs'.imp ?_
    rintro a b ⟨f1, f2⟩
    constructor
    · rintro ⟨h1, k, h2⟩
      have e0 := hanti _ _ _ f1 (h1 0)
      have e1 := hanti _ _ _ (f2 e0) (h1 1)
      fin_cases k
      · simp only [Fin.zero_eta, e0] at h2; exact hirr _ _ h2
      · simp only [Fin.mk_one, e1] at h2; exact hirr _ _ h2
    · intro hne
      have hne' : ov b ≠ ov a := of_decide_eq_false hne
      have hval : value2 mx max1 (ov a) ≤ value2 mx max1 (ov b) ↔
          NoWorse (minimised mx 1) (ov a 1) (ov b 1) := by
        unfold value2 minimised NoWorse
        cases mx 1
        · simp
        · simp only [if_true, Bool.not_true, sub_le_sub_iff_left]
      rw [hval]
      constructor
      · rintro ⟨h1, _⟩; exact h1 1
      · intro h
        refine ⟨fun k => ?_, ?_⟩
        · fin_cases k
          · exact f1
          · exact h
        · by_cases e : ov a 0 = ov b 0
          · refine ⟨1, hnb _ _ _ h ?_⟩
            intro e1
            apply hne'
            funext k; fin_cases k
            · exact e.symm
            · exact e1.symm
          · exact ⟨0, hnb _ _ _ f1 e⟩
  · intro l1 p x l2 ho a ha he
    have he' : ov x = ov a := of_decide_eq_true he
    rw [ho] at hs'
    have h1 := List.pairwise_append.1 hs'
    obtain ⟨f1, f2⟩ := h1.2.2 a ha p (by simp)
    obtain ⟨g1, g2⟩ := (List.pairwise_cons.1 h1.2.1).1 x (by simp)
    rw [he'] at g1 g2
    have e0 := hanti _ _ _ f1 g1
    have e1 := hanti _ _ _ (f2 e0) (g2 e0.symm)
    apply decide_eq_true
    rw [he']
    funext k; fin_cases k
    · exact e0
    · exact e1

/-- Where the individuals go with two objectives. -/
theorem two_placed {mx : Fin 2 → Bool} {tol max1 : F} (ht : 0 < tol) {N : Nat} {ov : Nat → Fin 2 → F}
    (hg : OnGrid N tol ov) (declone : Bool) {order : List Nat} (hperm : order.Perm (List.range N))
    (hs : order.Pairwise fun a b => sorter mx tol (ov b) (ov a) = false)
    (niche : List Nat → List F) (hn : ∀ l, (niche l).length = l.length) (old : Nat → F) :
    ∃ (v : Nat → F) (f r : Nat → Nat) (fr : Nat → List Nat),
      twoRanks mx max1 (fun p q => decide (ov p = ov q)) declone ov niche order old = .ok v ∧
      Placed N niche fr f v ∧ (∀ q < N, IsDepth (· < N) (DomOf mx ov) q (r q + 1)) ∧
      (∀ p < N, ∀ q < N, DomOf mx ov p q → r p < r q) ∧
      (∀ q < N, f q < N) ∧ (declone = false → ∀ q < N, f q = r q) ∧
      (∀ q < N, f q = r q ∨ f q = N - 1 ∧ ∃ p < N, p ≠ q ∧ ov p = ov q) ∧
      ∀ q < N, ∃ p < N, ov p = ov q ∧ f p = r q := by
  have hlen : order.length = N := by simpa using hperm.length_eq
  have hnd : order.Nodup := hperm.nodup_iff.2 List.nodup_range
  have hmem : ∀ a, a ∈ order ↔ a < N := fun a => by rw [hperm.mem_iff, List.mem_range]
  obtain ⟨hpair, hadj⟩ := sorted_facts (max1 := max1) ht hg hperm hs
  set val : Nat → F := fun i => value2 mx max1 (ov i) with hval
  set eqv : Nat → Nat → Bool := fun p q => decide (ov p = ov q) with heqv
  have hirr : ∀ x, ¬ DomOf mx ov x x := by
    rintro x ⟨_, k, hk⟩
    revert hk
    cases minimised mx k <;> exact lt_irrefl _
  obtain ⟨rest, d', h1, h2, h3, h4, h5⟩ := twoFronts_spec (key := ov) (val := val) (eqv := eqv)
    (dom := DomOf mx ov) declone N hirr (by intro x y; simp [heqv])
    (by
      intro x p h
      have e : ov x = ov p := of_decide_eq_true h
      simp only [hval, DomOf, e, true_and, implies_true, and_self])
    order [] [] none 0 ⟨by simp, by simp, by simp, by simp, by simp, by simp⟩ (by simpa using hnd)
    ⟨[], by simp, by simp⟩ (by simpa only [List.map_nil, List.nil_append] using hpair)
    (by simpa only [List.map_nil, List.nil_append] using hadj) [] (by simp)
  simp only [List.nil_append] at h2 h4 h5
  set out := twoFronts val eqv declone N [] none 0 order with hout
  have hlr : rest.length = N := by rw [← hlen, ← h1, List.length_map]
  have hok : out.map Prod.fst = order := by
    rw [← h1]
    have : ∀ (a b : List (Nat × Nat)), List.Forall₂ (fun o x => o.1 = x.1 ∧ (o.2 = x.2 ∨ o.2 = N - 1 ∧
        ∃ y ∈ rest, y.1 ≠ x.1 ∧ y.2 = x.2 ∧ eqv x.1 y.1 = true)) a b → a.map Prod.fst = b.map Prod.fst := by
      intro a b h
      induction h with
      | nil => rfl
      | cons h _ ih => simp [h.1, ih]
    exact this _ _ h5
  have look : ∀ (l : List (Nat × Nat)), l.map Prod.fst = order →
      ∃ g : Nat → Nat, (∀ q k, (q, k) ∈ l → g q = k) ∧ ∀ q < N, (q, g q) ∈ l := by
    intro l hl
    have huniq : ∀ q a b, (q, a) ∈ l → (q, b) ∈ l → a = b := by
      intro q a b ha hb
      have := List.inj_on_of_nodup_map (by rw [hl]; exact hnd) ha hb rfl
      exact congrArg Prod.snd this
    have hex : ∀ q, ∃ k, q < N → (q, k) ∈ l := by
      intro q
      by_cases hq : q < N
      · have : q ∈ l.map Prod.fst := by rw [hl]; exact (hmem q).2 hq
        obtain ⟨⟨a, b⟩, h1, h2⟩ := List.mem_map.1 this
        simp only at h2; subst h2
        exact ⟨b, fun _ => h1⟩
      · exact ⟨0, fun h => absurd h hq⟩
    choose g hg using hex
    refine ⟨g, ?_, hg⟩
    intro q k hqk
    have hq : q < N := (hmem q).1 (by rw [← hl]; exact List.mem_map_of_mem (f := Prod.fst) hqk)
    exact huniq q _ _ (hg q hq) hqk
  obtain ⟨r, r1, r2⟩ := look rest h1
  obtain ⟨f, f1, f2⟩ := look out hok
  have hrlt : ∀ q < N, r q < N := by
    intro q hq
    obtain ⟨t, ht', _⟩ := h2.low _ (r2 q hq)
    have := (List.getElem?_eq_some_iff.1 ht').1
    have := h2.len
    simp only at *; omega
  have hrel : ∀ q < N, f q = r q ∨ f q = N - 1 ∧ ∃ p < N, p ≠ q ∧ ov p = ov q := by
    intro q hq
    have : ∀ (a b : List (Nat × Nat)), List.Forall₂ (fun o x => o.1 = x.1 ∧ (o.2 = x.2 ∨ o.2 = N - 1 ∧
        ∃ y ∈ rest, y.1 ≠ x.1 ∧ y.2 = x.2 ∧ eqv x.1 y.1 = true)) a b → ∀ o ∈ a, ∃ x ∈ b,
        o.1 = x.1 ∧ (o.2 = x.2 ∨ o.2 = N - 1 ∧
        ∃ y ∈ rest, y.1 ≠ x.1 ∧ y.2 = x.2 ∧ eqv x.1 y.1 = true) := by
      intro a b h
      induction h with
      | nil => simp
      | @cons o x _ _ h _ ih =>
        intro o' ho'
        rcases List.mem_cons.1 ho' with rfl | ho'
        · exact ⟨x, by simp, h⟩
        · obtain ⟨x', h1, h2⟩ := ih o' ho'
          exact ⟨x', by simp [h1], h2⟩
    obtain ⟨⟨x1, x2⟩, hx, e1, e2⟩ := this _ _ h5 _ (f2 q hq)
    simp only at e1 e2
    subst e1
    have hrx := r1 q x2 hx
    rcases e2 with e2 | ⟨e2, y, hy, e3, e4, e5⟩
    · left; omega
    · right
      refine ⟨e2, y.1, ?_, e3, ?_⟩
      · exact (hmem _).1 (by rw [← h1]; exact List.mem_map_of_mem hy)
      · have := of_decide_eq_true e5
        exact this.symm
  have hflt : ∀ q < N, f q < N := by
    intro q hq
    rcases hrel q hq with h | h
    · rw [h]; exact hrlt q hq
    · omega
  obtain ⟨v, e, hv⟩ := nicheFold_spec (placed := out) (by rw [hok]; exact hnd) niche hn old N
  refine ⟨v, f, r, frontOf out, ?_, ?_, ?_, ?_, hflt, ?_, hrel, ?_⟩
  · unfold twoRanks
    simp only [hlen]
    exact e
  · intro q hq
    obtain ⟨g1, g2⟩ := frontOf_spec (placed := out) (by rw [hok]; exact hnd) (f q)
    obtain ⟨j, c, k1, k2, k3⟩ := hv q (f q) (f2 q hq) (hflt q hq)
    refine ⟨g1, fun x => ?_, j, c, k1, k2, k3⟩
    rw [g2]
    constructor
    · intro hx
      have hxN : x < N := (hmem x).1 (by rw [← hok]; exact List.mem_map_of_mem (f := Prod.fst) hx)
      exact ⟨hxN, f1 x _ hx⟩
    · rintro ⟨hxN, hx⟩
      rw [← hx]; exact f2 x hxN
  · intro q hq
    refine isDepth_of_local (mem := (· < N)) (dom := DomOf mx ov) (r := fun q => r q + 1) ?_ ?_ ?_ q hq
    · intro q _; simp
    · intro q hq p hp hd
      have := h2.gt _ (r2 q hq) _ (r2 p hp) hd
      simp only at *; omega
    · intro q hq
      rcases h2.step _ (r2 q hq) with h | ⟨y, hy, hd, he⟩
      · left; simp only at *; omega
      · right
        have hyN : y.1 < N := (hmem _).1 (by rw [← h1]; exact List.mem_map_of_mem hy)
        refine ⟨y.1, hyN, hd, ?_⟩
        rw [r1 y.1 y.2 hy]
        simp only at he; omega
  · intro p hp q hq hd
    exact h2.gt _ (r2 q hq) _ (r2 p hp) hd
  · intro hdc q hq
    have : (q, f q) ∈ rest := by rw [← h3 hdc]; exact f2 q hq
    exact (r1 q _ this).symm
  · intro q hq
    obtain ⟨o, ho, e1, e2⟩ := h4 _ (r2 q hq)
    have hoN : o.1 < N := (hmem _).1 (by rw [← hok]; exact List.mem_map_of_mem ho)
    exact ⟨o.1, hoN, e2, by rw [f1 o.1 o.2 ho, e1]⟩

/-- Two objectives, whatever their directions, with repeated vectors or not: good worths (the flag that
removes clones is off). Values of an objective are equal or differ by the tolerance at least; any result of
the sort is allowed. -/
theorem C162_two [FloorRing F] (mx : Fin 2 → Bool) (tol max1 : F) (ht : 0 < tol) (N : Nat) (hN : 0 < N)
    (ov : Nat → Fin 2 → F) (hg : OnGrid N tol ov) (order : List Nat) (hperm : order.Perm (List.range N))
    (hs : order.Pairwise fun a b => sorter mx tol (ov b) (ov a) = false)
    (niche : List Nat → List F) (hn : ∀ l, (niche l).length = l.length)
    (hok : NicheOk N (DomOf mx ov) niche) (old : Nat → F) :
    ∃ w, rankToWorth N (twoRanks mx max1 (fun p q => decide (ov p = ov q)) false ov niche order old) =
        .ok w ∧ GoodWorths N (DomOf mx ov) niche w := by
  obtain ⟨v, f, r, fr, e, hp, hd, hgt, _, hfr, _⟩ := two_placed (max1 := max1) ht hg false hperm hs niche hn old
  rw [e]
  have hfr := hfr rfl
  refine worths_of_placed hN hn (r := f) ?_ ?_ hp hok
  · intro q hq; rw [hfr q hq]; exact hd q hq
  · intro p hp q hq h
    rw [hfr p hp, hfr q hq]; exact hgt p hp q hq h

/-- With the flag that removes clones: the integer below the rank of an individual is its depth (counted from
0), unless another individual has the same vector, when it may be `N - 1`, the number of the last front
there can be; and one of the individuals with this vector has its depth. -/
theorem C162_declone [FloorRing F] (mx : Fin 2 → Bool) (tol max1 : F) (ht : 0 < tol) (N : Nat)
    (ov : Nat → Fin 2 → F) (hg : OnGrid N tol ov) (order : List Nat) (hperm : order.Perm (List.range N))
    (hs : order.Pairwise fun a b => sorter mx tol (ov b) (ov a) = false)
    (niche : List Nat → List F) (hn : ∀ l, (niche l).length = l.length)
    (hok : ∀ l, ∀ c ∈ niche l, 0 ≤ c) (old : Nat → F) :
    ∃ v, twoRanks mx max1 (fun p q => decide (ov p = ov q)) true ov niche order old = .ok v ∧
      ∀ q < N, ∀ k, IsDepth (· < N) (DomOf mx ov) q k →
        (⌊v q⌋ + 1 = k ∨ ⌊v q⌋ + 1 = N ∧ ∃ p < N, p ≠ q ∧ ov p = ov q) ∧
        ∃ p < N, ov p = ov q ∧ ⌊v p⌋ + 1 = k := by
  obtain ⟨v, f, r, fr, e, hp, hd, hgt, hflt, _, hrel, hkeep⟩ :=
    two_placed (max1 := max1) ht hg true hperm hs niche hn old
  have hfl : ∀ q < N, ⌊v q⌋ = f q := by
    intro q hq
    obtain ⟨_, _, j, c, hj, hc, e⟩ := hp q hq
    have hc' := List.mem_of_getElem? hc
    have h0 := hok _ c hc'
    have h1 := le_maxElt hc'
    have h2 : (0 : F) < maxElt (niche (fr (f q))) + 1 := by linarith
    have h3 : c / (maxElt (niche (fr (f q))) + 1) < 1 := by rw [div_lt_one h2]; linarith
    have h4 := div_nonneg h0 h2.le
    rw [Int.floor_eq_iff, e]
    push_cast
    constructor <;> linarith
  refine ⟨v, e, ?_⟩
  intro q hq k hk
  have hk' := isDepth_unique hk (hd q hq)
  subst hk'
  constructor
  · rcases hrel q hq with h | ⟨h, h'⟩
    · left; rw [hfl q hq, h]; push_cast; ring
    · right; refine ⟨?_, h'⟩; rw [hfl q hq]; omega
  · obtain ⟨p, hp', e1, e2⟩ := hkeep q hq
    refine ⟨p, hp', e1, ?_⟩
    rw [hfl p hp', e2]; push_cast; ring

/-- One objective: the worths are `1, …, N`, each once, in the order of the fitnesses. `order` is any result
of the sort by decreasing fitness. -/
theorem C162_one (N : Nat) (fit : Nat → F) (order : List Nat) (hperm : order.Perm (List.range N))
    (hs : order.Pairwise fun a b => fit b ≤ fit a) (old : Nat → F) :
    ((List.range N).map (oneWorths order old)).Perm ((List.range N).map fun i => ((i + 1 : Nat) : F)) ∧
    ∀ p < N, ∀ q < N, fit q < fit p → oneWorths order old q < oneWorths order old p := by
  have hlen : order.length = N := by simpa using hperm.length_eq
  have hnd : order.Nodup := hperm.nodup_iff.2 List.nodup_range
  have hkeys : (order.zipIdx.map Prod.fst) = order := by simp
  obtain ⟨h1, -⟩ := foldl_put (fun x : Nat × Nat => ((order.length - x.2 : Nat) : F)) order.zipIdx old
    (by rw [hkeys]; exact hnd)
  have hval : ∀ i (hi : i < order.length), oneWorths order old order[i] = ((N - i : Nat) : F) := by
    intro i hi
    have := h1 (order[i], i) (by
      rw [List.mem_zipIdx_iff_getElem?]; simp [hi])
    unfold oneWorths
    rw [this, hlen]
  constructor
  · have h2 : ((List.range N).map (oneWorths order old)).Perm (order.map (oneWorths order old)) :=
      hperm.symm.map _
    refine h2.trans ?_
    have h3 : order.map (oneWorths order old) = (List.range N).map fun i => ((N - i : Nat) : F) := by
      apply List.ext_getElem
      · simp [hlen]
      · intro i hi _
        simp only [List.getElem_map, List.getElem_range]
        exact hval i (by simpa using hi)
    rw [h3]
    have h4 : (List.range N).map (fun i => ((N - i : Nat) : F)) =
        ((List.range N).map fun i => ((i + 1 : Nat) : F)).reverse := by
      apply List.ext_getElem
      · simp
      · intro i hi _
        simp only [List.length_map, List.length_range] at hi
        simp only [List.getElem_map, List.getElem_range, List.getElem_reverse, List.length_map,
          List.length_range]
        congr 1; omega
    rw [h4]
    exact List.reverse_perm _
  · intro p hp q hq hlt
    obtain ⟨i, hi, rfl⟩ := List.getElem_of_mem (hperm.mem_iff.2 (List.mem_range.2 hp))
    obtain ⟨j, hj, rfl⟩ := List.getElem_of_mem (hperm.mem_iff.2 (List.mem_range.2 hq))
    rw [hval i hi, hval j hj]
    have : i < j := by
      rcases Nat.lt_trichotomy i j with h | h | h
      · exact h
      · subst h; exact absurd hlt (lt_irrefl _)
      · exact absurd (List.pairwise_iff_getElem.1 hs j i hj hi h) (not_le.2 hlt)
    exact_mod_cast (show N - j < N - i by omega)

example : (List.range 3).map (oneWorths [1, 2, 0] fun _ => (7 : ℚ)) = [1, 3, 2] := by decide +kernel

/-! ### Penalties -/

/-- The penalties of `eoNDSorting_I` are one for each member of the front and never negative: they can be used
with `C162_general`, `C162_two` and `C162_declone`, whatever the niche size. -/
theorem C162_penalties_I {m : Nat} (nicheSize : F) (ov : Nat → Fin m → F) (front : List Nat) :
    (nicheI nicheSize ov front).length = front.length ∧ ∀ c ∈ nicheI nicheSize ov front, 0 ≤ c := by
  refine ⟨by simp [nicheI], ?_⟩
  intro c hc
  unfold nicheI at hc
  obtain ⟨i, _, rfl⟩ := List.mem_map.1 hc
  have : ∀ (l : List Nat) (a : F), 0 ≤ a → 0 ≤ l.foldl (fun acc j =>
      if i = j then acc
      else
        let dist := sqDist (ov (front.getD i 0)) (ov (front.getD j 0))
        if dist < nicheSize then acc + (1 - (dist / nicheSize) ^ 2) else acc) a := by
    intro l
    induction l with
    | nil => intro a ha; simpa using ha
    | cons j l ih =>
      intro a ha
      rw [List.foldl_cons]
      apply ih
      split
      · exact ha
      · simp only
        split
        · rename_i hlt
          have h0 : (0 : F) ≤ sqDist (ov (front.getD i 0)) (ov (front.getD j 0)) :=
            Finset.sum_nonneg fun k _ => mul_self_nonneg _
          have hpos : 0 < nicheSize := lt_of_le_of_lt h0 hlt
          have h1 : sqDist (ov (front.getD i 0)) (ov (front.getD j 0)) / nicheSize ≤ 1 := by
            rw [div_le_one hpos]; exact hlt.le
          have h2 := div_nonneg h0 hpos.le
          have h3 : (sqDist (ov (front.getD i 0)) (ov (front.getD j 0)) / nicheSize) ^ 2 ≤ 1 :=
            pow_le_one₀ h2 h1
          linarith
        · exact ha
  exact this _ 0 le_rfl

theorem getD_lt {α : Type} {l : List α} {k : Nat} (h : k < l.length) (d : α) : l.getD k d = l[k] := by
  simp [List.getD, List.getElem?_eq_getElem h]

/-- What `std::sort` promises on the pairs (value, position). -/
def SortsPairs (srt : List (F × Nat) → List (F × Nat)) : Prop :=
  ∀ l, (srt l).Perm l ∧ (srt l).Pairwise fun a b => a.1 ≤ b.1

theorem foldl_add_eq {ι : Type} (l : List ι) (g : ι → F) (a : F) :
    l.foldl (fun acc o => acc + g o) a = a + (l.map g).sum := by
  induction l generalizing a with
  | nil => simp
  | cons x l ih => rw [List.foldl_cons, ih, List.map_cons, List.sum_cons]; ring

/-- One objective of one front of at least two individuals: the first and the last get nothing, the others at
least one. -/
theorem crowd_term {n : Nat} (hn : 2 ≤ n) {perf : List (F × Nat)} (hp : (perf.map Prod.snd).Perm (List.range n)) :
    ∀ k < n, (k = 0 ∨ k = n - 1 → crowdMax n perf + 1 - crowd n perf (perf.getD k (0, 0)).2 = 0) ∧
      (k ≠ 0 → k ≠ n - 1 → 1 ≤ crowdMax n perf + 1 - crowd n perf (perf.getD k (0, 0)).2) := by
  have hlen : perf.length = n := by simpa using hp.length_eq
  have hnd : (perf.map Prod.snd).Nodup := hp.nodup_iff.2 List.nodup_range
  have hinj : ∀ i j, i < n → j < n → (perf.getD i (0, 0)).2 = (perf.getD j (0, 0)).2 → i = j := by
    intro i j hi hj h
    have hi' : i < perf.length := by omega
    have hj' : j < perf.length := by omega
    have := List.nodup_iff_injective_get.1 hnd
    have h3 := @this ⟨i, by simp; omega⟩ ⟨j, by simp; omega⟩ (by
      simp [List.getD, List.getElem?_eq_getElem hi', List.getElem?_eq_getElem hj'] at h
      simpa using h)
    simpa using h3
  have hsnd : ∀ k < n, (perf.getD k (0, 0)).2 < n := by
    intro k hk
    have hk' : k < perf.length := by omega
    have : (perf.getD k (0, 0)).2 ∈ perf.map Prod.snd := by
      simp only [List.getD, List.getElem?_eq_getElem hk', Option.getD_some]
      exact List.mem_map_of_mem (List.getElem_mem hk')
    simpa using hp.mem_iff.1 this
  obtain ⟨h1, h2⟩ := crowdBase_spec hlen hnd
  intro k hk
  have hcr : crowd n perf (perf.getD k (0, 0)).2 = if k = 0 ∨ k = n - 1 then crowdMax n perf + 1
      else crowdBase n perf (perf.getD k (0, 0)).2 := by
    unfold crowd
    have hb0 : ∀ k, k < n → (k = 0 ∨ k = n - 1) → crowdBase n perf (perf.getD k (0, 0)).2 = 0 := by
      intro k hk hk'
      apply h2
      intro i hi hi' he
      have := hinj i k (by omega) hk he
      omega
    have h0n : (perf.getD 0 (0, 0)).2 ≠ (perf.getD (n - 1) (0, 0)).2 := fun e => by
      have := hinj 0 (n - 1) (by omega) (by omega) e; omega
    by_cases e1 : k = n - 1
    · subst e1
      rw [put_same, put_ne _ _ h0n.symm, hb0 (n - 1) hk (Or.inr rfl)]
      simp
    · have hne : (perf.getD k (0, 0)).2 ≠ (perf.getD (n - 1) (0, 0)).2 := fun e =>
        e1 (hinj k (n - 1) hk (by omega) e)
      rw [put_ne _ _ hne]
      by_cases e0 : k = 0
      · subst e0
        rw [put_same, hb0 0 hk (Or.inl rfl)]
        simp
      · have hne : (perf.getD k (0, 0)).2 ≠ (perf.getD 0 (0, 0)).2 := fun e => e0 (hinj k 0 hk (by omega) e)
        rw [put_ne _ _ hne]
        simp [e0, e1]
  rw [hcr]
  constructor
  · intro h; rw [if_pos h]; ring
  · intro e0 e1
    rw [if_neg (by simp [e0, e1])]
    have : crowdBase n perf (perf.getD k (0, 0)).2 ≤ crowdMax n perf :=
      le_maxElt (List.mem_map_of_mem (List.mem_range.2 (hsnd k hk)))
    linarith

/-- The penalties of `eoNDSorting_II` are one for each member of the front. On a front of at least two
individuals they are not negative; an individual that is alone smallest or alone largest on every objective
has no penalty; one that is between two others on some objective has at least 1. -/
theorem C162_penalties_II {m : Nat} (srt : List (F × Nat) → List (F × Nat)) (hsrt : SortsPairs srt)
    (ov : Nat → Fin m → F) (front : List Nat) :
    (nicheII srt ov front).length = front.length ∧
    (2 ≤ front.length →
      (∀ c ∈ nicheII srt ov front, 0 ≤ c) ∧
      (∀ (i : Nat) (x : Nat) (c : F), front[i]? = some x → (nicheII srt ov front)[i]? = some c →
        (∀ o, (∀ (j : Nat) (y : Nat), front[j]? = some y → j ≠ i → ov x o < ov y o) ∨
          (∀ (j : Nat) (y : Nat), front[j]? = some y → j ≠ i → ov y o < ov x o)) → c = 0) ∧
      (∀ (i : Nat) (x : Nat) (c : F), front[i]? = some x → (nicheII srt ov front)[i]? = some c →
        (∃ o y z, y ∈ front ∧ z ∈ front ∧ ov y o < ov x o ∧ ov x o < ov z o) → 1 ≤ c)) := by
  refine ⟨by simp [nicheII], ?_⟩
  intro h2
  set n := front.length with hn
  set perf := fun o : Fin m => srt ((List.range n).map fun i => (ov (front.getD i 0) o, i)) with hperf
  have hpm : ∀ o, (perf o).Perm ((List.range n).map fun i => (ov (front.getD i 0) o, i)) := fun o => (hsrt _).1
  have hp : ∀ o, ((perf o).map Prod.snd).Perm (List.range n) := by
    intro o
    have := (hpm o).map Prod.snd
    rw [List.map_map] at this
    have e : (Prod.snd ∘ fun i => (ov (front.getD i 0) o, i)) = id := rfl
    rw [e, List.map_id] at this
    exact this
  have hlen : ∀ o, (perf o).length = n := fun o => by simpa using (hp o).length_eq
  have hpos : ∀ o, ∀ i < n, ∃ k < n, (perf o).getD k (0, 0) = (ov (front.getD i 0) o, i) := by
    intro o i hi
    have : (ov (front.getD i 0) o, i) ∈ perf o := (hpm o).mem_iff.2 (List.mem_map.2 ⟨i, by simpa using hi, rfl⟩)
    obtain ⟨k, hk, e⟩ := List.getElem_of_mem this
    exact ⟨k, by rw [← hlen o]; exact hk, by simp [List.getD, List.getElem?_eq_getElem hk, e]⟩
  -- values in perf are sorted, and come from the front
  have hsorted : ∀ o i j, i < j → j < n → ((perf o).getD i (0, 0)).1 ≤ ((perf o).getD j (0, 0)).1 := by
    intro o i j hij hj
    have hi' : i < (perf o).length := by rw [hlen]; omega
    have hj' : j < (perf o).length := by rw [hlen]; omega
    have := List.pairwise_iff_getElem.1 (hsrt ((List.range n).map fun i => (ov (front.getD i 0) o, i))).2
      i j hi' hj' hij
    rw [getD_lt hi', getD_lt hj']
    exact this
  have hfrom : ∀ o, ∀ k < n, ∃ i < n, (perf o).getD k (0, 0) = (ov (front.getD i 0) o, i) := by
    intro o k hk
    have hk' : k < (perf o).length := by rw [hlen]; omega
    have := (hpm o).mem_iff.1 (List.getElem_mem hk')
    obtain ⟨i, hi, e⟩ := List.mem_map.1 this
    exact ⟨i, by simpa using hi, by rw [getD_lt hk', e]⟩
  have hget : ∀ (i : Nat) (c : F), (nicheII srt ov front)[i]? = some c → i < n ∧
      c = ((List.finRange m).map fun o => crowdMax n (perf o) + 1 - crowd n (perf o) i).sum := by
    intro i c hc
    obtain ⟨hi, rfl⟩ := List.getElem?_eq_some_iff.1 hc
    have hi' : i < n := by simpa [nicheII, ← hn] using hi
    refine ⟨hi', ?_⟩
    simp only [nicheII, List.getElem_map, List.getElem_range]
    rw [foldl_add_eq, zero_add]
  have hterm : ∀ o, ∀ i < n, 0 ≤ crowdMax n (perf o) + 1 - crowd n (perf o) i := by
    intro o i hi
    obtain ⟨k, hk, e⟩ := hpos o i hi
    obtain ⟨t1, t2⟩ := crowd_term h2 (hp o) k hk
    rw [e] at t1 t2
    by_cases hc : k = 0 ∨ k = n - 1
    · exact (t1 hc).ge
    · rw [not_or] at hc
      exact zero_le_one.trans (t2 hc.1 hc.2)
  have hfr : ∀ i < n, front[i]? = some (front.getD i 0) := by
    intro i hi
    simp [List.getD, List.getElem?_eq_getElem (hn ▸ hi)]
  refine ⟨?_, ?_, ?_⟩
  · intro c hc
    obtain ⟨i, hi⟩ := List.mem_iff_getElem?.1 hc
    obtain ⟨hin, rfl⟩ := hget i c hi
    apply List.sum_nonneg
    intro x hx
    obtain ⟨o, _, rfl⟩ := List.mem_map.1 hx
    exact hterm o i hin
  · intro i x c hx hc hext
    obtain ⟨hin, rfl⟩ := hget i c hc
    apply List.sum_eq_zero
    intro t ht
    obtain ⟨o, _, rfl⟩ := List.mem_map.1 ht
    obtain ⟨k, hk, e⟩ := hpos o i hin
    have hxe : front.getD i 0 = x := by simp [List.getD, hx]
    rw [hxe] at e
    obtain ⟨t1, _⟩ := crowd_term h2 (hp o) k hk
    rw [e] at t1
    apply t1
    rcases hext o with h | h
    · left
      by_contra hk0
      obtain ⟨j, hj, e'⟩ := hfrom o 0 (by omega)
      have hle := hsorted o 0 k (by omega) hk
      rw [e, e'] at hle
      by_cases hji : j = i
      · subst hji
        have hz : ((perf o).getD 0 (0, 0)) = (perf o).getD k (0, 0) := by rw [e, e', hxe]
        have hnd : ((perf o).map Prod.snd).Nodup := (hp o).nodup_iff.2 List.nodup_range
        have h0' : 0 < (perf o).length := by rw [hlen]; omega
        have hk' : k < (perf o).length := by rw [hlen]; omega
        rw [getD_lt h0', getD_lt hk'] at hz
        have := ((List.Nodup.of_map _ hnd).getElem_inj_iff).1 hz
        omega
      · exact absurd hle (not_le.2 (h j _ (hfr j hj) hji))
    · right
      by_contra hkl
      obtain ⟨j, hj, e'⟩ := hfrom o (n - 1) (by omega)
      have hle := hsorted o k (n - 1) (by omega) (by omega)
      rw [e, e'] at hle
      by_cases hji : j = i
      · subst hji
        have hz : ((perf o).getD (n - 1) (0, 0)) = (perf o).getD k (0, 0) := by rw [e, e', hxe]
        have hnd : ((perf o).map Prod.snd).Nodup := (hp o).nodup_iff.2 List.nodup_range
        have h0' : n - 1 < (perf o).length := by rw [hlen]; omega
        have hk' : k < (perf o).length := by rw [hlen]; omega
        rw [getD_lt h0', getD_lt hk'] at hz
        have := ((List.Nodup.of_map _ hnd).getElem_inj_iff).1 hz
        omega
      · exact absurd hle (not_le.2 (h j _ (hfr j hj) hji))
  · rintro i x c hx hc ⟨o, y, z, hy, hz, hyx, hxz⟩
    obtain ⟨hin, rfl⟩ := hget i c hc
    have hxe : front.getD i 0 = x := by simp [List.getD, hx]
    obtain ⟨k, hk, e⟩ := hpos o i hin
    rw [hxe] at e
    obtain ⟨_, t2⟩ := crowd_term h2 (hp o) k hk
    rw [e] at t2
    have hone : 1 ≤ crowdMax n (perf o) + 1 - crowd n (perf o) i := by
      apply t2
      · rintro rfl
        obtain ⟨j, hj⟩ := List.mem_iff_getElem?.1 hy
        have hjn : j < n := (List.getElem?_eq_some_iff.1 hj).1
        obtain ⟨k', hk', e'⟩ := hpos o j hjn
        have hye : front.getD j 0 = y := by simp [List.getD, hj]
        rw [hye] at e'
        rcases Nat.eq_zero_or_pos k' with rfl | hpos'
        · rw [e] at e'
          have := congrArg Prod.fst e'
          simp only at this
          rw [this] at hyx; exact lt_irrefl _ hyx
        · have := hsorted o 0 k' hpos' hk'
          rw [e, e'] at this
          exact absurd hyx (not_lt.2 this)
      · rintro rfl
        obtain ⟨j, hj⟩ := List.mem_iff_getElem?.1 hz
        have hjn : j < n := (List.getElem?_eq_some_iff.1 hj).1
        obtain ⟨k', hk', e'⟩ := hpos o j hjn
        have hye : front.getD j 0 = z := by simp [List.getD, hj]
        rw [hye] at e'
        rcases Nat.lt_or_ge k' (n - 1) with hlt | hge
        · have := hsorted o k' (n - 1) hlt (by omega)
          rw [e, e'] at this
          exact absurd hxz (not_lt.2 this)
        · have : k' = n - 1 := by omega
          subst this
          rw [e] at e'
          have := congrArg Prod.fst e'
          simp only at this
          rw [this] at hxz; exact lt_irrefl _ hxz
    refine hone.trans ?_
    have hmem : crowdMax n (perf o) + 1 - crowd n (perf o) i ∈
        (List.finRange m).map fun o => crowdMax n (perf o) + 1 - crowd n (perf o) i :=
      List.mem_map.2 ⟨o, List.mem_finRange o, rfl⟩
    refine List.single_le_sum ?_ _ hmem
    intro t ht
    obtain ⟨o', _, rfl⟩ := List.mem_map.1 ht
    exact hterm o' i hin

/-- **Defect.** A front of one individual: the penalty is `-m` for `m` objectives, so with two objectives or more
the rank of the individual is `m / (m - 1)` above the number of its front, beyond the next front. -/
theorem C162_singleton_front {m : Nat} (hm : 2 ≤ m) (srt : List (F × Nat) → List (F × Nat))
    (hsrt : SortsPairs srt) (ov : Nat → Fin m → F) (x : Nat) (i : Nat) (v : Nat → F) :
    nicheII srt ov [x] = [-(m : F)] ∧
    assignFront i [x] (nicheII srt ov [x]) v x = (i : F) + (m : F) / ((m : F) - 1) ∧
    (i : F) + 1 < assignFront i [x] (nicheII srt ov [x]) v x := by
  have h1 : nicheII srt ov [x] = [-(m : F)] := by
    have hs : ∀ o : Fin m, srt [(ov x o, 0)] = [(ov x o, 0)] := fun o =>
      List.perm_singleton.1 (hsrt [(ov x o, 0)]).1
    have hterm : ∀ o : Fin m, crowdMax 1 [(ov x o, 0)] + 1 - crowd 1 [(ov x o, 0)] 0 = -1 := by
      intro o
      simp [crowd, crowdMax, crowdBase, maxElt]
    have : nicheII srt ov [x] =
        [(List.finRange m).foldl (fun acc o => acc + (crowdMax 1 [(ov x o, 0)] + 1 - crowd 1 [(ov x o, 0)] 0)) 0] := by
      simp [nicheII, hs]
    rw [this]
    simp only [hterm]
    rw [foldl_add_eq]
    simp
  have hm' : (2 : F) ≤ (m : F) := by exact_mod_cast hm
  have h2 : assignFront i [x] (nicheII srt ov [x]) v x = (i : F) + (m : F) / ((m : F) - 1) := by
    rw [h1]
    simp only [assignFront, List.zip_cons_cons, List.zip_nil_right, List.foldl_cons, List.foldl_nil, put_same,
      maxElt]
    congr 1
    rw [show -(m : F) + 1 = -((m : F) - 1) by ring, neg_div_neg_eq]
  refine ⟨h1, h2, ?_⟩
  rw [h2]
  have : 1 < (m : F) / ((m : F) - 1) := by
    rw [lt_div_iff₀ (by linarith)]; linarith
  linarith

end

/-- **Defect.** With `eoNDSorting_II` and two minimised objectives, an individual that dominates both others is
worth less than each of them. -/
theorem C162_best_is_worst :
    let ov : Nat → Fin 2 → ℚ := fun i => if i = 0 then ![0, 0] else if i = 1 then ![1, 2] else ![2, 1]
    let srt : List (ℚ × Nat) → List (ℚ × Nat) := fun l => l.insertionSort fun a b => a.1 ≤ b.1
    let mx : Fin 2 → Bool := fun _ => false
    [0, 1, 2].Pairwise (fun a b => sorter mx (1/2) (ov b) (ov a) = false) ∧
    (∀ q, q = 1 ∨ q = 2 → DomOf mx ov 0 q) ∧
    ∃ w, rankToWorth 3 (twoRanks mx 3 (fun p q => decide (ov p = ov q)) false ov (nicheII srt ov) [0, 1, 2]
      fun _ => 0) = .ok w ∧ (List.range 3).map w = [0, 1, 1] := by
  refine ⟨by decide +kernel, ?_, ?_⟩
  · rintro q (rfl | rfl)
    · exact ⟨fun k => by fin_cases k <;> simp [NoWorse, minimised], 0, by simp [Better, minimised]⟩
    · exact ⟨fun k => by fin_cases k <;> simp [NoWorse, minimised], 0, by simp [Better, minimised]⟩
  · exact ⟨_, rfl, by decide +kernel⟩

/-! The hypotheses of `C162_two` and what it gives, on five vectors with a clone and opposite directions. -/
section
/-- Objective 0 minimised, objective 1 maximised. -/
def exOv (i : Nat) : Fin 2 → ℚ := ([![1, 4], ![2, 3], ![1, 4], ![3, 6], ![2, 5]] : List (Fin 2 → ℚ)).getD i ![0, 0]
def exMx : Fin 2 → Bool := ![false, true]
example : [2, 0, 4, 1, 3].Pairwise fun a b => sorter exMx (1/2) (exOv b) (exOv a) = false := by decide +kernel
example : [2, 0, 4, 1, 3].Perm (List.range 5) := by decide +kernel
example : ∀ p < 5, ∀ q < 5, ∀ k : Fin 2, exOv p k = exOv q k ∨ (1/2 : ℚ) ≤ |exOv p k - exOv q k| := by
  decide +kernel
example : (match rankToWorth 5 (twoRanks exMx 7 (fun p q => decide (exOv p = exOv q)) false exOv
    (nicheI 10 exOv) [2, 0, 4, 1, 3] fun _ => 0) with
    | .ok w => (List.range 5).map w
    | _ => []) = [39/97, 0, 39/97, 55/97, 25/97] := by decide +kernel
end

/-! ## C163 -/

section
variable {ι Φ W : Type} [DecidableEq Φ]

theorem zip_all_iff (fit : ι → Φ) (c : List Φ) (pop : List ι) (h : c.length = pop.length) :
    (c.zip pop).all (fun x => decide (x.1 = fit x.2)) = true ↔ c = pop.map fit := by
  induction c generalizing pop with
  | nil => cases pop <;> simp_all
  | cons a c ih =>
    cases pop with
    | nil => simp at h
    | cons b pop =>
      simp only [List.length_cons, Nat.add_right_cancel_iff] at h
      have := ih pop h
      simp only [List.zip_cons_cons, List.all_cons, Bool.and_eq_true, decide_eq_true_eq, this, List.map_cons,
        List.cons.injEq]

/-- When the worths are a function `g` of the fitnesses: after any sequence of calls on any populations the
worths are those of the population of the last call, and the cache holds its fitnesses. -/
theorem C163_fresh (fit : ι → Φ) (g : List Φ → List W) (h0 : g [] = []) (pops : List (List ι)) (pop : List ι) :
    let s := (pops ++ [pop]).foldl (Cached.call fit fun p => g (p.map fit)) ⟨[], []⟩
    s.worths = g (pop.map fit) ∧ s.cache = pop.map fit := by
  have step : ∀ (s : Cached Φ W) (pop : List ι), s.worths = g s.cache →
      let t := s.call fit (fun p => g (p.map fit)) pop
      t.worths = g (pop.map fit) ∧ t.cache = pop.map fit := by
    intro s pop hs
    unfold Cached.call
    by_cases hl : s.cache.length = pop.length
    · simp only [if_pos hl]
      by_cases ha : (s.cache.zip pop).all (fun x => decide (x.1 = fit x.2)) = true
      · have := (zip_all_iff fit _ _ hl).1 ha
        simp only [ha, if_true]
        exact ⟨by rw [hs, this], this⟩
      · simp only [ha, Bool.false_eq_true, if_false, and_self]
    · simp only [if_neg hl, and_self]
  have hall : ∀ (l : List (List ι)) (s : Cached Φ W), s.worths = g s.cache →
      (l.foldl (Cached.call fit fun p => g (p.map fit)) s).worths =
        g (l.foldl (Cached.call fit fun p => g (p.map fit)) s).cache := by
    intro l
    induction l with
    | nil => intro s hs; exact hs
    | cons p l ih =>
      intro s hs
      rw [List.foldl_cons]
      apply ih
      obtain ⟨h1, h2⟩ := step s p hs
      rw [h1, h2]
  intro s
  have : s = (pops.foldl (Cached.call fit fun p => g (p.map fit)) ⟨[], []⟩).call fit
      (fun p => g (p.map fit)) pop := by simp [s, List.foldl_append]
  rw [this]
  exact step _ pop (hall pops ⟨[], []⟩ (by simp [h0]))

theorem mapM_getElem {α : Type} (l : List α) (is : List Nat) (h : ∀ i ∈ is, i < l.length) (d : α) :
    is.mapM (fun i => l[i]?) = some (is.map fun i => l.getD i d) := by
  induction is with
  | nil => rfl
  | cons i is ih =>
    have hi := h i (by simp)
    rw [List.mapM_cons, ih fun j hj => h j (by simp [hj])]
    simp [List.getElem?_eq_getElem hi]

/-- Sorting by worth: population, worths and cache are rearranged alike, the worths decrease, and the next call
on the population computes nothing again. -/
theorem C163_sort [LinearOrder W] [Inhabited ι] [Inhabited Φ] [Inhabited W] (fit : ι → Φ)
    (compute : List ι → List W) (s : Cached Φ W) (pop : List ι) (hw : s.worths.length = pop.length)
    (hc : s.cache = pop.map fit) (indices : List Nat) (hperm : indices.Perm (List.range pop.length))
    (hs : indices.Pairwise fun a b => s.worths.getD b default ≤ s.worths.getD a default) :
    ∃ pop' s', s.sortPop indices pop = some (pop', s') ∧
      (pop'.zip s'.worths).Perm (pop.zip s.worths) ∧ pop'.length = s'.worths.length ∧
      (s'.worths.Pairwise fun a b => b ≤ a) ∧ s'.cache = pop'.map fit ∧ s'.call fit compute pop' = s' := by
  have hlt : ∀ i ∈ indices, i < pop.length := fun i hi => List.mem_range.1 (hperm.mem_iff.1 hi)
  have e1 := mapM_getElem pop indices hlt default
  have e2 := mapM_getElem s.worths indices (fun i hi => by rw [hw]; exact hlt i hi) default
  have e3 := mapM_getElem s.cache indices (fun i hi => by rw [hc, List.length_map]; exact hlt i hi) default
  have hcache : (indices.map fun i => s.cache.getD i default) =
      (indices.map fun i => pop.getD i default).map fit := by
    rw [List.map_map]
    apply List.map_congr_left
    intro i hi
    have := hlt i hi
    simp [hc, List.getD, List.getElem?_eq_getElem this]
  refine ⟨indices.map fun i => pop.getD i default, ⟨indices.map fun i => s.worths.getD i default,
    indices.map fun i => s.cache.getD i default⟩, ?_, ?_, by simp, ?_, hcache, ?_⟩
  · unfold Cached.sortPop
    rw [e1, e2, e3]
    rfl
  · have h1 : (indices.map fun i => pop.getD i default).zip (indices.map fun i => s.worths.getD i default) =
        indices.map fun i => (pop.getD i default, s.worths.getD i default) := by
      rw [List.zip_map']
    have h2 : pop.zip s.worths =
        (List.range pop.length).map fun i => (pop.getD i default, s.worths.getD i default) := by
      apply List.ext_getElem
      · simp [hw]
      · intro i hi _
        simp only [List.length_zip, hw, min_self] at hi
        rw [List.getElem_zip, List.getElem_map, List.getElem_range, getD_lt hi, getD_lt (by omega)]
    rw [h1, h2]
    exact hperm.map _
  · rw [List.pairwise_map]
    exact hs
  · unfold Cached.call
    rw [if_pos (by simp), if_pos]
    exact (zip_all_iff fit _ _ (by simp)).2 hcache

/-- Truncating: after `resize` the worths of those who stay are kept, and the next call computes nothing again:
the worths remain those of the larger population. -/
theorem C163_truncate (fit : ι → Φ) (compute : List ι → List W) (s : Cached Φ W) (pop : List ι)
    (hc : s.cache = pop.map fit) (sz : Nat) :
    let r := s.resize sz pop
    r.1 = pop.take sz ∧ r.2.worths = s.worths.take sz ∧ r.2.call fit compute r.1 = r.2 := by
  refine ⟨rfl, rfl, ?_⟩
  unfold Cached.resize Cached.call
  have h : s.cache.take sz = (pop.take sz).map fit := by rw [hc, List.map_take]
  simp only
  rw [if_pos (by rw [h, List.length_map]), if_pos]
  exact (zip_all_iff fit _ _ (by rw [h, List.length_map])).2 h

end

/-- The ranks of a population with one objective (as `oneWorths` gives them), for the next theorem. -/
def rankWorths (fits : List Int) : List Nat :=
  fits.map fun f => (fits.filter fun x => x < f).length + 1

/-- **Stale worths.** Ranks of three individuals, the population then truncated to two through the object and
the object called again: the worths are not the ranks in the population that remains. -/
theorem C163_stale :
    let s := Cached.call (fun x : Int => x) rankWorths (⟨[], []⟩ : Cached Int Nat) [30, 20, 10]
    let r := s.resize 2 [30, 20, 10]
    (r.2.call (fun x => x) rankWorths r.1).worths = [3, 2] ∧ rankWorths r.1 = [2, 1] := by decide +kernel

end Paradiseo.Nds
