import Verif.Model.NDSorting
import Verif.Lemmas.MoeoDepth
import Mathlib.Algebra.Order.Field.Basic
import Mathlib.Algebra.Order.Floor.Ring
import Mathlib.Tactic
/-
Lemmas on the non-dominated sorting of EO.
-/
namespace Paradiseo.Nds
open Paradiseo.Moeo

section
variable {F : Type} [Field F] [LinearOrder F]

theorem foldl_put {α : Type} (g : Nat × α → F) (l : List (Nat × α)) (v : Nat → F)
    (hnd : (l.map Prod.fst).Nodup) :
    (∀ x ∈ l, l.foldl (fun v x => put v x.1 (g x)) v x.1 = g x) ∧
    ∀ q, q ∉ l.map Prod.fst → l.foldl (fun v x => put v x.1 (g x)) v q = v q := by
  induction l generalizing v with
  | nil => simp
  | cons a l ih =>
    rw [List.map_cons, List.nodup_cons] at hnd
    obtain ⟨h1, h2⟩ := ih (put v a.1 (g a)) hnd.2
    simp only [List.foldl_cons]
    constructor
    · intro x hx
      rcases List.mem_cons.1 hx with rfl | hx
      · rw [h2 _ hnd.1, put_same]
      · exact h1 x hx
    · intro q hq
      rw [List.map_cons, List.mem_cons, not_or] at hq
      rw [h2 q hq.2, put_ne _ _ hq.1]

theorem assignFront_spec (i : Nat) (front : List Nat) (nc : List F) (v : Nat → F) (hnd : front.Nodup)
    (hlen : nc.length = front.length) :
    (∀ (j : Nat) (q : Nat) (c : F), front[j]? = some q → nc[j]? = some c →
      assignFront i front nc v q = (i : F) + c / (maxElt nc + 1)) ∧
    ∀ q, q ∉ front → assignFront i front nc v q = v q := by
  have hm : (front.zip nc).map Prod.fst = front := List.map_fst_zip (by omega)
  obtain ⟨h1, h2⟩ := foldl_put (fun x : Nat × F => (i : F) + x.2 / (maxElt nc + 1)) (front.zip nc) v
    (by rw [hm]; exact hnd)
  constructor
  · intro j q c hq hc
    have : (q, c) ∈ front.zip nc := by
      apply List.mem_of_getElem? (i := j)
      rw [List.getElem?_zip_eq_some]; exact ⟨hq, hc⟩
    exact h1 _ this
  · intro q hq
    exact h2 q (by rw [hm]; exact hq)

/-! ### Fronts of the general case -/

theorem visit_sim (c : Nat) (l : List Nat) (s : DepthState) :
    l.foldl visit (s.n, s.next) = ((l.foldl (depthVisit c) s).n, (l.foldl (depthVisit c) s).next) := by
  induction l generalizing s with
  | nil => rfl
  | cons a l ih =>
    rw [List.foldl_cons, List.foldl_cons, ← ih]
    congr 1
    unfold visit depthVisit
    simp only []
    split <;> rfl

theorem expandFront_sim (dom : Nat → Nat → Bool) (N c : Nat) (front : List Nat) (s : DepthState)
    (hs : s.next = []) :
    expandFront dom N front s.n = ((depthFront dom N c front s).n, (depthFront dom N c front s).next) := by
  unfold expandFront depthFront
  rw [← hs]
  generalize s = t
  induction front generalizing t with
  | nil => rfl
  | cons p l ih =>
    rw [List.foldl_cons, List.foldl_cons, visit_sim c, ih]

/-- The individuals are placed on fronts: `r q` is the number of the front of `q`, counted from 0, and the
value of `q` is that number plus its part of the penalties of its front `fr (r q)`. -/
def Placed (N : Nat) (niche : List Nat → List F) (fr : Nat → List Nat) (r : Nat → Nat) (v : Nat → F) :
    Prop :=
  ∀ q < N, (fr (r q)).Nodup ∧ (∀ x, x ∈ fr (r q) ↔ x < N ∧ r x = r q) ∧
    ∃ (j : Nat) (c : F), (fr (r q))[j]? = some q ∧ (niche (fr (r q)))[j]? = some c ∧
      v q = (r q : F) + c / (maxElt (niche (fr (r q))) + 1)

/-- The ranks once given stay. -/
theorem depthFront_fit {dom : Nat → Nat → Bool} {N c : Nat} (hc : 1 ≤ c) {E todo : List Nat}
    {s : DepthState} (h : DepthInv dom N c E todo s) (q : Nat) (hq : q < N) (x : Nat)
    (hx : s.fit q = some x) : (depthFront dom N c todo s).fit q = some x := by
  induction todo generalizing E s with
  | nil => simpa [depthFront] using hx
  | cons p todo ih =>
    have h' := h.expand hc
    refine ih h' ?_
    obtain ⟨_, h2, _⟩ := visit_fold c (dominatedBy dom N p) s (nodup_dominatedBy dom N p)
    rw [h2, if_neg, hx]
    rintro ⟨hm, hz⟩
    have h0 : s.n q = 0 := (h.some_iff q hq).1 (by rw [hx]; rfl)
    rw [h.cnt q hq, left_zero] at h0
    have hp := h0 p ((h.mem p).1 (by simp)).1 (mem_dominatedBy.1 hm).2
    have := h.nodup
    rw [List.append_assoc, List.nodup_append] at this
    exact this.2.2 p hp p (by simp) rfl

theorem frontLoop_spec {dom : Nat → Nat → Bool} {N : Nat} (hirr : ∀ p, dom p p = false)
    (htr : ∀ p q r, dom p q = true → dom q r = true → dom p r = true)
    (niche : List Nat → List F) (hn : ∀ l, (niche l).length = l.length)
    (fuel i : Nat) (E todo : List Nat) (s : DepthState) (v : Nat → F) (hs : s.next = [])
    (h : DepthInv dom N (i + 1) E todo s) (hlt : ∀ q ∈ E, ∃ x, s.fit q = some x ∧ x < i + 1)
    (hf : N + 1 ≤ fuel + E.length) :
    ∃ (v' : Nat → F) (r : Nat → Nat) (fr : Nat → List Nat), frontLoop dom N niche fuel i todo s.n v = .ok v' ∧ LocalDepth N dom r ∧
      (∀ q < N, ∀ x, s.fit q = some x → r q = x) ∧ (∀ q < N, q ∉ E → i + 1 ≤ r q) ∧
      (∀ q ∈ E, v' q = v q) ∧
      ∀ q < N, q ∉ E → (fr (r q)).Nodup ∧ (∀ x, x ∈ fr (r q) ↔ x < N ∧ r x = r q) ∧
        ∃ (j : Nat) (c : F), (fr (r q))[j]? = some q ∧ (niche (fr (r q)))[j]? = some c ∧
        v' q = ((r q - 1 : Nat) : F) + c / (maxElt (niche (fr (r q))) + 1) := by
  have hlenN : ∀ l : List Nat, l.Nodup → (∀ q ∈ l, q < N) → l.length ≤ N := by
    intro l hl hm
    have := hl.length_le_of_subset (l₂ := List.range N) (fun q hq => List.mem_range.2 (hm q hq))
    simpa using this
  induction fuel generalizing i E todo s v with
  | zero =>
    have := hlenN E (by have := h.nodup; rw [List.append_assoc, List.nodup_append] at this; exact this.1)
      (fun q hq => ((h.mem q).1 (by simp [hq])).1)
    omega
  | succ fuel ih =>
    unfold frontLoop
    by_cases ht : todo = []
    · subst ht
      obtain ⟨r, h1, h2⟩ := h.done hirr htr hs
      have hall : ∀ q < N, q ∈ E := by
        intro q hq
        have := (h.mem q).2 ⟨hq, (h.some_iff q hq).1 (by rw [h1 q hq]; rfl)⟩
        simpa [hs] using this
      refine ⟨v, r, fun _ => [], by simp, h2, ?_, ?_, fun _ _ => rfl, ?_⟩
      · intro q hq x hx
        rw [h1 q hq] at hx; simpa using hx
      · intro q hq hqE; exact absurd (hall q hq) hqE
      · intro q hq hqE; exact absurd (hall q hq) hqE
    · rw [if_neg ht, if_neg (by rw [hn]; simp), expandFront_sim dom N (i + 1) todo s hs]
      have hpos : 0 < todo.length := List.length_pos_iff.2 ht
      have h' := (h.front (by omega)).nextFront
      set s' := depthFront dom N (i + 1) todo s with hs'
      have hnd : (E ++ todo).Nodup := by simpa [hs] using h.nodup
      have hfit : ∀ q < N, ∀ x, s.fit q = some x → s'.fit q = some x := fun q hq x hx =>
        depthFront_fit (by omega) h q hq x hx
      have hmN : ∀ q ∈ E ++ todo, q < N := fun q hq => ((h.mem q).1 (by simp [hs]; simpa using hq)).1
      obtain ⟨v', r, fr, e, hl, h1, h2, h3, h4⟩ := ih (i + 1) (E ++ todo) s'.next { s' with next := [] }
        (assignFront i todo (niche todo) v) rfl h' (by
          intro q hq
          have hqN := hmN q hq
          rcases List.mem_append.1 hq with hq | hq
          · obtain ⟨x, hx, hxl⟩ := hlt q hq
            exact ⟨x, hfit q hqN x hx, by omega⟩
          · exact ⟨i + 1, hfit q hqN _ (h.fitTodo q hq), by omega⟩)
        (by rw [List.length_append]; omega)
      obtain ⟨a1, a2⟩ := assignFront_spec i todo (niche todo) v (List.nodup_append.1 hnd).2.1 (hn todo)
      have hdisj : ∀ q ∈ E, q ∉ todo := fun q hq hq' => (List.nodup_append.1 hnd).2.2 q hq q hq' rfl
      have hrtodo : ∀ q ∈ todo, r q = i + 1 := fun q hq =>
        h1 q (hmN q (by simp [hq])) _ (hfit q (hmN q (by simp [hq])) _ (h.fitTodo q hq))
      refine ⟨v', r, put fr (i + 1) todo, e, hl, ?_, ?_, ?_, ?_⟩
      · intro q hq x hx
        exact h1 q hq x (hfit q hq x hx)
      · intro q hq hqE
        by_cases hqt : q ∈ todo
        · rw [hrtodo q hqt]
        · have := h2 q hq (by simp [hqE, hqt]); omega
      · intro q hq
        rw [h3 q (by simp [hq]), a2 q (hdisj q hq)]
      · intro q hq hqE
        by_cases hqt : q ∈ todo
        · obtain ⟨j, hj⟩ := List.mem_iff_getElem?.1 hqt
          have hjl : j < (niche todo).length := by
            rw [hn]; exact (List.getElem?_eq_some_iff.1 hj).1
          rw [hrtodo q hqt, put_same]
          refine ⟨(List.nodup_append.1 hnd).2.1, ?_, j, (niche todo)[j], hj,
            List.getElem?_eq_getElem hjl, ?_⟩
          · intro x
            constructor
            · intro hx
              exact ⟨hmN x (by simp [hx]), hrtodo x hx⟩
            · rintro ⟨hxN, hxr⟩
              by_contra hxt
              by_cases hxE : x ∈ E
              · obtain ⟨y, hy, hyl⟩ := hlt x hxE
                have := h1 x hxN y (hfit x hxN y hy)
                omega
              · have := h2 x hxN (by simp [hxE, hxt]); omega
          · rw [h3 q (by simp [hqt]), a1 j q _ hj (List.getElem?_eq_getElem hjl)]
            simp
        · have hr := h2 q hq (by simp [hqE, hqt])
          rw [put_ne _ _ (by omega : r q ≠ i + 1)]
          exact h4 q hq (by simp [hqE, hqt])

theorem mRanks_spec {dom : Nat → Nat → Bool} {N : Nat} (hirr : ∀ p, dom p p = false)
    (htr : ∀ p q r, dom p q = true → dom q r = true → dom p r = true)
    (niche : List Nat → List F) (hn : ∀ l, (niche l).length = l.length) (old : Nat → F) :
    ∃ v r fr, mRanks dom N niche old = .ok v ∧ LocalDepth N dom r ∧
      Placed N niche fr (fun q => r q - 1) v := by
  have hasym : ∀ p q, dom p q = true → dom q p = false := by
    intro p q h1
    by_contra h2
    have := htr p q p h1 (by simpa using h2)
    rw [hirr] at this; simp at this
  have hcnt : ∀ q, dominatorCount dom N q = left dom N [] q := fun q => by
    rw [dominatorCount_eq hasym, left_nil]
  set todo := (List.range N).filter fun i => dominatorCount dom N i = 0 with htodo
  have hm : ∀ q, q ∈ todo ↔ q < N ∧ left dom N [] q = 0 := by
    intro q; simp [htodo, hcnt]
  let s : DepthState := ⟨dominatorCount dom N, fun q => if q < N ∧ left dom N [] q = 0 then some 1 else none, []⟩
  have hinv : DepthInv dom N (0 + 1) [] todo s := by
    refine ⟨fun q _ => hcnt q, ?_, ?_, ?_, ?_, ?_, ?_, ?_, ?_, ?_⟩
    · simp only [List.nil_append, s, List.append_nil, htodo]
      exact List.nodup_range.filter _
    · intro q
      simp only [List.nil_append, List.append_nil, hm, s, hcnt]
    · intro q hq
      simp only [s, hcnt q, hq, true_and]
      split <;> simp_all
    · simp
    · intro q hq
      simp only [s, (hm q).1 hq, and_self, if_true]
    · simp [s]
    · intro q hq r hr
      simp only [s] at hr
      split at hr <;> simp_all
    · intro q hq r hr p hp hd
      simp only [s] at hr
      split at hr
      · rename_i hc
        have := left_zero.1 hc.2 p hp hd
        simp at this
      · simp at hr
    · intro q hq r hr
      simp only [s] at hr
      split at hr
      · left; simpa using hr.symm
      · simp at hr
  obtain ⟨v, r, fr, e, hl, -, -, -, h4⟩ := frontLoop_spec hirr htr niche hn (N + 1) 0 [] todo s old rfl
    hinv (by simp) (by simp)
  refine ⟨v, r, fun k => fr (k + 1), e, hl, ?_⟩
  intro q hq
  obtain ⟨h5, h6, j, c, h7, h8, h9⟩ := h4 q hq (by simp)
  have hpos := hl.pos q hq
  have e1 : r q - 1 + 1 = r q := by omega
  simp only [e1]
  refine ⟨h5, ?_, j, c, h7, h8, h9⟩
  intro x
  rw [h6]
  constructor
  · rintro ⟨a, b⟩; exact ⟨a, by simp [b]⟩
  · rintro ⟨a, b⟩
    have := hl.pos x a
    exact ⟨a, by omega⟩

/-! ### Fronts of two objectives -/

/-- Invariant of the loop on the sorted individuals: `past` are those already placed. -/
structure TInv (val : Nat → F) (dom : Nat → Nat → Prop) (past : List (Nat × Nat)) (d : List F) : Prop where
  sorted : d.Pairwise (· ≤ ·)
  len : d.length ≤ past.length
  low : ∀ x ∈ past, ∃ t, d[x.2]? = some t ∧ t ≤ val x.1
  top : ∀ (f : Nat) (t : F), d[f]? = some t → ∃ x ∈ past, x.2 = f ∧ val x.1 = t
  gt : ∀ x ∈ past, ∀ y ∈ past, dom y.1 x.1 → y.2 < x.2
  step : ∀ x ∈ past, x.2 = 0 ∨ ∃ y ∈ past, dom y.1 x.1 ∧ y.2 + 1 = x.2

theorem patienceStep_sorted {d : List F} (hs : d.Pairwise (· ≤ ·)) (v : F) :
    (patienceStep d v).2.Pairwise (· ≤ ·) := by
  unfold patienceStep
  simp only
  split
  · rename_i h
    rw [List.pairwise_append]
    refine ⟨hs, by simp, ?_⟩
    intro a ha b hb
    rw [List.mem_singleton] at hb; subst hb
    obtain ⟨f, hf⟩ := List.mem_iff_getElem?.1 ha
    exact upperBound_lt (by rw [h]; exact (List.getElem?_eq_some_iff.1 hf).1) hf
  · rename_i h
    have hl : upperBound d v < d.length := lt_of_le_of_ne (upperBound_le d v) h
    rw [List.pairwise_iff_getElem]
    intro i j hi hj hij
    rw [List.length_set] at hi hj
    rw [List.getElem_set, List.getElem_set]
    split
    · split
      · exact le_rfl
      · exact (upperBound_ge hs (f := j) (by omega) (List.getElem?_eq_getElem hj)).le
    · split
      · exact upperBound_lt (f := i) (by omega) (List.getElem?_eq_getElem hi)
      · exact List.pairwise_iff_getElem.1 hs i j hi hj hij

theorem patienceStep_get {d : List F} (v : F) (f : Nat) :
    (patienceStep d v).2[f]? = if f = upperBound d v then some v else d[f]? := by
  unfold patienceStep
  simp only
  have hle := upperBound_le d v
  split
  · rename_i h
    rw [h]
    rcases Nat.lt_trichotomy f d.length with h1 | h1 | h1
    · rw [if_neg (by omega), List.getElem?_append_left h1]
    · subst h1; simp
    · rw [if_neg (by omega), List.getElem?_append_right (by omega)]
      rw [List.getElem?_eq_none (by simp; omega), List.getElem?_eq_none (by omega)]
  · rename_i h
    rw [List.getElem?_set]
    by_cases hf : upperBound d v = f
    · subst hf
      rw [if_pos rfl, if_pos rfl, if_pos (by omega)]
    · rw [if_neg hf, if_neg (fun e => hf e.symm)]

theorem patienceStep_len {d : List F} (v : F) : (patienceStep d v).2.length ≤ d.length + 1 := by
  unfold patienceStep
  simp only
  split <;> simp

/-- A new individual that equals none before. -/
theorem TInv.new {val : Nat → F} {dom : Nat → Nat → Prop} {past : List (Nat × Nat)} {d : List F}
    (h : TInv val dom past d) {x : Nat} (hx : ¬ dom x x) (hback : ∀ y ∈ past, ¬ dom x y.1)
    (hfwd : ∀ y ∈ past, (dom y.1 x ↔ val y.1 ≤ val x)) :
    TInv val dom (past ++ [(x, (patienceStep d (val x)).1)]) (patienceStep d (val x)).2 := by
  have hfst : (patienceStep d (val x)).1 = upperBound d (val x) := rfl
  rw [hfst]
  have hlow : ∀ y ∈ past, val y.1 ≤ val x → y.2 < upperBound d (val x) := by
    intro y hy hv
    obtain ⟨t, ht, htv⟩ := h.low y hy
    by_contra hc
    have := upperBound_ge (v := val x) h.sorted (by omega) ht
    exact absurd (htv.trans hv) (not_le.2 this)
  refine ⟨patienceStep_sorted h.sorted _, ?_, ?_, ?_, ?_, ?_⟩
  · have := patienceStep_len (d := d) (val x)
    have := h.len
    simp; omega
  · intro y hy
    rw [List.mem_append, List.mem_singleton] at hy
    rcases hy with hy | rfl
    · rw [patienceStep_get]
      by_cases he : y.2 = upperBound d (val x)
      · rw [if_pos he]
        refine ⟨_, rfl, ?_⟩
        by_contra hc
        have := hlow y hy (not_le.1 hc).le
        omega
      · rw [if_neg he]; exact h.low y hy
    · rw [patienceStep_get, if_pos rfl]; exact ⟨_, rfl, le_rfl⟩
  · intro f t ht
    rw [patienceStep_get] at ht
    split at ht
    · rename_i he
      refine ⟨(x, upperBound d (val x)), by simp, he.symm, ?_⟩
      simpa using ht
    · obtain ⟨y, hy, e1, e2⟩ := h.top f t ht
      exact ⟨y, by simp [hy], e1, e2⟩
  · intro a ha b hb hd
    rw [List.mem_append, List.mem_singleton] at ha hb
    rcases ha with ha | rfl
    · rcases hb with hb | rfl
      · exact h.gt a ha b hb hd
      · exact absurd hd (hback a ha)
    · rcases hb with hb | rfl
      · exact hlow b hb ((hfwd b hb).1 hd)
      · exact absurd hd hx
  · intro a ha
    rw [List.mem_append, List.mem_singleton] at ha
    rcases ha with ha | rfl
    · rcases h.step a ha with h0 | ⟨y, hy, h1, h2⟩
      · exact Or.inl h0
      · exact Or.inr ⟨y, by simp [hy], h1, h2⟩
    · by_cases h0 : upperBound d (val x) = 0
      · exact Or.inl h0
      · right
        have hle := upperBound_le d (val x)
        have hg : d[upperBound d (val x) - 1]? = some (d[upperBound d (val x) - 1]'(by omega)) :=
          List.getElem?_eq_getElem _
        obtain ⟨y, hy, e1, e2⟩ := h.top _ _ hg
        have := upperBound_lt (show upperBound d (val x) - 1 < upperBound d (val x) by omega) hg
        exact ⟨y, by simp [hy], (hfwd y hy).2 (by rw [e2]; exact this), by simp only; omega⟩

/-- A repetition of an individual already placed. -/
theorem TInv.dup {val : Nat → F} {dom : Nat → Nat → Prop} {past : List (Nat × Nat)} {d : List F}
    (h : TInv val dom past d) {x p pf : Nat} (hp : (p, pf) ∈ past) (hval : val x = val p)
    (h1 : ∀ z, dom z x ↔ dom z p) (h2 : ∀ z, dom x z ↔ dom p z) :
    TInv val dom (past ++ [(x, pf)]) d := by
  refine ⟨h.sorted, by have := h.len; simp; omega, ?_, ?_, ?_, ?_⟩
  · intro y hy
    rw [List.mem_append, List.mem_singleton] at hy
    rcases hy with hy | rfl
    · exact h.low y hy
    · simp only [hval]; exact h.low _ hp
  · intro f t ht
    obtain ⟨y, hy, e⟩ := h.top f t ht
    exact ⟨y, by simp [hy], e⟩
  · intro a ha b hb hd
    rw [List.mem_append, List.mem_singleton] at ha hb
    rcases ha with ha | rfl
    · rcases hb with hb | rfl
      · exact h.gt a ha b hb hd
      · exact h.gt a ha (p, pf) hp ((h2 _).1 hd)
    · rcases hb with hb | rfl
      · exact h.gt _ hp b hb ((h1 _).1 hd)
      · exact h.gt (p, pf) hp (p, pf) hp ((h2 _).1 ((h1 _).1 hd))
  · intro a ha
    rw [List.mem_append, List.mem_singleton] at ha
    rcases ha with ha | rfl
    · rcases h.step a ha with h0 | ⟨y, hy, h1, h2⟩
      · exact Or.inl h0
      · exact Or.inr ⟨y, by simp [hy], h1, h2⟩
    · rcases h.step _ hp with h0 | ⟨y, hy, h3, h4⟩
      · exact Or.inl h0
      · exact Or.inr ⟨y, by simp [hy], (h1 _).2 h3, h4⟩

theorem twoFronts_spec {K : Type} {key : Nat → K} {val : Nat → F} {eqv : Nat → Nat → Bool}
    {dom : Nat → Nat → Prop}
    (declone : Bool) (N : Nat) (hirr : ∀ x, ¬ dom x x) (hkey : ∀ x y, eqv x y = true ↔ key x = key y)
    (heq : ∀ x p, eqv x p = true → val x = val p ∧ (∀ z, dom z x ↔ dom z p) ∧ ∀ z, dom x z ↔ dom p z)
    (l : List Nat) (past : List (Nat × Nat)) (d : List F) (prev : Option Nat) (pf : Nat)
    (h : TInv val dom past d) (hnd : (past.map Prod.fst ++ l).Nodup)
    (hprev : ∃ pre, past = pre ++ (prev.toList.map fun p => (p, pf)) ∧ (prev = none → past = []))
    (hpair : (past.map Prod.fst ++ l).Pairwise fun a b =>
      ¬ dom b a ∧ (eqv b a = false → (dom a b ↔ val a ≤ val b)))
    (hadj : ∀ l1 p x l2, past.map Prod.fst ++ l = l1 ++ p :: x :: l2 → ∀ a ∈ l1, eqv x a = true →
      eqv x p = true)
    (pout : List (Nat × Nat)) (hpo : ∀ x ∈ past, ∃ o ∈ pout, o.2 = x.2 ∧ key o.1 = key x.1) :
    ∃ (rest : List (Nat × Nat)) (d' : List F), rest.map Prod.fst = l ∧ TInv val dom (past ++ rest) d' ∧
      (declone = false → twoFronts val eqv declone N d prev pf l = rest) ∧
      (∀ x ∈ past ++ rest, ∃ o ∈ pout ++ twoFronts val eqv declone N d prev pf l, o.2 = x.2 ∧
        key o.1 = key x.1) ∧
      List.Forall₂ (fun o x => o.1 = x.1 ∧ (o.2 = x.2 ∨ o.2 = N - 1 ∧
        ∃ y ∈ past ++ rest, y.1 ≠ x.1 ∧ y.2 = x.2 ∧ eqv x.1 y.1 = true))
        (twoFronts val eqv declone N d prev pf l) rest := by
  induction l generalizing past d prev pf pout with
  | nil =>
    exact ⟨[], d, rfl, by simpa using h, by simp [twoFronts], by simpa [twoFronts] using hpo,
      by simp [twoFronts]⟩
  | cons x l ih =>
    have hxpast : x ∉ past.map Prod.fst := fun hx => by
      rw [List.nodup_append] at hnd; exact hnd.2.2 x hx x (by simp) rfl
    have hpast : ∀ y ∈ past, ¬ dom x y.1 ∧ (eqv x y.1 = false → (dom y.1 x ↔ val y.1 ≤ val x)) := by
      intro y hy
      rw [List.pairwise_append] at hpair
      exact hpair.2.2 y.1 (List.mem_map_of_mem hy) x (by simp)
    have cont : ∀ (e : Nat) (o : Nat) (dn : List F), TInv val dom (past ++ [(x, e)]) dn →
        (∃ o' ∈ pout ++ [(x, o)], o'.2 = e ∧ key o'.1 = key x) →
        ∃ (rest : List (Nat × Nat)) (d' : List F), rest.map Prod.fst = l ∧
          TInv val dom ((past ++ [(x, e)]) ++ rest) d' ∧
          (declone = false → twoFronts val eqv declone N dn (some x) e l = rest) ∧
          (∀ y ∈ past ++ [(x, e)] ++ rest, ∃ o' ∈ pout ++ [(x, o)] ++
            twoFronts val eqv declone N dn (some x) e l, o'.2 = y.2 ∧ key o'.1 = key y.1) ∧
          List.Forall₂ (fun o x' => o.1 = x'.1 ∧ (o.2 = x'.2 ∨ o.2 = N - 1 ∧
            ∃ y ∈ (past ++ [(x, e)]) ++ rest, y.1 ≠ x'.1 ∧ y.2 = x'.2 ∧ eqv x'.1 y.1 = true))
            (twoFronts val eqv declone N dn (some x) e l) rest := by
      intro e o dn hT ho
      refine ih (past ++ [(x, e)]) dn (some x) e hT (by simpa using hnd) ⟨past, by simp, by simp⟩
        (by simpa using hpair) (by simpa using hadj) (pout ++ [(x, o)]) ?_
      intro y hy
      rw [List.mem_append, List.mem_singleton] at hy
      rcases hy with hy | rfl
      · obtain ⟨o', h1, h2⟩ := hpo y hy
        exact ⟨o', by simp [h1], h2⟩
      · exact ho
    by_cases hc : prev.any (fun p => eqv x p) = true
    · obtain ⟨p, hp, hpe⟩ : ∃ p, prev = some p ∧ eqv x p = true := by
        cases prev with
        | none => simp at hc
        | some p => exact ⟨p, rfl, by simpa using hc⟩
      obtain ⟨pre, hpre, _⟩ := hprev
      have hmem : (p, pf) ∈ past := by rw [hpre, hp]; simp
      obtain ⟨e1, e2, e3⟩ := heq x p hpe
      have hne : p ≠ x := fun e => hxpast (e ▸ List.mem_map_of_mem (f := Prod.fst) hmem)
      obtain ⟨o', ho1, ho2, ho3⟩ := hpo _ hmem
      obtain ⟨rest, d', k1, k2, k3, k5, k4⟩ := cont pf (if declone then N - 1 else pf) d
        (h.dup hmem e1 e2 e3)
        ⟨o', by simp [ho1], ho2, by rw [ho3]; exact ((hkey x p).1 hpe).symm⟩
      have hunf : twoFronts val eqv declone N d prev pf (x :: l) =
          (x, if declone then N - 1 else pf) :: twoFronts val eqv declone N d (some x) pf l := by
        rw [twoFronts, if_pos hc]
        cases declone <;> rfl
      refine ⟨(x, pf) :: rest, d', by simp [k1], by simpa using k2, ?_, ?_, ?_⟩
      · intro hdc
        rw [hunf, k3 hdc, hdc]; rfl
      · intro y hy
        rw [hunf]
        simpa using k5 y (by simpa using hy)
      · rw [hunf]
        have k4' : List.Forall₂ (fun o x' => o.1 = x'.1 ∧ (o.2 = x'.2 ∨ o.2 = N - 1 ∧
            ∃ y ∈ past ++ ((x, pf) :: rest), y.1 ≠ x'.1 ∧ y.2 = x'.2 ∧ eqv x'.1 y.1 = true))
            (twoFronts val eqv declone N d (some x) pf l) rest := by simpa using k4
        refine List.Forall₂.cons ⟨rfl, ?_⟩ k4'
        cases declone
        · exact Or.inl rfl
        · exact Or.inr ⟨rfl, (p, pf), by simp [hmem], hne, rfl, hpe⟩
    · have hnone : ∀ y ∈ past, eqv x y.1 = false := by
        intro y hy
        obtain ⟨pre, hpre, hnil⟩ := hprev
        cases prev with
        | none => rw [hnil rfl] at hy; simp at hy
        | some p =>
          have hcp : eqv x p = false := by simpa using hc
          rw [hpre] at hy
          simp only [Option.toList_some, List.map_cons, List.map_nil, List.mem_append,
            List.mem_singleton] at hy
          rcases hy with hy | rfl
          · rw [← Bool.not_eq_true]
            intro he
            have := hadj (pre.map Prod.fst) p x l (by rw [hpre]; simp) y.1 (List.mem_map_of_mem hy) he
            rw [hcp] at this; simp at this
          · exact hcp
      obtain ⟨rest, d', k1, k2, k3, k5, k4⟩ := cont (patienceStep d (val x)).1 (patienceStep d (val x)).1
        (patienceStep d (val x)).2 (h.new (hirr x) (fun y hy => (hpast y hy).1)
        (fun y hy => (hpast y hy).2 (hnone y hy)))
        ⟨(x, (patienceStep d (val x)).1), by simp, rfl, rfl⟩
      have hunf : twoFronts val eqv declone N d prev pf (x :: l) = (x, (patienceStep d (val x)).1) ::
          twoFronts val eqv declone N (patienceStep d (val x)).2 (some x) (patienceStep d (val x)).1 l := by
        rw [twoFronts, if_neg hc]
      refine ⟨(x, (patienceStep d (val x)).1) :: rest, d', by simp [k1], by simpa using k2, ?_, ?_, ?_⟩
      · intro hdc
        rw [hunf, k3 hdc]
      · intro y hy
        rw [hunf]
        simpa using k5 y (by simpa using hy)
      · rw [hunf]
        refine List.Forall₂.cons ⟨rfl, Or.inl rfl⟩ ?_
        simpa using k4

/-! ### Penalties of the fronts of two objectives -/

theorem frontOf_spec {placed : List (Nat × Nat)} (hnd : (placed.map Prod.fst).Nodup) (i : Nat) :
    (frontOf placed i).Nodup ∧ ∀ q, q ∈ frontOf placed i ↔ (q, i) ∈ placed := by
  constructor
  · unfold frontOf
    exact hnd.sublist ((List.filter_sublist).map _)
  · intro q
    unfold frontOf
    simp only [List.mem_map, List.mem_filter, decide_eq_true_eq, Prod.exists, exists_and_right,
      exists_eq_right]

theorem nicheFold_spec {placed : List (Nat × Nat)} (hnd : (placed.map Prod.fst).Nodup)
    (niche : List Nat → List F) (hn : ∀ l, (niche l).length = l.length) (old : Nat → F) (k : Nat) :
    ∃ v, (List.range k).foldl (nicheStep niche placed) (.ok old) = .ok v ∧
      ∀ q i, (q, i) ∈ placed → i < k → ∃ (j : Nat) (c : F), (frontOf placed i)[j]? = some q ∧
        (niche (frontOf placed i))[j]? = some c ∧
        v q = (i : F) + c / (maxElt (niche (frontOf placed i)) + 1) := by
  induction k with
  | zero => exact ⟨old, rfl, by simp⟩
  | succ k ih =>
    obtain ⟨v, e, hv⟩ := ih
    rw [List.range_succ, List.foldl_append, e]
    obtain ⟨f1, f2⟩ := frontOf_spec hnd k
    have huniq : ∀ q a b, (q, a) ∈ placed → (q, b) ∈ placed → a = b := by
      intro q a b ha hb
      have := List.inj_on_of_nodup_map hnd ha hb rfl
      exact congrArg Prod.snd this
    by_cases hf : frontOf placed k = []
    · refine ⟨v, by simp [nicheStep, hf], ?_⟩
      intro q i hq hi
      by_cases hik : i = k
      · subst hik
        have := (f2 q).2 hq
        rw [hf] at this; simp at this
      · exact hv q i hq (by omega)
    · refine ⟨assignFront k (frontOf placed k) (niche (frontOf placed k)) v,
        by simp [nicheStep, hf, hn], ?_⟩
      obtain ⟨a1, a2⟩ := assignFront_spec k (frontOf placed k) (niche (frontOf placed k)) v f1 (hn _)
      intro q i hq hi
      by_cases hik : i = k
      · subst hik
        obtain ⟨j, hj⟩ := List.mem_iff_getElem?.1 ((f2 q).2 hq)
        have hjl : j < (niche (frontOf placed i)).length := by
          rw [hn]; exact (List.getElem?_eq_some_iff.1 hj).1
        exact ⟨j, _, hj, List.getElem?_eq_getElem hjl, a1 j q _ hj (List.getElem?_eq_getElem hjl)⟩
      · obtain ⟨j, c, h1, h2, h3⟩ := hv q i hq (by omega)
        refine ⟨j, c, h1, h2, ?_⟩
        rw [a2 q, h3]
        intro hm
        exact hik (huniq q i k hq ((f2 q).1 hm))

/-! ### Largest elements -/

theorem le_foldl_max (l : List F) (a : F) : a ≤ l.foldl max a ∧ ∀ x ∈ l, x ≤ l.foldl max a := by
  induction l generalizing a with
  | nil => simp
  | cons b l ih =>
    obtain ⟨h1, h2⟩ := ih (max a b)
    rw [List.foldl_cons]
    refine ⟨(le_max_left _ _).trans h1, ?_⟩
    intro x hx
    rcases List.mem_cons.1 hx with rfl | hx
    · exact (le_max_right _ _).trans h1
    · exact h2 x hx

theorem le_maxElt {l : List F} {x : F} (hx : x ∈ l) : x ≤ maxElt l := by
  cases l with
  | nil => simp at hx
  | cons a l =>
    rcases List.mem_cons.1 hx with rfl | hx
    · exact (le_foldl_max l _).1
    · exact (le_foldl_max l _).2 x hx

/-! ### Crowding of one objective -/

theorem crowdBase_spec {n : Nat} {perf : List (F × Nat)} (hlen : perf.length = n)
    (hnd : (perf.map Prod.snd).Nodup) :
    (∀ i, 1 ≤ i → i + 1 < n → crowdBase n perf (perf.getD i (0, 0)).2 =
      (perf.getD (i + 1) (0, 0)).1 - (perf.getD (i - 1) (0, 0)).1) ∧
    ∀ q, (∀ i, 1 ≤ i → i + 1 < n → (perf.getD i (0, 0)).2 ≠ q) → crowdBase n perf q = 0 := by
  set g : Nat → Nat × F := fun i => ((perf.getD i (0, 0)).2,
    (perf.getD (i + 1) (0, 0)).1 - (perf.getD (i - 1) (0, 0)).1) with hg
  have hfold : crowdBase n perf =
      ((List.range' 1 (n - 2)).map g).foldl (fun v x => put v x.1 ((fun x : Nat × F => x.2) x)) fun _ => 0 := by
    unfold crowdBase
    rw [List.foldl_map]
  have hinj : ∀ i j, i < n → j < n → (perf.getD i (0, 0)).2 = (perf.getD j (0, 0)).2 → i = j := by
    intro i j hi hj h
    have hi' : i < perf.length := by omega
    have hj' : j < perf.length := by omega
    have := List.nodup_iff_injective_get.1 hnd
    have h3 := @this ⟨i, by simp; omega⟩ ⟨j, by simp; omega⟩ (by
      simp [List.getD, List.getElem?_eq_getElem hi', List.getElem?_eq_getElem hj'] at h
      simpa using h)
    simpa using h3
  have hkeys : (((List.range' 1 (n - 2)).map g).map Prod.fst).Nodup := by
    rw [List.map_map]
    refine List.Nodup.map_on ?_ List.nodup_range'
    intro a ha b hb h
    rw [List.mem_range'] at ha hb
    exact hinj a b (by omega) (by omega) h
  obtain ⟨h1, h2⟩ := foldl_put (fun x : Nat × F => x.2) ((List.range' 1 (n - 2)).map g) (fun _ => 0) hkeys
  rw [hfold]
  constructor
  · intro i h3 h4
    exact h1 (g i) (List.mem_map_of_mem (by rw [List.mem_range']; exact ⟨i - 1, by omega, by omega⟩))
  · intro q hq
    apply h2
    rw [List.map_map, List.mem_map]
    rintro ⟨i, hi, he⟩
    rw [List.mem_range'] at hi
    exact hq i (by omega) (by omega) he

end
end Paradiseo.Nds
