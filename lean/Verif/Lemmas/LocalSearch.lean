import Verif.Model.LocalSearch
import Mathlib.Order.Basic
import Mathlib.Data.Set.Card

namespace Paradiseo.LS

variable {Sol E K S M F W : Type}

/-! ### The search loop as an orbit -/

/-- One iteration, forgetting whether the move was applied. -/
def stepTo (ex : Explorer Sol E) (t : Nat) (p : Sol × E) : Sol × E :=
  ((lsStep ex t p.1 p.2).1, (lsStep ex t p.1 p.2).2.1)

/-- State after `n` iterations, the first one numbered `t`. -/
def orbit (ex : Explorer Sol E) (t : Nat) (p : Sol × E) : Nat → Sol × E
  | 0 => p
  | n + 1 => stepTo ex (t + n) (orbit ex t p n)

theorem orbit_shift (ex : Explorer Sol E) (t : Nat) (p : Sol × E) (n : Nat) :
    orbit ex t p (n + 1) = orbit ex (t + 1) (stepTo ex t p) n := by
  induction n with
  | zero => rfl
  | succ n ih =>
    show stepTo ex (t + (n + 1)) (orbit ex t p (n + 1)) = stepTo ex (t + 1 + n) _
    rw [ih]; congr 1; omega

theorem lsLoop_orbit (ex : Explorer Sol E) (cont : K → Sol → Bool × K) :
    ∀ (fuel t : Nat) (sol : Sol) (e : E) (k : K) (l : List (Sol × E)) (b : Bool),
      lsLoop ex cont fuel t sol e k = some (l, b) →
      ∃ n, l = (List.range (n + 1)).map (fun i => orbit ex t (sol, e) (i + 1)) ∧
        (∀ i, i < n → ex.isContinue (orbit ex t (sol, e) (i + 1)).1 (orbit ex t (sol, e) (i + 1)).2 = true) ∧
        (b = false ∨
          ex.isContinue (orbit ex t (sol, e) (n + 1)).1 (orbit ex t (sol, e) (n + 1)).2 = false) := by
  intro fuel
  induction fuel with
  | zero => intro t sol e k l b h; simp [lsLoop] at h
  | succ fuel ih =>
    intro t sol e k l b h
    have h0 : orbit ex t (sol, e) 1 = stepTo ex t (sol, e) := rfl
    have hs : stepTo ex t (sol, e) = ((lsStep ex t sol e).1, (lsStep ex t sol e).2.1) := rfl
    simp only [lsLoop] at h
    split at h
    · rename_i hc
      simp only [Option.map_eq_some_iff] at h
      obtain ⟨⟨l', b'⟩, h1, h2⟩ := h
      simp only [Prod.mk.injEq] at h2
      obtain ⟨h2, h3⟩ := h2
      obtain ⟨n, hn, hi, hb⟩ := ih _ _ _ _ _ _ h1
      refine ⟨n + 1, ?_, ?_, ?_⟩
      · rw [← h2, hn, List.range_succ_eq_map (n := n + 1), List.map_cons, List.map_map]
        refine congrArg₂ _ rfl ?_
        apply List.map_congr_left
        intro i _
        rw [← hs]
        exact (orbit_shift ex t (sol, e) (i + 1)).symm
      · intro i hi'
        cases i with
        | zero =>
          simp only [Bool.and_eq_true] at hc
          exact hc.2
        | succ i =>
          have := hi i (by omega)
          rw [← hs, ← orbit_shift] at this
          exact this
      · rw [← h3]
        rw [← hs, ← orbit_shift] at hb
        exact hb
    · rename_i hc
      simp only [Option.some.injEq, Prod.mk.injEq] at h
      refine ⟨0, ?_, by simp, ?_⟩
      · rw [← h.1]; rfl
      · rw [← h.2]
        simp only [Bool.and_eq_true, not_and_or, Bool.not_eq_true] at hc
        exact hc

theorem orbit_inv (ex : Explorer Sol E) (t : Nat) (p : Sol × E) (I : Sol × E → Prop) (h0 : I p)
    (hs : ∀ t q, I q → I (stepTo ex t q)) (n : Nat) : I (orbit ex t p n) := by
  induction n with
  | zero => exact h0
  | succ n ih => exact hs _ _ ih

/-! ### Hill climbers -/

theorem simpleSelect_mem [LinearOrder F] (c : Cand M F) (l : List (Cand M F)) :
    simpleSelect c l ∈ c :: l := by
  induction l generalizing c with
  | nil => simp [simpleSelect]
  | cons d l ih =>
    have := ih (if c.fit < d.fit then d else c)
    rw [simpleSelect]
    split at this <;> rename_i h <;> simp only [h, if_true, if_false] <;> simp at this ⊢ <;> tauto

theorem simpleSelect_ge [LinearOrder F] (c : Cand M F) (l : List (Cand M F)) :
    c.fit ≤ (simpleSelect c l).fit ∧ ∀ d ∈ l, d.fit ≤ (simpleSelect c l).fit := by
  induction l generalizing c with
  | nil => simp [simpleSelect]
  | cons d l ih =>
    have := ih (if c.fit < d.fit then d else c)
    rw [simpleSelect]
    by_cases h : c.fit < d.fit
    · simp only [h, if_true] at this ⊢
      refine ⟨le_of_lt (lt_of_lt_of_le h this.1), ?_⟩
      simp only [List.mem_cons, forall_eq_or_imp]
      exact this
    · simp only [h, if_false] at this ⊢
      refine ⟨this.1, ?_⟩
      simp only [List.mem_cons, forall_eq_or_imp]
      exact ⟨le_trans (le_of_not_gt h) this.1, this.2⟩

theorem simpleSelect_split [LinearOrder F] (c : Cand M F) (l : List (Cand M F)) :
    ∃ pre post, c :: l = pre ++ simpleSelect c l :: post ∧
      (∀ d ∈ pre, d.fit < (simpleSelect c l).fit) ∧ (∀ d ∈ post, d.fit ≤ (simpleSelect c l).fit) := by
  induction l generalizing c with
  | nil => exact ⟨[], [], by simp [simpleSelect]⟩
  | cons d l ih =>
    have hge := simpleSelect_ge (if c.fit < d.fit then d else c) l
    obtain ⟨pre, post, h1, h2, h3⟩ := ih (if c.fit < d.fit then d else c)
    rw [simpleSelect]
    by_cases h : c.fit < d.fit
    · simp only [h, if_true] at h1 h2 h3 hge ⊢
      refine ⟨c :: pre, post, by rw [h1]; rfl, ?_, h3⟩
      intro x hx
      rcases List.mem_cons.1 hx with rfl | hx
      · exact lt_of_lt_of_le h hge.1
      · exact h2 x hx
    · simp only [h, if_false] at h1 h2 h3 hge ⊢
      cases pre with
      | nil =>
        simp only [List.nil_append, List.cons.injEq] at h1
        refine ⟨[], d :: l, by rw [← h1.1]; rfl, by simp, ?_⟩
        intro x hx
        rcases List.mem_cons.1 hx with rfl | hx
        · exact le_trans (le_of_not_gt h) hge.1
        · exact hge.2 x hx
      | cons q pre =>
        simp only [List.cons_append, List.cons.injEq] at h1
        obtain ⟨rfl, h1⟩ := h1
        refine ⟨c :: d :: pre, post, congrArg (fun z => c :: d :: z) h1, ?_, h3⟩
        intro x hx
        simp only [List.mem_cons] at hx
        rcases hx with rfl | rfl | hx
        · exact h2 _ (by simp)
        · exact lt_of_le_of_lt (le_of_not_gt h) (h2 _ (by simp))
        · exact h2 x (by simp [hx])

theorem firstSelect_mem [LinearOrder F] (fx : F) (c : Cand M F) (l : List (Cand M F)) :
    firstSelect fx c l ∈ c :: l := by
  induction l generalizing c with
  | nil => simp [firstSelect]
  | cons d l ih =>
    rw [firstSelect]
    split
    · simp
    · exact List.mem_cons_of_mem _ (ih d)

theorem firstSelect_ge [LinearOrder F] (fx : F) (c : Cand M F) (l : List (Cand M F))
    (h : ¬ fx < (firstSelect fx c l).fit) : ∀ d ∈ c :: l, d.fit ≤ fx := by
  induction l generalizing c with
  | nil => simpa [firstSelect] using h
  | cons d l ih =>
    rw [firstSelect] at h
    split at h
    · contradiction
    · rename_i hc
      intro x hx
      rcases List.mem_cons.1 hx with rfl | hx
      · exact le_of_not_gt hc
      · exact ih d h x hx

/-- What the vector of best neighbours is, independently of the loop: the neighbours whose fitness is
not exceeded, in enumeration order. -/
theorem bestPush_foldl [LinearOrder F] (l : List (Cand M F)) (p : List (Cand M F)) (v : List (Cand M F))
    (hp : p ≠ []) (hv : ∀ c, c ∈ v ↔ c ∈ p ∧ ∀ d ∈ p, d.fit ≤ c.fit)
    (hv' : v = p.filter (fun c => p.all (fun d => decide (d.fit ≤ c.fit)))) (hne : v ≠ []) :
    let w := l.foldl bestPush v
    w ≠ [] ∧ w = (p ++ l).filter (fun c => (p ++ l).all (fun d => decide (d.fit ≤ c.fit))) := by
  induction l generalizing p v with
  | nil => simpa using ⟨hne, hv'⟩
  | cons d l ih =>
    obtain ⟨b, v', rfl⟩ := List.exists_cons_of_ne_nil hne
    have hb := (hv b).1 (by simp)
    have key : ∃ w, w = bestPush (b :: v') d ∧ w ≠ [] ∧
        w = (p ++ [d]).filter (fun c => (p ++ [d]).all (fun x => decide (x.fit ≤ c.fit))) := by
      refine ⟨_, rfl, ?_, ?_⟩
      · simp only [bestPush]
        split
        · simp
        · split <;> simp
      · simp only [bestPush]
        by_cases h1 : b.fit < d.fit
        · rw [if_pos h1, List.filter_append]
          have e1 : p.filter (fun c => (p ++ [d]).all (fun x => decide (x.fit ≤ c.fit))) = [] := by
            rw [List.filter_eq_nil_iff]
            intro c hc hall
            rw [List.all_eq_true] at hall
            have := hall d (by simp)
            have h2 := hb.2 c hc
            exact absurd (of_decide_eq_true this) (not_le_of_gt (lt_of_le_of_lt h2 h1))
          have e2 : [d].filter (fun c => (p ++ [d]).all (fun x => decide (x.fit ≤ c.fit))) = [d] := by
            rw [List.filter_cons, if_pos]
            · rfl
            · rw [List.all_eq_true]
              intro x hx
              rcases List.mem_append.1 hx with hx | hx
              · exact decide_eq_true (le_trans (hb.2 x hx) (le_of_lt h1))
              · rw [List.mem_singleton.1 hx]; exact decide_eq_true le_rfl
          rw [e1, e2]; rfl
        · rw [if_neg h1, List.filter_append]
          have e1 : p.filter (fun c => (p ++ [d]).all (fun x => decide (x.fit ≤ c.fit))) = b :: v' := by
            rw [hv']
            apply List.filter_congr
            intro c hc
            rw [List.all_append]
            have : p.all (fun x => decide (x.fit ≤ c.fit)) = true →
                [d].all (fun x => decide (x.fit ≤ c.fit)) = true := by
              intro h
              rw [List.all_eq_true] at h
              have := of_decide_eq_true (h b hb.1)
              simp [le_trans (le_of_not_gt h1) this]
            cases hh : p.all (fun x => decide (x.fit ≤ c.fit)) with
            | false => rfl
            | true => rw [this hh]; rfl
          rw [e1]
          by_cases h2 : b.fit = d.fit
          · rw [if_pos h2]
            congr 1
            rw [List.filter_cons, if_pos]
            · rfl
            · rw [List.all_eq_true]
              intro x hx
              rcases List.mem_append.1 hx with hx | hx
              · exact decide_eq_true (h2 ▸ hb.2 x hx)
              · rw [List.mem_singleton.1 hx]; exact decide_eq_true le_rfl
          · rw [if_neg h2]
            have : [d].filter (fun c => (p ++ [d]).all (fun x => decide (x.fit ≤ c.fit))) = [] := by
              rw [List.filter_eq_nil_iff]
              intro c hc hall
              rw [List.mem_singleton.1 hc, List.all_eq_true] at hall
              have := of_decide_eq_true (hall b (by simp [hb.1]))
              exact h2 (le_antisymm this (le_of_not_gt h1))
            rw [this, List.append_nil]
    obtain ⟨w, hw, hwne, hwe⟩ := key
    have := ih (p ++ [d]) w (by simp) (by
      intro c; rw [hwe, List.mem_filter, List.all_eq_true]; simp only [decide_eq_true_eq]) hwe hwne
    simp only [List.foldl_cons]
    rw [← hw]
    simpa using this

theorem bestVector_eq [LinearOrder F] (c : Cand M F) (l : List (Cand M F)) :
    let w := l.foldl bestPush [c]
    w ≠ [] ∧ w = (c :: l).filter (fun x => (c :: l).all (fun d => decide (d.fit ≤ x.fit))) := by
  have := bestPush_foldl l [c] [c] (by simp) (by
    intro x; simp only [List.mem_singleton]; constructor
    · rintro rfl; simp
    · exact fun h => h.1) (by simp) (by simp)
  simpa using this

theorem mem_bestVector [LinearOrder F] (c : Cand M F) (l : List (Cand M F)) (x : Cand M F) :
    x ∈ l.foldl bestPush [c] ↔ x ∈ c :: l ∧ ∀ d ∈ c :: l, d.fit ≤ x.fit := by
  rw [(bestVector_eq c l).2, List.mem_filter, List.all_eq_true]
  simp only [decide_eq_true_eq]

/-- What one iteration of a strict hill climber does. `inv` is an invariant of the explorer. -/
structure Climbs [LinearOrder F] (ex : Explorer (S × F) (HC M F)) (nb : Nat → S × F → List (Cand M F))
    (app : M → S → S) (inv : HC M F → Prop) : Prop where
  keep : ∀ t p, inv p.2 → inv (stepTo ex t p).2
  step : ∀ t p, inv p.2 →
    ((stepTo ex t p).2.isAccept = true ∧ p.1.2 < (stepTo ex t p).1.2 ∧
      ∃ c ∈ nb t p.1, (stepTo ex t p).1 = (app c.mv p.1.1, c.fit)) ∨
    ((stepTo ex t p).2.isAccept = false ∧ (stepTo ex t p).1 = p.1 ∧ ∀ c ∈ nb t p.1, c.fit ≤ p.1.2)

theorem simpleHC_climbs [LinearOrder F] (nb : Nat → S × F → List (Cand M F)) (app : M → S → S) :
    Climbs (simpleHC nb app) nb app (fun _ => True) := by
  refine ⟨fun _ _ _ => trivial, ?_⟩
  rintro t ⟨⟨x, fx⟩, e⟩ -
  cases hnb : nb t (x, fx) with
  | nil => right; simp [stepTo, lsStep, simpleHC, hnb]
  | cons c l =>
    have hge := simpleSelect_ge c l
    by_cases h : fx < (simpleSelect c l).fit
    · left
      refine ⟨?_, ?_, simpleSelect c l, simpleSelect_mem c l, ?_⟩ <;>
        simp [stepTo, lsStep, simpleHC, hnb, h, moveSel]
    · right
      refine ⟨?_, ?_, ?_⟩
      · simp [stepTo, lsStep, simpleHC, hnb, h]
      · simp [stepTo, lsStep, simpleHC, hnb, h]
      · intro d hd
        rcases List.mem_cons.1 hd with rfl | hd
        · exact le_trans hge.1 (le_of_not_gt h)
        · exact le_trans (hge.2 d hd) (le_of_not_gt h)

theorem firstHC_climbs [LinearOrder F] (ac : Bool) (nb : Nat → S × F → List (Cand M F))
    (app : M → S → S) : Climbs (firstHC ac nb app) nb app (fun _ => True) := by
  refine ⟨fun _ _ _ => trivial, ?_⟩
  rintro t ⟨⟨x, fx⟩, e⟩ -
  cases hnb : nb t (x, fx) with
  | nil => right; simp [stepTo, lsStep, firstHC, hnb]
  | cons c l =>
    by_cases h : fx < (firstSelect fx c l).fit
    · left
      refine ⟨?_, ?_, firstSelect fx c l, firstSelect_mem fx c l, ?_⟩ <;>
        simp [stepTo, lsStep, firstHC, hnb, h, moveSel]
    · right
      refine ⟨?_, ?_, firstSelect_ge fx c l h⟩ <;> simp [stepTo, lsStep, firstHC, hnb, h]

/-- The exploration of the random-best and neutral climbers from an empty vector. -/
theorem bestExplore_spec [LinearOrder F] (r : Nat → Nat) (nb : Nat → S × F → List (Cand M F)) (t : Nat)
    (sol : S × F) (e : HC M F) (he : e.best = []) (hnb : nb t sol ≠ []) :
    ∃ b v s, bestExplore r nb t sol e = (sol, { e with best := b :: v, selected := some s }) ∧
      s ∈ b :: v ∧ ∀ x, x ∈ b :: v ↔ x ∈ nb t sol ∧ ∀ d ∈ nb t sol, d.fit ≤ x.fit := by
  obtain ⟨c, l, hcl⟩ := List.exists_cons_of_ne_nil hnb
  obtain ⟨hne, -⟩ := bestVector_eq c l
  have hm := mem_bestVector c l
  have hlt : r t % (l.foldl bestPush [c]).length < (l.foldl bestPush [c]).length :=
    Nat.mod_lt _ (List.length_pos_iff.2 hne)
  have hs : (l.foldl bestPush [c])[r t % (l.foldl bestPush [c]).length]? =
      some (l.foldl bestPush [c])[r t % (l.foldl bestPush [c]).length] := List.getElem?_eq_getElem hlt
  have hsm := List.getElem_mem hlt
  simp only [bestExplore, hcl, he, List.nil_append]
  generalize l.foldl bestPush [c] = w at *
  obtain ⟨b, v, rfl⟩ := List.exists_cons_of_ne_nil hne
  exact ⟨b, v, _, by rw [hs], hsm, hm⟩

theorem randomBestHC_climbs [LinearOrder F] (r : Nat → Nat) (nb : Nat → S × F → List (Cand M F))
    (app : M → S → S) : Climbs (randomBestHC r nb app) nb app (fun e => e.best = []) := by
  refine ⟨fun _ _ _ => rfl, ?_⟩
  rintro t ⟨⟨x, fx⟩, e⟩ he
  simp only at he
  by_cases hnb : nb t (x, fx) = []
  · right; simp [stepTo, lsStep, randomBestHC, bestExplore, hnb]
  · obtain ⟨b, v, s, h1, h2, h3⟩ := bestExplore_spec r nb t (x, fx) e he hnb
    have hb := (h3 b).1 (by simp)
    have hs := (h3 s).1 h2
    have hbs : b.fit = s.fit := le_antisymm (hs.2 b hb.1) (hb.2 s hs.1)
    obtain ⟨c, l, hcl⟩ := List.exists_cons_of_ne_nil hnb
    by_cases h : fx < b.fit
    · left
      refine ⟨?_, ?_, s, hs.1, ?_⟩ <;>
        simp [stepTo, lsStep, randomBestHC, h1, hcl, h, moveSel, ← hbs]
    · right
      refine ⟨?_, ?_, fun d hd => le_trans (hb.2 d hd) (le_of_not_gt h)⟩ <;>
        simp [stepTo, lsStep, randomBestHC, h1, hcl, h]

theorem orbit_climbs [LinearOrder F] {ex : Explorer (S × F) (HC M F)} {nb : Nat → S × F → List (Cand M F)}
    {app : M → S → S} {inv : HC M F → Prop} (hc : Climbs ex nb app inv) (t : Nat) (p : (S × F) × HC M F)
    (h0 : inv p.2) (n : Nat) : inv (orbit ex t p n).2 :=
  orbit_inv ex t p (fun q => inv q.2) h0 hc.keep n

/-- The fitness stays the value of `f` along the orbit when neighbours are evaluated exactly. -/
theorem orbit_exact [LinearOrder F] {ex : Explorer (S × F) (HC M F)} {nb : Nat → S × F → List (Cand M F)}
    {app : M → S → S} {inv : HC M F → Prop} (hc : Climbs ex nb app inv) (f : S → F)
    (hnb : ∀ t x c, c ∈ nb t (x, f x) → c.fit = f (app c.mv x))
    (t : Nat) (p : (S × F) × HC M F) (h0 : inv p.2) (hf : p.1.2 = f p.1.1) (n : Nat) :
    (orbit ex t p n).1.2 = f (orbit ex t p n).1.1 := by
  induction n with
  | zero => exact hf
  | succ n ih =>
    have hi := orbit_climbs hc t p h0 n
    show (stepTo ex (t + n) (orbit ex t p n)).1.2 = f (stepTo ex (t + n) (orbit ex t p n)).1.1
    rcases hc.step (t + n) _ hi with ⟨_, _, c, hcm, h⟩ | ⟨_, h, _⟩
    · rw [h]
      refine hnb (t + n) (orbit ex t p n).1.1 c ?_
      rw [← ih]; exact hcm
    · rw [h]; exact ih

/-- A strict climber whose `isContinue` implies that the last move was accepted ends, whatever the
continuator, when there are finitely many solutions. -/
theorem climbs_terminates [LinearOrder F] [Finite S] {ex : Explorer (S × F) (HC M F)}
    {nb : Nat → S × F → List (Cand M F)} {app : M → S → S} {inv : HC M F → Prop}
    (hc : Climbs ex nb app inv) (hcont : ∀ s e, ex.isContinue s e = true → e.isAccept = true) (f : S → F)
    (hnb : ∀ t x c, c ∈ nb t (x, f x) → c.fit = f (app c.mv x)) (cont : K → S × F → Bool × K) :
    ∀ (fuel t : Nat) (sol : S × F) (e : HC M F) (k : K), inv e → sol.2 = f sol.1 →
      Set.ncard {y | sol.2 < f y} < fuel → (lsLoop ex cont fuel t sol e k).isSome := by
  intro fuel
  induction fuel with
  | zero => intro t sol e k _ _ h; omega
  | succ fuel ih =>
    intro t sol e k hi hf hcard
    have hs : stepTo ex t (sol, e) = ((lsStep ex t sol e).1, (lsStep ex t sol e).2.1) := rfl
    simp only [lsLoop]
    split
    · rename_i h
      simp only [Bool.and_eq_true] at h
      have hacc := hcont _ _ h.2
      rw [Option.isSome_map]
      rcases hc.step t (sol, e) hi with ⟨_, hlt, c, hcm, hm⟩ | ⟨hf', _, _⟩
      · have hex : (stepTo ex t (sol, e)).1.2 = f (stepTo ex t (sol, e)).1.1 := by
          rw [hm]
          refine hnb t sol.1 c ?_
          rw [← hf]; exact hcm
        refine ih _ _ _ _ (hc.keep t (sol, e) hi) hex ?_
        have hlt' : Set.ncard {y | (stepTo ex t (sol, e)).1.2 < f y} < Set.ncard {y | sol.2 < f y} := by
          apply Set.ncard_lt_ncard _ (Set.toFinite _)
          refine ⟨fun y hy => lt_trans hlt hy, fun hsub => ?_⟩
          have : (stepTo ex t (sol, e)).1.1 ∈ {y | sol.2 < f y} := by
            show sol.2 < f _
            rw [← hex]; exact hlt
          have := hsub this
          simp only [Set.mem_ofPred_eq, ← hex, lt_self_iff_false] at this
        show Set.ncard {y | (stepTo ex t (sol, e)).1.2 < f y} < fuel
        omega
      · exact absurd hacc (by rw [hs] at hf'; simpa using hf')
    · rfl

/-! ### Neutral climbers -/

theorem neutralHC_step [LinearOrder F] (nbStep : Nat) (r : Nat → Nat) (nb : Nat → S × F → List (Cand M F))
    (app : M → S → S) (t : Nat) (p : (S × F) × HC M F) (he : p.2.best = []) :
    let q := stepTo (neutralHC nbStep r nb app) t p
    q.2.best = [] ∧ q.2.step = p.2.step + 1 ∧
    ((q.2.isAccept = true ∧ p.1.2 ≤ q.1.2 ∧ ∃ c ∈ nb t p.1, (∀ d ∈ nb t p.1, d.fit ≤ c.fit) ∧
        q.1 = (app c.mv p.1.1, c.fit)) ∨
      (q.2.isAccept = false ∧ q.1 = p.1 ∧ ∀ c ∈ nb t p.1, c.fit < p.1.2)) := by
  obtain ⟨⟨x, fx⟩, e⟩ := p
  simp only at he
  by_cases hnb : nb t (x, fx) = []
  · refine ⟨rfl, ?_, Or.inr ?_⟩ <;> simp [stepTo, lsStep, neutralHC, bestExplore, hnb]
  · obtain ⟨b, v, s, h1, h2, h3⟩ := bestExplore_spec r nb t (x, fx) e he hnb
    have hb := (h3 b).1 (by simp)
    have hs := (h3 s).1 h2
    have hbs : b.fit = s.fit := le_antisymm (hs.2 b hb.1) (hb.2 s hs.1)
    obtain ⟨c, l, hcl⟩ := List.exists_cons_of_ne_nil hnb
    refine ⟨rfl, ?_, ?_⟩
    · simp [stepTo, lsStep, neutralHC, h1, hcl]
    · by_cases h : fx ≤ b.fit
      · left
        have h' := le_iff_lt_or_eq.1 h
        refine ⟨?_, ?_, s, hs.1, hs.2, ?_⟩ <;>
          simp [stepTo, lsStep, neutralHC, h1, hcl, h', moveSel, ← hbs, h]
      · right
        have h' : ¬ fx < b.fit := fun h'' => h (le_of_lt h'')
        have h'' : ¬ fx = b.fit := fun h'' => h (le_of_eq h'')
        refine ⟨?_, ?_, fun d hd => lt_of_le_of_lt (hb.2 d hd) (lt_of_not_ge h)⟩ <;>
          simp [stepTo, lsStep, neutralHC, h1, hcl, h'', le_of_not_gt h']

theorem equalSelect_mem [DecidableEq F] (fx : F) (c : Cand M F) (l : List (Cand M F)) :
    equalSelect fx c l ∈ c :: l := by
  induction l generalizing c with
  | nil => simp [equalSelect]
  | cons d l ih =>
    rw [equalSelect]
    split
    · simp
    · exact List.mem_cons_of_mem _ (ih d)

theorem equalSelect_none [DecidableEq F] (fx : F) (c : Cand M F) (l : List (Cand M F))
    (h : fx ≠ (equalSelect fx c l).fit) : ∀ d ∈ c :: l, d.fit ≠ fx := by
  induction l generalizing c with
  | nil => simpa [equalSelect] using Ne.symm h
  | cons d l ih =>
    rw [equalSelect] at h
    split at h
    · contradiction
    · rename_i hc
      intro x hx
      rcases List.mem_cons.1 hx with rfl | hx
      · exact Ne.symm hc
      · exact ih d h x hx

/-! ### Tabu search -/

theorem firstAllowed_none {C : Type} (ok : C → Bool) (l : List C) :
    firstAllowed ok l = none ↔ ∀ c ∈ l, ok c = false := by
  induction l with
  | nil => simp [firstAllowed]
  | cons c l ih => by_cases h : ok c <;> simp [firstAllowed, h, ih]

theorem firstAllowed_some {C : Type} (ok : C → Bool) (l : List C) (c : C) (rest : List C)
    (h : firstAllowed ok l = some (c, rest)) :
    ∃ pre, l = pre ++ c :: rest ∧ ok c = true ∧ ∀ d ∈ pre, ok d = false := by
  induction l with
  | nil => simp [firstAllowed] at h
  | cons d l ih =>
    by_cases hd : ok d
    · simp only [firstAllowed, hd, if_true, Option.some.injEq, Prod.mk.injEq] at h
      exact ⟨[], by simp [h.1, h.2], by rw [← h.1]; exact hd, by simp⟩
    · simp only [firstAllowed, hd] at h
      obtain ⟨pre, h1, h2, h3⟩ := ih h
      refine ⟨d :: pre, by rw [h1]; rfl, h2, ?_⟩
      intro x hx
      rcases List.mem_cons.1 hx with rfl | hx
      · simpa using hd
      · exact h3 x hx

theorem bestAllowed_spec [LinearOrder F] (ok : Cand M F → Bool) (s : Cand M F) (hs : ok s = true)
    (l : List (Cand M F)) :
    ok (bestAllowed ok s l) = true ∧ bestAllowed ok s l ∈ s :: l ∧ s.fit ≤ (bestAllowed ok s l).fit ∧
      ∀ d ∈ l, ok d = true → d.fit ≤ (bestAllowed ok s l).fit := by
  induction l generalizing s with
  | nil => simp [bestAllowed, hs]
  | cons d l ih =>
    rw [bestAllowed]
    by_cases h : (ok d && decide (s.fit < d.fit)) = true
    · rw [if_pos h]
      simp only [Bool.and_eq_true, decide_eq_true_eq] at h
      obtain ⟨h1, h2, h3, h4⟩ := ih d h.1
      refine ⟨h1, by simp only [List.mem_cons] at h2 ⊢; tauto, le_of_lt (lt_of_lt_of_le h.2 h3), ?_⟩
      intro x hx hok
      rcases List.mem_cons.1 hx with rfl | hx
      · exact h3
      · exact h4 x hx hok
    · rw [if_neg h]
      simp only [Bool.and_eq_true, decide_eq_true_eq, not_and] at h
      obtain ⟨h1, h2, h3, h4⟩ := ih s hs
      refine ⟨h1, by simp only [List.mem_cons] at h2 ⊢; tauto, h3, ?_⟩
      intro x hx hok
      rcases List.mem_cons.1 hx with rfl | hx
      · exact le_trans (le_of_not_gt (h hok)) h3
      · exact h4 x hx hok

theorem tsSelect_none [LinearOrder F] (ok : Cand M F → Bool) (l : List (Cand M F)) :
    tsSelect ok l = none ↔ ∀ c ∈ l, ok c = false := by
  rw [← firstAllowed_none, tsSelect]
  split <;> simp_all

theorem tsSelect_some [LinearOrder F] (ok : Cand M F → Bool) (l : List (Cand M F)) (c : Cand M F)
    (h : tsSelect ok l = some c) :
    c ∈ l ∧ ok c = true ∧ ∀ d ∈ l, ok d = true → d.fit ≤ c.fit := by
  rw [tsSelect] at h
  split at h
  · simp at h
  · rename_i s rest hf
    obtain ⟨pre, h1, h2, h3⟩ := firstAllowed_some ok l s rest hf
    obtain ⟨g1, g2, g3, g4⟩ := bestAllowed_spec ok s h2 rest
    simp only [Option.some.injEq] at h
    rw [h] at g1 g2 g3 g4
    refine ⟨by rw [h1]; exact List.mem_append_right _ g2, g1, ?_⟩
    intro d hd hok
    rw [h1, List.mem_append, List.mem_cons] at hd
    rcases hd with hd | rfl | hd
    · rw [h3 d hd] at hok; simp at hok
    · exact g3
    · exact g4 d hd hok

/-- What one iteration of the tabu search does. -/
theorem tabuSearch_step [LinearOrder F] (mem : Mem (S × F) (Cand M F) W)
    (nb : Nat → S × F → List (Cand M F)) (app : M → S → S) (t : Nat)
    (p : (S × F) × TS (S × F) (Cand M F) W) :
    let q := stepTo (tabuSearch mem nb app) t p
    let s1 := mem.diversify p.2.mem (mem.intensify p.2.mem p.1)
    let ok := fun c => !mem.check p.2.mem s1 c || mem.aspir p.2.mem s1 c
    (q.2.isAccept = true ∧ (∃ c, tsSelect ok (nb t s1) = some c ∧ q.1 = (app c.mv s1.1, c.fit)) ∧
      q.2.bestSoFar = if p.2.bestSoFar.2 < q.1.2 then q.1 else p.2.bestSoFar) ∨
    (q.2.isAccept = false ∧ tsSelect ok (nb t s1) = none ∧ q.1 = s1 ∧ q.2.bestSoFar = p.2.bestSoFar) := by
  intro q s1 ok
  cases h : tsSelect ok (nb t s1) with
  | none =>
    right
    refine ⟨?_, rfl, ?_, ?_⟩ <;>
      simp only [q, stepTo, lsStep, tabuSearch] <;> simp only [s1, ok] at h <;> simp [h, s1]
  | some c =>
    left
    refine ⟨?_, ⟨c, rfl, ?_⟩, ?_⟩ <;>
      simp only [q, stepTo, lsStep, tabuSearch] <;> simp only [s1, ok] at h <;> simp [h, moveSel, s1]

end Paradiseo.LS
