/-
Helper lemmas on the populator and the general operators.
-/
import Mathlib.Tactic.Linarith
import Mathlib.Tactic.NormNum
import Verif.Model.EOBreed

namespace Paradiseo.Breed

open Paradiseo.EO (Err HowMany Ind evalFuncPtr)
open Paradiseo.Sel (rngRoulette)

variable {α G F : Type}

theorem deref_end {env : Env α} {s : St α} (h : s.cur = s.dest.length) {x : α}
    (hx : env.sel s.t = .ok x) :
    s.deref env = .ok (x, { s with
      dest := s.dest ++ [x], t := s.t + 1
      cap := if s.dest.length < s.cap then s.cap
             else max (env.grow s.dest.length) (s.dest.length + 1) },
      decide (¬ s.dest.length < s.cap)) := by
  simp only [St.deref, h, if_true, hx]

theorem deref_mid {env : Env α} {s : St α} (h : s.cur < s.dest.length) :
    s.deref env = .ok (s.dest[s.cur], s, false) := by
  have hn : s.cur ≠ s.dest.length := by omega
  simp only [St.deref, hn, if_false, List.getElem?_eq_getElem h]

/-- What a successful `operator*` does. -/
theorem deref_ok {env : Env α} {s s' : St α} {x : α} {m : Bool} (h : s.deref env = .ok (x, s', m)) :
    s'.cur = s.cur ∧ s'.k = s.k ∧ s'.dest[s'.cur]? = some x ∧ s.dest.length ≤ s'.dest.length ∧
      (s.cur = s.dest.length ∧ env.sel s.t = .ok x ∧ s'.dest = s.dest ++ [x] ∨
       s.cur < s.dest.length ∧ s' = s ∧ m = false) := by
  unfold St.deref at h
  split at h
  · rename_i hc
    split at h
    · simp at h
    · rename_i y hy
      simp only [Except.ok.injEq, Prod.mk.injEq] at h
      obtain ⟨rfl, rfl, rfl⟩ := h
      refine ⟨rfl, rfl, ?_, by simp, Or.inl ⟨hc, hy, rfl⟩⟩
      simp [hc]
  · rename_i hc
    split at h
    · simp at h
    · rename_i y hy
      simp only [Except.ok.injEq, Prod.mk.injEq] at h
      obtain ⟨rfl, rfl, rfl⟩ := h
      have := (List.getElem?_eq_some_iff.mp hy).1
      exact ⟨rfl, rfl, hy, le_rfl, Or.inr ⟨this, rfl, rfl⟩⟩

theorem deref_all {env : Env α} {P : α → Prop} (hsel : ∀ t x, env.sel t = .ok x → P x) {s s' : St α}
    {x : α} {m : Bool} (h : s.deref env = .ok (x, s', m)) (hs : ∀ y ∈ s.dest, P y) :
    P x ∧ ∀ y ∈ s'.dest, P y := by
  obtain ⟨_, _, hx, _, hcase⟩ := deref_ok h
  have hall : ∀ y ∈ s'.dest, P y := by
    rcases hcase with ⟨_, he, hd⟩ | ⟨_, rfl, _⟩
    · intro y hy
      rw [hd, List.mem_append, List.mem_singleton] at hy
      rcases hy with hy | rfl
      · exact hs y hy
      · exact hsel _ _ he
    · exact hs
  exact ⟨hall x (List.mem_of_getElem? hx), hall⟩

theorem next_dest (s : St α) : s.next.dest = s.dest := by unfold St.next; split <;> rfl

theorem next_cur (s : St α) (h : s.cur ≤ s.dest.length) :
    s.next.cur = min (s.cur + 1) s.dest.length := by
  unfold St.next
  split
  · rename_i hc; omega
  · simp only; omega

theorem mem_set_of {P : α → Prop} {l : List α} {i : Nat} {x : α} (hl : ∀ y ∈ l, P y) (hx : P x) :
    ∀ y ∈ l.set i x, P y := by
  intro y hy
  rcases List.mem_or_eq_of_mem_set hy with h | rfl
  · exact hl y h
  · exact hx

/-- The operator keeps a property of all the offspring. -/
def Preserves (P : α → Prop) (g : GenOp α) : Prop :=
  ∀ (env : Env α) (s s' : St α), (∀ t x, env.sel t = .ok x → P x) → (∀ x ∈ s.dest, P x) →
    g.apply env s = .ok s' → ∀ x ∈ s'.dest, P x

/-- The operator moves only forwards and removes nothing. -/
def Forward (g : GenOp α) : Prop :=
  ∀ (env : Env α) (s s' : St α), s.cur ≤ s.dest.length → g.apply env s = .ok s' →
    s.cur ≤ s'.cur ∧ s'.cur ≤ s'.dest.length ∧ s.dest.length ≤ s'.dest.length

section seq

theorem seqLoop_preserves {P : α → Prop} {g : GenOp α} (hg : Preserves P g) {env : Env α} {rate : ℚ}
    (hsel : ∀ t x, env.sel t = .ok x → P x) (n : Nat) (s s' : St α) (hs : ∀ x ∈ s.dest, P x)
    (h : seqLoop env rate g n s = .ok s') : ∀ x ∈ s'.dest, P x := by
  induction n generalizing s with
  | zero => simp [seqLoop] at h
  | succ n ih =>
    simp only [seqLoop] at h
    split at h
    · simp at h
    · rename_i s1 h1
      have hs1 : ∀ x ∈ s1.dest, P x := by
        split at h1
        · exact hg env { s with k := s.k + 1 } s1 hsel hs h1
        · simp only [Except.ok.injEq] at h1
          subst h1
          exact hs
      split at h
      · simp only [Except.ok.injEq] at h
        subst h
        rw [next_dest]
        exact hs1
      · exact ih _ (by rw [next_dest]; exact hs1) h

theorem seqOps_preserves {P : α → Prop} {ops : List (GenOp α × ℚ)}
    (hg : ∀ o ∈ ops, Preserves P o.1) {env : Env α} (hsel : ∀ t x, env.sel t = .ok x → P x)
    (fuel pos : Nat) (s s' : St α) (hs : ∀ x ∈ s.dest, P x)
    (h : seqOps fuel env pos ops s = .ok s') : ∀ x ∈ s'.dest, P x := by
  induction ops generalizing s with
  | nil =>
    simp only [seqOps, Except.ok.injEq] at h
    subst h
    exact hs
  | cons o ops ih =>
    obtain ⟨op, rate⟩ := o
    simp only [seqOps] at h
    split at h
    · simp at h
    · rename_i s1 h1
      refine ih (fun o ho => hg o (by simp [ho])) s1 ?_ h
      exact seqLoop_preserves (hg (op, rate) (by simp)) hsel _ _ _ (by simpa using hs) h1

theorem seqLoop_forward {g : GenOp α} (hg : Forward g) {env : Env α} {rate : ℚ} (n : Nat)
    (s s' : St α) (hs : s.cur ≤ s.dest.length) (h : seqLoop env rate g n s = .ok s') :
    s'.cur = s'.dest.length ∧ s.dest.length ≤ s'.dest.length := by
  induction n generalizing s with
  | zero => simp [seqLoop] at h
  | succ n ih =>
    simp only [seqLoop] at h
    split at h
    · simp at h
    · rename_i s1 h1
      have hs1 : s1.cur ≤ s1.dest.length ∧ s.dest.length ≤ s1.dest.length := by
        split at h1
        · exact (hg env { s with k := s.k + 1 } s1 hs h1).2
        · simp only [Except.ok.injEq] at h1
          subst h1
          exact ⟨hs, le_rfl⟩
      split at h
      · rename_i hex
        simp only [Except.ok.injEq] at h
        subst h
        simp only [St.exhausted, decide_eq_true_eq] at hex
        rw [next_dest] at *
        exact ⟨hex, hs1.2⟩
      · have := ih s1.next (by rw [next_dest, next_cur _ hs1.1]; omega) h
        rw [next_dest] at this
        exact ⟨this.1, hs1.2.trans this.2⟩

theorem seqOps_forward {ops : List (GenOp α × ℚ)} (hg : ∀ o ∈ ops, Forward o.1) {env : Env α}
    (fuel pos : Nat) (s s' : St α) (hs : s.cur ≤ s.dest.length) (hp : pos ≤ s.dest.length)
    (h : seqOps fuel env pos ops s = .ok s') :
    s'.cur ≤ s'.dest.length ∧ s.dest.length ≤ s'.dest.length ∧
      (ops ≠ [] → s'.cur = s'.dest.length) ∧ (ops = [] → s' = s) := by
  induction ops generalizing s with
  | nil =>
    simp only [seqOps, Except.ok.injEq] at h
    subst h
    exact ⟨hs, le_rfl, fun h => absurd rfl h, fun _ => rfl⟩
  | cons o ops ih =>
    obtain ⟨op, rate⟩ := o
    simp only [seqOps] at h
    split at h
    · simp at h
    · rename_i s1 h1
      have h2 := seqLoop_forward (hg (op, rate) (by simp)) _ _ _ (by simpa using hp) h1
      simp only at h2
      obtain ⟨g1, g2, g3, g4⟩ := ih (fun o ho => hg o (by simp [ho])) s1 (by omega) (by omega) h
      refine ⟨g1, h2.2.trans g2, fun _ => ?_, fun h => by simp at h⟩
      by_cases hops : ops = []
      · rw [g4 hops]; exact h2.1
      · exact g3 hops

end seq

/-- The roulette with two rates that sum to one. -/
theorem roulette_two {p u : ℚ} (h0 : 0 ≤ u) (h1 : u < 1) (hp : p ≤ 1) :
    rngRoulette [p, 1 - p] 0 u = .ok (if u < p then 0 else 1) := by
  simp only [rngRoulette, if_true, List.sum_cons, List.sum_nil]
  rw [show u * (p + (1 - p + 0)) = u by ring]
  simp only [Sel.rngWheelLoop, h0, if_true]
  by_cases hc : u < p
  · simp only [hc, if_true, show ¬ (0 ≤ u - p) by linarith, if_false, Sel.stepBack]
    rfl
  · simp only [hc, if_false, show 0 ≤ u - p by linarith, if_true,
      show ¬ (0 ≤ u - p - (1 - p)) by linarith, Sel.stepBack]
    rfl

/-- The roulette with one positive rate. -/
theorem roulette_one {w u : ℚ} (h0 : 0 ≤ u) (h1 : u < 1) (hw : 0 < w) :
    rngRoulette [w] 0 u = .ok 0 := by
  simp only [rngRoulette, if_true, List.sum_cons, List.sum_nil, add_zero]
  have h2 : 0 ≤ u * w := by positivity
  have h3 : ¬ (0 ≤ u * w - w) := by nlinarith
  simp only [Sel.rngWheelLoop, h2, h3, if_true, if_false, Sel.stepBack]
  rfl

/-- An operator on two individuals behind the last offspring, with room for two. -/
theorem quad_end [Inhabited F] (q : QuadOp (Ind G F)) {env : Env (Ind G F)} {s : St (Ind G F)}
    (hs : s.cur = s.dest.length) (hcap : s.dest.length + 2 ≤ s.cap) {x y : Ind G F}
    (hx : env.sel s.t = .ok x) (hy : env.sel (s.t + 1) = .ok y) :
    (quadGen q).apply env s = .ok ⟨s.dest ++ [(invQuad q s.k x y).2.1, (invQuad q s.k x y).2.2],
      s.dest.length + 1, s.cap, s.t + 2, s.k + 1⟩ := by
  simp only [quadGen]
  rw [deref_end hs hx]
  simp only [St.next, hs, List.length_append, List.length_cons, List.length_nil, zero_add,
    show ¬ (s.dest.length = s.dest.length + 1) by omega, if_false]
  rw [deref_end (by simp) hy]
  have h1 : s.dest.length < s.cap := by omega
  have h2 : s.dest.length + 1 < s.cap := by omega
  simp only [List.length_append, List.length_cons, List.length_nil, zero_add, h1, h2, if_true,
    not_true_eq_false, decide_false, Bool.false_eq_true, if_false, Except.ok.injEq, St.mk.injEq,
    and_true, true_and]
  apply List.ext_getElem?
  intro i
  rcases lt_trichotomy i s.dest.length with h | h | h
  · simp [List.getElem?_append, h, List.getElem?_set, show s.dest.length ≠ i by omega,
      show s.dest.length + 1 ≠ i by omega, show i < s.dest.length + 1 by omega]
  · subst h
    simp [List.getElem?_append, List.getElem?_set]
  · by_cases h' : i = s.dest.length + 1
    · subst h'
      simp [List.getElem?_append, List.getElem?_set]
    · rw [List.getElem?_eq_none (by simp; omega), List.getElem?_eq_none (by simp; omega)]

/-- An operator on one individual behind the last offspring. -/
theorem mon_end [Inhabited F] (m : MonOp (Ind G F)) {env : Env (Ind G F)} {s : St (Ind G F)}
    (hs : s.cur = s.dest.length) {x : Ind G F} (hx : env.sel s.t = .ok x) :
    ∃ cap, (monGen m).apply env s = .ok ⟨s.dest ++ [(invMon m s.k x).2], s.dest.length, cap, s.t + 1,
      s.k + 1⟩ := by
  refine ⟨if s.dest.length < s.cap then s.cap
    else max (env.grow s.dest.length) (s.dest.length + 1), ?_⟩
  simp only [monGen]
  rw [deref_end hs hx]
  simp only [hs, Except.ok.injEq, St.mk.injEq, and_true]
  rw [List.set_append_right _ _ (le_refl _)]
  simp

/-- An operator on one individual and a second, constant one, behind the last offspring. -/
theorem bin_end [Inhabited F] (b : BinOp (Ind G F)) {env : Env (Ind G F)} {s : St (Ind G F)}
    (hs : s.cur = s.dest.length) {x y : Ind G F} (hx : env.sel s.t = .ok x)
    (hy : env.sel (s.t + 1) = .ok y) :
    ∃ cap, (binGen b).apply env s = .ok ⟨s.dest ++ [(invBin b s.k x y).2], s.dest.length, cap, s.t + 2,
      s.k + 1⟩ := by
  refine ⟨if s.dest.length < s.cap then s.cap
    else max (env.grow s.dest.length) (s.dest.length + 1), ?_⟩
  simp only [binGen]
  rw [deref_end hs hx]
  simp only [hy, hs, Except.ok.injEq, St.mk.injEq, and_true]
  rw [List.set_append_right _ _ (le_refl _)]
  simp

/-- An operator on one individual at a place of the offspring. -/
theorem mon_mid [Inhabited F] (m : MonOp (Ind G F)) {env : Env (Ind G F)} {s : St (Ind G F)}
    (hs : s.cur < s.dest.length) :
    (monGen m).apply env s = .ok { s with
      dest := s.dest.set s.cur (invMon m s.k s.dest[s.cur]).2, k := s.k + 1 } := by
  simp only [monGen]
  rw [deref_mid hs]

/-- The last turn of the loop of eoSequentialOp. -/
theorem seqLoop_last {env : Env α} {rate : ℚ} {op : GenOp α} {s s1 : St α} (n : Nat)
    (h : (if env.u s.k < rate then op.apply env { s with k := s.k + 1 }
      else .ok { s with k := s.k + 1 }) = .ok s1) (he : s1.next.cur = s1.dest.length) :
    seqLoop env rate op (n + 1) s = .ok s1.next := by
  have he' : s1.next.exhausted = true := by simp [St.exhausted, next_dest, he]
  rw [seqLoop, h]
  simp only [he', if_true]

/-- A turn of the loop of eoSequentialOp that is not the last. -/
theorem seqLoop_more {env : Env α} {rate : ℚ} {op : GenOp α} {s s1 : St α} (n : Nat)
    (h : (if env.u s.k < rate then op.apply env { s with k := s.k + 1 }
      else .ok { s with k := s.k + 1 }) = .ok s1) (he : s1.next.cur ≠ s1.dest.length) :
    seqLoop env rate op (n + 1) s = seqLoop env rate op n s1.next := by
  have he' : s1.next.exhausted = false := by simp [St.exhausted, next_dest, he]
  rw [seqLoop, h]
  simp only [he', Bool.false_eq_true, if_false]

end Paradiseo.Breed
