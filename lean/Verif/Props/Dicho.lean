import Verif.Model.Dicho
import Verif.Props.MoeoArchive
import Mathlib.Tactic.FieldSimp
import Mathlib.Tactic.Ring
import Mathlib.Tactic.Linarith
import Mathlib.Algebra.BigOperators.Group.List.Basic

/-!
# C259, C260: dichotomic weights; random and equal weights
-/

namespace Paradiseo.Moeo

open Paradiseo.EO

variable {F : Type} [Field F] [LinearOrder F] [IsStrictOrderedRing F] {X : Type}

/-! ### The archive -/

section
variable {A : ArchCfg X (Fin 2 → F)}

theorem mem_update (hA : A.Exact) {arch : List X} (hac : Antichain A.cmp (arch.map A.ov)) {m x : X}
    (hx : x ∈ (update A arch m).1) : x ∈ arch ∨ x = m := by
  rcases update_cases hA hac m with ⟨-, hu⟩ | ⟨-, hu⟩
  · rw [hu] at hx; exact Or.inl hx
  · rw [hu] at hx
    rcases List.mem_append.1 hx with hx | hx
    · exact Or.inl ((mem_removeLoop _ _ _).1 hx).1
    · exact Or.inr (by simpa using hx)

theorem update_antichain (hA : A.Exact) {arch : List X} (hac : Antichain A.cmp (arch.map A.ov)) (m : X) :
    Antichain A.cmp ((update A arch m).1.map A.ov) := by
  rcases update_cases hA hac m with ⟨-, hu⟩ | ⟨h, hu⟩
  · rw [hu]; exact hac
  · rw [hu]; exact insert_antichain hA hac h

theorem update_covers (hA : A.Exact) {arch : List X} (hac : Antichain A.cmp (arch.map A.ov)) {m : X} {w : Fin 2 → F}
    (hw : Covers A.cmp (arch.map A.ov) w ∨ w = A.ov m) : Covers A.cmp ((update A arch m).1.map A.ov) w := by
  rcases update_cases hA hac m with ⟨h, hu⟩ | ⟨-, hu⟩
  · rw [hu]
    rcases hw with hw | rfl
    · exact hw
    · exact blocked_covers hA h
  · rw [hu]; exact insert_covers hA arch m hw

theorem updatePop_snoc (A : ArchCfg X (Fin 2 → F)) (arch pop : List X) (m : X) :
    (updatePop A arch (pop ++ [m])).1 = (update A (updatePop A arch pop).1 m).1 := by
  simp [updatePop, List.foldl_append]

theorem updatePop_spec (hA : A.Exact) {arch : List X} (hac : Antichain A.cmp (arch.map A.ov)) (pop : List X) :
    Antichain A.cmp ((updatePop A arch pop).1.map A.ov) ∧
    (∀ x ∈ (updatePop A arch pop).1, x ∈ arch ++ pop) ∧
    ∀ w, Covers A.cmp ((arch ++ pop).map A.ov) w → Covers A.cmp ((updatePop A arch pop).1.map A.ov) w := by
  induction pop using List.reverseRecOn with
  | nil => simp [updatePop]; exact hac
  | append_singleton pop m ih =>
    obtain ⟨h1, h2, h3⟩ := ih
    rw [updatePop_snoc]
    refine ⟨update_antichain hA h1 m, fun x hx => ?_, fun w hw => ?_⟩
    · rcases mem_update hA h1 hx with hx | rfl
      · have := h2 x hx
        rw [← List.append_assoc]
        exact List.mem_append_left _ this
      · simp
    · rw [← List.append_assoc, List.map_append] at hw
      obtain ⟨v, hv, hvw⟩ := hw
      rcases List.mem_append.1 hv with hv | hv
      · exact update_covers hA h1 (Or.inl (h3 w ⟨v, hv, hvw⟩))
      · have hv : v = A.ov m := by simpa using hv
        subst hv
        rcases hvw with hvw | hvw
        · exact update_covers hA h1 (Or.inr hvw)
        · obtain ⟨y, hy, hyw⟩ := update_covers hA h1 (w := A.ov m) (m := m) (Or.inr rfl)
          refine ⟨y, hy, Or.inr ?_⟩
          rcases hyw with hyw | hyw
          · rw [← hyw]; exact hvw
          · exact hA.trans _ _ _ hvw hyw

theorem update_length {arch : List X} (m : X) (h : arch.length < 2) : (update A arch m).1.length ≤ 2 := by
  have h1 : (removeLoop (A.beaten m) arch 0).length ≤ arch.length := by
    rw [(removeLoop_filter _ _).length_eq]; exact List.length_filter_le _ _
  unfold update
  dsimp only
  split <;> simp <;> omega

theorem update_kept (hA : A.Exact) {arch : List X} (hac : Antichain A.cmp (arch.map A.ov)) {m : X}
    (h : (update A arch m).2 = false) : (update A arch m).1 = arch := (C34_effect A hA arch hac m).2 h

end

/-! ### Two objectives -/

theorem first_differs {T : Traits 2 F} (h0 : T.tol = 0) {u v : Fin 2 → F} (h1 : paretoCmp T u v = false)
    (h2 : paretoCmp T v u = false) (h3 : u ≠ v) : u 0 ≠ v 0 := by
  intro he
  have hne : u 1 ≠ v 1 := by
    intro he'
    apply h3
    funext i
    match i with
    | 0 => exact he
    | 1 => exact he'
  rw [← Bool.not_eq_true, C31_tolerance_spec] at h1 h2
  have key : ∀ a b : Fin 2 → F, a 0 = b 0 → Better (T.minimizing 1) (b 1) (a 1) → a 1 ≠ b 1 →
      (∀ i, T.tol < |a i - b i| → Better (T.minimizing i) (b i) (a i)) ∧ ∃ i, T.tol < |a i - b i| := by
    intro a b e hb hn
    refine ⟨fun i => ?_, 1, ?_⟩
    · match i with
      | 0 => intro h; rw [e, sub_self, abs_zero, h0] at h; exact absurd h (lt_irrefl _)
      | 1 => exact fun _ => hb
    · rw [h0]; exact abs_pos.2 (sub_ne_zero.2 hn)
  cases hm : T.minimizing 1 with
  | true =>
    rcases lt_or_gt_of_ne hne with h | h
    · exact h2 (key v u he.symm (by rw [hm]; exact h) hne.symm)
    · exact h1 (key u v he (by rw [hm]; exact h) hne)
  | false =>
    rcases lt_or_gt_of_ne hne with h | h
    · exact h1 (key u v he (by rw [hm]; exact h) hne)
    · exact h2 (key v u he.symm (by rw [hm]; exact h) hne.symm)

/-- Weights that are numbers, not negative, with sum one. -/
def GoodW : Option (F × F) → Prop
  | none => False
  | some (a, b) => 0 ≤ a ∧ 0 ≤ b ∧ a + b = 1

omit [IsStrictOrderedRing F] in
theorem dichoNormal_abs [IsStrictOrderedRing F] (u v : Fin 2 → F) : dichoNormal u v =
    if |u 0 - v 0| + |u 1 - v 1| = 0 then none
    else some (|u 0 - v 0| / (|u 0 - v 0| + |u 1 - v 1|), |u 1 - v 1| / (|u 0 - v 0| + |u 1 - v 1|)) := by
  have key : ∀ a b : F, (if b < a then a - b else b - a) = |a - b| := by
    intro a b
    split
    · rw [abs_of_pos (by linarith)]
    · rw [abs_of_nonpos (by linarith)]; ring
  unfold dichoNormal
  simp only [key]

theorem dichoNormal_good {u v : Fin 2 → F} (h : u 0 ≠ v 0) : GoodW (dichoNormal u v) := by
  rw [dichoNormal_abs]
  have h1 : 0 < |u 0 - v 0| := abs_pos.2 (sub_ne_zero.2 h)
  have h2 := abs_nonneg (u 1 - v 1)
  rw [if_neg (by linarith)]
  refine ⟨by positivity, by positivity, ?_⟩
  rw [← add_div, div_self (by linarith)]

/-! ### The strategy -/

section
variable {A : ArchCfg X (Fin 2 → F)}

/-- The invariant. -/
structure Dicho.Inv (A : ArchCfg X (Fin 2 → F)) (s : Dicho X) : Prop where
  anti : Antichain A.cmp (s.arch.map A.ov)
  fine : s.second = false → 2 ≤ s.arch.length →
    (∃ i, s.it = some i) ∧ s.arch.Pairwise (fun a b => A.ov b 0 ≤ A.ov a 0)
  lost : s.second = true → 2 ≤ s.arch.length → s.it = none
  small : s.arch.length < 2 ∨ s.second = true → s.toAdd = []

theorem Dicho.inv_init : (Dicho.init : Dicho X).Inv A :=
  ⟨List.Pairwise.nil, fun _ h => absurd h (by simp [Dicho.init]), fun _ h => absurd h (by simp [Dicho.init]), fun _ => rfl⟩

theorem dichoSort_perm (ov : X → Fin 2 → F) (l : List X) : (dichoSort ov l).Perm l := List.perm_insertionSort _ _

theorem dichoSort_sorted (ov : X → Fin 2 → F) (l : List X) :
    (dichoSort ov l).Pairwise fun a b => ov b 0 ≤ ov a 0 := by
  have : Std.Total (fun a b : X => ov b 0 ≤ ov a 0) := ⟨fun a b => le_total _ _⟩
  have : IsTrans X (fun a b : X => ov b 0 ≤ ov a 0) := ⟨fun a b c h1 h2 => le_trans h2 h1⟩
  exact List.pairwise_insertionSort _ _

theorem start_inv (hA : A.Exact) {s : Dicho X} (h1 : Antichain A.cmp (s.arch.map A.ov)) (h2 : s.arch.length < 2)
    (h3 : s.toAdd = []) (m : X) : GoodW (s.start A m).1 ∧ (s.start A m).2.Inv A ∧
      ((s.start A m).1 = some (0, 1) ∨ (s.start A m).1 = some (1, 0)) ∧ (s.start A m).2.toAdd = [] := by
  have hanti := update_antichain hA h1 m
  unfold Dicho.start
  dsimp only
  cases hs : s.second with
  | true =>
    rw [if_pos rfl]
    refine ⟨⟨zero_le_one, le_refl _, add_zero _⟩, ⟨?_, fun _ _ => ⟨⟨0, rfl⟩, dichoSort_sorted _ _⟩, ?_, fun _ => h3⟩,
      Or.inr rfl, h3⟩
    · exact hanti.perm ((dichoSort_perm _ _).symm.map _)
    · intro h; cases h
  | false =>
    rw [if_neg (by simp)]
    refine ⟨⟨le_refl _, zero_le_one, zero_add _⟩, ⟨hanti, ?_, ?_, fun _ => h3⟩, Or.inl rfl, h3⟩
    · intro h; cases h
    · intro _ h
      dsimp only at h ⊢
      cases hr : (update A s.arch m).2 with
      | true => rw [if_pos rfl]
      | false => rw [update_kept hA h1 hr] at h; omega

/-- Two neighbours of the archive, the first with the larger first objective. -/
def Neighbours (A : ArchCfg X (Fin 2 → F)) (arch : List X) (u v : X) : Prop :=
  u ∈ arch ∧ v ∈ arch ∧ A.ov v 0 < A.ov u 0 ∧ ∀ x ∈ arch, A.ov x 0 ≤ A.ov v 0 ∨ A.ov u 0 ≤ A.ov x 0

theorem neighbours_at {T : Traits 2 F} (h0 : T.tol = 0) (hc : A.cmp = paretoCmp T) {arch : List X}
    (h1 : Antichain A.cmp (arch.map A.ov)) (h2 : arch.Pairwise fun a b => A.ov b 0 ≤ A.ov a 0) {i : Nat} {u v : X}
    (hu : arch[i]? = some u) (hv : arch[i + 1]? = some v) : Neighbours A arch u v := by
  obtain ⟨hi, rfl⟩ := List.getElem?_eq_some_iff.1 hu
  obtain ⟨hj, rfl⟩ := List.getElem?_eq_some_iff.1 hv
  refine ⟨List.getElem_mem _, List.getElem_mem _, ?_, ?_⟩
  · refine lt_of_le_of_ne (List.pairwise_iff_getElem.1 h2 i (i + 1) hi hj (by omega)) ?_
    have := List.pairwise_iff_getElem.1 (show (arch.map A.ov).Pairwise _ from h1) i (i + 1) (by simpa using hi)
      (by simpa using hj) (by omega)
    rw [List.getElem_map, List.getElem_map, hc] at this
    exact (first_differs h0 this.1 this.2.1 this.2.2).symm
  · intro x hx
    obtain ⟨k, hk, rfl⟩ := List.getElem_of_mem hx
    by_cases hki : k < i
    · exact Or.inr (List.pairwise_iff_getElem.1 h2 k i hk hi hki)
    · by_cases hki' : k = i
      · subst hki'; exact Or.inr (le_refl _)
      · by_cases hk' : k = i + 1
        · subst hk'; exact Or.inl (le_refl _)
        · exact Or.inl (List.pairwise_iff_getElem.1 h2 (i + 1) k hj hk (by omega))

theorem merge_inv (hA : A.Exact) {s : Dicho X} (h1 : Antichain A.cmp (s.arch.map A.ov)) :
    Antichain A.cmp ((s.merge A).arch.map A.ov) ∧ (s.merge A).arch.Pairwise (fun a b => A.ov b 0 ≤ A.ov a 0) :=
  ⟨(updatePop_spec hA h1 s.toAdd).1.perm ((dichoSort_perm _ _).symm.map _), dichoSort_sorted _ _⟩

/-- What a good call leaves: weights, invariant, and where the weights come from. -/
def After (A : ArchCfg X (Fin 2 → F)) (w : Option (F × F)) (s' : Dicho X) : Prop :=
  GoodW w ∧ s'.Inv A ∧ (s'.toAdd = [] → w = some (0, 1) ∨ w = some (1, 0)) ∧
    (s'.toAdd ≠ [] → ∃ u v, Neighbours A s'.arch u v ∧ w = dichoNormal (A.ov u) (A.ov v))

theorem step_after {T : Traits 2 F} (h0 : T.tol = 0) (hc : A.cmp = paretoCmp T) {s : Dicho X}
    (h1 : Antichain A.cmp (s.arch.map A.ov)) (h2 : s.arch.Pairwise fun a b => A.ov b 0 ≤ A.ov a 0)
    (h3 : s.second = false) {i : Nat} {u v : X} (hu : s.arch[i]? = some u) (hv : s.arch[i + 1]? = some v) (m : X) :
    After A (s.step A i u v m).1 (s.step A i u v m).2 := by
  have hn := neighbours_at h0 hc h1 h2 hu hv
  have hlen : 2 ≤ s.arch.length := by
    obtain ⟨hj, -⟩ := List.getElem?_eq_some_iff.1 hv
    omega
  refine ⟨dichoNormal_good hn.2.2.1.ne', ⟨h1, fun _ _ => ⟨⟨_, rfl⟩, h2⟩, ?_, ?_⟩, ?_, fun _ => ⟨u, v, hn, rfl⟩⟩
  · intro h
    simp only [Dicho.step, h3] at h
    cases h
  · rintro (h | h)
    · simp only [Dicho.step] at h; omega
    · simp only [Dicho.step, h3] at h; cases h
  · intro h
    simp [Dicho.step] at h

theorem again_after {T : Traits 2 F} (h0 : T.tol = 0) (hc : A.cmp = paretoCmp T) (hA : A.Exact) {s : Dicho X}
    (h1 : Antichain A.cmp (s.arch.map A.ov)) (h2 : s.arch.Pairwise fun a b => A.ov b 0 ≤ A.ov a 0)
    (h3 : s.second = false) (h4 : s.toAdd = []) (m : X) : After A (s.again A m).1 (s.again A m).2 := by
  unfold Dicho.again
  split
  · rename_i u v l e
    exact step_after h0 hc h1 h2 h3 (by rw [e]; rfl) (by rw [e]; rfl) m
  · rename_i hn
    have hlen : s.arch.length < 2 := by
      cases hs : s.arch with
      | nil => simp
      | cons a l =>
        cases l with
        | nil => simp
        | cons b l => exact absurd hs (hn a b l)
    obtain ⟨g1, g2, g3, g4⟩ := start_inv hA h1 hlen h4 m
    exact ⟨g1, g2, fun _ => g3, fun h => absurd g4 h⟩

/-- One call: it uses an iterator that is not valid exactly if the archive got its second member on a first turn. -/
theorem call_spec {T : Traits 2 F} (h0 : T.tol = 0) (hc : A.cmp = paretoCmp T) (hA : A.Exact) {s : Dicho X}
    (h : s.Inv A) (m : X) :
    (s.call A m = .error .ub ∧ s.second = true ∧ 2 ≤ s.arch.length) ∨
    (∃ w s', s.call A m = .ok (w, s') ∧ After A w s' ∧ ¬ (s.second = true ∧ 2 ≤ s.arch.length)) := by
  unfold Dicho.call
  by_cases hl : s.arch.length < 2
  · rw [if_pos hl]
    obtain ⟨g1, g2, g3, g4⟩ := start_inv hA h.anti hl (h.small (Or.inl hl)) m
    exact Or.inr ⟨_, _, rfl, ⟨g1, g2, fun _ => g3, fun h => absurd g4 h⟩, fun h => by omega⟩
  · rw [if_neg hl]
    have hl' : 2 ≤ s.arch.length := by omega
    cases hs : s.second with
    | true =>
      rw [h.lost hs hl']
      exact Or.inl ⟨rfl, rfl, hl'⟩
    | false =>
      obtain ⟨⟨i, hi⟩, hp⟩ := h.fine hs hl'
      rw [hi]
      dsimp only
      right
      cases hu : s.arch[i]? with
      | none =>
        obtain ⟨m1, m2⟩ := merge_inv hA h.anti
        exact ⟨_, _, rfl, again_after h0 hc hA m1 m2 hs rfl m, by simp⟩
      | some u =>
        cases hv : s.arch[i + 1]? with
        | none =>
          obtain ⟨m1, m2⟩ := merge_inv hA h.anti
          exact ⟨_, _, rfl, again_after h0 hc hA m1 m2 hs rfl m, by simp⟩
        | some v => exact ⟨_, _, rfl, step_after h0 hc h.anti hp hs hu hv m, by simp⟩

theorem calls_snoc (s : Dicho X) (ms : List X) (m : X) : s.calls A (ms ++ [m]) =
    match s.calls A ms with
    | .error e => .error e
    | .ok (ws, s1) =>
      match s1.call A m with
      | .error e => .error e
      | .ok (w, s2) => .ok (ws ++ [w], s2) := by
  induction ms generalizing s with
  | nil =>
    rw [List.nil_append, Dicho.calls, Dicho.calls]
    dsimp only
    cases s.call A m with
    | error e => rfl
    | ok r => rfl
  | cons a ms ih =>
    rw [List.cons_append, Dicho.calls, Dicho.calls]
    cases s.call A a with
    | error e => rfl
    | ok r =>
      dsimp only
      rw [ih]
      cases r.2.calls A ms with
      | error e => rfl
      | ok q =>
        dsimp only
        cases q.2.call A m with
        | error e => rfl
        | ok t => rfl

theorem calls_inv {T : Traits 2 F} (h0 : T.tol = 0) (hc : A.cmp = paretoCmp T) (hA : A.Exact) (ms : List X) :
    ∀ {ws : List (Option (F × F))} {s' : Dicho X}, (Dicho.init : Dicho X).calls A ms = .ok (ws, s') →
      s'.Inv A ∧ ∀ w ∈ ws, GoodW w := by
  induction ms using List.reverseRecOn with
  | nil =>
    intro ws s' h
    simp only [Dicho.calls, Except.ok.injEq, Prod.mk.injEq] at h
    obtain ⟨rfl, rfl⟩ := h
    exact ⟨Dicho.inv_init, by simp⟩
  | append_singleton ms m ih =>
    intro ws s' h
    rw [calls_snoc] at h
    cases hq : (Dicho.init : Dicho X).calls A ms with
    | error e => rw [hq] at h; cases h
    | ok q =>
      rw [hq] at h
      obtain ⟨i1, i2⟩ := ih (ws := q.1) (s' := q.2) hq
      dsimp only at h
      rcases call_spec h0 hc hA i1 m with ⟨e, -⟩ | ⟨w, s1, e, ha, -⟩
      · rw [e] at h; cases h
      · rw [e] at h
        simp only [Except.ok.injEq, Prod.mk.injEq] at h
        obtain ⟨rfl, rfl⟩ := h
        refine ⟨ha.2.1, fun w' hw' => ?_⟩
        rcases List.mem_append.1 hw' with hw' | hw'
        · exact i2 w' hw'
        · have : w' = w := by simpa using hw'
          subst this
          exact ha.1


/-- The archive the strategy has. -/
def dichoArch (T : Traits 2 F) (ov : X → Fin 2 → F) : ArchCfg X (Fin 2 → F) := ⟨ov, paretoCmp T, eqCmp T, true⟩

/-- All weights given are numbers, not negative, with sum one. -/
theorem C259_weights {T : Traits 2 F} (h0 : T.tol = 0) (ov : X → Fin 2 → F) {ms : List X}
    {ws : List (Option (F × F))} {s' : Dicho X}
    (h : (Dicho.init : Dicho X).calls (dichoArch T ov) ms = .ok (ws, s')) :
    ∀ w ∈ ws, ∃ a b, w = some (a, b) ∧ 0 ≤ a ∧ 0 ≤ b ∧ a + b = 1 := by
  intro w hw
  have := (calls_inv h0 rfl (exact_pareto T h0 ov true) ms h).2 w hw
  match w, this with
  | some (a, b), ⟨h1, h2, h3⟩ => exact ⟨a, b, rfl, h1, h2, h3⟩

/-- The weights after the last solution: one of the two single objectives, or the weights of two solutions that are
neighbours in the front found so far. -/
theorem C259_neighbours {T : Traits 2 F} (h0 : T.tol = 0) (ov : X → Fin 2 → F) {ms : List X} {m : X}
    {ws : List (Option (F × F))} {w : Option (F × F)} {s' : Dicho X}
    (h : (Dicho.init : Dicho X).calls (dichoArch T ov) (ms ++ [m]) = .ok (ws ++ [w], s')) :
    w = some (0, 1) ∨ w = some (1, 0) ∨ ∃ u ∈ s'.arch, ∃ v ∈ s'.arch, ov v 0 < ov u 0 ∧
      (∀ x ∈ s'.arch, ov x 0 ≤ ov v 0 ∨ ov u 0 ≤ ov x 0) ∧
      w = some (|ov u 0 - ov v 0| / (|ov u 0 - ov v 0| + |ov u 1 - ov v 1|),
        |ov u 1 - ov v 1| / (|ov u 0 - ov v 0| + |ov u 1 - ov v 1|)) := by
  have hA : (dichoArch T ov).Exact := exact_pareto T h0 ov true
  rw [calls_snoc] at h
  cases hq : (Dicho.init : Dicho X).calls (dichoArch T ov) ms with
  | error e => rw [hq] at h; cases h
  | ok q =>
    rw [hq] at h
    obtain ⟨i1, i2⟩ := calls_inv h0 rfl hA ms (ws := q.1) (s' := q.2) hq
    dsimp only at h
    rcases call_spec h0 rfl hA i1 m with ⟨e, -⟩ | ⟨w', s1, e, ha, -⟩
    · rw [e] at h; cases h
    · rw [e] at h
      simp only [Except.ok.injEq, Prod.mk.injEq] at h
      obtain ⟨h1, rfl⟩ := h
      have : w' = w := by simpa using (List.append_inj' h1 rfl).2
      subst this
      by_cases ht : s1.toAdd = []
      · rcases ha.2.2.1 ht with h | h
        · exact Or.inl h
        · exact Or.inr (Or.inl h)
      · obtain ⟨u, v, hn, hw⟩ := ha.2.2.2 ht
        refine Or.inr (Or.inr ⟨u, hn.1, v, hn.2.1, hn.2.2.1, hn.2.2.2, ?_⟩)
        rw [hw, dichoNormal_abs, if_neg]
        · rfl
        · have h1 : 0 < |ov u 0 - ov v 0| := abs_pos.2 (sub_ne_zero.2 (show ov u 0 ≠ ov v 0 from hn.2.2.1.ne'))
          have h2 := abs_nonneg (ov u 1 - ov v 1)
          exact (by linarith : 0 < |ov u 0 - ov v 0| + |ov u 1 - ov v 1|).ne'

/-- With these weights the two solutions have the same weighted sum only if they differ as much in one objective as
in the other: the weights are not those of the line through them. -/
theorem C259_not_normal {u v : Fin 2 → F} (h1 : v 0 < u 0) (h2 : u 1 < v 1) {a b : F}
    (hw : dichoNormal u v = some (a, b)) :
    a * u 0 + b * u 1 = a * v 0 + b * v 1 ↔ u 0 - v 0 = v 1 - u 1 := by
  rw [dichoNormal_abs, abs_of_pos (by linarith : 0 < u 0 - v 0), abs_of_neg (by linarith : u 1 - v 1 < 0)] at hw
  have hs : 0 < u 0 - v 0 + -(u 1 - v 1) := by linarith
  rw [if_neg hs.ne'] at hw
  simp only [Option.some.injEq, Prod.mk.injEq] at hw
  obtain ⟨rfl, rfl⟩ := hw
  generalize hx : u 0 - v 0 = x at *
  generalize hy : -(u 1 - v 1) = y at *
  have hx0 : 0 < x := by linarith
  have hy0 : 0 < y := by linarith
  have e0 : u 0 = v 0 + x := by linarith
  have e1 : v 1 = u 1 + y := by linarith
  rw [e0, e1]
  constructor
  · intro h
    have : x * x = y * y := by
      have h' := congrArg (· * (x + y)) h
      field_simp at h'
      linarith
    have : (x - y) * (x + y) = 0 := by ring_nf; linarith
    rcases mul_eq_zero.1 this with h | h <;> linarith
  · intro h
    have : x = y := by linarith
    subst this
    field_simp
    ring

/-- Every solution seen is in the archive or waits to be added, or one that dominates it does. -/
theorem C259_kept {T : Traits 2 F} (h0 : T.tol = 0) (ov : X → Fin 2 → F) (ms : List X)
    {ws : List (Option (F × F))} {s' : Dicho X}
    (h : (Dicho.init : Dicho X).calls (dichoArch T ov) ms = .ok (ws, s')) :
    ∀ m ∈ ms, ∃ x ∈ s'.arch ++ s'.toAdd, ov x = ov m ∨ Dominates T.minimizing (ov x) (ov m) := by
  have hA : (dichoArch T ov).Exact := exact_pareto T h0 ov true
  have goal : ∀ m ∈ ms, Covers (paretoCmp T) ((s'.arch ++ s'.toAdd).map ov) (ov m) := by
    induction ms using List.reverseRecOn generalizing ws s' with
    | nil => intro m hm; cases hm
    | append_singleton ms m ih =>
      rw [calls_snoc] at h
      cases hq : (Dicho.init : Dicho X).calls (dichoArch T ov) ms with
      | error e => rw [hq] at h; cases h
      | ok q =>
        rw [hq] at h
        have i0 := ih hq
        obtain ⟨i1, -⟩ := calls_inv h0 rfl hA ms (ws := q.1) (s' := q.2) hq
        dsimp only at h
        have start_cov : ∀ (s : Dicho X), Antichain (paretoCmp T) (s.arch.map ov) → s.toAdd = [] → ∀ w,
            Covers (paretoCmp T) (s.arch.map ov) w ∨ w = ov m →
            Covers (paretoCmp T) (((s.start (dichoArch T ov) m).2.arch ++ (s.start (dichoArch T ov) m).2.toAdd).map ov) w := by
          intro s ha ht w hw
          have hu := update_covers hA ha hw
          have hT : (s.start (dichoArch T ov) m).2.toAdd = [] := by
            unfold Dicho.start; dsimp only; split <;> exact ht
          rw [hT, List.append_nil]
          unfold Dicho.start
          dsimp only
          split
          · obtain ⟨y, hy, hyw⟩ := hu
            exact ⟨y, ((dichoSort_perm _ _).symm.map _).mem_iff.1 hy, hyw⟩
          · exact hu
        have step_cov : ∀ (s : Dicho X) (i : Nat) (u v : X) (w : Fin 2 → F),
            Covers (paretoCmp T) ((s.arch ++ s.toAdd).map ov) w ∨ w = ov m →
            Covers (paretoCmp T) (((s.step (dichoArch T ov) i u v m).2.arch ++
              (s.step (dichoArch T ov) i u v m).2.toAdd).map ov) w := by
          intro s i u v w hw
          unfold Dicho.step
          dsimp only
          rcases hw with ⟨y, hy, hyw⟩ | rfl
          · refine ⟨y, ?_, hyw⟩
            rw [← List.append_assoc, List.map_append]
            exact List.mem_append_left _ hy
          · exact ⟨ov m, by simp, Or.inl rfl⟩
        have again_cov : ∀ (w : Fin 2 → F), Covers (paretoCmp T) ((q.2.arch ++ q.2.toAdd).map ov) w ∨ w = ov m →
            Covers (paretoCmp T) (((((q.2.merge (dichoArch T ov)).again (dichoArch T ov) m).2.arch) ++
              (((q.2.merge (dichoArch T ov)).again (dichoArch T ov) m).2.toAdd)).map ov) w := by
          intro w hw
          have hm := updatePop_spec hA i1.anti q.2.toAdd
          have hw' : Covers (paretoCmp T) ((q.2.merge (dichoArch T ov)).arch.map ov) w ∨ w = ov m := by
            rcases hw with hw | hw
            · left
              obtain ⟨y, hy, hyw⟩ := hm.2.2 w hw
              exact ⟨y, ((dichoSort_perm _ _).symm.map _).mem_iff.1 hy, hyw⟩
            · exact Or.inr hw
          unfold Dicho.again
          split
          · refine step_cov _ _ _ _ w ?_
            rcases hw' with ⟨y, hy, hyw⟩ | hw'
            · exact Or.inl ⟨y, by rw [List.map_append]; exact List.mem_append_left _ hy, hyw⟩
            · exact Or.inr hw'
          · exact start_cov _ (merge_inv hA i1.anti).1 rfl w hw'
        have main : ∀ (w : Fin 2 → F), Covers (paretoCmp T) ((q.2.arch ++ q.2.toAdd).map ov) w ∨ w = ov m →
            Covers (paretoCmp T) ((s'.arch ++ s'.toAdd).map ov) w := by
          intro w hw
          unfold Dicho.call at h
          by_cases hl : q.2.arch.length < 2
          · rw [if_pos hl] at h
            simp only [Except.ok.injEq, Prod.mk.injEq] at h
            obtain ⟨-, rfl⟩ := h
            have ht := i1.small (Or.inl hl)
            refine start_cov _ i1.anti ht w ?_
            rw [ht, List.append_nil] at hw
            exact hw
          · rw [if_neg hl] at h
            cases hi : q.2.it with
            | none => rw [hi] at h; cases h
            | some i =>
              rw [hi] at h
              dsimp only at h
              cases hu : q.2.arch[i]? with
              | none =>
                rw [hu] at h
                simp only [Except.ok.injEq, Prod.mk.injEq] at h
                obtain ⟨-, rfl⟩ := h
                exact again_cov w hw
              | some u =>
                rw [hu] at h
                cases hv : q.2.arch[i + 1]? with
                | none =>
                  rw [hv] at h
                  simp only [Except.ok.injEq, Prod.mk.injEq] at h
                  obtain ⟨-, rfl⟩ := h
                  exact again_cov w hw
                | some v =>
                  rw [hv] at h
                  simp only [Except.ok.injEq, Prod.mk.injEq] at h
                  obtain ⟨-, rfl⟩ := h
                  exact step_cov _ _ _ _ w hw
        intro m' hm'
        rcases List.mem_append.1 hm' with hm' | hm'
        · exact main _ (Or.inl (i0 m' hm'))
        · exact main _ (Or.inr (by rw [List.mem_singleton.1 hm']))
  intro m hm
  obtain ⟨y, hy, hyw⟩ := goal m hm
  obtain ⟨x, hx, rfl⟩ := List.mem_map.1 hy
  refine ⟨x, hx, ?_⟩
  rcases hyw with h | h
  · exact Or.inl h.symm
  · exact Or.inr ((C31_pareto_spec T h0 _ _).1 h)

/-- A call fails exactly if the last one was the first of a pair of opening turns and left two solutions in the
archive: the place kept in the archive is then no longer valid. -/
theorem C259_ub {T : Traits 2 F} (h0 : T.tol = 0) (ov : X → Fin 2 → F) {ms : List X} {m : X}
    {ws : List (Option (F × F))} {s' : Dicho X}
    (h : (Dicho.init : Dicho X).calls (dichoArch T ov) ms = .ok (ws, s')) :
    (Dicho.init : Dicho X).calls (dichoArch T ov) (ms ++ [m]) =
        (.error .ub : Except Err (List (Option (F × F)) × Dicho X)) ↔
      s'.second = true ∧ 2 ≤ s'.arch.length := by
  have hA : (dichoArch T ov).Exact := exact_pareto T h0 ov true
  obtain ⟨i1, -⟩ := calls_inv h0 rfl hA ms h
  rw [calls_snoc, h]
  dsimp only
  rcases call_spec h0 rfl hA i1 m with ⟨e, h1⟩ | ⟨w, s1, e, -, h1⟩
  · rw [e]; exact ⟨fun _ => h1, fun _ => rfl⟩
  · rw [e]; exact ⟨fun h => (by cases h), fun h => absurd h h1⟩

/-- If no solution dominates another and the first two have different objective vectors, no call fails. -/
theorem C259_safe {T : Traits 2 F} (h0 : T.tol = 0) (ov : X → Fin 2 → F) (a b : X) (ms : List X)
    (hab : ov a ≠ ov b)
    (hnd : ∀ x ∈ a :: b :: ms, ∀ y ∈ a :: b :: ms, ¬ Dominates T.minimizing (ov x) (ov y)) :
    ∃ ws s', (Dicho.init : Dicho X).calls (dichoArch T ov) (a :: b :: ms) = .ok (ws, s') ∧
      ws.length = ms.length + 2 := by
  have hA : (dichoArch T ov).Exact := exact_pareto T h0 ov true
  generalize hM : a :: b :: ms = M at hnd
  have hcmp : ∀ x ∈ M, ∀ y ∈ M, paretoCmp T (ov y) (ov x) = false := by
    intro x hx y hy
    rw [← Bool.not_eq_true, C31_pareto_spec T h0]
    exact hnd x hx y hy
  have ha : a ∈ M := by rw [← hM]; simp
  have hb : b ∈ M := by rw [← hM]; simp
  -- covering without domination is membership
  have hin : ∀ (l : List X) (x : X), (∀ y ∈ l, y ∈ M) → x ∈ M → Covers (paretoCmp T) (l.map ov) (ov x) →
      ov x ∈ l.map ov := by
    intro l x hl hx ⟨y, hy, hyx⟩
    rcases hyx with h | h
    · rw [h]; exact hy
    · obtain ⟨z, hz, rfl⟩ := List.mem_map.1 hy
      rw [hcmp z (hl z hz) x hx] at h
      cases h
  have two : ∀ l : List X, ov a ∈ l.map ov → ov b ∈ l.map ov → 2 ≤ l.length := by
    intro l h1 h2
    match l with
    | [] => simp at h1
    | [x] =>
      simp only [List.map_cons, List.map_nil, List.mem_singleton] at h1 h2
      exact absurd (h1.trans h2.symm) hab
    | _ :: _ :: _ => simp
  let P : Dicho X → Prop := fun s => s.Inv (dichoArch T ov) ∧ s.second = false ∧ (∀ x ∈ s.arch, x ∈ M) ∧
    (∀ x ∈ s.toAdd, x ∈ M) ∧ ov a ∈ s.arch.map ov ∧ ov b ∈ s.arch.map ov
  have stepP : ∀ s m, P s → m ∈ M → ∃ w s', s.call (dichoArch T ov) m = .ok (w, s') ∧ P s' := by
    intro s m ⟨p1, p2, p3, p4, p5, p6⟩ hm
    have hlen := two _ p5 p6
    rcases call_spec h0 rfl hA p1 m with ⟨-, h, -⟩ | ⟨w, s1, e, hafter, -⟩
    · rw [p2] at h; cases h
    · refine ⟨w, s1, e, hafter.2.1, ?_⟩
      have step_ok : ∀ (t : Dicho X) (i : Nat) (u v : X), t.second = false → (∀ x ∈ t.arch, x ∈ M) →
          (∀ x ∈ t.toAdd, x ∈ M) → ov a ∈ t.arch.map ov → ov b ∈ t.arch.map ov → ∀ s2,
          (t.step (dichoArch T ov) i u v m).2 = s2 → s2.second = false ∧ (∀ x ∈ s2.arch, x ∈ M) ∧
            (∀ x ∈ s2.toAdd, x ∈ M) ∧ ov a ∈ s2.arch.map ov ∧ ov b ∈ s2.arch.map ov := by
        rintro t i u v t1 t2 t3 t4 t5 s2 rfl
        refine ⟨t1, t2, fun x hx => ?_, t4, t5⟩
        rcases List.mem_append.1 hx with hx | hx
        · exact t3 x hx
        · rw [List.mem_singleton.1 hx]; exact hm
      have merge_ok : (∀ x ∈ (s.merge (dichoArch T ov)).arch, x ∈ M) ∧
          ov a ∈ (s.merge (dichoArch T ov)).arch.map ov ∧ ov b ∈ (s.merge (dichoArch T ov)).arch.map ov := by
        have hp := updatePop_spec hA p1.anti s.toAdd
        have hsub : ∀ x ∈ (updatePop (dichoArch T ov) s.arch s.toAdd).1, x ∈ M := by
          intro x hx
          rcases List.mem_append.1 (hp.2.1 x hx) with h | h
          · exact p3 x h
          · exact p4 x h
        have hcov : ∀ x ∈ M, ov x ∈ s.arch.map ov →
            ov x ∈ (s.merge (dichoArch T ov)).arch.map ov := by
          intro x hx h
          have := hin _ x hsub hx (hp.2.2 (ov x)
            ⟨ov x, by rw [List.map_append]; exact List.mem_append_left _ h, Or.inl rfl⟩)
          exact ((dichoSort_perm _ _).symm.map _).mem_iff.1 this
        exact ⟨fun x hx => hsub x ((dichoSort_perm _ _).mem_iff.1 hx), hcov a ha p5, hcov b hb p6⟩
      have again_ok : ∀ s2, ((s.merge (dichoArch T ov)).again (dichoArch T ov) m).2 = s2 →
          s2.second = false ∧ (∀ x ∈ s2.arch, x ∈ M) ∧
            (∀ x ∈ s2.toAdd, x ∈ M) ∧ ov a ∈ s2.arch.map ov ∧ ov b ∈ s2.arch.map ov := by
        intro s2 he
        have := two _ merge_ok.2.1 merge_ok.2.2
        unfold Dicho.again at he
        split at he
        · exact step_ok (s.merge (dichoArch T ov)) _ _ _ p2 merge_ok.1
            (by intro x hx; exact absurd hx List.not_mem_nil) merge_ok.2.1 merge_ok.2.2 s2 he
        · rename_i hn
          exfalso
          match hl : (s.merge (dichoArch T ov)).arch with
          | [] => rw [hl] at this; simp at this
          | [x] => rw [hl] at this; simp at this
          | x :: y :: l => exact hn x y l hl
      unfold Dicho.call at e
      rw [if_neg (by omega)] at e
      cases hi : s.it with
      | none => rw [hi] at e; cases e
      | some i =>
        rw [hi] at e
        dsimp only at e
        cases hu : s.arch[i]? with
        | none =>
          rw [hu] at e
          simp only [Except.ok.injEq, Prod.mk.injEq] at e
          exact again_ok _ (congrArg Prod.snd e)
        | some u =>
          rw [hu] at e
          cases hv : s.arch[i + 1]? with
          | none =>
            rw [hv] at e
            exact again_ok _ (congrArg Prod.snd (Except.ok.inj e))
          | some v =>
            rw [hv] at e
            exact step_ok _ _ _ _ p2 p3 p4 p5 p6 _ (congrArg Prod.snd (Except.ok.inj e))
  have runP : ∀ (l : List X) (s : Dicho X), P s → (∀ x ∈ l, x ∈ M) →
      ∃ ws s', s.calls (dichoArch T ov) l = .ok (ws, s') ∧ ws.length = l.length := by
    intro l
    induction l with
    | nil => intro s _ _; exact ⟨[], s, rfl, rfl⟩
    | cons x l ih =>
      intro s hs hl
      obtain ⟨w, s1, e, h1⟩ := stepP s x hs (hl x (by simp))
      obtain ⟨ws, s2, e2, h2⟩ := ih s1 h1 (fun y hy => hl y (by simp [hy]))
      refine ⟨w :: ws, s2, ?_, by simp [h2]⟩
      rw [Dicho.calls, e]
      dsimp only
      rw [e2]
  -- the two opening calls
  have o1 : (Dicho.init : Dicho X).call (dichoArch T ov) a =
      .ok ((Dicho.init : Dicho X).start (dichoArch T ov) a) := rfl
  have u1 : (update (dichoArch T ov) [] a).1 = [a] := by
    rcases update_cases hA (arch := []) List.Pairwise.nil a with ⟨h, -⟩ | ⟨-, h⟩
    · exfalso
      obtain ⟨y, hy, -⟩ := blocked_covers hA h
      cases hy
    · rw [h]; simp [removeLoop]
  obtain ⟨g1, g2, g3, g4⟩ := start_inv hA (s := (Dicho.init : Dicho X)) List.Pairwise.nil (by simp [Dicho.init]) rfl a
  generalize hs1 : (Dicho.init : Dicho X).start (dichoArch T ov) a = r1 at *
  have ha1 : r1.2.arch = [a] := by rw [← hs1]; exact u1
  have hsec1 : r1.2.second = true := by rw [← hs1]; rfl
  have hl1 : r1.2.arch.length < 2 := by rw [ha1]; simp
  have o2 : r1.2.call (dichoArch T ov) b = .ok (r1.2.start (dichoArch T ov) b) := by
    unfold Dicho.call; rw [if_pos hl1]
  obtain ⟨k1, k2, k3, k4⟩ := start_inv hA g2.anti hl1 g4 b
  have hP : P (r1.2.start (dichoArch T ov) b).2 := by
    have harch : (r1.2.start (dichoArch T ov) b).2.arch = dichoSort ov (update (dichoArch T ov) [a] b).1 := by
      unfold Dicho.start
      rw [hsec1, ha1]
      rfl
    have hac : Antichain (paretoCmp T) ([a].map ov) := List.pairwise_singleton _ _
    have hsub : ∀ x ∈ (update (dichoArch T ov) [a] b).1, x ∈ M := by
      intro x hx
      rcases mem_update hA hac hx with h | h
      · rw [List.mem_singleton.1 h]; exact ha
      · rw [h]; exact hb
    have mem_sort : ∀ v, v ∈ (update (dichoArch T ov) [a] b).1.map ov →
        v ∈ (dichoSort ov (update (dichoArch T ov) [a] b).1).map ov :=
      fun v hv => ((dichoSort_perm _ _).symm.map _).mem_iff.1 hv
    refine ⟨k2, ?_, ?_, ?_, ?_, ?_⟩
    · unfold Dicho.start; rw [hsec1]; rfl
    · rw [harch]; intro x hx; exact hsub x ((dichoSort_perm _ _).mem_iff.1 hx)
    · rw [k4]; intro x hx; cases hx
    · rw [harch]
      exact mem_sort _ (hin _ a hsub ha (update_covers hA hac (Or.inl ⟨ov a, List.mem_singleton.2 rfl, Or.inl rfl⟩)))
    · rw [harch]
      exact mem_sort _ (hin _ b hsub hb (update_covers hA hac (Or.inr rfl)))
  obtain ⟨ws, s', e, hl⟩ := runP ms _ hP (fun x hx => by rw [← hM]; simp [hx])
  refine ⟨r1.1 :: (r1.2.start (dichoArch T ov) b).1 :: ws, s', ?_, by simp [hl]⟩
  rw [← hM, Dicho.calls, o1]
  dsimp only
  rw [Dicho.calls, o2]
  dsimp only
  rw [e]

end

/-! ### Cases -/

/-- Two objectives to be minimised, exact comparison. -/
def dichoT : Traits 2 Rat := ⟨fun _ => true, 0⟩

/-- The outcome of a sequence of calls: failed or not, and the weights. -/
def dichoRun (ms : List (Fin 2 → Rat)) : Bool × List (Option (Rat × Rat)) :=
  match (Dicho.init : Dicho (Fin 2 → Rat)).calls (dichoArch dichoT id) ms with
  | .ok (ws, _) => (true, ws)
  | .error _ => (false, [])

/-- The same solution twice, then another one: the next call fails. -/
theorem C259_ub_reachable : ∃ ws s', (Dicho.init : Dicho (Fin 2 → Rat)).calls (dichoArch dichoT id)
    [![1, 3], ![1, 3], ![3, 1]] = .ok (ws, s') ∧ ∀ m,
    (Dicho.init : Dicho (Fin 2 → Rat)).calls (dichoArch dichoT id) ([![1, 3], ![1, 3], ![3, 1]] ++ [m]) =
        (.error .ub : Except Err (List (Option (Rat × Rat)) × Dicho (Fin 2 → Rat))) := by
  have hb : (match (Dicho.init : Dicho (Fin 2 → Rat)).calls (dichoArch dichoT id)
      [![1, 3], ![1, 3], ![3, 1]] with
    | .ok (_, s) => s.second && decide (2 ≤ s.arch.length)
    | .error _ => false) = true := by decide +kernel
  cases he : (Dicho.init : Dicho (Fin 2 → Rat)).calls (dichoArch dichoT id) [![1, 3], ![1, 3], ![3, 1]] with
  | error e => rw [he] at hb; cases hb
  | ok q =>
    rw [he] at hb
    refine ⟨q.1, q.2, rfl, fun m => (C259_ub (T := dichoT) rfl id he).2 ?_⟩
    simpa using hb

/-- A sweep: the two ends, then the space between them, then the spaces between three. -/
example : dichoRun [![0, 4], ![8, 0], ![2, 2], ![2, 2], ![2, 2]] =
    (true, [some (0, 1), some (1, 0), some (2/3, 1/3), some (3/4, 1/4), some (1/2, 1/2)]) := by decide +kernel

example : (dichoRun [![1, 3], ![1, 3], ![3, 1], ![3, 1]]).1 = false := by decide +kernel

/-! ### Random and equal weights -/

/-- Random weights: between zero and one with sum one, if the numbers drawn are not negative and one is positive. -/
theorem C260_random (ds : List F) (h : ∀ d ∈ ds, 0 ≤ d) (hp : ∃ d ∈ ds, 0 < d) :
    ∃ ws : List F, randWeights ds = ws.map some ∧ ws.length = ds.length ∧ (∀ w ∈ ws, 0 ≤ w ∧ w ≤ 1) ∧
      ws.sum = 1 ∧ ∀ (i : Nat) (w d : F), ws[i]? = some w → ds[i]? = some d → w * ds.sum = d := by
  have hf : ds.foldl (· + ·) 0 = ds.sum := List.sum_eq_foldl.symm
  obtain ⟨d, hd, hd0⟩ := hp
  have hle : ∀ d ∈ ds, d ≤ ds.sum := fun d hd => List.single_le_sum h d hd
  have hs : 0 < ds.sum := lt_of_lt_of_le hd0 (hle d hd)
  refine ⟨ds.map (· / ds.sum), ?_, by simp, ?_, ?_, ?_⟩
  · unfold randWeights
    rw [hf, List.map_map]
    exact List.map_congr_left fun x _ => by rw [if_neg hs.ne']; rfl
  · intro w hw
    obtain ⟨x, hx, rfl⟩ := List.mem_map.1 hw
    exact ⟨div_nonneg (h x hx) hs.le, (div_le_one hs).2 (hle x hx)⟩
  · have : ∀ l : List F, (l.map (· / ds.sum)).sum = l.sum / ds.sum := by
      intro l
      induction l with
      | nil => simp
      | cons a l ih => rw [List.map_cons, List.sum_cons, ih, List.sum_cons, add_div]
    rw [this, div_self hs.ne']
  · intro i w d hw hd
    rw [List.getElem?_map, hd] at hw
    simp only [Option.map_some, Option.some.injEq] at hw
    rw [← hw, div_mul_cancel₀ _ hs.ne']

omit [IsStrictOrderedRing F] in
/-- If only zeros are drawn, no weight is a number. -/
theorem C260_random_zero (ds : List F) (h : ∀ d ∈ ds, d = 0) : randWeights ds = ds.map fun _ => none := by
  have hf : ds.foldl (· + ·) 0 = ds.sum := List.sum_eq_foldl.symm
  have : ds.sum = 0 := List.sum_eq_zero h
  unfold randWeights
  rw [hf, this]
  simp

/-- Equal weights: as many as were given, each one over their number, with sum one if there are any. -/
theorem C260_equal (ws : List F) : (equalWeights ws).length = ws.length ∧
    (∀ w ∈ equalWeights ws, w = 1 / (ws.length : F)) ∧ (ws ≠ [] → (equalWeights ws).sum = 1) := by
  refine ⟨by simp [equalWeights], fun w hw => ?_, fun h => ?_⟩
  · obtain ⟨_, _, rfl⟩ := List.mem_map.1 hw
    rfl
  · have : ((ws.length : Nat) : F) ≠ 0 := by
      rw [Nat.cast_ne_zero]
      exact fun hl => h (List.length_eq_zero_iff.1 hl)
    unfold equalWeights
    rw [List.map_const', List.sum_replicate, nsmul_eq_mul, mul_one_div_cancel this]

example : randWeights [(1 : Rat), 3, 4] = [some (1/8), some (3/8), some (1/2)] := by decide +kernel
example : equalWeights [(9 : Rat), 9] = [1/2, 1/2] := by decide +kernel

end Paradiseo.Moeo
