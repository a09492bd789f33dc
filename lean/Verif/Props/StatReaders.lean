/-
Property C381: what the statistics that read another statistic show, according to the order in which they were added.
-/
import Verif.Model.StatReaders
import Mathlib.Data.List.Induction
import Mathlib.Tactic.Common

namespace Paradiseo.LS

variable {Sol V : Type}

/-- The values after one pass over all statistics. -/
theorem initStats_other (sol : Sol) (l : List (Stat Sol V)) (i j : Nat) (vals : Nat → V) (h : j < i ∨ i + l.length ≤ j) :
    initStats sol i l vals j = vals j := by
  induction l generalizing i vals with
  | nil => rfl
  | cons s l ih =>
    simp only [List.length_cons] at h
    rw [initStats, ih (i + 1) _ (by omega)]
    have : j ≠ i := by omega
    cases s <;> simp [Stat.call, this]

theorem initStats_source (sol : Sol) (l : List (Stat Sol V)) (i k : Nat) (vals : Nat → V) (g : Sol → V)
    (h : l[k]? = some (.source g)) : initStats sol i l vals (i + k) = g sol := by
  induction l generalizing i k vals with
  | nil => simp at h
  | cons s l ih =>
    cases k with
    | zero =>
      simp only [List.getElem?_cons_zero, Option.some.injEq] at h
      subst h
      rw [initStats, initStats_other _ _ _ _ _ (Or.inl (by omega))]
      simp [Stat.call]
    | succ k =>
      rw [initStats, show i + (k + 1) = i + 1 + k by omega]
      exact ih (i + 1) k _ (by simpa using h)

theorem initStats_reader (sol : Sol) (l : List (Stat Sol V)) (i m k : Nat) (vals : Nat → V) (h : V → V)
    (hm : l[m]? = some (.reader k h)) :
    initStats sol i l vals (i + m) = h (if i + m ≤ k then vals k else initStats sol i l vals k) ∨ k = i + m := by
  by_cases hk : k = i + m
  · exact Or.inr hk
  left
  induction l generalizing i m vals with
  | nil => simp at hm
  | cons s l ih =>
    cases m with
    | zero =>
      simp only [List.getElem?_cons_zero, Option.some.injEq] at hm
      subst hm
      rw [initStats, initStats_other _ _ _ _ _ (Or.inl (by omega))]
      by_cases hik : i ≤ k
      · rw [if_pos (by omega)]; simp [Stat.call]
      · rw [if_neg (by omega), initStats_other _ _ _ _ _ (Or.inl (by omega))]
        simp [Stat.call, show k ≠ i by omega]
    | succ m =>
      rw [initStats, show i + (m + 1) = i + 1 + m by omega]
      rw [ih (i + 1) m _ (by simpa using hm) (by omega)]
      by_cases hik : i + 1 + m ≤ k
      · rw [if_pos hik, if_pos hik]
        have : k ≠ i := by omega
        cases s <;> simp [Stat.call, this]
      · rw [if_neg hik, if_neg hik]

theorem callStats_one (sol : Sol) (l : List (Stat Sol V)) (i c : Nat) (vals : Nat → V) :
    callStats 1 sol i c l vals = (c + l.length, initStats sol i l vals) := by
  induction l generalizing i c vals with
  | nil => rfl
  | cons s l ih =>
    rw [callStats, ih, initStats, Nat.mod_one, if_pos rfl, List.length_cons]
    congr 1; omega

/-- The solution of the last pass, and that of the pass before. -/
def lastTwo (s0 : Sol) (sols : List Sol) : Sol × Option Sol := match sols.reverse with
  | [] => (s0, none)
  | s :: rest => (s, some (rest.headD s0))

theorem lastTwo_snoc (s0 s : Sol) (sols : List Sol) : lastTwo s0 (sols ++ [s]) = (s, some (lastTwo s0 sols).1) := by
  simp only [lastTwo, List.reverse_append, List.reverse_cons, List.reverse_nil, List.nil_append, List.cons_append]
  cases sols.reverse <;> rfl

/-- C381, interval 1: a statistic that computes its value shows the one of the last solution; one that reads it shows the value
for the last solution if it was added after it, and the one for the solution of the call before if it was added earlier (at
`init`: what the other held when it was made). -/
theorem C381_order (stats : List (Stat Sol V)) (vals : Nat → V) (s0 : Sol) (sols : List Sol) (k m : Nat) (g : Sol → V)
    (h : V → V) (hk : stats[k]? = some (.source g)) (hm : stats[m]? = some (.reader k h)) :
    (statsRun 1 stats vals s0 sols).2 k = g (lastTwo s0 sols).1 ∧
    (k < m → (statsRun 1 stats vals s0 sols).2 m = h (g (lastTwo s0 sols).1)) ∧
    (m < k → (statsRun 1 stats vals s0 sols).2 m = h (match (lastTwo s0 sols).2 with
      | some s => g s
      | none => vals k)) := by
  have hne : k ≠ m := by
    rintro rfl
    rw [hk] at hm
    simp at hm
  have pass : ∀ (sol : Sol) (v : Nat → V), initStats sol 0 stats v k = g sol ∧
      (k < m → initStats sol 0 stats v m = h (g sol)) ∧ (m < k → initStats sol 0 stats v m = h (v k)) := by
    intro sol v
    have h1 := initStats_source sol stats 0 k v g hk
    have h2 := initStats_reader sol stats 0 m k v h hm
    simp only [Nat.zero_add] at h1 h2
    have h2 := h2.resolve_right hne
    refine ⟨h1, fun hlt => ?_, fun hlt => ?_⟩
    · rw [h2, if_neg (by omega), h1]
    · rw [h2, if_pos (by omega)]
  induction sols using List.reverseRecOn with
  | nil => exact pass s0 vals
  | append_singleton sols s ih =>
    have e : (statsRun 1 stats vals s0 (sols ++ [s])).2 =
        initStats s 0 stats (statsRun 1 stats vals s0 sols).2 := by
      simp only [statsRun, List.foldl_append, List.foldl_cons, List.foldl_nil, callStats_one]
    rw [e, lastTwo_snoc]
    obtain ⟨p1, p2, p3⟩ := pass s (statsRun 1 stats vals s0 sols).2
    exact ⟨p1, p2, fun hlt => by rw [p3 hlt, ih.1]⟩

/-- C381, interval 2 and the two statistics in the right order: the counter grows by two per call, so the first one is never
computed again after `init`, and both show the value for the first solution for ever. -/
theorem C381_interval_two (vals : Nat → V) (s0 : Sol) (sols : List Sol) (g : Sol → V) (h : V → V) :
    (statsRun 2 [.source g, .reader 0 h] vals s0 sols).2 0 = g s0 ∧
    (statsRun 2 [.source g, .reader 0 h] vals s0 sols).2 1 = h (g s0) := by
  have key : (statsRun 2 [.source g, .reader 0 h] vals s0 sols).1 % 2 = 1 ∧
      (statsRun 2 [.source g, .reader 0 h] vals s0 sols).2 0 = g s0 ∧
      (statsRun 2 [.source g, .reader 0 h] vals s0 sols).2 1 = h (g s0) := by
    induction sols using List.reverseRecOn with
    | nil => simp [statsRun, initStats, Stat.call]
    | append_singleton sols s ih =>
      obtain ⟨i1, i2, i3⟩ := ih
      have e : statsRun 2 [.source g, .reader 0 h] vals s0 (sols ++ [s]) =
          callStats 2 s 0 (statsRun 2 [.source g, .reader 0 h] vals s0 sols).1 [.source g, .reader 0 h]
            (statsRun 2 [.source g, .reader 0 h] vals s0 sols).2 := by
        simp only [statsRun, List.foldl_append, List.foldl_cons, List.foldl_nil]
      rw [e]
      simp only [callStats]
      rw [if_neg (by omega : ¬ (statsRun 2 [.source g, .reader 0 h] vals s0 sols).1 % 2 = 0),
        if_pos (by omega : ((statsRun 2 [.source g, .reader 0 h] vals s0 sols).1 + 1) % 2 = 0)]
      simp only [Stat.call, i2]
      refine ⟨by omega, ?_, ?_⟩ <;> simp [i2]
  exact key.2

/-- The minimum among the neighbours of an integer (its neighbours: plus and minus one), read before and after. -/
example : (statsRun 1 [.reader 1 id, .source (fun s : Int => s - 1), .reader 1 id] (fun _ => 0) 5 [7, 9]).2 0 = 6 ∧
    (statsRun 1 [.reader 1 id, .source (fun s : Int => s - 1), .reader 1 id] (fun _ => 0) 5 [7, 9]).2 2 = 8 := by decide

end Paradiseo.LS
