import Verif.Model.ContinueMoeo
import Verif.Props.EOContinue
/-
C320: when the multi-objective programs stop.
-/
namespace Paradiseo.ContinueMoeo

open Paradiseo.EO Paradiseo.Run

variable {α : Type}

/-- One of the conditions asked for is met at the end of generation `n` (the first is number 0). -/
def Holds (a : Args) (ev : Nat → Nat) (start : Nat) (now : Nat → Nat) (sig : Nat → Bool) (n : Nat) : Prop :=
  (a.maxGen ≠ 0 ∧ a.maxGen ≤ n + 1) ∨ (a.maxEval ≠ 0 ∧ a.maxEval ≤ ev n) ∨
  (a.maxTime ≠ 0 ∧ start + a.maxTime ≤ now n) ∨ (a.ctrlC = true ∧ sig n = true)

/-- A continuator is built unless all four criteria are switched off; then an exception is thrown. -/
theorem C320_throws (a : Args) :
    (make a = .error .thrown ↔ a.maxGen = 0 ∧ a.maxEval = 0 ∧ a.maxTime = 0 ∧ a.ctrlC = false) ∧
    ∀ e, make a = .error e → e = .thrown := by
  obtain ⟨g, e, t, c⟩ := a
  unfold make criteria
  dsimp only
  constructor
  · by_cases hg : g = 0 <;> by_cases he : e = 0 <;> by_cases ht : t = 0 <;> cases c <;> simp [hg, he, ht]
  · intro x h
    split at h
    · cases h; rfl
    · cases h

/-- What a criterion answers at its call number `n`. -/
def critStops (ev : Nat → Nat) (start : Nat) (now : Nat → Nat) (sig : Nat → Bool) (n : Nat) : Crit → Prop
  | .gen m => m ≤ n + 1
  | .evals m => m ≤ ev n
  | .time m => 0 < m ∧ start + m ≤ now n
  | .signal => sig n = true

theorem crit_call (start : Nat) (now : Nat → Nat) (sig : Nat → Bool) (ev : Nat → Nat) (pop : List α) (c : Crit)
    (hc : ∀ m, c = .time m → 0 < m) (n : Nat) :
    (critStops ev start now sig n c → c.cont start now sig n (ev n) pop = .ok (false, n + 1)) ∧
    (¬ critStops ev start now sig n c → c.cont start now sig n (ev n) pop = .ok (true, n + 1)) := by
  cases c with
  | gen m =>
    simp only [critStops, Crit.cont, genCont]
    exact ⟨fun h => by simp [h], fun h => by simp [h]⟩
  | evals m =>
    simp only [critStops, Crit.cont, evalCont, Except.map]
    exact ⟨fun h => by simp [h], fun h => by simp [h]⟩
  | time m =>
    have hm := hc m rfl
    simp only [critStops, Crit.cont]
    constructor
    · rintro ⟨-, h⟩
      have : m ≤ now n - start := by omega
      simp [this]
    · intro h
      have : ¬ m ≤ now n - start := fun h' => h ⟨hm, by omega⟩
      simp [this]
  | signal =>
    simp only [critStops, Crit.cont]
    exact ⟨fun h => by simp [h], fun h => by simp at h; simp [h]⟩

theorem criteria_time (a : Args) (c : Crit) (hc : c ∈ criteria a) (m : Nat) (h : c = .time m) : 0 < m := by
  subst h
  obtain ⟨g, e, t, k⟩ := a
  simp only [criteria, List.mem_append] at hc
  rcases hc with ((hc | hc) | hc) | hc <;> split_ifs at hc <;> simp at hc
  omega

theorem criteria_holds (a : Args) (ev : Nat → Nat) (start : Nat) (now : Nat → Nat) (sig : Nat → Bool) (n : Nat) :
    (∃ c ∈ criteria a, critStops ev start now sig n c) ↔ Holds a ev start now sig n := by
  obtain ⟨g, e, t, k⟩ := a
  have h4 : ∀ A B C D : List Crit, (∃ c ∈ A ++ B ++ C ++ D, critStops ev start now sig n c) ↔
      (∃ c ∈ A, critStops ev start now sig n c) ∨ (∃ c ∈ B, critStops ev start now sig n c) ∨
        (∃ c ∈ C, critStops ev start now sig n c) ∨ ∃ c ∈ D, critStops ev start now sig n c := by
    intro A B C D
    simp only [List.mem_append, or_and_right, exists_or, or_assoc]
  unfold criteria Holds
  rw [h4]
  refine or_congr ?_ (or_congr ?_ (or_congr ?_ ?_)) <;> split_ifs with h0 <;> dsimp only at h0
  · simp [critStops, h0]
  · simp [h0]
  · simp [critStops, h0]
  · simp [h0]
  · simp only [ne_eq] at h0
    have : 0 < t := by omega
    simp [critStops, h0, this]
  · simp [h0]
  · simp [critStops, h0]
  · simp [h0]

/-- The continuator built goes on as long as none of the conditions asked for holds and stops at the end of the first
generation at which one does. -/
theorem C320_stops (a : Args) (L : List Crit) (h : make a = .ok L) (start : Nat) (now : Nat → Nat) (sig : Nat → Bool)
    (ev : Nat → Nat) (P : Nat → List α) (n : Nat) (hbefore : ∀ m < n, ¬ Holds a ev start now sig m) :
    ∃ x s, answers combinedCont (L.map fun c => (c.cont start now sig, 0)) ev P (n + 1) = .ok (x, s) ∧
      (x = false ↔ Holds a ev start now sig n) := by
  have hL : L = criteria a := by
    unfold make at h
    split at h
    · cases h
    · rename_i c cs hc
      rw [hc]; cases h; rfl
  have hgo : ∀ n, ¬ Holds a ev start now sig n →
      combinedCont (L.map fun c => (c.cont start now sig, n)) (ev n) (P n) =
        .ok (true, L.map fun c => (c.cont start now sig, n + 1)) := by
    intro n hn
    have := (C101_combined (ev n) (P n) (L.map fun c => (c.cont start now sig, n)) (fun _ => n + 1) (by
      intro p hp
      obtain ⟨c, hc, rfl⟩ := List.mem_map.1 hp
      refine (crit_call start now sig ev (P n) c (fun m hm => criteria_time a c (hL ▸ hc) m hm) n).2 fun hs => hn ?_
      exact (criteria_holds a ev start now sig n).1 ⟨c, hL ▸ hc, hs⟩)).1
    rw [this, List.map_map]
    rfl
  have hstate : ∀ k ≤ n, ∃ x, answers combinedCont (L.map fun c => (c.cont start now sig, 0)) ev P k =
      .ok (x, L.map fun c => (c.cont start now sig, k)) := by
    intro k
    induction k with
    | zero => exact fun _ => ⟨true, rfl⟩
    | succ k ih =>
      intro hk
      obtain ⟨x, hx⟩ := ih (by omega)
      exact ⟨true, by rw [answers, hx]; exact hgo k (hbefore k (by omega))⟩
  obtain ⟨x, hx⟩ := hstate n le_rfl
  by_cases hn : Holds a ev start now sig n
  · obtain ⟨c, hc, hs⟩ := (criteria_holds a ev start now sig n).2 hn
    have hfirst : ∀ l : List Crit, (∀ c ∈ l, c ∈ criteria a) → (∃ c ∈ l, critStops ev start now sig n c) →
        ∃ s, combinedCont (l.map fun c => (c.cont (α := α) start now sig, n)) (ev n) (P n) = .ok (false, s) := by
      intro l
      induction l with
      | nil => rintro - ⟨c, hc, -⟩; simp at hc
      | cons d l ih =>
        intro hl hex
        have hd := crit_call start now sig ev (P n) d (fun m hm => criteria_time a d (hl d (by simp)) m hm) n
        simp only [List.map_cons, combinedCont]
        by_cases hds : critStops ev start now sig n d
        · rw [hd.1 hds]; exact ⟨_, rfl⟩
        · rw [hd.2 hds]
          obtain ⟨s, hs⟩ := ih (fun c hc => hl c (by simp [hc])) (by
            obtain ⟨c, hc, hcs⟩ := hex
            rcases List.mem_cons.1 hc with rfl | hc
            · exact absurd hcs hds
            · exact ⟨c, hc, hcs⟩)
          rw [hs]; exact ⟨_, rfl⟩
    obtain ⟨s, hs'⟩ := hfirst L (fun c hc => hL ▸ hc) ⟨c, hL ▸ hc, hs⟩
    exact ⟨false, s, by rw [answers, hx]; exact hs', by simp [hn]⟩
  · exact ⟨true, _, by rw [answers, hx]; exact hgo n hn, by simp [hn]⟩

/-- With no argument given: after 100 generations, or at the first signal. -/
theorem C320_default (start : Nat) (now : Nat → Nat) (sig : Nat → Bool) (ev : Nat → Nat) (n : Nat) :
    Holds {} ev start now sig n ↔ 100 ≤ n + 1 ∨ sig n = true := by
  simp [Holds]

example : make { maxGen := 0, maxTime := 60 } = .ok [.time 60, .signal] := rfl

end Paradiseo.ContinueMoeo
