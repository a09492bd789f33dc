import Verif.Model.Monitors
import Verif.Lemmas.State
import Verif.Props.MathSymRaw
/-
C298: savers of local search and of multi-objective search.
C299: the best fitness seen, and a limit on a parameter.
-/
namespace Paradiseo.Monitors

open Paradiseo.EO Paradiseo.State

/-! ### C298 -/

/-- **C298** (monitors of local search).  The monitors are called at the iterations 0, interval, 2 * interval, …; with an
interval of 0 the first iteration divides by zero. -/
theorem C298_monitors (interval n counter : Nat) :
    (interval = 0 → 0 < n → monitorSavers interval n counter = .error .ub) ∧
    (0 < interval → counter + n < 2 ^ 32 → ∃ l, monitorSavers interval n counter = .ok l ∧ l.length = n ∧
      ∀ i < n, l[i]? = some (decide (interval ∣ counter + i))) := by
  constructor
  · rintro rfl hn
    cases n with
    | zero => omega
    | succ n => rfl
  · intro hi
    induction n generalizing counter with
    | zero => intro _; exact ⟨[], rfl, rfl, by omega⟩
    | succ n ih =>
      intro hlt
      have hmod : (counter + 1) % 2 ^ 32 = counter + 1 := Nat.mod_eq_of_lt (by omega)
      obtain ⟨l, h1, h2, h3⟩ := ih (counter + 1) (by omega)
      refine ⟨decide (interval ∣ counter) :: l, ?_, by simp [h2], ?_⟩
      · rw [monitorSavers, monitorSaver, if_neg (by omega), hmod]
        dsimp only
        rw [h1]
        simp [Nat.dvd_iff_mod_eq_zero]
      · intro i hin
        cases i with
        | zero => simp
        | succ i =>
          rw [List.getElem?_cons_succ, h3 i (by omega)]
          rw [show counter + (i + 1) = counter + 1 + i by omega]

/-- The pairs of successive populations, numbered from `k`. -/
def successive {P V : Type} (metric : List P → List P → V) : Nat → List (List P) → List (Nat × V)
  | k, p :: q :: l => (k, metric q p) :: successive metric (k + 1) (q :: l)
  | _, _ => []

theorem metric_go {P V : Type} (metric : List P → List P → V) : ∀ (pops : List (List P)) (old : List P) (k : Nat)
    (lines : List (Nat × V)), k + pops.length < 2 ^ 32 →
    (pops.foldl (fun s p => metricCall metric p s) ⟨some old, k, lines⟩).lines =
      lines ++ successive metric k (old :: pops.filter fun p => !p.isEmpty)
  | [], old, k, lines, _ => by simp [successive]
  | [] :: l, old, k, lines, h => by
    rw [List.foldl_cons, metricCall, metric_go metric l old k lines (by simp at h; omega)]
    simp
  | (x :: p) :: l, old, k, lines, h => by
    have hmod : (k + 1) % 2 ^ 32 = k + 1 := Nat.mod_eq_of_lt (by simp at h; omega)
    rw [List.foldl_cons, metricCall, hmod, metric_go metric l (x :: p) (k + 1) _ (by simp at h; omega)]
    · simp [successive]
    · simp

/-- **C298** (progress of the population).  The file gets a line for each population but the first, the empty ones left out:
its number, from 1, and the metric of the population against the one before. -/
theorem C298_metric {P V : Type} (metric : List P → List P → V) (pops : List (List P)) (h : pops.length + 1 < 2 ^ 32) :
    (metricRun metric pops).lines = successive metric 1 (pops.filter fun p => !p.isEmpty) := by
  unfold metricRun
  induction pops with
  | nil => rfl
  | cons p l ih =>
    cases p with
    | nil =>
      rw [List.foldl_cons, metricCall, ih (by simp at h; omega)]
      simp
    | cons x p =>
      rw [List.foldl_cons, metricCall]
      · dsimp only
        rw [metric_go metric l (x :: p) 1 [] (by simp at h; omega)]
        simp
      · simp

theorem show_inj {m n : Nat} (h : showNat m = showNat n) : m = n := by
  have h1 := (MathSym.showNat_spec m).2.2
  have h2 := (MathSym.showNat_spec n).2.2
  rw [h] at h1
  omega

theorem dot_not (n : Nat) : '.' ∉ showNat n := by
  intro h
  exact absurd ((MathSym.showNat_spec n).2.1 '.' h) (by decide)

theorem split_dot {a b c d : Text} (ha : '.' ∉ a) (hc : '.' ∉ c) (h : a ++ '.' :: b = c ++ '.' :: d) : a = c ∧ b = d := by
  induction a generalizing c with
  | nil =>
    cases c with
    | nil => simpa using h
    | cons x c =>
      simp only [List.nil_append, List.cons_append, List.cons.injEq] at h
      rw [← h.1] at hc
      simp at hc
  | cons x a ih =>
    cases c with
    | nil =>
      simp only [List.nil_append, List.cons_append, List.cons.injEq] at h
      rw [h.1] at ha
      simp at ha
    | cons y c =>
      simp only [List.cons_append, List.cons.injEq] at h
      obtain ⟨h1, h2⟩ := ih (c := c) (by simp at ha; exact ha.2) (by simp at hc; exact hc.2) h.2
      exact ⟨by rw [h.1, h1], h2⟩

/-- **C298** (files of the archive).  With a counter, no two generations are written to the same file, and two savers of
the same name with different identifiers never write to the same file; without a counter a saver writes to the same file
every time. -/
theorem C298_names (name : Text) (id id' : Int) (h : -(2 : Int) ^ 31 ≤ id ∧ id < 2 ^ 31) (h' : -(2 : Int) ^ 31 ≤ id' ∧ id' < 2 ^ 31)
    (k k' : Nat) :
    (savingName name true id k = savingName name true id k' → k = k') ∧
    (id ≠ -1 → id' ≠ -1 → id ≠ id' → ∀ count count', savingName name count id k ≠ savingName name count' id' k') ∧
    savingName name false id k = savingName name false id k' := by
  refine ⟨?_, ?_, rfl⟩
  · intro e
    unfold savingName at e
    simp only [if_true] at e
    split at e
    · exact show_inj (List.append_cancel_left e)
    · exact show_inj (List.append_cancel_left e)
  · intro h1 h1' hne count count' e
    unfold savingName at e
    simp only [if_neg h1, if_neg h1'] at e
    have hid : ∀ {a b : Text}, showNat (id % 2 ^ 32).toNat = showNat (id' % 2 ^ 32).toNat → False := by
      intro a b hs
      have := show_inj hs
      omega
    cases count <;> cases count' <;> simp only [Bool.false_eq_true, if_true, if_false, List.append_assoc] at e
    · have e := List.append_cancel_left (List.append_cancel_left e)
      exact hid (a := []) (b := []) e
    · have e := List.append_cancel_left (List.append_cancel_left e)
      exact dot_not (id % 2 ^ 32).toNat (by rw [e]; simp)
    · have e := List.append_cancel_left (List.append_cancel_left e)
      exact dot_not (id' % 2 ^ 32).toNat (by rw [← e]; simp)
    · have e := List.append_cancel_left (List.append_cancel_left e)
      simp only [List.singleton_append] at e
      exact hid (a := []) (b := []) (split_dot (dot_not _) (dot_not _) e).1

/-- **C298** (clash).  A saver with a counter and without identifier writes at generation k to the file of the saver with
the identifier k and without a counter. -/
theorem C298_clash (name : Text) (k j : Nat) (hk : k < 2 ^ 31) :
    savingName name true (-1) k = savingName name false (k : Int) j := by
  unfold savingName
  have h1 : ((k : Int) = -1) ↔ False := by
    constructor
    · intro h; omega
    · exact False.elim
  have h2 : ((k : Int) % 2 ^ 32).toNat = k := by omega
  simp only [h1, h2, if_true, if_false, Bool.false_eq_true]

example : savingName "arch".toList true 3 12 = "arch.3.12".toList := by decide +kernel

example : (metricRun (fun a b => a.length - b.length) [[1], [], [1, 2], [1, 2, 3, 4]]).lines = [(1, 1), (2, 2)] := by decide

/-! ### C299 -/

/-- **C299** (best fitness).  After a search the statistic holds a fitness that was seen, and none that was seen is better: in
this search, if it is reset for each search or this is the first; in all searches otherwise. -/
theorem C299_best {F : Type} [LinearOrder F] (reInit : Bool) (f0 : F) (fs : List F) (s : BestStat F) :
    let seen := if reInit || s.firstTime then f0 :: fs else s.value :: fs
    (bestSearch reInit f0 fs s).value ∈ seen ∧ ∀ f ∈ seen, f ≤ (bestSearch reInit f0 fs s).value := by
  have key : ∀ (fs : List F) (t : BestStat F), (fs.foldl (fun s f => bestCall f s) t).value ∈ t.value :: fs ∧
      ∀ f ∈ t.value :: fs, f ≤ (fs.foldl (fun s f => bestCall f s) t).value := by
    intro fs
    induction fs with
    | nil => intro t; simp
    | cons f fs ih =>
      intro t
      rw [List.foldl_cons]
      obtain ⟨h1, h2⟩ := ih (bestCall f t)
      have hb : (bestCall f t).value = max t.value f := by
        unfold bestCall
        split
        · rename_i h; rw [max_eq_right h.le]
        · rename_i h; rw [max_eq_left (not_lt.mp h)]
      rw [hb] at h1 h2
      constructor
      · rcases List.mem_cons.mp h1 with h | h
        · rw [h]
          rcases max_choice t.value f with e | e <;> rw [e] <;> simp
        · simp [h]
      · intro g hg
        have hm := h2 (max t.value f) (by simp)
        rcases List.mem_cons.mp hg with rfl | hg
        · exact (le_max_left _ _).trans hm
        · rcases List.mem_cons.mp hg with rfl | hg
          · exact (le_max_right _ _).trans hm
          · exact h2 g (by simp [hg])
  intro seen
  have hs : seen = (bestInit reInit f0 s).value :: fs := by
    show (if reInit || s.firstTime then f0 :: fs else s.value :: fs) = _
    unfold bestInit
    cases reInit <;> cases s.firstTime <;> simp
  rw [hs]
  exact key fs _

/-- **C299** (two searches).  Without a reset for each search, a statistic that has seen one search forgets neither its best nor
goes below it in the next, even if the next starts worse; the first solution of the next search is not looked at. -/
theorem C299_second {F : Type} [LinearOrder F] (f0 f1 : F) (fs gs : List F) (s : BestStat F) (hs : s.firstTime = true) :
    (bestSearch false f0 fs s).value ≤ (bestSearch false f1 gs (bestSearch false f0 fs s)).value ∧
    bestSearch false f1 [] (bestSearch false f0 fs s) = bestSearch false f0 fs s := by
  have hf : ∀ (fs : List F) (t : BestStat F), (fs.foldl (fun s f => bestCall f s) t).firstTime = t.firstTime := by
    intro fs
    induction fs with
    | nil => intro t; rfl
    | cons f fs ih =>
      intro t
      rw [List.foldl_cons, ih]
      unfold bestCall
      split <;> rfl
  have h0 : (bestSearch false f0 fs s).firstTime = false := by
    unfold bestSearch
    rw [hf]
    simp [bestInit, hs]
  have := C299_best false f1 gs (bestSearch false f0 fs s)
  simp only [h0, Bool.or_false, Bool.false_eq_true, if_false] at this
  refine ⟨this.2 _ (by simp), ?_⟩
  generalize bestSearch false f0 fs s = t at *
  simp [bestSearch, bestInit, h0]

/-- **C299** (limit on a parameter).  A search is continued until the parameter has grown by the maximum since the start of
the search or, without a restart of the counter, since 0; if the parameter goes back below its start the search stops. -/
theorem C299_limit (restart : Bool) (v0 v max : BitVec 32) :
    (v0.toNat ≤ v.toNat → (valueContinue v (valueStart restart v0) max = true ↔
      v.toNat < max.toNat + (if restart then v0.toNat else 0))) ∧
    (restart = true → v.toNat < v0.toNat → v0.toNat - v.toNat + max.toNat ≤ 2 ^ 32 →
      valueContinue v (valueStart restart v0) max = false) := by
  constructor
  · intro h
    cases restart
    · simp [valueContinue, valueStart]
    · simp only [valueContinue, valueStart, if_true, decide_eq_true_eq]
      rw [BitVec.toNat_sub_of_le (by rw [BitVec.le_def]; exact h)]
      omega
  · rintro rfl h hm
    simp only [valueContinue, valueStart, if_true, decide_eq_false_iff_not, not_lt]
    rw [BitVec.toNat_sub]
    omega

example : valueContinue 12#32 (valueStart true 10#32) 3#32 = true ∧ valueContinue 13#32 (valueStart true 10#32) 3#32 = false := by
  decide

end Paradiseo.Monitors
