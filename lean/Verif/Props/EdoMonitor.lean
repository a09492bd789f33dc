import Verif.Model.EdoMonitor
import Verif.Props.ExternalEval
/-
C323: the checkpoint of the estimation-of-distribution algorithms; C324: its snapshots.
-/
namespace Paradiseo.EdoMonitor

open Paradiseo.EO Paradiseo.State

/-! ### C323 -/

variable {σ D : Type}

theorem conts_eq (d : D) (cs : List (Cont σ D × σ)) (i : Nat) (b : Bool) :
    conts d i b cs = (b && cs.all (fun c => (c.1 c.2 d).1), cs.map (fun c => (c.1, (c.1 c.2 d).2)),
      (List.range cs.length).map fun j => .cont (i + j)) := by
  induction cs generalizing i b with
  | nil => simp [conts]
  | cons c cs ih =>
    obtain ⟨c, s⟩ := c
    simp only [conts, ih, List.map_cons, List.all_cons, List.length_cons, List.range_succ_eq_map, List.map_map]
    refine Prod.ext ?_ (Prod.ext rfl ?_)
    · cases (c s d).1 <;> cases b <;> simp
    · simp only [Nat.add_zero, List.cons.injEq, true_and]
      apply List.map_congr_left
      intro j _
      simp only [Function.comp_apply]
      congr 1; omega

/-- At every call all statistics are updated, then all updaters, then all monitors, then every continuator is asked, each
once and in the order of adding: also those that come after one that said stop. The answer is stop if one of them says so,
and then statistics, updaters and monitors are told that this was the last call; otherwise none of them is. -/
theorem C323_call (stats updaters monitors : Nat) (cs : List (Cont σ D × σ)) (d : D) :
    let r := checkpoint stats updaters monitors cs d
    (r.1 = true ↔ ∀ c ∈ cs, (c.1 c.2 d).1 = true) ∧
    r.2.1 = cs.map (fun c => (c.1, (c.1 c.2 d).2)) ∧
    r.2.2 = (List.range stats).map .stat ++ (List.range updaters).map .updater ++ (List.range monitors).map .monitor ++
      (List.range cs.length).map .cont ++
      (if r.1 then [] else (List.range stats).map .lastStat ++ (List.range updaters).map .lastUpdater ++
        (List.range monitors).map .lastMonitor) := by
  intro r
  have hr : r = checkpoint stats updaters monitors cs d := rfl
  simp only [checkpoint, conts_eq, Bool.true_and, Nat.zero_add] at hr
  rw [hr]
  refine ⟨by simp, rfl, ?_⟩
  cases h : cs.all (fun c => (c.1 c.2 d).1) <;> simp

/-! ### C324 -/

/-- The name of the file that the call number `k` (from 0) writes, if it writes one. -/
def written (c : Cfg) (k : Nat) : Option Text :=
  if k % c.frequency = 0 then some (c.filename ++ showNat (k + 1)) else none

/-- What stands in the file of a call with values `vs`: the values separated by the delimiter, and a newline. -/
def contents (c : Cfg) (vs : List Text) : Text := List.intercalate c.delim vs ++ ['\n']

theorem line_eq (c : Cfg) (vs : List Text) (h : vs ≠ []) : line c.delim vs = .ok (contents c vs) := by
  cases vs with
  | nil => exact absurd rfl h
  | cons v vs =>
    simp only [line, contents]
    congr 2
    induction vs generalizing v with
    | nil => simp [List.intercalate]
    | cons w vs ih =>
      have := ih w (by simp)
      simp only [List.intercalate, List.intersperse_cons₂, List.flatten_cons, List.map_cons] at this ⊢
      rw [← this]
      simp



/-- A snapshot per call whose number is a multiple of the frequency, in the file whose number is one more, from then on
with the values of that call; the list of the files has their names in order, and the rest of the directory is as the
constructor left it. -/
theorem C324_files (c : Cfg) (hf : 0 < c.frequency) (hname : ∀ m, c.filename ++ showNat m ≠ listName)
    (vals : List (List Text)) (hv : ∀ v ∈ vals, v ≠ []) (hn : vals.length < 2 ^ 32) (rm : Bool) (dir : Option Dir) :
    ∃ d, calls c vals (0, construct c rm dir) = .ok (vals.length, d) ∧
      (∀ k v n, vals[k]? = some v → written c k = some n → d n = some (contents c v)) ∧
      d listName = some (if c.saveFilenames then
        ((List.range vals.length).filterMap (written c)).flatMap (fun n => n ++ ['\n']) else []) ∧
      ∀ x, x ≠ listName → (∀ k < vals.length, written c k ≠ some x) → d x = construct c rm dir x := by
  induction vals using List.reverseRecOn with
  | nil =>
    refine ⟨construct c rm dir, rfl, by simp, ?_, fun _ _ _ => rfl⟩
    cases dir <;> simp [construct, Dir.write]
  | append_singleton vs v ih =>
    simp only [List.length_append, List.length_cons, List.length_nil, Nat.zero_add] at hn
    obtain ⟨d, h1, h2, h3, h4⟩ := ih (fun w hw => hv w (by simp [hw])) (by omega)
    have happ : ∀ (l : List (List Text)) (p : Nat × Dir),
        calls c (l ++ [v]) p = (calls c l p).bind fun q => call c v q := by
      intro l
      induction l with
      | nil =>
        intro p
        simp only [List.nil_append, calls, Except.bind]
        cases call c v p <;> rfl
      | cons w l ihl =>
        intro p
        simp only [List.cons_append, calls]
        cases call c w p with
        | error e => rfl
        | ok q => exact ihl q
    have hk : (vs.length + 1) % 2 ^ 32 = vs.length + 1 := Nat.mod_eq_of_lt hn
    have hinj : ∀ k k', c.filename ++ showNat (k + 1) = c.filename ++ showNat (k' + 1) → k = k' := by
      intro k k' h
      have := ExternalEval.showNat_injective (List.append_cancel_left h)
      omega
    have hwn : ∀ k n, written c k = some n → n = c.filename ++ showNat (k + 1) ∧ k % c.frequency = 0 := by
      intro k n h
      unfold written at h
      split_ifs at h with h0
      · simp only [Option.some.injEq] at h
        exact ⟨h.symm, h0⟩
    rw [happ, h1]
    simp only [Except.bind, call, hf.ne', if_false, hk, List.length_append, List.length_cons, List.length_nil, Nat.zero_add,
      List.range_succ, List.filterMap_append, List.flatMap_append, List.filterMap_cons, List.filterMap_nil]
    by_cases hm : vs.length % c.frequency = 0
    · have hw : written c vs.length = some (c.filename ++ showNat (vs.length + 1)) := by simp [written, hm]
      simp only [hm, ne_eq, not_true_eq_false, if_false, line_eq c v (hv v (by simp)), hw]
      set nm := c.filename ++ showNat (vs.length + 1) with hnm
      have hnl : nm ≠ listName := hname _
      refine ⟨_, rfl, ?_, ?_, ?_⟩
      · intro k w n hkw hwr
        obtain ⟨rfl, hk0⟩ := hwn k n hwr
        rcases Nat.lt_trichotomy k vs.length with hlt | rfl | hgt
        · rw [List.getElem?_append_left hlt] at hkw
          have hne : c.filename ++ showNat (k + 1) ≠ nm := fun h => by have := hinj _ _ h; omega
          have hne' : c.filename ++ showNat (k + 1) ≠ listName := hname _
          have := h2 k w _ hkw hwr
          cases c.saveFilenames <;> simp [Dir.append, Dir.write, hne, hne', this]
        · simp only [List.getElem?_concat_length, Option.some.injEq] at hkw
          subst hkw
          cases c.saveFilenames <;> simp [Dir.append, Dir.write, ← hnm, hnl]
        · rw [List.getElem?_eq_none (by simp; omega)] at hkw
          simp at hkw
      · have hln : listName ≠ nm := hnl.symm
        cases hs : c.saveFilenames with
        | false => simp [Dir.append, Dir.write, hln, h3, hs]
        | true => simp [Dir.append, Dir.write, hln, h3, hs]
      · intro x hx hall
        have hxn : x ≠ nm := fun h => hall vs.length (by omega) (by rw [hw, h])
        have := h4 x hx fun k hk => hall k (by omega)
        cases c.saveFilenames <;> simp [Dir.append, Dir.write, hx, hxn, this]
    · have hw : written c vs.length = none := by simp [written, hm]
      simp only [hm, ne_eq, not_false_eq_true, if_true, hw]
      refine ⟨d, rfl, ?_, ?_, fun x hx hall => h4 x hx fun k hk => hall k (by omega)⟩
      · intro k w n hkw hwr
        rcases Nat.lt_trichotomy k vs.length with hlt | rfl | hgt
        · rw [List.getElem?_append_left hlt] at hkw
          exact h2 k w n hkw hwr
        · rw [hw] at hwr; simp at hwr
        · rw [List.getElem?_eq_none (by simp; omega)] at hkw
          simp at hkw
      · rw [h3]; simp

/-- What the constructor leaves in a directory that exists: everything, or, if files are to be removed, everything whose
name does not begin like the snapshots; an earlier list of files is emptied in both cases. -/
theorem C324_constructor (c : Cfg) (rm : Bool) (d : Dir) (x : Text) :
    construct c rm (some d) x = if x = listName then some [] else if rm = true ∧ c.filename <+: x then none else d x := by
  cases rm <;> simp [construct, Dir.write]

/-- A frequency of 0, or nothing to write, is undefined behaviour. -/
theorem C324_undefined (c : Cfg) (vals : List Text) (p : Nat × Dir) :
    call c vals p = .error .ub ↔ c.frequency = 0 ∨ (p.1 % c.frequency = 0 ∧ vals = []) := by
  unfold call
  by_cases hf : c.frequency = 0
  · simp [hf]
  · by_cases hm : p.1 % c.frequency = 0
    · cases vals <;> simp [hf, hm, line]
    · simp [hf, hm]

example : (checkpoint 1 0 2 [((fun s (_ : Nat) => (false, s)), 0), ((fun (s : Nat) _ => (true, s + 1)), 4)] 0).2.2 =
    [.stat 0, .monitor 0, .monitor 1, .cont 0, .cont 1, .lastStat 0, .lastMonitor 0, .lastMonitor 1] := by decide

example : (List.range 5).filterMap (written { frequency := 2 }) = ["gen1".toList, "gen3".toList, "gen5".toList] := by
  decide +kernel

end Paradiseo.EdoMonitor
