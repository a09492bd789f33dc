import Verif.Model.AlgoCtors
import Verif.Props.LSCount
import Verif.Props.LSParts

/-
Properties C318 and C319: simulated annealing and tabu search as their short constructors assemble them.
-/
namespace Paradiseo.LS

variable {S M F K : Type}

/-! ### C318 -/

/-- What one iteration at temperature 0 makes of a solution: the first neighbour if it is better. -/
noncomputable def greedyStep (better : ℝ → ℝ → Prop) (app : M → S → S) (sol : S × ℝ) : List (Cand M ℝ) → S × ℝ
  | [] => sol
  | c :: _ => open Classical in if better sol.2 c.fit then (app c.mv sol.1, c.fit) else sol

/-- Simulated annealing made with a continuator and no schedule does one iteration, whatever the continuator says, and
takes only a better neighbour in it. -/
theorem C318_one_iteration (better : ℝ → ℝ → Prop) (u : Nat → ℝ) (nb : Nat → S × ℝ → List (Cand M ℝ)) (app : M → S → S)
    (f : S → ℝ) (cont : K → S × ℝ → Bool × K) (cinit : S × ℝ → K) (fuel : Nat) (x : S) (fit : Option ℝ) (e : SA M Nat) :
    ∃ st b, localSearch f (saExplorer better saContinuatorCool u nb app) cont cinit (fuel + 1) x fit e =
      some (greedyStep better app (x, fit.getD (f x)) (nb 0 (x, fit.getD (f x))), [st], b) := by
  have hz : ∀ (a b c : ℝ), saAccept better a b 0 c = true ↔ better a b := fun a b c => C25_frozen better a b c
  set sol : S × ℝ := (x, fit.getD (f x)) with hsol
  have hcase : nb 0 sol = [] ∨ ∃ c l, nb 0 sol = c :: l := by
    cases nb 0 sol with
    | nil => exact .inl rfl
    | cons c l => exact .inr ⟨c, l, rfl⟩
  have hstep : (lsStep (saExplorer better saContinuatorCool u nb app) 0 sol
      ((saExplorer better saContinuatorCool u nb app).initParam sol e)).1 = greedyStep better app sol (nb 0 sol) := by
    rcases hcase with hnb | ⟨c, l, hnb⟩
    · simp [lsStep, saExplorer, saContinuatorCool, simpleCooling, greedyStep, hnb]
    · by_cases hb : better sol.2 c.fit
      · simp [lsStep, saExplorer, saContinuatorCool, simpleCooling, greedyStep, hnb, (hz _ _ _).2 hb, hb, moveSel]
      · have : saAccept better sol.2 c.fit 0 (u 0) = false := by
          rw [← Bool.not_eq_true, hz]; exact hb
        simp [lsStep, saExplorer, saContinuatorCool, simpleCooling, greedyStep, hnb, this, hb]
  have htemp : ((lsStep (saExplorer better saContinuatorCool u nb app) 0 sol
      ((saExplorer better saContinuatorCool u nb app).initParam sol e)).2.1).temp = (0, 0) := by
    rcases hcase with hnb | ⟨c, l, hnb⟩ <;>
      simp [lsStep, saExplorer, saContinuatorCool, simpleCooling, hnb]
  simp only [localSearch, ← hsol, lsLoop]
  have hstop : ∀ s (e' : SA M Nat), e'.temp = (0, 0) →
      (saExplorer better saContinuatorCool u nb app).isContinue s e' = false := by
    intro s e' h
    simp [saExplorer, saContinuatorCool, simpleCooling, h]
  rw [hstop _ _ htemp]
  simp only [Bool.and_false, Bool.false_eq_true, if_false, Option.map_some, List.getLastD_cons, List.getLastD_nil]
  rw [← hstep]
  exact ⟨_, _, rfl⟩

/-- The number of iterations of simulated annealing made with four numbers, if the temperature ends it: `k` is the first
number of coolings that brings the temperature to the final one. -/
theorem C318_length (initT alpha finalT : ℝ) (span k : Nat) (h0 : 0 < alpha) (h1 : alpha < 1) (hi : 0 < initT)
    (hf : 0 < finalT) (hk : initT * alpha ^ k ≤ finalT) (hk' : ∀ j < k, finalT < initT * alpha ^ j)
    (better : ℝ → ℝ → Prop) (u : Nat → ℝ) (nb : Nat → S × ℝ → List (Cand M ℝ)) (app : M → S → S)
    (f : S → ℝ) (cont : K → S × ℝ → Bool × K) (cinit : S × ℝ → K) (x : S) (fit : Option ℝ) (e : SA M Nat) :
    ∃ N res tr b, localSearch f (saExplorer better (saDefaultCool initT alpha span finalT) u nb app) cont cinit N x fit e =
      some (res, tr, b) ∧ tr.length ≤ max 1 (k * (span + 1)) ∧ (b = true → tr.length = max 1 (k * (span + 1))) := by
  obtain ⟨N, hN⟩ := C25_annealing_ends initT alpha finalT span h0 h1 hi hf
  obtain ⟨res, tr, b, h, hb, hall⟩ := hN better u nb app f cont cinit x fit e
  have hpos : 0 < tr.length := by
    obtain ⟨n, htr, -⟩ := localSearch_orbit h
    rw [htr]; simp
  have hle : tr.length ≤ max 1 (k * (span + 1)) := by
    by_contra hgt
    push Not at hgt
    rw [max_lt_iff] at hgt
    rcases Nat.eq_zero_or_pos k with rfl | hkp
    · have := hall 1 one_pos hgt.1
      have h2 : alpha ^ (1 / (span + 1)) ≤ 1 := pow_le_one₀ h0.le h1.le
      simp only [pow_zero, mul_one] at hk
      nlinarith
    · have := hall (k * (span + 1)) (by positivity) hgt.2
      rw [Nat.mul_div_cancel _ (Nat.succ_pos span)] at this
      exact absurd hk (not_le_of_gt this)
  refine ⟨N, res, tr, b, h, hle, fun hbt => le_antisymm hle ?_⟩
  rw [max_le_iff]
  refine ⟨hpos, ?_⟩
  have hl := hb hbt
  have : k ≤ tr.length / (span + 1) := by
    by_contra hlt
    exact absurd hl (not_le_of_gt (hk' _ (lt_of_not_ge hlt)))
  exact (Nat.le_div_iff_mul_le (Nat.succ_pos span)).1 this

/-- With the default numbers and a continuator that never stops it, simulated annealing does 6666 iterations. -/
theorem C318_default (better : ℝ → ℝ → Prop) (u : Nat → ℝ) (nb : Nat → S × ℝ → List (Cand M ℝ)) (app : M → S → S)
    (f : S → ℝ) (x : S) (fit : Option ℝ) (e : SA M Nat) :
    ∃ N res tr, localSearch f (saExplorer better saDefaultCool u nb app) (fun (k : Unit) _ => (true, k)) (fun _ => ()) N x
      fit e = some (res, tr, true) ∧ tr.length = 6666 := by
  obtain ⟨N, res, tr, b, h, -, hb⟩ := C318_length 10 (9 / 10) (1 / 100) 100 66 (by norm_num) (by norm_num) (by norm_num)
    (by norm_num) (by norm_num)
    (fun j hj => by
      have h1 : (9 / 10 : ℝ) ^ 65 ≤ (9 / 10) ^ j := pow_le_pow_of_le_one (by norm_num) (by norm_num) (by omega)
      have h2 : (1 / 100 : ℝ) < 10 * (9 / 10) ^ 65 := by norm_num
      linarith)
    better u nb app f (fun (k : Unit) _ => (true, k)) (fun _ => ()) x fit e
  have hbt : b = true := by
    have key : ∀ fuel t sol e k l b, lsLoop (saExplorer better (saDefaultCool 10 (9 / 10) 100 (1 / 100)) u nb app)
        (fun (k : Unit) (_ : S × ℝ) => (true, k)) fuel t sol e k = some (l, b) → b = true := by
      intro fuel
      induction fuel with
      | zero => intro t sol e k l b h; simp [lsLoop] at h
      | succ fuel ih =>
        intro t sol e k l b h
        simp only [lsLoop] at h
        split at h
        · simp only [Option.map_eq_some_iff, Prod.mk.injEq] at h
          obtain ⟨⟨l', b'⟩, g1, -, g2⟩ := h
          exact g2 ▸ ih _ _ _ _ _ _ g1
        · simp only [Option.some.injEq, Prod.mk.injEq] at h
          exact h.2.symm
    simp only [localSearch, Option.map_eq_some_iff, Prod.mk.injEq] at h
    obtain ⟨⟨l', b'⟩, g1, -, -, g2⟩ := h
    exact g2 ▸ key _ _ _ _ _ _ _ g1
  subst hbt
  refine ⟨N, res, tr, h, ?_⟩
  rw [hb rfl]; norm_num

example : ∃ (x : Nat) (nb : Nat → Nat × ℝ → List (Cand Nat ℝ)),
    greedyStep (· < ·) (fun m _ => m) (x, 0) (nb 0 (x, 0)) = (5, 1) :=
  ⟨3, fun _ _ => [⟨5, 1⟩, ⟨6, 2⟩], by simp [greedyStep]⟩

/-! ### C319 -/

section Tabu

variable [LinearOrder F] (eqv : M → M → Bool) (size : Nat) (nb : Nat → S × F → List (Cand M F)) (app : M → S → S)
  (sol : S × F) (e : TS (S × F) (Cand M F) (Option (Ring M) × (S × F)))

/-- The state after `n` iterations of the tabu search made with a size. -/
def tsAt (n : Nat) : (S × F) × TS (S × F) (Cand M F) (Option (Ring M) × (S × F)) :=
  orbit (tsSize eqv size nb app) 0 (sol, (tsSize eqv size nb app).initParam sol e) n

/-- The neighbour applied in iteration `n` (the first is number 0); `none` if no move was made. -/
def appliedMove (n : Nat) : Option (Cand M F) :=
  if (tsAt eqv size nb app sol e (n + 1)).2.isAccept then (tsAt eqv size nb app sol e (n + 1)).2.selected else none

/-- The calls on the tabu list made in the first `n` iterations. -/
def tsCalls : Nat → List (RingOp M)
  | 0 => []
  | n + 1 => tsCalls n ++ match appliedMove eqv size nb app sol e n with
    | some c => [.add c.mv, .update]
    | none => [.update]

theorem ts_step (n : Nat) :
    let p := tsAt eqv size nb app sol e n
    let q := tsAt eqv size nb app sol e (n + 1)
    let ok := fun c => !(tsMem (S := S) (F := F) eqv size).check p.2.mem p.1 c || (tsMem eqv size).aspir p.2.mem p.1 c
    (∃ c, appliedMove eqv size nb app sol e n = some c ∧ tsSelect ok (nb n p.1) = some c ∧ q.1 = (app c.mv p.1.1, c.fit) ∧
      q.2.mem = (tsMem eqv size).update q.1 (some c) ((tsMem eqv size).add q.1 (some c) p.2.mem)) ∨
    (appliedMove eqv size nb app sol e n = none ∧ tsSelect ok (nb n p.1) = none ∧ q.1 = p.1 ∧
      ∃ c, q.2.mem = (tsMem eqv size).update q.1 c p.2.mem) := by
  intro p q ok
  have hq : q = stepTo (tsSize eqv size nb app) n p := by
    show stepTo _ (0 + n) _ = _; rw [Nat.zero_add]; rfl
  have hap : appliedMove eqv size nb app sol e n = if q.2.isAccept then q.2.selected else none := rfl
  have hd : ∀ (w : Option (Ring M) × (S × F)) (s : S × F), (tsMem (M := M) eqv size).diversify w ((tsMem (M := M) eqv size).intensify w s) = s :=
    fun _ _ => rfl
  cases h : tsSelect ok (nb n p.1) with
  | none =>
    right
    have h' : tsSelect (fun c => !(tsMem (S := S) (F := F) eqv size).check p.2.mem p.1 c || (tsMem eqv size).aspir p.2.mem p.1 c)
      (nb n p.1) = none := h
    refine ⟨?_, rfl, ?_, ?_⟩
    · rw [hap, hq]; simp [stepTo, lsStep, tsSize, tabuSearch, hd, h']
    · rw [hq]; simp [stepTo, lsStep, tsSize, tabuSearch, hd, h']
    · rw [hq]; exact ⟨p.2.selected, by simp [stepTo, lsStep, tsSize, tabuSearch, hd, h']⟩
  | some c =>
    left
    have h' : tsSelect (fun c => !(tsMem (S := S) (F := F) eqv size).check p.2.mem p.1 c || (tsMem eqv size).aspir p.2.mem p.1 c)
      (nb n p.1) = some c := h
    refine ⟨c, ?_, rfl, ?_, ?_⟩
    · rw [hap, hq]; simp [stepTo, lsStep, tsSize, tabuSearch, hd, h']
    · rw [hq]; simp [stepTo, lsStep, tsSize, tabuSearch, hd, h', moveSel]
    · rw [hq]; simp [stepTo, lsStep, tsSize, tabuSearch, hd, h', moveSel]

/-- After `n` iterations the tabu list is in the state the calls of those iterations lead to. -/
theorem ts_ring (n : Nat) :
    (tsAt eqv size nb app sol e n).2.mem.1 = ringRun size 0 (tsCalls eqv size nb app sol e n) := by
  induction n with
  | zero => rfl
  | succ n ih =>
    rcases ts_step eqv size nb app sol e n with ⟨c, h1, -, -, h4⟩ | ⟨h1, -, -, c, h4⟩
    · rw [h4]
      simp only [tsCalls, h1, tsMem, aspirMem, ih, ringRun, List.foldlM_append, List.foldlM_cons, List.foldlM_nil]
      cases List.foldlM (ringApply size 0) ⟨[], 0⟩ (tsCalls eqv size nb app sol e n) with
      | none => rfl
      | some r =>
        simp only [Option.bind_some, Option.bind_eq_bind]
        cases ringApply size 0 r (RingOp.add c.mv) with
        | none => rfl
        | some r' =>
          simp only [Option.bind_some]
          cases ringApply size 0 r' RingOp.update <;> rfl
    · rw [h4]
      simp only [tsCalls, h1, tsMem, aspirMem, ih, ringRun, List.foldlM_append, List.foldlM_cons, List.foldlM_nil]
      cases List.foldlM (ringApply size 0) ⟨[], 0⟩ (tsCalls eqv size nb app sol e n) with
      | none => rfl
      | some r =>
        simp only [Option.bind_some, Option.bind_eq_bind]
        cases ringApply size 0 r RingOp.update <;> rfl

/-- The remembered solution is the best of those visited. -/
theorem ts_best (n : Nat) :
    (∀ i ≤ n, (tsAt eqv size nb app sol e i).1.2 ≤ (tsAt eqv size nb app sol e n).2.mem.2.2) ∧
      ∃ i ≤ n, (tsAt eqv size nb app sol e n).2.mem.2 = (tsAt eqv size nb app sol e i).1 := by
  induction n with
  | zero =>
    refine ⟨fun i hi => ?_, 0, le_rfl, rfl⟩
    obtain rfl : i = 0 := by omega
    exact le_rfl
  | succ k ih =>
    have hmem : (tsAt eqv size nb app sol e (k + 1)).2.mem.2 =
        if (tsAt eqv size nb app sol e k).2.mem.2.2 < (tsAt eqv size nb app sol e (k + 1)).1.2 then
          (tsAt eqv size nb app sol e (k + 1)).1 else (tsAt eqv size nb app sol e k).2.mem.2 := by
      rcases ts_step eqv size nb app sol e k with ⟨c, -, -, -, h4⟩ | ⟨-, -, -, c, h4⟩ <;> rw [h4] <;> rfl
    rw [hmem]
    refine ⟨fun i hi => ?_, ?_⟩
    · split
      · rename_i hlt
        rcases Nat.lt_or_eq_of_le hi with h | h
        · exact (ih.1 i (by omega)).trans hlt.le
        · rw [h]
      · rename_i hlt
        rcases Nat.lt_or_eq_of_le hi with h | h
        · exact ih.1 i (by omega)
        · rw [h]; exact not_lt.1 hlt
    · split
      · exact ⟨k + 1, le_rfl, rfl⟩
      · obtain ⟨i, hi, h⟩ := ih.2
        exact ⟨i, by omega, h⟩

/-- How many moves are made in the iterations after number `i` and before number `n`. -/
def movesBetween (i n : Nat) : Nat :=
  (List.range n).countP fun j => decide (i < j) && (appliedMove eqv size nb app sol e j).isSome

/-- One of the last `size` moves made before iteration `n` equals `c`. -/
def RecentMove (n : Nat) (c : Cand M F) : Prop :=
  ∃ i < n, ∃ d, appliedMove eqv size nb app sol e i = some d ∧ eqv d.mv c.mv = true ∧
    movesBetween eqv size nb app sol e i n < size

theorem remembered_iff (n : Nat) (c : Cand M F) :
    Remembered eqv size 0 (tsCalls eqv size nb app sol e n) c.mv ↔ RecentMove eqv size nb app sol e n c := by
  have key : ∀ n k, (∃ pre x post, tsCalls eqv size nb app sol e n = pre ++ .add x :: post ∧ eqv x c.mv = true ∧
      (post.countP fun o => match o with | .add _ => true | .update => false) + k < size) ↔
      ∃ i < n, ∃ d, appliedMove eqv size nb app sol e i = some d ∧ eqv d.mv c.mv = true ∧
        movesBetween eqv size nb app sol e i n + k < size := by
    intro n
    induction n with
    | zero =>
      intro k
      simp [tsCalls]
    | succ n ih =>
      intro k
      have hmb : ∀ i < n, movesBetween eqv size nb app sol e i (n + 1) =
          movesBetween eqv size nb app sol e i n + if (appliedMove eqv size nb app sol e n).isSome then 1 else 0 := by
        intro i hi
        simp [movesBetween, List.range_succ, List.countP_append, hi]
      have hmn : movesBetween eqv size nb app sol e n (n + 1) = 0 := by
        simp only [movesBetween, List.countP_eq_zero, List.mem_range]
        intro j hj
        have : ¬ n < j := by omega
        simp [this]
      have hsplit : (∃ i < n + 1, ∃ d, appliedMove eqv size nb app sol e i = some d ∧ eqv d.mv c.mv = true ∧
          movesBetween eqv size nb app sol e i (n + 1) + k < size) ↔
          (∃ d, appliedMove eqv size nb app sol e n = some d ∧ eqv d.mv c.mv = true ∧ k < size) ∨
          ∃ i < n, ∃ d, appliedMove eqv size nb app sol e i = some d ∧ eqv d.mv c.mv = true ∧
            movesBetween eqv size nb app sol e i n +
              ((if (appliedMove eqv size nb app sol e n).isSome then 1 else 0) + k) < size := by
        constructor
        · rintro ⟨i, hi, d, h1, h2, h3⟩
          rcases Nat.lt_or_eq_of_le (Nat.le_of_lt_succ hi) with h | rfl
          · rw [hmb i h, Nat.add_assoc] at h3
            exact .inr ⟨i, h, d, h1, h2, h3⟩
          · rw [hmn, Nat.zero_add] at h3
            exact .inl ⟨d, h1, h2, h3⟩
        · rintro (⟨d, h1, h2, h3⟩ | ⟨i, hi, d, h1, h2, h3⟩)
          · exact ⟨n, by omega, d, h1, h2, by rw [hmn]; omega⟩
          · exact ⟨i, by omega, d, h1, h2, by rw [hmb i hi, Nat.add_assoc]; exact h3⟩
      rw [hsplit, ← ih]
      cases hap : appliedMove eqv size nb app sol e n with
      | none =>
        simp only [tsCalls, hap, Option.isSome_none, Bool.false_eq_true, if_false, Nat.zero_add]
        constructor
        · rintro ⟨pre, x, post, h1, h2, h3⟩
          right
          rcases List.eq_nil_or_concat' post with rfl | ⟨post', o, rfl⟩
          · have := congrArg List.getLast? h1
            simp at this
          · have h4 : pre ++ RingOp.add x :: (post' ++ [o]) = (pre ++ RingOp.add x :: post') ++ [o] := by simp
            rw [h4] at h1
            obtain ⟨h5, h6⟩ := List.append_inj' h1 rfl
            refine ⟨pre, x, post', h5, h2, ?_⟩
            rw [List.countP_append] at h3
            omega
        · rintro (⟨d, h, -⟩ | ⟨pre, x, post, h1, h2, h3⟩)
          · simp at h
          · exact ⟨pre, x, post ++ [.update], by rw [h1]; simp, h2, by simpa [List.countP_append] using h3⟩
      | some d =>
        simp only [tsCalls, hap, Option.isSome_some, if_true]
        constructor
        · rintro ⟨pre, x, post, h1, h2, h3⟩
          rcases List.eq_nil_or_concat' post with rfl | ⟨post', o, rfl⟩
          · have := congrArg List.getLast? h1
            simp at this
          · have h4 : pre ++ RingOp.add x :: (post' ++ [o]) = (pre ++ RingOp.add x :: post') ++ [o] := by simp
            have h5 : tsCalls eqv size nb app sol e n ++ [RingOp.add d.mv, .update] =
              (tsCalls eqv size nb app sol e n ++ [RingOp.add d.mv]) ++ [.update] := by simp
            rw [h4, h5] at h1
            obtain ⟨h6, h7⟩ := List.append_inj' h1 rfl
            simp only [List.cons.injEq, and_true] at h7
            subst h7
            rcases List.eq_nil_or_concat' post' with rfl | ⟨post'', o', rfl⟩
            · left
              obtain ⟨h8, h9⟩ := List.append_inj' h6 rfl
              simp only [List.cons.injEq, RingOp.add.injEq, and_true] at h9
              subst h9
              exact ⟨d, rfl, h2, by omega⟩
            · right
              have h8 : pre ++ RingOp.add x :: (post'' ++ [o']) = (pre ++ RingOp.add x :: post'') ++ [o'] := by simp
              rw [h8] at h6
              obtain ⟨h9, h10⟩ := List.append_inj' h6 rfl
              simp only [List.cons.injEq, and_true] at h10
              subst h10
              refine ⟨pre, x, post'', h9, h2, ?_⟩
              simp only [List.countP_append, List.countP_cons, List.countP_nil] at h3
              simp at h3
              omega
        · rintro (⟨d', h, h2, h3⟩ | ⟨pre, x, post, h1, h2, h3⟩)
          · simp only [Option.some.injEq] at h
            subst h
            exact ⟨tsCalls eqv size nb app sol e n, d.mv, [.update], rfl, h2, by simpa using h3⟩
          · refine ⟨pre, x, post ++ [.add d.mv, .update], by rw [h1]; simp, h2, ?_⟩
            simp only [List.countP_append, List.countP_cons, List.countP_nil]
            simp
            omega
  have := key n 0
  simp only [Nat.add_zero] at this
  refine Iff.trans ?_ this
  simp only [Remembered, true_or, and_true]
  exact Iff.rfl

/-- In iteration `n` the neighbour `c` may not be taken: it repeats one of the last `size` moves and is not better than
every solution the search has been at. -/
def Forbidden (n : Nat) (c : Cand M F) : Prop :=
  RecentMove eqv size nb app sol e n c ∧ ∃ j ≤ n, c.fit ≤ (tsAt eqv size nb app sol e j).1.2

theorem forbidden_iff (hsize : 0 < size) (n : Nat) (c : Cand M F) (s : S × F) :
    (!(tsMem (S := S) (F := F) eqv size).check (tsAt eqv size nb app sol e n).2.mem s c ||
      (tsMem eqv size).aspir (tsAt eqv size nb app sol e n).2.mem s c) = false ↔ Forbidden eqv size nb app sol e n c := by
  obtain ⟨r, hr, hc⟩ := C24_ring eqv size 0 hsize (tsCalls eqv size nb app sol e n)
  have h1 : (tsMem (S := S) (F := F) eqv size).check (tsAt eqv size nb app sol e n).2.mem s c = ringCheck eqv 0 r c.mv := by
    simp only [tsMem, aspirMem, ts_ring, hr]
  have h2 : (tsMem (S := S) (F := F) eqv size).aspir (tsAt eqv size nb app sol e n).2.mem s c = false ↔
      ∃ j ≤ n, c.fit ≤ (tsAt eqv size nb app sol e j).1.2 := by
    simp only [tsMem, aspirMem, decide_eq_false_iff_not, not_lt]
    obtain ⟨hb1, i, hi, hb2⟩ := ts_best eqv size nb app sol e n
    constructor
    · intro h
      exact ⟨i, hi, by rw [← hb2]; exact h⟩
    · rintro ⟨j, hj, h⟩
      exact h.trans (hb1 j hj)
  rw [Bool.or_eq_false_iff, h2, h1, Bool.not_eq_false', hc, remembered_iff, Forbidden]

/-- Tabu search made with a size takes, in every iteration, the best of the neighbours that are not forbidden: those that
repeat none of the last `size` moves, or are better than every solution the search has been at. -/
theorem C319_taken (hsize : 0 < size) (n : Nat) (c : Cand M F) (h : appliedMove eqv size nb app sol e n = some c) :
    c ∈ nb n (tsAt eqv size nb app sol e n).1 ∧ ¬ Forbidden eqv size nb app sol e n c ∧
      (∀ d ∈ nb n (tsAt eqv size nb app sol e n).1, ¬ Forbidden eqv size nb app sol e n d → d.fit ≤ c.fit) ∧
      (tsAt eqv size nb app sol e (n + 1)).1 = (app c.mv (tsAt eqv size nb app sol e n).1.1, c.fit) := by
  rcases ts_step eqv size nb app sol e n with ⟨d, h1, h2, h3, -⟩ | ⟨h1, -⟩
  · rw [h] at h1
    simp only [Option.some.injEq] at h1
    subst h1
    obtain ⟨g1, g2, g3⟩ := tsSelect_some _ _ _ h2
    refine ⟨g1, ?_, fun d hd hf => ?_, h3⟩
    · rw [← forbidden_iff eqv size nb app sol e hsize n c (tsAt eqv size nb app sol e n).1, g2]; simp
    · refine g3 d hd ?_
      rw [← forbidden_iff eqv size nb app sol e hsize n d (tsAt eqv size nb app sol e n).1, Bool.not_eq_false] at hf
      exact hf
  · rw [h] at h1; simp at h1

/-- It stays where it is exactly when every neighbour is forbidden. -/
theorem C319_stays (hsize : 0 < size) (n : Nat) :
    (appliedMove eqv size nb app sol e n = none ↔
      ∀ c ∈ nb n (tsAt eqv size nb app sol e n).1, Forbidden eqv size nb app sol e n c) ∧
    (appliedMove eqv size nb app sol e n = none →
      (tsAt eqv size nb app sol e (n + 1)).1 = (tsAt eqv size nb app sol e n).1) := by
  rcases ts_step eqv size nb app sol e n with ⟨d, h1, h2, h3, -⟩ | ⟨h1, h2, h3, -⟩
  · obtain ⟨g1, g2, -⟩ := tsSelect_some _ _ _ h2
    refine ⟨⟨fun h => by rw [h] at h1; simp at h1, fun h => ?_⟩, fun h => by rw [h] at h1; simp at h1⟩
    have := h d g1
    rw [← forbidden_iff eqv size nb app sol e hsize n d (tsAt eqv size nb app sol e n).1, g2] at this
    simp at this
  · refine ⟨⟨fun _ c hc => ?_, fun _ => h1⟩, fun _ => h3⟩
    rw [← forbidden_iff eqv size nb app sol e hsize n c (tsAt eqv size nb app sol e n).1]
    exact (tsSelect_none _ _).1 h2 c hc

/-- With size 0 the first move made is followed by a remainder by zero. -/
theorem C319_size_zero (n : Nat) :
    (tsAt eqv 0 nb app sol e n).2.mem.1 = none ↔ ∃ i < n, (appliedMove eqv 0 nb app sol e i).isSome := by
  induction n with
  | zero => simp [tsAt, orbit, tsSize, tabuSearch, tsMem, aspirMem]
  | succ n ih =>
    have hlist : ∀ m r, (tsAt eqv 0 nb app sol e m).2.mem.1 = some r → r.list = [] := by
      intro m
      induction m with
      | zero =>
        intro r h
        simp only [tsAt, orbit, tsSize, tabuSearch, tsMem, aspirMem, Option.some.injEq] at h
        rw [← h]
      | succ m ihm =>
        intro r h
        rcases ts_step eqv 0 nb app sol e m with ⟨d, h1, -, -, h4⟩ | ⟨h1, -, -, d, h4⟩
        · rw [h4] at h
          cases hm : (tsAt eqv 0 nb app sol e m).2.mem.1 with
          | none => simp [tsMem, aspirMem, hm] at h
          | some r' => simp [tsMem, aspirMem, hm, ringApply] at h
        · rw [h4] at h
          cases hm : (tsAt eqv 0 nb app sol e m).2.mem.1 with
          | none => simp [tsMem, aspirMem, hm] at h
          | some r' =>
            simp [tsMem, aspirMem, hm, ringApply] at h
            rw [← h]; exact ihm _ hm
    have hex : (∃ i < n + 1, (appliedMove eqv 0 nb app sol e i).isSome = true) ↔
        (∃ i < n, (appliedMove eqv 0 nb app sol e i).isSome = true) ∨ (appliedMove eqv 0 nb app sol e n).isSome = true := by
      constructor
      · rintro ⟨i, hi, h⟩
        rcases Nat.lt_or_eq_of_le (Nat.le_of_lt_succ hi) with h' | rfl
        · exact .inl ⟨i, h', h⟩
        · exact .inr h
      · rintro (⟨i, hi, h⟩ | h)
        · exact ⟨i, by omega, h⟩
        · exact ⟨n, by omega, h⟩
    rw [hex, ← ih]
    rcases ts_step eqv 0 nb app sol e n with ⟨d, h1, -, -, h4⟩ | ⟨h1, -, -, d, h4⟩
    · rw [h4, h1]
      cases hm : (tsAt eqv 0 nb app sol e n).2.mem.1 with
      | none => simp [tsMem, aspirMem, hm]
      | some r' => simp [tsMem, aspirMem, hm, ringApply]
    · rw [h4, h1]
      cases hm : (tsAt eqv 0 nb app sol e n).2.mem.1 with
      | none => simp [tsMem, aspirMem, hm]
      | some r' => simp [tsMem, aspirMem, hm, ringApply]

end Tabu

/-- Neighbours of the integer 5, on the way down and back: move by one step left or right. -/
example : (List.range 4).map (fun n => (appliedMove (S := Int) (M := Int) (F := Int) (fun a b => a == b) 1
    (fun _ s => [⟨1, -(s.1 + 1) * (s.1 + 1)⟩, ⟨-1, -(s.1 - 1) * (s.1 - 1)⟩]) (fun m s => s + m) (2, -4)
    { mem := (none, (0, 0)), bestSoFar := (0, 0), selected := none, isAccept := false } n).map (·.mv)) =
    [some (-1), some (-1), some 1, some (-1)] := by decide +kernel

end Paradiseo.LS
