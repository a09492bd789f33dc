import Verif.Model.SmpShared
import Mathlib.Algebra.BigOperators.Intervals
import Mathlib.Algebra.Order.BigOperators.Group.Finset
import Mathlib.Tactic.Ring
import Mathlib.Tactic.Linarith
/-
C370: islands made by the wrapper share their stopping criterion and their migration criterion.
-/
namespace Paradiseo.Smp

open Finset

private theorem sum_update (k i : Nat) (hi : i < k) (f : Nat → Nat) (b : Nat) :
    (∑ j ∈ range k, Function.update f i b j) + f i = (∑ j ∈ range k, f j) + b := by
  rw [sum_update_of_mem (mem_range.2 hi), ← sum_sdiff (singleton_subset_iff.2 (mem_range.2 hi)), sum_singleton]
  omega

private theorem toNat_update (f : Nat → Bool) (i : Nat) (b : Bool) :
    (fun j => (Function.update f i b j).toNat) = Function.update (fun j => (f j).toNat) i b.toNat := by
  funext j
  by_cases h : j = i
  · subst h; simp
  · simp [Function.update_of_ne h]

/-- What holds in every run; `N` is the number of questions up to and including the first answer no. -/
private structure Inv (k N c period : Nat) (s : ShSt) : Prop where
  le : c ≤ s.counter
  sum : s.counter + ∑ j ∈ range k, (s.ready j).toNat = c + ∑ j ∈ range k, s.gens j
  stop : ∑ j ∈ range k, (s.stopped j).toNat = (s.counter - c) - (N - 1)
  done : ∀ i, s.stopped i = true → s.ready i = false ∧ 1 ≤ s.gens i ∧ s.gens i ≤ N
  live : ∀ i, s.stopped i = false → s.gens i < N + (s.ready i).toNat
  one : ∀ i, s.gens i + c ≤ s.counter + (s.ready i).toNat
  pos : ∀ i, s.ready i = true → 1 ≤ s.gens i
  pc : s.pcount = ∑ j ∈ range k, s.gens j
  sent : s.sends.length = s.pcount / period
  who : ∀ i ∈ s.sends, i < k

private theorem inv_act {k n c period : Nat} (i : Nat) (hi : i < k) {s : ShSt} (h : Inv k (max (n - c) 1) c period s) :
    Inv k (max (n - c) 1) c period (act n period i s) := by
  unfold act
  by_cases hs : s.stopped i = true
  · rw [if_pos hs]; exact h
  rw [if_neg hs]
  have hs' : s.stopped i = false := by simpa using hs
  by_cases hr : s.ready i = true
  · rw [if_pos hr]
    have e1 := sum_update k i hi (fun j => (s.ready j).toNat) 0
    have e2 := sum_update k i hi (fun j => (s.stopped j).toNat) (decide (s.counter + 1 ≥ n)).toNat
    have hle := h.le
    have hone := h.one i
    have hlive := h.live i hs'
    have hpos := h.pos i hr
    simp only [hr, hs', Bool.toNat_true, Bool.toNat_false] at e1 e2 hone hlive
    refine ⟨by show c ≤ s.counter + 1; omega, ?_, ?_, ?_, ?_, ?_, ?_, h.pc, h.sent, h.who⟩
    · show s.counter + 1 + ∑ j ∈ range k, (Function.update s.ready i false j).toNat = _
      rw [toNat_update]
      have := h.sum
      simp only [Bool.toNat_false] at this ⊢
      omega
    · show ∑ j ∈ range k, (Function.update s.stopped i _ j).toNat = (s.counter + 1 - c) - _
      rw [toNat_update]
      have := h.stop
      by_cases hn : s.counter + 1 ≥ n
      · rw [decide_eq_true hn] at e2 ⊢
        simp only [Bool.toNat_true] at e2 ⊢
        omega
      · rw [decide_eq_false hn] at e2 ⊢
        simp only [Bool.toNat_false] at e2 ⊢
        omega
    · intro j hj
      by_cases hji : j = i
      · subst hji
        refine ⟨by simp, hpos, ?_⟩
        show s.gens j ≤ _
        omega
      · simp only [Function.update_of_ne hji] at hj ⊢
        exact h.done j hj
    · intro j hj
      by_cases hji : j = i
      · subst hji
        simp only [Function.update_self, Bool.toNat_false, decide_eq_false_iff_not] at hj ⊢
        omega
      · simp only [Function.update_of_ne hji] at hj ⊢
        exact h.live j hj
    · intro j
      by_cases hji : j = i
      · subst hji
        simp only [Function.update_self, Bool.toNat_false]
        omega
      · simp only [Function.update_of_ne hji]
        have := h.one j
        omega
    · intro j hj
      by_cases hji : j = i
      · subst hji; simp at hj
      · simp only [Function.update_of_ne hji] at hj
        exact h.pos j hj
  · rw [if_neg hr]
    have hr' : s.ready i = false := by simpa using hr
    have e1 := sum_update k i hi (fun j => (s.ready j).toNat) 1
    have e2 := sum_update k i hi s.gens (s.gens i + 1)
    have hone := h.one i
    have hlive := h.live i hs'
    simp only [hr', Bool.toNat_false] at e1 hone hlive
    refine ⟨h.le, ?_, h.stop, ?_, ?_, ?_, ?_, ?_, ?_, ?_⟩
    · show s.counter + ∑ j ∈ range k, (Function.update s.ready i true j).toNat = _
      rw [toNat_update]
      have := h.sum
      simp only [Bool.toNat_true] at this ⊢
      omega
    · intro j hj
      by_cases hji : j = i
      · subst hji; exact absurd hj hs
      · simp only [Function.update_of_ne hji]
        exact h.done j hj
    · intro j hj
      by_cases hji : j = i
      · subst hji
        simp only [Function.update_self, Bool.toNat_true]
        omega
      · simp only [Function.update_of_ne hji]
        exact h.live j hj
    · intro j
      by_cases hji : j = i
      · subst hji
        simp only [Function.update_self, Bool.toNat_true]
        omega
      · simp only [Function.update_of_ne hji]
        exact h.one j
    · intro j hj
      by_cases hji : j = i
      · subst hji; simp
      · simp only [Function.update_of_ne hji] at hj ⊢
        exact h.pos j hj
    · show s.pcount + 1 = ∑ j ∈ range k, Function.update s.gens i (s.gens i + 1) j
      have := h.pc
      omega
    · show (if (s.pcount + 1) % period ≠ 0 then s.sends else s.sends ++ [i]).length = (s.pcount + 1) / period
      rw [Nat.succ_div]
      by_cases hd : period ∣ s.pcount + 1
      · rw [if_pos hd, if_neg (by simpa using Nat.mod_eq_zero_of_dvd hd), List.length_append, h.sent]
        rfl
      · rw [if_neg hd, if_pos (fun h0 => hd (Nat.dvd_of_mod_eq_zero h0)), h.sent]
        rfl
    · intro j hj
      dsimp only at hj
      split at hj
      · exact h.who j hj
      · rcases List.mem_append.1 hj with hj | hj
        · exact h.who j hj
        · rw [List.mem_singleton.1 hj]; exact hi

private theorem inv_run {k n c period : Nat} (sched : List Nat) (hk : ∀ i ∈ sched, i < k) {s : ShSt}
    (h : Inv k (max (n - c) 1) c period s) : Inv k (max (n - c) 1) c period (runIslands n period sched s) := by
  induction sched generalizing s with
  | nil => exact h
  | cons i l ih =>
    exact ih (fun j hj => hk j (List.mem_cons_of_mem _ hj)) (inv_act i (hk i List.mem_cons_self) h)

private theorem inv_start (k N c period : Nat) (hN : 1 ≤ N) : Inv k N c period (ShSt.start c) := by
  refine ⟨le_rfl, by simp [ShSt.start], by simp [ShSt.start], by simp [ShSt.start], ?_, by simp [ShSt.start],
    by simp [ShSt.start], by simp [ShSt.start], by simp [ShSt.start], by simp [ShSt.start]⟩
  intro i _
  simp only [ShSt.start, Bool.toNat_false]
  omega

/-- C370: `k` islands that share a limit of `n` generations, of which `c` were counted before, make together
`max (n - c) 1 + k - 1` generations, whatever the interleaving; each of them makes at least one. -/
theorem C370_total (k n c period : Nat) (hk : 1 ≤ k) (sched : List Nat) (hs : ∀ i ∈ sched, i < k)
    (hend : ∀ i < k, (runIslands n period sched (ShSt.start c)).stopped i = true) :
    ∑ i ∈ range k, (runIslands n period sched (ShSt.start c)).gens i = max (n - c) 1 + k - 1 ∧
    ∀ i < k, 1 ≤ (runIslands n period sched (ShSt.start c)).gens i := by
  have h := inv_run sched hs (inv_start k (max (n - c) 1) c period (by omega)) (n := n)
  generalize runIslands n period sched (ShSt.start c) = s at *
  refine ⟨?_, fun i hi => (h.done i (hend i hi)).2.1⟩
  have h1 : ∑ j ∈ range k, (s.ready j).toNat = 0 := by
    apply sum_eq_zero
    intro j hj
    rw [(h.done j (hend j (mem_range.1 hj))).1]
    rfl
  have h2 : ∑ j ∈ range k, (s.stopped j).toNat = k := by
    rw [sum_congr rfl (g := fun _ => 1) fun j hj => by rw [hend j (mem_range.1 hj)]; rfl]
    simp
  have h3 := h.sum
  have h4 := h.stop
  have h5 := h.le
  omega

/-- C370: the run ends: an island that got its turn often enough has stopped. -/
theorem C370_ends (k n c period : Nat) (sched : List Nat) (hs : ∀ i ∈ sched, i < k) (i : Nat) (hi : i < k)
    (hturns : 2 * max (n - c) 1 ≤ sched.count i) :
    (runIslands n period sched (ShSt.start c)).stopped i = true := by
  have key : ∀ (l : List Nat) (s : ShSt), (runIslands n period l s).stopped i = true ∨
      2 * (runIslands n period l s).gens i + (s.ready i).toNat =
        2 * s.gens i + ((runIslands n period l s).ready i).toNat + l.count i := by
    intro l
    induction l with
    | nil => intro s; right; simp [runIslands]
    | cons j l ih =>
      intro s
      have hrun : runIslands n period (j :: l) s = runIslands n period l (act n period j s) := rfl
      rw [hrun]
      rcases ih (act n period j s) with h | h
      · exact Or.inl h
      by_cases hji : j = i
      · subst hji
        by_cases hst : s.stopped j = true
        · left
          have stays : ∀ (l : List Nat) (s : ShSt), s.stopped j = true → (runIslands n period l s).stopped j = true := by
            intro l
            induction l with
            | nil => intro s h; exact h
            | cons a l ih =>
              intro s h
              refine ih _ ?_
              show (act n period a s).stopped j = true
              unfold act
              split
              · exact h
              · split
                · by_cases ha : j = a
                  · subst ha; contradiction
                  · simpa [Function.update_of_ne ha] using h
                · exact h
          exact stays l _ (by unfold act; rw [if_pos hst]; exact hst)
        · right
          rw [List.count_cons_self]
          by_cases hr : s.ready j = true
          · simp only [act, if_neg hst, if_pos hr, Function.update_self, Bool.toNat_false] at h ⊢
            rw [hr, Bool.toNat_true]
            omega
          · simp only [act, if_neg hst, if_neg hr, Function.update_self, Bool.toNat_true] at h ⊢
            have hr' : s.ready j = false := by simpa using hr
            rw [hr', Bool.toNat_false]
            omega
      · right
        have hg : (act n period j s).gens i = s.gens i ∧ (act n period j s).ready i = s.ready i := by
          unfold act
          split
          · exact ⟨rfl, rfl⟩
          · split
            · exact ⟨rfl, by simp [Function.update_of_ne (Ne.symm hji)]⟩
            · exact ⟨by simp [Function.update_of_ne (Ne.symm hji)], by simp [Function.update_of_ne (Ne.symm hji)]⟩
        rw [hg.1, hg.2] at h
        rw [List.count_cons_of_ne hji]
        exact h
  rcases key sched (ShSt.start c) with h | h
  · exact h
  · by_contra hst
    have hinv := inv_run sched hs (inv_start k (max (n - c) 1) c period (by omega)) (n := n)
    have hlive := hinv.live i (by simpa using hst)
    simp only [ShSt.start, Bool.toNat_false] at h hlive
    rcases hb : (runIslands n period sched ⟨c, 0, fun _ => 0, fun _ => false, fun _ => false, []⟩).ready i <;>
      rw [hb] at h hlive <;> simp only [Bool.toNat_false, Bool.toNat_true] at h hlive <;> omega

/-- The state of island `i` and of the counters after `m` more full turns of it that are all answered yes. -/
private theorem turns (n period i m : Nat) (s : ShSt) (hr : s.ready i = false) (hst : s.stopped i = false)
    (hm : m = 0 ∨ s.counter + m < n) :
    (runIslands n period (List.replicate (2 * m) i) s).counter = s.counter + m ∧
    (runIslands n period (List.replicate (2 * m) i) s).gens = Function.update s.gens i (s.gens i + m) ∧
    (runIslands n period (List.replicate (2 * m) i) s).ready = s.ready ∧
    (runIslands n period (List.replicate (2 * m) i) s).stopped = s.stopped := by
  induction m generalizing s with
  | zero => simp [runIslands]
  | succ m ih =>
    have h2 : List.replicate (2 * (m + 1)) i = i :: i :: List.replicate (2 * m) i := by
      rw [show 2 * (m + 1) = 2 * m + 1 + 1 by ring]
      rfl
    have hrun : runIslands n period (i :: i :: List.replicate (2 * m) i) s =
        runIslands n period (List.replicate (2 * m) i) (act n period i (act n period i s)) := rfl
    have hlt : s.counter + (m + 1) < n := hm.resolve_left (by omega)
    obtain ⟨h1, h3, h4, h5⟩ : (act n period i (act n period i s)).counter = s.counter + 1 ∧
        (act n period i (act n period i s)).gens = Function.update s.gens i (s.gens i + 1) ∧
        (act n period i (act n period i s)).ready = s.ready ∧
        (act n period i (act n period i s)).stopped = s.stopped := by
      have ha : act n period i s = { s with gens := Function.update s.gens i (s.gens i + 1)
                                            pcount := s.pcount + 1
                                            ready := Function.update s.ready i true
                                            sends := if (s.pcount + 1) % period ≠ 0 then s.sends else s.sends ++ [i] } := by
        unfold act; rw [if_neg (by simp [hst]), if_neg (by simp [hr])]
      rw [ha]
      unfold act
      rw [if_neg (by simp [hst]), if_pos (by simp)]
      refine ⟨rfl, rfl, ?_, ?_⟩
      · simp only [Function.update_idem]
        rw [← hr, Function.update_eq_self]
      · simp only
        rw [decide_eq_false (by omega), ← hst, Function.update_eq_self]
    rw [h2, hrun]
    obtain ⟨g1, g2, g3, g4⟩ := ih (act n period i (act n period i s)) (by rw [h4]; exact hr) (by rw [h5]; exact hst)
      (Or.inr (by rw [h1]; omega))
    rw [g1, g2, g3, g4, h1, h3, h4, h5]
    refine ⟨by omega, ?_, rfl, rfl⟩
    rw [Function.update_idem, Function.update_self]
    congr 1
    omega

private theorem run_append (n period : Nat) (l l' : List Nat) (s : ShSt) :
    runIslands n period (l ++ l') s = runIslands n period l' (runIslands n period l s) := by
  simp [runIslands]

/-- C370: nothing more can be said about the single islands: every way of sharing the generations out that leaves none empty
is the outcome of some interleaving. -/
theorem C370_any_share (k n c period : Nat) (g : Nat → Nat) (hg : ∀ i < k, 1 ≤ g i)
    (hsum : ∑ i ∈ range k, g i = max (n - c) 1 + k - 1) :
    ∃ sched : List Nat, (∀ i ∈ sched, i < k) ∧
      (∀ i < k, (runIslands n period sched (ShSt.start c)).stopped i = true) ∧
      ∀ i < k, (runIslands n period sched (ShSt.start c)).gens i = g i := by
  -- first everything but the last generation of each island
  have first : ∀ m ≤ k, ∃ l : List Nat, (∀ i ∈ l, i < k) ∧
      (runIslands n period l (ShSt.start c)).counter = c + ∑ i ∈ range m, (g i - 1) ∧
      (runIslands n period l (ShSt.start c)).gens = (fun i => if i < m then g i - 1 else 0) ∧
      (runIslands n period l (ShSt.start c)).ready = (fun _ => false) ∧
      (runIslands n period l (ShSt.start c)).stopped = fun _ => false := by
    have hsub : ∑ i ∈ range k, (g i - 1) + k = max (n - c) 1 + k - 1 := by
      rw [← hsum]
      have : ∑ i ∈ range k, g i = ∑ i ∈ range k, ((g i - 1) + 1) := by
        apply sum_congr rfl
        intro i hi
        have := hg i (mem_range.1 hi)
        omega
      rw [this, sum_add_distrib]
      simp
    intro m
    induction m with
    | zero => intro _; exact ⟨[], by simp, by simp [runIslands, ShSt.start], by simp [runIslands, ShSt.start],
        rfl, rfl⟩
    | succ m ih =>
      intro hm
      obtain ⟨l, h0, h1, h2, h3, h4⟩ := ih (by omega)
      have hlt : ∑ i ∈ range (m + 1), (g i - 1) ≤ ∑ i ∈ range k, (g i - 1) :=
        sum_le_sum_of_subset (range_subset_range.2 (by omega))
      rw [sum_range_succ] at hlt
      obtain ⟨g1, g2, g3, g4⟩ := turns n period m (g m - 1) (runIslands n period l (ShSt.start c)) (by rw [h3])
        (by rw [h4]) (by rw [h1]; omega)
      refine ⟨l ++ List.replicate (2 * (g m - 1)) m, ?_, ?_, ?_, ?_, ?_⟩
      · intro i hi
        rcases List.mem_append.1 hi with hi | hi
        · exact h0 i hi
        · rw [(List.mem_replicate.1 hi).2]; omega
      · rw [run_append, g1, h1, sum_range_succ]; omega
      · rw [run_append, g2, h2]
        funext i
        by_cases him : i = m
        · subst him; simp
        · rw [Function.update_of_ne him]
          by_cases hlt : i < m
          · rw [if_pos hlt, if_pos (by omega)]
          · rw [if_neg hlt, if_neg (by omega)]
      · rw [run_append, g3, h3]
      · rw [run_append, g4, h4]
  obtain ⟨l, h0, h1, h2, h3, h4⟩ := first k le_rfl
  have hsub : n ≤ c + ∑ i ∈ range k, (g i - 1) + 1 := by
    have : ∑ i ∈ range k, g i = ∑ i ∈ range k, (g i - 1) + k := by
      rw [show ∑ i ∈ range k, g i = ∑ i ∈ range k, ((g i - 1) + 1) from
        sum_congr rfl fun i hi => by have := hg i (mem_range.1 hi); omega, sum_add_distrib]
      simp
    omega
  generalize hsd : runIslands n period l (ShSt.start c) = s at *
  have last : ∀ m ≤ k, ∃ l' : List Nat, (∀ i ∈ l', i < k) ∧
      n ≤ (runIslands n period l' s).counter + 1 ∧
      (∀ i < k, (runIslands n period l' s).gens i = if i < m then g i else g i - 1) ∧
      (runIslands n period l' s).ready = (fun _ => false) ∧
      (∀ i < k, (runIslands n period l' s).stopped i = decide (i < m)) := by
    intro m
    induction m with
    | zero => intro _; exact ⟨[], by simp, by simp only [runIslands, List.foldl_nil]; omega, by
        intro i hi
        simp only [runIslands, List.foldl_nil, h2, if_pos hi]
        simp, h3, by
        intro i hi
        simp [runIslands, h4]⟩
    | succ m ih =>
      intro hm
      obtain ⟨l', e0, e1, e2, e3, e4⟩ := ih (by omega)
      refine ⟨l' ++ [m, m], ?_, ?_⟩
      · intro i hi
        rcases List.mem_append.1 hi with hi | hi
        · exact e0 i hi
        · simp at hi; omega
      rw [run_append]
      generalize runIslands n period l' s = t at *
      have hst : t.stopped m = false := by rw [e4 m (by omega)]; simp
      have ha : act n period m t = { t with gens := Function.update t.gens m (t.gens m + 1)
                                            pcount := t.pcount + 1
                                            ready := Function.update t.ready m true
                                            sends := if (t.pcount + 1) % period ≠ 0 then t.sends else t.sends ++ [m] } := by
        unfold act; rw [if_neg (by simp [hst]), if_neg (by simp [e3])]
      have hb : runIslands n period [m, m] t = act n period m (act n period m t) := rfl
      rw [hb, ha]
      unfold act
      rw [if_neg (by simp [hst]), if_pos (by simp)]
      refine ⟨by show n ≤ t.counter + 1 + 1; omega, ?_, ?_, ?_⟩
      · intro i hi
        show Function.update t.gens m (t.gens m + 1) i = _
        by_cases him : i = m
        · subst him
          have := hg i hi
          have h5 := e2 i hi
          rw [if_neg (lt_irrefl i)] at h5
          rw [Function.update_self, h5, if_pos (Nat.lt_succ_self i)]
          omega
        · rw [Function.update_of_ne him, e2 i hi]
          by_cases hlt : i < m
          · rw [if_pos hlt, if_pos (by omega)]
          · rw [if_neg hlt, if_neg (by omega)]
      · show Function.update (Function.update t.ready m true) m false = _
        rw [Function.update_idem, e3]
        funext i
        by_cases him : i = m
        · subst him; simp
        · simp [Function.update_of_ne him]
      · intro i hi
        show Function.update t.stopped m _ i = _
        by_cases him : i = m
        · subst him
          rw [Function.update_self]
          simp
          omega
        · rw [Function.update_of_ne him, e4 i hi]
          congr 1
          simp
          omega
  obtain ⟨l', e0, e1, e2, e3, e4⟩ := last k le_rfl
  refine ⟨l ++ l', ?_, ?_, ?_⟩
  · intro i hi
    rcases List.mem_append.1 hi with hi | hi
    · exact h0 i hi
    · exact e0 i hi
  · intro i hi
    rw [run_append, hsd, e4 i hi]
    exact decide_eq_true hi
  · intro i hi
    rw [run_append, hsd, e2 i hi, if_pos hi]

/-- C370: the same sharing happens to the migration criterion. With a period, the number of groups that emigrate from all
islands together is that of the generations of all islands divided by the period. -/
theorem C370_emigrations (k n c period : Nat) (sched : List Nat) (hs : ∀ i ∈ sched, i < k) :
    (runIslands n period sched (ShSt.start c)).sends.length =
      (∑ i ∈ range k, (runIslands n period sched (ShSt.start c)).gens i) / period ∧
    ∀ i ∈ (runIslands n period sched (ShSt.start c)).sends, i < k := by
  have h := inv_run sched hs (inv_start k (max (n - c) 1) c period (by omega)) (n := n)
  exact ⟨by rw [h.sent, h.pc], h.who⟩

/-- One turn of island `i`. -/
private theorem turn (n period i : Nat) (s : ShSt) (hr : s.ready i = false) (hst : s.stopped i = false) :
    runIslands n period [i, i] s =
      { counter := s.counter + 1, pcount := s.pcount + 1, gens := Function.update s.gens i (s.gens i + 1), ready := s.ready
        stopped := Function.update s.stopped i (decide (s.counter + 1 ≥ n))
        sends := if (s.pcount + 1) % period ≠ 0 then s.sends else s.sends ++ [i] } := by
  have hb : runIslands n period [i, i] s = act n period i (act n period i s) := rfl
  have ha : act n period i s = { s with gens := Function.update s.gens i (s.gens i + 1)
                                        pcount := s.pcount + 1
                                        ready := Function.update s.ready i true
                                        sends := if (s.pcount + 1) % period ≠ 0 then s.sends else s.sends ++ [i] } := by
    unfold act; rw [if_neg (by simp [hst]), if_neg (by simp [hr])]
  rw [hb, ha]
  unfold act
  rw [if_neg (by simp [hst]), if_pos (by simp)]
  simp only [Function.update_idem]
  rw [show Function.update s.ready i false = s.ready by rw [← hr, Function.update_eq_self]]

/-- All islands have their turn, one after the other. -/
def oneRound (k : Nat) : List Nat := (List.range k).flatMap fun i => [i, i]

private theorem round_run (k n m q : Nat) (s : ShSt) (hm : m ≤ k) (hr : s.ready = fun _ => false)
    (hst : s.stopped = fun _ => false) (hp : s.pcount = q * k) :
    (runIslands n k (oneRound m) s).counter = s.counter + m ∧
    (runIslands n k (oneRound m) s).pcount = q * k + m ∧
    (runIslands n k (oneRound m) s).gens = (fun i => s.gens i + if i < m then 1 else 0) ∧
    (runIslands n k (oneRound m) s).ready = (fun _ => false) ∧
    (runIslands n k (oneRound m) s).stopped = (fun i => decide (i < m ∧ s.counter + i + 1 ≥ n)) ∧
    (runIslands n k (oneRound m) s).sends = s.sends ++ if m = k ∧ 0 < k then [k - 1] else [] := by
  induction m with
  | zero =>
    refine ⟨rfl, by rw [← hp]; rfl, by simp [oneRound, runIslands], hr, by simp [oneRound, runIslands, hst], ?_⟩
    rw [if_neg (by omega)]
    simp [oneRound, runIslands]
  | succ m ih =>
    obtain ⟨h1, h2, h3, h4, h5, h6⟩ := ih (by omega)
    have hl : oneRound (m + 1) = oneRound m ++ [m, m] := by simp [oneRound, List.range_succ]
    rw [hl, run_append, turn n k m _ (by rw [h4]) (by rw [h5]; simp)]
    refine ⟨by show _ + 1 = _; rw [h1]; omega, by show _ + 1 = _; rw [h2]; omega, ?_, h4, ?_, ?_⟩
    · show Function.update _ m _ = _
      rw [h3]
      funext i
      by_cases him : i = m
      · subst him; simp
      · rw [Function.update_of_ne him]
        by_cases hlt : i < m
        · rw [if_pos hlt, if_pos (by omega)]
        · rw [if_neg hlt, if_neg (by omega)]
    · show Function.update _ m _ = _
      rw [h5, h1]
      funext i
      by_cases him : i = m
      · subst him; simp
      · rw [Function.update_of_ne him]
        congr 1
        simp
        omega
    · show (if _ then _ else _) = _
      rw [h2, h6, if_neg (show ¬ (m = k ∧ 0 < k) by omega), List.append_nil]
      have hmod : (q * k + m + 1) % k = (m + 1) % k := by
        rw [show q * k + m + 1 = (m + 1) + k * q by ring, Nat.add_mul_mod_self_left]
      rw [hmod]
      by_cases hk : m + 1 = k
      · rw [if_neg (by rw [hk]; simp), if_pos ⟨hk, by omega⟩]
        congr 2
        omega
      · rw [if_pos (by rw [Nat.mod_eq_of_lt (by omega)]; omega), if_neg (fun h => hk h.1), List.append_nil]

/-- C370: so a policy asking every island to emigrate at every `k`-th generation can leave all but one of the `k` islands
without any emigration, although each makes `r + 1` generations: it is enough that they take turns. -/
theorem C370_one_emigrates (k r : Nat) (hk : 1 ≤ k) :
    ∃ sched : List Nat, (∀ i ∈ sched, i < k) ∧
      (∀ i < k, (runIslands (r * k + 1) k sched (ShSt.start 0)).stopped i = true ∧
        (runIslands (r * k + 1) k sched (ShSt.start 0)).gens i = r + 1) ∧
      (runIslands (r * k + 1) k sched (ShSt.start 0)).sends = List.replicate (r + 1) (k - 1) := by
  have rounds : ∀ q ≤ r, ∃ sched : List Nat, (∀ i ∈ sched, i < k) ∧
      (runIslands (r * k + 1) k sched (ShSt.start 0)).counter = q * k ∧
      (runIslands (r * k + 1) k sched (ShSt.start 0)).pcount = q * k ∧
      (∀ i < k, (runIslands (r * k + 1) k sched (ShSt.start 0)).gens i = q) ∧
      (runIslands (r * k + 1) k sched (ShSt.start 0)).ready = (fun _ => false) ∧
      (runIslands (r * k + 1) k sched (ShSt.start 0)).stopped = (fun _ => false) ∧
      (runIslands (r * k + 1) k sched (ShSt.start 0)).sends = List.replicate q (k - 1) := by
    intro q
    induction q with
    | zero => intro _; exact ⟨[], by simp, by simp [runIslands, ShSt.start], by simp [runIslands, ShSt.start], fun _ _ => rfl,
        rfl, rfl, rfl⟩
    | succ q ih =>
      intro hq
      obtain ⟨l, h0, h1, h2, h3, h4, h5, h6⟩ := ih (by omega)
      obtain ⟨g1, g2, g3, g4, g5, g6⟩ := round_run k (r * k + 1) k q _ le_rfl h4 h5 h2
      refine ⟨l ++ oneRound k, ?_, ?_, ?_, ?_, ?_, ?_, ?_⟩
      · intro i hi
        rcases List.mem_append.1 hi with hi | hi
        · exact h0 i hi
        · simp [oneRound] at hi; exact hi
      · rw [run_append, g1, h1]; ring
      · rw [run_append, g2]; ring
      · intro i hi; rw [run_append, g3]; simp [hi, h3 i hi]
      · rw [run_append, g4]
      · rw [run_append, g5, h1]
        funext i
        simp only [decide_eq_false_iff_not, not_and, not_le]
        intro hi
        have : (q + 1) * k ≤ r * k := Nat.mul_le_mul_right k hq
        rw [Nat.add_mul, Nat.one_mul] at this
        omega
      · rw [run_append, g6, h6, if_pos ⟨rfl, hk⟩, List.replicate_succ']
  obtain ⟨l, h0, h1, h2, h3, h4, h5, h6⟩ := rounds r le_rfl
  obtain ⟨g1, g2, g3, g4, g5, g6⟩ := round_run k (r * k + 1) k r _ le_rfl h4 h5 h2
  refine ⟨l ++ oneRound k, ?_, ?_, ?_⟩
  · intro i hi
    rcases List.mem_append.1 hi with hi | hi
    · exact h0 i hi
    · simp [oneRound] at hi; exact hi
  · intro i hi
    rw [run_append, g5, g3, h1]
    simp only [decide_eq_true_eq, hi, h3 i hi, true_and, if_true, and_true]
    omega
  · rw [run_append, g6, h6, if_pos ⟨rfl, hk⟩, List.replicate_succ']

/-- Fifty generations for three islands in turns: 52 in all. -/
example : let s := runIslands 50 7 ((List.range 18).flatMap fun _ => oneRound 3) (ShSt.start 0)
    (s.gens 0, s.gens 1, s.gens 2, s.stopped 0 && s.stopped 1 && s.stopped 2, s.sends.length) = (18, 17, 17, true, 7) := by
  decide +kernel

end Paradiseo.Smp
