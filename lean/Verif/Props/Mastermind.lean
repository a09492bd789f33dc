/-
C340 and C341: the Mastermind application.
-/
import Mathlib.Algebra.Order.Group.Multiset
import Mathlib.Data.List.Lattice
import Mathlib.Data.List.GetD
import Mathlib.Tactic.NthRewrite
import Mathlib.Tactic.Linarith
import Verif.Model.Mastermind

namespace Paradiseo.Mastermind

open Paradiseo.EO (Err)
open Paradiseo.Ops (rnd rd wr swapL)

/-! ### The game -/

/-- Positions guessed right. -/
def hits (guess solution : List Int) : Nat := ((guess.zip solution).filter fun p => p.1 = p.2).length

/-- Colours of the solution at the other positions. -/
def missed (guess solution : List Int) : List Int := ((guess.zip solution).filter fun p => p.1 ≠ p.2).map Prod.snd

/-- Colours in common, with their multiplicities. -/
def common (guess solution : List Int) : Nat := ((guess : Multiset Int) ∩ (solution : Multiset Int)).card

/-- The answer of the game: right positions, and right colours at wrong positions. -/
def answer (guess solution : List Int) : Nat × Nat := (hits guess solution, common guess solution - hits guess solution)

/-! ### Lemmas -/

theorem take_spec (c : Int) (hc : c ≠ -1) : ∀ tmp : List Int,
    (c ∉ tmp.filter (· ≠ -1) ∧ take c tmp = none) ∨
    (c ∈ tmp.filter (· ≠ -1) ∧ ∃ t', take c tmp = some t' ∧ t'.filter (· ≠ -1) = (tmp.filter (· ≠ -1)).erase c)
  | [] => .inl ⟨by simp, rfl⟩
  | x :: tmp => by
    unfold take
    by_cases h : c = x
    · subst h
      rw [if_pos rfl]
      refine .inr ⟨by simp [hc], _, rfl, ?_⟩
      rw [List.filter_cons_of_neg (by simp), List.filter_cons_of_pos (by simpa using hc), List.erase_cons_head]
    · rw [if_neg h]
      rcases take_spec c hc tmp with ⟨h1, h2⟩ | ⟨h1, t', h2, h3⟩
      · refine .inl ⟨?_, by rw [h2]; rfl⟩
        intro hm
        rw [List.mem_filter] at hm
        rcases List.mem_cons.1 hm.1 with e | e
        · exact h e
        · exact h1 (List.mem_filter.2 ⟨e, hm.2⟩)
      · refine .inr ⟨?_, x :: t', by rw [h2]; rfl, ?_⟩
        · rw [List.mem_filter] at h1 ⊢
          exact ⟨List.mem_cons_of_mem _ h1.1, h1.2⟩
        · by_cases hx : x = -1
          · subst hx
            rw [List.filter_cons_of_neg (by simp), List.filter_cons_of_neg (by simp), h3]
          · rw [List.filter_cons_of_pos (by simpa using hx), List.filter_cons_of_pos (by simpa using hx), h3,
              List.erase_cons_tail (by simpa using fun e => h e.symm)]

theorem whites_eq : ∀ (g tmp : List Int), (-1 : Int) ∉ g → whites g tmp = (g.bagInter (tmp.filter (· ≠ -1))).length
  | [], tmp, _ => by simp [whites]
  | c :: g, tmp, h => by
    have hc : c ≠ -1 := fun e => h (by simp [e])
    have hg : (-1 : Int) ∉ g := fun e => h (List.mem_cons_of_mem _ e)
    unfold whites
    rcases take_spec c hc tmp with ⟨h1, h2⟩ | ⟨h1, t', h2, h3⟩
    · rw [h2, List.cons_bagInter_of_neg _ h1]
      exact whites_eq g tmp hg
    · rw [h2, List.cons_bagInter_of_pos _ h1, ← h3, List.length_cons]
      dsimp only
      rw [whites_eq g t' hg]

theorem blacks_eq : ∀ (g s : List Int), g.length = s.length → (-1 : Int) ∉ s →
    ∃ tmp, blacks g s = .ok (hits g s, tmp) ∧ tmp.filter (· ≠ -1) = missed g s
  | [], [], _, _ => ⟨[], rfl, rfl⟩
  | [], _ :: _, h, _ => by simp at h
  | _ :: _, [], h, _ => by simp at h
  | c :: g, x :: s, h, hs => by
    have hx : x ≠ -1 := fun e => hs (by simp [e])
    obtain ⟨t, h1, h2⟩ := blacks_eq g s (by simpa using h) (fun e => hs (List.mem_cons_of_mem _ e))
    unfold blacks
    rw [h1]
    dsimp only
    by_cases hcx : c = x
    · rw [if_pos hcx]
      refine ⟨-1 :: t, ?_, ?_⟩
      · unfold hits; simp [hcx]
      · rw [List.filter_cons_of_neg (by simp), h2]; unfold missed; simp [hcx]
    · rw [if_neg hcx]
      refine ⟨x :: t, ?_, ?_⟩
      · unfold hits; simp [hcx]
      · rw [List.filter_cons_of_pos (by simpa using hx), h2]; unfold missed; simp [hcx]

theorem hits_add_missed : ∀ g s : List Int, g.length = s.length → hits g s + (missed g s).length = s.length
  | [], [], _ => rfl
  | [], _ :: _, h => by simp at h
  | _ :: _, [], h => by simp at h
  | c :: g, x :: s, h => by
    have := hits_add_missed g s (by simpa using h)
    unfold hits missed at *
    by_cases hcx : c = x
    · simp [hcx] at *; omega
    · simp [hcx] at *; omega

theorem hits_full : ∀ g s : List Int, g.length = s.length → (hits g s = s.length ↔ g = s)
  | [], [], _ => by simp [hits]
  | [], _ :: _, h => by simp at h
  | _ :: _, [], h => by simp at h
  | c :: g, x :: s, h => by
    have ih := hits_full g s (by simpa using h)
    have hle := hits_add_missed g s (by simpa using h)
    by_cases hcx : c = x
    · have : hits (c :: g) (x :: s) = hits g s + 1 := by unfold hits; simp [hcx]
      rw [this, List.length_cons, Nat.add_right_cancel_iff, ih, hcx]
      simp
    · have : hits (c :: g) (x :: s) = hits g s := by unfold hits; simp [hcx]
      rw [this, List.length_cons]
      constructor
      · intro e; omega
      · intro e; exact absurd (List.cons.inj e).1 hcx

/-- The colours of the solution are those guessed right and those missed. -/
theorem split_solution : ∀ g s : List Int, g.length = s.length → ∃ H : List Int, H.length = hits g s ∧ (∀ x ∈ H, x ∈ g) ∧
    s.Perm (missed g s ++ H)
  | [], [], _ => ⟨[], rfl, by simp, by simp [missed]⟩
  | [], _ :: _, h => by simp at h
  | _ :: _, [], h => by simp at h
  | c :: g, x :: s, h => by
    obtain ⟨H, h1, h2, h3⟩ := split_solution g s (by simpa using h)
    by_cases hcx : c = x
    · refine ⟨x :: H, by unfold hits at *; simp [hcx, h1], ?_, ?_⟩
      · intro y hy
        rcases List.mem_cons.1 hy with e | e
        · simp [e, hcx]
        · exact List.mem_cons_of_mem _ (h2 y e)
      · have : missed (c :: g) (x :: s) = missed g s := by unfold missed; simp [hcx]
        rw [this]
        exact (h3.cons x).trans List.perm_middle.symm
    · refine ⟨H, by unfold hits at *; simp [hcx, h1], fun y hy => List.mem_cons_of_mem _ (h2 y hy), ?_⟩
      have : missed (c :: g) (x :: s) = x :: missed g s := by unfold missed; simp [hcx]
      rw [this]
      exact h3.cons x

theorem evaluator_eq (g s : List Int) (hl : g.length = s.length) (hs : (-1 : Int) ∉ s) (hg : (-1 : Int) ∉ g) :
    evaluator s g = .ok (hits g s * s.length + common g (missed g s)) := by
  obtain ⟨t, h1, h2⟩ := blacks_eq g s hl hs
  unfold evaluator
  rw [h1]
  dsimp only
  rw [whites_eq g t hg, h2, hl]
  unfold common
  rw [Multiset.coe_inter, Multiset.coe_card]

theorem common_le (g t : List Int) : common g t ≤ t.length := by
  have := Multiset.card_le_card (Multiset.inter_le_right (s := (g : Multiset Int)) (t := (t : Multiset Int)))
  simpa [common] using this

/-! ### C340 -/

/-- **C340** (score).  For a guess of the length of the solution, both without negative colours, the fitness is the number
of right positions times the length plus the number of colours the *whole* guess has in common with the solution at the
other positions. -/
theorem C340_score (g s : List Int) (hl : g.length = s.length) (hs : ∀ x ∈ s, 0 ≤ x) (hg : ∀ x ∈ g, 0 ≤ x) :
    evaluator s g = .ok (hits g s * s.length + common g (missed g s)) :=
  evaluator_eq g s hl (fun h => by have := hs _ h; omega) (fun h => by have := hg _ h; omega)

/-- **C340** (optimum).  The fitness is at most the square of the length, and only the solution reaches it: stopping at the
fitness of the solution is stopping at the solution. -/
theorem C340_optimum (g s : List Int) (hl : g.length = s.length) (hs : ∀ x ∈ s, 0 ≤ x) (hg : ∀ x ∈ g, 0 ≤ x) :
    evaluator s s = .ok (s.length * s.length) ∧
    ∃ f, evaluator s g = .ok f ∧ f ≤ s.length * s.length ∧ (f = s.length * s.length ↔ g = s) := by
  have hself : evaluator s s = .ok (s.length * s.length) := by
    rw [C340_score s s rfl hs hs, (hits_full s s rfl).2 rfl]
    have := hits_add_missed s s rfl
    rw [(hits_full s s rfl).2 rfl] at this
    have hm : missed s s = [] := List.length_eq_zero_iff.1 (by omega)
    rw [hm]
    simp [common]
  refine ⟨hself, _, C340_score g s hl hs hg, ?_⟩
  by_cases he : g = s
  · subst he
    have := hself
    rw [C340_score g g rfl hs hs] at this
    have e := Except.ok.inj this
    exact ⟨e.le, fun _ => rfl, fun _ => e⟩
  · have hne : hits g s ≠ s.length := fun e => he ((hits_full g s hl).1 e)
    have hadd := hits_add_missed g s hl
    have hc := common_le g (missed g s)
    have hlt : hits g s * s.length + common g (missed g s) < s.length * s.length := by
      rcases Nat.lt_or_ge 1 s.length with h1 | h1
      · obtain ⟨k, hk⟩ : ∃ k, s.length = hits g s + 1 + k := ⟨s.length - hits g s - 1, by omega⟩
        have hm : (missed g s).length = k + 1 := by omega
        have : s.length * s.length = hits g s * s.length + (k + 1) * s.length := by
          rw [← Nat.add_mul]; congr 1; omega
        rw [this]
        have h2 : (k + 1) * 2 ≤ (k + 1) * s.length := Nat.mul_le_mul_left _ h1
        omega
      · obtain ⟨a, b, rfl, rfl⟩ : ∃ a b, g = [a] ∧ s = [b] := by
          have h0 : s.length ≠ 0 := fun e => he (by
            rw [List.length_eq_zero_iff.1 e, List.length_eq_zero_iff.1 (hl.trans e)])
          obtain ⟨b, hb⟩ := List.length_eq_one_iff.1 (show s.length = 1 by omega)
          obtain ⟨a, ha⟩ := List.length_eq_one_iff.1 (show g.length = 1 by omega)
          exact ⟨a, b, ha, hb⟩
        have hab : a ≠ b := fun e => he (by rw [e])
        have e1 : hits [a] [b] = 0 := by simp [hits, hab]
        have e2 : missed [a] [b] = [b] := by simp [missed, hab]
        rw [e1, e2]
        have : common [a] [b] = 0 := by
          unfold common
          rw [Multiset.coe_inter, Multiset.coe_card, List.cons_bagInter_of_neg _ (by simpa using hab)]
          simp
        rw [this]; simp
    exact ⟨hlt.le, fun e => absurd e (Nat.ne_of_lt hlt), fun e => absurd e he⟩

/-- **C340** (never too low).  The fitness is never below what the answer of the game is worth. -/
theorem C340_at_least (g s : List Int) (hl : g.length = s.length) (hs : ∀ x ∈ s, 0 ≤ x) (hg : ∀ x ∈ g, 0 ≤ x) :
    ∃ f, evaluator s g = .ok f ∧ (answer g s).1 * s.length + (answer g s).2 ≤ f := by
  refine ⟨_, C340_score g s hl hs hg, ?_⟩
  obtain ⟨H, h1, h2, h3⟩ := split_solution g s hl
  have key : common g s ≤ common g (missed g s) + hits g s := by
    unfold common
    rw [Multiset.coe_eq_coe.2 h3, ← Multiset.coe_add, ← h1, ← Multiset.coe_card H, ← Multiset.card_add]
    apply Multiset.card_le_card
    rw [Multiset.le_iff_count]
    intro a
    simp only [Multiset.count_inter, Multiset.count_add]
    omega
  unfold answer
  dsimp only
  omega

theorem common_nodup (g t : List Int) (ht : t.Nodup) : common g t = (t.filter (fun x => decide (x ∈ g))).length := by
  unfold common
  rw [← Multiset.coe_card (List.filter _ t)]
  congr 1
  ext a
  rw [Multiset.count_inter, ← Multiset.filter_coe, Multiset.count_filter]
  have h1 : Multiset.count a (t : Multiset Int) ≤ 1 := Multiset.nodup_iff_count_le_one.1 (Multiset.coe_nodup.2 ht) a
  by_cases h : a ∈ g
  · rw [if_pos (by simpa using h)]
    have : 1 ≤ Multiset.count a (g : Multiset Int) := Multiset.one_le_count_iff_mem.2 (by simpa using h)
    omega
  · rw [if_neg (by simpa using h)]
    have : Multiset.count a (g : Multiset Int) = 0 := Multiset.count_eq_zero.2 (by simpa using h)
    omega

/-- **C340** (solutions of different colours).  If no colour occurs twice in the solution, the fitness is exactly what the
answer of the game is worth. -/
theorem C340_distinct (g s : List Int) (hl : g.length = s.length) (hs : ∀ x ∈ s, 0 ≤ x) (hg : ∀ x ∈ g, 0 ≤ x)
    (hd : s.Nodup) : evaluator s g = .ok ((answer g s).1 * s.length + (answer g s).2) := by
  rw [C340_score g s hl hs hg]
  obtain ⟨H, h1, h2, h3⟩ := split_solution g s hl
  have hm : (missed g s).Nodup := (List.nodup_append.1 (h3.nodup_iff.1 hd)).1
  have hH : H.filter (fun x => decide (x ∈ g)) = H := List.filter_eq_self.2 (fun x hx => by simpa using h2 x hx)
  have e : common g s = common g (missed g s) + hits g s := by
    rw [common_nodup g s hd, common_nodup g _ hm, (h3.filter _).length_eq, List.filter_append, List.length_append,
      hH, h1]
  unfold answer
  dsimp only
  rw [e]
  simp

/-- **C340** (too high).  With a colour that occurs several times in the solution the fitness can exceed the answer, and
even prefer the guess with the worse answer: both guesses have three right positions, the second has a right colour
besides, and the first gets the higher fitness. -/
theorem C340_wrong_order :
    answer [0, 0, 1, 1, 1] [0, 0, 0, 0, 1] = (3, 0) ∧ answer [0, 0, 0, 2, 0] [0, 0, 0, 0, 1] = (3, 1) ∧
    evaluator [0, 0, 0, 0, 1] [0, 0, 1, 1, 1] = .ok 17 ∧ evaluator [0, 0, 0, 0, 1] [0, 0, 0, 2, 0] = .ok 16 := by
  decide +kernel

/-- **C340** (too long).  A guess longer than the solution is undefined behaviour. -/
theorem C340_too_long : ∀ (g s : List Int), s.length < g.length → evaluator s g = .error .ub := by
  have key : ∀ (g s : List Int), s.length < g.length → blacks g s = .error .ub := by
    intro g
    induction g with
    | nil => intro s h; simp at h
    | cons c g ih =>
      intro s h
      cases s with
      | nil => rfl
      | cons x s => unfold blacks; rw [ih s (by simpa using h)]
  intro g s h
  unfold evaluator
  rw [key g s h]

example : evaluator [0, 1, 2, 3] [0, 2, 1, 7] = .ok 6 ∧ answer [0, 2, 1, 7] [0, 1, 2, 3] = (1, 2) := by decide +kernel

/-! ### C341: parameters and operators -/

theorem rnd_color (r : Nat → Nat) (t c : Nat) (hc : 0 < c) : (0 : Int) ≤ (rnd r t c : Int) ∧ (rnd r t c : Int) < c := by
  unfold rnd
  rw [if_neg (by omega)]
  have := Nat.mod_lt (r t) hc
  omega

theorem swapL_mem {l l' : List Int} {i j : Nat} (h : swapL l i j = .ok l') : l'.length = l.length ∧ ∀ x ∈ l', x ∈ l := by
  unfold swapL rd at h
  cases hi : l[i]? with
  | none => rw [hi] at h; simp at h
  | some a =>
    cases hj : l[j]? with
    | none => rw [hi, hj] at h; simp at h
    | some b =>
      rw [hi, hj] at h
      have := Except.ok.inj h
      subst this
      refine ⟨by simp, fun x hx => ?_⟩
      rcases List.mem_or_eq_of_mem_set hx with hx | hx
      · rcases List.mem_or_eq_of_mem_set hx with hx | hx
        · exact hx
        · rw [hx]; exact List.mem_of_getElem? hj
      · rw [hx]; exact List.mem_of_getElem? hi

/-- **C341** (closed).  Every chromosome of a run with `c` colours has the length of the solution and colours below `c`; no
operator fails on such chromosomes, if they are not empty. -/
theorem C341_closed (c n : Nat) (hc : 0 < c) {x : List Int} (h : Reach c n x) :
    x.length = n ∧ (∀ v ∈ x, 0 ≤ v ∧ v < c) ∧ ∀ r : Nat → Nat, (0 < n → ∃ x', mutation r c x = .ok x') ∧
      ∀ y : List Int, y.length = n → ∃ z, xover r x y = .ok z := by
  have main : x.length = n ∧ ∀ v ∈ x, 0 ≤ v ∧ v < c := by
    induction h with
    | init r =>
      refine ⟨by simp [initChrom], fun v hv => ?_⟩
      unfold initChrom at hv
      rw [List.mem_map] at hv
      obtain ⟨t, _, rfl⟩ := hv
      exact rnd_color r t c hc
    | @mutation x x' r _ he ih =>
      unfold mutation at he
      split at he
      · unfold wr at he
        split at he
        · have := Except.ok.inj he
          subst this
          refine ⟨by simpa using ih.1, fun v hv => ?_⟩
          rcases List.mem_or_eq_of_mem_set hv with hv | hv
          · exact ih.2 v hv
          · rw [hv]; exact rnd_color r 1 c hc
        · simp at he
      · obtain ⟨e1, e2⟩ := swapL_mem he
        exact ⟨e1.trans ih.1, fun v hv => ih.2 v (e2 v hv)⟩
    | @left x y x' y' r _ _ he ih1 ih2 =>
      unfold xover at he
      dsimp only at he
      split at he
      · simp at he
      · rename_i hk
        have := Prod.mk.inj (Except.ok.inj he)
        rw [← this.1]
        refine ⟨?_, fun v hv => ?_⟩
        · rw [List.length_append, List.length_take, List.length_drop, ih1.1, ih2.1]
          have : rnd r 0 n ≤ n := by unfold rnd; split; · omega
                                     · exact (Nat.mod_lt _ (by omega)).le
          omega
        · rcases List.mem_append.1 hv with hv | hv
          · exact ih2.2 v (List.mem_of_mem_take hv)
          · exact ih1.2 v (List.mem_of_mem_drop hv)
    | @right x y x' y' r _ _ he ih1 ih2 =>
      unfold xover at he
      dsimp only at he
      split at he
      · simp at he
      · rename_i hk
        have := Prod.mk.inj (Except.ok.inj he)
        rw [← this.2]
        refine ⟨?_, fun v hv => ?_⟩
        · rw [List.length_append, List.length_take, List.length_drop, ih1.1, ih2.1]
          have : rnd r 0 n ≤ n := by unfold rnd; split; · omega
                                     · exact (Nat.mod_lt _ (by omega)).le
          omega
        · rcases List.mem_append.1 hv with hv | hv
          · exact ih1.2 v (List.mem_of_mem_take hv)
          · exact ih2.2 v (List.mem_of_mem_drop hv)
  refine ⟨main.1, main.2, fun r => ⟨fun hn => ?_, fun y hy => ?_⟩⟩
  · have hlt : ∀ t, rnd r t x.length < x.length := by
      intro t; unfold rnd; rw [if_neg (by omega)]; exact Nat.mod_lt _ (by omega)
    unfold mutation
    split
    · unfold wr
      rw [if_pos (hlt 2)]
      exact ⟨_, rfl⟩
    · unfold swapL rd
      rw [List.getElem?_eq_getElem (hlt 1), List.getElem?_eq_getElem (hlt 2)]
      exact ⟨_, rfl⟩
  · unfold xover
    dsimp only
    rw [if_neg]
    · exact ⟨_, rfl⟩
    · have : rnd r 0 x.length ≤ x.length := by
        unfold rnd; split; · omega
        · exact (Nat.mod_lt _ (by omega)).le
      rw [hy, ← main.1]; omega

/-- **C341** (crossover).  Crossing exchanges the colours before some position, never all of them, so at each position the
two children have the two colours of the parents, and the last position is always kept. -/
theorem C341_crossover (r : Nat → Nat) (x y x' y' : List Int) (hl : x.length = y.length)
    (h : xover r x y = .ok (x', y')) : ∃ k, (k < x.length ∨ x = []) ∧ x'.length = x.length ∧ y'.length = y.length ∧
      ∀ i < x.length, (i < k → x'[i]? = y[i]? ∧ y'[i]? = x[i]?) ∧ (k ≤ i → x'[i]? = x[i]? ∧ y'[i]? = y[i]?) := by
  unfold xover at h
  dsimp only at h
  split at h
  · simp at h
  · obtain ⟨rfl, rfl⟩ := Prod.mk.inj (Except.ok.inj h)
    have hk : rnd r 0 x.length ≤ x.length ∧ (rnd r 0 x.length < x.length ∨ x = []) := by
      unfold rnd
      split
      · rename_i h0; exact ⟨by omega, .inr (List.length_eq_zero_iff.1 h0)⟩
      · exact ⟨(Nat.mod_lt _ (by omega)).le, .inl (Nat.mod_lt _ (by omega))⟩
    generalize rnd r 0 x.length = k at hk
    refine ⟨k, hk.2, ?_, ?_, fun i hi => ⟨fun hik => ?_, fun hik => ?_⟩⟩
    · simp; omega
    · simp; omega
    · rw [List.getElem?_append_left (by simp; omega), List.getElem?_append_left (by simp; omega),
        List.getElem?_take_of_lt hik, List.getElem?_take_of_lt hik]
      exact ⟨rfl, rfl⟩
    · rw [List.getElem?_append_right (by simp; omega), List.getElem?_append_right (by simp; omega),
        List.getElem?_drop, List.getElem?_drop, List.length_take, List.length_take, Nat.min_eq_left (by omega),
        Nat.min_eq_left (by omega), Nat.add_sub_cancel' hik]
      exact ⟨rfl, rfl⟩

/-- **C341** (accepted).  Which solutions given by the user are accepted, for at most ten colours: the length is checked
only if the length asked for is not 8, and the colours only if their number is not 8, and then a colour equal to the
number of colours, one too high, passes. -/
theorem C341_accepted (r : Nat → Nat) (c l : Nat) (s : List Char) (hd : s ≠ defaultSolution) (hs : s ≠ [])
    (hdig : ∀ x ∈ s, 0 ≤ digit x ∧ digit x < 2 ^ 32) (hc : c ≤ 10) :
    initSolution r c l s = (if (l = 8 ∨ s.length = l) ∧ (c = 8 ∨ ∀ x ∈ s, digit x ≤ c) then .ok (s.map digit)
      else .error .thrown) := by
  have hmax : ∀ (s : List Char) (m : Int), (∀ x ∈ s, 0 ≤ digit x ∧ digit x < 2 ^ 32) → 0 ≤ m → m < 2 ^ 32 →
      0 ≤ s.foldl (fun m x => max m (digit x)) m ∧ s.foldl (fun m x => max m (digit x)) m < 2 ^ 32 ∧
      (s.foldl (fun m x => max m (digit x)) m ≤ c ↔ m ≤ c ∧ ∀ x ∈ s, digit x ≤ c) := by
    intro s
    induction s with
    | nil => intro m _ h1 h2; simp; exact ⟨h1, h2⟩
    | cons y s ih =>
      intro m h h1 h2
      have hy := h y (by simp)
      obtain ⟨a, b, d⟩ := ih (max m (digit y)) (fun x hx => h x (List.mem_cons_of_mem _ hx)) (by omega) (by omega)
      refine ⟨a, b, ?_⟩
      rw [List.foldl_cons, d]
      simp only [List.mem_cons, forall_eq_or_imp]
      constructor
      · rintro ⟨e, f⟩; exact ⟨by omega, by omega, f⟩
      · rintro ⟨e, f, g⟩; exact ⟨by omega, g⟩
  unfold initSolution
  dsimp only
  rw [if_pos hd, if_pos hc]
  unfold check
  by_cases h1 : l ≠ 8 ∧ s.length ≠ l
  · rw [if_pos h1, if_neg]
    rintro ⟨h | h, _⟩
    · exact h1.1 h
    · exact h1.2 h
  · rw [if_neg h1]
    have h1' : l = 8 ∨ s.length = l := by
      by_cases h : l = 8
      · exact .inl h
      · exact .inr (by by_contra e; exact h1 ⟨h, e⟩)
    by_cases h2 : c = 8
    · rw [if_neg (by simp [h2]), if_pos ⟨h1', .inl h2⟩]
    · rw [if_pos h2]
      cases s with
      | nil => exact absurd rfl hs
      | cons y s =>
        unfold maxDigit
        have hy := hdig y (by simp)
        obtain ⟨a, b, d⟩ := hmax s (digit y) (fun x hx => hdig x (List.mem_cons_of_mem _ hx)) hy.1 hy.2
        dsimp only
        have hu : toUnsigned (s.foldl (fun m x => max m (digit x)) (digit y)) =
            (s.foldl (fun m x => max m (digit x)) (digit y)).toNat := by
          unfold toUnsigned
          rw [Int.emod_eq_of_lt a b]
        rw [hu]
        have iff : (∀ x ∈ y :: s, digit x ≤ c) ↔ s.foldl (fun m x => max m (digit x)) (digit y) ≤ c := by
          rw [d]; simp
        by_cases h3 : s.foldl (fun m x => max m (digit x)) (digit y) ≤ c
        · rw [if_neg (by omega), if_pos ⟨h1', .inr (iff.2 h3)⟩]
        · rw [if_pos (by omega), if_neg]
          rintro ⟨_, h | h⟩
          · exact h2 h
          · exact h3 (iff.1 h)

/-- **C341** (unreachable).  If the solution has a colour that is not below the number of colours, no chromosome of the run
ever reaches the fitness of the solution, at which the run would stop. -/
theorem C341_unreachable (c : Nat) (s : List Int) (hc : 0 < c) (hs : ∀ x ∈ s, 0 ≤ x) (hbad : ∃ x ∈ s, (c : Int) ≤ x)
    {g : List Int} (h : Reach c s.length g) :
    ∃ f best, evaluator s g = .ok f ∧ evaluator s s = .ok best ∧ f < best := by
  obtain ⟨h1, h2, _⟩ := C341_closed c s.length hc h
  obtain ⟨e1, f, e2, e3, e4⟩ := C340_optimum g s h1 hs (fun x hx => (h2 x hx).1)
  refine ⟨f, _, e2, e1, lt_of_le_of_ne e3 fun e => ?_⟩
  have := e4.1 e
  subst this
  obtain ⟨x, hx, hcx⟩ := hbad
  have := (h2 x hx).2
  omega

/-- **C341** (reachable).  A solution of colours below the number of colours is reached by the initialiser already. -/
theorem C341_reachable (c : Nat) (s : List Int) (hs : ∀ x ∈ s, 0 ≤ x ∧ x < c) : Reach c s.length s := by
  have : initChrom (fun t => (s.getD t 0).toNat) c s.length = s := by
    unfold initChrom
    apply List.ext_getElem
    · simp
    · intro i h1 h2
      have hb := hs s[i] (List.getElem_mem h2)
      simp only [List.getElem_map, List.getElem_range]
      unfold rnd
      rw [if_neg (by omega)]
      dsimp only
      rw [List.getD_eq_getElem _ _ h2, Nat.mod_eq_of_lt (by omega)]
      omega
  rw [← this]
  simpa [initChrom] using Reach.init (c := c) (n := s.length) (fun t => (s.getD t 0).toNat)

/-- **C341** (ignored).  The default solution given with another number of colours or another length is replaced by a random
one, and with more than ten colours every solution is. -/
theorem C341_ignored (r : Nat → Nat) (c l : Nat) :
    ((l ≠ 8 ∨ c ≠ 8) → initSolution r c l defaultSolution = .ok ((List.range l).map fun t => (rnd r t c : Int))) ∧
    (10 < c → ∀ s sol, initSolution r c l s = .ok sol → sol = (List.range l).map fun t => (rnd r t c : Int)) := by
  constructor
  · intro h
    unfold initSolution
    dsimp only
    rw [if_neg (by simp)]
    by_cases hc : c ≤ 10
    · rw [if_pos ⟨h, hc⟩]
    · rw [if_neg (fun e => hc e.2), if_neg hc]
  · intro hc s sol h
    unfold initSolution at h
    dsimp only at h
    by_cases hs : s ≠ defaultSolution
    · rw [if_pos hs] at h
      cases hk : check c l s with
      | error e => rw [hk] at h; simp at h
      | ok u => rw [hk] at h; dsimp only at h; rw [if_neg (by omega)] at h; exact (Except.ok.inj h).symm
    · rw [if_neg hs, if_neg (fun e => by omega), if_neg (by omega)] at h
      exact (Except.ok.inj h).symm

/-- Three colours asked for and a solution with colour 3: accepted, and never found. -/
example : initSolution (fun _ => 0) 3 2 ['3', '0'] = .ok [3, 0] ∧ initSolution (fun _ => 0) 3 2 ['4', '0'] = .error .thrown ∧
    initSolution (fun _ => 0) 3 8 ['1', '0'] = .ok [1, 0] := by decide +kernel

example {g : List Int} (h : Reach 3 2 g) : ∃ f best, evaluator [3, 0] g = .ok f ∧ evaluator [3, 0] [3, 0] = .ok best ∧ f < best :=
  C341_unreachable 3 [3, 0] (by omega) (by simp) ⟨3, by simp, by omega⟩ h

end Paradiseo.Mastermind
