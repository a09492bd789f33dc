/-
Property C389: a hill climber on random MAX-k-SAT ends with at least k of k+1 clauses satisfied.
-/
import Verif.Props.LongPathClimb
import Verif.Props.Instances

namespace Paradiseo.LS
open Paradiseo.IncrEval Finset

/-- Flipping the bits of a clause one after the other: an unsatisfied clause is repaired by each of its variables, a satisfied
one is lost by at most one. -/
theorem clause_total (n : Nat) (c : List Int) (x : Nat → Bool) (h0 : ∀ l ∈ c, l ≠ 0) (hn : ∀ l ∈ c, litVar l < n)
    (hd : (c.map litVar).Nodup) :
    (if clauseEval c x then -1 else (c.length : Int)) ≤ ∑ b ∈ range n, clauseDelta c x b := by
  by_cases hs : clauseEval c x = true
  · rw [if_pos hs]
    obtain ⟨l, hl, hlt⟩ := List.any_eq_true.1 (clauseEval_eq_any c x ▸ hs)
    have hother : ∀ b, b ≠ litVar l → 0 ≤ clauseDelta c x b := by
      intro b hb
      have : clauseEval c (Paradiseo.IncrEval.flip x b) = true := by
        rw [clauseEval_eq_any, List.any_eq_true]
        exact ⟨l, hl, by rw [litEval_flip_other x l b (h0 l hl) (Ne.symm hb)]; exact hlt⟩
      simp [clauseDelta, this, hs]
    have hself : -1 ≤ clauseDelta c x (litVar l) := by
      unfold clauseDelta b2i
      split_ifs <;> simp
    rw [← Finset.add_sum_erase _ _ (Finset.mem_range.2 (hn l hl))]
    have := Finset.sum_nonneg (s := (range n).erase (litVar l)) (f := fun b => clauseDelta c x b)
      (fun b hb => hother b (Finset.ne_of_mem_erase hb))
    omega
  · rw [if_neg hs]
    have hs' : clauseEval c x = false := by simpa using hs
    have hall : ∀ l ∈ c, litEval x l = false := by
      intro l hl
      by_contra h
      exact hs (by rw [clauseEval_eq_any, List.any_eq_true]; exact ⟨l, hl, by simpa using h⟩)
    have hnon : ∀ b, 0 ≤ clauseDelta c x b := by
      intro b; unfold clauseDelta b2i; rw [hs']; split_ifs <;> simp_all
    have hone : ∀ b ∈ (c.map litVar).toFinset, clauseDelta c x b = 1 := by
      intro b hb
      obtain ⟨l, hl, rfl⟩ := List.mem_map.1 (List.mem_toFinset.1 hb)
      have : clauseEval c (Paradiseo.IncrEval.flip x (litVar l)) = true := by
        rw [clauseEval_eq_any, List.any_eq_true]
        exact ⟨l, hl, by rw [litEval_flip_self x l _ (h0 l hl) rfl, hall l hl]; rfl⟩
      simp [clauseDelta, this, hs', b2i]
    have hsub : (c.map litVar).toFinset ⊆ range n := by
      intro b hb
      obtain ⟨l, hl, rfl⟩ := List.mem_map.1 (List.mem_toFinset.1 hb)
      exact Finset.mem_range.2 (hn l hl)
    calc (c.length : Int) = ∑ b ∈ (c.map litVar).toFinset, clauseDelta c x b := by
          rw [Finset.sum_congr rfl hone, Finset.sum_const, List.toFinset_card_of_nodup hd]
          simp
      _ ≤ _ := Finset.sum_le_sum_of_subset_of_nonneg hsub fun b _ _ => hnon b

/-- A local optimum satisfies at least `k` of `k + 1` clauses. -/
theorem local_opt_sat (n k : Nat) (cs : List (List Int)) (hk : ∀ c ∈ cs, c.length = k) (h0 : ∀ c ∈ cs, ∀ l ∈ c, l ≠ 0)
    (hn : ∀ c ∈ cs, ∀ l ∈ c, litVar l < n) (hd : ∀ c ∈ cs, (c.map litVar).Nodup) (x : Nat → Bool)
    (hopt : ∀ b < n, maxSatFull cs (Paradiseo.IncrEval.flip x b) ≤ maxSatFull cs x) :
    (k : Int) * cs.length ≤ (k + 1) * maxSatFull cs x := by
  have key : ∀ cs : List (List Int), (∀ c ∈ cs, c.length = k) → (∀ c ∈ cs, ∀ l ∈ c, l ≠ 0) →
      (∀ c ∈ cs, ∀ l ∈ c, litVar l < n) → (∀ c ∈ cs, (c.map litVar).Nodup) →
      (k : Int) * cs.length - (k + 1) * maxSatFull cs x ≤ ∑ b ∈ range n, (cs.map fun c => clauseDelta c x b).sum := by
    intro cs
    induction cs with
    | nil => intros; simp [maxSatFull]
    | cons c cs ih =>
      intro a1 a2 a3 a4
      have i1 := ih (fun c h => a1 c (List.mem_cons_of_mem _ h)) (fun c h => a2 c (List.mem_cons_of_mem _ h))
        (fun c h => a3 c (List.mem_cons_of_mem _ h)) (fun c h => a4 c (List.mem_cons_of_mem _ h))
      have i2 := clause_total n c x (a2 c (by simp)) (a3 c (by simp)) (a4 c (by simp))
      rw [a1 c (by simp)] at i2
      simp only [List.map_cons, List.sum_cons, Finset.sum_add_distrib, List.length_cons]
      rw [maxSatFull_eq] at i1 ⊢
      simp only [List.map_cons, List.sum_cons]
      push_cast
      generalize (cs.map fun c => b2i (clauseEval c x)).sum = w at i1 ⊢
      cases hc : clauseEval c x <;> simp only [hc, b2i, if_true, if_false, Bool.false_eq_true] at i2 ⊢ <;> linarith
  have h := key cs hk h0 hn hd
  have : ∑ b ∈ range n, (cs.map fun c => clauseDelta c x b).sum ≤ 0 := by
    apply Finset.sum_nonpos
    intro b hb
    have := hopt b (Finset.mem_range.1 hb)
    rw [maxSatFull_flip] at this
    omega
  linarith

theorem maxSat_range (cs : List (List Int)) (x : Nat → Bool) : 0 ≤ maxSatFull cs x ∧ maxSatFull cs x ≤ cs.length := by
  rw [maxSatFull_eq]
  induction cs with
  | nil => simp
  | cons c cs ih =>
    simp only [List.map_cons, List.sum_cons, List.length_cons]
    have : 0 ≤ b2i (clauseEval c x) ∧ b2i (clauseEval c x) ≤ 1 := by unfold b2i; split_ifs <;> simp
    push_cast
    omega

/-- C389: on an instance of the random constructor with `k` literals in each of `m` clauses the climbers stop after at most
`m + 1` iterations with at least `k m / (k + 1)` clauses satisfied. -/
theorem C389_sat (n k : Nat) (draws : List (List (Nat × Bool))) (cs : List (List Int))
    (hd : ∀ ds ∈ draws, Paradiseo.Inst.Below n 0 (ds.map (·.1)) ∧ ds.length ≤ n) (hk : ∀ ds ∈ draws, ds.length = k)
    (hcs : Paradiseo.Inst.satRandom n draws = .ok cs)
    (nb : Nat → (Nat → Bool) × Int → List (Cand Nat Int))
    (hnb : ∀ t x, ∃ keys : List Nat, (∀ i, i ∈ keys ↔ i < n) ∧
      nb t (x, maxSatFull cs x) = keys.map fun i => ⟨i, maxSatFull cs (flipBitAt i x)⟩)
    (r : Nat → Nat) (ex : Explorer ((Nat → Bool) × Int) (HC Nat Int))
    (hex : ex = simpleHC nb flipBitAt ∨ ex = firstHC false nb flipBitAt ∨ ex = randomBestHC r nb flipBitAt)
    (x : Nat → Bool) (e : HC Nat Int) (fuel : Nat) (hf : draws.length < fuel) :
    ∃ y v tr, localSearch (maxSatFull cs) ex (fun (_ : Unit) _ => (true, ())) (fun _ => ()) fuel x none e =
        some ((y, v), tr, true) ∧ v = maxSatFull cs y ∧ (k : Int) * draws.length ≤ (k + 1) * v ∧
      tr.length ≤ draws.length + 1 := by
  obtain ⟨cs', e1, hall⟩ := Paradiseo.Inst.C214_sat_random n draws hd
  rw [hcs] at e1
  cases e1
  have hlen : cs.length = draws.length := hall.length_eq.symm
  have hgood : ∀ c ∈ cs, c.length = k ∧ (c.map Int.natAbs).Nodup ∧ ∀ l ∈ c, 1 ≤ l.natAbs ∧ l.natAbs ≤ n := by
    clear hcs hd hnb hlen hf
    induction hall with
    | nil => intro c hc; exact nomatch hc
    | cons h _ ih =>
      intro c hc
      rcases List.mem_cons.1 hc with rfl | hc
      · exact ⟨h.1.trans (hk _ (by simp)), h.2.1, h.2.2.1⟩
      · exact ih (fun ds hds => hk ds (List.mem_cons_of_mem _ hds)) c hc
  have hinv : ∃ inv, Climbs ex nb flipBitAt inv ∧ (∀ s e, ex.isContinue s e = e.isAccept) ∧
      (∀ s e, ex.terminate s e = s) ∧ (∀ s e, inv (ex.initParam s e)) := by
    rcases hex with rfl | rfl | rfl
    · exact ⟨_, simpleHC_climbs nb _, fun _ _ => rfl, fun _ _ => rfl, fun _ _ => trivial⟩
    · exact ⟨_, firstHC_climbs false nb _, fun _ _ => rfl, fun _ _ => rfl, fun _ _ => trivial⟩
    · exact ⟨_, randomBestHC_climbs r nb _, fun _ _ => rfl, fun _ _ => rfl, fun _ _ => rfl⟩
  obtain ⟨inv, hc, hcont, hterm, hinit⟩ := hinv
  obtain ⟨l, ⟨y, v⟩, e', u, hl, hql, g, hno, hll⟩ := climb_bounded hc hcont (fun p => p.2 = maxSatFull cs p.1)
    (fun p => ((cs.length : Int) - p.2).toNat)
    (by
      rintro ⟨y, v⟩ t hv c hcm hlt
      simp only at hv
      subst hv
      obtain ⟨keys, -, hn⟩ := hnb t y
      rw [hn] at hcm
      obtain ⟨b, -, rfl⟩ := List.mem_map.1 hcm
      refine ⟨rfl, ?_⟩
      have := maxSat_range cs (flipBitAt b y)
      simp only at hlt ⊢
      omega)
    fuel 0 (x, maxSatFull cs x) (ex.initParam (x, maxSatFull cs x) e) (hinit _ _) rfl (by
      have := maxSat_range cs x
      simp only; omega)
  simp only at g
  subst g
  refine ⟨y, _, l, ?_, rfl, ?_, ?_⟩
  · simp only [localSearch, Option.getD_none, hl, Option.map_some, hterm]
    rw [List.getLastD_eq_getLast?, hql]
    rfl
  · rw [← hlen]
    refine local_opt_sat n k cs (fun c h => (hgood c h).1) ?_ ?_ ?_ y ?_
    · intro c h l hl h0
      have := (hgood c h).2.2 l hl
      subst h0; simp at this
    · intro c h l hl
      have := (hgood c h).2.2 l hl
      unfold litVar; omega
    · intro c h
      have hn := (hgood c h).2.1
      have e1 : c.map litVar = (c.map Int.natAbs).map (· - 1) := by rw [List.map_map]; rfl
      rw [e1]
      refine List.Nodup.map_on ?_ hn
      intro a ha b hb hab
      obtain ⟨la, h1, rfl⟩ := List.mem_map.1 ha
      obtain ⟨lb, h2, rfl⟩ := List.mem_map.1 hb
      have := (hgood c h).2.2 la h1
      have := (hgood c h).2.2 lb h2
      omega
    · intro b hb
      obtain ⟨keys, hk', hn⟩ := hnb u y
      rw [← flipBitAt_eq]
      exact hno ⟨b, maxSatFull cs (flipBitAt b y)⟩ (by rw [hn]; exact List.mem_map.2 ⟨b, (hk' b).2 hb, rfl⟩)
  · have := maxSat_range cs x
    simp only at hll
    omega

/-- C389: the neighbours evaluated incrementally are such a neighbourhood unless the first clause has a negated variable. -/
theorem C389_incremental (n : Nat) (draws : List (List (Nat × Bool))) (cs : List (List Int))
    (hd : ∀ ds ∈ draws, Paradiseo.Inst.Below n 0 (ds.map (·.1)) ∧ ds.length ≤ n) (hcs : Paradiseo.Inst.satRandom n draws = .ok cs)
    (hfirst : ∀ c, cs.head? = some c → ∀ l ∈ c, 0 < l) (x : Nat → Bool) :
    ((List.range n).map fun i => (⟨i, maxSatIncr cs (entriesOf occRandom cs (i + 1)) x (maxSatFull cs x) i⟩ : Cand Nat Int)) =
      (List.range n).map fun i => ⟨i, maxSatFull cs (flipBitAt i x)⟩ := by
  apply List.map_congr_left
  intro i _
  rw [Paradiseo.Inst.C214_sat_incremental n draws hd cs hcs x i (by
    intro c hc hm
    have := hfirst c hc _ hm
    omega), flipBitAt_eq]

/-- Two clauses of two literals, the first without negation. -/
example : Paradiseo.Inst.satRandom 3 [[(2, false), (0, false)], [(0, false), (1, true)]] = .ok [[3, 1], [2, -1]] ∧
    (∀ ds ∈ ([[(2, false), (0, false)], [(0, false), (1, true)]] : List (List (Nat × Bool))),
      Paradiseo.Inst.Below 3 0 (ds.map (·.1)) ∧ ds.length ≤ 3) ∧
    maxSatFull [[3, 1], [2, -1]] (fun i => i == 0) = 1 := by
  refine ⟨by decide +kernel, ?_, by decide⟩
  simp [Paradiseo.Inst.Below]

end Paradiseo.LS
