/-
More on C49, C73, C75 and C76: elitism over generations, the scores of EP tournaments, what weak elitism
saves, who is killed.
-/
import Verif.Props.EOReplacementOps

namespace Paradiseo.EO

variable {α F : Type} [LinearOrder F]

/-! ### C49: elitism around generational replacement, over generations -/

/-- Successive generations, each with its offspring. -/
def elitistRun (f : α → F) : List (List α) → List α → Except Err (List α)
  | [], pop => .ok pop
  | o :: os, pop =>
    match weakElitist f generational pop o with
    | .error e => .error e
    | .ok (pop', _) => elitistRun f os pop'

/-- C49: around generational replacement, over any number of generations: no fitness ever seen is lost,
and the last population is the last offspring, but for at most one individual. -/
theorem C49_generational_run (f : α → F) (gens : List (List α)) (hg : ∀ o ∈ gens, o ≠ [])
    (pop : List α) (hpop : pop ≠ []) :
    ∃ final, elitistRun f gens pop = .ok final ∧ final ≠ [] ∧
      (∀ p ∈ pop, ∃ q ∈ final, f p ≤ f q) ∧ (∀ o ∈ gens, ∀ p ∈ o, ∃ q ∈ final, f p ≤ f q) ∧
      (gens = [] → final = pop) ∧
      ∀ last, gens.getLast? = some last → ∃ (i : Nat) (c : α), final = last ∨ final = last.set i c := by
  induction gens generalizing pop with
  | nil =>
    exact ⟨pop, rfl, hpop, fun p hp => ⟨p, hp, le_rfl⟩, by simp, fun _ => rfl, by simp⟩
  | cons o os ih =>
    have ho : o ≠ [] := hg o (by simp)
    obtain ⟨res, h1, h2, h3, h4, h5, h6⟩ := C49_weak_elitism f generational pop o o pop hpop rfl ho
    have hne : res ≠ [] := by
      rintro rfl
      exact ho (List.eq_nil_of_length_eq_zero h2.symm)
    obtain ⟨final, g1, g2, g3, g4, g5, g6⟩ := ih (fun o' ho' => hg o' (by simp [ho'])) res hne
    have trans : ∀ l : List α, (∀ p ∈ l, ∃ q ∈ res, f p ≤ f q) → ∀ p ∈ l, ∃ q ∈ final, f p ≤ f q := by
      intro l hl p hp
      obtain ⟨q, hq, hpq⟩ := hl p hp
      obtain ⟨q', hq', hqq'⟩ := g3 q hq
      exact ⟨q', hq', hpq.trans hqq'⟩
    refine ⟨final, by simp only [elitistRun, h1, g1], g2, trans _ h3, ?_, by simp, ?_⟩
    · intro o' ho'
      rcases List.mem_cons.1 ho' with rfl | ho'
      · exact trans _ h4
      · exact g4 o' ho'
    · intro last hl
      cases os with
      | nil =>
        simp only [List.getLast?_singleton, Option.some.injEq] at hl
        subst hl
        rw [g5 rfl]
        by_cases hq : ∃ q ∈ o, ∀ p ∈ pop, f p ≤ f q
        · obtain ⟨c, _⟩ := List.exists_mem_of_ne_nil o ho
          exact ⟨0, c, Or.inl (h5 hq)⟩
        · obtain ⟨i, champ, _, _, _, _, _, hres⟩ := h6 hq
          exact ⟨i, champ, Or.inr hres⟩
      | cons o2 os =>
        exact g6 last (by simpa using hl)

example : (elitistRun (fun x : Nat => x) [[3, 2], [4, 1]] [7, 1]) = .ok [4, 7] := by decide +kernel

/-! ### C73: the scores of EP tournaments -/

/-- Half points of an individual against an opponent. -/
def halfPoints (f : α → F) (x y : α) : Nat := if f y < f x then 2 else if f x = f y then 1 else 0

theorem epScore_spec (f : α → F) {pop : List α} (hp : 0 < pop.length) (r : Nat → Nat) (x : α)
    (k t : Nat) :
    epScore f pop r (f x) k t = ((List.range k).map fun j =>
      halfPoints f x (pop[r (t + j) % pop.length]'(Nat.mod_lt _ hp))).sum := by
  induction k generalizing t with
  | zero => rfl
  | succ k ih =>
    rw [epScore, List.getElem?_eq_getElem (Nat.mod_lt _ hp), ih, List.range_succ_eq_map]
    simp only [List.map_cons, List.map_map, List.sum_cons, Nat.add_zero, halfPoints]
    congr 3
    funext j
    simp only [Function.comp_apply, halfPoints, Nat.succ_eq_add_one,
      show t + (j + 1) = t + 1 + j by omega]

/-- C73: every individual plays the same number of tournaments (the tournament size, at least two), against
opponents drawn for it alone; it scores two half points for each opponent strictly worse and one for each
equal one.  The reducer keeps the highest scores, ties decided by the fitness. -/
theorem C73_ep_scores (f : α → F) (tSize : Nat) (r : Nat → Nat)
    (nth : Nat → List (Nat × α) → List (Nat × α)) (hn : IsNth (epKey f) nth) {pop : List α}
    (hp : 0 < pop.length) {n : Nat} (hlt : n < pop.length) :
    ∃ kept dropped : List (Nat × α), epReduce f tSize r nth pop n = .ok (kept.map Prod.snd) ∧
      kept.length = n ∧
      (kept ++ dropped).Perm (pop.mapIdx fun i x => (((List.range (max tSize 2)).map fun j =>
        halfPoints f x (pop[r (i * max tSize 2 + j) % pop.length]'(Nat.mod_lt _ hp))).sum, x)) ∧
      ∀ a ∈ kept, ∀ b ∈ dropped, b.1 < a.1 ∨ b.1 = a.1 ∧ f b.2 ≤ f a.2 := by
  have hsc : ∀ (l : List α) (t : Nat), epScores f (max tSize 2) r pop l t =
      l.mapIdx fun i x => (((List.range (max tSize 2)).map fun j =>
        halfPoints f x (pop[r (t + i * max tSize 2 + j) % pop.length]'(Nat.mod_lt _ hp))).sum, x) := by
    intro l
    induction l with
    | nil => intro t; rfl
    | cons x l ih =>
      intro t
      rw [epScores, ih, List.mapIdx_cons, epScore_spec f hp]
      congr 2
      · simp
      · funext i y
        have : t + max tSize 2 + i * max tSize 2 = t + (i + 1) * max tSize 2 := by ring
        rw [this]
  have hs0 := hsc pop 0
  simp only [Nat.zero_add] at hs0
  refine ⟨(nth n (epScores f (max tSize 2) r pop pop 0)).take n,
    (nth n (epScores f (max tSize 2) r pop pop 0)).drop n, ?_, ?_, ?_, ?_⟩
  · simp only [epReduce, if_neg (show ¬ pop.length = n by omega), if_neg (show ¬ pop.length < n by omega)]
  · rw [List.length_take, (hn.perm _ _).length_eq, hs0]
    simp
    omega
  · rw [List.take_append_drop, ← hs0]
    exact hn.perm _ _
  · intro a ha b hb
    have := hn.split _ _ a ha b hb
    simpa [epKey, Prod.Lex.toLex_le_toLex] using this

/-! ### C75: what weak elitism saves -/

theorem toSave_spec (f : α → F) (limit : F) (temp : List α) (ht : temp ≠ []) :
    toSave f limit temp < temp.length ∧ (∀ a ∈ temp.take (toSave f limit temp), limit < f a) ∧
    (toSave f limit temp + 1 < temp.length →
      ∃ b, temp[toSave f limit temp]? = some b ∧ f b ≤ limit) := by
  induction temp with
  | nil => exact absurd rfl ht
  | cons x l ih =>
    cases l with
    | nil => simp [toSave]
    | cons y l =>
      obtain ⟨h1, h2, h3⟩ := ih (by simp)
      rw [toSave]
      split
      · rename_i hx
        refine ⟨by simp at h1 ⊢; omega, ?_, ?_⟩
        · intro a ha
          rw [List.take_succ_cons, List.mem_cons] at ha
          rcases ha with rfl | ha
          · exact hx
          · exact h2 a ha
        · intro hlt
          rw [List.getElem?_cons_succ]
          exact h3 (by simp at hlt ⊢; omega)
      · rename_i hx
        exact ⟨by simp, by simp, fun _ => ⟨x, by simp, not_lt.mp hx⟩⟩

theorem saveLoop_spec (elite : List α) (n : Nat) (k : Nat) (hk : k ≤ elite.length) (pop : List α)
    (hp : pop.length = n) (hkn : k ≤ n) :
    saveLoop elite n k pop = pop.take (n - k) ++ (elite.take k).reverse := by
  induction k with
  | zero => rw [saveLoop, Nat.sub_zero, ← hp, List.take_length]; simp
  | succ k ih =>
    have hlt : k < elite.length := by omega
    rw [saveLoop, List.getElem?_eq_getElem hlt]
    simp only
    rw [ih (by omega) (by omega), List.take_succ_eq_append_getElem hlt, List.reverse_append]
    have hlen : (pop.take (n - k)).length = n - k := by simp [hp]
    rw [List.set_append_left _ _ (by rw [hlen]; omega)]
    have hsplit : pop.take (n - k) = pop.take (n - (k + 1)) ++ [pop[n - (k + 1)]] := by
      rw [show n - k = n - (k + 1) + 1 by omega, List.take_succ_eq_append_getElem (by omega)]
    rw [hsplit, List.set_append_right _ _ (by simp [hp]; omega)]
    have hz : n - 1 - k - (pop.take (n - (k + 1))).length = 0 := by simp [hp]; omega
    rw [hz]
    simp

/-- C75, weak elitism in general.  The elite (as many best parents as asked for) is compared, in the order
in which they were left, with the individual at place `elite` of the sorted new population: those strictly
better replace the worst individuals, up to the first that is not better; the last of the elite is never
considered.  What the replacement gives is otherwise kept, in particular its best. -/
theorem C75_weak_saves (f : α → F) (nth : Nat → List α → List α) (hn : IsNth f nth)
    (sort : List α → List α) (hs : IsSort f sort)
    (hElite hParents hOffspring : HowMany) (redP redO redF : Reducer α)
    (hP : Exact redP) (hO : Exact redO) (hF : Exact redF) (parents offspring res off' : List α)
    (elite : Nat) (he : hElite.eval parents.length = .ok elite) (h0 : elite ≠ 0)
    (h : reduceMergeReduce f nth sort hElite false hParents hOffspring redP redO redF
      parents offspring = .ok (res, off')) :
    ∃ (best rest merged : List α) (limit : α) (c : Nat), best.length = elite ∧ (best ++ rest).Perm parents ∧
      (∀ a ∈ best, ∀ b ∈ rest, f b ≤ f a) ∧
      merged.Subperm (rest ++ offspring) ∧ merged.length = parents.length ∧
      merged.Pairwise (fun a b => f b ≤ f a) ∧ merged[elite - 1]? = some limit ∧
      res = merged.take (parents.length - c) ++ (best.take c).reverse ∧
      c < elite ∧ (∀ a ∈ best.take c, f limit < f a) ∧
      (c + 1 < elite → ∃ b, best[c]? = some b ∧ f b ≤ f limit) ∧
      ∀ m ∈ merged, ∃ q ∈ res, f m ≤ f q := by
  obtain ⟨elite', sorted, par, par2, h1, h2, h3, h4, h5, h6, h7, h8⟩ :=
    rmr_steps f nth sort hElite false hParents hOffspring redP redO redF hP hO hF _ _ _ _ h
  rw [h1] at he
  cases he
  rw [if_neg h0] at h3
  rcases h8 with ⟨_, hst, _⟩ | ⟨h0', _⟩ | ⟨_, _, g1, limit, g2, g3⟩
  · cases hst
  · exact absurd h0' h0
  · have hlen : (sorted.take elite).length = elite := by
      rw [List.length_take, h3, (hn.perm _ _).length_eq]; omega
    have hne : sorted.take elite ≠ [] := by
      intro hnil
      rw [hnil] at hlen
      exact h0 hlen.symm
    obtain ⟨t1, t2, t3⟩ := toSave_spec f (f limit) (sorted.take elite) hne
    rw [hlen] at t1 t3
    have hml : (sort par2).length = parents.length := by rw [(hs.perm _).length_eq, g1]
    rw [saveLoop_spec _ _ _ (by omega) _ hml (by omega)] at g3
    refine ⟨sorted.take elite, sorted.drop elite, sort par2, limit, _, hlen, ?_, ?_, ?_, hml,
      hs.sorted _, g2, g3, t1, t2, t3, ?_⟩
    · rw [List.take_append_drop, h3]; exact hn.perm _ _
    · rw [h3]; exact hn.split _ _
    · exact (hs.perm _).subperm.trans (h7.trans (List.Subperm.append h4 h5))
    · intro m hm
      have hs2 := hs.sorted par2
      cases hsp : sort par2 with
      | nil => rw [hsp] at hm; simp at hm
      | cons top tl =>
        rw [hsp] at hm hs2 g3
        rw [List.pairwise_cons] at hs2
        refine ⟨top, ?_, ?_⟩
        · rw [g3]
          rw [show parents.length - toSave f (f limit) (sorted.take elite) =
            (parents.length - toSave f (f limit) (sorted.take elite) - 1) + 1 by omega]
          simp
        · rcases List.mem_cons.1 hm with rfl | hm
          · exact le_rfl
          · exact hs2.1 m hm

/-- Three elites asked for; 8 and 9 are saved, 7 is not considered. -/
example : reduceMergeReduce (fun x : Nat => x) (fun _ l => l)
    (fun l => l) ⟨0, 3⟩ false ⟨1, 0⟩
    ⟨1, 0⟩ (linearTruncate fun x => x) (linearTruncate fun x => x) (linearTruncate fun x => x)
    [9, 8, 7, 1] [5, 4, 3, 2] = .ok ([5, 4, 8, 9], [5, 4, 3, 2]) := by
  decide +kernel

/-! ### C76: who dies -/

/-- C76: the population is split into the survivors (the number asked for, the best), the remaining ones,
and the dead: the number asked for of the worst, or all that are not survivors if there are fewer. -/
theorem C76_who_dies (f : α → F) (n1 n2 : Nat → List α → List α) (hn1 : IsNth f n1) (hn2 : IsNth f n2)
    (hS hD : HowMany) (pop : List α) (s d : Nat) (hs : hS.eval pop.length = .ok s)
    (hd : hD.eval pop.length = .ok d) (hle : s ≤ pop.length) :
    ∃ rest lucky dead, surviveAndDie n1 n2 hS hD pop = .ok (rest, lucky) ∧
      (lucky ++ rest ++ dead).Perm pop ∧ lucky.length = s ∧ dead.length = min d (pop.length - s) ∧
      (∀ a ∈ lucky, ∀ b ∈ rest ++ dead, f b ≤ f a) ∧ ∀ a ∈ rest, ∀ b ∈ dead, f b ≤ f a := by
  unfold surviveAndDie
  simp only [hs, hd, if_neg (not_lt.mpr hle)]
  set sorted := (if s = 0 then pop else n1 s pop) with hsorted
  have hperm : sorted.Perm pop := by
    rw [hsorted]; split
    · exact List.Perm.refl _
    · exact hn1.perm _ _
  have hsplit : ∀ a ∈ sorted.take s, ∀ b ∈ sorted.drop s, f b ≤ f a := by
    rw [hsorted]; split
    · next h0 => simp [h0]
    · exact hn1.split _ _
  have hl : (sorted.take s).length = s := by
    rw [List.length_take, hperm.length_eq]; omega
  have hr : (sorted.drop s).length = pop.length - s := by rw [List.length_drop, hperm.length_eq]
  have hnot : ¬ (sorted.drop s).length < min d (pop.length - s) := by rw [hr]; omega
  rw [if_neg hnot]
  split
  · rename_i h0
    refine ⟨_, _, [], rfl, ?_, hl, by simp [h0], by simpa using hsplit, by simp⟩
    simpa [List.take_append_drop] using hperm
  · set m := (sorted.drop s).length - min d (pop.length - s) with hm
    refine ⟨_, _, (n2 m (sorted.drop s)).drop m, rfl, ?_, hl, ?_, ?_, hn2.split _ _⟩
    · rw [List.append_assoc, List.take_append_drop]
      refine (List.Perm.append_left _ (hn2.perm _ _)).trans ?_
      rw [List.take_append_drop]
      exact hperm
    · rw [List.length_drop, (hn2.perm _ _).length_eq]
      omega
    · intro a ha b hb
      rw [List.take_append_drop] at hb
      exact hsplit a ha b ((hn2.perm _ _).mem_iff.mp hb)

example : surviveAndDie (fun _ l => l) (fun _ l => l) ⟨0, 1⟩ ⟨0, 5⟩ [9, 5, 1] = .ok ([], [9]) := by
  decide +kernel

end Paradiseo.EO
