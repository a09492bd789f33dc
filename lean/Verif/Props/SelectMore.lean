import Mathlib.Data.Int.CardIntervalMod
import Verif.Model.SelectMore
import Verif.Props.EOReplacement
/-
C333: the selectors that go round the population, take the best, or play a stochastic tournament, and the selection of a
number of individuals with one of them.
-/
namespace Paradiseo.EO

private theorem noSelect_mod (c n : Nat) (hn : 0 < n) (hc : c ≤ n) :
    noSelect c n = .ok (c % n, c % n + 1) := by
  unfold noSelect
  by_cases h : c ≥ n
  · have : c = n := by omega
    subst this
    simp [hn]
  · simp only [if_neg h, if_pos (show c < n by omega), Nat.mod_eq_of_lt (show c < n by omega)]

/-- C333: on populations of `n` individuals the calls return the positions one after the other, beginning again after the
last. -/
theorem C333_round (n : Nat) (hn : 0 < n) (c : Nat) (hc : c ≤ n) (k : Nat) :
    ∃ c', noSelects c (List.replicate k n) = .ok ((List.range k).map (fun j => (c + j) % n), c') ∧ c' ≤ n ∧
      c' % n = (c + k) % n := by
  induction k generalizing c with
  | zero => exact ⟨c, by simp [noSelects], hc, rfl⟩
  | succ k ih =>
    have hlt := Nat.mod_lt c hn
    obtain ⟨c', h1, h2, h3⟩ := ih (c % n + 1) (by omega)
    refine ⟨c', ?_, h2, ?_⟩
    · rw [List.replicate_succ, noSelects, noSelect_mod c n hn hc]
      dsimp only
      rw [h1]
      dsimp only
      rw [List.range_succ_eq_map, List.map_cons, List.map_map]
      congr 4
      funext j
      simp only [Function.comp]
      rw [show c + Nat.succ j = c + (1 + j) from by omega, show c % n + 1 + j = c % n + (1 + j) from by omega,
        Nat.mod_add_mod]
    · rw [h3, show c % n + 1 + k = c % n + (k + 1) from by omega, Nat.mod_add_mod]

/-- C333: so `k` calls from the beginning choose each position `k / n` times, the first `k % n` positions once more. -/
theorem C333_shares (n : Nat) (k i : Nat) (hi : i < n) :
    ∃ l c', noSelects 0 (List.replicate k n) = .ok (l, c') ∧ l.length = k ∧
      l.count i = k / n + if i < k % n then 1 else 0 := by
  obtain ⟨c', h, -, -⟩ := C333_round n (by omega) 0 (by omega) k
  refine ⟨_, c', h, by simp, ?_⟩
  have := Nat.count_modEq_card k (show 0 < n by omega) i
  rw [Nat.mod_eq_of_lt hi] at this
  rw [← this, Nat.count_eq_card_filter_range, List.count, List.countP_map]
  rw [List.countP_eq_length_filter]
  have e : (Finset.range k).filter (fun j => j ≡ i [MOD n]) = ((List.range k).filter (fun j => decide (j ≡ i [MOD n]))).toFinset := by
    ext j; simp
  rw [e, List.toFinset_card_of_nodup ((List.nodup_range).filter _)]
  congr 2
  funext j
  simp [Function.comp, Nat.ModEq, Nat.mod_eq_of_lt hi, Bool.beq_eq_decide_eq]

/-- C333: whatever the sizes of the populations of the calls and wherever the selector stands, each call returns a position
of its own population unless that is empty, which is undefined behaviour; a call on a population not larger than where the
selector stands begins again at the first. -/
theorem C333_sizes (c : Nat) (sizes : List Nat) :
    ((∀ n ∈ sizes, 0 < n) → ∃ l c', noSelects c sizes = .ok (l, c') ∧ List.Forall₂ (· < ·) l sizes) ∧
    (0 ∈ sizes → noSelects c sizes = .error .ub) := by
  induction sizes generalizing c with
  | nil => exact ⟨fun _ => ⟨[], c, rfl, .nil⟩, by simp⟩
  | cons n ns ih =>
    by_cases hn : 0 < n
    · have hs : ∃ i, i < n ∧ noSelect c n = .ok (i, i + 1) := by
        unfold noSelect
        by_cases h : c ≥ n
        · exact ⟨0, hn, by simp [h, hn]⟩
        · exact ⟨c, by omega, by simp [h]⟩
      obtain ⟨i, hi, hs⟩ := hs
      constructor
      · intro h
        obtain ⟨l, c', h1, h2⟩ := (ih (i + 1)).1 (fun m hm => h m (by simp [hm]))
        exact ⟨i :: l, c', by rw [noSelects, hs]; dsimp only; rw [h1], .cons hi h2⟩
      · intro h
        have : 0 ∈ ns := by
          rcases List.mem_cons.1 h with h | h
          · omega
          · exact h
        rw [noSelects, hs]; dsimp only; rw [(ih (i + 1)).2 this]
    · have : n = 0 := by omega
      subst this
      refine ⟨fun h => absurd (h 0 (by simp)) (by omega), fun _ => ?_⟩
      rw [noSelects]; simp [noSelect]

private theorem truncLoop_noSel {α : Type} (src : List α) (hs : src ≠ []) (k c : Nat) (hc : c ≤ src.length) :
    ∃ dest c', truncLoop (noSel α) src k c = .ok (dest, c') ∧ c' ≤ src.length ∧ c' % src.length = (c + k) % src.length ∧
      dest.length = k ∧ ∀ j, j < k → dest[j]? = src[(c + j) % src.length]? := by
  have hn : 0 < src.length := List.length_pos_iff.2 hs
  induction k generalizing c with
  | zero => exact ⟨[], c, rfl, hc, rfl, rfl, by omega⟩
  | succ k ih =>
    have hlt := Nat.mod_lt c hn
    obtain ⟨dest, c', h1, h2, h3, h4, h5⟩ := ih (c % src.length + 1) (by omega)
    refine ⟨src[c % src.length] :: dest, c', ?_, h2, ?_, by simp [h4], ?_⟩
    · rw [truncLoop]
      simp only [noSel, noSelect_mod c _ hn hc, List.getElem?_eq_getElem hlt]
      simp only [noSel] at h1
      rw [h1]
    · rw [h3, show c % src.length + 1 + k = c % src.length + (k + 1) from by omega, Nat.mod_add_mod]
    · intro j hj
      cases j with
      | zero => simp [List.getElem?_eq_getElem hlt]
      | succ j =>
        rw [List.getElem?_cons_succ, h5 j (by omega), show c % src.length + 1 + j = c % src.length + (j + 1) from by omega,
          Nat.mod_add_mod]

/-- C333: selecting a number of individuals with the selector that goes round fills the destination with as many as eoHowMany
asks for, whatever it held: those of the source from where the selector stands, round and round if more are asked for than
there are. The next selection goes on where this one ended. -/
theorem C333_trunc {α : Type} (h : HowMany) (src dest : List α) (hs : src ≠ []) (c : Nat) (hc : c ≤ src.length) (k : Nat)
    (hk : h.eval src.length = .ok k) :
    ∃ out c', truncSelect (noSel α) h src dest c = .ok (out, c') ∧ out.length = k ∧
      (∀ j, j < k → out[j]? = src[(c + j) % src.length]?) ∧ c' ≤ src.length ∧ c' % src.length = (c + k) % src.length := by
  obtain ⟨out, c', h1, h2, h3, h4, h5⟩ := truncLoop_noSel src hs k c hc
  refine ⟨out, c', ?_, h4, h5, h2, h3⟩
  rw [truncSelect, hk]
  exact h1

/-- C333: asking as many as there are, from the beginning, copies the source. -/
theorem C333_copy {α : Type} (src dest : List α) (hs : src ≠ []) :
    ∃ c', truncSelect (noSel α) ⟨1, 0⟩ src dest 0 = .ok (src, c') := by
  have hk : (⟨1, 0⟩ : HowMany).eval src.length = .ok src.length := by
    simp [HowMany.eval]
  obtain ⟨out, c', h1, h2, h3, -, -⟩ := C333_trunc ⟨1, 0⟩ src dest hs 0 (by omega) _ hk
  refine ⟨c', ?_⟩
  rw [h1]
  congr 2
  refine List.ext_getElem? (fun j => ?_)
  by_cases hj : j < src.length
  · rw [h3 j hj, Nat.zero_add, Nat.mod_eq_of_lt hj]
  · rw [List.getElem?_eq_none (by omega), List.getElem?_eq_none (by omega)]

/-- C333: with the selector of the best, the destination is that many copies of one best individual; nothing can be selected
from an empty population. -/
theorem C333_best {α F : Type} [LinearOrder F] (f : α → F) (h : HowMany) (src dest : List α) (k : Nat)
    (hk : h.eval src.length = .ok k) :
    (src ≠ [] → ∃ x ∈ src, (∀ y ∈ src, f y ≤ f x) ∧
      truncSelect (bestSel f) h src dest () = .ok (List.replicate k x, ())) ∧
    (src = [] → 0 < k → ∃ e, truncSelect (bestSel f) h src dest () = .error e) := by
  constructor
  · intro hs
    obtain ⟨x, h1, h2, h3⟩ := bestElement_spec f src hs
    refine ⟨x, h2, h3, ?_⟩
    rw [truncSelect, hk]
    dsimp only
    generalize (bestSel f).setup src () = s
    clear hk
    induction k with
    | zero => rfl
    | succ k ih =>
      rw [truncLoop]
      simp only [bestSel, h1] at ih ⊢
      rw [ih]
      rfl
  · intro hs hk0
    subst hs
    rw [truncSelect, hk]
    obtain ⟨k, rfl⟩ : ∃ m, k = m + 1 := ⟨k - 1, by omega⟩
    dsimp only
    rw [truncLoop]
    simp only [bestSel, bestElement]
    exact ⟨_, rfl⟩

/-- C333: the rate of a stochastic tournament is kept when it is between a half and one; one that is below becomes 0.55 and
one that is above becomes 1, each with one warning. So the rate used always prefers the better of the two, and a rate of
0.4 prefers it more than a rate of 0.52 does. -/
theorem C333_rate (r : ℚ) :
    1 / 2 ≤ (stochRate r).1 ∧ (stochRate r).1 ≤ 1 ∧
    ((1 / 2 ≤ r ∧ r ≤ 1) → stochRate r = (r, 0)) ∧ (r < 1 / 2 → stochRate r = (55 / 100, 1)) ∧ (1 < r → stochRate r = (1, 1)) ∧
    (stochRate (52 / 100)).1 < (stochRate (2 / 5)).1 := by
  have h1 : r < 1 / 2 → stochRate r = (55 / 100, 1) := by
    intro h; simp only [stochRate, if_pos h]; rw [if_neg (by norm_num)]
  have h2 : (1 / 2 ≤ r ∧ r ≤ 1) → stochRate r = (r, 0) := by
    rintro ⟨ha, hb⟩; simp only [stochRate, if_neg (not_lt.2 ha)]; rw [if_neg (not_lt.2 hb)]
  have h3 : 1 < r → stochRate r = (1, 1) := by
    intro h
    have ha : ¬ r < 1 / 2 := by intro h'; linarith
    simp only [stochRate, if_neg ha]; rw [if_pos h]
  refine ⟨?_, ?_, h2, h1, h3, by norm_num [stochRate]⟩
  all_goals
    rcases lt_or_ge r (1 / 2) with h | h
    · rw [h1 h]; norm_num
    · rcases lt_or_ge 1 r with h' | h'
      · rw [h3 h'] <;> norm_num
      · rw [h2 ⟨h, h'⟩]
        first
          | exact h
          | exact h'

/-- C333: the tournament returns the better of the two drawn individuals exactly when the number drawn is below that rate; so
with a rate of one or more it always does. -/
theorem C333_tournament {α F : Type} [LinearOrder F] (f : α → F) (rate : ℚ) (r : Nat → Nat) (u : Nat → ℚ) (pop : List α)
    (hpop : 0 < pop.length) (t : Nat) (hu : u (t + 2) < 1) :
    ∃ i j, ∃ hi : i < pop.length, ∃ hj : j < pop.length, stochSelect f rate r u pop t = .ok (i, t + 3) ∧
      ((i = r t % pop.length ∧ j = r (t + 1) % pop.length) ∨ (j = r t % pop.length ∧ i = r (t + 1) % pop.length)) ∧
      (u (t + 2) < 1 / 2 ∨ 1 ≤ rate → f pop[j] ≤ f pop[i]) ∧
      (1 / 2 ≤ rate ∧ rate ≤ u (t + 2) → f pop[i] ≤ f pop[j]) := by
  obtain ⟨⟨i, j, hi, hj, h1, h2, h3⟩, -⟩ :=
    C53_stochastic f r (fun t => decide (u t < (stochRate rate).1)) pop hpop t
  obtain ⟨ra, rb, rc, -, re, -⟩ := C333_rate rate
  refine ⟨i, j, hi, hj, h1, h2, ?_, ?_⟩
  · intro h
    have : u (t + 2) < (stochRate rate).1 := by
      rcases h with h | h
      · linarith
      · rcases eq_or_lt_of_le h with h | h
        · rw [rc ⟨by rw [← h]; norm_num, h.ge⟩, ← h]; exact hu
        · rw [re h]; exact hu
    simpa [this] using h3
  · rintro ⟨ha, hb⟩
    have : ¬ u (t + 2) < (stochRate rate).1 := by
      rw [rc ⟨ha, by linarith⟩]; exact not_lt.2 hb
    simpa [this] using h3

example : noSelects 0 [3, 3, 3, 3, 2, 5, 1] = .ok ([0, 1, 2, 0, 1, 2, 0], 1) := by decide
example : truncSelect (noSel Nat) ⟨0, 5⟩ [10, 11, 12] [7] 2 = .ok ([12, 10, 11, 12, 10], 1) := by decide +kernel
example : (⟨0, 5⟩ : HowMany).eval 3 = .ok 5 := by decide +kernel

end Paradiseo.EO
