import Verif.Lemmas.Weights
/-
C188: moeoAugmentedQexploreWeightStrategy proposes every admissible vector of dyadic weights exactly once.
-/
namespace Paradiseo.Weights

theorem loop_some (dim fuel n : Nat) (w : List ℚ) (s' : Aq) (h : (R dim n).loop dim fuel = some (w, s')) :
    ∃ m, n ≤ m ∧ s' = R dim (m + 1) ∧ translate dim (R dim m) = some w ∧ ∀ i, n ≤ i → i < m → translate dim (R dim i) = none := by
  induction fuel generalizing n with
  | zero => cases h
  | succ fuel ih =>
    unfold Aq.loop at h
    split at h
    · rename_i w' hw
      simp only [Option.some.injEq, Prod.mk.injEq] at h
      refine ⟨n, le_refl _, h.2.symm, ?_, fun i h1 h2 => by omega⟩
      rw [← h.1]
      exact hw
    · rename_i hw
      obtain ⟨m, h1, h2, h3, h4⟩ := ih (n + 1) h
      refine ⟨m, by omega, h2, h3, ?_⟩
      intro i hi him
      by_cases e : i = n
      · subst e; exact hw
      · exact h4 i (by omega) him

theorem loop_ends (dim n m : Nat) (hnm : n ≤ m) (w : List ℚ) (h : translate dim (R dim m) = some w) :
    ∃ fuel r, (R dim n).loop dim fuel = some r := by
  obtain ⟨d, rfl⟩ := Nat.exists_eq_add_of_le hnm
  clear hnm
  induction d generalizing n with
  | zero =>
    refine ⟨1, (w, R dim (n + 1)), ?_⟩
    unfold Aq.loop
    have : ((R dim n).round dim).1 = some w := h
    rw [this]
    rfl
  | succ d ih =>
    obtain ⟨fuel, r, hr⟩ := ih (n + 1) (by rw [Nat.add_assoc, Nat.add_comm 1 d]; exact h)
    cases ht : translate dim (R dim n) with
    | some w' =>
      refine ⟨1, (w', R dim (n + 1)), ?_⟩
      unfold Aq.loop
      have : ((R dim n).round dim).1 = some w' := ht
      rw [this]
      rfl
    | none =>
      refine ⟨fuel + 1, r, ?_⟩
      unfold Aq.loop
      have : ((R dim n).round dim).1 = none := ht
      rw [this]
      exact hr

theorem run_inv (dim : Nat) (hdim : 0 < dim) (ws : List (List ℚ)) (s : Aq) (h : Aq.Run dim ws s) :
    ∃ n, (if s.depth = 0 then s.reset else s) = R dim n ∧ ws.Nodup ∧
      ∀ w, w ∈ ws ↔ ∃ i < n, translate dim (R dim i) = some w := by
  induction h with
  | init => exact ⟨0, rfl, List.nodup_nil, fun w => ⟨(fun h => nomatch h), fun ⟨i, hi, _⟩ => absurd hi (Nat.not_lt_zero i)⟩⟩
  | @call ws s fuel w s' _ hc ih =>
    obtain ⟨n, hn, hnd, hw⟩ := ih
    unfold Aq.call at hc
    rw [hn] at hc
    obtain ⟨m, h1, h2, h3, h4⟩ := loop_some dim fuel n w s' hc
    refine ⟨m + 1, ?_, ?_, ?_⟩
    · rw [h2, if_neg]
      have := (R_inv dim (m + 1)).pos
      omega
    · rw [List.nodup_cons]
      refine ⟨?_, hnd⟩
      intro hm
      obtain ⟨i, hi, e⟩ := (hw w).1 hm
      have := translate_inj dim hdim _ _ (R_inv dim i) (R_inv dim m) w e h3
      have hlt := R_lt dim (show i < m by omega)
      rw [this] at hlt
      exact hlt.irrefl
    · intro v
      rw [List.mem_cons]
      constructor
      · rintro (rfl | hv)
        · exact ⟨m, by omega, h3⟩
        · obtain ⟨i, hi, e⟩ := (hw v).1 hv
          exact ⟨i, by omega, e⟩
      · rintro ⟨i, hi, e⟩
        by_cases him : i = m
        · subst him
          rw [h3] at e
          exact Or.inl (Option.some.inj e).symm
        · by_cases hin : i < n
          · exact Or.inr ((hw v).2 ⟨i, hin, e⟩)
          · rw [h4 i (by omega) (by omega)] at e
            cases e

/-- The vectors of weights looked for: multiples of some 1/2^k with sum 1, one of which is neither 0 nor the
inverse of a power of 2. -/
structure Admissible (dim : Nat) (w : List ℚ) : Prop where
  length : w.length = dim
  sum : w.sum = 1
  dyadic : ∃ k : Nat, ∀ x ∈ w, ∃ c : Nat, x = (c : ℚ) / 2 ^ k
  notPow : ∃ x ∈ w, x ≠ 0 ∧ ∀ j : Nat, x ≠ 1 / 2 ^ j

theorem count_sum (dim : Nat) (l : List Nat) (h : ∀ n ∈ l, n < dim) : (cnt dim l).sum = l.length := by
  induction l with
  | nil => simp [cnt]
  | cons n l ih =>
    have h1 := ih fun x hx => h x (by simp [hx])
    have h2 := h n (by simp)
    have e : (cnt dim (n :: l)).sum = (cnt dim l).sum + 1 := by
      have key : ∀ d, ((List.range d).map fun i => (n :: l).count i).sum =
          ((List.range d).map fun i => l.count i).sum + if n < d then 1 else 0 := by
        intro d
        induction d with
        | zero => simp
        | succ d ih2 =>
          rw [List.range_succ, List.map_append, List.sum_append, List.map_append, List.sum_append, ih2]
          simp only [List.map_cons, List.map_nil, List.sum_cons, List.sum_nil, Nat.add_zero, List.count_cons]
          by_cases e1 : n = d
          · subst e1
            simp
            omega
          · have e2 : (n == d) = false := by simp [e1]
            simp only [e2, Bool.false_eq_true, if_false]
            by_cases e3 : n < d
            · rw [if_pos e3, if_pos (by omega)]; omega
            · rw [if_neg e3, if_neg (by omega)]; omega
      have := key dim
      rw [if_pos h2] at this
      exact this
    rw [e, h1, List.length_cons]

theorem sum_div (l : List Nat) (d : ℚ) : (l.map fun (c : Nat) => (c : ℚ) / d).sum = (l.sum : ℚ) / d := by
  induction l with
  | nil => simp
  | cons c l ih => rw [List.map_cons, List.sum_cons, ih, List.sum_cons]; push_cast; ring

theorem pow_lemma (c k j : Nat) (h : (c : ℚ) / 2 ^ k = 1 / 2 ^ j) : ∃ i, c = 2 ^ i := by
  have h2 : (2 : ℚ) ^ k ≠ 0 := by positivity
  have h3 : (2 : ℚ) ^ j ≠ 0 := by positivity
  rw [div_eq_div_iff h2 h3, one_mul] at h
  have h4 : c * 2 ^ j = 2 ^ k := by exact_mod_cast h
  obtain ⟨i, _, hi⟩ := (Nat.dvd_prime_pow Nat.prime_two).1 (Dvd.intro _ h4)
  exact ⟨i, hi⟩

theorem accepted_admissible (dim : Nat) (hdim : 0 < dim) (s : Aq) (hs : Inv dim s) (w : List ℚ)
    (h : translate dim s = some w) : Admissible dim w := by
  obtain ⟨k, hk⟩ := hs.pow
  rw [translate_spec dim s k hk hs.num.len] at h
  obtain ⟨⟨_, c, hc, h0, h2⟩, rfl⟩ := h
  have hkpos : ((2 : ℚ) ^ k) ≠ 0 := by positivity
  have hd : (s.depth : ℚ) = 2 ^ k := by rw [hk]; push_cast; rfl
  refine ⟨by simp [cnt], ?_, ⟨k, ?_⟩, (c : ℚ) / s.depth, List.mem_map.2 ⟨c, hc, rfl⟩, ?_, ?_⟩
  · rw [sum_div, count_sum dim _ fun n hn => by have := hs.num.le n hn; omega, hs.num.len, hd]
    exact div_self hkpos
  · intro x hx
    obtain ⟨c, _, rfl⟩ := List.mem_map.1 hx
    exact ⟨c, by rw [hd]⟩
  · rw [hd]
    exact div_ne_zero (by exact_mod_cast h0) hkpos
  · intro j e
    rw [hd] at e
    obtain ⟨i, hi⟩ := pow_lemma c k j e
    exact h2 i hi

/-- **C188** (what is proposed).  Every vector of weights given has one weight per objective, sum 1, and only
multiples of some 1/2^k; at least one of its weights is neither 0 nor the inverse of a power of 2.  None comes
twice. -/
theorem C188_proposed (dim : Nat) (hdim : 0 < dim) (ws : List (List ℚ)) (s : Aq) (h : Aq.Run dim ws s) :
    (∀ w ∈ ws, Admissible dim w) ∧ ws.Nodup := by
  obtain ⟨n, _, hnd, hw⟩ := run_inv dim hdim ws s h
  refine ⟨?_, hnd⟩
  intro w hm
  obtain ⟨i, _, e⟩ := (hw w).1 hm
  exact accepted_admissible dim hdim _ (R_inv dim i) w e

/-- **C188** (what is never proposed).  All the weight on one objective, or equal halves. -/
theorem C188_never (dim : Nat) (hdim : 0 < dim) (ws : List (List ℚ)) (s : Aq) (h : Aq.Run dim ws s) (w : List ℚ)
    (hw : ∀ x ∈ w, x = 0 ∨ ∃ j : Nat, x = 1 / 2 ^ j) : w ∉ ws := by
  intro hm
  obtain ⟨x, hx, h0, h2⟩ := ((C188_proposed dim hdim ws s h).1 w hm).notPow
  rcases hw x hx with e | ⟨j, e⟩
  · exact h0 e
  · exact h2 j e

/-- The list of numbers with given counts. -/
def spread (c : Nat → Nat) (dim : Nat) : List Nat := (List.range dim).flatMap fun i => List.replicate (c i) i

theorem spread_succ (c : Nat → Nat) (dim : Nat) : spread c (dim + 1) = spread c dim ++ List.replicate (c dim) dim := by
  unfold spread
  rw [List.range_succ, List.flatMap_append]
  simp

theorem spread_lt (c : Nat → Nat) (dim : Nat) : ∀ n ∈ spread c dim, n < dim := by
  intro n hn
  obtain ⟨i, hi, h⟩ := List.mem_flatMap.1 hn
  rw [List.eq_of_mem_replicate h]
  exact List.mem_range.1 hi

theorem spread_sorted (c : Nat → Nat) (dim : Nat) : (spread c dim).Pairwise (· ≤ ·) := by
  induction dim with
  | zero => exact List.Pairwise.nil
  | succ d ih =>
    rw [spread_succ, List.pairwise_append]
    refine ⟨ih, List.pairwise_replicate.2 (Or.inr (le_refl _)), ?_⟩
    intro a ha b hb
    rw [List.eq_of_mem_replicate hb]
    exact (spread_lt c d a ha).le

theorem spread_count (c : Nat → Nat) (dim i : Nat) (hi : i < dim) : (spread c dim).count i = c i := by
  induction dim with
  | zero => omega
  | succ d ih =>
    rw [spread_succ, List.count_append, List.count_replicate]
    by_cases e : i = d
    · subst e
      rw [List.count_eq_zero_of_not_mem fun h => absurd (spread_lt c i i h) (lt_irrefl _)]
      simp
    · rw [ih (by omega)]
      have : ¬ d = i := fun h => e h.symm
      simp [this]

theorem admissible_reached (dim : Nat) (hdim : 0 < dim) (w : List ℚ) (hw : Admissible dim w) :
    ∃ n, translate dim (R dim n) = some w := by
  classical
  obtain ⟨hlen, hsum, hdy, x, hx, hx0, hxp⟩ := hw
  -- the least exponent
  let k := Nat.find hdy
  have hk : ∀ x ∈ w, ∃ c : Nat, x = (c : ℚ) / 2 ^ k := Nat.find_spec hdy
  have hmin : ∀ k' < k, ¬ ∀ x ∈ w, ∃ c : Nat, x = (c : ℚ) / 2 ^ k' := fun k' h => Nat.find_min hdy h
  have hc : ∀ i : Nat, ∃ c : Nat, i < dim → w[i]? = some ((c : ℚ) / 2 ^ k) := by
    intro i
    by_cases hi : i < dim
    · have hi' : i < w.length := by omega
      obtain ⟨c, hc⟩ := hk w[i] (List.getElem_mem hi')
      exact ⟨c, fun _ => by rw [List.getElem?_eq_getElem hi', hc]⟩
    · exact ⟨0, fun h => absurd h hi⟩
  choose c hc using hc
  have hkpos : ((2 : ℚ) ^ k) ≠ 0 := by positivity
  have hcnt : cnt dim (spread c dim) = (List.range dim).map c := by
    unfold cnt
    apply List.map_congr_left
    intro i hi
    exact spread_count c dim i (List.mem_range.1 hi)
  have hwc : w = (cnt dim (spread c dim)).map fun (c : Nat) => (c : ℚ) / (2 ^ k : Nat) := by
    apply List.ext_getElem?
    intro i
    rw [hcnt, List.map_map, List.getElem?_map]
    by_cases hi : i < dim
    · rw [hc i hi]
      simp [List.getElem?_range, hi]
    · rw [List.getElem?_eq_none (by omega)]
      simp [List.getElem?_range, hi]
  have hsl : (spread c dim).length = 2 ^ k := by
    have h1 := count_sum dim (spread c dim) (spread_lt c dim)
    rw [hwc, sum_div, h1, div_eq_one_iff_eq (by exact_mod_cast hkpos)] at hsum
    exact_mod_cast hsum
  have hnum : Num (dim - 1) (2 ^ k) (spread c dim) :=
    ⟨hsl, fun n hn => by have := spread_lt c dim n hn; omega, spread_sorted c dim⟩
  obtain ⟨m, hm⟩ := R_fresh dim k
  obtain ⟨n, hn⟩ := R_reach dim k m hm _ hnum
  refine ⟨n, ?_⟩
  rw [hn, translate_spec dim _ k rfl hsl]
  refine ⟨⟨?_, ?_⟩, hwc⟩
  · show ∃ d ∈ cnt dim (spread c dim), Nat.Coprime d (2 ^ k)
    by_contra hno
    push Not at hno
    rcases Nat.eq_zero_or_pos k with hk0 | hkp
    · -- whole numbers with sum 1
      have hmem : ∃ d, d ∈ cnt dim (spread c dim) := ⟨_, List.mem_map.2 ⟨0, List.mem_range.2 hdim, rfl⟩⟩
      obtain ⟨d, hd⟩ := hmem
      have := hno d hd
      rw [hk0, Nat.pow_zero] at this
      exact this (Nat.coprime_one_right d)
    · apply hmin (k - 1) (by omega)
      intro y hy
      rw [hwc] at hy
      obtain ⟨d, hd, rfl⟩ := List.mem_map.1 hy
      have he : d % 2 = 0 := by
        rcases Nat.mod_two_eq_zero_or_one d with e | e
        · exact e
        · exfalso
          apply hno d hd
          apply Nat.Coprime.pow_right
          rw [Nat.coprime_comm, Nat.Prime.coprime_iff_not_dvd Nat.prime_two]
          intro h
          omega
      refine ⟨d / 2, ?_⟩
      have e1 : d = 2 * (d / 2) := by omega
      have e2 : (2 : ℚ) ^ k = 2 * 2 ^ (k - 1) := by
        rw [← pow_succ']
        congr 1
        omega
      have e3 : ((2 : ℚ) ^ (k - 1)) ≠ 0 := by positivity
      push_cast
      rw [e2]
      have e4 : (d : ℚ) = 2 * ((d / 2 : Nat) : ℚ) := by exact_mod_cast e1
      rw [e4, mul_div_mul_left _ _ (by norm_num : (2 : ℚ) ≠ 0)]
  · rw [hwc] at hx
    obtain ⟨d, hd, rfl⟩ := List.mem_map.1 hx
    refine ⟨d, hd, ?_, ?_⟩
    · rintro rfl
      apply hx0
      simp
    · rintro j rfl
      -- then the weight is the inverse of a power of 2
      have hle : 2 ^ j ≤ 2 ^ k := by
        rw [← hsl]
        obtain ⟨i, _, hi⟩ := List.mem_map.1 hd
        rw [← hi]
        exact List.count_le_length
      have hjk : j ≤ k := (Nat.pow_le_pow_iff_right (by omega)).1 hle
      apply hxp (k - j)
      have e : (2 : ℚ) ^ k = 2 ^ j * 2 ^ (k - j) := by rw [← pow_add]; congr 1; omega
      have e1 : ((2 : ℚ) ^ j) ≠ 0 := by positivity
      have e2 : ((2 : ℚ) ^ (k - j)) ≠ 0 := by positivity
      push_cast
      rw [e]
      field_simp

/-- Weights of three quarters and one quarter... of any depth. -/
theorem later (dim : Nat) (hdim : 2 ≤ dim) (n : Nat) : ∃ m, n ≤ m ∧ ∃ w, translate dim (R dim m) = some w := by
  obtain ⟨k0, hk0⟩ := (R_inv dim n).pow
  let k := k0 + 2
  have h4 : 4 ≤ 2 ^ k := by
    show 4 ≤ 2 ^ (k0 + 2)
    rw [Nat.pow_add]
    have := Nat.pow_pos (n := k0) (show 0 < 2 by omega)
    omega
  let p := List.replicate (2 ^ k - 1) 0 ++ [1]
  have hp : Num (dim - 1) (2 ^ k) p := by
    refine ⟨by simp [p]; omega, ?_, ?_⟩
    · intro x hx
      rcases List.mem_append.1 hx with h | h
      · rw [List.eq_of_mem_replicate h]; omega
      · rw [List.mem_singleton.1 h]; omega
    · rw [List.pairwise_append]
      refine ⟨List.pairwise_replicate.2 (Or.inr (le_refl _)), List.pairwise_singleton _ _, ?_⟩
      intro a ha b hb
      rw [List.eq_of_mem_replicate ha]
      exact Nat.zero_le _
  obtain ⟨m0, hm0⟩ := R_fresh dim k
  obtain ⟨m, hm⟩ := R_reach dim k m0 hm0 p hp
  refine ⟨m, ?_, ?_⟩
  · by_contra hlt
    have h := R_lt dim (not_le.1 hlt)
    unfold Lt at h
    rw [hm, hk0] at h
    have : 2 ^ k0 < 2 ^ k := Nat.pow_lt_pow_right (by omega) (by show k0 < k0 + 2; omega)
    simp only at h
    omega
  · refine ⟨_, (translate_spec dim (R dim m) k (by rw [hm]) (by rw [hm]; exact hp.len) _).2 ⟨?_, rfl⟩⟩
    rw [hm]
    have c0 : p.count 0 = 2 ^ k - 1 := by simp [p]
    have c1 : p.count 1 = 1 := by simp [p, List.count_replicate]
    refine ⟨⟨1, List.mem_map.2 ⟨1, List.mem_range.2 (by omega), c1⟩, Nat.coprime_one_left _⟩,
      2 ^ k - 1, List.mem_map.2 ⟨0, List.mem_range.2 (by omega), c0⟩, by omega, ?_⟩
    intro j hj
    cases j with
    | zero => rw [Nat.pow_zero] at hj; omega
    | succ j =>
      have e1 : 2 ^ k = 2 * 2 ^ (k0 + 1) := by show 2 ^ (k0 + 2) = _; rw [← Nat.pow_succ']
      rw [e1, Nat.pow_succ'] at hj
      have := Nat.pow_pos (n := k0 + 1) (show 0 < 2 by omega)
      omega

/-- **C188** (every call ends).  With at least two objectives each call returns. -/
theorem C188_ends (dim : Nat) (hdim : 2 ≤ dim) (ws : List (List ℚ)) (s : Aq) (h : Aq.Run dim ws s) :
    ∃ fuel w s', s.call dim fuel = some (w, s') := by
  obtain ⟨n, hn, _, _⟩ := run_inv dim (by omega) ws s h
  obtain ⟨m, hm, w, hw⟩ := later dim hdim n
  obtain ⟨fuel, ⟨w', s'⟩, hr⟩ := loop_ends dim n m hm w hw
  refine ⟨fuel, w', s', ?_⟩
  unfold Aq.call
  rw [hn]
  exact hr

/-- **C188** (all of them).  With at least two objectives every admissible vector of weights is given by some
call. -/
theorem C188_all (dim : Nat) (hdim : 2 ≤ dim) (w : List ℚ) (hw : Admissible dim w) :
    ∃ ws s, Aq.Run dim ws s ∧ w ∈ ws := by
  obtain ⟨n, hn⟩ := admissible_reached dim (by omega) w hw
  have key : ∀ N, ∃ ws s m, Aq.Run dim ws s ∧ (if s.depth = 0 then s.reset else s) = R dim m ∧ N ≤ m ∧
      ∀ w, w ∈ ws ↔ ∃ i < m, translate dim (R dim i) = some w := by
    intro N
    induction N with
    | zero =>
      obtain ⟨m, h1, _, h3⟩ := run_inv dim (by omega) _ _ (Aq.Run.init (dim := dim))
      exact ⟨_, _, m, Aq.Run.init, h1, Nat.zero_le _, h3⟩
    | succ N ih =>
      obtain ⟨ws, s, m, hr, hs, hN, hws⟩ := ih
      obtain ⟨fuel, w', s', hc⟩ := C188_ends dim hdim ws s hr
      have hr' := Aq.Run.call hr hc
      have hc' := hc
      unfold Aq.call at hc'
      rw [hs] at hc'
      obtain ⟨m2, h1, h2, h3, h4⟩ := loop_some dim fuel m w' s' hc'
      refine ⟨_, _, m2 + 1, hr', ?_, by omega, ?_⟩
      · rw [h2, if_neg]
        have := (R_inv dim (m2 + 1)).pos
        omega
      · intro v
        rw [List.mem_cons]
        constructor
        · rintro (rfl | hv)
          · exact ⟨m2, by omega, h3⟩
          · obtain ⟨i, hi, e⟩ := (hws v).1 hv
            exact ⟨i, by omega, e⟩
        · rintro ⟨i, hi, e⟩
          by_cases him : i = m2
          · subst him
            rw [h3] at e
            exact Or.inl (Option.some.inj e).symm
          · by_cases hin : i < m
            · exact Or.inr ((hws v).2 ⟨i, hin, e⟩)
            · rw [h4 i (by omega) (by omega)] at e
              cases e
  obtain ⟨ws, s, m, hr, _, hm, hws⟩ := key (n + 1)
  exact ⟨ws, s, hr, (hws w).2 ⟨n, by omega, hn⟩⟩

/-- **C188** (one objective).  With a single objective no call ever returns. -/
theorem C188_single (ws : List (List ℚ)) (s : Aq) (h : Aq.Run 1 ws s) (fuel : Nat) : s.call 1 fuel = none := by
  obtain ⟨n, hn, _, _⟩ := run_inv 1 (by omega) ws s h
  unfold Aq.call
  rw [hn]
  cases hl : (R 1 n).loop 1 fuel with
  | none => rfl
  | some r =>
    obtain ⟨w, s'⟩ := r
    obtain ⟨m, _, _, h3, _⟩ := loop_some 1 fuel n w s' hl
    have ha := accepted_admissible 1 (by omega) _ (R_inv 1 m) w h3
    exfalso
    have hlen := ha.length
    match w, hlen with
    | [x], _ =>
      have hs := ha.sum
      simp at hs
      obtain ⟨y, hy, _, h2⟩ := ha.notPow
      rw [List.mem_singleton] at hy
      apply h2 0
      rw [hy, hs]
      norm_num

/-- The first weights for two objectives. -/
example : (Aq.call 2 7 ⟨0, [0]⟩).map Prod.fst = some [3/4, 1/4] := by decide +kernel
example : Admissible 2 [3/4, 1/4] := by
  refine ⟨rfl, by norm_num, ⟨2, ?_⟩, 3/4, by simp, by norm_num, ?_⟩
  · intro x hx
    simp only [List.mem_cons, List.not_mem_nil, or_false] at hx
    rcases hx with rfl | rfl
    · exact ⟨3, by norm_num⟩
    · exact ⟨1, by norm_num⟩
  · intro j h
    have h2 : (3 : ℚ) / 2 ^ 2 = 1 / 2 ^ j := by rw [← h]; norm_num
    obtain ⟨i, hi⟩ := pow_lemma 3 2 j (by exact_mod_cast h2)
    match i with
    | 0 => omega
    | 1 => omega
    | i + 2 =>
      rw [Nat.pow_add] at hi
      omega

end Paradiseo.Weights
