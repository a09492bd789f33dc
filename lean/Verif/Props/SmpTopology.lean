import Verif.Lemmas.SmpTopology

/-! Properties of the communication topologies between islands (smp). -/

namespace Paradiseo.Smp

/-! ## C106: who sends to whom -/

/-- Complete topology: every island sends to all others and never to itself. -/
theorem C106_complete (n i j : Nat) (hi : i < n) :
    j ∈ neighbors (complete n) i ↔ j < n ∧ j ≠ i := by
  obtain ⟨hsq, hget⟩ := complete_spec n
  rw [mem_neighbors hsq]
  constructor
  · rintro ⟨hj, h⟩
    rw [hget i j hi hj] at h
    exact ⟨hj, fun h' => (of_decide_eq_true h) h'.symm⟩
  · rintro ⟨hj, h⟩
    refine ⟨hj, ?_⟩
    rw [hget i j hi hj]
    exact decide_eq_true (fun h' => h h'.symm)

example : neighbors (complete 4) 1 = [0, 2, 3] := by decide +kernel

theorem sorted_neighbors (m : Matrix Bool) (i : Nat) : (neighbors m i).Pairwise (· < ·) :=
  List.pairwise_lt_range.filter _

/-- Two strictly increasing lists with the same members are the same list. -/
theorem eq_of_mem_iff {l l' : List Nat} (h : l.Pairwise (· < ·)) (h' : l'.Pairwise (· < ·))
    (hm : ∀ x, x ∈ l ↔ x ∈ l') : l = l' := by
  induction l generalizing l' with
  | nil =>
    cases l' with
    | nil => rfl
    | cons y l' => exact absurd ((hm y).mpr (by simp)) (by simp)
  | cons x l ih =>
    cases l' with
    | nil => exact absurd ((hm x).mp (by simp)) (by simp)
    | cons y l' =>
      rw [List.pairwise_cons] at h h'
      have hxy : x = y := by
        rcases List.mem_cons.mp ((hm x).mp (by simp)) with h1 | h1
        · exact h1
        · rcases List.mem_cons.mp ((hm y).mpr (by simp)) with h2 | h2
          · exact h2.symm
          · have := h'.1 x h1
            have := h.1 y h2
            omega
      subst hxy
      congr 1
      apply ih h.2 h'.2
      intro z
      constructor
      · intro hz
        rcases List.mem_cons.mp ((hm z).mp (by simp [hz])) with h1 | h1
        · subst h1; exact absurd (h.1 z hz) (by omega)
        · exact h1
      · intro hz
        rcases List.mem_cons.mp ((hm z).mpr (by simp [hz])) with h1 | h1
        · subst h1; exact absurd (h'.1 z hz) (by omega)
        · exact h1

/-- Ring topology: every island sends to exactly one island, the next one; the last one sends to the
first.  A ring of one island sends to itself. -/
theorem C106_ring (n i : Nat) (hi : i < n) : neighbors (ring n) i = [(i + 1) % n] := by
  obtain ⟨hsq, hget⟩ := ring_spec n
  apply eq_of_mem_iff (sorted_neighbors _ _) (by simp)
  intro j
  rw [mem_neighbors hsq, List.mem_singleton]
  constructor
  · rintro ⟨hj, h⟩
    rw [hget i j hi hj] at h
    exact of_decide_eq_true h
  · rintro rfl
    have hj : (i + 1) % n < n := Nat.mod_lt _ (by omega)
    refine ⟨hj, ?_⟩
    rw [hget i _ hi hj]
    simp

example : neighbors (ring 5) 4 = [0] ∧ neighbors (ring 1) 0 = [0] := by decide +kernel

/-- Star topology: every island but the centre sends to the centre only, and the centre sends to
nobody.  Building the star around a centre that is no island writes out of range. -/
theorem C106_star (c n : Nat) :
    (n ≤ c → star c n = .error .ub) ∧
    (c < n → ∃ m, star c n = .ok m ∧ neighbors m c = [] ∧
      ∀ i, i < n → i ≠ c → neighbors m i = [c]) := by
  constructor
  · intro h
    simp [star, h]
  · intro h
    obtain ⟨m, hm⟩ : ∃ m, star c n = .ok m := by
      unfold star
      rw [if_neg (by omega)]
      exact ⟨_, rfl⟩
    obtain ⟨-, hsq, hget⟩ := star_spec hm
    refine ⟨m, hm, ?_, ?_⟩
    · apply eq_of_mem_iff (sorted_neighbors _ _) (by simp)
      intro j
      rw [mem_neighbors hsq]
      constructor
      · rintro ⟨hj, h'⟩
        rw [hget c j h hj] at h'
        simp at h'
      · simp
    · intro i hi hic
      apply eq_of_mem_iff (sorted_neighbors _ _) (by simp)
      intro j
      rw [mem_neighbors hsq, List.mem_singleton]
      constructor
      · rintro ⟨hj, h'⟩
        rw [hget i j hi hj] at h'
        exact (of_decide_eq_true h').2
      · rintro rfl
        refine ⟨h, ?_⟩
        rw [hget i j hi h]
        simp [hic]

example : star 2 4 = .ok [[false, false, true, false], [false, false, true, false],
    [false, false, false, false], [false, false, true, false]] := by decide +kernel

/-- Hypercube topology: it can be built for exactly the powers of two (below 2^32; other sizes fail
the assertion, zero islands loop off the end of the word), and then islands `i` and `j` send to each
other exactly when their numbers differ in one binary digit. -/
theorem C106_hypercubic (n : Nat) (hn : n < 2 ^ 32) :
    ((∃ m, hypercubic n = .ok m) ↔ ∃ p, n = 2 ^ p) ∧
    (n = 0 → hypercubic n = .error .ub) ∧
    (n ≠ 0 → (∀ p, n ≠ 2 ^ p) → hypercubic n = .error .asserted) ∧
    ∀ m, hypercubic n = .ok m → ∀ i j, i < n → (j ∈ neighbors m i ↔ j < n ∧ OneBit i j) := by
  have hpow : ∀ p, n = 2 ^ p → ∃ m, hypercubic n = .ok m := by
    intro p hp
    unfold hypercubic
    rw [if_neg (by push Not; intro _; rw [hp]; exact two_pow_and_pred p)]
    cases h : hyperPower n 32 0 with
    | ok q => exact ⟨_, rfl⟩
    | error e =>
      exfalso
      have hp32 : p < 32 := by
        rw [hp] at hn
        exact (Nat.pow_lt_pow_iff_right (by norm_num)).mp hn
      have := hyperPower_err 32 0 h p (by omega) (by omega)
      rw [hp, Nat.testBit_two_pow_self] at this
      cases this
  refine ⟨⟨?_, ?_⟩, ?_, ?_, ?_⟩
  · rintro ⟨m, hm⟩
    obtain ⟨p, hp, -⟩ := hypercubic_spec hm
    exact ⟨p, hp⟩
  · rintro ⟨p, hp⟩
    exact hpow p hp
  · rintro rfl
    decide +kernel
  · intro hn0 hnp
    unfold hypercubic
    rw [if_pos]
    refine ⟨hn0, ?_⟩
    intro hand
    cases h : hyperPower n 32 0 with
    | ok q =>
      obtain ⟨-, h1, h2⟩ := hyperPower_spec 32 0 h
      exact hnp q (pow_of_and hn0 hand h1 (fun l hl => h2 l (by omega) hl))
    | error e =>
      obtain ⟨k, hk⟩ := Nat.exists_testBit_of_ne_zero hn0
      have hk32 : k < 32 := by
        by_contra hcon
        have : n < 2 ^ k := lt_of_lt_of_le hn (Nat.pow_le_pow_right (by norm_num) (by omega))
        rw [Nat.testBit_lt_two_pow this] at hk
        cases hk
      have := hyperPower_err 32 0 h k (by omega) (by omega)
      rw [hk] at this
      cases this
  · intro m hm i j hi
    obtain ⟨p, hp, hsq, hget⟩ := hypercubic_spec hm
    rw [mem_neighbors hsq]
    constructor
    · rintro ⟨hj, h⟩
      exact ⟨hj, (hget i j hi hj).mp h⟩
    · rintro ⟨hj, h⟩
      exact ⟨hj, (hget i j hi hj).mpr h⟩

example : (hypercubic 8).map (fun m => neighbors m 5) = .ok [1, 4, 7] ∧
    hypercubic 6 = .error .asserted := by decide +kernel

theorem meshHeight_bounds {ratio : ℚ} {n h : Nat} (hh : meshHeight ratio n = .ok h) :
    1 < h ∧ h * h ≤ n ∧ h ∣ n := by
  obtain ⟨hn, hpos, hget⟩ := meshHeight_spec hh
  have hmem := mem_factorization.mp (List.mem_of_getElem? hget)
  refine ⟨?_, hmem.2⟩
  rw [List.getElem?_eq_some_iff] at hget
  obtain ⟨hlt, hget⟩ := hget
  have h0 : (factorization n)[0] < (factorization n)[meshSearch ratio n (factorization n) 0] :=
    List.pairwise_iff_getElem.mp (factorization_sorted n) 0 _ (by omega) hlt hpos
  have h1 : 0 < (factorization n)[0] := (mem_factorization.mp (List.getElem_mem _)).1
  omega

/-- Mesh topology: whatever the ratio, when it can be built the islands lie row by row on a
rectangle of `h` rows and `w` columns with `2 ≤ h ≤ w` and `h * w = n`, and every island sends to
exactly its neighbours above, left, right and below on that rectangle (2 for a corner, 3 on an edge,
4 inside). -/
theorem C106_mesh (ratio : ℚ) (n : Nat) (m : Matrix Bool) (hm : mesh ratio n = .ok m) :
    ∃ h w, 2 ≤ h ∧ h ≤ w ∧ h * w = n ∧ ∀ r c, r < h → c < w →
      neighbors m (r * w + c) =
        (if 0 < r then [(r - 1) * w + c] else []) ++ (if 0 < c then [r * w + (c - 1)] else []) ++
        (if c + 1 < w then [r * w + (c + 1)] else []) ++
        (if r + 1 < h then [(r + 1) * w + c] else []) := by
  unfold mesh at hm
  split at hm
  · cases hm
  rename_i h hh
  cases hm
  obtain ⟨hh1, hh2, hh3⟩ := meshHeight_bounds hh
  obtain ⟨w, rfl⟩ := hh3
  have hwdiv : h * w / h = w := Nat.mul_div_cancel_left w (by omega)
  rw [hwdiv]
  have hhw : h ≤ w := Nat.le_of_mul_le_mul_left hh2 (by omega)
  refine ⟨h, w, hh1, hhw, rfl, ?_⟩
  intro r c hr hc
  obtain ⟨hsq, hget⟩ := meshLoop_spec w (h * w)
  have hin : ∀ r c, r < h → c < w → r * w + c < h * w := by
    intro r c hr hc
    have : (r + 1) * w ≤ h * w := Nat.mul_le_mul_right w hr
    have : (r + 1) * w = r * w + w := by ring
    omega
  have hi := hin r c hr hc
  have hup : 0 < r → (r - 1) * w + w = r * w := by
    intro h0
    obtain ⟨r', rfl⟩ : ∃ r', r = r' + 1 := ⟨r - 1, by omega⟩
    simp; ring
  have hdown : (r + 1) * w = r * w + w := by ring
  -- links between two numbered islands
  have hlink : ∀ a b, a < b → (meshLink w a b = true ↔ (b = a + 1 ∧ b % w ≠ 0) ∨ b = a + w) := by
    intro a b hab
    unfold meshLink
    simp only [Bool.or_eq_true, Bool.and_eq_true, decide_eq_true_eq]
    constructor
    · rintro (⟨h1, h2⟩ | h1)
      · exact Or.inl ⟨by omega, h2⟩
      · exact Or.inr (by omega)
    · rintro (⟨h1, h2⟩ | h1)
      · exact Or.inl ⟨by omega, h2⟩
      · exact Or.inr (by omega)
  apply eq_of_mem_iff (sorted_neighbors _ _)
  · by_cases h1 : 0 < r <;> by_cases h2 : 0 < c <;> by_cases h3 : c + 1 < w <;>
      by_cases h4 : r + 1 < h <;> simp [h1, h2, h3, h4] <;>
      first
        | omega
        | (try have := hup h1
           (try and_intros) <;> (try omega))
  · intro j
    rw [mem_neighbors hsq]
    constructor
    · rintro ⟨hj, hv⟩
      rw [hget _ j hi hj] at hv
      simp only [Bool.or_eq_true, Bool.and_eq_true, decide_eq_true_eq] at hv
      simp only [List.mem_append]
      rcases hv with ⟨hlt, hv⟩ | ⟨hlt, hv⟩
      · rw [hlink _ _ hlt] at hv
        rcases hv with ⟨e, hne⟩ | e
        · have hcw : c + 1 < w := by
            by_contra hcon
            have hcw : c + 1 = w := by omega
            apply hne
            rw [e, Nat.add_assoc, hcw, ← hdown]
            exact Nat.mul_mod_left _ _
          exact Or.inl (Or.inr (by rw [if_pos hcw]; simp; omega))
        · have hrh : r + 1 < h := by
            by_contra hcon
            have hrh : r + 1 = h := by omega
            rw [hrh] at hdown
            omega
          exact Or.inr (by rw [if_pos hrh]; simp; omega)
      · rw [hlink _ _ hlt] at hv
        rcases hv with ⟨e, hne⟩ | e
        · have hc0 : 0 < c := by
            by_contra hcon
            have : c = 0 := by omega
            apply hne
            rw [this]
            simp
          exact Or.inl (Or.inl (Or.inr (by rw [if_pos hc0]; simp; omega)))
        · have hr0 : 0 < r := by
            by_contra hcon
            have : r = 0 := by omega
            rw [this] at e
            omega
          have := hup hr0
          exact Or.inl (Or.inl (Or.inl (by rw [if_pos hr0]; simp; omega)))
    · intro hj
      simp only [List.mem_append] at hj
      have fin : ∀ j, j < h * w → ((r * w + c < j ∧ meshLink w (r * w + c) j = true) ∨
          (j < r * w + c ∧ meshLink w j (r * w + c) = true)) →
          j < h * w ∧ getM false ((List.range (h * w)).foldl (meshOuter w (h * w))
            (filled (h * w) false)) (r * w + c) j = true := by
        intro j hj hv
        refine ⟨hj, ?_⟩
        rw [hget _ j hi hj]
        simpa only [Bool.or_eq_true, Bool.and_eq_true, decide_eq_true_eq] using hv
      rcases hj with ((hj | hj) | hj) | hj
      · split at hj
        · rename_i h0
          have := hup h0
          have hj' : j = (r - 1) * w + c := by simpa using hj
          subst hj'
          apply fin _ (hin _ _ (by omega) hc)
          right
          refine ⟨by omega, (hlink _ _ (by omega)).mpr (Or.inr (by omega))⟩
        · cases hj
      · split at hj
        · rename_i h0
          have hj' : j = r * w + (c - 1) := by simpa using hj
          subst hj'
          apply fin _ (hin _ _ hr (by omega))
          right
          refine ⟨by omega, (hlink _ _ (by omega)).mpr (Or.inl ⟨by omega, ?_⟩)⟩
          rw [Nat.mul_add_mod_of_lt hc]
          omega
        · cases hj
      · split at hj
        · rename_i h0
          have hj' : j = r * w + (c + 1) := by simpa using hj
          subst hj'
          apply fin _ (hin _ _ hr h0)
          left
          refine ⟨by omega, (hlink _ _ (by omega)).mpr (Or.inl ⟨by omega, ?_⟩)⟩
          rw [Nat.mul_add_mod_of_lt h0]
          omega
        · cases hj
      · split at hj
        · rename_i h0
          have hj' : j = (r + 1) * w + c := by simpa using hj
          subst hj'
          apply fin _ (hin _ _ h0 hc)
          left
          refine ⟨by omega, (hlink _ _ (by omega)).mpr (Or.inr (by omega))⟩
        · cases hj

end Paradiseo.Smp
