import Verif.Props.SmpTopology

/-! Properties of the smp topologies, continued: the mesh on prime sizes, connectivity, isolation of
a stopped island, topology files. -/

namespace Paradiseo.Smp

example : (mesh 1 9).map (fun m => neighbors m 4) = .ok [1, 3, 5, 7] := by
  have : meshHeight 1 9 = .ok 3 := by
    norm_num [meshHeight, factorization, List.range'_succ, List.filter_cons, meshSearch]
  simp only [mesh, this]
  decide +kernel

/-! ## C107: which sizes the mesh can be built for -/

/-- A number of islands that can be laid out on a rectangle with at least two rows and columns. -/
def Rectangular (n : Nat) : Prop := ∃ a b, 2 ≤ a ∧ 2 ≤ b ∧ n = a * b

theorem meshHeight_of_rectangular {n : Nat} (h : Rectangular n) :
    ∃ k, meshHeight 1 n = .ok k := by
  obtain ⟨a, b, ha, hb, rfl⟩ := h
  -- the smaller side is a second entry of the list of divisors
  obtain ⟨x, hx1, hx2⟩ : ∃ x, 2 ≤ x ∧ x ∈ factorization (a * b) := by
    rcases Nat.le_total a b with hab | hab
    · exact ⟨a, ha, mem_factorization.mpr ⟨by omega, Nat.mul_le_mul_left a hab, ⟨b, rfl⟩⟩⟩
    · exact ⟨b, hb, mem_factorization.mpr ⟨by omega, Nat.mul_le_mul_right b hab, ⟨a, mul_comm a b⟩⟩⟩
  have hn : 4 ≤ a * b := Nat.mul_le_mul ha hb
  generalize a * b = n at *
  have h1 : (1 : Nat) ∈ factorization n := mem_factorization.mpr ⟨by omega, by omega, one_dvd n⟩
  have hlen : 2 ≤ (factorization n).length := by
    by_contra hcon
    have hne := factorization_ne_nil (n := n) (by omega)
    obtain ⟨y, hy⟩ : ∃ y, factorization n = [y] := by
      apply List.length_eq_one_iff.mp
      have := List.length_pos_iff.mpr hne
      omega
    rw [hy] at h1 hx2
    simp at h1 hx2
    omega
  obtain ⟨s1, s2, s3, s4⟩ := meshSearch_spec 1 n (factorization n) 0 (factorization_ne_nil (by omega))
  have hpos : 0 < meshSearch 1 n (factorization n) 0 := by
    rcases s4 with h | ⟨y, hy, hy'⟩
    · omega
    · by_contra hcon
      have h0 : meshSearch 1 n (factorization n) 0 = 0 := by omega
      rw [h0] at hy
      -- the first divisor is 1
      have hy1 : y = 1 := by
        obtain ⟨k, hk, hk1⟩ := List.getElem_of_mem h1
        have hlt : 0 < (factorization n).length := by omega
        have h2 : (factorization n)[0] = y := by
          rw [Nat.sub_zero, List.getElem?_eq_getElem hlt] at hy
          exact Option.some_injective _ hy
        have h3 : 0 < y := h2 ▸ (mem_factorization.mp (List.getElem_mem hlt)).1
        rcases Nat.eq_zero_or_pos k with hk0 | hk0
        · subst hk0
          omega
        · have := List.pairwise_iff_getElem.mp (factorization_sorted n) 0 k hlt hk hk0
          omega
      subst hy1
      have hnq : (4 : ℚ) ≤ n := by exact_mod_cast hn
      rw [Nat.cast_one, one_mul, le_div_iff₀ (by linarith)] at hy'
      linarith
  unfold meshHeight
  dsimp only
  generalize meshSearch 1 n (factorization n) 0 = i at *
  cases i with
  | zero => omega
  | succ i =>
    rw [List.getElem?_eq_getElem (show i + 1 < (factorization n).length by omega),
      List.getElem?_eq_getElem (show i + 1 - 1 < (factorization n).length by omega)]
    exact ⟨_, rfl⟩

/-- With the default ratio the mesh is built for exactly the numbers of islands that are a product
of two numbers greater than one; for 0, 1 or a prime number of islands the construction reads far
outside its list of divisors.  When it is built, the rectangle is the one closest to a square. -/
theorem C107_mesh_sizes (n : Nat) :
    (Rectangular n → ∃ m, mesh 1 n = .ok m) ∧
    (¬ Rectangular n → mesh 1 n = .error .ub) ∧
    ∀ h, meshHeight 1 n = .ok h → ∀ d, d * d ≤ n → d ∣ n → d ≤ h := by
  refine ⟨?_, ?_, ?_⟩
  · intro hr
    obtain ⟨k, hk⟩ := meshHeight_of_rectangular hr
    unfold mesh
    rw [hk]
    exact ⟨_, rfl⟩
  · intro hr
    unfold mesh
    cases hh : meshHeight 1 n with
    | ok h =>
      exfalso
      obtain ⟨h1, h2, w, rfl⟩ := meshHeight_bounds hh
      exact hr ⟨h, w, h1, by
        have := Nat.le_of_mul_le_mul_left h2 (by omega)
        omega, rfl⟩
    | error e =>
      unfold meshHeight at hh
      dsimp only at hh
      split at hh <;> first | (cases hh; rfl) | cases hh
  · intro h hh d hd1 hd2
    obtain ⟨hn, hpos, hget⟩ := meshHeight_spec hh
    have hd0 : 0 < d := Nat.pos_of_dvd_of_pos hd2 hn
    obtain ⟨k, hk, hkd⟩ := List.getElem_of_mem (mem_factorization.mpr ⟨hd0, hd1, hd2⟩)
    obtain ⟨s1, s2, s3, s4⟩ := meshSearch_spec 1 n (factorization n) 0 (factorization_ne_nil hn)
    have hnq : (0 : ℚ) < n := by exact_mod_cast hn
    generalize meshSearch 1 n (factorization n) 0 = i at *
    rw [List.getElem?_eq_some_iff] at hget
    obtain ⟨hi, hget⟩ := hget
    rcases s4 with hlast | ⟨y, hy, hy'⟩
    · rcases Nat.lt_or_ge k i with hki | hki
      · have := List.pairwise_iff_getElem.mp (factorization_sorted n) k i hk hi hki
        omega
      · have hki : k = i := by omega
        subst hki
        omega
    · have hyh : y = h := by
        rw [Nat.sub_zero, List.getElem?_eq_getElem hi] at hy
        have := Option.some_injective _ hy
        omega
      subst hyh
      rw [le_div_iff₀ hnq, one_mul] at hy'
      have hy2 : n ≤ y * y := by exact_mod_cast hy'
      exact Nat.mul_self_le_mul_self_iff.mp (le_trans hd1 hy2)

theorem not_rectangular_prime {p : Nat} (hp : p.Prime) : ¬ Rectangular p := by
  rintro ⟨a, b, ha, hb, rfl⟩
  exact Nat.not_prime_mul (by omega) (by omega) hp

example : Rectangular 12 := ⟨3, 4, by norm_num, by norm_num, by norm_num⟩
/-- A mesh of seven islands is undefined behaviour. -/
example : mesh 1 7 = .error .ub := (C107_mesh_sizes 7).2.1 (not_rectangular_prime (by decide))

/-! ## C108: can emigrants travel from every island to every other one? -/

/-- Emigrants of island `i` can reach island `j` in some number of migrations. -/
def Reaches (m : Matrix Bool) : Nat → Nat → Prop :=
  Relation.ReflTransGen (fun i j => j ∈ neighbors m i)

/-- On a ring every island reaches every other one. -/
theorem C108_ring (n i j : Nat) (hi : i < n) (hj : j < n) : Reaches (ring n) i j := by
  have fwd : ∀ k a, a + k < n → Reaches (ring n) a (a + k) := by
    intro k
    induction k with
    | zero => intro a _; exact .refl
    | succ k ih =>
      intro a h
      refine (ih a (by omega)).tail ?_
      rw [C106_ring n (a + k) (by omega), Nat.mod_eq_of_lt (by omega)]
      simp [Nat.add_assoc]
  have h1 : Reaches (ring n) i (n - 1) := by
    have := fwd (n - 1 - i) i (by omega)
    rwa [show i + (n - 1 - i) = n - 1 by omega] at this
  have h2 : Reaches (ring n) (n - 1) 0 := by
    apply Relation.ReflTransGen.single
    rw [C106_ring n (n - 1) (by omega), show n - 1 + 1 = n by omega, Nat.mod_self]
    simp
  have h3 : Reaches (ring n) 0 j := by simpa using fwd j 0 (by omega)
  exact (h1.trans h2).trans h3

/-- On a complete topology every island reaches every other one in one migration. -/
theorem C108_complete (n i j : Nat) (hi : i < n) (hj : j < n) : Reaches (complete n) i j := by
  by_cases h : j = i
  · subst h; exact .refl
  · exact .single ((C106_complete n i j hi).mpr ⟨hj, h⟩)

/-- On a hypercube every island reaches every other one. -/
theorem C108_hypercubic (n : Nat) (hn : n < 2 ^ 32) (m : Matrix Bool) (hm : hypercubic n = .ok m)
    (i j : Nat) (hi : i < n) (hj : j < n) : Reaches m i j := by
  have adj := (C106_hypercubic n hn).2.2.2 m hm
  have key : ∀ i, i < n → Reaches m i 0 ∧ Reaches m 0 i := by
    intro i
    induction i using Nat.strong_induction_on with
    | _ i ih =>
      intro hi
      by_cases h0 : i = 0
      · subst h0; exact ⟨.refl, .refl⟩
      · -- remove the leading digit
        have hlog := Nat.log2_self_le h0
        have hlog2 : i < 2 ^ (i.log2 + 1) := Nat.lt_log2_self
        have hpow : 2 ^ (i.log2 + 1) = 2 ^ i.log2 + 2 ^ i.log2 := by ring
        have hpos : 0 < 2 ^ i.log2 := Nat.pow_pos (by norm_num)
        obtain ⟨x, hx⟩ : ∃ x, i = x + 2 ^ i.log2 := ⟨i - 2 ^ i.log2, by omega⟩
        have hxl : x < 2 ^ i.log2 := by omega
        have hone : OneBit x i := by
          have := (oneBit_add hxl hxl).mpr rfl
          rwa [← hx] at this
        obtain ⟨r1, r2⟩ := ih x (by omega) (by omega)
        exact ⟨Relation.ReflTransGen.head ((adj i x hi).mpr ⟨by omega, oneBit_symm hone⟩) r1,
          r2.tail ((adj x i (by omega)).mpr ⟨hi, hone⟩)⟩
  exact (key i hi).1.trans (key j hj).2

/-- On a mesh every island reaches every other one. -/
theorem C108_mesh (ratio : ℚ) (n : Nat) (m : Matrix Bool) (hm : mesh ratio n = .ok m)
    (i j : Nat) (hi : i < n) (hj : j < n) : Reaches m i j := by
  obtain ⟨h, w, hh, hhw, rfl, adj⟩ := C106_mesh ratio n m hm
  have key : ∀ r c, r < h → c < w → Reaches m (r * w + c) 0 ∧ Reaches m 0 (r * w + c) := by
    intro r
    induction r with
    | zero =>
      intro c
      induction c with
      | zero =>
        intro _ _
        have h0 : Reaches m 0 0 := .refl
        simpa using h0
      | succ c ih =>
        intro hr hc
        obtain ⟨r1, r2⟩ := ih hr (by omega)
        refine ⟨.head ?_ r1, r2.tail ?_⟩
        · rw [adj 0 (c + 1) hr hc]; simp
        · rw [adj 0 c hr (by omega)]; simp [hc]
    | succ r ih =>
      intro c hr hc
      obtain ⟨r1, r2⟩ := ih c (by omega) hc
      refine ⟨.head ?_ r1, r2.tail ?_⟩
      · rw [adj (r + 1) c hr hc]; simp
      · rw [adj r c (by omega) hc]; simp [hr]
  have hw : 0 < w := by omega
  have coord : ∀ i, i < h * w → i / w < h ∧ i % w < w ∧ i / w * w + i % w = i := by
    intro i hi
    refine ⟨Nat.div_lt_of_lt_mul (by rwa [Nat.mul_comm]), Nat.mod_lt _ hw, ?_⟩
    have := Nat.div_add_mod i w
    rw [Nat.mul_comm] at this
    exact this
  obtain ⟨i1, i2, i3⟩ := coord i hi
  obtain ⟨j1, j2, j3⟩ := coord j hj
  have a := (key _ _ i1 i2).1
  have b := (key _ _ j1 j2).2
  rw [i3] at a
  rw [j3] at b
  exact a.trans b

/-- On a star no emigrant of the centre ever reaches another island, and no emigrant travels between
two outer islands. -/
theorem C108_star (c n : Nat) (m : Matrix Bool) (hm : star c n = .ok m) (i j : Nat) (hi : i < n)
    (hr : Reaches m i j) : j = i ∨ j = c := by
  have hc : c < n := (star_spec hm).1
  obtain ⟨m', hm', h1, h2⟩ := (C106_star c n).2 hc
  rw [hm] at hm'
  cases hm'
  induction hr with
  | refl => exact Or.inl rfl
  | @tail b d hb hd ih =>
    right
    rcases ih with rfl | rfl
    · by_cases hbc : b = c
      · rw [hbc, h1] at hd; cases hd
      · rw [h2 b hi hbc] at hd
        simpa using hd
    · rw [h1] at hd; cases hd

example : Reaches (ring 5) 3 1 := C108_ring 5 3 1 (by norm_num) (by norm_num)
example : ∃ m, hypercubic 8 = .ok m ∧ Reaches m 1 6 := by
  obtain ⟨m, hm⟩ := (C106_hypercubic 8 (by norm_num)).1.mpr ⟨3, by norm_num⟩
  exact ⟨m, hm, C108_hypercubic 8 (by norm_num) m hm 1 6 (by norm_num) (by norm_num)⟩
example : ∃ m, star 0 4 = .ok m ∧ ¬ Reaches m 0 3 := by
  obtain ⟨m, hm, -⟩ := (C106_star 0 4).2 (by norm_num)
  refine ⟨m, hm, fun h => ?_⟩
  have := C108_star 0 4 m hm 0 3 (by norm_num) h
  omega

/-! ## C109: isolation of a stopped island -/

/-- Isolating an island removes it from everybody's neighbours and leaves it without neighbours; all
other links are unchanged.  This holds for every square matrix, so for every topology that can be
built or loaded, and however many islands were isolated before. -/
theorem C109_isolate (m : Matrix Bool) (n : Nat) (hsq : Square m n) (id : Nat) (hid : id < n) :
    Square (isolateNode false m id) n ∧
    neighbors (isolateNode false m id) id = [] ∧
    ∀ i, i < n → i ≠ id →
      neighbors (isolateNode false m id) i = (neighbors m i).filter (fun j => decide (j ≠ id)) := by
  obtain ⟨q, hget⟩ := isolate_spec false hsq hid
  refine ⟨q, ?_, ?_⟩
  · apply eq_of_mem_iff (sorted_neighbors _ _) (by simp)
    intro j
    rw [mem_neighbors q]
    constructor
    · rintro ⟨hj, hv⟩
      rw [hget id j hid hj] at hv
      simp at hv
    · simp
  · intro i hi hne
    apply eq_of_mem_iff (sorted_neighbors _ _) ((sorted_neighbors _ _).filter _)
    intro j
    rw [mem_neighbors q, List.mem_filter, mem_neighbors hsq]
    constructor
    · rintro ⟨hj, hv⟩
      rw [hget i j hi hj] at hv
      split at hv
      · cases hv
      · rename_i h
        push Not at h
        exact ⟨⟨hj, hv⟩, decide_eq_true h.2⟩
    · rintro ⟨⟨hj, hv⟩, hjd⟩
      refine ⟨hj, ?_⟩
      rw [hget i j hi hj, if_neg]
      · exact hv
      · push Not
        exact ⟨hne, of_decide_eq_true hjd⟩

/-- The same for a stochastic topology, whatever the random draws in [0, 1): the isolated island
neither sends nor receives, for the others the draws decide as before. -/
theorem C109_isolate_stochastic (m : Matrix ℚ) (n : Nat) (hsq : Square m n) (id : Nat)
    (hid : id < n) (u : Nat → ℚ) (hu : ∀ j, 0 ≤ u j) :
    stochNeighbors (isolateNode 0 m id) u id = [] ∧
    ∀ i, i < n → i ≠ id →
      stochNeighbors (isolateNode 0 m id) u i =
        (stochNeighbors m u i).filter (fun j => decide (j ≠ id)) := by
  obtain ⟨q, hget⟩ := isolate_spec 0 hsq hid
  unfold stochNeighbors
  rw [q.1, hsq.1]
  refine ⟨?_, ?_⟩
  · rw [List.filter_eq_nil_iff]
    intro j hj
    rw [hget id j hid (List.mem_range.mp hj)]
    simpa using hu j
  · intro i hi hne
    rw [List.filter_filter]
    apply List.filter_congr
    intro j hj
    rw [hget i j hi (List.mem_range.mp hj)]
    by_cases hjd : j = id
    · subst hjd
      simpa using hu j
    · simp [hne, hjd]

/-- After every island was isolated nobody sends to anybody. -/
theorem C109_all_isolated (m : Matrix Bool) (n : Nat) (hsq : Square m n) (ids : List Nat)
    (hids : ∀ i, i ∈ ids ↔ i < n) (i : Nat) (hi : i < n) :
    neighbors (ids.foldl (isolateNode false) m) i = [] := by
  have key : ∀ (ids : List Nat) (m : Matrix Bool), Square m n → (∀ i ∈ ids, i < n) →
      (i ∈ ids ∨ neighbors m i = []) → neighbors (ids.foldl (isolateNode false) m) i = [] := by
    intro ids
    induction ids with
    | nil => intro m _ _ h; simpa using h
    | cons k ids ih =>
      intro m hsq hlt h
      obtain ⟨q, h1, h2⟩ := C109_isolate m n hsq k (hlt k (by simp))
      refine ih _ q (fun a ha => hlt a (by simp [ha])) ?_
      by_cases hk : i = k
      · right; rw [hk]; exact h1
      · rcases h with h | h
        · left
          rcases List.mem_cons.mp h with h | h
          · exact absurd h hk
          · exact h
        · right
          rw [h2 i hi hk, h]
          rfl
  exact key ids m hsq (fun i h => (hids i).mp h) (Or.inl ((hids i).mpr hi))

example : neighbors (isolateNode false (complete 4) 2) 3 = [0, 1] ∧
    neighbors (isolateNode false (complete 4) 2) 2 = [] := by decide +kernel
example : Square (complete 4) 4 := (complete_spec 4).1

/-! ## C110: topology files -/

/-- The lines of a file that carry at least one number. -/
def filledLines {τ : Type} (lines : List (List τ)) : List (List τ) :=
  lines.filter fun l => decide (l ≠ [])

theorem loadLines_spec {τ α : Type} (conv : τ → α) (lines : List (List τ)) (s : Nat) (m : Matrix α) :
    loadLines conv lines (some s) m =
      if ∀ l ∈ filledLines lines, l.length = s then
        .ok (m ++ (filledLines lines).map (List.map conv))
      else .error .thrown := by
  induction lines generalizing m with
  | nil => simp [loadLines, filledLines]
  | cons l ls ih =>
    unfold loadLines loadLine
    simp only [Option.getD_some]
    by_cases hl : l = []
    · subst hl
      simp only [ne_eq, not_true_eq_false, and_false, if_false, if_true]
      rw [ih]
      simp [filledLines]
    · by_cases hs : l.length = s
      · simp only [hs, ne_eq, not_true_eq_false, false_and, if_false, hl]
        rw [ih]
        simp [filledLines, hl, hs]
      · simp [hs, hl, filledLines]

/-- A topology file is accepted exactly when the number of numbers on its very first line, the
number of numbers on every line that has any, and the number of such lines all agree (a file of empty
lines gives the empty topology).  A file beginning with an empty line is therefore refused unless it
is entirely empty.  The accepted matrix is square and holds the converted numbers in file order. -/
theorem C110_load {τ α : Type} (conv : τ → α) (first : List τ) (rest : List (List τ)) :
    loadTopology conv (first :: rest) =
      if (∀ l ∈ filledLines (first :: rest), l.length = first.length) ∧
          (∀ l ∈ filledLines (first :: rest), l.length = (filledLines (first :: rest)).length) then
        .ok ((filledLines (first :: rest)).map (List.map conv))
      else .error .thrown := by
  have h1 : loadLines conv (first :: rest) none [] =
      loadLines conv (first :: rest) (some first.length) [] := by
    simp [loadLines, loadLine]
  unfold loadTopology
  rw [h1, loadLines_spec]
  split
  · rename_i heq
    split at heq
    · cases heq
    · rename_i hno
      cases heq
      rw [if_neg (fun h => hno h.1)]
  · rename_i m heq
    split at heq
    · rename_i hyes
      cases heq
      simp only [List.nil_append, List.length_map, List.all_map, List.all_eq_true, Function.comp,
        decide_eq_true_eq]
      by_cases h : ∀ l ∈ filledLines (first :: rest), l.length = (filledLines (first :: rest)).length
      · rw [if_pos h, if_pos ⟨hyes, h⟩]
      · rw [if_neg h, if_neg (fun hh => h hh.2)]
    · cases heq

/-- Whatever a file contains, an accepted topology is a square matrix. -/
theorem C110_square {τ α : Type} (conv : τ → α) (lines : List (List τ)) (m : Matrix α)
    (h : loadTopology conv lines = .ok m) : Square m m.length := by
  unfold loadTopology at h
  split at h
  · cases h
  · split at h
    · rename_i hall
      cases h
      refine ⟨rfl, ?_⟩
      intro i hi
      exact of_decide_eq_true (List.all_eq_true.mp hall _ (List.getElem_mem hi))
    · cases h

/-- Entries of a stochastic topology are probabilities. -/
theorem C110_probability (x : ℚ) : 0 ≤ stochEntry x ∧ stochEntry x ≤ 1 ∧
    (0 ≤ x → x ≤ 1 → stochEntry x = x) := by
  unfold stochEntry
  split
  · rename_i h
    exact ⟨le_refl _, by norm_num, fun h0 => by linarith⟩
  · split
    · rename_i h0 h
      exact ⟨by norm_num, le_refl _, fun _ h1 => by linarith⟩
    · rename_i h0 h1
      push Not at h0 h1
      exact ⟨h0, h1, fun _ _ => rfl⟩

example : loadTopology boolEntry [[0, 1], [], [5, 0]] = .ok [[false, true], [true, false]] := by
  decide +kernel
/-- An empty first line makes the file unusable. -/
example : loadTopology boolEntry [[], [0, 1], [1, 0]] = .error .thrown := by decide +kernel

end Paradiseo.Smp
