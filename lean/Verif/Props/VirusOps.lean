import Verif.Model.VirusOps
/-
C278: bit strings with a virus.
-/
namespace Paradiseo.VirusOps

open Paradiseo.EO

/-- Two lists differ at exactly one place. -/
def DifferAt (i : Nat) (l m : List Bool) : Prop :=
  l.length = m.length ∧ ∀ j, l[j]? = m[j]? ↔ (j ≠ i ∨ l.length ≤ j)

theorem pick_lt {r n : Nat} (h : 0 < n) : pick r n < n := by
  rw [pick, if_neg (by omega)]
  exact Nat.mod_lt _ h

/-- Flipping a virus bit changes one virus bit, any of them depending on the draw, and no gene. -/
theorem C278_bit_flip {x : Vir} (hl : x.virus.length = x.genes.length) (h0 : x.genes ≠ []) :
    (∀ r, ∃ y i, bitFlip r x = .ok (y, true) ∧ y.genes = x.genes ∧ i < x.virus.length ∧ DifferAt i y.virus x.virus) ∧
    (∀ i < x.virus.length, ∃ r y, bitFlip r x = .ok (y, true) ∧ DifferAt i y.virus x.virus) := by
  have hpos : 0 < x.genes.length := List.length_pos_iff.2 h0
  have key : ∀ r, ∃ y, bitFlip r x = .ok (y, true) ∧ y.genes = x.genes ∧
      DifferAt (pick r x.genes.length) y.virus x.virus := by
    intro r
    have hp : pick r x.genes.length < x.virus.length := by rw [hl]; exact pick_lt hpos
    have hg := List.getElem?_eq_getElem hp
    refine ⟨⟨x.genes, x.virus.set (pick r x.genes.length) (!x.virus[pick r x.genes.length])⟩, by rw [bitFlip, hg], rfl,
      by simp, fun j => ?_⟩
    simp only [List.length_set]
    constructor
    · intro he
      by_contra hcon
      push Not at hcon
      obtain ⟨rfl, hj⟩ := hcon
      rw [List.getElem?_set_self hp, hg] at he
      injection he with he
      revert he
      cases x.virus[pick r x.genes.length] <;> simp
    · rintro (hj | hj)
      · rw [List.getElem?_set_ne (Ne.symm hj)]
      · rw [List.getElem?_eq_none (by simpa using hj), List.getElem?_eq_none hj]
  refine ⟨fun r => ?_, fun i hi => ?_⟩
  · obtain ⟨y, h1, h2, h3⟩ := key r
    exact ⟨y, _, h1, h2, by rw [hl]; exact pick_lt hpos, h3⟩
  · obtain ⟨y, h1, -, h3⟩ := key i
    have : pick i x.genes.length = i := by
      rw [pick, if_neg (by omega), Nat.mod_eq_of_lt (by omega)]
    rw [this] at h3
    exact ⟨i, y, h1, h3⟩

/-- Mutation by the virus flips one gene, at a place the virus marks - any of them depending on the draw - and leaves
the virus; without a mark it changes nothing and says so. -/
theorem C278_mutation {x : Vir} (hl : x.virus.length = x.genes.length) :
    ((∀ i : Nat, x.virus[i]? ≠ some true) → ∀ r, mutation r x = .ok (x, false)) ∧
    ((∃ i : Nat, x.virus[i]? = some true) → ∀ r, ∃ (y : Vir) (i : Nat), mutation r x = .ok (y, true) ∧ y.virus = x.virus ∧
      x.virus[i]? = some true ∧ DifferAt i y.genes x.genes) ∧
    (∀ i : Nat, x.virus[i]? = some true → ∃ r y, mutation r x = .ok (y, true) ∧ DifferAt i y.genes x.genes) := by
  have hnl : ¬ x.virus.length < x.genes.length := by omega
  have hm : ∀ i : Nat, i ∈ marks x ↔ x.virus[i]? = some true := by
    intro i
    rw [marks, List.mem_filter, List.mem_range]
    constructor
    · intro h; simpa using h.2
    · intro h
      refine ⟨?_, by simp [h]⟩
      have := (List.getElem?_eq_some_iff.1 h).1
      omega
  have key : ∀ r i, (marks x)[pick r (marks x).length]? = some i → ∃ y, mutation r x = .ok (y, true) ∧
      y.virus = x.virus ∧ x.virus[i]? = some true ∧ DifferAt i y.genes x.genes := by
    intro r i hi
    have h1 := (hm i).1 (List.mem_of_getElem? hi)
    have hlt : i < x.genes.length := by
      have := (List.getElem?_eq_some_iff.1 h1).1
      omega
    refine ⟨⟨x.genes.modify i (!·), x.virus⟩, by rw [mutation, if_neg hnl, hi], rfl, h1, by simp, fun j => ?_⟩
    simp only [List.length_modify, List.getElem?_modify]
    constructor
    · intro he
      by_contra hcon
      push Not at hcon
      obtain ⟨rfl, hj⟩ := hcon
      rw [List.getElem?_eq_getElem hj] at he
      revert he
      cases x.genes[j] <;> simp
    · rintro (hj | hj)
      · rcases hx : x.genes[j]? with _ | b
        · simp
        · simp [Ne.symm hj]
      · rw [List.getElem?_eq_none hj]; simp
  refine ⟨fun h r => ?_, fun h r => ?_, fun i hi => ?_⟩
  · have : marks x = [] := by
      rw [List.eq_nil_iff_forall_not_mem]
      exact fun i hi => h i ((hm i).1 hi)
    rw [mutation, if_neg hnl, this]
    simp
  · obtain ⟨i, hi⟩ := h
    have hpos : 0 < (marks x).length := List.length_pos_of_mem ((hm i).2 hi)
    have hp := pick_lt (r := r) hpos
    obtain ⟨y, h1, h2, h3, h4⟩ := key r _ (List.getElem?_eq_getElem hp)
    exact ⟨y, _, h1, h2, h3, h4⟩
  · obtain ⟨k, hk, e⟩ := List.mem_iff_getElem.1 ((hm i).2 hi)
    have hp : pick k (marks x).length = k := by
      rw [pick, if_neg (by omega), Nat.mod_eq_of_lt hk]
    obtain ⟨y, h1, -, -, h4⟩ := key k i (by rw [hp, List.getElem?_eq_getElem hk, e])
    exact ⟨k, y, h1, h4⟩

/-- Transmission copies the whole virus and no gene. -/
theorem C278_transmission {x y : Vir} (hx : x.virus.length = x.genes.length) (hy : y.virus.length = x.genes.length) :
    transmission x y = .ok (⟨x.genes, y.virus⟩, true) := by
  rw [transmission, if_neg (by omega), ← hy, List.take_length, hy, ← hx, List.drop_length, List.append_nil]

/-- With a virus shorter than the genes - as after reading - all of them access it out of range or rely on it. -/
theorem C278_short {x y : Vir} (h : x.virus.length < x.genes.length) (r : Nat) (g : Nat → Bool) :
    mutation r x = .error .ub ∧ shift g x = .error .ub ∧ transmission x y = .error .ub := by
  refine ⟨by rw [mutation, if_pos h], by rw [shift, if_pos h], by rw [transmission, if_pos (Or.inl h)]⟩

/-! ### Shifting -/

theorem shiftAt_length (n i : Nat) (g : Bool) (v : List Bool) : (shiftAt n i g v).length = v.length := by
  unfold shiftAt
  split
  · split
    · split <;> simp
    · split <;> simp
  · rfl

theorem shiftLoop_length (n : Nat) (g : Nat → Bool) : ∀ (k i : Nat) (v : List Bool),
    (shiftLoop n g k i v).length = v.length
  | 0, _, _ => rfl
  | k + 1, i, v => by rw [shiftLoop, shiftLoop_length n g k, shiftAt_length]

theorem count_set_le (v : List Bool) (i : Nat) (b : Bool) : (v.set i b).count true ≤ v.count true + (if b then 1 else 0) := by
  induction v generalizing i with
  | nil => simp
  | cons a v ih =>
    cases i with
    | zero => cases a <;> cases b <;> simp
    | succ i =>
      have := ih i
      simp only [List.set_cons_succ, List.count_cons]
      omega

theorem count_set_false {v : List Bool} {i : Nat} (h : v[i]? = some true) :
    (v.set i false).count true + 1 = v.count true := by
  induction v generalizing i with
  | nil => simp at h
  | cons a v ih =>
    cases i with
    | zero =>
      simp at h
      subst h
      simp
    | succ i =>
      have := ih (i := i) (by simpa using h)
      simp only [List.set_cons_succ, List.count_cons]
      omega

theorem move_count {v : List Bool} {i j : Nat} (hij : j ≠ i) (h : v[i]? = some true) :
    ((v.set j true).set i false).count true ≤ v.count true := by
  have h1 : (v.set j true)[i]? = some true := by rw [List.getElem?_set_ne hij]; exact h
  have h2 := count_set_false h1
  have h3 := count_set_le v j true
  simp only [if_true] at h3
  omega

theorem shiftAt_count (n i : Nat) (g : Bool) (v : List Bool) : (shiftAt n i g v).count true ≤ v.count true := by
  unfold shiftAt
  split
  · rename_i h
    split
    · split
      · exact move_count (by omega) h
      · exact le_rfl
    · split
      · exact move_count (by omega) h
      · exact le_rfl
  · exact le_rfl

theorem shiftAt_some {n i : Nat} {g : Bool} {v : List Bool} (hn : n ≤ v.length) (h : true ∈ v) :
    true ∈ shiftAt n i g v := by
  unfold shiftAt
  split
  · rename_i hi
    have hil : i < v.length := (List.getElem?_eq_some_iff.1 hi).1
    have key : ∀ j, j < v.length → j ≠ i → true ∈ (v.set j true).set i false := by
      intro j hj hji
      refine List.mem_of_getElem? (i := j) ?_
      rw [List.getElem?_set_ne (Ne.symm hji), List.getElem?_set_self hj]
    split
    · split
      · exact key (i + 1) (by omega) (by omega)
      · exact h
    · split
      · exact key (i - 1) (by omega) (by omega)
      · exact h
  · exact h

theorem shiftAt_zero {n i : Nat} {g : Bool} {v : List Bool} (h : (shiftAt n i g v)[0]? = some true) :
    v[0]? = some true := by
  unfold shiftAt at h
  split at h
  · rename_i hi
    split at h
    · split at h
      · by_cases h0 : i = 0
        · subst h0
          exact hi
        · rw [List.getElem?_set_ne h0, List.getElem?_set_ne (by omega)] at h
          exact h
      · exact h
    · split at h
      · rw [List.getElem?_set_ne (by omega), List.getElem?_set_ne (by omega)] at h
        exact h
      · exact h
  · exact h

/-- Shifting the virus touches no gene; there are never more marks than before and never none if there was one; and
the first place is never reached: it is marked afterwards only if it was before, although a mark at the second place
should be able to move there. -/
theorem C278_shift {x : Vir} (hl : x.virus.length = x.genes.length) (g : Nat → Bool) :
    ∃ y, shift g x = .ok (y, true) ∧ y.genes = x.genes ∧ y.virus.length = x.virus.length ∧
      y.virus.count true ≤ x.virus.count true ∧ (true ∈ x.virus → true ∈ y.virus) ∧
      (y.virus[0]? = some true → x.virus[0]? = some true) := by
  have key : ∀ (n k i : Nat) (v : List Bool), n ≤ v.length →
      (shiftLoop n g k i v).count true ≤ v.count true ∧ (true ∈ v → true ∈ shiftLoop n g k i v) ∧
        ((shiftLoop n g k i v)[0]? = some true → v[0]? = some true) := by
    intro n k
    induction k with
    | zero => intro i v _; exact ⟨le_rfl, id, id⟩
    | succ k ih =>
      intro i v hv
      obtain ⟨h1, h2, h3⟩ := ih (i + 1) (shiftAt n i (g i) v) (by rw [shiftAt_length]; exact hv)
      rw [shiftLoop]
      exact ⟨h1.trans (shiftAt_count n i (g i) v), fun h => h2 (shiftAt_some hv h), fun h => shiftAt_zero (h3 h)⟩
  obtain ⟨h1, h2, h3⟩ := key x.genes.length x.genes.length 0 x.virus hl.ge
  exact ⟨⟨x.genes, shiftLoop x.genes.length g x.genes.length 0 x.virus⟩, by rw [shift, if_neg (by omega)], rfl,
    shiftLoop_length _ _ _ _ _, h1, h2, h3⟩

/-- The coin of the second place makes no difference when it asks to go to the first. -/
theorem C278_second_place (n : Nat) (v : List Bool) : shiftAt n 1 false v = v := by
  unfold shiftAt
  split <;> simp

/-- Marks that move right are seen again at the next place: with all coins right every mark is swept to the last
place in one application. -/
theorem C278_sweep {x : Vir} (hl : x.virus.length = x.genes.length) (hm : true ∈ x.virus) :
    ∃ y, shift (fun _ => true) x = .ok (y, true) ∧
      y.virus = List.replicate (x.virus.length - 1) false ++ [true] := by
  -- after the places before `i` no mark is left there
  have key : ∀ (k i : Nat) (v : List Bool), i + k = v.length → true ∈ v → (∀ j < i, v[j]? = some false) →
      i < v.length → shiftLoop v.length (fun _ => true) k i v = List.replicate (v.length - 1) false ++ [true] := by
    intro k
    induction k with
    | zero => intro i v h1 _ _ h4; omega
    | succ k ih =>
      intro i v h1 h2 h3 h4
      rw [shiftLoop]
      by_cases hlast : i + 1 < v.length
      · have hlen := shiftAt_length v.length i true v
        have := ih (i + 1) (shiftAt v.length i true v) (by rw [hlen]; omega) (shiftAt_some le_rfl h2) (by
          intro j hj
          unfold shiftAt
          split
          · simp only [if_true, if_pos hlast]
            by_cases hji : j = i
            · subst hji
              rw [List.getElem?_set_self (by simpa using h4)]
            · rw [List.getElem?_set_ne (Ne.symm hji), List.getElem?_set_ne (by omega)]
              exact h3 j (by omega)
          · rename_i hi
            by_cases hji : j = i
            · subst hji
              rw [List.getElem?_eq_getElem h4] at hi ⊢
              revert hi
              cases v[j] <;> simp
            · exact h3 j (by omega)) (by rw [hlen]; exact hlast)
        rw [hlen] at this
        exact this
      · have hi : i = v.length - 1 := by omega
        have hk : k = 0 := by omega
        subst hk
        have hs : shiftAt v.length i true v = v := by
          unfold shiftAt
          simp [hlast]
        rw [shiftLoop, hs]
        have hvi : v[i]? = some true := by
          obtain ⟨j, hj, e⟩ := List.mem_iff_getElem.1 h2
          by_cases hji : j = i
          · subst hji; rw [List.getElem?_eq_getElem hj, e]
          · have := h3 j (by omega)
            rw [List.getElem?_eq_getElem hj, e] at this
            exact absurd this (by simp)
        apply List.ext_getElem?
        intro j
        rcases Nat.lt_trichotomy j i with hj | hj | hj
        · rw [h3 j hj, List.getElem?_append_left (by simp; omega), List.getElem?_replicate, if_pos (by omega)]
        · subst hj
          rw [hvi, List.getElem?_append_right (by simp; omega)]
          simp [← hi]
        · rw [List.getElem?_eq_none (by omega), List.getElem?_eq_none (by simp; omega)]
  have hpos : 0 < x.virus.length := List.length_pos_of_mem hm
  refine ⟨_, by rw [shift, if_neg (by omega)], ?_⟩
  have := key x.virus.length 0 x.virus (by omega) hm (by omega) hpos
  rw [← hl]
  exact this

/-! ### Initialisation -/

/-- Initialisation: as many genes and virus bits as asked for. The initialiser for one virus bit sets the first and
keeps the others: exactly one is marked in a new object, but marks of an object used before stay. -/
theorem C278_init (n : Nat) (g : Nat → Bool) (x : Vir) :
    (initVirus n g x).genes.length = n ∧ (initVirus n g x).virus.length = n ∧
    (0 < n → ∃ y, initVirus1 n g x = .ok y ∧ y.genes.length = n ∧ y.virus.length = n ∧ y.virus[0]? = some true ∧
      ∀ i, 0 < i → (y.virus[i]? = some true ↔ i < n ∧ x.virus[i]? = some true)) ∧
    initVirus1 0 g x = .error .ub := by
  refine ⟨by simp [initVirus], by simp [initVirus], fun hn => ?_, rfl⟩
  have hlen : (resized n x.virus).length = n := by
    simp only [resized, List.length_append, List.length_take, List.length_replicate]
    omega
  refine ⟨_, by rw [initVirus1, if_neg (by omega)], by simp, by simp [hlen], ?_, fun i hi => ?_⟩
  · rw [List.getElem?_set_self (by omega)]
  · simp only
    rw [List.getElem?_set_ne (by omega), resized]
    by_cases h1 : i < (x.virus.take n).length
    · rw [List.getElem?_append_left h1, List.getElem?_take]
      rw [List.length_take] at h1
      rw [if_pos (by omega)]
      exact ⟨fun h => ⟨by omega, h⟩, fun h => h.2⟩
    · rw [List.getElem?_append_right (by omega), List.getElem?_replicate]
      rw [List.length_take] at h1
      constructor
      · intro h
        split at h <;> simp at h
      · rintro ⟨h2, h3⟩
        have := (List.getElem?_eq_some_iff.1 h3).1
        omega

example : shift (fun _ => true) ⟨[true, false, true], [true, false, false]⟩ =
    .ok (⟨[true, false, true], [false, false, true]⟩, true) := by decide
example : mutation 0 ⟨[true, false, true], [false, true, false]⟩ =
    .ok (⟨[true, true, true], [false, true, false]⟩, true) := by decide
example : true ∈ [true, false, false] ∧ [true, false, false].length = [true, false, true].length := by decide

end Paradiseo.VirusOps
