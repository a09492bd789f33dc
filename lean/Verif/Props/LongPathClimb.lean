/-
Property C388: the hill climbers walk the whole long path, and end at its end from any start.
-/
import Verif.Props.OneMaxClimb
import Verif.Props.LongPath

namespace Paradiseo.LS

/-- A climber on states that count down: `Good p z` says that `z` improvements are left. -/
theorem climb_count {S M F : Type} [LinearOrder F] {nb : Nat → S × F → List (Cand M F)} {app : M → S → S}
    {ex : Explorer (S × F) (HC M F)} {inv : HC M F → Prop} (hc : Climbs ex nb app inv)
    (hcont : ∀ s e, ex.isContinue s e = e.isAccept) (Good : S × F → Nat → Prop)
    (h0 : ∀ p t, Good p 0 → ∀ c ∈ nb t p, c.fit ≤ p.2)
    (h1 : ∀ p t z, Good p (z + 1) → (∃ c ∈ nb t p, p.2 < c.fit) ∧ ∀ c ∈ nb t p, p.2 < c.fit → Good (app c.mv p.1, c.fit) z) :
    ∀ (z fuel t : Nat) (p : S × F) (e : HC M F), inv e → Good p z → z < fuel →
      ∃ l q e', lsLoop ex (fun (_ : Unit) _ => (true, ())) fuel t p e () = some (l, true) ∧ l.length = z + 1 ∧
        l.getLast? = some (q, e') ∧ Good q 0 := by
  intro z
  induction z with
  | zero =>
    intro fuel t p e hi hg hf
    obtain ⟨fuel, rfl⟩ : ∃ m, fuel = m + 1 := ⟨fuel - 1, by omega⟩
    have hst := hc.step t (p, e) hi
    have hs : stepTo ex t (p, e) = ((lsStep ex t p e).1, (lsStep ex t p e).2.1) := rfl
    rw [hs] at hst
    simp only at hst
    rcases hst with ⟨-, h2, c, hc1, h3⟩ | ⟨a1, a2, -⟩
    · rw [h3] at h2
      exact absurd h2 (not_lt_of_ge (h0 p t hg c hc1))
    · refine ⟨[((lsStep ex t p e).1, (lsStep ex t p e).2.1)], p, (lsStep ex t p e).2.1, ?_, rfl, ?_, hg⟩
      · simp only [lsLoop, hcont, a1, Bool.and_false, Bool.false_eq_true, if_false]
      · rw [a2]; rfl
  | succ z ih =>
    intro fuel t p e hi hg hf
    obtain ⟨fuel, rfl⟩ : ∃ m, fuel = m + 1 := ⟨fuel - 1, by omega⟩
    have hst := hc.step t (p, e) hi
    have hkeep := hc.keep t (p, e) hi
    have hs : stepTo ex t (p, e) = ((lsStep ex t p e).1, (lsStep ex t p e).2.1) := rfl
    rw [hs] at hst hkeep
    simp only at hst hkeep
    obtain ⟨⟨d, hd, hdlt⟩, hall⟩ := h1 p t z hg
    rcases hst with ⟨a1, a2, c, hc1, a3⟩ | ⟨-, -, a3⟩
    · have hgood : Good (lsStep ex t p e).1 z := by
        rw [a3] at a2 ⊢
        exact hall c hc1 a2
      obtain ⟨l, q, e', hl, hlen, hlast, hq⟩ := ih fuel (t + 1) _ _ hkeep hgood (by omega)
      refine ⟨((lsStep ex t p e).1, (lsStep ex t p e).2.1) :: l, q, e', ?_, by simp [hlen], ?_, hq⟩
      · simp only [lsLoop, hcont, a1, Bool.and_true, if_true, hl, Option.map_some]
      · rw [List.getLast?_cons, hlast]; rfl
    · exact absurd hdlt (not_lt_of_ge (a3 d hd))

/-- A climber that keeps an invariant and a measure that decreases with every improvement: it stops, where no neighbour is
better. -/
theorem climb_bounded {S M F : Type} [LinearOrder F] {nb : Nat → S × F → List (Cand M F)} {app : M → S → S}
    {ex : Explorer (S × F) (HC M F)} {inv : HC M F → Prop} (hc : Climbs ex nb app inv)
    (hcont : ∀ s e, ex.isContinue s e = e.isAccept) (Good : S × F → Prop) (mu : S × F → Nat)
    (h1 : ∀ p t, Good p → ∀ c ∈ nb t p, p.2 < c.fit → Good (app c.mv p.1, c.fit) ∧ mu (app c.mv p.1, c.fit) < mu p) :
    ∀ (fuel t : Nat) (p : S × F) (e : HC M F), inv e → Good p → mu p < fuel →
      ∃ l q e' u, lsLoop ex (fun (_ : Unit) _ => (true, ())) fuel t p e () = some (l, true) ∧
        l.getLast? = some (q, e') ∧ Good q ∧ (∀ c ∈ nb u q, c.fit ≤ q.2) ∧ l.length ≤ mu p + 1 := by
  intro fuel
  induction fuel with
  | zero => intro t p e _ _ hf; omega
  | succ fuel ih =>
    intro t p e hi hg hf
    have hst := hc.step t (p, e) hi
    have hkeep := hc.keep t (p, e) hi
    have hs : stepTo ex t (p, e) = ((lsStep ex t p e).1, (lsStep ex t p e).2.1) := rfl
    rw [hs] at hst hkeep
    simp only at hst hkeep
    rcases hst with ⟨a1, a2, c, hc1, a3⟩ | ⟨a1, a2, a3⟩
    · have hgood : Good (lsStep ex t p e).1 ∧ mu (lsStep ex t p e).1 < mu p := by
        rw [a3] at a2 ⊢
        exact h1 p t hg c hc1 a2
      obtain ⟨l, q, e', u, hl, hlast, hq, hno, hlen⟩ := ih (t + 1) _ _ hkeep hgood.1 (by omega)
      refine ⟨((lsStep ex t p e).1, (lsStep ex t p e).2.1) :: l, q, e', u, ?_, ?_, hq, hno, ?_⟩
      · simp only [lsLoop, hcont, a1, Bool.and_true, if_true, hl, Option.map_some]
      · rw [List.getLast?_cons, hlast]; rfl
      · simp only [List.length_cons]; omega
    · refine ⟨[((lsStep ex t p e).1, (lsStep ex t p e).2.1)], p, (lsStep ex t p e).2.1, t, ?_, ?_, hg, a3, by simp⟩
      · simp only [lsLoop, hcont, a1, Bool.and_false, Bool.false_eq_true, if_false]
      · rw [a2]; rfl

open Paradiseo.LongPath

/-- The value of a point; the evaluation is defined on every point of the dimension (C209). -/
def longFit (k : Nat) (x : List Bool) : Nat :=
  match fitness k x with
  | .ok v => v
  | .error _ => 0

/-- A neighbourhood of all one-bit flips in any order, evaluated. -/
def LongNeighbours (k : Nat) (nb : Nat → List Bool × Nat → List (Cand Nat Nat)) : Prop :=
  ∀ t s, ∃ keys : List Nat, (∀ i, i ∈ keys ↔ i < s.1.length) ∧ nb t s = keys.map fun i => ⟨i, longFit k (flipAt s.1 i)⟩

/-- The move of a bit neighbour. -/
def flipKey (i : Nat) (x : List Bool) : List Bool := flipAt x i

theorem climber_cases {nb : Nat → List Bool × Nat → List (Cand Nat Nat)} {r : Nat → Nat}
    {ex : Explorer (List Bool × Nat) (HC Nat Nat)}
    (hex : ex = simpleHC nb flipKey ∨ ex = firstHC false nb flipKey ∨ ex = randomBestHC r nb flipKey) :
    ∃ inv, Climbs ex nb flipKey inv ∧ (∀ s e, ex.isContinue s e = e.isAccept) ∧
      (∀ s e, ex.terminate s e = s) ∧ (∀ s e, inv (ex.initParam s e)) := by
  rcases hex with rfl | rfl | rfl
  · exact ⟨_, simpleHC_climbs nb _, fun _ _ => rfl, fun _ _ => rfl, fun _ _ => trivial⟩
  · exact ⟨_, firstHC_climbs false nb _, fun _ _ => rfl, fun _ _ => rfl, fun _ _ => trivial⟩
  · exact ⟨_, randomBestHC_climbs r nb _, fun _ _ => rfl, fun _ _ => rfl, fun _ _ => rfl⟩

/-- C388: started on a point of the path, the climber visits all points that follow; from the string of zeros that is
`(k + 1) 2 ^ m - k` improvements. -/
theorem C388_walk (k m : Nat) (hk : 2 ≤ k) (nb : Nat → List Bool × Nat → List (Cand Nat Nat)) (hnb : LongNeighbours k nb)
    (r : Nat → Nat) (ex : Explorer (List Bool × Nat) (HC Nat Nat))
    (hex : ex = simpleHC nb flipKey ∨ ex = firstHC false nb flipKey ∨ ex = randomBestHC r nb flipKey)
    (i : Nat) (x : List Bool) (hx : (path k m)[i]? = some x) (e : HC Nat Nat) (fuel : Nat)
    (hf : (k + 1) * 2 ^ m - k - i < fuel) :
    ∃ tr, localSearch (longFit k) ex (fun (_ : Unit) _ => (true, ())) (fun _ => ()) fuel x none e =
        some ((endPt k m, 1 + m * k + ((k + 1) * 2 ^ m - k)), tr, true) ∧
      tr.length + i = (k + 1) * 2 ^ m - k + 1 := by
  obtain ⟨inv, hc, hcont, hterm, hinit⟩ := climber_cases hex
  have hlen := path_length k m (by omega)
  have hlast := path_last k m (by omega)
  have hil : i < (path k m).length := (List.getElem?_eq_some_iff.1 hx).1
  have hpl : (path k m).length - 1 = (k + 1) * 2 ^ m - k := by
    generalize (k + 1) * 2 ^ m = w at hlen; omega
  have hfit : ∀ j y, (path k m)[j]? = some y → longFit k y = 1 + m * k + j := by
    intro j y hy
    have hd := path_dim k m (by omega) y (List.mem_of_getElem? hy)
    simp only [longFit, (C209_fitness k m (by omega) y hd).1 j hy, hd]
  have hok : ∀ y : List Bool, y.length = 1 + m * k → fitness k y = .ok (longFit k y) := by
    intro y hy
    obtain ⟨q1, q2⟩ := C209_fitness k m (by omega) y hy
    by_cases hm : y ∈ path k m
    · obtain ⟨j, hj⟩ := List.mem_iff_getElem?.1 hm
      simp only [longFit, q1 j hj]
    · simp only [longFit, (q2 hm).1]
  have key := climb_count hc hcont
    (fun p z => ∃ j, (path k m)[j]? = some p.1 ∧ j + z = (path k m).length - 1 ∧ p.2 = 1 + m * k + j)
    (by
      rintro ⟨y, v⟩ t ⟨j, hj, hjz, hv⟩ c hcm
      simp only at hj hjz hv ⊢
      obtain ⟨keys, hk', hn⟩ := hnb t (y, v)
      rw [hn] at hcm
      obtain ⟨b, hb, rfl⟩ := List.mem_map.1 hcm
      by_contra hlt
      have hd := path_dim k m (by omega) y (List.mem_of_getElem? hj)
      have hbl : b < y.length := (hk' b).1 hb
      have := C209_no_shortcut k m hk j b y _ hj hbl (hok (flipAt y b) (by simp [flipAt, hd])) (by
        simp only at hlt; omega)
      have := (List.getElem?_eq_some_iff.1 this).1
      omega)
    (by
      rintro ⟨y, v⟩ t z ⟨j, hj, hjz, hv⟩
      simp only at hj hjz hv ⊢
      obtain ⟨keys, hk', hn⟩ := hnb t (y, v)
      have hd := path_dim k m (by omega) y (List.mem_of_getElem? hj)
      have hjl : j < (path k m).length := (List.getElem?_eq_some_iff.1 hj).1
      constructor
      · have hne : y ≠ endPt k m := by
          rintro rfl
          have := path_inj k m (by omega) _ _ _ hj hlast
          omega
        obtain ⟨v', w, a1, -, -, -, b, u, hb, hu, hvu⟩ := C209_climb k m (by omega) y hd hne
        refine ⟨⟨b, longFit k (flipAt y b)⟩, ?_, ?_⟩
        · rw [hn]; exact List.mem_map.2 ⟨b, (hk' b).2 hb, rfl⟩
        · rw [(C209_fitness k m (by omega) y hd).1 j hj, Except.ok.injEq] at a1
          simp only [longFit, hu]
          omega
      · intro c hcm hlt
        rw [hn] at hcm
        obtain ⟨b, hb, rfl⟩ := List.mem_map.1 hcm
        simp only at hlt ⊢
        have hbl : b < y.length := (hk' b).1 hb
        have hnext := C209_no_shortcut k m hk j b y _ hj hbl (hok (flipAt y b) (by simp [flipAt, hd])) (by omega)
        exact ⟨j + 1, hnext, by omega, hfit _ _ hnext⟩)
    ((path k m).length - 1 - i) fuel 0 (x, longFit k x) (ex.initParam (x, longFit k x) e) (hinit _ _)
    ⟨i, hx, by omega, hfit i x hx⟩ (by omega)
  obtain ⟨l, q, e', hl, hll, hql, j, hj, hj2, hj3⟩ := key
  have hjj : j = (path k m).length - 1 := by omega
  subst hjj
  rw [hlast, Option.some.injEq] at hj
  refine ⟨l, ?_, by omega⟩
  simp only [localSearch, Option.getD_none, hl, Option.map_some, hterm]
  rw [List.getLastD_eq_getLast?, hql]
  simp only [Option.getD_some, Option.some.injEq, Prod.mk.injEq, and_true]
  obtain ⟨q1, q2⟩ := q
  simp only at hj hj3
  rw [← hj, hj3, hpl]

/-- C388: from any start of the dimension, on the path or not, the climber ends at the end of the path. -/
theorem C388_end (k m : Nat) (hk : 1 ≤ k) (nb : Nat → List Bool × Nat → List (Cand Nat Nat)) (hnb : LongNeighbours k nb)
    (r : Nat → Nat) (ex : Explorer (List Bool × Nat) (HC Nat Nat))
    (hex : ex = simpleHC nb flipKey ∨ ex = firstHC false nb flipKey ∨ ex = randomBestHC r nb flipKey)
    (x : List Bool) (hx : x.length = 1 + m * k) (e : HC Nat Nat) (fuel : Nat)
    (hf : 1 + m * k + ((k + 1) * 2 ^ m - k) < fuel) :
    ∃ tr, localSearch (longFit k) ex (fun (_ : Unit) _ => (true, ())) (fun _ => ()) fuel x none e =
        some ((endPt k m, 1 + m * k + ((k + 1) * 2 ^ m - k)), tr, true) := by
  obtain ⟨inv, hc, hcont, hterm, hinit⟩ := climber_cases hex
  have hend : longFit k (endPt k m) = 1 + m * k + ((k + 1) * 2 ^ m - k) := by
    have hlen := path_length k m hk
    have hd := endPt_length k m
    have := (C209_fitness k m hk (endPt k m) hd).1 _ (path_last k m hk)
    simp only [longFit, this, hd]
    generalize (k + 1) * 2 ^ m = w at hlen ⊢
    omega
  have htop : ∀ y : List Bool, y.length = 1 + m * k → longFit k y ≤ 1 + m * k + ((k + 1) * 2 ^ m - k) := by
    intro y hy
    by_cases hne : y = endPt k m
    · rw [hne, hend]
    · obtain ⟨v, w, a1, a2, a3, a4, -⟩ := C209_climb k m hk y hy hne
      have e1 : longFit k y = v := by simp only [longFit, a1]
      omega
  obtain ⟨l, q, e', u, hl, hql, ⟨g1, g2⟩, hno, -⟩ := climb_bounded hc hcont
    (fun p => p.1.length = 1 + m * k ∧ p.2 = longFit k p.1) (fun p => 1 + m * k + ((k + 1) * 2 ^ m - k) - p.2)
    (by
      rintro ⟨y, v⟩ t ⟨hy, -⟩ c hcm hlt
      obtain ⟨keys, hk', hn⟩ := hnb t (y, v)
      rw [hn] at hcm
      obtain ⟨b, hb, rfl⟩ := List.mem_map.1 hcm
      have hl : (flipAt y b).length = 1 + m * k := by simpa [flipAt] using hy
      have := htop _ hl
      simp only [flipKey] at hlt ⊢
      exact ⟨⟨hl, trivial⟩, by omega⟩)
    fuel 0 (x, longFit k x) (ex.initParam (x, longFit k x) e) (hinit _ _) ⟨hx, rfl⟩ (by simp only; omega)
  obtain ⟨y, v⟩ := q
  simp only at g1 g2
  have hy : y = endPt k m := by
    by_contra hne
    obtain ⟨v', w, a1, -, -, -, b, z, hb, hz, hlt⟩ := C209_climb k m hk y g1 hne
    obtain ⟨keys, hk', hn⟩ := hnb u (y, v)
    have := hno ⟨b, longFit k (flipAt y b)⟩ (by rw [hn]; exact List.mem_map.2 ⟨b, (hk' b).2 hb, rfl⟩)
    have e1 : longFit k y = v' := by simp only [longFit, a1]
    have e2 : longFit k (flipAt y b) = z := by simp only [longFit, hz]
    simp only at this
    omega
  refine ⟨l, ?_⟩
  simp only [localSearch, Option.getD_none, hl, Option.map_some, hterm]
  rw [List.getLastD_eq_getLast?, hql]
  simp only [Option.getD_some, Option.some.injEq, Prod.mk.injEq, and_true]
  rw [g2, hy, hend]
  exact ⟨rfl, rfl⟩

/-- The neighbourhood in the order of the keys; the string of zeros starts the path; five blocks of two bits: 94 improvements. -/
example : LongNeighbours 2 (fun _ s => (List.range s.1.length).map fun i => ⟨i, longFit 2 (flipAt s.1 i)⟩) ∧
    (path 2 5)[0]? = some (List.replicate 11 false) ∧ (2 + 1) * 2 ^ 5 - 2 = 94 :=
  ⟨fun _ s => ⟨List.range s.1.length, fun i => List.mem_range, rfl⟩, path_first 2 5, rfl⟩

end Paradiseo.LS
