/-
Property C372: the order in which moRndWithoutReplNeighborhood (moRndWithoutReplNeighborhood.h:81-115) goes through
a neighbourhood is uniform: every order is given by exactly one sequence of draws.
-/
import Verif.Props.Neighborhood

namespace Paradiseo.Nbh

/-- Draws which the generator can give: the first among `size` values, the second among `size - 1`, and so on. -/
def PossibleDraws (size : Nat) (ds : List Nat) : Prop :=
  ds.length = size ∧ ∀ k, ∀ h : k < ds.length, ds[k] < size - k

/-- The keys in the order given by the draws, `m` being still available in `v`. -/
def orderOf : List Nat → Nat → List Nat → List Nat
  | v, m + 1, d :: ds => v[d]?.getD 0 :: orderOf ((v.set d (v[m]?.getD 0)).set m (v[d]?.getD 0)) m ds
  | _, _, _ => []

theorem possible_cons (m d : Nat) (ds : List Nat) :
    PossibleDraws (m + 1) (d :: ds) ↔ d < m + 1 ∧ PossibleDraws m ds := by
  unfold PossibleDraws
  constructor
  · rintro ⟨h1, h2⟩
    refine ⟨h2 0 (by simp), by simpa using h1, fun k h => ?_⟩
    have := h2 (k + 1) (by simpa using h)
    simp only [List.getElem_cons_succ] at this
    omega
  · rintro ⟨h1, h2, h3⟩
    refine ⟨by simp [h2], fun k h => ?_⟩
    cases k with
    | zero => simpa using h1
    | succ k =>
      have := h3 k (by simpa using h)
      simp only [List.getElem_cons_succ]
      omega

theorem possible_zero (ds : List Nat) : PossibleDraws 0 ds ↔ ds = [] := by
  unfold PossibleDraws
  constructor
  · rintro ⟨h, _⟩; exact List.length_eq_zero_iff.1 h
  · rintro rfl; exact ⟨rfl, fun k h => absurd h (by simp)⟩

theorem possible_succ {m : Nat} {ds : List Nat} (h : PossibleDraws (m + 1) ds) :
    ∃ d ds', ds = d :: ds' ∧ d < m + 1 ∧ PossibleDraws m ds' := by
  cases ds with
  | nil => exact absurd h.1 (by simp)
  | cons d ds' => exact ⟨d, ds', rfl, (possible_cons m d ds').1 h⟩

theorem rndNext_eq (r : Nat → Nat) (s : RndState) (m d : Nat) (hm : s.maxIndex = m + 1)
    (hl : m < s.indexVector.length) (hd : d < m + 1) (hr : r s.t = d) :
    rndNext r s = .ok ⟨(s.indexVector.set d (s.indexVector[m]?.getD 0)).set m (s.indexVector[d]?.getD 0), m,
      s.indexVector[d]?.getD 0, s.t + 1⟩ := by
  have h1 : r s.t % s.maxIndex = d := by rw [hr, hm, Nat.mod_eq_of_lt hd]
  have h2 : d < s.indexVector.length := by omega
  have h3 : s.maxIndex - 1 = m := by omega
  simp only [rndNext, h1, h3, List.getElem?_eq_getElem h2, List.getElem?_eq_getElem hl, Option.getD_some]

theorem visit_orderOf (r : Nat → Nat) : ∀ (m : Nat) (s : RndState) (ds : List Nat), s.maxIndex = m →
    m ≤ s.indexVector.length → PossibleDraws m ds → (∀ k, ∀ h : k < ds.length, r (s.t + k) = ds[k]) →
    ∃ e, visit (rndNext r) rndCont (·.key) (m + 1) s = .ok (s.key :: orderOf s.indexVector m ds, e) := by
  intro m
  induction m with
  | zero =>
    intro s ds hm hl hp hr
    refine ⟨s, ?_⟩
    rw [visit_stop _ _ (by simp [rndCont, hm]), (possible_zero ds).1 hp]
    rfl
  | succ m ih =>
    intro s ds hm hl hp hr
    obtain ⟨d, ds', rfl, hd, hp'⟩ := possible_succ hp
    have h1 := rndNext_eq r s m d hm (by omega) hd (hr 0 (by simp))
    obtain ⟨e, he⟩ := ih ⟨(s.indexVector.set d (s.indexVector[m]?.getD 0)).set m (s.indexVector[d]?.getD 0), m,
      s.indexVector[d]?.getD 0, s.t + 1⟩ ds' rfl (by simp; omega) hp' (fun k h => by
        have := hr (k + 1) (by simpa using h)
        simp only [List.getElem_cons_succ] at this
        rw [← this]
        show r (s.t + 1 + k) = _
        congr 1; omega)
    exact ⟨e, visit_step _ _ _ _ _ (by simp [rndCont, hm]) h1 he⟩

/-- What remains available after a draw, together with what was drawn, is what was available. -/
theorem draw_perm (v : List Nat) (m d : Nat) (hl : m < v.length) (hd : d < m + 1) :
    (v[d]?.getD 0 :: ((v.set d (v[m]?.getD 0)).set m (v[d]?.getD 0)).take m).Perm (v.take (m + 1)) := by
  have hd' : d < v.length := by omega
  rw [List.getElem?_eq_getElem hd', List.getElem?_eq_getElem hl, Option.getD_some, Option.getD_some]
  have h1 : d < (v.take (m + 1)).length := by simp; omega
  have h2 : m < (v.take (m + 1)).length := by simp; omega
  have h := List.set_set_perm h1 h2
  rw [List.getElem_take, List.getElem_take] at h
  have e : ((v.take (m + 1)).set d v[m]).set m v[d] =
      ((v.set d v[m]).set m v[d]).take m ++ [v[d]] := by
    rw [← List.take_set, ← List.take_set, List.take_succ]
    congr 1
    rw [List.getElem?_set_self (by simpa using hl)]
    rfl
  rw [e] at h
  exact (List.perm_append_singleton _ _).symm.trans h

theorem orderOf_unique : ∀ (m : Nat) (v l : List Nat), m ≤ v.length → (v.take m).Nodup → l.Perm (v.take m) →
    ∃! ds, PossibleDraws m ds ∧ orderOf v m ds = l := by
  intro m
  induction m with
  | zero =>
    intro v l _ _ hp
    have : l = [] := by simpa using hp
    subst this
    exact ⟨[], ⟨(possible_zero _).2 rfl, rfl⟩, fun ds h => (possible_zero _).1 h.1⟩
  | succ m ih =>
    intro v l hl hn hp
    cases l with
    | nil =>
      have := hp.length_eq
      simp at this
      omega
    | cons a l' =>
      have ha : a ∈ v.take (m + 1) := hp.subset (by simp)
      obtain ⟨d, hd, hda⟩ := List.getElem_of_mem ha
      have hd1 : d < m + 1 := by simp at hd; omega
      have hd2 : d < v.length := by omega
      rw [List.getElem_take] at hda
      have hva : v[d]?.getD 0 = a := by rw [List.getElem?_eq_getElem hd2, Option.getD_some, hda]
      have hdp := draw_perm v m d (by omega) hd1
      rw [hva] at hdp
      obtain ⟨ds, ⟨h1, h2⟩, h3⟩ := ih ((v.set d (v[m]?.getD 0)).set m a) l' (by simp; omega)
        ((List.nodup_cons.1 (hdp.nodup_iff.2 hn)).2) ((List.perm_cons a).1 (hp.trans hdp.symm))
      refine ⟨d :: ds, ⟨(possible_cons _ _ _).2 ⟨hd1, h1⟩, ?_⟩, ?_⟩
      · rw [orderOf, hva, h2]
      · rintro ds2 ⟨g1, g2⟩
        obtain ⟨d2, ds2', rfl, gd, gp⟩ := possible_succ g1
        rw [orderOf] at g2
        have g3 := (List.cons.inj g2).1
        have hd2' : d2 < v.length := by omega
        rw [List.getElem?_eq_getElem hd2', Option.getD_some] at g3
        have : d2 = d := by
          have i1 : d2 < (v.take (m + 1)).length := by simp; omega
          refine (List.nodup_iff_injective_getElem.1 hn (a₁ := ⟨d2, i1⟩) (a₂ := ⟨d, hd⟩) ?_) |> congrArg Fin.val
          simp only [List.getElem_take]
          rw [g3, hda]
        subst this
        rw [hva] at g2
        rw [h3 ds2' ⟨gp, (List.cons.inj g2).2⟩]

/-- **C372** (every order, once).  Whatever order earlier explorations left, every order of the keys is given by exactly one
of the possible sequences of draws: with equally likely draws, every order is equally likely. -/
theorem C372_order (size fuel : Nat) (s : RndState) (h0 : 0 < size) (hf : size ≤ fuel)
    (hs : s.indexVector.Perm (List.range size)) (l : List Nat) (hl : l.Perm (List.range size)) :
    ∃! ds, PossibleDraws size ds ∧
      ∃ e, rndExplore (fun t => ds.getD (t - s.t) 0) size fuel s = .ok (l, e) := by
  have hlen : s.indexVector.length = size := by simpa using hs.length_eq
  have run : ∀ ds, PossibleDraws size ds →
      ∃ e, rndExplore (fun t => ds.getD (t - s.t) 0) size fuel s = .ok (orderOf s.indexVector size ds, e) := by
    intro ds hp
    obtain ⟨m, rfl⟩ : ∃ m, size = m + 1 := ⟨size - 1, by omega⟩
    obtain ⟨d, ds', rfl, hd, hp'⟩ := possible_succ hp
    have h1 := rndNext_eq (fun t => (d :: ds').getD (t - s.t) 0) { s with maxIndex := m + 1 } m d rfl
      (by simp [hlen]) hd (by simp)
    obtain ⟨e, he⟩ := visit_orderOf (fun t => (d :: ds').getD (t - s.t) 0) m
      ⟨(s.indexVector.set d (s.indexVector[m]?.getD 0)).set m (s.indexVector[d]?.getD 0), m,
        s.indexVector[d]?.getD 0, s.t + 1⟩ ds' rfl (by simp [hlen]) hp' (fun k h => by
          show (d :: ds').getD (s.t + 1 + k - s.t) 0 = _
          rw [show s.t + 1 + k - s.t = k + 1 by omega, List.getD_cons_succ, List.getD_eq_getElem?_getD,
            List.getElem?_eq_getElem h, Option.getD_some])
    refine ⟨e, ?_⟩
    simp only [rndExplore, rndInit, h1]
    exact visit_fuel he fuel hf
  obtain ⟨ds, ⟨h1, h2⟩, h3⟩ := orderOf_unique size s.indexVector l (by omega)
    (by rw [← hlen, List.take_length]; exact hs.nodup_iff.2 List.nodup_range)
    (by rw [← hlen, List.take_length]; exact hl.trans hs.symm)
  refine ⟨ds, ⟨h1, ?_⟩, ?_⟩
  · obtain ⟨e, he⟩ := run ds h1
    exact ⟨e, by rw [he, h2]⟩
  · rintro ds2 ⟨g1, e, g2⟩
    obtain ⟨e', he'⟩ := run ds2 g1
    rw [he'] at g2
    exact h3 ds2 ⟨g1, by cases g2; rfl⟩

/-- The hypotheses can be met. -/
theorem C372_hypotheses : PossibleDraws 4 [3, 0, 1, 0] ∧ ¬ PossibleDraws 4 [3, 3, 1, 0] ∧
    (rndNew 4 7).indexVector.Perm (List.range 4) := by
  refine ⟨⟨rfl, ?_⟩, ?_, C10_new 4 7⟩
  · intro k h
    match k, h with
    | 0, _ | 1, _ | 2, _ | 3, _ => simp
  · rintro ⟨_, h⟩
    exact absurd (h 1 (by decide)) (by decide)

example : ∃ e, rndExplore (fun t => [3, 0, 1, 0].getD (t - 7) 0) 4 4 (rndNew 4 7) = .ok ([3, 0, 1, 2], e) := ⟨_, rfl⟩

end Paradiseo.Nbh
