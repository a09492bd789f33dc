import Verif.Lemmas.Ibea
import Mathlib.Analysis.Complex.ExponentialBounds
/-
C308-C309: the indicator-based evolutionary algorithm.
-/
namespace Paradiseo.Moeo.Ibea

variable {n : Nat}

/-! ## C308 who is removed -/

/-- Spec: the metric compares volumes with a reference point strictly outside the bounds, or is the epsilon one. -/
def Metric.Proper : Metric → Prop
  | .epsilon => True
  | .hypervolume rho => 1 < rho

theorem respects_pop {C : Cfg n} (htol : C.T.tol = 0) (htiny : 0 < C.tiny) (hM : C.metric.Proper) (v : Vec n)
    (l : List (Vec n)) :
    Respects C.T (· ∈ v :: l) (indicator C.T (popBnd C.tiny v l) C.metric) := by
  have hB := popBnd_range htiny v l
  cases hm : C.metric with
  | epsilon =>
    intro a b _ _ hd
    obtain ⟨h1, h2⟩ := epsilon_respects C.T _ hB a b trivial trivial hd
    exact ⟨h1, fun x _ => h2 x trivial⟩
  | hypervolume rho =>
    rw [hm] at hM
    intro a b ha hb hd
    have hin : ∀ w ∈ v :: l, ∀ k, (popBnd C.tiny v l k).lo ≤ w k ∧ w k ≤ (popBnd C.tiny v l k).hi :=
      fun w hw k => popBnd_mem htiny v l k hw
    obtain ⟨h1, h2⟩ := hypervolume_respects C.T htol _ hB hM a b (hin a ha) (hin b hb) hd
    exact ⟨h1, fun x hx => h2 x (hin x hx)⟩

/-- One generation, on any parents and offspring: as many individuals as there were parents are kept, they are
parents or offspring, nobody left out dominates somebody kept, and the fitness of everybody kept is minus the sum
of the penalties received from the others kept, computed with the bounds of parents and offspring together. -/
theorem C308_generation {C : Cfg n} (htol : C.T.tol = 0) (htiny : 0 < C.tiny) (hk : 0 < C.kappa)
    (hM : C.metric.Proper) (par off : List (MInd (Vec n) ℝ)) {v : Vec n} {l : List (Vec n)}
    (hvl : (par ++ off).map MInd.ov = v :: l) :
    ∃ kept rest, C.replace par off = some kept ∧ kept.length = par.length ∧
      (kept.map MInd.ov ++ rest).Perm ((par ++ off).map MInd.ov) ∧
      (∀ x ∈ kept, ∀ w ∈ rest, ¬ Dominates C.T.minimizing w x.ov) ∧
      ∀ (i : Nat) (x : MInd (Vec n) ℝ), kept[i]? = some x →
        x.fit = -(((kept.eraseIdx i).map fun y =>
          Real.exp (-(indicator C.T (popBnd C.tiny v l) C.metric y.ov x.ov) / C.kappa)).sum) := by
  obtain ⟨h1, _, h3, h4⟩ := C41_environmental (C.pen v l) _ picks_worst par off
  obtain ⟨rest, hr1, hr2⟩ := chain_spec (respects_pop htol htiny hM v l) hk
    (fun w hw => by rw [hvl] at hw; exact hw) h4
  refine ⟨_, rest, ?_, h1, hr1, ?_, h3⟩
  · unfold Cfg.replace
    rw [hvl]
  · intro x hx w hw
    exact hr2 x.ov (List.mem_map_of_mem hx) w hw

/-- Non-vacuity: two parents, two offspring, two objectives to be minimised. -/
noncomputable def exC : Cfg 1 :=
  ⟨⟨![true, true], 0⟩, .epsilon, 1 / 20, 1 / 1000000, fun _ l => l, fun _ _ => false⟩

example : ∃ kept rest, exC.replace [⟨![1, 2], 0⟩, ⟨![2, 1], 0⟩] [⟨![3, 3], 0⟩, ⟨![0, 4], 0⟩] = some kept ∧
    kept.length = 2 ∧ (kept.map MInd.ov ++ rest).Perm [![1, 2], ![2, 1], ![3, 3], ![0, 4]] := by
  obtain ⟨kept, rest, h1, h2, h3, _⟩ := C308_generation (C := exC) rfl (by norm_num [exC]) (by norm_num [exC])
    trivial [⟨![1, 2], 0⟩, ⟨![2, 1], 0⟩] [⟨![3, 3], 0⟩, ⟨![0, 4], 0⟩] rfl
  exact ⟨kept, rest, h1, h2, h3⟩

/-- A whole run on a population that is not empty is never undefined and ends, if it ends, with as many
individuals as it began with, left by one more replacement. -/
theorem C308_run {C : Cfg n} (htol : C.T.tol = 0) (htiny : 0 < C.tiny) (hk : 0 < C.kappa) (hM : C.metric.Proper)
    {pop : List (MInd (Vec n) ℝ)} (hne : pop ≠ []) (fuel : Nat) :
    C.run fuel pop = .unfinished ∨ ∃ p par off, C.run fuel pop = .done p ∧ p.length = pop.length ∧
      par.length = pop.length ∧ C.replace par off = some p := by
  have key : ∀ (fuel t : Nat) (q : List (MInd (Vec n) ℝ)), q.length = pop.length →
      C.loop fuel t q = .unfinished ∨ ∃ p par off, C.loop fuel t q = .done p ∧ p.length = pop.length ∧
        par.length = pop.length ∧ C.replace par off = some p := by
    intro fuel
    induction fuel with
    | zero => intro t q _; exact Or.inl rfl
    | succ fuel ih =>
      intro t q hq
      have hqn : q ≠ [] := by
        rintro rfl
        exact hne (List.length_eq_zero_iff.1 hq.symm)
      cases hvl : (q ++ C.breed t q).map MInd.ov with
      | nil => simp [hqn] at hvl
      | cons v l =>
        obtain ⟨kept, rest, h1, h2, _⟩ := C308_generation htol htiny hk hM q (C.breed t q) hvl
        simp only [Cfg.loop, h1]
        split
        · exact ih (t + 1) kept (h2.trans hq)
        · exact Or.inr ⟨kept, q, C.breed t q, rfl, h2.trans hq, hq, h1⟩
  unfold Cfg.run Cfg.assign
  cases hvl : pop.map MInd.ov with
  | nil => simp [hne] at hvl
  | cons v l =>
    refine key fuel 0 _ ?_
    have := congrArg List.length (C41_assign (C.pen v l) pop).2
    simpa using this

/-! ### The reference point on the bounds -/

/-- With `rho = 1`, to which smaller values are raised, somebody who dominates a kept one can be left out: all the
three volumes are zero, nobody is better than anybody, and the first one goes. -/
theorem C308_rho_one (rho kappa : ℝ) (hrho : rho ≤ 1) :
    let C : Cfg 1 := ⟨⟨![true, true], 0⟩, .hypervolume rho, kappa, 1 / 1000000, fun _ l => l, fun _ _ => false⟩
    ∃ kept, C.replace [⟨![0, 1], 0⟩, ⟨![1, 1], 0⟩] [⟨![2, 0], 0⟩] = some kept ∧
      kept.map MInd.ov = [![2, 0], ![1, 1]] ∧ Dominates C.T.minimizing ![0, 1] ![1, 1] := by
  intro C
  have hB : popBnd C.tiny ![(0 : ℝ), 1] [![1, 1], ![2, 0]] = ![⟨0, 2⟩, ⟨0, 1⟩] := by
    funext k
    fin_cases k <;> norm_num [popBnd, setupBnd]
  have hr : (if rho < 1 then 1 else rho) = (1 : ℝ) := by
    split
    · rfl
    · linarith
  have hI : ∀ a ∈ [![(0 : ℝ), 1], ![1, 1], ![2, 0]], ∀ b ∈ [![(0 : ℝ), 1], ![1, 1], ![2, 0]],
      indicator C.T ![⟨0, 2⟩, ⟨0, 1⟩] (.hypervolume rho) a b = 0 := by
    intro a ha b hb
    show hvBinary (if rho < 1 then 1 else rho) _ _ _ _ _ _ = 0
    rw [hr]
    simp only [List.mem_cons, List.not_mem_nil, or_false] at ha hb
    rcases ha with rfl | rfl | rfl <;> rcases hb with rfl | rfl | rfl <;>
      simp [hvBinary, hvRec, flip, ext, Bnd.range, paretoCmp, paretoLoop, C, List.finRange_succ] <;> norm_num
  refine ⟨[⟨![2, 0], -1⟩, ⟨![1, 1], -1⟩], ?_, rfl, ?_⟩
  · unfold Cfg.replace
    have e : (([⟨![0, 1], 0⟩, ⟨![1, 1], 0⟩] : List (MInd (Vec 1) ℝ)) ++
        ([⟨![2, 0], 0⟩] : List (MInd (Vec 1) ℝ))).map MInd.ov =
      ![0, 1] :: [![1, 1], ![2, 0]] := rfl
    rw [e]
    dsimp only
    have hp : ∀ a ∈ [![(0 : ℝ), 1], ![1, 1], ![2, 0]], ∀ b ∈ [![(0 : ℝ), 1], ![1, 1], ![2, 0]],
        C.pen ![0, 1] [![1, 1], ![2, 0]] a b = 1 := by
      intro a ha b hb
      unfold Cfg.pen penalty
      rw [hB]
      show Real.exp (-(indicator C.T _ (.hypervolume rho) a b) / _) = 1
      rw [hI a ha b hb]
      simp
    simp only [envReplace, ibeaAssign, List.cons_append, List.nil_append, List.zipIdx_cons, List.zipIdx_nil,
      List.map_cons, List.map_nil, ibeaFitness, List.foldl_cons, List.foldl_nil]
    simp [hp, envLoop, minIdx, ibeaDelete]
  · refine ⟨fun k => ?_, 0, ?_⟩
    · fin_cases k <;> simp [C, NoWorse]
    · simp [C, Better]

/-! ### A non-dominated one can be left out -/

/-- Being non-dominated does not protect: of five vectors, the middle one of three close neighbours is left out,
though nobody dominates it, and one that another kept vector dominates stays. -/
theorem C308_nondominated_lost :
    let C : Cfg 1 := ⟨⟨![true, true], 0⟩, .epsilon, 1, 1 / 1000000, fun _ l => l, fun _ _ => false⟩
    let all : List (Vec 1) := [![0, 100], ![1, 99], ![2, 98], ![100, 10], ![100, 0]]
    ∀ par off : List (MInd (Vec 1) ℝ), (par ++ off).map MInd.ov = all → off.length = 1 →
      ∃ kept, C.replace par off = some kept ∧
        (kept.map MInd.ov).Perm [![0, 100], ![2, 98], ![100, 10], ![100, 0]] ∧
        (∀ w ∈ all, ¬ Dominates C.T.minimizing w ![1, 99]) ∧ Dominates C.T.minimizing ![100, 0] ![100, 10] := by
  intro C all par off hall hoff
  have hB : popBnd C.tiny ![(0 : ℝ), 100] [![1, 99], ![2, 98], ![100, 10], ![100, 0]] = ![⟨0, 100⟩, ⟨0, 100⟩] := by
    funext k
    fin_cases k <;> norm_num [popBnd, setupBnd]
  have hlen : par.length = 4 := by
    have := congrArg List.length hall
    simp only [List.length_map, List.length_append, hoff, all, List.length_cons, List.length_nil] at this
    omega
  obtain ⟨h1, _, _, h4⟩ := C41_environmental
    (C.pen ![0, 100] [![1, 99], ![2, 98], ![100, 10], ![100, 0]]) _ picks_worst par off
  have hrep : C.replace par off = some (envReplace MInd.ov
      (ibeaAssign (C.pen ![0, 100] [![1, 99], ![2, 98], ![100, 10], ![100, 0]]))
      (fun q => minIdx (q.map MInd.fit))
      (ibeaDelete (C.pen ![0, 100] [![1, 99], ![2, 98], ![100, 10], ![100, 0]])) par off).1 := by
    unfold Cfg.replace
    rw [hall]
  generalize (envReplace MInd.ov (ibeaAssign (C.pen ![0, 100] [![1, 99], ![2, 98], ![100, 10], ![100, 0]]))
      (fun q => minIdx (q.map MInd.fit))
      (ibeaDelete (C.pen ![0, 100] [![1, 99], ![2, 98], ![100, 10], ![100, 0]])) par off).1 = kept at *
  refine ⟨kept, hrep, ?_, ?_, ?_⟩
  · rw [hall] at h4
    have hpl : ∀ {A A' : List (Vec 1)} {e : Vec 1 → Vec 1 → ℝ}, WorstRemoved e A A' → A.length = A'.length + 1 := by
      rintro A A' e ⟨w, hw, _⟩
      simpa using hw.length_eq
    -- exactly one removal
    have hone : WorstRemoved (C.pen ![0, 100] [![1, 99], ![2, 98], ![100, 10], ![100, 0]]) all (kept.map MInd.ov) := by
      rcases Relation.ReflTransGen.cases_head h4 with h | ⟨m, hm, hrest⟩
      · have := congrArg List.length h
        simp only [List.length_map, h1, hlen, all, List.length_cons, List.length_nil] at this
        omega
      · rcases Relation.ReflTransGen.cases_head hrest with h | ⟨m', hm', hrest'⟩
        · rw [← h]; exact hm
        · have l1 := hpl hm
          have l2 := hpl hm'
          have l3 : ∀ {A A' : List (Vec 1)} {e : Vec 1 → Vec 1 → ℝ},
              Relation.ReflTransGen (WorstRemoved e) A A' → A'.length ≤ A.length := by
            intro A A' e h
            induction h with
            | refl => exact le_rfl
            | tail _ h ih => have := hpl h; omega
          have l4 := l3 hrest'
          simp only [List.length_map, h1, hlen, all, List.length_cons, List.length_nil] at l1 l4
          omega
    obtain ⟨w, hw, hmin⟩ := hone
    have hpen : ∀ a b, C.pen ![0, 100] [![1, 99], ![2, 98], ![100, 10], ![100, 0]] a b =
        Real.exp (-(max ((a 0 - b 0) / 100) ((a 1 - b 1) / 100))) := by
      intro a b
      unfold Cfg.pen penalty
      rw [hB]
      show Real.exp (-(addEpsVec C.T _ a b) / 1) = _
      congr 1
      rw [div_one, neg_inj]
      apply le_antisymm
      · rw [C43_vector_spec]
        intro k
        fin_cases k <;> simp [excess, C, Bnd.range]
      · have := (C43_vector_spec C.T ![⟨0, 100⟩, ⟨0, 100⟩] a b _).1 le_rfl
        have t0 := this 0
        have t1 := this 1
        simp only [excess, C, Bnd.range] at t0 t1
        simp at t0 t1
        exact max_le t0 t1
    have hmem : w ∈ all := hw.mem_iff.2 (by simp)
    have p1 : all.Perm (![1, 99] :: [![0, 100], ![2, 98], ![100, 10], ![100, 0]]) := List.Perm.swap _ _ _
    have h2 := hmin ![1, 99] _ p1
    -- the sums
    have E : ∀ A : List (Vec 1), all.Perm (w :: A) →
        ((A.map fun z => C.pen ![0, 100] [![1, 99], ![2, 98], ![100, 10], ![100, 0]] z w).sum) +
          C.pen ![0, 100] [![1, 99], ![2, 98], ![100, 10], ![100, 0]] w w =
        ((all.map fun z => C.pen ![0, 100] [![1, 99], ![2, 98], ![100, 10], ![100, 0]] z w).sum) := by
      intro A hA
      rw [(hA.map _).sum_eq, List.map_cons, List.sum_cons, add_comm]
    have h3 := E _ hw
    simp only [hpen, all, List.map_cons, List.map_nil, List.sum_cons, List.sum_nil] at h2 h3
    have hlow : ∀ x : ℝ, 1 - x ≤ Real.exp (-x) := fun x => by have := Real.add_one_le_exp (-x); linarith
    have hup : ∀ x : ℝ, 0 < x → Real.exp (-x) ≤ 1 / (1 + x) := by
      intro x hx
      rw [Real.exp_neg, one_div]
      exact inv_anti₀ (by linarith) (by have := Real.add_one_le_exp x; linarith)
    have hmono : ∀ x y : ℝ, x ≤ y → Real.exp (-y) ≤ Real.exp (-x) := fun x y h => Real.exp_le_exp.2 (by linarith)
    have he1 : (0.3678 : ℝ) ≤ Real.exp (-1) := by
      rw [Real.exp_neg, ← one_div, le_div_iff₀ (Real.exp_pos 1)]
      have := Real.exp_one_lt_d9
      nlinarith
    simp only [all, List.mem_cons, List.not_mem_nil, or_false] at hmem
    rcases hmem with rfl | rfl | rfl | rfl | rfl
    · exfalso
      norm_num [max_def] at h2 h3
      have a2 := hmono (99 / 100) 1 (by norm_num)
      have a3 : Real.exp (-(1 / 50 : ℝ)) < Real.exp (-(1 / 100)) := Real.exp_lt_exp.2 (by norm_num)
      linarith
    · exact (List.perm_cons _).1 (hw.symm.trans p1)
    · exfalso
      norm_num [max_def] at h2 h3
      have b1 : Real.exp (-(49 / 50 : ℝ)) = Real.exp (-(99 / 100)) * Real.exp (1 / 100) := by
        rw [← Real.exp_add]; norm_num
      have b2 : Real.exp (-(1 / 100 : ℝ)) = Real.exp (-(1 / 50)) * Real.exp (1 / 100) := by
        rw [← Real.exp_add]; norm_num
      have b3 : Real.exp (-(99 / 100 : ℝ)) = Real.exp (-1) * Real.exp (1 / 100) := by
        rw [← Real.exp_add]; norm_num
      have b4 : (1 : ℝ) < Real.exp (1 / 100) := Real.one_lt_exp_iff.2 (by norm_num)
      have b5 : Real.exp (1 / 100 : ℝ) ≤ 1.02 := by
        have h := hlow (1 / 100)
        have h' : Real.exp (1 / 100 : ℝ) * Real.exp (-(1 / 100)) = 1 := by rw [← Real.exp_add]; norm_num
        nlinarith
      have b6 : Real.exp (-1 : ℝ) ≤ 0.37 := by
        rw [Real.exp_neg, inv_eq_one_div, div_le_iff₀ (Real.exp_pos 1)]
        have := Real.exp_one_gt_d9
        nlinarith
      have b7 := hlow (1 / 50)
      have b8 : Real.exp (-(99 / 100 : ℝ)) ≤ 0.38 := by
        rw [b3]
        nlinarith [Real.exp_pos (-1 : ℝ)]
      nlinarith
    · exfalso
      norm_num [max_def] at h2 h3
      have c1 := hlow (1 / 100)
      have c2 := hmono (99 / 100) 1 (by norm_num)
      have c3 := hup (9 / 10) (by norm_num)
      have c4 := hup (89 / 100) (by norm_num)
      have c5 := hup (22 / 25) (by norm_num)
      norm_num at c1 c3 c4 c5
      linarith
    · exfalso
      norm_num [max_def] at h2 h3
      have c1 := hlow (1 / 100)
      have c2 := hmono (99 / 100) 1 (by norm_num)
      have c3 := hup (1 / 10) (by norm_num)
      have c4 := hup (99 / 100) (by norm_num)
      have c5 := hup (49 / 50) (by norm_num)
      norm_num at c1 c3 c4 c5
      linarith
  · intro w hw hd
    have d0 := hd.1 0
    have d1 := hd.1 1
    obtain ⟨k, hk⟩ := hd.2
    simp only [all, List.mem_cons, List.not_mem_nil, or_false] at hw
    rcases hw with rfl | rfl | rfl | rfl | rfl <;> fin_cases k <;>
      simp [C, NoWorse, Better] at d0 d1 hk <;> linarith
  · refine ⟨fun k => ?_, 1, ?_⟩
    · fin_cases k <;> simp [C, NoWorse]
    · simp [C, Better]

/-! ## C309 units of the objectives -/

/-- A change of units: objective `k` becomes `α k * value + β k`. -/
def rescale (α β : Vec n) (v : Vec n) : Vec n := fun k => α k * v k + β k

/-- The same individual in other units. -/
def MInd.rescale (α β : Vec n) (x : MInd (Vec n) ℝ) : MInd (Vec n) ℝ := { x with ov := Ibea.rescale α β x.ov }

theorem foldl_min_affine {a b : ℝ} (ha : 0 < a) {α : Type} (f : α → ℝ) (l : List α) (m : ℝ) :
    l.foldl (fun m w => min m (a * f w + b)) (a * m + b) = a * l.foldl (fun m w => min m (f w)) m + b := by
  induction l generalizing m with
  | nil => rfl
  | cons x l ih =>
    rw [List.foldl_cons, List.foldl_cons, ← ih]
    congr 1
    rcases le_total m (f x) with h | h
    · rw [min_eq_left h, min_eq_left (by nlinarith)]
    · rw [min_eq_right h, min_eq_right (by nlinarith)]

theorem foldl_max_affine {a b : ℝ} (ha : 0 < a) {α : Type} (f : α → ℝ) (l : List α) (m : ℝ) :
    l.foldl (fun m w => max m (a * f w + b)) (a * m + b) = a * l.foldl (fun m w => max m (f w)) m + b := by
  induction l generalizing m with
  | nil => rfl
  | cons x l ih =>
    rw [List.foldl_cons, List.foldl_cons, ← ih]
    congr 1
    rcases le_total m (f x) with h | h
    · rw [max_eq_right h, max_eq_right (by nlinarith)]
    · rw [max_eq_left h, max_eq_left (by nlinarith)]

/-- In relative terms bounds and members of the population are the same in other units. -/
theorem popBnd_rescale {α β : Vec n} (hα : ∀ k, 0 < α k) (tiny : ℝ) (v : Vec n) (l : List (Vec n))
    (k : Fin (n + 1)) :
    ∃ s : ℝ, 0 < s ∧
      (popBnd tiny (rescale α β v) (l.map (rescale α β)) k).range = s * (popBnd tiny v l k).range ∧
      ∀ w ∈ v :: l, rescale α β w k - (popBnd tiny (rescale α β v) (l.map (rescale α β)) k).lo =
        s * (w k - (popBnd tiny v l k).lo) := by
  have e1 : (l.map (rescale α β)).foldl (fun m w => min m (w k)) (rescale α β v k) =
      α k * l.foldl (fun m w => min m (w k)) (v k) + β k := by
    rw [List.foldl_map]
    exact foldl_min_affine (hα k) (· k) l (v k)
  have e2 : (l.map (rescale α β)).foldl (fun m w => max m (w k)) (rescale α β v k) =
      α k * l.foldl (fun m w => max m (w k)) (v k) + β k := by
    rw [List.foldl_map]
    exact foldl_max_affine (hα k) (· k) l (v k)
  unfold popBnd
  rw [e1, e2]
  have hlo : ∀ w ∈ v :: l, l.foldl (fun m w => min m (w k)) (v k) ≤ w k := by
    intro w hw
    rcases List.mem_cons.1 hw with rfl | hw
    · exact (foldl_min_le' (· k) l _).1
    · exact (foldl_min_le' (· k) l _).2 w hw
  have hhi : ∀ w ∈ v :: l, w k ≤ l.foldl (fun m w => max m (w k)) (v k) := by
    intro w hw
    rcases List.mem_cons.1 hw with rfl | hw
    · exact (le_foldl_max' (· k) l _).1
    · exact (le_foldl_max' (· k) l _).2 w hw
  generalize l.foldl (fun m w => min m (w k)) (v k) = mn at *
  generalize l.foldl (fun m w => max m (w k)) (v k) = mx at *
  have hk := hα k
  unfold setupBnd Bnd.range rescale
  by_cases h : mn = mx
  · subst h
    refine ⟨1, one_pos, ?_, ?_⟩
    · simp only [if_true]; ring
    · intro w hw
      have : w k = mn := le_antisymm (hhi w hw) (hlo w hw)
      simp only [if_true, this]; ring
  · have h' : ¬ α k * mn + β k = α k * mx + β k := by
      intro hc
      exact h (mul_left_cancel₀ hk.ne' (by linarith))
    refine ⟨α k, hk, ?_, ?_⟩
    · simp only [if_neg h, if_neg h']; ring
    · intro w _
      simp only [if_neg h, if_neg h']; ring

/-- `hypervolume` depends on relative positions only. -/
theorem hvRec_scaled (rho : ℝ) {B B' : Nat → Bnd ℝ} {a a' b b' : Nat → ℝ}
    (h : ∀ i, ∃ s : ℝ, 0 < s ∧ (B' i).range = s * (B i).range ∧ a' i - (B' i).lo = s * (a i - (B i).lo) ∧
      b' i - (B' i).lo = s * (b i - (B i).lo)) (k : Nat) (flag : Bool) :
    hvRec rho B' a' b' k flag = hvRec rho B a b k flag := by
  induction k generalizing flag with
  | zero =>
    obtain ⟨s, hs, h1, h2, h3⟩ := h 0
    have ea : a' 0 = (B' 0).lo + s * (a 0 - (B 0).lo) := by linarith
    have eb : b' 0 = (B' 0).lo + s * (b 0 - (B 0).lo) := by linarith
    unfold hvRec
    dsimp only
    rw [ea, h1]
    cases flag with
    | true =>
      simp only [if_true]
      have c : ((B' 0).lo + s * (a 0 - (B 0).lo) < (B' 0).lo + rho * (s * (B 0).range)) ↔
          a 0 < (B 0).lo + rho * (B 0).range := by
        constructor
        · intro h; nlinarith
        · intro h; nlinarith
      simp only [c]
      split
      · rw [show (B' 0).lo + rho * (s * (B 0).range) - ((B' 0).lo + s * (a 0 - (B 0).lo)) =
          s * ((B 0).lo + rho * (B 0).range - a 0) by ring, show rho * (s * (B 0).range) =
          s * (rho * (B 0).range) by ring, mul_div_mul_left _ _ hs.ne']
      · rfl
    | false =>
      simp only [Bool.false_eq_true, if_false]
      rw [eb]
      have c : ((B' 0).lo + s * (a 0 - (B 0).lo) < (B' 0).lo + s * (b 0 - (B 0).lo)) ↔ a 0 < b 0 := by
        constructor
        · intro h; nlinarith
        · intro h; nlinarith
      simp only [c]
      split
      · rw [show (B' 0).lo + s * (b 0 - (B 0).lo) - ((B' 0).lo + s * (a 0 - (B 0).lo)) =
          s * (b 0 - a 0) by ring, show rho * (s * (B 0).range) =
          s * (rho * (B 0).range) by ring, mul_div_mul_left _ _ hs.ne']
      · rfl
  | succ k ih =>
    obtain ⟨s, hs, h1, h2, h3⟩ := h (k + 1)
    have ea : a' (k + 1) = (B' (k + 1)).lo + s * (a (k + 1) - (B (k + 1)).lo) := by linarith
    have eb : b' (k + 1) = (B' (k + 1)).lo + s * (b (k + 1) - (B (k + 1)).lo) := by linarith
    unfold hvRec
    dsimp only
    rw [ea, h1, ih true, ih false]
    clear ea h2 h3 h1 h ih
    generalize hvRec rho B a b k true = X
    generalize hvRec rho B a b k false = Y
    revert eb
    generalize b' (k + 1) = w'
    generalize b (k + 1) = w
    generalize (B' (k + 1)).lo = lo'
    generalize (B (k + 1)).lo = lo
    generalize (B (k + 1)).range = r
    generalize a (k + 1) = u
    intro eb
    have quot : ∀ x y z : ℝ, x * (s * y) / (s * z) = x * y / z := by
      intro x y z
      rw [mul_left_comm, mul_div_mul_left _ _ hs.ne']
    have q1 : lo' + rho * (s * r) - (lo' + s * (u - lo)) = s * (lo + rho * r - u) := by ring
    have q2 : rho * (s * r) = s * (rho * r) := by ring
    cases flag with
    | true =>
      simp only [if_true]
      have c : (lo' + s * (u - lo) < lo' + rho * (s * r)) ↔ u < lo + rho * r := by
        constructor <;> intro h <;> nlinarith
      simp only [c, q1]
      rw [q2]
      simp only [quot, sub_self, mul_zero, zero_div, add_zero]
    | false =>
      simp only [Bool.false_eq_true, if_false]
      rw [eb]
      have c : (lo' + s * (u - lo) < lo' + s * (w - lo)) ↔ u < w := by
        constructor <;> intro h <;> nlinarith
      have q3 : lo' + s * (w - lo) - (lo' + s * (u - lo)) = s * (w - u) := by ring
      have q4 : lo' + rho * (s * r) - (lo' + s * (w - lo)) = s * (lo + rho * r - w) := by ring
      simp only [c, q1, q3, q4]
      rw [q2, quot, quot, quot]

theorem indicator_rescale {T : Traits (n + 1) ℝ} (htol : T.tol = 0) {α β : Vec n} (hα : ∀ k, 0 < α k) (tiny : ℝ)
    (v : Vec n) (l : List (Vec n)) (M : Metric) {a b : Vec n} (ha : a ∈ v :: l) (hb : b ∈ v :: l) :
    indicator T (popBnd tiny (rescale α β v) (l.map (rescale α β))) M (rescale α β a) (rescale α β b) =
      indicator T (popBnd tiny v l) M a b := by
  have hs := popBnd_rescale (β := β) hα tiny v l
  generalize popBnd tiny (rescale α β v) (l.map (rescale α β)) = B' at hs ⊢
  generalize popBnd tiny v l = B at hs ⊢
  cases M with
  | epsilon =>
    have he : ∀ k, addEps T B' (rescale α β a) (rescale α β b) k = addEps T B a b k := by
      intro k
      obtain ⟨s, h0, h1, h2⟩ := hs k
      unfold addEps
      rw [h2 a ha, h2 b hb, h1, mul_div_mul_left _ _ h0.ne', mul_div_mul_left _ _ h0.ne']
    show addEpsVec T B' _ _ = addEpsVec T B _ _
    unfold addEpsVec
    simp only [he]
  | hypervolume rho =>
    have hd : paretoCmp T (rescale α β b) (rescale α β a) = paretoCmp T b a := by
      rw [Bool.eq_iff_iff, C31_pareto_spec T htol, C31_pareto_spec T htol]
      refine and_congr (forall_congr' fun k => ?_) (exists_congr fun k => ?_)
      · have := hα k
        unfold NoWorse rescale
        cases T.minimizing k <;> simp [this]
      · have := hα k
        unfold Better rescale
        cases T.minimizing k <;> simp [this]
    have hf : ∀ w ∈ v :: l, ∀ i, ∃ s : ℝ, 0 < s ∧ (ext ⟨0, 1⟩ B' i).range = s * (ext ⟨0, 1⟩ B i).range ∧
        ∀ w ∈ v :: l, flip (ext false fun i => !T.minimizing i) (ext ⟨0, 1⟩ B') (ext 0 (rescale α β w)) i -
          (ext ⟨0, 1⟩ B' i).lo = s * (flip (ext false fun i => !T.minimizing i) (ext ⟨0, 1⟩ B) (ext 0 w) i -
          (ext ⟨0, 1⟩ B i).lo) := by
      intro _ _ i
      by_cases hi : i < n + 1
      · obtain ⟨s, h0, h1, h2⟩ := hs ⟨i, hi⟩
        refine ⟨s, h0, ?_, ?_⟩
        · unfold ext; rw [dif_pos hi, dif_pos hi]; exact h1
        · intro w hw
          have := h2 w hw
          unfold Bnd.range at h1
          unfold flip ext
          simp only [dif_pos hi]
          cases T.minimizing ⟨i, hi⟩
          · simp only [Bool.not_false, if_true]; linarith
          · simpa using this
      · refine ⟨1, one_pos, ?_, ?_⟩
        · unfold ext; rw [dif_neg hi, dif_neg hi]; ring
        · intro w _
          unfold flip ext
          simp only [dif_neg hi]
          simp
    show hvBinary _ _ _ _ _ _ _ = hvBinary _ _ _ _ _ _ _
    unfold hvBinary
    rw [hd]
    dsimp only
    split
    · congr 1
      apply hvRec_scaled
      intro i
      obtain ⟨s, h0, h1, h2⟩ := hf a ha i
      exact ⟨s, h0, h1, h2 a ha, h2 b hb⟩
    · apply hvRec_scaled
      intro i
      obtain ⟨s, h0, h1, h2⟩ := hf a ha i
      exact ⟨s, h0, h1, h2 b hb, h2 a ha⟩

/-! ### The replacement in other units -/

theorem ibeaAssign_map {V W : Type} {e : V → V → ℝ} {e' : W → W → ℝ} {f : V → W} {S : V → Prop}
    (he : ∀ a b, S a → S b → e' (f a) (f b) = e a b) (pop : List (MInd V ℝ)) (hS : ∀ x ∈ pop, S x.ov) :
    ibeaAssign e' (pop.map fun x => ⟨f x.ov, x.fit⟩) = (ibeaAssign e pop).map fun x => ⟨f x.ov, x.fit⟩ := by
  have hfit : ∀ idx, ibeaFitness e' (pop.map fun x => ⟨f x.ov, x.fit⟩) idx = ibeaFitness e pop idx := by
    intro idx
    unfold ibeaFitness
    rw [List.zipIdx_map, List.foldl_map, List.getElem?_map]
    apply List.foldl_ext
    intro acc x hx
    cases hy : pop[idx]? with
    | none => rfl
    | some y =>
      have h1 := hS x.1 (List.fst_mem_of_mem_zipIdx hx)
      have h2 := hS y (List.mem_of_getElem? hy)
      simp only [Option.map_some, Prod.map_snd, Prod.map_fst, id, he _ _ h1 h2]
  unfold ibeaAssign
  rw [List.zipIdx_map, List.map_map, List.map_map]
  apply List.map_congr_left
  intro x _
  simp [hfit]

theorem envLoop_map {V W : Type} {e : V → V → ℝ} {e' : W → W → ℝ} {f : V → W} {S : V → Prop}
    (he : ∀ a b, S a → S b → e' (f a) (f b) = e a b) (sz k : Nat) (pop : List (MInd V ℝ)) (hS : ∀ x ∈ pop, S x.ov) :
    envLoop MInd.ov (fun q => minIdx (q.map MInd.fit)) (ibeaDelete e') sz
        (pop.map fun x => (⟨f x.ov, x.fit⟩ : MInd W ℝ)) k =
      (envLoop MInd.ov (fun q => minIdx (q.map MInd.fit)) (ibeaDelete e) sz pop k).map fun x => ⟨f x.ov, x.fit⟩ := by
  induction k generalizing pop with
  | zero => rfl
  | succ k ih =>
    unfold envLoop
    have hfit : (pop.map fun x => (⟨f x.ov, x.fit⟩ : MInd W ℝ)).map MInd.fit = pop.map MInd.fit := by
      rw [List.map_map]; rfl
    rw [hfit, List.length_map, List.getElem?_map, List.getLast?_map]
    split
    · cases hw : pop[minIdx (pop.map MInd.fit)]? with
      | none => simp
      | some w =>
        cases hb : pop.getLast? with
        | none => simp
        | some b =>
          simp only [Option.map_some]
          have hmem : ∀ x ∈ (pop.set (minIdx (pop.map MInd.fit)) b).dropLast, S x.ov := by
            intro x hx
            rcases List.mem_or_eq_of_mem_set (List.mem_of_mem_dropLast hx) with h | h
            · exact hS x h
            · rw [h]; exact hS b (List.mem_of_getLast? hb)
          have hdel : ibeaDelete e' (f w.ov) (((pop.map fun x => (⟨f x.ov, x.fit⟩ : MInd W ℝ)).set
              (minIdx (pop.map MInd.fit)) ⟨f b.ov, b.fit⟩).dropLast) =
              (ibeaDelete e w.ov ((pop.set (minIdx (pop.map MInd.fit)) b).dropLast)).map
                fun x => (⟨f x.ov, x.fit⟩ : MInd W ℝ) := by
            rw [show (⟨f b.ov, b.fit⟩ : MInd W ℝ) = (fun x : MInd V ℝ => (⟨f x.ov, x.fit⟩ : MInd W ℝ)) b from rfl,
              ← List.map_set, ← List.map_dropLast]
            unfold ibeaDelete
            rw [List.map_map, List.map_map]
            apply List.map_congr_left
            intro x hx
            simp [he _ _ (hS w (List.mem_of_getElem? hw)) (hmem x hx)]
          rw [hdel, ih]
          intro x hx
          unfold ibeaDelete at hx
          obtain ⟨y, hy, rfl⟩ := List.mem_map.1 hx
          exact hmem y hy
    · rfl

/-- The replacement does not depend on the units of the objectives: with every objective `x` replaced by
`α x + β`, `α > 0`, the same individuals are kept, in the same places and with the same fitness. No objective needs
to vary. -/
theorem C309_replace {C : Cfg n} (htol : C.T.tol = 0) {α β : Vec n} (hα : ∀ k, 0 < α k)
    (par off : List (MInd (Vec n) ℝ)) :
    C.replace (par.map (MInd.rescale α β)) (off.map (MInd.rescale α β)) =
      (C.replace par off).map (List.map (MInd.rescale α β)) := by
  unfold Cfg.replace
  have e : (par.map (MInd.rescale α β) ++ off.map (MInd.rescale α β)).map MInd.ov =
      ((par ++ off).map MInd.ov).map (rescale α β) := by
    simp [MInd.rescale, Function.comp_def]
  rw [e]
  cases hvl : (par ++ off).map MInd.ov with
  | nil => rfl
  | cons v l =>
    simp only [List.map_cons, Option.map_some]
    have he : ∀ a b, a ∈ v :: l → b ∈ v :: l →
        C.pen (rescale α β v) (l.map (rescale α β)) (rescale α β a) (rescale α β b) = C.pen v l a b := by
      intro a b ha hb
      unfold Cfg.pen penalty
      rw [indicator_rescale htol hα C.tiny v l C.metric ha hb]
    have hS : ∀ x ∈ par ++ off, x.ov ∈ v :: l := by
      intro x hx
      rw [← hvl]
      exact List.mem_map_of_mem hx
    unfold envReplace
    dsimp only
    rw [← List.map_append, List.length_map, List.length_map]
    show some (envLoop _ _ _ _ (ibeaAssign _ ((par ++ off).map fun x : MInd (Vec n) ℝ =>
        (⟨rescale α β x.ov, x.fit⟩ : MInd (Vec n) ℝ))) _) =
      some ((envLoop _ _ _ _ _ _).map fun x : MInd (Vec n) ℝ => (⟨rescale α β x.ov, x.fit⟩ : MInd (Vec n) ℝ))
    rw [ibeaAssign_map he _ hS, envLoop_map he]
    intro x hx
    have : x.ov ∈ (ibeaAssign (C.pen v l) (par ++ off)).map MInd.ov := List.mem_map_of_mem hx
    rw [(C41_assign (C.pen v l) (par ++ off)).2, hvl] at this
    exact this

/-- A whole run: if breeding and the stopping criterion do not look at the units either, the run in other units is
the run, seen in other units. -/
theorem C309_run {C : Cfg n} (htol : C.T.tol = 0) {α β : Vec n} (hα : ∀ k, 0 < α k)
    (hbreed : ∀ t l, C.breed t (l.map (MInd.rescale α β)) = (C.breed t l).map (MInd.rescale α β))
    (hcont : ∀ t l, C.cont t (l.map (MInd.rescale α β)) = C.cont t l) (fuel : Nat) (pop : List (MInd (Vec n) ℝ)) :
    (∀ p, C.run fuel pop = .done p → C.run fuel (pop.map (MInd.rescale α β)) = .done (p.map (MInd.rescale α β))) ∧
    (C.run fuel pop = .unfinished → C.run fuel (pop.map (MInd.rescale α β)) = .unfinished) := by
  have key : ∀ (fuel t : Nat) (q : List (MInd (Vec n) ℝ)),
      (∀ p, C.loop fuel t q = .done p → C.loop fuel t (q.map (MInd.rescale α β)) = .done (p.map (MInd.rescale α β))) ∧
      (C.loop fuel t q = .unfinished → C.loop fuel t (q.map (MInd.rescale α β)) = .unfinished) := by
    intro fuel
    induction fuel with
    | zero => intro t q; exact ⟨fun p h => (nomatch h), fun _ => rfl⟩
    | succ fuel ih =>
      intro t q
      unfold Cfg.loop
      rw [hbreed, C309_replace htol hα]
      cases C.replace q (C.breed t q) with
      | none => exact ⟨fun p h => (nomatch h), fun h => (nomatch h)⟩
      | some r =>
        simp only [Option.map_some, hcont]
        split
        · exact ih (t + 1) r
        · refine ⟨fun p h => ?_, fun h => (nomatch h)⟩
          cases h
          rfl
  unfold Cfg.run Cfg.assign
  have e : (pop.map (MInd.rescale α β)).map MInd.ov = (pop.map MInd.ov).map (rescale α β) := by
    simp [MInd.rescale, Function.comp_def]
  rw [e]
  cases hvl : pop.map MInd.ov with
  | nil => exact ⟨fun p h => (nomatch h), fun h => (nomatch h)⟩
  | cons v l =>
    simp only [List.map_cons]
    have he : ∀ a b, a ∈ v :: l → b ∈ v :: l →
        C.pen (rescale α β v) (l.map (rescale α β)) (rescale α β a) (rescale α β b) = C.pen v l a b := by
      intro a b ha hb
      unfold Cfg.pen penalty
      rw [indicator_rescale htol hα C.tiny v l C.metric ha hb]
    have := ibeaAssign_map he pop (fun x hx => by rw [← hvl]; exact List.mem_map_of_mem hx)
    rw [show pop.map (MInd.rescale α β) = pop.map fun x => ⟨rescale α β x.ov, x.fit⟩ from rfl, this]
    exact key fuel 0 _

/-- Non-vacuity: percent instead of fractions for one objective, another origin for the other. -/
example (par off : List (MInd (Vec 1) ℝ)) :
    exC.replace (par.map (MInd.rescale ![100, 1] ![0, 273])) (off.map (MInd.rescale ![100, 1] ![0, 273])) =
      (exC.replace par off).map (List.map (MInd.rescale ![100, 1] ![0, 273])) :=
  C309_replace rfl (fun k => by fin_cases k <;> simp) par off

end Paradiseo.Moeo.Ibea
