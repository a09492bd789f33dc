import Verif.Model.LSParts
import Verif.Lemmas.LocalSearch
import Mathlib.Data.List.GetD

namespace Paradiseo.LS

/-! ### Indexed tabu list -/

/-- Number of `update` calls. -/
def tabuUpdates (ops : List TabuOp) : Nat := ops.countP (· = .update)

theorem tabuRun_snoc (m : Nat) (ops : List TabuOp) (o : TabuOp) :
    tabuRun m (ops ++ [o]) = tabuApply (tabuRun m ops) o := by simp [tabuRun]

theorem tabuApply_length (v : List Nat) (o : TabuOp) : (tabuApply v o).length = v.length := by
  cases o with
  | add i h => simp only [tabuApply]; split <;> simp
  | update => simp [tabuApply]

theorem tabuRun_length (m : Nat) (ops : List TabuOp) : (tabuRun m ops).length = m := by
  induction ops using List.reverseRecOn with
  | nil => simp [tabuRun, tabuInit]
  | append_singleton ops o ih => rw [tabuRun_snoc, tabuApply_length, ih]

theorem tabuApply_other (v : List Nat) (o : TabuOp) (i : Nat) (ho : ∀ h, o ≠ .add i h) (k : Nat)
    (hv : v[i]? = some k) :
    (tabuApply v o)[i]? = some (k - if o = .update then 1 else 0) := by
  cases o with
  | add j h =>
    simp only [tabuApply]
    have hji : j ≠ i := fun e => ho h (by rw [e])
    split
    · rw [List.getElem?_set_ne hji, hv]; simp
    · rw [hv]; simp
  | update =>
    simp only [tabuApply, List.getElem?_map, hv, Option.map_some, if_true]
    congr 1
    split <;> omega

theorem tabu_after (v : List Nat) (post : List TabuOp) (i : Nat) (hpost : ∀ h, .add i h ∉ post) (k : Nat)
    (hv : v[i]? = some k) :
    (post.foldl tabuApply v)[i]? = some (k - tabuUpdates post) := by
  induction post generalizing v k with
  | nil => simpa [tabuUpdates] using hv
  | cons o post ih =>
    have h1 := tabuApply_other v o i (fun h e => hpost h (by simp [e])) k hv
    rw [List.foldl_cons, ih _ (fun h hm => hpost h (by simp [hm])) _ h1]
    simp only [tabuUpdates, List.countP_cons, decide_eq_true_eq]
    congr 1; omega

/-! ### Ring tabu list -/

variable {X Y : Type}

def ringAdds (ops : List (RingOp X)) : Nat :=
  ops.countP fun o => match o with | .add _ => true | .update => false

def ringUpdates (ops : List (RingOp X)) : Nat :=
  ops.countP fun o => match o with | .add _ => false | .update => true

/-- The additions of a history in order, each with the number of later updates. -/
def ages : List (RingOp X) → List (X × Nat)
  | [] => []
  | .add x :: ops => (x, ringUpdates ops) :: ages ops
  | .update :: ops => ages ops

theorem ages_length (ops : List (RingOp X)) : (ages ops).length = ringAdds ops := by
  induction ops with
  | nil => rfl
  | cons o ops ih => cases o <;> simp_all [ages, ringAdds]

theorem ages_snoc_add (ops : List (RingOp X)) (x : X) : ages (ops ++ [.add x]) = ages ops ++ [(x, 0)] := by
  induction ops with
  | nil => simp [ages, ringUpdates]
  | cons o ops ih => cases o <;> simp_all [ages, ringUpdates]

theorem ages_snoc_update (ops : List (RingOp X)) :
    ages (ops ++ [.update]) = (ages ops).map fun p => (p.1, p.2 + 1) := by
  induction ops with
  | nil => simp [ages]
  | cons o ops ih => cases o <;> simp_all [ages, ringUpdates]

theorem ages_getElem? (ops : List (RingOp X)) (a : Nat) (x : X) (k : Nat) :
    (ages ops)[a]? = some (x, k) ↔
      ∃ pre post, ops = pre ++ .add x :: post ∧ ringAdds pre = a ∧ ringUpdates post = k := by
  induction ops generalizing a with
  | nil => simp [ages]
  | cons o ops ih =>
    cases o with
    | add y =>
      cases a with
      | zero =>
        simp only [ages, List.getElem?_cons_zero, Option.some.injEq, Prod.mk.injEq]
        constructor
        · rintro ⟨rfl, rfl⟩; exact ⟨[], ops, rfl, rfl, rfl⟩
        · rintro ⟨pre, post, h1, h2, h3⟩
          cases pre with
          | nil =>
            simp only [List.nil_append, List.cons.injEq, RingOp.add.injEq] at h1
            exact ⟨h1.1, by rw [h1.2]; exact h3⟩
          | cons q pre =>
            simp only [List.cons_append, List.cons.injEq] at h1
            rw [← h1.1] at h2
            simp [ringAdds] at h2
      | succ a =>
        simp only [ages, List.getElem?_cons_succ]
        rw [ih]
        constructor
        · rintro ⟨pre, post, rfl, h2, h3⟩
          exact ⟨.add y :: pre, post, rfl, by simp_all [ringAdds], h3⟩
        · rintro ⟨pre, post, h1, h2, h3⟩
          cases pre with
          | nil => simp [ringAdds] at h2
          | cons q pre =>
            simp only [List.cons_append, List.cons.injEq] at h1
            refine ⟨pre, post, h1.2, ?_, h3⟩
            rw [← h1.1] at h2
            simpa [ringAdds] using h2
    | update =>
      simp only [ages]
      rw [ih]
      constructor
      · rintro ⟨pre, post, rfl, h2, h3⟩
        exact ⟨.update :: pre, post, rfl, by simpa [ringAdds] using h2, h3⟩
      · rintro ⟨pre, post, h1, h2, h3⟩
        cases pre with
        | nil => simp at h1
        | cons q pre =>
          simp only [List.cons_append, List.cons.injEq] at h1
          refine ⟨pre, post, h1.2, ?_, h3⟩
          rw [← h1.1] at h2
          simpa [ringAdds] using h2

/-- What the vector holds after a history. -/
structure RingInv (m h : Nat) (s : Ring X) (A : List (X × Nat)) : Prop where
  len : s.list.length = min A.length m
  idx : s.index = A.length - m
  get : ∀ a, a < A.length → A.length - m ≤ a →
    s.list[a % m]? = A[a]?.map fun p => (p.1, h - p.2)

theorem window_mod {n m a b : Nat} (ha : a < n) (hb : b < n) (ha' : n - m ≤ a) (hb' : n - m ≤ b)
    (h : a % m = b % m) : a = b := by
  have h1 := Nat.div_add_mod a m
  have h2 := Nat.div_add_mod b m
  rcases Nat.lt_trichotomy (a / m) (b / m) with hlt | heq | hlt
  · have : m * (a / m + 1) ≤ m * (b / m) := Nat.mul_le_mul_left _ hlt
    rw [Nat.mul_add] at this; omega
  · rw [heq] at h1; omega
  · have : m * (b / m + 1) ≤ m * (a / m) := Nat.mul_le_mul_left _ hlt
    rw [Nat.mul_add] at this; omega

theorem ringRun_inv (m h : Nat) (hm : 0 < m) (ops : List (RingOp X)) :
    ∃ s, ringRun m h ops = some s ∧ RingInv m h s (ages ops) := by
  induction ops using List.reverseRecOn with
  | nil => exact ⟨⟨[], 0⟩, rfl, ⟨by simp [ages], by simp [ages], by simp [ages]⟩⟩
  | append_singleton ops o ih =>
    obtain ⟨s, hs, hi⟩ := ih
    have hrun : ringRun m h (ops ++ [o]) = ringApply m h s o := by
      have : ringRun m h (ops ++ [o]) = (ringRun m h ops).bind fun s => ringApply m h s o := by
        simp only [ringRun, List.foldlM_append, List.foldlM_cons, List.foldlM_nil]
        congr 1
        funext s
        cases ringApply m h s o <;> rfl
      rw [this, hs]; rfl
    rw [hrun]
    cases o with
    | add x =>
      rw [ages_snoc_add]
      simp only [ringApply]
      by_cases hlt : s.list.length < m
      · rw [if_pos hlt]
        have hA : (ages ops).length < m := by have := hi.len; omega
        have hl : s.list.length = (ages ops).length := by have := hi.len; omega
        refine ⟨_, rfl, ⟨?_, ?_, ?_⟩⟩
        · simp; omega
        · have := hi.idx; simp; omega
        · intro a ha hge
          simp only [List.length_append, List.length_singleton] at ha hge
          have ham : a % m = a := Nat.mod_eq_of_lt (by omega)
          rw [ham]
          by_cases hlast : a = (ages ops).length
          · subst hlast
            rw [List.getElem?_append_right (by omega), List.getElem?_append_right (by omega)]
            simp [hl]
          · rw [List.getElem?_append_left (by omega), List.getElem?_append_left (by omega)]
            have := hi.get a (by omega) (by omega)
            rwa [ham] at this
      · rw [if_neg hlt, if_neg (by omega)]
        have hA : m ≤ (ages ops).length := by have := hi.len; omega
        have hl : s.list.length = m := by have := hi.len; omega
        have hmod : s.index % m = (ages ops).length % m := by
          rw [hi.idx]
          conv_rhs => rw [show (ages ops).length = (ages ops).length - m + m by omega]
          rw [Nat.add_mod_right]
        refine ⟨_, rfl, ⟨?_, ?_, ?_⟩⟩
        · simp; omega
        · have := hi.idx; simp; omega
        · intro a ha hge
          simp only [List.length_append, List.length_singleton] at ha hge
          rw [hmod]
          by_cases hlast : a = (ages ops).length
          · subst hlast
            rw [List.getElem?_set_self (by rw [hl]; exact Nat.mod_lt _ hm)]
            rw [List.getElem?_append_right (by omega)]
            simp
          · rw [List.getElem?_append_left (by omega), List.getElem?_set_ne]
            · exact hi.get a (by omega) (by omega)
            · intro heq
              have := window_mod (n := (ages ops).length + 1) (m := m) (a := (ages ops).length) (b := a)
                (by omega) (by omega) (by omega) (by omega) heq
              omega
    | update =>
      rw [ages_snoc_update]
      simp only [ringApply]
      by_cases hh : h > 0
      · rw [if_pos hh]
        refine ⟨_, rfl, ⟨by simpa using hi.len, by simpa using hi.idx, ?_⟩⟩
        intro a ha hge
        simp only [List.length_map] at ha hge
        have := hi.get a ha hge
        simp only [List.getElem?_map, this, Option.map_map]
        congr 1
        funext p
        simp only [Function.comp]
        split
        · simp; omega
        · simp; omega
      · rw [if_neg hh]
        refine ⟨_, rfl, ⟨by simpa using hi.len, by simpa using hi.idx, ?_⟩⟩
        intro a ha hge
        simp only [List.length_map] at ha hge
        have := hi.get a ha hge
        rw [this, List.getElem?_map, Option.map_map]
        congr 1
        funext p
        simp only [Function.comp]
        congr 1; omega

/-- Membership in the vector: the last `m` additions. -/
theorem ring_mem {m h : Nat} (hm : 0 < m) {s : Ring X} {A : List (X × Nat)} (hi : RingInv m h s A)
    (x : X) (r : Nat) :
    (x, r) ∈ s.list ↔ ∃ a k, A[a]? = some (x, k) ∧ A.length - m ≤ a ∧ r = h - k := by
  constructor
  · intro hmem
    obtain ⟨j, hj, hx⟩ := List.getElem_of_mem hmem
    have hlen := hi.len
    -- the addition stored at position j
    have : ∃ a, a < A.length ∧ A.length - m ≤ a ∧ a % m = j := by
      by_cases hA : A.length ≤ m
      · refine ⟨j, by omega, by omega, Nat.mod_eq_of_lt (by omega)⟩
      · refine ⟨j + m * ((A.length - 1 - j) / m), ?_, ?_, ?_⟩
        · have := Nat.div_mul_le_self (A.length - 1 - j) m
          rw [Nat.mul_comm] at this; omega
        · have h1 := Nat.div_add_mod (A.length - 1 - j) m
          have h2 := Nat.mod_lt (A.length - 1 - j) hm
          omega
        · rw [Nat.add_mul_mod_self_left, Nat.mod_eq_of_lt (by omega)]
    obtain ⟨a, ha, hge, hmod⟩ := this
    have hg := hi.get a ha hge
    rw [hmod, List.getElem?_eq_getElem hj, hx, List.getElem?_eq_getElem ha] at hg
    simp only [Option.map_some, Option.some.injEq, Prod.mk.injEq] at hg
    refine ⟨a, A[a].2, ?_, hge, hg.2⟩
    rw [List.getElem?_eq_getElem ha, hg.1]
  · rintro ⟨a, k, hA, hge, rfl⟩
    have ha : a < A.length := (List.getElem?_eq_some_iff.1 hA).1
    have hg := hi.get a ha hge
    rw [hA] at hg
    exact List.mem_of_getElem? hg

/-! ### Continuators and the loop -/

theorem combinedLoop_spec {K Sol : Type} (sol : Sol) (l : List (ContStep K Sol × K)) (b : Bool) :
    combinedLoop sol l b =
      (b && l.all (fun p => (p.1 p.2 sol).1), l.map fun p => (p.1, (p.1 p.2 sol).2)) := by
  induction l generalizing b with
  | nil => simp [combinedLoop]
  | cons p l ih =>
    obtain ⟨c, k⟩ := p
    simp only [combinedLoop, ih, List.all_cons, List.map_cons]
    cases (c k sol).1 <;> simp

theorem lsLoop_iter {Sol E : Type} (ex : Explorer Sol E) (m : Nat) :
    ∀ (fuel t : Nat) (sol : Sol) (e : E) (cpt : Nat),
      (m - cpt ≤ fuel → 0 < fuel → (lsLoop ex (iterCont m) fuel t sol e cpt).isSome) ∧
      ∀ l b, lsLoop ex (iterCont m) fuel t sol e cpt = some (l, b) →
        l.length ≤ max 1 (m - cpt) ∧ ((∀ s e, ex.isContinue s e = true) → l.length = max 1 (m - cpt)) := by
  intro fuel
  induction fuel with
  | zero => intro t sol e cpt; simp [lsLoop]
  | succ fuel ih =>
    intro t sol e cpt
    simp only [lsLoop]
    by_cases hc : ((iterCont m cpt (lsStep ex t sol e).1).1 &&
        ex.isContinue (lsStep ex t sol e).1 (lsStep ex t sol e).2.1) = true
    · rw [if_pos hc]
      simp only [iterCont, Bool.and_eq_true, decide_eq_true_eq] at hc
      constructor
      · intro hf _
        rw [Option.isSome_map]
        exact (ih _ _ _ (cpt + 1)).1 (by omega) (by omega)
      · intro l b h
        simp only [Option.map_eq_some_iff] at h
        obtain ⟨⟨l', b'⟩, h1, h2⟩ := h
        simp only [Prod.mk.injEq] at h2
        obtain ⟨g1, g2⟩ := (ih _ _ _ (cpt + 1)).2 l' b' h1
        rw [← h2.1]
        simp only [List.length_cons]
        refine ⟨by omega, fun hex => ?_⟩
        have := g2 hex
        omega
    · rw [if_neg hc]
      refine ⟨fun _ _ => rfl, ?_⟩
      intro l b h
      simp only [Option.some.injEq, Prod.mk.injEq] at h
      rw [← h.1]
      simp only [List.length_singleton]
      refine ⟨by omega, fun hex => ?_⟩
      simp only [iterCont, hex, Bool.and_true, decide_eq_true_eq] at hc
      omega

/-! ### Checkpoint statistics -/

theorem checkpointStats_spec (interval n counter : Nat) :
    checkpointStats interval n counter =
      ((List.range n).map (fun j => decide ((counter + j) % interval = 0)), counter + n) := by
  induction n generalizing counter with
  | zero => rfl
  | succ n ih =>
    simp only [checkpointStats, ih, List.range_succ_eq_map, List.map_cons, List.map_map]
    congr 1
    · congr 1
      apply List.map_congr_left
      intro j _
      simp only [Function.comp, Nat.succ_eq_add_one]
      rw [show counter + 1 + j = counter + (j + 1) by omega]
    · omega

theorem checkpointRun_get (interval n calls counter c j : Nat) (hc : c < calls) (hj : j < n) :
    ((checkpointRun interval n calls counter).getD c []).getD j false =
      decide ((counter + c * n + j) % interval = 0) := by
  induction calls generalizing counter c with
  | zero => omega
  | succ calls ih =>
    simp only [checkpointRun, checkpointStats_spec]
    cases c with
    | zero => simp [List.getD_eq_getElem?_getD, hj]
    | succ c =>
      rw [List.getD_cons_succ, ih _ _ (by omega)]
      congr 3
      rw [Nat.add_mul]; omega

/-! ### Variable neighbourhood selection -/

theorem selRun_forward (n k fuel : Nat) (hn : 2 ≤ n) (hn64 : n < 2 ^ 64) (hk : k < n) (hf : n - k ≤ fuel) :
    selRun (forwardSel false n) fuel k = (List.range' k (n - k), true) := by
  have hu : usub64 n 2 = n - 2 := by
    unfold usub64
    rw [show n + 2 ^ 64 - 2 = n - 2 + 2 ^ 64 by omega, Nat.add_mod_right, Nat.mod_eq_of_lt (by omega)]
  induction fuel generalizing k with
  | zero => omega
  | succ fuel ih =>
    simp only [selRun, forwardSel, hu, Bool.false_or, decide_eq_true_eq]
    by_cases h : k ≤ n - 2
    · rw [if_pos h, Nat.mod_eq_of_lt (by omega)]
      have := ih (k + 1) (by omega) (by omega)
      simp only [forwardSel, hu, Bool.false_or] at this
      rw [this, show n - k = (n - (k + 1)) + 1 by omega, List.range'_succ]
    · rw [if_neg h, show n - k = 1 by omega]; rfl

theorem selRun_backward (n k fuel : Nat) (hk : k < n) (hf : k < fuel) :
    selRun (backwardSel false n) fuel k = ((List.range (k + 1)).reverse, true) := by
  induction fuel generalizing k with
  | zero => omega
  | succ fuel ih =>
    simp only [selRun, backwardSel, Bool.false_or, decide_eq_true_eq]
    by_cases h : k > 0
    · rw [if_pos h, show k + n - 1 = (k - 1) + n by omega, Nat.add_mod_right, Nat.mod_eq_of_lt (by omega)]
      have := ih (k - 1) (by omega) (by omega)
      simp only [backwardSel, Bool.false_or] at this
      rw [this, show k - 1 + 1 = k by omega, List.range_succ (n := k)]
      simp
    · rw [if_neg h, show k = 0 by omega]; rfl

/-! ### Neighbourhood statistics -/

/-- Spec of the accumulated members over the fitness values seen so far. -/
structure StatInv (fx : ℚ) (s : NbStat) (v : List ℚ) : Prop where
  fits : s.fits = v
  nb : s.nb = v.length
  mean : s.mean = v.sum
  inf : s.nbInf = v.countP (· < fx)
  equal : s.nbEqual = v.countP (· = fx)
  sup : s.nbSup = v.countP (fx < ·)
  best : s.best ∈ v ∧ ∀ x ∈ v, x ≤ s.best
  lowest : s.lowest ∈ v ∧ ∀ x ∈ v, s.lowest ≤ x

theorem statFirst_inv (fx c : ℚ) : StatInv fx (statFirst fx c) [c] := by
  unfold statFirst
  by_cases h1 : fx = c
  · subst h1
    constructor <;> simp
  · by_cases h2 : fx < c
    · have h3 : ¬ c < fx := not_lt_of_gt h2
      constructor <;> simp [h1, h2, h3, Ne.symm h1, le_of_lt h2]
    · have h3 : c < fx := lt_of_le_of_ne (le_of_not_gt h2) (Ne.symm h1)
      constructor <;> simp [h1, h2, h3, Ne.symm h1, le_of_lt h3]

theorem statStep_inv (fx : ℚ) (s : NbStat) (v : List ℚ) (c : ℚ) (hi : StatInv fx s v) :
    StatInv fx (statStep fx s c) (v ++ [c]) := by
  have hb : (if s.best < c then c else s.best) ∈ v ++ [c] ∧
      ∀ x ∈ v ++ [c], x ≤ (if s.best < c then c else s.best) := by
    by_cases h : s.best < c
    · simp only [h, if_true]
      refine ⟨by simp, ?_⟩
      intro x hx
      rcases List.mem_append.1 hx with hx | hx
      · exact le_trans (hi.best.2 x hx) (le_of_lt h)
      · rw [List.mem_singleton.1 hx]
    · simp only [h, if_false]
      refine ⟨by simp [hi.best.1], ?_⟩
      intro x hx
      rcases List.mem_append.1 hx with hx | hx
      · exact hi.best.2 x hx
      · rw [List.mem_singleton.1 hx]; exact le_of_not_gt h
  have hl : (if c < s.lowest then c else s.lowest) ∈ v ++ [c] ∧
      ∀ x ∈ v ++ [c], (if c < s.lowest then c else s.lowest) ≤ x := by
    by_cases h : c < s.lowest
    · simp only [h, if_true]
      refine ⟨by simp, ?_⟩
      intro x hx
      rcases List.mem_append.1 hx with hx | hx
      · exact le_trans (le_of_lt h) (hi.lowest.2 x hx)
      · rw [List.mem_singleton.1 hx]
    · simp only [h, if_false]
      refine ⟨by simp [hi.lowest.1], ?_⟩
      intro x hx
      rcases List.mem_append.1 hx with hx | hx
      · exact hi.lowest.2 x hx
      · rw [List.mem_singleton.1 hx]; exact le_of_not_gt h
  unfold statStep
  by_cases h1 : fx = c
  · subst h1
    refine ⟨?_, ?_, ?_, ?_, ?_, ?_, hb, hl⟩ <;>
      simp [hi.fits, hi.nb, hi.mean, hi.inf, hi.equal, hi.sup, List.countP_append]
  · by_cases h2 : fx < c
    · have h3 : ¬ c < fx := not_lt_of_gt h2
      refine ⟨?_, ?_, ?_, ?_, ?_, ?_, ?_, ?_⟩
      all_goals first
        | (simp [h1, h2, hi.fits, hi.nb, hi.mean, hi.inf, hi.equal, hi.sup, List.countP_append, h3,
            Ne.symm h1, le_of_lt h2]; done)
        | (simp only [h1, h2, if_false, if_true]; first | exact hb | exact hl)
    · have h3 : c < fx := lt_of_le_of_ne (le_of_not_gt h2) (Ne.symm h1)
      refine ⟨?_, ?_, ?_, ?_, ?_, ?_, ?_, ?_⟩
      all_goals first
        | (simp [h1, h2, hi.fits, hi.nb, hi.mean, hi.inf, hi.equal, hi.sup, List.countP_append, h3,
            Ne.symm h1, le_of_lt h3]; done)
        | (simp only [h1, h2, if_false]; first | exact hb | exact hl)

theorem stat_inv (fx c : ℚ) (l : List ℚ) :
    StatInv fx (l.foldl (statStep fx) (statFirst fx c)) (c :: l) := by
  have : ∀ (l v : List ℚ) (s : NbStat), StatInv fx s v → StatInv fx (l.foldl (statStep fx) s) (v ++ l) := by
    intro l
    induction l with
    | nil => intro v s h; simpa using h
    | cons d l ih =>
      intro v s h
      have := ih (v ++ [d]) _ (statStep_inv fx s v d h)
      simpa using this
  exact this l [c] _ (statFirst_inv fx c)

/-- Rank of the element at position `k` of a sorted vector. -/
theorem sorted_rank (v : List ℚ) (hv : v.Pairwise (· ≤ ·)) (k : Nat) (hk : k < v.length) :
    k < v.countP (· ≤ v[k]) ∧ v.length - k ≤ v.countP (v[k] ≤ ·) := by
  have hle : ∀ i j (hi : i < v.length) (hj : j < v.length), i ≤ j → v[i] ≤ v[j] := by
    intro i j hi hj hij
    rcases Nat.lt_or_eq_of_le hij with h | h
    · exact List.pairwise_iff_getElem.1 hv i j hi hj h
    · subst h; exact le_rfl
  constructor
  · have h1 : (v.take (k + 1)).countP (· ≤ v[k]) = (v.take (k + 1)).length := by
      rw [List.countP_eq_length]
      intro x hx
      obtain ⟨i, hi, rfl⟩ := List.getElem_of_mem hx
      rw [List.getElem_take]
      simp only [List.length_take] at hi
      exact decide_eq_true (hle i k (by omega) hk (by omega))
    have h2 : (v.take (k + 1)).countP (· ≤ v[k]) ≤ v.countP (· ≤ v[k]) :=
      (List.take_sublist _ _).countP_le
    simp only [List.length_take] at h1
    omega
  · have h1 : (v.drop k).countP (v[k] ≤ ·) = (v.drop k).length := by
      rw [List.countP_eq_length]
      intro x hx
      obtain ⟨i, hi, rfl⟩ := List.getElem_of_mem hx
      rw [List.getElem_drop]
      simp only [List.length_drop] at hi
      exact decide_eq_true (hle k (k + i) hk (by omega) (by omega))
    have h2 : (v.drop k).countP (v[k] ≤ ·) ≤ v.countP (v[k] ≤ ·) :=
      (List.drop_sublist _ _).countP_le
    simp only [List.length_drop] at h1
    omega

end Paradiseo.LS

namespace Paradiseo.LS

/-! ### Cooling -/

variable {C : Type}

/-- Schedule state after a history of updates (`true`: the move of that iteration was applied). -/
noncomputable def coolRun (cool : Cooling C) (hs : List Bool) : ℝ × C := hs.foldl cool.update cool.init

theorem coolRun_snoc (cool : Cooling C) (hs : List Bool) (a : Bool) :
    coolRun cool (hs ++ [a]) = cool.update (coolRun cool hs) a := by simp [coolRun]

theorem simple_run (initT alpha finalT : ℝ) (span : Nat) (hs : List Bool) :
    coolRun (simpleCooling initT alpha finalT span) hs =
      (initT * alpha ^ (hs.length / (span + 1)), hs.length % (span + 1)) := by
  induction hs using List.reverseRecOn with
  | nil => simp [coolRun, simpleCooling]
  | append_singleton hs a ih =>
    rw [coolRun_snoc, ih]
    simp only [simpleCooling, List.length_append, List.length_singleton]
    have h1 := Nat.div_add_mod hs.length (span + 1)
    have h2 := Nat.mod_lt hs.length (show span + 1 > 0 by omega)
    by_cases h : hs.length % (span + 1) ≥ span
    · rw [if_pos h]
      have e : hs.length + 1 = (span + 1) * (hs.length / (span + 1) + 1) := by
        rw [Nat.mul_add]; omega
      rw [e, Nat.mul_div_cancel_left _ (Nat.succ_pos span), Nat.mul_mod_right, pow_succ, mul_assoc]
    · rw [if_neg h]
      have e : hs.length + 1 = hs.length % (span + 1) + 1 + (span + 1) * (hs.length / (span + 1)) := by omega
      have e1 : (hs.length + 1) / (span + 1) = hs.length / (span + 1) := by
        conv_lhs => rw [e]
        rw [Nat.add_mul_div_left _ _ (Nat.succ_pos span), Nat.div_eq_of_lt (by omega), Nat.zero_add]
      have e2 : (hs.length + 1) % (span + 1) = hs.length % (span + 1) + 1 := by
        conv_lhs => rw [e]
        rw [Nat.add_mul_mod_self_left, Nat.mod_eq_of_lt (by omega)]
      rw [e1, e2]

/-- Number of trailing rejected moves. -/
def trailing (hs : List Bool) : Nat := (hs.reverse.takeWhile (!·)).length

theorem trailing_false (hs : List Bool) : trailing (hs ++ [false]) = trailing hs + 1 := by
  simp [trailing]

theorem trailing_true (hs : List Bool) : trailing (hs ++ [true]) = 0 := by
  simp [trailing]

/-- Invariant of the dynamic span schedule. -/
theorem dyn_inv (initT alpha : ℝ) (n m k : Nat) (hn : 0 < n) (hm : 0 < m) (hs : List Bool) :
    let s := (coolRun (dynSpanCooling initT alpha n m k) hs).2
    s.spanTries < n ∧ s.spanMove < m ∧ s.spanMove ≤ s.spanTries ∧
    (s.spanMove = 0 → s.nbSpan * n + s.spanTries ≤ trailing hs) := by
  induction hs using List.reverseRecOn with
  | nil => simpa [coolRun, dynSpanCooling, trailing] using ⟨hn, hm⟩
  | append_singleton hs a ih =>
    simp only at ih ⊢
    rw [coolRun_snoc]
    obtain ⟨i1, i2, i3, i4⟩ := ih
    revert i1 i2 i3 i4
    generalize coolRun (dynSpanCooling initT alpha n m k) hs = st
    obtain ⟨T, tr, mv, sp⟩ := st
    intro i1 i2 i3 i4
    simp only at i1 i2 i3 i4
    simp only [dynSpanCooling]
    cases a with
    | false =>
      simp only [Bool.false_eq_true, if_false]
      rw [trailing_false]
      by_cases hc : tr + 1 ≥ n ∨ mv ≥ m
      · rw [if_pos hc]
        simp only
        refine ⟨hn, hm, le_rfl, fun _ => ?_⟩
        by_cases h0 : mv = 0
        · rw [if_pos h0]
          have := i4 h0
          have : tr + 1 = n := by omega
          rw [Nat.add_mul]; omega
        · rw [if_neg h0]; omega
      · rw [if_neg hc]
        simp only
        exact ⟨by omega, by omega, by omega, fun h => by have := i4 h; omega⟩
    | true =>
      simp only [if_true]
      rw [trailing_true]
      by_cases hc : tr + 1 ≥ n ∨ mv + 1 ≥ m
      · rw [if_pos hc]
        simp only [Nat.add_eq_zero_iff, one_ne_zero, and_false, if_false]
        exact ⟨hn, hm, le_rfl, fun _ => by omega⟩
      · rw [if_neg hc]
        simp only
        exact ⟨by omega, by omega, by omega, fun h => by omega⟩

/-- `j` rejected moves from a state whose current span has no move. -/
theorem dyn_frozen (initT alpha : ℝ) (n m k : Nat) (hm : 0 < m) (j : Nat) (T : ℝ) (tr sp : Nat)
    (htr : tr < n) :
    let s := ((List.replicate j false).foldl (dynSpanCooling initT alpha n m k).update (T, ⟨tr, 0, sp⟩)).2
    s.spanMove = 0 ∧ s.spanTries < n ∧ s.nbSpan * n + s.spanTries = sp * n + tr + j := by
  induction j generalizing T tr sp with
  | zero => simpa using htr
  | succ j ih =>
    rw [List.replicate_succ, List.foldl_cons]
    simp only [dynSpanCooling] at ih ⊢
    simp only [Bool.false_eq_true, if_false]
    by_cases hc : tr + 1 ≥ n ∨ 0 ≥ m
    · rw [if_pos hc]
      have h := ih (T * alpha) 0 (sp + 1) (by omega)
      simp only [Bool.false_eq_true, if_true] at h ⊢
      refine ⟨h.1, h.2.1, ?_⟩
      have := h.2.2
      rw [Nat.add_mul] at this
      have : tr + 1 = n := by omega
      omega
    · rw [if_neg hc]
      have h := ih T (tr + 1) sp (by omega)
      refine ⟨h.1, h.2.1, ?_⟩
      have := h.2.2
      omega

/-- Rejected moves until the current span ends. -/
theorem dyn_flush (initT alpha : ℝ) (n m k : Nat) (d : Nat) (T : ℝ) (tr mv sp : Nat)
    (hd : d + tr + 1 = n) (hmv : mv < m) (hmv0 : 0 < mv) :
    ∃ T', (List.replicate (d + 1) false).foldl (dynSpanCooling initT alpha n m k).update (T, ⟨tr, mv, sp⟩) =
      (T', ⟨0, 0, 0⟩) := by
  induction d generalizing T tr with
  | zero =>
    refine ⟨T * alpha, ?_⟩
    simp only [dynSpanCooling, List.replicate_succ, List.replicate_zero, List.foldl_cons, List.foldl_nil,
      Bool.false_eq_true, if_false]
    rw [if_pos (by omega), if_neg (by omega)]
  | succ d ih =>
    rw [List.replicate_succ, List.foldl_cons]
    have h1 : (dynSpanCooling initT alpha n m k).update (T, ⟨tr, mv, sp⟩) false = (T, ⟨tr + 1, mv, sp⟩) := by
      simp only [dynSpanCooling, Bool.false_eq_true, if_false]
      rw [if_neg (by omega)]
    rw [h1]
    exact ih T (tr + 1) (by omega)

/-! ### VNS -/

theorem vns_first {S F V : Type} [LinearOrder F] (s : VNSel V) (run : Nat → Nat → S × F → S × F)
    (crit : S × F → S × F → Bool) (t : Nat) (p : (S × F) × VNS (S × F) V) (hp : p.2.first = true) :
    let q := stepTo (vnsExplorer s run crit) t p
    q.2.first = true ∧
      q.2.sel = (if s.cont p.2.sel then s.next p.2.sel else p.2.sel) ∧
      q.2.stop = (p.2.stop || !s.cont p.2.sel) ∧
      q.2.currentSol = run t (s.current p.2.sel) p.1 ∧
      q.1 = (if crit p.1 q.2.currentSol then q.2.currentSol else p.1) ∧
      q.2.bestSoFar = (if p.2.bestSoFar.2 < q.2.currentSol.2 then q.2.currentSol else p.2.bestSoFar) := by
  obtain ⟨sol, e⟩ := p
  simp only at hp
  simp only [stepTo, lsStep, vnsExplorer, hp]
  by_cases h : s.cont e.sel <;> simp [h, hp]

end Paradiseo.LS
