import Verif.Model.CloudSampling
import Verif.Props.WalkSampling
/-
C335: what a sampling along a neutral walk records. C336: what the samplings of fitness clouds record.
-/
namespace Paradiseo.LS

open Paradiseo.EO (Err)

variable {S M : Type}

/-! ### Number of iterations of an explorer that counts them -/

/-- With a counter of steps that starts at 0, the loop goes on while the counter is below the bound and the explorer wants to. -/
private theorem steps_of_run {E : Type} {f : S → ℚ} {ex : Explorer (S × ℚ) E} {fuel : Nat} {x : S} {fit : Option ℚ} {e : E}
    {res : S × ℚ} {tr : List ((S × ℚ) × E)} {b : Bool}
    (h : localSearch f ex (fun (_ : Unit) _ => (true, ())) (fun _ => ()) fuel x fit e = some (res, tr, b)) : b = true := by
  have : ∀ (fuel t : Nat) sol e k l b, lsLoop ex (fun (_ : Unit) (_ : S × ℚ) => (true, ())) fuel t sol e k = some (l, b) →
      b = true := by
    intro fuel
    induction fuel with
    | zero => intro t sol e k l b h; simp [lsLoop] at h
    | succ fuel ih =>
      intro t sol e k l b h
      simp only [lsLoop] at h
      split at h
      · rw [Option.map_eq_some_iff] at h
        obtain ⟨⟨l', b'⟩, h1, h2⟩ := h
        rw [Prod.mk.injEq] at h2
        rw [← h2.2]
        exact ih _ _ _ _ _ _ h1
      · rw [Option.some.injEq, Prod.mk.injEq] at h
        exact h.2.symm
  simp only [localSearch, Option.map_eq_some_iff] at h
  obtain ⟨⟨l, b'⟩, h3, h4⟩ := h
  simp only [Prod.mk.injEq] at h4
  rw [← h4.2.2]
  exact this _ _ _ _ _ _ _ h3

private theorem ends_of_bound {E : Type} {f : S → ℚ} {ex : Explorer (S × ℚ) E} (m : Nat) (step : E → Nat)
    (hstep : ∀ t p, step (stepTo ex t p).2 = step p.2 + 1) (hcont : ∀ s e, ex.isContinue s e = true → step e < m)
    (fuel : Nat) (x : S) (fit : Option ℚ) (e : E) (h0 : step (ex.initParam (x, fit.getD (f x)) e) = 0) (hf : max 1 m ≤ fuel) :
    ∃ res tr, localSearch f ex (fun (_ : Unit) _ => (true, ())) (fun _ => ()) fuel x fit e = some (res, tr, true) := by
  have loop : ∀ (fuel t : Nat) (sol : S × ℚ) (e : E), max 1 (m - step e) ≤ fuel →
      ∃ r, lsLoop ex (fun (_ : Unit) _ => (true, ())) fuel t sol e () = some r := by
    intro fuel
    induction fuel with
    | zero => intro t sol e h; omega
    | succ fuel ih =>
      intro t sol e h
      have hs : step (lsStep ex t sol e).2.1 = step e + 1 := hstep t (sol, e)
      rw [lsLoop]
      simp only [Bool.true_and]
      split
      · rename_i hc
        have := hcont _ _ hc
        obtain ⟨r, hr⟩ := ih (t + 1) (lsStep ex t sol e).1 (lsStep ex t sol e).2.1 (by
          rw [hs] at this ⊢; omega)
        rw [hr]
        exact ⟨_, rfl⟩
      · exact ⟨_, rfl⟩
  obtain ⟨r, hr⟩ := loop fuel 0 (x, fit.getD (f x)) (ex.initParam (x, fit.getD (f x)) e) (by omega)
  have hl : localSearch f ex (fun (_ : Unit) _ => (true, ())) (fun _ => ()) fuel x fit e =
      some (ex.terminate (r.1.getLastD ((x, fit.getD (f x)), ex.initParam (x, fit.getD (f x)) e)).1
        (r.1.getLastD ((x, fit.getD (f x)), ex.initParam (x, fit.getD (f x)) e)).2, r.1, r.2) := by
    simp only [localSearch]
    rw [hr]
    rfl
  have := steps_of_run hl
  rw [this] at hl
  exact ⟨_, _, hl⟩

/-! ### C335 -/

private theorem neutral_step (nbStep : Nat) (nb : Nat → S × ℚ → List (Cand M ℚ)) (app : M → S → S) (t : Nat)
    (p : (S × ℚ) × HC M ℚ) : (stepTo (neutralWalk nbStep nb app) t p).2.step = p.2.step + 1 := by
  obtain ⟨⟨x, fx⟩, e⟩ := p
  cases hnb : nb t (x, fx) <;> simp [stepTo, lsStep, neutralWalk, hnb]

/-- C335: a neutral walk of at most `nbStep` steps ends, and its table has between two and `max 1 nbStep + 1` rows. All
solutions of it have the fitness of the first. From one row to the next a neighbour of the same fitness was taken, except
that the last two rows are the same solution when it has no such neighbour; this is the only way to get fewer rows. The
second column is the distance of the solution of the row from the first. -/
theorem C335_rows (f : S → ℚ) (d : S → S → ℚ) (lt : ℚ → ℚ → Bool) (sort : List ℚ → List ℚ) (look : S × ℚ → List ℚ)
    (nbStep : Nat) (nb : Nat → S × ℚ → List (Cand M ℚ)) (app : M → S → S) (fuel : Nat) (hf : max 1 nbStep ≤ fuel) (x : S)
    (fit : Option ℚ) (e : HC M ℚ) :
    ∃ T, neutralSampling f d lt sort look nbStep nb app fuel x fit e = some T ∧
      2 ≤ T.sols.length ∧ T.sols.length ≤ max 1 nbStep + 1 ∧ T.sols[0]? = some (x, fit.getD (f x)) ∧
      (∀ s ∈ T.sols, s.2 = fit.getD (f x)) ∧
      (∀ i a b, T.sols[i]? = some a → T.sols[i + 1]? = some b →
        (∃ c ∈ nb i a, c.fit = a.2 ∧ b = (app c.mv a.1, a.2)) ∨
        (b = a ∧ i + 2 = T.sols.length ∧ ∀ c ∈ nb i a, c.fit ≠ a.2)) ∧
      (T.sols.length < max 1 nbStep + 1 →
        ∃ a, T.sols[T.sols.length - 2]? = some a ∧ T.sols[T.sols.length - 1]? = some a ∧
          ∀ c ∈ nb (T.sols.length - 2) a, c.fit ≠ a.2) ∧
      T.dist = T.sols.map (fun s => d s.1 x) := by
  obtain ⟨res, tr, h⟩ := ends_of_bound (f := f) (ex := neutralWalk nbStep nb app) nbStep (·.step) (neutral_step nbStep nb app)
    (fun s e h => by
      simp only [neutralWalk, Bool.and_eq_true, decide_eq_true_eq] at h
      exact h.1) fuel x fit e rfl hf
  refine ⟨_, by unfold neutralSampling; rw [h]; rfl, ?_⟩
  obtain ⟨n, htr, hi, hb, hres, hsol⟩ := localSearch_orbit h
  generalize hp0 : ((x, fit.getD (f x)), (neutralWalk nbStep nb app).initParam (x, fit.getD (f x)) e) = p0 at *
  have hlen : tr.length = n + 1 := by rw [htr]; simp
  have hslen : (solutions (x, fit.getD (f x)) tr).length = n + 2 := by simp [solutions, hlen]
  have hfit : ∀ k, (orbit (neutralWalk nbStep nb app) 0 p0 k).1.2 = fit.getD (f x) ∧
      (orbit (neutralWalk nbStep nb app) 0 p0 k).2.step = k := by
    intro k
    induction k with
    | zero => subst hp0; exact ⟨rfl, rfl⟩
    | succ k ih =>
      rw [orbit]
      exact ⟨(C20_neutral_walk_step nbStep nb app _ _).1.trans ih.1, by rw [neutral_step, ih.2]⟩
  have hacc : ∀ i, i < n → (orbit (neutralWalk nbStep nb app) 0 p0 (i + 1)).2.isAccept = true ∧ i + 1 < nbStep := by
    intro i hin
    have := hi i hin
    simp only [neutralWalk, Bool.and_eq_true, decide_eq_true_eq] at this
    have h2 := (hfit (i + 1)).2
    simp only [neutralWalk] at h2
    rw [h2] at this
    exact ⟨this.2, this.1⟩
  have hstop : n + 1 < nbStep → (orbit (neutralWalk nbStep nb app) 0 p0 (n + 1)).2.isAccept = false := by
    intro hn
    have := hb.resolve_left (by simp)
    have h2 := (hfit (n + 1)).2
    simp only [neutralWalk, Bool.and_eq_false_iff, decide_eq_false_iff_not] at this h2 ⊢
    rcases this with this | this
    · omega
    · exact this
  dsimp only
  change 2 ≤ (solutions (x, fit.getD (f x)) tr).length ∧ (solutions (x, fit.getD (f x)) tr).length ≤ max 1 nbStep + 1 ∧
    (solutions (x, fit.getD (f x)) tr)[0]? = _ ∧ (∀ s ∈ solutions (x, fit.getD (f x)) tr, _) ∧
    (∀ i a b, (solutions (x, fit.getD (f x)) tr)[i]? = some a → (solutions (x, fit.getD (f x)) tr)[i + 1]? = some b →
      _ ∨ (b = a ∧ i + 2 = (solutions (x, fit.getD (f x)) tr).length ∧ _)) ∧
    ((solutions (x, fit.getD (f x)) tr).length < _ →
      ∃ a, (solutions (x, fit.getD (f x)) tr)[(solutions (x, fit.getD (f x)) tr).length - 2]? = some a ∧
        (solutions (x, fit.getD (f x)) tr)[(solutions (x, fit.getD (f x)) tr).length - 1]? = some a ∧
        ∀ c ∈ nb ((solutions (x, fit.getD (f x)) tr).length - 2) a, _) ∧ _
  rw [hslen]
  have hn : n + 2 ≤ max 1 nbStep + 1 := by
    rcases Nat.eq_zero_or_pos n with h0 | h0
    · omega
    · have := (hacc (n - 1) (by omega)).2; omega
  refine ⟨by omega, hn, rfl, ?_, ?_, ?_, rfl⟩
  · intro s hs
    obtain ⟨i, hs⟩ := List.mem_iff_getElem?.1 hs
    have hi' := (List.getElem?_eq_some_iff.1 hs).1
    rw [hsol i (by omega)] at hs
    cases hs
    exact (hfit i).1
  · intro i a c ha hc
    have hlt : i + 1 < n + 2 := by rw [← hslen]; exact (List.getElem?_eq_some_iff.1 hc).1
    rw [hsol i (by omega)] at ha
    rw [hsol (i + 1) hlt] at hc
    simp only [Option.some.injEq] at ha hc
    subst ha hc
    have hst := C20_neutral_walk_step nbStep nb app (0 + i) (orbit (neutralWalk nbStep nb app) 0 p0 i)
    simp only at hst
    rw [show stepTo (neutralWalk nbStep nb app) (0 + i) (orbit (neutralWalk nbStep nb app) 0 p0 i) =
      orbit (neutralWalk nbStep nb app) 0 p0 (i + 1) from rfl, Nat.zero_add] at hst
    obtain ⟨h1, h2⟩ := hst
    rcases h2 with ⟨-, c, hc1, hc2, hc3⟩ | ⟨h3, h4, h5⟩
    · left
      exact ⟨c, hc1, hc2, Prod.ext hc3 h1⟩
    · right
      refine ⟨h4, ?_, h5⟩
      by_contra hne
      have := (hacc i (by omega)).1
      rw [h3] at this
      cases this
  · intro hlt
    have hfalse := hstop (by omega)
    have hst := C20_neutral_walk_step nbStep nb app (0 + n) (orbit (neutralWalk nbStep nb app) 0 p0 n)
    simp only at hst
    rw [show stepTo (neutralWalk nbStep nb app) (0 + n) (orbit (neutralWalk nbStep nb app) 0 p0 n) =
      orbit (neutralWalk nbStep nb app) 0 p0 (n + 1) from rfl, Nat.zero_add] at hst
    rcases hst.2 with ⟨h3, -⟩ | ⟨-, h4, h5⟩
    · rw [h3] at hfalse; cases hfalse
    · refine ⟨(orbit (neutralWalk nbStep nb app) 0 p0 n).1, ?_, ?_, ?_⟩
      · rw [show n + 2 - 2 = n by omega, hsol n (by omega)]
      · rw [show n + 2 - 1 = n + 1 by omega, hsol (n + 1) (by omega), h4]
      · rw [show n + 2 - 2 = n by omega]; exact h5

/-- C335: the columns on the neighbourhood. In a row whose solution has neighbours they describe these neighbours: their
number, how many are worse, equally good and better, which add up, their mean, their sample variance, the least and the
greatest, and the quartiles by rank.
So the walk goes on from a solution exactly when the column of equally good neighbours is not 0 there. -/
theorem C335_columns (f : S → ℚ) (d : S → S → ℚ) (sort : List ℚ → List ℚ)
    (hsort : ∀ v, (sort v).Perm v ∧ (sort v).Pairwise (· ≤ ·)) (look : S × ℚ → List ℚ)
    (nbStep : Nat) (nb : Nat → S × ℚ → List (Cand M ℚ)) (app : M → S → S) (fuel : Nat) (x : S)
    (fit : Option ℚ) (e : HC M ℚ) (T : NeutralTable S)
    (h : neutralSampling f d (ltOf false) sort look nbStep nb app fuel x fit e = some T)
    (i : Nat) (s : S × ℚ) (hs : T.sols[i]? = some s) (hne : look s ≠ []) :
    T.size[i]? = some (.ok (look s).length) ∧
    T.nbInf[i]? = some (.ok ((look s).countP (· < s.2))) ∧
    T.nd[i]? = some (.ok ((look s).countP (· = s.2))) ∧
    T.nbSup[i]? = some (.ok ((look s).countP (s.2 < ·))) ∧
    (look s).countP (· < s.2) + (look s).countP (· = s.2) + (look s).countP (s.2 < ·) = (look s).length ∧
    T.avg[i]? = some (.ok ((look s).sum / (look s).length)) ∧
    T.var[i]? = some (.ok (if (look s).length = 1 then 0
      else ((look s).map fun v => (v - (look s).sum / (look s).length) * (v - (look s).sum / (look s).length)).sum /
        (((look s).length : ℚ) - 1))) ∧
    (∃ lo hi, T.min[i]? = some (.ok lo) ∧ T.max[i]? = some (.ok hi) ∧ lo ∈ look s ∧ hi ∈ look s ∧
      (∀ v ∈ look s, lo ≤ v ∧ v ≤ hi) ∧
      (∃ a b c, T.q1[i]? = some (.ok a) ∧ T.median[i]? = some (.ok b) ∧ T.q3[i]? = some (.ok c) ∧
        (a ∈ look s ∧ (look s).length / 4 < (look s).countP (· ≤ a) ∧
          (look s).length - (look s).length / 4 ≤ (look s).countP (a ≤ ·)) ∧
        (b ∈ look s ∧ (look s).length / 2 < (look s).countP (· ≤ b) ∧
          (look s).length - (look s).length / 2 ≤ (look s).countP (b ≤ ·)) ∧
        (c ∈ look s ∧ 3 * (look s).length / 4 < (look s).countP (· ≤ c) ∧
          (look s).length - 3 * (look s).length / 4 ≤ (look s).countP (c ≤ ·)))) ∧
    ((∀ t, ((nb t s).map (·.fit)).Perm (look s)) →
      ∀ t, T.nd[i]? = some (.ok 0) ↔ ∀ c ∈ nb t s, c.fit ≠ s.2) := by
  unfold neutralSampling at h
  rw [Option.map_eq_some_iff] at h
  obtain ⟨⟨res, tr, b⟩, -, rfl⟩ := h
  dsimp only at hs ⊢
  generalize hsols : (x, fit.getD (f x)) :: tr.map (·.1) = sols at *
  obtain ⟨c, l, hl⟩ := List.exists_cons_of_ne_nil hne
  have hlt : i < sols.length := (List.getElem?_eq_some_iff.1 hs).1
  have hlast : lastWithNeighbors (sols.map fun s => (s.2, look s)) i = some (s.2, c :: l) := by
    unfold lastWithNeighbors
    rw [List.take_add_one, List.getElem?_map, hs]
    simp [hl]
  have hser : ∀ {V : Type} (get : NbReport → V),
      (nbStatSeries (ltOf false) sort get none (sols.map fun s => (s.2, look s)))[i]? =
        some (.ok (get (nbStat sort s.2 c l))) := by
    intro V get
    rw [C331_series _ _ _ _ i (by simpa using hlt), hlast]
    dsimp only
    rw [(C331_order sort s.2 c l).1]
  have hst := C30_stats sort hsort s.2 c l
  simp only at hst
  obtain ⟨h1, h2, h3, h4, h5, h6, h7, h8, h9, h10⟩ := hst
  simp only [hser]
  rw [hl]
  refine ⟨by rw [h1], by rw [h4], by rw [h3], by rw [h2], by rw [← h2, ← h3, ← h4, ← h1]; omega, by rw [h8], by rw [h9, h8], ?_, ?_⟩
  · refine ⟨_, _, rfl, rfl, h6.1, h7.1, fun v hv => ⟨h6.2 v hv, h7.2 v hv⟩, _, _, _, rfl, rfl, rfl, ?_, ?_, ?_⟩
    · exact h10 _ ((c :: l).length / 4) (by simp)
    · exact h10 _ ((c :: l).length / 2) (by simp)
    · exact h10 _ (3 * (c :: l).length / 4) (by simp)
  · intro hp t
    have : ∀ n : Nat, (some (Except.ok n) = (some (Except.ok 0) : Option (Except Err Nat))) ↔ n = 0 := by
      intro n; simp
    rw [this, h3, List.countP_eq_zero]
    constructor
    · intro hz a ha
      have := hz a.fit ((hp t).mem_iff.1 (List.mem_map_of_mem ha))
      simpa using this
    · intro hz v hv
      obtain ⟨a, ha, rfl⟩ := List.mem_map.1 ((hp t).mem_iff.2 hv)
      simpa using hz a ha

/-! ### C336 -/

private theorem mh_step (nbStep : Nat) (u : Nat → ℚ) (nb : Nat → S × ℚ → List (Cand M ℚ)) (app : M → S → S) (t : Nat)
    (p : (S × ℚ) × HC M ℚ) :
    (stepTo (mhExplorer nbStep u nb app) t p).2.step = p.2.step + 1 ∧
    ((∃ c l, nb t p.1 = c :: l ∧ metropolisAccept p.1.2 c.fit (u t) = true ∧
        (stepTo (mhExplorer nbStep u nb app) t p).1 = (app c.mv p.1.1, c.fit)) ∨
      ((stepTo (mhExplorer nbStep u nb app) t p).1 = p.1 ∧
        ∀ c l, nb t p.1 = c :: l → metropolisAccept p.1.2 c.fit (u t) = false)) := by
  obtain ⟨⟨x, fx⟩, e⟩ := p
  cases hnb : nb t (x, fx) with
  | nil => refine ⟨?_, Or.inr ⟨?_, ?_⟩⟩ <;> simp [stepTo, lsStep, mhExplorer, hnb]
  | cons c l =>
    cases h : metropolisAccept fx c.fit (u t) with
    | true =>
      refine ⟨by simp [stepTo, lsStep, mhExplorer, hnb, h], Or.inl ⟨c, l, rfl, h, ?_⟩⟩
      simp [stepTo, lsStep, mhExplorer, hnb, h, moveSel]
    | false =>
      refine ⟨by simp [stepTo, lsStep, mhExplorer, hnb, h], Or.inr ⟨?_, ?_⟩⟩
      · simp [stepTo, lsStep, mhExplorer, hnb, h]
      · intro c' l' hc; cases hc; exact h

/-- What the second column of a cloud shows at a solution whose visited neighbours have these fitness values. -/
def Shows (best : Bool) (l : List ℚ) (v : ℚ) : Prop :=
  match l with
  | [] => v = 0
  | c :: _ => if best = true then v ∈ l ∧ ∀ w ∈ l, w ≤ v else v = c

private theorem bestLoop_spec (l : List ℚ) : ∀ (b : ℚ) (k : Nat),
    (FlipNbh.bestLoop 0 b k l = b ∨ FlipNbh.bestLoop 0 b k l ∈ l) ∧ b ≤ FlipNbh.bestLoop 0 b k l ∧
      ∀ w ∈ l, w ≤ FlipNbh.bestLoop 0 b k l := by
  induction l with
  | nil => intro b k; simp [FlipNbh.bestLoop]
  | cons c l ih =>
    intro b k
    rw [FlipNbh.bestLoop, if_pos (Or.inl rfl)]
    by_cases h : b < c
    · rw [if_pos h]
      obtain ⟨h1, h2, h3⟩ := ih c (k + 1)
      refine ⟨Or.inr (by simpa [List.mem_cons] using h1), h.le.trans h2, ?_⟩
      intro w hw
      rcases List.mem_cons.1 hw with rfl | hw
      · exact h2
      · exact h3 w hw
    · rw [if_neg h]
      obtain ⟨h1, h2, h3⟩ := ih b (k + 1)
      refine ⟨by rcases h1 with h1 | h1 <;> simp [h1], h2, ?_⟩
      intro w hw
      rcases List.mem_cons.1 hw with rfl | hw
      · exact (not_lt.1 h).trans h2
      · exact h3 w hw

private theorem shows_stat (best : Bool) (look : S × ℚ → List ℚ) (s : S × ℚ) :
    Shows best (look s) (if best then FlipNbh.bestStat 0 0 (look s) else FlipNbh.oneStat 0 (look s)) := by
  cases hl : look s with
  | nil => cases best <;> rfl
  | cons c l =>
    cases best with
    | false => simp [Shows, FlipNbh.oneStat]
    | true =>
      simp only [Shows, FlipNbh.bestStat, if_true]
      obtain ⟨h1, h2, h3⟩ := bestLoop_spec l c 1
      refine ⟨by simpa [List.mem_cons] using h1, ?_⟩
      intro w hw
      rcases List.mem_cons.1 hw with rfl | hw
      · exact h2
      · exact h3 w hw

/-- C336: the cloud along a Metropolis-Hastings walk of `nbStep` steps has `max 1 nbStep + 1` points, always. There is a
walk, each step of which is an accepted move to the neighbour drawn or no move, such that the points are its solutions: first
the fitness, then the best fitness of the neighbours, or that of one of them, or 0 if there are none. -/
theorem C336_metropolis (best : Bool) (f : S → ℚ) (look : S × ℚ → List ℚ) (nbStep : Nat) (u : Nat → ℚ)
    (nb : Nat → S × ℚ → List (Cand M ℚ)) (app : M → S → S) (fuel : Nat) (hf : max 1 nbStep ≤ fuel) (x : S) (e : HC M ℚ) :
    ∃ (sols : List (S × ℚ)) (second : List ℚ),
      mhCloud best f look nbStep u nb app fuel x e = some [sols.map (·.2), second] ∧
      sols.length = max 1 nbStep + 1 ∧ sols[0]? = some (x, f x) ∧
      List.Forall₂ (fun s v => Shows best (look s) v) sols second ∧
      ∀ i a b, sols[i]? = some a → sols[i + 1]? = some b →
        (∃ c l, nb i a = c :: l ∧ metropolisAccept a.2 c.fit (u i) = true ∧ b = (app c.mv a.1, c.fit)) ∨
        (b = a ∧ ∀ c l, nb i a = c :: l → metropolisAccept a.2 c.fit (u i) = false) := by
  obtain ⟨res, tr, h⟩ := ends_of_bound (f := f) (ex := mhExplorer nbStep u nb app) nbStep (·.step)
    (fun t p => (mh_step nbStep u nb app t p).1)
    (fun s e h => by simpa [mhExplorer] using h) fuel x none e rfl hf
  unfold mhCloud
  rw [C201_records, h]
  obtain ⟨n, htr, hi, hb, hres, hsol⟩ := localSearch_orbit h
  generalize hp0 : ((x, Option.getD none (f x)), (mhExplorer nbStep u nb app).initParam (x, Option.getD none (f x)) e) = p0 at *
  have hlen : tr.length = n + 1 := by rw [htr]; simp
  have hslen : (solutions (x, Option.getD none (f x)) tr).length = n + 2 := by simp [solutions, hlen]
  have hcount : ∀ k, (orbit (mhExplorer nbStep u nb app) 0 p0 k).2.step = k := by
    intro k
    induction k with
    | zero => subst hp0; rfl
    | succ k ih => rw [orbit, (mh_step nbStep u nb app _ _).1, ih]
  have hc : ∀ k, ((mhExplorer nbStep u nb app).isContinue (orbit (mhExplorer nbStep u nb app) 0 p0 k).1
      (orbit (mhExplorer nbStep u nb app) 0 p0 k).2 = true ↔ k < nbStep) := by
    intro k
    have := hcount k
    simp only [mhExplorer] at this ⊢
    rw [this, decide_eq_true_eq]
  have hn : n + 1 = max 1 nbStep := by
    have h1 : ¬ n + 1 < nbStep := by
      intro hlt
      have := hb.resolve_left (by simp)
      rw [(hc (n + 1)).2 hlt] at this
      cases this
    rcases Nat.eq_zero_or_pos n with h0 | h0
    · omega
    · have := (hc (n - 1 + 1)).1 (hi (n - 1) (by omega))
      omega
  refine ⟨solutions (x, Option.getD none (f x)) tr, (solutions (x, Option.getD none (f x)) tr).map
    (fun s => if best then FlipNbh.bestStat 0 0 (look s) else FlipNbh.oneStat 0 (look s)), rfl, by omega, rfl, ?_, ?_⟩
  · rw [List.forall₂_map_right_iff, List.forall₂_same]
    intro s _
    exact shows_stat best look s
  · intro i a c ha hc'
    have hlt : i + 1 < n + 2 := by rw [← hslen]; exact (List.getElem?_eq_some_iff.1 hc').1
    rw [hsol i (by omega)] at ha
    rw [hsol (i + 1) hlt] at hc'
    simp only [Option.some.injEq] at ha hc'
    subst ha hc'
    have := (mh_step nbStep u nb app (0 + i) (orbit (mhExplorer nbStep u nb app) 0 p0 i)).2
    rw [Nat.zero_add] at this
    rw [orbit, Nat.zero_add]
    exact this

/-- C336: the cloud of `nbSol` random solutions has `max 2 nbSol` points: the solution of the initialiser and those drawn
after it. -/
theorem C336_random (best : Bool) (f : S → ℚ) (look : S × ℚ → List ℚ) (nbSol : Nat) (draw : Nat → S) (fuel : Nat)
    (hf : max 1 nbSol ≤ fuel) (x : S) :
    ∃ (sols : List (S × ℚ)) (second : List ℚ), rndCloud best f look nbSol draw fuel x = some [sols.map (·.2), second] ∧
      sols = (x :: (List.range (max 2 nbSol - 1)).map draw).map (fun y => (y, f y)) ∧
      List.Forall₂ (fun s v => Shows best (look s) v) sols second := by
  unfold rndCloud
  rw [C201_records]
  have hl := randomSearch_loop (searchSteps nbSol) (fun t => (draw t, f (draw t))) fuel 0
    (x, f x) 0 (by unfold searchSteps; split <;> omega)
  have hm : max 2 nbSol - 1 = max 1 (searchSteps nbSol - 0) := by unfold searchSteps; split <;> omega
  simp only [localSearch, Option.getD_none]
  rw [show (randomSearch (searchSteps nbSol) fun t => (draw t, f (draw t))).initParam (x, f x) 0 = 0 from rfl, hl]
  simp only [Option.map_some]
  refine ⟨_, _, rfl, ?_, ?_⟩
  · simp only [solutions, List.map_map, List.map_cons, hm]
    congr 1
    apply List.map_congr_left
    intro i _
    simp
  · rw [List.forall₂_map_right_iff, List.forall₂_same]
    intro s _
    exact shows_stat best look s

/-! On the numbers with the moves +1 and -1: a walk along a plateau of three, from its first solution. -/

private def plateau (x : Int) : ℚ := if x ≤ 2 then 0 else 1

private def pm (s : Int × ℚ) : List (Cand Int ℚ) := [⟨1, plateau (s.1 + 1)⟩, ⟨-1, 5⟩]

example : ((neutralSampling plateau (fun a b => ((a - b : Int) : ℚ)) (ltOf false) (fun l => l) (fun s => (pm s).map (·.fit)) 9
    (fun _ s => pm s) (fun m x => x + m) 9 0 none ⟨none, [], false, 0⟩).map fun T => (T.sols, T.dist, T.nd.length)) =
    some ([(0, 0), (1, 0), (2, 0), (2, 0)], [0, 1, 2, 2], 4) := by decide +kernel

example : mhCloud true plateau (fun s => (pm s).map (·.fit)) 2 (fun _ => 1 / 2) (fun _ s => pm s) (fun m x => x + m) 9 2
    ⟨none, [], false, 0⟩ = some [[0, 1, 1], [5, 5, 5]] := by decide +kernel

example : rndCloud false plateau (fun s => (pm s).map (·.fit)) 3 (fun t => (t : Int) + 2) 9 0 =
    some [[0, 0, 1], [0, 1, 1]] := by decide +kernel

end Paradiseo.LS
