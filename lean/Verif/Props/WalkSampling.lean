import Verif.Model.WalkSampling
import Verif.Props.Sampling
import Verif.Props.LSParts
/-
C329: what can be recorded by a sampling and the table it writes; C330: samplings of climbs; C331: statistics on
neighbours when the fitness is minimised or there are none.
-/
namespace Paradiseo.LS

open Paradiseo.EO (Err)

/-! ### C329 -/

section C329
variable {S : Type}

/-- The types whose values are recorded. -/
def PType.recordable : PType → Prop
  | .double | .unsignedInt | .unsignedLong | .longLong | .solution | .scalarLongLong | .scalarDouble => True
  | .scalarOther | .other => False

/-- A monitor with the recorded values `vs`. -/
def Recorded (ty : PType) (vs : List (PVal S)) (m : VecMon S) : Prop :=
  m.size ty = vs.length ∧ ∀ i, (∀ v, vs[i]? = some v → m.value ty i = .ok v) ∧ (vs[i]? = none → m.value ty i = .error .ub)

theorem record_good (ty : PType) (h : ty.recordable) (v : PVal S) (hv : ty.Holds v) (vs : List (PVal S)) (m : VecMon S)
    (hm : Recorded ty vs m) : ∃ m', m.record ty v = .ok m' ∧ Recorded ty (vs ++ [v]) m' := by
  have key : ∀ {α : Type} (mk : α → PVal S) (l : List α) (a : α) (g : Nat → Except Err (PVal S)),
      (∀ i, g i = match (l ++ [a])[i]? with | some s => .ok (mk s) | none => .error .ub) →
      vs = l.map mk → v = mk a →
      ∀ i, (∀ w, (vs ++ [v])[i]? = some w → g i = .ok w) ∧ ((vs ++ [v])[i]? = none → g i = .error .ub) := by
    intro α mk l a g hg hl ha i
    have : (vs ++ [v])[i]? = (l ++ [a])[i]?.map mk := by
      rw [hl, ha, ← List.getElem?_map, List.map_append]; rfl
    rw [this, hg]
    cases (l ++ [a])[i]? with
    | none => simp
    | some s => simp
  -- the values so far, from what the monitor shows
  have hnum : ty ≠ .solution → vs = m.vals.map .num := by
    intro hne
    obtain ⟨h1, h2⟩ := hm
    simp only [VecMon.size, if_neg hne] at h1
    apply List.ext_getElem?
    intro i
    have := h2 i
    simp only [VecMon.value, if_neg hne] at this
    rw [List.getElem?_map]
    cases hvs : vs[i]? with
    | none =>
      rw [List.getElem?_eq_none_iff] at hvs
      rw [List.getElem?_eq_none (by omega)]; rfl
    | some w =>
      have h3 := this.1 w hvs
      cases hq : m.vals[i]? with
      | none => rw [hq] at h3; exact absurd h3 (by simp)
      | some q => rw [hq] at h3; simpa using h3.symm
  have hsol : ty = .solution → vs = m.sols.map .sol := by
    intro hne
    obtain ⟨h1, h2⟩ := hm
    simp only [VecMon.size, if_pos hne] at h1
    apply List.ext_getElem?
    intro i
    have := h2 i
    simp only [VecMon.value, if_pos hne] at this
    rw [List.getElem?_map]
    cases hvs : vs[i]? with
    | none =>
      rw [List.getElem?_eq_none_iff] at hvs
      rw [List.getElem?_eq_none (by omega)]; rfl
    | some w =>
      have h3 := this.1 w hvs
      cases hq : m.sols[i]? with
      | none => rw [hq] at h3; exact absurd h3 (by simp)
      | some q => rw [hq] at h3; simpa using h3.symm
  by_cases hs : ty = .solution
  · subst hs
    cases v with
    | num q => exact absurd hv (by simp [PType.Holds])
    | sol s =>
      refine ⟨_, rfl, ?_, ?_⟩
      · have := hm.1
        simp only [VecMon.size, if_true] at this
        simp [VecMon.size, this]
      · exact key .sol m.sols s _ (fun i => by simp only [VecMon.value, if_true]; rfl) (hsol rfl) rfl
  · cases v with
    | sol s => cases ty <;> simp_all [PType.Holds, PType.recordable]
    | num q =>
      refine ⟨{ m with vals := m.vals ++ [q] }, ?_, ?_, ?_⟩
      · cases ty <;> first | exact absurd rfl hs | exact h.elim | rfl
      · have := hm.1
        simp only [VecMon.size, if_neg hs] at this
        simp [VecMon.size, if_neg hs, this]
      · exact key .num m.vals q _ (fun i => by simp only [VecMon.value, if_neg hs]; cases (m.vals ++ [q])[i]? <;> rfl) (hnum hs) rfl

/-- **C329** (types). A monitor for a `double`, an unsigned number, a `long long`, a solution or a scalar fitness of
`double` or `long long` holds after any calls exactly the values the parameter had at the calls, in order. -/
theorem C329_recorded (ty : PType) (h : ty.recordable) (vs : List (PVal S)) (hv : ∀ v ∈ vs, ty.Holds v) :
    ∃ m, VecMon.recordAll ty vs ⟨[], []⟩ = .ok m ∧ Recorded ty vs m := by
  have gen : ∀ (vs : List (PVal S)) (past : List (PVal S)) (m : VecMon S), (∀ v ∈ vs, ty.Holds v) → Recorded ty past m →
      ∃ m', VecMon.recordAll ty vs m = .ok m' ∧ Recorded ty (past ++ vs) m' := by
    intro vs
    induction vs with
    | nil => intro past m _ hm; exact ⟨m, rfl, by simpa using hm⟩
    | cons v vs ih =>
      intro past m hv hm
      obtain ⟨m1, h1, h2⟩ := record_good ty h v (hv v List.mem_cons_self) past m hm
      obtain ⟨m2, h3, h4⟩ := ih (past ++ [v]) m1 (fun w hw => hv w (List.mem_cons_of_mem _ hw)) h2
      refine ⟨m2, ?_, by simpa using h4⟩
      simp only [VecMon.recordAll, h1]
      exact h3
  have := gen vs [] ⟨[], []⟩ hv ⟨by simp [VecMon.size], fun i => by simp [VecMon.value]⟩
  simpa using this

/-- **C329** (other types). With any other type - `int`, `bool`, a pair, a scalar fitness of another scalar - the
constructor accepts the parameter, but the first call is undefined. -/
theorem C329_undefined (ty : PType) (h : ¬ ty.recordable) (v : PVal S) (vs : List (PVal S)) (m : VecMon S) :
    VecMon.recordAll ty (v :: vs) m = .error .ub := by
  have : m.record ty v = .error .ub := by
    cases ty <;> first | rfl | exact absurd trivial h
  simp [VecMon.recordAll, this]

theorem mapM_ok {α β : Type} (g : α → Except Err β) (k : α → β) (l : List α) (h : ∀ a ∈ l, g a = .ok (k a)) :
    l.mapM g = .ok (l.map k) := by
  induction l with
  | nil => rfl
  | cons a l ih =>
    rw [List.mapM_cons, h a List.mem_cons_self, ih fun b hb => h b (List.mem_cons_of_mem _ hb)]
    rfl

/-- **C329** (table). If all monitors were called equally often, `n` times, the table has `n` rows, and row `i` holds the
`i`-th value of every monitor in the order in which they were added. Otherwise the rows are as many as the first monitor
has values. -/
theorem C329_table (cols : List (PType × List (PVal S))) (mons : List (PType × VecMon S)) (n : Nat) (hne : cols ≠ [])
    (hn : ∀ c ∈ cols, c.2.length = n)
    (hm : List.Forall₂ (fun c p => p.1 = c.1 ∧ Recorded c.1 c.2 p.2) cols mons) :
    ∃ rows : List (List (PVal S)), exportRows mons = .ok rows ∧ rows.length = n ∧
      ∀ (i : Nat) (r : List (PVal S)), rows[i]? = some r → r.length = cols.length ∧
        ∀ (j : Nat) (c : PType × List (PVal S)), cols[j]? = some c → r[j]? = c.2[i]? := by
  cases hm with
  | nil => exact absurd rfl hne
  | @cons c p cs ps h1 h2 =>
    have hsize : p.2.size p.1 = n := by
      rw [h1.1, h1.2.1]; exact hn c List.mem_cons_self
    have hrow : ∀ (cols : List (PType × List (PVal S))) (mons : List (PType × VecMon S)),
        List.Forall₂ (fun c p => p.1 = c.1 ∧ Recorded c.1 c.2 p.2) cols mons → (∀ c ∈ cols, c.2.length = n) →
        ∀ i, i < n → ∃ r : List (PVal S), exportRow mons i = .ok r ∧ r.length = cols.length ∧
          ∀ (j : Nat) (c : PType × List (PVal S)), cols[j]? = some c → r[j]? = c.2[i]? := by
      intro cols mons hm
      induction hm with
      | nil => intro _ i _; exact ⟨[], rfl, rfl, by simp⟩
      | @cons c p cs ps h1 h2 ih =>
        intro hn i hi
        obtain ⟨r, e1, e2, e3⟩ := ih (fun c hc => hn c (List.mem_cons_of_mem _ hc)) i hi
        have hlt : i < c.2.length := by rw [hn c List.mem_cons_self]; exact hi
        have hv := (h1.2.2 i).1 c.2[i] (List.getElem?_eq_getElem hlt)
        refine ⟨c.2[i] :: r, ?_, by simp [e2], ?_⟩
        · unfold exportRow at e1 ⊢
          rw [List.mapM_cons, e1, h1.1, hv]
          rfl
        · intro j d hd
          cases j with
          | zero =>
            simp only [List.getElem?_cons_zero, Option.some.injEq] at hd ⊢
            rw [← hd, List.getElem?_eq_getElem hlt]
          | succ j => simpa using e3 j d (by simpa using hd)
    have hr := hrow (c :: cs) (p :: ps) (.cons h1 h2) hn
    refine ⟨(List.range n).map fun i => if h : i < n then (hr i h).choose else [], ?_, by simp, ?_⟩
    · show (List.range (p.2.size p.1)).mapM (exportRow (p :: ps)) = _
      rw [hsize]
      apply mapM_ok
      intro i hi
      rw [dif_pos (List.mem_range.1 hi)]
      exact (hr i (List.mem_range.1 hi)).choose_spec.1
    · intro i r hi
      rw [List.getElem?_map, Option.map_eq_some_iff] at hi
      obtain ⟨k, hk, rfl⟩ := hi
      have hin : i < n := by
        by_contra hc
        rw [List.getElem?_eq_none (by simp; omega)] at hk
        exact absurd hk (by simp)
      rw [List.getElem?_range hin, Option.some.injEq] at hk
      subst hk
      rw [dif_pos hin]
      exact (hr i hin).choose_spec.2

/-- **C329** (file). A new file begins with the names if they are asked for; when the file is continued no names are
written, whether asked for or not. -/
theorem C329_file (old : Table S) (append header : Bool) (names : List String) (cols : List (PType × VecMon S))
    (rows : List (List (PVal S))) (h : exportRows cols = .ok rows) :
    ∃ t, fileExport old append header names cols = .ok t ∧
      t.lines = (if append then old.lines else if header then [.inl names] else []) ++ rows.map .inr := by
  refine ⟨_, by unfold fileExport; rw [h], ?_⟩
  cases append <;> cases header <;> simp

/-- A monitor of the size of neighbourhoods and one of solutions. -/
example : exportRows [(.unsignedInt, ⟨[3, 4], []⟩), (.solution, ⟨[], ["a", "b"]⟩)] =
    .ok [[.num 3, .sol "a"], [.num 4, .sol "b"]] := rfl

example : VecMon.recordAll (S := Unit) .other [.num 3] ⟨[], []⟩ = .error .ub := rfl

end C329

/-! ### C330 -/

section C330
variable {S M F : Type}

theorem randomSearch_loop {Sol : Type} (m : Nat) (draw : Nat → Sol) : ∀ (fuel t : Nat) (sol : Sol) (e : Nat),
    max 1 (m - e) ≤ fuel →
    lsLoop (randomSearch m draw) (fun (_ : Unit) _ => (true, ())) fuel t sol e () =
      some ((List.range (max 1 (m - e))).map fun i => (draw (t + i), e + i + 1), true) := by
  intro fuel
  induction fuel with
  | zero => intro t sol e h; omega
  | succ fuel ih =>
    intro t sol e h
    have hstep : lsStep (randomSearch m draw) t sol e = (draw t, e + 1, true) := rfl
    simp only [lsLoop, hstep, Bool.true_and]
    by_cases hc : e + 1 < m
    · have hc' : (randomSearch m draw).isContinue (draw t) (e + 1) = true := by simpa [randomSearch] using hc
      rw [if_pos hc', ih (t + 1) (draw t) (e + 1) (by omega), Option.map_some]
      have hm : max 1 (m - e) = max 1 (m - (e + 1)) + 1 := by omega
      rw [hm, List.range_succ_eq_map, List.map_cons, List.map_map]
      simp only [Option.some.injEq, Prod.mk.injEq, List.cons.injEq, Nat.add_zero, true_and, and_true]
      apply List.map_congr_left
      intro i _
      simp only [Function.comp, Prod.mk.injEq]
      constructor
      · congr 1; omega
      · omega
    · have hc' : ¬ (randomSearch m draw).isContinue (draw t) (e + 1) = true := by simpa [randomSearch] using hc
      rw [if_neg hc']
      have hm : max 1 (m - e) = 1 := by omega
      rw [hm]
      rfl

/-- **C330** (rows). Asked for `n` climbs, the sampling makes `n` of them, but at least two; the three columns hold, for each
climb in order, the length statistic, the evaluations of neighbours made in that climb alone and the solution reached. -/
theorem C330_rows (n fuel : Nat) (walks : Nat → Walk S F) (start : Nat → Nat) (hf : n ≤ fuel) (hf1 : 1 ≤ fuel) :
    walkSampling n fuel walks start = some
      [(List.range (max 2 n)).map fun k => .num (walks k).length,
       (List.range (max 2 n)).map fun k => .num ((walks k).counter - start k),
       (List.range (max 2 n)).map fun k => .sol (walks k).res] := by
  unfold walkSampling
  rw [C201_records]
  have hl := randomSearch_loop (searchSteps n) (fun t => (t + 1, (walks (t + 1)).res.2)) fuel 0
    ((0 : Nat), (walks 0).res.2) 0 (by unfold searchSteps; split <;> omega)
  have hm : max 2 n = max 1 (searchSteps n - 0) + 1 := by unfold searchSteps; split <;> omega
  simp only [localSearch, Option.getD_some]
  rw [show (randomSearch (searchSteps n) fun t => (t + 1, (walks (t + 1)).res.2)).initParam ((0 : Nat), (walks 0).res.2) 0
    = 0 from rfl, hl, hm, Option.map_some, Option.map_some]
  simp only [solutions, List.range_succ_eq_map, List.map_cons, List.map_map, List.map_nil, Option.some.injEq,
    List.cons.injEq, and_true]
  refine ⟨⟨trivial, ?_⟩, ⟨by simp [valueStat], ?_⟩, ⟨trivial, ?_⟩⟩ <;>
  · apply List.map_congr_left
    intro i _
    simp [Function.comp, valueStat]

/-- Number of neighbours evaluated up to the first better one, or all of them. -/
theorem firstLooked_eq [LinearOrder F] (fx : F) (l : List (Cand M F)) :
    firstLooked fx l = min l.length (l.findIdx (fun c => decide (fx < c.fit)) + 1) := by
  induction l with
  | nil => simp [firstLooked]
  | cons c l ih =>
    cases l with
    | nil => simp [firstLooked]
    | cons d l =>
      rw [firstLooked, ih]
      by_cases h : fx < c.fit
      · have : (c :: d :: l).findIdx (fun c => decide (fx < c.fit)) = 0 := by rw [List.findIdx_cons]; simp [h]
        rw [this]; simp [h]
      · have : (c :: d :: l).findIdx (fun c => decide (fx < c.fit)) =
            (d :: l).findIdx (fun c => decide (fx < c.fit)) + 1 := by
          rw [List.findIdx_cons (b := c)]; simp [h]
        rw [this]
        simp only [h, if_false, List.length_cons]
        omega

/-- **C330** (one climb). A climb that ends has made exactly `length` moves, each to a strictly better solution, and its
result has no better neighbour; the evaluations counted in it are, for each move, the neighbours up to and including the
first better one, and then all the neighbours of the result. -/
theorem C330_walk [LinearOrder F] (f : S → F) (nb : Nat → S × F → List (Cand M F)) (app : M → S → S) (fuel c : Nat) (x : S)
    (fit : Option F) (e : HC M F) (w : Walk S F) (h : walk f nb app fuel c x fit e = some w) :
    ∃ sols : List (S × F), sols.length = w.length + 1 ∧ sols[0]? = some (x, fit.getD (f x)) ∧
      sols[w.length]? = some w.res ∧
      (∀ i a b, sols[i]? = some a → sols[i + 1]? = some b → a.2 < b.2) ∧
      (∀ d ∈ nb w.length w.res, d.fit ≤ w.res.2) ∧
      w.counter - c = ((List.range w.length).map fun i =>
          match sols[i]? with
          | some s => (nb i s).findIdx (fun d => decide (s.2 < d.fit)) + 1
          | none => 0).sum + (nb w.length w.res).length := by
  unfold walk at h
  rw [Option.map_eq_some_iff] at h
  obtain ⟨⟨res, tr, b⟩, h1, h2⟩ := h
  have hb : b = true := by
    have : ∀ (fuel t : Nat) sol e k l b, lsLoop (firstHC false nb app)
        (fun (_ : Unit) (_ : S × F) => (true, ())) fuel t sol e k = some (l, b) → b = true := by
      intro fuel
      induction fuel with
      | zero => intro t sol e k l b h; simp [lsLoop] at h
      | succ fuel ih =>
        intro t sol e k l b h
        simp only [lsLoop] at h
        split at h
        · rw [Option.map_eq_some_iff] at h
          obtain ⟨⟨l', b'⟩, h1, h2⟩ := h
          rw [Prod.mk.injEq] at h2
          rw [← h2.2]
          exact ih _ _ _ _ _ _ h1
        · rw [Option.some.injEq, Prod.mk.injEq] at h
          exact h.2.symm
    simp only [localSearch, Option.map_eq_some_iff] at h1
    obtain ⟨⟨l, b'⟩, h3, h4⟩ := h1
    simp only [Prod.mk.injEq] at h4
    rw [← h4.2.2]
    exact this _ _ _ _ _ _ _ h3
  subst hb
  obtain ⟨g1, g2, g3, g4⟩ := C201_walk_length (.inr rfl) h1
  have g5 := (C19_first h1).2.2 rfl
  set sols := solutions (x, fit.getD (f x)) tr with hsols
  set n := (minusOne tr.length).2 with hn
  have htr : tr.length = n + 1 := by
    have : sols.length = tr.length + 1 := by simp [hsols, solutions]
    omega
  have hw : w.length = n := by rw [← h2]
  have hres : w.res = res := by rw [← h2]
  have hwl : sols.dropLast.length = n + 1 := by rw [List.length_dropLast, g1]; omega
  have hget : ∀ i, i < n + 1 → sols.dropLast[i]? = sols[i]? := by
    intro i hi
    rw [List.getElem?_dropLast, if_pos (by omega)]
  rw [hw, hres]
  have hmoves : ∀ i a b, sols.dropLast[i]? = some a → sols.dropLast[i + 1]? = some b → a.2 < b.2 := by
    intro i a b ha hb'
    have hi : i + 1 < n + 1 := by
      by_contra hc
      rw [List.getElem?_eq_none (by omega)] at hb'
      exact absurd hb' (by simp)
    rw [hget i (by omega)] at ha
    rw [hget (i + 1) hi] at hb'
    exact g2 i a b (by omega) ha hb'
  have hlast : sols.dropLast[n]? = some res := by rw [hget n (by omega)]; exact g3
  have hbetter : ∀ i s, i < n → sols.dropLast[i]? = some s → ∃ d ∈ nb i s, s.2 < d.fit := by
    intro i s hi hs
    obtain ⟨k, htr', hcon, _, _, hsol⟩ := localSearch_orbit h1
    have hk : k = n := by
      have : tr.length = k + 1 := by rw [htr']; simp
      omega
    subst hk
    rw [hget i (by omega), hsol i (by omega)] at hs
    have hac := hcon i hi
    rcases (firstHC_climbs false nb app).step (0 + i) (orbit (firstHC false nb app) 0 ((x, fit.getD (f x)),
        (firstHC false nb app).initParam (x, fit.getD (f x)) e) i) trivial with ⟨_, hlt, d, hd, he⟩ | ⟨hfalse, _⟩
    · rw [Nat.zero_add] at hd
      rw [he] at hlt
      cases hs
      exact ⟨d, hd, hlt⟩
    · exact absurd (hfalse.symm.trans hac) (by decide)
  refine ⟨sols.dropLast, hwl, ?_, hlast, hmoves, ?_, ?_⟩
  · rw [hget 0 (by omega)]; rfl
  · have : tr.length - 1 = n := by omega
    rwa [this] at g5
  · -- the evaluations
    have hcnt : w.counter = c + ((sols.dropLast.zipIdx).map fun p => firstLooked p.1.2 (nb p.2 p.1)).sum := by
      rw [← h2]; rfl
    rw [hcnt, Nat.add_sub_cancel_left]
    have hz : (sols.dropLast.zipIdx).map (fun p => firstLooked p.1.2 (nb p.2 p.1)) =
        (List.range (n + 1)).map fun i => match sols.dropLast[i]? with
          | some s => firstLooked s.2 (nb i s)
          | none => 0 := by
      apply List.ext_getElem?
      intro i
      simp only [List.getElem?_map, List.getElem?_zipIdx, Nat.zero_add]
      by_cases hi : i < n + 1
      · have ha : sols.dropLast[i]? = some (sols.dropLast[i]'(by omega)) := List.getElem?_eq_getElem (by omega)
        rw [List.getElem?_range hi, Option.map_some, ha]
        rfl
      · rw [List.getElem?_eq_none (l := List.range (n + 1)) (by simp; omega),
          List.getElem?_eq_none (l := sols.dropLast) (by omega)]
        rfl
    rw [hz, List.range_succ, List.map_append, List.sum_append]
    congr 1
    · congr 1
      apply List.map_congr_left
      intro i hi
      have hi := List.mem_range.1 hi
      have ha : sols.dropLast[i]? = some (sols.dropLast[i]'(by omega)) := List.getElem?_eq_getElem (by omega)
      rw [ha]
      simp only
      rw [firstLooked_eq, Nat.min_eq_right]
      -- a better neighbour exists, since the climb went on
      obtain ⟨d, hd, hlt⟩ := hbetter i _ hi ha
      exact List.findIdx_lt_length_of_exists ⟨d, hd, by simpa using hlt⟩
    · simp only [List.map_cons, List.map_nil, List.sum_cons, List.sum_nil, hlast, Nat.add_zero]
      rw [firstLooked_eq, Nat.min_eq_left]
      have : (nb n res).findIdx (fun c => decide (res.2 < c.fit)) = (nb n res).length := by
        rw [List.findIdx_eq_length]
        intro d hd
        have : tr.length - 1 = n := by omega
        rw [this] at g5
        simpa using g5 d hd
      omega

example : ∃ w, walk demoF (fun _ s => demoNb demoF s) (fun d x => x + d) 10 5 0 none ⟨none, [], false, 0⟩ = some w ∧
    w.length = 5 ∧ 5 < w.counter := ⟨_, rfl, by decide, by decide⟩

end C330

/-! ### C331 -/

section C331

/-- The members with better and worse exchanged. -/
def NbStat.swap (s : NbStat) : NbStat :=
  { s with best := s.lowest, lowest := s.best, nbInf := s.nbSup, nbSup := s.nbInf }

theorem stat_swap (fx c : ℚ) (l : List ℚ) :
    l.foldl (statStepBy (fun a b => decide (b < a)) fx) (statFirstBy (fun a b => decide (b < a)) fx c) =
      (l.foldl (statStep fx) (statFirst fx c)).swap := by
  have h0 : statFirstBy (fun a b => decide (b < a)) fx c = (statFirst fx c).swap := by
    unfold statFirstBy statFirst
    rcases lt_trichotomy fx c with h | h | h
    · simp [h.ne, h, not_lt.2 h.le, NbStat.swap]
    · simp [h, NbStat.swap]
    · simp [h.ne', h, not_lt.2 h.le, NbStat.swap]
  have hstep : ∀ s x, statStepBy (fun a b => decide (b < a)) fx (NbStat.swap s) x = (statStep fx s x).swap := by
    intro s x
    unfold statStepBy statStep
    rcases lt_trichotomy fx x with h | h | h
    · by_cases h1 : x < s.lowest <;> by_cases h2 : s.best < x <;> simp [h.ne, h, not_lt.2 h.le, NbStat.swap, h1, h2]
    · subst h
      by_cases h1 : fx < s.lowest <;> by_cases h2 : s.best < fx <;> simp [NbStat.swap, h1, h2]
    · by_cases h1 : x < s.lowest <;> by_cases h2 : s.best < x <;> simp [h.ne', h, not_lt.2 h.le, NbStat.swap, h1, h2]
  rw [h0]
  generalize statFirst fx c = s
  induction l generalizing s with
  | nil => rfl
  | cons x l ih => rw [List.foldl_cons, List.foldl_cons, hstep, ih]

theorem stat_plain (fx c : ℚ) (l : List ℚ) :
    l.foldl (statStepBy (fun a b => decide (a < b)) fx) (statFirstBy (fun a b => decide (a < b)) fx c) =
      l.foldl (statStep fx) (statFirst fx c) := by
  have h0 : statFirstBy (fun a b => decide (a < b)) fx c = statFirst fx c := by
    simp [statFirstBy, statFirst]
  have hstep : statStepBy (fun a b => decide (a < b)) fx = statStep fx := by
    funext s x; simp [statStepBy, statStep]
  rw [h0, hstep]

/-- A fitness is compared as its numbers are, or the other way round. -/
def ltOf (minimize : Bool) (a b : ℚ) : Bool := if minimize then decide (b < a) else decide (a < b)

/-- **C331** (order). What is reported is, for a fitness that is compared as its numbers, what the numbers give; for a
fitness to be minimised `min` and `max` change places, as do the numbers of worse and of better neighbours: the
quartiles, the mean, the variance and the size are the same. -/
theorem C331_order (sort : List ℚ → List ℚ) (fx c : ℚ) (l : List ℚ) :
    let r := nbStat sort fx c l
    nbStatBy (ltOf false) sort fx c l = r ∧
    nbStatBy (ltOf true) sort fx c l =
      { r with min := r.max, max := r.min, nbInf := r.nbSup, nbSup := r.nbInf } := by
  intro r
  constructor
  · have : ltOf false = fun a b => decide (a < b) := by funext a b; rfl
    show _ = nbStat sort fx c l
    unfold nbStatBy nbStat
    rw [this, stat_plain]
  · have : ltOf true = fun a b => decide (b < a) := by funext a b; rfl
    have hr : r = nbStat sort fx c l := rfl
    rw [hr]
    unfold nbStatBy nbStat
    rw [this, stat_swap]
    have hi := stat_inv fx c l
    by_cases h : (l.foldl (statStep fx) (statFirst fx c)).nb > 1
    · simp [NbStat.swap, h]
    · have hl : l = [] := by
        have := hi.nb
        have : (c :: l).length ≤ 1 := by rw [← this]; omega
        simpa using this
      subst hl
      have h1 := hi.best.1
      have h2 := hi.lowest.1
      simp only [List.mem_singleton] at h1 h2
      simp only [NbStat.swap, h, if_false, h1, h2]

/-- **C331** (minimised). For a fitness to be minimised, on the neighbourhood `v = c :: l`: `min` is the greatest number
(the worst fitness) and `max` the least (the best fitness), `nbInf` counts the neighbours whose number is greater, `nbSup`
those whose number is less; but the quartiles go with the numbers, so `max ≤ q1 ≤ q2 ≤ q3 ≤ min`. -/
theorem C331_minimised (sort : List ℚ → List ℚ) (hsort : ∀ v, (sort v).Perm v ∧ (sort v).Pairwise (· ≤ ·))
    (fx c : ℚ) (l : List ℚ) :
    let v := c :: l
    let r := nbStatBy (ltOf true) sort fx c l
    (r.min ∈ v ∧ ∀ x ∈ v, x ≤ r.min) ∧ (r.max ∈ v ∧ ∀ x ∈ v, r.max ≤ x) ∧
    r.nbInf = v.countP (fx < ·) ∧ r.nbSup = v.countP (· < fx) ∧ r.nbEqual = v.countP (· = fx) ∧
    r.max ≤ r.q1 ∧ r.q1 ≤ r.q2 ∧ r.q2 ≤ r.q3 ∧ r.q3 ≤ r.min := by
  intro v r
  obtain ⟨h1, h2, h3, h4, _, h5, h6, _, _, h7⟩ := C30_stats sort hsort fx c l
  have hr : r = _ := (C331_order sort fx c l).2
  rw [hr]
  refine ⟨h6, h5, h2, h4, h3, h5.2 _ (h7 _ _ List.mem_cons_self).1, ?_, ?_,
    h6.2 _ (h7 _ _ (List.mem_cons_of_mem _ (List.mem_cons_of_mem _ List.mem_cons_self))).1⟩
  all_goals
    simp only
    unfold nbStat
    have hi := stat_inv fx c l
    dsimp only
    split
    · rename_i hgt
      simp only
      have hp := hsort (l.foldl (statStep fx) (statFirst fx c)).fits
      have hlen : (sort (l.foldl (statStep fx) (statFirst fx c)).fits).length =
          (l.foldl (statStep fx) (statFirst fx c)).nb := by
        rw [hp.1.length_eq, hi.fits, hi.nb]
      generalize (l.foldl (statStep fx) (statFirst fx c)).nb = n at *
      generalize sort (l.foldl (statStep fx) (statFirst fx c)).fits = w at *
      rw [List.getD_eq_getElem _ _ (by omega), List.getD_eq_getElem _ _ (by omega)]
      exact hp.2.rel_get_of_le (a := ⟨_, by omega⟩) (b := ⟨_, by omega⟩) (by simp only [Fin.mk_le_mk]; omega)
    · exact le_rfl

/-- The last of the solutions up to and including position `i` that has neighbours. -/
def lastWithNeighbors (sols : List (ℚ × List ℚ)) (i : Nat) : Option (ℚ × List ℚ) :=
  ((sols.take (i + 1)).filter fun s => !s.2.isEmpty).getLast?

/-- **C331** (series). What a statistic that shows one member (number of equal neighbours, mean, ...) shows for the `i`-th
solution of a run is the report on the last solution so far that has neighbours: a solution without neighbours shows the
value of an earlier one, and if there is none an uninitialised number. -/
theorem C331_series {V : Type} (lt : ℚ → ℚ → Bool) (sort : List ℚ → List ℚ) (get : NbReport → V)
    (sols : List (ℚ × List ℚ)) (i : Nat) (hi : i < sols.length) :
    (nbStatSeries lt sort get none sols)[i]? = some (match lastWithNeighbors sols i with
      | some (fx, c :: l) => .ok (get (nbStatBy lt sort fx c l))
      | _ => .error .ub) := by
  have gen : ∀ (sols : List (ℚ × List ℚ)) (prev : Option NbReport) (i : Nat), i < sols.length →
      (nbStatSeries lt sort get prev sols)[i]? = some (match lastWithNeighbors sols i with
        | some (fx, c :: l) => .ok (get (nbStatBy lt sort fx c l))
        | _ => match prev with
          | some r => .ok (get r)
          | none => .error .ub) := by
    intro sols
    induction sols with
    | nil => intro prev i hi; simp at hi
    | cons s sols ih =>
      obtain ⟨fx, nb⟩ := s
      intro prev i hi
      cases i with
      | zero =>
        cases nb with
        | nil => simp [nbStatSeries, nbStatCall, lastWithNeighbors]; cases prev <;> rfl
        | cons c l => simp [nbStatSeries, nbStatCall, lastWithNeighbors]
      | succ i =>
        have hi' : i < sols.length := by simpa using hi
        simp only [nbStatSeries, List.getElem?_cons_succ]
        rw [ih _ i hi']
        cases nb with
        | nil => simp [nbStatCall, lastWithNeighbors]
        | cons c l =>
          have hl : lastWithNeighbors ((fx, c :: l) :: sols) (i + 1) =
              some ((lastWithNeighbors sols i).getD (fx, c :: l)) := by
            simp only [lastWithNeighbors, List.take_succ_cons, List.filter_cons, List.isEmpty_cons, Bool.not_false,
              if_true, List.getLast?_cons]
          have hne : ∀ q, lastWithNeighbors sols i = some q → q.2 ≠ [] := by
            intro q hq
            have := List.mem_of_getLast? hq
            rw [List.mem_filter] at this
            intro h0
            rw [h0] at this
            exact absurd this.2 (by simp)
          rw [hl]
          cases hq : lastWithNeighbors sols i with
          | none => simp [nbStatCall]
          | some q =>
            obtain ⟨gx, nb⟩ := q
            cases nb with
            | nil => exact absurd rfl (hne _ hq)
            | cons d m => simp
  rw [gen sols none i hi]

/-- Three neighbours of a solution to be minimised; then a solution without neighbours. -/
example : (nbStatBy (ltOf true) id 2 1 [2, 3]).min = 3 ∧ (nbStatBy (ltOf true) id 2 1 [2, 3]).max = 1 ∧
    (nbStatSeries (ltOf true) id NbReport.nbSup none [(2, []), (2, [1, 2, 3]), (5, [])]).map Except.toOption =
      [none, some 1, some 1] := by decide +kernel

end C331

end Paradiseo.LS
