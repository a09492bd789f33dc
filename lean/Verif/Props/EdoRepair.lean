import Verif.Lemmas.EdoRepair

/-! # edo: bounders and repairers (C125, C126, C127) -/

namespace Paradiseo.Edo

/-! ## C125: bounders -/

/-- The clamping bounder takes each variable to the nearest point of its interval, and leaves those that
are inside. -/
theorem C125_clamp {los his x y : List ℚ} (h : boundBound los his x = some y) (d : Nat) (lo hi v : ℚ)
    (hlo : los[d]? = some lo) (hhi : his[d]? = some hi) (hv : x[d]? = some v) (hle : lo ≤ hi) :
    ∃ w, y[d]? = some w ∧ lo ≤ w ∧ w ≤ hi ∧ (lo ≤ v → v ≤ hi → w = v) ∧
      ∀ z, lo ≤ z → z ≤ hi → |w - v| ≤ |z - v| := by
  obtain ⟨_, hg⟩ := boundBound_get h
  obtain ⟨lo', hi', h1, h2, h3⟩ := hg d v hv
  rw [hlo] at h1
  rw [hhi] at h2
  obtain rfl := Option.some.inj h1
  obtain rfl := Option.some.inj h2
  refine ⟨_, h3, ?_⟩
  unfold clamp1
  split
  · rename_i hc
    refine ⟨le_refl _, hle, fun h => by linarith, fun z hz1 hz2 => ?_⟩
    rw [abs_of_pos (by linarith), abs_of_pos (by linarith)]
    linarith
  · split
    · rename_i _ hc
      refine ⟨hle, le_refl _, fun _ h => by linarith, fun z hz1 hz2 => ?_⟩
      rw [abs_of_neg (by linarith), abs_of_neg (by linarith)]
      linarith
    · rename_i h1 h2
      push Not at h1 h2
      refine ⟨h1, h2, fun _ _ => rfl, fun z _ _ => ?_⟩
      simp

/-- It is defined exactly when there are bounds for all variables, and keeps the size. -/
theorem C125_clamp_defined (los his x : List ℚ) :
    ((∃ y, boundBound los his x = some y) ↔ x.length ≤ los.length ∧ x.length ≤ his.length) ∧
    ∀ y, boundBound los his x = some y → y.length = x.length := by
  refine ⟨?_, fun y hy => (boundBound_get hy).1⟩
  rw [← boundBound_defined, Option.isSome_iff_exists]

example : boundBound [0, 0, 0] [1, 1, 1] [-3, 1/2, 5] = some [0, 1/2, 1] := by
  decide +kernel

/-- The uniform bounder redraws the variables that are outside, and only those, within their intervals. -/
theorem C125_uniform {u : Nat → ℚ} (hu : ∀ t, 0 ≤ u t ∧ u t < 1) {t t' : Nat} {los his x y : List ℚ}
    (h : boundDraw (fun lo hi t => uniformIn lo hi (u t)) t los his x = some (y, t')) (d : Nat) (lo hi v : ℚ)
    (hlo : los[d]? = some lo) (hhi : his[d]? = some hi) (hv : x[d]? = some v) (hle : lo ≤ hi) :
    ∃ w, y[d]? = some w ∧ lo ≤ w ∧ w ≤ hi ∧ (lo ≤ v → v ≤ hi → w = v) ∧
      (v < lo ∨ hi < v → lo < hi → w < hi) := by
  obtain ⟨_, _, hg⟩ := boundDraw_get h
  obtain ⟨lo', hi', h1, h2, h3⟩ := hg d v hv
  rw [hlo] at h1
  rw [hhi] at h2
  obtain rfl := Option.some.inj h1
  obtain rfl := Option.some.inj h2
  rcases h3 with ⟨h3, h4, h5⟩ | ⟨h3, h5⟩
  · exact ⟨v, h5, h3, h4, fun _ _ => rfl, fun hc => by rcases hc with hc | hc <;> linarith⟩
  · obtain ⟨k1, k2, k3⟩ := uniformIn_mem hle (hu _).1 (hu _).2
    refine ⟨_, h5, k1, k2, fun h6 h7 => ?_, fun _ => k3⟩
    rcases h3 with h3 | h3 <;> linarith

/-- One number is drawn for each variable outside of its interval; a solution inside is left alone. -/
theorem C125_draws {draw : ℚ → ℚ → Nat → ℚ} {t t' : Nat} {los his x y : List ℚ}
    (h : boundDraw draw t los his x = some (y, t')) : y.length = x.length ∧
      t' = t + (los.zip (his.zip x)).countP (fun p => decide (p.2.2 < p.1) || decide (p.2.1 < p.2.2)) ∧
      ((∀ (d : Nat) (v lo hi : ℚ), x[d]? = some v → los[d]? = some lo → his[d]? = some hi →
        lo ≤ v ∧ v ≤ hi) → y = x) := by
  obtain ⟨h1, h2, h3⟩ := boundDraw_get h
  refine ⟨h1, by rw [h2, outside_eq], fun hin => ?_⟩
  apply List.ext_getElem?
  intro d
  cases hd : x[d]? with
  | none => rw [List.getElem?_eq_none_iff] at hd ⊢; omega
  | some v =>
    obtain ⟨lo, hi, g1, g2, g3⟩ := h3 d v hd
    obtain ⟨k1, k2⟩ := hin d v lo hi hd g1 g2
    rcases g3 with ⟨_, _, g⟩ | ⟨g, _⟩
    · exact g
    · rcases g with g | g <;> linarith

/-- A bounder with its own generator puts whatever the generator gives: the solution can still be outside
of the bounds. -/
theorem C125_rng_outside : ∃ (draw : Nat → ℚ) (los his x y : List ℚ),
    boundDraw (fun _ _ t => draw t) 0 los his x = some (y, 1) ∧ boundBound los his y ≠ some y :=
  ⟨fun _ => 7, [0], [1], [3], [7], by decide +kernel, by decide +kernel⟩

/-- A bounder leaves the fitness of the solution it moves: a solution bounded after its evaluation has
the fitness of the point where it was before. -/
theorem C125_stale_fitness (f : List ℚ → Option (List ℚ)) {s s' : Sol} (h : boundSol f s = some s') :
    s'.fit = s.fit ∧ f s.x = some s'.x := by
  unfold boundSol at h
  split at h
  · simp at h
  · rename_i y hy
    simp only [Option.some.injEq] at h
    subst h
    exact ⟨rfl, hy⟩

example : boundSol (boundBound [0] [1]) ⟨[3], some 9⟩ = some ⟨[1], some 9⟩ := by decide +kernel

example : boundDraw (fun lo hi _ => uniformIn lo hi (1/2)) 0 [0, 0, 2] [1, 1, 4] [-3, 1/4, 5] =
    some ([1/2, 1/4, 3], 2) := by decide +kernel

/-! ## C126: rounding and modulo -/

/-- Floor and ceiling give the integers next to the variable. -/
theorem C126_floor_ceil (s : Sol) :
    (applyAll floorR s).fit = none ∧ (applyAll ceilR s).fit = none ∧
    ∀ (d : Nat) (v : ℚ), s.x[d]? = some v →
      (∃ k : ℤ, (applyAll floorR s).x[d]? = some (k : ℚ) ∧ (k : ℚ) ≤ v ∧ v < k + 1) ∧
      (∃ k : ℤ, (applyAll ceilR s).x[d]? = some (k : ℚ) ∧ v ≤ k ∧ (k : ℚ) < v + 1) := by
  refine ⟨rfl, rfl, ?_⟩
  intro d v hv
  refine ⟨⟨⌊v⌋, ?_, Int.floor_le v, Int.lt_floor_add_one v⟩, ⟨⌈v⌉, ?_, Int.le_ceil v, Int.ceil_lt_add_one v⟩⟩
  · simp [applyAll, hv, floorR]
  · simp [applyAll, hv, ceilR]

/-- Rounding is to the nearest multiple of the inverse of the precision, ties away from zero. -/
theorem C126_round (v prec : ℚ) (hp : 0 < prec) :
    (∃ k : ℤ, edoRound v prec = k / prec) ∧ |edoRound v prec - v| ≤ 1 / (2 * prec) ∧
    (|edoRound v prec - v| = 1 / (2 * prec) → |v| < |edoRound v prec|) ∧
    edoRound (-v) prec = - edoRound v prec := by
  have key : ∀ v : ℚ, 0 < v → (∃ k : ℤ, floorR (v * prec + 1 / 2) / prec = k / prec) ∧
      |floorR (v * prec + 1 / 2) / prec - v| ≤ 1 / (2 * prec) ∧
      (|floorR (v * prec + 1 / 2) / prec - v| = 1 / (2 * prec) →
        |v| < |floorR (v * prec + 1 / 2) / prec|) := by
    intro v hv
    have h1 := floorR_le (v * prec + 1 / 2)
    have h2 := lt_floorR (v * prec + 1 / 2)
    have h0 : 0 ≤ floorR (v * prec + 1 / 2) := floorR_nonneg (by positivity)
    generalize hk : floorR (v * prec + 1 / 2) = k at *
    have e : k / prec - v = (k - v * prec) / prec := by field_simp
    have e2 : (1 : ℚ) / (2 * prec) = (1 / 2) / prec := by field_simp
    rw [e, abs_div, abs_of_pos hp, e2]
    refine ⟨⟨⌊v * prec + 1 / 2⌋, by rw [← hk]; rfl⟩, ?_, ?_⟩
    · rw [div_le_div_iff_of_pos_right hp, abs_le]
      constructor <;> linarith
    · intro h
      have h3 : |k - v * prec| = 1 / 2 := by
        have := (div_left_inj' hp.ne').mp h
        exact this
      rw [abs_of_pos hv, abs_of_nonneg (div_nonneg h0 hp.le), lt_div_iff₀ hp]
      rcases abs_choice (k - v * prec) with h4 | h4 <;> rw [h4] at h3 <;> linarith
  have hneg : ∀ v : ℚ, ceilR (v * prec - 1 / 2) / prec = -(floorR (-v * prec + 1 / 2) / prec) := by
    intro v
    have : v * prec - 1 / 2 = -(-v * prec + 1 / 2) := by ring
    rw [this, ceilR_neg]
    ring
  have hzero : floorR (0 * prec + 1 / 2) = 0 := by
    unfold floorR
    norm_num
  rcases lt_trichotomy v 0 with hv | hv | hv
  · have hr : edoRound v prec = -(floorR (-v * prec + 1 / 2) / prec) := by
      unfold edoRound
      rw [if_neg (by linarith), hneg]
    obtain ⟨⟨k, hk⟩, h2, h3⟩ := key (-v) (by linarith)
    have e : -(floorR (-v * prec + 1 / 2) / prec) - v = -(floorR (-v * prec + 1 / 2) / prec - -v) := by ring
    rw [hr, e, abs_neg]
    refine ⟨⟨-k, ?_⟩, h2, ?_, ?_⟩
    · rw [hk]; push_cast; ring
    · intro h
      rw [abs_neg, ← abs_neg v]
      exact h3 h
    · unfold edoRound
      rw [if_pos (by linarith)]
      ring
  · subst hv
    have h0 : edoRound 0 prec = 0 := by
      unfold edoRound
      rw [if_neg (by linarith), hneg, neg_zero, hzero]
      simp
    rw [neg_zero, h0]
    refine ⟨⟨0, by simp⟩, ?_, ?_, by simp⟩
    · simp; positivity
    · intro h
      simp at h
      linarith
  · have hr : edoRound v prec = floorR (v * prec + 1 / 2) / prec := by
      unfold edoRound
      rw [if_pos hv]
    obtain ⟨h1, h2, h3⟩ := key v hv
    rw [hr]
    refine ⟨h1, h2, h3, ?_⟩
    unfold edoRound
    rw [if_neg (by linarith), hneg, neg_neg]

/-- Rounding twice is rounding once. -/
theorem C126_round_idem (v prec : ℚ) (hp : 0 < prec) :
    edoRound (edoRound v prec) prec = edoRound v prec := by
  obtain ⟨⟨k, hk⟩, _⟩ := C126_round v prec hp
  rw [hk]
  have hm : (k : ℚ) / prec * prec = k := by field_simp
  unfold edoRound
  rw [hm]
  split
  · congr 1
    unfold floorR
    have : ⌊(k : ℚ) + 1 / 2⌋ = k := by
      rw [Int.floor_eq_iff]
      constructor <;> linarith
    rw [this]
  · congr 1
    unfold ceilR
    have : ⌈(k : ℚ) - 1 / 2⌉ = k := by
      rw [Int.ceil_eq_iff]
      constructor <;> linarith
    rw [this]

example : edoRound (5/4) 10 = 13/10 ∧ edoRound (-5/4) 10 = -13/10 ∧ edoRound (124/100) 10 = 12/10 := by
  decide +kernel

/-- The repairer with a number of decimals applies this to every variable with the inverse of its
argument as the precision, and invalidates the solution. -/
theorem C126_decimals (decimals : ℚ) (hd : 0 < decimals) (s : Sol) :
    (roundDecimals decimals s).fit = none ∧ (roundDecimals decimals s).x.length = s.x.length ∧
    ∀ (d : Nat) (v : ℚ), s.x[d]? = some v →
      ∃ k : ℤ, (roundDecimals decimals s).x[d]? = some (k * decimals) ∧ |k * decimals - v| ≤ decimals / 2 := by
  refine ⟨rfl, by simp [roundDecimals, applyAll], ?_⟩
  intro d v hv
  obtain ⟨⟨k, hk⟩, h2, _⟩ := C126_round v (1 / decimals) (by positivity)
  have e : edoRound v (1 / decimals) = k * decimals := by rw [hk]; field_simp
  rw [e] at h2
  refine ⟨k, ?_, ?_⟩
  · rw [← e]
    simp [roundDecimals, applyAll, hv]
  · refine le_trans h2 (le_of_eq ?_)
    field_simp

example : roundDecimals (1/10) ⟨[123/100, -5/4], some 3⟩ = ⟨[12/10, -13/10], none⟩ := by decide +kernel

/-- Modulo: the result differs from the variable by a multiple of the denominator, is smaller than it in
absolute value, and has the sign of the variable. -/
theorem C126_modulo (v d : ℚ) (hd : d ≠ 0) :
    (∃ k : ℤ, v = fmodR v d + k * d) ∧ |fmodR v d| < |d| ∧ 0 ≤ v * fmodR v d := by
  obtain ⟨_, h2, h3⟩ := truncR_spec (v / d)
  have e : fmodR v d = d * (v / d - truncR (v / d)) := by
    unfold fmodR
    field_simp
  refine ⟨?_, ?_, ?_⟩
  · have : ∃ k : ℤ, truncR (v / d) = k := by
      unfold truncR
      split
      · exact ⟨_, rfl⟩
      · exact ⟨_, rfl⟩
    obtain ⟨k, hk⟩ := this
    refine ⟨k, ?_⟩
    unfold fmodR
    rw [hk]
    ring
  · rw [e, abs_mul]
    have : 0 < |d| := abs_pos.mpr hd
    nlinarith
  · have : v * fmodR v d = d ^ 2 * (v / d * (v / d - truncR (v / d))) := by
      rw [e]
      field_simp
    rw [this]
    exact mul_nonneg (sq_nonneg d) h3

/-- A negative variable stays negative: modulo does not bring it into `[0, d)`. -/
theorem C126_modulo_negative (v d : ℚ) (hd : d ≠ 0) (hv : v < 0) : fmodR v d ≤ 0 := by
  have := (C126_modulo v d hd).2.2
  by_contra hcon
  push Not at hcon
  nlinarith

example : fmodR (-7/2) 3 = -1/2 ∧ fmodR (7/2) 3 = 1/2 ∧ fmodR (7/2) (-3) = 1/2 := by decide +kernel

/-! ## C127: the dispatcher -/

/-- Only the variables with an index in one of the lists can change. -/
theorem C127_frame {ps : List (List Nat × Repair)} {s s' : Sol} (h : dispatchSol ps s = some s') :
    s'.fit = none ∧ s'.x.length = s.x.length ∧
    ∀ d : Nat, (∀ p ∈ ps, d ∉ p.1) → s'.x[d]? = s.x[d]? := by
  have key : ∀ (ps : List (List Nat × Repair)) (x y : List ℚ), dispatch ps x = some y →
      y.length = x.length ∧ ∀ d : Nat, (∀ p ∈ ps, d ∉ p.1) → y[d]? = x[d]? := by
    intro ps
    induction ps with
    | nil =>
      intro x y h
      simp only [dispatch, Option.some.injEq] at h
      subst h
      simp
    | cons p ps ih =>
      intro x y h
      simp only [dispatch] at h
      split at h
      · simp at h
      · rename_i z hz
        obtain ⟨h1, h2⟩ := ih z y h
        refine ⟨by rw [h1, dispatchOne_length hz], ?_⟩
        intro d hd
        rw [h2 d fun q hq => hd q (List.mem_cons_of_mem _ hq),
          dispatchOne_other hz (hd p (List.mem_cons_self ..))]
  unfold dispatchSol at h
  split at h
  · simp at h
  · rename_i y hy
    simp only [Option.some.injEq] at h
    subst h
    obtain ⟨h1, h2⟩ := key ps s.x y hy
    exact ⟨rfl, h1, h2⟩

/-- A repairer with a list of distinct indices: the variables at these indices become the result of the
repairer on them. -/
theorem C127_apply {js : List Nat} {op : Repair} {x y vs part : List ℚ} (hn : js.Nodup) (hne : js ≠ [])
    (hvs : gather x js = some vs) (hop : op vs = some part) (hlen : part.length = vs.length)
    (h : dispatch [(js, op)] x = some y) : gather y js = some part := by
  simp only [dispatch] at h
  split at h
  · simp at h
  · rename_i z hz
    simp only [Option.some.injEq] at h
    subst h
    rw [dispatchOne_eq] at hz
    simp only [hne, ↓reduceIte, hvs, Option.bind_some, hop] at hz
    obtain ⟨g1, g2⟩ := gather_range hvs
    have := scatter_get hz hn g2
    rwa [List.take_of_length_le (by omega)] at this

/-- The gathered variables are the ones at the indices, in the order of the list. -/
theorem C127_gather {x vs : List ℚ} {js : List Nat} (h : gather x js = some vs) :
    vs.length = js.length ∧ ∀ k j : Nat, js[k]? = some j → vs[k]? = x[j]? := by
  refine ⟨(gather_range h).1, ?_⟩
  induction js generalizing vs with
  | nil => simp
  | cons j js ih =>
    simp only [gather] at h
    split at h
    · rename_i v ws h1 h2
      simp only [Option.some.injEq] at h
      subst h
      intro k i hk
      cases k with
      | zero =>
        simp only [List.getElem?_cons_zero, Option.some.injEq] at hk
        subst hk
        exact h1.symm
      | succ k => simpa using ih h2 k i (by simpa using hk)
    · simp at h

/-- With repairers that keep the size, the dispatcher is defined when the indices are in the solution. -/
theorem C127_defined {ps : List (List Nat × Repair)} (x : List ℚ)
    (hidx : ∀ p ∈ ps, ∀ j ∈ p.1, j < x.length)
    (hop : ∀ p ∈ ps, ∀ vs, ∃ ws, p.2 vs = some ws ∧ ws.length = vs.length) : ∃ y, dispatch ps x = some y := by
  induction ps generalizing x with
  | nil => exact ⟨x, rfl⟩
  | cons p ps ih =>
    have h1 : ∃ z, dispatchOne x p = some z := by
      rw [dispatchOne_eq]
      split
      · exact ⟨x, rfl⟩
      · obtain ⟨vs, hvs⟩ := (gather_defined x p.1).mpr (hidx p (List.mem_cons_self ..))
        obtain ⟨ws, hws, hl⟩ := hop p (List.mem_cons_self ..) vs
        rw [hvs]
        simp only [Option.bind_some, hws]
        have hl2 : p.1.length ≤ ws.length := by rw [hl, (gather_range hvs).1]
        exact scatter_defined x p.1 ws hl2
    obtain ⟨z, hz⟩ := h1
    simp only [dispatch, hz]
    apply ih
    · intro q hq j hj
      rw [dispatchOne_length hz]
      exact hidx q (List.mem_cons_of_mem _ hq) j hj
    · exact fun q hq => hop q (List.mem_cons_of_mem _ hq)

/-- Two repairers on disjoint indices can be added in either order. -/
theorem C127_commute (p q : List Nat × Repair) (hdis : ∀ j ∈ p.1, j ∉ q.1) (x : List ℚ) :
    dispatch [p, q] x = dispatch [q, p] x := by
  have e : ∀ p q : List Nat × Repair, dispatch [p, q] x =
      (dispatchOne x p).bind fun y => dispatchOne y q := by
    intro p q
    simp only [dispatch]
    cases dispatchOne x p with
    | none => rfl
    | some y => simp only [Option.bind_some]; cases dispatchOne y q <;> rfl
  rw [e, e]
  rcases Classical.em (p.1 = []) with hp | hp
  · have : ∀ y, dispatchOne y p = some y := fun y => by rw [dispatchOne_eq, if_pos hp]
    simp only [this, Option.bind_some]
    cases dispatchOne x q <;> rfl
  rcases Classical.em (q.1 = []) with hq | hq
  · have : ∀ y, dispatchOne y q = some y := fun y => by rw [dispatchOne_eq, if_pos hq]
    simp only [this, Option.bind_some]
    cases dispatchOne x p <;> rfl
  have hdis' : ∀ j ∈ q.1, j ∉ p.1 := fun j hj hj' => hdis j hj' hj
  have g : ∀ (p q : List Nat × Repair), p.1 ≠ [] → q.1 ≠ [] → (∀ j ∈ q.1, j ∉ p.1) →
      ((dispatchOne x p).bind fun y => dispatchOne y q) =
      (gather x p.1).bind fun vs => (gather x q.1).bind fun ws => (p.2 vs).bind fun a =>
        (q.2 ws).bind fun b => (scatter x p.1 a).bind fun y => scatter y q.1 b := by
    intro p q hp hq hd
    rw [dispatchOne_eq, if_neg hp]
    cases h1 : gather x p.1 with
    | none => simp
    | some vs =>
      cases h2 : p.2 vs with
      | none => cases gather x q.1 <;> simp [h2]
      | some a =>
        simp only [Option.bind_some, h2]
        cases h3 : scatter x p.1 a with
        | none =>
          simp only [Option.bind_none]
          cases h4 : gather x q.1 with
          | none => simp
          | some ws => cases h5 : q.2 ws <;> simp [h5]
        | some y =>
          simp only [Option.bind_some]
          rw [dispatchOne_eq, if_neg hq, gather_congr fun j hj => scatter_other h3 (hd j hj)]
  rw [g p q hp hq hdis', g q p hq hp hdis]
  cases h1 : gather x p.1 <;> cases h2 : gather x q.1 <;> simp only [Option.bind_some, Option.bind_none]
  rename_i vs ws
  cases h3 : p.2 vs <;> cases h4 : q.2 ws <;> simp only [Option.bind_some, Option.bind_none]
  exact scatter_comm hdis

/-- An index outside of the solution is an exception. -/
theorem C127_out_of_range {js : List Nat} {op : Repair} {x : List ℚ} {j : Nat} (hj : j ∈ js)
    (hx : x.length ≤ j) : dispatch [(js, op)] x = none := by
  have h1 : gather x js = none := by
    cases h : gather x js with
    | none => rfl
    | some vs => have := (gather_range h).2 j hj; omega
  simp only [dispatch, dispatchOne, h1]

example : dispatchSol [([2, 0], fun v => some (v.map floorR)), ([1], boundBound [0] [1])]
    ⟨[5/2, 7, -3/2, 9/4], some 1⟩ = some ⟨[2, 1, -2, 9/4], none⟩ := by decide +kernel

end Paradiseo.Edo
