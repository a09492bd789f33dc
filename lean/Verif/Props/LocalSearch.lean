import Verif.Lemmas.LocalSearch

/-
Properties C18–C22: hill climbers and tabu search.

Vocabulary of the statements: `nb t sol` is what the neighbourhood enumerates, `app m x` applies a move.
`localSearch … = some (res, tr, b)`: the search ended with solution `res`; `tr` lists the states after
each iteration; `b` is the last answer of the user's continuator, so `b = true` means that the search
stopped by itself.
-/
namespace Paradiseo.LS

variable {S M F K W : Type}

/-- The first solution followed by the solution after each iteration. -/
def solutions {E : Type} (sol0 : S × F) (tr : List ((S × F) × E)) : List (S × F) :=
  sol0 :: tr.map (·.1)

/-- `c` is the first element of `l` of greatest fitness. -/
def IsFirstMax [LinearOrder F] (l : List (Cand M F)) (c : Cand M F) : Prop :=
  ∃ pre post, l = pre ++ c :: post ∧ (∀ d ∈ pre, d.fit < c.fit) ∧ (∀ d ∈ post, d.fit ≤ c.fit)

/-- Every iteration but the last strictly increases the fitness; the last one increases it or leaves
the solution unchanged. -/
def StrictlyUp [LinearOrder F] (l : List (S × F)) : Prop :=
  ∀ i a b, l[i]? = some a → l[i + 1]? = some b →
    a.2 < b.2 ∨ (i + 2 = l.length ∧ b = a)

theorem localSearch_orbit {E : Type} {f : S → F} {ex : Explorer (S × F) E}
    {cont : K → S × F → Bool × K} {cinit : S × F → K} {fuel : Nat} {x : S} {fit : Option F} {e : E}
    {res : S × F} {tr : List ((S × F) × E)} {b : Bool}
    (h : localSearch f ex cont cinit fuel x fit e = some (res, tr, b)) :
    ∃ n, let p0 := ((x, fit.getD (f x)), ex.initParam (x, fit.getD (f x)) e)
      tr = (List.range (n + 1)).map (fun i => orbit ex 0 p0 (i + 1)) ∧
      (∀ i, i < n → ex.isContinue (orbit ex 0 p0 (i + 1)).1 (orbit ex 0 p0 (i + 1)).2 = true) ∧
      (b = false ∨ ex.isContinue (orbit ex 0 p0 (n + 1)).1 (orbit ex 0 p0 (n + 1)).2 = false) ∧
      res = ex.terminate (orbit ex 0 p0 (n + 1)).1 (orbit ex 0 p0 (n + 1)).2 ∧
      (∀ i, i < n + 2 → (solutions (x, fit.getD (f x)) tr)[i]? = some (orbit ex 0 p0 i).1) := by
  simp only [localSearch, Option.map_eq_some_iff] at h
  obtain ⟨⟨l, b'⟩, h1, h2⟩ := h
  simp only [Prod.mk.injEq] at h2
  obtain ⟨h2, h3, h4⟩ := h2
  obtain ⟨n, hn, hi, hb⟩ := lsLoop_orbit ex cont _ _ _ _ _ _ _ h1
  refine ⟨n, h3 ▸ hn, hi, h4 ▸ hb, ?_, ?_⟩
  · rw [← h2, hn]
    simp [List.range_succ]
  · intro i hi'
    subst h3
    rw [hn]
    cases i with
    | zero => rfl
    | succ i =>
      simp only [solutions, List.getElem?_cons_succ, List.map_map, List.getElem?_map]
      rw [List.getElem?_range (by omega)]
      rfl

theorem climbs_run [LinearOrder F] {ex : Explorer (S × F) (HC M F)} {nb : Nat → S × F → List (Cand M F)}
    {app : M → S → S} {inv : HC M F → Prop} (hc : Climbs ex nb app inv)
    (hcont : ∀ s e, ex.isContinue s e = e.isAccept) (hterm : ∀ s e, ex.terminate s e = s)
    (hinit : ∀ s e, inv (ex.initParam s e))
    {f : S → F} {cont : K → S × F → Bool × K} {cinit : S × F → K} {fuel : Nat} {x : S} {fit : Option F}
    {e : HC M F} {res : S × F} {tr : List ((S × F) × HC M F)} {b : Bool}
    (h : localSearch f ex cont cinit fuel x fit e = some (res, tr, b)) :
    StrictlyUp (solutions (x, fit.getD (f x)) tr) ∧
    (solutions (x, fit.getD (f x)) tr).getLast? = some res ∧
    (b = true → ∀ c ∈ nb (tr.length - 1) res, c.fit ≤ res.2) ∧
    ((∀ t x c, c ∈ nb t (x, f x) → c.fit = f (app c.mv x)) → fit.getD (f x) = f x → res.2 = f res.1) := by
  obtain ⟨n, htr, hi, hb, hres, hsol⟩ := localSearch_orbit h
  have hlen : tr.length = n + 1 := by rw [htr]; simp
  have hslen : (solutions (x, fit.getD (f x)) tr).length = n + 2 := by simp [solutions, hlen]
  rw [hterm] at hres
  have hinv := hinit (x, fit.getD (f x)) e
  refine ⟨?_, ?_, ?_, ?_⟩
  · intro i a c ha hc'
    have hlt : i + 1 < n + 2 := by
      rw [← hslen]; exact (List.getElem?_eq_some_iff.1 hc').1
    rw [hsol i (by omega)] at ha
    rw [hsol (i + 1) hlt] at hc'
    simp only [Option.some.injEq] at ha hc'
    subst ha hc'
    have hst := hc.step (0 + i) _ (orbit_climbs hc 0 ((x, fit.getD (f x)), _) hinv i)
    rw [hslen]
    rcases hst with hst | hst
    · left; exact hst.2.1
    · right
      refine ⟨?_, hst.2.1⟩
      by_contra hne
      have := hi i (by omega)
      rw [hcont] at this
      have h2 := hst.1
      rw [show stepTo ex (0 + i) (orbit ex 0 _ i) = orbit ex 0 _ (i + 1) from rfl] at h2
      rw [this] at h2
      exact absurd h2 (by simp)
  · rw [List.getLast?_eq_getElem?, hslen, hsol (n + 2 - 1) (by omega), hres]; rfl
  · intro hbt
    have hstop := hb.resolve_left (by simp [hbt])
    rw [hcont] at hstop
    have hst := hc.step (0 + n) _ (orbit_climbs hc 0 ((x, fit.getD (f x)), _) hinv n)
    rw [hlen, hres]
    rcases hst with hst | hst
    · have h2 := hst.1
      rw [show stepTo ex (0 + n) (orbit ex 0 _ n) = orbit ex 0 _ (n + 1) from rfl] at h2
      rw [h2] at hstop
      exact absurd hstop (by simp)
    · have h2 : (orbit ex 0 _ (n + 1)).1 = _ := hst.2.1
      rw [h2]
      have h3 := hst.2.2
      rw [Nat.zero_add] at h3
      exact h3
  · intro hnb hf
    rw [hres]
    exact orbit_exact hc f hnb 0 _ hinv hf (n + 1)

/-! ### C18 -/

/-- One iteration of the steepest climber: with neighbours, the one considered is the first of
greatest fitness, and the solution becomes it exactly when it is strictly better; otherwise, or
without neighbours, the solution is unchanged. -/
theorem C18_steepest_step [LinearOrder F] (nb : Nat → S × F → List (Cand M F)) (app : M → S → S)
    (t : Nat) (x : S) (fx : F) (e : HC M F) :
    let q := (lsStep (simpleHC nb app) t (x, fx) e).1
    (nb t (x, fx) = [] → q = (x, fx)) ∧
    (nb t (x, fx) ≠ [] → ∃ c, IsFirstMax (nb t (x, fx)) c ∧
      (fx < c.fit → q = (app c.mv x, c.fit)) ∧ (¬ fx < c.fit → q = (x, fx))) := by
  intro q
  constructor
  · intro h; simp [q, lsStep, simpleHC, h]
  · intro h
    obtain ⟨c, l, hcl⟩ := List.exists_cons_of_ne_nil h
    refine ⟨simpleSelect c l, by rw [hcl]; exact simpleSelect_split c l, ?_, ?_⟩
    · intro h'; simp [q, lsStep, simpleHC, hcl, h', moveSel]
    · intro h'; simp [q, lsStep, simpleHC, hcl, h']

/-- The first element of greatest fitness is unique, so the statement above fixes the choice. -/
theorem C18_first_max_unique [LinearOrder F] (l : List (Cand M F)) (c d : Cand M F)
    (hc : IsFirstMax l c) (hd : IsFirstMax l d) : c = d := by
  obtain ⟨p, q, h1, h2, h3⟩ := hc
  obtain ⟨p', q', h1', h2', h3'⟩ := hd
  rw [h1] at h1'
  rcases List.append_eq_append_iff.1 h1' with ⟨a, ha, hb⟩ | ⟨a, ha, hb⟩
  · cases a with
    | nil => simp only [List.nil_append, List.cons.injEq] at hb; exact hb.1
    | cons y a =>
      simp only [List.cons_append, List.cons.injEq] at hb
      have h4 := h2' c (by rw [ha, hb.1]; simp)
      have h5 := h3 d (by rw [hb.2]; simp)
      exact absurd h4 (not_lt_of_ge h5)
  · cases a with
    | nil => simp only [List.nil_append, List.cons.injEq] at hb; exact hb.1.symm
    | cons y a =>
      simp only [List.cons_append, List.cons.injEq] at hb
      have h4 := h2 d (by rw [ha, hb.1]; simp)
      have h5 := h3' c (by rw [hb.2]; simp)
      exact absurd h4 (not_lt_of_ge h5)

/-- A neighbourhood on integers: one down, one up, two up. -/
def demoNb (f : Int → Int) (s : Int × Int) : List (Cand Int Int) :=
  [-1, 1, 2].map fun d => ⟨d, f (s.1 + d)⟩

def demoF (x : Int) : Int := -((x - 5) * (x - 5))

example : (lsStep (simpleHC (fun _ s => demoNb demoF s) (fun d x => x + d)) 0 (0, demoF 0) ⟨none, [], false, 0⟩).1
    = (2, -9) := by decide

/-! ### C19 -/

theorem C19_simple [LinearOrder F] {nb : Nat → S × F → List (Cand M F)} {app : M → S → S}
    {f : S → F} {cont : K → S × F → Bool × K} {cinit : S × F → K} {fuel : Nat} {x : S} {fit : Option F}
    {e : HC M F} {res : S × F} {tr : List ((S × F) × HC M F)} {b : Bool}
    (h : localSearch f (simpleHC nb app) cont cinit fuel x fit e = some (res, tr, b)) :
    StrictlyUp (solutions (x, fit.getD (f x)) tr) ∧
    (solutions (x, fit.getD (f x)) tr).getLast? = some res ∧
    (b = true → ∀ c ∈ nb (tr.length - 1) res, c.fit ≤ res.2) :=
  let r := climbs_run (simpleHC_climbs nb app) (fun _ _ => rfl) (fun _ _ => rfl) (fun _ _ => trivial) h
  ⟨r.1, r.2.1, r.2.2.1⟩

theorem C19_first [LinearOrder F] {nb : Nat → S × F → List (Cand M F)} {app : M → S → S}
    {f : S → F} {cont : K → S × F → Bool × K} {cinit : S × F → K} {fuel : Nat} {x : S} {fit : Option F}
    {e : HC M F} {res : S × F} {tr : List ((S × F) × HC M F)} {b : Bool}
    (h : localSearch f (firstHC false nb app) cont cinit fuel x fit e = some (res, tr, b)) :
    StrictlyUp (solutions (x, fit.getD (f x)) tr) ∧
    (solutions (x, fit.getD (f x)) tr).getLast? = some res ∧
    (b = true → ∀ c ∈ nb (tr.length - 1) res, c.fit ≤ res.2) :=
  let r := climbs_run (firstHC_climbs false nb app) (fun _ _ => rfl) (fun _ _ => rfl) (fun _ _ => trivial) h
  ⟨r.1, r.2.1, r.2.2.1⟩

theorem C19_random_best [LinearOrder F] {r : Nat → Nat} {nb : Nat → S × F → List (Cand M F)}
    {app : M → S → S}
    {f : S → F} {cont : K → S × F → Bool × K} {cinit : S × F → K} {fuel : Nat} {x : S} {fit : Option F}
    {e : HC M F} {res : S × F} {tr : List ((S × F) × HC M F)} {b : Bool}
    (h : localSearch f (randomBestHC r nb app) cont cinit fuel x fit e = some (res, tr, b)) :
    StrictlyUp (solutions (x, fit.getD (f x)) tr) ∧
    (solutions (x, fit.getD (f x)) tr).getLast? = some res ∧
    (b = true → ∀ c ∈ nb (tr.length - 1) res, c.fit ≤ res.2) :=
  let r := climbs_run (randomBestHC_climbs r nb app) (fun _ _ => rfl) (fun _ _ => rfl) (fun _ _ => rfl) h
  ⟨r.1, r.2.1, r.2.2.1⟩

/-- With an exact incremental evaluation and finitely many solutions, the steepest, first-improvement
and random-best climbers end whatever the continuator, with a fitness that is the value of the
solution; with a continuator that always says yes they end in a local optimum of `f`. -/
theorem C19_local_optimum [LinearOrder F] [Finite S] (r : Nat → Nat)
    (moves : S → List M) (app : M → S → S) (f : S → F) (x : S) (e : HC M F)
    (ex : Explorer (S × F) (HC M F))
    (hex : ex = simpleHC (fun _ s => (moves s.1).map fun m => ⟨m, f (app m s.1)⟩) app ∨
      ex = firstHC false (fun _ s => (moves s.1).map fun m => ⟨m, f (app m s.1)⟩) app ∨
      ex = randomBestHC r (fun _ s => (moves s.1).map fun m => ⟨m, f (app m s.1)⟩) app) :
    ∃ fuel res tr, localSearch f ex (fun (_ : Unit) _ => (true, ())) (fun _ => ()) fuel x none e =
        some (res, tr, true) ∧
      res.2 = f res.1 ∧ f x ≤ f res.1 ∧ ∀ m ∈ moves res.1, f (app m res.1) ≤ f res.1 := by
  set nb : Nat → S × F → List (Cand M F) :=
    fun _ s => (moves s.1).map fun m => ⟨m, f (app m s.1)⟩ with hnbdef
  have hnb : ∀ t x c, c ∈ nb t (x, f x) → c.fit = f (app c.mv x) := by
    intro t x c hc
    simp only [nb, List.mem_map] at hc
    obtain ⟨m, _, rfl⟩ := hc
    rfl
  have key : ∃ inv, Climbs ex nb app inv ∧ (∀ s e, ex.isContinue s e = e.isAccept) ∧
      (∀ s e, ex.terminate s e = s) ∧ (∀ s e, inv (ex.initParam s e)) := by
    rcases hex with rfl | rfl | rfl
    · exact ⟨_, simpleHC_climbs nb app, fun _ _ => rfl, fun _ _ => rfl, fun _ _ => trivial⟩
    · exact ⟨_, firstHC_climbs false nb app, fun _ _ => rfl, fun _ _ => rfl, fun _ _ => trivial⟩
    · exact ⟨_, randomBestHC_climbs r nb app, fun _ _ => rfl, fun _ _ => rfl, fun _ _ => rfl⟩
  obtain ⟨inv, hc, hcont, hterm, hinit⟩ := key
  have hsome := climbs_terminates (K := Unit) hc (fun s e h => by rw [← hcont s e]; exact h) f hnb
    (fun _ _ => (true, ())) (Set.ncard {y | f x < f y} + 1) 0 (x, f x) (ex.initParam (x, f x) e) ()
    (hinit _ _) rfl (by simp)
  obtain ⟨⟨l, b⟩, hl⟩ := Option.isSome_iff_exists.1 hsome
  have hb : b = true := by
    have : ∀ fuel t sol e l b, lsLoop (K := Unit) ex (fun _ _ => (true, ())) fuel t sol e () = some (l, b) →
        b = true := by
      intro fuel
      induction fuel with
      | zero => intro t sol e l b h; simp [lsLoop] at h
      | succ fuel ih =>
        intro t sol e l b h
        simp only [lsLoop] at h
        split at h
        · simp only [Option.map_eq_some_iff] at h
          obtain ⟨p, hp, hp2⟩ := h
          simp only [Prod.mk.injEq] at hp2
          rw [← hp2.2]; exact ih _ _ _ p.1 _ hp
        · simp only [Option.some.injEq, Prod.mk.injEq] at h; exact h.2.symm
    exact this _ _ _ _ _ _ hl
  subst hb
  have hls : localSearch f ex (fun (_ : Unit) _ => (true, ())) (fun _ => ()) (Set.ncard {y | f x < f y} + 1)
      x none e = some (ex.terminate (l.getLastD ((x, f x), ex.initParam (x, f x) e)).1
        (l.getLastD ((x, f x), ex.initParam (x, f x) e)).2, l, true) := by
    simp only [localSearch, Option.getD_none, hl, Option.map_some]
  obtain ⟨hup, hlast, hopt, hfit⟩ := climbs_run hc hcont hterm hinit hls
  refine ⟨_, _, _, hls, hfit hnb rfl, ?_, ?_⟩
  · generalize ex.terminate _ _ = res at hls hup hlast hopt hfit ⊢
    rw [← hfit hnb rfl]
    obtain ⟨n, htr, hi, hb, hres, hsol⟩ := localSearch_orbit hls
    have hmono : ∀ i, i < n + 2 → f x ≤ (orbit ex 0 ((x, f x), ex.initParam (x, f x) e) i).1.2 := by
      intro i
      induction i with
      | zero => intro _; exact le_rfl
      | succ i ih =>
        intro hi'
        refine le_trans (ih (by omega)) ?_
        rcases hup i _ _ (hsol i (by omega)) (hsol (i + 1) hi') with h | h
        · exact le_of_lt h
        · exact le_of_eq (congrArg Prod.snd h.2.symm)
    have := hmono (n + 1) (by omega)
    rw [hterm] at hres
    rw [hres]; exact this
  · intro m hm
    have h1 := hfit hnb rfl
    have := hopt rfl ⟨m, f (app m _)⟩ (List.mem_map.2 ⟨m, hm, rfl⟩)
    rw [h1] at this
    exact this

/-- The random-best climber moves to a neighbour of greatest fitness, and any such neighbour can be
chosen by a suitable random number. -/
theorem C19_random_best_choice [LinearOrder F] (nb : Nat → S × F → List (Cand M F))
    (t : Nat) (sol : S × F) (e : HC M F) (he : e.best = []) (c : Cand M F) :
    (∃ r, ((bestExplore r nb t sol e).2.selected = some c ∧ nb t sol ≠ [])) ↔
      c ∈ nb t sol ∧ ∀ d ∈ nb t sol, d.fit ≤ c.fit := by
  constructor
  · rintro ⟨r, hr, hne⟩
    obtain ⟨b, v, s, h1, h2, h3⟩ := bestExplore_spec r nb t sol e he hne
    rw [h1] at hr
    simp only [Option.some.injEq] at hr
    exact hr ▸ (h3 s).1 h2
  · rintro ⟨hm, hge⟩
    obtain ⟨c0, l, hcl⟩ := List.exists_cons_of_ne_nil (List.ne_nil_of_mem hm)
    have hcm : c ∈ l.foldl bestPush [c0] := (mem_bestVector c0 l c).2 (hcl ▸ ⟨hm, hge⟩)
    obtain ⟨i, hi, hci⟩ := List.getElem_of_mem hcm
    refine ⟨fun _ => i, ?_, by simp [hcl]⟩
    simp only [bestExplore, hcl, he, List.nil_append, Nat.mod_eq_of_lt hi]
    rw [List.getElem?_eq_getElem hi, hci]

example : ∃ res tr, localSearch demoF (simpleHC (fun _ s => demoNb demoF s) (fun d x => x + d))
    (fun (_ : Unit) _ => (true, ())) (fun _ => ()) 10 0 none ⟨none, [], false, 0⟩ = some (res, tr, true) ∧
    res = (5, 0) ∧ tr.length = 4 := ⟨_, _, rfl, by decide, by decide⟩

/-! ### C20 -/

/-- Along a neutral climb the fitness never decreases, the result is the last solution, at most
`max 1 nbStep` iterations are done; stopping by itself before the step bound means that every
neighbour is strictly worse. -/
theorem C20_neutral [LinearOrder F] {nbStep : Nat} {r : Nat → Nat} {nb : Nat → S × F → List (Cand M F)}
    {app : M → S → S}
    {f : S → F} {cont : K → S × F → Bool × K} {cinit : S × F → K} {fuel : Nat} {x : S} {fit : Option F}
    {e : HC M F} {res : S × F} {tr : List ((S × F) × HC M F)} {b : Bool}
    (h : localSearch f (neutralHC nbStep r nb app) cont cinit fuel x fit e = some (res, tr, b)) :
    List.IsChain (fun a b => a.2 ≤ b.2) (solutions (x, fit.getD (f x)) tr) ∧
    (solutions (x, fit.getD (f x)) tr).getLast? = some res ∧
    tr.length ≤ max 1 nbStep ∧
    (b = true → tr.length < nbStep → ∀ c ∈ nb (tr.length - 1) res, c.fit < res.2) := by
  obtain ⟨n, htr, hi, hb, hres, hsol⟩ := localSearch_orbit h
  have hlen : tr.length = n + 1 := by rw [htr]; simp
  have hslen : (solutions (x, fit.getD (f x)) tr).length = n + 2 := by simp [solutions, hlen]
  set p0 := ((x, fit.getD (f x)), (neutralHC nbStep r nb app).initParam (x, fit.getD (f x)) e) with hp0
  have hinv : ∀ i, (orbit (neutralHC nbStep r nb app) 0 p0 i).2.best = [] ∧
      (orbit (neutralHC nbStep r nb app) 0 p0 i).2.step = i := by
    intro i
    induction i with
    | zero => exact ⟨rfl, rfl⟩
    | succ i ih =>
      have := neutralHC_step nbStep r nb app (0 + i) _ ih.1
      exact ⟨this.1, this.2.1.trans (by rw [ih.2])⟩
  refine ⟨?_, ?_, ?_, ?_⟩
  · rw [List.isChain_iff_getElem]
    intro i hi'
    have h1 := hsol i (by omega)
    have h2 := hsol (i + 1) (by omega)
    rw [List.getElem?_eq_getElem (by omega), Option.some.injEq] at h1 h2
    rw [h1, h2]
    rcases (neutralHC_step nbStep r nb app (0 + i) _ (hinv i).1).2.2 with ⟨_, h3, _⟩ | ⟨_, h3, _⟩
    · exact h3
    · exact le_of_eq (congrArg Prod.snd h3.symm)
  · rw [List.getLast?_eq_getElem?, hslen, hsol (n + 2 - 1) (by omega), hres]; rfl
  · rw [hlen]
    cases n with
    | zero => omega
    | succ n =>
      have := hi n (by omega)
      simp only [neutralHC, Bool.and_eq_true, decide_eq_true_eq] at this
      have h2 := (hinv (n + 1)).2
      simp only [neutralHC] at h2
      rw [h2] at this
      omega
  · intro hbt hlt
    have hstop := hb.resolve_left (by simp [hbt])
    have hs : (orbit (neutralHC nbStep r nb app) 0 p0 (n + 1)).2.isAccept = false := by
      have h2 := (hinv (n + 1)).2
      have : decide ((orbit (neutralHC nbStep r nb app) 0 p0 (n + 1)).2.step < nbStep) = true := by
        rw [h2]; simp; omega
      have hst : (decide ((orbit (neutralHC nbStep r nb app) 0 p0 (n + 1)).2.step < nbStep) &&
        (orbit (neutralHC nbStep r nb app) 0 p0 (n + 1)).2.isAccept) = false := hstop
      rw [this] at hst
      simpa using hst
    have hr : res = (orbit (neutralHC nbStep r nb app) 0 p0 (n + 1)).1 := hres
    rcases (neutralHC_step nbStep r nb app (0 + n) _ (hinv n).1).2.2 with ⟨h3, _⟩ | ⟨_, h3, h4⟩
    · have h5 : (orbit (neutralHC nbStep r nb app) 0 p0 (n + 1)).2.isAccept = true := h3
      rw [h5] at hs; simp at hs
    · have h6 : (orbit (neutralHC nbStep r nb app) 0 p0 (n + 1)).1 =
        (orbit (neutralHC nbStep r nb app) 0 p0 n).1 := h3
      rw [hr, h6, hlen]
      rw [Nat.zero_add] at h4
      exact h4

example : ∃ res tr b, localSearch (fun _ => (0 : Int)) (neutralHC 3 (fun t => t)
    (fun _ s => demoNb (fun _ => 0) s) (fun d x => x + d))
    (fun (_ : Unit) _ => (true, ())) (fun _ => ()) 10 0 none ⟨none, [], false, 0⟩ = some (res, tr, b) ∧
    res = (2, 0) ∧ tr.length = 3 := ⟨_, _, _, rfl, by decide, by decide⟩

/-- A neutral walk keeps the fitness exactly, and stops by itself before its step bound only when no
neighbour has the same fitness. -/
theorem C20_neutral_walk_step [DecidableEq F] (nbStep : Nat) (nb : Nat → S × F → List (Cand M F))
    (app : M → S → S) (t : Nat) (p : (S × F) × HC M F) :
    let q := stepTo (neutralWalk nbStep nb app) t p
    q.1.2 = p.1.2 ∧
      ((q.2.isAccept = true ∧ ∃ c ∈ nb t p.1, c.fit = p.1.2 ∧ q.1.1 = app c.mv p.1.1) ∨
       (q.2.isAccept = false ∧ q.1 = p.1 ∧ ∀ c ∈ nb t p.1, c.fit ≠ p.1.2)) := by
  obtain ⟨⟨x, fx⟩, e⟩ := p
  cases hnb : nb t (x, fx) with
  | nil => refine ⟨?_, Or.inr ?_⟩ <;> simp [stepTo, lsStep, neutralWalk, hnb]
  | cons c l =>
    by_cases h : fx = (equalSelect fx c l).fit
    · refine ⟨?_, Or.inl ⟨?_, equalSelect fx c l, equalSelect_mem fx c l, h.symm, ?_⟩⟩
      · simp [stepTo, lsStep, neutralWalk, hnb, ← h, moveSel]
      · simp [stepTo, lsStep, neutralWalk, hnb, ← h]
      · simp [stepTo, lsStep, neutralWalk, hnb, ← h, moveSel]
    · refine ⟨?_, Or.inr ⟨?_, ?_, equalSelect_none fx c l h⟩⟩ <;>
        simp [stepTo, lsStep, neutralWalk, hnb, h]

/-! ### C21 -/

/-- Whatever the memories, the continuator and the neighbourhood: the solution left by tabu search is
the initial one or one reached by an applied move, and is at least as good as the initial one and as
every one reached by an applied move. -/
theorem C21_best_of_moves [LinearOrder F] {mem : Mem (S × F) (Cand M F) W}
    {nb : Nat → S × F → List (Cand M F)} {app : M → S → S}
    {f : S → F} {cont : K → S × F → Bool × K} {cinit : S × F → K} {fuel : Nat} {x : S} {fit : Option F}
    {e : TS (S × F) (Cand M F) W} {res : S × F} {tr : List ((S × F) × TS (S × F) (Cand M F) W)} {b : Bool}
    (h : localSearch f (tabuSearch mem nb app) cont cinit fuel x fit e = some (res, tr, b)) :
    (res = (x, fit.getD (f x)) ∨ ∃ q ∈ tr, q.2.isAccept = true ∧ res = q.1) ∧
    fit.getD (f x) ≤ res.2 ∧ ∀ q ∈ tr, q.2.isAccept = true → q.1.2 ≤ res.2 := by
  obtain ⟨n, htr, hi, hb, hres, hsol⟩ := localSearch_orbit h
  set p0 := ((x, fit.getD (f x)), (tabuSearch mem nb app).initParam (x, fit.getD (f x)) e) with hp0
  have key : ∀ k, let o := fun i => orbit (tabuSearch mem nb app) 0 p0 i
      ((o k).2.bestSoFar = (x, fit.getD (f x)) ∨
        ∃ i, i < k ∧ (o (i + 1)).2.isAccept = true ∧ (o k).2.bestSoFar = (o (i + 1)).1) ∧
      fit.getD (f x) ≤ (o k).2.bestSoFar.2 ∧
      ∀ i, i < k → (o (i + 1)).2.isAccept = true → (o (i + 1)).1.2 ≤ (o k).2.bestSoFar.2 := by
    intro k o
    induction k with
    | zero => exact ⟨Or.inl rfl, le_rfl, by intro i hi; omega⟩
    | succ k ih =>
      obtain ⟨ih1, ih2, ih3⟩ := ih
      rcases tabuSearch_step mem nb app (0 + k) (o k) with ⟨ha, _, hbst⟩ | ⟨ha, _, _, hbst⟩
      · have hbst' : (o (k + 1)).2.bestSoFar =
          if (o k).2.bestSoFar.2 < (o (k + 1)).1.2 then (o (k + 1)).1 else (o k).2.bestSoFar := hbst
        by_cases hlt : (o k).2.bestSoFar.2 < (o (k + 1)).1.2
        · rw [if_pos hlt] at hbst'
          refine ⟨Or.inr ⟨k, by omega, ha, hbst'⟩, ?_, ?_⟩
          · rw [hbst']; exact le_trans ih2 (le_of_lt hlt)
          · intro i hi' hacc
            rw [hbst']
            rcases Nat.lt_succ_iff_lt_or_eq.1 hi' with hlt' | rfl
            · exact le_trans (ih3 i hlt' hacc) (le_of_lt hlt)
            · exact le_rfl
        · rw [if_neg hlt] at hbst'
          refine ⟨?_, by rw [hbst']; exact ih2, ?_⟩
          · rw [hbst']
            rcases ih1 with h1 | ⟨i, h1, h2, h3⟩
            · exact Or.inl h1
            · exact Or.inr ⟨i, by omega, h2, h3⟩
          · intro i hi' hacc
            rw [hbst']
            rcases Nat.lt_succ_iff_lt_or_eq.1 hi' with hlt' | rfl
            · exact ih3 i hlt' hacc
            · exact le_of_not_gt hlt
      · have hbst' : (o (k + 1)).2.bestSoFar = (o k).2.bestSoFar := hbst
        refine ⟨?_, by rw [hbst']; exact ih2, ?_⟩
        · rw [hbst']
          rcases ih1 with h1 | ⟨i, h1, h2, h3⟩
          · exact Or.inl h1
          · exact Or.inr ⟨i, by omega, h2, h3⟩
        · intro i hi' hacc
          rw [hbst']
          rcases Nat.lt_succ_iff_lt_or_eq.1 hi' with hlt' | rfl
          · exact ih3 i hlt' hacc
          · have ha' : (o (i + 1)).2.isAccept = false := ha
            rw [ha'] at hacc; simp at hacc
  have hr : res = (orbit (tabuSearch mem nb app) 0 p0 (n + 1)).2.bestSoFar := hres
  obtain ⟨k1, k2, k3⟩ := key (n + 1)
  rw [hr, htr]
  refine ⟨?_, k2, ?_⟩
  · rcases k1 with k1 | ⟨i, h1, h2, h3⟩
    · exact Or.inl k1
    · exact Or.inr ⟨_, List.mem_map.2 ⟨i, List.mem_range.2 h1, rfl⟩, h2, h3⟩
  · intro q hq hacc
    obtain ⟨i, hi', rfl⟩ := List.mem_map.1 hq
    exact k3 i (List.mem_range.1 hi') hacc

/-- Without intensification and diversification (the default `moDummyIntensification` and
`moDummyDiversification`), the result is the best of all solutions visited. -/
theorem C21_best_visited [LinearOrder F] {mem : Mem (S × F) (Cand M F) W}
    (hint : ∀ w s, mem.intensify w s = s) (hdiv : ∀ w s, mem.diversify w s = s)
    {nb : Nat → S × F → List (Cand M F)} {app : M → S → S}
    {f : S → F} {cont : K → S × F → Bool × K} {cinit : S × F → K} {fuel : Nat} {x : S} {fit : Option F}
    {e : TS (S × F) (Cand M F) W} {res : S × F} {tr : List ((S × F) × TS (S × F) (Cand M F) W)} {b : Bool}
    (h : localSearch f (tabuSearch mem nb app) cont cinit fuel x fit e = some (res, tr, b)) :
    res ∈ solutions (x, fit.getD (f x)) tr ∧
    ∀ s ∈ solutions (x, fit.getD (f x)) tr, s.2 ≤ res.2 := by
  obtain ⟨g1, g2, g3⟩ := C21_best_of_moves h
  constructor
  · rcases g1 with g1 | ⟨q, hq, _, g1⟩
    · rw [g1]; simp [solutions]
    · rw [g1, solutions]; exact List.mem_cons_of_mem _ (List.mem_map.2 ⟨q, hq, rfl⟩)
  · obtain ⟨n, htr, hi, hb, hres, hsol⟩ := localSearch_orbit h
    set p0 := ((x, fit.getD (f x)), (tabuSearch mem nb app).initParam (x, fit.getD (f x)) e) with hp0
    have key : ∀ i, i < n + 2 → (orbit (tabuSearch mem nb app) 0 p0 i).1.2 ≤ res.2 := by
      intro i
      induction i with
      | zero => intro _; exact g2
      | succ i ih =>
        intro hi'
        rcases tabuSearch_step mem nb app (0 + i) (orbit (tabuSearch mem nb app) 0 p0 i) with
          ⟨ha, _, _⟩ | ⟨_, _, hs, _⟩
        · refine g3 _ ?_ ha
          rw [htr]
          exact List.mem_map.2 ⟨i, List.mem_range.2 (by omega), rfl⟩
        · have hs' : (orbit (tabuSearch mem nb app) 0 p0 (i + 1)).1 =
            (orbit (tabuSearch mem nb app) 0 p0 i).1 := by
            rw [hint, hdiv] at hs; exact hs
          rw [hs']; exact ih (by omega)
    intro s hs
    obtain ⟨i, hi', hs'⟩ := List.getElem_of_mem hs
    have hlen : (solutions (x, fit.getD (f x)) tr).length = n + 2 := by rw [htr]; simp [solutions]
    have h1 := hsol i (by omega)
    rw [List.getElem?_eq_getElem hi', hs', Option.some.injEq] at h1
    rw [h1]; exact key i (by omega)

/-- With a diversification, a solution it produces is not recorded: the search can return a solution
worse than one it visited (here the diversification jumps to 7, which has no neighbour). -/
theorem C21_diversification_not_recorded :
    ∃ (mem : Mem (Nat × Nat) (Cand Nat Nat) Unit) (nb : Nat → Nat × Nat → List (Cand Nat Nat))
      (res : Nat × Nat) (tr : List ((Nat × Nat) × TS (Nat × Nat) (Cand Nat Nat) Unit)),
      localSearch id (tabuSearch mem nb (fun m _ => m)) (fun (_ : Unit) _ => (false, ())) (fun _ => ())
        1 0 none ⟨(), (0, 0), none, false⟩ = some (res, tr, false) ∧
      ∃ q ∈ tr, res.2 < q.1.2 ∧ q.1.2 = id q.1.1 :=
  ⟨⟨fun _ w => w, fun _ _ w => w, fun _ _ w => w, fun _ _ _ => false, fun _ _ _ => false,
    fun _ s => s, fun _ _ => (7, 7)⟩, fun _ _ => [], _, _, rfl, _, List.mem_singleton.2 rfl, by decide, rfl⟩

/-! ### C22 -/

/-- One iteration of tabu search from any state. If the move is applied, it is a neighbour which is
not tabu or is aspirated, and no allowed neighbour is better; if not, no neighbour is allowed, and the
solution is the one given by the intensification and the diversification. -/
theorem C22_allowed_best [LinearOrder F] (mem : Mem (S × F) (Cand M F) W)
    (nb : Nat → S × F → List (Cand M F)) (app : M → S → S) (t : Nat) (s : S × F)
    (e : TS (S × F) (Cand M F) W) :
    let q := lsStep (tabuSearch mem nb app) t s e
    let s1 := mem.diversify e.mem (mem.intensify e.mem s)
    let allowed := fun c => mem.check e.mem s1 c = false ∨ mem.aspir e.mem s1 c = true
    (q.2.2 = true → ∃ c ∈ nb t s1, allowed c ∧ (∀ d ∈ nb t s1, allowed d → d.fit ≤ c.fit) ∧
      q.1 = (app c.mv s1.1, c.fit)) ∧
    (q.2.2 = false → (∀ c ∈ nb t s1, ¬ allowed c) ∧ q.1 = s1) := by
  intro q s1 allowed
  have hok : ∀ c, allowed c ↔ (!mem.check e.mem s1 c || mem.aspir e.mem s1 c) = true := by
    intro c; simp [allowed]
  cases h : tsSelect (fun c => !mem.check e.mem s1 c || mem.aspir e.mem s1 c) (nb t s1) with
  | none =>
    have hq : q.2.2 = false ∧ q.1 = s1 := by
      simp only [s1] at h
      simp [q, lsStep, tabuSearch, h, s1]
    refine ⟨by simp [hq.1], fun _ => ⟨?_, hq.2⟩⟩
    intro c hc
    rw [hok, (tsSelect_none _ _).1 h c hc]; simp
  | some c =>
    have hq : q.2.2 = true ∧ q.1 = (app c.mv s1.1, c.fit) := by
      simp only [s1] at h
      simp [q, lsStep, tabuSearch, h, s1, moveSel]
    obtain ⟨h1, h2, h3⟩ := tsSelect_some _ _ _ h
    refine ⟨fun _ => ⟨c, h1, (hok c).2 h2, fun d hd hd' => h3 d hd ((hok d).1 hd'), hq.2⟩, by simp [hq.1]⟩

example : ∃ q, q = lsStep (tabuSearch (W := Unit) ⟨fun _ w => w, fun _ _ w => w, fun _ _ w => w,
      fun _ _ c => decide (c.mv = 2), fun _ _ c => decide (c.fit > 100), fun _ s => s, fun _ s => s⟩
      (fun _ s => demoNb demoF s) (fun d x => x + d)) 0 (0, demoF 0) ⟨(), (0, 0), none, false⟩ ∧
    q.1 = (1, -16) ∧ q.2.2 = true := ⟨_, rfl, by decide, by decide⟩

end Paradiseo.LS
