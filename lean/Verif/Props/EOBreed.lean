/-
C93–C97: general operators, their containers, breeders.
-/
import Verif.Lemmas.EOBreed
import Verif.Props.EOSelect

namespace Paradiseo.Breed

open Paradiseo.EO (Err HowMany Ind evalFuncPtr)
open Paradiseo.Sel (rngRoulette)

variable {α G F : Type}

/-! ### Specification -/

/-- An operator tells the truth: if it returns `false` it has changed nothing. -/
def HonestMon (op : MonOp α) : Prop := ∀ k x, (op k x).1 = false → (op k x).2 = x
def HonestBin (op : BinOp α) : Prop := ∀ k x y, (op k x y).1 = false → (op k x y).2 = x
def HonestQuad (op : QuadOp α) : Prop :=
  ∀ k x y, (op k x y).1 = false → (op k x y).2.1 = x ∧ (op k x y).2.2 = y

/-- The general operators that the library builds from operators that tell the truth, nested in any
way. -/
inductive Built [Inhabited F] : GenOp (Ind G F) → Prop
  | mon {op : MonOp (Ind G F)} (h : HonestMon op) : Built (monGen op)
  | bin {op : BinOp (Ind G F)} (h : HonestBin op) : Built (binGen op)
  | selBin {op : BinOp (Ind G F)} {sel : Nat → Except Err (Ind G F)} (h : HonestBin op) :
      Built (selBinGen op sel)
  | quad {op : QuadOp (Ind G F)} (h : HonestQuad op) : Built (quadGen op)
  | seq {fuel : Nat} {ops : List (GenOp (Ind G F) × ℚ)} (h : ∀ o ∈ ops, Built o.1) :
      Built (seqGen fuel ops)
  | prop {ops : List (GenOp (Ind G F) × ℚ)} (h : ∀ o ∈ ops, Built o.1) : Built (propGen ops)

/-- The fitness of an individual, if valid, is the value of its genome. -/
def UpToDate (f : G → F) (x : Ind G F) : Prop := ∀ v, x.fitness = some v → v = f x.genome

section Stale

variable [Inhabited F]

theorem inv_mon {P : Ind G F → Prop} (hP : ∀ x : Ind G F, x.invalid = true → P x)
    {op : MonOp (Ind G F)} (h : HonestMon op) (k : Nat) {x : Ind G F} (hx : P x) :
    P (invMon op k x).2 := by
  unfold invMon
  split
  · exact hP _ rfl
  · rename_i hf
    simp only [h k x (by simpa using hf)]
    exact hx

theorem inv_bin {P : Ind G F → Prop} (hP : ∀ x : Ind G F, x.invalid = true → P x)
    {op : BinOp (Ind G F)} (h : HonestBin op) (k : Nat) {x : Ind G F} (hx : P x) (y : Ind G F) :
    P (invBin op k x y).2 := by
  unfold invBin
  split
  · exact hP _ rfl
  · rename_i hf
    simp only [h k x y (by simpa using hf)]
    exact hx

theorem inv_quad {P : Ind G F → Prop} (hP : ∀ x : Ind G F, x.invalid = true → P x)
    {op : QuadOp (Ind G F)} (h : HonestQuad op) (k : Nat) {x y : Ind G F} (hx : P x) (hy : P y) :
    P (invQuad op k x y).2.1 ∧ P (invQuad op k x y).2.2 := by
  unfold invQuad
  split
  · exact ⟨hP _ rfl, hP _ rfl⟩
  · rename_i hf
    obtain ⟨h1, h2⟩ := h k x y (by simpa using hf)
    simp only [h1, h2]
    exact ⟨hx, hy⟩

theorem built_preserves {P : Ind G F → Prop} (hP : ∀ x : Ind G F, x.invalid = true → P x)
    {g : GenOp (Ind G F)} (hg : Built g) : Preserves P g := by
  induction hg with
  | mon h =>
    intro env s s' hsel hs hrun
    simp only [monGen] at hrun
    split at hrun
    · simp at hrun
    · rename_i x s1 m h1
      simp only [Except.ok.injEq] at hrun
      subst hrun
      obtain ⟨hx, hall⟩ := deref_all hsel h1 hs
      exact mem_set_of hall (inv_mon hP h _ hx)
  | bin h =>
    intro env s s' hsel hs hrun
    simp only [binGen] at hrun
    split at hrun
    · simp at hrun
    · rename_i x s1 m h1
      split at hrun
      · simp at hrun
      · simp only [Except.ok.injEq] at hrun
        subst hrun
        obtain ⟨hx, hall⟩ := deref_all hsel h1 hs
        exact mem_set_of hall (inv_bin hP h _ hx _)
  | selBin h =>
    intro env s s' hsel hs hrun
    simp only [selBinGen] at hrun
    split at hrun
    · simp at hrun
    · rename_i x s1 m h1
      split at hrun
      · simp at hrun
      · simp only [Except.ok.injEq] at hrun
        subst hrun
        obtain ⟨hx, hall⟩ := deref_all hsel h1 hs
        exact mem_set_of hall (inv_bin hP h _ hx _)
  | quad h =>
    intro env s s' hsel hs hrun
    simp only [quadGen] at hrun
    split at hrun
    · simp at hrun
    · rename_i a s1 m h1
      obtain ⟨ha, hall⟩ := deref_all hsel h1 hs
      split at hrun
      · simp at hrun
      · rename_i b s2 m2 h2
        obtain ⟨hb, hall2⟩ := deref_all hsel h2 (by rw [next_dest]; exact hall)
        split at hrun
        · simp at hrun
        · simp only [Except.ok.injEq] at hrun
          subst hrun
          obtain ⟨p1, p2⟩ := inv_quad hP h s2.k ha hb
          exact mem_set_of (mem_set_of hall2 p1) p2
  | seq h ih =>
    intro env s s' hsel hs hrun
    exact seqOps_preserves (fun o ho => ih o ho) hsel _ _ _ _ (by simpa [St.reserve] using hs) hrun
  | prop h ih =>
    intro env s s' hsel hs hrun
    simp only [propGen] at hrun
    split at hrun
    · simp at hrun
    · split at hrun
      · simp at hrun
      · rename_i i op rate hi
        split at hrun
        · simp at hrun
        · rename_i s1 h1
          simp only [Except.ok.injEq] at hrun
          subst hrun
          rw [next_dest]
          exact ih (op, rate) (List.mem_of_getElem? hi) env _ s1 hsel
            (by simpa [St.reserve] using hs) h1

/-! ### C93: no stale fitness -/

theorem breedLoop_preserves {P : Ind G F → Prop} {env : Env (Ind G F)} {op : GenOp (Ind G F)}
    (hg : Preserves P op) (hsel : ∀ t x, env.sel t = .ok x → P x) (target n : Nat)
    (s s' : St (Ind G F)) (hs : ∀ x ∈ s.dest, P x) (h : breedLoop env op target n s = .ok s') :
    ∀ x ∈ s'.dest, P x := by
  induction n generalizing s with
  | zero => simp [breedLoop] at h
  | succ n ih =>
    simp only [breedLoop] at h
    split at h
    · split at h
      · simp at h
      · rename_i s1 h1
        refine ih _ ?_ h
        rw [next_dest]
        exact hg env _ s1 hsel (by simpa [St.reserve] using hs) h1
    · simp only [Except.ok.injEq] at h
      subst h
      exact hs

/-- Whatever general operator is built from truthful operators and the containers of the library, the
general breeder gives no offspring with a wrong fitness: if the fitness of the parents selected is up to
date, so is that of all the offspring; and an offspring with a valid fitness is an exact copy of one of
the parents. -/
theorem C93_no_stale_fitness (f : G → F) {op : GenOp (Ind G F)} (hop : Built op) (fuel : Nat)
    (env : Env (Ind G F)) (h : HowMany) (parents : List (Ind G F)) (cap : Nat)
    (hsel : ∀ t x, env.sel t = .ok x → x ∈ parents) (off : List (Ind G F))
    (hrun : generalBreeder fuel env h op parents cap = .ok off) :
    ((∀ x ∈ parents, UpToDate f x) → ∀ x ∈ off, UpToDate f x) ∧
    ∀ x ∈ off, x.invalid = false → x ∈ parents := by
  have main : ∀ P : Ind G F → Prop, (∀ x : Ind G F, x.invalid = true → P x) →
      (∀ x ∈ parents, P x) → ∀ x ∈ off, P x := by
    intro P hP hpar
    unfold generalBreeder at hrun
    split at hrun
    · simp at hrun
    · split at hrun
      · simp at hrun
      · rename_i s hs
        simp only [Except.ok.injEq] at hrun
        subst hrun
        intro x hx
        exact breedLoop_preserves (built_preserves hP hop) (fun t x hx => hpar x (hsel t x hx)) _ _ _ _
          (by simp [startSt]) hs x (List.mem_of_mem_take hx)
  constructor
  · intro hpar
    refine main (UpToDate f) (fun x hx v hv => ?_) hpar
    simp only [Ind.invalid] at hx
    simp [Ind.fitness, hx] at hv
  · intro x hx hval
    have := main (fun x => x.invalid = true ∨ x ∈ parents) (fun x h => Or.inl h)
      (fun x h => Or.inr h) x hx
    simpa [hval] using this

/-- A nested operator built from a mutation and a crossover that tell the truth. -/
example : Built (G := Nat) (F := Nat)
    (seqGen 9 [(propGen [(quadGen quadClone, 1), (monGen fun _ x => (true, { x with genome := 1 }), 1)], 1),
      (monGen monClone, 1 / 2)]) := by
  refine .seq fun o ho => ?_
  simp only [List.mem_cons, List.not_mem_nil, or_false] at ho
  rcases ho with rfl | rfl
  · refine .prop fun o ho => ?_
    simp only [List.mem_cons, List.not_mem_nil, or_false] at ho
    rcases ho with rfl | rfl
    · exact .quad fun _ _ _ _ => ⟨rfl, rfl⟩
    · exact .mon fun _ _ h => by simp at h
  · exact .mon fun _ _ _ => rfl

/-- The hypothesis that operators tell the truth is needed: a mutation that returns `false` although it
changes the genome gives a valid but wrong fitness. -/
theorem C93_truth_needed : ∃ off : List (Ind Nat Nat),
    generalBreeder 5 ⟨fun _ => .ok ⟨3, 3, false⟩, fun _ => 0, fun n => n⟩ ⟨0, 1⟩
      (monGen fun _ x => (false, { x with genome := 7 })) [⟨3, 3, false⟩] 0 = .ok off ∧
    ∃ x ∈ off, ¬ UpToDate id x := by
  refine ⟨[⟨7, 3, false⟩], rfl, ⟨7, 3, false⟩, by simp, ?_⟩
  intro h
  have := h 3 rfl
  simp at this

/-! ### C94: the general breeder gives the number wanted -/

/-- The operator always produces: started behind the last offspring, with a selector that always
answers, it adds offspring and stops at or behind the last one. -/
def Productive (g : GenOp α) : Prop :=
  ∀ (env : Env α) (s : St α), (∀ t, ∃ x, env.sel t = .ok x) → (∀ k, 0 ≤ env.u k ∧ env.u k < 1) →
    s.cur = s.dest.length → ∃ s', g.call env s = .ok s' ∧ s'.next.cur = s'.dest.length ∧
      s.dest.length < s'.dest.length

omit [Inhabited F] in
theorem breedLoop_length {env : Env α} {op : GenOp α} (target n : Nat) (s s' : St α)
    (h : breedLoop env op target n s = .ok s') : target ≤ s'.dest.length := by
  induction n generalizing s with
  | zero => simp [breedLoop] at h
  | succ n ih =>
    simp only [breedLoop] at h
    split at h
    · split at h
      · simp at h
      · exact ih _ h
    · rename_i hl
      simp only [Except.ok.injEq] at h
      subst h
      omega

omit [Inhabited F] in
/-- Whenever the breeder returns, it returns exactly the number of offspring wanted. -/
theorem C94_size (fuel : Nat) (env : Env α) (h : HowMany) (op : GenOp α) (parents : List α) (cap : Nat)
    (off : List α) (hrun : generalBreeder fuel env h op parents cap = .ok off) :
    h.eval parents.length = .ok off.length := by
  unfold generalBreeder at hrun
  split at hrun
  · simp at hrun
  · rename_i target ht
    split at hrun
    · simp at hrun
    · rename_i s hs
      simp only [Except.ok.injEq] at hrun
      subst hrun
      rw [ht, List.length_take, min_eq_left (breedLoop_length _ _ _ _ hs)]

omit [Inhabited F] in
/-- With an operator that always produces, the breeder returns. -/
theorem C94_returns {op : GenOp α} (hop : Productive op) (env : Env α)
    (hsel : ∀ t, ∃ x, env.sel t = .ok x) (hu : ∀ k, 0 ≤ env.u k ∧ env.u k < 1) (h : HowMany)
    (parents : List α) (cap target : Nat) (ht : h.eval parents.length = .ok target) :
    ∃ off, generalBreeder (target + 1) env h op parents cap = .ok off ∧ off.length = target := by
  have key : ∀ n (s : St α), s.cur = s.dest.length → target ≤ n + s.dest.length →
      ∃ s', breedLoop env op target (n + 1) s = .ok s' := by
    intro n
    induction n with
    | zero =>
      intro s _ hn
      exact ⟨s, by simp only [breedLoop, show ¬ (s.dest.length < target) by omega, if_false]⟩
    | succ n ih =>
      intro s hs hn
      by_cases hl : s.dest.length < target
      · obtain ⟨s1, e1, e2, e3⟩ := hop env s hsel hu hs
        obtain ⟨s', e4⟩ := ih s1.next (by rw [next_dest]; exact e2) (by rw [next_dest]; omega)
        exact ⟨s', by rw [breedLoop]; simp only [hl, if_true, e1, e4]⟩
      · exact ⟨s, by simp only [breedLoop, hl, if_false]⟩
  obtain ⟨s', hs'⟩ := key target (startSt parents cap) rfl (by simp [startSt])
  have hrun : generalBreeder (target + 1) env h op parents cap = .ok (s'.dest.take target) := by
    simp only [generalBreeder, ht, hs']
  refine ⟨_, hrun, ?_⟩
  have := C94_size _ _ _ _ _ _ _ hrun
  rw [ht, Except.ok.injEq] at this
  exact this.symm

/-- Operators on one individual, on one and a constant one, and on two always produce. -/
theorem C94_simple_operators (m : MonOp (Ind G F)) (b : BinOp (Ind G F)) (q : QuadOp (Ind G F)) :
    Productive (monGen m) ∧ Productive (binGen b) ∧ Productive (quadGen q) := by
  refine ⟨?_, ?_, ?_⟩
  · intro env s hsel _ hs
    obtain ⟨x, hx⟩ := hsel s.t
    obtain ⟨cap, h1⟩ := mon_end m (s := s.reserve 1) (env := env) hs hx
    refine ⟨_, h1, ?_, ?_⟩
    · rw [next_cur _ (by simp)]
      simp
    · simp [St.reserve]
  · intro env s hsel _ hs
    obtain ⟨x, hx⟩ := hsel s.t
    obtain ⟨y, hy⟩ := hsel (s.t + 1)
    obtain ⟨cap, h1⟩ := bin_end b (s := s.reserve 1) (env := env) hs hx hy
    refine ⟨_, h1, ?_, ?_⟩
    · rw [next_cur _ (by simp)]
      simp
    · simp [St.reserve]
  · intro env s hsel _ hs
    obtain ⟨x, hx⟩ := hsel s.t
    obtain ⟨y, hy⟩ := hsel (s.t + 1)
    have h1 := quad_end q (s := s.reserve 2) (env := env) hs (by simp [St.reserve]) hx hy
    refine ⟨_, h1, ?_, ?_⟩
    · rw [next_cur _ (by simp)]
      simp
    · simp [St.reserve]

omit [Inhabited F] in
/-- A proportional choice between operators that always produce always produces, if all rates are
non-negative and not all zero; if all are zero the wheel reads past the end. -/
theorem C94_proportional {ops : List (GenOp α × ℚ)} (hops : ∀ o ∈ ops, Productive o.1)
    (hr : ∀ o ∈ ops, 0 ≤ o.2) :
    (0 < (ops.map Prod.snd).sum → Productive (propGen ops)) ∧
    ((ops.map Prod.snd).sum = 0 → ∀ env s, (propGen ops).call env s = .error .ub) := by
  have hr' : ∀ a ∈ ops.map Prod.snd, 0 ≤ a := by
    intro a ha
    obtain ⟨o, ho, rfl⟩ := List.mem_map.mp ha
    exact hr o ho
  constructor
  · intro hpos env s hsel hu hs
    obtain ⟨i, a, hi, ha, _⟩ := Sel.C54_rng_wheel_total hr' hpos (hu s.k).1 (hu s.k).2
    obtain ⟨o, ho, _⟩ := Option.map_eq_some_iff.mp (List.getElem?_map .. ▸ ha)
    obtain ⟨s', e1, e2, e3⟩ := hops o (List.mem_of_getElem? ho) env
      { s.reserve (maxProduction ops) with k := s.k + 1 } hsel hu (by simpa [St.reserve] using hs)
    refine ⟨s'.next, ?_, ?_, ?_⟩
    · simp only [GenOp.call, propGen, St.reserve] at e1 hi ⊢
      simp only [hi, ho]
      simp only [GenOp.call, St.reserve, e1]
    · rw [next_cur _ (by rw [next_dest, e2]), next_dest, e2]
      omega
    · rw [next_dest]
      simpa [St.reserve] using e3
  · intro h0 env s
    have := Sel.C54_rng_wheel_beyond hr' (total := 0) (u := env.u s.k) (by simp [h0])
    simp only [GenOp.call, propGen, St.reserve, this]

/-- A sequential container none of whose operators ever fires (all rates zero) never produces
anything: the breeder never returns if at least one offspring is wanted. -/
theorem C94_sequential_never_returns (ops : List (GenOp α × ℚ)) (hr : ∀ o ∈ ops, o.2 ≤ 0)
    (env : Env α) (hu : ∀ k, 0 ≤ env.u k) (h : HowMany) (parents : List α) (cap target : Nat)
    (ht : h.eval parents.length = .ok target) (hpos : 0 < target) (fuel fuel' : Nat) :
    generalBreeder fuel env h (seqGen fuel' ops) parents cap = .error .fuel := by
  have hloop : ∀ (o : GenOp α × ℚ) (n : Nat) (s : St α), o.2 ≤ 0 → s.cur = s.dest.length →
      seqLoop env o.2 o.1 n s = .error .fuel ∨
      ∃ k, seqLoop env o.2 o.1 n s = .ok { s with k := k } := by
    intro o n s ho hs
    cases n with
    | zero => exact Or.inl rfl
    | succ n =>
      right
      refine ⟨s.k + 1, ?_⟩
      have := hu s.k
      simp only [seqLoop, show ¬ (env.u s.k < o.2) by linarith, if_false, St.next, St.exhausted, hs,
        if_true, decide_true]
  have hops : ∀ (l : List (GenOp α × ℚ)) (s : St α), (∀ o ∈ l, o.2 ≤ 0) → s.cur = s.dest.length →
      seqOps fuel' env s.dest.length l s = .error .fuel ∨
      ∃ k, seqOps fuel' env s.dest.length l s = .ok { s with k := k } := by
    intro l
    induction l with
    | nil => intro s _ _; exact Or.inr ⟨s.k, rfl⟩
    | cons o l ih =>
      intro s hl hs
      obtain ⟨op, rate⟩ := o
      have hst : { s with cur := s.dest.length } = s := by rw [← hs]
      simp only [seqOps, hst]
      rcases hloop (op, rate) fuel' s (hl _ (by simp)) hs with he | ⟨k, he⟩
      · left; simp only at he; rw [he]
      · simp only at he
        rw [he]
        simp only
        rcases ih { s with k := k } (fun o ho => hl o (by simp [ho])) hs with he2 | ⟨k2, he2⟩
        · left; exact he2
        · right; exact ⟨k2, he2⟩
  have hmain : ∀ (n : Nat) (s : St α), s.dest = [] → s.cur = 0 →
      breedLoop env (seqGen fuel' ops) target n s = .error .fuel := by
    intro n
    induction n with
    | zero => intro s _ _; rfl
    | succ n ih =>
      intro s hd hc
      have hlt : s.dest.length < target := by rw [hd]; exact hpos
      simp only [breedLoop, hlt, if_true, GenOp.call, seqGen]
      have := hops ops ((s.reserve (maxProduction ops)).reserve (maxProduction ops)) hr
        (by simp [St.reserve, hd, hc])
      simp only [St.reserve, hd, List.length_nil, zero_add] at this
      simp only [St.reserve, hd, hc, List.length_nil, zero_add]
      rcases this with he | ⟨k, he⟩
      · simp only [hc, hd] at he
        rw [he]
      · simp only [hc, hd] at he
        rw [he]
        exact ih _ rfl rfl
  simp only [generalBreeder, ht, hmain fuel (startSt parents cap) rfl rfl]

end Stale

end Paradiseo.Breed
