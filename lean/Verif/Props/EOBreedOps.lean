/-
C95–C97: the standard general operators, the one-to-one breeder and the transformation of the simple
genetic algorithm.
-/
import Verif.Props.EOBreed

namespace Paradiseo.Breed

open Paradiseo.EO (Err HowMany Ind evalFuncPtr)
open Paradiseo.Sel (rngRoulette)

variable {α G F : Type}

/-! ### Specification -/

/-- One individual exposed to a mutation with probability `p`, at the random event `k`: the individual
afterwards and the number of the next event. -/
def maybeMutate [Inhabited F] (u : Nat → ℚ) (p : ℚ) (m : MonOp (Ind G F)) (k : Nat) (x : Ind G F) :
    Ind G F × Nat :=
  if u k < p then ((invMon m (k + 1) x).2, k + 2) else (x, k + 1)

/-- Two individuals crossed with probability `p`, at the random events from `k` on. -/
def maybeCross [Inhabited F] (u : Nat → ℚ) (p : ℚ) (q : QuadOp (Ind G F)) (k : Nat) (x y : Ind G F) :
    Ind G F × Ind G F :=
  if u k < p then (invQuad q (k + 1) x y).2 else (x, y)

section SGA

variable [Inhabited F]

theorem mutate_turn (m : MonOp (Ind G F)) {env : Env (Ind G F)} (p : ℚ) {s : St (Ind G F)}
    (hs : s.cur < s.dest.length) :
    (if env.u s.k < p then (monGen m).apply env { s with k := s.k + 1 }
      else .ok { s with k := s.k + 1 }) = .ok { s with
        dest := s.dest.set s.cur (maybeMutate env.u p m s.k s.dest[s.cur]).1
        k := (maybeMutate env.u p m s.k s.dest[s.cur]).2 } := by
  unfold maybeMutate
  split
  · rw [mon_mid m (s := { s with k := s.k + 1 }) hs]
  · simp

theorem mutate_two (m : MonOp (Ind G F)) {env : Env (Ind G F)} (p : ℚ) (n : Nat) (l : List (Ind G F))
    (a b : Ind G F) (cap t k : Nat) :
    seqLoop env p (monGen m) (n + 2) ⟨l ++ [a, b], l.length, cap, t, k⟩ =
      .ok ⟨l ++ [(maybeMutate env.u p m k a).1,
          (maybeMutate env.u p m (maybeMutate env.u p m k a).2 b).1], l.length + 2, cap, t,
          (maybeMutate env.u p m (maybeMutate env.u p m k a).2 b).2⟩ := by
  have t1 := mutate_turn m (env := env) p (s := ⟨l ++ [a, b], l.length, cap, t, k⟩) (by simp)
  rw [seqLoop_more _ t1 (by rw [next_cur _ (by simp)]; simp)]
  simp only [St.next, List.length_set, List.length_append, List.length_cons, List.length_nil, zero_add,
    show ¬ (l.length = l.length + (1 + 1)) by omega, if_false]
  have hset : (l ++ [a, b]).set l.length
      (maybeMutate env.u p m k (l ++ [a, b])[l.length]).1 = l ++ [(maybeMutate env.u p m k a).1, b] := by
    simp [List.set_append]
  have hget : (l ++ [a, b])[l.length] = a := by simp
  rw [hset, hget]
  have t2 := mutate_turn m (env := env) p (s := ⟨l ++ [(maybeMutate env.u p m k a).1, b], l.length + 1,
    cap, t, (maybeMutate env.u p m k a).2⟩) (by simp)
  rw [seqLoop_last _ t2 (by rw [next_cur _ (by simp)]; simp)]
  have hget2 : (l ++ [(maybeMutate env.u p m k a).1, b])[l.length + 1]'(by simp) = b := by simp
  simp only [hget2]
  simp [St.next, List.set_append]

theorem cross_turn (q : QuadOp (Ind G F)) {p : ℚ} (hp : p ≤ 1) {env : Env (Ind G F)}
    {s : St (Ind G F)} (hu : ∀ k, 0 ≤ env.u k ∧ env.u k < 1) (hs : s.cur = s.dest.length)
    {x y : Ind G F} (hx : env.sel s.t = .ok x) (hy : env.sel (s.t + 1) = .ok y) :
    (propGen [(quadGen q, p), (quadGen quadClone, 1 - p)]).apply env s =
      .ok ⟨s.dest ++ [(maybeCross env.u p q s.k x y).1, (maybeCross env.u p q s.k x y).2],
        s.dest.length + 2, max s.cap (s.dest.length + 2), s.t + 2, s.k + 2⟩ := by
  have hr := roulette_two (hu s.k).1 (hu s.k).2 hp
  simp only [propGen, List.map_cons, List.map_nil, hr]
  by_cases hc : env.u s.k < p
  · have hq := quad_end q (env := env) (s := St.reserve { s with k := s.k + 1 } 2) hs
      (by simp [St.reserve]) hx hy
    simp only [hc, if_true, List.getElem?_cons_zero, GenOp.call]
    rw [show (quadGen q).maxProd = 2 from rfl, hq]
    simp [St.next, St.reserve, maybeCross, hc]
  · have hq := quad_end (quadClone : QuadOp (Ind G F)) (env := env)
      (s := St.reserve { s with k := s.k + 1 } 2) hs (by simp [St.reserve]) hx hy
    simp only [hc, if_false, List.getElem?_cons_succ, List.getElem?_cons_zero, GenOp.call]
    rw [show (quadGen (quadClone : QuadOp (Ind G F))).maxProd = 2 from rfl, hq]
    simp [St.next, St.reserve, maybeCross, hc, invQuad, quadClone]

/-! ### C95: what the standard operators produce -/

/-- The operator of the simple genetic algorithm (eoSGAGenOp) selects two parents, crosses them with
probability `pCross`, then exposes each of the two to the mutation with probability `pMut`, and appends
exactly the two; nothing else is touched. -/
theorem C95_sga_offspring (cross : QuadOp (Ind G F)) {pCross : ℚ} (hp : pCross ≤ 1)
    (mutn : MonOp (Ind G F)) (pMut : ℚ) (n : Nat) (env : Env (Ind G F)) (s : St (Ind G F))
    (hu : ∀ k, 0 ≤ env.u k ∧ env.u k < 1) (hs : s.cur = s.dest.length) {x y : Ind G F}
    (hx : env.sel s.t = .ok x) (hy : env.sel (s.t + 1) = .ok y) :
    ∃ cap k : Nat, (sgaGen (n + 2) cross pCross mutn pMut).call env s = .ok
      ⟨s.dest ++ [(maybeMutate env.u pMut mutn (s.k + 3) (maybeCross env.u pCross cross (s.k + 1) x y).1).1,
        (maybeMutate env.u pMut mutn
          (maybeMutate env.u pMut mutn (s.k + 3) (maybeCross env.u pCross cross (s.k + 1) x y).1).2
          (maybeCross env.u pCross cross (s.k + 1) x y).2).1],
        s.dest.length + 2, cap, s.t + 2, k⟩ := by
  have ht := cross_turn cross hp (env := env) (s := ⟨s.dest, s.cur, max (max s.cap (s.dest.length + 2))
    (s.dest.length + 2), s.t, s.k + 1⟩) hu hs hx hy
  have h1 := seqLoop_last (env := env) (rate := 1)
    (op := propGen [(quadGen cross, pCross), (quadGen quadClone, 1 - pCross)])
    (s := ⟨s.dest, s.cur, max (max s.cap (s.dest.length + 2)) (s.dest.length + 2), s.t, s.k⟩) (n + 1)
    (s1 := _) (by rw [if_pos (hu s.k).2]; exact ht) (by rw [next_cur _ (by simp)]; simp)
  refine ⟨max (max (max s.cap (s.dest.length + 2)) (s.dest.length + 2)) (s.dest.length + 2),
    (maybeMutate env.u pMut mutn
      (maybeMutate env.u pMut mutn (s.k + 3) (maybeCross env.u pCross cross (s.k + 1) x y).1).2
      (maybeCross env.u pCross cross (s.k + 1) x y).2).2, ?_⟩
  simp only [GenOp.call, sgaGen, seqGen, seqOps]
  rw [show maxProduction [(propGen [(quadGen cross, pCross), (quadGen quadClone, 1 - pCross)], (1 : ℚ)),
    (monGen mutn, pMut)] = 2 from rfl]
  simp only [St.reserve]
  rw [h1]
  simp only [St.next, List.length_append, List.length_cons, List.length_nil, zero_add,
    Nat.reduceAdd, if_true, hs]
  rw [mutate_two]

/-- Hence the breeder with this operator always gives the number of offspring wanted (C94). -/
theorem C95_sga_productive (cross : QuadOp (Ind G F)) {pCross : ℚ} (hp : pCross ≤ 1)
    (mutn : MonOp (Ind G F)) (pMut : ℚ) (n : Nat) :
    Productive (sgaGen (n + 2) cross pCross mutn pMut) := by
  intro env s hsel hu hs
  obtain ⟨x, hx⟩ := hsel s.t
  obtain ⟨y, hy⟩ := hsel (s.t + 1)
  obtain ⟨cap, k, h⟩ := C95_sga_offspring cross hp mutn pMut n env s hu hs hx hy
  refine ⟨_, h, ?_, ?_⟩
  · rw [next_cur _ (by simp)]
    simp
  · simp

/-- The proportional genetic operator does one thing per call: one turn of a wheel with the three
weights decides whether two selected individuals are crossed over, one is mutated, or one is copied
unchanged with its fitness. -/
theorem C95_prop_ga (cross : QuadOp (Ind G F)) (mutn : MonOp (Ind G F)) {wClone wCross wMut : ℚ}
    (h1 : 0 ≤ wClone) (h2 : 0 ≤ wCross) (h3 : 0 ≤ wMut) (hT : 0 < wCross + wMut + wClone)
    (env : Env (Ind G F)) (s : St (Ind G F)) (hu : ∀ k, 0 ≤ env.u k ∧ env.u k < 1)
    (hs : s.cur = s.dest.length) {x y : Ind G F}
    (hx : env.sel s.t = .ok x) (hy : env.sel (s.t + 1) = .ok y) :
    ∃ s', (propGAGen wClone cross wCross mutn wMut).call env s = .ok s' ∧
      s'.dest = s.dest ++
        (if env.u s.k * (wCross + wMut + wClone) < wCross then
          [(invQuad cross (s.k + 1) x y).2.1, (invQuad cross (s.k + 1) x y).2.2]
        else if env.u s.k * (wCross + wMut + wClone) < wCross + wMut then
          [(invMon mutn (s.k + 1) x).2]
        else [x]) := by
  have hw : ∀ a ∈ [wCross, wMut, wClone], (0 : ℚ) ≤ a := by
    intro a ha
    simp only [List.mem_cons, List.not_mem_nil, or_false] at ha
    rcases ha with rfl | rfl | rfl <;> assumption
  have hsum : [wCross, wMut, wClone].sum = wCross + wMut + wClone := by
    simp [add_assoc]
  have hwheel := fun i => Sel.C54_rng_wheel hw (by rw [hsum]; exact hT) (hu s.k).1 i
  rw [hsum] at hwheel
  have hupos : 0 ≤ env.u s.k * (wCross + wMut + wClone) := mul_nonneg (hu s.k).1 hT.le
  have hult : env.u s.k * (wCross + wMut + wClone) < wCross + wMut + wClone := by
    have := mul_lt_mul_of_pos_right (hu s.k).2 hT
    linarith
  by_cases c1 : env.u s.k * (wCross + wMut + wClone) < wCross
  · have hi := (hwheel 0).mpr ⟨by simp, by simpa using hupos, by simpa using c1⟩
    have hq := quad_end cross (env := env)
      (s := ⟨s.dest, s.cur, max (max s.cap (s.dest.length + 2)) (s.dest.length + 2), s.t, s.k + 1⟩)
      hs (by simp) hx hy
    simp only [GenOp.call, propGAGen, propGen, St.reserve, List.map_cons, List.map_nil, hi,
      List.getElem?_cons_zero]
    simp only [quadGen] at hq ⊢
    rw [hq]
    exact ⟨_, rfl, by rw [next_dest]; simp [c1]⟩
  · have c1' := not_lt.mp c1
    by_cases c2 : env.u s.k * (wCross + wMut + wClone) < wCross + wMut
    · have hi := (hwheel 1).mpr ⟨by simp, by simpa using c1', by simpa using c2⟩
      obtain ⟨cap, hq⟩ := mon_end mutn (env := env)
        (s := ⟨s.dest, s.cur, max (max s.cap (s.dest.length + 2)) (s.dest.length + 1), s.t, s.k + 1⟩)
        hs hx
      simp only [GenOp.call, propGAGen, propGen, St.reserve, List.map_cons, List.map_nil, hi,
        List.getElem?_cons_succ, List.getElem?_cons_zero]
      simp only [monGen] at hq ⊢
      rw [hq]
      exact ⟨_, rfl, by rw [next_dest]; simp [c1, c2]⟩
    · have c2' := not_lt.mp c2
      have hi := (hwheel 2).mpr ⟨by simp, by simpa using c2', by simp; linarith⟩
      obtain ⟨cap, hq⟩ := mon_end (monClone : MonOp (Ind G F)) (env := env)
        (s := ⟨s.dest, s.cur, max (max s.cap (s.dest.length + 2)) (s.dest.length + 1), s.t, s.k + 1⟩)
        hs hx
      simp only [GenOp.call, propGAGen, propGen, St.reserve, List.map_cons, List.map_nil, hi,
        List.getElem?_cons_succ, List.getElem?_cons_zero]
      simp only [monGen] at hq ⊢
      rw [hq]
      exact ⟨_, rfl, by rw [next_dest]; simp [c1, c2, invMon, monClone]⟩

/-- Without crossover and mutation the offspring are the two parents, with their fitness. -/
theorem C95_sga_no_rates (cross : QuadOp (Ind G F)) (mutn : MonOp (Ind G F)) (n : Nat)
    (env : Env (Ind G F)) (s : St (Ind G F)) (hu : ∀ k, 0 ≤ env.u k ∧ env.u k < 1)
    (hs : s.cur = s.dest.length) {x y : Ind G F}
    (hx : env.sel s.t = .ok x) (hy : env.sel (s.t + 1) = .ok y) :
    ∃ s', (sgaGen (n + 2) cross 0 mutn 0).call env s = .ok s' ∧ s'.dest = s.dest ++ [x, y] := by
  obtain ⟨cap, k, h⟩ := C95_sga_offspring cross (by norm_num : (0 : ℚ) ≤ 1) mutn 0 n env s hu hs hx hy
  refine ⟨_, h, ?_⟩
  have h0 : ∀ k, ¬ env.u k < 0 := fun k => not_lt.mpr (hu k).1
  simp [maybeMutate, maybeCross, h0]

/-- A sequence of two crossovers may produce more than the container announces: if the first one acts,
the second skips the first child and acts on the second one, the vector of offspring is reallocated while
the crossover holds a reference to an element (undefined behaviour).  This happens for any operators,
any rates strictly between 0 and 1 for the second, when the space for the offspring is just what was
reserved. -/
theorem C95_two_crossovers_overrun (q1 q2 : QuadOp (Ind G F)) {r1 r2 : ℚ} (h1 : 0 < r1) (h2 : 0 < r2)
    (h2' : r2 < 1) (n : Nat) (s : St (Ind G F)) (hs : s.cur = s.dest.length)
    (hcap : s.cap ≤ s.dest.length + 2) (sel : Nat → Except Err (Ind G F))
    (hsel : ∀ t, ∃ x, sel t = .ok x) (grow : Nat → Nat) :
    ∃ u : Nat → ℚ, (∀ k, 0 ≤ u k ∧ u k < 1) ∧
      (seqGen (n + 2) [(quadGen q1, r1), (quadGen q2, r2)]).call ⟨sel, u, grow⟩ s = .error .ub := by
  obtain ⟨x, hx⟩ := hsel s.t
  obtain ⟨y, hy⟩ := hsel (s.t + 1)
  obtain ⟨z, hz⟩ := hsel (s.t + 2)
  refine ⟨fun k => if k = s.k + 2 then r2 else 0, fun k => ?_, ?_⟩
  · dsimp only
    split
    · exact ⟨h2.le, h2'⟩
    · norm_num
  set env : Env (Ind G F) := ⟨sel, fun k => if k = s.k + 2 then r2 else 0, grow⟩ with henv
  have hq := quad_end q1 (env := env) (s := ⟨s.dest, s.cur, s.dest.length + 2, s.t, s.k + 1⟩) hs
    (by simp) hx hy
  have hl1 := seqLoop_last (env := env) (rate := r1) (op := quadGen q1)
    (s := ⟨s.dest, s.cur, s.dest.length + 2, s.t, s.k⟩) (n + 1)
    (by rw [if_pos (by simpa [henv] using h1)]; exact hq) (by rw [next_cur _ (by simp)]; simp)
  have hl2 := seqLoop_more (env := env) (rate := r2) (op := quadGen q2)
    (s := ⟨s.dest ++ [(invQuad q1 (s.k + 1) x y).2.1, (invQuad q1 (s.k + 1) x y).2.2], s.dest.length,
      s.dest.length + 2, s.t + 2, s.k + 2⟩) (n + 1)
    (by rw [if_neg (by simp [henv])]) (by rw [next_cur _ (by simp)]; simp)
  have hm : max (max s.cap (s.dest.length + 2)) (s.dest.length + 2) = s.dest.length + 2 := by omega
  simp only [GenOp.call, seqGen, seqOps]
  rw [show maxProduction [(quadGen q1, r1), (quadGen q2, r2)] = 2 from rfl]
  simp only [St.reserve, hm]
  rw [hl1]
  simp only [St.next, List.length_append, List.length_cons, List.length_nil, zero_add,
    Nat.reduceAdd, if_true, hs, show ¬ (s.dest.length + 1 = s.dest.length + 2) by omega, if_false]
  rw [hl2]
  simp only [St.next, List.length_append, List.length_cons, List.length_nil, zero_add,
    Nat.reduceAdd, if_true, hs, show ¬ (s.dest.length = s.dest.length + 2) by omega, if_false]
  have hlt : env.u (s.k + 3) < r2 := by simp [henv, h2]
  rw [seqLoop]
  simp only [hlt, if_true, quadGen]
  rw [deref_mid (by simp)]
  simp only [St.next, List.length_append, List.length_cons, List.length_nil, zero_add,
    Nat.reduceAdd, show ¬ (s.dest.length + 1 = s.dest.length + 2) by omega, if_false]
  rw [deref_end (by simp) (x := z) hz]
  simp

/-- A proportional choice inside a sequence moves one place too far: after a crossover, a mutation chosen
by a proportional container is applied to the first child only, whatever the draws. -/
theorem C95_nested_choice_skips (q : QuadOp (Ind G F)) (m : MonOp (Ind G F)) {w : ℚ} (hw : 0 < w) (n : Nat)
    (env : Env (Ind G F)) (s : St (Ind G F)) (hu : ∀ k, 0 ≤ env.u k ∧ env.u k < 1)
    (hs : s.cur = s.dest.length) {x y : Ind G F}
    (hx : env.sel s.t = .ok x) (hy : env.sel (s.t + 1) = .ok y) :
    ∃ s', (seqGen (n + 1) [(quadGen q, 1), (propGen [(monGen m, w)], 1)]).call env s = .ok s' ∧
      s'.dest = s.dest ++ [(invMon m (s.k + 4) (invQuad q (s.k + 1) x y).2.1).2,
        (invQuad q (s.k + 1) x y).2.2] := by
  have hq := quad_end q (env := env) (s := ⟨s.dest, s.cur, max (max s.cap (s.dest.length + 2))
    (s.dest.length + 2), s.t, s.k + 1⟩) hs (by simp) hx hy
  have hl1 := seqLoop_last (env := env) (rate := 1) (op := quadGen q)
    (s := ⟨s.dest, s.cur, max (max s.cap (s.dest.length + 2)) (s.dest.length + 2), s.t, s.k⟩) n
    (by rw [if_pos (hu s.k).2]; exact hq) (by rw [next_cur _ (by simp)]; simp)
  simp only [GenOp.call, seqGen, seqOps]
  rw [show maxProduction [(quadGen q, (1 : ℚ)), (propGen [(monGen m, w)], 1)] = 2 from rfl]
  simp only [St.reserve]
  rw [hl1]
  simp only [St.next, List.length_append, List.length_cons, List.length_nil, zero_add,
    Nat.reduceAdd, if_true, hs, show ¬ (s.dest.length + 1 = s.dest.length + 2) by omega, if_false]
  have hr := roulette_one (hu (s.k + 3)).1 (hu (s.k + 3)).2 hw
  rw [seqLoop, if_pos (hu _).2]
  simp only [propGen, List.map_cons, List.map_nil, hr, List.getElem?_cons_zero, GenOp.call]
  rw [mon_mid m (by simp [St.reserve])]
  simp [St.reserve, St.next, St.exhausted, List.set_append]

end SGA

/-- A breeder with the operator of the simple genetic algorithm: five offspring of two parents. -/
example : (generalBreeder 9 ⟨fun t => .ok (if t % 2 = 0 then ⟨1, 10, false⟩ else ⟨2, 20, false⟩),
    fun k => if k % 2 = 0 then 0 else 1 / 2, fun n => 2 * n⟩ ⟨0, 5⟩
    (sgaGen 2 (fun _ x y => (true, { x with genome := y.genome }, { y with genome := x.genome })) 1
      (fun _ x => (true, { x with genome := x.genome + 100 })) (1 / 3)) [⟨1, 10, false⟩, ⟨2, 20, false⟩] 0 :
      Except Err (List (Ind Nat Nat))).toOption.map List.length = some 5 := by
  decide +kernel

/-! ### C96: one-to-one breeder -/

section OneToOne

variable [Inhabited F]

theorem built_forward {g : GenOp (Ind G F)} (hg : Built g) : Forward g := by
  induction hg with
  | mon h =>
    intro env s s' hs hrun
    simp only [monGen] at hrun
    split at hrun
    · simp at hrun
    · rename_i x s1 m h1
      simp only [Except.ok.injEq] at hrun
      subst hrun
      obtain ⟨g1, _, g3, g4, _⟩ := deref_ok h1
      have := (List.getElem?_eq_some_iff.mp g3).1
      simp only [List.length_set]
      omega
  | bin h =>
    intro env s s' hs hrun
    simp only [binGen] at hrun
    split at hrun
    · simp at hrun
    · rename_i x s1 m h1
      split at hrun
      · simp at hrun
      · simp only [Except.ok.injEq] at hrun
        subst hrun
        obtain ⟨g1, _, g3, g4, _⟩ := deref_ok h1
        have := (List.getElem?_eq_some_iff.mp g3).1
        simp only [List.length_set]
        omega
  | selBin h =>
    intro env s s' hs hrun
    simp only [selBinGen] at hrun
    split at hrun
    · simp at hrun
    · rename_i x s1 m h1
      split at hrun
      · simp at hrun
      · simp only [Except.ok.injEq] at hrun
        subst hrun
        obtain ⟨g1, _, g3, g4, _⟩ := deref_ok h1
        have := (List.getElem?_eq_some_iff.mp g3).1
        simp only [List.length_set]
        omega
  | quad h =>
    intro env s s' hs hrun
    simp only [quadGen] at hrun
    split at hrun
    · simp at hrun
    · rename_i a s1 m h1
      obtain ⟨g1, _, g3, g4, _⟩ := deref_ok h1
      have := (List.getElem?_eq_some_iff.mp g3).1
      split at hrun
      · simp at hrun
      · rename_i b s2 m2 h2
        obtain ⟨k1, _, k3, k4, _⟩ := deref_ok h2
        have := (List.getElem?_eq_some_iff.mp k3).1
        rw [next_cur _ (by omega)] at k1
        rw [next_dest] at k4
        split at hrun
        · simp at hrun
        · simp only [Except.ok.injEq] at hrun
          subst hrun
          simp only [List.length_set]
          omega
  | seq h ih =>
    intro env s s' hs hrun
    rename_i fuel ops
    obtain ⟨g1, g2, g3, g4⟩ := seqOps_forward (fun o ho => ih o ho) _ _ _ _
      (by simpa [St.reserve] using hs) (by simpa [St.reserve] using hs) hrun
    simp only [St.reserve] at g2
    refine ⟨?_, g1, g2⟩
    by_cases ho : ops = []
    · rw [g4 ho]
      simp [St.reserve]
    · rw [g3 ho]
      omega
  | prop h ih =>
    intro env s s' hs hrun
    simp only [propGen] at hrun
    split at hrun
    · simp at hrun
    · split at hrun
      · simp at hrun
      · rename_i i op rate hi
        split at hrun
        · simp at hrun
        · rename_i s1 h1
          simp only [Except.ok.injEq] at hrun
          subst hrun
          obtain ⟨g1, g2, g3⟩ := ih (op, rate) (List.mem_of_getElem? hi) env _ s1
            (by simpa [St.reserve] using hs) h1
          simp only [St.reserve] at g1 g3
          rw [next_dest, next_cur _ g2]
          omega

variable [LinearOrder F]

theorem oneToOne_step (f : G → F) (m : MonOp (Ind G F)) (pReplace : ℚ) (env : Env (Ind G F))
    (s : St (Ind G F)) (hs : s.cur = s.dest.length) {x : Ind G F} (hx : env.sel s.t = .ok x)
    (hv : x.invalid = false) :
    ∃ (z : Ind G F) (cap k' : Nat), oneToOneStep f env (monGen m) pReplace s =
        .ok ⟨s.dest ++ [z], s.dest.length + 1, cap, s.t + 1, k'⟩ ∧
      ∃ k, (z = evalFuncPtr f (invMon m k x).2 ∧
          (x.repFitness ≤ (evalFuncPtr f (invMon m k x).2).repFitness ∨ ∃ j, pReplace ≤ env.u j) ∨
        z = x ∧ (evalFuncPtr f (invMon m k x).2).repFitness < x.repFitness ∧
          ∃ j, env.u j < pReplace) := by
  have hd := deref_end hs hx
  set cap1 := (if s.dest.length < s.cap then s.cap
    else max (env.grow s.dest.length) (s.dest.length + 1)) with hcap1
  set child := (invMon m s.k x).2 with hchild
  have hval : ∀ y : Ind G F, (evalFuncPtr f y).invalid = false := by
    intro y
    unfold evalFuncPtr
    split
    · rfl
    · rename_i h; simpa using h
  have hfit : ∀ y : Ind G F, (evalFuncPtr f y).fitness = some (evalFuncPtr f y).repFitness := by
    intro y
    have := hval y
    simp only [Ind.invalid] at this
    simp [Ind.fitness, this]
  have hxfit : x.fitness = some x.repFitness := by
    simp only [Ind.invalid] at hv
    simp [Ind.fitness, hv]
  have hcall : (monGen m).call env ⟨s.dest ++ [x], s.cur, cap1, s.t + 1, s.k⟩ =
      .ok ⟨s.dest ++ [child], s.dest.length, max cap1 (s.dest.length + 2), s.t + 1, s.k + 1⟩ := by
    simp only [GenOp.call]
    rw [mon_mid m (by simp [St.reserve, hs])]
    simp [St.reserve, hs, hchild, monGen, List.set_append]
  have hder : St.deref env ⟨s.dest ++ [child], s.dest.length, max cap1 (s.dest.length + 2), s.t + 1,
      s.k + 1⟩ = .ok (child, ⟨s.dest ++ [child], s.dest.length, max cap1 (s.dest.length + 2), s.t + 1,
        s.k + 1⟩, false) := by
    rw [deref_mid (by simp)]
    simp
  have hgt : x.gt (evalFuncPtr f child) =
      some (!decide (x.repFitness ≤ (evalFuncPtr f child).repFitness)) := by
    simp [Ind.gt, hxfit, hfit]
  have hstep : oneToOneStep f env (monGen m) pReplace s =
      (match some (!decide (x.repFitness ≤ (evalFuncPtr f child).repFitness)) with
       | none => .error .thrown
       | some false => .ok (St.next ⟨s.dest ++ [evalFuncPtr f child], s.dest.length,
           max cap1 (s.dest.length + 2), s.t + 1, s.k + 1⟩)
       | some true => .ok (St.next ⟨s.dest ++ [if env.u (s.k + 1) < pReplace then x
           else evalFuncPtr f child], s.dest.length, max cap1 (s.dest.length + 2), s.t + 1,
           s.k + 2⟩)) := by
    unfold oneToOneStep
    rw [hd]
    simp only
    rw [hcall]
    simp only
    rw [hder]
    simp only [hs, ne_eq, not_true_eq_false, if_false, hgt]
    by_cases hle : x.repFitness ≤ (evalFuncPtr f child).repFitness
    · simp [hle, List.set_append]
    · simp [hle, List.set_append]
  rw [hstep]
  by_cases hle : x.repFitness ≤ (evalFuncPtr f child).repFitness
  · refine ⟨evalFuncPtr f child, max cap1 (s.dest.length + 2), s.k + 1, ?_, s.k,
      Or.inl ⟨rfl, Or.inl hle⟩⟩
    simp [hle, St.next]
  · by_cases hup : env.u (s.k + 1) < pReplace
    · refine ⟨x, max cap1 (s.dest.length + 2), s.k + 2, ?_, s.k,
        Or.inr ⟨rfl, not_le.mp hle, s.k + 1, hup⟩⟩
      simp [hle, hup, St.next]
    · refine ⟨evalFuncPtr f child, max cap1 (s.dest.length + 2), s.k + 2, ?_, s.k,
        Or.inl ⟨rfl, Or.inr ⟨s.k + 1, not_lt.mp hup⟩⟩⟩
      simp [hle, hup, St.next]

/-- With an operator on one individual, and evaluated parents, the one-to-one breeder gives exactly the
number of offspring wanted; offspring number `i` comes from the parent selected in turn `i`: it is the
evaluated child, or the parent itself where the parent is strictly better and the draw below the
replacement probability. -/
theorem C96_one_to_one (f : G → F) (m : MonOp (Ind G F)) (pReplace : ℚ) (env : Env (Ind G F))
    (par : Nat → Ind G F) (hsel : ∀ t, env.sel t = .ok (par t)) (hv : ∀ t, (par t).invalid = false)
    (h : HowMany) (parents : List (Ind G F)) (cap target : Nat)
    (ht : h.eval parents.length = .ok target) :
    ∃ off, oneToOneBreeder f env h (monGen m) pReplace parents cap = .ok off ∧ off.length = target ∧
      ∀ (i : Nat) (z : Ind G F), off[i]? = some z → ∃ k,
        (z = evalFuncPtr f (invMon m k (par i)).2 ∧
          ((par i).repFitness ≤ (evalFuncPtr f (invMon m k (par i)).2).repFitness ∨
            ∃ j, pReplace ≤ env.u j) ∨
        z = par i ∧ (evalFuncPtr f (invMon m k (par i)).2).repFitness < (par i).repFitness ∧
          ∃ j, env.u j < pReplace) := by
  have key : ∀ (n : Nat) (s : St (Ind G F)), s.cur = s.dest.length → s.t = s.dest.length →
      ∃ s', oneToOneLoop f env (monGen m) pReplace n s = .ok s' ∧ ∃ ext, s'.dest = s.dest ++ ext ∧
        ext.length = n ∧ ∀ (i : Nat) (z : Ind G F), ext[i]? = some z → ∃ k,
        (z = evalFuncPtr f (invMon m k (par (s.dest.length + i))).2 ∧
          ((par (s.dest.length + i)).repFitness ≤
            (evalFuncPtr f (invMon m k (par (s.dest.length + i))).2).repFitness ∨
            ∃ j, pReplace ≤ env.u j) ∨
        z = par (s.dest.length + i) ∧
          (evalFuncPtr f (invMon m k (par (s.dest.length + i))).2).repFitness <
            (par (s.dest.length + i)).repFitness ∧ ∃ j, env.u j < pReplace) := by
    intro n
    induction n with
    | zero =>
      intro s _ _
      exact ⟨s, rfl, [], by simp, rfl, by simp⟩
    | succ n ih =>
      intro s hs hst
      obtain ⟨z, cap', k', e1, k, hz⟩ := oneToOne_step f m pReplace env s hs (hsel s.t) (hv s.t)
      obtain ⟨s', e2, ext, e3, e4, e5⟩ := ih ⟨s.dest ++ [z], s.dest.length + 1, cap', s.t + 1, k'⟩
        (by simp) (by simp [hst])
      refine ⟨s', ?_, z :: ext, ?_, ?_, ?_⟩
      · rw [oneToOneLoop, e1]
        exact e2
      · rw [e3]
        simp
      · simp [e4]
      · intro i w hw
        cases i with
        | zero =>
          simp only [List.getElem?_cons_zero, Option.some.injEq] at hw
          subst hw
          rw [Nat.add_zero, ← hst]
          exact ⟨k, hz⟩
        | succ i =>
          simp only [List.getElem?_cons_succ] at hw
          have := e5 i w hw
          simp only [List.length_append, List.length_cons, List.length_nil, zero_add] at this
          rw [show s.dest.length + (i + 1) = s.dest.length + 1 + i by omega]
          exact this
  obtain ⟨s', e1, ext, e2, e3, e4⟩ := key target (startSt parents cap) rfl rfl
  have hdest : s'.dest = ext := by simpa [startSt] using e2
  refine ⟨ext, ?_, e3, ?_⟩
  · simp only [oneToOneBreeder, ht, e1, hdest]
  · intro i z hz
    have := e4 i z hz
    simpa [startSt] using this

/-- Three offspring: the mutation makes the second one worse, its parent is kept. -/
example : (oneToOneBreeder (fun g : Nat => g) ⟨fun t => .ok ⟨t + 5, t + 5, false⟩, fun _ => 1 / 2,
    fun n => 2 * n⟩ ⟨0, 3⟩ (monGen fun _ x => (true, { x with genome := if x.genome = 6 then 0
      else x.genome + 1 })) 1 [] 0 : Except Err (List (Ind Nat Nat))).toOption =
    some [⟨6, 6, false⟩, ⟨6, 6, false⟩, ⟨8, 8, false⟩] := by
  decide +kernel

/-- With replacement probability one no offspring is worse than its parent. -/
theorem C96_never_worse (f : G → F) (m : MonOp (Ind G F)) {pReplace : ℚ} (hp : 1 ≤ pReplace)
    (env : Env (Ind G F)) (hu : ∀ k, env.u k < 1)
    (par : Nat → Ind G F) (hsel : ∀ t, env.sel t = .ok (par t)) (hv : ∀ t, (par t).invalid = false)
    (h : HowMany) (parents : List (Ind G F)) (cap : Nat) (off : List (Ind G F))
    (hrun : oneToOneBreeder f env h (monGen m) pReplace parents cap = .ok off) (i : Nat) (z : Ind G F)
    (hz : off[i]? = some z) : z.invalid = false ∧ (par i).repFitness ≤ z.repFitness := by
  have ht : ∃ target, h.eval parents.length = .ok target := by
    unfold oneToOneBreeder at hrun
    split at hrun
    · simp at hrun
    · rename_i t ht; exact ⟨t, ht⟩
  obtain ⟨target, ht⟩ := ht
  obtain ⟨off', e1, _, e3⟩ := C96_one_to_one f m pReplace env par hsel hv h parents cap target ht
  rw [hrun, Except.ok.injEq] at e1
  subst e1
  obtain ⟨k, hk⟩ := e3 i z hz
  rcases hk with ⟨rfl, hk⟩ | ⟨rfl, _, _⟩
  · refine ⟨?_, ?_⟩
    · unfold evalFuncPtr
      split
      · rfl
      · rename_i h; simpa using h
    · rcases hk with hk | ⟨j, hj⟩
      · exact hk
      · have := hu j
        linarith
  · exact ⟨hv i, le_rfl⟩

/-- A parent that is not evaluated makes it throw. -/
theorem C96_unevaluated_parent (f : G → F) (m : MonOp (Ind G F)) (pReplace : ℚ)
    (env : Env (Ind G F)) {x : Ind G F} (hx : env.sel 0 = .ok x) (hv : x.invalid = true)
    (h : HowMany) (parents : List (Ind G F)) (cap target : Nat)
    (ht : h.eval parents.length = .ok target) (hpos : 0 < target) :
    oneToOneBreeder f env h (monGen m) pReplace parents cap = .error .thrown := by
  obtain ⟨n, rfl⟩ : ∃ n, target = n + 1 := ⟨target - 1, by omega⟩
  have hfit : x.fitness = none := by
    simp only [Ind.invalid] at hv
    simp [Ind.fitness, hv]
  have hstep : oneToOneStep f env (monGen m) pReplace (startSt parents cap) = .error .thrown := by
    unfold oneToOneStep
    rw [deref_end (by simp [startSt]) (x := x) (by simpa [startSt] using hx)]
    simp only [GenOp.call]
    rw [mon_mid m (by simp [St.reserve, startSt])]
    simp only
    rw [deref_mid (by simp [St.reserve, startSt])]
    simp [St.reserve, startSt, Ind.gt, hfit]
  simp only [oneToOneBreeder, ht, oneToOneLoop, hstep]

/-- With a container as operator — a proportional choice, or a non-empty sequence — the one-to-one breeder
never succeeds: the container moves past the offspring, which is taken as a second offspring. -/
theorem C96_containers_never_succeed (f : G → F) {ops : List (GenOp (Ind G F) × ℚ)}
    (hops : ∀ o ∈ ops, Built o.1) (hne : ops ≠ []) (op : GenOp (Ind G F)) (fuel : Nat)
    (hop : op = propGen ops ∨ op = seqGen fuel ops) (pReplace : ℚ) (env : Env (Ind G F))
    (h : HowMany) (parents : List (Ind G F)) (cap target : Nat)
    (ht : h.eval parents.length = .ok target) (hpos : 0 < target) (off : List (Ind G F)) :
    oneToOneBreeder f env h op pReplace parents cap ≠ .ok off := by
  obtain ⟨n, rfl⟩ : ∃ n, target = n + 1 := ⟨target - 1, by omega⟩
  have hmove : ∀ (s s' : St (Ind G F)), s.cur < s.dest.length → op.call env s = .ok s' →
      s.cur < s'.cur := by
    intro s s' hs hrun
    rcases hop with rfl | rfl
    · simp only [GenOp.call, propGen] at hrun
      split at hrun
      · simp at hrun
      · split at hrun
        · simp at hrun
        · rename_i i op rate hi
          split at hrun
          · simp at hrun
          · rename_i s1 h1
            simp only [Except.ok.injEq] at hrun
            subst hrun
            obtain ⟨g1, g2, g3⟩ := built_forward (hops (op, rate) (List.mem_of_getElem? hi)) env _ s1
              (by simpa [St.reserve] using hs.le) h1
            simp only [St.reserve] at g1 g3
            rw [next_cur _ g2]
            omega
    · simp only [GenOp.call, seqGen] at hrun
      obtain ⟨g1, g2, g3, g4⟩ := seqOps_forward (fun o ho => built_forward (hops o ho)) _ _ _ _
        (by simpa [St.reserve] using hs.le) (by simpa [St.reserve] using hs.le) hrun
      simp only [St.reserve] at g2
      rw [g3 hne]
      omega
  have hstep : ∀ s s' : St (Ind G F), s.cur ≤ s.dest.length →
      oneToOneStep f env op pReplace s ≠ .ok s' := by
    intro s s' hs hrun
    unfold oneToOneStep at hrun
    split at hrun
    · simp at hrun
    · rename_i x s1 m1 h1
      obtain ⟨g1, _, g3, _⟩ := deref_ok h1
      have hlt := (List.getElem?_eq_some_iff.mp g3).1
      split at hrun
      · simp at hrun
      · rename_i s2 h2
        have hm := hmove _ _ hlt h2
        split at hrun
        · simp at hrun
        · rename_i c s3 m3 h3
          obtain ⟨k1, _⟩ := deref_ok h3
          rw [if_pos (by omega)] at hrun
          simp at hrun
  intro hrun
  simp only [oneToOneBreeder, ht, oneToOneLoop] at hrun
  split at hrun
  · simp at hrun
  · rename_i s' h'
    split at h'
    · simp at h'
    · rename_i s1 h1
      exact hstep _ _ (by simp [startSt]) h1

end OneToOne

/-! ### C97: the transformation of the simple genetic algorithm -/

theorem sgaCross_spec (u : Nat → ℚ) (p : ℚ) (q : QuadOp α) (l : List α) (k : Nat) :
    (sgaCross u p q l k).1.length = l.length ∧
    (∀ (i : Nat) (a b : α), l[2 * i]? = some a → l[2 * i + 1]? = some b → ∃ j,
      (u j < p ∧ (sgaCross u p q l k).1[2 * i]? = some (q (j + 1) a b).2.1 ∧
        (sgaCross u p q l k).1[2 * i + 1]? = some (q (j + 1) a b).2.2) ∨
      (p ≤ u j ∧ (sgaCross u p q l k).1[2 * i]? = some a ∧
        (sgaCross u p q l k).1[2 * i + 1]? = some b)) ∧
    (∀ (i : Nat) (a : α), l[2 * i]? = some a → l.length = 2 * i + 1 →
      (sgaCross u p q l k).1[2 * i]? = some a) := by
  induction l, k using sgaCross.induct (u := u) (p := p) with
  | case1 a b l k hk ih =>
    obtain ⟨i1, i2, i3⟩ := ih
    rw [sgaCross, if_pos hk]
    refine ⟨by simp [i1], ?_, ?_⟩
    · intro i x y hx hy
      cases i with
      | zero =>
        simp only [Nat.mul_zero, Nat.zero_add, List.getElem?_cons_zero, List.getElem?_cons_succ,
          Option.some.injEq] at hx hy ⊢
        subst hx hy
        exact ⟨k, Or.inl ⟨hk, rfl, rfl⟩⟩
      | succ i =>
        rw [show 2 * (i + 1) = 2 * i + 1 + 1 by ring] at *
        simp only [List.getElem?_cons_succ] at hx hy ⊢
        exact i2 i x y hx hy
    · intro i x hx hl
      cases i with
      | zero => simp at hl
      | succ i =>
        rw [show 2 * (i + 1) = 2 * i + 1 + 1 by ring] at *
        simp only [List.getElem?_cons_succ] at hx ⊢
        exact i3 i x hx (by simp at hl; omega)
  | case2 a b l k hk ih =>
    obtain ⟨i1, i2, i3⟩ := ih
    rw [sgaCross, if_neg hk]
    refine ⟨by simp [i1], ?_, ?_⟩
    · intro i x y hx hy
      cases i with
      | zero =>
        simp only [Nat.mul_zero, Nat.zero_add, List.getElem?_cons_zero, List.getElem?_cons_succ,
          Option.some.injEq] at hx hy ⊢
        subst hx hy
        exact ⟨k, Or.inr ⟨not_lt.mp hk, rfl, rfl⟩⟩
      | succ i =>
        rw [show 2 * (i + 1) = 2 * i + 1 + 1 by ring] at *
        simp only [List.getElem?_cons_succ] at hx hy ⊢
        exact i2 i x y hx hy
    · intro i x hx hl
      cases i with
      | zero => simp at hl
      | succ i =>
        rw [show 2 * (i + 1) = 2 * i + 1 + 1 by ring] at *
        simp only [List.getElem?_cons_succ] at hx ⊢
        exact i3 i x hx (by simp at hl; omega)
  | case3 l k hl =>
    have hc : sgaCross u p q l k = (l, k) := by
      match l, hl with
      | [], _ => rfl
      | [a], _ => rfl
      | a :: b :: l, hl => exact absurd rfl (hl a b l)
    have hlen : l.length ≤ 1 := by
      match l, hl with
      | [], _ => simp
      | [a], _ => simp
      | a :: b :: l, hl => exact absurd rfl (hl a b l)
    rw [hc]
    refine ⟨rfl, ?_, fun i a ha _ => ha⟩
    intro i a b _ hb
    have := (List.getElem?_eq_some_iff.mp hb).1
    omega

theorem sgaMutate_spec (u : Nat → ℚ) (p : ℚ) (m : MonOp α) (l : List α) (k : Nat) :
    (sgaMutate u p m l k).length = l.length ∧
    ∀ (i : Nat) (a : α), l[i]? = some a → ∃ j,
      (u j < p ∧ (sgaMutate u p m l k)[i]? = some (m (j + 1) a).2) ∨
      (p ≤ u j ∧ (sgaMutate u p m l k)[i]? = some a) := by
  induction l generalizing k with
  | nil => simp [sgaMutate]
  | cons x l ih =>
    rw [sgaMutate]
    split
    · rename_i hk
      obtain ⟨h1, h2⟩ := ih (k + 2)
      refine ⟨by simp [h1], ?_⟩
      intro i a ha
      cases i with
      | zero =>
        simp only [List.getElem?_cons_zero, Option.some.injEq] at ha
        subst ha
        exact ⟨k, Or.inl ⟨hk, rfl⟩⟩
      | succ i => exact h2 i a ha
    · rename_i hk
      obtain ⟨h1, h2⟩ := ih (k + 1)
      refine ⟨by simp [h1], ?_⟩
      intro i a ha
      cases i with
      | zero =>
        simp only [List.getElem?_cons_zero, Option.some.injEq] at ha
        subst ha
        exact ⟨k, Or.inr ⟨not_lt.mp hk, rfl⟩⟩
      | succ i => exact h2 i a ha

/-- The transformation keeps the number of individuals; individuals `2i` and `2i+1` are crossed with each
other or both left, a last one without partner is left; then each is mutated or left, in its place. -/
theorem C97_transform [Inhabited F] (u : Nat → ℚ) (cross : QuadOp (Ind G F)) (pCross : ℚ)
    (mutn : MonOp (Ind G F)) (pMut : ℚ) (pop : List (Ind G F)) :
    ∃ mid : List (Ind G F), mid.length = pop.length ∧
      (sgaTransform u cross pCross mutn pMut pop).length = pop.length ∧
      (∀ (i : Nat) (a b : Ind G F), pop[2 * i]? = some a → pop[2 * i + 1]? = some b → ∃ j,
        (u j < pCross ∧ mid[2 * i]? = some (invQuad cross (j + 1) a b).2.1 ∧
          mid[2 * i + 1]? = some (invQuad cross (j + 1) a b).2.2) ∨
        (pCross ≤ u j ∧ mid[2 * i]? = some a ∧ mid[2 * i + 1]? = some b)) ∧
      (∀ (i : Nat) (a : Ind G F), pop[2 * i]? = some a → pop.length = 2 * i + 1 →
        mid[2 * i]? = some a) ∧
      ∀ (i : Nat) (a : Ind G F), mid[i]? = some a → ∃ j,
        (u j < pMut ∧ (sgaTransform u cross pCross mutn pMut pop)[i]? = some (invMon mutn (j + 1) a).2) ∨
        (pMut ≤ u j ∧ (sgaTransform u cross pCross mutn pMut pop)[i]? = some a) := by
  obtain ⟨h1, h2, h3⟩ := sgaCross_spec u pCross (invQuad cross) pop 0
  obtain ⟨g1, g2⟩ := sgaMutate_spec u pMut (invMon mutn) (sgaCross u pCross (invQuad cross) pop 0).1
    (sgaCross u pCross (invQuad cross) pop 0).2
  exact ⟨_, h1, g1.trans h1, h2, h3, g2⟩

/-- No stale fitness: with operators that tell the truth, up-to-date fitnesses stay so, and an
individual that is still valid is one of the population before. -/
theorem C97_no_stale_fitness [Inhabited F] (f : G → F) (u : Nat → ℚ) {cross : QuadOp (Ind G F)}
    (hq : HonestQuad cross) (pCross : ℚ) {mutn : MonOp (Ind G F)} (hm : HonestMon mutn) (pMut : ℚ)
    (pop : List (Ind G F)) :
    ((∀ x ∈ pop, UpToDate f x) →
      ∀ x ∈ sgaTransform u cross pCross mutn pMut pop, UpToDate f x) ∧
    ∀ x ∈ sgaTransform u cross pCross mutn pMut pop, x.invalid = false → x ∈ pop := by
  have main : ∀ P : Ind G F → Prop, (∀ x : Ind G F, x.invalid = true → P x) →
      (∀ x ∈ pop, P x) → ∀ x ∈ sgaTransform u cross pCross mutn pMut pop, P x := by
    intro P hP hpop
    have hc : ∀ (l : List (Ind G F)) (k : Nat), (∀ x ∈ l, P x) →
        ∀ x ∈ (sgaCross u pCross (invQuad cross) l k).1, P x := by
      intro l k
      induction l, k using sgaCross.induct (u := u) (p := pCross) with
      | case1 a b l k hk ih =>
        intro hl
        rw [sgaCross, if_pos hk]
        obtain ⟨p1, p2⟩ := inv_quad hP hq (k + 1) (hl a (by simp)) (hl b (by simp))
        intro x hx
        simp only [List.mem_cons] at hx
        rcases hx with rfl | rfl | hx
        · exact p1
        · exact p2
        · exact ih (fun y hy => hl y (by simp [hy])) x hx
      | case2 a b l k hk ih =>
        intro hl
        rw [sgaCross, if_neg hk]
        intro x hx
        simp only [List.mem_cons] at hx
        rcases hx with rfl | rfl | hx
        · exact hl _ (by simp)
        · exact hl _ (by simp)
        · exact ih (fun y hy => hl y (by simp [hy])) x hx
      | case3 l k hl =>
        intro hl'
        have hc : sgaCross u pCross (invQuad cross) l k = (l, k) := by
          match l, hl with
          | [], _ => rfl
          | [a], _ => rfl
          | a :: b :: l, hl => exact absurd rfl (hl a b l)
        rw [hc]
        exact hl'
    have hmu : ∀ (l : List (Ind G F)) (k : Nat), (∀ x ∈ l, P x) →
        ∀ x ∈ sgaMutate u pMut (invMon mutn) l k, P x := by
      intro l
      induction l with
      | nil => intro k _ x hx; simp [sgaMutate] at hx
      | cons a l ih =>
        intro k hl
        rw [sgaMutate]
        split
        · intro x hx
          simp only [List.mem_cons] at hx
          rcases hx with rfl | hx
          · exact inv_mon hP hm _ (hl a (by simp))
          · exact ih _ (fun y hy => hl y (by simp [hy])) x hx
        · intro x hx
          simp only [List.mem_cons] at hx
          rcases hx with rfl | hx
          · exact hl _ (by simp)
          · exact ih _ (fun y hy => hl y (by simp [hy])) x hx
    exact hmu _ _ (hc _ _ hpop)
  constructor
  · intro hpar
    refine main (UpToDate f) (fun x hx v hv => ?_) hpar
    simp only [Ind.invalid] at hx
    simp [Ind.fitness, hx] at hv
  · intro x hx hval
    have := main (fun x => x.invalid = true ∨ x ∈ pop) (fun x h => Or.inl h) (fun x h => Or.inr h) x hx
    simpa [hval] using this

example : (sgaTransform (fun k => if k = 0 then 0 else 1 / 2) (fun _ x y => (true, y, x)) (1 / 3)
    (fun _ x => (false, x)) (1 / 3) [⟨1, 10, false⟩, ⟨2, 20, false⟩, ⟨3, 30, false⟩] :
      List (Ind Nat Nat)) = [⟨2, 0, true⟩, ⟨1, 0, true⟩, ⟨3, 30, false⟩] := by
  decide +kernel

end Paradiseo.Breed
