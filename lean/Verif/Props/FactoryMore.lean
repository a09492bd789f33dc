/-
C263: the initial population; C264: the variation operators; C265: the general replacements of make_algo_easea; C266:
the niche size of make_ea_moeo.
-/
import Verif.Props.Factory
import Mathlib.Data.Nat.Digits.Defs

namespace Paradiseo.Factory

open Paradiseo.EO

/-! ### C263: the initial population -/

section Pop

variable {G F : Type}

/-- **C263** (size).  The population has the size asked for, whatever the file contained. -/
theorem C263_size (popSize : Nat) (loaded : Option (List (Ind G F))) (recompute : Bool) (fresh : Nat → Ind G F) :
    (makePop popSize loaded recompute fresh).length = popSize := by
  have hp : (keptOf popSize loaded recompute).length ≤ popSize := by
    cases loaded with
    | none => exact Nat.zero_le _
    | some l => exact (List.length_take_le _ _)
  unfold makePop
  rw [List.length_append, List.length_map, List.length_range']
  omega

/-- **C263** (who).  Place `i` holds the individual number `i` of the file, with its fitness removed if that was asked
for, or else what the initializer makes of it. -/
theorem C263_places (popSize : Nat) (loaded : Option (List (Ind G F))) (recompute : Bool) (fresh : Nat → Ind G F) (i : Nat)
    (hi : i < popSize) :
    (makePop popSize loaded recompute fresh)[i]? =
      match (loaded.getD [])[i]? with
      | some x => some (if recompute then { x with fit := none } else x)
      | none => some (fresh i) := by
  unfold makePop
  dsimp only
  have key : ∀ p : List (Ind G F), p.length ≤ popSize →
      (p ++ (List.range' p.length (popSize - p.length)).map fresh)[i]? = (p[i]?).or (some (fresh i)) := by
    intro p hp
    rw [List.getElem?_append]
    split_ifs with h
    · rw [List.getElem?_eq_getElem h, Option.some_or]
    · rw [List.getElem?_eq_none (l := p) (i := i) (by omega), Option.none_or, List.getElem?_map, List.getElem?_range' (by omega),
        Option.map_some]
      congr 2
      omega
  cases loaded with
  | none =>
    rw [show keptOf popSize (none : Option (List (Ind G F))) recompute = [] from rfl, key [] (Nat.zero_le _)]
    rfl
  | some l =>
    rw [keptOf, key _ (List.length_take_le _ _), List.getElem?_take, if_pos hi, Option.getD_some]
    cases recompute with
    | false =>
      simp only [Bool.false_eq_true, if_false]
      cases l[i]? <;> rfl
    | true =>
      simp only [if_true, List.getElem?_map]
      cases l[i]? <;> rfl

/-- **C263** (not the best).  The warning "only the best will be retained" is wrong: of too many individuals the first
ones are kept, here the worst one. -/
theorem C263_not_the_best (fresh : Nat → Ind Nat Nat) :
    makePop 1 (some [⟨0, some 1⟩, ⟨1, some 9⟩]) false fresh = [⟨0, some 1⟩] := rfl

/-- **C263** (restart).  Reading a saved state back restores nothing: for the formats of eoState, whatever is in a
non-empty file, the population is left empty and the generator as it was, not even seeded.  So all of the population is
drawn anew. -/
theorem C263_restart (T : State.Tags) (hT : (∃ n, T = State.latex n) ∨ (∃ n, T = State.json n)) {O : Type}
    (rd : State.Text → O → O) (pop rng seeded : State.Text × O) (text : State.Text) (ht : text ≠ [])
    (inds : O → List (Ind G F)) (hempty : inds pop.2 = []) (popSize : Nat) (recompute : Bool) (fresh : Nat → Ind G F) :
    readBack T rd pop rng seeded (some text) = .ok (pop.2, rng.2) ∧
    ∀ p r, readBack T rd pop rng seeded (some text) = .ok (p, r) →
      makePop popSize (some (inds p)) recompute fresh = (List.range popSize).map fresh := by
  have h : readBack T rd pop rng seeded (some text) = .ok (pop.2, rng.2) := by
    unfold readBack
    dsimp only
    rw [State.C173_load_restores_nothing T hT rd, if_neg ht]
  refine ⟨h, fun p r hp => ?_⟩
  rw [h] at hp
  cases hp
  rw [hempty]
  cases recompute <;> simp [makePop, keptOf, List.range_eq_range']

/-- Without a file the generator is seeded and all of the population is drawn. -/
theorem C263_fresh (T : State.Tags) {O : Type} (rd : State.Text → O → O) (pop rng seeded : State.Text × O) (popSize : Nat)
    (recompute : Bool) (fresh : Nat → Ind G F) :
    readBack T rd pop rng seeded none = .ok (pop.2, seeded.2) ∧
    makePop popSize none recompute fresh = (List.range popSize).map fresh := by
  refine ⟨rfl, ?_⟩
  simp [makePop, keptOf, List.range_eq_range']

end Pop

/-! ### C264: operators -/

/-- The parameters ga/make_op.h accepts. -/
def GaArgs.Valid (a : GaArgs) : Prop :=
  a.operator = kw "SGA" ∧ 0 ≤ a.pCross ∧ a.pCross ≤ 1 ∧ 0 ≤ a.pMut ∧ a.pMut ≤ 1 ∧ 0 ≤ a.onePoint ∧ 0 ≤ a.twoPoints ∧
  0 ≤ a.uniform ∧ 0 ≤ a.pMutPerBit ∧ a.pMutPerBit ≤ 1 / 2 ∧ 0 ≤ a.bitFlip ∧ 0 ≤ a.oneBit ∧ a.kBit ≠ 0 ∧ 0 ≤ a.kBitRate

theorem makeGaOp_cases (a : GaArgs) :
    (a.Valid ∧ ∃ o, makeGaOp a = .ok o ∧ o.pCross = a.pCross ∧ o.pMut = a.pMut ∧
      o.cross = .build (.onePoint, a.onePoint) [(.uniform, a.uniform), (.nPoints, a.twoPoints)] ∧
      o.mutation = .build (.bitFlip a.pMutPerBit, a.bitFlip) [(.det 1, a.oneBit), (.det a.kBit, a.kBitRate)]) ∨
    (¬ a.Valid ∧ makeGaOp a = .error .thrown) := by
  by_cases hv : a.Valid
  · left
    refine ⟨hv, ?_⟩
    obtain ⟨h1, h2, h3, h4, h5, h6, h7, h8, h9, h10, h11, h12, h13, h14⟩ := hv
    unfold makeGaOp
    rw [if_neg (not_not.2 h1), if_neg (not_or.2 ⟨not_lt.2 h2, not_lt.2 h3⟩), if_neg (not_or.2 ⟨not_lt.2 h4, not_lt.2 h5⟩),
      if_neg (not_lt.2 h6), if_neg (not_lt.2 h7), if_neg (not_lt.2 h8), if_neg (not_or.2 ⟨not_lt.2 h9, not_lt.2 h10⟩),
      if_neg (not_lt.2 h11), if_neg (not_lt.2 h12), if_neg h13, if_neg (not_lt.2 h14)]
    exact ⟨_, rfl, rfl, rfl, rfl, rfl⟩
  · right
    refine ⟨hv, ?_⟩
    unfold makeGaOp
    by_cases h1 : a.operator ≠ kw "SGA"
    · rw [if_pos h1]
    rw [if_neg h1]
    by_cases h2 : a.pCross < 0 ∨ 1 < a.pCross
    · rw [if_pos h2]
    rw [if_neg h2]
    by_cases h3 : a.pMut < 0 ∨ 1 < a.pMut
    · rw [if_pos h3]
    rw [if_neg h3]
    by_cases h4 : a.onePoint < 0
    · rw [if_pos h4]
    rw [if_neg h4]
    by_cases h5 : a.twoPoints < 0
    · rw [if_pos h5]
    rw [if_neg h5]
    by_cases h6 : a.uniform < 0
    · rw [if_pos h6]
    rw [if_neg h6]
    by_cases h7 : a.pMutPerBit < 0 ∨ 1 / 2 < a.pMutPerBit
    · rw [if_pos h7]
    rw [if_neg h7]
    by_cases h8 : a.bitFlip < 0
    · rw [if_pos h8]
    rw [if_neg h8]
    by_cases h9 : a.oneBit < 0
    · rw [if_pos h9]
    rw [if_neg h9]
    by_cases h10 : a.kBit = 0
    · rw [if_pos h10]
    rw [if_neg h10]
    by_cases h11 : a.kBitRate < 0
    · rw [if_pos h11]
    rw [if_neg h11]
    exfalso
    exact hv ⟨not_not.1 h1, not_lt.1 (not_or.1 h2).1, not_lt.1 (not_or.1 h2).2, not_lt.1 (not_or.1 h3).1,
      not_lt.1 (not_or.1 h3).2, not_lt.1 h4, not_lt.1 h5, not_lt.1 h6, not_lt.1 (not_or.1 h7).1, not_lt.1 (not_or.1 h7).2,
      not_lt.1 h8, not_lt.1 h9, h10, not_lt.1 h11⟩

/-- **C264** (bit strings, accepted).  The operator is built exactly for parameters in their ranges; else an exception is
thrown. -/
theorem C264_ga (a : GaArgs) :
    ((∃ o, makeGaOp a = .ok o) ↔ a.Valid) ∧ ∀ e, makeGaOp a = .error e → e = .thrown := by
  rcases makeGaOp_cases a with ⟨hv, o, h, _⟩ | ⟨hv, h⟩
  · exact ⟨⟨fun _ => hv, fun _ => ⟨o, h⟩⟩, fun e he => (by rw [h] at he; cases he)⟩
  · exact ⟨⟨fun ⟨o, ho⟩ => (by rw [h] at ho; cases ho), fun hv' => absurd hv' hv⟩, fun e he => (by rw [h] at he; cases he; rfl)⟩

/-- **C264** (bit strings, called).  A crossover, when one is due, is one with a positive rate, and so is a mutation;
and `det 1` for the rate `oneBitRate`, `det k` for `kBitRate`. -/
theorem C264_ga_called (a : GaArgs) (o : GaOp) (h : makeGaOp a = .ok o) (u : ℚ) (hu : 0 ≤ u) (hu1 : u < 1) :
    (0 < a.onePoint + a.uniform + a.twoPoints → ∃ c, o.cross.pick u = .ok c ∧
      match c with
      | .onePoint => 0 < a.onePoint
      | .uniform => 0 < a.uniform
      | .nPoints => 0 < a.twoPoints) ∧
    (0 < a.bitFlip + a.oneBit + a.kBitRate → ∃ m, o.mutation.pick u = .ok m ∧
      match m with
      | .bitFlip p => 0 < a.bitFlip ∧ p = a.pMutPerBit
      | .det k => k = 1 ∧ 0 < a.oneBit ∨ k = a.kBit ∧ 0 < a.kBitRate) := by
  rcases makeGaOp_cases a with ⟨hv, o', h', _, _, h3, h4⟩ | ⟨_, h'⟩
  swap
  · rw [h] at h'; cases h'
  rw [h] at h'
  cases h'
  obtain ⟨_, _, _, _, _, h6, h7, h8, _, _, h11, h12, _, h14⟩ := hv
  constructor
  · intro hs
    obtain ⟨op, rate, g1, g2, g3⟩ := Init.C219_total (GaCross.onePoint, a.onePoint)
      [(.uniform, a.uniform), (.nPoints, a.twoPoints)] (by
        intro q hq
        simp only [Init.given, List.mem_cons, List.not_mem_nil, or_false] at hq
        rcases hq with rfl | rfl | rfl <;> assumption) (by
        simp only [Init.given, List.map_cons, List.map_nil, List.sum_cons, List.sum_nil]
        linarith) hu hu1
    rw [h3]
    refine ⟨op, g1, ?_⟩
    simp only [Init.given, List.mem_cons, List.not_mem_nil, or_false, Prod.mk.injEq] at g2
    rcases g2 with ⟨rfl, rfl⟩ | ⟨rfl, rfl⟩ | ⟨rfl, rfl⟩ <;> exact g3
  · intro hs
    obtain ⟨op, rate, g1, g2, g3⟩ := Init.C219_total (GaMut.bitFlip a.pMutPerBit, a.bitFlip)
      [(.det 1, a.oneBit), (.det a.kBit, a.kBitRate)] (by
        intro q hq
        simp only [Init.given, List.mem_cons, List.not_mem_nil, or_false] at hq
        rcases hq with rfl | rfl | rfl <;> assumption) (by
        simp only [Init.given, List.map_cons, List.map_nil, List.sum_cons, List.sum_nil]
        linarith) hu hu1
    rw [h4]
    refine ⟨op, g1, ?_⟩
    simp only [Init.given, List.mem_cons, List.not_mem_nil, or_false, Prod.mk.injEq] at g2
    rcases g2 with ⟨rfl, rfl⟩ | ⟨rfl, rfl⟩ | ⟨rfl, rfl⟩
    · exact ⟨g3, rfl⟩
    · exact Or.inl ⟨rfl, g3⟩
    · exact Or.inr ⟨rfl, g3⟩

/-- **C264** (bit strings, no rates).  With all crossover rates zero the operator is built all the same (there is only a
warning), and the first crossover due is undefined, whatever is drawn; likewise for mutations. -/
theorem C264_ga_zero (a : GaArgs) (ha : a.Valid) :
    ∃ o, makeGaOp a = .ok o ∧ o.pCross = a.pCross ∧ o.pMut = a.pMut ∧
      (a.onePoint = 0 ∧ a.uniform = 0 ∧ a.twoPoints = 0 → ∀ u, o.cross.pick u = .error .ub) ∧
      (a.bitFlip = 0 ∧ a.oneBit = 0 ∧ a.kBitRate = 0 → ∀ u, o.mutation.pick u = .error .ub) := by
  rcases makeGaOp_cases a with ⟨hv, o, h, h1, h2, h3, h4⟩ | ⟨hv, _⟩
  swap
  · exact absurd ha hv
  refine ⟨o, h, h1, h2, ?_, ?_⟩
  · rintro ⟨e1, e2, e3⟩ u
    rw [h3]
    refine Init.C219_all_zero _ _ ?_ u
    intro q hq
    simp only [Init.given, List.mem_cons, List.not_mem_nil, or_false] at hq
    rcases hq with rfl | rfl | rfl <;> assumption
  · rintro ⟨e1, e2, e3⟩ u
    rw [h4]
    refine Init.C219_all_zero _ _ ?_ u
    intro q hq
    simp only [Init.given, List.mem_cons, List.not_mem_nil, or_false] at hq
    rcases hq with rfl | rfl | rfl <;> assumption

/-- The default parameters are accepted; so are those without any crossover. -/
def gaDefaults : GaArgs := ⟨kw "SGA", 3 / 5, 1 / 10, 1, 1, 2, 1 / 100, 1 / 100, 1 / 100, 1, 0⟩

example : gaDefaults.Valid ∧ 0 < gaDefaults.onePoint + gaDefaults.uniform + gaDefaults.twoPoints ∧
    { gaDefaults with onePoint := 0, twoPoints := 0, uniform := 0 }.Valid := by
  simp only [gaDefaults, GaArgs.Valid]
  norm_num

/-- The parameters es/make_op.h does not refuse one by one. -/
def EsArgs.Valid (a : EsArgs) : Prop :=
  a.operator = kw "SGA" ∧ 0 ≤ a.pCross ∧ a.pCross ≤ 1 ∧ 0 ≤ a.pMut ∧ a.pMut ≤ 1 ∧ 0 ≤ a.segment ∧ 0 ≤ a.arithmetic ∧
  0 ≤ a.epsilon ∧ 0 ≤ a.uniformMut ∧ 0 ≤ a.detMut ∧ 0 ≤ a.normalMut ∧ 0 ≤ a.sigma

/-- Some crossover, some mutation has a rate. -/
def EsArgs.crosses (a : EsArgs) : Prop := a.segment ≠ 0 ∨ a.arithmetic ≠ 0
def EsArgs.mutates (a : EsArgs) : Prop := a.uniformMut ≠ 0 ∨ a.detMut ≠ 0 ∨ a.normalMut ≠ 0

/-- **C264** (real vectors).  With legal parameters the operator is built exactly if there are crossovers and mutations;
with neither an exception is thrown; with only one of the two - of which the code warns as "no crossover" or "no
mutation" as if it could go on - a null pointer is dereferenced. -/
theorem C264_es (a : EsArgs) :
    (a.Valid → a.crosses → a.mutates → ∃ o, makeEsOp a = .ok o ∧ o.pCross = a.pCross ∧ o.pMut = a.pMut ∧
      ∀ u, 0 ≤ u → u < 1 →
        (∃ c, o.cross.pick u = .ok c ∧
          match c with
          | .segment => 0 < a.segment
          | .arithmetic => 0 < a.arithmetic) ∧
        ∃ m, o.mutation.pick u = .ok m ∧
          match m with
          | .uniform e => 0 < a.uniformMut ∧ e = a.epsilon
          | .det e => 0 < a.detMut ∧ e = a.epsilon
          | .normal s => 0 < a.normalMut ∧ s = a.sigma) ∧
    (makeEsOp a = .error .ub ↔ a.Valid ∧ (a.crosses ∧ ¬ a.mutates ∨ ¬ a.crosses ∧ a.mutates)) ∧
    (makeEsOp a = .error .thrown ↔ ¬ a.Valid ∨ ¬ a.crosses ∧ ¬ a.mutates) := by
  by_cases hv : a.Valid
  · obtain ⟨h1, h2, h3, h4, h5, h6, h7, h8, h9, h10, h11, h12⟩ := id hv
    have hC : a.segment + a.arithmetic = 0 ↔ ¬ a.crosses := by
      unfold EsArgs.crosses
      push Not
      exact ⟨fun h => ⟨by linarith, by linarith⟩, fun h => by rw [h.1, h.2, add_zero]⟩
    have hM : a.uniformMut + a.detMut + a.normalMut = 0 ↔ ¬ a.mutates := by
      unfold EsArgs.mutates
      push Not
      exact ⟨fun h => ⟨by linarith, by linarith, by linarith⟩, fun h => by rw [h.1, h.2.1, h.2.2]; norm_num⟩
    have hE : makeEsOp a =
        (if !(!decide (a.segment + a.arithmetic = 0)) && !(!decide (a.uniformMut + a.detMut + a.normalMut = 0)) then
          .error .thrown
        else
          match deref (!decide (a.segment + a.arithmetic = 0))
            (Init.Combined.build (.segment, a.segment) [(EsCross.arithmetic, a.arithmetic)]) with
          | .error e => .error e
          | .ok c =>
            match deref (!decide (a.uniformMut + a.detMut + a.normalMut = 0))
              (Init.Combined.build (.uniform a.epsilon, a.uniformMut)
                [(EsMut.det a.epsilon, a.detMut), (EsMut.normal a.sigma, a.normalMut)]) with
            | .error e => .error e
            | .ok m => .ok ⟨c, a.pCross, m, a.pMut⟩) := by
      unfold makeEsOp
      rw [if_neg (not_not.2 h1), if_neg (not_or.2 ⟨not_lt.2 h2, not_lt.2 h3⟩),
        if_neg (not_or.2 ⟨not_lt.2 h4, not_lt.2 h5⟩), if_neg (not_lt.2 h6), if_neg (not_lt.2 h7), if_neg (not_lt.2 h8),
        if_neg (not_lt.2 h9), if_neg (not_lt.2 h10), if_neg (not_lt.2 h11), if_neg (not_lt.2 h12)]
      rfl
    by_cases hc : a.crosses <;> by_cases hm : a.mutates
    · have d1 : decide (a.segment + a.arithmetic = 0) = false := decide_eq_false (fun h => hC.1 h hc)
      have d2 : decide (a.uniformMut + a.detMut + a.normalMut = 0) = false := decide_eq_false (fun h => hM.1 h hm)
      have hE' : makeEsOp a = .ok ⟨Init.Combined.build (.segment, a.segment) [(EsCross.arithmetic, a.arithmetic)], a.pCross,
          Init.Combined.build (.uniform a.epsilon, a.uniformMut)
            [(EsMut.det a.epsilon, a.detMut), (EsMut.normal a.sigma, a.normalMut)], a.pMut⟩ := by
        rw [hE, d1, d2]
        rfl
      refine ⟨fun _ _ _ => ⟨_, hE', rfl, rfl, fun u hu hu1 => ⟨?_, ?_⟩⟩, ?_, ?_⟩
      · obtain ⟨op, rate, g1, g2, g3⟩ := Init.C219_total (EsCross.segment, a.segment) [(.arithmetic, a.arithmetic)] (by
          intro q hq
          simp only [Init.given, List.mem_cons, List.not_mem_nil, or_false] at hq
          rcases hq with rfl | rfl <;> assumption) (by
          simp only [Init.given, List.map_cons, List.map_nil, List.sum_cons, List.sum_nil]
          have : a.segment + a.arithmetic ≠ 0 := fun h => hC.1 h hc
          rw [add_zero]
          exact lt_of_le_of_ne (by linarith) (Ne.symm this)) hu hu1
        refine ⟨op, g1, ?_⟩
        simp only [Init.given, List.mem_cons, List.not_mem_nil, or_false, Prod.mk.injEq] at g2
        rcases g2 with ⟨rfl, rfl⟩ | ⟨rfl, rfl⟩ <;> exact g3
      · obtain ⟨op, rate, g1, g2, g3⟩ := Init.C219_total (EsMut.uniform a.epsilon, a.uniformMut)
          [(.det a.epsilon, a.detMut), (.normal a.sigma, a.normalMut)] (by
          intro q hq
          simp only [Init.given, List.mem_cons, List.not_mem_nil, or_false] at hq
          rcases hq with rfl | rfl | rfl <;> assumption) (by
          simp only [Init.given, List.map_cons, List.map_nil, List.sum_cons, List.sum_nil]
          have : a.uniformMut + a.detMut + a.normalMut ≠ 0 := fun h => hM.1 h hm
          rw [add_zero, ← add_assoc]
          exact lt_of_le_of_ne (by linarith) (Ne.symm this)) hu hu1
        refine ⟨op, g1, ?_⟩
        simp only [Init.given, List.mem_cons, List.not_mem_nil, or_false, Prod.mk.injEq] at g2
        rcases g2 with ⟨rfl, rfl⟩ | ⟨rfl, rfl⟩ | ⟨rfl, rfl⟩ <;> exact ⟨g3, rfl⟩
      · rw [hE']; simp [hv, hc, hm]
      · rw [hE']; simp [hv, hc, hm]
    · have d1 : decide (a.segment + a.arithmetic = 0) = false := decide_eq_false (fun h => hC.1 h hc)
      have d2 : decide (a.uniformMut + a.detMut + a.normalMut = 0) = true := decide_eq_true (hM.2 hm)
      have hE' : makeEsOp a = .error .ub := by rw [hE, d1, d2]; rfl
      rw [hE']
      exact ⟨fun _ _ h => absurd h hm, by simp [hv, hc, hm], by simp [hv, hc, hm]⟩
    · have d1 : decide (a.segment + a.arithmetic = 0) = true := decide_eq_true (hC.2 hc)
      have d2 : decide (a.uniformMut + a.detMut + a.normalMut = 0) = false := decide_eq_false (fun h => hM.1 h hm)
      have hE' : makeEsOp a = .error .ub := by rw [hE, d1, d2]; rfl
      rw [hE']
      exact ⟨fun _ h _ => absurd h hc, by simp [hv, hc, hm], by simp [hv, hc, hm]⟩
    · have d1 : decide (a.segment + a.arithmetic = 0) = true := decide_eq_true (hC.2 hc)
      have d2 : decide (a.uniformMut + a.detMut + a.normalMut = 0) = true := decide_eq_true (hM.2 hm)
      have hE' : makeEsOp a = .error .thrown := by rw [hE, d1, d2]; rfl
      rw [hE']
      exact ⟨fun _ h _ => absurd h hc, by simp [hv, hc, hm], by simp [hv, hc, hm]⟩
  · have hE : makeEsOp a = .error .thrown := by
      unfold makeEsOp
      by_cases h1 : a.operator ≠ kw "SGA"
      · rw [if_pos h1]
      rw [if_neg h1]
      by_cases h2 : a.pCross < 0 ∨ 1 < a.pCross
      · rw [if_pos h2]
      rw [if_neg h2]
      by_cases h3 : a.pMut < 0 ∨ 1 < a.pMut
      · rw [if_pos h3]
      rw [if_neg h3]
      by_cases h4 : a.segment < 0
      · rw [if_pos h4]
      rw [if_neg h4]
      by_cases h5 : a.arithmetic < 0
      · rw [if_pos h5]
      rw [if_neg h5]
      by_cases h6 : a.epsilon < 0
      · rw [if_pos h6]
      rw [if_neg h6]
      by_cases h7 : a.uniformMut < 0
      · rw [if_pos h7]
      rw [if_neg h7]
      by_cases h8 : a.detMut < 0
      · rw [if_pos h8]
      rw [if_neg h8]
      by_cases h9 : a.normalMut < 0
      · rw [if_pos h9]
      rw [if_neg h9]
      by_cases h10 : a.sigma < 0
      · rw [if_pos h10]
      rw [if_neg h10]
      exfalso
      exact hv ⟨not_not.1 h1, not_lt.1 (not_or.1 h2).1, not_lt.1 (not_or.1 h2).2, not_lt.1 (not_or.1 h3).1,
        not_lt.1 (not_or.1 h3).2, not_lt.1 h4, not_lt.1 h5, not_lt.1 h6, not_lt.1 h7, not_lt.1 h8, not_lt.1 h9,
        not_lt.1 h10⟩
    rw [hE]
    exact ⟨fun h => absurd h hv, by simp [hv], by simp [hv]⟩

/-- Mutation only: legal parameters, undefined behaviour. -/
example : makeEsOp ⟨kw "SGA", 0, 1, 0, 0, 1 / 100, 1, 1, 1, 1⟩ = .error .ub := by
  refine (C264_es _).2.1.2 ?_
  simp only [EsArgs.Valid, EsArgs.crosses, EsArgs.mutates]
  norm_num

/-! ### C265: general replacements -/

section General

variable {α F : Type} [LinearOrder F]

theorem Reduce.exact (E : Env α F) (hE : E.Lawful) (r : Reduce) : Exact (r.run E) := by
  cases r with
  | truncate => exact (C50_all_exact E.f E.sort E.shuffle hE.sort hE.shuffle 0 E.r E.flip E.fuel E.nthEP hE.nthEP).1
  | ep n => exact (C50_all_exact E.f E.sort E.shuffle hE.sort hE.shuffle n E.r E.flip E.fuel E.nthEP hE.nthEP).2.2.1
  | det n => exact (C50_all_exact E.f E.sort E.shuffle hE.sort hE.shuffle n E.r E.flip E.fuel E.nthEP hE.nthEP).2.2.2.2.1
  | stoch p => exact (C50_all_exact E.f E.sort E.shuffle hE.sort hE.shuffle 0 E.r E.flip E.fuel E.nthEP hE.nthEP).2.2.2.2.2
  | random => exact (C50_all_exact E.f E.sort E.shuffle hE.sort hE.shuffle 0 E.r E.flip E.fuel E.nthEP hE.nthEP).2.1

/-- **C265** (size).  Every general replacement keeps the size of the population. -/
theorem C265_size (E : Env α F) (hE : E.Lawful) (g : General) (parents offspring res off : List α)
    (h : g.run E parents offspring = .ok (res, off)) : res.length = parents.length :=
  C74_size E.f E.nth hE.nth E.sort hE.sort _ _ _ _ _ _ _ (Reduce.exact E hE _) (Reduce.exact E hE _)
    (Reduce.exact E hE _) parents offspring res off h

theorem eval_zero (n : Nat) : (⟨0, 0⟩ : HowMany).eval n = .ok 0 := by simp [HowMany.eval]
theorem eval_all (n : Nat) : (⟨1, 0⟩ : HowMany).eval n = .ok n := by
  simp [HowMany.eval]

/-- The names with the effect of the (mu, lambda) evolution strategy. -/
def commaNames : List Text := [kw "General", kw "ESComma", kw "Generational"]

/-- **C265** (comma).  `General`, `ESComma` and `Generational` are the same: the best of the offspring, as many as there
are parents; with fewer offspring an exception. -/
theorem C265_comma (E : Env α F) (hE : E.Lawful) (atof : Text → ℚ) (pp : PP) (hk : pp.key ∈ commaNames) :
    ∃ g, easeaReplace atof pp = .ok g ∧ ∀ parents offspring : List α, offspring ≠ [] →
      (offspring.length < parents.length → g.run E parents offspring = .error .thrown) ∧
      (parents.length ≤ offspring.length → ∃ kept, g.run E parents offspring = .ok (kept, offspring) ∧
        kept.length = parents.length ∧ BestOf E.f kept offspring) := by
  refine ⟨.preset, ?_, ?_⟩
  · unfold easeaReplace
    rw [if_pos]
    simpa [commaNames] using hk
  · intro parents offspring ho
    have hlen : offspring.length ≠ 0 := fun h => ho (List.eq_nil_of_length_eq_zero h)
    have hrun : General.preset.run E parents offspring =
        match (if offspring.length ≠ parents.length then EO.truncate E.sort offspring parents.length else .ok offspring :
            Except Err (List α)) with
        | .error e => .error e
        | .ok par => .ok (par, offspring) := by
      simp only [General.run, General.preset, reduceMergeReduce, eval_zero, eval_all, Reduce.run, hlen, if_true, if_false,
        List.nil_append, ne_eq, not_true_eq_false, false_and, not_lt_zero', Nat.not_lt_zero]
      rfl
    rw [hrun]
    obtain ⟨t1, t2⟩ := C50_truncate E.f E.sort hE.sort offspring parents.length
    constructor
    · intro hl
      rw [if_pos (by omega), t1 hl]
    · intro hl
      by_cases he : offspring.length = parents.length
      · rw [if_neg (not_not.2 he)]
        exact ⟨offspring, rfl, he, BestOf.refl _ _⟩
      · obtain ⟨kept, g1, g2, g3⟩ := t2 hl
        rw [if_pos he, g1]
        exact ⟨kept, rfl, g2, g3⟩

/-- **C265** (plus).  `ESPlus` keeps the best of parents and offspring together. -/
theorem C265_plus (E : Env α F) (hE : E.Lawful) (atof : Text → ℚ) (args : List Text) :
    ∃ g, easeaReplace atof ⟨kw "ESPlus", args⟩ = .ok g ∧ ∀ parents offspring : List α, offspring ≠ [] →
      ∃ kept, g.run E parents offspring = .ok (kept, offspring) ∧ kept.length = parents.length ∧
        BestOf E.f kept (parents ++ offspring) ∧ ∀ p ∈ parents, parents ≠ [] → ∃ q ∈ kept, E.f p ≤ E.f q := by
  refine ⟨{ General.preset with parents := ⟨1, 0⟩ }, rfl, ?_⟩
  intro parents offspring ho
  have hlen : offspring.length ≠ 0 := fun h => ho (List.eq_nil_of_length_eq_zero h)
  have hrun : ({ General.preset with parents := ⟨1, 0⟩ } : General).run E parents offspring =
      match EO.truncate E.sort (parents ++ offspring) parents.length with
      | .error e => .error e
      | .ok par => .ok (par, offspring) := by
    have h1 : (if parents.length = 0 then .ok [] else .ok parents : Except Err (List α)) = .ok parents := by
      cases parents <;> rfl
    simp only [General.run, General.preset, reduceMergeReduce, eval_zero, eval_all, Reduce.run, hlen, if_true, if_false,
      ne_eq, not_true_eq_false, false_and, Nat.not_lt_zero, List.drop_zero, h1, List.length_append]
    rw [if_pos (by omega)]
    rfl
  obtain ⟨kept, g1, g2, g3⟩ := (C50_truncate E.f E.sort hE.sort (parents ++ offspring) parents.length).2 (by simp)
  rw [hrun, g1]
  refine ⟨kept, rfl, g2, g3, ?_⟩
  intro p hp hne
  obtain ⟨dropped, e1, e2⟩ := g3
  have hmem : p ∈ kept ++ dropped := e1.mem_iff.2 (List.mem_append_left _ hp)
  rcases List.mem_append.1 hmem with h | h
  · exact ⟨p, h, le_rfl⟩
  · cases kept with
    | nil => exact absurd (List.eq_nil_of_length_eq_zero g2.symm) hne
    | cons q l => exact ⟨q, by simp, e2 q (by simp) p h⟩

/-- **C265** (evolutionary programming).  `EP(T)` keeps individuals of parents and offspring chosen by tournaments of the
size `T`; without argument of the size 6. -/
theorem C265_ep (atof : Text → ℚ) (args : List Text) :
    easeaReplace atof ⟨kw "EP", args⟩ =
      .ok ⟨⟨0, 0⟩, false, ⟨1, 0⟩, .truncate, ⟨1, 0⟩, .truncate, .ep (match args with | [] => 6 | a :: _ => atou a)⟩ := by
  cases args <;> rfl

/-- **C265** (steady state).  `SSGA(t)` is refused if `t` is at most one half or strictly between 1 and 2; else one parent
is removed by the tournament and the best of the offspring takes its place. -/
theorem C265_ssga (E : Env α F) (hE : E.Lawful) (atof : Text → ℚ) (a : Text) (more : List Text) :
    (atof a ≤ 1 / 2 ∨ 1 < atof a ∧ atof a < 2 → easeaReplace atof ⟨kw "SSGA", a :: more⟩ = .error .thrown) ∧
    (¬ (atof a ≤ 1 / 2 ∨ 1 < atof a ∧ atof a < 2) →
      ∃ g, easeaReplace atof ⟨kw "SSGA", a :: more⟩ = .ok g ∧
        g.redParents = (if 2 ≤ atof a then .det (atou a) else .stoch (atof a)) ∧
        ∀ parents offspring res off : List α, g.run E parents offspring = .ok (res, off) →
          ∃ kept best, res = kept ++ [best] ∧ kept.Subperm parents ∧ kept.length + 1 = parents.length ∧
            best ∈ offspring ∧ ∀ x ∈ offspring, E.f x ≤ E.f best) := by
  have hshape : easeaReplace atof ⟨kw "SSGA", a :: more⟩ =
      match decodeReduce atof (if 2 ≤ atof a then ⟨kw "DetTour", [a]⟩ else ⟨kw "StochTour", [a]⟩) with
      | .error e => .error e
      | .ok red => .ok { General.preset with parents := ⟨0, -1⟩, redParents := red, offspring := ⟨0, 1⟩ } := rfl
  have hdet : decodeReduce atof ⟨kw "DetTour", [a]⟩ = .ok (.det (atou a)) := rfl
  have hst : decodeReduce atof ⟨kw "StochTour", [a]⟩ =
      if atof a ≤ 1 / 2 ∨ 1 < atof a then .error .thrown else .ok (.stoch (atof a)) := rfl
  constructor
  · intro h
    have h2 : ¬ 2 ≤ atof a := by
      rcases h with h | h
      · intro h2; linarith
      · exact not_le.2 h.2
    rw [hshape, if_neg h2, hst, if_pos (by tauto)]
  · intro h
    push Not at h
    have hred : ∃ red, decodeReduce atof (if 2 ≤ atof a then ⟨kw "DetTour", [a]⟩ else ⟨kw "StochTour", [a]⟩) = .ok red ∧
        red = (if 2 ≤ atof a then .det (atou a) else .stoch (atof a)) := by
      by_cases h2 : 2 ≤ atof a
      · rw [if_pos h2, if_pos h2]
        exact ⟨_, hdet, rfl⟩
      · rw [if_neg h2, if_neg h2, hst, if_neg]
        · exact ⟨_, rfl, rfl⟩
        · rintro (h3 | h3)
          · exact absurd h3 (not_le.2 h.1)
          · exact h2 (h.2 h3)
    obtain ⟨red, hr1, hr2⟩ := hred
    refine ⟨{ General.preset with parents := ⟨0, -1⟩, redParents := red, offspring := ⟨0, 1⟩ },
      by rw [hshape, hr1], hr2, ?_⟩
    intro parents offspring res off hrun
    simp only [General.run, General.preset, reduceMergeReduce, eval_zero, if_true, Nat.not_lt_zero, if_false,
      List.drop_zero] at hrun
    by_cases hp : parents = []
    · subst hp
      have : (⟨0, -1⟩ : HowMany).eval 0 = .error .thrown := by decide +kernel
      rw [List.length_nil, this] at hrun
      cases hrun
    · have hpl : 0 < parents.length := List.length_pos_iff.2 hp
      have hev : (⟨0, -1⟩ : HowMany).eval parents.length = .ok (parents.length - 1) := by
        simp only [HowMany.eval]
        rw [if_neg (by decide), if_pos (by decide), if_neg]
        · rfl
        · show ¬ parents.length < 1
          omega
      have hev1 : (⟨0, 1⟩ : HowMany).eval offspring.length = .ok 1 := by
        simp only [HowMany.eval]
        rw [if_neg (by decide), if_neg (by decide)]
        rfl
      rw [hev] at hrun
      dsimp only at hrun
      -- the parents that stay
      obtain ⟨par, hpar, hparl, hpars⟩ : ∃ par, (if parents.length - 1 = 0 then .ok []
          else if parents.length - 1 ≠ parents.length then red.run E parents (parents.length - 1) else .ok parents :
          Except Err (List α)) = .ok par ∧ par.length + 1 = parents.length ∧ par.Subperm parents := by
        cases hx : (if parents.length - 1 = 0 then .ok []
          else if parents.length - 1 ≠ parents.length then red.run E parents (parents.length - 1) else .ok parents :
          Except Err (List α)) with
        | error e => rw [hx] at hrun; cases hrun
        | ok par =>
          refine ⟨par, rfl, ?_⟩
          split_ifs at hx with h0 h1
          · cases hx
            exact ⟨by simp; omega, List.nil_subperm⟩
          · obtain ⟨e1, e2⟩ := Reduce.exact E hE red _ _ _ hx
            exact ⟨by omega, e2⟩
          · exact absurd (not_not.1 h1) (by omega)
      rw [hpar, hev1] at hrun
      dsimp only at hrun
      rw [if_neg (by decide)] at hrun
      -- the best of the offspring
      obtain ⟨best, hbest, hmem, hmax⟩ : ∃ best, (if 1 ≠ offspring.length then Reduce.truncate.run E offspring 1
          else .ok offspring : Except Err (List α)) = .ok [best] ∧ best ∈ offspring ∧ ∀ x ∈ offspring, E.f x ≤ E.f best := by
        cases hx : (if 1 ≠ offspring.length then Reduce.truncate.run E offspring 1
          else .ok offspring : Except Err (List α)) with
        | error e => rw [hx] at hrun; cases hrun
        | ok o =>
          split_ifs at hx with h1
          · rcases Nat.lt_or_ge offspring.length 1 with hl | hl
            · have := (C50_truncate E.f E.sort hE.sort offspring 1).1 hl
              rw [show Reduce.truncate.run E offspring 1 = EO.truncate E.sort offspring 1 from rfl, this] at hx
              cases hx
            · obtain ⟨kept, g1, g2, dropped, g3, g4⟩ := (C50_truncate E.f E.sort hE.sort offspring 1).2 hl
              rw [show Reduce.truncate.run E offspring 1 = EO.truncate E.sort offspring 1 from rfl, g1] at hx
              cases hx
              obtain ⟨b, rfl⟩ := List.length_eq_one_iff.1 g2
              refine ⟨b, rfl, g3.mem_iff.1 (by simp), ?_⟩
              intro x hx
              rcases List.mem_append.1 (g3.mem_iff.2 hx) with h | h
              · rw [List.mem_singleton.1 h]
              · exact g4 b (by simp) x h
          · cases hx
            obtain ⟨b, hb⟩ := List.length_eq_one_iff.1 (not_not.1 h1).symm
            subst hb
            exact ⟨b, rfl, by simp, by simp⟩
      rw [hbest] at hrun
      have hl : (par ++ [best]).length = parents.length := by rw [List.length_append, List.length_singleton, hparl]
      simp only [ne_eq, not_true_eq_false, false_and, if_false, hl, if_true, Except.ok.injEq, Prod.mk.injEq] at hrun
      exact ⟨par, best, hrun.1.symm, hpars, hparl, hmem, hmax⟩

/-- `SSGA(1.5)` is refused, `SSGA(3)` is a tournament of three. -/
example : easeaReplace (fun _ => 3 / 2) ⟨kw "SSGA", [kw "1.5"]⟩ = .error .thrown :=
  ((C265_ssga (α := Nat) (F := Nat) ⟨id, fun n l => (l.mergeSort (fun a b => decide (b ≤ a))), fun _ l => l.mergeSort (fun a b =>
    decide (epKey id b ≤ epKey id a)), fun l => l.mergeSort (fun a b => decide (b ≤ a)), id, id, fun _ => true, 0⟩
    ⟨isSort_mergeSort _, isNth_of_isSort (isSort_mergeSort _), isNth_of_isSort (isSort_mergeSort _), fun l => List.Perm.refl l⟩
    (fun _ => 3 / 2) (kw "1.5") []).1 (by norm_num))

end General

/-! ### C266: the niche size -/

/-- The value of a sequence of digits. -/
def digitsValue (ds : List Char) : Nat := Nat.ofDigits 10 (ds.reverse.map fun c => c.toNat - 48)

theorem atoiLoop_digits (ds rest : Text) (hd : ∀ c ∈ ds, c.isDigit = true)
    (hr : ∀ c ∈ rest.head?, c.isDigit = false) : ∀ n, atoiLoop n (ds ++ rest) = n * 10 ^ ds.length + digitsValue ds := by
  induction ds with
  | nil =>
    intro n
    cases rest with
    | nil => simp [atoiLoop, digitsValue]
    | cons c l => simp [atoiLoop, hr c (by simp), digitsValue]
  | cons d ds ih =>
    intro n
    rw [List.cons_append, atoiLoop, if_pos (hd d (by simp)), ih (fun c hc => hd c (by simp [hc]))]
    unfold digitsValue
    rw [List.reverse_cons, List.map_append, Nat.ofDigits_append]
    simp only [List.map_cons, List.map_nil, Nat.ofDigits_singleton, List.length_map, List.length_reverse,
      List.length_cons, pow_succ]
    ring

/-- **C266** (truncated).  The niche size of `Sharing(x)` in make_ea_moeo is the integer part of `x`. -/
theorem C266_truncated (ds rest : Text) (hne : ds ≠ []) (hd : ∀ c ∈ ds, c.isDigit = true)
    (hr : ∀ c ∈ rest.head?, c.isDigit = false) (key : Text) (more : List Text) :
    moeoNiche ⟨key, (ds ++ rest) :: more⟩ = (digitsValue ds : ℚ) := by
  cases ds with
  | nil => exact absurd rfl hne
  | cons d ds =>
    have hdig := hd d (by simp)
    have h1 : d.isWhitespace = false := by
      cases hw : d.isWhitespace with
      | false => rfl
      | true =>
        exfalso
        simp only [Char.isWhitespace, Bool.or_eq_true, decide_eq_true_eq, beq_iff_eq] at hw
        rcases hw with ((h | h) | h) | h <;> rw [h] at hdig <;> exact absurd hdig (by decide)
    have h2 : d ≠ '-' := by rintro rfl; exact absurd hdig (by decide)
    have h3 : d ≠ '+' := by rintro rfl; exact absurd hdig (by decide)
    have : atoi ((d :: ds) ++ rest) = (atoiLoop 0 ((d :: ds) ++ rest) : Int) := by
      unfold atoi
      rw [List.cons_append, List.dropWhile_cons, h1]
      simp only [Bool.false_eq_true, if_false, if_neg h2, if_neg h3]
    show ((atoi ((d :: ds) ++ rest) : Int) : ℚ) = _
    rw [this, atoiLoop_digits _ _ hd hr, zero_mul, zero_add]
    norm_num

/-- A minus sign in front of digits. -/
theorem atoi_minus (ds rest : Text) (hd : ∀ c ∈ ds, c.isDigit = true) (hr : ∀ c ∈ rest.head?, c.isDigit = false) :
    atoi ('-' :: (ds ++ rest)) = -(digitsValue ds : Int) := by
  have : atoi ('-' :: (ds ++ rest)) = -(atoiLoop 0 (ds ++ rest) : Int) := rfl
  rw [this, atoiLoop_digits _ _ hd hr, zero_mul, zero_add]

/-- **C266** (negative).  A minus sign gives the opposite of the integer part. -/
theorem C266_negative (ds rest : Text) (hd : ∀ c ∈ ds, c.isDigit = true)
    (hr : ∀ c ∈ rest.head?, c.isDigit = false) (key : Text) (more : List Text) :
    moeoNiche ⟨key, ('-' :: (ds ++ rest)) :: more⟩ = -(digitsValue ds : ℚ) := by
  show ((atoi ('-' :: (ds ++ rest)) : Int) : ℚ) = _
  rw [atoi_minus _ _ hd hr]
  push_cast
  rfl

/-- **C261** (negative tournament).  A negative size of a tournament is not refused: `DetTour(-n)` is a tournament of
2^32 - n competitors. -/
theorem C261_negative (atof : Text → ℚ) (dist : Bool) (ds : Text) (hd : ∀ c ∈ ds, c.isDigit = true) (more : List Text)
    (h0 : 0 < digitsValue ds) (h1 : digitsValue ds < 2 ^ 31) :
    makeSelect atof dist ⟨kw "DetTour", ('-' :: ds) :: more⟩ = .ok (.det (2 ^ 32 - digitsValue ds), ('-' :: ds) :: more) := by
  have h2 := atoi_minus ds [] hd (by simp)
  rw [List.append_nil] at h2
  unfold makeSelect
  rw [if_pos rfl]
  simp only [arg1, atou, toUnsigned, h2]
  generalize digitsValue ds = n at *
  have : max ((-(n : Int) % 2 ^ 32).toNat) 2 = 2 ^ 32 - n := by omega
  rw [this]

/-- **C261** (sequential).  `Sequential` goes through the population by decreasing fitness unless its argument is exactly
`unordered`. -/
theorem C261_sequential (atof : Text → ℚ) (dist : Bool) (args : List Text) :
    ∃ b args', makeSelect atof dist ⟨kw "Sequential", args⟩ = .ok (.sequential b, args') ∧
      (b = false ↔ args.head? = some (kw "unordered")) := by
  refine ⟨_, _, rfl, ?_⟩
  cases args with
  | nil => simp [arg1]
  | cons a l => simp [arg1]

example : makeSelect (fun _ => 0) false ⟨kw "DetTour", [kw "-1"]⟩ = .ok (.det 4294967295, [kw "-1"]) := by rfl

/-- **C266** (off).  So every niche size below one is taken as 0, and then everybody has the diversity 0: sharing is
switched off without a word.  Without argument the niche size is one half. -/
theorem C266_off (rest : Text) (key : Text) (more : List Text) :
    moeoNiche ⟨key, ('0' :: '.' :: rest) :: more⟩ = 0 ∧ moeoNiche ⟨key, []⟩ = 1 / 2 ∧
    ∀ {V : Type} [DecidableEq V] (n : Nat) (pw : ℚ → ℚ) (fit : Nat → V) (dist : Nat → Nat → ℚ), 0 < n →
      (∀ i j, 0 ≤ dist i j) →
      ∃ f, Diversity.frontSharing n (moeoNiche ⟨key, ('0' :: '.' :: rest) :: more⟩) pw fit dist = some f ∧
        ∀ i, f i = 0 := by
  have h0 : moeoNiche ⟨key, ('0' :: '.' :: rest) :: more⟩ = 0 := by
    have := C266_truncated ['0'] ('.' :: rest) (by simp) (by decide) (by simp) key more
    rw [List.singleton_append] at this
    rw [this]
    rfl
  refine ⟨h0, rfl, ?_⟩
  intro V _ n pw fit dist hn hpos
  rw [h0]
  have hmat : ∀ i j, ¬ Diversity.frontMatrix 0 fit (Diversity.dMatrix dist) i j < 0 := by
    intro i j
    unfold Diversity.frontMatrix Diversity.dMatrix
    split_ifs
    · exact lt_irrefl _
    · exact lt_irrefl _
    · exact not_lt.2 (hpos _ _)
    · exact not_lt.2 (hpos _ _)
  have hrow : ∀ i, Diversity.rowSum n 0 pw (Diversity.frontMatrix 0 fit (Diversity.dMatrix dist)) i = 0 := by
    intro i
    unfold Diversity.rowSum
    generalize List.range n = l
    induction l with
    | nil => rfl
    | cons j l ih =>
      rw [List.foldl_cons, Diversity.sh, if_neg (hmat i j), add_zero]
      exact ih
  unfold Diversity.frontSharing Diversity.share
  rw [if_neg (by omega)]
  refine ⟨_, rfl, ?_⟩
  intro i
  rw [hrow i, sub_zero]
  have : ∀ l : List Nat, l.foldl (fun a i =>
      if a < Diversity.rowSum n 0 pw (Diversity.frontMatrix 0 fit (Diversity.dMatrix dist)) i then
        Diversity.rowSum n 0 pw (Diversity.frontMatrix 0 fit (Diversity.dMatrix dist)) i else a) (0 : ℚ) = 0 := by
    intro l
    induction l with
    | nil => rfl
    | cons j l ih =>
      rw [List.foldl_cons, hrow j, if_neg (lt_irrefl _)]
      exact ih
  rw [hrow 0]
  exact this _

example : moeoNiche ⟨kw "Sharing", [kw "12.7"]⟩ = 12 := by
  have := C266_truncated (kw "12") (kw ".7") (by decide) (by decide) (by decide) (kw "Sharing") []
  rw [show kw "12.7" = kw "12" ++ kw ".7" by decide, this, show digitsValue (kw "12") = 12 by decide]
  norm_num

end Paradiseo.Factory
