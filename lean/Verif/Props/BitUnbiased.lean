/-
Property C393: the bit-string operators treat zeros and ones alike, and so do genetic algorithms made of them.
-/
import Verif.Model.BitMut
import Verif.Props.EasyEAInvariance

namespace Paradiseo.Ops
open Paradiseo.EO (Err)

/-- The string with the bits of a mask complemented: position `i` is complemented iff `m i`. -/
def mask (m : Nat → Bool) (l : List Bool) : List Bool := l.mapIdx fun i x => x ^^ m i

/-- Both strings. -/
def mask2 (m : Nat → Bool) (c : List Bool × List Bool) : List Bool × List Bool := (mask m c.1, mask m c.2)

variable (m : Nat → Bool)

@[simp] theorem mask_length (l : List Bool) : (mask m l).length = l.length := by simp [mask]

theorem mask_mask (l : List Bool) : mask m (mask m l) = l := by
  apply List.ext_getElem?
  intro i
  simp only [mask, List.getElem?_mapIdx]
  cases l[i]? <;> simp

theorem mask_inj {l l' : List Bool} : mask m l = mask m l' ↔ l = l' :=
  ⟨fun h => by rw [← mask_mask m l, h, mask_mask], fun h => h ▸ rfl⟩

theorem mask_take (l : List Bool) (k : Nat) : (mask m l).take k = mask m (l.take k) := by
  apply List.ext_getElem?
  intro i
  simp only [mask, List.getElem?_take, List.getElem?_mapIdx]
  split_ifs <;> simp

theorem mask_set (l : List Bool) (i : Nat) (x : Bool) : (mask m l).set i (x ^^ m i) = mask m (l.set i x) := by
  apply List.ext_getElem?
  intro j
  simp only [mask, List.getElem?_set, List.getElem?_mapIdx, List.length_mapIdx]
  split_ifs with h1 h2
  · subst h1; simp
  · simp
  · rfl

theorem rd_mask (l : List Bool) (i : Nat) : rd (mask m l) i = (rd l i).map (· ^^ m i) := by
  simp only [rd, mask, List.getElem?_mapIdx]
  cases l[i]? <;> rfl

theorem foldlM_comm {α β β' : Type} (μ : β → β') {g : β → α → Except Err β} {g' : β' → α → Except Err β'}
    (h : ∀ s i, g' (μ s) i = (g s i).map μ) : ∀ (l : List α) (s : β), l.foldlM g' (μ s) = (l.foldlM g s).map μ
  | [], _ => rfl
  | a :: l, s => by
    rw [List.foldlM_cons, List.foldlM_cons, h]
    cases g s a with
    | error e => rfl
    | ok b => exact foldlM_comm μ h l b

theorem flipBit_mask (l : List Bool) (i : Nat) : flipBit (mask m l) i = (flipBit l i).map (mask m) := by
  simp only [flipBit, rd_mask]
  rcases rd l i with e | b
  · rfl
  · simp only [Except.map]
    rw [← mask_set]
    cases b <;> cases m i <;> rfl

theorem detSingleBitFlip_mask (r : Nat → Nat) (k : Nat) (l : List Bool) :
    detSingleBitFlip r k (mask m l) = (detSingleBitFlip r k l).map (Prod.map (mask m) id) := by
  simp only [detSingleBitFlip, mask_length]
  rcases shuffleIdx r l.length with e | idx
  · rfl
  · simp only
    split_ifs
    · rw [foldlM_comm (mask m) (flipBit_mask m)]
      cases List.foldlM flipBit l (idx.take k) <;> rfl
    · rfl

theorem bitMutationAux_mask (b : Nat → Bool) : ∀ (l : List Bool) (i : Nat),
    bitMutationAux b i (l.mapIdx fun j x => x ^^ m (i + j)) =
      ((bitMutationAux b i l).1.mapIdx (fun j x => x ^^ m (i + j)), (bitMutationAux b i l).2)
  | [], _ => rfl
  | x :: l, i => by
    have ih := bitMutationAux_mask b l (i + 1)
    have e : (fun j (x : Bool) => x ^^ m (i + (j + 1))) = fun j x => x ^^ m (i + 1 + j) := by
      funext j x; rw [show i + (j + 1) = i + 1 + j by omega]
    simp only [List.mapIdx_cons, bitMutationAux, e, ih]
    split_ifs
    · simp [e]
    · simp [e]

/-- **C393**: complementing positions before a mutation is complementing them after it, the draws being the same: the mutations that flip one
bit, given numbers of bits with or without repetition, each bit by a coin, and those that draw the number of bits first.  They also answer
the same and fail alike. -/
theorem C393_mutations (r : Nat → Nat) (k : Nat) (l : List Bool) (b : Nat → Bool) (ws : Nat → Rng.W) (w : Rng.W) (fuel : Nat) (rate z : ℚ)
    (wt : Nat → ℚ) :
    oneBitFlip r (mask m l) = (oneBitFlip r l).map (mask m) ∧
    detBitFlip r k (mask m l) = (detBitFlip r k l).map (mask m) ∧
    detSingleBitFlip r k (mask m l) = (detSingleBitFlip r k l).map (Prod.map (mask m) id) ∧
    bitMutation b (mask m l) = Prod.map (mask m) id (bitMutation b l) ∧
    BitMut.standard ws r rate (mask m l) = (BitMut.standard ws r rate l).map (Prod.map id (Prod.map (mask m) id)) ∧
    BitMut.uniformBits w r (mask m l) = (BitMut.uniformBits w r l).map (Prod.map (mask m) id) ∧
    BitMut.conditional ws r fuel rate (mask m l) = (BitMut.conditional ws r fuel rate l).map (Prod.map id (Prod.map (mask m) id)) ∧
    BitMut.shifted ws r rate (mask m l) = (BitMut.shifted ws r rate l).map (Prod.map id (Prod.map (mask m) id)) ∧
    BitMut.normalBits z w r (mask m l) = (BitMut.normalBits z w r l).map (Prod.map (mask m) id) ∧
    BitMut.fast wt w ws r (mask m l) = (BitMut.fast wt w ws r l).map (Prod.map (mask m) id) := by
  have hd := detSingleBitFlip_mask m r
  refine ⟨?_, ?_, hd k l, ?_, ?_, ?_, ?_, ?_, ?_, ?_⟩
  · simp only [oneBitFlip, mask_length, flipBit_mask]
  · exact foldlM_comm (mask m) (fun s t => by rw [mask_length, flipBit_mask]) _ _
  · have := bitMutationAux_mask m b l 0
    simp only [Nat.zero_add] at this
    exact this
  · simp only [BitMut.standard, mask_length, hd]
    split_ifs
    · rfl
    · cases detSingleBitFlip r _ l <;> rfl
  · simp only [BitMut.uniformBits, mask_length, hd]
  · simp only [BitMut.conditional, mask_length, hd]
    split_ifs
    · rfl
    · rcases BitMut.condLoop ws l.length (BitMut.fixRate rate l.length) fuel 0 with _ | k
      · rfl
      · simp only
        cases detSingleBitFlip r k l <;> rfl
  · simp only [BitMut.shifted, mask_length, hd]
    split_ifs
    · rfl
    · cases detSingleBitFlip r _ l <;> rfl
    · cases detSingleBitFlip r _ l <;> rfl
  · simp only [BitMut.normalBits, mask_length, hd]
    split_ifs <;> rfl
  · simp only [BitMut.fast, mask_length, hd]

theorem swapGene_mask (c : List Bool × List Bool) (i : Nat) : swapGene (mask2 m c) i = (swapGene c i).map (mask2 m) := by
  simp only [swapGene, mask2, rd_mask]
  rcases rd c.1 i with e | a <;> rcases rd c.2 i with e' | b
  · rfl
  · rfl
  · rfl
  · simp only [Except.map, mask_set, mask2]

theorem swapRange_mask (c : List Bool × List Bool) (a n : Nat) : swapRange (mask2 m c) a n = (swapRange c a n).map (mask2 m) :=
  foldlM_comm (mask2 m) (swapGene_mask m) _ _

/-- **C393**: the same for the crossovers at one point, uniform, at several points and between genes, both parents being complemented at the
same positions. -/
theorem C393_crossovers (r : Nat → Nat) (b : Nat → Bool) (fuel n g : Nat) (c : List Bool × List Bool) :
    onePtXover r (mask2 m c) = (onePtXover r c).map (Prod.map (mask2 m) id) ∧
    uXover b (mask2 m c) = (uXover b c).map (Prod.map (mask2 m) id) ∧
    nPtsXover r fuel n (mask2 m c) = (nPtsXover r fuel n c).map (mask2 m) ∧
    gXover r fuel g n (mask2 m c) = (gXover r fuel g n c).map (mask2 m) := by
  refine ⟨?_, ?_, ?_, ?_⟩
  · have h1 : (mask2 m c).1.take (rnd r 0 (min c.1.length c.2.length)) = mask m (c.1.take (rnd r 0 (min c.1.length c.2.length))) :=
      mask_take m _ _
    have h2 : (mask2 m c).2.take (rnd r 0 (min c.1.length c.2.length)) = mask m (c.2.take (rnd r 0 (min c.1.length c.2.length))) :=
      mask_take m _ _
    have h0 : min (mask2 m c).1.length (mask2 m c).2.length = min c.1.length c.2.length := by simp [mask2]
    simp only [onePtXover, h0, h1, h2, ne_eq, mask_inj, swapRange_mask]
    split_ifs
    · rfl
    · cases swapRange c 0 (rnd r 0 (min c.1.length c.2.length)) <;> rfl
  · have := foldlM_comm (fun s : Nat × (List Bool × List Bool) × Bool => (s.1, mask2 m s.2.1, s.2.2)) (g := uXoverStep b) (g' := uXoverStep b)
      (fun s i => by
        simp only [uXoverStep, mask2, rd_mask]
        rcases rd s.2.1.1 i with e | x <;> rcases rd s.2.1.2 i with e' | y
        · rfl
        · rfl
        · rfl
        · simp only [Except.map, ne_eq, mask_set]
          have hx : ((x ^^ m i) = (y ^^ m i)) ↔ x = y := by cases x <;> cases y <;> cases m i <;> simp
          simp only [hx]
          by_cases hxy : x = y
          · simp [hxy]
          · cases b s.1 <;> simp [hxy]) (List.range c.1.length) (0, c, false)
    have h0 : (mask2 m c).1.length = c.1.length := by simp [mask2]
    simp only [uXover, h0, this]
    rcases List.foldlM (uXoverStep b) (0, c, false) (List.range c.1.length) with e | s <;> rfl
  · have h0 : min (mask2 m c).1.length (mask2 m c).2.length = min c.1.length c.2.length := by simp [mask2]
    simp only [nPtsXover, h0]
    rcases choosePoints r fuel 0 (List.replicate (min c.1.length c.2.length) false)
      (min (if min c.1.length c.2.length = 0 then 2 ^ 32 - 1 else min c.1.length c.2.length - 1) n) with e | points
    · rfl
    · simp only
      have := foldlM_comm (fun s : (List Bool × List Bool) × Bool => (mask2 m s.1, s.2)) (g := nPtsStep points) (g' := nPtsStep points)
        (fun s i => by
          simp only [nPtsStep, swapGene_mask]
          split_ifs <;> first | rfl | (cases swapGene s.1 i <;> rfl)) (List.range' 1 (points.length - 1)) (c, false)
      rw [this]
      rcases List.foldlM (nPtsStep points) (c, false) (List.range' 1 (points.length - 1)) with e | s <;> rfl
  · have h0 : min (mask2 m c).1.length (mask2 m c).2.length = min c.1.length c.2.length := by simp [mask2]
    simp only [gXover, h0]
    split_ifs
    · rfl
    · rcases choosePoints r fuel 0 (List.replicate (min c.1.length c.2.length / g) false) (min (min c.1.length c.2.length / g) n) with e | points
      · rfl
      · exact foldlM_comm (mask2 m) (fun s i => by split_ifs <;> first | exact swapRange_mask m _ _ _ | rfl) _ _

/-- **C393**, and no more: inversion of a segment, and counting up in binary, do not treat zeros and ones alike. -/
theorem C393_not_inversion : ∃ (m : Nat → Bool) (r : Nat → Nat) (l : List Bool),
    bitInversion r 3 (mask m l) ≠ (bitInversion r 3 l).map (mask m) ∧ bitNext (mask m l) ≠ mask m (bitNext l) := by
  refine ⟨fun i => i == 1, fun t => if t = 0 then 0 else 2, [false, false], ?_⟩
  decide +kernel

end Paradiseo.Ops

namespace Paradiseo.Run
open Paradiseo.EO Paradiseo.Ops

/-- The operators as the breeding uses them; an operator that fails ends the run, here it leaves the string. -/
def mutOf (o : Nat → List Bool → Except Err (List Bool × Bool)) (k : Nat) (x : List Bool) : Bool × List Bool :=
  match o k x with
  | .ok (y, b) => (b, y)
  | .error _ => (false, x)
def crossOf (o : Nat → List Bool × List Bool → Except Err ((List Bool × List Bool) × Bool)) (k : Nat) (x y : List Bool) :
    Bool × List Bool × List Bool :=
  match o k (x, y) with
  | .ok (c, b) => (b, c)
  | .error _ => (false, x, y)

/-- A genetic algorithm: tournaments, uniform or one-point crossover, the mutation by coins or by number of bits, any replacement of C392 and a
continuator that counts. -/
def bitGA {F : Type} [LinearOrder F] [Inhabited F] (f : List Bool → F) (t : Nat) (r : Nat → Nat → Nat → Nat) (u : Nat → Nat → ℚ)
    (cross : Nat → List Bool × List Bool → Except Err ((List Bool × List Bool) × Bool)) (pCross : ℚ)
    (mutn : Nat → List Bool → Except Err (List Bool × Bool)) (pMut : ℚ) (R : Replacement (Ind (List Bool) F)) (gens : Nat) :
    EA (List Bool) F Nat where
  f := f
  breed := tournamentBreed (fun g i p => detTournament fitOf t (r g i) p 0) u (crossOf cross) pCross (mutOf mutn) pMut
  replace _ := R
  cont := genCont gens

/-- **C393**: a genetic algorithm on the function `x ↦ f (x ⊕ m)`, started from the complemented population, makes the complemented run:
the same fitnesses, generations and evaluations; every such function is as easy as `f`. -/
theorem C393_run {F : Type} [LinearOrder F] [Inhabited F] (f : List Bool → F) (m : Nat → Bool) (t : Nat) (r : Nat → Nat → Nat → Nat)
    (u : Nat → Nat → ℚ) (cr cb mr mb : Nat → Nat → Nat) (pCross pMut : ℚ)
    (cross : Nat → List Bool × List Bool → Except Err ((List Bool × List Bool) × Bool))
    (hc : cross = (fun k c => onePtXover (cr k) c) ∨ cross = fun k c => uXover (fun i => decide (cb k i = 0)) c)
    (mutn : Nat → List Bool → Except Err (List Bool × Bool))
    (hm : mutn = (fun k l => .ok (bitMutation (fun i => decide (mb k i = 0)) l)) ∨ ∃ d, mutn = fun k l => detSingleBitFlip (mr k) d l)
    (R : Replacement (Ind (List Bool) F)) (hR : SameReplace id (mask m) R R) (gens : Nat) (pop : List (Ind (List Bool) F)) (fuel evals c : Nat) :
    (bitGA (fun x => f (mask m x)) t r u cross pCross mutn pMut R gens).run fuel (pop.map (regradeInd id (mask m))) evals c =
      ((bitGA f t r u cross pCross mutn pMut R gens).run fuel pop evals c).map (regradeSt id (mask m) id) := by
  refine C392_run id (mask m) id (bitGA f t r u cross pCross mutn pMut R gens)
    (bitGA (fun x => f (mask m x)) t r u cross pCross mutn pMut R gens) (fun x => ?_) ?_ (fun _ => hR) ?_
    (twin_regrade _ _ pop) fuel evals c
  · simp only [bitGA, mask_mask, id]
  · refine (C392_breeding strictMono_id t r (fun _ _ _ => true) u pCross pMut (fun k x y => ?_) (fun k x => ?_)).1
    · rcases hc with rfl | rfl
      · have := (C393_crossovers m (cr k) (fun _ => true) 0 0 0 (x, y)).1
        simp only [crossOf]
        rw [show (mask m x, mask m y) = mask2 m (x, y) from rfl, this]
        rcases onePtXover (cr k) (x, y) with e | ⟨a, b⟩ <;> rfl
      · have := (C393_crossovers m (cr k) (fun i => decide (cb k i = 0)) 0 0 0 (x, y)).2.1
        simp only [crossOf]
        rw [show (mask m x, mask m y) = mask2 m (x, y) from rfl, this]
        rcases uXover (fun i => decide (cb k i = 0)) (x, y) with e | ⟨a, b⟩ <;> rfl
    · rcases hm with rfl | ⟨d, rfl⟩
      · have := (C393_mutations m (mr k) 0 x (fun i => decide (mb k i = 0)) (fun _ => default) default 0 0 0 (fun _ => 0)).2.2.2.1
        simp only [mutOf, this]
        rfl
      · simp only [mutOf, detSingleBitFlip_mask]
        rcases detSingleBitFlip (mr k) d x with e | ⟨a, b⟩ <;> rfl
  · exact (C392_continuators strictMono_id gens 0 0 default).1

/-- A replacement that meets the hypothesis: the worst parents are replaced, with weak elitism. -/
example {F : Type} [LinearOrder F] (m : Nat → Bool) :
    SameReplace (F := F) id (mask m) (weakElitist fitOf (ssgaWorse fitOf)) (weakElitist fitOf (ssgaWorse fitOf)) :=
  (C392_replacements strictMono_id 0 (fun _ => 0) 0 (fun _ => true) (sort := fun l => l) (sort' := fun l => l) (fun _ => rfl)
    (fun _ l => l) (fun _ l => l) _ _ (.inr (.inr (.inr (.inl ⟨rfl, rfl⟩))))).2

end Paradiseo.Run
