/-
Property C396: local searches on problems that are written differently.
-/
import Verif.Props.Relabel
import Verif.Props.LocalSearch
import Verif.Model.LSParts

namespace Paradiseo.LS

variable {S S' M F K E E' : Type}

/-- A solution written differently, with the same fitness. -/
def recode (ι : S → S') (s : S × F) : S' × F := (ι s.1, s.2)

/-- Two explorers do the same on solutions written differently; `μ` translates their members. -/
structure SameOn (ι : S → S') (μ : E → E') (ex : Explorer (S × F) E) (ex' : Explorer (S' × F) E') : Prop where
  initParam : ∀ s e, ex'.initParam (recode ι s) (μ e) = μ (ex.initParam s e)
  explore : ∀ t s e, ex'.explore t (recode ι s) (μ e) = Prod.map (recode ι) μ (ex.explore t s e)
  accept : ∀ t s e, ex'.accept t (recode ι s) (μ e) = Prod.map id μ (ex.accept t s e)
  move : ∀ s e, ex'.move (recode ι s) (μ e) = recode ι (ex.move s e)
  updateParam : ∀ b s e, ex'.updateParam b (recode ι s) (μ e) = μ (ex.updateParam b s e)
  isContinue : ∀ s e, ex'.isContinue (recode ι s) (μ e) = ex.isContinue s e
  terminate : ∀ s e, ex'.terminate (recode ι s) (μ e) = recode ι (ex.terminate s e)

theorem lsStep_same {ι : S → S'} {μ : E → E'} {ex : Explorer (S × F) E} {ex' : Explorer (S' × F) E'} (h : SameOn ι μ ex ex')
    (t : Nat) (s : S × F) (e : E) :
    lsStep ex' t (recode ι s) (μ e) = Prod.map (recode ι) (Prod.map μ id) (lsStep ex t s e) := by
  simp only [lsStep, h.explore, Prod.map, h.accept, h.move, id]
  cases hb : (ex.accept t (ex.explore t s e).1 (ex.explore t s e).2).1
  · simp only [Bool.false_eq_true, if_false, h.updateParam]
  · simp only [if_true, h.updateParam]

theorem lsLoop_same {ι : S → S'} {μ : E → E'} {ex : Explorer (S × F) E} {ex' : Explorer (S' × F) E'} (h : SameOn ι μ ex ex')
    {cont : K → S × F → Bool × K} {cont' : K → S' × F → Bool × K} (hc : ∀ k s, cont' k (recode ι s) = cont k s) :
    ∀ (fuel t : Nat) (s : S × F) (e : E) (k : K), lsLoop ex' cont' fuel t (recode ι s) (μ e) k =
      (lsLoop ex cont fuel t s e k).map fun p => (p.1.map (Prod.map (recode ι) μ), p.2) := by
  intro fuel
  induction fuel with
  | zero => intro t s e k; rfl
  | succ fuel ih =>
    intro t s e k
    simp only [lsLoop, lsStep_same h]
    rcases lsStep ex t s e with ⟨s', e', b'⟩
    simp only [Prod.map, hc, h.isContinue]
    split_ifs
    · rw [ih, Option.map_map, Option.map_map]
      rfl
    · rfl

/-- **C396.** If the problem, the explorer and the continuator do the same on solutions written differently, a local
search from the rewritten solution passes through the rewritten solutions, with the same fitnesses, in as many
iterations, and returns the rewritten result. -/
theorem C396_search {ι : S → S'} {μ : E → E'} {ex : Explorer (S × F) E} {ex' : Explorer (S' × F) E'} (h : SameOn ι μ ex ex')
    {cont : K → S × F → Bool × K} {cont' : K → S' × F → Bool × K} (hc : ∀ k s, cont' k (recode ι s) = cont k s)
    {cinit : S × F → K} {cinit' : S' × F → K} (hi : ∀ s, cinit' (recode ι s) = cinit s) {f : S → F} {f' : S' → F}
    (hf : ∀ x, f' (ι x) = f x) (fuel : Nat) (x : S) (fit : Option F) (e : E) :
    localSearch f' ex' cont' cinit' fuel (ι x) fit (μ e) =
      (localSearch f ex cont cinit fuel x fit e).map fun p =>
        (recode ι p.1, p.2.1.map (Prod.map (recode ι) μ), p.2.2) := by
  have hs : (ι x, fit.getD (f' (ι x))) = recode ι (x, fit.getD (f x)) := by simp [recode, hf]
  simp only [localSearch, hs, h.initParam, hi, lsLoop_same h hc, Option.map_map]
  congr 1
  funext p
  simp only [Function.comp]
  have : (List.map (Prod.map (recode ι) μ) p.1).getLastD
      (recode ι (x, fit.getD (f x)), μ (ex.initParam (x, fit.getD (f x)) e)) =
      Prod.map (recode ι) μ (p.1.getLastD ((x, fit.getD (f x)), ex.initParam (x, fit.getD (f x)) e)) := by
    rw [List.getLastD_eq_getLast?, List.getLastD_eq_getLast?, List.getLast?_map]
    cases p.1.getLast? <;> rfl
  rw [this]
  simp only [Prod.map, h.terminate]

/-! ### Explorers -/

section
variable {ι : S → S'} {nb : Nat → S × F → List (Cand M F)} {nb' : Nat → S' × F → List (Cand M F)}
  {app : M → S → S} {app' : M → S' → S'}

theorem moveSel_recode (happ : ∀ m x, app' m (ι x) = ι (app m x)) (s : S × F) (c : Option (Cand M F)) :
    moveSel app' (recode ι s) c = recode ι (moveSel app s c) := by
  cases c with
  | none => rfl
  | some c => simp [moveSel, recode, happ]

/-- **C396.** All hill climbers and walks do the same if the neighbours are the same: same moves, in the same order, with the same
fitnesses, and the moves applied to the rewritten solution give the rewritten neighbours. -/
theorem C396_climbers [LinearOrder F] (hnb : ∀ t s, nb' t (recode ι s) = nb t s) (happ : ∀ m x, app' m (ι x) = ι (app m x))
    (r : Nat → Nat) (n : Nat) :
    SameOn ι id (simpleHC nb app) (simpleHC nb' app') ∧ (∀ b, SameOn ι id (firstHC b nb app) (firstHC b nb' app')) ∧
    SameOn ι id (randomBestHC r nb app) (randomBestHC r nb' app') ∧
    SameOn ι id (neutralHC n r nb app) (neutralHC n r nb' app') ∧ SameOn ι id (randomWalk nb app) (randomWalk nb' app') ∧
    SameOn ι id (neutralWalk n nb app) (neutralWalk n nb' app') := by
  have h2 : ∀ s : S × F, (recode ι s).2 = s.2 := fun _ => rfl
  have hbest : ∀ t s e, bestExplore r nb' t (recode ι s) (id e) = Prod.map (recode ι) id (bestExplore r nb t s e) := by
    intro t s e
    simp only [bestExplore, hnb]
    cases nb t s <;> rfl
  refine ⟨⟨fun _ _ => rfl, fun t s e => ?_, fun t s e => ?_, fun s e => moveSel_recode happ s _, fun _ _ _ => rfl,
      fun _ _ => rfl, fun _ _ => rfl⟩,
    fun b => ⟨fun _ _ => rfl, fun t s e => ?_, fun t s e => ?_, fun s e => moveSel_recode happ s _, fun _ _ _ => rfl,
      fun _ _ => rfl, fun _ _ => rfl⟩,
    ⟨fun _ _ => rfl, hbest, fun t s e => ?_, fun s e => moveSel_recode happ s _, fun _ _ _ => rfl,
      fun _ _ => rfl, fun _ _ => rfl⟩,
    ⟨fun _ _ => rfl, hbest, fun t s e => ?_, fun s e => moveSel_recode happ s _, fun _ _ _ => rfl,
      fun _ _ => rfl, fun _ _ => rfl⟩,
    ⟨fun _ _ => rfl, fun t s e => ?_, fun t s e => ?_, fun s e => moveSel_recode happ s _, fun _ _ _ => rfl,
      fun _ _ => rfl, fun _ _ => rfl⟩,
    ⟨fun _ _ => rfl, fun t s e => ?_, fun t s e => ?_, fun s e => moveSel_recode happ s _, fun _ _ _ => rfl,
      fun _ _ => rfl, fun _ _ => rfl⟩⟩
  · simp only [simpleHC, hnb]
    cases nb t s <;> rfl
  · obtain ⟨sel, best, a, k⟩ := e
    simp only [simpleHC, hnb, h2, id]
    cases nb t s <;> cases sel <;> rfl
  · simp only [firstHC, hnb, h2]
    cases nb t s <;> rfl
  · obtain ⟨sel, best, a, k⟩ := e
    simp only [firstHC, hnb, h2, id]
    cases nb t s <;> cases sel <;> rfl
  · obtain ⟨sel, best, a, k⟩ := e
    simp only [randomBestHC, hnb, h2, id]
    cases nb t s <;> cases best <;> rfl
  · obtain ⟨sel, best, a, k⟩ := e
    simp only [neutralHC, hnb, h2, id]
    cases nb t s <;> cases best <;> rfl
  · simp only [randomWalk, hnb]
    cases nb t s <;> rfl
  · simp only [randomWalk, hnb]
    cases nb t s <;> rfl
  · simp only [neutralWalk, hnb, h2]
    cases nb t s <;> rfl
  · obtain ⟨sel, best, a, k⟩ := e
    simp only [neutralWalk, hnb, h2, id]
    cases nb t s <;> cases sel <;> rfl

end

/-- So does simulated annealing, with any comparator and cooling schedule. -/
theorem C396_annealing {ι : S → S'} {nb : Nat → S × ℝ → List (Cand M ℝ)} {nb' : Nat → S' × ℝ → List (Cand M ℝ)}
    {app : M → S → S} {app' : M → S' → S'} (hnb : ∀ t s, nb' t (recode ι s) = nb t s)
    (happ : ∀ m x, app' m (ι x) = ι (app m x)) {C : Type} (better : ℝ → ℝ → Prop) (cool : Cooling C) (u : Nat → ℝ) :
    SameOn ι id (saExplorer better cool u nb app) (saExplorer better cool u nb' app') := by
  have h2 : ∀ s : S × ℝ, (recode ι s).2 = s.2 := fun _ => rfl
  refine ⟨fun _ _ => rfl, fun t s e => ?_, fun t s e => ?_, fun s e => moveSel_recode happ s _, fun _ _ _ => rfl,
      fun _ _ => rfl, fun _ _ => rfl⟩
  · simp only [saExplorer, hnb]
    cases nb t s <;> rfl
  · obtain ⟨temp, sel, a⟩ := e
    simp only [saExplorer, hnb, h2, id]
    cases nb t s <;> cases sel <;> rfl

/-- The members of a tabu search, the memories translated by `ω`. -/
def recodeTS {W W' : Type} (ι : S → S') (ω : W → W') (e : TS (S × F) (Cand M F) W) : TS (S' × F) (Cand M F) W' :=
  ⟨ω e.mem, recode ι e.bestSoFar, e.selected, e.isAccept⟩

/-- So does tabu search, if the memories do: the tabu list, the aspiration criterion, intensification and
diversification. -/
theorem C396_tabu [LinearOrder F] {W W' : Type} {ι : S → S'} {ω : W → W'} {nb : Nat → S × F → List (Cand M F)}
    {nb' : Nat → S' × F → List (Cand M F)} {app : M → S → S} {app' : M → S' → S'}
    (hnb : ∀ t s, nb' t (recode ι s) = nb t s) (happ : ∀ m x, app' m (ι x) = ι (app m x))
    {mem : Mem (S × F) (Cand M F) W} {mem' : Mem (S' × F) (Cand M F) W'}
    (hinit : ∀ s w, mem'.init (recode ι s) (ω w) = ω (mem.init s w))
    (hadd : ∀ s c w, mem'.add (recode ι s) c (ω w) = ω (mem.add s c w))
    (hupd : ∀ s c w, mem'.update (recode ι s) c (ω w) = ω (mem.update s c w))
    (hcheck : ∀ w s c, mem'.check (ω w) (recode ι s) c = mem.check w s c)
    (haspir : ∀ w s c, mem'.aspir (ω w) (recode ι s) c = mem.aspir w s c)
    (hint : ∀ w s, mem'.intensify (ω w) (recode ι s) = recode ι (mem.intensify w s))
    (hdiv : ∀ w s, mem'.diversify (ω w) (recode ι s) = recode ι (mem.diversify w s)) :
    SameOn ι (recodeTS ι ω) (tabuSearch mem nb app) (tabuSearch mem' nb' app') := by
  refine ⟨fun s e => ?_, fun t s e => ?_, fun t s e => rfl, fun s e => moveSel_recode happ s _, fun b s e => ?_,
      fun _ _ => rfl, fun _ _ => rfl⟩
  · simp only [tabuSearch, recodeTS, hinit]
  · simp only [tabuSearch, recodeTS, hint, hdiv, hcheck, haspir, hnb]
    cases tsSelect (fun c => !mem.check e.mem (mem.diversify e.mem (mem.intensify e.mem s)) c ||
      mem.aspir e.mem (mem.diversify e.mem (mem.intensify e.mem s)) c)
      (nb t (mem.diversify e.mem (mem.intensify e.mem s))) <;> rfl
  · have h2 : ∀ s : S × F, (recode ι s).2 = s.2 := fun _ => rfl
    obtain ⟨w, best, sel, a⟩ := e
    simp only [tabuSearch, recodeTS, h2]
    cases b
    · simp only [Bool.false_eq_true, if_false, hupd]
    · by_cases hlt : best.2 < s.2 <;> simp [hlt, hadd, hupd]

/-! ### Problems -/

/-- The evaluated neighbours of a solution: the moves of the iteration, in their order, with the fitness of the neighbour. -/
def evaluated (f : S → F) (app : M → S → S) (moves : Nat → List M) (t : Nat) (s : S × F) : List (Cand M F) :=
  (moves t).map fun m => ⟨m, f (app m s.1)⟩

/-- Complement the bits of a mask. -/
def complement (m : Nat → Bool) (x : Nat → Bool) : Nat → Bool := fun i => x i ^^ m i

/-- **C396.** Neighbours by index: the hypotheses of the above hold, whatever moves are tried in whatever order, for the flips of a bit
string of which any bits are complemented, and for swaps, shifts and two-opt moves of a permutation of which the elements are renamed. -/
theorem C396_problems :
    (∀ (f : (Nat → Bool) → F) (m : Nat → Bool) (moves : Nat → List Nat),
      let app := fun k x => Nbh.bitMove x k
      let f' := fun x => f (complement m x)
      (∀ x, f' (complement m x) = f x) ∧ (∀ k x, app k (complement m x) = complement m (app k x)) ∧
      ∀ t s, evaluated f' app moves t (recode (complement m) s) = evaluated f app moves t s) ∧
    (∀ (α β : Type) (f : (Nat → α) → F) (f' : (Nat → β) → F) (ν : α → β) (hf : ∀ a, f' (fun k => ν (a k)) = f a)
      (moves : Nat → List (Nat × Nat)) (app : Nat × Nat → (Nat → α) → Nat → α) (app' : Nat × Nat → (Nat → β) → Nat → β),
      (app = (fun p a => Nbh.swapMove a p.1 p.2) ∧ app' = (fun p a => Nbh.swapMove a p.1 p.2)) ∨
        (app = (fun p a => Nbh.shiftMove a p) ∧ app' = (fun p a => Nbh.shiftMove a p)) ∨
        (app = (fun p a => Nbh.twoOptMove a p.1 p.2) ∧ app' = (fun p a => Nbh.twoOptMove a p.1 p.2)) →
      (∀ p a, app' p (fun k => ν (a k)) = fun k => ν (app p a k)) ∧
      ∀ t s, evaluated f' app' moves t (recode (fun a k => ν (a k)) s) = evaluated f app moves t s) := by
  refine ⟨fun f m moves => ?_, fun α β f f' ν hf moves app app' h => ?_⟩
  · have hcc : ∀ x, complement m (complement m x) = x := by
      intro x
      funext i
      simp [complement]
    have happ : ∀ k x, Nbh.bitMove (complement m x) k = complement m (Nbh.bitMove x k) := by
      intro k x
      funext i
      simp only [Nbh.bitMove, Nbh.upd, complement]
      split_ifs with h
      · subst h; cases x i <;> cases m i <;> rfl
      · rfl
    refine ⟨fun x => by simp only [hcc], happ, fun t s => ?_⟩
    simp only [evaluated, recode, happ, hcc]
  · have happ : ∀ p a, app' p (fun k => ν (a k)) = fun k => ν (app p a k) := by
      rcases h with ⟨rfl, rfl⟩ | ⟨rfl, rfl⟩ | ⟨rfl, rfl⟩
      · exact fun p a => (Nbh.C395_moves ν a p.1 p.2).1
      · exact fun p a => (Nbh.C395_moves ν a p.1 p.2).2.1
      · exact fun p a => (Nbh.C395_moves ν a p.1 p.2).2.2.2
    refine ⟨happ, fun t s => ?_⟩
    simp only [evaluated, recode, happ, hf]

/-- An instance: the simple hill climber on a function of bit strings with complemented bits. -/
example (f : (Nat → Bool) → ℕ) (m : Nat → Bool) (fuel : Nat) (x : Nat → Bool) (e : HC Nat ℕ) :
    (localSearch (fun x => f (complement m x))
        (simpleHC (evaluated (fun x => f (complement m x)) (fun k x => Nbh.bitMove x k) fun _ => [0, 1, 2]) fun k x => Nbh.bitMove x k)
        (fun (k : Unit) _ => (true, k)) (fun _ => ()) fuel (complement m x) none e).map (fun p => p.1) =
      ((localSearch f (simpleHC (evaluated f (fun k x => Nbh.bitMove x k) fun _ => [0, 1, 2]) fun k x => Nbh.bitMove x k)
        (fun (k : Unit) _ => (true, k)) (fun _ => ()) fuel x none e).map fun p => recode (complement m) p.1) := by
  have hp := C396_problems.1 f m fun _ => [0, 1, 2]
  have := C396_search (C396_climbers (ι := complement m) (app := fun k x => Nbh.bitMove x k) (app' := fun k x => Nbh.bitMove x k) hp.2.2 hp.2.1 id 0).1
    (cont := fun (k : Unit) _ => (true, k)) (cont' := fun (k : Unit) _ => (true, k)) (fun _ _ => rfl)
    (cinit := fun _ => ()) (cinit' := fun _ => ()) (fun _ => rfl) (f := f) (f' := fun x => f (complement m x)) hp.1 fuel x none e
  simp only [id] at this
  rw [this, Option.map_map]
  rfl

/-- and such a climb reaches the top in three moves. -/
example : ((localSearch (fun x : Nat → Bool => (if x 0 then 0 else 1) + (if x 1 then 0 else 1) + if x 2 then 0 else 1)
      (simpleHC (evaluated (fun x : Nat → Bool => (if x 0 then 0 else 1) + (if x 1 then 0 else 1) + if x 2 then 0 else 1)
        (fun k x => Nbh.bitMove x k) fun _ => [0, 1, 2]) fun k x => Nbh.bitMove x k)
      (fun (k : Unit) _ => (true, k)) (fun _ => ()) 10 (fun _ => true) none ⟨none, [], true, 0⟩).map
        fun p => (p.1.1 0, p.1.1 1, p.1.1 2, p.1.2, p.2.1.length)) = some (false, false, false, 3, 4) := by decide +kernel

end Paradiseo.LS
