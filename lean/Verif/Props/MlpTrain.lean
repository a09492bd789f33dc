/-
C344: training a perceptron returns the error of the net it leaves behind.
-/
import Verif.Model.Mlp
import Mathlib.Algebra.Order.Field.Basic
import Mathlib.Tactic.Linarith
import Mathlib.Tactic.Ring
import Mathlib.Data.Rat.Floor

namespace Paradiseo.Mlp

section Any

variable {R : Type*} [Add R] [Sub R] [Mul R] [Div R] [Zero R] [One R]

/-- The mean over the samples of the sum of the squared differences, summed sample by sample. -/
def meanError (N : Num R) (net : Net R) (ts : List (Sample R)) : R :=
  (ts.foldl (fun e s => e + (diffs N net s).foldl (fun e d => e + d * d) 0) 0) / N.ofSize ts.length

/-- The net at which a net in training is evaluated. -/
def hereNet (q : QNet R) : Net R := q.map fun l => l.map QNeuron.here

theorem map_map_net {α β γ : Type*} (f : α → β) (g : β → γ) (h : α → γ) (hf : ∀ n, g (f n) = h n) (q : List (List α)) :
    (q.map fun l => l.map f).map (fun l => l.map g) = q.map fun l => l.map h := by
  rw [List.map_map]
  apply List.map_congr_left
  intro l _
  simp only [Function.comp, List.map_map]
  apply List.map_congr_left
  intro n _
  exact hf n

theorem learn_here (n : QNeuron R) (d : R) (x : List R) : (n.learn d x).here = n.here := rfl

theorem learn_base (n : QNeuron R) (d : R) (x : List R) : (n.learn d x).base = n.base := rfl

theorem map_mapIdx_learn {β : Type*} (g : QNeuron R → β) (hg : ∀ n d x, g (QNeuron.learn n d x) = g n) (l : QLayer R)
    (f : Nat → QNeuron R → R) (x : List R) : (l.mapIdx fun j n => n.learn (f j n) x).map g = l.map g := by
  apply List.ext_getElem
  · simp
  · intro i h1 h2
    simp [hg]

theorem backward_map {β : Type*} (g : QNeuron R → β) (hg : ∀ n d x, g (QNeuron.learn n d x) = g n) (o : List R) :
    ∀ (q : QNet R) (x : List R), (backward q x o).map (fun l => l.map g) = q.map fun l => l.map g
  | [], _ => rfl
  | [l], x => by
    unfold backward outputLayer
    simp only [List.map_cons, List.map_nil]
    rw [map_mapIdx_learn g hg l (fun j n => (o.getD j 0 - n.out) * n.out * (1 - n.out)) x]
  | l :: l2 :: rest, x => by
    have ih := backward_map g hg o (l2 :: rest) (outs l)
    unfold backward
    dsimp only
    rw [List.map_cons, ih]
    unfold hiddenLayer
    rw [map_mapIdx_learn g hg l (fun j n => n.out * (1 - n.out) * sumNext _ j) x]
    rfl

theorem forward_map {β : Type*} (N : Num R) (g : QNeuron R → β) (hg : ∀ n x, g (QNeuron.fire N n x) = g n) :
    ∀ (q : QNet R) (x : List R), (forward N q x).map (fun l => l.map g) = q.map fun l => l.map g
  | [], _ => rfl
  | l :: rest, x => by
    unfold forward
    dsimp only
    rw [List.map_cons, forward_map N g hg rest, List.map_map, List.map_cons]
    congr 1
    apply List.map_congr_left
    intro n _
    exact hg n x

theorem forward_last (N : Num R) : ∀ (q : QNet R) (x : List R), q ≠ [] →
    outs ((forward N q x).getLastD []) = netEval N (hereNet q) x
  | [], _, h => absurd rfl h
  | [l], x, _ => by
    simp only [forward, hereNet, netEval, layerEval, outs, List.map_cons, List.map_nil, List.foldl_cons, List.foldl_nil,
      List.map_map, List.getLastD_cons, List.getLastD_nil]
    rfl
  | l :: l2 :: rest, x, _ => by
    have ih := forward_last N (l2 :: rest) (outs (l.map fun n => n.fire N x)) (by simp)
    have e : (forward N (l :: l2 :: rest) x).getLastD [] =
        (forward N (l2 :: rest) (outs (l.map fun n => n.fire N x))).getLastD [] := by
      rw [forward, forward]
      simp only [List.getLastD_cons]
    rw [e, ih]
    simp only [hereNet, netEval, List.map_cons, List.foldl_cons]
    congr 2
    simp only [layerEval, outs, List.map_map]
    rfl

theorem learnSample_spec (N : Num R) (q : QNet R) (s : Sample R) (hq : q ≠ []) :
    hereNet (learnSample N q s).1 = hereNet q ∧ baseNet (learnSample N q s).1 = baseNet q ∧
    (learnSample N q s).2 = (diffs N (hereNet q) s).foldl (fun e d => e + d * d) 0 := by
  refine ⟨?_, ?_, ?_⟩
  · unfold learnSample hereNet
    dsimp only
    rw [backward_map _ (fun _ _ _ => rfl), forward_map N _ (fun _ _ => rfl)]
  · unfold learnSample baseNet
    dsimp only
    rw [backward_map _ (fun _ _ _ => rfl), forward_map N _ (fun _ _ => rfl)]
  · unfold learnSample backwardError diffs
    dsimp only
    rw [forward_last N q s.input hq]

theorem map_ne_nil' {q q' : QNet R} (h : baseNet q = baseNet q') (hq : q' ≠ []) : q ≠ [] := by
  rintro rfl
  have := congrArg List.length h
  simp [baseNet] at this
  exact hq (List.length_eq_zero_iff.1 this.symm)

theorem learnAll_spec (N : Num R) : ∀ (ts : List (Sample R)) (q : QNet R) (e : R), q ≠ [] →
    hereNet (learnAll N q e ts).1 = hereNet q ∧ baseNet (learnAll N q e ts).1 = baseNet q ∧
    (learnAll N q e ts).2 = ts.foldl (fun e s => e + (diffs N (hereNet q) s).foldl (fun e d => e + d * d) 0) e
  | [], q, e, _ => ⟨rfl, rfl, rfl⟩
  | s :: ts, q, e, hq => by
    obtain ⟨h1, h2, h3⟩ := learnSample_spec N q s hq
    obtain ⟨i1, i2, i3⟩ := learnAll_spec N ts (learnSample N q s).1 (e + (learnSample N q s).2) (map_ne_nil' h2 hq)
    unfold learnAll
    refine ⟨i1.trans h1, i2.trans h2, ?_⟩
    rw [i3, h1, h3, List.foldl_cons]

theorem initDelta_here (q : QNet R) : hereNet (initDelta q) = hereNet q ∧ baseNet (initDelta q) = baseNet q := by
  exact ⟨map_map_net _ _ _ (fun _ => rfl) q, map_map_net _ _ _ (fun _ => rfl) q⟩

theorem learnError_spec (N : Num R) (q : QNet R) (ts : List (Sample R)) (hq : q ≠ []) :
    hereNet (learnError N (initDelta q) ts).1 = hereNet q ∧ baseNet (learnError N (initDelta q) ts).1 = baseNet q ∧
    (learnError N (initDelta q) ts).2 = meanError N (hereNet q) ts := by
  have h0 := initDelta_here q
  obtain ⟨h1, h2, h3⟩ := learnAll_spec N ts (initDelta q) 0 (map_ne_nil' h0.2 hq)
  unfold learnError meanError
  dsimp only
  exact ⟨h1.trans h0.1, h2.trans h0.2, by rw [h3, h0.1]⟩

theorem weightUpdate_base (N : Num R) (size : Nat) (fire : Bool) (c : Coeffs R) (q : QNet R) :
    baseNet (weightUpdate N size fire c q) = if fire then hereNet q else baseNet q := by
  cases fire
  · rw [if_neg (by simp)]; exact map_map_net _ _ _ (fun _ => rfl) q
  · rw [if_pos rfl]; exact map_map_net _ _ _ (fun _ => rfl) q

/-- What holds of the net and of the error before each epoch. -/
def Inv (N : Num R) (ts : List (Sample R)) (net : Net R) (q : QNet R) (error : R) : Prop :=
  (error = N.maxReal ∧ baseNet q = net) ∨ error = meanError N (baseNet q) ts

theorem trainLoop_inv (N : Num R) (ts : List (Sample R)) (target tolerance : R) (net : Net R) (hne : net ≠ []) :
    ∀ (epochs : Nat) (q : QNet R) (c : Coeffs R) (error : R), q ≠ [] → Inv N ts net q error →
      Inv N ts net (trainLoop N ts target tolerance epochs q c error).1
        (trainLoop N ts target tolerance epochs q c error).2
  | 0, _, _, _, _, h => h
  | epochs + 1, q, c, error, hq, h => by
    obtain ⟨h1, h2, h3⟩ := learnError_spec N q ts hq
    unfold trainLoop
    split
    · dsimp only
      split
      · have hb := weightUpdate_base N ts.length true (coeffAdapt N (learnError N (initDelta q) ts).1 c)
          (learnError N (initDelta q) ts).1
        rw [if_pos rfl, h1] at hb
        have hq' : weightUpdate N ts.length true (coeffAdapt N (learnError N (initDelta q) ts).1 c)
          (learnError N (initDelta q) ts).1 ≠ [] := by
          intro e
          rw [e] at hb
          have := congrArg List.length hb
          simp [baseNet, hereNet] at this
          exact hq (List.length_eq_zero_iff.1 this.symm)
        exact trainLoop_inv N ts target tolerance net hne epochs _ _ _ hq' (.inr (by rw [hb, h3]))
      · have hb := weightUpdate_base N ts.length false (backtrack N c) (learnError N (initDelta q) ts).1
        rw [if_neg (by simp), h2] at hb
        have hq' := map_ne_nil' hb hq
        refine trainLoop_inv N ts target tolerance net hne epochs _ _ _ hq' ?_
        rcases h with ⟨e1, e2⟩ | e
        · exact .inl ⟨e1, hb.trans e2⟩
        · exact .inr (by rw [hb]; exact e)
    · exact h

theorem baseNet_ofNet (net : Net R) : baseNet (ofNet net) = net := by
  unfold baseNet ofNet
  rw [List.map_map]
  conv_rhs => rw [← List.map_id net]
  apply List.map_congr_left
  intro l _
  simp only [Function.comp, List.map_map, id]
  conv_rhs => rw [← List.map_id l]
  apply List.map_congr_left
  intro n _
  rfl

/-- **C344** (returned error).  Whatever the arithmetic, rounding and NaN included, training returns the error on the
training set of the net it leaves behind, not of a step it has tried; the only other case is that no step was ever
accepted: then the net is unchanged and the largest number is returned. -/
theorem C344_returned (N : Num R) (net : Net R) (ts : List (Sample R)) (epochs : Nat) (target tolerance : R) (c : Coeffs R)
    (hne : net ≠ []) :
    ((train N net ts epochs target tolerance c).2 = N.maxReal ∧ (train N net ts epochs target tolerance c).1 = net) ∨
    (train N net ts epochs target tolerance c).2 = meanError N (train N net ts epochs target tolerance c).1 ts := by
  have hq : ofNet net ≠ [] := by simpa [ofNet] using hne
  have := trainLoop_inv N ts target tolerance net hne epochs (ofNet net) c N.maxReal hq (.inl ⟨rfl, baseNet_ofNet net⟩)
  unfold train
  exact this

/-- **C344** (errors that are not less than anything).  If no error is ever less than the previous one plus the tolerance,
as on an empty training set, where all are NaN, the net stays as it is. -/
theorem C344_never_accepted (N : Num R) (net : Net R) (ts : List (Sample R)) (epochs : Nat) (target tolerance : R)
    (c : Coeffs R) (hne : net ≠ []) (hlt : ∀ m : Net R, N.lt (meanError N m ts) (N.maxReal + tolerance) = false) :
    train N net ts epochs target tolerance c = (net, N.maxReal) := by
  have key : ∀ (epochs : Nat) (q : QNet R) (c : Coeffs R), q ≠ [] →
      baseNet (trainLoop N ts target tolerance epochs q c N.maxReal).1 = baseNet q ∧
      (trainLoop N ts target tolerance epochs q c N.maxReal).2 = N.maxReal := by
    intro epochs
    induction epochs with
    | zero => intro q c _; exact ⟨rfl, rfl⟩
    | succ epochs ih =>
      intro q c hq
      obtain ⟨h1, h2, h3⟩ := learnError_spec N q ts hq
      unfold trainLoop
      split
      · dsimp only
        rw [h3, hlt, if_neg (by simp)]
        have hb := weightUpdate_base N ts.length false (backtrack N c) (learnError N (initDelta q) ts).1
        rw [if_neg (by simp), h2] at hb
        obtain ⟨i1, i2⟩ := ih (weightUpdate N ts.length false (backtrack N c) (learnError N (initDelta q) ts).1)
          (backtrack N c) (map_ne_nil' hb hq)
        exact ⟨i1.trans hb, i2⟩
      · exact ⟨rfl, rfl⟩
  obtain ⟨h1, h2⟩ := key epochs (ofNet net) c (by simpa [ofNet] using hne)
  unfold train
  dsimp only
  rw [h1, h2, baseNet_ofNet]

/-- **C344** (no epochs).  Without epochs, or with a target that is not below the largest number, nothing is done. -/
theorem C344_no_epochs (N : Num R) (net : Net R) (ts : List (Sample R)) (epochs : Nat) (target tolerance : R) (c : Coeffs R)
    (h : epochs = 0 ∨ N.lt target N.maxReal = false) : train N net ts epochs target tolerance c = (net, N.maxReal) := by
  unfold train
  have : trainLoop N ts target tolerance epochs (ofNet net) c N.maxReal = (ofNet net, N.maxReal) := by
    rcases h with rfl | h
    · rfl
    · cases epochs with
      | zero => rfl
      | succ e => unfold trainLoop; rw [h, if_neg (by simp)]
  rw [this]
  dsimp only
  rw [baseNet_ofNet]

end Any

/-! ### Exact arithmetic -/

variable {K : Type*} [Field K] [LinearOrder K] [IsStrictOrderedRing K]

/-- The mean error is the one of `mse::error`. -/
theorem foldl_sq (l : List K) (e : K) : l.foldl (fun e d => e + d * d) e = e + (l.map fun d => d * d).sum := by
  induction l generalizing e with
  | nil => simp
  | cons x l ih => rw [List.foldl_cons, ih, List.map_cons, List.sum_cons]; ring

/-- **C344** (which error).  In exact arithmetic the error returned is the one the evaluator computes for the net. -/
theorem C344_mse (N : Num K) (net : Net K) (ts : List (Sample K)) : meanError N net ts = mseError N net ts := by
  unfold meanError mseError
  congr 2
  funext e s
  rw [foldl_sq, foldl_sq]
  ring

theorem zipWith_add_zero (l : List K) : List.zipWith (· + ·) l (l.map fun _ => (0 : K)) = l := by
  induction l with
  | nil => rfl
  | cons x l ih => rw [List.map_cons, List.zipWith_cons_cons, ih, add_zero]

theorem hereNet_ofNet (net : Net K) : hereNet (ofNet net) = net := by
  unfold hereNet ofNet
  rw [List.map_map]
  conv_rhs => rw [← List.map_id net]
  apply List.map_congr_left
  intro l _
  simp only [Function.comp, List.map_map, id]
  conv_rhs => rw [← List.map_id l]
  apply List.map_congr_left
  intro n _
  show (⟨n.bias + 0, List.zipWith (· + ·) n.weight (n.weight.map fun _ => 0)⟩ : Neuron K) = n
  rw [zipWith_add_zero, add_zero]

/-- **C344** (bound).  In exact arithmetic the error never grows by the tolerance or more from one epoch to the next: after at
least one epoch the error returned is at most the one of the net given plus one tolerance less than there are epochs. -/
theorem C344_bound (N : Num K) (hlt : ∀ a b, N.lt a b = decide (a < b)) (net : Net K) (ts : List (Sample K)) (epochs : Nat)
    (target tolerance : K) (c : Coeffs K) (hne : net ≠ []) (htol : 0 ≤ tolerance) (ht : target < N.maxReal)
    (h0 : meanError N net ts < N.maxReal + tolerance) :
    (train N net ts (epochs + 1) target tolerance c).2 ≤ meanError N net ts + epochs * tolerance := by
  have key : ∀ (epochs : Nat) (q : QNet K) (c : Coeffs K) (error : K), q ≠ [] →
      (trainLoop N ts target tolerance epochs q c error).2 ≤ error + epochs * tolerance := by
    intro epochs
    induction epochs with
    | zero => intro q c error _; simp [trainLoop]
    | succ epochs ih =>
      intro q c error hq
      obtain ⟨h1, h2, h3⟩ := learnError_spec N q ts hq
      unfold trainLoop
      push_cast
      split
      · split
        · rename_i hacc
          rw [hlt, decide_eq_true_eq] at hacc
          have hb := weightUpdate_base N ts.length true (coeffAdapt N (learnError N (initDelta q) ts).1 c)
            (learnError N (initDelta q) ts).1
          rw [if_pos rfl, h1] at hb
          have hq' : weightUpdate N ts.length true (coeffAdapt N (learnError N (initDelta q) ts).1 c)
            (learnError N (initDelta q) ts).1 ≠ [] := by
            intro e
            rw [e] at hb
            have := congrArg List.length hb
            simp [baseNet, hereNet] at this
            exact hq (List.length_eq_zero_iff.1 this.symm)
          have := ih _ (coeffAdapt N (learnError N (initDelta q) ts).1 c) (learnError N (initDelta q) ts).2 hq'
          linarith
        · have hb := weightUpdate_base N ts.length false (backtrack N c) (learnError N (initDelta q) ts).1
          rw [if_neg (by simp), h2] at hb
          have := ih _ (backtrack N c) error (map_ne_nil' hb hq)
          linarith
      · have : 0 ≤ ((epochs : K) + 1) * tolerance := mul_nonneg (by positivity) htol
        linarith
  have hq : ofNet net ≠ [] := by simpa [ofNet] using hne
  obtain ⟨h1, h2, h3⟩ := learnError_spec N (ofNet net) ts hq
  rw [hereNet_ofNet] at h1 h3
  unfold train
  dsimp only
  unfold trainLoop
  rw [hlt, if_pos (by simpa using ht)]
  dsimp only
  rw [h3, hlt, if_pos (by simpa using h0)]
  have hb := weightUpdate_base N ts.length true (coeffAdapt N (learnError N (initDelta (ofNet net)) ts).1 c)
    (learnError N (initDelta (ofNet net)) ts).1
  rw [if_pos rfl, h1] at hb
  refine key epochs _ _ _ ?_
  intro e
  rw [e] at hb
  exact hne hb.symm

/-- A net of one neuron with a `sigmoid` that is the identity, trained on one sample: the errors are known. -/
def exNum : Num ℚ := ⟨id, id, fun a b => decide (a < b), fun a b => a / b, 1000, fun n => n⟩

example : train exNum [[⟨1, [1]⟩]] [⟨[1], [3]⟩] 1 0 (1 / 1000) ⟨1 / 2, 9 / 10, 1 / 2⟩ = ([[⟨1, [1]⟩]], 1) := by
  decide +kernel

/-- With a `sigmoid` that halves: the second pass finds a smaller error and its step is taken, the third one is refused. -/
def halfNum : Num ℚ := { exNum with sigmoid := fun x => x / 2 }

example : train halfNum [[⟨0, [1]⟩]] [⟨[1], [1]⟩] 3 0 (1 / 1000) ⟨1 / 2, 9 / 10, 1 / 2⟩ =
    ([[⟨1 / 16, [17 / 16]⟩]], 49 / 256) := by decide +kernel

/-- The bound at work: the returned error is below the initial one. -/
example : (train halfNum [[⟨0, [1]⟩]] [⟨[1], [1]⟩] (2 + 1) 0 (1 / 1000) ⟨1 / 2, 9 / 10, 1 / 2⟩).2 ≤
    meanError halfNum [[⟨0, [1]⟩]] [⟨[1], [1]⟩] + (2 : Nat) * (1 / 1000) :=
  C344_bound halfNum (fun _ _ => rfl) _ _ 2 _ _ _ (by simp) (by norm_num) (by decide +kernel) (by decide +kernel)

/-- Numbers that are not less than one another, like NaN. -/
def nanNum : Num ℚ := { exNum with lt := fun _ _ => false }

/-- A net whose errors are never less than anything. -/
example : ∀ m : Net ℚ, nanNum.lt (meanError nanNum m []) (nanNum.maxReal + 0) = false := fun _ => rfl

end Paradiseo.Mlp
