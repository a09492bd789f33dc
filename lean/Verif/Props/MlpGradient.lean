/-
C345: the training of a perceptron follows the gradient.
-/
import Verif.Props.MlpTrain
import Mathlib.Analysis.SpecialFunctions.Sigmoid
import Mathlib.Analysis.Calculus.Deriv.Add
import Mathlib.Analysis.Calculus.Deriv.Mul
import Mathlib.Analysis.Calculus.Deriv.Comp
import Mathlib.Data.List.GetD

namespace Paradiseo.Mlp

open Real (sigmoid)

/-! ### Specification -/

/-- Number `k` of a neuron: its weights, then (beyond them) its bias, increased by `s`. -/
def Neuron.bump (n : Neuron ℝ) (s : ℝ) : Option Nat → Neuron ℝ
  | some k => ⟨n.bias, n.weight.modify k (· + s)⟩
  | none => ⟨n.bias + s, n.weight⟩

/-- The net with weight `k` (or the bias) of neuron `j` of layer `i` increased by `s`. -/
def bump (net : Net ℝ) (i j : Nat) (k : Option Nat) (s : ℝ) : Net ℝ :=
  net.modify i fun l => l.modify j fun n => n.bump s k

/-- The sum of the squared differences over a set of samples. -/
def squares (N : Num ℝ) (net : Net ℝ) (ts : List (Sample ℝ)) : ℝ :=
  (ts.map fun s => ((diffs N net s).map fun d => d * d).sum).sum

/-- Sizes: the neurons of a layer have one weight per input, inputs being the outputs of the layer before. -/
def Shape : Nat → Net ℝ → Prop
  | _, [] => True
  | m, l :: rest => (∀ n ∈ l, n.weight.length = m) ∧ Shape l.length rest

/-- The number of outputs. -/
def width : Nat → Net ℝ → Nat
  | m, [] => m
  | _, l :: rest => width l.length rest

/-! ### Lemmas: lists as sums -/

instance : Inhabited (Neuron ℝ) := ⟨⟨0, []⟩⟩

theorem foldl_add (l : List ℝ) (a : ℝ) : l.foldl (· + ·) a = a + l.sum := by
  induction l generalizing a with
  | nil => simp
  | cons x l ih => rw [List.foldl_cons, ih, List.sum_cons]; ring

theorem dot_eq : ∀ (v w : List ℝ), v.length = w.length →
    dot v w = ∑ i ∈ Finset.range w.length, v.getD i 0 * w.getD i 0 := by
  intro v w h
  unfold dot
  rw [foldl_add, zero_add]
  induction v generalizing w with
  | nil =>
    have : w = [] := List.length_eq_zero_iff.1 h.symm
    subst this; simp
  | cons a v ih =>
    cases w with
    | nil => simp at h
    | cons b w =>
      rw [List.zipWith_cons_cons, List.sum_cons, List.length_cons, Finset.sum_range_succ', ih w (by simpa using h)]
      simp [add_comm]

/-- The sum of squared differences at the outputs. -/
def lossOut (y t : List ℝ) : ℝ := ((List.zipWith (· - ·) t y).map fun d => d * d).sum

theorem lossOut_eq : ∀ (y t : List ℝ), t.length = y.length →
    lossOut y t = ∑ i ∈ Finset.range y.length, (t.getD i 0 - y.getD i 0) * (t.getD i 0 - y.getD i 0) := by
  intro y t h
  unfold lossOut
  induction y generalizing t with
  | nil =>
    have : t = [] := List.length_eq_zero_iff.1 h
    subst this; simp
  | cons b y ih =>
    cases t with
    | nil => simp at h
    | cons a t =>
      rw [List.zipWith_cons_cons, List.map_cons, List.sum_cons, List.length_cons, Finset.sum_range_succ', ih t (by simpa using h)]
      simp [add_comm]

theorem getD_layerEval (N : Num ℝ) (l : Layer ℝ) (x : List ℝ) {k : Nat} (hk : k < l.length) :
    (layerEval N l x).getD k 0 = (l.getD k default).eval N x := by
  unfold layerEval
  rw [List.getD_eq_getElem _ _ (by simpa using hk), List.getD_eq_getElem _ _ hk, List.getElem_map]

/-! ### Backpropagation -/

/-- What arrives at the inputs of a net: half of minus the derivative of the error by the input `i`. -/
def back (N : Num ℝ) : Net ℝ → List ℝ → List ℝ → Nat → ℝ
  | [], x, t, i => t.getD i 0 - x.getD i 0
  | l :: rest, x, t, i => ∑ k ∈ Finset.range l.length,
      ((layerEval N l x).getD k 0 * (1 - (layerEval N l x).getD k 0) * back N rest (layerEval N l x) t k) *
        (l.getD k default).weight.getD i 0

/-- The delta of a neuron of the first layer. -/
def del (N : Num ℝ) (l : Layer ℝ) (rest : Net ℝ) (x t : List ℝ) (k : Nat) : ℝ :=
  (layerEval N l x).getD k 0 * (1 - (layerEval N l x).getD k 0) * back N rest (layerEval N l x) t k

/-- The derivative of the error along a curve of inputs. -/
theorem hasDerivAt_curve (N : Num ℝ) (hσ : N.sigmoid = sigmoid) (t : List ℝ) : ∀ (net : Net ℝ) (m : Nat) (x : ℝ → List ℝ)
    (x' : Nat → ℝ), Shape m net → (∀ s, (x s).length = m) → t.length = width m net →
    (∀ i < m, HasDerivAt (fun s => (x s).getD i 0) (x' i) 0) →
    HasDerivAt (fun s => lossOut (netEval N net (x s)) t) (-2 * ∑ i ∈ Finset.range m, back N net (x 0) t i * x' i) 0
  | [], m, x, x', _, hl, ht, hx => by
    have e : (fun s => lossOut (netEval N [] (x s)) t) = fun s => ∑ i ∈ Finset.range m,
        (t.getD i 0 - (x s).getD i 0) * (t.getD i 0 - (x s).getD i 0) := by
      funext s
      have := lossOut_eq (x s) t (by rw [ht, hl]; rfl)
      rw [hl] at this
      exact this
    rw [e]
    have hd : HasDerivAt (fun s => ∑ i ∈ Finset.range m, (t.getD i 0 - (x s).getD i 0) * (t.getD i 0 - (x s).getD i 0))
        (∑ i ∈ Finset.range m, ((0 - x' i) * (t.getD i 0 - (x 0).getD i 0) + (t.getD i 0 - (x 0).getD i 0) * (0 - x' i))) 0 := by
      apply HasDerivAt.fun_sum
      intro i hi
      have h1 := (hasDerivAt_const (0 : ℝ) (t.getD i 0)).fun_sub (hx i (Finset.mem_range.1 hi))
      exact h1.fun_mul h1
    refine hd.congr_deriv ?_
    rw [Finset.mul_sum]
    apply Finset.sum_congr rfl
    intro i _
    unfold back
    ring
  | l :: rest, m, x, x', hs, hl, ht, hx => by
    have hcurve : ∀ k < l.length, HasDerivAt (fun s => (layerEval N l (x s)).getD k 0)
        ((layerEval N l (x 0)).getD k 0 * (1 - (layerEval N l (x 0)).getD k 0) *
          ∑ i ∈ Finset.range m, (l.getD k default).weight.getD i 0 * x' i) 0 := by
      intro k hk
      have hw : (l.getD k default).weight.length = m := by
        rw [List.getD_eq_getElem _ _ hk]; exact hs.1 _ (List.getElem_mem hk)
      have e : (fun s => (layerEval N l (x s)).getD k 0) = fun s => sigmoid ((l.getD k default).bias +
          ∑ i ∈ Finset.range m, (l.getD k default).weight.getD i 0 * (x s).getD i 0) := by
        funext s
        rw [getD_layerEval N l (x s) hk]
        unfold Neuron.eval
        rw [hσ, dot_eq _ _ (by rw [hw, hl]), hl]
      have hin : HasDerivAt (fun s => (l.getD k default).bias +
          ∑ i ∈ Finset.range m, (l.getD k default).weight.getD i 0 * (x s).getD i 0)
          (∑ i ∈ Finset.range m, (l.getD k default).weight.getD i 0 * x' i) 0 := by
        have : HasDerivAt (fun s => ∑ i ∈ Finset.range m, (l.getD k default).weight.getD i 0 * (x s).getD i 0)
            (∑ i ∈ Finset.range m, (l.getD k default).weight.getD i 0 * x' i) 0 := by
          apply HasDerivAt.fun_sum
          intro i hi
          exact (hx i (Finset.mem_range.1 hi)).const_mul _
        exact this.const_add _
      have e0 := congrFun e 0
      rw [e, e0]
      exact (Real.hasDerivAt_sigmoid _).comp (0 : ℝ) hin
    have ih := hasDerivAt_curve N hσ t rest l.length (fun s => layerEval N l (x s)) _ hs.2
      (fun s => by simp [layerEval]) ht hcurve
    refine ih.congr_deriv ?_
    congr 1
    have e1 : ∀ i, back N (l :: rest) (x 0) t i = ∑ k ∈ Finset.range l.length,
      ((layerEval N l (x 0)).getD k 0 * (1 - (layerEval N l (x 0)).getD k 0) * back N rest (layerEval N l (x 0)) t k) *
        (l.getD k default).weight.getD i 0 := fun i => by rw [back]
    simp only [e1, Finset.sum_mul, Finset.mul_sum]
    rw [Finset.sum_comm]
    apply Finset.sum_congr rfl
    intro i _
    apply Finset.sum_congr rfl
    intro k _
    ring

theorem getD_modify (w : List ℝ) (k : Nat) (s : ℝ) (i : Nat) (hi : i < w.length) :
    (w.modify k (· + s)).getD i 0 = if i = k then w.getD i 0 + s else w.getD i 0 := by
  rw [List.getD_eq_getElem _ _ (by simpa using hi), List.getElem_modify, List.getD_eq_getElem _ _ hi]
  by_cases h : k = i
  · rw [if_pos h, if_pos h.symm]
  · rw [if_neg h, if_neg (fun e => h e.symm)]

/-- What a weight or the bias of a neuron is multiplied with. -/
def factor (x : List ℝ) : Option Nat → ℝ
  | some k => x.getD k 0
  | none => 1

theorem eval_bump (N : Num ℝ) (n : Neuron ℝ) (x : List ℝ) (k : Option Nat) (hw : n.weight.length = x.length)
    (hk : ∀ k', k = some k' → k' < x.length) (s : ℝ) :
    (n.bump s k).eval N x = N.sigmoid (n.bias + dot n.weight x + s * factor x k) := by
  cases k with
  | none =>
    unfold Neuron.bump Neuron.eval factor
    congr 1
    ring
  | some k =>
    have hk' := hk k rfl
    unfold Neuron.bump Neuron.eval factor
    dsimp only
    rw [dot_eq _ _ (by simpa using hw), dot_eq _ _ hw, add_assoc]
    congr 2
    have : ∀ i ∈ Finset.range x.length, (n.weight.modify k (· + s)).getD i 0 * x.getD i 0 =
        n.weight.getD i 0 * x.getD i 0 + if i = k then s * x.getD k 0 else 0 := by
      intro i hi
      rw [getD_modify _ _ _ _ (by rw [hw]; exact Finset.mem_range.1 hi)]
      by_cases h : i = k
      · rw [if_pos h, if_pos h, h]; ring
      · rw [if_neg h, if_neg h, add_zero]
    rw [Finset.sum_congr rfl this, Finset.sum_add_distrib, Finset.sum_ite_eq' , if_pos (Finset.mem_range.2 hk')]

theorem getD_modify_layer (l : Layer ℝ) (j k : Nat) (f : Neuron ℝ → Neuron ℝ) (hk : k < l.length) :
    (l.modify j f).getD k default = if k = j then f (l.getD k default) else l.getD k default := by
  rw [List.getD_eq_getElem _ _ (by simpa using hk), List.getElem_modify, List.getD_eq_getElem _ _ hk]
  by_cases h : j = k
  · rw [if_pos h, if_pos h.symm]
  · rw [if_neg h, if_neg (fun e => h e.symm)]

/-- The derivative of the error by a weight or the bias of a neuron of the first layer. -/
theorem hasDerivAt_first (N : Num ℝ) (hσ : N.sigmoid = sigmoid) (l : Layer ℝ) (rest : Net ℝ) (x t : List ℝ)
    (hs : Shape x.length (l :: rest)) (ht : t.length = width x.length (l :: rest)) (j : Nat) (hj : j < l.length)
    (k : Option Nat) (hk : ∀ k', k = some k' → k' < x.length) :
    HasDerivAt (fun s => lossOut (netEval N (bump (l :: rest) 0 j k s) x) t)
      (-2 * (del N l rest x t j * factor x k)) 0 := by
  have e : (fun s => lossOut (netEval N (bump (l :: rest) 0 j k s) x) t) =
      fun s => lossOut (netEval N rest (layerEval N (l.modify j fun n => n.bump s k) x)) t := by
    funext s
    simp [bump, netEval]
  rw [e]
  have h0 : layerEval N (l.modify j fun n => n.bump 0 k) x = layerEval N l x := by
    have : (fun n : Neuron ℝ => n.bump 0 k) = id := by
      funext n
      cases k with
      | none => simp [Neuron.bump]
      | some k =>
        simp only [Neuron.bump, add_zero, id]
        have : (fun x : ℝ => x) = id := rfl
        rw [this, List.modify_id]
    rw [this, List.modify_id]
  have hcurve : ∀ i < l.length, HasDerivAt (fun s => (layerEval N (l.modify j fun n => n.bump s k) x).getD i 0)
      (if i = j then (layerEval N l x).getD j 0 * (1 - (layerEval N l x).getD j 0) * factor x k else 0) 0 := by
    intro i hi
    have e1 : (fun s => (layerEval N (l.modify j fun n => n.bump s k) x).getD i 0) =
        fun s => (if i = j then (l.getD i default).bump s k else l.getD i default).eval N x := by
      funext s
      rw [getD_layerEval N _ x (by simpa using hi), getD_modify_layer l j i _ hi]
    rw [e1]
    by_cases hij : i = j
    · subst hij
      simp only [if_true]
      have hw : (l.getD i default).weight.length = x.length := by
        rw [List.getD_eq_getElem _ _ hi]; exact hs.1 _ (List.getElem_mem hi)
      have e2 : (fun s => ((l.getD i default).bump s k).eval N x) = fun s =>
          sigmoid ((l.getD i default).bias + dot (l.getD i default).weight x + s * factor x k) := by
        funext s
        rw [eval_bump N _ x k hw hk, hσ]
      rw [e2]
      have e3 : (layerEval N l x).getD i 0 =
          sigmoid ((l.getD i default).bias + dot (l.getD i default).weight x + 0 * factor x k) := by
        rw [getD_layerEval N l x hi, zero_mul, add_zero]
        unfold Neuron.eval
        rw [hσ]
      rw [e3]
      have h1 : HasDerivAt (fun s : ℝ => (l.getD i default).bias + dot (l.getD i default).weight x + s * factor x k)
          (factor x k) 0 := by
        have := ((hasDerivAt_id (0 : ℝ)).mul_const (factor x k)).const_add
          ((l.getD i default).bias + dot (l.getD i default).weight x)
        simpa using this
      exact (Real.hasDerivAt_sigmoid _).comp (0 : ℝ) h1
    · simp only [if_neg hij]
      exact hasDerivAt_const _ _
  have main := hasDerivAt_curve N hσ t rest l.length (fun s => layerEval N (l.modify j fun n => n.bump s k) x) _ hs.2
    (fun s => by simp [layerEval]) ht hcurve
  refine main.congr_deriv ?_
  congr 1
  rw [h0]
  simp only [mul_ite, mul_zero]
  rw [Finset.sum_ite_eq', if_pos (Finset.mem_range.2 hj)]
  unfold del
  ring

/-! ### The model -/

/-- The pending change of every neuron has the size of its weights. -/
def Sized (q : QNet ℝ) : Prop := ∀ l ∈ q, ∀ n ∈ l, n.dweight1.length = n.base.weight.length

theorem getD_vadd : ∀ (v w : List ℝ), w.length = v.length → ∀ i, (vadd v w).getD i 0 = v.getD i 0 + w.getD i 0 := by
  intro v w h i
  unfold vadd
  rcases Nat.lt_or_ge i v.length with hi | hi
  · rw [List.getD_eq_getElem _ _ (by simp; omega), List.getD_eq_getElem _ _ hi, List.getD_eq_getElem _ _ (by omega),
      List.getElem_zipWith]
  · rw [List.getD_eq_default _ _ (by simp; omega), List.getD_eq_default _ _ hi, List.getD_eq_default _ _ (by omega), add_zero]

/-- A net after one sample. -/
def after (N : Num ℝ) : QNet ℝ → List ℝ → List ℝ → QNet ℝ
  | [], _, _ => []
  | l :: rest, x, t =>
    (l.mapIdx fun j n => (n.fire N x).learn (del N (l.map QNeuron.here) (hereNet rest) x t j) x) ::
      after N rest (layerEval N (l.map QNeuron.here) x) t

theorem outs_fire (N : Num ℝ) (l : QLayer ℝ) (x : List ℝ) :
    outs (l.map fun n => n.fire N x) = layerEval N (l.map QNeuron.here) x := by
  unfold outs layerEval
  rw [List.map_map, List.map_map]
  rfl

theorem layerEval_getD_here (N : Num ℝ) (l : QLayer ℝ) (x : List ℝ) (j : Nat) (hj : j < l.length) :
    (layerEval N (l.map QNeuron.here) x).getD j 0 = (l[j].fire N x).out := by
  rw [← outs_fire]
  unfold outs
  rw [List.getD_eq_getElem _ _ (by simpa using hj)]
  simp

theorem foldl_sum {α : Type*} (l : List α) (f : α → ℝ) (a : ℝ) :
    l.foldl (fun s n => s + f n) a = a + (l.map f).sum := by
  induction l generalizing a with
  | nil => simp
  | cons x l ih => rw [List.foldl_cons, ih, List.map_cons, List.sum_cons]; ring

theorem sum_getElem (l : List ℝ) : l.sum = ∑ k ∈ Finset.range l.length, l.getD k 0 := by
  induction l with
  | nil => simp
  | cons x l ih =>
    rw [List.sum_cons, List.length_cons, Finset.sum_range_succ', ih]
    simp [add_comm]

/-- The sum over the next layer, which has been through `backward`. -/
theorem sumNext_after (N : Num ℝ) (l2 : QLayer ℝ) (rest : QNet ℝ) (x t : List ℝ)
    (hs : ∀ n ∈ l2, n.dweight1.length = n.base.weight.length) (i : Nat) :
    sumNext ((after N (l2 :: rest) x t).headD []) i = back N (hereNet (l2 :: rest)) x t i := by
  unfold sumNext
  rw [foldl_sum, zero_add, sum_getElem]
  simp only [after, List.headD_cons, List.length_map, List.length_mapIdx]
  have e : hereNet (l2 :: rest) = l2.map QNeuron.here :: hereNet rest := rfl
  rw [e, back, List.length_map]
  apply Finset.sum_congr rfl
  intro k hk
  rw [Finset.mem_range] at hk
  rw [List.getD_eq_getElem _ _ (by simpa using hk)]
  simp only [List.getElem_map, List.getElem_mapIdx]
  rw [List.getD_eq_getElem (l2.map QNeuron.here) _ (by simpa using hk), List.getElem_map]
  have hw : (l2[k].here).weight.getD i 0 = l2[k].base.weight.getD i 0 + l2[k].dweight1.getD i 0 :=
    getD_vadd _ _ (hs _ (List.getElem_mem hk)) i
  rw [hw]
  rfl

theorem backward_after (N : Num ℝ) (t : List ℝ) : ∀ (q : QNet ℝ) (x : List ℝ), Sized q →
    backward (forward N q x) x t = after N q x t
  | [], _, _ => rfl
  | [l], x, _ => by
    simp only [forward, backward, after, outputLayer, hereNet, List.map_nil]
    congr 1
    apply List.ext_getElem
    · simp
    · intro j h1 h2
      simp only [List.getElem_mapIdx, List.getElem_map]
      congr 1
      unfold del back
      rw [layerEval_getD_here N l x j (by simpa using h2)]
      ring
  | l :: l2 :: rest, x, hs => by
    have ih := backward_after N t (l2 :: rest) (layerEval N (l.map QNeuron.here) x)
      (fun l' hl' => hs l' (List.mem_cons_of_mem _ hl'))
    have hf : forward N (l :: l2 :: rest) x = (l.map fun n => n.fire N x) ::
        forward N (l2 :: rest) (layerEval N (l.map QNeuron.here) x) := by
      rw [forward]
      simp only [outs_fire]
    have hshape : ∃ l3 rest3, forward N (l2 :: rest) (layerEval N (l.map QNeuron.here) x) = l3 :: rest3 := by
      rw [forward]; exact ⟨_, _, rfl⟩
    obtain ⟨l3, rest3, h3⟩ := hshape
    rw [hf, h3, backward, ← h3, outs_fire, ih]
    conv_rhs => rw [after]
    congr 1
    unfold hiddenLayer
    apply List.ext_getElem
    · simp
    · intro j h1 h2
      simp only [List.getElem_mapIdx, List.getElem_map]
      congr 1
      rw [sumNext_after N l2 rest _ t (hs l2 (by simp))]
      unfold del
      rw [layerEval_getD_here N l x j (by simpa using h2)]

/-- Neuron `j` of layer `i`. -/
def at? {α : Type*} (q : List (List α)) (i j : Nat) : Option α := q[i]?.bind fun l => l[j]?

theorem at?_zero {α : Type*} (l : List α) (q : List (List α)) (j : Nat) : at? (l :: q) 0 j = l[j]? := rfl

theorem at?_succ {α : Type*} (l : List α) (q : List (List α)) (i j : Nat) : at? (l :: q) (i + 1) j = at? q i j := rfl

theorem bump_succ (l : Layer ℝ) (net : Net ℝ) (i j : Nat) (k : Option Nat) (s : ℝ) :
    bump (l :: net) (i + 1) j k s = l :: bump net i j k s := rfl

/-- What one sample does to a neuron. -/
theorem after_grad (N : Num ℝ) (hσ : N.sigmoid = sigmoid) (t : List ℝ) : ∀ (q : QNet ℝ) (x : List ℝ),
    Shape x.length (hereNet q) → t.length = width x.length (hereNet q) → ∀ (i j : Nat) (n' : QNeuron ℝ),
    at? (after N q x t) i j = some n' →
    ∃ n inp d, at? q i j = some n ∧ n'.dxo = vadd n.dxo (scale d inp) ∧ n'.ndelta = n.ndelta + d ∧
      inp.length = n.here.weight.length ∧
      ∀ k : Option Nat, (∀ k', k = some k' → k' < inp.length) →
        HasDerivAt (fun s => lossOut (netEval N (bump (hereNet q) i j k s) x) t) (-2 * (d * factor inp k)) 0
  | [], _, _, _, i, j, n', h => by simp [after, at?] at h
  | l :: rest, x, hs, ht, 0, j, n', h => by
    rw [after, at?_zero, List.getElem?_mapIdx] at h
    cases hj : l[j]? with
    | none => rw [hj] at h; simp at h
    | some n =>
      rw [hj] at h
      simp only [Option.map_some, Option.some.injEq] at h
      have hlt : j < l.length := by
        by_contra hc
        rw [List.getElem?_eq_none (by omega)] at hj
        simp at hj
      have hn : n ∈ l := List.mem_of_getElem? hj
      subst h
      refine ⟨n, x, del N (l.map QNeuron.here) (hereNet rest) x t j, by rw [at?_zero, hj], rfl, rfl, ?_, fun k hk => ?_⟩
      · exact (hs.1 n.here (List.mem_map.2 ⟨n, hn, rfl⟩)).symm
      · exact hasDerivAt_first N hσ (l.map QNeuron.here) (hereNet rest) x t hs ht j (by simpa using hlt) k hk
  | l :: rest, x, hs, ht, i + 1, j, n', h => by
    rw [after, at?_succ] at h
    have hlen : (layerEval N (l.map QNeuron.here) x).length = (l.map QNeuron.here).length := by simp [layerEval]
    obtain ⟨n, inp, d, h1, h2, h3, h4, h5⟩ := after_grad N hσ t rest (layerEval N (l.map QNeuron.here) x)
      (by rw [hlen]; exact hs.2) (by rw [hlen]; exact ht) i j n' h
    refine ⟨n, inp, d, by rw [at?_succ]; exact h1, h2, h3, h4, fun k hk => ?_⟩
    have e : (fun s => lossOut (netEval N (bump (hereNet (l :: rest)) (i + 1) j k s) x) t) =
        fun s => lossOut (netEval N (bump (hereNet rest) i j k s) (layerEval N (l.map QNeuron.here) x)) t := by
      funext s
      have : hereNet (l :: rest) = l.map QNeuron.here :: hereNet rest := rfl
      rw [this, bump_succ]
      rfl
    rw [e]
    exact h5 k hk

theorem after_map (N : Num ℝ) (g : QNeuron ℝ → Nat) (hg : ∀ n d x, g (QNeuron.learn n d x) = g n)
    (hf : ∀ n x, g (QNeuron.fire N n x) = g n) (t : List ℝ) : ∀ (q : QNet ℝ) (x : List ℝ), Sized q →
    (after N q x t).map (fun l => l.map g) = q.map fun l => l.map g := by
  intro q x hq
  rw [← backward_after N t q x hq, backward_map g hg, forward_map N g hf]

/-- Samples that fit a net of `m` inputs. -/
def Fits (m : Nat) (net : Net ℝ) (ts : List (Sample ℝ)) : Prop :=
  ∀ s ∈ ts, s.input.length = m ∧ s.output.length = width m net

theorem sized_iff (q : QNet ℝ) : Sized q ↔ ∀ i j n, at? q i j = some n → n.dweight1.length = n.base.weight.length := by
  constructor
  · intro h i j n hn
    unfold at? at hn
    cases hi : q[i]? with
    | none => rw [hi] at hn; simp at hn
    | some l =>
      rw [hi] at hn
      exact h l (List.mem_of_getElem? hi) n (List.mem_of_getElem? hn)
  · intro h l hl n hn
    obtain ⟨i, hi, rfl⟩ := List.getElem_of_mem hl
    obtain ⟨j, hj, rfl⟩ := List.getElem_of_mem hn
    exact h i j _ (by unfold at?; rw [List.getElem?_eq_getElem hi, Option.bind_some, List.getElem?_eq_getElem hj])

theorem after_sized (N : Num ℝ) (t : List ℝ) : ∀ (q : QNet ℝ) (x : List ℝ), Sized q → Sized (after N q x t)
  | [], _, h => h
  | l :: rest, x, h => by
    intro l' hl' n hn
    rw [after] at hl'
    rcases List.mem_cons.1 hl' with e | e
    · subst e
      obtain ⟨j, hj, rfl⟩ := List.getElem_of_mem hn
      simp only [List.getElem_mapIdx]
      exact h l (by simp) (l[j]'(by simpa using hj)) (List.getElem_mem (by simpa using hj))
    · exact after_sized N t rest _ (fun l' hl' => h l' (List.mem_cons_of_mem _ hl')) l' e n hn

/-- The invariant of the loop over the samples: what has been accumulated is the gradient of the samples so far. -/
def Accum (N : Num ℝ) (q : QNet ℝ) (done : List (Sample ℝ)) : Prop :=
  ∀ i j n, at? q i j = some n → n.dxo.length = n.here.weight.length ∧
    HasDerivAt (fun s => squares N (bump (hereNet q) i j none s) done) (-2 * n.ndelta) 0 ∧
    ∀ k < n.dxo.length, HasDerivAt (fun s => squares N (bump (hereNet q) i j (some k) s) done) (-2 * n.dxo.getD k 0) 0

theorem squares_snoc (N : Num ℝ) (net : Net ℝ) (done : List (Sample ℝ)) (s : Sample ℝ) :
    squares N net (done ++ [s]) = squares N net done + lossOut (netEval N net s.input) s.output := by
  unfold squares diffs lossOut
  simp

theorem learnSample_accum (N : Num ℝ) (hσ : N.sigmoid = sigmoid) (q : QNet ℝ) (done : List (Sample ℝ)) (s : Sample ℝ)
    (hz : Sized q) (hs : Shape s.input.length (hereNet q)) (ht : s.output.length = width s.input.length (hereNet q))
    (ha : Accum N q done) : Sized (learnSample N q s).1 ∧ hereNet (learnSample N q s).1 = hereNet q ∧
      Accum N (learnSample N q s).1 (done ++ [s]) := by
  have e1 : (learnSample N q s).1 = after N q s.input s.output := by
    unfold learnSample
    exact backward_after N s.output q s.input hz
  have e2 : hereNet (learnSample N q s).1 = hereNet q := by
    unfold learnSample hereNet
    dsimp only
    rw [backward_map _ (fun _ _ _ => rfl), forward_map N _ (fun _ _ => rfl)]
  refine ⟨by rw [e1]; exact after_sized N _ q _ hz, e2, ?_⟩
  intro i j n' hn'
  rw [e2]
  rw [e1] at hn'
  obtain ⟨n, inp, d, h1, h2, h3, h4, h5⟩ := after_grad N hσ s.output q s.input hs ht i j n' hn'
  obtain ⟨a1, a2, a3⟩ := ha i j n h1
  have hhere : n'.here = n.here := by
    have := congrArg (fun r => at? r i j) e2
    have e3 : ∀ r : QNet ℝ, at? (hereNet r) i j = (at? r i j).map QNeuron.here := by
      intro r
      unfold at? hereNet
      rw [List.getElem?_map]
      cases r[i]? with
      | none => rfl
      | some l => simp
    rw [e3, e3, e1, hn', h1] at this
    simpa using this
  have hlen : n'.dxo.length = n.dxo.length := by
    rw [h2]
    unfold vadd scale
    simp
    omega
  refine ⟨by rw [hlen, hhere]; exact a1, ?_, fun k hk => ?_⟩
  · have e : (fun r => squares N (bump (hereNet q) i j none r) (done ++ [s])) = fun r =>
        squares N (bump (hereNet q) i j none r) done +
          lossOut (netEval N (bump (hereNet q) i j none r) s.input) s.output := by
      funext r; exact squares_snoc N _ done s
    rw [e, h3]
    refine (a2.fun_add (h5 none (by simp))).congr_deriv ?_
    unfold factor
    ring
  · have e : (fun r => squares N (bump (hereNet q) i j (some k) r) (done ++ [s])) = fun r =>
        squares N (bump (hereNet q) i j (some k) r) done +
          lossOut (netEval N (bump (hereNet q) i j (some k) r) s.input) s.output := by
      funext r; exact squares_snoc N _ done s
    rw [hlen] at hk
    have hki : k < inp.length := by omega
    rw [e, h2]
    refine ((a3 k hk).fun_add (h5 (some k) (by simpa using hki))).congr_deriv ?_
    have : (vadd n.dxo (scale d inp)).getD k 0 = n.dxo.getD k 0 + d * inp.getD k 0 := by
      rw [getD_vadd _ _ (by unfold scale; rw [List.length_map]; omega)]
      unfold scale
      rw [List.getD_eq_getElem (List.map _ inp) _ (by simpa using hki), List.getElem_map,
        List.getD_eq_getElem _ _ hki, mul_comm]
    rw [this]
    unfold factor
    ring

theorem learnAll_accum (N : Num ℝ) (hσ : N.sigmoid = sigmoid) (m : Nat) : ∀ (ts : List (Sample ℝ)) (q : QNet ℝ) (e : ℝ)
    (done : List (Sample ℝ)), Sized q → Shape m (hereNet q) → Fits m (hereNet q) ts → Accum N q done →
    hereNet (learnAll N q e ts).1 = hereNet q ∧ Accum N (learnAll N q e ts).1 (done ++ ts)
  | [], q, e, done, _, _, _, ha => by rw [List.append_nil]; exact ⟨rfl, ha⟩
  | s :: ts, q, e, done, hz, hs, hf, ha => by
    have hfs := hf s (by simp)
    obtain ⟨b1, b2, b3⟩ := learnSample_accum N hσ q done s hz (by rw [hfs.1]; exact hs) (by rw [hfs.1]; exact hfs.2) ha
    unfold learnAll
    obtain ⟨c1, c2⟩ := learnAll_accum N hσ m ts (learnSample N q s).1 (e + (learnSample N q s).2) (done ++ [s]) b1
      (by rw [b2]; exact hs) (by rw [b2]; exact fun s' hs' => hf s' (List.mem_cons_of_mem _ hs')) b3
    refine ⟨c1.trans b2, ?_⟩
    simpa using c2

/-! ### C345 -/

/-- **C345** (gradient).  In exact arithmetic one pass over the training set computes the gradient: afterwards, for every
neuron of every layer, what has been accumulated for a weight is minus half the derivative, by that weight, of the sum of
the squared differences over the training set, and what has been accumulated for its bias is minus half the derivative by
the bias.  The derivatives are those at the net the pass has evaluated, pending changes included.  For any number of
layers and neurons and any samples of matching sizes. -/
theorem C345_gradient (N : Num ℝ) (hσ : N.sigmoid = sigmoid) (q : QNet ℝ) (m : Nat) (ts : List (Sample ℝ))
    (hz : Sized q) (hx : ∀ l ∈ q, ∀ n ∈ l, n.dxo.length = n.base.weight.length) (hs : Shape m (hereNet q))
    (hf : Fits m (hereNet q) ts) (i j : Nat) (n' : QNeuron ℝ)
    (hn' : at? (learnError N (initDelta q) ts).1 i j = some n') :
    HasDerivAt (fun s => squares N (bump (hereNet q) i j none s) ts) (-2 * n'.ndelta) 0 ∧
    n'.dxo.length = n'.here.weight.length ∧
    ∀ k < n'.dxo.length, HasDerivAt (fun s => squares N (bump (hereNet q) i j (some k) s) ts) (-2 * n'.dxo.getD k 0) 0 := by
  have h0 := initDelta_here q
  have hz0 : Sized (initDelta q) := by
    intro l hl n hn
    unfold initDelta at hl
    rw [List.mem_map] at hl
    obtain ⟨l0, hl0, rfl⟩ := hl
    rw [List.mem_map] at hn
    obtain ⟨n0, hn0, rfl⟩ := hn
    exact hz l0 hl0 n0 hn0
  have ha : Accum N (initDelta q) [] := by
    intro i j n hn
    have hat : ∃ n0, at? q i j = some n0 ∧ n = { n0 with ndelta := 0, dxo := n0.dxo.map fun _ => 0 } := by
      unfold at? initDelta at hn
      rw [List.getElem?_map] at hn
      unfold at?
      cases hi : q[i]? with
      | none => rw [hi] at hn; simp at hn
      | some l =>
        rw [hi] at hn
        simp only [Option.map_some, Option.bind_some, List.getElem?_map] at hn ⊢
        cases hj : l[j]? with
        | none => rw [hj] at hn; simp at hn
        | some n0 => rw [hj] at hn; exact ⟨n0, rfl, (Option.some.inj hn).symm⟩
    obtain ⟨n0, hn0, rfl⟩ := hat
    have hmem : ∃ l ∈ q, n0 ∈ l := by
      unfold at? at hn0
      cases hi : q[i]? with
      | none => rw [hi] at hn0; simp at hn0
      | some l => rw [hi] at hn0; exact ⟨l, List.mem_of_getElem? hi, List.mem_of_getElem? hn0⟩
    obtain ⟨l, hl, hnl⟩ := hmem
    refine ⟨?_, ?_, fun k hk => ?_⟩
    · unfold QNeuron.here vadd
      simp [hx l hl n0 hnl, hz l hl n0 hnl]
    · simpa [squares] using hasDerivAt_const (0 : ℝ) (0 : ℝ)
    · have : (n0.dxo.map fun _ => (0 : ℝ)).getD k 0 = 0 := by
        rw [List.getD_eq_getElem _ _ hk]; simp
      simp only [this]
      simpa [squares] using hasDerivAt_const (0 : ℝ) (0 : ℝ)
  obtain ⟨b1, b2⟩ := learnAll_accum N hσ m ts (initDelta q) 0 [] hz0 (by rw [h0.1]; exact hs) (by rw [h0.1]; exact hf) ha
  have b3 := b2 i j n' hn'
  rw [List.nil_append, b1, h0.1] at b3
  exact ⟨b3.2.1, b3.1, b3.2.2⟩

/-- **C345** (step).  The change of weights tried next is the rate times what has been accumulated per sample plus the
momentum times the last change accepted, which is the one just evaluated if that is being accepted now. -/
theorem C345_step (N : Num ℝ) (size : Nat) (fire : Bool) (c : Coeffs ℝ) (n : QNeuron ℝ)
    (h1 : n.dxo.length = n.base.weight.length) (h2 : n.dweight1.length = n.base.weight.length)
    (h3 : n.dweight2.length = n.base.weight.length) (k : Nat) (hk : k < n.base.weight.length) :
    (n.update N size fire c).dweight1.getD k 0 = c.eta * (n.dxo.getD k 0 / N.ofSize size) +
      c.momentum * (if fire then n.dweight1 else n.dweight2).getD k 0 ∧
    (n.update N size fire c).dbias1 = c.eta * (n.ndelta / N.ofSize size) +
      c.momentum * (if fire then n.dbias1 else n.dbias2) := by
  refine ⟨?_, rfl⟩
  have hsc : ∀ (b : ℝ) (v : List ℝ), k < v.length → (scale b v).getD k 0 = b * v.getD k 0 := by
    intro b v hv
    unfold scale
    rw [List.getD_eq_getElem _ _ (by simpa using hv), List.getElem_map, List.getD_eq_getElem _ _ hv, mul_comm]
  have hdiv : (n.dxo.map (· / N.ofSize size)).getD k 0 = n.dxo.getD k 0 / N.ofSize size := by
    rw [List.getD_eq_getElem _ _ (by simp; omega), List.getElem_map, List.getD_eq_getElem _ _ (by omega)]
  cases fire
  · show (vadd (scale c.eta (n.dxo.map (· / N.ofSize size))) (scale c.momentum n.dweight2)).getD k 0 = _
    rw [getD_vadd _ _ (by simp [scale]; omega), hsc _ _ (by simp; omega), hsc _ _ (by omega), hdiv]
    rfl
  · show (vadd (scale c.eta (n.dxo.map (· / N.ofSize size))) (scale c.momentum n.dweight1)).getD k 0 = _
    rw [getD_vadd _ _ (by simp [scale]; omega), hsc _ _ (by simp; omega), hsc _ _ (by omega), hdiv]
    rfl

/-- The sizes hold at the start of a training and after every step. -/
theorem C345_sizes (N : Num ℝ) (net : Net ℝ) :
    (Sized (ofNet net) ∧ ∀ l ∈ ofNet net, ∀ n ∈ l, n.dxo.length = n.base.weight.length) ∧
    ∀ (size : Nat) (fire : Bool) (c : Coeffs ℝ) (n : QNeuron ℝ), n.dxo.length = n.base.weight.length →
      n.dweight1.length = n.base.weight.length → n.dweight2.length = n.base.weight.length →
      (n.update N size fire c).dxo.length = n.base.weight.length ∧
      (n.update N size fire c).dweight1.length = n.base.weight.length ∧
      (n.update N size fire c).dweight2.length = n.base.weight.length ∧
      (n.update N size fire c).base.weight.length = n.base.weight.length := by
  refine ⟨⟨?_, ?_⟩, ?_⟩
  · intro l hl n hn
    unfold ofNet at hl
    rw [List.mem_map] at hl
    obtain ⟨l0, _, rfl⟩ := hl
    rw [List.mem_map] at hn
    obtain ⟨n0, _, rfl⟩ := hn
    simp [QNeuron.mk']
  · intro l hl n hn
    unfold ofNet at hl
    rw [List.mem_map] at hl
    obtain ⟨l0, _, rfl⟩ := hl
    rw [List.mem_map] at hn
    obtain ⟨n0, _, rfl⟩ := hn
    simp [QNeuron.mk']
  · intro size fire c n h1 h2 h3
    cases fire <;> simp [QNeuron.update, vadd, scale, h1, h2, h3]

/-- Two inputs, two hidden neurons, one output, one sample: the hypotheses hold. -/
example : Shape 2 (hereNet (ofNet [[⟨0, [1, 2]⟩, ⟨1, [0, 1]⟩], [⟨0, [1, -1]⟩]])) ∧
    Fits 2 (hereNet (ofNet [[⟨0, [1, 2]⟩, ⟨1, [0, 1]⟩], [⟨0, [1, -1]⟩]])) [⟨[1, 0], [1]⟩] := by
  rw [hereNet_ofNet]
  refine ⟨by simp [Shape], ?_⟩
  intro s hs
  rw [List.mem_singleton.1 hs]
  simp [width]

end Paradiseo.Mlp
