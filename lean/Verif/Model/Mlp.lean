/-
Model of the multilayer perceptrons of the gprop application (eo/app/gprop/mlp.h) and of their training (qp.h, mse.h).

The number type is arbitrary: `R` has the five operations and the two constants used by the code, without laws, and `Num`
holds the rest (`exp` hidden in `sigmoid`, `sqrt`, comparison, literals).  So what is proved for all `R` holds for `double`,
NaN included, and with exact arithmetic `R` is the field of real numbers.

Simplifications: nets and samples have matching sizes (outside of that the code reads beyond vectors); `zipWith` stops at
the shorter list.  A `qp::net` holds pointers to the neurons of the `mlp::net`; here the neurons are part of it (`base`).
-/
import Mathlib.Data.List.Basic

namespace Paradiseo.Mlp

/-- What the code needs of its number type besides `+ - * / 0 1`. -/
structure Num (R : Type*) where
  sigmoid : R → R
  sqrt : R → R
  lt : R → R → Bool
  /-- the literal `a / b` -/
  lit : Nat → Nat → R
  maxReal : R
  ofSize : Nat → R

variable {R : Type*} [Add R] [Sub R] [Mul R] [Div R] [Zero R] [One R]

/-- `std::max(a, b)`. -/
def Num.max (N : Num R) (a b : R) : R := if N.lt a b then b else a

/-! ### vecop.h -/

/-- `v1 + v2` (vecop.h:19-24). -/
def vadd (v w : List R) : List R := List.zipWith (· + ·) v w

/-- `v1 * v2`, the inner product (vecop.h:33-36). -/
def dot (v w : List R) : R := (List.zipWith (· * ·) v w).foldl (· + ·) 0

/-- `b * v` (vecop.h:110-115). -/
def scale (b : R) (v : List R) : List R := v.map fun a => a * b

/-! ### mlp.h -/

/-- `mlp::neuron` (mlp.h:81-84). -/
structure Neuron (R : Type*) where
  bias : R
  weight : List R
  deriving DecidableEq

/-- `neuron::operator()` (mlp.h:95-98). -/
def Neuron.eval (N : Num R) (n : Neuron R) (input : List R) : R := N.sigmoid (n.bias + dot n.weight input)

abbrev Layer (R : Type*) := List (Neuron R)

/-- `layer::operator()` (mlp.h:185-193). -/
def layerEval (N : Num R) (l : Layer R) (input : List R) : List R := l.map fun n => n.eval N input

abbrev Net (R : Type*) := List (Layer R)

/-- `net::operator()` (mlp.h:404-412). -/
def netEval (N : Num R) (net : Net R) (input : List R) : List R := net.foldl (fun tmp l => layerEval N l tmp) input

/-- A sample (mlp.h:420-426). -/
structure Sample (R : Type*) where
  input : List R
  output : List R

/-- The differences of a sample: `s->output[i] - out[i]`. -/
def diffs (N : Num R) (net : Net R) (s : Sample R) : List R := List.zipWith (· - ·) s.output (netEval N net s.input)

/-- `mse::error` of a net (mse.h:32-48). -/
def mseError (N : Num R) (net : Net R) (ts : List (Sample R)) : R :=
  (ts.foldl (fun e s => (diffs N net s).foldl (fun e d => e + d * d) e) 0) / N.ofSize ts.length

/-! ### qp.h: nets in training -/

/-- `qp::neuron` (qp.h:50-60). -/
structure QNeuron (R : Type*) where
  base : Neuron R
  out : R
  delta : R
  ndelta : R
  dbias1 : R
  dbias2 : R
  dweight1 : List R
  dweight2 : List R
  dxo : List R

abbrev QLayer (R : Type*) := List (QNeuron R)
abbrev QNet (R : Type*) := List (QLayer R)

/-- The constructor (qp.h:56-60). -/
def QNeuron.mk' (n : Neuron R) : QNeuron R :=
  ⟨n, 0, 0, 0, 0, 0, n.weight.map fun _ => 0, n.weight.map fun _ => 0, n.weight.map fun _ => 0⟩

/-- The net in training of a net (qp.h:96-100, 127-131). -/
def ofNet (net : Net R) : QNet R := net.map fun l => l.map QNeuron.mk'

/-- The neuron at which the next evaluation takes place: with the pending change of weights. -/
def QNeuron.here (n : QNeuron R) : Neuron R := ⟨n.base.bias + n.dbias1, vadd n.base.weight n.dweight1⟩

/-- `neuron::operator()` (qp.h:74-78). -/
def QNeuron.fire (N : Num R) (n : QNeuron R) (input : List R) : QNeuron R :=
  { n with out := N.sigmoid (n.base.bias + n.dbias1 + dot (vadd n.base.weight n.dweight1) input) }

/-- The outputs of a layer. -/
def outs (l : QLayer R) : List R := l.map QNeuron.out

/-- `net::forward` (qp.h:180-187). -/
def forward (N : Num R) : QNet R → List R → QNet R
  | [], _ => []
  | l :: rest, input =>
    let l' := l.map fun n => n.fire N input
    l' :: forward N rest (outs l')

/-- A new delta (mse.h:85-91, 114-122) with the inputs of the layer. -/
def QNeuron.learn (n : QNeuron R) (delta : R) (input : List R) : QNeuron R :=
  { n with delta := delta, ndelta := n.ndelta + delta, dxo := vadd n.dxo (scale delta input) }

/-- The output layer (mse.h:80-94). -/
def outputLayer (l : QLayer R) (input output : List R) : QLayer R :=
  l.mapIdx fun j n => n.learn ((output.getD j 0 - n.out) * n.out * (1 - n.out)) input

/-- The sum over the next layer (mse.h:108-112). -/
def sumNext (next : QLayer R) (j : Nat) : R :=
  next.foldl (fun sum nf => sum + nf.delta * (nf.base.weight.getD j 0 + nf.dweight1.getD j 0)) 0

/-- A hidden layer (mse.h:102-123). -/
def hiddenLayer (l : QLayer R) (input : List R) (next : QLayer R) : QLayer R :=
  l.mapIdx fun j n => n.learn (n.out * (1 - n.out) * sumNext next j) input

/-- `backward` of mse (mse.h:73-127), from the last layer to the first; the layers know their outputs. -/
def backward : QNet R → List R → List R → QNet R
  | [], _, _ => []
  | [l], input, output => [outputLayer l input output]
  | l :: l2 :: rest, input, output =>
    let rest' := backward (l2 :: rest) (outs l) output
    hiddenLayer l input (rest'.headD []) :: rest'

/-- The value of `backward` (mse.h:77, 84, 93): the sum of the squared differences at the last layer. -/
def backwardError (q : QNet R) (output : List R) : R :=
  (List.zipWith (· - ·) output (outs (q.getLastD []))).foldl (fun e d => e + d * d) 0

/-- One sample (mse.h:66-67). -/
def learnSample (N : Num R) (q : QNet R) (s : Sample R) : QNet R × R :=
  let f := forward N q s.input
  (backward f s.input s.output, backwardError f s.output)

/-- The loop of `error` (mse.h:66-68). -/
def learnAll (N : Num R) : QNet R → R → List (Sample R) → QNet R × R
  | q, e, [] => (q, e)
  | q, e, s :: ts => learnAll N (learnSample N q s).1 (e + (learnSample N q s).2) ts

/-- `net::error` (mse.h:62-72). -/
def learnError (N : Num R) (q : QNet R) (ts : List (Sample R)) : QNet R × R :=
  ((learnAll N q 0 ts).1, (learnAll N q 0 ts).2 / N.ofSize ts.length)

/-- `init_delta` (qp.h:190-195). -/
def initDelta (q : QNet R) : QNet R :=
  q.map fun l => l.map fun n => { n with ndelta := 0, dxo := n.dxo.map fun _ => 0 }

/-- The coefficients of the training. -/
structure Coeffs (R : Type*) where
  eta : R
  momentum : R
  lambda : R

/-- A sum over all neurons (qp.h:201-207). -/
def sumNeurons (q : QNet R) (f : QNeuron R → R) : R := q.foldl (fun s l => l.foldl (fun s n => s + f n) s) 0

/-- `coeff_adapt` (qp.h:197-214). -/
def coeffAdapt (N : Num R) (q : QNet R) (c : Coeffs R) : Coeffs R :=
  let me := N.max (N.sqrt (sumNeurons q fun n => dot n.dxo n.dxo)) (N.lit 1 10000)
  let mw := N.max (N.sqrt (sumNeurons q fun n => dot n.dweight1 n.dweight1)) (N.lit 1 10000)
  let ew := sumNeurons q fun n => dot n.dxo n.dweight1
  let eta := N.max (c.eta * (1 + N.lit 1 2 * ew / (me * mw))) (N.lit 1 10000)
  let lambda := N.lit 1 10 * me / mw
  ⟨eta, eta * lambda, lambda⟩

/-- The coefficients after a step back (qp.h:166-168). -/
def backtrack (N : Num R) (c : Coeffs R) : Coeffs R :=
  let eta := N.max (c.eta * N.lit 1 2) (N.lit 1 10000)
  ⟨eta, eta * c.lambda, c.lambda⟩

/-- `weight_update` of a neuron (qp.h:226-236). -/
def QNeuron.update (N : Num R) (size : Nat) (fire : Bool) (c : Coeffs R) (n : QNeuron R) : QNeuron R :=
  let ndelta := n.ndelta / N.ofSize size
  let dxo := n.dxo.map (· / N.ofSize size)
  let base := if fire then (⟨n.base.bias + n.dbias1, vadd n.base.weight n.dweight1⟩ : Neuron R) else n.base
  let dweight2 := if fire then n.dweight1 else n.dweight2
  let dbias2 := if fire then n.dbias1 else n.dbias2
  { n with
    base := base, ndelta := ndelta, dxo := dxo, dweight2 := dweight2, dbias2 := dbias2
    dweight1 := vadd (scale c.eta dxo) (scale c.momentum dweight2)
    dbias1 := c.eta * ndelta + c.momentum * dbias2 }

/-- `weight_update` (qp.h:221-238). -/
def weightUpdate (N : Num R) (size : Nat) (fire : Bool) (c : Coeffs R) (q : QNet R) : QNet R :=
  q.map fun l => l.map fun n => n.update N size fire c

/-- The loop of `train` (qp.h:151-172). -/
def trainLoop (N : Num R) (ts : List (Sample R)) (target tolerance : R) : Nat → QNet R → Coeffs R → R → QNet R × R
  | 0, q, _, error => (q, error)
  | epochs + 1, q, c, error =>
    if N.lt target error then
      let (q', e) := learnError N (initDelta q) ts
      if N.lt e (error + tolerance) then
        let c' := coeffAdapt N q' c
        trainLoop N ts target tolerance epochs (weightUpdate N ts.length true c' q') c' e
      else
        let c' := backtrack N c
        trainLoop N ts target tolerance epochs (weightUpdate N ts.length false c' q') c' error
    else (q, error)

/-- The net that is being trained. -/
def baseNet (q : QNet R) : Net R := q.map fun l => l.map QNeuron.base

/-- Training a net (gprop.h:170-171, 188-191; qp.h:141-175): the net afterwards and the value returned. -/
def train (N : Num R) (net : Net R) (ts : List (Sample R)) (epochs : Nat) (target tolerance : R) (c : Coeffs R) : Net R × R :=
  let (q, e) := trainLoop N ts target tolerance epochs (ofNet net) c N.maxReal
  (baseNet q, e)

end Paradiseo.Mlp
