/-
Model of the rest of the perceptrons of the gprop application: shapes, text, normalisation and the like (eo/app/gprop/mlp.h)
and chromosomes, operators and fitness (eo/app/gprop/gprop.h).

Simplifications: a text is the list of its items separated by white space (`Tok`); printing and reading a number are
parameters (`pr`, `rd`; with the default precision of streams `rd (pr x)` is `x` rounded to six digits, and what is printed for
an infinity or NaN cannot be read).  The bias of a fresh neuron is not initialised: `junk`.  gprop.cpp is not modelled.
-/
import Verif.Model.Mlp
import Mathlib.Analysis.SpecialFunctions.Exp
import Mathlib.Analysis.SpecialFunctions.Sqrt

namespace Paradiseo.Mlp

/-- How a call ends without a value. -/
inductive Fail where
  /-- undefined behaviour -/
  | ub
  /-- a failed `assert` -/
  | asserted
  /-- it never ends -/
  | forever
  deriving DecidableEq

/-! ### Shapes -/

section
variable {R : Type} [Zero R]

/-- `layer(num_inputs, num_neurons)` (mlp.h:86, 175-176). -/
def newLayer (junk : R) (inputs neurons : Nat) : Layer R := List.replicate neurons ⟨junk, List.replicate inputs 0⟩

/-- `net::init` (mlp.h:320-336): one layer from each size to the next. -/
def initNet (junk : R) (inputs outputs : Nat) : List Nat → Net R
  | [] => [newLayer junk inputs outputs]
  | h :: hidden => newLayer junk inputs h :: initNet junk h outputs hidden

/-- `num_inputs` (mlp.h:366): undefined without a first neuron. -/
def numInputs : Net R → Except Fail Nat
  | (n :: _) :: _ => .ok (n.weight.length + 1 - 1)
  | _ => .error .ub

/-- `num_outputs` (mlp.h:367). -/
def numOutputs (net : Net R) : Except Fail Nat :=
  match net.getLast? with
  | some l => .ok l.length
  | none => .error .ub

/-- `num_hidden_layers` (mlp.h:368-371). -/
def numHidden (net : Net R) : Nat := net.length - 1

/-- `layer::length` (mlp.h:195). -/
def layerLength : Layer R → Except Fail Nat
  | [] => .error .ub
  | n :: l => .ok ((n.weight.length + 1) * (n :: l).length)

/-- `net::length` (mlp.h:374-382). -/
def netLength : Net R → Except Fail Nat
  | [] => .ok 0
  | l :: net => do
    let a ← layerLength l
    let b ← netLength net
    return a + b

/-! ### Text -/

/-- The items of a text. -/
inductive Tok (τ : Type) where
  | size (n : Nat)
  | val (t : τ)
  | lt
  | gt
  deriving DecidableEq

variable {τ : Type}

/-- `net::save` (mlp.h:353-363) with the outputs of layers, neurons and vectors (mlp.h:38-43, 152-155, 236-241). -/
def saveNet (pr : R → τ) (net : Net R) : Except Fail (List (Tok τ)) := do
  let i ← numInputs net
  let o ← numOutputs net
  return [.size i, .size o, .size (numHidden net)] ++ net.map (fun l => .size l.length) ++ [.lt] ++
    (net.flatMap fun l => l.flatMap fun n => .val (pr n.bias) :: n.weight.map fun w => .val (pr w)) ++ [.gt]

/-- Reading numbers one after the other: the values and what is left of the text, or nothing if the stream has failed. -/
def readVals (rd : τ → Option R) : Nat → List (Tok τ) → Option (List R × List (Tok τ))
  | 0, s => some ([], s)
  | n + 1, .val t :: s =>
    match rd t with
    | none => none
    | some x =>
      match readVals rd n s with
      | none => none
      | some (xs, s') => some (x :: xs, s')
  | _ + 1, _ => none

/-- A neuron with a given number of weights (mlp.h:157-160). -/
def readNeuron (rd : τ → Option R) (inputs : Nat) (s : List (Tok τ)) : Option (Neuron R × List (Tok τ)) :=
  match readVals rd 1 s with
  | some ([b], s') =>
    match readVals rd inputs s' with
    | some (ws, s'') => some (⟨b, ws⟩, s'')
    | none => none
  | _ => none

/-- A layer (mlp.h:243-249), given the neurons it consists of. -/
def readLayer (rd : τ → Option R) : Layer R → List (Tok τ) → Option (Layer R × List (Tok τ))
  | [], s => some ([], s)
  | n :: l, s =>
    match readNeuron rd n.weight.length s with
    | none => none
    | some (n', s') =>
      match readLayer rd l s' with
      | none => none
      | some (l', s'') => some (n' :: l', s'')

/-- The layers (mlp.h:313-315). -/
def readLayers (rd : τ → Option R) : Net R → List (Tok τ) → Option (Net R × List (Tok τ))
  | [], s => some ([], s)
  | l :: net, s =>
    match readLayer rd l s with
    | none => none
    | some (l', s') =>
      match readLayers rd net s' with
      | none => none
      | some (net', s'') => some (l' :: net', s'')

/-- Sizes (mlp.h:298-307): a size that cannot be read leaves a variable without a value. -/
def readSizes : Nat → List (Tok τ) → Except Fail (List Nat × List (Tok τ))
  | 0, s => .ok ([], s)
  | n + 1, .size k :: s => do
    let (ks, s') ← readSizes n s
    return (k :: ks, s')
  | _ + 1, _ => .error .ub

/-- The end of `net::load` (mlp.h:311-317).  Once a number could not be read the last character read is still `<`: the
assertion at the end fails. -/
def loadBody (rd : τ → Option R) (net : Net R) (s : List (Tok τ)) : Except Fail (Net R × List (Tok τ)) :=
  match readLayers rd net ((s.dropWhile fun t => match t with | .lt => false | _ => true).drop 1) with
  | some (net, .gt :: s) => .ok (net, s)
  | _ => .error .asserted

/-- `net::load` (mlp.h:293-318). -/
def loadNet (rd : τ → Option R) (junk : R) (s : List (Tok τ)) : Except Fail (Net R × List (Tok τ)) :=
  match readSizes 3 s with
  | .error e => .error e
  | .ok (h, s) =>
    match readSizes (h.getD 2 0) s with
    | .error e => .error e
    | .ok (hidden, s) =>
      match readSizes 1 s with
      | .error e => .error e
      | .ok (check, s) =>
        if check = [h.getD 1 0] then loadBody rd (initNet junk (h.getD 0 0) (h.getD 1 0) hidden) s else .error .asserted

/-- `set::save` (mlp.h:462-465) of sets. -/
def saveSet (pr : R → τ) : List (Sample R) → Except Fail (List (Tok τ))
  | [] => .error .ub
  | x :: ts => .ok ([.size x.input.length, .size x.output.length] ++
      (x :: ts).flatMap fun s => (s.input ++ s.output).map fun v => .val (pr v))

/-- The loop of `set::load` (mlp.h:459); `forever` if a sample has no numbers, since reading none never fails. -/
def readSamples (rd : τ → Option R) (i o : Nat) : Nat → List (Tok τ) → Except Fail (List (Sample R))
  | 0, _ => .error .forever
  | fuel + 1, s =>
    match readVals rd (i + o) s with
    | none => .ok []
    | some (xs, s') => do
      let rest ← readSamples rd i o fuel s'
      return ⟨xs.take i, xs.drop i⟩ :: rest

/-- `set::load` (mlp.h:455-460). -/
def loadSet (rd : τ → Option R) (s : List (Tok τ)) : Except Fail (List (Sample R)) := do
  let (h, s) ← readSizes 2 s
  readSamples rd (h.getD 0 0) (h.getD 1 0) (s.length + 1) s

end

/-! ### Changing weights, exact arithmetic -/

/-- The square root of the sum of the squares of bias and weights (mlp.h:104). -/
noncomputable def Neuron.norm (n : Neuron ℝ) : ℝ := √(n.bias * n.bias + dot n.weight n.weight)

/-- `neuron::normalize` (mlp.h:102-107); nothing defined if all is zero (NaN). -/
noncomputable def Neuron.normalize (n : Neuron ℝ) : Neuron ℝ := ⟨n.bias / n.norm, n.weight.map (· / n.norm)⟩

/-- `net::normalize` (mlp.h:197-201, 384-388). -/
noncomputable def normalizeNet (net : Net ℝ) : Net ℝ := net.map fun l => l.map Neuron.normalize

/-- One number in `desaturate` (mlp.h:111, 114). -/
noncomputable def squash (x : ℝ) : ℝ := -5 + 10 / (1 + Real.exp (x / -5))

/-- `neuron::desaturate` (mlp.h:109-115). -/
noncomputable def Neuron.desaturate (n : Neuron ℝ) : Neuron ℝ := ⟨squash n.bias, n.weight.map squash⟩

/-- `net::desaturate` (mlp.h:203-207, 390-394). -/
noncomputable def desaturateNet (net : Net ℝ) : Net ℝ := net.map fun l => l.map Neuron.desaturate

/-- `perturb_num` (mlp.h:117-121) with the number `u` drawn from [0, 1). -/
noncomputable def perturbNum (num magnitude u : ℝ) : ℝ := num + max num (1 / 20) * magnitude * (u - 1 / 2)

/-- Numbers perturbed one after the other: each decides first whether it is, if the probability is below 1. -/
noncomputable def perturbVals (magnitude probability : ℝ) : List ℝ → (Nat → ℝ) → Nat → List ℝ × Nat
  | [], _, k => ([], k)
  | w :: ws, u, k =>
    if 1 ≤ probability then
      let r := perturbVals magnitude probability ws u (k + 1)
      (perturbNum w magnitude (u k) :: r.1, r.2)
    else if u k < probability then
      let r := perturbVals magnitude probability ws u (k + 2)
      (perturbNum w magnitude (u (k + 1)) :: r.1, r.2)
    else
      let r := perturbVals magnitude probability ws u (k + 1)
      (w :: r.1, r.2)

/-- `neuron::perturb` (mlp.h:123-131): weights first, then the bias. -/
noncomputable def Neuron.perturb (magnitude probability : ℝ) (n : Neuron ℝ) (u : Nat → ℝ) (k : Nat) : Neuron ℝ × Nat :=
  let r := perturbVals magnitude probability n.weight u k
  let b := perturbVals magnitude probability [n.bias] u r.2
  (⟨b.1.headD 0, r.1⟩, b.2)

/-- `layer::perturb` (mlp.h:209-213): the arguments are not handed on. -/
noncomputable def perturbLayer (_magnitude _probability : ℝ) : Layer ℝ → (Nat → ℝ) → Nat → Layer ℝ × Nat
  | [], _, k => ([], k)
  | n :: l, u, k =>
    let r := n.perturb (3 / 10) 1 u k
    let r' := perturbLayer _magnitude _probability l u r.2
    (r.1 :: r'.1, r'.2)

/-- `net::perturb` (mlp.h:396-400): neither are they here. -/
noncomputable def perturbNet (_magnitude _probability : ℝ) : Net ℝ → (Nat → ℝ) → Nat → Net ℝ × Nat
  | [], _, k => ([], k)
  | l :: net, u, k =>
    let r := perturbLayer (3 / 10) 1 l u k
    let r' := perturbNet _magnitude _probability net u r.2
    (r.1 :: r'.1, r'.2)

/-- `euclidean_distance` (mlp.h:480-499): layers from the last one backwards as far as both nets go, neurons likewise. -/
noncomputable def euclid (n1 n2 : Net ℝ) : ℝ :=
  √((List.zipWith (fun l1 l2 => (List.zipWith (fun (a b : Neuron ℝ) => (a.bias - b.bias) * (a.bias - b.bias) +
      dot (List.zipWith (· - ·) a.weight b.weight) (List.zipWith (· - ·) a.weight b.weight)) l1 l2).sum)
    n1.reverse n2.reverse).sum)

/-! ### gprop.h -/

/-- `phenotype` (gprop.h:46-49); the error is `none` if it is NaN. -/
structure Phenotype (E : Type*) where
  trnOk : Int
  valOk : Int
  tstOk : Int
  mse : Option E

section
variable {E : Type*} [LinearOrder E]

/-- `a < b` of two errors. -/
def errLt : Option E → Option E → Bool
  | some a, some b => a < b
  | _, _ => false

/-- `a == b` of two errors. -/
def errEq : Option E → Option E → Bool
  | some a, some b => a = b
  | _, _ => false

/-- `operator<` (gprop.h:53-56). -/
def Phenotype.lt (a b : Phenotype E) : Bool := a.valOk < b.valOk || (!(b.valOk < a.valOk : Bool) && errLt b.mse a.mse)

/-- `operator==` (gprop.h:58-61). -/
def Phenotype.eq (a b : Phenotype E) : Bool := (a.valOk == b.valOk) && errEq b.mse a.mse

/-- `operator>=` (gprop.h:63-66). -/
def Phenotype.ge (a b : Phenotype E) : Bool := !a.lt b

/-- `operator>` (gprop.h:68-71). -/
def Phenotype.gt (a b : Phenotype E) : Bool := !a.eq b && !a.lt b

end

/-- Whether a sample is classified rightly (gprop.h:207-215), exact arithmetic. -/
noncomputable def right (N : Num ℝ) (net : Net ℝ) (s : Sample ℝ) : Bool :=
  ((List.range s.output.length).filter fun i =>
    (s.output.getD i 0 < 1 / 2 && (netEval N net s.input).getD i 0 < 1 / 2) ||
    (1 / 2 < s.output.getD i 0 && 1 / 2 < (netEval N net s.input).getD i 0)).length == s.output.length

/-- `correct` (gprop.h:201-219). -/
noncomputable def correct (N : Num ℝ) (net : Net ℝ) (set : List (Sample ℝ)) : Nat :=
  set.foldl (fun sum s => if right N net s then sum + 1 else sum) 0

/-- The default coefficients of a training (qp.h:36-39): eta 0.5, alpha 0.9, lambda 0.5. -/
noncomputable def defaults : Coeffs ℝ := ⟨1 / 2, 9 / 10, 1 / 2⟩

/-- `eoChromMutation` (gprop.h:168-173). -/
noncomputable def chromMutation (N : Num ℝ) (trn : List (Sample ℝ)) (chrom : Net ℝ) : Net ℝ :=
  (train N chrom trn 10 0 (1 / 1000) defaults).1

/-- `eoChromXover` (gprop.h:183-194). -/
noncomputable def chromXover (N : Num ℝ) (trn : List (Sample ℝ)) (c1 c2 : Net ℝ) : Net ℝ × Net ℝ :=
  ((train N (normalizeNet c1) trn 100 0 (1 / 1000) defaults).1, (train N (desaturateNet c2) trn 100 0 (1 / 1000) defaults).1)

end Paradiseo.Mlp
