/-
C349 to C352: shapes, text, transformations and fitness of the perceptrons.
-/
import Verif.Model.MlpNet
import Verif.Props.MlpRate
import Mathlib.Analysis.Complex.ExponentialBounds

namespace Paradiseo.Mlp

/-! ### C349: shapes -/

section
variable {R : Type} [Zero R]

theorem initNet_eq (junk : R) (outputs : Nat) : ∀ (hidden : List Nat) (inputs : Nat),
    initNet junk inputs outputs hidden =
      List.zipWith (fun a b => newLayer junk a b) (inputs :: hidden) (hidden ++ [outputs])
  | [], _ => rfl
  | h :: hidden, inputs => by
    rw [initNet, initNet_eq junk outputs hidden h]
    rfl

/-- **C349** (shape).  A net has one layer from each size to the next: as many neurons as the next size, each with as many
weights as the size before. -/
theorem C349_shape (junk : R) (inputs outputs : Nat) (hidden : List Nat) :
    (initNet junk inputs outputs hidden).length = hidden.length + 1 ∧
    ∀ i l, (initNet junk inputs outputs hidden)[i]? = some l →
      l.length = (hidden ++ [outputs]).getD i 0 ∧ ∀ n ∈ l, n.weight.length = (inputs :: hidden).getD i 0 := by
  rw [initNet_eq]
  refine ⟨by simp, fun i l h => ?_⟩
  rw [List.getElem?_zipWith] at h
  cases h1 : (inputs :: hidden)[i]? with
  | none => rw [h1] at h; simp at h
  | some a =>
    cases h2 : (hidden ++ [outputs])[i]? with
    | none => rw [h1, h2] at h; simp at h
    | some b =>
      rw [h1, h2] at h
      simp only [Option.some.injEq] at h
      subst h
      refine ⟨by simp [newLayer, List.getD, h2], ?_⟩
      intro n hn
      have := List.eq_of_mem_replicate hn
      subst this
      simp [List.getD, h1]

/-- **C349** (sizes asked for).  A net tells its number of inputs, if its first layer has a neuron, and of outputs and hidden
layers; without a neuron in the first layer asking for the inputs is undefined. -/
theorem C349_sizes (junk : R) (inputs outputs : Nat) (hidden : List Nat) :
    numInputs (initNet junk inputs outputs hidden) =
      (if (hidden ++ [outputs]).head? = some 0 then .error .ub else .ok inputs) ∧
    numOutputs (initNet junk inputs outputs hidden) = .ok outputs ∧
    numHidden (initNet junk inputs outputs hidden) = hidden.length := by
  refine ⟨?_, ?_, ?_⟩
  · have key : ∀ k, ∀ rest : Net R, numInputs (newLayer junk inputs k :: rest) = if k = 0 then .error .ub else .ok inputs := by
      intro k rest
      cases k with
      | zero => rfl
      | succ k => simp [newLayer, List.replicate_succ, numInputs]
    cases hidden with
    | nil => simpa [initNet] using key outputs []
    | cons h hidden => simpa [initNet] using key h _
  · have : ∀ (hidden : List Nat) (inputs : Nat), ∃ a, (initNet junk inputs outputs hidden).getLast? =
        some (newLayer junk a outputs) := by
      intro hidden
      induction hidden with
      | nil => intro i; exact ⟨i, rfl⟩
      | cons h hidden ih =>
        intro i
        obtain ⟨a, ha⟩ := ih h
        refine ⟨a, ?_⟩
        rw [initNet, List.getLast?_cons, ha]
        rfl
    obtain ⟨a, ha⟩ := this hidden inputs
    unfold numOutputs
    rw [ha]
    simp [newLayer]
  · unfold numHidden
    rw [(C349_shape junk inputs outputs hidden).1]
    rfl

/-- The number of weights and biases. -/
def params (net : Net R) : Nat := (net.map fun l => (l.map fun n => n.weight.length + 1).sum).sum

/-- **C349** (length).  The length of a net is the number of its weights and biases, if no layer is empty and the neurons of
each layer have as many weights as one another; with an empty layer it is undefined. -/
theorem C349_length (net : Net R) (hu : ∀ l ∈ net, ∀ n ∈ l, ∀ m ∈ l, n.weight.length = m.weight.length) :
    ([] ∈ net → netLength net = .error .ub) ∧ ([] ∉ net → netLength net = .ok (params net)) := by
  induction net with
  | nil => exact ⟨fun h => by simp at h, fun _ => rfl⟩
  | cons l net ih =>
    have ih := ih fun l hl => hu l (List.mem_cons_of_mem _ hl)
    cases l with
    | nil => exact ⟨fun _ => rfl, fun h => by simp at h⟩
    | cons n l =>
      have hs : ((n :: l).map fun n => n.weight.length + 1).sum = (n.weight.length + 1) * (n :: l).length := by
        have : ∀ k : List (Neuron R), (∀ m ∈ k, m.weight.length = n.weight.length) →
            (k.map fun n => n.weight.length + 1).sum = (n.weight.length + 1) * k.length := by
          intro k hk
          induction k with
          | nil => rfl
          | cons m k ihk =>
            rw [List.map_cons, List.sum_cons, ihk fun m hm => hk m (List.mem_cons_of_mem _ hm), hk m (by simp),
              List.length_cons]
            ring
        exact this _ fun m hm => hu _ (by simp) m hm n (by simp)
      have hp : params ((n :: l) :: net) = (n.weight.length + 1) * (n :: l).length + params net := by
        unfold params
        rw [List.map_cons, List.sum_cons, hs]
      rw [netLength, hp]
      refine ⟨fun h => ?_, fun h => ?_⟩
      · rw [ih.1 (by simpa using h)]
        rfl
      · rw [ih.2 (by simpa using h)]
        rfl

end

/-- **C349** (outputs).  A net has one output per neuron of its last layer, and all outputs lie strictly between 0 and 1. -/
theorem C349_outputs (N : Num ℝ) (hσ : N.sigmoid = Real.sigmoid) (net : Net ℝ) (hne : net ≠ []) (x : List ℝ) :
    (netEval N net x).length = (net.getLast hne).length ∧ ∀ y ∈ netEval N net x, 0 < y ∧ y < 1 := by
  have : netEval N net x = layerEval N (net.getLast hne) (netEval N net.dropLast x) := by
    conv_lhs => rw [← List.dropLast_append_getLast hne]
    unfold netEval
    rw [List.foldl_append]
    rfl
  rw [this]
  unfold layerEval
  refine ⟨by simp, ?_⟩
  intro y hy
  rw [List.mem_map] at hy
  obtain ⟨n, _, rfl⟩ := hy
  unfold Neuron.eval
  rw [hσ]
  exact ⟨Real.sigmoid_pos _, Real.sigmoid_lt_one _⟩

/-! ### C350: text -/

section
variable {R τ : Type} [Zero R]

/-- A net with every number replaced. -/
def mapNet (g : R → R) (net : Net R) : Net R := net.map fun l => l.map fun n => ⟨g n.bias, n.weight.map g⟩

/-- All neurons of a net. -/
def numbers (net : Net R) : List R := net.flatMap fun l => l.flatMap fun n => n.bias :: n.weight

/-- The layers fit one another. -/
def Fit : Nat → Net R → Prop
  | _, [] => True
  | m, l :: rest => (∀ n ∈ l, n.weight.length = m) ∧ Fit l.length rest

theorem readVals_ok (rd : τ → Option R) (pr : R → τ) (g : R → R) (s : List (Tok τ)) :
    ∀ xs : List R, (∀ x ∈ xs, rd (pr x) = some (g x)) →
      readVals rd xs.length (xs.map (fun x => Tok.val (pr x)) ++ s) = some (xs.map g, s)
  | [], _ => rfl
  | x :: xs, h => by
    rw [List.length_cons, List.map_cons, List.cons_append, readVals, h x (by simp)]
    dsimp only
    rw [readVals_ok rd pr g s xs fun y hy => h y (List.mem_cons_of_mem _ hy)]
    rfl

theorem readNeuron_ok (rd : τ → Option R) (pr : R → τ) (g : R → R) (s : List (Tok τ)) (n : Neuron R)
    (h : ∀ x ∈ n.bias :: n.weight, rd (pr x) = some (g x)) :
    readNeuron rd n.weight.length (Tok.val (pr n.bias) :: n.weight.map (fun w => Tok.val (pr w)) ++ s) =
      some (⟨g n.bias, n.weight.map g⟩, s) := by
  unfold readNeuron
  have h1 := readVals_ok rd pr g (n.weight.map (fun w => Tok.val (pr w)) ++ s) [n.bias] (by simpa using h n.bias (by simp))
  have h2 := readVals_ok rd pr g s n.weight fun x hx => h x (List.mem_cons_of_mem _ hx)
  simp only [List.length_singleton, List.map_cons, List.map_nil, List.cons_append, List.nil_append] at h1 ⊢
  rw [h1]
  dsimp only
  rw [h2]

theorem readLayer_ok (rd : τ → Option R) (pr : R → τ) (g : R → R) (s : List (Tok τ)) : ∀ (l l0 : Layer R),
    (l0.map fun n => n.weight.length) = (l.map fun n => n.weight.length) →
    (∀ n ∈ l, ∀ x ∈ n.bias :: n.weight, rd (pr x) = some (g x)) →
    readLayer rd l0 ((l.flatMap fun n => Tok.val (pr n.bias) :: n.weight.map fun w => Tok.val (pr w)) ++ s) =
      some (l.map fun n => ⟨g n.bias, n.weight.map g⟩, s)
  | [], [], _, _ => rfl
  | [], _ :: _, h, _ => by simp at h
  | _ :: _, [], h, _ => by simp at h
  | n :: l, n0 :: l0, h, hr => by
    simp only [List.map_cons, List.cons.injEq] at h
    rw [readLayer, h.1, List.flatMap_cons, List.append_assoc, readNeuron_ok rd pr g _ n (hr n (by simp))]
    dsimp only
    rw [readLayer_ok rd pr g s l l0 h.2 fun m hm => hr m (List.mem_cons_of_mem _ hm)]
    rfl

theorem readLayers_ok (rd : τ → Option R) (pr : R → τ) (g : R → R) (s : List (Tok τ)) : ∀ (net net0 : Net R),
    (net0.map fun l => l.map fun n => n.weight.length) = (net.map fun l => l.map fun n => n.weight.length) →
    (∀ l ∈ net, ∀ n ∈ l, ∀ x ∈ n.bias :: n.weight, rd (pr x) = some (g x)) →
    readLayers rd net0
        ((net.flatMap fun l => l.flatMap fun n => Tok.val (pr n.bias) :: n.weight.map fun w => Tok.val (pr w)) ++ s) =
      some (mapNet g net, s)
  | [], [], _, _ => rfl
  | [], _ :: _, h, _ => by simp at h
  | _ :: _, [], h, _ => by simp at h
  | l :: net, l0 :: net0, h, hr => by
    simp only [List.map_cons, List.cons.injEq] at h
    rw [readLayers, List.flatMap_cons, List.append_assoc, readLayer_ok rd pr g _ l l0 h.1 (hr l (by simp))]
    dsimp only
    rw [readLayers_ok rd pr g s net net0 h.2 fun m hm => hr m (List.mem_cons_of_mem _ hm)]
    rfl

theorem readSizes_ok (s : List (Tok τ)) : ∀ ks : List Nat, readSizes ks.length (ks.map (fun k => Tok.size k) ++ s) = .ok (ks, s)
  | [] => rfl
  | k :: ks => by
    rw [List.length_cons, List.map_cons, List.cons_append, readSizes, readSizes_ok s ks]
    rfl

/-- The empty net of the shape of a net. -/
theorem initNet_shape (junk : R) : ∀ (net : Net R) (m : Nat), Fit m net → net ≠ [] →
    (initNet junk m ((net.map List.length).getLastD 0) (net.map List.length).dropLast).map (fun l => l.map fun n => n.weight.length) =
      net.map fun l => l.map fun n => n.weight.length
  | [], _, _, h => absurd rfl h
  | [l], m, h, _ => by
    have e : (l.map fun n => n.weight.length) = List.replicate l.length m :=
      List.eq_replicate_iff.2 ⟨by simp, by
        intro b hb
        rw [List.mem_map] at hb
        obtain ⟨n, hn, rfl⟩ := hb
        exact h.1 n hn⟩
    simp [initNet, newLayer, e]
  | l :: l2 :: net, m, h, _ => by
    have e : (l.map fun n => n.weight.length) = List.replicate l.length m :=
      List.eq_replicate_iff.2 ⟨by simp, by
        intro b hb
        rw [List.mem_map] at hb
        obtain ⟨n, hn, rfl⟩ := hb
        exact h.1 n hn⟩
    have ih := initNet_shape junk (l2 :: net) l.length h.2 (by simp)
    simp only [List.map_cons, List.dropLast_cons₂, initNet] at ih ⊢
    rw [List.getLastD_cons] at ih ⊢
    rw [List.getLastD_cons]
    rw [ih, e]
    simp [newLayer]

/-- **C350** (nets).  A net whose first layer is not empty, saved and loaded, comes back with every number as it is read from
its text; nothing of the text that follows is consumed. -/
theorem C350_net (rd : τ → Option R) (pr : R → τ) (g : R → R) (junk : R) (net : Net R) (m : Nat) (hf : Fit m net)
    (h0 : ∃ n l rest, net = (n :: l) :: rest) (hr : ∀ x ∈ numbers net, rd (pr x) = some (g x)) (s : List (Tok τ)) :
    ∃ t, saveNet pr net = .ok t ∧ loadNet rd junk (t ++ s) = .ok (mapNet g net, s) := by
  obtain ⟨n, l, rest, rfl⟩ := h0
  have hm : n.weight.length = m := hf.1 n (by simp)
  generalize hnet : ((n :: l) :: rest : Net R) = net at *
  have hne : net ≠ [] := by rw [← hnet]; simp
  have hi : numInputs net = .ok m := by rw [← hnet, ← hm]; simp [numInputs]
  have ho : numOutputs net = .ok ((net.map List.length).getLastD 0) := by
    unfold numOutputs
    rw [List.getLastD_eq_getLast?, List.getLast?_map]
    cases hg : net.getLast? with
    | none => exact absurd (List.getLast?_eq_none_iff.1 hg) hne
    | some a => rfl
  refine ⟨_, by unfold saveNet; rw [hi, ho]; rfl, ?_⟩
  unfold loadNet
  have hsz : ∃ k0, net.map List.length = (net.map List.length).dropLast ++ [k0] ∧ (net.map List.length).getLastD 0 = k0 := by
    refine ⟨(net.map List.length).getLast (by simpa using hne), (List.dropLast_append_getLast _).symm, ?_⟩
    rw [List.getLastD_eq_getLast?, List.getLast?_eq_getLast_of_ne_nil (by simpa using hne)]
    rfl
  obtain ⟨k0, hk, hk0⟩ := hsz
  have hlen : numHidden net = (net.map List.length).dropLast.length := by simp [numHidden]
  have hshape := initNet_shape junk net m hf hne
  rw [hk0] at hshape ⊢
  generalize hd : (net.map List.length).dropLast = dl at *
  generalize hbody : (net.flatMap fun l => l.flatMap fun n => Tok.val (pr n.bias) :: n.weight.map fun w => Tok.val (pr w)) = body
  have e1 : [Tok.size m, Tok.size k0, Tok.size (numHidden net)] ++ net.map (fun l => Tok.size l.length) ++ [Tok.lt] ++ body ++
      [Tok.gt] ++ s = ([m, k0, numHidden net].map (fun k => Tok.size (τ := τ) k)) ++
        (dl.map (fun k => Tok.size (τ := τ) k) ++ (([k0].map (fun k => Tok.size (τ := τ) k)) ++ (Tok.lt :: (body ++ Tok.gt :: s)))) := by
    have : net.map (fun l => Tok.size (τ := τ) l.length) = (dl ++ [k0]).map (fun k => Tok.size (τ := τ) k) := by
      rw [← hk, List.map_map]; rfl
    rw [this]
    simp
  have hb := readLayers_ok rd pr g (Tok.gt :: s) net (initNet junk m k0 dl) hshape (by
    intro l hl n hn x hx
    refine hr x ?_
    unfold numbers
    rw [List.mem_flatMap]
    exact ⟨l, hl, List.mem_flatMap.2 ⟨n, hn, hx⟩⟩)
  rw [hbody] at hb
  rw [e1, show (3 : Nat) = [m, k0, numHidden net].length from rfl, readSizes_ok]
  dsimp only
  rw [show [m, k0, numHidden net].getD 2 0 = dl.length from hlen, readSizes_ok]
  dsimp only
  rw [show (1 : Nat) = [k0].length from rfl, readSizes_ok]
  dsimp only
  rw [if_pos (by rfl)]
  unfold loadBody
  rw [List.dropWhile_cons_of_neg (by simp), List.drop_one, List.tail_cons]
  rw [show initNet junk ([m, k0, numHidden net].getD 0 0) ([m, k0, numHidden net].getD [k0].length 0) dl =
    initNet junk m k0 dl from rfl, hb]

/-- **C350** (unreadable numbers).  If one of the numbers of a saved net cannot be read from its text, as an infinity or NaN,
loading fails its assertion. -/
theorem C350_net_unreadable (rd : τ → Option R) (junk : R) (m k0 : Nat) (dl : List Nat) (body s : List (Tok τ))
    (h : readLayers rd (initNet junk m k0 dl) body = none) :
    loadNet rd junk ([m, k0, dl.length].map (fun k => Tok.size (τ := τ) k) ++ (dl.map (fun k => Tok.size (τ := τ) k) ++
      ([k0].map (fun k => Tok.size (τ := τ) k) ++ (Tok.lt :: body)))) = .error .asserted := by
  unfold loadNet
  rw [show (3 : Nat) = [m, k0, dl.length].length from rfl, readSizes_ok]
  dsimp only
  rw [show [m, k0, dl.length].getD 2 0 = dl.length from rfl, readSizes_ok]
  dsimp only
  rw [show (1 : Nat) = [k0].length from rfl, readSizes_ok]
  dsimp only
  rw [if_pos (by rfl)]
  unfold loadBody
  rw [List.dropWhile_cons_of_neg (by simp), List.drop_one, List.tail_cons]
  rw [show initNet junk ([m, k0, dl.length].getD 0 0) ([m, k0, dl.length].getD [k0].length 0) dl =
    initNet junk m k0 dl from rfl, h]

/-- **C350** (sets).  A set of samples of one size, which is not zero, comes back from its text with every number as it is
read. -/
theorem C350_set (rd : τ → Option R) (pr : R → τ) (g : R → R) (ts : List (Sample R)) (i o : Nat) (hne : ts ≠ [])
    (hpos : 0 < i + o) (hsz : ∀ x ∈ ts, x.input.length = i ∧ x.output.length = o)
    (hr : ∀ x ∈ ts, ∀ v ∈ x.input ++ x.output, rd (pr v) = some (g v)) :
    ∃ t, saveSet pr ts = .ok t ∧ loadSet rd t = .ok (ts.map fun x => ⟨x.input.map g, x.output.map g⟩) := by
  have hsave : saveSet pr ts = .ok ([i, o].map (fun k => Tok.size (τ := τ) k) ++
      ts.flatMap fun s => (s.input ++ s.output).map fun v => Tok.val (pr v)) := by
    cases ts with
    | nil => exact absurd rfl hne
    | cons x ts =>
      have := hsz x (by simp)
      rw [saveSet, this.1, this.2]
      rfl
  refine ⟨_, hsave, ?_⟩
  unfold loadSet
  rw [show (2 : Nat) = [i, o].length from rfl, readSizes_ok]
  show readSamples rd i o _ _ = _
  have hlen : ts.length ≤ (ts.flatMap fun s => (s.input ++ s.output).map fun v => Tok.val (pr v)).length := by
    clear hne hr hsave
    induction ts with
    | nil => simp
    | cons x ts ih =>
      have := hsz x (by simp)
      have := ih fun y hy => hsz y (List.mem_cons_of_mem _ hy)
      rw [List.flatMap_cons, List.length_append]
      simp only [List.length_map, List.length_append, List.length_cons]
      omega
  generalize hfuel : (ts.flatMap fun s => (s.input ++ s.output).map fun v => Tok.val (pr v)).length + 1 = fuel
  have hf : ts.length < fuel := by omega
  clear hfuel hlen hne hsave
  induction ts generalizing fuel with
  | nil =>
    cases fuel with
    | zero => omega
    | succ fuel =>
      cases hk : i + o with
      | zero => omega
      | succ k =>
        rw [readSamples, hk]
        rfl
  | cons x ts ih =>
    cases fuel with
    | zero => simp at hf
    | succ fuel =>
      obtain ⟨h1, h2⟩ := hsz x (by simp)
      have hv := readVals_ok rd pr g (ts.flatMap fun s => (s.input ++ s.output).map fun v => Tok.val (pr v)) (x.input ++ x.output)
        (hr x (by simp))
      rw [List.length_append, h1, h2] at hv
      rw [readSamples, List.flatMap_cons, hv]
      dsimp only
      rw [ih (fun y hy => hsz y (List.mem_cons_of_mem _ hy)) (fun y hy => hr y (List.mem_cons_of_mem _ hy)) fuel
        (by simp at hf; omega)]
      show Except.ok _ = _
      rw [List.map_append, List.take_left' (by simpa using h1), List.drop_left' (by simpa using h1)]
      rfl

/-- **C350** (no samples).  Saving an empty set is undefined. -/
theorem C350_set_empty (pr : R → τ) : saveSet pr ([] : List (Sample R)) = .error .ub := rfl

/-- **C350** (samples without numbers).  A text that announces samples with neither inputs nor outputs is never loaded: reading
no number always succeeds. -/
theorem C350_set_forever (rd : τ → Option R) (s : List (Tok τ)) :
    loadSet rd (.size 0 :: .size 0 :: s) = .error .forever ∧ ∀ fuel, readSamples rd 0 0 fuel s = .error .forever := by
  have : ∀ fuel, readSamples rd 0 0 fuel s = .error .forever := by
    intro fuel
    induction fuel with
    | zero => rfl
    | succ fuel ih =>
      show (readSamples rd 0 0 fuel s >>= _) = _
      rw [ih]
      rfl
  exact ⟨this _, this⟩

end

/-! ### C351: normalising, desaturating, perturbing -/

theorem dot_scale (c : ℝ) : ∀ v x : List ℝ, dot (v.map (· / c)) x = dot v x / c := by
  intro v
  have h : ∀ v x : List ℝ, (List.zipWith (· * ·) (v.map (· / c)) x).sum = (List.zipWith (· * ·) v x).sum / c := by
    intro v
    induction v with
    | nil => simp
    | cons a v ih =>
      intro x
      cases x with
      | nil => simp
      | cons b x =>
        rw [List.map_cons, List.zipWith_cons_cons, List.zipWith_cons_cons, List.sum_cons, List.sum_cons, ih]
        ring
  intro x
  unfold dot
  rw [foldl_add, foldl_add, h]
  ring

theorem dot_comm (v x : List ℝ) : dot v x = dot x v := by
  unfold dot
  rw [List.zipWith_comm]
  congr 2
  funext a b
  ring

theorem dot_self_nonneg (v : List ℝ) : 0 ≤ dot v v := by
  unfold dot
  rw [foldl_add, zero_add]
  exact zip_self_nonneg v

/-- **C351** (normalised neurons).  A neuron that has a number other than zero becomes one of norm 1 and with the same ratios:
its input is the old one divided by its norm. -/
theorem C351_normalize (n : Neuron ℝ) (h : n.norm ≠ 0) :
    n.normalize.norm = 1 ∧ ∀ x, n.normalize.bias + dot n.normalize.weight x = (n.bias + dot n.weight x) / n.norm := by
  have hp : 0 < n.norm := lt_of_le_of_ne (Real.sqrt_nonneg _) (Ne.symm h)
  refine ⟨?_, fun x => ?_⟩
  · have e : n.normalize.bias * n.normalize.bias + dot n.normalize.weight n.normalize.weight =
        (n.bias * n.bias + dot n.weight n.weight) / (n.norm * n.norm) := by
      unfold Neuron.normalize
      dsimp only
      rw [dot_scale, dot_comm, dot_scale]
      field_simp
    unfold Neuron.norm at *
    rw [e, Real.mul_self_sqrt (by nlinarith [mul_self_nonneg n.bias, dot_self_nonneg n.weight])]
    rw [div_self (by intro h0; rw [h0] at h; simp at h)]
    simp
  · unfold Neuron.normalize
    dsimp only
    rw [dot_scale]
    ring

/-- When the norm is zero: all numbers are. -/
theorem C351_norm_zero (n : Neuron ℝ) : n.norm = 0 ↔ n.bias = 0 ∧ ∀ w ∈ n.weight, w = 0 := by
  have hz : ∀ l : List ℝ, (List.zipWith (· * ·) l l).sum = 0 ↔ ∀ w ∈ l, w = 0 := by
    intro l
    induction l with
    | nil => simp
    | cons a l ih =>
      rw [List.zipWith_cons_cons, List.sum_cons, List.forall_mem_cons, ← ih]
      have h1 := zip_self_nonneg l
      have h2 := mul_self_nonneg a
      constructor
      · intro h
        have h3 : a * a = 0 := by linarith
        exact ⟨mul_self_eq_zero.1 h3, by linarith⟩
      · rintro ⟨rfl, h⟩
        rw [h]; ring
  unfold Neuron.norm
  have h1 := dot_self_nonneg n.weight
  rw [Real.sqrt_eq_zero (by nlinarith [mul_self_nonneg n.bias])]
  have e : dot n.weight n.weight = (List.zipWith (· * ·) n.weight n.weight).sum := by
    unfold dot; rw [foldl_add, zero_add]
  rw [← hz, ← e]
  constructor
  · intro h
    have h2 := mul_self_nonneg n.bias
    exact ⟨mul_self_eq_zero.1 (by linarith), by linarith⟩
  · rintro ⟨h1, h2⟩
    rw [h1, h2]; ring

theorem sigmoid_half (x : ℝ) : (Real.sigmoid x < 1 / 2 ↔ x < 0) ∧ (1 / 2 < Real.sigmoid x ↔ 0 < x) := by
  have h0 : Real.sigmoid 0 = 1 / 2 := by rw [Real.sigmoid_zero]; norm_num
  rw [← h0]
  exact ⟨Real.sigmoid_strictMono.lt_iff_lt, Real.sigmoid_strictMono.lt_iff_lt⟩

/-- **C351** (normalised nets without hidden layers).  Normalising a net of one layer whose neurons are not all zero changes
no classification. -/
theorem C351_correct (N : Num ℝ) (hσ : N.sigmoid = Real.sigmoid) (l : Layer ℝ) (hl : ∀ n ∈ l, n.norm ≠ 0)
    (set : List (Sample ℝ)) : correct N (normalizeNet [l]) set = correct N [l] set := by
  have hs : ∀ s : Sample ℝ, right N (normalizeNet [l]) s = right N [l] s := by
    intro s
    unfold right
    congr 2
    apply List.filter_congr
    intro i _
    have e1 : netEval N (normalizeNet [l]) s.input = l.map fun n => Real.sigmoid ((n.bias + dot n.weight s.input) / n.norm) := by
      show layerEval N (l.map Neuron.normalize) s.input = _
      unfold layerEval
      rw [List.map_map]
      apply List.map_congr_left
      intro n hn
      show N.sigmoid (n.normalize.bias + dot n.normalize.weight s.input) = _
      rw [hσ, (C351_normalize n (hl n hn)).2]
    have e2 : netEval N [l] s.input = l.map fun n => Real.sigmoid (n.bias + dot n.weight s.input) := by
      show layerEval N l s.input = _
      unfold layerEval
      apply List.map_congr_left
      intro n _
      show N.sigmoid _ = _
      rw [hσ]
    rw [e1, e2]
    generalize s.output.getD i 0 = o
    by_cases hi : i < l.length
    · rw [List.getD_eq_getElem _ _ (by simpa using hi), List.getD_eq_getElem _ _ (by simpa using hi), List.getElem_map,
        List.getElem_map]
      have hp : 0 < (l[i]).norm := lt_of_le_of_ne (Real.sqrt_nonneg _) (Ne.symm (hl _ (List.getElem_mem hi)))
      have h1 : ((l[i].bias + dot l[i].weight s.input) / l[i].norm < 0) ↔ (l[i].bias + dot l[i].weight s.input < 0) := by
        rw [div_lt_iff₀ hp, zero_mul]
      have h2 : (0 < (l[i].bias + dot l[i].weight s.input) / l[i].norm) ↔ (0 < l[i].bias + dot l[i].weight s.input) :=
        div_pos_iff_of_pos_right hp
      simp only [(sigmoid_half _).1, (sigmoid_half _).2, h1, h2]
    · rw [List.getD_eq_default _ _ (by simpa using hi), List.getD_eq_default _ _ (by simpa using hi)]
  unfold correct
  simp only [hs]

/-- **C351** (normalised nets with a hidden layer).  With a hidden layer a classification can change. -/
theorem C351_hidden (N : Num ℝ) (hσ : N.sigmoid = Real.sigmoid) :
    ∃ (net : Net ℝ) (set : List (Sample ℝ)), (∀ l ∈ net, ∀ n ∈ l, n.norm ≠ 0) ∧ correct N net set = 1 ∧
      correct N (normalizeNet net) set = 0 := by
  have hn1 : (⟨0, [10]⟩ : Neuron ℝ).norm = 10 := by
    show √(0 * 0 + dot [10] [10]) = 10
    have : (0 * 0 + dot [10] [10] : ℝ) = 10 * 10 := by norm_num [dot]
    rw [this, Real.sqrt_mul_self (by norm_num)]
  have hn2 : (⟨-9 / 10, [1]⟩ : Neuron ℝ).norm ≠ 0 := by
    rw [Ne, C351_norm_zero]
    norm_num
  have hlo : 9 / 10 < Real.sigmoid 10 := by
    rw [Real.sigmoid_def]
    have h1 : (11 : ℝ) ≤ Real.exp 10 := by
      have := Real.add_one_le_exp (10 : ℝ)
      linarith
    have h2 : Real.exp (-10) ≤ 1 / 11 := by
      rw [Real.exp_neg, inv_eq_one_div]
      exact one_div_le_one_div_of_le (by norm_num) h1
    have h3 := Real.exp_pos (-10)
    rw [lt_inv_comm₀ (by norm_num) (by positivity)]
    norm_num
    linarith
  have hhi : Real.sigmoid 1 < 9 / 10 := by
    rw [Real.sigmoid_def]
    have h1 := Real.exp_one_lt_d9
    have h2 : 1 / 3 ≤ Real.exp (-1) := by
      rw [Real.exp_neg, inv_eq_one_div]
      exact one_div_le_one_div_of_le (Real.exp_pos 1) (by linarith)
    rw [inv_lt_comm₀ (by positivity) (by norm_num)]
    norm_num
    linarith
  refine ⟨[[⟨0, [10]⟩], [⟨-9 / 10, [1]⟩]], [⟨[1], [1]⟩], ?_, ?_, ?_⟩
  · intro l hl n hn
    simp only [List.mem_cons, List.not_mem_nil, or_false] at hl
    rcases hl with rfl | rfl
    · rw [List.mem_singleton.1 hn, hn1]; norm_num
    · rw [List.mem_singleton.1 hn]; exact hn2
  · have e : netEval N [[⟨0, [10]⟩], [⟨-9 / 10, [1]⟩]] [1] = [Real.sigmoid (-9 / 10 + Real.sigmoid 10)] := by
      simp [netEval, layerEval, Neuron.eval, dot, hσ]
    have h : 1 / 2 < Real.sigmoid (-9 / 10 + Real.sigmoid 10) := (sigmoid_half _).2.2 (by linarith)
    have : right N [[⟨0, [10]⟩], [⟨-9 / 10, [1]⟩]] ⟨[1], [1]⟩ = true := by
      unfold right
      rw [e]
      generalize Real.sigmoid (-9 / 10 + Real.sigmoid 10) = y at h
      have h1 : ¬ (1 : ℝ) < 1 / 2 := by norm_num
      have h2 : (1 / 2 : ℝ) < 1 := by norm_num
      simp [List.range_succ, List.filter_cons, -one_div, h, h1, h2]
    simp [correct, this]
  · have hp : 0 < (⟨-9 / 10, [1]⟩ : Neuron ℝ).norm := lt_of_le_of_ne (Real.sqrt_nonneg _) (Ne.symm hn2)
    have e : netEval N (normalizeNet [[⟨0, [10]⟩], [⟨-9 / 10, [1]⟩]]) [1] =
        [Real.sigmoid ((-9 / 10 + Real.sigmoid 1) / (⟨-9 / 10, [1]⟩ : Neuron ℝ).norm)] := by
      show layerEval N [(⟨-9 / 10, [1]⟩ : Neuron ℝ).normalize] (layerEval N [(⟨0, [10]⟩ : Neuron ℝ).normalize] [1]) = _
      unfold layerEval
      simp only [List.map_cons, List.map_nil]
      unfold Neuron.eval
      rw [hσ, (C351_normalize _ hn2).2, (C351_normalize (⟨0, [10]⟩ : Neuron ℝ) (by rw [hn1]; norm_num)).2, hn1]
      congr 3
      norm_num [dot]
    have h : Real.sigmoid ((-9 / 10 + Real.sigmoid 1) / (⟨-9 / 10, [1]⟩ : Neuron ℝ).norm) < 1 / 2 :=
      (sigmoid_half _).1.2 (by rw [div_lt_iff₀ hp]; linarith)
    have : right N (normalizeNet [[⟨0, [10]⟩], [⟨-9 / 10, [1]⟩]]) ⟨[1], [1]⟩ = false := by
      unfold right
      rw [e]
      generalize Real.sigmoid ((-9 / 10 + Real.sigmoid 1) / (⟨-9 / 10, [1]⟩ : Neuron ℝ).norm) = y at h
      have h0 : ¬ (1 / 2 : ℝ) < y := not_lt.2 h.le
      have h1 : ¬ (1 : ℝ) < 1 / 2 := by norm_num
      simp [List.range_succ, List.filter_cons, -one_div, h0, h1]
    simp [correct, this]

/-- **C351** (desaturated numbers).  Desaturating keeps the sign and the order of numbers, brings them strictly between -5 and 5 and
no further from 0 than they were. -/
theorem C351_desaturate (x y : ℝ) :
    -5 < squash x ∧ squash x < 5 ∧ (x < y ↔ squash x < squash y) ∧ (0 < squash x ↔ 0 < x) ∧ (squash x < 0 ↔ x < 0) ∧
    |squash x| ≤ |x| := by
  have hs : ∀ x, squash x = -5 + 10 * Real.sigmoid (x / 5) := by
    intro x
    unfold squash
    rw [Real.sigmoid_def, show x / -5 = -(x / 5) by ring]
    rfl
  have h1 := Real.sigmoid_pos (x / 5)
  have h2 := Real.sigmoid_lt_one (x / 5)
  have h3 := sigmoid_half (x / 5)
  have hpos : ∀ t : ℝ, 0 ≤ t → -5 + 10 * Real.sigmoid (t / 5) ≤ t := by
    intro t ht
    rw [Real.sigmoid_def]
    have g1 := Real.add_one_le_exp (-(t / 5))
    have g2 := Real.exp_pos (-(t / 5))
    have g3 : Real.exp (-(t / 5)) ≤ 1 := Real.exp_le_one_iff.2 (by linarith)
    generalize Real.exp (-(t / 5)) = z at g1 g2 g3
    rw [inv_eq_one_div, mul_one_div]
    have : 10 / (1 + z) ≤ t + 5 := by
      rw [div_le_iff₀ (by linarith)]
      nlinarith
    linarith
  have habs : |-5 + 10 * Real.sigmoid (x / 5)| ≤ |x| := by
    rcases le_total 0 x with hx | hx
    · have g0 : 1 / 2 ≤ Real.sigmoid (x / 5) := by
        by_contra hc
        have := (sigmoid_half (x / 5)).1.1 (not_le.1 hc)
        linarith
      rw [abs_of_nonneg hx, abs_of_nonneg (by linarith)]
      exact hpos x hx
    · have g0 : Real.sigmoid (x / 5) ≤ 1 / 2 := by
        by_contra hc
        have := (sigmoid_half (x / 5)).2.1 (not_le.1 hc)
        linarith
      have g1 := hpos (-x) (by linarith)
      have g2 : Real.sigmoid (-x / 5) = 1 - Real.sigmoid (x / 5) := by
        rw [neg_div, Real.sigmoid_neg]
      rw [g2] at g1
      rw [abs_of_nonpos hx, abs_of_nonpos (by linarith)]
      linarith
  have h4 : Real.sigmoid (x / 5) < Real.sigmoid (y / 5) ↔ x / 5 < y / 5 :=
    Real.sigmoid_strictMono.lt_iff_lt
  rw [hs, hs]
  refine ⟨by linarith, by linarith, ?_, ?_, ?_, habs⟩
  · constructor
    · intro h
      have := h4.2 (by linarith)
      linarith
    · intro h
      have := h4.1 (by linarith)
      linarith
  · constructor
    · intro h
      have := h3.2.1 (by linarith)
      linarith
    · intro h
      have := h3.2.2 (by linarith)
      linarith
  · constructor
    · intro h
      have := h3.1.1 (by linarith)
      linarith
    · intro h
      have := h3.1.2 (by linarith)
      linarith

/-- **C351** (perturbed numbers).  A number of at least 1/20 moves by at most half the magnitude in proportion; any other one,
however negative, by at most a fortieth of the magnitude. -/
theorem C351_perturb_num (num magnitude u : ℝ) (hm : 0 ≤ magnitude) (h0 : 0 ≤ u) (h1 : u < 1) :
    |perturbNum num magnitude u - num| ≤ magnitude / 2 * (if 1 / 20 ≤ num then num else 1 / 20) := by
  unfold perturbNum
  have e : (if 1 / 20 ≤ num then num else 1 / 20) = max num (1 / 20) := by
    split
    · rename_i h; rw [max_eq_left h]
    · rename_i h; rw [max_eq_right (not_le.1 h).le]
  rw [e]
  have hp : 0 < max num (1 / 20) := lt_of_lt_of_le (by norm_num) (le_max_right _ _)
  generalize max num (1 / 20) = k at hp
  rw [add_sub_cancel_left, abs_mul, abs_of_nonneg (mul_nonneg hp.le hm)]
  have : |u - 1 / 2| ≤ 1 / 2 := abs_le.2 ⟨by linarith, by linarith⟩
  nlinarith [mul_nonneg hp.le hm]

/-- **C351** (perturbed nets).  The magnitude and the probability given for a layer or a net are ignored: 0.3 and 1 are used. -/
theorem C351_perturb (m m' p p' : ℝ) (u : Nat → ℝ) :
    (∀ l k, perturbLayer m p l u k = perturbLayer m' p' l u k) ∧ (∀ net k, perturbNet m p net u k = perturbNet m' p' net u k) ∧
    ∀ (n : Neuron ℝ) k, perturbLayer m p [n] u k = ([(n.perturb (3 / 10) 1 u k).1], (n.perturb (3 / 10) 1 u k).2) ∧
      perturbNet m p [[n]] u k = ([[(n.perturb (3 / 10) 1 u k).1]], (n.perturb (3 / 10) 1 u k).2) := by
  refine ⟨?_, ?_, fun n k => ⟨rfl, rfl⟩⟩
  · intro l
    induction l with
    | nil => intro k; rfl
    | cons n l ih => intro k; simp only [perturbLayer, ih]
  · intro net
    induction net with
    | nil => intro k; rfl
    | cons l net ih => intro k; simp only [perturbNet, ih]

/-- The number of draws of a perturbed neuron, and where the numbers go. -/
theorem C351_perturb_neuron (n : Neuron ℝ) (u : Nat → ℝ) (k : Nat) :
    (n.perturb (3 / 10) 1 u k).2 = k + n.weight.length + 1 ∧
    (n.perturb (3 / 10) 1 u k).1.bias = perturbNum n.bias (3 / 10) (u (k + n.weight.length)) ∧
    (n.perturb (3 / 10) 1 u k).1.weight = n.weight.mapIdx fun i w => perturbNum w (3 / 10) (u (k + i)) := by
  have h : ∀ (ws : List ℝ) (k : Nat), perturbVals (3 / 10) 1 ws u k =
      (ws.mapIdx fun i w => perturbNum w (3 / 10) (u (k + i)), k + ws.length) := by
    intro ws
    induction ws with
    | nil => intro k; rfl
    | cons w ws ih =>
      intro k
      rw [perturbVals, if_pos le_rfl, ih, List.mapIdx_cons]
      simp only [List.length_cons, Nat.add_zero]
      refine Prod.ext ?_ (by simp; omega)
      dsimp only
      congr 2
      funext i w
      congr 2
      omega
  unfold Neuron.perturb
  simp only [h]
  simp

/-- **C351** (distance).  The distance of two nets is symmetric and not negative; but layers that only one of the nets has are ignored,
so that a net has distance 0 from any net that it continues. -/
theorem C351_distance (a b : Net ℝ) (l : Layer ℝ) : euclid a b = euclid b a ∧ 0 ≤ euclid a b ∧ euclid (l :: a) a = 0 := by
  refine ⟨?_, Real.sqrt_nonneg _, ?_⟩
  · have hd : ∀ v w : List ℝ, dot (List.zipWith (· - ·) v w) (List.zipWith (· - ·) v w) =
        dot (List.zipWith (· - ·) w v) (List.zipWith (· - ·) w v) := by
      intro v w
      have : ∀ v w : List ℝ, (List.zipWith (· * ·) (List.zipWith (· - ·) v w) (List.zipWith (· - ·) v w)).sum =
          (List.zipWith (· * ·) (List.zipWith (· - ·) w v) (List.zipWith (· - ·) w v)).sum := by
        intro v
        induction v with
        | nil => intro w; cases w <;> rfl
        | cons x v ih =>
          intro w
          cases w with
          | nil => rfl
          | cons y w =>
            simp only [List.zipWith_cons_cons, List.sum_cons, ih w]
            ring
      unfold dot
      rw [foldl_add, foldl_add, this]
    unfold euclid
    rw [List.zipWith_comm]
    congr 3
    funext l1 l2
    rw [List.zipWith_comm]
    congr 2
    funext x y
    rw [hd]
    ring
  · have h0 : ∀ v : List ℝ, dot (List.zipWith (· - ·) v v) (List.zipWith (· - ·) v v) = 0 := by
      intro v
      have : (List.zipWith (· * ·) (List.zipWith (· - ·) v v) (List.zipWith (· - ·) v v)).sum = 0 := by
        induction v with
        | nil => rfl
        | cons x v ih =>
          simp only [List.zipWith_cons_cons, List.sum_cons, ih]
          ring
      unfold dot
      rw [foldl_add, this, add_zero]
    unfold euclid
    rw [List.reverse_cons]
    have h1 : ∀ (r : List (Layer ℝ)) (x : List (Layer ℝ)), (List.zipWith (fun l1 l2 => (List.zipWith (fun (a b : Neuron ℝ) =>
        (a.bias - b.bias) * (a.bias - b.bias) + dot (List.zipWith (· - ·) a.weight b.weight)
          (List.zipWith (· - ·) a.weight b.weight)) l1 l2).sum) (r ++ x) r).sum = 0 := by
      intro r x
      induction r with
      | nil => simp
      | cons l r ih =>
        rw [List.cons_append, List.zipWith_cons_cons, List.sum_cons, ih, add_zero]
        clear ih
        induction l with
        | nil => rfl
        | cons n l ih =>
          rw [List.zipWith_cons_cons, List.sum_cons, ih, h0]
          ring
    rw [h1, Real.sqrt_zero]

/-- **C351** (perturbed with a probability).  A single neuron can be perturbed with a probability below 1: each number draws whether it is
perturbed and, if so, once more. -/
theorem C351_perturb_some (w magnitude probability : ℝ) (ws : List ℝ) (u : Nat → ℝ) (k : Nat) (hp : probability < 1) :
    perturbVals magnitude probability (w :: ws) u k =
      if u k < probability then
        (perturbNum w magnitude (u (k + 1)) :: (perturbVals magnitude probability ws u (k + 2)).1,
          (perturbVals magnitude probability ws u (k + 2)).2)
      else (w :: (perturbVals magnitude probability ws u (k + 1)).1, (perturbVals magnitude probability ws u (k + 1)).2) := by
  rw [perturbVals, if_neg (not_le.2 hp)]

/-- **C351** (desaturated nets).  Every bias and weight of a net is desaturated, and nothing else changes. -/
theorem C351_desaturate_net (net : Net ℝ) : desaturateNet net = mapNet squash net := rfl

/-- **C351** (crossover).  The crossover exchanges nothing: what the first net becomes does not depend on the second, nor the other
way round. -/
theorem C351_xover (N : Num ℝ) (trn : List (Sample ℝ)) (c1 c2 d1 d2 : Net ℝ) :
    (chromXover N trn c1 c2).1 = (chromXover N trn c1 d2).1 ∧ (chromXover N trn c1 c2).2 = (chromXover N trn d1 c2).2 := ⟨rfl, rfl⟩

/-- **C351** (mutation).  The mutation never worsens the error of a net on the training set by more than 0.009. -/
theorem C351_mutation {N : Num ℝ} (hN : Exact N) (trn : List (Sample ℝ)) (net : Net ℝ) (hne : net ≠ [])
    (hmax : 0 < N.maxReal) (h0 : meanError N net trn < N.maxReal) :
    meanError N (chromMutation N trn net) trn ≤ meanError N net trn + 9 / 1000 := by
  have hb := C344_bound N hN.lt net trn 9 0 (1 / 1000) defaults hne (by norm_num) hmax (by linarith)
  have hr := C344_returned N net trn 10 0 (1 / 1000) defaults hne
  unfold chromMutation
  rcases hr with ⟨_, h2⟩ | h
  · rw [h2]; linarith
  · rw [← h]
    norm_num at hb ⊢
    exact hb

/-! ### C352: fitness -/

section
variable {E : Type*} [LinearOrder E]

/-- **C352** (order).  Of two nets with errors that are numbers the better one has more right answers on the validation set or, with
equally many, the smaller error; the comparisons are those of a total preorder. -/
theorem C352_order (a b c : Phenotype E) (x y z : E) (ha : a.mse = some x) (hb : b.mse = some y) (hc : c.mse = some z) :
    (a.lt b = true ↔ a.valOk < b.valOk ∨ a.valOk = b.valOk ∧ y < x) ∧ a.gt b = b.lt a ∧ (a.ge b = (b.lt a || a.eq b)) ∧
    (a.eq b = true ↔ a.valOk = b.valOk ∧ x = y) ∧ (a.lt b = true → b.lt c = true → a.lt c = true) ∧ a.lt a = false ∧
    (a.lt b = true ∨ a.eq b = true ∨ b.lt a = true) := by
  have hlt : ∀ (a b : Phenotype E) (x y : E), a.mse = some x → b.mse = some y →
      (a.lt b = true ↔ a.valOk < b.valOk ∨ a.valOk = b.valOk ∧ y < x) := by
    intro a b x y ha hb
    unfold Phenotype.lt
    rw [ha, hb]
    simp only [errLt, Bool.or_eq_true, Bool.and_eq_true, Bool.not_eq_true', decide_eq_true_eq, decide_eq_false_iff_not]
    constructor
    · rintro (h | ⟨h1, h2⟩)
      · exact .inl h
      · rcases lt_or_eq_of_le (not_lt.1 h1) with h | h
        · exact .inl h
        · exact .inr ⟨h, h2⟩
    · rintro (h | ⟨h1, h2⟩)
      · exact .inl h
      · exact .inr ⟨by omega, h2⟩
  have heq : a.eq b = true ↔ a.valOk = b.valOk ∧ x = y := by
    unfold Phenotype.eq
    rw [ha, hb]
    simp only [errEq, Bool.and_eq_true, beq_iff_eq, decide_eq_true_eq]
    exact and_congr_right fun _ => eq_comm
  have h1 := hlt a b x y ha hb
  have h2 := hlt b a y x hb ha
  have htri : a.lt b = true ∨ a.eq b = true ∨ b.lt a = true := by
    rw [h1, h2, heq]
    rcases lt_trichotomy a.valOk b.valOk with h | h | h
    · exact .inl (.inl h)
    · rcases lt_trichotomy x y with g | g | g
      · exact .inr (.inr (.inr ⟨h.symm, g⟩))
      · exact .inr (.inl ⟨h, g⟩)
      · exact .inl (.inr ⟨h, g⟩)
    · exact .inr (.inr (.inl h))
  have hdis : ¬ (a.lt b = true ∧ b.lt a = true) ∧ ¬ (a.lt b = true ∧ a.eq b = true) ∧ ¬ (b.lt a = true ∧ a.eq b = true) := by
    rw [h1, h2, heq]
    refine ⟨?_, ?_, ?_⟩
    · rintro ⟨h | ⟨h, g⟩, h' | ⟨h', g'⟩⟩
      · omega
      · omega
      · omega
      · exact absurd g (not_lt.2 g'.le)
    · rintro ⟨h | ⟨h, g⟩, h', rfl⟩
      · omega
      · exact absurd g (lt_irrefl _)
    · rintro ⟨h | ⟨h, g⟩, h', rfl⟩
      · omega
      · exact absurd g (lt_irrefl _)
  refine ⟨h1, ?_, ?_, heq, ?_, ?_, htri⟩
  · unfold Phenotype.gt
    revert htri hdis
    cases a.lt b <;> cases b.lt a <;> cases a.eq b <;> simp
  · unfold Phenotype.ge
    revert htri hdis
    cases a.lt b <;> cases b.lt a <;> cases a.eq b <;> simp
  · rw [h1, hlt b c y z hb hc, hlt a c x z ha hc]
    rintro (h | ⟨h, g⟩) (h' | ⟨h', g'⟩)
    · exact .inl (by omega)
    · exact .inl (by omega)
    · exact .inl (by omega)
    · exact .inr ⟨by omega, g'.trans g⟩
  · have := hlt a a x x ha ha
    cases h : a.lt a with
    | false => rfl
    | true =>
      rcases this.1 h with h | ⟨_, h⟩
      · omega
      · exact absurd h (lt_irrefl _)

/-- **C352** (NaN).  A net whose error is NaN, as on an empty validation set, is not less than a net with equally many right answers
and not equal to it, also if it is the same net; so each of the two is greater than the other, and a net greater than itself. -/
theorem C352_nan (a b : Phenotype E) (ha : a.mse = none) (hv : a.valOk = b.valOk) :
    a.lt b = false ∧ b.lt a = false ∧ a.eq b = false ∧ a.gt b = true ∧ b.gt a = true ∧ a.gt a = true := by
  have e1 : ∀ x : Option E, errLt none x = false := fun x => by cases x <;> rfl
  have e2 : ∀ x : Option E, errLt x none = false := fun x => by cases x <;> rfl
  have e3 : ∀ x : Option E, errEq none x = false := fun x => by cases x <;> rfl
  have e4 : ∀ x : Option E, errEq x none = false := fun x => by cases x <;> rfl
  simp [Phenotype.lt, Phenotype.gt, Phenotype.eq, ha, hv, e1, e2, e3, e4]

end

/-- **C352** (right answers).  The number of right answers is the number of samples of which every output wanted and the output of the
net are on the same side of 1/2; a sample that wants 1/2 somewhere is never answered rightly. -/
theorem C352_correct (N : Num ℝ) (net : Net ℝ) (set : List (Sample ℝ)) :
    correct N net set = set.countP (fun s => right N net s) ∧ correct N net set ≤ set.length ∧
    ∀ s, right N net s = true ↔ ∀ i < s.output.length,
      (s.output.getD i 0 < 1 / 2 ∧ (netEval N net s.input).getD i 0 < 1 / 2) ∨
      (1 / 2 < s.output.getD i 0 ∧ 1 / 2 < (netEval N net s.input).getD i 0) := by
  have h1 : correct N net set = set.countP (fun s => right N net s) := by
    have : ∀ (set : List (Sample ℝ)) k, set.foldl (fun sum s => if right N net s then sum + 1 else sum) k =
        k + set.countP (fun s => right N net s) := by
      intro set
      induction set with
      | nil => intro k; rfl
      | cons s set ih =>
        intro k
        rw [List.foldl_cons, ih, List.countP_cons]
        split <;> omega
    unfold correct
    rw [this]
    omega
  refine ⟨h1, h1 ▸ List.countP_le_length, fun s => ?_⟩
  unfold right
  rw [beq_iff_eq]
  have hl : (List.range s.output.length).length = s.output.length := List.length_range
  conv_lhs => rhs; rw [← hl]
  rw [List.length_filter_eq_length_iff]
  simp

/-! ### Examples -/

example : Fit 2 ([[⟨0, [1, 2]⟩, ⟨1, [3, 4]⟩], [⟨5, [6, 7]⟩]] : Net Int) := by
  refine ⟨?_, ?_, trivial⟩ <;> simp

example : (saveNet (fun x : Int => x) ([[⟨0, [1, 2]⟩, ⟨1, [3, 4]⟩], [⟨5, [6, 7]⟩]] : Net Int)).toOption =
    some [.size 2, .size 1, .size 1, .size 2, .size 1, .lt, .val 0, .val 1, .val 2, .val 1, .val 3, .val 4, .val 5, .val 6,
      .val 7, .gt] := rfl

example : numInputs (initNet (0 : Int) 3 1 [0]) = .error .ub ∧ numInputs (initNet (0 : Int) 3 1 [2]) = .ok 3 ∧
    netLength (initNet (0 : Int) 3 1 [2]) = .ok 11 := ⟨rfl, rfl, rfl⟩

example : (⟨1, 5, 2, some 3⟩ : Phenotype Int).lt ⟨1, 5, 0, some 2⟩ = true ∧
    (⟨1, 5, 0, some 2⟩ : Phenotype Int).lt ⟨0, 6, 0, some 9⟩ = true := by decide

end Paradiseo.Mlp
