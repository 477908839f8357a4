import Verif.Machines.Builder
import Verif.Ordering.Model

/-
The networks of the autoregressive machines in `src/flowket/machines/`, as the sequence of layer calls
their constructors make. Numbers are complex (real tensors of the code are complex numbers with zero
imaginary part; nothing below uses that they are real).

Simplifications: an activation is any function of the channel vector of one location that keeps its
length; the weights of every layer are arbitrary (for `WeightNormalization` they are the normalised ones),
given per node number; casts (`ToFloat32`, `ToComplex64`) keep the number.
-/
namespace Verif.Machines

open Verif.Net

/-- The weights of the network, per node. -/
structure Weights where
  kernel : Nat → Loc → Nat → Nat → ℂ
  bias : Nat → Nat → ℂ

/-- An activation function of a channel vector. -/
structure Act where
  f : List ℂ → List ℂ
  length : ∀ v, (f v).length = v.length

/-- `Activation(activation)(x)` on a node with `c` channels. -/
def activation (act : Act) (c : Nat) (x : Nat) : Build ℂ Nat := add (.feature c act.f) [x]

/-- A Keras or complex convolution with stride 1 and bias, possibly wrapped in `WeightNormalization`. -/
def conv (W : Weights) (filters : Nat) (kernelSize dilation : List Nat) (x : Nat) : Build ℂ Nat := fun g =>
  add (.conv ⟨filters, kernelSize, dilation, kernelSize.map fun _ => 1, true, W.kernel g.length, W.bias g.length, id⟩)
    [x] g

/-- A cast (`ToFloat32`, `ToComplex64`, `ToComplex128`) of a node with `c` channels. -/
def cast (c : Nat) (x : Nat) : Build ℂ Nat := add (.feature c id) [x]

/-- `Add()([x, y])`. -/
def addLayer (x y : Nat) : Build ℂ Nat :=
  add (.merge fun vs => (List.range ((vs.map List.length).foldr max 0)).map fun c => (vs.map fun v => v.getD c 0).sum) [x, y]

/-- Python `if cond: x = layer(x)`. -/
def addIf (cond : Prop) [Decidable cond] (L : Layer ℂ) (x : Nat) : Build ℂ Nat := if cond then add L [x] else pure x

/-- `if skip_connection is not None: x = Add()([x, skip_connection])`
(machines/simple_conv_net_autoregressive_1D.py:16-17). -/
def addSkip (x : Nat) : Option Nat → Build ℂ Nat
  | some y => addLayer x y
  | none => pure x

/-- `VectorToComplexNumber.call` (layers/complex/casting.py:16-24) on the four channels of one location:
real parts from the first half, imaginary parts from the second. -/
def vectorToComplex (v : List ℂ) : List ℂ :=
  [⟨(v.getD 0 0).re, (v.getD 2 0).re⟩, ⟨(v.getD 1 0).re, (v.getD 3 0).re⟩]

/-! ### The 1-D machines -/

/-- `causal_conv_1d` (machines/simple_conv_net_autoregressive_1D.py:8-20;
machines/complex_values_simple_conv_net_autoregressive_1D.py:11-18 has no skip connection). -/
def causalConv1d (W : Weights) (filters kernelSize dilation : Nat) (act : Option Act) (skip : Option Nat) (x : Nat) :
    Build ℂ Nat := do
  let padding := kernelSize + (kernelSize - 1) * (dilation - 1) - 1
  let x ← addIf (padding > 0) (.zeroPad [(padding, 0)]) x
  let x ← conv W filters [kernelSize] [dilation] x
  let x ← addSkip x skip
  match act with
  | some a => activation a filters x
  | none => pure x

/-- Constructor arguments of the 1-D machines (machines/simple_conv_net_autoregressive_1D.py:26-28). -/
structure Params1D where
  depth : Nat
  channels : Nat
  kernelSize : Nat := 3
  useDilation : Bool := true
  skip : Bool := false
  maxDilation : Option Nat := none
  act : Option Act

/-- The update of `dilation_rate` (machines/simple_conv_net_autoregressive_1D.py:58-60,
machines/complex_values_simple_conv_net_autoregressive_1D.py:55-57). -/
def nextDilation (P : Params1D) (d : Nat) : Nat :=
  if P.useDilation then
    match P.maxDilation with
    | some m => if d < m then d * 2 else d
    | none => d
  else d

/-- The loop over the hidden layers (machines/simple_conv_net_autoregressive_1D.py:51-60): `count`
iterations left, `i` the loop variable. -/
def layers1D (P : Params1D) (W : Weights) : (count i d x : Nat) → Build ℂ Nat
  | 0, _, _, x => pure x
  | count + 1, i, d, x => do
    let x ← causalConv1d W P.channels P.kernelSize d P.act (if P.skip && decide (i > 0) then some x else none) x
    layers1D P W count (i + 1) (nextDilation P d) x

/-- `SimpleConvNetAutoregressive1D._build_unnormalized_conditional_log_wave_function`
(machines/simple_conv_net_autoregressive_1D.py:45-64) from node `x`. -/
def build1D (P : Params1D) (W : Weights) (expand : Bool) (x : Nat) : Build ℂ Nat := do
  let x ← addIf expand .expand x
  let x ← cast 1 x
  let x ← layers1D P W (P.depth - 2) 0 1 x
  let x ← add .downShift [x]
  let x ← causalConv1d W 4 1 1 none none x
  add (.feature 2 vectorToComplex) [x]

/-- `ComplexValuesSimpleConvNetAutoregressive1D._build_unnormalized_conditional_log_wave_function`
(machines/complex_values_simple_conv_net_autoregressive_1D.py:43-59); this machine has no skip
connections. -/
def buildComplex1D (P : Params1D) (W : Weights) (x : Nat) : Build ℂ Nat := do
  let x ← add .expand [x]
  let x ← cast 1 x
  let x ← layers1D { P with skip := false } W (P.depth - 1) 0 1 x
  let x ← add .downShift [x]
  causalConv1d W 2 1 1 none none x

/-! ### The 2-D machine -/

/-- Constructor arguments of `ConvNetAutoregressive2D` (machines/conv_net_autoregressive_2D.py:11-22);
`strides` is stored but never used. -/
structure Params2D where
  depth : Nat
  channels : Nat
  kernelSize : Nat := 3
  act : Act

/-- `_conv2d` (machines/conv_net_autoregressive_2D.py:24-28) called on node `x`. -/
def conv2d (W : Weights) (filters kh kw : Nat) (x : Nat) : Build ℂ Nat := conv W filters [kh, kw] [1, 1] x

/-- `_causal_conv_2d` (machines/conv_net_autoregressive_2D.py:33-51). -/
def causalConv2d (P : Params2D) (W : Weights) (mask : Bool) (v h : Nat) : Build ℂ (Nat × Nat) := do
  let p := P.kernelSize - 1
  let v ← addIf (p > 0) (.zeroPad [(p, 0), (p / 2, p / 2)]) v
  let h ← addIf (p > 0) (.zeroPad [(0, 0), (p, 0)]) h
  let v ← conv2d W P.channels P.kernelSize P.kernelSize v
  let x ← conv2d W P.channels 1 P.kernelSize h
  let x ← activation P.act P.channels x
  let x ← addIf mask .rightShift x
  let x ← conv2d W (P.channels / 2) 1 1 x
  let y ← activation P.act P.channels v
  let y ← add .downShift [y]
  let y ← conv2d W (P.channels / 2) 1 1 y
  let x ← activation P.act (P.channels / 2) x
  let y ← activation P.act (P.channels / 2) y
  let x ← add (.concat (-1)) [x, y]
  let x ← addIf (p > 0) (.zeroPad [(p, 0), (p, 0)]) x
  let h ← conv2d W P.channels P.kernelSize P.kernelSize x
  pure (v, h)

/-- The activations of both stacks (machines/conv_net_autoregressive_2D.py:57, 61, 69). -/
def activations2d (P : Params2D) (v h : Nat) : Build ℂ (Nat × Nat) := do
  let v ← activation P.act P.channels v
  let h ← activation P.act P.channels h
  pure (v, h)

/-- `_resiual_block` with two layers (machines/conv_net_autoregressive_2D.py:53-62). -/
def residualBlock (P : Params2D) (W : Weights) (v0 h0 : Nat) : Build ℂ (Nat × Nat) := do
  let (v, h) ← causalConv2d P W false v0 h0
  let (v, h) ← activations2d P v h
  let (v, h) ← causalConv2d P W false v h
  let v ← addLayer v0 v
  let h ← addLayer h0 h
  activations2d P v h

/-- The loop over residual blocks (machines/conv_net_autoregressive_2D.py:70-71). -/
def blocks2D (P : Params2D) (W : Weights) : (count v h : Nat) → Build ℂ (Nat × Nat)
  | 0, v, h => pure (v, h)
  | count + 1, v, h => do
    let (v, h) ← residualBlock P W v h
    blocks2D P W count v h

/-- `ConvNetAutoregressive2D._build_unnormalized_conditional_log_wave_function`
(machines/conv_net_autoregressive_2D.py:64-74). -/
def build2D (P : Params2D) (W : Weights) (x : Nat) : Build ℂ Nat := do
  let x ← add .expand [x]
  let x ← cast 1 x
  let (v, h) ← causalConv2d P W false x x
  let (v, h) ← activations2d P v h
  let (v, h) ← blocks2D P W (P.depth - 2) v h
  let (_, x) ← causalConv2d P W true v h
  let x ← activation P.act P.channels x
  let x ← conv2d W 4 1 1 x
  add (.feature 2 vectorToComplex) [x]

/-! ### The machine with a custom ordering -/

/-- `SimpleCustomOrderingAutoregressive` (machines/simple_custom_autoregressive_ordering.py:15-34) on an
input of shape `s0`: `forward` and `inverse` are the results of `to_flat_ordering` and
`to_flat_inverse_ordering`. -/
def buildCustom (P : Params1D) (W : Weights) (s0 : Shape) (forward inverse : List Nat) (x : Nat) : Build ℂ Nat := do
  let x ← add .expand [x]
  let x ← add (.reshape [(s0.prod : Int), 1]) [x]
  let x ← add (.gather forward 1) [x]
  let x ← build1D P W false x
  let x ← add (.gather inverse 1) [x]
  add (.reshape (s0.map (fun n : Nat => (n : Int)) ++ [2])) [x]

/-- The constructor with an ordering given as a list of sites; `none` if computing the inverse ordering
raises. -/
def customNet (P : Params1D) (W : Weights) (s0 : Shape) (ordering : List Loc) : Option (Nat → Build ℂ Nat) :=
  (Verif.Ordering.toFlatInverseOrdering ordering s0).map fun inverse =>
    buildCustom P W s0 (Verif.Ordering.toFlatOrdering ordering s0) inverse

/-! ### Normalisation -/

/-- `normalize_in_log_space` with `norm_type=2` on the two channels of a location
(deepar/layers/autoregressive.py:7-12). -/
noncomputable def normalize (v : List ℂ) : List ℂ :=
  List.ofFn (Verif.Autoregressive.normalizeComplex 2 fun c : Fin 2 => v.getD c 0)

/-- `AutoNormalizedAutoregressiveMachine.__init__` without `equal_up_down_spins`
(machines/abstract_machine.py:49-57) after the network `net` was built: the nodes of
`conditional_log_wave_function` and `conditional_log_probs`. -/
noncomputable def normalized (net : Nat → Build ℂ Nat) (x : Nat) : Build ℂ (Nat × Nat) := do
  let x ← net x
  let w ← add (.feature 2 normalize) [x]
  let p ← add (.feature 2 fun v => v.map fun z => ((z.re * 2 : ℝ) : ℂ)) [w]
  pure (w, p)

end Verif.Machines
