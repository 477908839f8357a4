import Verif.Ordering.Model
import Mathlib.Algebra.BigOperators.Group.List.Basic
import Mathlib.Algebra.Ring.Defs

/-
Layers as functions on whole tensors: the Keras layers FlowKet networks are made of, and the layers of
`src/flowket/deepar/layers/`.

A tensor is described for one element of the batch (every layer here treats the elements of a batch
separately). It has a spatial shape, a number of channels, and a list of channel values per location.
Following `DependencyGraph._calculate_layers_output_shape`
(deepar/graph_analysis/dependency_graph.py:53-54) the network input, which has no channel axis, is given
one channel. Numbers are elements of a commutative semiring (exact arithmetic).
-/
namespace Verif.Net

/-- A location: one index per spatial axis. -/
abbrev Loc := List Nat

/-- Spatial shape of a tensor. -/
abbrev Shape := List Nat

/-- The location lies in a tensor of this shape. -/
def InShape (l : Loc) (s : Shape) : Prop := List.Forall₂ (· < ·) l s

/-- Spatial shape and number of channels. -/
abbrev Sig := Shape × Nat

/-- A tensor; `val` outside the shape is meaningless. -/
structure Tensor (K : Type) where
  shape : Shape
  chan : Nat
  val : Loc → List K

/-- Shape and channels of a tensor. -/
abbrev Tensor.sig {K : Type} (t : Tensor K) : Sig := (t.shape, t.chan)

/-- Every location holds one value per channel. -/
def Tensor.WF {K : Type} (t : Tensor K) : Prop := ∀ l, InShape l t.shape → (t.val l).length = t.chan

/-- A convolution (`Conv1D`, `Conv2D`, `Conv3D` or the complex version, layers/complex/conv.py:57-107)
with padding `valid`. `kernel w c o` is the weight at kernel offset `w`, input channel `c`, output
channel `o`: the normalised one if the layer is wrapped in `WeightNormalization`. Complex arithmetic of
`keras_conv_to_complex_conv` is multiplication in `K`. -/
structure Conv (K : Type) where
  filters : Nat
  kernelSize : List Nat
  dilation : List Nat
  strides : List Nat
  useBias : Bool
  kernel : Loc → Nat → Nat → K
  bias : Nat → K
  activation : List K → List K

/-- The layers that have a registered topology (deepar/graph_analysis/*_topology.py,
layers/complex/casting.py:35, layers/complex/conv.py:140-142). -/
inductive Layer (K : Type) where
  /-- Keras `InputLayer` -/
  | input
  /-- `ExpandInputDim` (deepar/layers/padding.py:7-9): adds the channel axis to the input -/
  | expand
  /-- layers that map the channel vector of each location to a channel vector: activations, casts,
  `LambdaWithOneToOneTopology` with such a function, `Softmax`, `LayerNormalization`,
  `NormalizeInLogSpace`, `VectorToComplexNumber`; `out` is the number of output channels -/
  | feature (out : Nat) (f : List K → List K)
  /-- `ToOneHot`, `PlusMinusOneToOneHot` (deepar/layers/one_hot.py) -/
  | oneHot (out : Nat) (f : List K → List K)
  /-- Keras merge layers (`Add`, `Average`, `Subtract`, `Multiply`, `Maximum`, `Minimum`) -/
  | merge (f : List (List K) → List K)
  | conv (c : Conv K)
  /-- `ZeroPadding1D`, `ZeroPadding2D`, `ZeroPadding3D`: cells before and after per axis -/
  | zeroPad (pads : List (Nat × Nat))
  /-- `PeriodicPadding` (deepar/layers/padding.py:12-36); an integer `p` stands for the pair `(p, p)` -/
  | periodicPad (pads : List (Nat × Nat))
  | downShift
  | rightShift
  /-- `GatherLayer` (deepar/layers/gathering.py) -/
  | gather (indices : List Nat) (axis : Int)
  /-- Keras `Reshape` to the given shape, channel axis included, batch axis not included -/
  | reshape (target : List Int)
  /-- Keras `Concatenate` -/
  | concat (axis : Int)

/-! ### Shapes of the results; `none` means Keras or TensorFlow raises -/

/-- An axis of a tensor with `rank` axes, batch and channel axes included. -/
def resolveAxis (rank : Nat) (axis : Int) : Option Nat :=
  let a := if axis < 0 then rank + axis else axis
  if 0 ≤ a ∧ a < rank then some a.toNat else none

/-- Output size of a `valid` convolution along one axis (Keras `conv_output_length`). -/
def convDim (n k d s : Nat) : Option Nat :=
  let extent := (k - 1) * d + 1
  if 1 ≤ k ∧ 1 ≤ s ∧ extent ≤ n + 1 then some ((n + 1 - extent + (s - 1)) / s) else none

/-- `convDim` on all axes. -/
def convShape : Shape → List Nat → List Nat → List Nat → Option Shape
  | [], [], [], [] => some []
  | n :: ns, k :: ks, d :: ds, s :: ss =>
    (convDim n k d s).bind fun m => (convShape ns ks ds ss).bind fun r => some (m :: r)
  | _, _, _, _ => none

/-- Broadcast of two sizes (Keras `_Merge._compute_elemwise_op_output_shape`). -/
def broadcastDim (a b : Nat) : Option Nat :=
  if a = b then some a else if a = 1 then some b else if b = 1 then some a else none

/-- `broadcastDim` on all axes of two shapes of the same rank (different ranks are not modelled). -/
def broadcastShape : Shape → Shape → Option Shape
  | [], [] => some []
  | a :: as, b :: bs =>
    (broadcastDim a b).bind fun m => (broadcastShape as bs).bind fun r => some (m :: r)
  | _, _ => none

/-- `broadcastShape` on shape and channels. -/
def broadcastSig (a b : Sig) : Option Sig :=
  (broadcastShape a.1 b.1).bind fun s => (broadcastDim a.2 b.2).bind fun c => some (s, c)

/-- Fold of `broadcastSig` over all inputs of a merge layer. -/
def broadcastAll (a : Sig) : List Sig → Option Sig
  | [] => some a
  | b :: rest => (broadcastSig a b).bind fun c => broadcastAll c rest

/-- Keras `Reshape._fix_unknown_dimension`. -/
def resolveTarget (total : Nat) (target : List Int) : Option (List Nat) :=
  let known := ((target.filter (0 ≤ ·)).map Int.toNat).prod
  match (target.filter (· < 0)).length with
  | 0 => if total = known then some (target.map Int.toNat) else none
  | 1 => if known = 0 ∨ total % known ≠ 0 then none
         else some (target.map fun d => if d < 0 then total / known else d.toNat)
  | _ => none

/-- Shape of the result of a layer. -/
def Layer.outSig {K : Type} : Layer K → List Sig → Option Sig
  | .input, [] => none
  | .expand, [(s, c)] => some (s, c)
  | .feature out _, [(s, _)] => some (s, out)
  | .oneHot out _, [(s, _)] => some (s, out)
  | .merge _, a :: b :: rest => broadcastAll a (b :: rest)
  | .conv c, [(s, _)] => (convShape s c.kernelSize c.dilation c.strides).map fun r => (r, c.filters)
  | .zeroPad pads, [(s, c)] =>
    if pads.length = s.length then some (List.zipWith (fun n p => p.1 + n + p.2) s pads, c) else none
  | .periodicPad pads, [(s, c)] =>
    if pads.length = s.length then
      some (List.zipWith (fun n p => min p.1 n + n + min p.2 n) s pads, c) else none
  | .downShift, [(s, c)] => if 1 ≤ s.length ∧ 1 ≤ s.getD 0 0 then some (s, c) else none
  | .rightShift, [(s, c)] => if 2 ≤ s.length ∧ 1 ≤ s.getD 1 0 then some (s, c) else none
  | .gather indices axis, [(s, c)] =>
    (resolveAxis (s.length + 2) axis).bind fun a =>
      if a = 0 then none
      else if a = s.length + 1 then
        if ∀ i ∈ indices, i < c then some (s, indices.length) else none
      else if ∀ i ∈ indices, i < s.getD (a - 1) 0 then some (s.set (a - 1) indices.length, c) else none
  | .reshape target, [(s, c)] =>
    (resolveTarget (s.prod * c) target).bind fun t =>
      if t = [] then none else some (t.dropLast, t.getLastD 0)
  | .concat axis, (s, c) :: b :: rest =>
    (resolveAxis (s.length + 2) axis).bind fun a =>
      if a = 0 then none
      else if a = s.length + 1 then
        if ∀ q ∈ b :: rest, q.1 = s then some (s, c + ((b :: rest).map (·.2)).sum) else none
      else if ∀ q ∈ b :: rest, q.1.length = s.length ∧ q.1.set (a - 1) 0 = s.set (a - 1) 0 ∧ q.2 = c then
        some (s.set (a - 1) (s.getD (a - 1) 0 + ((b :: rest).map fun q => q.1.getD (a - 1) 0).sum), c)
      else none
  | _, _ => none

/-! ### Values of the results -/

variable {K : Type} [CommSemiring K]

/-- Sum over the kernel and the input channels, bias and activation: the value of a convolution at a
location, in terms of coordinates. The cell of the input under kernel offset `w` has coordinate
`l[a] * strides[a] + w[a] * dilation[a]` on axis `a`. -/
def Conv.call (cv : Conv K) (x : Tensor K) (l : Loc) : List K :=
  cv.activation <| (List.range cv.filters).map fun o =>
    ((Verif.Ordering.raster cv.kernelSize).map fun w =>
      ((List.range x.chan).map fun c =>
        (x.val ((List.range x.shape.length).map fun a =>
          l.getD a 0 * cv.strides.getD a 0 + w.getD a 0 * cv.dilation.getD a 0)).getD c 0
          * cv.kernel w c o).sum).sum
    + (if cv.useBias then cv.bias o else 0)

/-- Indices of the cells that `PeriodicPadding.call` stacks along one axis
(deepar/layers/padding.py:28-34): `x[-before:] + x + x[:after]`, where Python clips slices that are too
long and `before = 0` adds nothing. -/
def periodicIndices (n before after : Nat) : List Nat :=
  (List.range n).drop (n - before) ++ List.range n ++ (List.range n).take after

/-- Row-major position in an array of the given shape. -/
def flatten : List Nat → List Nat → Nat
  | n :: ns, i :: is => i * ns.prod + flatten ns is
  | _, _ => 0

/-- Index in an array of the given shape of the entry at a row-major position. -/
def unflatten : List Nat → Nat → List Nat
  | [], _ => []
  | _ :: ns, f => f / ns.prod :: unflatten ns (f % ns.prod)

/-- Value of a concatenation along spatial axis `j` at a location with coordinate `p` on that axis. -/
def concatAt (j : Nat) (l : Loc) : List (Tensor K) → Nat → List K
  | [], _ => []
  | t :: ts, p => if p < t.shape.getD j 0 then t.val (l.set j p) else concatAt j l ts (p - t.shape.getD j 0)

/-- Value of a layer at a location of its output, computed from the whole input tensors. -/
def Layer.call : Layer K → List (Tensor K) → Loc → List K
  | .expand, [x], l => x.val l
  | .feature _ f, [x], l => f (x.val l)
  | .oneHot _ f, [x], l => f (x.val l)
  | .merge f, ts, l =>
    -- broadcasting reads index 0 on axes of size one
    f (ts.map fun t => t.val ((List.range t.shape.length).map fun a =>
      if t.shape.getD a 0 = 1 then 0 else l.getD a 0))
  | .conv cv, [x], l => cv.call x l
  | .zeroPad pads, [x], l =>
    if ∀ a < x.shape.length, (pads.getD a (0, 0)).1 ≤ l.getD a 0 ∧
        l.getD a 0 < (pads.getD a (0, 0)).1 + x.shape.getD a 0
    then x.val ((List.range x.shape.length).map fun a => l.getD a 0 - (pads.getD a (0, 0)).1)
    else List.replicate x.chan 0
  | .periodicPad pads, [x], l =>
    x.val ((List.range x.shape.length).map fun a =>
      (periodicIndices (x.shape.getD a 0) (pads.getD a (0, 0)).1 (pads.getD a (0, 0)).2).getD (l.getD a 0) 0)
  | .downShift, [x], l =>
    -- deepar/layers/masking.py:8-15 with axis 1: a row of zeros, then all rows but the last
    if l.getD 0 0 = 0 then List.replicate x.chan 0 else x.val (l.set 0 (l.getD 0 0 - 1))
  | .rightShift, [x], l =>
    -- deepar/layers/masking.py:8-15 with axis 2
    if l.getD 1 0 = 0 then List.replicate x.chan 0 else x.val (l.set 1 (l.getD 1 0 - 1))
  | .gather indices axis, [x], l =>
    -- `tensorflow.gather` (deepar/layers/gathering.py:11-12)
    match resolveAxis (x.shape.length + 2) axis with
    | some a =>
      if a = x.shape.length + 1 then indices.map fun i => (x.val l).getD i 0
      else x.val (l.set (a - 1) (indices.getD (l.getD (a - 1) 0) 0))
    | none => []
  | .reshape target, [x], l =>
    match resolveTarget (x.shape.prod * x.chan) target with
    | some t => (List.range (t.getLastD 0)).map fun c =>
        let src := unflatten (x.shape ++ [x.chan]) (flatten t (l ++ [c]))
        (x.val src.dropLast).getD (src.getLastD 0) 0
    | none => []
  | .concat axis, t :: ts, l =>
    match resolveAxis (t.shape.length + 2) axis with
    | some a =>
      if a = t.shape.length + 1 then ((t :: ts).map fun q => q.val l).flatten
      else concatAt (a - 1) l (t :: ts) (l.getD (a - 1) 0)
    | none => []
  | _, _, _ => []

/-- Applying a layer; `none` when Keras or TensorFlow raises. -/
def Layer.apply (L : Layer K) (ts : List (Tensor K)) : Option (Tensor K) :=
  (L.outSig (ts.map Tensor.sig)).map fun q => ⟨q.1, q.2, L.call ts⟩

/-- The user-supplied functions of the layer return as many channels as announced. -/
def Layer.Ok : Layer K → List Sig → Prop
  | .feature out f, [(_, c)] => ∀ v : List K, v.length = c → (f v).length = out
  | .oneHot out f, [(_, c)] => ∀ v : List K, v.length = c → (f v).length = out
  | .merge f, sigs => ∀ vs : List (List K), vs.map List.length = sigs.map (·.2) →
      ∀ q, (Layer.merge (K := K) f).outSig sigs = some q → (f vs).length = q.2
  | .conv cv, _ => ∀ v : List K, v.length = cv.filters → (cv.activation v).length = cv.filters
  | _, _ => True

end Verif.Net
