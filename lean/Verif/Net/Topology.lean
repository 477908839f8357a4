import Verif.Net.Layers

/-
The per-location view of the layers: `src/flowket/deepar/graph_analysis/*_topology.py`.

`Layer.deps` is `get_spatial_dependency` called without the keyword `output_index`, `Layer.depsKw` the
same method called with it (as `DependencyGraph` and `FastAutoregressiveSampler` do). `Layer.applySingle`
is `apply_layer_for_single_spatial_location`. `none` means Python raises. All modelled layers have one
output, so `output_index` is 0.
-/
namespace Verif.Net

/-- Python list indexing; `none` is `IndexError`. -/
def pyIndex (len : Nat) (i : Int) : Option Nat :=
  if 0 ≤ i then (if i < len then some i.toNat else none)
  else (if 0 ≤ len + i then some (len + i).toNat else none)

/-- `Dependency` (deepar/graph_analysis/data_structures.py:4). -/
abbrev Dep := Nat × Loc

/-- `OneToOneTopology._broadcast_spatial_location` (one_to_one_topology.py:22-29); the index past the end
of the sizes raises. -/
def broadcastLoc : Loc → Shape → Option Loc
  | [], _ => some []
  | _ :: _, [] => none
  | l :: ls, n :: ns =>
    (broadcastLoc ls ns).map fun r => if l < n then l :: r else if n = 1 then 0 :: r else r

/-- The loop of `OneToOneTopology.get_spatial_dependency` (one_to_one_topology.py:37-42). -/
def oneToOneDeps : Nat → List Shape → Loc → Option (List Dep)
  | _, [], _ => some []
  | i, s :: ss, l =>
    (broadcastLoc l s).bind fun b => (oneToOneDeps (i + 1) ss l).bind fun r => some ((i, b) :: r)

/-- The shifted location of `ConvolutionalTopology.get_spatial_dependency`
(convolutional_topology.py:35-39): `w * d + i * s` over the zip. -/
def convLoc : Loc → List Nat → Loc → List Nat → Loc
  | w :: ws, d :: ds, i :: is, s :: ss => (w * d + i * s) :: convLoc ws ds is ss
  | _, _, _, _ => []

/-- The loop of `PaddingTopology.get_spatial_dependency` (padding_topology.py:25-28): whether some
coordinate lies in the padding. -/
def inPadding : Loc → List (Nat × Nat) → Shape → Bool
  | l :: ls, p :: ps, n :: ns => if l < p.1 ∨ (l : Int) - p.1 ≥ n then true else inPadding ls ps ns
  | _, _, _ => false

/-- The location of `PeriodicPaddingTopology.get_spatial_dependency` (padding_topology.py:48-51). -/
def periodicLoc : Loc → List (Nat × Nat) → Shape → Loc
  | l :: ls, p :: ps, n :: ns => (((l : Int) - p.1) % n).toNat :: periodicLoc ls ps ns
  | _, _, _ => []

/-- `_get_spatial_dependency_when_concat_on_spatial_dim` (concatenate_topology.py:22-28) with the Python
index `k` of the coordinate; falling off the loop returns `None`, which the callers cannot iterate. -/
def concatDeps (k : Nat) (l : Loc) : Nat → List Nat → Nat → Option (List Dep)
  | _, [], _ => none
  | i, size :: sizes, p =>
    if p < size then some [(i, l.set k p)] else concatDeps k l (i + 1) sizes (p - size)

/-- `to_flat_spatial_location` (reshape_topology.py:10-15); sizes may be negative after lines 37-40. -/
def toFlat (l : Loc) (shape : List Int) : Int :=
  (l.zip shape).foldl (fun acc p => acc * p.2 + p.1) 0

/-- The loop of `from_flat_index_to_spatial_location` (reshape_topology.py:18-23) over the reversed shape,
result in loop order; Python `%` and `//` round towards minus infinity. -/
def fromFlatLoop : Int → List Nat → List Nat
  | _, [] => []
  | f, n :: ns => (f.fmod n).toNat :: fromFlatLoop (f.fdiv n) ns

/-- `from_flat_index_to_spatial_location` (reshape_topology.py:18-23). -/
def fromFlat (f : Int) (shape : Shape) : Loc := (fromFlatLoop f shape.reverse).reverse

/-- `ReshapeTopology.__init__` (reshape_topology.py:29-42): the target shape it keeps, where a `-1` entry
makes it longer; `none` when it raises. -/
def reshapeTarget (s : Shape) (c : Nat) (target : List Int) : Option (List Int) :=
  let total : Int := (s ++ [c]).prod
  let t : Option (List Int) :=
    if -1 ∈ target then
      let idx := target.idxOf (-1)
      let p := target.prod
      if -1 ∈ target.drop (idx + 1) then none
      else if p = 0 then none
      else if total.fmod p ≠ 0 then none
      else some (target ++ [(-1 * total).fdiv p] ++ target.drop (idx + 1))
    else some target
  t.bind fun t => if t = [] then none else if t.getLastD 0 = (c : Int) then some t else none

variable {K : Type} [CommSemiring K]

/-- `get_spatial_dependency(spatial_location)`. -/
def Layer.deps : Layer K → List Sig → Loc → Option (List Dep)
  -- sampling_topology.py:10-11
  | .input, _, l => some [(0, l)]
  -- one_to_one_topology.py:16-20, 37-42; `ExpandInputDim` gets the missing channel axis
  | .expand, sigs, l => oneToOneDeps 0 (sigs.map (·.1)) l
  | .feature _ _, sigs, l => oneToOneDeps 0 (sigs.map (·.1)) l
  | .merge _, sigs, l => oneToOneDeps 0 (sigs.map (·.1)) l
  -- the network input has no channel axis, so `input_shape[1:-1]` drops its last spatial axis
  | .oneHot _ _, sigs, l => oneToOneDeps 0 (sigs.map fun q => q.1.dropLast) l
  -- convolutional_topology.py:32-41
  | .conv cv, _, l =>
    some ((Verif.Ordering.raster cv.kernelSize).map fun w => (0, convLoc w cv.dilation l cv.strides))
  -- padding_topology.py:24-31
  | .zeroPad pads, [(s, _)], l =>
    if inPadding l pads s then some []
    else some [(0, List.zipWith (fun a p => a - p.1) l pads)]
  -- padding_topology.py:48-51
  | .periodicPad pads, [(s, _)], l => some [(0, periodicLoc l pads s)]
  -- masking_topology.py:16-20
  | .downShift, _, l =>
    match l with
    | [] => none
    | r :: rest => if r = 0 then some [] else some [(0, (r - 1) :: rest)]
  -- masking_topology.py:32-36
  | .rightShift, _, l =>
    match l with
    | r :: c :: rest => if c = 0 then some [] else some [(0, r :: (c - 1) :: rest)]
    | _ => none
  -- gathering_topology.py:12-15, 22-29: a negative axis is subtracted from the rank
  | .gather indices axis, [(s, _)], l =>
    let rank : Int := s.length + 2
    let axis' := if axis < 0 then rank - axis else axis
    if axis' = rank - 1 then some [(0, l)]
    else (pyIndex l.length (axis' - 1)).bind fun k =>
      (indices[l.getD k 0]?).bind fun i => some [(0, l.set k i)]
  -- reshape_topology.py:47-50 with `__init__` before it
  | .reshape target, [(s, c)], l =>
    (reshapeTarget s c target).bind fun t => some [(0, fromFlat (toFlat l t.dropLast) s)]
  -- concatenate_topology.py:11-14, 22-40
  | .concat axis, (s, c) :: rest, l =>
    let rank : Int := s.length + 2
    if axis = -1 ∨ axis = 0 ∨ axis = rank - 1 then
      some ((List.range ((s, c) :: rest).length).map fun i => (i, l))
    else
      (pyIndex (s.length + 2) axis).bind fun a =>
        (pyIndex l.length (axis - 1)).bind fun k =>
          concatDeps k l 0 (((s, c) :: rest).map fun q => q.1.getD (a - 1) q.2) (l.getD k 0)
  | _, _, _ => none

/-- `get_spatial_dependency(spatial_location, output_index=...)` as called in dependency_graph.py:73-74
and fast_autoregressive.py:67: `ReshapeTopology` does not accept the keyword (reshape_topology.py:47). -/
def Layer.depsKw (L : Layer K) (sigs : List Sig) (l : Loc) : Option (List Dep) :=
  match L with
  | .reshape _ => none
  | L => L.deps sigs l

/-- `ConvolutionalTopology.apply_layer_for_single_spatial_location` (convolutional_topology.py:22-30): the
stacked values flattened to one row, times the kernel reshaped to one row per offset and channel. -/
def Conv.applySingle (cv : Conv K) (cin : Nat) (values : List (List K)) : List K :=
  let flat := values.flatten
  let rows := (Verif.Ordering.raster cv.kernelSize).flatMap fun w =>
    (List.range cin).map fun c => (List.range cv.filters).map (cv.kernel w c)
  cv.activation <| (List.range cv.filters).map fun o =>
    ((flat.zip rows).map fun p => p.1 * p.2.getD o 0).sum + (if cv.useBias then cv.bias o else 0)

/-- `apply_layer_for_single_spatial_location` with the values of the dependencies (with the batch size
instead if there are none, which the padding and shift layers turn into zeros). `extra` is the number of
singleton spatial axes the values carry between batch and channel axis: the sampler passes values
without any (`extra = 0`), the test-suite passes slices that keep all axes. The number `chan` of output
channels is what `get_zeros` (layer_topology.py:30-38) reads from the layer. -/
def Layer.applySingle (extra : Nat) : Layer K → List Sig → (chan : Nat) → Loc → List (List K) → Option (List K)
  -- one_to_one_topology.py:48-52
  | .expand, _, _, _, [v] => some v
  -- one_to_one_topology.py:31-35
  | .feature _ f, _, _, _, [v] => some (f v)
  | .merge f, _, _, _, vs => some (f vs)
  -- one_to_one_topology.py:58-60
  | .oneHot _ f, _, _, _, [v] => some (f v)
  | .conv cv, [(_, cin)], _, _, vs => some (cv.applySingle cin vs)
  -- padding_topology.py:19-22
  | .zeroPad _, _, chan, _, [] => some (List.replicate chan 0)
  | .zeroPad _, _, _, _, v :: _ => some v
  -- padding_topology.py:45-46
  | .periodicPad _, _, _, _, v :: _ => some v
  -- masking_topology.py:10-14, 26-30
  | .downShift, _, chan, l, vs =>
    if l.getD 0 0 = 0 then some (List.replicate chan 0) else vs.head?
  | .rightShift, _, chan, l, vs =>
    if l.getD 1 0 = 0 then some (List.replicate chan 0) else vs.head?
  -- gathering_topology.py:17-20: for the channel axis the layer itself is called on the value, whose
  -- axes are batch, `extra` singletons and channels
  | .gather indices axis, [(s, _)], _, _, v :: _ =>
    let rank : Int := s.length + 2
    let axis' := if axis < 0 then rank - axis else axis
    if axis' = rank - 1 then
      match resolveAxis (extra + 2) axis with
      | some a => if a = extra + 1 then some (indices.map fun i => v.getD i 0) else none
      | none => none
    else some v
  -- reshape_topology.py:44-45
  | .reshape _, _, _, _, v :: _ => some v
  -- concatenate_topology.py:16-20: the layer is called on the values; along the batch axis not modelled
  | .concat axis, (s, _) :: _, _, _, vs =>
    let rank : Int := s.length + 2
    if axis = -1 ∨ axis = 0 ∨ axis = rank - 1 then
      match resolveAxis (extra + 2) axis with
      | some a => if a = extra + 1 then some vs.flatten else none
      | none => none
    else vs.head?
  | _, _, _, _, _ => none

end Verif.Net
