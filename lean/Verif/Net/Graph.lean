import Verif.Net.Topology
import Verif.Autoregressive.Sequential

/-
Networks of layers (Keras functional models), their dependency graph
(`src/flowket/deepar/graph_analysis/dependency_graph.py`) and the sampling loop of
`FastAutoregressiveSampler` (`src/flowket/deepar/samplers/fast_autoregressive.py`).
-/
namespace Verif.Net

/-- A layer call: the layer and the earlier calls whose outputs it takes. Every layer is called once
(`assert len(layer_nodes) == 1`, dependency_graph.py:15) and has one output. -/
structure Node (K : Type) where
  layer : Layer K
  inputs : List Nat

/-- A Keras model: its layer calls in the order they were made; node 0 is the `InputLayer`. -/
abbrev Graph (K : Type) := List (Node K)

/-- Entries at several positions; `none` if one does not exist. -/
def getAll {α : Type} (acc : List α) : List Nat → Option (List α)
  | [] => some []
  | i :: is => acc[i]?.bind fun a => (getAll acc is).bind fun as => some (a :: as)

variable {K : Type} [CommSemiring K]

/-- Shapes of all tensors when the model is built; `none` if a layer call raises. -/
def stepSigs (s0 : Sig) (acc : List Sig) (n : Node K) : Option (List Sig) :=
  match n.layer with
  | .input => some (acc ++ [s0])
  | L => (getAll acc n.inputs).bind fun qs => (L.outSig qs).bind fun q => some (acc ++ [q])

/-- Building the model on an input of the given shape. -/
def Graph.sigs (g : Graph K) (s0 : Sig) : Option (List Sig) := g.foldlM (stepSigs s0) []

/-- Evaluating one more layer call. -/
def stepEval (x0 : Tensor K) (acc : List (Tensor K)) (n : Node K) : Option (List (Tensor K)) :=
  match n.layer with
  | .input => some (acc ++ [x0])
  | L => (getAll acc n.inputs).bind fun ts => (L.apply ts).bind fun t => some (acc ++ [t])

/-- Outputs of all layer calls on an input tensor. -/
def Graph.eval (g : Graph K) (x0 : Tensor K) : Option (List (Tensor K)) := g.foldlM (stepEval x0) []

/-- The network input with its added channel axis (dependency_graph.py:53-54). -/
def inputTensor (s0 : Shape) (x : Loc → K) : Tensor K := ⟨s0, 1, fun l => [x l]⟩

/-- `GraphNode` (data_structures.py:3) without the output index. -/
abbrev Cell := Nat × Loc

/-- Concatenation of the lists computed for all elements; `none` if one raises. -/
def collect {α β : Type} (f : α → Option (List β)) : List α → Option (List β)
  | [] => some []
  | a :: as => (f a).bind fun r => (collect f as).bind fun rs => some (r ++ rs)

/-- `inbound_layers` of a layer call. -/
def Graph.inputs (g : Graph K) (k : Nat) : List Nat :=
  match g[k]? with
  | some n => n.inputs
  | none => []

/-- `visit_layer_predecessors` (dependency_graph.py:10-25): the layers on which the visitor is called, in
order, added to those already visited. The first argument bounds the recursion depth; `k + 1` is
enough for layer `k`, because inputs come earlier. -/
def Graph.visit (g : Graph K) : Nat → Nat → List Nat → List Nat
  | 0, _, vis => vis
  | f + 1, k, vis => (g.inputs k).foldl (fun v i => if i ∈ v then v else g.visit f i v) (vis ++ [k])

/-- Edges into all cells of a layer: `_dependency_graph_visitor`, `_add_inbound_layers_dependencies` and
`_add_spatial_location_dependencies` (dependency_graph.py:59-80). -/
def Graph.layerEdges (g : Graph K) (sigs : List Sig) (k : Nat) : Option (List (Cell × Cell)) :=
  match g[k]? with
  | none => none
  | some n =>
    if n.inputs = [] then some []
    else
      (getAll sigs n.inputs).bind fun qs => (sigs[k]?).bind fun q =>
        collect (fun l => (n.layer.depsKw qs l).bind fun ds =>
          some (ds.map fun d => ((n.inputs.getD d.1 0, d.2), (k, l)))) (Verif.Ordering.raster q.1)

/-- `DependencyGraph.__init__`: the edges of the dependency graph of the model with output layer `out`,
including `_add_sampling_probabilities_dependencies` (dependency_graph.py:82-94). -/
def Graph.edges (g : Graph K) (sigs : List Sig) (out : Nat) : Option (List (Cell × Cell)) :=
  (collect (g.layerEdges sigs) (g.visit (out + 1) out [])).bind fun es => (sigs[out]?).bind fun q =>
    some (es ++ (Verif.Ordering.raster q.1).map fun l => ((out, l), (0, l)))

/-- What `networkx.topological_sort` yields when it does not raise: every node of the graph once, the
source of each edge before its target. -/
def IsTopological (es : List (Cell × Cell)) (order : List Cell) : Prop :=
  order.Nodup ∧ (∀ c, c ∈ order ↔ ∃ e ∈ es, c = e.1 ∨ c = e.2) ∧
  ∀ e ∈ es, Verif.Autoregressive.Before order e.1 e.2

/-- The iteration of `_build_sampling_function` for one cell (fast_autoregressive.py:65-74) applied to the
activation arrays. `draw l v` is the value that the sampling topology of the input layer produces at
site `l` from the conditional log probabilities `v` with the random numbers of that site
(sampling_topology.py:13-23). -/
def Graph.cellValue (g : Graph K) (sigs : List Sig) (out : Nat) (draw : Loc → List K → K)
    (act : Cell → List K) (c : Cell) : Option (List K) :=
  match g[c.1]? with
  | none => none
  | some n =>
    match n.layer with
    | .input => some [draw c.2 (act (out, c.2))]
    | L =>
      (getAll sigs n.inputs).bind fun qs => (sigs[c.1]?).bind fun q => (L.depsKw qs c.2).bind fun ds =>
        L.applySingle 0 qs q.2 c.2 (ds.map fun d => act (n.inputs.getD d.1 0, d.2))

/-- Assigning computed values to cells one after the other; stops when a value cannot be computed. -/
def runAll {ι α : Type} [DecidableEq ι] (d : (ι → α) → ι → Option α) : List ι → (ι → α) → Option (ι → α)
  | [], a => some a
  | c :: cs, a => (d a c).bind fun v => runAll d cs (Function.update a c v)

/-- `_build_sampling_function` (fast_autoregressive.py:63-76) with the sampling order chosen by networkx:
the activation arrays at the end, starting from zeros. -/
def Graph.fastSample (g : Graph K) (sigs : List Sig) (out : Nat) (order : List Cell) (draw : Loc → List K → K) :
    Option (Cell → List K) :=
  runAll (g.cellValue sigs out draw) order fun c =>
    match sigs[c.1]? with
    | some q => List.replicate q.2 0
    | none => []

/-- `_extract_the_sample` (fast_autoregressive.py:58-61). -/
def sampleOf (act : Cell → List K) (l : Loc) : K := (act (0, l)).headD 0

/-- What forcing `networkx.topological_sort` gives: some topological order, or `NetworkXUnfeasible`
(`none`) if there is none. -/
def ForcedSort (es : List (Cell × Cell)) : Option (List Cell) → Prop
  | some order => IsTopological es order
  | none => ¬ ∃ order, IsTopological es order

/-- `FastAutoregressiveSampler(model, ...)` (fast_autoregressive.py:16-23): building the dependency graph,
forcing the sort with `list` (line 64, result `r`), and running through the order. `none` if it raises;
else the activations of a run with the given draws. -/
def Graph.fastSampler (g : Graph K) (sigs : List Sig) (out : Nat) (r : Option (List Cell)) (draw : Loc → List K → K) :
    Option (Cell → List K) :=
  (g.edges sigs out).bind fun _ => r.bind fun order => g.fastSample sigs out order draw

/-- `assert_valid_probabilistic_model` (dependency_graph.py:28-32): builds the dependency graph and calls
`networkx.topological_sort`, a generator function, whose result (`r` if it were forced) is dropped
without being iterated. `none` if it raises. -/
def Graph.assertValid (g : Graph K) (sigs : List Sig) (out : Nat) (_r : Option (List Cell)) : Option Unit :=
  (g.edges sigs out).bind fun _ => some ()

end Verif.Net
