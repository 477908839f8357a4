import Verif.Net.FastSamplerProps
import Mathlib.Tactic.Ring
import Mathlib.Tactic.NormNum

/-!
# C105: the registry of layer topologies and what importing packages does to it

Model of `src/flowket/deepar/graph_analysis/topology_manager.py`, the registrations at the bottom of the
modules that define topologies, and the `import` statements that run them.
-/
set_option linter.unusedSimpArgs false

namespace Verif.Net.Registry

open Verif.Autoregressive (plusMinusOneToOneHot toOneHot oneHot)

/-! ### Model -/

/-- The layer classes that some module of the package registers, and the other classes of a user
(`custom`). -/
inductive LayerClass
  | input | activation | add | casting | lambdaOneToOne | subtract | multiply | average | maximum | minimum
  | leakyReLU | elu | thresholdedReLU | softmax | layerNormalization | normalizeInLogSpace
  | plusMinusOneToOneHot | toOneHot | expandInputDim
  | conv1D | conv2D | conv3D | zeroPadding1D | zeroPadding2D | zeroPadding3D | periodicPadding
  | downShift | rightShift | concatenate | reshape | gather
  | vectorToComplexNumber | complexConv1D | complexConv2D | complexConv3D
  | custom (n : Nat)
  deriving DecidableEq

/-- The topology classes of the package, and those of a user. -/
inductive TopologyClass
  | categorialSampling | plusMinusOneSampling | oneToOne | oneToOneWithIdentity | oneHotWithIdentity
  | convolutional | padding | periodicPadding | downShift | rightShift | concatenate | reshape | gather
  | custom (n : Nat)
  deriving DecidableEq

/-- The modules that take part: `flowket.deepar.graph_analysis`, `flowket.deepar.samplers`,
`flowket.layers.complex.casting`, `flowket.layers.complex.conv`, `flowket.layers`, `flowket.machines`,
`flowket.samplers.fast_autoregressive` and `flowket.samplers`. -/
inductive Module
  | graphAnalysis | deeparSamplers | complexCasting | complexConv | layers | machines | fastAutoregressive | samplers
  deriving DecidableEq

/-- A Python process: `sys.modules`, and the dictionary of the only `TopologyManager` object
(deepar/utils/singleton.py:4-7, topology_manager.py:10-12). -/
structure Process where
  loaded : Module → Bool
  table : LayerClass → Option TopologyClass

/-- A fresh interpreter. -/
def Process.start : Process := ⟨fun _ => false, fun _ => none⟩

/-- `register_layer_topology` (topology_manager.py:14-15). -/
def Process.register (p : Process) (c : LayerClass) (t : TopologyClass) : Process :=
  { p with table := Function.update p.table c (some t) }

/-- A list of registrations, from first to last. -/
def Process.registerAll (p : Process) (l : List (LayerClass × TopologyClass)) : Process :=
  l.foldl (fun p e => p.register e.1 e.2) p

/-- The registrations run by `flowket/deepar/graph_analysis/__init__.py:1-12`, in the order of its imports:
concatenate_topology.py:43, convolutional_topology.py:44-46, gathering_topology.py:32,
masking_topology.py:39-40, one_to_one_topology.py:63-80, padding_topology.py:54-57, reshape_topology.py:53,
sampling_topology.py:26. -/
def graphAnalysisTable : List (LayerClass × TopologyClass) :=
  [(.concatenate, .concatenate),
   (.conv1D, .convolutional), (.conv2D, .convolutional), (.conv3D, .convolutional),
   (.gather, .gather),
   (.downShift, .downShift), (.rightShift, .rightShift),
   (.activation, .oneToOne), (.add, .oneToOne), (.casting, .oneToOne), (.lambdaOneToOne, .oneToOne),
   (.subtract, .oneToOne), (.multiply, .oneToOne), (.average, .oneToOne), (.maximum, .oneToOne),
   (.minimum, .oneToOne), (.leakyReLU, .oneToOne), (.elu, .oneToOne), (.thresholdedReLU, .oneToOne),
   (.softmax, .oneToOne), (.layerNormalization, .oneToOne), (.normalizeInLogSpace, .oneToOne),
   (.plusMinusOneToOneHot, .oneHotWithIdentity), (.toOneHot, .oneHotWithIdentity),
   (.expandInputDim, .oneToOneWithIdentity),
   (.zeroPadding1D, .padding), (.zeroPadding2D, .padding), (.zeroPadding3D, .padding),
   (.periodicPadding, .periodicPadding),
   (.reshape, .reshape),
   (.input, .categorialSampling)]

/-- Python's `import`: a module that is in `sys.modules` is not run again; otherwise it is entered there
and its body is run. -/
def Process.once (p : Process) (m : Module) (body : Process → Process) : Process :=
  if p.loaded m then p else body { p with loaded := Function.update p.loaded m true }

/-- `import flowket.deepar.graph_analysis` (or of any of its modules, which runs the package first). The
modules it needs (`deepar.layers`, `deepar.utils`) register nothing. -/
def importGraphAnalysis (p : Process) : Process := p.once .graphAnalysis fun p => p.registerAll graphAnalysisTable

/-- `flowket/layers/complex/casting.py:4,35`. -/
def importComplexCasting (p : Process) : Process :=
  p.once .complexCasting fun p => (importGraphAnalysis p).register .vectorToComplexNumber .oneToOne

/-- `flowket/layers/complex/conv.py:8,140-142`. -/
def importComplexConv (p : Process) : Process :=
  p.once .complexConv fun p => (importGraphAnalysis p).registerAll
    [(.complexConv1D, .convolutional), (.complexConv2D, .convolutional), (.complexConv3D, .convolutional)]

/-- `flowket/layers/__init__.py:1-8`. -/
def importLayers (p : Process) : Process := p.once .layers fun p => importComplexConv (importComplexCasting p)

/-- `flowket/machines/__init__.py:1-6` with `abstract_machine.py:7-10`. -/
def importMachines (p : Process) : Process := p.once .machines fun p => importGraphAnalysis (importLayers p)

/-- `flowket/deepar/samplers/__init__.py:1-4` with `deepar/samplers/fast_autoregressive.py:9-10`. -/
def importDeeparSamplers (p : Process) : Process := p.once .deeparSamplers fun p => importGraphAnalysis p

/-- `flowket/samplers/fast_autoregressive/__init__.py:3-8`. -/
def importFastAutoregressive (p : Process) : Process :=
  p.once .fastAutoregressive fun p =>
    (importGraphAnalysis (importDeeparSamplers p)).register .input .plusMinusOneSampling

/-- `flowket/samplers/__init__.py:1-5`. -/
def importSamplers (p : Process) : Process :=
  p.once .samplers fun p => importFastAutoregressive (importDeeparSamplers p)

/-- The import statement for each module. The package `flowket.samplers` is run before its module
`fast_autoregressive`, the package `flowket.layers` before its modules. -/
def importModule : Module → Process → Process
  | .graphAnalysis, p => importGraphAnalysis p
  | .deeparSamplers, p => importDeeparSamplers p
  | .complexCasting, p => importComplexCasting (importLayers p)
  | .complexConv, p => importComplexConv (importLayers p)
  | .layers, p => importLayers p
  | .machines, p => importMachines p
  | .fastAutoregressive, p => importFastAutoregressive (importSamplers p)
  | .samplers, p => importSamplers p

/-- What a user program does to the registry: import a module, or register a topology for a class. -/
inductive Event
  | imports (m : Module)
  | registers (c : LayerClass) (t : TopologyClass)

/-- One event. -/
def Event.step (p : Process) : Event → Process
  | .imports m => importModule m p
  | .registers c t => p.register c t

/-- The process after a history. -/
def run (h : List Event) (p : Process) : Process := h.foldl Event.step p

/-- A layer object: of a class, being itself a topology or not, or a Keras `Wrapper` around a layer. -/
inductive LayerObject
  | plain (c : LayerClass) (isTopology : Bool)
  | wrapper (inner : LayerObject)

/-- What the lookup returns: a topology of a class applied to a layer, or the layer itself. -/
inductive Found
  | ofClass (t : TopologyClass) (c : LayerClass)
  | itself (c : LayerClass)
  deriving DecidableEq

/-- `get_layer_topology` (topology_manager.py:17-27); `none` if it raises. -/
def Process.topologyOf (p : Process) : LayerObject → Option Found
  | .wrapper inner => p.topologyOf inner
  | .plain c isTopology =>
    match p.table c with
    | some t => some (.ofClass t c)
    | none => if isTopology then some (.itself c) else none

/-- `apply_layer_for_single_spatial_location` of the topologies of the input layer
(sampling_topology.py:13-16 and 20-23), as a function of the category that `tensorflow.multinomial` drew.
The topologies of other layers draw nothing. -/
def TopologyClass.drawn : TopologyClass → Nat → Option ℤ
  | .categorialSampling, k => some k
  | .plusMinusOneSampling, k => some (1 - 2 * k)
  | _, _ => none

/-- The value `FastAutoregressiveSampler` writes at a site when it is built now and category `k` is drawn
(deepar/samplers/fast_autoregressive.py:66,73-74); `none` if the lookup raises. -/
def Process.drawn (p : Process) (k : Nat) : Option ℤ :=
  match p.topologyOf (.plain .input false) with
  | some (.ofClass t _) => t.drawn k
  | _ => none

/-! ### Specification -/

/-- The class of the layer inside all wrappers. -/
def LayerObject.core : LayerObject → LayerClass
  | .plain c _ => c
  | .wrapper inner => inner.core

/-- The user registers topologies only for classes of their own. -/
def OwnOnly (h : List Event) : Prop := ∀ c t, Event.registers c t ∈ h → ∃ n, c = .custom n

/-- Some import statement of the history names `m`. -/
def Imports (h : List Event) (m : Module) : Prop := Event.imports m ∈ h

/-- Some import statement of the history names `flowket.samplers` or a module in it. -/
def ImportsSamplers (h : List Event) : Prop := Imports h .samplers ∨ Imports h .fastAutoregressive

/-! ### Lemmas -/

theorem lookup_registerAll (p : Process) (l : List (LayerClass × TopologyClass)) (c : LayerClass) :
    (p.registerAll l).table c = ((l.reverse.find? fun e => e.1 = c).map Prod.snd).or (p.table c) := by
  induction l generalizing p with
  | nil => simp [Process.registerAll]
  | cons e rest ih =>
    have : (p.registerAll (e :: rest)) = (p.register e.1 e.2).registerAll rest := rfl
    rw [this, ih, List.reverse_cons, List.find?_append]
    cases hr : rest.reverse.find? fun e => e.1 = c with
    | some v => simp
    | none =>
      by_cases h : e.1 = c
      · subst h; simp [Process.register]
      · simp [Process.register, h, Function.update_of_ne (Ne.symm h)]

theorem loaded_registerAll (p : Process) (l : List (LayerClass × TopologyClass)) : (p.registerAll l).loaded = p.loaded := by
  induction l generalizing p with
  | nil => rfl
  | cons e rest ih => exact (ih (p.register e.1 e.2)).trans rfl

/-- The topology each class has once its module is loaded, without the input layer. -/
def official : LayerClass → Option TopologyClass
  | .input => none
  | .vectorToComplexNumber => none
  | .complexConv1D => none
  | .complexConv2D => none
  | .complexConv3D => none
  | .custom _ => none
  | c => (graphAnalysisTable.find? fun e => e.1 = c).map Prod.snd

/-- What the table holds, given which modules are loaded. -/
structure Invariant (p : Process) : Prop where
  needs_casting : p.loaded .complexCasting → p.loaded .graphAnalysis
  needs_conv : p.loaded .complexConv → p.loaded .graphAnalysis
  needs_deepar : p.loaded .deeparSamplers → p.loaded .graphAnalysis
  needs_fast : p.loaded .fastAutoregressive → p.loaded .graphAnalysis ∧ p.loaded .deeparSamplers
  needs_layers : p.loaded .layers → p.loaded .complexCasting ∧ p.loaded .complexConv
  needs_machines : p.loaded .machines → p.loaded .layers
  needs_samplers : p.loaded .samplers → p.loaded .fastAutoregressive
  basic : ∀ c, c ≠ .input → (∀ n, c ≠ .custom n) → c ≠ .vectorToComplexNumber → c ≠ .complexConv1D →
    c ≠ .complexConv2D → c ≠ .complexConv3D → p.table c = if p.loaded .graphAnalysis then official c else none
  cast : p.table .vectorToComplexNumber = if p.loaded .complexCasting then some .oneToOne else none
  conv : ∀ c, c = .complexConv1D ∨ c = .complexConv2D ∨ c = .complexConv3D →
    p.table c = if p.loaded .complexConv then some .convolutional else none
  input : p.table .input = if p.loaded .fastAutoregressive then some .plusMinusOneSampling
    else if p.loaded .graphAnalysis then some .categorialSampling else none

theorem once_of_loaded {p : Process} {m : Module} {body : Process → Process} (h : p.loaded m = true) :
    p.once m body = p := if_pos h

theorem once_of_not {p : Process} {m : Module} {body : Process → Process} (h : p.loaded m = false) :
    p.once m body = body { p with loaded := Function.update p.loaded m true } := by
  simp [Process.once, h]

theorem graphAnalysis_at (p : Process) (c : LayerClass) (hc : c ≠ .input) (hn : ∀ n, c ≠ .custom n)
    (h0 : c ≠ .vectorToComplexNumber) (h1 : c ≠ .complexConv1D) (h2 : c ≠ .complexConv2D) (h3 : c ≠ .complexConv3D) :
    (p.registerAll graphAnalysisTable).table c = official c := by
  rw [lookup_registerAll]
  cases c <;> first | rfl | (exact absurd rfl (by assumption)) | exact absurd rfl (hn _)

theorem graphAnalysis_other (p : Process) (c : LayerClass)
    (h : c = .vectorToComplexNumber ∨ c = .complexConv1D ∨ c = .complexConv2D ∨ c = .complexConv3D ∨ ∃ n, c = .custom n) :
    (p.registerAll graphAnalysisTable).table c = p.table c := by
  rw [lookup_registerAll]
  rcases h with rfl | rfl | rfl | rfl | ⟨n, rfl⟩ <;> simp [graphAnalysisTable]

theorem graphAnalysis_input (p : Process) :
    (p.registerAll graphAnalysisTable).table .input = some .categorialSampling := by
  rw [lookup_registerAll]; rfl


/-- Enter a module into `sys.modules`. -/
def Process.mark (p : Process) (m : Module) : Process := { p with loaded := Function.update p.loaded m true }

theorem mark_loaded (p : Process) (m m' : Module) : (p.mark m).loaded m' = if m' = m then true else p.loaded m' := by
  simp [Process.mark, Function.update_apply]

theorem mark_comm (p : Process) (m m' : Module) : (p.mark m).mark m' = (p.mark m').mark m := by
  by_cases h : m = m'
  · rw [h]
  · simp only [Process.mark]
    rw [Function.update_comm h]

theorem mark_registerAll (p : Process) (m : Module) (l : List (LayerClass × TopologyClass)) :
    (p.mark m).registerAll l = (p.registerAll l).mark m := by
  induction l generalizing p with
  | nil => rfl
  | cons e rest ih =>
    show ((p.mark m).register e.1 e.2).registerAll rest = ((p.register e.1 e.2).registerAll rest).mark m
    rw [← ih]
    rfl

theorem once_eq (p : Process) (m : Module) (body : Process → Process) :
    p.once m body = if p.loaded m then p else body (p.mark m) := rfl

/-- A module body commutes with entering an unrelated module. -/
theorem once_mark (m m' : Module) (hm : m' ≠ m) (body : Process → Process)
    (hb : ∀ p : Process, body (p.mark m') = (body p).mark m') (p : Process) :
    (p.mark m').once m body = (p.once m body).mark m' := by
  rw [once_eq, once_eq, mark_loaded, if_neg (Ne.symm hm)]
  cases p.loaded m with
  | true => rfl
  | false =>
    simp only [Bool.false_eq_true, if_false]
    rw [mark_comm, hb]

theorem graphAnalysis_mark (m : Module) (h : m ≠ .graphAnalysis) (p : Process) :
    importGraphAnalysis (p.mark m) = (importGraphAnalysis p).mark m :=
  once_mark _ _ h _ (fun p => mark_registerAll p m _) p

theorem casting_mark (m : Module) (h : m ≠ .graphAnalysis) (h' : m ≠ .complexCasting) (p : Process) :
    importComplexCasting (p.mark m) = (importComplexCasting p).mark m :=
  once_mark _ _ h' _ (fun p => by rw [graphAnalysis_mark m h]; rfl) p

theorem conv_mark (m : Module) (h : m ≠ .graphAnalysis) (h' : m ≠ .complexConv) (p : Process) :
    importComplexConv (p.mark m) = (importComplexConv p).mark m :=
  once_mark _ _ h' _ (fun p => by rw [graphAnalysis_mark m h, mark_registerAll]) p

theorem layers_mark (m : Module) (h : m ≠ .graphAnalysis) (h1 : m ≠ .complexCasting) (h2 : m ≠ .complexConv)
    (h3 : m ≠ .layers) (p : Process) : importLayers (p.mark m) = (importLayers p).mark m :=
  once_mark _ _ h3 _ (fun p => by rw [casting_mark m h h1, conv_mark m h h2]) p

theorem deepar_mark (m : Module) (h : m ≠ .graphAnalysis) (h1 : m ≠ .deeparSamplers) (p : Process) :
    importDeeparSamplers (p.mark m) = (importDeeparSamplers p).mark m :=
  once_mark _ _ h1 _ (fun p => by rw [graphAnalysis_mark m h]) p

theorem fast_mark (m : Module) (h : m ≠ .graphAnalysis) (h1 : m ≠ .deeparSamplers) (h2 : m ≠ .fastAutoregressive)
    (p : Process) : importFastAutoregressive (p.mark m) = (importFastAutoregressive p).mark m :=
  once_mark _ _ h2 _ (fun p => by rw [deepar_mark m h h1, graphAnalysis_mark m h]; rfl) p

theorem once_loaded {p : Process} {m : Module} {body : Process → Process} (h : p.loaded m = true) :
    p.once m body = p := if_pos h

theorem once_fresh {p : Process} {m : Module} {body : Process → Process} (h : p.loaded m = false) :
    p.once m body = body (p.mark m) := by
  rw [once_eq, h]; rfl

/-- What one import does, from a state where the invariant holds: the invariant holds again, the module is
loaded, everything that was loaded still is, and the user's own registrations are untouched. -/
structure Keeps (p q : Process) : Prop where
  inv : Invariant q
  mono : ∀ m, p.loaded m = true → q.loaded m = true
  own : ∀ n, q.table (.custom n) = p.table (.custom n)

theorem Keeps.trans {p q r : Process} (h : Keeps p q) (h' : Keeps q r) : Keeps p r :=
  ⟨h'.inv, fun m hm => h'.mono m (h.mono m hm), fun n => (h'.own n).trans (h.own n)⟩

theorem Keeps.refl {p : Process} (h : Invariant p) : Keeps p p := ⟨h, fun _ h => h, fun _ => rfl⟩

theorem graphAnalysis_keeps {p : Process} (hp : Invariant p) :
    Keeps p (importGraphAnalysis p) ∧ (importGraphAnalysis p).loaded .graphAnalysis = true ∧
      ∀ m, m ≠ .graphAnalysis → (importGraphAnalysis p).loaded m = p.loaded m := by
  cases h : p.loaded .graphAnalysis with
  | true =>
    have : importGraphAnalysis p = p := once_loaded h
    rw [this]
    exact ⟨.refl hp, h, fun _ _ => rfl⟩
  | false =>
    have heq : importGraphAnalysis p = (p.registerAll graphAnalysisTable).mark .graphAnalysis := by
      rw [← mark_registerAll]
      exact once_fresh h
    have hload : ∀ m, (importGraphAnalysis p).loaded m = if m = .graphAnalysis then true else p.loaded m := by
      intro m
      rw [heq, mark_loaded, loaded_registerAll]
    have htab : ∀ c, (importGraphAnalysis p).table c = (p.registerAll graphAnalysisTable).table c := by
      intro c; rw [heq]; rfl
    have hcast : p.loaded .complexCasting = false := by
      cases h' : p.loaded .complexCasting with
      | false => rfl
      | true => rw [hp.needs_casting h'] at h; exact absurd h (by simp)
    have hconv : p.loaded .complexConv = false := by
      cases h' : p.loaded .complexConv with
      | false => rfl
      | true => rw [hp.needs_conv h'] at h; exact absurd h (by simp)
    have hfast : p.loaded .fastAutoregressive = false := by
      cases h' : p.loaded .fastAutoregressive with
      | false => rfl
      | true => rw [(hp.needs_fast h').1] at h; exact absurd h (by simp)
    refine ⟨⟨?_, fun m hm => ?_, fun n => ?_⟩, ?_, fun m hm => ?_⟩
    · constructor
      · intro _; rw [hload]; rfl
      · intro _; rw [hload]; rfl
      · intro _; rw [hload]; rfl
      · intro h'
        simp only [hload, reduceCtorEq, if_false, if_true] at h'; rw [hfast] at h'
        exact absurd h' (by simp)
      · intro h'
        simp only [hload, reduceCtorEq, if_false, if_true] at h'
        simp only [hload, reduceCtorEq, if_false, if_true]
        exact hp.needs_layers h'
      · intro h'
        simp only [hload, reduceCtorEq, if_false, if_true] at h'
        simp only [hload, reduceCtorEq, if_false, if_true]
        exact hp.needs_machines h'
      · intro h'
        simp only [hload, reduceCtorEq, if_false, if_true] at h'
        simp only [hload, reduceCtorEq, if_false, if_true]
        exact hp.needs_samplers h'
      · intro c h0 h1 h2 h3 h4 h5
        rw [htab, graphAnalysis_at p c h0 h1 h2 h3 h4 h5, hload]
        rfl
      · rw [htab, graphAnalysis_other p _ (.inl rfl)]; simp only [hload, reduceCtorEq, if_false, if_true]
        exact hp.cast
      · intro c hc
        have : c = .vectorToComplexNumber ∨ c = .complexConv1D ∨ c = .complexConv2D ∨ c = .complexConv3D ∨ ∃ n, c = .custom n := by
          rcases hc with h | h | h
          · exact .inr (.inl h)
          · exact .inr (.inr (.inl h))
          · exact .inr (.inr (.inr (.inl h)))
        rw [htab, graphAnalysis_other p _ this]; simp only [hload, reduceCtorEq, if_false, if_true]
        exact hp.conv c hc
      · rw [htab, graphAnalysis_input]; simp only [hload, reduceCtorEq, if_false, if_true]; rw [hfast]
        rfl
    · rw [hload]; split <;> [rfl; exact hm]
    · rw [htab, graphAnalysis_other p _ (.inr (.inr (.inr (.inr ⟨n, rfl⟩))))]
    · rw [hload]; rfl
    · rw [hload, if_neg hm]

theorem casting_keeps {p : Process} (hp : Invariant p) :
    Keeps p (importComplexCasting p) ∧ (importComplexCasting p).loaded .complexCasting = true ∧
      ∀ m, m ≠ .graphAnalysis → m ≠ .complexCasting → (importComplexCasting p).loaded m = p.loaded m := by
  cases h : p.loaded .complexCasting with
  | true =>
    have : importComplexCasting p = p := once_loaded h
    rw [this]
    exact ⟨.refl hp, h, fun _ _ _ => rfl⟩
  | false =>
    obtain ⟨hk, hl, ho⟩ := graphAnalysis_keeps hp
    have heq : importComplexCasting p =
        ((importGraphAnalysis p).register .vectorToComplexNumber .oneToOne).mark .complexCasting := by
      refine (once_fresh h).trans ?_
      rw [graphAnalysis_mark _ (by decide)]
      rfl
    generalize importGraphAnalysis p = q at *
    have hload : ∀ m, (importComplexCasting p).loaded m = if m = .complexCasting then true else q.loaded m := by
      intro m
      rw [heq, mark_loaded]
      rfl
    have htab : ∀ c, (importComplexCasting p).table c = if c = .vectorToComplexNumber then some .oneToOne else q.table c := by
      intro c
      rw [heq]
      simp [Process.mark, Process.register, Function.update_apply]
    refine ⟨⟨?_, fun m hm => ?_, fun n => ?_⟩, ?_, fun m hm hm' => ?_⟩
    · constructor
      · intro _; simp only [hload, reduceCtorEq, if_false, if_true]; exact hl
      · intro _; simp only [hload, reduceCtorEq, if_false, if_true]; exact hl
      · intro _; simp only [hload, reduceCtorEq, if_false, if_true]; exact hl
      · intro h'
        simp only [hload, reduceCtorEq, if_false, if_true] at h'
        simp only [hload, reduceCtorEq, if_false, if_true]
        exact hk.inv.needs_fast h'
      · intro h'
        simp only [hload, reduceCtorEq, if_false, if_true] at h'
        simp only [hload, reduceCtorEq, if_false, if_true]
        exact ⟨trivial, (hk.inv.needs_layers h').2⟩
      · intro h'
        simp only [hload, reduceCtorEq, if_false, if_true] at h'
        simp only [hload, reduceCtorEq, if_false, if_true]
        exact hk.inv.needs_machines h'
      · intro h'
        simp only [hload, reduceCtorEq, if_false, if_true] at h'
        simp only [hload, reduceCtorEq, if_false, if_true]
        exact hk.inv.needs_samplers h'
      · intro c h0 h1 h2 h3 h4 h5
        rw [htab, if_neg h2]; simp only [hload, reduceCtorEq, if_false, if_true]
        exact hk.inv.basic c h0 h1 h2 h3 h4 h5
      · rw [htab, if_pos rfl, hload, if_pos rfl]; rfl
      · intro c hc
        rw [htab, if_neg (by rcases hc with rfl | rfl | rfl <;> decide)]; simp only [hload, reduceCtorEq, if_false, if_true]
        exact hk.inv.conv c hc
      · rw [htab, if_neg (by decide)]; simp only [hload, reduceCtorEq, if_false, if_true]
        exact hk.inv.input
    · rw [hload]; split <;> [rfl; exact hk.mono m hm]
    · rw [htab, if_neg (by simp)]; exact hk.own n
    · rw [hload]; rfl
    · rw [hload, if_neg hm']; exact ho m hm

theorem conv_keeps {p : Process} (hp : Invariant p) :
    Keeps p (importComplexConv p) ∧ (importComplexConv p).loaded .complexConv = true ∧
      ∀ m, m ≠ .graphAnalysis → m ≠ .complexConv → (importComplexConv p).loaded m = p.loaded m := by
  cases h : p.loaded .complexConv with
  | true =>
    have : importComplexConv p = p := once_loaded h
    rw [this]
    exact ⟨.refl hp, h, fun _ _ _ => rfl⟩
  | false =>
    obtain ⟨hk, hl, ho⟩ := graphAnalysis_keeps hp
    have heq : importComplexConv p = ((importGraphAnalysis p).registerAll
        [(.complexConv1D, .convolutional), (.complexConv2D, .convolutional), (.complexConv3D, .convolutional)]).mark
          .complexConv := by
      refine (once_fresh h).trans ?_
      rw [graphAnalysis_mark _ (by decide), mark_registerAll]
    generalize importGraphAnalysis p = q at *
    have hload : ∀ m, (importComplexConv p).loaded m = if m = .complexConv then true else q.loaded m := by
      intro m
      rw [heq, mark_loaded]
      rfl
    have htab : ∀ c, (importComplexConv p).table c =
        if c = .complexConv1D ∨ c = .complexConv2D ∨ c = .complexConv3D then some .convolutional else q.table c := by
      intro c
      rw [heq]
      simp only [Process.mark, Process.registerAll, Process.register, List.foldl_cons, List.foldl_nil, Function.update_apply]
      split_ifs <;> tauto
    have hother : ∀ c, ¬ (c = .complexConv1D ∨ c = .complexConv2D ∨ c = .complexConv3D) →
        (importComplexConv p).table c = q.table c := fun c hc => (htab c).trans (if_neg hc)
    refine ⟨⟨?_, fun m hm => ?_, fun n => ?_⟩, ?_, fun m hm hm' => ?_⟩
    · constructor
      · intro _; simp only [hload, reduceCtorEq, if_false, if_true]; exact hl
      · intro _; simp only [hload, reduceCtorEq, if_false, if_true]; exact hl
      · intro _; simp only [hload, reduceCtorEq, if_false, if_true]; exact hl
      · intro h'
        simp only [hload, reduceCtorEq, if_false, if_true] at h'
        simp only [hload, reduceCtorEq, if_false, if_true]
        exact hk.inv.needs_fast h'
      · intro h'
        simp only [hload, reduceCtorEq, if_false, if_true] at h'
        simp only [hload, reduceCtorEq, if_false, if_true]
        exact ⟨(hk.inv.needs_layers h').1, trivial⟩
      · intro h'
        simp only [hload, reduceCtorEq, if_false, if_true] at h'
        simp only [hload, reduceCtorEq, if_false, if_true]
        exact hk.inv.needs_machines h'
      · intro h'
        simp only [hload, reduceCtorEq, if_false, if_true] at h'
        simp only [hload, reduceCtorEq, if_false, if_true]
        exact hk.inv.needs_samplers h'
      · intro c h0 h1 h2 h3 h4 h5
        rw [hother c (by tauto)]; simp only [hload, reduceCtorEq, if_false, if_true]
        exact hk.inv.basic c h0 h1 h2 h3 h4 h5
      · rw [hother _ (by decide)]; simp only [hload, reduceCtorEq, if_false, if_true]
        exact hk.inv.cast
      · intro c hc
        rw [htab, if_pos hc, hload]; rfl
      · rw [hother _ (by decide)]; simp only [hload, reduceCtorEq, if_false, if_true]
        exact hk.inv.input
    · rw [hload]; split <;> [rfl; exact hk.mono m hm]
    · rw [hother _ (by simp)]; exact hk.own n
    · rw [hload]; rfl
    · rw [hload, if_neg hm']; exact ho m hm

/-- Entering `flowket.layers` once its modules are loaded. -/
theorem layers_keeps {p : Process} (hp : Invariant p) :
    Keeps p (importLayers p) ∧ (importLayers p).loaded .layers = true ∧
      ∀ m, m ≠ .graphAnalysis → m ≠ .complexCasting → m ≠ .complexConv → m ≠ .layers →
        (importLayers p).loaded m = p.loaded m := by
  cases h : p.loaded .layers with
  | true =>
    have : importLayers p = p := once_loaded h
    rw [this]
    exact ⟨.refl hp, h, fun _ _ _ _ _ => rfl⟩
  | false =>
    obtain ⟨hk1, hl1, ho1⟩ := casting_keeps hp
    obtain ⟨hk2, hl2, ho2⟩ := conv_keeps hk1.inv
    have heq : importLayers p = (importComplexConv (importComplexCasting p)).mark .layers := by
      refine (once_fresh h).trans ?_
      rw [casting_mark _ (by decide) (by decide), conv_mark _ (by decide) (by decide)]
    have hl1' := hk2.mono _ hl1
    have hk := hk1.trans hk2
    have ho : ∀ m, m ≠ .graphAnalysis → m ≠ .complexCasting → m ≠ .complexConv →
        (importComplexConv (importComplexCasting p)).loaded m = p.loaded m := fun m a b c =>
      (ho2 m a c).trans (ho1 m a b)
    generalize importComplexConv (importComplexCasting p) = q at *
    have hload : ∀ m, (importLayers p).loaded m = if m = .layers then true else q.loaded m := by
      intro m
      rw [heq, mark_loaded]
    have htab : (importLayers p).table = q.table := by rw [heq]; rfl
    refine ⟨⟨?_, fun m hm => ?_, fun n => ?_⟩, ?_, fun m a b c d => ?_⟩
    · constructor
      · simp only [hload, reduceCtorEq, if_false, if_true]; exact hk.inv.needs_casting
      · simp only [hload, reduceCtorEq, if_false, if_true]; exact hk.inv.needs_conv
      · simp only [hload, reduceCtorEq, if_false, if_true]; exact hk.inv.needs_deepar
      · simp only [hload, reduceCtorEq, if_false, if_true]; exact hk.inv.needs_fast
      · intro _
        simp only [hload, reduceCtorEq, if_false, if_true]
        exact ⟨hl1', hl2⟩
      · intro _; rw [hload]; rfl
      · simp only [hload, reduceCtorEq, if_false, if_true]; exact hk.inv.needs_samplers
      · rw [htab]; simp only [hload, reduceCtorEq, if_false, if_true]; exact hk.inv.basic
      · rw [htab]; simp only [hload, reduceCtorEq, if_false, if_true]; exact hk.inv.cast
      · rw [htab]; simp only [hload, reduceCtorEq, if_false, if_true]; exact hk.inv.conv
      · rw [htab]; simp only [hload, reduceCtorEq, if_false, if_true]; exact hk.inv.input
    · rw [hload]; split <;> [rfl; exact hk.mono m hm]
    · rw [htab]; exact hk.own n
    · rw [hload]; rfl
    · rw [hload, if_neg d]; exact ho m a b c

theorem machines_keeps {p : Process} (hp : Invariant p) :
    Keeps p (importMachines p) ∧ (importMachines p).loaded .graphAnalysis = true ∧
      (importMachines p).loaded .layers = true ∧ (importMachines p).loaded .fastAutoregressive = p.loaded .fastAutoregressive := by
  cases h : p.loaded .machines with
  | true =>
    have : importMachines p = p := once_loaded h
    rw [this]
    exact ⟨.refl hp, hp.needs_casting (hp.needs_layers (hp.needs_machines h)).1, hp.needs_machines h, rfl⟩
  | false =>
    obtain ⟨hk1, hl1, ho1⟩ := layers_keeps hp
    obtain ⟨hk2, hl2, ho2⟩ := graphAnalysis_keeps hk1.inv
    have heq : importMachines p = (importGraphAnalysis (importLayers p)).mark .machines := by
      refine (once_fresh h).trans ?_
      rw [layers_mark _ (by decide) (by decide) (by decide) (by decide), graphAnalysis_mark _ (by decide)]
    have hl1' := hk2.mono _ hl1
    have hk := hk1.trans hk2
    have ho : (importGraphAnalysis (importLayers p)).loaded .fastAutoregressive = p.loaded .fastAutoregressive :=
      (ho2 _ (by decide)).trans (ho1 _ (by decide) (by decide) (by decide) (by decide))
    generalize importGraphAnalysis (importLayers p) = q at *
    have hload : ∀ m, (importMachines p).loaded m = if m = .machines then true else q.loaded m := by
      intro m
      rw [heq, mark_loaded]
    have htab : (importMachines p).table = q.table := by rw [heq]; rfl
    refine ⟨⟨?_, fun m hm => ?_, fun n => ?_⟩, ?_, ?_, ?_⟩
    · constructor
      · simp only [hload, reduceCtorEq, if_false, if_true]; exact hk.inv.needs_casting
      · simp only [hload, reduceCtorEq, if_false, if_true]; exact hk.inv.needs_conv
      · simp only [hload, reduceCtorEq, if_false, if_true]; exact hk.inv.needs_deepar
      · simp only [hload, reduceCtorEq, if_false, if_true]; exact hk.inv.needs_fast
      · simp only [hload, reduceCtorEq, if_false, if_true]; exact hk.inv.needs_layers
      · intro _
        simp only [hload, reduceCtorEq, if_false, if_true]
        exact hl1'
      · simp only [hload, reduceCtorEq, if_false, if_true]; exact hk.inv.needs_samplers
      · rw [htab]; simp only [hload, reduceCtorEq, if_false, if_true]; exact hk.inv.basic
      · rw [htab]; simp only [hload, reduceCtorEq, if_false, if_true]; exact hk.inv.cast
      · rw [htab]; simp only [hload, reduceCtorEq, if_false, if_true]; exact hk.inv.conv
      · rw [htab]; simp only [hload, reduceCtorEq, if_false, if_true]; exact hk.inv.input
    · rw [hload]; split <;> [rfl; exact hk.mono m hm]
    · rw [htab]; exact hk.own n
    · simp only [hload, reduceCtorEq, if_false, if_true]; exact hl2
    · rw [hload, if_neg (by decide)]; exact hl1'
    · simp only [hload, reduceCtorEq, if_false, if_true]; exact ho

theorem deepar_keeps {p : Process} (hp : Invariant p) :
    Keeps p (importDeeparSamplers p) ∧ (importDeeparSamplers p).loaded .deeparSamplers = true ∧
      ∀ m, m ≠ .graphAnalysis → m ≠ .deeparSamplers → (importDeeparSamplers p).loaded m = p.loaded m := by
  cases h : p.loaded .deeparSamplers with
  | true =>
    have : importDeeparSamplers p = p := once_loaded h
    rw [this]
    exact ⟨.refl hp, h, fun _ _ _ => rfl⟩
  | false =>
    obtain ⟨hk, hl, ho⟩ := graphAnalysis_keeps hp
    have heq : importDeeparSamplers p = (importGraphAnalysis p).mark .deeparSamplers := by
      refine (once_fresh h).trans ?_
      rw [graphAnalysis_mark _ (by decide)]
    generalize importGraphAnalysis p = q at *
    have hload : ∀ m, (importDeeparSamplers p).loaded m = if m = .deeparSamplers then true else q.loaded m := by
      intro m
      rw [heq, mark_loaded]
    have htab : (importDeeparSamplers p).table = q.table := by rw [heq]; rfl
    refine ⟨⟨?_, fun m hm => ?_, fun n => ?_⟩, ?_, fun m a b => ?_⟩
    · constructor
      · simp only [hload, reduceCtorEq, if_false, if_true]; exact hk.inv.needs_casting
      · simp only [hload, reduceCtorEq, if_false, if_true]; exact hk.inv.needs_conv
      · intro _; simp only [hload, reduceCtorEq, if_false, if_true]; exact hl
      · intro _
        simp only [hload, reduceCtorEq, if_false, if_true]
        exact ⟨hl, trivial⟩
      · simp only [hload, reduceCtorEq, if_false, if_true]; exact hk.inv.needs_layers
      · simp only [hload, reduceCtorEq, if_false, if_true]; exact hk.inv.needs_machines
      · simp only [hload, reduceCtorEq, if_false, if_true]; exact hk.inv.needs_samplers
      · rw [htab]; simp only [hload, reduceCtorEq, if_false, if_true]; exact hk.inv.basic
      · rw [htab]; simp only [hload, reduceCtorEq, if_false, if_true]; exact hk.inv.cast
      · rw [htab]; simp only [hload, reduceCtorEq, if_false, if_true]; exact hk.inv.conv
      · rw [htab]; simp only [hload, reduceCtorEq, if_false, if_true]; exact hk.inv.input
    · rw [hload]; split <;> [rfl; exact hk.mono m hm]
    · rw [htab]; exact hk.own n
    · rw [hload]; rfl
    · rw [hload, if_neg b]; exact ho m a

theorem fast_keeps {p : Process} (hp : Invariant p) :
    Keeps p (importFastAutoregressive p) ∧ (importFastAutoregressive p).loaded .fastAutoregressive = true ∧
      ∀ m, m ≠ .graphAnalysis → m ≠ .deeparSamplers → m ≠ .fastAutoregressive →
        (importFastAutoregressive p).loaded m = p.loaded m := by
  cases h : p.loaded .fastAutoregressive with
  | true =>
    have : importFastAutoregressive p = p := once_loaded h
    rw [this]
    exact ⟨.refl hp, h, fun _ _ _ _ => rfl⟩
  | false =>
    obtain ⟨hk1, hl1, ho1⟩ := deepar_keeps hp
    obtain ⟨hk2, hl2, ho2⟩ := graphAnalysis_keeps hk1.inv
    have heq : importFastAutoregressive p =
        ((importGraphAnalysis (importDeeparSamplers p)).register .input .plusMinusOneSampling).mark .fastAutoregressive := by
      refine (once_fresh h).trans ?_
      rw [deepar_mark _ (by decide) (by decide), graphAnalysis_mark _ (by decide)]
      rfl
    have hl1' := hk2.mono _ hl1
    have hk := hk1.trans hk2
    have ho : ∀ m, m ≠ .graphAnalysis → m ≠ .deeparSamplers →
        (importGraphAnalysis (importDeeparSamplers p)).loaded m = p.loaded m := fun m a b =>
      (ho2 m a).trans (ho1 m a b)
    generalize importGraphAnalysis (importDeeparSamplers p) = q at *
    have hload : ∀ m, (importFastAutoregressive p).loaded m = if m = .fastAutoregressive then true else q.loaded m := by
      intro m
      rw [heq, mark_loaded]
      rfl
    have htab : ∀ c, (importFastAutoregressive p).table c = if c = .input then some .plusMinusOneSampling else q.table c := by
      intro c
      rw [heq]
      simp [Process.mark, Process.register, Function.update_apply]
    refine ⟨⟨?_, fun m hm => ?_, fun n => ?_⟩, ?_, fun m a b c => ?_⟩
    · constructor
      · simp only [hload, reduceCtorEq, if_false, if_true]; exact hk.inv.needs_casting
      · simp only [hload, reduceCtorEq, if_false, if_true]; exact hk.inv.needs_conv
      · simp only [hload, reduceCtorEq, if_false, if_true]; exact hk.inv.needs_deepar
      · intro _
        simp only [hload, reduceCtorEq, if_false, if_true]
        exact ⟨hl2, hl1'⟩
      · simp only [hload, reduceCtorEq, if_false, if_true]; exact hk.inv.needs_layers
      · simp only [hload, reduceCtorEq, if_false, if_true]; exact hk.inv.needs_machines
      · intro _; rw [hload]; rfl
      · intro c h0
        rw [htab, if_neg h0]; simp only [hload, reduceCtorEq, if_false, if_true]
        exact hk.inv.basic c h0
      · rw [htab, if_neg (by decide)]; simp only [hload, reduceCtorEq, if_false, if_true]; exact hk.inv.cast
      · intro c hc
        rw [htab, if_neg (by rcases hc with rfl | rfl | rfl <;> decide)]; simp only [hload, reduceCtorEq, if_false, if_true]
        exact hk.inv.conv c hc
      · rw [htab, if_pos rfl, hload, if_pos rfl]; rfl
    · rw [hload]; split <;> [rfl; exact hk.mono m hm]
    · rw [htab, if_neg (by simp)]; exact hk.own n
    · rw [hload]; rfl
    · rw [hload, if_neg c]; exact ho m a b

theorem samplers_keeps {p : Process} (hp : Invariant p) :
    Keeps p (importSamplers p) ∧ (importSamplers p).loaded .fastAutoregressive = true ∧
      (importSamplers p).loaded .samplers = true ∧
      ∀ m, m ≠ .graphAnalysis → m ≠ .deeparSamplers → m ≠ .fastAutoregressive → m ≠ .samplers →
        (importSamplers p).loaded m = p.loaded m := by
  cases h : p.loaded .samplers with
  | true =>
    have : importSamplers p = p := once_loaded h
    rw [this]
    exact ⟨.refl hp, hp.needs_samplers h, h, fun _ _ _ _ _ => rfl⟩
  | false =>
    obtain ⟨hk1, -, ho1⟩ := deepar_keeps hp
    obtain ⟨hk2, hl2, ho2⟩ := fast_keeps hk1.inv
    have heq : importSamplers p = (importFastAutoregressive (importDeeparSamplers p)).mark .samplers := by
      refine (once_fresh h).trans ?_
      rw [deepar_mark _ (by decide) (by decide), fast_mark _ (by decide) (by decide) (by decide)]
    have hk := hk1.trans hk2
    have ho : ∀ m, m ≠ .graphAnalysis → m ≠ .deeparSamplers → m ≠ .fastAutoregressive →
        (importFastAutoregressive (importDeeparSamplers p)).loaded m = p.loaded m := fun m a b c =>
      (ho2 m a b c).trans (ho1 m a b)
    generalize importFastAutoregressive (importDeeparSamplers p) = q at *
    have hload : ∀ m, (importSamplers p).loaded m = if m = .samplers then true else q.loaded m := by
      intro m
      rw [heq, mark_loaded]
    have htab : (importSamplers p).table = q.table := by rw [heq]; rfl
    refine ⟨⟨?_, fun m hm => ?_, fun n => ?_⟩, ?_, ?_, fun m a b c d => ?_⟩
    · constructor
      · simp only [hload, reduceCtorEq, if_false, if_true]; exact hk.inv.needs_casting
      · simp only [hload, reduceCtorEq, if_false, if_true]; exact hk.inv.needs_conv
      · simp only [hload, reduceCtorEq, if_false, if_true]; exact hk.inv.needs_deepar
      · simp only [hload, reduceCtorEq, if_false, if_true]; exact hk.inv.needs_fast
      · simp only [hload, reduceCtorEq, if_false, if_true]; exact hk.inv.needs_layers
      · simp only [hload, reduceCtorEq, if_false, if_true]; exact hk.inv.needs_machines
      · intro _; simp only [hload, reduceCtorEq, if_false, if_true]; exact hl2
      · rw [htab]; simp only [hload, reduceCtorEq, if_false, if_true]; exact hk.inv.basic
      · rw [htab]; simp only [hload, reduceCtorEq, if_false, if_true]; exact hk.inv.cast
      · rw [htab]; simp only [hload, reduceCtorEq, if_false, if_true]; exact hk.inv.conv
      · rw [htab]; simp only [hload, reduceCtorEq, if_false, if_true]; exact hk.inv.input
    · rw [hload]; split <;> [rfl; exact hk.mono m hm]
    · rw [htab]; exact hk.own n
    · simp only [hload, reduceCtorEq, if_false, if_true]; exact hl2
    · rw [hload]; rfl
    · rw [hload, if_neg d]; exact ho m a b c

/-- The modules whose import brings in the complex layers. -/
def isComplex : Module → Bool
  | .complexCasting | .complexConv | .layers | .machines => true
  | _ => false

/-- The modules whose import brings in the sampling of spins. -/
def isSampling : Module → Bool
  | .fastAutoregressive | .samplers => true
  | _ => false

theorem import_effect {p : Process} (hp : Invariant p) (m : Module) :
    Keeps p (importModule m p) ∧ (importModule m p).loaded .graphAnalysis = true ∧
      (importModule m p).loaded .fastAutoregressive = (p.loaded .fastAutoregressive || isSampling m) ∧
      (importModule m p).loaded .complexCasting = (p.loaded .complexCasting || isComplex m) ∧
      (importModule m p).loaded .complexConv = (p.loaded .complexConv || isComplex m) := by
  have viaLayers : ∀ q : Process, Keeps p q → q.loaded .layers = true →
      q.loaded .fastAutoregressive = p.loaded .fastAutoregressive → isComplex m = true → isSampling m = false →
      Keeps p q ∧ q.loaded .graphAnalysis = true ∧
      q.loaded .fastAutoregressive = (p.loaded .fastAutoregressive || isSampling m) ∧
      q.loaded .complexCasting = (p.loaded .complexCasting || isComplex m) ∧
      q.loaded .complexConv = (p.loaded .complexConv || isComplex m) := by
    intro q hk hl hf h1 h2
    obtain ⟨a, b⟩ := hk.inv.needs_layers hl
    rw [h1, h2, Bool.or_true, Bool.or_true, Bool.or_false]
    exact ⟨hk, hk.inv.needs_casting a, hf, a, b⟩
  cases m with
  | graphAnalysis =>
    obtain ⟨hk, hl, ho⟩ := graphAnalysis_keeps hp
    refine ⟨hk, hl, ?_, ?_, ?_⟩ <;> simp only [isSampling, isComplex, Bool.or_false] <;> exact ho _ (by decide)
  | deeparSamplers =>
    obtain ⟨hk, hl, ho⟩ := deepar_keeps hp
    refine ⟨hk, hk.inv.needs_deepar hl, ?_, ?_, ?_⟩ <;> simp only [isSampling, isComplex, Bool.or_false] <;>
      exact ho _ (by decide) (by decide)
  | complexCasting =>
    obtain ⟨hk1, hl1, ho1⟩ := layers_keeps hp
    obtain ⟨hk2, -, ho2⟩ := casting_keeps hk1.inv
    exact viaLayers _ (hk1.trans hk2) (hk2.mono _ hl1) ((ho2 _ (by decide) (by decide)).trans
      (ho1 _ (by decide) (by decide) (by decide) (by decide))) rfl rfl
  | complexConv =>
    obtain ⟨hk1, hl1, ho1⟩ := layers_keeps hp
    obtain ⟨hk2, -, ho2⟩ := conv_keeps hk1.inv
    exact viaLayers _ (hk1.trans hk2) (hk2.mono _ hl1) ((ho2 _ (by decide) (by decide)).trans
      (ho1 _ (by decide) (by decide) (by decide) (by decide))) rfl rfl
  | layers =>
    obtain ⟨hk, hl, ho⟩ := layers_keeps hp
    exact viaLayers _ hk hl (ho _ (by decide) (by decide) (by decide) (by decide)) rfl rfl
  | machines =>
    obtain ⟨hk, -, hl, ho⟩ := machines_keeps hp
    exact viaLayers _ hk hl ho rfl rfl
  | fastAutoregressive =>
    obtain ⟨hk1, hl1, -, ho1⟩ := samplers_keeps hp
    obtain ⟨hk2, hl2, ho2⟩ := fast_keeps hk1.inv
    refine ⟨hk1.trans hk2, (hk2.inv.needs_fast hl2).1, ?_, ?_, ?_⟩
    · simp only [isSampling, Bool.or_true]; exact hl2
    · simp only [isComplex, Bool.or_false]
      exact (ho2 _ (by decide) (by decide) (by decide)).trans (ho1 _ (by decide) (by decide) (by decide) (by decide))
    · simp only [isComplex, Bool.or_false]
      exact (ho2 _ (by decide) (by decide) (by decide)).trans (ho1 _ (by decide) (by decide) (by decide) (by decide))
  | samplers =>
    obtain ⟨hk, hl, -, ho⟩ := samplers_keeps hp
    refine ⟨hk, (hk.inv.needs_fast hl).1, ?_, ?_, ?_⟩
    · simp only [isSampling, Bool.or_true]; exact hl
    · simp only [isComplex, Bool.or_false]
      exact ho _ (by decide) (by decide) (by decide) (by decide)
    · simp only [isComplex, Bool.or_false]
      exact ho _ (by decide) (by decide) (by decide) (by decide)

/-- The user's own registrations do not touch the rest. -/
theorem register_own {p : Process} (hp : Invariant p) (n : Nat) (t : TopologyClass) :
    Invariant (p.register (.custom n) t) := by
  have htab : ∀ c, (∀ n, c ≠ .custom n) → (p.register (.custom n) t).table c = p.table c := fun c hc =>
    Function.update_of_ne (hc n) _ _
  constructor
  · exact hp.needs_casting
  · exact hp.needs_conv
  · exact hp.needs_deepar
  · exact hp.needs_fast
  · exact hp.needs_layers
  · exact hp.needs_machines
  · exact hp.needs_samplers
  · intro c h0 h1
    rw [htab c h1]
    exact hp.basic c h0 h1
  · rw [htab _ (by simp)]; exact hp.cast
  · intro c hc
    rw [htab _ (by rcases hc with rfl | rfl | rfl <;> simp)]
    exact hp.conv c hc
  · rw [htab _ (by simp)]; exact hp.input

theorem start_invariant : Invariant .start := by
  constructor <;> simp [Process.start]

/-- What a history does: a module counts as loaded if it was before or some statement asks for it. -/
theorem run_effect {p : Process} (hp : Invariant p) (h : List Event) (ho : OwnOnly h) :
    Invariant (run h p) ∧
      ((run h p).loaded .graphAnalysis = true ↔ p.loaded .graphAnalysis = true ∨ ∃ m, Imports h m) ∧
      ((run h p).loaded .fastAutoregressive = true ↔
        p.loaded .fastAutoregressive = true ∨ ∃ m, Imports h m ∧ isSampling m = true) ∧
      ((run h p).loaded .complexCasting = true ↔
        p.loaded .complexCasting = true ∨ ∃ m, Imports h m ∧ isComplex m = true) ∧
      ((run h p).loaded .complexConv = true ↔
        p.loaded .complexConv = true ∨ ∃ m, Imports h m ∧ isComplex m = true) := by
  induction h generalizing p with
  | nil => simp [run, Imports, hp]
  | cons e rest ih =>
    have ho' : OwnOnly rest := fun c t hc => ho c t (List.mem_cons_of_mem _ hc)
    cases e with
    | imports m =>
      obtain ⟨hk, a, b, c, d⟩ := import_effect hp m
      obtain ⟨h1, h2, h3, h4, h5⟩ := ih hk.inv ho'
      have hcons : ∀ m', Imports (.imports m :: rest) m' ↔ m' = m ∨ Imports rest m' := by
        intro m'
        simp [Imports]
      refine ⟨h1, h2.trans ?_, h3.trans ?_, h4.trans ?_, h5.trans ?_⟩
      · simp [a, hcons, exists_or]
      · rw [b, Bool.or_eq_true, or_assoc]
        simp only [hcons, or_and_right, exists_or, exists_eq_left]
      · rw [c, Bool.or_eq_true, or_assoc]
        simp only [hcons, or_and_right, exists_or, exists_eq_left]
      · rw [d, Bool.or_eq_true, or_assoc]
        simp only [hcons, or_and_right, exists_or, exists_eq_left]
    | registers c t =>
      obtain ⟨n, rfl⟩ := ho c t List.mem_cons_self
      have hcons : ∀ m', Imports (.registers (.custom n) t :: rest) m' ↔ Imports rest m' := by
        intro m'
        simp [Imports]
      simp only [hcons]
      exact ih (register_own hp n t) ho'

theorem samplers_iff (h : List Event) : (∃ m, Imports h m ∧ isSampling m = true) ↔ ImportsSamplers h := by
  constructor
  · rintro ⟨m, hm, hs⟩
    cases m <;> simp [isSampling] at hs
    · exact .inr hm
    · exact .inl hm
  · rintro (h | h)
    · exact ⟨_, h, rfl⟩
    · exact ⟨_, h, rfl⟩

/-- What the table of a process holds is settled by three facts about what is loaded. -/
theorem table_eq {p q : Process} (hp : Invariant p) (hq : Invariant q)
    (h1 : p.loaded .graphAnalysis = q.loaded .graphAnalysis) (h2 : p.loaded .fastAutoregressive = q.loaded .fastAutoregressive)
    (h3 : p.loaded .complexCasting = q.loaded .complexCasting) (h4 : p.loaded .complexConv = q.loaded .complexConv)
    (c : LayerClass) (hc : ∀ n, c ≠ .custom n) : p.table c = q.table c := by
  by_cases a0 : c = .input
  · subst a0; rw [hp.input, hq.input, h1, h2]
  by_cases a1 : c = .vectorToComplexNumber
  · subst a1; rw [hp.cast, hq.cast, h3]
  by_cases a2 : c = .complexConv1D ∨ c = .complexConv2D ∨ c = .complexConv3D
  · rw [hp.conv c a2, hq.conv c a2, h4]
  · have a3 : c ≠ .complexConv1D := fun h => a2 (.inl h)
    have a4 : c ≠ .complexConv2D := fun h => a2 (.inr (.inl h))
    have a5 : c ≠ .complexConv3D := fun h => a2 (.inr (.inr h))
    rw [hp.basic c a0 hc a1 a3 a4 a5, hq.basic c a0 hc a1 a3 a4 a5, h1]

theorem table_stable {p q : Process} (hp : Invariant p) (hq : Invariant q)
    (h1 : p.loaded .graphAnalysis = true → q.loaded .graphAnalysis = true)
    (h3 : p.loaded .complexCasting = true → q.loaded .complexCasting = true)
    (h4 : p.loaded .complexConv = true → q.loaded .complexConv = true)
    (c : LayerClass) (hi : c ≠ .input) (hc : ∀ n, c ≠ .custom n) (t : TopologyClass) (ht : p.table c = some t) :
    q.table c = some t := by
  by_cases a1 : c = .vectorToComplexNumber
  · subst a1
    rw [hp.cast] at ht
    rw [hq.cast]
    cases h : p.loaded .complexCasting with
    | false => rw [h] at ht; simp at ht
    | true => rw [h] at ht; rw [h3 h]; exact ht
  by_cases a2 : c = .complexConv1D ∨ c = .complexConv2D ∨ c = .complexConv3D
  · rw [hp.conv c a2] at ht
    rw [hq.conv c a2]
    cases h : p.loaded .complexConv with
    | false => rw [h] at ht; simp at ht
    | true => rw [h] at ht; rw [h4 h]; exact ht
  · have a3 : c ≠ .complexConv1D := fun h => a2 (.inl h)
    have a4 : c ≠ .complexConv2D := fun h => a2 (.inr (.inl h))
    have a5 : c ≠ .complexConv3D := fun h => a2 (.inr (.inr h))
    rw [hp.basic c hi hc a1 a3 a4 a5] at ht
    rw [hq.basic c hi hc a1 a3 a4 a5]
    cases h : p.loaded .graphAnalysis with
    | false => rw [h] at ht; simp at ht
    | true => rw [h] at ht; rw [h1 h]; exact ht

theorem run_append (h h' : List Event) (p : Process) : run (h ++ h') p = run h' (run h p) := List.foldl_append ..

/-! ### C105 -/

/-- The program after a history, from a fresh interpreter. -/
abbrev after (h : List Event) : Process := run h .start

/-- **C105, order.** Two programs that import the same modules get the same answer for every layer of the
package, whatever the order and number of the import statements and whatever they register for classes of
their own. -/
theorem C105_order (h h' : List Event) (ho : OwnOnly h) (ho' : OwnOnly h') (hsame : ∀ m, Imports h m ↔ Imports h' m)
    (l : LayerObject) (hl : ∀ n, l.core ≠ .custom n) : (after h).topologyOf l = (after h').topologyOf l := by
  obtain ⟨i1, a1, b1, c1, d1⟩ := run_effect start_invariant h ho
  obtain ⟨i2, a2, b2, c2, d2⟩ := run_effect start_invariant h' ho'
  simp only [hsame] at a1 b1 c1 d1
  have key := table_eq i1 i2 (Bool.eq_iff_iff.2 (a1.trans a2.symm)) (Bool.eq_iff_iff.2 (b1.trans b2.symm))
    (Bool.eq_iff_iff.2 (c1.trans c2.symm)) (Bool.eq_iff_iff.2 (d1.trans d2.symm))
  induction l with
  | plain c isTopology =>
    simp only [Process.topologyOf, key c hl]
  | wrapper inner ih => exact ih hl

/-- **C105, later imports.** Once a layer of the package, other than an input layer, has a topology, it
keeps it, whatever is imported or registered for the user's classes later. -/
theorem C105_stable_partial (h h' : List Event) (ho : OwnOnly h) (ho' : OwnOnly h') (l : LayerObject)
    (hi : l.core ≠ .input) (hl : ∀ n, l.core ≠ .custom n) (t : TopologyClass)
    (ht : (after h).topologyOf l = some (.ofClass t l.core)) :
    (after (h ++ h')).topologyOf l = some (.ofClass t l.core) := by
  obtain ⟨i1, -, -, -, -⟩ := run_effect start_invariant h ho
  obtain ⟨i2, a2, b2, c2, d2⟩ := run_effect i1 h' ho'
  rw [← run_append] at i2 a2 b2 c2 d2
  have key := table_stable i1 i2 (fun h => a2.2 (.inl h)) (fun h => c2.2 (.inl h)) (fun h => d2.2 (.inl h))
  induction l with
  | plain c isTopology =>
    simp only [Process.topologyOf, LayerObject.core] at ht hi hl ⊢
    cases hc : (after h).table c with
    | none => rw [hc] at ht; revert ht; cases isTopology <;> simp
    | some t' =>
      rw [hc] at ht
      simp only [Option.some.injEq, Found.ofClass.injEq, and_true] at ht
      rw [key c hi hl t' hc, ht]
  | wrapper inner ih => exact ih hi hl ht

/-- **C105, input layers.** An input layer draws spins if and only if `flowket.samplers` was imported at
some time, it draws categories if something was imported but not that, and without any import of the
package the lookup raises. -/
theorem C105_input (h : List Event) (ho : OwnOnly h) (b : Bool) :
    (ImportsSamplers h → (after h).topologyOf (.plain .input b) = some (.ofClass .plusMinusOneSampling .input)) ∧
    (¬ ImportsSamplers h → (∃ m, Imports h m) →
      (after h).topologyOf (.plain .input b) = some (.ofClass .categorialSampling .input)) ∧
    ((¬ ∃ m, Imports h m) → (after h).topologyOf (.plain .input false) = none) := by
  obtain ⟨i, a, b', -, -⟩ := run_effect start_invariant h ho
  rw [samplers_iff] at b'
  have hb : (after h).loaded .fastAutoregressive = true ↔ ImportsSamplers h := by
    rw [b']; simp [Process.start]
  have ha : (after h).loaded .graphAnalysis = true ↔ ∃ m, Imports h m := by
    rw [a]; simp [Process.start]
  refine ⟨fun hs => ?_, fun hs hm => ?_, fun hm => ?_⟩
  · have : (after h).table .input = some .plusMinusOneSampling := by rw [i.input, if_pos (hb.2 hs)]
    simp [Process.topologyOf, this]
  · have : (after h).table .input = some .categorialSampling := by
      rw [i.input, if_neg (fun h' => hs (hb.1 h')), if_pos (ha.2 hm)]
    simp [Process.topologyOf, this]
  · have h1 : ¬ ImportsSamplers h := fun h' => hm (h'.elim (fun h => ⟨_, h⟩) fun h => ⟨_, h⟩)
    have : (after h).table .input = none := by
      rw [i.input, if_neg (fun h' => h1 (hb.1 h')), if_neg (fun h' => hm (ha.1 h'))]
    simp [Process.topologyOf, this]

/-- Wrapping a layer any number of times. -/
def wrapped (n : Nat) (l : LayerObject) : LayerObject := LayerObject.wrapper^[n] l

/-- **C105, wrappers.** A wrapper, at any depth, gets the topology of the layer inside. -/
theorem C105_wrapped (p : Process) (n : Nat) (l : LayerObject) : p.topologyOf (wrapped n l) = p.topologyOf l := by
  induction n generalizing l with
  | zero => rfl
  | succ n ih => exact (ih (.wrapper l)).trans rfl

/-- **C105, own layers.** A class of the user is found exactly if the user registered a topology for it or
the layer is one itself; nothing the package imports changes that, and the last registration counts. -/
theorem C105_own (h : List Event) (ho : OwnOnly h) (n : Nat) (b : Bool) :
    (after h).topologyOf (.plain (.custom n) b) =
      match (h.reverse.findSome? fun e => match e with
        | .registers c t => if c = .custom n then some t else none
        | .imports _ => none) with
      | some t => some (.ofClass t (.custom n))
      | none => if b then some (.itself (.custom n)) else none := by
  have key : ∀ (h : List Event) (p : Process), Invariant p → OwnOnly h →
      (run h p).table (.custom n) = (h.reverse.findSome? fun e => match e with
        | .registers c t => if c = .custom n then some t else none
        | .imports _ => none).or (p.table (.custom n)) := by
    intro h
    induction h with
    | nil => intro p _ _; simp [run]
    | cons e rest ih =>
      intro p hp ho
      have ho' : OwnOnly rest := fun c t hc => ho c t (List.mem_cons_of_mem _ hc)
      have hrun : run (e :: rest) p = run rest (e.step p) := rfl
      rw [hrun, List.reverse_cons, List.findSome?_append]
      cases e with
      | imports m =>
        obtain ⟨hk, -⟩ := import_effect hp m
        rw [show Event.step p (.imports m) = importModule m p from rfl, ih _ hk.inv ho', hk.own n]
        simp
      | registers c t =>
        obtain ⟨k, rfl⟩ := ho c t List.mem_cons_self
        rw [show Event.step p (.registers (.custom k) t) = p.register (.custom k) t from rfl,
          ih _ (register_own hp k t) ho']
        by_cases hk : k = n
        · subst hk
          simp [Process.register, Option.or_assoc]
        · have h1 : (LayerClass.custom n) ≠ .custom k := fun h => hk (by injection h with h; exact h.symm)
          have h2 : ¬ (LayerClass.custom k = .custom n) := fun h => h1 h.symm
          simp [Process.register, hk, Function.update_of_ne h1]
  simp only [Process.topologyOf]
  rw [key h .start start_invariant ho]
  have : Process.start.table (.custom n) = none := rfl
  rw [this, Option.or_none]

/-- **C105, spins.** If `flowket.samplers` was imported, whatever else was, the fast sampler writes a spin
that the machines of the package read as the category that was drawn. -/
theorem C105_spins_partial (h : List Event) (ho : OwnOnly h) (hs : ImportsSamplers h) (k : Fin 2) :
    ∃ x : ℤ, (after h).drawn k.val = some x ∧ (x = 1 ∨ x = -1) ∧
      ∀ c, plusMinusOneToOneHot x c = if c = k then 1 else 0 := by
  refine ⟨1 - 2 * (k.val : ℤ), ?_, ?_, ?_⟩
  · simp only [Process.drawn, (C105_input h ho false).1 hs, TopologyClass.drawn]
  · fin_cases k
    · left; rfl
    · right; rfl
  · intro c
    fin_cases k <;> fin_cases c <;> simp [plusMinusOneToOneHot, oneHot]

/-- **C105, categories.** If only `flowket.deepar` (or layers and machines) was imported, the fast sampler
writes the category that was drawn, and `ToOneHot` reads it as such, for any number of categories. -/
theorem C105_categories_partial (h : List Event) (ho : OwnOnly h) (hs : ¬ ImportsSamplers h) (hm : ∃ m, Imports h m)
    (K : Nat) (k : Fin K) :
    (after h).drawn k.val = some (k.val : ℤ) ∧ ∀ c, toOneHot K (k.val : ℤ) c = if c = k then 1 else 0 := by
  refine ⟨?_, fun c => ?_⟩
  · simp only [Process.drawn, (C105_input h ho false).2.1 hs hm, TopologyClass.drawn]
  · simp only [toOneHot, oneHot, Int.natCast_inj, Fin.ext_iff]

/-- C105 fails for models of categories: after `flowket.samplers` was imported anywhere in the program, the
sampler of `flowket.deepar` writes, for every category drawn, a value that `ToOneHot` does not read as that
category. -/
theorem C105_violated_categories (h : List Event) (ho : OwnOnly h) (hs : ImportsSamplers h) (K : Nat) (k : Fin K) :
    ∃ x : ℤ, (after h).drawn k.val = some x ∧ ¬ ∀ c, toOneHot K x c = if c = k then 1 else 0 := by
  refine ⟨1 - 2 * (k.val : ℤ), ?_, fun hx => ?_⟩
  · simp only [Process.drawn, (C105_input h ho false).1 hs, TopologyClass.drawn]
  · have := hx k
    rw [if_pos rfl] at this
    unfold toOneHot oneHot at this
    split at this
    · omega
    · norm_num at this

/-- The same program with one more import at its end draws other values. -/
theorem C105_violated_import (h : List Event) (ho : OwnOnly h) (hs : ¬ ImportsSamplers h) (hm : ∃ m, Imports h m)
    (k : Nat) : (after (h ++ [.imports .samplers])).drawn k ≠ (after h).drawn k := by
  have ho' : OwnOnly (h ++ [.imports .samplers]) := by
    intro c t hc
    rcases List.mem_append.1 hc with hc | hc
    · exact ho c t hc
    · simp at hc
  have hs' : ImportsSamplers (h ++ [.imports .samplers]) := .inl (List.mem_append_right _ (by simp))
  simp only [Process.drawn, (C105_input h ho false).2.1 hs hm, (C105_input _ ho' false).1 hs', TopologyClass.drawn]
  intro h
  injection h with h
  omega

/-- C105 fails for the machines of the package too: with the sampler of `flowket.deepar` and without an
import of `flowket.samplers`, the values written are no spins, and both categories are read as category zero. -/
theorem C105_violated_machines (h : List Event) (ho : OwnOnly h) (hs : ¬ ImportsSamplers h) (hm : ∃ m, Imports h m) :
    (after h).drawn 0 = some 0 ∧ (after h).drawn 1 = some 1 ∧
      plusMinusOneToOneHot 0 = plusMinusOneToOneHot 1 := by
  refine ⟨?_, ?_, ?_⟩
  · simp only [Process.drawn, (C105_input h ho false).2.1 hs hm, TopologyClass.drawn]; rfl
  · simp only [Process.drawn, (C105_input h ho false).2.1 hs hm, TopologyClass.drawn]; rfl
  · funext c
    fin_cases c <;> simp [plusMinusOneToOneHot, oneHot]

/-- The statements of a script of the package: machines, then samplers. -/
example : OwnOnly [.imports .machines, .imports .samplers] ∧ ImportsSamplers [.imports .machines, .imports .samplers] ∧
    (after [.imports .machines, .imports .samplers]).topologyOf (wrapped 2 (.plain .conv1D false)) =
      some (.ofClass .convolutional .conv1D) := by
  refine ⟨?_, .inl (by simp [Imports]), rfl⟩
  intro c t h
  simp at h

/-- A program that uses the sampler of `flowket.deepar` only and registers a layer of its own. -/
example : OwnOnly [.imports .deeparSamplers, .registers (.custom 3) .oneToOne] ∧
    ¬ ImportsSamplers [.imports .deeparSamplers, .registers (.custom 3) .oneToOne] ∧
    (after [.imports .deeparSamplers, .registers (.custom 3) .oneToOne]).drawn 5 = some 5 := by
  refine ⟨?_, ?_, rfl⟩
  · intro c t h
    simp at h
    exact ⟨3, h.1⟩
  · simp [ImportsSamplers, Imports]

end Verif.Net.Registry
