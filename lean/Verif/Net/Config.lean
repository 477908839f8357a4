import Mathlib.Data.Real.Basic
import Mathlib.Tactic.NormNum

/-!
# C114: layers rebuilt from their configuration

`model.save`, which `CheckpointByTime` calls unless only weights are saved, writes `layer.get_config()` of every
layer as JSON; loading calls `from_config` of the layer's class with what was read.

The behaviour of Keras (versions 1.10 to 1.14 of TensorFlow, from its source) that enters the model: the default
`from_config` calls the class with the configuration as keyword arguments; the default `get_config` holds the arguments of
`Layer` only, and in version 1.14 raises `NotImplementedError` for layers whose constructor has arguments of its own;
`Lambda.get_config` reads the name of its function unless it was made by `def` or `lambda`, and `Lambda.from_config`
passes the function as keyword argument `function`.
-/
namespace Verif.Net.Config

noncomputable section

/-! ### Model -/

/-- Values of constructor arguments. Sequences remember whether they are tuples. Two levels of nesting are
enough for the layers of the package. -/
inductive Leaf where
  | int (n : ℤ)
  | real (x : ℝ)
  | str (s : String)
  | bool (b : Bool)
  | none

@[inherit_doc Leaf] inductive Item where
  | leaf (l : Leaf)
  | seq (tuple : Bool) (l : List Leaf)

@[inherit_doc Leaf] inductive Val where
  | item (i : Item)
  | seq (tuple : Bool) (l : List Item)

/-- Writing to JSON and reading back: tuples become lists. -/
def Item.json : Item → Item
  | .leaf l => .leaf l
  | .seq _ l => .seq false l

@[inherit_doc Item.json] def Val.json : Val → Val
  | .item i => .item i.json
  | .seq _ l => .seq false (l.map Item.json)

/-- A dictionary with string keys. -/
abbrev Dict := List (String × Val)

def Dict.get (k : String) : Dict → Option Val
  | [] => Option.none
  | (k', v) :: d => if k' = k then some v else Dict.get k d

def Dict.json (d : Dict) : Dict := d.map fun e => (e.1, e.2.json)

/-- Python exceptions. -/
inductive Err where
  | typeError | attributeError | notImplemented | assertion | value
  deriving DecidableEq

/-- The layer classes of `flowket.deepar.layers` and `flowket.layers` (`__init__.py` of both packages). `ToFloat32`,
`ToFloat64`, `ToComplex64`, `ToComplex128` are `CastingLayer` (deepar/layers/casting.py:21-22, layers/complex/casting.py:32-33).
`WeightNormalization` and `LambdaWithOneToOneTopology`, which hold a layer or a function given by the user, are left out. -/
inductive Cls where
  | casting | gather | roll | rot90 | flipLeftRight | downShift | rightShift | expandInputDim | periodicPadding
  | vectorToComplex | histograms | layerNormalization | complexDense | translationInvariantDense | complexConv1D
  | complexConv2D | complexConv3D | toOneHot | normalizeInLogSpace | combineConditionals | plusMinusOneToOneHot
  | equalUpDownSpins | flipSpins
  deriving DecidableEq

def intVal (n : ℤ) : Val := .item (.leaf (.int n))
def noneVal : Val := .item (.leaf .none)

/-- The arguments of the constructors with their defaults; `none` marks an argument without default.
deepar/layers: casting.py:8, gathering.py:6, padding.py:13, layer_normalization.py:6, one_hot.py:18,
autoregressive.py:26; layers: transition_invariants.py:7, dihedral_4_invariants.py:8, complex/casting.py:12, complex/dense.py:12-14,
54, complex/conv.py:58-60, 114, 124, 134. The arguments of the complex layers that have defaults are left out. -/
def Cls.params : Cls → List (String × Option Val)
  | .casting => [("to_type", none)]
  | .gather => [("indices", none), ("axis", some (intVal 1))]
  | .roll => [("roll_for_axis", none), ("axes_to_roll", some noneVal)]
  | .rot90 => [("num_of_rotations", some (intVal 1))]
  | .periodicPadding => [("padding", none)]
  | .vectorToComplex => [("axis", some (intVal (-1)))]
  | .layerNormalization => [("epsilon", some (.item (.leaf (.real (1 / 10 ^ 5)))))]
  | .complexDense => [("units", none)]
  | .translationInvariantDense => [("units", none)]
  | .complexConv1D => [("filters", none), ("kernel_size", none)]
  | .complexConv2D => [("filters", none), ("kernel_size", none)]
  | .complexConv3D => [("filters", none), ("kernel_size", none)]
  | .toOneHot => [("num_of_categories", some (intVal 2))]
  | .normalizeInLogSpace => [("norm_type", some (.item (.leaf (.real 1))))]
  | _ => []

/-- Classes that define `get_config` (deepar/layers: casting.py:15-18, gathering.py:14-17, padding.py:38-43; layers:
transition_invariants.py:18-22, dihedral_4_invariants.py:16-19, complex/casting.py:26-29): the base configuration and
all their own arguments. -/
def Cls.overrides : Cls → Bool
  | .casting | .gather | .roll | .rot90 | .periodicPadding | .vectorToComplex => true
  | _ => false

/-- How a `Lambda` layer gets its function: from `def` or `lambda`, or from `functools.partial`. -/
inductive Function where
  | named | partialApplication

/-- Subclasses of `Lambda` (deepar/layers/one_hot.py:17-24, autoregressive.py:25-33, layers/spins_invariants.py:25-32). -/
def Cls.lambda : Cls → Option Function
  | .toOneHot | .normalizeInLogSpace => some .partialApplication
  | .combineConditionals | .plusMinusOneToOneHot | .equalUpDownSpins | .flipSpins => some .named
  | _ => none

/-- Keyword arguments of `Layer`. -/
def baseKeys : List String := ["name", "trainable", "dtype", "batch_input_shape"]

/-- Further keyword arguments of `Lambda`. -/
def lambdaKeys : List String :=
  ["function", "module", "function_type", "output_shape", "output_shape_type", "output_shape_module", "arguments"]

/-- A layer object: its class, the arguments of `Layer` and its own. -/
structure Obj where
  cls : Cls
  base : Dict
  attrs : Dict

/-- Binding of keyword arguments to the arguments of the constructor; `none` if one without default is missing. -/
def bind (params : List (String × Option Val)) (kw : Dict) : Option Dict :=
  params.mapM fun p => ((kw.get p.1).orElse fun _ => p.2).map fun v => (p.1, v)

/-- `len` of an argument. -/
def Val.len : Val → Option Nat
  | .seq _ l => some l.length
  | _ => none

/-- What constructors do with their arguments. Only `Roll` does more than keeping them
(layers/transition_invariants.py:9-13); the normalisation in complex convolutions (complex/conv.py:62-67) is left out. -/
def initAttrs (c : Cls) (attrs : Dict) : Except Err Dict :=
  if c = .roll then
    match attrs.get "roll_for_axis", attrs.get "axes_to_roll" with
    | some r, some a =>
      match r.len with
      | none => .error .typeError
      | some n =>
        match a with
        | .item (.leaf .none) => .ok [("roll_for_axis", r),
            ("axes_to_roll", .seq false ((List.range n).map fun i : Nat => .leaf (.int ((i : ℤ) + 1))))]
        | a =>
          match a.len with
          | none => .error .typeError
          | some m => if m = n then .ok [("roll_for_axis", r), ("axes_to_roll", a)] else .error .assertion
    | _, _ => .error .typeError
  else .ok attrs

/-- Calling the class with keyword arguments. Subclasses of `Lambda` pass their function to `Lambda` themselves, so that
a keyword argument `function` gives it two values. Other unknown keyword arguments are rejected by `Layer`. -/
def construct (c : Cls) (kw : Dict) : Except Err Obj :=
  if c.lambda.isSome ∧ (kw.get "function").isSome then .error .typeError
  else if ∃ e ∈ kw, e.1 ∉ baseKeys ∧ e.1 ∉ c.params.map Prod.fst ∧ ¬ (c.lambda.isSome ∧ e.1 ∈ lambdaKeys) then .error .typeError
  else
    match bind c.params kw with
    | none => .error .typeError
    | some attrs =>
      match initAttrs c attrs with
      | .error e => .error e
      | .ok attrs => .ok ⟨c, kw.filter fun e => e.1 ∈ baseKeys, attrs⟩

/-- `layer.get_config()`; `strict` for version 1.14. The entries of `Lambda` are represented by `function`. -/
def getConfig (strict : Bool) (o : Obj) : Except Err Dict :=
  match o.cls.lambda with
  | some .partialApplication => .error .attributeError
  | some .named => .ok (o.base ++ [("function", .item (.leaf (.str "code")))])
  | none =>
    if o.cls.overrides then .ok (o.base ++ o.attrs)
    else if strict ∧ o.cls.params ≠ [] then .error .notImplemented
    else .ok o.base

/-- `cls.from_config(layer.get_config())`. -/
def copy (strict : Bool) (o : Obj) : Except Err Obj :=
  match getConfig strict o with
  | .error e => .error e
  | .ok d => construct o.cls d

/-- The same through a file. -/
def reload (strict : Bool) (o : Obj) : Except Err Obj :=
  match getConfig strict o with
  | .error e => .error e
  | .ok d => construct o.cls d.json

/-! #### What layers do with their arguments -/

def Item.int : Item → Option ℤ
  | .leaf (.int n) => some n
  | _ => none

def Val.int : Val → Option ℤ
  | .item i => i.int
  | _ => none

def Val.str : Val → Option String
  | .item (.leaf (.str s)) => some s
  | _ => none

def Val.real : Val → Option ℝ
  | .item (.leaf (.real x)) => some x
  | _ => none

/-- A sequence of integers; TensorFlow takes tuples and lists alike. -/
def Val.ints : Val → Option (List ℤ)
  | .seq _ l => l.mapM Item.int
  | _ => none

/-- The padding of one dimension (deepar/layers/padding.py:22-27, 30, 33): comparing a list with zero raises. -/
def paddingOf : Item → Except Err (ℤ × ℤ)
  | .leaf (.int n) => .ok (n, n)
  | .seq true [.int before, .int after] => .ok (before, after)
  | .seq true _ => .error .value
  | _ => .error .typeError

/-- The operation of a layer, with the arguments it takes from the object. -/
inductive Operation where
  | cast (target : String)
  | gather (indices : List ℤ) (axis : ℤ)
  | roll (shift axes : List ℤ)
  | rot90 (k : ℤ)
  | pad (widths : List (ℤ × ℤ))
  | toComplex (axis : ℤ)
  | layerNorm (epsilon : ℝ)
  | fixed (c : Cls)
  | configured (c : Cls) (attrs : Dict)

/-- Reading an attribute of the object. -/
def Obj.arg {α : Type} (o : Obj) (k : String) (f : Val → Option α) : Except Err α :=
  match (o.attrs.get k).bind f with
  | some a => .ok a
  | none => .error .typeError

/-- The operation that `call` performs (deepar/layers: casting.py:12-13, gathering.py:11-12, padding.py:17-36, masking.py:22-29,
layer_normalization.py:22-27; layers: transition_invariants.py:15-16, dihedral_4_invariants.py:12-14, complex/casting.py:16-24).
For complex layers and `Lambda` layers all arguments matter. -/
def operation (o : Obj) : Except Err Operation :=
  match o.cls with
  | .casting => (o.arg "to_type" Val.str).map Operation.cast
  | .gather => (o.arg "indices" Val.ints).bind fun i => (o.arg "axis" Val.int).map fun a => Operation.gather i a
  | .roll => (o.arg "roll_for_axis" Val.ints).bind fun r => (o.arg "axes_to_roll" Val.ints).map fun a => Operation.roll r a
  | .rot90 => (o.arg "num_of_rotations" Val.int).map Operation.rot90
  | .periodicPadding =>
    match o.attrs.get "padding" with
    | some (.seq _ l) => (l.mapM paddingOf).map Operation.pad
    | _ => .error .typeError
  | .vectorToComplex => (o.arg "axis" Val.int).map Operation.toComplex
  | .layerNormalization => (o.arg "epsilon" Val.real).map Operation.layerNorm
  | .flipLeftRight | .downShift | .rightShift | .expandInputDim | .histograms => .ok (Operation.fixed o.cls)
  | c => .ok (Operation.configured c o.attrs)

/-- `CheckpointByTime._save` (callbacks/checkpoint.py:51-58) as far as it can fail: `model.save` reads the
configurations of all layers and of the optimizer; `model.save_weights` reads no configuration. -/
def save (strict weightsOnly : Bool) (layers : List Obj) (optimizer : Except Err Unit) : Except Err Unit :=
  if weightsOnly then .ok ()
  else
    match layers.mapM (getConfig strict) with
    | .error e => .error e
    | .ok _ => optimizer

/-- `ComplexValuesOptimizer.get_config` (optimizers/complex_values_optimizer.py:45-46), inherited by stochastic
reconfiguration: the class `super` has no attribute `get_config`. -/
def complexOptimizerConfig : Except Err Unit := .error .attributeError

/-- The layers of the model of an autoregressive machine (machines/abstract_machine.py:33-38, 51-57): those of the network,
and `NormalizeInLogSpace(norm_type=2)`, `PlusMinusOneToOneHot()`, `ToComplex64()`,
`CombineAutoregressiveConditionals()`. -/
def autoregressiveModel (network : List Obj) : List Obj :=
  network ++ [⟨.normalizeInLogSpace, [("name", .item (.leaf (.str "conditional_log_wave_function")))],
      [("norm_type", intVal 2)]⟩, ⟨.plusMinusOneToOneHot, [], []⟩, ⟨.casting, [], [("to_type", .item (.leaf (.str "complex64")))]⟩,
    ⟨.combineConditionals, [("name", .item (.leaf (.str "wave_function")))], []⟩]

/-! ### Lemmas -/

theorem get_append (k : String) (a b : Dict) : Dict.get k (a ++ b) = ((Dict.get k a).orElse fun _ => Dict.get k b) := by
  induction a with
  | nil => rfl
  | cons e a ih =>
    obtain ⟨k', v⟩ := e
    by_cases h : k' = k
    · simp [Dict.get, h]
    · simp only [List.cons_append, Dict.get, if_neg h]
      exact ih

theorem get_none {k : String} {d : Dict} (h : ∀ e ∈ d, e.1 ≠ k) : Dict.get k d = none := by
  induction d with
  | nil => rfl
  | cons e d ih =>
    obtain ⟨k', v⟩ := e
    simp only [Dict.get]
    rw [if_neg (h (k', v) (by simp))]
    exact ih fun e he => h e (List.mem_cons_of_mem _ he)

theorem get_self {d : Dict} (hn : (d.map Prod.fst).Nodup) {e : String × Val} (he : e ∈ d) : Dict.get e.1 d = some e.2 := by
  induction d with
  | nil => cases he
  | cons e' d ih =>
    obtain ⟨k', v⟩ := e'
    rw [List.map_cons, List.nodup_cons] at hn
    rcases List.mem_cons.1 he with rfl | he'
    · simp [Dict.get]
    · have hne : k' ≠ e.1 := by
        intro h
        rw [h] at hn
        exact hn.1 (List.mem_map.2 ⟨e, he', rfl⟩)
      simp only [Dict.get, if_neg hne]
      exact ih hn.2 he'

theorem get_json (k : String) (d : Dict) : Dict.get k d.json = (Dict.get k d).map Val.json := by
  induction d with
  | nil => rfl
  | cons e d ih =>
    obtain ⟨k', v⟩ := e
    by_cases h : k' = k
    · simp [Dict.json, Dict.get, h]
    · simp only [Dict.json, List.map_cons, Dict.get, if_neg h]
      exact ih

theorem keys_json (d : Dict) : d.json.map Prod.fst = d.map Prod.fst := by
  simp [Dict.json]

theorem json_append (a b : Dict) : Dict.json (a ++ b) = a.json ++ b.json := List.map_append

theorem bind_keys : ∀ {params : List (String × Option Val)} {kw attrs : Dict}, bind params kw = some attrs →
    attrs.map Prod.fst = params.map Prod.fst
  | [], _, _, h => by
    unfold bind at h
    simp only [List.mapM_nil, Option.pure_def, Option.some.injEq] at h
    rw [← h]
    rfl
  | p :: params, kw, attrs, h => by
    unfold bind at h
    rw [List.mapM_cons] at h
    cases h1 : ((kw.get p.1).orElse fun _ => p.2) with
    | none => rw [h1] at h; exact absurd h (by simp)
    | some v =>
      cases h2 : (params.mapM fun p => ((kw.get p.1).orElse fun _ => p.2).map fun v => (p.1, v)) with
      | none => rw [h1, h2] at h; exact absurd h (by simp)
      | some rest =>
        rw [h1, h2] at h
        have h' : (p.1, v) :: rest = attrs := by simpa using h
        rw [← h', List.map_cons, List.map_cons, bind_keys h2]

theorem bind_of : ∀ {params : List (String × Option Val)} {d attrs : Dict}, attrs.map Prod.fst = params.map Prod.fst →
    (∀ e ∈ attrs, Dict.get e.1 d = some e.2) → bind params d = some attrs
  | [], _, [], _, _ => rfl
  | [], _, _ :: _, h, _ => by simp at h
  | _ :: _, _, [], h, _ => by simp at h
  | p :: params, d, e :: attrs, h, hg => by
    rw [List.map_cons, List.map_cons, List.cons.injEq] at h
    have h2 := bind_of (params := params) (d := d) h.2 fun e' he' => hg e' (List.mem_cons_of_mem _ he')
    unfold bind at h2 ⊢
    rw [List.mapM_cons, h2, ← h.1, hg e (by simp)]
    rfl

theorem bind_get : ∀ {params : List (String × Option Val)} {kw attrs : Dict} {k : String} {v : Val},
    bind params kw = some attrs → kw.get k = some v → k ∈ params.map Prod.fst → (params.map Prod.fst).Nodup →
    attrs.get k = some v
  | [], _, _, _, _, _, _, hk, _ => by simp at hk
  | p :: params, kw, attrs, k, v, h, hv, hk, hn => by
    unfold bind at h
    rw [List.mapM_cons] at h
    cases h1 : ((kw.get p.1).orElse fun _ => p.2) with
    | none => rw [h1] at h; exact absurd h (by simp)
    | some w =>
      cases h2 : (params.mapM fun p => ((kw.get p.1).orElse fun _ => p.2).map fun v => (p.1, v)) with
      | none => rw [h1, h2] at h; exact absurd h (by simp)
      | some rest =>
        rw [h1, h2] at h
        have h' : (p.1, w) :: rest = attrs := by simpa using h
        rw [← h']
        rw [List.map_cons, List.nodup_cons] at hn
        by_cases hpk : p.1 = k
        · rw [hpk, hv] at h1
          simp only [Dict.get, if_pos hpk]
          exact h1.symm
        · simp only [Dict.get, if_neg hpk]
          rw [List.map_cons, List.mem_cons] at hk
          exact bind_get h2 hv (hk.resolve_left fun e => hpk e.symm) hn.2

theorem params_nodup (c : Cls) : (c.params.map Prod.fst).Nodup := by
  cases c <;> simp [Cls.params]

theorem params_base (c : Cls) : ∀ k ∈ c.params.map Prod.fst, k ∉ baseKeys := by
  cases c <;> simp [Cls.params, baseKeys]

/-- Configurations that a constructor accepts give back their parts. -/
theorem construct_ok {c : Cls} (hl : c.lambda = none) {base attrs : Dict} (hb : ∀ e ∈ base, e.1 ∈ baseKeys)
    (hk : attrs.map Prod.fst = c.params.map Prod.fst) (hi : initAttrs c attrs = .ok attrs) :
    construct c (base ++ attrs) = .ok ⟨c, base, attrs⟩ := by
  have hmem : ∀ e ∈ attrs, e.1 ∈ c.params.map Prod.fst := fun e he => hk ▸ List.mem_map_of_mem he
  have hnb : ∀ e ∈ attrs, e.1 ∉ baseKeys := fun e he => params_base c _ (hmem e he)
  have hbind : bind c.params (base ++ attrs) = some attrs := by
    refine bind_of hk fun e he => ?_
    rw [get_append, get_none (k := e.1) fun e' he' h => hnb e he (by rw [← h]; exact hb e' he')]
    exact get_self (hk ▸ params_nodup c) he
  unfold construct
  rw [hl]
  rw [if_neg (by simp), if_neg (by
    rintro ⟨e, he, h1, h2, -⟩
    rcases List.mem_append.1 he with he | he
    · exact h1 (hb e he)
    · exact h2 (hmem e he)), hbind]
  simp only [hi]
  congr 2
  rw [List.filter_append, List.filter_eq_self.2 (by simpa using hb), List.filter_eq_nil_iff.2 (by simpa using hnb),
    List.append_nil]

theorem len_json (v : Val) : v.json.len = v.len := by
  cases v <;> simp [Val.json, Val.len]

theorem init_ok {c : Cls} {attrs attrs' : Dict} (hk : attrs.map Prod.fst = c.params.map Prod.fst)
    (h : initAttrs c attrs = .ok attrs') :
    attrs'.map Prod.fst = c.params.map Prod.fst ∧ initAttrs c attrs' = .ok attrs' ∧
      initAttrs c attrs'.json = .ok attrs'.json ∧ (c ≠ .roll → attrs' = attrs) := by
  by_cases hc : c = .roll
  · subst hc
    have key : ∀ (r a : Val) (n : Nat), r.len = some n → a.len = some n →
        initAttrs .roll [("roll_for_axis", r), ("axes_to_roll", a)] = .ok [("roll_for_axis", r), ("axes_to_roll", a)] := by
      intro r a n hr ha
      cases a with
      | item i => simp [Val.len] at ha
      | seq t l => simp [initAttrs, Dict.get, hr, ha]
    have key2 : ∀ (r a : Val) (n : Nat), r.len = some n → a.len = some n →
        (initAttrs .roll [("roll_for_axis", r), ("axes_to_roll", a)] = .ok [("roll_for_axis", r), ("axes_to_roll", a)]) ∧
        initAttrs .roll (Dict.json [("roll_for_axis", r), ("axes_to_roll", a)]) =
          .ok (Dict.json [("roll_for_axis", r), ("axes_to_roll", a)]) := by
      intro r a n hr ha
      exact ⟨key r a n hr ha, key r.json a.json n (by rw [len_json, hr]) (by rw [len_json, ha])⟩
    unfold initAttrs at h
    rw [if_pos rfl] at h
    cases hr : attrs.get "roll_for_axis" with
    | none => rw [hr] at h; exact absurd h (by simp)
    | some r =>
      cases ha : attrs.get "axes_to_roll" with
      | none => rw [hr, ha] at h; exact absurd h (by simp)
      | some a =>
        rw [hr, ha] at h
        dsimp only at h
        cases hn : r.len with
        | none => rw [hn] at h; exact absurd h (by simp)
        | some n =>
          rw [hn] at h
          dsimp only at h
          have fin : ∀ a' : Val, a'.len = some n → attrs' = [("roll_for_axis", r), ("axes_to_roll", a')] →
              attrs'.map Prod.fst = (Cls.params Cls.roll).map Prod.fst ∧ initAttrs Cls.roll attrs' = .ok attrs' ∧
                initAttrs Cls.roll attrs'.json = .ok attrs'.json := by
            intro a' ha' e
            rw [e]
            exact ⟨rfl, key2 r a' n hn ha'⟩
          cases a with
          | item i =>
            cases i with
            | leaf l =>
              cases l with
              | none =>
                have e := (Except.ok.inj h).symm
                obtain ⟨f1, f2, f3⟩ := fin _ (by simp [Val.len]) e
                exact ⟨f1, f2, f3, fun hne => absurd rfl hne⟩
              | _ => exact absurd h (by simp [Val.len])
            | seq t l => exact absurd h (by simp [Val.len])
          | seq t l =>
            simp only [Val.len] at h
            by_cases hm : l.length = n
            · rw [if_pos hm] at h
              have e := (Except.ok.inj h).symm
              obtain ⟨f1, f2, f3⟩ := fin (.seq t l) (by simp [Val.len, hm]) e
              exact ⟨f1, f2, f3, fun hne => absurd rfl hne⟩
            · rw [if_neg hm] at h
              exact absurd h (by simp)
  · have hid : ∀ d, initAttrs c d = .ok d := fun d => by unfold initAttrs; rw [if_neg hc]
    rw [hid] at h
    have e := Except.ok.inj h
    rw [← e]
    exact ⟨hk, hid _, hid _, fun _ => rfl⟩

theorem construct_spec {c : Cls} (hl : c.lambda = none) {kw : Dict} {o : Obj} (h : construct c kw = .ok o) :
    o.cls = c ∧ (∀ e ∈ o.base, e.1 ∈ baseKeys) ∧ o.attrs.map Prod.fst = c.params.map Prod.fst ∧
      initAttrs c o.attrs = .ok o.attrs ∧ initAttrs c o.attrs.json = .ok o.attrs.json ∧
      (c ≠ .roll → ∀ k v, k ∈ c.params.map Prod.fst → kw.get k = some v → o.attrs.get k = some v) := by
  unfold construct at h
  rw [hl, if_neg (by simp)] at h
  by_cases hex : ∃ e ∈ kw, e.1 ∉ baseKeys ∧ e.1 ∉ c.params.map Prod.fst ∧ ¬ ((none : Option Function).isSome ∧ e.1 ∈ lambdaKeys)
  · rw [if_pos hex] at h
    exact absurd h (by simp)
  rw [if_neg hex] at h
  cases hb : bind c.params kw with
  | none => rw [hb] at h; exact absurd h (by simp)
  | some attrs =>
    rw [hb] at h
    dsimp only at h
    cases hi : initAttrs c attrs with
    | error e => rw [hi] at h; exact absurd h (by simp)
    | ok attrs' =>
      rw [hi] at h
      have e := (Except.ok.inj h).symm
      obtain ⟨h1, h2, h3, h4⟩ := init_ok (bind_keys hb) hi
      rw [e]
      refine ⟨rfl, fun e he => by simpa using (List.mem_filter.1 he).2, h1, h2, h3, fun hc k v hk hv => ?_⟩
      show attrs'.get k = some v
      rw [h4 hc]
      exact bind_get hb hv hk (params_nodup c)

/-- The configuration of the layers for which `get_config` works. -/
theorem getConfig_ok (strict : Bool) {o : Obj} (hl : o.cls.lambda = none) (hc : o.cls.overrides = true ∨ o.cls.params = [])
    (hk : o.attrs.map Prod.fst = o.cls.params.map Prod.fst) : getConfig strict o = .ok (o.base ++ o.attrs) := by
  unfold getConfig
  rw [hl]
  dsimp only
  by_cases h : o.cls.overrides = true
  · rw [if_pos h]
  · rw [if_neg h]
    have hp := hc.resolve_left h
    rw [hp, List.map_nil, List.map_eq_nil_iff] at hk
    rw [if_neg (by simp [hp]), hk, List.append_nil]

theorem ints_json (v : Val) : v.json.ints = v.ints := by
  cases v with
  | item i => rfl
  | seq t l =>
    show (l.map Item.json).mapM Item.int = l.mapM Item.int
    rw [List.mapM_map]
    congr 1
    funext i
    cases i <;> rfl

theorem int_json (v : Val) : v.json.int = v.int := by
  cases v with
  | item i => cases i <;> rfl
  | seq t l => rfl

theorem str_json (v : Val) : v.json.str = v.str := by
  cases v with
  | item i => cases i <;> rfl
  | seq t l => rfl

theorem arg_json {α : Type} (o : Obj) (base : Dict) (k : String) (f : Val → Option α) (hf : ∀ v, f v.json = f v) :
    (Obj.mk o.cls base o.attrs.json).arg k f = o.arg k f := by
  unfold Obj.arg
  show (match (Dict.get k o.attrs.json).bind f with | some a => _ | none => _) = _
  rw [get_json]
  cases h : Dict.get k o.attrs with
  | none => rfl
  | some v => simp only [Option.map_some, Option.bind_some, hf]

/-! ### C114 -/

/-- The layers for which the round trip works. -/
def sound : List Cls :=
  [.casting, .gather, .roll, .rot90, .flipLeftRight, .downShift, .rightShift, .expandInputDim, .periodicPadding,
    .vectorToComplex, .histograms]

theorem sound_spec {c : Cls} (hc : c ∈ sound) : c.lambda = none ∧ (c.overrides = true ∨ c.params = []) := by
  cases c <;> simp [sound] at hc <;> simp [Cls.lambda, Cls.overrides, Cls.params]

/-- **C114, in memory.** However one of these layers was constructed, `from_config(get_config())` gives the same layer. -/
theorem C114_copy_partial (strict : Bool) (c : Cls) (hc : c ∈ sound) (kw : Dict) (o : Obj) (h : construct c kw = .ok o) :
    copy strict o = .ok o := by
  obtain ⟨hl, hp⟩ := sound_spec hc
  obtain ⟨h1, h2, h3, h4, -⟩ := construct_spec hl h
  subst h1
  unfold copy
  rw [getConfig_ok strict hl hp h3]
  exact construct_ok hl h2 h3 h4

/-- **C114, through a file.** However one of these layers was constructed, loading what `model.save` wrote gives a layer of
the same class and name that performs the same operation; `PeriodicPadding` if its argument has the same width on both
sides of each dimension. Missing: the other layers and `PeriodicPadding` with pairs of widths, where the claim is
false. -/
theorem C114_reload_partial (strict : Bool) (c : Cls) (hc : c ∈ sound) (kw : Dict) (o : Obj) (h : construct c kw = .ok o)
    (hpad : c = .periodicPadding → ∀ t l, kw.get "padding" = some (.seq t l) → ∀ m, Item.seq true m ∉ l) :
    ∃ o', reload strict o = .ok o' ∧ o'.cls = c ∧ o'.base = o.base.json ∧ operation o' = operation o := by
  obtain ⟨hl, hp⟩ := sound_spec hc
  obtain ⟨h1, h2, h3, -, h5, h6⟩ := construct_spec hl h
  subst h1
  refine ⟨⟨o.cls, o.base.json, o.attrs.json⟩, ?_, rfl, rfl, ?_⟩
  · unfold reload
    rw [getConfig_ok strict hl hp h3]
    show construct o.cls (Dict.json (o.base ++ o.attrs)) = _
    rw [json_append]
    refine construct_ok hl ?_ (by rw [keys_json, h3]) h5
    intro e he
    obtain ⟨e', he', rfl⟩ := List.mem_map.1 he
    exact h2 e' he'
  · have hi : ∀ k, (Obj.mk o.cls o.base.json o.attrs.json).arg k Val.ints = o.arg k Val.ints :=
      fun k => arg_json o _ k _ ints_json
    have hn : ∀ k, (Obj.mk o.cls o.base.json o.attrs.json).arg k Val.int = o.arg k Val.int :=
      fun k => arg_json o _ k _ int_json
    have hs : ∀ k, (Obj.mk o.cls o.base.json o.attrs.json).arg k Val.str = o.arg k Val.str :=
      fun k => arg_json o _ k _ str_json
    unfold operation
    simp only [hi, hn, hs]
    cases hcls : o.cls <;> rw [hcls] at hc <;> first | rfl | (exfalso; simp [sound] at hc; done) | skip
    show (match Dict.get "padding" o.attrs.json with | some (.seq _ l) => _ | _ => _) = _
    rw [get_json]
    rw [hcls] at h6
    cases hg : kw.get "padding" with
    | none =>
      exfalso
      rw [hcls] at h
      unfold construct at h
      rw [if_neg (by simp [Cls.lambda])] at h
      split at h
      · exact absurd h (by simp)
      · simp [bind, Cls.params, hg] at h
    | some v =>
      rw [h6 (by simp) "padding" v (by simp [Cls.params]) hg]
      cases v with
      | item i => rfl
      | seq t l =>
        show ((l.map Item.json).mapM paddingOf).map _ = (l.mapM paddingOf).map _
        have hno := hpad hcls t l hg
        congr 1
        clear hg
        induction l with
        | nil => rfl
        | cons i l ih =>
          rw [List.map_cons, List.mapM_cons, List.mapM_cons, ih (fun m hm => hno m (List.mem_cons_of_mem _ hm))]
          have : paddingOf i.json = paddingOf i := by
            cases i with
            | leaf l => rfl
            | seq t m =>
              cases t with
              | false => rfl
              | true => exact absurd (List.mem_cons_self) (hno m)
          rw [this]

/-- A sequence of integers as an argument. -/
def intsVal (tuple : Bool) (l : List ℤ) : Val := .seq tuple (l.map fun n => .leaf (.int n))

theorem ints_intsVal (tuple : Bool) (l : List ℤ) : (intsVal tuple l).ints = some l := by
  unfold intsVal
  show (l.map fun n => Item.leaf (.int n)).mapM Item.int = some l
  induction l with
  | nil => rfl
  | cons n l ih => rw [List.map_cons, List.mapM_cons, ih]; rfl

theorem mapM_widths (l : List ℤ) : (l.map fun n => Item.leaf (.int n)).mapM paddingOf = .ok (l.map fun n => (n, n)) := by
  induction l with
  | nil => rfl
  | cons n l ih => rw [List.map_cons, List.mapM_cons, ih]; rfl

theorem made_casting (name : String) (t : String) : construct .casting ([("name", .item (.leaf (.str name)))] ++ [("to_type", .item (.leaf (.str t)))]) =
    .ok ⟨.casting, [("name", .item (.leaf (.str name)))], [("to_type", .item (.leaf (.str t)))]⟩ := by
  simp [construct, bind, initAttrs, Cls.params, Cls.lambda, baseKeys, Dict.get]

theorem made_gather (name : String) (tuple : Bool) (l : List ℤ) (k : ℤ) : construct .gather ([("name", .item (.leaf (.str name)))] ++ [("indices", intsVal tuple l), ("axis", intVal k)]) =
    .ok ⟨.gather, [("name", .item (.leaf (.str name)))], [("indices", intsVal tuple l), ("axis", intVal k)]⟩ := by
  simp [construct, bind, initAttrs, Cls.params, Cls.lambda, baseKeys, Dict.get]

theorem made_gather' (name : String) (tuple : Bool) (l : List ℤ) : construct .gather ([("name", .item (.leaf (.str name)))] ++ [("indices", intsVal tuple l)]) =
    .ok ⟨.gather, [("name", .item (.leaf (.str name)))], [("indices", intsVal tuple l), ("axis", intVal 1)]⟩ := by
  simp [construct, bind, initAttrs, Cls.params, Cls.lambda, baseKeys, Dict.get]

theorem made_roll' (name : String) (tuple : Bool) (l : List ℤ) : construct .roll ([("name", .item (.leaf (.str name)))] ++ [("roll_for_axis", intsVal tuple l)]) =
    .ok ⟨.roll, [("name", .item (.leaf (.str name)))], [("roll_for_axis", intsVal tuple l), ("axes_to_roll", intsVal false ((List.range l.length).map fun i : Nat => (i : ℤ) + 1))]⟩ := by
  simp [construct, bind, initAttrs, Cls.params, Cls.lambda, baseKeys, Dict.get, intsVal, Val.len, noneVal]

theorem made_roll (name : String) (tuple : Bool) (l axes : List ℤ) (hax : axes.length = l.length) : construct .roll ([("name", .item (.leaf (.str name)))] ++ [("roll_for_axis", intsVal tuple l), ("axes_to_roll", intsVal tuple axes)]) =
    .ok ⟨.roll, [("name", .item (.leaf (.str name)))], [("roll_for_axis", intsVal tuple l), ("axes_to_roll", intsVal tuple axes)]⟩ := by
  simp [construct, bind, initAttrs, Cls.params, Cls.lambda, baseKeys, Dict.get, intsVal, Val.len, hax]

theorem made_rot90 (name : String) (k : ℤ) : construct .rot90 ([("name", .item (.leaf (.str name)))] ++ [("num_of_rotations", intVal k)]) =
    .ok ⟨.rot90, [("name", .item (.leaf (.str name)))], [("num_of_rotations", intVal k)]⟩ := by
  simp [construct, bind, initAttrs, Cls.params, Cls.lambda, baseKeys, Dict.get]

theorem made_rot90' (name : String) : construct .rot90 [("name", .item (.leaf (.str name)))] =
    .ok ⟨.rot90, [("name", .item (.leaf (.str name)))], [("num_of_rotations", intVal 1)]⟩ := by
  simp [construct, bind, initAttrs, Cls.params, Cls.lambda, baseKeys, Dict.get]

theorem made_padding (name : String) (tuple : Bool) (l : List ℤ) : construct .periodicPadding ([("name", .item (.leaf (.str name)))] ++ [("padding", intsVal tuple l)]) =
    .ok ⟨.periodicPadding, [("name", .item (.leaf (.str name)))], [("padding", intsVal tuple l)]⟩ := by
  simp [construct, bind, initAttrs, Cls.params, Cls.lambda, baseKeys, Dict.get]

theorem made_complex (name : String) (k : ℤ) : construct .vectorToComplex ([("name", .item (.leaf (.str name)))] ++ [("axis", intVal k)]) =
    .ok ⟨.vectorToComplex, [("name", .item (.leaf (.str name)))], [("axis", intVal k)]⟩ := by
  simp [construct, bind, initAttrs, Cls.params, Cls.lambda, baseKeys, Dict.get]

theorem made_complex' (name : String) : construct .vectorToComplex [("name", .item (.leaf (.str name)))] =
    .ok ⟨.vectorToComplex, [("name", .item (.leaf (.str name)))], [("axis", intVal (-1))]⟩ := by
  simp [construct, bind, initAttrs, Cls.params, Cls.lambda, baseKeys, Dict.get]

/-- `C114_copy_partial` and `C114_reload_partial` speak of layers that do something: constructed from arguments of the right
types, the layers perform the operation that the arguments name. Axes that are not given are the first axes after that of the
batch for `Roll`, the first of these for `Gather`, and the last axis for `VectorToComplexNumber`. -/
theorem C114_operations (name : String) (tuple : Bool) (l : List ℤ) (k : ℤ) :
    let base : Dict := [("name", .item (.leaf (.str name)))]
    (∃ o, construct .casting (base ++ [("to_type", .item (.leaf (.str "float32")))]) = .ok o ∧ o.base = base ∧
      operation o = .ok (.cast "float32")) ∧
    (∃ o, construct .gather (base ++ [("indices", intsVal tuple l), ("axis", intVal k)]) = .ok o ∧ o.base = base ∧
      operation o = .ok (.gather l k)) ∧
    (∃ o, construct .gather (base ++ [("indices", intsVal tuple l)]) = .ok o ∧ o.base = base ∧
      operation o = .ok (.gather l 1)) ∧
    (∃ o, construct .roll (base ++ [("roll_for_axis", intsVal tuple l)]) = .ok o ∧ o.base = base ∧
      operation o = .ok (.roll l ((List.range l.length).map fun i : Nat => (i : ℤ) + 1))) ∧
    (∀ axes : List ℤ, axes.length = l.length →
      ∃ o, construct .roll (base ++ [("roll_for_axis", intsVal tuple l), ("axes_to_roll", intsVal tuple axes)]) = .ok o ∧
        o.base = base ∧ operation o = .ok (.roll l axes)) ∧
    (∃ o, construct .rot90 (base ++ [("num_of_rotations", intVal k)]) = .ok o ∧ o.base = base ∧
      operation o = .ok (.rot90 k)) ∧
    (∃ o, construct .rot90 base = .ok o ∧ o.base = base ∧ operation o = .ok (.rot90 1)) ∧
    (∃ o, construct .periodicPadding (base ++ [("padding", intsVal tuple l)]) = .ok o ∧ o.base = base ∧
      operation o = .ok (.pad (l.map fun n => (n, n)))) ∧
    (∃ o, construct .vectorToComplex (base ++ [("axis", intVal k)]) = .ok o ∧ o.base = base ∧
      operation o = .ok (.toComplex k)) ∧
    (∃ o, construct .vectorToComplex base = .ok o ∧ o.base = base ∧ operation o = .ok (.toComplex (-1))) := by
  intro base
  refine ⟨⟨_, made_casting name "float32", rfl, rfl⟩, ⟨_, made_gather name tuple l k, rfl, ?_⟩, ⟨_, made_gather' name tuple l, rfl, ?_⟩,
    ⟨_, made_roll' name tuple l, rfl, ?_⟩, fun axes hax => ⟨_, made_roll name tuple l axes hax, rfl, ?_⟩,
    ⟨_, made_rot90 name k, rfl, rfl⟩, ⟨_, made_rot90' name, rfl, rfl⟩, ⟨_, made_padding name tuple l, rfl, ?_⟩,
    ⟨_, made_complex name k, rfl, rfl⟩, ⟨_, made_complex' name, rfl, rfl⟩⟩
  · simp [operation, Obj.arg, Dict.get, ints_intsVal, Except.bind, Except.map, intVal, Val.int, Item.int]
  · simp [operation, Obj.arg, Dict.get, ints_intsVal, Except.bind, Except.map, intVal, Val.int, Item.int]
  · simp [operation, Obj.arg, Dict.get, ints_intsVal, Except.bind, Except.map]
  · simp [operation, Obj.arg, Dict.get, ints_intsVal, Except.bind, Except.map]
  · show ((l.map fun n => Item.leaf (.int n)).mapM paddingOf).map Operation.pad = _
    rw [mapM_widths]
    rfl

/-- **C114 is false of the code** for `PeriodicPadding` with a pair of widths: the pair is read back as a list, and
the loaded layer raises `TypeError` when it is called. -/
theorem C114_violated_padding (strict : Bool) (before after : ℤ) :
    ∃ o o', construct .periodicPadding [("padding", .seq true [.seq true [.int before, .int after]])] = .ok o ∧
      operation o = .ok (.pad [(before, after)]) ∧ reload strict o = .ok o' ∧ operation o' = .error .typeError := by
  refine ⟨⟨.periodicPadding, [], [("padding", .seq true [.seq true [.int before, .int after]])]⟩,
    ⟨.periodicPadding, [], [("padding", .seq false [.seq false [.int before, .int after]])]⟩, ?_, ?_, ?_, ?_⟩
  · simp [construct, bind, initAttrs, Cls.params, Cls.lambda, baseKeys, Dict.get]
  · rfl
  · simp [reload, getConfig, construct, bind, initAttrs, Cls.params, Cls.lambda, Cls.overrides, baseKeys, Dict.get, Dict.json,
      Val.json, Item.json]
  · rfl

/-- **C114 is false of the code** for `LayerNormalization`: before version 1.14 the copy of a layer with another
`epsilon` than the default silently has the default, in version 1.14 `get_config` raises. -/
theorem C114_violated_layer_normalization (epsilon : ℝ) (he : epsilon ≠ 1 / 10 ^ 5) :
    ∃ o o', construct .layerNormalization [("epsilon", .item (.leaf (.real epsilon)))] = .ok o ∧
      operation o = .ok (.layerNorm epsilon) ∧ copy false o = .ok o' ∧ reload false o = .ok o' ∧
      operation o' = .ok (.layerNorm (1 / 10 ^ 5)) ∧ operation o' ≠ operation o ∧ copy true o = .error .notImplemented := by
  have h1 : operation ⟨.layerNormalization, [], [("epsilon", .item (.leaf (.real epsilon)))]⟩ = .ok (.layerNorm epsilon) := rfl
  have h2 : operation ⟨.layerNormalization, [], [("epsilon", .item (.leaf (.real (1 / 10 ^ 5))))]⟩ =
    .ok (.layerNorm (1 / 10 ^ 5)) := rfl
  refine ⟨⟨.layerNormalization, [], [("epsilon", .item (.leaf (.real epsilon)))]⟩,
    ⟨.layerNormalization, [], [("epsilon", .item (.leaf (.real (1 / 10 ^ 5))))]⟩, ?_, h1, ?_, ?_, h2, ?_, ?_⟩
  · simp [construct, bind, initAttrs, Cls.params, Cls.lambda, baseKeys, Dict.get]
  · simp [copy, getConfig, construct, bind, initAttrs, Cls.params, Cls.lambda, Cls.overrides, Dict.get]
  · simp [reload, getConfig, construct, bind, initAttrs, Cls.params, Cls.lambda, Cls.overrides, Dict.get, Dict.json]
  · rw [h1, h2]
    intro h
    exact he (Operation.layerNorm.inj (Except.ok.inj h)).symm
  · simp [copy, getConfig, Cls.lambda, Cls.overrides, Cls.params]

/-- **C114 is false of the code** for the complex layers and all subclasses of `Lambda`: no layer of these classes can
be rebuilt, however it was constructed. -/
theorem C114_violated_complex_and_lambda (strict : Bool) (c : Cls)
    (hc : c ∈ [Cls.complexDense, .translationInvariantDense, .complexConv1D, .complexConv2D, .complexConv3D, .toOneHot,
      .normalizeInLogSpace, .combineConditionals, .plusMinusOneToOneHot, .equalUpDownSpins, .flipSpins])
    (kw : Dict) (o : Obj) (h : construct c kw = .ok o) :
    (∃ e, copy strict o = .error e) ∧ ∃ e, reload strict o = .error e := by
  have hcls : o.cls = c ∧ ∀ e ∈ o.base, e.1 ∈ baseKeys := by
    unfold construct at h
    split at h
    · exact absurd h (by simp)
    · split at h
      · exact absurd h (by simp)
      · cases hb : bind c.params kw with
        | none => rw [hb] at h; exact absurd h (by simp)
        | some attrs =>
          rw [hb] at h
          dsimp only at h
          cases hi : initAttrs c attrs with
          | error e => rw [hi] at h; exact absurd h (by simp)
          | ok attrs' =>
            rw [hi] at h
            rw [← Except.ok.inj h]
            exact ⟨rfl, fun e he => by simpa using (List.mem_filter.1 he).2⟩
  obtain ⟨h1, h2⟩ := hcls
  have hjson : ∀ e ∈ o.base.json, e.1 ∈ baseKeys := by
    intro e he
    obtain ⟨e', he', rfl⟩ := List.mem_map.1 he
    exact h2 e' he'
  -- the base configuration lacks the arguments without default
  have hmiss : ∀ (k : String) (rest : List (String × Option Val)) (base : Dict), k ∉ baseKeys → (∀ e ∈ base, e.1 ∈ baseKeys) →
      bind ((k, none) :: rest) base = none := by
    intro k rest base hk hb
    unfold bind
    rw [List.mapM_cons, get_none (k := k) fun e he hek => hk (hek ▸ hb e he)]
    rfl
  have hfail : ∀ (k : String) (rest : List (String × Option Val)), c.params = (k, none) :: rest → k ∉ baseKeys → c.lambda = none →
      ∀ base : Dict, (∀ e ∈ base, e.1 ∈ baseKeys) → construct c base = .error .typeError := by
    intro k rest hp hk hl base hb
    unfold construct
    rw [hl, if_neg (by simp), if_neg (by rintro ⟨e, he, h, -⟩; exact h (hb e he)), hp, hmiss k rest base hk hb]
  have plain : ∀ (k : String) (rest : List (String × Option Val)), c.params = (k, none) :: rest → k ∉ baseKeys → c.lambda = none →
      c.overrides = false → (∃ e, copy strict o = .error e) ∧ ∃ e, reload strict o = .error e := by
    intro k rest hp hk hl ho
    unfold copy reload getConfig
    rw [h1, hl]
    dsimp only
    rw [ho, if_neg (by simp)]
    cases strict with
    | true =>
      rw [if_pos ⟨rfl, by rw [hp]; simp⟩]
      exact ⟨⟨_, rfl⟩, _, rfl⟩
    | false =>
      rw [if_neg (by simp)]
      exact ⟨⟨_, hfail k rest hp hk hl _ h2⟩, _, hfail k rest hp hk hl _ hjson⟩
  have part : c.lambda = some .partialApplication → (∃ e, copy strict o = .error e) ∧ ∃ e, reload strict o = .error e := by
    intro hl
    unfold copy reload getConfig
    rw [h1, hl]
    exact ⟨⟨_, rfl⟩, _, rfl⟩
  have named : c.lambda = some .named → (∃ e, copy strict o = .error e) ∧ ∃ e, reload strict o = .error e := by
    intro hl
    unfold copy reload getConfig
    rw [h1, hl]
    dsimp only
    have hf : ∀ base : Dict, (∀ e ∈ base, e.1 ∈ baseKeys) → ∀ v, construct c (base ++ [("function", v)]) = .error .typeError := by
      intro base hb v
      unfold construct
      rw [hl, if_pos]
      refine ⟨rfl, ?_⟩
      rw [get_append, get_none (k := "function") fun e he hek => by
        have := hb e he
        rw [hek] at this
        simp [baseKeys] at this]
      rfl
    refine ⟨⟨_, hf _ h2 _⟩, .typeError, ?_⟩
    rw [json_append]
    exact hf _ hjson _
  simp only [List.mem_cons, List.not_mem_nil, or_false] at hc
  rcases hc with rfl | rfl | rfl | rfl | rfl | rfl | rfl | rfl | rfl | rfl | rfl
  · exact plain "units" _ rfl (by simp [baseKeys]) rfl rfl
  · exact plain "units" _ rfl (by simp [baseKeys]) rfl rfl
  · exact plain "filters" _ rfl (by simp [baseKeys]) rfl rfl
  · exact plain "filters" _ rfl (by simp [baseKeys]) rfl rfl
  · exact plain "filters" _ rfl (by simp [baseKeys]) rfl rfl
  · exact part rfl
  · exact part rfl
  · exact named rfl
  · exact named rfl
  · exact named rfl
  · exact named rfl

/-- **C114 is false of the code** for whole models: with the default `save_weights_only=False`, `CheckpointByTime` fails on
every autoregressive machine, whatever its network and the optimizer, and on every model trained with
`ComplexValuesOptimizer` or stochastic reconfiguration. With `save_weights_only=True` it reads no configuration. -/
theorem C114_violated_checkpoint (strict : Bool) (network : List Obj) (optimizer : Except Err Unit) :
    (∃ e, save strict false (autoregressiveModel network) optimizer = .error e) ∧
    (∃ e, save strict false network complexOptimizerConfig = .error e) ∧
    save strict true (autoregressiveModel network) optimizer = .ok () := by
  have hm : ∀ l : List Obj, ∃ e, (autoregressiveModel l).mapM (getConfig strict) = .error e := by
    intro l
    induction l with
    | nil => exact ⟨.attributeError, rfl⟩
    | cons o l ih =>
      obtain ⟨e, he⟩ := ih
      rw [show autoregressiveModel (o :: l) = o :: autoregressiveModel l from rfl, List.mapM_cons, he]
      cases getConfig strict o with
      | error e' => exact ⟨e', rfl⟩
      | ok d => exact ⟨e, rfl⟩
  refine ⟨?_, ?_, rfl⟩
  · obtain ⟨e, he⟩ := hm network
    refine ⟨e, ?_⟩
    unfold save
    rw [if_neg (by simp), he]
  · unfold save
    rw [if_neg (by simp)]
    cases network.mapM (getConfig strict) with
    | error e => exact ⟨e, rfl⟩
    | ok d => exact ⟨_, rfl⟩

/-! ### Concrete cases -/

/-- A shift by two along the first axis and by one along the second, given as a tuple: the axes are filled in by the
constructor, and the loaded layer shifts in the same way. -/
example : ∃ o o', construct .roll [("name", .item (.leaf (.str "r"))), ("roll_for_axis", .seq true [.leaf (.int 2), .leaf (.int 1)])] = .ok o ∧
    operation o = .ok (.roll [2, 1] [1, 2]) ∧ reload true o = .ok o' ∧ operation o' = .ok (.roll [2, 1] [1, 2]) := by
  have h : construct .roll [("name", .item (.leaf (.str "r"))), ("roll_for_axis", .seq true [.leaf (.int 2), .leaf (.int 1)])] =
      .ok ⟨.roll, [("name", .item (.leaf (.str "r")))], [("roll_for_axis", .seq true [.leaf (.int 2), .leaf (.int 1)]),
        ("axes_to_roll", .seq false [.leaf (.int 1), .leaf (.int 2)])]⟩ := by
    simp [construct, bind, initAttrs, Cls.params, Cls.lambda, baseKeys, Dict.get, noneVal, Val.len, List.range_succ]
  have hop : operation ⟨.roll, [("name", .item (.leaf (.str "r")))], [("roll_for_axis", .seq true [.leaf (.int 2), .leaf (.int 1)]),
        ("axes_to_roll", .seq false [.leaf (.int 1), .leaf (.int 2)])]⟩ = .ok (.roll [2, 1] [1, 2]) := rfl
  obtain ⟨o', h1, -, -, h4⟩ := C114_reload_partial true .roll (by simp [sound]) _ _ h (by simp)
  exact ⟨_, o', h, hop, h1, h4.trans hop⟩

end

end Verif.Net.Config
