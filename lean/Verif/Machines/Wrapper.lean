import Verif.Autoregressive.Props

/-!
# C53: wrapping a Keras model of conditionals as a machine

Model of the constructors in `src/flowket/machines/abstract_machine.py`: an object is the record of the instance
attributes that have been assigned so far, reading an attribute that was never assigned raises, and the properties
are looked up in the class of the object. Layers are applied symbolically: a tensor is the function of the
input configuration that it computes.
-/
namespace Verif.Wrapper

open Verif.Operators (Config)
open Verif.Autoregressive (Net condLogWave logWave combine plusMinusOneToOneHot normalizeComplex)

variable {ι : Type} [Fintype ι] [DecidableEq ι]

/-- Python exceptions that occur here. -/
inductive Err where
  | attributeError (name : String)
  | assertionError
  deriving DecidableEq

/-- Instance attributes; `none` is "not assigned". -/
structure Obj (ι : Type) where
  keras_input_layer : Option Unit := none
  use_pfor : Option Bool := none
  conditional_wave_functions_model : Option (Net ι) := none
  _unnormalized_conditional_log_wave_function : Option (Net ι) := none
  _conditional_log_wave_function : Option (Net ι) := none
  _conditional_log_probs : Option (Config ι → ι → Fin 2 → ℝ) := none
  _predictions : Option (Config ι → ℂ) := none

/-- Read an instance attribute. -/
def read {α : Type} (name : String) : Option α → Except Err α
  | some a => .ok a
  | none => .error (.attributeError name)

/-- The two properties that subclasses define (lines 43-46, 63-65, 71-74, 82-84). -/
structure Class (ι : Type) where
  unnormalized_conditional_log_wave_function : Obj ι → Except Err (Net ι)
  conditional_log_wave_function : Obj ι → Except Err (Net ι)

/-- Property of `AutoNormalizedAutoregressiveMachine` (lines 61-63), inherited by the wrapper and by all networks. -/
def getConditional (o : Obj ι) : Except Err (Net ι) :=
  read "_conditional_log_wave_function" o._conditional_log_wave_function

/-- `AutoregressiveWrapper` (lines 74-81). -/
def wrapperClass : Class ι where
  unnormalized_conditional_log_wave_function o := read "conditional_wave_functions_model" o.conditional_wave_functions_model
  conditional_log_wave_function := getConditional

/-- The autoregressive networks of the library (for example `SimpleConvNetAutoregressive1D`,
simple_conv_net_autoregressive_1D.py lines 41-43). -/
def networkClass : Class ι where
  unnormalized_conditional_log_wave_function o :=
    read "_unnormalized_conditional_log_wave_function" o._unnormalized_conditional_log_wave_function
  conditional_log_wave_function := getConditional

/-- `Machine.__init__` (lines 15-18). -/
def machineInit (usePfor : Bool) (o : Obj ι) : Obj ι := { o with keras_input_layer := some (), use_pfor := some usePfor }

/-- `AutoregressiveMachine.__init__` (lines 32-37) on an object of class `cls`. -/
noncomputable def autoregressiveInit (cls : Class ι) (usePfor : Bool) (o : Obj ι) : Except Err (Obj ι) := do
  let o := machineInit usePfor o
  let cond ← cls.conditional_log_wave_function o
  return { o with _predictions := some fun s => combine (cond s) fun i => plusMinusOneToOneHot (s i) }

/-- `AutoNormalizedAutoregressiveMachine.__init__` (lines 50-58) with `equal_up_down_spins=False`. -/
noncomputable def autoNormalizedInit (cls : Class ι) (usePfor : Bool) (o : Obj ι) : Except Err (Obj ι) := do
  let x ← cls.unnormalized_conditional_log_wave_function o
  let cond : Net ι := fun s i => normalizeComplex 2 (x s i)
  let o := { o with _conditional_log_wave_function := some cond, _conditional_log_probs := some fun s i c => (cond s i c).re * 2 }
  autoregressiveInit cls usePfor o

/-- `AutoregressiveWrapper.__init__` (lines 75-77): `super(AutoNormalizedAutoregressiveMachine, self)` is the class
after `AutoNormalizedAutoregressiveMachine` in the method resolution order, `AutoregressiveMachine`; the model is
stored afterwards. -/
noncomputable def wrapperInit (model : Net ι) : Except Err (Obj ι) := do
  let o ← autoregressiveInit wrapperClass false {}
  return { o with conditional_wave_functions_model := some model }

/-- `keras_conditional_wave_functions_to_wave_function` (lines 84-86); `check` is the outcome of
`assert_valid_probabilistic_model` on the model (property C44). -/
noncomputable def toWaveFunction (check : Except Err Unit) (model : Net ι) : Except Err (Obj ι) := do
  check
  wrapperInit model

/-- Construction of a network of the library: build the unnormalised conditionals, then call the base
constructor (simple_conv_net_autoregressive_1D.py lines 38-39, and likewise in the other networks). -/
noncomputable def networkInit (usePfor : Bool) (net : Net ι) : Except Err (Obj ι) :=
  autoNormalizedInit networkClass usePfor { _unnormalized_conditional_log_wave_function := some net }

/-- `machine.predictions` (lines 39-41). -/
def predictions (o : Obj ι) : Except Err (Config ι → ℂ) := read "_predictions" o._predictions

/-- **C53 fails.** For every model that passes the validity assertion, the call raises an `AttributeError`: no model
at all can be wrapped. -/
theorem C53_violated (model : Net ι) :
    toWaveFunction (.ok ()) model = .error (.attributeError "_conditional_log_wave_function") := rfl

/-- **C53, the part that holds: rejection.** A model that fails the assertion is reported as such. -/
theorem C53_rejects_partial (model : Net ι) : toWaveFunction (.error .assertionError) model = .error .assertionError := rfl

/-- **C53, the part that holds: library networks.** Every network of the library, whose constructor builds its
conditionals first and then calls the base constructor, yields a machine whose prediction is the logarithm of the
product of the normalised conditional amplitudes. -/
theorem C53_networks_partial (usePfor : Bool) (net : Net ι) :
    ∃ o, networkInit usePfor net = .ok o ∧ predictions o = .ok (logWave net) ∧
      o._conditional_log_probs = some (Verif.Autoregressive.condLogProbs net) ∧ o.use_pfor = some usePfor :=
  ⟨_, rfl, rfl, rfl, rfl⟩

/-- A concrete network, to which both theorems apply. -/
example : (∃ o, networkInit (ι := Fin 2) false (fun s i c => s i + c.val) = .ok o) ∧
    ¬ ∃ o, toWaveFunction (ι := Fin 2) (.ok ()) (fun s i c => s i + c.val) = .ok o := by
  refine ⟨⟨_, rfl⟩, ?_⟩
  rintro ⟨o, ho⟩
  rw [C53_violated] at ho
  cases ho

end Verif.Wrapper
