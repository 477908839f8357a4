import Mathlib.Analysis.SpecialFunctions.Pow.Real
import Mathlib.Analysis.SpecialFunctions.Log.Basic
import Mathlib.Analysis.Complex.Exponential
import Verif.Operators.Basic

/-
Model of the autoregressive wave function: `src/flowket/deepar/layers/autoregressive.py`,
`src/flowket/deepar/layers/one_hot.py`, the machines of `src/flowket/machines/abstract_machine.py`, and
`AutoregressiveSampler` (`src/flowket/deepar/samplers/autoregressive.py`).

Sites are elements of a finite type `ι`; a configuration gives an integer per site.
-/
namespace Verif.Autoregressive

open Verif.Operators (Config)

/-- `reduce_logsumexp` over the last axis. -/
noncomputable def logSumExp {k : Nat} (x : Fin k → ℝ) : ℝ := Real.log (∑ c, Real.exp (x c))

/-- Real branch of `normalize_in_log_space` (deepar/layers/autoregressive.py:14-15) on the vector along
the last axis. -/
noncomputable def normalizeReal {k : Nat} (t : ℝ) (x : Fin k → ℝ) : Fin k → ℝ :=
  let norm := (1 / t) * logSumExp fun c => x c * t
  fun c => x c - norm

/-- Complex branch of `normalize_in_log_space` (deepar/layers/autoregressive.py:9-12). -/
noncomputable def normalizeComplex {k : Nat} (t : ℝ) (x : Fin k → ℂ) : Fin k → ℂ :=
  let norm := (1 / t) * logSumExp fun c => (x c).re * t
  fun c => ⟨(x c).re - norm, (x c).im⟩

/-- `tensorflow.one_hot` of an integer index: all zeros when the index is out of range. -/
def oneHot {k : Nat} (idx : ℤ) (c : Fin k) : ℝ := if (c.val : ℤ) = idx then 1 else 0

/-- `plus_minus_one_to_one_hot` (deepar/layers/one_hot.py:7-9); `//` is floor division. -/
def plusMinusOneToOneHot (x : ℤ) : Fin 2 → ℝ := oneHot ((1 - x) / 2)

/-- `to_one_hot` (deepar/layers/one_hot.py:12-14). -/
def toOneHot (k : Nat) (x : ℤ) : Fin k → ℝ := oneHot x

variable {ι : Type} [Fintype ι] [DecidableEq ι]

/-- `combine_autoregressive_conditionals` (deepar/layers/autoregressive.py:18-22): sum over sites and
categories of value times one-hot input. -/
noncomputable def combine {k : Nat} (x : ι → Fin k → ℂ) (oneHotInput : ι → Fin k → ℝ) : ℂ :=
  ∑ i, ∑ c, x i c * (oneHotInput i c : ℂ)

/-- A network computing unnormalised conditional log amplitudes of the two spin values at every site
from the configuration. -/
abbrev Net (ι : Type) := Config ι → ι → Fin 2 → ℂ

/-- `_conditional_log_wave_function` (machines/abstract_machine.py:54-55), without the optional
`EqualUpDownSpins` layer. -/
noncomputable def condLogWave (net : Net ι) (s : Config ι) (i : ι) : Fin 2 → ℂ := normalizeComplex 2 (net s i)

/-- `_conditional_log_probs` (machines/abstract_machine.py:56-57). -/
noncomputable def condLogProbs (net : Net ι) (s : Config ι) (i : ι) (c : Fin 2) : ℝ :=
  (condLogWave net s i c).re * 2

/-- `predictions` of an `AutoregressiveMachine` (machines/abstract_machine.py:34-37): the logarithm of
the amplitude. -/
noncomputable def logWave (net : Net ι) (s : Config ι) : ℂ :=
  combine (condLogWave net s) fun i => plusMinusOneToOneHot (s i)

/-- One iteration of the loop of `AutoregressiveSampler.__next__` (deepar/samplers/autoregressive.py:33-44)
at site `i`, for one or two dimensions: predict on the whole batch, then assign the column. -/
noncomputable def samplerStep {B : Nat} (zeroBase : Bool) (logProbs : Config ι → ι → Fin 2 → ℝ)
    (randomBatch : Fin B → ι → ℝ) (batch : Fin B → Config ι) (i : ι) : Fin B → Config ι :=
  let out := fun b => logProbs (batch b)
  let batch1 : Fin B → Config ι := fun b =>
    Function.update (batch b) i (if Real.exp (out b i 0) > randomBatch b i then 1 else 0)
  if zeroBase then batch1
  else fun b => Function.update (batch1 b) i (2 * batch1 b i - 1)

/-- `AutoregressiveSampler.__next__` (deepar/samplers/autoregressive.py:29-48) as a function of the
random array. `order` is `list(self.autoregressive_ordering(self.input_size))`, `dims` the number of
dimensions of the lattice; other than one or two dimensions raise (line 47) unless there is no site. -/
noncomputable def sample {B : Nat} (dims : Nat) (zeroBase : Bool) (logProbs : Config ι → ι → Fin 2 → ℝ)
    (order : List ι) (randomBatch : Fin B → ι → ℝ) : Except Unit (Fin B → Config ι) :=
  if (dims = 1 ∨ dims = 2) ∨ order = [] then
    .ok (order.foldl (samplerStep zeroBase logProbs randomBatch) fun _ _ => 0)
  else .error ()

end Verif.Autoregressive
