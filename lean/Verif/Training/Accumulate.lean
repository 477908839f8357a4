import Mathlib.Algebra.Module.Defs
import Mathlib.Data.Real.Basic

/-
Model of `src/flowket/optimizers/accumulate_gradient_optimizer.py`.
-/
namespace Verif.Training

/-- The wrapped optimizer: its own variables together with the trained parameters are one state
`Opt`; `update` is one application of `orig_get_updates` with the given gradient
(accumulate_gradient_optimizer.py:22,67), `params` reads the trained parameters. Gradients and
parameters are vectors (the list of tensors seen as one vector). -/
structure Optimizer (Opt G P : Type) where
  update : Opt → G → Opt
  params : Opt → P
  setParams : Opt → P → Opt

/-- Variables added by `convert_to_accumulate_gradient_optimizer`
(accumulate_gradient_optimizer.py:23-26,55-58). -/
structure AccState (Opt G P : Type) where
  opt : Opt
  accumulators : G
  accumulatedIterations : Nat
  updateParamsFrequency : Nat
  paramsEma : P
  totalIterations : Nat

/-- Settings fixed when the optimizer is converted (accumulate_gradient_optimizer.py:13). -/
structure AccConfig where
  accumulateSum : Bool
  emaDecay : ℝ

variable {Opt G P : Type} [AddCommGroup G] [Module ℝ G] [AddCommGroup P] [Module ℝ P]

/-- `convert_to_accumulate_gradient_optimizer` (accumulate_gradient_optimizer.py:13-26,55-58): the
initial state, or `none` for the `ValueError` of line 15. -/
def convert (opt : Opt) (updateParamsFrequency : Nat) : Option (AccState Opt G P) :=
  if updateParamsFrequency < 1 then none
  else some ⟨opt, 0, 0, updateParamsFrequency, 0, 0⟩

/-- One training step with fresh gradient `g` (accumulate_gradient_optimizer.py:54-82). Graph
execution order: counter and accumulators are updated first (control dependency line 80), then the
switch (line 78) uses the increased counter. In `update_function` (66-73) the wrapped optimizer runs
with the accumulators as gradient, then the accumulators are reset and the moving average is updated
with the new parameters. With `ema_decay = 0` the moving average variables do not exist; here they
are kept but have no influence on the rest. The all-reduce over workers (49-50) is not modelled. -/
noncomputable def accStep (o : Optimizer Opt G P) (cfg : AccConfig) (st : AccState Opt G P) (g : G) :
    AccState Opt G P :=
  let iter := st.accumulatedIterations + 1
  let newGrad := if cfg.accumulateSum then g else (1 / (st.updateParamsFrequency : ℝ)) • g
  let acc := st.accumulators + newGrad
  if iter % st.updateParamsFrequency = 0 then
    let opt' := o.update st.opt acc
    { opt := opt'
      accumulators := 0
      accumulatedIterations := iter
      updateParamsFrequency := st.updateParamsFrequency
      paramsEma := cfg.emaDecay • st.paramsEma + (1 - cfg.emaDecay) • o.params opt'
      totalIterations := st.totalIterations + 1 }
  else
    { st with accumulators := acc, accumulatedIterations := iter }

/-- Training on a sequence of mini-batches: the gradient of a mini-batch is computed at the current
parameters (accumulate_gradient_optimizer.py:60). -/
noncomputable def accTrain {B : Type} (o : Optimizer Opt G P) (cfg : AccConfig) (grad : P → B → G)
    (st : AccState Opt G P) (batches : List B) : AccState Opt G P :=
  batches.foldl (fun st b => accStep o cfg st (grad (o.params st.opt) b)) st

/-- `set_update_params_frequency` (accumulate_gradient_optimizer.py:28-29): only the frequency
variable is written. -/
def setUpdateParamsFrequency (st : AccState Opt G P) (k : Nat) : AccState Opt G P :=
  { st with updateParamsFrequency := k }

/-- `set_weights_ema` (accumulate_gradient_optimizer.py:31-32). Before the first update the divisor
`1 - decay^0` is zero and the weights become NaN: `none`. -/
noncomputable def setWeightsEma (o : Optimizer Opt G P) (cfg : AccConfig) (st : AccState Opt G P) :
    Option (AccState Opt G P) :=
  if 1 - cfg.emaDecay ^ st.totalIterations = 0 then none
  else some { st with
    opt := o.setParams st.opt ((1 / (1 - cfg.emaDecay ^ st.totalIterations)) • st.paramsEma) }

end Verif.Training
