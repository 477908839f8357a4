import Verif.Training.MiniBatch
import Verif.Energy.Local
import Verif.Operators.Basic

/-!
Model of the Monte Carlo callbacks (`src/flowket/callbacks/monte_carlo/*.py`), the observables they use
(`src/flowket/observables/monte_carlo/{observable,sigma_z}.py`) and of `evaluate`
(`src/flowket/evaluation/evaluate.py`).  Logged numbers are exact reals; `numpy.mean` of an empty list
(nan) only occurs for empty batches.
-/
namespace Verif.Callbacks

open Verif.Training Verif.Energy Verif.Operators

/-- The dictionary `logs`: keys in insertion order. -/
abbrev Logs := List (String × ℝ)

/-- `logs[k] = v`. -/
def Logs.put (l : Logs) (k : String) (v : ℝ) : Logs :=
  match l with
  | [] => [(k, v)]
  | p :: rest => if p.1 = k then (k, v) :: rest else p :: Logs.put rest k v

/-- What `logs[k]` returns, `none` for the KeyError. -/
def Logs.read (l : Logs) (k : String) : Option ℝ :=
  match l with
  | [] => none
  | p :: rest => if p.1 = k then some p.2 else Logs.read rest k

variable {ι : Type} [Fintype ι] {S : Type}

/-- `sigma_z` for one configuration (sigma_z.py 13-16): sum of the spins over their number. -/
noncomputable def sigmaZ (c : Config ι) : ℝ := ((∑ i, c i : ℤ) : ℝ) / Fintype.card ι

/-- `abs_sigma_z` for one configuration (sigma_z.py 7-10). -/
noncomputable def absSigmaZ (c : Config ι) : ℝ := |((∑ i, c i : ℤ) : ℝ)| / Fintype.card ι

/-- A generator (`VariationalMonteCarlo`); an entry of its batch is a sample with its local energy. Its
attributes `current_batch` and `current_local_energy` are set together with `_x`
(variational_monte_carlo.py 42-50, mini_batch_generator.py 29), so that they are read off `x`. -/
abbrev Generator (S ι : Type) := MBState S (Config ι × ℂ)

/-- `current_energy` of a batch (variational_monte_carlo.py 34-36, observable.py 10-14). -/
noncomputable def batchEnergy (x : List (Config ι × ℂ)) : ℂ := mean (x.map Prod.snd)

/-- `current_local_energy_variance` of a batch (observable.py 13). -/
noncomputable def batchVariance (x : List (Config ι × ℂ)) : ℝ := variance ((x.map Prod.snd).map Complex.re)

/-- The mean of an observable of single configurations over a batch: `LambdaObservable.estimate`
(observable.py 10-23), first component, real part (callbacks/monte_carlo/observable.py 19-20). -/
noncomputable def batchObservable (f : Config ι → ℝ) (x : List (Config ι × ℂ)) : ℝ :=
  (x.map fun p => f p.1).sum / x.length

/-- The callbacks. The flags are `log_in_batch_or_epoch`, whether there is a validation generator, and
`validation_period`. -/
inductive Callback (ι : Type) where
  /-- `GeneratorIterator` of the validation generator (generator_iterator.py). -/
  | iterator (period : ℕ)
  /-- `LocalEnergyStats` (local_energy_stats.py). -/
  | energy (truth : Option ℝ) (inBatch validation : Bool) (period : ℕ)
  /-- `ObservableStats` (observable.py). -/
  | observable (f : Config ι → ℝ) (name : String) (inBatch validation : Bool) (period : ℕ)
  /-- `RuntimeStats` (runtime_stats.py). -/
  | runtime (inBatch : Bool)

/-- What callbacks can see: the training generator and the validation generator, three time stamps of
the training generator (`start_time`, `sampling_end_time`, `local_energy_end_time`) and the time now. -/
structure World (S ι : Type) where
  gen : Generator S ι
  val : Generator S ι
  start : ℝ
  samplingEnd : ℝ
  localEnergyEnd : ℝ
  now : ℝ

/-- `add_energy_stats_to_logs` (local_energy_stats.py 15-20). Simplification: for a true energy of zero numpy
logs an infinity or a nan where the model logs zero; the theorems on the relative error exclude that case. -/
noncomputable def addEnergy (truth : Option ℝ) (g : Generator S ι) (pre : String) (logs : Logs) : Logs :=
  let logs := logs.put (pre ++ "energy/energy") (batchEnergy g.x).re
  let logs := logs.put (pre ++ "energy/local_energy_variance") (batchVariance g.x)
  match truth with
  | none => logs
  | some t => logs.put (pre ++ "energy/relative_error") ((t - (batchEnergy g.x).re) / t)

/-- `add_observable_stats_to_logs` (callbacks/monte_carlo/observable.py 18-20). -/
noncomputable def addObservable (f : Config ι → ℝ) (name : String) (g : Generator S ι) (pre : String)
    (logs : Logs) : Logs :=
  logs.put (pre ++ ("observables/" ++ name)) (batchObservable f g.x)

/-- `add_runtime_stats_to_logs` (runtime_stats.py 11-16). -/
noncomputable def addRuntime (w : World S ι) (logs : Logs) : Logs :=
  let logs := logs.put "times/sampling" (w.samplingEnd - w.start)
  let logs := logs.put "times/local_energy" (w.localEnergyEnd - w.samplingEnd)
  let logs := logs.put "times/gradients" (w.now - w.localEnergyEnd)
  logs.put "times/total" (w.now - w.start)

/-- `on_batch_end` of a callback. -/
noncomputable def onBatchEnd (w : World S ι) : Callback ι → Logs → Logs
  | .iterator _, logs => logs
  | .energy truth inBatch _ _, logs => if inBatch then addEnergy truth w.gen "" logs else logs
  | .observable f name inBatch _ _, logs => if inBatch then addObservable f name w.gen "" logs else logs
  | .runtime inBatch, logs => if inBatch then addRuntime w logs else logs

/-- `on_epoch_end` of a callback; `drawVal` is `next_batch` of the validation generator with the current
weights. A period of zero (a ZeroDivisionError) is not modelled. -/
noncomputable def onEpochEnd (drawVal : S → ℕ → List (Config ι × ℂ)) (epoch : ℕ) (w : World S ι) :
    Callback ι → Logs → World S ι × Logs
  | .iterator period, logs =>
    if epoch % period = 0 then ({ w with val := (nextMiniBatch drawVal w.val).1 }, logs) else (w, logs)
  | .energy truth inBatch validation period, logs =>
    let logs := if inBatch then logs else addEnergy truth w.gen "" logs
    (w, if validation ∧ epoch % period = 0 then addEnergy truth w.val "val_" logs else logs)
  | .observable f name inBatch validation period, logs =>
    let logs := if inBatch then logs else addObservable f name w.gen "" logs
    (w, if validation ∧ epoch % period = 0 then addObservable f name w.val "val_" logs else logs)
  | .runtime inBatch, logs => (w, if inBatch then logs else addRuntime w logs)

/-- `default_wave_function_stats_callbacks_factory` (callbacks/monte_carlo/__init__.py 10-31). -/
noncomputable def defaultCallbacks (truth : Option ℝ) (inBatch validation : Bool) (period : ℕ) : List (Callback ι) :=
  (if validation then [.iterator period] else []) ++
    [.energy truth inBatch validation period,
     .observable sigmaZ "sigma_z" inBatch validation period,
     .observable absSigmaZ "abs_sigma_z" inBatch validation period,
     .runtime inBatch]

/-! ### `evaluate` -/

/-- Exceptions. -/
inductive Err where
  | keyError (k : String)
  | indexError
  | zeroDivision
  | attributeError (name : String)

/-- The mean of one key over the logs (evaluate.py 11). -/
noncomputable def meanKey (ls : List Logs) (k : String) : Except Err (String × ℝ) :=
  match ls.mapM fun l => l.read k with
  | none => .error (.keyError k)
  | some vs => .ok (k, vs.sum / vs.length)

/-- `mean_logs` (evaluate.py 5-12). -/
noncomputable def meanLogs (ls : List Logs) (keys : Option (List String)) : Except Err Logs :=
  match keys, ls with
  | some ks, ls => ks.mapM (meanKey ls)
  | none, [] => .error .indexError
  | none, l :: rest => (l.map Prod.fst).mapM (meanKey (l :: rest))

/-- The callbacks of one step of `evaluate` (evaluate.py 21-23). -/
noncomputable def runCallbacks (drawVal : S → ℕ → List (Config ι × ℂ)) (i : ℕ) :
    List (Callback ι) → World S ι → Logs → World S ι × Logs
  | [], w, logs => (w, logs)
  | cb :: rest, w, logs =>
    let r := onEpochEnd drawVal i w cb (onBatchEnd w cb logs)
    runCallbacks drawVal i rest r.1 r.2

/-- The loop of `evaluate` (evaluate.py 18-27) from step `i` on, with `n` steps to go and `ls` the logs so
far. `clock i` are the four times seen by the callbacks of step `i`. -/
noncomputable def evaluateLoop (draw drawVal : S → ℕ → List (Config ι × ℂ)) (clock : ℕ → Fin 4 → ℝ)
    (cbs : List (Callback ι)) (bar : Option (List String)) : ℕ → ℕ → World S ι → List Logs → Except Err (List Logs)
  | 0, _, _, ls => .ok ls
  | n + 1, i, w, ls =>
    let w1 : World S ι := { w with
      gen := (nextMiniBatch draw w.gen).1
      start := clock i 0, samplingEnd := clock i 1, localEnergyEnd := clock i 2, now := clock i 3 }
    let r := runCallbacks drawVal i cbs w1 []
    let ls' := ls ++ [r.2]
    match bar with
    | none => evaluateLoop draw drawVal clock cbs bar n (i + 1) r.1 ls'
    | some ks =>
      match meanLogs ls' (some ks) with
      | .error e => .error e
      | .ok _ => evaluateLoop draw drawVal clock cbs bar n (i + 1) r.1 ls'

/-- `evaluate` (evaluate.py 15-28); `bar` are the keys of `keys_to_progress_bar_mapping`. -/
noncomputable def evaluate (draw drawVal : S → ℕ → List (Config ι × ℂ)) (clock : ℕ → Fin 4 → ℝ)
    (steps : ℕ) (cbs : List (Callback ι)) (bar : Option (List String)) (w : World S ι) : Except Err Logs :=
  match evaluateLoop draw drawVal clock cbs bar steps 0 w [] with
  | .error e => .error e
  | .ok ls => meanLogs ls none

/-- The evaluation at the end of `experiments/train.py` (136, 140-149; `mini_batch_size` is the value of
line 136, and line 148 divides by it) -/
noncomputable def trainEvaluation (draw drawVal : S → ℕ → List (Config ι × ℂ)) (clock : ℕ → Fin 4 → ℝ)
    (truth : Option ℝ) (configMini : ℕ) (w : World S ι) : Except Err Logs :=
  let mini := configMini / 16
  if mini = 0 then .error .zeroDivision
  else evaluate draw drawVal clock (2 ^ 15 / mini) ((defaultCallbacks truth false false 1).take 4)
    (some ["energy/energy", "energy/relative_error", "energy/local_energy_variance"]) w

/-- The evaluation of `experiments/run_evaluation.py` (21-26). -/
noncomputable def runEvaluation (draw drawVal : S → ℕ → List (Config ι × ℂ)) (clock : ℕ → Fin 4 → ℝ)
    (truth : Option ℝ) (numOfSamples configMini : ℕ) (w : World S ι) : Except Err Logs :=
  if configMini = 0 then .error .zeroDivision
  else evaluate draw drawVal clock (numOfSamples / configMini) ((defaultCallbacks truth false false 1).take 4)
    (some ["energy/energy", "energy/relative_error", "energy/local_energy_variance"]) w

/-! ### Epochs of a training run -/

/-- The end of the epochs `e, e + 1, ...` of a training run: `epochLogs` are the logs after the callbacks.
The entries that Keras itself puts into the logs are left out. `train e` is what the training generator looks like at the end of epoch `e`, `drawVal e` is `next_batch` of
the validation generator with the weights at the end of epoch `e`. -/
noncomputable def epochEnds (drawVal : ℕ → S → ℕ → List (Config ι × ℂ)) (train : ℕ → Generator S ι)
    (cbs : List (Callback ι)) : ℕ → ℕ → World S ι → List Logs
  | 0, _, _ => []
  | n + 1, e, w =>
    let r := runEpochEnd (drawVal e) e cbs { w with gen := train e } []
    r.2 :: epochEnds drawVal train cbs n (e + 1) r.1
where
  /-- `on_epoch_end` of all callbacks in order. -/
  runEpochEnd (drawVal : S → ℕ → List (Config ι × ℂ)) (e : ℕ) :
      List (Callback ι) → World S ι → Logs → World S ι × Logs
    | [], w, logs => (w, logs)
    | cb :: rest, w, logs =>
      let r := onEpochEnd drawVal e w cb logs
      runEpochEnd drawVal e rest r.1 r.2

/-! ### Early stopping -/

/-- `BadEigenStateStopping.on_epoch_end` (bad_eigen_state_stopping.py 17-36): whether `stop_training` is
set; `none` is the KeyError if the variance is missing. If the bound is zero numpy divides by zero: the
relative error is plus infinity for a positive energy, and otherwise minus infinity or nan, which is not
larger than anything. -/
noncomputable def badEigenStateStop (bound varianceTol relativeError : ℝ) (minEpoch epoch : ℕ) (logs : Logs) :
    Option Bool :=
  let found : Option (ℝ × Option ℝ) :=
    match logs.read "val_energy/energy" with
    | some e => some (e, logs.read "val_energy/local_energy_variance")
    | none =>
      match logs.read "energy/energy" with
      | some e => some (e, logs.read "energy/local_energy_variance")
      | none => none
  match found with
  | none => some false
  | some (_, none) => none
  | some (e, some v) =>
    if epoch < minEpoch then some false
    else some (decide ((if bound = 0 then e - bound > 0 else (e - bound) / |bound| > relativeError) ∧
      v < varianceTol))

/-- Number of epochs that Keras runs, from epoch `e` on, with the logs of the epochs given: it stops after
the first epoch whose callback sets `stop_training`. `none` is an exception. -/
noncomputable def epochsRun (bound varianceTol relativeError : ℝ) (minEpoch : ℕ) : ℕ → List Logs → Option ℕ
  | _, [] => some 0
  | e, l :: rest =>
    match badEigenStateStop bound varianceTol relativeError minEpoch e l with
    | none => none
    | some true => some 1
    | some false => (epochsRun bound varianceTol relativeError minEpoch (e + 1) rest).map (· + 1)

end Verif.Callbacks
