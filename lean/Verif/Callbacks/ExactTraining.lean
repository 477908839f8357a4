import Verif.Callbacks.Exact
import Verif.Training.ExactTraining

/-!
C99: the logs of exact training.
-/
namespace Verif.Callbacks

open Verif.Training Verif.Energy Verif.Energy.Exact Verif.Operators

variable {ι Opt : Type} [Fintype ι] {n : ℕ}

/-! ### Model -/

/-- The callbacks of exact training: those that log (src/flowket/callbacks/exact/__init__.py:8-12) and
`MachineUpdated` with its two options (src/flowket/callbacks/exact/machine_updated.py:5-9). -/
inductive TrainCallback where
  | log (cb : ExactCallback)
  | machineUpdated (inBatch localEnergy : Bool)

/-- The refresh of a `MachineUpdated` callback (src/flowket/callbacks/exact/machine_updated.py:13-16,20-23). -/
def refreshOf (localEnergy : Bool) : Refresh := if localEnergy then .full else .waves

/-- Keras calls `on_batch_end` of all callbacks in order with the same log (behaviour of Keras; the methods are
those of `exactBatchEnd` and src/flowket/callbacks/exact/machine_updated.py:11-16). `net` is the network after
the training step, `batch` the number of the batch in its epoch. -/
noncomputable def batchEnds (net : Config ι → ℂ) (batch : ℕ) :
    List TrainCallback → Gen (Config ι) → Logs → Except Err (Gen (Config ι) × Logs)
  | [], gen, logs => .ok (gen, logs)
  | .log cb :: rest, gen, logs =>
    match exactBatchEnd gen.obj batch cb logs with
    | .error e => .error e
    | .ok logs => batchEnds net batch rest gen logs
  | .machineUpdated inBatch le :: rest, gen, logs =>
    batchEnds net batch rest (if inBatch then (refreshOf le).apply net gen else gen) logs

/-- The same for `on_epoch_end` (`exactEpochEnd`, src/flowket/callbacks/exact/machine_updated.py:18-23). -/
noncomputable def epochEnds' (net : Config ι → ℂ) :
    List TrainCallback → Gen (Config ι) → Logs → Gen (Config ι) × Logs
  | [], gen, logs => (gen, logs)
  | .log cb :: rest, gen, logs => epochEnds' net rest gen (exactEpochEnd gen.obj cb logs)
  | .machineUpdated inBatch le :: rest, gen, logs =>
    epochEnds' net rest (if inBatch then gen else (refreshOf le).apply net gen) logs

/-- What a step of `fit_generator` leaves: the state, the log of the batch, and the log of the epoch after its
last step. -/
structure FitResult (ι Opt : Type) (n : ℕ) where
  state : ExactState (Config ι) Opt n
  batchLog : Logs
  epochLog : Option Logs

/-- Step `t` (counted over all epochs) of `fit_generator` with `spe` steps per epoch
(examples/basic_autoregressive_exact_gradient.py:39-40): train, callbacks at the end of the batch, callbacks at
the end of the epoch. Logs start empty; the entries Keras adds (loss) are not modelled. -/
noncomputable def fitStep (o : Optimizer Opt (Fin n → ℝ) (Fin n → ℝ)) (cfg : AccConfig)
    (net : (Fin n → ℝ) → Config ι → ℂ) (g : (Fin n → ℝ) → Config ι × ℂ → Fin n → ℝ) (cbs : List TrainCallback)
    (spe t : ℕ) (st : ExactState (Config ι) Opt n) : Except Err (FitResult ι Opt n) :=
  let st1 := exactStep o cfg net g st
  match batchEnds (net (o.params st1.acc.opt)) (t % spe) cbs st1.gen [] with
  | .error e => .error e
  | .ok (gen, logs) =>
    if (t + 1) % spe = 0 then
      let r := epochEnds' (net (o.params st1.acc.opt)) cbs gen []
      .ok ⟨⟨r.1, st1.acc⟩, logs, some r.2⟩
    else .ok ⟨⟨gen, st1.acc⟩, logs, none⟩

/-- The state before step `t` (examples/basic_autoregressive_exact_gradient.py:39-40). -/
noncomputable def fit (o : Optimizer Opt (Fin n → ℝ) (Fin n → ℝ)) (cfg : AccConfig)
    (net : (Fin n → ℝ) → Config ι → ℂ) (g : (Fin n → ℝ) → Config ι × ℂ → Fin n → ℝ) (cbs : List TrainCallback)
    (spe : ℕ) (st : ExactState (Config ι) Opt n) : ℕ → Except Err (ExactState (Config ι) Opt n)
  | 0 => .ok st
  | t + 1 =>
    match fit o cfg net g cbs spe st t with
    | .error e => .error e
    | .ok st => (fitStep o cfg net g cbs spe t st).map FitResult.state

/-- `default_wave_function_callbacks_factory` (src/flowket/callbacks/exact/__init__.py:8-12). -/
def defaultLoggers (truth : Option ℝ) (inBatch : Bool) : List TrainCallback :=
  (defaultExact truth inBatch).map .log

/-! ### Lemmas -/

/-- The refreshes of the callbacks with the given mode. -/
def refreshes (inBatch : Bool) : List TrainCallback → List Refresh
  | [] => []
  | .log _ :: rest => refreshes inBatch rest
  | .machineUpdated b le :: rest => if b = inBatch then refreshOf le :: refreshes inBatch rest else refreshes inBatch rest

theorem batchEnds_gen (net : Config ι → ℂ) (b : ℕ) (cbs : List TrainCallback) : ∀ (gen gen' : Gen (Config ι))
    (logs logs' : Logs), batchEnds net b cbs gen logs = .ok (gen', logs') → gen' = applyAll net (refreshes true cbs) gen := by
  induction cbs with
  | nil => intro gen gen' logs logs' h; cases h; rfl
  | cons cb rest ih =>
    intro gen gen' logs logs' h
    cases cb with
    | log cb =>
      unfold batchEnds at h
      cases he : exactBatchEnd gen.obj b cb logs with
      | error e => rw [he] at h; cases h
      | ok l => rw [he] at h; exact ih _ _ _ _ h
    | machineUpdated inBatch le =>
      unfold batchEnds at h
      have := ih _ _ _ _ h
      cases inBatch
      · simpa [refreshes] using this
      · simpa [refreshes, applyAll] using this

theorem epochEnds_gen (net : Config ι → ℂ) (cbs : List TrainCallback) : ∀ (gen : Gen (Config ι)) (logs : Logs),
    (epochEnds' net cbs gen logs).1 = applyAll net (refreshes false cbs) gen := by
  induction cbs with
  | nil => intro gen logs; rfl
  | cons cb rest ih =>
    intro gen logs
    cases cb with
    | log cb => exact ih _ _
    | machineUpdated inBatch le =>
      have := ih (if inBatch then gen else (refreshOf le).apply net gen) logs
      cases inBatch
      · simpa [refreshes, applyAll, epochEnds'] using this
      · simpa [refreshes, epochEnds'] using this

/-- The refreshes after step `t`. -/
def schedule (cbs : List TrainCallback) (spe t : ℕ) : List Refresh :=
  refreshes true cbs ++ if (t + 1) % spe = 0 then refreshes false cbs else []

theorem fitStep_state (o : Optimizer Opt (Fin n → ℝ) (Fin n → ℝ)) (cfg : AccConfig)
    (net : (Fin n → ℝ) → Config ι → ℂ) (g : (Fin n → ℝ) → Config ι × ℂ → Fin n → ℝ) (cbs : List TrainCallback)
    (spe t : ℕ) (st : ExactState (Config ι) Opt n) (r : FitResult ι Opt n) (h : fitStep o cfg net g cbs spe t st = .ok r) :
    r.state = afterStep o net (schedule cbs spe t) (exactStep o cfg net g st) := by
  unfold fitStep at h
  simp only at h
  cases hb : batchEnds (net (o.params (exactStep o cfg net g st).acc.opt)) (t % spe) cbs (exactStep o cfg net g st).gen [] with
  | error e => rw [hb] at h; cases h
  | ok p =>
    obtain ⟨gen, logs⟩ := p
    rw [hb] at h
    have hg := batchEnds_gen _ _ _ _ _ _ _ hb
    simp only at h
    unfold afterStep schedule
    by_cases hs : (t + 1) % spe = 0
    · rw [if_pos hs] at h
      rw [if_pos hs]
      cases h
      simp only
      rw [epochEnds_gen, hg]
      simp [applyAll]
    · rw [if_neg hs] at h
      rw [if_neg hs]
      cases h
      simp only
      rw [hg, List.append_nil]

theorem fit_state (o : Optimizer Opt (Fin n → ℝ) (Fin n → ℝ)) (cfg : AccConfig)
    (net : (Fin n → ℝ) → Config ι → ℂ) (g : (Fin n → ℝ) → Config ι × ℂ → Fin n → ℝ) (cbs : List TrainCallback)
    (spe : ℕ) (st0 : ExactState (Config ι) Opt n) (t : ℕ) : ∀ st, fit o cfg net g cbs spe st0 t = .ok st →
    st = exactTrain o cfg net g (schedule cbs spe) st0 t := by
  induction t with
  | zero => intro st h; cases h; rfl
  | succ t ih =>
    intro st h
    unfold fit at h
    cases hf : fit o cfg net g cbs spe st0 t with
    | error e => rw [hf] at h; cases h
    | ok st1 =>
      rw [hf] at h
      simp only at h
      cases hs : fitStep o cfg net g cbs spe t st1 with
      | error e => rw [hs] at h; cases h
      | ok r =>
        rw [hs] at h
        have := fitStep_state o cfg net g cbs spe t _ r hs
        cases h
        rw [this, ih _ hf]
        rfl

theorem fit_ok (o : Optimizer Opt (Fin n → ℝ) (Fin n → ℝ)) (cfg : AccConfig)
    (net : (Fin n → ℝ) → Config ι → ℂ) (g : (Fin n → ℝ) → Config ι × ℂ → Fin n → ℝ) (cbs : List TrainCallback)
    (spe : ℕ) (st0 : ExactState (Config ι) Opt n) (hok : ∀ t st, ∃ r, fitStep o cfg net g cbs spe t st = .ok r) (t : ℕ) :
    fit o cfg net g cbs spe st0 t = .ok (exactTrain o cfg net g (schedule cbs spe) st0 t) := by
  have : ∃ st, fit o cfg net g cbs spe st0 t = .ok st := by
    induction t with
    | zero => exact ⟨_, rfl⟩
    | succ t ih =>
      obtain ⟨st, hst⟩ := ih
      obtain ⟨r, hr⟩ := hok t st
      exact ⟨r.state, by unfold fit; rw [hst]; simp only; rw [hr]; rfl⟩
  obtain ⟨st, hst⟩ := this
  rw [hst, fit_state o cfg net g cbs spe st0 t st hst]

/-- All callbacks after the loggers are `MachineUpdated` ones. -/
theorem batchEnds_updates (net : Config ι → ℂ) (b : ℕ) (cbs : List TrainCallback)
    (hc : ∀ cb ∈ cbs, ∃ m le, cb = .machineUpdated m le) : ∀ (gen : Gen (Config ι)) (logs : Logs),
    batchEnds net b cbs gen logs = .ok (applyAll net (refreshes true cbs) gen, logs) := by
  induction cbs with
  | nil => intro gen logs; rfl
  | cons cb rest ih =>
    intro gen logs
    obtain ⟨m, le, rfl⟩ := hc cb (by simp)
    have := ih (fun c h => hc c (by simp [h]))
    unfold batchEnds
    rw [this]
    cases m <;> simp [refreshes, applyAll]

theorem epochEnds_updates (net : Config ι → ℂ) (cbs : List TrainCallback)
    (hc : ∀ cb ∈ cbs, ∃ m le, cb = .machineUpdated m le) : ∀ (gen : Gen (Config ι)) (logs : Logs),
    (epochEnds' net cbs gen logs).2 = logs := by
  induction cbs with
  | nil => intro gen logs; rfl
  | cons cb rest ih =>
    intro gen logs
    obtain ⟨m, le, rfl⟩ := hc cb (by simp)
    exact ih (fun c h => hc c (by simp [h])) _ _

theorem refreshes_other (b : Bool) (cbs : List TrainCallback) (hc : ∀ cb ∈ cbs, ∃ le, cb = .machineUpdated b le) :
    refreshes (!b) cbs = [] := by
  induction cbs with
  | nil => rfl
  | cons cb rest ih =>
    obtain ⟨le, rfl⟩ := hc cb (by simp)
    unfold refreshes
    rw [if_neg (by cases b <;> decide)]
    exact ih fun c h => hc c (by simp [h])

/-- The log entries of the default loggers for the object. -/
noncomputable def entries (truth : Option ℝ) (o : Obj (Config ι)) : Logs := addExactSigmaZ o (addExactEnergy truth o [])

theorem batchEnds_loggers (net : Config ι → ℂ) (b : ℕ) (truth : Option ℝ) (inBatch : Bool) (post : List TrainCallback)
    (gen : Gen (Config ι)) : batchEnds net b (defaultLoggers truth inBatch ++ post) gen [] =
      batchEnds net b post gen (if inBatch ∧ b % cycle gen.obj = 0 then entries truth gen.obj else []) := by
  unfold defaultLoggers defaultExact entries
  simp only [List.map_cons, List.map_nil, List.cons_append, List.nil_append, batchEnds, exactBatchEnd]
  split <;> rfl

theorem epochEnds_loggers (net : Config ι → ℂ) (truth : Option ℝ) (inBatch : Bool) (post : List TrainCallback)
    (gen : Gen (Config ι)) : epochEnds' net (defaultLoggers truth inBatch ++ post) gen [] =
      epochEnds' net post gen (if inBatch then [] else entries truth gen.obj) := by
  unfold defaultLoggers defaultExact entries
  simp only [List.map_cons, List.map_nil, List.cons_append, List.nil_append, epochEnds', exactEpochEnd]
  split <;> rfl

variable [DecidableEq ι]

/-- The object the callbacks of step `t` find, and after the refreshes of callbacks. -/
theorem step_result {N : ℕ} (e : ι ≃ Fin N) (hN : N ≤ 31)
    (op : (B : Nat) → (Fin B → Config ι) → Fin B → List (Row ι ℝ)) (R : ℕ) (rowsOf : Config ι → List (Row ι ℝ))
    (h : RowsOf op R rowsOf) (batch : ℕ) (o : Optimizer Opt (Fin n → ℝ) (Fin n → ℝ)) (cfg : AccConfig)
    (net : (Fin n → ℝ) → Config ι → ℂ) (g : (Fin n → ℝ) → Config ι × ℂ → Fin n → ℝ) (opt : Opt)
    (st0 : ExactState (Config ι) Opt n) (h0 : exactSetup (spinSetup e op R) batch opt = some st0)
    (refresh : ℕ → List Refresh) (t : ℕ) :
    let st := exactTrain o cfg net g refresh st0 t
    let st1 := exactStep o cfg net g st
    st1.gen.obj.setup = spinSetup e op R ∧ cycle st1.gen.obj = 2 ^ N / min batch (2 ^ N) ∧
    Result (spinSetup e op R) (opMatrix (spinSetup e op R) fun s => pairs (rowsOf s)) (net (o.params st.acc.opt))
      st1.gen.obj.arrays ∧
    ∀ w, ((refreshOf true).apply w st1.gen).obj.setup = spinSetup e op R ∧
      cycle ((refreshOf true).apply w st1.gen).obj = 2 ^ N / min batch (2 ^ N) ∧
      Result (spinSetup e op R) (opMatrix (spinSetup e op R) fun s => pairs (rowsOf s)) w
        ((refreshOf true).apply w st1.gen).obj.arrays := by
  intro st st1
  have hr := rowWise_of e hN h
  obtain ⟨o0, acc, ho, hacc, rfl⟩ := exactSetup_some _ batch opt st0 h0
  obtain ⟨hset, hpos, hbs, ⟨q, hq⟩, hok, hmin⟩ := new_ok _ _ hr batch o0 ho
  have hqpos : 0 < q := by
    rcases Nat.eq_zero_or_pos q with h | h
    · rw [h] at hq; omega
    · exact h
  have hdiv : (spinSetup e op R).S / o0.bs = q := by rw [hq, Nat.mul_div_cancel _ hbs]
  rw [hdiv] at hacc
  have hinv := train_inv _ _ hr batch o0 ho q hq o cfg net g hqpos refresh opt acc hacc t
  obtain ⟨-, -, s1, s2, s3, s4⟩ := step_inv _ _ hr batch o0 ho q hq o cfg net g [] _ _ _ (Nat.mod_lt t hqpos) _ hinv
  have hopt : st.acc.opt = _ := hinv.opt
  rw [← hopt] at s1
  have hcyc : cycle st1.gen.obj = 2 ^ N / min batch (2 ^ N) := by
    unfold cycle
    have : st1.gen.obj.bs = min batch (2 ^ N) := s3.trans hmin
    rw [s2, this]
    rfl
  refine ⟨s2, hcyc, s1, fun w => ⟨s2, hcyc, ?_⟩⟩
  show Result _ _ _ (machineUpdated _ _ _ _ _)
  rw [s2, s3, s4]
  exact result_update _ _ hr batch o0 ho _ _

/-! ### C99 -/

/-- C99: the default loggers (alone, or followed by `MachineUpdated` callbacks of the same mode) never fail,
and every energy, variance and magnetisation they write is the exact one for the weights the latest gradient
was computed with, i.e. the weights before the latest step. In batch mode they write after the steps whose
number in the epoch is a multiple of the cycle length, in epoch mode at the end of every epoch. -/
theorem C99_last_gradient {N : ℕ} (e : ι ≃ Fin N) (hN : N ≤ 31)
    (op : (B : Nat) → (Fin B → Config ι) → Fin B → List (Row ι ℝ)) (R : ℕ) (rowsOf : Config ι → List (Row ι ℝ))
    (h : RowsOf op R rowsOf) (H : Wave ι → Wave ι) (hH : ∀ s, IsSpin s → ∀ ψ, applyRows (rowsOf s) ψ = H ψ s)
    (batch : ℕ) (o : Optimizer Opt (Fin n → ℝ) (Fin n → ℝ)) (cfg : AccConfig)
    (net : (Fin n → ℝ) → Config ι → ℂ) (g : (Fin n → ℝ) → Config ι × ℂ → Fin n → ℝ) (opt : Opt)
    (st0 : ExactState (Config ι) Opt n) (h0 : exactSetup (spinSetup e op R) batch opt = some st0)
    (truth : Option ℝ) (inBatch : Bool) (post : List TrainCallback)
    (hpost : ∀ cb ∈ post, ∃ le, cb = .machineUpdated inBatch le) (spe t : ℕ) :
    ∃ st r, fit o cfg net g (defaultLoggers truth inBatch ++ post) spe st0 t = .ok st ∧
      fitStep o cfg net g (defaultLoggers truth inBatch ++ post) spe t st = .ok r ∧
      (if inBatch = true ∧ (t % spe) % (2 ^ N / min batch (2 ^ N)) = 0
        then ExactReport H truth (net (o.params st.acc.opt)) r.batchLog else r.batchLog = []) ∧
      (if (t + 1) % spe = 0 then ∃ L, r.epochLog = some L ∧
          if inBatch = true then L = [] else ExactReport H truth (net (o.params st.acc.opt)) L
        else r.epochLog = none) := by
  have hany : ∀ cb ∈ post, ∃ m le, cb = .machineUpdated m le := fun cb hcb => ⟨inBatch, hpost cb hcb⟩
  have hstep : ∀ t (st : ExactState (Config ι) Opt n),
      fitStep o cfg net g (defaultLoggers truth inBatch ++ post) spe t st =
      (let st1 := exactStep o cfg net g st
       let w := net (o.params st1.acc.opt)
       let gen := applyAll w (refreshes true post) st1.gen
       let logs := if inBatch = true ∧ (t % spe) % cycle st1.gen.obj = 0 then entries truth st1.gen.obj else []
       if (t + 1) % spe = 0 then
        .ok ⟨⟨(epochEnds' w (defaultLoggers truth inBatch ++ post) gen []).1, st1.acc⟩, logs,
          some (if inBatch then [] else entries truth gen.obj)⟩
       else .ok ⟨⟨gen, st1.acc⟩, logs, none⟩) := by
    intro t st
    unfold fitStep
    simp only
    rw [batchEnds_loggers, batchEnds_updates _ _ _ hany]
    simp only
    by_cases hs : (t + 1) % spe = 0
    · rw [if_pos hs, if_pos hs]
      have : ∀ gen : Gen (Config ι), (epochEnds' (net (o.params (exactStep o cfg net g st).acc.opt))
          (defaultLoggers truth inBatch ++ post) gen []).2 = if inBatch then [] else entries truth gen.obj := by
        intro gen
        rw [epochEnds_loggers, epochEnds_updates _ _ hany]
      rw [this]
    · rw [if_neg hs, if_neg hs]
  have hok : ∀ t (st : ExactState (Config ι) Opt n), ∃ r,
      fitStep o cfg net g (defaultLoggers truth inBatch ++ post) spe t st = .ok r := by
    intro t st
    rw [hstep]
    simp only
    split
    · exact ⟨_, rfl⟩
    · exact ⟨_, rfl⟩
  refine ⟨_, _, fit_ok o cfg net g _ spe st0 hok t, (hok t _).choose_spec, ?_⟩
  set st := exactTrain o cfg net g (schedule (defaultLoggers truth inBatch ++ post) spe) st0 t with hst
  obtain ⟨s1, s2, s3, -⟩ := step_result e hN op R rowsOf h batch o cfg net g opt st0 h0
    (schedule (defaultLoggers truth inBatch ++ post) spe) t
  rw [← hst] at s1 s2 s3
  have hrep := report_of_result e hN op R rowsOf h H hH truth _ s1 _ s3
  have hspec := (hok t st).choose_spec
  set r := (hok t st).choose with hrdef
  rw [hstep t st] at hspec
  simp only at hspec
  rw [s2] at hspec
  have hgen : inBatch = false → applyAll (net (o.params (exactStep o cfg net g st).acc.opt)) (refreshes true post)
      (exactStep o cfg net g st).gen = (exactStep o cfg net g st).gen := by
    intro hb
    subst hb
    have := refreshes_other false post hpost
    rw [Bool.not_false] at this
    rw [this]
    rfl
  by_cases hs : (t + 1) % spe = 0
  · rw [if_pos hs] at hspec ⊢
    have hr := Except.ok.inj hspec
    rw [← hr]
    refine ⟨?_, _, rfl, ?_⟩
    · split
      · exact hrep
      · rfl
    · cases inBatch with
      | true => simp
      | false =>
        rw [hgen rfl]
        simp only [Bool.false_eq_true, if_false]
        exact hrep
  · rw [if_neg hs] at hspec ⊢
    have hr := Except.ok.inj hspec
    rw [← hr]
    refine ⟨?_, rfl⟩
    split
    · exact hrep
    · rfl

/-- C99: with a `MachineUpdated` callback before the default loggers, of the same mode, everything they write
is the exact value for the current weights, those after the latest step. -/
theorem C99_current {N : ℕ} (e : ι ≃ Fin N) (hN : N ≤ 31)
    (op : (B : Nat) → (Fin B → Config ι) → Fin B → List (Row ι ℝ)) (R : ℕ) (rowsOf : Config ι → List (Row ι ℝ))
    (h : RowsOf op R rowsOf) (H : Wave ι → Wave ι) (hH : ∀ s, IsSpin s → ∀ ψ, applyRows (rowsOf s) ψ = H ψ s)
    (batch : ℕ) (o : Optimizer Opt (Fin n → ℝ) (Fin n → ℝ)) (cfg : AccConfig)
    (net : (Fin n → ℝ) → Config ι → ℂ) (g : (Fin n → ℝ) → Config ι × ℂ → Fin n → ℝ) (opt : Opt)
    (st0 : ExactState (Config ι) Opt n) (h0 : exactSetup (spinSetup e op R) batch opt = some st0)
    (truth : Option ℝ) (inBatch : Bool) (spe t : ℕ) :
    ∃ st r, fit o cfg net g (.machineUpdated inBatch true :: defaultLoggers truth inBatch) spe st0 t = .ok st ∧
      fitStep o cfg net g (.machineUpdated inBatch true :: defaultLoggers truth inBatch) spe t st = .ok r ∧
      (if inBatch = true ∧ (t % spe) % (2 ^ N / min batch (2 ^ N)) = 0
        then ExactReport H truth (net (o.params r.state.acc.opt)) r.batchLog else r.batchLog = []) ∧
      (if (t + 1) % spe = 0 then ∃ L, r.epochLog = some L ∧
          if inBatch = true then L = [] else ExactReport H truth (net (o.params r.state.acc.opt)) L
        else r.epochLog = none) := by
  have hstep : ∀ t (st : ExactState (Config ι) Opt n),
      fitStep o cfg net g (.machineUpdated inBatch true :: defaultLoggers truth inBatch) spe t st =
      (let st1 := exactStep o cfg net g st
       let w := net (o.params st1.acc.opt)
       let gen := if inBatch then (refreshOf true).apply w st1.gen else st1.gen
       let gen' := if inBatch then gen else (refreshOf true).apply w gen
       let logs := if inBatch = true ∧ (t % spe) % cycle gen.obj = 0 then entries truth gen.obj else []
       if (t + 1) % spe = 0 then
        .ok ⟨⟨gen', st1.acc⟩, logs, some (if inBatch then [] else entries truth gen'.obj)⟩
       else .ok ⟨⟨gen, st1.acc⟩, logs, none⟩) := by
    intro t st
    unfold fitStep
    simp only [batchEnds]
    have hb := batchEnds_loggers (net (o.params (exactStep o cfg net g st).acc.opt)) (t % spe) truth inBatch []
      (if inBatch then (refreshOf true).apply (net (o.params (exactStep o cfg net g st).acc.opt))
        (exactStep o cfg net g st).gen else (exactStep o cfg net g st).gen)
    rw [List.append_nil] at hb
    rw [hb]
    simp only [batchEnds]
    by_cases hs : (t + 1) % spe = 0
    · rw [if_pos hs, if_pos hs]
      simp only [epochEnds']
      have he := fun gen => epochEnds_loggers (net (o.params (exactStep o cfg net g st).acc.opt)) truth inBatch [] gen
      simp only [List.append_nil] at he
      rw [he]
      simp only [epochEnds']
    · rw [if_neg hs, if_neg hs]
  have hok : ∀ t (st : ExactState (Config ι) Opt n), ∃ r,
      fitStep o cfg net g (.machineUpdated inBatch true :: defaultLoggers truth inBatch) spe t st = .ok r := by
    intro t st
    rw [hstep]
    simp only
    split
    · exact ⟨_, rfl⟩
    · exact ⟨_, rfl⟩
  refine ⟨_, _, fit_ok o cfg net g _ spe st0 hok t, (hok t _).choose_spec, ?_⟩
  set st := exactTrain o cfg net g (schedule (.machineUpdated inBatch true :: defaultLoggers truth inBatch) spe) st0 t
    with hst
  obtain ⟨-, -, -, s4⟩ := step_result e hN op R rowsOf h batch o cfg net g opt st0 h0
    (schedule (.machineUpdated inBatch true :: defaultLoggers truth inBatch) spe) t
  rw [← hst] at s4
  obtain ⟨s1, s2, s3⟩ := s4 (net (o.params (exactStep o cfg net g st).acc.opt))
  have hrep := report_of_result e hN op R rowsOf h H hH truth _ s1 _ s3
  have hspec := (hok t st).choose_spec
  set r := (hok t st).choose with hrdef
  rw [hstep t st] at hspec
  simp only at hspec
  cases inBatch with
  | true =>
    simp only [if_true, true_and] at hspec ⊢
    rw [s2] at hspec
    by_cases hs : (t + 1) % spe = 0
    · rw [if_pos hs] at hspec ⊢
      have hr := Except.ok.inj hspec
      rw [← hr]
      refine ⟨?_, _, rfl, rfl⟩
      split
      · exact hrep
      · rfl
    · rw [if_neg hs] at hspec ⊢
      have hr := Except.ok.inj hspec
      rw [← hr]
      refine ⟨?_, rfl⟩
      split
      · exact hrep
      · rfl
  | false =>
    simp only [Bool.false_eq_true, false_and, if_false] at hspec ⊢
    by_cases hs : (t + 1) % spe = 0
    · rw [if_pos hs] at hspec ⊢
      have hr := Except.ok.inj hspec
      rw [← hr]
      exact ⟨rfl, _, rfl, hrep⟩
    · rw [if_neg hs] at hspec ⊢
      have hr := Except.ok.inj hspec
      rw [← hr]
      exact ⟨rfl, rfl⟩

/-- C99: callbacks do not change the training. Whatever callbacks are installed, if they do not fail the
optimizer is in the same state as without callbacks. -/
theorem C99_same_training {N : ℕ} (e : ι ≃ Fin N) (hN : N ≤ 31)
    (op : (B : Nat) → (Fin B → Config ι) → Fin B → List (Row ι ℝ)) (R : ℕ) (rowsOf : Config ι → List (Row ι ℝ))
    (h : RowsOf op R rowsOf) (batch : ℕ) (o : Optimizer Opt (Fin n → ℝ) (Fin n → ℝ)) (cfg : AccConfig)
    (net : (Fin n → ℝ) → Config ι → ℂ) (g : (Fin n → ℝ) → Config ι × ℂ → Fin n → ℝ) (opt : Opt)
    (st0 : ExactState (Config ι) Opt n) (h0 : exactSetup (spinSetup e op R) batch opt = some st0)
    (cbs : List TrainCallback) (spe t : ℕ) (st st' : ExactState (Config ι) Opt n)
    (h1 : fit o cfg net g cbs spe st0 t = .ok st) (h2 : fit o cfg net g [] spe st0 t = .ok st') :
    st.acc.opt = st'.acc.opt := by
  rw [fit_state _ _ _ _ _ _ _ _ _ h1, fit_state _ _ _ _ _ _ _ _ _ h2]
  have hr := rowWise_of e hN h
  obtain ⟨o0, acc, ho, hacc, rfl⟩ := exactSetup_some _ batch opt st0 h0
  obtain ⟨hset, hpos, hbs, ⟨q, hq⟩, hok, hmin⟩ := new_ok _ _ hr batch o0 ho
  have hqpos : 0 < q := by
    rcases Nat.eq_zero_or_pos q with h | h
    · rw [h] at hq; omega
    · exact h
  have hdiv : (spinSetup e op R).S / o0.bs = q := by rw [hq, Nat.mul_div_cancel _ hbs]
  rw [hdiv] at hacc
  rw [(train_inv _ _ hr batch o0 ho q hq o cfg net g hqpos _ opt acc hacc t).opt,
    (train_inv _ _ hr batch o0 ho q hq o cfg net g hqpos _ opt acc hacc t).opt]

omit [Fintype ι] [DecidableEq ι] in
/-- C99: in batch mode every cycle of `q` steps is logged: whatever the number of steps per epoch, one of its
steps has a number in its epoch divisible by `q`; if `q` divides the steps per epoch it is exactly the first. -/
theorem C99_every_cycle (q spe : ℕ) (hq : 0 < q) (hspe : 0 < spe) (c : ℕ) :
    (∃ t, c * q ≤ t ∧ t < (c + 1) * q ∧ (t % spe) % q = 0) ∧
    (q ∣ spe → ∀ t, c * q ≤ t → t < (c + 1) * q → ((t % spe) % q = 0 ↔ t = c * q)) := by
  constructor
  · set b := (c * q) % spe with hb
    have hbs : b < spe := Nat.mod_lt _ hspe
    have hbq : b % q < q := Nat.mod_lt _ hq
    by_cases h0 : b % q = 0
    · exact ⟨c * q, le_rfl, by rw [Nat.succ_mul]; omega, h0⟩
    · by_cases hend : b + (q - b % q) < spe
      · refine ⟨c * q + (q - b % q), by omega, by rw [Nat.succ_mul]; omega, ?_⟩
        have e1 : (c * q + (q - b % q)) % spe = b + (q - b % q) := by
          rw [Nat.add_mod, ← hb, Nat.mod_eq_of_lt (a := q - b % q) (by omega), Nat.mod_eq_of_lt hend]
        have e2 : b + (q - b % q) = q * (b / q + 1) := by
          have := Nat.div_add_mod b q
          rw [Nat.mul_add, Nat.mul_one]; omega
        rw [e1, e2, Nat.mul_mod_right]
      · refine ⟨c * q + (spe - b), by omega, by rw [Nat.succ_mul]; omega, ?_⟩
        have e1 : (c * q + (spe - b)) % spe = 0 := by
          have h1 := Nat.div_add_mod (c * q) spe
          have : c * q + (spe - b) = spe * (c * q / spe + 1) := by
            rw [Nat.mul_add, Nat.mul_one]; omega
          rw [this, Nat.mul_mod_right]
        rw [e1, Nat.zero_mod]
  · intro hd t h1 h2
    rw [Nat.mod_mod_of_dvd t hd]
    rw [Nat.succ_mul] at h2
    obtain ⟨r, rfl⟩ := Nat.exists_eq_add_of_le h1
    rw [Nat.mul_comm, Nat.mul_add_mod, Nat.mod_eq_of_lt (by omega)]
    constructor
    · intro h; omega
    · intro h; omega

/-- The hypotheses of C99 are met: the Ising chain of three sites, batches of four states, two weights. -/
example (h j : ℝ) : ∃ st0 : ExactState (Config (Fin 3)) (Fin 2 → ℝ) 2,
    exactSetup (spinSetup (Equiv.refl (Fin 3)) (fun _ sample => isingFindConn1 (.float h) j true sample) 4) 4
      (fun _ => 0) = some st0 ∧
    RowsOf (ι := Fin 3) (fun _ sample => isingFindConn1 (.float h) j true sample) 4
      (fun s => isingFindConn1 (.float h) j true (fun _ : Fin 1 => s) 0) := by
  obtain ⟨st0, hst, -⟩ := C98_ising_chain 3 (by norm_num) h j true 4 (by norm_num) (Or.inr (by norm_num)) (Fin 2 → ℝ) 2
    ⟨fun p g => p - g, id, fun _ p => p⟩ ⟨true, 0⟩ (fun _ _ => 0) (fun _ _ _ => 0) (fun _ _ _ => 0)
    (fun θ k s _ => hasDerivAt_const _ _) (fun θ k s c _ => hasDerivAt_const _ _) (fun _ => 0)
  exact ⟨st0, hst, rowsOf_ising_chain 3 h j true⟩

end Verif.Callbacks
