import Verif.Training.MiniBatch
import Mathlib.Data.List.Count
import Mathlib.Data.Fintype.BigOperators
import Mathlib.Algebra.Order.BigOperators.Group.Finset
import Mathlib.Logic.Relation
import Mathlib.Tactic.Linarith

/-!
# C121: workers never wait for each other for ever

`experiments/train.py` with `--use_horovod` runs one process per worker. The processes meet in collective operations: the
allreduce of the energy of every batch, the allreduce of the gradients of every update, the broadcast of the variables in the first
batch of a stage, the average of the logged metrics at the end of every epoch. A collective operation returns once every worker has asked
for it under the same name. The model has all interleavings of the workers.
-/
namespace Verif.Workers

open Verif.Training (ceilDiv MBState setBatchSize)

/-- Collective operations by the names under which Horovod matches them. TensorFlow numbers the graph nodes of successive objects,
so that the name tells which generator or callback object of the process asks. Simplification: the two
parts of the energy (horovod_variational_monte_carlo.py 25), the gradients of all weights of an update
(accumulate_gradient_optimizer.py 38-41) and the broadcasts of all variables are run in one session call and
count as one operation. -/
inductive Op where
  /-- horovod_variational_monte_carlo.py 25, of the generator object with the given number. -/
  | energy (generator : ℕ)
  /-- accumulate_gradient_optimizer.py 34-50. -/
  | gradients
  /-- `hvd.callbacks.BroadcastGlobalVariablesCallback(0)`, train.py 117. -/
  | broadcast (callback : ℕ)
  /-- `hvd.callbacks.MetricAverageCallback()`, train.py 117, which averages one metric after the other. -/
  | metric (callback : ℕ) (key : String)
deriving DecidableEq

/-- What a worker does next. -/
inductive Action where
  /-- Something without the other workers. -/
  | loc (what : String)
  | coll (op : Op)
  /-- Under `if is_rank_0:` (train.py 80-82, 118-124, 129). -/
  | ifRank0 (a : Action)

/-- The collective operation that a worker of the given rank asks for in an action, `none` if it does not. -/
def Action.view (rank : ℕ) : Action → Option Op
  | .loc _ => none
  | .coll op => some op
  | .ifRank0 a => if rank = 0 then a.view rank else none

/-- Rank of worker `w` is its number; what the workers have left to do. -/
abbrev State (W : ℕ) := Fin W → List Action

/-- One step of the whole system: a worker does something without the others, or all of them have arrived at the same collective
operation and go on. -/
inductive Step {W : ℕ} : State W → State W → Prop where
  | own (s : State W) (w : Fin W) (a : Action) (rest : List Action) (h : s w = a :: rest) (ha : a.view w = none) :
      Step s (Function.update s w rest)
  | together (s : State W) (op : Op) (a : Fin W → Action) (rest : State W) (h : ∀ w, s w = a w :: rest w)
      (ha : ∀ w, (a w).view w = some op) : Step s rest

/-- All workers are done. -/
def Done {W : ℕ} (s : State W) : Prop := ∀ w, s w = []

/-- Some workers wait, and nothing will ever happen. -/
def Stuck {W : ℕ} (s : State W) : Prop := ¬ Done s ∧ ∀ s', ¬ Step s s'

/-- `s'` can be reached from `s`. -/
abbrev Reach {W : ℕ} (s s' : State W) : Prop := Relation.ReflTransGen Step s s'

/-! ### The program of a worker -/

/-- The part of the configuration that decides about collective operations. -/
structure Setup where
  /-- `batch_size` and `num_epoch` of the stages. -/
  stages : List (ℕ × ℕ)
  mini : ℕ
  stepsPerEpoch : ℕ
  /-- `validation_period`; zero (a ZeroDivisionError) is not modelled. -/
  period : ℕ
  /-- Whether the ground state energy is known. -/
  truth : Bool
  /-- Older versions of Horovod broadcast when training begins, newer ones after the first batch. -/
  broadcastAtBegin : Bool

/-- The keys of the logs at the end of an epoch in alphabetical order, in which `MetricAverageCallback` takes them: the loss of Keras and what the
default callbacks log (callbacks/monte_carlo/__init__.py 10-31; local_energy_stats.py 15-34; observable.py 18-33; runtime_stats.py
11-16); `val` is whether the validation statistics are logged in this epoch. -/
def metricKeys (truth val : Bool) : List String :=
  let energy (p : String) : List String := [p ++ "energy/energy", p ++ "energy/local_energy_variance"] ++
    (if truth then [p ++ "energy/relative_error"] else [])
  let spins (p : String) : List String := [p ++ "observables/abs_sigma_z", p ++ "observables/sigma_z"]
  energy "" ++ ["loss"] ++ spins "" ++ ["times/gradients", "times/local_energy", "times/sampling", "times/total"] ++
    (if val then energy "val_" ++ spins "val_" else [])

/-- `mini_batch_size` of a generator after `set_batch_size` (mini_batch_generator.py 16-20). -/
def effMini (batch mini : ℕ) : ℕ := min mini batch

/-- What a process carries from one training step to the next: `_idx` of the training generator, `accumulated_iterations` of
the optimizer, and whether the broadcast of this stage is still to come. That the broadcast writes `accumulated_iterations`
as well is left out. -/
structure Proc where
  idx : ℕ
  acc : ℕ
  pending : Bool

/-- One training step: `next(generator)` (mini_batch_generator.py 27-32, horovod_variational_monte_carlo.py 20-26),
`train_on_batch` (accumulate_gradient_optimizer.py 54-82), the `on_batch_end` of the callbacks. `gen` and `cb` number the objects of this
stage, `batch` is the batch size of a worker, `mini` the effective mini batch size. -/
def trainStep (gen cb batch mini : ℕ) (p : Proc) : List Action × Proc :=
  let draw := p.idx + mini > batch
  let idx := if draw then 0 else p.idx
  let freq := ceilDiv batch mini
  ((if draw then [Action.coll (.energy gen)] else []) ++
    (if (p.acc + 1) % freq = 0 then [.coll .gradients] else []) ++
    (if p.pending then [.coll (.broadcast cb)] else []) ++ [.ifRank0 (.loc "checkpoint by time")],
   { idx := idx + mini, acc := p.acc + 1, pending := false })

/-- `n` training steps. -/
def trainSteps (gen cb batch mini : ℕ) : ℕ → Proc → List Action × Proc
  | 0, p => ([], p)
  | n + 1, p =>
    let r := trainStep gen cb batch mini p
    let r' := trainSteps gen cb batch mini n r.2
    (r.1 ++ r'.1, r'.2)

/-- The callbacks at the end of an epoch in their order (train.py 113-123): the validation batch with its energy
(generator_iterator.py 10-12, mini_batch_generator.py 27-32: the whole batch each time), the average of the metrics, TensorBoard and
checkpoint of rank zero. -/
def epochEnd (c : Setup) (gen cb e : ℕ) : List Action :=
  (if e % c.period = 0 then [.coll (.energy (gen + 1))] else []) ++
    (metricKeys c.truth (e % c.period = 0)).map (fun k => Action.coll (.metric cb k)) ++
    [.ifRank0 (.loc "tensorboard"), .ifRank0 (.loc "checkpoint")]

/-- `n` epochs from epoch `e` on. -/
def epochs (c : Setup) (gen cb batch mini : ℕ) : ℕ → ℕ → Proc → List Action × Proc
  | 0, _, p => ([], p)
  | n + 1, e, p =>
    let r := trainSteps gen cb batch mini (c.stepsPerEpoch * ceilDiv batch mini) p
    let r' := epochs c gen cb batch mini n (e + 1) r.2
    (r.1 ++ epochEnd c gen cb e ++ r'.1, r'.2)

/-- The stage loop (train.py 88-131) on `workers` workers: `total` and `initial` are `total_epochs` and `initial_epoch`, `gens` and `cbs` count the
generators and callbacks made so far, `acc` is `accumulated_iterations`. The last component is the number of generators
made in the end. -/
def stageLoop (c : Setup) (workers : ℕ) : List (ℕ × ℕ) → (total initial gens cbs acc : ℕ) → List Action × ℕ
  | [], _, _, gens, _, _ => ([], gens)
  | st :: rest, total, initial, gens, cbs, acc =>
    let total := total + st.2
    if total ≤ initial then stageLoop c workers rest total initial gens cbs acc
    else
      let batch := ceilDiv st.1 workers
      let mini := effMini batch c.mini
      let r := epochs c gens cbs batch mini (total - initial) initial
        { idx := batch, acc := acc, pending := !c.broadcastAtBegin }
      let r' := stageLoop c workers rest total total (gens + 2) (cbs + 1) r.2.acc
      ((if c.broadcastAtBegin then [.coll (.broadcast cbs)] else []) ++ r.1 ++
        [.ifRank0 (.loc "stage weights")] ++ r'.1, r'.2)

/-- What a process reads from the checkpoint file (train.py 58-65): the epoch and `accumulated_iterations`. -/
structure Restored where
  epoch : ℕ
  acc : ℕ
deriving DecidableEq

/-- A process of `train` (train.py 76-151): the stages, and the evaluation with a further generator, one batch per step. If the
mini batch size is below 16 every process ends with a ZeroDivisionError in place of the evaluation (C82). -/
def program (c : Setup) (workers : ℕ) (file : Option Restored) : List Action :=
  let r := file.getD ⟨0, 0⟩
  let p := stageLoop c workers c.stages 0 r.epoch 0 0 r.acc
  [.ifRank0 (.loc "config.json")] ++ p.1 ++
    (if c.mini / 16 = 0 then [] else List.replicate (2 ^ 15 / (c.mini / 16)) (.coll (.energy p.2))) ++
    [.ifRank0 (.loc "print results")]

/-- All workers start; worker `w` finds the checkpoint file `files w` at the given path. -/
def start (c : Setup) (W : ℕ) (files : Fin W → Option Restored) : State W := fun w => program c W (files w)

/-- The number of epochs of all stages. -/
def Setup.total (c : Setup) : ℕ := (c.stages.map Prod.snd).sum

/-! ### Executions -/

/-- The collective operations that a worker still has to go through. -/
def collectives (rank : ℕ) (l : List Action) : List Op := l.filterMap (Action.view rank)

theorem collectives_append (rank : ℕ) (l l' : List Action) :
    collectives rank (l ++ l') = collectives rank l ++ collectives rank l' := List.filterMap_append

theorem step_length {W : ℕ} [NeZero W] {s s' : State W} (h : Step s s') :
    ∑ w, (s' w).length < ∑ w, (s w).length := by
  cases h with
  | own w a rest h ha =>
    apply Finset.sum_lt_sum
    · intro v _
      by_cases hv : v = w
      · subst hv; rw [Function.update_self, h]; simp
      · rw [Function.update_of_ne hv]
    · exact ⟨w, Finset.mem_univ _, by rw [Function.update_self, h]; simp⟩
  | together op a _ h ha =>
    apply Finset.sum_lt_sum
    · intro v _; rw [h]; simp
    · exact ⟨0, Finset.mem_univ _, by rw [h]; simp⟩

/-- A step changes the remaining collective operations of all workers in the same way. -/
theorem step_collectives {W : ℕ} {s s' : State W} (h : Step s s') :
    ∃ pre : List Op, ∀ w : Fin W, collectives w (s w) = pre ++ collectives w (s' w) := by
  cases h with
  | own w a rest h ha =>
    refine ⟨[], fun v => ?_⟩
    by_cases hv : v = w
    · subst hv
      rw [Function.update_self, h]
      simp [collectives, ha]
    · rw [Function.update_of_ne hv]; rfl
  | together op a _ h ha =>
    refine ⟨[op], fun v => ?_⟩
    rw [h v]
    simp [collectives, ha v]

theorem reach_collectives {W : ℕ} {s s' : State W} (h : Reach s s') :
    ∃ pre : List Op, ∀ w : Fin W, collectives w (s w) = pre ++ collectives w (s' w) := by
  induction h with
  | refl => exact ⟨[], fun _ => rfl⟩
  | tail _ hstep ih =>
    obtain ⟨p1, h1⟩ := ih
    obtain ⟨p2, h2⟩ := step_collectives hstep
    exact ⟨p1 ++ p2, fun w => by rw [h1, h2, List.append_assoc]⟩

/-- Workers that have the same collective operations left are not stuck. -/
theorem not_stuck {W : ℕ} {s : State W} (h : ∀ w w' : Fin W, collectives w (s w) = collectives w' (s w')) : ¬ Stuck s := by
  rintro ⟨hd, hs⟩
  by_cases hown : ∃ w a rest, s w = a :: rest ∧ Action.view w a = none
  · obtain ⟨w, a, rest, h1, h2⟩ := hown
    exact hs _ (.own s w a rest h1 h2)
  · have hhead : ∀ w a rest, s w = a :: rest → ∃ op, Action.view w a = some op := by
      intro w a rest h1
      cases hv : Action.view w a with
      | none => exact absurd ⟨w, a, rest, h1, hv⟩ hown
      | some op => exact ⟨op, rfl⟩
    obtain ⟨w0, hw0⟩ : ∃ w, s w ≠ [] := by
      by_contra hc
      exact hd fun w => by_contra fun hw => hc ⟨w, hw⟩
    obtain ⟨a0, rest0, h0⟩ := List.exists_cons_of_ne_nil hw0
    obtain ⟨op, hop⟩ := hhead w0 a0 rest0 h0
    have hc0 : collectives w0 (s w0) = op :: collectives w0 rest0 := by rw [h0]; simp [collectives, hop]
    have hall : ∀ w, ∃ a rest, s w = a :: rest ∧ Action.view w a = some op := by
      intro w
      have hcw := h w w0
      rw [hc0] at hcw
      cases hsw : s w with
      | nil => rw [hsw] at hcw; simp [collectives] at hcw
      | cons a rest =>
        obtain ⟨op', hop'⟩ := hhead w a rest hsw
        rw [hsw] at hcw
        have : op' :: collectives w rest = op :: collectives w0 rest0 := by
          rw [← hcw]; simp [collectives, hop']
        have := (List.cons.inj this).1
        subst this
        exact ⟨a, rest, rfl, hop'⟩
    choose a rest hsw hview using hall
    exact hs rest (.together s op a rest hsw hview)

/-- Every execution comes to an end. -/
theorem exists_end {W : ℕ} [NeZero W] (s : State W) : ∃ s', Reach s s' ∧ ∀ s'', ¬ Step s' s'' := by
  induction hn : ∑ w, (s w).length using Nat.strong_induction_on generalizing s with
  | _ n ih =>
    by_cases h : ∃ s1, Step s s1
    · obtain ⟨s1, h1⟩ := h
      obtain ⟨s', hr, hend⟩ := ih _ (by rw [← hn]; exact step_length h1) s1 rfl
      exact ⟨s', Relation.ReflTransGen.head h1 hr, hend⟩
    · exact ⟨s, Relation.ReflTransGen.refl, fun s'' hs => h ⟨s'', hs⟩⟩

/-- Same collective operations: whatever happens, the workers are not stuck. -/
theorem never_stuck {W : ℕ} {s s' : State W} (h : ∀ w w' : Fin W, collectives w (s w) = collectives w' (s w')) (hr : Reach s s') :
    ¬ Stuck s' := by
  obtain ⟨pre, hp⟩ := reach_collectives hr
  apply not_stuck
  intro w w'
  have := h w w'
  rw [hp w, hp w'] at this
  exact List.append_cancel_left this

/-- Different collective operations: the workers never finish. -/
theorem never_done {W : ℕ} {s s' : State W} (w w' : Fin W) (h : collectives w (s w) ≠ collectives w' (s w'))
    (hr : Reach s s') : ¬ Done s' := by
  intro hd
  obtain ⟨pre, hp⟩ := reach_collectives hr
  apply h
  rw [hp w, hp w', hd w, hd w']
  rfl

/-! ### The programs -/

/-- An action in which all workers ask for the same collective operation. -/
def Plain (a : Action) : Prop := ∀ r r' : ℕ, a.view r = a.view r'

theorem plain_coll (op : Op) : Plain (.coll op) := fun _ _ => rfl

theorem plain_rank0 (what : String) : Plain (.ifRank0 (.loc what)) := by
  intro r r'
  simp [Action.view]

theorem collectives_plain (l : List Action) (h : ∀ a ∈ l, Plain a) (r r' : ℕ) : collectives r l = collectives r' l := by
  unfold collectives
  induction l with
  | nil => rfl
  | cons a l ih =>
    rw [List.filterMap_cons, List.filterMap_cons, h a List.mem_cons_self r r',
      ih fun b hb => h b (List.mem_cons_of_mem _ hb)]

theorem trainStep_plain (gen cb batch mini : ℕ) (p : Proc) : ∀ a ∈ (trainStep gen cb batch mini p).1, Plain a := by
  intro a ha
  simp only [trainStep, List.mem_append, List.mem_singleton] at ha
  rcases ha with ((h | h) | h) | h
  · split at h
    · rw [List.mem_singleton.mp h]; exact plain_coll _
    · exact absurd h List.not_mem_nil
  · split at h
    · rw [List.mem_singleton.mp h]; exact plain_coll _
    · exact absurd h List.not_mem_nil
  · split at h
    · rw [List.mem_singleton.mp h]; exact plain_coll _
    · exact absurd h List.not_mem_nil
  · rw [h]; exact plain_rank0 _

theorem trainSteps_plain (gen cb batch mini : ℕ) (n : ℕ) (p : Proc) :
    ∀ a ∈ (trainSteps gen cb batch mini n p).1, Plain a := by
  induction n generalizing p with
  | zero => intro a ha; exact absurd ha List.not_mem_nil
  | succ n ih =>
    intro a ha
    rcases List.mem_append.mp ha with h | h
    · exact trainStep_plain _ _ _ _ _ a h
    · exact ih _ a h

theorem epochEnd_plain (c : Setup) (gen cb e : ℕ) : ∀ a ∈ epochEnd c gen cb e, Plain a := by
  intro a ha
  simp only [epochEnd, List.mem_append, List.mem_map, List.mem_cons, List.not_mem_nil, or_false] at ha
  rcases ha with (h | ⟨k, -, rfl⟩) | rfl | rfl
  · split at h
    · rw [List.mem_singleton.mp h]; exact plain_coll _
    · exact absurd h List.not_mem_nil
  · exact plain_coll _
  · exact plain_rank0 _
  · exact plain_rank0 _

theorem epochs_plain (c : Setup) (gen cb batch mini n e : ℕ) (p : Proc) :
    ∀ a ∈ (epochs c gen cb batch mini n e p).1, Plain a := by
  induction n generalizing e p with
  | zero => intro a ha; exact absurd ha List.not_mem_nil
  | succ n ih =>
    intro a ha
    rcases List.mem_append.mp ha with h | h
    · rcases List.mem_append.mp h with h | h
      · exact trainSteps_plain _ _ _ _ _ _ a h
      · exact epochEnd_plain _ _ _ _ a h
    · exact ih _ _ a h

theorem stageLoop_plain (c : Setup) (workers : ℕ) (stages : List (ℕ × ℕ)) (total initial gens cbs acc : ℕ) :
    ∀ a ∈ (stageLoop c workers stages total initial gens cbs acc).1, Plain a := by
  induction stages generalizing total initial gens cbs acc with
  | nil => intro a ha; exact absurd ha List.not_mem_nil
  | cons st rest ih =>
    intro a ha
    rw [stageLoop] at ha
    dsimp only at ha
    by_cases hle : total + st.2 ≤ initial
    · rw [if_pos hle] at ha; exact ih _ _ _ _ _ a ha
    · rw [if_neg hle] at ha
      rcases List.mem_append.mp ha with h | h
      · rcases List.mem_append.mp h with h | h
        · rcases List.mem_append.mp h with h | h
          · split at h
            · rw [List.mem_singleton.mp h]; exact plain_coll _
            · exact absurd h List.not_mem_nil
          · exact epochs_plain _ _ _ _ _ _ _ _ a h
        · rw [List.mem_singleton.mp h]; exact plain_rank0 _
      · exact ih _ _ _ _ _ a h

theorem program_plain (c : Setup) (workers : ℕ) (file : Option Restored) : ∀ a ∈ program c workers file, Plain a := by
  intro a ha
  unfold program at ha
  dsimp only at ha
  rcases List.mem_append.mp ha with h | h
  · rcases List.mem_append.mp h with h | h
    · rcases List.mem_append.mp h with h | h
      · rw [List.mem_singleton.mp h]; exact plain_rank0 _
      · exact stageLoop_plain _ _ _ _ _ _ _ _ a h
    · split at h
      · exact absurd h List.not_mem_nil
      · rw [(List.mem_replicate.mp h).2]; exact plain_coll _
  · rw [List.mem_singleton.mp h]; exact plain_rank0 _

/-- The average of the loss, which every epoch asks for once. -/
def isLoss : Op → Bool
  | .metric _ k => k = "loss"
  | _ => false

/-- How often a worker averages the loss. -/
def losses (l : List Action) : ℕ := (collectives 0 l).countP isLoss

theorem losses_append (l l' : List Action) : losses (l ++ l') = losses l + losses l' := by
  unfold losses
  rw [collectives_append, List.countP_append]

theorem losses_trainStep (gen cb batch mini : ℕ) (p : Proc) : losses (trainStep gen cb batch mini p).1 = 0 := by
  unfold trainStep
  dsimp only
  split <;> split <;> split <;> simp [losses, collectives, Action.view, isLoss]

theorem losses_trainSteps (gen cb batch mini : ℕ) (n : ℕ) (p : Proc) :
    losses (trainSteps gen cb batch mini n p).1 = 0 := by
  induction n generalizing p with
  | zero => rfl
  | succ n ih => rw [trainSteps]; dsimp only; rw [losses_append, losses_trainStep, ih]

theorem losses_metrics (cb : ℕ) (l : List String) :
    losses (l.map fun k => Action.coll (.metric cb k)) = l.count "loss" := by
  induction l with
  | nil => rfl
  | cons k l ih =>
    rw [List.map_cons, show (Action.coll (.metric cb k) :: l.map fun k => Action.coll (.metric cb k))
      = [Action.coll (.metric cb k)] ++ l.map fun k => Action.coll (.metric cb k) from rfl, losses_append, ih,
      List.count_cons]
    by_cases h : k = "loss"
    · simp [losses, collectives, Action.view, isLoss, h, Nat.add_comm]
    · simp [losses, collectives, Action.view, isLoss, h]

theorem count_loss (truth val : Bool) : (metricKeys truth val).count "loss" = 1 := by
  cases truth <;> cases val <;> decide

theorem losses_epochEnd (c : Setup) (gen cb e : ℕ) : losses (epochEnd c gen cb e) = 1 := by
  unfold epochEnd
  rw [losses_append, losses_append, losses_metrics, count_loss]
  split <;> simp [losses, collectives, Action.view, isLoss]

theorem losses_epochs (c : Setup) (gen cb batch mini n e : ℕ) (p : Proc) :
    losses (epochs c gen cb batch mini n e p).1 = n := by
  induction n generalizing e p with
  | zero => rfl
  | succ n ih =>
    rw [epochs]; dsimp only
    rw [losses_append, losses_append, losses_trainSteps, losses_epochEnd, ih]
    omega

theorem losses_stageLoop (c : Setup) (workers : ℕ) (stages : List (ℕ × ℕ)) (total initial gens cbs acc : ℕ)
    (h : total ≤ initial) :
    losses (stageLoop c workers stages total initial gens cbs acc).1 = total + (stages.map Prod.snd).sum - initial := by
  induction stages generalizing total initial gens cbs acc with
  | nil => simp [stageLoop, losses, collectives]; omega
  | cons st rest ih =>
    rw [stageLoop]
    dsimp only
    rw [List.map_cons, List.sum_cons]
    by_cases hle : total + st.2 ≤ initial
    · rw [if_pos hle, ih _ _ _ _ _ hle]; omega
    · rw [if_neg hle]
      dsimp only
      rw [losses_append, losses_append, losses_append, losses_epochs, ih _ _ _ _ _ le_rfl]
      have h1 : losses (if c.broadcastAtBegin = true then [Action.coll (.broadcast cbs)] else []) = 0 := by
        split <;> simp [losses, collectives, Action.view, isLoss]
      have h2 : losses [Action.ifRank0 (.loc "stage weights")] = 0 := by
        simp [losses, collectives, Action.view]
      rw [h1, h2]
      omega

theorem losses_program (c : Setup) (workers : ℕ) (file : Option Restored) :
    losses (program c workers file) = c.total - (file.getD ⟨0, 0⟩).epoch := by
  unfold program
  dsimp only
  rw [losses_append, losses_append, losses_append, losses_stageLoop _ _ _ _ _ _ _ _ (Nat.zero_le _)]
  have h1 : losses [Action.ifRank0 (.loc "config.json")] = 0 := by simp [losses, collectives, Action.view]
  have h2 : losses [Action.ifRank0 (.loc "print results")] = 0 := by simp [losses, collectives, Action.view]
  have h3 : ∀ n g, losses (List.replicate n (Action.coll (.energy g))) = 0 := by
    intro n g
    induction n with
    | zero => rfl
    | succ n ih =>
      rw [List.replicate_succ', losses_append, ih]
      simp [losses, collectives, Action.view, isLoss]
  rw [h1, h2]
  unfold Setup.total
  split
  · rw [show losses [] = 0 from rfl]; omega
  · rw [h3]; omega

/-! ### C121 -/

/-- **C121**, what holds: if all workers find the same checkpoint (or none), then for every configuration, number of workers and
interleaving the workers never get stuck: every state that can be reached is one from which something can happen, or all workers are
done; and there are at most as many steps as actions, so that all of them finish. -/
theorem C121_partial (c : Setup) (W : ℕ) [NeZero W] (files : Fin W → Option Restored) (file : Option Restored)
    (hfiles : ∀ w, files w = file) (s : State W) (hr : Reach (start c W files) s) :
    (Done s ∨ ∃ s', Step s s') ∧ (∃ s', Reach s s' ∧ Done s') ∧
    ∀ s', Step s s' → ∑ w, (s' w).length < ∑ w, (s w).length := by
  have hsame : ∀ w w' : Fin W, collectives w (start c W files w) = collectives w' (start c W files w') := by
    intro w w'
    unfold start
    rw [hfiles w, hfiles w']
    exact collectives_plain _ (program_plain c W file) _ _
  have key : ∀ t, Reach (start c W files) t → Done t ∨ ∃ s', Step t s' := by
    intro t ht
    by_contra hc
    exact never_stuck hsame ht ⟨fun hd => hc (Or.inl hd), fun s' hs => hc (Or.inr ⟨s', hs⟩)⟩
  refine ⟨key s hr, ?_, fun s' h => step_length h⟩
  obtain ⟨s', h1, h2⟩ := exists_end s
  rcases key s' (hr.trans h1) with h | ⟨s'', h⟩
  · exact ⟨s', h1, h⟩
  · exact absurd h (h2 s'')

/-- **C121 is false of the code** if the workers do not all find the same file: as soon as two workers start from different epochs
that are not both past the last one, no interleaving lets all workers finish, and every execution runs into a state in which
some workers wait for ever. -/
theorem C121_violated_epochs (c : Setup) (W : ℕ) [NeZero W] (files : Fin W → Option Restored) (w w' : Fin W)
    (hlt : ((files w).getD ⟨0, 0⟩).epoch < ((files w').getD ⟨0, 0⟩).epoch)
    (hin : ((files w).getD ⟨0, 0⟩).epoch < c.total) (s : State W) (hr : Reach (start c W files) s) :
    ¬ Done s ∧ ∃ s', Reach s s' ∧ Stuck s' := by
  have hne : collectives w (start c W files w) ≠ collectives w' (start c W files w') := by
    intro h
    unfold start at h
    rw [collectives_plain _ (program_plain c W _) w 0, collectives_plain _ (program_plain c W _) w' 0] at h
    have h1 := congrArg (List.countP isLoss) h
    have h2 : losses (program c W (files w)) = losses (program c W (files w')) := h1
    rw [losses_program, losses_program] at h2
    omega
  refine ⟨never_done w w' hne hr, ?_⟩
  obtain ⟨s', h1, h2⟩ := exists_end s
  exact ⟨s', h1, never_done w w' hne (hr.trans h1), h2⟩

/-- **C121 is false of the code**, the case of machines with file systems of their own: only rank zero writes checkpoints, so after a restart in the
middle of training it alone finds one. Then the restarted training always gets stuck, however many other workers there are. -/
theorem C121_violated_restart (c : Setup) (W : ℕ) [NeZero W] (hW : 1 < W) (saved : Restored) (h0 : 0 < saved.epoch)
    (h1 : saved.epoch < c.total) :
    let files : Fin W → Option Restored := fun w => if w = 0 then some saved else none
    ∀ s, Reach (start c W files) s → ¬ Done s ∧ ∃ s', Reach s s' ∧ Stuck s' := by
  intro files s hr
  have hw : (⟨1, hW⟩ : Fin W) ≠ 0 := by
    intro h
    have := congrArg Fin.val h
    simp at this
  have e1 : files ⟨1, hW⟩ = none := if_neg hw
  have e0 : files 0 = some saved := if_pos rfl
  refine C121_violated_epochs c W files ⟨1, hW⟩ 0 ?_ ?_ s hr
  · rw [e1, e0]; exact h0
  · rw [e1]; show 0 < c.total; omega

/-- The hypotheses of the C121 theorems are met: four workers, two stages, restarted in the second stage. -/
example : ∃ (c : Setup) (saved : Restored), 0 < saved.epoch ∧ saved.epoch < c.total ∧
    ((fun _ : Fin 4 => some saved) 0 = some saved) ∧
    (collectives 0 (program c 4 (some saved))).take 8 =
      [.energy 0, .gradients, .broadcast 0, .energy 0, .gradients, .metric 0 "energy/energy",
        .metric 0 "energy/local_energy_variance", .metric 0 "loss"] :=
  ⟨{ stages := [(64, 2), (128, 3)], mini := 32, stepsPerEpoch := 2, period := 3, truth := false, broadcastAtBegin := false },
    ⟨4, 8⟩, by decide, by decide, rfl, by decide⟩

/-- **C121 (sizes).** The mini-batches of the loop are those of the generators that `set_batch_size` prepares. -/
theorem C121_mini_batch_size {S α : Type} {st st' : MBState S α} {batch mini : ℕ}
    (h : setBatchSize st batch (some mini) = some st') : st'.miniBatchSize = effMini batch mini := by
  unfold setBatchSize at h
  unfold effMini
  by_cases hm : mini > batch
  · simp only [hm, if_true] at h
    split at h
    · simp at h
    · obtain rfl := Option.some.inj h
      exact (min_eq_right hm.le).symm
  · simp only [hm, if_false] at h
    split at h
    · simp at h
    · obtain rfl := Option.some.inj h
      exact (min_eq_left (not_lt.1 hm)).symm

/-- Mini-batches of five of batches of twenty, and of a hundred of batches of twenty. -/
example (st : MBState Unit Unit) : (∃ st', setBatchSize st 20 (some 5) = some st' ∧ st'.miniBatchSize = 5) ∧
    ∃ st', setBatchSize st 20 (some 100) = some st' ∧ st'.miniBatchSize = 20 := ⟨⟨_, rfl, rfl⟩, ⟨_, rfl, rfl⟩⟩

/-- Why the tests of the rank matter: if a program contains one collective operation more that only the worker of rank zero asks for, say the energy of
the validation batch under `if is_rank_0:`, then no execution on two or more workers ever finishes. -/
theorem C121_rank_zero_alone {W : ℕ} (hW : 2 ≤ W) (before after : List Action) (op : Op) (hb : ∀ a ∈ before, Plain a)
    (ha : ∀ a ∈ after, Plain a) (s : State W) (hr : Reach (fun _ : Fin W => before ++ .ifRank0 (.coll op) :: after) s) : ¬ Done s := by
  refine never_done (⟨0, by omega⟩ : Fin W) ⟨1, by omega⟩ ?_ hr
  intro h
  have h1 : collectives 1 (before ++ .ifRank0 (.coll op) :: after) = collectives 0 before ++ collectives 0 after := by
    rw [collectives_append, collectives_plain before hb 1 0, ← collectives_plain after ha 1 0]
    rfl
  have h0 : collectives 0 (before ++ .ifRank0 (.coll op) :: after) = collectives 0 before ++ op :: collectives 0 after := by
    rw [collectives_append]
    rfl
  have := congrArg List.length (h0.symm.trans (h.trans h1))
  simp at this

/-- The programs of the code meet the hypothesis. -/
example (c : Setup) (workers : ℕ) (file : Option Restored) : ∀ a ∈ program c workers file, Plain a := program_plain c workers file

end Verif.Workers
