import Verif.Training.AccumulateProps

/-!
# C113: gradient accumulation and weight averaging across a restart

A checkpoint (`src/flowket/callbacks/checkpoint.py`) holds the weights of the model and the variables that the
wrapped optimizer lists as its `weights`. The variables added by `convert_to_accumulate_gradient_optimizer` are not
among them.
-/
namespace Verif.Training

variable {Opt G P B : Type} [AddCommGroup G] [Module ℝ G] [AddCommGroup P] [Module ℝ P]

/-! ### Model -/

/-- What a checkpoint holds: `model.save_weights` and `save_optimizer_weights` (callbacks/checkpoint.py:9-15, 53-56).
`accumulated_iterations`, `update_params_frequency`, the accumulators, `params_ema` and `total_iterations` are
plain attributes of the optimizer (accumulate_gradient_optimizer.py:23-26, 55-58) and not in its `weights`. -/
def checkpointOf (st : AccState Opt G P) : Opt := st.opt

/-- A new process: the optimizer is converted (`compile_model`, experiments/train.py:51-55), the checkpoint is
loaded (`load_weights_if_exist`, train.py:58-65, checkpoint.py:18-26), then the stage sets its frequency (train.py:110). -/
def restart (checkpoint : Opt) (initialFrequency stageFrequency : Nat) : Option (AccState Opt G P) :=
  (convert checkpoint initialFrequency).map fun st => setUpdateParamsFrequency st stageFrequency

/-! ### Lemmas -/

/-- Two states that differ only in the moving average and, by multiples of the frequency, in the counter. -/
def Alike (st st' : AccState Opt G P) : Prop :=
  st.opt = st'.opt ∧ st.accumulators = st'.accumulators ∧ st.updateParamsFrequency = st'.updateParamsFrequency ∧
    st.accumulatedIterations % st.updateParamsFrequency = st'.accumulatedIterations % st.updateParamsFrequency

theorem alike_step (o : Optimizer Opt G P) (cfg : AccConfig) {st st' : AccState Opt G P} (h : Alike st st') (g : G) :
    Alike (accStep o cfg st g) (accStep o cfg st' g) := by
  obtain ⟨h1, h2, h3, h4⟩ := h
  have h5 : (st.accumulatedIterations + 1) % st.updateParamsFrequency =
      (st'.accumulatedIterations + 1) % st.updateParamsFrequency := by
    rw [Nat.add_mod, h4, ← Nat.add_mod]
  unfold accStep Alike
  simp only [← h1, ← h2, ← h3, h5]
  by_cases hc : (st'.accumulatedIterations + 1) % st.updateParamsFrequency = 0
  · simp only [if_pos hc, true_and]
    exact h5
  · simp only [if_neg hc, true_and]
    exact h5

theorem alike_train (o : Optimizer Opt G P) (cfg : AccConfig) (grad : P → B → G) (bs : List B) :
    ∀ {st st' : AccState Opt G P}, Alike st st' → Alike (accTrain o cfg grad st bs) (accTrain o cfg grad st' bs) := by
  induction bs with
  | nil => exact fun h => h
  | cons b bs ih =>
    intro st st' h
    have h1 := alike_step o cfg h (grad (o.params st.opt) b)
    have := ih h1
    rw [h.1] at this
    unfold accTrain at this ⊢
    rw [List.foldl_cons, List.foldl_cons, h.1]
    exact this

omit [Module ℝ G] [Module ℝ P] in
theorem restart_eq (c : Opt) {f0 k : Nat} {st : AccState Opt G P} (h : restart c f0 k = some st) :
    st = ⟨c, 0, 0, k, 0, 0⟩ := by
  unfold restart convert at h
  by_cases hf : f0 < 1
  · rw [if_pos hf] at h
    exact absurd h (by simp)
  · rw [if_neg hf] at h
    exact (Option.some.inj h).symm

omit [Module ℝ G] [Module ℝ P] in
theorem convert_of_restart (c : Opt) {f0 k : Nat} (hk : 0 < k) {st : AccState Opt G P} (h : restart c f0 k = some st) :
    convert c k = some st := by
  rw [restart_eq c h]
  unfold convert
  rw [if_neg (by omega)]

/-! ### C113 -/

/-- **C113, checkpoints between two updates, no averaging.** Train with frequency `k` on whole groups of `k`
mini-batches, save, and restart: whatever mini-batches follow, weights and optimizer are those of the
uninterrupted training. Missing: checkpoints inside a group (`C113_violated_accumulators`) and the moving average
(`C113_violated_ema`). -/
theorem C113_partial (o : Optimizer Opt G P) (cfg : AccConfig) (grad : P → B → G) (opt : Opt) (f0 k : Nat)
    (st0 st1 : AccState Opt G P) (h0 : convert opt k = some st0) (groups : List (List B))
    (hgroups : ∀ g ∈ groups, g.length = k)
    (h1 : restart (checkpointOf (accTrain o cfg grad st0 groups.flatten)) f0 k = some st1) (bs : List B) :
    (accTrain o cfg grad st1 bs).opt = (accTrain o cfg grad st0 (groups.flatten ++ bs)).opt := by
  unfold convert at h0
  by_cases hf : k < 1
  · rw [if_pos hf] at h0
    exact absurd h0 (by simp)
  rw [if_neg hf] at h0
  have hk : 0 < k := by omega
  obtain ⟨e1, e2, e3, e4, -⟩ := accTrain_groups o cfg grad k hk groups hgroups st0
    (by rw [← Option.some.inj h0]) (by rw [← Option.some.inj h0]) (by rw [← Option.some.inj h0]; simp)
  have happ : accTrain o cfg grad st0 (groups.flatten ++ bs) =
      accTrain o cfg grad (accTrain o cfg grad st0 groups.flatten) bs := List.foldl_append
  rw [happ]
  refine (alike_train o cfg grad bs ?_).1
  rw [restart_eq _ h1]
  unfold Alike checkpointOf
  refine ⟨rfl, ?_, ?_, ?_⟩
  · exact e2.symm
  · exact e4.symm
  · show 0 % k = _
    rw [Nat.zero_mod]
    symm
    show _ % k = 0
    exact e3

/-- What is lost in general: after a restart from a checkpoint saved after `r` mini-batches of a group the
training goes on as if these mini-batches had never been processed. -/
theorem C113_lost (o : Optimizer Opt G P) (cfg : AccConfig) (grad : P → B → G) (opt : Opt) (f0 k : Nat) (hk : 0 < k)
    (st0 st1 : AccState Opt G P) (h0 : convert opt k = some st0) (done : List (List B)) (hdone : ∀ g ∈ done, g.length = k)
    (started : List B) (hs : started.length < k)
    (h1 : restart (checkpointOf (accTrain o cfg grad st0 (done.flatten ++ started))) f0 k = some st1)
    (next : List (List B)) (hnext : ∀ g ∈ next, g.length = k) (rest : List B) (hrest : rest.length < k) :
    (accTrain o cfg grad st1 (next.flatten ++ rest)).opt =
      bigBatchTrain o cfg.accumulateSum grad opt (done ++ next) := by
  have e := C27_accumulation_is_big_batch o cfg grad opt k st0 h0 done hdone started hs
  unfold checkpointOf at h1
  rw [e] at h1
  rw [C27_accumulation_is_big_batch o cfg grad _ k st1 (convert_of_restart _ hk h1) next hnext rest hrest]
  unfold bigBatchTrain
  rw [List.foldl_append]

/-- **C113 is false of the code** for checkpoints inside a group, for every frequency of two or more: with every
mini-batch contributing the gradient 1, the uninterrupted training makes its first update after `k` mini-batches;
if it is interrupted after `r` of these, the `k - r` mini-batches that follow the restart lead to no update. -/
theorem C113_violated_accumulators (k r : Nat) (hr : 0 < r) (hrk : r < k) :
    let grad : Unit → Unit → ℝ := fun _ _ => 1
    ∃ st0 st1 : AccState (List ℝ) ℝ Unit, convert [] k = some st0 ∧
      restart (checkpointOf (accTrain recorder ⟨true, 0⟩ grad st0 (List.replicate r ()))) k k = some st1 ∧
      (accTrain recorder ⟨true, 0⟩ grad st0 (List.replicate r () ++ List.replicate (k - r) ())).opt = [(k : ℝ)] ∧
      (accTrain recorder ⟨true, 0⟩ grad st1 (List.replicate (k - r) ())).opt = [] := by
  intro grad
  have h0 : convert ([] : List ℝ) k = some (⟨[], 0, 0, k, 0, 0⟩ : AccState (List ℝ) ℝ Unit) := by
    unfold convert
    rw [if_neg (by omega)]
  have hin : (accTrain recorder ⟨true, 0⟩ grad ⟨[], 0, 0, k, 0, 0⟩ (List.replicate r ())).opt = [] := by
    have := C27_accumulation_is_big_batch recorder ⟨true, 0⟩ grad [] k _ h0 [] (by simp) (List.replicate r ()) (by simpa using hrk)
    simpa [bigBatchTrain] using this
  refine ⟨_, ⟨[], 0, 0, k, 0, 0⟩, h0, ?_, ?_, ?_⟩
  · unfold restart checkpointOf
    rw [hin, h0]
    rfl
  · have := C27_accumulation_is_big_batch recorder ⟨true, 0⟩ grad [] k _ h0 [List.replicate k ()] (by simp) [] (by simp; omega)
    rw [← List.replicate_add, Nat.add_sub_cancel' hrk.le]
    simpa [bigBatchTrain, recorder, grad] using this
  · have := C27_accumulation_is_big_batch recorder ⟨true, 0⟩ grad [] k _ h0 [] (by simp) (List.replicate (k - r) ()) (by simp; omega)
    simpa [bigBatchTrain] using this

/-- **C113, the moving average after a restart.** `set_weights_ema` knows only the parameters since the restart: it
fails if no update followed, and otherwise returns a weighted mean of the parameters after the `n` updates since the
restart, the weights being those of a training that began there. -/
theorem C113_ema_after_restart (o : Optimizer Opt G P) (hlaw : Lawful o) (cfg : AccConfig) (hd0 : 0 < cfg.emaDecay)
    (hd1 : cfg.emaDecay < 1) (grad : P → B → G) (c : Opt) (f0 k : Nat) (hk : 0 < k) (st1 : AccState Opt G P)
    (h1 : restart c f0 k = some st1) :
    setWeightsEma o cfg st1 = none ∧
    ∀ groups : List (List B), groups ≠ [] → (∀ g ∈ groups, g.length = k) →
      ∃ st2, setWeightsEma o cfg (accTrain o cfg grad st1 groups.flatten) = some st2 ∧
      ∃ w : Nat → ℝ, (∃ c', ∀ i, w i = c' * cfg.emaDecay ^ (groups.length - 1 - i)) ∧
        (∑ i ∈ Finset.range groups.length, w i = 1) ∧
        o.params st2.opt = ∑ i ∈ Finset.range groups.length,
          w i • o.params (bigBatchTrain o cfg.accumulateSum grad c (groups.take (i + 1))) := by
  refine ⟨C29_ema_before_update o cfg st1 (by rw [restart_eq c h1]), fun groups hne hg => ?_⟩
  obtain ⟨st2, e1, w, e2, -, e3, e4⟩ := C29_ema_is_average o hlaw cfg hd0 hd1 grad c k st1 (convert_of_restart c hk h1)
    groups hne hg [] hk
  rw [List.append_nil] at e1
  exact ⟨st2, e1, w, e2, e3, e4⟩

/-- Plain gradient plainDescent on the reals. -/
def plainDescent : Optimizer ℝ ℝ ℝ := ⟨fun w g => w - g, id, fun _ p => p⟩

/-- **C113 is false of the code** for the moving average: two updates that move the weight from 0 to 1 and to 2 have
the average 5/3 (decay 1/2), with a restart between them it is 2. -/
theorem C113_violated_ema :
    let grad : ℝ → Unit → ℝ := fun _ _ => -1
    ∃ st0 st1 a b : AccState ℝ ℝ ℝ, convert (0 : ℝ) 1 = some st0 ∧
      restart (checkpointOf (accTrain plainDescent ⟨true, 1 / 2⟩ grad st0 [()])) 1 1 = some st1 ∧
      setWeightsEma plainDescent ⟨true, 1 / 2⟩ (accTrain plainDescent ⟨true, 1 / 2⟩ grad st0 ([()] ++ [()])) = some a ∧
      setWeightsEma plainDescent ⟨true, 1 / 2⟩ (accTrain plainDescent ⟨true, 1 / 2⟩ grad st1 [()]) = some b ∧
      a.opt = 5 / 3 ∧ b.opt = 2 := by
  refine ⟨⟨0, 0, 0, 1, 0, 0⟩, ⟨1, 0, 0, 1, 0, 0⟩, ⟨5 / 3, 0, 2, 1, 5 / 4, 2⟩, ⟨2, 0, 1, 1, 1, 1⟩, ?_, ?_, ?_, ?_, rfl, rfl⟩
  · simp [convert]
  · simp [restart, checkpointOf, accTrain, accStep, convert, setUpdateParamsFrequency, plainDescent]
  · simp [accTrain, accStep, setWeightsEma, plainDescent]
    norm_num
  · simp [accTrain, accStep, setWeightsEma, plainDescent]
    norm_num

/-- The hypotheses of `C113_partial` are met: one full group of two mini-batches, then a restart. -/
example : ∃ st0 st1 : AccState ℝ ℝ ℝ, convert (3 : ℝ) 2 = some st0 ∧ (∀ g ∈ [[(1 : ℝ), 2]], g.length = 2) ∧
    restart (checkpointOf (accTrain plainDescent ⟨true, 0⟩ (fun _ b => b) st0 [[(1 : ℝ), 2]].flatten)) 1 2 = some st1 ∧
    st1.opt = 0 := by
  refine ⟨_, ⟨0, 0, 0, 2, 0, 0⟩, rfl, by simp, ?_, rfl⟩
  simp [restart, checkpointOf, accTrain, accStep, convert, setUpdateParamsFrequency, plainDescent]
  norm_num

end Verif.Training
