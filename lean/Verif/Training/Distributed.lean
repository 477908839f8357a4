import Verif.Training.AccumulateProps
import Verif.Energy.Local
import Mathlib.Algebra.BigOperators.Fin
import Mathlib.Algebra.BigOperators.Module
import Mathlib.Data.Complex.BigOperators
import Mathlib.Data.Fintype.BigOperators
import Mathlib.Analysis.Complex.Basic

/-!
# C80: training with several workers (Horovod)

`HorovodVariationalMonteCarlo` (optimization/horovod_variational_monte_carlo.py) averages the energy over
the workers, the accumulating optimizer (optimizers/accumulate_gradient_optimizer.py) averages the
accumulated gradients.  Workers run in lockstep: an all-reduce returns once all workers called it.
Not modelled: failures of workers and of the network; floats are exact numbers.
-/

open scoped BigOperators

namespace Verif.Training

variable {Opt G P : Type} [AddCommGroup G] [Module ℝ G] [AddCommGroup P] [Module ℝ P] {B : Type}

/-- `hvd.allreduce` with its default operation: the mean over the workers. -/
noncomputable def allreduce {W : ℕ} {V : Type*} [AddCommGroup V] [Module ℝ V] (x : Fin W → V) : V :=
  (1 / (W : ℝ)) • ∑ w, x w

/-! ## The optimizer -/

/-- One training step of all workers, accumulate_gradient_optimizer.py 34-82 with `use_horovod`: as
`accStep`, but the wrapped optimizer is given the mean over the workers of the accumulators
(`_allreduce`, 34-46, `updated_get_gradients`, 48-50). -/
noncomputable def distStep {W : ℕ} (o : Optimizer Opt G P) (cfg : AccConfig)
    (st : Fin W → AccState Opt G P) (g : Fin W → G) : Fin W → AccState Opt G P :=
  let acc : Fin W → G := fun w => (st w).accumulators +
    (if cfg.accumulateSum then g w else (1 / ((st w).updateParamsFrequency : ℝ)) • g w)
  let avg := allreduce acc
  fun w =>
    let iter := (st w).accumulatedIterations + 1
    if iter % (st w).updateParamsFrequency = 0 then
      let opt' := o.update (st w).opt avg
      { opt := opt'
        accumulators := 0
        accumulatedIterations := iter
        updateParamsFrequency := (st w).updateParamsFrequency
        paramsEma := cfg.emaDecay • (st w).paramsEma + (1 - cfg.emaDecay) • o.params opt'
        totalIterations := (st w).totalIterations + 1 }
    else { st w with accumulators := acc w, accumulatedIterations := iter }

/-- Training of all workers on a sequence of batches, worker `w` on its own part `b w`; gradients are
computed at the worker's own parameters. -/
noncomputable def distTrain {W : ℕ} (o : Optimizer Opt G P) (cfg : AccConfig) (grad : P → B → G)
    (st : Fin W → AccState Opt G P) (batches : List (Fin W → B)) : Fin W → AccState Opt G P :=
  batches.foldl (fun st b => distStep o cfg st fun w => grad (o.params (st w).opt) (b w)) st

theorem allreduce_const {W : ℕ} (hW : 0 < W) {V : Type*} [AddCommGroup V] [Module ℝ V] (x : V) :
    allreduce (fun _ : Fin W => x) = x := by
  unfold allreduce
  rw [Finset.sum_const, Finset.card_univ, Fintype.card_fin, ← Nat.cast_smul_eq_nsmul ℝ, smul_smul,
    one_div_mul_cancel (by exact_mod_cast hW.ne'), one_smul]

theorem allreduce_add {W : ℕ} {V : Type*} [AddCommGroup V] [Module ℝ V] (x y : Fin W → V) :
    allreduce (fun w => x w + y w) = allreduce x + allreduce y := by
  unfold allreduce
  rw [Finset.sum_add_distrib, smul_add]

theorem allreduce_smul {W : ℕ} {V : Type*} [AddCommGroup V] [Module ℝ V] (c : ℝ) (x : Fin W → V) :
    allreduce (fun w => c • x w) = c • allreduce x := by
  unfold allreduce
  rw [← Finset.smul_sum, smul_comm]

theorem allreduce_zero {W : ℕ} {V : Type*} [AddCommGroup V] [Module ℝ V] :
    allreduce (fun _ : Fin W => (0 : V)) = 0 := by
  unfold allreduce; simp

/-- Workers `st` and a single process `s` in step: all the same except for the accumulators, whose mean
is the accumulator of the single process. -/
structure InStep {W : ℕ} (st : Fin W → AccState Opt G P) (s : AccState Opt G P) : Prop where
  opt : ∀ w, (st w).opt = s.opt
  acc : allreduce (fun w => (st w).accumulators) = s.accumulators
  iter : ∀ w, (st w).accumulatedIterations = s.accumulatedIterations
  freq : ∀ w, (st w).updateParamsFrequency = s.updateParamsFrequency
  ema : ∀ w, (st w).paramsEma = s.paramsEma
  total : ∀ w, (st w).totalIterations = s.totalIterations

theorem inStep_step {W : ℕ} (o : Optimizer Opt G P) (cfg : AccConfig)
    (st : Fin W → AccState Opt G P) (s : AccState Opt G P) (h : InStep st s) (g : Fin W → G) :
    InStep (distStep o cfg st g) (accStep o cfg s (allreduce g)) := by
  have hacc : allreduce (fun w => (st w).accumulators +
      (if cfg.accumulateSum then g w else (1 / ((st w).updateParamsFrequency : ℝ)) • g w))
      = s.accumulators + (if cfg.accumulateSum then allreduce g
        else (1 / (s.updateParamsFrequency : ℝ)) • allreduce g) := by
    rw [allreduce_add, h.acc]
    congr 1
    split
    · rfl
    · simp only [h.freq]
      exact allreduce_smul _ _
  by_cases hu : (s.accumulatedIterations + 1) % s.updateParamsFrequency = 0
  · have h1 : ∀ w, distStep o cfg st g w = accStep o cfg s (allreduce g) := by
      intro w
      unfold distStep accStep
      dsimp only
      rw [hacc, h.opt, h.iter, h.freq, h.ema, h.total, if_pos hu, if_pos hu]
    have h0 : (accStep o cfg s (allreduce g)).accumulators = 0 := by
      unfold accStep
      dsimp only
      rw [if_pos hu]
    refine ⟨fun w => by rw [h1], ?_, fun w => by rw [h1], fun w => by rw [h1], fun w => by rw [h1],
      fun w => by rw [h1]⟩
    simp only [h1, h0]
    exact allreduce_zero
  · have h1 : ∀ w, distStep o cfg st g w = { st w with
        accumulators := (st w).accumulators +
          (if cfg.accumulateSum then g w else (1 / ((st w).updateParamsFrequency : ℝ)) • g w)
        accumulatedIterations := s.accumulatedIterations + 1 } := by
      intro w
      unfold distStep
      dsimp only
      rw [h.iter, h.freq, if_neg hu]
    have h2 : accStep o cfg s (allreduce g) = { s with
        accumulators := s.accumulators + (if cfg.accumulateSum then allreduce g
          else (1 / (s.updateParamsFrequency : ℝ)) • allreduce g)
        accumulatedIterations := s.accumulatedIterations + 1 } := by
      unfold accStep
      dsimp only
      rw [if_neg hu]
    refine ⟨fun w => ?_, ?_, fun w => ?_, fun w => ?_, fun w => ?_, fun w => ?_⟩
    · rw [h1, h2]; exact h.opt w
    · rw [h2, ← hacc]; simp only [h1]
    · rw [h1, h2]
    · rw [h1, h2]; exact h.freq w
    · rw [h1, h2]; exact h.ema w
    · rw [h1, h2]; exact h.total w

theorem inStep_train {W : ℕ} (o : Optimizer Opt G P) (cfg : AccConfig) (grad : P → B → G)
    (batches : List (Fin W → B)) : ∀ (st : Fin W → AccState Opt G P) (s : AccState Opt G P), InStep st s →
    InStep (distTrain o cfg grad st batches)
      (accTrain o cfg (fun p (b : Fin W → B) => allreduce fun w => grad p (b w)) s batches) := by
  induction batches with
  | nil => exact fun st s h => h
  | cons b rest ih =>
    intro st s h
    refine ih _ _ ?_
    have := inStep_step o cfg st s h fun w => grad (o.params (st w).opt) (b w)
    simp only [h.opt] at this ⊢
    exact this

/-- **C80**, weights: workers that start from the same weights (they are broadcast) have the same
weights after any number of steps, and these are the weights of a single process that is trained on the
mean over the workers of the gradients. Any number of workers, any wrapped optimizer, accumulation
frequency, gradient function and sequence of batches. -/
theorem C80_weights {W : ℕ} (hW : 0 < W) (o : Optimizer Opt G P) (cfg : AccConfig) (grad : P → B → G)
    (opt : Opt) (f : ℕ) (s0 : AccState Opt G P) (h0 : convert opt f = some s0)
    (batches : List (Fin W → B)) (w : Fin W) :
    (distTrain o cfg grad (fun _ => s0) batches w).opt
      = (accTrain o cfg (fun p (b : Fin W → B) => allreduce fun w => grad p (b w)) s0 batches).opt := by
  have h : InStep (fun _ : Fin W => s0) s0 :=
    ⟨fun _ => rfl, allreduce_const hW _, fun _ => rfl, fun _ => rfl, fun _ => rfl, fun _ => rfl⟩
  exact (inStep_train o cfg grad batches _ _ h).opt w

/-! ## The targets -/

open Verif.Energy (mean variance)

/-- `HorovodVariationalMonteCarlo._update_batch_local_energy`
(optimization/horovod_variational_monte_carlo.py 19-26): the mean local energy of each worker, real and
imaginary parts averaged over the workers. `e w` are the local energies of worker `w`. -/
noncomputable def horovodEnergy {W : ℕ} (e : Fin W → List ℂ) : ℂ :=
  (allreduce fun w => (mean (e w)).re : ℝ) + Complex.I * (allreduce fun w => (mean (e w)).im : ℝ)

/-- The targets of worker `w`: `loss_coefficients() / batch_size`, optimization/variational_monte_carlo.py
38-50, with the averaged energy. -/
noncomputable def horovodTargets {W : ℕ} (batchSize : ℕ) (e : Fin W → List ℂ) (w : Fin W) : List ℂ :=
  (e w).map fun l => (starRingEnd ℂ) (l - horovodEnergy e) / (batchSize : ℂ)

/-- The targets of a single process for the local energies `e` of one batch. -/
noncomputable def singleTargets (batchSize : ℕ) (e : List ℂ) : List ℂ :=
  e.map fun l => (starRingEnd ℂ) (l - mean e) / (batchSize : ℂ)

theorem sum_flatten_ofFn {W n : ℕ} {M : Type*} [AddCommMonoid M] (e : Fin W → Fin n → M) :
    (List.ofFn fun w => List.ofFn (e w)).flatten.sum = ∑ w, ∑ b, e w b := by
  rw [List.sum_flatten, List.map_ofFn, List.sum_ofFn]
  exact Finset.sum_congr rfl fun w _ => by simp [List.sum_ofFn]

theorem length_flatten_ofFn {W n : ℕ} {M : Type*} (e : Fin W → Fin n → M) :
    (List.ofFn fun w => List.ofFn (e w)).flatten.length = W * n := by
  rw [List.length_flatten, List.map_ofFn, List.sum_ofFn]
  simp

theorem horovodEnergy_eq {W n : ℕ} (e : Fin W → Fin n → ℂ) :
    horovodEnergy (fun w => List.ofFn (e w)) = mean (List.ofFn fun w => List.ofFn (e w)).flatten := by
  have h : horovodEnergy (fun w => List.ofFn (e w)) = allreduce fun w => mean (List.ofFn (e w)) := by
    unfold horovodEnergy allreduce
    apply Complex.ext
    · simp [Complex.re_sum]
    · simp [Complex.im_sum]
  rw [h]
  unfold allreduce mean
  rw [sum_flatten_ofFn, length_flatten_ofFn]
  simp only [List.sum_ofFn, List.length_ofFn]
  rw [← Finset.sum_div, Complex.real_smul]
  push_cast
  rw [one_div, ← div_eq_inv_mul, div_div, mul_comm (n : ℂ)]

/-- **C80**, targets: with equal batch sizes the energy every worker uses is the mean over all samples of
all workers, and the mean over the workers of their gradients is the gradient of a single process with
the union of the batches. `L w b` is the contribution to the gradient of sample `b` of worker `w`, as a
function of its target: real linear, otherwise arbitrary. -/
theorem C80_targets {W n : ℕ} (e : Fin W → Fin n → ℂ) (L : Fin W → Fin n → ℂ →ₗ[ℝ] G) :
    let union := (List.ofFn fun w => List.ofFn (e w)).flatten
    horovodEnergy (fun w => List.ofFn (e w)) = mean union ∧
    (allreduce fun w => ∑ b, L w b ((horovodTargets n (fun w => List.ofFn (e w)) w).getD b 0))
      = ∑ w, ∑ b : Fin n, L w b ((singleTargets (W * n) union).getD (w * n + b) 0) := by
  intro union
  refine ⟨horovodEnergy_eq e, ?_⟩
  have hget : ∀ (w : Fin W) (b : Fin n), union[w.1 * n + b.1]? = some (e w b) := by
    intro w b
    have hlt : w.1 * n + b.1 < W * n := by
      calc w.1 * n + b.1 < w.1 * n + n := by omega
        _ = (w.1 + 1) * n := by ring
        _ ≤ W * n := Nat.mul_le_mul_right _ w.2
    have hu : union = List.ofFn fun i : Fin (W * n) =>
        e (finProdFinEquiv.symm i).1 (finProdFinEquiv.symm i).2 := by
      rw [List.ofFn_mul]
      show (List.ofFn fun w => List.ofFn (e w)).flatten = _
      congr 2
      funext w
      congr 1
      funext b
      have h : (⟨w.1 * n + b.1, by
          calc w.1 * n + b.1 < w.1 * n + n := by omega
            _ = (w.1 + 1) * n := by ring
            _ ≤ W * n := Nat.mul_le_mul_right _ w.2⟩ : Fin (W * n)) = finProdFinEquiv (w, b) :=
        Fin.ext (by simp [finProdFinEquiv, Nat.mul_comm, Nat.add_comm])
      rw [h, Equiv.symm_apply_apply]
    rw [hu, List.getElem?_ofFn, dif_pos hlt]
    have h : (⟨w.1 * n + b.1, hlt⟩ : Fin (W * n)) = finProdFinEquiv (w, b) :=
      Fin.ext (by simp [finProdFinEquiv, Nat.mul_comm, Nat.add_comm])
    rw [h, Equiv.symm_apply_apply]
  have hs : ∀ (w : Fin W) (b : Fin n), (singleTargets (W * n) union).getD (w * n + b) 0
      = (starRingEnd ℂ) (e w b - mean union) / ((W * n : ℕ) : ℂ) := by
    intro w b
    unfold singleTargets
    rw [List.getD_eq_getElem?_getD, List.getElem?_map, hget]
    rfl
  have hd : ∀ (w : Fin W) (b : Fin n), (horovodTargets n (fun w => List.ofFn (e w)) w).getD b 0
      = (starRingEnd ℂ) (e w b - mean union) / (n : ℂ) := by
    intro w b
    unfold horovodTargets
    rw [horovodEnergy_eq, List.getD_eq_getElem?_getD, List.getElem?_map, List.getElem?_ofFn,
      dif_pos b.2]
    rfl
  simp only [hs, hd]
  unfold allreduce
  rw [Finset.smul_sum]
  refine Finset.sum_congr rfl fun w _ => ?_
  rw [Finset.smul_sum]
  refine Finset.sum_congr rfl fun b _ => ?_
  rw [← map_smul]
  congr 1
  rw [Complex.real_smul]
  push_cast
  rw [one_div, ← div_eq_inv_mul, div_div, mul_comm (n : ℂ)]

/-! ## The reported variance -/

/-- What is logged at the end of an epoch as `energy/local_energy_variance`: each worker's own variance
(line 21 is not followed by an all-reduce), averaged over the workers by `MetricAverageCallback`
(experiments/train.py 113). -/
noncomputable def reportedVariance {W : ℕ} (e : Fin W → List ℂ) : ℝ :=
  allreduce fun w => variance ((e w).map Complex.re)

/-- The variance of the samples of all workers. -/
noncomputable def unionVariance {W : ℕ} (e : Fin W → List ℂ) : ℝ :=
  variance ((List.ofFn e).flatten.map Complex.re)

theorem sum_sq_shift {n : ℕ} (hn : 0 < n) (x : Fin n → ℝ) (c : ℝ) :
    ∑ b, (x b - c) ^ 2 = ∑ b, (x b - (∑ b, x b) / n) ^ 2 + n * ((∑ b, x b) / n - c) ^ 2 := by
  have hn' : (n : ℝ) ≠ 0 := by exact_mod_cast hn.ne'
  set m := (∑ b, x b) / n with hm
  have hS : ∑ b, x b = n * m := by rw [hm]; field_simp
  have h : ∀ b, (x b - c) ^ 2 = (x b - m) ^ 2 + 2 * (m - c) * (x b - m) + (m - c) ^ 2 := by
    intro b; ring
  rw [Finset.sum_congr rfl fun b _ => h b, Finset.sum_add_distrib, Finset.sum_add_distrib,
    ← Finset.mul_sum, Finset.sum_sub_distrib, hS]
  simp

theorem variance_ofFn {n : ℕ} (x : Fin n → ℝ) :
    variance (List.ofFn x) = (∑ b, (x b - (∑ b, x b) / n) ^ 2) / n := by
  unfold variance
  rw [List.map_ofFn, List.sum_ofFn, List.sum_ofFn, List.length_ofFn]
  rfl

/-- **C80 is false of the code** for the variance: the variance of all samples is the reported one plus
the variance of the workers' mean energies, so that the reported value is too small as soon as two
workers have different mean energies. -/
theorem C80_violated_variance {W n : ℕ} (hW : 0 < W) (hn : 0 < n) (e : Fin W → Fin n → ℂ) :
    unionVariance (fun w => List.ofFn (e w))
      = reportedVariance (fun w => List.ofFn (e w))
        + variance (List.ofFn fun w => (mean (List.ofFn (e w))).re) := by
  have hW' : (W : ℝ) ≠ 0 := by exact_mod_cast hW.ne'
  have hn' : (n : ℝ) ≠ 0 := by exact_mod_cast hn.ne'
  set x : Fin W → Fin n → ℝ := fun w b => (e w b).re with hx
  have h1 : (List.ofFn fun w => List.ofFn (e w)).flatten.map Complex.re
      = (List.ofFn fun w => List.ofFn (x w)).flatten := by
    rw [List.map_flatten, List.map_ofFn]
    congr 2
    funext w
    simp [Function.comp_def, hx, List.map_ofFn]
  have h2 : ∀ w, (List.ofFn (e w)).map Complex.re = List.ofFn (x w) := by
    intro w; rw [List.map_ofFn]; rfl
  have h3 : ∀ w, (mean (List.ofFn (e w))).re = (∑ b, x w b) / n := by
    intro w
    unfold mean
    rw [List.sum_ofFn, List.length_ofFn, Complex.div_natCast_re, Complex.re_sum]
  unfold unionVariance reportedVariance
  rw [h1]
  simp only [h2, h3]
  have h4 : variance (List.ofFn fun w => List.ofFn (x w)).flatten
      = (∑ w, ∑ b, (x w b - (∑ w, ∑ b, x w b) / (W * n)) ^ 2) / (W * n) := by
    unfold variance
    rw [sum_flatten_ofFn, length_flatten_ofFn, List.map_flatten, List.map_ofFn]
    push_cast
    congr 1
    have : (List.map (fun x_1 => (x_1 - (∑ w, ∑ b, x w b) / (↑W * ↑n)) ^ 2) ∘ fun w => List.ofFn (x w))
        = fun w => List.ofFn fun b => (x w b - (∑ w, ∑ b, x w b) / (↑W * ↑n)) ^ 2 := by
      funext w
      simp [List.map_ofFn, Function.comp_def]
    rw [this, sum_flatten_ofFn]
  rw [h4]
  simp only [variance_ofFn]
  set c := (∑ w, ∑ b, x w b) / ((W : ℝ) * n) with hc
  have h5 : (∑ w, (∑ b, x w b) / (n : ℝ)) / W = c := by
    rw [hc, ← Finset.sum_div, div_div, mul_comm (n : ℝ)]
  rw [h5, Finset.sum_congr rfl fun w _ => sum_sq_shift hn (x w) c, Finset.sum_add_distrib, add_div]
  congr 1
  · unfold allreduce
    rw [smul_eq_mul, ← Finset.sum_div, one_div, ← div_eq_inv_mul, div_div, mul_comm (n : ℝ)]
  · rw [← Finset.mul_sum]
    field_simp

/-- In numbers: two workers with one sample each, local energies zero and two. Reported is zero, the
variance of the two samples is one. -/
theorem C80_violated_witness :
    reportedVariance (W := 2) (fun w => List.ofFn fun _ : Fin 1 => if w = 0 then 0 else 2) = 0 ∧
    unionVariance (W := 2) (fun w => List.ofFn fun _ : Fin 1 => if w = 0 then 0 else 2) = 1 := by
  constructor
  · simp [reportedVariance, allreduce, variance]
  · simp [unionVariance, variance, List.ofFn_succ]
    norm_num

/-- The hypotheses of `C80_weights` are met: two workers, gradient descent, accumulation over two
batches. -/
example : ∃ s0 : AccState ℝ ℝ ℝ, convert (1 : ℝ) 2 = some s0 ∧ (0 < 2) := ⟨_, rfl, by norm_num⟩

end Verif.Training
