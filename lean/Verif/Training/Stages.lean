import Verif.Training.BatchSize
import Verif.Training.StagedUpdates
import Mathlib.Probability.ProductMeasure
import Mathlib.Analysis.PSeries

/-!
# C163: training in stages with falling learning rates or growing batches comes to rest

C145 and C158 are about one stage of training, in which gradients stay on a plateau that is set by the learning rate and the batch
size. The stages of experiments/train.py lines 90-130 change both; here is what is gained by that.
-/
namespace Verif.Training

open Verif.Operators Verif.Energy Verif.Autoregressive MeasureTheory Filter Topology
open Verif.Energy.Exact (loss RowsOf)

variable {ι : Type} [Fintype ι] [DecidableEq ι] {n : Nat} {Ω : Type} [MeasurableSpace Ω] [Inhabited Ω]

/-! ### Model -/

/-- A stage (experiments/train.py:90): batch size, mini-batch size, number of batches, learning rate, and the sampler, which
computes a batch from the weights and random numbers. -/
structure SgdStage (Ω ι : Type) (n : Nat) where
  size : Nat
  mini : Nat
  batches : Nat
  lr : ℝ
  sampler : (Fin n → ℝ) → Ω → Fin size → Config ι

/-- Stages one after the other (experiments/train.py:90-130) with the optimizer `SGD` (there: `Adam`): each sets the batch size, the
accumulation frequency and, by `K.set_value` (line 111), the learning rate, and then trains as in C91. `us` are the random numbers
of the sampler, batch after batch. `none` if `set_batch_size` raises. -/
noncomputable def sgdStages (targets : (B : Nat) → (Config ι → ℂ) → (Fin B → Config ι) → Option (List ℂ))
    (net : (Fin n → ℝ) → Config ι → ℂ) (cfg : AccConfig) (g : (Fin n → ℝ) → Config ι × ℂ → Fin n → ℝ) (us : List Ω) :
    List (SgdStage Ω ι n) → LoopState (Fin n → ℝ) (Fin n → ℝ) (Fin n → ℝ) Unit (Config ι × ℂ) →
      Option (LoopState (Fin n → ℝ) (Fin n → ℝ) (Fin n → ℝ) Unit (Config ι × ℂ))
  | [], st => some st
  | stage :: rest, st =>
    match runStage (plainSgd stage.lr) cfg g (drawFrom targets net stage.sampler us) (fun _ => stage.size)
      ⟨(), stage.mini, stage.batches⟩ st with
    | none => none
    | some st' => sgdStages targets net cfg g us rest st'

/-! ### Specification -/

/-- Number of mini-batches per batch. -/
def SgdStage.parts (stage : SgdStage Ω ι n) : Nat := stage.size / min stage.mini stage.size

/-- The effective learning rate. -/
noncomputable def SgdStage.rate (cfg : AccConfig) (stage : SgdStage Ω ι n) : ℝ :=
  stage.lr * (if cfg.accumulateSum then (stage.parts : ℝ) else 1) / stage.size

/-- Number of batches of the first `N` stages. -/
def batchesBefore (stages : Nat → SgdStage Ω ι n) (N : Nat) : Nat := ∑ i ∈ Finset.range N, (stages i).batches

/-- The first `N` stages and `t` batches of the next one. -/
def upTo (stages : Nat → SgdStage Ω ι n) (N t : Nat) : List (SgdStage Ω ι n) :=
  (List.range N).map stages ++ [{ stages N with batches := t }]

/-- What C163 says: `θ us N t` are the weights after the first `N` stages and `t` batches of the next one if the sampler draws the
random numbers `us`. -/
structure StagedProgress (P : Measure Ω) (H : Wave ι → Wave ι) (net : (Fin n → ℝ) → Config ι → ℂ) (cfg : AccConfig)
    (stages : Nat → SgdStage Ω ι n) (θ : List Ω → Nat → Nat → Fin n → ℝ) (K noise : ℝ) : Prop where
  /-- The next batch lowers the expected energy in proportion to the expected squared gradient, up to noise. -/
  step : ∀ N t, t < (stages N).batches →
    overRuns P (batchesBefore stages N + (t + 1)) (fun us => energyAt H net (θ us N (t + 1))) ≤
      overRuns P (batchesBefore stages N + t) (fun us => energyAt H net (θ us N t)) -
        (stages N).rate cfg / 2 * (1 - 1 / (stages N).size) *
          overRuns P (batchesBefore stages N + t) (fun us => steepness H net (θ us N t)) +
        K / 2 * (stages N).rate cfg ^ 2 * (noise / (stages N).size)
  /-- The squared gradients met on the way through all stages are bounded together. -/
  total : ∀ m, (∀ θ, m ≤ energyAt H net θ) → ∀ N,
    ∑ i ∈ Finset.range N, (stages i).rate cfg * (1 - 1 / (stages i).size) *
        ∑ t ∈ Finset.range (stages i).batches, overRuns P (batchesBefore stages i + t) (fun us => steepness H net (θ us i t)) ≤
      2 * (energyAt H net (θ [] 0 0) - m) +
        K * noise * ∑ i ∈ Finset.range N, (stages i).batches * (stages i).rate cfg ^ 2 / (stages i).size
  /-- If the learning rates do not fall too fast, but fall, or batches grow, the (weighted) mean of the squared gradients tends to
  zero. -/
  rests : Tendsto (fun N => ∑ i ∈ Finset.range N, (stages i).batches * ((stages i).rate cfg * (1 - 1 / (stages i).size))) atTop atTop →
    Tendsto (fun N => (∑ i ∈ Finset.range N, (stages i).batches * (stages i).rate cfg ^ 2 / (stages i).size) /
      ∑ i ∈ Finset.range N, (stages i).batches * ((stages i).rate cfg * (1 - 1 / (stages i).size))) atTop (𝓝 0) →
    Tendsto (fun N => (∑ i ∈ Finset.range N, (stages i).rate cfg * (1 - 1 / (stages i).size) *
        ∑ t ∈ Finset.range (stages i).batches, overRuns P (batchesBefore stages i + t) (fun us => steepness H net (θ us i t))) /
      ∑ i ∈ Finset.range N, (stages i).batches * ((stages i).rate cfg * (1 - 1 / (stages i).size))) atTop (𝓝 0)

/-- C163 for one operator and its training targets, in the setting of C158 (`SgdSettles`) for every sequence of stages. Every stage
must start at a number of steps that is a multiple of its number of mini-batches per batch (the condition of C91). -/
def StagesSettle (H : Wave ι → Wave ι) (targets : (B : Nat) → (Config ι → ℂ) → (Fin B → Config ι) → Option (List ℂ)) : Prop :=
  ∀ (Ω : Type) [MeasurableSpace Ω] [Inhabited Ω] (P : Measure Ω) [IsProbabilityMeasure P]
    (n : Nat) (cfg : AccConfig) (net : (Fin n → ℝ) → Config ι → ℂ) (g : (Fin n → ℝ) → Config ι × ℂ → Fin n → ℝ)
    (D : (Fin n → ℝ) → Fin n → Config ι → ℂ) (stages : Nat → SgdStage Ω ι n),
    (∀ i, 1 < (stages i).size ∧ 0 < (stages i).mini ∧ min (stages i).mini (stages i).size ∣ (stages i).size) →
    (∀ i, (stages i).parts ∣ ∑ j ∈ Finset.range i, (stages j).batches * (stages j).parts) →
    (∀ i θ, Independent P (net θ) ((stages i).sampler θ)) →
    (∀ s, IsSpin s → Differentiable ℝ fun θ => net θ s) →
    (∀ θ k s, IsSpin s → HasDerivAt (fun t => net (Function.update θ k t) s) (D θ k s) (θ k)) →
    (∀ θ k s c, IsSpin s → HasDerivAt (fun t => loss c (net (Function.update θ k t) s)) (g θ (s, c) k) (θ k)) →
    ∀ C W K : ℝ, (∀ θ k s, IsSpin s → ‖D θ k s‖ ≤ C) → LengthBound H W → SlopeBound H net K →
    (∀ i, 0 < (stages i).lr ∧ (stages i).rate cfg * K ≤ 1 - 1 / (stages i).size) →
    ∀ (gen : MBState Unit (Config ι × ℂ)) (θ0 : Fin n → ℝ) (f : Nat)
      (acc : AccState (Fin n → ℝ) (Fin n → ℝ) (Fin n → ℝ)), gen.drawn = 0 → convert θ0 f = some acc →
    ∃ θ : List Ω → Nat → Nat → Fin n → ℝ,
      (∀ us N t, us.length = batchesBefore stages N + t → ∃ st, sgdStages targets net cfg g us (upTo stages N t) ⟨gen, acc⟩ = some st ∧
        st.acc.opt = θ us N t) ∧
      θ [] 0 0 = θ0 ∧
      StagedProgress P H net cfg stages θ K (64 * n * C ^ 2 * W)

/-! ### Averages over runs -/

omit [Inhabited Ω] in
theorem overRuns_append {P : Measure Ω} (a b : Nat) (F : List Ω → ℝ) :
    overRuns P (a + b) F = overRuns P a fun us => overRuns P b fun vs => F (us ++ vs) := by
  induction a generalizing F with
  | zero => simp [overRuns]
  | succ a ih =>
    rw [Nat.succ_add]
    simp only [overRuns, ih, List.cons_append]

/-- The weights after `N` stages, as a fold over the random numbers. -/
def stageWeights (T : Nat → Nat) (nextU : Nat → (Fin n → ℝ) → Ω → Fin n → ℝ) (θ0 : Fin n → ℝ) (us : List Ω) : Nat → Fin n → ℝ
  | 0 => θ0
  | N + 1 => ((us.drop (∑ i ∈ Finset.range N, T i)).take (T N)).foldl (nextU N) (stageWeights T nextU θ0 us N)

omit [MeasurableSpace Ω] [Inhabited Ω] in
theorem stageWeights_append (T : Nat → Nat) (nextU : Nat → (Fin n → ℝ) → Ω → Fin n → ℝ) (θ0 : Fin n → ℝ) (us vs : List Ω) (N : Nat)
    (hN : ∑ i ∈ Finset.range N, T i ≤ us.length) : stageWeights T nextU θ0 (us ++ vs) N = stageWeights T nextU θ0 us N := by
  induction N with
  | zero => rfl
  | succ N ih =>
    rw [Finset.sum_range_succ] at hN
    simp only [stageWeights]
    rw [ih (by omega), List.drop_append_of_le_length (by omega), List.take_append_of_le_length (by simp; omega)]

/-- Expected values after `N` stages. -/
noncomputable def stageMean (mean : Nat → ((Fin n → ℝ) → ℝ) → (Fin n → ℝ) → ℝ) (θ0 : Fin n → ℝ) : Nat → ((Fin n → ℝ) → ℝ) → ℝ
  | 0, φ => φ θ0
  | N + 1, φ => stageMean mean θ0 N (mean N φ)

theorem stageMean_le {mean : Nat → ((Fin n → ℝ) → ℝ) → (Fin n → ℝ) → ℝ}
    (hmean : ∀ N φ χ, (∀ θ, φ θ ≤ χ θ) → ∀ θ, mean N φ θ ≤ mean N χ θ) (θ0 : Fin n → ℝ) (N : Nat) {φ χ : (Fin n → ℝ) → ℝ}
    (h : ∀ θ, φ θ ≤ χ θ) : stageMean mean θ0 N φ ≤ stageMean mean θ0 N χ := by
  induction N generalizing φ χ with
  | zero => exact h θ0
  | succ N ih => exact ih (hmean N φ χ h)

theorem stageMean_linear {mean : Nat → ((Fin n → ℝ) → ℝ) → (Fin n → ℝ) → ℝ}
    (hmean : ∀ N φ χ a c θ, mean N (fun θ => φ θ - a * χ θ + c) θ = mean N φ θ - a * mean N χ θ + c) (θ0 : Fin n → ℝ) (N : Nat)
    (φ χ : (Fin n → ℝ) → ℝ) (a c : ℝ) :
    stageMean mean θ0 N (fun θ => φ θ - a * χ θ + c) = stageMean mean θ0 N φ - a * stageMean mean θ0 N χ + c := by
  induction N generalizing φ χ with
  | zero => rfl
  | succ N ih =>
    simp only [stageMean]
    rw [show mean N (fun θ => φ θ - a * χ θ + c) = fun θ => mean N φ θ - a * mean N χ θ + c from funext fun θ => hmean N φ χ a c θ]
    exact ih _ _

omit [Inhabited Ω] in
theorem overRuns_stages {P : Measure Ω} {T : Nat → Nat} {nextU : Nat → (Fin n → ℝ) → Ω → Fin n → ℝ}
    {mean : Nat → ((Fin n → ℝ) → ℝ) → Nat → (Fin n → ℝ) → ℝ}
    (h : ∀ N φ t θ, overRuns P t (fun us => φ (us.foldl (nextU N) θ)) = mean N φ t θ) (θ0 : Fin n → ℝ) (N : Nat) :
    ∀ φ : (Fin n → ℝ) → ℝ, overRuns P (∑ i ∈ Finset.range N, T i) (fun us => φ (stageWeights T nextU θ0 us N)) =
      stageMean (fun N φ θ => mean N φ (T N) θ) θ0 N φ := by
  induction N with
  | zero => intro φ; simp [overRuns, stageMean, stageWeights]
  | succ N ih =>
    intro φ
    rw [Finset.sum_range_succ, overRuns_append]
    simp only [stageMean]
    rw [← ih]
    refine overRuns_congr _ _ _ fun us hus => ?_
    rw [← h N φ]
    refine overRuns_congr _ _ _ fun vs hvs => ?_
    simp only [stageWeights]
    rw [stageWeights_append _ _ _ _ _ _ hus.ge, ← hus, List.drop_left, ← hvs, List.take_length]

omit [Inhabited Ω] in
theorem overRuns_within {P : Measure Ω} {T : Nat → Nat} {nextU : Nat → (Fin n → ℝ) → Ω → Fin n → ℝ}
    {mean : Nat → ((Fin n → ℝ) → ℝ) → Nat → (Fin n → ℝ) → ℝ}
    (h : ∀ N φ t θ, overRuns P t (fun us => φ (us.foldl (nextU N) θ)) = mean N φ t θ) (θ0 : Fin n → ℝ) (N t : Nat)
    (φ : (Fin n → ℝ) → ℝ) : overRuns P (∑ i ∈ Finset.range N, T i + t)
        (fun us => φ (((us.drop (∑ i ∈ Finset.range N, T i)).take t).foldl (nextU N) (stageWeights T nextU θ0 us N))) =
      stageMean (fun N φ θ => mean N φ (T N) θ) θ0 N (mean N φ t) := by
  rw [overRuns_append, ← overRuns_stages h]
  refine overRuns_congr _ _ _ fun us hus => ?_
  rw [← h N φ]
  refine overRuns_congr _ _ _ fun vs hvs => ?_
  rw [stageWeights_append _ _ _ _ _ _ hus.ge, ← hus, List.drop_left, ← hvs, List.take_length]

/-! ### One stage -/

omit [Fintype ι] [DecidableEq ι] [MeasurableSpace Ω] in
theorem sgdStages_append (targets : (B : Nat) → (Config ι → ℂ) → (Fin B → Config ι) → Option (List ℂ))
    (net : (Fin n → ℝ) → Config ι → ℂ) (cfg : AccConfig) (g : (Fin n → ℝ) → Config ι × ℂ → Fin n → ℝ) (us : List Ω)
    (l l' : List (SgdStage Ω ι n)) (st : LoopState (Fin n → ℝ) (Fin n → ℝ) (Fin n → ℝ) Unit (Config ι × ℂ)) :
    sgdStages targets net cfg g us (l ++ l') st = (sgdStages targets net cfg g us l st).bind (sgdStages targets net cfg g us l') := by
  induction l generalizing st with
  | nil => rfl
  | cons stage rest ih =>
    simp only [List.cons_append, sgdStages]
    split
    · rfl
    · exact ih _

/-- The weights after one more batch. -/
noncomputable def nextWeights (targets : (B : Nat) → (Config ι → ℂ) → (Fin B → Config ι) → Option (List ℂ))
    (net : (Fin n → ℝ) → Config ι → ℂ) (cfg : AccConfig) (g : (Fin n → ℝ) → Config ι × ℂ → Fin n → ℝ) (stage : SgdStage Ω ι n)
    (θ : Fin n → ℝ) (u : Ω) : Fin n → ℝ :=
  (plainSgd stage.lr).update θ ((if cfg.accumulateSum then (stage.parts : ℝ) else 1) • (1 / (stage.size : ℝ)) •
    ((drawFrom targets net stage.sampler [u] θ () 0).map (g θ)).sum)

omit [Fintype ι] [DecidableEq ι] [MeasurableSpace Ω] in
theorem stage_run (targets : (B : Nat) → (Config ι → ℂ) → (Fin B → Config ι) → Option (List ℂ))
    (net : (Fin n → ℝ) → Config ι → ℂ) (cfg : AccConfig) (g : (Fin n → ℝ) → Config ι × ℂ → Fin n → ℝ) (stage : SgdStage Ω ι n)
    (hB : 1 < stage.size) (hm : 0 < stage.mini) (hdvd : min stage.mini stage.size ∣ stage.size)
    (hlen : ∀ us θ k, (drawFrom targets net stage.sampler us θ () k).length = stage.size)
    (st : LoopState (Fin n → ℝ) (Fin n → ℝ) (Fin n → ℝ) Unit (Config ι × ℂ)) (hacc : st.acc.accumulators = 0)
    (hal : stage.parts ∣ st.acc.accumulatedIterations) (us : List Ω) (t : Nat) (hus : st.gen.drawn + t ≤ us.length) :
    ∃ st', runStage (plainSgd stage.lr) cfg g (drawFrom targets net stage.sampler us) (fun _ => stage.size) ⟨(), stage.mini, t⟩ st = some st' ∧
      st'.acc.opt = ((us.drop st.gen.drawn).take t).foldl (nextWeights targets net cfg g stage) st.acc.opt ∧
      st'.acc.accumulators = 0 ∧ st'.acc.accumulatedIterations = st.acc.accumulatedIterations + t * stage.parts ∧
      st'.gen.drawn = st.gen.drawn + t := by
  obtain ⟨st', hst'⟩ : ∃ st', runStage (plainSgd stage.lr) cfg g (drawFrom targets net stage.sampler us) (fun _ => stage.size)
      ⟨(), stage.mini, t⟩ st = some st' := by
    unfold runStage
    cases hg : setSampler (fun _ => stage.size) st.gen () (some stage.mini) with
    | none =>
      exfalso
      unfold setSampler setBatchSize at hg
      simp at hg
      split at hg <;> omega
    | some gen' => exact ⟨_, rfl⟩
  obtain ⟨h1, h2, h3, h4⟩ := runStage_aligned (plainSgd stage.lr) cfg g (drawFrom targets net stage.sampler us) (fun _ => stage.size)
    ⟨(), stage.mini, t⟩ st st' hdvd (fun p k => hlen us p k) hst' hacc hal
  refine ⟨st', hst', ?_, h2, h3, h4⟩
  rw [h1]
  have h5 : ∀ j, st.gen.drawn + j ≤ us.length →
      wholeBatches (plainSgd stage.lr) g (fun p k => drawFrom targets net stage.sampler us p () (st.gen.drawn + k))
        (accScale cfg stage.parts) st.acc.opt j =
          ((us.drop st.gen.drawn).take j).foldl (nextWeights targets net cfg g stage) st.acc.opt := by
    intro j
    induction j with
    | zero => intro _; rfl
    | succ j ih =>
      intro hj
      have hj' : j < (us.drop st.gen.drawn).length := by rw [List.length_drop]; omega
      rw [List.take_succ_eq_append_getElem hj', List.foldl_append, ← ih (by omega)]
      have e : ∀ θ, drawFrom targets net stage.sampler us θ () (st.gen.drawn + j) =
          drawFrom targets net stage.sampler [(us.drop st.gen.drawn)[j]] θ () 0 := by
        intro θ
        unfold drawFrom
        have : us.getD (st.gen.drawn + j) default = [(us.drop st.gen.drawn)[j]].getD 0 default := by
          have : st.gen.drawn + j < us.length := by omega
          simp [List.getD_eq_getElem?_getD, this]
        rw [this]
      simp only [wholeBatches, List.foldl_cons, List.foldl_nil, nextWeights, e, hlen]
      rfl
  exact h5 t hus

omit [Fintype ι] [DecidableEq ι] [MeasurableSpace Ω] in
/-- Through the first `N` stages. -/
theorem stages_run (targets : (B : Nat) → (Config ι → ℂ) → (Fin B → Config ι) → Option (List ℂ))
    (net : (Fin n → ℝ) → Config ι → ℂ) (cfg : AccConfig) (g : (Fin n → ℝ) → Config ι × ℂ → Fin n → ℝ) (stages : Nat → SgdStage Ω ι n)
    (hs : ∀ i, 1 < (stages i).size ∧ 0 < (stages i).mini ∧ min (stages i).mini (stages i).size ∣ (stages i).size)
    (hal : ∀ i, (stages i).parts ∣ ∑ j ∈ Finset.range i, (stages j).batches * (stages j).parts)
    (hlen : ∀ i us θ k, (drawFrom targets net (stages i).sampler us θ () k).length = (stages i).size)
    (gen : MBState Unit (Config ι × ℂ)) (θ0 : Fin n → ℝ) (f : Nat) (acc : AccState (Fin n → ℝ) (Fin n → ℝ) (Fin n → ℝ))
    (hgen : gen.drawn = 0) (hacc : convert θ0 f = some acc) (us : List Ω) (N : Nat) (hus : batchesBefore stages N ≤ us.length) :
    ∃ st, sgdStages targets net cfg g us ((List.range N).map stages) ⟨gen, acc⟩ = some st ∧
      st.acc.opt = stageWeights (fun i => (stages i).batches) (fun i => nextWeights targets net cfg g (stages i)) θ0 us N ∧
      st.acc.accumulators = 0 ∧ st.acc.accumulatedIterations = ∑ j ∈ Finset.range N, (stages j).batches * (stages j).parts ∧
      st.gen.drawn = batchesBefore stages N := by
  induction N with
  | zero =>
    refine ⟨⟨gen, acc⟩, rfl, ?_⟩
    unfold convert at hacc
    split at hacc
    · exact absurd hacc (by simp)
    · obtain rfl := Option.some.inj hacc
      exact ⟨rfl, rfl, rfl, hgen⟩
  | succ N ih =>
    have hb : batchesBefore stages (N + 1) = batchesBefore stages N + (stages N).batches := Finset.sum_range_succ _ _
    obtain ⟨st, h1, h2, h3, h4, h5⟩ := ih (by omega)
    obtain ⟨st', r1, r2, r3, r4, r5⟩ := stage_run targets net cfg g (stages N) (hs N).1 (hs N).2.1 (hs N).2.2 (hlen N) st h3
      (by rw [h4]; exact hal N) us (stages N).batches (by rw [h5]; omega)
    refine ⟨st', ?_, ?_, r3, ?_, by rw [r5, h5, hb]⟩
    · rw [List.range_succ, List.map_append, sgdStages_append, h1, Option.bind_some]
      simp only [List.map_cons, List.map_nil, sgdStages, r1]
    · rw [r2, h2, h5]
      rfl
    · rw [r4, h4, Finset.sum_range_succ]

/-! ### C163 -/

/-- Every batch is complete, and training on it is a step of gradient descent. -/
theorem stage_next {op : (B : Nat) → (Fin B → Config ι) → Fin B → List (Row ι ℝ)} {R : Nat}
    {rowsOf : Config ι → List (Row ι ℝ)} (h : RowsOf op R rowsOf) (H : Wave ι → Wave ι)
    (hlen : ∀ B (sample : Fin B → Config ι) b, (op B sample b).length = R)
    (hE : ∀ B (sample : Fin B → Config ι), (∀ b, IsSpin (sample b)) → ∀ logψ,
      LocalEnergies H sample logψ (estimate logψ (Answer.ofRows R (op B sample) (hlen B sample))))
    {P : Measure Ω} (cfg : AccConfig) {sampled : (Fin n → ℝ) → Config ι → ℂ} (net : (Fin n → ℝ) → Config ι → ℂ)
    (g : (Fin n → ℝ) → Config ι × ℂ → Fin n → ℝ) (D : (Fin n → ℝ) → Fin n → Config ι → ℂ) (stage : SgdStage Ω ι n)
    (hS : ∀ θ, Independent P (sampled θ) (stage.sampler θ))
    (hD : ∀ θ k s, IsSpin s → HasDerivAt (fun t => net (Function.update θ k t) s) (D θ k s) (θ k))
    (hg : ∀ θ k s c, IsSpin s → HasDerivAt (fun t => loss c (net (Function.update θ k t) s)) (g θ (s, c) k) (θ k)) :
    (∀ us θ k, (drawFrom (fun B logψ sample => Exact.vmcCoefficients B logψ (Answer.ofRows R (op B sample) (hlen B sample))) net
      stage.sampler us θ () k).length = stage.size) ∧
    ∀ θ u, nextWeights (fun B logψ sample => Exact.vmcCoefficients B logψ (Answer.ofRows R (op B sample) (hlen B sample))) net cfg g
      stage θ u = sgdNext H net D (stage.rate cfg) θ (stage.sampler θ u) := by
  set targets : (B : Nat) → (Config ι → ℂ) → (Fin B → Config ι) → Option (List ℂ) :=
    fun B logψ sample => Exact.vmcCoefficients B logψ (Answer.ofRows R (op B sample) (hlen B sample)) with htargets
  obtain ⟨B, mini, T, lr, S⟩ := stage
  dsimp only at hS ⊢
  have hrows : ∀ us θ k, drawFrom targets net S us θ () k = (List.finRange B).map fun b =>
      (S θ (us.getD k default) b, (starRingEnd ℂ) (localEnergy H (net θ) (S θ (us.getD k default) b) -
        (∑ a, localEnergy H (net θ) (S θ (us.getD k default) a)) / B) / (B : ℂ)) := by
    intro us θ k
    have hspin := (hS θ).spins (us.getD k default)
    have ht := targets_of h (hlen B) (net θ) _ (hE B _ hspin (net θ))
    unfold drawFrom
    simp only [htargets]
    rw [ht]
    simp [List.getD_eq_getElem?_getD]
  refine ⟨fun us θ k => by rw [hrows]; simp, fun θ u => ?_⟩
  have e := hrows [u] θ 0
  simp only [List.getD_cons_zero] at e
  have hspin := (hS θ).spins u
  have hgD : ∀ k s c, IsSpin s → g θ (s, c) k = 2 * (c * D θ k s).re := by
    intro k s c hs
    have h1 := Complex.reCLM.hasFDerivAt.comp_hasDerivAt (θ k) ((hD θ k s hs).mul_const c)
    have h2 := h1.const_mul (2 : ℝ)
    have h3 := (hg θ k s c hs).unique h2
    rw [h3, mul_comm c]
    rfl
  funext k
  simp only [nextWeights, plainSgd, e, sgdNext, Pi.sub_apply, Pi.smul_apply, smul_eq_mul]
  have hsum : ∀ l : List (Config ι × ℂ), (l.map (g θ)).sum k = (l.map fun r => g θ r k).sum := by
    intro l
    induction l with
    | nil => rfl
    | cons r l ih => simp [ih]
  rw [hsum, List.map_map]
  have h5 : ((List.finRange B).map ((fun r => g θ r k) ∘ fun b => (S θ u b, (starRingEnd ℂ) (localEnergy H (net θ) (S θ u b) -
      (∑ a, localEnergy H (net θ) (S θ u a)) / B) / (B : ℂ)))).sum = batchGradient H (net θ) (D θ k) (S θ u) := by
    unfold batchGradient
    rw [← List.sum_ofFn, List.ofFn_eq_map]
    refine congrArg List.sum (List.map_congr_left fun b _ => ?_)
    exact hgD k (S θ u b) _ (hspin b)
  rw [h5]
  unfold SgdStage.rate
  ring

theorem stages_core {op : (B : Nat) → (Fin B → Config ι) → Fin B → List (Row ι ℝ)} {R : Nat}
    {rowsOf : Config ι → List (Row ι ℝ)} (h : RowsOf op R rowsOf) (H : Wave ι → Wave ι)
    (hH : ∀ s, IsSpin s → ∀ ψ, applyRows (rowsOf s) ψ = H ψ s)
    (hlen : ∀ B (sample : Fin B → Config ι) b, (op B sample b).length = R)
    (hE : ∀ B (sample : Fin B → Config ι), (∀ b, IsSpin (sample b)) → ∀ logψ,
      LocalEnergies H sample logψ (estimate logψ (Answer.ofRows R (op B sample) (hlen B sample))))
    (P : Measure Ω) [IsProbabilityMeasure P] (cfg : AccConfig) {sampled : (Fin n → ℝ) → Config ι → ℂ} (net : (Fin n → ℝ) → Config ι → ℂ)
    (g : (Fin n → ℝ) → Config ι × ℂ → Fin n → ℝ) (D : (Fin n → ℝ) → Fin n → Config ι → ℂ) (stages : Nat → SgdStage Ω ι n)
    (hs : ∀ i, 1 < (stages i).size ∧ 0 < (stages i).mini ∧ min (stages i).mini (stages i).size ∣ (stages i).size)
    (hal : ∀ i, (stages i).parts ∣ ∑ j ∈ Finset.range i, (stages j).batches * (stages j).parts)
    (hS : ∀ i θ, Independent P (sampled θ) ((stages i).sampler θ))
    (hexp : ∀ B η θ (φ : (Fin n → ℝ) → ℝ), expect (allSpins ι) (born (sampled θ)) B (fun x => φ (sgdNext H net D η θ x)) =
      expect (allSpins ι) (born (net θ)) B fun x => φ (sgdNext H net D η θ x))
    (hd : ∀ s, IsSpin s → Differentiable ℝ fun θ => net θ s)
    (hD : ∀ θ k s, IsSpin s → HasDerivAt (fun t => net (Function.update θ k t) s) (D θ k s) (θ k))
    (hg : ∀ θ k s c, IsSpin s → HasDerivAt (fun t => loss c (net (Function.update θ k t) s)) (g θ (s, c) k) (θ k))
    (C W K : ℝ) (hC : ∀ θ k s, IsSpin s → ‖D θ k s‖ ≤ C) (hW : LengthBound H W) (hK : SlopeBound H net K)
    (hrate : ∀ i, 0 < (stages i).lr ∧ (stages i).rate cfg * K ≤ 1 - 1 / (stages i).size)
    (gen : MBState Unit (Config ι × ℂ)) (θ0 : Fin n → ℝ) (f : Nat) (acc : AccState (Fin n → ℝ) (Fin n → ℝ) (Fin n → ℝ))
    (hgen : gen.drawn = 0) (hacc : convert θ0 f = some acc) :
    ∃ θ : List Ω → Nat → Nat → Fin n → ℝ,
      (∀ us N t, us.length = batchesBefore stages N + t → ∃ st,
        sgdStages (fun B logψ sample => Exact.vmcCoefficients B logψ (Answer.ofRows R (op B sample) (hlen B sample))) net cfg g us
          (upTo stages N t) ⟨gen, acc⟩ = some st ∧ st.acc.opt = θ us N t) ∧
      θ [] 0 0 = θ0 ∧
      StagedProgress P H net cfg stages θ K (64 * n * C ^ 2 * W) := by
  set targets : (B : Nat) → (Config ι → ℂ) → (Fin B → Config ι) → Option (List ℂ) :=
    fun B logψ sample => Exact.vmcCoefficients B logψ (Answer.ofRows R (op B sample) (hlen B sample)) with htargets
  set T : Nat → Nat := fun i => (stages i).batches with hT
  set nextU : Nat → (Fin n → ℝ) → Ω → Fin n → ℝ := fun i => nextWeights targets net cfg g (stages i) with hnextU
  have hone := fun i => stage_next h H hlen hE cfg net g D (stages i) (hS i) hD hg
  set mean : Nat → ((Fin n → ℝ) → ℝ) → Nat → (Fin n → ℝ) → ℝ := fun i φ t θ =>
    tree (stages i).size net (sgdNext H net D ((stages i).rate cfg)) φ t θ with hmean
  have htree : ∀ B η (φ : (Fin n → ℝ) → ℝ) t θ, tree B sampled (sgdNext H net D η) φ t θ = tree B net (sgdNext H net D η) φ t θ := by
    intro B η φ t
    induction t with
    | zero => intro θ; rfl
    | succ t ih =>
      intro θ
      simp only [tree]
      rw [show (fun S => tree B sampled (sgdNext H net D η) φ t (sgdNext H net D η θ S)) =
        fun S => tree B net (sgdNext H net D η) φ t (sgdNext H net D η θ S) from funext fun S => ih _]
      exact hexp B η θ (tree B net (sgdNext H net D η) φ t)
  have hav : ∀ N φ t θ, overRuns P t (fun us => φ (us.foldl (nextU N) θ)) = mean N φ t θ := by
    intro N φ t θ
    rw [hmean]
    dsimp only
    rw [← htree]
    exact overRuns_tree sampled (hS N) (sgdNext H net D ((stages N).rate cfg)) (nextU N) (hone N).2 φ t θ
  set θ : List Ω → Nat → Nat → Fin n → ℝ := fun us N t =>
    ((us.drop (batchesBefore stages N)).take t).foldl (nextU N) (stageWeights T nextU θ0 us N) with hθ
  set M := stageMean (fun N φ θ => mean N φ (T N) θ) θ0 with hM
  have hwithin : ∀ N t (φ : (Fin n → ℝ) → ℝ), overRuns P (batchesBefore stages N + t) (fun us => φ (θ us N t)) = M N (mean N φ t) :=
    fun N t φ => overRuns_within hav θ0 N t φ
  set V : ℝ := 64 * n * C ^ 2 * W with hV
  have hBr : ∀ i, (1 : ℝ) < (stages i).size := fun i => by exact_mod_cast (hs i).1
  have hq : ∀ i, 0 < 1 - 1 / ((stages i).size : ℝ) := fun i => by
    have : 1 / ((stages i).size : ℝ) < 1 := by rw [div_lt_one (by linarith [hBr i])]; exact hBr i
    linarith
  have hη : ∀ i, 0 < (stages i).rate cfg := by
    intro i
    have hp : 0 < (stages i).parts := Nat.div_pos (Nat.min_le_right _ _) (by have := hs i; omega)
    have h0 := (hrate i).1
    have h1 := hBr i
    unfold SgdStage.rate
    refine div_pos (mul_pos h0 ?_) (by linarith)
    split
    · exact_mod_cast hp
    · exact one_pos
  have hbatch : ∀ i θ, expect (allSpins ι) (born (net θ)) (stages i).size
      (fun S => energyAt H net (sgdNext H net D ((stages i).rate cfg) θ S)) ≤
      energyAt H net θ - (stages i).rate cfg / 2 * (1 - 1 / (stages i).size) * steepness H net θ +
        K / 2 * (stages i).rate cfg ^ 2 * (V / (stages i).size) := by
    intro i θ
    have hB : 0 < (stages i).size := by have := (hs i).1; omega
    have h1 := sgd_step_raw h hH hB net D hd hD hK ((stages i).rate cfg) θ
    have h2 := mul_le_mul_of_nonneg_left (expect_noise_batch h hH hB net D hD hC hW θ)
      (by have := hK.1; positivity : 0 ≤ K / 2 * (stages i).rate cfg ^ 2)
    have h3 := mul_le_mul_of_nonneg_right (hrate i).2 (mul_nonneg (half_pos (hη i)).le (steepness_nonneg H net θ))
    rw [← hV] at h2
    nlinarith
  have hmle : ∀ N φ χ, (∀ θ, φ θ ≤ χ θ) → ∀ θ, mean N φ (T N) θ ≤ mean N χ (T N) θ := fun N φ χ hle θ => tree_le _ _ hle _ θ
  have hmlin : ∀ N φ χ a c θ, mean N (fun θ => φ θ - a * χ θ + c) (T N) θ = mean N φ (T N) θ - a * mean N χ (T N) θ + c :=
    fun N φ χ a c θ => tree_linear _ _ φ χ a c _ θ
  have hstep : ∀ N t, M N (mean N (energyAt H net) (t + 1)) ≤ M N (mean N (energyAt H net) t) -
      (stages N).rate cfg / 2 * (1 - 1 / (stages N).size) * M N (mean N (steepness H net) t) +
        K / 2 * (stages N).rate cfg ^ 2 * (V / (stages N).size) := by
    intro N t
    rw [hM, ← stageMean_linear hmlin]
    refine stageMean_le hmle θ0 N fun θ => ?_
    rw [hmean]
    dsimp only
    rw [tree_last, ← tree_linear]
    exact tree_le _ _ (hbatch N) t θ
  have hinside : ∀ N t, M N (mean N (energyAt H net) t) + (stages N).rate cfg / 2 * (1 - 1 / (stages N).size) *
      ∑ j ∈ Finset.range t, M N (mean N (steepness H net) j) ≤
        M N (energyAt H net) + t * (K / 2 * (stages N).rate cfg ^ 2 * (V / (stages N).size)) := by
    intro N t
    induction t with
    | zero => simp [hmean, tree]
    | succ t ih =>
      rw [Finset.sum_range_succ]
      have := hstep N t
      push_cast
      nlinarith
  have hall : ∀ N, M N (energyAt H net) + ∑ i ∈ Finset.range N, (stages i).rate cfg / 2 * (1 - 1 / (stages i).size) *
      ∑ j ∈ Finset.range (T i), M i (mean i (steepness H net) j) ≤
        energyAt H net θ0 + ∑ i ∈ Finset.range N, (T i) * (K / 2 * (stages i).rate cfg ^ 2 * (V / (stages i).size)) := by
    intro N
    induction N with
    | zero => simp [hM, stageMean]
    | succ N ih =>
      rw [Finset.sum_range_succ, Finset.sum_range_succ]
      have h1 := hinside N (T N)
      have h2 : M (N + 1) (energyAt H net) = M N (mean N (energyAt H net) (T N)) := rfl
      rw [h2]
      linarith
  have hlow : ∀ m, (∀ θ, m ≤ energyAt H net θ) → ∀ N, m ≤ M N (energyAt H net) := by
    intro m hm N
    have h1 := stageMean_le hmle θ0 N (φ := fun θ => energyAt H net θ - 1 * energyAt H net θ + m) (χ := energyAt H net)
      (fun θ => by have := hm θ; linarith)
    rw [stageMean_linear hmlin] at h1
    linarith
  have htotal : ∀ m, (∀ θ, m ≤ energyAt H net θ) → ∀ N,
      ∑ i ∈ Finset.range N, (stages i).rate cfg * (1 - 1 / (stages i).size) *
          ∑ t ∈ Finset.range (T i), M i (mean i (steepness H net) t) ≤
        2 * (energyAt H net θ0 - m) + K * V * ∑ i ∈ Finset.range N, (T i) * (stages i).rate cfg ^ 2 / (stages i).size := by
    intro m hm N
    have h1 := hall N
    have h2 := hlow m hm N
    have h3 : ∑ i ∈ Finset.range N, (stages i).rate cfg * (1 - 1 / (stages i).size) *
          ∑ t ∈ Finset.range (T i), M i (mean i (steepness H net) t) =
        2 * ∑ i ∈ Finset.range N, (stages i).rate cfg / 2 * (1 - 1 / (stages i).size) *
          ∑ j ∈ Finset.range (T i), M i (mean i (steepness H net) j) := by
      rw [Finset.mul_sum]
      exact Finset.sum_congr rfl fun i _ => by ring
    have h4 : K * V * ∑ i ∈ Finset.range N, (T i) * (stages i).rate cfg ^ 2 / (stages i).size =
        2 * ∑ i ∈ Finset.range N, (T i) * (K / 2 * (stages i).rate cfg ^ 2 * (V / (stages i).size)) := by
      rw [Finset.mul_sum, Finset.mul_sum]
      exact Finset.sum_congr rfl fun i _ => by ring
    rw [h3, h4]
    linarith
  have hθ0 : θ [] 0 0 = θ0 := rfl
  refine ⟨θ, fun us N t hus => ?_, hθ0, fun N t _ => ?_, fun m hm N => ?_, fun hdiv hratio => ?_⟩
  · obtain ⟨st, r1, r2, r3, r4, r5⟩ := stages_run targets net cfg g stages hs hal (fun i => (hone i).1) gen θ0 f acc hgen hacc us N (by omega)
    obtain ⟨st', q1, q2, -⟩ := stage_run targets net cfg g (stages N) (hs N).1 (hs N).2.1 (hs N).2.2 (hone N).1 st r3
      (by rw [r4]; exact hal N) us t (by rw [r5]; omega)
    refine ⟨st', ?_, ?_⟩
    · unfold upTo
      rw [sgdStages_append, r1, Option.bind_some]
      simp only [sgdStages, q1]
    · rw [q2, r2, r5]
  · simp only [hwithin]
    exact hstep N t
  · simp only [hwithin]
    exact htotal m hm N
  · simp only [hwithin]
    obtain ⟨m, hm⟩ : ∃ m, ∀ θ, m ≤ energyAt H net θ := ⟨_, energyAt_bounded hH h.spins net⟩
    have hsteep : ∀ i t, 0 ≤ M i (mean i (steepness H net) t) := by
      intro i t
      have h1 := stageMean_le hmle θ0 i (φ := fun θ => energyAt H net θ - 1 * energyAt H net θ + 0) (χ := mean i (steepness H net) t) fun θ => by
        have h2 := tree_le (B := (stages i).size) net (sgdNext H net D ((stages i).rate cfg))
          (φ := fun θ => energyAt H net θ - 1 * energyAt H net θ + 0) (χ := steepness H net) (fun θ => by
            have := steepness_nonneg H net θ
            linarith) t θ
        rw [tree_linear] at h2
        rw [hmean]
        dsimp only
        linarith
      rw [stageMean_linear hmlin] at h1
      linarith
    set A : Nat → ℝ := fun N => ∑ i ∈ Finset.range N, (stages i).batches * ((stages i).rate cfg * (1 - 1 / (stages i).size)) with hA
    set Q : Nat → ℝ := fun N => ∑ i ∈ Finset.range N, (stages i).batches * (stages i).rate cfg ^ 2 / (stages i).size with hQ
    have hA0 : ∀ N, 0 ≤ A N := fun N => Finset.sum_nonneg fun i _ => by
      have := (hq i).le
      have := (hη i).le
      positivity
    have hup : Tendsto (fun N => 2 * (energyAt H net θ0 - m) / A N + K * V * (Q N / A N)) atTop (𝓝 0) := by
      have h1 := (tendsto_const_nhds (x := 2 * (energyAt H net θ0 - m))).div_atTop hdiv
      have h2 := hratio.const_mul (K * V)
      have h3 := h1.add h2
      rw [mul_zero, add_zero] at h3
      exact h3
    refine squeeze_zero (fun N => div_nonneg (Finset.sum_nonneg fun i _ => ?_) (hA0 N)) (fun N => ?_) hup
    · exact mul_nonneg (mul_nonneg (hη i).le (hq i).le) (Finset.sum_nonneg fun t _ => hsteep i t)
    · rw [← mul_div_assoc, ← add_div]
      exact div_le_div_of_nonneg_right (htotal m hm N) (hA0 N)

theorem stagesSettle_of {op : (B : Nat) → (Fin B → Config ι) → Fin B → List (Row ι ℝ)} {R : Nat}
    {rowsOf : Config ι → List (Row ι ℝ)} (h : RowsOf op R rowsOf) (H : Wave ι → Wave ι)
    (hH : ∀ s, IsSpin s → ∀ ψ, applyRows (rowsOf s) ψ = H ψ s)
    (hlen : ∀ B (sample : Fin B → Config ι) b, (op B sample b).length = R)
    (hE : ∀ B (sample : Fin B → Config ι), (∀ b, IsSpin (sample b)) → ∀ logψ,
      LocalEnergies H sample logψ (estimate logψ (Answer.ofRows R (op B sample) (hlen B sample)))) :
    StagesSettle H fun B logψ sample => Exact.vmcCoefficients B logψ (Answer.ofRows R (op B sample) (hlen B sample)) := by
  intro Ω _ _ P _ n cfg net g D stages hs hal hS hd hD hg C W K hC hW hK hrate gen θ0 f acc hgen hacc
  exact stages_core h H hH hlen hE P cfg net g D stages hs hal hS (fun _ _ _ _ => rfl) hd hD hg C W K hC hW hK hrate gen θ0 f acc hgen hacc

omit [Fintype ι] [DecidableEq ι] [MeasurableSpace Ω] in
theorem sgdStages_congr {t t' : (B : Nat) → (Config ι → ℂ) → (Fin B → Config ι) → Option (List ℂ)}
    (h : ∀ B, 0 < B → ∀ logψ sample, (∀ b, IsSpin (sample b)) → t' B logψ sample = t B logψ sample)
    {net : (Fin n → ℝ) → Config ι → ℂ} {cfg : AccConfig} {g : (Fin n → ℝ) → Config ι × ℂ → Fin n → ℝ} {us : List Ω} :
    ∀ (l : List (SgdStage Ω ι n)), (∀ stage ∈ l, 1 < stage.size ∧ ∀ θ u b, IsSpin (stage.sampler θ u b)) →
      ∀ st, sgdStages t' net cfg g us l st = sgdStages t net cfg g us l st := by
  intro l
  induction l with
  | nil => intro _ st; rfl
  | cons stage rest ih =>
    intro hl st
    have hdraw : drawFrom t' net stage.sampler us = drawFrom t net stage.sampler us := by
      funext θ _ k
      unfold drawFrom
      rw [h stage.size (by have := (hl stage (by simp)).1; omega) _ _ ((hl stage (by simp)).2 θ _)]
    simp only [sgdStages, hdraw]
    split
    · rfl
    · exact ih (fun s hs => hl s (by simp [hs])) _

theorem stagesSettle_congr {H : Wave ι → Wave ι} {t t' : (B : Nat) → (Config ι → ℂ) → (Fin B → Config ι) → Option (List ℂ)}
    (h : ∀ B, 0 < B → ∀ logψ sample, (∀ b, IsSpin (sample b)) → t' B logψ sample = t B logψ sample)
    (hM : StagesSettle H t) : StagesSettle H t' := by
  intro Ω _ _ P _ n cfg net g D stages hs hal hS hd hD hg C W K hC hW hK hrate gen θ0 f acc hgen hacc
  obtain ⟨θ, h1, h2⟩ := hM Ω P n cfg net g D stages hs hal hS hd hD hg C W K hC hW hK hrate gen θ0 f acc hgen hacc
  refine ⟨θ, fun us N k hus => ?_, h2⟩
  rw [sgdStages_congr h]
  · exact h1 us N k hus
  · intro stage hstage
    unfold upTo at hstage
    rw [List.mem_append, List.mem_map, List.mem_singleton] at hstage
    rcases hstage with ⟨i, -, rfl⟩ | rfl
    · exact ⟨(hs i).1, fun θ u b => (hS i θ).spins u b⟩
    · exact ⟨(hs N).1, fun θ u b => (hS N θ).spins u b⟩

/-- **C163** for the Ising model on chains. -/
theorem C163_ising_chain (n : Nat) (h j : ℝ) (pbc : Bool) :
    StagesSettle (tfim (chainBonds n pbc) h j) fun B logψ sample =>
      Exact.vmcCoefficients B logψ (Answer.ofRows (n + 1) (isingFindConn1 (.float h) j pbc sample)
        fun b => by rw [isingFindConn1_eq]; simp) :=
  stagesSettle_of (op := fun _ sample => isingFindConn1 (.float h) j pbc sample) (Exact.rowsOf_ising_chain n h j pbc) _
    (fun s _ ψ => C06_ising_chain h j pbc (fun _ : Fin 1 => s) 0 ψ) _
    fun _ sample hs logψ => C18_ising_chain h j pbc sample hs logψ

/-- **C163** for the Ising model on grids. -/
theorem C163_ising_grid (n m : Nat) (h j : ℝ) (pbc : Bool) :
    StagesSettle (tfim (gridBonds n m pbc) h j) fun B logψ sample =>
      Exact.vmcCoefficients B logψ (Answer.ofRows (n * m + 1) (isingFindConn2 (.float h) j pbc sample)
        fun b => by rw [isingFindConn2_eq]; simp [length_gridSites]) :=
  stagesSettle_of (op := fun _ sample => isingFindConn2 (.float h) j pbc sample) (Exact.rowsOf_ising_grid n m h j pbc) _
    (fun s _ ψ => C06_ising_grid h j pbc (fun _ : Fin 1 => s) 0 ψ) _
    fun _ sample hs logψ => C18_ising_grid h j pbc sample hs logψ

/-- **C163** for the Heisenberg model on grids, whatever calls of the operator came before. -/
theorem C163_heisenberg_grid (n m : Nat) (rot pbc : Bool) (history : List (Call n m)) :
    StagesSettle (heisenberg (gridBonds n m pbc) (if rot then -1 else 1)) fun B logψ sample =>
      Exact.vmcCoefficients B logψ (Answer.ofRows (n * m * 2 + 1) (((HeisOp.new2 n m rot pbc).run history).findConn B sample).2
        fun b => by rw [answer2]; exact length_heisRows _ _ _ (Or.inl rfl) _) :=
  stagesSettle_of (op := fun B sample => (((HeisOp.new2 n m rot pbc).run history).findConn B sample).2)
    (Exact.rowsOf_heisenberg_grid n m rot pbc history) _
    (fun s hs ψ => applyRows_heisRows rot pbc 2 (Or.inl rfl) s hs ψ) _
    fun B sample hs logψ => C18_heisenberg_grid rot pbc history B sample hs logψ

/-- **C163** for the Heisenberg model on chains, whatever calls of the operator came before. -/
theorem C163_heisenberg_chain (n : Nat) (rot pbc : Bool) (history : List (Call n 1)) :
    StagesSettle (heisenberg (chainBonds' n pbc) (if rot then -1 else 1)) fun B logψ sample =>
      Exact.vmcCoefficients B logψ (Answer.ofRows (n + 1) (((HeisOp.new1 n rot pbc).run history).findConn1 B sample).2
        fun b => by
          rw [(Exact.rowsOf_heisenberg_chain n rot pbc history).eq]
          exact (Exact.rowsOf_heisenberg_chain n rot pbc history).length _) :=
  stagesSettle_of (op := fun B sample => (((HeisOp.new1 n rot pbc).run history).findConn1 B sample).2)
    (Exact.rowsOf_heisenberg_chain n rot pbc history) _
    (fun s hs ψ => by
      have := C07_heisenberg_chain rot pbc history 1 (fun _ => s) 0 hs ψ
      rwa [answer1] at this) _
    fun B sample hs logψ => C18_heisenberg_chain rot pbc history B sample hs logψ

open Verif.J1J2.Op in
/-- **C163** for J1-J2 on lattices of any size (periodic ones from three by three), whatever calls of the operator came before. -/
theorem C163_j1j2 (first : ℤ) (hf : first = 1 ∨ first = -1) {L1 L2 : Nat} (h1 : 0 < L1) (h2 : 0 < L2) (j2 : ℝ) (pbc : Bool)
    (hL : pbc = true → 3 ≤ L1 ∧ 3 ≤ L2) (history : List (List Netket.Conf)) :
    StagesSettle (hamiltonian L1 L2 pbc j2) (j1j2Targets first L1 L2 j2 pbc history) :=
  stagesSettle_congr (fun _ hB logψ sample hs => targets_clean first hf h1 h2 j2 pbc hL history hB sample hs logψ)
    (stagesSettle_of (rowsOf_clean first hf h1 h2 j2 pbc hL) _ (cleanRows_apply first hf h1 h2 j2 pbc hL)
      (fun _ sample b => cleanRows_length first h2 j2 pbc (sample b)) fun _ sample hs logψ =>
        localEnergies_of _ sample hs logψ _ (clean_values first hf h1 h2 j2 pbc hL sample hs logψ))

/-! ### Cases that meet the hypotheses -/

end Verif.Training

namespace Verif.Energy
open MeasureTheory Verif.Operators

/-- A sampler that ignores part of the random numbers. -/
theorem Independent.comp {ι : Type} [Fintype ι] [DecidableEq ι] {B : Nat} {Ω Ω' : Type} [MeasurableSpace Ω] [MeasurableSpace Ω']
    {P : Measure Ω} {P' : Measure Ω'} {ψ : Config ι → ℂ} {S : Ω → Fin B → Config ι} (hS : Independent P ψ S) {π : Ω' → Ω}
    (hπ : MeasurePreserving π P' P) : Independent P' ψ fun u => S (π u) where
  spins u b := hS.spins (π u) b
  event T := hπ.measurable (hS.event T)
  law T hT := by
    rw [← hS.law T hT]
    unfold Measure.real
    rw [← hπ.measure_preimage (hS.event T).nullMeasurableSet]
    rfl

end Verif.Energy

namespace Verif.Training

open Verif.Operators Verif.Energy Verif.Autoregressive MeasureTheory Filter Topology
open Verif.Energy.Exact (loss RowsOf)

theorem ratio_zero {A Q : Nat → ℝ} {q : ℝ} (hA : Tendsto A atTop atTop) (hA0 : ∀ N, 0 ≤ A N) (hQ0 : ∀ N, 0 ≤ Q N) (hQ : ∀ N, Q N ≤ q) :
    Tendsto (fun N => Q N / A N) atTop (𝓝 0) :=
  squeeze_zero (fun N => div_nonneg (hQ0 N) (hA0 N)) (fun N => div_le_div_of_nonneg_right (hQ N) (hA0 N))
    ((tendsto_const_nhds (x := q)).div_atTop hA)

/-- Stages of one batch each that double in size, with one and the same effective learning rate 1/6. -/
noncomputable def doubling (S : (i : Nat) → (Fin 1 → ℝ) → (Fin (2 ^ (i + 1)) → ℝ) → Fin (2 ^ (i + 1)) → Config (Fin 1)) (i : Nat) :
    SgdStage ((i : Nat) → Fin (2 ^ (i + 1)) → ℝ) (Fin 1) 1 :=
  ⟨2 ^ (i + 1), 2 ^ (i + 1), 1, 2 ^ (i + 1) / 6, fun θ u => S i θ (u i)⟩

/-- Growing batches: all hypotheses are met by one spin in a field 3 and `WaveFunctionSampler`, and the mean squared gradient tends
to zero. -/
example : ∃ S : (i : Nat) → (Fin 1 → ℝ) → (Fin (2 ^ (i + 1)) → ℝ) → Fin (2 ^ (i + 1)) → Config (Fin 1),
    (∀ i, 1 < (doubling S i).size ∧ 0 < (doubling S i).mini ∧ min (doubling S i).mini (doubling S i).size ∣ (doubling S i).size) ∧
    (∀ i, (doubling S i).parts ∣ ∑ j ∈ Finset.range i, (doubling S j).batches * (doubling S j).parts) ∧
    (∀ i θ, Independent (Measure.infinitePi fun i : Nat => Measure.pi fun _ : Fin (2 ^ (i + 1)) => unif) (phaseNet θ)
      ((doubling S i).sampler θ)) ∧
    (∀ i, 0 < (doubling S i).lr ∧ (doubling S i).rate ⟨false, 0⟩ * 3 ≤ 1 - 1 / (doubling S i).size) ∧
    Tendsto (fun N => ∑ i ∈ Finset.range N, (doubling S i).batches * ((doubling S i).rate ⟨false, 0⟩ * (1 - 1 / (doubling S i).size)))
      atTop atTop ∧
    Tendsto (fun N => (∑ i ∈ Finset.range N, (doubling S i).batches * (doubling S i).rate ⟨false, 0⟩ ^ 2 / (doubling S i).size) /
      ∑ i ∈ Finset.range N, (doubling S i).batches * ((doubling S i).rate ⟨false, 0⟩ * (1 - 1 / (doubling S i).size))) atTop (𝓝 0) := by
  choose S _ hS using fun (i : Nat) (θ : Fin 1 → ℝ) => C154_wave_function (B := 2 ^ (i + 1)) (Equiv.refl (Fin 1)) (phaseNet θ) _ le_rfl
  have hpow : ∀ i : Nat, (2 : ℝ) ≤ 2 ^ (i + 1) := fun i => by
    rw [pow_succ]
    have : (1 : ℝ) ≤ 2 ^ i := one_le_pow₀ (by norm_num)
    linarith
  have hparts : ∀ i, (doubling S i).parts = 1 := fun i => by
    unfold SgdStage.parts doubling
    rw [min_self, Nat.div_self (by positivity)]
  have hsize : ∀ i, ((doubling S i).size : ℝ) = 2 ^ (i + 1) := fun i => by simp [doubling]
  have hbatch : ∀ i, ((doubling S i).batches : ℝ) = 1 := fun i => by simp [doubling]
  have hrate : ∀ i, (doubling S i).rate ⟨false, 0⟩ = 1 / 6 := fun i => by
    unfold SgdStage.rate
    rw [hsize]
    have := hpow i
    have h0 : (doubling S i).lr = 2 ^ (i + 1) / 6 := rfl
    rw [h0]
    simp
    field_simp
  have hinv : ∀ i : Nat, 1 / (2 : ℝ) ^ (i + 1) ≤ 1 / 2 := fun i => one_div_le_one_div_of_le (by norm_num) (hpow i)
  have hA : Tendsto (fun N => ∑ i ∈ Finset.range N, (1 : ℝ) * (1 / 6 * (1 - 1 / 2 ^ (i + 1)))) atTop atTop := by
    refine tendsto_atTop_mono (f := fun N : Nat => (N : ℝ) * (1 / 12)) (fun N => ?_)
      (tendsto_natCast_atTop_atTop.atTop_mul_const (by norm_num))
    calc (N : ℝ) * (1 / 12) = ∑ i ∈ Finset.range N, (1 / 12 : ℝ) := by simp
      _ ≤ _ := Finset.sum_le_sum fun i _ => by have := hinv i; linarith
  refine ⟨S, fun i => ?_, fun i => by rw [hparts]; exact one_dvd _, fun i θ => ?_, fun i => ⟨?_, ?_⟩, ?_, ?_⟩
  · have h1 : 1 < 2 ^ (i + 1) := Nat.one_lt_two_pow (by omega)
    exact ⟨h1, by unfold doubling; positivity, by unfold doubling; rw [min_self]⟩
  · exact (hS i θ).comp (measurePreserving_eval_infinitePi (fun i : Nat => Measure.pi fun _ : Fin (2 ^ (i + 1)) => unif) i)
  · unfold doubling
    positivity
  · rw [hrate, hsize]
    have := hinv i
    linarith
  · simp only [hbatch, hrate, hsize]
    exact hA
  · simp only [hbatch, hrate, hsize]
    refine ratio_zero (q := 1 / 36) hA (fun N => Finset.sum_nonneg fun i _ => by have := hinv i; linarith)
      (fun N => Finset.sum_nonneg fun i _ => by positivity) fun N => ?_
    have h1 : ∀ N : Nat, ∑ i ∈ Finset.range N, (1 : ℝ) * (1 / 6) ^ 2 / 2 ^ (i + 1) = 1 / 36 * (1 - 1 / 2 ^ N) := by
      intro N
      induction N with
      | zero => simp
      | succ N ih =>
        rw [Finset.sum_range_succ, ih, pow_succ]
        field_simp
        ring
    rw [h1]
    have : 0 ≤ 1 / (2 : ℝ) ^ N := by positivity
    linarith

/-- Falling learning rates: with batches of four samples in mini-batches of two and the learning rates `1, 1/2, 1/3, …` the
conditions on the stages are met (with the bound 3 on the change of the gradient, that of one spin in a field 3). -/
theorem falling_rates {Ω ι : Type} (S : (Fin 1 → ℝ) → Ω → Fin 4 → Config ι) :
    let stages : Nat → SgdStage Ω ι 1 := fun i => ⟨4, 2, 1, 1 / ((i : ℝ) + 1), S⟩
    (∀ i, 1 < (stages i).size ∧ 0 < (stages i).mini ∧ min (stages i).mini (stages i).size ∣ (stages i).size) ∧
    (∀ i, (stages i).parts ∣ ∑ j ∈ Finset.range i, (stages j).batches * (stages j).parts) ∧
    (∀ i, 0 < (stages i).lr ∧ (stages i).rate ⟨false, 0⟩ * 3 ≤ 1 - 1 / (stages i).size) ∧
    Tendsto (fun N => ∑ i ∈ Finset.range N, (stages i).batches * ((stages i).rate ⟨false, 0⟩ * (1 - 1 / (stages i).size))) atTop atTop ∧
    Tendsto (fun N => (∑ i ∈ Finset.range N, (stages i).batches * (stages i).rate ⟨false, 0⟩ ^ 2 / (stages i).size) /
      ∑ i ∈ Finset.range N, (stages i).batches * ((stages i).rate ⟨false, 0⟩ * (1 - 1 / (stages i).size))) atTop (𝓝 0) := by
  intro stages
  have hrate : ∀ i, (stages i).rate ⟨false, 0⟩ = 1 / ((i : ℝ) + 1) / 4 := fun i => by simp [stages, SgdStage.rate]
  have hsize : ∀ i, ((stages i).size : ℝ) = 4 := fun i => by simp [stages]
  have hbatch : ∀ i, ((stages i).batches : ℝ) = 1 := fun i => by simp [stages]
  have hparts : ∀ i, (stages i).parts = 2 := fun i => by simp [stages, SgdStage.parts]
  have hA : Tendsto (fun N => ∑ i ∈ Finset.range N, (1 : ℝ) * (1 / ((i : ℝ) + 1) / 4 * (1 - 1 / 4))) atTop atTop := by
    have h1 := Real.tendsto_sum_range_one_div_nat_succ_atTop.atTop_mul_const (by norm_num : (0 : ℝ) < 3 / 16)
    refine h1.congr fun N => ?_
    rw [Finset.sum_mul]
    exact Finset.sum_congr rfl fun i _ => by ring
  refine ⟨fun i => by simp [stages], fun i => ?_, fun i => ⟨?_, ?_⟩, ?_, ?_⟩
  · simp only [hparts]
    exact Finset.dvd_sum fun j _ => Dvd.intro_left _ rfl
  · show 0 < 1 / ((i : ℝ) + 1)
    positivity
  · rw [hrate, hsize]
    have : 1 / ((i : ℝ) + 1) ≤ 1 := by
      rw [div_le_one (by positivity)]
      linarith [(Nat.cast_nonneg i : (0 : ℝ) ≤ i)]
    linarith
  · simp only [hbatch, hrate, hsize]
    exact hA
  · simp only [hbatch, hrate, hsize]
    refine ratio_zero (q := 1 / 32) hA (fun N => Finset.sum_nonneg fun i _ => by
      have : 0 ≤ 1 / ((i : ℝ) + 1) := by positivity
      linarith) (fun N => Finset.sum_nonneg fun i _ => by positivity) fun N => ?_
    have h1 : ∀ N : Nat, ∑ i ∈ Finset.range N, (1 : ℝ) * (1 / ((i : ℝ) + 1) / 4) ^ 2 / 4 ≤ 1 / 64 * (2 - 2 / ((N : ℝ) + 1)) := by
      intro N
      induction N with
      | zero => norm_num
      | succ N ih =>
        rw [Finset.sum_range_succ]
        have hN : (0 : ℝ) ≤ N := Nat.cast_nonneg N
        have h2 : (1 / ((N : ℝ) + 1)) ^ 2 ≤ 2 / ((N : ℝ) + 1) - 2 / ((N : ℝ) + 2) := by
          rw [div_sub_div _ _ (by positivity) (by positivity), div_pow, div_le_div_iff₀ (by positivity) (by positivity)]
          nlinarith
        have h3 : 2 / ((N : ℝ) + 2) = 2 / (((N + 1 : Nat) : ℝ) + 1) := by
          push_cast
          ring
        rw [h3] at h2
        have h4 : (1 : ℝ) * (1 / ((N : ℝ) + 1) / 4) ^ 2 / 4 = 1 / 64 * (1 / ((N : ℝ) + 1)) ^ 2 := by ring
        rw [h4]
        linarith
    refine (h1 N).trans ?_
    have : 0 ≤ 2 / ((N : ℝ) + 1) := by positivity
    linarith

end Verif.Training
