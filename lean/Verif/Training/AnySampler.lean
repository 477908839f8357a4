import Verif.Training.StochasticDescent
import Verif.Samplers.Direct

/-!
# C88 and C145 for every sampler of independent samples

C88 and C145 with the autoregressive sampler are in `Energy/Unbiased.lean` and `Training/StochasticDescent.lean`; here the
sampler is any of those that draw independent samples (C154: `AutoregressiveSampler`, `FastAutoregressiveSampler`,
`WaveFunctionSampler`, `ExactSampler`), and the machine need not be autoregressive.
-/
namespace Verif.Training

open Verif.Operators Verif.Energy Verif.Autoregressive MeasureTheory
open Verif.Energy.Exact (loss RowsOf)

variable {ι : Type} [Fintype ι] [DecidableEq ι] {n B : Nat}

/-! ### C88 -/

/-- **C88 for every sampler of independent samples.** `S` are the samples computed from the random numbers, whose distribution
is `P`: on average over the random numbers, the derivative of the training loss of the batch along any differentiable path of
parameters is `(1 - 1/B)` times the derivative of the energy. (The hypothesis on `targets` is supplied by the theorems C88 of
the four operators, the one on `S` by C154.) -/
theorem C88_any_sampler {Ω : Type} [MeasurableSpace Ω] {P : Measure Ω} [IsProbabilityMeasure P] (hB : 0 < B)
    (H : Wave ι → Wave ι) (targets : (B : Nat) → (Config ι → ℂ) → (Fin B → Config ι) → Option (List ℂ))
    (hM : MeanGradient H targets) (net : ℝ → Config ι → ℂ) (θ : ℝ) (S : Ω → Fin B → Config ι) (hS : Independent P (net θ) S)
    (D : Config ι → ℂ) (hD : ∀ s, IsSpin s → HasDerivAt (fun t => net t s) (D s) θ) :
    ∃ (E' : ℝ) (grad : Ω → ℝ),
      HasDerivAt (fun t => (rayleigh H fun s => Complex.exp (net t s)).re) E' θ ∧
      (∀ u, ∃ c, targets B (net θ) (S u) = some c ∧ c.length = B ∧
        HasDerivAt (fun t => ∑ b : Fin B, Exact.loss (c.getD b 0) (net t (S u b))) (grad u) θ) ∧
      ∫ u, grad u ∂P = (1 - 1 / B) * E' := by
  obtain ⟨E', g, h1, h2, h3⟩ := hM B hB net D θ hD
  exact ⟨E', fun u => g (S u), h1, fun u => h2 (S u) (hS.spins u), by rw [← h3]; exact hS.integral g⟩

/-! ### C145: model -/

/-- What `VariationalMonteCarlo.next_batch` (variational_monte_carlo.py:42-50) returns for the batch number `k`: the samples
that the sampler draws with the weights `θ` of that moment from the random numbers `us k`, and their training targets. An
exception would leave no rows (C145 shows that there is none). -/
def drawFrom {Ω : Type} [Inhabited Ω] (targets : (B : Nat) → (Config ι → ℂ) → (Fin B → Config ι) → Option (List ℂ))
    (net : (Fin n → ℝ) → Config ι → ℂ) (S : (Fin n → ℝ) → Ω → Fin B → Config ι) (us : List Ω) (θ : Fin n → ℝ) (_ : Unit)
    (k : Nat) : List (Config ι × ℂ) :=
  match targets B (net θ) (S θ (us.getD k default)) with
  | some c => (List.finRange B).map fun b => (S θ (us.getD k default) b, c.getD b 0)
  | none => []

/-! ### C145: specification -/

/-- Expected value of a number that depends on the random numbers of `T` batches, which are independent of each other. -/
noncomputable def overRuns {Ω : Type} [MeasurableSpace Ω] (P : Measure Ω) : (T : Nat) → (List Ω → ℝ) → ℝ
  | 0, F => F []
  | T + 1, F => ∫ u, overRuns P T (fun us => F (u :: us)) ∂P

/-- What C145 says of training with batches of `B` samples: `θ us t` are the weights after the first `t` batches if the
sampler draws the random numbers `us`; `rate` is the effective learning rate and `noise` a bound for the squared length
of the gradients of batches. -/
structure ProgressOverRuns {Ω : Type} [MeasurableSpace Ω] (P : Measure Ω) (B : Nat) (H : Wave ι → Wave ι)
    (net : (Fin n → ℝ) → Config ι → ℂ) (θ : List Ω → Nat → Fin n → ℝ) (rate K noise : ℝ) : Prop where
  /-- The next batch lowers the expected energy in proportion to the expected squared gradient, up to the noise. -/
  step : ∀ t, overRuns P (t + 1) (fun us => energyAt H net (θ us (t + 1))) ≤
    overRuns P t (fun us => energyAt H net (θ us t)) -
      rate * (1 - 1 / B) * overRuns P t (fun us => steepness H net (θ us t)) + K / 2 * rate ^ 2 * noise
  /-- The squared gradients met on the way are small on average. -/
  average : ∀ m, (∀ θ, m ≤ energyAt H net θ) → ∀ T, 0 < T →
    (∑ t ∈ Finset.range T, overRuns P t (fun us => steepness H net (θ us t))) / T ≤
      (energyAt H net (θ [] 0) - m) / (rate * (1 - 1 / B) * T) + K / 2 * rate * noise / (1 - 1 / B)
  /-- So after enough batches they are on average as small as the learning rate permits. -/
  settles : ∀ ε, K / 2 * rate * noise / (1 - 1 / B) < ε → ∃ T₀, ∀ T, T₀ ≤ T →
    (∑ t ∈ Finset.range T, overRuns P t (fun us => steepness H net (θ us t))) / T < ε

/-- C145 for one operator and its training targets: every machine that is differentiable in its weights, with logarithmic
derivatives of at most `C` and an energy gradient with the bound `K`, and every sampler which draws batches of independent
samples of the machine with the weights of the moment. -/
def SgdLearnsAny (H : Wave ι → Wave ι)
    (targets : (B : Nat) → (Config ι → ℂ) → (Fin B → Config ι) → Option (List ℂ)) : Prop :=
  ∀ (Ω : Type) [MeasurableSpace Ω] [Inhabited Ω] (P : Measure Ω) [IsProbabilityMeasure P]
    (B : Nat), 1 < B → ∀ mini : Option Nat, mini.getD B ∣ B →
  ∀ (n : Nat) (cfg : AccConfig) (net : (Fin n → ℝ) → Config ι → ℂ) (g : (Fin n → ℝ) → Config ι × ℂ → Fin n → ℝ)
    (D : (Fin n → ℝ) → Fin n → Config ι → ℂ) (S : (Fin n → ℝ) → Ω → Fin B → Config ι),
    (∀ θ, Independent P (net θ) (S θ)) →
    (∀ s, IsSpin s → Differentiable ℝ fun θ => net θ s) →
    (∀ θ k s, IsSpin s → HasDerivAt (fun t => net (Function.update θ k t) s) (D θ k s) (θ k)) →
    (∀ θ k s c, IsSpin s → HasDerivAt (fun t => loss c (net (Function.update θ k t) s)) (g θ (s, c) k) (θ k)) →
    ∀ C W K lr : ℝ, 0 < lr → (∀ θ k s, IsSpin s → ‖D θ k s‖ ≤ C) → LengthBound H W → SlopeBound H net K →
    ∀ (gen : MBState Unit (Config ι × ℂ)), gen.drawn = 0 → ∀ θ0 : Fin n → ℝ,
    ∃ st0 : LoopState (Fin n → ℝ) (Fin n → ℝ) (Fin n → ℝ) Unit (Config ι × ℂ),
      setupLoop (fun _ => B) gen () mini θ0 = some st0 ∧
      (∀ us θ k, (drawFrom targets net S us θ () k).length = B) ∧
      ProgressOverRuns P B H net
        (fun us t => (fitGenerator (plainSgd lr) cfg g (drawFrom targets net S us) (t * (B / mini.getD B)) st0).acc.opt)
        (lr * (if cfg.accumulateSum then ((B / mini.getD B : Nat) : ℝ) else 1) / B) K (4 * n * C ^ 2 * W)

/-! ### Expected values -/

theorem overRuns_congr {Ω : Type} [MeasurableSpace Ω] {P : Measure Ω} (T : Nat) (F G : List Ω → ℝ)
    (h : ∀ us, us.length = T → F us = G us) : overRuns P T F = overRuns P T G := by
  induction T generalizing F G with
  | zero => exact h [] rfl
  | succ T ih =>
    unfold overRuns
    refine integral_congr_ae (Filter.Eventually.of_forall fun u => ?_)
    exact ih _ _ fun us hus => h (u :: us) (by simp [hus])

theorem overRuns_tree {Ω : Type} [MeasurableSpace Ω] {P : Measure Ω} [IsProbabilityMeasure P] (net : (Fin n → ℝ) → Config ι → ℂ)
    {S : (Fin n → ℝ) → Ω → Fin B → Config ι} (hS : ∀ θ, Independent P (net θ) (S θ))
    (next : (Fin n → ℝ) → (Fin B → Config ι) → Fin n → ℝ) (nextU : (Fin n → ℝ) → Ω → Fin n → ℝ)
    (hn : ∀ θ u, nextU θ u = next θ (S θ u)) (φ : (Fin n → ℝ) → ℝ) (T : Nat) (θ : Fin n → ℝ) :
    overRuns P T (fun us => φ (us.foldl nextU θ)) = tree B net next φ T θ := by
  induction T generalizing θ with
  | zero => rfl
  | succ T ih =>
    unfold overRuns
    simp only [List.foldl_cons, ih, hn]
    exact (hS θ).integral fun x => tree B net next φ T (next θ x)

/-! ### The training loop -/

/-- The training loop is a tree of batches: it starts, every batch is complete, and the expected value of anything that depends
on the weights after `t` batches is the one over trees of independent samples. These are samples of `sampled`, which need not be
the trained model `net` (see C162). -/
theorem loop_tree {op : (B : Nat) → (Fin B → Config ι) → Fin B → List (Row ι ℝ)} {R : Nat}
    {rowsOf : Config ι → List (Row ι ℝ)} (h : RowsOf op R rowsOf) (H : Wave ι → Wave ι)
    (hlen : ∀ B (sample : Fin B → Config ι) b, (op B sample b).length = R)
    (hE : ∀ B (sample : Fin B → Config ι), (∀ b, IsSpin (sample b)) → ∀ logψ,
      LocalEnergies H sample logψ (estimate logψ (Answer.ofRows R (op B sample) (hlen B sample))))
    {Ω : Type} [MeasurableSpace Ω] [Inhabited Ω] (P : Measure Ω) [IsProbabilityMeasure P] (hB1 : 1 < B) (mini : Option Nat)
    (hdvd : mini.getD B ∣ B) (cfg : AccConfig) {sampled : (Fin n → ℝ) → Config ι → ℂ} (net : (Fin n → ℝ) → Config ι → ℂ) (g : (Fin n → ℝ) → Config ι × ℂ → Fin n → ℝ)
    (D : (Fin n → ℝ) → Fin n → Config ι → ℂ) (S : (Fin n → ℝ) → Ω → Fin B → Config ι) (hS : ∀ θ, Independent P (sampled θ) (S θ))
    (hD : ∀ θ k s, IsSpin s → HasDerivAt (fun t => net (Function.update θ k t) s) (D θ k s) (θ k))
    (hg : ∀ θ k s c, IsSpin s → HasDerivAt (fun t => loss c (net (Function.update θ k t) s)) (g θ (s, c) k) (θ k)) (lr : ℝ)
    (gen : MBState Unit (Config ι × ℂ)) (hgen : gen.drawn = 0) (θ0 : Fin n → ℝ) :
    ∃ st0 : LoopState (Fin n → ℝ) (Fin n → ℝ) (Fin n → ℝ) Unit (Config ι × ℂ),
      setupLoop (fun _ => B) gen () mini θ0 = some st0 ∧
      (∀ us θ k, (drawFrom (fun B logψ sample => Exact.vmcCoefficients B logψ (Answer.ofRows R (op B sample) (hlen B sample)))
        net S us θ () k).length = B) ∧
      (∀ (φ : (Fin n → ℝ) → ℝ) t, overRuns P t (fun us => φ (fitGenerator (plainSgd lr) cfg g
        (drawFrom (fun B logψ sample => Exact.vmcCoefficients B logψ (Answer.ofRows R (op B sample) (hlen B sample))) net S us)
        (t * (B / mini.getD B)) st0).acc.opt) =
          tree B sampled (sgdNext H net D (lr * (if cfg.accumulateSum then ((B / mini.getD B : Nat) : ℝ) else 1) / B)) φ t θ0) ∧
      (fitGenerator (plainSgd lr) cfg g
        (drawFrom (fun B logψ sample => Exact.vmcCoefficients B logψ (Answer.ofRows R (op B sample) (hlen B sample))) net S [])
        (0 * (B / mini.getD B)) st0).acc.opt = θ0 := by
  have hB : 0 < B := by omega
  have hBr : (0 : ℝ) < B := by exact_mod_cast hB
  have hBr1 : (1 : ℝ) < B := by exact_mod_cast hB1
  set targets : (B : Nat) → (Config ι → ℂ) → (Fin B → Config ι) → Option (List ℂ) :=
    fun B logψ sample => Exact.vmcCoefficients B logψ (Answer.ofRows R (op B sample) (hlen B sample)) with htargets
  have hm : 0 < mini.getD B := Nat.pos_of_dvd_of_pos hdvd hB
  have hmle : mini.getD B ≤ B := Nat.le_of_dvd hB hdvd
  -- the setup succeeds
  obtain ⟨st0, hst0⟩ : ∃ st0 : LoopState (Fin n → ℝ) (Fin n → ℝ) (Fin n → ℝ) Unit (Config ι × ℂ),
      setupLoop (fun _ => B) gen () mini θ0 = some st0 := by
    cases hg : setSampler (fun _ => B) gen () mini with
    | none =>
      exfalso
      unfold setSampler setBatchSize at hg
      cases mini with
      | none => simp at hg; omega
      | some m =>
        simp only [Option.getD_some] at hm hmle
        simp at hg
        split at hg <;> omega
    | some gen' =>
      unfold setupLoop
      rw [hg]
      obtain ⟨e1, e2, e3, e4, e5, e6, e7, e8, -⟩ := setBatchSize_spec _ _ _ _ hg
      rw [Nat.min_eq_left hmle] at e5
      have hf : 1 ≤ gen'.updateParamsFrequency := by
        rw [e7, e5]
        unfold ceilDiv
        rw [Nat.le_div_iff_mul_le hm]
        omega
      simp only [convert]
      rw [if_neg (by omega)]
      exact ⟨_, rfl⟩
  -- every batch is complete
  have hrows : ∀ us θ k, drawFrom targets net S us θ () k = (List.finRange B).map fun b =>
      (S θ (us.getD k default) b, (starRingEnd ℂ) (localEnergy H (net θ) (S θ (us.getD k default) b) -
        (∑ a, localEnergy H (net θ) (S θ (us.getD k default) a)) / B) / (B : ℂ)) := by
    intro us θ k
    have hspin := (hS θ).spins (us.getD k default)
    have ht := targets_of h (hlen B) (net θ) _ (hE B _ hspin (net θ))
    unfold drawFrom
    simp only [htargets]
    rw [ht]
    simp [List.getD_eq_getElem?_getD]
  have hlenB : ∀ us θ k, (drawFrom targets net S us θ () k).length = B := by
    intro us θ k
    rw [hrows]
    simp
  set f := B / mini.getD B with hf
  set scale : ℝ := if cfg.accumulateSum then (f : ℝ) else 1 with hscale
  set η : ℝ := lr * scale / B with hη
  set nextU : (Fin n → ℝ) → Ω → Fin n → ℝ := fun θ u =>
    (plainSgd lr).update θ (scale • (1 / (B : ℝ)) • ((drawFrom targets net S [u] θ () 0).map (g θ)).sum) with hnextU
  -- the loop is a fold
  have hloop : ∀ us t, us.length = t →
      (fitGenerator (plainSgd lr) cfg g (drawFrom targets net S us) (t * f) st0).acc.opt = us.foldl nextU θ0 := by
    intro us t hus
    have h1 : (fitGenerator (plainSgd lr) cfg g (drawFrom targets net S us) (t * f) st0).acc.opt =
        wholeBatches (plainSgd lr) g (fun p k => drawFrom targets net S us p () (0 + k)) scale θ0 t := by
      cases hcfg : cfg.accumulateSum with
      | true =>
        have := C90_sum_scales (plainSgd lr) cfg hcfg g (drawFrom targets net S us) (fun _ => B) gen () mini θ0 st0 hst0
          hdvd (fun p k => hlenB us p k) t
        rw [hgen] at this
        rw [hscale, hcfg, if_pos rfl]
        exact this
      | false =>
        have := C90_mean_partial (plainSgd lr) cfg hcfg g (drawFrom targets net S us) (fun _ => B) gen () mini θ0 st0 hst0
          hdvd (fun p k => hlenB us p k) t
        rw [hgen] at this
        rw [hscale, hcfg, if_neg (by simp)]
        exact this
    rw [h1]
    have h2 : ∀ j, j ≤ us.length →
        wholeBatches (plainSgd lr) g (fun p k => drawFrom targets net S us p () (0 + k)) scale θ0 j =
          (us.take j).foldl nextU θ0 := by
      intro j
      induction j with
      | zero => intro _; rfl
      | succ j ih =>
        intro hj
        have hj' : j < us.length := hj
        rw [List.take_succ_eq_append_getElem hj', List.foldl_append, ← ih hj'.le]
        have e : ∀ θ, drawFrom targets net S us θ () (0 + j) = drawFrom targets net S [us[j]] θ () 0 := by
          intro θ
          unfold drawFrom
          have : us.getD (0 + j) default = [us[j]].getD 0 default := by
            simp [List.getD_eq_getElem?_getD, hj']
          rw [this]
        simp only [wholeBatches, List.foldl_cons, List.foldl_nil, hnextU, e, hlenB]
        rfl
    have h3 := h2 t hus.ge
    rw [← hus, List.take_length] at h3
    rw [← hus]
    exact h3
  -- one step of the loop is a step of gradient descent with the batch gradient
  have hnext : ∀ θ u, nextU θ u = sgdNext H net D η θ (S θ u) := by
    intro θ u
    have e := hrows [u] θ 0
    simp only [List.getD_cons_zero] at e
    have hspin := (hS θ).spins u
    have hgD : ∀ k s c, IsSpin s → g θ (s, c) k = 2 * (c * D θ k s).re := by
      intro k s c hs
      have h1 := Complex.reCLM.hasFDerivAt.comp_hasDerivAt (θ k) ((hD θ k s hs).mul_const c)
      have h2 := h1.const_mul (2 : ℝ)
      have h3 := (hg θ k s c hs).unique h2
      rw [h3, mul_comm c]
      rfl
    funext k
    simp only [hnextU, plainSgd, e, sgdNext, Pi.sub_apply, Pi.smul_apply, smul_eq_mul]
    have hsum : ∀ l : List (Config ι × ℂ), (l.map (g θ)).sum k = (l.map fun r => g θ r k).sum := by
      intro l
      induction l with
      | nil => rfl
      | cons r l ih => simp [ih]
    rw [hsum, List.map_map]
    have h5 : ((List.finRange B).map ((fun r => g θ r k) ∘ fun b => (S θ u b, (starRingEnd ℂ) (localEnergy H (net θ) (S θ u b) -
        (∑ a, localEnergy H (net θ) (S θ u a)) / B) / (B : ℂ)))).sum = batchGradient H (net θ) (D θ k) (S θ u) := by
      unfold batchGradient
      rw [← List.sum_ofFn, List.ofFn_eq_map]
      refine congrArg List.sum (List.map_congr_left fun b _ => ?_)
      exact hgD k (S θ u b) _ (hspin b)
    rw [h5, hη]
    ring
  have havg : ∀ (φ : (Fin n → ℝ) → ℝ) t, overRuns P t (fun us =>
      φ (fitGenerator (plainSgd lr) cfg g (drawFrom targets net S us) (t * f) st0).acc.opt) =
        tree B sampled (sgdNext H net D η) φ t θ0 := by
    intro φ t
    rw [← overRuns_tree sampled hS (sgdNext H net D η) nextU hnext φ t θ0]
    refine overRuns_congr t _ _ fun us hus => ?_
    rw [hloop us t hus]
  exact ⟨st0, hst0, hlenB, havg, hloop [] 0 rfl⟩

theorem sgdLearnsAny_of {op : (B : Nat) → (Fin B → Config ι) → Fin B → List (Row ι ℝ)} {R : Nat}
    {rowsOf : Config ι → List (Row ι ℝ)} (h : RowsOf op R rowsOf) (H : Wave ι → Wave ι)
    (hH : ∀ s, IsSpin s → ∀ ψ, applyRows (rowsOf s) ψ = H ψ s)
    (hlen : ∀ B (sample : Fin B → Config ι) b, (op B sample b).length = R)
    (hE : ∀ B (sample : Fin B → Config ι), (∀ b, IsSpin (sample b)) → ∀ logψ,
      LocalEnergies H sample logψ (estimate logψ (Answer.ofRows R (op B sample) (hlen B sample)))) :
    SgdLearnsAny H fun B logψ sample => Exact.vmcCoefficients B logψ (Answer.ofRows R (op B sample) (hlen B sample)) := by
  intro Ω _ _ P _ B hB1 mini hdvd n cfg net g D S hS hd hD hg C W K lr hlr hC hW hK gen hgen θ0
  have hB : 0 < B := by omega
  have hBr : (0 : ℝ) < B := by exact_mod_cast hB
  have hBr1 : (1 : ℝ) < B := by exact_mod_cast hB1
  have hm : 0 < mini.getD B := Nat.pos_of_dvd_of_pos hdvd hB
  have hmle : mini.getD B ≤ B := Nat.le_of_dvd hB hdvd
  obtain ⟨st0, hst0, hlenB, havg, hθ0⟩ := loop_tree h H hlen hE P hB1 mini hdvd cfg net g D S hS hD hg lr gen hgen θ0
  refine ⟨st0, hst0, hlenB, ?_⟩
  set f := B / mini.getD B with hf
  set scale : ℝ := if cfg.accumulateSum then (f : ℝ) else 1 with hscale
  set η : ℝ := lr * scale / B with hη
  have hfpos : 0 < f := Nat.div_pos hmle hm
  have hs0 : 0 < scale := by
    rw [hscale]
    split
    · exact_mod_cast hfpos
    · exact one_pos
  have hη0 : 0 < η := by positivity
  have hstep : ∀ t, tree B net (sgdNext H net D η) (energyAt H net) (t + 1) θ0 ≤
      tree B net (sgdNext H net D η) (energyAt H net) t θ0 -
        η * (1 - 1 / B) * tree B net (sgdNext H net D η) (steepness H net) t θ0 + K / 2 * η ^ 2 * (4 * n * C ^ 2 * W) := by
    intro t
    rw [tree_last, ← tree_linear]
    exact tree_le _ _ (fun θ => sgd_step h hH hB net D hd hD hC hW hK η θ) t θ0
  set V : ℝ := 4 * n * C ^ 2 * W with hV
  have hq : 0 < 1 - 1 / (B : ℝ) := by
    have : 1 / (B : ℝ) < 1 := by rw [div_lt_one hBr]; exact hBr1
    linarith
  have htotal : ∀ T, tree B net (sgdNext H net D η) (energyAt H net) T θ0 + η * (1 - 1 / B) *
      ∑ t ∈ Finset.range T, tree B net (sgdNext H net D η) (steepness H net) t θ0 ≤ energyAt H net θ0 + T * (K / 2 * η ^ 2 * V) := by
    intro T
    induction T with
    | zero => simp [tree]
    | succ T ih =>
      rw [Finset.sum_range_succ]
      have := hstep T
      push_cast
      nlinarith
  have hlow : ∀ m, (∀ θ, m ≤ energyAt H net θ) → ∀ T, m ≤ tree B net (sgdNext H net D η) (energyAt H net) T θ0 := by
    intro m hm' T
    have h1 := tree_le (B := B) net (sgdNext H net D η) (φ := fun θ => energyAt H net θ - 1 * energyAt H net θ + m) (χ := energyAt H net)
      (fun θ => by have := hm' θ; linarith) T θ0
    rw [tree_linear] at h1
    linarith
  have haverage : ∀ m, (∀ θ, m ≤ energyAt H net θ) → ∀ T, 0 < T →
      (∑ t ∈ Finset.range T, tree B net (sgdNext H net D η) (steepness H net) t θ0) / T ≤
        (energyAt H net θ0 - m) / (η * (1 - 1 / B) * T) + K / 2 * η * V / (1 - 1 / B) := by
    intro m hm' T hT
    have hTr : (0 : ℝ) < T := by exact_mod_cast hT
    have h1 := htotal T
    have h2 := hlow m hm' T
    set total := ∑ t ∈ Finset.range T, tree B net (sgdNext H net D η) (steepness H net) t θ0
    set q : ℝ := 1 - 1 / B
    have h3 : η * q * total ≤ energyAt H net θ0 - m + T * (K / 2 * η ^ 2 * V) := by linarith
    have h4 : (energyAt H net θ0 - m) / (η * q * T) + K / 2 * η * V / q =
        (energyAt H net θ0 - m + T * (K / 2 * η ^ 2 * V)) / (η * q * T) := by
      field_simp
    rw [h4, div_le_div_iff₀ hTr (by positivity)]
    nlinarith
  refine ⟨fun t => ?_, fun m hm' T hT => ?_, fun ε hε => ?_⟩
  · rw [havg (energyAt H net) (t + 1), havg (energyAt H net) t, havg (steepness H net) t]
    exact hstep t
  · simp only [havg (steepness H net)]
    rw [hθ0]
    exact haverage m hm' T hT
  · simp only [havg (steepness H net)]
    obtain ⟨m, hm'⟩ : ∃ m, ∀ θ, m ≤ energyAt H net θ := ⟨_, energyAt_bounded hH h.spins net⟩
    set gap := ε - K / 2 * η * V / (1 - 1 / B) with hgap
    have hgap0 : 0 < gap := by rw [hgap]; linarith
    obtain ⟨T₀, hT₀⟩ := exists_nat_gt ((energyAt H net θ0 - m) / (η * (1 - 1 / B)) / gap)
    refine ⟨T₀ + 1, fun T hT => ?_⟩
    have hTpos : 0 < T := by omega
    have hTr : (0 : ℝ) < T := by exact_mod_cast hTpos
    refine (haverage m hm' T hTpos).trans_lt ?_
    have h1 : (energyAt H net θ0 - m) / (η * (1 - 1 / B) * T) < gap := by
      rw [← div_div, div_lt_iff₀ hTr]
      rw [div_lt_iff₀ hgap0] at hT₀
      have h2 : (T₀ : ℝ) ≤ T := by exact_mod_cast (by omega : T₀ ≤ T)
      nlinarith
    rw [hgap] at h1
    linarith

/-! ### C145 -/

/-- **C145 with any sampler of independent samples**, for the Ising model on chains. -/
theorem C145_any_ising_chain (n : Nat) (h j : ℝ) (pbc : Bool) :
    SgdLearnsAny (tfim (chainBonds n pbc) h j) fun B logψ sample =>
      Exact.vmcCoefficients B logψ (Answer.ofRows (n + 1) (isingFindConn1 (.float h) j pbc sample)
        fun b => by rw [isingFindConn1_eq]; simp) :=
  sgdLearnsAny_of (op := fun _ sample => isingFindConn1 (.float h) j pbc sample) (Exact.rowsOf_ising_chain n h j pbc) _
    (fun s _ ψ => C06_ising_chain h j pbc (fun _ : Fin 1 => s) 0 ψ) _
    fun _ sample hs logψ => C18_ising_chain h j pbc sample hs logψ

/-- **C145 with any sampler of independent samples**, for the Ising model on grids. -/
theorem C145_any_ising_grid (n m : Nat) (h j : ℝ) (pbc : Bool) :
    SgdLearnsAny (tfim (gridBonds n m pbc) h j) fun B logψ sample =>
      Exact.vmcCoefficients B logψ (Answer.ofRows (n * m + 1) (isingFindConn2 (.float h) j pbc sample)
        fun b => by rw [isingFindConn2_eq]; simp [length_gridSites]) :=
  sgdLearnsAny_of (op := fun _ sample => isingFindConn2 (.float h) j pbc sample) (Exact.rowsOf_ising_grid n m h j pbc) _
    (fun s _ ψ => C06_ising_grid h j pbc (fun _ : Fin 1 => s) 0 ψ) _
    fun _ sample hs logψ => C18_ising_grid h j pbc sample hs logψ

/-- **C145 with any sampler of independent samples**, for the Heisenberg model on grids, whatever calls of the operator came before. -/
theorem C145_any_heisenberg_grid (n m : Nat) (rot pbc : Bool) (history : List (Call n m)) :
    SgdLearnsAny (heisenberg (gridBonds n m pbc) (if rot then -1 else 1)) fun B logψ sample =>
      Exact.vmcCoefficients B logψ (Answer.ofRows (n * m * 2 + 1) (((HeisOp.new2 n m rot pbc).run history).findConn B sample).2
        fun b => by rw [answer2]; exact length_heisRows _ _ _ (Or.inl rfl) _) :=
  sgdLearnsAny_of (op := fun B sample => (((HeisOp.new2 n m rot pbc).run history).findConn B sample).2)
    (Exact.rowsOf_heisenberg_grid n m rot pbc history) _
    (fun s hs ψ => applyRows_heisRows rot pbc 2 (Or.inl rfl) s hs ψ) _
    fun B sample hs logψ => C18_heisenberg_grid rot pbc history B sample hs logψ

/-- **C145 with any sampler of independent samples**, for the Heisenberg model on chains, whatever calls of the operator came before. -/
theorem C145_any_heisenberg_chain (n : Nat) (rot pbc : Bool) (history : List (Call n 1)) :
    SgdLearnsAny (heisenberg (chainBonds' n pbc) (if rot then -1 else 1)) fun B logψ sample =>
      Exact.vmcCoefficients B logψ (Answer.ofRows (n + 1) (((HeisOp.new1 n rot pbc).run history).findConn1 B sample).2
        fun b => by
          rw [(Exact.rowsOf_heisenberg_chain n rot pbc history).eq]
          exact (Exact.rowsOf_heisenberg_chain n rot pbc history).length _) :=
  sgdLearnsAny_of (op := fun B sample => (((HeisOp.new1 n rot pbc).run history).findConn1 B sample).2)
    (Exact.rowsOf_heisenberg_chain n rot pbc history) _
    (fun s hs ψ => by
      have := C07_heisenberg_chain rot pbc history 1 (fun _ => s) 0 hs ψ
      rwa [answer1] at this) _
    fun B sample hs logψ => C18_heisenberg_chain rot pbc history B sample hs logψ

/-! ### A case that meets the hypotheses -/

/-- One spin in a field 3, `WaveFunctionSampler` with batches of four samples, mini-batches of two. -/
example : ∃ S : (Fin 1 → ℝ) → (Fin 4 → ℝ) → Fin 4 → Config (Fin 1),
    (∀ θ, Independent (Measure.pi fun _ : Fin 4 => unif) (phaseNet θ) (S θ)) ∧
    (some 2).getD 4 ∣ 4 ∧
    (∀ s, IsSpin s → Differentiable ℝ fun θ => phaseNet θ s) ∧
    (∀ (θ : Fin 1 → ℝ) k s, IsSpin s → HasDerivAt (fun t => phaseNet (Function.update θ k t) s) (if s 0 = 1 then Complex.I else 0) (θ k)) ∧
    (∀ (θ : Fin 1 → ℝ) k s c, IsSpin s → HasDerivAt (fun t => loss c (phaseNet (Function.update θ k t) s)) (phaseGrad θ (s, c) k) (θ k)) ∧
    (∀ s : Config (Fin 1), IsSpin s → ‖(if s 0 = 1 then Complex.I else 0 : ℂ)‖ ≤ 1) ∧
    (∃ W, LengthBound (tfim (chainBonds 1 false) 3 1) W) ∧
    SlopeBound (tfim (chainBonds 1 false) 3 1) phaseNet 3 ∧
    slope (tfim (chainBonds 1 false) 3 1) phaseNet (fun _ => 1) 0 ≠ 0 := by
  choose S _ hS using fun θ : Fin 1 → ℝ => C154_wave_function (B := 4) (Equiv.refl (Fin 1)) (phaseNet θ) _ le_rfl
  refine ⟨S, hS, by decide, fun s _ => phaseNet_differentiable s, ?_, fun θ k s c _ => phaseNet_loss θ k s c, ?_, ⟨_, C145_noise_bounded
    (Exact.rowsOf_ising_chain 1 3 1 false) _ fun s _ ψ => C06_ising_chain 3 1 false (fun _ : Fin 1 => s) 0 ψ⟩, ?_, ?_⟩
  · intro θ k s hs
    rw [Subsingleton.elim k 0]
    unfold phaseNet
    simp only [Function.update_self]
    split
    · simpa using (Complex.ofRealCLM.hasDerivAt (x := θ 0)).mul_const Complex.I
    · exact hasDerivAt_const _ _
  · intro s _
    split <;> simp
  · simpa using phaseNet_bound 3 1
  · rw [phaseNet_slope]
    exact mul_ne_zero (by norm_num) (Real.sin_pos_of_pos_of_lt_pi one_pos (by linarith [Real.pi_gt_three])).ne'

end Verif.Training
