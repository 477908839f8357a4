import Verif.Training.AnySampler
import Verif.Energy.J1J2

/-!
# C158: larger batches bring plain gradient descent closer to rest

C145 bounds the plateau of stochastic gradient descent by the size of the gradients of batches, whatever the batch size. Here:
the gradient of a batch of `B` independent samples misses the derivative of the energy by a mean square error of at most a
constant times the variance of the local energies divided by `B`, and so the plateau shrinks in proportion to `1 / (B - 1)`.
-/
namespace Verif.Training

open Verif.Operators Verif.Energy Verif.Autoregressive MeasureTheory
open Verif.Energy.Exact (loss RowsOf)

variable {ι : Type} [Fintype ι] [DecidableEq ι] {n B : Nat}

/-! ### Specification -/

/-- The mean squared distance of the local energies from the energy; it is zero for eigenstates. -/
noncomputable def localSpread (H : Wave ι → Wave ι) (logψ : Config ι → ℂ) : ℝ :=
  ∑ s ∈ allSpins ι, born logψ s * ‖localEnergy H logψ s - rayleigh H fun s => Complex.exp (logψ s)‖ ^ 2

/-- C158 for the gradient of one batch: for every sampler of independent samples, every batch size and every differentiable path
of parameters with logarithmic derivatives of at most `C`, the derivative of the training loss of the batch misses the
derivative of the energy by a mean square error of at most `64 * C ^ 2` times the spread of the local energies, divided by the
batch size. -/
def GradientError (H : Wave ι → Wave ι)
    (targets : (B : Nat) → (Config ι → ℂ) → (Fin B → Config ι) → Option (List ℂ)) : Prop :=
  ∀ (Ω : Type) [MeasurableSpace Ω] (P : Measure Ω) [IsProbabilityMeasure P] (B : Nat), 0 < B →
  ∀ (net : ℝ → Config ι → ℂ) (θ : ℝ) (S : Ω → Fin B → Config ι), Independent P (net θ) S →
  ∀ (D : Config ι → ℂ), (∀ s, IsSpin s → HasDerivAt (fun t => net t s) (D s) θ) →
  ∀ C, (∀ s, IsSpin s → ‖D s‖ ≤ C) →
    ∃ (E' : ℝ) (grad : Ω → ℝ),
      HasDerivAt (fun t => (rayleigh H fun s => Complex.exp (net t s)).re) E' θ ∧
      (∀ u, ∃ c, targets B (net θ) (S u) = some c ∧ c.length = B ∧
        HasDerivAt (fun t => ∑ b : Fin B, loss (c.getD b 0) (net t (S u b))) (grad u) θ) ∧
      ∫ u, (grad u - E') ^ 2 ∂P ≤ 64 * C ^ 2 * localSpread H (net θ) / B

/-- What C158 says of training: `θ us t` are the weights after the first `t` batches if the sampler draws the random numbers
`us`; `rate` is the effective learning rate and `noise` does not depend on the batch size `B`. -/
structure ProgressByBatch {Ω : Type} [MeasurableSpace Ω] (P : Measure Ω) (B : Nat) (H : Wave ι → Wave ι)
    (net : (Fin n → ℝ) → Config ι → ℂ) (θ : List Ω → Nat → Fin n → ℝ) (rate K noise : ℝ) : Prop where
  /-- The next batch lowers the expected energy in proportion to the expected squared gradient, up to noise divided by `B`. -/
  step : ∀ t, overRuns P (t + 1) (fun us => energyAt H net (θ us (t + 1))) ≤
    overRuns P t (fun us => energyAt H net (θ us t)) -
      rate / 2 * (1 - 1 / B) * overRuns P t (fun us => steepness H net (θ us t)) + K / 2 * rate ^ 2 * (noise / B)
  /-- The squared gradients met on the way are small on average. -/
  average : ∀ m, (∀ θ, m ≤ energyAt H net θ) → ∀ T, 0 < T →
    (∑ t ∈ Finset.range T, overRuns P t (fun us => steepness H net (θ us t))) / T ≤
      2 * (energyAt H net (θ [] 0) - m) / (rate * (1 - 1 / B) * T) + K * rate * noise / (B - 1)
  /-- So after enough batches they are on average as small as the learning rate and the batch size permit. -/
  settles : ∀ ε, K * rate * noise / (B - 1) < ε → ∃ T₀, ∀ T, T₀ ≤ T →
    (∑ t ∈ Finset.range T, overRuns P t (fun us => steepness H net (θ us t))) / T < ε

/-- C158 for one operator and its training targets, in the setting of C145 (`SgdLearnsAny`); the effective learning rate must not
exceed `(1 - 1 / B) / K`. -/
def SgdSettles (H : Wave ι → Wave ι)
    (targets : (B : Nat) → (Config ι → ℂ) → (Fin B → Config ι) → Option (List ℂ)) : Prop :=
  ∀ (Ω : Type) [MeasurableSpace Ω] [Inhabited Ω] (P : Measure Ω) [IsProbabilityMeasure P]
    (B : Nat), 1 < B → ∀ mini : Option Nat, mini.getD B ∣ B →
  ∀ (n : Nat) (cfg : AccConfig) (net : (Fin n → ℝ) → Config ι → ℂ) (g : (Fin n → ℝ) → Config ι × ℂ → Fin n → ℝ)
    (D : (Fin n → ℝ) → Fin n → Config ι → ℂ) (S : (Fin n → ℝ) → Ω → Fin B → Config ι),
    (∀ θ, Independent P (net θ) (S θ)) →
    (∀ s, IsSpin s → Differentiable ℝ fun θ => net θ s) →
    (∀ θ k s, IsSpin s → HasDerivAt (fun t => net (Function.update θ k t) s) (D θ k s) (θ k)) →
    (∀ θ k s c, IsSpin s → HasDerivAt (fun t => loss c (net (Function.update θ k t) s)) (g θ (s, c) k) (θ k)) →
    ∀ C W K lr : ℝ, 0 < lr → (∀ θ k s, IsSpin s → ‖D θ k s‖ ≤ C) → LengthBound H W → SlopeBound H net K →
    lr * (if cfg.accumulateSum then ((B / mini.getD B : Nat) : ℝ) else 1) / B * K ≤ 1 - 1 / B →
    ∀ (gen : MBState Unit (Config ι × ℂ)), gen.drawn = 0 → ∀ θ0 : Fin n → ℝ,
    ∃ st0 : LoopState (Fin n → ℝ) (Fin n → ℝ) (Fin n → ℝ) Unit (Config ι × ℂ),
      setupLoop (fun _ => B) gen () mini θ0 = some st0 ∧
      (∀ us θ k, (drawFrom targets net S us θ () k).length = B) ∧
      ProgressByBatch P B H net
        (fun us t => (fitGenerator (plainSgd lr) cfg g (drawFrom targets net S us) (t * (B / mini.getD B)) st0).acc.opt)
        (lr * (if cfg.accumulateSum then ((B / mini.getD B : Nat) : ℝ) else 1) / B) K (64 * n * C ^ 2 * W)

/-! ### Mean squares -/

theorem spread_split {α : Type} (S : Finset α) (p : α → ℝ) (hp : ∑ s ∈ S, p s = 1) (f : α → ℝ) :
    ∑ s ∈ S, p s * (f s - ∑ s ∈ S, p s * f s) ^ 2 = ∑ s ∈ S, p s * (f s * f s) - (∑ s ∈ S, p s * f s) ^ 2 := by
  set μ := ∑ s ∈ S, p s * f s with hμ
  have h : ∀ s, p s * (f s - μ) ^ 2 = p s * (f s * f s) - 2 * μ * (p s * f s) + μ ^ 2 * p s := fun s => by ring
  simp only [h]
  rw [Finset.sum_add_distrib, Finset.sum_sub_distrib, ← Finset.mul_sum, ← Finset.mul_sum, hp, ← hμ]
  ring

theorem norm_sq_parts (z : ℂ) : ‖z‖ ^ 2 = z.re ^ 2 + z.im ^ 2 := by
  rw [Complex.sq_norm, Complex.normSq_apply]
  ring

theorem complex_spread {α : Type} (S : Finset α) (p : α → ℝ) (hp : ∑ s ∈ S, p s = 1) (e : α → ℂ) :
    ∑ s ∈ S, p s * ‖e s - ∑ s ∈ S, (p s : ℂ) * e s‖ ^ 2 =
      (∑ s ∈ S, p s * ((e s).re * (e s).re) - (∑ s ∈ S, p s * (e s).re) ^ 2) +
      (∑ s ∈ S, p s * ((e s).im * (e s).im) - (∑ s ∈ S, p s * (e s).im) ^ 2) := by
  rw [← spread_split S p hp, ← spread_split S p hp, ← Finset.sum_add_distrib]
  refine Finset.sum_congr rfl fun s _ => ?_
  rw [norm_sq_parts, Complex.sub_re, Complex.sub_im, Complex.re_sum, Complex.im_sum]
  simp only [Complex.re_ofReal_mul, Complex.im_ofReal_mul]
  ring

theorem expect_complex_mean {α : Type} [DecidableEq α] (S : Finset α) (p : α → ℝ) (hp : ∑ s ∈ S, p s = 1) (hB : 0 < B) (e : α → ℂ) :
    expect S p B (fun x => ‖(∑ i, e (x i)) / B - ∑ s ∈ S, (p s : ℂ) * e s‖ ^ 2) =
      (∑ s ∈ S, p s * ‖e s - ∑ s ∈ S, (p s : ℂ) * e s‖ ^ 2) / B := by
  rw [complex_spread S p hp, add_div, ← expect_mean_sq S p hp hB, ← expect_mean_sq S p hp hB, ← expect_add]
  refine congrArg _ (funext fun x => ?_)
  have hdiv : ∀ z : ℂ, (z / B).re = z.re / B ∧ (z / B).im = z.im / B := fun z => by
    constructor
    · rw [show (B : ℂ) = ((B : ℝ) : ℂ) by push_cast; rfl, Complex.div_ofReal_re]
    · rw [show (B : ℂ) = ((B : ℝ) : ℂ) by push_cast; rfl, Complex.div_ofReal_im]
  rw [norm_sq_parts, Complex.sub_re, Complex.sub_im, (hdiv _).1, (hdiv _).2, Complex.re_sum, Complex.im_sum, Complex.re_sum,
    Complex.im_sum]
  simp only [Complex.re_ofReal_mul, Complex.im_ofReal_mul]

omit [Fintype ι] [DecidableEq ι] in
/-- The gradient of a batch is an average over the samples, up to a product of two deviations. -/
theorem batchGradient_split (H : Wave ι → Wave ι) (logψ D : Config ι → ℂ) (hB : 0 < B) (μ δ : ℂ) (x : Fin B → Config ι) :
    batchGradient H logψ D x =
      (∑ b, 2 * ((starRingEnd ℂ) (localEnergy H logψ (x b) - μ) * (D (x b) - δ)).re) / B -
        2 * ((starRingEnd ℂ) ((∑ b, localEnergy H logψ (x b)) / B - μ) * ((∑ b, D (x b)) / B - δ)).re := by
  have hBC : (B : ℂ) ≠ 0 := by exact_mod_cast hB.ne'
  have h1 : ∀ z : ℂ, z.re / B = (z / B).re := fun z => by
    rw [show (B : ℂ) = ((B : ℝ) : ℂ) by push_cast; rfl, Complex.div_ofReal_re]
  unfold batchGradient
  rw [← Finset.mul_sum, ← Finset.mul_sum, mul_div_assoc, ← Complex.re_sum, ← Complex.re_sum, h1, ← mul_sub, ← Complex.sub_re]
  refine congrArg (fun z : ℂ => 2 * z.re) ?_
  simp only [map_sub, map_div₀, map_sum, map_natCast]
  set a : Fin B → ℂ := fun b => (starRingEnd ℂ) (localEnergy H logψ (x b))
  set d : Fin B → ℂ := fun b => D (x b)
  set ν := (starRingEnd ℂ) μ
  have e1 : ∀ b, (a b - (∑ c, a c) / B) / B * d b = a b * d b / B - (∑ c, a c) / B / B * d b := fun b => by ring
  have e2 : ∀ b, (a b - ν) * (d b - δ) = a b * d b - ν * d b - δ * a b + ν * δ := fun b => by ring
  change ∑ b, (a b - (∑ c, a c) / B) / B * d b = (∑ b, (a b - ν) * (d b - δ)) / B - ((∑ b, a b) / B - ν) * ((∑ b, d b) / B - δ)
  simp only [e1, e2]
  rw [Finset.sum_sub_distrib, Finset.sum_add_distrib, Finset.sum_sub_distrib, Finset.sum_sub_distrib, ← Finset.sum_div,
    ← Finset.mul_sum, ← Finset.mul_sum, ← Finset.mul_sum, Finset.sum_const, Finset.card_univ, Fintype.card_fin, nsmul_eq_mul]
  field_simp
  ring

theorem re_sq_le (a b : ℂ) : (2 * ((starRingEnd ℂ) a * b).re) ^ 2 ≤ 4 * ‖b‖ ^ 2 * ‖a‖ ^ 2 := by
  have h1 := Complex.abs_re_le_norm ((starRingEnd ℂ) a * b)
  rw [norm_mul, RCLike.norm_conj] at h1
  have h2 : (((starRingEnd ℂ) a * b).re) ^ 2 ≤ (‖a‖ * ‖b‖) ^ 2 := sq_le_sq' (by linarith [(abs_le.1 h1).1]) (abs_le.1 h1).2
  nlinarith

theorem norm_mean_le (logψ D : Config ι → ℂ) {C : ℝ} (hC : ∀ s, IsSpin s → ‖D s‖ ≤ C) :
    ‖∑ s ∈ allSpins ι, (born logψ s : ℂ) * D s‖ ≤ C := by
  refine (norm_sum_le _ _).trans ?_
  calc ∑ s ∈ allSpins ι, ‖(born logψ s : ℂ) * D s‖ ≤ ∑ s ∈ allSpins ι, born logψ s * C := by
        refine Finset.sum_le_sum fun s hs => ?_
        rw [norm_mul, Complex.norm_real, Real.norm_of_nonneg (born_nonneg logψ s)]
        exact mul_le_mul_of_nonneg_left (hC s ((mem_allSpins s).1 hs)) (born_nonneg logψ s)
    _ = C := by rw [← Finset.sum_mul, born_sum, one_mul]

omit [Fintype ι] [DecidableEq ι] in
theorem norm_batch_mean_le (D : Config ι → ℂ) {C : ℝ} (hC : ∀ s, IsSpin s → ‖D s‖ ≤ C) (hB : 0 < B) (x : Fin B → Config ι)
    (hx : ∀ b, IsSpin (x b)) : ‖(∑ b, D (x b)) / B‖ ≤ C := by
  have hBr : (0 : ℝ) < B := by exact_mod_cast hB
  rw [norm_div, Complex.norm_natCast, div_le_iff₀ hBr]
  refine (norm_sum_le _ _).trans ((Finset.sum_le_sum fun b _ => hC _ (hx b)).trans (le_of_eq ?_))
  rw [Finset.sum_const, Finset.card_univ, Fintype.card_fin, nsmul_eq_mul]
  ring

theorem localSpread_nonneg (H : Wave ι → Wave ι) (logψ : Config ι → ℂ) : 0 ≤ localSpread H logψ :=
  Finset.sum_nonneg fun s _ => mul_nonneg (born_nonneg logψ s) (by positivity)

theorem localSpread_le {H : Wave ι → Wave ι} {W : ℝ} (hW : LengthBound H W) (logψ : Config ι → ℂ) : localSpread H logψ ≤ W := by
  refine le_trans ?_ (mean_localEnergy_sq hW logψ)
  unfold localSpread
  rw [rayleigh_born, complex_spread _ _ (born_sum logψ)]
  have h : ∀ s, born logψ s * ‖localEnergy H logψ s‖ ^ 2 = born logψ s * ((localEnergy H logψ s).re * (localEnergy H logψ s).re) +
      born logψ s * ((localEnergy H logψ s).im * (localEnergy H logψ s).im) := fun s => by rw [norm_sq_parts]; ring
  simp only [h]
  rw [Finset.sum_add_distrib]
  have := sq_nonneg (∑ s ∈ allSpins ι, born logψ s * (localEnergy H logψ s).re)
  have := sq_nonneg (∑ s ∈ allSpins ι, born logψ s * (localEnergy H logψ s).im)
  linarith

/-- The mean square error of the gradient of a batch. -/
theorem expect_error (H : Wave ι → Wave ι) (logψ D : Config ι → ℂ) {C : ℝ} (hC : ∀ s, IsSpin s → ‖D s‖ ≤ C) (hB : 0 < B) :
    expect (allSpins ι) (born logψ) B (fun x => (batchGradient H logψ D x -
      2 * (∑ s ∈ allSpins ι, (born logψ s : ℂ) * ((starRingEnd ℂ) (localEnergy H logψ s) * D s) -
        (∑ s ∈ allSpins ι, (born logψ s : ℂ) * (starRingEnd ℂ) (localEnergy H logψ s)) *
          ∑ s ∈ allSpins ι, (born logψ s : ℂ) * D s).re) ^ 2) ≤ 64 * C ^ 2 * localSpread H logψ / B := by
  have hBr : (0 : ℝ) < B := by exact_mod_cast hB
  have hp := born_sum logψ
  have hpC : ∑ s ∈ allSpins ι, (born logψ s : ℂ) = 1 := by rw [← Complex.ofReal_sum, hp]; simp
  set e := localEnergy H logψ with he
  set μ : ℂ := ∑ s ∈ allSpins ι, (born logψ s : ℂ) * e s with hμ
  set δ : ℂ := ∑ s ∈ allSpins ι, (born logψ s : ℂ) * D s with hδ
  have hV : localSpread H logψ = ∑ s ∈ allSpins ι, born logψ s * ‖e s - μ‖ ^ 2 := by
    unfold localSpread
    rw [rayleigh_born]
  set F : Config ι → ℝ := fun s => 2 * ((starRingEnd ℂ) (e s - μ) * (D s - δ)).re with hF
  have hc : 2 * (∑ s ∈ allSpins ι, (born logψ s : ℂ) * ((starRingEnd ℂ) (e s) * D s) -
      (∑ s ∈ allSpins ι, (born logψ s : ℂ) * (starRingEnd ℂ) (e s)) * δ).re = ∑ s ∈ allSpins ι, born logψ s * F s := by
    have h1 : ∀ s, born logψ s * F s = 2 * ((born logψ s : ℂ) * ((starRingEnd ℂ) (e s - μ) * (D s - δ))).re := fun s => by
      rw [Complex.re_ofReal_mul, hF]
      ring
    simp only [h1]
    rw [← Finset.mul_sum, ← Complex.re_sum]
    refine congrArg (fun z : ℂ => 2 * z.re) ?_
    have h2 : ∀ s, (born logψ s : ℂ) * ((starRingEnd ℂ) (e s - μ) * (D s - δ)) =
        (born logψ s : ℂ) * ((starRingEnd ℂ) (e s) * D s) - δ * ((born logψ s : ℂ) * (starRingEnd ℂ) (e s)) -
          (starRingEnd ℂ) μ * ((born logψ s : ℂ) * D s) + (starRingEnd ℂ) μ * δ * (born logψ s : ℂ) := fun s => by
      rw [map_sub]
      ring
    simp only [h2]
    rw [Finset.sum_add_distrib, Finset.sum_sub_distrib, Finset.sum_sub_distrib, ← Finset.mul_sum, ← Finset.mul_sum, ← Finset.mul_sum,
      hpC, ← hδ]
    ring
  rw [hc]
  set c := ∑ s ∈ allSpins ι, born logψ s * F s with hcdef
  have hδn : ‖δ‖ ≤ C := norm_mean_le logψ D hC
  have hsub : ∀ z : ℂ, ‖z‖ ≤ C → ‖z - δ‖ ^ 2 ≤ 4 * C ^ 2 := fun z hz => by
    have h1 := norm_sub_le z δ
    have h2 := norm_nonneg (z - δ)
    nlinarith
  have hFsq : ∀ s, IsSpin s → F s * F s ≤ 16 * C ^ 2 * ‖e s - μ‖ ^ 2 := fun s hs => by
    have h1 := re_sq_le (e s - μ) (D s - δ)
    have h2 := mul_le_mul_of_nonneg_right (hsub _ (hC s hs)) (sq_nonneg ‖e s - μ‖)
    have h3 : F s * F s = (2 * ((starRingEnd ℂ) (e s - μ) * (D s - δ)).re) ^ 2 := by rw [hF]; ring
    rw [h3]
    nlinarith
  have hpt : ∀ x : Fin B → Config ι, (∀ b, x b ∈ allSpins ι) → (batchGradient H logψ D x - c) ^ 2 ≤
      2 * ((∑ b, F (x b)) / B - c) ^ 2 + 32 * C ^ 2 * ‖(∑ b, e (x b)) / B - μ‖ ^ 2 := by
    intro x hx
    rw [batchGradient_split H logψ D hB μ δ x]
    have h1 := re_sq_le ((∑ b, e (x b)) / B - μ) ((∑ b, D (x b)) / B - δ)
    have h2 := mul_le_mul_of_nonneg_right (hsub _ (norm_batch_mean_le D hC hB x fun b => (mem_allSpins _).1 (hx b)))
      (sq_nonneg ‖(∑ b, e (x b)) / B - μ‖)
    change ((∑ b, F (x b)) / B - 2 * ((starRingEnd ℂ) ((∑ b, e (x b)) / B - μ) * ((∑ b, D (x b)) / B - δ)).re - c) ^ 2 ≤ _
    set r := 2 * ((starRingEnd ℂ) ((∑ b, e (x b)) / B - μ) * ((∑ b, D (x b)) / B - δ)).re
    set A := (∑ b, F (x b)) / (B : ℝ)
    nlinarith [sq_nonneg (A - c + r)]
  refine (expect_le (born_nonneg logψ) hpt).trans ?_
  rw [expect_add, expect_mul, expect_mul, expect_mean_sq _ _ hp hB, expect_complex_mean _ _ hp hB, ← hμ, ← hV]
  have h1 : ∑ s ∈ allSpins ι, born logψ s * (F s * F s) ≤ 16 * C ^ 2 * localSpread H logψ := by
    rw [hV, Finset.mul_sum]
    refine Finset.sum_le_sum fun s hs => ?_
    have := mul_le_mul_of_nonneg_left (hFsq s ((mem_allSpins s).1 hs)) (born_nonneg logψ s)
    linarith
  rw [mul_div_assoc', mul_div_assoc', ← add_div]
  refine div_le_div_of_nonneg_right ?_ hBr.le
  have := sq_nonneg c
  linarith

/-! ### One step -/

/-- The expected squared length of the gradient of a batch. -/
theorem expect_noise_batch {op : (B : Nat) → (Fin B → Config ι) → Fin B → List (Row ι ℝ)} {R : Nat}
    {rowsOf : Config ι → List (Row ι ℝ)} (h : RowsOf op R rowsOf) {H : Wave ι → Wave ι}
    (hH : ∀ s, IsSpin s → ∀ ψ, applyRows (rowsOf s) ψ = H ψ s) (hB : 0 < B)
    (net : (Fin n → ℝ) → Config ι → ℂ) (D : (Fin n → ℝ) → Fin n → Config ι → ℂ)
    (hD : ∀ θ k s, IsSpin s → HasDerivAt (fun t => net (Function.update θ k t) s) (D θ k s) (θ k))
    {C W : ℝ} (hC : ∀ θ k s, IsSpin s → ‖D θ k s‖ ≤ C) (hW : LengthBound H W) (θ : Fin n → ℝ) :
    expect (allSpins ι) (born (net θ)) B (fun S => ∑ k, batchGradient H (net θ) (D θ k) S ^ 2) ≤
      steepness H net θ + 64 * n * C ^ 2 * W / B := by
  have hBr : (0 : ℝ) < B := by exact_mod_cast hB
  have hgrad : ∀ k, HasDerivAt (fun t => energyAt H net (Function.update θ k t)) (2 * (∑ s ∈ allSpins ι, (born (net θ) s : ℂ) *
      ((starRingEnd ℂ) (localEnergy H (net θ) s) * D θ k s) - (∑ s ∈ allSpins ι, (born (net θ) s : ℂ) *
      (starRingEnd ℂ) (localEnergy H (net θ) s)) * ∑ s ∈ allSpins ι, (born (net θ) s : ℂ) * D θ k s).re) (θ k) := by
    intro k
    have h1 := rayleigh_deriv h H hH (fun t => net (Function.update θ k t)) (D θ k) (θ k) fun s hs => hD θ k s hs
    simp only [Function.update_eq_self] at h1
    exact h1
  have hs : ∀ k, slope H net θ k = _ := fun k => ((hgrad k).differentiableAt.hasDerivAt).unique (hgrad k)
  rw [expect_sum]
  have hk : ∀ k, expect (allSpins ι) (born (net θ)) B (fun S => batchGradient H (net θ) (D θ k) S ^ 2) ≤
      slope H net θ k ^ 2 + 64 * C ^ 2 * W / B := by
    intro k
    have h1 := expect_error H (net θ) (D θ k) (hC θ k) hB
    have h2 := expect_batchGradient H (net θ) (D θ k) hB
    rw [← hs k] at h1 h2
    set c := slope H net θ k
    have h3 : (fun S : Fin B → Config ι => (batchGradient H (net θ) (D θ k) S - c) ^ 2) = fun S =>
        batchGradient H (net θ) (D θ k) S ^ 2 + ((-(2 * c)) * batchGradient H (net θ) (D θ k) S + c ^ 2) := by
      funext S
      ring
    rw [h3, expect_add, expect_add, expect_mul, expect_const (born_sum _), h2] at h1
    have h4 : 64 * C ^ 2 * localSpread H (net θ) / B ≤ 64 * C ^ 2 * W / B :=
      div_le_div_of_nonneg_right (mul_le_mul_of_nonneg_left (localSpread_le hW _) (by positivity)) hBr.le
    have h5 : 0 ≤ 1 / (B : ℝ) * c ^ 2 := by positivity
    nlinarith
  refine (Finset.sum_le_sum fun k _ => hk k).trans (le_of_eq ?_)
  rw [Finset.sum_add_distrib, Finset.sum_const, Finset.card_univ, Fintype.card_fin, nsmul_eq_mul]
  unfold steepness
  ring

theorem steepness_nonneg (H : Wave ι → Wave ι) (net : (Fin n → ℝ) → Config ι → ℂ) (θ : Fin n → ℝ) : 0 ≤ steepness H net θ :=
  Finset.sum_nonneg fun _ _ => sq_nonneg _

/-! ### C158 for the operators -/

theorem gradientError_of {op : (B : Nat) → (Fin B → Config ι) → Fin B → List (Row ι ℝ)} {R : Nat}
    {rowsOf : Config ι → List (Row ι ℝ)} (h : RowsOf op R rowsOf) (H : Wave ι → Wave ι)
    (hH : ∀ s, IsSpin s → ∀ ψ, applyRows (rowsOf s) ψ = H ψ s)
    (hlen : ∀ B (sample : Fin B → Config ι) b, (op B sample b).length = R)
    (hE : ∀ B (sample : Fin B → Config ι), (∀ b, IsSpin (sample b)) → ∀ logψ,
      LocalEnergies H sample logψ (estimate logψ (Answer.ofRows R (op B sample) (hlen B sample)))) :
    GradientError H fun B logψ sample => Exact.vmcCoefficients B logψ (Answer.ofRows R (op B sample) (hlen B sample)) := by
  intro Ω _ P _ B hB net θ S hS D hD C hC
  refine ⟨_, fun u => batchGradient H (net θ) D (S u), rayleigh_deriv h H hH net D θ hD, fun u => ⟨_, targets_of h (hlen B) (net θ) (S u)
    (hE B (S u) (hS.spins u) (net θ)), by simp, ?_⟩, ?_⟩
  · unfold batchGradient
    refine HasDerivAt.fun_sum fun b _ => ?_
    have hget : ((List.finRange B).map fun b => (starRingEnd ℂ) (localEnergy H (net θ) (S u b) -
          (∑ a, localEnergy H (net θ) (S u a)) / B) / (B : ℂ)).getD b 0 = (starRingEnd ℂ) (localEnergy H (net θ) (S u b) -
          (∑ a, localEnergy H (net θ) (S u a)) / B) / (B : ℂ) := by
      simp [List.getD_eq_getElem?_getD]
    rw [hget]
    have h1 := Complex.reCLM.hasFDerivAt.comp_hasDerivAt θ ((hD _ (hS.spins u b)).mul_const ((starRingEnd ℂ) (localEnergy H (net θ) (S u b) -
          (∑ a, localEnergy H (net θ) (S u a)) / B) / (B : ℂ)))
    have h2 := h1.const_mul (2 : ℝ)
    rw [mul_comm ((starRingEnd ℂ) _ / (B : ℂ))]
    exact h2
  · exact (hS.integral fun x => (batchGradient H (net θ) D x - _) ^ 2).le.trans (expect_error H (net θ) D hC hB)

/-- Training on samples of `sampled`, if the distribution of the next weights is the one with samples of the trained model. -/
theorem settles_core {op : (B : Nat) → (Fin B → Config ι) → Fin B → List (Row ι ℝ)} {R : Nat}
    {rowsOf : Config ι → List (Row ι ℝ)} (h : RowsOf op R rowsOf) (H : Wave ι → Wave ι)
    (hH : ∀ s, IsSpin s → ∀ ψ, applyRows (rowsOf s) ψ = H ψ s)
    (hlen : ∀ B (sample : Fin B → Config ι) b, (op B sample b).length = R)
    (hE : ∀ B (sample : Fin B → Config ι), (∀ b, IsSpin (sample b)) → ∀ logψ,
      LocalEnergies H sample logψ (estimate logψ (Answer.ofRows R (op B sample) (hlen B sample))))
    {Ω : Type} [MeasurableSpace Ω] [Inhabited Ω] (P : Measure Ω) [IsProbabilityMeasure P] (B : Nat) (hB1 : 1 < B) (mini : Option Nat)
    (hdvd : mini.getD B ∣ B) (n : Nat) (cfg : AccConfig) {sampled : (Fin n → ℝ) → Config ι → ℂ} (net : (Fin n → ℝ) → Config ι → ℂ)
    (g : (Fin n → ℝ) → Config ι × ℂ → Fin n → ℝ) (D : (Fin n → ℝ) → Fin n → Config ι → ℂ) (S : (Fin n → ℝ) → Ω → Fin B → Config ι)
    (hS : ∀ θ, Independent P (sampled θ) (S θ))
    (hexp : ∀ η θ (φ : (Fin n → ℝ) → ℝ), expect (allSpins ι) (born (sampled θ)) B (fun x => φ (sgdNext H net D η θ x)) =
      expect (allSpins ι) (born (net θ)) B fun x => φ (sgdNext H net D η θ x))
    (hd : ∀ s, IsSpin s → Differentiable ℝ fun θ => net θ s)
    (hD : ∀ θ k s, IsSpin s → HasDerivAt (fun t => net (Function.update θ k t) s) (D θ k s) (θ k))
    (hg : ∀ θ k s c, IsSpin s → HasDerivAt (fun t => loss c (net (Function.update θ k t) s)) (g θ (s, c) k) (θ k))
    (C W K lr : ℝ) (hlr : 0 < lr) (hC : ∀ θ k s, IsSpin s → ‖D θ k s‖ ≤ C) (hW : LengthBound H W) (hK : SlopeBound H net K)
    (hrate : lr * (if cfg.accumulateSum then ((B / mini.getD B : Nat) : ℝ) else 1) / B * K ≤ 1 - 1 / B)
    (gen : MBState Unit (Config ι × ℂ)) (hgen : gen.drawn = 0) (θ0 : Fin n → ℝ) :
    ∃ st0 : LoopState (Fin n → ℝ) (Fin n → ℝ) (Fin n → ℝ) Unit (Config ι × ℂ),
      setupLoop (fun _ => B) gen () mini θ0 = some st0 ∧
      (∀ us θ k, (drawFrom (fun B logψ sample => Exact.vmcCoefficients B logψ (Answer.ofRows R (op B sample) (hlen B sample)))
        net S us θ () k).length = B) ∧
      ProgressByBatch P B H net
        (fun us t => (fitGenerator (plainSgd lr) cfg g
          (drawFrom (fun B logψ sample => Exact.vmcCoefficients B logψ (Answer.ofRows R (op B sample) (hlen B sample))) net S us)
          (t * (B / mini.getD B)) st0).acc.opt)
        (lr * (if cfg.accumulateSum then ((B / mini.getD B : Nat) : ℝ) else 1) / B) K (64 * n * C ^ 2 * W) := by
  have hB : 0 < B := by omega
  have hBr : (0 : ℝ) < B := by exact_mod_cast hB
  have hBr1 : (1 : ℝ) < B := by exact_mod_cast hB1
  have hm : 0 < mini.getD B := Nat.pos_of_dvd_of_pos hdvd hB
  have hmle : mini.getD B ≤ B := Nat.le_of_dvd hB hdvd
  obtain ⟨st0, hst0, hlenB, havg, hθ0⟩ := loop_tree h H hlen hE P hB1 mini hdvd cfg net g D S hS hD hg lr gen hgen θ0
  have htree : ∀ η (φ : (Fin n → ℝ) → ℝ) t θ, tree B sampled (sgdNext H net D η) φ t θ = tree B net (sgdNext H net D η) φ t θ := by
    intro η φ t
    induction t with
    | zero => intro θ; rfl
    | succ t ih =>
      intro θ
      simp only [tree]
      rw [show (fun S => tree B sampled (sgdNext H net D η) φ t (sgdNext H net D η θ S)) =
        fun S => tree B net (sgdNext H net D η) φ t (sgdNext H net D η θ S) from funext fun S => ih _]
      exact hexp η θ (tree B net (sgdNext H net D η) φ t)
  simp only [htree] at havg
  refine ⟨st0, hst0, hlenB, ?_⟩
  set f := B / mini.getD B with hf
  set scale : ℝ := if cfg.accumulateSum then (f : ℝ) else 1 with hscale
  set η : ℝ := lr * scale / B with hη
  have hfpos : 0 < f := Nat.div_pos hmle hm
  have hs0 : 0 < scale := by
    rw [hscale]
    split
    · exact_mod_cast hfpos
    · exact one_pos
  have hη0 : 0 < η := by positivity
  have hq : 0 < 1 - 1 / (B : ℝ) := by
    have : 1 / (B : ℝ) < 1 := by rw [div_lt_one hBr]; exact hBr1
    linarith
  set V : ℝ := 64 * n * C ^ 2 * W with hV
  have hone : ∀ θ, expect (allSpins ι) (born (net θ)) B (fun S => energyAt H net (sgdNext H net D η θ S)) ≤
      energyAt H net θ - η / 2 * (1 - 1 / B) * steepness H net θ + K / 2 * η ^ 2 * (V / B) := by
    intro θ
    have h1 := sgd_step_raw h hH hB net D hd hD hK η θ
    have h2 := mul_le_mul_of_nonneg_left (expect_noise_batch h hH hB net D hD hC hW θ) (by have := hK.1; positivity : 0 ≤ K / 2 * η ^ 2)
    have h3 := mul_le_mul_of_nonneg_right hrate (mul_nonneg (half_pos hη0).le (steepness_nonneg H net θ))
    rw [← hV] at h2
    nlinarith
  have hstep : ∀ t, tree B net (sgdNext H net D η) (energyAt H net) (t + 1) θ0 ≤
      tree B net (sgdNext H net D η) (energyAt H net) t θ0 -
        η / 2 * (1 - 1 / B) * tree B net (sgdNext H net D η) (steepness H net) t θ0 + K / 2 * η ^ 2 * (V / B) := by
    intro t
    rw [tree_last, ← tree_linear]
    exact tree_le _ _ hone t θ0
  have htotal : ∀ T, tree B net (sgdNext H net D η) (energyAt H net) T θ0 + η / 2 * (1 - 1 / B) *
      ∑ t ∈ Finset.range T, tree B net (sgdNext H net D η) (steepness H net) t θ0 ≤
        energyAt H net θ0 + T * (K / 2 * η ^ 2 * (V / B)) := by
    intro T
    induction T with
    | zero => simp [tree]
    | succ T ih =>
      rw [Finset.sum_range_succ]
      have := hstep T
      push_cast
      nlinarith
  have hlow : ∀ m, (∀ θ, m ≤ energyAt H net θ) → ∀ T, m ≤ tree B net (sgdNext H net D η) (energyAt H net) T θ0 := by
    intro m hm' T
    have h1 := tree_le (B := B) net (sgdNext H net D η) (φ := fun θ => energyAt H net θ - 1 * energyAt H net θ + m) (χ := energyAt H net)
      (fun θ => by have := hm' θ; linarith) T θ0
    rw [tree_linear] at h1
    linarith
  have haverage : ∀ m, (∀ θ, m ≤ energyAt H net θ) → ∀ T, 0 < T →
      (∑ t ∈ Finset.range T, tree B net (sgdNext H net D η) (steepness H net) t θ0) / T ≤
        2 * (energyAt H net θ0 - m) / (η * (1 - 1 / B) * T) + K * η * V / (B - 1) := by
    intro m hm' T hT
    have hTr : (0 : ℝ) < T := by exact_mod_cast hT
    have h1 := htotal T
    have h2 := hlow m hm' T
    set total := ∑ t ∈ Finset.range T, tree B net (sgdNext H net D η) (steepness H net) t θ0
    have hB1' : (0 : ℝ) < B - 1 := by linarith
    have hqB : (B : ℝ) - 1 = (1 - 1 / B) * B := by field_simp
    rw [hqB]
    set q : ℝ := 1 - 1 / B
    have h3 : η / 2 * q * total ≤ energyAt H net θ0 - m + T * (K / 2 * η ^ 2 * (V / B)) := by linarith
    have h4 : 2 * (energyAt H net θ0 - m) / (η * q * T) + K * η * V / (q * B) =
        2 * (energyAt H net θ0 - m + T * (K / 2 * η ^ 2 * (V / B))) / (η * q * T) := by
      field_simp
    rw [h4, div_le_div_iff₀ hTr (by positivity)]
    nlinarith
  refine ⟨fun t => ?_, fun m hm' T hT => ?_, fun ε hε => ?_⟩
  · rw [havg (energyAt H net) (t + 1), havg (energyAt H net) t, havg (steepness H net) t]
    exact hstep t
  · simp only [havg (steepness H net)]
    rw [hθ0]
    exact haverage m hm' T hT
  · simp only [havg (steepness H net)]
    obtain ⟨m, hm'⟩ : ∃ m, ∀ θ, m ≤ energyAt H net θ := ⟨_, energyAt_bounded hH h.spins net⟩
    set gap := ε - K * η * V / (B - 1) with hgap
    have hgap0 : 0 < gap := by rw [hgap]; linarith
    obtain ⟨T₀, hT₀⟩ := exists_nat_gt (2 * (energyAt H net θ0 - m) / (η * (1 - 1 / B)) / gap)
    refine ⟨T₀ + 1, fun T hT => ?_⟩
    have hTpos : 0 < T := by omega
    have hTr : (0 : ℝ) < T := by exact_mod_cast hTpos
    refine (haverage m hm' T hTpos).trans_lt ?_
    have h1 : 2 * (energyAt H net θ0 - m) / (η * (1 - 1 / B) * T) < gap := by
      rw [← div_div, div_lt_iff₀ hTr]
      rw [div_lt_iff₀ hgap0] at hT₀
      have h2 : (T₀ : ℝ) ≤ T := by exact_mod_cast (by omega : T₀ ≤ T)
      nlinarith
    rw [hgap] at h1
    linarith

theorem sgdSettles_of {op : (B : Nat) → (Fin B → Config ι) → Fin B → List (Row ι ℝ)} {R : Nat}
    {rowsOf : Config ι → List (Row ι ℝ)} (h : RowsOf op R rowsOf) (H : Wave ι → Wave ι)
    (hH : ∀ s, IsSpin s → ∀ ψ, applyRows (rowsOf s) ψ = H ψ s)
    (hlen : ∀ B (sample : Fin B → Config ι) b, (op B sample b).length = R)
    (hE : ∀ B (sample : Fin B → Config ι), (∀ b, IsSpin (sample b)) → ∀ logψ,
      LocalEnergies H sample logψ (estimate logψ (Answer.ofRows R (op B sample) (hlen B sample)))) :
    SgdSettles H fun B logψ sample => Exact.vmcCoefficients B logψ (Answer.ofRows R (op B sample) (hlen B sample)) := by
  intro Ω _ _ P _ B hB1 mini hdvd n cfg net g D S hS hd hD hg C W K lr hlr hC hW hK hrate gen hgen θ0
  exact settles_core h H hH hlen hE P B hB1 mini hdvd n cfg net g D S hS (fun _ _ _ => rfl) hd hD hg C W K lr hlr hC hW hK hrate gen hgen θ0

theorem gradientError_congr {H : Wave ι → Wave ι} {t t' : (B : Nat) → (Config ι → ℂ) → (Fin B → Config ι) → Option (List ℂ)}
    (h : ∀ B, 0 < B → ∀ logψ sample, (∀ b, IsSpin (sample b)) → t' B logψ sample = t B logψ sample)
    (hM : GradientError H t) : GradientError H t' := by
  intro Ω _ P _ B hB net θ S hS D hD C hC
  obtain ⟨E', grad, h1, h2, h3⟩ := hM Ω P B hB net θ S hS D hD C hC
  exact ⟨E', grad, h1, fun u => by rw [h B hB _ _ (hS.spins u)]; exact h2 u, h3⟩

theorem sgdSettles_congr {H : Wave ι → Wave ι} {t t' : (B : Nat) → (Config ι → ℂ) → (Fin B → Config ι) → Option (List ℂ)}
    (h : ∀ B, 0 < B → ∀ logψ sample, (∀ b, IsSpin (sample b)) → t' B logψ sample = t B logψ sample)
    (hM : SgdSettles H t) : SgdSettles H t' := by
  intro Ω _ _ P _ B hB1 mini hdvd n cfg net g D S hS hd hD hg C W K lr hlr hC hW hK hrate gen hgen θ0
  have hdraw : ∀ us, drawFrom t' net S us = drawFrom t net S us := by
    intro us
    funext θ _ k
    unfold drawFrom
    rw [h B (by omega) _ _ ((hS θ).spins _)]
  have := hM Ω P B hB1 mini hdvd n cfg net g D S hS hd hD hg C W K lr hlr hC hW hK hrate gen hgen θ0
  simp only [hdraw]
  exact this

/-! ### C158: the gradient of a batch -/

/-- **C158, the gradient of a batch**, for the Ising model on chains. -/
theorem C158_gradient_ising_chain (n : Nat) (h j : ℝ) (pbc : Bool) :
    GradientError (tfim (chainBonds n pbc) h j) fun B logψ sample =>
      Exact.vmcCoefficients B logψ (Answer.ofRows (n + 1) (isingFindConn1 (.float h) j pbc sample)
        fun b => by rw [isingFindConn1_eq]; simp) :=
  gradientError_of (op := fun _ sample => isingFindConn1 (.float h) j pbc sample) (Exact.rowsOf_ising_chain n h j pbc) _
    (fun s _ ψ => C06_ising_chain h j pbc (fun _ : Fin 1 => s) 0 ψ) _
    fun _ sample hs logψ => C18_ising_chain h j pbc sample hs logψ

/-- **C158, the gradient of a batch**, for the Ising model on grids. -/
theorem C158_gradient_ising_grid (n m : Nat) (h j : ℝ) (pbc : Bool) :
    GradientError (tfim (gridBonds n m pbc) h j) fun B logψ sample =>
      Exact.vmcCoefficients B logψ (Answer.ofRows (n * m + 1) (isingFindConn2 (.float h) j pbc sample)
        fun b => by rw [isingFindConn2_eq]; simp [length_gridSites]) :=
  gradientError_of (op := fun _ sample => isingFindConn2 (.float h) j pbc sample) (Exact.rowsOf_ising_grid n m h j pbc) _
    (fun s _ ψ => C06_ising_grid h j pbc (fun _ : Fin 1 => s) 0 ψ) _
    fun _ sample hs logψ => C18_ising_grid h j pbc sample hs logψ

/-- **C158, the gradient of a batch**, for the Heisenberg model on grids, whatever calls of the operator came before. -/
theorem C158_gradient_heisenberg_grid (n m : Nat) (rot pbc : Bool) (history : List (Call n m)) :
    GradientError (heisenberg (gridBonds n m pbc) (if rot then -1 else 1)) fun B logψ sample =>
      Exact.vmcCoefficients B logψ (Answer.ofRows (n * m * 2 + 1) (((HeisOp.new2 n m rot pbc).run history).findConn B sample).2
        fun b => by rw [answer2]; exact length_heisRows _ _ _ (Or.inl rfl) _) :=
  gradientError_of (op := fun B sample => (((HeisOp.new2 n m rot pbc).run history).findConn B sample).2)
    (Exact.rowsOf_heisenberg_grid n m rot pbc history) _
    (fun s hs ψ => applyRows_heisRows rot pbc 2 (Or.inl rfl) s hs ψ) _
    fun B sample hs logψ => C18_heisenberg_grid rot pbc history B sample hs logψ

/-- **C158, the gradient of a batch**, for the Heisenberg model on chains, whatever calls of the operator came before. -/
theorem C158_gradient_heisenberg_chain (n : Nat) (rot pbc : Bool) (history : List (Call n 1)) :
    GradientError (heisenberg (chainBonds' n pbc) (if rot then -1 else 1)) fun B logψ sample =>
      Exact.vmcCoefficients B logψ (Answer.ofRows (n + 1) (((HeisOp.new1 n rot pbc).run history).findConn1 B sample).2
        fun b => by
          rw [(Exact.rowsOf_heisenberg_chain n rot pbc history).eq]
          exact (Exact.rowsOf_heisenberg_chain n rot pbc history).length _) :=
  gradientError_of (op := fun B sample => (((HeisOp.new1 n rot pbc).run history).findConn1 B sample).2)
    (Exact.rowsOf_heisenberg_chain n rot pbc history) _
    (fun s hs ψ => by
      have := C07_heisenberg_chain rot pbc history 1 (fun _ => s) 0 hs ψ
      rwa [answer1] at this) _
    fun B sample hs logψ => C18_heisenberg_chain rot pbc history B sample hs logψ

open Verif.J1J2.Op in
/-- **C158, the gradient of a batch**, for J1-J2 on lattices of any size (periodic ones from three by three), whatever calls of the operator
came before. -/
theorem C158_gradient_j1j2 (first : ℤ) (hf : first = 1 ∨ first = -1) {L1 L2 : Nat} (h1 : 0 < L1) (h2 : 0 < L2) (j2 : ℝ) (pbc : Bool)
    (hL : pbc = true → 3 ≤ L1 ∧ 3 ≤ L2) (history : List (List Netket.Conf)) :
    GradientError (hamiltonian L1 L2 pbc j2) (j1j2Targets first L1 L2 j2 pbc history) :=
  gradientError_congr (fun _ hB logψ sample hs => targets_clean first hf h1 h2 j2 pbc hL history hB sample hs logψ)
    (gradientError_of (rowsOf_clean first hf h1 h2 j2 pbc hL) _ (cleanRows_apply first hf h1 h2 j2 pbc hL)
      (fun _ sample b => cleanRows_length first h2 j2 pbc (sample b)) fun _ sample hs logψ =>
        localEnergies_of _ sample hs logψ _ (clean_values first hf h1 h2 j2 pbc hL sample hs logψ))

/-- **C158, eigenstates**: the local energies of an eigenstate have no spread, so that the gradients of batches of any size are
almost surely exact. -/
theorem C158_eigenstate (H : Wave ι → Wave ι) (logψ : Config ι → ℂ) (E : ℂ)
    (hE : ∀ s, IsSpin s → H (fun s => Complex.exp (logψ s)) s = E * Complex.exp (logψ s)) : localSpread H logψ = 0 := by
  have h1 : ∀ s, IsSpin s → localEnergy H logψ s = E := fun s hs => by
    unfold localEnergy
    rw [hE s hs, mul_div_assoc, div_self (Complex.exp_ne_zero _), mul_one]
  have h2 : (rayleigh H fun s => Complex.exp (logψ s)) = E := by
    rw [rayleigh_born, Finset.sum_congr rfl fun s hs => by rw [h1 s ((mem_allSpins s).1 hs)], ← Finset.sum_mul, ← Complex.ofReal_sum,
      born_sum, Complex.ofReal_one, one_mul]
  unfold localSpread
  refine Finset.sum_eq_zero fun s hs => ?_
  rw [h1 s ((mem_allSpins s).1 hs), h2, sub_self, norm_zero]
  ring

/-! ### C158: training -/

/-- **C158, training**, for the Ising model on chains. -/
theorem C158_sgd_ising_chain (n : Nat) (h j : ℝ) (pbc : Bool) :
    SgdSettles (tfim (chainBonds n pbc) h j) fun B logψ sample =>
      Exact.vmcCoefficients B logψ (Answer.ofRows (n + 1) (isingFindConn1 (.float h) j pbc sample)
        fun b => by rw [isingFindConn1_eq]; simp) :=
  sgdSettles_of (op := fun _ sample => isingFindConn1 (.float h) j pbc sample) (Exact.rowsOf_ising_chain n h j pbc) _
    (fun s _ ψ => C06_ising_chain h j pbc (fun _ : Fin 1 => s) 0 ψ) _
    fun _ sample hs logψ => C18_ising_chain h j pbc sample hs logψ

/-- **C158, training**, for the Ising model on grids. -/
theorem C158_sgd_ising_grid (n m : Nat) (h j : ℝ) (pbc : Bool) :
    SgdSettles (tfim (gridBonds n m pbc) h j) fun B logψ sample =>
      Exact.vmcCoefficients B logψ (Answer.ofRows (n * m + 1) (isingFindConn2 (.float h) j pbc sample)
        fun b => by rw [isingFindConn2_eq]; simp [length_gridSites]) :=
  sgdSettles_of (op := fun _ sample => isingFindConn2 (.float h) j pbc sample) (Exact.rowsOf_ising_grid n m h j pbc) _
    (fun s _ ψ => C06_ising_grid h j pbc (fun _ : Fin 1 => s) 0 ψ) _
    fun _ sample hs logψ => C18_ising_grid h j pbc sample hs logψ

/-- **C158, training**, for the Heisenberg model on grids, whatever calls of the operator came before. -/
theorem C158_sgd_heisenberg_grid (n m : Nat) (rot pbc : Bool) (history : List (Call n m)) :
    SgdSettles (heisenberg (gridBonds n m pbc) (if rot then -1 else 1)) fun B logψ sample =>
      Exact.vmcCoefficients B logψ (Answer.ofRows (n * m * 2 + 1) (((HeisOp.new2 n m rot pbc).run history).findConn B sample).2
        fun b => by rw [answer2]; exact length_heisRows _ _ _ (Or.inl rfl) _) :=
  sgdSettles_of (op := fun B sample => (((HeisOp.new2 n m rot pbc).run history).findConn B sample).2)
    (Exact.rowsOf_heisenberg_grid n m rot pbc history) _
    (fun s hs ψ => applyRows_heisRows rot pbc 2 (Or.inl rfl) s hs ψ) _
    fun B sample hs logψ => C18_heisenberg_grid rot pbc history B sample hs logψ

/-- **C158, training**, for the Heisenberg model on chains, whatever calls of the operator came before. -/
theorem C158_sgd_heisenberg_chain (n : Nat) (rot pbc : Bool) (history : List (Call n 1)) :
    SgdSettles (heisenberg (chainBonds' n pbc) (if rot then -1 else 1)) fun B logψ sample =>
      Exact.vmcCoefficients B logψ (Answer.ofRows (n + 1) (((HeisOp.new1 n rot pbc).run history).findConn1 B sample).2
        fun b => by
          rw [(Exact.rowsOf_heisenberg_chain n rot pbc history).eq]
          exact (Exact.rowsOf_heisenberg_chain n rot pbc history).length _) :=
  sgdSettles_of (op := fun B sample => (((HeisOp.new1 n rot pbc).run history).findConn1 B sample).2)
    (Exact.rowsOf_heisenberg_chain n rot pbc history) _
    (fun s hs ψ => by
      have := C07_heisenberg_chain rot pbc history 1 (fun _ => s) 0 hs ψ
      rwa [answer1] at this) _
    fun B sample hs logψ => C18_heisenberg_chain rot pbc history B sample hs logψ

open Verif.J1J2.Op in
/-- **C158, training**, for J1-J2 on lattices of any size (periodic ones from three by three), whatever calls of the operator
came before. -/
theorem C158_sgd_j1j2 (first : ℤ) (hf : first = 1 ∨ first = -1) {L1 L2 : Nat} (h1 : 0 < L1) (h2 : 0 < L2) (j2 : ℝ) (pbc : Bool)
    (hL : pbc = true → 3 ≤ L1 ∧ 3 ≤ L2) (history : List (List Netket.Conf)) :
    SgdSettles (hamiltonian L1 L2 pbc j2) (j1j2Targets first L1 L2 j2 pbc history) :=
  sgdSettles_congr (fun _ hB logψ sample hs => targets_clean first hf h1 h2 j2 pbc hL history hB sample hs logψ)
    (sgdSettles_of (rowsOf_clean first hf h1 h2 j2 pbc hL) _ (cleanRows_apply first hf h1 h2 j2 pbc hL)
      (fun _ sample b => cleanRows_length first h2 j2 pbc (sample b)) fun _ sample hs logψ =>
        localEnergies_of _ sample hs logψ _ (clean_values first hf h1 h2 j2 pbc hL sample hs logψ))

/-! ### A case that meets the hypotheses -/

/-- One spin in a field 3, `WaveFunctionSampler` with batches of four samples, mini-batches of two whose gradients are
averaged, and the learning rate 1/2: the rate is low enough, the energy is not at rest and the local energies vary. -/
example : ∃ S : (Fin 1 → ℝ) → (Fin 4 → ℝ) → Fin 4 → Config (Fin 1),
    (∀ θ, Independent (Measure.pi fun _ : Fin 4 => unif) (phaseNet θ) (S θ)) ∧
    (some 2).getD 4 ∣ 4 ∧
    (∀ s, IsSpin s → Differentiable ℝ fun θ => phaseNet θ s) ∧
    (∀ (θ : Fin 1 → ℝ) k s, IsSpin s → HasDerivAt (fun t => phaseNet (Function.update θ k t) s) (if s 0 = 1 then Complex.I else 0) (θ k)) ∧
    (∀ (θ : Fin 1 → ℝ) k s c, IsSpin s → HasDerivAt (fun t => loss c (phaseNet (Function.update θ k t) s)) (phaseGrad θ (s, c) k) (θ k)) ∧
    (∀ s : Config (Fin 1), IsSpin s → ‖(if s 0 = 1 then Complex.I else 0 : ℂ)‖ ≤ 1) ∧
    (∃ W, LengthBound (tfim (chainBonds 1 false) 3 1) W) ∧
    SlopeBound (tfim (chainBonds 1 false) 3 1) phaseNet 3 ∧
    ((1 : ℝ) / 2) * (if (⟨false, 0⟩ : AccConfig).accumulateSum then ((4 / (some 2).getD 4 : Nat) : ℝ) else 1) / (4 : Nat) * 3 ≤
      1 - 1 / (4 : Nat) ∧
    slope (tfim (chainBonds 1 false) 3 1) phaseNet (fun _ => 1) 0 ≠ 0 := by
  choose S _ hS using fun θ : Fin 1 → ℝ => C154_wave_function (B := 4) (Equiv.refl (Fin 1)) (phaseNet θ) _ le_rfl
  refine ⟨S, hS, by decide, fun s _ => phaseNet_differentiable s, ?_, fun θ k s c _ => phaseNet_loss θ k s c, ?_, ⟨_, C145_noise_bounded
    (Exact.rowsOf_ising_chain 1 3 1 false) _ fun s _ ψ => C06_ising_chain 3 1 false (fun _ : Fin 1 => s) 0 ψ⟩, ?_, ?_, ?_⟩
  · intro θ k s hs
    rw [Subsingleton.elim k 0]
    unfold phaseNet
    simp only [Function.update_self]
    split
    · simpa using (Complex.ofRealCLM.hasDerivAt (x := θ 0)).mul_const Complex.I
    · exact hasDerivAt_const _ _
  · intro s _
    split <;> simp
  · simpa using phaseNet_bound 3 1
  · norm_num
  · rw [phaseNet_slope]
    exact mul_ne_zero (by norm_num) (Real.sin_pos_of_pos_of_lt_pi one_pos (by linarith [Real.pi_gt_three])).ne'

end Verif.Training
