import Verif.Training.Sgd
import Verif.Training.MiniBatchSize
import Verif.Energy.Unbiased
import Mathlib.Algebra.Order.Chebyshev

/-!
# C145: Monte Carlo training with plain gradient descent makes progress on average

The training loop of C90 (`VariationalMonteCarlo`, accumulating optimizer, `fit_generator`) with the autoregressive sampler
(C36) and the Keras optimizer `SGD(lr)` (C143). Expected values are taken over the random numbers of all batches.
-/
namespace Verif.Training

open Verif.Operators Verif.Energy Verif.Autoregressive MeasureTheory
open Verif.Energy.Exact (loss RowsOf)

variable {ι : Type} [Fintype ι] [DecidableEq ι] {n B : Nat}

/-! ### Model -/

/-- What `VariationalMonteCarlo.next_batch` (variational_monte_carlo.py:42-50) returns for the batch number `k`: samples of
the autoregressive sampler, drawn with the weights `θ` of that moment and the random numbers `us k`, and their training
targets. An exception would leave no rows (C145 shows that there is none). -/
noncomputable def drawBatch (targets : (B : Nat) → (Config ι → ℂ) → (Fin B → Config ι) → Option (List ℂ)) (dims : Nat)
    (order : List ι) (net : (Fin n → ℝ) → Net ι) (us : List (Fin B → ι → ℝ)) (θ : Fin n → ℝ) (_ : Unit) (k : Nat) :
    List (Config ι × ℂ) :=
  match sample dims false (condLogProbs (net θ)) order (us.getD k fun _ _ => 0) with
  | .ok S =>
    match targets B (logWave (net θ)) S with
    | some c => (List.finRange B).map fun b => (S b, c.getD b 0)
    | none => []
  | .error _ => []

/-! ### Specification -/

/-- Expected value of a number that depends on the random numbers of `T` batches, which are independent of each other. -/
noncomputable def overBatches {B : Nat} : (T : Nat) → (List (Fin B → ι → ℝ) → ℝ) → ℝ
  | 0, F => F []
  | T + 1, F => ∫ u, overBatches T (fun us => F (u :: us)) ∂rand B ι

/-- The squared length of the gradient of the energy. -/
noncomputable def steepness (H : Wave ι → Wave ι) (net : (Fin n → ℝ) → Config ι → ℂ) (θ : Fin n → ℝ) : ℝ :=
  ∑ k, slope H net θ k ^ 2

/-- The operator lengthens no wave function by more than the factor `√W`. -/
def LengthBound (H : Wave ι → Wave ι) (W : ℝ) : Prop :=
  0 ≤ W ∧ ∀ ψ : Wave ι, ∑ s ∈ allSpins ι, ‖H ψ s‖ ^ 2 ≤ W * ∑ s ∈ allSpins ι, ‖ψ s‖ ^ 2

/-- What C145 says of training with batches of `B` samples: `θ us t` are the weights after the first `t` batches if the
sampler draws the random numbers `us`; `rate` is the effective learning rate and `noise` a bound for the squared length
of the gradients of batches. -/
structure ProgressOnAverage (B : Nat) (H : Wave ι → Wave ι) (net : (Fin n → ℝ) → Config ι → ℂ)
    (θ : List (Fin B → ι → ℝ) → Nat → Fin n → ℝ) (rate K noise : ℝ) : Prop where
  /-- The next batch lowers the expected energy in proportion to the expected squared gradient, up to the noise. -/
  step : ∀ t, overBatches (t + 1) (fun us => energyAt H net (θ us (t + 1))) ≤
    overBatches t (fun us => energyAt H net (θ us t)) -
      rate * (1 - 1 / B) * overBatches t (fun us => steepness H net (θ us t)) + K / 2 * rate ^ 2 * noise
  /-- The squared gradients met on the way are small on average: they are bounded by a term that falls like one over the
  number of batches and by a term proportional to the learning rate; `m` is any lower bound of the energy, say the ground
  state energy. -/
  average : ∀ m, (∀ θ, m ≤ energyAt H net θ) → ∀ T, 0 < T →
    (∑ t ∈ Finset.range T, overBatches t (fun us => steepness H net (θ us t))) / T ≤
      (energyAt H net (θ [] 0) - m) / (rate * (1 - 1 / B) * T) + K / 2 * rate * noise / (1 - 1 / B)
  /-- So after enough batches they are on average as small as the learning rate permits. -/
  settles : ∀ ε, K / 2 * rate * noise / (1 - 1 / B) < ε → ∃ T₀, ∀ T, T₀ ≤ T →
    (∑ t ∈ Finset.range T, overBatches t (fun us => steepness H net (θ us t))) / T < ε

/-- C145 for one operator and its training targets: every lattice of one or two dimensions and every complete ordering, at
least two samples per batch, every mini-batch size that divides it, both ways of accumulation, every network that is
autoregressive in the ordering and differentiable in its weights, with logarithmic derivatives of at most `C` and an
energy gradient with the bound `K`, and every learning rate. -/
def SgdLearns (H : Wave ι → Wave ι)
    (targets : (B : Nat) → (Config ι → ℂ) → (Fin B → Config ι) → Option (List ℂ)) : Prop :=
  ∀ (dims : Nat), (dims = 1 ∨ dims = 2) → ∀ order : List ι, Complete order →
  ∀ (B : Nat), 1 < B → ∀ mini : Option Nat, mini.getD B ∣ B →
  ∀ (n : Nat) (cfg : AccConfig) (net : (Fin n → ℝ) → Net ι) (g : (Fin n → ℝ) → Config ι × ℂ → Fin n → ℝ)
    (D : (Fin n → ℝ) → Fin n → Config ι → ℂ),
    (∀ θ, Causal order (net θ)) →
    (∀ s, IsSpin s → Differentiable ℝ fun θ => logWave (net θ) s) →
    (∀ θ k s, IsSpin s → HasDerivAt (fun t => logWave (net (Function.update θ k t)) s) (D θ k s) (θ k)) →
    (∀ θ k s c, IsSpin s → HasDerivAt (fun t => loss c (logWave (net (Function.update θ k t)) s)) (g θ (s, c) k) (θ k)) →
    ∀ C W K lr : ℝ, 0 < lr → (∀ θ k s, IsSpin s → ‖D θ k s‖ ≤ C) → LengthBound H W →
    SlopeBound H (fun θ => logWave (net θ)) K →
    ∀ (gen : MBState Unit (Config ι × ℂ)), gen.drawn = 0 → ∀ θ0 : Fin n → ℝ,
    ∃ st0 : LoopState (Fin n → ℝ) (Fin n → ℝ) (Fin n → ℝ) Unit (Config ι × ℂ),
      setupLoop (fun _ => B) gen () mini θ0 = some st0 ∧
      (∀ us θ k, (drawBatch (B := B) targets dims order net us θ () k).length = B) ∧
      ProgressOnAverage B H (fun θ => logWave (net θ))
        (fun us t => (fitGenerator (plainSgd lr) cfg g (drawBatch targets dims order net us) (t * (B / mini.getD B)) st0).acc.opt)
        (lr * (if cfg.accumulateSum then ((B / mini.getD B : Nat) : ℝ) else 1) / B) K (4 * n * C ^ 2 * W)

/-! ### Expected values -/

omit [DecidableEq ι] in
theorem overBatches_congr {B : Nat} (T : Nat) (F G : List (Fin B → ι → ℝ) → ℝ) (h : ∀ us, us.length = T → F us = G us) :
    overBatches T F = overBatches T G := by
  induction T generalizing F G with
  | zero => exact h [] rfl
  | succ T ih =>
    unfold overBatches
    refine integral_congr_ae (Filter.Eventually.of_forall fun u => ?_)
    exact ih _ _ fun us hus => h (u :: us) (by simp [hus])

theorem expect_le {α : Type} [DecidableEq α] {S : Finset α} {p : α → ℝ} (hp : ∀ s, 0 ≤ p s) {B : Nat} {F G : (Fin B → α) → ℝ}
    (h : ∀ x, (∀ b, x b ∈ S) → F x ≤ G x) : expect S p B F ≤ expect S p B G := by
  unfold expect
  refine Finset.sum_le_sum fun x hx => ?_
  exact mul_le_mul_of_nonneg_left (h x fun b => Fintype.mem_piFinset.1 hx b) (Finset.prod_nonneg fun b _ => hp _)

theorem expect_const {α : Type} [DecidableEq α] {S : Finset α} {p : α → ℝ} (hp : ∑ s ∈ S, p s = 1) (B : Nat) (c : ℝ) :
    expect S p B (fun _ => c) = c := by
  have h1 := expect_prod (B := B) S p fun _ _ => 1
  simp only [Finset.prod_const_one, mul_one, hp] at h1
  have h2 := expect_mul (B := B) S p c fun _ => 1
  simp only [mul_one] at h2
  rw [h2, h1, mul_one]

/-- Expected value of `φ` of the weights after `T` steps, each with a batch of independent samples of the wave function of
the moment. -/
noncomputable def tree (B : Nat) (net : (Fin n → ℝ) → Config ι → ℂ) (next : (Fin n → ℝ) → (Fin B → Config ι) → Fin n → ℝ)
    (φ : (Fin n → ℝ) → ℝ) : Nat → (Fin n → ℝ) → ℝ
  | 0, θ => φ θ
  | T + 1, θ => expect (allSpins ι) (born (net θ)) B fun S => tree B net next φ T (next θ S)

theorem tree_last (net : (Fin n → ℝ) → Config ι → ℂ) (next : (Fin n → ℝ) → (Fin B → Config ι) → Fin n → ℝ)
    (φ : (Fin n → ℝ) → ℝ) (T : Nat) (θ : Fin n → ℝ) :
    tree B net next φ (T + 1) θ = tree B net next (fun θ => expect (allSpins ι) (born (net θ)) B fun S => φ (next θ S)) T θ := by
  induction T generalizing θ with
  | zero => rfl
  | succ T ih =>
    rw [tree]
    simp only [ih]
    rfl

theorem tree_le (net : (Fin n → ℝ) → Config ι → ℂ) (next : (Fin n → ℝ) → (Fin B → Config ι) → Fin n → ℝ)
    {φ χ : (Fin n → ℝ) → ℝ} (h : ∀ θ, φ θ ≤ χ θ) (T : Nat) (θ : Fin n → ℝ) :
    tree B net next φ T θ ≤ tree B net next χ T θ := by
  induction T generalizing θ with
  | zero => exact h θ
  | succ T ih => exact expect_le (born_nonneg _) fun S _ => ih _

theorem tree_linear (net : (Fin n → ℝ) → Config ι → ℂ) (next : (Fin n → ℝ) → (Fin B → Config ι) → Fin n → ℝ)
    (φ χ : (Fin n → ℝ) → ℝ) (a c : ℝ) (T : Nat) (θ : Fin n → ℝ) :
    tree B net next (fun θ => φ θ - a * χ θ + c) T θ = tree B net next φ T θ - a * tree B net next χ T θ + c := by
  induction T generalizing θ with
  | zero => rfl
  | succ T ih =>
    simp only [tree, ih]
    have h1 : (fun S => tree B net next φ T (next θ S) - a * tree B net next χ T (next θ S) + c) =
        fun S => tree B net next φ T (next θ S) + ((-a) * tree B net next χ T (next θ S) + c) := by
      funext S
      ring
    rw [h1, expect_add, expect_add, expect_mul, expect_const (born_sum _)]
    ring

theorem overBatches_tree {dims : Nat} (hd : dims = 1 ∨ dims = 2) {order : List ι} (ho : Complete order)
    (net : (Fin n → ℝ) → Net ι) (hc : ∀ θ, Causal order (net θ)) (next : (Fin n → ℝ) → (Fin B → Config ι) → Fin n → ℝ)
    (nextU : (Fin n → ℝ) → (Fin B → ι → ℝ) → Fin n → ℝ)
    (hn : ∀ θ u S, sample dims false (condLogProbs (net θ)) order u = .ok S → nextU θ u = next θ S)
    (φ : (Fin n → ℝ) → ℝ) (T : Nat) (θ : Fin n → ℝ) :
    overBatches T (fun us => φ (us.foldl nextU θ)) = tree B (fun θ => logWave (net θ)) next φ T θ := by
  induction T generalizing θ with
  | zero => rfl
  | succ T ih =>
    unfold overBatches
    simp only [List.foldl_cons, ih]
    exact integral_sample dims hd (net θ) order ho (hc θ) (fun S => tree B (fun θ => logWave (net θ)) next φ T (next θ S)) _
      fun u S hS => by rw [hn θ u S hS]

/-! ### The noise -/

theorem sum_sub_mean_sq (x : Fin B → ℂ) (hB : 0 < B) : ∑ b, ‖x b - (∑ a, x a) / B‖ ^ 2 ≤ ∑ b, ‖x b‖ ^ 2 := by
  have hB' : (B : ℝ) ≠ 0 := by exact_mod_cast hB.ne'
  set m : ℂ := (∑ a, x a) / B with hm
  have hsum : ∑ a, x a = B * m := by
    rw [hm, mul_div_cancel₀]
    exact_mod_cast hB.ne'
  have h1 : ∀ b, ‖x b - m‖ ^ 2 = ‖x b‖ ^ 2 + ‖m‖ ^ 2 - 2 * (x b * (starRingEnd ℂ) m).re := by
    intro b
    rw [← Complex.normSq_eq_norm_sq, ← Complex.normSq_eq_norm_sq, ← Complex.normSq_eq_norm_sq, Complex.normSq_sub]
  simp only [h1]
  rw [Finset.sum_sub_distrib, Finset.sum_add_distrib, ← Finset.mul_sum, ← Complex.re_sum, ← Finset.sum_mul, hsum]
  have h2 : ((B : ℂ) * m * (starRingEnd ℂ) m).re = B * ‖m‖ ^ 2 := by
    rw [mul_assoc, Complex.mul_conj, Complex.normSq_eq_norm_sq, ← Complex.ofReal_natCast, ← Complex.ofReal_mul, Complex.ofReal_re]
  rw [h2]
  simp
  nlinarith [sq_nonneg ‖m‖, Nat.cast_nonneg (α := ℝ) B]

omit [Fintype ι] [DecidableEq ι] in
theorem batchGradient_sq (H : Wave ι → Wave ι) (logψ D : Config ι → ℂ) {C : ℝ} (hC : ∀ s, IsSpin s → ‖D s‖ ≤ C)
    (hB : 0 < B) (S : Fin B → Config ι) (hS : ∀ b, IsSpin (S b)) :
    batchGradient H logψ D S ^ 2 ≤ 4 * C ^ 2 / B * ∑ b, ‖localEnergy H logψ (S b)‖ ^ 2 := by
  have hBr : (0 : ℝ) < B := by exact_mod_cast hB
  set x : Fin B → ℂ := fun b => localEnergy H logψ (S b) with hx
  have hC0 : 0 ≤ C := (norm_nonneg _).trans (hC (S ⟨0, hB⟩) (hS _))
  have h1 : |batchGradient H logψ D S| ≤ ∑ b, 2 * C / B * ‖x b - (∑ a, x a) / B‖ := by
    unfold batchGradient
    refine (Finset.abs_sum_le_sum_abs _ _).trans (Finset.sum_le_sum fun b _ => ?_)
    rw [abs_mul, abs_of_pos (by norm_num : (0 : ℝ) < 2)]
    have h2 := Complex.abs_re_le_norm ((starRingEnd ℂ) (x b - (∑ a, x a) / B) / B * D (S b))
    rw [norm_mul, norm_div, Complex.norm_conj, Complex.norm_natCast] at h2
    have h3 := mul_le_mul_of_nonneg_left (hC (S b) (hS b)) (by positivity : 0 ≤ ‖x b - (∑ a, x a) / B‖ / B)
    calc _ ≤ 2 * (‖x b - (∑ a, x a) / B‖ / B * C) := by linarith
      _ = _ := by ring
  have h2 : batchGradient H logψ D S ^ 2 ≤ (∑ b, 2 * C / B * ‖x b - (∑ a, x a) / B‖) ^ 2 := by
    rw [← sq_abs]
    exact pow_le_pow_left₀ (abs_nonneg _) h1 2
  refine h2.trans ?_
  rw [← Finset.mul_sum, mul_pow]
  have h3 := sq_sum_le_card_mul_sum_sq (s := Finset.univ) (f := fun b => ‖x b - (∑ a, x a) / B‖)
  rw [Finset.card_univ, Fintype.card_fin] at h3
  have h4 := h3.trans (mul_le_mul_of_nonneg_left (sum_sub_mean_sq x hB) hBr.le)
  refine (mul_le_mul_of_nonneg_left h4 (sq_nonneg _)).trans (le_of_eq ?_)
  field_simp
  ring

theorem mean_localEnergy_sq {H : Wave ι → Wave ι} {W : ℝ} (hW : LengthBound H W) (logψ : Config ι → ℂ) :
    ∑ s ∈ allSpins ι, born logψ s * ‖localEnergy H logψ s‖ ^ 2 ≤ W := by
  have hZ := norm_sum_pos logψ
  have h1 := hW.2 fun s => Complex.exp (logψ s)
  have h2 : ∀ s, born logψ s * ‖localEnergy H logψ s‖ ^ 2 =
      ‖H (fun s => Complex.exp (logψ s)) s‖ ^ 2 / ∑ t ∈ allSpins ι, ‖Complex.exp (logψ t)‖ ^ 2 := by
    intro s
    unfold born localEnergy
    have hne : ‖Complex.exp (logψ s)‖ ≠ 0 := norm_ne_zero_iff.2 (Complex.exp_ne_zero _)
    rw [norm_div]
    field_simp
  simp only [h2]
  rw [← Finset.sum_div, div_le_iff₀ hZ]
  exact h1

theorem expect_noise {H : Wave ι → Wave ι} {W : ℝ} (hW : LengthBound H W) (logψ : Config ι → ℂ) (D : Fin n → Config ι → ℂ) {C : ℝ}
    (hC : ∀ k s, IsSpin s → ‖D k s‖ ≤ C) (hB : 0 < B) :
    expect (allSpins ι) (born logψ) B (fun S => ∑ k, batchGradient H logψ (D k) S ^ 2) ≤ 4 * n * C ^ 2 * W := by
  have hBr : (B : ℝ) ≠ 0 := by exact_mod_cast hB.ne'
  have h1 : ∀ S : Fin B → Config ι, (∀ b, S b ∈ allSpins ι) → ∑ k, batchGradient H logψ (D k) S ^ 2 ≤
      (4 * n * C ^ 2 / B) * ∑ b, ‖localEnergy H logψ (S b)‖ ^ 2 := by
    intro S hS
    refine (Finset.sum_le_sum fun k _ => batchGradient_sq H logψ (D k) (hC k) hB S fun b => (mem_allSpins _).1 (hS b)).trans (le_of_eq ?_)
    rw [Finset.sum_const, Finset.card_univ, Fintype.card_fin, nsmul_eq_mul]
    ring
  refine (expect_le (born_nonneg logψ) h1).trans ?_
  rw [expect_mul, expect_sum]
  have h2 : ∀ b : Fin B, expect (allSpins ι) (born logψ) B (fun S => ‖localEnergy H logψ (S b)‖ ^ 2) =
      ∑ s ∈ allSpins ι, born logψ s * ‖localEnergy H logψ s‖ ^ 2 := fun b =>
    expect_one (allSpins ι) (born logψ) (born_sum logψ) (fun s => ‖localEnergy H logψ s‖ ^ 2) b
  simp only [h2]
  rw [Finset.sum_const, Finset.card_univ, Fintype.card_fin, nsmul_eq_mul]
  have h3 := mean_localEnergy_sq hW logψ
  calc 4 * n * C ^ 2 / B * (B * ∑ s ∈ allSpins ι, born logψ s * ‖localEnergy H logψ s‖ ^ 2)
      = 4 * n * C ^ 2 * ∑ s ∈ allSpins ι, born logψ s * ‖localEnergy H logψ s‖ ^ 2 := by field_simp
    _ ≤ _ := mul_le_mul_of_nonneg_left h3 (by positivity)

/-! ### One step -/

/-- The weights after a batch `S`. -/
noncomputable def sgdNext (H : Wave ι → Wave ι) (net : (Fin n → ℝ) → Config ι → ℂ) (D : (Fin n → ℝ) → Fin n → Config ι → ℂ) (η : ℝ)
    (θ : Fin n → ℝ) (S : Fin B → Config ι) : Fin n → ℝ :=
  fun k => θ k - η * batchGradient H (net θ) (D θ k) S

/-- One batch, with the expected squared length of its gradient. -/
theorem sgd_step_raw {op : (B : Nat) → (Fin B → Config ι) → Fin B → List (Row ι ℝ)} {R : Nat}
    {rowsOf : Config ι → List (Row ι ℝ)} (h : RowsOf op R rowsOf) {H : Wave ι → Wave ι}
    (hH : ∀ s, IsSpin s → ∀ ψ, applyRows (rowsOf s) ψ = H ψ s) (hB : 0 < B)
    (net : (Fin n → ℝ) → Config ι → ℂ) (D : (Fin n → ℝ) → Fin n → Config ι → ℂ)
    (hd : ∀ s, IsSpin s → Differentiable ℝ fun θ => net θ s)
    (hD : ∀ θ k s, IsSpin s → HasDerivAt (fun t => net (Function.update θ k t) s) (D θ k s) (θ k))
    {K : ℝ} (hK : SlopeBound H net K) (η : ℝ) (θ : Fin n → ℝ) :
    expect (allSpins ι) (born (net θ)) B (fun S => energyAt H net (sgdNext H net D η θ S)) ≤
      energyAt H net θ - η * (1 - 1 / B) * steepness H net θ + K / 2 * η ^ 2 *
        expect (allSpins ι) (born (net θ)) B (fun S => ∑ k, batchGradient H (net θ) (D θ k) S ^ 2) := by
  have hgrad : ∀ θ k, HasDerivAt (fun t => energyAt H net (Function.update θ k t)) (2 * (∑ s ∈ allSpins ι, (born (net θ) s : ℂ) *
      ((starRingEnd ℂ) (localEnergy H (net θ) s) * D θ k s) - (∑ s ∈ allSpins ι, (born (net θ) s : ℂ) *
      (starRingEnd ℂ) (localEnergy H (net θ) s)) * ∑ s ∈ allSpins ι, (born (net θ) s : ℂ) * D θ k s).re) (θ k) := by
    intro θ k
    have h1 := rayleigh_deriv h H hH (fun t => net (Function.update θ k t)) (D θ k) (θ k) fun s hs => hD θ k s hs
    simp only [Function.update_eq_self] at h1
    exact h1
  have hslope : ∀ θ k, HasDerivAt (fun t => energyAt H net (Function.update θ k t)) (slope H net θ k) (θ k) := fun θ k =>
    (hgrad θ k).differentiableAt.hasDerivAt
  have hmean : ∀ k, expect (allSpins ι) (born (net θ)) B (batchGradient H (net θ) (D θ k)) = (1 - 1 / B) * slope H net θ k := by
    intro k
    rw [expect_batchGradient H (net θ) (D θ k) hB, (hslope θ k).unique (hgrad θ k)]
  have hpt : ∀ S : Fin B → Config ι, (∀ b, S b ∈ allSpins ι) → energyAt H net (sgdNext H net D η θ S) ≤
      energyAt H net θ + ((-η) * ∑ k, slope H net θ k * batchGradient H (net θ) (D θ k) S +
        K / 2 * η ^ 2 * ∑ k, batchGradient H (net θ) (D θ k) S ^ 2) := by
    intro S _
    have h1 := descent_any (energyAt_differentiable hH h.spins hd) (slope H net) hslope hK.1 hK.2 θ
      (fun k => -(η * batchGradient H (net θ) (D θ k) S))
    have e1 : θ + (fun k => -(η * batchGradient H (net θ) (D θ k) S)) = sgdNext H net D η θ S := by
      funext k
      simp [sgdNext, sub_eq_add_neg]
    have e2 : ∑ k, slope H net θ k * -(η * batchGradient H (net θ) (D θ k) S) =
        (-η) * ∑ k, slope H net θ k * batchGradient H (net θ) (D θ k) S := by
      rw [Finset.mul_sum]
      exact Finset.sum_congr rfl fun k _ => by ring
    have e3 : ∑ k, (-(η * batchGradient H (net θ) (D θ k) S)) ^ 2 = η ^ 2 * ∑ k, batchGradient H (net θ) (D θ k) S ^ 2 := by
      rw [Finset.mul_sum]
      exact Finset.sum_congr rfl fun k _ => by ring
    rw [e1, e2, e3] at h1
    linarith
  refine (expect_le (born_nonneg _) hpt).trans ?_
  rw [expect_add, expect_add, expect_mul, expect_mul, expect_sum, expect_const (born_sum _)]
  simp only [expect_mul, hmean]
  have h3 : ∑ k, slope H net θ k * ((1 - 1 / (B : ℝ)) * slope H net θ k) = (1 - 1 / B) * steepness H net θ := by
    unfold steepness
    rw [Finset.mul_sum]
    exact Finset.sum_congr rfl fun k _ => by ring
  rw [h3]
  linarith

theorem sgd_step {op : (B : Nat) → (Fin B → Config ι) → Fin B → List (Row ι ℝ)} {R : Nat}
    {rowsOf : Config ι → List (Row ι ℝ)} (h : RowsOf op R rowsOf) {H : Wave ι → Wave ι}
    (hH : ∀ s, IsSpin s → ∀ ψ, applyRows (rowsOf s) ψ = H ψ s) (hB : 0 < B)
    (net : (Fin n → ℝ) → Config ι → ℂ) (D : (Fin n → ℝ) → Fin n → Config ι → ℂ)
    (hd : ∀ s, IsSpin s → Differentiable ℝ fun θ => net θ s)
    (hD : ∀ θ k s, IsSpin s → HasDerivAt (fun t => net (Function.update θ k t) s) (D θ k s) (θ k))
    {C W K : ℝ} (hC : ∀ θ k s, IsSpin s → ‖D θ k s‖ ≤ C) (hW : LengthBound H W) (hK : SlopeBound H net K) (η : ℝ) (θ : Fin n → ℝ) :
    expect (allSpins ι) (born (net θ)) B (fun S => energyAt H net (sgdNext H net D η θ S)) ≤
      energyAt H net θ - η * (1 - 1 / B) * steepness H net θ + K / 2 * η ^ 2 * (4 * n * C ^ 2 * W) := by
  have h1 := sgd_step_raw h hH hB net D hd hD hK η θ
  have h2 := expect_noise hW (net θ) (D θ) (hC θ) hB
  have h4 := mul_le_mul_of_nonneg_left h2 (by have := hK.1; positivity : 0 ≤ K / 2 * η ^ 2)
  linarith

/-! ### The training loop -/

theorem sgdLearns_of {op : (B : Nat) → (Fin B → Config ι) → Fin B → List (Row ι ℝ)} {R : Nat}
    {rowsOf : Config ι → List (Row ι ℝ)} (h : RowsOf op R rowsOf) (H : Wave ι → Wave ι)
    (hH : ∀ s, IsSpin s → ∀ ψ, applyRows (rowsOf s) ψ = H ψ s)
    (hlen : ∀ B (sample : Fin B → Config ι) b, (op B sample b).length = R)
    (hE : ∀ B (sample : Fin B → Config ι), (∀ b, IsSpin (sample b)) → ∀ logψ,
      LocalEnergies H sample logψ (estimate logψ (Answer.ofRows R (op B sample) (hlen B sample)))) :
    SgdLearns H fun B logψ sample => Exact.vmcCoefficients B logψ (Answer.ofRows R (op B sample) (hlen B sample)) := by
  intro dims hdims order ho B hB1 mini hdvd n cfg net g D hc hd hD hg C W K lr hlr hC hW hK gen hgen θ0
  have hB : 0 < B := by omega
  have hBr : (0 : ℝ) < B := by exact_mod_cast hB
  have hBr1 : (1 : ℝ) < B := by exact_mod_cast hB1
  set targets : (B : Nat) → (Config ι → ℂ) → (Fin B → Config ι) → Option (List ℂ) :=
    fun B logψ sample => Exact.vmcCoefficients B logψ (Answer.ofRows R (op B sample) (hlen B sample)) with htargets
  have hm : 0 < mini.getD B := Nat.pos_of_dvd_of_pos hdvd hB
  have hmle : mini.getD B ≤ B := Nat.le_of_dvd hB hdvd
  -- the setup succeeds
  obtain ⟨st0, hst0⟩ : ∃ st0 : LoopState (Fin n → ℝ) (Fin n → ℝ) (Fin n → ℝ) Unit (Config ι × ℂ),
      setupLoop (fun _ => B) gen () mini θ0 = some st0 := by
    cases hg : setSampler (fun _ => B) gen () mini with
    | none =>
      exfalso
      unfold setSampler setBatchSize at hg
      cases mini with
      | none => simp at hg; omega
      | some m =>
        simp only [Option.getD_some] at hm hmle
        simp at hg
        split at hg <;> omega
    | some gen' =>
      unfold setupLoop
      rw [hg]
      obtain ⟨e1, e2, e3, e4, e5, e6, e7, e8, -⟩ := setBatchSize_spec _ _ _ _ hg
      rw [Nat.min_eq_left hmle] at e5
      have hf : 1 ≤ gen'.updateParamsFrequency := by
        rw [e7, e5]
        unfold ceilDiv
        rw [Nat.le_div_iff_mul_le hm]
        omega
      simp only [convert]
      rw [if_neg (by omega)]
      exact ⟨_, rfl⟩
  -- every batch is complete
  have hrows : ∀ us θ k, ∃ S, sample dims false (condLogProbs (net θ)) order (us.getD k fun _ _ => 0) = .ok S ∧ (∀ b, IsSpin (S b)) ∧
      drawBatch (B := B) targets dims order net us θ () k = (List.finRange B).map fun b =>
        (S b, (starRingEnd ℂ) (localEnergy H (logWave (net θ)) (S b) - (∑ a, localEnergy H (logWave (net θ)) (S a)) / B) / (B : ℂ)) := by
    intro us θ k
    obtain ⟨S, hS, hspin⟩ := C36_spins (B := B) dims hdims (net θ) order ho (hc θ) (us.getD k fun _ _ => 0)
    refine ⟨S, hS, hspin, ?_⟩
    have ht := targets_of h (hlen B) (logWave (net θ)) S (hE B S hspin (logWave (net θ)))
    unfold drawBatch
    rw [hS]
    simp only [htargets]
    rw [ht]
    simp [List.getD_eq_getElem?_getD]
  have hlenB : ∀ us θ k, (drawBatch (B := B) targets dims order net us θ () k).length = B := by
    intro us θ k
    obtain ⟨S, -, -, e⟩ := hrows us θ k
    rw [e]
    simp
  refine ⟨st0, hst0, hlenB, ?_⟩
  set f := B / mini.getD B with hf
  set scale : ℝ := if cfg.accumulateSum then (f : ℝ) else 1 with hscale
  set η : ℝ := lr * scale / B with hη
  have hfpos : 0 < f := Nat.div_pos hmle hm
  have hs0 : 0 < scale := by
    rw [hscale]
    split
    · exact_mod_cast hfpos
    · exact one_pos
  have hη0 : 0 < η := by positivity
  set wnet : (Fin n → ℝ) → Config ι → ℂ := fun θ => logWave (net θ) with hwnet
  set nextU : (Fin n → ℝ) → (Fin B → ι → ℝ) → Fin n → ℝ := fun θ u =>
    (plainSgd lr).update θ (scale • (1 / (B : ℝ)) • ((drawBatch targets dims order net [u] θ () 0).map (g θ)).sum) with hnextU
  -- the loop is a fold
  have hloop : ∀ us t, us.length = t →
      (fitGenerator (plainSgd lr) cfg g (drawBatch (B := B) targets dims order net us) (t * f) st0).acc.opt = us.foldl nextU θ0 := by
    intro us t hus
    have h1 : (fitGenerator (plainSgd lr) cfg g (drawBatch (B := B) targets dims order net us) (t * f) st0).acc.opt =
        wholeBatches (plainSgd lr) g (fun p k => drawBatch (B := B) targets dims order net us p () (0 + k)) scale θ0 t := by
      cases hcfg : cfg.accumulateSum with
      | true =>
        have := C90_sum_scales (plainSgd lr) cfg hcfg g (drawBatch (B := B) targets dims order net us) (fun _ => B) gen () mini θ0 st0 hst0
          hdvd (fun p k => hlenB us p k) t
        rw [hgen] at this
        rw [hscale, hcfg, if_pos rfl]
        exact this
      | false =>
        have := C90_mean_partial (plainSgd lr) cfg hcfg g (drawBatch (B := B) targets dims order net us) (fun _ => B) gen () mini θ0 st0 hst0
          hdvd (fun p k => hlenB us p k) t
        rw [hgen] at this
        rw [hscale, hcfg, if_neg (by simp)]
        exact this
    rw [h1]
    have h2 : ∀ j, j ≤ us.length →
        wholeBatches (plainSgd lr) g (fun p k => drawBatch (B := B) targets dims order net us p () (0 + k)) scale θ0 j =
          (us.take j).foldl nextU θ0 := by
      intro j
      induction j with
      | zero => intro _; rfl
      | succ j ih =>
        intro hj
        have hj' : j < us.length := hj
        rw [List.take_succ_eq_append_getElem hj', List.foldl_append, ← ih hj'.le]
        have e : ∀ θ, drawBatch (B := B) targets dims order net us θ () (0 + j) = drawBatch targets dims order net [us[j]] θ () 0 := by
          intro θ
          unfold drawBatch
          have : us.getD (0 + j) (fun _ _ => 0) = [us[j]].getD 0 fun _ _ => 0 := by
            simp [List.getD_eq_getElem?_getD, hj']
          rw [this]
        simp only [wholeBatches, List.foldl_cons, List.foldl_nil, hnextU, e, hlenB]
        rfl
    have h3 := h2 t hus.ge
    rw [← hus, List.take_length] at h3
    rw [← hus]
    exact h3
  -- one step of the loop is a step of gradient descent with the batch gradient
  have hnext : ∀ θ u S, sample dims false (condLogProbs (net θ)) order u = .ok S → nextU θ u = sgdNext H wnet D η θ S := by
    intro θ u S hS
    obtain ⟨S', hS', hspin, e⟩ := hrows [u] θ 0
    obtain rfl : S = S' := Except.ok.inj (hS.symm.trans hS')
    have hgD : ∀ k s c, IsSpin s → g θ (s, c) k = 2 * (c * D θ k s).re := by
      intro k s c hs
      have h1 := Complex.reCLM.hasFDerivAt.comp_hasDerivAt (θ k) ((hD θ k s hs).mul_const c)
      have h2 := h1.const_mul (2 : ℝ)
      have h3 := (hg θ k s c hs).unique h2
      rw [h3, mul_comm c]
      rfl
    funext k
    simp only [hnextU, plainSgd, e, sgdNext, Pi.sub_apply, Pi.smul_apply, smul_eq_mul]
    have hsum : ∀ l : List (Config ι × ℂ), (l.map (g θ)).sum k = (l.map fun r => g θ r k).sum := by
      intro l
      induction l with
      | nil => rfl
      | cons r l ih => simp [ih]
    rw [hsum, List.map_map]
    have h5 : ((List.finRange B).map ((fun r => g θ r k) ∘ fun b => (S b, (starRingEnd ℂ) (localEnergy H (logWave (net θ)) (S b) -
        (∑ a, localEnergy H (logWave (net θ)) (S a)) / B) / (B : ℂ)))).sum = batchGradient H (wnet θ) (D θ k) S := by
      unfold batchGradient
      rw [← List.sum_ofFn, List.ofFn_eq_map]
      refine congrArg List.sum (List.map_congr_left fun b _ => ?_)
      exact hgD k (S b) _ (hspin b)
    rw [h5, hη]
    ring
  have havg : ∀ (φ : (Fin n → ℝ) → ℝ) t, overBatches t (fun us =>
      φ (fitGenerator (plainSgd lr) cfg g (drawBatch (B := B) targets dims order net us) (t * f) st0).acc.opt) =
        tree B wnet (sgdNext H wnet D η) φ t θ0 := by
    intro φ t
    rw [← overBatches_tree hdims ho net hc (sgdNext H wnet D η) nextU hnext φ t θ0]
    refine overBatches_congr t _ _ fun us hus => ?_
    rw [hloop us t hus]
  have hstep : ∀ t, tree B wnet (sgdNext H wnet D η) (energyAt H wnet) (t + 1) θ0 ≤
      tree B wnet (sgdNext H wnet D η) (energyAt H wnet) t θ0 -
        η * (1 - 1 / B) * tree B wnet (sgdNext H wnet D η) (steepness H wnet) t θ0 + K / 2 * η ^ 2 * (4 * n * C ^ 2 * W) := by
    intro t
    rw [tree_last, ← tree_linear]
    exact tree_le _ _ (fun θ => sgd_step h hH hB wnet D hd hD hC hW hK η θ) t θ0
  set V : ℝ := 4 * n * C ^ 2 * W with hV
  have hq : 0 < 1 - 1 / (B : ℝ) := by
    have : 1 / (B : ℝ) < 1 := by rw [div_lt_one hBr]; exact hBr1
    linarith
  have htotal : ∀ T, tree B wnet (sgdNext H wnet D η) (energyAt H wnet) T θ0 + η * (1 - 1 / B) *
      ∑ t ∈ Finset.range T, tree B wnet (sgdNext H wnet D η) (steepness H wnet) t θ0 ≤ energyAt H wnet θ0 + T * (K / 2 * η ^ 2 * V) := by
    intro T
    induction T with
    | zero => simp [tree]
    | succ T ih =>
      rw [Finset.sum_range_succ]
      have := hstep T
      push_cast
      nlinarith
  have hlow : ∀ m, (∀ θ, m ≤ energyAt H wnet θ) → ∀ T, m ≤ tree B wnet (sgdNext H wnet D η) (energyAt H wnet) T θ0 := by
    intro m hm' T
    have h1 := tree_le (B := B) wnet (sgdNext H wnet D η) (φ := fun θ => energyAt H wnet θ - 1 * energyAt H wnet θ + m) (χ := energyAt H wnet)
      (fun θ => by have := hm' θ; linarith) T θ0
    rw [tree_linear] at h1
    linarith
  have hθ0 : (fitGenerator (plainSgd lr) cfg g (drawBatch (B := B) targets dims order net []) (0 * f) st0).acc.opt = θ0 := hloop [] 0 rfl
  have haverage : ∀ m, (∀ θ, m ≤ energyAt H wnet θ) → ∀ T, 0 < T →
      (∑ t ∈ Finset.range T, tree B wnet (sgdNext H wnet D η) (steepness H wnet) t θ0) / T ≤
        (energyAt H wnet θ0 - m) / (η * (1 - 1 / B) * T) + K / 2 * η * V / (1 - 1 / B) := by
    intro m hm' T hT
    have hTr : (0 : ℝ) < T := by exact_mod_cast hT
    have h1 := htotal T
    have h2 := hlow m hm' T
    set total := ∑ t ∈ Finset.range T, tree B wnet (sgdNext H wnet D η) (steepness H wnet) t θ0
    set q : ℝ := 1 - 1 / B
    have h3 : η * q * total ≤ energyAt H wnet θ0 - m + T * (K / 2 * η ^ 2 * V) := by linarith
    have h4 : (energyAt H wnet θ0 - m) / (η * q * T) + K / 2 * η * V / q =
        (energyAt H wnet θ0 - m + T * (K / 2 * η ^ 2 * V)) / (η * q * T) := by
      field_simp
    rw [h4, div_le_div_iff₀ hTr (by positivity)]
    nlinarith
  refine ⟨fun t => ?_, fun m hm' T hT => ?_, fun ε hε => ?_⟩
  · rw [havg (energyAt H wnet) (t + 1), havg (energyAt H wnet) t, havg (steepness H wnet) t]
    exact hstep t
  · simp only [havg (steepness H wnet)]
    rw [hθ0]
    exact haverage m hm' T hT
  · simp only [havg (steepness H wnet)]
    obtain ⟨m, hm'⟩ : ∃ m, ∀ θ, m ≤ energyAt H wnet θ := ⟨_, energyAt_bounded hH h.spins wnet⟩
    set gap := ε - K / 2 * η * V / (1 - 1 / B) with hgap
    have hgap0 : 0 < gap := by rw [hgap]; linarith
    obtain ⟨T₀, hT₀⟩ := exists_nat_gt ((energyAt H wnet θ0 - m) / (η * (1 - 1 / B)) / gap)
    refine ⟨T₀ + 1, fun T hT => ?_⟩
    have hTpos : 0 < T := by omega
    have hTr : (0 : ℝ) < T := by exact_mod_cast hTpos
    refine (haverage m hm' T hTpos).trans_lt ?_
    have h1 : (energyAt H wnet θ0 - m) / (η * (1 - 1 / B) * T) < gap := by
      rw [← div_div, div_lt_iff₀ hTr]
      rw [div_lt_iff₀ hgap0] at hT₀
      have h2 : (T₀ : ℝ) ≤ T := by exact_mod_cast (by omega : T₀ ≤ T)
      nlinarith
    rw [hgap] at h1
    linarith

/-! ### C145 -/

/-- **C145** for the Ising model on chains. -/
theorem C145_ising_chain (n : Nat) (h j : ℝ) (pbc : Bool) :
    SgdLearns (tfim (chainBonds n pbc) h j) fun B logψ sample =>
      Exact.vmcCoefficients B logψ (Answer.ofRows (n + 1) (isingFindConn1 (.float h) j pbc sample)
        fun b => by rw [isingFindConn1_eq]; simp) :=
  sgdLearns_of (op := fun _ sample => isingFindConn1 (.float h) j pbc sample) (Exact.rowsOf_ising_chain n h j pbc) _
    (fun s _ ψ => C06_ising_chain h j pbc (fun _ : Fin 1 => s) 0 ψ) _
    fun _ sample hs logψ => C18_ising_chain h j pbc sample hs logψ

/-- **C145** for the Ising model on grids. -/
theorem C145_ising_grid (n m : Nat) (h j : ℝ) (pbc : Bool) :
    SgdLearns (tfim (gridBonds n m pbc) h j) fun B logψ sample =>
      Exact.vmcCoefficients B logψ (Answer.ofRows (n * m + 1) (isingFindConn2 (.float h) j pbc sample)
        fun b => by rw [isingFindConn2_eq]; simp [length_gridSites]) :=
  sgdLearns_of (op := fun _ sample => isingFindConn2 (.float h) j pbc sample) (Exact.rowsOf_ising_grid n m h j pbc) _
    (fun s _ ψ => C06_ising_grid h j pbc (fun _ : Fin 1 => s) 0 ψ) _
    fun _ sample hs logψ => C18_ising_grid h j pbc sample hs logψ

/-- **C145** for the Heisenberg model on grids, whatever calls of the operator came before. -/
theorem C145_heisenberg_grid (n m : Nat) (rot pbc : Bool) (history : List (Call n m)) :
    SgdLearns (heisenberg (gridBonds n m pbc) (if rot then -1 else 1)) fun B logψ sample =>
      Exact.vmcCoefficients B logψ (Answer.ofRows (n * m * 2 + 1) (((HeisOp.new2 n m rot pbc).run history).findConn B sample).2
        fun b => by rw [answer2]; exact length_heisRows _ _ _ (Or.inl rfl) _) :=
  sgdLearns_of (op := fun B sample => (((HeisOp.new2 n m rot pbc).run history).findConn B sample).2)
    (Exact.rowsOf_heisenberg_grid n m rot pbc history) _
    (fun s hs ψ => applyRows_heisRows rot pbc 2 (Or.inl rfl) s hs ψ) _
    fun B sample hs logψ => C18_heisenberg_grid rot pbc history B sample hs logψ

/-- **C145** for the Heisenberg model on chains, whatever calls of the operator came before. -/
theorem C145_heisenberg_chain (n : Nat) (rot pbc : Bool) (history : List (Call n 1)) :
    SgdLearns (heisenberg (chainBonds' n pbc) (if rot then -1 else 1)) fun B logψ sample =>
      Exact.vmcCoefficients B logψ (Answer.ofRows (n + 1) (((HeisOp.new1 n rot pbc).run history).findConn1 B sample).2
        fun b => by
          rw [(Exact.rowsOf_heisenberg_chain n rot pbc history).eq]
          exact (Exact.rowsOf_heisenberg_chain n rot pbc history).length _) :=
  sgdLearns_of (op := fun B sample => (((HeisOp.new1 n rot pbc).run history).findConn1 B sample).2)
    (Exact.rowsOf_heisenberg_chain n rot pbc history) _
    (fun s hs ψ => by
      have := C07_heisenberg_chain rot pbc history 1 (fun _ => s) 0 hs ψ
      rwa [answer1] at this) _
    fun B sample hs logψ => C18_heisenberg_chain rot pbc history B sample hs logψ

/-- Every operator of C145 has a bound `W`, whatever the amplitudes: no wave function makes the gradients of batches
noisy beyond it, however wildly its local energies vary. -/
theorem C145_noise_bounded {op : (B : Nat) → (Fin B → Config ι) → Fin B → List (Row ι ℝ)} {R : Nat}
    {rowsOf : Config ι → List (Row ι ℝ)} (h : RowsOf op R rowsOf) (H : Wave ι → Wave ι)
    (hH : ∀ s, IsSpin s → ∀ ψ, applyRows (rowsOf s) ψ = H ψ s) :
    LengthBound H (∑ s ∈ allSpins ι, ((rowsOf s).map fun r => |r.mel|).sum ^ 2) := by
  refine ⟨Finset.sum_nonneg fun s _ => sq_nonneg _, fun ψ => ?_⟩
  set Z : ℝ := ∑ s ∈ allSpins ι, ‖ψ s‖ ^ 2 with hZ
  have hZ0 : 0 ≤ Z := Finset.sum_nonneg fun s _ => sq_nonneg _
  have hmem : ∀ s, IsSpin s → ‖ψ s‖ ≤ Real.sqrt Z := fun s hs => by
    refine Real.le_sqrt_of_sq_le ?_
    exact Finset.single_le_sum (f := fun s => ‖ψ s‖ ^ 2) (fun s _ => sq_nonneg _) ((mem_allSpins s).2 hs)
  rw [Finset.sum_mul]
  refine Finset.sum_le_sum fun s hs => ?_
  have hs' := (mem_allSpins s).1 hs
  have hterm : ∀ l : List (Row ι ℝ), (∀ r ∈ l, IsSpin r.conn) → ‖applyRows l ψ‖ ≤ (l.map fun r => |r.mel|).sum * Real.sqrt Z := by
    intro l
    induction l with
    | nil => intro _; simp [applyRows]
    | cons r l ih =>
      intro hl
      have h1 : applyRows (r :: l) ψ = (r.mel : ℂ) * ψ r.conn + applyRows l ψ := by simp [applyRows]
      rw [h1, List.map_cons, List.sum_cons, add_mul]
      refine (norm_add_le _ _).trans (add_le_add ?_ (ih fun r hr => hl r (List.mem_cons_of_mem _ hr)))
      rw [norm_mul, Complex.norm_real, Real.norm_eq_abs]
      exact mul_le_mul_of_nonneg_left (hmem _ (hl r (List.mem_cons_self ..))) (abs_nonneg _)
  rw [← hH s hs' ψ]
  have h2 := pow_le_pow_left₀ (norm_nonneg _) (hterm (rowsOf s) (h.spins s hs')) 2
  rwa [mul_pow, Real.sq_sqrt hZ0] at h2

/-! ### A case that meets the hypotheses -/

/-- One spin, equal probabilities, the weight is the phase of the first category. -/
noncomputable def phaseCond (θ : Fin 1 → ℝ) : Net (Fin 1) := fun _ _ c => if c = 0 then (θ 0 : ℂ) * Complex.I else 0

theorem phaseCond_causal (order : List (Fin 1)) (θ : Fin 1 → ℝ) : Causal order (phaseCond θ) := fun _ _ _ _ => rfl

theorem phaseCond_wave (θ : Fin 1 → ℝ) (s : Config (Fin 1)) (hs : IsSpin s) :
    logWave (phaseCond θ) s = phaseNet θ s + ((-(1 / 2 * Real.log 2) : ℝ) : ℂ) := by
  have hre : ∀ c : Fin 2, (phaseCond θ s 0 c).re = 0 := by
    intro c
    unfold phaseCond
    split <;> simp
  have hn : ∀ c : Fin 2, condLogWave (phaseCond θ) s 0 c = phaseCond θ s 0 c + ((-(1 / 2 * Real.log 2) : ℝ) : ℂ) := by
    intro c
    have h1 : logSumExp (fun c => (phaseCond θ s 0 c).re * 2) = Real.log 2 := by
      unfold logSumExp
      simp only [hre]
      norm_num
    unfold condLogWave normalizeComplex
    simp only [h1]
    apply Complex.ext
    · rw [Complex.add_re, Complex.ofReal_re]
      ring
    · rw [Complex.add_im, Complex.ofReal_im, add_zero]
  unfold logWave combine
  rw [Fin.sum_univ_one, Fin.sum_univ_two]
  simp only [hn]
  rcases hs 0 with h | h
  · simp [h, plusMinusOneToOneHot, oneHot, phaseCond, phaseNet]
  · simp [h, plusMinusOneToOneHot, oneHot, phaseCond, phaseNet]

theorem phaseCond_energy (h j : ℝ) (θ : Fin 1 → ℝ) :
    energyAt (tfim (chainBonds 1 false) h j) (fun θ => logWave (phaseCond θ)) θ = -h * Real.cos (θ 0) := by
  rw [← phaseNet_energy h j θ]
  unfold energyAt Energy.rayleigh
  have h1 := phaseCond_wave θ (fun _ => 1) fun _ => Or.inl rfl
  have h2 := phaseCond_wave θ (fun _ => -1) fun _ => Or.inr rfl
  have h3 : (fun _ : Fin 1 => - -(1 : ℤ)) = fun _ => 1 := by simp
  rw [sum_one_spin, sum_one_spin, tfim_one, tfim_one, sum_one_spin, sum_one_spin, tfim_one, tfim_one, h3]
  dsimp only
  rw [h1, h2, Complex.exp_add, Complex.exp_add]
  set r := Complex.exp ((-(1 / 2 * Real.log 2) : ℝ) : ℂ) with hr
  have hr0 : r ≠ 0 := Complex.exp_ne_zero _
  have hr1 : (starRingEnd ℂ) r ≠ 0 := by simpa using hr0
  congr 1
  simp only [map_mul]
  conv_rhs => rw [← mul_div_mul_left _ _ (mul_ne_zero hr0 hr1)]
  congr 1 <;> ring

theorem phaseCond_bound (h j : ℝ) : SlopeBound (tfim (chainBonds 1 false) h j) (fun θ => logWave (phaseCond θ)) |h| := by
  have e : slope (tfim (chainBonds 1 false) h j) (fun θ => logWave (phaseCond θ)) = slope (tfim (chainBonds 1 false) h j) phaseNet := by
    funext θ k
    unfold slope
    simp only [phaseCond_energy, phaseNet_energy]
  unfold SlopeBound
  rw [e]
  exact phaseNet_bound h j

/-- The hypotheses are met: one spin in a field 3, batches of four samples in mini-batches of two; the gradient at the start
is not zero. -/
example : Complete [(0 : Fin 1)] ∧ (some 2).getD 4 ∣ 4 ∧ (∀ θ, Causal [0] (phaseCond θ)) ∧
    (∀ s, IsSpin s → Differentiable ℝ fun θ => logWave (phaseCond θ) s) ∧
    (∀ (θ : Fin 1 → ℝ) k s, IsSpin s → HasDerivAt (fun t => logWave (phaseCond (Function.update θ k t)) s) (if s 0 = 1 then Complex.I else 0) (θ k)) ∧
    (∀ (θ : Fin 1 → ℝ) k s c, IsSpin s →
      HasDerivAt (fun t => loss c (logWave (phaseCond (Function.update θ k t)) s)) (phaseGrad θ (s, c) k) (θ k)) ∧
    (∀ s : Config (Fin 1), IsSpin s → ‖(if s 0 = 1 then Complex.I else 0 : ℂ)‖ ≤ 1) ∧
    (∃ W, LengthBound (tfim (chainBonds 1 false) 3 1) W) ∧
    SlopeBound (tfim (chainBonds 1 false) 3 1) (fun θ => logWave (phaseCond θ)) 3 ∧
    slope (tfim (chainBonds 1 false) 3 1) (fun θ => logWave (phaseCond θ)) (fun _ => 1) 0 ≠ 0 := by
  have hderiv : ∀ (θ : Fin 1 → ℝ) k s, IsSpin s →
      HasDerivAt (fun t => logWave (phaseCond (Function.update θ k t)) s) (if s 0 = 1 then Complex.I else 0) (θ k) := by
    intro θ k s hs
    rw [Subsingleton.elim k 0]
    simp only [phaseCond_wave _ s hs]
    refine HasDerivAt.add_const _ ?_
    unfold phaseNet
    simp only [Function.update_self]
    split
    · simpa using (Complex.ofRealCLM.hasDerivAt (x := θ 0)).mul_const Complex.I
    · exact hasDerivAt_const _ _
  refine ⟨⟨by decide, by decide⟩, by decide, phaseCond_causal _, ?_, hderiv, ?_, ?_, ⟨_, C145_noise_bounded
    (Exact.rowsOf_ising_chain 1 3 1 false) _ fun s _ ψ => C06_ising_chain 3 1 false (fun _ : Fin 1 => s) 0 ψ⟩, ?_, ?_⟩
  · intro s hs
    simp only [phaseCond_wave _ s hs]
    exact (phaseNet_differentiable s).add_const _
  · intro θ k s c hs
    unfold loss phaseGrad
    exact (Complex.reCLM.hasFDerivAt.comp_hasDerivAt (θ k) ((hderiv θ k s hs).mul_const c)).const_mul 2
  · intro s _
    split <;> simp
  · simpa using phaseCond_bound 3 1
  · unfold slope
    simp only [phaseCond_energy, Function.update_self]
    rw [((Real.hasDerivAt_cos 1).const_mul (-3)).deriv]
    have := Real.sin_pos_of_pos_of_lt_pi one_pos (by linarith [Real.pi_gt_three])
    nlinarith

end Verif.Training
