import Verif.Net.Layers
import Mathlib.Analysis.SpecialFunctions.Pow.Real
import Mathlib.Analysis.SpecialFunctions.Sqrt
import Mathlib.Algebra.BigOperators.Field
import Mathlib.Algebra.Order.BigOperators.Ring.Finset
import Mathlib.Data.Fin.VecNotation
import Mathlib.Tactic.FieldSimp
import Mathlib.Tactic.Ring
import Mathlib.Tactic.Linarith
import Mathlib.Tactic.FinCases

/-!
# C112: layer normalisation

`LayerNormalization` (`src/flowket/deepar/layers/layer_normalization.py`) on the channels of one location, for
real numbers.
-/
namespace Verif.Net.LayerNorm

variable {c : Nat}

/-! ### Model -/

/-- `tf.reduce_mean(x, axis=-1)` (layer_normalization.py:23). -/
noncomputable def mean (x : Fin c → ℝ) : ℝ := (∑ k, x k) / c

/-- `s` (layer_normalization.py:24). -/
noncomputable def meanSquare (x : Fin c → ℝ) : ℝ := mean fun k => (x k - mean x) ^ 2

/-- `tf.math.rsqrt`; `none` stands for the infinity or NaN it returns on numbers that are not positive. -/
noncomputable def rsqrt (a : ℝ) : Option ℝ := if 0 < a then some (1 / Real.sqrt a) else none

/-- `LayerNormalization.call` (layer_normalization.py:22-27) on the channel vector of one location. The
weights `gamma` and `beta` have one entry per channel (lines 11-20). -/
noncomputable def call (epsilon : ℝ) (gamma beta x : Fin c → ℝ) : Option (Fin c → ℝ) :=
  (rsqrt (meanSquare x + epsilon)).map fun f k => (x k - mean x) * f * gamma k + beta k

/-- The weights right after `build` (layer_normalization.py:12-19). -/
def initialGamma : Fin c → ℝ := fun _ => 1
@[inherit_doc initialGamma] def initialBeta : Fin c → ℝ := fun _ => 0

/-- The layer on a whole tensor (layer_normalization.py:22-30): the last axis holds the channels, all other
axes are locations; `keepdims` makes `u` and `s` broadcast over the channels. -/
noncomputable def callTensor {ι : Type} (epsilon : ℝ) (gamma beta : Fin c → ℝ) (x : ι → Fin c → ℝ) :
    ι → Option (Fin c → ℝ) :=
  let u : ι → ℝ := fun l => mean (x l)
  let s : ι → ℝ := fun l => mean fun k => (x l k - u l) ^ 2
  let f : ι → Option ℝ := fun l => rsqrt (s l + epsilon)
  fun l => (f l).map fun f k => (x l k - u l) * f * gamma k + beta k

/-! ### Lemmas -/

theorem meanSquare_nonneg (x : Fin c → ℝ) : 0 ≤ meanSquare x := by
  unfold meanSquare mean
  positivity

theorem call_eq {epsilon : ℝ} (he : 0 < epsilon) (gamma beta x : Fin c → ℝ) :
    call epsilon gamma beta x =
      some fun k => (x k - mean x) / Real.sqrt (meanSquare x + epsilon) * gamma k + beta k := by
  have h : 0 < meanSquare x + epsilon := by have := meanSquare_nonneg x; linarith
  unfold call rsqrt
  rw [if_pos h, Option.map_some]
  congr 1
  funext k
  ring

theorem mean_add (hc : 0 < c) (x : Fin c → ℝ) (t : ℝ) : mean (fun k => x k + t) = mean x + t := by
  have : (c : ℝ) ≠ 0 := by exact_mod_cast hc.ne'
  unfold mean
  rw [Finset.sum_add_distrib, Finset.sum_const, Finset.card_univ, Fintype.card_fin, nsmul_eq_mul]
  field_simp

theorem mean_mul (x : Fin c → ℝ) (t : ℝ) : mean (fun k => t * x k) = t * mean x := by
  unfold mean
  rw [← Finset.mul_sum]
  ring

theorem mean_centred (hc : 0 < c) (x : Fin c → ℝ) : mean (fun k => x k - mean x) = 0 := by
  have := mean_add hc x (-mean x)
  simp only [← sub_eq_add_neg] at this
  rw [this]
  ring

/-! ### C112 -/

/-- **C112, always finite.** With a positive `epsilon` the layer never divides by zero, also when all channels
are equal, in which case it returns `beta`. -/
theorem C112_finite (epsilon : ℝ) (he : 0 < epsilon) (gamma beta x : Fin c → ℝ) :
    (∃ y, call epsilon gamma beta x = some y) ∧
    ((∀ k k', x k = x k') → call epsilon gamma beta x = some beta) := by
  refine ⟨⟨_, call_eq he gamma beta x⟩, fun h => ?_⟩
  rw [call_eq he]
  congr 1
  funext k
  have hc : (c : ℝ) ≠ 0 := by have := k.isLt; exact_mod_cast (by omega : c ≠ 0)
  have hm : mean x = x k := by
    unfold mean
    rw [Finset.sum_congr rfl fun k' _ => h k' k, Finset.sum_const, Finset.card_univ, Fintype.card_fin, nsmul_eq_mul]
    field_simp
  rw [hm, sub_self, zero_div, zero_mul, zero_add]

/-- **C112, normalised.** A new layer returns channels with mean zero and mean square `s / (s + epsilon)`,
where `s` is the variance of the input channels; so at most one, and close to one unless the
variance is small. -/
theorem C112_normalised (hc : 0 < c) (epsilon : ℝ) (he : 0 < epsilon) (x : Fin c → ℝ) :
    ∃ y, call epsilon initialGamma initialBeta x = some y ∧ (∑ k, y k) / c = 0 ∧
      (∑ k, y k ^ 2) / c = meanSquare x / (meanSquare x + epsilon) ∧
      meanSquare x = (∑ k, x k ^ 2) / c - ((∑ k, x k) / c) ^ 2 := by
  have hpos : 0 < meanSquare x + epsilon := by have := meanSquare_nonneg x; linarith
  have hcR : (c : ℝ) ≠ 0 := by exact_mod_cast hc.ne'
  refine ⟨_, call_eq he _ _ x, ?_, ?_, ?_⟩
  · have h := mean_mul (fun k => x k - mean x) (1 / Real.sqrt (meanSquare x + epsilon))
    rw [mean_centred hc, mul_zero] at h
    unfold mean at h
    rw [← h]
    congr 1
    refine Finset.sum_congr rfl fun k _ => ?_
    simp only [initialGamma, initialBeta, mean]
    ring
  · have h : ∀ k, ((x k - mean x) / Real.sqrt (meanSquare x + epsilon) * initialGamma k + initialBeta k) ^ 2 =
        (x k - mean x) ^ 2 / (meanSquare x + epsilon) := by
      intro k
      simp only [initialGamma, initialBeta, mul_one, add_zero]
      rw [div_pow, Real.sq_sqrt hpos.le]
    rw [Finset.sum_congr rfl fun k _ => h k, ← Finset.sum_div]
    have : ∑ k, (x k - mean x) ^ 2 = c * meanSquare x := by
      show _ = (c : ℝ) * ((∑ k, (x k - mean x) ^ 2) / (c : ℝ))
      field_simp
    rw [this]
    field_simp
  · unfold meanSquare
    have h1 : ∑ k, (x k - mean x) ^ 2 = ∑ k, x k ^ 2 - 2 * mean x * ∑ k, x k + c * mean x ^ 2 := by
      have : ∀ k, (x k - mean x) ^ 2 = x k ^ 2 - 2 * mean x * x k + mean x ^ 2 := fun k => by ring
      rw [Finset.sum_congr rfl fun k _ => this k, Finset.sum_add_distrib, Finset.sum_sub_distrib, ← Finset.mul_sum,
        Finset.sum_const, Finset.card_univ, Fintype.card_fin, nsmul_eq_mul]
    show (∑ k, (x k - mean x) ^ 2) / (c : ℝ) = _
    rw [h1]
    have h2 : ∑ k, x k = c * mean x := by unfold mean; field_simp
    rw [h2]
    field_simp
    ring

/-- **C112, bounded.** Whatever the input, channel `k` of the result lies within `|gamma k|` times the square
root of the number of channels from `beta k`. -/
theorem C112_bounded (epsilon : ℝ) (he : 0 < epsilon) (gamma beta x y : Fin c → ℝ)
    (h : call epsilon gamma beta x = some y) (k : Fin c) : |y k - beta k| ≤ |gamma k| * Real.sqrt c := by
  rw [call_eq he] at h
  have hk := congrFun (Option.some.inj h) k
  rw [← hk, add_sub_cancel_right, abs_mul, mul_comm]
  refine mul_le_mul_of_nonneg_left ?_ (abs_nonneg _)
  have hpos : 0 < meanSquare x + epsilon := by have := meanSquare_nonneg x; linarith
  have hc : 0 < (c : ℝ) := by have := k.isLt; exact_mod_cast (by omega : 0 < c)
  apply Real.abs_le_sqrt
  rw [div_pow, Real.sq_sqrt hpos.le, div_le_iff₀ hpos]
  have h1 : (x k - mean x) ^ 2 ≤ ∑ k, (x k - mean x) ^ 2 :=
    Finset.single_le_sum (f := fun k => (x k - mean x) ^ 2) (fun _ _ => sq_nonneg _) (Finset.mem_univ k)
  have h2 : (c : ℝ) * meanSquare x = ∑ k, (x k - mean x) ^ 2 := by
    show (c : ℝ) * ((∑ k, (x k - mean x) ^ 2) / (c : ℝ)) = _
    field_simp
  nlinarith

/-- **C112, shifts.** Adding the same number to all channels does not change the result. -/
theorem C112_shift (hc : 0 < c) (epsilon : ℝ) (gamma beta x : Fin c → ℝ) (t : ℝ) :
    call epsilon gamma beta (fun k => x k + t) = call epsilon gamma beta x := by
  have h : ∀ k, x k + t - mean (fun k => x k + t) = x k - mean x := by
    intro k
    rw [mean_add hc]
    ring
  have hs : meanSquare (fun k => x k + t) = meanSquare x := by
    show mean (fun k => (x k + t - mean fun k => x k + t) ^ 2) = _
    simp only [h]
    rfl
  unfold call
  rw [hs]
  simp only [h]

/-- **C112, scaling.** Multiplying all channels by a positive number has the effect of dividing `epsilon` by
its square; so on inputs with variance far above `epsilon` the scale does not matter. -/
theorem C112_scale (epsilon : ℝ) (he : 0 < epsilon) (gamma beta x : Fin c → ℝ) (t : ℝ) (ht : 0 < t) :
    call epsilon gamma beta (fun k => t * x k) = call (epsilon / t ^ 2) gamma beta x := by
  rw [call_eq he, call_eq (by positivity)]
  have hs : meanSquare (fun k => t * x k) = t ^ 2 * meanSquare x := by
    show mean (fun k => (t * x k - mean fun k => t * x k) ^ 2) = _
    rw [mean_mul]
    have : (fun k => (t * x k - t * mean x) ^ 2) = fun k => t ^ 2 * (x k - mean x) ^ 2 := by
      funext k
      ring
    rw [this, mean_mul]
    rfl
  have hq : Real.sqrt (meanSquare (fun k => t * x k) + epsilon) = t * Real.sqrt (meanSquare x + epsilon / t ^ 2) := by
    rw [hs]
    have : t ^ 2 * meanSquare x + epsilon = t ^ 2 * (meanSquare x + epsilon / t ^ 2) := by field_simp
    rw [this, Real.sqrt_mul (by positivity), Real.sqrt_sq ht.le]
  congr 1
  funext k
  rw [hq, mean_mul, ← mul_sub, mul_div_mul_left _ _ ht.ne']

/-- **C112, local.** The result at a location depends on the channels at that location only; so the layer
may be evaluated location by location, as the one-to-one topology registered for it does. -/
theorem C112_local {ι : Type} (epsilon : ℝ) (gamma beta : Fin c → ℝ) (x x' : ι → Fin c → ℝ) (l : ι) (h : x l = x' l) :
    callTensor epsilon gamma beta x l = callTensor epsilon gamma beta x' l ∧
      callTensor epsilon gamma beta x l = call epsilon gamma beta (x l) := by
  refine ⟨?_, rfl⟩
  unfold callTensor
  simp only [h]

/-! ### Concrete case -/

/-- Channels 1 and 3 with `epsilon = 3`: variance one, result -1/2 and 1/2. -/
example : call 3 initialGamma initialBeta ![1, 3] = some ![-1 / 2, 1 / 2] := by
  have hm : mean (![1, 3] : Fin 2 → ℝ) = 2 := by simp [mean, Fin.sum_univ_two]; norm_num
  have hs : meanSquare (![1, 3] : Fin 2 → ℝ) = 1 := by
    show mean (fun k => ((![1, 3] : Fin 2 → ℝ) k - mean (![1, 3] : Fin 2 → ℝ)) ^ 2) = 1
    rw [hm]
    simp [mean, Fin.sum_univ_two]
    norm_num
  rw [call_eq (by norm_num), hs, hm]
  have : Real.sqrt (1 + 3) = 2 := by
    rw [show (1 : ℝ) + 3 = 2 ^ 2 by norm_num, Real.sqrt_sq (by norm_num)]
  rw [this]
  congr 1
  funext k
  fin_cases k <;> simp [initialGamma, initialBeta] <;> norm_num

end Verif.Net.LayerNorm
