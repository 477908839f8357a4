import Mathlib.Analysis.SpecialFunctions.Log.Basic
import Mathlib.Analysis.SpecialFunctions.Sqrt
import Mathlib.Tactic.Ring
import Mathlib.Tactic.Linarith
import Mathlib.Tactic.FieldSimp
import Mathlib.Tactic.NormNum
import Mathlib.Tactic.Positivity
import Mathlib.Algebra.BigOperators.Field

/-!
# C78: weight normalisation (deepar/layers/wrappers.py)

`WeightNormalization(layer)` trains a direction `v` and a length `g` instead of the kernel of the layer.
It is used by default in the 1-D and 2-D machines.  `κ` indexes all axes of the kernel except the last,
`φ` the last (the output channels).  Exact real numbers instead of floats.
-/

open scoped BigOperators

namespace Verif.WeightNorm

variable {κ φ : Type*} [Fintype κ] [Fintype φ]

/-- The options of the wrapper, deepar/layers/wrappers.py 76-80. -/
structure Options where
  perChannel : Bool := true
  exponential : Bool := false

/-- The sum of squares over `kernel_norm_axes`, for channel `o`: over all axes but the last
(wrappers.py 94-97), or over the whole kernel (98-101). -/
def sumSquares (opt : Options) (v : κ → φ → ℝ) (o : φ) : ℝ :=
  if opt.perChannel then ∑ k, v k o ^ 2 else ∑ k, ∑ o', v k o' ^ 2

/-- `CopyNormaInitializer.__call__`, wrappers.py 31-36, with `shape` the shape of `g` (103-108): `(φ,)` or
`(1,)`, so that the reshaped kernel has one column per channel or a single column. `g` has one entry per
channel, or one entry used for all channels. -/
noncomputable def initialG (opt : Options) (v : κ → φ → ℝ) (o : φ) : ℝ :=
  let norm := Real.sqrt (sumSquares opt v o)
  if opt.exponential then Real.log (norm + 1 / 10 ^ 10) else norm

/-- The epsilon of `tf.nn.l2_normalize`. -/
noncomputable def eps : ℝ := 1 / 10 ^ 12

/-- `_compute_weights`, wrappers.py 122-134: `tf.nn.l2_normalize(v, axes) * g`, where `l2_normalize` is
`v * rsqrt(max(sum(v ** 2), epsilon))`. -/
noncomputable def effectiveKernel (opt : Options) (v : κ → φ → ℝ) (g : φ → ℝ) : κ → φ → ℝ :=
  fun k o => v k o * (1 / Real.sqrt (max (sumSquares opt v o) eps)) *
    (if opt.exponential then Real.exp (g o) else g o)

/-! ## Properties -/

/-- Euclidean length of what a channel (or, without per channel normalisation, the layer) uses. -/
noncomputable def length (opt : Options) (w : κ → φ → ℝ) (o : φ) : ℝ :=
  Real.sqrt (if opt.perChannel then ∑ k, w k o ^ 2 else ∑ k, ∑ o', w k o' ^ 2)

theorem length_eq (opt : Options) (w : κ → φ → ℝ) (o : φ) :
    length opt w o = Real.sqrt (sumSquares opt w o) := rfl

theorem eps_pos : 0 < eps := by unfold eps; positivity

theorem sumSquares_nonneg (opt : Options) (v : κ → φ → ℝ) (o : φ) : 0 ≤ sumSquares opt v o := by
  unfold sumSquares
  split
  · exact Finset.sum_nonneg fun k _ => sq_nonneg _
  · exact Finset.sum_nonneg fun k _ => Finset.sum_nonneg fun o' _ => sq_nonneg _

theorem sqrt_eps : Real.sqrt eps = 1 / 10 ^ 6 := by
  rw [show eps = (1 / 10 ^ 6) ^ 2 by unfold eps; norm_num]
  exact Real.sqrt_sq (by positivity)

theorem eps_le {opt : Options} {v : κ → φ → ℝ} {o : φ} (h : 1 / 10 ^ 6 ≤ length opt v o) :
    eps ≤ sumSquares opt v o := by
  rw [length_eq, ← sqrt_eps] at h
  exact (Real.sqrt_le_sqrt_iff (sumSquares_nonneg opt v o)).1 h

/-- **C78**, start of training: with the plain parametrisation wrapping a layer does not change its
kernel at all (any shape, either normalisation), for kernels of length at least `1e-6`. -/
theorem C78_initial (opt : Options) (hexp : opt.exponential = false) (v : κ → φ → ℝ)
    (hv : ∀ o, 1 / 10 ^ 6 ≤ length opt v o) :
    effectiveKernel opt v (initialG opt v) = v := by
  funext k o
  have hs := eps_le (hv o)
  have hpos : 0 < Real.sqrt (sumSquares opt v o) := Real.sqrt_pos.2 (lt_of_lt_of_le eps_pos hs)
  unfold effectiveKernel initialG
  simp only [hexp, Bool.false_eq_true, if_false]
  rw [max_eq_left hs]
  field_simp

/-- **C78**, start of training with `exponential_norm`: every entry is changed by the relative amount
`1e-10 / length`, at most `1e-4`. -/
theorem C78_initial_exponential (opt : Options) (hexp : opt.exponential = true) (v : κ → φ → ℝ)
    (hv : ∀ o, 1 / 10 ^ 6 ≤ length opt v o) (k : κ) (o : φ) :
    effectiveKernel opt v (initialG opt v) k o = v k o * (1 + 1 / 10 ^ 10 / length opt v o) ∧
    |effectiveKernel opt v (initialG opt v) k o - v k o| ≤ 1 / 10 ^ 4 * |v k o| := by
  have hs := eps_le (hv o)
  have hpos : 0 < Real.sqrt (sumSquares opt v o) := Real.sqrt_pos.2 (lt_of_lt_of_le eps_pos hs)
  have h1 : effectiveKernel opt v (initialG opt v) k o = v k o * (1 + 1 / 10 ^ 10 / length opt v o) := by
    unfold effectiveKernel initialG
    simp only [hexp, if_true]
    rw [max_eq_left hs, Real.exp_log (by positivity), length_eq]
    field_simp
  refine ⟨h1, ?_⟩
  rw [h1]
  have h2 : v k o * (1 + 1 / 10 ^ 10 / length opt v o) - v k o = 1 / 10 ^ 10 / length opt v o * v k o := by
    ring
  have hl := hv o
  have hl0 : 0 < length opt v o := lt_of_lt_of_le (by positivity) hl
  rw [h2, abs_mul, abs_of_pos (by positivity)]
  refine mul_le_mul_of_nonneg_right ?_ (abs_nonneg _)
  rw [div_le_iff₀ hl0]
  calc (1 : ℝ) / 10 ^ 10 = 1 / 10 ^ 4 * (1 / 10 ^ 6) := by norm_num
    _ ≤ 1 / 10 ^ 4 * length opt v o := by
      exact mul_le_mul_of_nonneg_left hl (by positivity)

theorem sumSquares_scale (opt : Options) (v : κ → φ → ℝ) (a : φ → ℝ) (o : φ)
    (ha : opt.perChannel = false → ∀ o', a o' = a o) :
    sumSquares opt (fun k o => v k o * a o) o = sumSquares opt v o * a o ^ 2 := by
  unfold sumSquares
  cases hc : opt.perChannel with
  | true =>
    simp only [if_true]
    rw [Finset.sum_mul]
    exact Finset.sum_congr rfl fun k _ => by ring
  | false =>
    simp only [Bool.false_eq_true, if_false]
    rw [Finset.sum_mul]
    refine Finset.sum_congr rfl fun k _ => ?_
    rw [Finset.sum_mul]
    refine Finset.sum_congr rfl fun o' _ => ?_
    rw [ha hc o']
    ring

/-- **C78**, during training: whatever values `v` and `g` take, the length of the kernel that is used is
given by `g` alone (its absolute value, or its exponential), as long as `v` has length at least `1e-6`.
Without per channel normalisation there is a single `g`. -/
theorem C78_length (opt : Options) (v : κ → φ → ℝ) (g : φ → ℝ)
    (hg : opt.perChannel = false → ∀ o o', g o = g o') (o : φ) (hv : 1 / 10 ^ 6 ≤ length opt v o) :
    length opt (effectiveKernel opt v g) o = if opt.exponential then Real.exp (g o) else |g o| := by
  have hs := eps_le hv
  have hpos : 0 < sumSquares opt v o := lt_of_lt_of_le eps_pos hs
  have hsame : opt.perChannel = false → ∀ o', sumSquares opt v o' = sumSquares opt v o := by
    intro h o'; unfold sumSquares; simp [h]
  set a : φ → ℝ := fun o => 1 / Real.sqrt (max (sumSquares opt v o) eps) *
    (if opt.exponential then Real.exp (g o) else g o) with ha
  have he : effectiveKernel opt v g = fun k o => v k o * a o := by
    funext k o; unfold effectiveKernel; rw [ha]; ring
  rw [length_eq, he, sumSquares_scale opt v a o (fun h o' => by
    rw [ha]; dsimp only; rw [hsame h o', hg h o' o])]
  have ha' : a o = 1 / Real.sqrt (sumSquares opt v o) *
      (if opt.exponential then Real.exp (g o) else g o) := by
    rw [ha]; dsimp only; rw [max_eq_left hs]
  rw [ha', mul_pow, div_pow, Real.sq_sqrt hpos.le, one_pow, ← mul_assoc, mul_one_div_cancel hpos.ne',
    one_mul, Real.sqrt_sq_eq_abs]
  split
  · exact abs_of_pos (Real.exp_pos _)
  · rfl

/-- **C78**, during training: rescaling the direction by any positive factor does not change the layer
(while the length stays at least `1e-6`). -/
theorem C78_scale (opt : Options) (v : κ → φ → ℝ) (g : φ → ℝ) (c : ℝ) (hc : 0 < c)
    (hv : ∀ o, 1 / 10 ^ 6 ≤ length opt v o) (hcv : ∀ o, 1 / 10 ^ 6 ≤ length opt (fun k o => v k o * c) o) :
    effectiveKernel opt (fun k o => v k o * c) g = effectiveKernel opt v g := by
  funext k o
  have hs := eps_le (hv o)
  have hcs := eps_le (hcv o)
  have hpos : 0 < sumSquares opt v o := lt_of_lt_of_le eps_pos hs
  have h := sumSquares_scale opt v (fun _ => c) o (fun _ _ => rfl)
  unfold effectiveKernel
  rw [max_eq_left hs, max_eq_left hcs, h, Real.sqrt_mul hpos.le, Real.sqrt_sq hc.le]
  have : Real.sqrt (sumSquares opt v o) ≠ 0 := (Real.sqrt_pos.2 hpos).ne'
  field_simp

/-- **C78 needs the length condition**: below `1e-6` the wrapped layer differs from the bare layer. For a
kernel with a single entry `t`, `0 < t < 1e-6`, the entry used is `t ^ 2 * 1e6`. -/
theorem C78_violated_small (t : ℝ) (h0 : 0 < t) (h1 : t < 1 / 10 ^ 6) :
    effectiveKernel {} (fun _ _ : Unit => t) (initialG {} fun _ _ : Unit => t) () () = t ^ 2 * 10 ^ 6 ∧
    effectiveKernel {} (fun _ _ : Unit => t) (initialG {} fun _ _ : Unit => t) () () ≠ t := by
  have hs : sumSquares {} (fun _ _ : Unit => t) () = t ^ 2 := by simp [sumSquares]
  have hle : t ^ 2 ≤ eps := by
    rw [show eps = (1 / 10 ^ 6) ^ 2 by unfold eps; norm_num]
    exact pow_le_pow_left₀ h0.le h1.le 2
  have h : effectiveKernel {} (fun _ _ : Unit => t) (initialG {} fun _ _ : Unit => t) () ()
      = t ^ 2 * 10 ^ 6 := by
    unfold effectiveKernel initialG
    rw [hs, max_eq_right hle, sqrt_eps, Real.sqrt_sq h0.le]
    norm_num
    ring
  refine ⟨h, ?_⟩
  rw [h]
  intro e
  have : t * (t * 10 ^ 6 - 1) = 0 := by linear_combination e
  rcases mul_eq_zero.1 this with h' | h'
  · exact h0.ne' h'
  · have h2 : t * 10 ^ 6 < 1 / 10 ^ 6 * 10 ^ 6 := mul_lt_mul_of_pos_right h1 (by positivity)
    norm_num at h2
    linarith

/-- A kernel that meets the conditions: one input, one channel, weight three. -/
example : (∀ o, 1 / 10 ^ 6 ≤ length {} (fun _ _ : Unit => (3 : ℝ)) o) ∧
    effectiveKernel {} (fun _ _ : Unit => (3 : ℝ)) (initialG {} fun _ _ : Unit => 3) () () = 3 := by
  have h : ∀ o, 1 / 10 ^ 6 ≤ length {} (fun _ _ : Unit => (3 : ℝ)) o := by
    intro o
    have : length {} (fun _ _ : Unit => (3 : ℝ)) o = 3 := by
      unfold length
      simp
    rw [this]
    norm_num
  exact ⟨h, by rw [C78_initial {} rfl _ h]⟩

end Verif.WeightNorm
