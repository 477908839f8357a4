import Mathlib.Analysis.Calculus.FDeriv.Pi
import Mathlib.Analysis.Calculus.Deriv.Comp
import Mathlib.Analysis.Calculus.Deriv.Add
import Mathlib.Analysis.Calculus.Deriv.Mul
import Mathlib.Analysis.Calculus.Deriv.Prod
import Mathlib.Analysis.Complex.RealDeriv
import Mathlib.Analysis.Complex.Basic

/-!
# What a Jacobian has to be

Independent of the code: derivatives as in Mathlib.  `loss` is whatever the network (and the loss) does
with the output array of the layer in question; nothing but differentiability is assumed of it.
-/

open scoped BigOperators

namespace Verif.Jacobian

/-- `grad` is the gradient of the real function `loss` of a real array at `y`: this is what
`tf.gradients(loss, layer.output)` returns. -/
def GradientAt {σ : Type*} [Fintype σ] (loss : (σ → ℝ) → ℝ) (y grad : σ → ℝ) : Prop :=
  HasFDerivAt loss (∑ s, grad s • (ContinuousLinearMap.proj s : (σ → ℝ) →L[ℝ] ℝ)) y

/-- `grad` is TensorFlow's gradient of the real function `loss` of a complex array at `y`: the derivative
with respect to the real part plus `i` times the derivative with respect to the imaginary part. -/
def ComplexGradientAt {σ : Type*} [Fintype σ] (loss : (σ → ℂ) → ℝ) (y grad : σ → ℂ) : Prop :=
  HasFDerivAt loss (∑ s, ((grad s).re • (Complex.reCLM.comp (ContinuousLinearMap.proj s)) +
    (grad s).im • (Complex.imCLM.comp (ContinuousLinearMap.proj s)) : (σ → ℂ) →L[ℝ] ℝ)) y

/-- The array `w` with entry `k` replaced by `t`. -/
def setEntry {κ R : Type*} [DecidableEq κ] (w : κ → R) (k : κ) (t : R) : κ → R :=
  fun k' => if k' = k then t else w k'

/-- `d` is the derivative of `f` with respect to entry `k` of the array of weights `w`. -/
def EntryDeriv {κ : Type*} [DecidableEq κ] (f : (κ → ℝ) → ℝ) (w : κ → ℝ) (k : κ) (d : ℝ) : Prop :=
  HasDerivAt (fun t => f (setEntry w k t)) d (w k)

/-- A function that is affine in the weights, followed by a differentiable loss. -/
theorem entryDeriv_affine {σ κ : Type*} [Fintype σ] [DecidableEq κ] {loss : (σ → ℝ) → ℝ}
    {out : (κ → ℝ) → σ → ℝ} {w : κ → ℝ} {grad : σ → ℝ} (k : κ) (col : σ → ℝ)
    (hout : ∀ t s, out (setEntry w k t) s = out w s + (t - w k) * col s)
    (h : GradientAt loss (out w) grad) :
    EntryDeriv (fun w => loss (out w)) w k (∑ s, grad s * col s) := by
  unfold EntryDeriv GradientAt at *
  have hγ : HasDerivAt (fun t : ℝ => fun s => out w s + (t - w k) * col s) col (w k) := by
    rw [hasDerivAt_pi]
    intro s
    have h1 : HasDerivAt (fun t : ℝ => t - w k) 1 (w k) := (hasDerivAt_id _).sub_const _
    have h2 := (h1.mul_const (col s)).const_add (out w s)
    simpa using h2
  have hy : (fun s => out w s + (w k - w k) * col s) = out w := by
    funext s; ring
  have h' : HasFDerivAt loss (∑ s, grad s • (ContinuousLinearMap.proj s : (σ → ℝ) →L[ℝ] ℝ))
      ((fun t : ℝ => fun s => out w s + (t - w k) * col s) (w k)) := by
    simpa only [hy] using h
  have hc := h'.comp_hasDerivAt (w k) hγ
  have hd : (∑ s, grad s • (ContinuousLinearMap.proj s : (σ → ℝ) →L[ℝ] ℝ)) col
      = ∑ s, grad s * col s := by
    simp [ContinuousLinearMap.sum_apply]
  rw [hd] at hc
  refine hc.congr_of_eventuallyEq (Filter.Eventually.of_forall fun t => ?_)
  show loss _ = loss _
  congr 1
  funext s
  exact hout t s

/-- The same for a complex layer output. -/
theorem entryDeriv_affine_complex {σ κ : Type*} [Fintype σ] [DecidableEq κ] {loss : (σ → ℂ) → ℝ}
    {out : (κ → ℝ) → σ → ℂ} {w : κ → ℝ} {grad : σ → ℂ} (k : κ) (col : σ → ℂ)
    (hout : ∀ t s, out (setEntry w k t) s = out w s + ((t - w k : ℝ) : ℂ) * col s)
    (h : ComplexGradientAt loss (out w) grad) :
    EntryDeriv (fun w => loss (out w)) w k
      (∑ s, ((grad s).re * (col s).re + (grad s).im * (col s).im)) := by
  unfold EntryDeriv ComplexGradientAt at *
  have hγ : HasDerivAt (fun t : ℝ => fun s => out w s + ((t - w k : ℝ) : ℂ) * col s) col (w k) := by
    rw [hasDerivAt_pi]
    intro s
    have h1 : HasDerivAt (fun t : ℝ => t - w k) 1 (w k) := (hasDerivAt_id _).sub_const _
    have h2 := ((h1.ofReal_comp).mul_const (col s)).const_add (out w s)
    simpa using h2
  have hy : (fun s => out w s + ((w k - w k : ℝ) : ℂ) * col s) = out w := by
    funext s; simp
  have h' : HasFDerivAt loss (∑ s, ((grad s).re • (Complex.reCLM.comp (ContinuousLinearMap.proj s)) +
    (grad s).im • (Complex.imCLM.comp (ContinuousLinearMap.proj s)) : (σ → ℂ) →L[ℝ] ℝ))
      ((fun t : ℝ => fun s => out w s + ((t - w k : ℝ) : ℂ) * col s) (w k)) := by
    simpa only [hy] using h
  have hc := h'.comp_hasDerivAt (w k) hγ
  have hd : (∑ s, ((grad s).re • (Complex.reCLM.comp (ContinuousLinearMap.proj s)) +
    (grad s).im • (Complex.imCLM.comp (ContinuousLinearMap.proj s)) : (σ → ℂ) →L[ℝ] ℝ)) col
      = ∑ s, ((grad s).re * (col s).re + (grad s).im * (col s).im) := by
    simp [ContinuousLinearMap.sum_apply]
  rw [hd] at hc
  refine hc.congr_of_eventuallyEq (Filter.Eventually.of_forall fun t => ?_)
  show loss _ = loss _
  congr 1
  funext s
  exact hout t s

end Verif.Jacobian
