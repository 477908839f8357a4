import Mathlib.Algebra.BigOperators.Fin
import Mathlib.Data.Complex.Basic
import Mathlib.Data.Complex.BigOperators

/-!
# Jacobians per example (utils/jacobian.py)

`gradient_per_example(loss, model)` returns, for every trainable array of the model, the derivative of
the loss of every example with respect to every entry.  It asks TensorFlow for the gradient of the loss
with respect to the *output* of every layer (one cheap backward pass) and rebuilds the derivative with
respect to the weights of the layer from the layer input.

The batch axis is left out: every operation in the file acts on each example on its own, so all arrays
below are those of one example.  Numbers are exact (real or complex) instead of floats.
-/

open scoped BigOperators

namespace Verif.Jacobian

/-! ## The layers -/

section Layers

variable {R : Type*} [CommSemiring R]

/-- A dense layer without activation on one example.  keras `Dense` and `ComplexDense.call`,
layers/complex/dense.py 44-50: `K.dot(inputs, kernel)` plus the bias (`0` if `use_bias` is false). -/
def denseCall {ι φ : Type*} [Fintype ι] (kernel : ι → φ → R) (bias : φ → R) (x : ι → R) : φ → R :=
  fun o => ∑ i, x i * kernel i o + bias o

/-- Number of rows (or columns) of the output of a convolution with padding `valid` and stride one:
the kernel spans `(size - 1) * dilation + 1` cells.  tensorflow semantics of `K.conv1d`/`K.conv2d`,
used by layers/complex/conv.py 93-107 and keras. -/
def validSize (input size dilation : ℕ) : ℕ := input - (size - 1) * dilation

/-- A two dimensional convolution (padding `valid`, stride one) without activation on one example, value
at row `p`, column `q`, channel `o`.  keras `Conv2D`, and `ComplexConv2D.call` (layers/complex/conv.py
93-107, whose splitting in four real convolutions is modelled in `Verif.ComplexConv`).  Simplification:
the image is a function of all row and column numbers; for `p`, `q` below `validSize` only cells of the
image are read. -/
def convCall {ι φ : Type*} [Fintype ι] {kh kw : ℕ} (dh dw : ℕ)
    (kernel : Fin kh → Fin kw → ι → φ → R) (bias : φ → R) (x : ℕ → ℕ → ι → R) (p q : ℕ) (o : φ) : R :=
  ∑ a : Fin kh, ∑ b : Fin kw, ∑ c, x (p + a * dh) (q + b * dw) c * kernel a b c o + bias o

/-- A one dimensional convolution (padding `valid`, stride one), keras `Conv1D`, `ComplexConv1D`. -/
def conv1dCall {ι φ : Type*} [Fintype ι] {kh : ℕ} (dh : ℕ)
    (kernel : Fin kh → ι → φ → R) (bias : φ → R) (x : ℕ → ι → R) (p : ℕ) (o : φ) : R :=
  ∑ a : Fin kh, ∑ c, x (p + a * dh) c * kernel a c o + bias o

/-! ## Their Jacobians -/

/-- `DenseJacobian.jacobian`, kernel part, utils/jacobian.py 31-32: the outer product of the layer input
and of the gradient of the loss with respect to the layer output. -/
def denseKernelJacobian {ι φ : Type*} (x : ι → R) (grad : φ → R) : ι → φ → R :=
  fun i o => x i * grad o

/-- `DenseJacobian.jacobian`, bias part, utils/jacobian.py 33. -/
def denseBiasJacobian {φ : Type*} (grad : φ → R) : φ → R := grad

/-- `tf.extract_image_patches(images, ksizes, strides = 1, rates, 'VALID')` for one image with a single
channel: the patch at row `u`, column `v` lists, row after row, the `kh` times `kw` cells whose distance
is `rates`.  Used in utils/jacobian.py 63-67 with `ksizes` the size of the layer *output* and `rates` the
dilation of the layer; `extract_complex_image_patches` (layers/complex/tensorflow_ops.py 57-66) does this
for the real and imaginary parts. -/
def imagePatch (kw rh rw : ℕ) (image : ℕ → ℕ → R) (u v s : ℕ) : R :=
  image (u + s / kw * rh) (v + s % kw * rw)

/-- Rows (or columns) of the array of patches: with padding `valid` a patch must fit in the image. -/
def patchesSize (input size rate : ℕ) : ℕ := input - (size - 1) * rate

/-- `tf.reshape(activations_grad, (-1, s, filters))`, utils/jacobian.py 71-72: the output gradients, row
after row. -/
def flatGrad {φ : Type*} (ow : ℕ) (grad : ℕ → ℕ → φ → R) (s : ℕ) (o : φ) : R :=
  grad (s / ow) (s % ow) o

/-- `ConvJacobian.jacobian`, kernel part, utils/jacobian.py 56-74: the einsum `bso,bixys->bxyio` of the
flattened gradients and the patches. The first component is the shape of the first two axes.
`h`, `w` are the sizes of the layer input, `oh`, `ow` those of the layer output. -/
def convKernelJacobian {ι φ : Type*} (h w oh ow dh dw : ℕ) (x : ℕ → ℕ → ι → R)
    (grad : ℕ → ℕ → φ → R) : (ℕ × ℕ) × (ℕ → ℕ → ι → φ → R) :=
  ((patchesSize h oh dh, patchesSize w ow dw),
    fun u v i o => ∑ s ∈ Finset.range (oh * ow),
      flatGrad ow grad s o * imagePatch ow dh dw (fun r c => x r c i) u v s)

/-- `ConvJacobian.jacobian`, bias part, utils/jacobian.py 77-78: the sum over the spatial axes. -/
def convBiasJacobian {φ : Type*} (oh ow : ℕ) (grad : ℕ → ℕ → φ → R) : φ → R :=
  fun o => ∑ p ∈ Finset.range oh, ∑ q ∈ Finset.range ow, grad p q o

/-- `ConvJacobian.jacobian` for a one dimensional layer, utils/jacobian.py 58-60 and 75-76: an axis of
size one is added to the input (and by `to_4d_shape`, lines 40-43, to the sizes) and dropped at the end. -/
def conv1dKernelJacobian {ι φ : Type*} (h oh dh : ℕ) (x : ℕ → ι → R)
    (grad : ℕ → φ → R) : ℕ × (ℕ → ι → φ → R) :=
  let r := convKernelJacobian h 1 oh 1 dh 1 (fun p _ => x p) (fun p _ => grad p)
  (r.1.1, fun u i o => r.2 u 0 i o)

end Layers

/-- `complex_values_jacobians_to_real_parts`, utils/jacobian.py 105-111, for one array: the Jacobian with
respect to the array of real parts and with respect to the array of imaginary parts. -/
noncomputable def toRealParts {κ : Type*} (jacobian : κ → ℂ) : (κ → ℝ) × (κ → ℝ) :=
  (fun k => ((starRingEnd ℂ) (jacobian k)).re, fun k => ((starRingEnd ℂ) (jacobian k)).im)

/-- The complex weight of a layer, `ComplexLayer.add_complex_weight`, layers/complex/base_layer.py 18-35:
two real arrays are trained, the second enters with a minus sign. -/
noncomputable def complexWeight {κ : Type*} (re im : κ → ℝ) : κ → ℂ := fun k => ⟨re k, -im k⟩

/-! ## Which layers are supported -/

/-- Type of a layer. `other` stands for any class that is not registered, also subclasses such as
`TranslationInvariantComplexDense` and wrappers such as `WeightNormalization`. -/
inductive Kind
  | dense | complexDense | conv1D | complexConv1D | conv2D | complexConv2D | other
  deriving DecidableEq

/-- What `gradient_per_example` reads off a layer. -/
structure LayerInfo where
  kind : Kind
  /-- `layer.count_params() > 0` -/
  hasParams : Bool
  /-- activation is `None` or `linear` -/
  linear : Bool
  paddingValid : Bool
  stridesOne : Bool

/-- `JacobianManager.get_layer_jacobian`, utils/jacobian.py 97-102 with the registrations 130-135 and the
assertions of the constructors 29 and 52-54; `none` stands for an exception. -/
def LayerInfo.supported (l : LayerInfo) : Option Unit :=
  match l.kind with
  | .other => none
  | .dense | .complexDense => if l.linear then some () else none
  | _ => if l.linear && l.paddingValid && l.stridesOne then some () else none

/-- The loop of `gradient_per_example`, utils/jacobian.py 114-123: layers without parameters are skipped,
each other layer contributes its arrays in order; an unsupported layer raises. `arrays` are the arrays
computed by the Jacobian of a layer (modelled above). -/
def gradientPerExample {α : Type*} (arrays : LayerInfo → List α) : List LayerInfo → Option (List α)
  | [] => some []
  | l :: rest =>
    if l.hasParams then
      match l.supported with
      | none => none
      | some () => (gradientPerExample arrays rest).map fun r => arrays l ++ r
    else gradientPerExample arrays rest

end Verif.Jacobian
