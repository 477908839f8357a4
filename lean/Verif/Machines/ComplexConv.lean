import Mathlib.Data.Complex.Basic
import Mathlib.Data.Complex.BigOperators
import Mathlib.Analysis.SpecialFunctions.Complex.Log
import Mathlib.Algebra.BigOperators.Fin
import Mathlib.Tactic.Ring
import Mathlib.Tactic.NormNum

/-!
# C96, C97: convolutions with complex numbers

Model of `src/flowket/layers/complex/tensorflow_ops.py:7-54,69-76`, of `_ComplexConv.call`
(`src/flowket/layers/complex/conv.py:93-107`) and of `ComplexDense.call` (`src/flowket/layers/complex/dense.py:44-50`).
One example at a time (the batch axis is carried along).
-/
namespace Verif.ComplexConv

open Finset

/-! ### Model -/

/-- How a convolution moves over its input: `cell out tap` is the cell of the input that the tap `tap` of the kernel meets
at the output position `out`, `none` for the zero padding. Every number of dimensions, stride, dilation and
padding is such a function. -/
structure Geometry (In Tap Out : Type) where
  cell : Out → Tap → Option In

variable {In Tap Out C F : Type} [Fintype Tap] [Fintype C]

/-- A convolution of real arrays, `tensorflow.keras.backend.conv1d/2d/3d` (conv.py:111-133), semantics of tensorflow. -/
def realConv (geo : Geometry In Tap Out) (x : In → C → ℝ) (kernel : Tap → C → F → ℝ) (out : Out) (f : F) : ℝ :=
  ∑ t, ∑ c, (match geo.cell out t with
    | some i => x i c
    | none => 0) * kernel t c f

/-- `keras_conv_to_complex_conv` (tensorflow_ops.py:7-13): four real convolutions. -/
noncomputable def kerasConvToComplexConv (conv : (In → C → ℝ) → (Tap → C → F → ℝ) → Out → F → ℝ) (x : In → C → ℂ)
    (kernel : Tap → C → F → ℂ) (out : Out) (f : F) : ℂ :=
  let ac := conv (fun i c => (x i c).re) (fun t c f => (kernel t c f).re) out f
  let bd := conv (fun i c => (x i c).im) (fun t c f => (kernel t c f).im) out f
  let ad := conv (fun i c => (x i c).re) (fun t c f => (kernel t c f).im) out f
  let bc := conv (fun i c => (x i c).im) (fun t c f => (kernel t c f).re) out f
  ⟨ac - bd, ad + bc⟩

/-- `_ComplexConv.call` (conv.py:93-107). -/
noncomputable def complexConvCall (geo : Geometry In Tap Out) (kernel : Tap → C → F → ℂ) (bias : Option (F → ℂ))
    (activation : Option (ℂ → ℂ)) (x : In → C → ℂ) (out : Out) (f : F) : ℂ :=
  let res := kerasConvToComplexConv (realConv geo) x kernel out f
  let res := match bias with
    | some b => res + b f
    | none => res
  match activation with
  | some a => a res
  | none => res

/-- `crelu` (tensorflow_ops.py:51-54). -/
noncomputable def crelu (z : ℂ) : ℂ := ⟨max z.re 0, max z.im 0⟩

/-- `angle` (tensorflow_ops.py:69-72): `atan2` of imaginary and real part. -/
noncomputable def angle (z : ℂ) : ℝ := Complex.arg ⟨z.re, z.im⟩

/-- `complex_log` (tensorflow_ops.py:75-76). -/
noncomputable def complexLog (z : ℂ) : ℂ := ⟨Real.log ‖z‖, angle z⟩

/-! ### C96 -/

/-- C96: whatever the number of dimensions, strides, dilation and padding, the layer computes the convolution with complex
arithmetic: at every output position the sum over taps and channels of input times weight (padding is zero), plus
the bias, then the activation. -/
theorem C96_convolution (geo : Geometry In Tap Out) (kernel : Tap → C → F → ℂ) (bias : Option (F → ℂ))
    (activation : Option (ℂ → ℂ)) (x : In → C → ℂ) (out : Out) (f : F) :
    complexConvCall geo kernel bias activation x out f =
      activation.getD id ((∑ t, ∑ c, ((geo.cell out t).elim 0 fun i => x i c) * kernel t c f) + (bias.getD 0) f) := by
  have h : kerasConvToComplexConv (realConv geo) x kernel out f =
      ∑ t, ∑ c, ((geo.cell out t).elim 0 fun i => x i c) * kernel t c f := by
    unfold kerasConvToComplexConv realConv
    apply Complex.ext
    · simp only [Complex.re_sum]
      rw [← sum_sub_distrib]
      refine sum_congr rfl fun t _ => ?_
      rw [← sum_sub_distrib]
      refine sum_congr rfl fun c _ => ?_
      cases geo.cell out t <;> simp [Complex.mul_re]
    · simp only [Complex.im_sum]
      rw [← sum_add_distrib]
      refine sum_congr rfl fun t _ => ?_
      rw [← sum_add_distrib]
      refine sum_congr rfl fun c _ => ?_
      cases geo.cell out t <;> simp [Complex.mul_im]
  unfold complexConvCall
  rw [h]
  cases bias <;> cases activation <;> simp

/-- C96: so the layer is complex linear in its input (without bias and activation). -/
theorem C96_linear (geo : Geometry In Tap Out) (kernel : Tap → C → F → ℂ) (a b : ℂ) (x y : In → C → ℂ) (out : Out) (f : F) :
    complexConvCall geo kernel none none (fun i c => a * x i c + b * y i c) out f =
      a * complexConvCall geo kernel none none x out f + b * complexConvCall geo kernel none none y out f := by
  simp only [C96_convolution, Option.getD_none, id, Pi.zero_apply, add_zero]
  rw [mul_sum, mul_sum, ← sum_add_distrib]
  refine sum_congr rfl fun t _ => ?_
  rw [mul_sum, mul_sum, ← sum_add_distrib]
  refine sum_congr rfl fun c _ => ?_
  cases geo.cell out t with
  | none => simp
  | some i => simp only [Option.elim_some]; ring

/-- C96: on a kernel and an input without imaginary part it is the real convolution. -/
theorem C96_real (geo : Geometry In Tap Out) (kernel : Tap → C → F → ℝ) (x : In → C → ℝ) (out : Out) (f : F) :
    complexConvCall geo (fun t c f => (kernel t c f : ℂ)) none none (fun i c => (x i c : ℂ)) out f = (realConv geo x kernel out f : ℝ) := by
  rw [C96_convolution]
  simp only [Option.getD_none, id, Pi.zero_apply, add_zero, realConv]
  push_cast
  refine sum_congr rfl fun t _ => sum_congr rfl fun c _ => ?_
  cases geo.cell out t <;> simp

/-- C96: `complex_log` is the principal complex logarithm: its exponential is the number (for numbers other than 0) and its
imaginary part is in `(-π, π]`. -/
theorem C96_log (z : ℂ) (hz : z ≠ 0) : Complex.exp (complexLog z) = z ∧ -Real.pi < (complexLog z).im ∧ (complexLog z).im ≤ Real.pi := by
  have h : complexLog z = Complex.log z := by
    apply Complex.ext
    · simp [complexLog, Complex.log_re]
    · simp [complexLog, Complex.log_im, angle]
  rw [h]
  exact ⟨Complex.exp_log hz, Complex.neg_pi_lt_log_im z, Complex.log_im_le_pi z⟩

/-- C96: `crelu` keeps exactly the nonnegative parts: it changes nothing in the closed first quadrant, its values are
there, and it acts on the two parts separately. -/
theorem C96_crelu (z : ℂ) : 0 ≤ (crelu z).re ∧ 0 ≤ (crelu z).im ∧ (0 ≤ z.re → (crelu z).re = z.re) ∧
    (z.re ≤ 0 → (crelu z).re = 0) ∧ (0 ≤ z.im → (crelu z).im = z.im) ∧ (z.im ≤ 0 → (crelu z).im = 0) :=
  ⟨le_max_right _ _, le_max_right _ _, fun h => max_eq_left h, fun h => max_eq_right h, fun h => max_eq_left h,
    fun h => max_eq_right h⟩

/-! ### C97: `conv2d_complex` -/

/-- The argument `padding` of `tensorflow.nn.conv2d`. -/
inductive Padding where
  | valid | same
  deriving DecidableEq

/-- Number of cells a kernel of `k` taps with dilation `d` spans. -/
def span (k d : ℕ) : ℕ := (k - 1) * d + 1

/-- Size of the output along an axis of `n` cells (semantics of tensorflow): `ceil((n - span + 1)/s)` or `ceil(n/s)`. -/
def outSize (pad : Padding) (n k s d : ℕ) : ℕ :=
  match pad with
  | .valid => (n + 1 - span k d + s - 1) / s
  | .same => (n + s - 1) / s

/-- Zeros in front of the axis (semantics of tensorflow): half of what is missing, rounded down. -/
def padBefore (pad : Padding) (n k s d : ℕ) : ℕ :=
  match pad with
  | .valid => 0
  | .same => ((outSize .same n k s d - 1) * s + span k d - n) / 2

/-- The cell a tap meets along an axis. -/
def axisCell (pad : Padding) (n k s d : ℕ) (out tap : ℕ) : Option (Fin n) :=
  let pos := out * s + tap * d
  let before := padBefore pad n k s d
  if before ≤ pos then
    if h : pos - before < n then some ⟨pos - before, h⟩ else none
  else none

/-- Shapes and settings of a two dimensional convolution in the format `NHWC`. -/
structure Conv2D where
  h : ℕ
  w : ℕ
  kh : ℕ
  kw : ℕ
  sh : ℕ
  sw : ℕ
  dh : ℕ
  dw : ℕ
  pad : Padding

/-- The geometry of `tensorflow.nn.conv2d`. -/
def Conv2D.geometry (p : Conv2D) : Geometry (Fin p.h × Fin p.w) (Fin p.kh × Fin p.kw) (ℕ × ℕ) where
  cell out tap :=
    match axisCell p.pad p.h p.kh p.sh p.dh out.1 tap.1, axisCell p.pad p.w p.kw p.sw p.dw out.2 tap.2 with
    | some a, some b => some (a, b)
    | _, _ => none

/-- The shape of the output (rows, columns). -/
def Conv2D.outShape (p : Conv2D) : ℕ × ℕ := (outSize p.pad p.h p.kh p.sh p.dh, outSize p.pad p.w p.kw p.sw p.dw)

/-- The result of `conv2d_complex` (tensorflow_ops.py:16-48): shape and values. The shortcut (lines 34-40) flattens the
image and the taps in row-major order (rows, columns, channels) and multiplies; it is taken if image and kernel
have the same shape (with as many input channels, here the type `C`) and the strides are the kernel size (lines
42-45). The dilations are looked at only in the general branch. -/
noncomputable def conv2dComplex (p : Conv2D) (x : Fin p.h × Fin p.w → C → ℂ) (kernel : Fin p.kh × Fin p.kw → C → F → ℂ) :
    (ℕ × ℕ) × (ℕ × ℕ → F → ℂ) :=
  if hs : (p.h = p.kh ∧ p.w = p.kw) ∧ p.sh = p.kh ∧ p.sw = p.kw then
    ((1, 1), fun _ f => ∑ t, ∑ c, x (t.1.cast hs.1.1.symm, t.2.cast hs.1.2.symm) c * kernel t c f)
  else (p.outShape, kerasConvToComplexConv (realConv p.geometry) x kernel)

/-- The complex convolution without shortcut (specification). -/
noncomputable def fullConv (p : Conv2D) (x : Fin p.h × Fin p.w → C → ℂ) (kernel : Fin p.kh × Fin p.kw → C → F → ℂ) (out : ℕ × ℕ)
    (f : F) : ℂ :=
  ∑ t, ∑ c, ((p.geometry.cell out t).elim 0 fun i => x i c) * kernel t c f

theorem outSize_one (pad : Padding) (k : ℕ) (hk : 0 < k) : outSize pad k k k 1 = 1 := by
  cases pad
  · simp only [outSize, span]
    rw [show k + 1 - ((k - 1) * 1 + 1) + k - 1 = k by omega, Nat.div_self hk]
  · simp only [outSize]
    rw [show k + k - 1 = k + (k - 1) by omega, Nat.add_div_left _ hk, Nat.div_eq_of_lt (by omega)]

theorem axisCell_zero (pad : Padding) (k : ℕ) (hk : 0 < k) (tap : Fin k) : axisCell pad k k k 1 0 tap = some tap := by
  have hb : padBefore pad k k k 1 = 0 := by
    cases pad
    · rfl
    · simp only [padBefore, outSize_one .same k hk, span]
      rw [show (1 - 1) * k + ((k - 1) * 1 + 1) - k = 0 by omega]
  unfold axisCell
  rw [hb]
  simp

/-- C97, partial: without dilation, for all shapes, strides, paddings and numbers of channels, the output has the shape of the
convolution and inside it the values of the complex convolution, whether or not the shortcut is taken. (Kernels
and images of at least one cell.) Missing: dilated convolutions, where the shortcut is wrong (`C97_violated`). The format
`NCHW` is the subject of `C97_nchw_partial`. -/
theorem C97_shortcut_partial (p : Conv2D) (hkh : 0 < p.kh) (hkw : 0 < p.kw) (hdh : p.dh = 1) (hdw : p.dw = 1)
    (x : Fin p.h × Fin p.w → C → ℂ) (kernel : Fin p.kh × Fin p.kw → C → F → ℂ) :
    (conv2dComplex p x kernel).1 = p.outShape ∧
    ∀ out, out.1 < p.outShape.1 → out.2 < p.outShape.2 → ∀ f, (conv2dComplex p x kernel).2 out f = fullConv p x kernel out f := by
  unfold conv2dComplex
  by_cases hs : (p.h = p.kh ∧ p.w = p.kw) ∧ p.sh = p.kh ∧ p.sw = p.kw
  · rw [dif_pos hs]
    obtain ⟨h, w, kh, kw, sh, sw, dh, dw, pad⟩ := p
    dsimp only at hkh hkw hdh hdw hs x kernel ⊢
    obtain ⟨⟨rfl, rfl⟩, rfl, rfl⟩ := hs
    subst hdh hdw
    have hshape : (⟨sh, sw, sh, sw, sh, sw, 1, 1, pad⟩ : Conv2D).outShape = (1, 1) := by
      simp only [Conv2D.outShape, outSize_one pad _ hkh, outSize_one pad _ hkw]
    rw [hshape]
    refine ⟨rfl, ?_⟩
    rintro ⟨o1, o2⟩ h1 h2 f
    obtain rfl : o1 = 0 := by simpa using h1
    obtain rfl : o2 = 0 := by simpa using h2
    unfold fullConv
    refine sum_congr rfl fun t _ => sum_congr rfl fun c _ => ?_
    have hc : (⟨sh, sw, sh, sw, sh, sw, 1, 1, pad⟩ : Conv2D).geometry.cell (0, 0) t = some t := by
      simp only [Conv2D.geometry, axisCell_zero pad _ hkh, axisCell_zero pad _ hkw]
    rw [hc]
    rfl
  · rw [dif_neg hs]
    refine ⟨rfl, fun out _ _ f => ?_⟩
    have h := C96_convolution p.geometry kernel none none x out f
    simpa [complexConvCall, fullConv] using h

/-- C97 is violated: on an image of 2 by 1 cells with a kernel of the same shape, strides of that size, padding `SAME` and
dilation 2, the convolution meets only one of the cells, the shortcut both. -/
theorem C97_violated : ∃ (p : Conv2D) (x : Fin p.h × Fin p.w → Unit → ℂ) (kernel : Fin p.kh × Fin p.kw → Unit → Unit → ℂ),
    p.outShape = (1, 1) ∧ (conv2dComplex p x kernel).1 = (1, 1) ∧
    (conv2dComplex p x kernel).2 (0, 0) () = 2 ∧ fullConv p x kernel (0, 0) () = 1 := by
  refine ⟨⟨2, 1, 2, 1, 2, 1, 2, 1, .same⟩, fun _ _ => 1, fun _ _ _ => 1, rfl, ?_, ?_, ?_⟩
  · unfold conv2dComplex; rw [dif_pos ⟨⟨rfl, rfl⟩, rfl, rfl⟩]
  · unfold conv2dComplex
    rw [dif_pos ⟨⟨rfl, rfl⟩, rfl, rfl⟩]
    simp
  · unfold fullConv
    rw [Fintype.sum_prod_type]
    simp [Fin.sum_univ_two, Conv2D.geometry, axisCell, padBefore, outSize, span]

/-- Hypotheses of `C97_shortcut_partial` are met by an image the shortcut is taken for. -/
example : let p : Conv2D := ⟨3, 2, 3, 2, 3, 2, 1, 1, .same⟩
    0 < p.kh ∧ 0 < p.kw ∧ p.dh = 1 ∧ p.dw = 1 ∧ (p.h = p.kh ∧ p.w = p.kw) ∧ p.sh = p.kh ∧ p.sw = p.kw := by decide

/-! ### The format `NCHW` -/

/-- The result of `conv2d_complex` (tensorflow_ops.py:16-48) with `data_format='NCHW'` and `strides=[1, 1, sh, sw]` (tensorflow
allows no other stride along the channels): shape without the batch axis and values. Lines 42-45 compare the shape `(channels,
rows, columns)` of the image with the shape `(kernel rows, kernel columns, channels)` of the filters, and the strides of channels
and rows with the size of the kernel; the output of the shortcut has the shape `(1, 1, filters)` (line 40). Where its condition
holds both flattened arrays run through the rows of the only channel and column. -/
noncomputable def conv2dComplexNCHW (p : Conv2D) (ci co : ℕ) (x : Fin p.h × Fin p.w → Fin ci → ℂ)
    (kernel : Fin p.kh × Fin p.kw → Fin ci → Fin co → ℂ) : List ℕ × (ℕ → ℕ → ℕ → ℂ) :=
  if hs : (ci = p.kh ∧ p.h = p.kw ∧ p.w = ci) ∧ 1 = p.kh ∧ p.sh = p.kw then
    ([1, 1, co], fun _ _ f => if hf : f < co then ∑ t : Fin p.h,
      x (t, ⟨0, by omega⟩) ⟨0, by omega⟩ * kernel (⟨0, by omega⟩, t.cast hs.1.2.1) ⟨0, by omega⟩ ⟨f, hf⟩ else 0)
  else ([co, p.outShape.1, p.outShape.2], fun f i j => if hf : f < co then
    kerasConvToComplexConv (realConv p.geometry) x kernel (i, j) ⟨f, hf⟩ else 0)

/-- C97 in the format `NCHW`, partial: for images of more than one channel or more than one column, with any strides, padding and
dilation, the output has the shape of the convolution, `(filters, rows, columns)`, and its values. Missing: images of one channel
and one column, where the shortcut is wrong (`C97_violated_nchw`). -/
theorem C97_nchw_partial (p : Conv2D) (ci co : ℕ) (hne : ¬ (ci = 1 ∧ p.w = 1)) (x : Fin p.h × Fin p.w → Fin ci → ℂ)
    (kernel : Fin p.kh × Fin p.kw → Fin ci → Fin co → ℂ) :
    (conv2dComplexNCHW p ci co x kernel).1 = [co, p.outShape.1, p.outShape.2] ∧
    ∀ (f : Fin co) (i j : ℕ), (conv2dComplexNCHW p ci co x kernel).2 f i j = fullConv p x kernel (i, j) f := by
  unfold conv2dComplexNCHW
  rw [dif_neg (by omega)]
  refine ⟨rfl, fun f i j => ?_⟩
  dsimp only
  rw [dif_pos f.isLt]
  have h := C96_convolution p.geometry kernel none none x (i, j) f
  simpa [complexConvCall, fullConv] using h

/-- C97 is violated in the format `NCHW`, even without dilation. An image of one channel, two rows and one column with a kernel of
one row and two columns, padding `SAME` and strides 2 and 1: the convolution meets one cell, the shortcut both. And with an image of
one cell and two filters the shortcut returns the filters along the last axis instead of the axis of channels. -/
theorem C97_violated_nchw :
    (∃ (p : Conv2D) (x : Fin p.h × Fin p.w → Fin 1 → ℂ) (kernel : Fin p.kh × Fin p.kw → Fin 1 → Fin 1 → ℂ),
      p.dh = 1 ∧ p.dw = 1 ∧ p.outShape = (1, 1) ∧ (conv2dComplexNCHW p 1 1 x kernel).1 = [1, 1, 1] ∧
      (conv2dComplexNCHW p 1 1 x kernel).2 0 0 0 = 2 ∧ fullConv p x kernel (0, 0) 0 = 1) ∧
    ∃ p : Conv2D, p.outShape = (1, 1) ∧ ∀ x kernel, (conv2dComplexNCHW p 1 2 x kernel).1 = [1, 1, 2] := by
  refine ⟨⟨⟨2, 1, 1, 2, 2, 1, 1, 1, .same⟩, fun _ _ => 1, fun _ _ _ => 1, rfl, rfl, rfl, ?_, ?_, ?_⟩,
    ⟨1, 1, 1, 1, 1, 1, 1, 1, .same⟩, rfl, fun x kernel => ?_⟩
  · unfold conv2dComplexNCHW; rw [dif_pos ⟨⟨rfl, rfl, rfl⟩, rfl, rfl⟩]
  · unfold conv2dComplexNCHW
    rw [dif_pos ⟨⟨rfl, rfl, rfl⟩, rfl, rfl⟩]
    simp
  · unfold fullConv
    rw [Fintype.sum_prod_type]
    simp [Fin.sum_univ_two, Conv2D.geometry, axisCell, padBefore, outSize, span]
  · unfold conv2dComplexNCHW; rw [dif_pos ⟨⟨rfl, rfl, rfl⟩, rfl, rfl⟩]

/-- An image of two channels meets the hypothesis of `C97_nchw_partial`, and its convolution is not empty. -/
example : let p : Conv2D := ⟨3, 2, 2, 2, 1, 1, 1, 1, .valid⟩
    ¬ ((2 : ℕ) = 1 ∧ p.w = 1) ∧ p.outShape = (2, 1) := by decide

end Verif.ComplexConv
