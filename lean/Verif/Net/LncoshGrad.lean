import Verif.Symmetry.RBM
import Mathlib.Analysis.SpecialFunctions.Complex.LogDeriv
import Mathlib.Analysis.SpecialFunctions.Complex.Log
import Mathlib.Analysis.SpecialFunctions.Trigonometric.DerivHyp

/-!
C128: the gradient of `lncosh`.

`tf.gradients` runs backwards through the operations that `lncosh` is made of: absolute values, real logarithm,
arcus tangens of two arguments, exponentials. The absolute value has no derivative at zero and the arcus tangens
jumps; the gradient has to be right nevertheless.
-/
namespace Verif.Net.Backprop

/-- Kinds of tensors: real or complex. -/
inductive Kind where
  | real
  | complex

/-- Value of one entry. -/
@[reducible] def Kind.Val : Kind → Type
  | .real => ℝ
  | .complex => ℂ

/-- Graph of the operations used in tensorflow_ops.py lines 69-85 on one entry of the argument `z`. All of them
act entry by entry. Nodes used more than once appear more than once; `tf.gradients` adds what reaches them. -/
inductive Expr : Kind → Type where
  /-- The argument. -/
  | z : Expr .complex
  /-- A constant that does not depend on `z`. -/
  | const (c : ℂ) : Expr .complex
  /-- `tensorflow.math.real`. -/
  | real (e : Expr .complex) : Expr .real
  /-- `tensorflow.math.imag`. -/
  | imag (e : Expr .complex) : Expr .real
  /-- `tensorflow.math.abs` of a real tensor. -/
  | abs (e : Expr .real) : Expr .real
  /-- `tensorflow.math.abs` of a complex tensor. -/
  | complexAbs (e : Expr .complex) : Expr .real
  /-- `tensorflow.math.log` of a real tensor. -/
  | log (e : Expr .real) : Expr .real
  /-- `tensorflow.math.atan2(y, x)`. -/
  | atan2 (y x : Expr .real) : Expr .real
  /-- `tensorflow.cast` from a real to a complex type. -/
  | cast (e : Expr .real) : Expr .complex
  /-- `tensorflow.complex`. -/
  | complex (re im : Expr .real) : Expr .complex
  /-- `tensorflow.math.exp` of a complex tensor. -/
  | exp (e : Expr .complex) : Expr .complex
  | neg (e : Expr .complex) : Expr .complex
  | add (a b : Expr .complex) : Expr .complex
  | sub (a b : Expr .complex) : Expr .complex

/-- `angle` (tensorflow_ops.py lines 69-72). -/
def angle (number : Expr .complex) : Expr .real := .atan2 (.imag number) (.real number)

/-- `complex_log` (tensorflow_ops.py lines 75-76). -/
def complexLog (number : Expr .complex) : Expr .complex := .complex (.log (.complexAbs number)) (angle number)

/-- `lncosh` (tensorflow_ops.py lines 79-85) of the argument. -/
noncomputable def lncosh : Expr .complex :=
  let absZ := Expr.abs (.real .z)
  let complexAbsZ := Expr.cast absZ
  .add (.sub complexAbsZ (.const (Real.log 2)))
    (complexLog (.add (.exp (.sub .z complexAbsZ)) (.exp (.sub (.neg .z) complexAbsZ))))

/-- Value of a node in exact arithmetic, with the complex exponential as an argument; `none` if the logarithm has
no finite value. `atan2 y x` is the argument of `x + iy`. -/
noncomputable def value (expo : ℂ → ℂ) (z : ℂ) : {k : Kind} → Expr k → Option k.Val
  | _, .z => some z
  | _, .const c => some c
  | _, .real e => (value expo z e).map Complex.re
  | _, .imag e => (value expo z e).map Complex.im
  | _, .abs e => (value expo z e).map fun x : ℝ => |x|
  | _, .complexAbs e => (value expo z e).map fun x : ℂ => ‖x‖
  | _, .log e => (value expo z e).bind fun x : ℝ => if 0 < x then some (Real.log x) else none
  | _, .atan2 y x => (value expo z y).bind fun b => (value expo z x).map fun a => Complex.arg ⟨a, b⟩
  | _, .cast e => (value expo z e).map fun x : ℝ => (x : ℂ)
  | _, .complex re im => (value expo z re).bind fun a => (value expo z im).map fun b => (⟨a, b⟩ : ℂ)
  | _, .exp e => (value expo z e).map expo
  | _, .neg e => (value expo z e).map fun x : ℂ => -x
  | _, .add a b => (value expo z a).bind fun x => (value expo z b).map fun y => (x + y : ℂ)
  | _, .sub a b => (value expo z a).bind fun x => (value expo z b).map fun y => (x - y : ℂ)

/-- Sum of two gradients that reach the same node; not finite if one of them is not. -/
noncomputable def plus (a b : Option ℂ) : Option ℂ := a.bind fun x => b.map fun y => x + y

/-- What `tf.gradients` sends back to the argument through a node at which the gradient `g` arrives, by the
gradient functions TensorFlow registers for the operations: a gradient of a complex tensor is the sum of the real
gradient of its real part and `i` times the one of its imaginary part, holomorphic functions multiply with the
conjugate of their derivative, `abs` multiplies with the sign, which is zero at zero. `none` is a division by zero. -/
noncomputable def backprop (expo : ℂ → ℂ) (z : ℂ) : {k : Kind} → Expr k → k.Val → Option ℂ
  | _, .z, g => some g
  | _, .const _, _ => some 0
  | _, .real e, (g : ℝ) => backprop expo z e (g : ℂ)
  | _, .imag e, (g : ℝ) => backprop expo z e (⟨0, g⟩ : ℂ)
  | _, .abs e, (g : ℝ) => (value expo z e).bind fun x : ℝ => backprop expo z e (g * SignType.sign x : ℝ)
  | _, .complexAbs e, (g : ℝ) => (value expo z e).bind fun x : ℂ => backprop expo z e ((g : ℂ) * (x / ‖x‖))
  | _, .log e, (g : ℝ) => (value expo z e).bind fun x : ℝ => if x = 0 then none else backprop expo z e (g * x⁻¹ : ℝ)
  | _, .atan2 y x, (g : ℝ) => (value expo z y).bind fun b : ℝ => (value expo z x).bind fun a : ℝ =>
      if a ^ 2 + b ^ 2 = 0 then none else
        plus (backprop expo z y (a * (g / (a ^ 2 + b ^ 2)) : ℝ)) (backprop expo z x (-b * (g / (a ^ 2 + b ^ 2)) : ℝ))
  | _, .cast e, (g : ℂ) => backprop expo z e g.re
  | _, .complex re im, (g : ℂ) => plus (backprop expo z re g.re) (backprop expo z im g.im)
  | _, .exp e, (g : ℂ) => (value expo z e).bind fun x : ℂ => backprop expo z e (g * (starRingEnd ℂ) (expo x) : ℂ)
  | _, .neg e, (g : ℂ) => backprop expo z e (-g : ℂ)
  | _, .add a b, (g : ℂ) => plus (backprop expo z a g) (backprop expo z b g)
  | _, .sub a b, (g : ℂ) => plus (backprop expo z a g) (backprop expo z b (-g : ℂ))

/-! ### Proofs -/

theorem plus_some (a b : ℂ) : plus (some a) (some b) = some (a + b) := rfl

/-- The operations up to the logarithm. -/
noncomputable def twoExps : Expr .complex :=
  .add (.exp (.sub .z (.cast (.abs (.real .z))))) (.exp (.sub (.neg .z) (.cast (.abs (.real .z)))))

theorem value_twoExps (expo : ℂ → ℂ) (z : ℂ) :
    value expo z twoExps = some (expo (z - |z.re|) + expo (-z - |z.re|)) := rfl

theorem backprop_complexLog (expo : ℂ → ℂ) (z : ℂ) (e : Expr .complex) (w : ℂ) (hw : value expo z e = some w) (h0 : w ≠ 0)
    (hadd : ∀ g h : ℂ, plus (backprop expo z e g) (backprop expo z e h) = backprop expo z e (g + h : ℂ)) (g : ℂ) :
    backprop expo z (complexLog e) g = backprop expo z e (g / (starRingEnd ℂ) w : ℂ) := by
  have hn : ‖w‖ ≠ 0 := norm_ne_zero_iff.2 h0
  have hsq : w.re ^ 2 + w.im ^ 2 = ‖w‖ ^ 2 := by rw [← Complex.normSq_eq_norm_sq, Complex.normSq_apply]; ring
  have hsq0 : ‖w‖ ^ 2 ≠ 0 := pow_ne_zero 2 hn
  unfold complexLog angle
  simp only [backprop, value, hw, Option.map_some, Option.bind_some]
  rw [if_neg hn, hsq, if_neg hsq0, hadd, hadd]
  congr 1
  have hc : (starRingEnd ℂ) w ≠ 0 := (map_ne_zero _).2 h0
  have hwc : w * (starRingEnd ℂ) w = (‖w‖ : ℂ) ^ 2 := by
    rw [Complex.mul_conj, Complex.normSq_eq_norm_sq]
    push_cast
    rfl
  have hng : (‖w‖ : ℂ) ≠ 0 := by exact_mod_cast hn
  have h2 : (⟨0, w.re * (g.im / ‖w‖ ^ 2)⟩ : ℂ) + ((-w.im * (g.im / ‖w‖ ^ 2) : ℝ) : ℂ) =
      (g.im : ℂ) * Complex.I * w / (‖w‖ : ℂ) ^ 2 := by
    have : (g.im : ℂ) * Complex.I * w / (‖w‖ : ℂ) ^ 2 = ((g.im / ‖w‖ ^ 2 : ℝ) : ℂ) * (Complex.I * w) := by
      push_cast
      ring
    rw [this]
    apply Complex.ext
    · rw [Complex.add_re, Complex.ofReal_re, Complex.re_ofReal_mul, Complex.I_mul_re]
      ring
    · rw [Complex.add_im, Complex.ofReal_im, Complex.im_ofReal_mul, Complex.I_mul_im]
      ring
  rw [h2, eq_div_iff hc]
  have hg : g = g.re + g.im * Complex.I := (Complex.re_add_im g).symm
  push_cast
  field_simp
  rw [← hg, ← hwc]
  ring

theorem backprop_twoExps (expo : ℂ → ℂ) (z g : ℂ) :
    backprop expo z twoExps g = some (g * (starRingEnd ℂ) (expo (z - |z.re|) - expo (-z - |z.re|)) -
      ((g * (starRingEnd ℂ) (expo (z - |z.re|) + expo (-z - |z.re|))).re * SignType.sign z.re : ℝ)) := by
  unfold twoExps
  simp only [backprop, value, Option.map_some, Option.bind_some, plus_some]
  congr 1
  simp
  ring

/-- `tf.gradients` of `lncosh`, with any exponential function. -/
theorem backprop_lncosh (expo : ℂ → ℂ) (z g : ℂ) (hw : expo (z - |z.re|) + expo (-z - |z.re|) ≠ 0) :
    backprop expo z lncosh g = some (g * (starRingEnd ℂ) ((expo (z - |z.re|) - expo (-z - |z.re|)) /
      (expo (z - |z.re|) + expo (-z - |z.re|)))) := by
  have h1 : backprop expo z lncosh g = plus (some ((g.re * SignType.sign z.re : ℝ) + 0))
      (backprop expo z (complexLog twoExps) g) := rfl
  rw [h1, backprop_complexLog expo z twoExps _ (value_twoExps expo z) hw]
  · rw [backprop_twoExps, plus_some]
    congr 1
    have hc := (map_ne_zero (starRingEnd ℂ)).2 hw
    rw [div_mul_cancel₀ _ hc, map_div₀]
    ring
  · intro a b
    rw [backprop_twoExps, backprop_twoExps, backprop_twoExps, plus_some]
    congr 1
    simp
    ring

/-- The exponentials that `lncosh` computes add up to zero exactly where the hyperbolic cosine is zero, and have
its logarithmic derivative. -/
theorem exps (z : ℂ) : Complex.exp (z - |z.re|) + Complex.exp (-z - |z.re|) = 2 * Complex.exp (-|z.re|) * Complex.cosh z ∧
    Complex.exp (z - |z.re|) - Complex.exp (-z - |z.re|) = 2 * Complex.exp (-|z.re|) * Complex.sinh z := by
  rw [sub_eq_add_neg, sub_eq_add_neg, Complex.exp_add, Complex.exp_add, Complex.cosh, Complex.sinh]
  constructor <;> ring

/-- **C128.** Wherever the hyperbolic cosine is not zero, `tf.gradients` of `lncosh` gives the right gradient: with
`f` any holomorphic logarithm of the hyperbolic cosine near `z`, the gradient `g` of what follows is multiplied
with the conjugate of `f' z` (TensorFlow's convention for holomorphic functions). This includes the points
with real part zero, where the absolute value has no derivative, and those where `angle` jumps. It depends on
no exponential of a number with positive real part, so that it does not overflow. Such logarithms exist, also with
the value that `lncosh` itself has at `z`. -/
theorem C128_gradient (z g : ℂ) (hz : Complex.cosh z ≠ 0) :
    (∀ (f : ℂ → ℂ) (f' : ℂ), HasDerivAt f f' z → (∀ᶠ u in nhds z, Complex.exp (f u) = Complex.cosh u) →
      ∀ expo : ℂ → ℂ, (∀ w, ‖Complex.exp w‖ ≤ 1 → expo w = Complex.exp w) →
        backprop expo z lncosh g = some (g * (starRingEnd ℂ) f')) ∧
    ∃ (v : ℂ) (f : ℂ → ℂ) (f' : ℂ), value Complex.exp z lncosh = some v ∧ f z = v ∧ HasDerivAt f f' z ∧
      ∀ᶠ u in nhds z, Complex.exp (f u) = Complex.cosh u := by
  have he : ∀ u : ℂ, Complex.exp u ≠ 0 := Complex.exp_ne_zero
  obtain ⟨h1, h2⟩ := exps z
  have h3 : (2 : ℂ) * Complex.exp (-|z.re|) ≠ 0 := mul_ne_zero two_ne_zero (he _)
  have hw : Complex.exp (z - |z.re|) + Complex.exp (-z - |z.re|) ≠ 0 := by
    rw [h1]
    exact mul_ne_zero h3 hz
  constructor
  · intro f f' hf hexp expo hexpo
    have e1 : expo (z - |z.re|) = Complex.exp (z - |z.re|) := by
      refine hexpo _ ?_
      rw [Complex.norm_exp, Real.exp_le_one_iff, Complex.sub_re, Complex.ofReal_re]
      linarith [le_abs_self z.re]
    have e2 : expo (-z - |z.re|) = Complex.exp (-z - |z.re|) := by
      refine hexpo _ ?_
      rw [Complex.norm_exp, Real.exp_le_one_iff, Complex.sub_re, Complex.ofReal_re, Complex.neg_re]
      linarith [neg_abs_le z.re]
    rw [backprop_lncosh expo z g (by rw [e1, e2]; exact hw), e1, e2, h1, h2, mul_div_mul_left _ _ h3]
    have hd : HasDerivAt (fun u => Complex.exp (f u)) (Complex.exp (f z) * f') z := hf.cexp
    have hd' : HasDerivAt Complex.cosh (Complex.exp (f z) * f') z :=
      hd.congr_of_eventuallyEq (hexp.mono fun u hu => hu.symm)
    have h4 : Complex.exp (f z) * f' = Complex.sinh z := hd'.unique (Complex.hasDerivAt_cosh z)
    rw [hexp.self_of_nhds] at h4
    rw [← h4, mul_div_cancel_left₀ _ hz]
  · set w := Complex.exp (z - |z.re|) + Complex.exp (-z - |z.re|) with hwd
    set v : ℂ := ((|z.re| : ℝ) : ℂ) - (Real.log 2 : ℂ) + Complex.log w with hv
    have hval : value Complex.exp z lncosh = some v := by
      unfold lncosh complexLog angle
      simp only [value, Option.map_some, Option.bind_some]
      rw [← hwd, if_pos (norm_pos_iff.2 hw)]
      simp only [Option.map_some, Option.bind_some]
      have hl : (⟨Real.log ‖w‖, Complex.arg ⟨w.re, w.im⟩⟩ : ℂ) = Complex.log w :=
        Complex.ext (by rw [Complex.log_re]) (by rw [Complex.log_im])
      rw [hl]
    have hev : Complex.exp v = Complex.cosh z := by
      rw [hv, Complex.exp_add, Complex.exp_log hw, h1, Complex.exp_sub, ← Complex.ofReal_exp (Real.log 2),
        Real.exp_log two_pos, Complex.exp_neg]
      have := he (|z.re| : ℝ)
      push_cast
      field_simp
    refine ⟨v, fun u => v + Complex.log (Complex.cosh u / Complex.cosh z), Complex.sinh z / Complex.cosh z / (Complex.cosh z / Complex.cosh z), hval, ?_, ?_, ?_⟩
    · show v + Complex.log (Complex.cosh z / Complex.cosh z) = v
      rw [div_self hz, Complex.log_one, add_zero]
    · have hd := ((Complex.hasDerivAt_cosh z).div_const (Complex.cosh z)).clog (by
        rw [div_self hz]
        exact Complex.one_mem_slitPlane)
      exact hd.const_add v
    · have hne : ∀ᶠ u in nhds z, Complex.cosh u ≠ 0 :=
        (Complex.hasDerivAt_cosh z).continuousAt.eventually_ne hz
      filter_upwards [hne] with u hu
      rw [Complex.exp_add, hev, Complex.exp_log (div_ne_zero hu hz), mul_div_cancel₀ _ hz]

/-- **C128**, with the formula: the factor is the conjugate of the hyperbolic tangent. -/
theorem C128_tanh (z g : ℂ) (hz : Complex.cosh z ≠ 0) :
    backprop Complex.exp z lncosh g = some (g * (starRingEnd ℂ) (Complex.tanh z)) := by
  obtain ⟨h1, h2⟩ := exps z
  have h3 : (2 : ℂ) * Complex.exp (-|z.re|) ≠ 0 := mul_ne_zero two_ne_zero (Complex.exp_ne_zero _)
  rw [backprop_lncosh _ z g (by rw [h1]; exact mul_ne_zero h3 hz), h1, h2, mul_div_mul_left _ _ h3,
    Complex.tanh_eq_sinh_div_cosh]

/-- **C128**, the remaining points: where the hyperbolic cosine is zero, `lncosh` is a logarithm of zero, and the
gradient is not a number. -/
theorem C128_zero (z g : ℂ) (hz : Complex.cosh z = 0) : backprop Complex.exp z lncosh g = none := by
  have hw : Complex.exp (z - |z.re|) + Complex.exp (-z - |z.re|) = 0 := by rw [(exps z).1, hz, mul_zero]
  unfold lncosh complexLog angle
  simp only [backprop, value, Option.map_some, Option.bind_some, hw, norm_zero, if_true, plus, Option.bind_none, Option.map_none]

/-- The points of interest exist: real part zero with `angle` at its jump is `z = πi`, where the hyperbolic cosine
is `-1`; and it is zero at `πi/2`. -/
example : Complex.cosh (Real.pi * Complex.I) = -1 ∧ Complex.cosh (Real.pi / 2 * Complex.I) = 0 := by
  rw [Complex.cosh_mul_I, Complex.cosh_mul_I]
  exact ⟨Complex.cos_pi, Complex.cos_pi_div_two⟩

end Verif.Net.Backprop
