import Verif.Jacobian.Model
import Mathlib.Probability.Distributions.Gaussian.Real
import Mathlib.Analysis.SpecialFunctions.Complex.Circle
import Mathlib.Tactic.Ring
import Mathlib.Tactic.Linarith
import Mathlib.Tactic.FieldSimp

/-!
# C79: initial values of complex weights (layers/complex/initializers.py)
-/

open scoped BigOperators NNReal
open MeasureTheory ProbabilityTheory

namespace Verif.Initializers

open Verif.Jacobian (complexWeight)

variable {κ : Type*}

/-- A `StandartComplexValueInitializer` (layers/complex/initializers.py 98-132): the counter and the last
modulus and phase. `draws` counts how many pairs of arrays were asked from the random generator. -/
structure State (κ : Type*) where
  counter : ℕ := 0
  draws : ℕ := 0
  modulus : κ → ℝ := fun _ => 0
  phase : κ → ℝ := fun _ => 0

/-- `next_complex_nummber`, initializers.py 119-125. `random n` is the `n`-th pair (modulus, phase) made
by `_random_modulus_and_phase` (modelled below). `none` is the exception of line 124. -/
def State.next (random : ℕ → (κ → ℝ) × (κ → ℝ)) (s : State κ) : Option (State κ) :=
  let c := s.counter + 1
  if c = 2 then some { s with counter := c }
  else if c > 2 then none
  else some { counter := c, draws := s.draws + 1, modulus := (random s.draws).1, phase := (random s.draws).2 }

/-- `_RealPartInitializer.__call__`, initializers.py 73-75. -/
noncomputable def State.realPart (random : ℕ → (κ → ℝ) × (κ → ℝ)) (s : State κ) :
    Option (State κ × (κ → ℝ)) :=
  (s.next random).map fun s => (s, fun k => Real.cos (s.phase k) * s.modulus k)

/-- `_ImagPartInitializer.__call__`, initializers.py 85-87. -/
noncomputable def State.imagPart (random : ℕ → (κ → ℝ) × (κ → ℝ)) (s : State κ) :
    Option (State κ × (κ → ℝ)) :=
  (s.next random).map fun s => (s, fun k => Real.sin (s.phase k) * s.modulus k)

/-- `add_complex_weight`, layers/complex/base_layer.py 18-35: the real array is made by the real part
initialiser, the imaginary array by the negated imaginary part initialiser (`ConjugateDecorator` and
`NegateDecorator`, initializers.py 25-47), and the complex weight of the layer is `real - i * imag`. -/
noncomputable def addComplexWeight (random : ℕ → (κ → ℝ) × (κ → ℝ)) (s : State κ) :
    Option (State κ × (κ → ℂ)) := do
  let (s, re) ← s.realPart random
  let (s, im) ← s.imagPart random
  pure (s, complexWeight re fun k => -1 * im k)

/-- `_compute_fans` of tensorflow, used in initializers.py 110. -/
def computeFans : List ℕ → ℕ × ℕ
  | [] => (1, 1)
  | [n] => (n, n)
  | [a, b] => (a, b)
  | shape =>
    let receptive := (shape.take (shape.length - 2)).prod
    (receptive * shape.getD (shape.length - 2) 1, receptive * shape.getD (shape.length - 1) 1)

/-- The criterion, `'complex_glorot'` or `'complex_he'` (initializers.py 135-145). -/
inductive Criterion
  | glorot | he

/-- The scale, initializers.py 111-114. -/
noncomputable def scale (criterion : Criterion) (shape : List ℕ) : ℝ :=
  match criterion with
  | .glorot => 1 / ((computeFans shape).1 + (computeFans shape).2)
  | .he => 1 / (computeFans shape).1

/-- `random_rayleigh`, initializers.py 90-94, as a function of the two normal numbers. -/
noncomputable def rayleigh (x y : ℝ) : ℝ := Real.sqrt (x * x + y * y)

/-- Distribution of each of the two normal numbers: mean zero and standard deviation `scale * scale`
(initializers.py 91-93). -/
noncomputable def normal (scale : ℝ) : Measure ℝ := gaussianReal 0 (⟨(scale * scale) ^ 2, sq_nonneg _⟩ : ℝ≥0)

/-- The second moment `E |w|^2` of an initial weight. -/
noncomputable def secondMoment (scale : ℝ) (phase : ℝ) : ℝ :=
  ∫ x, ∫ y, ‖(rayleigh x y : ℂ) * Complex.exp (phase * Complex.I)‖ ^ 2 ∂normal scale ∂normal scale

/-! ## Properties -/

/-- **C79**, a fresh initialiser: both parts come from one draw, and the weight the layer uses is
`modulus * exp(i phase)` of this draw (no conjugation, no mixture of two draws). -/
theorem C79_weight_partial (random : ℕ → (κ → ℝ) × (κ → ℝ)) :
    ∃ s, addComplexWeight random {} = some (s, fun k =>
      ((random 0).1 k : ℂ) * Complex.exp ((random 0).2 k * Complex.I)) ∧ s.draws = 1 := by
  refine ⟨{ counter := 2, draws := 1, modulus := (random 0).1, phase := (random 0).2 }, ?_, rfl⟩
  have h : addComplexWeight random {} = some ({ counter := 2, draws := 1, modulus := (random 0).1, phase := (random 0).2 },
      complexWeight (fun k => Real.cos ((random 0).2 k) * (random 0).1 k)
        fun k => -1 * (Real.sin ((random 0).2 k) * (random 0).1 k)) := rfl
  rw [h]
  congr 2
  funext k
  unfold complexWeight
  rw [Complex.exp_mul_I]
  apply Complex.ext
  · simp [Complex.cos_ofReal_re, mul_comm]
  · simp [Complex.sin_ofReal_re, mul_comm]

/-- **C79**: an initialiser object can be used for one weight only, a second use raises. -/
theorem C79_single_use (random : ℕ → (κ → ℝ) × (κ → ℝ)) (s : State κ) (w : κ → ℂ)
    (h : addComplexWeight random {} = some (s, w)) : addComplexWeight random s = none := by
  have h' : addComplexWeight random {} = some ({ counter := 2, draws := 1, modulus := (random 0).1, phase := (random 0).2 },
      complexWeight (fun k => Real.cos ((random 0).2 k) * (random 0).1 k)
        fun k => -1 * (Real.sin ((random 0).2 k) * (random 0).1 k)) := rfl
  rw [h'] at h
  have := (Prod.mk.inj (Option.some.inj h)).1
  rw [← this]
  rfl

theorem integral_sq_normal (s : ℝ) : ∫ x, x ^ 2 ∂normal s = s ^ 4 := by
  unfold normal
  set v : ℝ≥0 := ⟨(s * s) ^ 2, sq_nonneg _⟩ with hv
  have h := variance_fun_id_gaussianReal (μ := 0) (v := v)
  rw [variance_eq_integral (by fun_prop)] at h
  simp only [integral_id_gaussianReal, sub_zero] at h
  rw [h, hv]
  show (s * s) ^ 2 = _
  ring

theorem integrable_sq_normal (s : ℝ) : Integrable (fun x => x ^ 2) (normal s) := by
  unfold normal
  exact (memLp_id_gaussianReal 2).integrable_sq

instance (s : ℝ) : IsProbabilityMeasure (normal s) := instIsProbabilityMeasureGaussianReal _ _

theorem secondMoment_eq (s phase : ℝ) : secondMoment s phase = 2 * s ^ 4 := by
  have hn : ∀ x y, ‖(rayleigh x y : ℂ) * Complex.exp (phase * Complex.I)‖ ^ 2 = x ^ 2 + y ^ 2 := by
    intro x y
    rw [norm_mul, Complex.norm_exp_ofReal_mul_I, mul_one, Complex.norm_real, Real.norm_eq_abs, sq_abs,
      rayleigh, Real.sq_sqrt (by nlinarith [mul_self_nonneg x, mul_self_nonneg y])]
    ring
  unfold secondMoment
  simp only [hn]
  have h1 : ∀ x, ∫ y, (x ^ 2 + y ^ 2) ∂normal s = x ^ 2 + s ^ 4 := by
    intro x
    rw [integral_add (integrable_const _) (integrable_sq_normal s), integral_sq_normal]
    simp
  simp only [h1]
  rw [integral_add (integrable_sq_normal s) (integrable_const _), integral_sq_normal]
  simp
  ring

/-- **C79 is false of the code** as to the size: the second moment of `complex_glorot` weights is
`2 / (fan_in + fan_out) ^ 4`, where the criterion asks for `2 / (fan_in + fan_out)`. -/
theorem C79_violated_glorot (shape : List ℕ) (phase : ℝ) :
    secondMoment (scale .glorot shape) phase
      = 2 / (((computeFans shape).1 : ℝ) + (computeFans shape).2) ^ 4 := by
  rw [secondMoment_eq]
  simp only [scale, div_pow, one_pow]
  ring

/-- The same for `complex_he`: `2 / fan_in ^ 4` instead of `2 / fan_in`. -/
theorem C79_violated_he (shape : List ℕ) (phase : ℝ) :
    secondMoment (scale .he shape) phase = 2 / ((computeFans shape).1 : ℝ) ^ 4 := by
  rw [secondMoment_eq]
  simp only [scale, div_pow, one_pow]
  ring

/-- The fans the two theorems speak of: for the kernel of a convolution in any number of dimensions, the number of inputs
(outputs) that one output (input) is connected to, that is channels times the cells of the kernel; a dense layer is the
convolution without cells. -/
theorem C79_fans (cells : List ℕ) (ins outs : ℕ) :
    computeFans (cells ++ [ins, outs]) = (cells.prod * ins, cells.prod * outs) := by
  rcases cells with _ | ⟨a, _ | ⟨b, l⟩⟩
  · simp [computeFans]
  · simp [computeFans]
  · have h1 : (a :: b :: l ++ [ins, outs]).length = l.length + 2 + 2 := by simp
    have h2 : (a :: b :: l ++ [ins, outs]).take (l.length + 2) = a :: b :: l := by
      rw [List.take_append_of_le_length (by simp)]
      exact List.take_of_length_le (by simp)
    have h3 : computeFans (a :: b :: l ++ [ins, outs]) =
        let s := a :: b :: l ++ [ins, outs]
        ((s.take (s.length - 2)).prod * s.getD (s.length - 2) 1, (s.take (s.length - 2)).prod * s.getD (s.length - 1) 1) := by
      cases l <;> rfl
    rw [h3]
    simp only [h1, Nat.add_sub_cancel, h2]
    have e : l.length + 2 + 2 - 1 = l.length + 3 := by omega
    rw [e]
    congr 1
    · congr 1
      simp [List.getD]
    · congr 1
      simp [List.getD]

/-- They differ for all layers but the smallest. -/
theorem C79_violated_differ (n : ℕ) (hn : 1 < n) : (2 : ℝ) / (n : ℝ) ^ 4 < 2 / (n : ℝ) := by
  have h1 : (1 : ℝ) < n := by exact_mod_cast hn
  have h0 : (0 : ℝ) < n := by linarith
  apply div_lt_div_of_pos_left (by norm_num) h0
  calc (n : ℝ) = (n : ℝ) ^ 1 := (pow_one _).symm
    _ < (n : ℝ) ^ 4 := pow_lt_pow_right₀ h1 (by norm_num)

/-- For a dense layer from ten inputs to ten units: `2 / 20 ^ 4` instead of `2 / 20`. -/
example (phase : ℝ) : secondMoment (scale .glorot [10, 10]) phase = 2 / 20 ^ 4 := by
  rw [C79_violated_glorot]
  norm_num [computeFans]

end Verif.Initializers
