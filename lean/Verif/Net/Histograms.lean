import Mathlib.Analysis.SpecialFunctions.Complex.Log
import Mathlib.Analysis.Real.Pi.Bounds

/-!
# Property C138: the histogram layer only looks at the amplitudes

`LogSpaceComplexNumberHistograms` (layers/complex/histograms.py), put behind a network in log space to watch the amplitudes
in TensorBoard.
-/
namespace Verif.Net.Histograms

/-- The remainder TensorFlow computes for `x % y` of real tensors: `x - floor(x / y) y` (histograms.py:16). -/
noncomputable def floorMod (x y : ℝ) : ℝ := x - ⌊x / y⌋ * y

/-- `LogSpaceComplexNumberHistograms.call` (histograms.py:11-17): the summaries that are written, name and values, and the
output of the layer. A tensor is the list of its entries. Bucketing the values is TensorBoard's business. -/
noncomputable def call (x : List ℂ) : List (String × List ℝ) × List ℂ :=
  ([("magnitude", x.map fun z => 2 * z.re), ("phase", x.map fun z => z.im),
    ("normalized_phase", x.map fun z => floorMod z.im (2 * Real.pi))], x)

/-- **C138.** For every tensor of log amplitudes, the layer hands on its input unchanged; it writes three histograms, of which
`magnitude` holds the logarithms of the probabilities `|ψ|²`, `phase` the phases and `normalized_phase` the phases brought
to `[0, 2π)`. -/
theorem C138_histograms (x : List ℂ) :
    (call x).2 = x ∧
    ∃ mag ph nph, (call x).1 = [("magnitude", mag), ("phase", ph), ("normalized_phase", nph)] ∧
      mag.length = x.length ∧ ph.length = x.length ∧ nph.length = x.length ∧
      ∀ k (hk : k < x.length), ∃ m p q, mag[k]? = some m ∧ ph[k]? = some p ∧ nph[k]? = some q ∧
        Real.exp m = ‖Complex.exp x[k]‖ ^ 2 ∧
        Complex.exp x[k] = ‖Complex.exp x[k]‖ * Complex.exp (p * Complex.I) ∧
        Complex.exp x[k] = ‖Complex.exp x[k]‖ * Complex.exp (q * Complex.I) ∧ 0 ≤ q ∧ q < 2 * Real.pi := by
  have hpi : (0 : ℝ) < 2 * Real.pi := by positivity
  refine ⟨rfl, _, _, _, rfl, List.length_map _, List.length_map _, List.length_map _, fun k hk => ?_⟩
  simp only [List.getElem?_map, List.getElem?_eq_getElem hk, Option.map_some]
  refine ⟨_, _, _, rfl, rfl, rfl, ?_, ?_, ?_, ?_, ?_⟩
  · rw [Complex.norm_exp, ← Real.exp_nat_mul]
    norm_num
  · rw [Complex.norm_exp, Complex.ofReal_exp, ← Complex.exp_add, Complex.re_add_im]
  · have h : Complex.exp (floorMod x[k].im (2 * Real.pi) * Complex.I) = Complex.exp (x[k].im * Complex.I) := by
      unfold floorMod
      have h2 : ((x[k].im - ⌊x[k].im / (2 * Real.pi)⌋ * (2 * Real.pi) : ℝ) : ℂ) * Complex.I =
          x[k].im * Complex.I - ⌊x[k].im / (2 * Real.pi)⌋ * (2 * Real.pi * Complex.I) := by
        push_cast
        ring
      rw [h2, Complex.exp_sub, Complex.exp_int_mul_two_pi_mul_I, div_one]
    rw [h, Complex.norm_exp, Complex.ofReal_exp, ← Complex.exp_add, Complex.re_add_im]
  · unfold floorMod
    have := Int.floor_le (x[k].im / (2 * Real.pi))
    rw [le_div_iff₀ hpi] at this
    linarith
  · unfold floorMod
    have := Int.lt_floor_add_one (x[k].im / (2 * Real.pi))
    rw [div_lt_iff₀ hpi] at this
    linarith

/-- A concrete case: the amplitude `e^{-1 + 7 i}`, whose phase lies beyond one turn. -/
example : floorMod 7 (2 * Real.pi) = 7 - 2 * Real.pi := by
  unfold floorMod
  have h : ⌊7 / (2 * Real.pi)⌋ = 1 := by
    rw [Int.floor_eq_iff]
    have h1 := Real.pi_gt_three
    have h2 := Real.pi_lt_d2
    constructor
    · rw [le_div_iff₀ (by positivity)]
      push_cast
      linarith
    · rw [div_lt_iff₀ (by positivity)]
      push_cast
      linarith
  rw [h]
  push_cast
  ring

end Verif.Net.Histograms
