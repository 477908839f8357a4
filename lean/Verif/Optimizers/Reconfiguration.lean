import Verif.Optimizers.FlatProps
import Verif.Optimizers.ConjugateGradient
import Mathlib.LinearAlgebra.Matrix.NonsingularInverse
import Mathlib.Analysis.Matrix.PosDef

/-
Model of `ComplexValuesStochasticReconfiguration`
(`src/flowket/optimizers/stochastic_reconfiguration/optimizer.py`) and the properties C32 and C63.

`J b p` is the derivative of the prediction for sample `b` with respect to complex parameter `p`, as
returned by `get_predictions_jacobian` (complex_values_optimizer.py:72-76).
-/
namespace Verif.Optimizers.SR

open Matrix ComplexOrder

variable {B P : Nat}

/-- `get_wave_function_jacobian_minus_mean` (optimizer.py:111-114). -/
noncomputable def minusMean (J : Matrix (Fin B) (Fin P) ℂ) : Matrix (Fin B) (Fin P) ℂ :=
  fun b p => J b p - (∑ b', J b' p) / (B : ℂ)

/-- The covariance matrix without the shift (optimizer.py:58-59). -/
noncomputable def covariance (O : Matrix (Fin B) (Fin P) ℂ) : Matrix (Fin P) (Fin P) ℂ :=
  (1 / (B : ℂ)) • (Oᴴ * O)

/-- The matrix of the system (optimizer.py:58-61). -/
noncomputable def sMatrix (O : Matrix (Fin B) (Fin P) ℂ) (shift : ℝ) : Matrix (Fin P) (Fin P) ℂ :=
  covariance O + (shift : ℂ) • (1 : Matrix (Fin P) (Fin P) ℂ)

/-- `..._directly` (optimizer.py:55-67): exact solution of the system, `none` if the matrix is
singular. Cholesky and LU solution (63-66) agree in exact arithmetic; the statistics of lines 60 and 62
do not influence the result. -/
noncomputable def solveDirectly (O : Matrix (Fin B) (Fin P) ℂ) (shift : ℝ) (v : Fin P → ℂ) :
    Option (Fin P → ℂ) :=
  open Classical in
  if IsUnit (sMatrix O shift).det then some ((sMatrix O shift)⁻¹ *ᵥ v) else none

/-- The product used by the iterative solver when the Jacobian is at hand (optimizer.py:78-81). -/
noncomputable def product (O : Matrix (Fin B) (Fin P) ℂ) (shift : ℝ) (v : Fin P → ℂ) : Fin P → ℂ :=
  fun p => (Oᴴ *ᵥ (O *ᵥ v)) p / (B : ℂ) + (shift : ℂ) * v p

/-- `get_stochastic_reconfiguration_matrix_vector_product_via_jvp` (optimizer.py:116-124). The
derivatives TensorFlow computes are written with the Jacobian: `mean_grad` (117-118) is the mean of its
rows, the forward mode product (119) is `J v`, and the reverse mode product with conjugated parameters
(122-123) is `Jᴴ u`. -/
noncomputable def productViaJvp (J : Matrix (Fin B) (Fin P) ℂ) (shift : ℝ) (v : Fin P → ℂ) : Fin P → ℂ :=
  let meanGrad : Fin P → ℂ := fun p => (∑ b, J b p) / (B : ℂ)
  let jvp : Fin B → ℂ := J *ᵥ v
  let okRemainder : ℂ := ∑ p, v p * meanGrad p
  let okV : Fin B → ℂ := fun b => jvp b - okRemainder
  fun p => (Jᴴ *ᵥ okV) p / (B : ℂ) + v p * (shift : ℂ)

/-- The product as a linear operator. -/
noncomputable def productOp (O : Matrix (Fin B) (Fin P) ℂ) (shift : ℝ) : CG.Op P where
  toFun := product O shift
  map_add' := by
    intro x y
    funext p
    simp only [product, Matrix.mulVec_add, Pi.add_apply]
    ring
  map_smul' := by
    intro c x
    funext p
    simp only [product, Matrix.mulVec_smul, Pi.smul_apply, smul_eq_mul, RingHom.id_apply]
    ring

/-- `..._with_iterative_solver` (optimizer.py:69-92) with the Jacobian at hand: the outcome is the final
state of the conjugate gradient loop. With a single parameter `tf.squeeze` (line 72) leaves a number
instead of a vector and the matrix product of line 80 refuses it: `.error`. -/
def IterativeReturns (O : Matrix (Fin B) (Fin P) ℂ) (shift tol : ℝ) (maxIter : Nat) (v : Fin P → ℂ)
    (o : Except Unit (Option (CG.State P))) : Prop :=
  if P = 1 then o = .error ()
  else ∃ s, o = .ok s ∧ CG.Returns (productOp O shift) none v none tol (some maxIter) s

/-- `get_energy_grad` (optimizer.py:94-109) with the centred Jacobian, `use_energy_loss=False`. -/
noncomputable def energyGrad (O : Matrix (Fin B) (Fin P) ℂ) (target : Fin B → ℂ) : Fin P → ℂ :=
  Oᴴ *ᵥ fun b => (starRingEnd ℂ) (target b)

/-- The same without Jacobian (optimizer.py:104-106): the forward mode product of the vector of targets,
of which `from_complex_vector_to_tensors` takes the first `P` entries. The result has one entry per
sample. If `B < P` the split of the vector fails. If `B > P` the loop of the solver fails at
optimizer.py:120 as soon as it runs; here both are `none` (a zero right-hand side, for which the loop
does not run, is not distinguished). -/
noncomputable def energyGradViaJvp (J : Matrix (Fin B) (Fin P) ℂ) (target : Fin B → ℂ) :
    Option (Fin P → ℂ) :=
  if h : B = P then
    some (fun p => (J *ᵥ fun q => (starRingEnd ℂ) (target (Fin.cast h.symm q))) (Fin.cast h.symm p))
  else none

/-- `get_updates` (optimizer.py:33-43) with the direct solver. -/
noncomputable def getUpdatesDirect (lr shift : ℝ) (m : ComplexModel) (J : Matrix (Fin B) (Fin P) ℂ)
    (target : Fin B → ℂ) : Option ComplexModel :=
  let O := minusMean J
  (solveDirectly O shift (energyGrad O target)).bind fun x =>
    applyComplexGradient lr m (List.ofFn fun p => x p * (-1))

/-- `get_updates` (optimizer.py:33-43) with the iterative solver and the Jacobian at hand: `m'` is the
model after the step. -/
def UpdatesIterative (lr shift tol : ℝ) (maxIter : Nat) (m : ComplexModel) (J : Matrix (Fin B) (Fin P) ℂ)
    (target : Fin B → ℂ) (m' : ComplexModel) : Prop :=
  ∃ s, IterativeReturns (minusMean J) shift tol maxIter (energyGrad (minusMean J) target) (.ok (some s)) ∧
    applyComplexGradient lr m (List.ofFn fun p => s.x p * (-1)) = some m'

/-! ### Lemmas -/

theorem dot_eq (x y : Fin P → ℂ) : CG.dot x y = star x ⬝ᵥ y := rfl

theorem product_eq (O : Matrix (Fin B) (Fin P) ℂ) (shift : ℝ) (v : Fin P → ℂ) :
    product O shift v = sMatrix O shift *ᵥ v := by
  funext p
  unfold product sMatrix covariance
  rw [Matrix.add_mulVec, Matrix.smul_mulVec, Matrix.smul_mulVec, Matrix.one_mulVec, ← Matrix.mulVec_mulVec]
  simp only [Pi.add_apply, Pi.smul_apply, smul_eq_mul]
  ring

theorem sum_minusMean (hB : 0 < B) (J : Matrix (Fin B) (Fin P) ℂ) (p : Fin P) :
    ∑ b, minusMean J b p = 0 := by
  have : (B : ℂ) ≠ 0 := by exact_mod_cast hB.ne'
  unfold minusMean
  rw [Finset.sum_sub_distrib, Finset.sum_const, Finset.card_univ, Fintype.card_fin, nsmul_eq_mul]
  field_simp
  ring

theorem covariance_posSemidef (O : Matrix (Fin B) (Fin P) ℂ) : (covariance O).PosSemidef := by
  unfold covariance
  have h := Matrix.posSemidef_conjTranspose_mul_self O
  refine h.smul ?_
  have : (1 / (B : ℂ)) = ((1 / (B : ℝ) : ℝ) : ℂ) := by push_cast; rfl
  rw [this, Complex.zero_le_real]
  positivity

theorem sMatrix_posDef (O : Matrix (Fin B) (Fin P) ℂ) {shift : ℝ} (hs : 0 < shift) : (sMatrix O shift).PosDef := by
  unfold sMatrix
  refine Matrix.PosDef.posSemidef_add (covariance_posSemidef O) ?_
  refine Matrix.PosDef.one.smul ?_
  rw [Complex.zero_lt_real]
  exact hs

theorem hpd_product (O : Matrix (Fin B) (Fin P) ℂ) {shift : ℝ} (hs : 0 < shift) : CG.HPD (productOp O shift) := by
  have hpd := sMatrix_posDef O hs
  have happ : ∀ v, productOp O shift v = sMatrix O shift *ᵥ v := fun v => product_eq O shift v
  constructor
  · intro x y
    rw [happ, happ, dot_eq, dot_eq, Matrix.dotProduct_mulVec, Matrix.star_mulVec, hpd.1.eq]
  · intro x hx
    rw [happ, dot_eq]
    have := hpd.dotProduct_mulVec_pos hx
    exact (Complex.pos_iff.1 this).1

/-! ### C32 -/

/-- **C32.** The covariance matrix of the centred Jacobian is Hermitian and positive semidefinite, for
every Jacobian and batch size. -/
theorem C32_positive_semidefinite (J : Matrix (Fin B) (Fin P) ℂ) :
    (covariance (minusMean J)).IsHermitian ∧
    ∀ v : Fin P → ℂ, 0 ≤ (star v ⬝ᵥ (covariance (minusMean J) *ᵥ v)).re ∧
      (star v ⬝ᵥ (covariance (minusMean J) *ᵥ v)).im = 0 := by
  have h := covariance_posSemidef (minusMean J)
  refine ⟨h.1, fun v => ?_⟩
  have := Complex.nonneg_iff.1 (h.dotProduct_mulVec_nonneg v)
  exact ⟨this.1, this.2.symm⟩

/-- **C32.** The entries are the empirical covariances of the log-derivatives: mean of products minus
product of means. -/
theorem C32_is_covariance (hB : 0 < B) (J : Matrix (Fin B) (Fin P) ℂ) (p q : Fin P) :
    covariance (minusMean J) p q =
      (∑ b, (starRingEnd ℂ) (J b p) * J b q) / B -
        (starRingEnd ℂ) ((∑ b, J b p) / B) * ((∑ b, J b q) / B) := by
  have hB' : (B : ℂ) ≠ 0 := by exact_mod_cast hB.ne'
  have h1 : ∑ b, (starRingEnd ℂ) (minusMean J b p) * minusMean J b q =
      ∑ b, (starRingEnd ℂ) (J b p) * minusMean J b q := by
    have : ∀ b, (starRingEnd ℂ) (minusMean J b p) * minusMean J b q = (starRingEnd ℂ) (J b p) * minusMean J b q -
        (starRingEnd ℂ) ((∑ b', J b' p) / (B : ℂ)) * minusMean J b q := by
      intro b
      simp only [minusMean, map_sub]
      ring
    rw [Finset.sum_congr rfl fun b _ => this b, Finset.sum_sub_distrib, ← Finset.mul_sum, sum_minusMean hB]
    ring
  have h2 : ∑ b, (starRingEnd ℂ) (J b p) * minusMean J b q =
      ∑ b, (starRingEnd ℂ) (J b p) * J b q - (∑ b, (starRingEnd ℂ) (J b p)) * ((∑ b, J b q) / B) := by
    rw [Finset.sum_mul, ← Finset.sum_sub_distrib]
    refine Finset.sum_congr rfl fun b _ => ?_
    simp only [minusMean]
    ring
  have h3 : covariance (minusMean J) p q = (1 / (B : ℂ)) * ∑ b, (starRingEnd ℂ) (minusMean J b p) * minusMean J b q := by
    simp only [covariance, Matrix.smul_apply, Matrix.mul_apply, Matrix.conjTranspose_apply, smul_eq_mul]
    rfl
  rw [h3, h1, h2, map_div₀, map_sum, Complex.conj_natCast]
  field_simp

/-- **C32.** With a positive shift the system has exactly one solution, and the direct solver returns
it. -/
theorem C32_unique_solution (J : Matrix (Fin B) (Fin P) ℂ) (shift : ℝ) (hs : 0 < shift) (v : Fin P → ℂ) :
    ∃ x, solveDirectly (minusMean J) shift v = some x ∧
      (covariance (minusMean J) *ᵥ x + fun p => (shift : ℂ) * x p) = v ∧
      ∀ y, (covariance (minusMean J) *ᵥ y + fun p => (shift : ℂ) * y p) = v → y = x := by
  have hpd := sMatrix_posDef (minusMean J) hs
  have hu : IsUnit (sMatrix (minusMean J) shift).det := hpd.det_pos.ne'.isUnit
  have happ : ∀ y, (covariance (minusMean J) *ᵥ y + fun p => (shift : ℂ) * y p) =
      sMatrix (minusMean J) shift *ᵥ y := by
    intro y
    rw [sMatrix, Matrix.add_mulVec, Matrix.smul_mulVec, Matrix.one_mulVec]
    rfl
  refine ⟨(sMatrix (minusMean J) shift)⁻¹ *ᵥ v, by rw [solveDirectly, if_pos hu], ?_, ?_⟩
  · rw [happ, Matrix.mulVec_mulVec, Matrix.mul_nonsing_inv _ hu, Matrix.one_mulVec]
  · intro y hy
    rw [happ] at hy
    rw [← hy, Matrix.mulVec_mulVec, Matrix.nonsing_inv_mul _ hu, Matrix.one_mulVec]

/-- **C32.** The matrix-free product of the iterative solver is multiplication by the matrix of the
system. -/
theorem C32_product (J : Matrix (Fin B) (Fin P) ℂ) (shift : ℝ) (v : Fin P → ℂ) :
    product (minusMean J) shift v = covariance (minusMean J) *ᵥ v + fun p => (shift : ℂ) * v p := by
  rw [product_eq, sMatrix, Matrix.add_mulVec, Matrix.smul_mulVec, Matrix.one_mulVec]
  rfl

/-- **C32.** So is the product computed from forward and reverse mode derivatives of the uncentred
predictions. -/
theorem C32_product_via_jvp (hB : 0 < B) (J : Matrix (Fin B) (Fin P) ℂ) (shift : ℝ) (v : Fin P → ℂ) :
    productViaJvp J shift v = covariance (minusMean J) *ᵥ v + fun p => (shift : ℂ) * v p := by
  rw [← C32_product]
  have hB' : (B : ℂ) ≠ 0 := by exact_mod_cast hB.ne'
  have hok : (fun b => (J *ᵥ v) b - ∑ p, v p * ((∑ b, J b p) / (B : ℂ))) = minusMean J *ᵥ v := by
    funext b
    simp only [Matrix.mulVec, dotProduct, minusMean]
    rw [← Finset.sum_sub_distrib]
    exact Finset.sum_congr rfl fun p _ => by ring
  have hsum : ∑ b, (minusMean J *ᵥ v) b = 0 := by
    simp only [Matrix.mulVec, dotProduct]
    rw [Finset.sum_comm]
    refine Finset.sum_eq_zero fun p _ => ?_
    rw [← Finset.sum_mul, sum_minusMean hB, zero_mul]
  funext p
  unfold productViaJvp product
  dsimp only
  rw [hok]
  have : (Jᴴ *ᵥ (minusMean J *ᵥ v)) p = ((minusMean J)ᴴ *ᵥ (minusMean J *ᵥ v)) p := by
    have e : ∀ (M : Matrix (Fin B) (Fin P) ℂ), (Mᴴ *ᵥ (minusMean J *ᵥ v)) p =
        ∑ b, (starRingEnd ℂ) (M b p) * (minusMean J *ᵥ v) b := fun M => rfl
    rw [e, e]
    have : ∀ b, (starRingEnd ℂ) (minusMean J b p) * (minusMean J *ᵥ v) b =
        (starRingEnd ℂ) (J b p) * (minusMean J *ᵥ v) b -
          (starRingEnd ℂ) ((∑ b', J b' p) / (B : ℂ)) * (minusMean J *ᵥ v) b := by
      intro b
      conv_lhs => rw [show minusMean J b p = J b p - (∑ b', J b' p) / (B : ℂ) from rfl]
      rw [map_sub]
      ring
    rw [Finset.sum_congr rfl fun b _ => this b, Finset.sum_sub_distrib, ← Finset.mul_sum, hsum]
    ring
  rw [this]
  ring

/-- **C32.** The iterative solver, started on a model with more than one parameter, ends without
division by zero after at most `P` steps, and the result `x` satisfies the system up to the tolerance
unless the iteration limit was hit. -/
theorem C32_iterative (J : Matrix (Fin B) (Fin P) ℂ) (hP : P ≠ 1) (shift tol : ℝ) (hs : 0 < shift) (ht : 0 ≤ tol)
    (maxIter : Nat) (v : Fin P → ℂ) :
    ∃ s, IterativeReturns (minusMean J) shift tol maxIter v (.ok (some s)) ∧ s.i ≤ P ∧ s.i ≤ maxIter ∧
      (CG.norm (v - sMatrix (minusMean J) shift *ᵥ s.x) ≤ tol * CG.norm v ∨ s.i = maxIter) := by
  obtain ⟨s, h1, h2, _⟩ := CG.C33_terminates (productOp (minusMean J) shift) none (hpd_product _ hs)
    (by simp) v none tol ht (some maxIter)
  have hr := CG.C33_result _ none v none tol (some maxIter) s h1
  refine ⟨s, ?_, h2, hr.2.2 _ rfl, ?_⟩
  · rw [IterativeReturns, if_neg hP]
    exact ⟨_, rfl, h1⟩
  · have happ : productOp (minusMean J) shift s.x = sMatrix (minusMean J) shift *ᵥ s.x := product_eq _ _ _
    rcases hr.2.1 with h | h
    · left
      rw [happ] at h
      have hz : v - productOp (minusMean J) shift (CG.start none) = v := by
        simp [CG.start]
      rwa [hz] at h
    · right; exact (Option.some.inj h).symm

/-- **C32.** A full step with the direct solver: the flat vector of complex weights moves by `-lr · x`,
where `x` is the unique solution of the regularised system whose right-hand side is the energy
gradient. -/
theorem C32_update (lr shift : ℝ) (hs : 0 < shift) (m : ComplexModel) (hm : m.Valid)
    (hP : P = ((m.weights.map Tensor.shape).map List.prod).sum) (J : Matrix (Fin B) (Fin P) ℂ)
    (target : Fin B → ℂ) :
    ∃ m' x, getUpdatesDirect lr shift m J target = some m' ∧
      (covariance (minusMean J) *ᵥ x + fun p => (shift : ℂ) * x p) =
        (fun p => ∑ b, (starRingEnd ℂ) (minusMean J b p) * (starRingEnd ℂ) (target b)) ∧
      m'.weights.map Tensor.shape = m.weights.map Tensor.shape ∧
      m'.weights.flatMap Tensor.data =
        List.zipWith (fun w z => w - (lr : ℂ) * z) (m.weights.flatMap Tensor.data) (List.ofFn x) := by
  obtain ⟨x, hx, hsol, _⟩ := C32_unique_solution J shift hs (energyGrad (minusMean J) target)
  obtain ⟨m', h1, _, h2, h3⟩ := C30_complex_update lr m hm (List.ofFn fun p => x p * (-1))
    (by rw [List.length_ofFn]; exact hP)
  refine ⟨m', x, ?_, hsol, h2, ?_⟩
  · simp only [getUpdatesDirect, hx, Option.bind_some, h1]
  · rw [h3]
    have : (List.ofFn fun p => x p * (-1)) = (List.ofFn x).map fun z => z * (-1) := by
      rw [List.map_ofFn]; rfl
    rw [this, List.zipWith_map_right]
    congr 1
    funext w z
    ring

/-- **C32.** A full step with the iterative solver: the weights move by `-lr · x` where `x` solves the
system up to the tolerance, unless the iteration limit stopped the solver. -/
theorem C32_update_iterative (lr shift tol : ℝ) (hs : 0 < shift) (ht : 0 ≤ tol) (maxIter : Nat) (m : ComplexModel)
    (hm : m.Valid) (hP : P = ((m.weights.map Tensor.shape).map List.prod).sum) (hP1 : P ≠ 1)
    (J : Matrix (Fin B) (Fin P) ℂ) (target : Fin B → ℂ) :
    ∃ m' x i, UpdatesIterative lr shift tol maxIter m J target m' ∧
      (CG.norm (energyGrad (minusMean J) target - sMatrix (minusMean J) shift *ᵥ x) ≤
        tol * CG.norm (energyGrad (minusMean J) target) ∨ i = maxIter) ∧ i ≤ P ∧
      m'.weights.flatMap Tensor.data =
        List.zipWith (fun w z => w - (lr : ℂ) * z) (m.weights.flatMap Tensor.data) (List.ofFn x) := by
  obtain ⟨s, h1, h2, _, h4⟩ := C32_iterative J hP1 shift tol hs ht maxIter (energyGrad (minusMean J) target)
  obtain ⟨m', g1, _, _, g3⟩ := C30_complex_update lr m hm (List.ofFn fun p => s.x p * (-1))
    (by rw [List.length_ofFn]; exact hP)
  refine ⟨m', s.x, s.i, ⟨s, h1, g1⟩, h4, h2, ?_⟩
  rw [g3]
  have : (List.ofFn fun p => s.x p * (-1)) = (List.ofFn s.x).map fun z => z * (-1) := by
    rw [List.map_ofFn]; rfl
  rw [this, List.zipWith_map_right]
  congr 1
  funext w z
  ring

/-- Hypotheses of the update theorems can be met: two weights, batch of two. -/
example : ∃ m : ComplexModel, m.Valid ∧ 3 = ((m.weights.map Tensor.shape).map List.prod).sum :=
  ⟨⟨[⟨[1], [1]⟩, ⟨[2, 1], [2, 3]⟩], [⟨[1], [4]⟩, ⟨[2, 1], [5, 6]⟩]⟩,
    ⟨rfl, by simp [Tensor.Valid], by simp [Tensor.Valid]⟩, rfl⟩

/-! ### C63 -/

/-- **C63 (violated).** Computing products by differentiation instead of from the full Jacobian changes
the right-hand side of the system, so the two routes take different steps: with two samples and two
parameters the right-hand sides differ, and with a batch size different from the number of parameters
the second route fails. -/
theorem C63_violated :
    (∃ (J : Matrix (Fin 2) (Fin 2) ℂ) (target : Fin 2 → ℂ),
      energyGradViaJvp J target ≠ some (energyGrad (minusMean J) target)) ∧
    (∀ (B P : Nat), B ≠ P → ∀ (J : Matrix (Fin B) (Fin P) ℂ) (target : Fin B → ℂ),
      energyGradViaJvp J target = none) := by
  constructor
  · refine ⟨!![1, 0; 0, 0], ![1, 0], ?_⟩
    intro h
    have h' := congrFun (Option.some.inj h) 0
    simp [energyGrad, minusMean, Matrix.mulVec, dotProduct, Fin.sum_univ_two, Matrix.conjTranspose] at h'
    rw [map_ofNat] at h'
    norm_num at h'
  · intro B P h J target
    simp [energyGradViaJvp, h]

/-- **C63 (partial).** The two routes do agree on the matrix of the system (what is missing is the
right-hand side). -/
theorem C63_same_matrix_partial (hB : 0 < B) (J : Matrix (Fin B) (Fin P) ℂ) (shift : ℝ) (v : Fin P → ℂ) :
    productViaJvp J shift v = product (minusMean J) shift v := by
  rw [C32_product_via_jvp hB, C32_product]

end Verif.Optimizers.SR
