import Verif.Optimizers.Reconfiguration
import Mathlib.Analysis.Matrix.Spectrum
import Mathlib.Data.Fin.VecNotation

/-!
# C111: the statistics that stochastic reconfiguration reports

`ComplexValuesStochasticReconfiguration.metrics` offers Keras metrics that tell how the linear system of the
last step was solved (`src/flowket/optimizers/stochastic_reconfiguration/optimizer.py`).
-/
namespace Verif.Optimizers.SR

open Matrix ComplexOrder

variable {B P : Nat}

/-! ### Model -/

/-- The variables behind the metrics (optimizer.py:126-152, 158-167): iterations and residual norm are offered
with the iterative solver, rank and smallest eigenvalue with the direct one if `add_s_matrix_stats` is set. A missing smallest eigenvalue stands for
`inf`, the value of `reduce_min` on an empty tensor. -/
structure Stats where
  iterations : Nat
  residualNorm : ℝ
  rank : Nat
  minEigval : Option ℝ

/-- The updates after the conjugate gradient loop (optimizer.py:87-89); `float_norm` is the norm. -/
noncomputable def updateSolverStats (st : Stats) (s : CG.State P) : Stats :=
  { st with iterations := s.i, residualNorm := CG.norm s.r }

/-- The largest absolute entry of the matrix (optimizer.py:178-179). -/
noncomputable def maxAbs (S : Matrix (Fin P) (Fin P) ℂ) : NNReal :=
  Finset.univ.sup fun ij : Fin P × Fin P => ‖S ij.1 ij.2‖₊

/-- `tol` (optimizer.py:178-179); `eps` is `K.epsilon()`. -/
noncomputable def rankTol (eps : ℝ) (S : Matrix (Fin P) (Fin P) ℂ) : ℝ := eps * (P : ℝ) * (maxAbs S : ℝ)

/-- `filtered_eigvals` (optimizer.py:177-180). `tf.linalg.eigvalsh` returns the eigenvalues of a Hermitian
matrix with their multiplicities; their order does not matter here. -/
noncomputable def filteredEigvals (eps : ℝ) (S : Matrix (Fin P) (Fin P) ℂ) (hS : S.IsHermitian) : List ℝ :=
  open Classical in
  (List.ofFn fun p => |hS.eigenvalues p|).filter fun a => decide (a > rankTol eps S)

/-- `_update_s_matrix_stats` (optimizer.py:174-183) with `add_s_matrix_stats=True`, on the covariance
matrix before the shift is added (lines 58-61). -/
noncomputable def updateMatrixStats (eps : ℝ) (O : Matrix (Fin B) (Fin P) ℂ) (st : Stats) : Stats :=
  open Classical in
  let kept := filteredEigvals eps (covariance O) (covariance_posSemidef O).1
  { st with
    rank := (kept.filter fun a => decide (a ≠ 0)).length
    minEigval := kept.min? }

/-! ### Lemmas -/

theorem rankTol_nonneg {eps : ℝ} (he : 0 ≤ eps) (S : Matrix (Fin P) (Fin P) ℂ) : 0 ≤ rankTol eps S := by
  unfold rankTol
  positivity

theorem rankTol_le {eps : ℝ} (he : 0 ≤ eps) {S : Matrix (Fin P) (Fin P) ℂ} {M : ℝ} (hM : ∀ i j, ‖S i j‖ ≤ M) :
    rankTol eps S ≤ eps * P * M := by
  rcases Nat.eq_zero_or_pos P with rfl | hP
  · simp [rankTol]
  · have h0 : 0 ≤ M := (norm_nonneg _).trans (hM ⟨0, hP⟩ ⟨0, hP⟩)
    unfold rankTol
    refine mul_le_mul_of_nonneg_left ?_ (by positivity)
    have : maxAbs S ≤ ⟨M, h0⟩ := Finset.sup_le fun ij _ => hM ij.1 ij.2
    exact_mod_cast this

theorem le_rankTol {eps : ℝ} (he : 0 ≤ eps) (S : Matrix (Fin P) (Fin P) ℂ) (i j : Fin P) :
    eps * P * ‖S i j‖ ≤ rankTol eps S := by
  unfold rankTol
  refine mul_le_mul_of_nonneg_left ?_ (by positivity)
  have : ‖S i j‖₊ ≤ maxAbs S := Finset.le_sup (f := fun ij : Fin P × Fin P => ‖S ij.1 ij.2‖₊) (Finset.mem_univ (i, j))
  exact_mod_cast this

theorem mem_filtered {eps : ℝ} {S : Matrix (Fin P) (Fin P) ℂ} {hS : S.IsHermitian} {a : ℝ} :
    a ∈ filteredEigvals eps S hS ↔ (∃ p, |hS.eigenvalues p| = a) ∧ rankTol eps S < a := by
  classical
  unfold filteredEigvals
  rw [List.mem_filter, List.mem_ofFn]
  simp

theorem length_filter_ofFn {α : Type} (n : Nat) (f : Fin n → α) (q : α → Bool) :
    ((List.ofFn f).filter q).length = (Finset.univ.filter fun i => q (f i) = true).card := by
  rw [List.ofFn_eq_map, List.filter_map, List.length_map]
  have hnd : ((List.finRange n).filter (q ∘ f)).Nodup := (List.nodup_finRange n).filter _
  rw [← List.toFinset_card_of_nodup hnd]
  congr 1
  ext i
  simp

theorem rank_eq_count {eps : ℝ} (he : 0 ≤ eps) (O : Matrix (Fin B) (Fin P) ℂ) (st : Stats) :
    (updateMatrixStats eps O st).rank =
      (Finset.univ.filter fun p => rankTol eps (covariance O) < |(covariance_posSemidef O).1.eigenvalues p|).card := by
  classical
  unfold updateMatrixStats
  dsimp only
  have h : (filteredEigvals eps (covariance O) (covariance_posSemidef O).1).filter (fun a => decide (a ≠ 0)) =
      filteredEigvals eps (covariance O) (covariance_posSemidef O).1 := by
    rw [List.filter_eq_self]
    intro a ha
    have := (mem_filtered.1 ha).2
    have := rankTol_nonneg he (covariance O)
    simp only [decide_eq_true_eq]
    intro h0
    linarith
  rw [h]
  unfold filteredEigvals
  rw [length_filter_ofFn]
  congr 1
  ext p
  simp

theorem covariance_rank (hB : 0 < B) (O : Matrix (Fin B) (Fin P) ℂ) : (covariance O).rank = O.rank := by
  unfold covariance
  rw [Matrix.rank_smul_of_mem_nonZeroDivisors, Matrix.rank_conjTranspose_mul_self]
  refine mem_nonZeroDivisors_of_ne_zero ?_
  have : (B : ℂ) ≠ 0 := by exact_mod_cast hB.ne'
  exact one_div_ne_zero this

/-- A centred Jacobian has a rank below the number of samples. -/
theorem rank_minusMean (hB : 0 < B) (J : Matrix (Fin B) (Fin P) ℂ) : (minusMean J).rank ≤ B - 1 := by
  rw [← Matrix.rank_transpose]
  unfold Matrix.rank
  have h := LinearMap.finrank_range_add_finrank_ker (minusMean J)ᵀ.mulVecLin
  rw [Module.finrank_fin_fun] at h
  have hk : 0 < Module.finrank ℂ (LinearMap.ker (minusMean J)ᵀ.mulVecLin) := by
    have hmem : (fun _ => 1 : Fin B → ℂ) ∈ LinearMap.ker (minusMean J)ᵀ.mulVecLin := by
      rw [LinearMap.mem_ker, Matrix.mulVecLin_apply]
      funext p
      have := sum_minusMean hB J p
      simpa [Matrix.mulVec, dotProduct] using this
    have hne : (⟨_, hmem⟩ : LinearMap.ker (minusMean J)ᵀ.mulVecLin) ≠ 0 := by
      intro h0
      have := congrFun (congrArg Subtype.val h0) ⟨0, hB⟩
      simp at this
    exact Module.finrank_pos_iff_exists_ne_zero.2 ⟨_, hne⟩
  omega

theorem min?_spec {l : List ℝ} {m : ℝ} (h : l.min? = some m) : m ∈ l ∧ ∀ a ∈ l, m ≤ a := by
  exact List.min?_eq_some_iff.1 h

/-! ### C111 -/

/-- **C111, iterative solver.** After a step on a model with more than one parameter, the reported residual
norm is the norm of `v - S x`, where `x` is the direction of the step and `S` the regularised matrix, and the
reported number of iterations is at most the limit and at most the number of parameters; unless it is
the limit, the reported norm is at most `tol` times the norm of the right-hand side. -/
theorem C111_solver (J : Matrix (Fin B) (Fin P) ℂ) (shift tol : ℝ) (hs : 0 < shift) (ht : 0 ≤ tol)
    (maxIter : Nat) (v : Fin P → ℂ) (st : Stats) (s : CG.State P)
    (h : IterativeReturns (minusMean J) shift tol maxIter v (.ok (some s))) :
    let r := updateSolverStats st s
    r.residualNorm = CG.norm (v - sMatrix (minusMean J) shift *ᵥ s.x) ∧ r.iterations ≤ maxIter ∧ r.iterations ≤ P ∧
    (r.iterations ≠ maxIter → r.residualNorm ≤ tol * CG.norm v) := by
  have hP : P ≠ 1 := by
    rintro rfl
    rw [IterativeReturns, if_pos rfl] at h
    cases h
  obtain ⟨s', h1, h2, h3, h4⟩ := C32_iterative J hP shift tol hs ht maxIter v
  rw [IterativeReturns, if_neg hP] at h h1
  obtain ⟨o, ho, hr⟩ := h
  obtain ⟨o', ho', hr'⟩ := h1
  obtain rfl : some s = o := by injection ho
  obtain rfl : some s' = o' := by injection ho'
  obtain rfl : s = s' := Option.some.inj (CG.C33_deterministic _ _ _ _ _ _ _ _ hr hr')
  have hres := (CG.C33_result _ none v none tol (some maxIter) s hr).1
  have happ : productOp (minusMean J) shift s.x = sMatrix (minusMean J) shift *ᵥ s.x := product_eq _ _ _
  rw [happ] at hres
  refine ⟨?_, h3, h2, fun hne => ?_⟩
  · show CG.norm s.r = _
    rw [hres]
  · show CG.norm s.r ≤ _
    rw [hres]
    exact h4.resolve_right hne

/-- **C111, rank.** The reported rank never exceeds the rank of the covariance matrix of the derivatives,
which is below the number of samples. -/
theorem C111_rank_bound (hB : 0 < B) (J : Matrix (Fin B) (Fin P) ℂ) (eps : ℝ) (he : 0 ≤ eps) (st : Stats) :
    (updateMatrixStats eps (minusMean J) st).rank ≤ (covariance (minusMean J)).rank ∧
    (covariance (minusMean J)).rank ≤ B - 1 ∧ (covariance (minusMean J)).rank ≤ P := by
  refine ⟨?_, ?_, ?_⟩
  · rw [rank_eq_count he, (covariance_posSemidef (minusMean J)).1.rank_eq_card_non_zero_eigs, Fintype.card_subtype]
    apply Finset.card_le_card
    intro p hp
    rw [Finset.mem_filter] at hp ⊢
    refine ⟨hp.1, fun h0 => ?_⟩
    have := rankTol_nonneg he (covariance (minusMean J))
    have h2 := hp.2
    rw [h0, abs_zero] at h2
    linarith
  · rw [covariance_rank hB]
    exact rank_minusMean hB J
  · exact (Matrix.rank_le_card_width _).trans (by simp)

/-- **C111, rank, when no eigenvalue is lost.** If no entry of the covariance matrix is larger than `M` and all
its non-zero eigenvalues are above `K.epsilon() * P * M`, the reported rank is the rank. -/
theorem C111_rank_partial (J : Matrix (Fin B) (Fin P) ℂ) (eps : ℝ) (he : 0 ≤ eps) (st : Stats) (M : ℝ)
    (hM : ∀ i j, ‖covariance (minusMean J) i j‖ ≤ M)
    (hgap : ∀ (l : ℝ) (x : Fin P → ℂ), x ≠ 0 → covariance (minusMean J) *ᵥ x = (l : ℂ) • x → l ≠ 0 → eps * P * M < l) :
    (updateMatrixStats eps (minusMean J) st).rank = (covariance (minusMean J)).rank := by
  have hS := (covariance_posSemidef (minusMean J)).1
  rw [rank_eq_count he, hS.rank_eq_card_non_zero_eigs, Fintype.card_subtype]
  congr 1
  ext p
  simp only [Finset.mem_filter, Finset.mem_univ, true_and]
  constructor
  · intro h h0
    have := rankTol_nonneg he (covariance (minusMean J))
    rw [h0, abs_zero] at h
    linarith
  · intro h0
    have hv := hS.mulVec_eigenvectorBasis p
    have hne : (hS.eigenvectorBasis p).ofLp ≠ 0 := by
      intro h
      apply hS.eigenvectorBasis.toBasis.ne_zero p
      rw [OrthonormalBasis.coe_toBasis]
      ext i
      have := congrFun h i
      simpa using this
    have := hgap (hS.eigenvalues p) _ hne (by rw [hv]; rfl) h0
    exact (rankTol_le he hM).trans_lt (this.trans_le (le_abs_self _))

theorem minEigval_spec (J : Matrix (Fin B) (Fin P) ℂ) (eps : ℝ) (st : Stats) (m : ℝ)
    (h : (updateMatrixStats eps (minusMean J) st).minEigval = some m) :
    rankTol eps (covariance (minusMean J)) < m ∧
    (∃ p, (covariance_posSemidef (minusMean J)).1.eigenvalues p = m) ∧
    ∀ p, rankTol eps (covariance (minusMean J)) < (covariance_posSemidef (minusMean J)).1.eigenvalues p →
      m ≤ (covariance_posSemidef (minusMean J)).1.eigenvalues p := by
  obtain ⟨h1, h2⟩ := min?_spec (l := filteredEigvals eps _ _) h
  obtain ⟨⟨p, hp⟩, h4⟩ := mem_filtered.1 h1
  have hnn := (covariance_posSemidef (minusMean J)).eigenvalues_nonneg
  refine ⟨h4, ⟨p, ?_⟩, fun q hq => ?_⟩
  · rw [← hp, abs_of_nonneg (hnn p)]
  · exact h2 _ (mem_filtered.2 ⟨⟨q, abs_of_nonneg (hnn q)⟩, hq⟩)

/-- **C111, smallest eigenvalue.** A reported smallest eigenvalue is an eigenvalue of the covariance matrix; it
is above `K.epsilon() * P * |S i j|` for all entries, and at most as large as every eigenvalue above
`K.epsilon() * P * M`, if no entry is larger than `M`. -/
theorem C111_min_eigval (J : Matrix (Fin B) (Fin P) ℂ) (eps : ℝ) (he : 0 ≤ eps) (st : Stats) (m : ℝ)
    (h : (updateMatrixStats eps (minusMean J) st).minEigval = some m) :
    (∃ x : Fin P → ℂ, x ≠ 0 ∧ covariance (minusMean J) *ᵥ x = (m : ℂ) • x) ∧
    (∀ i j, eps * P * ‖covariance (minusMean J) i j‖ < m) ∧
    ∀ M, (∀ i j, ‖covariance (minusMean J) i j‖ ≤ M) → ∀ (l : ℝ) (x : Fin P → ℂ), x ≠ 0 →
      covariance (minusMean J) *ᵥ x = (l : ℂ) • x → eps * P * M < l → m ≤ l := by
  have hS := (covariance_posSemidef (minusMean J)).1
  obtain ⟨h1, ⟨p, hp⟩, h3⟩ := minEigval_spec J eps st m h
  refine ⟨⟨(hS.eigenvectorBasis p).ofLp, ?_, ?_⟩, fun i j => (le_rankTol he _ i j).trans_lt h1, ?_⟩
  · intro h
    apply hS.eigenvectorBasis.toBasis.ne_zero p
    rw [OrthonormalBasis.coe_toBasis]
    ext i
    have := congrFun h i
    simpa using this
  · have hv := hS.mulVec_eigenvectorBasis p
    rw [hp] at hv
    rw [hv]
    rfl
  · intro M hM l x hx hxl hl
    have hmem : l ∈ spectrum ℝ (covariance (minusMean J)) := by
      rw [← spectrum.algebraMap_mem_iff ℂ]
      rw [← Matrix.spectrum_toLin']
      apply Module.End.HasEigenvalue.mem_spectrum
      refine Module.End.hasEigenvalue_of_hasEigenvector (x := x) ⟨?_, hx⟩
      rw [Module.End.mem_eigenspace_iff, Matrix.toLin'_apply, hxl]
      rfl
    rw [hS.spectrum_real_eq_range_eigenvalues] at hmem
    obtain ⟨q, hq⟩ := hmem
    rw [← hq]
    refine h3 q ?_
    rw [hq]
    exact (rankTol_le he hM).trans_lt hl

/-! ### Where the reports are wrong -/

/-- Four samples of two parameters; the derivatives with respect to the second are `b` times as large. -/
def sampleJ (b : ℝ) : Matrix (Fin 4) (Fin 2) ℂ :=
  !![1, (b : ℂ); -1, (b : ℂ); 1, -(b : ℂ); -1, -(b : ℂ)]

theorem sample_centred (b : ℝ) : minusMean (sampleJ b) = sampleJ b := by
  ext i p
  fin_cases p <;> fin_cases i <;> simp [minusMean, sampleJ, Fin.sum_univ_four]

theorem sample_covariance (b : ℝ) : covariance (sampleJ b) = !![1, 0; 0, ((b ^ 2 : ℝ) : ℂ)] := by
  ext p q
  fin_cases p <;> fin_cases q <;>
    simp [covariance, sampleJ, Matrix.mul_apply, Fin.sum_univ_four, Matrix.conjTranspose_apply] <;> ring

theorem sample_maxAbs (b : ℝ) (h1 : |b| ≤ 1) : maxAbs (covariance (sampleJ b)) = 1 := by
  rw [sample_covariance]
  unfold maxAbs
  apply le_antisymm
  · apply Finset.sup_le
    rintro ⟨i, j⟩ -
    fin_cases i <;> fin_cases j
    · simp
    · simp
    · simp
    · rw [← NNReal.coe_le_coe]
      simp only [Fin.mk_one, Fin.isValue, Matrix.of_apply, Matrix.cons_val', Matrix.cons_val_one,
        Matrix.cons_val_fin_one, coe_nnnorm, NNReal.coe_one, Complex.norm_real, Real.norm_eq_abs, abs_pow]
      exact pow_le_one₀ (abs_nonneg b) h1
  · have : (1 : NNReal) = ‖(!![1, 0; 0, ((b ^ 2 : ℝ) : ℂ)] : Matrix (Fin 2) (Fin 2) ℂ) (0, 0).1 ((0 : Fin 2), (0 : Fin 2)).2‖₊ := by
      simp
    conv_lhs => rw [this]
    exact Finset.le_sup (f := fun ij : Fin 2 × Fin 2 =>
      ‖(!![1, 0; 0, ((b ^ 2 : ℝ) : ℂ)] : Matrix (Fin 2) (Fin 2) ℂ) ij.1 ij.2‖₊) (Finset.mem_univ ((0 : Fin 2), (0 : Fin 2)))

/-- **C111 is false of the code** for the rank: `K.epsilon()` (`1e-7`) is far above the precision of the
numbers, so a matrix of full rank two whose smaller eigenvalue is `1e-10` is reported to have rank one. -/
theorem C111_violated_rank (st : Stats) :
    (covariance (minusMean (sampleJ (1 / 10 ^ 5)))).rank = 2 ∧
    (updateMatrixStats (1 / 10 ^ 7) (minusMean (sampleJ (1 / 10 ^ 5))) st).rank = 1 := by
  rw [sample_centred]
  have hrank : (covariance (sampleJ (1 / 10 ^ 5))).rank = 2 := by
    rw [Matrix.rank_of_isUnit]
    · simp
    · rw [Matrix.isUnit_iff_isUnit_det, sample_covariance, Matrix.det_fin_two_of, isUnit_iff_ne_zero]
      norm_num
  refine ⟨hrank, ?_⟩
  have hS := (covariance_posSemidef (sampleJ (1 / 10 ^ 5))).1
  rw [rank_eq_count (by norm_num)]
  have hd := hS.det_eq_prod_eigenvalues
  have htr := hS.trace_eq_sum_eigenvalues
  have hcov := sample_covariance (1 / 10 ^ 5)
  have hd' : hS.eigenvalues 0 * hS.eigenvalues 1 = (1 / 10 ^ 5) ^ 2 := by
    have h1 : (covariance (sampleJ (1 / 10 ^ 5))).det = (((1 / 10 ^ 5) ^ 2 : ℝ) : ℂ) := by
      rw [hcov, Matrix.det_fin_two_of]
      simp
    rw [h1, Fin.prod_univ_two] at hd
    have hd2 := congrArg Complex.re hd
    simp only [Complex.ofReal_re, Complex.mul_re, Complex.ofReal_im, mul_zero, sub_zero,
      Complex.coe_algebraMap] at hd2
    linarith
  have htr' : hS.eigenvalues 0 + hS.eigenvalues 1 = 1 + (1 / 10 ^ 5) ^ 2 := by
    have h1 : (covariance (sampleJ (1 / 10 ^ 5))).trace = ((1 + (1 / 10 ^ 5) ^ 2 : ℝ) : ℂ) := by
      rw [hcov, Matrix.trace_fin_two_of]
      simp
    rw [h1, Fin.sum_univ_two] at htr
    have h2 := congrArg Complex.re htr
    simp only [Complex.ofReal_re, Complex.add_re, Complex.coe_algebraMap] at h2
    linarith
  have htol : rankTol (1 / 10 ^ 7) (covariance (sampleJ (1 / 10 ^ 5))) = 2 / 10 ^ 7 := by
    unfold rankTol
    rw [sample_maxAbs _ (by rw [abs_of_pos] <;> norm_num)]
    norm_num
  have hcases : (hS.eigenvalues 0 = 1 ∧ hS.eigenvalues 1 = (1 / 10 ^ 5) ^ 2) ∨
      (hS.eigenvalues 1 = 1 ∧ hS.eigenvalues 0 = (1 / 10 ^ 5) ^ 2) := by
    have h0 : (hS.eigenvalues 0 - 1) * (hS.eigenvalues 0 - (1 / 10 ^ 5) ^ 2) = 0 := by
      have : hS.eigenvalues 1 = 1 + (1 / 10 ^ 5) ^ 2 - hS.eigenvalues 0 := by linarith
      rw [this] at hd'
      nlinarith
    rcases mul_eq_zero.1 h0 with h | h
    · exact Or.inl ⟨by linarith, by linarith⟩
    · exact Or.inr ⟨by linarith, by linarith⟩
  rw [htol]
  have hcard : ∀ (f : Fin 2 → ℝ), (f 0 = 1 ∧ f 1 = (1 / 10 ^ 5) ^ 2 ∨ f 1 = 1 ∧ f 0 = (1 / 10 ^ 5) ^ 2) →
      (Finset.univ.filter fun p => (2 / 10 ^ 7 : ℝ) < |f p|).card = 1 := by
    intro f hf
    rw [Finset.card_eq_one]
    rcases hf with ⟨a, b⟩ | ⟨a, b⟩
    · refine ⟨0, ?_⟩
      ext p
      fin_cases p <;> simp [a, b] <;> norm_num
    · refine ⟨1, ?_⟩
      ext p
      fin_cases p <;> simp [a, b] <;> norm_num
  exact hcard _ hcases

/-- **C111 is false of the code** for the smallest eigenvalue: when all samples of a batch have the same
derivatives (a batch with one sample, or a collapsed sampler) nothing is left after filtering, and the
report is `inf`. -/
theorem C111_violated_min_eigval (hB : 0 < B) (J : Matrix (Fin B) (Fin P) ℂ) (hJ : ∀ b b' p, J b p = J b' p) (eps : ℝ)
    (he : 0 ≤ eps) (st : Stats) : (updateMatrixStats eps (minusMean J) st).minEigval = none ∧
      (updateMatrixStats eps (minusMean J) st).rank = 0 := by
  have h0 : minusMean J = 0 := by
    funext b p
    have hne : (B : ℂ) ≠ 0 := by exact_mod_cast hB.ne'
    show J b p - (∑ b', J b' p) / (B : ℂ) = 0
    rw [Finset.sum_congr rfl fun b' _ => hJ b' b p, Finset.sum_const, Finset.card_univ, Fintype.card_fin, nsmul_eq_mul]
    field_simp
    ring
  have hrank := (C111_rank_bound hB J eps he st).1
  have hcov : covariance (minusMean J) = 0 := by
    rw [h0]
    simp [covariance]
  have hr0 : (updateMatrixStats eps (minusMean J) st).rank = 0 := by
    rw [hcov, Matrix.rank_zero] at hrank
    omega
  refine ⟨?_, hr0⟩
  cases hm : (updateMatrixStats eps (minusMean J) st).minEigval with
  | none => rfl
  | some m =>
    exfalso
    obtain ⟨h1, ⟨p, hp⟩, -⟩ := minEigval_spec J eps st m hm
    have hz := (covariance_posSemidef (minusMean J)).1.eigenvalues_eq_zero_iff.2 hcov
    rw [hz] at hp
    have := rankTol_nonneg he (covariance (minusMean J))
    simp at hp
    linarith

/-! ### Concrete cases -/

/-- The hypothesis of `C111_rank_partial` is met: two derivatives of equal size, rank two reported. -/
example (st : Stats) : (updateMatrixStats (1 / 10 ^ 7) (minusMean (sampleJ 1)) st).rank =
    (covariance (minusMean (sampleJ 1))).rank := by
  refine C111_rank_partial _ _ (by norm_num) st 1 ?_ ?_ <;> rw [sample_centred]
  · intro i j
    rw [sample_covariance]
    fin_cases i <;> fin_cases j <;> simp
  intro l x hx h _
  have hone : (!![1, 0; 0, ((1 ^ 2 : ℝ) : ℂ)] : Matrix (Fin 2) (Fin 2) ℂ) = 1 := by
    ext i j
    fin_cases i <;> fin_cases j <;> simp
  rw [sample_covariance, hone, Matrix.one_mulVec] at h
  obtain ⟨p, hp⟩ := Function.ne_iff.1 hx
  have hp' := congrFun h p
  simp only [Pi.smul_apply, smul_eq_mul] at hp'
  have h1 : (l : ℂ) = 1 := mul_right_cancel₀ hp (by rw [one_mul]; exact hp'.symm)
  have : l = 1 := by exact_mod_cast h1
  rw [this]
  norm_num

end Verif.Optimizers.SR
