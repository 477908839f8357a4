import Verif.Optimizers.EnergyLoss

/-!
# C168: stochastic reconfiguration does not depend on how the network is parametrised

Two networks that compute the same function of weights `w` and `A w`, trained by stochastic reconfiguration from the same wave
function, go on to have the same wave function after every step: for every invertible `A` without diagonal shift, for every unitary
`A` (a permutation of the weights, say) with any.
-/
namespace Verif.Optimizers.SR

open Matrix

variable {B P : Nat} {σ : Type}

/-! ### Model -/

/-- Training by stochastic reconfiguration with the direct solver: before every step a batch of configurations and targets is drawn
for the current wave function (optimization/variational_monte_carlo.py:42-50), then `get_updates`
(optimizers/stochastic_reconfiguration/optimizer.py:33-43) changes the weights. `D w s p` is the derivative of the output for the
configuration `s` by weight `p` (the Jacobian, optimizer.py:35-38). `none` once a system is singular. -/
noncomputable def train (P : Nat) (lr shift : ℝ) (net : (Fin P → ℂ) → σ → ℂ) (D : (Fin P → ℂ) → σ → Fin P → ℂ)
    (draw : (σ → ℂ) → Nat → Fin B → σ × ℂ) : Nat → ComplexModel → Option ComplexModel
  | 0, m => some m
  | k + 1, m => (train P lr shift net D draw k m).bind fun m =>
    let batch := draw (net (flatWeights P m)) k
    getUpdatesDirect lr shift m (fun b => D (flatWeights P m) (batch b).1) fun b => (batch b).2

/-! ### Specification -/

/-- A model with `P` complex weights in all. -/
structure Fits (P : Nat) (m : ComplexModel) : Prop where
  valid : m.Valid
  size : P = ((m.weights.map Tensor.shape).map List.prod).sum

/-- `D` holds the derivatives of the outputs of `net` by the weights. -/
def Derivative (net : (Fin P → ℂ) → σ → ℂ) (D : (Fin P → ℂ) → σ → Fin P → ℂ) : Prop :=
  ∀ w s, ∃ L : (Fin P → ℂ) →L[ℂ] ℂ, HasFDerivAt (fun w => net w s) L w ∧ ∀ p, D w s p = L (Pi.single p 1)

/-! ### Proofs -/

theorem update_exists {m : ComplexModel} (hm : Fits P m) (lr shift : ℝ) (J : Matrix (Fin B) (Fin P) ℂ) (t : Fin B → ℂ) :
    match solveDirectly (minusMean J) shift (energyGrad (minusMean J) t) with
    | none => getUpdatesDirect lr shift m J t = none
    | some x => ∃ m1, getUpdatesDirect lr shift m J t = some m1 ∧ Fits P m1 ∧ flatWeights P m1 = flatWeights P m + (lr : ℂ) • (-x) := by
  have hlen : (m.weights.flatMap Tensor.data).length = P := by
    obtain ⟨hs', hre, him⟩ := hm.valid
    have hlen : m.real.length = m.imag.length := by simpa using congrArg List.length hs'
    have hws : m.weights.map Tensor.shape = m.real.map Tensor.shape := shape_complexWeight _ _ hlen
    rw [ComplexModel.weights, flatMap_complexWeight _ _ hs' hre him, List.length_zipWith,
      length_flatMap_valid _ hre, length_flatMap_valid _ him, ← hs', min_self, ← hws, hm.size]
    rfl
  cases hx : solveDirectly (minusMean J) shift (energyGrad (minusMean J) t) with
  | none => simp only [getUpdatesDirect, hx, Option.bind_none]
  | some x =>
    obtain ⟨m', g1, g2, g4, g3⟩ := C30_complex_update lr m hm.valid (List.ofFn fun p => x p * (-1)) (by rw [List.length_ofFn]; exact hm.size)
    refine ⟨m', by simp only [getUpdatesDirect, hx, Option.bind_some, g1], ⟨g2, by rw [g4]; exact hm.size⟩, ?_⟩
    exact flat_update (lr := lr) (m := m) (m' := m') hlen x (by
      rw [g3, show (List.ofFn fun p => x p * (-1)) = (List.ofFn x).map fun z => z * (-1) by rw [List.map_ofFn]; rfl,
        List.zipWith_map_right]
      congr 1
      funext w z
      ring)

theorem minusMean_mul (J : Matrix (Fin B) (Fin P) ℂ) (A : Matrix (Fin P) (Fin P) ℂ) : minusMean (J * A) = minusMean J * A := by
  ext b q
  simp only [minusMean, Matrix.mul_apply, sub_mul, Finset.sum_sub_distrib]
  rw [Finset.sum_comm, Finset.sum_div]
  congr 1
  refine Finset.sum_congr rfl fun p _ => ?_
  rw [← Finset.sum_mul]
  ring

theorem energyGrad_mul (O : Matrix (Fin B) (Fin P) ℂ) (A : Matrix (Fin P) (Fin P) ℂ) (t : Fin B → ℂ) :
    energyGrad (O * A) t = Aᴴ *ᵥ energyGrad O t := by
  unfold energyGrad
  rw [conjTranspose_mul, mulVec_mulVec]

theorem sMatrix_mul (O : Matrix (Fin B) (Fin P) ℂ) (A : Matrix (Fin P) (Fin P) ℂ) (shift : ℝ) (h : shift = 0 ∨ Aᴴ * A = 1) :
    sMatrix (O * A) shift = Aᴴ * sMatrix O shift * A := by
  unfold sMatrix covariance
  rw [conjTranspose_mul, Matrix.mul_add, Matrix.add_mul]
  congr 1
  · rw [Matrix.mul_smul, Matrix.smul_mul]
    simp only [Matrix.mul_assoc]
  · rw [Matrix.mul_smul, Matrix.smul_mul, Matrix.mul_one]
    rcases h with h | h
    · rw [h]; simp
    · rw [h]

theorem solve_mul (O : Matrix (Fin B) (Fin P) ℂ) (A : Matrix (Fin P) (Fin P) ℂ) (hA : IsUnit A.det) (shift : ℝ)
    (h : shift = 0 ∨ Aᴴ * A = 1) (t : Fin B → ℂ) :
    (solveDirectly (O * A) shift (energyGrad (O * A) t)).map (fun x => A *ᵥ x) = solveDirectly O shift (energyGrad O t) := by
  have hAt : IsUnit Aᴴ.det := by rw [det_conjTranspose]; exact hA.star
  have hdet : IsUnit (sMatrix (O * A) shift).det ↔ IsUnit (sMatrix O shift).det := by
    rw [sMatrix_mul O A shift h, det_mul, det_mul, IsUnit.mul_iff, IsUnit.mul_iff]
    exact ⟨fun h => h.1.2, fun h => ⟨⟨hAt, h⟩, hA⟩⟩
  unfold solveDirectly
  by_cases hS : IsUnit (sMatrix O shift).det
  · rw [if_pos hS, if_pos (hdet.2 hS), Option.map_some, sMatrix_mul O A shift h, energyGrad_mul, mulVec_mulVec, mulVec_mulVec,
      Matrix.mul_inv_rev, Matrix.mul_inv_rev]
    congr 2
    rw [← Matrix.mul_assoc A, Matrix.mul_nonsing_inv _ hA, Matrix.one_mul, Matrix.mul_assoc, Matrix.nonsing_inv_mul _ hAt, Matrix.mul_one]
  · rw [if_neg hS, if_neg fun h => hS (hdet.1 h)]
    rfl

theorem derivative_mul {net : (Fin P → ℂ) → σ → ℂ} {D D' : (Fin P → ℂ) → σ → Fin P → ℂ} (A : Matrix (Fin P) (Fin P) ℂ)
    (hD : Derivative net D) (hD' : Derivative (fun w => net (A *ᵥ w)) D') (w : Fin P → ℂ) (s : σ) (q : Fin P) :
    D' w s q = ∑ p, D (A *ᵥ w) s p * A p q := by
  obtain ⟨L', h1, h2⟩ := hD' w s
  obtain ⟨L, h3, h4⟩ := hD (A *ᵥ w) s
  have h5 : HasFDerivAt (fun w : Fin P → ℂ => A *ᵥ w) (LinearMap.toContinuousLinearMap (Matrix.mulVecLin A)) w :=
    (LinearMap.toContinuousLinearMap (Matrix.mulVecLin A)).hasFDerivAt
  have h6 := h1.unique (h3.comp w h5)
  rw [h2, h6]
  show L (A *ᵥ Pi.single q 1) = _
  have h7 : A *ᵥ Pi.single q 1 = ∑ p, A p q • (Pi.single p 1 : Fin P → ℂ) := by
    funext r
    rw [Matrix.mulVec_single_one]
    simp [Finset.sum_apply, Pi.single_apply]
  rw [h7, map_sum]
  refine Finset.sum_congr rfl fun p _ => ?_
  rw [map_smul, h4, smul_eq_mul, mul_comm]

/-! ### C168 -/

/-- **C168.** Networks `net` and `fun w => net (A w)` started with weights `A w` and `w` keep their weights related in this way, hence the
same wave function, after every step, or meet a singular system at the same step. The samples and targets may depend on the wave
function in any way. The models may keep their weights in tensors of different shapes. -/
theorem C168_same_training (A : Matrix (Fin P) (Fin P) ℂ) (hA : IsUnit A.det) (lr shift : ℝ) (h : shift = 0 ∨ Aᴴ * A = 1)
    (net : (Fin P → ℂ) → σ → ℂ) (D D' : (Fin P → ℂ) → σ → Fin P → ℂ) (hD : Derivative net D)
    (hD' : Derivative (fun w => net (A *ᵥ w)) D') (draw : (σ → ℂ) → Nat → Fin B → σ × ℂ) (m m' : ComplexModel) (hm : Fits P m)
    (hm' : Fits P m') (hw : flatWeights P m = A *ᵥ flatWeights P m') (k : Nat) :
    (train P lr shift net D draw k m = none ∧ train P lr shift (fun w => net (A *ᵥ w)) D' draw k m' = none) ∨
    ∃ m1 m1', train P lr shift net D draw k m = some m1 ∧ train P lr shift (fun w => net (A *ᵥ w)) D' draw k m' = some m1' ∧
      flatWeights P m1 = A *ᵥ flatWeights P m1' ∧ net (flatWeights P m1) = (fun w => net (A *ᵥ w)) (flatWeights P m1') := by
  suffices H : (train P lr shift net D draw k m = none ∧ train P lr shift (fun w => net (A *ᵥ w)) D' draw k m' = none) ∨
      ∃ m1 m1', train P lr shift net D draw k m = some m1 ∧ train P lr shift (fun w => net (A *ᵥ w)) D' draw k m' = some m1' ∧
        flatWeights P m1 = A *ᵥ flatWeights P m1' ∧ Fits P m1 ∧ Fits P m1' by
    rcases H with H | ⟨m1, m1', h1, h2, h3, -, -⟩
    · exact Or.inl H
    · exact Or.inr ⟨m1, m1', h1, h2, h3, by rw [h3]⟩
  induction k with
  | zero => exact Or.inr ⟨m, m', rfl, rfl, hw, hm, hm'⟩
  | succ k ih =>
    unfold train
    rcases ih with ⟨h1, h2⟩ | ⟨m1, m1', h1, h2, h3, h4, h5⟩
    · exact Or.inl ⟨by rw [h1]; rfl, by rw [h2]; rfl⟩
    · rw [h1, h2]
      simp only [Option.bind_some]
      rw [← h3]
      set batch := draw (net (flatWeights P m1)) k
      set J : Matrix (Fin B) (Fin P) ℂ := fun b => D (flatWeights P m1) (batch b).1 with hJ
      have hJ' : (fun b => D' (flatWeights P m1') (batch b).1 : Matrix (Fin B) (Fin P) ℂ) = J * A := by
        ext b q
        rw [Matrix.mul_apply, derivative_mul A hD hD', ← h3]
      rw [hJ']
      have u := update_exists h4 lr shift J fun b => (batch b).2
      have u' := update_exists h5 lr shift (J * A) fun b => (batch b).2
      have hs := solve_mul (minusMean J) A hA shift h fun b => (batch b).2
      rw [← minusMean_mul] at hs
      cases hx : solveDirectly (minusMean (J * A)) shift (energyGrad (minusMean (J * A)) fun b => (batch b).2) with
      | none =>
        rw [hx] at hs u'
        rw [← hs] at u
        exact Or.inl ⟨u, u'⟩
      | some x =>
        rw [hx] at hs u'
        rw [← hs] at u
        obtain ⟨a, ha1, ha2, ha3⟩ := u
        obtain ⟨a', hb1, hb2, hb3⟩ := u'
        refine Or.inr ⟨a, a', ha1, hb1, ?_, ha2, hb2⟩
        rw [ha3, hb3, Matrix.mulVec_add, Matrix.mulVec_smul, Matrix.mulVec_neg, ← h3]

/-- **C168, limits.** With a diagonal shift the step does depend on the scale of a weight: one weight, two samples, `A = 2`. -/
theorem C168_shift_matters : ∃ (J : Matrix (Fin 2) (Fin 1) ℂ) (A : Matrix (Fin 1) (Fin 1) ℂ) (t : Fin 2 → ℂ), IsUnit A.det ∧
    ∃ x x', solveDirectly (minusMean J) 1 (energyGrad (minusMean J) t) = some x ∧
      solveDirectly (minusMean (J * A)) 1 (energyGrad (minusMean (J * A)) t) = some x' ∧ x ≠ A *ᵥ x' := by
  have hO : minusMean (!![1; -1] : Matrix (Fin 2) (Fin 1) ℂ) = !![1; -1] := by
    ext b q
    fin_cases b <;> fin_cases q <;> simp [minusMean]
  have hO' : minusMean ((!![1; -1] : Matrix (Fin 2) (Fin 1) ℂ) * (!![2] : Matrix (Fin 1) (Fin 1) ℂ)) = !![2; -2] := by
    rw [minusMean_mul, hO]
    ext b q
    fin_cases b <;> fin_cases q <;> simp [Matrix.mul_apply]
  have hS : sMatrix (!![1; -1] : Matrix (Fin 2) (Fin 1) ℂ) 1 = !![2] := by
    ext p q
    fin_cases p; fin_cases q
    simp [sMatrix, covariance, Matrix.mul_apply, Fin.sum_univ_two]
    norm_num
  have hS' : sMatrix (!![2; -2] : Matrix (Fin 2) (Fin 1) ℂ) 1 = !![5] := by
    ext p q
    fin_cases p; fin_cases q
    simp [sMatrix, covariance, Matrix.mul_apply, Fin.sum_univ_two, Complex.conj_ofNat]
    norm_num
  refine ⟨!![1; -1], (!![2] : Matrix (Fin 1) (Fin 1) ℂ), ![1, 0], by simp, (!![2] : Matrix (Fin 1) (Fin 1) ℂ)⁻¹ *ᵥ energyGrad !![1; -1] ![1, 0],
    (!![5] : Matrix (Fin 1) (Fin 1) ℂ)⁻¹ *ᵥ energyGrad !![2; -2] ![1, 0], ?_, ?_, ?_⟩
  · rw [hO]
    unfold solveDirectly
    rw [hS, if_pos (by simp)]
  · rw [hO']
    unfold solveDirectly
    rw [hS', if_pos (by simp)]
  · intro hc
    have := congrFun hc 0
    simp [energyGrad, Matrix.mulVec, dotProduct, Fin.sum_univ_two, Complex.conj_ofNat] at this
    norm_num at this

/-- The hypotheses: a linear network with two weights in one tensor, or each in its own, the weights exchanged by `A`. -/
example : ∃ (A : Matrix (Fin 2) (Fin 2) ℂ) (net : (Fin 2 → ℂ) → (Fin 2 → ℂ) → ℂ) (D D' : (Fin 2 → ℂ) → (Fin 2 → ℂ) → Fin 2 → ℂ)
    (m m' : ComplexModel), IsUnit A.det ∧ Aᴴ * A = 1 ∧ Derivative net D ∧ Derivative (fun w => net (A *ᵥ w)) D' ∧ Fits 2 m ∧ Fits 2 m' ∧
    flatWeights 2 m = A *ᵥ flatWeights 2 m' ∧ m.weights ≠ m'.weights := by
  have hlin : ∀ A : Matrix (Fin 2) (Fin 2) ℂ, Derivative (fun w (s : Fin 2 → ℂ) => s ⬝ᵥ (A *ᵥ w)) fun _ s p => s ⬝ᵥ (A *ᵥ Pi.single p 1) := by
    intro A w s
    let f : (Fin 2 → ℂ) →ₗ[ℂ] ℂ := (dotProductBilin ℂ ℂ s).comp (Matrix.mulVecLin A)
    exact ⟨LinearMap.toContinuousLinearMap f, (LinearMap.toContinuousLinearMap f).hasFDerivAt, fun p => rfl⟩
  refine ⟨!![0, 1; 1, 0], fun w s => s ⬝ᵥ w, fun _ s p => s ⬝ᵥ Pi.single p 1, _,
    ⟨[⟨[2], [3, 4]⟩], [⟨[2], [0, 0]⟩]⟩, ⟨[⟨[1], [4]⟩, ⟨[1], [3]⟩], [⟨[1], [0]⟩, ⟨[1], [0]⟩]⟩, by simp, ?_, ?_, hlin _, ⟨?_, by simp [ComplexModel.weights, complexWeight]⟩,
    ⟨?_, by simp [ComplexModel.weights, complexWeight]⟩, ?_, ?_⟩
  · ext i j
    fin_cases i <;> fin_cases j <;> simp [Matrix.mul_apply, Fin.sum_univ_two]
  · have := hlin 1
    simp only [Matrix.one_mulVec] at this
    exact this
  · simp [ComplexModel.Valid, Tensor.Valid]
  · simp [ComplexModel.Valid, Tensor.Valid]
  · funext i
    fin_cases i <;> simp [flatWeights, ComplexModel.weights, complexWeight, Matrix.mulVec, dotProduct, Fin.sum_univ_two]
  · simp [ComplexModel.weights, complexWeight]

end Verif.Optimizers.SR
