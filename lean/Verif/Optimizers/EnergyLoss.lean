import Verif.Optimizers.ComplexGradient

/-!
C130: stochastic reconfiguration with the gradient of the loss (`use_energy_loss=True`) and with the gradient from the targets
of the batch (`use_energy_loss=False`).
-/
namespace Verif.Optimizers.CG

variable {n : Nat}

/-- A state multiplied with a positive number. -/
noncomputable def scale (c : ℝ) (s : State n) : State n :=
  ⟨s.i, (c : ℂ) • s.x, (c : ℂ) • s.r, (c : ℂ) • s.p, (c : ℂ) ^ 2 * s.gamma⟩

theorem dot_scale (c : ℝ) (x y : Vec n) : dot ((c : ℂ) • x) ((c : ℂ) • y) = (c : ℂ) ^ 2 * dot x y := by
  unfold dot
  rw [Finset.mul_sum]
  refine Finset.sum_congr rfl fun k _ => ?_
  simp only [Pi.smul_apply, smul_eq_mul, map_mul, Complex.conj_ofReal]
  ring

theorem norm_scale {c : ℝ} (hc : 0 ≤ c) (x : Vec n) : norm ((c : ℂ) • x) = c * norm x := by
  unfold norm
  have : ∑ k, ‖((c : ℂ) • x) k‖ ^ 2 = c ^ 2 * ∑ k, ‖x k‖ ^ 2 := by
    rw [Finset.mul_sum]
    refine Finset.sum_congr rfl fun k _ => ?_
    rw [Pi.smul_apply, smul_eq_mul, norm_mul, Complex.norm_real, Real.norm_eq_abs, mul_pow, sq_abs]
  rw [this, Real.sqrt_mul (sq_nonneg c), Real.sqrt_sq hc]

theorem divide_scale {c : ℝ} (hc : 0 < c) (a b : ℂ) : divide ((c : ℂ) ^ 2 * a) ((c : ℂ) ^ 2 * b) = divide a b := by
  have h : ((c : ℂ) ^ 2) ≠ 0 := pow_ne_zero 2 (by exact_mod_cast hc.ne')
  unfold divide
  by_cases hb : b = 0
  · rw [if_pos hb, if_pos (by rw [hb, mul_zero])]
  · rw [if_neg hb, if_neg (mul_ne_zero h hb), mul_div_mul_left _ _ h]

theorem step_scale {c : ℝ} (hc : 0 < c) (A : Op n) (s : State n) : step A none (scale c s) = (step A none s).map (scale c) := by
  unfold step scale
  simp only [precond, map_smul, dot_scale, divide_scale hc]
  cases h1 : divide s.gamma (dot s.p (A s.p)) with
  | none => rfl
  | some alpha =>
    have hr : ((c : ℂ) • s.r - alpha • (c : ℂ) • A s.p) = (c : ℂ) • (s.r - alpha • A s.p) := by
      rw [smul_sub, smul_comm]
    simp only [Option.bind_some, hr, dot_scale, divide_scale hc]
    cases h2 : divide (dot (s.r - alpha • A s.p) (s.r - alpha • A s.p)) s.gamma with
    | none => rfl
    | some beta =>
      simp only [Option.bind_some, Option.map_some, smul_add]
      rw [smul_comm alpha, smul_comm beta]

theorem loop_scale {c : ℝ} (hc : 0 < c) (A : Op n) (tol : ℝ) (maxIter : Option Nat) (s : State n) (o : Option (State n))
    (h : Loop A none tol maxIter s o) : Loop A none (c * tol) maxIter (scale c s) (o.map (scale c)) := by
  have hcont : ∀ s : State n, Continue (c * tol) maxIter (scale c s) ↔ Continue tol maxIter s := by
    intro s
    have h1 : norm (scale c s).r = c * norm s.r := norm_scale hc.le _
    unfold Continue
    rw [h1, mul_lt_mul_iff_right₀ hc]
    rfl
  induction h with
  | stop s h => exact .stop _ (by rw [hcont]; exact h)
  | nan s h hs => exact .nan _ ((hcont s).2 h) (by rw [step_scale hc, hs]; rfl)
  | next s s' o h hs hl ih => exact .next _ (scale c s') _ ((hcont s).2 h) (by rw [step_scale hc, hs]; rfl) ih

/-- A right-hand side multiplied with a positive number multiplies the result, after the same number of iterations. -/
theorem returns_scale {c : ℝ} (hc : 0 < c) (A : Op n) (b : Vec n) (tol : ℝ) (maxIter : Option Nat) (s : State n)
    (h : Returns A none b none tol maxIter (some s)) : Returns A none ((c : ℂ) • b) none tol maxIter (some (scale c s)) := by
  have h1 := loop_scale hc A _ maxIter _ _ h
  have h2 : scale c (init A none b none) = init A none ((c : ℂ) • b) none := by
    unfold scale init
    simp only [precond, dot_scale, smul_zero]
  have h3 : c * (tol * norm (init A none b none).r) = tol * norm (init A none ((c : ℂ) • b) none).r := by
    rw [← h2]
    show _ = tol * norm ((c : ℂ) • (init A none b none).r)
    rw [norm_scale hc.le]
    ring
  rw [h2, h3] at h1
  exact h1

end Verif.Optimizers.CG

namespace Verif.Optimizers.SR

open Matrix ComplexOrder Verif.Optimizers.Grad

variable {B P : Nat}

/-! ### Model -/

/-- The loss Keras hands to the optimizer: the mean over the batch of `loss_for_energy_minimization` (optimization/loss.py 4-5).
`net w b` is the prediction for sample `b`. -/
noncomputable def batchLoss (net : (Fin P → ℂ) → Fin B → ℂ) (target : Fin B → ℂ) (m : ComplexModel) : ℝ :=
  (∑ b, 2 * (net (flatWeights P m) b * target b).re) / B

/-- `get_energy_grad` (optimizer.py 94-100) with `use_energy_loss=True`. -/
noncomputable def energyGradOfLoss (net : (Fin P → ℂ) → Fin B → ℂ) (target : Fin B → ℂ) (m : ComplexModel) : Option (List ℂ) :=
  (tensorsToColumn (complexGradients (batchLoss net target) m false)).map fun l => l.map fun z => (starRingEnd ℂ) z / 2

/-- `get_updates` (optimizer.py 33-43) with `use_energy_loss=True` and the direct solver. -/
def LossUpdatesDirect (lr shift : ℝ) (m : ComplexModel) (J : Matrix (Fin B) (Fin P) ℂ) (net : (Fin P → ℂ) → Fin B → ℂ)
    (target : Fin B → ℂ) (m' : ComplexModel) : Prop :=
  ∃ v x : Fin P → ℂ, energyGradOfLoss net target m = some (List.ofFn v) ∧ solveDirectly (minusMean J) shift v = some x ∧
    applyComplexGradient lr m (List.ofFn fun p => x p * (-1)) = some m'

/-- `get_updates` (optimizer.py 33-43) with `use_energy_loss=True` and the iterative solver with the Jacobian at hand. -/
def LossUpdatesIterative (lr shift tol : ℝ) (maxIter : Nat) (m : ComplexModel) (J : Matrix (Fin B) (Fin P) ℂ)
    (net : (Fin P → ℂ) → Fin B → ℂ) (target : Fin B → ℂ) (m' : ComplexModel) : Prop :=
  ∃ (v : Fin P → ℂ) (s : CG.State P), energyGradOfLoss net target m = some (List.ofFn v) ∧
    IterativeReturns (minusMean J) shift tol maxIter v (.ok (some s)) ∧
    applyComplexGradient lr m (List.ofFn fun p => s.x p * (-1)) = some m'

/-! ### The gradient -/

theorem energyGrad_minusMean (J : Matrix (Fin B) (Fin P) ℂ) (target : Fin B → ℂ) (h0 : ∑ b, target b = 0) (p : Fin P) :
    energyGrad (minusMean J) target p = ∑ b, (starRingEnd ℂ) (J b p * target b) := by
  have h1 : energyGrad (minusMean J) target p = ∑ b, ((starRingEnd ℂ) (J b p * target b) -
      (starRingEnd ℂ) ((∑ b', J b' p) / (B : ℂ)) * (starRingEnd ℂ) (target b)) := by
    rw [show energyGrad (minusMean J) target p = ∑ b, (starRingEnd ℂ) (minusMean J b p) * (starRingEnd ℂ) (target b) from rfl]
    refine Finset.sum_congr rfl fun b _ => ?_
    show (starRingEnd ℂ) (J b p - (∑ b', J b' p) / (B : ℂ)) * (starRingEnd ℂ) (target b) = _
    rw [map_sub, map_mul]
    ring
  rw [h1, Finset.sum_sub_distrib, ← Finset.mul_sum, show ∑ b, (starRingEnd ℂ) (target b) = 0 by rw [← map_sum, h0, map_zero], mul_zero, sub_zero]

theorem batchLoss_grad (m : ComplexModel) (hm : m.Valid) (hne : m.real ≠ []) (hP : P = ((m.weights.map Tensor.shape).map List.prod).sum)
    (net : (Fin P → ℂ) → Fin B → ℂ) (D : Fin B → (Fin P → ℂ) →L[ℂ] ℂ)
    (hD : ∀ b, HasFDerivAt (fun w => net w b) (D b) (flatWeights P m)) (target : Fin B → ℂ) :
    energyGradOfLoss net target m =
      some (List.ofFn fun p => (∑ b, (starRingEnd ℂ) (D b (Pi.single p 1) * target b)) / B) := by
  have hF : HasFDerivAt (fun w => (∑ b, 2 * (net w b * target b)) / (B : ℂ))
      ((B : ℂ)⁻¹ • ∑ b, (2 : ℂ) • (target b • D b)) (flatWeights P m) := by
    have h1 : HasFDerivAt (fun w => ∑ b, 2 * (net w b * target b)) (∑ b, (2 : ℂ) • (target b • D b)) (flatWeights P m) := by
      refine HasFDerivAt.fun_sum fun b _ => ?_
      exact ((hD b).mul_const (target b)).const_mul 2
    have h2 := h1.const_mul ((B : ℂ)⁻¹)
    simpa only [div_eq_inv_mul] using h2
  have hL : (fun m : ComplexModel => (((fun w => (∑ b, 2 * (net w b * target b)) / (B : ℂ)) (flatWeights P m)).re)) = batchLoss net target := by
    funext m
    unfold batchLoss
    rw [Complex.div_natCast_re, Complex.re_sum]
    congr 1
    refine Finset.sum_congr rfl fun b _ => ?_
    rw [Complex.mul_re]
    simp
  have h := (C129_holomorphic m hm hne hP _ _ hF).1
  rw [hL] at h
  unfold energyGradOfLoss
  rw [h, Option.map_some, List.map_ofFn]
  congr 2
  funext p
  simp only [Function.comp, _root_.smul_apply, _root_.sum_apply, smul_eq_mul]
  rw [map_mul, map_inv₀, map_natCast, map_sum]
  simp only [map_mul, map_ofNat]
  rw [← Finset.mul_sum, div_eq_inv_mul (b := (B : ℂ))]
  have : ∀ b : Fin B, (starRingEnd ℂ) (target b) * (starRingEnd ℂ) ((D b) (Pi.single p 1)) =
      (starRingEnd ℂ) ((D b) (Pi.single p 1)) * (starRingEnd ℂ) (target b) := fun b => mul_comm _ _
  simp only [this]
  ring

theorem loop_map {α β : Type} (f : α → β) (col : List α) (templates : List (List Nat)) (o : Nat) :
    columnToTensorsLoop (col.map f) templates o =
      (columnToTensorsLoop col templates o).map fun ts => ts.map fun t => ⟨t.shape, t.data.map f⟩ := by
  induction templates generalizing o with
  | nil => rfl
  | cons s rest ih =>
    simp only [columnToTensorsLoop, reshape, ← List.map_take, ← List.map_drop, List.length_map]
    by_cases h : (List.drop o (List.take (o + s.prod) col)).length = s.prod
    · simp only [if_pos h, ih]
      cases columnToTensorsLoop col rest (o + s.prod) <;> rfl
    · simp only [if_neg h]
      rfl

theorem zip_scaled (lr c : ℝ) (hc : c ≠ 0) (ps gs : List (Tensor ℝ)) :
    List.zipWith (addScaled (lr * c)) ps (gs.map fun t => ⟨t.shape, t.data.map fun z => c⁻¹ * z⟩) = List.zipWith (addScaled lr) ps gs := by
  rw [List.zipWith_map_right]
  congr 1
  funext p g
  unfold addScaled
  rw [List.zipWith_map_right]
  congr 2
  funext a b
  field_simp

/-- A step divided by `c` with a learning rate multiplied with `c`. -/
theorem apply_scaled (lr c : ℝ) (hc : c ≠ 0) (m : ComplexModel) (g : List ℂ) :
    applyComplexGradient (lr * c) m (g.map fun z => (c : ℂ)⁻¹ * z) = applyComplexGradient lr m g := by
  unfold applyComplexGradient columnToTensors
  have hre : ((g.map fun z => (c : ℂ)⁻¹ * z).map (starRingEnd ℂ)).map Complex.re =
      ((g.map (starRingEnd ℂ)).map Complex.re).map fun z => c⁻¹ * z := by
    simp only [List.map_map]
    congr 1
    funext z
    simp only [Function.comp, map_mul, Complex.conj_ofReal, ← Complex.ofReal_inv, Complex.re_ofReal_mul]
  have him : ((g.map fun z => (c : ℂ)⁻¹ * z).map (starRingEnd ℂ)).map Complex.im =
      ((g.map (starRingEnd ℂ)).map Complex.im).map fun z => c⁻¹ * z := by
    simp only [List.map_map]
    congr 1
    funext z
    simp only [Function.comp, map_mul, Complex.conj_ofReal, ← Complex.ofReal_inv, Complex.im_ofReal_mul]
  simp only [hre, him]
  rw [loop_map (fun z => c⁻¹ * z), loop_map (fun z => c⁻¹ * z) ((g.map (starRingEnd ℂ)).map Complex.im)]
  cases columnToTensorsLoop ((g.map (starRingEnd ℂ)).map Complex.re) (m.real.map Tensor.shape) 0 with
  | none => rfl
  | some rs =>
    cases columnToTensorsLoop ((g.map (starRingEnd ℂ)).map Complex.im) (m.imag.map Tensor.shape) 0 with
    | none => rfl
    | some is =>
      simp only [Option.map_some, ← List.map_append, zip_scaled lr c hc]

/-! ### C130 -/

/-- A network that is a holomorphic function of the weights of a model, with the Jacobian made of its derivatives, and targets
that add up to zero, as those of every whole batch do (C24). -/
structure Situation (m : ComplexModel) (net : (Fin P → ℂ) → Fin B → ℂ) (J : Matrix (Fin B) (Fin P) ℂ) (target : Fin B → ℂ) : Prop where
  valid : m.Valid
  nonempty : m.real ≠ []
  size : P = ((m.weights.map Tensor.shape).map List.prod).sum
  deriv : ∀ b, ∃ D : (Fin P → ℂ) →L[ℂ] ℂ, HasFDerivAt (fun w => net w b) D (flatWeights P m) ∧ ∀ p, J b p = D (Pi.single p 1)
  batch : 0 < B
  centred : ∑ b, target b = 0

/-- **C130**, the gradients: the gradient of the loss is the gradient from the targets divided by the number of samples. -/
theorem C130_gradient_partial {m : ComplexModel} {net : (Fin P → ℂ) → Fin B → ℂ} {J : Matrix (Fin B) (Fin P) ℂ} {target : Fin B → ℂ}
    (h : Situation m net J target) :
    energyGradOfLoss net target m = some (List.ofFn fun p => (B : ℂ)⁻¹ * energyGrad (minusMean J) target p) := by
  choose D hD hJ using h.deriv
  rw [batchLoss_grad m h.valid h.nonempty h.size net D hD target]
  congr 2
  funext p
  rw [energyGrad_minusMean J target h.centred p, div_eq_inv_mul]
  simp only [hJ]

/-- **C130**, the steps: with `use_energy_loss` and a learning rate multiplied with the number of samples, both solvers make
exactly the update they make without; the iterative one after as many iterations. -/
theorem C130_step_partial {m : ComplexModel} {net : (Fin P → ℂ) → Fin B → ℂ} {J : Matrix (Fin B) (Fin P) ℂ} {target : Fin B → ℂ}
    (h : Situation m net J target) (lr shift : ℝ) (hs : 0 < shift) (m' : ComplexModel) :
    (LossUpdatesDirect (lr * B) shift m J net target m' ↔ getUpdatesDirect lr shift m J target = some m') ∧
    ∀ (tol : ℝ) (maxIter : ℕ), 0 ≤ tol →
      (LossUpdatesIterative (lr * B) shift tol maxIter m J net target m' ↔ UpdatesIterative lr shift tol maxIter m J target m') := by
  have hg := C130_gradient_partial h
  set g := energyGrad (minusMean J) target with hgd
  have hB : (B : ℝ) ≠ 0 := by exact_mod_cast h.batch.ne'
  have hB' : (B : ℂ) ≠ 0 := by exact_mod_cast h.batch.ne'
  have hv : ∀ v : Fin P → ℂ, energyGradOfLoss net target m = some (List.ofFn v) → v = (B : ℂ)⁻¹ • g := by
    intro v hv
    rw [hg] at hv
    have := List.ofFn_injective (Option.some.inj hv)
    rw [← this]
    rfl
  have happ : ∀ x y : Fin P → ℂ, y = (B : ℂ)⁻¹ • x → applyComplexGradient (lr * B) m (List.ofFn fun p => y p * (-1)) =
      applyComplexGradient lr m (List.ofFn fun p => x p * (-1)) := by
    intro x y hxy
    rw [← apply_scaled lr B hB m (List.ofFn fun p => x p * (-1)), List.map_ofFn]
    congr 2
    funext p
    rw [hxy]
    simp only [Pi.smul_apply, smul_eq_mul, Function.comp, Complex.ofReal_natCast]
    ring
  constructor
  · have hu : IsUnit (sMatrix (minusMean J) shift).det := (sMatrix_posDef (minusMean J) hs).det_pos.ne'.isUnit
    have hx : ∀ v, solveDirectly (minusMean J) shift v = some ((sMatrix (minusMean J) shift)⁻¹ *ᵥ v) := fun v => by
      rw [solveDirectly, if_pos hu]
    unfold LossUpdatesDirect getUpdatesDirect
    simp only [hx, Option.bind_some, ← hgd]
    rw [← happ _ ((sMatrix (minusMean J) shift)⁻¹ *ᵥ ((B : ℂ)⁻¹ • g)) (mulVec_smul _ _ _)]
    constructor
    · rintro ⟨v, x, h1, h2, h3⟩
      rw [hv v h1] at h2
      cases Option.some.inj h2
      exact h3
    · intro h3
      exact ⟨(B : ℂ)⁻¹ • g, _, by rw [hg]; rfl, rfl, h3⟩
  · intro tol maxIter ht
    unfold LossUpdatesIterative UpdatesIterative IterativeReturns
    by_cases hP1 : P = 1
    · simp only [if_pos hP1]
      constructor
      · rintro ⟨v, s, -, h2, -⟩
        exact nomatch h2
      · rintro ⟨s, h2, -⟩
        exact nomatch h2
    simp only [if_neg hP1, ← hgd]
    have hc : (0 : ℝ) < (B : ℝ)⁻¹ := inv_pos.2 (by exact_mod_cast h.batch)
    have hcc : (((B : ℝ)⁻¹ : ℝ) : ℂ) = (B : ℂ)⁻¹ := by push_cast; rfl
    constructor
    · rintro ⟨v, s, h1, ⟨o, ho, h2⟩, h3⟩
      cases ho
      obtain ⟨s0, h4, -⟩ := CG.C33_terminates (productOp (minusMean J) shift) none (hpd_product _ hs) (by simp) g none tol ht (some maxIter)
      have h5 := CG.returns_scale hc _ g tol (some maxIter) s0 h4
      rw [hcc, ← hv v h1] at h5
      have h6 := CG.loop_unique h2 h5
      cases h6
      refine ⟨s0, ⟨_, rfl, h4⟩, ?_⟩
      rw [← happ s0.x (CG.scale (B : ℝ)⁻¹ s0).x (by show (((B : ℝ)⁻¹ : ℝ) : ℂ) • s0.x = _; rw [hcc])]
      exact h3
    · rintro ⟨s0, ⟨o, ho, h4⟩, h3⟩
      cases ho
      have h5 := CG.returns_scale hc _ g tol (some maxIter) s0 h4
      refine ⟨(B : ℂ)⁻¹ • g, CG.scale (B : ℝ)⁻¹ s0, by rw [hg]; rfl, ⟨_, rfl, by rw [← hcc]; exact h5⟩, ?_⟩
      rw [happ s0.x (CG.scale (B : ℝ)⁻¹ s0).x (by show (((B : ℝ)⁻¹ : ℝ) : ℂ) • s0.x = _; rw [hcc])]
      exact h3

/-- **C130** is violated: with two samples or more and the same learning rate, every step of the direct solver with
`use_energy_loss` is the step without divided by the number of samples, and hence different unless the gradient is zero. -/
theorem C130_violated {m : ComplexModel} {net : (Fin P → ℂ) → Fin B → ℂ} {J : Matrix (Fin B) (Fin P) ℂ} {target : Fin B → ℂ}
    (h : Situation m net J target) (lr shift : ℝ) (hs : 0 < shift) (hlr : lr ≠ 0) (hB2 : 2 ≤ B)
    (hg : energyGrad (minusMean J) target ≠ 0) :
    ∃ m₁ m₂, LossUpdatesDirect lr shift m J net target m₁ ∧ getUpdatesDirect lr shift m J target = some m₂ ∧
      flatWeights P m₁ - flatWeights P m = (B : ℂ)⁻¹ • (flatWeights P m₂ - flatWeights P m) ∧
      flatWeights P m₁ ≠ flatWeights P m₂ := by
  obtain ⟨⟨x, hx, hxd, -⟩, -⟩ := C127_direction J target shift hs
  have hB : (B : ℝ) ≠ 0 := by exact_mod_cast h.batch.ne'
  have hB' : (B : ℂ) ≠ 0 := by exact_mod_cast h.batch.ne'
  have hlen : (m.weights.flatMap Tensor.data).length = P := by
    obtain ⟨hs', hre, him⟩ := h.valid
    have hlen : m.real.length = m.imag.length := by simpa using congrArg List.length hs'
    have hws : m.weights.map Tensor.shape = m.real.map Tensor.shape := shape_complexWeight _ _ hlen
    rw [ComplexModel.weights, flatMap_complexWeight _ _ hs' hre him, List.length_zipWith,
      length_flatMap_valid _ hre, length_flatMap_valid _ him, ← hs', min_self, ← hws, h.size]
    rfl
  have hup : ∀ lr : ℝ, ∃ m', getUpdatesDirect lr shift m J target = some m' ∧ flatWeights P m' = flatWeights P m + (lr : ℂ) • (-x) := by
    intro lr
    obtain ⟨m', g1, -, -, g3⟩ := C30_complex_update lr m h.valid (List.ofFn fun p => x p * (-1)) (by rw [List.length_ofFn]; exact h.size)
    refine ⟨m', by simp only [getUpdatesDirect, hx, Option.bind_some, g1], ?_⟩
    exact flat_update (lr := lr) (m := m) (m' := m') hlen x (by
      rw [g3, show (List.ofFn fun p => x p * (-1)) = (List.ofFn x).map fun z => z * (-1) by rw [List.map_ofFn]; rfl,
        List.zipWith_map_right]
      congr 1
      funext w z
      ring)
  obtain ⟨m₁, h1, hf1⟩ := hup (lr / B)
  obtain ⟨m₂, h2, hf2⟩ := hup lr
  have hx0 : x ≠ 0 := by
    rintro rfl
    have := hxd hg
    simp [CG.dot] at this
  have h3 := ((C130_step_partial h (lr / B) shift hs m₁).1).2 h1
  rw [div_mul_cancel₀ _ hB] at h3
  refine ⟨m₁, m₂, h3, h2, ?_, ?_⟩
  · rw [hf1, hf2, add_sub_cancel_left, add_sub_cancel_left, smul_smul]
    congr 1
    push_cast
    ring
  · intro heq
    rw [hf1, hf2] at heq
    have h4 := add_left_cancel heq
    have h5 : (((lr / B : ℝ) : ℂ) - (lr : ℂ)) • (-x) = 0 := by rw [sub_smul, h4, sub_self]
    rcases smul_eq_zero.1 h5 with h6 | h6
    · have h7 : lr / B - lr = 0 := by exact_mod_cast h6
      have h8 : (2 : ℝ) ≤ B := by exact_mod_cast hB2
      have h9 : lr = lr * B := by
        field_simp at h7
        linarith
      have h10 : lr * ((B : ℝ) - 1) = 0 := by linarith
      rcases mul_eq_zero.1 h10 with h11 | h11
      · exact hlr h11
      · linarith
    · exact hx0 (neg_eq_zero.1 h6)

/-- **C130**, products by differentiation: with `use_energy_loss` the right-hand side is a positive multiple of the gradient
whichever way the products are computed. So with `compute_jvp_instead_of_full_jacobian=True` the step, which leads uphill
without it (C127), has a negative product with the gradient of the batch, at every tolerance below one and every positive
limit on the iterations. -/
theorem C130_jvp_partial {m : ComplexModel} {net : (Fin P → ℂ) → Fin B → ℂ} {J : Matrix (Fin B) (Fin P) ℂ} {target : Fin B → ℂ}
    (h : Situation m net J target) (shift : ℝ) (hs : 0 < shift) (tol : ℝ) (ht : 0 ≤ tol) (ht1 : tol < 1) (maxIter : ℕ)
    (hm : 0 < maxIter) (hg : energyGrad (minusMean J) target ≠ 0) :
    ∃ (v : Fin P → ℂ) (s : CG.State P), energyGradOfLoss net target m = some (List.ofFn v) ∧
      CG.Returns (productViaJvpOp h.batch J shift) none v none tol (some maxIter) (some s) ∧
      (CG.dot (energyGrad (minusMean J) target) (-s.x)).re < 0 := by
  set g := energyGrad (minusMean J) target with hgd
  have hop : productViaJvpOp h.batch J shift = productOp (minusMean J) shift :=
    LinearMap.ext fun v => C63_same_matrix_partial h.batch J shift v
  obtain ⟨s0, h4, -⟩ := CG.C33_terminates (productOp (minusMean J) shift) none (hpd_product _ hs) (by simp) g none tol ht (some maxIter)
  have hc : (0 : ℝ) < (B : ℝ)⁻¹ := inv_pos.2 (by exact_mod_cast h.batch)
  have hcc : (((B : ℝ)⁻¹ : ℝ) : ℂ) = (B : ℂ)⁻¹ := by push_cast; rfl
  have h5 := CG.returns_scale hc _ g tol (some maxIter) s0 h4
  have h6 := CG.direction (hpd_product _ hs) g hg tol ht1 (some maxIter) (by simp; omega) s0 h4
  refine ⟨(B : ℂ)⁻¹ • g, CG.scale (B : ℝ)⁻¹ s0, C130_gradient_partial h, by rw [hop, ← hcc]; exact h5, ?_⟩
  have h7 : CG.dot g (-(CG.scale (B : ℝ)⁻¹ s0).x) = -((((B : ℝ)⁻¹ : ℝ) : ℂ) * CG.dot g s0.x) := by
    unfold CG.dot CG.scale
    rw [Finset.mul_sum, ← Finset.sum_neg_distrib]
    refine Finset.sum_congr rfl fun k _ => ?_
    simp only [Pi.neg_apply, Pi.smul_apply, smul_eq_mul]
    ring
  rw [h7, Complex.neg_re, Complex.re_ofReal_mul]
  have := mul_pos hc h6
  linarith

/-- The hypotheses can be met: a linear network of two weights and two samples. -/
example : ∃ (m : ComplexModel) (net : (Fin 2 → ℂ) → Fin 2 → ℂ) (J : Matrix (Fin 2) (Fin 2) ℂ) (target : Fin 2 → ℂ),
    Situation m net J target ∧ energyGrad (minusMean J) target ≠ 0 := by
  have hd : ∀ b : Fin 2, HasFDerivAt (fun w : Fin 2 → ℂ => w b) (ContinuousLinearMap.proj (R := ℂ) (φ := fun _ : Fin 2 => ℂ) b)
      (flatWeights 2 ⟨[⟨[2], [1, 2]⟩], [⟨[2], [3, 4]⟩]⟩) := fun b => (ContinuousLinearMap.proj (R := ℂ) (φ := fun _ : Fin 2 => ℂ) b).hasFDerivAt
  refine ⟨⟨[⟨[2], [1, 2]⟩], [⟨[2], [3, 4]⟩]⟩, fun w b => w b, 1, ![1, -1],
    ⟨⟨rfl, by simp [Tensor.Valid], by simp [Tensor.Valid]⟩, by simp, by simp [ComplexModel.weights, complexWeight],
      fun b => ⟨_, hd b, fun p => ?_⟩, by norm_num, by simp⟩, fun h => ?_⟩
  · simp [Matrix.one_apply, Pi.single_apply]
  · have h1 := energyGrad_minusMean (1 : Matrix (Fin 2) (Fin 2) ℂ) ![1, -1] (by simp) 0
    rw [h] at h1
    simp [Fin.sum_univ_two] at h1

end Verif.Optimizers.SR
