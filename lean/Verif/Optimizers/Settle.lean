import Verif.Optimizers.Downhill
import Mathlib.Analysis.Calculus.Deriv.MeanValue
import Mathlib.Topology.Order.MonotoneConvergence
import Mathlib.Topology.Algebra.InfiniteSum.Real
import Mathlib.Algebra.Order.Chebyshev

/-!
# C151: stochastic reconfiguration on the exact energy goes downhill and comes to rest

Training with the generator of an `ExactVariational` object that holds all states in one batch and the optimizer
`ComplexValuesStochasticReconfiguration`, step after step.
-/
namespace Verif.Optimizers.CG

variable {n : Nat}

theorem norm_sq (x : Vec n) : norm x ^ 2 = ∑ k, ‖x k‖ ^ 2 := by
  unfold norm
  rw [Real.sq_sqrt (Finset.sum_nonneg fun k _ => by positivity)]

theorem dot_self_re (x : Vec n) : (dot x x).re = norm x ^ 2 := by
  rw [dot_self, Complex.ofReal_re, norm_sq]

/-- The value of the quadratic form after a step of the loop. -/
theorem form_step {A : Op n} (hA : HPD A) {b : Vec n} {s s' : State n} (h : Good A b s) (hs : step A none s = some s') :
    form A b s'.x = form A b s.x - (norm s.r ^ 2) ^ 2 / (dot s.p (A s.p)).re := by
  obtain ⟨hd, hg, -, hx, hr, hg', hp⟩ := step_some hs
  have hp0 : s.p ≠ 0 := fun h0 => hd (by rw [h0, map_zero, dot_zero_right])
  have hpos := hA.pos s.p hp0
  have hdre : dot s.p (A s.p) = (((dot s.p (A s.p)).re : ℝ) : ℂ) := by
    apply Complex.ext
    · rw [Complex.ofReal_re]
    · rw [Complex.ofReal_im]
      exact Complex.conj_eq_iff_im.1 (dot_real hA s.p)
  set d := (dot s.p (A s.p)).re with hddef
  have hgr := gamma_real h
  set c := norm s.r ^ 2 with hc
  have hα : s.gamma / dot s.p (A s.p) = ((c / d : ℝ) : ℂ) := by
    rw [hgr, hdre, Complex.ofReal_div]
  rw [hx, hα, form_add hA, ← h.residual, h.pr, hgr, Complex.ofReal_re, ← hddef]
  field_simp
  ring

/-- However early the loop stops, its result is at least as good as the best multiple of the right-hand side. -/
theorem form_returns {A : Op n} (hA : HPD A) (b : Vec n) (hb : b ≠ 0) (tol : ℝ) (ht : tol < 1) (maxIter : Option Nat)
    (hm : maxIter ≠ some 0) (s : State n) (h : Returns A none b none tol maxIter (some s)) :
    form A b s.x ≤ -((norm b ^ 2) ^ 2 / (dot b (A b)).re) := by
  have hgood := good_init A b none
  have hx0 : (init A none b none).x = 0 := rfl
  have hr0 : (init A none b none).r = b := rfl
  have hp0 : (init A none b none).p = b := rfl
  have hi0 : (init A none b none).i = 0 := rfl
  have hcont : Continue (tol * norm b) maxIter (init A none b none) := by
    refine ⟨fun m hmm => ?_, ?_⟩
    · rw [hi0]
      exact Nat.pos_of_ne_zero fun h0 => hm (by rw [hmm, h0])
    · rw [hr0]
      have := norm_pos.2 hb
      nlinarith
  unfold Returns at h
  rw [hr0] at h
  have h0 : form A b (init A none b none).x = 0 := by rw [hx0]; simp [form, dot_zero_left]
  cases h with
  | stop _ hc => exact absurd hcont hc
  | next _ s1 _ hc hs hl =>
    obtain ⟨h1, -⟩ := good_step hA hgood hs
    have h2 := form_loop hA hl h1 s rfl
    rw [form_step hA hgood hs, h0, hr0, hp0] at h2
    linarith

/-- The solution is at least as good as the best multiple of the right-hand side. -/
theorem form_solution {A : Op n} (hA : HPD A) (b : Vec n) (hb : b ≠ 0) (x : Vec n) (hx : A x = b) :
    form A b x ≤ -((norm b ^ 2) ^ 2 / (dot b (A b)).re) := by
  have hd := hA.pos b hb
  set d := (dot b (A b)).re with hdd
  set a : ℝ := norm b ^ 2 / d with ha
  have h1 : form A b ((0 : Vec n) + (a : ℂ) • b) = -((norm b ^ 2) ^ 2 / d) := by
    rw [form_add hA, map_zero, sub_zero, dot_self_re, ← hdd]
    have h0 : form A b (0 : Vec n) = 0 := by simp [form, dot_zero_left]
    rw [h0, ha]
    field_simp
    ring
  have h2 : form A b ((0 : Vec n) + (a : ℂ) • b) = form A b (x + ((1 : ℝ) : ℂ) • ((a : ℂ) • b - x)) := by
    congr 1
    simp
  rw [form_add hA b x, hx, sub_self, dot_zero_right] at h2
  have h3 : 0 ≤ (dot ((a : ℂ) • b - x) (A ((a : ℂ) • b - x))).re := by
    by_cases h : (a : ℂ) • b - x = 0
    · rw [h, dot_zero_left]; simp
    · exact (hA.pos _ h).le
  simp only [Complex.zero_re, mul_zero, sub_zero, one_pow, one_mul] at h2
  rw [← h1, h2]
  linarith

/-- What both solvers deliver: the product with the right-hand side is large. -/
theorem product_large {A : Op n} {b x : Vec n} {lam Lam : ℝ} (hLam : 0 < Lam)
    (hlow : ∀ v, lam * norm v ^ 2 ≤ (dot v (A v)).re) (hupp : ∀ v, (dot v (A v)).re ≤ Lam * norm v ^ 2) (hb : b ≠ 0)
    (hpos : 0 < (dot b (A b)).re) (h : form A b x ≤ -((norm b ^ 2) ^ 2 / (dot b (A b)).re)) :
    norm b ^ 2 / Lam + lam * norm x ^ 2 ≤ 2 * (dot b x).re := by
  have h1 := hlow x
  have h2 : (dot b x).re = (dot x b).re := by rw [← dot_conj, Complex.conj_re]
  have hn : 0 < norm b ^ 2 := pow_pos (norm_pos.2 hb) 2
  have h3 : norm b ^ 2 / Lam ≤ (norm b ^ 2) ^ 2 / (dot b (A b)).re := by
    rw [div_le_div_iff₀ hLam hpos]
    have := hupp b
    nlinarith
  unfold form at h
  rw [h2]
  linarith

end Verif.Optimizers.CG

namespace Verif.Optimizers.SR

open Matrix ComplexOrder Verif.Energy.Exact Filter Topology

variable {B P : Nat} {σ : Type}

/-! ### Specification -/

/-- The two solvers of the optimizer (`iterative_solver`, optimizer.py:20-31). -/
inductive Solver where
  | direct
  | iterative (tol : ℝ) (maxIter : ℕ)

/-- A step of the training with the model `m` and the generator `gen`: the step takes the batch from the generator and the
Jacobian of the log amplitudes, whose derivatives at the weights `w` are `D w`, and lets the optimizer update the weights
(`get_updates`, optimizer.py:33-43). -/
def StepTo (net : (Fin P → ℂ) → σ → ℂ) (D : (Fin P → ℂ) → σ → (Fin P → ℂ) →L[ℂ] ℂ) (S : Nat) (states : Nat → σ)
    (lr shift : ℝ) (solver : Solver) (gen : Gen σ) (m m' : ComplexModel) : Prop :=
  let y := (gen.next (net (flatWeights P m))).2.batch
  let J : Matrix (Fin S) (Fin P) ℂ := fun b p => D (flatWeights P m) (states b) (Pi.single p 1)
  let target : Fin S → ℂ := fun b => (y.map Prod.snd).getD b 0
  match solver with
  | .direct => getUpdatesDirect lr shift m J target = some m'
  | .iterative tol maxIter => UpdatesIterative lr shift tol maxIter m J target m'

/-- A run of the training: before step `t` the weights are those of `m t` and the generator is `gen t`. -/
structure Run (net : (Fin P → ℂ) → σ → ℂ) (D : (Fin P → ℂ) → σ → (Fin P → ℂ) →L[ℂ] ℂ) (S : Nat) (states : Nat → σ)
    (lr shift : ℝ) (solver : Solver) (gen : ℕ → Gen σ) (m : ℕ → ComplexModel) : Prop where
  next : ∀ t, gen (t + 1) = ((gen t).next (net (flatWeights P (m t)))).1
  step : ∀ t, StepTo net D S states lr shift solver (gen t) (m t) (m (t + 1))

/-- The derivative of the energy at the weights `w` in direction `v`. -/
noncomputable def along (s : Setup σ) (rows : σ → List (σ × ℂ)) (net : (Fin P → ℂ) → σ → ℂ) (w v : Fin P → ℂ) : ℝ :=
  deriv (fun t : ℝ => energyOf s rows (net (w + (t : ℂ) • v))) 0

/-- The gradient of the energy changes at most `K` times as much as the weights (Euclidean lengths). -/
def Curvature (s : Setup σ) (rows : σ → List (σ × ℂ)) (net : (Fin P → ℂ) → σ → ℂ) (K : ℝ) : Prop :=
  0 ≤ K ∧ ∀ w w' v, |along s rows net w v - along s rows net w' v| ≤ K * CG.norm (w - w') * CG.norm v

/-- What C151 says of the weights `w 0, w 1, …` before each step. -/
structure Settles (s : Setup σ) (rows : σ → List (σ × ℂ)) (net : (Fin P → ℂ) → σ → ℂ) (w : ℕ → Fin P → ℂ) : Prop where
  /-- The energy never rises. -/
  never_rises : ∀ t, energyOf s rows (net (w (t + 1))) ≤ energyOf s rows (net (w t))
  /-- Every step lowers it, unless the energy is stationary. -/
  falls : ∀ t, (∃ v, along s rows net (w t) v ≠ 0) → energyOf s rows (net (w (t + 1))) < energyOf s rows (net (w t))
  /-- The energy converges. -/
  converges : ∃ E, Tendsto (fun t => energyOf s rows (net (w t))) atTop (𝓝 E)
  /-- All derivatives of the energy tend to zero. -/
  flat : ∀ v, Tendsto (fun t => along s rows net (w t) v) atTop (𝓝 0)

/-! ### Bounds for the matrix of the system -/

theorem sMatrix_form (O : Matrix (Fin B) (Fin P) ℂ) (shift : ℝ) (v : Fin P → ℂ) :
    (CG.dot v (productOp O shift v)).re = (∑ b, ‖(O *ᵥ v) b‖ ^ 2) / B + shift * CG.norm v ^ 2 := by
  have h1 : CG.dot v (productOp O shift v) = star v ⬝ᵥ (Oᴴ *ᵥ (O *ᵥ v)) / (B : ℂ) + (shift : ℂ) * CG.dot v v := by
    show ∑ k, (starRingEnd ℂ) (v k) * ((Oᴴ *ᵥ (O *ᵥ v)) k / (B : ℂ) + (shift : ℂ) * v k) = _
    unfold CG.dot dotProduct
    rw [Finset.sum_div, Finset.mul_sum, ← Finset.sum_add_distrib]
    refine Finset.sum_congr rfl fun k _ => ?_
    show _ = (starRingEnd ℂ) (v k) * _ / _ + _
    ring
  have h2 : star v ⬝ᵥ (Oᴴ *ᵥ (O *ᵥ v)) = ((∑ b, ‖(O *ᵥ v) b‖ ^ 2 : ℝ) : ℂ) := by
    rw [dotProduct_mulVec, ← star_mulVec, ← dot_eq, CG.dot_self]
  rw [h1, h2, CG.dot_self v, ← CG.norm_sq v]
  have h3 : (((∑ b, ‖(O *ᵥ v) b‖ ^ 2 : ℝ) : ℂ) / (B : ℂ) + (shift : ℂ) * ((CG.norm v ^ 2 : ℝ) : ℂ)) =
      (((∑ b, ‖(O *ᵥ v) b‖ ^ 2) / B + shift * CG.norm v ^ 2 : ℝ) : ℂ) := by push_cast; ring
  rw [h3, Complex.ofReal_re]

/-- Subtracting the mean makes vectors shorter. -/
theorem sum_minusMean_le (J : Matrix (Fin B) (Fin P) ℂ) (v : Fin P → ℂ) :
    ∑ b, ‖(minusMean J *ᵥ v) b‖ ^ 2 ≤ ∑ b, ‖(J *ᵥ v) b‖ ^ 2 := by
  set a : Fin B → ℂ := J *ᵥ v with ha
  set μ : ℂ := (∑ b, a b) / (B : ℂ) with hμ
  have h1 : ∀ b, (minusMean J *ᵥ v) b = a b - μ := by
    intro b
    simp only [ha, hμ, mulVec, dotProduct, minusMean, sub_mul, Finset.sum_sub_distrib]
    congr 1
    rw [Finset.sum_comm, Finset.sum_div]
    refine Finset.sum_congr rfl fun p _ => ?_
    rw [← Finset.sum_mul]
    ring
  simp only [h1]
  rcases Nat.eq_zero_or_pos B with hB | hB
  · subst hB; simp
  have hB' : (B : ℂ) ≠ 0 := by exact_mod_cast hB.ne'
  have h2 : ∀ b, ‖a b - μ‖ ^ 2 = ‖a b‖ ^ 2 - 2 * (a b * (starRingEnd ℂ) μ).re + ‖μ‖ ^ 2 := by
    intro b
    rw [← Complex.normSq_eq_norm_sq, ← Complex.normSq_eq_norm_sq, ← Complex.normSq_eq_norm_sq, Complex.normSq_sub]
    ring
  simp only [h2]
  rw [Finset.sum_add_distrib, Finset.sum_sub_distrib, Finset.sum_const, Finset.card_univ, Fintype.card_fin, nsmul_eq_mul,
    ← Finset.mul_sum, ← Complex.re_sum, ← Finset.sum_mul]
  have h3 : ∑ b, a b = B * μ := by rw [hμ]; field_simp
  have h4 : (∑ b, a b) * (starRingEnd ℂ) μ = ((B * ‖μ‖ ^ 2 : ℝ) : ℂ) := by
    rw [h3, mul_assoc, Complex.mul_conj, Complex.normSq_eq_norm_sq]
    push_cast
    ring
  rw [h4, Complex.ofReal_re]
  have : 0 ≤ (B : ℝ) * ‖μ‖ ^ 2 := by positivity
  linarith

theorem sMatrix_bounds (hB : 0 < B) (J : Matrix (Fin B) (Fin P) ℂ) (shift A : ℝ)
    (hA : ∀ b v, ‖(J *ᵥ v) b‖ ≤ A * CG.norm v) (v : Fin P → ℂ) :
    shift * CG.norm v ^ 2 ≤ (CG.dot v (productOp (minusMean J) shift v)).re ∧
    (CG.dot v (productOp (minusMean J) shift v)).re ≤ (A ^ 2 + shift) * CG.norm v ^ 2 := by
  rw [sMatrix_form]
  have hB' : (0 : ℝ) < B := by exact_mod_cast hB
  have h0 : 0 ≤ (∑ b, ‖(minusMean J *ᵥ v) b‖ ^ 2) / B := div_nonneg (Finset.sum_nonneg fun _ _ => sq_nonneg _) hB'.le
  have h1 : (∑ b, ‖(minusMean J *ᵥ v) b‖ ^ 2) / B ≤ A ^ 2 * CG.norm v ^ 2 := by
    rw [div_le_iff₀ hB']
    refine (sum_minusMean_le J v).trans ?_
    calc ∑ b, ‖(J *ᵥ v) b‖ ^ 2 ≤ ∑ _b : Fin B, (A * CG.norm v) ^ 2 :=
          Finset.sum_le_sum fun b _ => pow_le_pow_left₀ (norm_nonneg _) (hA b v) 2
      _ = _ := by rw [Finset.sum_const, Finset.card_univ, Fintype.card_fin, nsmul_eq_mul]; ring
  exact ⟨by linarith, by linarith⟩

/-! ### The energy lies above a parabola and is bounded -/

theorem energy_bounded (s : Setup σ) (rows : σ → List (σ × ℂ)) (net : σ → ℂ) :
    -(∑ x, ∑ y, ‖opMatrix s rows x y‖) ≤ energyOf s rows net := by
  set H := opMatrix s rows
  set ψ := amplitudes s net
  set Z : ℝ := ∑ x, ‖ψ x‖ ^ 2 with hZ
  have hZ0 : 0 ≤ Z := Finset.sum_nonneg fun _ _ => sq_nonneg _
  have hden : star ψ ⬝ᵥ ψ = (Z : ℂ) := by rw [← dot_eq, CG.dot_self]
  have hnum : ‖star ψ ⬝ᵥ (H *ᵥ ψ)‖ ≤ (∑ x, ∑ y, ‖H x y‖) * Z := by
    unfold dotProduct mulVec dotProduct
    rw [Finset.sum_mul]
    refine (norm_sum_le _ _).trans (Finset.sum_le_sum fun x _ => ?_)
    rw [norm_mul, Finset.sum_mul]
    have h1 : ‖star ψ x‖ = ‖ψ x‖ := by simp
    rw [h1]
    refine (mul_le_mul_of_nonneg_left (norm_sum_le _ _) (norm_nonneg _)).trans ?_
    rw [Finset.mul_sum]
    refine Finset.sum_le_sum fun y _ => ?_
    rw [norm_mul]
    have hx : ‖ψ x‖ ^ 2 ≤ Z := Finset.single_le_sum (f := fun x => ‖ψ x‖ ^ 2) (fun _ _ => sq_nonneg _) (Finset.mem_univ x)
    have hy : ‖ψ y‖ ^ 2 ≤ Z := Finset.single_le_sum (f := fun x => ‖ψ x‖ ^ 2) (fun _ _ => sq_nonneg _) (Finset.mem_univ y)
    have hxy : ‖ψ x‖ * ‖ψ y‖ ≤ Z := by nlinarith [sq_nonneg (‖ψ x‖ - ‖ψ y‖)]
    calc ‖ψ x‖ * (‖H x y‖ * ‖ψ y‖) = ‖H x y‖ * (‖ψ x‖ * ‖ψ y‖) := by ring
      _ ≤ ‖H x y‖ * Z := mul_le_mul_of_nonneg_left hxy (norm_nonneg _)
  have hn : ‖rayleigh H ψ‖ ≤ ∑ x, ∑ y, ‖H x y‖ := by
    unfold rayleigh
    rw [hden, norm_div, Complex.norm_real, Real.norm_eq_abs, abs_of_nonneg hZ0]
    exact div_le_of_le_mul₀ hZ0 (Finset.sum_nonneg fun _ _ => Finset.sum_nonneg fun _ _ => norm_nonneg _) hnum
  have := Complex.abs_re_le_norm (rayleigh H ψ)
  have := neg_abs_le (rayleigh H ψ).re
  show -(∑ x, ∑ y, ‖H x y‖) ≤ (rayleigh H ψ).re
  linarith

/-- Derivatives along a line at its start yield derivatives everywhere. -/
theorem hasDerivAt_line {X : Type} [NormedAddCommGroup X] [NormedSpace ℝ X] (F : (Fin P → ℂ) → X) (G : (Fin P → ℂ) → (Fin P → ℂ) → X)
    (h : ∀ w v, HasDerivAt (fun t : ℝ => F (w + (t : ℂ) • v)) (G w v) 0) (w v : Fin P → ℂ) (t : ℝ) :
    HasDerivAt (fun t : ℝ => F (w + (t : ℂ) • v)) (G (w + (t : ℂ) • v) v) t := by
  have h2 : HasDerivAt (fun u : ℝ => u - t) 1 t := by simpa using (hasDerivAt_id t).sub_const t
  have h3 : HasDerivAt (fun u : ℝ => F (w + (t : ℂ) • v + ((u : ℝ) : ℂ) • v)) (G (w + (t : ℂ) • v) v) (t - t) := by
    rw [sub_self]; exact h _ _
  have h4 := HasDerivAt.scomp (h := fun u : ℝ => u - t) t h3 h2
  rw [one_smul] at h4
  refine h4.congr_of_eventuallyEq (Filter.Eventually.of_forall fun u => ?_)
  show F (w + (u : ℂ) • v) = F (w + (t : ℂ) • v + (((u - t : ℝ)) : ℂ) • v)
  congr 1
  rw [add_assoc, ← add_smul]
  congr 2
  push_cast
  ring

theorem below_parabola (s : Setup σ) (rows : σ → List (σ × ℂ)) (net : (Fin P → ℂ) → σ → ℂ) {K : ℝ} (hK : Curvature s rows net K)
    (hdiff : ∀ w v, DifferentiableAt ℝ (fun t : ℝ => energyOf s rows (net (w + (t : ℂ) • v))) 0) (w v : Fin P → ℂ) (η : ℝ)
    (hη : 0 ≤ η) : energyOf s rows (net (w + (η : ℂ) • v)) ≤
      energyOf s rows (net w) + η * along s rows net w v + K / 2 * η ^ 2 * CG.norm v ^ 2 := by
  set E : ℝ → ℝ := fun t => energyOf s rows (net (w + (t : ℂ) • v)) with hE
  have hd : ∀ t : ℝ, HasDerivAt E (along s rows net (w + (t : ℂ) • v) v) t :=
    hasDerivAt_line (fun w => energyOf s rows (net w)) (along s rows net) (fun w v => (hdiff w v).hasDerivAt) w v
  have hnorm : ∀ t : ℝ, 0 ≤ t → CG.norm ((w + (t : ℂ) • v) - w) = t * CG.norm v := by
    intro t ht
    rw [add_sub_cancel_left]
    unfold CG.norm
    have : ∑ k, ‖((t : ℂ) • v) k‖ ^ 2 = t ^ 2 * ∑ k, ‖v k‖ ^ 2 := by
      rw [Finset.mul_sum]
      refine Finset.sum_congr rfl fun k _ => ?_
      rw [Pi.smul_apply, smul_eq_mul, norm_mul, mul_pow, Complex.norm_real, Real.norm_eq_abs, sq_abs]
    rw [this, Real.sqrt_mul (sq_nonneg _), Real.sqrt_sq ht]
  set c := along s rows net w v with hc
  set V := CG.norm v with hV
  set φ : ℝ → ℝ := fun t => E t - t * c - K * V ^ 2 / 2 * t ^ 2 with hφ
  have hφd : ∀ t : ℝ, HasDerivAt φ (along s rows net (w + (t : ℂ) • v) v - c - K * V ^ 2 * t) t := by
    intro t
    have h1 := hd t
    have h2 := (hasDerivAt_id t).mul_const c
    have h3 := ((hasDerivAt_id t).pow 2).const_mul (K * V ^ 2 / 2)
    have h4 := (h1.sub h2).sub h3
    refine h4.congr_deriv ?_
    norm_num
    ring
  have hle : ∀ t : ℝ, 0 ≤ t → along s rows net (w + (t : ℂ) • v) v - c - K * V ^ 2 * t ≤ 0 := by
    intro t ht
    have h1 := hK.2 (w + (t : ℂ) • v) w v
    rw [hnorm t ht] at h1
    have h2 := (abs_le.1 h1).2
    have : K * (t * V) * V = K * V ^ 2 * t := by ring
    linarith
  have hanti : AntitoneOn φ (Set.Ici 0) := by
    refine antitoneOn_of_deriv_nonpos (convex_Ici 0) (fun t _ => (hφd t).continuousAt.continuousWithinAt)
      (fun t _ => (hφd t).differentiableAt.differentiableWithinAt) fun t ht => ?_
    rw [interior_Ici] at ht
    rw [(hφd t).deriv]
    exact hle t (le_of_lt ht)
  have h5 := hanti (Set.mem_Ici.2 le_rfl) (Set.mem_Ici.2 hη) hη
  simp only [hφ] at h5
  have h6 : E 0 = energyOf s rows (net w) := by simp [hE]
  rw [h6] at h5
  have h7 : E η = energyOf s rows (net (w + (η : ℂ) • v)) := rfl
  rw [← h7]
  nlinarith

/-! ### Training -/

theorem gen_next (s : Setup σ) (rows : σ → List (σ × ℂ)) (hr : RowWise s rows) (batch : Nat) (hbatch : s.S ≤ batch) (o : Obj σ)
    (ho : Obj.new s batch = .ok o) (nets : List (σ → ℂ)) (net : σ → ℂ) :
    (Gen.mk (nets.foldl Obj.update o) []).next net =
      (⟨(nets ++ [net]).foldl Obj.update o, []⟩,
        ⟨(List.range s.S).map fun k => (s.states k, (after o nets net).arrays.coeff k), true⟩) := by
  obtain ⟨hset, hpos, hbs, -, -, hmin⟩ := new_ok s rows hr batch o ho
  rw [min_eq_right hbatch] at hmin
  have hset' : ∀ (nets : List (σ → ℂ)) (o : Obj σ), (nets.foldl Obj.update o).setup = o.setup ∧ (nets.foldl Obj.update o).bs = o.bs := by
    intro nets
    induction nets with
    | nil => intro o; exact ⟨rfl, rfl⟩
    | cons a l ih => intro o; exact ih (o.update a)
  have h1 : ((nets.foldl Obj.update o).update net).setup = s := (hset' nets o).1.trans hset
  have h2 : ((nets.foldl Obj.update o).update net).bs = s.S := (hset' nets o).2.trans hmin
  have h3 : pyRange s.S s.S = [0] := by
    have := pyRange_dvd 1 s.S hpos
    rw [one_mul] at this
    rw [this]
    simp
  unfold Gen.next
  dsimp only
  rw [h1, h2, h3]
  dsimp only
  unfold Obj.slice
  rw [h1, h2, List.foldl_append]
  simp only [zero_add, List.foldl_cons, List.foldl_nil]
  rfl

theorem flat_length (m : ComplexModel) (hm : m.Valid) (hP : P = ((m.weights.map Tensor.shape).map List.prod).sum) :
    (m.weights.flatMap Tensor.data).length = P := by
  obtain ⟨hs', hre, him⟩ := hm
  have hlen : m.real.length = m.imag.length := by simpa using congrArg List.length hs'
  have hws : m.weights.map Tensor.shape = m.real.map Tensor.shape := shape_complexWeight _ _ hlen
  rw [ComplexModel.weights, flatMap_complexWeight _ _ hs' hre him, List.length_zipWith,
    length_flatMap_valid _ hre, length_flatMap_valid _ him, ← hs', min_self, ← hws, hP]
  rfl

theorem apply_step (lr : ℝ) (m : ComplexModel) (hm : m.Valid) (hP : P = ((m.weights.map Tensor.shape).map List.prod).sum)
    (x : Fin P → ℂ) : ∃ m', applyComplexGradient lr m (List.ofFn fun p => x p * (-1)) = some m' ∧ m'.Valid ∧
      m'.weights.map Tensor.shape = m.weights.map Tensor.shape ∧ flatWeights P m' = flatWeights P m + (lr : ℂ) • (-x) := by
  obtain ⟨m', g1, g2, g4, g3⟩ := C30_complex_update lr m hm (List.ofFn fun p => x p * (-1)) (by rw [List.length_ofFn]; exact hP)
  refine ⟨m', g1, g2, g4, flat_update (flat_length m hm hP) x ?_⟩
  rw [g3, show (List.ofFn fun p => x p * (-1)) = (List.ofFn x).map fun z => z * (-1) by rw [List.map_ofFn]; rfl,
    List.zipWith_map_right]
  congr 1
  funext w z
  ring

/-- The parameters of the solver for which it works: a tolerance below one, a positive limit on the iterations, and more than
one weight (C32). -/
def Solver.Usable (P : ℕ) : Solver → Prop
  | .direct => True
  | .iterative tol maxIter => 0 ≤ tol ∧ tol < 1 ∧ 0 < maxIter ∧ P ≠ 1

/-- What a solver returns for the system with the centred Jacobian `O` and right-hand side `g`. -/
def Solver.Gives (solver : Solver) (O : Matrix (Fin B) (Fin P) ℂ) (shift : ℝ) (g x : Fin P → ℂ) : Prop :=
  match solver with
  | .direct => solveDirectly O shift g = some x
  | .iterative tol maxIter => ∃ s, IterativeReturns O shift tol maxIter g (.ok (some s)) ∧ s.x = x

theorem gives_exists (solver : Solver) (hu : solver.Usable P) (J : Matrix (Fin B) (Fin P) ℂ) {shift : ℝ} (hs : 0 < shift)
    (target : Fin B → ℂ) : ∃ x, solver.Gives (minusMean J) shift (energyGrad (minusMean J) target) x := by
  obtain ⟨⟨x, hx, -⟩, hit⟩ := C127_direction J target shift hs
  cases solver with
  | direct => exact ⟨x, hx⟩
  | iterative tol maxIter =>
    obtain ⟨h1, h2, h3, h4⟩ := hu
    obtain ⟨st, hst, -⟩ := hit tol maxIter h1 h2 h3 h4
    exact ⟨st.x, st, hst, rfl⟩

theorem gives_good (solver : Solver) (hu : solver.Usable P) (O : Matrix (Fin B) (Fin P) ℂ) {shift : ℝ} (hs : 0 < shift)
    (g x : Fin P → ℂ) (h : solver.Gives O shift g x) :
    (g = 0 → x = 0) ∧
    (g ≠ 0 → CG.form (productOp O shift) g x ≤ -((CG.norm g ^ 2) ^ 2 / (CG.dot g (productOp O shift g)).re)) := by
  have hA := hpd_product O hs
  cases solver with
  | direct =>
    have hunit : IsUnit (sMatrix O shift).det := (sMatrix_posDef O hs).det_pos.ne'.isUnit
    have hx : x = (sMatrix O shift)⁻¹ *ᵥ g := by
      have h' : solveDirectly O shift g = some x := h
      rw [solveDirectly, if_pos hunit] at h'
      exact (Option.some.inj h').symm
    refine ⟨fun hg => by rw [hx, hg, mulVec_zero], fun hg => CG.form_solution hA g hg x ?_⟩
    show product O shift x = g
    rw [product_eq, hx, mulVec_mulVec, Matrix.mul_nonsing_inv _ hunit, one_mulVec]
  | iterative tol maxIter =>
    obtain ⟨h1, h2, h3, h4⟩ := hu
    obtain ⟨st, hst, rfl⟩ := h
    unfold IterativeReturns at hst
    rw [if_neg h4] at hst
    obtain ⟨o, ho, h5⟩ := hst
    cases ho
    refine ⟨fun hg => ?_, fun hg => CG.form_returns hA g hg tol h2 (some maxIter) (by simp; omega) st h5⟩
    rw [hg] at h5
    have hstop : ¬ CG.Continue (tol * CG.norm (0 : CG.Vec P)) (some maxIter) (CG.init (productOp O shift) none 0 none) := by
      rintro ⟨-, h⟩
      have h0 : (CG.init (productOp O shift) none 0 none).r = 0 := rfl
      rw [h0, CG.norm_eq_zero.2 rfl] at h
      simp at h
    have hr0 : (CG.init (productOp O shift) none (0 : CG.Vec P) none).r = 0 := rfl
    unfold CG.Returns at h5
    rw [hr0] at h5
    have := CG.loop_unique h5 (CG.Loop.stop _ hstop)
    cases this
    rfl

/-- Every product with a vector is at most the product of the lengths. -/
theorem dot_re_le (x y : Fin P → ℂ) : |(CG.dot x y).re| ≤ CG.norm x * CG.norm y := by
  refine (Complex.abs_re_le_norm _).trans ?_
  unfold CG.dot CG.norm
  refine (norm_sum_le _ _).trans ?_
  rw [← Real.sqrt_mul (Finset.sum_nonneg fun k _ => sq_nonneg _)]
  refine Real.le_sqrt_of_sq_le ?_
  simp only [norm_mul, RCLike.norm_conj]
  exact Finset.sum_mul_sq_le_sq_mul_sq _ _ _

theorem jacobian_mulVec (D : (Fin P → ℂ) →L[ℂ] ℂ) (v : Fin P → ℂ) : ∑ p, D (Pi.single p 1) * v p = D v := by
  have hv : v = ∑ p, v p • (Pi.single p (1 : ℂ) : Fin P → ℂ) := by
    funext q
    rw [Finset.sum_apply, Finset.sum_eq_single q]
    · simp
    · intro p _ hp
      rw [Pi.smul_apply, Pi.single_eq_of_ne hp.symm, smul_zero]
    · intro h; exact absurd (Finset.mem_univ q) h
  conv_rhs => rw [hv]
  rw [map_sum]
  refine Finset.sum_congr rfl fun p _ => ?_
  rw [map_smul, smul_eq_mul, mul_comm]

/-- The gradient that a batch yields. -/
noncomputable def batchGrad (s : Setup σ) (D : (Fin P → ℂ) → σ → (Fin P → ℂ) →L[ℂ] ℂ) (o : Obj σ) (net : (Fin P → ℂ) → σ → ℂ)
    (nets : List (σ → ℂ)) (w : Fin P → ℂ) : Fin P → ℂ :=
  energyGrad (minusMean fun (b : Fin s.S) p => D w (s.states b) (Pi.single p 1))
    fun b : Fin s.S => (after o nets (net w)).arrays.coeff b

/-- What one step does to the energy. -/
theorem step_down (s : Setup σ) (rows : σ → List (σ × ℂ)) (hr : RowWise s rows) (hH : (opMatrix s rows).IsHermitian)
    (batch : Nat) (o : Obj σ) (ho : Obj.new s batch = .ok o)
    (net : (Fin P → ℂ) → σ → ℂ) (D : (Fin P → ℂ) → σ → (Fin P → ℂ) →L[ℂ] ℂ)
    (hD : ∀ w, ∀ b : Fin s.S, HasFDerivAt (fun w => net w (s.states b)) (D w (s.states b)) w)
    (A : ℝ) (hA : ∀ w v, ∀ b : Fin s.S, ‖D w (s.states b) v‖ ≤ A * CG.norm v) (K : ℝ) (hK : Curvature s rows net K)
    (lr shift : ℝ) (hlr : 0 < lr) (hs : 0 < shift) (hsmall : lr * K ≤ 2 * shift)
    (solver : Solver) (hu : solver.Usable P) (nets : List (σ → ℂ)) (w x : Fin P → ℂ)
    (hx : solver.Gives (minusMean fun (b : Fin s.S) p => D w (s.states b) (Pi.single p 1)) shift
      (batchGrad s D o net nets w) x) :
    energyOf s rows (net (w + (lr : ℂ) • (-x))) ≤
      energyOf s rows (net w) - lr * (CG.norm (batchGrad s D o net nets w) ^ 2 / (A ^ 2 + shift)) := by
  obtain ⟨-, hpos, -⟩ := new_ok s rows hr batch o ho
  set J : Matrix (Fin s.S) (Fin P) ℂ := fun b p => D w (s.states b) (Pi.single p 1) with hJ
  set g := batchGrad s D o net nets w with hg
  have hdiff : ∀ w v, DifferentiableAt ℝ (fun t : ℝ => energyOf s rows (net (w + (t : ℂ) • v))) 0 := fun w v =>
    (energy_along s rows hr hH batch o ho nets net w (D w) (hD w) v).differentiableAt
  have halong : along s rows net w (-x) = -(2 * (CG.dot g x).re) := by
    unfold along
    rw [(energy_along s rows hr hH batch o ho nets net w (D w) (hD w) (-x)).deriv]
    show 2 * (CG.dot g (-x)).re = _
    simp only [CG.dot, Pi.neg_apply, mul_neg, Finset.sum_neg_distrib, Complex.neg_re]
  obtain ⟨h0, h1⟩ := gives_good solver hu _ hs g x hx
  by_cases hg0 : g = 0
  · have hn : CG.norm (0 : Fin P → ℂ) = 0 := CG.norm_eq_zero.2 rfl
    rw [h0 hg0, hg0, hn]
    simp
  have h2 := below_parabola s rows net hK hdiff w (-x) lr hlr.le
  rw [halong] at h2
  have hnx : CG.norm (-x) = CG.norm x := by unfold CG.norm; simp
  rw [hnx] at h2
  have hbd := sMatrix_bounds hpos J shift A fun b v => by
    have : (J *ᵥ v) b = D w (s.states b) v := jacobian_mulVec (D w (s.states b)) v
    rw [this]
    exact hA w v b
  have hprod := CG.product_large (A := productOp (minusMean J) shift) (lam := shift) (Lam := A ^ 2 + shift) (by positivity)
    (fun v => (hbd v).1) (fun v => (hbd v).2) hg0 ((hpd_product _ hs).pos g hg0) (h1 hg0)
  have h3 : K / 2 * lr ^ 2 * CG.norm x ^ 2 ≤ lr * (shift * CG.norm x ^ 2) := by
    have : 0 ≤ lr * CG.norm x ^ 2 := by positivity
    nlinarith
  have h4 := mul_le_mul_of_nonneg_left hprod hlr.le
  linarith

/-- The history of the networks of a run. -/
theorem run_gen {net : (Fin P → ℂ) → σ → ℂ} {D : (Fin P → ℂ) → σ → (Fin P → ℂ) →L[ℂ] ℂ} (s : Setup σ)
    (rows : σ → List (σ × ℂ)) (hr : RowWise s rows) (batch : Nat) (hbatch : s.S ≤ batch) (o : Obj σ)
    (ho : Obj.new s batch = .ok o) {lr shift : ℝ} {solver : Solver} {gen : ℕ → Gen σ} {m : ℕ → ComplexModel}
    (h : Run net D s.S s.states lr shift solver gen m) (h0 : gen 0 = Gen.start o) (t : ℕ) :
    gen t = ⟨((List.range t).map fun i => net (flatWeights P (m i))).foldl Obj.update o, []⟩ := by
  induction t with
  | zero => rw [h0]; rfl
  | succ t ih =>
    rw [h.next t, ih, gen_next s rows hr batch hbatch o ho, List.range_succ, List.map_append]
    rfl

theorem target_eq (s : Setup σ) (rows : σ → List (σ × ℂ)) (hr : RowWise s rows) (batch : Nat) (hbatch : s.S ≤ batch) (o : Obj σ)
    (ho : Obj.new s batch = .ok o) (nets : List (σ → ℂ)) (net : σ → ℂ) :
    (fun b : Fin s.S => ((((Gen.mk (nets.foldl Obj.update o) []).next net).2.batch.map Prod.snd).getD b 0 : ℂ)) =
      fun b : Fin s.S => (after o nets net).arrays.coeff b := by
  rw [gen_next s rows hr batch hbatch o ho]
  funext b
  dsimp only
  rw [List.map_map, List.getD_eq_getElem?_getD, List.getElem?_map, List.getElem?_range b.2]
  rfl

/-- The steps of a run, in terms of what the solver returns. -/
theorem run_step {net : (Fin P → ℂ) → σ → ℂ} {D : (Fin P → ℂ) → σ → (Fin P → ℂ) →L[ℂ] ℂ} (s : Setup σ)
    (rows : σ → List (σ × ℂ)) (hr : RowWise s rows) (batch : Nat) (hbatch : s.S ≤ batch) (o : Obj σ)
    (ho : Obj.new s batch = .ok o) {lr shift : ℝ} {solver : Solver} {gen : ℕ → Gen σ} {m : ℕ → ComplexModel}
    (h : Run net D s.S s.states lr shift solver gen m) (h0 : gen 0 = Gen.start o) (hm : (m 0).Valid)
    (hP : P = (((m 0).weights.map Tensor.shape).map List.prod).sum) (t : ℕ) :
    (m t).Valid ∧ P = (((m t).weights.map Tensor.shape).map List.prod).sum ∧
    ∃ nets x, solver.Gives (minusMean fun (b : Fin s.S) p => D (flatWeights P (m t)) (s.states b) (Pi.single p 1)) shift
      (batchGrad s D o net nets (flatWeights P (m t))) x ∧
      flatWeights P (m (t + 1)) = flatWeights P (m t) + (lr : ℂ) • (-x) := by
  have key : ∀ t, (m t).Valid → P = (((m t).weights.map Tensor.shape).map List.prod).sum →
      ((m (t + 1)).Valid ∧ P = (((m (t + 1)).weights.map Tensor.shape).map List.prod).sum) ∧
      ∃ nets x, solver.Gives (minusMean fun (b : Fin s.S) p => D (flatWeights P (m t)) (s.states b) (Pi.single p 1)) shift
        (batchGrad s D o net nets (flatWeights P (m t))) x ∧
        flatWeights P (m (t + 1)) = flatWeights P (m t) + (lr : ℂ) • (-x) := by
    intro t hv hPt
    have hstep := h.step t
    rw [run_gen s rows hr batch hbatch o ho h h0 t] at hstep
    unfold StepTo at hstep
    dsimp only at hstep
    rw [target_eq s rows hr batch hbatch o ho] at hstep
    set nets := (List.range t).map fun i => net (flatWeights P (m i))
    have hx : ∃ x, solver.Gives (minusMean fun (b : Fin s.S) p => D (flatWeights P (m t)) (s.states b) (Pi.single p 1)) shift
        (batchGrad s D o net nets (flatWeights P (m t))) x ∧
        applyComplexGradient lr (m t) (List.ofFn fun p => x p * (-1)) = some (m (t + 1)) := by
      cases solver with
      | direct =>
        dsimp only at hstep
        unfold getUpdatesDirect at hstep
        rw [Option.bind_eq_some_iff] at hstep
        exact hstep
      | iterative tol maxIter =>
        obtain ⟨st, h1, h2⟩ := hstep
        exact ⟨st.x, ⟨st, h1, rfl⟩, h2⟩
    obtain ⟨x, h1, h2⟩ := hx
    obtain ⟨m', g1, g2, g3, g4⟩ := apply_step lr (m t) hv hPt x
    rw [h2] at g1
    cases g1
    exact ⟨⟨g2, by rw [g3]; exact hPt⟩, nets, x, h1, g4⟩
  have hall : ∀ t, (m t).Valid ∧ P = (((m t).weights.map Tensor.shape).map List.prod).sum := by
    intro t
    induction t with
    | zero => exact ⟨hm, hP⟩
    | succ t ih => exact (key t ih.1 ih.2).1
  exact ⟨(hall t).1, (hall t).2, (key t (hall t).1 (hall t).2).2⟩

/-- **C151**: the energy never rises, every step lowers it unless it is stationary, it converges, and its derivatives tend to
zero; for every network that is a holomorphic function of its weights with derivatives at most `A` and whose energy has
curvature at most `K`, every Hermitian operator, both solvers, every shift and every learning rate up to `2 shift / K`. -/
theorem C151_settles (s : Setup σ) (rows : σ → List (σ × ℂ)) (hr : RowWise s rows) (hH : (opMatrix s rows).IsHermitian)
    (batch : Nat) (hbatch : s.S ≤ batch) (o : Obj σ) (ho : Obj.new s batch = .ok o)
    (net : (Fin P → ℂ) → σ → ℂ) (D : (Fin P → ℂ) → σ → (Fin P → ℂ) →L[ℂ] ℂ)
    (hD : ∀ w, ∀ b : Fin s.S, HasFDerivAt (fun w => net w (s.states b)) (D w (s.states b)) w)
    (A : ℝ) (hA : ∀ w v, ∀ b : Fin s.S, ‖D w (s.states b) v‖ ≤ A * CG.norm v) (K : ℝ) (hK : Curvature s rows net K)
    (lr shift : ℝ) (hlr : 0 < lr) (hs : 0 < shift) (hsmall : lr * K ≤ 2 * shift)
    (solver : Solver) (hu : solver.Usable P) (gen : ℕ → Gen σ) (m : ℕ → ComplexModel)
    (hrun : Run net D s.S s.states lr shift solver gen m) (h0 : gen 0 = Gen.start o) (hm : (m 0).Valid)
    (hP : P = (((m 0).weights.map Tensor.shape).map List.prod).sum) :
    Settles s rows net fun t => flatWeights P (m t) := by
  set w : ℕ → Fin P → ℂ := fun t => flatWeights P (m t) with hw
  set E : ℕ → ℝ := fun t => energyOf s rows (net (w t)) with hE
  have hΛ : 0 < A ^ 2 + shift := by positivity
  have hex : ∀ t, ∃ g : Fin P → ℂ, E (t + 1) ≤ E t - lr * (CG.norm g ^ 2 / (A ^ 2 + shift)) ∧
      ∀ v, along s rows net (w t) v = 2 * (CG.dot g v).re := by
    intro t
    obtain ⟨-, -, nets, x, hx, hnext⟩ := run_step s rows hr batch hbatch o ho hrun h0 hm hP t
    refine ⟨batchGrad s D o net nets (w t), ?_, fun v => ?_⟩
    · have := step_down s rows hr hH batch o ho net D hD A hA K hK lr shift hlr hs hsmall solver hu nets (w t) x hx
      show energyOf s rows (net (w (t + 1))) ≤ _
      have hnext' : w (t + 1) = w t + (lr : ℂ) • (-x) := hnext
      rw [hnext']
      exact this
    · unfold along
      rw [(energy_along s rows hr hH batch o ho nets net (w t) (D (w t)) (hD (w t)) v).deriv]
      rfl
  choose g hg1 hg2 using hex
  have hdec : ∀ t, E (t + 1) ≤ E t := fun t => by
    have := hg1 t
    have : 0 ≤ lr * (CG.norm (g t) ^ 2 / (A ^ 2 + shift)) := by positivity
    linarith [hg1 t]
  have hanti : Antitone E := antitone_nat_of_succ_le hdec
  have hbdd : BddBelow (Set.range E) := ⟨_, by rintro _ ⟨t, rfl⟩; exact energy_bounded s rows (net (w t))⟩
  have hconv := tendsto_atTop_ciInf hanti hbdd
  have hsq : Tendsto (fun t => CG.norm (g t) ^ 2) atTop (𝓝 0) := by
    have h1 : Tendsto (fun t => (A ^ 2 + shift) / lr * (E t - E (t + 1))) atTop (𝓝 ((A ^ 2 + shift) / lr * 0)) := by
      refine Tendsto.const_mul _ ?_
      have := hconv.sub (hconv.comp (tendsto_add_atTop_nat 1))
      rw [sub_self] at this
      exact this
    rw [mul_zero] at h1
    refine squeeze_zero (fun t => sq_nonneg _) (fun t => ?_) h1
    have h2 : lr * (CG.norm (g t) ^ 2 / (A ^ 2 + shift)) ≤ E t - E (t + 1) := by linarith [hg1 t]
    rw [div_mul_eq_mul_div, le_div_iff₀ hlr]
    rw [← mul_div_assoc, div_le_iff₀ hΛ] at h2
    linarith
  have hnorm : Tendsto (fun t => CG.norm (g t)) atTop (𝓝 0) := by
    have := hsq.sqrt
    simpa [Real.sqrt_sq (CG.norm_nonneg _)] using this
  refine ⟨hdec, fun t ⟨v, hv⟩ => ?_, ⟨_, hconv⟩, fun v => ?_⟩
  · have hgne : g t ≠ 0 := by
      intro h
      apply hv
      rw [hg2 t v, h, CG.dot_zero_left, Complex.zero_re, mul_zero]
    have : 0 < lr * (CG.norm (g t) ^ 2 / (A ^ 2 + shift)) := by
      have := CG.norm_pos.2 hgne
      positivity
    show E (t + 1) < E t
    linarith [hg1 t]
  · refine squeeze_zero_norm (a := fun t => 2 * (CG.norm (g t) * CG.norm v)) (fun t => ?_) ?_
    · rw [hg2 t v, Real.norm_eq_abs, abs_mul, abs_two]
      exact mul_le_mul_of_nonneg_left (dot_re_le _ _) two_pos.le
    · have := (hnorm.mul_const (CG.norm v)).const_mul 2
      simpa using this

/-- **C151**, no step fails: from every model with `P` weights there is a run. -/
theorem C151_goes_on (s : Setup σ) (o : Obj σ) (net : (Fin P → ℂ) → σ → ℂ) (D : (Fin P → ℂ) → σ → (Fin P → ℂ) →L[ℂ] ℂ)
    (lr shift : ℝ) (hs : 0 < shift) (solver : Solver) (hu : solver.Usable P) (m₀ : ComplexModel) (hm : m₀.Valid)
    (hP : P = ((m₀.weights.map Tensor.shape).map List.prod).sum) :
    ∃ gen m, Run net D s.S s.states lr shift solver gen m ∧ gen 0 = Gen.start o ∧ m 0 = m₀ := by
  classical
  have hrel : ∀ ge mo, mo.Valid → P = ((mo.weights.map Tensor.shape).map List.prod).sum →
      ∃ mo', StepTo net D s.S s.states lr shift solver ge mo mo' ∧ mo'.Valid ∧ P = ((mo'.weights.map Tensor.shape).map List.prod).sum := by
    intro ge mo hv hPm
    obtain ⟨x, hx⟩ := gives_exists solver hu (fun (b : Fin s.S) p => D (flatWeights P mo) (s.states b) (Pi.single p 1)) hs
      fun b : Fin s.S => (((ge.next (net (flatWeights P mo))).2.batch.map Prod.snd).getD b 0)
    obtain ⟨m', g1, g2, g3, -⟩ := apply_step lr mo hv hPm x
    refine ⟨m', ?_, g2, by rw [g3]; exact hPm⟩
    cases solver with
    | direct =>
      have hx' : solveDirectly _ _ _ = some x := hx
      show getUpdatesDirect _ _ _ _ _ = _
      simp only [getUpdatesDirect, hx', Option.bind_some, g1]
    | iterative tol maxIter =>
      obtain ⟨st, h1, rfl⟩ := hx
      exact ⟨st, h1, g1⟩
  let T := {q : Gen σ × ComplexModel // q.2.Valid ∧ P = ((q.2.weights.map Tensor.shape).map List.prod).sum}
  let next : T → T := fun q =>
    ⟨((q.1.1.next (net (flatWeights P q.1.2))).1, (hrel q.1.1 q.1.2 q.2.1 q.2.2).choose),
      (hrel q.1.1 q.1.2 q.2.1 q.2.2).choose_spec.2⟩
  let seq : ℕ → T := fun t => next^[t] ⟨(Gen.start o, m₀), hm, hP⟩
  have hseq : ∀ t, seq (t + 1) = next (seq t) := fun t => Function.iterate_succ_apply' _ _ _
  refine ⟨fun t => (seq t).1.1, fun t => (seq t).1.2, ⟨fun t => ?_, fun t => ?_⟩, rfl, rfl⟩
  · show (seq (t + 1)).1.1 = _
    rw [hseq]
  · have h := (hrel (seq t).1.1 (seq t).1.2 (seq t).2.1 (seq t).2.2).choose_spec.1
    have h2 : (seq (t + 1)).1.2 = (hrel (seq t).1.1 (seq t).1.2 (seq t).2.1 (seq t).2.2).choose := by rw [hseq]
    rw [h2]
    exact h

/-! ### Networks that are linear in their weights -/

section Linear

variable (s : Setup σ) (f : σ → Fin P → ℂ)

/-- The log amplitude of state number `x` under the weights `w`. -/
noncomputable def lin (x : Fin s.S) (w : Fin P → ℂ) : ℂ := ∑ p, w p * f (s.states x) p

/-- The product of the amplitudes of two states, the first one conjugated. -/
noncomputable def pairAmp (w : Fin P → ℂ) (x y : Fin s.S) : ℂ := Complex.exp ((starRingEnd ℂ) (lin s f x w) + lin s f y w)

/-- The same for the normalised wave function. -/
noncomputable def corr (w : Fin P → ℂ) (x y : Fin s.S) : ℂ := pairAmp s f w x y / ∑ z, pairAmp s f w z z

/-- How fast the exponent of `pairAmp` changes in direction `v`. -/
noncomputable def rate (v : Fin P → ℂ) (x y : Fin s.S) : ℂ := (starRingEnd ℂ) (lin s f x v) + lin s f y v

/-- How fast the normalised product changes, relative to its size. -/
noncomputable def relRate (w v : Fin P → ℂ) (x y : Fin s.S) : ℂ := rate s f v x y - ∑ z, corr s f w z z * rate s f v z z

theorem lin_line (x : Fin s.S) (w v : Fin P → ℂ) (t : ℝ) : lin s f x (w + (t : ℂ) • v) = lin s f x w + t * lin s f x v := by
  unfold lin
  rw [Finset.mul_sum, ← Finset.sum_add_distrib]
  refine Finset.sum_congr rfl fun p _ => ?_
  rw [Pi.add_apply, Pi.smul_apply, smul_eq_mul]
  ring

theorem pairAmp_self (w : Fin P → ℂ) (x : Fin s.S) : pairAmp s f w x x = ((Real.exp (2 * (lin s f x w).re) : ℝ) : ℂ) := by
  unfold pairAmp
  rw [Complex.ofReal_exp, add_comm, Complex.add_conj]

theorem norm_pairAmp (w : Fin P → ℂ) (x y : Fin s.S) :
    ‖pairAmp s f w x y‖ = Real.exp ((lin s f x w).re + (lin s f y w).re) := by
  unfold pairAmp
  rw [Complex.norm_exp, Complex.add_re, Complex.conj_re]

theorem sum_pairAmp (w : Fin P → ℂ) : ∑ z, pairAmp s f w z z = ((∑ z, Real.exp (2 * (lin s f z w).re) : ℝ) : ℂ) := by
  rw [Complex.ofReal_sum]
  exact Finset.sum_congr rfl fun z _ => pairAmp_self s f w z

theorem sum_exp_pos (x : Fin s.S) (w : Fin P → ℂ) : 0 < ∑ z, Real.exp (2 * (lin s f z w).re) :=
  Finset.sum_pos (fun _ _ => Real.exp_pos _) ⟨x, Finset.mem_univ x⟩

theorem corr_self (w : Fin P → ℂ) (x : Fin s.S) :
    corr s f w x x = ((Real.exp (2 * (lin s f x w).re) / ∑ z, Real.exp (2 * (lin s f z w).re) : ℝ) : ℂ) := by
  unfold corr
  rw [sum_pairAmp, pairAmp_self, Complex.ofReal_div]

theorem sum_norm_corr_le (w : Fin P → ℂ) : ∑ x, ‖corr s f w x x‖ ≤ 1 := by
  simp only [corr_self, Complex.norm_real, Real.norm_eq_abs]
  have : ∀ x : Fin s.S, |Real.exp (2 * (lin s f x w).re) / ∑ z, Real.exp (2 * (lin s f z w).re)|
      = Real.exp (2 * (lin s f x w).re) / ∑ z, Real.exp (2 * (lin s f z w).re) := fun x =>
    abs_of_nonneg (div_nonneg (Real.exp_pos _).le (sum_exp_pos s f x w).le)
  simp only [this]
  rw [← Finset.sum_div]
  exact div_self_le_one _

theorem norm_corr_le (w : Fin P → ℂ) (x y : Fin s.S) : ‖corr s f w x y‖ ≤ 1 := by
  unfold corr
  have hpos := sum_exp_pos s f x w
  rw [sum_pairAmp, norm_div, norm_pairAmp, Complex.norm_real, Real.norm_eq_abs, abs_of_pos hpos, div_le_one hpos]
  have hx : Real.exp (2 * (lin s f x w).re) ≤ ∑ z, Real.exp (2 * (lin s f z w).re) :=
    Finset.single_le_sum (f := fun z => Real.exp (2 * (lin s f z w).re)) (fun _ _ => (Real.exp_pos _).le) (Finset.mem_univ x)
  have hy : Real.exp (2 * (lin s f y w).re) ≤ ∑ z, Real.exp (2 * (lin s f z w).re) :=
    Finset.single_le_sum (f := fun z => Real.exp (2 * (lin s f z w).re)) (fun _ _ => (Real.exp_pos _).le) (Finset.mem_univ y)
  rcases le_total (lin s f x w).re (lin s f y w).re with h | h
  · exact (Real.exp_le_exp.2 (by linarith)).trans hy
  · exact (Real.exp_le_exp.2 (by linarith)).trans hx

theorem pairAmp_deriv (w v : Fin P → ℂ) (x y : Fin s.S) :
    HasDerivAt (fun t : ℝ => pairAmp s f (w + (t : ℂ) • v) x y) (pairAmp s f w x y * rate s f v x y) 0 := by
  have h1 : HasDerivAt (fun t : ℝ => (starRingEnd ℂ) (lin s f x w) + lin s f y w + (t : ℂ) * rate s f v x y)
      (rate s f v x y) 0 := by
    have := ((Complex.ofRealCLM.hasDerivAt (x := (0 : ℝ))).mul_const (rate s f v x y)).const_add
      ((starRingEnd ℂ) (lin s f x w) + lin s f y w)
    simpa using this
  have h2 := h1.cexp
  have h3 : Complex.exp ((starRingEnd ℂ) (lin s f x w) + lin s f y w + ((0 : ℝ) : ℂ) * rate s f v x y) = pairAmp s f w x y := by
    simp [pairAmp]
  rw [h3] at h2
  refine h2.congr_of_eventuallyEq (Filter.Eventually.of_forall fun t => ?_)
  show pairAmp s f (w + (t : ℂ) • v) x y = _
  unfold pairAmp
  rw [lin_line, lin_line]
  congr 1
  unfold rate
  rw [map_add, map_mul, Complex.conj_ofReal]
  ring

theorem corr_deriv (w v : Fin P → ℂ) (x y : Fin s.S) :
    HasDerivAt (fun t : ℝ => corr s f (w + (t : ℂ) • v) x y) (corr s f w x y * relRate s f w v x y) 0 := by
  have h1 := pairAmp_deriv s f w v x y
  have h2 : HasDerivAt (fun t : ℝ => ∑ z, pairAmp s f (w + (t : ℂ) • v) z z) (∑ z, pairAmp s f w z z * rate s f v z z) 0 :=
    HasDerivAt.fun_sum fun z _ => pairAmp_deriv s f w v z z
  have hw : w + (((0 : ℝ) : ℂ)) • v = w := by simp
  have hne : ∑ z, pairAmp s f w z z ≠ 0 := by
    rw [sum_pairAmp]
    exact Complex.ofReal_ne_zero.2 (sum_exp_pos s f x w).ne'
  have h3 := h1.div h2 (by rw [hw]; exact hne)
  rw [hw] at h3
  refine h3.congr_deriv ?_
  have h4 : ∑ z, corr s f w z z * rate s f v z z = (∑ z, pairAmp s f w z z * rate s f v z z) / ∑ z, pairAmp s f w z z := by
    rw [Finset.sum_div]
    refine Finset.sum_congr rfl fun z _ => ?_
    unfold corr
    ring
  unfold relRate
  rw [h4]
  unfold corr
  field_simp

/-- The energy of the network in terms of the normalised products. -/
theorem energyOf_linear (rows : σ → List (σ × ℂ)) (w : Fin P → ℂ) :
    energyOf s rows (fun x => ∑ p, w p * f x p) = (∑ x, ∑ y, opMatrix s rows x y * corr s f w x y).re := by
  unfold energyOf rayleigh
  have hZ : (star (amplitudes s fun x => ∑ p, w p * f x p) ⬝ᵥ amplitudes s fun x => ∑ p, w p * f x p) = ∑ z, pairAmp s f w z z := by
    unfold dotProduct
    refine Finset.sum_congr rfl fun z _ => ?_
    show (starRingEnd ℂ) (Complex.exp (lin s f z w)) * Complex.exp (lin s f z w) = _
    rw [← Complex.exp_conj, ← Complex.exp_add]
    rfl
  rw [hZ]
  congr 1
  unfold dotProduct mulVec dotProduct
  rw [Finset.sum_div]
  refine Finset.sum_congr rfl fun x _ => ?_
  rw [Finset.mul_sum, Finset.sum_div]
  refine Finset.sum_congr rfl fun y _ => ?_
  show (starRingEnd ℂ) (Complex.exp (lin s f x w)) * (_ * Complex.exp (lin s f y w)) / _ = _
  unfold corr pairAmp
  rw [← Complex.exp_conj, Complex.exp_add]
  ring

/-- The derivative of the energy of the network. -/
noncomputable def linSlope (rows : σ → List (σ × ℂ)) (w v : Fin P → ℂ) : ℝ :=
  (∑ x, ∑ y, opMatrix s rows x y * (corr s f w x y * relRate s f w v x y)).re

/-- The second derivative. -/
noncomputable def linCurve (rows : σ → List (σ × ℂ)) (w u v : Fin P → ℂ) : ℝ :=
  (∑ x, ∑ y, opMatrix s rows x y * (corr s f w x y * relRate s f w u x y * relRate s f w v x y +
    corr s f w x y * -∑ z, corr s f w z z * relRate s f w u z z * rate s f v z z)).re

theorem re_deriv {g : ℝ → ℂ} {g' : ℂ} {t : ℝ} (h : HasDerivAt g g' t) : HasDerivAt (fun t => (g t).re) g'.re t :=
  Complex.reCLM.hasFDerivAt.comp_hasDerivAt t h

theorem along_linear (rows : σ → List (σ × ℂ)) (w v : Fin P → ℂ) :
    along s rows (fun w x => ∑ p, w p * f x p) w v = linSlope s f rows w v := by
  unfold along
  simp only [energyOf_linear]
  have h : HasDerivAt (fun t : ℝ => ∑ x, ∑ y, opMatrix s rows x y * corr s f (w + (t : ℂ) • v) x y)
      (∑ x, ∑ y, opMatrix s rows x y * (corr s f w x y * relRate s f w v x y)) 0 :=
    HasDerivAt.fun_sum fun x _ => HasDerivAt.fun_sum fun y _ => (corr_deriv s f w v x y).const_mul _
  exact (re_deriv h).deriv

theorem linSlope_deriv (rows : σ → List (σ × ℂ)) (v w u : Fin P → ℂ) :
    HasDerivAt (fun t : ℝ => linSlope s f rows (w + (t : ℂ) • u) v) (linCurve s f rows w u v) 0 := by
  refine re_deriv (HasDerivAt.fun_sum fun x _ => HasDerivAt.fun_sum fun y _ => HasDerivAt.const_mul _ ?_)
  have h1 := corr_deriv s f w u x y
  have h2 : HasDerivAt (fun t : ℝ => relRate s f (w + (t : ℂ) • u) v x y)
      (-∑ z, corr s f w z z * relRate s f w u z z * rate s f v z z) 0 :=
    (HasDerivAt.fun_sum fun z _ => (corr_deriv s f w u z z).mul_const (rate s f v z z)).const_sub (rate s f v x y)
  have h3 := h1.mul h2
  have hw : w + (((0 : ℝ) : ℂ)) • u = w := by simp
  rw [hw] at h3
  exact h3

variable {s f} {A : ℝ} (hA : ∀ x : Fin s.S, CG.norm (f (s.states x)) ≤ A)

include hA

theorem norm_lin_le (x : Fin s.S) (v : Fin P → ℂ) : ‖lin s f x v‖ ≤ A * CG.norm v := by
  unfold lin
  refine (norm_sum_le _ _).trans ?_
  simp only [norm_mul]
  have h1 : ∑ p, ‖v p‖ * ‖f (s.states x) p‖ ≤ CG.norm v * CG.norm (f (s.states x)) := by
    unfold CG.norm
    rw [← Real.sqrt_mul (Finset.sum_nonneg fun k _ => sq_nonneg _)]
    exact Real.le_sqrt_of_sq_le (Finset.sum_mul_sq_le_sq_mul_sq _ _ _)
  calc _ ≤ CG.norm v * CG.norm (f (s.states x)) := h1
    _ ≤ CG.norm v * A := mul_le_mul_of_nonneg_left (hA x) (CG.norm_nonneg v)
    _ = _ := mul_comm _ _

theorem norm_rate_le (v : Fin P → ℂ) (x y : Fin s.S) : ‖rate s f v x y‖ ≤ 2 * (A * CG.norm v) := by
  unfold rate
  refine (norm_add_le _ _).trans ?_
  rw [RCLike.norm_conj]
  linarith [norm_lin_le hA x v, norm_lin_le hA y v]

omit hA in
/-- The mean of quantities bounded by `M`. -/
theorem norm_mean_le (w : Fin P → ℂ) (q : Fin s.S → ℂ) {M : ℝ} (hM : 0 ≤ M) (hq : ∀ z, ‖q z‖ ≤ M) :
    ‖∑ z, corr s f w z z * q z‖ ≤ M := by
  refine (norm_sum_le _ _).trans ?_
  calc ∑ z, ‖corr s f w z z * q z‖ ≤ ∑ z, ‖corr s f w z z‖ * M :=
        Finset.sum_le_sum fun z _ => by rw [norm_mul]; exact mul_le_mul_of_nonneg_left (hq z) (norm_nonneg _)
    _ ≤ 1 * M := by rw [← Finset.sum_mul]; exact mul_le_mul_of_nonneg_right (sum_norm_corr_le s f w) hM
    _ = M := one_mul M

theorem norm_relRate_le (w v : Fin P → ℂ) (x y : Fin s.S) : ‖relRate s f w v x y‖ ≤ 4 * (A * CG.norm v) := by
  unfold relRate
  have h0 : 0 ≤ A * CG.norm v := (norm_nonneg _).trans (norm_lin_le hA x v)
  have h1 := norm_mean_le (f := f) w (fun z => rate s f v z z) (M := 2 * (A * CG.norm v)) (by linarith) fun z => norm_rate_le hA v z z
  refine (norm_sub_le _ _).trans ?_
  linarith [norm_rate_le hA v x y]

theorem abs_linCurve_le (rows : σ → List (σ × ℂ)) (w u v : Fin P → ℂ) :
    |linCurve s f rows w u v| ≤ 24 * A ^ 2 * (∑ x, ∑ y, ‖opMatrix s rows x y‖) * CG.norm u * CG.norm v := by
  unfold linCurve
  refine (Complex.abs_re_le_norm _).trans ((norm_sum_le _ _).trans ?_)
  have hterm : ∀ x y : Fin s.S, ‖opMatrix s rows x y * (corr s f w x y * relRate s f w u x y * relRate s f w v x y +
      corr s f w x y * -∑ z, corr s f w z z * relRate s f w u z z * rate s f v z z)‖
      ≤ ‖opMatrix s rows x y‖ * (24 * A ^ 2 * CG.norm u * CG.norm v) := by
    intro x y
    rw [norm_mul]
    refine mul_le_mul_of_nonneg_left ?_ (norm_nonneg _)
    have hu0 : 0 ≤ A * CG.norm u := (norm_nonneg _).trans (norm_lin_le hA x u)
    have hv0 : 0 ≤ A * CG.norm v := (norm_nonneg _).trans (norm_lin_le hA x v)
    have hc := norm_corr_le s f w x y
    have h1 : ‖corr s f w x y * relRate s f w u x y * relRate s f w v x y‖ ≤ 16 * ((A * CG.norm u) * (A * CG.norm v)) := by
      rw [norm_mul, norm_mul]
      calc _ ≤ 1 * (4 * (A * CG.norm u)) * (4 * (A * CG.norm v)) := by
            refine mul_le_mul (mul_le_mul hc (norm_relRate_le hA w u x y) (norm_nonneg _) zero_le_one)
              (norm_relRate_le hA w v x y) (norm_nonneg _) (by linarith)
        _ = _ := by ring
    have h2 : ‖∑ z, corr s f w z z * relRate s f w u z z * rate s f v z z‖ ≤ 8 * ((A * CG.norm u) * (A * CG.norm v)) := by
      simp only [mul_assoc (corr s f w _ _)]
      refine norm_mean_le (f := f) w _ (by positivity) fun z => ?_
      rw [norm_mul]
      calc _ ≤ (4 * (A * CG.norm u)) * (2 * (A * CG.norm v)) :=
            mul_le_mul (norm_relRate_le hA w u z z) (norm_rate_le hA v z z) (norm_nonneg _) (by linarith)
        _ = _ := by ring
    refine (norm_add_le _ _).trans ?_
    rw [norm_mul _ (-_), norm_neg]
    have h3 : ‖corr s f w x y‖ * ‖∑ z, corr s f w z z * relRate s f w u z z * rate s f v z z‖
        ≤ 1 * (8 * ((A * CG.norm u) * (A * CG.norm v))) := mul_le_mul hc h2 (norm_nonneg _) zero_le_one
    calc _ ≤ 16 * ((A * CG.norm u) * (A * CG.norm v)) + 1 * (8 * ((A * CG.norm u) * (A * CG.norm v))) := add_le_add h1 h3
      _ = _ := by ring
  calc _ ≤ ∑ x, ∑ y, ‖opMatrix s rows x y‖ * (24 * A ^ 2 * CG.norm u * CG.norm v) :=
        Finset.sum_le_sum fun x _ => (norm_sum_le _ _).trans (Finset.sum_le_sum fun y _ => hterm x y)
    _ = _ := by
        simp only [← Finset.sum_mul]
        ring

theorem curvature_linear (rows : σ → List (σ × ℂ)) :
    Curvature s rows (fun w x => ∑ p, w p * f x p) (24 * A ^ 2 * ∑ x, ∑ y, ‖opMatrix s rows x y‖) := by
  refine ⟨by positivity, fun w w' v => ?_⟩
  rw [along_linear, along_linear]
  have h := hasDerivAt_line (fun w => linSlope s f rows w v) (fun w u => linCurve s f rows w u v)
    (linSlope_deriv s f rows v) w' (w - w')
  have h2 := norm_image_sub_le_of_norm_deriv_le_segment_01' (f := fun t : ℝ => linSlope s f rows (w' + (t : ℂ) • (w - w')) v)
    (fun t _ => (h t).hasDerivWithinAt) fun t _ => by
      rw [Real.norm_eq_abs]
      exact abs_linCurve_le hA rows _ _ _
  simpa using h2

end Linear

/-- **C151**, networks that are linear in their weights: the energy has bounded curvature, so that the claim holds for
every learning rate up to an explicit bound. `A` bounds the lengths of the vectors of features. -/
theorem C151_linear (s : Setup σ) (rows : σ → List (σ × ℂ)) (hr : RowWise s rows) (hH : (opMatrix s rows).IsHermitian)
    (batch : Nat) (hbatch : s.S ≤ batch) (o : Obj σ) (ho : Obj.new s batch = .ok o)
    (f : σ → Fin P → ℂ) (A : ℝ) (hA : ∀ x : Fin s.S, CG.norm (f (s.states x)) ≤ A)
    (lr shift : ℝ) (hlr : 0 < lr) (hs : 0 < shift) (hsmall : lr * (12 * A ^ 2 * ∑ x, ∑ y, ‖opMatrix s rows x y‖) ≤ shift)
    (solver : Solver) (hu : solver.Usable P) (gen : ℕ → Gen σ) (m : ℕ → ComplexModel)
    (hrun : Run (fun w x => ∑ p, w p * f x p) (fun _ x => ∑ p, f x p • ContinuousLinearMap.proj p) s.S s.states lr shift solver gen m)
    (h0 : gen 0 = Gen.start o) (hm : (m 0).Valid) (hP : P = (((m 0).weights.map Tensor.shape).map List.prod).sum) :
    Settles s rows (fun w x => ∑ p, w p * f x p) fun t => flatWeights P (m t) := by
  have happ : ∀ x v, (∑ p, f x p • (ContinuousLinearMap.proj p : (Fin P → ℂ) →L[ℂ] ℂ)) v = ∑ p, v p * f x p := by
    intro x v
    rw [_root_.sum_apply]
    refine Finset.sum_congr rfl fun p _ => ?_
    show f x p • v p = _
    rw [smul_eq_mul, mul_comm]
  refine C151_settles s rows hr hH batch hbatch o ho _ _ (fun w b => ?_) A (fun w v b => ?_) _ (curvature_linear hA rows) lr shift
    hlr hs (by linarith) solver hu gen m hrun h0 hm hP
  · have : (fun w : Fin P → ℂ => ∑ p, w p * f (s.states b) p) =
        fun w => (∑ p, f (s.states b) p • (ContinuousLinearMap.proj p : (Fin P → ℂ) →L[ℂ] ℂ)) w := by
      funext w
      rw [happ]
    rw [this]
    exact ContinuousLinearMap.hasFDerivAt _
  · rw [happ]
    exact norm_lin_le hA b v

theorem linear_meets (S : Setup σ) (rows : σ → List (σ × ℂ)) (o : Obj σ) (f : σ → Fin P → ℂ) (solver : Solver)
    (hu : solver.Usable P) (m₀ : ComplexModel) (hm : m₀.Valid) (hP : P = ((m₀.weights.map Tensor.shape).map List.prod).sum) :
    ∃ (A lr shift : ℝ) (gen : ℕ → Gen σ) (m : ℕ → ComplexModel),
      (∀ x : Fin S.S, CG.norm (f (S.states x)) ≤ A) ∧ 0 < lr ∧ 0 < shift ∧
      lr * (12 * A ^ 2 * ∑ x, ∑ y, ‖opMatrix S rows x y‖) ≤ shift ∧
      Run (fun w x => ∑ p, w p * f x p) (fun _ x => ∑ p, f x p • ContinuousLinearMap.proj p) S.S S.states lr shift solver gen m ∧
      gen 0 = Gen.start o ∧ (m 0).Valid ∧ P = (((m 0).weights.map Tensor.shape).map List.prod).sum := by
  set A : ℝ := ∑ x : Fin S.S, CG.norm (f (S.states x))
  have hA : ∀ x : Fin S.S, CG.norm (f (S.states x)) ≤ A := fun x =>
    Finset.single_le_sum (f := fun x : Fin S.S => CG.norm (f (S.states x))) (fun _ _ => CG.norm_nonneg _) (Finset.mem_univ x)
  obtain ⟨gen, m, h1, h2, h3⟩ := C151_goes_on S o (fun w x => ∑ p, w p * f x p) (fun _ x => ∑ p, f x p • ContinuousLinearMap.proj p) 1
    (12 * A ^ 2 * (∑ x, ∑ y, ‖opMatrix S rows x y‖) + 1) (by positivity) solver hu m₀ hm hP
  exact ⟨A, 1, _, gen, m, hA, one_pos, by positivity, by linarith, h1, h2, by rw [h3]; exact hm, by rw [h3]; exact hP⟩

/-- The hypotheses of `C151_linear` can be met: the open Ising chain of two sites, a model with two complex weights, and the
network `w 0 s 0 + w 1 s 1`, with both solvers. -/
example (solver : Solver) (hu : solver.Usable 2) : ∃ (s : Setup (Verif.Operators.Config (Fin 2)))
    (rows : Verif.Operators.Config (Fin 2) → List (Verif.Operators.Config (Fin 2) × ℂ))
    (o : Obj (Verif.Operators.Config (Fin 2))) (f : Verif.Operators.Config (Fin 2) → Fin 2 → ℂ),
    (RowWise s rows ∧ (opMatrix s rows).IsHermitian ∧ s.S ≤ 4 ∧ Obj.new s 4 = .ok o) ∧ ∃ (A lr shift : ℝ)
    (gen : ℕ → Gen (Verif.Operators.Config (Fin 2))) (m : ℕ → ComplexModel),
      (∀ x : Fin s.S, CG.norm (f (s.states x)) ≤ A) ∧ 0 < lr ∧ 0 < shift ∧
      lr * (12 * A ^ 2 * ∑ x, ∑ y, ‖opMatrix s rows x y‖) ≤ shift ∧
      Run (fun w x => ∑ p, w p * f x p) (fun _ x => ∑ p, f x p • ContinuousLinearMap.proj p) s.S s.states lr shift solver gen m ∧
      gen 0 = Gen.start o ∧ (m 0).Valid ∧ 2 = (((m 0).weights.map Tensor.shape).map List.prod).sum := by
  have hrows := Verif.Energy.Exact.rowsOf_ising_chain 2 1 1 false
  have hr := Verif.Energy.Exact.rowWise_of (Equiv.refl (Fin 2)) (by norm_num) hrows
  obtain ⟨o, ho⟩ := (Verif.Energy.Exact.C22_batch_independent _ _ hr (by show 0 < 2 ^ 2; norm_num) 4).1.2
    ⟨by norm_num, Or.inl (by show 2 ^ 2 ≤ 4; norm_num)⟩
  have hm : (⟨[⟨[2], [1, 2]⟩], [⟨[2], [3, 4]⟩]⟩ : ComplexModel).Valid := ⟨rfl, by simp [Tensor.Valid], by simp [Tensor.Valid]⟩
  have hP : 2 = (((⟨[⟨[2], [1, 2]⟩], [⟨[2], [3, 4]⟩]⟩ : ComplexModel).weights.map Tensor.shape).map List.prod).sum := by
    simp [ComplexModel.weights, complexWeight]
  exact ⟨_, _, o, fun s p => s p, ⟨hr, Verif.Energy.Exact.opMatrix_hermitian (Equiv.refl (Fin 2)) (by norm_num) hrows,
    by show 2 ^ 2 ≤ 4; norm_num, ho⟩, linear_meets _ _ o (fun s p => s p) solver hu _ hm hP⟩

end Verif.Optimizers.SR
