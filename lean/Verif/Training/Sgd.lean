import Verif.Training.ExactTraining
import Mathlib.Analysis.Calculus.Deriv.MeanValue
import Mathlib.Analysis.Calculus.FDeriv.Star
import Mathlib.Analysis.Calculus.Deriv.Pi
import Mathlib.Analysis.SpecialFunctions.ExpDeriv
import Mathlib.Analysis.SpecialFunctions.Trigonometric.Deriv
import Mathlib.Analysis.SpecialFunctions.Trigonometric.Bounds
import Mathlib.Analysis.Real.Pi.Bounds
import Mathlib.Topology.Order.MonotoneConvergence
import Mathlib.Topology.Algebra.InfiniteSum.Real

/-!
# C143: exact training with plain gradient descent goes downhill and comes to rest

The exact training loop of C98 with the Keras optimizer `SGD(lr)` (as in `examples/benchmark.py:49`).
-/
namespace Verif.Training

open Verif.Operators Verif.Energy Verif.Energy.Exact Filter Topology

variable {ι : Type} [Fintype ι] [DecidableEq ι] {n : Nat}

/-! ### Model -/

/-- `SGD(lr=learning_rate)` (examples/benchmark.py:19,49): no momentum, no decay, so the state of the optimizer
is the weights themselves; an update subtracts the learning rate times the gradient. Keras itself is not
modelled further. -/
def plainSgd (lr : ℝ) : Optimizer (Fin n → ℝ) (Fin n → ℝ) (Fin n → ℝ) where
  update θ g := θ - lr • g
  params θ := θ
  setParams _ θ := θ

/-! ### Specification -/

/-- The energy of the network with weights `θ`. -/
noncomputable def energyAt (H : Wave ι → Wave ι) (net : (Fin n → ℝ) → Config ι → ℂ) (θ : Fin n → ℝ) : ℝ :=
  (Energy.rayleigh H fun s => Complex.exp (net θ s)).re

/-- The partial derivatives of the energy. -/
noncomputable def slope (H : Wave ι → Wave ι) (net : (Fin n → ℝ) → Config ι → ℂ) (θ : Fin n → ℝ) (k : Fin n) : ℝ :=
  deriv (fun t => energyAt H net (Function.update θ k t)) (θ k)

/-- The gradient of the energy changes at most `K` times as much as the weights (Euclidean lengths). -/
def SlopeBound (H : Wave ι → Wave ι) (net : (Fin n → ℝ) → Config ι → ℂ) (K : ℝ) : Prop :=
  0 ≤ K ∧ ∀ θ θ', ∑ k, (slope H net θ k - slope H net θ' k) ^ 2 ≤ K ^ 2 * ∑ k, (θ k - θ' k) ^ 2

/-- What C143 says of the sequence `θ 0, θ 1, …` of weights after each training step. -/
structure ComesToRest (H : Wave ι → Wave ι) (net : (Fin n → ℝ) → Config ι → ℂ) (θ : Nat → Fin n → ℝ) (cycle : Nat) : Prop where
  /-- The energy never rises. -/
  never_rises : ∀ t, energyAt H net (θ (t + 1)) ≤ energyAt H net (θ t)
  /-- Each cycle lowers it, unless all partial derivatives are zero. -/
  falls : ∀ c, (∃ k, slope H net (θ (c * cycle)) k ≠ 0) → energyAt H net (θ ((c + 1) * cycle)) < energyAt H net (θ (c * cycle))
  /-- The energy converges. -/
  settles : ∃ E, Tendsto (fun t => energyAt H net (θ t)) atTop (𝓝 E)
  /-- All partial derivatives of the energy tend to zero. -/
  flat : ∀ k, Tendsto (fun t => slope H net (θ t) k) atTop (𝓝 0)

/-- C143 for one operator: every accepted batch size, both ways of accumulation, every differentiable network whose
energy gradient has the bound `K`, every start, and every learning rate with `lr * scale * K < 2`; the scale is
one over the states of a step (summation) or one over all states (averaging). -/
def SgdConverges {N : Nat} (e : ι ≃ Fin N)
    (op : (B : Nat) → (Fin B → Config ι) → Fin B → List (Row ι ℝ)) (R : Nat) (H : Wave ι → Wave ι) : Prop :=
  ∀ batch, 0 < batch → (2 ^ N ≤ batch ∨ batch ∣ 2 ^ N) →
  ∀ (n : Nat) (cfg : AccConfig) (net : (Fin n → ℝ) → Config ι → ℂ) (g : (Fin n → ℝ) → Config ι × ℂ → Fin n → ℝ),
    (∀ s, IsSpin s → Differentiable ℝ fun θ => net θ s) →
    (∀ θ k s c, IsSpin s → HasDerivAt (fun t => loss c (net (Function.update θ k t) s)) (g θ (s, c) k) (θ k)) →
    ∀ lr K : ℝ, 0 < lr → SlopeBound H net K →
    lr * (if cfg.accumulateSum then 1 / ((min batch (2 ^ N) : Nat) : ℝ) else 1 / ((2 ^ N : Nat) : ℝ)) * K < 2 →
    ∀ θ0 : Fin n → ℝ, ∃ st0 : ExactState (Config ι) (Fin n → ℝ) n, exactSetup (spinSetup e op R) batch θ0 = some st0 ∧
    ∀ refresh : Nat → List Refresh,
      ComesToRest H net (fun t => (exactTrain (plainSgd lr) cfg net g refresh st0 t).acc.opt) (2 ^ N / min batch (2 ^ N))

/-! ### The descent lemma -/

theorem line_deriv {E : (Fin n → ℝ) → ℝ} (hE : Differentiable ℝ E) (G : (Fin n → ℝ) → Fin n → ℝ)
    (hG : ∀ θ k, HasDerivAt (fun t => E (Function.update θ k t)) (G θ k) (θ k)) (θ v : Fin n → ℝ) (t : ℝ) :
    HasDerivAt (fun t : ℝ => E (θ + t • v)) (∑ k, G (θ + t • v) k * v k) t := by
  have h1 : HasDerivAt (fun t : ℝ => θ + t • v) v t := by
    simpa using ((hasDerivAt_id t).smul_const v).const_add θ
  have h2 := (hE (θ + t • v)).hasFDerivAt.comp_hasDerivAt t h1
  have h3 : ∀ k, fderiv ℝ E (θ + t • v) (Pi.single k 1) = G (θ + t • v) k := by
    intro k
    have h4 := hasDerivAt_update (θ + t • v) k ((θ + t • v) k)
    have h5 : HasFDerivAt E (fderiv ℝ E (θ + t • v)) (Function.update (θ + t • v) k ((θ + t • v) k)) := by
      rw [Function.update_eq_self]
      exact (hE _).hasFDerivAt
    exact (h5.comp_hasDerivAt _ h4).unique (hG _ k)
  have h6 : v = ∑ k, v k • (Pi.single k (1 : ℝ) : Fin n → ℝ) := by
    refine (pi_eq_sum_univ v).trans (Finset.sum_congr rfl fun k _ => ?_)
    congr 1
    funext j
    simp [Pi.single_apply, eq_comm]
  have h7 : fderiv ℝ E (θ + t • v) v = fderiv ℝ E (θ + t • v) (∑ k, v k • (Pi.single k (1 : ℝ) : Fin n → ℝ)) :=
    congrArg _ h6
  have h8 : ∑ k, G (θ + t • v) k * v k = fderiv ℝ E (θ + t • v) v := by
    rw [h7, map_sum]
    refine Finset.sum_congr rfl fun k _ => ?_
    rw [map_smul, h3, smul_eq_mul, mul_comm]
  rw [h8]
  exact h2

/-- A function whose gradient changes at most `K` times as much as the weights lies below its tangent parabola. -/
theorem descent_any {E : (Fin n → ℝ) → ℝ} (hE : Differentiable ℝ E) (G : (Fin n → ℝ) → Fin n → ℝ)
    (hG : ∀ θ k, HasDerivAt (fun t => E (Function.update θ k t)) (G θ k) (θ k)) {K : ℝ} (hK : 0 ≤ K)
    (hL : ∀ θ θ', ∑ k, (G θ k - G θ' k) ^ 2 ≤ K ^ 2 * ∑ k, (θ k - θ' k) ^ 2) (θ v : Fin n → ℝ) :
    E (θ + v) ≤ E θ + ∑ k, G θ k * v k + K / 2 * ∑ k, v k ^ 2 := by
  set V : ℝ := ∑ k, v k ^ 2 with hV
  have hV0 : 0 ≤ V := Finset.sum_nonneg fun k _ => sq_nonneg _
  set φ : ℝ → ℝ := fun t => E (θ + t • v) - t * (∑ k, G θ k * v k) - K * V / 2 * t ^ 2 with hφ
  have hd : ∀ t, HasDerivAt φ ((∑ k, G (θ + t • v) k * v k) - (∑ k, G θ k * v k) - K * V * t) t := by
    intro t
    have h1 := line_deriv hE G hG θ v t
    have h2 := (hasDerivAt_id t).mul_const (∑ k, G θ k * v k)
    have h3 := ((hasDerivAt_id t).pow 2).const_mul (K * V / 2)
    have h4 : (∑ k, G (θ + t • v) k * v k) - (∑ k, G θ k * v k) - K * V * t = (∑ k, G (θ + t • v) k * v k) -
        1 * (∑ k, G θ k * v k) - K * V / 2 * (((2 : ℕ) : ℝ) * id t ^ (2 - 1) * 1) := by
      norm_num
      ring
    rw [h4]
    exact (h1.sub h2).sub h3
  have hle : ∀ t, 0 ≤ t → (∑ k, G (θ + t • v) k * v k) - (∑ k, G θ k * v k) - K * V * t ≤ 0 := by
    intro t ht
    have h1 : (∑ k, G (θ + t • v) k * v k) - (∑ k, G θ k * v k) = ∑ k, (G (θ + t • v) k - G θ k) * v k := by
      rw [← Finset.sum_sub_distrib]
      exact Finset.sum_congr rfl fun k _ => by ring
    have h2 := Finset.sum_mul_sq_le_sq_mul_sq Finset.univ (fun k => G (θ + t • v) k - G θ k) v
    have h3 := hL (θ + t • v) θ
    have h4 : ∑ k, ((θ + t • v) k - θ k) ^ 2 = t ^ 2 * V := by
      rw [hV, Finset.mul_sum]
      refine Finset.sum_congr rfl fun k _ => ?_
      simp
      ring
    rw [h4] at h3
    have h5 : (∑ k, (G (θ + t • v) k - G θ k) * v k) ^ 2 ≤ (K * V * t) ^ 2 := by
      refine h2.trans ?_
      refine (mul_le_mul_of_nonneg_right h3 hV0).trans (le_of_eq (by ring))
    have h6 := abs_le_of_sq_le_sq h5 (by positivity)
    rw [h1]
    have := le_abs_self (∑ k, (G (θ + t • v) k - G θ k) * v k)
    linarith
  have hanti : AntitoneOn φ (Set.Icc 0 1) := by
    refine antitoneOn_of_deriv_nonpos (convex_Icc 0 1) (fun t _ => (hd t).continuousAt.continuousWithinAt)
      (fun t _ => (hd t).differentiableAt.differentiableWithinAt) fun t ht => ?_
    rw [(hd t).deriv]
    rw [interior_Icc] at ht
    exact hle t ht.1.le
  have h01 := hanti (Set.left_mem_Icc.2 zero_le_one) (Set.right_mem_Icc.2 zero_le_one) zero_le_one
  simp only [hφ] at h01
  simp only [zero_smul, add_zero, one_smul] at h01
  nlinarith [h01]

theorem descent_step {E : (Fin n → ℝ) → ℝ} (hE : Differentiable ℝ E) (G : (Fin n → ℝ) → Fin n → ℝ)
    (hG : ∀ θ k, HasDerivAt (fun t => E (Function.update θ k t)) (G θ k) (θ k)) {K : ℝ} (hK : 0 ≤ K)
    (hL : ∀ θ θ', ∑ k, (G θ k - G θ' k) ^ 2 ≤ K ^ 2 * ∑ k, (θ k - θ' k) ^ 2) (θ : Fin n → ℝ) (η : ℝ) :
    E (θ - η • G θ) ≤ E θ - η * (1 - η * K / 2) * ∑ k, G θ k ^ 2 := by
  set v : Fin n → ℝ := -(η • G θ) with hv
  have h01 := descent_any hE G hG hK hL θ v
  have e1 : θ + v = θ - η • G θ := by rw [hv, sub_eq_add_neg]
  have e2 : ∑ k, G θ k * v k = -(η * ∑ k, G θ k ^ 2) := by
    rw [Finset.mul_sum, ← Finset.sum_neg_distrib]
    exact Finset.sum_congr rfl fun k _ => by simp [hv]; ring
  have e3 : ∑ k, v k ^ 2 = η ^ 2 * ∑ k, G θ k ^ 2 := by
    rw [Finset.mul_sum]
    exact Finset.sum_congr rfl fun k _ => by simp [hv]; ring
  rw [e1, e2, e3] at h01
  nlinarith [h01]

/-- Gradient descent on a function that is bounded below. -/
theorem descent_rest {E : (Fin n → ℝ) → ℝ} (hE : Differentiable ℝ E) (G : (Fin n → ℝ) → Fin n → ℝ)
    (hG : ∀ θ k, HasDerivAt (fun t => E (Function.update θ k t)) (G θ k) (θ k)) {K : ℝ} (hK : 0 ≤ K)
    (hL : ∀ θ θ', ∑ k, (G θ k - G θ' k) ^ 2 ≤ K ^ 2 * ∑ k, (θ k - θ' k) ^ 2) {m : ℝ} (hm : ∀ θ, m ≤ E θ)
    {η : ℝ} (hη : 0 < η) (hηK : η * K < 2) (θ : Nat → Fin n → ℝ) (hθ : ∀ c, θ (c + 1) = θ c - η • G (θ c)) :
    (∀ c, E (θ (c + 1)) ≤ E (θ c)) ∧ (∀ c, (∃ k, G (θ c) k ≠ 0) → E (θ (c + 1)) < E (θ c)) ∧
      (∃ L, Tendsto (fun c => E (θ c)) atTop (𝓝 L)) ∧ ∀ k, Tendsto (fun c => G (θ c) k) atTop (𝓝 0) := by
  set a : ℝ := η * (1 - η * K / 2) with ha
  have ha0 : 0 < a := mul_pos hη (by linarith)
  have hstep : ∀ c, E (θ (c + 1)) ≤ E (θ c) - a * ∑ k, G (θ c) k ^ 2 := fun c => by
    rw [hθ]
    exact descent_step hE G hG hK hL (θ c) η
  have hS : ∀ c, 0 ≤ ∑ k, G (θ c) k ^ 2 := fun c => Finset.sum_nonneg fun k _ => sq_nonneg _
  have hmono : ∀ c, E (θ (c + 1)) ≤ E (θ c) := fun c => by nlinarith [hstep c, hS c]
  have hconv : Tendsto (fun c => E (θ c)) atTop (𝓝 (⨅ c, E (θ c))) :=
    tendsto_atTop_ciInf (antitone_nat_of_succ_le hmono) ⟨m, by rintro _ ⟨c, rfl⟩; exact hm _⟩
  refine ⟨hmono, fun c ⟨k, hk⟩ => ?_, ⟨_, hconv⟩, fun k => ?_⟩
  · have : 0 < ∑ k, G (θ c) k ^ 2 :=
      Finset.sum_pos' (fun k _ => sq_nonneg _) ⟨k, Finset.mem_univ _, by positivity⟩
    nlinarith [hstep c]
  · have h1 : Tendsto (fun c => (E (θ c) - E (θ (c + 1))) / a) atTop (𝓝 0) := by
      have := (hconv.sub (hconv.comp (tendsto_add_atTop_nat 1))).div_const a
      simpa using this
    have h2 : Tendsto (fun c => G (θ c) k ^ 2) atTop (𝓝 0) := by
      refine squeeze_zero (fun c => sq_nonneg _) (fun c => ?_) h1
      rw [le_div_iff₀ ha0]
      have h3 : G (θ c) k ^ 2 ≤ ∑ k, G (θ c) k ^ 2 :=
        Finset.single_le_sum (f := fun k => G (θ c) k ^ 2) (fun k _ => sq_nonneg _) (Finset.mem_univ k)
      nlinarith [hstep c]
    have h3 := h2.sqrt
    rw [Real.sqrt_zero] at h3
    simp only [Real.sqrt_sq_eq_abs] at h3
    exact (tendsto_zero_iff_abs_tendsto_zero _).2 h3

/-! ### The energy is differentiable and bounded -/

theorem energyAt_differentiable {H : Wave ι → Wave ι} {rowsOf : Config ι → List (Row ι ℝ)}
    (hH : ∀ s, IsSpin s → ∀ ψ, applyRows (rowsOf s) ψ = H ψ s) (hc : ∀ s, IsSpin s → ∀ r ∈ rowsOf s, IsSpin r.conn)
    {net : (Fin n → ℝ) → Config ι → ℂ} (hd : ∀ s, IsSpin s → Differentiable ℝ fun θ => net θ s) :
    Differentiable ℝ (energyAt H net) := by
  have hψ : ∀ s, IsSpin s → Differentiable ℝ fun θ => Complex.exp (net θ s) := fun s hs => (hd s hs).cexp
  have hconj : ∀ s, IsSpin s → Differentiable ℝ fun θ => (starRingEnd ℂ) (Complex.exp (net θ s)) := fun s hs =>
    Complex.conjCLE.differentiable.comp (hψ s hs)
  have hrow : ∀ s, IsSpin s → Differentiable ℝ fun θ => H (fun s => Complex.exp (net θ s)) s := by
    intro s hs
    have : ∀ l : List (Row ι ℝ), (∀ r ∈ l, IsSpin r.conn) → Differentiable ℝ fun θ => applyRows l fun s => Complex.exp (net θ s) := by
      intro l
      induction l with
      | nil => intro _; simp [applyRows]
      | cons r l ih =>
        intro hl
        have h1 := ((hψ r.conn (hl r (List.mem_cons_self ..))).const_mul (r.mel : ℂ)).add (ih fun r hr => hl r (List.mem_cons_of_mem _ hr))
        simp only [applyRows, List.map_cons, List.sum_cons]
        exact h1
    have h1 := this (rowsOf s) (hc s hs)
    simpa only [hH s hs] using h1
  have hnum : Differentiable ℝ fun θ => ∑ s ∈ allSpins ι, (starRingEnd ℂ) (Complex.exp (net θ s)) * H (fun s => Complex.exp (net θ s)) s :=
    Differentiable.fun_sum fun s hs => (hconj s ((mem_allSpins s).1 hs)).mul (hrow s ((mem_allSpins s).1 hs))
  have hden : Differentiable ℝ fun θ => ∑ s ∈ allSpins ι, (starRingEnd ℂ) (Complex.exp (net θ s)) * Complex.exp (net θ s) :=
    Differentiable.fun_sum fun s hs => (hconj s ((mem_allSpins s).1 hs)).mul (hψ s ((mem_allSpins s).1 hs))
  have hne : ∀ θ, ∑ s ∈ allSpins ι, (starRingEnd ℂ) (Complex.exp (net θ s)) * Complex.exp (net θ s) ≠ 0 := by
    intro θ
    have h1 : ∑ s ∈ allSpins ι, (starRingEnd ℂ) (Complex.exp (net θ s)) * Complex.exp (net θ s) =
        ((∑ s ∈ allSpins ι, ‖Complex.exp (net θ s)‖ ^ 2 : ℝ) : ℂ) := by
      rw [Complex.ofReal_sum]
      exact Finset.sum_congr rfl fun s _ => conj_mul_self _
    rw [h1]
    refine Complex.ofReal_ne_zero.2 (Finset.sum_pos (fun s _ => ?_) ⟨fun _ => 1, (mem_allSpins _).2 fun _ => Or.inl rfl⟩).ne'
    exact pow_pos (norm_pos_iff.2 (Complex.exp_ne_zero _)) 2
  have hq := hnum.mul (hden.inv hne)
  exact Complex.reCLM.differentiable.comp hq

theorem energyAt_bounded {H : Wave ι → Wave ι} {rowsOf : Config ι → List (Row ι ℝ)}
    (hH : ∀ s, IsSpin s → ∀ ψ, applyRows (rowsOf s) ψ = H ψ s) (hc : ∀ s, IsSpin s → ∀ r ∈ rowsOf s, IsSpin r.conn)
    (net : (Fin n → ℝ) → Config ι → ℂ) (θ : Fin n → ℝ) :
    -(∑ s ∈ allSpins ι, ((rowsOf s).map fun r => |r.mel|).sum) ≤ energyAt H net θ := by
  set ψ : Wave ι := fun s => Complex.exp (net θ s) with hψ
  set Z : ℝ := ∑ s ∈ allSpins ι, ‖ψ s‖ ^ 2 with hZ
  have hmem : ∀ s, IsSpin s → ‖ψ s‖ ^ 2 ≤ Z := fun s hs =>
    Finset.single_le_sum (f := fun s => ‖ψ s‖ ^ 2) (fun s _ => sq_nonneg _) ((mem_allSpins s).2 hs)
  have hZ0 : 0 < Z := Finset.sum_pos (fun s _ => pow_pos (norm_pos_iff.2 (Complex.exp_ne_zero _)) 2)
    ⟨fun _ => 1, (mem_allSpins _).2 fun _ => Or.inl rfl⟩
  have hterm : ∀ s, IsSpin s → ∀ l : List (Row ι ℝ), (∀ r ∈ l, IsSpin r.conn) →
      ‖(starRingEnd ℂ) (ψ s) * applyRows l ψ‖ ≤ (l.map fun r => |r.mel|).sum * Z := by
    intro s hs l
    induction l with
    | nil => intro _; simp [applyRows]
    | cons r l ih =>
      intro hl
      have h1 : (starRingEnd ℂ) (ψ s) * applyRows (r :: l) ψ =
          (starRingEnd ℂ) (ψ s) * ((r.mel : ℂ) * ψ r.conn) + (starRingEnd ℂ) (ψ s) * applyRows l ψ := by
        simp [applyRows, mul_add]
      rw [h1, List.map_cons, List.sum_cons, add_mul]
      refine (norm_add_le _ _).trans (add_le_add ?_ (ih fun r hr => hl r (List.mem_cons_of_mem _ hr)))
      rw [norm_mul, norm_mul, Complex.norm_conj, Complex.norm_real, Real.norm_eq_abs]
      have h2 := hmem s hs
      have h3 := hmem r.conn (hl r (List.mem_cons_self ..))
      have h4 : ‖ψ s‖ * ‖ψ r.conn‖ ≤ Z := by nlinarith [sq_nonneg (‖ψ s‖ - ‖ψ r.conn‖)]
      calc ‖ψ s‖ * (|r.mel| * ‖ψ r.conn‖) = |r.mel| * (‖ψ s‖ * ‖ψ r.conn‖) := by ring
        _ ≤ |r.mel| * Z := mul_le_mul_of_nonneg_left h4 (abs_nonneg _)
  have hden : ∑ s ∈ allSpins ι, (starRingEnd ℂ) (ψ s) * ψ s = (Z : ℂ) := by
    rw [hZ, Complex.ofReal_sum]
    exact Finset.sum_congr rfl fun s _ => conj_mul_self _
  have hnum : ‖∑ s ∈ allSpins ι, (starRingEnd ℂ) (ψ s) * H ψ s‖ ≤ (∑ s ∈ allSpins ι, ((rowsOf s).map fun r => |r.mel|).sum) * Z := by
    refine (norm_sum_le _ _).trans ?_
    rw [Finset.sum_mul]
    refine Finset.sum_le_sum fun s hs => ?_
    rw [← hH s ((mem_allSpins s).1 hs) ψ]
    exact hterm s ((mem_allSpins s).1 hs) _ (hc s ((mem_allSpins s).1 hs))
  have hray : ‖Energy.rayleigh H ψ‖ ≤ ∑ s ∈ allSpins ι, ((rowsOf s).map fun r => |r.mel|).sum := by
    unfold Energy.rayleigh
    rw [hden, norm_div, Complex.norm_real, Real.norm_eq_abs, abs_of_pos hZ0, div_le_iff₀ hZ0]
    exact hnum
  have := (abs_le.1 (Complex.abs_re_le_norm (Energy.rayleigh H ψ))).1
  unfold energyAt
  linarith

/-! ### C143 -/

theorem sgdConverges_of {N : Nat} (e : ι ≃ Fin N) (hN : N ≤ 31)
    {op : (B : Nat) → (Fin B → Config ι) → Fin B → List (Row ι ℝ)}
    {R : Nat} {rowsOf : Config ι → List (Row ι ℝ)} (h : RowsOf op R rowsOf) (H : Wave ι → Wave ι)
    (hH : ∀ s, IsSpin s → ∀ ψ, applyRows (rowsOf s) ψ = H ψ s) : SgdConverges e op R H := by
  intro batch hb hacc n cfg net g hd hg lr K hlr hK hsmall θ0
  set D : (Fin n → ℝ) → Fin n → Config ι → ℂ := fun θ k s => deriv (fun t => net (Function.update θ k t) s) (θ k) with hDdef
  have hD : ∀ θ k s, IsSpin s → HasDerivAt (fun t => net (Function.update θ k t) s) (D θ k s) (θ k) := by
    intro θ k s hs
    have h1 : DifferentiableAt ℝ (fun t => net (Function.update θ k t) s) (θ k) :=
      (hd s hs).differentiableAt.comp (θ k) (hasDerivAt_update θ k (θ k)).differentiableAt
    exact h1.hasDerivAt
  obtain ⟨st0, hst0, grad, hgrad, hrun⟩ := followsGradient_of e hN h H hH batch hb hacc (Fin n → ℝ) n (plainSgd lr) cfg net D g hD hg θ0
  refine ⟨st0, hst0, fun refresh => ?_⟩
  have hslope : grad = slope H net := by
    funext θ k
    exact (hgrad θ k).deriv.symm
  have hpart : ∀ θ k, HasDerivAt (fun t => energyAt H net (Function.update θ k t)) (slope H net θ k) (θ k) := by
    intro θ k
    rw [← hslope]
    exact hgrad θ k
  set scale : ℝ := if cfg.accumulateSum then 1 / ((min batch (2 ^ N) : Nat) : ℝ) else 1 / ((2 ^ N : Nat) : ℝ) with hscale
  have hmin : 0 < min batch (2 ^ N) := lt_min hb (by positivity)
  have hs0 : 0 < scale := by
    rw [hscale]
    split
    · exact one_div_pos.2 (by exact_mod_cast hmin)
    · exact one_div_pos.2 (by positivity)
  set q := 2 ^ N / min batch (2 ^ N) with hq
  have hqpos : 0 < q := Nat.div_pos (min_le_right _ _) hmin
  set Θ : Nat → Fin n → ℝ := descent (plainSgd lr) (slope H net) scale θ0 with hΘ
  have hΘs : ∀ c, Θ (c + 1) = Θ c - (lr * scale) • slope H net (Θ c) := by
    intro c
    rw [mul_smul]
    rfl
  obtain ⟨h1, h2, ⟨L, h3⟩, h4⟩ := descent_rest (energyAt_differentiable hH h.spins hd) (slope H net) hpart hK.1 hK.2
    (energyAt_bounded hH h.spins net) (mul_pos hlr hs0) hsmall Θ hΘs
  have hθ : ∀ t, (exactTrain (plainSgd lr) cfg net g refresh st0 t).acc.opt = Θ (t / q) := by
    intro t
    rw [hrun refresh t, hslope]
  have hdiv : Tendsto (fun t : Nat => t / q) atTop atTop := Nat.tendsto_div_const_atTop hqpos.ne'
  refine ⟨fun t => ?_, fun c hc => ?_, ⟨L, ?_⟩, fun k => ?_⟩
  · rw [hθ, hθ]
    have := Nat.div_le_div_right (c := q) (Nat.le_succ t)
    exact antitone_nat_of_succ_le (f := fun c => energyAt H net (Θ c)) h1 this
  · rw [hθ, Nat.mul_div_cancel _ hqpos] at hc ⊢
    rw [hθ, Nat.mul_div_cancel _ hqpos]
    exact h2 c hc
  · simp only [hθ]
    exact h3.comp hdiv
  · simp only [hθ]
    exact (h4 k).comp hdiv

/-- **C143** for the Ising model on chains of up to 31 sites. -/
theorem C143_ising_chain (n : Nat) (hn : n ≤ 31) (h j : ℝ) (pbc : Bool) :
    SgdConverges (Equiv.refl (Fin n)) (fun _ sample => isingFindConn1 (.float h) j pbc sample) (n + 1)
      (tfim (chainBonds n pbc) h j) :=
  sgdConverges_of _ hn (rowsOf_ising_chain n h j pbc) _ fun s _ ψ => C06_ising_chain h j pbc (fun _ : Fin 1 => s) 0 ψ

/-- **C143** for the Ising model on grids. -/
theorem C143_ising_grid (n m : Nat) (hn : n * m ≤ 31) (h j : ℝ) (pbc : Bool) :
    SgdConverges finProdFinEquiv (fun _ sample => isingFindConn2 (.float h) j pbc sample) (n * m + 1)
      (tfim (gridBonds n m pbc) h j) :=
  sgdConverges_of _ hn (rowsOf_ising_grid n m h j pbc) _ fun s _ ψ => C06_ising_grid h j pbc (fun _ : Fin 1 => s) 0 ψ

/-- **C143** for the Heisenberg model on grids, whatever calls of the operator came before. -/
theorem C143_heisenberg_grid (n m : Nat) (hn : n * m ≤ 31) (rot pbc : Bool) (history : List (Call n m)) :
    SgdConverges finProdFinEquiv
      (fun B sample => (((HeisOp.new2 n m rot pbc).run history).findConn B sample).2) (n * m * 2 + 1)
      (heisenberg (gridBonds n m pbc) (if rot then -1 else 1)) :=
  sgdConverges_of _ hn (rowsOf_heisenberg_grid n m rot pbc history) _ fun s hs ψ =>
    applyRows_heisRows rot pbc 2 (Or.inl rfl) s hs ψ

/-- **C143** for the Heisenberg model on chains, whatever calls of the operator came before. -/
theorem C143_heisenberg_chain (n : Nat) (hn : n ≤ 31) (rot pbc : Bool) (history : List (Call n 1)) :
    SgdConverges (Equiv.refl (Fin n))
      (fun B sample => (((HeisOp.new1 n rot pbc).run history).findConn1 B sample).2) (n + 1)
      (heisenberg (chainBonds' n pbc) (if rot then -1 else 1)) :=
  sgdConverges_of _ hn (rowsOf_heisenberg_chain n rot pbc history) _ fun s hs ψ => by
    have := C07_heisenberg_chain rot pbc history 1 (fun _ => s) 0 hs ψ
    rwa [answer1] at this

/-! ### One spin in a field: the hypotheses are met, and larger learning rates fail -/

/-- One spin, one weight: the phase between spin up and spin down. -/
noncomputable def phaseNet (θ : Fin 1 → ℝ) (s : Config (Fin 1)) : ℂ := if s 0 = 1 then (θ 0 : ℂ) * Complex.I else 0

/-- Its loss gradient. -/
noncomputable def phaseGrad (_ : Fin 1 → ℝ) (sc : Config (Fin 1) × ℂ) (_ : Fin 1) : ℝ :=
  2 * ((if sc.1 0 = 1 then Complex.I else 0) * sc.2).re

theorem sum_one_spin {M : Type} [AddCommMonoid M] (f : Config (Fin 1) → M) :
    ∑ s ∈ allSpins (Fin 1), f s = f (fun _ => 1) + f (fun _ => -1) := by
  have h : allSpins (Fin 1) = {(fun _ => 1), (fun _ => -1)} := by decide
  rw [h, Finset.sum_pair (fun e => by have := congrFun e 0; norm_num at this)]

theorem tfim_one (h j : ℝ) (ψ : Wave (Fin 1)) (a : ℤ) :
    tfim (chainBonds 1 false) h j ψ (fun _ => a) = -(h : ℂ) * ψ (fun _ => -a) := by
  have hb : chainBonds 1 false = [] := by decide
  have hf : Operators.flip (0 : Fin 1) (fun _ => a) = fun _ => -a := by
    funext i
    rw [Subsingleton.elim i 0]
    simp [Operators.flip]
  unfold tfim
  rw [hb]
  simp [pauliX, hf]

theorem phaseNet_energy (h j : ℝ) (θ : Fin 1 → ℝ) : energyAt (tfim (chainBonds 1 false) h j) phaseNet θ = -h * Real.cos (θ 0) := by
  unfold energyAt Energy.rayleigh
  rw [sum_one_spin, sum_one_spin, tfim_one, tfim_one]
  have h1 : phaseNet θ (fun _ => 1) = (θ 0 : ℂ) * Complex.I := by simp [phaseNet]
  have h2 : phaseNet θ (fun _ => -1) = 0 := by simp [phaseNet]
  have h3 : phaseNet θ (fun _ => - -1) = (θ 0 : ℂ) * Complex.I := by simp [phaseNet]
  dsimp only
  rw [h1, h2, h3, Complex.exp_zero, conj_mul_self, Complex.norm_exp_ofReal_mul_I]
  simp only [map_one, one_mul, mul_one]
  have h4 : Complex.exp ((θ 0 : ℂ) * Complex.I) = ⟨Real.cos (θ 0), Real.sin (θ 0)⟩ := by
    rw [Complex.exp_mul_I]
    apply Complex.ext <;> simp [Complex.cos_ofReal_re, Complex.sin_ofReal_re]
  rw [h4]
  have h5 : (((1 : ℝ) ^ 2 : ℝ) : ℂ) + 1 = ((2 : ℝ) : ℂ) := by norm_num
  rw [h5, Complex.div_ofReal_re]
  simp
  ring

theorem phaseNet_slope (h j : ℝ) (θ : Fin 1 → ℝ) (k : Fin 1) :
    slope (tfim (chainBonds 1 false) h j) phaseNet θ k = h * Real.sin (θ 0) := by
  rw [Subsingleton.elim k 0]
  unfold slope
  simp only [phaseNet_energy, Function.update_self]
  rw [((Real.hasDerivAt_cos (θ 0)).const_mul (-h)).deriv]
  ring

theorem phaseNet_differentiable (s : Config (Fin 1)) : Differentiable ℝ fun θ => phaseNet θ s := by
  unfold phaseNet
  split
  · exact (Complex.ofRealCLM.differentiable.comp (differentiable_apply 0)).mul_const _
  · exact differentiable_const _

theorem phaseNet_loss (θ : Fin 1 → ℝ) (k : Fin 1) (s : Config (Fin 1)) (c : ℂ) :
    HasDerivAt (fun t => loss c (phaseNet (Function.update θ k t) s)) (phaseGrad θ (s, c) k) (θ k) := by
  rw [Subsingleton.elim k 0]
  unfold loss phaseNet phaseGrad
  have h1 : HasDerivAt (fun t : ℝ => if s 0 = 1 then (t : ℂ) * Complex.I else 0) (if s 0 = 1 then Complex.I else 0) (θ 0) := by
    split
    · simpa using (Complex.ofRealCLM.hasDerivAt (x := θ 0)).mul_const Complex.I
    · exact hasDerivAt_const _ _
  simp only [Function.update_self]
  exact (Complex.reCLM.hasFDerivAt.comp_hasDerivAt (θ 0) (h1.mul_const c)).const_mul 2

theorem phaseNet_bound (h j : ℝ) : SlopeBound (tfim (chainBonds 1 false) h j) phaseNet |h| := by
  refine ⟨abs_nonneg _, fun θ θ' => ?_⟩
  simp only [phaseNet_slope, Fin.sum_univ_one, sq_abs]
  have h1 := Real.abs_sin_sub_sin_le (θ 0) (θ' 0)
  have h2 := sq_le_sq' (by linarith [abs_nonneg (Real.sin (θ 0) - Real.sin (θ' 0)), abs_nonneg (θ 0 - θ' 0)]) h1
  rw [sq_abs, sq_abs] at h2
  nlinarith [sq_nonneg h]

/-- The hypotheses are met: one spin in a field 3, both states in one batch, averaged gradients, learning rate 1, start at
weight 1; the gradient there is not zero. -/
example : (∀ s, IsSpin s → Differentiable ℝ fun θ => phaseNet θ s) ∧
    (∀ θ k s c, IsSpin s → HasDerivAt (fun t => loss c (phaseNet (Function.update θ k t) s)) (phaseGrad θ (s, c) k) (θ k)) ∧
    SlopeBound (tfim (chainBonds 1 false) 3 1) phaseNet 3 ∧ (1 : ℝ) * (1 / ((2 ^ 1 : Nat) : ℝ)) * 3 < 2 ∧
    slope (tfim (chainBonds 1 false) 3 1) phaseNet (fun _ => 1) 0 ≠ 0 := by
  refine ⟨fun s _ => phaseNet_differentiable s, fun θ k s c _ => phaseNet_loss θ k s c, ?_, by norm_num, ?_⟩
  · simpa using phaseNet_bound 3 1
  · rw [phaseNet_slope]
    exact mul_ne_zero (by norm_num) (Real.sin_pos_of_pos_of_lt_pi one_pos (by linarith [Real.pi_gt_three])).ne'

/-- **C143 needs a small learning rate**: in every field there is one (and a start) with which the first step of training
raises the energy, although the gradient has the bound `|h|`. -/
theorem C143_needs_small_rate {h : ℝ} (hh : 0 < h) (j : ℝ) : ∃ (lr : ℝ) (θ0 : Fin 1 → ℝ) (st0 : ExactState (Config (Fin 1)) (Fin 1 → ℝ) 1),
    0 < lr ∧ SlopeBound (tfim (chainBonds 1 false) h j) phaseNet h ∧
    exactSetup (spinSetup (Equiv.refl (Fin 1)) (fun _ sample => isingFindConn1 (.float h) j false sample) (1 + 1)) 2 θ0 = some st0 ∧
    ∀ refresh, energyAt (tfim (chainBonds 1 false) h j) phaseNet (exactTrain (plainSgd lr) ⟨false, 0⟩ phaseNet phaseGrad refresh st0 0).acc.opt <
      energyAt (tfim (chainBonds 1 false) h j) phaseNet (exactTrain (plainSgd lr) ⟨false, 0⟩ phaseNet phaseGrad refresh st0 1).acc.opt := by
  have hD : ∀ (θ : Fin 1 → ℝ) (k : Fin 1) (s : Config (Fin 1)), IsSpin s → HasDerivAt (fun t => phaseNet (Function.update θ k t) s)
      (deriv (fun t => phaseNet (Function.update θ k t) s) (θ k)) (θ k) := fun θ k s _ =>
    ((phaseNet_differentiable s).differentiableAt.comp (θ k) (hasDerivAt_update θ k (θ k)).differentiableAt).hasDerivAt
  obtain ⟨st0, hst, grad, hgrad, hrun⟩ := C98_ising_chain 1 (by norm_num) h j false 2 (by norm_num) (Or.inl (by norm_num)) (Fin 1 → ℝ) 1
    (plainSgd (3 * Real.pi / h)) ⟨false, 0⟩ phaseNet _ phaseGrad hD (fun θ k s c _ => phaseNet_loss θ k s c) (fun _ => Real.pi / 2)
  have hslope : grad = slope (tfim (chainBonds 1 false) h j) phaseNet := by
    funext θ k
    exact (hgrad θ k).deriv.symm
  refine ⟨3 * Real.pi / h, fun _ => Real.pi / 2, st0, by positivity, ?_, hst, fun refresh => ?_⟩
  · have := phaseNet_bound h j
    rwa [abs_of_pos hh] at this
  · rw [hrun refresh 0, hrun refresh 1, hslope]
    have e : (1 / (2 ^ 1 / min 2 (2 ^ 1)) : ℕ) = 1 := by norm_num
    have e0 : (0 / (2 ^ 1 / min 2 (2 ^ 1)) : ℕ) = 0 := by norm_num
    rw [e, e0, phaseNet_energy, phaseNet_energy]
    simp only [descent, plainSgd, Pi.sub_apply, Pi.smul_apply, phaseNet_slope, smul_eq_mul]
    have e2 : Real.pi / 2 - 3 * Real.pi / h * ((if (false : Bool) = true then 1 / ((min 2 (2 ^ 1) : Nat) : ℝ) else 1 / ((2 ^ 1 : Nat) : ℝ)) *
        (h * Real.sin (Real.pi / 2))) = -Real.pi := by
      rw [Real.sin_pi_div_two]
      field_simp
      norm_num
    rw [e2, Real.cos_pi_div_two, Real.cos_neg, Real.cos_pi]
    linarith

end Verif.Training
