import Verif.Optimizers.Reconfiguration
import Verif.Energy.Spins
import Mathlib.Analysis.Calculus.Deriv.Slope
import Mathlib.Tactic.LinearCombination

/-!
C127: a step of stochastic reconfiguration goes downhill.

The weights move by `-lr x`, where `x` is the result of the direct solver or of the conjugate gradient loop,
however early that is stopped.
-/
namespace Verif.Optimizers.CG

variable {n : Nat}

/-! ### The conjugate gradient loop lowers the quadratic form in every step -/

/-- The quadratic form `⟨x, A x⟩ - 2 Re ⟨x, b⟩`, whose minimum is the solution. -/
noncomputable def form (A : Op n) (b x : Vec n) : ℝ := (dot x (A x)).re - 2 * (dot x b).re

/-- What one step needs of a state (without preconditioner). -/
structure Good (A : Op n) (b : Vec n) (s : State n) : Prop where
  gamma : s.gamma = dot s.r s.r
  pr : dot s.p s.r = s.gamma
  residual : s.r = b - A s.x

theorem good_init (A : Op n) (b : Vec n) (x0 : Option (Vec n)) : Good A b (init A none b x0) := by
  refine ⟨?_, ?_, init_residual A none b x0⟩ <;> cases x0 <;> simp [init, precond]

theorem form_add {A : Op n} (hA : HPD A) (b x p : Vec n) (a : ℝ) :
    form A b (x + (a : ℂ) • p) = form A b x - 2 * a * (dot p (b - A x)).re + a ^ 2 * (dot p (A p)).re := by
  have h1 : (dot x (A p)).re = (dot p (A x)).re := by
    rw [hA.herm x p, ← dot_conj, Complex.conj_re]
  unfold form
  rw [map_add, map_smul, dot_add_left, dot_add_right, dot_add_right, dot_add_left, dot_smul_left, dot_smul_left,
    dot_smul_right, dot_smul_right, dot_smul_left, Complex.conj_ofReal, dot_sub_right]
  simp only [Complex.add_re, Complex.re_ofReal_mul, Complex.sub_re]
  rw [h1]
  ring

theorem gamma_real {A : Op n} {b : Vec n} {s : State n} (h : Good A b s) : s.gamma = ((norm s.r ^ 2 : ℝ) : ℂ) := by
  rw [h.gamma, dot_self]
  unfold norm
  rw [Real.sq_sqrt (Finset.sum_nonneg fun k _ => by positivity)]

theorem good_step {A : Op n} (hA : HPD A) {b : Vec n} {s s' : State n} (h : Good A b s) (hs : step A none s = some s') :
    Good A b s' ∧ form A b s'.x < form A b s.x := by
  obtain ⟨hd, hg, -, hx, hr, hg', hp⟩ := step_some hs
  have hres := step_residual hs h.residual
  have hprec : ∀ v, precondOp (none : Option (Op n)) v = v := fun v => rfl
  rw [hprec] at hg' hp
  have hpr : dot s.p s'.r = 0 := by
    rw [hr, dot_sub_right, dot_smul_right, h.pr, div_mul_cancel₀ _ hd, sub_self]
  refine ⟨⟨hg', ?_, hres⟩, ?_⟩
  · rw [hp, dot_add_left, dot_smul_left, hpr, mul_zero, add_zero, hg']
  · have hp0 : s.p ≠ 0 := fun h0 => hd (by rw [h0, map_zero, dot_zero_right])
    have hpos := hA.pos s.p hp0
    have hdre : dot s.p (A s.p) = (((dot s.p (A s.p)).re : ℝ) : ℂ) := by
      apply Complex.ext
      · rw [Complex.ofReal_re]
      · rw [Complex.ofReal_im]
        exact Complex.conj_eq_iff_im.1 (dot_real hA s.p)
    set d := (dot s.p (A s.p)).re with hddef
    have hgr := gamma_real h
    set c := norm s.r ^ 2 with hc
    have hc0 : c ≠ 0 := fun h0 => hg (by rw [hgr, h0, Complex.ofReal_zero])
    have hα : s.gamma / dot s.p (A s.p) = ((c / d : ℝ) : ℂ) := by
      rw [hgr, hdre, Complex.ofReal_div]
    rw [hx, hα, form_add hA, ← h.residual, h.pr, hgr, Complex.ofReal_re, ← hddef]
    have : (c / d) ^ 2 * d = c / d * c := by field_simp
    have h2 : 0 < c / d * c := by
      rw [div_mul_eq_mul_div]
      have : 0 < c * c := mul_self_pos.2 hc0
      positivity
    rw [this]
    linarith

theorem form_loop {A : Op n} (hA : HPD A) {b : Vec n} {tol : ℝ} {mi : Option Nat} {s : State n} {o : Option (State n)}
    (hl : Loop A none tol mi s o) (h : Good A b s) : ∀ s', o = some s' → form A b s'.x ≤ form A b s.x := by
  induction hl with
  | stop s hc => rintro s' ⟨⟩; exact le_rfl
  | nan s hc hs => rintro s' ⟨⟩
  | next s s1 o hc hs hl ih =>
    intro s' hs'
    obtain ⟨h1, h2⟩ := good_step hA h hs
    exact (ih h1 s' hs').trans h2.le

/-- However early the loop stops: if it made a step, the result has a positive product with the right-hand
side. -/
theorem direction {A : Op n} (hA : HPD A) (b : Vec n) (hb : b ≠ 0) (tol : ℝ) (ht : tol < 1) (maxIter : Option Nat)
    (hm : maxIter ≠ some 0) (s : State n) (h : Returns A none b none tol maxIter (some s)) : 0 < (dot b s.x).re := by
  have hgood := good_init A b none
  have hx0 : (init A none b none).x = 0 := rfl
  have hr0 : (init A none b none).r = b := rfl
  have hi0 : (init A none b none).i = 0 := rfl
  have hcont : Continue (tol * norm b) maxIter (init A none b none) := by
    refine ⟨fun m hmm => ?_, ?_⟩
    · rw [hi0]
      exact Nat.pos_of_ne_zero fun h0 => hm (by rw [hmm, h0])
    · rw [hr0]
      have := norm_pos.2 hb
      nlinarith
  unfold Returns at h
  rw [hr0] at h
  have hform : form A b s.x < 0 := by
    have h0 : form A b (init A none b none).x = 0 := by rw [hx0]; simp [form, dot_zero_left]
    cases h with
    | stop _ hc => exact absurd hcont hc
    | next _ s1 _ hc hs hl =>
      obtain ⟨h1, h2⟩ := good_step hA hgood hs
      have := form_loop hA hl h1 s rfl
      linarith
  have h1 : 0 ≤ (dot s.x (A s.x)).re := by
    by_cases hs : s.x = 0
    · rw [hs, dot_zero_left]; simp
    · exact (hA.pos _ hs).le
  have h2 : (dot b s.x).re = (dot s.x b).re := by rw [← dot_conj, Complex.conj_re]
  unfold form at hform
  rw [h2]
  linarith

end Verif.Optimizers.CG

namespace Verif.Optimizers.SR

open Matrix ComplexOrder Verif.Energy.Exact

variable {B P : Nat} {σ : Type}

/-! ### The direction of the step -/

/-- **C127**, the direction: with a positive shift, the step `-x` of both solvers has a negative product with
the gradient `g` of the batch, unless that is zero, in which case the step is zero. The iterative solver may
stop at any tolerance below one and after any positive number of iterations. -/
theorem C127_direction (J : Matrix (Fin B) (Fin P) ℂ) (target : Fin B → ℂ) (shift : ℝ) (hs : 0 < shift) :
    let g := energyGrad (minusMean J) target
    (∃ x, solveDirectly (minusMean J) shift g = some x ∧ (g ≠ 0 → (CG.dot g (-x)).re < 0) ∧ (g = 0 → x = 0)) ∧
    ∀ (tol : ℝ) (maxIter : ℕ), 0 ≤ tol → tol < 1 → 0 < maxIter → P ≠ 1 →
      ∃ s : CG.State P, IterativeReturns (minusMean J) shift tol maxIter g (.ok (some s)) ∧
        (g ≠ 0 → (CG.dot g (-s.x)).re < 0) ∧ (g = 0 → s.x = 0) := by
  intro g
  have hneg : ∀ x, (CG.dot g (-x)).re = -(CG.dot g x).re := fun x => by
    simp only [CG.dot, Pi.neg_apply, mul_neg, Finset.sum_neg_distrib, Complex.neg_re]
  have hpd := sMatrix_posDef (minusMean J) hs
  refine ⟨?_, ?_⟩
  · have hu : IsUnit (sMatrix (minusMean J) shift).det := hpd.det_pos.ne'.isUnit
    refine ⟨(sMatrix (minusMean J) shift)⁻¹ *ᵥ g, by rw [solveDirectly, if_pos hu], fun hg => ?_, fun hg => ?_⟩
    · rw [hneg, dot_eq]
      have := hpd.inv.dotProduct_mulVec_pos hg
      have := (Complex.pos_iff.1 this).1
      linarith
    · rw [hg, mulVec_zero]
  · intro tol maxIter ht ht1 hm hP
    obtain ⟨s, h1, -⟩ := C32_iterative J hP shift tol hs ht maxIter g
    refine ⟨s, h1, fun hg => ?_, fun hg => ?_⟩
    · unfold IterativeReturns at h1
      rw [if_neg hP] at h1
      obtain ⟨o, ho, h2⟩ := h1
      cases ho
      have := CG.direction (hpd_product _ hs) g hg tol ht1 (some maxIter) (by simp; omega) s h2
      rw [hneg]
      linarith
    · unfold IterativeReturns at h1
      rw [if_neg hP] at h1
      obtain ⟨o, ho, h2⟩ := h1
      cases ho
      rw [hg] at h2
      have hstop : ¬ CG.Continue (tol * CG.norm (0 : CG.Vec P)) (some maxIter) (CG.init (productOp (minusMean J) shift) none 0 none) := by
        rintro ⟨-, h⟩
        have h0 : (CG.init (productOp (minusMean J) shift) none 0 none).r = 0 := rfl
        rw [h0, CG.norm_eq_zero.2 rfl] at h
        simp at h
      have hr0 : (CG.init (productOp (minusMean J) shift) none (0 : CG.Vec P) none).r = 0 := rfl
      unfold CG.Returns at h2
      rw [hr0] at h2
      have := CG.loop_unique h2 (CG.Loop.stop _ hstop)
      cases this
      rfl

/-! ### Exact training -/

/-- The vector of all complex weights of a model. -/
noncomputable def flatWeights (P : ℕ) (m : ComplexModel) : Fin P → ℂ := fun p => (m.weights.flatMap Tensor.data).getD p 0

/-- The exact energy of the network `net` for the Hamiltonian with rows `rows`. -/
noncomputable def energyOf (s : Setup σ) (rows : σ → List (σ × ℂ)) (net : σ → ℂ) : ℝ :=
  (rayleigh (opMatrix s rows) (amplitudes s net)).re

/-- The derivative of the energy along a direction of the complex weights. -/
theorem energy_along (s : Setup σ) (rows : σ → List (σ × ℂ)) (hr : RowWise s rows)
    (hH : (opMatrix s rows).IsHermitian) (batch : Nat) (o : Obj σ) (ho : Obj.new s batch = .ok o) (nets : List (σ → ℂ))
    (net : (Fin P → ℂ) → σ → ℂ) (w : Fin P → ℂ) (D : σ → (Fin P → ℂ) →L[ℂ] ℂ)
    (hD : ∀ b : Fin s.S, HasFDerivAt (fun w => net w (s.states b)) (D (s.states b)) w)
    (v : Fin P → ℂ) :
    HasDerivAt (fun t : ℝ => energyOf s rows (net (w + (t : ℂ) • v)))
      (2 * (CG.dot (energyGrad (minusMean fun b p => D (s.states b) (Pi.single p 1))
        fun b : Fin s.S => (after o nets (net w)).arrays.coeff b) v).re) 0 := by
  set J : Matrix (Fin s.S) (Fin P) ℂ := fun b p => D (s.states b) (Pi.single p 1) with hJ
  have hDv : ∀ b : Fin s.S, D (s.states b) v = ∑ p, J b p * v p := by
    intro b
    have hv : v = ∑ p, v p • (Pi.single p (1 : ℂ) : Fin P → ℂ) := by
      funext q
      rw [Finset.sum_apply, Finset.sum_eq_single q]
      · simp
      · intro p _ hp
        rw [Pi.smul_apply, Pi.single_eq_of_ne hp.symm, smul_zero]
      · intro h; exact absurd (Finset.mem_univ q) h
    conv_lhs => rw [hv]
    rw [map_sum]
    refine Finset.sum_congr rfl fun p _ => ?_
    rw [map_smul, smul_eq_mul, mul_comm]
  have hpath : ∀ x : Fin s.S, HasDerivAt (fun t : ℝ => net (w + (t : ℂ) • v) (s.states x)) (D (s.states x) v) 0 := by
    intro x
    have h1 : HasDerivAt (fun t : ℝ => w + (t : ℂ) • v) v 0 := by
      have := ((Complex.ofRealCLM.hasDerivAt (x := (0 : ℝ))).smul_const v).const_add w
      simpa using this
    have h2 : HasFDerivAt (fun w => net w (s.states x)) ((D (s.states x)).restrictScalars ℝ) (w + (((0 : ℝ) : ℂ)) • v) := by
      have : w + (((0 : ℝ) : ℂ)) • v = w := by simp
      rw [this]
      exact (hD x).restrictScalars ℝ
    exact h2.comp_hasDerivAt (0 : ℝ) h1
  obtain ⟨hsum, hder, -⟩ := C21_gradient s rows hr hH batch o ho nets (fun t => net (w + (t : ℂ) • v)) (fun x => D x v) 0 hpath
  have hnet0 : net (w + ((0 : ℝ) : ℂ) • v) = net w := by simp
  simp only [hnet0] at hsum hder
  have hen : (fun t : ℝ => energyOf s rows (net (w + (t : ℂ) • v)))
      = fun t : ℝ => (after o nets (net (w + (t : ℂ) • v))).arrays.energy.re := by
    funext t
    unfold energyOf
    rw [energy_eq s _ _ _ (result_after s rows hr batch o ho nets _), Complex.conj_re]
  rw [hen]
  refine hder.congr_deriv ?_
  set c : Fin s.S → ℂ := fun b => (after o nets (net w)).arrays.coeff b with hc
  have hdot : CG.dot (energyGrad (minusMean J) c) v = ∑ b, c b * D (s.states b) v := by
    have hcent : ∑ b, c b * (minusMean J *ᵥ v) b = ∑ b, c b * (J *ᵥ v) b := by
      have hmm : ∀ b, (minusMean J *ᵥ v) b = (J *ᵥ v) b - ∑ p, (∑ b', J b' p) / (s.S : ℂ) * v p := by
        intro b
        simp only [mulVec, dotProduct, minusMean, sub_mul, Finset.sum_sub_distrib]
      simp only [hmm, mul_sub, Finset.sum_sub_distrib]
      rw [← Finset.sum_mul, show ∑ b, c b = 0 from hsum, zero_mul, sub_zero]
    rw [dot_eq]
    unfold energyGrad
    rw [star_mulVec, conjTranspose_conjTranspose, ← dotProduct_mulVec]
    have : (star fun b => (starRingEnd ℂ) (c b)) = c := by
      funext b
      simp [Pi.star_apply]
    rw [this]
    show ∑ b, c b * (minusMean J *ᵥ v) b = _
    rw [hcent]
    refine Finset.sum_congr rfl fun b _ => ?_
    rw [hDv]
    rfl
  rw [hdot, Complex.re_sum, Finset.mul_sum]

/-- A negative derivative means that small steps lead downhill. -/
theorem lower_of_deriv {f : ℝ → ℝ} {d : ℝ} (hf : HasDerivAt f d 0) (hd : d < 0) :
    ∃ δ > 0, ∀ t, 0 < t → t < δ → f t < f 0 := by
  have h1 := hf.tendsto_slope_zero_right
  have h2 := h1.eventually (gt_mem_nhds hd)
  rw [eventually_nhdsWithin_iff, Metric.eventually_nhds_iff] at h2
  obtain ⟨δ, hδ, h3⟩ := h2
  refine ⟨δ, hδ, fun t ht htd => ?_⟩
  have h4 := h3 (y := t) (by rw [dist_zero_right, Real.norm_eq_abs, abs_of_pos ht]; exact htd) ht
  simp only [zero_add, smul_eq_mul] at h4
  have h5 : t⁻¹ * (f t - f 0) < 0 := h4
  have : 0 < t⁻¹ := inv_pos.2 ht
  by_contra hcon
  have : 0 ≤ t⁻¹ * (f t - f 0) := mul_nonneg this.le (by linarith)
  linarith

theorem flat_update {lr : ℝ} {m m' : ComplexModel} (hm : (m.weights.flatMap Tensor.data).length = P) (x : Fin P → ℂ)
    (h : m'.weights.flatMap Tensor.data =
      List.zipWith (fun w z => w - (lr : ℂ) * z) (m.weights.flatMap Tensor.data) (List.ofFn x)) :
    flatWeights P m' = flatWeights P m + (lr : ℂ) • (-x) := by
  funext p
  unfold flatWeights
  have h1 : (p : ℕ) < (m.weights.flatMap Tensor.data).length := by rw [hm]; exact p.2
  have h2 : (p : ℕ) < (m'.weights.flatMap Tensor.data).length := by
    rw [h, List.length_zipWith, List.length_ofFn, hm, min_self]; exact p.2
  simp only [List.getD_eq_getElem?_getD, Pi.add_apply, Pi.smul_apply, Pi.neg_apply, smul_eq_mul]
  rw [h, List.getElem?_zipWith, List.getElem?_eq_getElem h1, List.getElem?_eq_getElem (by simp)]
  simp
  ring

/-- **C127**, exact training: the generator of an `ExactVariational` object that holds all states in one batch
hands out targets for which a step of stochastic reconfiguration lowers the exact energy of the network, for
every learning rate below some bound, with the direct solver and with the iterative solver at every tolerance
below one and every positive limit on its iterations; unless the energy is already stationary. The network is
a holomorphic function of its `P` complex weights, `D x` its derivative for state `x` at the current weights,
from which the Jacobian is made. -/
theorem C127_exact (s : Setup σ) (rows : σ → List (σ × ℂ)) (hr : RowWise s rows) (hH : (opMatrix s rows).IsHermitian)
    (batch : Nat) (hbatch : s.S ≤ batch) (o : Obj σ) (ho : Obj.new s batch = .ok o) (nets : List (σ → ℂ))
    (net : (Fin P → ℂ) → σ → ℂ) (m : ComplexModel) (hm : m.Valid)
    (hP : P = ((m.weights.map Tensor.shape).map List.prod).sum) (D : σ → (Fin P → ℂ) →L[ℂ] ℂ)
    (hD : ∀ b : Fin s.S, HasFDerivAt (fun w => net w (s.states b)) (D (s.states b)) (flatWeights P m))
    (shift : ℝ) (hs : 0 < shift) :
    let y := ((Gen.mk (nets.foldl Obj.update o) []).next (net (flatWeights P m))).2.batch
    let J : Matrix (Fin s.S) (Fin P) ℂ := fun b p => D (s.states b) (Pi.single p 1)
    let target : Fin s.S → ℂ := fun b => (y.map Prod.snd).getD b 0
    let E : ComplexModel → ℝ := fun m => energyOf s rows (net (flatWeights P m))
    y.map Prod.fst = (List.range s.S).map s.states ∧
    ((∀ v, HasDerivAt (fun t : ℝ => energyOf s rows (net (flatWeights P m + (t : ℂ) • v))) 0 0) ∨
      (∃ δ > 0, ∀ lr, 0 < lr → lr < δ → ∃ m', getUpdatesDirect lr shift m J target = some m' ∧ E m' < E m) ∧
      ∀ (tol : ℝ) (maxIter : ℕ), 0 ≤ tol → tol < 1 → 0 < maxIter → P ≠ 1 →
        ∃ δ > 0, ∀ lr, 0 < lr → lr < δ → ∃ m', UpdatesIterative lr shift tol maxIter m J target m' ∧ E m' < E m) := by
  intro y J target E
  set w := flatWeights P m with hw
  obtain ⟨hset, hpos, hbs, -, -, hmin⟩ := new_ok s rows hr batch o ho
  rw [min_eq_right hbatch] at hmin
  have hlen : (m.weights.flatMap Tensor.data).length = P := by
    obtain ⟨hs', hre, him⟩ := hm
    have hlen : m.real.length = m.imag.length := by simpa using congrArg List.length hs'
    have hws : m.weights.map Tensor.shape = m.real.map Tensor.shape := shape_complexWeight _ _ hlen
    rw [ComplexModel.weights, flatMap_complexWeight _ _ hs' hre him, List.length_zipWith,
      length_flatMap_valid _ hre, length_flatMap_valid _ him, ← hs', min_self, ← hws, hP]
    rfl
  have hset' : ∀ (nets : List (σ → ℂ)) (o : Obj σ), (nets.foldl Obj.update o).setup = o.setup ∧ (nets.foldl Obj.update o).bs = o.bs := by
    intro nets
    induction nets with
    | nil => intro o; exact ⟨rfl, rfl⟩
    | cons a l ih => intro o; exact ih (o.update a)
  have hy : y = (List.range s.S).map fun k => (s.states k, (after o nets (net w)).arrays.coeff k) := by
    have h1 : ((nets.foldl Obj.update o).update (net w)).setup = s := (hset' nets o).1.trans hset
    have h2 : ((nets.foldl Obj.update o).update (net w)).bs = s.S := (hset' nets o).2.trans hmin
    have h3 : pyRange s.S s.S = [0] := by
      have := pyRange_dvd 1 s.S hpos
      rw [one_mul] at this
      rw [this]
      simp
    show ((Gen.mk (nets.foldl Obj.update o) []).next (net w)).2.batch = _
    unfold Gen.next
    dsimp only
    rw [h1, h2, h3]
    dsimp only
    unfold Obj.slice
    rw [h1, h2]
    simp only [zero_add]
    rfl
  have htarget : target = fun b : Fin s.S => (after o nets (net w)).arrays.coeff b := by
    funext b
    show (y.map Prod.snd).getD b 0 = _
    rw [hy, List.map_map, List.getD_eq_getElem?_getD, List.getElem?_map, List.getElem?_range b.2]
    rfl
  have halong := fun v => energy_along s rows hr hH batch o ho nets net w D hD v
  set g := energyGrad (minusMean J) target with hg
  have halong' : ∀ v, HasDerivAt (fun t : ℝ => energyOf s rows (net (w + (t : ℂ) • v))) (2 * (CG.dot g v).re) 0 := by
    intro v
    rw [hg, htarget]
    exact halong v
  refine ⟨by rw [hy, List.map_map]; rfl, ?_⟩
  by_cases hg0 : g = 0
  · left
    intro v
    have := halong' v
    rw [hg0, CG.dot_zero_left, Complex.zero_re, mul_zero] at this
    exact this
  · right
    have hdown : ∀ x : Fin P → ℂ, (CG.dot g (-x)).re < 0 → ∃ δ > 0, ∀ lr : ℝ, 0 < lr → lr < δ →
        energyOf s rows (net (w + (lr : ℂ) • (-x))) < energyOf s rows (net w) := by
      intro x hx
      obtain ⟨δ, hδ, h⟩ := lower_of_deriv (halong' (-x)) (by linarith)
      refine ⟨δ, hδ, fun lr h1 h2 => ?_⟩
      have := h lr h1 h2
      simpa using this
    obtain ⟨⟨x, hx, hxd, -⟩, hit⟩ := C127_direction J target shift hs
    refine ⟨?_, fun tol maxIter ht ht1 hmi hP1 => ?_⟩
    · obtain ⟨δ, hδ, h⟩ := hdown x (hxd hg0)
      refine ⟨δ, hδ, fun lr h1 h2 => ?_⟩
      obtain ⟨m', g1, -, -, g3⟩ := C30_complex_update lr m hm (List.ofFn fun p => x p * (-1))
        (by rw [List.length_ofFn]; exact hP)
      refine ⟨m', by simp only [getUpdatesDirect, hx, Option.bind_some, g1], ?_⟩
      have hf := flat_update (lr := lr) (m := m) (m' := m') hlen x (by
        rw [g3, show (List.ofFn fun p => x p * (-1)) = (List.ofFn x).map fun z => z * (-1) by rw [List.map_ofFn]; rfl,
          List.zipWith_map_right]
        congr 1
        funext w z
        ring)
      show energyOf s rows (net (flatWeights P m')) < _
      rw [hf]
      exact h lr h1 h2
    · obtain ⟨st, hst, hxd', -⟩ := hit tol maxIter ht ht1 hmi hP1
      obtain ⟨δ, hδ, h⟩ := hdown st.x (hxd' hg0)
      refine ⟨δ, hδ, fun lr h1 h2 => ?_⟩
      obtain ⟨m', g1, -, -, g3⟩ := C30_complex_update lr m hm (List.ofFn fun p => st.x p * (-1))
        (by rw [List.length_ofFn]; exact hP)
      refine ⟨m', ⟨st, hst, g1⟩, ?_⟩
      have hf := flat_update (lr := lr) (m := m) (m' := m') hlen st.x (by
        rw [g3, show (List.ofFn fun p => st.x p * (-1)) = (List.ofFn st.x).map fun z => z * (-1) by rw [List.map_ofFn]; rfl,
          List.zipWith_map_right]
        congr 1
        funext w z
        ring)
      show energyOf s rows (net (flatWeights P m')) < _
      rw [hf]
      exact h lr h1 h2

/-! ### Products by differentiation -/

/-- The product by differentiation as a linear operator (optimizer.py:75-77). -/
noncomputable def productViaJvpOp (hB : 0 < B) (J : Matrix (Fin B) (Fin P) ℂ) (shift : ℝ) : CG.Op P where
  toFun := productViaJvp J shift
  map_add' x y := by simp only [C63_same_matrix_partial hB]; exact map_add (productOp (minusMean J) shift) x y
  map_smul' c x := by simp only [C63_same_matrix_partial hB]; exact map_smul (productOp (minusMean J) shift) c x

/-- `..._with_iterative_solver` (optimizer.py:69-92) with `compute_jvp_instead_of_full_jacobian=True` and the
right-hand side of optimizer.py:104-106. -/
def JvpReturns (hB : 0 < B) (J : Matrix (Fin B) (Fin P) ℂ) (shift tol : ℝ) (maxIter : Nat) (target : Fin B → ℂ)
    (s : CG.State P) : Prop :=
  ∃ v, energyGradViaJvp J target = some v ∧
    CG.Returns (productViaJvpOp hB J shift) none v none tol (some maxIter) (some s)

/-- **C127** is violated with `compute_jvp_instead_of_full_jacobian=True`: the right-hand side is not the
gradient (C63), and there are two samples and two weights for which the step has a positive product with
the gradient of the batch, so that it leads uphill; for every shift, with the default tolerance and iteration
limit. -/
theorem C127_violated_jvp (shift : ℝ) (hs : 0 < shift) :
    ∃ (J : Matrix (Fin 2) (Fin 2) ℂ) (target : Fin 2 → ℂ), ∑ b, target b = 0 ∧
      ∃ s, JvpReturns two_pos J shift (1 / 1000) 200 target s ∧
        0 < (CG.dot (energyGrad (minusMean J) target) (-s.x)).re := by
  set J : Matrix (Fin 2) (Fin 2) ℂ := !![0, 1; -2, 1] with hJ
  set target : Fin 2 → ℂ := ![1, -1] with ht
  have hO : minusMean J = !![1, 0; -1, 0] := by
    ext b p
    fin_cases b <;> fin_cases p <;> simp [minusMean, hJ, Fin.sum_univ_two] <;> norm_num
  have hg : energyGrad (minusMean J) target = ![2, 0] := by
    rw [hO]
    funext p
    fin_cases p <;> simp [energyGrad, ht, mulVec, dotProduct, Fin.sum_univ_two, conjTranspose] <;> norm_num
  have hv : energyGradViaJvp J target = some ![-1, -3] := by
    unfold energyGradViaJvp
    rw [dif_pos rfl]
    congr 1
    funext p
    fin_cases p <;> simp [hJ, ht, mulVec, dotProduct, Fin.sum_univ_two] <;> norm_num
  have hop : productViaJvpOp two_pos J shift = productOp (minusMean J) shift :=
    LinearMap.ext fun v => C63_same_matrix_partial two_pos J shift v
  obtain ⟨s, h1, h2, -⟩ := CG.C33_terminates (productOp (minusMean J) shift) none (hpd_product _ hs)
    (by simp) ![-1, -3] none (1 / 1000) (by norm_num) (some 200)
  obtain ⟨-, h3, -⟩ := CG.C33_result _ none ![-1, -3] none (1 / 1000) (some 200) s h1
  refine ⟨J, target, by simp [ht, Fin.sum_univ_two], s, ⟨_, hv, by rw [hop]; exact h1⟩, ?_⟩
  rcases h3 with h3 | h3
  swap
  · have := Option.some.inj h3
    omega
  have hz : CG.start (none : Option (CG.Vec 2)) = 0 := rfl
  rw [hz, map_zero, sub_zero] at h3
  have hnb : CG.norm (![-1, -3] : CG.Vec 2) ≤ 4 := by
    unfold CG.norm
    rw [Real.sqrt_le_left (by norm_num)]
    simp [Fin.sum_univ_two]
    norm_num
  have hx0 : (productOp (minusMean J) shift s.x) 0 = (1 + shift) * s.x 0 := by
    show product (minusMean J) shift s.x 0 = _
    rw [hO]
    unfold product
    simp [mulVec, dotProduct, Fin.sum_univ_two, conjTranspose]
    ring
  have hcomp : ‖(![-1, -3] - productOp (minusMean J) shift s.x : CG.Vec 2) 0‖
      ≤ CG.norm (![-1, -3] - productOp (minusMean J) shift s.x : CG.Vec 2) := by
    unfold CG.norm
    refine Real.le_sqrt_of_sq_le ?_
    rw [Fin.sum_univ_two]
    have := sq_nonneg ‖(![-1, -3] - productOp (minusMean J) shift s.x : CG.Vec 2) 1‖
    linarith
  have hle : ‖(-1 : ℂ) - (1 + shift) * s.x 0‖ ≤ 1 / 100 := by
    have h4 : (![-1, -3] - productOp (minusMean J) shift s.x : CG.Vec 2) 0 = (-1 : ℂ) - (1 + shift) * s.x 0 := by
      rw [Pi.sub_apply, hx0]
      simp
    rw [h4] at hcomp
    linarith
  have hre : |((-1 : ℂ) - (1 + shift) * s.x 0).re| ≤ 1 / 100 := (Complex.abs_re_le_norm _).trans hle
  have hre' : ((-1 : ℂ) - (1 + shift) * s.x 0).re = -1 - (1 + shift) * (s.x 0).re := by
    simp
  rw [hre', abs_le] at hre
  have hneg : (s.x 0).re < 0 := by
    by_contra hcon
    have : 0 ≤ (1 + shift) * (s.x 0).re := mul_nonneg (by linarith) (not_lt.1 hcon)
    linarith [hre.1]
  rw [hg]
  simp [CG.dot, Fin.sum_univ_two]
  linarith

/-- The hypotheses of `C127_exact` can be met: the open Ising chain of two sites, a model with two complex
weights, and the network `w 0 s 0 + w 1 s 1`. -/
example : ∃ (s : Setup (Verif.Operators.Config (Fin 2))) (rows : Verif.Operators.Config (Fin 2) → List (Verif.Operators.Config (Fin 2) × ℂ))
    (o : Obj (Verif.Operators.Config (Fin 2))) (m : ComplexModel)
    (net : (Fin 2 → ℂ) → Verif.Operators.Config (Fin 2) → ℂ) (D : Verif.Operators.Config (Fin 2) → (Fin 2 → ℂ) →L[ℂ] ℂ),
    RowWise s rows ∧ (opMatrix s rows).IsHermitian ∧ s.S ≤ 4 ∧ Obj.new s 4 = .ok o ∧ m.Valid ∧
      2 = ((m.weights.map Tensor.shape).map List.prod).sum ∧
      ∀ b : Fin s.S, HasFDerivAt (fun w => net w (s.states b)) (D (s.states b)) (flatWeights 2 m) := by
  have hrows := Verif.Energy.Exact.rowsOf_ising_chain 2 1 1 false
  have hr := Verif.Energy.Exact.rowWise_of (Equiv.refl (Fin 2)) (by norm_num) hrows
  obtain ⟨o, ho⟩ := (Verif.Energy.Exact.C22_batch_independent _ _ hr (by show 0 < 2 ^ 2; norm_num) 4).1.2
    ⟨by norm_num, Or.inl (by show 2 ^ 2 ≤ 4; norm_num)⟩
  refine ⟨_, _, o, ⟨[⟨[2], [1, 2]⟩], [⟨[2], [3, 4]⟩]⟩,
    fun w s => w 0 * s 0 + w 1 * s 1,
    fun s => ((s 0 : ℂ) • ContinuousLinearMap.proj 0 + (s 1 : ℂ) • ContinuousLinearMap.proj 1), hr,
    Verif.Energy.Exact.opMatrix_hermitian (Equiv.refl (Fin 2)) (by norm_num) hrows, by show 2 ^ 2 ≤ 4; norm_num, ho,
    ?_, ?_, ?_⟩
  · exact ⟨rfl, by simp [Tensor.Valid], by simp [Tensor.Valid]⟩
  · simp [ComplexModel.weights, complexWeight]
  · intro b
    have h0 : HasFDerivAt (fun w : Fin 2 → ℂ => w 0) (ContinuousLinearMap.proj 0 : (Fin 2 → ℂ) →L[ℂ] ℂ)
      (flatWeights 2 ⟨[⟨[2], [1, 2]⟩], [⟨[2], [3, 4]⟩]⟩) := hasFDerivAt_apply 0 _
    have h1 : HasFDerivAt (fun w : Fin 2 → ℂ => w 1) (ContinuousLinearMap.proj 1 : (Fin 2 → ℂ) →L[ℂ] ℂ)
      (flatWeights 2 ⟨[⟨[2], [1, 2]⟩], [⟨[2], [3, 4]⟩]⟩) := hasFDerivAt_apply 1 _
    exact (h0.mul_const _).add (h1.mul_const _)

end Verif.Optimizers.SR
