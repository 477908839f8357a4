import Verif.Symmetry.BaseSamples

/-!
# C162: training a symmetrised model with samples of its base model makes progress

C159 says that the gradients of batches sampled from the base model are right on average. Here is what follows for whole runs of
plain gradient descent: the bounds of C158 hold for the energy of the symmetrised model, although no sample is drawn from it.
-/
namespace Verif.Ensemble

open Verif.Operators Verif.Energy Verif.Callbacks Verif.Training MeasureTheory

variable {n : Nat}

/-! ### Specification -/

/-- C162 for one operator and its training targets: the setting of C158 (`SgdSettles`) with the model that the calls `steps` of
the symmetrising functions make of `model θ`, and with a sampler of `model θ`. The samples and targets of a batch are those of
`drawFrom`, with local energies of the symmetrised model. -/
def NestedSettles (steps : List Step) (H : Wave (Fin n × Fin n) → Wave (Fin n × Fin n))
    (targets : (B : Nat) → (Config (Fin n × Fin n) → ℂ) → (Fin B → Config (Fin n × Fin n)) → Option (List ℂ)) : Prop :=
  ∀ (Ω : Type) [MeasurableSpace Ω] [Inhabited Ω] (P : Measure Ω) [IsProbabilityMeasure P]
    (B : Nat), 1 < B → ∀ mini : Option Nat, mini.getD B ∣ B →
  ∀ (w : Nat) (cfg : AccConfig) (model : (Fin w → ℝ) → Config (Square n) → LogAmp)
    (g : (Fin w → ℝ) → Config (Fin n × Fin n) × ℂ → Fin w → ℝ)
    (D : (Fin w → ℝ) → Fin w → Config (Fin n × Fin n) → ℂ) (S : (Fin w → ℝ) → Ω → Fin B → Config (Fin n × Fin n)),
    (∀ θ s, (model θ s).re.isSome) → (∀ θ, Normalized (model θ)) →
    (∀ θ, Independent P (baseLog (model θ)) (S θ)) →
    (∀ s, IsSpin s → Differentiable ℝ fun θ => nestedLog (model θ) steps s) →
    (∀ θ k s, IsSpin s → HasDerivAt (fun t => nestedLog (model (Function.update θ k t)) steps s) (D θ k s) (θ k)) →
    (∀ θ k s c, IsSpin s →
      HasDerivAt (fun t => Exact.loss c (nestedLog (model (Function.update θ k t)) steps s)) (g θ (s, c) k) (θ k)) →
    ∀ C W K lr : ℝ, 0 < lr → (∀ θ k s, IsSpin s → ‖D θ k s‖ ≤ C) → LengthBound H W →
    SlopeBound H (fun θ => nestedLog (model θ) steps) K →
    lr * (if cfg.accumulateSum then ((B / mini.getD B : Nat) : ℝ) else 1) / B * K ≤ 1 - 1 / B →
    ∀ (gen : MBState Unit (Config (Fin n × Fin n) × ℂ)), gen.drawn = 0 → ∀ θ0 : Fin w → ℝ,
    ∃ st0 : LoopState (Fin w → ℝ) (Fin w → ℝ) (Fin w → ℝ) Unit (Config (Fin n × Fin n) × ℂ),
      setupLoop (fun _ => B) gen () mini θ0 = some st0 ∧
      (∀ us θ k, (drawFrom targets (fun θ => nestedLog (model θ) steps) S us θ () k).length = B) ∧
      ProgressByBatch P B H (fun θ => nestedLog (model θ) steps)
        (fun us t => (fitGenerator (plainSgd lr) cfg g (drawFrom targets (fun θ => nestedLog (model θ) steps) S us)
          (t * (B / mini.getD B)) st0).acc.opt)
        (lr * (if cfg.accumulateSum then ((B / mini.getD B : Nat) : ℝ) else 1) / B) K (64 * w * C ^ 2 * W)

/-! ### Proofs -/

theorem nested_next (hn : 0 < n) {steps : List Step} (hp : ∀ step ∈ steps, step.probabilistic = true)
    {H : Wave (Fin n × Fin n) → Wave (Fin n × Fin n)} (hS : Respects H steps) {w : Nat}
    {model : (Fin w → ℝ) → Config (Square n) → LogAmp} (hfin : ∀ θ s, (model θ s).re.isSome) (hnorm : ∀ θ, Normalized (model θ))
    (B : Nat) (η : ℝ) (θ : Fin w → ℝ) (φ : (Fin w → ℝ) → ℝ) :
    expect (allSpins (Fin n × Fin n)) (Energy.born (baseLog (model θ))) B (fun x => φ (sgdNext H (fun θ => nestedLog (model θ) steps)
      (fun θ k s => deriv (fun t => nestedLog (model (Function.update θ k t)) steps s) (θ k)) η θ x)) =
    expect (allSpins (Fin n × Fin n)) (Energy.born (nestedLog (model θ) steps)) B fun x => φ (sgdNext H (fun θ => nestedLog (model θ) steps)
      (fun θ k s => deriv (fun t => nestedLog (model (Function.update θ k t)) steps s) (θ k)) η θ x) := by
  set net : (Fin w → ℝ) → Config (Fin n × Fin n) → ℂ := fun θ => nestedLog (model θ) steps with hnet
  set D0 : (Fin w → ℝ) → Fin w → Config (Fin n × Fin n) → ℂ := fun θ k s => deriv (fun t => net (Function.update θ k t) s) (θ k) with hD0
  have hinv : ∀ step ∈ steps, ∀ g ∈ step.moves (n := n), ∀ θ k s, D0 θ k (onLattice g s) = D0 θ k s := fun step hstep g hg θ k s => by
    rw [hD0]
    dsimp only
    rw [hnet]
    simp only [nestedLog_moves _ steps step hstep g hg]
  refine expect_same _ _ _ {T | ∃ step ∈ steps, ∃ g ∈ step.moves (n := n), T = onLattice g}
    (fun f hf => nested_average hn (hfin θ) (hnorm θ) hp f fun step hstep g hg s => hf _ ⟨step, hstep, g, hg, rfl⟩ s) B _ ?_
  rintro _ ⟨step, hstep, g, hg, rfl⟩ x b
  have h1 : ∀ c, localEnergy H (net θ) (Function.update x b (onLattice g (x b)) c) = localEnergy H (net θ) (x c) := fun c => by
    by_cases hc : c = b
    · subst hc
      rw [Function.update_self]
      exact nested_localEnergy hS (model θ) step hstep g hg (x c)
    · rw [Function.update_of_ne hc]
  have h2 : ∀ k c, D0 θ k (Function.update x b (onLattice g (x b)) c) = D0 θ k (x c) := fun k c => by
    by_cases hc : c = b
    · subst hc
      rw [Function.update_self, hinv step hstep g hg]
    · rw [Function.update_of_ne hc]
  unfold sgdNext batchGradient
  simp only [h1, h2]

theorem nestedSettles_of (hn : 0 < n) {steps : List Step} (hp : ∀ step ∈ steps, step.probabilistic = true)
    {op : (B : Nat) → (Fin B → Config (Fin n × Fin n)) → Fin B → List (Row (Fin n × Fin n) ℝ)} {R : Nat}
    {rowsOf : Config (Fin n × Fin n) → List (Row (Fin n × Fin n) ℝ)} (h : Exact.RowsOf op R rowsOf)
    (H : Wave (Fin n × Fin n) → Wave (Fin n × Fin n)) (hS : Respects H steps)
    (hH : ∀ s, IsSpin s → ∀ ψ, applyRows (rowsOf s) ψ = H ψ s)
    (hlen : ∀ B (sample : Fin B → Config (Fin n × Fin n)) b, (op B sample b).length = R)
    (hE : ∀ B (sample : Fin B → Config (Fin n × Fin n)), (∀ b, IsSpin (sample b)) → ∀ logψ,
      LocalEnergies H sample logψ (estimate logψ (Answer.ofRows R (op B sample) (hlen B sample)))) :
    NestedSettles steps H fun B logψ sample => Exact.vmcCoefficients B logψ (Answer.ofRows R (op B sample) (hlen B sample)) := by
  intro Ω _ _ P _ B hB1 mini hdvd w cfg model g D S hfin hnorm hInd hd hD hg C W K lr hlr hC hW hK hrate gen hgen θ0
  set net : (Fin w → ℝ) → Config (Fin n × Fin n) → ℂ := fun θ => nestedLog (model θ) steps with hnet
  set D0 : (Fin w → ℝ) → Fin w → Config (Fin n × Fin n) → ℂ := fun θ k s => deriv (fun t => net (Function.update θ k t) s) (θ k) with hD0
  have hDD : ∀ θ k s, IsSpin s → D0 θ k s = D θ k s := fun θ k s hs => (hD θ k s hs).deriv
  exact settles_core h H hH hlen hE P B hB1 mini hdvd w cfg net g D0 S hInd (fun η θ φ => nested_next hn hp hS hfin hnorm B η θ φ) hd
    (fun θ k s hs => by rw [hDD θ k s hs]; exact hD θ k s hs) hg C W K lr hlr (fun θ k s hs => by rw [hDD θ k s hs]; exact hC θ k s hs)
    hW hK hrate gen hgen θ0

theorem nestedSettles_congr {steps : List Step} {H : Wave (Fin n × Fin n) → Wave (Fin n × Fin n)}
    {t t' : (B : Nat) → (Config (Fin n × Fin n) → ℂ) → (Fin B → Config (Fin n × Fin n)) → Option (List ℂ)}
    (h : ∀ B, 0 < B → ∀ logψ sample, (∀ b, IsSpin (sample b)) → t' B logψ sample = t B logψ sample)
    (hM : NestedSettles steps H t) : NestedSettles steps H t' := by
  intro Ω _ _ P _ B hB1 mini hdvd w cfg model g D S hfin hnorm hInd hd hD hg C W K lr hlr hC hW hK hrate gen hgen θ0
  have hdraw : ∀ us, drawFrom t' (fun θ => nestedLog (model θ) steps) S us = drawFrom t (fun θ => nestedLog (model θ) steps) S us := by
    intro us
    funext θ _ k
    unfold drawFrom
    rw [h B (by omega) _ _ ((hInd θ).spins _)]
  have := hM Ω P B hB1 mini hdvd w cfg model g D S hfin hnorm hInd hd hD hg C W K lr hlr hC hW hK hrate gen hgen θ0
  simp only [hdraw]
  exact this

section
variable (hn : 0 < n) {steps : List Step} (hp : ∀ step ∈ steps, step.probabilistic = true) {pbc : Bool}
  (hsteps : ∀ p, Step.translations p ∈ steps → pbc = true)
include hn hp hsteps

/-- **C162** for the Ising model: any calls of the symmetrising functions, translations with periodic boundaries. -/
theorem C162_ising (h j : ℝ) :
    NestedSettles steps (tfim (gridBonds n n pbc) h j) fun B logψ sample =>
      Exact.vmcCoefficients B logψ (Answer.ofRows (n * n + 1) (isingFindConn2 (.float h) j pbc sample)
        fun b => by rw [isingFindConn2_eq]; simp [length_gridSites]) :=
  nestedSettles_of hn hp (op := fun _ sample => isingFindConn2 (.float h) j pbc sample) (Exact.rowsOf_ising_grid n n h j pbc) _
    (tfim_respects h j hsteps) (fun s _ ψ => C06_ising_grid h j pbc (fun _ : Fin 1 => s) 0 ψ) _
    fun _ sample hs logψ => C18_ising_grid h j pbc sample hs logψ

/-- **C162** for the Heisenberg model, whatever calls of the operator came before. -/
theorem C162_heisenberg (rot : Bool) (history : List (Call n n)) :
    NestedSettles steps (heisenberg (gridBonds n n pbc) (if rot then -1 else 1)) fun B logψ sample =>
      Exact.vmcCoefficients B logψ (Answer.ofRows (n * n * 2 + 1) (((HeisOp.new2 n n rot pbc).run history).findConn B sample).2
        fun b => by rw [answer2]; exact length_heisRows _ _ _ (Or.inl rfl) _) :=
  nestedSettles_of hn hp (op := fun B sample => (((HeisOp.new2 n n rot pbc).run history).findConn B sample).2)
    (Exact.rowsOf_heisenberg_grid n n rot pbc history) _ (heisenberg_respects _ hsteps)
    (fun s hs ψ => applyRows_heisRows rot pbc 2 (Or.inl rfl) s hs ψ) _
    fun B sample hs logψ => C18_heisenberg_grid rot pbc history B sample hs logψ

open Verif.J1J2.Op in
/-- **C162** for J1-J2, whatever calls of the operator came before. -/
theorem C162_j1j2 (first : ℤ) (hf : first = 1 ∨ first = -1) (j2 : ℝ) (hL : pbc = true → 3 ≤ n)
    (history : List (List Netket.Conf)) : NestedSettles steps (hamiltonian n n pbc j2) (j1j2Targets first n n j2 pbc history) :=
  nestedSettles_congr (fun _ hB logψ sample hs => targets_clean first hf hn hn j2 pbc (fun h => ⟨hL h, hL h⟩) history hB sample hs logψ)
    (nestedSettles_of hn hp (rowsOf_clean first hf hn hn j2 pbc fun h => ⟨hL h, hL h⟩) _
      (respects_of (fun _ hT => hamiltonian_commutes (fun h => ⟨hL h, hL h⟩) _ hT) hsteps)
      (cleanRows_apply first hf hn hn j2 pbc fun h => ⟨hL h, hL h⟩)
      (fun _ sample b => cleanRows_length first hn j2 pbc (sample b)) fun _ sample hs logψ =>
        localEnergies_of _ sample hs logψ _ (clean_values first hf hn hn j2 pbc (fun h => ⟨hL h, hL h⟩) sample hs logψ))

end

/-! ### A case that meets the hypotheses -/

/-- One weight moves the correlation of two neighbours on two times two sites; a third site is magnetised, which the
symmetrisation takes away. -/
noncomputable def swinging (θ : Fin 1 → ℝ) (s : Config (Square 2)) : LogAmp :=
  ⟨some (0.5 * Real.log (1 / 16 * (1 + 1 / 2 * Real.sin (θ 0) * sgn (s ![0, 0] * s ![0, 1])) * (1 + 1 / 2 * sgn (s ![1, 0])))), 0⟩
where
  /-- The sign, which is never large even on arrays that are no spins. -/
  sgn (z : ℤ) : ℝ := z.sign

/-- The probabilities of the symmetrised model. -/
noncomputable def swung (θ : ℝ) (s : Config (Fin 2 × Fin 2)) : ℝ := 1 / 16 * (1 + 1 / 2 * Real.sin θ * swinging.sgn (s (0, 0) * s (0, 1)))

theorem sgn_bound (z : ℤ) : |swinging.sgn z| ≤ 1 := by
  unfold swinging.sgn
  rcases lt_trichotomy z 0 with h | h | h
  · simp [Int.sign_eq_neg_one_of_neg h]
  · simp [h]
  · simp [Int.sign_eq_one_of_pos h]

theorem swing_bound (θ : ℝ) (z : ℤ) : 1 / 2 ≤ 1 + 1 / 2 * Real.sin θ * swinging.sgn z := by
  have h1 : |Real.sin θ * swinging.sgn z| ≤ 1 := by
    rw [abs_mul]
    exact mul_le_one₀ (Real.abs_sin_le_one θ) (abs_nonneg _) (sgn_bound z)
  have := (abs_le.mp h1).1
  linarith

theorem lean_bound (z : ℤ) : 1 / 2 ≤ 1 + 1 / 2 * swinging.sgn z := by
  have := (abs_le.mp (sgn_bound z)).1
  linarith

theorem exp_half_log {x : ℝ} (hx : 0 < x) : Real.exp (0.5 * Real.log x) ^ 2 = x := by
  rw [← Real.exp_nat_mul]
  have : ((2 : ℕ) : ℝ) * (0.5 * Real.log x) = Real.log x := by
    push_cast
    ring
  rw [this, Real.exp_log hx]

theorem exp_half_log_two {x : ℝ} (hx : 0 < x) : Real.exp (0.5 * Real.log x * 2) = x := by
  have : 0.5 * Real.log x * 2 = Real.log x := by ring
  rw [this, Real.exp_log hx]

theorem nested_swinging (θ : Fin 1 → ℝ) (s : Config (Fin 2 × Fin 2)) :
    nestedLog (swinging θ) [.flips true] s = ((0.5 * Real.log (swung (θ 0) s) : ℝ) : ℂ) := by
  set a : ℤ := s (0, 0) * s (0, 1) with ha
  set c : ℤ := s (1, 0) with hc
  have p1 := swing_bound (θ 0) a
  have p2 := lean_bound c
  have p3 := lean_bound (-c)
  have q1 : 0 < 1 / 16 * (1 + 1 / 2 * Real.sin (θ 0) * swinging.sgn a) * (1 + 1 / 2 * swinging.sgn c) := by
    have : 0 < 1 + 1 / 2 * Real.sin (θ 0) * swinging.sgn a := by linarith
    have : 0 < 1 + 1 / 2 * swinging.sgn c := by linarith
    positivity
  have q2 : 0 < 1 / 16 * (1 + 1 / 2 * Real.sin (θ 0) * swinging.sgn a) * (1 + 1 / 2 * swinging.sgn (-c)) := by
    have : 0 < 1 + 1 / 2 * Real.sin (θ 0) * swinging.sgn a := by linarith
    have : 0 < 1 + 1 / 2 * swinging.sgn (-c) := by linarith
    positivity
  have e1 : swinging θ (onSquare s) =
      ⟨some (0.5 * Real.log (1 / 16 * (1 + 1 / 2 * Real.sin (θ 0) * swinging.sgn a) * (1 + 1 / 2 * swinging.sgn c))), 0⟩ := by
    unfold swinging onSquare
    simp [ha, hc]
  have e2 : (swinging θ fun i => onSquare s i * -1) =
      ⟨some (0.5 * Real.log (1 / 16 * (1 + 1 / 2 * Real.sin (θ 0) * swinging.sgn a) * (1 + 1 / 2 * swinging.sgn (-c)))), 0⟩ := by
    unfold swinging onSquare
    simp [ha, hc]
  have hneg : swinging.sgn (-c) = -swinging.sgn c := by
    unfold swinging.sgn
    simp
  have hsum : 1 / 16 * (1 + 1 / 2 * Real.sin (θ 0) * swinging.sgn a) * (1 + 1 / 2 * swinging.sgn c) +
      1 / 16 * (1 + 1 / 2 * Real.sin (θ 0) * swinging.sgn a) * (1 + 1 / 2 * swinging.sgn (-c)) = swung (θ 0) s * 2 := by
    unfold swung
    rw [hneg, ← ha]
    ring
  have hpos : 0 < swung (θ 0) s := by
    unfold swung
    rw [← ha]
    linarith
  unfold nestedLog nest Step.apply nest
  dsimp only
  rw [upDown_row, e1, e2]
  unfold ensembleOp probabilisticOp toComplex logReal expReal mean angle
  simp only [List.map_cons, List.map_nil, Option.map_some, List.sum_cons, List.sum_nil, add_zero, if_true,
    List.length_cons, List.length_nil, exp_half_log_two q1, exp_half_log_two q2, hsum]
  have hz : (Complex.exp ((0 : ℝ) * Complex.I) + Complex.exp ((0 : ℝ) * Complex.I)) / ((0 + 1 + 1 : Nat) : ℂ) = 1 := by
    rw [Complex.ofReal_zero, zero_mul, Complex.exp_zero]
    norm_num
  have hl : ((0 + 1 + 1 : Nat) : ℝ) = 2 := by norm_num
  have hne : swung (θ 0) s * 2 ≠ 0 := by positivity
  rw [hz, Complex.arg_one, hl, if_neg hne, Option.map_some, Option.getD_some, Real.log_mul hpos.ne' two_ne_zero]
  apply Complex.ext <;> simp
  ring

theorem swung_pos (θ : ℝ) (s : Config (Fin 2 × Fin 2)) : 1 / 32 ≤ swung θ s := by
  unfold swung
  linarith [swing_bound θ (s (0, 0) * s (0, 1))]

theorem sums : (∑ _s ∈ allSpins (Fin 2 × Fin 2), (1 : ℤ) = 16) ∧ (∑ s ∈ allSpins (Fin 2 × Fin 2), (s (0, 0) * s (0, 1)).sign = 0) ∧
    (∑ s ∈ allSpins (Fin 2 × Fin 2), (s (1, 0)).sign = 0) ∧
    (∑ s ∈ allSpins (Fin 2 × Fin 2), (s (0, 0) * s (0, 1)).sign * (s (1, 0)).sign = 0) ∧
    ∑ s ∈ allSpins (Fin 2 × Fin 2), (s (0, 0) * s (0, 1)).sign * ((gridBonds 2 2 false).map fun b => s b.1 * s b.2).sum = 16 := by
  decide +kernel

theorem swung_sum (θ : ℝ) : ∑ s ∈ allSpins (Fin 2 × Fin 2), swung θ s = 1 := by
  obtain ⟨h1, h2, -⟩ := sums
  have h1' := congrArg (Int.cast (R := ℝ)) h1
  have h2' := congrArg (Int.cast (R := ℝ)) h2
  rw [Int.cast_sum] at h1' h2'
  have h : ∀ s, swung θ s = 1 / 16 * ((1 : ℤ) : ℝ) + 1 / 32 * Real.sin θ * (((s (0, 0) * s (0, 1)).sign : ℤ) : ℝ) := fun s => by
    unfold swung swinging.sgn
    push_cast
    ring
  simp only [h]
  rw [Finset.sum_add_distrib, ← Finset.mul_sum, ← Finset.mul_sum, h1', h2']
  norm_num

theorem swinging_normalized (θ : Fin 1 → ℝ) : Normalized (swinging θ) := by
  unfold Normalized
  rw [← sum_onSquareR fun s : Config (Square 2) => ‖(swinging θ s).exp‖ ^ 2]
  obtain ⟨h1, h2, h3, h4, -⟩ := sums
  have h1' := congrArg (Int.cast (R := ℝ)) h1
  have h2' := congrArg (Int.cast (R := ℝ)) h2
  have h3' := congrArg (Int.cast (R := ℝ)) h3
  have h4' := congrArg (Int.cast (R := ℝ)) h4
  rw [Int.cast_sum] at h1' h2' h3' h4'
  have h : ∀ s : Config (Fin 2 × Fin 2), ‖(swinging θ (onSquare s)).exp‖ ^ 2 =
      1 / 16 * ((1 : ℤ) : ℝ) + 1 / 32 * Real.sin (θ 0) * (((s (0, 0) * s (0, 1)).sign : ℤ) : ℝ) +
        1 / 32 * (((s (1, 0)).sign : ℤ) : ℝ) + 1 / 64 * Real.sin (θ 0) * (((s (0, 0) * s (0, 1)).sign * (s (1, 0)).sign : ℤ) : ℝ) := fun s => by
    have p1 := swing_bound (θ 0) (s (0, 0) * s (0, 1))
    have p2 := lean_bound (s (1, 0))
    have q1 : 0 < 1 / 16 * (1 + 1 / 2 * Real.sin (θ 0) * swinging.sgn (s (0, 0) * s (0, 1))) * (1 + 1 / 2 * swinging.sgn (s (1, 0))) := by
      have : 0 < 1 + 1 / 2 * Real.sin (θ 0) * swinging.sgn (s (0, 0) * s (0, 1)) := by linarith
      have : 0 < 1 + 1 / 2 * swinging.sgn (s (1, 0)) := by linarith
      positivity
    have e1 : swinging θ (onSquare s) = ⟨some (0.5 * Real.log (1 / 16 * (1 + 1 / 2 * Real.sin (θ 0) *
        swinging.sgn (s (0, 0) * s (0, 1))) * (1 + 1 / 2 * swinging.sgn (s (1, 0))))), 0⟩ := by
      unfold swinging onSquare
      simp
    rw [e1]
    unfold LogAmp.exp expReal
    simp only [Complex.ofReal_zero, zero_mul, Complex.exp_zero, mul_one, Complex.norm_real, Real.norm_eq_abs, sq_abs]
    rw [exp_half_log q1]
    unfold swinging.sgn
    push_cast
    ring
  simp only [h]
  rw [Finset.sum_add_distrib, Finset.sum_add_distrib, Finset.sum_add_distrib, ← Finset.mul_sum, ← Finset.mul_sum, ← Finset.mul_sum,
    ← Finset.mul_sum, h1', h2', h3', h4']
  norm_num

theorem swung_deriv (θ : ℝ) (s : Config (Fin 2 × Fin 2)) :
    HasDerivAt (fun t => ((0.5 * Real.log (swung t s) : ℝ) : ℂ))
      ((0.5 * (1 / 32 * Real.cos θ * swinging.sgn (s (0, 0) * s (0, 1)) / swung θ s) : ℝ) : ℂ) θ := by
  have h1 : HasDerivAt (fun t => swung t s) (1 / 32 * Real.cos θ * swinging.sgn (s (0, 0) * s (0, 1))) θ := by
    unfold swung
    have := ((((Real.hasDerivAt_sin θ).const_mul (1 / 2)).mul_const (swinging.sgn (s (0, 0) * s (0, 1)))).const_add 1).const_mul (1 / 16)
    refine this.congr_deriv ?_
    ring
  exact ((h1.log (by linarith [swung_pos θ s])).const_mul 0.5).ofReal_comp

/-- Its derivative by the weight. -/
noncomputable def swungD (θ : Fin 1 → ℝ) (s : Config (Fin 2 × Fin 2)) : ℂ :=
  ((0.5 * (1 / 32 * Real.cos (θ 0) * swinging.sgn (s (0, 0) * s (0, 1)) / swung (θ 0) s) : ℝ) : ℂ)

theorem nested_deriv (θ : Fin 1 → ℝ) (k : Fin 1) (s : Config (Fin 2 × Fin 2)) :
    HasDerivAt (fun t => nestedLog (swinging (Function.update θ k t)) [.flips true] s) (swungD θ s) (θ k) := by
  rw [Subsingleton.elim k 0]
  simp only [nested_swinging, Function.update_self]
  exact swung_deriv (θ 0) s

theorem swungD_bound (θ : Fin 1 → ℝ) (s : Config (Fin 2 × Fin 2)) : ‖swungD θ s‖ ≤ 1 := by
  have h := swung_pos (θ 0) s
  have h0 : 0 < swung (θ 0) s := by linarith
  unfold swungD
  rw [Complex.norm_real, Real.norm_eq_abs, abs_mul, abs_div, abs_mul, abs_mul, abs_of_pos h0]
  have h1 : |Real.cos (θ 0)| * |swinging.sgn (s (0, 0) * s (0, 1))| ≤ 1 :=
    mul_le_one₀ (Real.abs_cos_le_one _) (abs_nonneg _) (sgn_bound _)
  have h2 : |(1 : ℝ) / 32| * |Real.cos (θ 0)| * |swinging.sgn (s (0, 0) * s (0, 1))| / swung (θ 0) s ≤ 1 := by
    rw [div_le_one h0, abs_of_pos (by norm_num : (0 : ℝ) < 1 / 32)]
    linarith
  rw [abs_of_pos (by norm_num : (0 : ℝ) < 0.5)]
  linarith

theorem swinging_energy (θ : Fin 1 → ℝ) :
    energyAt (tfim (gridBonds 2 2 false) 0 1) (fun θ => nestedLog (swinging θ) [.flips true]) θ = -(1 / 2) * Real.sin (θ 0) := by
  have hn : ∀ s, ‖Complex.exp (nestedLog (swinging θ) [.flips true] s)‖ ^ 2 = swung (θ 0) s := fun s => by
    rw [nested_swinging, ← Complex.ofReal_exp, Complex.norm_real, Real.norm_eq_abs, sq_abs, exp_half_log (by linarith [swung_pos (θ 0) s])]
  have hb : ∀ s, Energy.born (nestedLog (swinging θ) [.flips true]) s = swung (θ 0) s := fun s => by
    unfold Energy.born
    simp only [hn]
    rw [swung_sum, div_one]
  have hl : ∀ s, localEnergy (tfim (gridBonds 2 2 false) 0 1) (nestedLog (swinging θ) [.flips true]) s =
      ((-(((gridBonds 2 2 false).map fun b => s b.1 * s b.2).sum : ℤ) : ℝ) : ℂ) := fun s => by
    have hne := Complex.exp_ne_zero (nestedLog (swinging θ) [.flips true] s)
    have hs : ∀ l : List ((Fin 2 × Fin 2) × (Fin 2 × Fin 2)), ∀ ψ : Wave (Fin 2 × Fin 2),
        (l.map fun b => pauliZ b.1 (pauliZ b.2 ψ) s).sum = ((l.map fun b => s b.1 * s b.2).sum : ℤ) * ψ s := by
      intro l ψ
      induction l with
      | nil => simp
      | cons b l ih =>
        rw [List.map_cons, List.sum_cons, ih, List.map_cons, List.sum_cons]
        unfold pauliZ
        push_cast
        ring
    unfold localEnergy tfim
    rw [hs]
    simp only [Complex.ofReal_zero, zero_mul, sub_zero, Complex.ofReal_one, Complex.ofReal_neg, Complex.ofReal_intCast]
    field_simp
  obtain ⟨-, -, -, -, h5⟩ := sums
  have h5' := congrArg (Int.cast (R := ℝ)) h5
  have h6 : ∑ s ∈ allSpins (Fin 2 × Fin 2), ((gridBonds 2 2 false).map fun b => s b.1 * s b.2).sum = 0 := by decide +kernel
  have h6' := congrArg (Int.cast (R := ℝ)) h6
  rw [Int.cast_sum] at h5' h6'
  unfold energyAt
  rw [rayleigh_born]
  simp only [hb, hl]
  rw [Complex.re_sum]
  simp only [← Complex.ofReal_mul, Complex.ofReal_re]
  have h : ∀ s : Config (Fin 2 × Fin 2), swung (θ 0) s * -((((gridBonds 2 2 false).map fun b => s b.1 * s b.2).sum : ℤ) : ℝ) =
      -(1 / 16) * ((((gridBonds 2 2 false).map fun b => s b.1 * s b.2).sum : ℤ) : ℝ) + -(1 / 32) * Real.sin (θ 0) *
        (((s (0, 0) * s (0, 1)).sign * ((gridBonds 2 2 false).map fun b => s b.1 * s b.2).sum : ℤ) : ℝ) := fun s => by
    unfold swung swinging.sgn
    push_cast
    ring
  simp only [h]
  rw [Finset.sum_add_distrib, ← Finset.mul_sum, ← Finset.mul_sum, h5', h6']
  push_cast
  ring

theorem swinging_slope (θ : Fin 1 → ℝ) (k : Fin 1) :
    Training.slope (tfim (gridBonds 2 2 false) 0 1) (fun θ => nestedLog (swinging θ) [.flips true]) θ k = -(1 / 2) * Real.cos (θ 0) := by
  unfold Training.slope
  rw [Subsingleton.elim k 0]
  simp only [swinging_energy, Function.update_self]
  exact ((Real.hasDerivAt_sin (θ 0)).const_mul _).deriv

/-- Batches of four samples of the base model, mini-batches of two whose gradients are averaged, and the learning rate 1: the
rate is low enough and the energy of the symmetrised model is not at rest. -/
example : ∃ S : (Fin 1 → ℝ) → (Fin 4 → ℝ) → Fin 4 → Config (Fin 2 × Fin 2),
    (∀ θ s, (swinging θ s).re.isSome) ∧ (∀ θ, Normalized (swinging θ)) ∧
    (∀ θ, Independent (Measure.pi fun _ : Fin 4 => Autoregressive.unif) (baseLog (swinging θ)) (S θ)) ∧
    (some 2).getD 4 ∣ 4 ∧
    (∀ s, IsSpin s → Differentiable ℝ fun θ => nestedLog (swinging θ) [.flips true] s) ∧
    (∀ (θ : Fin 1 → ℝ) k s, IsSpin s →
      HasDerivAt (fun t => nestedLog (swinging (Function.update θ k t)) [.flips true] s) (swungD θ s) (θ k)) ∧
    (∀ (θ : Fin 1 → ℝ) k s c, IsSpin s → HasDerivAt (fun t => Exact.loss c (nestedLog (swinging (Function.update θ k t)) [.flips true] s))
      (2 * (swungD θ s * c).re) (θ k)) ∧
    (∀ (θ : Fin 1 → ℝ) s, IsSpin s → ‖swungD θ s‖ ≤ 1) ∧
    (∃ W, LengthBound (tfim (gridBonds 2 2 false) 0 1) W) ∧
    SlopeBound (tfim (gridBonds 2 2 false) 0 1) (fun θ => nestedLog (swinging θ) [.flips true]) (1 / 2) ∧
    (1 : ℝ) * (if (⟨false, 0⟩ : AccConfig).accumulateSum then ((4 / (some 2).getD 4 : Nat) : ℝ) else 1) / (4 : Nat) * (1 / 2) ≤
      1 - 1 / (4 : Nat) ∧
    Training.slope (tfim (gridBonds 2 2 false) 0 1) (fun θ => nestedLog (swinging θ) [.flips true]) (fun _ => 0) 0 ≠ 0 := by
  choose S _ hS using fun θ : Fin 1 → ℝ => C154_wave_function (B := 4) (finProdFinEquiv (m := 2) (n := 2)) (baseLog (swinging θ)) _ le_rfl
  refine ⟨S, fun _ _ => rfl, swinging_normalized, hS, by decide, fun s _ θ => ?_, fun θ k s _ => nested_deriv θ k s, fun θ k s c _ => ?_,
    fun θ s _ => swungD_bound θ s, ⟨_, C145_noise_bounded (Exact.rowsOf_ising_grid 2 2 0 1 false) _
      fun s _ ψ => C06_ising_grid 0 1 false (fun _ : Fin 1 => s) 0 ψ⟩, ⟨by norm_num, fun θ θ' => ?_⟩, by norm_num, ?_⟩
  · simp only [nested_swinging]
    exact DifferentiableAt.comp (g := fun t => ((0.5 * Real.log (swung t s) : ℝ) : ℂ)) (f := fun θ : Fin 1 → ℝ => θ 0) θ
      (swung_deriv (θ 0) s).differentiableAt (differentiableAt_apply 0 θ)
  · unfold Exact.loss
    exact (Complex.reCLM.hasFDerivAt.comp_hasDerivAt (θ k) ((nested_deriv θ k s).mul_const c)).const_mul (2 : ℝ)
  · simp only [swinging_slope, Fin.sum_univ_one]
    have h1 := Real.abs_cos_sub_cos_le (θ 0) (θ' 0)
    have h2 := sq_le_sq' (by linarith [abs_nonneg (Real.cos (θ 0) - Real.cos (θ' 0)), abs_nonneg (θ 0 - θ' 0)]) h1
    rw [sq_abs, sq_abs] at h2
    nlinarith
  · rw [swinging_slope]
    simp

end Verif.Ensemble
