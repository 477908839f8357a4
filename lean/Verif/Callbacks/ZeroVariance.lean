import Verif.Callbacks.RelativeError

/-!
C126: the variance of the local energies that is reported measures the distance from the eigenstates.

`exact_evaluate` reports `Σ |ψ|² (Re E_loc - E)²` (exact_variational.py 91-95): the imaginary parts of the
local energies are dropped. For wave functions that are real up to a common factor nothing is lost.
-/
namespace Verif.Callbacks

open Verif.Training Verif.Energy Verif.Energy.Exact Verif.Operators Matrix

variable {ι : Type} [Fintype ι] [DecidableEq ι]

/-! ### The specification -/

/-- The squared distance of `H ψ` from `E ψ`, in units of the squared norm of `ψ`: for `E = ⟨H⟩` the quantum
mechanical variance `⟨H²⟩ - ⟨H⟩²` of the energy in the state `ψ`. -/
noncomputable def residual (H : Wave ι → Wave ι) (ψ : Wave ι) (E : ℝ) : ℝ :=
  (∑ s ∈ allSpins ι, ‖H ψ s - E * ψ s‖ ^ 2) / ∑ s ∈ allSpins ι, ‖ψ s‖ ^ 2

/-- The wave function is real up to a common factor. -/
def RealUpToFactor (ψ : Wave ι) : Prop := ∃ c : ℂ, ∀ s, IsSpin s → ∃ r : ℝ, ψ s = c * r

/-- What C126 demands of the energy `E` and the variance `v` reported for the wave function `ψ`. -/
structure MeasuresDistance (H : Wave ι → Wave ι) (ψ : Wave ι) (E v : ℝ) : Prop where
  /-- The variance vanishes for eigenstates and only for these. -/
  zero : v = 0 ↔ ∃ lam, Eigenstate H lam ψ
  /-- An eigenvalue of the Hamiltonian lies within the square root of the variance of the energy. -/
  near : ∃ lam φ, Eigenstate H lam φ ∧ |lam - E| ≤ Real.sqrt v

/-! ### Linear algebra -/

theorem exists_lowest {S : ℕ} (hS : 0 < S) (A : Matrix (Fin S) (Fin S) ℂ) (hA : A.IsHermitian) :
    ∃ (mu : ℝ) (w : Fin S → ℂ), w ≠ 0 ∧ A *ᵥ w = (mu : ℂ) • w ∧
      ∀ (lam : ℝ) (v : Fin S → ℂ), v ≠ 0 → A *ᵥ v = (lam : ℂ) • v → mu ≤ lam := by
  have : Nonempty (Fin S) := ⟨⟨0, hS⟩⟩
  obtain ⟨i, hi⟩ := Finite.exists_min hA.eigenvalues
  refine ⟨hA.eigenvalues i, hA.eigenvectorBasis i, fun h0 => ?_, hA.mulVec_eigenvectorBasis i, ?_⟩
  · apply hA.eigenvectorBasis.orthonormal.ne_zero i
    ext k
    exact congrFun h0 k
  · intro lam v hne he
    have hmem : lam ∈ spectrum ℝ A := by
      rw [spectrum.mem_iff]
      rintro ⟨u, hu⟩
      have h0 : (u : Matrix (Fin S) (Fin S) ℂ) *ᵥ v = 0 := by
        rw [hu, sub_mulVec, he, Algebra.algebraMap_eq_smul_one, smul_mulVec, one_mulVec]
        ext x
        simp
      have h1 : (↑u⁻¹ : Matrix (Fin S) (Fin S) ℂ) *ᵥ ((u : Matrix (Fin S) (Fin S) ℂ) *ᵥ v) = v := by
        rw [mulVec_mulVec, Units.inv_mul, one_mulVec]
      rw [h0, mulVec_zero] at h1
      exact hne h1.symm
    rw [hA.spectrum_real_eq_range_eigenvalues] at hmem
    obtain ⟨k, hk⟩ := hmem
    rw [← hk]
    exact hi k

/-- Weinstein's bound for matrices: some eigenvalue lies as near to `E` as the residual says. -/
theorem weinstein {S : ℕ} (hS : 0 < S) (A : Matrix (Fin S) (Fin S) ℂ) (hA : A.IsHermitian) (E : ℝ) (v : Fin S → ℂ) :
    ∃ (lam : ℝ) (w : Fin S → ℂ), w ≠ 0 ∧ A *ᵥ w = (lam : ℂ) • w ∧
      (lam - E) ^ 2 * normSq v ≤ normSq (A *ᵥ v - (E : ℂ) • v) := by
  set D := A - (E : ℂ) • (1 : Matrix (Fin S) (Fin S) ℂ) with hD
  have hDH : D.IsHermitian := by
    refine hA.sub ?_
    unfold IsHermitian
    rw [conjTranspose_smul, conjTranspose_one]
    simp
  have hDv : ∀ u : Fin S → ℂ, D *ᵥ u = A *ᵥ u - (E : ℂ) • u := fun u => by
    rw [hD, sub_mulVec, smul_mulVec, one_mulVec]
  have hsq : (D * D).IsHermitian := by
    unfold IsHermitian
    rw [conjTranspose_mul, hDH.eq]
  have hform : ∀ u : Fin S → ℂ, star u ⬝ᵥ ((D * D) *ᵥ u) = ((normSq (D *ᵥ u) : ℝ) : ℂ) := fun u => by
    rw [← star_dot, ← mulVec_mulVec, star_mulVec, hDH.eq, dotProduct_mulVec]
  obtain ⟨mu, w, hw, hmu, hlow⟩ := exists_lowest hS (D * D) hsq
  have hq := quad_lower (D * D) hsq mu hlow v
  rw [hform, Complex.ofReal_re, hDv] at hq
  have hnw : 0 < normSq w := by
    obtain ⟨x, hx⟩ : ∃ x, w x ≠ 0 := by
      by_contra hcon
      push Not at hcon
      exact hw (funext hcon)
    exact Finset.sum_pos' (fun _ _ => by positivity) ⟨x, Finset.mem_univ x, by positivity⟩
  have hmu0 : 0 ≤ mu := by
    have h1 := hform w
    rw [hmu, dotProduct_smul, star_dot, smul_eq_mul, ← Complex.ofReal_mul, Complex.ofReal_inj] at h1
    have h2 : 0 ≤ normSq (D *ᵥ w) := Finset.sum_nonneg fun _ _ => by positivity
    by_contra hneg
    have := mul_neg_of_neg_of_pos (not_le.1 hneg) hnw
    linarith
  have hroot : Real.sqrt mu * Real.sqrt mu = mu := Real.mul_self_sqrt hmu0
  set u := D *ᵥ w + ((Real.sqrt mu : ℝ) : ℂ) • w with hu
  by_cases h0 : u = 0
  · refine ⟨E - Real.sqrt mu, w, hw, ?_, ?_⟩
    · have h1 : D *ᵥ w = -(((Real.sqrt mu : ℝ) : ℂ) • w) := eq_neg_of_add_eq_zero_left h0
      rw [hDv] at h1
      rw [sub_eq_iff_eq_add.1 h1]
      push_cast
      rw [sub_smul]
      abel
    · have : (E - Real.sqrt mu - E) ^ 2 = mu := by linear_combination hroot
      rwa [this]
  · refine ⟨E + Real.sqrt mu, u, h0, ?_, ?_⟩
    · have h1 : D *ᵥ u = ((Real.sqrt mu : ℝ) : ℂ) • u := by
        rw [hu, mulVec_add, mulVec_smul, mulVec_mulVec, hmu, smul_add, smul_smul, ← Complex.ofReal_mul, hroot, add_comm]
      rw [hDv] at h1
      rw [sub_eq_iff_eq_add.1 h1]
      push_cast
      rw [add_smul, add_comm]
    · have : (E + Real.sqrt mu - E) ^ 2 = mu := by linear_combination hroot
      rwa [this]

section
variable {N : ℕ} (e : ι ≃ Fin N) (hN : N ≤ 31)
  {op : (B : Nat) → (Fin B → Config ι) → Fin B → List (Row ι ℝ)} {R : ℕ} {rowsOf : Config ι → List (Row ι ℝ)}
  (h : RowsOf op R rowsOf) (H : Wave ι → Wave ι) (hH : ∀ s, IsSpin s → ∀ ψ, applyRows (rowsOf s) ψ = H ψ s)

include e hN h hH in
/-- Weinstein's bound for the Hamiltonian. -/
theorem weinstein_wave (ψ : Wave ι) (E : ℝ) :
    ∃ lam φ, Eigenstate H lam φ ∧
      (lam - E) ^ 2 * ∑ s ∈ allSpins ι, ‖ψ s‖ ^ 2 ≤ ∑ s ∈ allSpins ι, ‖H ψ s - E * ψ s‖ ^ 2 := by
  set M := opMatrix (spinSetup e op R) (fun s => pairs (rowsOf s)) with hM
  have hA : M.IsHermitian := opMatrix_hermitian e hN h
  obtain ⟨lam, w, hw, hev, hle⟩ := weinstein (by show 0 < 2 ^ N; positivity) M hA E fun y => ψ (spinState e y)
  obtain ⟨φ, hφ⟩ := wave_of e hN w
  have hφ' : (fun y : Fin (spinSetup e op R).S => φ (spinState e y)) = w := hφ
  refine ⟨lam, φ, (eigenstate_iff e hN h H hH _ _).2 ⟨by rwa [hφ'], by rwa [hφ']⟩, ?_⟩
  have h1 : normSq (fun y : Fin (spinSetup e op R).S => ψ (spinState e y)) = ∑ s ∈ allSpins ι, ‖ψ s‖ ^ 2 := normSq_eq e hN ψ
  have h2 : normSq (M *ᵥ (fun y => ψ (spinState e y)) - (E : ℂ) • fun y : Fin (spinSetup e op R).S => ψ (spinState e y))
      = ∑ s ∈ allSpins ι, ‖H ψ s - E * ψ s‖ ^ 2 := by
    rw [← normSq_eq e hN fun s => H ψ s - E * ψ s]
    congr 1
    funext y
    rw [Pi.sub_apply, mulVec_wave e hN h H hH]
    rfl
  rw [h1, h2] at hle
  exact hle

include h hH in
omit [Fintype ι] [DecidableEq ι] in
/-- The Hamiltonian is real: it maps wave functions that are real up to a factor to such functions. -/
theorem real_image (ψ : Wave ι) (c : ℂ) (hc : ∀ s, IsSpin s → ∃ r : ℝ, ψ s = c * r) (s : Config ι) (hs : IsSpin s) :
    ∃ r : ℝ, H ψ s = c * r := by
  rw [← hH s hs]
  unfold applyRows
  have := h.spins s hs
  generalize rowsOf s = rows at this
  induction rows with
  | nil => exact ⟨0, by simp⟩
  | cons r rows ih =>
    obtain ⟨a, ha⟩ := ih fun r hr => this r (List.mem_cons_of_mem _ hr)
    obtain ⟨b, hb⟩ := hc r.conn (this r List.mem_cons_self)
    refine ⟨r.mel * b + a, ?_⟩
    rw [List.map_cons, List.sum_cons, ha, hb]
    push_cast
    ring
end

/-! ### What is reported -/

/-- The variance that is reported is the variance of the energy without the part of the imaginary parts of
the local energies. -/
theorem variance_split (H : Wave ι → Wave ι) (net : Config ι → ℂ) (E : ℝ) :
    residual H (fun s => Complex.exp (net s)) E
      = (∑ s ∈ allSpins ι, born net s * ((H (fun s => Complex.exp (net s)) s / Complex.exp (net s)).re - E) ^ 2)
        + ∑ s ∈ allSpins ι, born net s * (H (fun s => Complex.exp (net s)) s / Complex.exp (net s)).im ^ 2 := by
  set ψ : Wave ι := fun s => Complex.exp (net s) with hψ
  unfold residual
  rw [Finset.sum_div, ← Finset.sum_add_distrib]
  refine Finset.sum_congr rfl fun s _ => ?_
  have hne : ψ s ≠ 0 := Complex.exp_ne_zero _
  have h1 : H ψ s - E * ψ s = (H ψ s / ψ s - E) * ψ s := by field_simp
  have h2 : Complex.exp (net s) = ψ s := rfl
  rw [h1, norm_mul, mul_pow, h2, ← Complex.normSq_eq_norm_sq (H ψ s / ψ s - E), Complex.normSq_apply]
  unfold born
  rw [h2, Complex.sub_re, Complex.sub_im, Complex.ofReal_re, Complex.ofReal_im, sub_zero]
  have h3 : ∑ t ∈ allSpins ι, ‖Complex.exp (net t)‖ ^ 2 = ∑ t ∈ allSpins ι, ‖ψ t‖ ^ 2 := rfl
  rw [h3]
  ring

/-- **C126**, what is reported for every network, also complex ones, whatever was evaluated before: the
variance of the energy less the weight of the imaginary parts of the local energies. -/
theorem C126_reported {N : ℕ} (e : ι ≃ Fin N) (hN : N ≤ 31)
    (op : (B : Nat) → (Fin B → Config ι) → Fin B → List (Row ι ℝ)) (R : ℕ) (rowsOf : Config ι → List (Row ι ℝ))
    (h : RowsOf op R rowsOf) (H : Wave ι → Wave ι) (hH : ∀ s, IsSpin s → ∀ ψ, applyRows (rowsOf s) ψ = H ψ s)
    (batch : ℕ) (hb : 0 < batch) (hacc : 2 ^ N ≤ batch ∨ batch ∣ 2 ^ N)
    (truth : Option ℝ) (inBatch : Bool) (nets : List (Config ι → ℂ)) (net : Config ι → ℂ) :
    let ψ : Wave ι := fun s => Complex.exp (net s)
    ∃ o, Obj.new (spinSetup e op R) batch = .ok o ∧
    ∃ L E v, exactEvaluate (nets.foldl Obj.update o) net (defaultExact truth inBatch) = .ok L ∧
      L.read "energy/energy" = some E ∧ L.read "energy/local_energy_variance" = some v ∧
      E = (Energy.rayleigh H ψ).re ∧
      v = residual H ψ E - (∑ s ∈ allSpins ι, ‖ψ s‖ ^ 2 * (H ψ s / ψ s).im ^ 2) / ∑ s ∈ allSpins ι, ‖ψ s‖ ^ 2 ∧
      0 ≤ v ∧ v ≤ residual H ψ E ∧ (∀ lam, Eigenstate H lam ψ → E = lam ∧ v = 0) := by
  intro ψ
  obtain ⟨o, ho, L, hL, hE, hv, -⟩ := C86_default e hN op R rowsOf h H hH batch hb hacc truth inBatch nets net
  have hs := variance_split H net (Energy.rayleigh H ψ).re
  have him : (∑ s ∈ allSpins ι, ‖ψ s‖ ^ 2 * (H ψ s / ψ s).im ^ 2) / ∑ s ∈ allSpins ι, ‖ψ s‖ ^ 2
      = ∑ s ∈ allSpins ι, born net s * (H ψ s / ψ s).im ^ 2 := by
    rw [Finset.sum_div]
    refine Finset.sum_congr rfl fun s _ => ?_
    unfold born
    ring
  have hborn : ∀ s, 0 ≤ born net s := fun s => div_nonneg (by positivity) (Callbacks.norm_sum_pos net).le
  refine ⟨o, ho, L, _, _, hL, hE, hv, rfl, ?_, ?_, ?_, ?_⟩
  · rw [him]; linarith
  · exact Finset.sum_nonneg fun s _ => mul_nonneg (hborn s) (by positivity)
  · have : 0 ≤ ∑ s ∈ allSpins ι, born net s * (H ψ s / ψ s).im ^ 2 :=
      Finset.sum_nonneg fun s _ => mul_nonneg (hborn s) (by positivity)
    linarith
  · rintro lam ⟨-, heig⟩
    have hlam : (Energy.rayleigh H ψ).re = lam := by
      rw [rayleigh_re, div_eq_iff (Callbacks.norm_sum_pos net).ne', Complex.re_sum, Finset.mul_sum]
      refine Finset.sum_congr rfl fun s hs => ?_
      rw [heig s ((mem_allSpins s).1 hs)]
      have h2 : (starRingEnd ℂ) (ψ s) * (lam * ψ s) = ((lam * ‖ψ s‖ ^ 2 : ℝ) : ℂ) := by
        push_cast
        rw [← Complex.conj_mul']
        ring
      rw [h2, Complex.ofReal_re]
    refine ⟨hlam, Finset.sum_eq_zero fun s hs => ?_⟩
    have hne : Complex.exp (net s) ≠ 0 := Complex.exp_ne_zero _
    have h3 : H ψ s / ψ s = lam := by
      rw [heig s ((mem_allSpins s).1 hs), mul_div_assoc, div_self hne, mul_one]
    have h4 : (H (fun s => Complex.exp (net s)) s / Complex.exp (net s)).re = lam := by
      rw [show H (fun s => Complex.exp (net s)) s / Complex.exp (net s) = lam from h3, Complex.ofReal_re]
    rw [h4]
    have hlam' : (Energy.rayleigh H fun s => Complex.exp (net s)).re = lam := hlam
    rw [hlam']
    simp

/-- **C126**, what holds: for wave functions that are real up to a common factor the reported variance vanishes
for eigenstates only, and an eigenvalue lies within its square root of the reported energy. -/
theorem C126_partial {N : ℕ} (e : ι ≃ Fin N) (hN : N ≤ 31)
    (op : (B : Nat) → (Fin B → Config ι) → Fin B → List (Row ι ℝ)) (R : ℕ) (rowsOf : Config ι → List (Row ι ℝ))
    (h : RowsOf op R rowsOf) (H : Wave ι → Wave ι) (hH : ∀ s, IsSpin s → ∀ ψ, applyRows (rowsOf s) ψ = H ψ s)
    (batch : ℕ) (hb : 0 < batch) (hacc : 2 ^ N ≤ batch ∨ batch ∣ 2 ^ N)
    (truth : Option ℝ) (inBatch : Bool) (nets : List (Config ι → ℂ)) (net : Config ι → ℂ)
    (hreal : RealUpToFactor fun s => Complex.exp (net s)) :
    ∃ o, Obj.new (spinSetup e op R) batch = .ok o ∧
    ∃ L E v, exactEvaluate (nets.foldl Obj.update o) net (defaultExact truth inBatch) = .ok L ∧
      L.read "energy/energy" = some E ∧ L.read "energy/local_energy_variance" = some v ∧
      MeasuresDistance H (fun s => Complex.exp (net s)) E v := by
  set ψ : Wave ι := fun s => Complex.exp (net s) with hψ
  obtain ⟨o, ho, L, E, v, hL, hE, hv, hE', hv', hnn, -, heig⟩ :=
    C126_reported e hN op R rowsOf h H hH batch hb hacc truth inBatch nets net
  obtain ⟨c, hc⟩ := hreal
  have hpos : 0 < ∑ s ∈ allSpins ι, ‖ψ s‖ ^ 2 := Callbacks.norm_sum_pos net
  have him : ∑ s ∈ allSpins ι, ‖ψ s‖ ^ 2 * (H ψ s / ψ s).im ^ 2 = 0 := by
    refine Finset.sum_eq_zero fun s hs => ?_
    obtain ⟨a, ha⟩ := real_image h H hH ψ c hc s ((mem_allSpins s).1 hs)
    obtain ⟨b, hb⟩ := hc s ((mem_allSpins s).1 hs)
    have hne : ψ s ≠ 0 := Complex.exp_ne_zero _
    have hb' : ψ s = c * b := hb
    have hc0 : c ≠ 0 := fun h0 => hne (by rw [hb', h0, zero_mul])
    have : H ψ s / ψ s = ((a / b : ℝ) : ℂ) := by
      rw [ha, hb', mul_div_mul_left _ _ hc0]
      push_cast
      rfl
    rw [this, Complex.ofReal_im]
    ring
  have hres : v = residual H ψ E := by
    have h1 : v = residual H ψ E - (∑ s ∈ allSpins ι, ‖ψ s‖ ^ 2 * (H ψ s / ψ s).im ^ 2) / ∑ s ∈ allSpins ι, ‖ψ s‖ ^ 2 := hv'
    rw [h1, him, zero_div, sub_zero]
  refine ⟨o, ho, L, E, v, hL, hE, hv, ⟨fun h0 => ⟨E, ⟨fun _ => 1, fun _ => Or.inl rfl, Complex.exp_ne_zero _⟩, fun s hs => ?_⟩,
    fun ⟨lam, hlam⟩ => (heig lam hlam).2⟩, ?_⟩
  · rw [hres, residual, div_eq_zero_iff, or_iff_left hpos.ne',
      Finset.sum_eq_zero_iff_of_nonneg fun _ _ => by positivity] at h0
    have := h0 s ((mem_allSpins s).2 hs)
    rw [sq_eq_zero_iff, norm_eq_zero, sub_eq_zero] at this
    exact this
  · obtain ⟨lam, φ, hφ, hle⟩ := weinstein_wave e hN h H hH ψ E
    refine ⟨lam, φ, hφ, Real.abs_le_sqrt ?_⟩
    rw [hres, residual, le_div_iff₀ hpos]
    exact hle

/-- What `C126_partial` says, for a model. -/
def VarianceMeasures {N : ℕ} (e : ι ≃ Fin N) (op : (B : Nat) → (Fin B → Config ι) → Fin B → List (Row ι ℝ)) (R : Nat)
    (H : Wave ι → Wave ι) : Prop :=
  ∀ batch, 0 < batch → (2 ^ N ≤ batch ∨ batch ∣ 2 ^ N) → ∀ (truth : Option ℝ) (inBatch : Bool)
    (nets : List (Config ι → ℂ)) (net : Config ι → ℂ), RealUpToFactor (fun s => Complex.exp (net s)) →
      ∃ o, Obj.new (spinSetup e op R) batch = .ok o ∧
      ∃ L E v, exactEvaluate (nets.foldl Obj.update o) net (defaultExact truth inBatch) = .ok L ∧
        L.read "energy/energy" = some E ∧ L.read "energy/local_energy_variance" = some v ∧
        MeasuresDistance H (fun s => Complex.exp (net s)) E v

/-- **C126** for the Ising model on chains. -/
theorem C126_ising_chain (n : Nat) (hn : n ≤ 31) (h j : ℝ) (pbc : Bool) :
    VarianceMeasures (Equiv.refl (Fin n)) (fun _ sample => isingFindConn1 (.float h) j pbc sample) (n + 1)
      (tfim (chainBonds n pbc) h j) :=
  C126_partial _ hn _ _ _ (rowsOf_ising_chain n h j pbc) _
    fun s _ ψ => C06_ising_chain h j pbc (fun _ : Fin 1 => s) 0 ψ

/-- **C126** for the Ising model on grids. -/
theorem C126_ising_grid (n m : Nat) (hn : n * m ≤ 31) (h j : ℝ) (pbc : Bool) :
    VarianceMeasures finProdFinEquiv (fun _ sample => isingFindConn2 (.float h) j pbc sample) (n * m + 1)
      (tfim (gridBonds n m pbc) h j) :=
  C126_partial _ hn _ _ _ (rowsOf_ising_grid n m h j pbc) _
    fun s _ ψ => C06_ising_grid h j pbc (fun _ : Fin 1 => s) 0 ψ

/-- **C126** for the Heisenberg model on grids. -/
theorem C126_heisenberg_grid (n m : Nat) (hn : n * m ≤ 31) (rot pbc : Bool) (history : List (Call n m)) :
    VarianceMeasures finProdFinEquiv
      (fun B sample => (((HeisOp.new2 n m rot pbc).run history).findConn B sample).2) (n * m * 2 + 1)
      (heisenberg (gridBonds n m pbc) (if rot then -1 else 1)) :=
  C126_partial _ hn _ _ _ (rowsOf_heisenberg_grid n m rot pbc history) _
    fun s hs ψ => applyRows_heisRows rot pbc 2 (Or.inl rfl) s hs ψ

/-- **C126** for the Heisenberg model on chains. -/
theorem C126_heisenberg_chain (n : Nat) (hn : n ≤ 31) (rot pbc : Bool) (history : List (Call n 1)) :
    VarianceMeasures (Equiv.refl (Fin n))
      (fun B sample => (((HeisOp.new1 n rot pbc).run history).findConn1 B sample).2) (n + 1)
      (heisenberg (chainBonds' n pbc) (if rot then -1 else 1)) :=
  C126_partial _ hn _ _ _ (rowsOf_heisenberg_chain n rot pbc history) _ fun s hs ψ => by
    have := C07_heisenberg_chain rot pbc history 1 (fun _ => s) 0 hs ψ
    rwa [answer1] at this

/-! ### Complex wave functions -/

/-- A network whose amplitude has a factor `i` for every spin that points down (all spins in the direction of
the y axis). -/
noncomputable def turnNet (s : Config ι) : ℂ := ∑ i, if s i = 1 then 0 else (Real.pi / 2 : ℂ) * Complex.I

omit [DecidableEq ι] in
theorem exp_turnNet (s : Config ι) : Complex.exp (turnNet s) = ∏ i, if s i = 1 then 1 else Complex.I := by
  unfold turnNet
  rw [Complex.exp_sum]
  refine Finset.prod_congr rfl fun i _ => ?_
  split_ifs
  · exact Complex.exp_zero
  · exact Complex.exp_pi_div_two_mul_I

theorem turn_flip (s : Config ι) (hs : IsSpin s) (i : ι) :
    Complex.exp (turnNet (Operators.flip i s)) = Complex.I * s i * Complex.exp (turnNet s) := by
  rw [exp_turnNet, exp_turnNet, ← Finset.mul_prod_erase Finset.univ _ (Finset.mem_univ i),
    ← Finset.mul_prod_erase Finset.univ (fun i => if s i = 1 then (1 : ℂ) else Complex.I) (Finset.mem_univ i)]
  have h1 : ∏ k ∈ Finset.univ.erase i, (if Operators.flip i s k = 1 then (1 : ℂ) else Complex.I)
      = ∏ k ∈ Finset.univ.erase i, if s k = 1 then (1 : ℂ) else Complex.I := by
    refine Finset.prod_congr rfl fun k hk => ?_
    unfold Operators.flip
    rw [Function.update_of_ne (Finset.ne_of_mem_erase hk)]
  have h2 : Operators.flip i s i = -s i := Function.update_self ..
  rw [h1, h2]
  rcases hs i with h | h <;> rw [h]
  · norm_num
  · norm_num
    rw [← mul_assoc, Complex.I_mul_I]
    ring

theorem tfim_turn (bonds : List (ι × ι)) (h : ℝ) (s : Config ι) (hs : IsSpin s) :
    tfim bonds h 0 (fun s => Complex.exp (turnNet s)) s / Complex.exp (turnNet s)
      = ((-(h * ∑ i, (s i : ℝ)) : ℝ) : ℂ) * Complex.I := by
  have hne := Complex.exp_ne_zero (turnNet s)
  unfold tfim pauliX
  simp only [turn_flip s hs]
  rw [div_eq_iff hne, ← Finset.sum_mul, ← Finset.mul_sum]
  push_cast
  ring

/-- **C126** is violated by complex wave functions: for the Ising model without coupling on a chain of any
number of sites there is a network that is no eigenstate, and `exact_evaluate` reports the energy 0 with the
variance 0. -/
theorem C126_violated (n : ℕ) (hn : n ≤ 31) (hn0 : 0 < n) (h : ℝ) (hh : h ≠ 0) (pbc : Bool) (batch : ℕ) (hb : 0 < batch)
    (hacc : 2 ^ n ≤ batch ∨ batch ∣ 2 ^ n) (truth : Option ℝ) (inBatch : Bool) (nets : List (Config (Fin n) → ℂ)) :
    ∃ net : Config (Fin n) → ℂ,
      (¬ ∃ lam, Eigenstate (tfim (chainBonds n pbc) h 0) lam fun s => Complex.exp (net s)) ∧
      ∃ o, Obj.new (spinSetup (Equiv.refl (Fin n)) (fun _ sample => isingFindConn1 (.float h) 0 pbc sample) (n + 1)) batch
          = .ok o ∧
        ∃ L, exactEvaluate (nets.foldl Obj.update o) net (defaultExact truth inBatch) = .ok L ∧
          L.read "energy/energy" = some 0 ∧ L.read "energy/local_energy_variance" = some 0 := by
  refine ⟨turnNet, ?_, ?_⟩
  · rintro ⟨lam, -, heig⟩
    have h1 := tfim_turn (chainBonds n pbc) h (fun _ => 1) (fun _ => Or.inl rfl)
    rw [heig _ fun _ => Or.inl rfl, mul_div_assoc, div_self (Complex.exp_ne_zero _)] at h1
    have h2 := congrArg Complex.im h1
    simp only [mul_one, Complex.ofReal_im, Complex.im_ofReal_mul, Complex.I_im, Int.cast_one, Finset.sum_const,
      Finset.card_univ, Fintype.card_fin, nsmul_eq_mul] at h2
    have : (n : ℝ) ≠ 0 := by exact_mod_cast hn0.ne'
    have := mul_ne_zero hh this
    exact this (by linarith)
  · have hloc : ∀ s : Config (Fin n), IsSpin s →
        (tfim (chainBonds n pbc) h 0 (fun s => Complex.exp (turnNet s)) s / Complex.exp (turnNet s)).re = 0 := fun s hs => by
      rw [tfim_turn _ _ s hs]
      simp
    have hE : (Energy.rayleigh (tfim (chainBonds n pbc) h 0) fun s => Complex.exp (turnNet s)).re = 0 := by
      rw [Energy.rayleigh_born, Complex.re_sum]
      refine Finset.sum_eq_zero fun s hs => ?_
      rw [Complex.re_ofReal_mul]
      unfold localEnergy
      rw [hloc s ((mem_allSpins s).1 hs), mul_zero]
    obtain ⟨o, ho, L, hL, hE', hv', -⟩ := C86_default (Equiv.refl (Fin n)) hn _ _ _ (rowsOf_ising_chain n h 0 pbc) _
      (fun s _ ψ => C06_ising_chain h 0 pbc (fun _ : Fin 1 => s) 0 ψ) batch hb hacc truth inBatch nets turnNet
    refine ⟨o, ho, L, hL, by rw [hE', hE], ?_⟩
    rw [hv']
    congr 1
    refine Finset.sum_eq_zero fun s hs => ?_
    rw [hloc s ((mem_allSpins s).1 hs), hE]
    ring

/-- **C126** is violated by complex wave functions also for the bound on the energies: for one site in the
field `h` the energy 0 is reported with the variance 0, but every eigenvalue is `h` or `-h`. -/
theorem C126_violated_near (h : ℝ) (pbc : Bool) (batch : ℕ) (hb : 0 < batch)
    (hacc : 2 ^ 1 ≤ batch ∨ batch ∣ 2 ^ 1) (truth : Option ℝ) (inBatch : Bool) (nets : List (Config (Fin 1) → ℂ)) (hh : h ≠ 0) :
    (∃ net : Config (Fin 1) → ℂ,
      ∃ o, Obj.new (spinSetup (Equiv.refl (Fin 1)) (fun _ sample => isingFindConn1 (.float h) 0 pbc sample) 2) batch
          = .ok o ∧
        ∃ L, exactEvaluate (nets.foldl Obj.update o) net (defaultExact truth inBatch) = .ok L ∧
          L.read "energy/energy" = some 0 ∧ L.read "energy/local_energy_variance" = some 0) ∧
    ∀ lam φ, Eigenstate (tfim (chainBonds 1 pbc) h 0) lam φ → |lam - 0| = |h| := by
  refine ⟨?_, ?_⟩
  · obtain ⟨net, -, ho⟩ := C126_violated 1 (by norm_num) one_pos h hh pbc batch hb hacc truth inBatch nets
    exact ⟨net, ho⟩
  · rintro lam φ ⟨⟨s, hs, hne⟩, heig⟩
    have htf : ∀ s, tfim (chainBonds 1 pbc) h 0 φ s = -h * φ (Operators.flip 0 s) := fun s => by
      unfold tfim pauliX
      simp
    have h1 := heig s hs
    have h2 := heig _ (flip_spin hs 0)
    rw [htf] at h1 h2
    rw [Operators.flip_flip] at h2
    have h3 : ((lam : ℂ) ^ 2 - h ^ 2) * φ s = 0 := by linear_combination (-(lam : ℂ)) * h1 + h * h2
    have h4 : ((lam : ℂ) ^ 2 - h ^ 2) = 0 := by
      rcases mul_eq_zero.1 h3 with h | h
      · exact h
      · exact absurd h hne
    have h5 : lam ^ 2 = h ^ 2 := by
      have : ((lam ^ 2 - h ^ 2 : ℝ) : ℂ) = 0 := by push_cast; exact h4
      have := Complex.ofReal_eq_zero.1 this
      linarith
    rw [sub_zero]
    exact (sq_eq_sq_iff_abs_eq_abs _ _).1 h5

/-- The hypothesis of `C126_partial` on the network is met by networks with real output, for instance. -/
example (f : Config (Fin 3) → ℝ) : RealUpToFactor fun s => Complex.exp ((f s : ℝ) : ℂ) :=
  ⟨1, fun s _ => ⟨Real.exp (f s), by push_cast; rw [one_mul]⟩⟩

end Verif.Callbacks
