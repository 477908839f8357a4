import Verif.Callbacks.Exact
import Verif.Energy.Unbiased
import Mathlib.Analysis.Matrix.Order

/-!
C115: the relative error that the callbacks report is the distance of the energy from the ground energy.
-/
namespace Verif.Callbacks

open Verif.Training Verif.Energy Verif.Energy.Exact Verif.Operators Matrix

variable {ι : Type} [Fintype ι] [DecidableEq ι]

/-- `φ` is an eigenstate of `H` for the value `lam`: not zero, and `H φ = lam φ` on all spin configurations. -/
def Eigenstate (H : Wave ι → Wave ι) (lam : ℝ) (φ : Wave ι) : Prop :=
  (∃ s, IsSpin s ∧ φ s ≠ 0) ∧ ∀ s, IsSpin s → H φ s = (lam : ℂ) * φ s

/-- `E0` is the ground energy of `H`: its lowest eigenvalue. -/
def GroundEnergy (H : Wave ι → Wave ι) (E0 : ℝ) : Prop :=
  (∃ φ, Eigenstate H E0 φ) ∧ ∀ lam φ, Eigenstate H lam φ → E0 ≤ lam

section
variable {N : ℕ} (e : ι ≃ Fin N) (hN : N ≤ 31)
  {op : (B : Nat) → (Fin B → Config ι) → Fin B → List (Row ι ℝ)} {R : ℕ} {rowsOf : Config ι → List (Row ι ℝ)}
  (h : RowsOf op R rowsOf) (H : Wave ι → Wave ι) (hH : ∀ s, IsSpin s → ∀ ψ, applyRows (rowsOf s) ψ = H ψ s)

include hN h hH in
theorem mulVec_wave (ψ : Wave ι) (x : Fin (spinSetup e op R).S) :
    (opMatrix (spinSetup e op R) (fun s => pairs (rowsOf s)) *ᵥ fun y => ψ (spinState e y)) x = H ψ (spinState e x) := by
  rw [← hH _ (spinState_spin e x)]
  exact opMatrix_mulVec e hN h ψ x

include hN in
/-- Every vector of the matrix is the restriction of a wave function. -/
theorem wave_of (v : Fin (2 ^ N) → ℂ) : ∃ ψ : Wave ι, (fun y : Fin (2 ^ N) => ψ (spinState e y)) = v :=
  ⟨fun s => v ⟨spinCode e s, spinCode_lt e hN s⟩, funext fun y =>
    congrArg v (Fin.ext (spinCode_state e hN y y.isLt))⟩

include hN in
theorem spin_state (s : Config ι) (hs : IsSpin s) : ∃ x : Fin (2 ^ N), spinState e x = s :=
  ⟨⟨spinCode e s, spinCode_lt e hN s⟩, spinState_code e hN s hs⟩

include hN h hH in
theorem eigenstate_iff (lam : ℝ) (ψ : Wave ι) : Eigenstate H lam ψ ↔
    (fun y : Fin (spinSetup e op R).S => ψ (spinState e y)) ≠ 0 ∧
    opMatrix (spinSetup e op R) (fun s => pairs (rowsOf s)) *ᵥ (fun y => ψ (spinState e y))
      = (lam : ℂ) • fun y : Fin (spinSetup e op R).S => ψ (spinState e y) := by
  constructor
  · rintro ⟨⟨s, hs, hne⟩, he⟩
    refine ⟨fun h0 => ?_, funext fun x => ?_⟩
    · obtain ⟨x, hx⟩ := spin_state e hN s hs
      exact hne (hx ▸ congrFun h0 x)
    · rw [mulVec_wave e hN h H hH, he _ (spinState_spin e x)]
      rfl
  · rintro ⟨hne, he⟩
    refine ⟨?_, fun s hs => ?_⟩
    · by_contra hcon
      refine hne (funext fun x => ?_)
      by_contra hx
      exact hcon ⟨_, spinState_spin e x, hx⟩
    · obtain ⟨x, hx⟩ := spin_state e hN s hs
      rw [← hx]
      exact (mulVec_wave e hN h H hH ψ x).symm.trans (congrFun he x)

include e hN h hH in
/-- Every operator given by rows has a ground energy. -/
theorem exists_ground : ∃ E0, GroundEnergy H E0 := by
  set M := opMatrix (spinSetup e op R) (fun s => pairs (rowsOf s)) with hM
  have hA : M.IsHermitian := opMatrix_hermitian e hN h
  have : Nonempty (Fin (spinSetup e op R).S) := ⟨⟨0, by show 0 < 2 ^ N; positivity⟩⟩
  obtain ⟨i, hi⟩ := Finite.exists_min hA.eigenvalues
  refine ⟨hA.eigenvalues i, ?_, ?_⟩
  · obtain ⟨ψ, hψ⟩ := wave_of e hN (hA.eigenvectorBasis i : Fin (spinSetup e op R).S → ℂ)
    refine ⟨ψ, (eigenstate_iff e hN h H hH _ _).2 ?_⟩
    have hψ' : (fun y : Fin (spinSetup e op R).S => ψ (spinState e y)) = (hA.eigenvectorBasis i : Fin (spinSetup e op R).S → ℂ) := hψ
    rw [hψ']
    refine ⟨fun h0 => ?_, hA.mulVec_eigenvectorBasis i⟩
    have h1 := hA.eigenvectorBasis.orthonormal.ne_zero i
    apply h1
    ext k
    exact congrFun h0 k
  · intro lam φ hφ
    obtain ⟨hne, he⟩ := (eigenstate_iff e hN h H hH _ _).1 hφ
    have hmem : lam ∈ spectrum ℝ M := by
      rw [spectrum.mem_iff]
      rintro ⟨u, hu⟩
      set v : Fin (spinSetup e op R).S → ℂ := fun y => φ (spinState e y) with hv
      have h0 : (u : Matrix (Fin (spinSetup e op R).S) (Fin (spinSetup e op R).S) ℂ) *ᵥ v = 0 := by
        rw [hu, sub_mulVec, he, Algebra.algebraMap_eq_smul_one, smul_mulVec, one_mulVec]
        ext x
        simp
      have h1 : (↑u⁻¹ : Matrix (Fin (spinSetup e op R).S) (Fin (spinSetup e op R).S) ℂ) *ᵥ ((u : Matrix (Fin (spinSetup e op R).S) (Fin (spinSetup e op R).S) ℂ) *ᵥ v) = v := by
        rw [mulVec_mulVec, Units.inv_mul, one_mulVec]
      rw [h0, mulVec_zero] at h1
      exact hne h1.symm
    rw [hA.spectrum_real_eq_range_eigenvalues] at hmem
    obtain ⟨k, hk⟩ := hmem
    rw [← hk]
    exact hi k

include hN h hH in
theorem form_eq (ψ : Wave ι) :
    star (fun y : Fin (spinSetup e op R).S => ψ (spinState e y)) ⬝ᵥ
      (opMatrix (spinSetup e op R) (fun s => pairs (rowsOf s)) *ᵥ fun y => ψ (spinState e y))
      = ∑ s ∈ allSpins ι, (starRingEnd ℂ) (ψ s) * H ψ s := by
  rw [← sum_states e hN]
  unfold dotProduct
  refine Finset.sum_congr rfl fun x _ => ?_
  rw [mulVec_wave e hN h H hH]
  rfl

theorem normSq_eq (hN : N ≤ 31) (ψ : Wave ι) :
    normSq (fun y : Fin (2 ^ N) => ψ (spinState e y)) = ∑ s ∈ allSpins ι, ‖ψ s‖ ^ 2 := by
  rw [← sum_states_real e hN]
  unfold normSq
  exact Finset.sum_congr rfl fun x _ => by first | rfl | rw [Complex.normSq_eq_norm_sq]

include e hN h hH in
/-- The variational principle, with equality for ground states only. -/
theorem ground_le (E0 : ℝ) (hg : GroundEnergy H E0) (ψ : Wave ι) :
    E0 * ∑ s ∈ allSpins ι, ‖ψ s‖ ^ 2 ≤ (∑ s ∈ allSpins ι, (starRingEnd ℂ) (ψ s) * H ψ s).re ∧
    (E0 * ∑ s ∈ allSpins ι, ‖ψ s‖ ^ 2 = (∑ s ∈ allSpins ι, (starRingEnd ℂ) (ψ s) * H ψ s).re →
      ∀ s, IsSpin s → H ψ s = (E0 : ℂ) * ψ s) := by
  set M := opMatrix (spinSetup e op R) (fun s => pairs (rowsOf s)) with hM
  have hA : M.IsHermitian := opMatrix_hermitian e hN h
  have hlow : ∀ (lam : ℝ) (v : Fin (spinSetup e op R).S → ℂ), v ≠ 0 → M *ᵥ v = (lam : ℂ) • v → E0 ≤ lam := by
    intro lam v hv hev
    obtain ⟨φ, hφ⟩ := wave_of e hN v
    have hφ' : (fun y : Fin (spinSetup e op R).S => φ (spinState e y)) = v := hφ
    exact hg.2 lam φ ((eigenstate_iff e hN h H hH _ _).2 ⟨by rwa [hφ'], by rwa [hφ']⟩)
  set v : Fin (spinSetup e op R).S → ℂ := fun y => ψ (spinState e y) with hv
  have hn : normSq v = ∑ s ∈ allSpins ι, ‖ψ s‖ ^ 2 := normSq_eq e hN ψ
  have hq := quad_lower M hA E0 hlow v
  rw [hn, form_eq e hN h H hH ψ] at hq
  refine ⟨hq, fun heq => ?_⟩
  have hpsd := psd_of_lower M hA E0 hlow
  have h1 : star v ⬝ᵥ ((M - (E0 : ℂ) • (1 : Matrix _ _ ℂ)) *ᵥ v) = 0 := by
    have him := hA.im_star_dotProduct_mulVec_self v
    rw [sub_mulVec, smul_mulVec, one_mulVec, dotProduct_sub, dotProduct_smul, star_dot, hn]
    apply Complex.ext
    · rw [form_eq e hN h H hH ψ, Complex.sub_re, ← heq]
      simp [← Complex.ofReal_sum, ← Complex.ofReal_pow]
    · have him' : (star v ⬝ᵥ M *ᵥ v).im = 0 := by simpa using him
      rw [Complex.sub_im, him']
      simp [← Complex.ofReal_sum, ← Complex.ofReal_pow]
  have h2 := (hpsd.dotProduct_mulVec_zero_iff v).1 h1
  intro s hs
  obtain ⟨x, hx⟩ := spin_state e hN s hs
  rw [sub_mulVec, smul_mulVec, one_mulVec, sub_eq_zero] at h2
  rw [← hx]
  exact (mulVec_wave e hN h H hH ψ x).symm.trans (congrFun h2 x)
end

theorem rayleigh_re (H : Wave ι → Wave ι) (ψ : Wave ι) :
    (Energy.rayleigh H ψ).re = (∑ s ∈ allSpins ι, (starRingEnd ℂ) (ψ s) * H ψ s).re / ∑ s ∈ allSpins ι, ‖ψ s‖ ^ 2 := by
  unfold Energy.rayleigh
  have : ∑ s ∈ allSpins ι, (starRingEnd ℂ) (ψ s) * ψ s = ((∑ s ∈ allSpins ι, ‖ψ s‖ ^ 2 : ℝ) : ℂ) := by
    push_cast
    exact Finset.sum_congr rfl fun s _ => Complex.conj_mul' _
  rw [this, Complex.div_ofReal_re]

/-! ### The theorem -/

/-- **C115**, what holds: if the ground energy `E0` is negative and given to the callbacks, then whatever was
evaluated before, `exact_evaluate` reports the distance of the energy of the current network from the ground
energy, in units of the ground energy; it is zero for ground states and only for these. -/
theorem C115_partial {N : ℕ} (e : ι ≃ Fin N) (hN : N ≤ 31)
    (op : (B : Nat) → (Fin B → Config ι) → Fin B → List (Row ι ℝ)) (R : ℕ) (rowsOf : Config ι → List (Row ι ℝ))
    (h : RowsOf op R rowsOf) (H : Wave ι → Wave ι) (hH : ∀ s, IsSpin s → ∀ ψ, applyRows (rowsOf s) ψ = H ψ s)
    (E0 : ℝ) (hg : GroundEnergy H E0) (hneg : E0 < 0)
    (batch : ℕ) (hb : 0 < batch) (hacc : 2 ^ N ≤ batch ∨ batch ∣ 2 ^ N)
    (inBatch : Bool) (nets : List (Config ι → ℂ)) (net : Config ι → ℂ) :
    let ψ : Wave ι := fun s => Complex.exp (net s)
    let E := (Energy.rayleigh H ψ).re
    ∃ o, Obj.new (spinSetup e op R) batch = .ok o ∧
    ∃ L r, exactEvaluate (nets.foldl Obj.update o) net (defaultExact (some E0) inBatch) = .ok L ∧
      L.read "energy/relative_error" = some r ∧
      r = |E - E0| / |E0| ∧ E0 ≤ E ∧ (r = 0 ↔ Eigenstate H E0 ψ) := by
  intro ψ E
  obtain ⟨o, ho, L, hL, -, -, hr, -⟩ := C86_default e hN op R rowsOf h H hH batch hb hacc (some E0) inBatch nets net
  obtain ⟨h1, h2⟩ := ground_le e hN h H hH E0 hg ψ
  have hpos : 0 < ∑ s ∈ allSpins ι, ‖ψ s‖ ^ 2 := Callbacks.norm_sum_pos net
  have hE : E = (∑ s ∈ allSpins ι, (starRingEnd ℂ) (ψ s) * H ψ s).re / ∑ s ∈ allSpins ι, ‖ψ s‖ ^ 2 := rayleigh_re H ψ
  have hle : E0 ≤ E := by rw [hE, le_div_iff₀ hpos]; exact h1
  have hr' : (E0 - E) / E0 = |E - E0| / |E0| := by
    rw [abs_of_nonneg (by linarith), abs_of_neg hneg, div_neg, ← neg_div]
    ring
  refine ⟨o, ho, L, _, hL, hr E0 rfl hneg.ne, hr', hle, ?_⟩
  rw [div_eq_zero_iff, or_iff_left hneg.ne, sub_eq_zero]
  constructor
  · intro heq
    refine ⟨⟨fun _ => 1, fun _ => Or.inl rfl, Complex.exp_ne_zero _⟩, h2 ?_⟩
    have heq' : E0 = E := heq
    rw [hE, eq_div_iff hpos.ne'] at heq'
    exact heq'
  · rintro ⟨-, heig⟩
    show E0 = E
    rw [hE, eq_div_iff hpos.ne']
    have : ∑ s ∈ allSpins ι, (starRingEnd ℂ) (ψ s) * H ψ s = ((E0 * ∑ s ∈ allSpins ι, ‖ψ s‖ ^ 2 : ℝ) : ℂ) := by
      push_cast
      rw [Finset.mul_sum]
      refine Finset.sum_congr rfl fun s hs => ?_
      rw [heig s ((mem_allSpins s).1 hs), ← Complex.conj_mul']
      ring
    rw [this, Complex.ofReal_re]

/-! ### The ground energies of the models that are shipped are negative -/

theorem sum_allSpins_flip (i : ι) (f : Config ι → ℝ) :
    ∑ s ∈ allSpins ι, f (Operators.flip i s) = ∑ s ∈ allSpins ι, f s := by
  refine Finset.sum_nbij' (Operators.flip i) (Operators.flip i) ?_ ?_ ?_ ?_ ?_
  · intro s hs; exact (mem_allSpins _).2 (flip_spin ((mem_allSpins s).1 hs) i)
  · intro s hs; exact (mem_allSpins _).2 (flip_spin ((mem_allSpins s).1 hs) i)
  · intro s _; exact flip_flip i s
  · intro s _; exact flip_flip i s
  · intro s _; rfl

theorem sum_pair {i j : ι} (hij : i ≠ j) : ∑ s ∈ allSpins ι, ((s i : ℝ) * s j) = 0 := by
  have h := sum_allSpins_flip i fun s => (s i : ℝ) * s j
  have h2 : ∀ s : Config ι, ((Operators.flip i s i : ℤ) : ℝ) * (Operators.flip i s j : ℤ) = -((s i : ℝ) * s j) := by
    intro s
    unfold Operators.flip
    rw [Function.update_self, Function.update_of_ne hij.symm]
    push_cast
    ring
  simp only [h2, Finset.sum_neg_distrib] at h
  linarith

/-- The energy `Σ_bonds s_a s_b`. -/
def bondSum (bonds : List (ι × ι)) (s : Config ι) : ℝ := (bonds.map fun b => (s b.1 : ℝ) * s b.2).sum

theorem sum_bondSum (bonds : List (ι × ι)) (hne : ∀ b ∈ bonds, b.1 ≠ b.2) : ∑ s ∈ allSpins ι, bondSum bonds s = 0 := by
  unfold bondSum
  induction bonds with
  | nil => simp
  | cons b bonds ih =>
    simp only [List.map_cons, List.sum_cons]
    rw [Finset.sum_add_distrib, sum_pair (hne b List.mem_cons_self), ih fun b' hb' => hne b' (List.mem_cons_of_mem _ hb'),
      add_zero]

/-- If the diagonal is `c` times the energy of the bonds, one of its entries is negative. -/
theorem diag_neg (bonds : List (ι × ι)) (hne : ∀ b ∈ bonds, b.1 ≠ b.2) (hb : bonds ≠ []) (c : ℝ) (hc : c ≠ 0) :
    ∃ s, IsSpin s ∧ c * bondSum bonds s < 0 := by
  by_contra hcon
  push Not at hcon
  have h0 : ∀ s ∈ allSpins ι, 0 ≤ c * bondSum bonds s := fun s hs => hcon s ((mem_allSpins s).1 hs)
  have hsum : ∑ s ∈ allSpins ι, c * bondSum bonds s = 0 := by rw [← Finset.mul_sum, sum_bondSum bonds hne, mul_zero]
  have h1 := (Finset.sum_eq_zero_iff_of_nonneg h0).1 hsum (fun _ => 1) ((mem_allSpins _).2 fun _ => Or.inl rfl)
  have h2 : bondSum bonds (fun _ => 1) = bonds.length := by simp [bondSum]
  rw [h2] at h1
  rcases mul_eq_zero.1 h1 with h1 | h1
  · exact hc h1
  · exact hb (List.length_eq_zero_iff.1 (by exact_mod_cast h1))

/-- The wave function of the single configuration `t`. -/
def basis (t : Config ι) : Wave ι := fun s => if s = t then 1 else 0

theorem form_basis (H : Wave ι → Wave ι) (t : Config ι) (ht : IsSpin t) :
    ∑ s ∈ allSpins ι, (starRingEnd ℂ) (basis t s) * H (basis t) s = H (basis t) t ∧
    ∑ s ∈ allSpins ι, ‖basis t s‖ ^ 2 = (1 : ℝ) := by
  have hmem := (mem_allSpins t).2 ht
  constructor
  · rw [Finset.sum_eq_single t (fun s _ hs => by simp [basis, hs]) fun hn => absurd hmem hn]
    simp [basis]
  · rw [Finset.sum_eq_single t (fun s _ hs => by simp [basis, hs]) fun hn => absurd hmem hn]
    simp [basis]

theorem flip_ne_self {t : Config ι} (ht : IsSpin t) (i : ι) : Operators.flip i t ≠ t := fun h =>
  flip_self_ne ht i (congrFun h i)

theorem flip_two_ne {t : Config ι} (ht : IsSpin t) {i j : ι} (hij : i ≠ j) :
    Operators.flip j (Operators.flip i t) ≠ t := by
  intro h
  have h1 := congrFun h i
  have h2 : Operators.flip j (Operators.flip i t) i = Operators.flip i t i := by
    unfold Operators.flip
    rw [Function.update_of_ne hij]
  rw [h2] at h1
  exact flip_self_ne ht i h1

theorem list_sum_ofReal {β : Type} (l : List β) (f : β → ℝ) :
    (l.map fun b => ((f b : ℝ) : ℂ)).sum = ((l.map f).sum : ℝ) := by
  induction l with
  | nil => simp
  | cons b l ih => simp [ih]

theorem tfim_basis (bonds : List (ι × ι)) (h J : ℝ) (t : Config ι) (ht : IsSpin t) :
    tfim bonds h J (basis t) t = ((-J * bondSum bonds t : ℝ) : ℂ) := by
  unfold tfim
  have h1 : ∑ i, pauliX i (basis t) t = 0 :=
    Finset.sum_eq_zero fun i _ => if_neg (flip_ne_self ht i)
  have h2 : (bonds.map fun b => pauliZ b.1 (pauliZ b.2 (basis t)) t) = bonds.map fun b => (((t b.1 : ℝ) * t b.2 : ℝ) : ℂ) := by
    refine List.map_congr_left fun b _ => ?_
    simp [pauliZ, basis]
  rw [h1, h2, list_sum_ofReal]
  unfold bondSum
  push_cast
  ring

theorem heisenberg_basis (bonds : List (ι × ι)) (hne : ∀ b ∈ bonds, b.1 ≠ b.2) (ε : ℝ) (t : Config ι) (ht : IsSpin t) :
    heisenberg bonds ε (basis t) t = ((bondSum bonds t : ℝ) : ℂ) := by
  unfold heisenberg bondSum
  rw [← list_sum_ofReal]
  congr 1
  refine List.map_congr_left fun b hb => ?_
  have h0 : basis t (Operators.flip b.2 (Operators.flip b.1 t)) = 0 := if_neg (flip_two_ne ht (hne b hb))
  simp only [pauliX, pauliY, pauliZ, h0]
  simp [basis]

section
variable {N : ℕ} (e : ι ≃ Fin N) (hN : N ≤ 31)
  {op : (B : Nat) → (Fin B → Config ι) → Fin B → List (Row ι ℝ)} {R : ℕ} {rowsOf : Config ι → List (Row ι ℝ)}
  (h : RowsOf op R rowsOf)

include e hN h in
theorem heisenberg_ground_neg (bonds : List (ι × ι)) (hne : ∀ b ∈ bonds, b.1 ≠ b.2) (hb : bonds ≠ []) (ε : ℝ)
    (hH : ∀ s, IsSpin s → ∀ ψ, applyRows (rowsOf s) ψ = heisenberg bonds ε ψ s)
    (E0 : ℝ) (hg : GroundEnergy (heisenberg bonds ε) E0) : E0 < 0 := by
  obtain ⟨t, ht, hlt⟩ := diag_neg bonds hne hb 1 one_ne_zero
  have h1 := (ground_le e hN h _ hH E0 hg (basis t)).1
  rw [(form_basis _ t ht).1, (form_basis (heisenberg bonds ε) t ht).2, heisenberg_basis bonds hne ε t ht, Complex.ofReal_re] at h1
  linarith

theorem sum_const_bonds (bonds : List (ι × ι)) (hne : ∀ b ∈ bonds, b.1 ≠ b.2) (J c : ℝ) :
    ∑ s ∈ allSpins ι, (-J * bondSum bonds s + c) = c * (allSpins ι).card := by
  rw [Finset.sum_add_distrib, ← Finset.mul_sum, sum_bondSum bonds hne, Finset.sum_const, nsmul_eq_mul]
  ring

theorem spin_mul_self {s : Config ι} (hs : IsSpin s) (i : ι) : (s i : ℂ) * s i = 1 := by
  rcases hs i with h | h <;> simp [h]

/-- The product of all spins. -/
def parity (s : Config ι) : ℂ := ∏ i, (s i : ℂ)

theorem parity_mul_self {s : Config ι} (hs : IsSpin s) : parity s * parity s = 1 := by
  unfold parity
  rw [← Finset.prod_mul_distrib]
  exact Finset.prod_eq_one fun i _ => spin_mul_self hs i

theorem parity_flip (s : Config ι) (i : ι) : parity (Operators.flip i s) = -parity s := by
  unfold parity Operators.flip
  rw [← Finset.mul_prod_erase Finset.univ _ (Finset.mem_univ i), ← Finset.mul_prod_erase Finset.univ (fun i => (s i : ℂ)) (Finset.mem_univ i),
    Function.update_self]
  push_cast
  rw [neg_mul]
  congr 2
  refine Finset.prod_congr rfl fun j hj => ?_
  rw [Function.update_of_ne (Finset.ne_of_mem_erase hj)]

theorem conj_parity (s : Config ι) : (starRingEnd ℂ) (parity s) = parity s := by
  unfold parity
  rw [map_prod]
  exact Finset.prod_congr rfl fun i _ => map_intCast _ _

/-- The energies of the Ising model on the uniform state and on the state of the parities. -/
theorem tfim_trial (bonds : List (ι × ι)) (h J : ℝ) (sign : ℝ) (ψ : Wave ι)
    (hψ : ∀ s, IsSpin s → (starRingEnd ℂ) (ψ s) * ψ s = 1)
    (hflip : ∀ s i, ψ (Operators.flip i s) = (sign : ℂ) * ψ s) (s : Config ι) (hs : IsSpin s) :
    (starRingEnd ℂ) (ψ s) * tfim bonds h J ψ s = ((-J * bondSum bonds s + -h * sign * Fintype.card ι : ℝ) : ℂ) := by
  unfold tfim
  have h1 : ∑ i, pauliX i ψ s = Fintype.card ι * ((sign : ℂ) * ψ s) := by
    have : ∀ i ∈ Finset.univ, pauliX i ψ s = (sign : ℂ) * ψ s := fun i _ => hflip s i
    rw [Finset.sum_congr rfl this, Finset.sum_const, nsmul_eq_mul, Finset.card_univ]
  have h2 : (bonds.map fun b => pauliZ b.1 (pauliZ b.2 ψ) s).sum = (bondSum bonds s : ℂ) * ψ s := by
    unfold bondSum
    rw [← list_sum_ofReal, ← List.sum_map_mul_right]
    congr 1
    refine List.map_congr_left fun b _ => ?_
    simp only [pauliZ]
    push_cast
    ring
  rw [h1, h2]
  have := hψ s hs
  push_cast
  linear_combination (-(J : ℂ) * bondSum bonds s - h * sign * Fintype.card ι) * this

include e hN h in
theorem tfim_ground_neg (bonds : List (ι × ι)) (hne : ∀ b ∈ bonds, b.1 ≠ b.2) (field J : ℝ)
    (hcond : (field ≠ 0 ∧ 0 < Fintype.card ι) ∨ (J ≠ 0 ∧ bonds ≠ []))
    (hH : ∀ s, IsSpin s → ∀ ψ, applyRows (rowsOf s) ψ = tfim bonds field J ψ s)
    (E0 : ℝ) (hg : GroundEnergy (tfim bonds field J) E0) : E0 < 0 := by
  rcases hcond with ⟨hf, hcard⟩ | ⟨hJ, hb⟩
  · have key : ∀ (sign : ℝ) (ψ : Wave ι), (∀ s, IsSpin s → (starRingEnd ℂ) (ψ s) * ψ s = 1) →
        (∀ s i, ψ (Operators.flip i s) = (sign : ℂ) * ψ s) → E0 ≤ -field * sign * Fintype.card ι := by
      intro sign ψ hψ hflip
      have h1 := (ground_le e hN h _ hH E0 hg ψ).1
      rw [Finset.sum_congr rfl fun s hs => tfim_trial bonds field J sign ψ hψ hflip s ((mem_allSpins s).1 hs),
        ← Complex.ofReal_sum, Complex.ofReal_re, sum_const_bonds bonds hne] at h1
      have h2 : ∑ s ∈ allSpins ι, ‖ψ s‖ ^ 2 = ((allSpins ι).card : ℝ) := by
        rw [Finset.sum_congr rfl (g := fun _ => (1 : ℝ)), Finset.sum_const, nsmul_eq_mul, mul_one]
        intro s hs
        have := hψ s ((mem_allSpins s).1 hs)
        rw [Complex.conj_mul'] at this
        exact_mod_cast this
      rw [h2] at h1
      have h3 : (0 : ℝ) < (allSpins ι).card := by exact_mod_cast Finset.card_pos.2 allSpins_nonempty
      exact le_of_mul_le_mul_right h1 h3
    have hc : (0 : ℝ) < Fintype.card ι := by exact_mod_cast hcard
    rcases lt_or_gt_of_ne hf with hlt | hgt
    · have := key (-1) parity (fun s hs => by rw [conj_parity]; exact parity_mul_self hs)
        (fun s i => by rw [parity_flip]; push_cast; ring)
      nlinarith
    · have := key 1 (fun _ => 1) (fun s _ => by simp) (fun s i => by simp)
      nlinarith
  · obtain ⟨t, ht, hlt⟩ := diag_neg bonds hne hb (-J) (neg_ne_zero.2 hJ)
    have h1 := (ground_le e hN h _ hH E0 hg (basis t)).1
    rw [(form_basis _ t ht).1, (form_basis (tfim bonds field J) t ht).2, tfim_basis bonds field J t ht, Complex.ofReal_re] at h1
    linarith
end

/-- What C115 demands of a model with operator `op` and Hamiltonian `H`: it has a ground energy, and when that
is given to the callbacks, then for every accepted batch size and whatever was evaluated before the relative
error is the distance of the energy of the current network from the ground energy in units of the size of the
ground energy, and zero for ground states only. -/
def ErrorIsDistance {N : ℕ} (e : ι ≃ Fin N) (op : (B : Nat) → (Fin B → Config ι) → Fin B → List (Row ι ℝ)) (R : Nat)
    (H : Wave ι → Wave ι) : Prop :=
  ∃ E0, GroundEnergy H E0 ∧ E0 < 0 ∧
    ∀ batch, 0 < batch → (2 ^ N ≤ batch ∨ batch ∣ 2 ^ N) → ∀ (inBatch : Bool) (nets : List (Config ι → ℂ)) (net : Config ι → ℂ),
      let ψ : Wave ι := fun s => Complex.exp (net s)
      ∃ o L, Obj.new (spinSetup e op R) batch = .ok o ∧
        exactEvaluate (nets.foldl Obj.update o) net (defaultExact (some E0) inBatch) = .ok L ∧
        ∃ r, L.read "energy/relative_error" = some r ∧ r = |(Energy.rayleigh H ψ).re - E0| / |E0| ∧
          (r = 0 ↔ Eigenstate H E0 ψ)

theorem errorIsDistance_of {N : ℕ} (e : ι ≃ Fin N) (hN : N ≤ 31)
    {op : (B : Nat) → (Fin B → Config ι) → Fin B → List (Row ι ℝ)} {R : ℕ} {rowsOf : Config ι → List (Row ι ℝ)}
    (h : RowsOf op R rowsOf) (H : Wave ι → Wave ι) (hH : ∀ s, IsSpin s → ∀ ψ, applyRows (rowsOf s) ψ = H ψ s)
    (hneg : ∀ E0, GroundEnergy H E0 → E0 < 0) : ErrorIsDistance e op R H := by
  obtain ⟨E0, hg⟩ := exists_ground e hN h H hH
  refine ⟨E0, hg, hneg E0 hg, fun batch hb hacc inBatch nets net => ?_⟩
  obtain ⟨o, ho, L, r, h1, h2, h3, -, h4⟩ :=
    C115_partial e hN op R rowsOf h H hH E0 hg (hneg E0 hg) batch hb hacc inBatch nets net
  exact ⟨o, L, ho, h1, r, h2, h3, h4⟩

theorem chainBonds_ne {n : Nat} {pbc : Bool} (hn : 1 < n ∨ pbc = false) :
    ∀ b ∈ chainBonds n pbc, b.1 ≠ b.2 := by
  intro b hb
  unfold chainBonds at hb
  simp only [List.mem_flatMap, List.mem_finRange, true_and, Option.mem_toList, Option.mem_def, Option.map_eq_some_iff] at hb
  obtain ⟨i, k, hk, rfl⟩ := hb
  rcases hn with hn | rfl
  · exact chainNext_ne hn hk
  · refine chainNext_ne (pbc := false) ?_ hk
    unfold chainNext at hk
    split at hk
    · omega
    · simp at hk

theorem chainBonds_nonempty {n : Nat} (pbc : Bool) (hn : 1 < n) : chainBonds n pbc ≠ [] := by
  have : ((⟨0, by omega⟩, ⟨1, hn⟩) : Fin n × Fin n) ∈ chainBonds n pbc := by
    unfold chainBonds
    simp only [List.mem_flatMap, List.mem_finRange, true_and, Option.mem_toList, Option.mem_def, Option.map_eq_some_iff]
    exact ⟨⟨0, by omega⟩, ⟨1, hn⟩, by unfold chainNext; rw [dif_pos (by simpa using hn)], rfl⟩
  intro h0
  rw [h0] at this
  simp at this

theorem gridBonds_nonempty {n m : Nat} (pbc : Bool) (hn : 1 < n * m) : gridBonds n m pbc ≠ [] := by
  have hn0 : 0 < n := Nat.pos_of_mul_pos_right (by omega : 0 < n * m)
  have hm0 : 0 < m := Nat.pos_of_mul_pos_left (by omega : 0 < n * m)
  have : ∃ b, b ∈ gridBonds n m pbc := by
    by_cases h1 : 1 < n
    · refine ⟨((⟨0, hn0⟩, ⟨0, hm0⟩), (⟨1, h1⟩, ⟨0, hm0⟩)), mem_gridBonds.2 (Or.inl ⟨h1, ?_, rfl⟩)⟩
      unfold chainNext
      rw [dif_pos (by simpa using h1)]
    · have : 1 < m := by
        by_contra hm
        have : n * m ≤ 1 * 1 := Nat.mul_le_mul (by omega) (by omega)
        omega
      refine ⟨((⟨0, hn0⟩, ⟨0, hm0⟩), (⟨0, hn0⟩, ⟨1, this⟩)), mem_gridBonds.2 (Or.inr ⟨this, ?_, rfl⟩)⟩
      unfold chainNext
      rw [dif_pos (by simpa using this)]
  obtain ⟨b, hb⟩ := this
  intro h0
  rw [h0] at hb
  simp at hb

/-- **C115** for the Ising model on chains with a field or a coupling, except the periodic chain of one
site. -/
theorem C115_ising_chain (n : Nat) (hn : n ≤ 31) (h j : ℝ) (pbc : Bool) (hp : 1 < n ∨ pbc = false)
    (hcond : (h ≠ 0 ∧ 0 < n) ∨ (j ≠ 0 ∧ 1 < n)) :
    ErrorIsDistance (Equiv.refl (Fin n)) (fun _ sample => isingFindConn1 (.float h) j pbc sample) (n + 1)
      (tfim (chainBonds n pbc) h j) := by
  have hH := fun (s : Config (Fin n)) (_ : IsSpin s) ψ => C06_ising_chain h j pbc (fun _ : Fin 1 => s) 0 ψ
  refine errorIsDistance_of _ hn (rowsOf_ising_chain n h j pbc) _ hH ?_
  refine tfim_ground_neg (Equiv.refl (Fin n)) hn (rowsOf_ising_chain n h j pbc) _ (chainBonds_ne hp) h j ?_ hH
  rcases hcond with ⟨h1, h2⟩ | ⟨h1, h2⟩
  · exact Or.inl ⟨h1, by simpa using h2⟩
  · exact Or.inr ⟨h1, chainBonds_nonempty pbc h2⟩

/-- **C115** for the Ising model on grids with a field or a coupling. -/
theorem C115_ising_grid (n m : Nat) (hn : n * m ≤ 31) (h j : ℝ) (pbc : Bool)
    (hcond : (h ≠ 0 ∧ 0 < n * m) ∨ (j ≠ 0 ∧ 1 < n * m)) :
    ErrorIsDistance finProdFinEquiv (fun _ sample => isingFindConn2 (.float h) j pbc sample) (n * m + 1)
      (tfim (gridBonds n m pbc) h j) := by
  have hH := fun (s : Config (Fin n × Fin m)) (_ : IsSpin s) ψ => C06_ising_grid h j pbc (fun _ : Fin 1 => s) 0 ψ
  refine errorIsDistance_of _ hn (rowsOf_ising_grid n m h j pbc) _ hH ?_
  refine tfim_ground_neg finProdFinEquiv hn (rowsOf_ising_grid n m h j pbc) _ (fun _ => gridBonds_ne) h j ?_ hH
  rcases hcond with ⟨h1, h2⟩ | ⟨h1, h2⟩
  · exact Or.inl ⟨h1, by simpa using h2⟩
  · exact Or.inr ⟨h1, gridBonds_nonempty pbc h2⟩

/-- **C115** for the Heisenberg model on grids of at least two sites. -/
theorem C115_heisenberg_grid (n m : Nat) (hn : n * m ≤ 31) (h2 : 1 < n * m) (rot pbc : Bool) (history : List (Call n m)) :
    ErrorIsDistance finProdFinEquiv
      (fun B sample => (((HeisOp.new2 n m rot pbc).run history).findConn B sample).2) (n * m * 2 + 1)
      (heisenberg (gridBonds n m pbc) (if rot then -1 else 1)) := by
  have hH := fun (s : Config (Fin n × Fin m)) hs ψ => applyRows_heisRows rot pbc 2 (Or.inl rfl) s hs ψ
  exact errorIsDistance_of _ hn (rowsOf_heisenberg_grid n m rot pbc history) _ hH
    (heisenberg_ground_neg finProdFinEquiv hn (rowsOf_heisenberg_grid n m rot pbc history) _ (fun _ => gridBonds_ne)
      (gridBonds_nonempty pbc h2) _ hH)

/-- **C115** for the Heisenberg model on chains of at least two sites. -/
theorem C115_heisenberg_chain (n : Nat) (hn : n ≤ 31) (h2 : 1 < n) (rot pbc : Bool) (history : List (Call n 1)) :
    ErrorIsDistance (Equiv.refl (Fin n))
      (fun B sample => (((HeisOp.new1 n rot pbc).run history).findConn1 B sample).2) (n + 1)
      (heisenberg (chainBonds' n pbc) (if rot then -1 else 1)) := by
  have hH : ∀ (s : Config (Fin n)), IsSpin s → ∀ ψ,
      applyRows ((heisRows (offDiag rot) pbc 1 (expandDims s)).map squeezeRow) ψ
        = heisenberg (chainBonds' n pbc) (if rot then -1 else 1) ψ s := fun s hs ψ => by
    have := C07_heisenberg_chain rot pbc history 1 (fun _ => s) 0 hs ψ
    rwa [answer1] at this
  have hbonds : chainBonds' n pbc = chainBonds n pbc := if_pos h2
  refine errorIsDistance_of _ hn (rowsOf_heisenberg_chain n rot pbc history) _ hH ?_
  refine heisenberg_ground_neg (Equiv.refl (Fin n)) hn (rowsOf_heisenberg_chain n rot pbc history) _ ?_ ?_ _ hH
  · rw [hbonds]; exact chainBonds_ne (Or.inl h2)
  · rw [hbonds]; exact chainBonds_nonempty pbc h2

/-! ### Samples -/

/-- **C115** for samples: the relative error that `LocalEnergyStats` logs for a batch of `B` independent
samples of the network is on average the distance of the energy from the (negative) ground energy. -/
theorem C115_monte_carlo_partial {S : Type} {N : ℕ} (e : ι ≃ Fin N) (hN : N ≤ 31)
    (op : (B : Nat) → (Fin B → Config ι) → Fin B → List (Row ι ℝ)) (R : ℕ) (rowsOf : Config ι → List (Row ι ℝ))
    (h : RowsOf op R rowsOf) (H : Wave ι → Wave ι) (hH : ∀ s, IsSpin s → ∀ ψ, applyRows (rowsOf s) ψ = H ψ s)
    (E0 : ℝ) (hg : GroundEnergy H E0) (hneg : E0 < 0) (B : ℕ) (hB : 0 < B) (logψ : Config ι → ℂ) (pre : String) :
    ∃ err : (Fin B → Config ι) → ℝ,
      (∀ (g : Generator S ι) (sample : Fin B → Config ι),
        g.x = (List.finRange B).map (fun b => (sample b, H (fun s => Complex.exp (logψ s)) (sample b) / Complex.exp (logψ (sample b)))) →
        (addEnergy (some E0) g pre []).read (pre ++ "energy/relative_error") = some (err sample)) ∧
      expect (allSpins ι) (Energy.born logψ) B err
        = |(Energy.rayleigh H fun s => Complex.exp (logψ s)).re - E0| / |E0| := by
  set E := (Energy.rayleigh H fun s => Complex.exp (logψ s)).re with hEdef
  have hle : E0 ≤ E := by
    have hpos := Callbacks.norm_sum_pos logψ
    rw [hEdef, rayleigh_re, le_div_iff₀ hpos]
    exact (ground_le e hN h H hH E0 hg fun s => Complex.exp (logψ s)).1
  have hBR : (B : ℝ) ≠ 0 := by exact_mod_cast hB.ne'
  have hp' := Energy.born_sum logψ
  have hEre : E = ∑ s ∈ allSpins ι, Energy.born logψ s * (localEnergy H logψ s).re := by
    rw [hEdef, rayleigh_born, Complex.re_sum]
    exact Finset.sum_congr rfl fun s _ => Complex.re_ofReal_mul _ _
  refine ⟨fun x => (E0 - (∑ b, (localEnergy H logψ (x b)).re) / B) / E0, ?_, ?_⟩
  · intro g sample hx
    unfold addEnergy
    dsimp only
    rw [read_put, if_pos rfl, hx]
    congr 3
    unfold batchEnergy mean
    rw [List.map_map, List.length_map, List.length_finRange, ← List.ofFn_eq_map, List.sum_ofFn,
      ← Complex.ofReal_natCast, Complex.div_ofReal_re, Complex.re_sum]
    rfl
  · have h1 : ∀ x : Fin B → Config ι, (E0 - (∑ b, (localEnergy H logψ (x b)).re) / B) / E0
        = 1 * (∏ _b : Fin B, (1 : ℝ)) + (-(1 / (B * E0))) * ∑ b, (localEnergy H logψ (x b)).re := by
      intro x
      rw [Finset.prod_const_one]
      have := hneg.ne
      field_simp
      ring
    simp only [h1]
    rw [expect_add, expect_mul, expect_mul, expect_sum, expect_prod _ _ fun _ _ => (1 : ℝ)]
    simp only [expect_one _ _ hp' (fun s => (localEnergy H logψ s).re), Finset.sum_const, Finset.card_univ,
      Fintype.card_fin, nsmul_eq_mul, mul_one, hp', Finset.prod_const_one, ← hEre]
    rw [abs_of_nonneg (by linarith), abs_of_neg hneg]
    have := hneg.ne
    field_simp
    ring

/-! ### Positive ground energies -/

/-- **C115**, what the code does for positive ground energies: the error is reported with the wrong sign, so
that the worst states have the smallest error. -/
theorem C115_violated_positive {N : ℕ} (e : ι ≃ Fin N) (hN : N ≤ 31)
    (op : (B : Nat) → (Fin B → Config ι) → Fin B → List (Row ι ℝ)) (R : ℕ) (rowsOf : Config ι → List (Row ι ℝ))
    (h : RowsOf op R rowsOf) (H : Wave ι → Wave ι) (hH : ∀ s, IsSpin s → ∀ ψ, applyRows (rowsOf s) ψ = H ψ s)
    (E0 : ℝ) (hg : GroundEnergy H E0) (hpos : 0 < E0)
    (batch : ℕ) (hb : 0 < batch) (hacc : 2 ^ N ≤ batch ∨ batch ∣ 2 ^ N)
    (inBatch : Bool) (nets : List (Config ι → ℂ)) (net : Config ι → ℂ) :
    let ψ : Wave ι := fun s => Complex.exp (net s)
    let E := (Energy.rayleigh H ψ).re
    ∃ o, Obj.new (spinSetup e op R) batch = .ok o ∧
    ∃ L r, exactEvaluate (nets.foldl Obj.update o) net (defaultExact (some E0) inBatch) = .ok L ∧
      L.read "energy/relative_error" = some r ∧ r = -(|E - E0| / |E0|) := by
  intro ψ E
  obtain ⟨o, ho, L, hL, -, -, hr, -⟩ := C86_default e hN op R rowsOf h H hH batch hb hacc (some E0) inBatch nets net
  have h1 := (ground_le e hN h H hH E0 hg ψ).1
  have hn : 0 < ∑ s ∈ allSpins ι, ‖ψ s‖ ^ 2 := Callbacks.norm_sum_pos net
  have hle : E0 ≤ E := by
    have hE : E = (∑ s ∈ allSpins ι, (starRingEnd ℂ) (ψ s) * H ψ s).re / ∑ s ∈ allSpins ι, ‖ψ s‖ ^ 2 := rayleigh_re H ψ
    rw [hE, le_div_iff₀ hn]; exact h1
  refine ⟨o, ho, L, _, hL, hr E0 rfl hpos.ne', ?_⟩
  show (E0 - E) / E0 = _
  rw [abs_of_nonneg (by linarith), abs_of_pos hpos, ← neg_div]
  ring

/-- The Ising model on the periodic chain of one site with field 1 and coupling -2 acts as `2 - σˣ`. -/
theorem tfim_single (ψ : Wave (Fin 1)) (s : Config (Fin 1)) (hs : IsSpin s) :
    tfim (chainBonds 1 true) 1 (-2) ψ s = 2 * ψ s - ψ (Operators.flip 0 s) := by
  have hb : chainBonds 1 true = [(0, 0)] := by decide
  have := spin_mul_self hs 0
  unfold tfim
  rw [hb]
  simp only [List.map_cons, List.map_nil, List.sum_cons, List.sum_nil, add_zero, pauliZ, pauliX, Finset.univ_unique,
    Finset.sum_singleton, Fin.default_eq_zero]
  push_cast
  linear_combination 2 * ψ s * this

theorem ground_single : GroundEnergy (tfim (chainBonds 1 true) 1 (-2)) 1 := by
  refine ⟨⟨fun _ => 1, ⟨fun _ => 1, fun _ => Or.inl rfl, one_ne_zero⟩, fun s hs => ?_⟩, ?_⟩
  · rw [tfim_single _ s hs]; norm_num
  · rintro lam φ ⟨⟨s, hs, hne⟩, heig⟩
    have h1 := heig s hs
    have h2 := heig _ (flip_spin hs 0)
    rw [tfim_single _ _ hs] at h1
    rw [tfim_single _ _ (flip_spin hs 0), Operators.flip_flip] at h2
    have h3 : ((lam : ℂ) - 1) * (lam - 3) * φ s = 0 := by linear_combination (2 - (lam : ℂ)) * h1 + h2
    have h4 : ((lam : ℂ) - 1) * (lam - 3) = 0 := by
      rcases mul_eq_zero.1 h3 with h | h
      · exact h
      · exact absurd h hne
    have h5 : (lam - 1) * (lam - 3) = 0 := by exact_mod_cast h4
    rcases mul_eq_zero.1 h5 with h | h <;> linarith

/-- The network whose amplitude is the sign of the single spin. -/
noncomputable def signNet (s : Config (Fin 1)) : ℂ := if s 0 = 1 then 0 else Real.pi * Complex.I

theorem exp_signNet (s : Config (Fin 1)) (hs : IsSpin s) : Complex.exp (signNet s) = s 0 := by
  unfold signNet
  rcases hs 0 with h | h
  · rw [if_pos h, h]; simp
  · rw [if_neg (by rw [h]; decide), h, Complex.exp_pi_mul_I]; simp

theorem energy_signNet :
    (Energy.rayleigh (tfim (chainBonds 1 true) 1 (-2)) fun s => Complex.exp (signNet s)).re = 3 := by
  rw [rayleigh_re]
  have hn := Callbacks.norm_sum_pos signNet
  rw [div_eq_iff hn.ne', Complex.re_sum, Finset.mul_sum]
  refine Finset.sum_congr rfl fun s hs => ?_
  have hs' := (mem_allSpins s).1 hs
  rw [tfim_single _ s hs', exp_signNet s hs', exp_signNet _ (flip_spin hs' 0)]
  have hf : Operators.flip 0 s 0 = -s 0 := by unfold Operators.flip; rw [Function.update_self]
  rw [hf]
  rcases hs' 0 with h | h <;> rw [h] <;> norm_num

/-- **C115** is violated for the Ising model on the periodic chain of one site with field 1 and coupling -2:
the ground energy is 1, and for a network with energy 3 a relative error of -2 is reported. -/
theorem C115_violated (batch : ℕ) (hb : 0 < batch) (hacc : 2 ^ 1 ≤ batch ∨ batch ∣ 2 ^ 1) (inBatch : Bool) :
    GroundEnergy (tfim (chainBonds 1 true) 1 (-2)) 1 ∧
    ∃ net, (Energy.rayleigh (tfim (chainBonds 1 true) 1 (-2)) fun s => Complex.exp (net s)).re = 3 ∧
      ∃ o, Obj.new (spinSetup (Equiv.refl (Fin 1)) (fun _ sample => isingFindConn1 (.float 1) (-2) true sample) 2) batch
          = .ok o ∧
        ∃ L, exactEvaluate o net (defaultExact (some 1) inBatch) = .ok L ∧
          L.read "energy/relative_error" = some (-2) := by
  refine ⟨ground_single, signNet, energy_signNet, ?_⟩
  obtain ⟨o, ho, L, r, h1, h2, h3⟩ := C115_violated_positive (Equiv.refl (Fin 1)) (by norm_num) _ 2 _
    (rowsOf_ising_chain 1 1 (-2) true) _ (fun s _ ψ => C06_ising_chain 1 (-2) true (fun _ : Fin 1 => s) 0 ψ) 1
    ground_single one_pos batch hb hacc inBatch [] signNet
  refine ⟨o, ho, L, h1, ?_⟩
  rw [h2, h3, energy_signNet]
  norm_num

/-- The hypotheses of `C115_partial` are met by the open Ising chain of two sites, for instance. -/
example : ∃ E0, GroundEnergy (tfim (chainBonds 2 false) 1 1) E0 ∧ E0 < 0 := by
  obtain ⟨E0, h1, h2, -⟩ := C115_ising_chain 2 (by norm_num) 1 1 false (Or.inl (by norm_num)) (Or.inl ⟨one_ne_zero, by norm_num⟩)
  exact ⟨E0, h1, h2⟩

end Verif.Callbacks
