import Verif.Callbacks.RelativeError
import Mathlib.Algebra.Order.BigOperators.Group.Finset
import Mathlib.Tactic.LinearCombination

/-!
Rigorous bounds on the ground energies of the two Hamiltonians, on lattices of every size: what a reference
energy has to satisfy. Nothing in this file models code.
-/
namespace Verif.Experiment

open Verif.Energy Verif.Energy.Exact Verif.Operators Verif.Callbacks Matrix

variable {ι : Type} [Fintype ι] [DecidableEq ι]

/-! ### The variational principle on lattices of every size -/

section
variable {op : (B : Nat) → (Fin B → Config ι) → Fin B → List (Row ι ℝ)} {R : ℕ} {rowsOf : Config ι → List (Row ι ℝ)}
  (h : RowsOf op R rowsOf) (H : Wave ι → Wave ι) (hH : ∀ s, IsSpin s → ∀ ψ, applyRows (rowsOf s) ψ = H ψ s)

/-- The spin configurations, numbered. -/
noncomputable def num (ι : Type) [Fintype ι] [DecidableEq ι] : Fin (Fintype.card (allSpins ι)) ≃ allSpins ι :=
  (Fintype.equivFin _).symm

theorem num_spin (x : Fin (Fintype.card (allSpins ι))) : IsSpin (num ι x : Config ι) := (mem_allSpins _).1 (num ι x).2

/-- The matrix of the rows. -/
noncomputable def rowMatrix (rowsOf : Config ι → List (Row ι ℝ)) :
    Matrix (Fin (Fintype.card (allSpins ι))) (Fin (Fintype.card (allSpins ι))) ℂ :=
  fun x y => (matrixElement (rowsOf (num ι x)) (num ι y) : ℂ)

theorem sum_num (f : Config ι → ℂ) : ∑ x, f (num ι x) = ∑ s ∈ allSpins ι, f s := by
  rw [← Finset.sum_coe_sort (allSpins ι)]
  exact Equiv.sum_comp (num ι) fun x : allSpins ι => f x

theorem sum_num_real (f : Config ι → ℝ) : ∑ x, f (num ι x) = ∑ s ∈ allSpins ι, f s := by
  rw [← Finset.sum_coe_sort (allSpins ι)]
  exact Equiv.sum_comp (num ι) fun x : allSpins ι => f x

include h in
theorem rowMatrix_hermitian : (rowMatrix rowsOf).IsHermitian := by
  ext x y
  rw [Matrix.conjTranspose_apply]
  unfold rowMatrix
  rw [h.symm]
  exact Complex.conj_ofReal _

include h hH in
theorem rowMatrix_mulVec (ψ : Wave ι) (x : Fin (Fintype.card (allSpins ι))) :
    (rowMatrix rowsOf *ᵥ fun y => ψ (num ι y)) x = H ψ (num ι x) := by
  rw [← hH _ (num_spin x), applyRows_sum _ (h.spins _ (num_spin x)), ← sum_num]
  rfl

theorem wave_num (v : Fin (Fintype.card (allSpins ι)) → ℂ) : ∃ ψ : Wave ι, (fun y => ψ (num ι y)) = v := by
  refine ⟨fun s => if hs : s ∈ allSpins ι then v ((num ι).symm ⟨s, hs⟩) else 0, funext fun y => ?_⟩
  simp

theorem spin_num (s : Config ι) (hs : IsSpin s) : ∃ x, (num ι x : Config ι) = s :=
  ⟨(num ι).symm ⟨s, (mem_allSpins s).2 hs⟩, by simp⟩

include h hH in
theorem eigenstate_num (lam : ℝ) (ψ : Wave ι) : Eigenstate H lam ψ ↔
    (fun y => ψ (num ι y)) ≠ 0 ∧ rowMatrix rowsOf *ᵥ (fun y => ψ (num ι y)) = (lam : ℂ) • fun y => ψ (num ι y) := by
  constructor
  · rintro ⟨⟨s, hs, hne⟩, he⟩
    refine ⟨fun h0 => ?_, funext fun x => ?_⟩
    · obtain ⟨x, hx⟩ := spin_num s hs
      exact hne (hx ▸ congrFun h0 x)
    · rw [rowMatrix_mulVec h H hH, he _ (num_spin x)]
      rfl
  · rintro ⟨hne, he⟩
    refine ⟨?_, fun s hs => ?_⟩
    · by_contra hcon
      refine hne (funext fun x => ?_)
      by_contra hx
      exact hcon ⟨_, num_spin x, hx⟩
    · obtain ⟨x, hx⟩ := spin_num s hs
      rw [← hx, ← rowMatrix_mulVec h H hH]
      exact congrFun he x

include h hH in
/-- Every operator given by rows has a ground energy. -/
theorem ground_exists : ∃ E0, GroundEnergy H E0 := by
  have hA : (rowMatrix rowsOf).IsHermitian := rowMatrix_hermitian h
  have : Nonempty (Fin (Fintype.card (allSpins ι))) := ⟨(num ι).symm ⟨fun _ => 1, (mem_allSpins _).2 fun _ => Or.inl rfl⟩⟩
  obtain ⟨i, hi⟩ := Finite.exists_min hA.eigenvalues
  refine ⟨hA.eigenvalues i, ?_, ?_⟩
  · obtain ⟨ψ, hψ⟩ := wave_num (hA.eigenvectorBasis i : Fin (Fintype.card (allSpins ι)) → ℂ)
    refine ⟨ψ, (eigenstate_num h H hH _ _).2 ?_⟩
    rw [hψ]
    refine ⟨fun h0 => ?_, hA.mulVec_eigenvectorBasis i⟩
    have h1 := hA.eigenvectorBasis.orthonormal.ne_zero i
    apply h1
    ext k
    exact congrFun h0 k
  · intro lam φ hφ
    obtain ⟨hne, he⟩ := (eigenstate_num h H hH _ _).1 hφ
    have hmem : lam ∈ spectrum ℝ (rowMatrix rowsOf) := by
      rw [spectrum.mem_iff]
      rintro ⟨u, hu⟩
      have h0 : (u : Matrix (Fin (Fintype.card (allSpins ι))) (Fin (Fintype.card (allSpins ι))) ℂ) *ᵥ (fun y => φ (num ι y)) = 0 := by
        rw [hu, sub_mulVec, he, Algebra.algebraMap_eq_smul_one, smul_mulVec, one_mulVec]
        ext x
        simp
      have h1 : (↑u⁻¹ : Matrix (Fin (Fintype.card (allSpins ι))) (Fin (Fintype.card (allSpins ι))) ℂ) *ᵥ
          ((u : Matrix (Fin (Fintype.card (allSpins ι))) (Fin (Fintype.card (allSpins ι))) ℂ) *ᵥ fun y => φ (num ι y)) =
          fun y => φ (num ι y) := by
        rw [mulVec_mulVec, Units.inv_mul, one_mulVec]
      rw [h0, mulVec_zero] at h1
      exact hne h1.symm
    rw [hA.spectrum_real_eq_range_eigenvalues] at hmem
    obtain ⟨k, hk⟩ := hmem
    rw [← hk]
    exact hi k

include h hH in
/-- The energy of no wave function is below the ground energy. -/
theorem variational (E0 : ℝ) (hg : GroundEnergy H E0) (ψ : Wave ι) :
    E0 * ∑ s ∈ allSpins ι, ‖ψ s‖ ^ 2 ≤ (∑ s ∈ allSpins ι, (starRingEnd ℂ) (ψ s) * H ψ s).re := by
  have hA : (rowMatrix rowsOf).IsHermitian := rowMatrix_hermitian h
  have hq := quad_lower (rowMatrix rowsOf) hA E0 (fun lam v hv hev => by
    obtain ⟨φ, rfl⟩ := wave_num v
    exact hg.2 lam φ ((eigenstate_num h H hH _ _).2 ⟨hv, hev⟩)) fun y => ψ (num ι y)
  have h1 : normSq (fun y => ψ (num ι y)) = ∑ s ∈ allSpins ι, ‖ψ s‖ ^ 2 := by
    rw [← sum_num_real]
    unfold normSq
    exact Finset.sum_congr rfl fun x _ => rfl
  have h2 : star (fun y => ψ (num ι y)) ⬝ᵥ (rowMatrix rowsOf *ᵥ fun y => ψ (num ι y)) =
      ∑ s ∈ allSpins ι, (starRingEnd ℂ) (ψ s) * H ψ s := by
    rw [← sum_num]
    unfold dotProduct
    refine Finset.sum_congr rfl fun x _ => ?_
    rw [rowMatrix_mulVec h H hH]
    rfl
  rwa [h1, h2] at hq
end

/-! ### Upper bounds from simple states -/

section
variable {op : (B : Nat) → (Fin B → Config ι) → Fin B → List (Row ι ℝ)} {R : ℕ} {rowsOf : Config ι → List (Row ι ℝ)}
  (h : RowsOf op R rowsOf)

include h in
/-- A configuration in which all bonds are antiparallel bounds the ground energy of the Heisenberg model. -/
theorem heisenberg_le (bonds : List (ι × ι)) (hne : ∀ b ∈ bonds, b.1 ≠ b.2) (ε : ℝ)
    (hH : ∀ s, IsSpin s → ∀ ψ, applyRows (rowsOf s) ψ = heisenberg bonds ε ψ s)
    (E0 : ℝ) (hg : GroundEnergy (heisenberg bonds ε) E0) (t : Config ι) (ht : IsSpin t)
    (hanti : ∀ b ∈ bonds, t b.1 = -t b.2) : E0 ≤ -bonds.length := by
  have h1 := variational h _ hH E0 hg (basis t)
  rw [(form_basis _ t ht).1, (form_basis (heisenberg bonds ε) t ht).2, heisenberg_basis bonds hne ε t ht, Complex.ofReal_re,
    mul_one] at h1
  have h2 : bondSum bonds t = -bonds.length := by
    unfold bondSum
    rw [List.map_congr_left (g := fun _ => (-1 : ℝ))]
    · simp
    · intro b hb
      rw [hanti b hb]
      rcases ht b.2 with h | h <;> simp [h]
  rwa [h2] at h1

include h in
/-- The aligned state and the polarised state bound the ground energy of the Ising model. -/
theorem tfim_le (bonds : List (ι × ι)) (hne : ∀ b ∈ bonds, b.1 ≠ b.2) (field J : ℝ)
    (hH : ∀ s, IsSpin s → ∀ ψ, applyRows (rowsOf s) ψ = tfim bonds field J ψ s)
    (E0 : ℝ) (hg : GroundEnergy (tfim bonds field J) E0) :
    E0 ≤ -J * bonds.length ∧ E0 ≤ -field * Fintype.card ι := by
  constructor
  · have ht : IsSpin (fun _ : ι => (1 : ℤ)) := fun _ => Or.inl rfl
    have h1 := variational h _ hH E0 hg (basis fun _ => 1)
    rw [(form_basis _ _ ht).1, (form_basis (tfim bonds field J) _ ht).2, tfim_basis bonds field J _ ht, Complex.ofReal_re,
      mul_one] at h1
    have h2 : bondSum bonds (fun _ : ι => (1 : ℤ)) = bonds.length := by simp [bondSum]
    rwa [h2] at h1
  · have h1 := variational h _ hH E0 hg fun _ => 1
    rw [Finset.sum_congr rfl fun s hs => tfim_trial bonds field J 1 (fun _ => 1) (fun _ _ => by simp) (fun _ _ => by simp) s
      ((mem_allSpins s).1 hs), ← Complex.ofReal_sum, Complex.ofReal_re, sum_const_bonds bonds hne] at h1
    have h2 : ∑ s ∈ allSpins ι, ‖(1 : ℂ)‖ ^ 2 = ((allSpins ι).card : ℝ) := by simp
    rw [h2] at h1
    have h3 : (0 : ℝ) < (allSpins ι).card := by exact_mod_cast Finset.card_pos.2 allSpins_nonempty
    rw [mul_le_mul_iff_of_pos_right h3] at h1
    linarith
end

/-! ### Lower bounds from parts of the Hamiltonian -/

/-- `Σ_s Re (conj (φ s) (A s))`, the expectation of an operator that makes `A` of `φ`. -/
noncomputable def form (φ A : Wave ι) : ℝ := ∑ s ∈ allSpins ι, ((starRingEnd ℂ) (φ s) * A s).re

/-- `Σ_s |φ s|²`. -/
noncomputable def total (φ : Wave ι) : ℝ := ∑ s ∈ allSpins ι, ‖φ s‖ ^ 2

theorem total_pos (H : Wave ι → Wave ι) (lam : ℝ) (φ : Wave ι) (h : Eigenstate H lam φ) : 0 < total φ := by
  obtain ⟨⟨s, hs, hne⟩, -⟩ := h
  exact Finset.sum_pos' (fun _ _ => by positivity) ⟨s, (mem_allSpins s).2 hs, by positivity⟩

theorem form_eigen (H : Wave ι → Wave ι) (lam : ℝ) (φ : Wave ι) (h : Eigenstate H lam φ) : form φ (H φ) = lam * total φ := by
  unfold form total
  rw [Finset.mul_sum]
  refine Finset.sum_congr rfl fun s hs => ?_
  rw [h.2 s ((mem_allSpins s).1 hs)]
  have : (starRingEnd ℂ) (φ s) * ((lam : ℂ) * φ s) = ((lam * ‖φ s‖ ^ 2 : ℝ) : ℂ) := by
    push_cast
    rw [← Complex.conj_mul']
    ring
  rw [this, Complex.ofReal_re]

theorem form_list {β : Type} (φ : Wave ι) (l : List β) (A : β → Wave ι) :
    form φ (fun s => (l.map fun b => A b s).sum) = (l.map fun b => form φ (A b)).sum := by
  induction l with
  | nil => simp [form]
  | cons b l ih =>
    simp only [List.map_cons, List.sum_cons]
    rw [← ih]
    unfold form
    rw [← Finset.sum_add_distrib]
    refine Finset.sum_congr rfl fun s _ => ?_
    rw [mul_add, Complex.add_re]

theorem sum_allSpins_exchange (a b : ι) (f : Config ι → ℝ) :
    ∑ s ∈ allSpins ι, f (exchange a b s) = ∑ s ∈ allSpins ι, f s := by
  refine Finset.sum_nbij' (exchange a b) (exchange a b) ?_ ?_ ?_ ?_ ?_
  · intro s hs; exact (mem_allSpins _).2 (exchange_spin ((mem_allSpins s).1 hs) a b)
  · intro s hs; exact (mem_allSpins _).2 (exchange_spin ((mem_allSpins s).1 hs) a b)
  · intro s _; exact exchange_exchange a b s
  · intro s _; exact exchange_exchange a b s
  · intro s _; rfl

/-- The term of one bond of the Heisenberg Hamiltonian. -/
noncomputable def bondTerm (ε : ℝ) (a b : ι) (φ : Wave ι) : Wave ι := fun s =>
  (ε : ℂ) * (pauliX a (pauliX b φ) s + pauliY a (pauliY b φ) s) + pauliZ a (pauliZ b φ) s

/-- Number of the neighbours `l` of `c` whose spin is opposite to the spin of `c`. -/
def opposite (c : ι) (l : List ι) (s : Config ι) : ℕ := (l.filter fun j => decide (s c ≠ s j)).length

/-- The weight with which the Schur test is done. -/
noncomputable def weight (c : ι) (l : List ι) (s : Config ι) : ℝ := ((l.length : ℝ) + 1 - opposite c l s) / opposite c l s

omit [Fintype ι] in
theorem opposite_exchange (c : ι) (l : List ι) (hnd : l.Nodup) (hc : c ∉ l) (s : Config ι) (hs : IsSpin s) (j : ι) (hj : j ∈ l)
    (hcj : s c ≠ s j) : opposite c l (exchange c j s) + opposite c l s = l.length + 1 := by
  have hval : ∀ i ∈ l, (exchange c j s c ≠ exchange c j s i) ↔ (i = j ∨ s c = s i) := by
    intro i hi
    have hci : i ≠ c := fun h => hc (h ▸ hi)
    rw [exchange_apply, exchange_apply]
    by_cases hij : i = j
    · subst hij
      simp [Ne.symm hcj]
    · rw [Equiv.swap_apply_left, Equiv.swap_apply_of_ne_of_ne hci hij]
      simp only [hij, false_or]
      rcases hs c with h1 | h1 <;> rcases hs j with h2 | h2 <;> rcases hs i with h3 | h3 <;> simp_all
  have key : ∀ l' : List ι, (∀ i ∈ l', i ∈ l) →
      opposite c l' (exchange c j s) + opposite c l' s = l'.length + l'.count j := by
    intro l' hl'
    induction l' with
    | nil => rfl
    | cons i l' ih =>
      have ih := ih fun i hi => hl' i (List.mem_cons_of_mem _ hi)
      have hv := hval i (hl' i List.mem_cons_self)
      unfold opposite at ih ⊢
      rw [List.filter_cons, List.filter_cons, List.length_cons, List.count_cons]
      by_cases hij : i = j
      · subst hij
        have h1 := hv.2 (Or.inl rfl)
        rw [if_pos (decide_eq_true h1), if_pos (decide_eq_true hcj), if_pos (by simp)]
        simp only [List.length_cons]
        omega
      · have hbeq : (i == j) = false := by simp [hij]
        rw [hbeq]
        by_cases hsi : s c = s i
        · have h1 := hv.2 (Or.inr hsi)
          rw [if_pos (decide_eq_true h1), if_neg (by simp [hsi])]
          simp only [List.length_cons, Bool.false_eq_true, if_false]
          omega
        · have h1 : ¬ (exchange c j s c ≠ exchange c j s i) := fun h => by
            rcases hv.1 h with h | h
            · exact hij h
            · exact hsi h
          rw [if_neg (by simpa using h1), if_pos (decide_eq_true hsi)]
          simp only [List.length_cons, Bool.false_eq_true, if_false]
          omega
  have := key l fun i hi => hi
  rwa [List.count_eq_one_of_mem hnd hj] at this

omit [Fintype ι] [DecidableEq ι] in
theorem opposite_pos (c : ι) (l : List ι) (s : Config ι) (j : ι) (hj : j ∈ l) (hcj : s c ≠ s j) : 0 < opposite c l s :=
  List.length_pos_of_mem (List.mem_filter.2 ⟨hj, decide_eq_true hcj⟩)

theorem weight_mul (c : ι) (l : List ι) (hnd : l.Nodup) (hc : c ∉ l) (s : Config ι) (hs : IsSpin s) (j : ι) (hj : j ∈ l)
    (hcj : s c ≠ s j) : 0 < weight c l s ∧ weight c l s * weight c l (exchange c j s) = 1 := by
  have h1 := opposite_exchange c l hnd hc s hs j hj hcj
  have h2 := opposite_pos c l s j hj hcj
  have hne : exchange c j s c ≠ exchange c j s j := by
    rw [exchange_apply, exchange_apply, Equiv.swap_apply_left, Equiv.swap_apply_right]
    exact hcj.symm
  have h3 := opposite_pos c l (exchange c j s) j hj hne
  have h1' : ((opposite c l (exchange c j s) : ℝ)) + opposite c l s = l.length + 1 := by exact_mod_cast h1
  have h2' : (0 : ℝ) < opposite c l s := by exact_mod_cast h2
  have h3' : (0 : ℝ) < opposite c l (exchange c j s) := by exact_mod_cast h3
  have e1 : (l.length : ℝ) + 1 - opposite c l s = opposite c l (exchange c j s) := by linarith
  have e2 : (l.length : ℝ) + 1 - opposite c l (exchange c j s) = opposite c l s := by linarith
  unfold weight
  rw [e1, e2]
  refine ⟨by positivity, ?_⟩
  field_simp

theorem re_conj_le (u v : ℂ) : |((starRingEnd ℂ) u * v).re| ≤ ‖u‖ * ‖v‖ := by
  refine (Complex.abs_re_le_norm _).trans ?_
  rw [norm_mul, Complex.norm_conj]

theorem schur (w w' a b : ℝ) (hw : 0 < w) (h : w * w' = 1) : 2 * (a * b) ≤ w * a ^ 2 + w' * b ^ 2 := by
  have h1 : 0 ≤ (w * a - b) ^ 2 := sq_nonneg _
  have h2 : w * (w * a ^ 2 + w' * b ^ 2 - 2 * (a * b)) = (w * a - b) ^ 2 := by linear_combination b ^ 2 * h
  have h3 : 0 ≤ w * a ^ 2 + w' * b ^ 2 - 2 * (a * b) := by
    by_contra hcon
    have := mul_neg_of_pos_of_neg hw (not_le.1 hcon)
    linarith
  linarith

omit [Fintype ι] in
theorem bondTerm_spin (ε : ℝ) {a b : ι} (hab : a ≠ b) (φ : Wave ι) {s : Config ι} (hs : IsSpin s) :
    bondTerm ε a b φ s = (ε : ℂ) * (if s a ≠ s b then 2 * φ (exchange a b s) else 0) + (s a : ℂ) * ((s b : ℂ) * φ s) := by
  unfold bondTerm
  rw [xx_yy hs hab]
  rfl

theorem bond_lower (ε : ℝ) (hε : |ε| ≤ 1) (c : ι) (l : List ι) (hnd : l.Nodup) (hc : c ∉ l) (j : ι) (hj : j ∈ l) (φ : Wave ι) :
    ∑ s ∈ allSpins ι, ((s c : ℝ) * s j - if s c ≠ s j then 2 * weight c l s else 0) * ‖φ s‖ ^ 2
      ≤ form φ (bondTerm ε c j φ) := by
  have hcj : c ≠ j := fun h => hc (h ▸ hj)
  set g : Config ι → ℝ := fun s => if s c ≠ s j then weight c l s * ‖φ s‖ ^ 2 else 0 with hg
  have hpt : ∀ s ∈ allSpins ι, (s c : ℝ) * s j * ‖φ s‖ ^ 2 - (g s + g (exchange c j s)) ≤
      ((starRingEnd ℂ) (φ s) * bondTerm ε c j φ s).re := by
    intro s hs
    have hs := (mem_allSpins s).1 hs
    rw [bondTerm_spin ε hcj φ hs, mul_add, Complex.add_re]
    have hz : ((starRingEnd ℂ) (φ s) * ((s c : ℂ) * ((s j : ℂ) * φ s))).re = (s c : ℝ) * s j * ‖φ s‖ ^ 2 := by
      have : (starRingEnd ℂ) (φ s) * ((s c : ℂ) * ((s j : ℂ) * φ s)) = (((s c : ℝ) * s j * ‖φ s‖ ^ 2 : ℝ) : ℂ) := by
        push_cast
        rw [← Complex.conj_mul']
        ring
      rw [this, Complex.ofReal_re]
    rw [hz]
    have hx1 : exchange c j s c = s j := by rw [exchange_apply, Equiv.swap_apply_left]
    have hx2 : exchange c j s j = s c := by rw [exchange_apply, Equiv.swap_apply_right]
    by_cases hne : s c ≠ s j
    · simp only [hg, hx1, hx2]
      rw [if_pos hne, if_pos hne, if_pos hne.symm]
      obtain ⟨hw, hww⟩ := weight_mul c l hnd hc s hs j hj hne
      have h1 := schur _ _ ‖φ s‖ ‖φ (exchange c j s)‖ hw hww
      have h2 : |((starRingEnd ℂ) (φ s) * ((ε : ℂ) * (2 * φ (exchange c j s)))).re| ≤ 2 * (‖φ s‖ * ‖φ (exchange c j s)‖) := by
        refine (re_conj_le _ _).trans ?_
        rw [norm_mul, norm_mul, Complex.norm_real, Real.norm_eq_abs, Complex.norm_two]
        have h3 : 0 ≤ ‖φ s‖ * ‖φ (exchange c j s)‖ := by positivity
        calc ‖φ s‖ * (|ε| * (2 * ‖φ (exchange c j s)‖)) = |ε| * (2 * (‖φ s‖ * ‖φ (exchange c j s)‖)) := by ring
          _ ≤ 1 * (2 * (‖φ s‖ * ‖φ (exchange c j s)‖)) := by gcongr
          _ = _ := one_mul _
      have h3 := (abs_le.1 h2).1
      linarith
    · simp only [hg, hx1, hx2]
      rw [if_neg hne, if_neg hne, if_neg fun h => hne h.symm]
      simp
  have hsum := Finset.sum_le_sum hpt
  unfold form
  refine le_trans (le_of_eq ?_) hsum
  rw [Finset.sum_sub_distrib, Finset.sum_add_distrib, sum_allSpins_exchange c j g, ← Finset.sum_add_distrib,
    ← Finset.sum_sub_distrib]
  refine Finset.sum_congr rfl fun s _ => ?_
  simp only [hg]
  split <;> ring

/-- The lowest energy of a spin coupled to `z` others is `-(z + 2)`. -/
theorem star_lower (ε : ℝ) (hε : |ε| ≤ 1) (c : ι) (l : List ι) (hnd : l.Nodup) (hc : c ∉ l) (φ : Wave ι) :
    -((l.length : ℝ) + 2) * total φ ≤ (l.map fun j => form φ (bondTerm ε c j φ)).sum := by
  have h1 : (l.map fun j => ∑ s ∈ allSpins ι, ((s c : ℝ) * s j - if s c ≠ s j then 2 * weight c l s else 0) * ‖φ s‖ ^ 2).sum ≤
      (l.map fun j => form φ (bondTerm ε c j φ)).sum :=
    List.sum_le_sum fun j hj => bond_lower ε hε c l hnd hc j hj φ
  refine le_trans ?_ h1
  have hswap : ∀ (w : Config ι → ℝ) (l' : List ι),
      (l'.map fun j => ∑ s ∈ allSpins ι, ((s c : ℝ) * s j - if s c ≠ s j then 2 * w s else 0) * ‖φ s‖ ^ 2).sum =
      ∑ s ∈ allSpins ι, ((l'.length : ℝ) - 2 * opposite c l' s - 2 * opposite c l' s * w s) * ‖φ s‖ ^ 2 := by
    intro w l'
    induction l' with
    | nil => simp [opposite]
    | cons j l' ih =>
      rw [List.map_cons, List.sum_cons, ih, ← Finset.sum_add_distrib]
      refine Finset.sum_congr rfl fun s hs => ?_
      have hs := (mem_allSpins s).1 hs
      unfold opposite
      rw [List.filter_cons]
      by_cases hne : s c = s j
      · rw [if_neg (by simpa using hne), if_neg (by simpa using hne), List.length_cons]
        have : (s c : ℝ) * s j = 1 := by
          rw [hne]
          rcases hs j with h | h <;> simp [h]
        rw [this]
        push_cast
        ring
      · rw [if_pos hne, if_pos (by simpa using hne), List.length_cons, List.length_cons]
        have : (s c : ℝ) * s j = -1 := by
          rcases hs c with h | h <;> rcases hs j with h' | h' <;> simp_all
        rw [this]
        push_cast
        ring
  rw [hswap (weight c l) l]
  unfold total
  rw [Finset.mul_sum]
  refine Finset.sum_le_sum fun s _ => ?_
  gcongr
  unfold weight
  by_cases h0 : (opposite c l s : ℝ) = 0
  · rw [h0]
    have : (0 : ℝ) ≤ l.length := Nat.cast_nonneg _
    simp
    linarith
  · rw [show 2 * (opposite c l s : ℝ) * (((l.length : ℝ) + 1 - opposite c l s) / opposite c l s) =
      2 * ((l.length : ℝ) + 1 - opposite c l s) by field_simp]
    linarith

/-- The other ends of the bonds of `c`. -/
def nbrs (bonds : List (ι × ι)) (c : ι) : List ι :=
  bonds.filterMap fun b => if b.1 = c then some b.2 else if b.2 = c then some b.1 else none

/-- If every bond has one end in `A`, the sum over the bonds is the sum over the stars around `A`. -/
theorem sum_stars (bonds : List (ι × ι)) (A : ι → Bool) (hA : ∀ b ∈ bonds, A b.1 = !A b.2) (g : ι → ι → ℝ)
    (hg : ∀ b ∈ bonds, g b.1 b.2 = g b.2 b.1) :
    (bonds.map fun b => g b.1 b.2).sum = ∑ c ∈ Finset.univ.filter (fun c => A c), ((nbrs bonds c).map (g c)).sum := by
  induction bonds with
  | nil => simp [nbrs]
  | cons b bonds ih =>
    rw [List.map_cons, List.sum_cons, ih (fun b' hb' => hA b' (List.mem_cons_of_mem _ hb')) fun b' hb' => hg b' (List.mem_cons_of_mem _ hb')]
    have hsplit : ∀ c, ((nbrs (b :: bonds) c).map (g c)).sum =
        (if b.1 = c then g c b.2 else if b.2 = c then g c b.1 else 0) + ((nbrs bonds c).map (g c)).sum := by
      intro c
      unfold nbrs
      rw [List.filterMap_cons]
      by_cases h1 : b.1 = c
      · simp [h1]
      · by_cases h2 : b.2 = c
        · simp [h1, h2]
        · simp [h1, h2]
    simp only [hsplit]
    rw [Finset.sum_add_distrib]
    congr 1
    have hb := hA b List.mem_cons_self
    have hgb := hg b List.mem_cons_self
    by_cases h1 : A b.1 = true
    · have h2 : A b.2 = false := by rw [h1] at hb; simpa using hb.symm
      rw [Finset.sum_eq_single b.1]
      · simp
      · intro c hc hne
        have hc : A c = true := by simpa using hc
        rw [if_neg (Ne.symm hne), if_neg fun h => by rw [h, hc] at h2; exact absurd h2 (by simp)]
      · intro hn
        exact absurd (by simpa using h1) hn
    · have h1 : A b.1 = false := by simpa using h1
      have h2 : A b.2 = true := by rw [h1] at hb; simpa using hb.symm
      rw [Finset.sum_eq_single b.2]
      · have : b.1 ≠ b.2 := fun h => by rw [h, h2] at h1; exact absurd h1 (by simp)
        rw [if_neg this, if_pos rfl, hgb]
      · intro c hc hne
        have hc : A c = true := by simpa using hc
        rw [if_neg fun h => by rw [h, hc] at h1; exact absurd h1 (by simp), if_neg (Ne.symm hne)]
      · intro hn
        exact absurd (by simpa using h2) hn

/-- If every bond has one end in `A`, no energy of the Heisenberg model is below `-(bonds + 2 |A|)`. -/
theorem heisenberg_ge (bonds : List (ι × ι)) (A : ι → Bool) (hA : ∀ b ∈ bonds, A b.1 = !A b.2)
    (hnd : ∀ c, A c = true → (nbrs bonds c).Nodup) (ε : ℝ) (hε : |ε| ≤ 1) (lam : ℝ) (φ : Wave ι)
    (hφ : Eigenstate (heisenberg bonds ε) lam φ) :
    -((bonds.length : ℝ) + 2 * (Finset.univ.filter fun c => A c).card) ≤ lam := by
  have hpos := total_pos _ _ _ hφ
  have hne : ∀ b ∈ bonds, b.1 ≠ b.2 := fun b hb h => by
    have := hA b hb
    rw [h] at this
    cases hb2 : A b.2 <;> simp [hb2] at this
  have h1 : form φ (heisenberg bonds ε φ) = (bonds.map fun b => form φ (bondTerm ε b.1 b.2 φ)).sum :=
    form_list φ bonds fun b => bondTerm ε b.1 b.2 φ
  have hsym : ∀ b ∈ bonds, form φ (bondTerm ε b.1 b.2 φ) = form φ (bondTerm ε b.2 b.1 φ) := by
    intro b hb
    unfold form
    refine Finset.sum_congr rfl fun s hs => ?_
    have hs := (mem_allSpins s).1 hs
    rw [bondTerm_spin ε (hne b hb) φ hs, bondTerm_spin ε (hne b hb).symm φ hs]
    have hx : exchange b.2 b.1 s = exchange b.1 b.2 s := by
      rw [exchange_eq_comp, exchange_eq_comp, Equiv.swap_comm]
    rw [hx]
    by_cases h : s b.1 = s b.2
    · rw [if_neg (by simpa using h), if_neg (by simpa using h.symm), h]
    · rw [if_pos h, if_pos (Ne.symm h)]
      congr 2
      ring
  have h2 := sum_stars bonds A hA (fun a b => form φ (bondTerm ε a b φ)) hsym
  have h3 := sum_stars bonds A hA (fun _ _ => 1) fun _ _ => rfl
  have h4 : ∑ c ∈ Finset.univ.filter (fun c => A c), -(((nbrs bonds c).length : ℝ) + 2) * total φ ≤
      ∑ c ∈ Finset.univ.filter (fun c => A c), ((nbrs bonds c).map fun j => form φ (bondTerm ε c j φ)).sum := by
    refine Finset.sum_le_sum fun c hc => star_lower ε hε c _ (hnd c (by simpa using hc)) ?_ φ
    have hc : A c = true := by simpa using hc
    intro hmem
    unfold nbrs at hmem
    obtain ⟨b, hb, hbc⟩ := List.mem_filterMap.1 hmem
    have hAb := hA b hb
    split at hbc
    · next hb1 =>
      have hb2 : b.2 = c := by simpa using hbc
      rw [hb1, hb2, hc] at hAb
      simp at hAb
    · split at hbc
      · next hb1 hb2 => exact hb1 (by simpa using hbc)
      · simp at hbc
  rw [← h2, ← h1, form_eigen _ _ _ hφ] at h4
  have h5 : (bonds.length : ℝ) = ∑ c ∈ Finset.univ.filter (fun c => A c), ((nbrs bonds c).length : ℝ) := by
    simpa using h3
  have h6 : ∑ c ∈ Finset.univ.filter (fun c => A c), -(((nbrs bonds c).length : ℝ) + 2) * total φ =
      -((bonds.length : ℝ) + 2 * (Finset.univ.filter fun c => A c).card) * total φ := by
    rw [← Finset.sum_mul, Finset.sum_neg_distrib, Finset.sum_add_distrib, ← h5, Finset.sum_const, nsmul_eq_mul]
    ring
  rw [h6] at h4
  exact le_of_mul_le_mul_right h4 hpos

/-! ### The Ising model, bond by bond -/

theorem form_X_le (i : ι) (φ : Wave ι) : |form φ (pauliX i φ)| ≤ total φ := by
  unfold form total
  refine (Finset.abs_sum_le_sum_abs _ _).trans ?_
  have h1 : ∀ s ∈ allSpins ι, |((starRingEnd ℂ) (φ s) * pauliX i φ s).re| ≤
      (‖φ s‖ ^ 2 + ‖φ (Operators.flip i s)‖ ^ 2) / 2 := by
    intro s _
    refine (re_conj_le _ _).trans ?_
    have := sq_nonneg (‖φ s‖ - ‖φ (Operators.flip i s)‖)
    show ‖φ s‖ * ‖φ (Operators.flip i s)‖ ≤ _
    nlinarith
  refine (Finset.sum_le_sum h1).trans (le_of_eq ?_)
  rw [← Finset.sum_div, Finset.sum_add_distrib, sum_allSpins_flip i fun s => ‖φ s‖ ^ 2]
  ring

theorem cross_zero (a b : ι) (hab : a ≠ b) (φ : Wave ι) :
    ∑ s ∈ allSpins ι, (s a : ℝ) * s b * ((starRingEnd ℂ) (φ s) * φ (Operators.flip a s)).re = 0 ∧
    ∑ s ∈ allSpins ι, (s a : ℝ) * s b * ((starRingEnd ℂ) (φ s) * φ (Operators.flip b s)).re = 0 := by
  have key : ∀ i : ι, (∀ s : Config ι, ((Operators.flip i s a : ℤ) : ℝ) * (Operators.flip i s b : ℤ) = -((s a : ℝ) * s b)) →
      ∑ s ∈ allSpins ι, (s a : ℝ) * s b * ((starRingEnd ℂ) (φ s) * φ (Operators.flip i s)).re = 0 := by
    intro i hi
    have h := sum_allSpins_flip i fun s => (s a : ℝ) * s b * ((starRingEnd ℂ) (φ s) * φ (Operators.flip i s)).re
    have h2 : ∀ s : Config ι, ((starRingEnd ℂ) (φ (Operators.flip i s)) * φ (Operators.flip i (Operators.flip i s))).re =
        ((starRingEnd ℂ) (φ s) * φ (Operators.flip i s)).re := by
      intro s
      rw [Operators.flip_flip]
      simp [Complex.mul_re]
      ring
    simp only [hi, h2] at h
    have h3 : ∑ s ∈ allSpins ι, -((s a : ℝ) * s b) * ((starRingEnd ℂ) (φ s) * φ (Operators.flip i s)).re =
        -∑ s ∈ allSpins ι, (s a : ℝ) * s b * ((starRingEnd ℂ) (φ s) * φ (Operators.flip i s)).re := by
      rw [← Finset.sum_neg_distrib]
      exact Finset.sum_congr rfl fun s _ => by ring
    rw [h3] at h
    linarith
  constructor
  · refine key a fun s => ?_
    unfold Operators.flip
    rw [Function.update_self, Function.update_of_ne hab.symm]
    push_cast
    ring
  · refine key b fun s => ?_
    unfold Operators.flip
    rw [Function.update_self, Function.update_of_ne hab]
    push_cast
    ring

theorem ising_bond (J c r : ℝ) (hr : 0 < r) (hJ : J ^ 2 + 4 * c ^ 2 ≤ r ^ 2) (a b : ι) (hab : a ≠ b) (φ : Wave ι) :
    J * form φ (pauliZ a (pauliZ b φ)) + c * (form φ (pauliX a φ) + form φ (pauliX b φ)) ≤ r * total φ := by
  obtain ⟨hca, hcb⟩ := cross_zero a b hab φ
  have hpt : ∀ s ∈ allSpins ι, 2 * r * (J * ((starRingEnd ℂ) (φ s) * pauliZ a (pauliZ b φ) s).re +
        c * (((starRingEnd ℂ) (φ s) * pauliX a φ s).re + ((starRingEnd ℂ) (φ s) * pauliX b φ s).re)) ≤
      (r ^ 2 + J ^ 2) * ‖φ s‖ ^ 2 + 2 * c ^ 2 * (‖φ (Operators.flip a s)‖ ^ 2 + ‖φ (Operators.flip b s)‖ ^ 2) +
        2 * J * c * ((s a : ℝ) * s b * ((starRingEnd ℂ) (φ s) * φ (Operators.flip a s)).re +
          (s a : ℝ) * s b * ((starRingEnd ℂ) (φ s) * φ (Operators.flip b s)).re) := by
    intro s hs
    have hs := (mem_allSpins s).1 hs
    simp only [pauliX, pauliZ]
    have hz : ∃ z : ℝ, (s a : ℝ) * s b = z ∧ z ^ 2 = 1 ∧ (s a : ℂ) * (s b : ℂ) = (z : ℂ) := by
      refine ⟨(s a : ℝ) * s b, rfl, ?_, by push_cast; ring⟩
      rcases hs a with h | h <;> rcases hs b with h' | h' <;> simp [h, h']
    obtain ⟨z, hz1, hz2, hz3⟩ := hz
    rw [hz1, ← mul_assoc (s a : ℂ), hz3]
    generalize φ s = u
    generalize φ (Operators.flip a s) = v
    generalize φ (Operators.flip b s) = w
    rw [← Complex.normSq_eq_norm_sq, ← Complex.normSq_eq_norm_sq, ← Complex.normSq_eq_norm_sq]
    simp only [Complex.normSq_apply, Complex.mul_re, Complex.conj_re, Complex.conj_im, Complex.ofReal_re, Complex.ofReal_im,
      Complex.mul_im]
    have e1 := sq_nonneg (r * u.re - (J * z * u.re + c * v.re + c * w.re))
    have e2 := sq_nonneg (r * u.im - (J * z * u.im + c * v.im + c * w.im))
    have e3 := sq_nonneg (c * (v.re - w.re))
    have e4 := sq_nonneg (c * (v.im - w.im))
    have hz4 : J ^ 2 * z ^ 2 = J ^ 2 := by rw [hz2, mul_one]
    have key : (r ^ 2 + J ^ 2) * (u.re * u.re + u.im * u.im) +
        2 * c ^ 2 * (v.re * v.re + v.im * v.im + (w.re * w.re + w.im * w.im)) +
        2 * J * c * (z * (u.re * v.re - -u.im * v.im) + z * (u.re * w.re - -u.im * w.im)) -
        2 * r * (J * (u.re * (z * u.re - 0 * u.im) - -u.im * (z * u.im + 0 * u.re)) +
          c * (u.re * v.re - -u.im * v.im + (u.re * w.re - -u.im * w.im))) =
        (r * u.re - (J * z * u.re + c * v.re + c * w.re)) ^ 2 + (r * u.im - (J * z * u.im + c * v.im + c * w.im)) ^ 2 +
        (c * (v.re - w.re)) ^ 2 + (c * (v.im - w.im)) ^ 2 := by
      linear_combination -(u.re * u.re + u.im * u.im) * hz4
    linarith
  have hsum := Finset.sum_le_sum hpt
  have hl : ∑ s ∈ allSpins ι, 2 * r * (J * ((starRingEnd ℂ) (φ s) * pauliZ a (pauliZ b φ) s).re +
        c * (((starRingEnd ℂ) (φ s) * pauliX a φ s).re + ((starRingEnd ℂ) (φ s) * pauliX b φ s).re)) =
      2 * r * (J * form φ (pauliZ a (pauliZ b φ)) + c * (form φ (pauliX a φ) + form φ (pauliX b φ))) := by
    unfold form
    rw [← Finset.mul_sum, Finset.sum_add_distrib, ← Finset.mul_sum, ← Finset.mul_sum, Finset.sum_add_distrib]
  have hr' : ∑ s ∈ allSpins ι, ((r ^ 2 + J ^ 2) * ‖φ s‖ ^ 2 +
        2 * c ^ 2 * (‖φ (Operators.flip a s)‖ ^ 2 + ‖φ (Operators.flip b s)‖ ^ 2) +
        2 * J * c * ((s a : ℝ) * s b * ((starRingEnd ℂ) (φ s) * φ (Operators.flip a s)).re +
          (s a : ℝ) * s b * ((starRingEnd ℂ) (φ s) * φ (Operators.flip b s)).re)) =
      (r ^ 2 + J ^ 2 + 4 * c ^ 2) * total φ := by
    rw [Finset.sum_add_distrib, Finset.sum_add_distrib, ← Finset.mul_sum, ← Finset.mul_sum, ← Finset.mul_sum,
      Finset.sum_add_distrib, Finset.sum_add_distrib, hca, hcb, sum_allSpins_flip a fun s => ‖φ s‖ ^ 2,
      sum_allSpins_flip b fun s => ‖φ s‖ ^ 2]
    unfold total
    ring
  rw [hl, hr'] at hsum
  have ht : 0 ≤ total φ := Finset.sum_nonneg fun _ _ => by positivity
  have h1 : (r ^ 2 + J ^ 2 + 4 * c ^ 2) * total φ ≤ 2 * r * (r * total φ) := by nlinarith
  have h2 := hsum.trans h1
  exact le_of_mul_le_mul_left h2 (by positivity)

/-- The number of bonds of a site. -/
def degree (bonds : List (ι × ι)) (i : ι) : ℕ :=
  (bonds.map fun b => (if b.1 = i then 1 else 0) + if b.2 = i then 1 else 0).sum

theorem sum_degree (bonds : List (ι × ι)) (F : ι → ℝ) :
    (bonds.map fun b => F b.1 + F b.2).sum = ∑ i, (degree bonds i : ℝ) * F i := by
  induction bonds with
  | nil => simp [degree]
  | cons b bonds ih =>
    rw [List.map_cons, List.sum_cons, ih]
    have : ∀ i, (degree (b :: bonds) i : ℝ) * F i = ((if b.1 = i then F i else 0) + if b.2 = i then F i else 0) + degree bonds i * F i := by
      intro i
      unfold degree
      rw [List.map_cons, List.sum_cons]
      push_cast
      split <;> split <;> ring
    simp only [this]
    rw [Finset.sum_add_distrib, Finset.sum_add_distrib]
    simp

/-- If every site has at most `D` bonds, no energy of the Ising model is below
`-(bonds * r + h (sites - 2 bonds / D))`, where `r² = J² + 4 h² / D²`. -/
theorem tfim_ge (bonds : List (ι × ι)) (hne : ∀ b ∈ bonds, b.1 ≠ b.2) (field J c r : ℝ) (hr : 0 < r) (hJ : J ^ 2 + 4 * c ^ 2 ≤ r ^ 2)
    (hc : ∀ i, c * degree bonds i ≤ field) (lam : ℝ) (φ : Wave ι) (hφ : Eigenstate (tfim bonds field J) lam φ) :
    -(bonds.length * r + (field * Fintype.card ι - 2 * c * bonds.length)) ≤ lam := by
  have hpos := total_pos _ _ _ hφ
  have h1 : form φ (tfim bonds field J φ) = -J * (bonds.map fun b => form φ (pauliZ b.1 (pauliZ b.2 φ))).sum -
      field * ∑ i, form φ (pauliX i φ) := by
    rw [← form_list φ bonds fun b => pauliZ b.1 (pauliZ b.2 φ)]
    unfold form tfim
    rw [Finset.sum_comm (s := Finset.univ), Finset.mul_sum, Finset.mul_sum, ← Finset.sum_sub_distrib]
    refine Finset.sum_congr rfl fun s _ => ?_
    rw [← Complex.re_sum, ← Finset.mul_sum, mul_sub, Complex.sub_re]
    congr 1
    · rw [mul_left_comm, ← Complex.ofReal_neg, Complex.re_ofReal_mul]
    · rw [mul_left_comm, Complex.re_ofReal_mul]
  rw [form_eigen _ _ _ hφ] at h1
  have h2 : (bonds.map fun b => J * form φ (pauliZ b.1 (pauliZ b.2 φ)) + c * (form φ (pauliX b.1 φ) + form φ (pauliX b.2 φ))).sum ≤
      bonds.length * (r * total φ) := by
    have : (bonds.map fun b => J * form φ (pauliZ b.1 (pauliZ b.2 φ)) + c * (form φ (pauliX b.1 φ) + form φ (pauliX b.2 φ))).sum ≤
        (bonds.map fun _ => r * total φ).sum := List.sum_le_sum fun b hb => ising_bond J c r hr hJ b.1 b.2 (hne b hb) φ
    simpa using this
  rw [List.sum_map_add, List.sum_map_mul_left, List.sum_map_mul_left, sum_degree bonds fun i => form φ (pauliX i φ)] at h2
  have h3 : ∑ i, (field - c * degree bonds i) * form φ (pauliX i φ) ≤ ∑ i, (field - c * degree bonds i) * total φ :=
    Finset.sum_le_sum fun i _ => mul_le_mul_of_nonneg_left (abs_le.1 (form_X_le i φ)).2 (by linarith [hc i])
  have h4 : ∑ i : ι, (degree bonds i : ℝ) = 2 * bonds.length := by
    have := sum_degree bonds fun _ => 1
    simp only [mul_one] at this
    rw [← this]
    simp
    ring
  have h5 : ∑ i, (field - c * degree bonds i) * form φ (pauliX i φ) =
      field * ∑ i, form φ (pauliX i φ) - c * ∑ i, (degree bonds i : ℝ) * form φ (pauliX i φ) := by
    rw [Finset.mul_sum, Finset.mul_sum, ← Finset.sum_sub_distrib]
    exact Finset.sum_congr rfl fun i _ => by ring
  have h6 : ∑ i, (field - c * degree bonds i) * total φ = (field * Fintype.card ι - 2 * c * bonds.length) * total φ := by
    rw [← Finset.sum_mul, Finset.sum_sub_distrib, ← Finset.mul_sum, h4, Finset.sum_const, nsmul_eq_mul, Finset.card_univ]
    ring
  rw [h5, h6] at h3
  have h7 : -(bonds.length * r + (field * Fintype.card ι - 2 * c * bonds.length)) * total φ ≤ lam * total φ := by
    rw [h1]
    linarith
  exact le_of_mul_le_mul_right h7 hpos

end Verif.Experiment
