import Verif.Energy.Unbiased
import Verif.Samplers.Range

/-!
# C148: small errors of the amplitudes change the energies only a little

The networks compute in single precision (layers/complex/casting.py:32 `ToComplex64`, machines/abstract_machine.py:35), so the
logarithms of the amplitudes that the estimators see (observables/monte_carlo/operator.py:19-53,
optimization/exact_variational.py:77-98) are a little off. The theorems bound what becomes of the energies when every
logarithm is off by at most `ε`. The arithmetic of the estimators themselves is exact here.
-/
namespace Verif.Energy

open Verif.Operators

variable {ι : Type} [DecidableEq ι] [Fintype ι]

/-! ### Specification -/

/-- The outputs of two networks differ by at most `ε` on every configuration. -/
def OffBy (ε : ℝ) (logψ logψ' : Config ι → ℂ) : Prop := ∀ s, IsSpin s → ‖logψ' s - logψ s‖ ≤ ε

/-- The sum of the sizes of the terms of a local energy. -/
noncomputable def termSize (conn : Config ι → List (Row ι ℝ)) (logψ : Config ι → ℂ) (s : Config ι) : ℝ :=
  ((conn s).map fun r => |r.mel| * ‖Complex.exp (logψ r.conn - logψ s)‖).sum

/-- Local energies and their mean, as estimated on one batch of samples with the outputs of two networks. -/
def StableEstimate (conn : Config ι → List (Row ι ℝ))
    (est : (B : Nat) → (Config ι → ℂ) → (Fin B → Config ι) → Option (ℂ × ℝ × List ℂ)) : Prop :=
  ∀ (B : Nat) (sample : Fin B → Config ι), (∀ b, IsSpin (sample b)) → ∀ (ε : ℝ) (logψ logψ' : Config ι → ℂ), OffBy ε logψ logψ' →
    ∃ E v lv E' v' lv', est B logψ sample = some (E, v, lv) ∧ est B logψ' sample = some (E', v', lv') ∧
      (∀ b : Fin B, ‖lv'.getD b 0 - lv.getD b 0‖ ≤ (Real.exp (2 * ε) - 1) * termSize conn logψ (sample b)) ∧
      ‖E' - E‖ ≤ (Real.exp (2 * ε) - 1) * ((∑ b, termSize conn logψ (sample b)) / B)

open Verif.Energy.Exact in
/-- The energies that exact evaluation reports for two networks, for every accepted batch size and whatever was evaluated
before; `M` bounds the sums of the absolute values of the matrix elements of a row. -/
def StableExact {N : Nat} (e : ι ≃ Fin N) (op : (B : Nat) → (Fin B → Config ι) → Fin B → List (Row ι ℝ)) (R : Nat) (M : ℝ) : Prop :=
  ∀ batch, 0 < batch → (2 ^ N ≤ batch ∨ batch ∣ 2 ^ N) → ∃ o, Obj.new (spinSetup e op R) batch = .ok o ∧
    ∀ (nets nets' : List (Config ι → ℂ)) (net net' : Config ι → ℂ) (ε : ℝ), OffBy ε net net' →
      ‖(after o nets' net').arrays.energy - (after o nets net).arrays.energy‖ ≤ 2 * M * (Real.exp (2 * ε) * (Real.exp (2 * ε) - 1))

/-! ### Proof -/

theorem norm_exp_sub_one (z : ℂ) {δ : ℝ} (h : ‖z‖ ≤ δ) : ‖Complex.exp z - 1‖ ≤ Real.exp δ - 1 := by
  have h1 := Complex.norm_exp_sub_sum_le_exp_norm_sub_sum z 1
  simp only [Finset.sum_range_one, pow_zero, Nat.factorial_zero, Nat.cast_one, div_one] at h1
  exact h1.trans (sub_le_sub_right (Real.exp_le_exp.2 h) _)

omit [DecidableEq ι] [Fintype ι] in
theorem localEnergy_rows (conn : List (Row ι ℝ)) (logψ : Config ι → ℂ) (s : Config ι) :
    applyRows conn (fun s => Complex.exp (logψ s)) / Complex.exp (logψ s) =
      (conn.map fun r => (r.mel : ℂ) * Complex.exp (logψ r.conn - logψ s)).sum := by
  induction conn with
  | nil => simp [applyRows]
  | cons r l ih =>
    simp only [applyRows, List.map_cons, List.sum_cons] at ih ⊢
    rw [add_div, ih, Complex.exp_sub]
    congr 1
    ring

omit [DecidableEq ι] [Fintype ι] in
theorem localEnergy_off {ε : ℝ} {logψ logψ' : Config ι → ℂ} (h : OffBy ε logψ logψ') {s : Config ι} (hs : IsSpin s)
    (l : List (Row ι ℝ)) (hl : ∀ r ∈ l, IsSpin r.conn) :
    ‖(l.map fun r => (r.mel : ℂ) * Complex.exp (logψ' r.conn - logψ' s)).sum - (l.map fun r => (r.mel : ℂ) * Complex.exp (logψ r.conn - logψ s)).sum‖ ≤
      (Real.exp (2 * ε) - 1) * (l.map fun r => |r.mel| * ‖Complex.exp (logψ r.conn - logψ s)‖).sum := by
  induction l with
  | nil => simp
  | cons r l ih =>
    simp only [List.map_cons, List.sum_cons, mul_add]
    rw [add_sub_add_comm]
    refine (norm_add_le _ _).trans (add_le_add ?_ (ih fun r hr => hl r (List.mem_cons_of_mem _ hr)))
    set d : ℂ := (logψ' r.conn - logψ r.conn) - (logψ' s - logψ s) with hd
    have hdn : ‖d‖ ≤ 2 * ε := by
      refine (norm_sub_le _ _).trans ?_
      have := h s hs
      have := h r.conn (hl r (List.mem_cons_self ..))
      linarith
    have e : (r.mel : ℂ) * Complex.exp (logψ' r.conn - logψ' s) - (r.mel : ℂ) * Complex.exp (logψ r.conn - logψ s) =
        (r.mel : ℂ) * Complex.exp (logψ r.conn - logψ s) * (Complex.exp d - 1) := by
      have : logψ' r.conn - logψ' s = (logψ r.conn - logψ s) + d := by rw [hd]; ring
      rw [this, Complex.exp_add]
      ring
    rw [e, norm_mul, norm_mul, Complex.norm_real, Real.norm_eq_abs, mul_comm]
    exact mul_le_mul_of_nonneg_right (norm_exp_sub_one d hdn) (by positivity)

theorem stableEstimate_of {conn : Config ι → List (Row ι ℝ)} (hconn : ∀ s, IsSpin s → ∀ r ∈ conn s, IsSpin r.conn) {H : Wave ι → Wave ι}
    (hH : ∀ s, IsSpin s → ∀ ψ, applyRows (conn s) ψ = H ψ s)
    {est : (B : Nat) → (Config ι → ℂ) → (Fin B → Config ι) → Option (ℂ × ℝ × List ℂ)}
    (hest : ∀ B sample, (∀ b, IsSpin (sample b)) → ∀ logψ, LocalEnergies H sample logψ (est B logψ sample)) : StableEstimate conn est := by
  intro B sample hs ε logψ logψ' hoff
  obtain ⟨v, hv⟩ := (hest B sample hs logψ).values
  obtain ⟨v', hv'⟩ := (hest B sample hs logψ').values
  have hloc : ∀ b, ‖H (fun s => Complex.exp (logψ' s)) (sample b) / Complex.exp (logψ' (sample b)) -
      H (fun s => Complex.exp (logψ s)) (sample b) / Complex.exp (logψ (sample b))‖ ≤ (Real.exp (2 * ε) - 1) * termSize conn logψ (sample b) := by
    intro b
    rw [← hH _ (hs b), ← hH _ (hs b), localEnergy_rows, localEnergy_rows]
    exact localEnergy_off hoff (hs b) _ (hconn _ (hs b))
  refine ⟨_, _, _, _, _, _, hv, hv', fun b => ?_, ?_⟩
  · have e : ∀ f : Fin B → ℂ, ((List.finRange B).map f).getD b 0 = f b := by
      intro f
      simp [List.getD_eq_getElem?_getD]
    rw [e, e]
    exact hloc b
  · rw [← sub_div, ← Finset.sum_sub_distrib, norm_div, Complex.norm_natCast, ← mul_div_assoc, Finset.mul_sum]
    refine div_le_div_of_nonneg_right ((norm_sum_le _ _).trans (Finset.sum_le_sum fun b _ => hloc b)) (Nat.cast_nonneg _)

theorem matrixElement_sum_le (rows : List (Row ι ℝ)) : ∑ t ∈ allSpins ι, |matrixElement rows t| ≤ (rows.map fun r => |r.mel|).sum := by
  classical
  unfold matrixElement
  induction rows with
  | nil => simp
  | cons r rows ih =>
    simp only [List.map_cons, List.sum_cons]
    refine (Finset.sum_le_sum fun t _ => abs_add_le _ _).trans ?_
    rw [Finset.sum_add_distrib]
    refine add_le_add ?_ ih
    refine (Finset.sum_le_sum (g := fun t => if r.conn = t then |r.mel| else 0) fun t _ => ?_).trans ?_
    · by_cases h : r.conn = t
      · rw [if_pos h, if_pos h]
      · rw [if_neg h, if_neg h, abs_zero]
    · rw [Finset.sum_ite_eq]
      split
      · exact le_refl _
      · exact abs_nonneg _

/-- Symmetric matrices with row sums of at most `M` are bounded by `M`. -/
theorem form_le {A : Config ι → Config ι → ℝ} (hsym : ∀ s t, A s t = A t s) {M : ℝ} (hM : ∀ s ∈ allSpins ι, ∑ t ∈ allSpins ι, |A s t| ≤ M)
    (x : Config ι → ℝ) : ∑ s ∈ allSpins ι, ∑ t ∈ allSpins ι, |A s t| * (x s * x t) ≤ M * ∑ s ∈ allSpins ι, x s ^ 2 := by
  have h1 : ∀ s t, |A s t| * (x s * x t) ≤ |A s t| * x s ^ 2 / 2 + |A s t| * x t ^ 2 / 2 := by
    intro s t
    nlinarith [mul_nonneg (abs_nonneg (A s t)) (sq_nonneg (x s - x t))]
  have h2 : ∑ s ∈ allSpins ι, ∑ t ∈ allSpins ι, |A s t| * x s ^ 2 / 2 ≤ M / 2 * ∑ s ∈ allSpins ι, x s ^ 2 := by
    rw [Finset.mul_sum]
    refine Finset.sum_le_sum fun s hs => ?_
    rw [← Finset.sum_div, ← Finset.sum_mul]
    have := mul_le_mul_of_nonneg_right (hM s hs) (sq_nonneg (x s))
    linarith
  have h3 : ∑ s ∈ allSpins ι, ∑ t ∈ allSpins ι, |A s t| * x t ^ 2 / 2 = ∑ s ∈ allSpins ι, ∑ t ∈ allSpins ι, |A s t| * x s ^ 2 / 2 := by
    rw [Finset.sum_comm]
    exact Finset.sum_congr rfl fun s _ => Finset.sum_congr rfl fun t _ => by rw [hsym t s]
  calc _ ≤ ∑ s ∈ allSpins ι, ∑ t ∈ allSpins ι, (|A s t| * x s ^ 2 / 2 + |A s t| * x t ^ 2 / 2) :=
        Finset.sum_le_sum fun s _ => Finset.sum_le_sum fun t _ => h1 s t
    _ = (∑ s ∈ allSpins ι, ∑ t ∈ allSpins ι, |A s t| * x s ^ 2 / 2) + ∑ s ∈ allSpins ι, ∑ t ∈ allSpins ι, |A s t| * x t ^ 2 / 2 := by
        simp only [Finset.sum_add_distrib]
    _ ≤ _ := by rw [h3]; linarith

/-- The Rayleigh quotients of two networks whose outputs differ by at most `ε`. -/
theorem rayleigh_off {conn : Config ι → List (Row ι ℝ)} (hconn : ∀ s, IsSpin s → ∀ r ∈ conn s, IsSpin r.conn)
    (hsym : ∀ s t, matrixElement (conn s) t = matrixElement (conn t) s) {H : Wave ι → Wave ι}
    (hH : ∀ s, IsSpin s → ∀ ψ, applyRows (conn s) ψ = H ψ s) {M : ℝ} (hM : ∀ s, IsSpin s → ((conn s).map fun r => |r.mel|).sum ≤ M)
    {ε : ℝ} {logψ logψ' : Config ι → ℂ} (hoff : OffBy ε logψ logψ') :
    ‖rayleigh H (fun s => Complex.exp (logψ' s)) - rayleigh H (fun s => Complex.exp (logψ s))‖ ≤
      2 * M * (Real.exp (2 * ε) * (Real.exp (2 * ε) - 1)) := by
  set A : Config ι → Config ι → ℝ := fun s t => matrixElement (conn s) t with hA
  set ψ : Wave ι := fun s => Complex.exp (logψ s) with hψ
  set ψ' : Wave ι := fun s => Complex.exp (logψ' s) with hψ'
  have hε : 0 ≤ ε := (norm_nonneg _).trans (hoff (fun _ => 1) fun _ => Or.inl rfl)
  have hMrow : ∀ s ∈ allSpins ι, ∑ t ∈ allSpins ι, |A s t| ≤ M := fun s hs =>
    (matrixElement_sum_le _).trans (hM s ((mem_allSpins s).1 hs))
  set D : ℝ := ∑ s ∈ allSpins ι, ‖ψ s‖ ^ 2 with hD
  set D' : ℝ := ∑ s ∈ allSpins ι, ‖ψ' s‖ ^ 2 with hD'
  have D0 : 0 < D := norm_sum_pos logψ
  have D0' : 0 < D' := norm_sum_pos logψ'
  have hnum : ∀ φ : Wave ι, ∑ s ∈ allSpins ι, (starRingEnd ℂ) (φ s) * H φ s =
      ∑ s ∈ allSpins ι, ∑ t ∈ allSpins ι, (A s t : ℂ) * ((starRingEnd ℂ) (φ s) * φ t) := by
    intro φ
    refine Finset.sum_congr rfl fun s hs => ?_
    have hs' := (mem_allSpins s).1 hs
    rw [← hH s hs' φ, applyRows_sum _ (hconn s hs'), Finset.mul_sum]
    exact Finset.sum_congr rfl fun t _ => by ring
  have hden : ∀ φ : Wave ι, ∑ s ∈ allSpins ι, (starRingEnd ℂ) (φ s) * φ s = ((∑ s ∈ allSpins ι, ‖φ s‖ ^ 2 : ℝ) : ℂ) := by
    intro φ
    rw [Complex.ofReal_sum]
    exact Finset.sum_congr rfl fun s _ => conj_mul_self _
  set δ : Config ι → ℂ := fun s => logψ' s - logψ s with hδ
  have hmul : ∀ s, ψ' s = ψ s * Complex.exp (δ s) := by
    intro s
    simp only [hψ, hψ', hδ]
    rw [← Complex.exp_add]
    congr 1
    ring
  have hfac : ∀ s ∈ allSpins ι, ∀ t ∈ allSpins ι, ‖(starRingEnd ℂ) (ψ' s) * ψ' t - (starRingEnd ℂ) (ψ s) * ψ t‖ ≤
      (Real.exp (2 * ε) - 1) * (‖ψ s‖ * ‖ψ t‖) := by
    intro s hs t ht
    have e : (starRingEnd ℂ) (ψ' s) * ψ' t - (starRingEnd ℂ) (ψ s) * ψ t =
        (starRingEnd ℂ) (ψ s) * ψ t * (Complex.exp ((starRingEnd ℂ) (δ s) + δ t) - 1) := by
      have e1 : (starRingEnd ℂ) (Complex.exp (δ s)) = Complex.exp ((starRingEnd ℂ) (δ s)) := (Complex.exp_conj _).symm
      rw [hmul s, hmul t, map_mul, e1, Complex.exp_add]
      ring
    rw [e, norm_mul, norm_mul, Complex.norm_conj, mul_comm]
    refine mul_le_mul_of_nonneg_right (norm_exp_sub_one _ ?_) (by positivity)
    refine (norm_add_le _ _).trans ?_
    rw [Complex.norm_conj]
    have := hoff s ((mem_allSpins s).1 hs)
    have := hoff t ((mem_allSpins t).1 ht)
    simp only [hδ]
    linarith
  have hx : 0 ≤ Real.exp (2 * ε) - 1 := by
    have := Real.one_le_exp (show 0 ≤ 2 * ε by linarith)
    linarith
  set Nn := ∑ s ∈ allSpins ι, (starRingEnd ℂ) (ψ s) * H ψ s with hN
  set Nn' := ∑ s ∈ allSpins ι, (starRingEnd ℂ) (ψ' s) * H ψ' s with hN'
  have hNb : ‖Nn‖ ≤ M * D := by
    rw [hN, hnum ψ]
    refine le_trans ?_ (form_le hsym hMrow fun s => ‖ψ s‖)
    refine (norm_sum_le _ _).trans (Finset.sum_le_sum fun s _ => (norm_sum_le _ _).trans (Finset.sum_le_sum fun t _ => ?_))
    rw [norm_mul, norm_mul, Complex.norm_conj, Complex.norm_real, Real.norm_eq_abs]
  have hNd : ‖Nn' - Nn‖ ≤ (Real.exp (2 * ε) - 1) * (M * D) := by
    rw [hN, hN', hnum ψ, hnum ψ', ← Finset.sum_sub_distrib]
    refine le_trans ?_ (mul_le_mul_of_nonneg_left (form_le hsym hMrow fun s => ‖ψ s‖) hx)
    rw [Finset.mul_sum]
    refine (norm_sum_le _ _).trans (Finset.sum_le_sum fun s hs => ?_)
    rw [← Finset.sum_sub_distrib, Finset.mul_sum]
    refine (norm_sum_le _ _).trans (Finset.sum_le_sum fun t ht => ?_)
    rw [← mul_sub, norm_mul, Complex.norm_real, Real.norm_eq_abs]
    calc |A s t| * _ ≤ |A s t| * ((Real.exp (2 * ε) - 1) * (‖ψ s‖ * ‖ψ t‖)) := mul_le_mul_of_nonneg_left (hfac s hs t ht) (abs_nonneg _)
      _ = _ := by ring
  have hDd : |D' - D| ≤ (Real.exp (2 * ε) - 1) * D := by
    rw [hD, hD', ← Finset.sum_sub_distrib, Finset.mul_sum]
    refine (Finset.abs_sum_le_sum_abs _ _).trans (Finset.sum_le_sum fun s hs => ?_)
    have h1 := hfac s hs s hs
    rw [conj_mul_self, conj_mul_self, ← Complex.ofReal_sub, Complex.norm_real, Real.norm_eq_abs] at h1
    calc _ ≤ _ := h1
      _ = _ := by ring
  have hDl : Real.exp (-(2 * ε)) * D ≤ D' := by
    rw [hD, hD', Finset.mul_sum]
    refine Finset.sum_le_sum fun s hs => ?_
    rw [hmul s, norm_mul, mul_pow, Complex.norm_exp (δ s), ← Real.exp_nat_mul, mul_comm]
    refine mul_le_mul_of_nonneg_left (Real.exp_le_exp.2 ?_) (by positivity)
    have h1 := Complex.abs_re_le_norm (δ s)
    have h2 := hoff s ((mem_allSpins s).1 hs)
    have h3 := neg_abs_le (δ s).re
    simp only [hδ] at h1 h3 ⊢
    push_cast
    linarith
  have hM0 : 0 ≤ M := (Finset.sum_nonneg fun t _ => abs_nonneg _).trans (hMrow (fun _ => 1) ((mem_allSpins _).2 fun _ => Or.inl rfl))
  have hray : rayleigh H ψ' - rayleigh H ψ = ((Nn' - Nn) - Nn * (((D' - D) / D : ℝ) : ℂ)) / (D' : ℂ) := by
    unfold rayleigh
    rw [hden ψ, hden ψ', ← hN, ← hN', ← hD, ← hD']
    have c1 : (D : ℂ) ≠ 0 := Complex.ofReal_ne_zero.2 D0.ne'
    have c2 : (D' : ℂ) ≠ 0 := Complex.ofReal_ne_zero.2 D0'.ne'
    push_cast
    field_simp
    ring
  rw [hray, norm_div, Complex.norm_real, Real.norm_of_nonneg D0'.le, div_le_iff₀ D0']
  have h1 : ‖(Nn' - Nn) - Nn * (((D' - D) / D : ℝ) : ℂ)‖ ≤ 2 * M * (Real.exp (2 * ε) - 1) * D := by
    refine (norm_sub_le _ _).trans ?_
    rw [norm_mul, Complex.norm_real, Real.norm_eq_abs, abs_div, abs_of_pos D0]
    have h2 : |D' - D| / D ≤ Real.exp (2 * ε) - 1 := by rwa [div_le_iff₀ D0]
    have h3 : ‖Nn‖ * (|D' - D| / D) ≤ M * D * (Real.exp (2 * ε) - 1) := mul_le_mul hNb h2 (by positivity) (by positivity)
    linarith
  refine h1.trans ?_
  have h4 : D ≤ Real.exp (2 * ε) * D' := by
    have h5 := mul_le_mul_of_nonneg_left hDl (Real.exp_pos (2 * ε)).le
    rwa [← mul_assoc, ← Real.exp_add, add_neg_cancel, Real.exp_zero, one_mul] at h5
  calc 2 * M * (Real.exp (2 * ε) - 1) * D ≤ 2 * M * (Real.exp (2 * ε) - 1) * (Real.exp (2 * ε) * D') :=
        mul_le_mul_of_nonneg_left h4 (by positivity)
    _ = _ := by ring


/-! ### The matrix elements of the operators -/

open Verif.Metropolis.Range in
theorem mel_ising_chain (n : Nat) (h j : ℝ) (pbc : Bool) (s : Config (Fin n)) (hs : IsSpin s) :
    ((isingFindConn1 (.float h) j pbc (fun _ : Fin 1 => s) 0).map fun r => |r.mel|).sum ≤ n * (|h| + |j|) := by
  rw [isingFindConn1_eq]
  simp only [List.map_cons, List.sum_cons, List.map_map]
  have h1 : ((List.finRange n).map ((fun r : Row (Fin n) ℝ => |r.mel|) ∘ fun i => ⟨Operators.flip i s, -(Operators.Field.float h).val, true⟩)).sum =
      n * |h| := by
    rw [← List.ofFn_eq_map, List.sum_ofFn]
    simp [Operators.Field.val]
  have h2 : |(Operators.Field.float h).store (∑ i : Fin n, -(j * (s i : ℝ) * (pad1 pbc s (i.val + 1) : ℝ)))| ≤ n * |j| := by
    show |∑ i : Fin n, -(j * (s i : ℝ) * (pad1 pbc s (i.val + 1) : ℝ))| ≤ n * |j|
    refine (Finset.abs_sum_le_sum_abs _ _).trans ?_
    refine (Finset.sum_le_sum (g := fun _ => |j|) fun i _ => ?_).trans (by simp)
    rw [abs_neg, abs_mul, abs_mul, abs_spin hs, mul_one]
    exact mul_le_of_le_one_right (abs_nonneg _) (abs_pad1 pbc s hs _)
  rw [h1]
  linarith

open Verif.Metropolis.Range in
theorem mel_ising_grid (n m : Nat) (h j : ℝ) (pbc : Bool) (s : Config (Fin n × Fin m)) (hs : IsSpin s) :
    ((isingFindConn2 (.float h) j pbc (fun _ : Fin 1 => s) 0).map fun r => |r.mel|).sum ≤ (n * m : Nat) * (|h| + 2 * |j|) := by
  rw [isingFindConn2_eq]
  simp only [List.map_cons, List.sum_cons, List.map_map]
  have h1 : ((gridSites n m).map ((fun r : Row (Fin n × Fin m) ℝ => |r.mel|) ∘
      fun p => ⟨Operators.flip p s, -(Operators.Field.float h).val, true⟩)).sum = (n * m : Nat) * |h| := by
    have : ((fun r : Row (Fin n × Fin m) ℝ => |r.mel|) ∘ fun p => ⟨Operators.flip p s, -(Operators.Field.float h).val, true⟩) = fun _ => |h| := by
      funext p
      simp [Operators.Field.val]
    rw [this, List.map_const', List.sum_replicate, length_gridSites, nsmul_eq_mul]
  have hterm : ∀ (c : Prop) [Decidable c] (p : Fin n × Fin m) (y : ℝ), |y| ≤ 1 → |if c then j * (s p : ℝ) * y else 0| ≤ |j| := by
    intro c _ p y hy
    split
    · rw [abs_mul, abs_mul, abs_spin hs, mul_one]
      exact mul_le_of_le_one_right (abs_nonneg _) hy
    · rw [abs_zero]
      exact abs_nonneg _
  refine (add_le_add (b := (n * m : Nat) * (2 * |j|)) ?_ h1.le).trans (by linarith)
  show |∑ p : Fin n × Fin m, _| ≤ _
  refine (Finset.abs_sum_le_sum_abs _ _).trans ?_
  refine (Finset.sum_le_sum (g := fun _ => 2 * |j|) fun p _ => ?_).trans (by simp)
  refine (abs_sub _ _).trans ?_
  rw [abs_neg, two_mul]
  exact add_le_add (hterm _ p _ (abs_pad1 pbc _ (fun i => hs _) _)) (hterm _ p _ (abs_pad1 pbc _ (fun i => hs _) _))

open Verif.Metropolis.Range in
theorem mel_heis {n m : Nat} (rot pbc : Bool) (dim : Nat) (hdim : dim = 2 ∨ (dim = 1 ∧ m = 1)) (s : Config (Fin n × Fin m)) (hs : IsSpin s) :
    ((heisRows (offDiag rot) pbc dim s).map fun r => |r.mel|).sum ≤ 3 * (gridBonds n m pbc).length := by
  unfold heisRows
  have hoff : |offDiag rot| ≤ 2 := by cases rot <;> simp [offDiag]
  rw [sum_rows (offDiag rot) pbc dim hdim s _ (fun r => |r.mel|) fun c => abs_zero]
  dsimp only
  rw [siteDiag_sum]
  have h1 : |((gridBonds n m pbc).map fun b => ((s b.1 * s b.2 : ℤ) : ℝ)).sum| ≤ (gridBonds n m pbc).length := by
    generalize gridBonds n m pbc = l
    induction l with
    | nil => simp
    | cons b l ih =>
      rw [List.map_cons, List.sum_cons, List.length_cons]
      refine (abs_add_le _ _).trans ?_
      have : |((s b.1 * s b.2 : ℤ) : ℝ)| = 1 := by
        rw [Int.cast_mul, abs_mul, abs_spin hs, abs_spin hs, mul_one]
      push_cast at ih this ⊢
      linarith
  have h2 : ((gridBonds n m pbc).map fun b => if s b.1 ≠ s b.2 then |offDiag rot| else 0).sum ≤ 2 * (gridBonds n m pbc).length := by
    generalize gridBonds n m pbc = l
    induction l with
    | nil => simp
    | cons b l ih =>
      rw [List.map_cons, List.sum_cons, List.length_cons]
      have : (if s b.1 ≠ s b.2 then |offDiag rot| else 0) ≤ 2 := by
        split
        · exact hoff
        · norm_num
      push_cast
      linarith
  linarith

theorem bonds_le (n m : Nat) (pbc : Bool) : (gridBonds n m pbc).length ≤ n * m * (if m = 1 then 1 else 2) := by
  have h0 := sum_gridBonds n m pbc fun _ => 1
  rw [List.map_const', List.sum_replicate, smul_eq_mul, mul_one] at h0
  rw [h0]
  have hopt : ∀ {α : Type} (o : Option α), (o.map fun _ => 1).getD 0 ≤ 1 := fun o => by cases o <;> simp
  refine (Finset.sum_le_sum (g := fun _ => if m = 1 then 1 else 2) fun p _ => ?_).trans (by simp)
  have h1 : ∀ (c : Prop) [Decidable c] {α : Type} (o : Option α), (if c then (o.map fun _ => 1).getD 0 else 0) ≤ 1 := by
    intro c _ α o
    split
    · exact hopt o
    · exact Nat.zero_le _
  by_cases hm : m = 1
  · rw [if_pos hm, if_neg (c := m > 1) (by omega), add_zero]
    exact h1 _ _
  · rw [if_neg hm]
    exact Nat.add_le_add (b := 1) (d := 1) (h1 _ _) (h1 _ _)

open Verif.Energy.Exact in
theorem stableExact_of {N : Nat} (e : ι ≃ Fin N) {op : (B : Nat) → (Fin B → Config ι) → Fin B → List (Row ι ℝ)} {R : Nat}
    {rowsOf : Config ι → List (Row ι ℝ)} (h : RowsOf op R rowsOf) {H : Wave ι → Wave ι} (hE : ExactEnergy e op R H)
    (hH : ∀ s, IsSpin s → ∀ ψ, applyRows (rowsOf s) ψ = H ψ s) {M : ℝ} (hM : ∀ s, IsSpin s → ((rowsOf s).map fun r => |r.mel|).sum ≤ M) :
    StableExact e op R M := by
  intro batch h0 hb
  obtain ⟨o, ho, hv⟩ := hE batch h0 hb
  refine ⟨o, ho, fun nets nets' net net' ε hoff => ?_⟩
  rw [(hv nets net).1, (hv nets' net').1]
  exact rayleigh_off h.spins h.symm hH hM hoff

/-! ### Theorems -/

/-- **C148 for Ising chains**, batches of samples and exact evaluation. -/
theorem C148_ising_chain (n : Nat) (h j : ℝ) (pbc : Bool) :
    StableEstimate (ι := Fin n) (fun s => isingFindConn1 (.float h) j pbc (fun _ : Fin 1 => s) 0) (fun B logψ sample =>
      estimate logψ (Answer.ofRows (n + 1) (isingFindConn1 (.float h) j pbc (B := B) sample) fun b => by rw [isingFindConn1_eq]; simp)) ∧
    (n ≤ 31 → StableExact (Equiv.refl (Fin n)) (fun _ sample => isingFindConn1 (.float h) j pbc sample) (n + 1) (n * (|h| + |j|))) :=
  have hH := fun s (_ : IsSpin s) ψ => C06_ising_chain h j pbc (fun _ : Fin 1 => s) 0 ψ
  ⟨stableEstimate_of (Exact.rowsOf_ising_chain n h j pbc).spins hH fun _ sample hs logψ => C18_ising_chain h j pbc sample hs logψ,
    fun hn => stableExact_of _ (Exact.rowsOf_ising_chain n h j pbc) (Exact.C20_ising_chain n hn h j pbc) hH (mel_ising_chain n h j pbc)⟩

/-- **C148 for Ising grids.** -/
theorem C148_ising_grid (n m : Nat) (h j : ℝ) (pbc : Bool) :
    StableEstimate (ι := Fin n × Fin m) (fun s => isingFindConn2 (.float h) j pbc (fun _ : Fin 1 => s) 0) (fun B logψ sample =>
      estimate logψ (Answer.ofRows (n * m + 1) (isingFindConn2 (.float h) j pbc (B := B) sample)
        fun b => by rw [isingFindConn2_eq]; simp [length_gridSites])) ∧
    (n * m ≤ 31 → StableExact (finProdFinEquiv (m := n) (n := m)) (fun _ sample => isingFindConn2 (.float h) j pbc sample) (n * m + 1)
      ((n * m : Nat) * (|h| + 2 * |j|))) :=
  have hH := fun s (_ : IsSpin s) ψ => C06_ising_grid h j pbc (fun _ : Fin 1 => s) 0 ψ
  ⟨stableEstimate_of (Exact.rowsOf_ising_grid n m h j pbc).spins hH fun _ sample hs logψ => C18_ising_grid h j pbc sample hs logψ,
    fun hn => stableExact_of _ (Exact.rowsOf_ising_grid n m h j pbc) (Exact.C20_ising_grid n m hn h j pbc) hH (mel_ising_grid n m h j pbc)⟩

/-- **C148 for Heisenberg grids**, after any history of earlier calls of the operator. -/
theorem C148_heisenberg_grid (n m : Nat) (rot pbc : Bool) (history : List (Call n m)) :
    StableEstimate (fun s => heisRows (offDiag rot) pbc 2 s) (fun B logψ sample =>
      estimate logψ (Answer.ofRows (n * m * 2 + 1) (((HeisOp.new2 n m rot pbc).run history).findConn B sample).2
        fun b => by rw [answer2]; exact length_heisRows _ _ _ (Or.inl rfl) _)) ∧
    (n * m ≤ 31 → StableExact (finProdFinEquiv (m := n) (n := m)) (fun B sample => (((HeisOp.new2 n m rot pbc).run history).findConn B sample).2) (n * m * 2 + 1)
      (6 * (n * m : Nat))) := by
  have hH := fun s hs ψ => applyRows_heisRows (n := n) (m := m) rot pbc 2 (Or.inl rfl) s hs ψ
  have hR := Exact.rowsOf_heisenberg_grid n m rot pbc history
  refine ⟨stableEstimate_of hR.spins hH fun B sample hs logψ => C18_heisenberg_grid rot pbc history B sample hs logψ,
    fun hn => stableExact_of _ hR (Exact.C20_heisenberg_grid n m hn rot pbc history) hH fun s hs => (mel_heis rot pbc 2 (Or.inl rfl) s hs).trans ?_⟩
  have h1 : (gridBonds n m pbc).length ≤ n * m * 2 := (bonds_le n m pbc).trans (Nat.mul_le_mul_left _ (by split <;> omega))
  have h2 : ((gridBonds n m pbc).length : ℝ) ≤ (n * m : Nat) * 2 := by exact_mod_cast h1
  linarith

/-- **C148 for Heisenberg chains.** -/
theorem C148_heisenberg_chain (n : Nat) (rot pbc : Bool) (history : List (Call n 1)) :
    StableEstimate (fun s => (heisRows (offDiag rot) pbc 1 (expandDims s)).map squeezeRow) (fun B logψ sample =>
      estimate logψ (Answer.ofRows (n + 1) (((HeisOp.new1 n rot pbc).run history).findConn1 B sample).2
        fun b => by rw [answer1, List.length_map, length_heisRows _ _ _ (Or.inr ⟨rfl, rfl⟩)]; omega)) ∧
    (n ≤ 31 → StableExact (Equiv.refl (Fin n)) (fun B sample => (((HeisOp.new1 n rot pbc).run history).findConn1 B sample).2) (n + 1) (3 * n)) := by
  have hH : ∀ s : Config (Fin n), IsSpin s → ∀ ψ, applyRows ((heisRows (offDiag rot) pbc 1 (expandDims s)).map squeezeRow) ψ =
      heisenberg (chainBonds' n pbc) (if rot then -1 else 1) ψ s := fun s hs ψ => by
    have := C07_heisenberg_chain rot pbc history 1 (fun _ => s) 0 hs ψ
    rwa [answer1] at this
  have hR := Exact.rowsOf_heisenberg_chain n rot pbc history
  refine ⟨stableEstimate_of hR.spins hH fun B sample hs logψ => C18_heisenberg_chain rot pbc history B sample hs logψ,
    fun hn => stableExact_of _ hR (Exact.C20_heisenberg_chain n hn rot pbc history) hH fun s hs => ?_⟩
  rw [List.map_map]
  refine (mel_heis rot pbc 1 (Or.inr ⟨rfl, rfl⟩) (expandDims s) fun p => hs p.1).trans ?_
  have h1 : (gridBonds n 1 pbc).length ≤ n := (bonds_le n 1 pbc).trans (by simp)
  have h2 : ((gridBonds n 1 pbc).length : ℝ) ≤ n := by exact_mod_cast h1
  linarith

/-- The hypothesis is met: for any network, add `1/1000` to the outputs of half of the configurations. -/
example (net : Config (Fin 4) → ℂ) : OffBy (1 / 1000) net (fun s => net s + (if s 0 = 1 then 1 / 1000 else 0)) := by
  intro s _
  dsimp only
  rw [add_sub_cancel_left]
  split
  · simp
  · simp

end Verif.Energy
