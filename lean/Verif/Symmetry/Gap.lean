import Verif.Symmetry.Positive
import Verif.Energy.Spins
import Verif.Energy.Unbiased

/-!
# C147: an energy close to the ground energy means a state close to the ground state

The energies of the operators (operators/ising.py:17-46, operators/heisenberg.py:33-110) are the only quantity that training
looks at and the callbacks report (callbacks/exact/local_energy.py, callbacks/monte_carlo/local_energy_stats.py). Here: what
they say about the wave function itself, the probabilities with which its configurations are sampled, and the averages of
everything that is measured on the samples (observables/monte_carlo/observable.py).
-/
namespace Verif.Ensemble

open Verif.Operators Verif.Energy

variable {ι : Type} [DecidableEq ι] [Fintype ι]

/-! ### Specification -/

/-- The inner product `⟨g|ψ⟩`. -/
noncomputable def overlap (g ψ : Wave ι) : ℂ := ∑ s ∈ allSpins ι, (starRingEnd ℂ) (g s) * ψ s

/-- The squared length of a wave function. -/
noncomputable def lengthSq (ψ : Wave ι) : ℝ := ∑ s ∈ allSpins ι, ‖ψ s‖ ^ 2

/-- `|⟨g|ψ⟩|²` for the normalised wave functions: one for equal states, zero for orthogonal ones. -/
noncomputable def fidelity (g ψ : Wave ι) : ℝ := ‖overlap g ψ‖ ^ 2 / (lengthSq g * lengthSq ψ)

/-- The probability of a configuration, `|ψ(s)|² / Σ |ψ|²`. -/
noncomputable def weight (ψ : Wave ι) (s : Config ι) : ℝ := ‖ψ s‖ ^ 2 / lengthSq ψ

/-- The states orthogonal to `g` lie at least `Δ` above it. -/
structure Gap (conn : Config ι → List (Row ι ℝ)) (P : Finset (Config ι)) (g : Wave ι) (Δ : ℝ) : Prop where
  pos : 0 < Δ
  above : ∀ φ, Inside P φ → overlap g φ = 0 → energyOf conn g + Δ ≤ energyOf conn φ

/-- What the excess energy of `ψ` says about `ψ`, in units of the gap. -/
structure Near (conn : Config ι → List (Row ι ℝ)) (g : Wave ι) (Δ : ℝ) (ψ : Wave ι) : Prop where
  state : 1 - fidelity g ψ ≤ (energyOf conn ψ - energyOf conn g) / Δ
  samples : ∑ s ∈ allSpins ι, |weight ψ s - weight g s| ≤ 2 * Real.sqrt ((energyOf conn ψ - energyOf conn g) / Δ)
  averages : ∀ (f : Config ι → ℝ) (c : ℝ), (∀ s, IsSpin s → |f s| ≤ c) →
    |∑ s ∈ allSpins ι, weight ψ s * f s - ∑ s ∈ allSpins ι, weight g s * f s| ≤
      2 * c * Real.sqrt ((energyOf conn ψ - energyOf conn g) / Δ)

/-- There is a gap, and every gap bounds the distance of every state from the ground state. -/
def EnergyTells (conn : Config ι → List (Row ι ℝ)) (P : Finset (Config ι)) : Prop :=
  ∀ g, Lowest conn P g → (∃ Δ, Gap conn P g Δ) ∧ ∀ Δ, Gap conn P g Δ → ∀ ψ, Inside P ψ → Near conn g Δ ψ

/-! ### Proof -/

/-- The numerator of the energy. -/
noncomputable def top (conn : Config ι → List (Row ι ℝ)) (ψ : Wave ι) : ℝ :=
  (∑ s ∈ allSpins ι, (starRingEnd ℂ) (ψ s) * applyRows (conn s) ψ).re

omit [DecidableEq ι] [Fintype ι] in
theorem rows_add (l : List (Row ι ℝ)) (ψ φ : Wave ι) : applyRows l (fun s => ψ s + φ s) = applyRows l ψ + applyRows l φ := by
  induction l with
  | nil => simp [applyRows]
  | cons r l ih =>
    simp only [applyRows, List.map_cons, List.sum_cons] at ih ⊢
    rw [ih]
    ring

omit [DecidableEq ι] [Fintype ι] in
theorem rows_smul (l : List (Row ι ℝ)) (c : ℂ) (ψ : Wave ι) : applyRows l (fun s => c * ψ s) = c * applyRows l ψ := by
  induction l with
  | nil => simp [applyRows]
  | cons r l ih =>
    simp only [applyRows, List.map_cons, List.sum_cons] at ih ⊢
    rw [ih]
    ring

omit [DecidableEq ι] [Fintype ι] in
theorem rows_continuous {X : Type} [TopologicalSpace X] (l : List (Row ι ℝ)) {ext : X → Wave ι} (h : ∀ s, Continuous fun v => ext v s) :
    Continuous fun v => applyRows l (ext v) := by
  induction l with
  | nil => simpa [applyRows] using continuous_const
  | cons r l ih =>
    simp only [applyRows, List.map_cons, List.sum_cons] at ih ⊢
    exact (continuous_const.mul (h _)).add ih

/-- The excess of the numerator over `E` times the squared length. -/
noncomputable def excess (conn : Config ι → List (Row ι ℝ)) (E : ℝ) (ψ : Wave ι) : ℝ := top conn ψ - E * lengthSq ψ

theorem excess_smul (conn : Config ι → List (Row ι ℝ)) (E : ℝ) (c : ℂ) (ψ : Wave ι) :
    excess conn E (fun s => c * ψ s) = ‖c‖ ^ 2 * excess conn E ψ := by
  have e1 : top conn (fun s => c * ψ s) = ‖c‖ ^ 2 * top conn ψ := by
    unfold top
    rw [← Complex.re_ofReal_mul, Finset.mul_sum]
    congr 1
    refine Finset.sum_congr rfl fun s _ => ?_
    rw [rows_smul, map_mul]
    have := Complex.conj_mul' c
    push_cast
    linear_combination ((starRingEnd ℂ) (ψ s) * applyRows (conn s) ψ) * this
  have e2 : lengthSq (fun s => c * ψ s) = ‖c‖ ^ 2 * lengthSq ψ := by
    unfold lengthSq
    rw [Finset.mul_sum]
    refine Finset.sum_congr rfl fun s _ => ?_
    rw [norm_mul, mul_pow]
  unfold excess
  rw [e1, e2]
  ring

theorem excess_parallelogram (conn : Config ι → List (Row ι ℝ)) (E : ℝ) (ψ φ : Wave ι) :
    excess conn E (fun s => ψ s + φ s) + excess conn E (fun s => ψ s - φ s) = 2 * excess conn E ψ + 2 * excess conn E φ := by
  have hsub : ∀ l : List (Row ι ℝ), applyRows l (fun s => ψ s - φ s) = applyRows l ψ - applyRows l φ := by
    intro l
    have h1 := rows_add l ψ (fun s => -1 * φ s)
    rw [rows_smul] at h1
    have h2 : (fun s => ψ s - φ s) = fun s => ψ s + -1 * φ s := by funext s; ring
    rw [h2, h1]
    ring
  have e1 : top conn (fun s => ψ s + φ s) + top conn (fun s => ψ s - φ s) = 2 * top conn ψ + 2 * top conn φ := by
    unfold top
    rw [← Complex.add_re, ← Finset.sum_add_distrib, Complex.re_sum, Complex.re_sum, Complex.re_sum, Finset.mul_sum, Finset.mul_sum,
      ← Finset.sum_add_distrib]
    refine Finset.sum_congr rfl fun s _ => ?_
    rw [rows_add, hsub]
    simp only [map_add, map_sub, Complex.mul_re, Complex.add_re, Complex.add_im, Complex.sub_re, Complex.sub_im]
    ring
  have e2 : lengthSq (fun s => ψ s + φ s) + lengthSq (fun s => ψ s - φ s) = 2 * lengthSq ψ + 2 * lengthSq φ := by
    unfold lengthSq
    rw [← Finset.sum_add_distrib, Finset.mul_sum, Finset.mul_sum, ← Finset.sum_add_distrib]
    exact Finset.sum_congr rfl fun s _ => norm_parallelogram _ _
  unfold excess
  linear_combination e1 - E * e2

theorem energyOf_excess {conn : Config ι → List (Row ι ℝ)} {ψ : Wave ι} (h : 0 < lengthSq ψ) (E : ℝ) :
    excess conn E ψ = (energyOf conn ψ - E) * lengthSq ψ := by
  have : energyOf conn ψ = top conn ψ / lengthSq ψ := rfl
  rw [this]
  unfold excess
  field_simp

/-- Zero outside `P`. -/
def Vanish (P : Finset (Config ι)) (ψ : Wave ι) : Prop := ∀ s ∈ allSpins ι, s ∉ P → ψ s = 0

theorem inside_or_zero {P : Finset (Config ι)} {ψ : Wave ι} (h : Vanish P ψ) : Inside P ψ ∨ ∀ s ∈ allSpins ι, ψ s = 0 := by
  by_cases hz : ∃ s ∈ P, ψ s ≠ 0
  · exact Or.inl ⟨h, hz⟩
  · refine Or.inr fun s hs => ?_
    by_cases hp : s ∈ P
    · by_contra hne
      exact hz ⟨s, hp, hne⟩
    · exact h s hs hp

theorem excess_zero {conn : Config ι → List (Row ι ℝ)} {E : ℝ} {ψ : Wave ι} (h : ∀ s ∈ allSpins ι, ψ s = 0) : excess conn E ψ = 0 := by
  unfold excess top lengthSq
  rw [Finset.sum_eq_zero fun s hs => by rw [h s hs]; simp, Finset.sum_eq_zero fun s hs => by rw [h s hs]; simp]
  simp

theorem excess_nonneg {conn : Config ι → List (Row ι ℝ)} {P : Finset (Config ι)} (hP : P ⊆ allSpins ι) {g : Wave ι} (hg : Lowest conn P g)
    {ψ : Wave ι} (h : Vanish P ψ) : 0 ≤ excess conn (energyOf conn g) ψ := by
  rcases inside_or_zero h with hi | hz
  · have hp := inside_norm_pos hP hi
    rw [energyOf_excess hp]
    exact mul_nonneg (sub_nonneg.2 (hg.least ψ hi)) hp.le
  · rw [excess_zero hz]

/-- A function on the naturals that is affine and bounded below on both sides. -/
theorem affine_const (f : ℤ → ℝ) (h : ∀ n, f (n + 1) + f (n - 1) = 2 * f n) (h0 : ∀ n, 0 ≤ f n) : f 1 = f 0 := by
  have step : ∀ n : ℕ, f n = f 0 + n * (f 1 - f 0) ∧ f (n + 1) = f 0 + (n + 1) * (f 1 - f 0) := by
    intro n
    induction n with
    | zero => simp
    | succ n ih =>
      refine ⟨by push_cast; exact_mod_cast ih.2, ?_⟩
      have := h (n + 1)
      rw [show ((n : ℤ) + 1 - 1) = n by ring] at this
      push_cast
      linarith [ih.1, ih.2]
  have back : ∀ n : ℕ, f (-n) = f 0 - n * (f 1 - f 0) ∧ f (-n - 1) = f 0 - (n + 1) * (f 1 - f 0) := by
    intro n
    induction n with
    | zero =>
      have := h 0
      simp only [zero_add, zero_sub] at this
      simp
      linarith
    | succ n ih =>
      have e1 : (-((n + 1 : ℕ) : ℤ)) = -n - 1 := by push_cast; ring
      rw [e1]
      refine ⟨by push_cast; linarith [ih.2], ?_⟩
      have := h (-n - 1)
      rw [show (-(n : ℤ) - 1 + 1) = -n by ring] at this
      push_cast
      linarith [ih.1, ih.2]
  by_contra hne
  rcases lt_or_gt_of_ne hne with hlt | hgt
  · obtain ⟨n, hn⟩ := exists_nat_gt (f 0 / (f 0 - f 1))
    rw [div_lt_iff₀ (by linarith)] at hn
    have := (step n).1
    have := h0 n
    nlinarith
  · obtain ⟨n, hn⟩ := exists_nat_gt (f 0 / (f 1 - f 0))
    rw [div_lt_iff₀ (by linarith)] at hn
    have := (back n).1
    have := h0 (-n)
    nlinarith

/-- Adding a multiple of the ground state does not change the excess. -/
theorem excess_add {conn : Config ι → List (Row ι ℝ)} {P : Finset (Config ι)} (hP : P ⊆ allSpins ι) {g : Wave ι} (hg : Lowest conn P g)
    {φ : Wave ι} (h : Vanish P φ) (a : ℂ) :
    excess conn (energyOf conn g) (fun s => φ s + a * g s) = excess conn (energyOf conn g) φ := by
  have hz : excess conn (energyOf conn g) (fun s => a * g s) = 0 := by
    rw [excess_smul, energyOf_excess (inside_norm_pos hP hg.inside), sub_self, zero_mul, mul_zero]
  have := affine_const (fun n => excess conn (energyOf conn g) fun s => φ s + n * (a * g s)) ?_ ?_
  · simpa using this
  · intro n
    have h1 := excess_parallelogram conn (energyOf conn g) (fun s => φ s + n * (a * g s)) fun s => a * g s
    rw [hz, mul_zero, add_zero] at h1
    rw [← h1]
    congr 2 <;> (funext s; push_cast; ring)
  · intro n
    refine excess_nonneg hP hg fun s hs hn => ?_
    rw [h s hs hn, hg.inside.outside s hs hn]
    simp

/-- The state without its share of `g`. -/
theorem split_overlap {g ψ : Wave ι} (hg : 0 < lengthSq g) :
    overlap g (fun s => ψ s - overlap g ψ / lengthSq g * g s) = 0 := by
  have h1 : overlap g g = (lengthSq g : ℂ) := by
    unfold overlap lengthSq
    rw [Complex.ofReal_sum]
    refine Finset.sum_congr rfl fun s _ => ?_
    rw [Complex.conj_mul']
    push_cast
    rfl
  have h2 : overlap g (fun s => ψ s - overlap g ψ / lengthSq g * g s) = overlap g ψ - overlap g ψ / lengthSq g * overlap g g := by
    unfold overlap
    rw [Finset.mul_sum, ← Finset.sum_sub_distrib]
    refine Finset.sum_congr rfl fun s _ => ?_
    ring
  rw [h2, h1]
  have : (lengthSq g : ℂ) ≠ 0 := Complex.ofReal_ne_zero.2 hg.ne'
  field_simp
  ring

/-- Pythagoras. -/
theorem length_split {g φ : Wave ι} (h : overlap g φ = 0) (a : ℂ) :
    lengthSq (fun s => φ s + a * g s) = lengthSq φ + ‖a‖ ^ 2 * lengthSq g := by
  have e : ∀ s, ‖φ s + a * g s‖ ^ 2 = ‖φ s‖ ^ 2 + ‖a‖ ^ 2 * ‖g s‖ ^ 2 + 2 * ((starRingEnd ℂ) a * ((starRingEnd ℂ) (g s) * φ s)).re := by
    intro s
    simp only [Complex.sq_norm, Complex.normSq_apply, Complex.add_re, Complex.add_im, Complex.mul_re, Complex.mul_im, Complex.conj_re, Complex.conj_im]
    ring
  unfold lengthSq
  rw [Finset.sum_congr rfl fun s _ => e s, Finset.sum_add_distrib, Finset.sum_add_distrib, ← Finset.mul_sum, ← Finset.mul_sum, ← Complex.re_sum,
    ← Finset.mul_sum]
  unfold overlap at h
  rw [h]
  simp

theorem near_state {conn : Config ι → List (Row ι ℝ)} {P : Finset (Config ι)} (hP : P ⊆ allSpins ι) {g : Wave ι} (hg : Lowest conn P g)
    {Δ : ℝ} (hΔ : Gap conn P g Δ) {ψ : Wave ι} (hψ : Inside P ψ) :
    1 - fidelity g ψ ≤ (energyOf conn ψ - energyOf conn g) / Δ := by
  have lg : 0 < lengthSq g := inside_norm_pos hP hg.inside
  have lψ : 0 < lengthSq ψ := inside_norm_pos hP hψ
  set a : ℂ := overlap g ψ / lengthSq g with ha
  set φ : Wave ι := fun s => ψ s - a * g s with hφ
  have hov : overlap g φ = 0 := split_overlap lg
  have hvan : Vanish P φ := by
    intro s hs hn
    simp only [hφ]
    rw [hψ.outside s hs hn, hg.inside.outside s hs hn]
    simp
  have hback : (fun s => φ s + a * g s) = ψ := by funext s; simp only [hφ]; ring
  have h1 := excess_add hP hg hvan a
  rw [hback] at h1
  have h2 := length_split hov a
  rw [hback] at h2
  have h3 : Δ * lengthSq φ ≤ excess conn (energyOf conn g) φ := by
    rcases inside_or_zero hvan with hi | hz
    · have hp : 0 < lengthSq φ := inside_norm_pos hP hi
      rw [energyOf_excess hp]
      have := hΔ.above φ hi hov
      exact mul_le_mul_of_nonneg_right (by linarith) hp.le
    · rw [excess_zero hz]
      have : lengthSq φ = 0 := Finset.sum_eq_zero fun s hs => by rw [hz s hs]; simp
      rw [this, mul_zero]
  rw [← h1, energyOf_excess lψ] at h3
  have h4 : ‖a‖ ^ 2 * lengthSq g = fidelity g ψ * lengthSq ψ := by
    unfold fidelity
    rw [ha, norm_div, Complex.norm_real, Real.norm_of_nonneg lg.le]
    field_simp
  rw [h4] at h2
  have h5 : lengthSq φ = (1 - fidelity g ψ) * lengthSq ψ := by linarith
  rw [h5, ← mul_assoc] at h3
  have h6 := le_of_mul_le_mul_right h3 lψ
  rw [le_div_iff₀ hΔ.pos]
  linarith

theorem weight_sum {ψ : Wave ι} (h : 0 < lengthSq ψ) : ∑ s ∈ allSpins ι, weight ψ s = 1 := by
  unfold weight
  rw [← Finset.sum_div]
  exact div_self h.ne'

/-- Distance of the probabilities of two states. -/
theorem weight_distance {g ψ : Wave ι} (hg : 0 < lengthSq g) (hψ : 0 < lengthSq ψ) :
    ∑ s ∈ allSpins ι, |weight ψ s - weight g s| ≤ 2 * Real.sqrt (1 - fidelity g ψ) := by
  set p : Config ι → ℝ := fun s => ‖ψ s‖ / Real.sqrt (lengthSq ψ) with hp
  set q : Config ι → ℝ := fun s => ‖g s‖ / Real.sqrt (lengthSq g) with hq
  have p0 : ∀ s, 0 ≤ p s := fun s => by positivity
  have q0 : ∀ s, 0 ≤ q s := fun s => by positivity
  have ep : ∀ s, weight ψ s = p s ^ 2 := fun s => by
    simp only [hp, weight, div_pow, Real.sq_sqrt hψ.le]
  have eq : ∀ s, weight g s = q s ^ 2 := fun s => by
    simp only [hq, weight, div_pow, Real.sq_sqrt hg.le]
  set c := ∑ s ∈ allSpins ι, p s * q s with hc
  have sp : ∑ s ∈ allSpins ι, p s ^ 2 = 1 := by rw [← weight_sum hψ]; exact Finset.sum_congr rfl fun s _ => (ep s).symm
  have sq : ∑ s ∈ allSpins ι, q s ^ 2 = 1 := by rw [← weight_sum hg]; exact Finset.sum_congr rfl fun s _ => (eq s).symm
  have hF : fidelity g ψ ≤ c ^ 2 := by
    have h1 : ‖overlap g ψ‖ ≤ ∑ s ∈ allSpins ι, ‖g s‖ * ‖ψ s‖ := by
      refine (norm_sum_le _ _).trans (le_of_eq (Finset.sum_congr rfl fun s _ => ?_))
      rw [norm_mul, Complex.norm_conj]
    have h2 : c = (∑ s ∈ allSpins ι, ‖g s‖ * ‖ψ s‖) / (Real.sqrt (lengthSq g) * Real.sqrt (lengthSq ψ)) := by
      rw [hc, Finset.sum_div]
      refine Finset.sum_congr rfl fun s _ => ?_
      simp only [hp, hq]
      field_simp
    unfold fidelity
    rw [h2, div_pow, mul_pow, Real.sq_sqrt hg.le, Real.sq_sqrt hψ.le]
    have := norm_nonneg (overlap g ψ)
    gcongr
  have hcs : (∑ s ∈ allSpins ι, |p s - q s| * (p s + q s)) ^ 2 ≤ (∑ s ∈ allSpins ι, |p s - q s| ^ 2) * ∑ s ∈ allSpins ι, (p s + q s) ^ 2 :=
    Finset.sum_mul_sq_le_sq_mul_sq _ _ _
  have e1 : ∑ s ∈ allSpins ι, |p s - q s| ^ 2 = 2 - 2 * c := by
    have : ∑ s ∈ allSpins ι, |p s - q s| ^ 2 = ∑ s ∈ allSpins ι, p s ^ 2 + ∑ s ∈ allSpins ι, q s ^ 2 - 2 * c := by
      rw [hc, Finset.mul_sum, ← Finset.sum_add_distrib, ← Finset.sum_sub_distrib]
      refine Finset.sum_congr rfl fun s _ => ?_
      rw [sq_abs]
      ring
    rw [this, sp, sq]
    ring
  have e2 : ∑ s ∈ allSpins ι, (p s + q s) ^ 2 = 2 + 2 * c := by
    have : ∑ s ∈ allSpins ι, (p s + q s) ^ 2 = ∑ s ∈ allSpins ι, p s ^ 2 + ∑ s ∈ allSpins ι, q s ^ 2 + 2 * c := by
      rw [hc, Finset.mul_sum, ← Finset.sum_add_distrib, ← Finset.sum_add_distrib]
      refine Finset.sum_congr rfl fun s _ => ?_
      ring
    rw [this, sp, sq]
    ring
  rw [e1, e2] at hcs
  have e3 : ∑ s ∈ allSpins ι, |weight ψ s - weight g s| = ∑ s ∈ allSpins ι, |p s - q s| * (p s + q s) := by
    refine Finset.sum_congr rfl fun s _ => ?_
    rw [ep, eq, show p s ^ 2 - q s ^ 2 = (p s - q s) * (p s + q s) by ring, abs_mul, abs_of_nonneg (add_nonneg (p0 s) (q0 s))]
  rw [e3]
  have h4 : (∑ s ∈ allSpins ι, |p s - q s| * (p s + q s)) ^ 2 ≤ 4 * (1 - fidelity g ψ) := by nlinarith
  have h5 := Real.sqrt_le_sqrt h4
  rw [Real.sqrt_sq (Finset.sum_nonneg fun s _ => mul_nonneg (abs_nonneg _) (add_nonneg (p0 s) (q0 s)))] at h5
  rw [Real.sqrt_mul (by norm_num), show (4 : ℝ) = 2 ^ 2 by norm_num, Real.sqrt_sq (by norm_num)] at h5
  exact h5

theorem near_of {conn : Config ι → List (Row ι ℝ)} {P : Finset (Config ι)} (hP : P ⊆ allSpins ι) {g : Wave ι} (hg : Lowest conn P g)
    {Δ : ℝ} (hΔ : Gap conn P g Δ) {ψ : Wave ι} (hψ : Inside P ψ) : Near conn g Δ ψ := by
  have h1 := near_state hP hg hΔ hψ
  have h2 : ∑ s ∈ allSpins ι, |weight ψ s - weight g s| ≤ 2 * Real.sqrt ((energyOf conn ψ - energyOf conn g) / Δ) :=
    (weight_distance (inside_norm_pos hP hg.inside) (inside_norm_pos hP hψ)).trans (mul_le_mul_of_nonneg_left (Real.sqrt_le_sqrt h1) (by norm_num))
  refine ⟨h1, h2, fun f c hf => ?_⟩
  have hc : 0 ≤ c := (abs_nonneg _).trans (hf (fun _ => 1) fun _ => Or.inl rfl)
  rw [← Finset.sum_sub_distrib]
  calc |∑ s ∈ allSpins ι, (weight ψ s * f s - weight g s * f s)| ≤ ∑ s ∈ allSpins ι, |weight ψ s * f s - weight g s * f s| :=
        Finset.abs_sum_le_sum_abs _ _
    _ ≤ ∑ s ∈ allSpins ι, |weight ψ s - weight g s| * c := by
        refine Finset.sum_le_sum fun s hs => ?_
        rw [← sub_mul, abs_mul]
        exact mul_le_mul_of_nonneg_left (hf s ((mem_allSpins s).1 hs)) (abs_nonneg _)
    _ = (∑ s ∈ allSpins ι, |weight ψ s - weight g s|) * c := by rw [Finset.sum_mul]
    _ ≤ _ := by
        have := mul_le_mul_of_nonneg_right h2 hc
        linarith

theorem top_congr {conn : Config ι → List (Row ι ℝ)} (hconn : ∀ s, IsSpin s → ∀ r ∈ conn s, IsSpin r.conn)
    {ψ φ : Wave ι} (h : ∀ s ∈ allSpins ι, ψ s = φ s) : top conn ψ = top conn φ := by
  unfold top
  congr 1
  refine Finset.sum_congr rfl fun s hs => ?_
  rw [h s hs]
  congr 1
  unfold applyRows
  refine congrArg List.sum (List.map_congr_left fun r hr => ?_)
  rw [h r.conn ((mem_allSpins _).2 (hconn s ((mem_allSpins s).1 hs) r hr))]

/-- A single lowest state has a gap. -/
theorem exists_gap {conn : Config ι → List (Row ι ℝ)} (hconn : ∀ s, IsSpin s → ∀ r ∈ conn s, IsSpin r.conn)
    {P : Finset (Config ι)} (hP : P ⊆ allSpins ι) {g : Wave ι} (hg : Lowest conn P g)
    (huniq : ∀ φ, Lowest conn P φ → ∃ c : ℂ, c ≠ 0 ∧ ∀ s ∈ P, φ s = c * g s) : ∃ Δ, Gap conn P g Δ := by
  have lg : 0 < lengthSq g := inside_norm_pos hP hg.inside
  let ext : (P → ℂ) → Wave ι := fun v s => if h : s ∈ P then v ⟨s, h⟩ else 0
  have hcoord : ∀ s, Continuous fun v => ext v s := by
    intro s
    by_cases h : s ∈ P
    · have : (fun v => ext v s) = fun v : P → ℂ => v ⟨s, h⟩ := by funext v; simp only [ext, dif_pos h]
      rw [this]
      exact continuous_apply _
    · have : (fun v => ext v s) = fun _ : P → ℂ => 0 := by funext v; simp only [ext, dif_neg h]
      rw [this]
      exact continuous_const
  have hextP : ∀ (v : P → ℂ) (s : P), ext v s = v s := fun v s => by simp only [ext, dif_pos s.2]
  have hnorm : Continuous fun v => lengthSq (ext v) := continuous_finsetSum _ fun s _ => ((hcoord s).norm).pow 2
  have hover : Continuous fun v => overlap g (ext v) := continuous_finsetSum _ fun s _ => continuous_const.mul (hcoord s)
  have htop : Continuous fun v => top conn (ext v) := by
    refine Complex.continuous_re.comp (continuous_finsetSum _ fun s _ => ?_)
    exact (Complex.continuous_conj.comp (hcoord s)).mul (rows_continuous _ hcoord)
  let K : Set (P → ℂ) := {v | lengthSq (ext v) = 1 ∧ overlap g (ext v) = 0}
  have hK : IsCompact K := by
    refine Metric.isCompact_of_isClosed_isBounded ((isClosed_eq hnorm continuous_const).inter (isClosed_eq hover continuous_const)) ?_
    refine (Metric.isBounded_iff_subset_closedBall 0).2 ⟨1, fun v hv => ?_⟩
    rw [mem_closedBall_zero_iff, pi_norm_le_iff_of_nonneg zero_le_one]
    intro s
    have h1 : ‖ext v s‖ ^ 2 ≤ 1 := by
      rw [← hv.1]
      exact Finset.single_le_sum (f := fun s => ‖ext v s‖ ^ 2) (fun s _ => by positivity) (hP s.2)
    rw [hextP] at h1
    nlinarith [norm_nonneg (v s)]
  have hKof : ∀ φ : Wave ι, Inside P φ → overlap g φ = 0 → ∃ v ∈ K, energyOf conn φ = top conn (ext v) := by
    intro φ hφ hov
    have lφ : 0 < lengthSq φ := inside_norm_pos hP hφ
    set c : ℂ := (((Real.sqrt (lengthSq φ))⁻¹ : ℝ) : ℂ) with hc
    have hcn : ‖c‖ ^ 2 = (lengthSq φ)⁻¹ := by
      rw [hc, Complex.norm_real, Real.norm_eq_abs, sq_abs, inv_pow, Real.sq_sqrt lφ.le]
    have hext : ∀ s ∈ allSpins ι, ext (fun s : P => c * φ s) s = c * φ s := by
      intro s hs
      by_cases h : s ∈ P
      · simp only [ext, dif_pos h]
      · simp only [ext, dif_neg h, hφ.outside s hs h, mul_zero]
    have hlen : lengthSq (ext fun s : P => c * φ s) = 1 := by
      have : lengthSq (ext fun s : P => c * φ s) = ‖c‖ ^ 2 * lengthSq φ := by
        unfold lengthSq
        rw [Finset.mul_sum]
        refine Finset.sum_congr rfl fun s hs => ?_
        rw [hext s hs, norm_mul, mul_pow]
      rw [this, hcn, inv_mul_cancel₀ lφ.ne']
    refine ⟨fun s => c * φ s, ⟨hlen, ?_⟩, ?_⟩
    · have : overlap g (ext fun s : P => c * φ s) = c * overlap g φ := by
        unfold overlap
        rw [Finset.mul_sum]
        refine Finset.sum_congr rfl fun s hs => ?_
        rw [hext s hs]
        ring
      rw [this, hov, mul_zero]
    · rw [top_congr hconn hext]
      have h1 := excess_smul conn 0 c φ
      unfold excess at h1
      rw [zero_mul, zero_mul, sub_zero, sub_zero, hcn] at h1
      rw [h1]
      show top conn φ / lengthSq φ = _
      rw [div_eq_inv_mul]
  rcases K.eq_empty_or_nonempty with he | hne
  · refine ⟨1, one_pos, fun φ hφ hov => ?_⟩
    obtain ⟨v, hv, -⟩ := hKof φ hφ hov
    rw [he] at hv
    exact hv.elim
  · obtain ⟨v, hv, hmin⟩ := hK.exists_isMinOn hne htop.continuousOn
    have hin : Inside P (ext v) := by
      have hvan : Vanish P (ext v) := fun s _ hn => by simp only [ext, dif_neg hn]
      rcases inside_or_zero hvan with hi | hz
      · exact hi
      · have h0 : lengthSq (ext v) = 0 := Finset.sum_eq_zero fun s hs => by rw [hz s hs]; simp
        rw [hv.1] at h0
        norm_num at h0
    have hE : energyOf conn (ext v) = top conn (ext v) := by
      show top conn (ext v) / lengthSq (ext v) = _
      rw [hv.1, div_one]
    have hle := hg.least _ hin
    refine ⟨top conn (ext v) - energyOf conn g, ?_, fun φ hφ hov => ?_⟩
    · rw [← hE, sub_pos]
      refine lt_of_le_of_ne hle fun heq => ?_
      obtain ⟨c, hc, hcg⟩ := huniq (ext v) ⟨hin, fun φ hφ => heq ▸ hg.least φ hφ⟩
      have h1 : overlap g (ext v) = c * (lengthSq g : ℂ) := by
        unfold overlap lengthSq
        rw [Complex.ofReal_sum, Finset.mul_sum]
        refine Finset.sum_congr rfl fun s hs => ?_
        by_cases h : s ∈ P
        · rw [hcg s h]
          have := Complex.conj_mul' (g s)
          push_cast
          linear_combination c * this
        · rw [hg.inside.outside s hs h]
          simp
      rw [hv.2] at h1
      exact mul_ne_zero hc (Complex.ofReal_ne_zero.2 lg.ne') h1.symm
    · obtain ⟨w, hw, hEw⟩ := hKof φ hφ hov
      have := hmin hw
      have : top conn (ext v) ≤ top conn (ext w) := this
      rw [hEw]
      linarith

theorem energyTells_of {conn : Config ι → List (Row ι ℝ)} (hconn : ∀ s, IsSpin s → ∀ r ∈ conn s, IsSpin r.conn)
    {P : Finset (Config ι)} (hP : P ⊆ allSpins ι) (h : OnePositiveState conn P) : EnergyTells conn P :=
  fun g hg => ⟨exists_gap hconn hP hg fun φ hφ => h.unique g φ hg hφ, fun _ hΔ _ hψ => near_of hP hg hΔ hψ⟩

/-! ### C147 -/

theorem sector_subset (M : ℤ) : Metropolis.sector (ι := ι) M ⊆ allSpins ι :=
  fun s hs => (mem_allSpins s).2 ((Metropolis.mem_sector M s).1 hs).1

/-- **C147** for Ising chains in a positive field. -/
theorem C147_ising_chain {n : Nat} {h : ℝ} (hh : 0 < h) (j : ℝ) (pbc : Bool) : EnergyTells (isingChain h j pbc) (allSpins (Fin n)) :=
  energyTells_of (Exact.rowsOf_ising_chain n h j pbc).spins (Finset.Subset.refl _) (C141_lowest_ising_chain hh j pbc)

/-- **C147** for Ising grids in a positive field. -/
theorem C147_ising_grid {n m : Nat} {h : ℝ} (hh : 0 < h) (j : ℝ) (pbc : Bool) : EnergyTells (isingGrid h j pbc) (allSpins (Fin n × Fin m)) :=
  energyTells_of (Exact.rowsOf_ising_grid n m h j pbc).spins (Finset.Subset.refl _) (C141_lowest_ising_grid hh j pbc)

/-- **C147** for Heisenberg chains with `unitary_rotation=True`, in every sector of fixed magnetisation, after every history of calls. -/
theorem C147_heisenberg_chain {n : Nat} (pbc : Bool) (history : List (Call n 1)) (M : ℤ)
    (hM : (Metropolis.sector (ι := Fin n) M).Nonempty) : EnergyTells (heisenbergChain true pbc history) (Metropolis.sector M) := by
  refine energyTells_of (fun s hs => ?_) (sector_subset M) (C141_lowest_heisenberg_chain pbc history M hM)
  have hr := Exact.rowsOf_heisenberg_chain n true pbc history
  have := hr.spins s hs
  rwa [← hr.eq 1 (fun _ => s) 0] at this

/-- **C147** for Heisenberg grids. -/
theorem C147_heisenberg_grid {n m : Nat} (pbc : Bool) (history : List (Call n m)) (M : ℤ)
    (hM : (Metropolis.sector (ι := Fin n × Fin m) M).Nonempty) : EnergyTells (heisenbergGrid true pbc history) (Metropolis.sector M) := by
  refine energyTells_of (fun s hs => ?_) (sector_subset M) (C141_lowest_heisenberg_grid pbc history M hM)
  have hr := Exact.rowsOf_heisenberg_grid n m true pbc history
  have := hr.spins s hs
  rwa [← hr.eq 1 (fun _ => s) 0] at this

open Verif.Autoregressive in
/-- **C147 from the random numbers to the measured averages.** What is measured on the samples of an autoregressive machine
comes out, on average over the random numbers of the sampler, as in the ground state, up to an error bounded by the excess
energy of the machine. (`EnergyTells` is supplied by the theorems for the Ising operator.) -/
theorem C147_samples {conn : Config ι → List (Row ι ℝ)} (h : EnergyTells conn (allSpins ι)) {g : Wave ι} (hg : Lowest conn (allSpins ι) g)
    {Δ : ℝ} (hΔ : Gap conn (allSpins ι) g Δ) {B : Nat} (hB : 0 < B) (dims : Nat) (hd : dims = 1 ∨ dims = 2) (net : Net ι)
    (order : List ι) (ho : Complete order) (hc : Causal order net) (f : Config ι → ℝ) (c : ℝ) (hf : ∀ s, IsSpin s → |f s| ≤ c) :
    ∃ S : (Fin B → ι → ℝ) → Fin B → Config ι, (∀ u, sample dims false (condLogProbs net) order u = .ok (S u)) ∧
      |∫ u, (∑ b, f (S u b)) / B ∂rand B ι - ∑ s ∈ allSpins ι, weight g s * f s| ≤
        2 * c * Real.sqrt ((energyOf conn (fun s => Complex.exp (logWave net s)) - energyOf conn g) / Δ) := by
  choose S hS hspin using C36_spins (B := B) dims hd net order ho hc
  refine ⟨S, hS, ?_⟩
  have hin : Inside (allSpins ι) fun s => Complex.exp (logWave net s) :=
    ⟨fun s hs hn => absurd hs hn, fun _ => 1, (mem_allSpins _).2 fun _ => Or.inl rfl, Complex.exp_ne_zero _⟩
  have h1 := ((h g hg).2 Δ hΔ _ hin).averages f c hf
  have h2 : ∫ u, (∑ b, f (S u b)) / B ∂rand B ι = ∑ s ∈ allSpins ι, weight (fun s => Complex.exp (logWave net s)) s * f s := by
    rw [integral_sample dims hd net order ho hc (fun x => (∑ b, f (x b)) / B) _ fun u S' hS' => by
      obtain rfl := Except.ok.inj ((hS u).symm.trans hS')
      rfl]
    have hp : ∑ s ∈ allSpins ι, born (logWave net) s = 1 := weight_sum (inside_norm_pos (Finset.Subset.refl _) hin)
    have hB0 : (B : ℝ) ≠ 0 := Nat.cast_ne_zero.2 hB.ne'
    have e : (fun x : Fin B → Config ι => (∑ b, f (x b)) / B) = fun x => (B : ℝ)⁻¹ * ∑ b ∈ Finset.univ, f (x b) := by
      funext x
      rw [div_eq_inv_mul]
    rw [e, expect_mul, expect_sum]
    simp only [expect_one _ _ hp]
    rw [Finset.sum_const, Finset.card_univ, Fintype.card_fin, nsmul_eq_mul, ← mul_assoc, inv_mul_cancel₀ hB0, one_mul]
    rfl
  rw [h2]
  exact h1

/-- **C147 needs a field.** Without it a single spin has two orthogonal states of the lowest energy, and the energy does not tell
them apart. -/
theorem C147_needs_field (j : ℝ) : ¬ EnergyTells (isingChain (n := 1) 0 j false) (allSpins (Fin 1)) := by
  intro h
  have hz : ∀ ψ, energyOf (isingChain (n := 1) 0 j false) ψ = 0 := by
    intro ψ
    rw [isingChain_energy]
    unfold energyH
    have : ∀ s, tfim (chainBonds 1 false) 0 j ψ s = 0 := by
      intro s
      have hb : chainBonds 1 false = [] := by decide
      unfold tfim
      rw [hb]
      simp
    simp [this]
  have low : Lowest (isingChain (n := 1) 0 j false) (allSpins (Fin 1)) fun s => if s = fun _ => 1 then 1 else 0 :=
    ⟨⟨fun s hs hn => absurd hs hn, fun _ => 1, (mem_allSpins _).2 fun _ => Or.inl rfl, by simp⟩, fun φ _ => by rw [hz, hz]⟩
  obtain ⟨Δ, hΔ⟩ := (h _ low).1
  have hne : (fun _ : Fin 1 => (-1 : ℤ)) ≠ fun _ => 1 := fun e => by have := congrFun e 0; norm_num at this
  have := hΔ.above (fun s => if s = fun _ => -1 then 1 else 0)
    ⟨fun s hs hn => absurd hs hn, fun _ => -1, (mem_allSpins _).2 fun _ => Or.inr rfl, by simp⟩ (by
      unfold overlap
      refine Finset.sum_eq_zero fun s _ => ?_
      beta_reduce
      by_cases h1 : s = fun _ => -1
      · subst h1
        rw [if_neg hne]
        simp
      · rw [if_neg h1, mul_zero])
  rw [hz, hz] at this
  linarith [hΔ.pos]

/-- Hypotheses met: a lowest state, its gap and a machine. -/
example : ∃ (g : Wave (Fin 2)) (Δ : ℝ), Lowest (isingChain 1 1 true) (allSpins (Fin 2)) g ∧ Gap (isingChain 1 1 true) (allSpins (Fin 2)) g Δ ∧
    (Metropolis.sector (ι := Fin 2) 0).Nonempty := by
  obtain ⟨g, hg⟩ := (C141_lowest_ising_chain (n := 2) one_pos 1 true).exists_
  obtain ⟨Δ, hΔ⟩ := (C147_ising_chain one_pos 1 true g hg).1
  exact ⟨g, Δ, hg, hΔ, ![1, -1], (Metropolis.mem_sector 0 _).2 ⟨by intro i; fin_cases i <;> simp, by decide⟩⟩

end Verif.Ensemble
