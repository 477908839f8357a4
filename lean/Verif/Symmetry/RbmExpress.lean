import Verif.Symmetry.RBM
import Verif.Autoregressive.Express
import Verif.Symmetry.Ground

/-!
# C149: restricted Boltzmann machines exclude no wave function

Model of `src/flowket/machines/rbm.py` and of `src/flowket/layers/complex/dense.py` in Verif/Symmetry/RBM.lean. A wave function
without zeros is the exponential of a sum of products of spins, one product for each set of sites. Two hidden units with weights
of opposite sign make the factor that belongs to one product.
-/
namespace Verif.RBM

open Verif.Operators (Config IsSpin Wave Row)
open Verif.Energy (allSpins mem_allSpins)
open Verif.Ensemble Filter Topology

/-! ### Products of spins -/

section
variable {ι : Type} [DecidableEq ι] [Fintype ι]

/-- Product of the spins in `K`. -/
noncomputable def parity (K : Finset ι) (x : Config ι) : ℂ := ∏ p ∈ K, (x p : ℂ)

omit [DecidableEq ι] [Fintype ι] in
theorem spin_mul {x : Config ι} (hx : IsSpin x) (p : ι) : (x p : ℂ) * (x p : ℂ) = 1 := by
  rcases hx p with h | h <;> rw [h] <;> norm_num

omit [DecidableEq ι] in
theorem sum_parity {x y : Config ι} (hx : IsSpin x) (hy : IsSpin y) :
    ∑ K : Finset ι, parity K x * parity K y = if x = y then 2 ^ Fintype.card ι else 0 := by
  classical
  have h1 : ∑ K : Finset ι, parity K x * parity K y = ∏ p, (1 + (x p : ℂ) * (y p : ℂ)) := by
    rw [Finset.prod_one_add, Finset.powerset_univ]
    exact Finset.sum_congr rfl fun K _ => by unfold parity; rw [Finset.prod_mul_distrib]
  rw [h1]
  split
  · next h =>
    subst h
    rw [Finset.prod_congr rfl fun p _ => by rw [spin_mul hx p], Finset.prod_const, Finset.card_univ]
    norm_num
  · next h =>
    obtain ⟨p, hp⟩ := Function.ne_iff.1 h
    refine Finset.prod_eq_zero (Finset.mem_univ p) ?_
    rcases hx p with h1 | h1 <;> rcases hy p with h2 | h2
    · exact absurd (h1.trans h2.symm) hp
    · rw [h1, h2]; norm_num
    · rw [h1, h2]; norm_num
    · exact absurd (h1.trans h2.symm) hp

/-- Every function on the configurations is a sum of products of spins. -/
theorem expand (f : Config ι → ℂ) : ∃ c : Finset ι → ℂ, ∀ x, IsSpin x → f x = ∑ K, c K * parity K x := by
  refine ⟨fun K => (∑ y ∈ allSpins ι, f y * parity K y) / 2 ^ Fintype.card ι, fun x hx => ?_⟩
  have h1 : ∑ K : Finset ι, (∑ y ∈ allSpins ι, f y * parity K y) / 2 ^ Fintype.card ι * parity K x =
      ∑ y ∈ allSpins ι, f y / 2 ^ Fintype.card ι * ∑ K : Finset ι, parity K y * parity K x := by
    simp only [Finset.mul_sum, Finset.sum_div, Finset.sum_mul]
    rw [Finset.sum_comm]
    exact Finset.sum_congr rfl fun y _ => Finset.sum_congr rfl fun K _ => by ring
  rw [h1, Finset.sum_congr rfl fun y hy => by rw [sum_parity ((mem_allSpins y).1 hy) hx]]
  rw [Finset.sum_eq_single x]
  · rw [if_pos rfl]
    field_simp
  · intro y _ hne
    rw [if_neg hne, mul_zero]
  · intro h
    exact absurd ((mem_allSpins x).2 hx) h

/-! ### Two hidden units -/

omit [Fintype ι] in
theorem cos_parity (K : Finset ι) {x : Config ι} (hx : IsSpin x) :
    Complex.cos ((Real.pi / 2 : ℂ) * ∑ p ∈ K, ((x p : ℂ) - 1)) = parity K x ∧ Complex.sin ((Real.pi / 2 : ℂ) * ∑ p ∈ K, ((x p : ℂ) - 1)) = 0 := by
  induction K using Finset.induction_on with
  | empty => simp [parity]
  | insert p K hp ih =>
    unfold parity at ih ⊢
    rw [Finset.sum_insert hp, Finset.prod_insert hp, mul_add, Complex.cos_add, Complex.sin_add, ih.1, ih.2]
    rcases hx p with h | h
    · rw [h]
      simp
    · rw [h]
      have : (Real.pi / 2 : ℂ) * (((-1 : ℤ) : ℂ) - 1) = -(Real.pi : ℂ) := by push_cast; ring
      rw [this, Complex.cos_neg, Complex.sin_neg, Complex.cos_pi, Complex.sin_pi]
      simp

theorem cosh_mul (b y : ℂ) : Complex.cosh (b + y * Complex.I) * Complex.cosh (b - y * Complex.I) = (Complex.cosh (2 * b) + Complex.cos (2 * y)) / 2 := by
  rw [Complex.cosh_add, Complex.cosh_sub, Complex.cosh_two_mul, Complex.cos_two_mul, Complex.cosh_mul_I, Complex.sinh_mul_I]
  have h1 := Complex.sin_sq_add_cos_sq y
  have h2 := Complex.cosh_sq b
  have hI := Complex.I_sq
  linear_combination (-(Complex.sinh b ^ 2) * Complex.sin y ^ 2) * hI + (Complex.sinh b ^ 2) * h1 + (Complex.cos y ^ 2 - 1 / 2) * h2

omit [DecidableEq ι] [Fintype ι] in
theorem parity_cases (K : Finset ι) {x : Config ι} (hx : IsSpin x) : parity K x = 1 ∨ parity K x = -1 := by
  unfold parity
  refine Finset.prod_induction _ (fun z : ℂ => z = 1 ∨ z = -1) ?_ (Or.inl rfl) fun p _ => ?_
  · rintro a b (rfl | rfl) (rfl | rfl) <;> simp
  · rcases hx p with h | h <;> rw [h] <;> simp

/-- Two hidden units make the factor of one product of spins. -/
theorem two_units (K : Finset ι) (c : ℂ) : ∃ (b : Bool → ℂ) (w : Bool → ι → ℂ) (A : ℂ), A ≠ 0 ∧ ∀ x : Config ι, IsSpin x →
    ∏ i, Complex.cosh (b i + ∑ p, (x p : ℂ) * w i p) = A * Complex.exp (c * parity K x) := by
  by_cases hc : Complex.exp (2 * c) = 1
  · refine ⟨fun _ => 0, fun _ _ => 0, Complex.exp (-c), Complex.exp_ne_zero _, fun x hx => ?_⟩
    have h1 := parity_cases K hx
    have h2 : Complex.exp (c * parity K x) = Complex.exp c := by
      rcases h1 with h | h
      · rw [h, mul_one]
      · rw [h, mul_neg, mul_one]
        have : Complex.exp c = Complex.exp (2 * c) * Complex.exp (-c) := by rw [← Complex.exp_add]; congr 1; ring
        rw [this, hc, one_mul]
    rw [h2, ← Complex.exp_add]
    simp
  · set C : ℂ := (Complex.exp (2 * c) + 1) / (Complex.exp (2 * c) - 1) with hC
    have hne : Complex.exp (2 * c) - 1 ≠ 0 := sub_ne_zero.2 hc
    obtain ⟨z, hz⟩ := Complex.cos_surjective C
    have hb : Complex.cosh (2 * (z * Complex.I / 2)) = C := by
      rw [mul_div_cancel₀ _ two_ne_zero, Complex.cosh_mul_I, hz]
    set b := z * Complex.I / 2 with hbdef
    refine ⟨fun i => if i then b - (Real.pi / 4 : ℂ) * K.card * Complex.I else b + (Real.pi / 4 : ℂ) * K.card * Complex.I,
      fun i p => if p ∈ K then (if i then (Real.pi / 4 : ℂ) * Complex.I else -((Real.pi / 4 : ℂ) * Complex.I)) else 0,
      Complex.exp c / (Complex.exp (2 * c) - 1), div_ne_zero (Complex.exp_ne_zero _) hne, fun x hx => ?_⟩
    have hsum : ∀ u : ℂ, ∑ p, (x p : ℂ) * (if p ∈ K then u else 0) = u * ∑ p ∈ K, (x p : ℂ) := by
      intro u
      rw [Finset.mul_sum, ← Finset.sum_subset (Finset.subset_univ K)]
      · exact Finset.sum_congr rfl fun p hp => by rw [if_pos hp, mul_comm]
      · intro p _ hp
        rw [if_neg hp, mul_zero]
    set y : ℂ := (Real.pi / 4 : ℂ) * ∑ p ∈ K, ((x p : ℂ) - 1) with hy
    have hy' : y = (Real.pi / 4 : ℂ) * (∑ p ∈ K, (x p : ℂ)) - (Real.pi / 4 : ℂ) * K.card := by
      rw [hy, Finset.sum_sub_distrib, Finset.sum_const, nsmul_eq_mul, mul_one, mul_sub]
    have h2y : Complex.cos (2 * y) = parity K x := by
      rw [← (cos_parity K hx).1, hy]
      congr 1
      ring
    have e1 : b - (Real.pi / 4 : ℂ) * K.card * Complex.I + (Real.pi / 4 : ℂ) * Complex.I * ∑ p ∈ K, (x p : ℂ) = b + y * Complex.I := by
      rw [hy']
      ring
    have e2 : b + (Real.pi / 4 : ℂ) * K.card * Complex.I + -((Real.pi / 4 : ℂ) * Complex.I) * ∑ p ∈ K, (x p : ℂ) = b - y * Complex.I := by
      rw [hy']
      ring
    rw [Fintype.prod_bool]
    simp only [if_true, Bool.false_eq_true, if_false]
    rw [hsum, hsum, e1, e2, cosh_mul, hb, h2y, hC]
    have h1 : parity K x = 1 ∨ parity K x = -1 := parity_cases K hx
    have h3 : Complex.exp (2 * c) = Complex.exp c * Complex.exp c := by rw [← Complex.exp_add]; congr 1; ring
    rcases h1 with h | h
    · rw [h, mul_one]
      rw [div_mul_eq_mul_div, ← h3]
      field_simp
      ring
    · rw [h, mul_neg, mul_one, div_mul_eq_mul_div, ← Complex.exp_add, add_neg_cancel, Complex.exp_zero]
      field_simp
      ring

end

/-! ### Statement -/

variable {D : Nat} {shape : Fin D → Nat}

theorem weight_eq (z : ℂ) : (⟨z.re, -(-z.im)⟩ : ℂ) = z := Complex.ext rfl (neg_neg _)

/-- The units of all products of spins. -/
theorem all_units (ψ : Wave (Lattice shape)) (k : Nat) :
    ∃ (b : Fin (2 ^ ((∏ d, shape d) + 1)) → ℂ) (w : Fin (2 ^ ((∏ d, shape d) + 1)) → Lattice shape → ℂ) (A : ℂ), A ≠ 0 ∧
      ∀ x : Config (Lattice shape), IsSpin x →
        ∏ u, Complex.cosh (b u + ∑ p, (x p : ℂ) * w u p) = A * Complex.exp (Complex.log (ψ x) / k) := by
  obtain ⟨c, hc⟩ := expand fun s => Complex.log (ψ s)
  choose b w A hA hunits using fun K : Finset (Lattice shape) => two_units K (c K / k)
  have hcard : Fintype.card (Finset (Lattice shape) × Bool) = 2 ^ ((∏ d, shape d) + 1) := by
    rw [Fintype.card_prod, Fintype.card_finset, Fintype.card_bool, Fintype.card_pi, pow_succ]
    simp
  let e : Finset (Lattice shape) × Bool ≃ Fin (2 ^ ((∏ d, shape d) + 1)) := Fintype.equivFinOfCardEq hcard
  refine ⟨fun u => b (e.symm u).1 (e.symm u).2, fun u => w (e.symm u).1 (e.symm u).2, ∏ K, A K, Finset.prod_ne_zero_iff.2 fun K _ => hA K,
    fun x hx => ?_⟩
  rw [Fintype.prod_equiv e.symm _ (fun q : Finset (Lattice shape) × Bool => Complex.cosh (b q.1 q.2 + ∑ p, (x p : ℂ) * w q.1 q.2 p)) fun u => rfl,
    Fintype.prod_prod_type]
  simp only
  rw [Finset.prod_congr rfl fun K _ => hunits K x hx, Finset.prod_mul_distrib, ← Complex.exp_sum, hc x hx, Finset.sum_div]
  congr 2
  exact Finset.sum_congr rfl fun K _ => by ring

/-- **C149, `RBM`.** On a lattice with any number of axes, every wave function without zeros is, up to a factor that does not
depend on the configuration, the wave function of an `RBM` with `alpha = 2^(n+1)`, `n` the number of sites. -/
theorem C149_rbm [Nonempty (Lattice shape)] {ψ : Wave (Lattice shape)} (hψ : ∀ s, IsSpin s → ψ s ≠ 0) :
    ∃ (kr ki : Lattice shape → Fin (2 ^ ((∏ d, shape d) + 1) * (productRange shape).length) → ℝ)
      (br bi : Fin (2 ^ ((∏ d, shape d) + 1) * (productRange shape).length) → ℝ) (vr vi : Lattice shape → ℝ) (A : ℂ), A ≠ 0 ∧
      ∀ x, IsSpin x → (rbm kr ki br bi vr vi x).exp = A * ψ x := by
  obtain ⟨b, w, A, hA, hunits⟩ := all_units ψ 1
  have hL : 0 < (productRange shape).length := List.length_pos_of_mem (mem_productRange (Classical.arbitrary _))
  let B : Fin (2 ^ ((∏ d, shape d) + 1)) × Fin (productRange shape).length → ℂ := fun q => if q.2 = ⟨0, hL⟩ then b q.1 else 0
  let W : Fin (2 ^ ((∏ d, shape d) + 1)) × Fin (productRange shape).length → Lattice shape → ℂ := fun q p => if q.2 = ⟨0, hL⟩ then w q.1 p else 0
  refine ⟨fun p h => (W (finProdFinEquiv.symm h) p).re, fun p h => -(W (finProdFinEquiv.symm h) p).im, fun h => (B (finProdFinEquiv.symm h)).re,
    fun h => -(B (finProdFinEquiv.symm h)).im, fun _ => 0, fun _ => 0, A, hA, fun x hx => ?_⟩
  rw [C71_rbm]
  simp only [weight_eq]
  rw [Fintype.prod_equiv finProdFinEquiv.symm _ (fun q => Complex.cosh (B q + ∑ p, (x p : ℂ) * W q p)) fun u => rfl, Fintype.prod_prod_type]
  have h0 : ∑ p, (⟨0, -0⟩ : ℂ) * (x p : ℂ) = 0 := by
    refine Finset.sum_eq_zero fun p _ => ?_
    have : (⟨0, -0⟩ : ℂ) = 0 := Complex.ext rfl neg_zero
    rw [this, zero_mul]
  rw [h0, Complex.exp_zero, one_mul]
  have hprod := hunits x hx
  rw [Nat.cast_one, div_one, Complex.exp_log (hψ x hx)] at hprod
  rw [← hprod]
  refine Finset.prod_congr rfl fun u _ => ?_
  rw [Finset.prod_eq_single ⟨0, hL⟩]
  · simp [B, W]
  · intro i _ hi
    simp [B, W, hi]
  · intro h
    exact absurd (Finset.mem_univ _) h

/-- A configuration moved as `RBMSym` moves its filters. -/
def moved (t : Lattice shape) (x : Config (Lattice shape)) : Config (Lattice shape) := fun q => x fun d => unshift (shape d - (t d).val) (q d)

theorem moved_translation (t : Lattice shape) (x : Config (Lattice shape)) : IsTranslation (fun d => shape d - (t d).val) x (moved t x) := by
  intro p q h
  unfold moved
  congr 1
  funext d
  have : q d = shift (shape d - (t d).val) (p d) := Fin.ext (h d)
  rw [this, unshift_shift]

theorem moved_sum (t : Lattice shape) (x : Config (Lattice shape)) (f : Lattice shape → ℂ) :
    ∑ p, (x p : ℂ) * f (fun d => rollIndex (t d) (p d)) = ∑ p, (moved t x p : ℂ) * f p := by
  rw [sum_translation (moved_translation t x)]
  rfl

/-- **C149, `RBMSym`.** On a lattice with any number of axes, every wave function without zeros that is the same on all
translations of a configuration is, up to a constant factor, the wave function of an `RBMSym` with `alpha = 2^(n+1)`. -/
theorem C149_sym [Nonempty (Lattice shape)] {ψ : Wave (Lattice shape)} (hψ : ∀ s, IsSpin s → ψ s ≠ 0)
    (hsym : ∀ a x y, IsSpin x → IsTranslation a x y → ψ y = ψ x) :
    ∃ (kr ki : Lattice shape → Fin (2 ^ ((∏ d, shape d) + 1)) → ℝ) (br bi : Fin (2 ^ ((∏ d, shape d) + 1)) → ℝ) (vr vi : ℝ) (A : ℂ), A ≠ 0 ∧
      ∀ x, IsSpin x → (rbmSym kr ki br bi vr vi x).exp = A * ψ x := by
  have hk : 0 < Fintype.card (Lattice shape) := Fintype.card_pos
  obtain ⟨b, w, A, hA, hunits⟩ := all_units ψ (Fintype.card (Lattice shape))
  refine ⟨fun p h => (w h p).re, fun p h => -(w h p).im, fun h => (b h).re, fun h => -(b h).im, 0, 0, A ^ Fintype.card (Lattice shape),
    pow_ne_zero _ hA, fun x hx => ?_⟩
  rw [C71_sym]
  simp only [weight_eq]
  have h0 : (⟨0, -0⟩ : ℂ) = 0 := Complex.ext rfl neg_zero
  rw [h0, zero_mul, Complex.exp_zero, one_mul, Finset.prod_comm]
  have h1 : ∀ t : Lattice shape, ∏ u, Complex.cosh (b u + ∑ p, (x p : ℂ) * w u fun d => rollIndex (t d) (p d)) =
      A * Complex.exp (Complex.log (ψ x) / Fintype.card (Lattice shape)) := by
    intro t
    rw [← hsym _ x _ hx (moved_translation t x), ← hunits (moved t x) fun q => hx _]
    exact Finset.prod_congr rfl fun u _ => by rw [moved_sum t x (w u)]
  rw [Finset.prod_congr rfl fun t _ => h1 t, Finset.prod_const, Finset.card_univ, mul_pow, ← Complex.exp_nat_mul,
    mul_div_cancel₀ _ (Nat.cast_ne_zero.2 hk.ne'), Complex.exp_log (hψ x hx)]

/-! ### Energies -/

section
variable {ι : Type} [DecidableEq ι] [Fintype ι]

/-- `RBM`s come as close as desired to the energy of any wave function; `emb` reads a configuration as an input of the network. -/
def RbmReaches (conn : Config ι → List (Row ι ℝ)) (emb : Config ι → Config (Lattice shape)) : Prop :=
  ∀ ψ : Wave ι, (∃ s, IsSpin s ∧ ψ s ≠ 0) → ∀ ε : ℝ, 0 < ε →
    ∃ (alpha : Nat) (kr ki : Lattice shape → Fin (alpha * (productRange shape).length) → ℝ)
      (br bi : Fin (alpha * (productRange shape).length) → ℝ) (vr vi : Lattice shape → ℝ),
      |energyOf conn (fun s => (rbm kr ki br bi vr vi (emb s)).exp) - energyOf conn ψ| < ε

/-- `RBMSym`s come as close as desired to the energy of any wave function that is the same on all translations of a
configuration. -/
def RbmSymReaches (conn : Config ι → List (Row ι ℝ)) (emb : Config ι → Config (Lattice shape)) : Prop :=
  ∀ ψ : Wave ι, (∃ s, IsSpin s ∧ ψ s ≠ 0) → (∀ a s t, IsSpin s → IsTranslation a (emb s) (emb t) → ψ t = ψ s) → ∀ ε : ℝ, 0 < ε →
    ∃ (alpha : Nat) (kr ki : Lattice shape → Fin alpha → ℝ) (br bi : Fin alpha → ℝ) (vr vi : ℝ),
      |energyOf conn (fun s => (rbmSym kr ki br bi vr vi (emb s)).exp) - energyOf conn ψ| < ε

/-- The energy of some `RBMSym` is the ground state energy. -/
def RbmSymGround (conn : Config ι → List (Row ι ℝ)) (emb : Config ι → Config (Lattice shape)) : Prop :=
  ∃ (alpha : Nat) (kr ki : Lattice shape → Fin alpha → ℝ) (br bi : Fin alpha → ℝ) (vr vi : ℝ),
    ∀ φ : Wave ι, (∃ s, IsSpin s ∧ φ s ≠ 0) → energyOf conn (fun s => (rbmSym kr ki br bi vr vi (emb s)).exp) ≤ energyOf conn φ

open Verif.Autoregressive in
theorem close_of {conn : Config ι → List (Row ι ℝ)} (hconn : ∀ s, IsSpin s → ∀ r ∈ conn s, IsSpin r.conn) {ψ : Wave ι}
    (hψ : ∃ s, IsSpin s ∧ ψ s ≠ 0) {ε : ℝ} (hε : 0 < ε) : ∃ k, |energyOf conn (fillZeros ψ k) - energyOf conn ψ| < ε := by
  have h1 := energyOf_tendsto hconn (φ := fillZeros ψ) (ψ := ψ) (fun s _ => fillZeros_tendsto ψ s) hψ
  obtain ⟨k, hk⟩ := (Metric.tendsto_nhds.1 h1 ε hε).exists
  exact ⟨k, by rwa [Real.dist_eq] at hk⟩

open Verif.Autoregressive in
theorem rbmReaches_of [Nonempty (Lattice shape)] (e : Lattice shape ≃ ι) {conn : Config ι → List (Row ι ℝ)}
    (hconn : ∀ s, IsSpin s → ∀ r ∈ conn s, IsSpin r.conn) : RbmReaches (shape := shape) conn (fun s p => s (e p)) := by
  intro ψ hψ ε hε
  obtain ⟨k, hk⟩ := close_of hconn hψ hε
  obtain ⟨kr, ki, br, bi, vr, vi, A, hA, hx⟩ := C149_rbm (shape := shape) (ψ := fun x => fillZeros ψ k fun i => x (e.symm i))
    fun s _ => fillZeros_ne ψ k _
  refine ⟨_, kr, ki, br, bi, vr, vi, ?_⟩
  rwa [energyOf_congr hconn hA (ψ := fillZeros ψ k) fun s hs => ?_]
  rw [hx _ fun p => hs (e p)]
  simp

open Verif.Autoregressive in
theorem rbmSymReaches_of [Nonempty (Lattice shape)] (e : Lattice shape ≃ ι) {conn : Config ι → List (Row ι ℝ)}
    (hconn : ∀ s, IsSpin s → ∀ r ∈ conn s, IsSpin r.conn) : RbmSymReaches (shape := shape) conn (fun s p => s (e p)) := by
  intro ψ hψ hsym ε hε
  obtain ⟨k, hk⟩ := close_of hconn hψ hε
  obtain ⟨kr, ki, br, bi, vr, vi, A, hA, hx⟩ := C149_sym (shape := shape) (ψ := fun x => fillZeros ψ k fun i => x (e.symm i))
    (fun s _ => fillZeros_ne ψ k _) fun a x y hx hxy => by
      have := hsym a (fun i => x (e.symm i)) (fun i => y (e.symm i)) (fun i => hx _) (by simpa using hxy)
      unfold fillZeros
      simp only [this]
  refine ⟨_, kr, ki, br, bi, vr, vi, ?_⟩
  rwa [energyOf_congr hconn hA (ψ := fillZeros ψ k) fun s hs => ?_]
  rw [hx _ fun p => hs (e p)]
  simp

open Verif.Autoregressive in
theorem rbmSymGround_of [Nonempty (Lattice shape)] (e : Lattice shape ≃ ι) {conn : Config ι → List (Row ι ℝ)}
    (hconn : ∀ s, IsSpin s → ∀ r ∈ conn s, IsSpin r.conn) (h : OnePositiveState conn (allSpins ι))
    (hsym : ∀ ψ, Lowest conn (allSpins ι) ψ → ∀ a s t, IsSpin s → IsTranslation (shape := shape) a (fun p => s (e p)) (fun p => t (e p)) → ψ t = ψ s) :
    RbmSymGround (shape := shape) conn (fun s p => s (e p)) := by
  obtain ⟨ψ, hψ⟩ := h.exists_
  obtain ⟨c, hc, hpos⟩ := h.positive ψ hψ
  obtain ⟨kr, ki, br, bi, vr, vi, A, hA, hx⟩ := C149_sym (shape := shape) (ψ := fun x => ψ fun i => x (e.symm i))
    (fun s hs => norm_pos_iff.1 (hpos _ ((mem_allSpins _).2 fun i => hs _)).1) fun a x y hx hxy =>
      hsym ψ hψ a (fun i => x (e.symm i)) (fun i => y (e.symm i)) (fun i => hx _) (by simpa using hxy)
  refine ⟨_, kr, ki, br, bi, vr, vi, fun φ hφ => ?_⟩
  rw [energyOf_congr hconn hA (ψ := ψ) fun s hs => ?_]
  · obtain ⟨s, hs, hne⟩ := hφ
    exact hψ.least _ ⟨fun t ht h => absurd ht h, s, (mem_allSpins s).2 hs, hne⟩
  · rw [hx _ fun p => hs (e p)]
    simp

end

/-- Sites of a line. -/
def lineEquiv (shape : Fin 1 → Nat) : Lattice shape ≃ Fin (shape 0) :=
  ⟨fun p => p 0, fun i d => (Subsingleton.elim 0 d) ▸ i, fun p => by funext d; have := Subsingleton.elim 0 d; subst this; rfl, fun _ => rfl⟩

theorem onLine_eq (shape : Fin 1 → Nat) : (onLine (shape := shape)) = fun s p => s (lineEquiv shape p) := rfl

/-- Sites of a plane. -/
def planeEquiv (shape : Fin 2 → Nat) : Lattice shape ≃ Fin (shape 0) × Fin (shape 1) := piFinTwoEquiv fun d => Fin (shape d)

theorem onPlane_eq (shape : Fin 2 → Nat) : (onPlane (shape := shape)) = fun s p => s (planeEquiv shape p) := rfl

open Verif.Operators in
theorem conn_spins_chain {n : Nat} (rot pbc : Bool) (history : List (Call n 1)) :
    ∀ s, IsSpin s → ∀ r ∈ heisenbergChain rot pbc history s, IsSpin r.conn := by
  intro s hs
  have hr := Verif.Energy.Exact.rowsOf_heisenberg_chain n rot pbc history
  have := hr.spins s hs
  rwa [← hr.eq 1 (fun _ => s) 0] at this

open Verif.Operators in
theorem conn_spins_grid {n m : Nat} (rot pbc : Bool) (history : List (Call n m)) :
    ∀ s, IsSpin s → ∀ r ∈ heisenbergGrid rot pbc history s, IsSpin r.conn := by
  intro s hs
  have hr := Verif.Energy.Exact.rowsOf_heisenberg_grid n m rot pbc history
  have := hr.spins s hs
  rwa [← hr.eq 1 (fun _ => s) 0] at this

/-- **C149, energies on chains**: Ising and Heisenberg, every field, coupling and boundary, after every history of calls. -/
theorem C149_energy_chain {shape : Fin 1 → Nat} (hn : 0 < shape 0) :
    (∀ h j pbc, RbmReaches (isingChain h j pbc) (onLine (shape := shape)) ∧ RbmSymReaches (isingChain h j pbc) (onLine (shape := shape))) ∧
    ∀ rot pbc history, RbmReaches (heisenbergChain rot pbc history) (onLine (shape := shape)) ∧
      RbmSymReaches (heisenbergChain rot pbc history) (onLine (shape := shape)) := by
  have : Nonempty (Lattice shape) := ⟨(lineEquiv shape).symm ⟨0, hn⟩⟩
  rw [onLine_eq]
  exact ⟨fun h j pbc => ⟨rbmReaches_of _ (Verif.Energy.Exact.rowsOf_ising_chain _ h j pbc).spins, rbmSymReaches_of _ (Verif.Energy.Exact.rowsOf_ising_chain _ h j pbc).spins⟩,
    fun rot pbc history => ⟨rbmReaches_of _ (conn_spins_chain rot pbc history), rbmSymReaches_of _ (conn_spins_chain rot pbc history)⟩⟩

/-- **C149, energies on grids.** -/
theorem C149_energy_grid {shape : Fin 2 → Nat} (hn : 0 < shape 0) (hm : 0 < shape 1) :
    (∀ h j pbc, RbmReaches (isingGrid h j pbc) (onPlane (shape := shape)) ∧ RbmSymReaches (isingGrid h j pbc) (onPlane (shape := shape))) ∧
    ∀ rot pbc history, RbmReaches (heisenbergGrid rot pbc history) (onPlane (shape := shape)) ∧
      RbmSymReaches (heisenbergGrid rot pbc history) (onPlane (shape := shape)) := by
  have : Nonempty (Lattice shape) := ⟨(planeEquiv shape).symm (⟨0, hn⟩, ⟨0, hm⟩)⟩
  rw [onPlane_eq]
  exact ⟨fun h j pbc => ⟨rbmReaches_of _ (Verif.Energy.Exact.rowsOf_ising_grid _ _ h j pbc).spins, rbmSymReaches_of _ (Verif.Energy.Exact.rowsOf_ising_grid _ _ h j pbc).spins⟩,
    fun rot pbc history => ⟨rbmReaches_of _ (conn_spins_grid rot pbc history), rbmSymReaches_of _ (conn_spins_grid rot pbc history)⟩⟩

/-- **C149, ground states**: with periodic boundaries and a positive field the ground state of an Ising model is the wave function
of an `RBMSym`, on chains and on grids. -/
theorem C149_ground {h : ℝ} (hh : 0 < h) (j : ℝ) :
    (∀ shape : Fin 1 → Nat, 0 < shape 0 → RbmSymGround (isingChain h j true) (onLine (shape := shape))) ∧
    ∀ shape : Fin 2 → Nat, 0 < shape 0 → 0 < shape 1 → RbmSymGround (isingGrid h j true) (onPlane (shape := shape)) := by
  constructor
  · intro shape hn
    have : Nonempty (Lattice shape) := ⟨(lineEquiv shape).symm ⟨0, hn⟩⟩
    rw [onLine_eq]
    refine rbmSymGround_of _ (Verif.Energy.Exact.rowsOf_ising_chain _ h j true).spins (C141_lowest_ising_chain hh j true) fun ψ hψ a s t hs hst => ?_
    have h1 : s = fun i => t (shiftEquiv (shape 0) (a 0) i) := by
      funext i
      have := hst ((lineEquiv shape).symm i) ((lineEquiv shape).symm (shift (a 0) i)) fun d => by
        have := Subsingleton.elim 0 d
        subst this
        rfl
      simp only [Equiv.apply_symm_apply] at this
      exact this.symm
    have ht : IsSpin t := fun i => by
      have := hs ((shiftEquiv (shape 0) (a 0)).symm i)
      rw [h1] at this
      simpa using this
    rw [h1]
    exact ((C144_ising_chain hh j true hψ).sites _ (bondSym_chain_shift _ _) t ht).symm
  · intro shape hn hm
    have : Nonempty (Lattice shape) := ⟨(planeEquiv shape).symm (⟨0, hn⟩, ⟨0, hm⟩)⟩
    rw [onPlane_eq]
    refine rbmSymGround_of _ (Verif.Energy.Exact.rowsOf_ising_grid _ _ h j true).spins (C141_lowest_ising_grid hh j true) fun ψ hψ a s t hs hst => ?_
    have h1 : s = fun i => t (Equiv.prodCongr (shiftEquiv (shape 0) (a 0)) (shiftEquiv (shape 1) (a 1)) i) := by
      funext i
      have := hst ((planeEquiv shape).symm i) ((planeEquiv shape).symm (shift (a 0) i.1, shift (a 1) i.2)) fun d => by
        match d with
        | 0 => rfl
        | 1 => rfl
      simp only [Equiv.apply_symm_apply] at this
      exact this.symm
    have ht : IsSpin t := fun i => by
      have := hs ((Equiv.prodCongr (shiftEquiv (shape 0) (a 0)) (shiftEquiv (shape 1) (a 1))).symm i)
      rw [h1] at this
      simpa only [Equiv.apply_symm_apply] using this
    rw [h1]
    exact ((C144_ising_grid hh j true hψ).sites _ (bondSym_shift _ _ _ _) t ht).symm

/-- Hypotheses met, on every lattice: `2 + m²` with `m` the magnetisation has no zeros and is the same on all translations. -/
example : (∀ x : Config (Lattice shape), (2 + (∑ p, (x p : ℂ)) ^ 2) ≠ 0) ∧
    ∀ a (x y : Config (Lattice shape)), IsTranslation a x y → (2 + (∑ p, (y p : ℂ)) ^ 2) = 2 + (∑ p, (x p : ℂ)) ^ 2 := by
  refine ⟨fun x h => ?_, fun a x y h => ?_⟩
  · have h1 : ((2 + (∑ p, x p) ^ 2 : ℤ) : ℂ) = 0 := by push_cast; exact h
    have h2 : (2 + (∑ p, x p) ^ 2 : ℤ) = 0 := by exact_mod_cast h1
    nlinarith [sq_nonneg (∑ p, x p)]
  · have := sum_translation h fun _ => 1
    simp only [mul_one] at this
    rw [this]

end Verif.RBM
