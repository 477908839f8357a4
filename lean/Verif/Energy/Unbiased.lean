import Verif.Energy.Spins
import Verif.Autoregressive.Props
import Mathlib.MeasureTheory.Integral.Bochner.Set
import Mathlib.Analysis.SpecialFunctions.Log.Deriv

/-!
# Properties C88 and C89: the Monte Carlo gradient and energy on average

Independent samples of `|ψ|²`; expected values over all batches.
-/
namespace Verif.Energy

open Verif.Operators

/-! ### Expected values over batches of independent samples -/

section Expect

variable {α K : Type} [DecidableEq α] [Field K] {B : Nat}

/-- Expected value of `F` over batches of `B` independent samples, each of which is `s ∈ S` with
probability `p s`. -/
def expect (S : Finset α) (p : α → K) (B : Nat) (F : (Fin B → α) → K) : K :=
  ∑ sample ∈ Fintype.piFinset fun _ : Fin B => S, (∏ b, p (sample b)) * F sample

theorem expect_prod (S : Finset α) (p : α → K) (h : Fin B → α → K) :
    expect S p B (fun sample => ∏ b, h b (sample b)) = ∏ b, ∑ s ∈ S, p s * h b s := by
  unfold expect
  simp only [← Finset.prod_mul_distrib]
  rw [Finset.prod_univ_sum (fun _ => S) fun b s => p s * h b s]

theorem expect_add (S : Finset α) (p : α → K) (F G : (Fin B → α) → K) :
    expect S p B (fun x => F x + G x) = expect S p B F + expect S p B G := by
  unfold expect
  rw [← Finset.sum_add_distrib]
  exact Finset.sum_congr rfl fun _ _ => by ring

theorem expect_mul (S : Finset α) (p : α → K) (c : K) (F : (Fin B → α) → K) :
    expect S p B (fun x => c * F x) = c * expect S p B F := by
  unfold expect
  rw [Finset.mul_sum]
  exact Finset.sum_congr rfl fun _ _ => by ring

theorem expect_sum {J : Type} (I : Finset J) (S : Finset α) (p : α → K) (F : J → (Fin B → α) → K) :
    expect S p B (fun x => ∑ j ∈ I, F j x) = ∑ j ∈ I, expect S p B (F j) := by
  unfold expect
  rw [Finset.sum_comm]
  exact Finset.sum_congr rfl fun _ _ => by rw [Finset.mul_sum]

theorem expect_congr (S : Finset α) (p : α → K) (F G : (Fin B → α) → K)
    (h : ∀ x, (∀ b, x b ∈ S) → F x = G x) : expect S p B F = expect S p B G := by
  unfold expect
  refine Finset.sum_congr rfl fun x hx => ?_
  rw [h x (by simpa using hx)]

/-- Two samples of one batch: the same sample, or two independent ones. -/
theorem expect_pair (S : Finset α) (p : α → K) (hp : ∑ s ∈ S, p s = 1) (f g : α → K) (a b : Fin B) :
    expect S p B (fun x => f (x a) * g (x b)) =
      if a = b then ∑ s ∈ S, p s * (f s * g s) else (∑ s ∈ S, p s * f s) * ∑ s ∈ S, p s * g s := by
  have h : ∀ x : Fin B → α, f (x a) * g (x b) =
      ∏ c, ((if c = a then f (x c) else 1) * if c = b then g (x c) else 1) := by
    intro x
    rw [Finset.prod_mul_distrib]
    simp
  simp only [h]
  rw [expect_prod S p fun c s => (if c = a then f s else 1) * if c = b then g s else 1]
  by_cases hab : a = b
  · subst hab
    rw [if_pos rfl, Finset.prod_eq_single a]
    · simp
    · intro c _ hc; simp [hc, hp]
    · intro h; exact absurd (Finset.mem_univ a) h
  · rw [if_neg hab, ← Finset.mul_prod_erase _ _ (Finset.mem_univ a),
      ← Finset.mul_prod_erase _ _ (Finset.mem_erase.2 ⟨Ne.symm hab, Finset.mem_univ b⟩), Finset.prod_eq_one]
    · simp [hab, Ne.symm hab]
    · intro c hc
      simp only [Finset.mem_erase] at hc
      simp [hc.1, hc.2.1, hp]

theorem expect_one (S : Finset α) (p : α → K) (hp : ∑ s ∈ S, p s = 1) (f : α → K) (a : Fin B) :
    expect S p B (fun x => f (x a)) = ∑ s ∈ S, p s * f s := by
  have := expect_pair S p hp f (fun _ => 1) a a
  simpa using this

/-- Expected product of two sums over the batch. -/
theorem expect_sums (S : Finset α) (p : α → K) (hp : ∑ s ∈ S, p s = 1) (f g : α → K) :
    expect S p B (fun x => (∑ a, f (x a)) * ∑ b, g (x b)) =
      B * (∑ s ∈ S, p s * (f s * g s)) + (B * (B - 1)) * ((∑ s ∈ S, p s * f s) * ∑ s ∈ S, p s * g s) := by
  have h0 : (fun x : Fin B → α => (∑ a, f (x a)) * ∑ b, g (x b)) = fun x => ∑ a, ∑ b, f (x a) * g (x b) := by
    funext x
    rw [Finset.sum_mul_sum]
  rw [h0]
  simp only [expect_sum, expect_pair S p hp]
  have h : ∀ (X Y : K) (a : Fin B), ∑ b : Fin B, (if a = b then X else Y) = X + ((B : K) - 1) * Y := by
    intro X Y a
    rw [← Finset.add_sum_erase _ _ (Finset.mem_univ a), if_pos rfl]
    have h1 : ∀ b ∈ Finset.univ.erase a, (if a = b then X else Y) = Y := fun b hb =>
      if_neg (Ne.symm (Finset.mem_erase.1 hb).1)
    rw [Finset.sum_congr rfl h1, Finset.sum_const, Finset.card_erase_of_mem (Finset.mem_univ a), Finset.card_univ,
      Fintype.card_fin, nsmul_eq_mul, Nat.cast_pred (Fin.pos a)]
  simp only [h, Finset.sum_const, Finset.card_univ, Fintype.card_fin, nsmul_eq_mul]
  ring

/-- Covariance of the batch: sums over the samples of products of deviations from the mean of the batch. -/
theorem expect_cov (S : Finset α) (p : α → K) (hp : ∑ s ∈ S, p s = 1) (hB : (B : K) ≠ 0) (f g : α → K) :
    expect S p B (fun x => (∑ b, (f (x b) - (∑ a, f (x a)) / B) * g (x b)) / B) =
      (1 - 1 / B) * (∑ s ∈ S, p s * (f s * g s) - (∑ s ∈ S, p s * f s) * ∑ s ∈ S, p s * g s) := by
  have h : ∀ x : Fin B → α, (∑ b, (f (x b) - (∑ a, f (x a)) / B) * g (x b)) / B =
      (1 / B) * (∑ b, f (x b) * g (x b)) + (-(1 / (B * B))) * ((∑ a, f (x a)) * ∑ b, g (x b)) := by
    intro x
    simp only [sub_mul, Finset.sum_sub_distrib, ← Finset.mul_sum]
    field_simp
    ring
  simp only [h]
  rw [expect_add, expect_mul, expect_mul, expect_sums S p hp, expect_sum]
  have h2 : ∀ b : Fin B, expect S p B (fun x => f (x b) * g (x b)) = ∑ s ∈ S, p s * (f s * g s) := by
    intro b
    rw [expect_pair S p hp, if_pos rfl]
  simp only [h2, Finset.sum_const, Finset.card_univ, Fintype.card_fin, nsmul_eq_mul]
  field_simp
  ring

end Expect

/-! ### The energy and its derivative -/

variable {ι : Type} [DecidableEq ι] [Fintype ι]

/-- Probability of a configuration under `|ψ|²` (`logψ` is the logarithm of the amplitude). -/
noncomputable def born (logψ : Config ι → ℂ) (s : Config ι) : ℝ :=
  ‖Complex.exp (logψ s)‖ ^ 2 / ∑ t ∈ allSpins ι, ‖Complex.exp (logψ t)‖ ^ 2

/-- Local energy `(Hψ)(s)/ψ(s)`. -/
noncomputable def localEnergy (H : Wave ι → Wave ι) (logψ : Config ι → ℂ) (s : Config ι) : ℂ :=
  H (fun s => Complex.exp (logψ s)) s / Complex.exp (logψ s)

theorem norm_sum_pos (logψ : Config ι → ℂ) : 0 < ∑ t ∈ allSpins ι, ‖Complex.exp (logψ t)‖ ^ 2 := by
  refine Finset.sum_pos (fun t _ => ?_) ⟨fun _ => 1, (mem_allSpins _).2 fun _ => Or.inl rfl⟩
  have := Complex.exp_ne_zero (logψ t)
  positivity

theorem born_sum (logψ : Config ι → ℂ) : ∑ s ∈ allSpins ι, born logψ s = 1 := by
  unfold born
  rw [← Finset.sum_div, div_self (norm_sum_pos logψ).ne']

theorem born_nonneg (logψ : Config ι → ℂ) (s : Config ι) : 0 ≤ born logψ s :=
  div_nonneg (by positivity) (norm_sum_pos logψ).le

/-- The Rayleigh quotient is the expected local energy. -/
theorem rayleigh_born (H : Wave ι → Wave ι) (logψ : Config ι → ℂ) :
    rayleigh H (fun s => Complex.exp (logψ s)) = ∑ s ∈ allSpins ι, (born logψ s : ℂ) * localEnergy H logψ s := by
  unfold rayleigh born localEnergy
  simp only [conj_mul_self]
  rw [← Complex.ofReal_sum, Finset.sum_div]
  refine Finset.sum_congr rfl fun s _ => ?_
  have h1 := Complex.exp_ne_zero (logψ s)
  have h2 := (norm_sum_pos logψ).ne'
  have h3 : ((∑ t ∈ allSpins ι, ‖Complex.exp (logψ t)‖ ^ 2 : ℝ) : ℂ) ≠ 0 := by exact_mod_cast h2
  rw [Complex.ofReal_div, ← conj_mul_self]
  field_simp

theorem applyRows_sum (rows : List (Row ι ℝ)) (h : ∀ r ∈ rows, IsSpin r.conn) (ψ : Wave ι) :
    applyRows rows ψ = ∑ t ∈ allSpins ι, (matrixElement rows t : ℂ) * ψ t := by
  unfold applyRows matrixElement
  induction rows with
  | nil => simp
  | cons r rows ih =>
    rw [List.map_cons, List.sum_cons, ih fun r hr => h r (List.mem_cons_of_mem _ hr)]
    simp only [List.map_cons, List.sum_cons, Complex.ofReal_add, add_mul]
    rw [Finset.sum_add_distrib]
    congr 1
    rw [Finset.sum_eq_single r.conn]
    · rw [if_pos rfl]
    · intro t _ ht
      rw [if_neg (Ne.symm ht), Complex.ofReal_zero, zero_mul]
    · intro hn
      exact absurd ((mem_allSpins _).2 (h r (List.mem_cons_self ..))) hn

open Verif.Energy.Exact in
/-- The derivative of the energy along a path of network parameters is twice the real part of the
covariance of the conjugate local energy and the derivative of the logarithm of the amplitude. -/
theorem rayleigh_deriv {op : (B : Nat) → (Fin B → Config ι) → Fin B → List (Row ι ℝ)} {R : Nat}
    {rowsOf : Config ι → List (Row ι ℝ)} (h : RowsOf op R rowsOf) (H : Wave ι → Wave ι)
    (hH : ∀ s, IsSpin s → ∀ ψ, applyRows (rowsOf s) ψ = H ψ s) (logψ : ℝ → Config ι → ℂ) (D : Config ι → ℂ) (θ : ℝ)
    (hD : ∀ s, IsSpin s → HasDerivAt (fun t => logψ t s) (D s) θ) :
    HasDerivAt (fun t => (rayleigh H fun s => Complex.exp (logψ t s)).re)
      (2 * (∑ s ∈ allSpins ι, (born (logψ θ) s : ℂ) * ((starRingEnd ℂ) (localEnergy H (logψ θ) s) * D s) -
        (∑ s ∈ allSpins ι, (born (logψ θ) s : ℂ) * (starRingEnd ℂ) (localEnergy H (logψ θ) s)) *
          ∑ s ∈ allSpins ι, (born (logψ θ) s : ℂ) * D s).re) θ := by
  set M : Matrix (allSpins ι) (allSpins ι) ℂ := fun x y => (matrixElement (rowsOf x) y : ℂ) with hM
  have hMh : M.IsHermitian := by
    ext x y
    rw [Matrix.conjTranspose_apply, hM]
    simp only
    rw [h.symm]
    exact Complex.conj_ofReal _
  set A : ℝ → allSpins ι → ℂ := fun t x => Complex.exp (logψ t x) with hA
  have hmul : ∀ t, M.mulVec (A t) = fun x : allSpins ι => H (fun s => Complex.exp (logψ t s)) x := by
    intro t
    funext x
    have hx := (mem_allSpins _).1 x.2
    rw [← hH _ hx, applyRows_sum _ (h.spins _ hx)]
    unfold Matrix.mulVec dotProduct
    rw [← Finset.sum_coe_sort (allSpins ι) fun t' => (matrixElement (rowsOf x) t' : ℂ) * Complex.exp (logψ t t')]
  have hAd : ∀ x, HasDerivAt (fun t => A t x) (A θ x * D x) θ := by
    intro x
    exact (hD x ((mem_allSpins _).1 x.2)).cexp
  have hnum := Exact.quad_deriv M hMh A (fun x => D x) θ hAd
  have hden := Exact.quad_deriv 1 Matrix.isHermitian_one A (fun x => D x) θ hAd
  simp only [Matrix.one_mulVec] at hden
  have hZ : ∀ t, (star (A t) ⬝ᵥ A t) = ((∑ s ∈ allSpins ι, ‖Complex.exp (logψ t s)‖ ^ 2 : ℝ) : ℂ) := by
    intro t
    rw [Complex.ofReal_sum, ← Finset.sum_coe_sort]
    unfold dotProduct
    refine Finset.sum_congr rfl fun x _ => ?_
    rw [← conj_mul_self]
    rfl
  have hN : ∀ t, (star (A t) ⬝ᵥ M.mulVec (A t)) =
      ∑ s ∈ allSpins ι, (starRingEnd ℂ) (Complex.exp (logψ t s)) * H (fun s => Complex.exp (logψ t s)) s := by
    intro t
    rw [hmul, ← Finset.sum_coe_sort]
    rfl
  have hE : ∀ t, (rayleigh H fun s => Complex.exp (logψ t s)).re =
      (star (A t) ⬝ᵥ M.mulVec (A t)).re / (star (A t) ⬝ᵥ A t).re := by
    intro t
    unfold rayleigh
    rw [hN, hZ, Complex.ofReal_re]
    simp only [conj_mul_self]
    rw [← Complex.ofReal_sum, Complex.div_ofReal_re]
  have hZ0 : (star (A θ) ⬝ᵥ A θ).re ≠ 0 := by
    rw [hZ, Complex.ofReal_re]
    exact (norm_sum_pos _).ne'
  have hq := hnum.fun_div hden hZ0
  simp only [← hE] at hq
  refine hq.congr_deriv ?_
  -- both sides in terms of sums over all configurations
  set Z := ∑ s ∈ allSpins ι, ‖Complex.exp (logψ θ s)‖ ^ 2 with hZdef
  have hZpos : 0 < Z := norm_sum_pos _
  have hZC : (Z : ℂ) ≠ 0 := by exact_mod_cast hZpos.ne'
  have e1 : ∑ x : allSpins ι, 2 * ((starRingEnd ℂ) (M.mulVec (A θ) x) * A θ x * D x).re =
      2 * Z * (∑ s ∈ allSpins ι, (born (logψ θ) s : ℂ) * ((starRingEnd ℂ) (localEnergy H (logψ θ) s) * D s)).re := by
    rw [← Finset.mul_sum, mul_assoc]
    congr 1
    rw [← Complex.re_sum, ← Complex.re_ofReal_mul, Finset.mul_sum, hmul,
      ← Finset.sum_coe_sort (allSpins ι) fun s => (Z : ℂ) * ((born (logψ θ) s : ℂ) * ((starRingEnd ℂ) (localEnergy H (logψ θ) s) * D s))]
    congr 1
    refine Finset.sum_congr rfl fun x _ => ?_
    unfold born localEnergy
    rw [← hZdef, Complex.ofReal_div, ← conj_mul_self, map_div₀]
    have h1 := Complex.exp_ne_zero (logψ θ x)
    have h2 : (starRingEnd ℂ) (Complex.exp (logψ θ x)) ≠ 0 := (map_ne_zero _).2 h1
    simp only [hA]
    field_simp
  have e2 : ∑ x : allSpins ι, 2 * ((starRingEnd ℂ) (A θ x) * A θ x * D x).re =
      2 * Z * (∑ s ∈ allSpins ι, (born (logψ θ) s : ℂ) * D s).re := by
    rw [← Finset.mul_sum, mul_assoc]
    congr 1
    rw [← Complex.re_sum, ← Complex.re_ofReal_mul, Finset.mul_sum,
      ← Finset.sum_coe_sort (allSpins ι) fun s => (Z : ℂ) * ((born (logψ θ) s : ℂ) * D s)]
    congr 1
    refine Finset.sum_congr rfl fun x _ => ?_
    unfold born
    rw [← hZdef, Complex.ofReal_div, ← conj_mul_self]
    simp only [hA]
    field_simp
  have hreal : (starRingEnd ℂ) (star (A θ) ⬝ᵥ M.mulVec (A θ)) = star (A θ) ⬝ᵥ M.mulVec (A θ) := by
    have h1 := hMh.im_star_dotProduct_mulVec_self (A θ)
    exact Complex.conj_eq_iff_im.2 h1
  have e3 : ∑ s ∈ allSpins ι, (born (logψ θ) s : ℂ) * (starRingEnd ℂ) (localEnergy H (logψ θ) s) =
      (((star (A θ) ⬝ᵥ M.mulVec (A θ)).re / Z : ℝ) : ℂ) := by
    have h1 : ∑ s ∈ allSpins ι, (born (logψ θ) s : ℂ) * (starRingEnd ℂ) (localEnergy H (logψ θ) s) =
        (starRingEnd ℂ) (rayleigh H fun s => Complex.exp (logψ θ s)) := by
      rw [rayleigh_born, map_sum]
      exact Finset.sum_congr rfl fun s _ => by rw [map_mul, Complex.conj_ofReal]
    rw [h1]
    unfold rayleigh
    simp only [conj_mul_self]
    rw [← hN, ← Complex.ofReal_sum, ← hZdef, map_div₀, hreal, Complex.conj_ofReal, Complex.ofReal_div]
    congr 1
    apply Complex.ext
    · rw [Complex.ofReal_re]
    · rw [Complex.ofReal_im]; exact Complex.conj_eq_iff_im.1 hreal
  rw [e1, e2, e3, hZ, Complex.ofReal_re, ← hZdef, Complex.sub_re, Complex.re_ofReal_mul]
  field_simp

/-! ### C88 -/

/-- What C88 demands of a generator that returns the training targets `targets B logψ sample` for a
batch `sample` of `B` configurations: along every differentiable path of network parameters, the energy
has a derivative `E'`, every batch of spin configurations gives targets for which the summed training
loss has a derivative, and the expected value of that derivative over batches of independent samples of
`|ψ|²` is `(1 - 1/B) E'`. -/
def MeanGradient (H : Wave ι → Wave ι)
    (targets : (B : Nat) → (Config ι → ℂ) → (Fin B → Config ι) → Option (List ℂ)) : Prop :=
  ∀ (B : Nat), 0 < B → ∀ (logψ : ℝ → Config ι → ℂ) (D : Config ι → ℂ) (θ : ℝ),
    (∀ s, IsSpin s → HasDerivAt (fun t => logψ t s) (D s) θ) →
    ∃ (E' : ℝ) (grad : (Fin B → Config ι) → ℝ),
      HasDerivAt (fun t => (rayleigh H fun s => Complex.exp (logψ t s)).re) E' θ ∧
      (∀ sample, (∀ b, IsSpin (sample b)) → ∃ c, targets B (logψ θ) sample = some c ∧ c.length = B ∧
        HasDerivAt (fun t => ∑ b : Fin B, Exact.loss (c.getD b 0) (logψ t (sample b))) (grad sample) θ) ∧
      expect (allSpins ι) (born (logψ θ)) B grad = (1 - 1 / B) * E'

theorem expect_re (S : Finset (Config ι)) (p : Config ι → ℝ) {B : Nat} (F : (Fin B → Config ι) → ℂ) :
    expect S p B (fun x => (F x).re) = (expect S (fun s => (p s : ℂ)) B F).re := by
  unfold expect
  rw [Complex.re_sum]
  refine Finset.sum_congr rfl fun x _ => ?_
  rw [← Complex.ofReal_prod, Complex.re_ofReal_mul]

/-- The derivative of the training loss of a batch. -/
noncomputable def batchGradient (H : Wave ι → Wave ι) (logψ : Config ι → ℂ) (D : Config ι → ℂ) {B : Nat}
    (sample : Fin B → Config ι) : ℝ :=
  ∑ b, 2 * ((starRingEnd ℂ) (localEnergy H logψ (sample b) - (∑ a, localEnergy H logψ (sample a)) / B) / B * D (sample b)).re

theorem expect_batchGradient (H : Wave ι → Wave ι) (logψ : Config ι → ℂ) (D : Config ι → ℂ) {B : Nat} (hB : 0 < B) :
    expect (allSpins ι) (born logψ) B (batchGradient H logψ D) =
      (1 - 1 / B) * (2 * (∑ s ∈ allSpins ι, (born logψ s : ℂ) * ((starRingEnd ℂ) (localEnergy H logψ s) * D s) -
        (∑ s ∈ allSpins ι, (born logψ s : ℂ) * (starRingEnd ℂ) (localEnergy H logψ s)) *
          ∑ s ∈ allSpins ι, (born logψ s : ℂ) * D s).re) := by
  have hBC : (B : ℂ) ≠ 0 := by exact_mod_cast hB.ne'
  have hp : ∑ s ∈ allSpins ι, (born logψ s : ℂ) = 1 := by rw [← Complex.ofReal_sum, born_sum]; simp
  have h1 : ∀ x : Fin B → Config ι, batchGradient H logψ D x =
      2 * ((∑ b, ((starRingEnd ℂ) (localEnergy H logψ (x b)) -
        (∑ a, (starRingEnd ℂ) (localEnergy H logψ (x a))) / B) * D (x b)) / B).re := by
    intro x
    unfold batchGradient
    rw [← Finset.mul_sum, ← Complex.re_sum]
    refine congrArg (fun z : ℂ => 2 * z.re) ?_
    rw [Finset.sum_div Finset.univ fun b => ((starRingEnd ℂ) (localEnergy H logψ (x b)) -
        (∑ a, (starRingEnd ℂ) (localEnergy H logψ (x a))) / B) * D (x b)]
    refine Finset.sum_congr rfl fun b _ => ?_
    rw [map_sub, map_div₀, map_sum, map_natCast]
    ring
  have h2 := expect_cov (B := B) (allSpins ι) (fun s => (born logψ s : ℂ)) hp hBC
    (fun s => (starRingEnd ℂ) (localEnergy H logψ s)) D
  rw [show batchGradient H logψ D = fun x : Fin B → Config ι => 2 * ((∑ b, ((starRingEnd ℂ) (localEnergy H logψ (x b)) -
        (∑ a, (starRingEnd ℂ) (localEnergy H logψ (x a))) / B) * D (x b)) / B).re from funext h1,
    expect_mul, expect_re, h2]
  have h3 : ((1 : ℂ) - 1 / B) = ((1 - 1 / B : ℝ) : ℂ) := by push_cast; rfl
  rw [h3, Complex.re_ofReal_mul]
  ring

open Verif.Energy.Exact in
theorem targets_of {op : (B : Nat) → (Fin B → Config ι) → Fin B → List (Row ι ℝ)} {R : Nat}
    {rowsOf : Config ι → List (Row ι ℝ)} (h : RowsOf op R rowsOf) {H : Wave ι → Wave ι} {B : Nat}
    (hlen : ∀ (sample : Fin B → Config ι) b, (op B sample b).length = R)
    (logψ : Config ι → ℂ) (sample : Fin B → Config ι)
    (hE : LocalEnergies H sample logψ (estimate logψ (Answer.ofRows R (op B sample) (hlen sample)))) :
    vmcCoefficients B logψ (Answer.ofRows R (op B sample) (hlen sample)) =
      some ((List.finRange B).map fun b => (starRingEnd ℂ) (localEnergy H logψ (sample b) -
        (∑ a, localEnergy H logψ (sample a)) / B) / (B : ℂ)) := by
  obtain ⟨v, hv⟩ := hE.values
  unfold vmcCoefficients
  rw [hv]
  simp only [Option.map_some, List.map_map]
  rfl

open Verif.Energy.Exact in
theorem meanGradient_of {op : (B : Nat) → (Fin B → Config ι) → Fin B → List (Row ι ℝ)} {R : Nat}
    {rowsOf : Config ι → List (Row ι ℝ)} (h : RowsOf op R rowsOf) (H : Wave ι → Wave ι)
    (hH : ∀ s, IsSpin s → ∀ ψ, applyRows (rowsOf s) ψ = H ψ s)
    (hlen : ∀ B (sample : Fin B → Config ι) b, (op B sample b).length = R)
    (hE : ∀ B (sample : Fin B → Config ι), (∀ b, IsSpin (sample b)) → ∀ logψ,
      LocalEnergies H sample logψ (estimate logψ (Answer.ofRows R (op B sample) (hlen B sample)))) :
    MeanGradient H fun B logψ sample => vmcCoefficients B logψ (Answer.ofRows R (op B sample) (hlen B sample)) := by
  intro B hB logψ D θ hD
  refine ⟨_, batchGradient H (logψ θ) D, rayleigh_deriv h H hH logψ D θ hD, fun sample hs => ⟨_, targets_of h (hlen B) (logψ θ) sample
    (hE B sample hs (logψ θ)), by simp, ?_⟩, expect_batchGradient H (logψ θ) D hB⟩
  unfold batchGradient
  refine HasDerivAt.fun_sum fun b _ => ?_
  have hget : ((List.finRange B).map fun b => (starRingEnd ℂ) (localEnergy H (logψ θ) (sample b) -
        (∑ a, localEnergy H (logψ θ) (sample a)) / B) / (B : ℂ)).getD b 0 = (starRingEnd ℂ) (localEnergy H (logψ θ) (sample b) -
        (∑ a, localEnergy H (logψ θ) (sample a)) / B) / (B : ℂ) := by
    simp [List.getD_eq_getElem?_getD]
  rw [hget]
  have h1 := Complex.reCLM.hasFDerivAt.comp_hasDerivAt θ ((hD _ (hs b)).mul_const ((starRingEnd ℂ) (localEnergy H (logψ θ) (sample b) -
        (∑ a, localEnergy H (logψ θ) (sample a)) / B) / (B : ℂ)))
  have h2 := h1.const_mul (2 : ℝ)
  rw [mul_comm ((starRingEnd ℂ) _ / (B : ℂ))]
  exact h2

open Verif.Energy.Exact

/-- C88 for the Ising model on chains. -/
theorem C88_ising_chain (n : Nat) (h j : ℝ) (pbc : Bool) :
    MeanGradient (tfim (chainBonds n pbc) h j) fun B logψ sample =>
      vmcCoefficients B logψ (Answer.ofRows (n + 1) (isingFindConn1 (.float h) j pbc sample)
        fun b => by rw [isingFindConn1_eq]; simp) :=
  meanGradient_of (op := fun _ sample => isingFindConn1 (.float h) j pbc sample) (rowsOf_ising_chain n h j pbc) _
    (fun s _ ψ => C06_ising_chain h j pbc (fun _ : Fin 1 => s) 0 ψ) _
    fun _ sample hs logψ => C18_ising_chain h j pbc sample hs logψ

/-- C88 for the Ising model on grids. -/
theorem C88_ising_grid (n m : Nat) (h j : ℝ) (pbc : Bool) :
    MeanGradient (tfim (gridBonds n m pbc) h j) fun B logψ sample =>
      vmcCoefficients B logψ (Answer.ofRows (n * m + 1) (isingFindConn2 (.float h) j pbc sample)
        fun b => by rw [isingFindConn2_eq]; simp [length_gridSites]) :=
  meanGradient_of (op := fun _ sample => isingFindConn2 (.float h) j pbc sample) (rowsOf_ising_grid n m h j pbc) _
    (fun s _ ψ => C06_ising_grid h j pbc (fun _ : Fin 1 => s) 0 ψ) _
    fun _ sample hs logψ => C18_ising_grid h j pbc sample hs logψ

/-- C88 for the Heisenberg model on grids, after any history of earlier calls of the operator. -/
theorem C88_heisenberg_grid (n m : Nat) (rot pbc : Bool) (history : List (Call n m)) :
    MeanGradient (heisenberg (gridBonds n m pbc) (if rot then -1 else 1)) fun B logψ sample =>
      vmcCoefficients B logψ (Answer.ofRows (n * m * 2 + 1) (((HeisOp.new2 n m rot pbc).run history).findConn B sample).2
        fun b => by rw [answer2]; exact length_heisRows _ _ _ (Or.inl rfl) _) :=
  meanGradient_of (op := fun B sample => (((HeisOp.new2 n m rot pbc).run history).findConn B sample).2)
    (rowsOf_heisenberg_grid n m rot pbc history) _
    (fun s hs ψ => applyRows_heisRows rot pbc 2 (Or.inl rfl) s hs ψ) _
    fun B sample hs logψ => C18_heisenberg_grid rot pbc history B sample hs logψ

/-- C88 for the Heisenberg model on chains, after any history of earlier calls of the operator. -/
theorem C88_heisenberg_chain (n : Nat) (rot pbc : Bool) (history : List (Call n 1)) :
    MeanGradient (heisenberg (chainBonds' n pbc) (if rot then -1 else 1)) fun B logψ sample =>
      vmcCoefficients B logψ (Answer.ofRows (n + 1) (((HeisOp.new1 n rot pbc).run history).findConn1 B sample).2
        fun b => by
          rw [(rowsOf_heisenberg_chain n rot pbc history).eq]
          exact (rowsOf_heisenberg_chain n rot pbc history).length _) :=
  meanGradient_of (op := fun B sample => (((HeisOp.new1 n rot pbc).run history).findConn1 B sample).2)
    (rowsOf_heisenberg_chain n rot pbc history) _
    (fun s hs ψ => by
      have := C07_heisenberg_chain rot pbc history 1 (fun _ => s) 0 hs ψ
      rwa [answer1] at this) _
    fun B sample hs logψ => C18_heisenberg_chain rot pbc history B sample hs logψ

/-- A batch of one sample trains nothing: its only target is zero, whatever the sample. -/
theorem C88_single_sample {τ : Type} {R : Nat} (logψ : τ → ℂ) (a : Answer τ R 1) (sample : Fin 1 → τ)
    (h : Contracted a sample) : vmcCoefficients 1 logψ a = some [0] := by
  obtain ⟨c, eloc, h1, h2, h3, h4, h5⟩ := C24_monte_carlo logψ a sample h one_pos
  rw [h1]
  have hl : c.length = 1 := by
    have := h1
    unfold vmcCoefficients estimate at this
    rw [h2] at this
    simp only [Option.map_some, Option.some.injEq] at this
    rw [← this, List.length_map, h3]
  match c, hl, h5 with
  | [x], _, h5 => simpa using h5

/-! ### C89 -/

/-- Variance of the real part of the local energies under `|ψ|²`. -/
noncomputable def localVariance (H : Wave ι → Wave ι) (logψ : Config ι → ℂ) : ℝ :=
  ∑ s ∈ allSpins ι, born logψ s * ((localEnergy H logψ s).re - (rayleigh H fun s => Complex.exp (logψ s)).re) ^ 2

/-- What C89 demands of an estimator `est B logψ sample` that returns mean, variance and local values:
over batches of `B` independent samples of `|ψ|²`, the expected mean is the energy, its mean squared error
is the variance of the local energy divided by `B`, and the expected reported variance is `(1 - 1/B)`
times the variance of the local energy. -/
def MeanEstimate (H : Wave ι → Wave ι)
    (est : (B : Nat) → (Config ι → ℂ) → (Fin B → Config ι) → Option (ℂ × ℝ × List ℂ)) : Prop :=
  ∀ (B : Nat), 0 < B → ∀ logψ : Config ι → ℂ,
    ∃ (energy : (Fin B → Config ι) → ℂ) (var : (Fin B → Config ι) → ℝ),
      (∀ sample, (∀ b, IsSpin (sample b)) → ∃ lv, est B logψ sample = some (energy sample, var sample, lv)) ∧
      expect (allSpins ι) (fun s => (born logψ s : ℂ)) B energy = rayleigh H (fun s => Complex.exp (logψ s)) ∧
      expect (allSpins ι) (born logψ) B
        (fun x => ((energy x).re - (rayleigh H fun s => Complex.exp (logψ s)).re) ^ 2) = localVariance H logψ / B ∧
      expect (allSpins ι) (born logψ) B var = (1 - 1 / B) * localVariance H logψ

theorem localVariance_eq (H : Wave ι → Wave ι) (logψ : Config ι → ℂ) :
    localVariance H logψ = ∑ s ∈ allSpins ι, born logψ s * ((localEnergy H logψ s).re * (localEnergy H logψ s).re) -
      (∑ s ∈ allSpins ι, born logψ s * (localEnergy H logψ s).re) * ∑ s ∈ allSpins ι, born logψ s * (localEnergy H logψ s).re := by
  unfold localVariance
  have hE : (rayleigh H fun s => Complex.exp (logψ s)).re = ∑ s ∈ allSpins ι, born logψ s * (localEnergy H logψ s).re := by
    rw [rayleigh_born, Complex.re_sum]
    exact Finset.sum_congr rfl fun s _ => Complex.re_ofReal_mul _ _
  rw [hE]
  set E := ∑ s ∈ allSpins ι, born logψ s * (localEnergy H logψ s).re with hEdef
  have h : ∀ s, born logψ s * ((localEnergy H logψ s).re - E) ^ 2 =
      born logψ s * ((localEnergy H logψ s).re * (localEnergy H logψ s).re) - 2 * E * (born logψ s * (localEnergy H logψ s).re) +
        E * E * born logψ s := fun s => by ring
  simp only [h]
  rw [Finset.sum_add_distrib, Finset.sum_sub_distrib, ← Finset.mul_sum, ← Finset.mul_sum, born_sum, ← hEdef]
  ring

theorem variance_finRange {B : Nat} (hB : 0 < B) (x : Fin B → ℝ) :
    variance ((List.finRange B).map x) = (∑ b, (x b - (∑ a, x a) / B) * x b) / B := by
  have hB' : (B : ℝ) ≠ 0 := by exact_mod_cast hB.ne'
  have hsum : ∀ g : Fin B → ℝ, ((List.finRange B).map g).sum = ∑ b, g b := fun g => by
    rw [← List.ofFn_eq_map, List.sum_ofFn]
  unfold variance
  rw [List.map_map, List.length_map, List.length_finRange, hsum, hsum]
  congr 1
  set m := (∑ a, x a) / (B : ℝ) with hm
  have h0 : ∑ b, (x b - m) * m = 0 := by
    rw [← Finset.sum_mul, Finset.sum_sub_distrib, Finset.sum_const, Finset.card_univ, Fintype.card_fin, nsmul_eq_mul, hm]
    field_simp
    simp
  rw [← sub_eq_zero, ← Finset.sum_sub_distrib, ← neg_eq_zero, ← h0, ← Finset.sum_neg_distrib]
  refine Finset.sum_congr rfl fun b _ => ?_
  simp only [Function.comp]
  ring

theorem meanEstimate_of {H : Wave ι → Wave ι} {R : Nat} (answer : (B : Nat) → (Fin B → Config ι) → Answer (Config ι) R B)
    (hE : ∀ B (sample : Fin B → Config ι), (∀ b, IsSpin (sample b)) → ∀ logψ,
      LocalEnergies H sample logψ (estimate logψ (answer B sample))) :
    MeanEstimate H fun B logψ sample => estimate logψ (answer B sample) := by
  intro B hB logψ
  have hBC : (B : ℂ) ≠ 0 := by exact_mod_cast hB.ne'
  have hBR : (B : ℝ) ≠ 0 := by exact_mod_cast hB.ne'
  have hp : ∑ s ∈ allSpins ι, (born logψ s : ℂ) = 1 := by rw [← Complex.ofReal_sum, born_sum]; simp
  have hp' := born_sum logψ
  have hEre : (rayleigh H fun s => Complex.exp (logψ s)).re = ∑ s ∈ allSpins ι, born logψ s * (localEnergy H logψ s).re := by
    rw [rayleigh_born, Complex.re_sum]
    exact Finset.sum_congr rfl fun s _ => Complex.re_ofReal_mul _ _
  refine ⟨fun x => (∑ b, localEnergy H logψ (x b)) / B,
    fun x => variance ((List.finRange B).map fun b => (localEnergy H logψ (x b)).re), ?_, ?_, ?_, ?_⟩
  · intro sample hs
    obtain ⟨v, hv⟩ := (hE B sample hs logψ).values
    refine ⟨(List.finRange B).map fun b => localEnergy H logψ (sample b), hv.trans ?_⟩
    have hv' := hv
    unfold estimate at hv'
    obtain ⟨lv, -, hlv⟩ := Option.map_eq_some_iff.1 hv'
    rw [Prod.mk.injEq, Prod.mk.injEq] at hlv
    obtain ⟨-, h2, h3⟩ := hlv
    rw [← h2, h3, List.map_map]
    rfl
  · have h1 : ∀ x : Fin B → Config ι, (∑ b, localEnergy H logψ (x b)) / (B : ℂ) = (1 / B) * ∑ b, localEnergy H logψ (x b) :=
      fun x => by ring
    simp only [h1]
    rw [expect_mul, expect_sum, rayleigh_born]
    simp only [expect_one _ _ hp, Finset.sum_const, Finset.card_univ, Fintype.card_fin, nsmul_eq_mul]
    field_simp
  · set E := (rayleigh H fun s => Complex.exp (logψ s)).re with hEdef
    have h1 : ∀ x : Fin B → Config ι, (((∑ b, localEnergy H logψ (x b)) / (B : ℂ)).re - E) ^ 2 =
        (1 / (B * B)) * ((∑ a, (localEnergy H logψ (x a)).re) * ∑ b, (localEnergy H logψ (x b)).re) +
          ((-(2 * E / B)) * (∑ b, (localEnergy H logψ (x b)).re) + (E * E) * ∏ _b : Fin B, 1) := by
      intro x
      have : ((∑ b, localEnergy H logψ (x b)) / (B : ℂ)).re = (∑ b, (localEnergy H logψ (x b)).re) / B := by
        rw [← Complex.ofReal_natCast, Complex.div_ofReal_re, Complex.re_sum]
      rw [this, Finset.prod_const_one]
      field_simp
      ring
    simp only [h1]
    rw [expect_add, expect_add, expect_mul, expect_mul, expect_mul,
      expect_sums _ _ hp' (fun s => (localEnergy H logψ s).re) (fun s => (localEnergy H logψ s).re), expect_sum,
      expect_prod _ _ fun _ _ => (1 : ℝ), localVariance_eq, ← hEre]
    simp only [expect_one _ _ hp' (fun s => (localEnergy H logψ s).re), Finset.sum_const, Finset.card_univ, Fintype.card_fin, nsmul_eq_mul, mul_one, hp',
      Finset.prod_const_one, ← hEre]
    field_simp
    ring
  · have h1 : ∀ x : Fin B → Config ι, variance ((List.finRange B).map fun b => (localEnergy H logψ (x b)).re) =
        (∑ b, ((localEnergy H logψ (x b)).re - (∑ a, (localEnergy H logψ (x a)).re) / B) * (localEnergy H logψ (x b)).re) / B :=
      fun x => variance_finRange hB _
    simp only [h1]
    rw [expect_cov (allSpins ι) (born logψ) hp' hBR (fun s => (localEnergy H logψ s).re) fun s => (localEnergy H logψ s).re,
      localVariance_eq]

/-- C89 for the Ising model on chains. -/
theorem C89_ising_chain (n : Nat) (h j : ℝ) (pbc : Bool) :
    MeanEstimate (tfim (chainBonds n pbc) h j) fun B logψ sample =>
      estimate logψ (Answer.ofRows (n + 1) (isingFindConn1 (.float h) j pbc sample)
        fun b => by rw [isingFindConn1_eq]; simp) :=
  meanEstimate_of _ fun _ sample hs logψ => C18_ising_chain h j pbc sample hs logψ

/-- C89 for the Ising model on grids. -/
theorem C89_ising_grid (n m : Nat) (h j : ℝ) (pbc : Bool) :
    MeanEstimate (tfim (gridBonds n m pbc) h j) fun B logψ sample =>
      estimate logψ (Answer.ofRows (n * m + 1) (isingFindConn2 (.float h) j pbc sample)
        fun b => by rw [isingFindConn2_eq]; simp [length_gridSites]) :=
  meanEstimate_of _ fun _ sample hs logψ => C18_ising_grid h j pbc sample hs logψ

/-- C89 for the Heisenberg model on grids, after any history of earlier calls of the operator. -/
theorem C89_heisenberg_grid (n m : Nat) (rot pbc : Bool) (history : List (Call n m)) :
    MeanEstimate (heisenberg (gridBonds n m pbc) (if rot then -1 else 1)) fun B logψ sample =>
      estimate logψ (Answer.ofRows (n * m * 2 + 1) (((HeisOp.new2 n m rot pbc).run history).findConn B sample).2
        fun b => by rw [answer2]; exact length_heisRows _ _ _ (Or.inl rfl) _) :=
  meanEstimate_of _ fun B sample hs logψ => C18_heisenberg_grid rot pbc history B sample hs logψ

/-- C89 for the Heisenberg model on chains, after any history of earlier calls of the operator. -/
theorem C89_heisenberg_chain (n : Nat) (rot pbc : Bool) (history : List (Call n 1)) :
    MeanEstimate (heisenberg (chainBonds' n pbc) (if rot then -1 else 1)) fun B logψ sample =>
      estimate logψ (Answer.ofRows (n + 1) (((HeisOp.new1 n rot pbc).run history).findConn1 B sample).2
        fun b => by
          rw [(rowsOf_heisenberg_chain n rot pbc history).eq]
          exact (rowsOf_heisenberg_chain n rot pbc history).length _) :=
  meanEstimate_of _ fun B sample hs logψ => C18_heisenberg_chain rot pbc history B sample hs logψ

end Verif.Energy

namespace Verif.Autoregressive

open Verif.Operators Verif.Energy MeasureTheory

variable {ι : Type} [DecidableEq ι] [Fintype ι]

/-- Expected values over the random numbers of the sampler are expected values over independent samples
of `|ψ|²`. -/
theorem integral_sample {B : Nat} (dims : Nat) (hd : dims = 1 ∨ dims = 2) (net : Net ι) (order : List ι)
    (ho : Complete order) (hc : Causal order net) (F : (Fin B → Config ι) → ℝ) (f : (Fin B → ι → ℝ) → ℝ)
    (hf : ∀ u S, sample dims false (condLogProbs net) order u = .ok S → f u = F S) :
    ∫ u, f u ∂rand B ι = expect (allSpins ι) (born (logWave net)) B F := by
  have hmeas : ∀ S : Fin B → Config ι, MeasurableSet {u : Fin B → ι → ℝ | sample dims false (condLogProbs net) order u = .ok S} := by
    intro S
    have hset : {u : Fin B → ι → ℝ | sample dims false (condLogProbs net) order u = .ok S} =
        Set.pi Set.univ fun b => Set.pi Set.univ fun i =>
          {v | S b i = if Real.exp (condLogProbs net (S b) i 0) > v then 1 else if false then 0 else -1} := by
      ext u
      simp only [Set.mem_setOf_eq, Set.mem_pi, Set.mem_univ, forall_true_left,
        sample_eq_iff dims hd false (condLogProbs net) order ho (condLogProbs_causal net order hc) u S]
      rfl
    rw [hset]
    refine MeasurableSet.univ_pi fun b => MeasurableSet.univ_pi fun i => ?_
    have hm : Measurable fun v : ℝ => if Real.exp (condLogProbs net (S b) i 0) > v then (1 : ℤ) else if false then 0 else -1 :=
      Measurable.ite measurableSet_Iio measurable_const measurable_const
    have := hm (measurableSet_singleton (S b i))
    convert this using 1
    ext v
    simp only [Set.mem_setOf_eq, Set.mem_preimage, Set.mem_singleton_iff]
    exact eq_comm
  have hsum : f = fun u => ∑ S ∈ Fintype.piFinset fun _ : Fin B => allSpins ι,
      Set.indicator {u : Fin B → ι → ℝ | sample dims false (condLogProbs net) order u = .ok S} (fun _ => F S) u := by
    funext u
    obtain ⟨S, hS, hspin⟩ := C36_spins dims hd net order ho hc u
    rw [Finset.sum_eq_single S]
    · rw [Set.indicator_of_mem (show u ∈ {u | sample dims false (condLogProbs net) order u = .ok S} from hS), hf u S hS]
    · intro S' _ hne
      rw [Set.indicator_of_notMem]
      intro hS'
      have : sample dims false (condLogProbs net) order u = .ok S' := hS'
      rw [hS] at this
      exact hne (Except.ok.inj this).symm
    · intro hn
      exact absurd (Fintype.mem_piFinset.2 fun b => (mem_allSpins _).2 (hspin b)) hn
  haveI : IsProbabilityMeasure (rand B ι) := by unfold rand; infer_instance
  rw [hsum, integral_finset_sum]
  · unfold expect
    refine Finset.sum_congr rfl fun S hS => ?_
    rw [integral_indicator_const _ (hmeas S), smul_eq_mul]
    congr 1
    have hspin : ∀ b, IsSpin (S b) := fun b => (mem_allSpins _).1 (Fintype.mem_piFinset.1 hS b)
    unfold Measure.real
    rw [C36_distribution dims hd net order ho hc S hspin, ENNReal.toReal_ofReal (by positivity)]
    refine Finset.prod_congr rfl fun b _ => ?_
    unfold born
    rw [C35_normalised net order ho hc, div_one]
  · intro S _
    exact (integrable_const _).indicator (hmeas S)

/-- **C88 from the random numbers to the gradient.** A network that is autoregressive in the ordering
handed to the sampler, on lattices of one or two dimensions: averaged over the random numbers of the
sampler, the derivative of the training loss of the batch along any differentiable path of network
parameters is `(1 - 1/B)` times the derivative of the energy. (The hypothesis on `targets` is supplied by
the four theorems above.) -/
theorem C88_autoregressive {B : Nat} (hB : 0 < B) (dims : Nat) (hd : dims = 1 ∨ dims = 2) (H : Wave ι → Wave ι)
    (targets : (B : Nat) → (Config ι → ℂ) → (Fin B → Config ι) → Option (List ℂ)) (hM : MeanGradient H targets)
    (net : ℝ → Net ι) (order : List ι) (ho : Complete order) (θ : ℝ) (hc : Causal order (net θ)) (D : Config ι → ℂ)
    (hD : ∀ s, IsSpin s → HasDerivAt (fun t => logWave (net t) s) (D s) θ) :
    ∃ (E' : ℝ) (grad : (Fin B → ι → ℝ) → ℝ),
      HasDerivAt (fun t => (rayleigh H fun s => Complex.exp (logWave (net t) s)).re) E' θ ∧
      (∀ u, ∃ S c, sample dims false (condLogProbs (net θ)) order u = .ok S ∧
        targets B (logWave (net θ)) S = some c ∧
        HasDerivAt (fun t => ∑ b : Fin B, Exact.loss (c.getD b 0) (logWave (net t) (S b))) (grad u) θ) ∧
      ∫ u, grad u ∂rand B ι = (1 - 1 / B) * E' := by
  obtain ⟨E', g, h1, h2, h3⟩ := hM B hB (fun t => logWave (net t)) D θ hD
  choose S hS hspin using C36_spins (B := B) dims hd (net θ) order ho hc
  refine ⟨E', fun u => g (S u), h1, fun u => ?_, ?_⟩
  · obtain ⟨c, hc1, -, hc3⟩ := h2 (S u) (hspin u)
    exact ⟨S u, c, hS u, hc1, hc3⟩
  · rw [← h3]
    refine integral_sample dims hd (net θ) order ho hc g _ fun u S' hS' => ?_
    rw [hS u] at hS'
    rw [Except.ok.inj hS']

/-- **C89 from the random numbers to the reported numbers**, for an autoregressive network. (The
hypothesis on `est` is supplied by the four theorems for the operators.) -/
theorem C89_autoregressive {B : Nat} (hB : 0 < B) (dims : Nat) (hd : dims = 1 ∨ dims = 2) (H : Wave ι → Wave ι)
    (est : (B : Nat) → (Config ι → ℂ) → (Fin B → Config ι) → Option (ℂ × ℝ × List ℂ)) (hM : MeanEstimate H est)
    (net : Net ι) (order : List ι) (ho : Complete order) (hc : Causal order net) :
    ∃ (energy : (Fin B → ι → ℝ) → ℂ) (var : (Fin B → ι → ℝ) → ℝ),
      (∀ u, ∃ S lv, sample dims false (condLogProbs net) order u = .ok S ∧
        est B (logWave net) S = some (energy u, var u, lv)) ∧
      ∫ u, (energy u).re ∂rand B ι = (rayleigh H fun s => Complex.exp (logWave net s)).re ∧
      ∫ u, ((energy u).re - (rayleigh H fun s => Complex.exp (logWave net s)).re) ^ 2 ∂rand B ι =
        localVariance H (logWave net) / B ∧
      ∫ u, var u ∂rand B ι = (1 - 1 / B) * localVariance H (logWave net) := by
  obtain ⟨energy, var, h1, h2, h3, h4⟩ := hM B hB (logWave net)
  choose S hS hspin using C36_spins (B := B) dims hd net order ho hc
  refine ⟨fun u => energy (S u), fun u => var (S u), fun u => ?_, ?_, ?_, ?_⟩
  · obtain ⟨lv, hlv⟩ := h1 (S u) (hspin u)
    exact ⟨S u, lv, hS u, hlv⟩
  · rw [← h2, ← expect_re]
    refine integral_sample dims hd net order ho hc _ _ fun u S' hS' => ?_
    obtain rfl := Except.ok.inj ((hS u).symm.trans hS')
    rfl
  · rw [← h3]
    refine integral_sample dims hd net order ho hc _ _ fun u S' hS' => ?_
    obtain rfl := Except.ok.inj ((hS u).symm.trans hS')
    rfl
  · rw [← h4]
    refine integral_sample dims hd net order ho hc _ _ fun u S' hS' => ?_
    obtain rfl := Except.ok.inj ((hS u).symm.trans hS')
    rfl

/-- The hypotheses are met: two sites, the second looking at the first, with a parameter that really
changes the amplitudes. -/
example : ∃ (net : ℝ → Net (Fin 2)) (order : List (Fin 2)) (D : Config (Fin 2) → ℂ), Complete order ∧
    Causal order (net 1) ∧ (∀ s, IsSpin s → HasDerivAt (fun t => logWave (net t) s) (D s) 1) ∧
    net 1 (fun _ => 1) 0 ≠ net 0 (fun _ => 1) 0 := by
  let net : ℝ → Net (Fin 2) := fun t s i c => if i = 0 ∧ c = 0 then ((t * s 1 : ℝ) : ℂ) else 0
  refine ⟨net, [1, 0], fun s => deriv (fun t => logWave (net t) s) 1, ⟨by decide, by decide⟩, ?_, ?_, ?_⟩
  · intro s s' i h
    funext c
    show (if i = 0 ∧ c = 0 then (((1 : ℝ) * s 1 : ℝ) : ℂ) else 0) = if i = 0 ∧ c = 0 then (((1 : ℝ) * s' 1 : ℝ) : ℂ) else 0
    by_cases hi : i = 0 ∧ c = 0
    · rw [if_pos hi, if_pos hi, h 1 (by rw [hi.1]; show List.idxOf _ _ < List.idxOf _ _; decide)]
    · rw [if_neg hi, if_neg hi]
  · intro s _
    refine DifferentiableAt.hasDerivAt ?_
    have hnorm : ∀ t i c, condLogWave (net t) s i c = net t s i c - ((1 / 2 * logSumExp fun c => (net t s i c).re * 2 : ℝ) : ℂ) := by
      intro t i c
      apply Complex.ext <;> simp [condLogWave, normalizeComplex]
    unfold logWave combine
    simp only [hnorm]
    unfold logSumExp
    have hre : ∀ t i c, (net t s i c).re = if i = 0 ∧ c = 0 then t * s 1 else 0 := by
      intro t i c
      show (if i = 0 ∧ c = 0 then ((t * s 1 : ℝ) : ℂ) else 0).re = _
      split <;> simp
    have hd : ∀ i c, DifferentiableAt ℝ (fun t => net t s i c) 1 := by
      intro i c
      show DifferentiableAt ℝ (fun t : ℝ => if i = 0 ∧ c = 0 then ((t * s 1 : ℝ) : ℂ) else 0) 1
      by_cases hi : i = 0 ∧ c = 0
      · simp only [hi, and_self, if_true]
        push_cast
        exact (Complex.ofRealCLM.differentiableAt).mul_const _
      · simp only [hi, if_false]
        exact differentiableAt_const _
    have hd' : ∀ i c, DifferentiableAt ℝ (fun t => (net t s i c).re) 1 := fun i c =>
      Complex.reCLM.differentiableAt.comp (1 : ℝ) (hd i c)
    refine DifferentiableAt.fun_sum fun i _ => DifferentiableAt.fun_sum fun c _ => ?_
    refine DifferentiableAt.mul ?_ (differentiableAt_const _)
    refine (hd i c).sub ?_
    refine Complex.ofRealCLM.differentiableAt.comp (1 : ℝ) ?_
    refine DifferentiableAt.const_mul ?_ _
    refine DifferentiableAt.log ?_ (Finset.sum_pos (fun _ _ => Real.exp_pos _) ⟨0, Finset.mem_univ _⟩).ne'
    exact DifferentiableAt.fun_sum fun c' _ => ((hd' i c').mul_const _).exp
  · intro h
    have := congrFun h 0
    simp [net] at this

end Verif.Autoregressive
