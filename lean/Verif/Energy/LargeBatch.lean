import Verif.Energy.Unbiased
import Verif.Optimizers.Downhill
import Mathlib.Topology.Instances.Matrix
import Mathlib.Topology.Algebra.Field
import Mathlib.Analysis.SpecificLimits.Basic

/-!
# Property C136: Monte Carlo training with large batches is exact training

As the batch of independent samples of `|ψ|²` grows, the reported energy and variance, the gradient of the training loss
and the step of stochastic reconfiguration come as close as desired to their exact counterparts, with a probability that
tends to one.
-/
namespace Verif.Energy

open Verif.Operators Filter Topology

/-! ### Probabilities over batches -/

/-- A source of batches that grow: batch number `N` has `size N` samples. Which ones depends on the outcome `ω` of random
draws, and `mean N F` is the expected value of `F ω`. -/
structure Source (α : Type) where
  Outcome : Nat → Type
  mean : (N : Nat) → (Outcome N → ℝ) → ℝ
  size : Nat → Nat
  batch : (N : Nat) → Outcome N → Fin (size N) → α

section Chance

variable {α : Type}

/-- Probability of an event. -/
noncomputable def Source.chance (src : Source α) (N : Nat) (A : src.Outcome N → Prop) : ℝ :=
  open Classical in src.mean N fun ω => if A ω then 1 else 0

/-- The probability that batch number `N` has property `A` tends to one as `N` grows. -/
def Source.InTheLimit (src : Source α) (A : (B : Nat) → (Fin B → α) → Prop) : Prop :=
  Tendsto (fun N => src.chance N fun ω => A (src.size N) (src.batch N ω)) atTop (𝓝 1)

/-- `mean` is an expected value over outcomes whose batches consist of elements of `S`, and the law of large numbers holds
for the probabilities `p`. -/
structure Source.Draws (src : Source α) (S : Finset α) (p : α → ℝ) : Prop where
  mono : ∀ N F G, (∀ ω, (∀ b, src.batch N ω b ∈ S) → F ω ≤ G ω) → src.mean N F ≤ src.mean N G
  add : ∀ N F G, src.mean N (fun ω => F ω + G ω) = src.mean N F + src.mean N G
  const : ∀ N c, src.mean N (fun _ => c) = c
  pos : ∀ᶠ N in atTop, 0 < src.size N
  law : ∀ f : α → ℝ, ∀ ε, 0 < ε → src.InTheLimit fun B x => |(∑ b, f (x b)) / B - ∑ s ∈ S, p s * f s| < ε

section
variable {src : Source α} {S : Finset α}

theorem Source.chance_eq (N : Nat) (A : src.Outcome N → Prop) [DecidablePred A] :
    src.chance N A = src.mean N fun ω => if A ω then 1 else 0 := by
  unfold Source.chance
  congr 1
  funext x
  congr

section
variable (hmono : ∀ N F G, (∀ ω, (∀ b, src.batch N ω b ∈ S) → F ω ≤ G ω) → src.mean N F ≤ src.mean N G)
  (hadd : ∀ N F G, src.mean N (fun ω => F ω + G ω) = src.mean N F + src.mean N G)
  (hconst : ∀ N c, src.mean N (fun _ => c) = c)

include hmono hconst in
theorem Source.chance_nonneg (N : Nat) (A : src.Outcome N → Prop) : 0 ≤ src.chance N A := by
  classical
  rw [Source.chance_eq]
  refine (hconst N 0).symm.le.trans (hmono N _ _ fun ω _ => ?_)
  split <;> norm_num

include hmono in
theorem Source.chance_mono {N : Nat} {A A' : src.Outcome N → Prop} (h : ∀ ω, (∀ b, src.batch N ω b ∈ S) → A ω → A' ω) :
    src.chance N A ≤ src.chance N A' := by
  classical
  rw [Source.chance_eq, Source.chance_eq]
  refine hmono N _ _ fun x hx => ?_
  by_cases hA : A x
  · rw [if_pos hA, if_pos (h x hx hA)]
  · rw [if_neg hA]
    split <;> norm_num

include hadd hconst in
theorem Source.chance_not {N : Nat} (A : src.Outcome N → Prop) : src.chance N A = 1 - src.chance N fun x => ¬ A x := by
  classical
  have h := hadd N (fun x => if A x then (1 : ℝ) else 0) fun x => if ¬ A x then (1 : ℝ) else 0
  have h1 : (fun x : src.Outcome N => (if A x then (1 : ℝ) else 0) + if ¬ A x then (1 : ℝ) else 0) = fun _ => 1 := by
    funext x
    by_cases hA : A x <;> simp [hA]
  simp only [h1, hconst] at h
  rw [Source.chance_eq, Source.chance_eq]
  linarith

include hadd hconst in
theorem Source.inTheLimit_iff {A : (B : Nat) → (Fin B → α) → Prop} :
    src.InTheLimit A ↔ Tendsto (fun N => src.chance N fun ω => ¬ A (src.size N) (src.batch N ω)) atTop (𝓝 0) := by
  unfold Source.InTheLimit
  constructor
  · intro h
    have h2 := (tendsto_const_nhds (x := (1 : ℝ))).sub h
    rw [sub_self] at h2
    refine h2.congr fun N => ?_
    rw [Source.chance_not hadd hconst]
    ring
  · intro h
    have h2 := (tendsto_const_nhds (x := (1 : ℝ))).sub h
    rw [sub_zero] at h2
    exact h2.congr fun N => (Source.chance_not hadd hconst _).symm

end

namespace Source.Draws

variable {p : α → ℝ} (hd : src.Draws S p)
include hd

theorem iff {A : (B : Nat) → (Fin B → α) → Prop} :
    src.InTheLimit A ↔ Tendsto (fun N => src.chance N fun ω => ¬ A (src.size N) (src.batch N ω)) atTop (𝓝 0) :=
  Source.inTheLimit_iff hd.add hd.const

theorem sum (N : Nat) {J : Type} (I : Finset J) (F : J → src.Outcome N → ℝ) :
    src.mean N (fun ω => ∑ j ∈ I, F j ω) = ∑ j ∈ I, src.mean N (F j) := by
  classical
  induction I using Finset.induction_on with
  | empty => simpa using hd.const N 0
  | insert j I hj ih =>
    rw [Finset.sum_insert hj, ← ih, ← hd.add]
    simp only [Finset.sum_insert hj]

theorem exists_le {J : Type} [Fintype J] {N : Nat} (A : J → src.Outcome N → Prop) :
    src.chance N (fun x => ∃ j, A j x) ≤ ∑ j, src.chance N (A j) := by
  classical
  simp only [Source.chance_eq]
  rw [← hd.sum]
  refine hd.mono N _ _ fun x _ => ?_
  split
  · rename_i h
    obtain ⟨j, hj⟩ := h
    exact le_trans (le_of_eq (if_pos hj).symm)
      (Finset.single_le_sum (f := fun j => if A j x then (1 : ℝ) else 0) (fun j _ => by split <;> norm_num) (Finset.mem_univ j))
  · exact Finset.sum_nonneg fun j _ => by split <;> norm_num

theorem weaken {A A' : (B : Nat) → (Fin B → α) → Prop} (h : src.InTheLimit A)
    (hA : ∀ B, 0 < B → ∀ x, (∀ b, x b ∈ S) → A B x → A' B x) : src.InTheLimit A' := by
  rw [hd.iff] at h ⊢
  refine tendsto_of_tendsto_of_tendsto_of_le_of_le' tendsto_const_nhds h
    (Eventually.of_forall fun N => Source.chance_nonneg hd.mono hd.const N _) ?_
  filter_upwards [hd.pos] with N hN
  exact Source.chance_mono hd.mono fun x hx hn ha => hn (hA _ hN _ hx ha)

theorem all {J : Type} [Fintype J] {A : J → (B : Nat) → (Fin B → α) → Prop} (h : ∀ j, src.InTheLimit (A j)) :
    src.InTheLimit fun B x => ∀ j, A j B x := by
  rw [hd.iff]
  have h2 : Tendsto (fun N => ∑ j, src.chance N fun ω => ¬ A j (src.size N) (src.batch N ω)) atTop (𝓝 0) := by
    have := tendsto_finsetSum Finset.univ fun j _ => hd.iff.1 (h j)
    simpa using this
  refine tendsto_of_tendsto_of_tendsto_of_le_of_le tendsto_const_nhds h2
    (fun N => Source.chance_nonneg hd.mono hd.const N _) fun N => ?_
  refine le_trans (Source.chance_mono hd.mono fun x _ hn => ?_) (hd.exists_le fun j x => ¬ A j (src.size N) (src.batch N x))
  exact not_forall.1 hn

theorem both {A A' : (B : Nat) → (Fin B → α) → Prop} (h : src.InTheLimit A) (h' : src.InTheLimit A') :
    src.InTheLimit fun B x => A B x ∧ A' B x := by
  have := hd.all (J := Bool) (A := fun j => if j then A else A') (by intro j; cases j <;> simpa)
  exact hd.weaken this fun B _ x _ hx => ⟨by simpa using hx true, by simpa using hx false⟩

theorem mean_complex (f : α → ℂ) (ε : ℝ) (hε : 0 < ε) :
    src.InTheLimit fun B x => ‖(∑ b, f (x b)) / B - ∑ s ∈ S, (p s : ℂ) * f s‖ < ε := by
  have h1 := hd.law (fun s => (f s).re) (ε / 2) (by positivity)
  have h2 := hd.law (fun s => (f s).im) (ε / 2) (by positivity)
  refine hd.weaken (hd.both h1 h2) fun B _ x _ hx => ?_
  refine lt_of_le_of_lt (Complex.norm_le_abs_re_add_abs_im _) ?_
  have e1 : ((∑ b, f (x b)) / B - ∑ s ∈ S, (p s : ℂ) * f s).re = (∑ b, (f (x b)).re) / B - ∑ s ∈ S, p s * (f s).re := by
    rw [Complex.sub_re, ← Complex.ofReal_natCast, Complex.div_ofReal_re, Complex.re_sum, Complex.re_sum]
    simp only [Complex.re_ofReal_mul]
  have e2 : ((∑ b, f (x b)) / B - ∑ s ∈ S, (p s : ℂ) * f s).im = (∑ b, (f (x b)).im) / B - ∑ s ∈ S, p s * (f s).im := by
    rw [Complex.sub_im, ← Complex.ofReal_natCast, Complex.div_ofReal_im, Complex.im_sum, Complex.im_sum]
    simp only [Complex.im_ofReal_mul]
  rw [e1, e2]
  linarith [hx.1, hx.2]

/-- Whatever depends continuously on finitely many means over the batch converges. -/
theorem mean_map {J W : Type} [Fintype J] [PseudoMetricSpace W] (f : α → J → ℂ) (Φ : (J → ℂ) → W)
    (hΦ : ContinuousAt Φ fun j => ∑ s ∈ S, (p s : ℂ) * f s j) (ε : ℝ) (hε : 0 < ε) :
    src.InTheLimit fun B x => dist (Φ fun j => (∑ b, f (x b) j) / B) (Φ fun j => ∑ s ∈ S, (p s : ℂ) * f s j) < ε := by
  obtain ⟨δ, hδ, h⟩ := Metric.continuousAt_iff.1 hΦ ε hε
  have h1 := hd.all fun j => hd.mean_complex (fun s => f s j) δ hδ
  refine hd.weaken h1 fun B _ x _ hx => h ?_
  rw [dist_pi_lt_iff hδ]
  intro j
  rw [dist_eq_norm]
  exact hx j

end Source.Draws

end

/-! ### Independent samples -/

variable [DecidableEq α]

/-- Batches of `B` independent samples, each of which is `s ∈ S` with probability `p s`. -/
noncomputable def independent (S : Finset α) (p : α → ℝ) : Source α where
  Outcome B := Fin B → α
  mean B := expect S p B
  size B := B
  batch _ x := x

variable {S : Finset α} {p : α → ℝ} (hp : ∑ s ∈ S, p s = 1) (h0 : ∀ s ∈ S, 0 ≤ p s)

omit [DecidableEq α] in
include h0 in
theorem expect_mono {B : Nat} {F G : (Fin B → α) → ℝ} (h : ∀ x, (∀ b, x b ∈ S) → F x ≤ G x) :
    expect S p B F ≤ expect S p B G := by
  unfold expect
  refine Finset.sum_le_sum fun x hx => ?_
  have hx' := Fintype.mem_piFinset.1 hx
  exact mul_le_mul_of_nonneg_left (h x hx') (Finset.prod_nonneg fun b _ => h0 _ (hx' b))

include hp in
theorem expect_const (B : Nat) (c : ℝ) : expect S p B (fun _ => c) = c := by
  have h := expect_prod (B := B) S p fun _ _ => (1 : ℝ)
  have h2 := expect_mul (B := B) S p c fun _ => (1 : ℝ)
  simp only [mul_one, hp, Finset.prod_const_one] at h h2
  rw [h2, h, mul_one]

include hp h0 in
/-- Chebyshev's inequality for the mean of a batch. -/
theorem chance_deviation {B : Nat} (hB : 0 < B) (f : α → ℝ) (ε : ℝ) (hε : 0 < ε) :
    (independent S p).chance B (fun x => ε ≤ |(∑ b, f (x b)) / B - ∑ s ∈ S, p s * f s|) ≤
      (∑ s ∈ S, p s * (f s * f s) - (∑ s ∈ S, p s * f s) * ∑ s ∈ S, p s * f s) / (B * ε ^ 2) := by
  classical
  have hBR : (B : ℝ) ≠ 0 := by exact_mod_cast hB.ne'
  set m := ∑ s ∈ S, p s * f s with hm
  have h1 : (independent S p).chance B (fun x => ε ≤ |(∑ b, f (x b)) / B - m|) ≤
      expect S p B fun x => (1 / ε ^ 2) * ((∑ b, f (x b)) / B - m) ^ 2 := by
    unfold Source.chance
    refine expect_mono h0 fun x _ => ?_
    split
    · rename_i h
      rw [one_div, ← sq_abs ((∑ b, f (x b)) / B - m), inv_mul_eq_div, le_div_iff₀ (by positivity), one_mul]
      exact pow_le_pow_left₀ hε.le h 2
    · positivity
  refine h1.trans (le_of_eq ?_)
  have h2 : ∀ x : Fin B → α, ((∑ b, f (x b)) / B - m) ^ 2 =
      (1 / (B * B)) * ((∑ a, f (x a)) * ∑ b, f (x b)) + ((-(2 * m / B)) * (∑ b, f (x b)) + m * m) := by
    intro x
    field_simp
    ring
  rw [expect_mul]
  simp only [h2]
  rw [expect_add, expect_add, expect_mul, expect_mul, expect_sums _ _ hp, expect_sum, expect_const hp]
  simp only [expect_one _ _ hp, Finset.sum_const, Finset.card_univ, Fintype.card_fin, nsmul_eq_mul, ← hm]
  field_simp
  ring

omit [DecidableEq α] in
theorem independent_mono (h0 : ∀ s ∈ S, 0 ≤ p s) : ∀ N F G, (∀ ω, (∀ b, (independent S p).batch N ω b ∈ S) → F ω ≤ G ω) →
    (independent S p).mean N F ≤ (independent S p).mean N G := fun _ _ _ h => expect_mono h0 h

include hp h0 in
/-- The law of large numbers. -/
theorem independent_draws : (independent S p).Draws S p where
  mono := independent_mono h0
  add _ F G := expect_add S p F G
  const N c := expect_const hp N c
  pos := eventually_gt_atTop 0
  law f ε hε := by
    rw [Source.inTheLimit_iff (fun _ F G => expect_add S p F G) fun N c => expect_const hp N c]
    have hlim : Tendsto (fun B : Nat => (∑ s ∈ S, p s * (f s * f s) - (∑ s ∈ S, p s * f s) * ∑ s ∈ S, p s * f s) / ε ^ 2 / B)
        atTop (𝓝 0) := tendsto_const_div_atTop_nhds_zero_nat _
    refine tendsto_of_tendsto_of_tendsto_of_le_of_le' tendsto_const_nhds hlim
      (Eventually.of_forall fun B => Source.chance_nonneg (independent_mono h0) (fun N c => expect_const hp N c) B _) ?_
    filter_upwards [eventually_gt_atTop 0] with B hB
    refine le_trans (Source.chance_mono (independent_mono h0) fun x _ hx => not_lt.1 hx)
      ((chance_deviation hp h0 hB f ε hε).trans (le_of_eq ?_))
    rw [div_div, mul_comm (ε ^ 2)]

end Chance

/-! ### Energy, variance and gradient -/

variable {ι : Type} [DecidableEq ι] [Fintype ι]

theorem born_nonneg' (logψ : Config ι → ℂ) : ∀ s ∈ allSpins ι, 0 ≤ born logψ s := fun s _ => born_nonneg logψ s

/-- What C136 demands of a generator with reported numbers `est` and training targets `targets`, for a network with real
parameters `k : K` at the values `θ`: the energy has partial derivatives `grad`, and for every source of samples of `|ψ|²`
(independent samples by `C136_independent`) and every tolerance the probability that a batch yields numbers of which the energy, the variance and
all partial derivatives of the summed training loss lie within the tolerance of the exact energy, variance of the local
energy and `grad` tends to one as the batches grow. -/
def ExactInTheLimit (H : Wave ι → Wave ι)
    (est : (B : Nat) → (Config ι → ℂ) → (Fin B → Config ι) → Option (ℂ × ℝ × List ℂ))
    (targets : (B : Nat) → (Config ι → ℂ) → (Fin B → Config ι) → Option (List ℂ)) : Prop :=
  ∀ (K : Type) [Fintype K] [DecidableEq K] (net : (K → ℝ) → Config ι → ℂ) (θ : K → ℝ) (D : K → Config ι → ℂ),
    (∀ k s, IsSpin s → HasDerivAt (fun t => net (Function.update θ k t) s) (D k s) (θ k)) →
    ∃ grad : K → ℝ,
      (∀ k, HasDerivAt (fun t => (rayleigh H fun s => Complex.exp (net (Function.update θ k t) s)).re) (grad k) (θ k)) ∧
      ∀ src : Source (Config ι), src.Draws (allSpins ι) (born (net θ)) → ∀ ε, 0 < ε → src.InTheLimit fun B sample =>
        ∃ e v lv c, est B (net θ) sample = some (e, v, lv) ∧ targets B (net θ) sample = some c ∧ c.length = B ∧
          ‖e - rayleigh H (fun s => Complex.exp (net θ s))‖ < ε ∧ |v - localVariance H (net θ)| < ε ∧
          ∀ k, ∃ g, HasDerivAt (fun t => ∑ b : Fin B, Exact.loss (c.getD b 0) (net (Function.update θ k t) (sample b))) g (θ k) ∧
            |g - grad k| < ε

theorem energy_limit (H : Wave ι → Wave ι) (logψ : Config ι → ℂ) {src : Source (Config ι)}
    (hd : src.Draws (allSpins ι) (born logψ)) (ε : ℝ) (hε : 0 < ε) :
    src.InTheLimit fun B x =>
      ‖(∑ b, localEnergy H logψ (x b)) / B - rayleigh H fun s => Complex.exp (logψ s)‖ < ε := by
  rw [rayleigh_born]
  exact hd.mean_complex (localEnergy H logψ) ε hε

theorem variance_limit (H : Wave ι → Wave ι) (logψ : Config ι → ℂ) {src : Source (Config ι)}
    (hd : src.Draws (allSpins ι) (born logψ)) (ε : ℝ) (hε : 0 < ε) :
    src.InTheLimit fun B x =>
      |variance ((List.finRange B).map fun b => (localEnergy H logψ (x b)).re) - localVariance H logψ| < ε := by
  have h := hd.mean_map (J := Bool)
    (fun s j => if j then (((localEnergy H logψ s).re * (localEnergy H logψ s).re : ℝ) : ℂ) else ((localEnergy H logψ s).re : ℂ))
    (fun m => (m true).re - (m false).re * (m false).re) (by fun_prop) ε hε
  refine hd.weaken h fun B hB x _ hx => ?_
  have hBR : (B : ℝ) ≠ 0 := by exact_mod_cast hB.ne'
  rw [Real.dist_eq] at hx
  simp only [if_true, Bool.false_eq_true, if_false, ← Complex.ofReal_mul, ← Complex.ofReal_sum, Complex.ofReal_re] at hx
  simp only [← Complex.ofReal_natCast, ← Complex.ofReal_div, Complex.ofReal_re] at hx
  rw [localVariance_eq, variance_finRange hB]
  convert hx using 3
  simp only [sub_mul, Finset.sum_sub_distrib, ← Finset.mul_sum]
  field_simp

theorem gradient_limit (H : Wave ι → Wave ι) (logψ : Config ι → ℂ) {src : Source (Config ι)}
    (hd : src.Draws (allSpins ι) (born logψ)) (D : Config ι → ℂ) (ε : ℝ) (hε : 0 < ε) :
    src.InTheLimit fun _ x => |batchGradient H logψ D x -
      2 * (∑ s ∈ allSpins ι, (born logψ s : ℂ) * ((starRingEnd ℂ) (localEnergy H logψ s) * D s) -
        (∑ s ∈ allSpins ι, (born logψ s : ℂ) * (starRingEnd ℂ) (localEnergy H logψ s)) *
          ∑ s ∈ allSpins ι, (born logψ s : ℂ) * D s).re| < ε := by
  have h := hd.mean_map (J := Option Bool)
    (fun s j => match j with
      | none => (starRingEnd ℂ) (localEnergy H logψ s) * D s
      | some true => (starRingEnd ℂ) (localEnergy H logψ s)
      | some false => D s)
    (fun m => 2 * (m none - m (some true) * m (some false)).re) (by fun_prop) ε hε
  refine hd.weaken h fun B _ x _ hx => ?_
  rw [Real.dist_eq] at hx
  simp only at hx
  convert hx using 3
  unfold batchGradient
  rw [← Finset.mul_sum, ← Complex.re_sum]
  refine congrArg (fun z : ℂ => 2 * z.re) ?_
  simp only [map_sub, map_div₀, map_sum, map_natCast]
  have : ∀ b, ((starRingEnd ℂ) (localEnergy H logψ (x b)) - (∑ a, (starRingEnd ℂ) (localEnergy H logψ (x a))) / B) / B * D (x b) =
      (1 / B) * ((starRingEnd ℂ) (localEnergy H logψ (x b)) * D (x b)) -
        (∑ a, (starRingEnd ℂ) (localEnergy H logψ (x a))) / B / B * D (x b) := fun b => by ring
  simp only [this, Finset.sum_sub_distrib, ← Finset.mul_sum]
  ring

open Verif.Energy.Exact in
theorem exactInTheLimit_of {op : (B : Nat) → (Fin B → Config ι) → Fin B → List (Row ι ℝ)} {R : Nat}
    {rowsOf : Config ι → List (Row ι ℝ)} (h : RowsOf op R rowsOf) (H : Wave ι → Wave ι)
    (hH : ∀ s, IsSpin s → ∀ ψ, applyRows (rowsOf s) ψ = H ψ s)
    (hlen : ∀ B (sample : Fin B → Config ι) b, (op B sample b).length = R)
    (hE : ∀ B (sample : Fin B → Config ι), (∀ b, IsSpin (sample b)) → ∀ logψ,
      LocalEnergies H sample logψ (estimate logψ (Answer.ofRows R (op B sample) (hlen B sample)))) :
    ExactInTheLimit H (fun B logψ sample => estimate logψ (Answer.ofRows R (op B sample) (hlen B sample)))
      fun B logψ sample => vmcCoefficients B logψ (Answer.ofRows R (op B sample) (hlen B sample)) := by
  intro K _ _ net θ D hD
  have hder : ∀ k, _ := fun k => rayleigh_deriv h H hH (fun t => net (Function.update θ k t)) (D k) (θ k) (hD k)
  simp only [Function.update_eq_self] at hder
  refine ⟨_, hder, fun src hd ε hε => ?_⟩
  have hlim := hd.both (hd.both (energy_limit H (net θ) hd ε hε) (variance_limit H (net θ) hd ε hε))
    (hd.all fun k => gradient_limit H (net θ) hd (D k) ε hε)
  refine hd.weaken hlim fun B hB sample hs hx => ?_
  obtain ⟨⟨h1, h2⟩, h3⟩ := hx
  have hs' : ∀ b, IsSpin (sample b) := fun b => (mem_allSpins _).1 (hs b)
  have hloc := hE B sample hs' (net θ)
  obtain ⟨v, hv⟩ := hloc.values
  have hv' := hv
  unfold estimate at hv'
  obtain ⟨lv, -, hlv⟩ := Option.map_eq_some_iff.1 hv'
  rw [Prod.mk.injEq, Prod.mk.injEq] at hlv
  obtain ⟨-, hlv2, hlv3⟩ := hlv
  refine ⟨_, v, _, _, hv, targets_of h (hlen B) (net θ) sample hloc, by simp, h1, ?_, fun k => ⟨_, ?_, h3 k⟩⟩
  · rw [← hlv2, hlv3, List.map_map]
    exact h2
  · unfold batchGradient
    refine HasDerivAt.fun_sum fun b _ => ?_
    have hget : ((List.finRange B).map fun b => (starRingEnd ℂ) (localEnergy H (net θ) (sample b) -
          (∑ a, localEnergy H (net θ) (sample a)) / B) / (B : ℂ)).getD b 0 = (starRingEnd ℂ) (localEnergy H (net θ) (sample b) -
          (∑ a, localEnergy H (net θ) (sample a)) / B) / (B : ℂ) := by
      simp [List.getD_eq_getElem?_getD]
    rw [hget]
    have h1 := Complex.reCLM.hasFDerivAt.comp_hasDerivAt (θ k) ((hD k _ (hs' b)).mul_const
      ((starRingEnd ℂ) (localEnergy H (net θ) (sample b) - (∑ a, localEnergy H (net θ) (sample a)) / B) / (B : ℂ)))
    have h2 := h1.const_mul (2 : ℝ)
    rw [mul_comm ((starRingEnd ℂ) _ / (B : ℂ))]
    exact h2

/-! ### Stochastic reconfiguration -/

open Verif.Optimizers Verif.Optimizers.SR Matrix ComplexOrder

variable {P : Nat}

/-- Expected value under `|ψ|²`. -/
noncomputable def bornMean (logψ : Config ι → ℂ) (f : Config ι → ℂ) : ℂ := ∑ s ∈ allSpins ι, (born logψ s : ℂ) * f s

/-- The exact covariance of the logarithmic derivatives `O s p` of the wave function. -/
noncomputable def exactCovariance (logψ : Config ι → ℂ) (O : Config ι → Fin P → ℂ) : Matrix (Fin P) (Fin P) ℂ := fun p q =>
  bornMean logψ fun s => (starRingEnd ℂ) (O s p - bornMean logψ fun s => O s p) * (O s q - bornMean logψ fun s => O s q)

/-- The exact covariance of the logarithmic derivatives and the local energy. -/
noncomputable def exactForce (H : Wave ι → Wave ι) (logψ : Config ι → ℂ) (O : Config ι → Fin P → ℂ) : Fin P → ℂ := fun p =>
  bornMean logψ fun s => (starRingEnd ℂ) (O s p - bornMean logψ fun s => O s p) *
    (localEnergy H logψ s - rayleigh H fun s => Complex.exp (logψ s))

/-- What C136 demands of stochastic reconfiguration with the direct solver: the exact regularised system has a unique
solution `x`, and for every source of samples of `|ψ|²` and every tolerance the probability that the weights after a step are
within the tolerance of those after the exact step, `w - lr x`, tends to one as the batches grow. `O s p` is the derivative of the output
of the network for configuration `s` by weight `p`; the Jacobian of a batch consists of the rows of its samples. -/
def ReconfigurationInTheLimit (H : Wave ι → Wave ι)
    (targets : (B : Nat) → (Config ι → ℂ) → (Fin B → Config ι) → Option (List ℂ)) : Prop :=
  ∀ (P : Nat) (logψ : Config ι → ℂ) (O : Config ι → Fin P → ℂ) (lr shift : ℝ), 0 < shift → ∀ m : ComplexModel, m.Valid →
    P = ((m.weights.map Tensor.shape).map List.prod).sum →
    ∃ x : Fin P → ℂ, (∀ y, exactCovariance logψ O *ᵥ y + (shift : ℂ) • y = exactForce H logψ O ↔ y = x) ∧
      ∀ src : Source (Config ι), src.Draws (allSpins ι) (born logψ) → ∀ ε, 0 < ε → src.InTheLimit fun B sample =>
        ∃ c m', targets B logψ sample = some c ∧ c.length = B ∧
        getUpdatesDirect lr shift m (fun b p => O (sample b) p) (fun b : Fin B => c.getD b 0) = some m' ∧
        ∀ p, ‖flatWeights P m' p - (flatWeights P m p - lr * x p)‖ < ε

theorem bornMean_center (logψ : Config ι → ℂ) (f g : Config ι → ℂ) :
    bornMean logψ (fun s => (starRingEnd ℂ) (f s - bornMean logψ f) * (g s - bornMean logψ g)) =
      bornMean logψ (fun s => (starRingEnd ℂ) (f s) * g s) - (starRingEnd ℂ) (bornMean logψ f) * bornMean logψ g := by
  have hp : ∑ s ∈ allSpins ι, (born logψ s : ℂ) = 1 := by rw [← Complex.ofReal_sum, born_sum]; simp
  have h1 : ∀ c : ℂ, bornMean logψ (fun s => (starRingEnd ℂ) (f s) * c) = (starRingEnd ℂ) (bornMean logψ f) * c := by
    intro c
    unfold bornMean
    rw [map_sum, Finset.sum_mul]
    exact Finset.sum_congr rfl fun s _ => by rw [map_mul, Complex.conj_ofReal]; ring
  have h2 : ∀ s, (born logψ s : ℂ) * ((starRingEnd ℂ) (f s - bornMean logψ f) * (g s - bornMean logψ g)) =
      (born logψ s : ℂ) * ((starRingEnd ℂ) (f s) * g s) - (born logψ s : ℂ) * ((starRingEnd ℂ) (f s) * bornMean logψ g) -
        (starRingEnd ℂ) (bornMean logψ f) * ((born logψ s : ℂ) * g s) +
        (starRingEnd ℂ) (bornMean logψ f) * bornMean logψ g * (born logψ s : ℂ) := by
    intro s
    rw [map_sub]
    ring
  have h3 := h1 (bornMean logψ g)
  unfold bornMean at h3 h2 ⊢
  simp only [h2, Finset.sum_add_distrib, Finset.sum_sub_distrib, ← Finset.mul_sum, hp]
  rw [h3]
  ring

/-- The same for the mean of a batch. -/
theorem batch_center {B : Nat} (hB : 0 < B) (f g : Fin B → ℂ) :
    (∑ b, (starRingEnd ℂ) (f b - (∑ a, f a) / B) * (g b - (∑ a, g a) / B)) / B =
      (∑ b, (starRingEnd ℂ) (f b) * g b) / B - (starRingEnd ℂ) ((∑ b, f b) / B) * ((∑ b, g b) / B) := by
  have hBC : (B : ℂ) ≠ 0 := by exact_mod_cast hB.ne'
  simp only [map_sub, map_div₀, map_sum, map_natCast, sub_mul, mul_sub, Finset.sum_sub_distrib, ← Finset.mul_sum, ← Finset.sum_mul,
    Finset.sum_const, Finset.card_univ, Fintype.card_fin, nsmul_eq_mul]
  field_simp
  ring

theorem exactCovariance_posSemidef (logψ : Config ι → ℂ) (O : Config ι → Fin P → ℂ) :
    (exactCovariance logψ O).PosSemidef := by
  set W : Matrix (allSpins ι) (Fin P) ℂ := fun s p => (Real.sqrt (born logψ s) : ℂ) * (O s p - bornMean logψ fun s => O s p) with hW
  have h : exactCovariance logψ O = Wᴴ * W := by
    ext p q
    rw [Matrix.mul_apply]
    have e : exactCovariance logψ O p q = ∑ s ∈ allSpins ι, (born logψ s : ℂ) *
      ((starRingEnd ℂ) (O s p - bornMean logψ fun s => O s p) * (O s q - bornMean logψ fun s => O s q)) := rfl
    rw [e, ← Finset.sum_coe_sort]
    refine Finset.sum_congr rfl fun s _ => ?_
    have hs : ((Real.sqrt (born logψ s) : ℂ)) * (Real.sqrt (born logψ s) : ℂ) = (born logψ s : ℂ) := by
      rw [← Complex.ofReal_mul, Real.mul_self_sqrt (born_nonneg _ _)]
    rw [Matrix.conjTranspose_apply, hW]
    simp only [star_mul', Complex.star_def, Complex.conj_ofReal]
    rw [← hs]
    ring
  rw [h]
  exact Matrix.posSemidef_conjTranspose_mul_self W

/-- The means over a batch that determine a step: products of derivatives, derivatives, products of derivatives and local
energies, local energies. -/
abbrev Means (P : Nat) := (Fin P × Fin P) ⊕ Fin P ⊕ Fin P ⊕ Unit

/-- The matrix of the system from the means. -/
def meansMatrix (shift : ℝ) (m : Means P → ℂ) : Matrix (Fin P) (Fin P) ℂ := fun p q =>
  m (.inl (p, q)) - (starRingEnd ℂ) (m (.inr (.inl p))) * m (.inr (.inl q)) + (shift : ℂ) * (1 : Matrix (Fin P) (Fin P) ℂ) p q

/-- The right-hand side of the system from the means. -/
def meansForce (m : Means P → ℂ) : Fin P → ℂ := fun p =>
  m (.inr (.inr (.inl p))) - (starRingEnd ℂ) (m (.inr (.inl p))) * m (.inr (.inr (.inr ())))

/-- Summands of the means. -/
def summand (E : Config ι → ℂ) (O : Config ι → Fin P → ℂ) (s : Config ι) : Means P → ℂ
  | .inl (p, q) => (starRingEnd ℂ) (O s p) * O s q
  | .inr (.inl p) => O s p
  | .inr (.inr (.inl p)) => (starRingEnd ℂ) (O s p) * E s
  | .inr (.inr (.inr ())) => E s

theorem continuousAt_solution (shift : ℝ) (μ : Means P → ℂ) (h : (meansMatrix shift μ).det ≠ 0) :
    ContinuousAt (fun m => (meansMatrix shift m)⁻¹ *ᵥ meansForce m) μ := by
  have hM : Continuous fun m : Means P → ℂ => meansMatrix shift m := by
    refine continuous_matrix fun p q => ?_
    unfold meansMatrix
    exact ((continuous_apply _).sub ((Complex.continuous_conj.comp (continuous_apply _)).mul (continuous_apply _))).add continuous_const
  have hF : Continuous fun m : Means P → ℂ => meansForce m := by
    refine continuous_pi fun p => ?_
    unfold meansForce
    exact (continuous_apply _).sub ((Complex.continuous_conj.comp (continuous_apply _)).mul (continuous_apply _))
  have hinv : ContinuousAt (fun m : Means P → ℂ => (meansMatrix shift m)⁻¹) μ := by
    simp only [Matrix.inv_def, Ring.inverse_eq_inv']
    exact (ContinuousAt.inv₀ hM.matrix_det.continuousAt h).smul hM.matrix_adjugate.continuousAt
  refine continuousAt_pi.2 fun p => ?_
  simp only [Matrix.mulVec, dotProduct]
  refine tendsto_finsetSum _ fun q _ => ?_
  exact ((continuous_apply_apply p q).continuousAt.comp hinv).mul ((continuous_apply q).comp hF).continuousAt

open Verif.Energy.Exact in
theorem reconfigurationInTheLimit_of {op : (B : Nat) → (Fin B → Config ι) → Fin B → List (Row ι ℝ)} {R : Nat}
    {rowsOf : Config ι → List (Row ι ℝ)} (h : RowsOf op R rowsOf) (H : Wave ι → Wave ι)
    (hlen : ∀ B (sample : Fin B → Config ι) b, (op B sample b).length = R)
    (hE : ∀ B (sample : Fin B → Config ι), (∀ b, IsSpin (sample b)) → ∀ logψ,
      LocalEnergies H sample logψ (estimate logψ (Answer.ofRows R (op B sample) (hlen B sample)))) :
    ReconfigurationInTheLimit H fun B logψ sample => vmcCoefficients B logψ (Answer.ofRows R (op B sample) (hlen B sample)) := by
  intro P logψ O lr shift hs m hm hP
  set μ : Means P → ℂ := fun j => ∑ s ∈ allSpins ι, (born logψ s : ℂ) * summand (localEnergy H logψ) O s j with hμ
  have hmat : meansMatrix shift μ = exactCovariance logψ O + (shift : ℂ) • (1 : Matrix (Fin P) (Fin P) ℂ) := by
    ext p q
    rw [Matrix.add_apply, Matrix.smul_apply, smul_eq_mul]
    unfold exactCovariance
    rw [bornMean_center logψ (fun s => O s p) fun s => O s q]
    rfl
  have hforce : meansForce μ = exactForce H logψ O := by
    funext p
    unfold exactForce
    rw [rayleigh_born]
    have := bornMean_center logψ (fun s => O s p) fun s => localEnergy H logψ s
    unfold bornMean at this ⊢
    rw [this]
    rfl
  have hpd : (meansMatrix shift μ).PosDef := by
    rw [hmat]
    exact Matrix.PosDef.posSemidef_add (exactCovariance_posSemidef logψ O) (Matrix.PosDef.one.smul (by exact_mod_cast hs))
  have hdet : (meansMatrix shift μ).det ≠ 0 := hpd.det_pos.ne'
  have hunit : IsUnit (meansMatrix shift μ).det := isUnit_iff_ne_zero.2 hdet
  refine ⟨(meansMatrix shift μ)⁻¹ *ᵥ meansForce μ, fun y => ?_, fun src hd ε hε => ?_⟩
  · have e : exactCovariance logψ O *ᵥ y + (shift : ℂ) • y = meansMatrix shift μ *ᵥ y := by
      rw [hmat, Matrix.add_mulVec, Matrix.smul_mulVec, Matrix.one_mulVec]
    rw [e, ← hforce]
    constructor
    · intro hy
      rw [← hy, Matrix.mulVec_mulVec, Matrix.nonsing_inv_mul _ hunit, Matrix.one_mulVec]
    · intro hy
      rw [hy, Matrix.mulVec_mulVec, Matrix.mul_nonsing_inv _ hunit, Matrix.one_mulVec]
  · have hδ : 0 < ε / (|lr| + 1) := by positivity
    have hlim := hd.mean_map (summand (localEnergy H logψ) O) (fun m => (meansMatrix shift m)⁻¹ *ᵥ meansForce m)
      (continuousAt_solution shift μ hdet) (ε / (|lr| + 1)) hδ
    refine hd.weaken hlim fun B hB sample hsm hx => ?_
    have hs' : ∀ b, IsSpin (sample b) := fun b => (mem_allSpins _).1 (hsm b)
    have hc := targets_of h (hlen B) logψ sample (hE B sample hs' logψ)
    set c := (List.finRange B).map fun b => (starRingEnd ℂ) (localEnergy H logψ (sample b) -
        (∑ a, localEnergy H logψ (sample a)) / B) / (B : ℂ) with hcdef
    have hget : ∀ b : Fin B, c.getD b 0 = (starRingEnd ℂ) (localEnergy H logψ (sample b) -
        (∑ a, localEnergy H logψ (sample a)) / B) / (B : ℂ) := fun b => by
      simp [hcdef, List.getD_eq_getElem?_getD]
    obtain ⟨m', x, hm', hsys, -, hflat⟩ := C32_update lr shift hs m hm hP (fun b p => O (sample b) p) fun b : Fin B => c.getD b 0
    refine ⟨c, m', hc, by simp [hcdef], hm', fun p => ?_⟩
    have hlenw : (m.weights.flatMap Tensor.data).length = P := by
      obtain ⟨hs', hre, him⟩ := hm
      have hlen : m.real.length = m.imag.length := by simpa using congrArg List.length hs'
      have hws : m.weights.map Tensor.shape = m.real.map Tensor.shape := shape_complexWeight _ _ hlen
      have h6 := flatMap_complexWeight _ _ hs' hre him
      have h7 : (m.imag.flatMap Tensor.data).length = (m.real.flatMap Tensor.data).length := by
        rw [length_flatMap_valid _ hre, length_flatMap_valid _ him, hs']
      unfold ComplexModel.weights
      rw [h6, List.length_zipWith, h7, min_self, length_flatMap_valid _ hre, hP, hws]
      rfl
    set ν : Means P → ℂ := fun j => (∑ b, summand (localEnergy H logψ) O (sample b) j) / B with hν
    have hmatB : meansMatrix shift ν = sMatrix (minusMean fun b p => O (sample b) p) shift := by
      ext p q
      unfold sMatrix covariance
      rw [Matrix.add_apply, Matrix.smul_apply, Matrix.smul_apply, Matrix.mul_apply, smul_eq_mul, smul_eq_mul]
      have := batch_center hB (fun b => O (sample b) p) fun b => O (sample b) q
      simp only [Matrix.conjTranspose_apply, minusMean, Complex.star_def]
      rw [one_div, inv_mul_eq_div, this]
      rfl
    have hforceB : meansForce ν = fun p => ∑ b, (starRingEnd ℂ) (minusMean (fun b p => O (sample b) p) b p) * (starRingEnd ℂ) (c.getD b 0) := by
      funext p
      have := batch_center hB (fun b => O (sample b) p) fun b => localEnergy H logψ (sample b)
      have h2 : meansForce ν p = (∑ b, (starRingEnd ℂ) (O (sample b) p) * localEnergy H logψ (sample b)) / B -
        (starRingEnd ℂ) ((∑ b, O (sample b) p) / B) * ((∑ b, localEnergy H logψ (sample b)) / B) := rfl
      rw [h2, ← this, Finset.sum_div]
      refine Finset.sum_congr rfl fun b _ => ?_
      rw [hget, map_div₀, Complex.conj_conj, Complex.conj_natCast]
      unfold minusMean
      ring
    have hxs : x = (meansMatrix shift ν)⁻¹ *ᵥ meansForce ν := by
      have hpdB : (sMatrix (minusMean fun b p => O (sample b) p) shift).PosDef := sMatrix_posDef _ hs
      have hu : IsUnit (meansMatrix shift ν).det := by
        rw [hmatB]
        exact isUnit_iff_ne_zero.2 hpdB.det_pos.ne'
      have e : meansMatrix shift ν *ᵥ x = meansForce ν := by
        rw [hforceB, ← hsys, hmatB]
        unfold sMatrix
        rw [Matrix.add_mulVec, Matrix.smul_mulVec, Matrix.one_mulVec]
        rfl
      rw [← e, Matrix.mulVec_mulVec, Matrix.nonsing_inv_mul _ hu, Matrix.one_mulVec]
    have hfw := congrFun (flat_update hlenw x hflat) p
    have hdist := (dist_pi_lt_iff hδ).1 hx p
    rw [dist_eq_norm] at hdist
    rw [hfw]
    simp only [Pi.add_apply, Pi.smul_apply, Pi.neg_apply, smul_eq_mul]
    have e2 : flatWeights P m p + (lr : ℂ) * -x p - (flatWeights P m p - lr * ((meansMatrix shift μ)⁻¹ *ᵥ meansForce μ) p) =
        -(lr : ℂ) * (x p - ((meansMatrix shift μ)⁻¹ *ᵥ meansForce μ) p) := by ring
    rw [e2, norm_mul, norm_neg, Complex.norm_real, Real.norm_eq_abs, hxs]
    calc |lr| * _ ≤ |lr| * (ε / (|lr| + 1)) := mul_le_mul_of_nonneg_left hdist.le (abs_nonneg _)
      _ < (|lr| + 1) * (ε / (|lr| + 1)) := by
        apply mul_lt_mul_of_pos_right _ hδ
        linarith
      _ = ε := by field_simp

/-! ### C136 -/

/-- What C136 demands of the generator of an operator. -/
def LargeBatches (H : Wave ι → Wave ι) {R : Nat} (answer : (B : Nat) → (Fin B → Config ι) → Answer (Config ι) R B) : Prop :=
  ExactInTheLimit H (fun B logψ sample => estimate logψ (answer B sample))
      (fun B logψ sample => Exact.vmcCoefficients B logψ (answer B sample)) ∧
    ReconfigurationInTheLimit H fun B logψ sample => Exact.vmcCoefficients B logψ (answer B sample)

open Verif.Energy.Exact

/-- **C136** for the Ising model on chains. -/
theorem C136_ising_chain (n : Nat) (h j : ℝ) (pbc : Bool) :
    LargeBatches (tfim (chainBonds n pbc) h j) fun _ sample =>
      Answer.ofRows (n + 1) (isingFindConn1 (.float h) j pbc sample) fun b => by rw [isingFindConn1_eq]; simp :=
  ⟨exactInTheLimit_of (op := fun _ sample => isingFindConn1 (.float h) j pbc sample) (rowsOf_ising_chain n h j pbc) _
    (fun s _ ψ => C06_ising_chain h j pbc (fun _ : Fin 1 => s) 0 ψ) _
    fun _ sample hs logψ => C18_ising_chain h j pbc sample hs logψ,
  reconfigurationInTheLimit_of (op := fun _ sample => isingFindConn1 (.float h) j pbc sample) (rowsOf_ising_chain n h j pbc) _ _
    fun _ sample hs logψ => C18_ising_chain h j pbc sample hs logψ⟩

/-- **C136** for the Ising model on grids. -/
theorem C136_ising_grid (n m : Nat) (h j : ℝ) (pbc : Bool) :
    LargeBatches (tfim (gridBonds n m pbc) h j) fun _ sample =>
      Answer.ofRows (n * m + 1) (isingFindConn2 (.float h) j pbc sample)
        fun b => by rw [isingFindConn2_eq]; simp [length_gridSites] :=
  ⟨exactInTheLimit_of (op := fun _ sample => isingFindConn2 (.float h) j pbc sample) (rowsOf_ising_grid n m h j pbc) _
    (fun s _ ψ => C06_ising_grid h j pbc (fun _ : Fin 1 => s) 0 ψ) _
    fun _ sample hs logψ => C18_ising_grid h j pbc sample hs logψ,
  reconfigurationInTheLimit_of (op := fun _ sample => isingFindConn2 (.float h) j pbc sample) (rowsOf_ising_grid n m h j pbc) _ _
    fun _ sample hs logψ => C18_ising_grid h j pbc sample hs logψ⟩

/-- **C136** for the Heisenberg model on grids, after any history of earlier calls of the operator. -/
theorem C136_heisenberg_grid (n m : Nat) (rot pbc : Bool) (history : List (Call n m)) :
    LargeBatches (heisenberg (gridBonds n m pbc) (if rot then -1 else 1)) fun B sample =>
      Answer.ofRows (n * m * 2 + 1) (((HeisOp.new2 n m rot pbc).run history).findConn B sample).2
        fun b => by rw [answer2]; exact length_heisRows _ _ _ (Or.inl rfl) _ :=
  ⟨exactInTheLimit_of (op := fun B sample => (((HeisOp.new2 n m rot pbc).run history).findConn B sample).2)
    (rowsOf_heisenberg_grid n m rot pbc history) _
    (fun s hs ψ => applyRows_heisRows rot pbc 2 (Or.inl rfl) s hs ψ) _
    fun B sample hs logψ => C18_heisenberg_grid rot pbc history B sample hs logψ,
  reconfigurationInTheLimit_of (op := fun B sample => (((HeisOp.new2 n m rot pbc).run history).findConn B sample).2)
    (rowsOf_heisenberg_grid n m rot pbc history) _ _
    fun B sample hs logψ => C18_heisenberg_grid rot pbc history B sample hs logψ⟩

/-- **C136** for the Heisenberg model on chains, after any history of earlier calls of the operator. -/
theorem C136_heisenberg_chain (n : Nat) (rot pbc : Bool) (history : List (Call n 1)) :
    LargeBatches (heisenberg (chainBonds' n pbc) (if rot then -1 else 1)) fun B sample =>
      Answer.ofRows (n + 1) (((HeisOp.new1 n rot pbc).run history).findConn1 B sample).2
        fun b => by
          rw [(rowsOf_heisenberg_chain n rot pbc history).eq]
          exact (rowsOf_heisenberg_chain n rot pbc history).length _ :=
  ⟨exactInTheLimit_of (op := fun B sample => (((HeisOp.new1 n rot pbc).run history).findConn1 B sample).2)
    (rowsOf_heisenberg_chain n rot pbc history) _
    (fun s hs ψ => by
      have := C07_heisenberg_chain rot pbc history 1 (fun _ => s) 0 hs ψ
      rwa [answer1] at this) _
    fun B sample hs logψ => C18_heisenberg_chain rot pbc history B sample hs logψ,
  reconfigurationInTheLimit_of (op := fun B sample => (((HeisOp.new1 n rot pbc).run history).findConn1 B sample).2)
    (rowsOf_heisenberg_chain n rot pbc history) _ _
    fun B sample hs logψ => C18_heisenberg_chain rot pbc history B sample hs logψ⟩

/-- **C136 for independent samples.** They are a source of samples of `|ψ|²`. -/
theorem C136_independent (logψ : Config ι → ℂ) : (independent (allSpins ι) (born logψ)).Draws (allSpins ι) (born logψ) :=
  independent_draws (born_sum logψ) (born_nonneg' logψ)

/-- **C136, frequencies.** The relative frequencies of all configurations in the batch come as close as desired to their
probabilities `|ψ(s)|² / Σ |ψ|²`. -/
theorem C136_frequencies (logψ : Config ι → ℂ) (src : Source (Config ι)) (hd : src.Draws (allSpins ι) (born logψ)) (ε : ℝ)
    (hε : 0 < ε) :
    src.InTheLimit fun B sample => ∀ s, IsSpin s →
      |((Finset.univ.filter fun b => sample b = s).card : ℝ) / B -
        ‖Complex.exp (logψ s)‖ ^ 2 / ∑ t ∈ allSpins ι, ‖Complex.exp (logψ t)‖ ^ 2| < ε := by
  classical
  have h := hd.all fun s : allSpins ι => hd.law (fun t => if t = s then 1 else 0) ε hε
  refine hd.weaken h fun B _ x _ hx s hs => ?_
  have := hx ⟨s, (mem_allSpins s).2 hs⟩
  simp only [mul_ite, mul_one, mul_zero, Finset.sum_ite_eq', (mem_allSpins s).2 hs, if_true, Finset.sum_boole] at this
  rw [born] at this
  convert this using 3

/-- **C136, the size of the error.** For an estimator with the properties of C89, the probability that the reported energy of
a batch is off by `ε` or more is at most the variance of the local energy divided by `B ε²`. -/
theorem C136_rate (H : Wave ι → Wave ι)
    (est : (B : Nat) → (Config ι → ℂ) → (Fin B → Config ι) → Option (ℂ × ℝ × List ℂ)) (hM : MeanEstimate H est)
    {B : Nat} (hB : 0 < B) (logψ : Config ι → ℂ) (ε : ℝ) (hε : 0 < ε) :
    (independent (allSpins ι) (born logψ)).chance B (fun sample => ¬ ∃ e v lv, est B logψ sample = some (e, v, lv) ∧
      |e.re - (rayleigh H fun s => Complex.exp (logψ s)).re| < ε) ≤ localVariance H logψ / (B * ε ^ 2) := by
  classical
  obtain ⟨energy, var, h1, -, h3, -⟩ := hM B hB logψ
  set E := (rayleigh H fun s => Complex.exp (logψ s)).re
  have h4 : expect (allSpins ι) (born logψ) B (fun x => (1 / ε ^ 2) * ((energy x).re - E) ^ 2) =
      localVariance H logψ / (B * ε ^ 2) := by
    rw [expect_mul, h3]
    have hBR : (B : ℝ) ≠ 0 := by exact_mod_cast hB.ne'
    field_simp
  rw [← h4]
  unfold Source.chance
  refine expect_mono (born_nonneg' logψ) fun x hx => ?_
  split
  · rename_i hbad
    obtain ⟨lv, hlv⟩ := h1 x fun b => (mem_allSpins _).1 (hx b)
    have hge : ε ≤ |(energy x).re - E| := by
      by_contra hlt
      exact hbad ⟨_, _, lv, hlv, not_le.1 hlt⟩
    rw [one_div, ← sq_abs ((energy x).re - E), inv_mul_eq_div, le_div_iff₀ (by positivity), one_mul]
    exact pow_le_pow_left₀ hε.le hge 2
  · positivity

/-- The hypotheses are met: a network on three sites with two real parameters, and a model with two complex weights. -/
example : (∃ (net : (Fin 2 → ℝ) → Config (Fin 3) → ℂ) (D : Fin 2 → Config (Fin 3) → ℂ), D 0 (fun _ => 1) ≠ 0 ∧
      ∀ k s, IsSpin s → HasDerivAt (fun t => net (Function.update 0 k t) s) (D k s) ((0 : Fin 2 → ℝ) k)) ∧
    ∃ m : ComplexModel, m.Valid ∧ 2 = ((m.weights.map Tensor.shape).map List.prod).sum := by
  refine ⟨⟨fun θ s => (θ 0 : ℂ) * (∑ i, (s i : ℂ)), fun k s => if k = 0 then ∑ i, (s i : ℂ) else 0, by simp, fun k s _ => ?_⟩,
    ⟨[⟨[2], [1, 2]⟩], [⟨[2], [0, 3]⟩]⟩, ?_, ?_⟩
  · by_cases hk : k = 0
    · subst hk
      simp only [Function.update_self, if_true]
      have := (Complex.ofRealCLM.hasDerivAt (x := (0 : ℝ))).mul_const (∑ i : Fin 3, (s i : ℂ))
      simpa using this
    · simp only [Function.update_of_ne (Ne.symm hk), if_neg hk]
      exact hasDerivAt_const _ _
  · refine ⟨rfl, ?_, ?_⟩ <;> intro t ht <;> obtain rfl := List.mem_singleton.1 ht <;> rfl
  · rfl

end Verif.Energy

namespace Verif.Autoregressive

open Verif.Operators Verif.Energy MeasureTheory Filter Topology

variable {ι : Type} [DecidableEq ι] [Fintype ι]

/-- **C136 from the random numbers on.** A network that is autoregressive in the ordering handed to the sampler, on lattices
of one or two dimensions: an event that in the limit of large batches of independent samples of `|ψ|²` happens with
probability one (as those of the theorems above) happens in the limit with probability one over the random numbers of the
sampler. -/
theorem C136_autoregressive (dims : Nat) (hd : dims = 1 ∨ dims = 2) (net : Net ι) (order : List ι) (ho : Complete order)
    (hc : Causal order net) (A : (B : Nat) → (Fin B → Config ι) → Prop)
    (hA : (independent (allSpins ι) (born (logWave net))).InTheLimit A) :
    open Classical in
    Tendsto (fun B => ∫ u, (if ∃ S, sample dims false (condLogProbs net) order u = .ok S ∧ A B S then (1 : ℝ) else 0) ∂rand B ι)
      atTop (𝓝 1) := by
  classical
  refine hA.congr fun B => ?_
  rw [Source.chance_eq]
  show expect (allSpins ι) (born (logWave net)) B (fun x => if A B x then 1 else 0) = _
  refine (integral_sample dims hd net order ho hc _ _ fun u S hS => ?_).symm
  rw [hS]
  by_cases h : A B S
  · rw [if_pos ⟨S, rfl, h⟩, if_pos h]
  · rw [if_neg h, if_neg]
    rintro ⟨S', hS', h'⟩
    obtain rfl := Except.ok.inj hS'
    exact h h'

end Verif.Autoregressive
