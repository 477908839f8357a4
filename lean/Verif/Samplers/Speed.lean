import Verif.Samplers.GlobalLimit
import Mathlib.Analysis.SpecialFunctions.Log.Basic
import Mathlib.Tactic.LinearCombination

/-!
# C152: how many sweeps the uniform and the global Metropolis samplers need

The chains of a sampler whose proposals do not depend on the present configuration forget their start at a rate that is known
exactly: per sweep the distance from the limit shrinks by the factor one minus the mean weight over the largest weight.
-/
namespace Verif.Metropolis

open Verif.Operators Verif.Markov Verif.Energy Filter Topology

variable {ι : Type} {C : Nat} [DecidableEq ι] [Fintype ι]

/-! ### Specification -/

open Classical in
/-- The probability that chain `c` is in one of the configurations `A` after `n` sweeps from `S`. -/
noncomputable def chance (P : (Fin C → Config ι) → (Fin C → Config ι) → ℝ) (n : ℕ) (S : Fin C → Config ι) (c : Fin C)
    (A : Set (Config ι)) : ℝ :=
  ∑ T ∈ (Fintype.piFinset fun _ : Fin C => allSpins ι).filter (fun T => T c ∈ A), afterSweeps P n S T

open Classical in
/-- The probability of `A` if configuration `t` has the relative weight `v t`. -/
noncomputable def share (v : Config ι → ℝ) (A : Set (Config ι)) : ℝ :=
  (∑ t ∈ (allSpins ι).filter (fun t => t ∈ A), v t) / ∑ t ∈ allSpins ι, v t

/-! ### Chains that may jump anywhere -/

section chain

variable {α : Type} [DecidableEq α] {F : Finset α} {K : α → α → ℝ} {π : α → ℝ} {δ : ℝ}

/-- The distance from the limit after `n` steps. -/
theorem doeblin (h : Stochastic F K) (hs : IsStationary F K π) (h1 : ∑ x ∈ F, π x = 1) (h0 : ∀ x ∈ F, 0 ≤ π x)
    (hδ : ∀ x ∈ F, ∀ y ∈ F, δ * π y ≤ K x y) (A : Finset α) (hA : A ⊆ F) (n : ℕ) :
    ∀ x ∈ F, |∑ y ∈ A, steps F K n x y - ∑ y ∈ A, π y| ≤ (1 - δ) ^ n := by
  induction n with
  | zero =>
    intro x hx
    have hp0 : 0 ≤ ∑ y ∈ A, π y := Finset.sum_nonneg fun y hy => h0 y (hA hy)
    have hp1 : ∑ y ∈ A, π y ≤ 1 := by
      rw [← h1]
      exact Finset.sum_le_sum_of_subset_of_nonneg hA fun y hy _ => h0 y hy
    simp only [steps, pow_zero, Finset.sum_ite_eq]
    rw [abs_le]
    split <;> constructor <;> linarith
  | succ n ih =>
    intro x hx
    have e1 : ∑ y ∈ A, steps F K (n + 1) x y - ∑ y ∈ A, π y =
        ∑ z ∈ F, (K x z - δ * π z) * (∑ y ∈ A, steps F K n z y - ∑ y ∈ A, π y) := by
      have a1 : ∑ y ∈ A, steps F K (n + 1) x y = ∑ z ∈ F, K x z * ∑ y ∈ A, steps F K n z y := by
        simp only [steps]
        rw [Finset.sum_comm]
        exact Finset.sum_congr rfl fun z _ => (Finset.mul_sum _ _ _).symm
      have a2 : ∑ z ∈ F, π z * ∑ y ∈ A, steps F K n z y = ∑ y ∈ A, π y := by
        simp only [Finset.mul_sum]
        rw [Finset.sum_comm]
        exact Finset.sum_congr rfl fun y hy => steps_stationary hs n y (hA hy)
      have a3 := h.row x hx
      have a4 : ∀ p : ℝ, ∑ z ∈ F, (K x z - δ * π z) * (∑ y ∈ A, steps F K n z y - p) =
          ∑ z ∈ F, K x z * ∑ y ∈ A, steps F K n z y - (∑ z ∈ F, K x z) * p
            - δ * ∑ z ∈ F, π z * ∑ y ∈ A, steps F K n z y + δ * (∑ z ∈ F, π z) * p := by
        intro p
        rw [Finset.sum_mul, Finset.mul_sum, Finset.mul_sum, Finset.sum_mul, ← Finset.sum_sub_distrib, ← Finset.sum_sub_distrib,
          ← Finset.sum_add_distrib]
        exact Finset.sum_congr rfl fun z _ => by ring
      rw [a4, a1, a2, a3, h1]
      ring
    rw [e1]
    refine (Finset.abs_sum_le_sum_abs _ _).trans ?_
    calc ∑ z ∈ F, |(K x z - δ * π z) * (∑ y ∈ A, steps F K n z y - ∑ y ∈ A, π y)|
        ≤ ∑ z ∈ F, (K x z - δ * π z) * (1 - δ) ^ n := by
          refine Finset.sum_le_sum fun z hz => ?_
          rw [abs_mul, abs_of_nonneg (sub_nonneg.2 (hδ x hx z hz))]
          exact mul_le_mul_of_nonneg_left (ih z hz) (sub_nonneg.2 (hδ x hx z hz))
      _ = (1 - δ) ^ (n + 1) := by
          rw [← Finset.sum_mul, Finset.sum_sub_distrib, ← Finset.mul_sum, h.row x hx, h1]
          ring

/-- From a state whose row is a mixture of staying and the limit the distance is exact. -/
theorem doeblin_exact (hs : IsStationary F K π) (x : α) (hx : x ∈ F)
    (hrow : ∀ y ∈ F, K x y = δ * π y + if x = y then 1 - δ else 0) (A : Finset α) (hA : A ⊆ F) (n : ℕ) :
    ∑ y ∈ A, steps F K n x y = ∑ y ∈ A, π y + (1 - δ) ^ n * ((if x ∈ A then 1 else 0) - ∑ y ∈ A, π y) := by
  induction n with
  | zero => simp only [steps, pow_zero, Finset.sum_ite_eq]; ring
  | succ n ih =>
    have a1 : ∑ y ∈ A, steps F K (n + 1) x y = ∑ z ∈ F, K x z * ∑ y ∈ A, steps F K n z y := by
      simp only [steps]
      rw [Finset.sum_comm]
      exact Finset.sum_congr rfl fun z _ => (Finset.mul_sum _ _ _).symm
    have a2 : ∑ z ∈ F, π z * ∑ y ∈ A, steps F K n z y = ∑ y ∈ A, π y := by
      simp only [Finset.mul_sum]
      rw [Finset.sum_comm]
      exact Finset.sum_congr rfl fun y hy => steps_stationary hs n y (hA hy)
    have a3 : ∑ z ∈ F, K x z * ∑ y ∈ A, steps F K n z y =
        δ * (∑ z ∈ F, π z * ∑ y ∈ A, steps F K n z y) + (1 - δ) * ∑ y ∈ A, steps F K n x y := by
      rw [Finset.mul_sum]
      have : ∀ z ∈ F, K x z * ∑ y ∈ A, steps F K n z y = δ * (π z * ∑ y ∈ A, steps F K n z y) +
          if x = z then (1 - δ) * ∑ y ∈ A, steps F K n x y else 0 := by
        intro z hz
        rw [hrow z hz]
        split
        · rename_i e; subst e; ring
        · ring
      rw [Finset.sum_congr rfl this, Finset.sum_add_distrib, Finset.sum_ite_eq, if_pos hx]
    rw [a1, a3, a2, ih]
    ring

end chain

/-! ### The global sampler -/

theorem chance_prod {P : (Fin C → Config ι) → (Fin C → Config ι) → ℝ} {K : Config ι → Config ι → ℝ}
    (hP : ∀ S T, P S T = ∏ c, K (S c) (T c)) (hK : Stochastic (allSpins ι) K) (n : ℕ) (S : Fin C → Config ι)
    (hS : ∀ c, IsSpin (S c)) (c : Fin C) (A : Set (Config ι)) :
    chance P n S c A = open Classical in ∑ t ∈ (allSpins ι).filter (fun t => t ∈ A), steps (allSpins ι) K n (S c) t := by
  classical
  unfold chance
  simp only [afterSweeps_prod hP]
  have e : (Fintype.piFinset fun _ : Fin C => allSpins ι).filter (fun T => T c ∈ A) =
      Fintype.piFinset fun c' : Fin C => if c' = c then (allSpins ι).filter (fun t => t ∈ A) else allSpins ι := by
    ext T
    simp only [Finset.mem_filter, Fintype.mem_piFinset]
    constructor
    · rintro ⟨h1, h2⟩ c'
      split
      · rename_i e; subst e; exact Finset.mem_filter.2 ⟨h1 c', h2⟩
      · exact h1 c'
    · intro h
      refine ⟨fun c' => ?_, ?_⟩
      · have := h c'
        split at this
        · exact (Finset.mem_filter.1 this).1
        · exact this
      · have := h c
        rw [if_pos rfl] at this
        exact (Finset.mem_filter.1 this).2
  rw [e, ← Finset.prod_univ_sum (fun c' : Fin C => if c' = c then (allSpins ι).filter (fun t => t ∈ A) else allSpins ι)
    (fun c' t => steps (allSpins ι) K n (S c') t), Finset.prod_eq_single c]
  · rw [if_pos rfl]
  · intro c' _ hc'
    rw [if_neg hc']
    exact steps_row hK n _ ((mem_allSpins _).2 (hS c'))
  · intro h; exact absurd (Finset.mem_univ c) h

theorem sum_weight_pos (ψ : Config ι → ℂ) (q : Config ι → ℝ) (hpos : ∀ s, IsSpin s → 0 < q s) :
    0 < ∑ t ∈ allSpins ι, weight ψ t * q t :=
  Finset.sum_pos (fun t ht => mul_pos (weight_pos ψ t) (hpos t ((mem_allSpins _).1 ht)))
    ⟨fun _ => 1, (mem_allSpins _).2 fun _ => Or.inl rfl⟩

theorem global_stationary (ψ : Config ι → ℂ) (q : Config ι → ℝ) (hq : ∑ s ∈ allSpins ι, q s = 1) (hpos : ∀ s, IsSpin s → 0 < q s) :
    IsStationary (allSpins ι) (globalKernel ψ q) fun t => weight ψ t * q t / ∑ t ∈ allSpins ι, weight ψ t * q t := by
  set Z := ∑ t ∈ allSpins ι, weight ψ t * q t
  have hbal : ∀ s t, IsSpin s → IsSpin t → weight ψ s * q s * globalKernel ψ q s t = weight ψ t * q t * globalKernel ψ q t s := by
    intro s t hs ht
    by_cases h : s = t
    · rw [h]
    have a := weight_pos ψ s
    have b := weight_pos ψ t
    have key : ∀ x y : ℝ, 0 < x → x * min (y / x) 1 = min y x := by
      intro x y hx
      rw [mul_min_of_nonneg _ _ hx.le, mul_div_cancel₀ _ hx.ne', mul_one]
    rw [globalKernel_ne ψ q ht h, globalKernel_ne ψ q hs (Ne.symm h),
      show weight ψ s * q s * (q t * min (weight ψ t / weight ψ s) 1) = q s * q t * (weight ψ s * min (weight ψ t / weight ψ s) 1) by ring,
      show weight ψ t * q t * (q s * min (weight ψ s / weight ψ t) 1) = q s * q t * (weight ψ t * min (weight ψ s / weight ψ t) 1) by ring,
      key _ _ a, key _ _ b, min_comm]
  intro t ht
  have hterm : ∀ s ∈ allSpins ι, weight ψ s * q s / Z * globalKernel ψ q s t = weight ψ t * q t / Z * globalKernel ψ q t s := by
    intro s hs
    rw [div_mul_eq_mul_div, div_mul_eq_mul_div, hbal s t ((mem_allSpins s).1 hs) ((mem_allSpins t).1 ht)]
  rw [Finset.sum_congr rfl hterm, ← Finset.mul_sum, (globalKernel_stochastic ψ q hq hpos).row t ht, mul_one]

/-- Every transition is at least as probable as a draw from the limit with probability mean weight over largest weight. -/
theorem globalKernel_lower (ψ : Config ι → ℂ) (q : Config ι → ℝ) (hpos : ∀ s, IsSpin s → 0 < q s) {M : ℝ}
    (hM : ∀ t, IsSpin t → weight ψ t ≤ M) (s t : Config ι) (hs : IsSpin s) (ht : IsSpin t) :
    q t * (weight ψ t / M) ≤ globalKernel ψ q s t := by
  have hMpos : 0 < M := (weight_pos ψ s).trans_le (hM s hs)
  by_cases h : s = t
  · subst h
    unfold globalKernel
    have hw : ∀ s' : Config ι, 0 ≤ min (weight ψ s' / weight ψ s) 1 := fun s' =>
      le_min (div_pos (weight_pos ψ _) (weight_pos ψ _)).le zero_le_one
    have h1 : q s * stepProb s s (min (weight ψ s / weight ψ s) 1) s ≤
        ∑ s' ∈ allSpins ι, q s' * stepProb s s' (min (weight ψ s' / weight ψ s) 1) s :=
      Finset.single_le_sum (f := fun s' => q s' * stepProb s s' (min (weight ψ s' / weight ψ s) 1) s)
        (fun s' hs' => mul_nonneg (hpos s' ((mem_allSpins _).1 hs')).le (stepProb_nonneg _ _ _ (hw _) (min_le_right _ _)))
        ((mem_allSpins s).2 hs)
    have h2 : stepProb s s (min (weight ψ s / weight ψ s) 1) s = 1 := by
      unfold stepProb
      rw [if_pos rfl, if_pos rfl]
      ring
    rw [h2, mul_one] at h1
    refine le_trans ?_ h1
    have := (div_le_one hMpos).2 (hM s hs)
    have := hpos s hs
    nlinarith
  · rw [globalKernel_ne ψ q ht h]
    refine mul_le_mul_of_nonneg_left (le_min ?_ ((div_le_one hMpos).2 (hM t ht))) (hpos t ht).le
    exact div_le_div_of_nonneg_left (weight_pos ψ t).le (weight_pos ψ s) (hM s hs)

/-- From the configuration of largest weight the transition is exactly such a mixture. -/
theorem globalKernel_max (ψ : Config ι → ℂ) (q : Config ι → ℝ) (hq : ∑ s ∈ allSpins ι, q s = 1) (hpos : ∀ s, IsSpin s → 0 < q s)
    (s : Config ι) (hs : IsSpin s) (hmax : ∀ t, IsSpin t → weight ψ t ≤ weight ψ s) (t : Config ι) (ht : IsSpin t) :
    globalKernel ψ q s t = q t * (weight ψ t / weight ψ s) +
      if s = t then 1 - (∑ x ∈ allSpins ι, weight ψ x * q x) / weight ψ s else 0 := by
  have hw := weight_pos ψ s
  have hne : ∀ t, IsSpin t → s ≠ t → globalKernel ψ q s t = q t * (weight ψ t / weight ψ s) := fun t ht h => by
    rw [globalKernel_ne ψ q ht h, min_eq_left ((div_le_one hw).2 (hmax t ht))]
  by_cases h : s = t
  · subst h
    rw [if_pos rfl]
    have h1 := (globalKernel_stochastic ψ q hq hpos).row s ((mem_allSpins s).2 hs)
    rw [← Finset.add_sum_erase _ _ ((mem_allSpins s).2 hs)] at h1
    have h2 : ∑ t ∈ (allSpins ι).erase s, globalKernel ψ q s t = ∑ t ∈ (allSpins ι).erase s, weight ψ t * q t / weight ψ s := by
      refine Finset.sum_congr rfl fun t ht => ?_
      rw [Finset.mem_erase, mem_allSpins] at ht
      rw [hne t ht.2 (Ne.symm ht.1)]
      ring
    have h3 : (∑ x ∈ allSpins ι, weight ψ x * q x) / weight ψ s =
        q s * (weight ψ s / weight ψ s) + ∑ t ∈ (allSpins ι).erase s, weight ψ t * q t / weight ψ s := by
      rw [Finset.sum_div, ← Finset.add_sum_erase _ _ ((mem_allSpins s).2 hs)]
      ring
    rw [h3]
    linarith
  · rw [if_neg h, add_zero, hne t ht h]

theorem share_eq (v : Config ι → ℝ) (A : Set (Config ι)) :
    share v A = open Classical in ∑ t ∈ (allSpins ι).filter (fun t => t ∈ A), v t / ∑ t ∈ allSpins ι, v t := by
  unfold share
  rw [Finset.sum_div]

/-- **C152**, global proposals: after `n` sweeps the distribution of every chain differs from its limit (C68) by at most
`(1 - δ) ^ n`, where `δ` is the mean over the proposals of the squared amplitudes, divided by the largest one. -/
theorem C152_global (ψ : Config ι → ℂ) (q : Config ι → ℝ) (hq : ∑ s ∈ allSpins ι, q s = 1) (hpos : ∀ s, IsSpin s → 0 < q s)
    (M : ℝ) (hM : ∀ t, IsSpin t → ‖Complex.exp (ψ t)‖ ^ 2 ≤ M) (n : ℕ) (S : Fin C → Config ι) (hS : ∀ c, IsSpin (S c))
    (c : Fin C) (A : Set (Config ι)) :
    |chance (globalTransition ψ q) n S c A - share (fun t => ‖Complex.exp (ψ t)‖ ^ 2 * q t) A| ≤
      (1 - (∑ t ∈ allSpins ι, ‖Complex.exp (ψ t)‖ ^ 2 * q t) / M) ^ n := by
  classical
  have hst := globalKernel_stochastic ψ q hq hpos
  rw [chance_prod (globalTransition_eq ψ q) hst n S hS c A, share_eq]
  have hZ := sum_weight_pos ψ q hpos
  refine doeblin hst (global_stationary ψ q hq hpos) ?_ (fun t ht => ?_) (fun s hs t ht => ?_) _ (Finset.filter_subset _ _) n _
    ((mem_allSpins _).2 (hS c))
  · rw [← Finset.sum_div]
    exact div_self hZ.ne'
  · exact div_nonneg (mul_nonneg (weight_pos ψ t).le (hpos t ((mem_allSpins _).1 ht)).le) hZ.le
  · refine le_trans (le_of_eq ?_) (globalKernel_lower ψ q hpos hM s t ((mem_allSpins _).1 hs) ((mem_allSpins _).1 ht))
    have hMpos : M ≠ 0 := ((weight_pos ψ s).trans_le (hM s ((mem_allSpins _).1 hs))).ne'
    show (∑ t ∈ allSpins ι, weight ψ t * q t) / M * (weight ψ t * q t / ∑ t ∈ allSpins ι, weight ψ t * q t) = _
    have := hZ.ne'
    field_simp

open Classical in
/-- **C152**, global proposals, the bound is sharp: for a chain that starts in the configuration of largest amplitude the
difference is `(1 - δ) ^ n` times the difference at the start. -/
theorem C152_global_sharp (ψ : Config ι → ℂ) (q : Config ι → ℝ) (hq : ∑ s ∈ allSpins ι, q s = 1) (hpos : ∀ s, IsSpin s → 0 < q s)
    (n : ℕ) (S : Fin C → Config ι) (hS : ∀ c, IsSpin (S c)) (c : Fin C)
    (hmax : ∀ t, IsSpin t → ‖Complex.exp (ψ t)‖ ^ 2 ≤ ‖Complex.exp (ψ (S c))‖ ^ 2) (A : Set (Config ι)) :
    chance (globalTransition ψ q) n S c A - share (fun t => ‖Complex.exp (ψ t)‖ ^ 2 * q t) A =
      (1 - (∑ t ∈ allSpins ι, ‖Complex.exp (ψ t)‖ ^ 2 * q t) / ‖Complex.exp (ψ (S c))‖ ^ 2) ^ n *
        ((if S c ∈ A then 1 else 0) - share (fun t => ‖Complex.exp (ψ t)‖ ^ 2 * q t) A) := by
  have hst := globalKernel_stochastic ψ q hq hpos
  rw [chance_prod (globalTransition_eq ψ q) hst n S hS c A, share_eq]
  have hZ := sum_weight_pos ψ q hpos
  have hw := weight_pos ψ (S c)
  rw [doeblin_exact (δ := (∑ t ∈ allSpins ι, weight ψ t * q t) / weight ψ (S c)) (global_stationary ψ q hq hpos) (S c)
    ((mem_allSpins _).2 (hS c)) (fun t ht => ?_) _ (Finset.filter_subset _ _) n]
  · have : (S c ∈ (allSpins ι).filter fun t => t ∈ A) ↔ S c ∈ A := by
      rw [Finset.mem_filter, mem_allSpins]
      exact ⟨fun h => h.2, fun h => ⟨hS c, h⟩⟩
    simp only [this]
    exact add_sub_cancel_left _ _
  · rw [globalKernel_max ψ q hq hpos (S c) (hS c) hmax t ((mem_allSpins _).1 ht)]
    congr 1
    have h1 := hZ.ne'
    have h2 := hw.ne'
    field_simp

/-! ### The uniform sampler -/

theorem card_allSpins' : ((allSpins ι).card : ℝ) = 2 ^ Fintype.card ι := by
  unfold allSpins
  rw [Fintype.card_piFinset]
  simp

/-- Uniform moves are global proposals that are all equally probable. -/
theorem uniform_eq_global (ψ : Config ι → ℂ) (S T : Fin C → Config ι) :
    uniformTransition ψ S T = globalTransition ψ (fun _ => 1 / 2 ^ Fintype.card ι) S T := by
  rw [uniform_product, globalTransition_eq]
  refine Finset.prod_congr rfl fun c _ => ?_
  unfold symKernel kernel globalKernel
  rw [← Finset.mul_sum, Fintype.card_fun, Fintype.card_fin, Nat.cast_pow, Nat.cast_ofNat, mul_comm, mul_one_div]
  congr 1
  refine Finset.sum_bij (fun r _ => fun i => if r i = 0 then (-1 : ℤ) else 1) (fun r _ => ?_) (fun r _ r' _ h => ?_) (fun t ht => ?_)
    (fun r _ => rfl)
  · refine (mem_allSpins _).2 fun i => ?_
    split
    · exact Or.inr rfl
    · exact Or.inl rfl
  · funext i
    have h1 : (if r i = 0 then (-1 : ℤ) else 1) = if r' i = 0 then (-1 : ℤ) else 1 := congrFun h i
    by_cases hr : r i = 0 <;> by_cases hr' : r' i = 0
    · rw [hr, hr']
    · rw [if_pos hr, if_neg hr'] at h1
      exact absurd h1 (by decide)
    · rw [if_neg hr, if_pos hr'] at h1
      exact absurd h1 (by decide)
    · omega
  · obtain ⟨r, hr⟩ := uniform_hits t ((mem_allSpins t).1 ht)
    exact ⟨r, Finset.mem_univ r, hr⟩

theorem uniform_rate (ψ : Config ι → ℂ) (M : ℝ) :
    (∑ t ∈ allSpins ι, ‖Complex.exp (ψ t)‖ ^ 2 * (1 / 2 ^ Fintype.card ι)) / M =
      (∑ t ∈ allSpins ι, ‖Complex.exp (ψ t)‖ ^ 2) / (2 ^ Fintype.card ι * M) := by
  rw [← Finset.sum_mul, mul_one_div, div_div]

theorem uniform_share (ψ : Config ι → ℂ) (A : Set (Config ι)) :
    share (fun t => ‖Complex.exp (ψ t)‖ ^ 2 * (1 / 2 ^ Fintype.card ι)) A = share (fun t => ‖Complex.exp (ψ t)‖ ^ 2) A := by
  unfold share
  rw [← Finset.sum_mul, ← Finset.sum_mul, mul_div_mul_right]
  positivity

theorem uniform_sum : ∑ _s ∈ allSpins ι, (1 / 2 ^ Fintype.card ι : ℝ) = 1 := by
  rw [Finset.sum_const, nsmul_eq_mul, card_allSpins']
  field_simp

/-- **C152**, uniform moves: after `n` sweeps the distribution of every chain differs from the squared amplitudes by at most
`(1 - δ) ^ n`, where `δ` is the mean squared amplitude of all configurations, divided by the largest one. -/
theorem C152_uniform (ψ : Config ι → ℂ) (M : ℝ) (hM : ∀ t, IsSpin t → ‖Complex.exp (ψ t)‖ ^ 2 ≤ M) (n : ℕ)
    (S : Fin C → Config ι) (hS : ∀ c, IsSpin (S c)) (c : Fin C) (A : Set (Config ι)) :
    |chance (uniformTransition ψ) n S c A - share (fun t => ‖Complex.exp (ψ t)‖ ^ 2) A| ≤
      (1 - (∑ t ∈ allSpins ι, ‖Complex.exp (ψ t)‖ ^ 2) / (2 ^ Fintype.card ι * M)) ^ n := by
  have h := C152_global ψ (fun _ => 1 / 2 ^ Fintype.card ι) uniform_sum (fun _ _ => by positivity) M hM n S hS c A
  rw [uniform_rate, uniform_share] at h
  have e : chance (uniformTransition ψ) n S c A = chance (globalTransition ψ fun _ => 1 / 2 ^ Fintype.card ι) n S c A := by
    rw [show (uniformTransition ψ : (Fin C → Config ι) → (Fin C → Config ι) → ℝ) = globalTransition ψ fun _ => 1 / 2 ^ Fintype.card ι from
      funext fun S => funext fun T => uniform_eq_global ψ S T]
  rw [e]
  exact h

open Classical in
/-- **C152**, uniform moves, the bound is sharp. -/
theorem C152_uniform_sharp (ψ : Config ι → ℂ) (n : ℕ) (S : Fin C → Config ι) (hS : ∀ c, IsSpin (S c)) (c : Fin C)
    (hmax : ∀ t, IsSpin t → ‖Complex.exp (ψ t)‖ ^ 2 ≤ ‖Complex.exp (ψ (S c))‖ ^ 2) (A : Set (Config ι)) :
    chance (uniformTransition ψ) n S c A - share (fun t => ‖Complex.exp (ψ t)‖ ^ 2) A =
      (1 - (∑ t ∈ allSpins ι, ‖Complex.exp (ψ t)‖ ^ 2) / (2 ^ Fintype.card ι * ‖Complex.exp (ψ (S c))‖ ^ 2)) ^ n *
        ((if S c ∈ A then 1 else 0) - share (fun t => ‖Complex.exp (ψ t)‖ ^ 2) A) := by
  have h := C152_global_sharp ψ (fun _ => 1 / 2 ^ Fintype.card ι) uniform_sum (fun _ _ => by positivity) n S hS c hmax A
  rw [uniform_rate, uniform_share] at h
  have e : chance (uniformTransition ψ) n S c A = chance (globalTransition ψ fun _ => 1 / 2 ^ Fintype.card ι) n S c A := by
    rw [show (uniformTransition ψ : (Fin C → Config ι) → (Fin C → Config ι) → ℝ) = globalTransition ψ fun _ => 1 / 2 ^ Fintype.card ι from
      funext fun S => funext fun T => uniform_eq_global ψ S T]
  rw [e]
  exact h

/-- **C152**, how many sweeps are enough: `log (1 / ε) / δ` sweeps bring every chain within `ε` of the squared amplitudes. -/
theorem C152_enough (ψ : Config ι → ℂ) (M : ℝ) (hM : ∀ t, IsSpin t → ‖Complex.exp (ψ t)‖ ^ 2 ≤ M) (ε : ℝ) (hε : 0 < ε) (n : ℕ)
    (hn : Real.log (1 / ε) * (2 ^ Fintype.card ι * M) ≤ n * ∑ t ∈ allSpins ι, ‖Complex.exp (ψ t)‖ ^ 2)
    (S : Fin C → Config ι) (hS : ∀ c, IsSpin (S c)) (c : Fin C) (A : Set (Config ι)) :
    |chance (uniformTransition ψ) n S c A - share (fun t => ‖Complex.exp (ψ t)‖ ^ 2) A| ≤ ε := by
  refine (C152_uniform ψ M hM n S hS c A).trans ?_
  set W := ∑ t ∈ allSpins ι, ‖Complex.exp (ψ t)‖ ^ 2 with hW
  have hMpos : 0 < M := lt_of_lt_of_le (weight_pos ψ (S c)) (hM _ (hS c))
  have hN : (0 : ℝ) < 2 ^ Fintype.card ι * M := by positivity
  have hle : W / (2 ^ Fintype.card ι * M) ≤ 1 := by
    rw [div_le_one hN, ← card_allSpins', hW]
    have := Finset.sum_le_card_nsmul (allSpins ι) (fun t => ‖Complex.exp (ψ t)‖ ^ 2) M fun t ht => hM t ((mem_allSpins _).1 ht)
    rwa [nsmul_eq_mul] at this
  set δ := W / (2 ^ Fintype.card ι * M) with hδ
  have h1 : (1 - δ) ^ n ≤ Real.exp (-δ) ^ n :=
    pow_le_pow_left₀ (by linarith) (by have := Real.add_one_le_exp (-δ); linarith) n
  refine h1.trans ?_
  rw [← Real.exp_nat_mul]
  have h2 : Real.log (1 / ε) ≤ n * δ := by
    rw [hδ, ← mul_div_assoc, le_div_iff₀ hN]
    exact hn
  rw [one_div, Real.log_inv] at h2
  calc Real.exp (n * -δ) ≤ Real.exp (Real.log ε) := Real.exp_le_exp.2 (by linarith)
    _ = ε := Real.exp_log hε

/-- The hypotheses can be met by a wave function that is not constant: one spin, twice as large an amplitude up as down. -/
example : ∃ (ψ : Config (Fin 1) → ℂ) (M : ℝ), (∀ t, IsSpin t → ‖Complex.exp (ψ t)‖ ^ 2 ≤ M) ∧
    ∃ s t, IsSpin s ∧ IsSpin t ∧ ‖Complex.exp (ψ s)‖ ^ 2 ≠ ‖Complex.exp (ψ t)‖ ^ 2 := by
  refine ⟨fun s => if s 0 = 1 then Real.log 2 else 0, 4, fun t _ => ?_, fun _ => 1, fun _ => -1, fun _ => Or.inl rfl,
    fun _ => Or.inr rfl, ?_⟩
  · dsimp only
    split
    · rw [← Complex.ofReal_exp, Real.exp_log two_pos]; norm_num
    · simp
  · have : ¬ ((-1 : ℤ) = 1) := by decide
    simp only [if_true, this, if_false, ← Complex.ofReal_exp, Real.exp_log two_pos]
    norm_num

end Verif.Metropolis
