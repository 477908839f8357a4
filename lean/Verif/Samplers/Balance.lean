import Verif.Samplers.MetropolisRun
import Verif.Autoregressive.Props
import Mathlib.MeasureTheory.Measure.Real
import Mathlib.MeasureTheory.Measure.Typeclasses.Probability

/-!
# Transition probabilities of Metropolis-Hastings sweeps
-/
namespace Verif.Metropolis

open Verif.Operators MeasureTheory Verif.Autoregressive

variable {ι : Type} {C : Nat}

/-! ### Specification -/

/-- Squared amplitude. -/
noncomputable def weight (ψ : Config ι → ℂ) (s : Config ι) : ℝ := ‖Complex.exp (ψ s)‖ ^ 2

/-- Probability over independent uniform numbers, one per chain (`numpy.random.uniform(size=chains)`). -/
noncomputable def prU (C : Nat) (A : Set (Fin C → ℝ)) : ℝ := (Measure.pi fun _ : Fin C => unif).real A

/-! ### One chain -/

/-- Probability that a chain in configuration `s` with candidate `s'` accepted with probability `ρ` is in
`t` afterwards. -/
noncomputable def stepProb (s s' : Config ι) (ρ : ℝ) (t : Config ι) : ℝ :=
  open Classical in (if s' = t then ρ else 0) + if s = t then 1 - ρ else 0

theorem unif_real_lt (ρ : ℝ) (h0 : 0 ≤ ρ) (h1 : ρ ≤ 1) : unif.real {u | ρ > u} = ρ := by
  rw [Measure.real, unif_lt ρ h0 h1, ENNReal.toReal_ofReal h0]

theorem unif_real_ge (ρ : ℝ) (h0 : 0 ≤ ρ) (h1 : ρ ≤ 1) : unif.real {u | ¬ ρ > u} = 1 - ρ := by
  rw [Measure.real, unif_ge ρ h0 h1, ENNReal.toReal_ofReal (by linarith)]

theorem unif_real_min (r : ℝ) (h0 : 0 ≤ r) : unif.real {u | r > u} = min r 1 := by
  rcases le_total r 1 with h | h
  · rw [min_eq_left h, unif_real_lt r h0 h]
  · rw [min_eq_right h, Measure.real, unif, Measure.restrict_apply' measurableSet_Ico]
    have : {u : ℝ | r > u} ∩ Set.Ico 0 1 = Set.Ico 0 1 := by
      ext u; simp only [Set.mem_inter_iff, Set.mem_setOf_eq, Set.mem_Ico]
      constructor
      · exact fun h => h.2
      · exact fun h' => ⟨by linarith [h'.2], h'⟩
    rw [this]; simp

theorem measurable_gt (r : ℝ) : MeasurableSet {u : ℝ | r > u} := measurableSet_Iio

theorem unif_real_not_min (r : ℝ) (h0 : 0 ≤ r) : unif.real {u | ¬ r > u} = 1 - min r 1 := by
  have : {u : ℝ | ¬ r > u} = {u | r > u}ᶜ := rfl
  rw [this, probReal_compl_eq_one_sub (measurable_gt r), unif_real_min r h0]

theorem step_real (s s' t : Config ι) (r : ℝ) (h0 : 0 ≤ r) :
    unif.real {v | (if decide (r > v) = true then s' else s) = t} = stepProb s s' (min r 1) t := by
  classical
  unfold stepProb
  by_cases h1 : s' = t
  · by_cases h2 : s = t
    · have : {v : ℝ | (if decide (r > v) = true then s' else s) = t} = Set.univ := by
        ext v; simp only [Set.mem_setOf_eq, Set.mem_univ, iff_true]; split <;> assumption
      rw [this, probReal_univ, if_pos h1, if_pos h2]; ring
    · have : {v : ℝ | (if decide (r > v) = true then s' else s) = t} = {v | r > v} := by
        ext v; simp only [Set.mem_setOf_eq, decide_eq_true_eq]
        by_cases h : r > v
        · simp [h, h1]
        · rw [if_neg h]; exact ⟨fun h' => absurd h' h2, fun h' => absurd h' h⟩
      rw [this, unif_real_min r h0, if_pos h1, if_neg h2, add_zero]
  · by_cases h2 : s = t
    · have : {v : ℝ | (if decide (r > v) = true then s' else s) = t} = {v | ¬ r > v} := by
        ext v; simp only [Set.mem_setOf_eq, decide_eq_true_eq]
        by_cases h : r > v
        · rw [if_pos h]; exact ⟨fun h' => absurd h' h1, fun h' => absurd h h'⟩
        · rw [if_neg h]; exact ⟨fun _ => h, fun _ => h2⟩
      rw [this, unif_real_not_min r h0, if_neg h1, if_pos h2, zero_add]
    · have : {v : ℝ | (if decide (r > v) = true then s' else s) = t} = ∅ := by
        ext v; simp only [Set.mem_setOf_eq, Set.mem_empty_iff_false, iff_false]; split <;> assumption
      rw [this, measureReal_empty, if_neg h1, if_neg h2, add_zero]

/-- The probabilities add up to one. -/
theorem stepProb_sum (F : Finset (Config ι)) {s s' : Config ι} (hs : s ∈ F) (hs' : s' ∈ F) (ρ : ℝ) :
    ∑ t ∈ F, stepProb s s' ρ t = 1 := by
  classical
  unfold stepProb
  rw [Finset.sum_add_distrib, Finset.sum_ite_eq, if_pos hs', Finset.sum_ite_eq, if_pos hs]
  ring

/-- All chains together: the uniform numbers are independent. -/
theorem acceptStep_real (ratio : Fin C → ℝ) (hr : ∀ c, 0 ≤ ratio c) (cand : Fin C → Config ι) (candValues : Fin C → ℂ)
    (st : State ι C) (T : Fin C → Config ι) :
    prU C {u | (acceptStep ratio cand candValues u st).1.sample = T} =
      ∏ c, stepProb (st.sample c) (cand c) (min (ratio c) 1) (T c) := by
  have hset : {u : Fin C → ℝ | (acceptStep ratio cand candValues u st).1.sample = T} =
      Set.pi Set.univ fun c => {v | (if decide (ratio c > v) = true then cand c else st.sample c) = T c} := by
    ext u
    simp only [Set.mem_setOf_eq, Set.mem_pi, Set.mem_univ, true_implies]
    exact funext_iff
  rw [prU, Measure.real, hset, Measure.pi_pi, ENNReal.toReal_prod]
  exact Finset.prod_congr rfl fun c _ => step_real _ _ _ _ (hr c)

/-! ### Kernels -/

/-- One-chain transition probability: choose one of the finitely many candidates uniformly, then accept. -/
noncomputable def kernel {κ : Config ι → Type} [∀ s, Fintype (κ s)] (cand : (s : Config ι) → κ s → Config ι)
    (ratio : (s : Config ι) → κ s → ℝ) (s t : Config ι) : ℝ :=
  (∑ k : κ s, stepProb s (cand s k) (min (ratio s k) 1) t) / (Fintype.card (κ s) : ℝ)

section kernel
variable {κ : Config ι → Type} [∀ s, Fintype (κ s)] (cand : (s : Config ι) → κ s → Config ι)
  (ratio : (s : Config ι) → κ s → ℝ)

open Classical in
/-- Detailed balance for one chain, if the numbers of choices leading from `s` to `t` and back agree and
the acceptance ratio is the ratio of weights, corrected for the numbers of choices. -/
theorem kernel_balance (π : Config ι → ℝ) (hπ : ∀ s, 0 < π s) (s t : Config ι)
    (hsym : (Finset.univ.filter fun k : κ s => cand s k = t).card = (Finset.univ.filter fun k : κ t => cand t k = s).card)
    (hs : ∀ k, cand s k = t → ratio s k = π t * Fintype.card (κ s) / (π s * Fintype.card (κ t)))
    (ht : ∀ k, cand t k = s → ratio t k = π s * Fintype.card (κ t) / (π t * Fintype.card (κ s))) :
    π s * kernel cand ratio s t = π t * kernel cand ratio t s := by
  by_cases hst : s = t
  · subst hst; rfl
  have form : ∀ (a b : Config ι), a ≠ b → ∀ ρ : ℝ, (∀ k, cand a k = b → min (ratio a k) 1 = ρ) →
      (∑ k : κ a, stepProb a (cand a k) (min (ratio a k) 1) b) =
        ((Finset.univ.filter fun k : κ a => cand a k = b).card : ℝ) * ρ := by
    intro a b hab ρ hρ
    rw [← nsmul_eq_mul, ← Finset.sum_const, Finset.sum_filter]
    refine Finset.sum_congr rfl fun k _ => ?_
    unfold stepProb
    rw [if_neg hab, add_zero]
    by_cases h : cand a k = b
    · rw [if_pos h, if_pos h, hρ k h]
    · rw [if_neg h, if_neg h]
  unfold kernel
  by_cases hz : (Finset.univ.filter fun k : κ s => cand s k = t).card = 0
  · have hz' := hsym ▸ hz
    have e1 := form s t hst 0 fun k hk => absurd hk (by
      have := Finset.card_eq_zero.1 hz
      exact fun h => Finset.notMem_empty k (this ▸ Finset.mem_filter.2 ⟨Finset.mem_univ _, h⟩))
    have e2 := form t s (Ne.symm hst) 0 fun k hk => absurd hk (by
      have := Finset.card_eq_zero.1 hz'
      exact fun h => Finset.notMem_empty k (this ▸ Finset.mem_filter.2 ⟨Finset.mem_univ _, h⟩))
    rw [e1, e2]; simp
  · have hns : 0 < Fintype.card (κ s) := by
      obtain ⟨k, hk⟩ := Finset.card_pos.1 (Nat.pos_of_ne_zero hz)
      exact Fintype.card_pos_iff.2 ⟨k⟩
    have hnt : 0 < Fintype.card (κ t) := by
      obtain ⟨k, hk⟩ := Finset.card_pos.1 (Nat.pos_of_ne_zero (hsym ▸ hz))
      exact Fintype.card_pos_iff.2 ⟨k⟩
    have hs' : (0 : ℝ) < Fintype.card (κ s) := by exact_mod_cast hns
    have ht' : (0 : ℝ) < Fintype.card (κ t) := by exact_mod_cast hnt
    rw [form s t hst _ fun k hk => by rw [hs k hk], form t s (Ne.symm hst) _ fun k hk => by rw [ht k hk], hsym]
    have a := hπ s
    have b := hπ t
    have key : ∀ x y m n : ℝ, 0 < x → 0 < y → 0 < m → 0 < n → x * min (y * m / (x * n)) 1 / m = min (y / n) (x / m) := by
      intro x y m n hx hy hm hn
      rw [mul_min_of_nonneg _ _ hx.le, ← min_div_div_right hm.le]
      congr 1
      · field_simp
      · rw [mul_one]
    have k1 := key (π s) (π t) _ _ a b hs' ht'
    have k2 := key (π t) (π s) _ _ b a ht' hs'
    calc _ = ((Finset.univ.filter fun k : κ t => cand t k = s).card : ℝ) *
          (π s * min (π t * Fintype.card (κ s) / (π s * Fintype.card (κ t))) 1 / Fintype.card (κ s)) := by ring
      _ = ((Finset.univ.filter fun k : κ t => cand t k = s).card : ℝ) *
          (π t * min (π s * Fintype.card (κ t) / (π t * Fintype.card (κ s))) 1 / Fintype.card (κ t)) := by
            rw [k1, k2, min_comm]
      _ = _ := by ring

/-- The one-chain probabilities add up to one over any finite set that contains `s` and its candidates. -/
theorem kernel_sum (F : Finset (Config ι)) (s : Config ι) (hs : s ∈ F) (hc : ∀ k, cand s k ∈ F)
    (hne : 0 < Fintype.card (κ s)) : ∑ t ∈ F, kernel cand ratio s t = 1 := by
  classical
  unfold kernel
  rw [← Finset.sum_div, Finset.sum_comm]
  have : ∀ k : κ s, ∑ t ∈ F, stepProb s (cand s k) (min (ratio s k) 1) t = 1 := by
    intro k
    unfold stepProb
    rw [Finset.sum_add_distrib, Finset.sum_ite_eq, if_pos (hc k), Finset.sum_ite_eq, if_pos hs]
    ring
  simp only [this, Finset.sum_const, Finset.card_univ, nsmul_eq_mul, mul_one]
  exact div_self (by exact_mod_cast hne.ne')

/-- Independent choices of the chains. -/
theorem kernel_prod (S T : Fin C → Config ι) :
    (∑ k : (c : Fin C) → κ (S c), ∏ c, stepProb (S c) (cand (S c) (k c)) (min (ratio (S c) (k c)) 1) (T c)) /
        ∏ c, (Fintype.card (κ (S c)) : ℝ) = ∏ c, kernel cand ratio (S c) (T c) := by
  unfold kernel
  rw [Finset.prod_div_distrib]
  congr 1
  rw [Finset.prod_univ_sum, Fintype.piFinset_univ]

end kernel

/-- The chains together: detailed balance and stationarity follow from the one-chain statements. -/
theorem prod_balance {K : Config ι → Config ι → ℝ} {π : Config ι → ℝ} {S T : Fin C → Config ι}
    (h : ∀ c, π (S c) * K (S c) (T c) = π (T c) * K (T c) (S c)) :
    (∏ c, π (S c)) * ∏ c, K (S c) (T c) = (∏ c, π (T c)) * ∏ c, K (T c) (S c) := by
  rw [← Finset.prod_mul_distrib, ← Finset.prod_mul_distrib]
  exact Finset.prod_congr rfl fun c _ => h c

theorem prod_stationary {K : Config ι → Config ι → ℝ} {π : Config ι → ℝ} (F : Finset (Config ι))
    (hb : ∀ s ∈ F, ∀ t ∈ F, π s * K s t = π t * K t s) (hsum : ∀ s ∈ F, ∑ t ∈ F, K s t = 1)
    (T : Fin C → Config ι) (hT : ∀ c, T c ∈ F) :
    ∑ S ∈ Fintype.piFinset fun _ : Fin C => F, (∏ c, π (S c)) * ∏ c, K (S c) (T c) = ∏ c, π (T c) := by
  have : ∀ S ∈ Fintype.piFinset fun _ : Fin C => F, (∏ c, π (S c)) * ∏ c, K (S c) (T c) =
      ∏ c, π (T c) * K (T c) (S c) := by
    intro S hS
    rw [← Finset.prod_mul_distrib]
    exact Finset.prod_congr rfl fun c _ => hb _ (Fintype.mem_piFinset.1 hS c) _ (hT c)
  rw [Finset.sum_congr rfl this,
    ← Finset.prod_univ_sum (fun _ : Fin C => F) (fun c s => π (T c) * K (T c) s)]
  refine Finset.prod_congr rfl fun c _ => ?_
  rw [← Finset.mul_sum, hsum _ (hT c), mul_one]

theorem weight_pos (ψ : Config ι → ℂ) (s : Config ι) : 0 < weight ψ s := by
  unfold weight
  have : Complex.exp (ψ s) ≠ 0 := Complex.exp_ne_zero _
  positivity

theorem weight_eq (ψ : Config ι → ℂ) (s : Config ι) : weight ψ s = Real.exp ((ψ s).re * 2) := by
  unfold weight
  rw [Complex.norm_exp, ← Real.exp_nat_mul]
  congr 1
  push_cast; ring

/-- The ratio used by the symmetric samplers. -/
theorem ratio_symmetric (ψ : Config ι → ℂ) (s t : Config ι) :
    min (Real.exp (min (((ψ t).re - (ψ s).re) * 2) 0)) 1 = min (weight ψ t / weight ψ s) 1 := by
  rw [weight_eq, weight_eq, ← Real.exp_sub, ← sub_mul]
  rcases le_total (((ψ t).re - (ψ s).re) * 2) 0 with h | h
  · rw [min_eq_left h]
  · rw [min_eq_right h, Real.exp_zero, min_self, min_eq_right (Real.one_le_exp h)]

end Verif.Metropolis
