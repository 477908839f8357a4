import Verif.Energy.Unbiased
import Mathlib.Probability.Moments.SubGaussian
import Mathlib.Probability.ProbabilityMassFunction.Integrals

/-!
# C153: large errors of the reported energy are exponentially rare

Batches of independent samples of the squared amplitudes, as the autoregressive and the exact samplers draw them.
-/
namespace Verif.Energy

open Verif.Operators MeasureTheory ProbabilityTheory

/-! ### Hoeffding's inequality for finite distributions -/

section

variable {α : Type} {S : Finset α} {p : α → ℝ}

theorem expect_mono (hp : ∀ s ∈ S, 0 ≤ p s) {B : Nat} (F G : (Fin B → α) → ℝ) (h : ∀ x, (∀ b, x b ∈ S) → F x ≤ G x) :
    expect S p B F ≤ expect S p B G := by
  unfold expect
  refine Finset.sum_le_sum fun x hx => ?_
  have hx' : ∀ b, x b ∈ S := fun b => Fintype.mem_piFinset.1 hx b
  exact mul_le_mul_of_nonneg_left (h x hx') (Finset.prod_nonneg fun b _ => hp _ (hx' b))

/-- Hoeffding's lemma. -/
theorem mgf_bound (hp : ∀ s ∈ S, 0 ≤ p s) (h1 : ∑ s ∈ S, p s = 1) (f : α → ℝ) {a b : ℝ} (hf : ∀ s ∈ S, a ≤ f s ∧ f s ≤ b) (t : ℝ) :
    ∑ s ∈ S, p s * Real.exp (t * (f s - ∑ s ∈ S, p s * f s)) ≤ Real.exp (t ^ 2 * (b - a) ^ 2 / 8) := by
  let _ : MeasurableSpace {s // s ∈ S} := ⊤
  have hsum : ∀ g : α → ℝ, ∑ s ∈ S, p s * g s = ∑ s : {s // s ∈ S}, p s * g s := fun g => (Finset.sum_coe_sort S fun s => p s * g s).symm
  have htot : ∑ s : {s // s ∈ S}, ENNReal.ofReal (p s) = 1 := by
    rw [← ENNReal.ofReal_sum_of_nonneg (s := Finset.univ) (f := fun s : {s // s ∈ S} => p s) fun s _ => hp s s.2, Finset.sum_coe_sort S p, h1, ENNReal.ofReal_one]
  set P : PMF {s // s ∈ S} := PMF.ofFintype (fun s => ENNReal.ofReal (p s)) htot with hP
  have hint : ∀ g : {s // s ∈ S} → ℝ, ∫ s, g s ∂P.toMeasure = ∑ s : {s // s ∈ S}, p s * g s := by
    intro g
    rw [PMF.integral_eq_sum]
    refine Finset.sum_congr rfl fun s _ => ?_
    rw [hP, PMF.ofFintype_apply, ENNReal.toReal_ofReal (hp s s.2), smul_eq_mul]
  have hm : Measurable fun s : {s // s ∈ S} => f s := fun _ _ => trivial
  have hh := (hasSubgaussianMGF_of_mem_Icc (μ := P.toMeasure) (X := fun s : {s // s ∈ S} => f s) (a := a) (b := b) hm.aemeasurable
    (Filter.Eventually.of_forall fun s => hf s s.2)).mgf_le t
  unfold mgf at hh
  rw [hint, hint, ← hsum f] at hh
  rw [hsum fun s => Real.exp (t * (f s - ∑ s ∈ S, p s * f s))]
  refine hh.trans (le_of_eq ?_)
  congr 1
  simp only [NNReal.coe_pow, NNReal.coe_div, coe_nnnorm, NNReal.coe_ofNat, Real.norm_eq_abs, div_pow, sq_abs]
  ring

open Classical in
theorem tail_bound (hp : ∀ s ∈ S, 0 ≤ p s) (h1 : ∑ s ∈ S, p s = 1) (f : α → ℝ) {a b : ℝ} (hf : ∀ s ∈ S, a ≤ f s ∧ f s ≤ b)
    (hab : a < b) {B : Nat} (hB : 0 < B) {ε : ℝ} (hε : 0 ≤ ε) :
    expect S p B (fun x => if ε ≤ (∑ i, f (x i)) / B - ∑ s ∈ S, p s * f s then 1 else 0) ≤
      Real.exp (-(2 * B * ε ^ 2) / (b - a) ^ 2) := by
  set μ := ∑ s ∈ S, p s * f s with hμ
  have hD : 0 < (b - a) ^ 2 := pow_pos (sub_pos.2 hab) 2
  set t := 4 * ε / (b - a) ^ 2 with ht
  have ht0 : 0 ≤ t := by positivity
  have hB' : (0 : ℝ) < B := by exact_mod_cast hB
  have hle : ∀ x : Fin B → α, (if ε ≤ (∑ i, f (x i)) / B - μ then (1 : ℝ) else 0) ≤
      Real.exp (-(t * B * ε)) * ∏ i, Real.exp (t * (f (x i) - μ)) := by
    intro x
    rw [← Real.exp_sum, ← Real.exp_add]
    split
    · rename_i h
      rw [Real.one_le_exp_iff, ← Finset.mul_sum, Finset.sum_sub_distrib, Finset.sum_const, Finset.card_univ, Fintype.card_fin, nsmul_eq_mul]
      have h2 : B * ε ≤ ∑ i, f (x i) - B * μ := by
        have := mul_le_mul_of_nonneg_left h hB'.le
        rw [mul_sub, mul_div_cancel₀ _ hB'.ne'] at this
        exact this
      nlinarith
    · exact (Real.exp_pos _).le
  refine (expect_mono hp _ _ fun x _ => hle x).trans ?_
  rw [expect_mul, expect_prod S p fun _ s => Real.exp (t * (f s - μ)), Finset.prod_const, Finset.card_univ, Fintype.card_fin]
  have h3 := pow_le_pow_left₀ (Finset.sum_nonneg fun s hs => mul_nonneg (hp s hs) (Real.exp_pos _).le) (mgf_bound hp h1 f hf t) B
  refine (mul_le_mul_of_nonneg_left h3 (Real.exp_pos _).le).trans (le_of_eq ?_)
  rw [← Real.exp_nat_mul, ← Real.exp_add]
  congr 1
  rw [ht]
  field_simp
  ring

open Classical in
theorem two_tails (hp : ∀ s ∈ S, 0 ≤ p s) (h1 : ∑ s ∈ S, p s = 1) (f : α → ℝ) {a b : ℝ} (hf : ∀ s ∈ S, a ≤ f s ∧ f s ≤ b)
    {B : Nat} (hB : 0 < B) {ε : ℝ} (hε : 0 ≤ ε) :
    expect S p B (fun x => if ε ≤ |(∑ i, f (x i)) / B - ∑ s ∈ S, p s * f s| then 1 else 0) ≤
      2 * Real.exp (-(2 * B * ε ^ 2) / (b - a) ^ 2) := by
  by_cases hab : a < b
  · set μ := ∑ s ∈ S, p s * f s with hμ
    have h2 := tail_bound hp h1 f hf hab hB hε
    have h3 := tail_bound hp h1 (fun s => -f s) (a := -b) (b := -a)
      (fun s hs => ⟨neg_le_neg (hf s hs).2, neg_le_neg (hf s hs).1⟩) (neg_lt_neg hab) hB hε
    have e : -a - -b = b - a := by ring
    rw [e] at h3
    refine (expect_mono hp _ (fun x => (if ε ≤ (∑ i, f (x i)) / B - μ then (1 : ℝ) else 0) +
      if ε ≤ (∑ i, -f (x i)) / B - ∑ s ∈ S, p s * -f s then (1 : ℝ) else 0) fun x _ => ?_).trans ?_
    · have hneg : (∑ i, -f (x i)) / B - ∑ s ∈ S, p s * -f s = -((∑ i, f (x i)) / B - μ) := by
        simp only [mul_neg, Finset.sum_neg_distrib, hμ]
        ring
      rw [hneg]
      by_cases h : ε ≤ |(∑ i, f (x i)) / B - μ|
      · rw [if_pos h]
        rcases le_abs.1 h with h | h
        · rw [if_pos h]; split <;> norm_num
        · rw [if_pos h]; split <;> norm_num
      · rw [if_neg h]; split <;> split <;> norm_num
    · rw [expect_add]
      linarith
  · have hone : expect S p B (fun _ => (1 : ℝ)) = 1 := by
      have := expect_prod (B := B) S p fun _ _ => (1 : ℝ)
      simp only [Finset.prod_const_one, mul_one, h1] at this
      exact this
    refine (expect_mono hp _ (fun _ => (1 : ℝ)) fun x _ => by split <;> norm_num).trans ?_
    rw [hone]
    by_cases hS : S.Nonempty
    · obtain ⟨s, hs⟩ := hS
      have hba : b - a = 0 := by linarith [hf s hs, (hf s hs).1, (hf s hs).2, not_lt.1 hab]
      rw [hba]
      simp
    · rw [Finset.not_nonempty_iff_eq_empty.1 hS] at h1
      simp at h1

end

/-! ### The reported energy -/

variable {ι : Type} [DecidableEq ι] [Fintype ι]

open Classical in
/-- What C153 demands of an estimator: whenever the real parts of the local energies lie between `a` and `b`, the
probability, over batches of `B` independent samples of the squared amplitudes, that the reported energy is off by `ε` or
more is at most `2 exp (-2 B ε² / (b - a)²)`. -/
def RarelyFar (H : Wave ι → Wave ι) (est : (B : Nat) → (Config ι → ℂ) → (Fin B → Config ι) → Option (ℂ × ℝ × List ℂ)) : Prop :=
  ∀ (B : Nat), 0 < B → ∀ logψ : Config ι → ℂ, ∃ energy : (Fin B → Config ι) → ℂ,
    (∀ sample, (∀ b, IsSpin (sample b)) → ∃ var lv, est B logψ sample = some (energy sample, var, lv)) ∧
    ∀ a b : ℝ, (∀ s, IsSpin s → a ≤ (localEnergy H logψ s).re ∧ (localEnergy H logψ s).re ≤ b) → ∀ ε : ℝ, 0 ≤ ε →
      expect (allSpins ι) (born logψ) B
        (fun x => if ε ≤ |(energy x).re - (rayleigh H fun s => Complex.exp (logψ s)).re| then 1 else 0) ≤
        2 * Real.exp (-(2 * B * ε ^ 2) / (b - a) ^ 2)

theorem rarelyFar_of {H : Wave ι → Wave ι} {R : Nat} (answer : (B : Nat) → (Fin B → Config ι) → Answer (Config ι) R B)
    (hE : ∀ B (sample : Fin B → Config ι), (∀ b, IsSpin (sample b)) → ∀ logψ,
      LocalEnergies H sample logψ (estimate logψ (answer B sample))) :
    RarelyFar H fun B logψ sample => estimate logψ (answer B sample) := by
  classical
  intro B hB logψ
  have hEre : (rayleigh H fun s => Complex.exp (logψ s)).re = ∑ s ∈ allSpins ι, born logψ s * (localEnergy H logψ s).re := by
    rw [rayleigh_born, Complex.re_sum]
    exact Finset.sum_congr rfl fun s _ => Complex.re_ofReal_mul _ _
  refine ⟨fun x => (∑ b, localEnergy H logψ (x b)) / B, fun sample hs => ?_, fun a b hab ε hε => ?_⟩
  · obtain ⟨v, hv⟩ := (hE B sample hs logψ).values
    exact ⟨v, _, hv⟩
  · have hre : ∀ x : Fin B → Config ι, ((∑ b, localEnergy H logψ (x b)) / (B : ℂ)).re = (∑ b, (localEnergy H logψ (x b)).re) / B := by
      intro x
      rw [← Complex.ofReal_natCast, Complex.div_ofReal_re, Complex.re_sum]
    have := two_tails (S := allSpins ι) (p := born logψ) (fun s _ => born_nonneg logψ s) (born_sum logψ)
      (fun s => (localEnergy H logψ s).re) (a := a) (b := b) (fun s hs => hab s ((mem_allSpins s).1 hs)) hB hε
    simp only [hre, hEre]
    convert this

/-- C153 for the Ising model on chains. -/
theorem C153_ising_chain (n : Nat) (h j : ℝ) (pbc : Bool) :
    RarelyFar (tfim (chainBonds n pbc) h j) fun B logψ sample =>
      estimate logψ (Answer.ofRows (n + 1) (isingFindConn1 (.float h) j pbc sample)
        fun b => by rw [isingFindConn1_eq]; simp) :=
  rarelyFar_of _ fun _ sample hs logψ => C18_ising_chain h j pbc sample hs logψ

/-- C153 for the Ising model on grids. -/
theorem C153_ising_grid (n m : Nat) (h j : ℝ) (pbc : Bool) :
    RarelyFar (tfim (gridBonds n m pbc) h j) fun B logψ sample =>
      estimate logψ (Answer.ofRows (n * m + 1) (isingFindConn2 (.float h) j pbc sample)
        fun b => by rw [isingFindConn2_eq]; simp [length_gridSites]) :=
  rarelyFar_of _ fun _ sample hs logψ => C18_ising_grid h j pbc sample hs logψ

/-- C153 for the Heisenberg model on grids, after any history of earlier calls of the operator. -/
theorem C153_heisenberg_grid (n m : Nat) (rot pbc : Bool) (history : List (Call n m)) :
    RarelyFar (heisenberg (gridBonds n m pbc) (if rot then -1 else 1)) fun B logψ sample =>
      estimate logψ (Answer.ofRows (n * m * 2 + 1) (((HeisOp.new2 n m rot pbc).run history).findConn B sample).2
        fun b => by rw [answer2]; exact length_heisRows _ _ _ (Or.inl rfl) _) :=
  rarelyFar_of _ fun B sample hs logψ => C18_heisenberg_grid rot pbc history B sample hs logψ

/-- C153 for the Heisenberg model on chains, after any history of earlier calls of the operator. -/
theorem C153_heisenberg_chain (n : Nat) (rot pbc : Bool) (history : List (Call n 1)) :
    RarelyFar (heisenberg (chainBonds' n pbc) (if rot then -1 else 1)) fun B logψ sample =>
      estimate logψ (Answer.ofRows (n + 1) (((HeisOp.new1 n rot pbc).run history).findConn1 B sample).2
        fun b => by
          rw [(Exact.rowsOf_heisenberg_chain n rot pbc history).eq]
          exact (Exact.rowsOf_heisenberg_chain n rot pbc history).length _) :=
  rarelyFar_of _ fun B sample hs logψ => C18_heisenberg_chain rot pbc history B sample hs logψ

open Classical in
/-- C153 as a recipe: `(b - a)² / (2 ε²) · log (2 / δ)` samples bring the probability of an error of `ε` or more below
`δ`. -/
theorem C153_enough {H : Wave ι → Wave ι} {est : (B : Nat) → (Config ι → ℂ) → (Fin B → Config ι) → Option (ℂ × ℝ × List ℂ)}
    (hM : RarelyFar H est) (logψ : Config ι → ℂ) {a b ε δ : ℝ} (hε : 0 < ε) (hδ : 0 < δ) (hab : a < b)
    (hbounds : ∀ s, IsSpin s → a ≤ (localEnergy H logψ s).re ∧ (localEnergy H logψ s).re ≤ b) {B : Nat} (hB : 0 < B)
    (henough : (b - a) ^ 2 / (2 * ε ^ 2) * Real.log (2 / δ) ≤ B) :
    ∃ energy : (Fin B → Config ι) → ℂ,
      (∀ sample, (∀ b, IsSpin (sample b)) → ∃ var lv, est B logψ sample = some (energy sample, var, lv)) ∧
      expect (allSpins ι) (born logψ) B
        (fun x => if ε ≤ |(energy x).re - (rayleigh H fun s => Complex.exp (logψ s)).re| then 1 else 0) ≤ δ := by
  obtain ⟨energy, h1, h2⟩ := hM B hB logψ
  refine ⟨energy, h1, (h2 a b hbounds ε hε.le).trans ?_⟩
  have hD : 0 < (b - a) ^ 2 := pow_pos (sub_pos.2 hab) 2
  have h3 : Real.log (2 / δ) ≤ 2 * B * ε ^ 2 / (b - a) ^ 2 := by
    rw [le_div_iff₀ hD]
    have h4 : 0 < 2 * ε ^ 2 := by positivity
    have h5 := mul_le_mul_of_nonneg_right henough h4.le
    have h6 : (b - a) ^ 2 / (2 * ε ^ 2) * Real.log (2 / δ) * (2 * ε ^ 2) = Real.log (2 / δ) * (b - a) ^ 2 := by
      field_simp
    linarith
  have h7 : Real.exp (-(2 * B * ε ^ 2) / (b - a) ^ 2) ≤ δ / 2 := by
    rw [neg_div]
    calc _ ≤ Real.exp (-Real.log (2 / δ)) := Real.exp_le_exp.2 (neg_le_neg h3)
      _ = δ / 2 := by rw [Real.exp_neg, Real.exp_log (by positivity), inv_div]
  linarith

end Verif.Energy

namespace Verif.Autoregressive

open Verif.Operators Verif.Energy MeasureTheory

variable {ι : Type} [DecidableEq ι] [Fintype ι]

/-- **C153 from the random numbers to the reported energy**, for an autoregressive network. (The hypothesis on `est` is
supplied by the four theorems for the operators.) -/
theorem C153_autoregressive {B : Nat} (hB : 0 < B) (dims : Nat) (hd : dims = 1 ∨ dims = 2) (H : Wave ι → Wave ι)
    (est : (B : Nat) → (Config ι → ℂ) → (Fin B → Config ι) → Option (ℂ × ℝ × List ℂ)) (hM : RarelyFar H est)
    (net : Net ι) (order : List ι) (ho : Complete order) (hc : Causal order net) :
    ∃ energy : (Fin B → ι → ℝ) → ℂ,
      (∀ u, ∃ S var lv, sample dims false (condLogProbs net) order u = .ok S ∧
        est B (logWave net) S = some (energy u, var, lv)) ∧
      ∀ a b : ℝ, (∀ s, IsSpin s → a ≤ (localEnergy H (logWave net) s).re ∧ (localEnergy H (logWave net) s).re ≤ b) →
        ∀ ε : ℝ, 0 ≤ ε →
          (rand B ι).real {u | ε ≤ |(energy u).re - (rayleigh H fun s => Complex.exp (logWave net s)).re|} ≤
            2 * Real.exp (-(2 * B * ε ^ 2) / (b - a) ^ 2) := by
  classical
  obtain ⟨energy, h1, h2⟩ := hM B hB (logWave net)
  choose S hS hspin using C36_spins (B := B) dims hd net order ho hc
  refine ⟨fun u => energy (S u), fun u => ?_, fun a b hab ε hε => ?_⟩
  · obtain ⟨var, lv, hlv⟩ := h1 (S u) (hspin u)
    exact ⟨S u, var, lv, hS u, hlv⟩
  set E := (rayleigh H fun s => Complex.exp (logWave net s)).re
  have h3 := h2 a b hab ε hε
  refine le_trans ?_ h3
  unfold expect
  set bad := (Fintype.piFinset fun _ : Fin B => allSpins ι).filter fun x => ε ≤ |(energy x).re - E| with hbad
  have hsub : {u : Fin B → ι → ℝ | ε ≤ |(energy (S u)).re - E|} ⊆
      ⋃ x ∈ bad, {u | sample dims false (condLogProbs net) order u = .ok x} := by
    intro u hu
    refine Set.mem_biUnion (x := S u) ?_ (hS u)
    exact Finset.mem_coe.2 (Finset.mem_filter.2 ⟨Fintype.mem_piFinset.2 fun b => (mem_allSpins _).2 (hspin u b), hu⟩)
  have _ : IsProbabilityMeasure (rand B ι) := by unfold rand; infer_instance
  refine (measureReal_mono hsub (measure_ne_top _ _)).trans ((measureReal_biUnion_finset_le _ _).trans ?_)
  have hmul : ∀ x : Fin B → Config ι, (∏ b, born (logWave net) (x b)) * (if ε ≤ |(energy x).re - E| then (1 : ℝ) else 0) =
      if ε ≤ |(energy x).re - E| then ∏ b, born (logWave net) (x b) else 0 := fun x => by split <;> simp
  simp only [hmul]
  rw [← Finset.sum_filter]
  refine le_of_eq (Finset.sum_congr ?_ fun x hx => ?_)
  · rw [hbad]
  · have hx' : ∀ b, IsSpin (x b) := fun b => (mem_allSpins _).1 (Fintype.mem_piFinset.1 (Finset.mem_filter.1 hx).1 b)
    unfold Measure.real
    rw [C36_distribution dims hd net order ho hc x hx', ENNReal.toReal_ofReal (by positivity)]
    refine Finset.prod_congr rfl fun b _ => ?_
    unfold born
    rw [C35_normalised net order ho hc, div_one]

/-- The bounds exist for every network. -/
example (H : Wave ι → Wave ι) (ψ : Config ι → ℂ) :
    ∃ a b : ℝ, ∀ s, IsSpin s → a ≤ (localEnergy H ψ s).re ∧ (localEnergy H ψ s).re ≤ b := by
  refine ⟨-∑ t ∈ allSpins ι, |(localEnergy H ψ t).re|, ∑ t ∈ allSpins ι, |(localEnergy H ψ t).re|, fun s hs => ?_⟩
  have := Finset.single_le_sum (f := fun t => |(localEnergy H ψ t).re|) (fun t _ => abs_nonneg _) ((mem_allSpins s).2 hs)
  exact abs_le.1 this

end Verif.Autoregressive
