import Mathlib.Analysis.SpecialFunctions.Pow.Real
import Mathlib.Algebra.BigOperators.Intervals
import Mathlib.Algebra.BigOperators.Field
import Mathlib.Data.List.GetD
import Mathlib.Tactic.Ring
import Mathlib.Tactic.Linarith
import Mathlib.Tactic.NormNum
import Mathlib.Tactic.FieldSimp

/-!
# C51, C67: convergence statistics of the Metropolis-Hastings samplers

Model of `calc_r_hat_value` and `sum_correlations` of `src/flowket/samplers/metropolis_hastings.py` on real
arrays. A division by zero of Python numbers raises; one of NumPy numbers gives `inf` or `nan`, here `none`.
-/
namespace Verif.RHat

open Finset

/-! ### Model -/

/-- `a / b` of NumPy numbers; `none` stands for `inf` and `nan`. -/
noncomputable def npDiv (a b : ℝ) : Option ℝ := open Classical in if b = 0 then none else some (a / b)

/-- The loop of `sum_correlations` (lines 9-12) over the remaining values of `i`. -/
noncomputable def scan (cor : List ℝ) : List Nat → ℝ
  | [] => cor.sum
  | i :: rest => open Classical in
    if cor.getD (2 * i - 1) 0 + cor.getD (2 * i) 0 < 0 then (cor.take (2 * i)).sum else scan cor rest

/-- `sum_correlations` (lines 8-12); `range(1, len // 2)`. All indices are in range. -/
noncomputable def sumCorrelations (cor : List ℝ) : ℝ := scan cor (List.range' 1 (cor.length / 2 - 1))

/-- The four returned values; a `none` entry is `inf` or `nan`. -/
structure Stats where
  rHat : Option ℝ
  variance : ℝ
  correlationsSum : Option ℝ
  effectiveSampleSize : Option ℝ

/-- `estimated_values.view().reshape((num_of_chains, sampels_per_chain))` (line 70). -/
def perChain (n : Nat) (values : Nat → ℝ) (c i : Nat) : ℝ := values (c * n + i)

/-- `chains_mean` (line 71). -/
noncomputable def chainsMean (n : Nat) (values : Nat → ℝ) (c : Nat) : ℝ := (∑ i ∈ range n, perChain n values c i) / n

/-- `mean` (line 72). -/
noncomputable def meanAll (C n : Nat) (values : Nat → ℝ) : ℝ := (∑ c ∈ range C, chainsMean n values c) / C

/-- `between_variance` (lines 73, 75). -/
noncomputable def betweenVariance (C n : Nat) (values : Nat → ℝ) : ℝ :=
  ((n : ℝ) / ((C : ℝ) - 1)) *
    ∑ c ∈ range C, (chainsMean n values c - meanAll C n values) * (chainsMean n values c - meanAll C n values)

/-- `within_variance` (lines 74, 79). -/
noncomputable def withinVariance (C n : Nat) (values : Nat → ℝ) : ℝ :=
  ((∑ c ∈ range C, ∑ i ∈ range n,
    (perChain n values c i - chainsMean n values c) * (perChain n values c i - chainsMean n values c)) / C) / ((n : ℝ) - 1)

/-- `variance` (line 80). -/
noncomputable def varianceAll (C n : Nat) (values : Nat → ℝ) : ℝ :=
  (((n : ℝ) - 1) * withinVariance C n values + betweenVariance C n values) / n

/-- `v[t]` (lines 83-85). -/
noncomputable def vAt (C n : Nat) (values : Nat → ℝ) (t : Nat) : ℝ :=
  (∑ c ∈ range C, (∑ i ∈ range (n - t - 1),
    (perChain n values c (i + (t + 1)) - perChain n values c i) * (perChain n values c (i + (t + 1)) - perChain n values c i)) /
      ((n - t - 1 : Nat) : ℝ)) / C

/-- `correlations` (line 86) when `2 * variance` is not zero. -/
noncomputable def correlations (C n : Nat) (values : Nat → ℝ) : List ℝ :=
  (List.range (n - 1)).map fun t => 1 - vAt C n values t / (2 * varianceAll C n values)

/-- `calc_r_hat_value` (lines 67-89). `none`: `ZeroDivisionError` at line 75, where `num_of_chains - 1.0` is
a Python number. -/
noncomputable def calcRHat (batchSize C : Nat) (values : Nat → ℝ) : Option Stats :=
  open Classical in
  let n := batchSize / C
  if (C : ℝ) - 1 = 0 then none
  else if n = 1 then
    some { rHat := some 1, variance := betweenVariance C n values, correlationsSum := some 0,
           effectiveSampleSize := some batchSize }
  else
    let corSum : Option ℝ := if 2 * varianceAll C n values = 0 then none else some (sumCorrelations (correlations C n values))
    some { rHat := (npDiv (varianceAll C n values) (withinVariance C n values)).map Real.sqrt
           variance := varianceAll C n values
           correlationsSum := corSum
           effectiveSampleSize := corSum.bind fun s => npDiv batchSize (1 + 2 * s) }

/-! ### Specification: Bayesian Data Analysis, third edition, pages 284-287

`m` chains of length `n`; `y j i` is draw `i` of chain `j`, both counted from zero. -/

namespace BDA

/-- Mean of sequence `j` (specification). -/
noncomputable def chainMean (n : Nat) (y : Nat → Nat → ℝ) (j : Nat) : ℝ := 1 / n * ∑ i ∈ range n, y j i

/-- Mean of the means of the sequences (specification). -/
noncomputable def grandMean (m n : Nat) (y : Nat → Nat → ℝ) : ℝ := 1 / m * ∑ j ∈ range m, chainMean n y j

/-- Between-sequence variance. -/
noncomputable def B (m n : Nat) (y : Nat → Nat → ℝ) : ℝ := n / ((m : ℝ) - 1) * ∑ j ∈ range m, (chainMean n y j - grandMean m n y) ^ 2

/-- Within-sequence variance: the mean of the variances of the chains. -/
noncomputable def W (m n : Nat) (y : Nat → Nat → ℝ) : ℝ :=
  1 / m * ∑ j ∈ range m, 1 / ((n : ℝ) - 1) * ∑ i ∈ range n, (y j i - chainMean n y j) ^ 2

/-- The estimate of the marginal posterior variance. -/
noncomputable def varPlus (m n : Nat) (y : Nat → Nat → ℝ) : ℝ := ((n : ℝ) - 1) / n * W m n y + 1 / n * B m n y

/-- The potential scale reduction factor (specification). -/
noncomputable def rHat (m n : Nat) (y : Nat → Nat → ℝ) : ℝ := Real.sqrt (varPlus m n y / W m n y)

/-- Variogram at lag `t`. -/
noncomputable def V (m n : Nat) (y : Nat → Nat → ℝ) (t : Nat) : ℝ :=
  1 / ((m : ℝ) * ((n : ℝ) - t)) * ∑ j ∈ range m, ∑ i ∈ Ico t n, (y j i - y j (i - t)) ^ 2

/-- Estimated autocorrelation at lag `t`. -/
noncomputable def rho (m n : Nat) (y : Nat → Nat → ℝ) (t : Nat) : ℝ := 1 - V m n y t / (2 * varPlus m n y)

/-- The first odd positive integer `T` with a negative sum of the autocorrelations at lags `T + 1` and
`T + 2`; there are autocorrelations up to lag `n - 1`. -/
structure Cutoff (m n : Nat) (y : Nat → Nat → ℝ) (T : Nat) : Prop where
  odd : T % 2 = 1
  range : T + 2 ≤ n - 1
  negative : rho m n y (T + 1) + rho m n y (T + 2) < 0
  first : ∀ T', T' % 2 = 1 → T' < T → 0 ≤ rho m n y (T' + 1) + rho m n y (T' + 2)

/-- The sum of the autocorrelations up to lag `T`. -/
noncomputable def rhoSum (m n : Nat) (y : Nat → Nat → ℝ) (T : Nat) : ℝ := ∑ t ∈ Icc 1 T, rho m n y t

/-- The effective number of draws. -/
noncomputable def nEff (m n : Nat) (s : ℝ) : ℝ := (m : ℝ) * n / (1 + 2 * s)

end BDA

/-! ### Lemmas -/

variable {m n : Nat} {values : Nat → ℝ}

theorem chainsMean_eq (c : Nat) : chainsMean n values c = BDA.chainMean n (perChain n values) c := by
  unfold chainsMean BDA.chainMean; ring

theorem meanAll_eq : meanAll m n values = BDA.grandMean m n (perChain n values) := by
  unfold meanAll BDA.grandMean
  simp only [chainsMean_eq]; ring

theorem between_eq : betweenVariance m n values = BDA.B m n (perChain n values) := by
  unfold betweenVariance BDA.B
  simp only [chainsMean_eq, meanAll_eq, pow_two]

theorem within_eq : withinVariance m n values = BDA.W m n (perChain n values) := by
  unfold withinVariance BDA.W
  simp only [chainsMean_eq, pow_two, ← Finset.mul_sum]
  ring

theorem variance_eq : varianceAll m n values = BDA.varPlus m n (perChain n values) := by
  unfold varianceAll BDA.varPlus
  rw [within_eq, between_eq]; ring

theorem v_eq (t : Nat) (ht : t + 1 < n) : vAt m n values t = BDA.V m n (perChain n values) (t + 1) := by
  unfold vAt BDA.V
  have hc : ((n - t - 1 : Nat) : ℝ) = (n : ℝ) - ((t + 1 : Nat) : ℝ) := by
    rw [Nat.sub_sub, Nat.cast_sub ht.le]
  have hs : ∀ c, ∑ i ∈ Ico (t + 1) n, (perChain n values c i - perChain n values c (i - (t + 1))) ^ 2 =
      ∑ i ∈ range (n - t - 1), (perChain n values c (i + (t + 1)) - perChain n values c i) *
        (perChain n values c (i + (t + 1)) - perChain n values c i) := by
    intro c
    rw [Finset.sum_Ico_eq_sum_range, Nat.sub_sub]
    refine Finset.sum_congr rfl fun i _ => ?_
    rw [Nat.add_sub_cancel_left, Nat.add_comm (t + 1) i, pow_two]
  simp only [hs]
  rw [hc, ← Finset.sum_div, div_div, mul_comm (m : ℝ), one_div, inv_mul_eq_div]

theorem cor_length : (correlations m n values).length = n - 1 := by simp [correlations]

theorem cor_getD (t : Nat) (ht : t + 1 < n) :
    (correlations m n values).getD t 0 = BDA.rho m n (perChain n values) (t + 1) := by
  rw [List.getD_eq_getElem _ _ (by rw [cor_length]; omega)]
  simp only [correlations, List.getElem_map, List.getElem_range]
  rw [v_eq t ht, variance_eq]; rfl

theorem take_sum (l : List ℝ) : ∀ k ≤ l.length, (l.take k).sum = ∑ t ∈ range k, l.getD t 0 := by
  intro k
  induction k with
  | zero => intro _; simp
  | succ k ih =>
    intro hk
    rw [List.take_add_one, List.sum_append, ih (by omega), Finset.sum_range_succ, List.getElem?_eq_getElem (by omega),
      List.getD_eq_getElem _ _ (by omega)]
    simp

theorem cor_take (k : Nat) (hk : k ≤ n - 1) :
    ((correlations m n values).take k).sum = BDA.rhoSum m n (perChain n values) k := by
  rw [take_sum _ k (by rw [cor_length]; exact hk), BDA.rhoSum]
  induction k with
  | zero => simp
  | succ k ih =>
    rw [Finset.sum_range_succ, ih (by omega), Finset.sum_Icc_succ_top (by omega), cor_getD k (by omega)]

theorem cor_sum : (correlations m n values).sum = BDA.rhoSum m n (perChain n values) (n - 1) := by
  rw [← cor_take _ le_rfl, List.take_of_length_le (by rw [cor_length])]

theorem scan_none (cor : List ℝ) (l : List Nat) (h : ∀ i ∈ l, 0 ≤ cor.getD (2 * i - 1) 0 + cor.getD (2 * i) 0) :
    scan cor l = cor.sum := by
  induction l with
  | nil => rfl
  | cons i l ih =>
    rw [scan, if_neg (not_lt.2 (h i List.mem_cons_self)), ih fun j hj => h j (List.mem_cons_of_mem _ hj)]

theorem scan_found (cor : List ℝ) (l l' : List Nat) (i : Nat) (h : ∀ j ∈ l, 0 ≤ cor.getD (2 * j - 1) 0 + cor.getD (2 * j) 0)
    (hi : cor.getD (2 * i - 1) 0 + cor.getD (2 * i) 0 < 0) : scan cor (l ++ i :: l') = (cor.take (2 * i)).sum := by
  induction l with
  | nil => rw [List.nil_append, scan, if_pos hi]
  | cons j l ih =>
    rw [List.cons_append, scan, if_neg (not_lt.2 (h j List.mem_cons_self)), ih fun j hj => h j (List.mem_cons_of_mem _ hj)]

/-- The pair looked at for `i` consists of the lags `2 * i` and `2 * i + 1`. -/
theorem pair_eq (i : Nat) (h1 : 1 ≤ i) (h2 : 2 * i + 1 < n) :
    (correlations m n values).getD (2 * i - 1) 0 + (correlations m n values).getD (2 * i) 0 =
      BDA.rho m n (perChain n values) (2 * i) + BDA.rho m n (perChain n values) (2 * i + 1) := by
  rw [cor_getD (2 * i - 1) (by omega), cor_getD (2 * i) h2, Nat.sub_add_cancel (by omega)]

/-- What `sum_correlations` computes when the first negative pair is looked at. -/
theorem sum_stopped {T : Nat} (hT : BDA.Cutoff m n (perChain n values) T) (hr : T + 3 ≤ n - 1) :
    sumCorrelations (correlations m n values) = BDA.rhoSum m n (perChain n values) (T + 1) := by
  have hodd := hT.odd
  obtain ⟨i, rfl⟩ : ∃ i, T = 2 * i + 1 := ⟨T / 2, by omega⟩
  unfold sumCorrelations
  have hsplit : List.range' 1 ((correlations m n values).length / 2 - 1) =
      List.range' 1 i ++ (i + 1) :: List.range' (i + 2) ((correlations m n values).length / 2 - 1 - i - 1) := by
    rw [cor_length]
    have : (n - 1) / 2 - 1 = i + (1 + ((n - 1) / 2 - 1 - i - 1)) := by omega
    conv_lhs => rw [this, ← List.range'_append_1, Nat.add_comm 1 ((n - 1) / 2 - 1 - i - 1), List.range'_succ]
    congr 2
    · omega
    · congr 1; omega
  rw [hsplit, scan_found]
  · rw [show 2 * (i + 1) = 2 * i + 1 + 1 by ring, cor_take _ (by omega)]
  · intro j hj
    rw [List.mem_range'_1] at hj
    rw [pair_eq j hj.1 (by omega)]
    have := hT.first (2 * j - 1) (by omega) (by omega)
    rwa [show 2 * j - 1 + 1 = 2 * j by omega, show 2 * j - 1 + 2 = 2 * j + 1 by omega] at this
  · rw [pair_eq (i + 1) (by omega) (by omega)]
    exact hT.negative

/-- What it computes when no negative pair is looked at. -/
theorem sum_all (h : ∀ T, T % 2 = 1 → T + 3 ≤ n - 1 → 0 ≤ BDA.rho m n (perChain n values) (T + 1) + BDA.rho m n (perChain n values) (T + 2)) :
    sumCorrelations (correlations m n values) = BDA.rhoSum m n (perChain n values) (n - 1) := by
  unfold sumCorrelations
  rw [scan_none, cor_sum]
  intro j hj
  rw [List.mem_range'_1, cor_length] at hj
  rw [pair_eq j hj.1 (by omega)]
  have := h (2 * j - 1) (by omega) (by omega)
  rwa [show 2 * j - 1 + 1 = 2 * j by omega, show 2 * j - 1 + 2 = 2 * j + 1 by omega] at this

theorem calc_eq (m n : Nat) (hm : 2 ≤ m) (hn : 2 ≤ n) (values : Nat → ℝ) : ∃ s, calcRHat (m * n) m values = some s ∧
    s.rHat = (npDiv (varianceAll m n values) (withinVariance m n values)).map Real.sqrt ∧
    s.variance = varianceAll m n values ∧
    (BDA.varPlus m n (perChain n values) ≠ 0 → s.correlationsSum = some (sumCorrelations (correlations m n values)) ∧
      s.effectiveSampleSize = npDiv ((m * n : Nat) : ℝ) (1 + 2 * sumCorrelations (correlations m n values))) := by
  have hdiv : m * n / m = n := Nat.mul_div_cancel_left n (by omega)
  have h1 : ¬ ((m : ℝ) - 1 = 0) := by
    intro h
    have : (m : ℝ) = 1 := by linarith
    have : m = 1 := by exact_mod_cast this
    omega
  unfold calcRHat
  simp only [hdiv]
  rw [if_neg h1, if_neg (by omega)]
  refine ⟨_, rfl, rfl, rfl, fun hv => ?_⟩
  rw [variance_eq, if_neg (by simpa using hv)]
  exact ⟨rfl, rfl⟩

/-! ### C51 -/

/-- **C51 fails.** With one chain, the default, the function raises for every batch. -/
theorem C51_violated (batchSize : Nat) (values : Nat → ℝ) : calcRHat batchSize 1 values = none := by
  unfold calcRHat
  simp

/-- **C51, proved part.** With at least two chains of at least two samples it returns the variance estimate
and, unless all chains are constant, the r-hat of the cited book. -/
theorem C51_statistics_partial (m n : Nat) (hm : 2 ≤ m) (hn : 2 ≤ n) (values : Nat → ℝ) :
    ∃ s, calcRHat (m * n) m values = some s ∧ s.variance = BDA.varPlus m n (perChain n values) ∧
      (BDA.W m n (perChain n values) ≠ 0 → s.rHat = some (BDA.rHat m n (perChain n values))) := by
  obtain ⟨s, h1, h2, h3, -⟩ := calc_eq m n hm hn values
  refine ⟨s, h1, by rw [h3, variance_eq], fun hW => ?_⟩
  rw [h2, npDiv, within_eq, if_neg hW, variance_eq]
  rfl

/-- **C51, proved part.** With one sample per chain it returns the between-chain variance and the full batch size. -/
theorem C51_single_partial (m : Nat) (hm : 2 ≤ m) (values : Nat → ℝ) :
    calcRHat m m values = some ⟨some 1, BDA.B m 1 (perChain 1 values), some 0, some m⟩ := by
  have h1 : ¬ ((m : ℝ) - 1 = 0) := by
    intro h
    have : (m : ℝ) = 1 := by linarith
    have : m = 1 := by exact_mod_cast this
    omega
  unfold calcRHat
  simp only [Nat.div_self (show 0 < m by omega)]
  rw [if_neg h1, if_pos trivial, between_eq]

/-! ### C67 -/

/-- **C67 fails, in general.** When the cutoff `T` of the book is not at the very end, the returned sum also
contains the autocorrelation at lag `T + 1`, which belongs to the negative pair. -/
theorem C67_violated_one_more (m n : Nat) (hm : 2 ≤ m) (values : Nat → ℝ)
    (hv : BDA.varPlus m n (perChain n values) ≠ 0) (T : Nat) (hT : BDA.Cutoff m n (perChain n values) T) (hr : T + 3 ≤ n - 1) :
    ∃ s, calcRHat (m * n) m values = some s ∧
      s.correlationsSum = some (BDA.rhoSum m n (perChain n values) T + BDA.rho m n (perChain n values) (T + 1)) := by
  obtain ⟨s, h1, -, -, h4⟩ := calc_eq m n hm (by omega) values
  refine ⟨s, h1, ?_⟩
  rw [(h4 hv).1, sum_stopped hT hr, BDA.rhoSum, Finset.sum_Icc_succ_top (by omega)]
  rfl

/-- **C67 fails, in general.** A negative pair at the very end is not noticed. -/
theorem C67_violated_last_pair (m n : Nat) (hm : 2 ≤ m) (values : Nat → ℝ)
    (hv : BDA.varPlus m n (perChain n values) ≠ 0) (T : Nat) (hT : BDA.Cutoff m n (perChain n values) T) (hr : T + 2 = n - 1) :
    ∃ s, calcRHat (m * n) m values = some s ∧
      s.correlationsSum = some (BDA.rhoSum m n (perChain n values) T +
        (BDA.rho m n (perChain n values) (T + 1) + BDA.rho m n (perChain n values) (T + 2))) := by
  obtain ⟨s, h1, -, -, h4⟩ := calc_eq m n hm (by omega) values
  refine ⟨s, h1, ?_⟩
  rw [(h4 hv).1, sum_all, ← hr, BDA.rhoSum, Finset.sum_Icc_succ_top (by omega), Finset.sum_Icc_succ_top (by omega), add_assoc]
  · rfl
  · exact fun T' ho hT' => hT.first T' ho (by omega)

/-- **C67, proved part.** If there is no cutoff, sum and effective sample size are those of the book with
all available autocorrelations. -/
theorem C67_no_cutoff_partial (m n : Nat) (hm : 2 ≤ m) (hn : 2 ≤ n) (values : Nat → ℝ)
    (hv : BDA.varPlus m n (perChain n values) ≠ 0) (h : ∀ T, ¬ BDA.Cutoff m n (perChain n values) T) :
    ∃ s, calcRHat (m * n) m values = some s ∧ s.correlationsSum = some (BDA.rhoSum m n (perChain n values) (n - 1)) ∧
      (1 + 2 * BDA.rhoSum m n (perChain n values) (n - 1) ≠ 0 →
        s.effectiveSampleSize = some (BDA.nEff m n (BDA.rhoSum m n (perChain n values) (n - 1)))) := by
  obtain ⟨s, h1, -, -, h4⟩ := calc_eq m n hm hn values
  have hnn : ∀ T, T % 2 = 1 → T + 3 ≤ n - 1 →
      0 ≤ BDA.rho m n (perChain n values) (T + 1) + BDA.rho m n (perChain n values) (T + 2) := by
    intro T
    induction T using Nat.strong_induction_on with
    | _ T ih =>
      intro ho hr
      by_contra hneg
      exact h T ⟨ho, by omega, not_le.1 hneg, fun T' ho' hT' => ih T' hT' ho' (by omega)⟩
  refine ⟨s, h1, by rw [(h4 hv).1, sum_all hnn], fun hne => ?_⟩
  rw [(h4 hv).2, sum_all hnn, npDiv, if_neg hne, BDA.nEff, Nat.cast_mul]

/-! ### Concrete cases -/

/-- Ten values: two chains `0, 0, 0, 0, 1`. -/
def sampleValues : Nat → ℝ := fun i => if i % 5 = 4 then 1 else 0

theorem sample_var : BDA.varPlus 2 5 (perChain 5 sampleValues) = 4 / 25 := by
  have hcard : ({x ∈ range 5 | x % 5 = 4} : Finset Nat).card = 1 := by decide
  simp [BDA.varPlus, BDA.W, BDA.B, BDA.grandMean, BDA.chainMean, perChain, sampleValues, Finset.sum_range_succ, hcard]
  norm_num

theorem sample_rho : BDA.rho 2 5 (perChain 5 sampleValues) 1 = 7 / 32 ∧ BDA.rho 2 5 (perChain 5 sampleValues) 2 = -1 / 24 ∧
    BDA.rho 2 5 (perChain 5 sampleValues) 3 = -9 / 16 := by
  refine ⟨?_, ?_, ?_⟩ <;>
  · simp [BDA.rho, sample_var, BDA.V, Finset.sum_range_succ, Finset.sum_Ico_eq_sum_range, perChain, sampleValues]
    norm_num

/-- **C67 fails:** for these values the cited sum is 7/32, the function returns 17/96. -/
theorem C67_violated : BDA.Cutoff 2 5 (perChain 5 sampleValues) 1 ∧ BDA.rhoSum 2 5 (perChain 5 sampleValues) 1 = 7 / 32 ∧
    ∃ s, calcRHat 10 2 sampleValues = some s ∧ s.correlationsSum = some (17 / 96) := by
  obtain ⟨r1, r2, r3⟩ := sample_rho
  have hc : BDA.Cutoff 2 5 (perChain 5 sampleValues) 1 := by
    refine ⟨rfl, by decide, ?_, fun T' ho hT' => by omega⟩
    rw [r2, r3]; norm_num
  refine ⟨hc, by simp [BDA.rhoSum, r1], ?_⟩
  obtain ⟨s, h1, h2⟩ := C67_violated_one_more 2 5 le_rfl sampleValues (by rw [sample_var]; norm_num) 1 hc (by decide)
  refine ⟨s, h1, ?_⟩
  rw [h2, r2]
  simp only [BDA.rhoSum, Finset.Icc_self, Finset.sum_singleton, r1]
  norm_num

/-- The hypotheses of `C67_no_cutoff_partial` are met with three samples per chain, where no pair exists. -/
example (values : Nat → ℝ) (T : Nat) : ¬ BDA.Cutoff 2 3 (perChain 3 values) T := fun h => by
  have := h.odd
  have := h.range
  omega

end Verif.RHat
