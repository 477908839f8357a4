import Verif.Samplers.ExactSampler
import Verif.Energy.Hoeffding
import Verif.Callbacks.Exact

/-!
# C154: reports from independent samples, for all samplers that draw independently

`AutoregressiveSampler`, `ExactSampler` and `WaveFunctionSampler` draw independent samples (C36, C69). This file follows the
random numbers of each of them up to the logged energies (C89, C153) and magnetisations (C85).
-/
namespace Verif.Energy

open Verif.Operators MeasureTheory Verif.Autoregressive Verif.Callbacks
open Verif.ExactSampler (choice)

variable {ι : Type} [DecidableEq ι] [Fintype ι] {B : Nat}

/-! ### Specification -/

/-- The batch `S` computed from random numbers with the distribution `P` consists of `B` independent samples of the squared
amplitudes: every batch of spin configurations appears with the product of the probabilities `|ψ|² / ‖ψ‖²`. -/
structure Independent {Ω : Type} [MeasurableSpace Ω] (P : Measure Ω) (ψ : Config ι → ℂ) (S : Ω → Fin B → Config ι) : Prop where
  spins : ∀ u b, IsSpin (S u b)
  event : ∀ T : Fin B → Config ι, MeasurableSet {u | S u = T}
  law : ∀ T : Fin B → Config ι, (∀ b, IsSpin (T b)) →
    P.real {u | S u = T} = ∏ b, ‖Complex.exp (ψ (T b))‖ ^ 2 / ∑ s ∈ allSpins ι, ‖Complex.exp (ψ s)‖ ^ 2

/-- What C154 says of a magnetisation that takes values in an interval of length `width`: the logged number, computed from
the random numbers, has the right mean; its mean squared error is at most `width² / (4 B)`; errors of `ε` or more have
at most the probability `2 exp (-2 B ε² / width²)`. -/
structure Estimates {Ω : Type} [MeasurableSpace Ω] (P : Measure Ω) (B : Nat) (logged : Ω → ℝ) (truth width : ℝ) : Prop where
  mean : ∫ u, logged u ∂P = truth
  spread : ∫ u, (logged u - truth) ^ 2 ∂P ≤ width ^ 2 / (4 * B)
  rare : ∀ ε : ℝ, 0 ≤ ε → P.real {u | ε ≤ |logged u - truth|} ≤ 2 * Real.exp (-(2 * B * ε ^ 2) / width ^ 2)

/-- What C154 says of the energy: the logged energy has the right mean, its mean squared error is the variance of the local
energies over the batch size, the logged variance is the variance of the local energies times `1 - 1/B` on average, and
large errors are exponentially rare. -/
structure EstimatesEnergy {Ω : Type} [MeasurableSpace Ω] (P : Measure Ω) (B : Nat) (H : Wave ι → Wave ι) (ψ : Config ι → ℂ)
    (energy : Ω → ℂ) (var : Ω → ℝ) : Prop where
  mean : ∫ u, (energy u).re ∂P = (rayleigh H fun s => Complex.exp (ψ s)).re
  spread : ∫ u, ((energy u).re - (rayleigh H fun s => Complex.exp (ψ s)).re) ^ 2 ∂P = localVariance H ψ / B
  variance : ∫ u, var u ∂P = (1 - 1 / B) * localVariance H ψ
  rare : ∀ a b : ℝ, (∀ s, IsSpin s → a ≤ (localEnergy H ψ s).re ∧ (localEnergy H ψ s).re ≤ b) → ∀ ε : ℝ, 0 ≤ ε →
    P.real {u | ε ≤ |(energy u).re - (rayleigh H fun s => Complex.exp (ψ s)).re|} ≤
      2 * Real.exp (-(2 * B * ε ^ 2) / (b - a) ^ 2)

/-! ### From independent samples to expected values -/

section

variable {Ω : Type} [MeasurableSpace Ω] {P : Measure Ω} [IsProbabilityMeasure P] {ψ : Config ι → ℂ} {S : Ω → Fin B → Config ι}

omit [IsProbabilityMeasure P] in
theorem Independent.law' (h : Independent P ψ S) (T : Fin B → Config ι) (hT : ∀ b, IsSpin (T b)) :
    P.real {u | S u = T} = ∏ b, born ψ (T b) := h.law T hT

theorem Independent.integral (h : Independent P ψ S) (F : (Fin B → Config ι) → ℝ) :
    ∫ u, F (S u) ∂P = expect (allSpins ι) (born ψ) B F := by
  have hsum : (fun u => F (S u)) = fun u => ∑ T ∈ Fintype.piFinset fun _ : Fin B => allSpins ι,
      Set.indicator {u | S u = T} (fun _ => F T) u := by
    funext u
    rw [Finset.sum_eq_single (S u)]
    · rw [Set.indicator_of_mem (show u ∈ {v | S v = S u} from rfl)]
    · intro T _ hne
      rw [Set.indicator_of_notMem]
      intro hT
      exact hne (show S u = T from hT).symm
    · intro hn
      exact absurd (Fintype.mem_piFinset.2 fun b => (mem_allSpins _).2 (h.spins u b)) hn
  rw [hsum, integral_finsetSum]
  · unfold expect
    refine Finset.sum_congr rfl fun T hT => ?_
    rw [integral_indicator_const _ (h.event T), smul_eq_mul,
      h.law' T fun b => (mem_allSpins _).1 (Fintype.mem_piFinset.1 hT b)]
  · intro T _
    exact (integrable_const _).indicator (h.event T)

omit [IsProbabilityMeasure P] in
open Classical in
theorem Independent.real_le [IsFiniteMeasure P] (h : Independent P ψ S) (A : (Fin B → Config ι) → Prop) :
    P.real {u | A (S u)} ≤ expect (allSpins ι) (born ψ) B fun x => if A x then 1 else 0 := by
  set bad := (Fintype.piFinset fun _ : Fin B => allSpins ι).filter fun x => A x with hbad
  have hsub : {u | A (S u)} ⊆ ⋃ x ∈ bad, {u | S u = x} := by
    intro u hu
    refine Set.mem_biUnion (x := S u) ?_ rfl
    exact Finset.mem_coe.2 (Finset.mem_filter.2 ⟨Fintype.mem_piFinset.2 fun b => (mem_allSpins _).2 (h.spins u b), hu⟩)
  refine (measureReal_mono hsub (measure_ne_top _ _)).trans ((measureReal_biUnion_finset_le _ _).trans ?_)
  unfold expect
  have hmul : ∀ x : Fin B → Config ι, (∏ b, born ψ (x b)) * (if A x then (1 : ℝ) else 0) =
      if A x then ∏ b, born ψ (x b) else 0 := fun x => by split <;> simp
  simp only [hmul]
  rw [← Finset.sum_filter]
  refine le_of_eq (Finset.sum_congr hbad fun x hx => ?_)
  exact h.law' x fun b => (mem_allSpins _).1 (Fintype.mem_piFinset.1 (Finset.mem_filter.1 hx).1 b)

end

theorem expect_mean_sq {α : Type} [DecidableEq α] (S : Finset α) (p : α → ℝ) (hp : ∑ s ∈ S, p s = 1) (hB : 0 < B) (f : α → ℝ) :
    expect S p B (fun x => ((∑ i, f (x i)) / B - ∑ s ∈ S, p s * f s) ^ 2) =
      (∑ s ∈ S, p s * (f s * f s) - (∑ s ∈ S, p s * f s) ^ 2) / B := by
  set μ := ∑ s ∈ S, p s * f s with hμ
  have hB' : (B : ℝ) ≠ 0 := by positivity
  have h1 := expect_sums (B := B) S p hp f f
  have h2 : expect S p B (fun x => ∑ i, f (x i)) = B * μ := by
    rw [expect_sum]
    simp only [expect_one S p hp f]
    simp [hμ]
  have h3 : expect S p B (fun _ => (1 : ℝ)) = 1 := by
    have := expect_prod (B := B) S p fun _ _ => (1 : ℝ)
    simp only [Finset.prod_const_one, mul_one, hp] at this
    exact this
  have h4 : (fun x : Fin B → α => ((∑ i, f (x i)) / B - μ) ^ 2) = fun x =>
      (1 / B ^ 2) * ((∑ i, f (x i)) * ∑ i, f (x i)) + ((-(2 * μ) / B) * (∑ i, f (x i)) + μ ^ 2 * 1) := by
    funext x
    field_simp
    ring
  rw [h4, expect_add, expect_add, expect_mul, expect_mul, expect_mul, h1, h2, h3]
  rw [← hμ]
  field_simp
  ring

/-- A number between `a` and `b` has at most the variance `(b - a)² / 4`. -/
theorem variance_le {α : Type} (S : Finset α) (p : α → ℝ) (hp0 : ∀ s ∈ S, 0 ≤ p s) (hp : ∑ s ∈ S, p s = 1) (f : α → ℝ) {a b : ℝ}
    (hf : ∀ s ∈ S, a ≤ f s ∧ f s ≤ b) : ∑ s ∈ S, p s * (f s * f s) - (∑ s ∈ S, p s * f s) ^ 2 ≤ (b - a) ^ 2 / 4 := by
  have h1 : ∑ s ∈ S, p s * (f s * f s) ≤ ∑ s ∈ S, p s * ((a + b) * f s - a * b) := by
    refine Finset.sum_le_sum fun s hs => mul_le_mul_of_nonneg_left ?_ (hp0 s hs)
    nlinarith [hf s hs, mul_nonneg (sub_nonneg.2 (hf s hs).1) (sub_nonneg.2 (hf s hs).2)]
  have h2 : ∑ s ∈ S, p s * ((a + b) * f s - a * b) = (a + b) * (∑ s ∈ S, p s * f s) - a * b := by
    have : ∀ s, p s * ((a + b) * f s - a * b) = (a + b) * (p s * f s) - a * b * p s := fun s => by ring
    simp only [this]
    rw [Finset.sum_sub_distrib, ← Finset.mul_sum, ← Finset.mul_sum, hp, mul_one]
  rw [h2] at h1
  nlinarith [sq_nonneg (∑ s ∈ S, p s * f s - (a + b) / 2)]

theorem Independent.estimates {Ω : Type} [MeasurableSpace Ω] {P : Measure Ω} [IsProbabilityMeasure P] {ψ : Config ι → ℂ}
    {S : Ω → Fin B → Config ι} (h : Independent P ψ S) (hB : 0 < B) (lv : Config ι → ℂ) (f : Config ι → ℝ) {a b : ℝ}
    (hf : ∀ s, IsSpin s → a ≤ f s ∧ f s ≤ b) :
    Estimates P B (fun u => batchObservable f (List.ofFn fun i => (S u i, lv (S u i)))) (∑ s ∈ allSpins ι, born ψ s * f s) (b - a) := by
  classical
  have hl : ∀ x : Fin B → Config ι, batchObservable f (List.ofFn fun b => (x b, lv (x b))) = (∑ b, f (x b)) / B := by
    intro x
    unfold batchObservable
    rw [List.map_ofFn, List.sum_ofFn, List.length_ofFn]
    rfl
  have hf' : ∀ s ∈ allSpins ι, a ≤ f s ∧ f s ≤ b := fun s hs => hf s ((mem_allSpins s).1 hs)
  have hn : ∀ s ∈ allSpins ι, 0 ≤ born ψ s := fun s _ => born_nonneg ψ s
  have hB' : (0 : ℝ) < B := by exact_mod_cast hB
  simp only [hl]
  refine ⟨?_, ?_, fun ε hε => ?_⟩
  · rw [h.integral fun x => (∑ b, f (x b)) / B]
    have hdiv : (fun x : Fin B → Config ι => (∑ b, f (x b)) / (B : ℝ)) = fun x => (1 / (B : ℝ)) * ∑ b, f (x b) := by
      funext x; ring
    rw [hdiv, expect_mul, expect_sum]
    simp only [expect_one (allSpins ι) (born ψ) (born_sum ψ) f]
    simp only [Finset.sum_const, Finset.card_univ, Fintype.card_fin, nsmul_eq_mul]
    field_simp
  · rw [h.integral fun x => ((∑ b, f (x b)) / B - ∑ s ∈ allSpins ι, born ψ s * f s) ^ 2,
      expect_mean_sq (allSpins ι) (born ψ) (born_sum ψ) hB f, div_le_iff₀ hB']
    refine (variance_le (allSpins ι) (born ψ) hn (born_sum ψ) f hf').trans (le_of_eq ?_)
    field_simp
  · refine (h.real_le fun x => ε ≤ |(∑ b, f (x b)) / B - ∑ s ∈ allSpins ι, born ψ s * f s|).trans ?_
    exact two_tails hn (born_sum ψ) f hf' hB hε

theorem Independent.estimatesEnergy {Ω : Type} [MeasurableSpace Ω] {P : Measure Ω} [IsProbabilityMeasure P] {ψ : Config ι → ℂ}
    {S : Ω → Fin B → Config ι} (h : Independent P ψ S) (hB : 0 < B) {H : Wave ι → Wave ι}
    {est : (B : Nat) → (Config ι → ℂ) → (Fin B → Config ι) → Option (ℂ × ℝ × List ℂ)} (hM : MeanEstimate H est)
    (hR : RarelyFar H est) :
    ∃ (energy : Ω → ℂ) (var : Ω → ℝ), (∀ u, ∃ lv, est B ψ (S u) = some (energy u, var u, lv)) ∧
      EstimatesEnergy P B H ψ energy var := by
  classical
  obtain ⟨energy, var, h1, h2, h3, h4⟩ := hM B hB ψ
  obtain ⟨energy', h1', h2'⟩ := hR B hB ψ
  have he : ∀ x, (∀ b, IsSpin (x b)) → energy x = energy' x := by
    intro x hx
    obtain ⟨lv, hlv⟩ := h1 x hx
    obtain ⟨var', lv', hlv'⟩ := h1' x hx
    rw [hlv] at hlv'
    exact congrArg Prod.fst (Option.some.inj hlv')
  refine ⟨fun u => energy (S u), fun u => var (S u), fun u => h1 (S u) (h.spins u), ?_, ?_, ?_, fun a b hab ε hε => ?_⟩
  · rw [h.integral fun x => (energy x).re, expect_re, h2]
  · rw [h.integral fun x => ((energy x).re - (rayleigh H fun s => Complex.exp (ψ s)).re) ^ 2, h3]
  · rw [h.integral var, h4]
  · refine (h.real_le fun x => ε ≤ |(energy x).re - (rayleigh H fun s => Complex.exp (ψ s)).re|).trans ?_
    refine le_trans (le_of_eq (expect_congr _ _ _ _ fun x hx => ?_)) (h2' a b hab ε hε)
    rw [he x fun b => (mem_allSpins _).1 (hx b)]

/-! ### The samplers -/

/-- C154, the plain autoregressive sampler draws independent samples from its random numbers. -/
theorem C154_autoregressive (dims : Nat) (hd : dims = 1 ∨ dims = 2) (net : Net ι) (order : List ι) (ho : Complete order)
    (hc : Causal order net) : ∃ S : (Fin B → ι → ℝ) → Fin B → Config ι,
      (∀ u, sample dims false (condLogProbs net) order u = .ok (S u)) ∧ Independent (rand B ι) (logWave net) S := by
  choose S hS hspin using C36_spins (B := B) dims hd net order ho hc
  have hset : ∀ T, {u | S u = T} = {u : Fin B → ι → ℝ | sample dims false (condLogProbs net) order u = .ok T} := by
    intro T
    ext u
    simp only [Set.mem_ofPred_eq, hS u, Except.ok.injEq]
  refine ⟨S, hS, hspin, fun T => ?_, fun T hT => ?_⟩
  · rw [hset]
    have hpi : {u : Fin B → ι → ℝ | sample dims false (condLogProbs net) order u = .ok T} =
        Set.pi Set.univ fun b => Set.pi Set.univ fun i =>
          {v | T b i = if Real.exp (condLogProbs net (T b) i 0) > v then 1 else if false then 0 else -1} := by
      ext u
      simp only [Set.mem_ofPred_eq, Set.mem_pi, Set.mem_univ, forall_true_left,
        sample_eq_iff dims hd false (condLogProbs net) order ho (condLogProbs_causal net order hc) u T]
      rfl
    rw [hpi]
    refine MeasurableSet.univ_pi fun b => MeasurableSet.univ_pi fun i => ?_
    have hm : Measurable fun v : ℝ => if Real.exp (condLogProbs net (T b) i 0) > v then (1 : ℤ) else if false then 0 else -1 :=
      Measurable.ite measurableSet_Iio measurable_const measurable_const
    have := hm (measurableSet_singleton (T b i))
    convert this using 1
    ext v
    simp only [Set.mem_ofPred_eq, Set.mem_preimage, Set.mem_singleton_iff]
    exact eq_comm
  · rw [hset]
    unfold Measure.real
    rw [C36_distribution dims hd net order ho hc T hT, ENNReal.toReal_ofReal (by positivity), C35_normalised net order ho hc]
    simp only [div_one]

theorem measurable_choice (n : Nat) (p : Nat → ℝ) : Measurable (choice n p) := by
  classical
  have h : choice n p = fun u => ∑ i ∈ Finset.range n, if ExactSampler.cumsum p i / ExactSampler.cumsum p (n - 1) ≤ u then 1 else 0 := by
    funext u
    unfold choice
    rw [Finset.card_filter]
  rw [h]
  exact Finset.measurable_sum _ fun i _ => Measurable.ite measurableSet_Ici measurable_const measurable_const

/-- What `next` computes and draws. -/
theorem independent_next {N : Nat} (e : ι ≃ Fin N) (p : Nat → ℝ) (tol : ℝ) (ψ : Config ι → ℂ)
    (h : ExactSampler.DrawsSquaredAmplitudes (B := B) ψ (ExactSampler.next e p tol)) :
    ∃ S : (Fin B → ℝ) → Fin B → Config ι, (∀ u, ExactSampler.next e p tol u = some (List.ofFn (S u))) ∧
      Independent (Measure.pi fun _ : Fin B => unif) ψ S := by
  obtain ⟨rows, hrows, -⟩ := h.1 fun _ => 0
  have hacc : ExactSampler.choiceAccepts (2 ^ N) p tol := by
    by_contra hn
    unfold ExactSampler.next at hrows
    rw [if_neg hn] at hrows
    cases hrows
  have hn : ∀ u : Fin B → ℝ, ExactSampler.next e p tol u = some (List.ofFn fun b => Exact.spinState e (choice (2 ^ N) p (u b))) := by
    intro u
    unfold ExactSampler.next
    rw [if_pos hacc, ExactSampler.decode_eq]
  refine ⟨_, hn, fun u b => Exact.spinState_spin e _, fun T => ?_, fun T hT => ?_⟩
  · have hpi : {u : Fin B → ℝ | (fun b => Exact.spinState e (choice (2 ^ N) p (u b))) = T} =
        Set.pi Set.univ fun b => (choice (2 ^ N) p) ⁻¹' {x | Exact.spinState e x = T b} := by
      ext u
      simp only [Set.mem_ofPred_eq, Set.mem_pi, Set.mem_univ, forall_true_left, Set.mem_preimage, funext_iff]
    rw [hpi]
    exact MeasurableSet.univ_pi fun b => measurable_choice _ _ trivial
  · have := h.2 T hT
    unfold Metropolis.prU at this
    rw [show {u : Fin B → ℝ | (fun b => Exact.spinState e (choice (2 ^ N) p (u b))) = T} =
      {u | ExactSampler.next e p tol u = some (List.ofFn T)} from ?_, this]
    · rfl
    · ext u
      simp only [Set.mem_ofPred_eq, hn u, Option.some.injEq]
      exact ⟨fun h => by rw [h], fun h => List.ofFn_injective h⟩

/-- C154, `WaveFunctionSampler` draws independent samples from its random numbers. -/
theorem C154_wave_function {N : Nat} (e : ι ≃ Fin N) (ψ : Config ι → ℂ) (tol : ℝ)
    (hnorm : |∑ s ∈ allSpins ι, ‖Complex.exp (ψ s)‖ ^ 2 - 1| ≤ tol) :
    ∃ S : (Fin B → ℝ) → Fin B → Config ι,
      (∀ u, ExactSampler.waveFunctionNext e (fun x => ψ (Exact.spinState e x)) tol u = some (List.ofFn (S u))) ∧
      Independent (Measure.pi fun _ : Fin B => unif) ψ S :=
  independent_next e _ tol ψ (ExactSampler.C69_wave_function e ψ tol hnorm)

/-- C154, `ExactSampler` draws independent samples of the network of the last refresh from its random numbers. -/
theorem C154_exact {N : Nat} (e : ι ≃ Fin N) (hN : N ≤ 31)
    {op : (B : Nat) → (Fin B → Config ι) → Fin B → List (Row ι ℝ)} {R : Nat} {rowsOf : Config ι → List (Row ι ℝ)}
    (h : Exact.RowsOf op R rowsOf) (batch : Nat) (o : Exact.Obj (Config ι)) (ho : Exact.Obj.new (Exact.spinSetup e op R) batch = .ok o)
    (nets : List (Config ι → ℂ)) (net : Config ι → ℂ) (tol : ℝ) (htol : 0 ≤ tol) :
    ∃ S : (Fin B → ℝ) → Fin B → Config ι,
      (∀ u, ExactSampler.exactNext e (Exact.after o nets net) tol u = some (List.ofFn (S u))) ∧
      Independent (Measure.pi fun _ : Fin B => unif) net S :=
  independent_next e _ tol net (ExactSampler.C69_exact e hN h batch o ho nets net tol htol)

/-! ### The reports -/

/-- **C154, magnetisations.** Whichever of the three samplers draws: the logged `sigma_z` estimates the expectation of the
magnetisation per site, the logged `abs_sigma_z` the mean of its absolute value. `lv` are the local energies, which play
no role. -/
theorem C154_magnetisations {Ω : Type} [MeasurableSpace Ω] (P : Measure Ω) [IsProbabilityMeasure P] (ψ : Config ι → ℂ)
    (S : Ω → Fin B → Config ι) (h : Independent P ψ S) (hB : 0 < B) (lv : Config ι → ℂ) :
    Estimates P B (fun u => batchObservable sigmaZ (List.ofFn fun i => (S u i, lv (S u i))))
      (rayleigh magnetisation fun s => Complex.exp (ψ s)).re 2 ∧
    Estimates P B (fun u => batchObservable absSigmaZ (List.ofFn fun i => (S u i, lv (S u i))))
      (∑ s ∈ allSpins ι, born ψ s * |(∑ i, (s i : ℝ)) / Fintype.card ι|) 1 := by
  constructor
  · have h1 := h.estimates hB lv sigmaZ (a := -1) (b := 1) fun s hs => abs_le.1 (by rw [← absSigmaZ_eq]; exact absSigmaZ_le hs)
    rw [← rayleigh_diagonal ψ, Complex.ofReal_re]
    convert h1 using 1
    · rfl
    · norm_num
  · have h1 := h.estimates hB lv absSigmaZ (a := 0) (b := 1) fun s hs =>
      ⟨by rw [absSigmaZ_eq]; exact abs_nonneg _, absSigmaZ_le hs⟩
    convert h1 using 1
    · refine Finset.sum_congr rfl fun s _ => ?_
      rw [absSigmaZ_eq]
      unfold sigmaZ
      push_cast
      rfl
    · norm_num

/-- **C154, energy of the Ising model on chains.** -/
theorem C154_ising_chain {n : Nat} {Ω : Type} [MeasurableSpace Ω] (P : Measure Ω) [IsProbabilityMeasure P] (ψ : Config (Fin n) → ℂ)
    (S : Ω → Fin B → Config (Fin n)) (hS : Independent P ψ S) (hB : 0 < B) (h j : ℝ) (pbc : Bool) :
    ∃ (energy : Ω → ℂ) (var : Ω → ℝ),
      (∀ u, ∃ lv, estimate ψ (Answer.ofRows (n + 1) (isingFindConn1 (.float h) j pbc (S u))
        fun b => by rw [isingFindConn1_eq]; simp) = some (energy u, var u, lv)) ∧
      EstimatesEnergy P B (tfim (chainBonds n pbc) h j) ψ energy var :=
  hS.estimatesEnergy hB (C89_ising_chain n h j pbc) (C153_ising_chain n h j pbc)

/-- **C154, energy of the Ising model on grids.** -/
theorem C154_ising_grid {n m : Nat} {Ω : Type} [MeasurableSpace Ω] (P : Measure Ω) [IsProbabilityMeasure P]
    (ψ : Config (Fin n × Fin m) → ℂ) (S : Ω → Fin B → Config (Fin n × Fin m)) (hS : Independent P ψ S) (hB : 0 < B) (h j : ℝ)
    (pbc : Bool) :
    ∃ (energy : Ω → ℂ) (var : Ω → ℝ),
      (∀ u, ∃ lv, estimate ψ (Answer.ofRows (n * m + 1) (isingFindConn2 (.float h) j pbc (S u))
        fun b => by rw [isingFindConn2_eq]; simp [length_gridSites]) = some (energy u, var u, lv)) ∧
      EstimatesEnergy P B (tfim (gridBonds n m pbc) h j) ψ energy var :=
  hS.estimatesEnergy hB (C89_ising_grid n m h j pbc) (C153_ising_grid n m h j pbc)

/-- **C154, energy of the Heisenberg model on grids,** after any history of earlier calls of the operator. -/
theorem C154_heisenberg_grid {n m : Nat} {Ω : Type} [MeasurableSpace Ω] (P : Measure Ω) [IsProbabilityMeasure P]
    (ψ : Config (Fin n × Fin m) → ℂ) (S : Ω → Fin B → Config (Fin n × Fin m)) (hS : Independent P ψ S) (hB : 0 < B)
    (rot pbc : Bool) (history : List (Call n m)) :
    ∃ (energy : Ω → ℂ) (var : Ω → ℝ),
      (∀ u, ∃ lv, estimate ψ (Answer.ofRows (n * m * 2 + 1) (((HeisOp.new2 n m rot pbc).run history).findConn B (S u)).2
        fun b => by rw [answer2]; exact length_heisRows _ _ _ (Or.inl rfl) _) = some (energy u, var u, lv)) ∧
      EstimatesEnergy P B (heisenberg (gridBonds n m pbc) (if rot then -1 else 1)) ψ energy var :=
  hS.estimatesEnergy hB (C89_heisenberg_grid n m rot pbc history) (C153_heisenberg_grid n m rot pbc history)

/-- **C154, energy of the Heisenberg model on chains,** after any history of earlier calls of the operator. -/
theorem C154_heisenberg_chain {n : Nat} {Ω : Type} [MeasurableSpace Ω] (P : Measure Ω) [IsProbabilityMeasure P]
    (ψ : Config (Fin n) → ℂ) (S : Ω → Fin B → Config (Fin n)) (hS : Independent P ψ S) (hB : 0 < B)
    (rot pbc : Bool) (history : List (Call n 1)) :
    ∃ (energy : Ω → ℂ) (var : Ω → ℝ),
      (∀ u, ∃ lv, estimate ψ (Answer.ofRows (n + 1) (((HeisOp.new1 n rot pbc).run history).findConn1 B (S u)).2
        fun b => by
          rw [(Exact.rowsOf_heisenberg_chain n rot pbc history).eq]
          exact (Exact.rowsOf_heisenberg_chain n rot pbc history).length _) = some (energy u, var u, lv)) ∧
      EstimatesEnergy P B (heisenberg (chainBonds' n pbc) (if rot then -1 else 1)) ψ energy var :=
  hS.estimatesEnergy hB (C89_heisenberg_chain n rot pbc history) (C153_heisenberg_chain n rot pbc history)

/-- The hypotheses are met: three spins, amplitudes that differ in size and phase, and batches of five samples drawn by
`WaveFunctionSampler`. -/
example : ∃ (ψ : Config (Fin 3) → ℂ) (S : (Fin 5 → ℝ) → Fin 5 → Config (Fin 3)),
    ψ (fun _ => 1) ≠ ψ (fun _ => -1) ∧ Independent (Measure.pi fun _ : Fin 5 => unif) ψ S ∧
    IsProbabilityMeasure (Measure.pi fun _ : Fin 5 => unif) := by
  let ψ : Config (Fin 3) → ℂ := fun s => ⟨s 0, s 1⟩
  obtain ⟨S, -, hS⟩ := C154_wave_function (B := 5) (Equiv.refl (Fin 3)) ψ _ le_rfl
  refine ⟨ψ, S, ?_, hS, inferInstance⟩
  intro h
  have := congrArg Complex.re h
  norm_num [ψ] at this

end Verif.Energy
