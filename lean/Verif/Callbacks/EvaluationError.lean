import Verif.Callbacks.Props
import Verif.Samplers.Direct
import Mathlib.MeasureTheory.Integral.Pi

/-!
# C155: how far the numbers of `evaluate` are off

`evaluate` (C81) with a generator whose sampler draws independently (C154): the reported energy, variance, relative error and
magnetisations as functions of the random numbers of all batches.
-/
namespace Verif.Callbacks

open Verif.Training Verif.Energy Verif.Operators MeasureTheory

variable {ι : Type} [DecidableEq ι] [Fintype ι] {B T : Nat}

/-! ### Model -/

/-- The batch that `VariationalMonteCarlo.next_batch` (variational_monte_carlo.py:42-50) keeps, for the samples `x`:
`current_batch` and `current_local_energy`; `est` is `energy_observable.estimate`. An exception would leave no rows (C155
shows that there is none). -/
noncomputable def energyBatch (est : (Fin B → Config ι) → Option (ℂ × ℝ × List ℂ)) (x : Fin B → Config ι) : List (Config ι × ℂ) :=
  match est x with
  | some (_, _, lv) => (List.finRange B).map fun b => (x b, lv.getD b 0)
  | none => []

/-! ### Specification -/

/-- The reports `energy` and `var`, which depend on random numbers with the distribution `P`, are those of the wave function
`exp ψ`, for `N` samples in batches of `B`: the energy is right on average, its mean squared error is the variance of the local
energies over `N`, and an error of `ε` or more has at most the probability `2 exp (-2 N ε² / (b - a)²)` if the local
energies lie between `a` and `b`; the variance is too small by the factor `1 - 1/B` on average. -/
structure ReportsEnergy {Ω : Type} [MeasurableSpace Ω] (P : Measure Ω) (N B : Nat) (H : Wave ι → Wave ι) (ψ : Config ι → ℂ)
    (energy var : Ω → ℝ) : Prop where
  mean : ∫ u, energy u ∂P = (rayleigh H fun s => Complex.exp (ψ s)).re
  spread : ∫ u, (energy u - (rayleigh H fun s => Complex.exp (ψ s)).re) ^ 2 ∂P = localVariance H ψ / N
  variance : ∫ u, var u ∂P = (1 - 1 / B) * localVariance H ψ
  rare : ∀ a b : ℝ, (∀ s, IsSpin s → a ≤ (localEnergy H ψ s).re ∧ (localEnergy H ψ s).re ≤ b) → ∀ ε : ℝ, 0 ≤ ε →
    P.real {u | ε ≤ |energy u - (rayleigh H fun s => Complex.exp (ψ s)).re|} ≤ 2 * Real.exp (-(2 * N * ε ^ 2) / (b - a) ^ 2)

/-- What C155 says of `evaluate` with `T` steps, for an energy observable `est` of the operator `H` (`est k` is its state when
batch number `k` is drawn): whichever sampler draws batches `S u` of `B` independent samples of `|ψ|²` from random numbers
`u`, whatever the generator did before, with mini batches of more than half of the batch (the scripts use the batch) and
both logging modes, `evaluate` returns an energy and a variance as described, the relative error that belongs to the energy if
the true energy is known, and magnetisations which are right on average with the errors of `T * B` independent samples. -/
def EvaluationRight (H : Wave ι → Wave ι)
    (est : Nat → (B : Nat) → (Config ι → ℂ) → (Fin B → Config ι) → Option (ℂ × ℝ × List ℂ)) : Prop :=
  ∀ (Ω : Type) [MeasurableSpace Ω] (P : Measure Ω) [IsProbabilityMeasure P] (B T : Nat), 0 < B → 0 < T →
  ∀ (ψ : Config ι → ℂ) (S : Ω → Fin B → Config ι), Independent P ψ S →
  ∀ (Smp : Type) (size : Smp → Nat) (st : Generator Smp ι) (w : World Smp ι) (s : Smp) (mini : Option Nat),
    setSampler size st s mini = some w.gen → size s = B → (∀ m, mini = some m → B < 2 * m) →
  ∀ draw : (Fin T → Ω) → Smp → Nat → List (Config ι × ℂ),
    (∀ u (t : Fin T), draw u s (st.drawn + t) = energyBatch (est (st.drawn + t) B ψ) (S (u t))) →
  ∀ (drawVal : Smp → Nat → List (Config ι × ℂ)) (clock : Nat → Fin 4 → ℝ) (truth : Option ℝ) (inBatch : Bool),
    ∃ energy var sigma absSigma : (Fin T → Ω) → ℝ,
      (∀ u, ∃ R, evaluate (draw u) drawVal clock T (defaultCallbacks truth inBatch false 1) none w = .ok R ∧
        R.read "energy/energy" = some (energy u) ∧ R.read "energy/local_energy_variance" = some (var u) ∧
        (∀ E, truth = some E → E ≠ 0 → R.read "energy/relative_error" = some ((E - energy u) / E)) ∧
        R.read "observables/sigma_z" = some (sigma u) ∧ R.read "observables/abs_sigma_z" = some (absSigma u)) ∧
      ReportsEnergy (Measure.pi fun _ : Fin T => P) (T * B) B H ψ energy var ∧
      Estimates (Measure.pi fun _ : Fin T => P) (T * B) sigma (rayleigh magnetisation fun s => Complex.exp (ψ s)).re 2 ∧
      Estimates (Measure.pi fun _ : Fin T => P) (T * B) absSigma
        (∑ s ∈ allSpins ι, Energy.born ψ s * |(∑ i, (s i : ℝ)) / Fintype.card ι|) 1

end Verif.Callbacks

namespace Verif.Energy

open Verif.Operators MeasureTheory

/-! ### Several batches -/

section Many

variable {ι : Type} [DecidableEq ι] [Fintype ι] {B : Nat}
variable {Ω : Type} [MeasurableSpace Ω] {P : Measure Ω} [IsProbabilityMeasure P] {ψ : Config ι → ℂ} {S : Ω → Fin B → Config ι}

/-- `T` batches of independent samples from independent random numbers are `T * B` independent samples. -/
theorem Independent.many (h : Independent P ψ S) (T : Nat) : Independent (Measure.pi fun _ : Fin T => P) ψ
    fun u (k : Fin (T * B)) => S (u (finProdFinEquiv.symm k).1) (finProdFinEquiv.symm k).2 := by
  have hset : ∀ X : Fin (T * B) → Config ι,
      {u : Fin T → Ω | (fun k : Fin (T * B) => S (u (finProdFinEquiv.symm k).1) (finProdFinEquiv.symm k).2) = X} =
        Set.univ.pi fun t => {ω | S ω = fun b => X (finProdFinEquiv (t, b))} := by
    intro X
    ext u
    simp only [Set.mem_pi, Set.mem_univ, true_implies]
    constructor
    · intro hu t
      funext b
      have := congrFun (show (fun k : Fin (T * B) => S (u (finProdFinEquiv.symm k).1) (finProdFinEquiv.symm k).2) = X from hu)
        (finProdFinEquiv (t, b))
      simpa using this
    · intro hu
      show (fun k : Fin (T * B) => S (u (finProdFinEquiv.symm k).1) (finProdFinEquiv.symm k).2) = X
      funext k
      have := congrFun (show S (u (finProdFinEquiv.symm k).1) = _ from hu (finProdFinEquiv.symm k).1) (finProdFinEquiv.symm k).2
      rw [this, Prod.mk.eta, Equiv.apply_symm_apply]
  refine ⟨fun u k => h.spins _ _, fun X => ?_, fun X hX => ?_⟩
  · rw [hset]
    exact MeasurableSet.univ_pi fun t => h.event _
  · rw [hset, measureReal_def, Measure.pi_pi, ENNReal.toReal_prod]
    have h1 : ∀ t, (P {ω | S ω = fun b => X (finProdFinEquiv (t, b))}).toReal = ∏ b,
        ‖Complex.exp (ψ (X (finProdFinEquiv (t, b))))‖ ^ 2 / ∑ s ∈ allSpins ι, ‖Complex.exp (ψ s)‖ ^ 2 :=
      fun t => h.law _ fun b => hX _
    simp only [h1]
    rw [← Fintype.prod_prod_type' fun t b =>
      ‖Complex.exp (ψ (X (finProdFinEquiv (t, b))))‖ ^ 2 / ∑ s ∈ allSpins ι, ‖Complex.exp (ψ s)‖ ^ 2]
    exact finProdFinEquiv.prod_comp fun k => ‖Complex.exp (ψ (X k))‖ ^ 2 / ∑ s ∈ allSpins ι, ‖Complex.exp (ψ s)‖ ^ 2

omit [IsProbabilityMeasure P] in
theorem Independent.measurable (h : Independent P ψ S) (F : (Fin B → Config ι) → ℝ) : Measurable fun u => F (S u) := by
  have hsum : (fun u => F (S u)) = fun u => ∑ T ∈ Fintype.piFinset fun _ : Fin B => allSpins ι,
      Set.indicator {u | S u = T} (fun _ => F T) u := by
    funext u
    rw [Finset.sum_eq_single (S u)]
    · rw [Set.indicator_of_mem (show u ∈ {v | S v = S u} from rfl)]
    · intro T _ hne
      rw [Set.indicator_of_notMem]
      intro hT
      exact hne (show S u = T from hT).symm
    · intro hn
      exact absurd (Fintype.mem_piFinset.2 fun b => (mem_allSpins _).2 (h.spins u b)) hn
  rw [hsum]
  exact Finset.measurable_sum _ fun T _ => measurable_const.indicator (h.event T)

theorem Independent.integrable (h : Independent P ψ S) (F : (Fin B → Config ι) → ℝ) : Integrable (fun u => F (S u)) P := by
  refine Integrable.of_bound (h.measurable F).aestronglyMeasurable
    (∑ x ∈ Fintype.piFinset fun _ : Fin B => allSpins ι, ‖F x‖) (Filter.Eventually.of_forall fun u => ?_)
  exact Finset.single_le_sum (f := fun x => ‖F x‖) (fun x _ => norm_nonneg _)
    (Fintype.mem_piFinset.2 fun b => (mem_allSpins _).2 (h.spins u b))

theorem Independent.mean (h : Independent P ψ S) (hB : 0 < B) (f : Config ι → ℝ) :
    ∫ u, (∑ b, f (S u b)) / B ∂P = ∑ s ∈ allSpins ι, Energy.born ψ s * f s := by
  classical
  have hB' : (0 : ℝ) < B := by exact_mod_cast hB
  rw [h.integral fun x => (∑ b, f (x b)) / B]
  have hdiv : (fun x : Fin B → Config ι => (∑ b, f (x b)) / (B : ℝ)) = fun x => (1 / (B : ℝ)) * ∑ b, f (x b) := by
    funext x; ring
  rw [hdiv, expect_mul, expect_sum]
  simp only [expect_one (allSpins ι) (Energy.born ψ) (born_sum ψ) f]
  simp only [Finset.sum_const, Finset.card_univ, Fintype.card_fin, nsmul_eq_mul]
  field_simp

theorem Independent.square (h : Independent P ψ S) (hB : 0 < B) (f : Config ι → ℝ) :
    ∫ u, ((∑ b, f (S u b)) / B - ∑ s ∈ allSpins ι, Energy.born ψ s * f s) ^ 2 ∂P =
      (∑ s ∈ allSpins ι, Energy.born ψ s * (f s * f s) - (∑ s ∈ allSpins ι, Energy.born ψ s * f s) ^ 2) / B := by
  classical
  rw [h.integral fun x => ((∑ b, f (x b)) / B - ∑ s ∈ allSpins ι, Energy.born ψ s * f s) ^ 2,
    expect_mean_sq (allSpins ι) (Energy.born ψ) (born_sum ψ) hB f]

theorem Independent.tail (h : Independent P ψ S) (hB : 0 < B) (f : Config ι → ℝ) {a b : ℝ}
    (hf : ∀ s, IsSpin s → a ≤ f s ∧ f s ≤ b) (ε : ℝ) (hε : 0 ≤ ε) :
    P.real {u | ε ≤ |(∑ b, f (S u b)) / B - ∑ s ∈ allSpins ι, Energy.born ψ s * f s|} ≤
      2 * Real.exp (-(2 * B * ε ^ 2) / (b - a) ^ 2) := by
  classical
  refine (h.real_le fun x => ε ≤ |(∑ b, f (x b)) / B - ∑ s ∈ allSpins ι, Energy.born ψ s * f s|).trans ?_
  exact two_tails (fun s _ => born_nonneg ψ s) (born_sum ψ) f (fun s hs => hf s ((mem_allSpins s).1 hs)) hB hε

theorem Independent.batchVariances (h : Independent P ψ S) (hB : 0 < B) (f : Config ι → ℝ) :
    ∫ u, variance ((List.finRange B).map fun b => f (S u b)) ∂P = (1 - 1 / B) *
      (∑ s ∈ allSpins ι, Energy.born ψ s * (f s * f s) - (∑ s ∈ allSpins ι, Energy.born ψ s * f s) ^ 2) := by
  classical
  have hB' : (B : ℝ) ≠ 0 := by exact_mod_cast hB.ne'
  rw [h.integral fun x => variance ((List.finRange B).map fun b => f (x b))]
  simp only [variance_finRange hB]
  rw [expect_cov (allSpins ι) (Energy.born ψ) (born_sum ψ) hB' f f, sq]

end Many

end Verif.Energy

namespace Verif.Callbacks

open Verif.Training Verif.Energy Verif.Operators MeasureTheory

variable {ι : Type} [DecidableEq ι] [Fintype ι] {B T : Nat}

/-! ### The numbers of `evaluate` -/

theorem sum_range_fin (n : Nat) (g : Nat → ℝ) : ((List.range n).map g).sum = ∑ t : Fin n, g t := by
  induction n with
  | zero => simp
  | succ n ih => rw [List.range_succ, List.map_append, List.sum_append, ih, Fin.sum_univ_castSucc]; simp

omit [DecidableEq ι] [Fintype ι] in
theorem sum_batches (x : Fin T → Fin B → Config ι) (f : Config ι → ℝ) :
    (∑ t, (∑ b, f (x t b)) / (B : ℝ)) / T =
      (∑ k : Fin (T * B), f (x (finProdFinEquiv.symm k).1 (finProdFinEquiv.symm k).2)) / (T * B : Nat) := by
  rw [finProdFinEquiv.symm.sum_comp fun p : Fin T × Fin B => f (x p.1 p.2), Fintype.sum_prod_type, ← Finset.sum_div, div_div,
    Nat.cast_mul, mul_comm (B : ℝ)]

theorem energyBatch_eq {H : Wave ι → Wave ι} {ψ : Config ι → ℂ}
    {est : (Fin B → Config ι) → Option (ℂ × ℝ × List ℂ)} {x : Fin B → Config ι} (h : LocalEnergies H x ψ (est x)) :
    energyBatch est x = (List.finRange B).map fun b => (x b, localEnergy H ψ (x b)) := by
  obtain ⟨v, hv⟩ := h.values
  unfold energyBatch
  rw [hv]
  refine List.map_congr_left fun b _ => ?_
  simp [localEnergy, List.getD_eq_getElem?_getD]

omit [DecidableEq ι] [Fintype ι] in
theorem batchObservable_finRange (f : Config ι → ℝ) (g : Config ι → ℂ) (x : Fin B → Config ι) :
    batchObservable f ((List.finRange B).map fun b => (x b, g (x b))) = (∑ b, f (x b)) / B := by
  unfold batchObservable
  rw [List.map_map, List.length_map, List.length_finRange, ← List.ofFn_eq_map, List.sum_ofFn]
  rfl

omit [DecidableEq ι] in
theorem batchEnergy_finRange (g : Config ι → ℂ) (x : Fin B → Config ι) :
    (batchEnergy ((List.finRange B).map fun b => (x b, g (x b)))).re = (∑ b, (g (x b)).re) / B := by
  rw [batchEnergy_re, List.map_map, List.length_map, List.length_finRange, ← List.ofFn_eq_map, List.sum_ofFn]
  rfl

omit [DecidableEq ι] [Fintype ι] in
theorem batchVariance_finRange (g : Config ι → ℂ) (x : Fin B → Config ι) :
    batchVariance ((List.finRange B).map fun b => (x b, g (x b))) = variance ((List.finRange B).map fun b => (g (x b)).re) := by
  unfold batchVariance
  rw [List.map_map, List.map_map]
  rfl

omit [DecidableEq ι] in
/-- `C81_values` for a generator that hands out whole batches, also with the progress bar of the scripts. -/
theorem evaluate_values {S : Type} (size : S → ℕ) (draw drawVal : S → ℕ → List (Config ι × ℂ)) (clock : ℕ → Fin 4 → ℝ)
    (steps : ℕ) (hsteps : 0 < steps) (truth : Option ℝ) (inBatch : Bool) (st : Generator S ι)
    (w : World S ι) (s : S) (mini : Option ℕ) (h0 : setSampler size st s mini = some w.gen)
    (hwhole : ∀ m, mini = some m → size s < 2 * m) (bar : Option (List String))
    (hbar : bar = none ∨ truth.isSome ∧ bar = some ["energy/energy", "energy/relative_error", "energy/local_energy_variance"]) :
    let avg : (List (Config ι × ℂ) → ℝ) → ℝ := fun q => (∑ t : Fin steps, q (draw s (st.drawn + t))) / steps
    ∃ R, evaluate draw drawVal clock steps (defaultCallbacks truth inBatch false 1) bar w = .ok R ∧
      R.read "energy/energy" = some (avg fun x => (batchEnergy x).re) ∧
      R.read "energy/local_energy_variance" = some (avg batchVariance) ∧
      (∀ E, truth = some E → E ≠ 0 →
        R.read "energy/relative_error" = some (avg fun x => (E - (batchEnergy x).re) / E)) ∧
      R.read "observables/sigma_z" = some (avg (batchObservable sigmaZ)) ∧
      R.read "observables/abs_sigma_z" = some (avg (batchObservable absSigmaZ)) := by
  intro avg
  obtain ⟨-, -, e3, e4, e5, -, -, -, -⟩ := setBatchSize_spec _ _ _ _ h0
  have hf : size s / w.gen.miniBatchSize = 1 := by
    apply Nat.div_eq_of_lt_le
    · omega
    · cases mini with
      | none => rw [e5]; simp; omega
      | some m => have := hwhole m rfl; rw [e5]; simp; omega
  obtain ⟨R, hR, hread⟩ := evaluate_ok draw drawVal clock steps hsteps (defaultCallbacks truth inBatch false 1)
    (stdLogs truth) _ (keys_std truth) (fun i w => runCallbacks_default drawVal truth inBatch 1 i w) bar
    (by
      intro ks h k hk
      rcases hbar with hb | ⟨ht, hb⟩
      · rw [hb] at h; cases h
      · rw [hb] at h
        rw [← Option.some.inj h] at hk
        simp only [ht, if_true]
        simp at hk ⊢
        rcases hk with h | h | h <;> simp [h]) w
  have hat : ∀ t, (worldAt draw clock w 0 t).gen.x = draw s (st.drawn + t) := fun t => by
    rw [batch_at size draw clock st w s mini h0, hf, Nat.div_one]
  refine ⟨R, hR, ?_, ?_, ?_, ?_, ?_⟩
  · rw [hread, if_pos (by simp)]
    simp only [read_std_energy, Option.getD_some, hat, sum_range_fin]
    rfl
  · rw [hread, if_pos (by simp)]
    simp only [read_std_variance, Option.getD_some, hat, sum_range_fin]
    rfl
  · rintro E rfl _
    rw [hread, if_pos (by simp)]
    simp only [read_std_error, Option.map_some, Option.getD_some, hat, sum_range_fin]
    rfl
  · rw [hread, if_pos (by simp)]
    simp only [read_std_sigma, Option.getD_some, hat, sum_range_fin]
    rfl
  · rw [hread, if_pos (by simp)]
    simp only [read_std_abs, Option.getD_some, hat, sum_range_fin]
    rfl

/-- The numbers of `evaluate` for samples of `|base|²` and local energies of `ψ`, if the local energies have the same
distribution under both. -/
theorem evaluation_core {Ω : Type} [MeasurableSpace Ω] {P : Measure Ω} [IsProbabilityMeasure P] {H : Wave ι → Wave ι}
    {ψ base : Config ι → ℂ} {S : Ω → Fin B → Config ι} (hS : Independent P base S) (hB : 0 < B) (hT : 0 < T)
    (same : ∀ g : ℝ → ℝ, ∑ s ∈ allSpins ι, Energy.born base s * g (localEnergy H ψ s).re =
      ∑ s ∈ allSpins ι, Energy.born ψ s * g (localEnergy H ψ s).re)
    {est : Nat → (Fin B → Config ι) → Option (ℂ × ℝ × List ℂ)}
    (hE : ∀ k x, (∀ b, IsSpin (x b)) → LocalEnergies H x ψ (est k x))
    {Smp : Type} (size : Smp → Nat) (st : Generator Smp ι) (w : World Smp ι) (s : Smp) (mini : Option Nat)
    (h0 : setSampler size st s mini = some w.gen) (hwhole : ∀ m, mini = some m → size s < 2 * m)
    (draw : (Fin T → Ω) → Smp → Nat → List (Config ι × ℂ))
    (hdraw : ∀ u (t : Fin T), draw u s (st.drawn + t) = energyBatch (est (st.drawn + t)) (S (u t)))
    (drawVal : Smp → Nat → List (Config ι × ℂ)) (clock : Nat → Fin 4 → ℝ) (truth : Option ℝ) (inBatch : Bool)
    (bar : Option (List String))
    (hbar : bar = none ∨ truth.isSome ∧ bar = some ["energy/energy", "energy/relative_error", "energy/local_energy_variance"]) :
    ∃ energy var sigma absSigma : (Fin T → Ω) → ℝ,
      (∀ u, ∃ R, evaluate (draw u) drawVal clock T (defaultCallbacks truth inBatch false 1) bar w = .ok R ∧
        R.read "energy/energy" = some (energy u) ∧ R.read "energy/local_energy_variance" = some (var u) ∧
        (∀ E, truth = some E → E ≠ 0 → R.read "energy/relative_error" = some ((E - energy u) / E)) ∧
        R.read "observables/sigma_z" = some (sigma u) ∧ R.read "observables/abs_sigma_z" = some (absSigma u)) ∧
      ReportsEnergy (Measure.pi fun _ : Fin T => P) (T * B) B H ψ energy var ∧
      Estimates (Measure.pi fun _ : Fin T => P) (T * B) sigma (rayleigh magnetisation fun s => Complex.exp (base s)).re 2 ∧
      Estimates (Measure.pi fun _ : Fin T => P) (T * B) absSigma
        (∑ s ∈ allSpins ι, Energy.born base s * |(∑ i, (s i : ℝ)) / Fintype.card ι|) 1 := by
  have hTr : (T : ℝ) ≠ 0 := by exact_mod_cast hT.ne'
  have hN : 0 < T * B := Nat.mul_pos hT hB
  set f : Config ι → ℝ := fun s => (localEnergy H ψ s).re with hf
  set X : (Fin T → Ω) → Fin (T * B) → Config ι := fun u k => S (u (finProdFinEquiv.symm k).1) (finProdFinEquiv.symm k).2 with hX
  have hM : Independent (Measure.pi fun _ : Fin T => P) base X := hS.many T
  have hb : ∀ u (t : Fin T), draw u s (st.drawn + t) = (List.finRange B).map fun b => (S (u t) b, localEnergy H ψ (S (u t) b)) :=
    fun u t => by rw [hdraw, energyBatch_eq (hE _ _ (hS.spins (u t)))]
  have hobs : ∀ (q : Config ι → ℝ) (u : Fin T → Ω), (∑ t : Fin T, batchObservable q (draw u s (st.drawn + t))) / (T : ℝ) =
      batchObservable q (List.ofFn fun k => (X u k, localEnergy H ψ (X u k))) := by
    intro q u
    simp only [hb, batchObservable_finRange]
    rw [sum_batches (fun t => S (u t)) q, List.ofFn_eq_map, batchObservable_finRange]
  have hen : ∀ u : Fin T → Ω, (∑ t : Fin T, (batchEnergy (draw u s (st.drawn + t))).re) / (T : ℝ) =
      (∑ k, f (X u k)) / (T * B : Nat) := by
    intro u
    simp only [hb, batchEnergy_finRange]
    exact sum_batches (fun t => S (u t)) f
  have hmean : ∑ s ∈ allSpins ι, Energy.born base s * f s = (rayleigh H fun s => Complex.exp (ψ s)).re := by
    rw [rayleigh_born, Complex.re_sum]
    refine (same id).trans (Finset.sum_congr rfl fun s _ => ?_)
    rw [Complex.re_ofReal_mul, id]
  have hvar : ∑ s ∈ allSpins ι, Energy.born base s * (f s * f s) - (∑ s ∈ allSpins ι, Energy.born base s * f s) ^ 2 =
      localVariance H ψ := by
    rw [localVariance_eq, sq, ← same (fun x => x * x), ← same fun x => x]
  refine ⟨fun u => (∑ k, f (X u k)) / (T * B : Nat), fun u => (∑ t, variance ((List.finRange B).map fun b => f (S (u t) b))) / T,
    fun u => batchObservable sigmaZ (List.ofFn fun k => (X u k, localEnergy H ψ (X u k))),
    fun u => batchObservable absSigmaZ (List.ofFn fun k => (X u k, localEnergy H ψ (X u k))), fun u => ?_, ⟨?_, ?_, ?_, ?_⟩,
    C154_magnetisations _ base X hM hN (localEnergy H ψ)⟩
  · obtain ⟨R, hR, h1, h2, h3, h4, h5⟩ := evaluate_values size (draw u) drawVal clock T hT truth inBatch st w s mini h0 hwhole bar hbar
    refine ⟨R, hR, h1.trans (congrArg some (hen u)), ?_, fun E hE hE0 => (h3 E hE hE0).trans (congrArg some ?_),
      h4.trans (congrArg some (hobs _ u)), h5.trans (congrArg some (hobs _ u))⟩
    · rw [h2]
      simp only [hb, batchVariance_finRange]
      rfl
    · show _ = (E - (∑ k, f (X u k)) / (T * B : Nat)) / E
      rw [← hen]
      dsimp only
      rw [← Finset.sum_div, Finset.sum_sub_distrib, Finset.sum_const, Finset.card_univ, Fintype.card_fin, nsmul_eq_mul]
      field_simp
  · rw [hM.mean hN f, hmean]
  · rw [← hmean, hM.square hN f, hvar]
  · rw [integral_div, integral_finsetSum]
    · have h1 : ∀ t : Fin T, ∫ u : Fin T → Ω, variance ((List.finRange B).map fun b => f (S (u t) b)) ∂(Measure.pi fun _ => P) =
          (1 - 1 / B) * localVariance H ψ := by
        intro t
        rw [integral_comp_eval (μ := fun _ : Fin T => P) (i := t) (f := fun ω => variance ((List.finRange B).map fun b => f (S ω b)))
          (hS.measurable fun x => variance ((List.finRange B).map fun b => f (x b))).aestronglyMeasurable,
          hS.batchVariances hB f, hvar]
      simp only [h1, Finset.sum_const, Finset.card_univ, Fintype.card_fin, nsmul_eq_mul]
      exact mul_div_cancel_left₀ _ hTr
    · intro t _
      refine integrable_comp_eval (μ := fun _ : Fin T => P) (i := t) (f := fun ω => variance ((List.finRange B).map fun b => f (S ω b))) ?_
      exact hS.integrable fun x => variance ((List.finRange B).map fun b => f (x b))
  · intro a b hab ε hε
    rw [← hmean]
    exact hM.tail hN f hab ε hε

theorem evaluationRight_of {H : Wave ι → Wave ι}
    {est : Nat → (B : Nat) → (Config ι → ℂ) → (Fin B → Config ι) → Option (ℂ × ℝ × List ℂ)}
    (hE : ∀ k B ψ x, (∀ b, IsSpin (x b)) → LocalEnergies H x ψ (est k B ψ x)) : EvaluationRight H est := by
  intro Ω _ P _ B T hB hT ψ S hS Smp size st w s mini h0 hsize hwhole draw hdraw drawVal clock truth inBatch
  exact evaluation_core hS hB hT (fun g => rfl) (fun k x hx => hE k B ψ x hx) size st w s mini h0 (by rw [hsize]; exact hwhole) draw hdraw
    drawVal clock truth inBatch none (Or.inl rfl)

/-! ### The operators -/

/-- **C155 for the Ising model on chains.** -/
theorem C155_ising_chain (n : Nat) (h j : ℝ) (pbc : Bool) :
    EvaluationRight (tfim (chainBonds n pbc) h j) fun _ _ logψ sample =>
      estimate logψ (Answer.ofRows (n + 1) (isingFindConn1 (.float h) j pbc sample)
        fun b => by rw [isingFindConn1_eq]; simp) :=
  evaluationRight_of fun _ _ logψ sample hs => C18_ising_chain h j pbc sample hs logψ

/-- **C155 for the Ising model on grids.** -/
theorem C155_ising_grid (n m : Nat) (h j : ℝ) (pbc : Bool) :
    EvaluationRight (tfim (gridBonds n m pbc) h j) fun _ _ logψ sample =>
      estimate logψ (Answer.ofRows (n * m + 1) (isingFindConn2 (.float h) j pbc sample)
        fun b => by rw [isingFindConn2_eq]; simp [length_gridSites]) :=
  evaluationRight_of fun _ _ logψ sample hs => C18_ising_grid h j pbc sample hs logψ

/-- **C155 for the Heisenberg model on grids**; `history k` are the calls of the operator before batch number `k`. -/
theorem C155_heisenberg_grid (n m : Nat) (rot pbc : Bool) (history : Nat → List (Call n m)) :
    EvaluationRight (heisenberg (gridBonds n m pbc) (if rot then -1 else 1)) fun k B logψ sample =>
      estimate logψ (Answer.ofRows (n * m * 2 + 1) (((HeisOp.new2 n m rot pbc).run (history k)).findConn B sample).2
        fun b => by rw [answer2]; exact length_heisRows _ _ _ (Or.inl rfl) _) :=
  evaluationRight_of fun k B logψ sample hs => C18_heisenberg_grid rot pbc (history k) B sample hs logψ

/-- **C155 for the Heisenberg model on chains.** -/
theorem C155_heisenberg_chain (n : Nat) (rot pbc : Bool) (history : Nat → List (Call n 1)) :
    EvaluationRight (heisenberg (chainBonds' n pbc) (if rot then -1 else 1)) fun k B logψ sample =>
      estimate logψ (Answer.ofRows (n + 1) (((HeisOp.new1 n rot pbc).run (history k)).findConn1 B sample).2
        fun b => by
          rw [(Exact.rowsOf_heisenberg_chain n rot pbc (history k)).eq]
          exact (Exact.rowsOf_heisenberg_chain n rot pbc (history k)).length _) :=
  evaluationRight_of fun k B logψ sample hs => C18_heisenberg_chain rot pbc (history k) B sample hs logψ

/-- The requirements are met: four steps on a chain of three spins with amplitudes that differ in size and phase, batches of
five samples drawn by `WaveFunctionSampler`, whatever the generator did before. -/
example (st : Generator Unit (Fin 3)) (w : World Unit (Fin 3)) (clock : Nat → Fin 4 → ℝ) :
    ∃ (Ω : Type) (_ : MeasurableSpace Ω) (P : Measure Ω) (draw : (Fin 4 → Ω) → Unit → Nat → List (Config (Fin 3) × ℂ))
      (w' : World Unit (Fin 3)) (energy var : (Fin 4 → Ω) → ℝ),
      (∀ u, ∃ R, evaluate (draw u) (fun _ _ => []) clock 4 (defaultCallbacks (some (-4)) false false 1) none w' = .ok R ∧
        R.read "energy/energy" = some (energy u)) ∧
      ReportsEnergy (Measure.pi fun _ : Fin 4 => P) 20 5 (tfim (chainBonds 3 true) 1 1) (fun s => ⟨s 0, s 1⟩) energy var := by
  obtain ⟨S, -, hS⟩ := C154_wave_function (B := 5) (Equiv.refl (Fin 3)) (fun s => ⟨s 0, s 1⟩) _ le_rfl
  obtain ⟨energy, var, _, _, h1, h2, -⟩ := C155_ising_chain 3 1 1 true _ (Measure.pi fun _ : Fin 5 => Autoregressive.unif) 5 4 (by decide) (by decide)
    (fun s => ⟨s 0, s 1⟩) S hS Unit (fun _ => 5) st { w with gen := _ } () (some 5) rfl rfl (by rintro m ⟨⟩; decide)
    (fun u _ k => energyBatch (fun sample => estimate (fun s => ⟨s 0, s 1⟩) (Answer.ofRows (3 + 1) (isingFindConn1 (.float 1) 1 true sample)
        fun b => by rw [isingFindConn1_eq]; simp)) (S (u (Fin.ofNat 4 (k - st.drawn)))))
    (fun u t => by simp) (fun _ _ => []) clock (some (-4)) false
  exact ⟨_, _, _, _, _, energy, var, fun u => (h1 u).imp fun R h => ⟨h.1, h.2.1⟩, h2⟩

end Verif.Callbacks
