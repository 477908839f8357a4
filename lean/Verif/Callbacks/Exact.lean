import Verif.Callbacks.Props
import Verif.Energy.Spins
import Verif.Symmetry.Evaluation

/-!
C85: the magnetisations.  C86: `exact_evaluate` and the exact callbacks.
-/
namespace Verif.Callbacks

open Verif.Training Verif.Energy Verif.Energy.Exact Verif.Operators

variable {ι : Type} [Fintype ι]

/-! ### C85 -/

theorem sum_spin_abs_le {c : Config ι} (hc : IsSpin c) : |((∑ i, c i : ℤ) : ℝ)| ≤ Fintype.card ι := by
  push_cast
  refine le_trans (Finset.abs_sum_le_sum_abs _ _) ?_
  have : ∀ i ∈ Finset.univ, |(c i : ℝ)| ≤ 1 := by
    intro i _
    rcases hc i with h | h <;> rw [h] <;> simp
  refine le_trans (Finset.sum_le_sum this) ?_
  simp

theorem absSigmaZ_eq (c : Config ι) : absSigmaZ c = |sigmaZ c| := by
  unfold absSigmaZ sigmaZ
  rw [abs_div, abs_of_nonneg (a := (Fintype.card ι : ℝ)) (by positivity)]

theorem absSigmaZ_le {c : Config ι} (hc : IsSpin c) : absSigmaZ c ≤ 1 := by
  unfold absSigmaZ
  exact div_le_one_of_le₀ (sum_spin_abs_le hc) (by positivity)

theorem mean_bounds (f : Config ι → ℝ) (x : List (Config ι × ℂ)) (lo hi : ℝ) (hx : x ≠ [])
    (h : ∀ p ∈ x, lo ≤ f p.1 ∧ f p.1 ≤ hi) : lo ≤ batchObservable f x ∧ batchObservable f x ≤ hi := by
  have hpos : (0 : ℝ) < x.length := by exact_mod_cast List.length_pos_iff.mpr hx
  have key : ∀ y : List (Config ι × ℂ), (∀ p ∈ y, lo ≤ f p.1 ∧ f p.1 ≤ hi) →
      lo * y.length ≤ (y.map fun p => f p.1).sum ∧ (y.map fun p => f p.1).sum ≤ hi * y.length := by
    intro y
    induction y with
    | nil => intro _; simp
    | cons p rest ih =>
      intro h
      obtain ⟨h1, h2⟩ := ih fun q hq => h q (List.mem_cons_of_mem _ hq)
      obtain ⟨h3, h4⟩ := h p List.mem_cons_self
      simp only [List.map_cons, List.sum_cons, List.length_cons]
      push_cast
      constructor <;> nlinarith
  obtain ⟨h1, h2⟩ := key x h
  unfold batchObservable
  exact ⟨(le_div_iff₀ hpos).mpr h1, (div_le_iff₀ hpos).mpr h2⟩

theorem abs_batch_le (x : List (Config ι × ℂ)) : |batchObservable sigmaZ x| ≤ batchObservable absSigmaZ x := by
  unfold batchObservable
  rw [abs_div, abs_of_nonneg (a := (x.length : ℝ)) (by positivity)]
  apply div_le_div_of_nonneg_right _ (by positivity)
  induction x with
  | nil => simp
  | cons p rest ih =>
    simp only [List.map_cons, List.sum_cons]
    refine le_trans (abs_add_le _ _) (add_le_add (le_of_eq (absSigmaZ_eq _).symm) ih)

/-- **C85**, ranges: for every batch of spin configurations the logged magnetisation lies between minus
one and one, its absolute value is at most the logged mean absolute magnetisation, and that is at most
one. -/
theorem C85_range (x : List (Config ι × ℂ)) (hx : x ≠ []) (hspin : ∀ p ∈ x, IsSpin p.1) :
    -1 ≤ batchObservable sigmaZ x ∧ batchObservable sigmaZ x ≤ 1 ∧
    |batchObservable sigmaZ x| ≤ batchObservable absSigmaZ x ∧ batchObservable absSigmaZ x ≤ 1 := by
  have h1 := mean_bounds sigmaZ x (-1) 1 hx fun p hp => abs_le.mp (by
    rw [← absSigmaZ_eq]; exact absSigmaZ_le (hspin p hp))
  have h2 := mean_bounds absSigmaZ x (-1) 1 hx fun p hp =>
    ⟨by rw [absSigmaZ_eq]; exact le_trans (by norm_num) (abs_nonneg _), absSigmaZ_le (hspin p hp)⟩
  exact ⟨h1.1, h1.2, abs_batch_le x, h2.2⟩

/-- **C85**, symmetry: turning all spins changes the sign of the one and leaves the other. -/
theorem C85_flip (x : List (Config ι × ℂ)) :
    batchObservable sigmaZ (x.map fun p => ((fun i => -p.1 i), p.2)) = -batchObservable sigmaZ x ∧
    batchObservable absSigmaZ (x.map fun p => ((fun i => -p.1 i), p.2)) = batchObservable absSigmaZ x := by
  have h : ∀ c : Config ι, sigmaZ (fun i => -c i) = -sigmaZ c := by
    intro c
    unfold sigmaZ
    push_cast
    rw [Finset.sum_neg_distrib, neg_div]
  unfold batchObservable
  rw [List.map_map, List.map_map, List.length_map]
  constructor
  · rw [← neg_div]
    congr 1
    induction x with
    | nil => simp
    | cons p rest ih => simp only [List.map_cons, List.sum_cons, ih, Function.comp, h]; ring
  · congr 2
    apply List.map_congr_left
    intro p _
    show absSigmaZ _ = _
    rw [absSigmaZ_eq, absSigmaZ_eq, h, abs_neg]

variable [DecidableEq ι]

/-- The magnetisation per site as an operator on wave functions. -/
noncomputable def magnetisation (ψ : Wave ι) : Wave ι := fun s => (∑ i, pauliZ i ψ s) / (Fintype.card ι : ℂ)

/-- The probability of a configuration, `|ψ|²/‖ψ‖²` for `ψ = exp(logψ)`. -/
noncomputable def born (logψ : Config ι → ℂ) (s : Config ι) : ℝ :=
  ‖Complex.exp (logψ s)‖ ^ 2 / ∑ t ∈ allSpins ι, ‖Complex.exp (logψ t)‖ ^ 2

theorem allSpins_nonempty : (allSpins ι).Nonempty :=
  ⟨fun _ => 1, (mem_allSpins _).mpr fun _ => Or.inl rfl⟩

theorem norm_sum_pos (logψ : Config ι → ℂ) : 0 < ∑ t ∈ allSpins ι, ‖Complex.exp (logψ t)‖ ^ 2 :=
  Finset.sum_pos (fun _ _ => pow_pos (norm_pos_iff.2 (Complex.exp_ne_zero _)) 2) allSpins_nonempty

theorem born_sum (logψ : Config ι → ℂ) : ∑ s ∈ allSpins ι, born logψ s = 1 := by
  unfold born
  rw [← Finset.sum_div]
  exact div_self (norm_sum_pos logψ).ne'

theorem rayleigh_diagonal (logψ : Config ι → ℂ) :
    ((∑ s ∈ allSpins ι, born logψ s * sigmaZ s : ℝ) : ℂ)
      = Energy.rayleigh magnetisation fun s => Complex.exp (logψ s) := by
  unfold Energy.rayleigh
  have h1 : ∀ z : ℂ, (starRingEnd ℂ) z * z = ((‖z‖ ^ 2 : ℝ) : ℂ) := by
    intro z
    rw [mul_comm, Complex.mul_conj, Complex.normSq_eq_norm_sq]
  have h2 : ∑ s ∈ allSpins ι, (starRingEnd ℂ) (Complex.exp (logψ s)) * Complex.exp (logψ s)
      = ((∑ t ∈ allSpins ι, ‖Complex.exp (logψ t)‖ ^ 2 : ℝ) : ℂ) := by
    rw [Complex.ofReal_sum]
    exact Finset.sum_congr rfl fun s _ => h1 _
  rw [h2, Finset.sum_div, Complex.ofReal_sum]
  refine Finset.sum_congr rfl fun s _ => ?_
  have h3 : (starRingEnd ℂ) (Complex.exp (logψ s)) * magnetisation (fun s => Complex.exp (logψ s)) s
      = ((‖Complex.exp (logψ s)‖ ^ 2 : ℝ) : ℂ) * (sigmaZ s : ℂ) := by
    rw [← h1]
    unfold magnetisation sigmaZ pauliZ
    rw [← Finset.sum_mul]
    push_cast
    ring
  rw [h3]
  unfold born
  push_cast
  ring

/-- **C85**, meaning: for a batch of independent samples of the wave function the expected value of the
logged magnetisation is the quantum mechanical expectation of the magnetisation per site; the expected
value of the logged absolute magnetisation is the mean of the absolute value over the Born distribution.
`lv` are the local energies, which play no role. -/
theorem C85_expected {B : ℕ} (hB : 0 < B) (logψ : Config ι → ℂ) (lv : Config ι → ℂ) :
    ((∑ sample ∈ Fintype.piFinset fun _ : Fin B => allSpins ι, (∏ b, born logψ (sample b)) *
      batchObservable sigmaZ (List.ofFn fun b => (sample b, lv (sample b))) : ℝ) : ℂ)
      = Energy.rayleigh magnetisation (fun s => Complex.exp (logψ s)) ∧
    ∑ sample ∈ Fintype.piFinset fun _ : Fin B => allSpins ι, (∏ b, born logψ (sample b)) *
      batchObservable absSigmaZ (List.ofFn fun b => (sample b, lv (sample b)))
      = ∑ s ∈ allSpins ι, born logψ s * |(∑ i, (s i : ℝ)) / Fintype.card ι| := by
  have key : ∀ f : Config ι → ℝ, ∑ sample ∈ Fintype.piFinset fun _ : Fin B => allSpins ι,
      (∏ b, born logψ (sample b)) * batchObservable f (List.ofFn fun b => (sample b, lv (sample b)))
      = ∑ s ∈ allSpins ι, born logψ s * f s := by
    intro f
    have h := Verif.Ensemble.batch_mean (allSpins ι) (fun s => (born logψ s : ℂ))
      (by rw [← Complex.ofReal_sum, born_sum]; simp) (fun s => (f s : ℂ)) hB
    apply Complex.ofReal_injective
    have hl : ∀ sample : Fin B → Config ι, batchObservable f (List.ofFn fun b => (sample b, lv (sample b)))
        = (∑ b, f (sample b)) / B := by
      intro sample
      unfold batchObservable
      rw [List.map_ofFn, List.sum_ofFn, List.length_ofFn]
      rfl
    simp only [hl]
    push_cast
    exact h
  refine ⟨by rw [key]; exact rayleigh_diagonal logψ, ?_⟩
  rw [key]
  refine Finset.sum_congr rfl fun s _ => ?_
  rw [absSigmaZ_eq]
  unfold sigmaZ
  push_cast
  rfl

/-- The hypotheses of `C85_range` are met. -/
example : ∃ x : List (Config (Fin 2) × ℂ), x ≠ [] ∧ ∀ p ∈ x, IsSpin p.1 :=
  ⟨[(fun _ => 1, 0)], by simp, by simp [IsSpin]⟩

/-! ### C86 -/

/-- The callbacks of `src/flowket/callbacks/exact`: `ExactLocalEnergy` (local_energy.py 5-10), `ExactSigmaZ`
(sigma_z.py 7-12) and `ExactObservableCallback` (observable.py 7-12) of an operator with tables `t`,
registered under a name. Simplification: `RuntimeStats` (runtime_stats.py), which writes keys `times/...`
only, is not modelled. -/
inductive ExactCallback where
  | energy (truth : Option ℝ) (inBatch : Bool)
  | sigmaZ (inBatch : Bool)
  | observable (t : Tables) (name : String) (inBatch : Bool)

/-- `add_energy_to_logs` (callbacks/exact/local_energy.py 12-17). Simplification: for a true energy of zero
numpy logs an infinity or a nan where the model logs zero; the theorems on the relative error exclude that
case. -/
noncomputable def addExactEnergy (truth : Option ℝ) (o : Obj (Config ι)) (logs : Logs) : Logs :=
  let logs := logs.put "energy/energy" o.arrays.energy.re
  let logs := logs.put "energy/local_energy_variance" o.arrays.variance
  match truth with
  | none => logs
  | some t => logs.put "energy/relative_error" ((t - o.arrays.energy.re) / t)

/-- `fdot` (exact/utils.py) of the values of an observable of single states with the probabilities. -/
noncomputable def exactMean (f : Config ι → ℝ) (o : Obj (Config ι)) : ℝ :=
  ∑ x : Fin o.setup.S, f (o.setup.states x) * o.arrays.probs x

/-- `add_sigma_z_logs` with the values of `_prepare_sigma_z_vals` (callbacks/exact/sigma_z.py 14-22). -/
noncomputable def addExactSigmaZ (o : Obj (Config ι)) (logs : Logs) : Logs :=
  (logs.put "observables/abs_sigma_z" (exactMean absSigmaZ o)).put "observables/sigma_z"
    (exactMean Callbacks.sigmaZ o)

/-- `add_observable_to_logs` (callbacks/exact/observable.py 14-16): `update_local_energy` of the
`ExactObservable` with tables `t` on the wave function arrays of the object. (The observable has its own
array for the energies; it is overwritten entirely before it is read, here the one of the object is
used.) -/
noncomputable def addExactObservable (t : Tables) (name : String) (o : Obj (Config ι)) (logs : Logs) : Logs :=
  logs.put ("observables/" ++ name) (updateObservable o.setup o.bs t o.arrays).energy.re

/-- `num_of_batch_until_full_cycle` (exact_variational.py 130). -/
def cycle (o : Obj (Config ι)) : ℕ := o.setup.S / o.bs

/-- `on_batch_end` (local_energy.py 19-23, sigma_z.py 24-28, observable.py 18-22). `ExactObservableCallback`
reads `self.generator`, which does not exist
(callbacks/exact/observable.py 21). -/
noncomputable def exactBatchEnd (o : Obj (Config ι)) (batch : ℕ) : ExactCallback → Logs → Except Err Logs
  | .energy truth inBatch, logs =>
    .ok (if inBatch ∧ batch % cycle o = 0 then addExactEnergy truth o logs else logs)
  | .sigmaZ inBatch, logs => .ok (if inBatch ∧ batch % cycle o = 0 then addExactSigmaZ o logs else logs)
  | .observable _ _ inBatch, logs => if inBatch then .error (.attributeError "generator") else .ok logs

/-- `on_epoch_end` (local_energy.py 25-29, sigma_z.py 30-34, observable.py 24-28). -/
noncomputable def exactEpochEnd (o : Obj (Config ι)) : ExactCallback → Logs → Logs
  | .energy truth inBatch, logs => if inBatch then logs else addExactEnergy truth o logs
  | .sigmaZ inBatch, logs => if inBatch then logs else addExactSigmaZ o logs
  | .observable t name inBatch, logs => if inBatch then logs else addExactObservable t name o logs

/-- The loop of `exact_evaluate` (evaluate.py 34-36). -/
noncomputable def exactCallbacks (o : Obj (Config ι)) : List ExactCallback → Logs → Except Err Logs
  | [], logs => .ok logs
  | cb :: rest, logs =>
    match exactBatchEnd o (cycle o) cb logs with
    | .error e => .error e
    | .ok logs => exactCallbacks o rest (exactEpochEnd o cb logs)

/-- `exact_evaluate` (evaluate.py 31-37) while the network is `net`. -/
noncomputable def exactEvaluate (o : Obj (Config ι)) (net : Config ι → ℂ) (cbs : List ExactCallback) :
    Except Err Logs :=
  exactCallbacks (o.update net) cbs []

/-- `default_wave_function_callbacks_factory` (callbacks/exact/__init__.py 8-12) without the times. -/
def defaultExact (truth : Option ℝ) (inBatch : Bool) : List ExactCallback :=
  [.energy truth inBatch, .sigmaZ inBatch]

theorem exactEvaluate_default (o : Obj (Config ι)) (net : Config ι → ℂ) (truth : Option ℝ) (inBatch : Bool) :
    exactEvaluate o net (defaultExact truth inBatch)
      = .ok (addExactSigmaZ (o.update net) (addExactEnergy truth (o.update net) [])) := by
  cases inBatch <;> simp [exactEvaluate, exactCallbacks, defaultExact, exactBatchEnd, exactEpochEnd]

/-- What the default callbacks are to report for the network `net`: the energy (Rayleigh quotient of `H`),
the variance of the local energies over the Born distribution, the relative error, the magnetisations. -/
structure ExactReport (H : Wave ι → Wave ι) (truth : Option ℝ) (net : Config ι → ℂ) (L : Logs) : Prop where
  energy : L.read "energy/energy" = some (Energy.rayleigh H fun s => Complex.exp (net s)).re
  variance : L.read "energy/local_energy_variance"
    = some (∑ s ∈ allSpins ι, born net s * ((H (fun s => Complex.exp (net s)) s / Complex.exp (net s)).re
        - (Energy.rayleigh H fun s => Complex.exp (net s)).re) ^ 2)
  error : ∀ t, truth = some t → t ≠ 0 → L.read "energy/relative_error"
    = some ((t - (Energy.rayleigh H fun s => Complex.exp (net s)).re) / t)
  noError : truth = none → L.read "energy/relative_error" = none
  sigma : L.read "observables/sigma_z" = some (Energy.rayleigh magnetisation fun s => Complex.exp (net s)).re
  abs : L.read "observables/abs_sigma_z"
    = some (∑ s ∈ allSpins ι, born net s * |(∑ i, (s i : ℝ)) / Fintype.card ι|)

theorem sum_states_real {N : ℕ} (e : ι ≃ Fin N) (hN : N ≤ 31) (g : Config ι → ℝ) :
    ∑ x : Fin (2 ^ N), g (spinState e x) = ∑ s ∈ allSpins ι, g s := by
  have := sum_states e hN fun s => (g s : ℂ)
  apply Complex.ofReal_injective
  push_cast
  exact this

theorem exactMean_born {N : ℕ} (e : ι ≃ Fin N) (hN : N ≤ 31)
    (op : (B : Nat) → (Fin B → Config ι) → Fin B → List (Row ι ℝ)) (R : ℕ) (o : Obj (Config ι))
    (hs : o.setup = spinSetup e op R) (net : Config ι → ℂ) (M : Matrix (Fin (2 ^ N)) (Fin (2 ^ N)) ℂ)
    (hres : Result (spinSetup e op R) M net o.arrays) (f : Config ι → ℝ) :
    exactMean f o = ∑ s ∈ allSpins ι, born net s * f s := by
  unfold exactMean
  rw [hs, ← sum_states_real e hN]
  refine Finset.sum_congr rfl fun x _ => ?_
  have h1 := hres.probs x
  rw [h1, mul_comm]
  unfold born
  rw [← sum_states_real e hN fun s => ‖Complex.exp (net s)‖ ^ 2]
  rfl

theorem report_of_result {N : ℕ} (e : ι ≃ Fin N) (hN : N ≤ 31)
    (op : (B : Nat) → (Fin B → Config ι) → Fin B → List (Row ι ℝ)) (R : ℕ) (rowsOf : Config ι → List (Row ι ℝ))
    (h : RowsOf op R rowsOf) (H : Wave ι → Wave ι) (hH : ∀ s, IsSpin s → ∀ ψ, applyRows (rowsOf s) ψ = H ψ s)
    (truth : Option ℝ) (o : Obj (Config ι)) (hs : o.setup = spinSetup e op R) (net : Config ι → ℂ)
    (hres : Result (spinSetup e op R) (opMatrix (spinSetup e op R) fun s => pairs (rowsOf s)) net o.arrays) :
    ExactReport H truth net (addExactSigmaZ o (addExactEnergy truth o [])) := by
  set ψ : Wave ι := fun s => Complex.exp (net s) with hψ
  have hr := rowWise_of e hN h
  have hpos : 0 < (spinSetup e op R).S := by show 0 < 2 ^ N; positivity
  have hen : o.arrays.energy.re = (Energy.rayleigh H ψ).re := by
    obtain ⟨o', ho', hE⟩ := exactEnergy_of e hN h H hH (2 ^ N) (by positivity) (Or.inl le_rfl)
    have hres' := result_after _ _ hr _ o' ho' [] net
    rw [← (hE [] net).1, hres.energy, hres'.energy]
    congr 1
    exact Finset.sum_congr rfl fun x _ => by rw [hres.energies, hres'.energies]
  have hm := exactMean_born e hN op R o hs net _ hres
  have hvar : o.arrays.variance = ∑ s ∈ allSpins ι, born net s * ((H ψ s / ψ s).re - (Energy.rayleigh H ψ).re) ^ 2 := by
    rw [hres.variance, ← sum_states_real e hN]
    refine Finset.sum_congr rfl fun x _ => ?_
    rw [hres.probs x, hres.naive x, Complex.sub_re, hen]
    have hmul := opMatrix_mulVec e hN h ψ x
    have hamp : amplitudes (spinSetup e op R) net = fun y : Fin (spinSetup e op R).S => ψ (spinState e y) := rfl
    rw [hamp, hmul, hH _ (spinState_spin e x)]
    congr 1
    unfold born
    rw [← sum_states_real e hN fun s => ‖Complex.exp (net s)‖ ^ 2]
    rfl
  refine ⟨?_, ?_, ?_, ?_, ?_, ?_⟩
  · cases truth <;> simp [addExactSigmaZ, addExactEnergy, read_put, hen, hψ]
  · cases truth <;> simp [addExactSigmaZ, addExactEnergy, read_put, hvar, hψ]
  · rintro t rfl _; simp [addExactSigmaZ, addExactEnergy, read_put, hen, hψ]
  · rintro rfl; simp [addExactSigmaZ, addExactEnergy, read_put, Logs.read]
  · have h2 : (Energy.rayleigh magnetisation ψ).re = exactMean sigmaZ o := by
      rw [hm, ← rayleigh_diagonal net, Complex.ofReal_re]
    rw [h2]
    cases truth <;> simp [addExactSigmaZ, addExactEnergy, read_put]
  · have h2 : ∑ s ∈ allSpins ι, born net s * |(∑ i, (s i : ℝ)) / Fintype.card ι| = exactMean absSigmaZ o := by
      rw [hm]
      refine Finset.sum_congr rfl fun s _ => ?_
      rw [absSigmaZ_eq]
      unfold sigmaZ
      push_cast
      rfl
    rw [h2]
    cases truth <;> simp [addExactSigmaZ, addExactEnergy, read_put]

/-- **C86**, default callbacks: whatever was evaluated before and in both logging modes, `exact_evaluate`
returns the energy of the current network (the Rayleigh quotient of the Hamiltonian), the variance of the
local energies over the Born distribution, and the exact magnetisations. At most 31 sites (see C01). -/
theorem C86_default {N : ℕ} (e : ι ≃ Fin N) (hN : N ≤ 31)
    (op : (B : Nat) → (Fin B → Config ι) → Fin B → List (Row ι ℝ)) (R : ℕ) (rowsOf : Config ι → List (Row ι ℝ))
    (h : RowsOf op R rowsOf) (H : Wave ι → Wave ι) (hH : ∀ s, IsSpin s → ∀ ψ, applyRows (rowsOf s) ψ = H ψ s)
    (batch : ℕ) (hb : 0 < batch) (hacc : 2 ^ N ≤ batch ∨ batch ∣ 2 ^ N)
    (truth : Option ℝ) (inBatch : Bool) (nets : List (Config ι → ℂ)) (net : Config ι → ℂ) :
    let ψ : Wave ι := fun s => Complex.exp (net s)
    let E := (Energy.rayleigh H ψ).re
    ∃ o, Obj.new (spinSetup e op R) batch = .ok o ∧
    ∃ L, exactEvaluate (nets.foldl Obj.update o) net (defaultExact truth inBatch) = .ok L ∧
      L.read "energy/energy" = some E ∧
      L.read "energy/local_energy_variance"
        = some (∑ s ∈ allSpins ι, born net s * ((H ψ s / ψ s).re - E) ^ 2) ∧
      (∀ t, truth = some t → t ≠ 0 → L.read "energy/relative_error" = some ((t - E) / t)) ∧
      (truth = none → L.read "energy/relative_error" = none) ∧
      L.read "observables/sigma_z" = some (Energy.rayleigh magnetisation ψ).re ∧
      L.read "observables/abs_sigma_z" = some (∑ s ∈ allSpins ι, born net s * |(∑ i, (s i : ℝ)) / Fintype.card ι|) := by
  intro ψ E
  obtain ⟨o, ho, hE⟩ := exactEnergy_of e hN h H hH batch hb hacc
  have hr := rowWise_of e hN h
  have hs : (after o nets net).setup = spinSetup e op R := (foldl_update o nets).1.trans (new_ok _ _ hr batch o ho).1
  have hrep := report_of_result e hN op R rowsOf h H hH truth (after o nets net) hs net
    (result_after _ _ hr batch o ho nets net)
  exact ⟨o, ho, _, exactEvaluate_default _ net truth inBatch, hrep.energy, hrep.variance,
    hrep.error, hrep.noError, hrep.sigma, hrep.abs⟩

omit [Fintype ι] [DecidableEq ι] in
/-- The energy that `updateObservable` computes depends on the wave function and its norm only. -/
theorem updateObservable_energy (s : Setup (Config ι)) (bs q : ℕ) (hbs : 0 < bs) (hS : s.S = q * bs) (t : Tables)
    (a : Arrays) : (updateObservable s bs t a).energy = ∑ x : Fin s.S, sliceEnergies t a 0 x := by
  have h : (updateObservable s bs t a).energy = ∑ x : Fin s.S,
      ((pyRange s.S bs).foldl (fun e i => setSlice e i bs (sliceEnergies t a i)) a.energies) x := rfl
  rw [h]
  refine Finset.sum_congr rfl fun x _ => ?_
  have := foldl_setSlice (fun x => sliceEnergies t a 0 x) (fun i k => sliceEnergies t a i k) bs hbs
    (fun i k _ => by unfold sliceEnergies; simp only [Nat.zero_add]) a.energies q x
  rw [← hS, if_pos x.isLt] at this
  exact this

/-- **C86**, further observables, what holds: with logging at the end of epochs, the callback of a second
operator `A` (of the same lattice) adds the expectation of `A` in the current network. -/
theorem C86_observable_partial {N : ℕ} (e : ι ≃ Fin N) (hN : N ≤ 31)
    (op opA : (B : Nat) → (Fin B → Config ι) → Fin B → List (Row ι ℝ)) (R RA : ℕ)
    (rowsOf rowsA : Config ι → List (Row ι ℝ)) (h : RowsOf op R rowsOf) (hA : RowsOf opA RA rowsA)
    (A : Wave ι → Wave ι) (hAw : ∀ s, IsSpin s → ∀ ψ, applyRows (rowsA s) ψ = A ψ s)
    (batch : ℕ) (o oA : Obj (Config ι)) (ho : Obj.new (spinSetup e op R) batch = .ok o)
    (hoA : Obj.new (spinSetup e opA RA) batch = .ok oA) (name : String)
    (nets : List (Config ι → ℂ)) (net : Config ι → ℂ) :
    ∃ L, exactEvaluate (nets.foldl Obj.update o) net [.observable oA.tables name false] = .ok L ∧
      L.read ("observables/" ++ name) = some (Energy.rayleigh A fun s => Complex.exp (net s)).re := by
  have hr := rowWise_of e hN h
  have hrA := rowWise_of e hN hA
  obtain ⟨hset, hpos, hbs, ⟨q, hq⟩, -, hmin⟩ := new_ok _ _ hr batch o ho
  obtain ⟨hsetA, hposA, hbsA, ⟨qA, hqA⟩, -, hminA⟩ := new_ok _ _ hrA batch oA hoA
  have hbatch : 0 < batch ∧ (2 ^ N ≤ batch ∨ batch ∣ 2 ^ N) :=
    (C22_batch_independent _ _ hrA hposA batch).1.1 ⟨oA, hoA⟩
  obtain ⟨oA', hoA', hE⟩ := exactEnergy_of e hN hA A hAw batch hbatch.1 hbatch.2
  rw [hoA] at hoA'
  injection hoA' with hoA'
  subst hoA'
  refine ⟨_, by simp [exactEvaluate, exactCallbacks, exactBatchEnd, exactEpochEnd]; rfl, ?_⟩
  unfold addExactObservable
  rw [read_put, if_pos rfl]
  congr 2
  rw [← (hE [] net).1]
  have hbseq : o.bs = oA.bs := by rw [hmin, hminA]; rfl
  obtain ⟨f1, f2, f3⟩ := foldl_update o nets
  set o1 := nets.foldl Obj.update o with ho1
  have e1 : (o1.update net).setup = spinSetup e op R := f1.trans hset
  have e2 : (o1.update net).bs = o.bs := f2
  rw [e1, e2, updateObservable_energy _ o.bs q hbs hq]
  have hqA' : (spinSetup e opA RA).S = qA * oA.bs := hqA
  have hupd : (after oA [] net).arrays.energy
      = ∑ x : Fin (spinSetup e opA RA).S, sliceEnergies oA.tables (updateWaveFunction oA.setup oA.bs net oA.arrays) 0 x := by
    have h1 : (after oA [] net).arrays.energy
        = (updateObservable oA.setup oA.bs oA.tables (updateWaveFunction oA.setup oA.bs net oA.arrays)).energy := rfl
    rw [h1, hsetA, updateObservable_energy _ oA.bs qA hbsA hqA']
  rw [hupd]
  have hcl := machineUpdated_closed (spinSetup e op R) o.bs hbs q hq hpos o1.tables net o1.arrays
  have hclA := machineUpdated_closed (spinSetup e opA RA) oA.bs hbsA qA hqA hposA oA.tables net oA.arrays
  have htab := (new_ok _ _ hrA batch oA hoA).2.2.2.2.1
  show ∑ x : Fin (2 ^ N), _ = ∑ x : Fin (2 ^ N), _
  refine Finset.sum_congr rfl fun x _ => ?_
  have hw1 : ∀ y < 2 ^ N, (o1.update net).arrays.waveFunction y = net (spinState e y) := by
    intro y hy
    have : (o1.update net).arrays = machineUpdated (spinSetup e op R) o.bs o1.tables net o1.arrays := by
      show machineUpdated o1.setup o1.bs o1.tables net o1.arrays = _
      rw [f1, f2, hset]
    rw [this]
    exact hcl.wave y hy
  have hw2 : ∀ y < 2 ^ N, (updateWaveFunction oA.setup oA.bs net oA.arrays).waveFunction y = net (spinState e y) := by
    intro y hy
    rw [hsetA]
    exact hclA.wave y hy
  have hn1 : (o1.update net).arrays.normSq = ∑ y : Fin (2 ^ N), ‖Complex.exp (net (spinState e y))‖ ^ 2 := by
    have : (o1.update net).arrays = machineUpdated (spinSetup e op R) o.bs o1.tables net o1.arrays := by
      show machineUpdated o1.setup o1.bs o1.tables net o1.arrays = _
      rw [f1, f2, hset]
    rw [this]
    exact hcl.normSq
  have hn2 : (updateWaveFunction oA.setup oA.bs net oA.arrays).normSq
      = ∑ y : Fin (2 ^ N), ‖Complex.exp (net (spinState e y))‖ ^ 2 := by
    rw [hsetA]
    exact hclA.normSq
  unfold sliceEnergies
  dsimp only
  rw [hn1, hn2]
  congr 1
  refine Finset.sum_congr rfl fun j _ => ?_
  have hc : ∀ j, oA.tables.idx j (0 + x) < 2 ^ N := fun j => by
    rw [Nat.zero_add]; exact htab.code x x.isLt j
  rw [hw1 _ (hc j), hw2 _ (hc j), hw1 _ (hc 0), hw2 _ (hc 0)]

/-- **C86 is false of the code** for further observables with logging at the end of batches, the default
of `ExactObservableCallback`: it raises an AttributeError at the end of every batch. -/
theorem C86_violated_observable (o : Obj (Config ι)) (net : Config ι → ℂ) (t : Tables) (name : String)
    (batch : ℕ) (logs : Logs) :
    exactBatchEnd o batch (.observable t name true) logs = .error (.attributeError "generator") ∧
    exactEvaluate o net [.observable t name true] = .error (.attributeError "generator") := by
  constructor
  · rfl
  · simp [exactEvaluate, exactCallbacks, exactBatchEnd]

/-- The hypotheses are met by the Ising chain of three sites with batches of four states. -/
example (h j : ℝ) : RowsOf (ι := Fin 3) (fun _ sample => isingFindConn1 (.float h) j true sample) 4
    (fun s => isingFindConn1 (.float h) j true (fun _ : Fin 1 => s) 0) ∧ (4 ∣ 2 ^ 3) :=
  ⟨rowsOf_ising_chain 3 h j true, by norm_num⟩

end Verif.Callbacks
