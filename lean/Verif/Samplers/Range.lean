import Verif.Energy.Range
import Verif.Samplers.RunProps
import Verif.Operators.Netket
import Verif.Energy.Unbiased

/-!
# C104: Monte Carlo results and the range of floating point numbers

The accept decisions of the Metropolis-Hastings samplers (`src/flowket/samplers/metropolis_hastings.py`) and the
local energies (`src/flowket/observables/monte_carlo/operator.py`) in the arithmetic of C101: exponentials and
products overflow or underflow, and are exact otherwise.
-/
namespace Verif.Metropolis.Range

open Verif.Operators Verif.Energy Verif.Energy.Range

variable {ι : Type} {C : Nat}

/-! ### Model: sampling -/

/-- `numpy.greater(ratio, uniform)`, where `none` is plus infinity. -/
noncomputable def exceeds (ratio : Option ℝ) (u : ℝ) : Bool :=
  match ratio with
  | none => true
  | some r => decide (r > u)

/-- The last lines of both `_sweep` methods (metropolis_hastings.py 109-113, 186-190): `numpy.exp` of the
logarithm of the ratio, comparison, and transfer of the accepted candidates. -/
noncomputable def acceptStep (L : Limits) (logRatio : Fin C → ℝ) (cand : Fin C → Config ι) (candValues : Fin C → ℂ)
    (u : Fin C → ℝ) (st : State ι C) : State ι C × Nat :=
  let accepts : Fin C → Bool := fun c => exceeds (expReal L (logRatio c)) (u c)
  ({ sample := fun c => if accepts c then cand c else st.sample c
     values := fun c => if accepts c then candValues c else st.values c },
   (Finset.univ.filter fun c => accepts c = true).card)

/-- `MetropolisHastingsSymmetricProposal._sweep` (metropolis_hastings.py 99-113). -/
noncomputable def sweepSymmetric (L : Limits) (ψ : Config ι → ℂ) (cand : Fin C → Config ι) (u : Fin C → ℝ) (st : State ι C) :
    State ι C × Nat :=
  let candValues := fun c => ψ (cand c)
  let logRatio : Fin C → ℝ := fun c => min (((candValues c).re - (st.values c).re) * 2) 0
  acceptStep L logRatio cand candValues u st

/-- `MetropolisHastingsHamiltonian._sweep` (metropolis_hastings.py 173-190); arguments as in the exact model. -/
noncomputable def sweepHamiltonian (L : Limits) (ψ : Config ι → ℂ) (find find' : (Fin C → Config ι) → Fin C → List (Row ι ℝ))
    (k : Fin C → Nat) (u : Fin C → ℝ) (st : State ι C) : Option (State ι C × Nat) :=
  let rows := find st.sample
  (allSome fun c => (possible (rows c))[k c]?).bind fun cand =>
    let rows' := find' cand
    let candValues := fun c => ψ (cand c)
    let logRatio : Fin C → ℝ := fun c => ((candValues c).re - (st.values c).re) * 2 +
      Real.log ((numConn (rows c) : ℝ) / (numConn (rows' c) : ℝ))
    some (acceptStep L logRatio cand candValues u st)

/-- The sweeps of the symmetric samplers; candidates may depend on state and random numbers in any way
(`_next_candidates`, metropolis_hastings.py 122-164). -/
noncomputable def symmetricSweeps (L : Limits) (cand : Nat → State ι C → Fin C → Config ι) (u : Nat → Fin C → ℝ)
    (ψ : Config ι → ℂ) : Nat → Sweep ι C := fun t st => some (sweepSymmetric L ψ (cand t st) (u t) st)

/-- The sweeps of the Hamiltonian sampler (metropolis_hastings.py 173-190). -/
noncomputable def hamiltonianSweeps (L : Limits) (find find' : Nat → (Fin C → Config ι) → Fin C → List (Row ι ℝ))
    (k : Nat → State ι C → Fin C → Nat) (u : Nat → Fin C → ℝ) (ψ : Config ι → ℂ) : Nat → Sweep ι C := fun t st =>
  sweepHamiltonian L ψ (find t) (find' t) (k t st) (u t) st

/-! ### Model: local energies -/

section
variable {σ : Type} {R B : Nat}

/-- Sum over `rows` of the element times the exponential of the difference to the value `v0`
(operator.py 31-33, 40-42). -/
noncomputable def rowSum (L : Limits) (logψ : σ → ℂ) (a : Answer σ R B) (b : Fin B) (rows : List (Fin R)) (v0 : ℂ) : Option ℂ :=
  total L (rows.map fun r => times L (a.mel r b) (result L (Complex.exp (logψ (a.conn r b) - v0))))

/-- The local value of sample `b` (operator.py 20-54). Few used entries: the used rows, compared with the first of
them. Otherwise: all rows, compared with row zero. `none`: not a finite number, or an exception because there is
no row. The bookkeeping of the flat arrays is left out (C17: it has no effect). -/
noncomputable def localValue (L : Limits) (logψ : σ → ℂ) (a : Answer σ R B) (b : Fin B) : Option ℂ :=
  if 100 * usedCount a < 95 * (R * B) then
    (usedRows a b).head?.bind fun r => rowSum L logψ a b (usedRows a b) (logψ (a.conn r b))
  else (List.finRange R).head?.bind fun r => rowSum L logψ a b (List.finRange R) (logψ (a.conn r b))

/-- The rows whose amplitudes are computed for sample `b` (operator.py 49-54). -/
def evaluated (a : Answer σ R B) (b : Fin B) : List (Fin R) :=
  if 100 * usedCount a < 95 * (R * B) then usedRows a b else List.finRange R

end

/-! ### C104, sampling -/

/-- **C104, one decision.** A candidate is never accepted in error. It is rejected in error only if the uniform number
and the ratio of the probabilities are both below the smallest number (among the multiples of `2⁻⁵³` that
numpy returns, only zero is). -/
theorem C104_decision (L : Limits) (r u : ℝ) (hu : 0 ≤ u) (hu1 : u < 1) :
    (exceeds (expReal L r) u = true → Real.exp r > u) ∧
    (Real.exp r > u → exceeds (expReal L r) u = false → u < L.small ∧ Real.exp r < L.small) := by
  unfold expReal
  split
  · rename_i hb
    have e : exceeds (some (flush L (Real.exp r))) u = decide (flush L (Real.exp r) > u) := rfl
    rw [e, decide_eq_true_eq, decide_eq_false_iff_not]
    unfold flush
    split
    · rename_i hs
      exact ⟨fun h => absurd h (not_lt.2 hu), fun h _ => ⟨h.trans hs, hs⟩⟩
    · exact ⟨fun h => h, fun h h' => absurd h h'⟩
  · rename_i hb
    have := L.big_ge
    have h1 : Real.exp r > u := by
      have := not_le.1 hb
      linarith
    exact ⟨fun _ => h1, fun _ h' => by cases h'⟩

theorem exceeds_eq (L : Limits) (r u : ℝ) (hu : L.small ≤ u) (hu1 : u < 1) :
    exceeds (expReal L r) u = decide (Real.exp r > u) := by
  obtain ⟨h1, h2⟩ := C104_decision L r u (L.small_pos.le.trans hu) hu1
  by_cases h : Real.exp r > u
  · rw [decide_eq_true h]
    by_contra hf
    exact absurd (h2 h (by simpa using hf)).1 (not_lt.2 hu)
  · rw [decide_eq_false h]
    by_contra hf
    exact h (h1 (by simpa using hf))

theorem acceptStep_eq (L : Limits) (logRatio : Fin C → ℝ) (cand : Fin C → Config ι) (candValues : Fin C → ℂ)
    (u : Fin C → ℝ) (hu : ∀ c, L.small ≤ u c ∧ u c < 1) (st : State ι C) :
    acceptStep L logRatio cand candValues u st =
      Metropolis.acceptStep (fun c => Real.exp (logRatio c)) cand candValues u st := by
  unfold acceptStep Metropolis.acceptStep
  have : ∀ c, exceeds (expReal L (logRatio c)) (u c) = decide (Real.exp (logRatio c) > u c) := fun c =>
    exceeds_eq L _ _ (hu c).1 (hu c).2
  simp only [this]

/-- **C104, whole runs.** Unless a uniform number is below the smallest number, a sampler goes through exactly the
states that the exact rule prescribes, however large or small the amplitudes are: same batches, same chains, same
decisions, in every sequence of calls and with machines that change in between. -/
theorem C104_runs (L : Limits) (u : Nat → Fin C → ℝ) (hu : ∀ t c, L.small ≤ u t c ∧ u t c < 1) (batchSize unused discard : Nat)
    (calls : List (NextCall ι C)) (st : Nat × State ι C) :
    (∀ cand, run (symmetricSweeps L cand u) batchSize unused discard calls st =
      run (fun ψ => Metropolis.symmetricSweeps ψ cand u) batchSize unused discard calls st) ∧
    ∀ find find' k, run (hamiltonianSweeps L find find' k u) batchSize unused discard calls st =
      run (fun ψ => Metropolis.hamiltonianSweeps ψ find find' k u) batchSize unused discard calls st := by
  constructor
  · intro cand
    have : symmetricSweeps L cand u = fun ψ => Metropolis.symmetricSweeps ψ cand u := by
      funext ψ t st
      unfold symmetricSweeps Metropolis.symmetricSweeps sweepSymmetric Metropolis.sweepSymmetric
      dsimp only
      rw [acceptStep_eq L _ _ _ _ (hu t)]
    rw [this]
  · intro find find' k
    have : hamiltonianSweeps L find find' k u = fun ψ => Metropolis.hamiltonianSweeps ψ find find' k u := by
      funext ψ t st
      unfold hamiltonianSweeps Metropolis.hamiltonianSweeps sweepHamiltonian Metropolis.sweepHamiltonian
      dsimp only
      congr 1
      funext cand
      rw [acceptStep_eq L _ _ _ _ (hu t)]
    rw [this]

/-- The multiples of `2⁻⁵³` between zero and one, which numpy's generator returns, meet the hypothesis for `float64`. -/
example (k : Nat) (hk : 0 < k) (hk' : k < 2 ^ 53) : double.small ≤ (k : ℝ) * 2⁻¹ ^ 53 ∧ (k : ℝ) * 2⁻¹ ^ 53 < 1 := by
  constructor
  · have h1 : (1 : ℝ) ≤ k := by exact_mod_cast hk
    have h2 : double.small ≤ 2⁻¹ ^ 53 := by
      show ((2 : ℝ) ^ 1074)⁻¹ ≤ 2⁻¹ ^ 53
      rw [← inv_pow]
      exact pow_le_pow_of_le_one (by norm_num) (by norm_num) (by norm_num)
    have h3 : (0 : ℝ) < 2⁻¹ ^ 53 := by positivity
    nlinarith
  · have h1 : (k : ℝ) < 2 ^ 53 := by exact_mod_cast hk'
    have h3 : (0 : ℝ) < 2⁻¹ ^ 53 := by positivity
    have h4 : (2 : ℝ) ^ 53 * 2⁻¹ ^ 53 = 1 := by norm_num
    nlinarith

/-! ### C104, local energies -/

section
variable {σ : Type} {R B : Nat}

theorem evaluated_head (a : Answer σ R B) (sample : Fin B → σ) (h : Contracted a sample) (b : Fin B) :
    (evaluated a b).head? = some ⟨0, h.pos⟩ := by
  unfold evaluated
  split
  · exact usedRows_head a sample h b
  · obtain ⟨k, rfl⟩ : ∃ k, R = k + 1 := ⟨R - 1, by have := h.pos; omega⟩
    rw [List.finRange_succ]
    rfl

theorem localValue_eq (L : Limits) (logψ : σ → ℂ) (a : Answer σ R B) (sample : Fin B → σ) (h : Contracted a sample) (b : Fin B) :
    localValue L logψ a b = rowSum L logψ a b (evaluated a b) (logψ (sample b)) := by
  have e : localValue L logψ a b =
      (evaluated a b).head?.bind fun r => rowSum L logψ a b (evaluated a b) (logψ (a.conn r b)) := by
    unfold localValue evaluated
    split <;> rfl
  rw [e, evaluated_head a sample h b, Option.bind_some, (h.first b).1]

theorem sum_evaluated {M : Type*} [AddCommMonoid M] (a : Answer σ R B) (b : Fin B) (f : Fin R → M)
    (hf : ∀ r, a.use r b = false → f r = 0) : ((evaluated a b).map f).sum = ∑ r, f r := by
  unfold evaluated
  split
  · exact sum_used a b f hf
  · rw [← List.ofFn_eq_map, List.sum_ofFn]

theorem rowSum_some (L : Limits) (logψ : σ → ℂ) (a : Answer σ R B) (b : Fin B) (v0 : ℂ) (M A : ℝ) (hM : 0 ≤ M)
    (hbig : M ≤ L.big) (rows : List (Fin R)) (hrows : ∀ r ∈ rows, ‖Complex.exp (logψ (a.conn r b) - v0)‖ ≤ M)
    (hA : (rows.map fun r => ‖a.mel r b‖).sum ≤ A) (hAM : A * M ≤ L.big) :
    ∃ E, rowSum L logψ a b rows v0 = some E ∧
      ‖E - (rows.map fun r => a.mel r b * Complex.exp (logψ (a.conn r b) - v0)).sum‖ ≤ (A + rows.length) * L.small := by
  have hterm : ∀ r ∈ rows, ∃ w, times L (a.mel r b) (result L (Complex.exp (logψ (a.conn r b) - v0))) = some w ∧
      ‖w‖ ≤ ‖a.mel r b‖ * M ∧ ‖w - a.mel r b * Complex.exp (logψ (a.conn r b) - v0)‖ ≤ (‖a.mel r b‖ + 1) * L.small := by
    intro r hr
    obtain ⟨v, hv, hv1, hv2⟩ := result_some ((hrows r hr).trans hbig)
    have hle : ‖a.mel r b‖ ≤ A := by
      refine le_trans ?_ hA
      exact List.single_le_sum (l := rows.map fun r => ‖a.mel r b‖) (by
        intro x hx
        obtain ⟨r, -, rfl⟩ := List.mem_map.1 hx
        exact norm_nonneg _) _ (List.mem_map.2 ⟨r, hr, rfl⟩)
    have hmv : ‖a.mel r b * v‖ ≤ ‖a.mel r b‖ * M := by
      rw [norm_mul]
      exact mul_le_mul_of_nonneg_left (hv2.trans (hrows r hr)) (norm_nonneg _)
    obtain ⟨w, hw, hw1, hw2⟩ := result_some (hmv.trans ((mul_le_mul_of_nonneg_right hle hM).trans hAM))
    refine ⟨w, ?_, hw2.trans hmv, ?_⟩
    · unfold times
      rw [hv]
      exact hw
    · have e : w - a.mel r b * Complex.exp (logψ (a.conn r b) - v0) =
          (w - a.mel r b * v) + a.mel r b * (v - Complex.exp (logψ (a.conn r b) - v0)) := by ring
      rw [e]
      refine (norm_add_le _ _).trans ?_
      rw [norm_mul]
      have := mul_le_mul_of_nonneg_left hv1 (norm_nonneg (a.mel r b))
      linarith
  choose! w hw1 hw2 hw3 using hterm
  have hsum : ((rows.map w).map fun z => ‖z‖).sum ≤ A * M := by
    rw [List.map_map]
    refine (List.sum_le_sum (g := fun r => ‖a.mel r b‖ * M) fun r hr => hw2 r hr).trans ?_
    rw [List.sum_map_mul_right]
    exact mul_le_mul_of_nonneg_right hA hM
  refine ⟨(rows.map w).sum, ?_, ?_⟩
  · unfold rowSum total
    have e : (rows.map fun r => times L (a.mel r b) (result L (Complex.exp (logψ (a.conn r b) - v0)))) =
        (rows.map w).map some := by
      rw [List.map_map]
      exact List.map_congr_left fun r hr => hw1 r hr
    rw [e, foldl_plus_some _ _ (by rw [norm_zero, zero_add]; exact hsum.trans hAM), zero_add]
  · have herr : ∀ l : List (Fin R), (∀ r ∈ l, ‖w r - a.mel r b * Complex.exp (logψ (a.conn r b) - v0)‖ ≤
        (‖a.mel r b‖ + 1) * L.small) →
        ‖(l.map w).sum - (l.map fun r => a.mel r b * Complex.exp (logψ (a.conn r b) - v0)).sum‖ ≤
          ((l.map fun r => ‖a.mel r b‖).sum + l.length) * L.small := by
      intro l
      induction l with
      | nil => intro _; simp
      | cons r l ih =>
        intro h
        have h1 := h r List.mem_cons_self
        have h2 := ih fun r' hr' => h r' (List.mem_cons_of_mem _ hr')
        simp only [List.map_cons, List.sum_cons, List.length_cons]
        rw [add_sub_add_comm]
        refine (norm_add_le _ _).trans ?_
        push_cast
        linarith
    refine (herr rows hw3).trans (mul_le_mul_of_nonneg_right ?_ L.small_pos.le)
    linarith

/-- **C104, proved part: local energies.** If the sample is not less probable than any evaluated connection by more
than a factor `M²`, and `M` and `M` times the sum of the elements are representable, then the local energy
is finite and differs from the exact one by at most the given number of smallest numbers. The size of the amplitudes
themselves does not matter. -/
theorem C104_energy_partial (L : Limits) (logψ : σ → ℂ) (a : Answer σ R B) (sample : Fin B → σ) (h : Contracted a sample)
    (b : Fin B) (M : ℝ) (hM : 0 ≤ M)
    (hrows : ∀ r ∈ evaluated a b, ‖Complex.exp (logψ (a.conn r b))‖ ≤ M * ‖Complex.exp (logψ (sample b))‖)
    (hbig : M ≤ L.big) (hAM : (∑ r, ‖a.mel r b‖) * M ≤ L.big) :
    ∃ E, localValue L logψ a b = some E ∧
      ‖E - (∑ r, a.mel r b * Complex.exp (logψ (a.conn r b))) / Complex.exp (logψ (sample b))‖ ≤
        (∑ r, ‖a.mel r b‖ + R) * L.small := by
  rw [localValue_eq L logψ a sample h]
  have hlen : (evaluated a b).length ≤ R := by
    unfold evaluated
    split
    · unfold usedRows
      exact (List.length_filter_le _ _).trans (by simp)
    · simp
  have hA := sum_evaluated a b (fun r => ‖a.mel r b‖) fun r hr => by rw [h.unused r b hr, norm_zero]
  obtain ⟨E, hE, herr⟩ := rowSum_some L logψ a b (logψ (sample b)) M _ hM hbig (evaluated a b) (by
    intro r hr
    rw [Complex.exp_sub, norm_div, div_le_iff₀ (by simp [Complex.exp_ne_zero])]
    exact hrows r hr) hA.le hAM
  refine ⟨E, hE, ?_⟩
  rw [sum_evaluated a b (fun r => a.mel r b * Complex.exp (logψ (a.conn r b) - logψ (sample b)))
    fun r hr => by rw [h.unused r b hr, zero_mul]] at herr
  have e : (∑ r, a.mel r b * Complex.exp (logψ (a.conn r b))) / Complex.exp (logψ (sample b)) =
      ∑ r, a.mel r b * Complex.exp (logψ (a.conn r b) - logψ (sample b)) := by
    rw [Finset.sum_div]
    refine Finset.sum_congr rfl fun r _ => ?_
    rw [Complex.exp_sub, mul_div_assoc]
  rw [e]
  refine herr.trans (mul_le_mul_of_nonneg_right ?_ L.small_pos.le)
  have : ((evaluated a b).length : ℝ) ≤ R := by exact_mod_cast hlen
  linarith

/-- **C104, proved part: a factor in front of the wave function.** Local energies do not notice it, whatever overflows
or underflows. -/
theorem C104_factor_partial (L : Limits) (logψ : σ → ℂ) (c : ℂ) (a : Answer σ R B) (b : Fin B) :
    localValue L (fun x => logψ x + c) a b = localValue L logψ a b := by
  have e : ∀ rows v0, rowSum L (fun x => logψ x + c) a b rows (v0 + c) = rowSum L logψ a b rows v0 := by
    intro rows v0
    unfold rowSum
    simp only [add_sub_add_right_eq_sub]
  unfold localValue
  simp only [e]

/-- **C104 fails for unlikely samples.** If an evaluated amplitude exceeds the amplitude of the sample by more than the
largest number, the local energy is not a finite number, even if the element is zero. -/
theorem C104_violated_overflow (L : Limits) (logψ : σ → ℂ) (a : Answer σ R B) (sample : Fin B → σ) (h : Contracted a sample)
    (b : Fin B) (r : Fin R) (hr : r ∈ evaluated a b) (him : (logψ (a.conn r b)).im = (logψ (sample b)).im)
    (hbig : L.big * ‖Complex.exp (logψ (sample b))‖ < ‖Complex.exp (logψ (a.conn r b))‖) :
    localValue L logψ a b = none := by
  rw [localValue_eq L logψ a sample h]
  unfold rowSum total
  refine foldl_plus_mem (List.mem_map.2 ⟨r, hr, ?_⟩) _
  have hres : result L (Complex.exp (logψ (a.conn r b) - logψ (sample b))) = none := by
    unfold result
    rw [if_neg]
    intro hin
    have hre : (Complex.exp (logψ (a.conn r b) - logψ (sample b))).re =
        ‖Complex.exp (logψ (a.conn r b) - logψ (sample b))‖ := by
      rw [Complex.exp_re, Complex.norm_exp, Complex.sub_im, him, sub_self, Real.cos_zero, mul_one]
    have h1 := hin.1
    rw [hre, abs_of_nonneg (norm_nonneg _), Complex.exp_sub, norm_div, div_le_iff₀ (by simp [Complex.exp_ne_zero])] at h1
    exact absurd hbig (not_lt.2 h1)
  unfold times
  rw [hres]
  rfl

end

/-! ### C104, samples of the wave function -/

section
variable [DecidableEq ι] [Fintype ι]

/-- Specification: the local energy of sample `b` is a finite number and differs from the exact value `(Hψ)(s)/ψ(s)`
by at most `ε`. -/
def Accurate {R B : Nat} (L : Limits) (ε : ℝ) (H : Wave ι → Wave ι) (logψ : Config ι → ℂ) (a : Answer (Config ι) R B)
    (sample : Fin B → Config ι) (b : Fin B) : Prop :=
  ∃ E, localValue L logψ a b = some E ∧ ‖E - localEnergy H logψ (sample b)‖ ≤ ε

open Classical in
/-- Probability that a batch of `B` independent samples of `|ψ|²` has a sample with an inaccurate local energy. -/
noncomputable def failure {R : Nat} (L : Limits) (ε : ℝ) (H : Wave ι → Wave ι) (logψ : Config ι → ℂ) (B : Nat)
    (find : (Fin B → Config ι) → Answer (Config ι) R B) : ℝ :=
  expect (allSpins ι) (born logψ) B fun sample => if ∀ b, Accurate L ε H logψ (find sample) sample b then 0 else 1

/-- Over all configurations together, a configuration is connected at most `K` times. -/
def Flow (rows : Config ι → List (Row ι ℝ)) (K : Nat) : Prop :=
  ∀ f : Config ι → ℝ, (∀ s, 0 ≤ f s) →
    ∑ s ∈ allSpins ι, ((rows s).map fun r => f r.conn).sum ≤ K * ∑ s ∈ allSpins ι, f s

theorem flow_nil : Flow (ι := ι) (fun _ => []) 0 := fun f _ => by simp

theorem flow_append {r1 r2 : Config ι → List (Row ι ℝ)} {K1 K2 : Nat} (h1 : Flow r1 K1) (h2 : Flow r2 K2) :
    Flow (fun s => r1 s ++ r2 s) (K1 + K2) := by
  intro f hf
  simp only [List.map_append, List.sum_append]
  rw [Finset.sum_add_distrib]
  push_cast
  have := h1 f hf
  have := h2 f hf
  linarith

theorem flow_flatMap {α : Type} (l : List α) {rows : α → Config ι → List (Row ι ℝ)} {K : Nat}
    (h : ∀ p, Flow (rows p) K) : Flow (fun s => l.flatMap fun p => rows p s) (l.length * K) := by
  induction l with
  | nil => simpa using flow_nil
  | cons p l ih =>
    have := flow_append (h p) ih
    simp only [List.flatMap_cons, List.length_cons]
    rwa [add_mul, one_mul, add_comm]

theorem flow_single {row : Config ι → Row ι ℝ} (hs : ∀ s, IsSpin s → IsSpin (row s).conn)
    (hinj : ∀ s t, IsSpin s → IsSpin t → (row s).conn = (row t).conn → s = t) : Flow (fun s => [row s]) 1 := by
  intro f hf
  simp only [List.map_singleton, List.sum_singleton, Nat.cast_one, one_mul]
  rw [← Finset.sum_image (s := allSpins ι) (g := fun s => (row s).conn) (f := f) (by
    intro s hs t ht h
    exact hinj s t ((mem_allSpins s).1 hs) ((mem_allSpins t).1 ht) h)]
  refine Finset.sum_le_sum_of_subset_of_nonneg ?_ fun s _ _ => hf s
  intro t ht
  obtain ⟨s, h, rfl⟩ := Finset.mem_image.1 ht
  exact (mem_allSpins _).2 (hs s ((mem_allSpins s).1 h))

theorem flow_replicate (k : Nat) {row : Config ι → Row ι ℝ} (h : Flow (fun s => [row s]) 1) :
    Flow (fun s => List.replicate k (row s)) k := by
  induction k with
  | zero => simpa using flow_nil
  | succ k ih =>
    have := flow_append h ih
    rw [add_comm] at this
    exact this

omit [Fintype ι] in
theorem contracted_ofRows {R B : Nat} {rows : Fin B → List (Row ι ℝ)} {sample : Fin B → Config ι}
    (hc : ∀ b, Contract (sample b) R (rows b)) (hR : 0 < R) :
    Contracted (Answer.ofRows R rows fun b => (hc b).count) sample := by
  refine ⟨hR, ?_, ?_⟩
  · intro b
    obtain ⟨mel, hm⟩ := (hc b).first
    have h0 : (rows b)[0]'(by rw [(hc b).count]; exact hR) = ⟨sample b, mel, true⟩ := by
      rw [List.head?_eq_getElem?, List.getElem?_eq_getElem (by rw [(hc b).count]; exact hR)] at hm
      exact Option.some.inj hm
    unfold Answer.ofRows
    simp only [h0, and_self]
  · intro r b hu
    have := (hc b).unused _ (List.getElem_mem (by rw [(hc b).count]; exact r.isLt)) hu
    simp only [Answer.ofRows, this, Complex.ofReal_zero]

/-- The probability of a sample that is less probable than one of its connections by more than `M²`. -/
theorem born_unlikely (logψ : Config ι → ℂ) {rows : Config ι → List (Row ι ℝ)} {K : Nat} (hflow : Flow rows K) (M : ℝ) (hM : 0 < M)
    (bad : Config ι → Prop) [DecidablePred bad]
    (hbad : ∀ s, IsSpin s → bad s → ∃ r ∈ rows s, M * ‖Complex.exp (logψ s)‖ < ‖Complex.exp (logψ r.conn)‖) :
    ∑ s ∈ allSpins ι, born logψ s * (if bad s then 1 else 0) ≤ K / M ^ 2 := by
  have hM2 : 0 < M ^ 2 := by positivity
  have h1 : ∀ s ∈ allSpins ι, born logψ s * (if bad s then 1 else 0) ≤
      ((rows s).map fun r => born logψ r.conn).sum / M ^ 2 := by
    intro s hs
    have hnn : ∀ x ∈ (rows s).map fun r => born logψ r.conn, 0 ≤ x := by
      intro x hx
      obtain ⟨r, -, rfl⟩ := List.mem_map.1 hx
      exact born_nonneg _ _
    split
    · rename_i hb
      obtain ⟨r, hr, hlt⟩ := hbad s ((mem_allSpins s).1 hs) hb
      rw [mul_one, le_div_iff₀ hM2]
      refine le_trans ?_ (List.single_le_sum hnn _ (List.mem_map.2 ⟨r, hr, rfl⟩))
      unfold born
      rw [div_mul_eq_mul_div]
      refine div_le_div_of_nonneg_right ?_ (norm_sum_pos logψ).le
      rw [← mul_pow, mul_comm]
      exact pow_le_pow_left₀ (by positivity) hlt.le 2
    · rw [mul_zero]
      exact div_nonneg (List.sum_nonneg hnn) hM2.le
  refine (Finset.sum_le_sum h1).trans ?_
  rw [← Finset.sum_div]
  refine div_le_div_of_nonneg_right ?_ hM2.le
  have := hflow (born logψ) fun s => born_nonneg _ _
  rwa [born_sum, mul_one] at this

open Classical in
theorem failure_le {R : Nat} (hR : 0 < R) (L : Limits) (H : Wave ι → Wave ι) (logψ : Config ι → ℂ) (B : Nat)
    {op : (Fin B → Config ι) → Fin B → List (Row ι ℝ)} {rows : Config ι → List (Row ι ℝ)} (hlen : ∀ sample b, (op sample b).length = R)
    (hop : ∀ sample b, op sample b = rows (sample b)) (hc : ∀ s, IsSpin s → Contract s R (rows s))
    (hH : ∀ s, IsSpin s → applyRows (rows s) (fun s => Complex.exp (logψ s)) = H (fun s => Complex.exp (logψ s)) s)
    {K : Nat} (hflow : Flow rows K) (A M : ℝ) (hM : 0 < M) (hbig : M ≤ L.big) (hAM : A * M ≤ L.big)
    (hA : ∀ s, IsSpin s → ((rows s).map fun r => |r.mel|).sum ≤ A) :
    failure L ((A + R) * L.small) H logψ B (fun sample => Answer.ofRows R (op sample) (hlen sample)) ≤ B * K / M ^ 2 := by
  set bad : Config ι → Prop := fun s => ∃ r ∈ rows s, M * ‖Complex.exp (logψ s)‖ < ‖Complex.exp (logψ r.conn)‖ with hbad
  have hgood : ∀ sample : Fin B → Config ι, (∀ b, IsSpin (sample b)) → ∀ b, ¬ bad (sample b) →
      Accurate L ((A + R) * L.small) H logψ (Answer.ofRows R (op sample) (hlen sample)) sample b := by
    intro sample hs b hb
    have hc' : ∀ b, Contract (sample b) R (op sample b) := fun b => by rw [hop]; exact hc _ (hs b)
    have hsumA : ∑ r, ‖(Answer.ofRows R (op sample) (hlen sample)).mel r b‖ ≤ A := by
      have h1 := sum_getElem (op sample b) (fun r => |r.mel|) (hlen sample b)
      have h2 : ∀ r, ‖(Answer.ofRows R (op sample) (hlen sample)).mel r b‖ =
          |((op sample b)[r.val]'(by rw [hlen]; exact r.isLt)).mel| := fun r => by
        unfold Answer.ofRows
        rw [Complex.norm_real, Real.norm_eq_abs]
      rw [Finset.sum_congr rfl fun r _ => h2 r, h1, hop]
      exact hA _ (hs b)
    obtain ⟨E, hE, herr⟩ := C104_energy_partial L logψ _ sample (contracted_ofRows hc' hR) b M hM.le (by
      intro r _
      by_contra hlt
      refine hb ⟨(op sample b)[r.val]'(by rw [hlen]; exact r.isLt), ?_, not_le.1 hlt⟩
      rw [← hop sample b]
      exact List.getElem_mem _) hbig ((mul_le_mul_of_nonneg_right hsumA hM.le).trans hAM)
    refine ⟨E, hE, ?_⟩
    have e : localEnergy H logψ (sample b) = (∑ r, (Answer.ofRows R (op sample) (hlen sample)).mel r b *
        Complex.exp (logψ ((Answer.ofRows R (op sample) (hlen sample)).conn r b))) / Complex.exp (logψ (sample b)) := by
      unfold localEnergy
      rw [← hH _ (hs b), ← hop sample b]
      congr 1
      exact (sum_getElem (op sample b) (fun r => (r.mel : ℂ) * Complex.exp (logψ r.conn)) (hlen sample b)).symm
    rw [e]
    refine herr.trans (mul_le_mul_of_nonneg_right ?_ L.small_pos.le)
    linarith
  have hle : failure L ((A + R) * L.small) H logψ B (fun sample => Answer.ofRows R (op sample) (hlen sample)) ≤
      expect (allSpins ι) (born logψ) B fun sample => ∑ b : Fin B, if bad (sample b) then (1 : ℝ) else 0 := by
    unfold failure expect
    refine Finset.sum_le_sum fun sample hsample => ?_
    have hs : ∀ b, IsSpin (sample b) := fun b => (mem_allSpins _).1 (Fintype.mem_piFinset.1 hsample b)
    refine mul_le_mul_of_nonneg_left ?_ (Finset.prod_nonneg fun b _ => born_nonneg _ _)
    have hnn : ∀ b : Fin B, (0 : ℝ) ≤ if bad (sample b) then (1 : ℝ) else 0 := fun b => by split <;> norm_num
    dsimp only
    split
    · exact Finset.sum_nonneg fun b _ => hnn b
    · rename_i hf
      obtain ⟨b, hb⟩ := not_forall.1 hf
      have hbb : bad (sample b) := by
        by_contra h
        exact hb (hgood sample hs b h)
      refine (if_pos hbb : (if bad (sample b) then (1 : ℝ) else 0) = 1).ge.trans ?_
      exact Finset.single_le_sum (f := fun b => if bad (sample b) then (1 : ℝ) else 0) (fun b _ => hnn b) (Finset.mem_univ b)
  refine hle.trans ?_
  rw [expect_sum]
  simp only [expect_one (allSpins ι) (born logψ) (born_sum logψ) fun s => if bad s then (1 : ℝ) else 0]
  rw [Finset.sum_const, Finset.card_univ, Fintype.card_fin, nsmul_eq_mul, mul_div_assoc]
  exact mul_le_mul_of_nonneg_left (born_unlikely logψ hflow M hM bad fun s _ h => h) (Nat.cast_nonneg _)

end

theorem flip_inj {α : Type} [DecidableEq α] (i : α) (s t : Config α) (h : Operators.flip i s = Operators.flip i t) : s = t := by
  rw [← Operators.flip_flip i s, h, Operators.flip_flip]

theorem exchange_inj {α : Type} [DecidableEq α] (a b : α) (s t : Config α) (h : exchange a b s = exchange a b t) : s = t := by
  have e : ∀ s : Config α, exchange a b (exchange a b s) = s := by
    intro s
    funext x
    unfold exchange Function.update
    by_cases h1 : x = b
    · subst h1
      by_cases h2 : a = x <;> simp [h2]
    · by_cases h2 : x = a
      · subst h2
        simp [h1]
      · simp [h1, h2]
  rw [← e s, h, e]

theorem exchange_spin {α : Type} [DecidableEq α] (a b : α) (s : Config α) (hs : IsSpin s) : IsSpin (exchange a b s) := by
  intro x
  unfold exchange Function.update
  split
  · rename_i h; subst h; exact hs a
  · split
    · rename_i h; subst h; exact hs b
    · exact hs x

theorem abs_spin {α : Type} {s : Config α} (hs : IsSpin s) (i : α) : |(s i : ℝ)| = 1 := by
  rcases hs i with h | h <;> simp [h]

theorem abs_pad1 {n : Nat} (pbc : Bool) (s : Fin n → ℤ) (hs : ∀ i, s i = 1 ∨ s i = -1) (k : Nat) : |(pad1 pbc s k : ℝ)| ≤ 1 := by
  unfold pad1
  split
  · rw [abs_spin (s := s) hs]
  · split
    · split
      · rw [abs_spin (s := s) hs]
      · simp
    · simp

/-- **C104, proved part: Ising chains.** For every network and every batch size: the probability that independent
samples of `|ψ|²` include one whose local energy is not finite, or off by more than the given number of
smallest numbers, is at most `B (n + 1) / M²`. For `float64`, `M²` is of the order `10⁶⁰⁰`. -/
theorem C104_ising_partial (L : Limits) (n : Nat) (h j : ℝ) (pbc : Bool) (logψ : Config (Fin n) → ℂ) (B : Nat) (M : ℝ) (hM : 0 < M)
    (hbig : M ≤ L.big) (hAM : (n * (|h| + |j|)) * M ≤ L.big) :
    failure L ((n * (|h| + |j|) + (n + 1 : Nat)) * L.small) (tfim (chainBonds n pbc) h j) logψ B
      (fun sample => Answer.ofRows (n + 1) (isingFindConn1 (.float h) j pbc sample) fun b => by rw [isingFindConn1_eq]; simp) ≤
      B * (n + 1 : Nat) / M ^ 2 := by
  refine failure_le (Nat.succ_pos n) L _ logψ B (rows := fun s => isingFindConn1 (.float h) j pbc (fun _ : Fin 1 => s) 0) _
    (fun sample b => (Exact.rowsOf_ising_chain n h j pbc).eq B sample b) (fun s hs => C09_ising_chain (.float h) j pbc (fun _ : Fin 1 => s) 0 hs)
    (fun s hs => C06_ising_chain h j pbc (fun _ : Fin 1 => s) 0 _) ?_ _ M hM hbig hAM ?_
  · simp only [isingFindConn1_eq]
    have h1 : Flow (ι := Fin n) (fun s => (List.finRange n).flatMap fun i => [⟨Operators.flip i s, -(Operators.Field.float h).val, true⟩])
        ((List.finRange n).length * 1) := flow_flatMap _ fun i =>
      flow_single (row := fun s => ⟨Operators.flip i s, -(Operators.Field.float h).val, true⟩) (fun s hs => flip_spin hs i) fun s t _ _ => flip_inj i s t
    have h2 := flow_append (flow_single (row := fun s : Config (Fin n) => ⟨s, (Operators.Field.float h).store
      (∑ i : Fin n, -(j * (s i : ℝ) * (pad1 pbc s (i.val + 1) : ℝ))), true⟩) (fun s hs => hs) fun s t _ _ e => e) h1
    rw [List.length_finRange, mul_one, add_comm] at h2
    convert h2 using 2 with s
    rw [← List.map_eq_flatMap]
    rfl
  · intro s hs
    rw [isingFindConn1_eq]
    simp only [List.map_cons, List.sum_cons, List.map_map]
    have h1 : ((List.finRange n).map ((fun r : Row (Fin n) ℝ => |r.mel|) ∘ fun i => ⟨Operators.flip i s, -(Operators.Field.float h).val, true⟩)).sum =
        n * |h| := by
      rw [← List.ofFn_eq_map, List.sum_ofFn]
      simp [Operators.Field.val]
    have h2 : |(Operators.Field.float h).store (∑ i : Fin n, -(j * (s i : ℝ) * (pad1 pbc s (i.val + 1) : ℝ)))| ≤ n * |j| := by
      show |∑ i : Fin n, -(j * (s i : ℝ) * (pad1 pbc s (i.val + 1) : ℝ))| ≤ n * |j|
      refine (Finset.abs_sum_le_sum_abs _ _).trans ?_
      refine (Finset.sum_le_sum (g := fun _ => |j|) fun i _ => ?_).trans (by simp)
      rw [abs_neg, abs_mul, abs_mul, abs_spin hs, mul_one]
      exact mul_le_of_le_one_right (abs_nonneg _) (abs_pad1 pbc s hs _)
    rw [h1]
    linarith

/-- **C104, proved part: Heisenberg grids**, after any history of earlier calls of the operator. -/
theorem C104_heisenberg_partial (L : Limits) (n m : Nat) (rot pbc : Bool) (history : List (Call n m))
    (logψ : Config (Fin n × Fin m) → ℂ) (B : Nat) (M : ℝ) (hM : 0 < M) (hbig : M ≤ L.big) (hAM : (6 * (n * m : Nat)) * M ≤ L.big) :
    failure L ((6 * (n * m : Nat) + (n * m * 2 + 1 : Nat)) * L.small) (heisenberg (gridBonds n m pbc) (if rot then -1 else 1)) logψ B
      (fun sample => Answer.ofRows (n * m * 2 + 1) (((HeisOp.new2 n m rot pbc).run history).findConn B sample).2
        fun b => by rw [answer2]; exact length_heisRows _ _ _ (Or.inl rfl) _) ≤
      B * (n * m * 2 + 1 : Nat) / M ^ 2 := by
  refine failure_le (Nat.succ_pos _) L _ logψ B (rows := fun s => heisRows (offDiag rot) pbc 2 s) _
    (fun sample b => answer2 rot pbc history B sample b) (fun s hs => contract_heisRows (offDiag rot) pbc 2 (Or.inl rfl) s hs)
    (fun s hs => applyRows_heisRows rot pbc 2 (Or.inl rfl) s hs _) ?_ _ M hM hbig hAM ?_
  · have hself : ∀ (d : Config (Fin n × Fin m) → ℝ) u, Flow (ι := Fin n × Fin m) (fun s => [⟨s, d s, u⟩]) 1 := fun d u =>
      flow_single (fun s hs => hs) fun s t _ _ e => e
    have hax : ∀ p nb, Flow (fun s => [axisRow (n := n) (m := m) (offDiag rot) s p nb]) 1 := by
      intro p nb
      cases nb with
      | none => exact hself (fun _ => 0) false
      | some b => exact flow_single (fun s hs => exchange_spin _ _ s hs) fun s t _ _ e => exchange_inj _ _ s t e
    have hif : ∀ (c : Prop) [Decidable c] p nb, Flow (fun s => if c then [axisRow (n := n) (m := m) (offDiag rot) s p nb] else [])
        (if c then 1 else 0) := by
      intro c _ p nb
      by_cases hc : c
      · simp only [if_pos hc]
        exact hax p nb
      · simp only [if_neg hc]
        exact flow_nil
    have hsite : ∀ p, Flow (fun s => siteRows (n := n) (m := m) (offDiag rot) pbc 2 s p) 2 := by
      intro p
      have := flow_append (flow_append (hif (n > 1) p ((chainNext n pbc p.1).map fun k => (k, p.2)))
        (hif (m > 1) p ((chainNext m pbc p.2).map fun k => (p.1, k))))
        (flow_replicate (2 - ((if n > 1 then 1 else 0) + (if m > 1 then 1 else 0))) (hself (fun _ => 0) false))
      have hk : (if n > 1 then 1 else 0) + (if m > 1 then 1 else 0) + (2 - ((if n > 1 then 1 else 0) + (if m > 1 then 1 else 0))) = 2 := by
        split <;> split <;> omega
      rw [hk] at this
      exact this
    have h2 := flow_append (hself (fun s => ∑ p, siteDiag pbc s p) true) (flow_flatMap (gridSites n m) hsite)
    rw [length_gridSites, add_comm] at h2
    exact h2
  · intro s hs
    unfold heisRows
    have hoff : |offDiag rot| ≤ 2 := by cases rot <;> simp [offDiag]
    rw [sum_rows (offDiag rot) pbc 2 (Or.inl rfl) s _ (fun r => |r.mel|) fun c => abs_zero]
    dsimp only
    rw [siteDiag_sum]
    have hlen : (gridBonds n m pbc).length ≤ 2 * (n * m) := by
      have h0 := sum_gridBonds n m pbc fun _ => 1
      rw [List.map_const', List.sum_replicate, smul_eq_mul, mul_one] at h0
      rw [h0]
      have hopt : ∀ {α : Type} (o : Option α), (o.map fun _ => 1).getD 0 ≤ 1 := fun o => by cases o <;> simp
      refine (Finset.sum_le_sum (g := fun _ => 2) fun p _ => ?_).trans (by simp [mul_comm])
      refine Nat.add_le_add (b := 1) (d := 1) ?_ ?_ <;> split
      · exact hopt _
      · exact Nat.zero_le _
      · exact hopt _
      · exact Nat.zero_le _
    have h1 : |((gridBonds n m pbc).map fun b => ((s b.1 * s b.2 : ℤ) : ℝ)).sum| ≤ (gridBonds n m pbc).length := by
      generalize gridBonds n m pbc = l
      induction l with
      | nil => simp
      | cons b l ih =>
        rw [List.map_cons, List.sum_cons, List.length_cons]
        refine (abs_add_le _ _).trans ?_
        have : |((s b.1 * s b.2 : ℤ) : ℝ)| = 1 := by
          rw [Int.cast_mul, abs_mul, abs_spin hs, abs_spin hs, mul_one]
        push_cast at ih this ⊢
        linarith
    have h2 : ((gridBonds n m pbc).map fun b => if s b.1 ≠ s b.2 then |offDiag rot| else 0).sum ≤ 2 * (gridBonds n m pbc).length := by
      generalize gridBonds n m pbc = l
      induction l with
      | nil => simp
      | cons b l ih =>
        rw [List.map_cons, List.sum_cons, List.length_cons]
        have : (if s b.1 ≠ s b.2 then |offDiag rot| else 0) ≤ 2 := by
          split
          · exact hoff
          · norm_num
        push_cast
        linarith
    have h3 : ((gridBonds n m pbc).length : ℝ) ≤ 2 * (n * m : Nat) := by exact_mod_cast hlen
    linarith

/-! ### C104, where it fails -/

/-- **C104 fails: a single sample.** One spin in a field, a network whose logarithms of amplitudes are zero and
`log big + 1` (about 711 for `float64`): the local energy of the less probable configuration is not a
finite number. -/
theorem C104_violated_sample (L : Limits) :
    ∃ logψ : Config (Fin 1) → ℂ, (∀ s, (logψ s).im = 0 ∧ 0 ≤ (logψ s).re ∧ (logψ s).re ≤ Real.log L.big + 1) ∧
      localValue L logψ (Answer.ofRows 2 (isingFindConn1 (.float 1) 0 true fun _ : Fin 1 => fun _ : Fin 1 => -1)
        fun b => by rw [isingFindConn1_eq]; simp) 0 = none := by
  have hlog : 0 ≤ Real.log L.big := Real.log_nonneg L.big_ge
  refine ⟨fun s => if s 0 = 1 then ((Real.log L.big + 1 : ℝ) : ℂ) else 0, ?_, ?_⟩
  · intro s
    dsimp only
    split
    · rw [Complex.ofReal_im, Complex.ofReal_re]
      exact ⟨rfl, by linarith, le_rfl⟩
    · exact ⟨rfl, le_rfl, by simp; linarith⟩
  · have hcon : ∀ b : Fin 1, Contract (fun _ : Fin 1 => (-1 : ℤ)) 2
        (isingFindConn1 (.float 1) 0 true (fun _ : Fin 1 => fun _ : Fin 1 => -1) b) := fun b =>
      C09_ising_chain (.float 1) 0 true (fun _ : Fin 1 => fun _ : Fin 1 => -1) b fun _ => Or.inr rfl
    have hc1 : (Answer.ofRows 2 (isingFindConn1 (.float 1) 0 true fun _ : Fin 1 => fun _ : Fin 1 => -1)
        fun b => by rw [isingFindConn1_eq]; simp).conn 1 0 0 = 1 := by
      unfold Answer.ofRows
      simp only [isingFindConn1_eq]
      rfl
    refine C104_violated_overflow L _ _ (fun _ : Fin 1 => fun _ : Fin 1 => -1) (contracted_ofRows hcon two_pos) 0 1 ?_ ?_ ?_
    · have hu : usedRows (Answer.ofRows 2 (isingFindConn1 (.float 1) 0 true fun _ : Fin 1 => fun _ : Fin 1 => -1)
          fun b => by rw [isingFindConn1_eq]; simp) 0 = List.finRange 2 := by
        unfold usedRows
        rw [List.filter_eq_self]
        intro r _
        unfold Answer.ofRows
        simp only [isingFindConn1_eq]
        fin_cases r <;> rfl
      unfold evaluated
      rw [hu, ite_self]
      exact List.mem_finRange _
    · rw [if_pos hc1, if_neg (by norm_num)]
      simp
    · rw [if_pos hc1, if_neg (by norm_num), Complex.exp_zero, norm_one, mul_one, Complex.norm_exp, Complex.ofReal_re,
        Real.exp_add, Real.exp_log (by have := L.big_ge; linarith)]
      have : 1 < Real.exp 1 := by rw [Real.one_lt_exp_iff]; norm_num
      have := L.big_ge
      nlinarith

/-- The arrays of a batch from the rows of the NetKet wrapper (netket_operator.py 66). -/
def ofNetket (R B : Nat) (rows : List (List Netket.Row)) : Answer Netket.Conf R B where
  conn r b := ((rows.getD b []).getD r ⟨[], 0, false⟩).conn
  mel r b := ((rows.getD b []).getD r ⟨[], 0, false⟩).mel
  use r b := ((rows.getD b []).getD r ⟨[], 0, false⟩).use

/-- Two spins that are exchanged if they differ, as NetKet answers: one or two connected configurations. -/
noncomputable def exchangeTwo : Netket.Wrapper where
  getConn s := .new (if s = [1, -1] then [(s, 0), ([-1, 1], 1)] else if s = [-1, 1] then [(s, 0), ([1, -1], 1)] else [(s, 1)])
  oldNetket := false
  shouldCalcUnused := false
  estimated := 1

/-- **C104 fails: padded rows.** The wrapper of NetKet operators pads the rows of a sample with zeros, and by default
declares them used. Although all amplitudes of configurations are one, the local energy of the sample with fewer
connections is not a finite number, because the network is large where no spin is defined. -/
theorem C104_violated_padding (L : Limits) :
    ∃ logψ : Netket.Conf → ℂ, (∀ s, s ≠ [0, 0] → logψ s = 0) ∧
      ∃ w rows, exchangeTwo.findConn [[1, 1], [1, -1]] = .ok (w, rows) ∧ rows.length = 2 ∧ (∀ l ∈ rows, l.length = 2) ∧
        Contracted (ofNetket 2 2 rows) (fun b => if b = 0 then [1, 1] else [1, -1]) ∧
        (∑ r, (ofNetket 2 2 rows).mel r 0 * Complex.exp (logψ ((ofNetket 2 2 rows).conn r 0))) / Complex.exp (logψ [1, 1]) = 1 ∧
        localValue L logψ (ofNetket 2 2 rows) 0 = none := by
  refine ⟨fun s => if s = [0, 0] then ((Real.log L.big + 1 : ℝ) : ℂ) else 0, fun s hs => if_neg hs, ?_⟩
  have h1 : exchangeTwo.findConn [[1, 1], [1, -1]] = .ok ({ exchangeTwo with estimated := 2 },
      [[⟨[1, 1], 1, true⟩, ⟨[0, 0], 0, true⟩], [⟨[1, -1], 0, true⟩, ⟨[-1, 1], 1, true⟩]]) := by
    have hq : [([1, 1] : Netket.Conf), [1, -1]].mapM (Netket.queryNew exchangeTwo) =
        .ok [[([1, 1], 1)], [([1, -1], 0), ([-1, 1], 1)]] := by
      refine Netket.mapM_of_ok _ _ _ ?_
      refine .cons ?_ (.cons ?_ .nil) <;> rfl
    unfold Netket.Wrapper.findConn
    rw [if_neg (by simp [exchangeTwo])]
    unfold Netket.newFindConn
    rw [hq]
    dsimp only
    rw [if_neg (by simp)]
    have hest : max ((([[([1, 1], 1)], [([1, -1], 0), ([-1, 1], 1)]] : List (List (Netket.Conf × ℂ))).map List.length).foldr max 0)
        exchangeTwo.estimated = 2 := rfl
    rw [hest]
    have hr : List.range 2 = [0, 1] := rfl
    simp [Netket.padRows, hr, exchangeTwo]
  refine ⟨_, _, h1, rfl, ?_, ?_, ?_, ?_⟩
  · intro l hl
    fin_cases hl <;> rfl
  · refine ⟨two_pos, ?_, ?_⟩
    · intro b
      fin_cases b <;> exact ⟨rfl, rfl⟩
    · intro r b hu
      fin_cases r <;> fin_cases b <;> cases hu
  · rw [Fin.sum_univ_two]
    simp [ofNetket]
  · refine C104_violated_overflow L _ _ (fun b => if b = 0 then [1, 1] else [1, -1]) ?_ 0 1 ?_ ?_ ?_
    · refine ⟨two_pos, ?_, ?_⟩
      · intro b
        fin_cases b <;> exact ⟨rfl, rfl⟩
      · intro r b hu
        fin_cases r <;> fin_cases b <;> cases hu
    · have hu : usedRows (ofNetket 2 2 [[⟨[1, 1], 1, true⟩, ⟨[0, 0], 0, true⟩], [⟨[1, -1], 0, true⟩, ⟨[-1, 1], 1, true⟩]]) 0 =
          List.finRange 2 := rfl
      unfold evaluated
      rw [hu, ite_self]
      exact List.mem_finRange _
    · simp [ofNetket]
    · have := L.big_ge
      have h2 : 1 < Real.exp 1 := by rw [Real.one_lt_exp_iff]; norm_num
      have hz : (ofNetket 2 2 [[⟨[1, 1], 1, true⟩, ⟨[0, 0], 0, true⟩], [⟨[1, -1], 0, true⟩, ⟨[-1, 1], 1, true⟩]]).conn 1 0 =
          [0, 0] := rfl
      rw [if_neg (by simp), if_pos hz, Complex.exp_zero, norm_one, mul_one, Complex.norm_exp, Complex.ofReal_re,
        Real.exp_add, Real.exp_log (by linarith)]
      nlinarith

/-- The hypotheses of `C104_ising_partial` are met: a hundred spins, `float64`, `M = 2¹⁰⁰⁰`. -/
example (logψ : Config (Fin 100) → ℂ) (B : Nat) :
    failure double (((100 : Nat) * (|1| + |1|) + (100 + 1 : Nat)) * double.small) (tfim (chainBonds 100 true) 1 1) logψ B
      (fun sample => Answer.ofRows (100 + 1) (isingFindConn1 (.float 1) 1 true sample) fun b => by rw [isingFindConn1_eq]; simp) ≤
      B * (100 + 1 : Nat) / (2 ^ 1000) ^ 2 := by
  have hle : ∀ a b : Nat, a ≤ b → (2 : ℝ) ^ a ≤ 2 ^ b := fun a b h => pow_le_pow_right₀ (by norm_num) h
  refine C104_ising_partial double 100 1 1 true logψ B (2 ^ 1000) (by positivity) (hle 1000 1023 (by norm_num)) ?_
  have h8 : ((100 : Nat) : ℝ) * (|1| + |1|) ≤ 2 ^ 8 := by norm_num
  refine (mul_le_mul_of_nonneg_right h8 (by positivity)).trans ?_
  rw [← pow_add]
  exact hle _ 1023 (by norm_num)

end Verif.Metropolis.Range
