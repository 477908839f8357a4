import Verif.Callbacks.Model
import Verif.Energy.LocalProps
import Verif.Samplers.RHat
import Verif.Samplers.RunProps

/-!
# C100: the Markov chain statistics logged in training

`MCMCStats` (`src/flowket/callbacks/monte_carlo/mcmc_stats.py`) in a training run whose generator
(`VariationalMonteCarlo`) uses a Metropolis-Hastings sampler. The weights before each step are arbitrary.
-/
namespace Verif.Callbacks.MCMC

open Verif.Operators Verif.Energy Verif.Metropolis Verif.RHat

variable {W ι : Type} {C : Nat}

/-! ### Model -/

/-- The objects of the run: the network as a function of its weights, the sizes given to sampler and generator,
the sweeps of the sampler for the current machine (numbered through the whole run), the contents of
`numpy.empty` at the sweep with a given number, and the operator, which announces `rows` rows. -/
structure Setup (W ι : Type) (C : Nat) where
  machine : W → Config ι → ℂ
  batchSize : Nat
  mini : Nat
  unused : Nat
  discard : Nat
  sweep : (Config ι → ℂ) → Nat → Sweep ι C
  garbage : Nat → Nat → Config ι
  rows : Nat
  find : (B : Nat) → (Fin B → Config ι) → Fin B → List (Row ι ℝ)
  length : ∀ B sample b, (find B sample b).length = rows

/-- What the run changes: the chains and `acceptance_ratio` of the sampler (metropolis_hastings.py 28, 35),
the number of the next sweep, and of the generator `current_batch` and `current_local_energy`
(variational_monte_carlo.py 34-36, 46) and `_idx` (mini_batch_generator.py 23). -/
structure St (ι : Type) (C : Nat) where
  chains : Metropolis.State ι C
  time : Nat
  ratio : ℝ
  batch : Nat → Config ι
  energies : List ℂ
  idx : Nat

/-- The freshly built sampler and generator: chains as drawn, ratio 1, no batch yet, `_idx` the batch size
(metropolis_hastings.py 28, 35; variational_monte_carlo.py 24; mini_batch_generator.py 23). -/
def fresh (s : Setup W ι C) (start : Fin C → Config ι) : St ι C :=
  ⟨⟨start, fun _ => 0⟩, 0, 1, s.garbage 0, [], s.batchSize⟩

/-- `next_batch` (variational_monte_carlo.py 42-50) with weights `w`: `next(sampler)`, then the local energies. -/
noncomputable def nextBatch (s : Setup W ι C) (w : W) (st : St ι C) : Option (St ι C) :=
  (Metropolis.next (s.machine w) s.batchSize s.unused s.discard (s.sweep (s.machine w)) st.time (s.garbage st.time)
    st.chains).bind fun r =>
    (estimate (s.machine w) (Answer.ofRows s.rows (s.find s.batchSize fun b => r.batch b) (s.length _ _))).bind fun e =>
      some { st with chains := r.state, time := r.time, ratio := r.acceptanceRatio, batch := r.batch, energies := e.2.2 }

/-- `next_mini_batch_size` (mini_batch_generator.py 27-32) with weights `w`. -/
noncomputable def advance (s : Setup W ι C) (w : W) (st : St ι C) : Option (St ι C) :=
  if st.idx + s.mini > s.batchSize then
    (nextBatch s w st).bind fun st => some { st with idx := 0 + s.mini }
  else some { st with idx := st.idx + s.mini }

/-- The state after `k` training steps; `w j` are the weights before step `j`. -/
noncomputable def after (s : Setup W ι C) (w : Nat → W) (st : St ι C) : Nat → Option (St ι C)
  | 0 => some st
  | k + 1 => (after s w st k).bind fun st => advance s (w k) st

/-- The dictionary `logs`; the value `none` stands for `inf` and `nan`. -/
abbrev Logs := List (String × Option ℝ)

/-- `add_mcmc_logs` (mcmc_stats.py 11-17) with empty logs; `none` if `calc_r_hat_value` raises. -/
noncomputable def addMcmc (s : Setup W ι C) (st : St ι C) : Option Logs :=
  (calcRHat s.batchSize C fun i => (st.energies.getD i 0).re).bind fun r =>
    some [("mcmc/acceptance_ratio", some st.ratio), ("mcmc/energy_r_hat", r.rHat),
      ("mcmc/energy_effective_sample_size", r.effectiveSampleSize),
      ("mcmc/energy_correlations_sum", r.correlationsSum)]

/-- The two moments at which callbacks are called. -/
inductive Moment where
  | batchEnd
  | epochEnd
  deriving DecidableEq

/-- `on_batch_end` and `on_epoch_end` (mcmc_stats.py 19-29) with `log_in_batch_or_epoch = inBatch`. -/
noncomputable def onEnd (s : Setup W ι C) (inBatch : Bool) (st : St ι C) : Moment → Option Logs
  | .batchEnd => if inBatch then addMcmc s st else some []
  | .epochEnd => if !inBatch then addMcmc s st else some []

/-- `logs[key]`. -/
def Logs.get (l : Logs) (key : String) : Option (Option ℝ) := (l.find? fun p => p.1 = key).map Prod.snd

/-! ### Specification -/

/-- A stretch of a run of `C` Markov chains: `x j` are the chains after `j` of `n` sweeps made with the
machine `ψ`, the first of them with number `t`, and `a j` the number of moves accepted in sweep `j`. It
begins with the chains `start` and the values of `ψ` there. -/
def Stretch (sweep : (Config ι → ℂ) → Nat → Sweep ι C) (ψ : Config ι → ℂ) (start : Fin C → Config ι) (t n : Nat)
    (x : Nat → Metropolis.State ι C) (a : Nat → Nat) : Prop :=
  x 0 = ⟨start, fun c => ψ (start c)⟩ ∧ ∀ j < n, sweep ψ (t + j) (x j) = some (x (j + 1), a j)

/-- Logs that describe `C` chains with `perChain` recorded values `y c i` each, where `accepted` of
`proposed` moves were accepted: the acceptance ratio, and the convergence statistics of Bayesian Data
Analysis whenever they are defined (for the correlations: if no pair of them is negative, see C67). -/
structure Describes (C perChain : Nat) (y : Nat → Nat → ℝ) (accepted proposed : ℝ) (l : Logs) : Prop where
  ratio : l.get "mcmc/acceptance_ratio" = some (some (accepted / proposed))
  rHat : BDA.W C perChain y ≠ 0 → l.get "mcmc/energy_r_hat" = some (some (BDA.rHat C perChain y))
  correlations : BDA.varPlus C perChain y ≠ 0 → (∀ T, ¬ BDA.Cutoff C perChain y T) →
    l.get "mcmc/energy_correlations_sum" = some (some (BDA.rhoSum C perChain y (perChain - 1)))
  effective : BDA.varPlus C perChain y ≠ 0 → (∀ T, ¬ BDA.Cutoff C perChain y T) →
    1 + 2 * BDA.rhoSum C perChain y (perChain - 1) ≠ 0 →
    l.get "mcmc/energy_effective_sample_size" =
      some (some (BDA.nEff C perChain (BDA.rhoSum C perChain y (perChain - 1))))

/-- The operator of the run represents the Hamiltonian `H` (C06, C07) and keeps the connection contract (C09). -/
structure Represents (s : Setup W ι C) (H : Wave ι → Wave ι) : Prop where
  contract : ∀ B (sample : Fin B → Config ι) b, IsSpin (sample b) → Contract (sample b) s.rows (s.find B sample b)
  apply : ∀ B (sample : Fin B → Config ι) b, IsSpin (sample b) → ∀ ψ, applyRows (s.find B sample b) ψ = H ψ (sample b)

/-! ### Lemmas -/

/-- A new batch is drawn in the steps `0`, `f`, `2 f`, ... where `f` is the quotient of the sizes. -/
theorem idx_after {s : Setup W ι C} {w : Nat → W} {start : Fin C → Config ι} (hm : 0 < s.mini) (hmb : s.mini ≤ s.batchSize) :
    ∀ {k : Nat} {st : St ι C}, after s w (fresh s start) (k + 1) = some st → st.idx = (k % (s.batchSize / s.mini) + 1) * s.mini := by
  have hf : 0 < s.batchSize / s.mini := Nat.div_pos hmb hm
  have hadv : ∀ (st st' : St ι C) (v : W), advance s v st = some st' →
      st'.idx = if st.idx + s.mini > s.batchSize then s.mini else st.idx + s.mini := by
    intro st st' v h
    unfold advance at h
    split at h
    · rename_i hc
      rw [Option.bind_eq_some_iff] at h
      obtain ⟨st1, -, h⟩ := h
      obtain rfl := Option.some.inj h
      rw [if_pos hc]
      exact Nat.zero_add _
    · rename_i hc
      obtain rfl := Option.some.inj h
      rw [if_neg hc]
  intro k
  induction k with
  | zero =>
    intro st h
    rw [after, after, Option.bind_some] at h
    rw [hadv _ _ _ h, Nat.zero_mod, Nat.zero_add, Nat.one_mul, if_pos]
    show s.batchSize + s.mini > s.batchSize
    omega
  | succ k ih =>
    intro st h
    rw [after, Option.bind_eq_some_iff] at h
    obtain ⟨st1, h1, h⟩ := h
    rw [hadv _ _ _ h, ih h1]
    have hlt := Nat.mod_lt k hf
    by_cases hlast : k % (s.batchSize / s.mini) + 1 = s.batchSize / s.mini
    · have h0 : (k + 1) % (s.batchSize / s.mini) = 0 := by
        rw [← Nat.mod_add_mod, hlast, Nat.mod_self]
      rw [h0, hlast, Nat.zero_add, Nat.one_mul, if_pos]
      have := Nat.lt_div_mul_add (a := s.batchSize) hm
      omega
    · have h1 : (k + 1) % (s.batchSize / s.mini) = k % (s.batchSize / s.mini) + 1 := by
        rw [← Nat.mod_add_mod, Nat.mod_eq_of_lt]; omega
      rw [h1, if_neg]
      · ring
      · have : (k % (s.batchSize / s.mini) + 1 + 1) * s.mini ≤ s.batchSize / s.mini * s.mini :=
          Nat.mul_le_mul_right _ (by omega)
        have h3 := Nat.div_mul_le_self s.batchSize s.mini
        have h4 : (k % (s.batchSize / s.mini) + 1) * s.mini + s.mini =
          (k % (s.batchSize / s.mini) + 1 + 1) * s.mini := by ring
        omega

/-- Between two draws only `_idx` changes: after step `k` the batch is the one of step `k / f * f`. -/
theorem same_batch {s : Setup W ι C} {w : Nat → W} {start : Fin C → Config ι} (hm : 0 < s.mini) (hmb : s.mini ≤ s.batchSize) :
    ∀ {k : Nat} {st : St ι C}, after s w (fresh s start) (k + 1) = some st →
    let b := k / (s.batchSize / s.mini) * (s.batchSize / s.mini)
    ∃ old new, after s w (fresh s start) b = some old ∧ nextBatch s (w b) old = some new ∧
      st = { new with idx := st.idx } := by
  have hf : 0 < s.batchSize / s.mini := Nat.div_pos hmb hm
  intro k
  induction k with
  | zero =>
    intro st h
    dsimp only
    rw [Nat.zero_div, Nat.zero_mul]
    rw [after, after, Option.bind_some] at h
    unfold advance at h
    rw [if_pos (show (fresh s start).idx + s.mini > s.batchSize from by
      show s.batchSize + s.mini > s.batchSize
      omega), Option.bind_eq_some_iff] at h
    obtain ⟨new, h1, h⟩ := h
    obtain rfl := Option.some.inj h
    exact ⟨_, new, rfl, h1, rfl⟩
  | succ k ih =>
    intro st h
    have hst := h
    rw [after, Option.bind_eq_some_iff] at h
    obtain ⟨st1, h1, h⟩ := h
    have hidx := idx_after hm hmb h1
    have hlt := Nat.mod_lt k hf
    by_cases hlast : k % (s.batchSize / s.mini) + 1 = s.batchSize / s.mini
    · have hb : (k + 1) / (s.batchSize / s.mini) * (s.batchSize / s.mini) = k + 1 := by
        refine Nat.div_mul_cancel ⟨k / (s.batchSize / s.mini) + 1, ?_⟩
        have := Nat.div_add_mod k (s.batchSize / s.mini)
        rw [Nat.mul_add, Nat.mul_one]
        omega
      dsimp only
      rw [hb]
      unfold advance at h
      rw [if_pos, Option.bind_eq_some_iff] at h
      · obtain ⟨new, h2, h⟩ := h
        obtain rfl := Option.some.inj h
        exact ⟨st1, new, h1, h2, rfl⟩
      · rw [hidx, hlast]
        have := Nat.lt_div_mul_add (a := s.batchSize) hm
        omega
    · have hb : (k + 1) / (s.batchSize / s.mini) = k / (s.batchSize / s.mini) := by
        have h1 := Nat.div_add_mod k (s.batchSize / s.mini)
        have : k + 1 = k % (s.batchSize / s.mini) + 1 + s.batchSize / s.mini * (k / (s.batchSize / s.mini)) := by omega
        rw [this, Nat.add_mul_div_left _ _ hf, Nat.div_eq_of_lt (show k % (s.batchSize / s.mini) + 1 < _ by omega), Nat.zero_add]
      dsimp only
      rw [hb]
      obtain ⟨old, new, h3, h4, h5⟩ := ih h1
      refine ⟨old, new, h3, h4, ?_⟩
      unfold advance at h
      rw [if_neg] at h
      · obtain rfl := Option.some.inj h
        show ({ st1 with idx := _ } : St ι C) = _
        rw [h5]
      · rw [hidx]
        have : (k % (s.batchSize / s.mini) + 1 + 1) * s.mini ≤ s.batchSize / s.mini * s.mini :=
          Nat.mul_le_mul_right _ (by omega)
        have h3 := Nat.div_mul_le_self s.batchSize s.mini
        have h4 : (k % (s.batchSize / s.mini) + 1) * s.mini + s.mini =
          (k % (s.batchSize / s.mini) + 1 + 1) * s.mini := by ring
        omega

theorem advance_spin {s : Setup W ι C} (hs : sizesOk s.batchSize C = true)
    (hspin : ∀ ψ, SweepKeeps (s.sweep ψ) fun _ => IsSpin) {v : W} {st st' : St ι C} (h : advance s v st = some st')
    (h0 : ∀ c, IsSpin (st.chains.sample c)) : ∀ c, IsSpin (st'.chains.sample c) := by
  unfold advance at h
  split at h
  · rw [Option.bind_eq_some_iff] at h
    obtain ⟨st1, h1, h⟩ := h
    obtain rfl := Option.some.inj h
    unfold nextBatch at h1
    rw [Option.bind_eq_some_iff] at h1
    obtain ⟨r, hr, h1⟩ := h1
    rw [Option.bind_eq_some_iff] at h1
    obtain ⟨e, -, h1⟩ := h1
    obtain rfl := Option.some.inj h1
    obtain ⟨x, a, hp, hx0, hend, -⟩ := C46_next hs hr
    show ∀ c, IsSpin (r.state.sample c)
    rw [hend]
    exact (hspin _).path hp (by rw [hx0]; exact h0) _ le_rfl
  · obtain rfl := Option.some.inj h
    exact h0

theorem after_spin {s : Setup W ι C} (hs : sizesOk s.batchSize C = true)
    (hspin : ∀ ψ, SweepKeeps (s.sweep ψ) fun _ => IsSpin) {w : Nat → W} {st0 : St ι C}
    (h0 : ∀ c, IsSpin (st0.chains.sample c)) : ∀ {k : Nat} {st : St ι C}, after s w st0 k = some st →
    ∀ c, IsSpin (st.chains.sample c) := by
  intro k
  induction k with
  | zero =>
    intro st h
    obtain rfl := Option.some.inj h
    exact h0
  | succ k ih =>
    intro st h
    rw [after, Option.bind_eq_some_iff] at h
    obtain ⟨st1, h1, h⟩ := h
    exact advance_spin hs hspin h (ih h1)

/-- What the generator holds after a draw. -/
theorem nextBatch_spec {s : Setup W ι C} {H : Wave ι → Wave ι} (hrep : Represents s H)
    (hspin : ∀ ψ, SweepKeeps (s.sweep ψ) fun _ => IsSpin) {n : Nat} (hC : 0 < C) (hn : 0 < n) (hB : s.batchSize = C * n)
    {v : W} {old new : St ι C} (h0 : ∀ c, IsSpin (old.chains.sample c)) (h : nextBatch s v old = some new) :
    let sweeps := warmUpSweeps n s.unused s.discard
    ∃ x a, Stretch s.sweep (s.machine v) old.chains.sample old.time (sweeps + n * (s.unused + 1)) x a ∧
      new.chains.sample = (x (sweeps + n * (s.unused + 1))).sample ∧
      new.ratio = (∑ j ∈ Finset.range (n * (s.unused + 1)), (a (sweeps + j) : ℝ)) / ((C : ℝ) * ((n * (s.unused + 1) : Nat) : ℝ)) ∧
      ∀ (c : Fin C) (i : Nat), i < n → (new.energies.getD (c * n + i) 0).re =
        (H (fun σ => Complex.exp (s.machine v σ)) ((x (sweeps + (i + 1) * (s.unused + 1))).sample c) /
          Complex.exp (s.machine v ((x (sweeps + (i + 1) * (s.unused + 1))).sample c))).re := by
  intro sweeps
  have hs : sizesOk s.batchSize C = true := by
    have h1 : C ≠ 0 := by omega
    simp [sizesOk, hB, h1]
  have hdiv : s.batchSize / C = n := by rw [hB]; exact Nat.mul_div_cancel_left n hC
  unfold nextBatch at h
  rw [Option.bind_eq_some_iff] at h
  obtain ⟨r, hr, h⟩ := h
  rw [Option.bind_eq_some_iff] at h
  obtain ⟨e, he, h⟩ := h
  obtain rfl := Option.some.inj h
  obtain ⟨x, a, hp, hx0, hend, -, hrows, hcover, hratio⟩ := C46_next hs hr
  rw [hdiv] at hp hend hrows hcover hratio
  have hsp := (hspin _).path hp (by rw [hx0]; exact h0)
  have hbatch : ∀ row < s.batchSize, IsSpin (r.batch row) := by
    intro row hrow
    obtain ⟨c, i, hi, rfl⟩ := hcover row hrow
    rw [hrows c i hi]
    refine hsp _ ?_ c
    exact Nat.add_le_add_left (Nat.mul_le_mul_right _ (by omega)) _
  have hcon := fun b : Fin s.batchSize => hrep.contract s.batchSize (fun b => r.batch b) b (hbatch b b.isLt)
  have hR : 0 < s.rows := by
    have hpos : 0 < s.batchSize := by rw [hB]; exact Nat.mul_pos hC hn
    have h1 := hcon ⟨0, hpos⟩
    have := h1.count
    have h2 := h1.first
    by_contra hneg
    have h3 : s.find s.batchSize (fun b => r.batch b) ⟨0, hpos⟩ = [] := List.length_eq_zero_iff.1 (by omega)
    rw [h3] at h2
    simp at h2
  have hlv := localValues_ofRows (s.find s.batchSize fun b => r.batch b) (fun b => r.batch b) hcon hR H (s.machine v)
    (fun b => hrep.apply s.batchSize (fun b => r.batch b) b (hbatch b b.isLt) _)
  unfold estimate at he
  rw [hlv, Option.map_some] at he
  obtain rfl := Option.some.inj he
  refine ⟨x, a, ⟨hx0, hp⟩, by rw [← hend], hratio, ?_⟩
  intro c i hi
  have hlt : c * n + i < s.batchSize := by
    have h1 := c.isLt
    have h2 : (c + 1) * n ≤ C * n := Nat.mul_le_mul_right _ (by omega)
    rw [Nat.add_mul, Nat.one_mul] at h2
    omega
  dsimp only
  rw [List.getD_eq_getElem _ _ (by simpa [specLocal] using hlt)]
  simp only [specLocal, List.getElem_map, List.getElem_finRange]
  dsimp only [Fin.cast]
  rw [hrows c i hi]

/-! ### C100 -/

/-- **C100, proved part.** Training with at least two chains, `n ≥ 2` recorded configurations each. After
step `k`, whatever the weights were before each step: let `b` be the step in which the batch in use was
drawn. The sweeps of `next(sampler)` in that step continue the chains of the run with the weights before
step `b`. `MCMCStats` logs, at the end of each batch or of each epoch as asked (and nothing at the
other moment), the share of accepted moves among those proposed after the warm up, and the
statistics of the real parts of the local energies `(Hψ)(σ)/ψ(σ)`, chain by chain in the order in
which the chains visited `σ`, `unused_sampels + 1` sweeps apart. -/
theorem C100_statistics_partial (s : Setup W ι C) (H : Wave ι → Wave ι) (hrep : Represents s H)
    (hspin : ∀ ψ, SweepKeeps (s.sweep ψ) fun _ => IsSpin) (n : Nat) (hC : 2 ≤ C) (hn : 2 ≤ n) (hB : s.batchSize = C * n)
    (hm : 0 < s.mini) (hmb : s.mini ≤ s.batchSize) (start : Fin C → Config ι) (hstart : ∀ c, IsSpin (start c))
    (w : Nat → W) (k : Nat) (st : St ι C) (h : after s w (fresh s start) (k + 1) = some st) (inBatch : Bool) :
    let b := k / (s.batchSize / s.mini) * (s.batchSize / s.mini)
    let sweeps := warmUpSweeps n s.unused s.discard
    let ψ := s.machine (w b)
    ∃ (old : St ι C) (x : Nat → Metropolis.State ι C) (a : Nat → Nat) (y : Nat → Nat → ℝ) (l : Logs),
      after s w (fresh s start) b = some old ∧
      Stretch s.sweep ψ old.chains.sample old.time (sweeps + n * (s.unused + 1)) x a ∧
      st.chains.sample = (x (sweeps + n * (s.unused + 1))).sample ∧
      (∀ (c : Fin C) (i : Nat), i < n → y c i =
        (H (fun σ => Complex.exp (ψ σ)) ((x (sweeps + (i + 1) * (s.unused + 1))).sample c) /
          Complex.exp (ψ ((x (sweeps + (i + 1) * (s.unused + 1))).sample c))).re) ∧
      Describes C n y (∑ j ∈ Finset.range (n * (s.unused + 1)), (a (sweeps + j) : ℝ))
        ((C : ℝ) * ((n * (s.unused + 1) : Nat) : ℝ)) l ∧
      onEnd s inBatch st (if inBatch then .batchEnd else .epochEnd) = some l ∧
      onEnd s inBatch st (if inBatch then .epochEnd else .batchEnd) = some [] := by
  intro b sweeps ψ
  obtain ⟨old, new, hold, hnew, hst⟩ := same_batch hm hmb h
  have hs : sizesOk s.batchSize C = true := by
    have h1 : C ≠ 0 := by omega
    simp [sizesOk, hB, h1]
  obtain ⟨x, a, hstretch, hend, hratio, hen⟩ := nextBatch_spec hrep hspin (n := n) (by omega) (by omega) hB
    (after_spin hs hspin (st0 := fresh s start) hstart hold) hnew
  have e1 : st.energies = new.energies := by rw [hst]
  have e2 : st.ratio = new.ratio := by rw [hst]
  have e3 : st.chains = new.chains := by rw [hst]
  let values : Nat → ℝ := fun i => (st.energies.getD i 0).re
  obtain ⟨q, hq, -, hq2⟩ := C51_statistics_partial C n hC hn values
  have hadd : addMcmc s st = some [("mcmc/acceptance_ratio", some st.ratio), ("mcmc/energy_r_hat", q.rHat),
      ("mcmc/energy_effective_sample_size", q.effectiveSampleSize),
      ("mcmc/energy_correlations_sum", q.correlationsSum)] := by
    unfold addMcmc
    rw [hB, hq, Option.bind_some]
  refine ⟨old, x, a, perChain n values, [("mcmc/acceptance_ratio", some st.ratio), ("mcmc/energy_r_hat", q.rHat),
      ("mcmc/energy_effective_sample_size", q.effectiveSampleSize),
      ("mcmc/energy_correlations_sum", q.correlationsSum)], hold, hstretch, by rw [e3, hend], ?_, ?_, ?_, ?_⟩
  · intro c i hi
    show (st.energies.getD (c * n + i) 0).re = _
    rw [e1]
    exact hen c i hi
  · refine ⟨?_, ?_, ?_, ?_⟩
    · rw [← hratio, ← e2]
      simp [Logs.get]
    · intro hW
      rw [← hq2 hW]
      simp [Logs.get]
    · intro hv hcut
      obtain ⟨q', hq', h1, -⟩ := C67_no_cutoff_partial C n hC hn values hv hcut
      obtain rfl := Option.some.inj (hq.symm.trans hq')
      rw [← h1]
      simp [Logs.get]
    · intro hv hcut hne
      obtain ⟨q', hq', -, h1⟩ := C67_no_cutoff_partial C n hC hn values hv hcut
      obtain rfl := Option.some.inj (hq.symm.trans hq')
      rw [← h1 hne]
      simp [Logs.get]
  · cases inBatch
    · exact hadd
    · exact hadd
  · cases inBatch <;> rfl

/-- **C100 fails.** With one chain, the default of the samplers, every call that is to log raises, for every
state of the run. -/
theorem C100_violated (s : Setup W ι 1) (st : St ι 1) (inBatch : Bool) :
    onEnd s inBatch st (if inBatch then .batchEnd else .epochEnd) = none := by
  have h : addMcmc s st = none := by
    unfold addMcmc
    rw [C51_violated]
    rfl
  cases inBatch <;> exact h

/-- **C100, proved part.** With one configuration per chain and batch the convergence statistics cannot
be estimated; the constants `1`, `0` and the batch size are logged instead. -/
theorem C100_single_partial (s : Setup W ι C) (hC : 2 ≤ C) (hB : s.batchSize = C) (st : St ι C) :
    onEnd s true st .batchEnd = some [("mcmc/acceptance_ratio", some st.ratio), ("mcmc/energy_r_hat", some 1),
      ("mcmc/energy_effective_sample_size", some (s.batchSize : ℝ)), ("mcmc/energy_correlations_sum", some 0)] := by
  show addMcmc s st = _
  unfold addMcmc
  rw [hB, C51_single_partial C hC, Option.bind_some]

/-- Every step succeeds if every sweep does and the sizes fit. -/
theorem after_succeeds (s : Setup W ι C) (H : Wave ι → Wave ι) (hrep : Represents s H)
    (hspin : ∀ ψ, SweepKeeps (s.sweep ψ) fun _ => IsSpin) (hs : sizesOk s.batchSize C = true) (hpos : 0 < s.batchSize)
    (hsw : ∀ ψ j st, ∃ r, s.sweep ψ j st = some r)
    (start : Fin C → Config ι) (hstart : ∀ c, IsSpin (start c)) (w : Nat → W) (k : Nat) :
    ∃ st, after s w (fresh s start) k = some st := by
  induction k with
  | zero => exact ⟨_, rfl⟩
  | succ k ih =>
    obtain ⟨st, hst⟩ := ih
    have h0 := after_spin hs hspin (st0 := fresh s start) hstart hst
    have hn : ∃ st', nextBatch s (w k) st = some st' := by
      obtain ⟨r, hr⟩ := C46_succeeds (s.machine (w k)) s.batchSize s.unused s.discard st.time hpos
        (s.sweep (s.machine (w k))) (hsw _) (s.garbage st.time) st.chains
      obtain ⟨x, a, hp, hx0, -, -, hrows, hcover, -⟩ := C46_next hs hr
      have hsp := (hspin _).path hp (by rw [hx0]; exact h0)
      have hbatch : ∀ row < s.batchSize, IsSpin (r.batch row) := by
        intro row hrow
        obtain ⟨c, i, hi, rfl⟩ := hcover row hrow
        rw [hrows c i hi]
        refine hsp _ ?_ c
        exact Nat.add_le_add_left (Nat.mul_le_mul_right _ (by omega)) _
      have hcon := fun b : Fin s.batchSize => hrep.contract s.batchSize (fun b => r.batch b) b (hbatch b b.isLt)
      have hR : 0 < s.rows := by
        have h1 := hcon ⟨0, hpos⟩
        have := h1.count
        have h2 := h1.first
        by_contra hneg
        have h3 : s.find s.batchSize (fun b => r.batch b) ⟨0, hpos⟩ = [] := List.length_eq_zero_iff.1 (by omega)
        rw [h3] at h2
        simp at h2
      have hlv := localValues_ofRows (s.find s.batchSize fun b => r.batch b) (fun b => r.batch b) hcon hR H
        (s.machine (w k)) (fun b => hrep.apply s.batchSize (fun b => r.batch b) b (hbatch b b.isLt) _)
      unfold nextBatch
      rw [hr, Option.bind_some]
      unfold estimate
      rw [hlv]
      exact ⟨_, rfl⟩
    unfold after
    rw [hst, Option.bind_some]
    unfold advance
    split
    · obtain ⟨st', h'⟩ := hn
      rw [h']
      exact ⟨_, rfl⟩
    · exact ⟨_, rfl⟩

/-- Training for the Ising chain with two chains, batches of four, mini batches of two; the weight
scales the network's output. Each sweep proposes to flip the spin whose number is the parity of the sweep. -/
noncomputable def demo (u : Nat → Fin 2 → ℝ) : Setup ℝ (Fin 3) 2 where
  machine w σ := (w * σ 0 * σ 1 : ℝ)
  batchSize := 4
  mini := 2
  unused := 1
  discard := 10
  sweep ψ := symmetricSweeps ψ (fun t st c i => if (i : Nat) = t % 2 then - st.sample c i else st.sample c i) u
  garbage _ _ _ := 7
  rows := 3 + 1
  find _ sample b := isingFindConn1 (.float 1) 1 true sample b
  length B sample b := by rw [isingFindConn1_eq]; simp

/-- The hypotheses of `C100_statistics_partial` hold in `demo` and every number of steps succeeds. -/
theorem demo_ok (u : Nat → Fin 2 → ℝ) :
    Represents (demo u) (tfim (chainBonds 3 true) 1 1) ∧ (∀ ψ, SweepKeeps ((demo u).sweep ψ) fun _ => IsSpin) ∧
    ∀ (w : Nat → ℝ) k, ∃ st, after (demo u) w (fresh (demo u) fun _ _ => 1) k = some st := by
  have h1 : Represents (demo u) (tfim (chainBonds 3 true) 1 1) :=
    ⟨fun B sample b h => C09_ising_chain _ _ _ sample b h, fun B sample b _ ψ => C06_ising_chain _ _ _ sample b ψ⟩
  have h2 : ∀ ψ, SweepKeeps ((demo u).sweep ψ) fun _ => IsSpin := by
    intro ψ
    refine symmetric_keeps ψ u fun t st h c i => ?_
    split
    · rcases h c i with e | e <;> simp [e]
    · exact h c i
  exact ⟨h1, h2, fun w k => after_succeeds _ _ h1 h2 (by show sizesOk 4 2 = true; decide) (by show 0 < 4; decide) (fun ψ j st => ⟨_, rfl⟩) _
    (fun _ _ => Or.inl rfl) w k⟩

example (u : Nat → Fin 2 → ℝ) (w : Nat → ℝ) (k : Nat) :
    ∃ st l, after (demo u) w (fresh (demo u) fun _ _ => 1) (k + 1) = some st ∧ onEnd (demo u) true st .batchEnd = some l := by
  obtain ⟨h1, h2, h3⟩ := demo_ok u
  obtain ⟨st, hst⟩ := h3 w (k + 1)
  obtain ⟨_, _, _, _, l, -, -, -, -, -, h, -⟩ := C100_statistics_partial (demo u) _ h1 h2 2 le_rfl le_rfl (by rfl) (by show 0 < 2; decide)
    (by show 2 ≤ 4; decide) _ (fun _ _ => Or.inl rfl) w k st hst true
  exact ⟨st, l, hst, h⟩

end Verif.Callbacks.MCMC
