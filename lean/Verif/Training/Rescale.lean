import Verif.Callbacks.MCMC
import Verif.Energy.GeneratorProps

/-!
# C102: a factor in front of the wave function does not change Monte Carlo training

Two networks whose logarithmic amplitudes differ by a complex constant (which may depend on the weights in any
way) describe the same states. Samplers, local energies, statistics, loss and the whole training do not
tell them apart.
-/
namespace Verif.Training.Rescale

open Verif.Operators Verif.Energy Verif.Metropolis Verif.Callbacks

variable {ι : Type} {C : Nat}

/-! ### Specification -/

/-- The logarithmic amplitudes of the wave function times `exp c`. -/
def shifted {σ : Type} (c : ℂ) (ψ : σ → ℂ) : σ → ℂ := fun s => ψ s + c

/-- The same call of `next(sampler)` with the wave function multiplied by `exp c`. -/
def shiftedCall (p : NextCall ι C × ℂ) : NextCall ι C := { p.1 with machine := shifted p.2 p.1.machine }

/-- A kind of sweep (with its random numbers) does not notice constants, whichever are added in the single calls:
all batches, the number of sweeps done and the configurations at the end are the same, whatever amplitudes were
stored before; and if one run raises, so does the other. -/
def Blind (sw : (Config ι → ℂ) → Nat → Sweep ι C) : Prop :=
  ∀ (batchSize unused discard t : Nat) (calls : List (NextCall ι C × ℂ)) (st st' : State ι C), st'.sample = st.sample →
    (run sw batchSize unused discard (calls.map shiftedCall) (t, st')).map (fun r => (r.1, r.2.1, r.2.2.sample)) =
    (run sw batchSize unused discard (calls.map Prod.fst) (t, st)).map (fun r => (r.1, r.2.1, r.2.2.sample))

/-! ### One sweep, one call -/

/-- The chains as stored for the other network. -/
def shiftState (c : ℂ) (st : State ι C) : State ι C := { st with values := fun x => st.values x + c }

/-- One sweep commutes with the constant. -/
def SweepBlind (sw : (Config ι → ℂ) → Nat → Sweep ι C) : Prop :=
  ∀ ψ c t st, sw (shifted c ψ) t (shiftState c st) = (sw ψ t st).map fun r => (shiftState c r.1, r.2)

theorem acceptStep_shift (ratio : Fin C → ℝ) (cand : Fin C → Config ι) (v : Fin C → ℂ) (u : Fin C → ℝ) (c : ℂ) (st : State ι C) :
    acceptStep ratio cand (fun x => v x + c) u (shiftState c st) =
      (shiftState c (acceptStep ratio cand v u st).1, (acceptStep ratio cand v u st).2) := by
  unfold acceptStep shiftState
  refine Prod.ext ?_ rfl
  simp only [State.mk.injEq, true_and]
  funext x
  split <;> rfl

theorem symmetric_blind {cand : Nat → State ι C → Fin C → Config ι} (hc : ∀ t st st', st'.sample = st.sample → cand t st' = cand t st)
    (u : Nat → Fin C → ℝ) : SweepBlind fun ψ => symmetricSweeps ψ cand u := by
  intro ψ c t st
  simp only [symmetricSweeps, sweepSymmetric, Option.map_some, hc t st (shiftState c st) rfl]
  have h : ∀ x, (shifted c ψ (cand t st x)).re - ((shiftState c st).values x).re = (ψ (cand t st x)).re - (st.values x).re := by
    intro x
    simp only [shifted, shiftState, Complex.add_re]
    ring
  simp only [h]
  exact congrArg some (acceptStep_shift _ _ (fun x => ψ (cand t st x)) _ c st)

theorem hamiltonian_blind (find find' : Nat → (Fin C → Config ι) → Fin C → List (Row ι ℝ)) {k : Nat → State ι C → Fin C → Nat}
    (hk : ∀ t st st', st'.sample = st.sample → k t st' = k t st) (u : Nat → Fin C → ℝ) :
    SweepBlind fun ψ => hamiltonianSweeps ψ find find' k u := by
  intro ψ c t st
  simp only [hamiltonianSweeps, sweepHamiltonian, hk t st (shiftState c st) rfl]
  have hs : (shiftState c st).sample = st.sample := rfl
  rw [hs]
  cases allSome fun x => (possible (find t st.sample x))[k t st x]? with
  | none => rfl
  | some cand =>
    simp only [Option.bind_some, Option.map_some]
    have h : ∀ x, (shifted c ψ (cand x)).re - ((shiftState c st).values x).re = (ψ (cand x)).re - (st.values x).re := by
      intro x
      simp only [shifted, shiftState, Complex.add_re]
      ring
    simp only [h]
    exact congrArg some (acceptStep_shift _ _ (fun x => ψ (cand x)) _ c st)

section
variable {sw : (Config ι → ℂ) → Nat → Sweep ι C} (h : SweepBlind sw)
include h

theorem sweeps_shift (ψ : Config ι → ℂ) (c : ℂ) (t n : Nat) (st : State ι C) (k : Nat) :
    sweeps (sw (shifted c ψ)) t n (shiftState c st, k) = (sweeps (sw ψ) t n (st, k)).map fun r => (shiftState c r.1, r.2) := by
  induction n with
  | zero => rfl
  | succ n ih =>
    rw [sweeps, sweeps, ih]
    cases sweeps (sw ψ) t n (st, k) with
    | none => rfl
    | some r =>
      simp only [Option.map_some, Option.bind_some]
      rw [h ψ c (t + n) r.1]
      cases sw ψ (t + n) r.1 <;> rfl

theorem warnUp_shift (ψ : Config ι → ℂ) (c : ℂ) (unused n t : Nat) (st : State ι C) :
    warnUp (sw (shifted c ψ)) unused n (t, shiftState c st) = (warnUp (sw ψ) unused n (t, st)).map fun r => (r.1, shiftState c r.2) := by
  induction n with
  | zero => rfl
  | succ n ih =>
    rw [warnUp, warnUp, ih]
    cases warnUp (sw ψ) unused n (t, st) with
    | none => rfl
    | some r =>
      simp only [Option.map_some, Option.bind_some]
      rw [sweeps_shift h ψ c r.1 unused r.2 0]
      cases sweeps (sw ψ) r.1 unused (r.2, 0) <;> rfl

theorem mainLoop_shift (ψ : Config ι → ℂ) (c : ℂ) (unused perChain n : Nat) (l : Loop ι C) :
    mainLoop (sw (shifted c ψ)) unused perChain n { l with state := shiftState c l.state } =
      (mainLoop (sw ψ) unused perChain n l).map fun r => { r with state := shiftState c r.state } := by
  induction n with
  | zero => rfl
  | succ n ih =>
    rw [mainLoop, mainLoop, ih]
    cases mainLoop (sw ψ) unused perChain n l with
    | none => rfl
    | some r =>
      simp only [Option.map_some, Option.bind_some]
      rw [sweeps_shift h ψ c r.time (unused + 1) r.state r.counter]
      cases sweeps (sw ψ) r.time (unused + 1) (r.state, r.counter) <;> rfl

theorem next_shift (ψ : Config ι → ℂ) (c : ℂ) (batchSize unused discard t : Nat) (garbage : Nat → Config ι) (st st' : State ι C)
    (hst : st'.sample = st.sample) :
    next (shifted c ψ) batchSize unused discard (sw (shifted c ψ)) t garbage st' =
      (next ψ batchSize unused discard (sw ψ) t garbage st).map fun r => { r with state := shiftState c r.state } := by
  have h0 : machineUpdated (shifted c ψ) st' = shiftState c (machineUpdated ψ st) := by
    unfold machineUpdated shiftState shifted
    simp only [hst]
  have hw : (if discard > 0 then warnUp (sw (shifted c ψ)) unused (batchSize / C / discard) (t, machineUpdated (shifted c ψ) st')
        else some (t, machineUpdated (shifted c ψ) st')) =
      (if discard > 0 then warnUp (sw ψ) unused (batchSize / C / discard) (t, machineUpdated ψ st)
        else some (t, machineUpdated ψ st)).map fun r => (r.1, shiftState c r.2) := by
    rw [h0]
    split
    · exact warnUp_shift h ψ c unused _ t _
    · rfl
  unfold next
  dsimp only
  rw [hw]
  cases (if discard > 0 then warnUp (sw ψ) unused (batchSize / C / discard) (t, machineUpdated ψ st)
        else some (t, machineUpdated ψ st)) with
  | none => rfl
  | some w =>
    simp only [Option.map_some, Option.bind_some]
    rw [mainLoop_shift h ψ c unused (batchSize / C) (batchSize / C) ⟨w.1, w.2, 0, garbage⟩]
    cases mainLoop (sw ψ) unused (batchSize / C) (batchSize / C) ⟨w.1, w.2, 0, garbage⟩ with
    | none => rfl
    | some l =>
      simp only [Option.map_some, Option.bind_some]
      split <;> rfl

theorem SweepBlind.blind : Blind sw := by
  intro batchSize unused discard t calls
  induction calls generalizing t with
  | nil =>
    intro st st' hst
    simp only [List.map_nil, run, Option.map_some, hst]
  | cons p calls ih =>
    intro st st' hst
    simp only [List.map_cons, run]
    have hn := next_shift h p.1.machine p.2 batchSize unused discard t p.1.garbage st st' hst
    rw [show (shiftedCall p).machine = shifted p.2 p.1.machine from rfl, show (shiftedCall p).garbage = p.1.garbage from rfl, hn]
    cases next p.1.machine batchSize unused discard (sw p.1.machine) t p.1.garbage st with
    | none => rfl
    | some r =>
      simp only [Option.map_some, Option.bind_some]
      have hi := ih r.time r.state (shiftState p.2 r.state) rfl
      revert hi
      cases run sw batchSize unused discard (calls.map shiftedCall) (r.time, shiftState p.2 r.state) <;>
        cases run sw batchSize unused discard (calls.map Prod.fst) (r.time, r.state) <;>
        simp
end

/-- **C102, sampling.** Metropolis-Hastings samplers do not notice a factor in front of the wave function: the local,
exchange and uniform sampler, a sampler with candidates from a global sampler, and the Hamiltonian sampler with any
operator. -/
theorem C102_sampling {D : Nat} {shape : Fin D → Nat} (u : Nat → Fin C → ℝ) :
    (∀ r, Blind (C := C) (localSweeps (shape := shape) r u)) ∧
    (∀ r, Blind (C := C) (exchangeSweeps (shape := shape) r u)) ∧
    (∀ r, Blind (ι := ι) (uniformSweeps r u)) ∧
    (∀ cand : Nat → Fin C → Config ι, Blind fun ψ => symmetricSweeps ψ (fun t _ => cand t) u) ∧
    ∀ (find find' : Nat → (Fin C → Config ι) → Fin C → List (Row ι ℝ)) (k : Nat → (Fin C → Config ι) → Fin C → Nat),
      Blind fun ψ => hamiltonianSweeps ψ find find' (fun t st => k t st.sample) u := by
  refine ⟨fun r => ?_, fun r => ?_, fun r => ?_, fun cand => ?_, fun find find' k => ?_⟩
  · exact (symmetric_blind (fun t st st' hst => by rw [hst]) u).blind
  · exact (symmetric_blind (fun t st st' hst => by rw [hst]) u).blind
  · exact (symmetric_blind (fun t st st' hst => rfl) u).blind
  · exact (symmetric_blind (fun t st st' hst => rfl) u).blind
  · exact (hamiltonian_blind find find' (fun t st st' hst => by rw [hst]) u).blind

/-! ### Local energies -/

section
variable {σ : Type} {R B : Nat}

theorem unbalancedStep_shift (flat : List ℂ) (a : Answer σ R B) (c : ℂ) (st : Option (Nat × List ℂ)) (b : Fin B) :
    unbalancedStep (flat.map (· + c)) a st b = unbalancedStep flat a st b := by
  unfold unbalancedStep
  cases st with
  | none => rfl
  | some p =>
    obtain ⟨idx, out⟩ := p
    simp only [Option.bind_eq_bind, Option.bind_some, ← List.map_drop, ← List.map_take, List.head?_map]
    cases ((flat.drop idx).take (usedRows a b).length).head? with
    | none => rfl
    | some v =>
      simp only [Option.map_some, Option.bind_some, List.map_map, Function.comp_def, add_sub_add_right_eq_sub]

theorem flat_length (a : Answer σ R B) : ((List.finRange R).flatMap fun r => (List.finRange B).map fun b => a.conn r b).length = R * B := by
  simp

theorem localValues_shift (ψ : σ → ℂ) (c : ℂ) (a : Answer σ R B) : localValues (shifted c ψ) a = localValues ψ a := by
  unfold localValues
  split
  · unfold unbalanced
    have hf : flatLogValues (shifted c ψ) a = (flatLogValues ψ a).map (· + c) := by
      unfold flatLogValues shifted
      rw [List.map_map]
      rfl
    rw [hf]
    have hs : unbalancedStep ((flatLogValues ψ a).map (· + c)) a = unbalancedStep (flatLogValues ψ a) a := by
      funext st b
      exact unbalancedStep_shift _ a c st b
    rw [hs]
  · unfold balanced
    dsimp only
    split
    · rfl
    · rename_i hR
      congr 1
      refine List.map_congr_left fun b _ => Finset.sum_congr rfl fun r _ => ?_
      have hg : ∀ i < R * B, (((List.finRange R).flatMap fun r => (List.finRange B).map fun b => a.conn r b).map (shifted c ψ)).getD i 0 =
          (((List.finRange R).flatMap fun r => (List.finRange B).map fun b => a.conn r b).map ψ).getD i 0 + c := by
        intro i hi
        rw [← flat_length a] at hi
        rw [List.getD_eq_getElem _ _ (by rw [List.length_map]; exact hi), List.getD_eq_getElem _ _ (by rw [List.length_map]; exact hi),
          List.getElem_map, List.getElem_map]
        rfl
      have h1 : r.val * B + b.val < R * B := by
        calc r.val * B + b.val < r.val * B + B := by omega
          _ = (r.val + 1) * B := by ring
          _ ≤ R * B := Nat.mul_le_mul_right _ r.2
      have h2 : 0 * B + b.val < R * B := by
        have := Nat.mul_le_mul_right B (Nat.one_le_iff_ne_zero.2 hR)
        omega
      rw [hg _ h1, hg _ h2, add_sub_add_right_eq_sub]

/-- **C102, estimates.** Local energies, mean, variance and loss coefficients of a batch do not notice the factor. The
operator may answer anything. -/
theorem C102_estimates (ψ : σ → ℂ) (c : ℂ) (a : Answer σ R B) (batchSize : Nat) :
    localValues (shifted c ψ) a = localValues ψ a ∧ estimate (shifted c ψ) a = estimate ψ a ∧
    Energy.Exact.vmcCoefficients batchSize (shifted c ψ) a = Energy.Exact.vmcCoefficients batchSize ψ a := by
  have h := localValues_shift ψ c a
  have h2 : estimate (shifted c ψ) a = estimate ψ a := by
    unfold estimate
    rw [h]
  refine ⟨h, h2, ?_⟩
  unfold Energy.Exact.vmcCoefficients
  rw [h2]
end

/-! ### Runs with logs -/

open MCMC

variable {W : Type}

/-- The same run with the wave function multiplied by `exp (c w)` for weights `w`. -/
def rescaled (c : W → ℂ) (s : Setup W ι C) : Setup W ι C := { s with machine := fun w => shifted (c w) (s.machine w) }

/-- All but the stored amplitudes. -/
def visible (st : St ι C) : (Fin C → Config ι) × Nat × ℝ × (Nat → Config ι) × List ℂ × Nat :=
  (st.chains.sample, st.time, st.ratio, st.batch, st.energies, st.idx)

theorem nextBatch_shift (s : Setup W ι C) (hs : SweepBlind s.sweep) (c : W → ℂ) (w : W) (st st' : St ι C) (h : visible st' = visible st) :
    (nextBatch (rescaled c s) w st').map visible = (nextBatch s w st).map visible := by
  obtain ⟨⟨x, v⟩, t, ra, b, e, i⟩ := st
  obtain ⟨⟨x', v'⟩, t', ra', b', e', i'⟩ := st'
  simp only [visible, Prod.mk.injEq] at h
  obtain ⟨rfl, rfl, rfl, rfl, rfl, rfl⟩ := h
  unfold nextBatch
  have hn := next_shift hs (s.machine w) (c w) s.batchSize s.unused s.discard t' (s.garbage t') ⟨x', v⟩ ⟨x', v'⟩ rfl
  change (((next (shifted (c w) (s.machine w)) s.batchSize s.unused s.discard (s.sweep (shifted (c w) (s.machine w))) t' (s.garbage t') ⟨x', v'⟩)).bind
    fun r => (estimate (shifted (c w) (s.machine w)) (Answer.ofRows s.rows (s.find s.batchSize fun b => r.batch b) (s.length _ _))).bind _).map _ = _
  rw [hn]
  dsimp only
  cases next (s.machine w) s.batchSize s.unused s.discard (s.sweep (s.machine w)) t' (s.garbage t') ⟨x', v⟩ with
  | none => rfl
  | some r =>
    simp only [Option.map_some, Option.bind_some]
    rw [(C102_estimates (s.machine w) (c w) _ 0).2.1]
    cases estimate (s.machine w) (Answer.ofRows s.rows (s.find s.batchSize fun b => r.batch b) (s.length _ _)) <;> rfl

theorem advance_shift (s : Setup W ι C) (hs : SweepBlind s.sweep) (c : W → ℂ) (w : W) (st st' : St ι C) (h : visible st' = visible st) :
    (advance (rescaled c s) w st').map visible = (advance s w st).map visible := by
  have hi : st'.idx = st.idx := congrArg (fun v => v.2.2.2.2.2) h
  have hn := nextBatch_shift s hs c w st st' h
  unfold advance
  rw [show (rescaled c s).mini = s.mini from rfl, show (rescaled c s).batchSize = s.batchSize from rfl, hi]
  split
  · revert hn
    cases nextBatch (rescaled c s) w st' <;> cases nextBatch s w st <;> simp [visible]
    tauto
  · simp only [Option.map_some, Option.some.injEq]
    simp only [visible, Prod.mk.injEq] at h ⊢
    tauto

theorem after_shift (s : Setup W ι C) (hs : SweepBlind s.sweep) (c : W → ℂ) (w : Nat → W) (st st' : St ι C) (h : visible st' = visible st)
    (k : Nat) : (after (rescaled c s) w st' k).map visible = (after s w st k).map visible := by
  induction k with
  | zero => simp only [after, Option.map_some, h]
  | succ k ih =>
    rw [after, after]
    revert ih
    cases after (rescaled c s) w st' k <;> cases after s w st k <;> simp only [Option.map_some, Option.map_none, Option.bind_none, Option.bind_some,
      Option.some.injEq, reduceCtorEq, false_implies, forall_true_left, imp_self]
    intro hv
    exact advance_shift s hs c (w k) _ _ hv

theorem onEnd_visible (s : Setup W ι C) (c : W → ℂ) (inBatch : Bool) (st st' : St ι C) (h : visible st' = visible st) (m : Moment) :
    onEnd (rescaled c s) inBatch st' m = onEnd s inBatch st m := by
  have he : st'.energies = st.energies := congrArg (fun v => v.2.2.2.2.1) h
  have hr : st'.ratio = st.ratio := congrArg (fun v => v.2.2.1) h
  have ha : addMcmc (rescaled c s) st' = addMcmc s st := by
    unfold addMcmc
    rw [he, hr]
    rfl
  cases m <;> simp only [onEnd, ha]

/-- The kinds of sweeps of the library, with given random numbers. -/
inductive OfLibrary : ((Config ι → ℂ) → Nat → Sweep ι C) → Prop
  | symmetric (cand : Nat → (Fin C → Config ι) → Fin C → Config ι) (u : Nat → Fin C → ℝ) :
    OfLibrary fun ψ => symmetricSweeps ψ (fun t st => cand t st.sample) u
  | hamiltonian (find find' : Nat → (Fin C → Config ι) → Fin C → List (Row ι ℝ)) (k : Nat → (Fin C → Config ι) → Fin C → Nat)
    (u : Nat → Fin C → ℝ) : OfLibrary fun ψ => hamiltonianSweeps ψ find find' (fun t st => k t st.sample) u

theorem OfLibrary.blind {sw : (Config ι → ℂ) → Nat → Sweep ι C} (h : OfLibrary sw) : SweepBlind sw := by
  cases h with
  | symmetric cand u => exact symmetric_blind (fun t st st' hst => by rw [hst]) u
  | hamiltonian find find' k u => exact hamiltonian_blind find find' (fun t st st' hst => by rw [hst]) u

theorem localSweeps_ofLibrary {D : Nat} {shape : Fin D → Nat} (r : Nat → Fin C → Idx shape) (u : Nat → Fin C → ℝ) :
    OfLibrary (localSweeps r u) := .symmetric (fun t S => localCandidates (r t) S) u

/-- **C102, runs with given weights.** In a run with the same weights in each step, whatever factor each of them brings, the
batches, local energies, acceptance ratios and logged statistics are the same after every number of steps, for every
batch and mini-batch size. -/
theorem C102_runs (s : Setup W ι C) (hs : OfLibrary s.sweep) (c : W → ℂ) (w : Nat → W) (start : Fin C → Config ι) (k : Nat) :
    (after (rescaled c s) w (fresh (rescaled c s) start) k).map visible = (after s w (fresh s start) k).map visible ∧
    ∀ (inBatch : Bool) (m : Moment),
      (after (rescaled c s) w (fresh (rescaled c s) start) k).bind (fun st => onEnd (rescaled c s) inBatch st m) =
      (after s w (fresh s start) k).bind fun st => onEnd s inBatch st m := by
  have h := after_shift s hs.blind c w (fresh s start) (fresh (rescaled c s) start) rfl k
  refine ⟨h, fun inBatch m => ?_⟩
  revert h
  cases after (rescaled c s) w (fresh (rescaled c s) start) k <;> cases after s w (fresh s start) k <;> simp only [Option.map_some, Option.map_none,
    Option.bind_none, Option.bind_some, Option.some.injEq, reduceCtorEq, false_implies, forall_true_left, imp_self]
  intro hv
  exact onEnd_visible s c inBatch _ _ hv m

/-! ### Training -/

/-- The targets the generator hands out for the whole batch (variational_monte_carlo.py 38-40, 50). -/
noncomputable def targets (s : Setup W ι C) (st : St ι C) : List ℂ :=
  st.energies.map fun l => (starRingEnd ℂ) (l - mean st.energies) / (s.batchSize : ℂ)

/-- The loss keras computes for the current mini-batch, as a function of the weights: the mean of
`loss_for_energy_minimization` (loss.py 4-5) over the rows before `_idx` (mini_batch_generator.py 27-32) with the
given targets `y`. -/
noncomputable def miniLoss (s : Setup W ι C) (idx : Nat) (batch : Nat → Config ι) (y : List ℂ) (v : W) : ℝ :=
  (∑ b : Fin s.mini, Energy.Exact.loss (y.getD (idx - s.mini + b) 0) (s.machine v (batch (idx - s.mini + b)))) / s.mini

/-- One step of `fit_generator` (variational_monte_carlo.py 34-50, mini_batch_generator.py 27-32): the next mini-batch is
taken, after drawing a batch with the current weights if the last one is used up; then the optimizer with state `o`, which learns about the network through the loss only,
changes weights and its state. -/
noncomputable def step {O : Type} (s : Setup W ι C) (optimizer : O → W → (W → ℝ) → O × W) (x : (O × W) × St ι C) :
    Option ((O × W) × St ι C) :=
  (advance s x.1.2 x.2).map fun st => (optimizer x.1.1 x.1.2 (miniLoss s st.idx st.batch (targets s st)), st)

/-- The state after `k` training steps. -/
noncomputable def train {O : Type} (s : Setup W ι C) (optimizer : O → W → (W → ℝ) → O × W) (x : (O × W) × St ι C) :
    Nat → Option ((O × W) × St ι C)
  | 0 => some x
  | k + 1 => (train s optimizer x k).bind (step s optimizer)

theorem sum_targets (s : Setup W ι C) (st : St ι C) : (targets s st).sum = 0 := by
  have hsum : ∀ (l : List ℂ) (m d : ℂ), (l.map fun x => (starRingEnd ℂ) (x - m) / d).sum =
      (starRingEnd ℂ) (l.sum - l.length * m) / d := by
    intro l m d
    induction l with
    | nil => simp
    | cons x l ih =>
      rw [List.map_cons, List.sum_cons, ih, List.sum_cons, List.length_cons]
      push_cast
      rw [← add_div, ← map_add]
      congr 2
      ring
  rw [targets, hsum]
  rcases hl : st.energies with _ | ⟨x, l⟩
  · simp
  · rw [mean, mul_div_cancel₀]
    · simp
    · simp only [List.length_cons]
      exact_mod_cast Nat.succ_ne_zero l.length

theorem sum_getD (y : List ℂ) (B : Nat) (h : y.length ≤ B) : ∑ b : Fin B, y.getD b 0 = y.sum := by
  rw [Fin.sum_univ_eq_sum_range (fun b => y.getD b 0)]
  induction y generalizing B with
  | nil => simp
  | cons x l ih =>
    obtain ⟨B, rfl⟩ : ∃ n, B = n + 1 := ⟨B - 1, by simp at h; omega⟩
    rw [Finset.sum_range_succ']
    simp only [List.getD_cons_succ, List.getD_cons_zero, List.sum_cons]
    rw [ih B (by simpa using h), add_comm]

theorem loss_shift (s : Setup W ι C) (c : W → ℂ) (st : St ι C) (hl : st.energies.length ≤ s.batchSize) (v : W) :
    ∑ b : Fin s.batchSize, Energy.Exact.loss ((targets s st).getD b 0) (s.machine v (st.batch b) + c v) =
      ∑ b : Fin s.batchSize, Energy.Exact.loss ((targets s st).getD b 0) (s.machine v (st.batch b)) := by
  have h : ∀ b : Fin s.batchSize, Energy.Exact.loss ((targets s st).getD b 0) (s.machine v (st.batch b) + c v) =
      Energy.Exact.loss ((targets s st).getD b 0) (s.machine v (st.batch b)) + 2 * (c v * (targets s st).getD b 0).re := by
    intro b
    simp only [Energy.Exact.loss, add_mul, Complex.add_re, mul_add]
  have hz : ∑ b : Fin s.batchSize, 2 * (c v * (targets s st).getD b 0).re = 0 := by
    rw [← Finset.mul_sum, ← Complex.re_sum, ← Finset.mul_sum, sum_getD _ _ (by rw [targets, List.length_map]; exact hl), sum_targets]
    simp
  rw [Finset.sum_congr rfl fun b _ => h b, Finset.sum_add_distrib, hz, add_zero]

/-- **C102, loss.** If the whole batch is used at once, the loss as a function of the weights does not notice the factor, even
if it depends on the weights; so neither does its gradient. -/
theorem C102_loss (s : Setup W ι C) (hm : s.mini = s.batchSize) (c : W → ℂ) (st : St ι C) (hi : st.idx = s.batchSize)
    (hl : st.energies.length ≤ s.batchSize) :
    miniLoss (rescaled c s) st.idx st.batch (targets s st) = miniLoss s st.idx st.batch (targets s st) := by
  funext v
  show (∑ b : Fin s.mini, Energy.Exact.loss ((targets s st).getD (st.idx - s.mini + b) 0)
      (s.machine v (st.batch (st.idx - s.mini + b)) + c v)) / (s.mini : ℝ) = _
  unfold miniLoss
  congr 1
  rw [hi, hm, Nat.sub_self]
  simp only [Nat.zero_add]
  exact loss_shift s c st hl v

theorem sum_slices (f : Nat → ℝ) (m q : Nat) : ∑ r : Fin q, ∑ b : Fin m, f ((r.val + 1) * m - m + b) = ∑ b : Fin (q * m), f b := by
  rw [Fin.sum_univ_eq_sum_range f]
  have h : ∀ r : Nat, ∑ b : Fin m, f ((r + 1) * m - m + b) = ∑ b ∈ Finset.range m, f (r * m + b) := by
    intro r
    rw [Fin.sum_univ_eq_sum_range fun b => f ((r + 1) * m - m + b), Nat.add_mul, Nat.one_mul, Nat.add_sub_cancel]
  rw [Finset.sum_congr rfl fun r _ => h r.val, Fin.sum_univ_eq_sum_range fun r => ∑ b ∈ Finset.range m, f (r * m + b)]
  induction q with
  | zero => simp
  | succ q ih => rw [Finset.sum_range_succ, ih, Nat.add_mul, Nat.one_mul, Finset.sum_range_add]

/-- **C102, mini-batches.** The losses of the single mini-batches may notice the factor, their sum over the batch does not. -/
theorem C102_minibatches (s : Setup W ι C) (q : Nat) (hq : q * s.mini = s.batchSize) (c : W → ℂ) (st : St ι C)
    (hl : st.energies.length ≤ s.batchSize) (v : W) :
    ∑ r : Fin q, miniLoss (rescaled c s) ((r + 1) * s.mini) st.batch (targets s st) v =
      ∑ r : Fin q, miniLoss s ((r + 1) * s.mini) st.batch (targets s st) v := by
  unfold miniLoss
  rw [← Finset.sum_div, ← Finset.sum_div]
  congr 1
  have e1 := sum_slices (fun b => Energy.Exact.loss ((targets s st).getD b 0) (s.machine v (st.batch b) + c v)) s.mini q
  have e2 := sum_slices (fun b => Energy.Exact.loss ((targets s st).getD b 0) (s.machine v (st.batch b))) s.mini q
  refine e1.trans (Eq.trans ?_ e2.symm)
  rw [hq]
  exact loss_shift s c st hl v

theorem unbalanced_length {σ : Type} {R B : Nat} (ψ : σ → ℂ) (a : Answer σ R B) {l : List ℂ} (h : localValues ψ a = some l) : l.length = B := by
  have hfold : ∀ (flat : List ℂ) (bs : List (Fin B)) (p q : Nat × List ℂ), bs.foldl (unbalancedStep flat a) (some p) = some q →
      q.2.length = p.2.length + bs.length := by
    intro flat bs
    induction bs with
    | nil =>
      intro p q hq
      obtain rfl := Option.some.inj hq
      rfl
    | cons b bs ih =>
      intro p q hq
      rw [List.foldl_cons] at hq
      cases hb : unbalancedStep flat a (some p) b with
      | none =>
        rw [hb] at hq
        have : ∀ bs : List (Fin B), bs.foldl (unbalancedStep flat a) none = none := by
          intro bs
          induction bs with
          | nil => rfl
          | cons b bs ih => exact ih
        rw [this] at hq
        cases hq
      | some p' =>
        rw [hb] at hq
        rw [ih p' q hq]
        have : p'.2.length = p.2.length + 1 := by
          unfold unbalancedStep at hb
          simp only [Option.bind_eq_bind, Option.bind_some] at hb
          cases hv : ((flat.drop p.1).take (usedRows a b).length).head? with
          | none => rw [hv] at hb; cases hb
          | some v =>
            rw [hv] at hb
            simp only [Option.bind_some] at hb
            obtain rfl := Option.some.inj hb
            simp
        rw [this, List.length_cons]
        omega
  unfold localValues at h
  split at h
  · unfold unbalanced at h
    rw [Option.map_eq_some_iff] at h
    obtain ⟨q, hq, rfl⟩ := h
    have := hfold _ _ _ _ hq
    simpa using this
  · unfold balanced at h
    dsimp only at h
    split at h
    · cases h
    · obtain rfl := Option.some.inj h
      simp

theorem nextBatch_length {s : Setup W ι C} {w : W} {st st' : St ι C} (h : nextBatch s w st = some st') : st'.energies.length = s.batchSize := by
  unfold nextBatch at h
  rw [Option.bind_eq_some_iff] at h
  obtain ⟨r, -, h⟩ := h
  rw [Option.bind_eq_some_iff] at h
  obtain ⟨e, he, h⟩ := h
  obtain rfl := Option.some.inj h
  unfold estimate at he
  rw [Option.map_eq_some_iff] at he
  obtain ⟨lv, hlv, rfl⟩ := he
  exact unbalanced_length _ _ hlv

/-- **C102, training.** Train two networks whose wave functions differ by a factor, which may depend on the weights in any way,
with whole batches from the same starting configurations and random numbers and with any optimizer that learns about the
network through the loss only (that is, through its values and derivatives). Then weights, optimizer, batches, local energies
and acceptance ratios agree after every step. -/
theorem C102_training {O : Type} (s : Setup W ι C) (hs : OfLibrary s.sweep) (hmini : s.mini = s.batchSize) (c : W → ℂ)
    (optimizer : O → W → (W → ℝ) → O × W) (o : O) (w : W) (start : Fin C → Config ι) (k : Nat) :
    (train (rescaled c s) optimizer ((o, w), fresh (rescaled c s) start) k).map (fun x => (x.1, visible x.2)) =
    (train s optimizer ((o, w), fresh s start) k).map fun x => (x.1, visible x.2) := by
  have hadv : ∀ (v : W) (st st' : St ι C), advance s v st = some st' → st.idx = s.batchSize → st.energies.length ≤ s.batchSize →
      st'.idx = s.batchSize ∧ st'.energies.length ≤ s.batchSize := by
    intro v st st' h hi hl
    unfold advance at h
    split at h
    · rw [Option.bind_eq_some_iff] at h
      obtain ⟨st1, h1, h2⟩ := h
      obtain rfl := Option.some.inj h2
      exact ⟨by simp [hmini], (nextBatch_length h1).le⟩
    · obtain rfl := Option.some.inj h
      exact ⟨by simp only; omega, hl⟩
  have hstep : ∀ x x' : (O × W) × St ι C, (x'.1, visible x'.2) = (x.1, visible x.2) → x.2.idx = s.batchSize →
      x.2.energies.length ≤ s.batchSize →
      (step (rescaled c s) optimizer x').map (fun x => (x.1, visible x.2)) = (step s optimizer x).map fun x => (x.1, visible x.2) := by
    intro x x' h hidx hle
    obtain ⟨y, st⟩ := x
    obtain ⟨y', st'⟩ := x'
    simp only [Prod.mk.injEq] at h
    obtain ⟨rfl, h⟩ := h
    have ha := advance_shift s hs.blind c y'.2 st st' h
    unfold step
    dsimp only at hidx hle ⊢
    revert ha
    cases ha' : advance (rescaled c s) y'.2 st' <;> cases hb : advance s y'.2 st <;> simp only [Option.map_some, Option.map_none, Option.some.injEq,
      reduceCtorEq, false_implies, imp_self]
    rename_i sa sb
    intro hv
    obtain ⟨hi2, hl2⟩ := hadv _ _ _ hb hidx hle
    have he : sa.energies = sb.energies := congrArg (fun v => v.2.2.2.2.1) hv
    have hbt : sa.batch = sb.batch := congrArg (fun v => v.2.2.2.1) hv
    have hix : sa.idx = sb.idx := congrArg (fun v => v.2.2.2.2.2) hv
    have ht : targets (rescaled c s) sa = targets s sb := by
      unfold targets
      rw [he]
      rfl
    rw [ht, hbt, hix, C102_loss s hmini c sb hi2 hl2, hv]
  have hinv : ∀ (k : Nat) (x : (O × W) × St ι C), train s optimizer ((o, w), fresh s start) k = some x →
      x.2.idx = s.batchSize ∧ x.2.energies.length ≤ s.batchSize := by
    intro k
    induction k with
    | zero =>
      intro x hx
      obtain rfl := Option.some.inj hx
      exact ⟨rfl, Nat.zero_le _⟩
    | succ k ih =>
      intro x hx
      rw [train, Option.bind_eq_some_iff] at hx
      obtain ⟨y, hy, hx⟩ := hx
      unfold step at hx
      rw [Option.map_eq_some_iff] at hx
      obtain ⟨st, hst, rfl⟩ := hx
      exact hadv _ _ _ hst (ih y hy).1 (ih y hy).2
  induction k with
  | zero => rfl
  | succ k ih =>
    rw [train, train]
    revert ih
    cases ha : train (rescaled c s) optimizer ((o, w), fresh (rescaled c s) start) k <;> cases hb : train s optimizer ((o, w), fresh s start) k <;>
      simp only [Option.map_some, Option.map_none, Option.bind_none, Option.bind_some, Option.some.injEq, reduceCtorEq, false_implies, imp_self]
    intro hv
    exact hstep _ _ hv (hinv k _ hb).1 (hinv k _ hb).2

theorem after_congr (s : Setup W ι C) (w w' : Nat → W) (st : St ι C) (k : Nat) (h : ∀ j < k, w j = w' j) : after s w st k = after s w' st k := by
  induction k with
  | zero => rfl
  | succ k ih => rw [after, after, ih fun j hj => h j (by omega), h k (by omega)]

/-- Training succeeds if every run with given weights does. -/
theorem train_succeeds {O : Type} (s : Setup W ι C) (optimizer : O → W → (W → ℝ) → O × W) (o : O) (w0 : W) (start : Fin C → Config ι)
    (h : ∀ w k, ∃ st, after s w (fresh s start) k = some st) (k : Nat) :
    ∃ x w, train s optimizer ((o, w0), fresh s start) k = some x ∧ after s w (fresh s start) k = some x.2 := by
  induction k with
  | zero => exact ⟨_, fun _ => w0, rfl, rfl⟩
  | succ k ih =>
    obtain ⟨x, w, h1, h2⟩ := ih
    obtain ⟨st, hst⟩ := h (Function.update w k x.1.2) (k + 1)
    have hst0 := hst
    rw [after, after_congr s _ w _ k fun j hj => by rw [Function.update_of_ne (by omega)], h2, Option.bind_some, Function.update_self] at hst
    refine ⟨(optimizer x.1.1 x.1.2 (miniLoss s st.idx st.batch (targets s st)), st), Function.update w k x.1.2, ?_, hst0⟩
    rw [train, h1, Option.bind_some, step, hst]
    rfl

/-- The theorem is about training that takes place: the Ising chain of `MCMC.demo`, whole batches of four, gradient descent
with momentum, and a factor that grows with the weight. -/
example (u : Nat → Fin 2 → ℝ) (k : Nat) : let s := { demo u with mini := 4 }
    let optimizer : ℝ → ℝ → (ℝ → ℝ) → ℝ × ℝ := fun o w l => (o / 2 + deriv l w, w - (o / 2 + deriv l w) / 10)
    ∃ x x', train s optimizer ((0, 1), fresh s fun _ _ => 1) k = some x ∧
      train (rescaled (fun w : ℝ => ((1000 * w : ℝ) : ℂ)) s) optimizer ((0, 1), fresh s fun _ _ => 1) k = some x' ∧ x'.1 = x.1 ∧ visible x'.2 = visible x.2 := by
  intro s optimizer
  obtain ⟨h1, h2, -⟩ := demo_ok u
  have hs : OfLibrary s.sweep := .symmetric (fun t S c (i : Fin 3) => if (i : Nat) = t % 2 then - S c i else S c i) u
  obtain ⟨x, -, hx, -⟩ := train_succeeds s optimizer 0 1 (fun _ _ => 1) (fun w k => after_succeeds s _ ⟨h1.contract, h1.apply⟩ h2
    (by show sizesOk 4 2 = true; decide) (by show 0 < 4; decide) (fun ψ j st => ⟨_, rfl⟩) _ (fun _ _ => Or.inl rfl) w k) k
  have h := C102_training s hs rfl (fun w : ℝ => ((1000 * w : ℝ) : ℂ)) optimizer 0 1 (fun _ _ => 1) k
  rw [hx] at h
  obtain ⟨x', hx', he⟩ := Option.map_eq_some_iff.1 h
  simp only [Prod.mk.injEq] at he
  exact ⟨x, x', hx, hx', he.1, he.2⟩

end Verif.Training.Rescale
