import Verif.Callbacks.EvaluationError
import Verif.Symmetry.Evaluation

/-!
# C156: the numbers that the experiment scripts print for the symmetrised model

The evaluations at the end of `experiments/train.py` and in `experiments/run_evaluation.py` symmetrise the model and sample
from the base model (C74); here are all the numbers they print, with their errors.
-/
namespace Verif.Ensemble

open Verif.Operators Verif.Energy Verif.Callbacks Verif.Training MeasureTheory

variable {n : Nat}

/-- The logarithm of the wave function that the sampler samples: the predictions of the base model (experiments/train.py:137,
run_evaluation.py:20). -/
noncomputable def baseLog (model : Config (Square n) → LogAmp) (s : Config (Fin n × Fin n)) : ℂ := toComplex (model (onSquare s))

/-! ### Specification -/

/-- What C156 says of a script that evaluates in `T` steps with batches of `B` samples, for an operator `H` with the energy
observable `est`: for every normalised base model with finite outputs and every sampler that draws independent samples of
it, the script ends without an exception; the printed energy, relative error and variance are those of the symmetrised model
(as in C155), and so is `abs_sigma_z`; the printed `sigma_z` is that of the base model (here is the disagreement). -/
def ScriptReports (H : Wave (Fin n × Fin n) → Wave (Fin n × Fin n))
    (est : Nat → (B : Nat) → (Config (Fin n × Fin n) → ℂ) → (Fin B → Config (Fin n × Fin n)) → Option (ℂ × ℝ × List ℂ)) (B T : Nat)
    (script : (Smp : Type) → (Smp → Nat → List (Config (Fin n × Fin n) × ℂ)) → (Smp → Nat → List (Config (Fin n × Fin n) × ℂ)) →
      (Nat → Fin 4 → ℝ) → ℝ → World Smp (Fin n × Fin n) → Except Callbacks.Err Logs) : Prop :=
  ∀ (Ω : Type) [MeasurableSpace Ω] (P : Measure Ω) [IsProbabilityMeasure P]
    (model : Config (Square n) → LogAmp), (∀ s, (model s).re.isSome) → Normalized model →
  ∀ S : Ω → Fin B → Config (Fin n × Fin n), Independent P (baseLog model) S →
  ∀ (Smp : Type) (size : Smp → Nat) (st : Generator Smp (Fin n × Fin n)) (w : World Smp (Fin n × Fin n)) (s : Smp),
    setSampler size st s (some B) = some w.gen → size s = B →
  ∀ draw : (Fin T → Ω) → Smp → Nat → List (Config (Fin n × Fin n) × ℂ),
    (∀ u (t : Fin T), draw u s (st.drawn + t) = energyBatch (est (st.drawn + t) B (evaluationLog model)) (S (u t))) →
  ∀ (drawVal : Smp → Nat → List (Config (Fin n × Fin n) × ℂ)) (clock : Nat → Fin 4 → ℝ) (E : ℝ), E ≠ 0 →
    ∃ energy var sigma absSigma : (Fin T → Ω) → ℝ,
      (∀ u, ∃ R, script Smp (draw u) drawVal clock E w = .ok R ∧
        R.read "energy/energy" = some (energy u) ∧ R.read "energy/local_energy_variance" = some (var u) ∧
        R.read "energy/relative_error" = some ((E - energy u) / E) ∧
        R.read "observables/sigma_z" = some (sigma u) ∧ R.read "observables/abs_sigma_z" = some (absSigma u)) ∧
      ReportsEnergy (Measure.pi fun _ : Fin T => P) (T * B) B H (evaluationLog model) energy var ∧
      Estimates (Measure.pi fun _ : Fin T => P) (T * B) absSigma
        (∑ s ∈ allSpins (Fin n × Fin n), Energy.born (evaluationLog model) s *
          |(∑ i, (s i : ℝ)) / Fintype.card (Fin n × Fin n)|) 1 ∧
      Estimates (Measure.pi fun _ : Fin T => P) (T * B) sigma (rayleigh magnetisation fun s => Complex.exp (baseLog model s)).re 2

/-! ### Averages over the base model and over the symmetrised model -/

theorem sum_onSquareR (F : Config (Square n) → ℝ) :
    ∑ s ∈ allSpins (Fin n × Fin n), F (onSquare s) = ∑ s ∈ allSpins (Square n), F s := by
  have h := sum_onSquare fun s => ((F s : ℝ) : ℂ)
  rw [← Complex.ofReal_sum, ← Complex.ofReal_sum] at h
  exact Complex.ofReal_injective h

theorem born_baseLog {model : Config (Square n) → LogAmp} (hfin : ∀ s, (model s).re.isSome) (hnorm : Normalized model)
    (s : Config (Fin n × Fin n)) : Energy.born (baseLog model) s = ‖(model (onSquare s)).exp‖ ^ 2 := by
  have h1 : ∀ t, Complex.exp (baseLog model t) = (model (onSquare t)).exp := fun t => exp_toComplex (hfin _)
  unfold Energy.born
  simp only [h1]
  rw [sum_onSquareR fun s => ‖(model s).exp‖ ^ 2, hnorm, div_one]

theorem evaluation_normalized {model : Config (Square n) → LogAmp} (hnorm : Normalized model) :
    ∑ s ∈ allSpins (Square n), ‖(evaluationModel model s).exp‖ ^ 2 = 1 := by
  have h := sum_evaluation model (fun _ => 1) (fun _ _ _ _ => rfl) fun _ => rfl
  simp only [mul_one] at h
  rw [← Complex.ofReal_sum, ← Complex.ofReal_sum] at h
  rw [Complex.ofReal_injective h, hnorm]

theorem born_evaluationLog {model : Config (Square n) → LogAmp} (hfin : ∀ s, (model s).re.isSome) (hnorm : Normalized model)
    (s : Config (Fin n × Fin n)) : Energy.born (evaluationLog model) s = ‖(evaluationModel model (onSquare s)).exp‖ ^ 2 := by
  unfold Energy.born
  simp only [evaluationLog_exp hfin]
  rw [sum_onSquareR fun s => ‖(evaluationModel model s).exp‖ ^ 2, evaluation_normalized hnorm, div_one]

/-- Averages of quantities with the symmetries agree. -/
theorem same_average {model : Config (Square n) → LogAmp} (hfin : ∀ s, (model s).re.isSome) (hnorm : Normalized model)
    (f : Config (Fin n × Fin n) → ℝ) (hsym : ∀ swap a b s, f (fun p => s (gridSym n swap a b p)) = f s)
    (hneg : ∀ s, f (fun p => -s p) = f s) :
    ∑ s ∈ allSpins (Fin n × Fin n), Energy.born (baseLog model) s * f s =
      ∑ s ∈ allSpins (Fin n × Fin n), Energy.born (evaluationLog model) s * f s := by
  simp only [born_baseLog hfin hnorm, born_evaluationLog hfin hnorm]
  refine (sum_onSquareR fun s => ‖(model s).exp‖ ^ 2 * f (onGrid s)).trans (Eq.trans ?_
    (sum_onSquareR fun s => ‖(evaluationModel model s).exp‖ ^ 2 * f (onGrid s)).symm)
  have h := sum_evaluation model (fun s => ((f (onGrid s) : ℝ) : ℂ)) (fun swap a b s => ?_) fun s => ?_
  · have h' : ((∑ s ∈ allSpins (Square n), ‖(evaluationModel model s).exp‖ ^ 2 * f (onGrid s) : ℝ) : ℂ) =
        ((∑ s ∈ allSpins (Square n), ‖(model s).exp‖ ^ 2 * f (onGrid s) : ℝ) : ℂ) := by
      push_cast
      push_cast at h
      exact h
    exact (Complex.ofReal_injective h').symm
  · have hgs : onGrid (fun p => s (symmetry swap a b p)) = fun p => onGrid s (gridSym n swap a b p) := by
      have h := onSquare_gridSym swap a b (onGrid s)
      rw [onSquare_onGrid] at h
      rw [← h, onGrid_onSquare]
    rw [hgs, hsym]
  · rw [show onGrid (fun p => -s p) = fun p => -onGrid s p from rfl, hneg]

theorem evaluationLog_symmetry (model : Config (Square n) → LogAmp) (swap a b : Bool) (s : Config (Fin n × Fin n)) :
    evaluationLog model (fun p => s (gridSym n swap a b p)) = evaluationLog model s := by
  unfold evaluationLog
  rw [onSquare_gridSym, evaluation_symmetry]

theorem evaluationLog_neg (model : Config (Square n) → LogAmp) (s : Config (Fin n × Fin n)) :
    evaluationLog model (fun p => -s p) = evaluationLog model s := by
  unfold evaluationLog
  rw [show onSquare (fun p => -s p) = fun p => -onSquare s p from rfl, evaluation_neg]

theorem localEnergy_symmetry {H : Wave (Fin n × Fin n) → Wave (Fin n × Fin n)} (hH : SquareSymmetric H)
    (model : Config (Square n) → LogAmp) (swap a b : Bool) (s : Config (Fin n × Fin n)) :
    localEnergy H (evaluationLog model) (fun p => s (gridSym n swap a b p)) = localEnergy H (evaluationLog model) s := by
  unfold localEnergy
  rw [evaluationLog_symmetry, hH.square swap a b _ fun t => by rw [evaluationLog_symmetry]]

theorem localEnergy_neg {H : Wave (Fin n × Fin n) → Wave (Fin n × Fin n)} (hH : SquareSymmetric H)
    (model : Config (Square n) → LogAmp) (s : Config (Fin n × Fin n)) :
    localEnergy H (evaluationLog model) (fun p => -s p) = localEnergy H (evaluationLog model) s := by
  unfold localEnergy
  rw [evaluationLog_neg, hH.neg _ fun t => by rw [evaluationLog_neg]]

/-! ### The scripts -/

theorem scriptReports_of {H : Wave (Fin n × Fin n) → Wave (Fin n × Fin n)} (hH : SquareSymmetric H)
    {est : Nat → (B : Nat) → (Config (Fin n × Fin n) → ℂ) → (Fin B → Config (Fin n × Fin n)) → Option (ℂ × ℝ × List ℂ)}
    (hE : ∀ k B ψ x, (∀ b, IsSpin (x b)) → LocalEnergies H x ψ (est k B ψ x)) {B T : Nat} (hB : 0 < B) (hT : 0 < T)
    {script : (Smp : Type) → (Smp → Nat → List (Config (Fin n × Fin n) × ℂ)) → (Smp → Nat → List (Config (Fin n × Fin n) × ℂ)) →
      (Nat → Fin 4 → ℝ) → ℝ → World Smp (Fin n × Fin n) → Except Callbacks.Err Logs}
    (hscript : ∀ Smp draw drawVal clock E w, script Smp draw drawVal clock E w =
      evaluate draw drawVal clock T (defaultCallbacks (some E) false false 1)
        (some ["energy/energy", "energy/relative_error", "energy/local_energy_variance"]) w) :
    ScriptReports H est B T script := by
  intro Ω _ P _ model hfin hnorm S hS Smp size st w s h0 hsize draw hdraw drawVal clock E hE0
  obtain ⟨energy, var, sigma, absSigma, h1, h2, h3, h4⟩ := evaluation_core (H := H) (ψ := evaluationLog model) hS hB hT
    (fun g => same_average hfin hnorm (fun s => g (localEnergy H (evaluationLog model) s).re)
      (fun swap a b s => by rw [localEnergy_symmetry hH]) fun s => by rw [localEnergy_neg hH])
    (fun k x hx => hE k B _ x hx) size st w s (some B) h0 (by rintro m ⟨⟩; omega) draw hdraw drawVal clock (some E) false
    (some ["energy/energy", "energy/relative_error", "energy/local_energy_variance"]) (Or.inr ⟨rfl, rfl⟩)
  refine ⟨energy, var, sigma, absSigma, fun u => ?_, h2, ?_, h3⟩
  · obtain ⟨R, hR, r1, r2, r3, r4, r5⟩ := h1 u
    exact ⟨R, by rw [hscript, hR], r1, r2, r3 E rfl hE0, r4, r5⟩
  · rw [← same_average hfin hnorm (fun s => |(∑ i, (s i : ℝ)) / Fintype.card (Fin n × Fin n)|) (fun swap a b s => ?_) fun s => ?_]
    · exact h4
    · rw [(gridSym n swap a b).sum_comp fun p => (s p : ℝ)]
    · simp only [Int.cast_neg, Finset.sum_neg_distrib, neg_div, abs_neg]

/-- **C156 for `experiments/run_evaluation.py` and the Ising model**: `N` is `--num_of_samples`, `B` is `--mini_batch_size`. -/
theorem C156_run_ising_partial (h j : ℝ) (pbc : Bool) (N B : Nat) (hB : 0 < B) (hN : B ≤ N) :
    ScriptReports (n := n) (tfim (gridBonds n n pbc) h j) (fun _ _ logψ sample =>
      estimate logψ (Answer.ofRows (n * n + 1) (isingFindConn2 (.float h) j pbc sample)
        fun b => by rw [isingFindConn2_eq]; simp [length_gridSites])) B (N / B)
      fun _ draw drawVal clock E w => runEvaluation draw drawVal clock (some E) N B w :=
  scriptReports_of ⟨fun swap a b => tfim_rename (bondSym_gridSym n pbc swap a b) h j, tfim_neg _ h j⟩
    (fun _ _ logψ sample hs => C18_ising_grid h j pbc sample hs logψ) hB (Nat.div_pos hN hB) fun Smp draw drawVal clock E w => by
      unfold runEvaluation
      rw [if_neg hB.ne']
      rfl

/-- **C156 for `experiments/run_evaluation.py` and the Heisenberg model**; `history k` are the calls of the operator before
batch number `k`. -/
theorem C156_run_heisenberg_partial (rot pbc : Bool) (history : Nat → List (Call n n)) (N B : Nat) (hB : 0 < B) (hN : B ≤ N) :
    ScriptReports (n := n) (heisenberg (gridBonds n n pbc) (if rot then -1 else 1)) (fun k B logψ sample =>
      estimate logψ (Answer.ofRows (n * n * 2 + 1) (((HeisOp.new2 n n rot pbc).run (history k)).findConn B sample).2
        fun b => by rw [answer2]; exact length_heisRows _ _ _ (Or.inl rfl) _)) B (N / B)
      fun _ draw drawVal clock E w => runEvaluation draw drawVal clock (some E) N B w :=
  scriptReports_of ⟨fun swap a b => heisenberg_rename (bondSym_gridSym n pbc swap a b) _, heisenberg_neg _ _⟩
    (fun k B logψ sample hs => C18_heisenberg_grid rot pbc (history k) B sample hs logψ) hB (Nat.div_pos hN hB)
    fun Smp draw drawVal clock E w => by
      unfold runEvaluation
      rw [if_neg hB.ne']
      rfl

/-- **C156 for the evaluation at the end of `experiments/train.py` and the Ising model**; `c` is `--mini_batch_size`. -/
theorem C156_train_ising_partial (h j : ℝ) (pbc : Bool) (c : Nat) (hc : 16 ≤ c) (hc' : c < 2 ^ 15 * 16) :
    ScriptReports (n := n) (tfim (gridBonds n n pbc) h j) (fun _ _ logψ sample =>
      estimate logψ (Answer.ofRows (n * n + 1) (isingFindConn2 (.float h) j pbc sample)
        fun b => by rw [isingFindConn2_eq]; simp [length_gridSites])) (c / 16) (2 ^ 15 / (c / 16))
      fun _ draw drawVal clock E w => trainEvaluation draw drawVal clock (some E) c w :=
  scriptReports_of ⟨fun swap a b => tfim_rename (bondSym_gridSym n pbc swap a b) h j, tfim_neg _ h j⟩
    (fun _ _ logψ sample hs => C18_ising_grid h j pbc sample hs logψ) (by omega)
    (Nat.div_pos (by omega) (by omega)) fun Smp draw drawVal clock E w => by
      unfold trainEvaluation
      simp only
      rw [if_neg (by omega)]
      rfl

/-- **C156 for the evaluation at the end of `experiments/train.py` and the Heisenberg model.** -/
theorem C156_train_heisenberg_partial (rot pbc : Bool) (history : Nat → List (Call n n)) (c : Nat) (hc : 16 ≤ c)
    (hc' : c < 2 ^ 15 * 16) :
    ScriptReports (n := n) (heisenberg (gridBonds n n pbc) (if rot then -1 else 1)) (fun k B logψ sample =>
      estimate logψ (Answer.ofRows (n * n * 2 + 1) (((HeisOp.new2 n n rot pbc).run (history k)).findConn B sample).2
        fun b => by rw [answer2]; exact length_heisRows _ _ _ (Or.inl rfl) _)) (c / 16) (2 ^ 15 / (c / 16))
      fun _ draw drawVal clock E w => trainEvaluation draw drawVal clock (some E) c w :=
  scriptReports_of ⟨fun swap a b => heisenberg_rename (bondSym_gridSym n pbc swap a b) _, heisenberg_neg _ _⟩
    (fun k B logψ sample hs => C18_heisenberg_grid rot pbc (history k) B sample hs logψ) (by omega)
    (Nat.div_pos (by omega) (by omega)) fun Smp draw drawVal clock E w => by
      unfold trainEvaluation
      simp only
      rw [if_neg (by omega)]
      rfl

/-! ### The disagreement -/

theorem sum_neg_eq_zero (g : Config (Fin n × Fin n) → ℝ) (hg : ∀ s, g (fun p => -s p) = -g s) :
    ∑ s ∈ allSpins (Fin n × Fin n), g s = 0 := by
  have hspin : ∀ s : Config (Fin n × Fin n), s ∈ allSpins _ → (fun p => -s p) ∈ allSpins (Fin n × Fin n) := by
    intro s h
    rw [mem_allSpins] at h ⊢
    intro i
    rcases h i with h | h <;> simp [h]
  have h : ∑ s ∈ allSpins (Fin n × Fin n), g s = ∑ s ∈ allSpins (Fin n × Fin n), -g s := by
    refine Finset.sum_bij' (fun s _ p => -s p) (fun s _ p => -s p) hspin hspin (fun s _ => by simp) (fun s _ => by simp) fun s _ => ?_
    rw [hg, neg_neg]
  rw [Finset.sum_neg_distrib] at h
  linarith

theorem sigmaZ_neg (s : Config (Fin n × Fin n)) : sigmaZ (fun p => -s p) = -sigmaZ s := by
  unfold sigmaZ
  rw [Finset.sum_neg_distrib, Int.cast_neg, neg_div]

/-- The symmetrised model has no magnetisation, whatever the base model. -/
theorem evaluation_no_magnetisation (model : Config (Square n) → LogAmp) :
    (rayleigh magnetisation fun s => Complex.exp (evaluationLog model s)).re = 0 := by
  rw [← rayleigh_diagonal, Complex.ofReal_re]
  refine sum_neg_eq_zero _ fun s => ?_
  unfold Callbacks.born
  rw [evaluationLog_neg, sigmaZ_neg, mul_neg]

/-- A base model in which all spins up are twice as likely as every other configuration. -/
noncomputable def tilted (n : Nat) (s : Config (Square n)) : LogAmp :=
  open Classical in ⟨some (Real.log ((1 + if s = fun _ => 1 then 1 else 0) / (2 ^ Fintype.card (Square n) + 1)) / 2), 0⟩

theorem tilted_prob (s : Config (Square n)) :
    ‖(tilted n s).exp‖ ^ 2 = open Classical in (1 + if s = fun _ => 1 then 1 else 0) / (2 ^ Fintype.card (Square n) + 1) := by
  classical
  rw [norm_exp]
  unfold tilted expReal
  have h : (0 : ℝ) < (1 + if s = fun _ => 1 then 1 else 0) / (2 ^ Fintype.card (Square n) + 1) := by
    split <;> positivity
  rw [← Real.exp_nat_mul, show ((2 : ℕ) : ℝ) * (Real.log ((1 + if s = fun _ => 1 then 1 else 0) / (2 ^ Fintype.card (Square n) + 1)) / 2)
    = Real.log ((1 + if s = fun _ => 1 then 1 else 0) / (2 ^ Fintype.card (Square n) + 1)) by push_cast; ring, Real.exp_log h]

theorem tilted_normalized (n : Nat) : Normalized (tilted n) := by
  classical
  unfold Normalized
  simp only [tilted_prob]
  rw [← Finset.sum_div, Finset.sum_add_distrib, Finset.sum_const, nsmul_eq_mul, mul_one, Finset.sum_ite_eq',
    if_pos (by rw [mem_allSpins]; exact fun _ => Or.inl rfl)]
  have hc : (allSpins (Square n)).card = 2 ^ Fintype.card (Square n) := by
    unfold allSpins
    rw [Fintype.card_piFinset]
    simp
  rw [hc]
  push_cast
  exact div_self (by positivity)

theorem tilted_magnetisation (hn : 0 < n) :
    (rayleigh magnetisation fun s => Complex.exp (baseLog (tilted n) s)).re = 1 / (2 ^ Fintype.card (Square n) + 1) := by
  classical
  rw [← rayleigh_diagonal, Complex.ofReal_re]
  have h : ∀ s, Callbacks.born (baseLog (tilted n)) s * sigmaZ s =
      (sigmaZ s + if s = (fun _ => 1) then sigmaZ s else 0) / (2 ^ Fintype.card (Square n) + 1) := by
    intro s
    rw [show Callbacks.born (baseLog (tilted n)) s = Energy.born (baseLog (tilted n)) s from rfl,
      born_baseLog (fun _ => rfl) (tilted_normalized n), tilted_prob]
    have he : onSquare s = (fun _ => 1) ↔ s = fun _ => 1 :=
      ⟨fun h => by have := congrArg onGrid h; exact this, fun h => by rw [h]; rfl⟩
    simp only [he]
    split <;> ring
  simp only [h]
  rw [← Finset.sum_div, Finset.sum_add_distrib, sum_neg_eq_zero _ sigmaZ_neg, Finset.sum_ite_eq',
    if_pos (by rw [mem_allSpins]; exact fun _ => Or.inl rfl), zero_add]
  congr 1
  unfold sigmaZ
  have : NeZero n := ⟨hn.ne'⟩
  simp [hn.ne']

/-- **C156 is violated for `sigma_z`**, on a square of every size: there is a normalised base model with finite outputs of which
the scripts print a positive magnetisation (up to the errors of `ScriptReports`), while the symmetrised model that they
evaluate has none. -/
theorem C156_violated_sigma (hn : 0 < n) : ∃ model : Config (Square n) → LogAmp,
    (∀ s, (model s).re.isSome) ∧ Normalized model ∧
    0 < (rayleigh magnetisation fun s => Complex.exp (baseLog model s)).re ∧
    (rayleigh magnetisation fun s => Complex.exp (evaluationLog model s)).re = 0 :=
  ⟨tilted n, fun _ => rfl, tilted_normalized n, by rw [tilted_magnetisation hn]; positivity, evaluation_no_magnetisation _⟩

/-- Non-vacuity: there is a sampler of the tilted model on a square of three times three sites for which the hypotheses hold;
of it the script prints a magnetisation that is on average positive. -/
example (st : Generator Unit (Fin 3 × Fin 3)) (w : World Unit (Fin 3 × Fin 3)) (clock : Nat → Fin 4 → ℝ) :
    ∃ (Ω : Type) (_ : MeasurableSpace Ω) (P : Measure Ω) (draw : (Fin 4 → Ω) → Unit → Nat → List (Config (Fin 3 × Fin 3) × ℂ))
      (w' : World Unit (Fin 3 × Fin 3)) (sigma : (Fin 4 → Ω) → ℝ),
      (∀ u, ∃ R, runEvaluation (draw u) (fun _ _ => []) clock (some (-4)) 20 5 w' = .ok R ∧
        R.read "observables/sigma_z" = some (sigma u)) ∧
      0 < ∫ u, sigma u ∂(Measure.pi fun _ : Fin 4 => P) := by
  obtain ⟨S, -, hS⟩ := C154_wave_function (B := 5) (finProdFinEquiv (m := 3) (n := 3)) (baseLog (tilted 3)) _ le_rfl
  obtain ⟨_, _, sigma, _, h1, -, -, h3⟩ := C156_run_ising_partial (n := 3) 1 1 false 20 5 (by decide) (by decide) _
    (Measure.pi fun _ : Fin 5 => Autoregressive.unif) (tilted 3) (fun _ => rfl) (tilted_normalized 3) S hS Unit (fun _ => 5) st
    { w with gen := _ } () rfl rfl
    (fun u _ k => energyBatch (fun sample => estimate (evaluationLog (tilted 3)) (Answer.ofRows (3 * 3 + 1)
        (isingFindConn2 (.float 1) 1 false sample) fun b => by rw [isingFindConn2_eq]; simp [length_gridSites]))
      (S (u (Fin.ofNat 4 (k - st.drawn)))))
    (fun u t => by
      have ht : Fin.ofNat 4 (st.drawn + t.1 - st.drawn) = t := by
        rw [Nat.add_sub_cancel_left]
        exact Fin.ext (Nat.mod_eq_of_lt t.2)
      rw [ht]) (fun _ _ => []) clock (-4) (by norm_num)
  have h4 : 0 < ∫ u, sigma u ∂(Measure.pi fun _ : Fin 4 => Measure.pi fun _ : Fin 5 => Autoregressive.unif) := by
    rw [h3.mean, tilted_magnetisation (by decide)]
    positivity
  exact ⟨_, _, _, _, _, sigma, fun u => (h1 u).imp fun R h => ⟨h.1, h.2.2.2.2.1⟩, h4⟩

end Verif.Ensemble
