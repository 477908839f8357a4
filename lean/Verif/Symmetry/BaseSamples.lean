import Verif.Symmetry.Nested
import Verif.Symmetry.Commute
import Verif.Experiment.ScriptEvaluation
import Verif.Training.BatchSize

/-!
# C159: a symmetrised model can be evaluated and trained with samples of its base model

The functions of ensemble.py return models without conditional probabilities, so the autoregressive samplers can only sample the
base model; run_evaluation.py and the examples give such a sampler to `VariationalMonteCarlo` together with the symmetrised
model. C74 and C156 are about the energies of one such model; here is every nesting of the functions (with their default
`probabilistic=True`), and the gradients.
-/
namespace Verif.Ensemble

open Verif.Operators Verif.Energy Verif.Callbacks Verif.Training MeasureTheory

variable {n : Nat}

/-- The flag `probabilistic` of a call. -/
def Step.probabilistic : Step → Bool
  | .flips p => p
  | .translations p => p
  | .square p => p

/-- The logarithm of the wave function of the symmetrised model, on configurations of the lattice. -/
noncomputable def nestedLog (model : Config (Square n) → LogAmp) (steps : List Step) (s : Config (Fin n × Fin n)) : ℂ :=
  toComplex (nest model steps (onSquare s))

/-! ### Specification -/

/-- C159, evaluation: for every normalised base model with finite outputs, every sampler that draws independent samples of it and
every number `T` of steps, `evaluate` with the symmetrised model ends without an exception and reports its energy, variance and
mean absolute magnetisation, with the errors of `T * B` independent samples (as in C155). -/
def NestedReports (steps : List Step) (H : Wave (Fin n × Fin n) → Wave (Fin n × Fin n))
    (est : Nat → (B : Nat) → (Config (Fin n × Fin n) → ℂ) → (Fin B → Config (Fin n × Fin n)) → Option (ℂ × ℝ × List ℂ)) : Prop :=
  ∀ (Ω : Type) [MeasurableSpace Ω] (P : Measure Ω) [IsProbabilityMeasure P] (B T : Nat), 0 < B → 0 < T →
  ∀ model : Config (Square n) → LogAmp, (∀ s, (model s).re.isSome) → Normalized model →
  ∀ S : Ω → Fin B → Config (Fin n × Fin n), Independent P (baseLog model) S →
  ∀ (Smp : Type) (size : Smp → Nat) (st : Generator Smp (Fin n × Fin n)) (w : World Smp (Fin n × Fin n)) (s : Smp) (mini : Option Nat),
    setSampler size st s mini = some w.gen → size s = B → (∀ m, mini = some m → B < 2 * m) →
  ∀ draw : (Fin T → Ω) → Smp → Nat → List (Config (Fin n × Fin n) × ℂ),
    (∀ u (t : Fin T), draw u s (st.drawn + t) = energyBatch (est (st.drawn + t) B (nestedLog model steps)) (S (u t))) →
  ∀ (drawVal : Smp → Nat → List (Config (Fin n × Fin n) × ℂ)) (clock : Nat → Fin 4 → ℝ) (truth : Option ℝ) (inBatch : Bool),
    ∃ energy var absSigma : (Fin T → Ω) → ℝ,
      (∀ u, ∃ R, evaluate (draw u) drawVal clock T (defaultCallbacks truth inBatch false 1) none w = .ok R ∧
        R.read "energy/energy" = some (energy u) ∧ R.read "energy/local_energy_variance" = some (var u) ∧
        (∀ E, truth = some E → E ≠ 0 → R.read "energy/relative_error" = some ((E - energy u) / E)) ∧
        R.read "observables/abs_sigma_z" = some (absSigma u)) ∧
      ReportsEnergy (Measure.pi fun _ : Fin T => P) (T * B) B H (nestedLog model steps) energy var ∧
      Estimates (Measure.pi fun _ : Fin T => P) (T * B) absSigma
        (∑ s ∈ allSpins (Fin n × Fin n), Energy.born (nestedLog model steps) s *
          |(∑ i, (s i : ℝ)) / Fintype.card (Fin n × Fin n)|) 1

/-- C159, training: for every path of base models with finite outputs, the derivative of the training loss of a batch along which
the symmetrised model changes is on average `(1 - 1/B)` times the derivative of the energy of the symmetrised model, and its
mean square error shrinks in proportion to the batch size (as in C88 and C158). -/
def NestedGradient (steps : List Step) (H : Wave (Fin n × Fin n) → Wave (Fin n × Fin n))
    (targets : (B : Nat) → (Config (Fin n × Fin n) → ℂ) → (Fin B → Config (Fin n × Fin n)) → Option (List ℂ)) : Prop :=
  ∀ (Ω : Type) [MeasurableSpace Ω] (P : Measure Ω) [IsProbabilityMeasure P] (B : Nat), 0 < B →
  ∀ (model : ℝ → Config (Square n) → LogAmp) (θ : ℝ), (∀ s, (model θ s).re.isSome) → Normalized (model θ) →
  ∀ S : Ω → Fin B → Config (Fin n × Fin n), Independent P (baseLog (model θ)) S →
  ∀ D : Config (Fin n × Fin n) → ℂ, (∀ s, IsSpin s → HasDerivAt (fun t => nestedLog (model t) steps s) (D s) θ) →
    ∃ (E' : ℝ) (grad : Ω → ℝ),
      HasDerivAt (fun t => (rayleigh H fun s => Complex.exp (nestedLog (model t) steps s)).re) E' θ ∧
      (∀ u, ∃ c, targets B (nestedLog (model θ) steps) (S u) = some c ∧ c.length = B ∧
        HasDerivAt (fun t => ∑ b : Fin B, Exact.loss (c.getD b 0) (nestedLog (model t) steps (S u b))) (grad u) θ) ∧
      ∫ u, grad u ∂P = (1 - 1 / B) * E' ∧
      ∀ C, (∀ s, IsSpin s → ‖D s‖ ≤ C) → ∫ u, (grad u - E') ^ 2 ∂P ≤ 64 * C ^ 2 * localSpread H (nestedLog (model θ) steps) / B

/-! ### The members of an ensemble -/

/-- The transformations over which a call averages. -/
def Step.moves : Step → List (Config (Square n) → Config (Square n))
  | .flips _ => [id, fun s i => -s i]
  | .translations _ => (productRange fun _ : Fin 2 => n).map fun t => roll (shape := fun _ : Fin 2 => n) t
  | .square _ => members.map fun σ s p => s (sym σ p)

theorem step_apply (step : Step) (hp : step.probabilistic = true) (m : Config (Square n) → LogAmp) (s : Config (Square n)) :
    step.apply m s = ensembleOp true (step.moves.map fun g => m (g s)) := by
  cases step with
  | flips p =>
    obtain rfl : p = true := hp
    unfold Step.apply Step.moves
    dsimp only
    rw [upDown_row, neg_eq]
    rfl
  | translations p =>
    obtain rfl : p = true := hp
    unfold Step.apply Step.moves
    dsimp only
    rw [pbcTranslations_eq, List.map_map]
    rfl
  | square p =>
    obtain rfl : p = true := hp
    unfold Step.apply Step.moves
    dsimp only
    rw [obc_row, List.map_map]
    rfl

theorem moves_ne (hn : 0 < n) (step : Step) : step.moves (n := n) ≠ [] := by
  cases step with
  | flips p => simp [Step.moves]
  | translations p =>
    unfold Step.moves
    rw [ne_eq, List.map_eq_nil_iff]
    exact List.ne_nil_of_mem (mem_productRange fun _ => ⟨0, hn⟩)
  | square p => simp [Step.moves, members]

theorem moves_bij (step : Step) : ∀ g ∈ step.moves (n := n), ∃ h : Config (Square n) → Config (Square n),
    (∀ s, IsSpin s → IsSpin (g s)) ∧ (∀ s, IsSpin s → IsSpin (h s)) ∧ (∀ s, g (h s) = s) ∧ ∀ s, h (g s) = s := by
  intro g hg
  cases step with
  | flips p =>
    have hspin : ∀ s : Config (Square n), IsSpin s → IsSpin fun i => -s i := by
      intro s hs i
      rcases hs i with h | h <;> simp [h]
    rcases List.mem_cons.1 hg with rfl | hg
    · exact ⟨id, fun s h => h, fun s h => h, fun _ => rfl, fun _ => rfl⟩
    · rw [List.mem_singleton] at hg
      subst hg
      exact ⟨fun s i => -s i, hspin, hspin, fun s => by funext i; ring, fun s => by funext i; ring⟩
  | translations p =>
    obtain ⟨t, -, rfl⟩ := List.mem_map.1 hg
    refine ⟨roll (shape := fun _ : Fin 2 => n) fun d => negate (t d), fun s hs p => hs _, fun s hs p => hs _, fun s => ?_, fun s => ?_⟩
    · funext p; exact congrArg s (funext fun d => (rollIndex_inverse (t d) (p d)).2)
    · funext p; exact congrArg s (funext fun d => (rollIndex_inverse (t d) (p d)).1)
  | square p =>
    obtain ⟨σ, -, rfl⟩ := List.mem_map.1 hg
    obtain ⟨τ, hτ⟩ := sym_inverse (n := n) σ
    exact ⟨fun s p => s (sym τ p), fun s hs p => hs _, fun s hs p => hs _, fun s => by funext p; exact congrArg s (hτ p).2,
      fun s => by funext p; exact congrArg s (hτ p).1⟩

theorem nest_isSome (hn : 0 < n) {model : Config (Square n) → LogAmp} (h : ∀ s, (model s).re.isSome) :
    ∀ {steps : List Step}, (∀ step ∈ steps, step.probabilistic = true) → ∀ s, (nest model steps s).re.isSome
  | [], _, s => h s
  | step :: steps, hp, s => by
    unfold nest
    rw [step_apply step (hp step List.mem_cons_self)]
    refine isSome_of_exp_pos (by simpa using moves_ne hn step) fun a ha => ?_
    obtain ⟨g, _, rfl⟩ := List.mem_map.1 ha
    exact nest_isSome hn h (fun st hst => hp st (List.mem_cons_of_mem _ hst)) _

/-- Averages of invariant quantities are the same for the symmetrised model and for its base model. -/
theorem sum_nest (hn : 0 < n) (model : Config (Square n) → LogAmp) (f : Config (Square n) → ℂ) :
    ∀ {steps : List Step}, (∀ step ∈ steps, step.probabilistic = true) →
      (∀ step ∈ steps, ∀ g ∈ step.moves (n := n), ∀ s, f (g s) = f s) →
      ∑ s ∈ allSpins (Square n), ((‖(nest model steps s).exp‖ ^ 2 : ℝ) : ℂ) * f s =
        ∑ s ∈ allSpins (Square n), ((‖(model s).exp‖ ^ 2 : ℝ) : ℂ) * f s
  | [], _, _ => rfl
  | step :: steps, hp, hf => by
    have h1 := sum_members (model := nest model steps) (moves_ne hn step) (moves_bij step) f (hf step List.mem_cons_self)
    have h2 := sum_nest hn model f (fun st hst => hp st (List.mem_cons_of_mem _ hst))
      fun st hst => hf st (List.mem_cons_of_mem _ hst)
    rw [← h2, ← h1]
    refine Finset.sum_congr rfl fun s _ => ?_
    rw [show nest model (step :: steps) s = step.apply (nest model steps) s from rfl, step_apply step (hp step List.mem_cons_self)]

/-- The symmetrised model does not distinguish a configuration from its images. -/
theorem nest_moves (model : Config (Square n) → LogAmp) (steps : List Step) (step : Step) (hstep : step ∈ steps)
    (g : Config (Square n) → Config (Square n)) (hg : g ∈ step.moves) (s : Config (Square n)) :
    nest model steps (g s) = nest model steps s := by
  have h := C142_square model steps step hstep
  cases step with
  | flips p =>
    rcases List.mem_cons.1 hg with rfl | hg
    · rfl
    · rw [List.mem_singleton] at hg
      subst hg
      exact h s
  | translations p =>
    obtain ⟨t, -, rfl⟩ := List.mem_map.1 hg
    refine h (fun d => (t d).val) s _ fun p q hpq => ?_
    refine congrArg s (funext fun d => ?_)
    have h1 := hpq d
    have hd := (t d).2
    have hp := (p d).2
    apply Fin.ext
    show ((q d).val + (n - (t d).val)) % n = (p d).val
    rw [h1]
    have := mod_aux (a := (t d).val) hp
    rwa [Nat.mod_eq_of_lt hd] at this
  | square p =>
    obtain ⟨σ, -, rfl⟩ := List.mem_map.1 hg
    exact h σ.1 σ.2.1 σ.2.2 s

/-! ### On the lattice -/

/-- The transformation of configurations of the lattice. -/
def onLattice (g : Config (Square n) → Config (Square n)) (s : Config (Fin n × Fin n)) : Config (Fin n × Fin n) := onGrid (g (onSquare s))

/-- The Hamiltonian has the symmetries that the calls impose. -/
def Respects (H : Wave (Fin n × Fin n) → Wave (Fin n × Fin n)) (steps : List Step) : Prop :=
  ∀ step ∈ steps, ∀ g ∈ step.moves (n := n), IsSymmetry H (onLattice g)

theorem respects_of {H : Wave (Fin n × Fin n) → Wave (Fin n × Fin n)} {pbc : Bool}
    (hH : ∀ T, GridSymmetry n n pbc T → Commutes H T) {steps : List Step} (hsteps : ∀ p, Step.translations p ∈ steps → pbc = true) :
    Respects H steps := by
  have hsym : ∀ {T : Config (Fin n × Fin n) → Config (Fin n × Fin n)}, Commutes H T → IsSymmetry H T := by
    intro T hT ψ hψ s
    rw [hT ψ s, funext hψ]
  intro step hstep g hg
  cases step with
  | flips p =>
    rcases List.mem_cons.1 hg with rfl | hg
    · exact fun ψ _ s => rfl
    · rw [List.mem_singleton] at hg
      subst hg
      exact hsym (hH _ .spinFlip)
  | translations p =>
    obtain ⟨t, -, rfl⟩ := List.mem_map.1 hg
    exact hsym (hH _ (.translate (hsteps p hstep) (n - (t 0).val) (n - (t 1).val)))
  | square p =>
    obtain ⟨σ, -, rfl⟩ := List.mem_map.1 hg
    have hgs : onLattice (fun s p => s (sym σ p)) = fun (s : Config (Fin n × Fin n)) p => s (gridSym n σ.1 σ.2.1 σ.2.2 p) := by
      funext s
      have h := onSquare_gridSym σ.1 σ.2.1 σ.2.2 s
      show onGrid (fun p => onSquare s (symmetry σ.1 σ.2.1 σ.2.2 p)) = _
      rw [← h, onGrid_onSquare]
    rw [hgs]
    have hid : Commutes H fun s p => s ((Equiv.refl (Fin n × Fin n)) p) := fun ψ s => rfl
    have c1 : Commutes H fun s p => s ((if σ.1 then Equiv.prodComm _ _ else Equiv.refl (Fin n × Fin n)) p) := by
      cases σ.1
      · exact hid
      · exact hH _ (.transpose rfl)
    have c2 : Commutes H fun s p => s ((if σ.2.1 then revRows n n else Equiv.refl (Fin n × Fin n)) p) := by
      cases σ.2.1
      · exact hid
      · exact hH _ .mirrorRows
    have c3 : Commutes H fun s p => s ((if σ.2.2 then revColumns n n else Equiv.refl (Fin n × Fin n)) p) := by
      cases σ.2.2
      · exact hid
      · exact hH _ .mirrorColumns
    exact hsym ((c1.comp c2).comp c3)

theorem nestedLog_moves (model : Config (Square n) → LogAmp) (steps : List Step) (step : Step) (hstep : step ∈ steps)
    (g : Config (Square n) → Config (Square n)) (hg : g ∈ step.moves) (s : Config (Fin n × Fin n)) :
    nestedLog model steps (onLattice g s) = nestedLog model steps s := by
  unfold nestedLog onLattice
  rw [onSquare_onGrid, nest_moves model steps step hstep g hg]

theorem born_nestedLog (hn : 0 < n) {model : Config (Square n) → LogAmp} (hfin : ∀ s, (model s).re.isSome) (hnorm : Normalized model)
    {steps : List Step} (hp : ∀ step ∈ steps, step.probabilistic = true) (s : Config (Fin n × Fin n)) :
    Energy.born (nestedLog model steps) s = ‖(nest model steps (onSquare s)).exp‖ ^ 2 := by
  have h1 : ∀ t, Complex.exp (nestedLog model steps t) = (nest model steps (onSquare t)).exp := fun t => exp_toComplex (nest_isSome hn hfin hp _)
  have h2 : ∑ s ∈ allSpins (Square n), ‖(nest model steps s).exp‖ ^ 2 = 1 := by
    have h := sum_nest hn model (fun _ => 1) hp fun _ _ _ _ _ => rfl
    simp only [mul_one] at h
    rw [← Complex.ofReal_sum, ← Complex.ofReal_sum] at h
    rw [Complex.ofReal_injective h, hnorm]
  unfold Energy.born
  simp only [h1]
  rw [sum_onSquareR fun s => ‖(nest model steps s).exp‖ ^ 2, h2, div_one]

theorem nested_average (hn : 0 < n) {model : Config (Square n) → LogAmp} (hfin : ∀ s, (model s).re.isSome) (hnorm : Normalized model)
    {steps : List Step} (hp : ∀ step ∈ steps, step.probabilistic = true) (f : Config (Fin n × Fin n) → ℝ)
    (hf : ∀ step ∈ steps, ∀ g ∈ step.moves (n := n), ∀ s, f (onLattice g s) = f s) :
    ∑ s ∈ allSpins (Fin n × Fin n), Energy.born (baseLog model) s * f s =
      ∑ s ∈ allSpins (Fin n × Fin n), Energy.born (nestedLog model steps) s * f s := by
  simp only [born_baseLog hfin hnorm, born_nestedLog hn hfin hnorm hp]
  refine (sum_onSquareR fun s => ‖(model s).exp‖ ^ 2 * f (onGrid s)).trans (Eq.trans ?_
    (sum_onSquareR fun s => ‖(nest model steps s).exp‖ ^ 2 * f (onGrid s)).symm)
  have h := sum_nest hn model (fun s => ((f (onGrid s) : ℝ) : ℂ)) hp fun step hstep g hg s => by
    have := hf step hstep g hg (onGrid s)
    unfold onLattice at this
    rw [onSquare_onGrid] at this
    rw [this]
  have h' : ((∑ s ∈ allSpins (Square n), ‖(nest model steps s).exp‖ ^ 2 * f (onGrid s) : ℝ) : ℂ) =
      ((∑ s ∈ allSpins (Square n), ‖(model s).exp‖ ^ 2 * f (onGrid s) : ℝ) : ℂ) := by
    push_cast
    push_cast at h
    exact h
  exact (Complex.ofReal_injective h').symm

theorem nested_localEnergy {H : Wave (Fin n × Fin n) → Wave (Fin n × Fin n)} {steps : List Step} (hH : Respects H steps)
    (model : Config (Square n) → LogAmp) (step : Step) (hstep : step ∈ steps) (g : Config (Square n) → Config (Square n))
    (hg : g ∈ step.moves) (s : Config (Fin n × Fin n)) :
    localEnergy H (nestedLog model steps) (onLattice g s) = localEnergy H (nestedLog model steps) s := by
  unfold localEnergy
  rw [nestedLog_moves model steps step hstep g hg, hH step hstep g hg _ fun t => by rw [nestedLog_moves model steps step hstep g hg]]

theorem nested_magnetisation (step : Step) (g : Config (Square n) → Config (Square n)) (hg : g ∈ step.moves) (s : Config (Fin n × Fin n)) :
    |(∑ i, (onLattice g s i : ℝ)) / Fintype.card (Fin n × Fin n)| = |(∑ i, (s i : ℝ)) / Fintype.card (Fin n × Fin n)| := by
  cases step with
  | flips p =>
    rcases List.mem_cons.1 hg with rfl | hg
    · rfl
    · rw [List.mem_singleton] at hg
      subst hg
      show |(∑ i, ((-s i : ℤ) : ℝ)) / Fintype.card (Fin n × Fin n)| = _
      simp only [Int.cast_neg, Finset.sum_neg_distrib, neg_div, abs_neg]
  | translations p =>
    obtain ⟨t, -, rfl⟩ := List.mem_map.1 hg
    have h : ∑ i, (onLattice (roll (shape := fun _ : Fin 2 => n) t) s i : ℝ) = ∑ i, (s i : ℝ) :=
      (Equiv.prodCongr (shiftEquiv n (n - (t 0).val)) (shiftEquiv n (n - (t 1).val))).sum_comp fun p => (s p : ℝ)
    rw [h]
  | square p =>
    obtain ⟨σ, -, rfl⟩ := List.mem_map.1 hg
    have hgs : onLattice (fun s p => s (sym σ p)) s = fun p => s (gridSym n σ.1 σ.2.1 σ.2.2 p) := by
      have h := onSquare_gridSym σ.1 σ.2.1 σ.2.2 s
      show onGrid (fun p => onSquare s (symmetry σ.1 σ.2.1 σ.2.2 p)) = _
      rw [← h, onGrid_onSquare]
    rw [hgs, (gridSym n σ.1 σ.2.1 σ.2.2).sum_comp fun p => (s p : ℝ)]

/-! ### Batches -/

theorem expect_succ {α : Type} [DecidableEq α] (S : Finset α) (p : α → ℝ) (B : Nat) (F : (Fin (B + 1) → α) → ℝ) :
    expect S p (B + 1) F = ∑ s ∈ S, p s * expect S p B fun x => F (Fin.cons s x) := by
  unfold expect
  have h : ∑ s ∈ S, p s * ∑ x ∈ Fintype.piFinset fun _ : Fin B => S, (∏ b, p (x b)) * F (Fin.cons s x) =
      ∑ z ∈ S ×ˢ Fintype.piFinset fun _ : Fin B => S, (p z.1 * ∏ b, p (z.2 b)) * F (Fin.cons z.1 z.2) := by
    rw [Finset.sum_product]
    refine Finset.sum_congr rfl fun s _ => ?_
    rw [Finset.mul_sum]
    exact Finset.sum_congr rfl fun x _ => by ring
  rw [h]
  refine Finset.sum_nbij' (fun x => (x 0, fun b => x b.succ)) (fun z => Fin.cons z.1 z.2) ?_ ?_ ?_ ?_ ?_
  · intro x hx
    rw [Fintype.mem_piFinset] at hx
    exact Finset.mem_product.2 ⟨hx 0, Fintype.mem_piFinset.2 fun b => hx b.succ⟩
  · intro z hz
    obtain ⟨h1, h2⟩ := Finset.mem_product.1 hz
    rw [Fintype.mem_piFinset] at h2 ⊢
    intro b
    refine Fin.cases ?_ (fun b => ?_) b
    · exact h1
    · exact h2 b
  · intro x _
    funext b
    refine Fin.cases rfl (fun b => rfl) b
  · intro z _
    rfl
  · intro x _
    rw [Fin.prod_univ_succ]
    congr 2
    funext b
    refine Fin.cases rfl (fun b => rfl) b

/-- Two distributions with the same averages of invariant quantities give the same averages of quantities of batches that are
invariant in every sample. -/
theorem expect_same {α : Type} [DecidableEq α] (S : Finset α) (p q : α → ℝ) (G : Set (α → α))
    (hpq : ∀ f : α → ℝ, (∀ g ∈ G, ∀ s, f (g s) = f s) → ∑ s ∈ S, p s * f s = ∑ s ∈ S, q s * f s) :
    ∀ (B : Nat) (F : (Fin B → α) → ℝ), (∀ g ∈ G, ∀ x b, F (Function.update x b (g (x b))) = F x) → expect S p B F = expect S q B F
  | 0, F, _ => by simp [expect]
  | B + 1, F, hF => by
    rw [expect_succ, expect_succ]
    have h1 : ∀ s, expect S p B (fun x => F (Fin.cons s x)) = expect S q B fun x => F (Fin.cons s x) := fun s =>
      expect_same S p q G hpq B _ fun g hg x b => by
        have := hF g hg (Fin.cons s x) b.succ
        rwa [Fin.cons_succ, ← Fin.cons_update] at this
    simp only [h1]
    refine hpq _ fun g hg s => ?_
    congr 1
    funext x
    have := hF g hg (Fin.cons s x) 0
    rwa [Fin.cons_zero, Fin.update_cons_zero] at this

/-! ### C159 -/

theorem nestedReports_of (hn : 0 < n) {steps : List Step} (hp : ∀ step ∈ steps, step.probabilistic = true)
    {H : Wave (Fin n × Fin n) → Wave (Fin n × Fin n)} (hH : Respects H steps)
    {est : Nat → (B : Nat) → (Config (Fin n × Fin n) → ℂ) → (Fin B → Config (Fin n × Fin n)) → Option (ℂ × ℝ × List ℂ)}
    (hE : ∀ k B, 0 < B → ∀ ψ x, (∀ b, IsSpin (x b)) → LocalEnergies H x ψ (est k B ψ x)) : NestedReports steps H est := by
  intro Ω _ P _ B T hB hT model hfin hnorm S hS Smp size st w s mini h0 hsize hwhole draw hdraw drawVal clock truth inBatch
  obtain ⟨energy, var, sigma, absSigma, h1, h2, h3, h4⟩ := evaluation_core (H := H) (ψ := nestedLog model steps) hS hB hT
    (fun g => nested_average hn hfin hnorm hp (fun s => g (localEnergy H (nestedLog model steps) s).re)
      fun step hstep g' hg s => by rw [nested_localEnergy hH model step hstep g' hg])
    (fun k x hx => hE k B hB _ x hx) size st w s mini h0 (by rw [hsize]; exact hwhole) draw hdraw drawVal clock truth inBatch none
    (Or.inl rfl)
  refine ⟨energy, var, absSigma, fun u => ?_, h2, ?_⟩
  · obtain ⟨R, hR, r1, r2, r3, r4, r5⟩ := h1 u
    exact ⟨R, hR, r1, r2, r3, r5⟩
  · rw [← nested_average hn hfin hnorm hp (fun s => |(∑ i, (s i : ℝ)) / Fintype.card (Fin n × Fin n)|)
      fun step _ g hg s => nested_magnetisation step g hg s]
    exact h4

theorem nestedGradient_of (hn : 0 < n) {steps : List Step} (hp : ∀ step ∈ steps, step.probabilistic = true)
    {op : (B : Nat) → (Fin B → Config (Fin n × Fin n)) → Fin B → List (Row (Fin n × Fin n) ℝ)} {R : Nat}
    {rowsOf : Config (Fin n × Fin n) → List (Row (Fin n × Fin n) ℝ)} (h : Exact.RowsOf op R rowsOf)
    (H : Wave (Fin n × Fin n) → Wave (Fin n × Fin n)) (hS : Respects H steps)
    (hH : ∀ s, IsSpin s → ∀ ψ, applyRows (rowsOf s) ψ = H ψ s)
    (hlen : ∀ B (sample : Fin B → Config (Fin n × Fin n)) b, (op B sample b).length = R)
    (hE : ∀ B (sample : Fin B → Config (Fin n × Fin n)), (∀ b, IsSpin (sample b)) → ∀ logψ,
      LocalEnergies H sample logψ (estimate logψ (Answer.ofRows R (op B sample) (hlen B sample)))) :
    NestedGradient steps H fun B logψ sample => Exact.vmcCoefficients B logψ (Answer.ofRows R (op B sample) (hlen B sample)) := by
  intro Ω _ P _ B hB model θ hfin hnorm S hInd D hD
  set ψ : ℝ → Config (Fin n × Fin n) → ℂ := fun t => nestedLog (model t) steps with hψ
  set D0 : Config (Fin n × Fin n) → ℂ := fun s => deriv (fun t => ψ t s) θ with hD0
  have hDD : ∀ s, IsSpin s → D0 s = D s := fun s hs => (hD s hs).deriv
  have hderiv : ∀ s, IsSpin s → HasDerivAt (fun t => ψ t s) (D0 s) θ := fun s hs => by rw [hDD s hs]; exact hD s hs
  have hinv : ∀ step ∈ steps, ∀ g ∈ step.moves (n := n), ∀ s, D0 (onLattice g s) = D0 s := fun step hstep g hg s => by
    rw [hD0]
    dsimp only
    rw [hψ]
    simp only [nestedLog_moves _ steps step hstep g hg]
  have hsame : ∀ F : (Fin B → Config (Fin n × Fin n)) → ℝ,
      (∀ step ∈ steps, ∀ g ∈ step.moves (n := n), ∀ x b, F (Function.update x b (onLattice g (x b))) = F x) →
      ∫ u, F (S u) ∂P = expect (allSpins (Fin n × Fin n)) (Energy.born (ψ θ)) B F := by
    intro F hF
    rw [hInd.integral F]
    refine expect_same _ _ _ {T | ∃ step ∈ steps, ∃ g ∈ step.moves (n := n), T = onLattice g} (fun f hf => ?_) B F ?_
    · exact nested_average hn hfin hnorm hp f fun step hstep g hg s => hf _ ⟨step, hstep, g, hg, rfl⟩ s
    · rintro _ ⟨step, hstep, g, hg, rfl⟩ x b
      exact hF step hstep g hg x b
  have hbatch : ∀ step ∈ steps, ∀ g ∈ step.moves (n := n), ∀ (x : Fin B → Config (Fin n × Fin n)) b,
      batchGradient H (ψ θ) D0 (Function.update x b (onLattice g (x b))) = batchGradient H (ψ θ) D0 x := by
    intro step hstep g hg x b
    have h1 : ∀ c, localEnergy H (ψ θ) (Function.update x b (onLattice g (x b)) c) = localEnergy H (ψ θ) (x c) := fun c => by
      by_cases hc : c = b
      · subst hc
        rw [Function.update_self]
        exact nested_localEnergy hS (model θ) step hstep g hg (x c)
      · rw [Function.update_of_ne hc]
    have h2 : ∀ c, D0 (Function.update x b (onLattice g (x b)) c) = D0 (x c) := fun c => by
      by_cases hc : c = b
      · subst hc
        rw [Function.update_self, hinv step hstep g hg]
      · rw [Function.update_of_ne hc]
    unfold batchGradient
    simp only [h1, h2]
  refine ⟨_, fun u => batchGradient H (ψ θ) D0 (S u), rayleigh_deriv h H hH ψ D0 θ hderiv, fun u => ⟨_, targets_of h (hlen B) (ψ θ) (S u)
    (hE B (S u) (hInd.spins u) (ψ θ)), by simp, ?_⟩, ?_, fun C hC => ?_⟩
  · unfold batchGradient
    refine HasDerivAt.fun_sum fun b _ => ?_
    have hget : ((List.finRange B).map fun b => (starRingEnd ℂ) (localEnergy H (ψ θ) (S u b) -
          (∑ a, localEnergy H (ψ θ) (S u a)) / B) / (B : ℂ)).getD b 0 = (starRingEnd ℂ) (localEnergy H (ψ θ) (S u b) -
          (∑ a, localEnergy H (ψ θ) (S u a)) / B) / (B : ℂ) := by
      simp [List.getD_eq_getElem?_getD]
    rw [hget]
    have h1 := Complex.reCLM.hasFDerivAt.comp_hasDerivAt θ ((hderiv _ (hInd.spins u b)).mul_const ((starRingEnd ℂ)
      (localEnergy H (ψ θ) (S u b) - (∑ a, localEnergy H (ψ θ) (S u a)) / B) / (B : ℂ)))
    have h2 := h1.const_mul (2 : ℝ)
    rw [mul_comm ((starRingEnd ℂ) _ / (B : ℂ))]
    exact h2
  · rw [hsame _ hbatch, expect_batchGradient H (ψ θ) D0 hB]
  · refine (hsame (fun x => (batchGradient H (ψ θ) D0 x - _) ^ 2) fun step hstep g hg x b => ?_).le.trans
      (expect_error H (ψ θ) D0 (fun s hs => by rw [hDD s hs]; exact hC s hs) hB)
    rw [hbatch step hstep g hg]

theorem nestedGradient_congr {steps : List Step} {H : Wave (Fin n × Fin n) → Wave (Fin n × Fin n)}
    {t t' : (B : Nat) → (Config (Fin n × Fin n) → ℂ) → (Fin B → Config (Fin n × Fin n)) → Option (List ℂ)}
    (h : ∀ B, 0 < B → ∀ logψ sample, (∀ b, IsSpin (sample b)) → t' B logψ sample = t B logψ sample)
    (hM : NestedGradient steps H t) : NestedGradient steps H t' := by
  intro Ω _ P _ B hB model θ hfin hnorm S hS D hD
  obtain ⟨E', grad, h1, h2, h3⟩ := hM Ω P B hB model θ hfin hnorm S hS D hD
  exact ⟨E', grad, h1, fun u => by rw [h B hB _ _ (hS.spins u)]; exact h2 u, h3⟩

theorem tfim_respects (h j : ℝ) {pbc : Bool} {steps : List Step} (hsteps : ∀ p, Step.translations p ∈ steps → pbc = true) :
    Respects (tfim (gridBonds n n pbc) h j) steps :=
  respects_of (fun _ hT => commutes_grid _ (tfim_commutes_neg _ h j) (fun _ he => tfim_commutes he h j) hT) hsteps

theorem heisenberg_respects (ε : ℝ) {pbc : Bool} {steps : List Step} (hsteps : ∀ p, Step.translations p ∈ steps → pbc = true) :
    Respects (heisenberg (gridBonds n n pbc) ε) steps :=
  respects_of (fun _ hT => commutes_grid _ (heisenberg_commutes_neg _ _) (fun _ he => heisenberg_commutes he _) hT) hsteps

section
variable (hn : 0 < n) {steps : List Step} (hp : ∀ step ∈ steps, step.probabilistic = true) {pbc : Bool}
  (hsteps : ∀ p, Step.translations p ∈ steps → pbc = true)
include hn hp hsteps

/-- **C159, evaluation**, for the Ising model: any calls of the symmetrising functions, translations with periodic boundaries. -/
theorem C159_evaluation_ising (h j : ℝ) :
    NestedReports steps (tfim (gridBonds n n pbc) h j) fun _ _ logψ sample =>
      estimate logψ (Answer.ofRows (n * n + 1) (isingFindConn2 (.float h) j pbc sample)
        fun b => by rw [isingFindConn2_eq]; simp [length_gridSites]) :=
  nestedReports_of hn hp (tfim_respects h j hsteps) fun _ _ _ logψ sample hs => C18_ising_grid h j pbc sample hs logψ

/-- **C159, evaluation**, for the Heisenberg model; `history k` are the calls of the operator before batch number `k`. -/
theorem C159_evaluation_heisenberg (rot : Bool) (history : Nat → List (Call n n)) :
    NestedReports steps (heisenberg (gridBonds n n pbc) (if rot then -1 else 1)) fun k B logψ sample =>
      estimate logψ (Answer.ofRows (n * n * 2 + 1) (((HeisOp.new2 n n rot pbc).run (history k)).findConn B sample).2
        fun b => by rw [answer2]; exact length_heisRows _ _ _ (Or.inl rfl) _) :=
  nestedReports_of hn hp (heisenberg_respects _ hsteps)
    fun k B _ logψ sample hs => C18_heisenberg_grid rot pbc (history k) B sample hs logψ

open Verif.J1J2.Op in
/-- **C159, evaluation**, for J1-J2. -/
theorem C159_evaluation_j1j2 (first : ℤ) (hf : first = 1 ∨ first = -1) (j2 : ℝ) (hL : pbc = true → 3 ≤ n)
    (history : Nat → List (List Netket.Conf)) :
    NestedReports steps (hamiltonian n n pbc j2) fun k => j1j2Estimate first n n j2 pbc (history k) :=
  nestedReports_of hn hp (respects_of (fun _ hT => hamiltonian_commutes (fun h => ⟨hL h, hL h⟩) _ hT) hsteps)
    fun k _ hB logψ sample hs => j1j2_local first hf hn hn j2 pbc (fun h => ⟨hL h, hL h⟩) (history k) hB sample hs logψ

/-- **C159, gradients**, for the Ising model. -/
theorem C159_gradient_ising (h j : ℝ) :
    NestedGradient steps (tfim (gridBonds n n pbc) h j) fun B logψ sample =>
      Exact.vmcCoefficients B logψ (Answer.ofRows (n * n + 1) (isingFindConn2 (.float h) j pbc sample)
        fun b => by rw [isingFindConn2_eq]; simp [length_gridSites]) :=
  nestedGradient_of hn hp (op := fun _ sample => isingFindConn2 (.float h) j pbc sample) (Exact.rowsOf_ising_grid n n h j pbc) _
    (tfim_respects h j hsteps) (fun s _ ψ => C06_ising_grid h j pbc (fun _ : Fin 1 => s) 0 ψ) _
    fun _ sample hs logψ => C18_ising_grid h j pbc sample hs logψ

/-- **C159, gradients**, for the Heisenberg model, whatever calls of the operator came before. -/
theorem C159_gradient_heisenberg (rot : Bool) (history : List (Call n n)) :
    NestedGradient steps (heisenberg (gridBonds n n pbc) (if rot then -1 else 1)) fun B logψ sample =>
      Exact.vmcCoefficients B logψ (Answer.ofRows (n * n * 2 + 1) (((HeisOp.new2 n n rot pbc).run history).findConn B sample).2
        fun b => by rw [answer2]; exact length_heisRows _ _ _ (Or.inl rfl) _) :=
  nestedGradient_of hn hp (op := fun B sample => (((HeisOp.new2 n n rot pbc).run history).findConn B sample).2)
    (Exact.rowsOf_heisenberg_grid n n rot pbc history) _ (heisenberg_respects _ hsteps)
    (fun s hs ψ => applyRows_heisRows rot pbc 2 (Or.inl rfl) s hs ψ) _
    fun B sample hs logψ => C18_heisenberg_grid rot pbc history B sample hs logψ

open Verif.J1J2.Op in
/-- **C159, gradients**, for J1-J2, whatever calls of the operator came before. -/
theorem C159_gradient_j1j2 (first : ℤ) (hf : first = 1 ∨ first = -1) (j2 : ℝ) (hL : pbc = true → 3 ≤ n)
    (history : List (List Netket.Conf)) : NestedGradient steps (hamiltonian n n pbc j2) (j1j2Targets first n n j2 pbc history) :=
  nestedGradient_congr (fun _ hB logψ sample hs => targets_clean first hf hn hn j2 pbc (fun h => ⟨hL h, hL h⟩) history hB sample hs logψ)
    (nestedGradient_of hn hp (rowsOf_clean first hf hn hn j2 pbc fun h => ⟨hL h, hL h⟩) _
      (respects_of (fun _ hT => hamiltonian_commutes (fun h => ⟨hL h, hL h⟩) _ hT) hsteps)
      (cleanRows_apply first hf hn hn j2 pbc fun h => ⟨hL h, hL h⟩)
      (fun _ sample b => cleanRows_length first hn j2 pbc (sample b)) fun _ sample hs logψ =>
        localEnergies_of _ sample hs logψ _ (clean_values first hf hn hn j2 pbc (fun h => ⟨hL h, hL h⟩) sample hs logψ))

end

/-! ### Cases that meet the hypotheses -/

/-- The tilted model of C156, symmetrised by all three functions, on a periodic square of three times three sites with samples
of `WaveFunctionSampler` for the tilted model: the mean of the reported absolute magnetisation is that of the symmetrised
model. -/
example (st : Generator Unit (Fin 3 × Fin 3)) (w : World Unit (Fin 3 × Fin 3)) (clock : Nat → Fin 4 → ℝ) :
    ∃ (Ω : Type) (_ : MeasurableSpace Ω) (P : Measure Ω) (draw : (Fin 4 → Ω) → Unit → Nat → List (Config (Fin 3 × Fin 3) × ℂ))
      (w' : World Unit (Fin 3 × Fin 3)) (sigma : (Fin 4 → Ω) → ℝ),
      (∀ u, ∃ R, evaluate (draw u) (fun _ _ => []) clock 4 (defaultCallbacks (some (-4)) false false 1) none w' = .ok R ∧
        R.read "observables/abs_sigma_z" = some (sigma u)) ∧
      ∫ u, sigma u ∂(Measure.pi fun _ : Fin 4 => P) = ∑ s ∈ allSpins (Fin 3 × Fin 3),
        Energy.born (nestedLog (tilted 3) [.flips true, .translations true, .square true]) s *
          |(∑ i, (s i : ℝ)) / Fintype.card (Fin 3 × Fin 3)| := by
  obtain ⟨S, -, hS⟩ := C154_wave_function (B := 5) (finProdFinEquiv (m := 3) (n := 3)) (baseLog (tilted 3)) _ le_rfl
  obtain ⟨_, _, sigma, h1, -, h3⟩ := C159_evaluation_ising (n := 3) (by decide) (steps := [.flips true, .translations true, .square true])
    (by simp [Step.probabilistic]) (pbc := true) (fun _ _ => rfl) 1 1 _
    (Measure.pi fun _ : Fin 5 => Autoregressive.unif) 5 4 (by decide) (by decide) (tilted 3) (fun _ => rfl) (tilted_normalized 3) S hS Unit
    (fun _ => 5) st { w with gen := _ } () none rfl rfl (fun _ h => by simp at h)
    (fun u _ k => energyBatch (fun sample => estimate (nestedLog (tilted 3) [.flips true, .translations true, .square true])
        (Answer.ofRows (3 * 3 + 1) (isingFindConn2 (.float 1) 1 true sample) fun b => by rw [isingFindConn2_eq]; simp [length_gridSites]))
      (S (u (Fin.ofNat 4 (k - st.drawn)))))
    (fun u t => by
      have ht : Fin.ofNat 4 (st.drawn + t.1 - st.drawn) = t := by
        rw [Nat.add_sub_cancel_left]
        exact Fin.ext (Nat.mod_eq_of_lt t.2)
      rw [ht]) (fun _ _ => []) clock (some (-4)) false
  exact ⟨_, _, _, _, _, sigma, fun u => (h1 u).imp fun R h => ⟨h.1, h.2.2.2.2⟩, h3.mean⟩

/-- A path of models on two times two sites that starts at the uniform distribution and in which correlations of two neighbours
grow together with a magnetisation. -/
noncomputable def growing (t : ℝ) (s : Config (Square 2)) : LogAmp :=
  ⟨some (-(2 * Real.log 2) + t * ((s ![0, 0] * s ![0, 1] : ℤ) + (s ![0, 0] : ℤ))), 0⟩

theorem growing_normalized : Normalized (growing 0) := by
  unfold Normalized
  have h : ∀ s : Config (Square 2), ‖(growing 0 s).exp‖ ^ 2 = 1 / 16 := fun s => by
    unfold growing LogAmp.exp expReal
    have : Real.exp (-(2 * Real.log 2)) = 1 / 4 := by
      rw [Real.exp_neg, two_mul, Real.exp_add, Real.exp_log (by norm_num)]
      norm_num
    simp [this]
    norm_num
  simp only [h]
  have hc : (allSpins (Square 2)).card = 2 ^ Fintype.card (Square 2) := by
    unfold allSpins
    rw [Fintype.card_piFinset]
    simp
  rw [Finset.sum_const, hc]
  simp

theorem growing_deriv (s : Config (Fin 2 × Fin 2)) :
    HasDerivAt (fun t => nestedLog (growing t) [.flips true] s) ((s (0, 0) * s (0, 1) : ℤ) : ℂ) 0 := by
  set a : ℝ := ((s (0, 0) * s (0, 1) : ℤ) : ℝ) with ha
  set b : ℝ := ((s (0, 0) : ℤ) : ℝ) with hb
  set c : ℝ := -(2 * Real.log 2) with hc
  have hpos : ∀ t : ℝ, Real.exp ((c + t * (a + b)) * 2) + Real.exp ((c + t * (a + -b)) * 2) ≠ 0 := fun t => by positivity
  have h1 : ∀ t, nestedLog (growing t) [.flips true] s =
      ((0.5 * Real.log (Real.exp ((c + t * (a + b)) * 2) + Real.exp ((c + t * (a + -b)) * 2)) - 0.5 * Real.log 2 : ℝ) : ℂ) := by
    intro t
    have e1 : (growing t (onSquare s)) = ⟨some (c + t * (a + b)), 0⟩ := by
      unfold growing onSquare
      simp [ha, hb, hc]
    have e2 : (growing t fun i => onSquare s i * -1) = ⟨some (c + t * (a + -b)), 0⟩ := by
      unfold growing onSquare
      simp [ha, hb, hc]
    unfold nestedLog nest Step.apply nest
    dsimp only
    rw [upDown_row, e1, e2]
    unfold ensembleOp probabilisticOp toComplex logReal expReal mean angle
    simp only [List.map_cons, List.map_nil, Option.map_some, List.sum_cons, List.sum_nil, add_zero, if_true, hpos, if_false,
      Option.getD_some, List.length_cons, List.length_nil]
    have hz : (Complex.exp ((0 : ℝ) * Complex.I) + Complex.exp ((0 : ℝ) * Complex.I)) / ((0 + 1 + 1 : Nat) : ℂ) = 1 := by
      rw [Complex.ofReal_zero, zero_mul, Complex.exp_zero]
      norm_num
    have hl : ((0 + 1 + 1 : Nat) : ℝ) = 2 := by norm_num
    rw [hz, Complex.arg_one, hl]
    rfl
  simp only [h1]
  have g1 : HasDerivAt (fun t : ℝ => Real.exp ((c + t * (a + b)) * 2)) (Real.exp (c * 2) * ((a + b) * 2)) 0 := by
    have := ((((hasDerivAt_id (0 : ℝ)).mul_const (a + b)).const_add c).mul_const 2).exp
    simpa using this
  have g2 : HasDerivAt (fun t : ℝ => Real.exp ((c + t * (a + -b)) * 2)) (Real.exp (c * 2) * ((a + -b) * 2)) 0 := by
    have := ((((hasDerivAt_id (0 : ℝ)).mul_const (a + -b)).const_add c).mul_const 2).exp
    simpa using this
  have g3 := (((g1.add g2).log (hpos 0)).const_mul 0.5).sub_const (0.5 * Real.log 2)
  have g4 : (0.5 : ℝ) * ((Real.exp (c * 2) * ((a + b) * 2) + Real.exp (c * 2) * ((a + -b) * 2)) /
      (Real.exp ((c + 0 * (a + b)) * 2) + Real.exp ((c + 0 * (a + -b)) * 2))) = a := by
    rw [zero_mul, zero_mul, add_zero]
    have := Real.exp_pos (c * 2)
    field_simp
    ring
  have g5 := (g3.congr_deriv g4).ofReal_comp
  refine g5.congr_deriv ?_
  rw [ha]
  push_cast
  rfl

/-- The hypotheses on gradients are met by this path at its start, with a derivative that is not constant. -/
example : (∀ s, (growing 0 s).re.isSome) ∧ Normalized (growing 0) ∧
    (∃ S : (Fin 5 → ℝ) → Fin 5 → Config (Fin 2 × Fin 2), Independent (Measure.pi fun _ : Fin 5 => Autoregressive.unif) (baseLog (growing 0)) S) ∧
    ∃ D : Config (Fin 2 × Fin 2) → ℂ, (∀ s, IsSpin s → HasDerivAt (fun t => nestedLog (growing t) [.flips true] s) (D s) 0) ∧
      (∀ s, IsSpin s → ‖D s‖ ≤ 1) ∧ ∃ s s', IsSpin s ∧ IsSpin s' ∧ D s ≠ D s' := by
  refine ⟨fun _ => rfl, growing_normalized, ?_, fun s => ((s (0, 0) * s (0, 1) : ℤ) : ℂ), fun s _ => growing_deriv s, fun s hs => ?_,
    fun _ => 1, fun p => if p = (0, 0) then 1 else -1, fun _ => Or.inl rfl, fun p => ?_, ?_⟩
  · obtain ⟨S, -, hS⟩ := C154_wave_function (B := 5) (finProdFinEquiv (m := 2) (n := 2)) (baseLog (growing 0)) _ le_rfl
    exact ⟨S, hS⟩
  · rcases hs (0, 0) with h | h <;> rcases hs (0, 1) with h' | h' <;> simp [h, h']
  · by_cases h : p = (0, 0) <;> simp [h]
  · simp
    norm_num

end Verif.Ensemble
