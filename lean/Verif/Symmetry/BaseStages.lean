import Verif.Symmetry.BaseTraining
import Verif.Training.Stages

/-!
# C163 for symmetrised models that are trained with samples of their base model

The stages of C163 with the draws of C162: batches come from the base model, local energies and gradients from the symmetrised one.
-/
namespace Verif.Ensemble

open Verif.Operators Verif.Energy Verif.Callbacks Verif.Training MeasureTheory Filter Topology

variable {n : Nat}

/-! ### Specification -/

/-- `StagesSettle` with the model that the calls `steps` of the symmetrising functions make of `model θ`, and with samplers of
`model θ`. -/
def NestedStagesSettle (steps : List Step) (H : Wave (Fin n × Fin n) → Wave (Fin n × Fin n))
    (targets : (B : Nat) → (Config (Fin n × Fin n) → ℂ) → (Fin B → Config (Fin n × Fin n)) → Option (List ℂ)) : Prop :=
  ∀ (Ω : Type) [MeasurableSpace Ω] [Inhabited Ω] (P : Measure Ω) [IsProbabilityMeasure P]
    (w : Nat) (cfg : AccConfig) (model : (Fin w → ℝ) → Config (Square n) → LogAmp)
    (g : (Fin w → ℝ) → Config (Fin n × Fin n) × ℂ → Fin w → ℝ)
    (D : (Fin w → ℝ) → Fin w → Config (Fin n × Fin n) → ℂ) (stages : Nat → SgdStage Ω (Fin n × Fin n) w),
    (∀ i, 1 < (stages i).size ∧ 0 < (stages i).mini ∧ min (stages i).mini (stages i).size ∣ (stages i).size) →
    (∀ i, (stages i).parts ∣ ∑ j ∈ Finset.range i, (stages j).batches * (stages j).parts) →
    (∀ θ s, (model θ s).re.isSome) → (∀ θ, Normalized (model θ)) →
    (∀ i θ, Independent P (baseLog (model θ)) ((stages i).sampler θ)) →
    (∀ s, IsSpin s → Differentiable ℝ fun θ => nestedLog (model θ) steps s) →
    (∀ θ k s, IsSpin s → HasDerivAt (fun t => nestedLog (model (Function.update θ k t)) steps s) (D θ k s) (θ k)) →
    (∀ θ k s c, IsSpin s →
      HasDerivAt (fun t => Exact.loss c (nestedLog (model (Function.update θ k t)) steps s)) (g θ (s, c) k) (θ k)) →
    ∀ C W K : ℝ, (∀ θ k s, IsSpin s → ‖D θ k s‖ ≤ C) → LengthBound H W →
    SlopeBound H (fun θ => nestedLog (model θ) steps) K →
    (∀ i, 0 < (stages i).lr ∧ (stages i).rate cfg * K ≤ 1 - 1 / (stages i).size) →
    ∀ (gen : MBState Unit (Config (Fin n × Fin n) × ℂ)) (θ0 : Fin w → ℝ) (f : Nat)
      (acc : AccState (Fin w → ℝ) (Fin w → ℝ) (Fin w → ℝ)), gen.drawn = 0 → convert θ0 f = some acc →
    ∃ θ : List Ω → Nat → Nat → Fin w → ℝ,
      (∀ us N t, us.length = batchesBefore stages N + t → ∃ st,
        sgdStages targets (fun θ => nestedLog (model θ) steps) cfg g us (upTo stages N t) ⟨gen, acc⟩ = some st ∧
        st.acc.opt = θ us N t) ∧
      θ [] 0 0 = θ0 ∧
      StagedProgress P H (fun θ => nestedLog (model θ) steps) cfg stages θ K (64 * w * C ^ 2 * W)

/-! ### Proofs -/

theorem nestedStages_of (hn : 0 < n) {steps : List Step} (hp : ∀ step ∈ steps, step.probabilistic = true)
    {op : (B : Nat) → (Fin B → Config (Fin n × Fin n)) → Fin B → List (Row (Fin n × Fin n) ℝ)} {R : Nat}
    {rowsOf : Config (Fin n × Fin n) → List (Row (Fin n × Fin n) ℝ)} (h : Exact.RowsOf op R rowsOf)
    (H : Wave (Fin n × Fin n) → Wave (Fin n × Fin n)) (hS : Respects H steps)
    (hH : ∀ s, IsSpin s → ∀ ψ, applyRows (rowsOf s) ψ = H ψ s)
    (hlen : ∀ B (sample : Fin B → Config (Fin n × Fin n)) b, (op B sample b).length = R)
    (hE : ∀ B (sample : Fin B → Config (Fin n × Fin n)), (∀ b, IsSpin (sample b)) → ∀ logψ,
      LocalEnergies H sample logψ (estimate logψ (Answer.ofRows R (op B sample) (hlen B sample)))) :
    NestedStagesSettle steps H fun B logψ sample => Exact.vmcCoefficients B logψ (Answer.ofRows R (op B sample) (hlen B sample)) := by
  intro Ω _ _ P _ w cfg model g D stages hs hal hfin hnorm hInd hd hD hg C W K hC hW hK hrate gen θ0 f acc hgen hacc
  have hDD : ∀ θ k s, IsSpin s → deriv (fun t => nestedLog (model (Function.update θ k t)) steps s) (θ k) = D θ k s :=
    fun θ k s hs => (hD θ k s hs).deriv
  exact stages_core h H hH hlen hE P cfg (fun θ => nestedLog (model θ) steps) g
    (fun θ k s => deriv (fun t => nestedLog (model (Function.update θ k t)) steps s) (θ k)) stages hs hal hInd
    (fun B η θ φ => nested_next hn hp hS hfin hnorm B η θ φ) hd
    (fun θ k s hs => by rw [hDD θ k s hs]; exact hD θ k s hs) hg C W K (fun θ k s hs => by rw [hDD θ k s hs]; exact hC θ k s hs)
    hW hK hrate gen θ0 f acc hgen hacc

theorem nestedStages_congr {steps : List Step} {H : Wave (Fin n × Fin n) → Wave (Fin n × Fin n)}
    {t t' : (B : Nat) → (Config (Fin n × Fin n) → ℂ) → (Fin B → Config (Fin n × Fin n)) → Option (List ℂ)}
    (h : ∀ B, 0 < B → ∀ logψ sample, (∀ b, IsSpin (sample b)) → t' B logψ sample = t B logψ sample)
    (hM : NestedStagesSettle steps H t) : NestedStagesSettle steps H t' := by
  intro Ω _ _ P _ w cfg model g D stages hs hal hfin hnorm hS hd hD hg C W K hC hW hK hrate gen θ0 f acc hgen hacc
  obtain ⟨θ, h1, h2⟩ := hM Ω P w cfg model g D stages hs hal hfin hnorm hS hd hD hg C W K hC hW hK hrate gen θ0 f acc hgen hacc
  refine ⟨θ, fun us N k hus => ?_, h2⟩
  rw [sgdStages_congr h]
  · exact h1 us N k hus
  · intro stage hstage
    unfold upTo at hstage
    rw [List.mem_append, List.mem_map, List.mem_singleton] at hstage
    rcases hstage with ⟨i, -, rfl⟩ | rfl
    · exact ⟨(hs i).1, fun θ u b => (hS i θ).spins u b⟩
    · exact ⟨(hs N).1, fun θ u b => (hS N θ).spins u b⟩

section
variable (hn : 0 < n) {steps : List Step} (hp : ∀ step ∈ steps, step.probabilistic = true) {pbc : Bool}
  (hsteps : ∀ p, Step.translations p ∈ steps → pbc = true)
include hn hp hsteps

/-- **C163** for symmetrised models and the Ising model: any calls of the symmetrising functions, translations with periodic boundaries. -/
theorem C163_symmetrised_ising (h j : ℝ) :
    NestedStagesSettle steps (tfim (gridBonds n n pbc) h j) fun B logψ sample =>
      Exact.vmcCoefficients B logψ (Answer.ofRows (n * n + 1) (isingFindConn2 (.float h) j pbc sample)
        fun b => by rw [isingFindConn2_eq]; simp [length_gridSites]) :=
  nestedStages_of hn hp (op := fun _ sample => isingFindConn2 (.float h) j pbc sample) (Exact.rowsOf_ising_grid n n h j pbc) _
    (tfim_respects h j hsteps) (fun s _ ψ => C06_ising_grid h j pbc (fun _ : Fin 1 => s) 0 ψ) _
    fun _ sample hs logψ => C18_ising_grid h j pbc sample hs logψ

/-- **C163** for symmetrised models and the Heisenberg model, whatever calls of the operator came before. -/
theorem C163_symmetrised_heisenberg (rot : Bool) (history : List (Call n n)) :
    NestedStagesSettle steps (heisenberg (gridBonds n n pbc) (if rot then -1 else 1)) fun B logψ sample =>
      Exact.vmcCoefficients B logψ (Answer.ofRows (n * n * 2 + 1) (((HeisOp.new2 n n rot pbc).run history).findConn B sample).2
        fun b => by rw [answer2]; exact length_heisRows _ _ _ (Or.inl rfl) _) :=
  nestedStages_of hn hp (op := fun B sample => (((HeisOp.new2 n n rot pbc).run history).findConn B sample).2)
    (Exact.rowsOf_heisenberg_grid n n rot pbc history) _ (heisenberg_respects _ hsteps)
    (fun s hs ψ => applyRows_heisRows rot pbc 2 (Or.inl rfl) s hs ψ) _
    fun B sample hs logψ => C18_heisenberg_grid rot pbc history B sample hs logψ

open Verif.J1J2.Op in
/-- **C163** for symmetrised models and J1-J2, whatever calls of the operator came before. -/
theorem C163_symmetrised_j1j2 (first : ℤ) (hf : first = 1 ∨ first = -1) (j2 : ℝ) (hL : pbc = true → 3 ≤ n)
    (history : List (List Netket.Conf)) : NestedStagesSettle steps (hamiltonian n n pbc j2) (j1j2Targets first n n j2 pbc history) :=
  nestedStages_congr (fun _ hB logψ sample hs => targets_clean first hf hn hn j2 pbc (fun h => ⟨hL h, hL h⟩) history hB sample hs logψ)
    (nestedStages_of hn hp (rowsOf_clean first hf hn hn j2 pbc fun h => ⟨hL h, hL h⟩) _
      (respects_of (fun _ hT => hamiltonian_commutes (fun h => ⟨hL h, hL h⟩) _ hT) hsteps)
      (cleanRows_apply first hf hn hn j2 pbc fun h => ⟨hL h, hL h⟩)
      (fun _ sample b => cleanRows_length first hn j2 pbc (sample b)) fun _ sample hs logψ =>
        localEnergies_of _ sample hs logψ _ (clean_values first hf hn hn j2 pbc (fun h => ⟨hL h, hL h⟩) sample hs logψ))

end

/-! ### A case that meets the hypotheses -/

/-- Batches of four samples of the base model in mini-batches of two and the learning rates `1, 1/2, 1/3, …`. What C163 asks of the
model is shown at the example of C162, what it asks of the limits at `falling_rates`. -/
example : ∃ S : (Fin 1 → ℝ) → (Fin 4 → ℝ) → Fin 4 → Config (Fin 2 × Fin 2),
    let stages : Nat → SgdStage (Fin 4 → ℝ) (Fin 2 × Fin 2) 1 := fun i => ⟨4, 2, 1, 1 / ((i : ℝ) + 1), S⟩
    (∀ i, 1 < (stages i).size ∧ 0 < (stages i).mini ∧ min (stages i).mini (stages i).size ∣ (stages i).size) ∧
    (∀ i, (stages i).parts ∣ ∑ j ∈ Finset.range i, (stages j).batches * (stages j).parts) ∧
    (∀ i θ, Independent (Measure.pi fun _ : Fin 4 => Autoregressive.unif) (baseLog (swinging θ)) ((stages i).sampler θ)) ∧
    (∀ i, 0 < (stages i).lr ∧ (stages i).rate ⟨false, 0⟩ * (1 / 2) ≤ 1 - 1 / (stages i).size) := by
  choose S _ hS using fun θ : Fin 1 → ℝ => C154_wave_function (B := 4) (finProdFinEquiv (m := 2) (n := 2)) (baseLog (swinging θ)) _ le_rfl
  obtain ⟨h1, h2, h3, -⟩ := falling_rates S
  refine ⟨S, h1, h2, fun _ => hS, fun i => ⟨(h3 i).1, ?_⟩⟩
  have h4 := (h3 i).2
  have h5 : 0 ≤ SgdStage.rate ⟨false, 0⟩ (⟨4, 2, 1, 1 / ((i : ℝ) + 1), S⟩ : SgdStage (Fin 4 → ℝ) (Fin 2 × Fin 2) 1) := by
    unfold SgdStage.rate
    have := (h3 i).1
    dsimp only at this ⊢
    positivity
  dsimp only at h4 h5 ⊢
  linarith

end Verif.Ensemble
