import Verif.Callbacks.ExactTraining

/-!
C99: the logs of exact training with a `MachineUpdated(update_local_energy=False)` callback before the loggers.
-/
namespace Verif.Callbacks

open Verif.Training Verif.Energy Verif.Energy.Exact Verif.Operators

variable {ι Opt : Type} [Fintype ι] {n : ℕ}

/-! ### Specification -/

/-- A report whose energy, variance and relative error are the exact ones of the network `before` and whose
magnetisations are the exact ones of the network `after`. -/
structure MixedReport [DecidableEq ι] (H : Wave ι → Wave ι) (truth : Option ℝ) (before after : Config ι → ℂ) (L : Logs) : Prop where
  energy : L.read "energy/energy" = some (Energy.rayleigh H fun s => Complex.exp (before s)).re
  variance : L.read "energy/local_energy_variance"
    = some (∑ s ∈ allSpins ι, born before s * ((H (fun s => Complex.exp (before s)) s / Complex.exp (before s)).re
        - (Energy.rayleigh H fun s => Complex.exp (before s)).re) ^ 2)
  error : ∀ t, truth = some t → t ≠ 0 → L.read "energy/relative_error"
    = some ((t - (Energy.rayleigh H fun s => Complex.exp (before s)).re) / t)
  noError : truth = none → L.read "energy/relative_error" = none
  sigma : L.read "observables/sigma_z" = some (Energy.rayleigh magnetisation fun s => Complex.exp (after s)).re
  abs : L.read "observables/abs_sigma_z"
    = some (∑ s ∈ allSpins ι, born after s * |(∑ i, (s i : ℝ)) / Fintype.card ι|)

/-! ### Proof -/

/-- A step with a `MachineUpdated` callback before the loggers. -/
theorem fitStep_before (o : Optimizer Opt (Fin n → ℝ) (Fin n → ℝ)) (cfg : AccConfig)
    (net : (Fin n → ℝ) → Config ι → ℂ) (g : (Fin n → ℝ) → Config ι × ℂ → Fin n → ℝ) (truth : Option ℝ) (inBatch le : Bool)
    (spe t : ℕ) (st : ExactState (Config ι) Opt n) :
    fitStep o cfg net g (.machineUpdated inBatch le :: defaultLoggers truth inBatch) spe t st =
      (let st1 := exactStep o cfg net g st
       let w := net (o.params st1.acc.opt)
       let gen := if inBatch then (refreshOf le).apply w st1.gen else st1.gen
       let gen' := if inBatch then gen else (refreshOf le).apply w gen
       let logs := if inBatch = true ∧ (t % spe) % cycle gen.obj = 0 then entries truth gen.obj else []
       if (t + 1) % spe = 0 then
        .ok ⟨⟨gen', st1.acc⟩, logs, some (if inBatch then [] else entries truth gen'.obj)⟩
       else .ok ⟨⟨gen, st1.acc⟩, logs, none⟩) := by
  unfold fitStep
  simp only [batchEnds]
  have hb := batchEnds_loggers (net (o.params (exactStep o cfg net g st).acc.opt)) (t % spe) truth inBatch []
    (if inBatch then (refreshOf le).apply (net (o.params (exactStep o cfg net g st).acc.opt))
      (exactStep o cfg net g st).gen else (exactStep o cfg net g st).gen)
  rw [List.append_nil] at hb
  rw [hb]
  simp only [batchEnds]
  by_cases hs : (t + 1) % spe = 0
  · rw [if_pos hs, if_pos hs]
    simp only [epochEnds']
    have he := fun gen => epochEnds_loggers (net (o.params (exactStep o cfg net g st).acc.opt)) truth inBatch [] gen
    simp only [List.append_nil] at he
    rw [he]
    simp only [epochEnds']
  · rw [if_neg hs, if_neg hs]

/-- A refresh of the wave function alone leaves the energies and gives the probabilities of a full one. -/
theorem entries_waves [DecidableEq ι] (H : Wave ι → Wave ι) (truth : Option ℝ) (gen : Gen (Config ι)) (before after : Config ι → ℂ)
    (h1 : ExactReport H truth before (entries truth gen.obj))
    (h2 : ExactReport H truth after (entries truth ((refreshOf true).apply after gen).obj)) :
    MixedReport H truth before after (entries truth ((refreshOf false).apply after gen).obj) := by
  have hE : ((refreshOf false).apply after gen).obj.arrays.energy = gen.obj.arrays.energy := rfl
  have hV : ((refreshOf false).apply after gen).obj.arrays.variance = gen.obj.arrays.variance := rfl
  have hM : ∀ f : Config ι → ℝ, exactMean f ((refreshOf false).apply after gen).obj = exactMean f ((refreshOf true).apply after gen).obj :=
    fun f => rfl
  obtain ⟨a1, a2, a3, a4, -, -⟩ := h1
  obtain ⟨-, -, -, -, b1, b2⟩ := h2
  unfold entries at *
  refine ⟨a1 ▸ ?_, a2 ▸ ?_, fun t ht h0 => a3 t ht h0 ▸ ?_, fun ht => a4 ht ▸ ?_, b1 ▸ ?_, b2 ▸ ?_⟩ <;>
    cases truth <;> simp [addExactSigmaZ, addExactEnergy, read_put, hE, hV, hM]

variable [DecidableEq ι]

/-- **C99 for `MachineUpdated(update_local_energy=False)`** before the default loggers, of the same mode: the
magnetisations they write belong to the current weights, those after the latest step; the energy, the variance and the
relative error still belong to the weights the latest gradient was computed with. -/
theorem C99_waves {N : ℕ} (e : ι ≃ Fin N) (hN : N ≤ 31)
    (op : (B : Nat) → (Fin B → Config ι) → Fin B → List (Row ι ℝ)) (R : ℕ) (rowsOf : Config ι → List (Row ι ℝ))
    (h : RowsOf op R rowsOf) (H : Wave ι → Wave ι) (hH : ∀ s, IsSpin s → ∀ ψ, applyRows (rowsOf s) ψ = H ψ s)
    (batch : ℕ) (o : Optimizer Opt (Fin n → ℝ) (Fin n → ℝ)) (cfg : AccConfig)
    (net : (Fin n → ℝ) → Config ι → ℂ) (g : (Fin n → ℝ) → Config ι × ℂ → Fin n → ℝ) (opt : Opt)
    (st0 : ExactState (Config ι) Opt n) (h0 : exactSetup (spinSetup e op R) batch opt = some st0)
    (truth : Option ℝ) (inBatch : Bool) (spe t : ℕ) :
    ∃ st r, fit o cfg net g (.machineUpdated inBatch false :: defaultLoggers truth inBatch) spe st0 t = .ok st ∧
      fitStep o cfg net g (.machineUpdated inBatch false :: defaultLoggers truth inBatch) spe t st = .ok r ∧
      (if inBatch = true ∧ (t % spe) % (2 ^ N / min batch (2 ^ N)) = 0
        then MixedReport H truth (net (o.params st.acc.opt)) (net (o.params r.state.acc.opt)) r.batchLog else r.batchLog = []) ∧
      (if (t + 1) % spe = 0 then ∃ L, r.epochLog = some L ∧
          if inBatch = true then L = []
          else MixedReport H truth (net (o.params st.acc.opt)) (net (o.params r.state.acc.opt)) L
        else r.epochLog = none) := by
  have hok : ∀ t (st : ExactState (Config ι) Opt n), ∃ r,
      fitStep o cfg net g (.machineUpdated inBatch false :: defaultLoggers truth inBatch) spe t st = .ok r := by
    intro t st
    rw [fitStep_before]
    simp only
    split
    · exact ⟨_, rfl⟩
    · exact ⟨_, rfl⟩
  refine ⟨_, _, fit_ok o cfg net g _ spe st0 hok t, (hok t _).choose_spec, ?_⟩
  set st := exactTrain o cfg net g (schedule (.machineUpdated inBatch false :: defaultLoggers truth inBatch) spe) st0 t
    with hst
  obtain ⟨p1, p2, p3, s4⟩ := step_result e hN op R rowsOf h batch o cfg net g opt st0 h0
    (schedule (.machineUpdated inBatch false :: defaultLoggers truth inBatch) spe) t
  rw [← hst] at p1 p2 p3 s4
  obtain ⟨s1, s2, s3⟩ := s4 (net (o.params (exactStep o cfg net g st).acc.opt))
  have hrep := entries_waves H truth _ _ _ (report_of_result e hN op R rowsOf h H hH truth _ p1 _ p3)
    (report_of_result e hN op R rowsOf h H hH truth _ s1 _ s3)
  have hcyc : cycle ((refreshOf false).apply (net (o.params (exactStep o cfg net g st).acc.opt)) (exactStep o cfg net g st).gen).obj =
      2 ^ N / min batch (2 ^ N) := p2
  have hspec := (hok t st).choose_spec
  set r := (hok t st).choose with hrdef
  rw [fitStep_before] at hspec
  simp only at hspec
  cases inBatch with
  | true =>
    simp only [if_true, true_and] at hspec ⊢
    rw [hcyc] at hspec
    by_cases hs : (t + 1) % spe = 0
    · rw [if_pos hs] at hspec ⊢
      have hr := Except.ok.inj hspec
      rw [← hr]
      refine ⟨?_, _, rfl, rfl⟩
      split
      · exact hrep
      · rfl
    · rw [if_neg hs] at hspec ⊢
      have hr := Except.ok.inj hspec
      rw [← hr]
      refine ⟨?_, rfl⟩
      split
      · exact hrep
      · rfl
  | false =>
    simp only [Bool.false_eq_true, false_and, if_false] at hspec ⊢
    by_cases hs : (t + 1) % spe = 0
    · rw [if_pos hs] at hspec ⊢
      have hr := Except.ok.inj hspec
      rw [← hr]
      exact ⟨rfl, _, rfl, hrep⟩
    · rw [if_neg hs] at hspec ⊢
      have hr := Except.ok.inj hspec
      rw [← hr]
      exact ⟨rfl, rfl⟩

end Verif.Callbacks
