import Verif.Samplers.Ergodic
import Verif.Samplers.Direct

/-!
# C139: the magnetisations of long Metropolis batches

The observables `sigma_z` and `abs_sigma_z` (C85), which `ObservableStats` logs, for batches as C136 and C139 describe them.
-/
namespace Verif.Metropolis

open Verif.Operators Verif.Markov Verif.Energy Verif.Callbacks

variable {ι : Type} [DecidableEq ι] [Fintype ι]

omit [DecidableEq ι] [Fintype ι] in
theorem batchObservable_ofFn {B : Nat} (f : Config ι → ℝ) (lv : Config ι → ℂ) (x : Fin B → Config ι) :
    batchObservable f (List.ofFn fun b => (x b, lv (x b))) = (∑ b, f (x b)) / B := by
  unfold batchObservable
  rw [List.map_ofFn, List.sum_ofFn, List.length_ofFn]
  rfl

/-- **C139, magnetisations.** For every source of samples of the squared amplitudes, so for the uniform, local and Ising
samplers (`C139_uniform`, `C139_local_partial`, `C139_ising_chain`, `C139_ising_grid`) and for independent samples
(`C136_independent`): the logged `sigma_z` comes as close as desired to the expectation of the magnetisation per site and
the logged `abs_sigma_z` to the mean of its absolute value. -/
theorem C139_magnetisations (logψ : Config ι → ℂ) (src : Source (Config ι)) (hd : src.Draws (allSpins ι) (Energy.born logψ))
    (lv : Config ι → ℂ) (ε : ℝ) (hε : 0 < ε) :
    src.InTheLimit fun _ sample =>
      |batchObservable sigmaZ (List.ofFn fun b => (sample b, lv (sample b))) -
        (rayleigh magnetisation fun s => Complex.exp (logψ s)).re| < ε ∧
      |batchObservable absSigmaZ (List.ofFn fun b => (sample b, lv (sample b))) -
        (∑ s ∈ allSpins ι, Energy.born logψ s * |(∑ i, (s i : ℝ)) / Fintype.card ι|)| < ε := by
  have h := hd.both (hd.law sigmaZ ε hε) (hd.law absSigmaZ ε hε)
  refine hd.weaken h fun B _ x _ hx => ?_
  rw [batchObservable_ofFn, batchObservable_ofFn, ← rayleigh_diagonal logψ, Complex.ofReal_re]
  refine ⟨hx.1, ?_⟩
  convert hx.2 using 3
  refine Finset.sum_congr rfl fun s _ => ?_
  rw [absSigmaZ_eq]
  unfold sigmaZ
  push_cast
  rfl

/-- **C139, magnetisations of exchange moves and Heisenberg models.** For every source of samples with the magnetisation `M`,
so for the samplers of `C139_exchange`, `C139_heisenberg_grid` and `C139_heisenberg_chain`, the logged numbers are
exactly those of the start, with a probability that tends to one. -/
theorem C139_magnetisations_sector (M : ℤ) (p : Config ι → ℝ) (src : Source (Config ι)) (hd : src.Draws (sector M) p)
    (lv : Config ι → ℂ) :
    src.InTheLimit fun _ sample =>
      batchObservable sigmaZ (List.ofFn fun b => (sample b, lv (sample b))) = M / Fintype.card ι ∧
      batchObservable absSigmaZ (List.ofFn fun b => (sample b, lv (sample b))) = |(M : ℝ)| / Fintype.card ι := by
  refine hd.weaken (hd.law sigmaZ 1 one_pos) fun B hB x hx _ => ?_
  have hB' : (B : ℝ) ≠ 0 := by exact_mod_cast hB.ne'
  have h1 : ∀ b, sigmaZ (x b) = M / Fintype.card ι := fun b => by
    rw [← ((mem_sector M _).1 (hx b)).2]; rfl
  have h2 : ∀ b, absSigmaZ (x b) = |(M : ℝ)| / Fintype.card ι := fun b => by
    rw [← ((mem_sector M _).1 (hx b)).2]; rfl
  rw [batchObservable_ofFn, batchObservable_ofFn]
  simp only [h1, h2, Finset.sum_const, Finset.card_univ, Fintype.card_fin, nsmul_eq_mul]
  exact ⟨mul_div_cancel_left₀ _ hB', mul_div_cancel_left₀ _ hB'⟩

/-- The requirements are met: ten chains with uniform moves that start with all spins up, every second sweep used. -/
example (logψ : Config (Fin 4) → ℂ) (ε : ℝ) (hε : 0 < ε) :
    (metropolisSource (Equiv.refl _) (uniformTransition logψ) 1 10 fun _ : Fin 10 => fun _ => 1).InTheLimit fun _ sample =>
      |batchObservable sigmaZ (List.ofFn fun b => (sample b, 0)) - (rayleigh magnetisation fun s => Complex.exp (logψ s)).re| < ε := by
  have hd := C139_uniform (C := 10) (by decide) logψ 1 10 (fun _ _ => 1) fun _ _ => Or.inl rfl
  exact hd.weaken (C139_magnetisations logψ _ hd (fun _ => 0) ε hε) fun _ _ _ _ h => h.1

end Verif.Metropolis
