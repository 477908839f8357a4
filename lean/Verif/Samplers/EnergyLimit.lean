import Verif.Samplers.ConvergeHam
import Verif.Energy.Unbiased
import Verif.Energy.LocalProps

/-!
C134: the energy reported for Metropolis samples converges to the energy of the wave function on the
configurations the sampler explores.
-/
namespace Verif.Metropolis

open Verif.Operators Verif.Markov Verif.Energy Filter Topology

variable {ι κ : Type} {C D : Nat} {shape : Fin D → Nat}

/-! ### Specification -/

/-- The configuration as the operator sees it: the sampler works on arrays with sites `κ`, the operator on sites
`ι`. -/
def view (e : κ ≃ ι) (s : Config κ) : Config ι := fun i => s (e.symm i)

theorem view_spin (e : κ ≃ ι) {s : Config κ} (hs : IsSpin s) : IsSpin (view e s) := fun i => hs (e.symm i)

/-- An estimator: from a batch of spin configurations to the mean local energy, the variance and the local energies. -/
abbrev Estimator (ι : Type) (C : Nat) : Type :=
  (T : Fin C → Config ι) → (∀ c, IsSpin (T c)) → Option (ℂ × ℝ × List ℂ)

/-- The mean of the energy reported for the states of the chains after `n` sweeps converges to `E` as `n` grows, from
every start in `F`. `P` are the one-sweep transition probabilities. -/
def EnergyConverges [DecidableEq κ] [Fintype κ] (e : κ ≃ ι) (P : (Fin C → Config κ) → (Fin C → Config κ) → ℝ)
    (F : Finset (Config κ)) (out : Estimator ι C) (E : ℂ) : Prop :=
  ∃ reported : (Fin C → Config κ) → ℂ,
    (∀ T (hs : ∀ c, IsSpin (T c)), ∃ v l, out (fun c => view e (T c)) (fun c => view_spin e (hs c)) = some (reported T, v, l)) ∧
    ∀ S, (∀ c, S c ∈ F) → Tendsto
      (fun n => ∑ T ∈ Fintype.piFinset fun _ : Fin C => allSpins κ, (afterSweeps P n S T : ℂ) * reported T) atTop (𝓝 E)

/-- The wave function without the configurations of other magnetisations. -/
noncomputable def restrictTo [Fintype ι] (M : ℤ) (ψ : Wave ι) : Wave ι := fun s => if magnetization s = M then ψ s else 0

/-- The estimator of an Ising chain (operator, local energies, mean). -/
noncomputable def isingChainEstimate (n : Nat) (h j : ℝ) (pbc : Bool) (logψ : Config (Fin n) → ℂ) : Estimator (Fin n) C :=
  fun sample hs => estimate logψ (Answer.ofRows (n + 1) (isingFindConn1 (.float h) j pbc sample)
    fun b => (C09_ising_chain (.float h) j pbc sample b (hs b)).count)

/-- The estimator of the Ising model on a grid. -/
noncomputable def isingGridEstimate (n m : Nat) (h j : ℝ) (pbc : Bool) (logψ : Config (Fin n × Fin m) → ℂ) :
    Estimator (Fin n × Fin m) C :=
  fun sample hs => estimate logψ (Answer.ofRows (n * m + 1) (isingFindConn2 (.float h) j pbc sample)
    fun b => (C09_ising_grid (.float h) j pbc sample b (hs b)).count)

/-- The estimator of the Heisenberg model on a grid, after some calls of the operator. -/
noncomputable def heisenbergGridEstimate (n m : Nat) (rot pbc : Bool) (history : List (Call n m))
    (logψ : Config (Fin n × Fin m) → ℂ) : Estimator (Fin n × Fin m) C :=
  fun sample hs => estimate logψ (Answer.ofRows (n * m * 2 + 1)
    (((HeisOp.new2 n m rot pbc).run history).findConn C sample).2
    fun b => (C09_heisenberg_grid rot pbc history C sample b (hs b)).count)

/-- The estimator of the Heisenberg chain, after some calls of the operator. -/
noncomputable def heisenbergChainEstimate (n : Nat) (rot pbc : Bool) (history : List (Call n 1))
    (logψ : Config (Fin n) → ℂ) : Estimator (Fin n) C :=
  fun sample hs => estimate logψ (Answer.ofRows (n + 1)
    (((HeisOp.new1 n rot pbc).run history).findConn1 C sample).2
    fun b => (C09_heisenberg_chain rot pbc history C sample b (hs b)).count)

/-! ### Limits of mean values -/

section
variable [DecidableEq κ] [Fintype κ]

omit [DecidableEq κ] [Fintype κ] in
theorem kernel_zero {χ : Config κ → Type} [∀ s, Fintype (χ s)] (cand : (s : Config κ) → χ s → Config κ)
    (ratio : (s : Config κ) → χ s → ℝ) (s t : Config κ) (h1 : t ≠ s) (h2 : ∀ k, cand s k ≠ t) : kernel cand ratio s t = 0 := by
  unfold kernel
  rw [Finset.sum_eq_zero, zero_div]
  intro k _
  unfold stepProb
  rw [if_neg (h2 k), if_neg fun h => h1 h.symm, add_zero]

/-- Chains that cannot leave `F` do not leave it in any number of sweeps. -/
theorem confined {P : (Fin C → Config κ) → (Fin C → Config κ) → ℝ} {F : Finset (Config κ)}
    (hP : ∀ S T, (∀ c, S c ∈ F) → (¬ ∀ c, T c ∈ F) → P S T = 0) (n : ℕ) :
    ∀ S T, (∀ c, S c ∈ F) → (¬ ∀ c, T c ∈ F) → afterSweeps P n S T = 0 := by
  classical
  induction n with
  | zero =>
    intro S T hS hT
    unfold afterSweeps
    simp only [steps]
    rw [if_neg]
    rintro rfl
    exact hT hS
  | succ n ih =>
    intro S T hS hT
    unfold afterSweeps at ih ⊢
    simp only [steps]
    refine Finset.sum_eq_zero fun Z _ => ?_
    by_cases hZ : ∀ c, Z c ∈ F
    · rw [ih Z T hZ hT, mul_zero]
    · rw [hP S Z hS hZ, zero_mul]

omit [DecidableEq κ] [Fintype κ] in
theorem confined_prod {F : Finset (Config κ)} {P : (Fin C → Config κ) → (Fin C → Config κ) → ℝ} {K : Config κ → Config κ → ℝ}
    (h : ∀ S T, P S T = ∏ c, K (S c) (T c)) (hK : ∀ s ∈ F, ∀ t, t ∉ F → K s t = 0) (S T : Fin C → Config κ)
    (hS : ∀ c, S c ∈ F) (hT : ¬ ∀ c, T c ∈ F) : P S T = 0 := by
  push Not at hT
  obtain ⟨c, hc⟩ := hT
  rw [h]
  exact Finset.prod_eq_zero (Finset.mem_univ c) (hK _ (hS c) _ hc)

/-- Mean values over the chains converge to mean values over the squared amplitudes. -/
theorem mean_converges (hC : 0 < C) (ψ : Config κ → ℂ) (P : (Fin C → Config κ) → (Fin C → Config κ) → ℝ) (F : Finset (Config κ))
    (hF : F ⊆ allSpins κ) (hconv : ConvergesTo ψ P fun _ => F)
    (hP : ∀ S T, (∀ c, S c ∈ F) → (¬ ∀ c, T c ∈ F) → P S T = 0) (f : Config κ → ℂ) (S : Fin C → Config κ)
    (hS : ∀ c, S c ∈ F) :
    Tendsto (fun n => ∑ T ∈ Fintype.piFinset fun _ : Fin C => allSpins κ, (afterSweeps P n S T : ℂ) * ((∑ c, f (T c)) / C))
      atTop (𝓝 ((∑ s ∈ F, (weight ψ s : ℂ) * f s) / ∑ s ∈ F, (weight ψ s : ℂ))) := by
  classical
  have hsub : (Fintype.piFinset fun _ : Fin C => F) ⊆ Fintype.piFinset fun _ : Fin C => allSpins κ :=
    Fintype.piFinset_subset _ _ fun _ => hF
  have h1 : ∀ n, ∑ T ∈ Fintype.piFinset fun _ : Fin C => allSpins κ, (afterSweeps P n S T : ℂ) * ((∑ c, f (T c)) / C)
      = ∑ T ∈ Fintype.piFinset fun _ : Fin C => F, (afterSweeps P n S T : ℂ) * ((∑ c, f (T c)) / C) := by
    intro n
    refine (Finset.sum_subset hsub fun T _ hT => ?_).symm
    rw [confined hP n S T hS (by simpa using hT), Complex.ofReal_zero, zero_mul]
  simp only [h1]
  set Z : ℝ := ∑ t ∈ F, weight ψ t with hZ
  have hZpos : 0 < Z := Finset.sum_pos (fun t _ => weight_pos ψ t) ⟨S ⟨0, hC⟩, hS _⟩
  have hZC : (Z : ℂ) ≠ 0 := by exact_mod_cast hZpos.ne'
  have hCC : (C : ℂ) ≠ 0 := by exact_mod_cast hC.ne'
  have h2 : Tendsto (fun n => ∑ T ∈ Fintype.piFinset fun _ : Fin C => F, (afterSweeps P n S T : ℂ) * ((∑ c, f (T c)) / C)) atTop
      (𝓝 (∑ T ∈ Fintype.piFinset fun _ : Fin C => F, (((∏ c, weight ψ (T c) / Z : ℝ)) : ℂ) * ((∑ c, f (T c)) / C))) := by
    refine tendsto_finsetSum _ fun T hT => ?_
    refine Tendsto.mul_const _ ?_
    exact (Complex.continuous_ofReal.tendsto _).comp (hconv S T hS (by simpa using hT))
  convert h2 using 2
  have h3 : ∑ T ∈ Fintype.piFinset fun _ : Fin C => F, (((∏ c, weight ψ (T c) / Z : ℝ)) : ℂ) * ((∑ c, f (T c)) / C) =
      expect F (fun s => ((weight ψ s / Z : ℝ) : ℂ)) C fun T => (1 / C) * ∑ c, f (T c) := by
    unfold expect
    refine Finset.sum_congr rfl fun T _ => ?_
    rw [Complex.ofReal_prod]
    ring
  have hone : ∑ s ∈ F, ((weight ψ s / Z : ℝ) : ℂ) = 1 := by
    rw [← Complex.ofReal_sum, ← Finset.sum_div, ← hZ, div_self hZpos.ne', Complex.ofReal_one]
  rw [h3, expect_mul, expect_sum]
  simp only [expect_one F _ hone f]
  rw [Finset.sum_const, Finset.card_univ, Fintype.card_fin, nsmul_eq_mul]
  have h4 : ∑ s ∈ F, (weight ψ s : ℂ) = Z := by rw [hZ, Complex.ofReal_sum]
  rw [h4, Finset.sum_div]
  have h5 : ∀ x : ℂ, 1 / (C : ℂ) * (C * x) = x := fun x => by field_simp
  rw [h5]
  refine Finset.sum_congr rfl fun s _ => ?_
  rw [Complex.ofReal_div]
  ring

end

section
variable [DecidableEq κ] [Fintype κ] [DecidableEq ι] [Fintype ι]

/-- What the estimators return. -/
theorem energy_converges (hC : 0 < C) (e : κ ≃ ι) (H : Wave ι → Wave ι) (logψ : Config ι → ℂ)
    (P : (Fin C → Config κ) → (Fin C → Config κ) → ℝ) (F : Finset (Config κ)) (hF : F ⊆ allSpins κ)
    (hconv : ConvergesTo (fun s => logψ (view e s)) P fun _ => F)
    (hP : ∀ S T, (∀ c, S c ∈ F) → (¬ ∀ c, T c ∈ F) → P S T = 0) (out : Estimator ι C)
    (hout : ∀ T hs, LocalEnergies H T logψ (out T hs)) :
    EnergyConverges e P F out ((∑ s ∈ F, ((‖Complex.exp (logψ (view e s))‖ ^ 2 : ℝ) : ℂ) * localEnergy H logψ (view e s)) /
      ∑ s ∈ F, ((‖Complex.exp (logψ (view e s))‖ ^ 2 : ℝ) : ℂ)) := by
  refine ⟨fun T => (∑ c, localEnergy H logψ (view e (T c))) / C, fun T hs => ?_, fun S hS => ?_⟩
  · obtain ⟨v, hv⟩ := (hout (fun c => view e (T c)) fun c => view_spin e (hs c)).values
    exact ⟨v, _, hv⟩
  · exact mean_converges hC _ P F hF hconv hP (fun s => localEnergy H logψ (view e s)) S hS

/-- Sums over all spin configurations seen through `e`. -/
theorem sum_view (e : κ ≃ ι) (f : Config ι → ℂ) : ∑ s ∈ allSpins κ, f (view e s) = ∑ s ∈ allSpins ι, f s := by
  refine Finset.sum_bij (fun s _ => view e s) (fun s hs => (mem_allSpins _).2 (view_spin e ((mem_allSpins s).1 hs))) ?_ ?_
    fun _ _ => rfl
  · intro s _ t _ h
    funext k
    have := congrFun h (e k)
    simpa [view] using this
  · intro s hs
    refine ⟨fun k => s (e k), (mem_allSpins _).2 fun k => ((mem_allSpins s).1 hs) (e k), ?_⟩
    funext i
    simp [view]

omit [DecidableEq κ] [DecidableEq ι] in
theorem magnetization_view (e : κ ≃ ι) (s : Config κ) : magnetization (view e s) = magnetization s := by
  unfold magnetization view
  exact e.symm.sum_comp (fun k => s k)

omit [DecidableEq ι] [Fintype ι] in
theorem local_energy_mul (H : Wave ι → Wave ι) (logψ : Config ι → ℂ) (s : Config ι) :
    ((‖Complex.exp (logψ s)‖ ^ 2 : ℝ) : ℂ) * localEnergy H logψ s =
      (starRingEnd ℂ) (Complex.exp (logψ s)) * H (fun s => Complex.exp (logψ s)) s := by
  unfold localEnergy
  rw [← conj_mul_self, mul_assoc, mul_div_cancel₀ _ (Complex.exp_ne_zero _)]

theorem limit_all (e : κ ≃ ι) (H : Wave ι → Wave ι) (logψ : Config ι → ℂ) :
    (∑ s ∈ allSpins κ, ((‖Complex.exp (logψ (view e s))‖ ^ 2 : ℝ) : ℂ) * localEnergy H logψ (view e s)) /
      ∑ s ∈ allSpins κ, ((‖Complex.exp (logψ (view e s))‖ ^ 2 : ℝ) : ℂ) = rayleigh H fun s => Complex.exp (logψ s) := by
  rw [sum_view e fun s => ((‖Complex.exp (logψ s)‖ ^ 2 : ℝ) : ℂ) * localEnergy H logψ s,
    sum_view e fun s => ((‖Complex.exp (logψ s)‖ ^ 2 : ℝ) : ℂ)]
  unfold rayleigh
  congr 1
  · exact Finset.sum_congr rfl fun s _ => local_energy_mul H logψ s
  · exact Finset.sum_congr rfl fun s _ => (conj_mul_self _).symm

/-- If `H` does not mix the sectors, the limit is the energy of the wave function restricted to the sector. -/
theorem limit_sector (e : κ ≃ ι) (H : Wave ι → Wave ι) (logψ : Config ι → ℂ) (M : ℤ)
    (hH : ∀ s, IsSpin s → magnetization s = M → H (fun s => Complex.exp (logψ s)) s =
      H (restrictTo M fun s => Complex.exp (logψ s)) s) :
    (∑ s ∈ sector (ι := κ) M, ((‖Complex.exp (logψ (view e s))‖ ^ 2 : ℝ) : ℂ) * localEnergy H logψ (view e s)) /
      ∑ s ∈ sector (ι := κ) M, ((‖Complex.exp (logψ (view e s))‖ ^ 2 : ℝ) : ℂ) =
      rayleigh H (restrictTo M fun s => Complex.exp (logψ s)) := by
  classical
  unfold sector
  rw [Finset.sum_filter, Finset.sum_filter]
  simp only [← magnetization_view e]
  rw [sum_view e fun s => if magnetization s = M then ((‖Complex.exp (logψ s)‖ ^ 2 : ℝ) : ℂ) * localEnergy H logψ s else 0,
    sum_view e fun s => if magnetization s = M then ((‖Complex.exp (logψ s)‖ ^ 2 : ℝ) : ℂ) else 0]
  unfold rayleigh
  congr 1
  · refine Finset.sum_congr rfl fun s hs => ?_
    split
    case isTrue h =>
      rw [local_energy_mul, hH s ((mem_allSpins s).1 hs) h]
      simp [restrictTo, h]
    case isFalse h => simp [restrictTo, h]
  · refine Finset.sum_congr rfl fun s _ => ?_
    split
    case isTrue h =>
      rw [← conj_mul_self]
      simp [restrictTo, h]
    case isFalse h => simp [restrictTo, h]

end

/-! ### The samplers stay where they are -/

theorem sym_zero [DecidableEq κ] {R : Type} [Fintype R] [DecidableEq R] (ψ : Config κ → ℂ) (move : R → Config κ → Config κ)
    (F : Finset (Config κ)) (hm : ∀ s ∈ F, ∀ r, move r s ∈ F) : ∀ s ∈ F, ∀ t, t ∉ F → symKernel ψ move s t = 0 := by
  intro s hs t ht
  unfold symKernel
  exact kernel_zero _ _ s t (fun h => ht (h ▸ hs)) fun r h => ht (h ▸ hm s hs r)

theorem exchange_confined (ψ : Config (Idx shape) → ℂ) (M : ℤ) (S T : Fin C → Config (Idx shape))
    (hS : ∀ c, S c ∈ sector M) (hT : ¬ ∀ c, T c ∈ sector M) : exchangeTransition ψ S T = 0 := by
  refine confined_prod (exchange_product ψ) (sym_zero ψ _ _ ?_) S T hS hT
  intro s hs r
  rw [mem_sector] at hs ⊢
  exact ⟨exchange_spin hs.1 _ _, by rw [magnetization_exchange]; exact hs.2⟩

theorem all_confined [DecidableEq κ] [Fintype κ] {R : Type} [Fintype R] [DecidableEq R] (ψ : Config κ → ℂ)
    (move : R → Config κ → Config κ) (P : (Fin C → Config κ) → (Fin C → Config κ) → ℝ)
    (h : ∀ S T, P S T = ∏ c, symKernel ψ move (S c) (T c)) (hm : ∀ s, IsSpin s → ∀ r, IsSpin (move r s))
    (S T : Fin C → Config κ) (hS : ∀ c, S c ∈ allSpins κ) (hT : ¬ ∀ c, T c ∈ allSpins κ) : P S T = 0 :=
  confined_prod h (sym_zero ψ move _ fun s hs r => (mem_allSpins _).2 (hm s ((mem_allSpins s).1 hs) r)) S T hS hT

theorem ham_confined [DecidableEq κ] [Fintype κ] (ψ : Config κ → ℂ) (rows : Config κ → List (Row κ ℝ))
    (find find' : (Fin C → Config κ) → Fin C → List (Row κ ℝ)) (hf : ∀ S c, find S c = rows (S c))
    (hf' : ∀ S c, find' S c = rows (S c)) (F : Finset (Config κ))
    (hm : ∀ s ∈ F, ∀ r ∈ rows s, r.use = true → r.conn ∈ F) (S T : Fin C → Config κ)
    (hS : ∀ c, S c ∈ F) (hT : ¬ ∀ c, T c ∈ F) : hamiltonianTransition ψ find find' S T = 0 := by
  refine confined_prod (hamiltonian_transition ψ rows find find' hf hf') (fun s hs t ht => ?_) S T hS hT
  unfold hamKernel
  refine kernel_zero _ _ s t (fun h => ht (h ▸ hs)) fun k h => ht (h ▸ ?_)
  have hk : k.val < (possible (rows s)).length := by rw [length_possible]; exact k.2
  have hmem : choose (rows s) k ∈ possible (rows s) := List.getElem_mem hk
  unfold possible at hmem
  rw [List.mem_map] at hmem
  obtain ⟨r, hr, hc⟩ := hmem
  rw [List.mem_filter] at hr
  rw [← hc]
  exact hm s hs r hr.1 hr.2

/-- Rows whose used connections keep the magnetisation do not see other sectors. -/
theorem applyRows_restrict [Fintype ι] (rows : List (Row ι ℝ)) (M : ℤ)
    (hu : ∀ r ∈ rows, r.use = true → magnetization r.conn = M) (h0 : ∀ r ∈ rows, r.use = false → r.mel = 0) (ψ : Wave ι) :
    applyRows rows ψ = applyRows rows (restrictTo M ψ) := by
  unfold applyRows
  congr 1
  refine List.map_congr_left fun r hr => ?_
  cases h : r.use with
  | true => rw [restrictTo, if_pos (hu r hr h)]
  | false => rw [h0 r hr h]; simp

theorem heisenberg_grid_sector {n m : Nat} (rot pbc : Bool) (M : ℤ) (ψ : Wave (Fin n × Fin m)) (s : Config (Fin n × Fin m))
    (hs : IsSpin s) (hM : magnetization s = M) :
    heisenberg (gridBonds n m pbc) (if rot then -1 else 1) ψ s =
      heisenberg (gridBonds n m pbc) (if rot then -1 else 1) (restrictTo M ψ) s := by
  have h1 := fun ψ => C07_heisenberg_grid rot pbc [] 1 (fun _ => s) 0 hs ψ
  have h2 := C10_heisenberg_grid rot pbc [] 1 (fun _ : Fin 1 => s) 0
  have h3 := C09_heisenberg_grid rot pbc [] 1 (fun _ : Fin 1 => s) 0 hs
  rw [← h1, ← h1]
  exact applyRows_restrict _ M (fun r hr hu => (h2.1 r hr hu).1.trans hM) h3.unused ψ

theorem heisenberg_chain_sector {n : Nat} (rot pbc : Bool) (M : ℤ) (ψ : Wave (Fin n)) (s : Config (Fin n))
    (hs : IsSpin s) (hM : magnetization s = M) :
    heisenberg (chainBonds' n pbc) (if rot then -1 else 1) ψ s =
      heisenberg (chainBonds' n pbc) (if rot then -1 else 1) (restrictTo M ψ) s := by
  have h1 := fun ψ => C07_heisenberg_chain rot pbc [] 1 (fun _ => s) 0 hs ψ
  have h2 := C10_heisenberg_chain rot pbc [] 1 (fun _ : Fin 1 => s) 0
  have h3 := C09_heisenberg_chain rot pbc [] 1 (fun _ : Fin 1 => s) 0 hs
  rw [← h1, ← h1]
  exact applyRows_restrict _ M (fun r hr hu => (h2 r hr hu).1.trans hM) h3.unused ψ

theorem sector_subset [DecidableEq κ] [Fintype κ] (M : ℤ) : sector (ι := κ) M ⊆ allSpins κ := fun s hs =>
  (mem_allSpins s).2 ((mem_sector M s).1 hs).1

/-! ### C134 -/

/-- **C134**, exchange moves and the Heisenberg model on grids: from every start in which all chains have
magnetisation `M` the reported energy converges to that of the wave function restricted to the sector; for every lattice
of the sampler with the same number of sites, network, boundary, sign convention and earlier calls. -/
theorem C134_exchange_heisenberg_grid (hC : 0 < C) (n m : Nat) (hd : ∀ d, 0 < shape d) (e : Idx shape ≃ Fin n × Fin m)
    (rot pbc : Bool) (history : List (Call n m)) (logψ : Config (Fin n × Fin m) → ℂ) (M : ℤ) :
    EnergyConverges (C := C) e (exchangeTransition fun s => logψ (view e s)) (sector M)
      (heisenbergGridEstimate n m rot pbc history logψ)
      (rayleigh (heisenberg (gridBonds n m pbc) (if rot then -1 else 1)) (restrictTo M fun s => Complex.exp (logψ s))) := by
  rw [← limit_sector e _ logψ M fun s hs hM => heisenberg_grid_sector rot pbc M _ s hs hM]
  exact energy_converges hC e _ logψ _ _ (sector_subset M) (C87_exchange hd _ fun _ => M)
    (exchange_confined _ M) _ fun T hs => C18_heisenberg_grid rot pbc history C T hs logψ

/-- **C134**, exchange moves and the Heisenberg chain. -/
theorem C134_exchange_heisenberg_chain (hC : 0 < C) (n : Nat) (hd : ∀ d, 0 < shape d) (e : Idx shape ≃ Fin n)
    (rot pbc : Bool) (history : List (Call n 1)) (logψ : Config (Fin n) → ℂ) (M : ℤ) :
    EnergyConverges (C := C) e (exchangeTransition fun s => logψ (view e s)) (sector M)
      (heisenbergChainEstimate n rot pbc history logψ)
      (rayleigh (heisenberg (chainBonds' n pbc) (if rot then -1 else 1)) (restrictTo M fun s => Complex.exp (logψ s))) := by
  rw [← limit_sector e _ logψ M fun s hs hM => heisenberg_chain_sector rot pbc M _ s hs hM]
  exact energy_converges hC e _ logψ _ _ (sector_subset M) (C87_exchange hd _ fun _ => M)
    (exchange_confined _ M) _ fun T hs => C18_heisenberg_chain rot pbc history C T hs logψ

/-- **C134**, Hamiltonian moves and the Heisenberg model on grids, with any calls of the operators before. -/
theorem C134_hamiltonian_heisenberg_grid (hC : 0 < C) (n m : Nat) (rot pbc rot' pbc' : Bool)
    (history hist hist' : List (Call n m)) (logψ : Config (Fin n × Fin m) → ℂ) (M : ℤ) :
    let find := fun S : Fin C → Config (Fin n × Fin m) => (((HeisOp.new2 n m rot' pbc').run hist).findConn C S).2
    let find' := fun S : Fin C → Config (Fin n × Fin m) => (((HeisOp.new2 n m rot' pbc').run hist').findConn C S).2
    EnergyConverges (C := C) (Equiv.refl _) (hamiltonianTransition logψ find find') (sector M)
      (heisenbergGridEstimate n m rot pbc history logψ)
      (rayleigh (heisenberg (gridBonds n m pbc) (if rot then -1 else 1)) (restrictTo M fun s => Complex.exp (logψ s))) := by
  intro find find'
  rw [← limit_sector (Equiv.refl _) _ logψ M fun s hs hM => heisenberg_grid_sector rot pbc M _ s hs hM]
  refine energy_converges hC (Equiv.refl _) _ logψ _ _ (sector_subset M) (C87_heisenberg_grid _ rot' pbc' hist hist' fun _ => M)
    (ham_confined _ (heisRows (offDiag rot') pbc' 2) _ _ (fun S c => answer2 _ _ _ _ _ _) (fun S c => answer2 _ _ _ _ _ _) _ ?_)
    _ fun T hs => C18_heisenberg_grid rot pbc history C T hs logψ
  intro s hs r hr hu
  rw [mem_sector] at hs ⊢
  rcases heis_moves (offDiag rot') pbc' 2 ⟨r, hr, hu, rfl⟩ with h | ⟨p, q, h⟩
  · rw [h]; exact hs
  · rw [h]; exact ⟨exchange_spin hs.1 _ _, by rw [magnetization_exchange]; exact hs.2⟩

/-- **C134**, Hamiltonian moves and the Heisenberg chain, with any calls of the operators before. -/
theorem C134_hamiltonian_heisenberg_chain (hC : 0 < C) (n : Nat) (rot pbc rot' pbc' : Bool)
    (history hist hist' : List (Call n 1)) (logψ : Config (Fin n) → ℂ) (M : ℤ) :
    let find := fun S : Fin C → Config (Fin n) => (((HeisOp.new1 n rot' pbc').run hist).findConn1 C S).2
    let find' := fun S : Fin C → Config (Fin n) => (((HeisOp.new1 n rot' pbc').run hist').findConn1 C S).2
    EnergyConverges (C := C) (Equiv.refl _) (hamiltonianTransition logψ find find') (sector M)
      (heisenbergChainEstimate n rot pbc history logψ)
      (rayleigh (heisenberg (chainBonds' n pbc) (if rot then -1 else 1)) (restrictTo M fun s => Complex.exp (logψ s))) := by
  intro find find'
  rw [← limit_sector (Equiv.refl _) _ logψ M fun s hs hM => heisenberg_chain_sector rot pbc M _ s hs hM]
  refine energy_converges hC (Equiv.refl _) _ logψ _ _ (sector_subset M) (C87_heisenberg_chain _ rot' pbc' hist hist' fun _ => M)
    (ham_confined _ (fun s => (heisRows (offDiag rot') pbc' 1 (expandDims s)).map squeezeRow) _ _
      (fun S c => answer1 _ _ _ _ _ _) (fun S c => answer1 _ _ _ _ _ _) _ ?_)
    _ fun T hs => C18_heisenberg_chain rot pbc history C T hs logψ
  intro s hs r hr hu
  rw [mem_sector] at hs ⊢
  have h2 := C10_heisenberg_chain rot' pbc' [] 1 (fun _ : Fin 1 => s) 0 r (by rw [answer1]; exact hr) hu
  have h3 := C09_heisenberg_chain rot' pbc' [] 1 (fun _ : Fin 1 => s) 0 hs.1
  exact ⟨h3.spins r (by rw [answer1]; exact hr), h2.1.trans hs.2⟩

/-- **C134**, uniform moves: for every operator whose estimator returns the local energies (all four do, see the
theorems below), from every start the reported energy converges to that of the wave function. -/
theorem C134_uniform (hC : 0 < C) [DecidableEq ι] [Fintype ι] (H : Wave ι → Wave ι) (logψ : Config ι → ℂ)
    (out : Estimator ι C) (hout : ∀ T hs, LocalEnergies H T logψ (out T hs)) :
    EnergyConverges (Equiv.refl ι) (uniformTransition logψ) (allSpins ι) out (rayleigh H fun s => Complex.exp (logψ s)) := by
  rw [← limit_all (Equiv.refl ι) H logψ]
  refine energy_converges hC (Equiv.refl ι) H logψ _ _ (Finset.Subset.refl _) (C87_uniform _) ?_ out hout
  refine all_confined _ _ _ (uniform_product _) fun s _ r i => ?_
  split
  · exact Or.inr rfl
  · exact Or.inl rfl

/-- **C134**, local moves: if not all amplitudes have the same modulus. -/
theorem C134_local_partial (hC : 0 < C) [DecidableEq ι] [Fintype ι] (hd : ∀ d, 0 < shape d) (e : Idx shape ≃ ι)
    (H : Wave ι → Wave ι) (logψ : Config ι → ℂ) (s t : Config ι) (hs : IsSpin s) (ht : IsSpin t)
    (hne : ‖Complex.exp (logψ s)‖ ≠ ‖Complex.exp (logψ t)‖)
    (out : Estimator ι C) (hout : ∀ T hs, LocalEnergies H T logψ (out T hs)) :
    EnergyConverges e (localTransition fun s => logψ (view e s)) (allSpins _) out
      (rayleigh H fun s => Complex.exp (logψ s)) := by
  rw [← limit_all e H logψ]
  have hv : ∀ s : Config ι, view e (fun k => s (e k)) = s := fun s => by funext i; simp [view]
  refine energy_converges hC e H logψ _ _ (Finset.Subset.refl _)
    (C87_local_partial hd _ (fun k => s (e k)) (fun k => t (e k)) (fun k => hs _) (fun k => ht _) ?_) ?_ out hout
  · unfold weight
    dsimp only
    rw [hv, hv]
    intro h
    exact hne ((sq_eq_sq₀ (norm_nonneg _) (norm_nonneg _)).1 h)
  · exact all_confined _ _ _ (local_product _) fun s hs r => flip_spin hs r

/-- **C134**, the Ising operators and Hamiltonian moves. -/
theorem C134_hamiltonian_ising_chain (hC : 0 < C) (n : Nat) (h j : ℝ) (pbc : Bool) (h' : Field) (j' : ℝ) (pbc' : Bool)
    (logψ : Config (Fin n) → ℂ) :
    EnergyConverges (C := C) (Equiv.refl _)
      (hamiltonianTransition logψ (isingFindConn1 h' j' pbc') (isingFindConn1 h' j' pbc')) (allSpins _)
      (isingChainEstimate n h j pbc logψ) (rayleigh (tfim (chainBonds n pbc) h j) fun s => Complex.exp (logψ s)) := by
  rw [← limit_all (Equiv.refl _) _ logψ]
  refine energy_converges hC (Equiv.refl _) _ logψ _ _ (Finset.Subset.refl _) (C87_ising_chain _ h' j' pbc')
    (ham_confined _ (fun s => isingFindConn1 h' j' pbc' (fun _ : Fin 1 => s) 0) _ _ (fun S c => ?_) (fun S c => ?_) _ ?_)
    _ fun T hs => C18_ising_chain h j pbc T hs logψ
  · rw [isingFindConn1_eq, isingFindConn1_eq]
  · rw [isingFindConn1_eq, isingFindConn1_eq]
  · intro s hs r hr _
    exact (mem_allSpins _).2 ((C09_ising_chain h' j' pbc' (fun _ : Fin 1 => s) 0 ((mem_allSpins s).1 hs)).spins r hr)

/-- **C134**, the Ising model on grids and Hamiltonian moves. -/
theorem C134_hamiltonian_ising_grid (hC : 0 < C) (n m : Nat) (h j : ℝ) (pbc : Bool) (h' : Field) (j' : ℝ) (pbc' : Bool)
    (logψ : Config (Fin n × Fin m) → ℂ) :
    EnergyConverges (C := C) (Equiv.refl _)
      (hamiltonianTransition logψ (isingFindConn2 h' j' pbc') (isingFindConn2 h' j' pbc')) (allSpins _)
      (isingGridEstimate n m h j pbc logψ) (rayleigh (tfim (gridBonds n m pbc) h j) fun s => Complex.exp (logψ s)) := by
  rw [← limit_all (Equiv.refl _) _ logψ]
  refine energy_converges hC (Equiv.refl _) _ logψ _ _ (Finset.Subset.refl _) (C87_ising_grid _ h' j' pbc')
    (ham_confined _ (fun s => isingFindConn2 h' j' pbc' (fun _ : Fin 1 => s) 0) _ _ (fun S c => ?_) (fun S c => ?_) _ ?_)
    _ fun T hs => C18_ising_grid h j pbc T hs logψ
  · rw [isingFindConn2_eq, isingFindConn2_eq]
  · rw [isingFindConn2_eq, isingFindConn2_eq]
  · intro s hs r hr _
    exact (mem_allSpins _).2 ((C09_ising_grid h' j' pbc' (fun _ : Fin 1 => s) 0 ((mem_allSpins s).1 hs)).spins r hr)

/-- The four estimators return the local energies, as `C134_uniform` and `C134_local_partial` ask. -/
theorem C134_estimators :
    (∀ n h j pbc logψ T hs, LocalEnergies (tfim (chainBonds n pbc) h j) T logψ (isingChainEstimate (C := C) n h j pbc logψ T hs)) ∧
    (∀ n m h j pbc logψ T hs,
      LocalEnergies (tfim (gridBonds n m pbc) h j) T logψ (isingGridEstimate (C := C) n m h j pbc logψ T hs)) ∧
    (∀ n m (rot pbc : Bool) history logψ T hs, LocalEnergies (heisenberg (gridBonds n m pbc) (if rot then -1 else 1)) T logψ
      (heisenbergGridEstimate (C := C) n m rot pbc history logψ T hs)) ∧
    (∀ n (rot pbc : Bool) history logψ T hs, LocalEnergies (heisenberg (chainBonds' n pbc) (if rot then -1 else 1)) T logψ
      (heisenbergChainEstimate (C := C) n rot pbc history logψ T hs)) :=
  ⟨fun _ h j pbc logψ T hs => C18_ising_chain h j pbc T hs logψ, fun _ _ h j pbc logψ T hs => C18_ising_grid h j pbc T hs logψ,
    fun _ _ rot pbc history logψ T hs => C18_heisenberg_grid rot pbc history C T hs logψ,
    fun _ rot pbc history logψ T hs => C18_heisenberg_chain rot pbc history C T hs logψ⟩

/-! ### Where the energy does not converge, or not to an energy -/

theorem two_spins (h j : ℝ) (ψ : Wave (Fin 2)) (s : Config (Fin 2)) :
    tfim (chainBonds 2 false) h j ψ s =
      -(j : ℂ) * (s 0 * s 1 * ψ s) - h * (ψ (Operators.flip 0 s) + ψ (Operators.flip 1 s)) := by
  unfold tfim
  rw [show chainBonds 2 false = [(0, 1)] by decide]
  simp only [List.map_cons, List.map_nil, List.sum_cons, List.sum_nil, add_zero, pauliZ, pauliX, Fin.sum_univ_two]
  ring

theorem sum_flip [DecidableEq ι] [Fintype ι] (i : ι) (f : Config ι → ℝ) :
    ∑ s ∈ allSpins ι, f (Operators.flip i s) = ∑ s ∈ allSpins ι, f s := by
  refine Finset.sum_bij (fun s _ => Operators.flip i s)
    (fun s hs => (mem_allSpins _).2 (flip_spin ((mem_allSpins s).1 hs) i)) ?_ ?_ fun _ _ => rfl
  · intro s _ t _ h
    rw [← Operators.flip_flip i s, h, Operators.flip_flip]
  · intro s hs
    exact ⟨Operators.flip i s, (mem_allSpins _).2 (flip_spin ((mem_allSpins s).1 hs) i), Operators.flip_flip i s⟩

/-- No wave function of two free spins in a field of one has an energy below minus two. -/
theorem two_spins_bound (φ : Wave (Fin 2)) (hφ : ∃ s, IsSpin s ∧ φ s ≠ 0) :
    -2 ≤ (rayleigh (tfim (chainBonds 2 false) 1 0) φ).re := by
  have hden : ∑ s ∈ allSpins (Fin 2), (starRingEnd ℂ) (φ s) * φ s = ((∑ s ∈ allSpins (Fin 2), ‖φ s‖ ^ 2 : ℝ) : ℂ) := by
    push_cast
    exact Finset.sum_congr rfl fun s _ => Complex.conj_mul' _
  obtain ⟨s0, hs0, hne⟩ := hφ
  have hpos : 0 < ∑ s ∈ allSpins (Fin 2), ‖φ s‖ ^ 2 :=
    Finset.sum_pos' (fun _ _ => by positivity) ⟨s0, (mem_allSpins _).2 hs0, by positivity⟩
  unfold rayleigh
  rw [hden, Complex.div_ofReal_re, le_div_iff₀ hpos, Complex.re_sum]
  have hterm : ∀ s : Config (Fin 2), -(‖φ s‖ ^ 2 + (‖φ (Operators.flip 0 s)‖ ^ 2 + ‖φ (Operators.flip 1 s)‖ ^ 2) / 2) ≤
      ((starRingEnd ℂ) (φ s) * tfim (chainBonds 2 false) 1 0 φ s).re := by
    intro s
    rw [two_spins]
    have hb : ∀ a b : ℂ, ((starRingEnd ℂ) a * b).re ≤ (‖a‖ ^ 2 + ‖b‖ ^ 2) / 2 := by
      intro a b
      have h1 : ((starRingEnd ℂ) a * b).re ≤ ‖a‖ * ‖b‖ := by
        refine (Complex.re_le_norm _).trans ?_
        rw [norm_mul, RCLike.norm_conj]
      nlinarith [sq_nonneg (‖a‖ - ‖b‖)]
    have h0 := hb (φ s) (φ (Operators.flip 0 s))
    have h1 := hb (φ s) (φ (Operators.flip 1 s))
    have hre : ((starRingEnd ℂ) (φ s) * (-((0 : ℝ) : ℂ) * (s 0 * s 1 * φ s) -
        ((1 : ℝ) : ℂ) * (φ (Operators.flip 0 s) + φ (Operators.flip 1 s)))).re =
        -((starRingEnd ℂ) (φ s) * φ (Operators.flip 0 s)).re - ((starRingEnd ℂ) (φ s) * φ (Operators.flip 1 s)).re := by
      have : (starRingEnd ℂ) (φ s) * (-((0 : ℝ) : ℂ) * (s 0 * s 1 * φ s) -
        ((1 : ℝ) : ℂ) * (φ (Operators.flip 0 s) + φ (Operators.flip 1 s))) =
        -((starRingEnd ℂ) (φ s) * φ (Operators.flip 0 s)) - ((starRingEnd ℂ) (φ s) * φ (Operators.flip 1 s)) := by
        push_cast; ring
      rw [this, Complex.sub_re, Complex.neg_re]
    rw [hre]
    linarith
  refine le_trans ?_ (Finset.sum_le_sum fun s _ => hterm s)
  have h0 := sum_flip (ι := Fin 2) 0 fun s => ‖φ s‖ ^ 2
  have h1 := sum_flip (ι := Fin 2) 1 fun s => ‖φ s‖ ^ 2
  rw [Finset.sum_neg_distrib, Finset.sum_add_distrib, ← Finset.sum_div, Finset.sum_add_distrib, h0, h1]
  linarith

/-- The places of an array of two spins. -/
abbrev TwoIdx : Type := Idx fun _ : Fin 1 => 2

/-- The array of two spins as the samplers and the operator see it. -/
def twoSites : Idx (fun _ : Fin 1 => 2) ≃ Fin 2 := Equiv.funUnique (Fin 1) (Fin 2)

/-- **C134** is violated by exchange moves and the Ising model, a combination that is accepted without complaint: the
connections leave the sector of the chains, and the reported energy converges to values below every bound, though no
wave function has an energy below minus two. -/
theorem C134_violated_exchange_ising (hC : 0 < C) (K : ℝ) :
    ∃ (logψ : Config (Fin 2) → ℂ) (E : ℝ), E < K ∧
      EnergyConverges (C := C) twoSites (exchangeTransition fun s => logψ (view twoSites s)) (sector 0)
        (isingChainEstimate 2 1 0 false logψ) E ∧
      ∀ φ : Wave (Fin 2), (∃ s, IsSpin s ∧ φ s ≠ 0) → -2 ≤ (rayleigh (tfim (chainBonds 2 false) 1 0) φ).re := by
  set x : ℝ := |K| with hx
  set logψ : Config (Fin 2) → ℂ := fun s => if s 0 = s 1 then (x : ℂ) else 0 with hlog
  have hlim := energy_converges (C := C) hC twoSites (tfim (chainBonds 2 false) 1 0) logψ _ _ (sector_subset 0)
    (C87_exchange (fun _ => two_pos) _ fun _ => 0) (exchange_confined _ 0) (isingChainEstimate 2 1 0 false logψ)
    fun T hs => C18_ising_chain 1 0 false T hs logψ
  refine ⟨logψ, -2 * Real.exp x, ?_, ?_, two_spins_bound⟩
  · have := Real.add_one_le_exp x
    have h2 : -K ≤ x := neg_le_abs K
    have h3 : 0 ≤ x := abs_nonneg K
    nlinarith
  have hel : ∀ s ∈ sector (ι := Idx fun _ : Fin 1 => 2) 0,
      localEnergy (tfim (chainBonds 2 false) 1 0) logψ (view twoSites s) = ((-2 * Real.exp x : ℝ) : ℂ) := by
    intro s hs
    rw [mem_sector, ← magnetization_view twoSites] at hs
    have hsp := view_spin twoSites hs.1
    have hm := hs.2
    generalize view twoSites s = t at hsp hm
    have hne : t 0 ≠ t 1 := by
      unfold magnetization at hm
      rw [Fin.sum_univ_two] at hm
      rcases hsp 0 with h | h <;> rcases hsp 1 with h' | h' <;> omega
    have hf0 : Operators.flip 0 t 0 = Operators.flip 0 t 1 := by
      simp only [Operators.flip, Function.update_self]
      rw [Function.update_of_ne (by decide)]
      rcases hsp 0 with h | h <;> rcases hsp 1 with h' | h' <;> omega
    have hf1 : Operators.flip 1 t 0 = Operators.flip 1 t 1 := by
      simp only [Operators.flip, Function.update_self]
      rw [Function.update_of_ne (by decide)]
      rcases hsp 0 with h | h <;> rcases hsp 1 with h' | h' <;> omega
    unfold localEnergy
    rw [two_spins]
    simp only [hlog, if_neg hne, if_pos hf0, if_pos hf1, Complex.exp_zero]
    push_cast
    ring
  convert hlim using 1
  rw [Finset.sum_congr rfl fun s hs => by rw [hel s hs], ← Finset.sum_mul, mul_div_cancel_left₀]
  rw [← Complex.ofReal_sum]
  have hpos : 0 < ∑ s ∈ sector (ι := Idx fun _ : Fin 1 => 2) 0, ‖Complex.exp (logψ (view twoSites s))‖ ^ 2 := by
    refine Finset.sum_pos (fun s _ => by have := Complex.exp_ne_zero (logψ (view twoSites s)); positivity) ?_
    refine ⟨fun i => if twoSites i = 0 then 1 else -1, ?_⟩
    rw [mem_sector, ← magnetization_view twoSites]
    refine ⟨fun i => by dsimp only; split; exact Or.inl rfl; exact Or.inr rfl, ?_⟩
    unfold magnetization view
    rw [Fin.sum_univ_two]
    simp
  exact_mod_cast hpos.ne'

/-- **C134** is violated by local moves if all amplitudes have the same modulus, as for a network whose weights are
zero: for two spins the energy of a chain alternates between two values and does not converge to any number. -/
theorem C134_violated_local (E : ℂ) :
    ¬ EnergyConverges (C := 1) twoSites (localTransition fun s => (fun _ => 0 : Config (Fin 2) → ℂ) (view twoSites s))
      (allSpins _) (isingChainEstimate 2 0 1 false fun _ => 0) E := by
  classical
  rintro ⟨reported, hrep, hlim⟩
  set ψ : Config TwoIdx → ℂ := fun s => (fun _ => 0 : Config (Fin 2) → ℂ) (view twoSites s) with hψ
  have hval : ∀ T : Fin 1 → Config TwoIdx, (∀ c, IsSpin (T c)) → reported T = -((∏ i, T 0 i : ℤ) : ℂ) := by
    intro T hs
    obtain ⟨v, l, h1⟩ := hrep T hs
    obtain ⟨v', h2⟩ := (C18_ising_chain 0 1 false (fun c => view twoSites (T c)) (fun c => view_spin twoSites (hs c))
      (fun _ => 0)).values
    have h3 := h1.symm.trans h2
    rw [Option.some.injEq, Prod.mk.injEq] at h3
    rw [h3.1]
    have hprod : ∏ i, T 0 i = view twoSites (T 0) 0 * view twoSites (T 0) 1 := by
      rw [← Fin.prod_univ_two (fun i => view twoSites (T 0) i)]
      exact (twoSites.symm.prod_comp fun i => T 0 i).symm
    rw [Fin.sum_univ_one, two_spins, hprod]
    push_cast
    simp
  have hone : ∀ (s : Config TwoIdx) (f : Config TwoIdx → ℂ), IsSpin s →
      ∑ z ∈ allSpins TwoIdx, (symKernel ψ (fun r : TwoIdx => Operators.flip r) s z : ℂ) * f z =
        (∑ r : TwoIdx, f (Operators.flip r s)) / (Fintype.card TwoIdx : ℂ) := by
    intro s f hs
    have hw : ∀ r : TwoIdx, min (weight ψ (Operators.flip r s) / weight ψ s) 1 = 1 := by
      intro r
      have : weight ψ (Operators.flip r s) = weight ψ s := rfl
      rw [this, div_self (weight_pos ψ s).ne', min_self]
    have hk : ∀ z, (symKernel ψ (fun r : TwoIdx => Operators.flip r) s z : ℂ) =
        (∑ r : TwoIdx, if Operators.flip r s = z then (1 : ℂ) else 0) / (Fintype.card TwoIdx : ℂ) := by
      intro z
      unfold symKernel kernel
      dsimp only
      rw [Complex.ofReal_div, Complex.ofReal_sum, Complex.ofReal_natCast]
      congr 1
      refine Finset.sum_congr rfl fun r _ => ?_
      rw [hw]
      unfold stepProb
      rw [sub_self, ite_self, add_zero]
      split <;> simp
    simp only [hk, div_mul_eq_mul_div, ← Finset.sum_div, Finset.sum_mul]
    congr 1
    rw [Finset.sum_comm]
    refine Finset.sum_congr rfl fun r _ => ?_
    simp only [ite_mul, one_mul, zero_mul]
    rw [Finset.sum_ite_eq, if_pos ((mem_allSpins _).2 (flip_spin hs r))]
  have hcard : (Fintype.card TwoIdx : ℂ) ≠ 0 := by
    have : Fintype.card TwoIdx ≠ 0 := Fintype.card_ne_zero (α := TwoIdx)
    exact_mod_cast this
  have hsteps : ∀ (n : ℕ) (s : Config TwoIdx), IsSpin s →
      ∑ t ∈ allSpins TwoIdx, (steps (allSpins TwoIdx) (symKernel ψ fun r : TwoIdx => Operators.flip r) n s t : ℂ) * ((∏ i, t i : ℤ) : ℂ) =
        (-1) ^ n * ((∏ i, s i : ℤ) : ℂ) := by
    intro n
    induction n with
    | zero =>
      intro s hs
      rw [Finset.sum_eq_single s]
      · simp [steps]
      · intro t _ ht
        simp [steps, ht.symm]
      · intro h
        exact absurd ((mem_allSpins s).2 hs) h
    | succ n ih =>
      intro s hs
      simp only [steps, Complex.ofReal_sum, Complex.ofReal_mul, Finset.sum_mul]
      rw [Finset.sum_comm]
      have h1 : ∀ z ∈ allSpins TwoIdx, ∑ t ∈ allSpins TwoIdx, (symKernel ψ (fun r : TwoIdx => Operators.flip r) s z : ℂ) *
          (steps (allSpins TwoIdx) (symKernel ψ fun r : TwoIdx => Operators.flip r) n z t : ℂ) * ((∏ i, t i : ℤ) : ℂ) =
          (symKernel ψ (fun r : TwoIdx => Operators.flip r) s z : ℂ) * ((-1) ^ n * ((∏ i, z i : ℤ) : ℂ)) := by
        intro z hz
        rw [← ih z ((mem_allSpins z).1 hz), Finset.mul_sum]
        exact Finset.sum_congr rfl fun t _ => by ring
      rw [Finset.sum_congr rfl h1, hone s _ hs]
      simp only [prod_flip]
      rw [Finset.sum_const, Finset.card_univ, nsmul_eq_mul, mul_div_cancel_left₀ _ hcard]
      push_cast
      ring
  set S : Fin 1 → Config TwoIdx := fun _ _ => 1 with hS
  have hSs : ∀ c, IsSpin (S c) := fun _ _ => Or.inl rfl
  have hl := hlim S fun c => (mem_allSpins _).2 (hSs c)
  have heq : ∀ n, ∑ T ∈ Fintype.piFinset fun _ : Fin 1 => allSpins TwoIdx, (afterSweeps (localTransition ψ) n S T : ℂ) * reported T =
      -(-1) ^ n := by
    intro n
    have h1 : ∀ T ∈ Fintype.piFinset fun _ : Fin 1 => allSpins TwoIdx, (afterSweeps (localTransition ψ) n S T : ℂ) * reported T =
        (fun t : Config TwoIdx => -((steps (allSpins TwoIdx) (symKernel ψ fun r : TwoIdx => Operators.flip r) n (S 0) t : ℂ) *
          ((∏ i, t i : ℤ) : ℂ))) (T 0) := by
      intro T hT
      rw [Fintype.mem_piFinset] at hT
      rw [hval T fun c => (mem_allSpins _).1 (hT c), afterSweeps_prod (local_product ψ), Fin.prod_univ_one]
      ring
    rw [Finset.sum_congr rfl h1]
    have h2 : ∑ T ∈ Fintype.piFinset fun _ : Fin 1 => allSpins TwoIdx, (fun t : Config TwoIdx =>
        -((steps (allSpins TwoIdx) (symKernel ψ fun r : TwoIdx => Operators.flip r) n (S 0) t : ℂ) * ((∏ i, t i : ℤ) : ℂ))) (T 0) =
        ∑ t ∈ allSpins TwoIdx, -((steps (allSpins TwoIdx) (symKernel ψ fun r : TwoIdx => Operators.flip r) n (S 0) t : ℂ) *
          ((∏ i, t i : ℤ) : ℂ)) := by
      refine Finset.sum_bij (fun T _ => T 0) ?_ ?_ ?_ fun _ _ => rfl
      · intro T hT
        exact Fintype.mem_piFinset.1 hT 0
      · intro T _ T' _ h
        funext c
        rw [Subsingleton.elim c 0]
        exact h
      · intro t ht
        exact ⟨fun _ => t, Fintype.mem_piFinset.2 fun _ => ht, rfl⟩
    rw [h2, Finset.sum_neg_distrib, hsteps n (S 0) (hSs 0)]
    simp [hS]
  simp only [heq] at hl
  have he := hl.comp (tendsto_atTop_mono (fun n => by omega : ∀ n : ℕ, n ≤ 2 * n) tendsto_id)
  have ho := hl.comp (tendsto_atTop_mono (fun n => by omega : ∀ n : ℕ, n ≤ 2 * n + 1) tendsto_id)
  have h1 : ((fun n : ℕ => -(-1 : ℂ) ^ n) ∘ fun n => 2 * n) = fun _ => -1 := by
    funext n; simp [pow_mul]
  have h2 : ((fun n : ℕ => -(-1 : ℂ) ^ n) ∘ fun n => 2 * n + 1) = fun _ => 1 := by
    funext n; simp [pow_mul, pow_succ]
  rw [h1] at he
  rw [h2] at ho
  have e1 := tendsto_nhds_unique he tendsto_const_nhds
  have e2 := tendsto_nhds_unique ho tendsto_const_nhds
  rw [e1] at e2
  norm_num at e2

/-- The hypotheses of `C134_local_partial` can be met. -/
example : ∃ (logψ : Config (Fin 2) → ℂ) (s t : Config (Fin 2)), IsSpin s ∧ IsSpin t ∧
    ‖Complex.exp (logψ s)‖ ≠ ‖Complex.exp (logψ t)‖ := by
  refine ⟨fun s => ((s 0 : ℤ) : ℂ), fun _ => 1, fun _ => -1, fun _ => Or.inl rfl, fun _ => Or.inr rfl, ?_⟩
  rw [Complex.norm_exp, Complex.norm_exp]
  intro h
  have := Real.exp_injective h
  norm_num at this

end Verif.Metropolis
