import Verif.Training.AnySampler
import Verif.Training.MiniBatchSize
import Verif.Optimizers.Reconfiguration
import Verif.Energy.J1J2

/-!
# C164: the order of the samples in a batch does not matter

Samplers return their samples in some order: chain by chain, sweep by sweep, worker by worker. Reports and weights do not depend on
it; local energies and training targets go with their samples.
-/
namespace Verif.Training

open Verif.Operators Verif.Energy Verif.Optimizers Verif.Optimizers.SR
open Verif.Energy.Exact (vmcCoefficients)

variable {ι : Type} [Fintype ι] [DecidableEq ι]

/-! ### Specification -/

/-- The list `l'` has the entries of `l`, each at the place to which `π` moved its sample. -/
def Reordered {B : Nat} (π : Equiv.Perm (Fin B)) (l l' : List ℂ) : Prop :=
  l.length = B ∧ l'.length = B ∧ ∀ b : Fin B, l'[b.val]? = l[(π b).val]?

/-- What C164 says of an operator with its estimator (`est`: mean, variance, local values) and its training targets. -/
structure OrderFree (est : (B : Nat) → (Config ι → ℂ) → (Fin B → Config ι) → Option (ℂ × ℝ × List ℂ))
    (targets : (B : Nat) → (Config ι → ℂ) → (Fin B → Config ι) → Option (List ℂ)) : Prop where
  /-- The reported energy and variance are the same, local energies go with their samples. -/
  reports : ∀ (B : Nat), 0 < B → ∀ (logψ : Config ι → ℂ) (x : Fin B → Config ι), (∀ b, IsSpin (x b)) → ∀ π : Equiv.Perm (Fin B),
    ∃ e v lv lv', est B logψ x = some (e, v, lv) ∧ est B logψ (fun b => x (π b)) = some (e, v, lv') ∧ Reordered π lv lv'
  /-- Training targets go with their samples. -/
  follow : ∀ (B : Nat), 0 < B → ∀ (logψ : Config ι → ℂ) (x : Fin B → Config ι), (∀ b, IsSpin (x b)) → ∀ π : Equiv.Perm (Fin B),
    ∃ c c', targets B logψ x = some c ∧ targets B logψ (fun b => x (π b)) = some c' ∧ Reordered π c c'
  /-- Two runs of training, with any optimizer, whose samplers return the same samples in different orders (which may change from
  batch to batch) have the same weights after every batch. -/
  training : ∀ (Ω Opt G : Type) [Inhabited Ω] [AddCommGroup G] [Module ℝ G] (n B : Nat) (o : Optimizer Opt G (Fin n → ℝ)) (cfg : AccConfig)
    (net : (Fin n → ℝ) → Config ι → ℂ) (g : (Fin n → ℝ) → Config ι × ℂ → G) (S S' : (Fin n → ℝ) → Ω → Fin B → Config ι),
    (∀ θ u b, IsSpin (S θ u b)) → (∀ θ u, ∃ π : Equiv.Perm (Fin B), ∀ b, S' θ u b = S θ u (π b)) →
    ∀ (gen : MBState Unit (Config ι × ℂ)) (mini : Option Nat) (opt : Opt) (st0 : LoopState Opt G (Fin n → ℝ) Unit (Config ι × ℂ)),
    setupLoop (fun _ => B) gen () mini opt = some st0 → mini.getD B ∣ B → ∀ (us : List Ω) (q : Nat),
    (fitGenerator o cfg g (drawFrom targets net S us) (q * (B / mini.getD B)) st0).acc.opt =
      (fitGenerator o cfg g (drawFrom targets net S' us) (q * (B / mini.getD B)) st0).acc.opt
  /-- A step of stochastic reconfiguration is the same, with either solver. `D s p` is the derivative of the output of the network
  for the configuration `s` by weight `p`. -/
  reconfiguration : ∀ (B : Nat), 0 < B → ∀ (logψ : Config ι → ℂ) (x : Fin B → Config ι), (∀ b, IsSpin (x b)) → ∀ π : Equiv.Perm (Fin B),
    ∃ c c', targets B logψ x = some c ∧ targets B logψ (fun b => x (π b)) = some c' ∧
      ∀ (P : Nat) (D : Config ι → Fin P → ℂ) (lr shift : ℝ) (m : ComplexModel),
        getUpdatesDirect lr shift m (fun b : Fin B => D (x (π b))) (fun b => c'.getD b 0) =
          getUpdatesDirect lr shift m (fun b : Fin B => D (x b)) (fun b => c.getD b 0) ∧
        ∀ tol maxIter m', UpdatesIterative lr shift tol maxIter m (fun b : Fin B => D (x (π b))) (fun b => c'.getD b 0) m' ↔
          UpdatesIterative lr shift tol maxIter m (fun b : Fin B => D (x b)) (fun b => c.getD b 0) m'

/-! ### Proofs -/

theorem mean_perm {l l' : List ℂ} (h : l.Perm l') : mean l = mean l' := by
  unfold mean
  rw [h.sum_eq, h.length_eq]

theorem variance_perm {l l' : List ℝ} (h : l.Perm l') : variance l = variance l' := by
  unfold variance
  rw [h.sum_eq, h.length_eq, (h.map _).sum_eq]

theorem finRange_perm {B : Nat} {α : Type} (π : Equiv.Perm (Fin B)) (f : Fin B → α) :
    ((List.finRange B).map fun b => f (π b)).Perm ((List.finRange B).map f) := by
  have := (Equiv.Perm.map_finRange_perm π).map f
  rwa [List.map_map] at this

theorem reordered_map {B : Nat} (π : Equiv.Perm (Fin B)) (f : Fin B → ℂ) :
    Reordered π ((List.finRange B).map f) ((List.finRange B).map fun b => f (π b)) :=
  ⟨by simp, by simp, fun b => by simp⟩

theorem wholeBatches_perm {Opt G P α : Type} [AddCommGroup G] [Module ℝ G] (o : Optimizer Opt G P) (g : P → α → G)
    (d d' : P → Nat → List α) (h : ∀ p k, (d p k).Perm (d' p k)) (scale : ℝ) (opt : Opt) (q : Nat) :
    wholeBatches o g d scale opt q = wholeBatches o g d' scale opt q := by
  induction q with
  | zero => rfl
  | succ q ih =>
    simp only [wholeBatches]
    rw [ih, (h _ q).length_eq, ((h _ q).map _).sum_eq]

theorem minusMean_perm {B P : Nat} (π : Equiv.Perm (Fin B)) (J : Matrix (Fin B) (Fin P) ℂ) :
    minusMean (J.submatrix π id) = (minusMean J).submatrix π id := by
  ext b p
  simp only [minusMean, Matrix.submatrix_apply, id]
  rw [Equiv.sum_comp π fun b => J b p]

theorem sMatrix_perm {B P : Nat} (π : Equiv.Perm (Fin B)) (O : Matrix (Fin B) (Fin P) ℂ) (shift : ℝ) :
    sMatrix (O.submatrix π id) shift = sMatrix O shift := by
  unfold sMatrix covariance
  congr 2
  ext p q
  simp only [Matrix.mul_apply, Matrix.conjTranspose_apply, Matrix.submatrix_apply, id]
  exact Equiv.sum_comp π fun b => star (O b p) * O b q

theorem energyGrad_perm {B P : Nat} (π : Equiv.Perm (Fin B)) (O : Matrix (Fin B) (Fin P) ℂ) (t : Fin B → ℂ) :
    energyGrad (O.submatrix π id) (fun b => t (π b)) = energyGrad O t := by
  funext p
  unfold energyGrad
  simp only [Matrix.mulVec, dotProduct, Matrix.conjTranspose_apply, Matrix.submatrix_apply, id]
  exact Equiv.sum_comp π fun b => star (O b p) * (starRingEnd ℂ) (t b)

theorem productOp_perm {B P : Nat} (π : Equiv.Perm (Fin B)) (O : Matrix (Fin B) (Fin P) ℂ) (shift : ℝ) :
    productOp (O.submatrix π id) shift = productOp O shift := by
  refine LinearMap.ext fun v => ?_
  have h1 := product_eq (O.submatrix π id) shift v
  have h2 := product_eq O shift v
  rw [sMatrix_perm] at h1
  exact h1.trans h2.symm

theorem solve_perm {B P : Nat} (π : Equiv.Perm (Fin B)) (O : Matrix (Fin B) (Fin P) ℂ) (shift : ℝ) :
    solveDirectly (O.submatrix π id) shift = solveDirectly O shift := by
  funext v
  unfold solveDirectly
  rw [sMatrix_perm]

theorem direct_perm {B P : Nat} (π : Equiv.Perm (Fin B)) (J : Matrix (Fin B) (Fin P) ℂ) (t : Fin B → ℂ) (lr shift : ℝ) (m : ComplexModel) :
    getUpdatesDirect lr shift m (J.submatrix π id) (fun b => t (π b)) = getUpdatesDirect lr shift m J t := by
  unfold getUpdatesDirect
  dsimp only
  rw [minusMean_perm, solve_perm, energyGrad_perm]

theorem iterative_perm {B P : Nat} (π : Equiv.Perm (Fin B)) (J : Matrix (Fin B) (Fin P) ℂ) (t : Fin B → ℂ) (lr shift tol : ℝ)
    (maxIter : Nat) (m m' : ComplexModel) :
    UpdatesIterative lr shift tol maxIter m (J.submatrix π id) (fun b => t (π b)) m' ↔ UpdatesIterative lr shift tol maxIter m J t m' := by
  unfold UpdatesIterative IterativeReturns
  rw [minusMean_perm, productOp_perm, energyGrad_perm]

omit [Fintype ι] [DecidableEq ι] in
theorem orderFree_of_values {H : Wave ι → Wave ι}
    {est : (B : Nat) → (Config ι → ℂ) → (Fin B → Config ι) → Option (ℂ × ℝ × List ℂ)}
    {targets : (B : Nat) → (Config ι → ℂ) → (Fin B → Config ι) → Option (List ℂ)}
    (he : ∀ B, 0 < B → ∀ logψ x, (∀ b, IsSpin (x b)) → est B logψ x =
      some (mean ((List.finRange B).map fun b => localEnergy H logψ (x b)),
        variance (((List.finRange B).map fun b => localEnergy H logψ (x b)).map Complex.re),
        (List.finRange B).map fun b => localEnergy H logψ (x b)))
    (ht : ∀ B, 0 < B → ∀ logψ x, (∀ b, IsSpin (x b)) → targets B logψ x = some ((List.finRange B).map fun b =>
      (starRingEnd ℂ) (localEnergy H logψ (x b) - mean ((List.finRange B).map fun b => localEnergy H logψ (x b))) / (B : ℂ))) :
    OrderFree est targets := by
  have hmean : ∀ B (logψ : Config ι → ℂ) (x : Fin B → Config ι) (π : Equiv.Perm (Fin B)),
      mean ((List.finRange B).map fun b => localEnergy H logψ (x (π b))) = mean ((List.finRange B).map fun b => localEnergy H logψ (x b)) :=
    fun B logψ x π => mean_perm (finRange_perm π fun b => localEnergy H logψ (x b))
  refine ⟨fun B hB logψ x hx π => ?_, fun B hB logψ x hx π => ?_, ?_, fun B hB logψ x hx π => ?_⟩
  · refine ⟨_, _, _, _, he B hB logψ x hx, ?_, reordered_map π fun b => localEnergy H logψ (x b)⟩
    rw [he B hB logψ _ fun b => hx (π b), hmean]
    rw [variance_perm ((finRange_perm π fun b => localEnergy H logψ (x b)).map Complex.re)]
  · refine ⟨_, _, ht B hB logψ x hx, ?_, reordered_map π fun b =>
      (starRingEnd ℂ) (localEnergy H logψ (x b) - mean ((List.finRange B).map fun b => localEnergy H logψ (x b))) / (B : ℂ)⟩
    rw [ht B hB logψ _ fun b => hx (π b), hmean]
  · intro Ω Opt G _ _ _ n B o cfg net g S S' hS hS' gen mini opt st0 h0 hdvd us q
    have hB : 0 < B := by
      obtain ⟨f, hf, hm, hBf, -⟩ := setup_between (fun _ : Unit => B) gen () mini opt st0 h0 hdvd
      rw [hBf]
      exact Nat.mul_pos hf hm
    have hspin : ∀ θ u b, IsSpin (S' θ u b) := fun θ u b => by
      obtain ⟨π, hπ⟩ := hS' θ u
      rw [hπ]
      exact hS θ u _
    have hdraw : ∀ (T : (Fin n → ℝ) → Ω → Fin B → Config ι), (∀ θ u b, IsSpin (T θ u b)) → ∀ θ k, drawFrom targets net T us θ () k =
        (List.finRange B).map fun b => (T θ (us.getD k default) b, (starRingEnd ℂ) (localEnergy H (net θ) (T θ (us.getD k default) b) -
          mean ((List.finRange B).map fun b => localEnergy H (net θ) (T θ (us.getD k default) b))) / (B : ℂ)) := by
      intro T hT θ k
      unfold drawFrom
      rw [ht B hB (net θ) _ (hT θ _)]
      dsimp only
      refine List.map_congr_left fun b _ => ?_
      rw [List.getD_eq_getElem?_getD]
      simp
    have hperm : ∀ θ k, (drawFrom targets net S us θ () k).Perm (drawFrom targets net S' us θ () k) := by
      intro θ k
      obtain ⟨π, hπ⟩ := hS' θ (us.getD k default)
      rw [hdraw S hS, hdraw S' hspin]
      simp only [hπ]
      rw [hmean]
      exact (finRange_perm π fun b => (S θ (us.getD k default) b, (starRingEnd ℂ) (localEnergy H (net θ) (S θ (us.getD k default) b) -
        mean ((List.finRange B).map fun b => localEnergy H (net θ) (S θ (us.getD k default) b))) / (B : ℂ))).symm
    have hrun : ∀ (T : (Fin n → ℝ) → Ω → Fin B → Config ι), (∀ θ u b, IsSpin (T θ u b)) →
        (fitGenerator o cfg g (drawFrom targets net T us) (q * (B / mini.getD B)) st0).acc.opt =
          wholeBatches o g (fun p k => drawFrom targets net T us p () (gen.drawn + k))
            (if cfg.accumulateSum then ((B / mini.getD B : Nat) : ℝ) else 1) opt q := by
      intro T hT
      have hlen : ∀ p k, (drawFrom targets net T us p () k).length = B := fun p k => by rw [hdraw T hT]; simp
      by_cases hc : cfg.accumulateSum = true
      · rw [if_pos hc]
        exact C90_sum_scales o cfg hc g (drawFrom targets net T us) (fun _ => B) gen () mini opt st0 h0 hdvd hlen q
      · rw [if_neg hc]
        exact C90_mean_partial o cfg (by simpa using hc) g (drawFrom targets net T us) (fun _ => B) gen () mini opt st0 h0 hdvd hlen q
    rw [hrun S hS, hrun S' hspin]
    exact wholeBatches_perm o g _ _ (fun p k => hperm p _) _ _ _
  · set t : Fin B → ℂ := fun b =>
      (starRingEnd ℂ) (localEnergy H logψ (x b) - mean ((List.finRange B).map fun b => localEnergy H logψ (x b))) / (B : ℂ) with htd
    refine ⟨(List.finRange B).map t, (List.finRange B).map fun b => t (π b), ht B hB logψ x hx, ?_, fun P D lr shift m => ?_⟩
    · rw [ht B hB logψ _ fun b => hx (π b), hmean]
    · have h1 : ∀ f : Fin B → ℂ, (fun b : Fin B => ((List.finRange B).map f).getD b 0) = f := fun f => by
        funext b
        rw [List.getD_eq_getElem?_getD]
        simp
      rw [h1, h1]
      exact ⟨direct_perm π (fun b => D (x b)) t lr shift m, fun tol maxIter m' => iterative_perm π (fun b => D (x b)) t lr shift tol maxIter m m'⟩

theorem orderFree_of {H : Wave ι → Wave ι} {R : Nat} (ans : (B : Nat) → (Fin B → Config ι) → Answer (Config ι) R B)
    (hE : ∀ B (sample : Fin B → Config ι), (∀ b, IsSpin (sample b)) → ∀ logψ,
      LocalEnergies H sample logψ (estimate logψ (ans B sample))) :
    OrderFree (fun B logψ sample => estimate logψ (ans B sample)) fun B logψ sample => vmcCoefficients B logψ (ans B sample) := by
  have hl : ∀ B (logψ : Config ι → ℂ) (x : Fin B → Config ι), (∀ b, IsSpin (x b)) →
      localValues logψ (ans B x) = some ((List.finRange B).map fun b => localEnergy H logψ (x b)) := by
    intro B logψ x hx
    obtain ⟨v, hv⟩ := (hE B x hx logψ).values
    unfold estimate at hv
    cases h : localValues logψ (ans B x) with
    | none => rw [h] at hv; simp at hv
    | some lv =>
      rw [h] at hv
      simp only [Option.map_some, Option.some.injEq, Prod.mk.injEq] at hv
      rw [hv.2.2]
      rfl
  refine orderFree_of_values (H := H) (fun B _ logψ x hx => ?_) fun B _ logψ x hx => ?_
  · unfold estimate
    rw [hl B logψ x hx]
    rfl
  · unfold vmcCoefficients estimate
    rw [hl B logψ x hx]
    simp only [Option.map_some, List.map_map]
    rfl

/-- **C164** for the Ising model on chains. -/
theorem C164_ising_chain (n : Nat) (h j : ℝ) (pbc : Bool) :
    OrderFree (ι := Fin n)
      (fun _ logψ sample => estimate logψ (Answer.ofRows (n + 1) (isingFindConn1 (.float h) j pbc sample)
        fun b => by rw [isingFindConn1_eq]; simp))
      fun B logψ sample => vmcCoefficients B logψ (Answer.ofRows (n + 1) (isingFindConn1 (.float h) j pbc sample)
        fun b => by rw [isingFindConn1_eq]; simp) :=
  orderFree_of (fun _ sample => Answer.ofRows (n + 1) (isingFindConn1 (.float h) j pbc sample) fun b => by rw [isingFindConn1_eq]; simp)
    fun _ sample hs logψ => C18_ising_chain h j pbc sample hs logψ

/-- **C164** for the Ising model on grids. -/
theorem C164_ising_grid (n m : Nat) (h j : ℝ) (pbc : Bool) :
    OrderFree (ι := Fin n × Fin m)
      (fun _ logψ sample => estimate logψ (Answer.ofRows (n * m + 1) (isingFindConn2 (.float h) j pbc sample)
        fun b => by rw [isingFindConn2_eq]; simp [length_gridSites]))
      fun B logψ sample => vmcCoefficients B logψ (Answer.ofRows (n * m + 1) (isingFindConn2 (.float h) j pbc sample)
        fun b => by rw [isingFindConn2_eq]; simp [length_gridSites]) :=
  orderFree_of (fun _ sample => Answer.ofRows (n * m + 1) (isingFindConn2 (.float h) j pbc sample)
      fun b => by rw [isingFindConn2_eq]; simp [length_gridSites])
    fun _ sample hs logψ => C18_ising_grid h j pbc sample hs logψ

/-- **C164** for the Heisenberg model on grids, whatever calls of the operator came before. -/
theorem C164_heisenberg_grid (n m : Nat) (rot pbc : Bool) (history : List (Call n m)) :
    OrderFree (ι := Fin n × Fin m)
      (fun B logψ sample => estimate logψ (Answer.ofRows (n * m * 2 + 1) (((HeisOp.new2 n m rot pbc).run history).findConn B sample).2
        fun b => by rw [answer2]; exact length_heisRows _ _ _ (Or.inl rfl) _))
      fun B logψ sample => vmcCoefficients B logψ (Answer.ofRows (n * m * 2 + 1)
        (((HeisOp.new2 n m rot pbc).run history).findConn B sample).2
        fun b => by rw [answer2]; exact length_heisRows _ _ _ (Or.inl rfl) _) :=
  orderFree_of (fun B sample => Answer.ofRows (n * m * 2 + 1) (((HeisOp.new2 n m rot pbc).run history).findConn B sample).2
      fun b => by rw [answer2]; exact length_heisRows _ _ _ (Or.inl rfl) _)
    fun B sample hs logψ => C18_heisenberg_grid rot pbc history B sample hs logψ

/-- **C164** for the Heisenberg model on chains, whatever calls of the operator came before. -/
theorem C164_heisenberg_chain (n : Nat) (rot pbc : Bool) (history : List (Call n 1)) :
    OrderFree (ι := Fin n)
      (fun B logψ sample => estimate logψ (Answer.ofRows (n + 1) (((HeisOp.new1 n rot pbc).run history).findConn1 B sample).2
        fun b => by
          rw [(Exact.rowsOf_heisenberg_chain n rot pbc history).eq]
          exact (Exact.rowsOf_heisenberg_chain n rot pbc history).length _))
      fun B logψ sample => vmcCoefficients B logψ (Answer.ofRows (n + 1) (((HeisOp.new1 n rot pbc).run history).findConn1 B sample).2
        fun b => by
          rw [(Exact.rowsOf_heisenberg_chain n rot pbc history).eq]
          exact (Exact.rowsOf_heisenberg_chain n rot pbc history).length _) :=
  orderFree_of (fun B sample => Answer.ofRows (n + 1) (((HeisOp.new1 n rot pbc).run history).findConn1 B sample).2
      fun b => by
        rw [(Exact.rowsOf_heisenberg_chain n rot pbc history).eq]
        exact (Exact.rowsOf_heisenberg_chain n rot pbc history).length _)
    fun B sample hs logψ => C18_heisenberg_chain rot pbc history B sample hs logψ

open Verif.J1J2.Op in
/-- **C164** for J1-J2 on lattices of any size (periodic ones from three by three), whatever calls of the operator came before. -/
theorem C164_j1j2 (first : ℤ) (hf : first = 1 ∨ first = -1) {L1 L2 : Nat} (h1 : 0 < L1) (h2 : 0 < L2) (j2 : ℝ) (pbc : Bool)
    (hL : pbc = true → 3 ≤ L1 ∧ 3 ≤ L2) (history : List (List Netket.Conf)) :
    OrderFree (j1j2Estimate first L1 L2 j2 pbc history) (j1j2Targets first L1 L2 j2 pbc history) := by
  have hval := fun B (logψ : Config (Fin L1 × Fin L2) → ℂ) (x : Fin B → Config (Fin L1 × Fin L2)) (hx : ∀ b, IsSpin (x b)) =>
    clean_values first hf h1 h2 j2 pbc hL x hx logψ
  refine orderFree_of_values (H := hamiltonian L1 L2 pbc j2) (fun B hB logψ x hx => ?_) fun B hB logψ x hx => ?_
  · rw [estimate_clean first hf h1 h2 j2 pbc hL history hB x hx logψ]
    unfold estimate
    rw [hval B logψ x hx]
    rfl
  · rw [targets_clean first hf h1 h2 j2 pbc hL history hB x hx logψ]
    unfold vmcCoefficients estimate
    rw [hval B logψ x hx]
    simp only [Option.map_some, specLocal, List.map_map]
    rfl

/-! ### A case that meets the hypotheses -/

/-- Two samplers that return two spins up and two spins down in opposite orders, in mini-batches of two. -/
example : ∃ (S S' : (Fin 1 → ℝ) → Unit → Fin 4 → Config (Fin 1)) (st0 : LoopState (Fin 1 → ℝ) (Fin 1 → ℝ) (Fin 1 → ℝ) Unit (Config (Fin 1) × ℂ)),
    (∀ θ u b, IsSpin (S θ u b)) ∧ (∀ θ u, ∃ π : Equiv.Perm (Fin 4), ∀ b, S' θ u b = S θ u (π b)) ∧ (∀ θ u, S θ u ≠ S' θ u) ∧
    setupLoop (fun _ => 4) ⟨(), 1, 1, 1, 1, [], 0⟩ () (some 2) (0 : Fin 1 → ℝ) = some st0 ∧ (some 2).getD 4 ∣ 4 := by
  refine ⟨fun _ _ b _ => if b.val < 2 then 1 else -1, fun _ _ b _ => if (Fin.rev b).val < 2 then 1 else -1, _, fun _ _ b _ => ?_,
    fun _ _ => ⟨Fin.revPerm, fun b => rfl⟩, fun _ _ h => ?_, rfl, by decide⟩
  · dsimp only
    split
    · exact Or.inl rfl
    · exact Or.inr rfl
  · have := congrFun (congrFun h 0) 0
    simp at this

end Verif.Training
