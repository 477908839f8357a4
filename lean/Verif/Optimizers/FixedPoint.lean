import Verif.Optimizers.Downhill
import Verif.Energy.GeneratorProps

/-!
C133: training rests exactly at eigenstates.

The samples come from any sampler, so the batch ranges over all batches of spin configurations, and the Jacobian
used by the step of stochastic reconfiguration over all matrices.
-/
namespace Verif.Optimizers.SR

open Matrix ComplexOrder Verif.Operators Verif.Energy Verif.Energy.Exact

variable {B P : Nat}

/-! ### Steps with a zero gradient -/

theorem tensors_ext : ∀ l l' : List (Tensor ℂ), l.map Tensor.shape = l'.map Tensor.shape → (∀ t ∈ l, t.Valid) →
    (∀ t ∈ l', t.Valid) → l.flatMap Tensor.data = l'.flatMap Tensor.data → l = l'
  | [], [], _, _, _, _ => rfl
  | [], _ :: _, h, _, _, _ => by simp at h
  | _ :: _, [], h, _, _, _ => by simp at h
  | ⟨sh, d⟩ :: l, ⟨sh', d'⟩ :: l', h, v, v', hd => by
    simp only [List.map_cons, List.cons.injEq] at h
    obtain ⟨rfl, h⟩ := h
    have h1 : d.length = sh.prod := v _ (List.mem_cons_self ..)
    have h2 : d'.length = sh.prod := v' _ (List.mem_cons_self ..)
    simp only [List.flatMap_cons] at hd
    obtain ⟨rfl, h4⟩ := List.append_inj hd (h1.trans h2.symm)
    rw [tensors_ext l l' h (fun t ht => v t (List.mem_cons_of_mem _ ht)) (fun t ht => v' t (List.mem_cons_of_mem _ ht)) h4]

theorem weights_valid : ∀ rs is : List (Tensor ℝ), rs.map Tensor.shape = is.map Tensor.shape → (∀ t ∈ rs, t.Valid) →
    (∀ t ∈ is, t.Valid) → ∀ t ∈ List.zipWith complexWeight rs is, t.Valid
  | [], _, _, _, _ => by simp
  | _ :: _, [], _, _, _ => by simp
  | r :: rs, i :: is, h, v, v' => by
    simp only [List.map_cons, List.cons.injEq] at h
    intro t ht
    rw [List.zipWith_cons_cons, List.mem_cons] at ht
    rcases ht with rfl | ht
    · have h1 : r.data.length = r.shape.prod := v _ (List.mem_cons_self ..)
      have h2 : i.data.length = i.shape.prod := v' _ (List.mem_cons_self ..)
      show (List.zipWith _ r.data i.data).length = r.shape.prod
      rw [List.length_zipWith, h1, h2, h.1, min_self]
    · exact weights_valid rs is h.2 (fun t ht => v t (List.mem_cons_of_mem _ ht))
        (fun t ht => v' t (List.mem_cons_of_mem _ ht)) t ht

theorem weights_ext {m m' : ComplexModel} (hm : m.Valid) (hm' : m'.Valid)
    (hs : m'.weights.map Tensor.shape = m.weights.map Tensor.shape)
    (hd : m'.weights.flatMap Tensor.data = m.weights.flatMap Tensor.data) : m'.weights = m.weights :=
  tensors_ext _ _ hs (weights_valid _ _ hm'.1 hm'.2.1 hm'.2.2) (weights_valid _ _ hm.1 hm.2.1 hm.2.2) hd

theorem zero_gradient (lr : ℝ) (m : ComplexModel) (hm : m.Valid) (hP : P = ((m.weights.map Tensor.shape).map List.prod).sum) :
    ∃ m', applyComplexGradient lr m (List.ofFn fun p : Fin P => (0 : Fin P → ℂ) p * (-1)) = some m' ∧ m'.Valid ∧
      m'.weights = m.weights := by
  obtain ⟨m', h1, h2, h3, h4⟩ := C30_complex_update lr m hm (List.ofFn fun p : Fin P => (0 : Fin P → ℂ) p * (-1))
    (by rw [List.length_ofFn]; exact hP)
  refine ⟨m', h1, h2, weights_ext hm h2 h3 ?_⟩
  have hlen : (m.weights.flatMap Tensor.data).length = P := by
    obtain ⟨hs', hre, him⟩ := hm
    have hlen : m.real.length = m.imag.length := by simpa using congrArg List.length hs'
    have hws : m.weights.map Tensor.shape = m.real.map Tensor.shape := shape_complexWeight _ _ hlen
    rw [ComplexModel.weights, flatMap_complexWeight _ _ hs' hre him, List.length_zipWith,
      length_flatMap_valid _ hre, length_flatMap_valid _ him, ← hs', min_self, ← hws, hP]
    rfl
  rw [h4]
  refine List.ext_getElem (by rw [List.length_zipWith, List.length_ofFn, hlen, min_self]) fun i _ _ => ?_
  simp

theorem zero_iterative {J : Matrix (Fin B) (Fin P) ℂ} {shift tol : ℝ} {maxIter : ℕ} {s : CG.State P}
    (h : IterativeReturns (minusMean J) shift tol maxIter 0 (.ok (some s))) : s.x = 0 := by
  unfold IterativeReturns at h
  split at h
  · cases h
  obtain ⟨o, ho, h2⟩ := h
  cases ho
  have hr0 : (CG.init (productOp (minusMean J) shift) none (0 : CG.Vec P) none).r = 0 := rfl
  have hstop : ¬ CG.Continue (tol * CG.norm (0 : CG.Vec P)) (some maxIter)
      (CG.init (productOp (minusMean J) shift) none 0 none) := by
    rintro ⟨-, h⟩
    rw [hr0, CG.norm_eq_zero.2 rfl] at h
    simp at h
  unfold CG.Returns at h2
  rw [hr0] at h2
  have := CG.loop_unique h2 (CG.Loop.stop _ hstop)
  cases this
  rfl

/-- One step of stochastic reconfiguration with either solver. -/
inductive Step (lr shift : ℝ) (m : ComplexModel) (J : Matrix (Fin B) (Fin P) ℂ) (target : Fin B → ℂ) :
    ComplexModel → Prop
  | direct {m'} (h : getUpdatesDirect lr shift m J target = some m') : Step lr shift m J target m'
  | iterative {m'} (tol : ℝ) (maxIter : ℕ) (h : UpdatesIterative lr shift tol maxIter m J target m') :
      Step lr shift m J target m'

/-- **C133**, the step: if all targets of the batch are zero, a step of stochastic reconfiguration with either
solver leaves all weights as they are, for every Jacobian, learning rate, shift, tolerance and limit on the
iterations; and there is a result (with the direct solver: for a positive shift; with the iterative solver: for more
than one weight). -/
theorem C133_step (lr shift : ℝ) (m : ComplexModel) (hm : m.Valid)
    (hP : P = ((m.weights.map Tensor.shape).map List.prod).sum) (J : Matrix (Fin B) (Fin P) ℂ) :
    (∀ m', Step lr shift m J (fun _ => 0) m' → m'.Valid ∧ m'.weights = m.weights) ∧
    (0 < shift → ∃ m', getUpdatesDirect lr shift m J (fun _ => 0) = some m') ∧
    (0 < shift → P ≠ 1 → ∀ (tol : ℝ) (maxIter : ℕ), 0 ≤ tol → ∃ m', UpdatesIterative lr shift tol maxIter m J (fun _ => 0) m') := by
  have hg : energyGrad (minusMean J) (fun _ => 0) = 0 := by
    unfold energyGrad
    simp only [map_zero]
    exact mulVec_zero _
  obtain ⟨m0, h0, hv, hw⟩ := zero_gradient (P := P) lr m hm hP
  refine ⟨?_, ?_, ?_⟩
  · intro m' hs
    cases hs with
    | direct h =>
      unfold getUpdatesDirect at h
      dsimp only at h
      rw [hg] at h
      unfold solveDirectly at h
      split at h
      · rw [mulVec_zero, Option.bind_some, h0] at h
        cases h
        exact ⟨hv, hw⟩
      · cases h
    | iterative tol maxIter h =>
      obtain ⟨s, hs, h⟩ := h
      rw [hg] at hs
      rw [zero_iterative hs, h0] at h
      cases h
      exact ⟨hv, hw⟩
  · intro hs
    have hu : IsUnit (sMatrix (minusMean J) shift).det := (sMatrix_posDef (minusMean J) hs).det_pos.ne'.isUnit
    refine ⟨m0, ?_⟩
    unfold getUpdatesDirect
    dsimp only
    rw [hg, solveDirectly, if_pos hu, mulVec_zero, Option.bind_some, h0]
  · intro hs hP1 tol maxIter ht
    obtain ⟨s, h1, -⟩ := C32_iterative J hP1 shift tol hs ht maxIter 0
    refine ⟨m0, s, by rw [hg]; exact h1, ?_⟩
    rw [zero_iterative h1, h0]

/-! ### Targets of Monte Carlo batches -/

variable {ι : Type}

/-- The targets handed out for a batch of spin configurations and a network that returns the logarithms of the
amplitudes. -/
abbrev Targets (ι : Type) (B : Nat) : Type :=
  (sample : Fin B → Config ι) → (∀ b, IsSpin (sample b)) → (Config ι → ℂ) → Option (List ℂ)

/-- The network is an eigenstate of `H` (with a complex eigenvalue, which is real for Hermitian `H`). -/
def IsEigenstate (H : Wave ι → Wave ι) (net : Config ι → ℂ) : Prop :=
  ∃ E : ℂ, ∀ s, IsSpin s → H (fun s => Complex.exp (net s)) s = E * Complex.exp (net s)

/-- What C133 demands of the targets. -/
structure RestsAtEigenstates (H : Wave ι → Wave ι) (targets : Targets ι B) : Prop where
  /-- For an eigenstate the targets of every batch are zero. -/
  rests : ∀ net, IsEigenstate H net → ∀ sample hs, targets sample hs net = some (List.replicate B 0)
  /-- For every other network some batch has a target different from zero. -/
  moves : ∀ net, ¬ IsEigenstate H net → ∃ sample hs c, targets sample hs net = some c ∧ ∃ x ∈ c, x ≠ 0

/-- The first half of `RestsAtEigenstates`. -/
def Rests (H : Wave ι → Wave ι) (targets : Targets ι B) : Prop :=
  ∀ net, IsEigenstate H net → ∀ sample hs, targets sample hs net = some (List.replicate B 0)

theorem coefficients_eq {R : Nat} (H : Wave ι → Wave ι) (net : Config ι → ℂ) (sample : Fin B → Config ι)
    (a : Answer (Config ι) R B)
    (h : localValues net a = some (specLocal H (fun s => Complex.exp (net s)) sample)) :
    let e : Fin B → ℂ := fun b => H (fun s => Complex.exp (net s)) (sample b) / Complex.exp (net (sample b))
    vmcCoefficients B net a = some ((List.finRange B).map fun b => (starRingEnd ℂ) (e b - (∑ b', e b') / B) / B) := by
  intro e
  unfold vmcCoefficients estimate
  rw [h]
  simp only [Option.map_some]
  congr 1
  unfold mean specLocal
  rw [List.length_map, List.length_finRange, List.map_map]
  refine List.map_congr_left fun b _ => ?_
  have : ((List.finRange B).map fun b => H (fun s => Complex.exp (net s)) (sample b) / Complex.exp (net (sample b))).sum
      = ∑ b', e b' := by
    rw [← List.ofFn_eq_map, List.sum_ofFn]
  simp only [Function.comp, this]
  rfl

/-- The targets of the Monte Carlo generator, from the operator's answers. -/
theorem rests_of (R : Nat) (H : Wave ι → Wave ι) (a : (sample : Fin B → Config ι) → (∀ b, IsSpin (sample b)) → Answer (Config ι) R B)
    (h : ∀ net sample hs, localValues net (a sample hs) = some (specLocal H (fun s => Complex.exp (net s)) sample)) :
    Rests H (fun sample hs net => vmcCoefficients B net (a sample hs)) ∧
    (2 ≤ B → RestsAtEigenstates H (fun sample hs net => vmcCoefficients B net (a sample hs))) := by
  have hrest : Rests H (fun sample hs net => vmcCoefficients B net (a sample hs)) := by
    rintro net ⟨E, hE⟩ sample hs
    dsimp only
    rw [coefficients_eq H net sample _ (h net sample hs)]
    congr 1
    rw [List.eq_replicate_iff]
    refine ⟨by simp, fun x hx => ?_⟩
    rw [List.mem_map] at hx
    obtain ⟨b, -, rfl⟩ := hx
    have he : ∀ b, H (fun s => Complex.exp (net s)) (sample b) / Complex.exp (net (sample b)) = E := fun b => by
      rw [hE _ (hs b), mul_div_assoc, div_self (Complex.exp_ne_zero _), mul_one]
    simp only [he]
    have hB : (B : ℂ) ≠ 0 := by
      have := b.pos
      exact_mod_cast this.ne'
    rw [Finset.sum_const, Finset.card_univ, Fintype.card_fin, nsmul_eq_mul, mul_div_cancel_left₀ _ hB, sub_self, map_zero,
      zero_div]
  refine ⟨hrest, fun hB => ⟨hrest, fun net hne => ?_⟩⟩
  by_contra hcon
  push Not at hcon
  apply hne
  set s0 : Config ι := fun _ => 1 with hs0
  have hsp0 : IsSpin s0 := fun _ => Or.inl rfl
  set el : Config ι → ℂ := fun s => H (fun s => Complex.exp (net s)) s / Complex.exp (net s) with hel
  refine ⟨el s0, fun s hs => ?_⟩
  let sample : Fin B → Config ι := fun b => if b.val = 0 then s else s0
  have hsample : ∀ b, IsSpin (sample b) := by
    intro b
    show IsSpin (if b.val = 0 then s else s0)
    split
    · exact hs
    · exact hsp0
  have hall := hcon sample hsample _ (coefficients_eq H net sample _ (h net sample hsample))
  have hBC : (B : ℂ) ≠ 0 := by exact_mod_cast (by omega : B ≠ 0)
  have hz : ∀ b : Fin B, el (sample b) = (∑ b', el (sample b')) / B := by
    intro b
    have h1 := hall _ (List.mem_map.2 ⟨b, List.mem_finRange b, rfl⟩)
    rw [div_eq_zero_iff, or_iff_left hBC, map_eq_zero, sub_eq_zero] at h1
    exact h1
  have h1 := (hz ⟨0, by omega⟩).trans (hz ⟨1, by omega⟩).symm
  have h2 : el s = el s0 := h1
  have h3 : el s * Complex.exp (net s) = H (fun s => Complex.exp (net s)) s := div_mul_cancel₀ _ (Complex.exp_ne_zero _)
  rw [← h3, h2]

/-- **C133** for the Ising model on chains: the targets of the Monte Carlo generator; batches of at least two
samples. -/
theorem C133_ising_chain_partial (n : Nat) (h j : ℝ) (pbc : Bool) (hB : 2 ≤ B) :
    RestsAtEigenstates (tfim (chainBonds n pbc) h j) (B := B) fun sample hs net =>
      vmcCoefficients B net (Answer.ofRows (n + 1) (isingFindConn1 (.float h) j pbc sample)
        fun b => (C09_ising_chain (.float h) j pbc sample b (hs b)).count) :=
  (rests_of (n + 1) _ (fun sample hs => Answer.ofRows (n + 1) (isingFindConn1 (.float h) j pbc sample)
    fun b => (C09_ising_chain (.float h) j pbc sample b (hs b)).count) fun net sample hs =>
    localValues_ofRows _ sample (fun b => C09_ising_chain (.float h) j pbc sample b (hs b)) (by omega) _ net
      fun b => C06_ising_chain h j pbc sample b _).2 hB

/-- **C133** for the Ising model on grids. -/
theorem C133_ising_grid_partial (n m : Nat) (h j : ℝ) (pbc : Bool) (hB : 2 ≤ B) :
    RestsAtEigenstates (tfim (gridBonds n m pbc) h j) (B := B) fun sample hs net =>
      vmcCoefficients B net (Answer.ofRows (n * m + 1) (isingFindConn2 (.float h) j pbc sample)
        fun b => (C09_ising_grid (.float h) j pbc sample b (hs b)).count) :=
  (rests_of (n * m + 1) _ (fun sample hs => Answer.ofRows (n * m + 1) (isingFindConn2 (.float h) j pbc sample)
    fun b => (C09_ising_grid (.float h) j pbc sample b (hs b)).count) fun net sample hs =>
    localValues_ofRows _ sample (fun b => C09_ising_grid (.float h) j pbc sample b (hs b)) (by omega) _ net
      fun b => C06_ising_grid h j pbc sample b _).2 hB

/-- **C133** for the Heisenberg model on grids, whatever calls of the operator came before. -/
theorem C133_heisenberg_grid_partial (n m : Nat) (rot pbc : Bool) (history : List (Call n m)) (hB : 2 ≤ B) :
    RestsAtEigenstates (heisenberg (gridBonds n m pbc) (if rot then -1 else 1)) (B := B) fun sample hs net =>
      vmcCoefficients B net (Answer.ofRows (n * m * 2 + 1) (((HeisOp.new2 n m rot pbc).run history).findConn B sample).2
        fun b => (C09_heisenberg_grid rot pbc history B sample b (hs b)).count) :=
  (rests_of (n * m * 2 + 1) _ (fun sample hs => Answer.ofRows (n * m * 2 + 1)
    (((HeisOp.new2 n m rot pbc).run history).findConn B sample).2
    fun b => (C09_heisenberg_grid rot pbc history B sample b (hs b)).count) fun net sample hs =>
    localValues_ofRows _ sample (fun b => C09_heisenberg_grid rot pbc history B sample b (hs b)) (by omega) _ net
      fun b => C07_heisenberg_grid rot pbc history B sample b (hs b) _).2 hB

/-- **C133** for the Heisenberg model on chains, whatever calls of the operator came before. -/
theorem C133_heisenberg_chain_partial (n : Nat) (rot pbc : Bool) (history : List (Call n 1)) (hB : 2 ≤ B) :
    RestsAtEigenstates (heisenberg (chainBonds' n pbc) (if rot then -1 else 1)) (B := B) fun sample hs net =>
      vmcCoefficients B net (Answer.ofRows (n + 1) (((HeisOp.new1 n rot pbc).run history).findConn1 B sample).2
        fun b => (C09_heisenberg_chain rot pbc history B sample b (hs b)).count) :=
  (rests_of (n + 1) _ (fun sample hs => Answer.ofRows (n + 1)
    (((HeisOp.new1 n rot pbc).run history).findConn1 B sample).2
    fun b => (C09_heisenberg_chain rot pbc history B sample b (hs b)).count) fun net sample hs =>
    localValues_ofRows _ sample (fun b => C09_heisenberg_chain rot pbc history B sample b (hs b)) (by omega) _ net
      fun b => C07_heisenberg_chain rot pbc history B sample b (hs b) _).2 hB

/-- The only target of a batch of one sample is zero, whatever the network, as the mean of the local energies is
the local energy. -/
theorem single_sample (n : Nat) (h j : ℝ) (pbc : Bool) (sample : Fin 1 → Config (Fin n)) (hs : ∀ b, IsSpin (sample b))
    (net : Config (Fin n) → ℂ) :
    vmcCoefficients 1 net (Answer.ofRows (n + 1) (isingFindConn1 (.float h) j pbc sample)
      fun b => (C09_ising_chain (.float h) j pbc sample b (hs b)).count) = some [0] := by
  rw [coefficients_eq (tfim (chainBonds n pbc) h j) net sample _ (localValues_ofRows _ sample
    (fun b => C09_ising_chain (.float h) j pbc sample b (hs b)) (by omega) _ net
      fun b => C06_ising_chain h j pbc sample b _)]
  rw [show List.finRange 1 = [0] by decide]
  simp

theorem one_spin (h j : ℝ) (ψ : Wave (Fin 1)) (s : Config (Fin 1)) :
    tfim (chainBonds 1 false) h j ψ s = -(h : ℂ) * ψ (Operators.flip 0 s) := by
  unfold tfim
  rw [show chainBonds 1 false = [] by decide]
  simp [pauliX]

/-- **C133** is violated for batches of one sample, which the generator accepts: in a field no network of one spin
gets a target different from zero, eigenstate or not. -/
theorem C133_violated_single_sample (h j : ℝ) (hh : h ≠ 0) :
    ¬ RestsAtEigenstates (tfim (chainBonds 1 false) h j) (B := 1) fun sample hs net =>
      vmcCoefficients 1 net (Answer.ofRows (1 + 1) (isingFindConn1 (.float h) j false sample)
        fun b => (C09_ising_chain (.float h) j false sample b (hs b)).count) := by
  intro hcon
  set net : Config (Fin 1) → ℂ := fun s => if s 0 = 1 then ((Real.log 2 : ℝ) : ℂ) else 0 with hnet
  have hexp : ∀ s : Config (Fin 1), Complex.exp (net s) = if s 0 = 1 then 2 else 1 := by
    intro s
    rw [hnet]
    dsimp only
    split
    · rw [← Complex.ofReal_exp, Real.exp_log (by norm_num)]; norm_num
    · exact Complex.exp_zero
  obtain ⟨sample, hs, c, hc, x, hx, hx0⟩ := hcon.moves net (by
    rintro ⟨E, hE⟩
    have h1 := hE (fun _ => 1) (fun _ => Or.inl rfl)
    have h2 := hE (fun _ => -1) (fun _ => Or.inr rfl)
    rw [one_spin] at h1 h2
    simp only [hexp, Operators.flip, Function.update_self] at h1 h2
    norm_num at h1 h2
    apply hh
    have : (h : ℂ) = 0 := by
      linear_combination (-2 / 3) * h2 + (1 / 3) * h1
    exact_mod_cast this)
  rw [single_sample 1 h j false sample hs] at hc
  cases hc
  simp at hx
  exact hx0 hx

/-! ### Training -/

/-- Any number of steps of stochastic reconfiguration on Monte Carlo batches: every step takes some batch of
samples, the targets for it at the current weights, and some Jacobian. `netOf` turns the weights into the
network. -/
inductive Training (targets : Targets ι B) (netOf : (Fin P → ℂ) → Config ι → ℂ) : ComplexModel → ComplexModel → Prop
  | done (m : ComplexModel) : Training targets netOf m m
  | step {m m' m'' : ComplexModel} (sample : Fin B → Config ι) (hs : ∀ b, IsSpin (sample b)) (c : List ℂ)
      (hc : targets sample hs (netOf (flatWeights P m)) = some c) (J : Matrix (Fin B) (Fin P) ℂ) (lr shift : ℝ)
      (hm : Step lr shift m J (fun b => c.getD b 0) m') (rest : Training targets netOf m' m'') :
      Training targets netOf m m''

/-- **C133**, training: if the network is an eigenstate, no number of steps of stochastic reconfiguration changes
its weights. The hypothesis `Rests` on the targets is met by all four operators and all batch sizes
(`C133_rests`). -/
theorem C133_training (H : Wave ι → Wave ι) (targets : Targets ι B) (ht : Rests H targets)
    (netOf : (Fin P → ℂ) → Config ι → ℂ) (m m' : ComplexModel) (hm : m.Valid)
    (hP : P = ((m.weights.map Tensor.shape).map List.prod).sum) (he : IsEigenstate H (netOf (flatWeights P m)))
    (hrun : Training targets netOf m m') : m'.weights = m.weights := by
  induction hrun with
  | done m => rfl
  | step sample hs c hc J lr shift hstep rest ih =>
    rw [ht _ he sample hs] at hc
    cases hc
    have hz : (fun b : Fin B => (List.replicate B (0 : ℂ)).getD b 0) = fun _ => 0 := by
      funext b
      simp [List.getD_eq_getElem?_getD]
    rw [hz] at hstep
    obtain ⟨hv, hw⟩ := (C133_step lr shift _ hm hP J).1 _ hstep
    have hf : ∀ m1 m2 : ComplexModel, m1.weights = m2.weights → flatWeights P m1 = flatWeights P m2 := by
      intro m1 m2 h
      unfold flatWeights
      rw [h]
    rw [ih hv (by rw [hw]; exact hP) (by rw [hf _ _ hw]; exact he), hw]

/-- **C133**, the first half for every operator and every batch size. -/
theorem C133_rests (B : Nat) :
    (∀ (n : Nat) (h j : ℝ) (pbc : Bool), Rests (tfim (chainBonds n pbc) h j) (B := B) fun sample hs net =>
      vmcCoefficients B net (Answer.ofRows (n + 1) (isingFindConn1 (.float h) j pbc sample)
        fun b => (C09_ising_chain (.float h) j pbc sample b (hs b)).count)) ∧
    (∀ (n m : Nat) (h j : ℝ) (pbc : Bool), Rests (tfim (gridBonds n m pbc) h j) (B := B) fun sample hs net =>
      vmcCoefficients B net (Answer.ofRows (n * m + 1) (isingFindConn2 (.float h) j pbc sample)
        fun b => (C09_ising_grid (.float h) j pbc sample b (hs b)).count)) ∧
    (∀ (n m : Nat) (rot pbc : Bool) (history : List (Call n m)),
      Rests (heisenberg (gridBonds n m pbc) (if rot then -1 else 1)) (B := B) fun sample hs net =>
      vmcCoefficients B net (Answer.ofRows (n * m * 2 + 1) (((HeisOp.new2 n m rot pbc).run history).findConn B sample).2
        fun b => (C09_heisenberg_grid rot pbc history B sample b (hs b)).count)) ∧
    (∀ (n : Nat) (rot pbc : Bool) (history : List (Call n 1)),
      Rests (heisenberg (chainBonds' n pbc) (if rot then -1 else 1)) (B := B) fun sample hs net =>
      vmcCoefficients B net (Answer.ofRows (n + 1) (((HeisOp.new1 n rot pbc).run history).findConn1 B sample).2
        fun b => (C09_heisenberg_chain rot pbc history B sample b (hs b)).count)) :=
  ⟨fun n h j pbc => (rests_of (n + 1) _ (fun sample hs => Answer.ofRows (n + 1) (isingFindConn1 (.float h) j pbc sample)
    fun b => (C09_ising_chain (.float h) j pbc sample b (hs b)).count) fun net sample hs =>
    localValues_ofRows _ sample (fun b => C09_ising_chain (.float h) j pbc sample b (hs b)) (by omega) _ net
      fun b => C06_ising_chain h j pbc sample b _).1,
  fun n m h j pbc => (rests_of (n * m + 1) _ (fun sample hs => Answer.ofRows (n * m + 1) (isingFindConn2 (.float h) j pbc sample)
    fun b => (C09_ising_grid (.float h) j pbc sample b (hs b)).count) fun net sample hs =>
    localValues_ofRows _ sample (fun b => C09_ising_grid (.float h) j pbc sample b (hs b)) (by omega) _ net
      fun b => C06_ising_grid h j pbc sample b _).1,
  fun n m rot pbc history => (rests_of (n * m * 2 + 1) _ (fun sample hs => Answer.ofRows (n * m * 2 + 1)
    (((HeisOp.new2 n m rot pbc).run history).findConn B sample).2
    fun b => (C09_heisenberg_grid rot pbc history B sample b (hs b)).count) fun net sample hs =>
    localValues_ofRows _ sample (fun b => C09_heisenberg_grid rot pbc history B sample b (hs b)) (by omega) _ net
      fun b => C07_heisenberg_grid rot pbc history B sample b (hs b) _).1,
  fun n rot pbc history => (rests_of (n + 1) _ (fun sample hs => Answer.ofRows (n + 1)
    (((HeisOp.new1 n rot pbc).run history).findConn1 B sample).2
    fun b => (C09_heisenberg_chain rot pbc history B sample b (hs b)).count) fun net sample hs =>
    localValues_ofRows _ sample (fun b => C09_heisenberg_chain rot pbc history B sample b (hs b)) (by omega) _ net
      fun b => C07_heisenberg_chain rot pbc history B sample b (hs b) _).1⟩

/-- The hypotheses can be met: without coupling the constant network is an eigenstate, for all chains. -/
example (n : Nat) (h : ℝ) (pbc : Bool) : IsEigenstate (tfim (chainBonds n pbc) h 0) fun _ => 0 :=
  ⟨-(h : ℂ) * n, fun s _ => by unfold tfim; simp [pauliX]⟩

/-! ### Exact training -/

/-- **C133**, exact training: whatever was evaluated before, the targets of all states are zero exactly if the
network is an eigenstate. -/
theorem C133_exact [Fintype ι] [DecidableEq ι] {N R : ℕ} (e : ι ≃ Fin N) (hN : N ≤ 31)
    (op : (B : Nat) → (Fin B → Config ι) → Fin B → List (Row ι ℝ)) (rowsOf : Config ι → List (Row ι ℝ))
    (h : RowsOf op R rowsOf) (H : Wave ι → Wave ι) (hH : ∀ s, IsSpin s → ∀ ψ, applyRows (rowsOf s) ψ = H ψ s)
    (batch : ℕ) (o : Obj (Config ι)) (ho : Obj.new (spinSetup e op R) batch = .ok o) (nets : List (Config ι → ℂ))
    (net : Config ι → ℂ) :
    (∀ x : Fin (spinSetup e op R).S, (after o nets net).arrays.coeff x = 0) ↔ IsEigenstate H net := by
  have hr := rowWise_of e hN h
  have hherm := opMatrix_hermitian e hN h
  have hpos := (C19_probabilities _ _ hr batch o ho nets net).2.1
  have hc := C24_exact _ _ hr hherm batch o ho nets net
  have hmul : ∀ x : Fin (spinSetup e op R).S,
      (Matrix.mulVec (opMatrix (spinSetup e op R) (fun s => pairs (rowsOf s))) (amplitudes (spinSetup e op R) net)) x =
      H (fun s => Complex.exp (net s)) (spinState e x) := by
    intro x
    have hamp : amplitudes (spinSetup e op R) net =
      fun y : Fin (spinSetup e op R).S => (fun s => Complex.exp (net s)) (spinState e y) := rfl
    rw [hamp, opMatrix_mulVec e hN h (fun s => Complex.exp (net s)) x, hH _ (spinState_spin e x)]
  have hampx : ∀ x : Fin (spinSetup e op R).S, amplitudes (spinSetup e op R) net x = Complex.exp (net (spinState e x)) :=
    fun x => rfl
  have hiff : ∀ x : Fin (spinSetup e op R).S, (after o nets net).arrays.coeff x = 0 ↔
      H (fun s => Complex.exp (net s)) (spinState e x) = (after o nets net).arrays.energy * Complex.exp (net (spinState e x)) := by
    intro x
    have hp : ((after o nets net).arrays.probs x : ℂ) ≠ 0 := by exact_mod_cast (hpos x).ne'
    rw [hc x, mul_eq_zero, or_iff_right hp, map_eq_zero, sub_eq_zero, hmul, hampx, div_eq_iff (Complex.exp_ne_zero _)]
  constructor
  · intro h0
    refine ⟨(after o nets net).arrays.energy, fun s hs => ?_⟩
    have := (hiff ⟨spinCode e s, spinCode_lt e hN s⟩).1 (h0 _)
    rw [show spinState e (⟨spinCode e s, spinCode_lt e hN s⟩ : Fin (spinSetup e op R).S) = s from
      spinState_code e hN s hs] at this
    exact this
  · rintro ⟨E, hE⟩ x
    have hloc : ∀ x : Fin (spinSetup e op R).S, H (fun s => Complex.exp (net s)) (spinState e x) =
        E * Complex.exp (net (spinState e x)) := fun x => hE _ (spinState_spin e x)
    have hen : (after o nets net).arrays.energy = E := by
      rw [energy_eq _ _ net _ (result_after _ _ hr batch o ho nets net), rayleigh_real _ hherm]
      unfold Exact.rayleigh
      have : (opMatrix (spinSetup e op R) (fun s => pairs (rowsOf s))) *ᵥ (amplitudes (spinSetup e op R) net)
          = E • amplitudes (spinSetup e op R) net := by
        funext x
        rw [hmul, hloc, Pi.smul_apply, smul_eq_mul, hampx]
      rw [this, dotProduct_smul, smul_eq_mul]
      have hn := normSq_amp_pos (spinSetup e op R) (new_ok _ _ hr batch o ho).2.1 net
      rw [star_dot, mul_div_assoc, div_self (by exact_mod_cast hn.ne'), mul_one]
    rw [hiff, hen, hloc]

/-- The hypotheses are met by the Ising model on grids. -/
example (n m : Nat) (hn : n * m ≤ 31) (h j : ℝ) (pbc : Bool) (batch : ℕ) (o : Obj (Config (Fin n × Fin m)))
    (ho : Obj.new (spinSetup finProdFinEquiv (fun _ sample => isingFindConn2 (.float h) j pbc sample) (n * m + 1)) batch = .ok o)
    (nets : List (Config (Fin n × Fin m) → ℂ)) (net : Config (Fin n × Fin m) → ℂ) :
    (∀ x : Fin (2 ^ (n * m)), (after o nets net).arrays.coeff x = 0) ↔ IsEigenstate (tfim (gridBonds n m pbc) h j) net :=
  C133_exact _ hn _ _ (rowsOf_ising_grid n m h j pbc) _
    (fun s _ ψ => C06_ising_grid h j pbc (fun _ : Fin 1 => s) 0 ψ) batch o ho nets net

/-- The hypotheses are met by the Heisenberg model on grids. -/
example (n m : Nat) (hn : n * m ≤ 31) (rot pbc : Bool) (history : List (Call n m)) (batch : ℕ)
    (o : Obj (Config (Fin n × Fin m)))
    (ho : Obj.new (spinSetup finProdFinEquiv
      (fun B sample => (((HeisOp.new2 n m rot pbc).run history).findConn B sample).2) (n * m * 2 + 1)) batch = .ok o)
    (nets : List (Config (Fin n × Fin m) → ℂ)) (net : Config (Fin n × Fin m) → ℂ) :
    (∀ x : Fin (2 ^ (n * m)), (after o nets net).arrays.coeff x = 0) ↔
      IsEigenstate (heisenberg (gridBonds n m pbc) (if rot then -1 else 1)) net :=
  C133_exact _ hn _ _ (rowsOf_heisenberg_grid n m rot pbc history) _
    (fun s hs ψ => applyRows_heisRows rot pbc 2 (Or.inl rfl) s hs ψ) batch o ho nets net

end Verif.Optimizers.SR
