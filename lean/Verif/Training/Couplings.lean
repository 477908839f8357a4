import Verif.Training.SampleOrder
import Verif.Training.Adam
import Verif.Training.Sgd

/-!
# C166: energies are linear in the couplings, and the unit of energy does not matter

For the same samples the energies, local energies and training targets of the Ising model with `h` and `j` follow from those with
`h = 1, j = 0` and those with `h = 0, j = 1`; the ones of J1-J2 from those with `j2 = 0` and with `j2 = 1`. Multiplying both
couplings of the Ising model by the same factor multiplies the reports, and training is the same once the learning rate (plain
gradient descent, stochastic reconfiguration) is divided or `epsilon` (Adam) multiplied by the factor.
-/
namespace Verif.Training

open Verif.Operators Verif.Energy Verif.Optimizers Verif.Optimizers.SR
open Verif.Energy.Exact (vmcCoefficients loss)

variable {ι : Type} [Fintype ι] [DecidableEq ι]

/-! ### Specification -/

/-- What an operator with its estimator reports for a batch: mean, variance and local values. -/
abbrev Reports (ι : Type) := (B : Nat) → (Config ι → ℂ) → (Fin B → Config ι) → Option (ℂ × ℝ × List ℂ)

/-- The training targets of a batch. -/
abbrev Targets (ι : Type) := (B : Nat) → (Config ι → ℂ) → (Fin B → Config ι) → Option (List ℂ)

/-- The reports `est` and targets `tg` are `a` times the first plus `b` times the second ones. -/
structure Combines (a b : ℝ) (est est1 est2 : Reports ι) (tg tg1 tg2 : Targets ι) : Prop where
  reports : ∀ (B : Nat), 0 < B → ∀ (logψ : Config ι → ℂ) (x : Fin B → Config ι), (∀ i, IsSpin (x i)) →
    ∃ e v lv e1 v1 lv1 e2 v2 lv2, est B logψ x = some (e, v, lv) ∧ est1 B logψ x = some (e1, v1, lv1) ∧
      est2 B logψ x = some (e2, v2, lv2) ∧ e = a * e1 + b * e2 ∧ lv = List.zipWith (fun s t : ℂ => a * s + b * t) lv1 lv2 ∧
      lv.length = B ∧ lv1.length = B ∧ lv2.length = B
  targets : ∀ (B : Nat), 0 < B → ∀ (logψ : Config ι → ℂ) (x : Fin B → Config ι), (∀ i, IsSpin (x i)) →
    ∃ c c1 c2, tg B logψ x = some c ∧ tg1 B logψ x = some c1 ∧ tg2 B logψ x = some c2 ∧
      c = List.zipWith (fun s t : ℂ => a * s + b * t) c1 c2 ∧ c.length = B ∧ c1.length = B ∧ c2.length = B

/-- The primed operator is the other one in a unit of energy `1 / c`. -/
structure UnitFree (c : ℝ) (est est' : Reports ι) (tg tg' : Targets ι) : Prop where
  reports : ∀ (B : Nat), 0 < B → ∀ (logψ : Config ι → ℂ) (x : Fin B → Config ι), (∀ i, IsSpin (x i)) →
    ∃ e v lv, est B logψ x = some (e, v, lv) ∧ est' B logψ x = some (c * e, c ^ 2 * v, lv.map fun z : ℂ => c * z) ∧ lv.length = B
  /-- Plain gradient descent. `g` is the gradient of the loss of one sample by the weights. -/
  descent : ∀ (Ω : Type) [Inhabited Ω] (n B : Nat) (lr : ℝ) (cfg : AccConfig) (net : (Fin n → ℝ) → Config ι → ℂ)
    (g : (Fin n → ℝ) → Config ι × ℂ → Fin n → ℝ),
    (∀ θ k s y, IsSpin s → HasDerivAt (fun t => loss y (net (Function.update θ k t) s)) (g θ (s, y) k) (θ k)) →
    ∀ (S : (Fin n → ℝ) → Ω → Fin B → Config ι), (∀ θ u b, IsSpin (S θ u b)) →
    ∀ (gen : MBState Unit (Config ι × ℂ)) (mini : Option Nat) (θ : Fin n → ℝ)
      (st0 : LoopState (Fin n → ℝ) (Fin n → ℝ) (Fin n → ℝ) Unit (Config ι × ℂ)),
    setupLoop (fun _ => B) gen () mini θ = some st0 → mini.getD B ∣ B → ∀ (us : List Ω) (q : Nat),
    (fitGenerator (plainSgd (lr / c)) cfg g (drawFrom tg' net S us) (q * (B / mini.getD B)) st0).acc.opt =
      (fitGenerator (plainSgd lr) cfg g (drawFrom tg net S us) (q * (B / mini.getD B)) st0).acc.opt
  /-- Adam. -/
  adam : ∀ (Ω : Type) [Inhabited Ω] (n B : Nat) (lr β1 β2 ε : ℝ) (cfg : AccConfig) (net : (Fin n → ℝ) → Config ι → ℂ)
    (g : (Fin n → ℝ) → Config ι × ℂ → Fin n → ℝ),
    (∀ θ k s y, IsSpin s → HasDerivAt (fun t => loss y (net (Function.update θ k t) s)) (g θ (s, y) k) (θ k)) →
    ∀ (S : (Fin n → ℝ) → Ω → Fin B → Config ι), (∀ θ u b, IsSpin (S θ u b)) →
    ∀ (gen : MBState Unit (Config ι × ℂ)) (mini : Option Nat) (θ : Fin n → ℝ)
      (st0 : LoopState (AdamState n) (Fin n → ℝ) (Fin n → ℝ) Unit (Config ι × ℂ)),
    setupLoop (fun _ => B) gen () mini (AdamState.fresh θ) = some st0 → mini.getD B ∣ B → ∀ (us : List Ω) (q : Nat),
    (fitGenerator (adam lr β1 β2 (ε * c)) cfg g (drawFrom tg' net S us) (q * (B / mini.getD B)) st0).acc.opt.weights =
      (fitGenerator (adam lr β1 β2 ε) cfg g (drawFrom tg net S us) (q * (B / mini.getD B)) st0).acc.opt.weights
  /-- Stochastic reconfiguration with the direct solver. `D s p` is the derivative of the output of the network for the
  configuration `s` by weight `p`. -/
  reconfiguration : ∀ (B : Nat), 0 < B → ∀ (logψ : Config ι → ℂ) (x : Fin B → Config ι), (∀ b, IsSpin (x b)) →
    ∃ y y', tg B logψ x = some y ∧ tg' B logψ x = some y' ∧ y' = y.map (fun z : ℂ => c * z) ∧ y.length = B ∧
      ∀ (P : Nat) (D : Config ι → Fin P → ℂ) (lr shift : ℝ) (m : ComplexModel),
        getUpdatesDirect (lr / c) shift m (fun b : Fin B => D (x b)) (fun b => y'.getD b 0) =
          getUpdatesDirect lr shift m (fun b : Fin B => D (x b)) (fun b => y.getD b 0)

/-! ### Proofs -/

/-- Reports and targets in closed form. -/
def ClosedForm (H : Wave ι → Wave ι) (est : Reports ι) (tg : Targets ι) : Prop :=
  (∀ B, 0 < B → ∀ logψ x, (∀ b, IsSpin (x b)) → est B logψ x =
      some (mean ((List.finRange B).map fun b => localEnergy H logψ (x b)),
        variance (((List.finRange B).map fun b => localEnergy H logψ (x b)).map Complex.re),
        (List.finRange B).map fun b => localEnergy H logψ (x b))) ∧
  ∀ B, 0 < B → ∀ logψ x, (∀ b, IsSpin (x b)) → tg B logψ x = some ((List.finRange B).map fun b =>
      (starRingEnd ℂ) (localEnergy H logψ (x b) - mean ((List.finRange B).map fun b => localEnergy H logψ (x b))) / (B : ℂ))

theorem closedForm_of {H : Wave ι → Wave ι} {R : Nat} (ans : (B : Nat) → (Fin B → Config ι) → Answer (Config ι) R B)
    (hE : ∀ B (sample : Fin B → Config ι), (∀ b, IsSpin (sample b)) → ∀ logψ,
      LocalEnergies H sample logψ (estimate logψ (ans B sample))) :
    ClosedForm H (fun B logψ sample => estimate logψ (ans B sample)) fun B logψ sample => vmcCoefficients B logψ (ans B sample) := by
  have hl : ∀ B (logψ : Config ι → ℂ) (x : Fin B → Config ι), (∀ b, IsSpin (x b)) →
      localValues logψ (ans B x) = some ((List.finRange B).map fun b => localEnergy H logψ (x b)) := by
    intro B logψ x hx
    obtain ⟨v, hv⟩ := (hE B x hx logψ).values
    unfold estimate at hv
    cases h : localValues logψ (ans B x) with
    | none => rw [h] at hv; simp at hv
    | some lv =>
      rw [h] at hv
      simp only [Option.map_some, Option.some.injEq, Prod.mk.injEq] at hv
      rw [hv.2.2]
      rfl
  refine ⟨fun B _ logψ x hx => ?_, fun B _ logψ x hx => ?_⟩
  · show estimate logψ (ans B x) = _
    unfold estimate
    rw [hl B logψ x hx]
    rfl
  · show vmcCoefficients B logψ (ans B x) = _
    unfold vmcCoefficients estimate
    rw [hl B logψ x hx]
    simp only [Option.map_some, List.map_map]
    rfl

theorem zipWith_finRange {B : Nat} (a b : ℝ) (f1 f2 : Fin B → ℂ) :
    List.zipWith (fun s t : ℂ => a * s + b * t) ((List.finRange B).map f1) ((List.finRange B).map f2) =
      (List.finRange B).map fun i => a * f1 i + b * f2 i := by
  rw [List.zipWith_map, List.zipWith_self]

theorem mean_finRange {B : Nat} (f : Fin B → ℂ) : mean ((List.finRange B).map f) = (∑ i, f i) / B := by
  unfold mean
  rw [List.length_map, List.length_finRange, ← List.ofFn_eq_map, List.sum_ofFn]

omit [Fintype ι] [DecidableEq ι] in
theorem combines_of {a b : ℝ} {H H1 H2 : Wave ι → Wave ι} (hH : ∀ ψ s, H ψ s = a * H1 ψ s + b * H2 ψ s)
    {est est1 est2 : Reports ι} {tg tg1 tg2 : Targets ι} (h : ClosedForm H est tg) (h1 : ClosedForm H1 est1 tg1)
    (h2 : ClosedForm H2 est2 tg2) : Combines a b est est1 est2 tg tg1 tg2 := by
  have hl : ∀ (logψ : Config ι → ℂ) s, localEnergy H logψ s = a * localEnergy H1 logψ s + b * localEnergy H2 logψ s := fun logψ s => by
    unfold localEnergy
    rw [hH]
    ring
  have hm : ∀ B (logψ : Config ι → ℂ) (x : Fin B → Config ι), mean ((List.finRange B).map fun i => localEnergy H logψ (x i)) =
      a * mean ((List.finRange B).map fun i => localEnergy H1 logψ (x i)) +
        b * mean ((List.finRange B).map fun i => localEnergy H2 logψ (x i)) := fun B logψ x => by
    simp only [mean_finRange, hl, Finset.sum_add_distrib, ← Finset.mul_sum]
    ring
  refine ⟨fun B hB logψ x hx => ?_, fun B hB logψ x hx => ?_⟩
  · refine ⟨_, _, _, _, _, _, _, _, _, h.1 B hB logψ x hx, h1.1 B hB logψ x hx, h2.1 B hB logψ x hx, hm B logψ x, ?_, by simp, by simp,
      by simp⟩
    rw [zipWith_finRange]
    simp only [hl]
  · refine ⟨_, _, _, h.2 B hB logψ x hx, h1.2 B hB logψ x hx, h2.2 B hB logψ x hx, ?_, by simp, by simp, by simp⟩
    rw [zipWith_finRange, hm]
    refine List.map_congr_left fun i _ => ?_
    rw [hl]
    simp only [map_sub, map_add, map_mul, Complex.conj_ofReal]
    ring

theorem columnToTensorsLoop_map {α β : Type} (f : α → β) (col : List α) (shapes : List (List Nat)) (off : Nat) :
    columnToTensorsLoop (col.map f) shapes off =
      (columnToTensorsLoop col shapes off).map (List.map fun t => (⟨t.shape, t.data.map f⟩ : Tensor β)) := by
  induction shapes generalizing off with
  | nil => rfl
  | cons shape rest ih =>
    unfold columnToTensorsLoop
    dsimp only
    rw [ih, ← List.map_take, ← List.map_drop]
    by_cases hlen : ((col.take (off + shape.prod)).drop off).length = shape.prod
    · have hlen' : (((col.take (off + shape.prod)).drop off).map f).length = shape.prod := by rwa [List.length_map]
      unfold reshape
      rw [if_pos hlen, if_pos hlen']
      simp [Option.map_map, Function.comp_def]
    · have hlen' : ¬(((col.take (off + shape.prod)).drop off).map f).length = shape.prod := by rwa [List.length_map]
      unfold reshape
      rw [if_neg hlen, if_neg hlen']
      rfl

theorem apply_scaled {c : ℝ} (hc : 0 < c) (lr : ℝ) (m : ComplexModel) (l : List ℂ) :
    applyComplexGradient (lr / c) m (l.map fun z : ℂ => c * z) = applyComplexGradient lr m l := by
  have hre : ((l.map fun z : ℂ => c * z).map (starRingEnd ℂ)).map Complex.re = ((l.map (starRingEnd ℂ)).map Complex.re).map (c * ·) := by
    simp [List.map_map, Function.comp_def]
  have him : ((l.map fun z : ℂ => c * z).map (starRingEnd ℂ)).map Complex.im = ((l.map (starRingEnd ℂ)).map Complex.im).map (c * ·) := by
    simp [List.map_map, Function.comp_def]
  unfold applyComplexGradient columnToTensors
  dsimp only
  rw [hre, him, columnToTensorsLoop_map (c * ·), columnToTensorsLoop_map (c * ·)]
  cases columnToTensorsLoop ((l.map (starRingEnd ℂ)).map Complex.re) (m.real.map Tensor.shape) 0 with
  | none => rfl
  | some r =>
    cases columnToTensorsLoop ((l.map (starRingEnd ℂ)).map Complex.im) (m.imag.map Tensor.shape) 0 with
    | none => rfl
    | some i =>
      simp only [Option.map_some]
      rw [← List.map_append, List.zipWith_map_right]
      have e : (fun (p t : Tensor ℝ) => addScaled (lr / c) p ⟨t.shape, t.data.map (c * ·)⟩) = addScaled lr := by
        funext p t
        unfold addScaled
        rw [List.zipWith_map_right]
        congr 2
        funext x y
        field_simp
      rw [e]

theorem direct_scaled {c : ℝ} (hc : 0 < c) {B P : Nat} (J : Matrix (Fin B) (Fin P) ℂ) (t : Fin B → ℂ) (lr shift : ℝ) (m : ComplexModel) :
    getUpdatesDirect (lr / c) shift m J (fun b => c * t b) = getUpdatesDirect lr shift m J t := by
  have he : energyGrad (minusMean J) (fun b => c * t b) = (c : ℂ) • energyGrad (minusMean J) t := by
    unfold energyGrad
    rw [← Matrix.mulVec_smul]
    congr 1
    funext b
    simp
  unfold getUpdatesDirect
  dsimp only
  rw [he]
  unfold solveDirectly
  split
  · simp only [Option.bind_some]
    rw [Matrix.mulVec_smul, ← apply_scaled hc lr m, List.map_ofFn]
    congr 2
    funext p
    simp
  · rfl

omit [Fintype ι] [DecidableEq ι] in
/-- The gradient of the loss is linear in the target. -/
theorem gradient_scaled {n : Nat} {net : (Fin n → ℝ) → Config ι → ℂ} {g : (Fin n → ℝ) → Config ι × ℂ → Fin n → ℝ}
    (hg : ∀ θ k s y, IsSpin s → HasDerivAt (fun t => loss y (net (Function.update θ k t) s)) (g θ (s, y) k) (θ k)) (c : ℝ)
    (θ : Fin n → ℝ) {s : Config ι} (hs : IsSpin s) (y : ℂ) : g θ (s, c * y) = c • g θ (s, y) := by
  funext k
  refine (hg θ k s (c * y) hs).unique ?_
  have h := (hg θ k s y hs).const_mul c
  have e : (fun t => loss (c * y) (net (Function.update θ k t) s)) = fun t => c * loss y (net (Function.update θ k t) s) := by
    funext t
    unfold loss
    rw [mul_left_comm, Complex.re_ofReal_mul]
    ring
  rw [e]
  exact h

/-- Two runs on whole batches whose gradients differ by the factor `c`. -/
theorem batches_related {Opt α : Type} {n : Nat} {c : ℝ} (o o' : Optimizer Opt (Fin n → ℝ) (Fin n → ℝ)) (rel : Opt → Opt → Prop)
    (hp : ∀ a a', rel a a' → o'.params a' = o.params a) (hu : ∀ a a' x, rel a a' → rel (o.update a x) (o'.update a' (c • x)))
    (g : (Fin n → ℝ) → α → Fin n → ℝ) (d d' : (Fin n → ℝ) → Nat → List α)
    (hd : ∀ p k, (d' p k).length = (d p k).length ∧ ((d' p k).map (g p)).sum = c • ((d p k).map (g p)).sum) (scale : ℝ) (a a' : Opt)
    (h : rel a a') (q : Nat) : rel (wholeBatches o g d scale a q) (wholeBatches o' g d' scale a' q) := by
  induction q with
  | zero => exact h
  | succ q ih =>
    simp only [wholeBatches]
    rw [hp _ _ ih, (hd _ q).1, (hd _ q).2, smul_comm _ c, smul_comm _ c]
    exact hu _ _ _ ih

omit [Fintype ι] [DecidableEq ι] in
theorem unitFree_of {c : ℝ} (hc : 0 < c) {H H' : Wave ι → Wave ι} (hH : ∀ ψ s, H' ψ s = c * H ψ s)
    {est est' : Reports ι} {tg tg' : Targets ι} (h : ClosedForm H est tg) (h' : ClosedForm H' est' tg') :
    UnitFree c est est' tg tg' := by
  have hl : ∀ (logψ : Config ι → ℂ) s, localEnergy H' logψ s = c * localEnergy H logψ s := fun logψ s => by
    unfold localEnergy
    rw [hH]
    ring
  have hm : ∀ B (logψ : Config ι → ℂ) (x : Fin B → Config ι), mean ((List.finRange B).map fun i => localEnergy H' logψ (x i)) =
      c * mean ((List.finRange B).map fun i => localEnergy H logψ (x i)) := fun B logψ x => by
    simp only [mean_finRange, hl, ← Finset.mul_sum]
    ring
  have ht : ∀ B, 0 < B → ∀ (logψ : Config ι → ℂ) (x : Fin B → Config ι), (∀ b, IsSpin (x b)) →
      ∃ t : Fin B → ℂ, tg B logψ x = some ((List.finRange B).map t) ∧ tg' B logψ x = some ((List.finRange B).map fun b => c * t b) := by
    intro B hB logψ x hx
    refine ⟨_, h.2 B hB logψ x hx, ?_⟩
    rw [h'.2 B hB logψ x hx, hm]
    congr 1
    refine List.map_congr_left fun b _ => ?_
    rw [hl]
    simp only [map_sub, map_mul, Complex.conj_ofReal]
    ring
  have hget : ∀ B (f : Fin B → ℂ) (b : Fin B), ((List.finRange B).map f).getD b 0 = f b := fun B f b => by
    rw [List.getD_eq_getElem?_getD]
    simp
  have train : ∀ (Ω : Type) [Inhabited Ω] (Opt : Type) (n B : Nat) (o o' : Optimizer Opt (Fin n → ℝ) (Fin n → ℝ))
      (rel : Opt → Opt → Prop), (∀ a a', rel a a' → o'.params a' = o.params a) →
      (∀ a a' x, rel a a' → rel (o.update a x) (o'.update a' (c • x))) →
      ∀ (cfg : AccConfig) (net : (Fin n → ℝ) → Config ι → ℂ) (g : (Fin n → ℝ) → Config ι × ℂ → Fin n → ℝ),
      (∀ θ k s y, IsSpin s → HasDerivAt (fun t => loss y (net (Function.update θ k t) s)) (g θ (s, y) k) (θ k)) →
      ∀ (S : (Fin n → ℝ) → Ω → Fin B → Config ι), (∀ θ u b, IsSpin (S θ u b)) →
      ∀ (gen : MBState Unit (Config ι × ℂ)) (mini : Option Nat) (opt : Opt)
        (st0 : LoopState Opt (Fin n → ℝ) (Fin n → ℝ) Unit (Config ι × ℂ)), rel opt opt →
      setupLoop (fun _ => B) gen () mini opt = some st0 → mini.getD B ∣ B → ∀ (us : List Ω) (q : Nat),
      rel (fitGenerator o cfg g (drawFrom tg net S us) (q * (B / mini.getD B)) st0).acc.opt
        (fitGenerator o' cfg g (drawFrom tg' net S us) (q * (B / mini.getD B)) st0).acc.opt := by
    intro Ω _ Opt n B o o' rel hp hu cfg net g hg S hS gen mini opt st0 hrel h0 hdvd us q
    have hB : 0 < B := by
      obtain ⟨f, hf, hmi, hBf, -⟩ := setup_between (fun _ : Unit => B) gen () mini opt st0 h0 hdvd
      rw [hBf]
      exact Nat.mul_pos hf hmi
    have hdraw : ∀ θ k, ∃ t : Fin B → ℂ,
        drawFrom tg net S us θ () k = (List.finRange B).map (fun b => (S θ (us.getD k default) b, t b)) ∧
        drawFrom tg' net S us θ () k = (List.finRange B).map (fun b => (S θ (us.getD k default) b, c * t b)) := by
      intro θ k
      obtain ⟨t, h1, h2⟩ := ht B hB (net θ) (S θ (us.getD k default)) (hS θ _)
      refine ⟨t, ?_, ?_⟩
      · unfold drawFrom
        rw [h1]
        exact List.map_congr_left fun b _ => by rw [hget]
      · unfold drawFrom
        rw [h2]
        exact List.map_congr_left fun b _ => by rw [hget]
    have hsum : ∀ θ k, (drawFrom tg' net S us θ () k).length = (drawFrom tg net S us θ () k).length ∧
        ((drawFrom tg' net S us θ () k).map (g θ)).sum = c • ((drawFrom tg net S us θ () k).map (g θ)).sum := by
      intro θ k
      obtain ⟨t, h1, h2⟩ := hdraw θ k
      rw [h1, h2]
      refine ⟨by simp, ?_⟩
      rw [List.smul_sum, List.map_map, List.map_map, List.map_map]
      congr 1
      exact List.map_congr_left fun b _ => gradient_scaled hg c θ (hS θ _ b) (t b)
    have hlen : ∀ p k, (drawFrom tg net S us p () k).length = B := fun p k => by
      obtain ⟨t, h1, -⟩ := hdraw p k
      rw [h1]
      simp
    have hlen' : ∀ p k, (drawFrom tg' net S us p () k).length = B := fun p k => by rw [(hsum p k).1, hlen]
    have hrun : ∀ (o : Optimizer Opt (Fin n → ℝ) (Fin n → ℝ)) (d : (Fin n → ℝ) → Unit → Nat → List (Config ι × ℂ)),
        (∀ p k, (d p () k).length = B) → (fitGenerator o cfg g d (q * (B / mini.getD B)) st0).acc.opt =
          wholeBatches o g (fun p k => d p () (gen.drawn + k)) (if cfg.accumulateSum then ((B / mini.getD B : Nat) : ℝ) else 1) opt q := by
      intro o d hd
      by_cases hcs : cfg.accumulateSum = true
      · rw [if_pos hcs]
        exact C90_sum_scales o cfg hcs g d (fun _ => B) gen () mini opt st0 h0 hdvd hd q
      · rw [if_neg hcs]
        exact C90_mean_partial o cfg (by simpa using hcs) g d (fun _ => B) gen () mini opt st0 h0 hdvd hd q
    rw [hrun o _ hlen, hrun o' _ hlen']
    exact batches_related o o' rel hp hu g _ _ (fun p k => hsum p _) _ opt opt hrel q
  refine ⟨fun B hB logψ x hx => ?_, ?_, ?_, fun B hB logψ x hx => ?_⟩
  · refine ⟨_, _, _, h.1 B hB logψ x hx, ?_, by simp⟩
    rw [h'.1 B hB logψ x hx, hm]
    have e1 : ((List.finRange B).map fun b => localEnergy H' logψ (x b)) =
        ((List.finRange B).map fun b => localEnergy H logψ (x b)).map fun z : ℂ => c * z := by
      rw [List.map_map]
      exact List.map_congr_left fun b _ => hl logψ (x b)
    have e2 : ∀ l : List ℂ, variance ((l.map fun z : ℂ => c * z).map Complex.re) = c ^ 2 * variance (l.map Complex.re) := by
      intro l
      have e3 : (l.map fun z : ℂ => c * z).map Complex.re = (l.map Complex.re).map (c * ·) := by
        simp [List.map_map, Function.comp_def]
      rw [e3]
      generalize l.map Complex.re = r
      have hs : ∀ r : List ℝ, (r.map (c * ·)).sum = c * r.sum := fun r => by
        induction r with
        | nil => simp
        | cons a r ih => rw [List.map_cons, List.sum_cons, List.sum_cons, ih]; ring
      unfold variance
      rw [List.length_map, hs, List.map_map, ← mul_div_assoc]
      congr 1
      have h2 : ∀ (r : List ℝ) (m : ℝ), (r.map ((fun x => (x - c * m) ^ 2) ∘ (c * ·))).sum = c ^ 2 * (r.map fun x => (x - m) ^ 2).sum :=
        fun r m => by
          induction r with
          | nil => simp
          | cons a r ih => rw [List.map_cons, List.map_cons, List.sum_cons, List.sum_cons, ih, Function.comp]; ring
      rw [mul_div_assoc]
      exact h2 r _
    rw [e1, e2]
  · intro Ω _ n B lr cfg net g hg S hS gen mini θ st0 h0 hdvd us q
    refine (train Ω (Fin n → ℝ) n B (plainSgd lr) (plainSgd (lr / c)) (fun a a' => a' = a) (fun a a' e => e) (fun a a' v e => ?_) cfg net g hg
      S hS gen mini θ st0 rfl h0 hdvd us q)
    subst e
    show a' - (lr / c) • c • v = a' - lr • v
    rw [smul_smul, div_mul_cancel₀ _ hc.ne']
  · intro Ω _ n B lr β1 β2 ε cfg net g hg S hS gen mini θ st0 h0 hdvd us q
    -- the averages of a fresh Adam are zero in either unit
    refine (train Ω (AdamState n) n B (adam lr β1 β2 ε) (adam lr β1 β2 (ε * c)) (Magnified c) (fun a a' e => e.weights)
      (fun a a' v e => ?_) cfg net g hg S hS gen mini _ st0
      ⟨rfl, fun k => by simp [AdamState.fresh], fun k => by simp [AdamState.fresh], rfl⟩ h0 hdvd us q).weights
    have := magnified_update hc lr β1 β2 (ε * c) e v
    rwa [mul_div_cancel_right₀ _ hc.ne'] at this
  · obtain ⟨t, h1, h2⟩ := ht B hB logψ x hx
    refine ⟨_, _, h1, h2, by rw [List.map_map]; rfl, by simp, fun P D lr shift m => ?_⟩
    have e : ∀ f : Fin B → ℂ, (fun b : Fin B => ((List.finRange B).map f).getD b 0) = f := fun f => funext fun b => hget B f b
    rw [e, e]
    exact direct_scaled hc (fun b => D (x b)) t lr shift m

theorem tfim_linear (bonds : List (ι × ι)) (h j : ℝ) (ψ : Wave ι) (s : Config ι) :
    tfim bonds h j ψ s = h * tfim bonds 1 0 ψ s + j * tfim bonds 0 1 ψ s := by
  unfold tfim
  push_cast
  ring

theorem tfim_scaled (bonds : List (ι × ι)) (c h j : ℝ) (ψ : Wave ι) (s : Config ι) :
    tfim bonds (c * h) (c * j) ψ s = c * tfim bonds h j ψ s := by
  unfold tfim
  push_cast
  ring

/-! ### C166 -/

/-- The reports of the Ising model on a chain (`Operator` observable with `Ising.find_conn`). -/
noncomputable def chainReports (n : Nat) (pbc : Bool) (h j : ℝ) : Reports (Fin n) := fun _ logψ sample =>
  estimate logψ (Answer.ofRows (n + 1) (isingFindConn1 (.float h) j pbc sample) fun b => by rw [isingFindConn1_eq]; simp)

/-- The training targets of the Ising model on a chain. -/
noncomputable def chainTargets (n : Nat) (pbc : Bool) (h j : ℝ) : Targets (Fin n) := fun B logψ sample =>
  vmcCoefficients B logψ (Answer.ofRows (n + 1) (isingFindConn1 (.float h) j pbc sample) fun b => by rw [isingFindConn1_eq]; simp)

/-- The reports of the Ising model on a grid. -/
noncomputable def gridReports (n m : Nat) (pbc : Bool) (h j : ℝ) : Reports (Fin n × Fin m) := fun _ logψ sample =>
  estimate logψ (Answer.ofRows (n * m + 1) (isingFindConn2 (.float h) j pbc sample)
    fun b => by rw [isingFindConn2_eq]; simp [length_gridSites])

/-- The training targets of the Ising model on a grid. -/
noncomputable def gridTargets (n m : Nat) (pbc : Bool) (h j : ℝ) : Targets (Fin n × Fin m) := fun B logψ sample =>
  vmcCoefficients B logψ (Answer.ofRows (n * m + 1) (isingFindConn2 (.float h) j pbc sample)
    fun b => by rw [isingFindConn2_eq]; simp [length_gridSites])

theorem chain_closed (n : Nat) (pbc : Bool) (h j : ℝ) :
    ClosedForm (tfim (chainBonds n pbc) h j) (chainReports n pbc h j) (chainTargets n pbc h j) :=
  closedForm_of (fun _ sample => Answer.ofRows (n + 1) (isingFindConn1 (.float h) j pbc sample) fun b => by rw [isingFindConn1_eq]; simp)
    fun _ sample hs logψ => C18_ising_chain h j pbc sample hs logψ

theorem grid_closed (n m : Nat) (pbc : Bool) (h j : ℝ) :
    ClosedForm (tfim (gridBonds n m pbc) h j) (gridReports n m pbc h j) (gridTargets n m pbc h j) :=
  closedForm_of (fun _ sample => Answer.ofRows (n * m + 1) (isingFindConn2 (.float h) j pbc sample)
      fun b => by rw [isingFindConn2_eq]; simp [length_gridSites])
    fun _ sample hs logψ => C18_ising_grid h j pbc sample hs logψ

/-- **C166**, linearity for the Ising model on chains. -/
theorem C166_linear_ising_chain (n : Nat) (pbc : Bool) (h j : ℝ) :
    Combines h j (chainReports n pbc h j) (chainReports n pbc 1 0) (chainReports n pbc 0 1)
      (chainTargets n pbc h j) (chainTargets n pbc 1 0) (chainTargets n pbc 0 1) :=
  combines_of (tfim_linear _ h j) (chain_closed n pbc h j) (chain_closed n pbc 1 0) (chain_closed n pbc 0 1)

/-- **C166**, linearity for the Ising model on grids. -/
theorem C166_linear_ising_grid (n m : Nat) (pbc : Bool) (h j : ℝ) :
    Combines h j (gridReports n m pbc h j) (gridReports n m pbc 1 0) (gridReports n m pbc 0 1)
      (gridTargets n m pbc h j) (gridTargets n m pbc 1 0) (gridTargets n m pbc 0 1) :=
  combines_of (tfim_linear _ h j) (grid_closed n m pbc h j) (grid_closed n m pbc 1 0) (grid_closed n m pbc 0 1)

/-- **C166**, unit of energy for the Ising model on chains. -/
theorem C166_unit_ising_chain (n : Nat) (pbc : Bool) (h j : ℝ) {c : ℝ} (hc : 0 < c) :
    UnitFree c (chainReports n pbc h j) (chainReports n pbc (c * h) (c * j)) (chainTargets n pbc h j) (chainTargets n pbc (c * h) (c * j)) :=
  unitFree_of hc (tfim_scaled _ c h j) (chain_closed n pbc h j) (chain_closed n pbc (c * h) (c * j))

/-- **C166**, unit of energy for the Ising model on grids. -/
theorem C166_unit_ising_grid (n m : Nat) (pbc : Bool) (h j : ℝ) {c : ℝ} (hc : 0 < c) :
    UnitFree c (gridReports n m pbc h j) (gridReports n m pbc (c * h) (c * j)) (gridTargets n m pbc h j)
      (gridTargets n m pbc (c * h) (c * j)) :=
  unitFree_of hc (tfim_scaled _ c h j) (grid_closed n m pbc h j) (grid_closed n m pbc (c * h) (c * j))

open Verif.J1J2.Op in
/-- **C166**, linearity for J1-J2 on lattices of any size (periodic ones from three by three), whatever calls of the operators came
before. -/
theorem C166_linear_j1j2 (first : ℤ) (hf : first = 1 ∨ first = -1) {L1 L2 : Nat} (h1 : 0 < L1) (h2 : 0 < L2) (j2 : ℝ) (pbc : Bool)
    (hL : pbc = true → 3 ≤ L1 ∧ 3 ≤ L2) (history history0 history1 : List (List Netket.Conf)) :
    Combines (1 - j2) j2 (j1j2Estimate first L1 L2 j2 pbc history) (j1j2Estimate first L1 L2 0 pbc history0)
      (j1j2Estimate first L1 L2 1 pbc history1) (j1j2Targets first L1 L2 j2 pbc history) (j1j2Targets first L1 L2 0 pbc history0)
      (j1j2Targets first L1 L2 1 pbc history1) := by
  have hc : ∀ (j : ℝ) (hist : List (List Netket.Conf)),
      ClosedForm (hamiltonian L1 L2 pbc j) (j1j2Estimate first L1 L2 j pbc hist) (j1j2Targets first L1 L2 j pbc hist) := by
    intro j hist
    have hval := fun B (logψ : Config (Fin L1 × Fin L2) → ℂ) (x : Fin B → Config (Fin L1 × Fin L2)) (hx : ∀ b, IsSpin (x b)) =>
      clean_values first hf h1 h2 j pbc hL x hx logψ
    refine ⟨fun B hB logψ x hx => ?_, fun B hB logψ x hx => ?_⟩
    · rw [estimate_clean first hf h1 h2 j pbc hL hist hB x hx logψ]
      unfold estimate
      rw [hval B logψ x hx]
      rfl
    · rw [targets_clean first hf h1 h2 j pbc hL hist hB x hx logψ]
      unfold vmcCoefficients estimate
      rw [hval B logψ x hx]
      simp only [Option.map_some, specLocal, List.map_map]
      rfl
  refine combines_of (fun ψ s => ?_) (hc j2 history) (hc 0 history0) (hc 1 history1)
  unfold hamiltonian
  rw [Finset.mul_sum, Finset.mul_sum, ← Finset.sum_add_distrib]
  refine Finset.sum_congr rfl fun p _ => ?_
  rw [Finset.mul_sum, Finset.mul_sum, ← Finset.sum_add_distrib]
  refine Finset.sum_congr rfl fun q _ => ?_
  push_cast
  split_ifs <;> ring

/-! ### A case that meets the hypotheses -/

/-- A network whose output is its weight times the spin, with the gradient of the loss, and a sampler of two configurations. -/
example : ∃ (net : (Fin 1 → ℝ) → Config (Fin 1) → ℂ) (g : (Fin 1 → ℝ) → Config (Fin 1) × ℂ → Fin 1 → ℝ)
    (S : (Fin 1 → ℝ) → Unit → Fin 2 → Config (Fin 1)),
    (∀ θ k s y, IsSpin s → HasDerivAt (fun t => loss y (net (Function.update θ k t) s)) (g θ (s, y) k) (θ k)) ∧
    (∀ θ u b, IsSpin (S θ u b)) ∧ g 0 (fun _ => 1, 1) 0 ≠ 0 := by
  refine ⟨fun θ s => ((θ 0 * (s 0 : ℝ) : ℝ) : ℂ), fun _ p _ => 2 * ((p.1 0 : ℝ) * p.2.re), fun _ _ b _ => if b = 0 then 1 else -1,
    fun θ k s y _ => ?_, fun _ _ b _ => ?_, by norm_num⟩
  · obtain rfl : k = 0 := Subsingleton.elim _ _
    have e : (fun t => loss y ((((Function.update θ 0 t) 0 * (s 0 : ℝ) : ℝ) : ℂ))) = fun t => t * (2 * ((s 0 : ℝ) * y.re)) := by
      funext t
      unfold loss
      rw [Function.update_self, Complex.re_ofReal_mul]
      ring
    rw [e]
    simpa using (hasDerivAt_id (θ 0)).mul_const (2 * ((s 0 : ℝ) * y.re))
  · dsimp only
    split
    · exact Or.inl rfl
    · exact Or.inr rfl

end Verif.Training
