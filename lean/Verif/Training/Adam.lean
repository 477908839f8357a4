import Verif.Training.StagedUpdates
import Mathlib.Analysis.SpecialFunctions.Pow.Real
import Mathlib.Analysis.Real.Sqrt
import Mathlib.Data.Fin.VecNotation

/-!
# C165: Adam makes up for summed mini-batches and takes no long steps

The training scripts (experiments/train.py, examples/ising.py) use Adam behind gradient accumulation that sums. With plain gradient descent summing multiplies the learning
rate by the number of mini-batches (C90); with Adam it only divides `epsilon` by it. These scripts set
`beta_1 = beta_2`; then no update moves a weight by more than the learning rate.
-/
namespace Verif.Training

variable {n : Nat} {S α : Type}

/-! ### Model -/

/-- The weights and the variables of Keras' `Adam`: the moving averages `m` of the gradients and `v` of their squares, and the number
of updates so far. -/
structure AdamState (n : Nat) where
  weights : Fin n → ℝ
  m : Fin n → ℝ
  v : Fin n → ℝ
  iterations : Nat

/-- `Adam(lr=…, beta_1=…, beta_2=…)` (experiments/train.py:52, examples/ising.py:37), `get_updates` of Keras without decay and
`amsgrad` (behaviour of Keras, assumed):
`lr_t = lr * sqrt(1 - beta_2^t) / (1 - beta_1^t)`, `p -= lr_t * m / (sqrt(v) + epsilon)`. -/
noncomputable def adam (lr β1 β2 ε : ℝ) : Optimizer (AdamState n) (Fin n → ℝ) (Fin n → ℝ) where
  update st g :=
    let t := st.iterations + 1
    let lrT := lr * (Real.sqrt (1 - β2 ^ t) / (1 - β1 ^ t))
    let m := fun k => β1 * st.m k + (1 - β1) * g k
    let v := fun k => β2 * st.v k + (1 - β2) * g k ^ 2
    ⟨fun k => st.weights k - lrT * m k / (Real.sqrt (v k) + ε), m, v, t⟩
  params st := st.weights
  setParams st θ := { st with weights := θ }

/-- `Adam` before the first update. -/
def AdamState.fresh (θ : Fin n → ℝ) : AdamState n := ⟨θ, fun _ => 0, fun _ => 0, 0⟩

/-- Stages one after the other (experiments/train.py:90-130): each sets the batch size, the accumulation frequency and, by
`K.set_value` (line 111), the learning rate, and goes on with the same optimizer. `none` if `set_batch_size` raises. -/
noncomputable def adamStages (β1 β2 ε : ℝ) (cfg : AccConfig) (g : (Fin n → ℝ) → α → Fin n → ℝ)
    (draw : (Fin n → ℝ) → S → Nat → List α) (size : S → Nat) :
    List (TrainStage S × ℝ) → LoopState (AdamState n) (Fin n → ℝ) (Fin n → ℝ) S α →
      Option (LoopState (AdamState n) (Fin n → ℝ) (Fin n → ℝ) S α)
  | [], st => some st
  | (stage, lr) :: rest, st =>
    match runStage (adam lr β1 β2 ε) cfg g draw size stage st with
    | none => none
    | some st' => adamStages β1 β2 ε cfg g draw size rest st'

/-! ### Specification -/

/-- States of Adam with `beta_1 = beta_2 = β` that can come up: some updates, with any learning rates and gradients, after a fresh
start. -/
def AdamState.Reached (β : ℝ) (st : AdamState n) : Prop :=
  ∃ (θ : Fin n → ℝ) (history : List (ℝ × ℝ × (Fin n → ℝ))),
    st = history.foldl (fun st h => (adam h.1 β β h.2.1).update st h.2.2) (AdamState.fresh θ)

/-! ### Proofs -/

/-- `m² ≤ (1 - β^t) v`, which Adam keeps if both decay rates are `β`. -/
def AdamState.Tame (β : ℝ) (st : AdamState n) : Prop := ∀ k, 0 ≤ st.v k ∧ st.m k ^ 2 ≤ (1 - β ^ st.iterations) * st.v k

theorem tame_fresh (β : ℝ) (θ : Fin n → ℝ) : (AdamState.fresh θ).Tame β := fun k => by simp [AdamState.fresh]

theorem tame_update {β : ℝ} (h0 : 0 ≤ β) (h1 : β < 1) (lr ε : ℝ) {st : AdamState n} (h : st.Tame β) (g : Fin n → ℝ) :
    ((adam lr β β ε).update st g).Tame β := by
  intro k
  obtain ⟨hv, hm⟩ := h k
  have hb : 0 ≤ 1 - β := by linarith
  have ha : 0 ≤ 1 - β ^ st.iterations := by
    have : β ^ st.iterations ≤ 1 := pow_le_one₀ h0 h1.le
    linarith
  have hv' : 0 ≤ β * st.v k + (1 - β) * g k ^ 2 := by positivity
  refine ⟨hv', ?_⟩
  show (β * st.m k + (1 - β) * g k) ^ 2 ≤ (1 - β ^ (st.iterations + 1)) * (β * st.v k + (1 - β) * g k ^ 2)
  have ht : 1 - β ^ (st.iterations + 1) = β * (1 - β ^ st.iterations) + (1 - β) := by rw [pow_succ]; ring
  rw [ht]
  generalize 1 - β ^ st.iterations = a at *
  generalize st.m k = m at *
  generalize st.v k = v at *
  generalize g k = x at *
  have hcross : 2 * (m * x) ≤ a * x ^ 2 + v := by
    have h2 : (2 * (m * x)) ^ 2 ≤ (a * x ^ 2 + v) ^ 2 := by
      have h3 : m ^ 2 * x ^ 2 ≤ a * v * x ^ 2 := mul_le_mul_of_nonneg_right hm (sq_nonneg x)
      nlinarith [sq_nonneg (a * x ^ 2 - v)]
    exact le_of_abs_le ((sq_le_sq₀ (abs_nonneg _) (by positivity)).1 (by rwa [sq_abs]))
  have e : (β * a + (1 - β)) * (β * v + (1 - β) * x ^ 2) - (β * m + (1 - β) * x) ^ 2 =
      β ^ 2 * (a * v - m ^ 2) + β * (1 - β) * (a * x ^ 2 + v - 2 * (m * x)) := by ring
  have p1 : 0 ≤ β ^ 2 * (a * v - m ^ 2) := mul_nonneg (sq_nonneg β) (by linarith)
  have p2 : 0 ≤ β * (1 - β) * (a * x ^ 2 + v - 2 * (m * x)) := mul_nonneg (mul_nonneg h0 hb) (by linarith)
  linarith

theorem step_bound {β : ℝ} (h0 : 0 ≤ β) (h1 : β < 1) {lr ε : ℝ} (hlr : 0 ≤ lr) (hε : 0 ≤ ε) {st : AdamState n} (h : st.Tame β)
    (g : Fin n → ℝ) (k : Fin n) : |((adam lr β β ε).update st g).weights k - st.weights k| ≤ lr := by
  obtain ⟨hv, hm⟩ := tame_update h0 h1 lr ε h g k
  set st' := (adam lr β β ε).update st g with hst
  set a := 1 - β ^ (st.iterations + 1) with ha
  have ha0 : 0 < a := by
    have : β ^ (st.iterations + 1) < 1 := pow_lt_one₀ h0 h1 (by omega)
    rw [ha]; linarith
  have hm' : st'.m k ^ 2 ≤ a * st'.v k := hm
  have hw : st'.weights k - st.weights k = -(lr * (Real.sqrt a / a) * st'.m k / (Real.sqrt (st'.v k) + ε)) := by
    show st.weights k - _ - st.weights k = _
    rw [sub_sub_cancel_left]
    rfl
  have habs : |st'.m k| ≤ Real.sqrt a * Real.sqrt (st'.v k) := by
    rw [← Real.sqrt_mul ha0.le]
    exact Real.abs_le_sqrt hm'
  have hsa : Real.sqrt a / a * Real.sqrt a = 1 := by
    rw [div_mul_eq_mul_div, Real.mul_self_sqrt ha0.le, div_self ha0.ne']
  rw [hw, abs_neg, abs_div, abs_mul, abs_of_nonneg (by positivity : 0 ≤ lr * (Real.sqrt a / a)),
    abs_of_nonneg (by positivity : 0 ≤ Real.sqrt (st'.v k) + ε)]
  refine div_le_of_le_mul₀ (by positivity) hlr ?_
  calc lr * (Real.sqrt a / a) * |st'.m k| ≤ lr * (Real.sqrt a / a) * (Real.sqrt a * Real.sqrt (st'.v k)) :=
        mul_le_mul_of_nonneg_left habs (by positivity)
    _ = lr * (Real.sqrt a / a * Real.sqrt a) * Real.sqrt (st'.v k) := by ring
    _ = lr * Real.sqrt (st'.v k) := by rw [hsa, mul_one]
    _ ≤ lr * (Real.sqrt (st'.v k) + ε) := mul_le_mul_of_nonneg_left (by linarith) hlr

theorem tame_of_reached {β : ℝ} (h0 : 0 ≤ β) (h1 : β < 1) {st : AdamState n} (h : st.Reached β) : st.Tame β := by
  obtain ⟨θ, history, rfl⟩ := h
  suffices H : ∀ (l : List (ℝ × ℝ × (Fin n → ℝ))) (s : AdamState n), s.Tame β →
      (l.foldl (fun st h => (adam h.1 β β h.2.1).update st h.2.2) s).Tame β from H history _ (tame_fresh β θ)
  intro l
  induction l with
  | nil => intro s hs; exact hs
  | cons x l ih => intro s hs; exact ih _ (tame_update h0 h1 _ _ hs _)

theorem reached_update {β : ℝ} (lr ε : ℝ) {st : AdamState n} (h : st.Reached β) (g : Fin n → ℝ) :
    ((adam lr β β ε).update st g).Reached β := by
  obtain ⟨θ, history, rfl⟩ := h
  exact ⟨θ, history ++ [(lr, ε, g)], by rw [List.foldl_append]; rfl⟩

/-- After `k` steps of `fit_generator` no weight has moved further than the learning rate times the number of updates. -/
theorem fit_bound {β : ℝ} (h0 : 0 ≤ β) (h1 : β < 1) {lr ε : ℝ} (hlr : 0 ≤ lr) (hε : 0 ≤ ε) (cfg : AccConfig)
    (g : (Fin n → ℝ) → α → Fin n → ℝ) (draw : (Fin n → ℝ) → S → Nat → List α) (f : Nat) : ∀ (k : Nat)
    (st : LoopState (AdamState n) (Fin n → ℝ) (Fin n → ℝ) S α), st.acc.opt.Reached β → st.acc.updateParamsFrequency = f →
    (fitGenerator (adam lr β β ε) cfg g draw k st).acc.opt.Reached β ∧
    ∀ i, |(fitGenerator (adam lr β β ε) cfg g draw k st).acc.opt.weights i - st.acc.opt.weights i| ≤
      lr * (((st.acc.accumulatedIterations + k) / f : Nat) - (st.acc.accumulatedIterations / f : Nat) : ℝ) := by
  intro k
  induction k with
  | zero => intro st hst hf; exact ⟨hst, fun i => by simp [fitGenerator]⟩
  | succ k ih =>
    intro st hst hf
    set r := nextMiniBatch (draw ((adam lr β β ε).params st.acc.opt)) st.gen with hr
    set x := kerasGradient g ((adam lr β β ε).params st.acc.opt) r.2 with hx
    set st1 := loopStep (adam lr β β ε) cfg g draw st with hst1
    have hacc : st1.acc = accStep (adam lr β β ε) cfg st.acc x := rfl
    have hone : st1.acc.opt.Reached β ∧ st1.acc.updateParamsFrequency = f ∧
        st1.acc.accumulatedIterations = st.acc.accumulatedIterations + 1 ∧
        ∀ i, |st1.acc.opt.weights i - st.acc.opt.weights i| ≤
          lr * (((st.acc.accumulatedIterations + 1) / f : Nat) - (st.acc.accumulatedIterations / f : Nat) : ℝ) := by
      rw [hacc]
      unfold accStep
      dsimp only
      rw [Nat.succ_div, hf]
      split
      · rename_i hc
        refine ⟨reached_update _ _ hst _, rfl, rfl, fun i => ?_⟩
        rw [if_pos (Nat.dvd_of_mod_eq_zero hc)]
        push_cast
        rw [add_sub_cancel_left, mul_one]
        exact step_bound h0 h1 hlr hε (tame_of_reached h0 h1 hst) _ i
      · rename_i hc
        refine ⟨hst, rfl, rfl, fun i => ?_⟩
        rw [if_neg fun h => hc (Nat.mod_eq_zero_of_dvd h)]
        simp
    obtain ⟨a1, a2, a3, a4⟩ := hone
    obtain ⟨b1, b2⟩ := ih st1 a1 a2
    refine ⟨b1, fun i => ?_⟩
    have e : st.acc.accumulatedIterations + (k + 1) = st1.acc.accumulatedIterations + k := by rw [a3]; omega
    rw [e]
    have t := abs_sub_le ((fitGenerator (adam lr β β ε) cfg g draw k st1).acc.opt.weights i) (st1.acc.opt.weights i)
      (st.acc.opt.weights i)
    have t1 := b2 i
    have t2 := a4 i
    rw [← a3] at t2
    show |(fitGenerator (adam lr β β ε) cfg g draw k st1).acc.opt.weights i - _| ≤ _
    nlinarith

/-- The state of Adam with gradients `c` times as large. -/
structure Magnified (c : ℝ) (st st' : AdamState n) : Prop where
  weights : st'.weights = st.weights
  m : ∀ k, st'.m k = c * st.m k
  v : ∀ k, st'.v k = c ^ 2 * st.v k
  iterations : st'.iterations = st.iterations

theorem magnified_update {c : ℝ} (hc : 0 < c) (lr β1 β2 ε : ℝ) {st st' : AdamState n} (h : Magnified c st st') (g : Fin n → ℝ) :
    Magnified c ((adam lr β1 β2 (ε / c)).update st g) ((adam lr β1 β2 ε).update st' (c • g)) := by
  obtain ⟨h1, h2, h3, h4⟩ := h
  have e1 : ∀ k, β1 * st'.m k + (1 - β1) * (c • g) k = c * (β1 * st.m k + (1 - β1) * g k) := fun k => by
    rw [h2, Pi.smul_apply, smul_eq_mul]; ring
  have e2 : ∀ k, β2 * st'.v k + (1 - β2) * (c • g) k ^ 2 = c ^ 2 * (β2 * st.v k + (1 - β2) * g k ^ 2) := fun k => by
    rw [h3, Pi.smul_apply, smul_eq_mul]; ring
  refine ⟨funext fun k => ?_, e1, e2, by show st'.iterations + 1 = st.iterations + 1; rw [h4]⟩
  show st'.weights k - lr * (Real.sqrt (1 - β2 ^ (st'.iterations + 1)) / (1 - β1 ^ (st'.iterations + 1))) *
      (β1 * st'.m k + (1 - β1) * (c • g) k) / (Real.sqrt (β2 * st'.v k + (1 - β2) * (c • g) k ^ 2) + ε) =
    st.weights k - lr * (Real.sqrt (1 - β2 ^ (st.iterations + 1)) / (1 - β1 ^ (st.iterations + 1))) *
      (β1 * st.m k + (1 - β1) * g k) / (Real.sqrt (β2 * st.v k + (1 - β2) * g k ^ 2) + ε / c)
  rw [e1, e2, h1, h4, Real.sqrt_mul (sq_nonneg c), Real.sqrt_sq hc.le]
  have e3 : ∀ x : ℝ, c * x + ε = c * (x + ε / c) := fun x => by field_simp
  rw [e3, mul_left_comm, mul_div_mul_left _ _ hc.ne']

theorem magnified_batches {c : ℝ} (hc : 0 < c) (lr β1 β2 ε : ℝ) (g : (Fin n → ℝ) → α → Fin n → ℝ) (d : (Fin n → ℝ) → Nat → List α)
    {st st' : AdamState n} (h : Magnified c st st') (q : Nat) :
    Magnified c (wholeBatches (adam lr β1 β2 (ε / c)) g d 1 st q) (wholeBatches (adam lr β1 β2 ε) g d c st' q) := by
  induction q with
  | zero => exact h
  | succ q ih =>
    simp only [wholeBatches, one_smul]
    have hp : (adam lr β1 β2 ε).params (wholeBatches (adam lr β1 β2 ε) g d c st' q) =
        (adam lr β1 β2 (ε / c)).params (wholeBatches (adam lr β1 β2 (ε / c)) g d 1 st q) := ih.weights
    rw [hp]
    exact magnified_update hc lr β1 β2 ε ih _

/-! ### C165 -/

/-- **C165, mini-batches.** Training with Adam and summed mini-batches (the setting of the scripts) gives after every batch exactly the
weights of training on whole batches with `epsilon` divided by the number of mini-batches per batch. -/
theorem C165_mini_batches (lr β1 β2 ε : ℝ) (cfg : AccConfig) (hcfg : cfg.accumulateSum = true) (g : (Fin n → ℝ) → α → Fin n → ℝ)
    (draw : (Fin n → ℝ) → S → Nat → List α) (size : S → Nat) (gen : MBState S α) (s : S) (mini : Nat) (θ : Fin n → ℝ)
    (split whole : LoopState (AdamState n) (Fin n → ℝ) (Fin n → ℝ) S α)
    (hs : setupLoop size gen s (some mini) (AdamState.fresh θ) = some split)
    (hw : setupLoop size gen s none (AdamState.fresh θ) = some whole) (hdvd : mini ∣ size s)
    (hlen : ∀ p k, (draw p s k).length = size s) (q : Nat) :
    (fitGenerator (adam lr β1 β2 ε) cfg g draw (q * (size s / mini)) split).acc.opt.weights =
      (fitGenerator (adam lr β1 β2 (ε / (size s / mini : Nat))) cfg g draw q whole).acc.opt.weights := by
  obtain ⟨f, hf, hm, hB, hfe, -⟩ := setup_between size gen s (some mini) _ split hs hdvd
  have hpos : 0 < size s := by rw [hB]; exact Nat.mul_pos hf hm
  have hc : (0 : ℝ) < (size s / mini : Nat) := by
    have : f = size s / mini := hfe
    rw [← this]
    exact_mod_cast hf
  have e1 := C90_sum_scales (adam lr β1 β2 ε) cfg hcfg g draw size gen s (some mini) _ split hs hdvd hlen q
  have e2 := C90_sum_scales (adam lr β1 β2 (ε / (size s / mini : Nat))) cfg hcfg g draw size gen s none _ whole hw (dvd_refl _) hlen q
  simp only [Option.getD_none, Option.getD_some, Nat.div_self hpos, mul_one, Nat.cast_one] at e1 e2
  rw [e1, e2]
  exact (magnified_batches hc lr β1 β2 ε g _ ⟨rfl, fun k => by simp [AdamState.fresh], fun k => by simp [AdamState.fresh], rfl⟩ q).weights

/-- **C165, steps.** With `beta_1 = beta_2` (experiments/train.py:52, examples/ising.py:37) no training step moves a weight by more
than the learning rate, whatever the samples, their gradients, the mini-batch size and the mode of accumulation, and whatever
happened before. -/
theorem C165_steps {β : ℝ} (h0 : 0 ≤ β) (h1 : β < 1) {lr ε : ℝ} (hlr : 0 ≤ lr) (hε : 0 ≤ ε) (cfg : AccConfig)
    (g : (Fin n → ℝ) → α → Fin n → ℝ) (draw : (Fin n → ℝ) → S → Nat → List α)
    (st : LoopState (AdamState n) (Fin n → ℝ) (Fin n → ℝ) S α) (hst : st.acc.opt.Reached β) (k : Nat) :
    (fitGenerator (adam lr β β ε) cfg g draw k st).acc.opt.Reached β ∧
    ∀ i, |(fitGenerator (adam lr β β ε) cfg g draw (k + 1) st).acc.opt.weights i -
      (fitGenerator (adam lr β β ε) cfg g draw k st).acc.opt.weights i| ≤ lr := by
  have hadd : ∀ (a : Nat) (s : LoopState (AdamState n) (Fin n → ℝ) (Fin n → ℝ) S α),
      fitGenerator (adam lr β β ε) cfg g draw (a + 1) s =
        fitGenerator (adam lr β β ε) cfg g draw 1 (fitGenerator (adam lr β β ε) cfg g draw a s) := by
    intro a
    induction a with
    | zero => intro s; rfl
    | succ a ih => intro s; exact ih (loopStep (adam lr β β ε) cfg g draw s)
  have h := (fit_bound h0 h1 hlr hε cfg g draw _ k st hst rfl).1
  refine ⟨h, fun i => ?_⟩
  rw [hadd]
  refine ((fit_bound h0 h1 hlr hε cfg g draw _ 1 _ h rfl).2 i).trans ?_
  rw [Nat.succ_div]
  refine (mul_le_mul_of_nonneg_left (b := _) (c := 1) ?_ hlr).trans (mul_one lr).le
  split <;> push_cast <;> linarith

/-- **C165, stages.** Through any stages, aligned (C91) or not, no weight ends further from where it started than the sum over the
stages of the number of batches times the learning rate. -/
theorem C165_stages {β : ℝ} (h0 : 0 ≤ β) (h1 : β < 1) {ε : ℝ} (hε : 0 ≤ ε) (cfg : AccConfig)
    (g : (Fin n → ℝ) → α → Fin n → ℝ) (draw : (Fin n → ℝ) → S → Nat → List α) (size : S → Nat) :
    ∀ (stages : List (TrainStage S × ℝ)), (∀ stage ∈ stages, 0 ≤ stage.2) →
    ∀ st st' : LoopState (AdamState n) (Fin n → ℝ) (Fin n → ℝ) S α, st.acc.opt.Reached β →
    adamStages β β ε cfg g draw size stages st = some st' →
    ∀ i, |st'.acc.opt.weights i - st.acc.opt.weights i| ≤ (stages.map fun stage => (stage.1.batches : ℝ) * stage.2).sum := by
  intro stages
  induction stages with
  | nil =>
    intro _ st st' _ h i
    obtain rfl := Option.some.inj h
    simp
  | cons x rest ih =>
    obtain ⟨stage, lr⟩ := x
    intro hlr st st' hst h i
    unfold adamStages at h
    cases hr : runStage (adam lr β β ε) cfg g draw size stage st with
    | none => rw [hr] at h; simp at h
    | some st1 =>
      rw [hr] at h
      have hone : st1.acc.opt.Reached β ∧ |st1.acc.opt.weights i - st.acc.opt.weights i| ≤ stage.batches * lr := by
        unfold runStage at hr
        split at hr
        · simp at hr
        · rename_i gen hgen
          obtain rfl := Option.some.inj hr
          have hb := fit_bound h0 h1 (hlr (stage, lr) (by simp) : 0 ≤ lr) hε cfg g draw gen.updateParamsFrequency
            (stage.batches * gen.updateParamsFrequency) ⟨gen, setUpdateParamsFrequency st.acc gen.updateParamsFrequency⟩ hst rfl
          refine ⟨hb.1, (hb.2 i).trans ?_⟩
          rcases Nat.eq_zero_or_pos gen.updateParamsFrequency with hz | hpos
          · rw [hz]
            simp only [Nat.div_zero, sub_self, mul_zero]
            have := hlr _ (List.mem_cons_self (a := (stage, lr)) (l := rest))
            positivity
          · rw [Nat.add_mul_div_right _ _ hpos]
            push_cast
            rw [add_sub_cancel_left, mul_comm]
      have h2 := ih (fun s hs => hlr s (by simp [hs])) st1 st' hone.1 h i
      have t := abs_sub_le (st'.acc.opt.weights i) (st1.acc.opt.weights i) (st.acc.opt.weights i)
      rw [List.map_cons, List.sum_cons]
      linarith [hone.2]

theorem idle (lr β1 β2 ε : ℝ) (θ : Fin n → ℝ) (k : Nat) :
    (List.replicate k (fun _ => 0)).foldl (adam lr β1 β2 ε).update (AdamState.fresh θ) = ⟨θ, fun _ => 0, fun _ => 0, k⟩ := by
  induction k with
  | zero => rfl
  | succ k ih =>
    rw [List.replicate_succ', List.foldl_append, ih]
    simp [adam]

/-- **C165, unequal decay rates.** With the decay rates of the other scripts (src/flowket/main.py:49, most examples; the defaults of Keras) the bound fails: after a long
time without gradient a weight moves by more than the learning rate. -/
theorem C165_unequal_rates {lr : ℝ} (hlr : 0 < lr) : ∃ (history : List (Fin 1 → ℝ)) (g : Fin 1 → ℝ),
    lr < |((adam lr 0.9 0.999 0.0000001).update
        (history.foldl (adam lr 0.9 0.999 0.0000001).update (AdamState.fresh fun _ => 0)) g).weights 0 -
      (history.foldl (adam lr 0.9 0.999 0.0000001).update (AdamState.fresh fun _ => 0)).weights 0| := by
  refine ⟨List.replicate 199 fun _ => 0, fun _ => 1, ?_⟩
  rw [idle]
  have e : ((adam lr 0.9 0.999 0.0000001).update (⟨fun _ => 0, fun _ => 0, fun _ => 0, 199⟩ : AdamState 1) fun _ => 1).weights 0 - 0 =
      -(lr * (Real.sqrt (1 - 0.999 ^ 200) / (1 - 0.9 ^ 200) * 0.1 / (Real.sqrt 0.001 + 0.0000001))) := by
    simp only [adam]
    norm_num
    ring
  show lr < |((adam lr 0.9 0.999 0.0000001).update (⟨fun _ => 0, fun _ => 0, fun _ => 0, 199⟩ : AdamState 1) fun _ => 1).weights 0 - 0|
  rw [e, abs_neg]
  have h1 : (0.42 : ℝ) ≤ Real.sqrt (1 - 0.999 ^ 200) := Real.le_sqrt_of_sq_le (by norm_num)
  have h2 : Real.sqrt 0.001 ≤ 0.0317 := Real.sqrt_le_iff.2 (by norm_num)
  have h3 : (0 : ℝ) < 1 - 0.9 ^ 200 ∧ (1 : ℝ) - 0.9 ^ 200 ≤ 1 := by norm_num
  have h4 : 0.42 ≤ Real.sqrt (1 - 0.999 ^ 200) / (1 - 0.9 ^ 200) := by
    rw [le_div_iff₀ h3.1]
    nlinarith [h3.2]
  have h5 : (1 : ℝ) < Real.sqrt (1 - 0.999 ^ 200) / (1 - 0.9 ^ 200) * 0.1 / (Real.sqrt 0.001 + 0.0000001) := by
    rw [lt_div_iff₀ (by positivity)]
    linarith
  refine lt_of_lt_of_le ?_ (le_abs_self _)
  nlinarith

/-- The hypotheses of `C165_mini_batches` and `C165_steps`: batches of 12 samples, cut into 3 mini-batches or not at all. -/
example : ∃ split whole : LoopState (AdamState 2) (Fin 2 → ℝ) (Fin 2 → ℝ) Unit ℝ,
    setupLoop (fun _ => 12) ⟨(), 1, 1, 1, 1, [], 0⟩ () (some 4) (AdamState.fresh ![1, 2]) = some split ∧
    setupLoop (fun _ => 12) ⟨(), 1, 1, 1, 1, [], 0⟩ () none (AdamState.fresh ![1, 2]) = some whole ∧
    4 ∣ (fun _ : Unit => 12) () ∧ split.acc.opt.Reached 0.9 :=
  ⟨_, _, rfl, rfl, by decide, ![1, 2], [], rfl⟩

/-- The hypotheses of `C165_stages`: two stages with falling learning rate, not aligned. -/
example : ∃ st' : LoopState (AdamState 1) (Fin 1 → ℝ) (Fin 1 → ℝ) Nat ℝ,
    adamStages 0.9 0.9 0 ⟨true, 0⟩ (fun θ x _ => x + θ 0) (fun _ b _ => List.replicate b 1) id
      [(⟨4, 2, 3⟩, 0.1), (⟨6, 1, 5⟩, 0.01)] ⟨⟨0, 1, 1, 1, 1, [], 0⟩, ⟨AdamState.fresh fun _ => 0, 0, 0, 1, 0, 0⟩⟩ = some st' ∧
    (AdamState.fresh (fun _ : Fin 1 => (0 : ℝ))).Reached 0.9 :=
  ⟨_, rfl, fun _ => 0, [], rfl⟩

end Verif.Training
