import Verif.Training.AccumulateProps
import Verif.Training.MiniBatchProps

/-!
# C90: the mini-batch size changes memory use, not the training

The training loop of `examples/ising.py:36-40,110-127` and `experiments/train.py:53,110-127`: a
`VariationalMonteCarlo` generator hands out mini-batches, Keras computes the gradient of the mini-batch,
the accumulating optimizer collects the gradients and updates the parameters every
`update_params_frequency` mini-batches.
-/
namespace Verif.Training

variable {Opt G P S α : Type} [AddCommGroup G] [Module ℝ G] [AddCommGroup P] [Module ℝ P]

/-! ### Model -/

/-- The gradient Keras hands to the optimizer (accumulate_gradient_optimizer.py:60): the loss of
`src/flowket/optimization/loss.py:4-5` is one number per sample, and Keras takes the mean of these numbers
over the samples given to one training step (the default reduction of `model.compile`; behaviour of Keras,
assumed). `g p a` is the gradient of the loss of the single sample `a` (configuration and target). -/
noncomputable def kerasGradient (g : P → α → G) (p : P) (rows : List α) : G :=
  (1 / (rows.length : ℝ)) • (rows.map (g p)).sum

/-- Generator and optimizer during `model.fit_generator(..., max_queue_size=0, workers=0)`
(examples/ising.py:124-127). -/
structure LoopState (Opt G P S α : Type) where
  gen : MBState S α
  acc : AccState Opt G P

/-- One step of `fit_generator`: ask the generator for a mini-batch, train on it. With `workers=0` the
mini-batch is generated right before it is used. A batch is drawn with the parameters of that moment
(variational_monte_carlo.py:42-50): `draw p s k`. -/
noncomputable def loopStep (o : Optimizer Opt G P) (cfg : AccConfig) (g : P → α → G)
    (draw : P → S → Nat → List α) (st : LoopState Opt G P S α) : LoopState Opt G P S α :=
  let r := nextMiniBatch (draw (o.params st.acc.opt)) st.gen
  ⟨r.1, accStep o cfg st.acc (kerasGradient g (o.params st.acc.opt) r.2)⟩

/-- `k` steps of `fit_generator` (`steps_per_epoch` times the number of epochs, examples/ising.py:124-127). -/
noncomputable def fitGenerator (o : Optimizer Opt G P) (cfg : AccConfig) (g : P → α → G)
    (draw : P → S → Nat → List α) : Nat → LoopState Opt G P S α → LoopState Opt G P S α
  | 0, st => st
  | k + 1, st => fitGenerator o cfg g draw k (loopStep o cfg g draw st)

/-- The setup of examples/ising.py:36-40,101-110: install the sampler with the mini-batch size, convert the
optimizer with the frequency the generator advertises (there: convert with 1, set the frequency before the
first training step, which leads to the same state). `none` if one of them raises. -/
noncomputable def setupLoop (size : S → Nat) (st : MBState S α) (s : S) (mini : Option Nat) (opt : Opt) :
    Option (LoopState Opt G P S α) :=
  match setSampler size st s mini with
  | none => none
  | some gen => (convert opt gen.updateParamsFrequency).map fun acc => ⟨gen, acc⟩

/-! ### Specification -/

/-- Training on whole batches: the `n`-th update uses `scale` times the mean of the gradients of all
samples of the `n`-th batch, drawn with and taken at the parameters before the update. -/
noncomputable def wholeBatches (o : Optimizer Opt G P) (g : P → α → G) (batch : P → Nat → List α) (scale : ℝ)
    (opt : Opt) : Nat → Opt
  | 0 => opt
  | n + 1 =>
    let opt := wholeBatches o g batch scale opt n
    let rows := batch (o.params opt) n
    o.update opt (scale • (1 / (rows.length : ℝ)) • (rows.map (g (o.params opt))).sum)

/-! ### Lemmas -/

theorem loop_eq (o : Optimizer Opt G P) (cfg : AccConfig) (g : P → α → G) (draw : P → S → Nat → List α) (f : Nat) :
    ∀ (k : Nat) (st : LoopState Opt G P S α), st.acc.updateParamsFrequency = f →
      st.acc.accumulatedIterations % f + k ≤ f →
    fitGenerator o cfg g draw k st =
      ⟨(nexts (draw (o.params st.acc.opt)) k st.gen).1,
        accTrain o cfg (kerasGradient g) st.acc (nexts (draw (o.params st.acc.opt)) k st.gen).2⟩ := by
  intro k
  induction k with
  | zero => intro st _ _; rfl
  | succ k ih =>
    intro st hf hle
    rcases Nat.eq_zero_or_pos k with rfl | hk
    · rfl
    · have hmod : (st.acc.accumulatedIterations + 1) % f = st.acc.accumulatedIterations % f + 1 :=
        mod_add_lt (by omega)
      have hopt : ∀ x, (accStep o cfg st.acc x).opt = st.acc.opt ∧
          (accStep o cfg st.acc x).updateParamsFrequency = f ∧
          (accStep o cfg st.acc x).accumulatedIterations = st.acc.accumulatedIterations + 1 := by
        intro x
        unfold accStep
        simp only [hf]
        rw [if_neg (by omega)]
        exact ⟨rfl, rfl, rfl⟩
      have hx := hopt (kerasGradient g (o.params st.acc.opt)
        (nextMiniBatch (draw (o.params st.acc.opt)) st.gen).2)
      have h1 := ih (loopStep o cfg g draw st) hx.2.1 (by
        show (accStep o cfg st.acc _).accumulatedIterations % f + k ≤ f
        rw [hx.2.2, hmod]; omega)
      show fitGenerator o cfg g draw k (loopStep o cfg g draw st) = _
      rw [h1]
      have h2 : o.params (loopStep o cfg g draw st).acc.opt = o.params st.acc.opt :=
        congrArg o.params hx.1
      rw [h2]
      rfl

theorem kerasGradient_blocks (g : P → α → G) (p : P) (m : Nat) (hm : 0 < m) (blocks : List (List α))
    (hb : ∀ b ∈ blocks, b.length = m) :
    (blocks.map (kerasGradient g p)).sum = (1 / (m : ℝ)) • (blocks.flatten.map (g p)).sum := by
  induction blocks with
  | nil => simp
  | cons b bs ih =>
    rw [List.map_cons, List.sum_cons, ih (fun x hx => hb x (by simp [hx])), List.flatten_cons, List.map_append,
      List.sum_append, smul_add]
    congr 1
    unfold kerasGradient
    rw [hb b (by simp)]

/-- State between two batches. -/
structure Between (s : S) (B m f c : Nat) (st : LoopState Opt G P S α) : Prop where
  sampler : st.gen.sampler = s
  batchSize : st.gen.batchSize = B
  mini : st.gen.miniBatchSize = m
  idx : st.gen.idx = B
  drawn : st.gen.drawn = c
  freq : st.acc.updateParamsFrequency = f
  acc : st.acc.accumulators = 0
  iter : st.acc.accumulatedIterations % f = 0

/-- The scale of the accumulated gradient relative to the mean over the whole batch. -/
noncomputable def accScale (cfg : AccConfig) (f : Nat) : ℝ := if cfg.accumulateSum then f else 1

theorem block (o : Optimizer Opt G P) (cfg : AccConfig) (g : P → α → G) (draw : P → S → Nat → List α)
    (s : S) (m f c : Nat) (hm : 0 < m) (hf : 0 < f)
    (hlen : ∀ p k, (draw p s k).length = f * m) (st : LoopState Opt G P S α)
    (h : Between s (f * m) m f c st) :
    Between s (f * m) m f (c + 1) (fitGenerator o cfg g draw f st) ∧
    (fitGenerator o cfg g draw f st).acc.opt =
      (let rows := draw (o.params st.acc.opt) s c
       o.update st.acc.opt (accScale cfg f • (1 / (rows.length : ℝ)) •
        (rows.map (g (o.params st.acc.opt))).sum)) := by
  have hmB : m ≤ f * m := Nat.le_mul_of_pos_left m hf
  have hdiv : f * m / m = f := Nat.mul_div_cancel _ hm
  set p := o.params st.acc.opt with hp
  have inv0 : MBInv (draw p) s (f * m) m c 0 st.gen :=
    ⟨h.sampler, h.batchSize, h.mini, Or.inl ⟨rfl, h.drawn, h.idx⟩⟩
  obtain ⟨inv, hout⟩ := nexts_inv (draw p) s (f * m) m c hm hmB f 0 st.gen inv0
  rw [hdiv] at hout
  have hout' : (nexts (draw p) f st.gen).2 = (List.range' 0 f).map fun j =>
      slice (draw p s c) (j * m) ((j + 1) * m) := by
    rw [hout]
    refine List.map_congr_left fun t ht => ?_
    have ht' : t < f := by simpa using ht
    rw [Nat.div_eq_of_lt ht', Nat.mod_eq_of_lt ht', Nat.add_zero]
  have hflat : ((nexts (draw p) f st.gen).2).flatten = draw p s c := by
    rw [hout', slices_join]
    simp only [slice, zero_mul, List.drop_zero, Nat.zero_add]
    rw [List.take_of_length_le (by rw [hlen])]
  have hmini : ∀ b ∈ (nexts (draw p) f st.gen).2, b.length = m := by
    intro b hb
    rw [hout'] at hb
    obtain ⟨j, hj, rfl⟩ := List.mem_map.mp hb
    have hj' : j < f := by simpa using hj
    have h1 : (j + 1) * m ≤ f * m := Nat.mul_le_mul_right _ hj'
    simp only [slice, List.length_drop, List.length_take, hlen, Nat.min_eq_left h1]
    rw [add_mul, one_mul]; omega
  have hcount : ((nexts (draw p) f st.gen).2).length = f := by rw [hout']; simp
  rw [loop_eq o cfg g draw f f st h.freq (by rw [h.iter]; omega)]
  have hup := accTrain_to_update o cfg (kerasGradient g) f (nexts (draw p) f st.gen).2 st.acc h.freq
    (by rw [h.iter, hcount]; omega) (by omega)
  rw [← hp, hup]
  have hB : (draw p s c).length = f * m := hlen p c
  refine ⟨⟨inv.sampler, inv.batchSize, inv.mini, ?_, ?_, rfl, rfl, ?_⟩, ?_⟩
  · rcases inv.pos with ⟨h0, -⟩ | ⟨-, -, hi, -⟩
    · omega
    · simp only [Nat.zero_add] at hi
      rw [hi, hdiv, Nat.mod_eq_of_lt (by omega)]
      congr 1; omega
  · rcases inv.pos with ⟨h0, -⟩ | ⟨-, hd, -⟩
    · omega
    · simp only [Nat.zero_add] at hd
      rw [hd, hdiv, Nat.div_eq_of_lt (by omega)]
  · show (st.acc.accumulatedIterations + _) % f = 0
    rw [hcount, Nat.add_mod_right, h.iter]
  · show o.update st.acc.opt _ = o.update st.acc.opt _
    congr 1
    rw [h.acc, zero_add]
    unfold contribution accScale
    rw [← hp, kerasGradient_blocks g p m hm _ hmini, hflat, hB]
    have hmR : (m : ℝ) ≠ 0 := by exact_mod_cast hm.ne'
    have hfR : (f : ℝ) ≠ 0 := by exact_mod_cast hf.ne'
    split
    · rw [smul_smul]
      congr 1
      push_cast
      field_simp
    · rw [smul_smul, one_smul]
      congr 1
      push_cast
      field_simp

theorem fitGenerator_add (o : Optimizer Opt G P) (cfg : AccConfig) (g : P → α → G)
    (draw : P → S → Nat → List α) : ∀ (a b : Nat) (st : LoopState Opt G P S α),
    fitGenerator o cfg g draw (a + b) st = fitGenerator o cfg g draw b (fitGenerator o cfg g draw a st) := by
  intro a
  induction a with
  | zero => intro b st; rw [Nat.zero_add]; rfl
  | succ a ih => intro b st; rw [Nat.add_right_comm]; exact ih b _

theorem blocks (o : Optimizer Opt G P) (cfg : AccConfig) (g : P → α → G) (draw : P → S → Nat → List α)
    (s : S) (m f c : Nat) (hm : 0 < m) (hf : 0 < f)
    (hlen : ∀ p k, (draw p s k).length = f * m) (st : LoopState Opt G P S α)
    (h : Between s (f * m) m f c st) : ∀ q : Nat,
    Between s (f * m) m f (c + q) (fitGenerator o cfg g draw (q * f) st) ∧
    (fitGenerator o cfg g draw (q * f) st).acc.opt =
      wholeBatches o g (fun p k => draw p s (c + k)) (accScale cfg f) st.acc.opt q := by
  intro q
  induction q with
  | zero => rw [Nat.zero_mul]; exact ⟨h, rfl⟩
  | succ q ih =>
    obtain ⟨h1, h2⟩ := ih
    obtain ⟨h3, h4⟩ := block o cfg g draw s m f (c + q) hm hf hlen _ h1
    rw [add_mul, one_mul, fitGenerator_add]
    refine ⟨h3, ?_⟩
    rw [h4, h2]
    rfl

theorem setup_between (size : S → Nat) (st : MBState S α) (s : S) (mini : Option Nat) (opt : Opt)
    (st0 : LoopState Opt G P S α) (h0 : setupLoop size st s mini opt = some st0)
    (hdvd : mini.getD (size s) ∣ size s) :
    ∃ f, 0 < f ∧ 0 < mini.getD (size s) ∧ size s = f * mini.getD (size s) ∧ f = size s / mini.getD (size s) ∧
      Between s (size s) (mini.getD (size s)) f st.drawn st0 ∧ st0.acc.opt = opt := by
  unfold setupLoop at h0
  cases hg : setSampler size st s mini with
  | none => rw [hg] at h0; exact absurd h0 (by simp)
  | some gen =>
    rw [hg] at h0
    obtain ⟨e1, e2, e3, e4, e5, e6, e7, e8, -⟩ := setBatchSize_spec _ _ _ _ hg
    have hpos : 0 < size s := by omega
    have hle : mini.getD (size s) ≤ size s := Nat.le_of_dvd hpos hdvd
    rw [Nat.min_eq_left hle] at e5
    set m := mini.getD (size s)
    obtain ⟨f, hf⟩ := hdvd
    have hm : 0 < m := by omega
    have hfpos : 0 < f := by
      rcases Nat.eq_zero_or_pos f with h | h
      · subst h; simp at hf; omega
      · exact h
    have hceil : gen.updateParamsFrequency = f := by
      rw [e7, e5, ceilDiv, hf, Nat.add_sub_assoc (by omega), Nat.mul_add_div hm,
        Nat.div_eq_of_lt (by omega)]; omega
    simp only [convert, hceil] at h0
    rw [if_neg (by omega)] at h0
    obtain rfl := Option.some.inj h0
    refine ⟨f, hfpos, hm, by rw [hf, mul_comm], by rw [hf, Nat.mul_div_cancel_left _ hm], ?_, rfl⟩
    exact ⟨e1, e2, e5, e6, e8, rfl, rfl, Nat.zero_mod _⟩

/-! ### C90 -/

/-- C90, partial: with mean accumulation (`accumulate_sum_or_mean=False`) and any mini-batch size that
divides the batch size, after any number `q` of whole batches the optimizer is where training on whole
batches would be: the mini-batch size does not occur in the result. (`mini = none` is no splitting.)
Missing: sum accumulation, the default, where it is false (`C90_violated`), and sizes that do not divide
(`C25_tail_dropped`). -/
theorem C90_mean_partial (o : Optimizer Opt G P) (cfg : AccConfig) (hcfg : cfg.accumulateSum = false)
    (g : P → α → G) (draw : P → S → Nat → List α) (size : S → Nat) (st : MBState S α) (s : S)
    (mini : Option Nat) (opt : Opt) (st0 : LoopState Opt G P S α)
    (h0 : setupLoop size st s mini opt = some st0) (hdvd : mini.getD (size s) ∣ size s)
    (hlen : ∀ p k, (draw p s k).length = size s) (q : Nat) :
    (fitGenerator o cfg g draw (q * (size s / mini.getD (size s))) st0).acc.opt =
      wholeBatches o g (fun p k => draw p s (st.drawn + k)) 1 opt q := by
  obtain ⟨f, hf, hm, hB, hfe, hb, ho⟩ := setup_between size st s mini opt st0 h0 hdvd
  rw [← hfe]
  have h := (blocks o cfg g draw s _ f st.drawn hm hf (fun p k => by rw [hlen, ← hB]) st0
    (by rw [← hB]; exact hb) q).2
  rw [h, ho]
  simp [accScale, hcfg]

/-- C90: with sum accumulation (`accumulate_sum_or_mean=True`, the default and the setting of all shipped
scripts) every update uses the gradient of the whole batch multiplied by the number of mini-batches, so
the smaller the mini-batch the larger the gradient. -/
theorem C90_sum_scales (o : Optimizer Opt G P) (cfg : AccConfig) (hcfg : cfg.accumulateSum = true)
    (g : P → α → G) (draw : P → S → Nat → List α) (size : S → Nat) (st : MBState S α) (s : S)
    (mini : Option Nat) (opt : Opt) (st0 : LoopState Opt G P S α)
    (h0 : setupLoop size st s mini opt = some st0) (hdvd : mini.getD (size s) ∣ size s)
    (hlen : ∀ p k, (draw p s k).length = size s) (q : Nat) :
    (fitGenerator o cfg g draw (q * (size s / mini.getD (size s))) st0).acc.opt =
      wholeBatches o g (fun p k => draw p s (st.drawn + k)) ((size s / mini.getD (size s) : Nat) : ℝ) opt q := by
  obtain ⟨f, hf, hm, hB, hfe, hb, ho⟩ := setup_between size st s mini opt st0 h0 hdvd
  rw [← hfe]
  have h := (blocks o cfg g draw s _ f st.drawn hm hf (fun p k => by rw [hlen, ← hB]) st0
    (by rw [← hB]; exact hb) q).2
  rw [h, ho]
  simp [accScale, hcfg]

/-- Plain gradient descent with learning rate `lr` on one real parameter. -/
noncomputable def sgd (lr : ℝ) : Optimizer ℝ ℝ ℝ := ⟨fun p g => p - lr * g, id, fun _ p => p⟩

/-- C90 is violated with sum accumulation: gradient descent on the same four samples, once without
splitting and once in mini-batches of one sample, gives different parameters after one batch, for every
learning rate but 0. The loss of sample `a` is `(p - a)^2`. -/
theorem C90_violated (lr : ℝ) (hlr : lr ≠ 0) : ∃ (size : Unit → Nat) (st : MBState Unit ℝ)
    (whole split : LoopState ℝ ℝ ℝ Unit ℝ) (draw : ℝ → Unit → Nat → List ℝ) (cfg : AccConfig),
    (∀ p k, (draw p () k).length = size ()) ∧ cfg.accumulateSum = true ∧
    setupLoop size st () none 0 = some whole ∧ setupLoop size st () (some 1) 0 = some split ∧
    (fitGenerator (sgd lr) cfg (fun p a => 2 * (p - a)) draw 1 whole).acc.opt ≠
      (fitGenerator (sgd lr) cfg (fun p a => 2 * (p - a)) draw 4 split).acc.opt := by
  have h1 : ∃ w : LoopState ℝ ℝ ℝ Unit ℝ, setupLoop (fun _ => 4) ⟨(), 1, 1, 1, 1, [], 0⟩ () none 0 = some w :=
    ⟨_, rfl⟩
  have h2 : ∃ w : LoopState ℝ ℝ ℝ Unit ℝ, setupLoop (fun _ => 4) ⟨(), 1, 1, 1, 1, [], 0⟩ () (some 1) 0 = some w :=
    ⟨_, rfl⟩
  obtain ⟨whole, hw⟩ := h1
  obtain ⟨split, hs⟩ := h2
  refine ⟨fun _ => 4, ⟨(), 1, 1, 1, 1, [], 0⟩, whole, split, fun _ _ _ => [1, 2, 3, 4], ⟨true, 0⟩, fun _ _ => rfl, rfl,
    hw, hs, ?_⟩
  have e1 := C90_sum_scales (sgd lr) ⟨true, 0⟩ rfl (fun p a => 2 * (p - a)) (fun _ _ _ => [1, 2, 3, 4]) (fun _ => 4) _ ()
    none 0 whole hw (by simp) (fun _ _ => rfl) 1
  have e2 := C90_sum_scales (sgd lr) ⟨true, 0⟩ rfl (fun p a => 2 * (p - a)) (fun _ _ _ => [1, 2, 3, 4]) (fun _ => 4) _ ()
    (some 1) 0 split hs (by simp) (fun _ _ => rfl) 1
  simp only [Option.getD_none, Option.getD_some, Nat.div_one, Nat.one_mul] at e1 e2
  rw [show (4 : Nat) / 4 = 1 from rfl] at e1
  rw [e1, e2]
  simp only [wholeBatches, sgd]
  norm_num
  intro h
  exact hlr (by linarith)

/-- Hypotheses of `C90_mean_partial` are met: 12 samples in mini-batches of 4. -/
example : ∃ st0 : LoopState ℝ ℝ ℝ Unit ℝ,
    setupLoop (fun _ => 12) ⟨(), 1, 1, 1, 1, [], 0⟩ () (some 4) 0 = some st0 ∧ (some 4).getD 12 ∣ 12 :=
  ⟨_, rfl, by decide⟩

end Verif.Training
