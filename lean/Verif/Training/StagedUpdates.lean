import Verif.Training.MiniBatchSize

/-!
# C91: in staged training every update uses one whole batch

The stages of `examples/ising.py:92-129` and `experiments/train.py:88-130`: for every stage a new generator is
made for the batch size of the stage, the accumulation frequency of the (one) optimizer is set to the
frequency of that generator, and `fit_generator` runs `steps_per_epoch * update_params_frequency` steps per
epoch.
-/
namespace Verif.Training

variable {Opt G P S α : Type} [AddCommGroup G] [Module ℝ G] [AddCommGroup P] [Module ℝ P]

/-! ### Model -/

/-- A stage: the sampler (with its batch size), the mini-batch size and the number of batches to train on
(`steps_per_epoch` times the number of epochs). -/
structure TrainStage (S : Type) where
  sampler : S
  mini : Nat
  batches : Nat

/-- One stage (examples/ising.py:92-129, experiments/train.py:90-130). The new generator continues the count of
drawn batches (history variable of the model); its other fields are set by `set_batch_size`. `none` if
`set_batch_size` raises. The learning rate (train.py:111), callbacks and files are not modelled here. -/
noncomputable def runStage (o : Optimizer Opt G P) (cfg : AccConfig) (g : P → α → G) (draw : P → S → Nat → List α)
    (size : S → Nat) (stage : TrainStage S) (st : LoopState Opt G P S α) : Option (LoopState Opt G P S α) :=
  match setSampler size st.gen stage.sampler (some stage.mini) with
  | none => none
  | some gen => some (fitGenerator o cfg g draw (stage.batches * gen.updateParamsFrequency)
      ⟨gen, setUpdateParamsFrequency st.acc gen.updateParamsFrequency⟩)

/-- All stages (examples/ising.py:92, experiments/train.py:90). -/
noncomputable def runStages (o : Optimizer Opt G P) (cfg : AccConfig) (g : P → α → G) (draw : P → S → Nat → List α)
    (size : S → Nat) : List (TrainStage S) → LoopState Opt G P S α → Option (LoopState Opt G P S α)
  | [], st => some st
  | stage :: rest, st =>
    match runStage o cfg g draw size stage st with
    | none => none
    | some st' => runStages o cfg g draw size rest st'

/-! ### Specification -/

/-- Number of mini-batches of a batch. -/
def TrainStage.parts (size : S → Nat) (stage : TrainStage S) : Nat := size stage.sampler / min stage.mini (size stage.sampler)

/-- Training on whole batches through all stages: stage after stage, `batches` updates, each with the (scaled)
mean gradient of one newly drawn batch. `c` counts the batches drawn before. -/
noncomputable def wholeStages (o : Optimizer Opt G P) (g : P → α → G) (draw : P → S → Nat → List α)
    (scale : TrainStage S → ℝ) : List (TrainStage S) → Nat → Opt → Opt
  | [], _, opt => opt
  | stage :: rest, c, opt =>
    wholeStages o g draw scale rest (c + stage.batches)
      (wholeBatches o g (fun p k => draw p stage.sampler (c + k)) (scale stage) opt stage.batches)

/-- At the start of every stage the number of training steps so far is a multiple of the number of
mini-batches per batch of the stage. -/
def Aligned (size : S → Nat) : Nat → List (TrainStage S) → Prop
  | _, [] => True
  | steps, stage :: rest => stage.parts size ∣ steps ∧ Aligned size (steps + stage.batches * stage.parts size) rest

/-! ### Lemmas -/

/-- The generator of a stage whose mini-batch size is larger than the batch or divides it. -/
theorem stage_gen (size : S → Nat) (st gen : MBState S α) (stage : TrainStage S)
    (h0 : setSampler size st stage.sampler (some stage.mini) = some gen)
    (hdvd : min stage.mini (size stage.sampler) ∣ size stage.sampler) :
    0 < stage.parts size ∧ 0 < min stage.mini (size stage.sampler) ∧
    size stage.sampler = stage.parts size * min stage.mini (size stage.sampler) ∧
    gen.updateParamsFrequency = stage.parts size ∧ gen.sampler = stage.sampler ∧ gen.batchSize = size stage.sampler ∧
    gen.miniBatchSize = min stage.mini (size stage.sampler) ∧ gen.idx = size stage.sampler ∧ gen.drawn = st.drawn := by
  obtain ⟨e1, e2, e3, e4, e5, e6, e7, e8, -⟩ := setBatchSize_spec _ _ _ _ h0
  rw [Option.getD_some] at e5
  unfold TrainStage.parts
  set m := min stage.mini (size stage.sampler)
  have hm : 0 < m := by omega
  obtain ⟨f, hf⟩ := hdvd
  have hdiv : size stage.sampler / m = f := by rw [hf, Nat.mul_div_cancel_left _ hm]
  have hfpos : 0 < f := by
    rcases Nat.eq_zero_or_pos f with h | h
    · subst h; simp at hf; omega
    · exact h
  refine ⟨by omega, hm, by rw [hdiv, hf, mul_comm], ?_, e1, e2, e5, e6, e8⟩
  rw [e7, e5, ceilDiv, hdiv, hf, Nat.add_sub_assoc (by omega), Nat.mul_add_div hm, Nat.div_eq_of_lt (by omega)]; omega

theorem accStep_iterations (o : Optimizer Opt G P) (cfg : AccConfig) (st : AccState Opt G P) (x : G) :
    (accStep o cfg st x).accumulatedIterations = st.accumulatedIterations + 1 := by
  unfold accStep
  dsimp only
  split <;> rfl

theorem fitGenerator_iterations (o : Optimizer Opt G P) (cfg : AccConfig) (g : P → α → G)
    (draw : P → S → Nat → List α) : ∀ (k : Nat) (st : LoopState Opt G P S α),
    (fitGenerator o cfg g draw k st).acc.accumulatedIterations = st.acc.accumulatedIterations + k := by
  intro k
  induction k with
  | zero => intro st; rfl
  | succ k ih =>
    intro st
    show (fitGenerator o cfg g draw k (loopStep o cfg g draw st)).acc.accumulatedIterations = _
    rw [ih]
    show (accStep o cfg st.acc _).accumulatedIterations + k = _
    rw [accStep_iterations]; omega

/-- An aligned stage. -/
theorem runStage_aligned (o : Optimizer Opt G P) (cfg : AccConfig) (g : P → α → G) (draw : P → S → Nat → List α)
    (size : S → Nat) (stage : TrainStage S) (st st' : LoopState Opt G P S α)
    (hdvd : min stage.mini (size stage.sampler) ∣ size stage.sampler)
    (hlen : ∀ p k, (draw p stage.sampler k).length = size stage.sampler)
    (hrun : runStage o cfg g draw size stage st = some st') (hacc : st.acc.accumulators = 0)
    (hal : stage.parts size ∣ st.acc.accumulatedIterations) :
    st'.acc.opt = wholeBatches o g (fun p k => draw p stage.sampler (st.gen.drawn + k)) (accScale cfg (stage.parts size))
      st.acc.opt stage.batches ∧
    st'.acc.accumulators = 0 ∧
    st'.acc.accumulatedIterations = st.acc.accumulatedIterations + stage.batches * stage.parts size ∧
    st'.gen.drawn = st.gen.drawn + stage.batches := by
  unfold runStage at hrun
  cases hg : setSampler size st.gen stage.sampler (some stage.mini) with
  | none => rw [hg] at hrun; exact absurd hrun (by simp)
  | some gen =>
    rw [hg] at hrun
    obtain rfl := Option.some.inj hrun
    obtain ⟨hf, hm, hB, hfreq, e1, e2, e3, e4, e5⟩ := stage_gen size st.gen gen stage hg hdvd
    have hb : Between stage.sampler (stage.parts size * min stage.mini (size stage.sampler))
        (min stage.mini (size stage.sampler)) (stage.parts size) st.gen.drawn
        (⟨gen, setUpdateParamsFrequency st.acc gen.updateParamsFrequency⟩ : LoopState Opt G P S α) :=
      ⟨e1, by rw [← hB]; exact e2, e3, by rw [← hB]; exact e4, e5, hfreq, hacc, Nat.mod_eq_zero_of_dvd hal⟩
    obtain ⟨h1, h2⟩ := blocks o cfg g draw stage.sampler _ _ st.gen.drawn hm hf
      (fun p k => by rw [hlen, ← hB]) _ hb stage.batches
    rw [hfreq] at h1 h2 ⊢
    exact ⟨h2, h1.acc, fitGenerator_iterations o cfg g draw _ _, h1.drawn⟩

/-! ### C91 -/

/-- C91, partial: through any number of stages, whatever the batch sizes, mini-batch sizes and numbers of
batches, if the mini-batch sizes divide the batch sizes (or are larger) and every stage starts at a number of
steps that is a multiple of its number of mini-batches per batch, then every update uses exactly one newly
drawn batch, whole, drawn and evaluated at the parameters before the update. (With sum accumulation the mean is
scaled, see C90.) Missing: stages that start elsewhere, where it is false (`C91_violated`,
`C91_violated_shipped`). -/
theorem C91_aligned_partial (o : Optimizer Opt G P) (cfg : AccConfig) (g : P → α → G) (draw : P → S → Nat → List α)
    (size : S → Nat) : ∀ (stages : List (TrainStage S)) (st st' : LoopState Opt G P S α),
    (∀ stage ∈ stages, min stage.mini (size stage.sampler) ∣ size stage.sampler) →
    (∀ stage ∈ stages, ∀ p k, (draw p stage.sampler k).length = size stage.sampler) →
    st.acc.accumulators = 0 → Aligned size st.acc.accumulatedIterations stages →
    runStages o cfg g draw size stages st = some st' →
    st'.acc.opt = wholeStages o g draw (fun stage => if cfg.accumulateSum then (stage.parts size : ℝ) else 1) stages
      st.gen.drawn st.acc.opt := by
  intro stages
  induction stages with
  | nil => intro st st' _ _ _ _ h; obtain rfl := Option.some.inj h; rfl
  | cons stage rest ih =>
    intro st st' hdvd hlen hacc hal hrun
    unfold runStages at hrun
    cases hr : runStage o cfg g draw size stage st with
    | none => rw [hr] at hrun; exact absurd hrun (by simp)
    | some st1 =>
      rw [hr] at hrun
      obtain ⟨h1, h2, h3, h4⟩ := runStage_aligned o cfg g draw size stage st st1 (hdvd stage (by simp)) (hlen stage (by simp))
        hr hacc hal.1
      have h5 := ih st1 st' (fun s hs => hdvd s (by simp [hs])) (fun s hs => hlen s (by simp [hs])) h2
        (by rw [h3]; exact hal.2) hrun
      rw [h5, h4, h1]
      rfl

/-- The stages of experiments/ising_runner.py:17 and experiments/heisenberg_runner.py:16 (100 steps per epoch, the
default of train.py:173) are aligned; the sampler is given by its batch size. -/
theorem C91_runners_aligned :
    Aligned id 0 [(⟨2 ^ 7, 2 ^ 12, 100 * 100⟩ : TrainStage Nat), ⟨2 ^ 10, 2 ^ 12, 100 * 100⟩, ⟨2 ^ 13, 2 ^ 12, 100 * 50⟩] ∧
    Aligned id 0 [(⟨2 ^ 10, 2 ^ 11, 100 * 80⟩ : TrainStage Nat), ⟨2 ^ 11, 2 ^ 11, 100 * 370⟩] := by
  simp only [Aligned, TrainStage.parts, id]
  decide

/-- C91, what happens instead: if a stage starts `r` steps after a multiple of its number of mini-batches per
batch, the first update of the stage uses only the first part of the first batch: without its last `r`
mini-batches. -/
theorem C91_first_update (o : Optimizer Opt G P) (cfg : AccConfig) (g : P → α → G) (draw : P → S → Nat → List α)
    (size : S → Nat) (stage : TrainStage S) (st : LoopState Opt G P S α) (gen : MBState S α)
    (hgen : setSampler size st.gen stage.sampler (some stage.mini) = some gen)
    (hdvd : min stage.mini (size stage.sampler) ∣ size stage.sampler)
    (hlen : ∀ p k, (draw p stage.sampler k).length = size stage.sampler)
    (hacc : st.acc.accumulators = 0) (r : Nat)
    (hr : st.acc.accumulatedIterations % stage.parts size = r) :
    let m := min stage.mini (size stage.sampler)
    let used := (draw (o.params st.acc.opt) stage.sampler st.gen.drawn).take ((stage.parts size - r) * m)
    let total := (1 / (m : ℝ)) • (used.map (g (o.params st.acc.opt))).sum
    (fitGenerator o cfg g draw (stage.parts size - r)
      ⟨gen, setUpdateParamsFrequency st.acc gen.updateParamsFrequency⟩).acc.opt =
        o.update st.acc.opt (if cfg.accumulateSum then total else (1 / (stage.parts size : ℝ)) • total) := by
  obtain ⟨hf, hm, hB, hfreq, e1, e2, e3, e4, e5⟩ := stage_gen size st.gen gen stage hgen hdvd
  have hmB : min stage.mini (size stage.sampler) ≤ size stage.sampler := Nat.min_le_right _ _
  have hdiv : size stage.sampler / min stage.mini (size stage.sampler) = stage.parts size := rfl
  have hrlt : r < stage.parts size := by rw [← hr]; exact Nat.mod_lt _ hf
  rw [hfreq]
  set f := stage.parts size
  set m := min stage.mini (size stage.sampler)
  set p := o.params st.acc.opt with hp
  intro m' used total
  rw [loop_eq o cfg g draw f (f - r) ⟨gen, setUpdateParamsFrequency st.acc f⟩ rfl (by
    show st.acc.accumulatedIterations % f + (f - r) ≤ f
    omega)]
  have inv0 : MBInv (draw p) stage.sampler (size stage.sampler) m st.gen.drawn 0 gen := ⟨e1, e2, e3, Or.inl ⟨rfl, e5, e4⟩⟩
  obtain ⟨-, hout⟩ := nexts_inv (draw p) stage.sampler (size stage.sampler) m st.gen.drawn hm hmB (f - r) 0 gen inv0
  rw [hdiv] at hout
  have hout' : (nexts (draw p) (f - r) gen).2 = (List.range' 0 (f - r)).map fun j =>
      slice (draw p stage.sampler st.gen.drawn) (j * m) ((j + 1) * m) := by
    rw [hout]
    refine List.map_congr_left fun t ht => ?_
    have ht' : t < f := by
      have : t < f - r := by simpa using ht
      omega
    rw [Nat.div_eq_of_lt ht', Nat.mod_eq_of_lt ht', Nat.add_zero]
  have hflat : ((nexts (draw p) (f - r) gen).2).flatten = used := by
    rw [hout', slices_join]
    simp only [slice, zero_mul, List.drop_zero, Nat.zero_add]
    rfl
  have hmini : ∀ b ∈ (nexts (draw p) (f - r) gen).2, b.length = m := by
    intro b hb
    rw [hout'] at hb
    obtain ⟨j, hj, rfl⟩ := List.mem_map.mp hb
    have hj' : j < f - r := by simpa using hj
    have h1 : (j + 1) * m ≤ f * m := Nat.mul_le_mul_right _ (by omega)
    have h2 : (j + 1) * m ≤ size stage.sampler := by rw [hB]; exact h1
    simp only [slice, List.length_drop, List.length_take, hlen, Nat.min_eq_left h2]
    rw [add_mul, one_mul]; omega
  have hcount : ((nexts (draw p) (f - r) gen).2).length = f - r := by rw [hout']; simp
  have hup := accTrain_to_update o cfg (kerasGradient g) f (nexts (draw p) (f - r) gen).2
    (setUpdateParamsFrequency st.acc f) rfl
    (by
      show st.acc.accumulatedIterations % f + _ = f
      rw [hcount]; omega) (by omega)
  show (accTrain o cfg (kerasGradient g) (setUpdateParamsFrequency st.acc f) (nexts (draw p) (f - r) gen).2).opt = _
  rw [hup]
  show o.update st.acc.opt (st.acc.accumulators + contribution cfg f ((nexts (draw p) (f - r) gen).2.map (kerasGradient g p))) = _
  rw [hacc, zero_add]
  unfold contribution
  rw [kerasGradient_blocks g p m hm _ hmini, hflat]

/-! ### The stages of `examples/ising.py` -/

/-- `depth_to_max_mini_batch` (examples/ising.py:52-62), for natural depths. -/
def depthToMaxMiniBatch (depth : Nat) : Nat :=
  [(1, 2 ^ 12), (20, 2 ^ 11), (40, 2 ^ 10)].foldl (fun res kv => if depth ≥ kv.1 then min res kv.2 else res) 1

/-- `batch_size_list`, `epochs_list` (examples/ising.py:167-168) and 100 batches per epoch (line 125); the sampler
is given by its batch size, the mini-batch size is that of lines 89 and 103. -/
def isingStages (depth : Nat) : List (TrainStage Nat) :=
  [⟨2 ^ 7, depthToMaxMiniBatch depth, 100 * 100⟩, ⟨2 ^ 10, depthToMaxMiniBatch depth, 100 * 100⟩,
    ⟨2 ^ 13, depthToMaxMiniBatch depth, 100 * 50⟩]

theorem depthToMaxMiniBatch_eq (depth : Nat) : depthToMaxMiniBatch depth = 1 := by
  have h : ∀ (res v : Nat) (c : Prop) [Decidable c], res = 1 → 1 ≤ v → (if c then min res v else res) = 1 := by
    intro res v c _ h1 h2
    subst h1
    split
    · exact Nat.min_eq_left h2
    · rfl
  unfold depthToMaxMiniBatch
  simp only [List.foldl_cons, List.foldl_nil]
  exact h _ _ _ (h _ _ _ (h _ _ _ rfl (by decide)) (by decide)) (by decide)

theorem setSampler_some (size : S → Nat) (st : MBState S α) (s : S) (m : Nat) (hm : 0 < m) (hB : 0 < size s) :
    ∃ gen, setSampler size st s (some m) = some gen := by
  simp only [setSampler, setBatchSize]
  by_cases h : m > size s
  · rw [if_pos h, if_neg (by omega)]; exact ⟨_, rfl⟩
  · rw [if_neg h, if_neg (by omega)]; exact ⟨_, rfl⟩

theorem runStage_some (o : Optimizer Opt G P) (cfg : AccConfig) (g : P → α → G) (draw : P → S → Nat → List α)
    (size : S → Nat) (stage : TrainStage S) (st : LoopState Opt G P S α) (hm : 0 < stage.mini) (hB : 0 < size stage.sampler) :
    ∃ st', runStage o cfg g draw size stage st = some st' := by
  obtain ⟨gen, hg⟩ := setSampler_some size st.gen stage.sampler stage.mini hm hB
  unfold runStage
  rw [hg]
  exact ⟨_, rfl⟩

/-- Two aligned stages followed by one that starts `r` steps after a multiple of its number of mini-batches, all with
mini-batches of one sample. -/
theorem third_stage (o : Optimizer Opt G P) (cfg : AccConfig) (g : P → α → G) (draw : P → Nat → Nat → List α)
    (hlen : ∀ p s k, (draw p s k).length = s) (st0 : LoopState Opt G P Nat α)
    (hacc : st0.acc.accumulators = 0) (hiter : st0.acc.accumulatedIterations = 0) (b1 b2 b3 n1 n2 r k : Nat)
    (h1 : 0 < b1) (h2 : 0 < b2) (h3 : 0 < b3) (hal : b2 ∣ n1 * b1) (hr : (n1 * b1 + n2 * b2) % b3 = r) (hk : b3 - r = k) :
    ∃ st2 gen, runStages o cfg g draw id [⟨b1, 1, n1⟩, ⟨b2, 1, n2⟩] st0 = some st2 ∧
      setSampler id st2.gen b3 (some 1) = some gen ∧
      gen.updateParamsFrequency = b3 ∧
      (let used := (draw (o.params st2.acc.opt) b3 st2.gen.drawn).take k
       let total := (used.map (g (o.params st2.acc.opt))).sum
       (fitGenerator o cfg g draw k ⟨gen, setUpdateParamsFrequency st2.acc gen.updateParamsFrequency⟩).acc.opt =
        o.update st2.acc.opt (if cfg.accumulateSum then total else (1 / (b3 : ℝ)) • total)) := by
  have hmin : ∀ b : Nat, 0 < b → min 1 (id b) = 1 := fun b hb => Nat.min_eq_left hb
  have hparts : ∀ b n : Nat, 0 < b → (⟨b, 1, n⟩ : TrainStage Nat).parts id = b := by
    intro b n hb
    show id b / min 1 (id b) = b
    rw [hmin b hb, Nat.div_one]; rfl
  have hdvd : ∀ b n : Nat, 0 < b → min (⟨b, 1, n⟩ : TrainStage Nat).mini (id (⟨b, 1, n⟩ : TrainStage Nat).sampler) ∣
      id (⟨b, 1, n⟩ : TrainStage Nat).sampler := by
    intro b n hb
    show min 1 (id b) ∣ id b
    rw [hmin b hb]; exact one_dvd _
  obtain ⟨st1, hs1⟩ := runStage_some o cfg g draw id ⟨b1, 1, n1⟩ st0 Nat.one_pos h1
  obtain ⟨st2, hs2⟩ := runStage_some o cfg g draw id ⟨b2, 1, n2⟩ st1 Nat.one_pos h2
  obtain ⟨gen, hg⟩ := setSampler_some id st2.gen b3 1 Nat.one_pos h3
  obtain ⟨-, a1, i1, -⟩ := runStage_aligned o cfg g draw id ⟨b1, 1, n1⟩ st0 st1 (hdvd b1 n1 h1)
    (fun p k => hlen p _ k) hs1 hacc (by rw [hiter]; exact dvd_zero _)
  rw [hparts b1 n1 h1, hiter, Nat.zero_add] at i1
  obtain ⟨-, a2, i2, -⟩ := runStage_aligned o cfg g draw id ⟨b2, 1, n2⟩ st1 st2 (hdvd b2 n2 h2)
    (fun p k => hlen p _ k) hs2 a1 (by rw [i1, hparts b2 n2 h2]; exact hal)
  rw [hparts b2 n2 h2, i1] at i2
  have hr' : st2.acc.accumulatedIterations % (⟨b3, 1, 0⟩ : TrainStage Nat).parts id = r := by
    rw [i2, hparts b3 0 h3]; exact hr
  have h4 := C91_first_update o cfg g draw id ⟨b3, 1, 0⟩ st2 gen hg (hdvd b3 0 h3) (fun p k => hlen p _ k) a2 r hr'
  refine ⟨st2, gen, ?_, hg, ?_, ?_⟩
  · simp only [runStages, hs1, hs2]
  · have := (stage_gen id st2.gen gen ⟨b3, 1, 0⟩ hg (hdvd b3 0 h3)).2.2.2.1
    rw [hparts b3 0 h3] at this
    exact this
  · rw [hparts b3 0 h3, hk] at h4
    have hm : min (⟨b3, 1, 0⟩ : TrainStage Nat).mini (id (⟨b3, 1, 0⟩ : TrainStage Nat).sampler) = 1 := hmin b3 h3
    rw [hm] at h4
    dsimp only at h4 ⊢
    rw [Nat.mul_one, Nat.cast_one, div_one, one_smul] at h4
    exact h4

/-- C91 is violated by examples/ising.py, at every depth, wave function and optimizer: started afresh, the third
stage (batches of 8192 samples) begins 2048 steps after a multiple of 8192, and its first update happens after
6144 steps, using the first 6144 samples of the first batch only. -/
theorem C91_violated_shipped (o : Optimizer Opt G P) (cfg : AccConfig) (g : P → α → G) (draw : P → Nat → Nat → List α)
    (hlen : ∀ p s k, (draw p s k).length = s) (depth : Nat) (st0 : LoopState Opt G P Nat α)
    (hacc : st0.acc.accumulators = 0) (hiter : st0.acc.accumulatedIterations = 0) :
    ¬ Aligned id 0 (isingStages depth) ∧
    ∃ st2 gen, runStages o cfg g draw id ((isingStages depth).take 2) st0 = some st2 ∧
      setSampler id st2.gen (2 ^ 13) (some (depthToMaxMiniBatch depth)) = some gen ∧
      gen.updateParamsFrequency = 8192 ∧
      (let used := (draw (o.params st2.acc.opt) (2 ^ 13) st2.gen.drawn).take 6144
       let total := (used.map (g (o.params st2.acc.opt))).sum
       (fitGenerator o cfg g draw 6144 ⟨gen, setUpdateParamsFrequency st2.acc gen.updateParamsFrequency⟩).acc.opt =
        o.update st2.acc.opt (if cfg.accumulateSum then total else (1 / (8192 : ℝ)) • total)) := by
  unfold isingStages
  rw [depthToMaxMiniBatch_eq]
  constructor
  · simp only [Aligned, TrainStage.parts, id]
    decide
  · have h := third_stage o cfg g draw hlen st0 hacc hiter (2 ^ 7) (2 ^ 10) (2 ^ 13) (100 * 100) (100 * 100) 2048 6144
      (by decide) (by decide) (by decide) (by decide) (by decide) (by decide)
    have e1 : ((2 ^ 13 : Nat) : ℝ) = 8192 := by norm_num
    have e2 : (2 : Nat) ^ 13 = 8192 := by norm_num
    obtain ⟨st2, gen, h1, h2, h3, h4⟩ := h
    rw [e1] at h4
    exact ⟨st2, gen, h1, h2, h3.trans e2, h4⟩

/-- C91, a small violation with the parameters themselves: gradient descent (learning rate 1, mean
accumulation) for the loss `(p - a)^2 / 2` of sample `a`; a first stage of one batch of 1 sample (which is 0)
and a second of one batch of 2 samples with values 1 in mini-batches of 1. Whole batches would lead from 0 to 1;
the second stage instead makes one update with half of the batch and ends at 1/2. -/
theorem C91_violated : ∃ (draw : ℝ → Nat → Nat → List ℝ) (st0 st' : LoopState ℝ ℝ ℝ Nat ℝ),
    (∀ p s k, (draw p s k).length = s) ∧ st0.acc.accumulators = 0 ∧ st0.acc.accumulatedIterations = 0 ∧
    runStages (sgd 1) ⟨false, 0⟩ (fun p a => p - a) draw id [⟨1, 1, 1⟩, ⟨2, 1, 1⟩] st0 = some st' ∧
    st'.acc.opt = 1 / 2 ∧
    wholeStages (sgd 1) (fun p a => p - a) draw (fun _ => 1) [⟨1, 1, 1⟩, ⟨2, 1, 1⟩] st0.gen.drawn st0.acc.opt = 1 := by
  refine ⟨fun _ s _ => List.replicate s (if s = 2 then 1 else 0), ⟨⟨1, 1, 1, 1, 1, [], 0⟩, ⟨0, 0, 0, 1, 0, 0⟩⟩, _, ?_, rfl, rfl, rfl, ?_, ?_⟩
  · intro p s k; simp
  · simp [fitGenerator, loopStep, accStep, nextMiniBatch, setUpdateParamsFrequency, ceilDiv, kerasGradient, slice, sgd]
  · simp [wholeStages, wholeBatches, sgd]
    norm_num

/-- Hypotheses of `C91_aligned_partial` are met by stages with two and three mini-batches per batch. -/
example : Aligned id 0 [(⟨4, 2, 3⟩ : TrainStage Nat), ⟨6, 2, 5⟩] ∧
    (∀ stage ∈ [(⟨4, 2, 3⟩ : TrainStage Nat), ⟨6, 2, 5⟩], min stage.mini (id stage.sampler) ∣ id stage.sampler) := by
  constructor
  · simp only [Aligned, TrainStage.parts, id]; decide
  · simp

/-! ### C92: the mini-batch size and the evaluation of `examples/ising.py` -/

/-- The largest number of samples tabulated for networks of this depth (examples/ising.py:53-56): the entry of the
largest tabulated depth that is not above the given one. -/
def tabulated (depth : Nat) : Nat := if depth ≥ 40 then 2 ^ 10 else if depth ≥ 20 then 2 ^ 11 else 2 ^ 12

/-- The final evaluation (examples/ising.py:135-140): the sampler and the generator are made for `mini_batch_size // 16`
samples. `none`: `ZeroDivisionError` of `set_batch_size`. -/
def isingEvaluation {α : Type} (depth : Nat) (st : MBState Nat α) : Option (MBState Nat α) :=
  let m := depthToMaxMiniBatch depth / 16
  setSampler id st m (some m)

/-- C92 is violated at every depth: training is done with mini-batches of one sample instead of the 1024 to 4096
the table gives, and the evaluation at the end raises. -/
theorem C92_violated (depth : Nat) (st : MBState Nat α) :
    depthToMaxMiniBatch depth = 1 ∧ 1024 ≤ tabulated depth ∧ isingEvaluation depth st = none := by
  refine ⟨depthToMaxMiniBatch_eq depth, ?_, ?_⟩
  · unfold tabulated
    split
    · decide
    · split <;> decide
  · unfold isingEvaluation
    rw [depthToMaxMiniBatch_eq]
    rfl

/-- C92, partial: the stages themselves do run: the assertion of examples/ising.py:101 holds and the generator of
every stage is accepted, at every depth and for every batch size above 0. -/
theorem C92_stages_run_partial (depth batch : Nat) (hb : 0 < batch) (st : MBState Nat α) :
    (batch < depthToMaxMiniBatch depth ∨ batch % depthToMaxMiniBatch depth = 0) ∧
    ∃ gen, setSampler id st batch (some (depthToMaxMiniBatch depth)) = some gen ∧ gen.updateParamsFrequency = batch := by
  rw [depthToMaxMiniBatch_eq]
  refine ⟨Or.inr (Nat.mod_one _), ?_⟩
  have h : ¬ (1 > batch) := by omega
  refine ⟨{ st with sampler := batch, batchSize := batch, miniBatchSize := 1, idx := batch, updateParamsFrequency := batch }, ?_, rfl⟩
  simp only [setSampler, setBatchSize, id, h, if_false, ceilDiv]
  simp

end Verif.Training
