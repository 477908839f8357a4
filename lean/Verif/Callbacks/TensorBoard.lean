import Mathlib.Data.List.Basic
import Mathlib.Data.List.Chain
import Mathlib.Algebra.BigOperators.Group.List.Basic
import Mathlib.Tactic.Linarith

/-!
# C93: when the TensorBoard callback writes, and what

Model of `src/flowket/callbacks/tensorboard.py` (schedule of the writes, lines 125-131 and 257-363) and of
`src/flowket/callbacks/monte_carlo/tensorboard_with_generator_validation_data.py`. The files of TensorBoard are a
list of entries (tag, value, step). Embeddings, images and the graph are not modelled.
-/
namespace Verif.TensorBoard

variable {V α : Type}

/-! ### Model -/

/-- A value in the logs: an integer or anything else. -/
inductive Value (V : Type) where
  | count (n : Nat)
  | metric (v : V)

/-- The dictionary `logs` of Keras, in order. -/
abbrev Logs (V : Type) := List (String × Value V)

/-- The argument `update_freq` (tensorboard.py:68-73,86). -/
inductive UpdateFreq where
  | batch
  | epoch
  | samples (n : Nat)

/-- The attribute `update_freq`: `none` is the string 'epoch'. -/
structure State (V : Type) where
  updateFreq : Option Nat
  samplesSeen : Nat
  samplesSeenAtLastWrite : Nat
  /-- entries in the file: tag, value, step -/
  file : List (String × Value V × Nat)

/-- `__init__` (tensorboard.py:125-131). -/
def init (f : UpdateFreq) : State V :=
  { updateFreq := match f with
      | .batch => some 1
      | .epoch => none
      | .samples n => some n
    samplesSeen := 0
    samplesSeenAtLastWrite := 0
    file := [] }

/-- `_write_logs` (tensorboard.py:340-352): the entries added to the file. -/
def writeLogs (logs : Logs V) (index : Nat) : List (String × Value V × Nat) :=
  logs.filterMap fun e => if e.1 ∈ ["batch", "size"] then none else some (e.1, e.2, index)

/-- What Keras reports to the callback. -/
inductive Event (V : Type) where
  | batchEnd (logs : Logs V)
  | epochEnd (epoch : Nat) (logs : Logs V)

/-- `logs['size']`; `none` is the `KeyError` (or `TypeError`). -/
def logSize (logs : Logs V) : Option Nat :=
  match logs.lookup "size" with
  | some (.count n) => some n
  | _ => none

/-- `on_batch_end` (tensorboard.py:357-363) and the last part of `on_epoch_end` (lines 334-338). -/
def step (st : State V) : Event V → Option (State V)
  | .batchEnd logs =>
    match st.updateFreq with
    | none => some st
    | some n =>
      match logSize logs with
      | none => none
      | some size =>
        let seen := st.samplesSeen + size
        if seen - st.samplesSeenAtLastWrite ≥ n then
          some { st with samplesSeen := seen, samplesSeenAtLastWrite := seen, file := st.file ++ writeLogs logs seen }
        else some { st with samplesSeen := seen }
  | .epochEnd epoch logs =>
    let index := match st.updateFreq with
      | none => epoch
      | some _ => st.samplesSeen
    some { st with file := st.file ++ writeLogs logs index }

/-- The callback over a history of events. -/
def run (st : State V) : List (Event V) → Option (State V)
  | [] => some st
  | e :: es =>
    match step st e with
    | none => none
    | some st' => run st' es

/-! ### Specification -/

/-- The number of samples of a batch event. -/
def Event.size : Event V → Nat
  | .batchEnd logs => (logSize logs).getD 0
  | .epochEnd _ _ => 0

/-- The number of samples trained on during a history. -/
def samples (h : List (Event V)) : Nat := (h.map Event.size).sum

/-- Every batch event reports its size, as Keras does. -/
def Sized (h : List (Event V)) : Prop := ∀ logs, Event.batchEnd logs ∈ h → (logSize logs).isSome

/-- What is worth a curve: all logs but the number and the size of the batch. -/
def curves (logs : Logs V) : Logs V := logs.filter fun e => e.1 ≠ "batch" ∧ e.1 ≠ "size"

/-- The entries with the given step, one for every curve. -/
def entries (logs : Logs V) (index : Nat) : List (String × Value V × Nat) := (curves logs).map fun e => (e.1, e.2, index)

/-- The writes of a history as a list of (position in the history, step): `file` consists of the entries of the logs of
the events at these positions, in order. -/
def Wrote (h : List (Event V)) (writes : List (Nat × Nat)) (file : List (String × Value V × Nat)) : Prop :=
  file = (writes.map fun w => match h[w.1]? with
    | some (.batchEnd logs) => entries logs w.2
    | some (.epochEnd _ logs) => entries logs w.2
    | none => []).flatten

/-! ### Lemmas -/

theorem writeLogs_eq (logs : Logs V) (index : Nat) : writeLogs logs index = entries logs index := by
  unfold writeLogs entries curves
  induction logs with
  | nil => rfl
  | cons e es ih =>
    rw [List.filterMap_cons, List.filter_cons]
    by_cases h : e.1 ∈ ["batch", "size"]
    · have h' : ¬ (e.1 ≠ "batch" ∧ e.1 ≠ "size") := by
        simp only [List.mem_cons, List.not_mem_nil, or_false] at h
        tauto
      simp only [h, if_true, h', decide_false, Bool.false_eq_true, if_false]
      exact ih
    · have h' : e.1 ≠ "batch" ∧ e.1 ≠ "size" := by
        simp only [List.mem_cons, List.not_mem_nil, or_false, not_or] at h
        exact h
      rw [if_pos (decide_eq_true h')]
      simp only [h, if_false, List.map_cons]
      rw [ih]

theorem run_append (a b : List (Event V)) : ∀ st : State V, run st (a ++ b) =
    match run st a with
    | none => none
    | some st' => run st' b := by
  induction a with
  | nil => intro st; rfl
  | cons e es ih =>
    intro st
    simp only [List.cons_append, run]
    cases step st e with
    | none => rfl
    | some st' => exact ih st'

theorem run_snoc (h : List (Event V)) (e : Event V) (st st' : State V) (hr : run st h = some st') :
    run st (h ++ [e]) = step st' e := by
  rw [run_append, hr]
  simp only [run]
  cases step st' e <;> rfl

/-- The events at positions of a prefix. -/
theorem wrote_snoc (h : List (Event V)) (e : Event V) (writes : List (Nat × Nat)) (hw : ∀ w ∈ writes, w.1 < h.length)
    (file : List (String × Value V × Nat)) (hf : Wrote h writes file) : Wrote (h ++ [e]) writes file := by
  unfold Wrote at hf ⊢
  rw [hf]
  congr 1
  refine List.map_congr_left fun w hwm => ?_
  rw [List.getElem?_append_left (hw w hwm)]

theorem wrote_write (h : List (Event V)) (e : Event V) (logs : Logs V)
    (he : e = .batchEnd logs ∨ ∃ k, e = .epochEnd k logs) (writes : List (Nat × Nat)) (index : Nat)
    (hw : ∀ w ∈ writes, w.1 < h.length) (file : List (String × Value V × Nat)) (hf : Wrote h writes file) :
    Wrote (h ++ [e]) (writes ++ [(h.length, index)]) (file ++ writeLogs logs index) := by
  have h1 := wrote_snoc h e writes hw file hf
  unfold Wrote at h1 ⊢
  rw [List.map_append, List.flatten_append, ← h1, writeLogs_eq]
  simp only [List.map_cons, List.map_nil, List.flatten_cons, List.flatten_nil, List.append_nil]
  rw [List.getElem?_append_right (Nat.le_refl _), Nat.sub_self]
  rcases he with rfl | ⟨k, rfl⟩ <;> rfl

theorem samples_snoc (h : List (Event V)) (e : Event V) : samples (h ++ [e]) = samples h + e.size := by
  simp [samples]

/-! ### C93 -/

/-- The positions of the ends of epochs in a history with their numbers. -/
def epochWrites (h : List (Event V)) : List (Nat × Nat) :=
  h.zipIdx.filterMap fun e => match e.1 with
    | .epochEnd k _ => some (e.2, k)
    | .batchEnd _ => none

/-- C93: with `update_freq='epoch'` the callback never fails, and it writes exactly once at the end of every epoch:
all logs of the epoch but the number and the size of the batch, with the number of the epoch as the step. -/
theorem C93_epoch (h : List (Event V)) :
    ∃ st, run (init .epoch) h = some st ∧ Wrote h (epochWrites h) st.file := by
  suffices hh : ∃ st, run (init .epoch) h = some st ∧ st.updateFreq = none ∧ Wrote h (epochWrites h) st.file ∧
      ∀ w ∈ epochWrites h, w.1 < h.length by
    obtain ⟨st, h1, -, h2, -⟩ := hh
    exact ⟨st, h1, h2⟩
  induction h using List.reverseRecOn with
  | nil => exact ⟨_, rfl, rfl, rfl, fun w hw => by simp [epochWrites] at hw⟩
  | append_singleton h e ih =>
    obtain ⟨st, h1, h2, h3, h4⟩ := ih
    have hz : epochWrites (h ++ [e]) = epochWrites h ++ (match e with
        | .epochEnd k _ => [(h.length, k)]
        | .batchEnd _ => []) := by
      unfold epochWrites
      rw [List.zipIdx_append, List.filterMap_append]
      congr 1
      cases e <;> simp
    cases e with
    | batchEnd logs =>
      refine ⟨st, ?_, h2, ?_, ?_⟩
      · rw [run_snoc h _ _ st h1]
        simp only [step, h2]
      · rw [hz]; simp only [List.append_nil]; exact wrote_snoc h _ _ h4 _ h3
      · intro w hw
        rw [hz] at hw
        simp only [List.append_nil] at hw
        have := h4 w hw
        simp; omega
    | epochEnd k logs =>
      refine ⟨{ st with file := st.file ++ writeLogs logs k }, ?_, ?_, ?_, ?_⟩
      · rw [run_snoc h _ _ st h1]
        simp only [step, h2]
      · exact h2
      · rw [hz]; exact wrote_write h _ logs (Or.inr ⟨k, rfl⟩) _ k h4 _ h3
      · intro w hw
        rw [hz] at hw
        rcases List.mem_append.mp hw with hw | hw
        · have := h4 w hw
          simp; omega
        · simp only [List.mem_singleton] at hw
          rw [hw]; simp

/-- The event at a position is the end of a batch. -/
def AtBatch (h : List (Event V)) (w : Nat × Nat) : Prop := ∃ logs, h[w.1]? = some (.batchEnd logs)

/-- Specification of writing every `n` samples: the writes are in the order of the history, every step is the number of
samples trained on up to and including the event; every end of an epoch is written. The writes at ends of batches
(`steps`, in order) are at least `n` samples apart, the first one at least `n` from the start; and at the end of the
history less than `n` samples have gone by since the last one. (As this holds for every history it holds at every
moment.) -/
structure EverySamples (n : Nat) (h : List (Event V)) (writes : List (Nat × Nat)) (steps : List Nat) : Prop where
  order : (writes.map Prod.fst).Pairwise (· < ·)
  inside : ∀ w ∈ writes, w.1 < h.length
  step : ∀ w ∈ writes, w.2 = samples (h.take (w.1 + 1))
  epochs : ∀ i k logs, h[i]? = some (.epochEnd k logs) → ∃ w ∈ writes, w.1 = i
  batches : ∀ s, s ∈ steps ↔ ∃ w ∈ writes, AtBatch h w ∧ w.2 = s
  apart : (0 :: steps).Pairwise fun a b => a + n ≤ b
  recent : ∀ last ∈ (0 :: steps).getLast?, samples h < last + n

theorem take_snoc_le (h : List (Event V)) (e : Event V) {i : Nat} (hi : i < h.length) :
    (h ++ [e]).take (i + 1) = h.take (i + 1) := by
  rw [List.take_append_of_le_length (by omega)]

theorem step_batch (st : State V) (n size : Nat) (logs : Logs V) (h1 : st.updateFreq = some n) (h2 : logSize logs = some size) :
    step st (.batchEnd logs) = some (if st.samplesSeen + size - st.samplesSeenAtLastWrite ≥ n then
      { st with
        samplesSeen := st.samplesSeen + size
        samplesSeenAtLastWrite := st.samplesSeen + size
        file := st.file ++ writeLogs logs (st.samplesSeen + size) }
      else { st with samplesSeen := st.samplesSeen + size }) := by
  simp only [step, h1, h2]
  split <;> rfl

/-- The step numbers of consecutive writes, seen from the last one. -/
theorem apart_snoc (n : Nat) (steps : List Nat) (s : Nat) (h : (0 :: steps).Pairwise fun a b => a + n ≤ b)
    (hl : ∀ last ∈ (0 :: steps).getLast?, last + n ≤ s) : (0 :: (steps ++ [s])).Pairwise fun a b => a + n ≤ b := by
  rw [← List.cons_append, List.pairwise_append]
  refine ⟨h, List.pairwise_singleton _ _, ?_⟩
  intro a ha b hb
  rw [List.mem_singleton] at hb
  subst hb
  have hne : (0 :: steps) ≠ [] := by simp
  have hlast := hl _ (List.getLast?_eq_some_getLast hne)
  by_cases heq : a = (0 :: steps).getLast hne
  · rw [heq]; exact hlast
  · have h1 := h
    rw [← List.dropLast_append_getLast hne, List.pairwise_append] at h1
    rw [← List.dropLast_append_getLast hne] at ha
    rcases List.mem_append.mp ha with ha | ha
    · have := h1.2.2 a ha _ (List.mem_singleton_self _)
      omega
    · exact absurd (List.mem_singleton.mp ha) heq

/-- C93: with an integer `update_freq = n ≥ 1` (`'batch'` is `n = 1`) the callback never fails on the logs of Keras, and
writes as specified in `EverySamples`: all logs but the number and the size of the batch. -/
theorem C93_samples (n : Nat) (hn : 1 ≤ n) (h : List (Event V)) (hs : Sized h) :
    ∃ st writes steps, run (init (.samples n)) h = some st ∧ Wrote h writes st.file ∧ EverySamples n h writes steps := by
  suffices hh : ∃ st writes steps, run (init (.samples n)) h = some st ∧ Wrote h writes st.file ∧
      EverySamples n h writes steps ∧ st.updateFreq = some n ∧ st.samplesSeen = samples h ∧
      (0 :: steps).getLast? = some st.samplesSeenAtLastWrite ∧ st.samplesSeenAtLastWrite ≤ st.samplesSeen by
    obtain ⟨st, w, s, h1, h2, h3, -⟩ := hh
    exact ⟨st, w, s, h1, h2, h3⟩
  induction h using List.reverseRecOn with
  | nil =>
    refine ⟨_, [], [], rfl, rfl, ⟨List.Pairwise.nil, by simp, by simp, by simp, by simp, by simp, ?_⟩, rfl, rfl, rfl, Nat.le_refl _⟩
    intro last hl
    simp only [List.getLast?_singleton, Option.mem_some_iff] at hl
    simp [samples]; omega
  | append_singleton h e ih =>
    obtain ⟨st, writes, steps, h1, h2, h3, h4, h5, h6, h7⟩ := ih (fun logs hl => hs logs (by simp [hl]))
    have hinside : ∀ w ∈ writes, w.1 < (h ++ [e]).length := fun w hw => by
      have := h3.inside w hw
      simp; omega
    have hold : ∀ w ∈ writes, w.2 = samples ((h ++ [e]).take (w.1 + 1)) := fun w hw => by
      rw [take_snoc_le h e (h3.inside w hw)]; exact h3.step w hw
    have hat : ∀ w ∈ writes, AtBatch (h ++ [e]) w ↔ AtBatch h w := fun w hw => by
      unfold AtBatch
      rw [List.getElem?_append_left (h3.inside w hw)]
    have htake : (h ++ [e]).take (h.length + 1) = h ++ [e] := List.take_of_length_le (by simp)
    have horder : ((writes ++ [(h.length, samples (h ++ [e]))]).map Prod.fst).Pairwise (· < ·) := by
      rw [List.map_append, List.pairwise_append]
      refine ⟨h3.order, List.pairwise_singleton _ _, ?_⟩
      intro a ha b hb
      obtain ⟨w, hw, rfl⟩ := List.mem_map.mp ha
      simp only [List.map_cons, List.map_nil, List.mem_singleton] at hb
      rw [hb]; exact h3.inside w hw
    have hin2 : ∀ w ∈ writes ++ [(h.length, samples (h ++ [e]))], w.1 < (h ++ [e]).length := by
      intro w hw
      rcases List.mem_append.mp hw with hw | hw
      · exact hinside w hw
      · rw [List.mem_singleton.mp hw]; simp
    have hstep2 : ∀ w ∈ writes ++ [(h.length, samples (h ++ [e]))], w.2 = samples ((h ++ [e]).take (w.1 + 1)) := by
      intro w hw
      rcases List.mem_append.mp hw with hw | hw
      · exact hold w hw
      · rw [List.mem_singleton.mp hw, htake]
    cases e with
    | epochEnd k logs =>
      have hsz : samples (h ++ [Event.epochEnd k logs]) = samples h := by
        rw [samples_snoc]; rfl
      have hnb : ¬ AtBatch (h ++ [Event.epochEnd k logs]) (h.length, samples (h ++ [Event.epochEnd k logs])) := by
        rintro ⟨l, hl⟩
        simp at hl
      refine ⟨{ st with file := st.file ++ writeLogs logs (samples h) }, writes ++ [(h.length, samples (h ++ [Event.epochEnd k logs]))],
        steps, ?_, ?_, ⟨horder, hin2, hstep2, ?_, ?_, h3.apart, ?_⟩, h4, ?_, h6, h7⟩
      · rw [run_snoc h _ _ st h1]
        simp only [step, h4, h5]
      · rw [hsz]; exact wrote_write h _ logs (Or.inr ⟨k, rfl⟩) _ _ h3.inside _ h2
      · intro i k' logs' hi
        by_cases hlt : i < h.length
        · rw [List.getElem?_append_left hlt] at hi
          obtain ⟨w, hw, rfl⟩ := h3.epochs i k' logs' hi
          exact ⟨w, by simp [hw], rfl⟩
        · have hi' : i = h.length := by
            have := (List.getElem?_eq_some_iff.mp hi).1
            simp at this; omega
          exact ⟨_, List.mem_append_right _ (List.mem_singleton_self _), hi'.symm⟩
      · intro s
        rw [h3.batches s]
        constructor
        · rintro ⟨w, hw, ha, rfl⟩
          exact ⟨w, by simp [hw], (hat w hw).mpr ha, rfl⟩
        · rintro ⟨w, hw, ha, rfl⟩
          rcases List.mem_append.mp hw with hw | hw
          · exact ⟨w, hw, (hat w hw).mp ha, rfl⟩
          · rw [List.mem_singleton.mp hw] at ha
            exact absurd ha hnb
      · rw [hsz]; exact h3.recent
      · rw [hsz]; exact h5
    | batchEnd logs =>
      obtain ⟨size, hsize⟩ := Option.isSome_iff_exists.mp (hs logs (by simp))
      have hsz : samples (h ++ [Event.batchEnd logs]) = st.samplesSeen + size := by
        rw [samples_snoc, h5]
        simp [Event.size, hsize]
      have hrun := run_snoc h (Event.batchEnd logs) _ st h1
      rw [step_batch st n size logs h4 hsize] at hrun
      have hep : ∀ i k' logs', (h ++ [Event.batchEnd logs])[i]? = some (.epochEnd k' logs') → ∃ w ∈ writes, w.1 = i := by
        intro i k' logs' hi
        by_cases hlt : i < h.length
        · rw [List.getElem?_append_left hlt] at hi
          exact h3.epochs i k' logs' hi
        · have hi' : i = h.length := by
            have := (List.getElem?_eq_some_iff.mp hi).1
            simp at this; omega
          subst hi'
          simp at hi
      by_cases hge : st.samplesSeen + size - st.samplesSeenAtLastWrite ≥ n
      · rw [if_pos hge] at hrun
        have hyes : AtBatch (h ++ [Event.batchEnd logs]) (h.length, samples (h ++ [Event.batchEnd logs])) := ⟨logs, by simp⟩
        have hlast : (0 :: (steps ++ [samples (h ++ [Event.batchEnd logs])])).getLast? = some (samples (h ++ [Event.batchEnd logs])) := by
          rw [← List.cons_append, List.getLast?_append]; rfl
        refine ⟨_, writes ++ [(h.length, samples (h ++ [Event.batchEnd logs]))], steps ++ [samples (h ++ [Event.batchEnd logs])],
          hrun, ?_, ⟨horder, hin2, hstep2, ?_, ?_, ?_, ?_⟩, h4, ?_, ?_, Nat.le_refl _⟩
        · rw [hsz]; exact wrote_write h _ logs (Or.inl rfl) _ _ h3.inside _ h2
        · intro i k' logs' hi
          obtain ⟨w, hw, hwi⟩ := hep i k' logs' hi
          exact ⟨w, by simp [hw], hwi⟩
        · intro s
          rw [List.mem_append, h3.batches s, List.mem_singleton]
          constructor
          · rintro (⟨w, hw, ha, rfl⟩ | rfl)
            · exact ⟨w, by simp [hw], (hat w hw).mpr ha, rfl⟩
            · exact ⟨_, List.mem_append_right _ (List.mem_singleton_self _), hyes, rfl⟩
          · rintro ⟨w, hw, ha, rfl⟩
            rcases List.mem_append.mp hw with hw | hw
            · exact Or.inl ⟨w, hw, (hat w hw).mp ha, rfl⟩
            · rw [List.mem_singleton.mp hw]; exact Or.inr rfl
        · refine apart_snoc n steps _ h3.apart ?_
          intro last hl
          rw [h6] at hl
          obtain rfl := Option.some.inj hl
          rw [hsz]; omega
        · intro last hl
          rw [hlast] at hl
          obtain rfl := Option.some.inj hl
          omega
        · exact hsz.symm
        · rw [hlast, hsz]
      · rw [if_neg hge] at hrun
        refine ⟨_, writes, steps, hrun, wrote_snoc h _ _ h3.inside _ h2, ⟨h3.order, hinside, hold, hep, ?_, h3.apart, ?_⟩, h4, hsz.symm, h6, ?_⟩
        · intro s
          rw [h3.batches s]
          constructor
          · rintro ⟨w, hw, ha, rfl⟩; exact ⟨w, hw, (hat w hw).mpr ha, rfl⟩
          · rintro ⟨w, hw, ha, rfl⟩; exact ⟨w, hw, (hat w hw).mp ha, rfl⟩
        · intro last hl
          rw [h6] at hl
          obtain rfl := Option.some.inj hl
          rw [hsz]; omega
        · show st.samplesSeenAtLastWrite ≤ st.samplesSeen + size
          omega

/-- C93: `update_freq='batch'` behaves as `update_freq=1`; then, when the history ends with a batch that is not empty,
that batch has been written. -/
theorem C93_batch (h : List (Event V)) (logs : Logs V) (hs : Sized (h ++ [.batchEnd logs])) (hpos : 0 < (Event.batchEnd logs).size) :
    ∃ st writes steps, run (init .batch) (h ++ [.batchEnd logs]) = some st ∧ Wrote (h ++ [.batchEnd logs]) writes st.file ∧
      EverySamples 1 (h ++ [.batchEnd logs]) writes steps ∧ (h.length, samples (h ++ [.batchEnd logs])) ∈ writes := by
  obtain ⟨st, writes, steps, h1, h2, h3⟩ := C93_samples 1 (Nat.le_refl _) (h ++ [.batchEnd logs]) hs
  refine ⟨st, writes, steps, h1, h2, h3, ?_⟩
  have hne : (0 :: steps) ≠ [] := by simp
  have hlast := h3.recent _ (List.getLast?_eq_some_getLast hne)
  have hsam := samples_snoc h (.batchEnd logs)
  have hmem : (0 :: steps).getLast hne ∈ steps := by
    rcases List.mem_cons.mp (List.getLast_mem hne) with h0 | h0
    · rw [h0] at hlast; omega
    · exact h0
  obtain ⟨w, hw, -, hws⟩ := (h3.batches _).mp hmem
  have hstep := h3.step w hw
  have hin := h3.inside w hw
  have hwl : w.1 = h.length := by
    by_contra hlt
    have hlt' : w.1 < h.length := by
      simp at hin; omega
    rw [take_snoc_le h _ hlt'] at hstep
    have hle : samples (h.take (w.1 + 1)) ≤ samples h := by
      conv_rhs => rw [← List.take_append_drop (w.1 + 1) h]
      unfold samples
      rw [List.map_append, List.sum_append]
      exact Nat.le_add_right _ _
    omega
  have : w = (h.length, samples (h ++ [.batchEnd logs])) := by
    refine Prod.ext hwl ?_
    rw [hstep, hwl, List.take_of_length_le (by simp)]
  rw [← this]; exact hw

/-- Hypotheses of `C93_samples` are met by a history as Keras produces it. -/
example : Sized [Event.batchEnd [("batch", Value.count 0), ("size", .count 3), ("loss", .metric (1 : Nat))],
    .epochEnd 0 [("loss", .metric 1)]] := by
  intro logs hl
  simp only [List.mem_cons, List.not_mem_nil, or_false, Event.batchEnd.injEq] at hl
  rcases hl with rfl | hl
  · rfl
  · exact absurd hl (by simp)

/-! ### C94: histograms -/

/-- Errors of `on_epoch_end`. -/
inductive HistError where
  /-- histograms wanted but no validation data (tensorboard.py:260-262) -/
  | noValidationData
  /-- `assert len(val_data) == len(tensors)` (line 276) -/
  | wrongNumberOfArrays
  deriving DecidableEq

/-- The loop of lines 279-292 on the first validation array, `fuel` passes of it: the slices given to the network in
order, and whether the loop has ended. (The other arrays are sliced at the same places.) -/
def histLoop (batchSize : Nat) (val : List α) : (fuel i : Nat) → List (List α) × Bool
  | 0, i => ([], decide (¬ i < val.length))
  | fuel + 1, i =>
    if i < val.length then
      let stp := min batchSize (val.length - i)
      let r := histLoop batchSize val fuel (i + batchSize)
      (((val.take (i + stp)).drop i) :: r.1, r.2)
    else ([], true)

/-- The histogram part of `on_epoch_end` (tensorboard.py:257-292): the slices evaluated in epoch `epoch`, or the error.
`arrays` is the number of validation arrays (none: no validation data), `tensors` the number of inputs, targets and
sample weights of the model, plus one if the model uses a learning phase. `fuel` bounds the loop. -/
def histograms (freq batchSize tensors fuel : Nat) (arrays : Option Nat) (val : List α) (epoch : Nat) :
    Except HistError (List (List α) × Bool) :=
  if freq = 0 then .ok ([], true)
  else match arrays with
    | none => .error .noValidationData
    | some n =>
      if epoch % freq = 0 then
        if n = tensors then .ok (histLoop batchSize val fuel 0) else .error .wrongNumberOfArrays
      else .ok ([], true)

/-- `TensorBoardWithGeneratorValidationData.on_epoch_end` (tensorboard_with_generator_validation_data.py:12-17) for a model
with one input and one output: three arrays (configurations, targets, weights) taken from the current batch. -/
def generatorHistograms (freq batchSize fuel : Nat) (usesLearningPhase : Bool) (currentBatch : List α) (epoch : Nat) :
    Except HistError (List (List α) × Bool) :=
  histograms freq batchSize (if usesLearningPhase then 4 else 3) fuel (some 3) currentBatch epoch

theorem histLoop_spec (b : Nat) (hb : 0 < b) (val : List α) : ∀ (fuel i : Nat), val.length ≤ i + fuel →
    (histLoop b val fuel i).2 = true ∧ (histLoop b val fuel i).1.flatten = val.drop i ∧
    ∀ s ∈ (histLoop b val fuel i).1, 0 < s.length ∧ s.length ≤ b := by
  intro fuel
  induction fuel with
  | zero =>
    intro i hi
    refine ⟨by simp [histLoop]; omega, ?_, by simp [histLoop]⟩
    simp only [histLoop, List.flatten_nil]
    rw [List.drop_eq_nil_of_le (by omega)]
  | succ fuel ih =>
    intro i hi
    unfold histLoop
    by_cases hlt : i < val.length
    · rw [if_pos hlt]
      obtain ⟨h1, h2, h3⟩ := ih (i + b) (by omega)
      refine ⟨h1, ?_, ?_⟩
      · dsimp only
        rw [List.flatten_cons, h2, List.drop_take, Nat.add_sub_cancel_left, ← List.drop_drop]
        rcases Nat.le_total b (val.length - i) with hle | hle
        · rw [Nat.min_eq_left hle, List.take_append_drop]
        · rw [Nat.min_eq_right hle, List.take_of_length_le (by simp), List.drop_drop, List.drop_eq_nil_of_le (as := val) (i := i + b) (by omega), List.append_nil]
      · intro s hs
        rcases List.mem_cons.mp hs with rfl | hs
        · simp only [List.length_drop, List.length_take]; omega
        · exact h3 s hs
    · rw [if_neg hlt]
      refine ⟨rfl, ?_, by simp⟩
      rw [List.drop_eq_nil_of_le (by omega)]; rfl

/-- C94, partial: in every epoch whose number is a multiple of `histogram_freq` the histograms are computed from the whole
current batch, every sample once and in order, in pieces of at most `batch_size` samples, and the loop ends; in
the other epochs and with `histogram_freq=0` nothing is computed. For models without learning phase and a
`batch_size` above 0. Missing: models with a learning phase and `batch_size=0`, where it is false
(`C94_violated_learning_phase`, `C94_violated_zero`). -/
theorem C94_histograms_partial (freq b : Nat) (hb : 0 < b) (batch : List α) (epoch : Nat) :
    (freq ≠ 0 ∧ epoch % freq = 0 → ∃ pieces, ∀ fuel, batch.length ≤ fuel →
      generatorHistograms freq b fuel false batch epoch = .ok (pieces, true) ∧ pieces.flatten = batch ∧
      ∀ s ∈ pieces, 0 < s.length ∧ s.length ≤ b) ∧
    (freq = 0 ∨ epoch % freq ≠ 0 → ∀ fuel lp, generatorHistograms freq b fuel lp batch epoch = .ok ([], true)) := by
  constructor
  · rintro ⟨h1, h2⟩
    have hmono : ∀ (fuel i : Nat), batch.length ≤ i + fuel → histLoop b batch (fuel + 1) i = histLoop b batch fuel i := by
      intro fuel
      induction fuel with
      | zero =>
        intro i hi
        have : ¬ i < batch.length := by omega
        simp [histLoop, this]
      | succ fuel ih =>
        intro i hi
        rw [histLoop]
        conv_rhs => rw [histLoop]
        by_cases hlt : i < batch.length
        · rw [if_pos hlt, if_pos hlt, ih (i + b) (by omega)]
        · rw [if_neg hlt, if_neg hlt]
    have hall : ∀ k, histLoop b batch (batch.length + k) 0 = histLoop b batch batch.length 0 := by
      intro k
      induction k with
      | zero => rfl
      | succ k ih => rw [← Nat.add_assoc, hmono _ 0 (by omega), ih]
    refine ⟨(histLoop b batch batch.length 0).1, fun fuel hf => ?_⟩
    obtain ⟨e1, e2, e3⟩ := histLoop_spec b hb batch batch.length 0 (by omega)
    refine ⟨?_, by rw [e2, List.drop_zero], e3⟩
    obtain ⟨k, rfl⟩ := Nat.exists_eq_add_of_le hf
    simp only [generatorHistograms, histograms, if_neg h1, if_pos h2, hall k, Bool.false_eq_true, if_false, if_true]
    rw [← e1]
  · intro h fuel lp
    unfold generatorHistograms histograms
    by_cases h0 : freq = 0
    · rw [if_pos h0]
    · rw [if_neg h0]
      have : epoch % freq ≠ 0 := by tauto
      simp only [if_neg this]

/-- C94 is violated for models with a learning phase (dropout, batch normalisation): every epoch with histograms raises. -/
theorem C94_violated_learning_phase (freq b fuel : Nat) (hf : freq ≠ 0) (batch : List α) (epoch : Nat) (he : epoch % freq = 0) :
    generatorHistograms freq b fuel true batch epoch = .error .wrongNumberOfArrays := by
  simp only [generatorHistograms, histograms, if_neg hf, if_pos he, if_true]
  rfl

/-- C94 is violated for `batch_size=0`: the loop never ends. -/
theorem C94_violated_zero (freq fuel : Nat) (hf : freq ≠ 0) (batch : List α) (hne : batch ≠ []) (epoch : Nat) (he : epoch % freq = 0) :
    ∃ pieces, generatorHistograms freq 0 fuel false batch epoch = .ok (pieces, false) := by
  have hpos : 0 < batch.length := List.length_pos_iff.mpr hne
  have h : ∀ fuel, (histLoop 0 batch fuel 0).2 = false := by
    intro fuel
    induction fuel with
    | zero => simp [histLoop]; omega
    | succ fuel ih =>
      unfold histLoop
      rw [if_pos hpos]
      exact ih
  refine ⟨(histLoop 0 batch fuel 0).1, ?_⟩
  simp only [generatorHistograms, histograms, if_neg hf, if_pos he, Bool.false_eq_true, if_false, if_true]
  rw [← h fuel]

/-- The plain callback needs validation data if histograms are wanted, in every epoch. -/
theorem C94_needs_data (freq b tensors fuel : Nat) (hf : freq ≠ 0) (val : List α) (epoch : Nat) :
    histograms freq b tensors fuel none val epoch = .error .noValidationData := by
  simp only [histograms, if_neg hf]

end Verif.TensorBoard
