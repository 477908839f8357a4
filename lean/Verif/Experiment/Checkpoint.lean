import Mathlib.Logic.Relation
import Mathlib.Data.List.Basic

/-!
# C59: checkpoints and crashes

State machine of a training process with `CheckpointByTime(save_weights_only=True)`
(`src/flowket/callbacks/checkpoint.py`) and of the restart in `experiments/train.py` lines 58-65. Weights and optimizer
state are abstract values. A file is written by truncating it and then filling it; the process may die between any
two steps.
-/
namespace Verif.Checkpoint

variable {W O : Type}

/-- What training consists of at a moment: weights, optimizer state and the epoch number of the callback. -/
structure Snapshot (W O : Type) where
  weights : W
  optimizer : O
  epoch : Nat
  deriving DecidableEq

/-- A file while it is being written, and a complete file. -/
inductive File (α : Type) where
  | cut
  | full (content : α)
  deriving DecidableEq

/-- The two files of a checkpoint; `none` if the file does not exist. -/
structure Disk (W O : Type) where
  weights : Option (File W)
  optimizer : Option (File (O × Nat))
  deriving DecidableEq

/-- Position inside `_save` (checkpoint.py lines 52-57): not saving; weights file truncated; weights written;
optimizer file truncated. -/
inductive Phase where
  | idle | weightsOpen | weightsDone | optimizerOpen
  deriving DecidableEq

/-- The whole state; `past` records all snapshots that the training has gone through (history variable). -/
structure State (W O : Type) where
  mem : Snapshot W O
  phase : Phase
  disk : Disk W O
  past : List (Snapshot W O)

/-- Outcome of a restart that does not start training. -/
inductive LoadError where
  /-- `model.load_weights` on a cut file -/
  | corruptWeights
  /-- `initial_epoch, _ = None` (train.py line 62) -/
  | cannotUnpackNone
  /-- `pickle.load` on a cut file -/
  | corruptOptimizer
  deriving DecidableEq

/-- `load_optimizer_weights` (checkpoint.py lines 19-27): `none` if the file does not exist. -/
def loadOptimizer (d : Disk W O) : Except LoadError (Option (O × Nat)) :=
  match d.optimizer with
  | none => .ok none
  | some .cut => .error .corruptOptimizer
  | some (.full c) => .ok (some c)

/-- `load_weights_if_exist` (train.py lines 58-65): `none` if there is no checkpoint (training starts afresh). -/
def load (d : Disk W O) : Except LoadError (Option (Snapshot W O)) :=
  match d.weights with
  | none => .ok none
  | some .cut => .error .corruptWeights
  | some (.full w) =>
    match loadOptimizer d with
    | .error e => .error e
    | .ok none => .error .cannotUnpackNone
    | .ok (some (o, e)) => .ok (some ⟨w, o, e⟩)

/-- Steps of the process. Training may set weights and optimizer state to anything and the callback's epoch advances
in `on_epoch_begin` and `on_train_end` (lines 67-73); a save may begin after any batch (lines 59-65). -/
inductive Step : State W O → State W O → Prop
  | train (s : State W O) (h : s.phase = .idle) (m : Snapshot W O) : Step s { s with mem := m, past := m :: s.past }
  | openWeights (s : State W O) (h : s.phase = .idle) :
      Step s { s with phase := .weightsOpen, disk := { s.disk with weights := some .cut } }
  | writeWeights (s : State W O) (h : s.phase = .weightsOpen) :
      Step s { s with phase := .weightsDone, disk := { s.disk with weights := some (.full s.mem.weights) } }
  | openOptimizer (s : State W O) (h : s.phase = .weightsDone) :
      Step s { s with phase := .optimizerOpen, disk := { s.disk with optimizer := some .cut } }
  | writeOptimizer (s : State W O) (h : s.phase = .optimizerOpen) :
      Step s { s with phase := .idle, disk := { s.disk with optimizer := some (.full (s.mem.optimizer, s.mem.epoch)) } }

/-- The process dies and is started again: memory is lost, and the new process loads the checkpoint if that succeeds. -/
inductive Restart (init : Snapshot W O) : State W O → State W O → Prop
  | fresh (s : State W O) (h : load s.disk = .ok none) : Restart init s ⟨init, .idle, s.disk, init :: s.past⟩
  | resume (s : State W O) (m : Snapshot W O) (h : load s.disk = .ok (some m)) : Restart init s ⟨m, .idle, s.disk, m :: s.past⟩

/-- First start, without files. -/
def start (init : Snapshot W O) : State W O := ⟨init, .idle, ⟨none, none⟩, [init]⟩

/-- Histories in which the process may die at any point. -/
def Reachable (init : Snapshot W O) : State W O → Prop :=
  Relation.ReflTransGen (fun s s' => Step s s' ∨ Restart init s s') (start init)

/-- Histories in which the process never dies while a checkpoint is being written. -/
def ReachableBetween (init : Snapshot W O) : State W O → Prop :=
  Relation.ReflTransGen (fun s s' => Step s s' ∨ (s.phase = .idle ∧ Restart init s s')) (start init)

/-- What C59 demands of a restart from a state: there is no checkpoint, or the loaded weights, optimizer state and epoch
number are those of one moment of the training. -/
def Survives (s : State W O) : Prop :=
  load s.disk = .ok none ∨ ∃ m ∈ s.past, load s.disk = .ok (some m)

/-- **C59 fails (mixture).** For any two different training states the process can die after writing the weights and before
writing the optimizer state of the second; the restart then silently continues with the weights of one and the optimizer
state and epoch of the other. -/
theorem C59_violated_mixed (init a b : Snapshot W O) (hw : a.weights ≠ b.weights) (ho : a.optimizer ≠ b.optimizer)
    (hi : init.optimizer ≠ a.optimizer) :
    ∃ s, Reachable init s ∧ load s.disk = .ok (some ⟨b.weights, a.optimizer, a.epoch⟩) ∧ ¬ Survives s := by
  let s1 : State W O := ⟨a, .idle, ⟨none, none⟩, [a, init]⟩
  let s2 : State W O := ⟨a, .weightsOpen, ⟨some .cut, none⟩, [a, init]⟩
  let s3 : State W O := ⟨a, .weightsDone, ⟨some (.full a.weights), none⟩, [a, init]⟩
  let s4 : State W O := ⟨a, .optimizerOpen, ⟨some (.full a.weights), some .cut⟩, [a, init]⟩
  let s5 : State W O := ⟨a, .idle, ⟨some (.full a.weights), some (.full (a.optimizer, a.epoch))⟩, [a, init]⟩
  let s6 : State W O := ⟨b, .idle, ⟨some (.full a.weights), some (.full (a.optimizer, a.epoch))⟩, [b, a, init]⟩
  let s7 : State W O := ⟨b, .weightsOpen, ⟨some .cut, some (.full (a.optimizer, a.epoch))⟩, [b, a, init]⟩
  let s8 : State W O := ⟨b, .weightsDone, ⟨some (.full b.weights), some (.full (a.optimizer, a.epoch))⟩, [b, a, init]⟩
  have h : Reachable init s8 := by
    refine ((((((((Relation.ReflTransGen.refl.tail (b := start init) (c := s1) (Or.inl ?_)).tail (c := s2) (Or.inl ?_)).tail (c := s3)
      (Or.inl ?_)).tail (c := s4) (Or.inl ?_)).tail (c := s5) (Or.inl ?_)).tail (c := s6) (Or.inl ?_)).tail (c := s7) (Or.inl ?_)).tail
        (c := s8) (Or.inl ?_))
    · exact Step.train (start init) rfl a
    · exact Step.openWeights s1 rfl
    · exact Step.writeWeights s2 rfl
    · exact Step.openOptimizer s3 rfl
    · exact Step.writeOptimizer s4 rfl
    · exact Step.train s5 rfl b
    · exact Step.openWeights s6 rfl
    · exact Step.writeWeights s7 rfl
  refine ⟨s8, h, rfl, ?_⟩
  rintro (h | ⟨m, hm, h⟩)
  · cases h
  · have hl : load s8.disk = .ok (some ⟨b.weights, a.optimizer, a.epoch⟩) := rfl
    rw [hl] at h
    injection h with h
    injection h with h
    subst h
    rcases List.mem_cons.1 hm with h | hm
    · exact ho (congrArg Snapshot.optimizer h :)
    · rcases List.mem_cons.1 hm with h | hm
      · exact hw (congrArg Snapshot.weights h).symm
      · rcases List.mem_cons.1 hm with h | hm
        · exact hi (congrArg Snapshot.optimizer h).symm
        · cases hm

/-- **C59 fails (no restart).** If the process dies inside a save, the restart can raise: because the weights file is cut,
because the optimizer file is cut, or, in the first save, because there is no optimizer file yet. -/
theorem C59_violated_raises (init : Snapshot W O) (e : LoadError) : ∃ s, Reachable init s ∧ load s.disk = .error e := by
  let s2 : State W O := ⟨init, .weightsOpen, ⟨some .cut, none⟩, [init]⟩
  let s3 : State W O := ⟨init, .weightsDone, ⟨some (.full init.weights), none⟩, [init]⟩
  let s4 : State W O := ⟨init, .optimizerOpen, ⟨some (.full init.weights), some .cut⟩, [init]⟩
  have h2 : Reachable init s2 := Relation.ReflTransGen.refl.tail (Or.inl (Step.openWeights (start init) rfl))
  have h3 : Reachable init s3 := h2.tail (Or.inl (Step.writeWeights s2 rfl))
  have h4 : Reachable init s4 := h3.tail (Or.inl (Step.openOptimizer s3 rfl))
  cases e
  · exact ⟨s2, h2, rfl⟩
  · exact ⟨s3, h3, rfl⟩
  · exact ⟨s4, h4, rfl⟩

/-- Invariant of histories without a crash during a save: what the files hold in each phase. -/
structure Inv (s : State W O) : Prop where
  mem : s.mem ∈ s.past
  idle : s.phase = .idle → Survives s ∧ (s.disk.weights = none → s.disk.optimizer = none)
  done : s.phase = .weightsDone → s.disk.weights = some (.full s.mem.weights)
  opt : s.phase = .optimizerOpen → s.disk.weights = some (.full s.mem.weights)

theorem survives_past {s : State W O} (h : Survives s) (m : Snapshot W O) {mem : Snapshot W O} {ph : Phase} : Survives ⟨mem, ph, s.disk, m :: s.past⟩ := by
  rcases h with h | ⟨x, hx, h⟩
  · exact Or.inl h
  · exact Or.inr ⟨x, List.mem_cons_of_mem _ hx, h⟩

theorem inv_reachable {init : Snapshot W O} {s : State W O} (h : ReachableBetween init s) : Inv s := by
  induction h with
  | refl => exact ⟨List.mem_singleton.2 rfl, fun _ => ⟨Or.inl rfl, fun _ => rfl⟩, nofun, nofun⟩
  | tail _ hs ih =>
    rcases hs with hs | ⟨hi, hs⟩
    · cases hs with
      | train h m => exact ⟨List.mem_cons_self, fun _ => ⟨survives_past (ih.idle h).1 m, (ih.idle h).2⟩, fun h' => absurd (h.symm.trans h') nofun,
          fun h' => absurd (h.symm.trans h') nofun⟩
      | openWeights h => exact ⟨ih.mem, nofun, nofun, nofun⟩
      | writeWeights h => exact ⟨ih.mem, nofun, fun _ => rfl, nofun⟩
      | openOptimizer h => exact ⟨ih.mem, nofun, nofun, fun _ => ih.done h⟩
      | writeOptimizer h =>
        refine ⟨ih.mem, fun _ => ⟨Or.inr ⟨_, ih.mem, ?_⟩, fun h' => ?_⟩, nofun, nofun⟩
        · unfold load loadOptimizer
          dsimp only
          rw [ih.opt h]
        · have := ih.opt h
          rw [this] at h'
          cases h'
    · have hd := ih.idle hi
      cases hs with
      | fresh h => exact ⟨List.mem_cons_self, fun _ => ⟨survives_past hd.1 _, hd.2⟩, nofun, nofun⟩
      | resume m h => exact ⟨List.mem_cons_self, fun _ => ⟨survives_past hd.1 _, hd.2⟩, nofun, nofun⟩

/-- **C59, the part that holds.** In every history, of any length and with any number of restarts, in which the process
never dies inside a save, a restart finds no checkpoint or a consistent one. -/
theorem C59_between_partial (init : Snapshot W O) (s : State W O) (h : ReachableBetween init s) (hi : s.phase = .idle) : Survives s :=
  ((inv_reachable h).idle hi).1

/-- Such a history: train, save, train further, crash; the restart continues with the saved state. -/
example : ∃ s : State Nat Nat, ReachableBetween ⟨0, 0, 0⟩ s ∧ s.phase = .idle ∧ s.mem = ⟨2, 2, 1⟩ ∧ load s.disk = .ok (some ⟨1, 1, 1⟩) := by
  let i : Snapshot Nat Nat := ⟨0, 0, 0⟩
  let a : Snapshot Nat Nat := ⟨1, 1, 1⟩
  let b : Snapshot Nat Nat := ⟨2, 2, 1⟩
  let s1 : State Nat Nat := ⟨a, .idle, ⟨none, none⟩, [a, i]⟩
  let s2 : State Nat Nat := ⟨a, .weightsOpen, ⟨some .cut, none⟩, [a, i]⟩
  let s3 : State Nat Nat := ⟨a, .weightsDone, ⟨some (.full 1), none⟩, [a, i]⟩
  let s4 : State Nat Nat := ⟨a, .optimizerOpen, ⟨some (.full 1), some .cut⟩, [a, i]⟩
  let s5 : State Nat Nat := ⟨a, .idle, ⟨some (.full 1), some (.full (1, 1))⟩, [a, i]⟩
  let s6 : State Nat Nat := ⟨b, .idle, ⟨some (.full 1), some (.full (1, 1))⟩, [b, a, i]⟩
  refine ⟨s6, ?_, rfl, rfl, rfl⟩
  refine (((((Relation.ReflTransGen.refl.tail (b := start i) (c := s1) (Or.inl (Step.train (start i) rfl a))).tail (c := s2)
    (Or.inl (Step.openWeights s1 rfl))).tail (c := s3) (Or.inl (Step.writeWeights s2 rfl))).tail (c := s4)
    (Or.inl (Step.openOptimizer s3 rfl))).tail (c := s5) (Or.inl (Step.writeOptimizer s4 rfl))).tail (c := s6) (Or.inl (Step.train s5 rfl b))

end Verif.Checkpoint
