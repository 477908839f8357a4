import Mathlib.Data.List.Basic
import Mathlib.Algebra.BigOperators.Group.List.Basic
import Mathlib.Data.List.Flatten
import Mathlib.Logic.Relation
import Mathlib.Tactic.Linarith

/-!
# C60, C72, C73: the stages of `experiments/train.py`
-/
namespace Verif.Stages

/-- Settings of a stage (batch size and learning rate) and its number of epochs. -/
structure Stage (S : Type) where
  settings : S
  numEpoch : Nat

variable {S : Type}

/-- `model.fit_generator(..., epochs=total_epochs, initial_epoch=initial_epoch)`: the epochs that Keras runs. -/
def fit (settings : S) (initialEpoch totalEpochs : Nat) : List (Nat × S) :=
  (List.range' initialEpoch (totalEpochs - initialEpoch)).map fun e => (e, settings)

/-- The stage loop (train.py lines 88-130): the epochs run, with the settings of the stage that runs them. `total` and
`initial` are `total_epochs` and `initial_epoch` when the loop gets to the remaining stages. -/
def loop : List (Stage S) → (total initial : Nat) → List (Nat × S)
  | [], _, _ => []
  | st :: rest, total, initial =>
    let total := total + st.numEpoch
    if total ≤ initial then loop rest total initial
    else fit st.settings initial total ++ loop rest total total

/-- The stages of a run that found the epoch number `initial` in the checkpoint (zero if there is none). -/
def run (stages : List (Stage S)) (initial : Nat) : List (Nat × S) := loop stages 0 initial

/-! ### Specification -/

/-- The settings of all epochs in order: every stage's settings as often as it has epochs. -/
def schedule (stages : List (Stage S)) : List S := stages.flatMap fun st => List.replicate st.numEpoch st.settings

/-! ### Proofs -/

theorem fit_self (s : S) (e : Nat) : fit s e e = [] := by simp [fit]

theorem loop_done : ∀ (stages : List (Stage S)) (total : Nat), loop stages total total =
    ((schedule stages).zipIdx total).map fun e => (e.2, e.1)
  | [], _ => rfl
  | st :: rest, total => by
    rw [loop]
    have hs : schedule (st :: rest) = List.replicate st.numEpoch st.settings ++ schedule rest := by
      simp [schedule]
    rw [hs, List.zipIdx_append, List.map_append, List.length_replicate]
    have ih := loop_done rest (total + st.numEpoch)
    have hf : fit st.settings total (total + st.numEpoch) =
        ((List.replicate st.numEpoch st.settings).zipIdx total).map fun e => (e.2, e.1) := by
      unfold fit
      rw [Nat.add_sub_cancel_left]
      apply List.ext_getElem
      · simp
      · intro i h1 h2
        simp
    split
    · have h0 : st.numEpoch = 0 := by omega
      rw [h0, Nat.add_zero] at ih ⊢
      simp only [List.replicate_zero, List.zipIdx_nil, List.map_nil, List.nil_append]
      exact ih
    · rw [hf, ih]

theorem loop_resume : ∀ (stages : List (Stage S)) (total initial : Nat), total ≤ initial →
    loop stages total initial = (((schedule stages).drop (initial - total)).zipIdx initial).map fun e => (e.2, e.1)
  | [], _, _, _ => by simp [loop, schedule]
  | st :: rest, total, initial, h => by
    rw [loop]
    have hs : schedule (st :: rest) = List.replicate st.numEpoch st.settings ++ schedule rest := by
      simp [schedule]
    split
    · rename_i hle
      rw [loop_resume rest _ initial hle, hs, List.drop_append, List.drop_replicate, List.length_replicate,
        show st.numEpoch - (initial - total) = 0 by omega, List.replicate_zero, List.nil_append,
        show initial - total - st.numEpoch = initial - (total + st.numEpoch) by omega]
    · rename_i hlt
      rw [hs, List.drop_append, List.drop_replicate, List.length_replicate, show initial - total - st.numEpoch = 0 by omega,
        List.drop_zero, List.zipIdx_append, List.map_append, List.length_replicate, loop_done]
      congr 1
      · unfold fit
        apply List.ext_getElem
        · simp; omega
        · intro i h1 h2
          simp
      · rw [show initial + (st.numEpoch - (initial - total)) = total + st.numEpoch by omega]

/-- **C60.** For all stages and every saved epoch number, the run executes exactly the epochs of the schedule from that number
on, in order and each once, numbered consecutively, each with the settings of its stage. -/
theorem C60_resume (stages : List (Stage S)) (initial : Nat) :
    run stages initial = (((schedule stages).drop initial).zipIdx initial).map fun e => (e.2, e.1) := by
  unfold run
  rw [loop_resume stages 0 initial (Nat.zero_le _), Nat.sub_zero]

/-- **C60 (what this means epoch by epoch).** Epoch `e` is run with settings `s` exactly if it is not before the saved number and
`s` is the setting of epoch `e` in the schedule; no epoch is run twice. -/
theorem C60_epochs (stages : List (Stage S)) (initial : Nat) :
    (∀ e s, (e, s) ∈ run stages initial ↔ initial ≤ e ∧ (schedule stages)[e]? = some s) ∧
    ((run stages initial).map Prod.fst) = List.range' initial ((schedule stages).length - initial) := by
  rw [C60_resume]
  constructor
  · intro e s
    rw [List.mem_map]
    constructor
    · rintro ⟨⟨s', e'⟩, h, heq⟩
      obtain ⟨rfl, rfl⟩ : e' = e ∧ s' = s := by simpa using heq
      rw [List.mk_mem_zipIdx_iff_le_and_getElem?_sub] at h
      refine ⟨h.1, ?_⟩
      rw [← h.2, List.getElem?_drop]
      congr 1
      omega
    · rintro ⟨hle, hs⟩
      refine ⟨(s, e), ?_, rfl⟩
      rw [List.mk_mem_zipIdx_iff_le_and_getElem?_sub]
      refine ⟨hle, ?_⟩
      rw [List.getElem?_drop, ← hs]
      congr 1
      omega
  · rw [List.map_map]
    show (((schedule stages).drop initial).zipIdx initial).map Prod.snd = _
    rw [List.zipIdx_map_snd, List.length_drop]

/-- Stages of lengths two, zero and three, resumed in the third. -/
example : run [⟨"a", 2⟩, ⟨"b", 0⟩, ⟨"c", 3⟩] 3 = [(3, "c"), (4, "c")] := rfl

/-! ### Interruptions inside an epoch -/

/-- Progress of a training process: `updates` that went into the weights in memory, the epoch being run and the number of its
batches done, and the checkpoint: the number of updates in the saved weights and the saved epoch number. The saved
batch number is written but not read back (train.py line 62), so it is left out. -/
structure Progress where
  updates : Nat
  epoch : Nat
  batch : Nat
  saved : Option (Nat × Nat)
  deriving DecidableEq

/-- Steps, with `steps` batches in an epoch: a batch, the next epoch, a save (`on_batch_end` saves the callback's current
epoch, checkpoint.py lines 59-68), the save at the end of training, which writes the next epoch number
(lines 70-72), and death of the process followed by a restart in the first batch of the saved epoch. -/
inductive Move (steps : Nat) : Progress → Progress → Prop
  | batch (p : Progress) (h : p.batch < steps) : Move steps p { p with updates := p.updates + 1, batch := p.batch + 1 }
  | nextEpoch (p : Progress) (h : p.batch = steps) : Move steps p { p with epoch := p.epoch + 1, batch := 0 }
  | save (p : Progress) (h : 0 < p.batch) : Move steps p { p with saved := some (p.updates, p.epoch) }
  | saveAtEnd (p : Progress) (h : p.batch = steps) : Move steps p { p with saved := some (p.updates, p.epoch + 1) }
  | restartFresh (p : Progress) (h : p.saved = none) : Move steps p ⟨0, 0, 0, none⟩
  | restart (p : Progress) (u e : Nat) (h : p.saved = some (u, e)) : Move steps p ⟨u, e, 0, some (u, e)⟩

/-- Histories. -/
def Reach (steps : Nat) : Progress → Prop := Relation.ReflTransGen (Move steps) ⟨0, 0, 0, none⟩

/-- Histories without saves inside an epoch (only at the end of training). -/
def ReachEnd (steps : Nat) : Progress → Prop :=
  Relation.ReflTransGen (fun p q => Move steps p q ∧ (q.saved = p.saved ∨ p.batch = steps ∧ q.saved = some (p.updates, p.epoch + 1))) ⟨0, 0, 0, none⟩

theorem reach_batches (steps : Nat) (saved : Option (Nat × Nat)) (u e : Nat) : ∀ b, b ≤ steps →
    Relation.ReflTransGen (Move steps) ⟨u, e, 0, saved⟩ ⟨u + b, e, b, saved⟩
  | 0, _ => Relation.ReflTransGen.refl
  | b + 1, h => (reach_batches steps saved u e b (by omega)).tail (Move.batch ⟨u + b, e, b, saved⟩ (by show b < steps; omega))

theorem reach_epochs (steps : Nat) (saved : Option (Nat × Nat)) (u e : Nat) : ∀ k,
    Relation.ReflTransGen (Move steps) ⟨u, e, 0, saved⟩ ⟨u + k * steps, e + k, 0, saved⟩
  | 0 => by simpa using Relation.ReflTransGen.refl
  | k + 1 => by
    have h1 := (reach_epochs steps saved u e k).trans (reach_batches steps saved (u + k * steps) (e + k) steps le_rfl)
    have h2 := h1.tail (Move.nextEpoch ⟨u + k * steps + steps, e + k, steps, saved⟩ rfl)
    have h3 : u + (k + 1) * steps = u + k * steps + steps := by rw [Nat.add_mul, Nat.one_mul, Nat.add_assoc]
    rw [h3]
    exact h2

/-- **C73 fails.** Whatever the number of batches per epoch, if a checkpoint is saved after `b` batches of epoch `e` and the process
dies before the next save, the restarted run repeats these batches on top of weights that already contain them: the weights
at the end of any later epoch have received `b` updates too many. -/
theorem C73_violated (steps e b k : Nat) (hb : 0 < b) (hbs : b ≤ steps) :
    ∃ p, Reach steps p ∧ p.epoch = e + k ∧ p.batch = 0 ∧ p.updates = p.epoch * steps + b := by
  have h1 := (reach_epochs steps none 0 0 e).trans (reach_batches steps none _ _ b hbs)
  have h2 := h1.tail (Move.save ⟨0 + e * steps + b, 0 + e, b, none⟩ hb)
  have h3 := h2.tail (Move.restart ⟨0 + e * steps + b, 0 + e, b, some (0 + e * steps + b, 0 + e)⟩ _ _ rfl)
  have h4 := h3.trans (reach_epochs steps (some (0 + e * steps + b, 0 + e)) (0 + e * steps + b) (0 + e) k)
  refine ⟨_, h4, by simp, rfl, ?_⟩
  show 0 + e * steps + b + k * steps = (0 + e + k) * steps + b
  rw [Nat.zero_add, Nat.zero_add, Nat.add_mul]
  omega

/-- **C73, the part that holds.** As long as checkpoints are saved only at the end of training runs, in every history the weights
have received exactly one update per batch of the finished epochs and of the current one. -/
theorem C73_at_end_partial (steps : Nat) (p : Progress) (h : ReachEnd steps p) :
    p.updates = p.epoch * steps + p.batch ∧ ∀ u e, p.saved = some (u, e) → u = e * steps := by
  induction h with
  | refl => exact ⟨by simp, nofun⟩
  | tail _ hm ih =>
    obtain ⟨hm, hs⟩ := hm
    cases hm with
    | batch h => exact ⟨by dsimp only; omega, ih.2⟩
    | nextEpoch h => exact ⟨by dsimp only; rw [ih.1, h, Nat.add_mul]; omega, ih.2⟩
    | save h =>
      refine ⟨ih.1, fun u e hq => ?_⟩
      rcases hs with hs | ⟨hb, hs⟩
      · exact ih.2 u e (hs.symm.trans hq)
      · rw [hs] at hq
        injection hq with hq
        injection hq with h1 h2
        rw [← h1, ← h2, ih.1, hb, Nat.add_mul]
        omega
    | saveAtEnd h =>
      refine ⟨ih.1, fun u e hq => ?_⟩
      injection hq with hq
      injection hq with h1 h2
      rw [← h1, ← h2, ih.1, h, Nat.add_mul]
      omega
    | restartFresh h => exact ⟨by simp, nofun⟩
    | restart u e h =>
      refine ⟨by have := ih.2 u e h; simpa using this, fun u' e' hq => ?_⟩
      injection hq with hq
      injection hq with h1 h2
      rw [← h1, ← h2]
      exact ih.2 u e h

/-! ### Configuration of the stages -/

/-- A value of the configuration: a number or, after a mistake, a list of numbers. -/
inductive Val where
  | num (n : Nat)
  | list (l : List Nat)
  deriving DecidableEq

/-- The exceptions of `experiments/train.py`: the assertion of line 73 and the failing comparison of line 99. -/
inductive ConfigError where
  | assertion
  | typeError
  deriving DecidableEq

/-- `if len(config.batch_size) == 1: config.batch_size = [config.batch_size] * len(config.num_epoch)` (train.py lines
69-72); the list is repeated, not its element. -/
def fill (values : List Nat) (stages : Nat) : List Val :=
  if values.length = 1 then List.replicate stages (.list values) else values.map .num

/-- `to_valid_stages_config` (train.py lines 68-73): batch sizes, learning rates (in fixed-point units) and numbers of epochs. -/
def toValidStages (batchSize learningRate numEpoch : List Nat) : Except ConfigError (List Val × List Val × List Nat) :=
  let bs := fill batchSize numEpoch.length
  let lr := fill learningRate numEpoch.length
  if bs.length = numEpoch.length ∧ lr.length = numEpoch.length then .ok (bs, lr, numEpoch) else .error .assertion

/-- `min(batch_size * 8, 2**15)` (train.py line 99): a list times eight is a longer list, which cannot be compared with a
number. -/
def validationBatch : Val → Except ConfigError Nat
  | .num n => .ok (min (n * 8) (2 ^ 15))
  | .list _ => .error .typeError

/-- The training up to the choice of the validation batch size of each stage that is run (train.py lines 88-99), from a saved epoch
number; the batch sizes of the stages that are run. -/
def stageBatches : List (Val × Nat) → (total initial : Nat) → Except ConfigError (List Nat)
  | [], _, _ => .ok []
  | (bs, n) :: rest, total, initial =>
    if total + n ≤ initial then stageBatches rest (total + n) initial
    else
      match bs, validationBatch bs with
      | .num b, .ok _ => (stageBatches rest (total + n) (total + n)).map (b :: ·)
      | _, .error e => .error e
      | .list _, .ok _ => .error .typeError

/-- `train` as far as it concerns the batch sizes. -/
def trainBatches (batchSize learningRate numEpoch : List Nat) (initial : Nat) : Except ConfigError (List Nat) :=
  match toValidStages batchSize learningRate numEpoch with
  | .error e => .error e
  | .ok (bs, _, ne) => stageBatches (bs.zip ne) 0 initial

theorem stageBatches_list (v : List Nat) : ∀ (numEpoch : List Nat) (total initial : Nat), total ≤ initial →
    initial < total + numEpoch.sum → stageBatches ((List.replicate numEpoch.length (.list v)).zip numEpoch) total initial = .error .typeError
  | [], total, initial, h, h' => by simp at h'; omega
  | n :: ns, total, initial, h, h' => by
    rw [List.length_cons, List.replicate_succ, List.zip_cons_cons]
    show (if total + n ≤ initial then _ else Except.error ConfigError.typeError) = _
    split
    · rename_i hle
      exact stageBatches_list v ns _ _ hle (by rw [List.sum_cons] at h'; omega)
    · rfl

/-- **C72 fails.** If one batch size is given for all stages, which the code means to allow, then the training raises, for every
batch size and every list of stages of which at least one epoch remains to be run. -/
theorem C72_violated (b : Nat) (learningRate numEpoch : List Nat) (initial : Nat) (h : initial < numEpoch.sum)
    (hl : learningRate.length = 1 ∨ learningRate.length = numEpoch.length) :
    trainBatches [b] learningRate numEpoch initial = .error .typeError := by
  unfold trainBatches toValidStages
  have hb : fill [b] numEpoch.length = List.replicate numEpoch.length (.list [b]) := rfl
  have hlr : (fill learningRate numEpoch.length).length = numEpoch.length := by
    unfold fill
    split
    · rw [List.length_replicate]
    · rw [List.length_map]
      rcases hl with hl | hl
      · exact absurd hl ‹_›
      · exact hl
  simp only [hb, hlr, List.length_replicate, and_self, if_true]
  exact stageBatches_list [b] numEpoch 0 initial (Nat.zero_le _) (by omega)

theorem stageBatches_num : ∀ (bs numEpoch : List Nat) (total initial : Nat), total ≤ initial → bs.length = numEpoch.length →
    ∃ k, stageBatches ((bs.map Val.num).zip numEpoch) total initial = .ok k ∧ k.Sublist bs
  | [], [], _, _, _, _ => ⟨[], rfl, List.Sublist.refl _⟩
  | b :: bs, n :: ns, total, initial, h, hl => by
    rw [List.map_cons, List.zip_cons_cons, stageBatches]
    split
    · rename_i hle
      obtain ⟨k, hk, hs⟩ := stageBatches_num bs ns _ _ hle (by simpa using hl)
      exact ⟨k, hk, hs.cons b⟩
    · obtain ⟨k, hk, hs⟩ := stageBatches_num bs ns (total + n) (total + n) le_rfl (by simpa using hl)
      refine ⟨b :: k, ?_, hs.cons₂ b⟩
      show (stageBatches _ _ _).map _ = _
      rw [hk]
      rfl
  | [], _ :: _, _, _, _, hl => by simp at hl
  | _ :: _, [], _, _, _, hl => by simp at hl

/-- **C72, the part that holds.** One batch size per stage is used as given when there are several stages, and lists
of other lengths are rejected by the assertion. -/
theorem C72_per_stage_partial (bs lr ne : List Nat) (initial : Nat) (h2 : bs.length ≠ 1) (h3 : lr.length ≠ 1) :
    (bs.length = ne.length ∧ lr.length = ne.length → toValidStages bs lr ne = .ok (bs.map .num, lr.map .num, ne) ∧
      ∃ k, trainBatches bs lr ne initial = .ok k ∧ k.Sublist bs) ∧
    (¬ (bs.length = ne.length ∧ lr.length = ne.length) → trainBatches bs lr ne initial = .error .assertion) := by
  have hb : fill bs ne.length = bs.map .num := by unfold fill; rw [if_neg h2]
  have hlr : fill lr ne.length = lr.map .num := by unfold fill; rw [if_neg h3]
  constructor
  · rintro ⟨h, h'⟩
    have hv : toValidStages bs lr ne = .ok (bs.map .num, lr.map .num, ne) := by
      unfold toValidStages
      rw [hb, hlr]
      simp [h, h']
    refine ⟨hv, ?_⟩
    unfold trainBatches
    rw [hv]
    exact stageBatches_num bs ne 0 initial (Nat.zero_le _) h
  · intro h
    unfold trainBatches toValidStages
    rw [hb, hlr]
    simp [h]

/-- One value for two stages, and two values. -/
example : trainBatches [1024] [5] [80, 370] 0 = .error .typeError ∧ trainBatches [1024, 2048] [5, 5] [80, 370] 100 = .ok [2048] :=
  ⟨rfl, rfl⟩

end Verif.Stages
