import Mathlib.Data.List.Basic
import Mathlib.Data.List.Chain
import Mathlib.Data.Real.Basic
import Mathlib.Tactic.Linarith
import Mathlib.Tactic.NormNum

/-!
# C95: when `CheckpointByTime` saves, and under which name

Model of `src/flowket/callbacks/checkpoint.py:29-73`. What is in the files is the subject of C59; here a file is its name
with the epoch number stored beside the weights. Time is real.
-/
namespace Verif.CheckpointNames

variable {V : Type}

/-! ### Model -/

/-- A piece of a format string: text, or a named field with its format specification, as `{val_loss:.2f}`. -/
inductive Piece where
  | text (s : String)
  | field (name spec : String)

/-- Errors of `_save`. -/
inductive Error where
  /-- a field that is not in the logs -/
  | keyError (name : String)
  /-- `format(**None)` -/
  | typeError
  deriving DecidableEq

/-- `filepath.format(**values)`; `fmt` writes a value according to a specification. -/
def format (fmt : String → V → String) (values : List (String × V)) : List Piece → Except Error String
  | [] => .ok ""
  | .text s :: rest =>
    match format fmt values rest with
    | .ok r => .ok (s ++ r)
    | .error e => .error e
  | .field name spec :: rest =>
    match values.lookup name with
    | none => .error (.keyError name)
    | some v =>
      match format fmt values rest with
      | .ok r => .ok (fmt spec v ++ r)
      | .error e => .error e

/-- A file written: name, stored epoch number and batch number, and the time. -/
structure Saved where
  name : String
  epoch : Nat
  batch : Nat
  time : ℝ

/-- The callback (checkpoint.py:44-50). `minutes` is `save_frequency_in_minutes`. -/
structure State where
  minutes : ℝ
  lastSaveTime : ℝ
  currentEpoch : Nat
  files : List Saved

/-- `__init__` at time `now` (checkpoint.py:44-50). -/
def init (minutes now : ℝ) : State := ⟨minutes, now, 0, []⟩

/-- `_save` (checkpoint.py:52-59) with `save_weights_only=True`; writing takes no time. -/
def save (fmt : String → V → String) (path : List Piece) (st : State) (logs : Option (List (String × V))) (batch : Nat)
    (now : ℝ) : Except Error State :=
  match logs with
  | none => .error .typeError
  | some values =>
    match format fmt values path with
    | .error e => .error e
    | .ok name => .ok { st with files := st.files ++ [⟨name, st.currentEpoch, batch, now⟩], lastSaveTime := now }

/-- What Keras reports: the begin of an epoch, the end of a batch with its logs, the end of training (the logs may be
`None`). -/
inductive Event (V : Type) where
  | epochBegin (epoch : Nat)
  | batchEnd (batch : Nat) (logs : List (String × V)) (now : ℝ)
  | trainEnd (logs : Option (List (String × V))) (now : ℝ)

/-- `on_batch_end`, `on_epoch_begin`, `on_train_end` (checkpoint.py:61-73). -/
noncomputable def step (fmt : String → V → String) (path : List Piece) (st : State) : Event V → Except Error State
  | .epochBegin e => .ok { st with currentEpoch := e }
  | .batchEnd batch logs now =>
    if now - st.lastSaveTime < st.minutes * 60 then .ok st
    else save fmt path st (some logs) batch now
  | .trainEnd logs now => save fmt path { st with currentEpoch := st.currentEpoch + 1 } logs 0 now

/-- A history of events. -/
noncomputable def run (fmt : String → V → String) (path : List Piece) (st : State) : List (Event V) → Except Error State
  | [] => .ok st
  | e :: es =>
    match step fmt path st e with
    | .error err => .error err
    | .ok st' => run fmt path st' es

/-! ### Specification -/

/-- The fields of a format string. -/
def fields : List Piece → List String
  | [] => []
  | .text _ :: rest => fields rest
  | .field name _ :: rest => name :: fields rest

/-- A piece with its field filled from the given values. -/
def filled (fmt : String → V → String) (values : List (String × V)) : Piece → Option String
  | .text s => some s
  | .field name spec => (values.lookup name).map (fmt spec)

/-- The name the documentation promises (checkpoint.py:30-36): the fields are filled with the epoch and the logs; `none`
if a field is neither. -/
def documented (fmt : String → V → String) (path : List Piece) (epoch : V) (logs : List (String × V)) : Option String :=
  (path.mapM (filled fmt (("epoch", epoch) :: logs))).map fun l => l.foldr (· ++ ·) ""

/-- The number of the epoch a history has begun last (`start` if none). -/
def lastEpoch (start : Nat) (h : List (Event V)) : Nat :=
  (h.filterMap fun e => match e with
    | .epochBegin k => some k
    | _ => none).getLastD start

/-- The text of a format string without fields. -/
def plain : List Piece → String
  | [] => ""
  | .text s :: rest => s ++ plain rest
  | .field _ _ :: rest => plain rest

/-! ### Lemmas -/

theorem format_missing (fmt : String → V → String) (values : List (String × V)) (name : String)
    (hv : values.lookup name = none) : ∀ path : List Piece, name ∈ fields path →
      ∃ missing, format fmt values path = .error (.keyError missing)
  | [], h => by simp [fields] at h
  | .text s :: rest, h => by
    obtain ⟨m, hm⟩ := format_missing fmt values name hv rest h
    exact ⟨m, by simp [format, hm]⟩
  | .field n spec :: rest, h => by
    simp only [format]
    cases hn : values.lookup n with
    | none => exact ⟨n, rfl⟩
    | some v =>
      have hne : name ≠ n := by rintro rfl; rw [hv] at hn; exact absurd hn (by simp)
      have hr : name ∈ fields rest := by
        simp only [fields, List.mem_cons] at h
        tauto
      obtain ⟨m, hm⟩ := format_missing fmt values name hv rest hr
      exact ⟨m, by simp [hm]⟩

theorem format_without_epoch (fmt : String → V → String) (epoch : V) (logs : List (String × V)) : ∀ path : List Piece,
    "epoch" ∉ fields path → format fmt (("epoch", epoch) :: logs) path = format fmt logs path
  | [], _ => rfl
  | .text s :: rest, h => by
    simp only [format]
    rw [format_without_epoch fmt epoch logs rest h]
  | .field n spec :: rest, h => by
    simp only [fields, List.mem_cons, not_or] at h
    simp only [format]
    rw [format_without_epoch fmt epoch logs rest h.2]
    have : List.lookup n (("epoch", epoch) :: logs) = List.lookup n logs := by
      rw [List.lookup_cons]
      have hb : (n == "epoch") = false := by simpa using Ne.symm h.1
      rw [hb]
    rw [this]

theorem documented_format (fmt : String → V → String) (epoch : V) (logs : List (String × V)) : ∀ path : List Piece,
    documented fmt path epoch logs = (format fmt (("epoch", epoch) :: logs) path).toOption
  | [] => rfl
  | .text s :: rest => by
    have ih := documented_format fmt epoch logs rest
    unfold documented at ih ⊢
    rw [List.mapM_cons]
    simp only [format, filled]
    cases hr : format fmt (("epoch", epoch) :: logs) rest with
    | error e =>
      rw [hr] at ih
      cases hm : List.mapM (filled fmt (("epoch", epoch) :: logs)) rest with
      | none => rfl
      | some l => rw [hm] at ih; exact absurd ih (by simp [Except.toOption])
    | ok r =>
      rw [hr] at ih
      cases hm : List.mapM (filled fmt (("epoch", epoch) :: logs)) rest with
      | none => rw [hm] at ih; exact absurd ih (by simp [Except.toOption])
      | some l =>
        rw [hm] at ih
        have : List.foldr (· ++ ·) "" l = r := Option.some.inj ih
        show some (List.foldr (· ++ ·) "" (s :: l)) = some (s ++ r)
        rw [List.foldr_cons, this]
  | .field n spec :: rest => by
    have ih := documented_format fmt epoch logs rest
    unfold documented at ih ⊢
    rw [List.mapM_cons]
    simp only [format, filled]
    cases List.lookup n (("epoch", epoch) :: logs) with
    | none => rfl
    | some v =>
      cases hr : format fmt (("epoch", epoch) :: logs) rest with
      | error e =>
        rw [hr] at ih
        cases hm : List.mapM (filled fmt (("epoch", epoch) :: logs)) rest with
        | none => rfl
        | some l => rw [hm] at ih; exact absurd ih (by simp [Except.toOption])
      | ok r =>
        rw [hr] at ih
        cases hm : List.mapM (filled fmt (("epoch", epoch) :: logs)) rest with
        | none => rw [hm] at ih; exact absurd ih (by simp [Except.toOption])
        | some l =>
          rw [hm] at ih
          have : List.foldr (· ++ ·) "" l = r := Option.some.inj ih
          show some (List.foldr (· ++ ·) "" (fmt spec v :: l)) = some (fmt spec v ++ r)
          rw [List.foldr_cons, this]

theorem format_plain (fmt : String → V → String) (values : List (String × V)) : ∀ path : List Piece,
    fields path = [] → format fmt values path = .ok (plain path)
  | [], _ => rfl
  | .text s :: rest, h => by
    simp only [format, plain]
    rw [format_plain fmt values rest h]
  | .field _ _ :: _, h => by simp [fields] at h

/-! ### C95 -/

/-- C95 (times): from any state, at the end of a batch the callback saves exactly if at least `save_frequency_in_minutes`
minutes have passed since the last save (or its creation), and whenever it does not fail the last save is then
less than that old. -/
theorem C95_times (fmt : String → V → String) (path : List Piece) (st : State) (hpos : 0 < st.minutes) (batch : Nat)
    (logs : List (String × V)) (now : ℝ) (st' : State) (h : step fmt path st (.batchEnd batch logs now) = .ok st') :
    (st'.files ≠ st.files ↔ st.lastSaveTime + st.minutes * 60 ≤ now) ∧ now < st'.lastSaveTime + st'.minutes * 60 := by
  unfold step at h
  dsimp only at h
  by_cases hlt : now - st.lastSaveTime < st.minutes * 60
  · rw [if_pos hlt] at h
    obtain rfl := Except.ok.inj h
    refine ⟨⟨fun hne => absurd rfl hne, fun hle => ?_⟩, by linarith⟩
    exfalso; linarith
  · rw [if_neg hlt] at h
    unfold save at h
    dsimp only at h
    cases hf : format fmt logs path with
    | error e => rw [hf] at h; exact absurd h (by simp)
    | ok name =>
      rw [hf] at h
      obtain rfl := Except.ok.inj h
      refine ⟨⟨fun _ => by linarith, fun _ => by simp⟩, ?_⟩
      show now < now + st.minutes * 60
      linarith

/-- What holds between two events: the saves follow each other at a distance of at least `minutes` since `start`, and the
clock of the callback shows the last of them. -/
structure Spaced (minutes start : ℝ) (st : State) : Prop where
  freq : st.minutes = minutes
  chain : (start :: st.files.map Saved.time).IsChain fun a b => a + minutes * 60 ≤ b
  last : st.lastSaveTime = (start :: st.files.map Saved.time).getLast (List.cons_ne_nil _ _)

theorem spaced_step (fmt : String → V → String) (path : List Piece) {minutes start : ℝ} {st st' : State} {e : Event V}
    (he : ∀ logs now, e ≠ .trainEnd logs now) (hs : Spaced minutes start st) (h : step fmt path st e = .ok st') :
    Spaced minutes start st' := by
  cases e with
  | epochBegin k =>
    obtain rfl := Except.ok.inj h
    exact ⟨hs.freq, hs.chain, hs.last⟩
  | trainEnd logs now => exact absurd rfl (he logs now)
  | batchEnd batch logs now =>
    unfold step at h
    dsimp only at h
    by_cases hlt : now - st.lastSaveTime < st.minutes * 60
    · rw [if_pos hlt] at h
      obtain rfl := Except.ok.inj h
      exact hs
    · rw [if_neg hlt] at h
      unfold save at h
      dsimp only at h
      cases hf : format fmt logs path with
      | error e => rw [hf] at h; exact absurd h (by simp)
      | ok name =>
        rw [hf] at h
        obtain rfl := Except.ok.inj h
        refine ⟨hs.freq, ?_, ?_⟩
        · show (start :: (st.files ++ [_]).map Saved.time).IsChain _
          rw [List.map_append, ← List.cons_append, List.isChain_append]
          refine ⟨hs.chain, List.isChain_singleton _, fun a ha b hb => ?_⟩
          rw [List.getLast?_eq_some_getLast (List.cons_ne_nil _ _)] at ha
          obtain rfl := Option.some.inj ha
          obtain rfl : now = b := Option.some.inj hb
          rw [← hs.last, ← hs.freq]
          linarith
        · show now = (start :: (st.files ++ [_]).map Saved.time).getLast _
          simp [List.map_append]

/-- C95 (times of a training): from the creation of the callback at the time `start` on, in every history of epochs and
batches that does not fail, the first save comes no sooner than `save_frequency_in_minutes` minutes after the creation and
every other one no sooner than that after the one before; and at the end of every batch, the last save (or the creation)
is less than that old. -/
theorem C95_history (fmt : String → V → String) (path : List Piece) (minutes start : ℝ) (hpos : 0 < minutes) :
    ∀ (h : List (Event V)), (∀ logs now, Event.trainEnd logs now ∉ h) → ∀ st', run fmt path (init minutes start) h = .ok st' →
      ((start :: st'.files.map Saved.time).IsChain fun a b => a + minutes * 60 ≤ b) ∧
      ∀ batch logs now, h.getLast? = some (.batchEnd batch logs now) →
        now < (start :: st'.files.map Saved.time).getLast (List.cons_ne_nil _ _) + minutes * 60 := by
  have key : ∀ (h : List (Event V)) (st : State), Spaced minutes start st → (∀ logs now, Event.trainEnd logs now ∉ h) →
      ∀ st', run fmt path st h = .ok st' → Spaced minutes start st' ∧
        ∀ batch logs now, h.getLast? = some (.batchEnd batch logs now) → now < st'.lastSaveTime + minutes * 60 := by
    intro h
    induction h with
    | nil =>
      intro st hs _ st' hr
      obtain rfl := Except.ok.inj hr
      exact ⟨hs, fun _ _ _ h => by simp at h⟩
    | cons e es ih =>
      intro st hs hn st' hr
      cases h1 : step fmt path st e with
      | error err => simp only [run, h1] at hr; exact absurd hr (by simp)
      | ok st1 =>
        simp only [run, h1] at hr
        have hs1 := spaced_step fmt path (fun logs now he => hn logs now (by rw [he]; exact List.mem_cons_self)) hs h1
        obtain ⟨h2, h3⟩ := ih st1 hs1 (fun logs now hm => hn logs now (List.mem_cons_of_mem _ hm)) st' hr
        refine ⟨h2, fun batch logs now hl => ?_⟩
        cases es with
        | nil =>
          obtain rfl := Except.ok.inj hr
          obtain rfl := Option.some.inj hl
          have := (C95_times fmt path st (by rw [hs.freq]; exact hpos) batch logs now st1 h1).2
          rwa [h2.freq] at this
        | cons e' es' => exact h3 batch logs now (by rwa [List.getLast?_cons_cons] at hl)
  intro h hn st' hr
  obtain ⟨h1, h2⟩ := key h (init minutes start) ⟨rfl, List.isChain_singleton _, rfl⟩ hn st' hr
  exact ⟨h1.chain, fun batch logs now hl => by rw [← h1.last]; exact h2 batch logs now hl⟩

/-- C95 (names), partial: if the path has no field `epoch`, a save at the end of a batch has the documented name, and
stores the number of the running epoch and batch. Missing: paths with `{epoch}`, which always fail
(`C95_violated_epoch`). -/
theorem C95_names_partial (fmt : String → V → String) (path : List Piece) (hp : "epoch" ∉ fields path) (st : State)
    (batch : Nat) (logs : List (String × V)) (epoch : V) (now : ℝ) (hdue : st.lastSaveTime + st.minutes * 60 ≤ now)
    (name : String) (hname : documented fmt path epoch logs = some name) :
    ∃ st', step fmt path st (.batchEnd batch logs now) = .ok st' ∧
      st'.files = st.files ++ [⟨name, st.currentEpoch, batch, now⟩] := by
  rw [documented_format, format_without_epoch fmt epoch logs path hp] at hname
  cases hf : format fmt logs path with
  | error e => rw [hf] at hname; exact absurd hname (by simp [Except.toOption])
  | ok n =>
    rw [hf] at hname
    obtain rfl := Option.some.inj hname
    refine ⟨{ st with files := st.files ++ [⟨n, st.currentEpoch, batch, now⟩], lastSaveTime := now }, ?_, rfl⟩
    unfold step
    dsimp only
    rw [if_neg (by linarith)]
    unfold save
    dsimp only
    rw [hf]

/-- C95 is violated: a path with the field `{epoch}` of the documentation fails at the first save, since the logs of Keras
have no entry `epoch`; nothing is saved. -/
theorem C95_violated_epoch (fmt : String → V → String) (path : List Piece) (hp : "epoch" ∈ fields path) (st : State)
    (batch : Nat) (logs : List (String × V)) (hlogs : logs.lookup "epoch" = none) (now : ℝ)
    (hdue : st.lastSaveTime + st.minutes * 60 ≤ now) :
    ∃ missing, step fmt path st (.batchEnd batch logs now) = .error (.keyError missing) := by
  obtain ⟨m, hm⟩ := format_missing fmt logs "epoch" hlogs path hp
  refine ⟨m, ?_⟩
  unfold step
  dsimp only
  rw [if_neg (by linarith)]
  unfold save
  dsimp only
  rw [hm]

/-- C95 is violated: at the end of training, where Keras passes no logs, a path with any field fails. -/
theorem C95_violated_end (fmt : String → V → String) (path : List Piece) (hp : fields path ≠ []) (st : State) (now : ℝ) :
    ∃ e, step fmt path st (.trainEnd (some []) now) = .error e := by
  obtain ⟨n, hn⟩ := List.exists_mem_of_ne_nil _ hp
  obtain ⟨m, hm⟩ := format_missing fmt [] n rfl path hn
  refine ⟨.keyError m, ?_⟩
  simp only [step, save, hm]

/-- C95: if `None` is passed as the logs at the end of training, the last save fails for every path (at the end of a batch
`None` is replaced by an empty dictionary). -/
theorem C95_none_fails (fmt : String → V → String) (path : List Piece) (st : State) (now : ℝ) :
    step fmt path st (.trainEnd none now) = .error .typeError := rfl

/-- C95, partial: with a path without fields (as in all shipped scripts) nothing fails as long as the logs are not `None`:
every history of a training run goes through, every file written has this one name, and the last one stores one
more than the number of the last epoch. -/
theorem C95_plain_partial (fmt : String → V → String) (path : List Piece) (hp : fields path = []) :
    ∀ (h : List (Event V)) (st : State), (∀ logs now, Event.trainEnd logs now ∉ h) →
    ∃ st', run fmt path st h = .ok st' ∧ (∀ f ∈ st'.files, f ∈ st.files ∨ f.name = plain path) ∧
      ∀ logs now, ∃ st'', run fmt path st (h ++ [.trainEnd (some logs) now]) = .ok st'' ∧
        st''.files = st'.files ++ [⟨plain path, lastEpoch st.currentEpoch h + 1, 0, now⟩] := by
  intro h
  induction h with
  | nil =>
    intro st _
    refine ⟨st, rfl, fun f hf => Or.inl hf, fun logs now => ?_⟩
    refine ⟨{ st with
        currentEpoch := st.currentEpoch + 1
        files := st.files ++ [⟨plain path, st.currentEpoch + 1, 0, now⟩]
        lastSaveTime := now }, ?_, rfl⟩
    simp only [List.nil_append, run, step, save, format_plain fmt logs path hp]
  | cons e es ih =>
    intro st hn
    have hs : ∃ st1, step fmt path st e = .ok st1 ∧ (∀ f ∈ st1.files, f ∈ st.files ∨ f.name = plain path) ∧
        lastEpoch st1.currentEpoch es = lastEpoch st.currentEpoch (e :: es) := by
      cases e with
      | epochBegin k =>
        exact ⟨{ st with currentEpoch := k }, rfl, fun f hf => Or.inl hf, by
          unfold lastEpoch
          rw [List.filterMap_cons]
          exact List.getLastD_cons.symm⟩
      | batchEnd batch logs now =>
        unfold step
        dsimp only
        by_cases hlt : now - st.lastSaveTime < st.minutes * 60
        · rw [if_pos hlt]; exact ⟨st, rfl, fun f hf => Or.inl hf, rfl⟩
        · rw [if_neg hlt]
          simp only [save, format_plain fmt logs path hp]
          refine ⟨_, rfl, fun f hf => ?_, rfl⟩
          rcases List.mem_append.mp hf with hf | hf
          · exact Or.inl hf
          · rw [List.mem_singleton.mp hf]; exact Or.inr rfl
      | trainEnd logs now => exact absurd (List.mem_cons_self) (hn logs now)
    obtain ⟨st1, h1, h2, h0⟩ := hs
    obtain ⟨st', h3, h4, h5⟩ := ih st1 (fun logs now hm => hn logs now (List.mem_cons_of_mem _ hm))
    refine ⟨st', by simp only [run, h1, h3], ?_, ?_⟩
    · intro f hf
      rcases h4 f hf with hf | hf
      · exact h2 f hf
      · exact Or.inr hf
    · intro logs now
      obtain ⟨st'', h6, h7⟩ := h5 logs now
      exact ⟨st'', by simp only [List.cons_append, run, h1, h6], by rw [h7, h0]⟩

/-- The example of the documentation, `weights.{epoch:02d}-{val_loss:.2f}.hdf5`, is a path with the field `epoch`; and
hypotheses of `C95_names_partial` are met by a path with the field `loss`. -/
example : "epoch" ∈ fields [.text "weights.", .field "epoch" "02d", .text "-", .field "val_loss" ".2f", .text ".hdf5"] ∧
    documented (fun _ (v : String) => v) [.text "w-", .field "loss" ".2f"] "1" [("loss", "0.50")] = some "w-0.50" := by
  constructor
  · simp [fields]
  · rfl

/-- A history with a batch at 40 and one at 100 seconds, saving every minute: only the second is saved. -/
example : run (fun _ (v : String) => v) [.text "w"] (init 1 0) [.epochBegin 0, .batchEnd 0 [] 40, .batchEnd 1 [] 100] =
    .ok ⟨1, 100, 0, [⟨"w", 0, 1, 100⟩]⟩ := by
  simp [run, step, init, save, format]
  norm_num

end Verif.CheckpointNames
