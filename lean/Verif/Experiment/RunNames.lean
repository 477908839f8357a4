import Mathlib.Data.Nat.Digits.Defs
import Mathlib.Data.Nat.Digits.Lemmas
import Mathlib.Data.List.Basic
import Mathlib.Data.List.TakeWhile
import Mathlib.Tactic.Common

/-!
C119: every run continues its own work only, and its files say which run it is.
-/
namespace Verif.Experiment.RunNames

/-! ### Strings of Python -/

/-- `str` of a natural number: its decimal digits. -/
def natStr (n : ℕ) : List Char := if n = 0 then ['0'] else ((Nat.digits 10 n).map fun d => Char.ofNat (48 + d)).reverse

/-- `str` of an integer. -/
def intStr (z : ℤ) : List Char := if z < 0 then '-' :: natStr z.natAbs else natStr z.natAbs

/-- `str` of a truth value. -/
def boolStr (b : Bool) : List Char := if b then "True".toList else "False".toList

/-- `str` of a floating point number: the shortest decimal fraction that is rounded to it. What matters here:
different numbers have different texts, and there is no underscore in them. -/
structure FloatStr (F : Type) where
  str : F → List Char
  inj : ∀ x y, str x = str y → x = y
  plain : ∀ x, '_' ∉ str x

/-! ### examples/ising.py -/

/-- The command line arguments (`get_params`, examples/ising.py:152-162). -/
structure Params (F : Type) where
  depth : ℤ
  width : ℤ
  noWeightsNormalization : Bool
  learningRate : F
  gamma : F
  runIndex : ℤ
  deriving DecidableEq

/-- What `build_model` is given for the weight normalisation (examples/ising.py:82-86). -/
def usesNormalization {F : Type} (p : Params F) : Bool := !p.noWeightsNormalization

/-- `run_name` (examples/ising.py:75-80). -/
def runName {F : Type} (f : FloatStr F) (p : Params F) : List Char :=
  "depth_".toList ++ (intStr p.depth ++ ("_width_".toList ++ (intStr p.width ++ ("_weights_normalization_".toList ++
    (boolStr p.noWeightsNormalization ++ ("_adam_lr_".toList ++ (f.str p.learningRate ++ ("_gamma_".toList ++
    (f.str p.gamma ++ ("_run_".toList ++ intStr p.runIndex))))))))))

/-- What a run writes: the weights and the optimizer file of its checkpoint, and the weights after a stage. -/
inductive Slot where
  | weights
  | optimizer
  | stage (idx : ℕ)
  deriving DecidableEq

/-- The names of the files: `checkpoint_path` (examples/ising.py:88), written by `CheckpointByTime`
(examples/ising.py:123, checkpoint.py:52-57), the file next to it (checkpoint.py:14), and the weights after a stage
(examples/ising.py:128). `filepath.format(**logs)` changes nothing here: there are no braces in the name. -/
def fileName {F : Type} (f : FloatStr F) (p : Params F) : Slot → List Char
  | .weights => runName f p ++ ".h5".toList
  | .optimizer => runName f p ++ ".h5_optimizer.pkl".toList
  | .stage idx => runName f p ++ ("_stage_".toList ++ (natStr idx ++ ".h5".toList))

/-- Directory of the TensorBoard logs (examples/ising.py:111). -/
def logDir {F : Type} (f : FloatStr F) (p : Params F) : List Char := "tensorboard_logs/".toList ++ runName f p

/-- The files in the working directory. -/
abbrev Disk (D : Type) := List Char → Option D

/-- A process started with the arguments `params` writes one of its files. Processes may run one after another,
at the same time, and may be stopped anywhere: any list of such events is allowed. -/
structure Event (P D : Type) where
  params : P
  slot : Slot
  data : D

/-- The files after the events. -/
def after {P D : Type} (name : P → Slot → List Char) (disk : Disk D) (events : List (Event P D)) : Disk D :=
  events.foldl (fun disk e => fun n => if n = name e.params e.slot then some e.data else disk n) disk

/-- What a process starts from: nothing, a checkpoint, or the weights alone (then the unpacking of the missing
optimizer state raises). `restore_run_state` (examples/ising.py:65-71), `load_optimizer_weights` (checkpoint.py:18-26). -/
inductive Restored (D : Type) where
  | fresh
  | resumed (weights optimizer : D)
  | raises
  deriving DecidableEq

def restore {P D : Type} (name : P → Slot → List Char) (disk : Disk D) (p : P) : Restored D :=
  match disk (name p .weights) with
  | none => .fresh
  | some w =>
    match disk (name p .optimizer) with
    | none => .raises
    | some o => .resumed w o

/-! ### experiments/train.py -/

/-- `os.path.join` of two parts of which the second does not begin with a slash. -/
def join (a b : List Char) : List Char :=
  if a = [] then b else if a.getLast? = some '/' then a ++ b else a ++ ('/' :: b)

/-- The names of the files of a training run in its output directory: `model.h5` (experiments/train.py:85, 122), the
optimizer file next to it (checkpoint.py:14), and `stage_N.h5` with `N = idx + 1` (experiments/train.py:129). -/
def trainFile (outputPath : List Char) : Slot → List Char
  | .weights => join outputPath "model.h5".toList
  | .optimizer => join outputPath "model.h5".toList ++ "_optimizer.pkl".toList
  | .stage idx => join outputPath ("stage_".toList ++ (natStr (idx + 1) ++ ".h5".toList))

/-- `config.json` (experiments/train.py:159). -/
def configFile (outputPath : List Char) : List Char := join outputPath "config.json".toList

/-- The name for a process with output directory and further arguments: the arguments are not in the name. -/
def trainName {C : Type} (p : List Char × C) (slot : Slot) : List Char := trainFile p.1 slot

/-! ### Texts -/

theorem natStr_chars (n : ℕ) : ∀ c ∈ natStr n, '0' ≤ c ∧ c ≤ '9' := by
  intro c hc
  unfold natStr at hc
  split at hc
  · simp only [List.mem_singleton] at hc
    subst hc
    decide
  · simp only [List.mem_reverse, List.mem_map] at hc
    obtain ⟨d, hd, rfl⟩ := hc
    have := Nat.digits_lt_base (by norm_num : 1 < 10) hd
    interval_cases d <;> decide

theorem natStr_ne_nil (n : ℕ) : natStr n ≠ [] := by
  unfold natStr
  split
  · simp
  · next h => simpa using Nat.digits_ne_nil_iff_ne_zero.2 h

theorem natStr_inj : Function.Injective natStr := by
  have hch : ∀ l l' : List ℕ, (∀ d ∈ l, d < 10) → (∀ d ∈ l', d < 10) →
      l.map (fun d => Char.ofNat (48 + d)) = l'.map (fun d => Char.ofNat (48 + d)) → l = l' := by
    intro l
    induction l with
    | nil => intro l' _ _ h; simpa using h.symm
    | cons d l ih =>
      intro l' h1 h2 h
      match l', h with
      | d' :: l', h =>
        simp only [List.map_cons, List.cons.injEq] at h
        have hd := h1 d List.mem_cons_self
        have hd' := h2 d' List.mem_cons_self
        have : d = d' := by
          have h := h.1
          interval_cases d <;> interval_cases d' <;> first | rfl | (exact absurd h (by decide))
        rw [this, ih l' (fun d hd => h1 d (List.mem_cons_of_mem _ hd)) (fun d hd => h2 d (List.mem_cons_of_mem _ hd)) h.2]
  have hlt : ∀ n, ∀ d ∈ Nat.digits 10 n, d < 10 := fun n d hd => Nat.digits_lt_base (by norm_num) hd
  intro a b h
  have key : ∀ n : ℕ, n ≠ 0 → natStr n ≠ ['0'] := by
    intro n hn h0
    unfold natStr at h0
    rw [if_neg hn] at h0
    have h1 : (Nat.digits 10 n).map (fun d => Char.ofNat (48 + d)) = [0].map fun d => Char.ofNat (48 + d) := by
      have := congrArg List.reverse h0
      simpa using this
    have h2 := hch _ _ (hlt n) (by simp) h1
    have h3 := Nat.ofDigits_digits 10 n
    rw [h2] at h3
    simp at h3
    exact hn h3.symm
  by_cases ha : a = 0
  · by_cases hb : b = 0
    · rw [ha, hb]
    · subst ha
      exact absurd h.symm (key b hb)
  · by_cases hb : b = 0
    · subst hb
      exact absurd h (key a ha)
    · unfold natStr at h
      rw [if_neg ha, if_neg hb, List.reverse_inj] at h
      exact Nat.digits_inj_iff.1 (hch _ _ (hlt a) (hlt b) h)

theorem intStr_chars (z : ℤ) : ∀ c ∈ intStr z, c = '-' ∨ ('0' ≤ c ∧ c ≤ '9') := by
  intro c hc
  unfold intStr at hc
  split at hc
  · rcases List.mem_cons.1 hc with h | h
    · exact Or.inl h
    · exact Or.inr (natStr_chars _ c h)
  · exact Or.inr (natStr_chars _ c hc)

theorem intStr_inj : Function.Injective intStr := by
  have hdash : ∀ n, '-' ∉ natStr n := fun n h => absurd (natStr_chars n _ h) (by decide)
  intro a b h
  unfold intStr at h
  split at h <;> split at h
  · have := natStr_inj (List.cons.inj h).2
    omega
  · exact absurd (h ▸ List.mem_cons_self) (hdash _)
  · exact absurd (h.symm ▸ List.mem_cons_self) (hdash _)
  · have := natStr_inj h
    omega

theorem boolStr_inj : Function.Injective boolStr := by decide

/-- A text ends where its characters end. -/
theorem split_unique (P : Char → Bool) {a a' x x' : List Char} (ha : ∀ c ∈ a, P c = true) (ha' : ∀ c ∈ a', P c = true)
    (hx : ∀ c ∈ x.head?, P c = false) (hx' : ∀ c ∈ x'.head?, P c = false) (h : a ++ x = a' ++ x') : a = a' ∧ x = x' := by
  have key : ∀ (a x : List Char), (∀ c ∈ a, P c = true) → (∀ c ∈ x.head?, P c = false) → (a ++ x).takeWhile P = a := by
    intro a x ha hx
    induction a with
    | nil =>
      cases x with
      | nil => rfl
      | cons c x => rw [List.nil_append, List.takeWhile_cons, hx c rfl]; simp
    | cons c a ih =>
      rw [List.cons_append, List.takeWhile_cons, ha c List.mem_cons_self]
      simp only [if_true]
      rw [ih fun c hc => ha c (List.mem_cons_of_mem _ hc)]
  have h1 : a = a' := by rw [← key a x ha hx, h, key a' x' ha' hx']
  subst h1
  exact ⟨rfl, List.append_cancel_left h⟩

/-- Fields without underscores that are followed by an underscore. -/
theorem field_unique {a a' x x' : List Char} (ha : '_' ∉ a) (ha' : '_' ∉ a') (hx : x.head? = some '_')
    (hx' : x'.head? = some '_') (h : a ++ x = a' ++ x') : a = a' ∧ x = x' :=
  split_unique (fun c => c != '_') (fun c hc => by
      have : c ≠ '_' := fun h => ha (h ▸ hc)
      simpa using this) (fun c hc => by
      have : c ≠ '_' := fun h => ha' (h ▸ hc)
      simpa using this)
    (fun c hc => by rw [hx] at hc; simpa using hc.symm) (fun c hc => by rw [hx'] at hc; simpa using hc.symm) h

theorem intStr_plain (z : ℤ) : '_' ∉ intStr z := fun h => by
  have := intStr_chars z _ h
  revert this
  decide

theorem boolStr_plain (b : Bool) : '_' ∉ boolStr b := by cases b <;> decide

/-- The name determines the arguments, whatever follows the index in the file name. -/
theorem runName_append {F : Type} (f : FloatStr F) (p p' : Params F) (x x' : List Char)
    (hx : ∀ c ∈ x.head?, c = '.' ∨ c = '_') (hx' : ∀ c ∈ x'.head?, c = '.' ∨ c = '_')
    (h : runName f p ++ x = runName f p' ++ x') : p = p' ∧ x = x' := by
  obtain ⟨d, w, n, l, g, r⟩ := p
  obtain ⟨d', w', n', l', g', r'⟩ := p'
  simp only [runName, List.append_assoc] at h
  have h := List.append_cancel_left h
  obtain ⟨e1, h⟩ := field_unique (intStr_plain _) (intStr_plain _) rfl rfl h
  have h := List.append_cancel_left h
  obtain ⟨e2, h⟩ := field_unique (intStr_plain _) (intStr_plain _) rfl rfl h
  have h := List.append_cancel_left h
  obtain ⟨e3, h⟩ := field_unique (boolStr_plain _) (boolStr_plain _) rfl rfl h
  have h := List.append_cancel_left h
  obtain ⟨e4, h⟩ := field_unique (f.plain _) (f.plain _) rfl rfl h
  have h := List.append_cancel_left h
  obtain ⟨e5, h⟩ := field_unique (f.plain _) (f.plain _) rfl rfl h
  have h := List.append_cancel_left h
  obtain ⟨e6, h⟩ := split_unique (fun c => c == '-' || (decide ('0' ≤ c) && decide (c ≤ '9'))) (a := intStr r) (a' := intStr r')
    (fun c hc => by simpa using intStr_chars r c hc) (fun c hc => by simpa using intStr_chars r' c hc)
    (fun c hc => by rcases hx c hc with rfl | rfl <;> decide) (fun c hc => by rcases hx' c hc with rfl | rfl <;> decide) h
  exact ⟨by rw [intStr_inj e1, intStr_inj e2, boolStr_inj e3, f.inj _ _ e4, f.inj _ _ e5, intStr_inj e6], h⟩

/-- No two slots of any two runs share a file. -/
theorem fileName_inj {F : Type} (f : FloatStr F) (p p' : Params F) (s s' : Slot) (h : fileName f p s = fileName f p' s') :
    p = p' ∧ s = s' := by
  have tail : ∀ s : Slot, ∃ x, (∀ c ∈ x.head?, c = '.' ∨ c = '_') ∧ (∀ p : Params F, fileName f p s = runName f p ++ x) ∧
      x = (match s with
        | .weights => ".h5".toList
        | .optimizer => ".h5_optimizer.pkl".toList
        | .stage idx => "_stage_".toList ++ (natStr idx ++ ".h5".toList)) := by
    intro s
    cases s with
    | weights => exact ⟨_, by simp, fun _ => rfl, rfl⟩
    | optimizer => exact ⟨_, by simp, fun _ => rfl, rfl⟩
    | stage idx => exact ⟨_, by simp, fun _ => rfl, rfl⟩
  obtain ⟨x, hx, hn, hxe⟩ := tail s
  obtain ⟨x', hx', hn', hxe'⟩ := tail s'
  rw [hn, hn'] at h
  obtain ⟨hp, hxx⟩ := runName_append f p p' x x' hx hx' h
  refine ⟨hp, ?_⟩
  rw [hxe, hxe'] at hxx
  cases s <;> cases s' <;> first | rfl | skip
  · exact absurd hxx (by decide)
  · exact absurd (congrArg List.head? hxx) (by simp)
  · exact absurd hxx (by decide)
  · exact absurd (congrArg List.head? hxx) (by simp)
  · exact absurd (congrArg List.head? hxx) (by simp)
  · exact absurd (congrArg List.head? hxx) (by simp)
  · next i j =>
    have h1 := List.append_cancel_left hxx
    have h2 := List.append_cancel_right h1
    rw [natStr_inj h2]

/-! ### Specification and theorems -/

/-- What the runs with arguments `p` themselves last wrote to `slot`. -/
def own {P D : Type} [DecidableEq P] (events : List (Event P D)) (p : P) (slot : Slot) : Option D :=
  ((events.filter fun e => e.params = p ∧ e.slot = slot).getLast?).map Event.data

/-- What a run continues with if nobody else is there. -/
def ownRestore {P D : Type} [DecidableEq P] (events : List (Event P D)) (p : P) : Restored D :=
  match own events p .weights, own events p .optimizer with
  | none, _ => .fresh
  | some _, none => .raises
  | some w, some o => .resumed w o

theorem after_own {P D : Type} [DecidableEq P] (name : P → Slot → List Char)
    (p : P) (slot : Slot) (events : List (Event P D))
    (hinj : ∀ e ∈ events, name e.params e.slot = name p slot → e.params = p ∧ e.slot = slot) :
    after name (fun _ => none) events (name p slot) = own events p slot := by
  induction events using List.reverseRecOn with
  | nil => rfl
  | append_singleton events e ih =>
    have ih := ih fun e he => hinj e (List.mem_append_left _ he)
    unfold after own at ih ⊢
    rw [List.foldl_append, List.filter_append]
    simp only [List.foldl_cons, List.foldl_nil]
    by_cases h : e.params = p ∧ e.slot = slot
    · rw [if_pos (by rw [h.1, h.2])]
      simp [h]
    · have hne : ¬ name p slot = name e.params e.slot := fun hn => h (hinj e (by simp) hn.symm)
      rw [if_neg hne, ih]
      simp [h]

/-- **C119**: whatever runs of the example there have been in a directory, in whatever order, side by side and
stopped anywhere, every file of a run holds what runs with the same arguments last put there, every run continues
from the checkpoint of runs with the same arguments or starts afresh, and no two runs with different arguments
share a TensorBoard directory. -/
theorem C119_example {F D : Type} [DecidableEq F] (f : FloatStr F) (events : List (Event (Params F) D)) (p : Params F) :
    (∀ slot, after (fileName f) (fun _ => none) events (fileName f p slot) = own events p slot) ∧
    restore (fileName f) (after (fileName f) (fun _ => none) events) p = ownRestore events p ∧
    ∀ p', logDir f p = logDir f p' → p = p' := by
  have h1 : ∀ slot, after (fileName f) (fun _ => none) events (fileName f p slot) = own events p slot := fun slot =>
    after_own (fileName f) p slot events fun e _ h => fileName_inj f _ _ _ _ h
  refine ⟨h1, ?_, ?_⟩
  · unfold restore ownRestore
    rw [h1, h1]
    cases own events p .weights <;> cases own events p .optimizer <;> rfl
  · intro p' h
    have h := List.append_cancel_left h
    exact (runName_append f p p' [] [] (by simp) (by simp) (by rw [h])).1

/-- **C119** is violated by the labels: the name of a run says about the weight normalisation the opposite of what
the run does. -/
theorem C119_violated_label {F : Type} (f : FloatStr F) (p : Params F) :
    runName f p = "depth_".toList ++ intStr p.depth ++ "_width_".toList ++ intStr p.width ++
      "_weights_normalization_".toList ++ boolStr (!usesNormalization p) ++ "_adam_lr_".toList ++ f.str p.learningRate ++
      "_gamma_".toList ++ f.str p.gamma ++ "_run_".toList ++ intStr p.runIndex ∧
    boolStr (!usesNormalization p) ≠ boolStr (usesNormalization p) := by
  constructor
  · simp only [runName, usesNormalization, Bool.not_not, List.append_assoc]
  · intro h
    have := boolStr_inj h
    cases hb : usesNormalization p <;> simp [hb] at this

/-! ### The training script -/

/-- A directory name that is not empty and does not end with a slash. -/
def Plain (a : List Char) : Prop := a ≠ [] ∧ a.getLast? ≠ some '/'

theorem join_plain {a : List Char} (ha : Plain a) (b : List Char) : join a b = a ++ ('/' :: b) := by
  unfold join
  rw [if_neg ha.1, if_neg ha.2]

theorem path_unique {a a' b b' : List Char} (hb : '/' ∉ b) (hb' : '/' ∉ b') (h : a ++ ('/' :: b) = a' ++ ('/' :: b')) :
    a = a' ∧ b = b' := by
  have h1 : b.reverse ++ ('/' :: a.reverse) = b'.reverse ++ ('/' :: a'.reverse) := by
    have := congrArg List.reverse h
    simpa using this
  obtain ⟨e1, e2⟩ := split_unique (fun c => c != '/') (a := b.reverse) (a' := b'.reverse)
    (fun c hc => by
      have : c ≠ '/' := fun h => hb (h ▸ List.mem_reverse.1 hc)
      simpa using this)
    (fun c hc => by
      have : c ≠ '/' := fun h => hb' (h ▸ List.mem_reverse.1 hc)
      simpa using this)
    (fun c hc => by simp at hc; simp [← hc]) (fun c hc => by simp at hc; simp [← hc]) h1
  exact ⟨List.reverse_inj.1 (List.cons.inj e2).2, List.reverse_inj.1 e1⟩

/-- The name of the file inside the directory. -/
def baseName : Slot → List Char
  | .weights => "model.h5".toList
  | .optimizer => "model.h5_optimizer.pkl".toList
  | .stage idx => "stage_".toList ++ (natStr (idx + 1) ++ ".h5".toList)

theorem trainFile_eq {a : List Char} (ha : Plain a) (s : Slot) : trainFile a s = a ++ ('/' :: baseName s) := by
  cases s with
  | weights => exact join_plain ha _
  | optimizer =>
    show join a _ ++ _ = _
    rw [join_plain ha, List.append_assoc]
    rfl
  | stage idx => exact join_plain ha _

theorem baseName_plain (s : Slot) : '/' ∉ baseName s := by
  cases s with
  | weights => decide
  | optimizer => decide
  | stage idx =>
    intro h
    rcases List.mem_append.1 h with h | h
    · exact absurd h (by decide)
    · rcases List.mem_append.1 h with h | h
      · exact absurd (natStr_chars _ _ h) (by decide)
      · exact absurd h (by decide)

theorem baseName_head (s : Slot) : (baseName s).head? = some (match s with | .stage _ => 's' | _ => 'm') := by
  cases s with
  | weights => decide
  | optimizer => decide
  | stage idx =>
    unfold baseName
    rw [List.head?_append]
    have : "stage_".toList.head? = some 's' := by decide
    rw [this]
    rfl

theorem baseName_inj (s s' : Slot) (h : baseName s = baseName s') : s = s' := by
  cases s <;> cases s' <;> first | rfl | skip
  · exact absurd h (by decide)
  · exact absurd (congrArg List.head? h) (by rw [baseName_head, baseName_head]; simp)
  · exact absurd h (by decide)
  · exact absurd (congrArg List.head? h) (by rw [baseName_head, baseName_head]; simp)
  · exact absurd (congrArg List.head? h) (by rw [baseName_head, baseName_head]; simp)
  · exact absurd (congrArg List.head? h) (by rw [baseName_head, baseName_head]; simp)
  · next i j =>
    have h1 := List.append_cancel_left h
    have h2 := natStr_inj (List.append_cancel_right h1)
    congr 1
    omega

/-- **C119** for the training script, what holds: if the runs in an output directory all have the same arguments,
then whatever happens in other directories, every file there holds what these runs last put there, a run continues
from their checkpoint or starts afresh, and the configuration is not in the way of any of these files. -/
theorem C119_train_partial {C D : Type} [DecidableEq C] (events : List (Event (List Char × C) D)) (p : List Char × C)
    (hplain : Plain p.1) (hev : ∀ e ∈ events, Plain e.params.1) (hsame : ∀ e ∈ events, e.params.1 = p.1 → e.params = p) :
    (∀ slot, after trainName (fun _ => none) events (trainName p slot) = own events p slot) ∧
    restore trainName (after trainName (fun _ => none) events) p = ownRestore events p ∧
    ∀ (a : List Char) (slot : Slot), Plain a → trainFile a slot ≠ configFile p.1 := by
  have h1 : ∀ slot, after trainName (fun _ => none) events (trainName p slot) = own events p slot := fun slot =>
    after_own trainName p slot events fun e he h => by
      unfold trainName at h
      rw [trainFile_eq (hev e he), trainFile_eq hplain] at h
      obtain ⟨ha, hb⟩ := path_unique (baseName_plain _) (baseName_plain _) h
      exact ⟨hsame e he ha, baseName_inj _ _ hb⟩
  refine ⟨h1, ?_, ?_⟩
  · unfold restore ownRestore
    rw [h1, h1]
    cases own events p .weights <;> cases own events p .optimizer <;> rfl
  · intro a slot ha h
    unfold configFile at h
    rw [trainFile_eq ha, join_plain hplain] at h
    have hb := (path_unique (baseName_plain _) (by decide) h).2
    cases slot with
    | weights => exact absurd hb (by decide)
    | optimizer => exact absurd hb (by decide)
    | stage idx =>
      have hh := congrArg List.head? hb
      rw [baseName_head] at hh
      have : "config.json".toList.head? = some 'c' := by decide
      rw [this] at hh
      simp at hh

/-- **C119** is violated by the training script: it continues from a checkpoint that was written with other
arguments (another field, other boundaries, another learning rate) in the same directory, without noticing. -/
theorem C119_violated_shared {C D : Type} [DecidableEq C] (path : List Char) (hpath : Plain path) (c c' : C) (hc : c ≠ c') (w o : D) :
    let events : List (Event (List Char × C) D) := [⟨(path, c), .weights, w⟩, ⟨(path, c), .optimizer, o⟩]
    ownRestore events (path, c') = .fresh ∧
    restore trainName (after trainName (fun _ => none) events) (path, c') = .resumed w o := by
  intro events
  constructor
  · simp [events, ownRestore, own, hc]
  · have hne : trainFile path .weights ≠ trainFile path .optimizer := by
      rw [trainFile_eq hpath, trainFile_eq hpath]
      intro h
      exact absurd (path_unique (baseName_plain _) (baseName_plain _) h).2 (by decide)
    simp [events, restore, after, trainName, hne]

/-! ### Examples -/

/-- Texts of floating point numbers with integer values. -/
def intFloat : FloatStr ℤ where
  str z := intStr z ++ ".0".toList
  inj x y h := intStr_inj (List.append_cancel_right h)
  plain x h := by
    rcases List.mem_append.1 h with h | h
    · exact intStr_plain x h
    · exact absurd h (by decide)

example : natStr 2048 = "2048".toList := by decide +kernel
example : intStr (-12) = "-12".toList := by decide +kernel
example : runName intFloat ⟨20, 32, false, 1, 3, 1⟩ =
    "depth_20_width_32_weights_normalization_False_adam_lr_1.0_gamma_3.0_run_1".toList := by decide +kernel
example : Plain "out".toList := by unfold Plain; decide
example : fileName intFloat ⟨20, 32, false, 1, 3, 1⟩ (.stage 2) =
    "depth_20_width_32_weights_normalization_False_adam_lr_1.0_gamma_3.0_run_1_stage_2.h5".toList := by decide +kernel

end Verif.Experiment.RunNames
