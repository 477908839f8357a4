import Verif.Samplers.RunProps
import Mathlib.Algebra.BigOperators.Group.List.Basic

/-!
# C45: batch sizes of samplers
-/
namespace Verif.Sizes

variable {α : Type}

/-! ### Model -/

/-- The attributes `batch_size` and `mini_batch_size` of a sampler. -/
structure Sizes where
  batch : Nat
  mini : Nat
deriving DecidableEq

/-- `Sampler._set_batch_size` (deepar/samplers/base_sampler.py lines 12-18). -/
def setBatchSize (batch : Nat) (mini : Option Nat) : Sizes :=
  let m := match mini with
    | none => batch
    | some m => m
  let m := if batch < m then batch else m
  ⟨batch, m⟩

/-- A Python sampler object: sizes and all other attributes. -/
structure Object (α : Type) where
  sizes : Sizes
  rest : α

/-- The objects alive, by address. -/
abbrev Heap (α : Type) := Nat → Option (Object α)

/-- `copy_with_new_batch_size` (autoregressive.py lines 24-27, fast_autoregressive.py lines 25-28): `copy.copy`
allocates a new object (at the address `new`) with the same attributes, then `_set_batch_size` writes the
sizes of the new object. -/
def copyWithNewBatchSize (ref new : Nat) (batch : Nat) (mini : Option Nat) (heap : Heap α) : Option (Heap α) :=
  match heap ref, heap new with
  | some obj, none =>
    let heap1 := Function.update heap new (some obj)
    some (Function.update heap1 new (some ⟨setBatchSize batch mini, obj.rest⟩))
  | _, _ => none

/-- `FastAutoregressiveSampler.__next__` (fast_autoregressive.py lines 30-35): `call j k` is what the `j`-th call
of `sampling_function` with size `k` returns. `none`: division by zero. -/
def fastNext (s : Sizes) (call : Nat → Nat → List α) : Option (List α) :=
  if s.mini < s.batch then
    if s.mini = 0 then none else some ((List.range (s.batch / s.mini)).map fun j => call j s.mini).flatten
  else some (call 0 s.mini)

/-- A sampler as seen by `Ensemble`: its `batch_size` and the result of `next`. -/
structure Sampler (α : Type) where
  batch : Nat
  next : Option (List α)

/-- `Ensemble.__init__` (ensemble.py lines 9-12) and `__next__` (lines 14-15). `none`: `IndexError` for an
empty list, or the assertion fails. -/
def ensemble (samplers : List (Sampler α)) : Option (Sampler α) :=
  match samplers with
  | [] => none
  | first :: _ =>
    if samplers.all (fun s => s.batch == first.batch) then
      some { batch := samplers.length * first.batch, next := (samplers.mapM Sampler.next).map List.flatten }
    else none

/-! ### C45 -/

/-- **C45.** The mini-batch size never exceeds the batch size, the batch size is the requested one, and so
is the mini-batch size if it fits. -/
theorem C45_mini_at_most_batch (batch : Nat) (mini : Option Nat) :
    (setBatchSize batch mini).batch = batch ∧ (setBatchSize batch mini).mini ≤ batch ∧
    (∀ m, mini = some m → m ≤ batch → (setBatchSize batch mini).mini = m) ∧ (mini = none → (setBatchSize batch mini).mini = batch) := by
  unfold setBatchSize
  refine ⟨rfl, ?_, ?_, ?_⟩
  · dsimp only
    split <;> split <;> omega
  · rintro m rfl hm
    dsimp only
    rw [if_neg (by omega)]
  · rintro rfl
    dsimp only
    rw [if_neg (by omega)]

/-- One copy after the other: source, new address, sizes. -/
def copies : List (Nat × Nat × Nat × Option Nat) → Heap α → Option (Heap α)
  | [], heap => some heap
  | (ref, new, batch, mini) :: rest, heap => (copyWithNewBatchSize ref new batch mini heap).bind (copies rest)

theorem copy_eq {ref new batch : Nat} {mini : Option Nat} {heap heap' : Heap α}
    (h : copyWithNewBatchSize ref new batch mini heap = some heap') :
    ∃ obj, heap ref = some obj ∧ heap new = none ∧ heap' new = some ⟨setBatchSize batch mini, obj.rest⟩ ∧
      ∀ r, r ≠ new → heap' r = heap r := by
  unfold copyWithNewBatchSize at h
  split at h
  · rename_i obj h1 h2
    obtain rfl := Option.some.inj h
    refine ⟨obj, h1, h2, by rw [Function.update_self], fun r hr => ?_⟩
    rw [Function.update_of_ne hr, Function.update_of_ne hr]
  · cases h

/-- **C45.** Copying leaves every existing sampler unchanged, in every sequence of copies (copies of copies
included); the new sampler has the new sizes and shares everything else. -/
theorem C45_copy (ops : List (Nat × Nat × Nat × Option Nat)) (heap heap' : Heap α) (h : copies ops heap = some heap') :
    (∀ ref obj, heap ref = some obj → heap' ref = some obj) ∧
    ∀ ref new batch mini, (ref, new, batch, mini) ∈ ops →
      ∃ obj obj', heap' ref = some obj ∧ heap' new = some obj' ∧ new ≠ ref ∧ obj'.sizes = setBatchSize batch mini ∧ obj'.rest = obj.rest := by
  induction ops generalizing heap with
  | nil =>
    obtain rfl := Option.some.inj h
    exact ⟨fun _ _ h => h, by simp⟩
  | cons op ops ih =>
    obtain ⟨ref, new, batch, mini⟩ := op
    rw [copies, Option.bind_eq_some_iff] at h
    obtain ⟨h1, hc, h⟩ := h
    obtain ⟨obj, e1, e2, e3, e4⟩ := copy_eq hc
    obtain ⟨k1, k2⟩ := ih h1 h
    have hne : new ≠ ref := by rintro rfl; rw [e1] at e2; cases e2
    constructor
    · intro r o hr
      refine k1 r o ?_
      rw [e4 r (by rintro rfl; rw [hr] at e2; cases e2), hr]
    · intro r n b m hm
      rcases List.mem_cons.1 hm with hm | hm
      · obtain ⟨rfl, rfl, rfl, rfl⟩ : r = ref ∧ n = new ∧ b = batch ∧ m = mini := by simpa using hm
        exact ⟨obj, _, k1 _ _ (by rw [e4 _ hne.symm, e1]), k1 _ _ e3, hne, rfl, rfl⟩
      · exact k2 r n b m hm

theorem flatten_length (n k : Nat) (f : Nat → List α) (hf : ∀ j, (f j).length = k) : ((List.range n).map f).flatten.length = n * k := by
  induction n with
  | zero => simp
  | succ n ih =>
    rw [List.range_succ, List.map_append, List.flatten_append, List.length_append, ih, Nat.succ_mul]
    simp [hf]

/-- **C45, `FastAutoregressiveSampler`:** the number of rows is the batch size exactly if the mini-batch size
divides it. -/
theorem C45_fast_iff (batch : Nat) (mini : Option Nat) (call : Nat → Nat → List α) (hcall : ∀ j k, (call j k).length = k)
    (hm : mini ≠ some 0) :
    ∃ rows, fastNext (setBatchSize batch mini) call = some rows ∧
      (rows.length = batch ↔ (setBatchSize batch mini).mini ∣ batch) := by
  obtain ⟨h1, h2, h3, h4⟩ := C45_mini_at_most_batch batch mini
  unfold fastNext
  rw [h1]
  by_cases hlt : (setBatchSize batch mini).mini < batch
  · have hpos : (setBatchSize batch mini).mini ≠ 0 := by
      cases mini with
      | none => rw [h4 rfl] at hlt; omega
      | some m =>
        rcases Nat.lt_or_ge batch m with h | h
        · unfold setBatchSize at hlt
          simp only [if_pos h] at hlt
          omega
        · rw [h3 m rfl h]; rintro rfl; exact hm rfl
    rw [if_pos hlt, if_neg hpos]
    refine ⟨_, rfl, ?_⟩
    rw [flatten_length _ _ _ fun j => hcall j _]
    constructor
    · exact fun h => Dvd.intro_left _ h
    · exact fun h => Nat.div_mul_cancel h
  · rw [if_neg hlt]
    have : (setBatchSize batch mini).mini = batch := by omega
    refine ⟨_, rfl, ?_⟩
    rw [hcall, this]
    exact ⟨fun _ => dvd_refl _, fun _ => rfl⟩

/-- **C45 fails** for `FastAutoregressiveSampler`: a batch of 1000 in mini-batches of 300 has 900 rows. -/
theorem C45_violated_fast (call : Nat → Nat → List α) (hcall : ∀ j k, (call j k).length = k) :
    ∃ rows, fastNext (setBatchSize 1000 (some 300)) call = some rows ∧ rows.length = 900 := by
  refine ⟨_, rfl, ?_⟩
  exact flatten_length _ _ _ fun j => hcall j _

/-- A sampler that returns as many rows as advertised, whenever it returns. -/
def Honest (s : Sampler α) : Prop := ∀ rows, s.next = some rows → rows.length = s.batch

theorem flatten_mapM (l : List (Sampler α)) (k : Nat) (h : ∀ s ∈ l, Honest s ∧ s.batch = k) (r : List (List α))
    (hr : l.mapM Sampler.next = some r) : r.flatten.length = l.length * k := by
  induction l generalizing r with
  | nil =>
    rw [List.mapM_nil] at hr
    obtain rfl := Option.some.inj hr
    simp
  | cons s l ih =>
    rw [List.mapM_cons] at hr
    simp only [Option.bind_eq_bind, Option.bind_eq_some_iff] at hr
    obtain ⟨a, ha, b, hb, hr⟩ := hr
    obtain rfl := Option.some.inj hr
    obtain ⟨h1, h2⟩ := h s List.mem_cons_self
    rw [List.flatten_cons, List.length_append, ih (fun s hs => h s (List.mem_cons_of_mem _ hs)) b hb, h1 a ha, h2, List.length_cons,
      Nat.succ_mul, Nat.add_comm]

/-- **C45, `Ensemble`:** an ensemble of honest samplers (ensembles included) is honest; its batch size is the sum
of the batch sizes; samplers of different batch sizes are refused. -/
theorem C45_ensemble (samplers : List (Sampler α)) :
    (∀ e, ensemble samplers = some e → (∀ s ∈ samplers, Honest s) → Honest e ∧ e.batch = (samplers.map Sampler.batch).sum) ∧
    ((∃ s ∈ samplers, ∃ s' ∈ samplers, s.batch ≠ s'.batch) → ensemble samplers = none) ∧
    (samplers ≠ [] → (∀ s ∈ samplers, ∀ s' ∈ samplers, s.batch = s'.batch) → ∃ e, ensemble samplers = some e) := by
  cases samplers with
  | nil => exact ⟨by simp [ensemble], by simp, by simp⟩
  | cons first rest =>
    unfold ensemble
    dsimp only
    refine ⟨?_, ?_, ?_⟩
    · intro e he hh
      by_cases hall : (first :: rest).all fun s => s.batch == first.batch
      · rw [if_pos hall] at he
        obtain rfl := Option.some.inj he
        have hb : ∀ s ∈ first :: rest, s.batch = first.batch := by simpa using hall
        constructor
        · intro rows hrows
          simp only [Option.map_eq_some_iff] at hrows
          obtain ⟨r, hr, rfl⟩ := hrows
          exact flatten_mapM _ _ (fun s hs => ⟨hh s hs, hb s hs⟩) r hr
        · rw [List.map_congr_left hb]
          simp only [List.map_const', List.sum_replicate, smul_eq_mul]
      · rw [if_neg hall] at he; cases he
    · rintro ⟨s, hs, s', hs', hne⟩
      rw [if_neg]
      intro hall
      have hb : ∀ s ∈ first :: rest, s.batch = first.batch := by simpa using hall
      exact hne ((hb s hs).trans (hb s' hs').symm)
    · intro _ h
      rw [if_pos]
      · exact ⟨_, rfl⟩
      · rw [List.all_eq_true]
        intro s hs
        rw [h s hs first List.mem_cons_self]
        simp

/-- **C45, Metropolis-Hastings:** every one of the `batch_size` rows returned is the configuration of a chain
after some sweep, none is left from the uninitialised array. -/
theorem C45_metropolis {ι : Type} {C : Nat} {ψ : Operators.Config ι → ℂ} {batchSize unused discard t : Nat}
    {sw : Nat → Metropolis.Sweep ι C} {garbage garbage' : Nat → Operators.Config ι} {st : Metropolis.State ι C}
    {r r' : Metropolis.Next ι C} (hs : Metropolis.sizesOk batchSize C = true)
    (h : Metropolis.next ψ batchSize unused discard sw t garbage st = some r)
    (h' : Metropolis.next ψ batchSize unused discard sw t garbage' st = some r') :
    ∀ row < batchSize, r.batch row = r'.batch row := by
  obtain ⟨x, a, hp, hx0, -, -, hrows, hsur, -⟩ := Metropolis.C46_next hs h
  obtain ⟨x', a', hp', hx0', -, -, hrows', -, -⟩ := Metropolis.C46_next hs h'
  have hx : ∀ j ≤ Metropolis.warmUpSweeps (batchSize / C) unused discard + batchSize / C * (unused + 1), x j = x' j := by
    intro j
    induction j with
    | zero => intro _; rw [hx0, hx0']
    | succ j ih =>
      intro hj
      have h1 := hp j (by omega)
      have h2 := hp' j (by omega)
      rw [ih (by omega), h2] at h1
      exact (congrArg Prod.fst (Option.some.inj h1)).symm
  intro row hrow
  obtain ⟨c, i, hi, rfl⟩ := hsur row hrow
  rw [hrows c i hi, hrows' c i hi, hx]
  have := Nat.mul_le_mul_right (unused + 1) (show i + 1 ≤ batchSize / C by omega)
  omega

/-! ### Concrete cases -/

/-- Sampling functions as in the theorems exist, and 1024 in mini-batches of 256 is fine. -/
example : (∀ j k, ((fun _ k => List.replicate k 0 : Nat → Nat → List Nat) j k).length = k) ∧
    (setBatchSize 1024 (some 256)).mini ∣ 1024 := ⟨by simp, by decide⟩

/-- A copy of a copy. -/
example : ∃ h, copies [(0, 1, 512, none), (1, 2, 64, some 32)] (fun r => if r = 0 then some ⟨⟨1024, 256⟩, ()⟩ else none : Heap Unit) = some h :=
  ⟨_, rfl⟩

end Verif.Sizes
