import Mathlib.Data.Real.Basic
import Mathlib.Tactic.Linarith
import Mathlib.Tactic.Ring
import Mathlib.Algebra.BigOperators.Group.List.Basic
import Mathlib.Algebra.Order.Monoid.Defs
import Mathlib.Order.Monotone.Basic

/-!
# C116: the logged times

Model of `RuntimeStats` for Monte Carlo and exact training (`callbacks/monte_carlo/runtime_stats.py`,
`callbacks/exact/runtime_stats.py`) and of the time stamps of the generators.

Time is the sequence of values that the successive calls of `time.time()` in the process return (only the calls of this
package are counted; whatever else happens takes place in between). A clock that does not run backwards is a monotone
sequence.
-/
namespace Verif.Callbacks.Runtime

/-- The value of the `i`-th call of `time.time()`. -/
abbrev Clock := ℕ → ℝ

/-- The three time stamps of a generator: `start_time`, `sampling_end_time`, `local_energy_end_time`
(variational_monte_carlo.py 45-49), or `machine_updated_start_time`, `wave_function_update_end_time`,
`local_energy_update_end_time` (exact_variational.py 148-152). -/
structure Stamps where
  first : ℝ
  second : ℝ
  third : ℝ

/-- The entries of a `logs` dictionary that the callback writes. -/
abbrev Logs := List (String × ℝ)

/-- Three successive calls of `time.time()` from number `r` on. -/
def stampsAt (clock : Clock) (r : ℕ) : Stamps := ⟨clock r, clock (r + 1), clock (r + 2)⟩

/-- `add_runtime_stats_to_logs` (monte_carlo/runtime_stats.py 11-16, exact/runtime_stats.py 11-18) where `name` is the name
of the first duration (`times/sampling` or `times/wave_function_update`). -/
def entries (name : String) (s : Stamps) (now : ℝ) : Logs :=
  [(name, s.second - s.first), ("times/local_energy", s.third - s.second), ("times/gradients", now - s.third),
   ("times/total", now - s.first)]

/-! ### Monte Carlo training -/

/-- What matters of a generator, and the number of calls of `time.time()` so far. `stamps` is `none` as long as the
attributes do not exist. -/
structure Gen where
  idx : ℕ
  stamps : Option Stamps
  reads : ℕ

/-- The generator after `set_batch_size` (mini_batch_generator.py 23, `_idx = batch_size`). -/
def Gen.new (batch : ℕ) : Gen := ⟨batch, none, 0⟩

/-- `next_mini_batch_size` (mini_batch_generator.py 27-32) with `next_batch` (variational_monte_carlo.py 42-50). -/
def nextMini (batch mini : ℕ) (clock : Clock) (g : Gen) : Gen :=
  let g := if g.idx + mini > batch then ⟨0, some (stampsAt clock g.reads), g.reads + 3⟩ else g
  { g with idx := g.idx + mini }

/-- The callback writes its entries (monte_carlo/runtime_stats.py 11-16); `none` if the attributes do not exist. -/
def log (name : String) (clock : Clock) (g : Gen) : Option (Gen × Logs) :=
  g.stamps.map fun s => ({ g with reads := g.reads + 1 }, entries name s (clock g.reads))

/-- One step of training, number `k` from the start, with `spe` steps per epoch: the next mini-batch, the gradient step (no
call of `time.time()`), `on_batch_end` and after the last step of an epoch `on_epoch_end`
(monte_carlo/runtime_stats.py 18-28). If there is a validation generator that is drawn from at the end of every
epoch, `GeneratorIterator` comes before the callback (callbacks/monte_carlo/__init__.py 16-28, generator_iterator.py 10-12) and makes three calls of
`time.time()`. All entries written so far are kept with the number of the step. -/
def step (batch mini spe : ℕ) (inBatch validation : Bool) (clock : Clock) (k : ℕ) (st : Gen × List (ℕ × Logs)) :
    Option (Gen × List (ℕ × Logs)) :=
  let g := nextMini batch mini clock st.1
  if inBatch then
    (log "times/sampling" clock g).map fun r =>
      (if validation ∧ (k + 1) % spe = 0 then { r.1 with reads := r.1.reads + 3 } else r.1, st.2 ++ [(k, r.2)])
  else if (k + 1) % spe = 0 then
    let g := if validation then { g with reads := g.reads + 3 } else g
    (log "times/sampling" clock g).map fun r => (r.1, st.2 ++ [(k, r.2)])
  else some (g, st.2)

/-- `n` steps of training from a new generator. -/
def train (batch mini spe : ℕ) (inBatch validation : Bool) (clock : Clock) : ℕ → Option (Gen × List (ℕ × Logs))
  | 0 => some (Gen.new batch, [])
  | n + 1 => (train batch mini spe inBatch validation clock n).bind (step batch mini spe inBatch validation clock n)

/-! ### Exact training -/

/-- Callbacks of exact training that look at the clock: `RuntimeStats` and `MachineUpdated` (machine_updated.py 4-25). -/
inductive Callback where
  | runtime (inBatch : Bool)
  | machineUpdated (inBatch localEnergy : Bool)

/-- State of exact training: the time stamps, the number of calls of `time.time()` and the entries written. -/
structure Exact where
  stamps : Option Stamps
  reads : ℕ
  logs : List (ℕ × Logs)

/-- `machine_updated` (exact_variational.py 146-152). -/
def Exact.refresh (clock : Clock) (st : Exact) : Exact :=
  { st with stamps := some (stampsAt clock st.reads), reads := st.reads + 3 }

/-- The callback writes its entries (exact/runtime_stats.py 11-18). -/
def Exact.write (clock : Clock) (k : ℕ) (st : Exact) : Option Exact :=
  st.stamps.map fun s =>
    { st with reads := st.reads + 1, logs := st.logs ++ [(k, entries "times/wave_function_update" s (clock st.reads))] }

/-- `on_batch_end(batch)` of a callback (exact/runtime_stats.py 20-24, machine_updated.py 11-16) after step `k`; `q` is
`num_of_batch_until_full_cycle`. `_update_wave_function_arrays` sets no time stamps. -/
def Callback.batchEnd (clock : Clock) (q k batch : ℕ) (st : Exact) : Callback → Option Exact
  | .runtime inBatch => if inBatch ∧ (batch + 1) % q = 0 then st.write clock k else some st
  | .machineUpdated inBatch le => some (if inBatch ∧ le then st.refresh clock else st)

/-- `on_epoch_end` (exact/runtime_stats.py 26-30, machine_updated.py 18-23). -/
def Callback.epochEnd (clock : Clock) (k : ℕ) (st : Exact) : Callback → Option Exact
  | .runtime inBatch => if inBatch then some st else st.write clock k
  | .machineUpdated inBatch le => some (if inBatch ∨ !le then st else st.refresh clock)

/-- One step of exact training: the generator refreshes at the beginning of every cycle of `q` steps
(exact_variational.py 154-158), then the gradient step, then the callbacks. -/
def Exact.step (q spe : ℕ) (cbs : List Callback) (clock : Clock) (k : ℕ) (st : Exact) : Option Exact :=
  let st := if k % q = 0 then st.refresh clock else st
  (cbs.foldlM (fun (st : Exact) (cb : Callback) => cb.batchEnd clock q k (k % spe) st) st).bind fun st =>
    if (k + 1) % spe = 0 then cbs.foldlM (fun (st : Exact) (cb : Callback) => cb.epochEnd clock k st) st else some st

/-- `n` steps of exact training. -/
def exactTrain (q spe : ℕ) (cbs : List Callback) (clock : Clock) : ℕ → Option Exact
  | 0 => some ⟨none, 0, []⟩
  | n + 1 => (exactTrain q spe cbs clock n).bind (Exact.step q spe cbs clock n)

/-- `exact_evaluate` (evaluate.py 31-37): a refresh, then for every callback `on_batch_end(q)` and `on_epoch_end(1)`. -/
def exactEvaluate (q : ℕ) (cbs : List Callback) (clock : Clock) (reads : ℕ) : Option Exact :=
  cbs.foldlM (fun (st : Exact) (cb : Callback) => (cb.batchEnd clock q 0 q st).bind fun st => cb.epochEnd clock 0 st)
    (Exact.refresh clock ⟨none, reads, []⟩)

/-! ### Specification -/

/-- The entry of a dictionary. -/
def Logs.at (l : Logs) (k : String) : ℝ := (l.lookup k).getD 0

/-- The entries are four durations: none is negative, and the first three add up to the total, which is the time from `t₀`
to `t₁`. -/
structure AddsUp (name : String) (l : Logs) (t₀ t₁ : ℝ) : Prop where
  keys : l.map Prod.fst = [name, "times/local_energy", "times/gradients", "times/total"]
  sum : ((l.take 3).map Prod.snd).sum = l.at "times/total"
  nonneg : ∀ e ∈ l, 0 ≤ e.2
  total : l.at "times/total" = t₁ - t₀

/-- The sum of the totals in all entries. -/
def spent (logs : List (ℕ × Logs)) : ℝ := (logs.map fun e => e.2.at "times/total").sum

theorem at_total (name : String) (h : name ≠ "times/total") (s : Stamps) (now : ℝ) :
    (entries name s now).at "times/total" = now - s.first := by
  unfold entries Logs.at
  have h' : ("times/total" == name) = false := by simpa using Ne.symm h
  simp [List.lookup, h']

theorem addsUp_entries (name : String) (h : name ≠ "times/total") (s : Stamps) (now : ℝ) (h1 : s.first ≤ s.second)
    (h2 : s.second ≤ s.third) (h3 : s.third ≤ now) : AddsUp name (entries name s now) s.first now where
  keys := rfl
  sum := by rw [at_total name h]; simp [entries]
  nonneg := by
    intro e he
    simp only [entries, List.mem_cons, List.not_mem_nil, or_false] at he
    rcases he with rfl | rfl | rfl | rfl <;> simp only <;> linarith
  total := at_total name h s now

theorem spent_append (a : List (ℕ × Logs)) (k : ℕ) (l : Logs) : spent (a ++ [(k, l)]) = spent a + l.at "times/total" := by
  simp [spent]


/-! ### Helper lemmas -/

theorem succ_mod_cases (m f : ℕ) (hf : 0 < f) : (m + 1) % f = if m % f + 1 = f then 0 else m % f + 1 := by
  have h : m + 1 = (m % f + 1) + f * (m / f) := by have := Nat.mod_add_div m f; omega
  rw [h, Nat.add_mul_mod_self_left]
  have hl := Nat.mod_lt m hf
  by_cases hc : m % f + 1 = f
  · rw [if_pos hc, hc, Nat.mod_self]
  · rw [if_neg hc, Nat.mod_eq_of_lt (by omega)]

/-- No batch is counted twice so far: `r₀` is the call at which the current batch began, `n` the number of steps begun. -/
def Once (clock : Clock) (f n r₀ reads : ℕ) (logs : List (ℕ × Logs)) : Prop :=
  r₀ + 3 ≤ reads ∧ (∀ e ∈ logs, e.1 < n) ∧ spent logs ≤ clock (reads - 1) - clock 0 ∧
    ((∀ e ∈ logs, e.1 / f < (n - 1) / f) → spent logs ≤ clock r₀ - clock 0)

theorem once_wait {clock : Clock} (hc : Monotone clock) {f n r₀ reads : ℕ} {logs : List (ℕ × Logs)} (m : ℕ)
    (h : Once clock f n r₀ reads logs) : Once clock f n r₀ (reads + m) logs := by
  obtain ⟨h1, h2, h3, h4⟩ := h
  refine ⟨by omega, h2, ?_, h4⟩
  have : clock (reads - 1) ≤ clock (reads + m - 1) := hc (by omega)
  linarith

theorem once_first {clock : Clock} (hc : Monotone clock) (f : ℕ) : Once clock f 1 0 3 [] := by
  refine ⟨le_refl _, by simp, ?_, by simp [spent]⟩
  have : clock 0 ≤ clock (3 - 1) := hc (by omega)
  simp only [spent, List.map_nil, List.sum_nil]
  linarith

theorem once_begin {clock : Clock} (hc : Monotone clock) {f n r₀ reads : ℕ} {logs : List (ℕ × Logs)}
    (hn : 0 < n) (h : Once clock f n r₀ reads logs) :
    Once clock f (n + 1) (if n % f = 0 then reads else r₀) (if n % f = 0 then reads + 3 else reads) logs := by
  obtain ⟨h1, h2, h3, h4⟩ := h
  by_cases hm : n % f = 0
  · rw [if_pos hm, if_pos hm]
    refine ⟨le_refl _, fun e he => by have := h2 e he; omega, ?_, fun _ => ?_⟩
    · have : clock (reads - 1) ≤ clock (reads + 3 - 1) := hc (by omega)
      linarith
    · have : clock (reads - 1) ≤ clock reads := hc (by omega)
      linarith
  · rw [if_neg hm, if_neg hm]
    refine ⟨h1, fun e he => by have := h2 e he; omega, h3, fun hall => h4 fun e he => ?_⟩
    have := hall e he
    have hd : n / f = (n - 1) / f := by
      obtain ⟨m, rfl⟩ : ∃ m, n = m + 1 := ⟨n - 1, by omega⟩
      rw [Nat.succ_div, if_neg (fun hd => hm (Nat.mod_eq_zero_of_dvd hd))]
      simp
    rw [Nat.add_sub_cancel, hd] at this
    exact this

theorem once_log {clock : Clock} {f n r₀ reads : ℕ} {logs : List (ℕ × Logs)} (name : String) (hname : name ≠ "times/total")
    (h : Once clock f (n + 1) r₀ reads logs) (hnew : ∀ e ∈ logs, e.1 / f < n / f) :
    Once clock f (n + 1) r₀ (reads + 1) (logs ++ [(n, entries name (stampsAt clock r₀) (clock reads))]) := by
  obtain ⟨h1, h2, h3, h4⟩ := h
  refine ⟨by omega, ?_, ?_, fun hall => ?_⟩
  · intro e he
    rcases List.mem_append.1 he with he | he
    · exact h2 e he
    · rw [List.mem_singleton.1 he]; exact Nat.lt_succ_self n
  · rw [spent_append, at_total name hname]
    have := h4 (by simpa using hnew)
    simp only [stampsAt, Nat.add_sub_cancel]
    linarith
  · exact absurd (hall _ (List.mem_append_right _ (List.mem_singleton.2 rfl))) (by simp)

/-! ### Monte Carlo training: proofs -/

theorem draws_iff {batch mini : ℕ} (hm : 0 < mini) (hb : mini ≤ batch) (m : ℕ) :
    (m % (batch / mini) + 1) * mini + mini > batch ↔ (m + 1) % (batch / mini) = 0 := by
  have hf : 0 < batch / mini := Nat.div_pos hb hm
  rw [succ_mod_cases m _ hf]
  have hl := Nat.mod_lt m hf
  have key : (m % (batch / mini) + 1) * mini + mini > batch ↔ batch / mini < m % (batch / mini) + 2 := by
    rw [Nat.div_lt_iff_lt_mul hm]
    have : (m % (batch / mini) + 2) * mini = (m % (batch / mini) + 1) * mini + mini := by ring
    rw [this]
  rw [key]
  split
  · simp; omega
  · constructor <;> intro h <;> omega

/-- What is known of the generator after `n` steps: `idx`. -/
def idxAfter (batch mini : ℕ) : ℕ → ℕ
  | 0 => batch
  | n + 1 => (n % (batch / mini) + 1) * mini

theorem nextMini_eq {batch mini : ℕ} (hm : 0 < mini) (hb : mini ≤ batch) (clock : Clock) (n : ℕ) (g : Gen)
    (hg : g.idx = idxAfter batch mini n) :
    nextMini batch mini clock g =
      ⟨idxAfter batch mini (n + 1), if n % (batch / mini) = 0 then some (stampsAt clock g.reads) else g.stamps,
        if n % (batch / mini) = 0 then g.reads + 3 else g.reads⟩ := by
  have hf : 0 < batch / mini := Nat.div_pos hb hm
  have hdraw : g.idx + mini > batch ↔ n % (batch / mini) = 0 := by
    rw [hg]
    cases n with
    | zero => simp [idxAfter, hm]
    | succ m => exact draws_iff hm hb m
  unfold nextMini
  by_cases hd : n % (batch / mini) = 0
  · simp only [if_pos (hdraw.2 hd), idxAfter, hd]
    simp
  · simp only [if_neg hd, if_neg (fun h => hd (hdraw.1 h))]
    rw [hg]
    cases n with
    | zero => simp at hd
    | succ m =>
      simp only [idxAfter]
      have := succ_mod_cases m _ hf
      rw [this] at hd ⊢
      split at hd
      · exact absurd rfl hd
      · rename_i hne
        rw [if_neg hne]
        congr 1
        ring

/-- The step at which the callback writes. -/
def writes (spe : ℕ) (inBatch : Bool) (k : ℕ) : Bool := inBatch || (k + 1) % spe == 0

/-- The invariant of training. -/
structure Known (batch mini spe : ℕ) (inBatch validation : Bool) (clock : Clock) (n : ℕ) (g : Gen)
    (logs : List (ℕ × Logs)) : Prop where
  idx : g.idx = idxAfter batch mini n
  stamps : 0 < n → ∃ g₀ l₀, train batch mini spe inBatch validation clock ((n - 1) - (n - 1) % (batch / mini)) = some (g₀, l₀) ∧
    g.stamps = some (stampsAt clock g₀.reads) ∧ g₀.reads + 3 ≤ g.reads
  steps : logs.map Prod.fst = (List.range n).filter (writes spe inBatch)
  logged : ∀ e ∈ logs, ∃ g₀ l₀ g₁ l₁ g₂ l₂ r,
    train batch mini spe inBatch validation clock (e.1 - e.1 % (batch / mini)) = some (g₀, l₀) ∧
    train batch mini spe inBatch validation clock e.1 = some (g₁, l₁) ∧
    train batch mini spe inBatch validation clock (e.1 + 1) = some (g₂, l₂) ∧
    g₀.reads + 3 ≤ r ∧ g₁.reads ≤ r ∧ r < g₂.reads ∧
    e.2 = entries "times/sampling" (stampsAt clock g₀.reads) (clock r)


theorem step_eq (batch mini spe : ℕ) (inBatch validation : Bool) (clock : Clock) (k : ℕ) (g : Gen)
    (logs : List (ℕ × Logs)) (i : ℕ) (s : Stamps) (R : ℕ) (h : nextMini batch mini clock g = ⟨i, some s, R⟩) :
    ∃ a b, step batch mini spe inBatch validation clock k (g, logs) =
      some (⟨i, some s, R + a + (if writes spe inBatch k then 1 else 0) + b⟩,
        if writes spe inBatch k then logs ++ [(k, entries "times/sampling" s (clock (R + a)))] else logs) := by
  unfold step log
  simp only [h]
  cases inBatch with
  | true =>
    by_cases he : validation = true ∧ (k + 1) % spe = 0
    · exact ⟨0, 3, by simp [writes, he]⟩
    · refine ⟨0, 0, ?_⟩
      simp only [writes, Bool.true_or, if_true, Option.map_some, if_neg he]
      rfl
  | false =>
    by_cases he : (k + 1) % spe = 0
    · cases validation
      · exact ⟨0, 0, by simp [writes, he]⟩
      · exact ⟨3, 0, by simp [writes, he]⟩
    · exact ⟨0, 0, by simp [writes, he]⟩

theorem train_known (batch mini spe : ℕ) (inBatch validation : Bool) (clock : Clock) (hm : 0 < mini) (hb : mini ≤ batch) :
    ∀ n, ∃ g logs, train batch mini spe inBatch validation clock n = some (g, logs) ∧
      Known batch mini spe inBatch validation clock n g logs
  | 0 => ⟨Gen.new batch, [], rfl, rfl, fun h => absurd h (lt_irrefl 0), rfl, fun e he => nomatch he⟩
  | n + 1 => by
    obtain ⟨g, logs, ht, hk⟩ := train_known batch mini spe inBatch validation clock hm hb n
    have hf : 0 < batch / mini := Nat.div_pos hb hm
    have hnext := nextMini_eq hm hb clock n g hk.idx
    -- the batch that step `n` uses
    obtain ⟨g₀, l₀, R, ht₀, hR, hgR, hs⟩ : ∃ g₀ l₀ R,
        train batch mini spe inBatch validation clock (n - n % (batch / mini)) = some (g₀, l₀) ∧ g₀.reads + 3 ≤ R ∧
        g.reads ≤ R ∧
        nextMini batch mini clock g = ⟨idxAfter batch mini (n + 1), some (stampsAt clock g₀.reads), R⟩ := by
      by_cases hd : n % (batch / mini) = 0
      · rw [if_pos hd, if_pos hd] at hnext
        exact ⟨g, logs, g.reads + 3, by rw [hd]; exact ht, le_refl _, by omega, hnext⟩
      · rw [if_neg hd, if_neg hd] at hnext
        have hn : 0 < n := Nat.pos_of_ne_zero fun h => hd (by rw [h, Nat.zero_mod])
        obtain ⟨g₀, l₀, h1, h2, h3⟩ := hk.stamps hn
        refine ⟨g₀, l₀, g.reads, ?_, h3, le_refl _, by rw [hnext, h2]⟩
        obtain ⟨m, rfl⟩ : ∃ m, n = m + 1 := ⟨n - 1, by omega⟩
        have hsm := succ_mod_cases m _ hf
        rw [hsm] at hd ⊢
        split at hd
        · exact absurd rfl hd
        · rename_i hne
          rw [if_neg hne]
          have : m + 1 - (m % (batch / mini) + 1) = m + 1 - 1 - (m + 1 - 1) % (batch / mini) := by
            rw [Nat.add_sub_cancel]; omega
          rw [this]
          exact h1
    obtain ⟨a, b, hst⟩ := step_eq batch mini spe inBatch validation clock n g logs _ _ _ hs
    have ht' := (show train batch mini spe inBatch validation clock (n + 1) =
        step batch mini spe inBatch validation clock n (g, logs) by rw [train, ht]; rfl).trans hst
    refine ⟨_, _, ht', rfl, fun _ => ⟨g₀, l₀, ?_, rfl, ?_⟩, ?_, ?_⟩
    · rw [Nat.add_sub_cancel]; exact ht₀
    · dsimp only
      omega
    · rw [List.range_succ, List.filter_append]
      by_cases hw : writes spe inBatch n = true
      · rw [if_pos hw, List.map_append, hk.steps]; simp [hw]
      · rw [if_neg hw, hk.steps]; simp [hw]
    · intro e he
      by_cases hw : writes spe inBatch n = true
      · rw [if_pos hw] at he
        rcases List.mem_append.1 he with he | he
        · exact hk.logged e he
        · rw [List.mem_singleton.1 he]
          refine ⟨g₀, l₀, g, logs, _, _, R + a, ht₀, ht, ht', by omega, by omega, ?_, rfl⟩
          rw [if_pos hw]
          dsimp only
          omega
      · rw [if_neg hw] at he
        exact hk.logged e he


theorem writes_of_mem {spe n : ℕ} {inBatch : Bool} {logs : List (ℕ × Logs)}
    (h : logs.map Prod.fst = (List.range n).filter (writes spe inBatch)) {e : ℕ × Logs} (he : e ∈ logs) :
    e.1 < n ∧ writes spe inBatch e.1 = true := by
  have : e.1 ∈ (List.range n).filter (writes spe inBatch) := h ▸ List.mem_map_of_mem he
  rw [List.mem_filter, List.mem_range] at this
  exact this

theorem train_once (batch mini spe : ℕ) (inBatch validation : Bool) (clock : Clock) (hc : Monotone clock) (hm : 0 < mini)
    (hb : mini ≤ batch)
    (H : ∀ j k, j < k → writes spe inBatch j = true → writes spe inBatch k = true → j / (batch / mini) < k / (batch / mini)) :
    ∀ n g logs, train batch mini spe inBatch validation clock (n + 1) = some (g, logs) →
      ∃ r₀, g.stamps = some (stampsAt clock r₀) ∧ Once clock (batch / mini) (n + 1) r₀ g.reads logs := by
  intro n
  -- the end of a step, the same for all steps
  have fin : ∀ (m : ℕ) (g : Gen) (logs : List (ℕ × Logs)) (g' : Gen) (logs' : List (ℕ × Logs)) (i r₀ R : ℕ),
      nextMini batch mini clock g = ⟨i, some (stampsAt clock r₀), R⟩ → Once clock (batch / mini) (m + 1) r₀ R logs →
      (∀ e ∈ logs, e.1 < m ∧ writes spe inBatch e.1 = true) →
      step batch mini spe inBatch validation clock m (g, logs) = some (g', logs') →
      ∃ r₀, g'.stamps = some (stampsAt clock r₀) ∧ Once clock (batch / mini) (m + 1) r₀ g'.reads logs' := by
    intro m g logs g' logs' i r₀ R hs ho hl hst
    obtain ⟨a, b, hst'⟩ := step_eq batch mini spe inBatch validation clock m g logs _ _ _ hs
    rw [hst'] at hst
    injection hst with hst
    injection hst with h1 h2
    subst h1
    refine ⟨r₀, rfl, ?_⟩
    subst h2
    by_cases hw : writes spe inBatch m = true
    · simp only [if_pos hw]
      exact once_wait hc b (once_log "times/sampling" (by decide) (once_wait hc a ho)
        fun e he => H e.1 m (hl e he).1 (hl e he).2 hw)
    · simp only [if_neg hw]
      exact once_wait hc b (once_wait hc 0 (once_wait hc a ho))
  induction n with
  | zero =>
    intro g logs ht
    have hnext := nextMini_eq hm hb clock 0 (Gen.new batch) rfl
    rw [if_pos (Nat.zero_mod _), if_pos (Nat.zero_mod _)] at hnext
    exact fin 0 (Gen.new batch) [] g logs _ _ _ hnext (once_first hc _) (fun e he => nomatch he) ht
  | succ n ih =>
    intro g' logs' ht
    obtain ⟨g, logs, hg, hk⟩ := train_known batch mini spe inBatch validation clock hm hb (n + 1)
    obtain ⟨r₀, hr, ho⟩ := ih g logs hg
    have hnext := nextMini_eq hm hb clock (n + 1) g hk.idx
    have hst : step batch mini spe inBatch validation clock (n + 1) (g, logs) = some (g', logs') := by
      rw [train, hg] at ht
      exact ht
    have hone := once_begin hc (Nat.succ_pos n) ho
    refine fin (n + 1) g logs g' logs' (idxAfter batch mini (n + 1 + 1)) _ _ ?_ hone (fun e he => writes_of_mem hk.steps he) hst
    rw [hnext]
    by_cases hd : (n + 1) % (batch / mini) = 0
    · simp only [if_pos hd]
    · simp only [if_neg hd, hr]

/-! ### C116, Monte Carlo training -/

/-- **C116.** Monte Carlo training with `RuntimeStats`, for all batch and mini-batch sizes, epoch lengths, both ways of
logging, with or without a validation generator, and every clock that does not run backwards: no step fails, the entries
are written at every step (batch mode) or after every epoch (epoch mode), the three durations are not negative and add up to
the total, and the total is the time from the beginning of the drawing of the batch the step trained on (before step
`k - k % f` where `f` mini-batches are taken from every batch) to a moment between the beginning of the step and its end. -/
theorem C116_monte_carlo (batch mini spe : ℕ) (inBatch validation : Bool) (clock : Clock) (hc : Monotone clock)
    (hm : 0 < mini) (hb : mini ≤ batch) (n : ℕ) :
    ∃ g logs, train batch mini spe inBatch validation clock n = some (g, logs) ∧
      logs.map Prod.fst = (List.range n).filter (fun k => inBatch || (k + 1) % spe == 0) ∧
      ∀ k l, (k, l) ∈ logs → ∃ g₀ l₀ g₁ l₁ g₂ l₂ r,
        train batch mini spe inBatch validation clock (k - k % (batch / mini)) = some (g₀, l₀) ∧
        train batch mini spe inBatch validation clock k = some (g₁, l₁) ∧
        train batch mini spe inBatch validation clock (k + 1) = some (g₂, l₂) ∧
        g₁.reads ≤ r ∧ r < g₂.reads ∧
        AddsUp "times/sampling" l (clock g₀.reads) (clock r) := by
  obtain ⟨g, logs, ht, hk⟩ := train_known batch mini spe inBatch validation clock hm hb n
  refine ⟨g, logs, ht, hk.steps, fun k l hl => ?_⟩
  obtain ⟨g₀, l₀, g₁, l₁, g₂, l₂, r, h0, h1, h2, h3, h4, h5, h6⟩ := hk.logged (k, l) hl
  refine ⟨g₀, l₀, g₁, l₁, g₂, l₂, r, h0, h1, h2, h4, h5, ?_⟩
  have h6' : l = _ := h6
  rw [h6']
  exact addsUp_entries "times/sampling" (by decide) (stampsAt clock g₀.reads) (clock r) (hc (by omega)) (hc (by omega))
    (hc (by omega))

/-- **C116, part.** If every batch is used whole, or logging is once per epoch and no batch reaches over more than one epoch
end, the totals that are logged add up to no more than the time that has passed: no time is counted twice. -/
theorem C116_monte_carlo_once_partial (batch mini spe : ℕ) (inBatch validation : Bool) (clock : Clock) (hc : Monotone clock)
    (hm : 0 < mini) (hb : mini ≤ batch)
    (h : batch / mini = 1 ∨ inBatch = false ∧ batch / mini ≤ spe) (n : ℕ) (g : Gen) (logs : List (ℕ × Logs))
    (ht : train batch mini spe inBatch validation clock n = some (g, logs)) :
    spent logs ≤ clock (g.reads - 1) - clock 0 := by
  cases n with
  | zero =>
    simp only [train, Option.some.injEq, Prod.mk.injEq] at ht
    obtain ⟨rfl, rfl⟩ := ht
    simp [spent, Gen.new]
  | succ n =>
    have hf : 0 < batch / mini := Nat.div_pos hb hm
    obtain ⟨r₀, -, ho⟩ := train_once batch mini spe inBatch validation clock hc hm hb (by
      intro j k hjk hj hk
      rcases h with h | ⟨hi, hle⟩
      · rw [h]; simpa using hjk
      · subst hi
        simp only [writes, Bool.false_or, beq_iff_eq] at hj hk
        have hd : spe ∣ k - j := by
          have := Nat.dvd_sub (Nat.dvd_of_mod_eq_zero hk) (Nat.dvd_of_mod_eq_zero hj)
          have e : k + 1 - (j + 1) = k - j := by omega
          rwa [e] at this
        have hge : spe ≤ k - j := Nat.le_of_dvd (by omega) hd
        calc j / (batch / mini) < j / (batch / mini) + 1 := Nat.lt_succ_self _
          _ = (j + batch / mini) / (batch / mini) := (Nat.add_div_right j hf).symm
          _ ≤ k / (batch / mini) := Nat.div_le_div_right (by omega)) n g logs ht
    exact ho.2.2.1

/-- **C116 is false with mini-batches.** The sampling of a batch is counted again for every mini-batch: whenever a batch is
used in two or more parts and the clock advances, the two totals logged in the first two steps are together longer than the
time that has passed; and both contain the same sampling time. -/
theorem C116_violated_mini_batches (batch mini spe : ℕ) (clock : Clock) (hc : StrictMono clock) (hm : 0 < mini)
    (hb : 2 * mini ≤ batch) :
    ∃ g l l', train batch mini spe true false clock 2 = some (g, [(0, l), (1, l')]) ∧
      l.at "times/total" + l'.at "times/total" > clock (g.reads - 1) - clock 0 ∧
      l.at "times/sampling" = l'.at "times/sampling" ∧ 0 < l.at "times/sampling" := by
  have hne : ¬ mini + mini > batch := by omega
  have ht : train batch mini spe true false clock 2 =
      some (⟨mini + mini, some (stampsAt clock 0), 5⟩,
        [(0, entries "times/sampling" (stampsAt clock 0) (clock 3)),
         (1, entries "times/sampling" (stampsAt clock 0) (clock 4))]) := by
    simp [train, step, nextMini, Gen.new, log, hm, hne]
  refine ⟨_, _, _, ht, ?_, ?_, ?_⟩
  · rw [at_total _ (by decide), at_total _ (by decide)]
    have : clock 0 < clock 3 := hc (by omega)
    simp only [stampsAt]
    simp only [show (5 - 1 : ℕ) = 4 from rfl]
    linarith
  · simp [entries, Logs.at]
  · have : clock 0 < clock 1 := hc (by omega)
    simp only [entries, Logs.at, stampsAt, List.lookup_cons_self, Option.getD_some]
    linarith

/-- **C116, validation.** With a validation generator and logging once per epoch, the drawing of the validation batch (the
calls 3, 4, 5 of the clock) is part of what is logged as the time of the gradients. -/
theorem C116_violated_validation (batch : ℕ) (hb : 0 < batch) (clock : Clock) :
    ∃ g l, train batch batch 1 false true clock 1 = some (g, [(0, l)]) ∧
      l.at "times/gradients" = (clock 3 - clock 2) + (clock 5 - clock 3) + (clock 6 - clock 5) ∧
      ∃ g' l', train batch batch 1 true true clock 1 = some (g', [(0, l')]) ∧
        l'.at "times/gradients" = clock 3 - clock 2 := by
  have h1 : train batch batch 1 false true clock 1 =
      some (⟨batch, some (stampsAt clock 0), 7⟩, [(0, entries "times/sampling" (stampsAt clock 0) (clock 6))]) := by
    simp [train, step, nextMini, Gen.new, log, hb]
  have h2 : train batch batch 1 true true clock 1 =
      some (⟨batch, some (stampsAt clock 0), 7⟩, [(0, entries "times/sampling" (stampsAt clock 0) (clock 3))]) := by
    simp [train, step, nextMini, Gen.new, log, hb]
  refine ⟨_, _, h1, ?_, _, _, h2, ?_⟩
  · have : (entries "times/sampling" (stampsAt clock 0) (clock 6)).at "times/gradients" = clock 6 - clock 2 := by
      simp [entries, Logs.at, stampsAt, List.lookup]
    rw [this]; ring
  · simp [entries, Logs.at, stampsAt, List.lookup]

/-- A clock and sizes that meet the hypotheses: batches of 128 in parts of 32, the clock advances by one. -/
example : StrictMono (fun i : ℕ => (i : ℝ)) ∧ 0 < 32 ∧ 2 * 32 ≤ 128 ∧ 128 / 32 ≤ 100 :=
  ⟨fun a b h => Nat.cast_lt.2 h, by omega, by omega, by norm_num⟩


/-! ### Exact training: proofs -/

/-- What holds of every state of exact training: `start` is a number of calls of the clock before it. -/
structure Sound (clock : Clock) (start : ℕ) (st : Exact) : Prop where
  stamps : ∃ r₀, start ≤ r₀ ∧ st.stamps = some (stampsAt clock r₀) ∧ r₀ + 3 ≤ st.reads
  logged : ∀ e ∈ st.logs, ∃ r₀ r₁, start ≤ r₀ ∧ r₀ + 3 ≤ r₁ ∧ r₁ < st.reads ∧
    e.2 = entries "times/wave_function_update" (stampsAt clock r₀) (clock r₁)

theorem refresh_sound {clock : Clock} {start : ℕ} {st : Exact} (hr : start ≤ st.reads)
    (hl : ∀ e ∈ st.logs, ∃ r₀ r₁, start ≤ r₀ ∧ r₀ + 3 ≤ r₁ ∧ r₁ < st.reads ∧
      e.2 = entries "times/wave_function_update" (stampsAt clock r₀) (clock r₁)) : Sound clock start (st.refresh clock) where
  stamps := ⟨st.reads, hr, rfl, le_refl _⟩
  logged := fun e he => by
    obtain ⟨r₀, r₁, h0, h1, h2, h3⟩ := hl e he
    exact ⟨r₀, r₁, h0, h1, by simp only [Exact.refresh]; omega, h3⟩

theorem Sound.refresh {clock : Clock} {start : ℕ} {st : Exact} (h : Sound clock start st) :
    Sound clock start (st.refresh clock) := by
  obtain ⟨r₀, h0, -, h1⟩ := h.stamps
  exact refresh_sound (by omega) h.logged

theorem Sound.write {clock : Clock} {start : ℕ} {st : Exact} (k : ℕ) (h : Sound clock start st) :
    ∃ st', st.write clock k = some st' ∧ Sound clock start st' := by
  obtain ⟨r₀, h0, hs, h1⟩ := h.stamps
  refine ⟨{ st with reads := st.reads + 1, logs := st.logs ++
    [(k, entries "times/wave_function_update" (stampsAt clock r₀) (clock st.reads))] }, by simp [Exact.write, hs],
    ⟨r₀, h0, hs, by dsimp only; omega⟩, fun e he => ?_⟩
  rcases List.mem_append.1 he with he | he
  · obtain ⟨a, b, ha, hb, hc, hd⟩ := h.logged e he
    exact ⟨a, b, ha, hb, by dsimp only; omega, hd⟩
  · rw [List.mem_singleton.1 he]
    exact ⟨r₀, st.reads, h0, h1, Nat.lt_succ_self _, rfl⟩

theorem Sound.batchEnd {clock : Clock} {start q k batch : ℕ} {st : Exact} (cb : Callback) (h : Sound clock start st) :
    ∃ st', cb.batchEnd clock q k batch st = some st' ∧ Sound clock start st' := by
  cases cb with
  | runtime ib =>
    unfold Callback.batchEnd
    dsimp only
    split
    · exact h.write k
    · exact ⟨st, rfl, h⟩
  | machineUpdated ib le =>
    refine ⟨_, rfl, ?_⟩
    split
    · exact h.refresh
    · exact h

theorem Sound.epochEnd {clock : Clock} {start k : ℕ} {st : Exact} (cb : Callback) (h : Sound clock start st) :
    ∃ st', cb.epochEnd clock k st = some st' ∧ Sound clock start st' := by
  cases cb with
  | runtime ib =>
    unfold Callback.epochEnd
    dsimp only
    split
    · exact ⟨st, rfl, h⟩
    · exact h.write k
  | machineUpdated ib le =>
    refine ⟨_, rfl, ?_⟩
    split
    · exact h
    · exact h.refresh

theorem sound_fold {clock : Clock} {start : ℕ} (f : Exact → Callback → Option Exact)
    (hf : ∀ st cb, Sound clock start st → ∃ st', f st cb = some st' ∧ Sound clock start st') :
    ∀ (cbs : List Callback) (st : Exact), Sound clock start st → ∃ st', cbs.foldlM f st = some st' ∧ Sound clock start st'
  | [], st, h => ⟨st, rfl, h⟩
  | cb :: cbs, st, h => by
    obtain ⟨st₁, h1, h2⟩ := hf st cb h
    obtain ⟨st₂, h3, h4⟩ := sound_fold f hf cbs st₁ h2
    exact ⟨st₂, by rw [List.foldlM_cons, h1]; exact h3, h4⟩

theorem exactTrain_sound (q spe : ℕ) (cbs : List Callback) (clock : Clock) :
    ∀ n, ∃ st, exactTrain q spe cbs clock (n + 1) = some st ∧ Sound clock 0 st := by
  have fin : ∀ (k : ℕ) (st : Exact), Sound clock 0 (if k % q = 0 then st.refresh clock else st) →
      ∃ st', Exact.step q spe cbs clock k st = some st' ∧ Sound clock 0 st' := by
    intro k st h
    obtain ⟨st₁, h1, h2⟩ := sound_fold (fun (st : Exact) (cb : Callback) => cb.batchEnd clock q k (k % spe) st)
      (fun st cb h => h.batchEnd cb) cbs _ h
    unfold Exact.step
    dsimp only
    rw [h1, Option.bind_some]
    split
    · exact sound_fold (fun (st : Exact) (cb : Callback) => cb.epochEnd clock k st) (fun st cb h => h.epochEnd cb) cbs _ h2
    · exact ⟨st₁, rfl, h2⟩
  intro n
  induction n with
  | zero =>
    refine fin 0 ⟨none, 0, []⟩ ?_
    rw [if_pos (Nat.zero_mod q)]
    exact refresh_sound (le_refl 0) (fun e he => nomatch he)
  | succ n ih =>
    obtain ⟨st, h1, h2⟩ := ih
    obtain ⟨st', h3, h4⟩ := fin (n + 1) st (by split; exacts [h2.refresh, h2])
    exact ⟨st', by rw [exactTrain, h1]; exact h3, h4⟩

/-- The steps at which the callback writes in exact training. -/
def exactWrites (q spe : ℕ) (inBatch : Bool) (k : ℕ) : Bool :=
  if inBatch then (k % spe + 1) % q == 0 else (k + 1) % spe == 0

theorem exactStep_eq (q spe : ℕ) (inBatch : Bool) (clock : Clock) (k : ℕ) (st : Exact) (s : Stamps)
    (hs : (if k % q = 0 then st.refresh clock else st).stamps = some s) :
    Exact.step q spe [.runtime inBatch] clock k st =
      let st := if k % q = 0 then st.refresh clock else st
      if exactWrites q spe inBatch k then
        some { st with reads := st.reads + 1,
                       logs := st.logs ++ [(k, entries "times/wave_function_update" s (clock st.reads))] }
      else some st := by
  unfold Exact.step
  generalize (if k % q = 0 then st.refresh clock else st) = st' at hs ⊢
  cases inBatch with
  | true =>
    by_cases hw : (k % spe + 1) % q = 0
    · simp [exactWrites, hw, Callback.batchEnd, Exact.write, hs, Callback.epochEnd]
    · simp [exactWrites, hw, Callback.batchEnd, Callback.epochEnd]
  | false =>
    by_cases hw : (k + 1) % spe = 0
    · simp [exactWrites, hw, Callback.batchEnd, Exact.write, hs, Callback.epochEnd]
    · simp [exactWrites, hw, Callback.batchEnd]

theorem exactTrain_once (q spe : ℕ) (inBatch : Bool) (clock : Clock) (hc : Monotone clock)
    (H : ∀ j k, j < k → exactWrites q spe inBatch j = true → exactWrites q spe inBatch k = true → j / q < k / q) :
    ∀ n, ∃ st r₀, exactTrain q spe [.runtime inBatch] clock (n + 1) = some st ∧ st.stamps = some (stampsAt clock r₀) ∧
      (∀ e ∈ st.logs, exactWrites q spe inBatch e.1 = true) ∧ Once clock q (n + 1) r₀ st.reads st.logs := by
  have fin : ∀ (k : ℕ) (st : Exact) (r₀ : ℕ),
      (if k % q = 0 then st.refresh clock else st).stamps = some (stampsAt clock r₀) →
      Once clock q (k + 1) r₀ (if k % q = 0 then st.refresh clock else st).reads st.logs →
      (∀ e ∈ st.logs, e.1 < k ∧ exactWrites q spe inBatch e.1 = true) →
      ∃ st' r₀, Exact.step q spe [.runtime inBatch] clock k st = some st' ∧ st'.stamps = some (stampsAt clock r₀) ∧
        (∀ e ∈ st'.logs, exactWrites q spe inBatch e.1 = true) ∧ Once clock q (k + 1) r₀ st'.reads st'.logs := by
    intro k st r₀ hs ho hl
    have hst := exactStep_eq q spe inBatch clock k st _ hs
    have hlogs : (if k % q = 0 then st.refresh clock else st).logs = st.logs := by split <;> rfl
    dsimp only at hst
    rw [hlogs] at hst
    by_cases hw : exactWrites q spe inBatch k = true
    · rw [if_pos hw] at hst
      refine ⟨_, r₀, hst, hs, ?_, once_log _ (by decide) ho fun e he => H e.1 k (hl e he).1 (hl e he).2 hw⟩
      intro e he
      rcases List.mem_append.1 he with he | he
      · exact (hl e he).2
      · rw [List.mem_singleton.1 he]; exact hw
    · rw [if_neg hw] at hst
      exact ⟨_, r₀, hst, hs, by rw [hlogs]; exact fun e he => (hl e he).2, by rw [hlogs]; exact ho⟩
  intro n
  induction n with
  | zero =>
    refine fin 0 ⟨none, 0, []⟩ 0 ?_ ?_ (fun e he => nomatch he)
    · rw [if_pos (Nat.zero_mod q)]; rfl
    · rw [if_pos (Nat.zero_mod q)]; exact once_first hc q
  | succ n ih =>
    obtain ⟨st, r₀, h1, h2, h3, h4⟩ := ih
    have hb := once_begin hc (Nat.succ_pos n) h4
    have : exactTrain q spe [.runtime inBatch] clock (n + 1 + 1) = Exact.step q spe [.runtime inBatch] clock (n + 1) st := by
      rw [exactTrain, h1]; rfl
    rw [this]
    refine fin (n + 1) st (if (n + 1) % q = 0 then st.reads else r₀) ?_ ?_ (fun e he => ⟨h4.2.1 e he, h3 e he⟩)
    · by_cases hd : (n + 1) % q = 0
      · simp only [if_pos hd]; rfl
      · simp only [if_neg hd]; exact h2
    · by_cases hd : (n + 1) % q = 0
      · simp only [Nat.succ_eq_add_one, if_pos hd] at hb ⊢; exact hb
      · simp only [Nat.succ_eq_add_one, if_neg hd] at hb ⊢; exact hb

theorem div_lt_of_le {j k q : ℕ} (hq : 0 < q) (h : j + q ≤ k) : j / q < k / q :=
  calc j / q < j / q + 1 := Nat.lt_succ_self _
    _ = (j + q) / q := (Nat.add_div_right j hq).symm
    _ ≤ k / q := Nat.div_le_div_right h

/-! ### C116, exact training -/

/-- **C116.** Exact training with any callbacks that look at the clock: no step fails, and all entries are durations that
are not negative and add up to the total, a time that passed within the run. -/
theorem C116_exact (q spe : ℕ) (cbs : List Callback) (clock : Clock) (hc : Monotone clock) (n : ℕ) :
    ∃ st, exactTrain q spe cbs clock n = some st ∧
      ∀ k l, (k, l) ∈ st.logs → ∃ r₀ r₁, r₀ < r₁ ∧ r₁ < st.reads ∧
        AddsUp "times/wave_function_update" l (clock r₀) (clock r₁) := by
  cases n with
  | zero => exact ⟨_, rfl, fun k l h => nomatch h⟩
  | succ n =>
    obtain ⟨st, h1, h2⟩ := exactTrain_sound q spe cbs clock n
    refine ⟨st, h1, fun k l hl => ?_⟩
    obtain ⟨r₀, r₁, -, h4, h5, h6⟩ := h2.logged (k, l) hl
    refine ⟨r₀, r₁, by omega, h5, ?_⟩
    have h6' : l = _ := h6
    rw [h6']
    exact addsUp_entries _ (by decide) (stampsAt clock r₀) (clock r₁) (hc (by omega)) (hc (by omega)) (hc (by omega))

/-- **C116, part.** With the default callbacks, logging in batches, or once per epoch where an epoch is at least one cycle
over the states, the totals add up to no more than the time that has passed. -/
theorem C116_exact_once_partial (q spe : ℕ) (inBatch : Bool) (clock : Clock) (hc : Monotone clock) (hq : 0 < q)
    (h : inBatch = true ∨ q ≤ spe) (n : ℕ) (st : Exact)
    (ht : exactTrain q spe [.runtime inBatch] clock n = some st) : spent st.logs ≤ clock (st.reads - 1) - clock 0 := by
  cases n with
  | zero =>
    simp only [exactTrain, Option.some.injEq] at ht
    subst ht
    simp [spent]
  | succ n =>
    obtain ⟨st', r₀, h1, -, -, h4⟩ := exactTrain_once q spe inBatch clock hc (by
      intro j k hjk hj hk
      refine div_lt_of_le hq ?_
      cases inBatch with
      | true =>
        simp only [exactWrites, if_true, beq_iff_eq] at hj hk
        have hk1 := Nat.le_of_dvd (Nat.succ_pos _) (Nat.dvd_of_mod_eq_zero hk)
        have hkd := Nat.mod_add_div k spe
        have hjd := Nat.mod_add_div j spe
        rcases Nat.lt_trichotomy (j / spe) (k / spe) with hlt | heq | hgt
        · rcases Nat.eq_zero_or_pos spe with h0 | h0
          · rw [h0, Nat.div_zero, Nat.div_zero] at hlt; exact absurd hlt (lt_irrefl 0)
          · have hj2 := Nat.mod_lt j h0
            have : spe * (j / spe) + spe ≤ spe * (k / spe) := by
              have := Nat.mul_le_mul_left spe hlt
              rwa [Nat.succ_eq_add_one, Nat.mul_add, Nat.mul_one] at this
            omega
        · rw [heq] at hjd
          have hd := Nat.dvd_sub (Nat.dvd_of_mod_eq_zero hk) (Nat.dvd_of_mod_eq_zero hj)
          have := Nat.le_of_dvd (by omega) hd
          omega
        · have := Nat.div_le_div_right (c := spe) hjk.le
          omega
      | false =>
        simp only [exactWrites, Bool.false_eq_true, if_false, beq_iff_eq] at hj hk
        have hle : q ≤ spe := h.resolve_left (by decide)
        have hd := Nat.dvd_sub (Nat.dvd_of_mod_eq_zero hk) (Nat.dvd_of_mod_eq_zero hj)
        have := Nat.le_of_dvd (by omega) hd
        omega) n
    rw [h1] at ht
    injection ht with ht
    rw [← ht]
    exact h4.2.2.1

/-- **C116.** If epochs consist of whole cycles over the states and logging is in batches, one entry is written for every
cycle, at its last step, and its total is all the time from the beginning of the cycle to its end. -/
theorem C116_exact_complete (q spe c : ℕ) (hq : 0 < q) (hd : q ∣ spe) (clock : Clock) :
    ∃ st, exactTrain q spe [.runtime true] clock (q * c) = some st ∧ st.reads = 4 * c ∧
      st.logs = (List.range c).map fun i =>
        (q * i + (q - 1), entries "times/wave_function_update" (stampsAt clock (4 * i)) (clock (4 * i + 3))) := by
  -- within a cycle
  have inner : ∀ (c : ℕ) (st : Exact), exactTrain q spe [.runtime true] clock (q * c) = some st → st.reads = 4 * c →
      ∀ j, j < q → exactTrain q spe [.runtime true] clock (q * c + j) =
        (if j = 0 then some st else some ⟨some (stampsAt clock (4 * c)), 4 * c + 3, st.logs⟩) := by
    intro c st ht hr j
    induction j with
    | zero => intro _; simpa using ht
    | succ j ih =>
      intro hj
      have hstep : exactTrain q spe [.runtime true] clock (q * c + (j + 1)) =
          (exactTrain q spe [.runtime true] clock (q * c + j)).bind (Exact.step q spe [.runtime true] clock (q * c + j)) := rfl
      rw [hstep, ih (by omega), if_neg (Nat.succ_ne_zero j)]
      have hnw : exactWrites q spe true (q * c + j) = false := by
        simp only [exactWrites, if_true, beq_eq_false_iff_ne]
        rw [Nat.add_mod, Nat.mod_mod_of_dvd _ hd, Nat.mul_add_mod, Nat.mod_eq_of_lt (by omega : j < q), ← Nat.add_mod_mod,
          Nat.mod_mod, Nat.add_mod_mod, Nat.mod_eq_of_lt hj]
        omega
      by_cases h0 : j = 0
      · subst h0
        rw [if_pos rfl, Option.bind_some, exactStep_eq q spe true clock (q * c + 0) st (stampsAt clock (4 * c))
          (by rw [if_pos (by simp)]; simp [Exact.refresh, hr])]
        rw [hnw]
        simp [Exact.refresh, hr]
      · have hm : ¬ (q * c + j) % q = 0 := by
          rw [Nat.mul_add_mod, Nat.mod_eq_of_lt (by omega)]; exact h0
        rw [if_neg h0, Option.bind_some, exactStep_eq q spe true clock (q * c + j) _ (stampsAt clock (4 * c))
          (by rw [if_neg hm])]
        dsimp only
        rw [hnw, if_neg hm]
        rfl
  induction c with
  | zero => exact ⟨_, rfl, rfl, rfl⟩
  | succ c ih =>
    obtain ⟨st, ht, hr, hl⟩ := ih
    have hlast := inner c st ht hr (q - 1) (by omega)
    have hw : exactWrites q spe true (q * c + (q - 1)) = true := by
      simp only [exactWrites, if_true, beq_iff_eq]
      rw [← Nat.mod_add_mod, Nat.mod_mod_of_dvd _ hd, Nat.mod_add_mod]
      have : q * c + (q - 1) + 1 = q * (c + 1) := by rw [Nat.mul_add]; omega
      rw [this, Nat.mul_mod_right]
    have hnext : exactTrain q spe [.runtime true] clock (q * (c + 1)) =
        (exactTrain q spe [.runtime true] clock (q * c + (q - 1))).bind
          (Exact.step q spe [.runtime true] clock (q * c + (q - 1))) := by
      have : q * (c + 1) = q * c + (q - 1) + 1 := by rw [Nat.mul_add]; omega
      rw [this]; rfl
    refine ⟨⟨some (stampsAt clock (4 * c)), 4 * (c + 1), st.logs ++
      [(q * c + (q - 1), entries "times/wave_function_update" (stampsAt clock (4 * c)) (clock (4 * c + 3)))]⟩, ?_, rfl, ?_⟩
    · rw [hnext, hlast]
      by_cases h1 : q = 1
      · subst h1
        rw [if_pos rfl, Option.bind_some, exactStep_eq 1 spe true clock _ st (stampsAt clock (4 * c))
          (by rw [if_pos (Nat.mod_one _)]; simp [Exact.refresh, hr])]
        rw [hw]
        simp [Exact.refresh, hr, Nat.mod_one]
        omega
      · have hm : ¬ (q * c + (q - 1)) % q = 0 := by
          rw [Nat.mul_add_mod, Nat.mod_eq_of_lt (by omega)]; omega
        rw [if_neg (by omega), Option.bind_some, exactStep_eq q spe true clock _ _ (stampsAt clock (4 * c))
          (by rw [if_neg hm])]
        dsimp only
        rw [hw, if_neg hm]
        rfl
    · rw [List.range_succ, List.map_append, hl]
      rfl

/-- **C116 is false for short epochs.** If an epoch is shorter than a cycle over the states, nothing at all is logged in
batch mode, however long the training. -/
theorem C116_violated_exact_short_epochs (q spe : ℕ) (hspe : 0 < spe) (h : spe < q) (clock : Clock) (n : ℕ) :
    ∃ st, exactTrain q spe [.runtime true] clock n = some st ∧ st.logs = [] := by
  have hno : ∀ k, exactWrites q spe true k = false := by
    intro k
    simp only [exactWrites, if_true, beq_eq_false_iff_ne]
    have := Nat.mod_lt k hspe
    rw [Nat.mod_eq_of_lt (by omega)]
    omega
  cases n with
  | zero => exact ⟨_, rfl, rfl⟩
  | succ n =>
    have key : ∀ n, ∃ st s, exactTrain q spe [.runtime true] clock (n + 1) = some st ∧ st.stamps = some s ∧ st.logs = [] := by
      intro n
      induction n with
      | zero =>
        have hs := exactStep_eq q spe true clock 0 ⟨none, 0, []⟩ (stampsAt clock 0) (by rw [if_pos (Nat.zero_mod q)]; rfl)
        dsimp only at hs
        rw [hno, if_pos (Nat.zero_mod q)] at hs
        exact ⟨_, _, hs, rfl, rfl⟩
      | succ n ih =>
        obtain ⟨st, s, h1, h2, h3⟩ := ih
        have hs : ∃ s', (if (n + 1) % q = 0 then st.refresh clock else st).stamps = some s' := by
          split
          · exact ⟨_, rfl⟩
          · exact ⟨s, h2⟩
        obtain ⟨s', hs'⟩ := hs
        have he := exactStep_eq q spe true clock (n + 1) st s' hs'
        dsimp only at he
        rw [hno] at he
        refine ⟨_, s', ?_, hs', ?_⟩
        · rw [exactTrain, h1]; exact he
        · split
          · exact h3
          · exact h3
    obtain ⟨st, s, h1, -, h3⟩ := key n
    exact ⟨st, h1, h3⟩

/-- **C116 is false for short epochs in epoch mode.** With one step per epoch and cycles of two steps or more, the
refresh of the wave function is counted in the totals of both of the first two epochs, which together exceed the time that
has passed. -/
theorem C116_violated_exact_epochs (q : ℕ) (hq : 2 ≤ q) (clock : Clock) (hc : StrictMono clock) :
    ∃ st, exactTrain q 1 [.runtime false] clock 2 = some st ∧ spent st.logs > clock (st.reads - 1) - clock 0 := by
  have h1 : ¬ (1 % q = 0) := by rw [Nat.mod_eq_of_lt (by omega)]; omega
  have ht : exactTrain q 1 [.runtime false] clock 2 = some ⟨some (stampsAt clock 0), 5,
      [(0, entries "times/wave_function_update" (stampsAt clock 0) (clock 3)),
       (1, entries "times/wave_function_update" (stampsAt clock 0) (clock 4))]⟩ := by
    simp [exactTrain, Exact.step, Exact.refresh, Callback.batchEnd, Callback.epochEnd, Exact.write, h1, Nat.mod_one]
  refine ⟨_, ht, ?_⟩
  have : clock 0 < clock 3 := hc (by omega)
  simp only [spent, List.map_cons, List.map_nil, List.sum_cons, List.sum_nil,
    at_total "times/wave_function_update" (by decide), stampsAt, show (5 - 1 : ℕ) = 4 from rfl]
  linarith

/-- **C116 is false after `MachineUpdated`.** If `MachineUpdated` (with its local energies) is called before `RuntimeStats`,
the stamps are set anew after the gradient step: in step `k` the gradient step lies between the calls `7 k + 2` and
`7 k + 3` of the clock, but what is logged begins with call `7 k + 3`. So the logged times contain no training at all. -/
theorem C116_violated_machine_updated (spe : ℕ) (clock : Clock) (n : ℕ) :
    ∃ st, exactTrain 1 spe [.machineUpdated true true, .runtime true] clock n = some st ∧ st.reads = 7 * n ∧
      st.logs = (List.range n).map fun k =>
        (k, entries "times/wave_function_update" (stampsAt clock (7 * k + 3)) (clock (7 * k + 6))) := by
  induction n with
  | zero => exact ⟨_, rfl, rfl, rfl⟩
  | succ n ih =>
    obtain ⟨st, h1, h2, h3⟩ := ih
    refine ⟨⟨some (stampsAt clock (7 * n + 3)), 7 * (n + 1), st.logs ++
      [(n, entries "times/wave_function_update" (stampsAt clock (7 * n + 3)) (clock (7 * n + 6)))]⟩, ?_, rfl, ?_⟩
    · rw [exactTrain, h1]
      simp [Exact.step, Exact.refresh, Callback.batchEnd, Callback.epochEnd, Exact.write, Nat.mod_one, h2]
      omega
    · rw [List.range_succ, List.map_append, h3]
      rfl

/-- **C116, evaluation.** `exact_evaluate` calls the callbacks with a batch number for which `RuntimeStats` in batch mode
writes nothing unless a cycle is a single batch; so the times are missing from the result in all other cases. In epoch mode
they are written. -/
theorem C116_violated_exact_evaluate (q : ℕ) (hq : 0 < q) (clock : Clock) (r : ℕ) :
    (∃ st, exactEvaluate q [.runtime true] clock r = some st ∧ (st.logs = [] ↔ q ≠ 1)) ∧
    ∃ st, exactEvaluate q [.runtime false] clock r = some st ∧
      st.logs = [(0, entries "times/wave_function_update" (stampsAt clock r) (clock (r + 3)))] := by
  constructor
  · by_cases h : q = 1
    · subst h
      exact ⟨⟨some (stampsAt clock r), r + 4,
        [(0, entries "times/wave_function_update" (stampsAt clock r) (clock (r + 3)))]⟩, rfl, by simp⟩
    · have hne : ¬ (q + 1) % q = 0 := by
        rw [Nat.add_mod_left, Nat.mod_eq_of_lt (by omega)]; omega
      exact ⟨Exact.refresh clock ⟨none, r, []⟩, by simp [exactEvaluate, Callback.batchEnd, Callback.epochEnd, h],
        by simp [Exact.refresh, h]⟩
  · exact ⟨_, rfl, rfl⟩

/-- Cycles and epochs that meet the hypotheses: four batches per cycle, one hundred steps per epoch. -/
example : 0 < 4 ∧ 0 < 100 ∧ 4 ∣ 100 ∧ 4 ≤ 100 := by decide

end Verif.Callbacks.Runtime
