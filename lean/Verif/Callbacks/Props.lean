import Verif.Callbacks.Model
import Verif.Training.MiniBatchProps
import Mathlib.Tactic.Ring
import Mathlib.Tactic.Linarith
import Mathlib.Tactic.FieldSimp
import Mathlib.Tactic.NormNum
import Mathlib.Algebra.BigOperators.Group.List.Basic
import Mathlib.Algebra.BigOperators.Ring.List
import Mathlib.Data.Complex.BigOperators
import Mathlib.Analysis.Complex.Basic

/-!
C81: what `evaluate` returns.  C82: the evaluations of the experiment scripts.
-/
namespace Verif.Callbacks

open Verif.Training Verif.Energy Verif.Operators

/-! ### Dictionaries and `mean_logs` -/

theorem read_put (l : Logs) (k k' : String) (v : ℝ) :
    (l.put k v).read k' = if k = k' then some v else l.read k' := by
  induction l with
  | nil => simp [Logs.put, Logs.read]
  | cons p rest ih =>
    unfold Logs.put
    by_cases h : p.1 = k
    · rw [if_pos h]
      simp only [Logs.read]
      by_cases h' : k = k'
      · rw [if_pos h', if_pos h']
      · rw [if_neg h', if_neg h', if_neg (by rw [h]; exact h')]
    · rw [if_neg h]
      simp only [Logs.read]
      by_cases h' : p.1 = k'
      · rw [if_pos h', if_pos h', if_neg (fun e => h (h'.trans e.symm))]
      · rw [if_neg h', if_neg h', ih]

/-- The mean over the logs of the values of a key. -/
noncomputable def logMean (ls : List Logs) (k : String) : ℝ :=
  (ls.map fun l => (l.read k).getD 0).sum / ls.length

theorem mapM_read (ls : List Logs) (k : String) (h : ∀ l ∈ ls, l.read k ≠ none) :
    (ls.mapM fun l => l.read k) = some (ls.map fun l => (l.read k).getD 0) := by
  induction ls with
  | nil => rfl
  | cons l rest ih =>
    rw [List.mapM_cons, ih fun l' hl' => h l' (List.mem_cons_of_mem _ hl')]
    have := h l List.mem_cons_self
    cases hr : l.read k with
    | none => exact absurd hr this
    | some v => simp [hr]

theorem meanKey_ok (ls : List Logs) (k : String) (h : ∀ l ∈ ls, l.read k ≠ none) :
    meanKey ls k = .ok (k, logMean ls k) := by
  unfold meanKey logMean
  rw [mapM_read ls k h]
  simp

theorem mapM_meanKey_ok (ls : List Logs) (ks : List String) (h : ∀ k ∈ ks, ∀ l ∈ ls, l.read k ≠ none) :
    ks.mapM (meanKey ls) = .ok (ks.map fun k => (k, logMean ls k)) := by
  induction ks with
  | nil => rfl
  | cons k rest ih =>
    rw [List.mapM_cons, meanKey_ok ls k (h k List.mem_cons_self),
      ih fun k' hk' => h k' (List.mem_cons_of_mem _ hk')]
    rfl

theorem read_map (ks : List String) (g : String → ℝ) (k : String) :
    Logs.read (ks.map fun k => (k, g k)) k = if k ∈ ks then some (g k) else none := by
  induction ks with
  | nil => rfl
  | cons k' rest ih =>
    simp only [List.map_cons, Logs.read]
    by_cases h : k' = k
    · rw [if_pos h, if_pos (by rw [h]; exact List.mem_cons_self), h]
    · rw [if_neg h, ih]
      simp [Ne.symm h]

theorem read_ne_none (l : Logs) (k : String) : l.read k ≠ none ↔ k ∈ l.map Prod.fst := by
  induction l with
  | nil => simp [Logs.read]
  | cons p rest ih =>
    unfold Logs.read
    by_cases h : p.1 = k
    · rw [if_pos h]; simp [h]
    · rw [if_neg h, ih]; simp [Ne.symm h]

variable {ι : Type} [Fintype ι] {S : Type}

/-! ### One step with the default callbacks -/

/-- What the default callbacks log without validation generator. -/
noncomputable def stdLogs (truth : Option ℝ) (w : World S ι) : Logs :=
  addRuntime w (addObservable absSigmaZ "abs_sigma_z" w.gen ""
    (addObservable sigmaZ "sigma_z" w.gen "" (addEnergy truth w.gen "" [])))

theorem runCallbacks_default (drawVal : S → ℕ → List (Config ι × ℂ)) (truth : Option ℝ) (inBatch : Bool)
    (p i : ℕ) (w : World S ι) :
    runCallbacks drawVal i (defaultCallbacks truth inBatch false p) w [] = (w, stdLogs truth w) := by
  cases inBatch <;> simp [runCallbacks, defaultCallbacks, onBatchEnd, onEpochEnd, stdLogs]

theorem read_std_energy (truth : Option ℝ) (w : World S ι) :
    (stdLogs truth w).read "energy/energy" = some (batchEnergy w.gen.x).re := by
  cases truth <;> simp [stdLogs, addRuntime, addObservable, addEnergy, read_put]

theorem read_std_variance (truth : Option ℝ) (w : World S ι) :
    (stdLogs truth w).read "energy/local_energy_variance" = some (batchVariance w.gen.x) := by
  cases truth <;> simp [stdLogs, addRuntime, addObservable, addEnergy, read_put]

theorem read_std_error (truth : Option ℝ) (w : World S ι) :
    (stdLogs truth w).read "energy/relative_error"
      = truth.map fun t => (t - (batchEnergy w.gen.x).re) / t := by
  cases truth <;> simp [stdLogs, addRuntime, addObservable, addEnergy, read_put, Logs.read]

theorem read_std_sigma (truth : Option ℝ) (w : World S ι) :
    (stdLogs truth w).read "observables/sigma_z" = some (batchObservable sigmaZ w.gen.x) := by
  cases truth <;> simp [stdLogs, addRuntime, addObservable, addEnergy, read_put]

theorem read_std_abs (truth : Option ℝ) (w : World S ι) :
    (stdLogs truth w).read "observables/abs_sigma_z" = some (batchObservable absSigmaZ w.gen.x) := by
  cases truth <;> simp [stdLogs, addRuntime, addObservable, addEnergy, read_put]

theorem keys_std (truth : Option ℝ) (w : World S ι) :
    (stdLogs truth w).map Prod.fst = ["energy/energy", "energy/local_energy_variance"] ++
      (if truth.isSome then ["energy/relative_error"] else []) ++
      ["observables/sigma_z", "observables/abs_sigma_z", "times/sampling", "times/local_energy",
        "times/gradients", "times/total"] := by
  cases truth <;> simp [stdLogs, addRuntime, addObservable, addEnergy, Logs.put]

/-! ### The loop -/

/-- The world seen by the callbacks of step `i + t` of a loop that starts at step `i` with world `w`. -/
noncomputable def worldAt (draw : S → ℕ → List (Config ι × ℂ)) (clock : ℕ → Fin 4 → ℝ) (w : World S ι)
    (i t : ℕ) : World S ι :=
  { w with
    gen := (nexts draw (t + 1) w.gen).1
    start := clock (i + t) 0, samplingEnd := clock (i + t) 1, localEnergyEnd := clock (i + t) 2,
    now := clock (i + t) 3 }

theorem evaluateLoop_ok (draw drawVal : S → ℕ → List (Config ι × ℂ)) (clock : ℕ → Fin 4 → ℝ)
    (cbs : List (Callback ι)) (L : World S ι → Logs)
    (hcbs : ∀ i w, runCallbacks drawVal i cbs w [] = (w, L w)) (bar : Option (List String))
    (hbar : ∀ ks, bar = some ks → ∀ k ∈ ks, ∀ w, (L w).read k ≠ none) :
    ∀ (n i : ℕ) (w : World S ι) (ls : List Logs),
    (∀ l ∈ ls, ∃ w, l = L w) →
    evaluateLoop draw drawVal clock cbs bar n i w ls
      = .ok (ls ++ (List.range n).map fun t => L (worldAt draw clock w i t)) := by
  intro n
  induction n with
  | zero => intro i w ls _; simp [evaluateLoop]
  | succ n ih =>
    intro i w ls hls
    have hls' : ∀ l ∈ ls ++ [L (worldAt draw clock w i 0)], ∃ w, l = L w := by
      intro l hl
      rcases List.mem_append.mp hl with h | h
      · exact hls l h
      · exact ⟨_, List.mem_singleton.mp h⟩
    have hstep : ∀ t, worldAt draw clock (worldAt draw clock w i 0) (i + 1) t
        = worldAt draw clock w i (t + 1) := by
      intro t
      unfold worldAt
      have : i + 1 + t = i + (t + 1) := by omega
      rw [this]
      rfl
    have hrec := ih (i + 1) (worldAt draw clock w i 0) (ls ++ [L (worldAt draw clock w i 0)]) hls'
    have hgoal : (ls ++ [L (worldAt draw clock w i 0)]) ++ ((List.range n).map fun t =>
        L (worldAt draw clock (worldAt draw clock w i 0) (i + 1) t))
        = ls ++ (List.range (n + 1)).map fun t => L (worldAt draw clock w i t) := by
      rw [List.range_succ_eq_map, List.map_cons, List.map_map, List.append_assoc]
      simp only [hstep]
      rfl
    rw [hgoal] at hrec
    have hw : ({ w with
        gen := (nextMiniBatch draw w.gen).1
        start := clock i 0, samplingEnd := clock i 1, localEnergyEnd := clock i 2,
        now := clock i 3 } : World S ι) = worldAt draw clock w i 0 := rfl
    unfold evaluateLoop
    dsimp only
    rw [hw, hcbs]
    cases bar with
    | none => exact hrec
    | some ks =>
      dsimp only
      have hm : meanLogs (ls ++ [L (worldAt draw clock w i 0)]) (some ks) = .ok
          (ks.map fun k => (k, logMean (ls ++ [L (worldAt draw clock w i 0)]) k)) := by
        unfold meanLogs
        apply mapM_meanKey_ok
        intro k hk l hl
        obtain ⟨w', rfl⟩ := hls' l hl
        exact hbar ks rfl k hk w'
      rw [hm]
      exact hrec

/-- What `evaluate` returns for callbacks that log the keys `keys` whatever the world. -/
theorem evaluate_ok (draw drawVal : S → ℕ → List (Config ι × ℂ)) (clock : ℕ → Fin 4 → ℝ) (steps : ℕ)
    (hsteps : 0 < steps) (cbs : List (Callback ι)) (L : World S ι → Logs) (keys : List String)
    (hkeys : ∀ w, (L w).map Prod.fst = keys)
    (hcbs : ∀ i w, runCallbacks drawVal i cbs w [] = (w, L w)) (bar : Option (List String))
    (hbar : ∀ ks, bar = some ks → ∀ k ∈ ks, k ∈ keys) (w : World S ι) :
    ∃ R, evaluate draw drawVal clock steps cbs bar w = .ok R ∧ ∀ k, R.read k =
      if k ∈ keys then some (((List.range steps).map fun t =>
        ((L (worldAt draw clock w 0 t)).read k).getD 0).sum / steps) else none := by
  have hne : ∀ k ∈ keys, ∀ w, (L w).read k ≠ none := fun k hk w =>
    (read_ne_none _ _).mpr (by rw [hkeys]; exact hk)
  have hloop := evaluateLoop_ok draw drawVal clock cbs L hcbs bar
    (fun ks hks k hk w => hne k (hbar ks hks k hk) w) steps 0 w [] (by simp)
  rw [List.nil_append] at hloop
  set ls := (List.range steps).map fun t => L (worldAt draw clock w 0 t) with hls
  refine ⟨keys.map fun k => (k, logMean ls k), ?_, ?_⟩
  · unfold evaluate
    rw [hloop]
    dsimp only
    have hall : ∀ k ∈ keys, ∀ l ∈ ls, l.read k ≠ none := by
      intro k hk l hl
      obtain ⟨t, -, rfl⟩ := List.mem_map.mp hl
      exact hne k hk _
    cases hl : ls with
    | nil =>
      have := congrArg List.length hl
      rw [hls, List.length_map, List.length_range] at this
      simp at this; omega
    | cons l rest =>
      have h1 : l.map Prod.fst = keys := by
        have : l ∈ ls := by rw [hl]; exact List.mem_cons_self
        obtain ⟨t, -, rfl⟩ := List.mem_map.mp this
        exact hkeys _
      show (l.map Prod.fst).mapM (meanKey (l :: rest)) = _
      rw [h1]
      rw [hl] at hall
      exact mapM_meanKey_ok _ _ hall
  · intro k
    rw [read_map]
    unfold logMean
    simp [hls, List.map_map, Function.comp_def]

/-- The batch of the training generator at step `t`. -/
theorem batch_at (size : S → ℕ) (draw : S → ℕ → List (Config ι × ℂ)) (clock : ℕ → Fin 4 → ℝ) (st : Generator S ι)
    (w : World S ι) (s : S) (mini : Option ℕ) (h0 : setSampler size st s mini = some w.gen) (i t : ℕ) :
    (worldAt draw clock w i t).gen.x = draw s (st.drawn + t / (size s / w.gen.miniBatchSize)) := by
  obtain ⟨e1, e2, e3, e4, -, e6, -, e8, -⟩ := setBatchSize_spec _ _ _ _ h0
  have hinv : MBInv draw s (size s) w.gen.miniBatchSize st.drawn 0 w.gen :=
    ⟨e1, e2, rfl, Or.inl ⟨rfl, e8, e6⟩⟩
  have h := (nexts_inv draw s (size s) w.gen.miniBatchSize st.drawn e3 e4 (t + 1) 0 w.gen hinv).1
  rcases h.pos with h | h
  · omega
  · have := h.2.2.2
    simpa [worldAt] using this

/-! ### C81 -/

/-- **C81**, all cases: with the default callbacks, `evaluate` returns for the energy, the variance, the
relative error and the magnetisations the mean over the steps of the values of batch `t / f`, where
`f` is the number of mini batches in a batch. -/
theorem C81_values (size : S → ℕ) (draw drawVal : S → ℕ → List (Config ι × ℂ)) (clock : ℕ → Fin 4 → ℝ)
    (steps : ℕ) (hsteps : 0 < steps) (truth : Option ℝ) (inBatch : Bool) (st : Generator S ι)
    (w : World S ι) (s : S) (mini : Option ℕ) (h0 : setSampler size st s mini = some w.gen) :
    let f := size s / w.gen.miniBatchSize
    let avg : (List (Config ι × ℂ) → ℝ) → ℝ := fun q =>
      ((List.range steps).map fun t => q (draw s (st.drawn + t / f))).sum / steps
    ∃ R, evaluate draw drawVal clock steps (defaultCallbacks truth inBatch false 1) none w = .ok R ∧
      R.read "energy/energy" = some (avg fun x => (batchEnergy x).re) ∧
      R.read "energy/local_energy_variance" = some (avg batchVariance) ∧
      (∀ E, truth = some E → E ≠ 0 →
        R.read "energy/relative_error" = some (avg fun x => (E - (batchEnergy x).re) / E)) ∧
      (truth = none → R.read "energy/relative_error" = none) ∧
      R.read "observables/sigma_z" = some (avg (batchObservable sigmaZ)) ∧
      R.read "observables/abs_sigma_z" = some (avg (batchObservable absSigmaZ)) := by
  intro f avg
  obtain ⟨R, hR, hread⟩ := evaluate_ok draw drawVal clock steps hsteps (defaultCallbacks truth inBatch false 1)
    (stdLogs truth) _ (keys_std truth) (fun i w => runCallbacks_default drawVal truth inBatch 1 i w) none
    (fun ks h => absurd h nofun) w
  refine ⟨R, hR, ?_, ?_, ?_, ?_, ?_, ?_⟩
  · rw [hread, if_pos (by simp)]
    simp only [read_std_energy, Option.getD_some, batch_at size draw clock st w s mini h0]
    rfl
  · rw [hread, if_pos (by simp)]
    simp only [read_std_variance, Option.getD_some, batch_at size draw clock st w s mini h0]
    rfl
  · rintro E rfl _
    rw [hread, if_pos (by simp)]
    simp only [read_std_error, Option.map_some, Option.getD_some, batch_at size draw clock st w s mini h0]
    rfl
  · rintro rfl
    rw [hread, if_neg (by simp)]
  · rw [hread, if_pos (by simp)]
    simp only [read_std_sigma, Option.getD_some, batch_at size draw clock st w s mini h0]
    rfl
  · rw [hread, if_pos (by simp)]
    simp only [read_std_abs, Option.getD_some, batch_at size draw clock st w s mini h0]
    rfl

theorem sum_flatten_div {β : Type} (g : β → ℝ) (bs : List (List β)) (B : ℕ) (hB : 0 < B)
    (hlen : ∀ b ∈ bs, b.length = B) :
    (bs.flatten.map g).sum / bs.flatten.length
      = (bs.map fun b => (b.map g).sum / (b.length : ℝ)).sum / bs.length := by
  have hB' : (B : ℝ) ≠ 0 := by exact_mod_cast hB.ne'
  have h1 : bs.flatten.length = bs.length * B := by
    rw [List.length_flatten, List.map_congr_left hlen]; simp
  have h2 : (bs.flatten.map g).sum = (bs.map fun b => (b.map g).sum).sum := by
    rw [List.map_flatten, List.sum_flatten, List.map_map]; rfl
  have h3 : (bs.map fun b => (b.map g).sum / (b.length : ℝ)).sum = (bs.map fun b => (b.map g).sum).sum / B := by
    rw [List.map_congr_left (g := fun b => (b.map g).sum / (B : ℝ)) fun b hb => by rw [hlen b hb]]
    simp only [div_eq_mul_inv]
    exact List.sum_map_mul_right _ _ _
  rw [h1, h2, h3]
  push_cast
  rw [div_div, mul_comm (B : ℝ)]

theorem batchEnergy_re (x : List (Config ι × ℂ)) :
    (batchEnergy x).re = (x.map fun p => p.2.re).sum / x.length := by
  unfold batchEnergy mean
  rw [List.length_map, Complex.div_natCast_re]
  congr 1
  induction x with
  | nil => simp
  | cons p rest ih => simp [Complex.add_re, ih]

/-- **C81**, what holds: if the generator hands out whole batches (the mini batch is larger than half of
the batch; in the experiment scripts it is the batch), the energy and the magnetisations are the means
over all samples of `steps` successive batches. -/
theorem C81_partial (size : S → ℕ) (draw drawVal : S → ℕ → List (Config ι × ℂ)) (clock : ℕ → Fin 4 → ℝ)
    (steps : ℕ) (hsteps : 0 < steps) (truth : Option ℝ) (inBatch : Bool) (st : Generator S ι)
    (w : World S ι) (s : S) (mini : Option ℕ) (h0 : setSampler size st s mini = some w.gen)
    (hwhole : ∀ m, mini = some m → size s < 2 * m) (hlen : ∀ k, (draw s k).length = size s) :
    let all := ((List.range steps).map fun t => draw s (st.drawn + t)).flatten
    all.length = steps * size s ∧
    ∃ R, evaluate draw drawVal clock steps (defaultCallbacks truth inBatch false 1) none w = .ok R ∧
      R.read "energy/energy" = some (batchEnergy all).re ∧
      R.read "observables/sigma_z" = some (batchObservable sigmaZ all) ∧
      R.read "observables/abs_sigma_z" = some (batchObservable absSigmaZ all) := by
  intro all
  obtain ⟨-, -, e3, e4, e5, -, -, -, -⟩ := setBatchSize_spec _ _ _ _ h0
  have hpos : 0 < size s := lt_of_lt_of_le e3 e4
  have hf : size s / w.gen.miniBatchSize = 1 := by
    apply Nat.div_eq_of_lt_le
    · omega
    · cases mini with
      | none => rw [e5]; simp; omega
      | some m => have := hwhole m rfl; rw [e5]; simp; omega
  obtain ⟨R, hR, h1, -, -, -, h4, h5⟩ := C81_values size draw drawVal clock steps hsteps truth inBatch st w s mini h0
  rw [hf] at h1 h4 h5
  simp only [Nat.div_one] at h1 h4 h5
  have hbs : ∀ b ∈ (List.range steps).map fun t => draw s (st.drawn + t), b.length = size s := by
    intro b hb
    obtain ⟨t, -, rfl⟩ := List.mem_map.mp hb
    exact hlen _
  refine ⟨?_, R, hR, ?_, ?_, ?_⟩
  · show List.length (List.flatten _) = _
    rw [List.length_flatten, List.map_congr_left hbs]; simp [Function.comp_def]
  · rw [h1, batchEnergy_re, sum_flatten_div _ _ (size s) hpos hbs, List.map_map, List.length_map, List.length_range]
    simp only [Function.comp_def, batchEnergy_re]
  · rw [h4]
    unfold batchObservable
    rw [sum_flatten_div (fun p => sigmaZ p.1) _ (size s) hpos hbs, List.map_map, List.length_map, List.length_range]
    rfl
  · rw [h5]
    unfold batchObservable
    rw [sum_flatten_div (fun p => absSigmaZ p.1) _ (size s) hpos hbs, List.map_map, List.length_map, List.length_range]
    rfl

/-- **C81 is false of the code** if the generator hands out several mini batches per batch: the batch is
counted again for each of them. As long as `steps` is at most their number `f`, the result is that of
one single batch, however many steps are asked for. -/
theorem C81_violated_repeats (size : S → ℕ) (draw drawVal : S → ℕ → List (Config ι × ℂ))
    (clock : ℕ → Fin 4 → ℝ) (steps : ℕ) (hsteps : 0 < steps) (truth : Option ℝ) (inBatch : Bool)
    (st : Generator S ι) (w : World S ι) (s : S) (m : ℕ) (h0 : setSampler size st s (some m) = some w.gen)
    (hm : steps * m ≤ size s) :
    ∃ R, evaluate draw drawVal clock steps (defaultCallbacks truth inBatch false 1) none w = .ok R ∧
      R.read "energy/energy" = some (batchEnergy (draw s st.drawn)).re := by
  obtain ⟨-, -, e3, e4, e5, -, -, -, -⟩ := setBatchSize_spec _ _ _ _ h0
  have hmm : w.gen.miniBatchSize ≤ m := by rw [e5]; exact Nat.min_le_left _ _
  have hf : steps ≤ size s / w.gen.miniBatchSize :=
    (Nat.le_div_iff_mul_le e3).mpr (le_trans (Nat.mul_le_mul_left _ hmm) hm)
  obtain ⟨R, hR, h1, -⟩ := C81_values size draw drawVal clock steps hsteps truth inBatch st w s (some m) h0
  refine ⟨R, hR, ?_⟩
  rw [h1]
  congr 1
  dsimp only
  rw [List.map_congr_left (g := fun _ => (batchEnergy (draw s st.drawn)).re)]
  · have : (steps : ℝ) ≠ 0 := by exact_mod_cast hsteps.ne'
    simp only [List.map_const', List.length_range, List.sum_replicate, nsmul_eq_mul]
    field_simp
  · intro t ht
    rw [Nat.div_eq_of_lt (lt_of_lt_of_le (List.mem_range.mp ht) hf), Nat.add_zero]

theorem sum_sq_sub (l : List ℝ) (c : ℝ) :
    (l.map fun x => (x - c) ^ 2).sum = (l.map fun x => x ^ 2).sum - 2 * c * l.sum + l.length * c ^ 2 := by
  induction l with
  | nil => simp
  | cons x rest ih =>
    simp only [List.map_cons, List.sum_cons, List.length_cons, ih]
    push_cast
    ring

theorem variance_eq (l : List ℝ) :
    variance l = (l.map fun x => x ^ 2).sum / l.length - (l.sum / l.length) ^ 2 := by
  unfold variance
  rw [sum_sq_sub]
  by_cases h : l.length = 0
  · rw [h]; simp
  · have : (l.length : ℝ) ≠ 0 := by exact_mod_cast h
    field_simp
    ring

/-- **C81 is false of the code** for the variance: the variance of all samples is the returned value (the
mean of the variances of the batches) plus the variance of the energies of the batches. -/
theorem C81_violated_variance (size : S → ℕ) (draw drawVal : S → ℕ → List (Config ι × ℂ))
    (clock : ℕ → Fin 4 → ℝ)
    (steps : ℕ) (hsteps : 0 < steps) (truth : Option ℝ) (inBatch : Bool) (st : Generator S ι)
    (w : World S ι) (s : S) (mini : Option ℕ) (h0 : setSampler size st s mini = some w.gen)
    (hwhole : ∀ m, mini = some m → size s < 2 * m) (hlen : ∀ k, (draw s k).length = size s) :
    let batches := (List.range steps).map fun t => draw s (st.drawn + t)
    ∃ R v, evaluate draw drawVal clock steps (defaultCallbacks truth inBatch false 1) none w = .ok R ∧
      R.read "energy/local_energy_variance" = some v ∧
      batchVariance batches.flatten = v + variance (batches.map fun x => (batchEnergy x).re) := by
  intro batches
  obtain ⟨-, -, e3, e4, e5, -, -, -, -⟩ := setBatchSize_spec _ _ _ _ h0
  have hpos : 0 < size s := lt_of_lt_of_le e3 e4
  have hf : size s / w.gen.miniBatchSize = 1 := by
    apply Nat.div_eq_of_lt_le
    · omega
    · cases mini with
      | none => rw [e5]; simp; omega
      | some m => have := hwhole m rfl; rw [e5]; simp; omega
  obtain ⟨R, hR, -, h2, -⟩ := C81_values size draw drawVal clock steps hsteps truth inBatch st w s mini h0
  rw [hf] at h2
  simp only [Nat.div_one] at h2
  refine ⟨R, _, hR, h2, ?_⟩
  have hbs : ∀ b ∈ batches, b.length = size s := by
    intro b hb
    obtain ⟨t, -, rfl⟩ := List.mem_map.mp hb
    exact hlen _
  have hv : ∀ x : List (Config ι × ℂ), batchVariance x
      = (x.map fun p => p.2.re ^ 2).sum / x.length - ((x.map fun p => p.2.re).sum / x.length) ^ 2 := by
    intro x
    unfold batchVariance
    rw [variance_eq]
    simp [List.map_map, Function.comp_def]
  have hmean : ((List.range steps).map fun t => batchVariance (draw s (st.drawn + t)))
      = batches.map batchVariance := by rw [List.map_map]; rfl
  have hn : batches.length = steps := by simp [batches]
  rw [hmean]
  generalize batches = bs at hbs hn ⊢
  rw [hv, sum_flatten_div (fun p => p.2.re ^ 2) bs (size s) hpos hbs,
    sum_flatten_div (fun p => p.2.re) bs (size s) hpos hbs, variance_eq, List.map_map, List.length_map, hn]
  have hsum : (bs.map batchVariance).sum
      = (bs.map fun b => (b.map fun p => p.2.re ^ 2).sum / (b.length : ℝ)).sum
        - (bs.map fun x => (batchEnergy x).re ^ 2).sum := by
    clear hbs hn
    induction bs with
    | nil => simp
    | cons b rest ih =>
      simp only [List.map_cons, List.sum_cons, ih, hv, batchEnergy_re]
      ring
  rw [hsum]
  simp only [Function.comp_def, batchEnergy_re]
  ring

/-- Without a step `evaluate` raises. -/
theorem C81_no_steps (draw drawVal : S → ℕ → List (Config ι × ℂ)) (clock : ℕ → Fin 4 → ℝ)
    (cbs : List (Callback ι)) (bar : Option (List String)) (w : World S ι) :
    evaluate draw drawVal clock 0 cbs bar w = .error .indexError := by
  simp [evaluate, evaluateLoop, meanLogs]

/-! ### C82 -/

theorem take_default (truth : Option ℝ) :
    (defaultCallbacks (ι := ι) truth false false 1).take 4 = defaultCallbacks truth false false 1 := rfl

theorem evaluateLoop_keyError (draw drawVal : S → ℕ → List (Config ι × ℂ)) (clock : ℕ → Fin 4 → ℝ)
    (n : ℕ) (w : World S ι) :
    evaluateLoop draw drawVal clock (defaultCallbacks none false false 1)
      (some ["energy/energy", "energy/relative_error", "energy/local_energy_variance"]) (n + 1) 0 w []
      = .error (.keyError "energy/relative_error") := by
  unfold evaluateLoop
  dsimp only
  rw [runCallbacks_default]
  dsimp only
  set l := stdLogs none { w with
      gen := (nextMiniBatch draw w.gen).1
      start := clock 0 0, samplingEnd := clock 0 1, localEnergyEnd := clock 0 2, now := clock 0 3 } with hl
  have h1 : meanKey ([] ++ [l]) "energy/energy" = .ok ("energy/energy", logMean [l] "energy/energy") := by
    apply meanKey_ok
    intro l' hl'
    rw [List.nil_append, List.mem_singleton] at hl'
    rw [hl', hl, read_std_energy]
    simp
  have h2 : meanKey ([] ++ [l]) "energy/relative_error" = .error (.keyError "energy/relative_error") := by
    unfold meanKey
    simp [hl, read_std_error]
  unfold meanLogs
  dsimp only
  rw [List.mapM_cons, h1, List.mapM_cons, h2]
  rfl

/-- **C82**, what holds: if the ground state energy is known, both scripts end with the mean energy and
variance, provided that the mini batch size is between 16 and `2 ^ 15 * 16` (for `train`) or at most
the number of samples (for `run`). -/
theorem C82_known_partial (draw drawVal : S → ℕ → List (Config ι × ℂ)) (clock : ℕ → Fin 4 → ℝ)
    (E : ℝ) (w : World S ι) (mini : ℕ) :
    (16 ≤ mini → mini < 2 ^ 15 * 16 → ∃ R, trainEvaluation draw drawVal clock (some E) mini w = .ok R ∧
      R.read "energy/energy" ≠ none ∧ R.read "energy/local_energy_variance" ≠ none ∧
      R.read "energy/relative_error" ≠ none) ∧
    (∀ n, 0 < mini → mini ≤ n → ∃ R, runEvaluation draw drawVal clock (some E) n mini w = .ok R ∧
      R.read "energy/energy" ≠ none ∧ R.read "energy/local_energy_variance" ≠ none ∧
      R.read "energy/relative_error" ≠ none) := by
  have key : ∀ steps, 0 < steps → ∃ R, evaluate draw drawVal clock steps (defaultCallbacks (some E) false false 1)
      (some ["energy/energy", "energy/relative_error", "energy/local_energy_variance"]) w = .ok R ∧
      R.read "energy/energy" ≠ none ∧ R.read "energy/local_energy_variance" ≠ none ∧
      R.read "energy/relative_error" ≠ none := by
    intro steps hs
    obtain ⟨R, hR, hread⟩ := evaluate_ok draw drawVal clock steps hs (defaultCallbacks (some E) false false 1)
      (stdLogs (some E)) _ (keys_std (some E)) (fun i w => runCallbacks_default drawVal (some E) false 1 i w)
      (some ["energy/energy", "energy/relative_error", "energy/local_energy_variance"])
      (by
        intro ks h k hk
        rw [← Option.some.inj h] at hk
        simp at hk ⊢
        rcases hk with h | h | h <;> simp [h]) w
    refine ⟨R, hR, ?_, ?_, ?_⟩ <;> rw [hread, if_pos (by simp)] <;> simp
  constructor
  · intro h1 h2
    unfold trainEvaluation
    dsimp only
    rw [if_neg (by omega), take_default]
    refine key _ (Nat.div_pos (by omega) (by omega))
  · intro n h1 h2
    unfold runEvaluation
    rw [if_neg (by omega), take_default]
    exact key _ (Nat.div_pos h2 h1)

/-- **C82 is false of the code** if the ground state energy is not known (the default, and the case for
most lattices in the scripts): the progress bar asks for the relative error and both scripts raise a
KeyError after the first step, at the very end of the training. -/
theorem C82_violated_unknown (draw drawVal : S → ℕ → List (Config ι × ℂ)) (clock : ℕ → Fin 4 → ℝ)
    (w : World S ι) (mini : ℕ) :
    (16 ≤ mini → mini < 2 ^ 15 * 16 → trainEvaluation draw drawVal clock none mini w
      = .error (.keyError "energy/relative_error")) ∧
    (∀ n, 0 < mini → mini ≤ n → runEvaluation draw drawVal clock none n mini w
      = .error (.keyError "energy/relative_error")) := by
  have key : ∀ steps, 0 < steps → evaluate draw drawVal clock steps (defaultCallbacks none false false 1)
      (some ["energy/energy", "energy/relative_error", "energy/local_energy_variance"]) w
      = .error (.keyError "energy/relative_error") := by
    intro steps hs
    obtain ⟨n, rfl⟩ : ∃ n, steps = n + 1 := ⟨steps - 1, by omega⟩
    unfold evaluate
    rw [evaluateLoop_keyError]
  constructor
  · intro h1 h2
    unfold trainEvaluation
    dsimp only
    rw [if_neg (by omega), take_default]
    exact key _ (Nat.div_pos (by omega) (by omega))
  · intro n h1 h2
    unfold runEvaluation
    rw [if_neg (by omega), take_default]
    exact key _ (Nat.div_pos h2 h1)

/-- **C82 is false of the code** for small mini batches in `train` (division by zero) and for mini batches
larger than the number of samples in `run` (no step), whether or not the energy is known. -/
theorem C82_violated_sizes (draw drawVal : S → ℕ → List (Config ι × ℂ)) (clock : ℕ → Fin 4 → ℝ)
    (truth : Option ℝ) (w : World S ι) (mini : ℕ) :
    (mini < 16 → trainEvaluation draw drawVal clock truth mini w = .error .zeroDivision) ∧
    (∀ n, n < mini → runEvaluation draw drawVal clock truth n mini w = .error .indexError) := by
  constructor
  · intro h
    unfold trainEvaluation
    dsimp only
    rw [if_pos (by omega)]
  · intro n h
    unfold runEvaluation
    rw [if_neg (by omega), Nat.div_eq_of_lt h, C81_no_steps]

/-- The hypotheses are met: a batch of four samples, handed out whole. -/
example : ∃ st0 : Generator Unit (Fin 2), setSampler (fun _ => 4)
    { sampler := (), batchSize := 0, miniBatchSize := 0, idx := 0, updateParamsFrequency := 0, x := [], drawn := 0 }
    () none = some st0 := ⟨_, rfl⟩

/-- And for `C81_violated_repeats`: mini batches of two, two steps. -/
example : ∃ st0 : Generator Unit (Fin 2), setSampler (fun _ => 4)
    { sampler := (), batchSize := 0, miniBatchSize := 0, idx := 0, updateParamsFrequency := 0, x := [], drawn := 0 }
    () (some 2) = some st0 ∧ 2 * 2 ≤ 4 := ⟨_, rfl, le_refl _⟩

end Verif.Callbacks
