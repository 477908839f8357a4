import Verif.Callbacks.Props

/-!
C83: validation statistics belong to the weights at the end of the epoch.
C84: `BadEigenStateStopping`.
-/
namespace Verif.Callbacks

open Verif.Training Verif.Energy Verif.Operators

variable {ι : Type} [Fintype ι] {S : Type}

/-- What the default callbacks log at the end of an epoch. -/
noncomputable def epochLogs (truth : Option ℝ) (inBatch : Bool) (p e : ℕ) (w : World S ι) : Logs :=
  let l := if inBatch then [] else addEnergy truth w.gen "" []
  let l := if e % p = 0 then addEnergy truth w.val "val_" l else l
  let l := if inBatch then l else addObservable sigmaZ "sigma_z" w.gen "" l
  let l := if e % p = 0 then addObservable sigmaZ "sigma_z" w.val "val_" l else l
  let l := if inBatch then l else addObservable absSigmaZ "abs_sigma_z" w.gen "" l
  let l := if e % p = 0 then addObservable absSigmaZ "abs_sigma_z" w.val "val_" l else l
  if inBatch then l else addRuntime w l

theorem runEpochEnd_default (drawVal : S → ℕ → List (Config ι × ℂ)) (truth : Option ℝ) (inBatch : Bool)
    (p e : ℕ) (w : World S ι) :
    epochEnds.runEpochEnd drawVal e (defaultCallbacks truth inBatch true p) w [] =
      (let w' := if e % p = 0 then { w with val := (nextMiniBatch drawVal w.val).1 } else w
       (w', epochLogs truth inBatch p e w')) := by
  by_cases h : e % p = 0
  · simp [epochEnds.runEpochEnd, defaultCallbacks, onEpochEnd, epochLogs, h]
  · simp [epochEnds.runEpochEnd, defaultCallbacks, onEpochEnd, epochLogs, h]

theorem read_val_energy (truth : Option ℝ) (inBatch : Bool) (p e : ℕ) (w : World S ι) :
    (epochLogs truth inBatch p e w).read "val_energy/energy"
      = if e % p = 0 then some (batchEnergy w.val.x).re else none := by
  unfold epochLogs
  by_cases h : e % p = 0 <;> cases inBatch <;> cases truth <;>
    simp [h, addRuntime, addObservable, addEnergy, read_put, Logs.read]

theorem read_val_variance (truth : Option ℝ) (inBatch : Bool) (p e : ℕ) (w : World S ι) :
    (epochLogs truth inBatch p e w).read "val_energy/local_energy_variance"
      = if e % p = 0 then some (batchVariance w.val.x) else none := by
  unfold epochLogs
  by_cases h : e % p = 0 <;> cases inBatch <;> cases truth <;>
    simp [h, addRuntime, addObservable, addEnergy, read_put, Logs.read]

theorem read_val_sigma (truth : Option ℝ) (inBatch : Bool) (p e : ℕ) (w : World S ι) :
    (epochLogs truth inBatch p e w).read "val_observables/sigma_z"
      = if e % p = 0 then some (batchObservable sigmaZ w.val.x) else none := by
  unfold epochLogs
  by_cases h : e % p = 0 <;> cases inBatch <;> cases truth <;>
    simp [h, addRuntime, addObservable, addEnergy, read_put, Logs.read]

theorem read_val_abs (truth : Option ℝ) (inBatch : Bool) (p e : ℕ) (w : World S ι) :
    (epochLogs truth inBatch p e w).read "val_observables/abs_sigma_z"
      = if e % p = 0 then some (batchObservable absSigmaZ w.val.x) else none := by
  unfold epochLogs
  by_cases h : e % p = 0 <;> cases inBatch <;> cases truth <;>
    simp [h, addRuntime, addObservable, addEnergy, read_put, Logs.read]

/-- A validation generator that draws a new batch whenever it is asked. -/
structure Whole (s : S) (d : ℕ) (g : Generator S ι) : Prop where
  sampler : g.sampler = s
  drawn : g.drawn = d
  full : g.idx + g.miniBatchSize > g.batchSize
  big : 2 * g.miniBatchSize > g.batchSize

theorem whole_next (drawVal : S → ℕ → List (Config ι × ℂ)) (s : S) (d : ℕ) (g : Generator S ι)
    (h : Whole s d g) :
    Whole s (d + 1) (nextMiniBatch drawVal g).1 ∧ (nextMiniBatch drawVal g).1.x = drawVal s d := by
  obtain ⟨h1, h2, h3, h4⟩ := h
  unfold nextMiniBatch
  rw [if_pos h3]
  refine ⟨⟨h1, by simp [h2], ?_, h4⟩, by simp [h1, h2]⟩
  simp only
  omega

/-- The number of epochs among `e, ..., e + j - 1` with validation. -/
def validations (p e j : ℕ) : ℕ := ((List.range j).filter fun i => (e + i) % p = 0).length

theorem validations_succ (p e j : ℕ) :
    validations p e (j + 1) = (if e % p = 0 then 1 else 0) + validations p (e + 1) j := by
  unfold validations
  rw [List.range_succ_eq_map, List.filter_cons, List.filter_map, Nat.add_zero]
  have hc : ((fun i => decide ((e + i) % p = 0)) ∘ Nat.succ) = fun i => decide ((e + 1 + i) % p = 0) := by
    funext i
    have : e + (i + 1) = e + 1 + i := by omega
    simp [this]
  by_cases h : e % p = 0
  · simp only [h, decide_true, if_true, List.length_cons, List.length_map, hc]; omega
  · simp only [h, decide_false, if_false, Bool.false_eq_true, List.length_map, hc]; omega

theorem epochEnds_get (drawVal : ℕ → S → ℕ → List (Config ι × ℂ)) (train : ℕ → Generator S ι)
    (truth : Option ℝ) (inBatch : Bool) (p : ℕ) (s : S) :
    ∀ (n e d : ℕ) (w : World S ι), Whole s d w.val → ∀ j < n, ∃ w' : World S ι,
      (epochEnds drawVal train (defaultCallbacks truth inBatch true p) n e w)[j]?
        = some (epochLogs truth inBatch p (e + j) w') ∧ w'.gen = train (e + j) ∧
      ((e + j) % p = 0 → w'.val.x = drawVal (e + j) s (d + validations p e j)) := by
  intro n
  induction n with
  | zero => intro e d w _ j hj; omega
  | succ n ih =>
    intro e d w hw j hj
    unfold epochEnds
    dsimp only
    rw [runEpochEnd_default]
    dsimp only
    obtain ⟨hw1, hw2⟩ := whole_next (drawVal e) s d w.val hw
    cases j with
    | zero =>
      refine ⟨_, rfl, ?_, ?_⟩
      · by_cases h : e % p = 0
        · rw [if_pos h]; rfl
        · rw [if_neg h]; rfl
      · intro h
        rw [Nat.add_zero] at h
        rw [if_pos h]
        exact hw2
    | succ j =>
      rw [List.getElem?_cons_succ]
      have hidx : e + (j + 1) = e + 1 + j := by omega
      rw [hidx, validations_succ]
      by_cases h : e % p = 0
      · rw [if_pos h, if_pos h]
        have := ih (e + 1) (d + 1) { w with gen := train e, val := (nextMiniBatch (drawVal e) w.val).1 } hw1 j (by omega)
        obtain ⟨w', a, b, c⟩ := this
        refine ⟨w', a, b, fun h' => ?_⟩
        rw [c h']
        congr 1
        omega
      · rw [if_neg h, if_neg h]
        have := ih (e + 1) d { w with gen := train e } hw j (by omega)
        obtain ⟨w', a, b, c⟩ := this
        refine ⟨w', a, b, fun h' => ?_⟩
        rw [c h']
        congr 1
        omega

/-- **C83**, what holds: if the validation generator hands out whole batches (in the training script it
does), every validation value logged at the end of an epoch is that of a new batch, drawn with the
weights at the end of this epoch, and it is the same batch for all values; validation values are logged
in the epochs divisible by the period and in no others. Any first epoch (restarts) and number of
epochs. -/
theorem C83_partial (size : S → ℕ) (drawVal : ℕ → S → ℕ → List (Config ι × ℂ)) (train : ℕ → Generator S ι)
    (truth : Option ℝ) (inBatch : Bool) (p e n : ℕ) (st : Generator S ι) (w : World S ι) (s : S)
    (mini : Option ℕ) (h0 : setSampler size st s mini = some w.val)
    (hwhole : ∀ m, mini = some m → size s < 2 * m) (j : ℕ) (hj : j < n) :
    ∃ l, (epochEnds drawVal train (defaultCallbacks truth inBatch true p) n e w)[j]? = some l ∧
      (p ∣ e + j → ∃ k, k = st.drawn + ((List.range j).filter fun i => p ∣ e + i).length ∧
        l.read "val_energy/energy" = some (batchEnergy (drawVal (e + j) s k)).re ∧
        l.read "val_energy/local_energy_variance" = some (batchVariance (drawVal (e + j) s k)) ∧
        l.read "val_observables/sigma_z" = some (batchObservable sigmaZ (drawVal (e + j) s k)) ∧
        l.read "val_observables/abs_sigma_z" = some (batchObservable absSigmaZ (drawVal (e + j) s k))) ∧
      (¬ p ∣ e + j → l.read "val_energy/energy" = none ∧ l.read "val_energy/local_energy_variance" = none ∧
        l.read "val_observables/sigma_z" = none ∧ l.read "val_observables/abs_sigma_z" = none) := by
  obtain ⟨e1, e2, e3, e4, e5, e6, -, e8, -⟩ := setBatchSize_spec _ _ _ _ h0
  have hw : Whole s st.drawn w.val := by
    refine ⟨e1, e8, by omega, ?_⟩
    cases mini with
    | none => rw [e2, e5]; simp; omega
    | some m => have := hwhole m rfl; rw [e2, e5]; simp; omega
  obtain ⟨w', ha, hb, hc⟩ := epochEnds_get drawVal train truth inBatch p s n e st.drawn w hw j hj
  refine ⟨_, ha, ?_, ?_⟩
  · intro hd
    have hm := Nat.mod_eq_zero_of_dvd hd
    refine ⟨_, rfl, ?_⟩
    have hv : validations p e j = ((List.range j).filter fun i => p ∣ e + i).length := by
      unfold validations
      congr 2
      funext i
      exact decide_eq_decide.mpr (Nat.dvd_iff_mod_eq_zero).symm
    rw [← hv, read_val_energy, read_val_variance, read_val_sigma, read_val_abs, if_pos hm, if_pos hm, if_pos hm,
      if_pos hm, hc hm]
    exact ⟨rfl, rfl, rfl, rfl⟩
  · intro hd
    have hm : ¬ (e + j) % p = 0 := fun h => hd (Nat.dvd_of_mod_eq_zero h)
    rw [read_val_energy, read_val_variance, read_val_sigma, read_val_abs, if_neg hm, if_neg hm, if_neg hm, if_neg hm]
    exact ⟨rfl, rfl, rfl, rfl⟩

/-- **C83 is false of the code** if the validation generator has mini batches of at most half of the
batch: the second epoch logs the validation values of the first epoch again, although the weights
have changed. -/
theorem C83_violated (size : S → ℕ) (drawVal : ℕ → S → ℕ → List (Config ι × ℂ)) (train : ℕ → Generator S ι)
    (truth : Option ℝ) (inBatch : Bool) (e : ℕ) (st : Generator S ι) (w : World S ι) (s : S)
    (m : ℕ) (hm : 2 * m ≤ size s) (h0 : setSampler size st s (some m) = some w.val) :
    ∃ l₁ l₂, epochEnds drawVal train (defaultCallbacks truth inBatch true 1) 2 e w = [l₁, l₂] ∧
      l₁.read "val_energy/energy" = some (batchEnergy (drawVal e s st.drawn)).re ∧
      l₂.read "val_energy/energy" = some (batchEnergy (drawVal e s st.drawn)).re := by
  obtain ⟨e1, e2, e3, e4, e5, e6, -, e8, -⟩ := setBatchSize_spec _ _ _ _ h0
  have hmm : w.val.miniBatchSize ≤ m := by rw [e5]; exact Nat.min_le_left _ _
  have hx1 : (nextMiniBatch (drawVal e) w.val).1.x = drawVal e s st.drawn := by
    unfold nextMiniBatch
    rw [if_pos (by omega)]
    simp [e1, e8]
  have hnext : (nextMiniBatch (drawVal e) w.val).1.idx = w.val.miniBatchSize ∧
      (nextMiniBatch (drawVal e) w.val).1.miniBatchSize = w.val.miniBatchSize ∧
      (nextMiniBatch (drawVal e) w.val).1.batchSize = w.val.batchSize := by
    have hgt : w.val.idx + w.val.miniBatchSize > w.val.batchSize := by omega
    unfold nextMiniBatch
    rw [if_pos hgt]
    simp
  have hx2 : (nextMiniBatch (drawVal (e + 1)) (nextMiniBatch (drawVal e) w.val).1).1.x = drawVal e s st.drawn := by
    rw [← hx1]
    generalize (nextMiniBatch (drawVal e) w.val).1 = g at hnext ⊢
    unfold nextMiniBatch
    rw [if_neg (by omega)]
  refine ⟨_, _, rfl, ?_, ?_⟩
  · rw [runEpochEnd_default]
    dsimp only
    rw [if_pos (Nat.mod_one e), read_val_energy, if_pos (Nat.mod_one e)]
    rw [show (World.val { w with gen := train e, val := (nextMiniBatch (drawVal e) w.val).1 })
      = (nextMiniBatch (drawVal e) w.val).1 from rfl, hx1]
  · rw [runEpochEnd_default, runEpochEnd_default]
    dsimp only
    rw [if_pos (Nat.mod_one e), if_pos (Nat.mod_one (e + 1)), read_val_energy, if_pos (Nat.mod_one (e + 1))]
    dsimp only
    rw [hx2]

/-- The hypotheses are met: validation batches of eight samples, whole (C83_partial) or in mini batches
of four (C83_violated). -/
example : (∃ st0 : Generator Unit (Fin 2), setSampler (fun _ => 8)
    { sampler := (), batchSize := 0, miniBatchSize := 0, idx := 0, updateParamsFrequency := 0, x := [], drawn := 0 }
    () none = some st0) ∧ (∃ st0 : Generator Unit (Fin 2), setSampler (fun _ => 8)
    { sampler := (), batchSize := 0, miniBatchSize := 0, idx := 0, updateParamsFrequency := 0, x := [], drawn := 0 }
    () (some 4) = some st0 ∧ 2 * 4 ≤ 8) := ⟨⟨_, rfl⟩, ⟨_, rfl, le_refl _⟩⟩

/-! ### C84 -/

/-- The energy and variance an epoch reports: those of the validation if there are any, otherwise those
of the training. -/
def Reports (l : Logs) (E v : ℝ) : Prop :=
  (l.read "val_energy/energy" = some E ∧ l.read "val_energy/local_energy_variance" = some v) ∨
  (l.read "val_energy/energy" = none ∧ l.read "energy/energy" = some E ∧
    l.read "energy/local_energy_variance" = some v)

/-- The state is a bad eigenstate: its energy is too far above the bound and its variance is small. -/
def Bad (bound varianceTol relativeError E v : ℝ) : Prop :=
  bound + relativeError * |bound| < E ∧ v < varianceTol

theorem stop_of_reports (bound varianceTol relativeError : ℝ) (minEpoch epoch : ℕ) (l : Logs) (E v : ℝ)
    (h : Reports l E v) :
    ∃ b, badEigenStateStop bound varianceTol relativeError minEpoch epoch l = some b ∧
      (b = true ↔ minEpoch ≤ epoch ∧ Bad bound varianceTol relativeError E v) := by
  have hfound : badEigenStateStop bound varianceTol relativeError minEpoch epoch l =
      if epoch < minEpoch then some false
      else some (decide ((if bound = 0 then E - bound > 0 else (E - bound) / |bound| > relativeError) ∧
        v < varianceTol)) := by
    unfold badEigenStateStop
    rcases h with ⟨h1, h2⟩ | ⟨h1, h2, h3⟩
    · rw [h1, h2]
    · rw [h1, h2, h3]
  rw [hfound]
  by_cases he : epoch < minEpoch
  · rw [if_pos he]
    exact ⟨false, rfl, by simp; omega⟩
  · rw [if_neg he]
    refine ⟨_, rfl, ?_⟩
    rw [decide_eq_true_iff]
    unfold Bad
    have hle : minEpoch ≤ epoch := by omega
    simp only [hle, true_and]
    refine and_congr_left fun _ => ?_
    by_cases hb : bound = 0
    · rw [if_pos hb, hb]; simp
    · rw [if_neg hb, gt_iff_lt, lt_div_iff₀ (abs_pos.mpr hb)]
      constructor <;> intro h <;> linarith

/-- **C84**: a training run whose epochs `e, e + 1, ...` report energies and variances stops after the
first epoch that is not before `min_epoch` and whose state is a bad eigenstate; if there is none it runs
to the end. -/
theorem C84_stops (bound varianceTol relativeError : ℝ) (minEpoch : ℕ) :
    ∀ (logs : List Logs) (e : ℕ) (E v : ℕ → ℝ) (_ : ∀ j (hj : j < logs.length), Reports logs[j] (E j) (v j)),
    ∃ n, epochsRun bound varianceTol relativeError minEpoch e logs = some n ∧ n ≤ logs.length ∧
      (∀ j, j + 1 < n → ¬ (minEpoch ≤ e + j ∧ Bad bound varianceTol relativeError (E j) (v j))) ∧
      (n < logs.length → 0 < n ∧ minEpoch ≤ e + (n - 1) ∧
        Bad bound varianceTol relativeError (E (n - 1)) (v (n - 1))) := by
  intro logs
  induction logs with
  | nil => intro e E v _; exact ⟨0, rfl, le_refl _, by intro j hj; omega, by intro h; simp at h⟩
  | cons l rest ih =>
    intro e E v h
    obtain ⟨b, hb, hiff⟩ := stop_of_reports bound varianceTol relativeError minEpoch e l (E 0) (v 0)
      (h 0 (by simp))
    unfold epochsRun
    rw [hb]
    cases b with
    | true =>
      refine ⟨1, rfl, by simp, by intro j hj; omega, fun _ => ⟨by omega, ?_⟩⟩
      simpa using hiff.mp rfl
    | false =>
      have hnot : ¬ (minEpoch ≤ e ∧ Bad bound varianceTol relativeError (E 0) (v 0)) := fun hh =>
        absurd (hiff.mpr hh) (by simp)
      obtain ⟨n, h1, h2, h3, h4⟩ := ih (e + 1) (fun j => E (j + 1)) (fun j => v (j + 1))
        (fun j hj => h (j + 1) (by simpa using hj))
      refine ⟨n + 1, by simp [h1], by simpa using h2, ?_, ?_⟩
      · intro j hj
        cases j with
        | zero => exact hnot
        | succ j =>
          have := h3 j (by omega)
          have e1 : e + (j + 1) = e + 1 + j := by omega
          rw [e1]
          exact this
      · intro hn
        obtain ⟨a, b, c⟩ := h4 (by simpa using hn)
        have e1 : n + 1 - 1 = n - 1 + 1 := by omega
        have e2 : e + (n + 1 - 1) = e + 1 + (n - 1) := by omega
        refine ⟨by omega, by rw [e2]; exact b, ?_⟩
        rw [e1]
        exact c

/-- A run whose energies never exceed the bound is never stopped (for a tolerance that is not negative),
and without energies in the logs nothing is stopped. -/
theorem C84_good (bound varianceTol relativeError : ℝ) (h0 : 0 ≤ relativeError) (minEpoch e : ℕ) (l : Logs) :
    (∀ E v, Reports l E v → E ≤ bound →
      badEigenStateStop bound varianceTol relativeError minEpoch e l = some false) ∧
    (l.read "val_energy/energy" = none → l.read "energy/energy" = none →
      badEigenStateStop bound varianceTol relativeError minEpoch e l = some false) := by
  constructor
  · intro E v h hE
    obtain ⟨b, hb, hiff⟩ := stop_of_reports bound varianceTol relativeError minEpoch e l E v h
    rw [hb]
    cases b with
    | false => rfl
    | true =>
      have := (hiff.mp rfl).2.1
      nlinarith [mul_nonneg h0 (abs_nonneg bound)]
  · intro h1 h2
    unfold badEigenStateStop
    rw [h1, h2]

/-- An epoch that stops the run (from `min_epoch` on): an eigenstate of energy minus one, where the
ground state energy is known to be at most minus two; and one that does not. -/
example : Reports [("energy/energy", -1), ("energy/local_energy_variance", 0)] (-1) 0 ∧
    Bad (-2) 0.01 0.1 (-1) 0 ∧ ¬ Bad (-2) 0.01 0.1 (-1.9) 0 := by
  refine ⟨Or.inr ⟨?_, ?_, ?_⟩, ?_, ?_⟩
  · simp [Logs.read]
  · simp [Logs.read]
  · simp [Logs.read]
  · norm_num [Bad]
  · norm_num [Bad]

/-! ### C116 with the other callbacks -/

/-- **C116 among the other callbacks**: at the end of an epoch and in a step of `evaluate`, whatever the other default callbacks
wrote before, the times of the batch in use are logged and their parts add up to the total. -/
theorem C116_among_callbacks (drawVal : S → ℕ → List (Config ι × ℂ)) (truth : Option ℝ) (validation : Bool) (p e : ℕ) (w : World S ι) :
    ∀ l, l = (epochEnds.runEpochEnd drawVal e (defaultCallbacks truth false validation p) w []).2 ∨
        (∃ inBatch, l = (runCallbacks drawVal e (defaultCallbacks truth inBatch validation p) w []).2) →
      l.read "times/sampling" = some (w.samplingEnd - w.start) ∧ l.read "times/local_energy" = some (w.localEnergyEnd - w.samplingEnd) ∧
      l.read "times/gradients" = some (w.now - w.localEnergyEnd) ∧ l.read "times/total" = some (w.now - w.start) := by
  rintro l (rfl | ⟨inBatch, rfl⟩)
  · cases validation <;> by_cases h : e % p = 0 <;> simp [epochEnds.runEpochEnd, defaultCallbacks, onEpochEnd, addRuntime, read_put, h]
  · cases validation <;> cases inBatch <;> by_cases h : e % p = 0 <;>
      simp [runCallbacks, defaultCallbacks, onEpochEnd, onBatchEnd, addRuntime, read_put, h]

end Verif.Callbacks
