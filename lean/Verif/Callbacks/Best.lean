import Verif.Callbacks.Validation
import Verif.Callbacks.ExactTraining
import Mathlib.Analysis.SpecialFunctions.Trigonometric.DerivHyp

/-!
C124: the checkpoint of the best model, and stopping when there is no progress.
-/
namespace Verif.Callbacks

open Verif.Training Verif.Energy Verif.Energy.Exact Verif.Operators

/-! ### Model -/

/-- `ModelCheckpoint(monitor=..., save_best_only=True, save_weights_only=True)` (examples/custom_keras_model.py:36):
`best` is `None` for the initial infinity, `file` is the content of the file. The class is part of Keras, not of the repository. -/
structure Best (Θ : Type) where
  best : Option ℝ
  file : Option Θ

/-- `ModelCheckpoint.on_epoch_end` of Keras with the arguments of examples/custom_keras_model.py:36: if the log of the epoch has the
monitored value and it is less than the best so far, the weights are saved. `θ` are the weights at the end of the epoch. -/
noncomputable def Best.epochEnd {Θ : Type} (monitor : String) (θ : Θ) (logs : Logs) (c : Best Θ) : Best Θ :=
  match logs.read monitor with
  | none => c
  | some v =>
    match c.best with
    | none => ⟨some v, some θ⟩
    | some b => if v < b then ⟨some v, some θ⟩ else c

/-- The checkpoint after epochs with the given final weights and logs (examples/custom_keras_model.py:36,45-49). -/
noncomputable def keepBest {Θ : Type} (monitor : String) (epochs : List (Θ × Logs)) : Best Θ :=
  epochs.foldl (fun c x => c.epochEnd monitor x.1 x.2) ⟨none, none⟩

/-- `EarlyStopping` of Keras (examples/custom_keras_model.py:41): the best value and the number of epochs since. -/
structure Waiting where
  best : Option ℝ
  wait : ℕ

/-- `EarlyStopping.on_epoch_end` of Keras for a value that is to decrease (examples/custom_keras_model.py:41): the new state, and whether
`stop_training` is set. -/
noncomputable def Waiting.epochEnd (monitor : String) (minDelta : ℝ) (patience : ℕ) (logs : Logs) (c : Waiting) : Waiting × Bool :=
  match logs.read monitor with
  | none => (c, false)
  | some v =>
    match c.best with
    | none => (⟨some v, 0⟩, false)
    | some b => if v + minDelta < b then (⟨some v, 0⟩, false) else (⟨some b, c.wait + 1⟩, decide (patience ≤ c.wait + 1))

/-- Number of epochs that are run: Keras ends the training after an epoch in which `stop_training` was set
(examples/custom_keras_model.py:41,45-49). -/
noncomputable def epochsUntil (monitor : String) (minDelta : ℝ) (patience : ℕ) : Waiting → List Logs → ℕ
  | _, [] => 0
  | c, l :: rest =>
    let r := c.epochEnd monitor minDelta patience l
    if r.2 then 1 else epochsUntil monitor minDelta patience r.1 rest + 1

/-- End of epoch `j` of exact training (examples/basic_autoregressive_exact_gradient.py:39-40): the weights and the log. -/
noncomputable def epochOf {ι Opt : Type} [Fintype ι] {n : ℕ} (o : Optimizer Opt (Fin n → ℝ) (Fin n → ℝ)) (cfg : AccConfig)
    (net : (Fin n → ℝ) → Config ι → ℂ) (g : (Fin n → ℝ) → Config ι × ℂ → Fin n → ℝ) (cbs : List TrainCallback)
    (spe : ℕ) (st0 : ExactState (Config ι) Opt n) (j : ℕ) : Option ((Fin n → ℝ) × Logs) :=
  match fit o cfg net g cbs spe st0 (j * spe + (spe - 1)) with
  | .error _ => none
  | .ok st =>
    match fitStep o cfg net g cbs spe (j * spe + (spe - 1)) st with
    | .error _ => none
    | .ok r => r.epochLog.map fun L => (o.params r.state.acc.opt, L)

/-- The checkpoint after the given number of epochs of exact training; `none` if the training fails. -/
noncomputable def exactBest {ι Opt : Type} [Fintype ι] {n : ℕ} (monitor : String) (o : Optimizer Opt (Fin n → ℝ) (Fin n → ℝ))
    (cfg : AccConfig) (net : (Fin n → ℝ) → Config ι → ℂ) (g : (Fin n → ℝ) → Config ι × ℂ → Fin n → ℝ)
    (cbs : List TrainCallback) (spe : ℕ) (st0 : ExactState (Config ι) Opt n) (epochs : ℕ) : Option (Best (Fin n → ℝ)) :=
  ((List.range epochs).mapM (epochOf o cfg net g cbs spe st0)).map (keepBest monitor)

/-! ### The checkpoint keeps the first minimum -/

theorem keepBest_append {Θ : Type} (monitor : String) (epochs : List (Θ × Logs)) (x : Θ × Logs) :
    keepBest monitor (epochs ++ [x]) = (keepBest monitor epochs).epochEnd monitor x.1 x.2 := by
  simp [keepBest, List.foldl_append]

theorem keepBest_none {Θ : Type} (monitor : String) (epochs : List (Θ × Logs)) (h : ∀ x ∈ epochs, x.2.read monitor = none) :
    keepBest monitor epochs = ⟨none, none⟩ := by
  induction epochs using List.reverseRecOn with
  | nil => rfl
  | append_singleton l x ih =>
    rw [keepBest_append, ih fun y hy => h y (List.mem_append_left _ hy)]
    unfold Best.epochEnd
    rw [h x (by simp)]

/-- The file holds the weights of the first of the epochs with the lowest monitored value. -/
theorem keepBest_some {Θ : Type} (monitor : String) (epochs : List (Θ × Logs)) (h : ∃ x ∈ epochs, x.2.read monitor ≠ none) :
    ∃ (j : ℕ) (θ : Θ) (L : Logs) (v : ℝ), epochs[j]? = some (θ, L) ∧ L.read monitor = some v ∧ keepBest monitor epochs = ⟨some v, some θ⟩ ∧
      ∀ (i : ℕ) (θ' : Θ) (L' : Logs) (v' : ℝ), epochs[i]? = some (θ', L') → L'.read monitor = some v' → v ≤ v' ∧ (i < j → v < v') := by
  induction epochs using List.reverseRecOn with
  | nil => simp at h
  | append_singleton l x ih =>
    obtain ⟨θx, Lx⟩ := x
    rw [keepBest_append]
    have split : ∀ (i : ℕ) (y : Θ × Logs), (l ++ [(θx, Lx)])[i]? = some y → (i < l.length ∧ l[i]? = some y) ∨
        (i = l.length ∧ y = (θx, Lx)) := by
      intro i y hy
      by_cases hi : i < l.length
      · rw [List.getElem?_append_left hi] at hy; exact Or.inl ⟨hi, hy⟩
      · rw [List.getElem?_append_right (by omega)] at hy
        have h0 : i - l.length = 0 := by
          by_contra hne
          rw [List.getElem?_eq_none (by simp; omega)] at hy
          cases hy
        rw [h0] at hy
        simp at hy
        exact Or.inr ⟨by omega, hy.symm⟩
    by_cases hl : ∃ x ∈ l, x.2.read monitor ≠ none
    · obtain ⟨j, θ, L, v, h1, h2, h3, h4⟩ := ih hl
      have hj : j < l.length := (List.getElem?_eq_some_iff.1 h1).1
      rw [h3]
      unfold Best.epochEnd
      cases hx : Lx.read monitor with
      | none =>
        refine ⟨j, θ, L, v, by rw [List.getElem?_append_left hj]; exact h1, h2, rfl, ?_⟩
        intro i θ' L' v' hi hv
        rcases split i _ hi with ⟨-, hi⟩ | ⟨-, hi⟩
        · exact h4 i θ' L' v' hi hv
        · simp only [Prod.mk.injEq] at hi
          rw [hi.2, hx] at hv; cases hv
      | some w =>
        dsimp only
        by_cases hw : w < v
        · rw [if_pos hw]
          refine ⟨l.length, θx, Lx, w, by simp, hx, rfl, ?_⟩
          intro i θ' L' v' hi hv
          rcases split i _ hi with ⟨-, hi⟩ | ⟨e, hi⟩
          · have := (h4 i θ' L' v' hi hv).1
            exact ⟨by linarith, fun _ => by linarith⟩
          · simp only [Prod.mk.injEq] at hi
            rw [hi.2, hx] at hv
            rw [Option.some.inj hv]
            exact ⟨le_rfl, fun h => by omega⟩
        · rw [if_neg hw]
          refine ⟨j, θ, L, v, by rw [List.getElem?_append_left hj]; exact h1, h2, rfl, ?_⟩
          intro i θ' L' v' hi hv
          rcases split i _ hi with ⟨-, hi⟩ | ⟨e, hi⟩
          · exact h4 i θ' L' v' hi hv
          · simp only [Prod.mk.injEq] at hi
            rw [hi.2, hx] at hv
            rw [← Option.some.inj hv]
            exact ⟨not_lt.1 hw, fun h => by omega⟩
    · have hnone : ∀ x ∈ l, x.2.read monitor = none := by
        intro x hx
        by_contra hne
        exact hl ⟨x, hx, hne⟩
      have hlast : ∃ w, Lx.read monitor = some w := by
        obtain ⟨y, hy, hne⟩ := h
        rcases List.mem_append.1 hy with hy | hy
        · exact absurd (hnone y hy) hne
        · rw [List.mem_singleton.1 hy] at hne
          exact Option.ne_none_iff_exists'.1 hne
      obtain ⟨w, hw⟩ := hlast
      rw [keepBest_none monitor l hnone]
      unfold Best.epochEnd
      rw [hw]
      refine ⟨l.length, θx, Lx, w, by simp, hw, rfl, ?_⟩
      intro i θ' L' v' hi hv
      rcases split i _ hi with ⟨-, hi⟩ | ⟨e, hi⟩
      · rw [hnone _ (List.mem_of_getElem? hi)] at hv; cases hv
      · simp only [Prod.mk.injEq] at hi
        rw [hi.2, hw] at hv
        rw [Option.some.inj hv]
        exact ⟨le_rfl, fun h => by omega⟩

/-! ### Monte Carlo training -/

section monteCarlo
variable {ι : Type} [Fintype ι] {S Θ : Type}

/-- The epochs `e, e + 1, ...` of a training run with the weights `θ e, θ (e + 1), ...` at their ends. -/
def withWeights (θ : ℕ → Θ) (e : ℕ) (logs : List Logs) : List (Θ × Logs) := logs.zipIdx.map fun x => (θ (e + x.2), x.1)

theorem withWeights_get (θ : ℕ → Θ) (e : ℕ) (logs : List Logs) (j : ℕ) :
    (withWeights θ e logs)[j]? = (logs[j]?).map fun l => (θ (e + j), l) := by
  simp [withWeights, List.getElem?_zipIdx]
  cases logs[j]? <;> simp

omit [Fintype ι] in
theorem epochEnds_length (drawVal : ℕ → S → ℕ → List (Config ι × ℂ)) (train : ℕ → Generator S ι) (cbs : List (Callback ι)) :
    ∀ (n e : ℕ) (w : World S ι), (epochEnds drawVal train cbs n e w).length = n := by
  intro n
  induction n with
  | zero => intro e w; rfl
  | succ n ih => intro e w; simp only [epochEnds, List.length_cons]; rw [ih]

/-- **C124**, what holds: training with the default callbacks, a validation generator that hands out whole batches, and a checkpoint of the best
model that watches the validation energy. Let `samples θ s k` be the `k`-th batch drawn with the weights `θ`. As soon as an epoch with validation is over,
the file holds the weights at the end of one of the epochs `j`; the recorded energy is that of a new batch drawn with exactly these
weights; no epoch with validation had a lower validation energy, and no earlier one the same. -/
theorem C124_partial (size : S → ℕ) (samples : Θ → S → ℕ → List (Config ι × ℂ)) (θ : ℕ → Θ) (train : ℕ → Generator S ι)
    (truth : Option ℝ) (inBatch : Bool) (p e n : ℕ) (st : Generator S ι) (w : World S ι) (s : S)
    (mini : Option ℕ) (h0 : setSampler size st s mini = some w.val)
    (hwhole : ∀ m, mini = some m → size s < 2 * m) (hsome : ∃ j, j < n ∧ p ∣ e + j) :
    ∃ (j : ℕ) (k : ℕ → ℕ), j < n ∧ p ∣ e + j ∧ StrictMonoOn k {i | p ∣ e + i} ∧
      (keepBest "val_energy/energy" (withWeights θ e (epochEnds (fun e => samples (θ e)) train
        (defaultCallbacks truth inBatch true p) n e w))).file = some (θ (e + j)) ∧
      (keepBest "val_energy/energy" (withWeights θ e (epochEnds (fun e => samples (θ e)) train
        (defaultCallbacks truth inBatch true p) n e w))).best = some (batchEnergy (samples (θ (e + j)) s (k j))).re ∧
      ∀ i, i < n → p ∣ e + i →
        (batchEnergy (samples (θ (e + j)) s (k j))).re ≤ (batchEnergy (samples (θ (e + i)) s (k i))).re ∧
        (i < j → (batchEnergy (samples (θ (e + j)) s (k j))).re < (batchEnergy (samples (θ (e + i)) s (k i))).re) := by
  let k : ℕ → ℕ := fun j => st.drawn + ((List.range j).filter fun i => p ∣ e + i).length
  have hC := fun j hj => C83_partial size (fun e => samples (θ e)) train truth inBatch p e n st w s mini h0 hwhole j hj
  have hval : ∀ i, i < n → p ∣ e + i → ∃ L, (withWeights θ e (epochEnds (fun e => samples (θ e)) train
      (defaultCallbacks truth inBatch true p) n e w))[i]? = some (θ (e + i), L) ∧
      L.read "val_energy/energy" = some (batchEnergy (samples (θ (e + i)) s (k i))).re := by
    intro i hi hd
    obtain ⟨l, hl, h1, -⟩ := hC i hi
    obtain ⟨k', hk', h2, -⟩ := h1 hd
    refine ⟨l, by rw [withWeights_get, hl]; rfl, ?_⟩
    rw [h2, hk']
  obtain ⟨j0, hj0, hd0⟩ := hsome
  obtain ⟨L0, hL0, hv0⟩ := hval j0 hj0 hd0
  obtain ⟨j, θ', L, v, h1, h2, h3, h4⟩ := keepBest_some "val_energy/energy" _
    ⟨_, List.mem_of_getElem? hL0, by rw [hv0]; simp⟩
  rw [withWeights_get] at h1
  have hj : j < n := by
    by_contra hge
    rw [List.getElem?_eq_none (by rw [epochEnds_length]; omega)] at h1
    cases h1
  obtain ⟨l, hl, hyes, hno⟩ := hC j hj
  rw [hl] at h1
  simp only [Option.map_some, Option.some.injEq, Prod.mk.injEq] at h1
  obtain ⟨rfl, rfl⟩ := h1
  have hd : p ∣ e + j := by
    by_contra hnd
    rw [(hno hnd).1] at h2
    cases h2
  obtain ⟨k', hk', h5, -⟩ := hyes hd
  have hv : v = (batchEnergy (samples (θ (e + j)) s (k j))).re := by
    rw [h2] at h5
    rw [Option.some.inj h5, hk']
  refine ⟨j, k, hj, hd, ?_, by rw [h3], by rw [h3, hv], ?_⟩
  · intro a ha b _ hab
    show st.drawn + _ < st.drawn + _
    have hsub : ((List.range (a + 1)).filter fun i => decide (p ∣ e + i)).length ≤
        ((List.range b).filter fun i => decide (p ∣ e + i)).length := by
      refine List.Sublist.length_le (List.Sublist.filter _ ?_)
      exact List.range_sublist.2 (by omega)
    have hstep : ((List.range (a + 1)).filter fun i => decide (p ∣ e + i)).length =
        ((List.range a).filter fun i => decide (p ∣ e + i)).length + 1 := by
      rw [List.range_succ, List.filter_append, List.length_append]
      have ha' : p ∣ e + a := ha
      simp [ha']
    omega
  · intro i hi hdi
    obtain ⟨Li, hLi, hvi⟩ := hval i hi hdi
    rw [← hv]
    exact h4 i _ _ _ hLi hvi

/-- Nothing about the energy of the training is in the logs of the epochs if the callbacks log at the end of batches. -/
theorem epochLogs_silent (drawVal : S → ℕ → List (Config ι × ℂ)) (truth : Option ℝ) (validation : Bool) (p e : ℕ) (w : World S ι)
    (monitor : String) (hm : monitor = "energy/energy" ∨ monitor = "energy/relative_error") :
    (epochEnds.runEpochEnd drawVal e (defaultCallbacks truth true validation p) w []).2.read monitor = none := by
  cases validation with
  | true =>
    rw [runEpochEnd_default]
    unfold epochLogs
    by_cases h : e % p = 0 <;> cases truth <;> rcases hm with rfl | rfl <;>
      simp [h, addObservable, addEnergy, read_put, Logs.read]
  | false =>
    rcases hm with rfl | rfl <;> simp [epochEnds.runEpochEnd, defaultCallbacks, onEpochEnd, Logs.read]

theorem epochEnds_silent (drawVal : ℕ → S → ℕ → List (Config ι × ℂ)) (train : ℕ → Generator S ι) (truth : Option ℝ)
    (validation : Bool) (p : ℕ) (monitor : String) (hm : monitor = "energy/energy" ∨ monitor = "energy/relative_error") :
    ∀ (n e : ℕ) (w : World S ι), ∀ l ∈ epochEnds drawVal train (defaultCallbacks truth true validation p) n e w,
      l.read monitor = none := by
  intro n
  induction n with
  | zero => intro e w l hl; cases hl
  | succ n ih =>
    intro e w l hl
    unfold epochEnds at hl
    rcases List.mem_cons.1 hl with rfl | hl
    · exact epochLogs_silent _ _ _ _ _ _ _ hm
    · exact ih _ _ l hl

theorem epochsUntil_silent (monitor : String) (minDelta : ℝ) (patience : ℕ) : ∀ (logs : List Logs) (c : Waiting),
    (∀ l ∈ logs, l.read monitor = none) → epochsUntil monitor minDelta patience c logs = logs.length := by
  intro logs
  induction logs with
  | nil => intro c _; rfl
  | cons l rest ih =>
    intro c h
    unfold epochsUntil Waiting.epochEnd
    rw [h l (by simp)]
    simp only [Bool.false_eq_true, if_false, List.length_cons]
    rw [ih c fun x hx => h x (List.mem_cons_of_mem _ hx)]

/-- **C124 is false of the code with the default way of logging** (that of examples/custom_keras_model.py): the energies are put only
into the logs of the batches, which the checkpoint and the early stopping never see. However the training goes, no best model is ever written, and
the training is never stopped. -/
theorem C124_violated_default (drawVal : ℕ → S → ℕ → List (Config ι × ℂ)) (train : ℕ → Generator S ι) (truth : Option ℝ)
    (validation : Bool) (p n e : ℕ) (w : World S ι) (θ : ℕ → Θ) (minDelta : ℝ) (patience : ℕ) :
    (keepBest "energy/energy" (withWeights θ e
      (epochEnds drawVal train (defaultCallbacks truth true validation p) n e w))).file = none ∧
    epochsUntil "energy/relative_error" minDelta patience ⟨none, 0⟩
      (epochEnds drawVal train (defaultCallbacks truth true validation p) n e w) = n := by
  constructor
  · rw [keepBest_none]
    intro x hx
    obtain ⟨y, hy, rfl⟩ := List.mem_map.1 hx
    exact epochEnds_silent _ _ _ _ _ _ (Or.inl rfl) _ _ _ _ (List.fst_mem_of_mem_zipIdx hy)
  · rw [epochsUntil_silent _ _ _ _ _ (epochEnds_silent _ _ _ _ _ _ (Or.inr rfl) _ _ _), epochEnds_length]

end monteCarlo

/-! ### Early stopping -/

theorem stop_justified (monitor : String) (δ : ℝ) (hδ : 0 ≤ δ) (patience : ℕ) (v : ℕ → ℝ) : ∀ (rest : List Logs) (k : ℕ) (c : Waiting),
    (∀ (i : ℕ) (l : Logs), rest[i]? = some l → l.read monitor = some (v (k + i))) →
    ((k = 0 ∧ c = ⟨none, 0⟩) ∨ ∃ b, b < k ∧ c.best = some (v b) ∧ c.wait = k - 1 - b ∧ c.wait < max patience 1 ∧
      (∀ i, b < i → i < k → v b ≤ v i + δ) ∧ ∀ i, i < b → v b < v i) →
    epochsUntil monitor δ patience c rest < rest.length →
    ∃ b, b + max patience 1 + 1 = k + epochsUntil monitor δ patience c rest ∧
      (∀ i, b < i → i < k + epochsUntil monitor δ patience c rest → v b ≤ v i + δ) ∧ ∀ i, i < b → v b < v i := by
  intro rest
  induction rest with
  | nil => intro k c _ _ h; simp at h
  | cons l rest ih =>
    intro k c hv hinv hlt
    have hl : l.read monitor = some (v k) := hv 0 l rfl
    have hrest : ∀ (i : ℕ) (l' : Logs), rest[i]? = some l' → l'.read monitor = some (v (k + 1 + i)) := by
      intro i l' h
      rw [hv (i + 1) l' (by simpa using h)]
      congr 2
      omega
    unfold epochsUntil Waiting.epochEnd at hlt ⊢
    rw [hl] at hlt ⊢
    rcases hinv with ⟨rfl, rfl⟩ | ⟨b, hb, hbest, hwait, hless, hafter, hbefore⟩
    · simp only [Bool.false_eq_true, if_false, List.length_cons] at hlt ⊢
      obtain ⟨b, h1, h2, h3⟩ := ih 1 ⟨some (v 0), 0⟩ (by simpa using hrest)
        (Or.inr ⟨0, by omega, rfl, rfl, by simp, fun i h1 h2 => by omega, fun i h => by omega⟩) (by omega)
      exact ⟨b, by omega, fun i hi hi' => h2 i hi (by omega), h3⟩
    · rw [hbest] at hlt ⊢
      simp only at hlt ⊢
      by_cases him : v k + δ < v b
      · simp only [if_pos him, Bool.false_eq_true, if_false, List.length_cons] at hlt ⊢
        obtain ⟨b', h1, h2, h3⟩ := ih (k + 1) ⟨some (v k), 0⟩ hrest
          (Or.inr ⟨k, by omega, rfl, by simp, by simp, fun i h1 h2 => by omega, fun i h => by
            rcases lt_trichotomy i b with h4 | h4 | h4
            · have := hbefore i h4
              linarith
            · subst h4; linarith
            · have := hafter i h4 h; linarith⟩) (by omega)
        exact ⟨b', by omega, fun i hi hi' => h2 i hi (by omega), h3⟩
      · by_cases hst : patience ≤ c.wait + 1
        · simp only [if_neg him, hst, decide_true, if_true] at hlt ⊢
          refine ⟨b, by omega, ?_, hbefore⟩
          intro i hi hi'
          rcases Nat.lt_or_ge i k with h | h
          · exact hafter i hi h
          · have : i = k := by omega
            subst this
            linarith
        · simp only [if_neg him, hst, decide_false, Bool.false_eq_true, if_false, List.length_cons] at hlt ⊢
          obtain ⟨b', h1, h2, h3⟩ := ih (k + 1) ⟨some (v b), c.wait + 1⟩ hrest
            (Or.inr ⟨b, by omega, rfl, by simp only; omega, by simp only; omega, fun i h1 h2 => by
              rcases Nat.lt_or_ge i k with h | h
              · exact hafter i h1 h
              · have : i = k := by omega
                subst this
                linarith, hbefore⟩) (by omega)
          exact ⟨b', by omega, fun i hi hi' => h2 i hi (by omega), h3⟩

theorem stop_in_time (monitor : String) (δ : ℝ) (hδ : 0 ≤ δ) (patience : ℕ) (v : ℕ → ℝ) (b : ℕ)
    (hb : ∀ i, b < i → i ≤ b + max patience 1 → v b ≤ v i) : ∀ (rest : List Logs) (k : ℕ) (c : Waiting),
    (∀ (i : ℕ) (l : Logs), rest[i]? = some l → l.read monitor = some (v (k + i))) →
    (k ≤ b ∨ (b < k ∧ k ≤ b + max patience 1 ∧ ∃ x, c.best = some x ∧ x ≤ v b + δ ∧ k - 1 - b ≤ c.wait)) →
    k + epochsUntil monitor δ patience c rest ≤ b + max patience 1 + 1 := by
  intro rest
  induction rest with
  | nil => intro k c _ h; unfold epochsUntil; omega
  | cons l rest ih =>
    intro k c hv hinv
    have hl : l.read monitor = some (v k) := hv 0 l rfl
    have hrest : ∀ (i : ℕ) (l' : Logs), rest[i]? = some l' → l'.read monitor = some (v (k + 1 + i)) := by
      intro i l' h
      rw [hv (i + 1) l' (by simpa using h)]
      congr 2
      omega
    unfold epochsUntil
    simp only
    by_cases hst : (c.epochEnd monitor δ patience l).2 = true
    · rw [if_pos hst]; omega
    · rw [if_neg hst]
      have := ih (k + 1) (c.epochEnd monitor δ patience l).1 hrest (by
        unfold Waiting.epochEnd at hst ⊢
        rw [hl] at hst ⊢
        simp only at hst ⊢
        rcases hinv with h | ⟨h1, h2, x, h3, h4, h5⟩
        · rcases Nat.lt_or_ge k b with h6 | h6
          · exact Or.inl (by omega)
          · have : k = b := by omega
            subst this
            refine Or.inr ⟨by omega, by omega, ?_⟩
            cases hc : c.best with
            | none => exact ⟨v k, rfl, by linarith, by simp⟩
            | some y =>
              simp only
              by_cases him : v k + δ < y
              · simp only [if_pos him]; exact ⟨v k, rfl, by linarith, by simp⟩
              · simp only [if_neg him]; exact ⟨y, rfl, by linarith, by simp⟩
        · rw [h3] at hst ⊢
          simp only at hst ⊢
          have him : ¬ v k + δ < x := by have := hb k h1 h2; linarith
          simp only [if_neg him, decide_eq_true_eq, not_le] at hst ⊢
          exact Or.inr ⟨by omega, by omega, x, rfl, h4, by omega⟩)
      omega

/-- **C124**, early stopping on the validation energy (validation after every epoch), with the energies `E i` of the epochs from batches drawn with
the weights at their ends. If the training stops before the last epoch, the last `patience` epochs (at least one) were not more than `δ`
better than the epoch `b` before them, and that epoch was better than all earlier ones. Conversely the training does not go on
beyond `patience` epochs that are all no better than some epoch before them. -/
theorem C124_stops_partial {ι : Type} [Fintype ι] {S Θ : Type} (size : S → ℕ) (samples : Θ → S → ℕ → List (Config ι × ℂ)) (θ : ℕ → Θ)
    (train : ℕ → Generator S ι) (truth : Option ℝ) (inBatch : Bool) (e n : ℕ) (st : Generator S ι) (w : World S ι) (s : S)
    (mini : Option ℕ) (h0 : setSampler size st s mini = some w.val) (hwhole : ∀ m, mini = some m → size s < 2 * m)
    (δ : ℝ) (hδ : 0 ≤ δ) (patience : ℕ) (E : ℕ → ℝ)
    (hE : ∀ i, E i = (batchEnergy (samples (θ (e + i)) s (st.drawn + i))).re) (m : ℕ)
    (hm : m = epochsUntil "val_energy/energy" δ patience ⟨none, 0⟩
      (epochEnds (fun e => samples (θ e)) train (defaultCallbacks truth inBatch true 1) n e w)) :
    (m < n → ∃ b, b + max patience 1 + 1 = m ∧ (∀ i, b < i → i < m → E b ≤ E i + δ) ∧ ∀ i, i < b → E b < E i) ∧
    (∀ b, (∀ i, b < i → i ≤ b + max patience 1 → E b ≤ E i) → m ≤ b + max patience 1 + 1) := by
  have hval : ∀ (i : ℕ) (l : Logs), (epochEnds (fun e => samples (θ e)) train (defaultCallbacks truth inBatch true 1) n e w)[i]? = some l →
      l.read "val_energy/energy" = some (E (0 + i)) := by
    intro i l hl
    have hi : i < n := by
      have := (List.getElem?_eq_some_iff.1 hl).1
      rwa [epochEnds_length] at this
    obtain ⟨l', hl', hyes, -⟩ := C83_partial size (fun e => samples (θ e)) train truth inBatch 1 e n st w s mini h0 hwhole i hi
    obtain ⟨k, hk, h1, -⟩ := hyes (one_dvd _)
    rw [hl] at hl'
    rw [Option.some.inj hl', h1, Nat.zero_add, hE, hk]
    simp
  constructor
  · intro hlt
    have := stop_justified "val_energy/energy" δ hδ patience E _ 0 ⟨none, 0⟩ hval (Or.inl ⟨rfl, rfl⟩)
      (by rw [← hm, epochEnds_length]; exact hlt)
    rw [← hm, Nat.zero_add] at this
    exact this
  · intro b hb
    have := stop_in_time "val_energy/energy" δ hδ patience E b hb _ 0 ⟨none, 0⟩ hval (Or.inl (Nat.zero_le _))
    rw [← hm, Nat.zero_add] at this
    exact this

/-! ### Exact training -/

section exactTraining
variable {ι Opt : Type} [Fintype ι] [DecidableEq ι] {n : ℕ}

/-- The weights after `t` training steps without any callback: what the checkpoint has to be compared with. -/
noncomputable def weightsAfter (o : Optimizer Opt (Fin n → ℝ) (Fin n → ℝ)) (cfg : AccConfig)
    (net : (Fin n → ℝ) → Config ι → ℂ) (g : (Fin n → ℝ) → Config ι × ℂ → Fin n → ℝ) (st0 : ExactState (Config ι) Opt n)
    (t : ℕ) : Fin n → ℝ :=
  o.params (exactTrain o cfg net g (fun _ => []) st0 t).acc.opt

/-- The exact energy of the network with weights `θ`. -/
noncomputable def energyOf (H : Wave ι → Wave ι) (net : (Fin n → ℝ) → Config ι → ℂ) (θ : Fin n → ℝ) : ℝ :=
  (Energy.rayleigh H fun s => Complex.exp (net θ s)).re

omit [Fintype ι] in
theorem exactTrain_opt {N : ℕ} (e : ι ≃ Fin N) (hN : N ≤ 31)
    (op : (B : Nat) → (Fin B → Config ι) → Fin B → List (Row ι ℝ)) (R : ℕ) (rowsOf : Config ι → List (Row ι ℝ))
    (h : RowsOf op R rowsOf) (batch : ℕ) (o : Optimizer Opt (Fin n → ℝ) (Fin n → ℝ)) (cfg : AccConfig)
    (net : (Fin n → ℝ) → Config ι → ℂ) (g : (Fin n → ℝ) → Config ι × ℂ → Fin n → ℝ) (opt : Opt)
    (st0 : ExactState (Config ι) Opt n) (h0 : exactSetup (spinSetup e op R) batch opt = some st0)
    (r1 r2 : ℕ → List Refresh) (t : ℕ) :
    (exactTrain o cfg net g r1 st0 t).acc.opt = (exactTrain o cfg net g r2 st0 t).acc.opt := by
  have hr := rowWise_of e hN h
  obtain ⟨o0, acc, ho, hacc, rfl⟩ := exactSetup_some _ batch opt st0 h0
  obtain ⟨hset, hpos, hbs, ⟨q, hq⟩, hok, hmin⟩ := new_ok _ _ hr batch o0 ho
  have hqpos : 0 < q := by
    rcases Nat.eq_zero_or_pos q with h | h
    · rw [h] at hq; omega
    · exact h
  have hdiv : (spinSetup e op R).S / o0.bs = q := by rw [hq, Nat.mul_div_cancel _ hbs]
  rw [hdiv] at hacc
  rw [(train_inv _ _ hr batch o0 ho q hq o cfg net g hqpos r1 opt acc hacc t).opt,
    (train_inv _ _ hr batch o0 ho q hq o cfg net g hqpos r2 opt acc hacc t).opt]

theorem mapM_some {α β : Type} (f : α → Option β) (g : α → β) : ∀ l : List α, (∀ x ∈ l, f x = some (g x)) →
    l.mapM f = some (l.map g) := by
  intro l
  induction l with
  | nil => intro _; rfl
  | cons x l ih =>
    intro h
    rw [List.mapM_cons, h x (by simp), ih fun y hy => h y (List.mem_cons_of_mem _ hy)]
    rfl

/-- The epochs of exact training, given what a step is known to leave. -/
theorem exactBest_eq {N : ℕ} (e : ι ≃ Fin N) (hN : N ≤ 31)
    (op : (B : Nat) → (Fin B → Config ι) → Fin B → List (Row ι ℝ)) (R : ℕ) (rowsOf : Config ι → List (Row ι ℝ))
    (h : RowsOf op R rowsOf) (batch : ℕ) (o : Optimizer Opt (Fin n → ℝ) (Fin n → ℝ)) (cfg : AccConfig)
    (net : (Fin n → ℝ) → Config ι → ℂ) (g : (Fin n → ℝ) → Config ι × ℂ → Fin n → ℝ) (opt : Opt)
    (st0 : ExactState (Config ι) Opt n) (h0 : exactSetup (spinSetup e op R) batch opt = some st0) (cbs : List TrainCallback)
    (spe : ℕ) (hspe : 0 < spe) (P : ℕ → Logs → Prop) (epochs : ℕ)
    (hstep : ∀ j, ∃ st r L, fit o cfg net g cbs spe st0 (j * spe + (spe - 1)) = .ok st ∧
      fitStep o cfg net g cbs spe (j * spe + (spe - 1)) st = .ok r ∧ r.epochLog = some L ∧ P j L) (monitor : String) :
    ∃ L : ℕ → Logs, (∀ j, P j (L j)) ∧ exactBest monitor o cfg net g cbs spe st0 epochs = some (keepBest monitor
      ((List.range epochs).map fun j => (weightsAfter o cfg net g st0 ((j + 1) * spe), L j))) := by
  choose st r L h1 h2 h3 h4 using hstep
  refine ⟨L, h4, ?_⟩
  unfold exactBest
  rw [mapM_some _ (fun j => (weightsAfter o cfg net g st0 ((j + 1) * spe), L j))]
  · rfl
  · intro j _
    have hw : fit o cfg net g cbs spe st0 ((j + 1) * spe) = .ok (r j).state := by
      have : (j + 1) * spe = (j * spe + (spe - 1)) + 1 := by rw [Nat.succ_mul]; omega
      rw [this]
      unfold fit
      rw [h1]
      simp only
      rw [h2]
      rfl
    have hs := fit_state _ _ _ _ _ _ _ _ _ hw
    unfold epochOf
    rw [h1]
    simp only
    rw [h2]
    simp only
    rw [h3]
    simp only [Option.map_some, Option.some.injEq, Prod.mk.injEq, and_true]
    rw [hs]
    unfold weightsAfter
    rw [exactTrain_opt e hN op R rowsOf h batch o cfg net g opt st0 h0 _ (fun _ => []) _]

theorem keepBest_range {Θ : Type} (monitor : String) (epochs : ℕ) (hpos : 0 < epochs) (θ : ℕ → Θ) (L : ℕ → Logs) (E : ℕ → ℝ)
    (hE : ∀ j, (L j).read monitor = some (E j)) :
    ∃ j, j < epochs ∧ keepBest monitor ((List.range epochs).map fun j => (θ j, L j)) = ⟨some (E j), some (θ j)⟩ ∧
      ∀ i, i < epochs → E j ≤ E i ∧ (i < j → E j < E i) := by
  obtain ⟨j, θ', L', v, h1, h2, h3, h4⟩ := keepBest_some monitor ((List.range epochs).map fun j => (θ j, L j))
    ⟨(θ 0, L 0), List.mem_map.2 ⟨0, by simpa using hpos, rfl⟩, by rw [hE]; simp⟩
  have hget : ∀ i, i < epochs → ((List.range epochs).map fun j => (θ j, L j))[i]? = some (θ i, L i) := by
    intro i hi
    simp [List.getElem?_range hi]
  have hj : j < epochs := by
    have := (List.getElem?_eq_some_iff.1 h1).1
    simpa using this
  rw [hget j hj] at h1
  simp only [Option.some.injEq, Prod.mk.injEq] at h1
  obtain ⟨rfl, rfl⟩ := h1
  rw [hE] at h2
  obtain rfl := Option.some.inj h2
  exact ⟨j, hj, h3, fun i hi => h4 i _ _ _ (hget i hi) (hE i)⟩

/-- **C124** for exact training that logs at the end of epochs, with a `MachineUpdated` callback before the loggers: the file holds the
weights at the end of the first of the epochs with the lowest exact energy, and the recorded value is their energy. -/
theorem C124_exact {N : ℕ} (e : ι ≃ Fin N) (hN : N ≤ 31)
    (op : (B : Nat) → (Fin B → Config ι) → Fin B → List (Row ι ℝ)) (R : ℕ) (rowsOf : Config ι → List (Row ι ℝ))
    (h : RowsOf op R rowsOf) (H : Wave ι → Wave ι) (hH : ∀ s, IsSpin s → ∀ ψ, applyRows (rowsOf s) ψ = H ψ s)
    (batch : ℕ) (o : Optimizer Opt (Fin n → ℝ) (Fin n → ℝ)) (cfg : AccConfig)
    (net : (Fin n → ℝ) → Config ι → ℂ) (g : (Fin n → ℝ) → Config ι × ℂ → Fin n → ℝ) (opt : Opt)
    (st0 : ExactState (Config ι) Opt n) (h0 : exactSetup (spinSetup e op R) batch opt = some st0)
    (truth : Option ℝ) (spe : ℕ) (hspe : 0 < spe) (epochs : ℕ) (hpos : 0 < epochs) :
    ∃ b j, exactBest "energy/energy" o cfg net g (.machineUpdated false true :: defaultLoggers truth false) spe st0 epochs = some b ∧
      j < epochs ∧ b.file = some (weightsAfter o cfg net g st0 ((j + 1) * spe)) ∧
      b.best = some (energyOf H net (weightsAfter o cfg net g st0 ((j + 1) * spe))) ∧
      ∀ i, i < epochs →
        energyOf H net (weightsAfter o cfg net g st0 ((j + 1) * spe)) ≤ energyOf H net (weightsAfter o cfg net g st0 ((i + 1) * spe)) ∧
        (i < j → energyOf H net (weightsAfter o cfg net g st0 ((j + 1) * spe)) <
          energyOf H net (weightsAfter o cfg net g st0 ((i + 1) * spe))) := by
  obtain ⟨L, hL, hb⟩ := exactBest_eq e hN op R rowsOf h batch o cfg net g opt st0 h0
    (.machineUpdated false true :: defaultLoggers truth false) spe hspe
    (fun j L => L.read "energy/energy" = some (energyOf H net (weightsAfter o cfg net g st0 ((j + 1) * spe)))) epochs (by
      intro j
      obtain ⟨st, r, h1, h2, -, h4⟩ := C99_current e hN op R rowsOf h H hH batch o cfg net g opt st0 h0 truth false spe
        (j * spe + (spe - 1))
      have hlast : j * spe + (spe - 1) + 1 = (j + 1) * spe := by rw [Nat.succ_mul]; omega
      rw [hlast, if_pos (Nat.mul_mod_left _ _)] at h4
      obtain ⟨L, h5, h6⟩ := h4
      simp only [Bool.false_eq_true, if_false] at h6
      refine ⟨st, r, L, h1, h2, h5, ?_⟩
      rw [h6.energy]
      have hw : fit o cfg net g (.machineUpdated false true :: defaultLoggers truth false) spe st0 ((j + 1) * spe) = .ok r.state := by
        rw [← hlast]
        unfold fit
        rw [h1]
        simp only
        rw [h2]
        rfl
      have hs := fit_state _ _ _ _ _ _ _ _ _ hw
      unfold energyOf weightsAfter
      rw [hs, exactTrain_opt e hN op R rowsOf h batch o cfg net g opt st0 h0 _ (fun _ => []) _]) "energy/energy"
  obtain ⟨j, hj, h1, h2⟩ := keepBest_range "energy/energy" epochs hpos (fun j => weightsAfter o cfg net g st0 ((j + 1) * spe)) L _ hL
  exact ⟨_, j, hb, hj, by rw [h1], by rw [h1], h2⟩

/-- Exact training that logs at the end of epochs with the default loggers alone: the recorded value is the exact energy of the
weights *before* the last step of an epoch, the lowest of these, while the file holds the weights *after* that step. -/
theorem C124_stale {N : ℕ} (e : ι ≃ Fin N) (hN : N ≤ 31)
    (op : (B : Nat) → (Fin B → Config ι) → Fin B → List (Row ι ℝ)) (R : ℕ) (rowsOf : Config ι → List (Row ι ℝ))
    (h : RowsOf op R rowsOf) (H : Wave ι → Wave ι) (hH : ∀ s, IsSpin s → ∀ ψ, applyRows (rowsOf s) ψ = H ψ s)
    (batch : ℕ) (o : Optimizer Opt (Fin n → ℝ) (Fin n → ℝ)) (cfg : AccConfig)
    (net : (Fin n → ℝ) → Config ι → ℂ) (g : (Fin n → ℝ) → Config ι × ℂ → Fin n → ℝ) (opt : Opt)
    (st0 : ExactState (Config ι) Opt n) (h0 : exactSetup (spinSetup e op R) batch opt = some st0)
    (truth : Option ℝ) (spe : ℕ) (hspe : 0 < spe) (epochs : ℕ) (hpos : 0 < epochs) :
    ∃ b j, exactBest "energy/energy" o cfg net g (defaultLoggers truth false) spe st0 epochs = some b ∧
      j < epochs ∧ b.file = some (weightsAfter o cfg net g st0 ((j + 1) * spe)) ∧
      b.best = some (energyOf H net (weightsAfter o cfg net g st0 (j * spe + (spe - 1)))) ∧
      ∀ i, i < epochs →
        energyOf H net (weightsAfter o cfg net g st0 (j * spe + (spe - 1))) ≤
          energyOf H net (weightsAfter o cfg net g st0 (i * spe + (spe - 1))) ∧
        (i < j → energyOf H net (weightsAfter o cfg net g st0 (j * spe + (spe - 1))) <
          energyOf H net (weightsAfter o cfg net g st0 (i * spe + (spe - 1)))) := by
  obtain ⟨L, hL, hb⟩ := exactBest_eq e hN op R rowsOf h batch o cfg net g opt st0 h0 (defaultLoggers truth false) spe hspe
    (fun j L => L.read "energy/energy" = some (energyOf H net (weightsAfter o cfg net g st0 (j * spe + (spe - 1))))) epochs (by
      intro j
      obtain ⟨st, r, h1, h2, -, h4⟩ := C99_last_gradient e hN op R rowsOf h H hH batch o cfg net g opt st0 h0 truth false []
        (by simp) spe (j * spe + (spe - 1))
      rw [List.append_nil] at h1 h2
      have hlast : j * spe + (spe - 1) + 1 = (j + 1) * spe := by rw [Nat.succ_mul]; omega
      rw [hlast, if_pos (Nat.mul_mod_left _ _)] at h4
      obtain ⟨L, h5, h6⟩ := h4
      simp only [Bool.false_eq_true, if_false] at h6
      refine ⟨st, r, L, h1, h2, h5, ?_⟩
      rw [h6.energy]
      have hs := fit_state _ _ _ _ _ _ _ _ _ h1
      unfold energyOf weightsAfter
      rw [hs, exactTrain_opt e hN op R rowsOf h batch o cfg net g opt st0 h0 _ (fun _ => []) _]) "energy/energy"
  obtain ⟨j, hj, h1, h2⟩ := keepBest_range "energy/energy" epochs hpos (fun j => weightsAfter o cfg net g st0 ((j + 1) * spe)) L _ hL
  exact ⟨_, j, hb, hj, by rw [h1], by rw [h1], h2⟩

/-- Exact training with the default way of logging, at the end of batches: no best model is ever written. -/
theorem C124_violated_exact_default {N : ℕ} (e : ι ≃ Fin N) (hN : N ≤ 31)
    (op : (B : Nat) → (Fin B → Config ι) → Fin B → List (Row ι ℝ)) (R : ℕ) (rowsOf : Config ι → List (Row ι ℝ))
    (h : RowsOf op R rowsOf) (H : Wave ι → Wave ι) (hH : ∀ s, IsSpin s → ∀ ψ, applyRows (rowsOf s) ψ = H ψ s)
    (batch : ℕ) (o : Optimizer Opt (Fin n → ℝ) (Fin n → ℝ)) (cfg : AccConfig)
    (net : (Fin n → ℝ) → Config ι → ℂ) (g : (Fin n → ℝ) → Config ι × ℂ → Fin n → ℝ) (opt : Opt)
    (st0 : ExactState (Config ι) Opt n) (h0 : exactSetup (spinSetup e op R) batch opt = some st0)
    (truth : Option ℝ) (spe : ℕ) (hspe : 0 < spe) (epochs : ℕ) :
    exactBest "energy/energy" o cfg net g (defaultLoggers truth true) spe st0 epochs = some ⟨none, none⟩ := by
  obtain ⟨L, hL, hb⟩ := exactBest_eq e hN op R rowsOf h batch o cfg net g opt st0 h0 (defaultLoggers truth true) spe hspe
    (fun j L => L = []) epochs (by
      intro j
      obtain ⟨st, r, h1, h2, -, h4⟩ := C99_last_gradient e hN op R rowsOf h H hH batch o cfg net g opt st0 h0 truth true []
        (by simp) spe (j * spe + (spe - 1))
      rw [List.append_nil] at h1 h2
      have hlast : j * spe + (spe - 1) + 1 = (j + 1) * spe := by rw [Nat.succ_mul]; omega
      rw [hlast, if_pos (Nat.mul_mod_left _ _)] at h4
      obtain ⟨L, h5, h6⟩ := h4
      simp only [if_true] at h6
      exact ⟨st, r, L, h1, h2, h5, h6⟩) "energy/energy"
  rw [hb, keepBest_none]
  intro x hx
  obtain ⟨j, -, rfl⟩ := List.mem_map.1 hx
  show (L j).read _ = none
  rw [hL]
  rfl

end exactTraining

/-! ### A run in which the wrong weights are kept -/

section witness

/-- One spin in a transverse field, and a network with one weight `θ`: amplitudes `exp θ` and `exp (-θ)`. -/
noncomputable def tilt (θ : Fin 1 → ℝ) (s : Config (Fin 1)) : ℂ := ((θ 0 * (s 0 : ℝ) : ℝ) : ℂ)

theorem energyOf_tilt (θ : Fin 1 → ℝ) :
    energyOf (tfim (chainBonds 1 false) 1 0) tilt θ = -1 / Real.cosh (2 * θ 0) := by
  have hall : allSpins (Fin 1) = {fun _ => 1, fun _ => -1} := by decide
  have hne : (fun _ : Fin 1 => (1 : ℤ)) ≠ fun _ => -1 := by decide
  unfold energyOf Energy.rayleigh
  rw [hall, Finset.sum_pair hne, Finset.sum_pair hne]
  have hup : pauliX (0 : Fin 1) (fun s => Complex.exp (tilt θ s)) (fun _ => 1) = Complex.exp (tilt θ fun _ => -1) := by
    unfold pauliX
    congr 2
    funext i
    fin_cases i
    simp [Operators.flip]
  have hdown : pauliX (0 : Fin 1) (fun s => Complex.exp (tilt θ s)) (fun _ => -1) = Complex.exp (tilt θ fun _ => 1) := by
    unfold pauliX
    congr 2
    funext i
    fin_cases i
    simp [Operators.flip]
  have h1 : tilt θ (fun _ => 1) = ((θ 0 : ℝ) : ℂ) := by simp [tilt]
  have h2 : tilt θ (fun _ => -1) = ((-θ 0 : ℝ) : ℂ) := by simp [tilt]
  unfold tfim
  simp only [Fin.sum_univ_one, hup, hdown, Fin.isValue, h1, h2, ← Complex.ofReal_exp, Complex.conj_ofReal, Complex.ofReal_zero,
    neg_zero, zero_mul, zero_sub, Complex.ofReal_one, one_mul]
  rw [← Complex.ofReal_neg, ← Complex.ofReal_neg, ← Complex.ofReal_mul, ← Complex.ofReal_mul, ← Complex.ofReal_mul,
    ← Complex.ofReal_mul, ← Complex.ofReal_add, ← Complex.ofReal_add, ← Complex.ofReal_div, Complex.ofReal_re]
  have hp : Real.exp (θ 0) * Real.exp (-θ 0) = 1 := by rw [← Real.exp_add]; simp
  rw [Real.cosh_eq, ← Real.exp_add, ← Real.exp_add, mul_neg, mul_neg, hp, mul_comm (Real.exp (-θ 0)), hp,
    show θ 0 + θ 0 = 2 * θ 0 by ring, show -θ 0 + -θ 0 = -(2 * θ 0) by ring]
  have : 0 < Real.exp (2 * θ 0) + Real.exp (-(2 * θ 0)) := by positivity
  field_simp
  norm_num

/-- Gradient descent with the given learning rate. -/
noncomputable def plainDescent (lr : ℝ) : Optimizer (Fin 1 → ℝ) (Fin 1 → ℝ) (Fin 1 → ℝ) := ⟨fun p g => p - lr • g, id, fun _ p => p⟩

/-- The gradient of the loss of one state for `tilt`. -/
noncomputable def tiltGrad (_ : Fin 1 → ℝ) (x : Config (Fin 1) × ℂ) : Fin 1 → ℝ := fun _ => 2 * (x.2 * ((x.1 0 : ℝ) : ℂ)).re

theorem deriv_energy (x : ℝ) : HasDerivAt (fun t => -1 / Real.cosh (2 * t)) (2 * Real.sinh (2 * x) / Real.cosh (2 * x) ^ 2) x := by
  have h1 : HasDerivAt (fun t : ℝ => 2 * t) 2 x := by simpa using (hasDerivAt_id x).const_mul 2
  have h2 := (Real.hasDerivAt_cosh (2 * x)).comp x h1
  have h3 := (hasDerivAt_const x (-1 : ℝ)).div h2 (Real.cosh_pos _).ne'
  refine h3.congr_deriv ?_
  simp only [Function.comp]
  ring

/-- **C124 is false of the code** also if the callbacks log at the end of epochs: gradient descent for one spin in a transverse field with two
epochs of one step. The first step goes too far, the second one part of the way back. The checkpoint of the best model then holds weights with a higher
energy than it has recorded for them, and higher than that of the weights after the second epoch, which it rejected. -/
theorem C124_violated_epoch_mode : ∃ (lr : ℝ) (st0 : ExactState (Config (Fin 1)) (Fin 1 → ℝ) 1) (b : Best (Fin 1 → ℝ)) (θ : Fin 1 → ℝ)
    (v : ℝ), 0 < lr ∧
    exactSetup (spinSetup (Equiv.refl (Fin 1)) (fun _ sample => isingFindConn1 (.float 1) 0 false sample) 2) 2 (fun _ => 1) = some st0 ∧
    exactBest "energy/energy" (plainDescent lr) ⟨true, 0⟩ tilt tiltGrad (defaultLoggers none false) 1 st0 2 = some b ∧
    b.file = some θ ∧ b.best = some v ∧ v < energyOf (tfim (chainBonds 1 false) 1 0) tilt θ ∧
    energyOf (tfim (chainBonds 1 false) 1 0) tilt (weightsAfter (plainDescent lr) ⟨true, 0⟩ tilt tiltGrad st0 2) <
      energyOf (tfim (chainBonds 1 false) 1 0) tilt θ := by
  set G : ℝ → ℝ := fun x => 2 * Real.sinh (2 * x) / Real.cosh (2 * x) ^ 2 with hG
  have hc2 : 2 ≤ Real.cosh 2 := by
    have h1 := Real.add_one_le_exp 1
    have h2 : Real.exp 2 = Real.exp 1 * Real.exp 1 := by rw [← Real.exp_add]; norm_num
    have h3 := Real.exp_pos (-2)
    rw [Real.cosh_eq]
    nlinarith
  have hs2 : 0 < Real.sinh 2 := Real.sinh_pos_iff.2 (by norm_num)
  have hG1 : 0 < G 1 := by
    simp only [hG, mul_one]
    positivity
  have hlr : 0 < 6 / G 1 := by positivity
  obtain ⟨st0, hst, grad, hgrad, htrain⟩ := C98_ising_chain 1 (by norm_num) 1 0 false 2 (by norm_num) (Or.inl (by norm_num))
    (Fin 1 → ℝ) 1 (plainDescent (6 / G 1)) ⟨true, 0⟩ tilt (fun _ _ s => ((s 0 : ℝ) : ℂ)) tiltGrad
    (by
      intro θ k s _
      have hk : k = 0 := Subsingleton.elim _ _
      subst hk
      unfold tilt
      simp only [Function.update_self]
      have := ((hasDerivAt_id (θ 0)).mul_const (s 0 : ℝ)).ofReal_comp
      simpa using this)
    (by
      intro θ k s c _
      have hk : k = 0 := Subsingleton.elim _ _
      subst hk
      unfold tilt tiltGrad loss
      simp only [Function.update_self, Complex.re_ofReal_mul, Complex.re_mul_ofReal]
      have := ((hasDerivAt_id (θ 0)).mul_const (s 0 : ℝ)).mul_const c.re |>.const_mul 2
      refine this.congr_deriv ?_
      ring) (fun _ => 1)
  have hgr : ∀ θ, grad θ 0 = G (θ 0) := by
    intro θ
    refine (hgrad θ 0).unique ?_
    have := deriv_energy (θ 0)
    have he : (fun t => (Energy.rayleigh (tfim (chainBonds 1 false) 1 0) fun s => Complex.exp (tilt (Function.update θ 0 t) s)).re) =
        fun t => -1 / Real.cosh (2 * t) := by
      funext t
      have := energyOf_tilt (Function.update θ 0 t)
      rw [Function.update_self] at this
      exact this
    rw [he]
    exact this
  have hw : ∀ t, weightsAfter (plainDescent (6 / G 1)) ⟨true, 0⟩ tilt tiltGrad st0 t =
      descent (plainDescent (6 / G 1)) grad (1 / 2) (fun _ => 1) t := by
    intro t
    unfold weightsAfter
    rw [htrain]
    norm_num
    rfl
  have hstep : ∀ t, descent (plainDescent (6 / G 1)) grad (1 / 2) (fun _ => 1) (t + 1) 0 =
      descent (plainDescent (6 / G 1)) grad (1 / 2) (fun _ => 1) t 0 -
        3 / G 1 * G (descent (plainDescent (6 / G 1)) grad (1 / 2) (fun _ => 1) t 0) := by
    intro t
    rw [← hgr]
    show _ - 6 / G 1 * (1 / 2 * grad _ 0) = _
    simp only [plainDescent, id]
    ring
  have w0 : descent (plainDescent (6 / G 1)) grad (1 / 2) (fun _ => 1) 0 0 = 1 := rfl
  have w1 : descent (plainDescent (6 / G 1)) grad (1 / 2) (fun _ => 1) 1 0 = -2 := by
    rw [hstep, w0]
    field_simp
    norm_num
  have hratio : 0 < 3 / G 1 * G 2 ∧ 3 / G 1 * G 2 < 4 := by
    have hc4 : Real.cosh 4 = 2 * Real.cosh 2 ^ 2 - 1 := by
      have := Real.cosh_two_mul 2
      have h2 := Real.cosh_sq 2
      norm_num at this
      linarith
    have hs4 : Real.sinh 4 = 2 * Real.sinh 2 * Real.cosh 2 := by
      have := Real.sinh_two_mul 2
      norm_num at this
      exact this
    have hG2 : G 2 = 4 * Real.sinh 2 * Real.cosh 2 / (2 * Real.cosh 2 ^ 2 - 1) ^ 2 := by
      simp only [hG]
      norm_num
      rw [hc4, hs4]
      ring
    have hG1' : G 1 = 2 * Real.sinh 2 / Real.cosh 2 ^ 2 := by simp only [hG]; norm_num
    have hpos : 0 < 2 * Real.cosh 2 ^ 2 - 1 := by nlinarith
    rw [hG2, hG1']
    have : 3 / (2 * Real.sinh 2 / Real.cosh 2 ^ 2) * (4 * Real.sinh 2 * Real.cosh 2 / (2 * Real.cosh 2 ^ 2 - 1) ^ 2) =
        6 * Real.cosh 2 ^ 3 / (2 * Real.cosh 2 ^ 2 - 1) ^ 2 := by
      field_simp
      ring
    rw [this]
    constructor
    · positivity
    · rw [div_lt_iff₀ (by positivity)]
      have hle : Real.cosh 2 ^ 2 ≤ 2 * Real.cosh 2 ^ 2 - 1 := by nlinarith
      have hsq : (Real.cosh 2 ^ 2) ^ 2 ≤ (2 * Real.cosh 2 ^ 2 - 1) ^ 2 := by
        apply pow_le_pow_left₀ (by positivity) hle
      have : 6 * Real.cosh 2 ^ 3 < 4 * (Real.cosh 2 ^ 2) ^ 2 := by
        have h3 : 0 < Real.cosh 2 ^ 3 := by positivity
        nlinarith
      linarith
  have hodd : G (-2) = -G 2 := by
    simp only [hG]
    norm_num
    ring
  have w2 : |descent (plainDescent (6 / G 1)) grad (1 / 2) (fun _ => 1) 2 0| < 2 := by
    rw [hstep, w1, hodd, abs_lt]
    constructor <;> linarith [hratio.1, hratio.2]
  have hmono : ∀ a b : ℝ, |a| < |b| → -1 / Real.cosh (2 * a) < -1 / Real.cosh (2 * b) := by
    intro a b hab
    rw [neg_div, neg_div, neg_lt_neg_iff]
    apply one_div_lt_one_div_of_lt (Real.cosh_pos _)
    rw [Real.cosh_lt_cosh, abs_mul, abs_mul]
    have : (0 : ℝ) < |2| := by norm_num
    exact mul_lt_mul_of_pos_left hab this
  obtain ⟨b, j, h1, h2, h3, h4, h5⟩ := C124_stale (Equiv.refl (Fin 1)) (by norm_num)
    (fun _ sample => isingFindConn1 (.float 1) 0 false sample) 2 _ (rowsOf_ising_chain 1 1 0 false)
    (tfim (chainBonds 1 false) 1 0) (fun s _ ψ => C06_ising_chain 1 0 false (fun _ : Fin 1 => s) 0 ψ) 2
    (plainDescent (6 / G 1)) ⟨true, 0⟩ tilt tiltGrad (fun _ => 1) st0 hst none 1 (by norm_num) 2 (by norm_num)
  simp only [energyOf_tilt, hw] at h3 h4 h5
  have hj : j = 0 := by
    by_contra hne
    have hj1 : j = 1 := by omega
    subst hj1
    have := (h5 0 (by norm_num)).1
    norm_num at this
    rw [w0, w1] at this
    have h6 := hmono 1 (-2) (by norm_num)
    norm_num at h6 this
    linarith
  subst hj
  refine ⟨6 / G 1, st0, b, _, _, hlr, hst, h1, h3, h4, ?_, ?_⟩
  · rw [energyOf_tilt]
    apply hmono
    norm_num
    rw [w0, w1]
    norm_num
  · rw [energyOf_tilt, energyOf_tilt, hw]
    apply hmono
    norm_num
    rw [w1]
    simpa using w2

end witness

/-- The hypotheses of `C124_partial` and `C124_stops_partial` are met: whole batches of eight validation samples, validation every second
epoch, ten epochs from epoch 3. -/
example : (∃ st0 : Generator Unit (Fin 2), setSampler (fun _ => 8)
    { sampler := (), batchSize := 0, miniBatchSize := 0, idx := 0, updateParamsFrequency := 0, x := [], drawn := 0 }
    () none = some st0) ∧ ∃ j, j < 10 ∧ 2 ∣ 3 + j := ⟨⟨_, rfl⟩, 1, by decide, by decide⟩

/-- The hypotheses of `C124_exact`, `C124_stale` and `C124_violated_exact_default` are met: the Ising chain of three sites, batches of four states. -/
example (h j : ℝ) : ∃ st0 : ExactState (Config (Fin 3)) (Fin 2 → ℝ) 2,
    exactSetup (spinSetup (Equiv.refl (Fin 3)) (fun _ sample => isingFindConn1 (.float h) j true sample) 4) 4
      (fun _ => 0) = some st0 ∧
    RowsOf (ι := Fin 3) (fun _ sample => isingFindConn1 (.float h) j true sample) 4
      (fun s => isingFindConn1 (.float h) j true (fun _ : Fin 1 => s) 0) := by
  obtain ⟨st0, hst, -⟩ := C98_ising_chain 3 (by norm_num) h j true 4 (by norm_num) (Or.inr (by norm_num)) (Fin 2 → ℝ) 2
    ⟨fun p g => p - g, id, fun _ p => p⟩ ⟨true, 0⟩ (fun _ _ => 0) (fun _ _ _ => 0) (fun _ _ _ => 0)
    (fun θ k s _ => hasDerivAt_const _ _) (fun θ k s c _ => hasDerivAt_const _ _) (fun _ => 0)
  exact ⟨st0, hst, rowsOf_ising_chain 3 h j true⟩

/-- A stop with patience 2: energies 3, 1, 2, 1, 0 stop after the fourth epoch. -/
example : epochsUntil "a" 0 2 ⟨none, 0⟩ [[("a", 3)], [("a", 1)], [("a", 2)], [("a", 1)], [("a", 0)]] = 4 := by
  norm_num [epochsUntil, Waiting.epochEnd, Logs.read]

end Verif.Callbacks
