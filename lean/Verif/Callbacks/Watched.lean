import Verif.Callbacks.Props

/-!
C120: whose numbers an evaluation shows.  `evaluate(generator, steps, callbacks)` advances `generator`, but the
numbers come from the callbacks, and a callback reads the generator it was made with
(`self.generator`).  The two need not be the same object: the evaluation at the end of
`examples/j1j2_2d_monte_carlo_4.py` hands over a generator of the symmetrised model together with the
callbacks of the training generator.
-/
namespace Verif.Callbacks

open Verif.Training Verif.Energy Verif.Operators

variable {ι : Type} [Fintype ι] {S : Type}

/-- The two objects of an evaluation: the generator given to `evaluate`, and what its callbacks can see, with the
generator that they were made with in `world.gen`. -/
structure Watch (S ι : Type) where
  evaluated : Generator S ι
  world : World S ι

/-- `next(generator)` in `evaluate` (evaluate.py 20), and the passing of time. `same` says that the callbacks
were made with the evaluated generator; otherwise neither the batch nor the time stamps of the generator
that they read change (variational_monte_carlo.py 42-50 writes to the attributes of the advanced object only). -/
noncomputable def advance (same : Bool) (draw : S → ℕ → List (Config ι × ℂ)) (clock : ℕ → Fin 4 → ℝ) (i : ℕ)
    (p : Watch S ι) : Watch S ι :=
  let g := (nextMiniBatch draw p.evaluated).1
  { evaluated := g
    world :=
      if same then { p.world with
        gen := g, start := clock i 0, samplingEnd := clock i 1, localEnergyEnd := clock i 2, now := clock i 3 }
      else { p.world with now := clock i 3 } }

/-- The loop of `evaluate` (evaluate.py 18-27) for any generator and callbacks. -/
noncomputable def watchLoop (same : Bool) (draw drawVal : S → ℕ → List (Config ι × ℂ)) (clock : ℕ → Fin 4 → ℝ)
    (cbs : List (Callback ι)) (bar : Option (List String)) : ℕ → ℕ → Watch S ι → List Logs → Except Err (List Logs)
  | 0, _, _, ls => .ok ls
  | n + 1, i, p, ls =>
    let p1 := advance same draw clock i p
    let r := runCallbacks drawVal i cbs p1.world []
    let ls' := ls ++ [r.2]
    match bar with
    | none => watchLoop same draw drawVal clock cbs bar n (i + 1) { p1 with world := r.1 } ls'
    | some ks =>
      match meanLogs ls' (some ks) with
      | .error e => .error e
      | .ok _ => watchLoop same draw drawVal clock cbs bar n (i + 1) { p1 with world := r.1 } ls'

/-- `evaluate` (evaluate.py 15-28) for any generator and callbacks. -/
noncomputable def evaluateWatch (same : Bool) (draw drawVal : S → ℕ → List (Config ι × ℂ))
    (clock : ℕ → Fin 4 → ℝ) (steps : ℕ) (cbs : List (Callback ι)) (bar : Option (List String))
    (p : Watch S ι) : Except Err Logs :=
  match watchLoop same draw drawVal clock cbs bar steps 0 p [] with
  | .error e => .error e
  | .ok ls => meanLogs ls none

/-- The four places in the repository that evaluate a symmetrised model. -/
inductive Script where
  /-- `experiments/train.py` 143-149. -/
  | train
  /-- `experiments/run_evaluation.py` 21-26. -/
  | runEvaluation
  /-- `examples/evaluate_with_2d_obc_invariant.py` 42-46. -/
  | obcExample
  /-- `examples/j1j2_2d_monte_carlo_4.py` 79-82. -/
  | j1j2
deriving DecidableEq

/-- Whether the callbacks are made with the generator that is evaluated. train.py 143-144, run_evaluation.py 21-22
and evaluate_with_2d_obc_invariant.py 43-44 make new callbacks for it; j1j2_2d_monte_carlo_4.py 81 passes
`callbacks[:4]`, made in line 59 with the training generator. -/
def Script.same : Script → Bool
  | .j1j2 => false
  | _ => true

/-- The batches of the generator made for the evaluation: samples `xs s k` of the sampler, each with the local
energy of the given wave function (variational_monte_carlo.py 34-36, 42-50). -/
def batches (xs : S → ℕ → List (Config ι)) (energyOf : Config ι → ℂ) (s : S) (k : ℕ) : List (Config ι × ℂ) :=
  (xs s k).map fun c => (c, energyOf c)

/-- The evaluation of a script: callbacks with the ground state energy `truth`, logging at the end of epochs, and
the first four of them (j1j2_2d_monte_carlo_4.py 59-60, 81; evaluate_with_2d_obc_invariant.py 44-46 keeps the
default of logging at the end of batches and passes all four). `local energies` are those of the
symmetrised model. -/
noncomputable def Script.evaluate (sc : Script) (xs : S → ℕ → List (Config ι)) (energyOf : Config ι → ℂ)
    (drawVal : S → ℕ → List (Config ι × ℂ)) (clock : ℕ → Fin 4 → ℝ) (steps : ℕ) (truth : ℝ) (p : Watch S ι) :
    Except Err Logs :=
  evaluateWatch sc.same (batches xs energyOf) drawVal clock steps
    ((defaultCallbacks (some truth) (decide (sc = .obcExample)) false 1).take 4)
    (some (["energy/energy", "energy/relative_error"] ++
      (if sc = .train ∨ sc = .runEvaluation then ["energy/local_energy_variance"] else []))) p

/-! ### Running the loop -/

/-- What callbacks see in step `t` of an evaluation that starts with `p`. -/
noncomputable def watchAt (same : Bool) (draw : S → ℕ → List (Config ι × ℂ)) (clock : ℕ → Fin 4 → ℝ)
    (p : Watch S ι) (i : ℕ) : ℕ → Watch S ι
  | 0 => advance same draw clock i p
  | t + 1 => advance same draw clock (i + t + 1) (watchAt same draw clock p i t)

omit [Fintype ι] in
theorem watchAt_shift (same : Bool) (draw : S → ℕ → List (Config ι × ℂ)) (clock : ℕ → Fin 4 → ℝ) (p : Watch S ι)
    (i t : ℕ) :
    watchAt same draw clock (advance same draw clock i p) (i + 1) t = watchAt same draw clock p i (t + 1) := by
  induction t with
  | zero => rfl
  | succ t ih =>
    show advance _ _ _ (i + 1 + t + 1) _ = advance _ _ _ (i + (t + 1) + 1) _
    rw [ih, show i + 1 + t + 1 = i + (t + 1) + 1 by omega]

theorem watchLoop_ok (same : Bool) (draw drawVal : S → ℕ → List (Config ι × ℂ)) (clock : ℕ → Fin 4 → ℝ)
    (cbs : List (Callback ι)) (L : World S ι → Logs)
    (hcbs : ∀ i w, runCallbacks drawVal i cbs w [] = (w, L w)) (bar : Option (List String))
    (hbar : ∀ ks, bar = some ks → ∀ k ∈ ks, ∀ w, (L w).read k ≠ none) :
    ∀ (n i : ℕ) (p : Watch S ι) (ls : List Logs),
    (∀ l ∈ ls, ∃ w, l = L w) →
    watchLoop same draw drawVal clock cbs bar n i p ls
      = .ok (ls ++ (List.range n).map fun t => L (watchAt same draw clock p i t).world) := by
  intro n
  induction n with
  | zero => intro i p ls _; simp [watchLoop]
  | succ n ih =>
    intro i p ls hls
    have hls' : ∀ l ∈ ls ++ [L (advance same draw clock i p).world], ∃ w, l = L w := by
      intro l hl
      rcases List.mem_append.mp hl with h | h
      · exact hls l h
      · exact ⟨_, List.mem_singleton.mp h⟩
    have hrec := ih (i + 1) (advance same draw clock i p) (ls ++ [L (advance same draw clock i p).world]) hls'
    have hgoal : (ls ++ [L (advance same draw clock i p).world]) ++ ((List.range n).map fun t =>
        L (watchAt same draw clock (advance same draw clock i p) (i + 1) t).world)
        = ls ++ (List.range (n + 1)).map fun t => L (watchAt same draw clock p i t).world := by
      rw [List.range_succ_eq_map, List.map_cons, List.map_map, List.append_assoc]
      simp only [watchAt_shift]
      rfl
    rw [hgoal] at hrec
    unfold watchLoop
    dsimp only
    rw [hcbs]
    cases bar with
    | none => exact hrec
    | some ks =>
      dsimp only
      have hm : meanLogs (ls ++ [L (advance same draw clock i p).world]) (some ks) = .ok
          (ks.map fun k => (k, logMean (ls ++ [L (advance same draw clock i p).world]) k)) := by
        unfold meanLogs
        apply mapM_meanKey_ok
        intro k hk l hl
        obtain ⟨w', rfl⟩ := hls' l hl
        exact hbar ks rfl k hk w'
      rw [hm]
      exact hrec

theorem evaluateWatch_ok (same : Bool) (draw drawVal : S → ℕ → List (Config ι × ℂ)) (clock : ℕ → Fin 4 → ℝ)
    (steps : ℕ) (hsteps : 0 < steps) (cbs : List (Callback ι)) (L : World S ι → Logs) (keys : List String)
    (hkeys : ∀ w, (L w).map Prod.fst = keys)
    (hcbs : ∀ i w, runCallbacks drawVal i cbs w [] = (w, L w)) (bar : Option (List String))
    (hbar : ∀ ks, bar = some ks → ∀ k ∈ ks, k ∈ keys) (p : Watch S ι) :
    ∃ R, evaluateWatch same draw drawVal clock steps cbs bar p = .ok R ∧ ∀ k, R.read k =
      if k ∈ keys then some (((List.range steps).map fun t =>
        ((L (watchAt same draw clock p 0 t).world).read k).getD 0).sum / steps) else none := by
  have hne : ∀ k ∈ keys, ∀ w, (L w).read k ≠ none := fun k hk w =>
    (read_ne_none _ _).mpr (by rw [hkeys]; exact hk)
  have hloop := watchLoop_ok same draw drawVal clock cbs L hcbs bar
    (fun ks hks k hk w => hne k (hbar ks hks k hk) w) steps 0 p [] (by simp)
  rw [List.nil_append] at hloop
  set ls := (List.range steps).map fun t => L (watchAt same draw clock p 0 t).world with hls
  refine ⟨keys.map fun k => (k, logMean ls k), ?_, ?_⟩
  · unfold evaluateWatch
    rw [hloop]
    dsimp only
    have hall : ∀ k ∈ keys, ∀ l ∈ ls, l.read k ≠ none := by
      intro k hk l hl
      obtain ⟨t, -, rfl⟩ := List.mem_map.mp hl
      exact hne k hk _
    cases hl : ls with
    | nil =>
      have := congrArg List.length hl
      rw [hls, List.length_map, List.length_range] at this
      simp at this; omega
    | cons l rest =>
      have h1 : l.map Prod.fst = keys := by
        have : l ∈ ls := by rw [hl]; exact List.mem_cons_self
        obtain ⟨t, -, rfl⟩ := List.mem_map.mp this
        exact hkeys _
      show (l.map Prod.fst).mapM (meanKey (l :: rest)) = _
      rw [h1]
      rw [hl] at hall
      exact mapM_meanKey_ok _ _ hall
  · intro k
    rw [read_map]
    unfold logMean
    simp [hls, List.map_map, Function.comp_def]

theorem watchAt_evaluated (same : Bool) (draw : S → ℕ → List (Config ι × ℂ)) (clock : ℕ → Fin 4 → ℝ)
    (p : Watch S ι) (i t : ℕ) :
    (watchAt same draw clock p i t).evaluated = (nexts draw (t + 1) p.evaluated).1 := by
  induction t generalizing p i with
  | zero => rfl
  | succ t ih =>
    rw [← watchAt_shift, ih]
    rfl

omit [Fintype ι] in
theorem watchAt_same (draw : S → ℕ → List (Config ι × ℂ)) (clock : ℕ → Fin 4 → ℝ) (p : Watch S ι) (i t : ℕ) :
    (watchAt true draw clock p i t).world.gen = (watchAt true draw clock p i t).evaluated := by
  cases t <;> rfl

omit [Fintype ι] in
theorem watchAt_other (draw : S → ℕ → List (Config ι × ℂ)) (clock : ℕ → Fin 4 → ℝ) (p : Watch S ι) (i t : ℕ) :
    (watchAt false draw clock p i t).world.gen = p.world.gen := by
  induction t with
  | zero => rfl
  | succ t ih => exact ih

/-- What the evaluation of a script returns: the mean over the steps of what the callbacks see. -/
theorem script_ok (sc : Script) (xs : S → ℕ → List (Config ι)) (energyOf : Config ι → ℂ)
    (drawVal : S → ℕ → List (Config ι × ℂ)) (clock : ℕ → Fin 4 → ℝ) (steps : ℕ) (hsteps : 0 < steps) (truth : ℝ)
    (p : Watch S ι) :
    let seen : ℕ → List (Config ι × ℂ) := fun t =>
      (watchAt sc.same (batches xs energyOf) clock p 0 t).world.gen.x
    let avg : (List (Config ι × ℂ) → ℝ) → ℝ := fun q => ((List.range steps).map fun t => q (seen t)).sum / steps
    ∃ R, sc.evaluate xs energyOf drawVal clock steps truth p = .ok R ∧
      R.read "energy/energy" = some (avg fun x => (batchEnergy x).re) ∧
      R.read "energy/relative_error" = some (avg fun x => (truth - (batchEnergy x).re) / truth) ∧
      R.read "observables/sigma_z" = some (avg (batchObservable sigmaZ)) ∧
      R.read "observables/abs_sigma_z" = some (avg (batchObservable absSigmaZ)) := by
  intro seen avg
  have htake : ∀ b : Bool, (defaultCallbacks (ι := ι) (some truth) b false 1).take 4
      = defaultCallbacks (some truth) b false 1 := fun b => rfl
  obtain ⟨R, hR, hread⟩ := evaluateWatch_ok sc.same (batches xs energyOf) drawVal clock steps hsteps
    ((defaultCallbacks (some truth) (decide (sc = .obcExample)) false 1).take 4)
    (stdLogs (some truth)) _ (keys_std (some truth))
    (fun i w => by rw [htake]; exact runCallbacks_default drawVal (some truth) _ 1 i w)
    (some (["energy/energy", "energy/relative_error"] ++
      (if sc = .train ∨ sc = .runEvaluation then ["energy/local_energy_variance"] else [])))
    (by
      rintro ks ⟨rfl⟩ k hk
      rcases List.mem_append.mp hk with h | h
      · simp only [List.mem_cons, List.not_mem_nil, or_false] at h
        rcases h with rfl | rfl <;> simp
      · split at h
        · simp only [List.mem_cons, List.not_mem_nil, or_false] at h
          subst h; simp
        · exact absurd h List.not_mem_nil) p
  refine ⟨R, hR, ?_, ?_, ?_, ?_⟩
  · rw [hread, if_pos (by simp)]
    simp only [read_std_energy, Option.getD_some]
    rfl
  · rw [hread, if_pos (by simp)]
    simp only [read_std_error, Option.map_some, Option.getD_some]
    rfl
  · rw [hread, if_pos (by simp)]
    simp only [read_std_sigma, Option.getD_some]
    rfl
  · rw [hread, if_pos (by simp)]
    simp only [read_std_abs, Option.getD_some]
    rfl

/-! ### C120 -/

/-- Specification: `R` holds the mean energy, the relative error and the magnetisations of the samples `all`,
where the energy is the mean of the local energies `energyOf` of the evaluated wave function. -/
def ReportOf (energyOf : Config ι → ℂ) (truth : ℝ) (all : List (Config ι)) (R : Logs) : Prop :=
  let E := (all.map fun c => (energyOf c).re).sum / all.length
  R.read "energy/energy" = some E ∧
  R.read "energy/relative_error" = some ((truth - E) / truth) ∧
  R.read "observables/sigma_z" = some ((all.map sigmaZ).sum / all.length) ∧
  R.read "observables/abs_sigma_z" = some ((all.map absSigmaZ).sum / all.length)

theorem avg_flatten {β : Type} (g : β → ℝ) (steps B : ℕ) (hB : 0 < B) (b : ℕ → List β) (hlen : ∀ t, (b t).length = B) :
    ((List.range steps).map fun t => ((b t).map g).sum / ((b t).length : ℝ)).sum / steps
      = ((((List.range steps).map b).flatten).map g).sum / (((List.range steps).map b).flatten.length : ℕ) := by
  rw [sum_flatten_div g _ B hB (by
    intro x hx
    obtain ⟨t, -, rfl⟩ := List.mem_map.mp hx
    exact hlen t), List.map_map, List.length_map, List.length_range]
  rfl

theorem avg_affine (f : ℕ → ℝ) (steps : ℕ) (hsteps : 0 < steps) (t : ℝ) :
    ((List.range steps).map fun k => (t - f k) / t).sum / steps
      = (t - ((List.range steps).map f).sum / steps) / t := by
  have h : ∀ l : List ℕ, (l.map fun k => (t - f k) / t).sum = (l.length * t - (l.map f).sum) / t := by
    intro l
    induction l with
    | nil => simp
    | cons a l ih =>
      simp only [List.map_cons, List.sum_cons, List.length_cons, ih]
      push_cast
      ring
  have h0 : (steps : ℝ) ≠ 0 := by exact_mod_cast hsteps.ne'
  rw [h, List.length_range]
  by_cases ht : t = 0
  · subst ht; simp
  · field_simp

/-- **C120**, the scripts for which it holds: `experiments/train.py`, `experiments/run_evaluation.py` and
`examples/evaluate_with_2d_obc_invariant.py` report the numbers of the evaluated (symmetrised) wave function, on
`steps` fresh batches of the sampler, whatever the training generator held before (`p.world`). In these
scripts the mini batch of the new generator is its batch. -/
theorem C120_partial (sc : Script) (hsc : sc ≠ .j1j2) (size : S → ℕ) (xs : S → ℕ → List (Config ι))
    (energyOf : Config ι → ℂ) (drawVal : S → ℕ → List (Config ι × ℂ)) (clock : ℕ → Fin 4 → ℝ) (steps : ℕ)
    (hsteps : 0 < steps) (truth : ℝ) (p : Watch S ι) (s : S) (st : Generator S ι)
    (h0 : setSampler size st s none = some p.evaluated) (hlen : ∀ k, (xs s k).length = size s) :
    ∃ R, sc.evaluate xs energyOf drawVal clock steps truth p = .ok R ∧
      ReportOf energyOf truth (((List.range steps).map fun t => xs s (st.drawn + t)).flatten) R := by
  have hsame : sc.same = true := by cases sc <;> first | rfl | exact absurd rfl hsc
  obtain ⟨R, hR, h1, h2, h3, h4⟩ := script_ok sc xs energyOf drawVal clock steps hsteps truth p
  refine ⟨R, hR, ?_⟩
  obtain ⟨-, -, e3, e4, e5, -, -, -, -⟩ := setBatchSize_spec _ _ _ _ h0
  have hpos : 0 < size s := lt_of_lt_of_le e3 e4
  have hm : p.evaluated.miniBatchSize = size s := by rw [e5]; simp
  have hb : ∀ t, (watchAt sc.same (batches xs energyOf) clock p 0 t).world.gen.x
      = batches xs energyOf s (st.drawn + t) := by
    intro t
    rw [hsame, watchAt_same, watchAt_evaluated]
    have := batch_at size (batches xs energyOf) clock st { p.world with gen := p.evaluated } s none h0 0 t
    rw [show (worldAt (batches xs energyOf) clock { p.world with gen := p.evaluated } 0 t).gen
      = (nexts (batches xs energyOf) (t + 1) p.evaluated).1 from rfl] at this
    rw [this]
    show batches xs energyOf s (st.drawn + t / (size s / p.evaluated.miniBatchSize)) = _
    rw [hm, Nat.div_self hpos, Nat.div_one]
  simp only [hb] at h1 h2 h3 h4
  have he : ∀ t, (batchEnergy (batches xs energyOf s (st.drawn + t))).re
      = ((xs s (st.drawn + t)).map fun c => (energyOf c).re).sum / ((xs s (st.drawn + t)).length : ℝ) := by
    intro t
    rw [batchEnergy_re]
    simp [batches, List.map_map, Function.comp_def]
  have ho : ∀ (f : Config ι → ℝ) (t : ℕ), batchObservable f (batches xs energyOf s (st.drawn + t))
      = ((xs s (st.drawn + t)).map f).sum / ((xs s (st.drawn + t)).length : ℝ) := by
    intro f t
    simp [batchObservable, batches, List.map_map, Function.comp_def]
  have hE := avg_flatten (fun c => (energyOf c).re) steps (size s) hpos (fun t => xs s (st.drawn + t))
    (fun t => hlen _)
  refine ⟨?_, ?_, ?_, ?_⟩
  · rw [h1, ← hE]; simp only [he]
  · rw [h2, avg_affine (fun t => (batchEnergy (batches xs energyOf s (st.drawn + t))).re) steps hsteps truth, ← hE]
    simp only [he]
  · rw [h3]; simp only [ho]
    rw [avg_flatten sigmaZ steps (size s) hpos (fun t => xs s (st.drawn + t)) (fun t => hlen _)]
  · rw [h4]; simp only [ho]
    rw [avg_flatten absSigmaZ steps (size s) hpos (fun t => xs s (st.drawn + t)) (fun t => hlen _)]

theorem avg_const (c : ℝ) (steps : ℕ) (hsteps : 0 < steps) :
    ((List.range steps).map fun _ => c).sum / steps = c := by
  have h0 : (steps : ℝ) ≠ 0 := by exact_mod_cast hsteps.ne'
  rw [List.map_const', List.length_range, List.sum_replicate, nsmul_eq_mul]
  field_simp

/-- **C120 is false of `examples/j1j2_2d_monte_carlo_4.py`**: however many batches are drawn and whatever the
symmetrised wave function, the evaluation reports the energy and the magnetisations of the last training
batch, computed with the network that was trained and not with the symmetrised one. -/
theorem C120_violated_stale (xs : S → ℕ → List (Config ι)) (energyOf : Config ι → ℂ)
    (drawVal : S → ℕ → List (Config ι × ℂ)) (clock : ℕ → Fin 4 → ℝ) (steps : ℕ) (hsteps : 0 < steps) (truth : ℝ)
    (p : Watch S ι) (last : List (Config ι)) (trainedEnergy : Config ι → ℂ)
    (hlast : p.world.gen.x = last.map fun c => (c, trainedEnergy c)) :
    ∃ R, Script.j1j2.evaluate xs energyOf drawVal clock steps truth p = .ok R ∧
      ReportOf trainedEnergy truth last R := by
  obtain ⟨R, hR, h1, h2, h3, h4⟩ := script_ok .j1j2 xs energyOf drawVal clock steps hsteps truth p
  refine ⟨R, hR, ?_⟩
  simp only [show Script.j1j2.same = false from rfl, watchAt_other, avg_const _ steps hsteps] at h1 h2 h3 h4
  have he : (batchEnergy p.world.gen.x).re = (last.map fun c => (trainedEnergy c).re).sum / (last.length : ℝ) := by
    rw [batchEnergy_re, hlast]; simp [List.map_map, Function.comp_def]
  have ho : ∀ f : Config ι → ℝ, batchObservable f p.world.gen.x = (last.map f).sum / (last.length : ℝ) := by
    intro f
    rw [hlast]; simp [batchObservable, List.map_map, Function.comp_def]
  exact ⟨by rw [h1, he], by rw [h2, he], by rw [h3, ho], by rw [h4, ho]⟩

/-- **C120 is false of `examples/j1j2_2d_monte_carlo_4.py`**, a case: the samples of the evaluation have local
energy zero and the ones of the last training batch have local energy one; the reported energy is one, and no
choice of evaluation samples makes the report one of the symmetrised wave function. -/
theorem C120_violated_j1j2 (drawVal : Unit → ℕ → List (Config (Fin 1) × ℂ)) (clock : ℕ → Fin 4 → ℝ) (steps : ℕ)
    (hsteps : 0 < steps) (xs : Unit → ℕ → List (Config (Fin 1))) (g : Generator Unit (Fin 1)) :
    ∃ (p : Watch Unit (Fin 1)) (R : Logs), p.evaluated = g ∧
      Script.j1j2.evaluate xs (fun _ => 0) drawVal clock steps (-2) p = .ok R ∧
      R.read "energy/energy" = some 1 ∧
      ∀ all : List (Config (Fin 1)), ¬ ReportOf (fun _ => 0) (-2) all R := by
  obtain ⟨R, hR, h⟩ := C120_violated_stale xs (fun _ => 0) drawVal clock steps hsteps (-2)
    { evaluated := g, world := ⟨{ g with x := [(fun _ => 1, 1)] }, g, 0, 0, 0, 0⟩ } [fun _ => 1] (fun _ => 1) rfl
  have h1 : R.read "energy/energy" = some 1 := by rw [h.1]; simp
  refine ⟨_, R, rfl, hR, h1, ?_⟩
  intro all ha
  have := ha.1
  rw [h1] at this
  simp at this

/-- The hypotheses of C120 are met: a generator with a sampler of batch size two whose samples alternate. -/
example : ∃ (p : Watch Unit (Fin 1)) (st : Generator Unit (Fin 1)),
    setSampler (fun _ => 2) st () none = some p.evaluated ∧
    ∀ k : ℕ, ((fun (_ : Unit) (k : ℕ) => ([fun _ => (-1 : ℤ) ^ k, fun _ => 1] : List (Config (Fin 1)))) () k).length
      = (fun _ : Unit => 2) () :=
  ⟨⟨⟨(), 2, 2, 2, 1, [], 0⟩, ⟨⟨(), 2, 2, 2, 1, [], 0⟩, ⟨(), 2, 2, 2, 1, [], 0⟩, 0, 0, 0, 0⟩⟩,
    ⟨(), 0, 0, 0, 0, [], 0⟩, rfl, fun _ => rfl⟩

end Verif.Callbacks
