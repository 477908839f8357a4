import Verif.Energy.Spins
import Verif.Energy.GeneratorProps
import Verif.Training.MiniBatchSize

/-!
# C98: exact training follows the exact energy gradient

The training loop of `examples/basic_autoregressive_exact_gradient.py:22-40`: the generator of an
`ExactVariational` object hands out slices of all states with their coefficients, Keras computes the
gradient of the slice, the accumulating optimizer updates the parameters once per cycle through all slices.
Parameters are the vector of all real weights.
-/
namespace Verif.Training

open Verif.Energy.Exact

variable {σ Opt : Type} {n : Nat}

/-! ### Model -/

/-- What a `MachineUpdated` callback does at the end of a batch or epoch
(src/flowket/callbacks/exact/machine_updated.py:11-23): refresh the object, or refresh the wave function
arrays only (`update_local_energy=False`). -/
inductive Refresh where
  | full
  | waves

/-- `MachineUpdated.on_batch_end` and `on_epoch_end` (src/flowket/callbacks/exact/machine_updated.py:11-23)
on the object of a running generator, while the network is `net`. -/
noncomputable def Refresh.apply (net : σ → ℂ) (gen : Gen σ) : Refresh → Gen σ
  | .full => ⟨gen.obj.update net, gen.pending⟩
  | .waves => ⟨{ gen.obj with arrays := updateWaveFunction gen.obj.setup gen.obj.bs net gen.obj.arrays }, gen.pending⟩

/-- Generator and optimizer during `model.fit_generator(exact_variational.to_generator(), ...)`
(examples/basic_autoregressive_exact_gradient.py:39-40). -/
structure ExactState (σ Opt : Type) (n : Nat) where
  gen : Gen σ
  acc : AccState Opt (Fin n → ℝ) (Fin n → ℝ)

/-- One training step before the callbacks (examples/basic_autoregressive_exact_gradient.py:39-40): ask the generator for a slice (with `workers=0` right before it
is used), train on it. `net θ` is the network with weights `θ`, `g θ (x, c)` the gradient of the loss of
state `x` with coefficient `c`. -/
noncomputable def exactStep (o : Optimizer Opt (Fin n → ℝ) (Fin n → ℝ)) (cfg : AccConfig) (net : (Fin n → ℝ) → σ → ℂ)
    (g : (Fin n → ℝ) → σ × ℂ → Fin n → ℝ) (st : ExactState σ Opt n) : ExactState σ Opt n :=
  let y := st.gen.next (net (o.params st.acc.opt))
  ⟨y.1, accStep o cfg st.acc (kerasGradient g (o.params st.acc.opt) y.2.batch)⟩

/-- Several `MachineUpdated` callbacks one after the other
(src/flowket/callbacks/exact/machine_updated.py:11-23). -/
noncomputable def applyAll (net : σ → ℂ) (rs : List Refresh) (gen : Gen σ) : Gen σ :=
  rs.foldl (fun gen r => r.apply net gen) gen

/-- The `MachineUpdated` callbacks after a step; `[]` if none is installed
(src/flowket/callbacks/exact/machine_updated.py:11-23). -/
noncomputable def afterStep (o : Optimizer Opt (Fin n → ℝ) (Fin n → ℝ)) (net : (Fin n → ℝ) → σ → ℂ) (rs : List Refresh)
    (st : ExactState σ Opt n) : ExactState σ Opt n :=
  ⟨applyAll (net (o.params st.acc.opt)) rs st.gen, st.acc⟩

/-- The state after `t` steps of `fit_generator` (examples/basic_autoregressive_exact_gradient.py:39-40), the
refreshes `refresh k` taking place after step `k`. -/
noncomputable def exactTrain (o : Optimizer Opt (Fin n → ℝ) (Fin n → ℝ)) (cfg : AccConfig) (net : (Fin n → ℝ) → σ → ℂ)
    (g : (Fin n → ℝ) → σ × ℂ → Fin n → ℝ) (refresh : Nat → List Refresh) (st : ExactState σ Opt n) :
    Nat → ExactState σ Opt n
  | 0 => st
  | t + 1 => afterStep o net (refresh t) (exactStep o cfg net g (exactTrain o cfg net g refresh st t))

/-- The setup of examples/basic_autoregressive_exact_gradient.py:22-30: the optimizer is converted with
`num_of_batch_until_full_cycle` (exact_variational.py:130). `none` if a constructor raises. -/
def exactSetup (s : Setup σ) (batch : Nat) (opt : Opt) : Option (ExactState σ Opt n) :=
  match Obj.new s batch with
  | .error _ => none
  | .ok o => (convert opt (s.S / o.bs)).map fun acc => ⟨Gen.start o, acc⟩

/-! ### Specification -/

/-- The optimizer alone, fed with `scale` times `grad` at the current parameters in every update. -/
noncomputable def descent {P : Type} [SMul ℝ P] (o : Optimizer Opt P P) (grad : P → P) (scale : ℝ) (opt : Opt) : Nat → Opt
  | 0 => opt
  | c + 1 =>
    let opt := descent o grad scale opt c
    o.update opt (scale • grad (o.params opt))

/-! ### Lemmas -/

theorem slice_congr (a b : Obj σ) (hs : a.setup = b.setup) (hb : a.bs = b.bs) (i : Nat)
    (h : ∀ k < a.bs, a.arrays.coeff (i + k) = b.arrays.coeff (i + k)) : a.slice i = b.slice i := by
  unfold Obj.slice
  rw [← hb, ← hs]
  refine List.map_congr_left fun k hk => ?_
  rw [h k (List.mem_range.mp hk)]

/-- The state after step `c * q + r` of training. -/
structure ExactInv (s : Setup σ) (rows : σ → List (σ × ℂ)) (o0 : Obj σ) (q : Nat)
    (o : Optimizer Opt (Fin n → ℝ) (Fin n → ℝ)) (cfg : AccConfig) (net : (Fin n → ℝ) → σ → ℂ)
    (g : (Fin n → ℝ) → σ × ℂ → Fin n → ℝ) (p : Opt) (c r : Nat) (st : ExactState σ Opt n) : Prop where
  opt : st.acc.opt = p
  freq : st.acc.updateParamsFrequency = q
  iter : st.acc.accumulatedIterations = c * q + r
  accum : st.acc.accumulators = contribution cfg q ((List.range r).map fun i =>
    kerasGradient g (o.params p) ((after o0 [] (net (o.params p))).slice (i * o0.bs)))
  setup : st.gen.obj.setup = s
  bs : st.gen.obj.bs = o0.bs
  tables : st.gen.obj.tables = o0.tables
  result : 0 < r → Result s (opMatrix s rows) (net (o.params p)) st.gen.obj.arrays
  pending : st.gen.pending = if r = 0 then [] else ((List.range q).map fun c => c * o0.bs).drop r

theorem result_coeff (s : Setup σ) (H : Matrix (Fin s.S) (Fin s.S) ℂ) (net : σ → ℂ) (a b : Arrays)
    (ha : Result s H net a) (hb : Result s H net b) (x : Nat) (hx : x < s.S) : a.coeff x = b.coeff x := by
  have h1 := ha.coeff ⟨x, hx⟩
  have h2 := hb.coeff ⟨x, hx⟩
  rw [ha.energies, ha.probs, ha.energy] at h1
  rw [hb.energies, hb.probs, hb.energy] at h2
  simp only [ha.energies] at h1
  simp only [hb.energies] at h2
  exact h1.trans h2.symm

/-- Refreshing the wave function for the same network changes nothing. -/
theorem result_waves (s : Setup σ) (rows : σ → List (σ × ℂ)) (hr : RowWise s rows) (batch : Nat)
    (o : Obj σ) (ho : Obj.new s batch = .ok o) (a : Arrays) (net : σ → ℂ) (h : Result s (opMatrix s rows) net a) :
    Result s (opMatrix s rows) net (updateWaveFunction s o.bs net a) := by
  have h1 := result_update s rows hr batch o ho a net
  have hp : (updateWaveFunction s o.bs net a).probs = (machineUpdated s o.bs o.tables net a).probs := rfl
  have hw : (updateWaveFunction s o.bs net a).waveFunction = (machineUpdated s o.bs o.tables net a).waveFunction := rfl
  have hn : (updateWaveFunction s o.bs net a).normSq = (machineUpdated s o.bs o.tables net a).normSq := rfl
  have hpx : ∀ x : Fin s.S, (updateWaveFunction s o.bs net a).probs x = a.probs x := by
    intro x; rw [hp, h1.probs, h.probs]
  refine ⟨fun x => by rw [hp]; exact h1.probs x, h.energies, h.naive, h.energy, ?_, ?_,
    fun x => by rw [hw]; exact h1.wave x, by rw [hn]; exact h1.normSq⟩
  · have := h.variance
    refine this.trans (Finset.sum_congr rfl fun x _ => ?_)
    rw [hpx]
    rfl
  · intro x
    rw [hpx]
    exact h.coeff x

section Invariant

variable (s : Setup σ) (rows : σ → List (σ × ℂ)) (hr : RowWise s rows) (batch : Nat) (o0 : Obj σ)
  (ho : Obj.new s batch = .ok o0) (q : Nat) (hq : s.S = q * o0.bs)
  (o : Optimizer Opt (Fin n → ℝ) (Fin n → ℝ)) (cfg : AccConfig) (net : (Fin n → ℝ) → σ → ℂ)
  (g : (Fin n → ℝ) → σ × ℂ → Fin n → ℝ)

include hr ho hq

/-- What the generator does in a state of the invariant. -/
theorem next_inv (opt : Opt) (c r : Nat) (hrq : r < q) (st : ExactState σ Opt n)
    (h : ExactInv s rows o0 q o cfg net g opt c r st) :
    let y := st.gen.next (net (o.params opt))
    y.1.obj.setup = s ∧ y.1.obj.bs = o0.bs ∧ y.1.obj.tables = o0.tables ∧
    Result s (opMatrix s rows) (net (o.params opt)) y.1.obj.arrays ∧
    y.1.pending = ((List.range q).map fun c => c * o0.bs).drop (r + 1) ∧
    y.2.batch = (after o0 [] (net (o.params opt))).slice (r * o0.bs) := by
  obtain ⟨hset, hpos, hbs, -, hok, -⟩ := new_ok s rows hr batch o0 ho
  have hslice : ∀ ob : Obj σ, ob.setup = s → ob.bs = o0.bs → Result s (opMatrix s rows) (net (o.params opt)) ob.arrays →
      ob.slice (r * o0.bs) = (after o0 [] (net (o.params opt))).slice (r * o0.bs) := by
    intro ob h1 h2 h3
    refine slice_congr ob (after o0 [] (net (o.params opt))) (h1.trans hset.symm) h2 _ fun k hk => ?_
    rw [h2] at hk
    have hlt : r * o0.bs + k < s.S := by
      rw [hq]
      have : (r + 1) * o0.bs ≤ q * o0.bs := Nat.mul_le_mul_right _ hrq
      rw [Nat.succ_mul] at this
      omega
    exact result_coeff s _ _ _ _ h3 (result_after s rows hr batch o0 ho [] _) _ hlt
  intro y
  have hy : y = st.gen.next (net (o.params opt)) := rfl
  rcases Nat.eq_zero_or_pos r with hr0 | hr0
  · subst hr0
    have hp : st.gen.pending = [] := by rw [h.pending, if_pos rfl]
    have hres : Result s (opMatrix s rows) (net (o.params opt)) (st.gen.obj.update (net (o.params opt))).arrays := by
      show Result s _ _ (machineUpdated st.gen.obj.setup st.gen.obj.bs st.gen.obj.tables _ _)
      rw [h.setup, h.bs, h.tables]
      exact result_update s rows hr batch o0 ho _ _
    have hrange : pyRange (st.gen.obj.update (net (o.params opt))).setup.S (st.gen.obj.update (net (o.params opt))).bs =
        0 :: ((List.range q).map fun c => c * o0.bs).drop 1 := by
      show pyRange st.gen.obj.setup.S st.gen.obj.bs = _
      rw [h.setup, h.bs, hq, pyRange_dvd q o0.bs hbs]
      obtain ⟨q', rfl⟩ : ∃ q', q = q' + 1 := ⟨q - 1, by omega⟩
      rw [List.range_succ_eq_map, List.map_cons]
      simp
    have e : y = (⟨st.gen.obj.update (net (o.params opt)), ((List.range q).map fun c => c * o0.bs).drop 1⟩,
        ⟨(st.gen.obj.update (net (o.params opt))).slice 0, true⟩) := by
      rw [hy]
      unfold Gen.next
      rw [hp]
      simp only
      rw [hrange]
    rw [e]
    refine ⟨h.setup, h.bs, h.tables, hres, rfl, ?_⟩
    have := hslice (st.gen.obj.update (net (o.params opt))) h.setup h.bs hres
    rw [Nat.zero_mul] at this
    rw [Nat.zero_mul]
    exact this
  · have hp : st.gen.pending = (r * o0.bs) :: ((List.range q).map fun c => c * o0.bs).drop (r + 1) := by
      rw [h.pending, if_neg (by omega), List.drop_eq_getElem_cons (by simp; omega)]
      simp
    have e : y = (⟨st.gen.obj, ((List.range q).map fun c => c * o0.bs).drop (r + 1)⟩,
        ⟨st.gen.obj.slice (r * o0.bs), false⟩) := by
      rw [hy]
      unfold Gen.next
      rw [hp]
    rw [e]
    exact ⟨h.setup, h.bs, h.tables, h.result hr0, rfl, hslice _ h.setup h.bs (h.result hr0)⟩

/-- The accumulated gradient of a whole cycle. -/
noncomputable def cycleGradient (o0 : Obj σ) (q : Nat) (cfg : AccConfig) (net : (Fin n → ℝ) → σ → ℂ)
    (g : (Fin n → ℝ) → σ × ℂ → Fin n → ℝ) (θ : Fin n → ℝ) : Fin n → ℝ :=
  contribution cfg q ((List.range q).map fun i => kerasGradient g θ ((after o0 [] (net θ)).slice (i * o0.bs)))

omit hq in
/-- Refreshes leave the configuration and the position of the generator, and for the same network the arrays. -/
theorem applyAll_inv (w : σ → ℂ) (rs : List Refresh) (gen : Gen σ) (h1 : gen.obj.setup = s) (h2 : gen.obj.bs = o0.bs)
    (h3 : gen.obj.tables = o0.tables) :
    (applyAll w rs gen).obj.setup = s ∧ (applyAll w rs gen).obj.bs = o0.bs ∧ (applyAll w rs gen).obj.tables = o0.tables ∧
    (applyAll w rs gen).pending = gen.pending ∧
    (Result s (opMatrix s rows) w gen.obj.arrays → Result s (opMatrix s rows) w (applyAll w rs gen).obj.arrays) := by
  induction rs generalizing gen with
  | nil => exact ⟨h1, h2, h3, rfl, id⟩
  | cons r rs ih =>
    have e : applyAll w (r :: rs) gen = applyAll w rs (r.apply w gen) := rfl
    rw [e]
    have hb : (r.apply w gen).obj.setup = s ∧ (r.apply w gen).obj.bs = o0.bs ∧ (r.apply w gen).obj.tables = o0.tables ∧
        (r.apply w gen).pending = gen.pending := by
      cases r <;> exact ⟨h1, h2, h3, rfl⟩
    obtain ⟨i1, i2, i3, i4, i5⟩ := ih (r.apply w gen) hb.1 hb.2.1 hb.2.2.1
    refine ⟨i1, i2, i3, i4.trans hb.2.2.2, fun hres => i5 ?_⟩
    cases r with
    | full =>
      show Result s _ _ (machineUpdated _ _ _ _ _)
      rw [h1, h2, h3]
      exact result_update s rows hr batch o0 ho _ _
    | waves =>
      show Result s _ _ (updateWaveFunction _ _ _ _)
      rw [h1, h2]
      exact result_waves s rows hr batch o0 ho _ _ hres

theorem step_inv (refresh : List Refresh) (opt : Opt) (c r : Nat) (hrq : r < q) (st : ExactState σ Opt n)
    (h : ExactInv s rows o0 q o cfg net g opt c r st) :
    (r + 1 < q → ExactInv s rows o0 q o cfg net g opt c (r + 1)
      (afterStep o net refresh (exactStep o cfg net g st))) ∧
    (r + 1 = q → ExactInv s rows o0 q o cfg net g (o.update opt (cycleGradient o0 q cfg net g (o.params opt))) (c + 1) 0
      (afterStep o net refresh (exactStep o cfg net g st))) ∧
    Result s (opMatrix s rows) (net (o.params opt)) (exactStep o cfg net g st).gen.obj.arrays ∧
    (exactStep o cfg net g st).gen.obj.setup = s ∧ (exactStep o cfg net g st).gen.obj.bs = o0.bs ∧
    (exactStep o cfg net g st).gen.obj.tables = o0.tables := by
  obtain ⟨y1, y2, y3, y4, y5, y6⟩ := next_inv s rows hr batch o0 ho q hq o cfg net g opt c r hrq st h
  have hgen : (exactStep o cfg net g st).gen = (st.gen.next (net (o.params opt))).1 := by
    unfold exactStep; simp only; rw [h.opt]
  have hacc : (exactStep o cfg net g st).acc = accStep o cfg st.acc (kerasGradient g (o.params opt)
      ((after o0 [] (net (o.params opt))).slice (r * o0.bs))) := by
    unfold exactStep; simp only; rw [h.opt, y6]
  have hsum : st.acc.accumulators + (if cfg.accumulateSum then (kerasGradient g (o.params opt)
        ((after o0 [] (net (o.params opt))).slice (r * o0.bs)))
      else (1 / (q : ℝ)) • (kerasGradient g (o.params opt) ((after o0 [] (net (o.params opt))).slice (r * o0.bs)))) =
      contribution cfg q ((List.range (r + 1)).map fun i =>
        kerasGradient g (o.params opt) ((after o0 [] (net (o.params opt))).slice (i * o0.bs))) := by
    rw [h.accum, List.range_succ, List.map_append, contribution_append, List.map_cons, List.map_nil, contribution_cons]
    simp [contribution]
  have hmod : (c * q + r + 1) % q = (r + 1) % q := by
    rw [Nat.add_assoc, Nat.mul_comm, Nat.mul_add_mod]
  have hobj : ∀ θ : Fin n → ℝ, (applyAll (net θ) refresh (exactStep o cfg net g st).gen).obj.setup = s ∧
      (applyAll (net θ) refresh (exactStep o cfg net g st).gen).obj.bs = o0.bs ∧
      (applyAll (net θ) refresh (exactStep o cfg net g st).gen).obj.tables = o0.tables ∧
      (applyAll (net θ) refresh (exactStep o cfg net g st).gen).pending =
        ((List.range q).map fun c => c * o0.bs).drop (r + 1) := by
    intro θ
    rw [hgen]
    obtain ⟨i1, i2, i3, i4, -⟩ := applyAll_inv s rows hr batch o0 ho (net θ) refresh _ y1 y2 y3
    exact ⟨i1, i2, i3, i4.trans y5⟩
  refine ⟨fun hlt => ?_, fun heq => ?_, by rw [hgen]; exact y4, by rw [hgen]; exact y1, by rw [hgen]; exact y2,
    by rw [hgen]; exact y3⟩
  · have hs : (exactStep o cfg net g st).acc = { st.acc with
        accumulators := contribution cfg q ((List.range (r + 1)).map fun i =>
          kerasGradient g (o.params opt) ((after o0 [] (net (o.params opt))).slice (i * o0.bs)))
        accumulatedIterations := st.acc.accumulatedIterations + 1 } := by
      rw [hacc]
      unfold accStep
      simp only [h.freq]
      rw [hsum, if_neg (by rw [h.iter, hmod, Nat.mod_eq_of_lt hlt]; omega)]
    have hopt : (exactStep o cfg net g st).acc.opt = opt := by rw [hs]; exact h.opt
    obtain ⟨b1, b2, b3, b4⟩ := hobj (o.params opt)
    refine ⟨hopt, ?_, ?_, ?_, ?_, ?_, ?_, ?_, ?_⟩
    · show (exactStep o cfg net g st).acc.updateParamsFrequency = q
      rw [hs]; exact h.freq
    · show (exactStep o cfg net g st).acc.accumulatedIterations = _
      rw [hs]; show st.acc.accumulatedIterations + 1 = _
      rw [h.iter, Nat.add_assoc]
    · show (exactStep o cfg net g st).acc.accumulators = _
      rw [hs]
    · show (applyAll (net (o.params (exactStep o cfg net g st).acc.opt)) refresh _).obj.setup = s
      rw [hopt]; exact b1
    · show (applyAll (net (o.params (exactStep o cfg net g st).acc.opt)) refresh _).obj.bs = _
      rw [hopt]; exact b2
    · show (applyAll (net (o.params (exactStep o cfg net g st).acc.opt)) refresh _).obj.tables = _
      rw [hopt]; exact b3
    · intro _
      show Result _ _ _ (applyAll (net (o.params (exactStep o cfg net g st).acc.opt)) refresh _).obj.arrays
      rw [hopt, hgen]
      exact (applyAll_inv s rows hr batch o0 ho _ refresh _ y1 y2 y3).2.2.2.2 y4
    · show (applyAll (net (o.params (exactStep o cfg net g st).acc.opt)) refresh _).pending = _
      rw [hopt, if_neg (by omega)]; exact b4
  · have hs : (exactStep o cfg net g st).acc.opt = o.update opt (cycleGradient o0 q cfg net g (o.params opt)) ∧
        (exactStep o cfg net g st).acc.updateParamsFrequency = q ∧
        (exactStep o cfg net g st).acc.accumulatedIterations = st.acc.accumulatedIterations + 1 ∧
        (exactStep o cfg net g st).acc.accumulators = 0 := by
      rw [hacc]
      unfold accStep
      simp only [h.freq]
      rw [hsum, if_pos (by rw [h.iter, hmod, heq, Nat.mod_self]), h.opt, heq]
      exact ⟨rfl, rfl, rfl, rfl⟩
    obtain ⟨b1, b2, b3, b4⟩ := hobj (o.params (exactStep o cfg net g st).acc.opt)
    refine ⟨hs.1, hs.2.1, ?_, ?_, b1, b2, b3, fun h => absurd h (lt_irrefl 0), ?_⟩
    · show (exactStep o cfg net g st).acc.accumulatedIterations = _
      rw [hs.2.2.1, h.iter, Nat.succ_mul]; omega
    · show (exactStep o cfg net g st).acc.accumulators = _
      rw [hs.2.2.2]
      simp [contribution]
    · show (applyAll _ refresh _).pending = _
      rw [b4, if_pos rfl, heq]
      rw [List.drop_eq_nil_iff]; simp

/-- The optimizer after `c` cycles. -/
noncomputable def cycles (o0 : Obj σ) (q : Nat) (o : Optimizer Opt (Fin n → ℝ) (Fin n → ℝ)) (cfg : AccConfig)
    (net : (Fin n → ℝ) → σ → ℂ) (g : (Fin n → ℝ) → σ × ℂ → Fin n → ℝ) (opt : Opt) : Nat → Opt
  | 0 => opt
  | c + 1 => o.update (cycles o0 q o cfg net g opt c)
      (cycleGradient o0 q cfg net g (o.params (cycles o0 q o cfg net g opt c)))

theorem train_inv (hqpos : 0 < q) (refresh : Nat → List Refresh) (opt : Opt) (acc : AccState Opt (Fin n → ℝ) (Fin n → ℝ))
    (hacc : convert opt q = some acc) (t : Nat) :
    ExactInv s rows o0 q o cfg net g (cycles o0 q o cfg net g opt (t / q)) (t / q) (t % q)
      (exactTrain o cfg net g refresh ⟨Gen.start o0, acc⟩ t) := by
  induction t with
  | zero =>
    rw [Nat.zero_div, Nat.zero_mod]
    unfold convert at hacc
    rw [if_neg (by omega)] at hacc
    obtain rfl := Option.some.inj hacc
    refine ⟨rfl, rfl, by simp [exactTrain], ?_, (new_ok s rows hr batch o0 ho).1, rfl, rfl,
      fun h => absurd h (lt_irrefl 0), rfl⟩
    simp [exactTrain, contribution]
  | succ t ih =>
    have hlt : t % q < q := Nat.mod_lt _ hqpos
    obtain ⟨h1, h2, -⟩ := step_inv s rows hr batch o0 ho q hq o cfg net g (refresh t) _ _ _ hlt _ ih
    have hdm := Nat.div_add_mod t q
    show ExactInv s rows o0 q o cfg net g _ _ _ (afterStep o net (refresh t) (exactStep o cfg net g _))
    by_cases hlast : t % q + 1 = q
    · have e : t + 1 = q * (t / q + 1) := by rw [Nat.mul_add, Nat.mul_one]; omega
      have e1 : (t + 1) % q = 0 := by rw [e, Nat.mul_mod_right]
      have e2 : (t + 1) / q = t / q + 1 := by rw [e, Nat.mul_div_cancel_left _ hqpos]
      rw [e1, e2]
      exact h2 hlast
    · have e : t + 1 = q * (t / q) + (t % q + 1) := by omega
      have e1 : (t + 1) % q = t % q + 1 := by
        rw [e, Nat.mul_add_mod, Nat.mod_eq_of_lt (show t % q + 1 < q by omega)]
      have e2 : (t + 1) / q = t / q := by
        rw [e, Nat.mul_add_div hqpos, Nat.div_eq_of_lt (show t % q + 1 < q by omega), Nat.add_zero]
      rw [e1, e2]
      exact h1 (by omega)

/-- The accumulated gradient of a cycle is a multiple of the sum over all states. -/
theorem cycleGradient_eq (θ : Fin n → ℝ) (hqpos : 0 < q) :
    cycleGradient o0 q cfg net g θ = (if cfg.accumulateSum then 1 / (o0.bs : ℝ) else 1 / (s.S : ℝ)) •
      ∑ x : Fin s.S, g θ (s.states x, (after o0 [] (net θ)).arrays.coeff x) := by
  obtain ⟨hset, hpos, hbs, -⟩ := new_ok s rows hr batch o0 ho
  have hsl : ∀ i, (after o0 [] (net θ)).slice i = (List.range o0.bs).map fun k =>
      (s.states (i + k), (after o0 [] (net θ)).arrays.coeff (i + k)) := by
    intro i
    unfold Obj.slice
    have h1 : (after o0 [] (net θ)).setup = s := hset
    have h2 : (after o0 [] (net θ)).bs = o0.bs := rfl
    rw [h1, h2]
  have hsum : ∀ (f : Nat → Fin n → ℝ) (m : Nat), ((List.range m).map f).sum = ∑ x ∈ Finset.range m, f x := by
    intro f m
    induction m with
    | zero => simp
    | succ m ih => rw [List.range_succ, List.map_append, List.sum_append, ih, Finset.sum_range_succ]; simp
  have hflat : ∀ q : Nat, (((List.range q).map fun i => (after o0 [] (net θ)).slice (i * o0.bs)).flatten.map (g θ)).sum =
      ∑ x ∈ Finset.range (q * o0.bs), g θ (s.states x, (after o0 [] (net θ)).arrays.coeff x) := by
    intro q
    induction q with
    | zero => simp
    | succ q ih =>
      rw [List.range_succ, List.map_append, List.flatten_append, List.map_append, List.sum_append, ih, Nat.succ_mul,
        Finset.sum_range_add]
      congr 1
      simp only [List.map_cons, List.map_nil, List.flatten_cons, List.flatten_nil, List.append_nil]
      rw [hsl, List.map_map, hsum]
      rfl
  have hlen : ∀ b ∈ (List.range q).map fun i => (after o0 [] (net θ)).slice (i * o0.bs), b.length = o0.bs := by
    intro b hb
    obtain ⟨i, -, rfl⟩ := List.mem_map.mp hb
    unfold Obj.slice
    simp
    rfl
  have hb := kerasGradient_blocks g θ o0.bs hbs _ hlen
  rw [hflat q, List.map_map] at hb
  unfold cycleGradient contribution
  have hcomp : ((List.range q).map (kerasGradient g θ ∘ fun i => (after o0 [] (net θ)).slice (i * o0.bs))).sum =
      ((List.range q).map fun i => kerasGradient g θ ((after o0 [] (net θ)).slice (i * o0.bs))).sum := rfl
  rw [hcomp] at hb
  rw [hb]
  rw [← hq, Finset.sum_range]
  split
  · rfl
  · rw [smul_smul, hq]
    congr 1
    push_cast
    rw [one_div_mul_one_div]

end Invariant

/-! ### C98 -/

theorem exactSetup_some (s : Setup σ) (batch : Nat) (opt : Opt) (st0 : ExactState σ Opt n)
    (h0 : exactSetup s batch opt = some st0) : ∃ o0 acc, Obj.new s batch = .ok o0 ∧
      convert opt (s.S / o0.bs) = some acc ∧ st0 = ⟨Gen.start o0, acc⟩ := by
  unfold exactSetup at h0
  cases hn : Obj.new s batch with
  | error e => rw [hn] at h0; cases h0
  | ok o0 =>
    rw [hn] at h0
    cases hc : convert (G := Fin n → ℝ) (P := Fin n → ℝ) opt (s.S / o0.bs) with
    | none => simp only [hc] at h0; cases h0
    | some acc =>
      simp only [hc, Option.map_some] at h0
      exact ⟨o0, acc, rfl, hc, (Option.some.inj h0).symm⟩

/-- C98: let the network be differentiable in every weight and `g` be the gradient of the loss
`2 Re(target * network)`. After any number `t` of training steps the optimizer is where it is after `t / q`
updates (`q` steps are one cycle), each with the exact gradient of the energy at the parameters before that
update, divided by the number of states of one step if gradients are summed and by the number of all states
if they are averaged. This holds whether or not a `MachineUpdated` callback refreshes the object in between. -/
theorem C98_descent (s : Setup σ) (rows : σ → List (σ × ℂ)) (hr : RowWise s rows)
    (hH : (opMatrix s rows).IsHermitian) (batch : Nat) (o : Optimizer Opt (Fin n → ℝ) (Fin n → ℝ)) (cfg : AccConfig)
    (net : (Fin n → ℝ) → σ → ℂ) (D : (Fin n → ℝ) → Fin n → σ → ℂ) (g : (Fin n → ℝ) → σ × ℂ → Fin n → ℝ)
    (hD : ∀ θ k (x : Fin s.S), HasDerivAt (fun t => net (Function.update θ k t) (s.states x)) (D θ k (s.states x)) (θ k))
    (hg : ∀ θ k (x : Fin s.S) c, HasDerivAt (fun t => loss c (net (Function.update θ k t) (s.states x)))
      (g θ (s.states x, c) k) (θ k))
    (opt : Opt) (st0 : ExactState σ Opt n) (h0 : exactSetup s batch opt = some st0) :
    ∃ grad : (Fin n → ℝ) → Fin n → ℝ,
      (∀ θ k, HasDerivAt (fun t => (rayleigh (opMatrix s rows) (amplitudes s (net (Function.update θ k t)))).re)
        (grad θ k) (θ k)) ∧
      ∀ (refresh : Nat → List Refresh) (t : Nat), (exactTrain o cfg net g refresh st0 t).acc.opt =
        descent o grad (if cfg.accumulateSum then 1 / ((min batch s.S : Nat) : ℝ) else 1 / (s.S : ℝ)) opt
          (t / (s.S / min batch s.S)) := by
  obtain ⟨o0, acc, ho, hacc, rfl⟩ := exactSetup_some s batch opt st0 h0
  obtain ⟨hset, hpos, hbs, ⟨q, hq⟩, hok, hmin⟩ := new_ok s rows hr batch o0 ho
  rw [← hmin]
  have hqpos : 0 < q := by
    rcases Nat.eq_zero_or_pos q with h | h
    · rw [h] at hq; omega
    · exact h
  have hdiv : s.S / o0.bs = q := by rw [hq, Nat.mul_div_cancel _ hbs]
  rw [hdiv] at hacc ⊢
  have hgD : ∀ θ k (x : Fin s.S) c, g θ (s.states x, c) k = 2 * (c * D θ k (s.states x)).re := by
    intro θ k x c
    refine (hg θ k x c).unique ?_
    unfold loss
    have h1 := ((hD θ k x).mul_const c)
    have h2 : HasDerivAt (fun t => (net (Function.update θ k t) (s.states x) * c).re)
        ((D θ k (s.states x) * c).re) (θ k) := (Complex.reCLM.hasFDerivAt.comp_hasDerivAt (θ k) h1)
    rw [mul_comm c]
    exact h2.const_mul 2
  refine ⟨fun θ => ∑ x : Fin s.S, g θ (s.states x, (after o0 [] (net θ)).arrays.coeff x), ?_, ?_⟩
  · intro θ k
    have h1 := (C21_gradient s rows hr hH batch o0 ho [] (fun t => net (Function.update θ k t)) (D θ k) (θ k)
      (hD θ k)).2.1
    have h2 : (fun t => (after o0 [] (net (Function.update θ k t))).arrays.energy.re) =
        fun t => (rayleigh (opMatrix s rows) (amplitudes s (net (Function.update θ k t)))).re := by
      funext t
      rw [(C20_exact_energy s rows hr hH batch o0 ho [] _).1]
    rw [h2, Function.update_eq_self] at h1
    have h3 : (∑ x : Fin s.S, g θ (s.states x, (after o0 [] (net θ)).arrays.coeff x)) k =
        ∑ x : Fin s.S, 2 * ((after o0 [] (net θ)).arrays.coeff x * D θ k (s.states x)).re := by
      rw [Finset.sum_apply]
      exact Finset.sum_congr rfl fun x _ => hgD θ k x _
    show HasDerivAt _ ((∑ x : Fin s.S, g θ (s.states x, (after o0 [] (net θ)).arrays.coeff x)) k) (θ k)
    rw [h3]
    exact h1
  · intro refresh t
    rw [(train_inv s rows hr batch o0 ho q hq o cfg net g hqpos refresh opt acc hacc t).opt]
    generalize t / q = c
    induction c with
    | zero => rfl
    | succ c ih =>
      show o.update (cycles o0 q o cfg net g opt c) _ = o.update (descent o _ _ opt c) _
      rw [ih, cycleGradient_eq s rows hr batch o0 ho q hq cfg net g _ hqpos]

/-! ### C98 for the operators of the package -/

section Spins

open Verif.Operators Verif.Energy

/-- Exact training of any network that is differentiable in every weight, for the Hamiltonian `H` on spin
configurations: every accepted batch size can be set up, and the optimizer makes one update per pass through
all `2^N` states, with a fixed multiple of the gradient of `⟨ψ|H|ψ⟩/⟨ψ|ψ⟩`. -/
def FollowsGradient {ι : Type} [Fintype ι] [DecidableEq ι] {N : Nat} (e : ι ≃ Fin N)
    (op : (B : Nat) → (Fin B → Config ι) → Fin B → List (Row ι ℝ)) (R : Nat) (H : Wave ι → Wave ι) : Prop :=
  ∀ batch, 0 < batch → (2 ^ N ≤ batch ∨ batch ∣ 2 ^ N) →
  ∀ (Opt : Type) (n : Nat) (o : Optimizer Opt (Fin n → ℝ) (Fin n → ℝ)) (cfg : AccConfig)
    (net : (Fin n → ℝ) → Config ι → ℂ) (D : (Fin n → ℝ) → Fin n → Config ι → ℂ)
    (g : (Fin n → ℝ) → Config ι × ℂ → Fin n → ℝ),
    (∀ θ k s, IsSpin s → HasDerivAt (fun t => net (Function.update θ k t) s) (D θ k s) (θ k)) →
    (∀ θ k s c, IsSpin s → HasDerivAt (fun t => loss c (net (Function.update θ k t) s)) (g θ (s, c) k) (θ k)) →
    ∀ opt : Opt, ∃ st0 : ExactState (Config ι) Opt n, exactSetup (spinSetup e op R) batch opt = some st0 ∧
    ∃ grad : (Fin n → ℝ) → Fin n → ℝ,
      (∀ θ k, HasDerivAt (fun t => (Energy.rayleigh H fun s => Complex.exp (net (Function.update θ k t) s)).re)
        (grad θ k) (θ k)) ∧
      ∀ (refresh : Nat → List Refresh) (t : Nat), (exactTrain o cfg net g refresh st0 t).acc.opt =
        descent o grad (if cfg.accumulateSum then 1 / ((min batch (2 ^ N) : Nat) : ℝ) else 1 / ((2 ^ N : Nat) : ℝ)) opt
          (t / (2 ^ N / min batch (2 ^ N)))

theorem followsGradient_of {ι : Type} [Fintype ι] [DecidableEq ι] {N : Nat} (e : ι ≃ Fin N) (hN : N ≤ 31)
    {op : (B : Nat) → (Fin B → Config ι) → Fin B → List (Row ι ℝ)}
    {R : Nat} {rowsOf : Config ι → List (Row ι ℝ)} (h : RowsOf op R rowsOf) (H : Wave ι → Wave ι)
    (hH : ∀ s, IsSpin s → ∀ ψ, applyRows (rowsOf s) ψ = H ψ s) : FollowsGradient e op R H := by
  intro batch hb hacc Opt n o cfg net D g hD hg opt
  have hr := rowWise_of e hN h
  obtain ⟨o0, ho, hE⟩ := exactEnergy_of e hN h H hH batch hb hacc
  obtain ⟨hset, hpos, hbs, ⟨q, hq⟩, hok, hmin⟩ := new_ok _ _ hr batch o0 ho
  have hqpos : 0 < q := by
    rcases Nat.eq_zero_or_pos q with h | h
    · rw [h] at hq; omega
    · exact h
  have hdiv : (spinSetup e op R).S / o0.bs = q := by rw [hq, Nat.mul_div_cancel _ hbs]
  have hst : ∃ st0 : ExactState (Config ι) Opt n, exactSetup (spinSetup e op R) batch opt = some st0 := by
    unfold exactSetup
    rw [ho]
    simp only [hdiv, convert]
    rw [if_neg (by omega)]
    exact ⟨_, rfl⟩
  obtain ⟨st0, hst0⟩ := hst
  obtain ⟨grad, h1, h2⟩ := C98_descent (spinSetup e op R) _ hr (opMatrix_hermitian e hN h) batch o cfg net D g
    (fun θ k x => hD θ k _ (spinState_spin e x)) (fun θ k x c => hg θ k _ c (spinState_spin e x)) opt st0 hst0
  refine ⟨st0, hst0, grad, fun θ k => ?_, h2⟩
  have h3 : ∀ t, Exact.rayleigh (opMatrix (spinSetup e op R) fun s => pairs (rowsOf s))
      (amplitudes (spinSetup e op R) (net (Function.update θ k t))) =
      Energy.rayleigh H fun s => Complex.exp (net (Function.update θ k t) s) := by
    intro t
    rw [← (hE [] _).1]
    exact ((C20_exact_energy _ _ hr (opMatrix_hermitian e hN h) batch o0 ho [] _).1).symm
  have h4 := h1 θ k
  simp only [h3] at h4
  exact h4

/-- C98 for the Ising model on chains of up to 31 sites. -/
theorem C98_ising_chain (n : Nat) (hn : n ≤ 31) (h j : ℝ) (pbc : Bool) :
    FollowsGradient (Equiv.refl (Fin n)) (fun _ sample => isingFindConn1 (.float h) j pbc sample) (n + 1)
      (tfim (chainBonds n pbc) h j) :=
  followsGradient_of _ hn (rowsOf_ising_chain n h j pbc) _ fun s _ ψ => C06_ising_chain h j pbc (fun _ : Fin 1 => s) 0 ψ

/-- C98 for the Ising model on grids. -/
theorem C98_ising_grid (n m : Nat) (hn : n * m ≤ 31) (h j : ℝ) (pbc : Bool) :
    FollowsGradient finProdFinEquiv (fun _ sample => isingFindConn2 (.float h) j pbc sample) (n * m + 1)
      (tfim (gridBonds n m pbc) h j) :=
  followsGradient_of _ hn (rowsOf_ising_grid n m h j pbc) _ fun s _ ψ => C06_ising_grid h j pbc (fun _ : Fin 1 => s) 0 ψ

/-- C98 for the Heisenberg model on grids. -/
theorem C98_heisenberg_grid (n m : Nat) (hn : n * m ≤ 31) (rot pbc : Bool) (history : List (Call n m)) :
    FollowsGradient finProdFinEquiv
      (fun B sample => (((HeisOp.new2 n m rot pbc).run history).findConn B sample).2) (n * m * 2 + 1)
      (heisenberg (gridBonds n m pbc) (if rot then -1 else 1)) :=
  followsGradient_of _ hn (rowsOf_heisenberg_grid n m rot pbc history) _ fun s hs ψ =>
    applyRows_heisRows rot pbc 2 (Or.inl rfl) s hs ψ

/-- C98 for the Heisenberg model on chains. -/
theorem C98_heisenberg_chain (n : Nat) (hn : n ≤ 31) (rot pbc : Bool) (history : List (Call n 1)) :
    FollowsGradient (Equiv.refl (Fin n))
      (fun B sample => (((HeisOp.new1 n rot pbc).run history).findConn1 B sample).2) (n + 1)
      (heisenberg (chainBonds' n pbc) (if rot then -1 else 1)) :=
  followsGradient_of _ hn (rowsOf_heisenberg_chain n rot pbc history) _ fun s hs ψ => by
    have := C07_heisenberg_chain rot pbc history 1 (fun _ => s) 0 hs ψ
    rwa [answer1] at this

/-- The hypotheses are met: log amplitude `θ₀ * (sum of the spins) + i θ₁ * (first spin)` on three sites,
batches of four of the eight states. -/
example : ∃ (net : (Fin 2 → ℝ) → Config (Fin 3) → ℂ) (D : (Fin 2 → ℝ) → Fin 2 → Config (Fin 3) → ℂ)
    (g : (Fin 2 → ℝ) → Config (Fin 3) × ℂ → Fin 2 → ℝ),
    (∀ θ k s, HasDerivAt (fun t => net (Function.update θ k t) s) (D θ k s) (θ k)) ∧
    (∀ θ k s c, HasDerivAt (fun t => loss c (net (Function.update θ k t) s)) (g θ (s, c) k) (θ k)) ∧
    (4 ∣ 2 ^ 3) ∧ D 0 0 (fun _ => 1) ≠ 0 := by
  refine ⟨fun θ s => (θ 0 : ℂ) * (∑ i, (s i : ℂ)) + Complex.I * ((θ 1 : ℂ) * (s 0 : ℂ)),
    fun _ k s => if k = 0 then ∑ i, (s i : ℂ) else Complex.I * (s 0 : ℂ),
    fun _ sc k => 2 * ((if k = 0 then ∑ i, (sc.1 i : ℂ) else Complex.I * (sc.1 0 : ℂ)) * sc.2).re, ?_, ?_, by norm_num,
    by simp⟩
  all_goals
    have key : ∀ (θ : Fin 2 → ℝ) (k : Fin 2) (s : Config (Fin 3)), HasDerivAt (fun t : ℝ =>
        ((Function.update θ k t) 0 : ℂ) * (∑ i, (s i : ℂ)) + Complex.I * (((Function.update θ k t) 1 : ℂ) * (s 0 : ℂ)))
        (if k = 0 then ∑ i, (s i : ℂ) else Complex.I * (s 0 : ℂ)) (θ k) := by
      intro θ k s
      have hid : HasDerivAt (fun t : ℝ => (t : ℂ)) 1 (θ k) := Complex.ofRealCLM.hasDerivAt
      fin_cases k
      · have := (hid.mul_const (∑ i, (s i : ℂ))).add_const (Complex.I * ((θ 1 : ℂ) * (s 0 : ℂ)))
        simpa using this
      · have := ((hid.mul_const (s 0 : ℂ)).const_mul Complex.I).const_add ((θ 0 : ℂ) * ∑ i, (s i : ℂ))
        simpa using this
  · exact key
  · intro θ k s c
    unfold loss
    have h2 := Complex.reCLM.hasFDerivAt.comp_hasDerivAt (θ k) ((key θ k s).mul_const c)
    exact h2.const_mul 2

end Spins

end Verif.Training
