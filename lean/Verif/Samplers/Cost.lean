import Verif.Samplers.MetropolisRun
import Verif.Autoregressive.Model

/-!
# C167: what a batch of samples costs

The samplers with a record of the arrays they pass to `predict`. `AutoregressiveSampler` evaluates the network once per site, on the
whole batch; the Metropolis samplers evaluate it once for the chains and once per sweep, on one configuration per chain.
-/
namespace Verif.Metropolis

open Verif.Operators

variable {ι : Type} {C : Nat}

/-! ### Model: sweeps with a record -/

/-- A call of `_sweep` with the array it passes to `machine.predict` (metropolis_hastings.py lines 102, 182). -/
abbrev RecordedSweep (ι : Type) (C : Nat) := State ι C → Option ((State ι C × Nat) × (Fin C → Config ι))

/-- `MetropolisHastingsSymmetricProposal._sweep` (lines 99-113) with its call of `predict` (line 102). -/
noncomputable def recordedSymmetric (ψ : Config ι → ℂ) (cand : State ι C → Fin C → Config ι) (u : Fin C → ℝ) : RecordedSweep ι C :=
  fun st => some (sweepSymmetric ψ (cand st) u st, cand st)

/-- `MetropolisHastingsHamiltonian._sweep` (lines 173-190) with its call of `predict` (line 182). -/
noncomputable def recordedHamiltonian (ψ : Config ι → ℂ) (find find' : (Fin C → Config ι) → Fin C → List (Row ι ℝ))
    (k : Fin C → Nat) (u : Fin C → ℝ) : RecordedSweep ι C := fun st =>
  let rows := find st.sample
  (allSome fun c => (possible (rows c))[k c]?).bind fun cand =>
    let rows' := find' cand
    let candValues := fun c => ψ (cand c)
    let logRatio : Fin C → ℝ := fun c => ((candValues c).re - (st.values c).re) * 2 +
      Real.log ((numConn (rows c) : ℝ) / (numConn (rows' c) : ℝ))
    some (acceptStep (fun c => Real.exp (logRatio c)) cand candValues u st, cand)

/-- `for j in range(n): total += self._sweep()` (lines 48-49, 61-62) with the record of all calls of `predict` so far. -/
def recordedSweeps (sw : Nat → RecordedSweep ι C) (t : Nat) :
    Nat → (State ι C × Nat) × List (Fin C → Config ι) → Option ((State ι C × Nat) × List (Fin C → Config ι))
  | 0, st => some st
  | n + 1, st => (recordedSweeps sw t n st).bind fun st => (sw (t + n) st.1.1).bind fun r =>
      some ((r.1.1, st.1.2 + r.1.2), st.2 ++ [r.2])

/-- `warn_up` (lines 46-49) with the record. -/
def recordedWarnUp (sw : Nat → RecordedSweep ι C) (unused : Nat) :
    Nat → (Nat × State ι C) × List (Fin C → Config ι) → Option ((Nat × State ι C) × List (Fin C → Config ι))
  | 0, st => some st
  | n + 1, st => (recordedWarnUp sw unused n st).bind fun st =>
    (recordedSweeps sw st.1.1 unused ((st.1.2, 0), st.2)).bind fun r => some ((st.1.1 + unused, r.1.1), r.2)

/-- The loop of lines 60-63 with the record. -/
def recordedLoop (sw : Nat → RecordedSweep ι C) (unused perChain : Nat) :
    Nat → Loop ι C × List (Fin C → Config ι) → Option (Loop ι C × List (Fin C → Config ι))
  | 0, l => some l
  | n + 1, l => (recordedLoop sw unused perChain n l).bind fun l =>
    (recordedSweeps sw l.1.time (unused + 1) ((l.1.state, l.1.counter), l.2)).bind fun r =>
      some ({ time := l.1.time + (unused + 1), state := r.1.1, counter := r.1.2, batch := writeColumn perChain n r.1.1.sample l.1.batch },
        r.2)

/-- `__next__` (lines 51-65) with the record of the arrays passed to `predict`; the first is the call of `machine_updated`
(lines 40, 55). -/
noncomputable def recordedNext (ψ : Config ι → ℂ) (batchSize unused discard : Nat) (sw : Nat → RecordedSweep ι C)
    (t : Nat) (garbage : Nat → Config ι) (st : State ι C) : Option (Next ι C × List (Fin C → Config ι)) :=
  let calls := [st.sample]
  let st := machineUpdated ψ st
  let perChain := batchSize / C
  let w := if discard > 0 then recordedWarnUp sw unused (perChain / discard) ((t, st), calls) else some ((t, st), calls)
  w.bind fun w =>
    (recordedLoop sw unused perChain perChain ({ time := w.1.1, state := w.1.2, counter := 0, batch := garbage }, w.2)).bind fun l =>
      if batchSize * (unused + 1) = 0 then none
      else some ({ batch := l.1.batch, acceptanceRatio := (l.1.counter : ℝ) / ((batchSize * (unused + 1) : Nat) : ℝ),
                   state := l.1.state, time := l.1.time }, l.2)

/-! ### Specification -/

/-- What a sweep does apart from the record. -/
def forget (sw : RecordedSweep ι C) : Sweep ι C := fun st => (sw st).map Prod.fst

/-! ### Proofs -/

theorem sweeps_forget (sw : Nat → RecordedSweep ι C) (t n : Nat) (st : State ι C × Nat) (calls : List (Fin C → Config ι)) :
    (recordedSweeps sw t n (st, calls)).map Prod.fst = sweeps (fun t => forget (sw t)) t n st ∧
    ∀ r, recordedSweeps sw t n (st, calls) = some r → r.2.length = calls.length + n := by
  induction n with
  | zero => exact ⟨rfl, fun r h => by obtain rfl := Option.some.inj h; rfl⟩
  | succ n ih =>
    unfold recordedSweeps sweeps
    rw [← ih.1]
    cases h : recordedSweeps sw t n (st, calls) with
    | none => exact ⟨rfl, fun r hr => by simp at hr⟩
    | some r =>
      have hlen := ih.2 r h
      simp only [Option.map_some, Option.bind_some, forget]
      cases hs : sw (t + n) r.1.1 with
      | none => exact ⟨rfl, fun r hr => by simp at hr⟩
      | some x =>
        refine ⟨rfl, fun r' hr => ?_⟩
        simp only [Option.bind_some, Option.some.injEq] at hr
        subst hr
        simp only [List.length_append, List.length_singleton, hlen]
        omega

theorem warnUp_forget (sw : Nat → RecordedSweep ι C) (unused n : Nat) (st : Nat × State ι C) (calls : List (Fin C → Config ι)) :
    (recordedWarnUp sw unused n (st, calls)).map Prod.fst = warnUp (fun t => forget (sw t)) unused n st ∧
    ∀ r, recordedWarnUp sw unused n (st, calls) = some r → r.2.length = calls.length + n * unused := by
  induction n with
  | zero => exact ⟨rfl, fun r h => by obtain rfl := Option.some.inj h; simp⟩
  | succ n ih =>
    unfold recordedWarnUp warnUp
    rw [← ih.1]
    cases h : recordedWarnUp sw unused n (st, calls) with
    | none => exact ⟨rfl, fun r hr => by simp at hr⟩
    | some r =>
      have hlen := ih.2 r h
      simp only [Option.map_some, Option.bind_some]
      have hs := sweeps_forget sw r.1.1 unused (r.1.2, 0) r.2
      rw [← hs.1]
      cases hx : recordedSweeps sw r.1.1 unused ((r.1.2, 0), r.2) with
      | none => exact ⟨rfl, fun r hr => by simp at hr⟩
      | some x =>
        refine ⟨rfl, fun r' hr => ?_⟩
        simp only [Option.bind_some, Option.some.injEq] at hr
        subst hr
        show x.2.length = _
        rw [hs.2 x hx, hlen, Nat.succ_mul]
        omega

theorem loop_forget (sw : Nat → RecordedSweep ι C) (unused perChain n : Nat) (l : Loop ι C) (calls : List (Fin C → Config ι)) :
    (recordedLoop sw unused perChain n (l, calls)).map Prod.fst = mainLoop (fun t => forget (sw t)) unused perChain n l ∧
    ∀ r, recordedLoop sw unused perChain n (l, calls) = some r → r.2.length = calls.length + n * (unused + 1) := by
  induction n with
  | zero => exact ⟨rfl, fun r h => by obtain rfl := Option.some.inj h; simp⟩
  | succ n ih =>
    unfold recordedLoop mainLoop
    rw [← ih.1]
    cases h : recordedLoop sw unused perChain n (l, calls) with
    | none => exact ⟨rfl, fun r hr => by simp at hr⟩
    | some r =>
      have hlen := ih.2 r h
      simp only [Option.map_some, Option.bind_some]
      have hs := sweeps_forget sw r.1.time (unused + 1) (r.1.state, r.1.counter) r.2
      rw [← hs.1]
      cases hx : recordedSweeps sw r.1.time (unused + 1) ((r.1.state, r.1.counter), r.2) with
      | none => exact ⟨rfl, fun r hr => by simp at hr⟩
      | some x =>
        refine ⟨rfl, fun r' hr => ?_⟩
        simp only [Option.bind_some, Option.some.injEq] at hr
        subst hr
        show x.2.length = _
        rw [hs.2 x hx, hlen, Nat.succ_mul]
        omega

/-- Sweeps with machines that agree on what the first sweep evaluates. -/
def Alike (good : (Fin C → Config ι) → Prop) (sw sw' : Nat → RecordedSweep ι C) : Prop :=
  ∀ t st r, sw t st = some r → good r.2 → sw' t st = some r

theorem sweeps_alike {good : (Fin C → Config ι) → Prop} {sw sw' : Nat → RecordedSweep ι C} (h : Alike good sw sw') (t n : Nat)
    (x r : (State ι C × Nat) × List (Fin C → Config ι)) (hr : recordedSweeps sw t n x = some r) :
    (∀ a ∈ x.2, a ∈ r.2) ∧ ((∀ a ∈ r.2, good a) → recordedSweeps sw' t n x = some r) := by
  induction n generalizing r with
  | zero => obtain rfl := Option.some.inj hr; exact ⟨fun a h => h, fun _ => rfl⟩
  | succ n ih =>
    unfold recordedSweeps at hr ⊢
    obtain ⟨y, hy, hr⟩ := Option.bind_eq_some_iff.1 hr
    obtain ⟨z, hz, hr⟩ := Option.bind_eq_some_iff.1 hr
    obtain rfl := Option.some.inj hr
    obtain ⟨h1, h2⟩ := ih y hy
    refine ⟨fun a ha => by simp [h1 a ha], fun hg => ?_⟩
    rw [h2 fun a ha => hg a (by simp [ha]), Option.bind_some, h _ _ z hz (hg z.2 (by simp)), Option.bind_some]

theorem warnUp_alike {good : (Fin C → Config ι) → Prop} {sw sw' : Nat → RecordedSweep ι C} (h : Alike good sw sw') (unused n : Nat)
    (x r : (Nat × State ι C) × List (Fin C → Config ι)) (hr : recordedWarnUp sw unused n x = some r) :
    (∀ a ∈ x.2, a ∈ r.2) ∧ ((∀ a ∈ r.2, good a) → recordedWarnUp sw' unused n x = some r) := by
  induction n generalizing r with
  | zero => obtain rfl := Option.some.inj hr; exact ⟨fun a h => h, fun _ => rfl⟩
  | succ n ih =>
    unfold recordedWarnUp at hr ⊢
    obtain ⟨y, hy, hr⟩ := Option.bind_eq_some_iff.1 hr
    obtain ⟨z, hz, hr⟩ := Option.bind_eq_some_iff.1 hr
    obtain rfl := Option.some.inj hr
    obtain ⟨h1, h2⟩ := ih y hy
    obtain ⟨h3, h4⟩ := sweeps_alike h _ _ _ _ hz
    refine ⟨fun a ha => h3 a (h1 a ha), fun hg => ?_⟩
    rw [h2 fun a ha => hg a (h3 a ha), Option.bind_some, h4 hg, Option.bind_some]

theorem loop_alike {good : (Fin C → Config ι) → Prop} {sw sw' : Nat → RecordedSweep ι C} (h : Alike good sw sw') (unused perChain n : Nat)
    (x r : Loop ι C × List (Fin C → Config ι)) (hr : recordedLoop sw unused perChain n x = some r) :
    (∀ a ∈ x.2, a ∈ r.2) ∧ ((∀ a ∈ r.2, good a) → recordedLoop sw' unused perChain n x = some r) := by
  induction n generalizing r with
  | zero => obtain rfl := Option.some.inj hr; exact ⟨fun a h => h, fun _ => rfl⟩
  | succ n ih =>
    unfold recordedLoop at hr ⊢
    obtain ⟨y, hy, hr⟩ := Option.bind_eq_some_iff.1 hr
    obtain ⟨z, hz, hr⟩ := Option.bind_eq_some_iff.1 hr
    obtain rfl := Option.some.inj hr
    obtain ⟨h1, h2⟩ := ih y hy
    obtain ⟨h3, h4⟩ := sweeps_alike h _ _ _ _ hz
    refine ⟨fun a ha => h3 a (h1 a ha), fun hg => ?_⟩
    rw [h2 fun a ha => hg a (h3 a ha), Option.bind_some, h4 hg, Option.bind_some]

theorem next_alike {ψ ψ' : Config ι → ℂ} (batchSize unused discard : Nat) {sw sw' : Nat → RecordedSweep ι C}
    (h : Alike (fun a => ∀ c, ψ' (a c) = ψ (a c)) sw sw') (t : Nat) (garbage : Nat → Config ι) (st : State ι C)
    (r : Next ι C × List (Fin C → Config ι)) (hr : recordedNext ψ batchSize unused discard sw t garbage st = some r)
    (hg : ∀ a ∈ r.2, ∀ c, ψ' (a c) = ψ (a c)) : recordedNext ψ' batchSize unused discard sw' t garbage st = some r := by
  unfold recordedNext at hr ⊢
  dsimp only at hr ⊢
  obtain ⟨w, hw, hr⟩ := Option.bind_eq_some_iff.1 hr
  obtain ⟨l, hl, hr⟩ := Option.bind_eq_some_iff.1 hr
  split at hr
  · simp at hr
  rename_i hne
  obtain rfl := Option.some.inj hr
  obtain ⟨h3, h4⟩ := loop_alike h _ _ _ _ _ hl
  have hall : st.sample ∈ w.2 ∧ ((∀ a ∈ w.2, ∀ c, ψ' (a c) = ψ (a c)) →
      (if discard > 0 then recordedWarnUp sw' unused (batchSize / C / discard) ((t, machineUpdated ψ st), [st.sample])
        else some ((t, machineUpdated ψ st), [st.sample])) = some w) := by
    split at hw
    · rename_i hd
      obtain ⟨h5, h6⟩ := warnUp_alike h _ _ _ _ hw
      exact ⟨h5 _ (by simp), fun hgw => by rw [if_pos hd, h6 hgw]⟩
    · rename_i hd
      exact ⟨by rw [← Option.some.inj hw]; simp, fun _ => by rw [if_neg hd, hw]⟩
  have hst : machineUpdated ψ' st = machineUpdated ψ st := by
    unfold machineUpdated
    congr 1
    funext c
    exact hg st.sample (h3 _ hall.1) c
  rw [hst, hall.2 fun a ha => hg a (h3 a ha), Option.bind_some, h4 hg, Option.bind_some, if_neg hne]

/-! ### C167 -/

/-- **C167, nothing else is evaluated (symmetric proposals).** A machine that agrees on the recorded arrays gives the same batch. -/
theorem C167_symmetric_complete (ψ ψ' : Config ι → ℂ) (batchSize unused discard : Nat) (cand : Nat → State ι C → Fin C → Config ι)
    (u : Nat → Fin C → ℝ) (t : Nat) (garbage : Nat → Config ι) (st : State ι C) (r : Next ι C × List (Fin C → Config ι))
    (hr : recordedNext ψ batchSize unused discard (fun t => recordedSymmetric ψ (cand t) (u t)) t garbage st = some r)
    (hg : ∀ a ∈ r.2, ∀ c, ψ' (a c) = ψ (a c)) :
    recordedNext ψ' batchSize unused discard (fun t => recordedSymmetric ψ' (cand t) (u t)) t garbage st = some r := by
  refine next_alike batchSize unused discard (fun t st x hx hx' => ?_) t garbage st r hr hg
  obtain rfl := Option.some.inj hx
  have e : ∀ c, ψ' (cand t st c) = ψ (cand t st c) := hx'
  unfold recordedSymmetric sweepSymmetric
  simp only [e]

/-- **C167, nothing else is evaluated (Hamiltonian sampler).** -/
theorem C167_hamiltonian_complete (ψ ψ' : Config ι → ℂ) (batchSize unused discard : Nat)
    (find find' : Nat → (Fin C → Config ι) → Fin C → List (Row ι ℝ)) (k : Nat → Fin C → Nat)
    (u : Nat → Fin C → ℝ) (t : Nat) (garbage : Nat → Config ι) (st : State ι C) (r : Next ι C × List (Fin C → Config ι))
    (hr : recordedNext ψ batchSize unused discard (fun t => recordedHamiltonian ψ (find t) (find' t) (k t) (u t)) t garbage st = some r)
    (hg : ∀ a ∈ r.2, ∀ c, ψ' (a c) = ψ (a c)) :
    recordedNext ψ' batchSize unused discard (fun t => recordedHamiltonian ψ' (find t) (find' t) (k t) (u t)) t garbage st = some r := by
  refine next_alike batchSize unused discard (fun t st x hx hx' => ?_) t garbage st r hr hg
  unfold recordedHamiltonian at hx ⊢
  dsimp only at hx ⊢
  obtain ⟨cand, hc, hx⟩ := Option.bind_eq_some_iff.1 hx
  obtain rfl := Option.some.inj hx
  have e : ∀ c, ψ' (cand c) = ψ (cand c) := hx'
  rw [hc, Option.bind_some]
  simp only [e]

/-- **C167, Metropolis.** A batch of any Metropolis sampler, with the record, is the batch without it, and costs one evaluation of the
chains, `unused_sampels + 1` evaluations per returned row of a chain, and `unused_sampels` evaluations per discarded row. Each is an
array with one configuration per chain. -/
theorem C167_metropolis (ψ : Config ι → ℂ) (batchSize unused discard : Nat) (sw : Nat → RecordedSweep ι C) (t : Nat)
    (garbage : Nat → Config ι) (st : State ι C) :
    (recordedNext ψ batchSize unused discard sw t garbage st).map Prod.fst =
      next ψ batchSize unused discard (fun t => forget (sw t)) t garbage st ∧
    ∀ r, recordedNext ψ batchSize unused discard sw t garbage st = some r →
      r.2.length = 1 + (if discard > 0 then batchSize / C / discard * unused else 0) + batchSize / C * (unused + 1) := by
  unfold recordedNext next
  dsimp only
  set w := if discard > 0 then recordedWarnUp sw unused (batchSize / C / discard) ((t, machineUpdated ψ st), [st.sample])
    else some ((t, machineUpdated ψ st), [st.sample]) with hw
  have h1 : w.map Prod.fst = (if discard > 0 then warnUp (fun t => forget (sw t)) unused (batchSize / C / discard) (t, machineUpdated ψ st)
      else some (t, machineUpdated ψ st)) := by
    rw [hw]
    split
    · exact (warnUp_forget sw unused _ _ _).1
    · rfl
  have h2 : ∀ r, w = some r → r.2.length = 1 + (if discard > 0 then batchSize / C / discard * unused else 0) := by
    intro r hr
    rw [hw] at hr
    split at hr
    · rename_i hc
      rw [if_pos hc]
      exact (warnUp_forget sw unused _ _ _).2 r hr
    · rename_i hc
      rw [if_neg hc]
      obtain rfl := Option.some.inj hr
      rfl
  rw [← h1]
  cases hx : w with
  | none => exact ⟨rfl, fun r hr => by simp at hr⟩
  | some x =>
    simp only [Option.map_some, Option.bind_some]
    have hl := loop_forget sw unused (batchSize / C) (batchSize / C)
      { time := x.1.1, state := x.1.2, counter := 0, batch := garbage } x.2
    rw [← hl.1]
    cases hy : recordedLoop sw unused (batchSize / C) (batchSize / C)
      ({ time := x.1.1, state := x.1.2, counter := 0, batch := garbage }, x.2) with
    | none => exact ⟨rfl, fun r hr => by simp at hr⟩
    | some y =>
      simp only [Option.map_some, Option.bind_some]
      split
      · exact ⟨rfl, fun r hr => by simp at hr⟩
      · refine ⟨rfl, fun r hr => ?_⟩
        simp only [Option.some.injEq] at hr
        subst hr
        show y.2.length = _
        rw [hl.2 y hy, h2 x hx]

/-- The recorded sweeps of the samplers with symmetric proposals are their sweeps. -/
theorem C167_symmetric (ψ : Config ι → ℂ) (cand : State ι C → Fin C → Config ι) (u : Fin C → ℝ) (st : State ι C) :
    forget (recordedSymmetric ψ cand u) st = some (sweepSymmetric ψ (cand st) u st) := rfl

/-- The recorded sweeps of the Hamiltonian sampler are its sweeps. -/
theorem C167_hamiltonian (ψ : Config ι → ℂ) (find find' : (Fin C → Config ι) → Fin C → List (Row ι ℝ)) (k : Fin C → Nat)
    (u : Fin C → ℝ) (st : State ι C) : forget (recordedHamiltonian ψ find find' k u) st = sweepHamiltonian ψ find find' k u st := by
  unfold forget recordedHamiltonian sweepHamiltonian
  dsimp only
  cases allSome fun c => (possible (find st.sample c))[k c]? with
  | none => rfl
  | some cand => rfl

/-- Two chains of uniform proposals, batches of twenty: the default settings (no unused samples) cost eleven evaluations. -/
example (ψ : Config (Fin 3) → ℂ) (cand : Nat → Fin 2 → Config (Fin 3)) (u : Nat → Fin 2 → ℝ) (garbage : Nat → Config (Fin 3))
    (st : State (Fin 3) 2) : ∃ r, recordedNext ψ 20 0 10 (fun t => recordedSymmetric ψ (fun _ => cand t) (u t)) 0 garbage st = some r ∧
      r.2.length = 11 := by
  have h := C167_metropolis ψ 20 0 10 (fun t => recordedSymmetric ψ (fun _ => cand t) (u t)) 0 garbage st
  obtain ⟨r, hr⟩ := C46_succeeds ψ 20 0 10 0 (by decide) (fun t => forget (recordedSymmetric ψ (fun _ => cand t) (u t)))
    (fun t s => ⟨_, rfl⟩) garbage st
  rw [hr] at h
  cases hx : recordedNext ψ 20 0 10 (fun t => recordedSymmetric ψ (fun _ => cand t) (u t)) 0 garbage st with
  | none => rw [hx] at h; simp at h
  | some x => exact ⟨x, rfl, by rw [h.2 x hx]; decide⟩

end Verif.Metropolis

namespace Verif.Autoregressive

open Verif.Operators

variable {ι : Type} [DecidableEq ι]

/-- `AutoregressiveSampler.__next__` (deepar/samplers/autoregressive.py:29-48) with the record of the arrays passed to `predict`
(line 34). The network `predict` maps whole arrays; its rows may depend on each other only if it is not an ordinary Keras model. -/
noncomputable def recordedSample {B : Nat} (dims : Nat) (zeroBase : Bool)
    (predict : (Fin B → Config ι) → Fin B → ι → Fin 2 → ℝ) (order : List ι) (randomBatch : Fin B → ι → ℝ) :
    Except Unit ((Fin B → Config ι) × List (Fin B → Config ι)) :=
  if (dims = 1 ∨ dims = 2) ∨ order = [] then
    .ok (order.foldl (fun (st : (Fin B → Config ι) × List (Fin B → Config ι)) i =>
      let out := predict st.1
      let batch1 : Fin B → Config ι := fun b =>
        Function.update (st.1 b) i (if Real.exp (out b i 0) > randomBatch b i then 1 else 0)
      (if zeroBase then batch1 else fun b => Function.update (batch1 b) i (2 * batch1 b i - 1), st.2 ++ [st.1]))
      (fun _ _ => 0, []))
  else .error ()

/-- **C167, autoregressive.** The plain sampler evaluates the network exactly once per site, always on the whole batch; the `k`-th
array holds the values of the first `k` sites of the order and zeros elsewhere. Without the record it is the sampler of C36. -/
theorem C167_autoregressive {B : Nat} (dims : Nat) (zeroBase : Bool) (logProbs : Config ι → ι → Fin 2 → ℝ) (order : List ι)
    (randomBatch : Fin B → ι → ℝ) (hd : dims = 1 ∨ dims = 2) (hnd : order.Nodup) :
    ∃ x calls, recordedSample dims zeroBase (fun batch b => logProbs (batch b)) order randomBatch = .ok (x, calls) ∧
      sample dims zeroBase logProbs order randomBatch = .ok x ∧ calls.length = order.length ∧
      ∀ k (hk : k < calls.length) b i, calls[k] b i = if i ∈ order.take k then x b i else 0 := by
  unfold recordedSample sample
  rw [if_pos (Or.inl hd), if_pos (Or.inl hd)]
  set f := fun (st : (Fin B → Config ι) × List (Fin B → Config ι)) i =>
      let out := fun b => logProbs (st.1 b)
      let batch1 : Fin B → Config ι := fun b =>
        Function.update (st.1 b) i (if Real.exp (out b i 0) > randomBatch b i then 1 else 0)
      (if zeroBase then batch1 else fun b => Function.update (batch1 b) i (2 * batch1 b i - 1), st.2 ++ [st.1]) with hf
  refine ⟨_, _, rfl, ?_⟩
  have hstep : ∀ st i, (f st i).1 = samplerStep zeroBase logProbs randomBatch st.1 i ∧ (f st i).2 = st.2 ++ [st.1] := fun st i => ⟨rfl, rfl⟩
  have hother : ∀ (batch : Fin B → Config ι) i b j, j ≠ i → samplerStep zeroBase logProbs randomBatch batch i b j = batch b j := by
    intro batch i b j hj
    unfold samplerStep
    dsimp only
    split
    · exact Function.update_of_ne hj _ _
    · dsimp only
      rw [Function.update_of_ne hj, Function.update_of_ne hj]
  -- sites not visited keep their values
  have hkeep : ∀ (l : List ι) (batch : Fin B → Config ι) b j, j ∉ l → (l.foldl (samplerStep zeroBase logProbs randomBatch) batch) b j = batch b j := by
    intro l
    induction l with
    | nil => intro batch b j _; rfl
    | cons a l ih =>
      intro batch b j hj
      rw [List.foldl_cons, ih _ b j (fun h => hj (by simp [h])), hother _ _ _ _ fun h => hj (by simp [h])]
  have hrec : ∀ (l : List ι) (st : (Fin B → Config ι) × List (Fin B → Config ι)),
      (l.foldl f st).1 = l.foldl (samplerStep zeroBase logProbs randomBatch) st.1 ∧
      (l.foldl f st).2 = st.2 ++ (List.range l.length).map fun k => (l.take k).foldl (samplerStep zeroBase logProbs randomBatch) st.1 := by
    intro l
    induction l with
    | nil => intro st; simp
    | cons a l ih =>
      intro st
      obtain ⟨h1, h2⟩ := ih (f st a)
      refine ⟨h1, ?_⟩
      rw [List.foldl_cons, h2, (hstep st a).1, (hstep st a).2, List.length_cons, List.range_succ_eq_map, List.map_cons, List.map_map,
        List.append_assoc]
      rfl
  obtain ⟨h1, h2⟩ := hrec order (fun _ _ => 0, [])
  rw [h1, h2]
  refine ⟨rfl, by simp, fun k hk b i => ?_⟩
  simp only [List.nil_append, List.getElem_map, List.getElem_range]
  split
  · rename_i hi
    conv_rhs => rw [← List.take_append_drop k order, List.foldl_append]
    refine (hkeep _ _ b i ?_).symm
    have := List.disjoint_take_drop hnd (le_refl k)
    exact fun h => this hi h
  · rename_i hi
    rw [hkeep _ _ b i hi]

/-- The hypotheses: both orders of a chain of three sites, in one dimension. -/
example : (1 = 1 ∨ 1 = 2) ∧ ([0, 1, 2] : List (Fin 3)).Nodup ∧ ([2, 1, 0] : List (Fin 3)).Nodup := by decide

end Verif.Autoregressive
