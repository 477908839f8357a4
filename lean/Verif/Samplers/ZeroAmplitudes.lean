import Verif.Samplers.RunProps

/-!
# C109: Metropolis-Hastings and configurations with amplitude zero

The sweeps of `src/flowket/samplers/metropolis_hastings.py` for machines that give some configurations the amplitude
zero, that is the logarithm minus infinity. The arithmetic of infinities is that of IEEE numbers; finite numbers are
exact.
-/
namespace Verif.Metropolis.Zero

open Verif.Operators

variable {ι : Type} {C : Nat}

/-! ### Model -/

/-- The logarithm of an amplitude as the machine returns it; `none` for the amplitude zero, whose logarithm has the
real part minus infinity. -/
abbrev LogAmp := Option ℂ

/-- A floating point number without rounding. -/
inductive Ext where
  | num (x : ℝ)
  | negInf
  | posInf
  | nan

/-- `numpy.subtract(numpy.real(a), numpy.real(b))` times two (metropolis_hastings.py 106-108, 183-185): minus infinity
less minus infinity is not a number. -/
noncomputable def doubleDiff : LogAmp → LogAmp → Ext
  | some a, some b => .num ((a.re - b.re) * 2)
  | none, some _ => .negInf
  | some _, none => .posInf
  | none, none => .nan

/-- `numpy.minimum(x, 0)` (line 109), which keeps what is not a number. -/
noncomputable def minZero : Ext → Ext
  | .num x => .num (min x 0)
  | .negInf => .negInf
  | .posInf => .num 0
  | .nan => .nan

/-- Addition of a finite number (line 186). -/
noncomputable def addFinite (y : ℝ) : Ext → Ext
  | .num x => .num (x + y)
  | .negInf => .negInf
  | .posInf => .posInf
  | .nan => .nan

/-- `numpy.greater(numpy.exp(x), u)` (lines 110, 187): comparisons with something that is not a number are false. -/
noncomputable def expExceeds (x : Ext) (u : ℝ) : Bool :=
  match x with
  | .num x => decide (Real.exp x > u)
  | .negInf => decide (0 > u)
  | .posInf => true
  | .nan => false

/-- `sample` and `sample_machine_values` (lines 28, 40). -/
structure State (ι : Type) (C : Nat) where
  sample : Fin C → Config ι
  values : Fin C → LogAmp

/-- `machine_updated` (lines 39-40). -/
def machineUpdated (ψ : Config ι → LogAmp) (st : State ι C) : State ι C :=
  { st with values := fun c => ψ (st.sample c) }

/-- The last lines of both sweeps (lines 110-113, 187-190). -/
def acceptStep (accepts : Fin C → Bool) (cand : Fin C → Config ι) (candValues : Fin C → LogAmp) (st : State ι C) :
    State ι C × Nat :=
  ({ sample := fun c => if accepts c then cand c else st.sample c
     values := fun c => if accepts c then candValues c else st.values c },
   (Finset.univ.filter fun c => accepts c = true).card)

/-- `MetropolisHastingsSymmetricProposal._sweep` (lines 99-113) for the candidates `cand`; `none`: the exception of
lines 103-105. -/
noncomputable def sweepSymmetric (ψ : Config ι → LogAmp) (cand : Fin C → Config ι) (u : Fin C → ℝ) (st : State ι C) :
    Option (State ι C × Nat) :=
  if ∀ c, (ψ (cand c)).isSome then
    some (acceptStep (fun c => expExceeds (minZero (doubleDiff (ψ (cand c)) (st.values c))) (u c)) cand
      (fun c => ψ (cand c)) st)
  else none

/-- `MetropolisHastingsHamiltonian._sweep` (lines 173-190); arguments as in `Metropolis.sweepHamiltonian`. There is no
check of the values. -/
noncomputable def sweepHamiltonian (ψ : Config ι → LogAmp) (find find' : (Fin C → Config ι) → Fin C → List (Row ι ℝ))
    (k : Fin C → Nat) (u : Fin C → ℝ) (st : State ι C) : Option (State ι C × Nat) :=
  (allSome fun c => (possible (find st.sample c))[k c]?).bind fun cand =>
    some (acceptStep (fun c => expExceeds (addFinite (Real.log ((numConn (find st.sample c) : ℝ) / (numConn (find' cand c) : ℝ)))
      (doubleDiff (ψ (cand c)) (st.values c))) (u c)) cand (fun c => ψ (cand c)) st)

/-- What happens to a sampler between two looks at it: a new machine is installed and `machine_updated` called, or a
sweep is made. -/
inductive Event (ι : Type) (C : Nat) where
  | machine (ψ : Config ι → LogAmp)
  | sweep (cand : State ι C → Fin C → Config ι) (u : Fin C → ℝ)
  | hamiltonianSweep (find find' : (Fin C → Config ι) → Fin C → List (Row ι ℝ)) (k : State ι C → Fin C → Nat) (u : Fin C → ℝ)

/-- The machine and the state after an event; `none`: an exception. -/
noncomputable def step (e : Event ι C) (x : (Config ι → LogAmp) × State ι C) : Option ((Config ι → LogAmp) × State ι C) :=
  match e with
  | .machine ψ => some (ψ, machineUpdated ψ x.2)
  | .sweep cand u => (sweepSymmetric x.1 (cand x.2) u x.2).map fun r => (x.1, r.1)
  | .hamiltonianSweep find find' k u => (sweepHamiltonian x.1 find find' (k x.2) u x.2).map fun r => (x.1, r.1)

/-- A sequence of events. -/
noncomputable def run : List (Event ι C) → (Config ι → LogAmp) × State ι C → Option ((Config ι → LogAmp) × State ι C)
  | [], x => some x
  | e :: es, x => (step e x).bind (run es)

/-! ### Specification -/

/-- The unnormalised probability of a configuration: the squared absolute value of its amplitude. -/
noncomputable def weight (ψ : Config ι → LogAmp) (s : Config ι) : ℝ :=
  match ψ s with
  | none => 0
  | some v => ‖Complex.exp v‖ ^ 2

/-- The stored values are the values of the machine. -/
def InStep (ψ : Config ι → LogAmp) (st : State ι C) : Prop := ∀ c, st.values c = ψ (st.sample c)

/-! ### Lemmas -/

theorem weight_pos_iff (ψ : Config ι → LogAmp) (s : Config ι) : 0 < weight ψ s ↔ (ψ s).isSome = true := by
  unfold weight
  cases ψ s with
  | none => simp
  | some v =>
    have : (0 : ℝ) < ‖Complex.exp v‖ ^ 2 := pow_pos (norm_pos_iff.2 (Complex.exp_ne_zero v)) 2
    exact iff_of_true this rfl

theorem weight_some {ψ : Config ι → LogAmp} {s : Config ι} {v : ℂ} (h : ψ s = some v) : weight ψ s = Real.exp (2 * v.re) := by
  unfold weight
  rw [h]
  simp only
  rw [Complex.norm_exp, ← Real.exp_nat_mul]
  norm_num

theorem weight_none {ψ : Config ι → LogAmp} {s : Config ι} (h : ψ s = none) : weight ψ s = 0 := by
  unfold weight
  rw [h]

theorem acceptStep_sample (accepts : Fin C → Bool) (cand : Fin C → Config ι) (v : Fin C → LogAmp) (st : State ι C) (c : Fin C) :
    (acceptStep accepts cand v st).1.sample c = if accepts c then cand c else st.sample c := rfl

theorem acceptStep_inStep {ψ : Config ι → LogAmp} {accepts : Fin C → Bool} {cand : Fin C → Config ι} {st : State ι C}
    (h : InStep ψ st) : InStep ψ (acceptStep accepts cand (fun c => ψ (cand c)) st).1 := by
  intro c
  simp only [acceptStep]
  split
  · rfl
  · exact h c

/-- The decision of the symmetric samplers. -/
theorem decide_symmetric (ψ : Config ι → LogAmp) (s t : Config ι) (u : ℝ) (hu1 : u < 1) (ht : 0 < weight ψ t) :
    expExceeds (minZero (doubleDiff (ψ t) (ψ s))) u = true ↔ u * weight ψ s < weight ψ t := by
  cases h2 : ψ t with
  | none => rw [weight_none h2] at ht; exact absurd ht (lt_irrefl _)
  | some b =>
    cases h1 : ψ s with
    | none => simp [weight_none h1, ht, doubleDiff, minZero, expExceeds, hu1]
    | some a =>
      simp only [doubleDiff, minZero, expExceeds, decide_eq_true_eq, gt_iff_lt]
      rw [weight_some h1, weight_some h2]
      have e : Real.exp ((b.re - a.re) * 2) * Real.exp (2 * a.re) = Real.exp (2 * b.re) := by
        rw [← Real.exp_add]; congr 1; ring
      have hp := Real.exp_pos (2 * a.re)
      rw [← e, mul_lt_mul_iff_left₀ hp]
      rcases le_total ((b.re - a.re) * 2) 0 with h | h
      · rw [min_eq_left h]
      · rw [min_eq_right h, Real.exp_zero]
        have := Real.one_le_exp h
        exact ⟨fun _ => lt_of_lt_of_le hu1 this, fun _ => hu1⟩

/-- The decision of the Hamiltonian sampler for a chain of positive probability. -/
theorem decide_hamiltonian (ψ : Config ι → LogAmp) (s t : Config ι) (u : ℝ) (hu0 : 0 ≤ u) (hs : 0 < weight ψ s) (n m : Nat)
    (hn : 0 < n) (hm : 0 < m) :
    expExceeds (addFinite (Real.log ((n : ℝ) / (m : ℝ))) (doubleDiff (ψ t) (ψ s))) u = true ↔
      u * (weight ψ s * m) < weight ψ t * n := by
  have hn' : (0 : ℝ) < n := by exact_mod_cast hn
  have hm' : (0 : ℝ) < m := by exact_mod_cast hm
  cases h1 : ψ s with
  | none => rw [weight_none h1] at hs; exact absurd hs (lt_irrefl _)
  | some a =>
    cases h2 : ψ t with
    | none =>
      simp only [doubleDiff, addFinite, expExceeds, decide_eq_true_eq, gt_iff_lt, weight_none h2, zero_mul]
      have : 0 ≤ u * (weight ψ s * m) := by positivity
      exact ⟨fun h => absurd h (not_lt.2 hu0), fun h => absurd h (not_lt.2 this)⟩
    | some b =>
      simp only [doubleDiff, addFinite, expExceeds, decide_eq_true_eq, gt_iff_lt]
      rw [weight_some h1, weight_some h2, Real.exp_add, Real.exp_log (by positivity)]
      have e : Real.exp ((b.re - a.re) * 2) * (n / m) * (Real.exp (2 * a.re) * m) = Real.exp (2 * b.re) * n := by
        have : Real.exp (2 * b.re) = Real.exp ((b.re - a.re) * 2) * Real.exp (2 * a.re) := by
          rw [← Real.exp_add]; congr 1; ring
        rw [this]
        field_simp
      rw [← e]
      exact (mul_lt_mul_iff_left₀ (by positivity)).symm

/-! ### C109 -/

/-- **C109, cache.** In every sequence of events, whatever amplitudes are zero, the stored values are those of the current
machine at the current samples, if they are at the start. -/
theorem C109_in_step (es : List (Event ι C)) (ψ : Config ι → LogAmp) (st : State ι C) (h : InStep ψ st)
    (ψ' : Config ι → LogAmp) (st' : State ι C) (hr : run es (ψ, st) = some (ψ', st')) : InStep ψ' st' := by
  induction es generalizing ψ st with
  | nil =>
    simp only [run, Option.some.injEq, Prod.mk.injEq] at hr
    obtain ⟨rfl, rfl⟩ := hr
    exact h
  | cons e es ih =>
    simp only [run] at hr
    rw [Option.bind_eq_some_iff] at hr
    obtain ⟨⟨ψ1, st1⟩, h1, hr⟩ := hr
    refine ih ψ1 st1 ?_ hr
    cases e with
    | machine φ =>
      simp only [step, Option.some.injEq, Prod.mk.injEq] at h1
      obtain ⟨rfl, rfl⟩ := h1
      exact fun c => rfl
    | sweep cand u =>
      simp only [step, sweepSymmetric] at h1
      split at h1
      · simp only [Option.map_some, Option.some.injEq, Prod.mk.injEq] at h1
        obtain ⟨rfl, rfl⟩ := h1
        exact acceptStep_inStep h
      · simp at h1
    | hamiltonianSweep find find' k u =>
      simp only [step, sweepHamiltonian] at h1
      rw [Option.map_eq_some_iff] at h1
      obtain ⟨r, h1, h2⟩ := h1
      rw [Option.bind_eq_some_iff] at h1
      obtain ⟨cand, -, h1⟩ := h1
      rw [Option.some.injEq] at h1
      rw [Prod.mk.injEq] at h2
      obtain ⟨rfl, rfl⟩ := h2
      rw [← h1]
      exact acceptStep_inStep h

/-- **C109, Hamiltonian sampler.** A sweep never raises because of zero amplitudes: it succeeds if every chain has a
connected configuration with the drawn number. A chain of positive probability takes over its candidate exactly if
the uniform number is below the ratio of probability times number of neighbours that the Metropolis-Hastings rule
prescribes, which is zero for a candidate of probability zero; so it keeps a positive probability. A chain of
probability zero takes over every candidate of positive probability. -/
theorem C109_hamiltonian (ψ : Config ι → LogAmp) (find find' : (Fin C → Config ι) → Fin C → List (Row ι ℝ)) (k : Fin C → Nat)
    (u : Fin C → ℝ) (hu : ∀ c, 0 ≤ u c ∧ u c < 1) (st : State ι C) (h : InStep ψ st)
    (cand : Fin C → Config ι) (hcand : ∀ c, (possible (find st.sample c))[k c]? = some (cand c))
    (hn : ∀ c, 0 < numConn (find' cand c)) :
    ∃ st' a, sweepHamiltonian ψ find find' k u st = some (st', a) ∧ ∀ c,
      (0 < weight ψ (st.sample c) →
        st'.sample c = (if u c * (weight ψ (st.sample c) * numConn (find' cand c)) <
          weight ψ (cand c) * numConn (find st.sample c) then cand c else st.sample c) ∧
        0 < weight ψ (st'.sample c)) ∧
      (weight ψ (st.sample c) = 0 → 0 < weight ψ (cand c) → st'.sample c = cand c) := by
  have hall : allSome (fun c => (possible (find st.sample c))[k c]?) = some cand := by
    unfold allSome
    rw [dif_pos fun c => by simp [hcand c]]
    congr 1
    funext c
    simp [hcand c]
  refine ⟨(acceptStep (fun c => expExceeds (addFinite (Real.log ((numConn (find st.sample c) : ℝ) / (numConn (find' cand c) : ℝ)))
      (doubleDiff (ψ (cand c)) (st.values c))) (u c)) cand (fun c => ψ (cand c)) st).1, _,
    by unfold sweepHamiltonian; rw [hall]; rfl, ?_⟩
  intro c
  have hn1 : 0 < numConn (find st.sample c) := by
    have := List.mem_of_getElem? (hcand c)
    unfold possible at this
    rw [List.mem_map] at this
    obtain ⟨r, hr, -⟩ := this
    exact List.length_pos_of_mem hr
  constructor
  · intro hw
    have hd := decide_hamiltonian ψ (st.sample c) (cand c) (u c) (hu c).1 hw _ _ hn1 (hn c)
    rw [acceptStep_sample, h c]
    by_cases hc : u c * (weight ψ (st.sample c) * numConn (find' cand c)) < weight ψ (cand c) * numConn (find st.sample c)
    · rw [if_pos hc, if_pos (hd.mpr hc)]
      refine ⟨rfl, ?_⟩
      have h0 : 0 ≤ u c * (weight ψ (st.sample c) * numConn (find' cand c)) :=
        mul_nonneg (hu c).1 (mul_nonneg hw.le (Nat.cast_nonneg _))
      by_contra hneg
      have := mul_nonpos_of_nonpos_of_nonneg (not_lt.1 hneg) (Nat.cast_nonneg (α := ℝ) (numConn (find st.sample c)))
      linarith
    · rw [if_neg hc, if_neg fun hx => hc (hd.mp hx)]
      exact ⟨rfl, hw⟩
  · intro hz hp
    rw [acceptStep_sample, h c]
    have h1 : ψ (st.sample c) = none := by
      have : ¬ (0 < weight ψ (st.sample c)) := by rw [hz]; exact lt_irrefl _
      rw [weight_pos_iff] at this
      simpa using this
    obtain ⟨b, hb⟩ := Option.isSome_iff_exists.mp ((weight_pos_iff ψ (cand c)).mp hp)
    rw [h1, hb]
    rfl

/-- **C109 fails for the Hamiltonian sampler:** a chain at a configuration of probability zero all of whose connected
configurations have probability zero never moves, whatever is drawn. -/
theorem C109_violated_stuck (ψ : Config ι → LogAmp) (c : Fin C) (s : Config ι) (hs : weight ψ s = 0) (es : List (Event ι C))
    (hes : ∀ e ∈ es, ∃ find find' k u, e = .hamiltonianSweep find find' k u ∧
      ∀ S : Fin C → Config ι, S c = s → ∀ r ∈ find S c, r.use = true → weight ψ r.conn = 0)
    (st : State ι C) (h : InStep ψ st) (hc : st.sample c = s) (ψ' : Config ι → LogAmp) (st' : State ι C)
    (hr : run es (ψ, st) = some (ψ', st')) : st'.sample c = s := by
  induction es generalizing st with
  | nil =>
    simp only [run, Option.some.injEq, Prod.mk.injEq] at hr
    rw [← hr.2]
    exact hc
  | cons e es ih =>
    simp only [run] at hr
    rw [Option.bind_eq_some_iff] at hr
    obtain ⟨⟨ψ1, st1⟩, h1, hr⟩ := hr
    have hin1 := C109_in_step [e] ψ st h ψ1 st1 (by simp [run, h1])
    obtain ⟨find, find', k, u, rfl, hz⟩ := hes e List.mem_cons_self
    simp only [step, sweepHamiltonian] at h1
    rw [Option.map_eq_some_iff] at h1
    obtain ⟨r, h1, h2⟩ := h1
    rw [Option.bind_eq_some_iff] at h1
    obtain ⟨cand, hcand, h1⟩ := h1
    rw [Option.some.injEq] at h1
    rw [Prod.mk.injEq] at h2
    obtain ⟨rfl, rfl⟩ := h2
    refine ih (fun e he => hes e (List.mem_cons_of_mem _ he)) r.1 hin1 ?_ hr
    have hmem := List.mem_of_getElem? (allSome_eq hcand c)
    unfold possible at hmem
    rw [List.mem_map] at hmem
    obtain ⟨row, hrow, hrc⟩ := hmem
    rw [List.mem_filter] at hrow
    have hw := hz st.sample hc row hrow.1 (by simpa using hrow.2)
    have e1 : ψ (cand c) = none := by
      have : ¬ (0 < weight ψ (cand c)) := by rw [← hrc, hw]; exact lt_irrefl _
      rw [weight_pos_iff] at this
      simpa using this
    have e2 : ψ (st.sample c) = none := by
      have : ¬ (0 < weight ψ (st.sample c)) := by rw [hc, hs]; exact lt_irrefl _
      rw [weight_pos_iff] at this
      simpa using this
    rw [← h1, acceptStep_sample, h c, e1, e2]
    exact hc

/-- **C109, samplers with symmetric proposals.** A sweep raises exactly if a candidate of some chain has probability zero.
Otherwise every chain takes over its candidate exactly if the uniform number is below the ratio of the probabilities
(always, if the chain is at a configuration of probability zero), and afterwards has a positive probability. -/
theorem C109_symmetric_partial (ψ : Config ι → LogAmp) (cand : Fin C → Config ι) (u : Fin C → ℝ) (hu : ∀ c, 0 ≤ u c ∧ u c < 1)
    (st : State ι C) (h : InStep ψ st) :
    (sweepSymmetric ψ cand u st = none ↔ ∃ c, weight ψ (cand c) = 0) ∧
    ∀ st' a, sweepSymmetric ψ cand u st = some (st', a) → ∀ c,
      st'.sample c = (if u c * weight ψ (st.sample c) < weight ψ (cand c) then cand c else st.sample c) ∧
      0 < weight ψ (st'.sample c) := by
  have hz : ∀ s, weight ψ s = 0 ↔ ¬ (ψ s).isSome = true := by
    intro s
    rw [← weight_pos_iff]
    have : 0 ≤ weight ψ s := by unfold weight; split <;> positivity
    constructor
    · intro h; rw [h]; exact lt_irrefl _
    · intro h; exact le_antisymm (not_lt.1 h) this
  constructor
  · unfold sweepSymmetric
    split
    · rename_i hall
      simp only [reduceCtorEq, false_iff]
      rintro ⟨c, hc⟩
      exact (hz _).mp hc (hall c)
    · rename_i hall
      simp only [true_iff]
      by_contra hno
      exact hall fun c => by_contra fun hc => hno ⟨c, (hz _).mpr hc⟩
  · intro st' a hs c
    unfold sweepSymmetric at hs
    split at hs
    · rename_i hall
      have hw := (weight_pos_iff ψ (cand c)).mpr (hall c)
      have hd := decide_symmetric ψ (st.sample c) (cand c) (u c) (hu c).2 hw
      have e : st'.sample c = (acceptStep (fun c => expExceeds (minZero (doubleDiff (ψ (cand c)) (st.values c))) (u c)) cand
          (fun c => ψ (cand c)) st).1.sample c := by
        rw [Option.some.injEq] at hs
        rw [hs]
      rw [e, acceptStep_sample, h c]
      by_cases hc : u c * weight ψ (st.sample c) < weight ψ (cand c)
      · rw [if_pos hc, if_pos (hd.mpr hc)]
        exact ⟨rfl, hw⟩
      · rw [if_neg hc, if_neg fun hx => hc (hd.mp hx)]
        refine ⟨rfl, ?_⟩
        have h0 : weight ψ (cand c) ≤ u c * weight ψ (st.sample c) := not_lt.1 hc
        by_contra hneg
        have : 0 ≤ weight ψ (st.sample c) := by unfold weight; split <;> positivity
        have hzero := le_antisymm (not_lt.1 hneg) this
        rw [hzero, mul_zero] at h0
        exact absurd hw (not_lt.2 h0)
    · cases hs

/-- **C109, what is sampled.** As long as the machine stays the same and the operator lists at least one used row for
every configuration, a chain that has a positive probability keeps one through any sequence of sweeps of any kind that
does not raise. -/
theorem C109_positive (ψ : Config ι → LogAmp) (c : Fin C) (es : List (Event ι C))
    (hes : ∀ e ∈ es, (∃ cand u, e = .sweep cand u ∧ ∀ c, 0 ≤ u c ∧ u c < 1) ∨
      ∃ find find' k u, e = .hamiltonianSweep find find' k u ∧ (∀ c, 0 ≤ u c ∧ u c < 1) ∧ ∀ S c, 0 < numConn (find' S c))
    (st : State ι C) (h : InStep ψ st) (hc : 0 < weight ψ (st.sample c)) (ψ' : Config ι → LogAmp) (st' : State ι C)
    (hr : run es (ψ, st) = some (ψ', st')) : ψ' = ψ ∧ 0 < weight ψ (st'.sample c) := by
  induction es generalizing st with
  | nil =>
    simp only [run, Option.some.injEq, Prod.mk.injEq] at hr
    obtain ⟨rfl, rfl⟩ := hr
    exact ⟨rfl, hc⟩
  | cons e es ih =>
    simp only [run] at hr
    rw [Option.bind_eq_some_iff] at hr
    obtain ⟨⟨ψ1, st1⟩, h1, hr⟩ := hr
    have hin1 := C109_in_step [e] ψ st h ψ1 st1 (by simp [run, h1])
    rcases hes e List.mem_cons_self with ⟨cand, u, rfl, hu⟩ | ⟨find, find', k, u, rfl, hu, hn⟩
    · simp only [step] at h1
      rw [Option.map_eq_some_iff] at h1
      obtain ⟨⟨r, a⟩, h1, h2⟩ := h1
      rw [Prod.mk.injEq] at h2
      obtain ⟨rfl, rfl⟩ := h2
      exact ih (fun e he => hes e (List.mem_cons_of_mem _ he)) r hin1
        ((C109_symmetric_partial ψ _ u hu st h).2 r a h1 c).2 hr
    · simp only [step] at h1
      rw [Option.map_eq_some_iff] at h1
      obtain ⟨⟨r, a⟩, h1, h2⟩ := h1
      rw [Prod.mk.injEq] at h2
      obtain ⟨rfl, rfl⟩ := h2
      have h1' := h1
      unfold sweepHamiltonian at h1'
      rw [Option.bind_eq_some_iff] at h1'
      obtain ⟨cand, hcand, -⟩ := h1'
      obtain ⟨st2, a2, e2, h2⟩ := C109_hamiltonian ψ find find' (k st) u hu st h cand (allSome_eq hcand) (hn cand)
      rw [h1, Option.some.injEq, Prod.mk.injEq] at e2
      obtain ⟨rfl, rfl⟩ := e2
      exact ih (fun e he => hes e (List.mem_cons_of_mem _ he)) r hin1 ((h2 c).1 hc).2 hr

section
variable {D : Nat} {shape : Fin D → Nat}

/-- **C109 fails for local moves.** If no two configurations of spins with positive probability differ in a single spin, as
for wave functions of fixed magnetisation, no two sweeps in a row succeed, whatever is drawn and from whatever spins the
chains start. -/
theorem C109_violated_local (hC : 0 < C) (ψ : Config (Idx shape) → LogAmp)
    (hψ : ∀ s i, IsSpin s → 0 < weight ψ s → weight ψ (Operators.flip i s) = 0)
    (r r' : Fin C → Idx shape) (u u' : Fin C → ℝ) (hu : ∀ c, 0 ≤ u c ∧ u c < 1) (hu' : ∀ c, 0 ≤ u' c ∧ u' c < 1)
    (st : State (Idx shape) C) (h : InStep ψ st) (hs : ∀ c, IsSpin (st.sample c)) :
    run [.sweep (fun st => localCandidates r st.sample) u, .sweep (fun st => localCandidates r' st.sample) u'] (ψ, st) =
      none := by
  simp only [run]
  rw [Option.bind_eq_none_iff]
  rintro ⟨ψ1, st1⟩ h1
  have hin1 : InStep ψ1 st1 := C109_in_step [.sweep (fun st => localCandidates r st.sample) u] ψ st h ψ1 st1 (by simp [run, h1])
  simp only [step] at h1
  rw [Option.map_eq_some_iff] at h1
  obtain ⟨⟨x, a⟩, h1, h2⟩ := h1
  rw [Prod.mk.injEq] at h2
  obtain ⟨rfl, rfl⟩ := h2
  obtain ⟨hx, hpos⟩ := (C109_symmetric_partial ψ _ u hu st h).2 x a h1 ⟨0, hC⟩
  have hspin : IsSpin (x.sample ⟨0, hC⟩) := by
    rw [hx, localCandidates_eq]
    split
    · exact flip_spin (hs _) _
    · exact hs _
  rw [Option.bind_eq_none_iff]
  intro y hy
  exfalso
  simp only [step] at hy
  rw [Option.map_eq_some_iff] at hy
  obtain ⟨z, hy, -⟩ := hy
  have hnone := (C109_symmetric_partial ψ (localCandidates r' x.sample) u' hu' x hin1).1.mpr
    ⟨⟨0, hC⟩, by rw [localCandidates_eq]; exact hψ _ _ hspin hpos⟩
  rw [hnone] at hy
  cases hy

/-- **C109 fails for exchange moves from most starts.** For a wave function that is nonzero exactly on the
configurations of total magnetisation `M`, a sweep succeeds exactly if every chain has this magnetisation; the chains
start from spins drawn independently. -/
theorem C109_violated_exchange (ψ : Config (Idx shape) → LogAmp) (M : ℤ) (hψ : ∀ s, 0 < weight ψ s ↔ magnetization s = M)
    (r : Fin C → Idx shape × (Fin D → Fin 3)) (u : Fin C → ℝ) (hu : ∀ c, 0 ≤ u c ∧ u c < 1)
    (st : State (Idx shape) C) (h : InStep ψ st) :
    sweepSymmetric ψ (exchangeCandidates r st.sample) u st = none ↔ ∃ c, magnetization (st.sample c) ≠ M := by
  rw [(C109_symmetric_partial ψ _ u hu st h).1]
  apply exists_congr
  intro c
  have h0 : 0 ≤ weight ψ (exchangeCandidates r st.sample c) := by unfold weight; split <;> positivity
  have : weight ψ (exchangeCandidates r st.sample c) = 0 ↔ ¬ 0 < weight ψ (exchangeCandidates r st.sample c) :=
    ⟨fun h => by rw [h]; exact lt_irrefl _, fun h => le_antisymm (not_lt.1 h) h0⟩
  rw [this, hψ, exchangeCandidates_eq, magnetization_exchange]

/-- A chain of two sites whose wave function is nonzero exactly for opposite spins. -/
def oppositeOnly : Config (Idx (fun _ : Fin 1 => 2)) → LogAmp := fun s => if magnetization s = 0 then some 0 else none

/-- The hypotheses of the theorems on local and exchange moves are met by `oppositeOnly`. -/
example : (∀ s, 0 < weight oppositeOnly s ↔ magnetization s = 0) ∧
    (∀ s i, IsSpin s → 0 < weight oppositeOnly s → weight oppositeOnly (Operators.flip i s) = 0) ∧
    ∃ s, IsSpin s ∧ 0 < weight oppositeOnly s := by
  have h1 : ∀ s, 0 < weight oppositeOnly s ↔ magnetization s = 0 := by
    intro s
    rw [weight_pos_iff]
    unfold oppositeOnly
    by_cases h : magnetization s = 0 <;> simp [h]
  refine ⟨h1, ?_, fun i => if i 0 = 0 then 1 else -1, fun i => by by_cases h : i 0 = 0 <;> simp [h], ?_⟩
  · intro s i hs hp
    rw [h1] at hp
    have hne : magnetization (Operators.flip i s) ≠ 0 := by
      unfold magnetization Operators.flip at *
      rw [Finset.sum_update_of_mem (Finset.mem_univ _)]
      rw [← Finset.add_sum_erase _ _ (Finset.mem_univ i), ← Finset.sdiff_singleton_eq_erase] at hp
      rcases hs i with h | h <;> rw [h] at hp ⊢ <;> omega
    unfold weight oppositeOnly
    rw [if_neg hne]
  · rw [h1]
    decide

/-- The hypotheses of the theorem on chains that are stuck are met: both spins up, and an operator that connects every
configuration with itself and with the one where all spins are reversed. -/
example : weight oppositeOnly (fun _ => 1) = 0 ∧
    ∀ S : Fin 1 → Config (Idx (fun _ : Fin 1 => 2)), S 0 = (fun _ => 1) →
      ∀ r ∈ [(⟨S 0, 1, true⟩ : Row (Idx (fun _ : Fin 1 => 2)) ℝ), ⟨fun i => -S 0 i, 1, true⟩], r.use = true →
        weight oppositeOnly r.conn = 0 := by
  have h1 : weight oppositeOnly (fun _ => 1) = 0 := by
    unfold weight oppositeOnly
    rw [if_neg (by decide)]
  have h2 : weight oppositeOnly (fun _ => -1) = 0 := by
    unfold weight oppositeOnly
    rw [if_neg (by decide)]
  refine ⟨h1, ?_⟩
  intro S hS r hr _
  simp only [List.mem_cons, List.not_mem_nil, or_false] at hr
  rcases hr with rfl | rfl
  · rw [hS]; exact h1
  · rw [hS]; exact h2

end

end Verif.Metropolis.Zero
