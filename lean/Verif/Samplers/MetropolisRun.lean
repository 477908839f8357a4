import Verif.Samplers.Metropolis
import Mathlib.Algebra.BigOperators.Intervals
import Mathlib.Algebra.Order.BigOperators.Group.Finset
import Mathlib.Algebra.BigOperators.Field
import Mathlib.Tactic.Ring
import Mathlib.Tactic.Linarith

/-!
# C46, C47, C66: bookkeeping of the Metropolis-Hastings samplers
-/
namespace Verif.Metropolis

open Verif.Operators

variable {ι : Type} {C : Nat}

/-! ### Specification -/

/-- The states `x 0`, `x 1`, ... and accepted moves `a 0`, `a 1`, ... of `n` successive sweeps, the first
of which has number `t`. -/
def Path (sw : Nat → Sweep ι C) (t n : Nat) (x : Nat → State ι C) (a : Nat → Nat) : Prop :=
  ∀ j < n, sw (t + j) (x j) = some (x (j + 1), a j)

/-! ### Lemmas -/

theorem Path.append {sw : Nat → Sweep ι C} {t n m : Nat} {x y : Nat → State ι C} {a b : Nat → Nat}
    (hx : Path sw t n x a) (hy : Path sw (t + n) m y b) (h : x n = y 0) :
    Path sw t (n + m) (fun j => if j ≤ n then x j else y (j - n)) (fun j => if j < n then a j else b (j - n)) := by
  intro j hj
  by_cases h1 : j < n
  · simp only [if_pos (show j ≤ n by omega), if_pos (show j + 1 ≤ n by omega), if_pos h1]
    exact hx j h1
  · have e : (if j ≤ n then x j else y (j - n)) = y (j - n) := by
      by_cases h2 : j ≤ n
      · obtain rfl : j = n := by omega
        rw [if_pos le_rfl, h, Nat.sub_self]
      · rw [if_neg h2]
    simp only [e, if_neg (show ¬ j + 1 ≤ n by omega), if_neg h1]
    have := hy (j - n) (by omega)
    rw [show t + n + (j - n) = t + j by omega, show j - n + 1 = j + 1 - n by omega] at this
    exact this

theorem sum_append (n m : Nat) (a b : Nat → Nat) :
    ∑ j ∈ Finset.range (n + m), (if j < n then a j else b (j - n)) =
      ∑ j ∈ Finset.range n, a j + ∑ j ∈ Finset.range m, b j := by
  rw [Finset.sum_range_add]
  congr 1
  · exact Finset.sum_congr rfl fun j hj => if_pos (Finset.mem_range.1 hj)
  · exact Finset.sum_congr rfl fun j _ => by rw [if_neg (by omega), Nat.add_sub_cancel_left]

theorem sweeps_path {sw : Nat → Sweep ι C} {t : Nat} : ∀ {n : Nat} {st r : State ι C × Nat}, sweeps sw t n st = some r →
    ∃ x a, Path sw t n x a ∧ x 0 = st.1 ∧ x n = r.1 ∧ r.2 = st.2 + ∑ j ∈ Finset.range n, a j := by
  intro n
  induction n with
  | zero =>
    intro st r h
    obtain rfl := Option.some.inj h
    exact ⟨fun _ => st.1, fun _ => 0, fun j hj => by omega, rfl, rfl, by simp⟩
  | succ n ih =>
    intro st r h
    rw [sweeps, Option.bind_eq_some_iff] at h
    obtain ⟨s1, h1, h⟩ := h
    rw [Option.bind_eq_some_iff] at h
    obtain ⟨s2, h2, h⟩ := h
    obtain rfl := Option.some.inj h
    obtain ⟨x, a, hp, hx0, hxn, ha⟩ := ih h1
    have hlast : Path sw (t + n) 1 (fun j => if j = 0 then s1.1 else s2.1) (fun _ => s2.2) := by
      intro j hj
      obtain rfl : j = 0 := by omega
      simpa using h2
    refine ⟨_, _, hp.append hlast (by simpa using hxn), by simp [hx0], by simp, ?_⟩
    have := sum_append n 1 a fun _ => s2.2
    dsimp only at this ⊢
    rw [this, ha]
    simp [Nat.add_assoc]

theorem warnUp_path {sw : Nat → Sweep ι C} {unused : Nat} : ∀ {n : Nat} {st r : Nat × State ι C},
    warnUp sw unused n st = some r →
    ∃ x a, Path sw st.1 (n * unused) x a ∧ x 0 = st.2 ∧ x (n * unused) = r.2 ∧ r.1 = st.1 + n * unused := by
  intro n
  induction n with
  | zero =>
    intro st r h
    obtain rfl := Option.some.inj h
    exact ⟨fun _ => st.2, fun _ => 0, fun j hj => by omega, rfl, rfl, by simp⟩
  | succ n ih =>
    intro st r h
    rw [warnUp, Option.bind_eq_some_iff] at h
    obtain ⟨s1, h1, h⟩ := h
    rw [Option.bind_eq_some_iff] at h
    obtain ⟨s2, h2, h⟩ := h
    obtain rfl := Option.some.inj h
    obtain ⟨x, a, hp, hx0, hxn, hn⟩ := ih h1
    obtain ⟨y, b, hq, hy0, hyn, -⟩ := sweeps_path h2
    rw [hn] at hq
    refine ⟨_, _, (Nat.succ_mul n unused).symm ▸ hp.append hq (by rw [hxn, hy0]), by simp [hx0], ?_, ?_⟩
    · rw [Nat.succ_mul]
      by_cases h0 : unused = 0
      · subst h0
        simp only [Nat.mul_zero] at hxn ⊢
        simpa [hxn] using hy0.symm.trans hyn
      · rw [if_neg (by omega), Nat.add_sub_cancel_left, hyn]
    · simp only [hn, Nat.succ_mul]; omega

theorem writeColumn_same {perChain i : Nat} (hi : i < perChain) (sample : Fin C → Config ι) (batch : Nat → Config ι) (c : Fin C) :
    writeColumn perChain i sample batch (c * perChain + i) = sample c := by
  have h1 : (c.val * perChain + i) / perChain = c := by
    rw [Nat.mul_comm, Nat.mul_add_div (by omega), Nat.div_eq_of_lt hi, Nat.add_zero]
  have h2 : (c.val * perChain + i) % perChain = i := by rw [Nat.mul_comm, Nat.mul_add_mod, Nat.mod_eq_of_lt hi]
  unfold writeColumn
  simp only [h1, h2, c.2, dif_pos, if_true]

theorem writeColumn_other {perChain i i' : Nat} (hi : i < perChain) (hne : i ≠ i') (sample : Fin C → Config ι)
    (batch : Nat → Config ι) (c : Fin C) :
    writeColumn perChain i' sample batch (c * perChain + i) = batch (c * perChain + i) := by
  have h2 : (c.val * perChain + i) % perChain = i := by rw [Nat.mul_comm, Nat.mul_add_mod, Nat.mod_eq_of_lt hi]
  unfold writeColumn
  simp only [h2, if_neg hne]
  split <;> rfl

theorem mainLoop_path {sw : Nat → Sweep ι C} {unused perChain : Nat} : ∀ {n : Nat} {l r : Loop ι C}, n ≤ perChain →
    mainLoop sw unused perChain n l = some r →
    ∃ x a, Path sw l.time (n * (unused + 1)) x a ∧ x 0 = l.state ∧ x (n * (unused + 1)) = r.state ∧
      r.time = l.time + n * (unused + 1) ∧ r.counter = l.counter + ∑ j ∈ Finset.range (n * (unused + 1)), a j ∧
      ∀ (c : Fin C) (i : Nat), i < n → r.batch (c * perChain + i) = (x ((i + 1) * (unused + 1))).sample c := by
  intro n
  induction n with
  | zero =>
    intro l r _ h
    obtain rfl := Option.some.inj h
    exact ⟨fun _ => l.state, fun _ => 0, fun j hj => by omega, rfl, rfl, by simp, by simp, fun c i hi => by omega⟩
  | succ n ih =>
    intro l r hn h
    rw [mainLoop, Option.bind_eq_some_iff] at h
    obtain ⟨l1, h1, h⟩ := h
    rw [Option.bind_eq_some_iff] at h
    obtain ⟨s2, h2, h⟩ := h
    obtain rfl := Option.some.inj h
    obtain ⟨x, a, hp, hx0, hxn, ht, hcount, hrows⟩ := ih (by omega) h1
    obtain ⟨y, b, hq, hy0, hyn, hb⟩ := sweeps_path h2
    rw [ht] at hq
    refine ⟨_, _, (Nat.succ_mul n (unused + 1)).symm ▸ hp.append hq (by rw [hxn, hy0]), by simp [hx0], ?_, ?_, ?_, ?_⟩
    · rw [Nat.succ_mul, if_neg (by omega), Nat.add_sub_cancel_left, hyn]
    · simp only [ht, Nat.succ_mul]; omega
    · rw [Nat.succ_mul, sum_append, hb, hcount, Nat.add_assoc]
    · intro c i hi
      by_cases h : i = n
      · subst h
        dsimp only
        rw [writeColumn_same (by omega), Nat.succ_mul, if_neg (by omega), Nat.add_sub_cancel_left, hyn]
      · dsimp only
        rw [writeColumn_other (by omega) h, hrows c i (by omega), if_pos]
        exact Nat.mul_le_mul_right _ (by omega)

/-! ### C46 -/

/-- Number of sweeps of the warm up. -/
def warmUpSweeps (perChain unused discard : Nat) : Nat := if discard > 0 then perChain / discard * unused else 0

/-- **C46.** If `next(sampler)` succeeds, its effect is that of consecutive sweeps that begin with the
state of the chains and fresh values of the machine. Row `c * perChain + i` is the configuration of chain
`c` after the warm up and `i + 1` times `unused_sampels + 1` sweeps, and the acceptance ratio is the number
of accepted moves of the sweeps after the warm up, over the number of moves proposed in them. -/
theorem C46_next {ψ : Config ι → ℂ} {batchSize unused discard t : Nat} {sw : Nat → Sweep ι C} {garbage : Nat → Config ι}
    {st : State ι C} {r : Next ι C} (hs : sizesOk batchSize C = true)
    (h : next ψ batchSize unused discard sw t garbage st = some r) :
    let perChain := batchSize / C
    let W := warmUpSweeps perChain unused discard
    ∃ (x : Nat → State ι C) (a : Nat → Nat),
      Path sw t (W + perChain * (unused + 1)) x a ∧
      x 0 = { sample := st.sample, values := fun c => ψ (st.sample c) } ∧
      r.state = x (W + perChain * (unused + 1)) ∧ r.time = t + (W + perChain * (unused + 1)) ∧
      (∀ (c : Fin C) (i : Nat), i < perChain → r.batch (c * perChain + i) = (x (W + (i + 1) * (unused + 1))).sample c) ∧
      (∀ row < batchSize, ∃ (c : Fin C) (i : Nat), i < perChain ∧ row = c * perChain + i) ∧
      r.acceptanceRatio = (∑ j ∈ Finset.range (perChain * (unused + 1)), (a (W + j) : ℝ)) /
        ((C : ℝ) * ((perChain * (unused + 1) : Nat) : ℝ)) := by
  intro perChain W
  have hC : C ≠ 0 ∧ batchSize % C = 0 := by simpa [sizesOk] using hs
  have hprod : C * perChain = batchSize := Nat.mul_div_cancel' (Nat.dvd_of_mod_eq_zero hC.2)
  unfold next at h
  dsimp only at h
  rw [Option.bind_eq_some_iff] at h
  obtain ⟨w, hw, h⟩ := h
  rw [Option.bind_eq_some_iff] at h
  obtain ⟨l, hl, h⟩ := h
  obtain ⟨y, b, hq, hy0, hyn, ht, hcount, hrows⟩ := mainLoop_path le_rfl hl
  dsimp only at hq hy0 hyn ht hcount hrows
  obtain ⟨x, a, hp, hx0, hxn, hw1⟩ : ∃ x a, Path sw t W x a ∧ x 0 = machineUpdated ψ st ∧ x W = w.2 ∧ w.1 = t + W := by
    by_cases hd : discard > 0
    · rw [if_pos hd] at hw
      obtain ⟨x, a, h1, h2, h3, h4⟩ := warnUp_path hw
      exact ⟨x, a, by simpa only [W, warmUpSweeps, if_pos hd] using h1, h2, by simpa only [W, warmUpSweeps, if_pos hd] using h3,
        by simpa only [W, warmUpSweeps, if_pos hd] using h4⟩
    · rw [if_neg hd] at hw
      obtain rfl := Option.some.inj hw
      have : W = 0 := by simp only [W, warmUpSweeps, if_neg hd]
      exact ⟨fun _ => machineUpdated ψ st, fun _ => 0, fun j hj => by omega, rfl, by simp, by simp [this]⟩
  have hne : ¬ batchSize * (unused + 1) = 0 := by
    intro h0
    rw [if_pos h0] at h
    simp at h
  rw [if_neg hne] at h
  obtain rfl := Option.some.inj h
  rw [hw1] at hq
  refine ⟨_, _, hp.append hq (by rw [hxn, hy0]), by simp [hx0, machineUpdated], ?_, ?_, ?_, ?_, ?_⟩
  · dsimp only
    by_cases h0 : perChain * (unused + 1) = 0
    · have : perChain = 0 := by
        rcases Nat.mul_eq_zero.1 h0 with h | h
        · exact h
        · omega
      exact absurd (by rw [← hprod, this]; simp) hne
    · rw [if_neg (by omega), Nat.add_sub_cancel_left, ← hyn]
  · dsimp only
    rw [ht, hw1, Nat.add_assoc]
  · intro c i hi
    dsimp only
    have : 0 < (i + 1) * (unused + 1) := Nat.mul_pos (by omega) (by omega)
    rw [if_neg (by omega), Nat.add_sub_cancel_left]
    exact hrows c i hi
  · intro row hrow
    have hpos : 0 < perChain := by
      rcases Nat.eq_zero_or_pos perChain with h | h
      · rw [h] at hprod; omega
      · exact h
    refine ⟨⟨row / perChain, ?_⟩, row % perChain, Nat.mod_lt _ hpos, ?_⟩
    · rw [Nat.div_lt_iff_lt_mul hpos, hprod]; exact hrow
    · dsimp only
      rw [Nat.mul_comm]; exact (Nat.div_add_mod row perChain).symm
  · dsimp only
    have hB : ((batchSize * (unused + 1) : Nat) : ℝ) = (C : ℝ) * ((perChain * (unused + 1) : Nat) : ℝ) := by
      rw [← hprod]; push_cast; ring
    rw [hcount, hB, zero_add, Nat.cast_sum]
    congr 1
    refine Finset.sum_congr rfl fun j _ => ?_
    rw [if_neg (by omega), Nat.add_sub_cancel_left]

/-- **C46.** `next(sampler)` succeeds if the batch size is positive and no sweep raises. -/
theorem C46_succeeds (ψ : Config ι → ℂ) (batchSize unused discard t : Nat) (hb : 0 < batchSize) (sw : Nat → Sweep ι C)
    (hsw : ∀ j st, ∃ r, sw j st = some r) (garbage : Nat → Config ι) (st : State ι C) :
    ∃ r, next ψ batchSize unused discard sw t garbage st = some r := by
  have h1 : ∀ t n st, ∃ r, sweeps sw t n st = some r := by
    intro t n
    induction n with
    | zero => exact fun st => ⟨st, rfl⟩
    | succ n ih =>
      intro st
      obtain ⟨r1, h1⟩ := ih st
      obtain ⟨r2, h2⟩ := hsw (t + n) r1.1
      exact ⟨_, by rw [sweeps, h1, Option.bind_some, h2, Option.bind_some]⟩
  have h2 : ∀ n st, ∃ r, warnUp sw unused n st = some r := by
    intro n
    induction n with
    | zero => exact fun st => ⟨st, rfl⟩
    | succ n ih =>
      intro st
      obtain ⟨r1, h⟩ := ih st
      obtain ⟨r2, h'⟩ := h1 r1.1 unused (r1.2, 0)
      exact ⟨_, by rw [warnUp, h, Option.bind_some, h', Option.bind_some]⟩
  have h3 : ∀ p n l, ∃ r, mainLoop sw unused p n l = some r := by
    intro p n
    induction n with
    | zero => exact fun st => ⟨st, rfl⟩
    | succ n ih =>
      intro l
      obtain ⟨r1, h⟩ := ih l
      obtain ⟨r2, h'⟩ := h1 r1.time (unused + 1) (r1.state, r1.counter)
      exact ⟨_, by rw [mainLoop, h, Option.bind_some, h', Option.bind_some]⟩
  unfold next
  dsimp only
  obtain ⟨w, hw⟩ : ∃ w, (if discard > 0 then warnUp sw unused (batchSize / C / discard) (t, machineUpdated ψ st)
      else some (t, machineUpdated ψ st)) = some w := by
    split
    · exact h2 _ _
    · exact ⟨_, rfl⟩
  obtain ⟨l, hl⟩ := h3 (batchSize / C) (batchSize / C) { time := w.1, state := w.2, counter := 0, batch := garbage }
  rw [hw, Option.bind_some, hl, Option.bind_some, if_neg (by
    intro h
    rcases Nat.mul_eq_zero.1 h with h | h <;> omega)]
  exact ⟨_, rfl⟩

/-- A sweep accepts at most one move per chain. -/
def CountsChains (sw : Nat → Sweep ι C) : Prop := ∀ j st r, sw j st = some r → r.2 ≤ C

/-- **C46.** The acceptance ratio lies between zero and one. -/
theorem C46_ratio {ψ : Config ι → ℂ} {batchSize unused discard t : Nat} {sw : Nat → Sweep ι C} {garbage : Nat → Config ι}
    {st : State ι C} {r : Next ι C} (hs : sizesOk batchSize C = true) (hc : CountsChains sw)
    (h : next ψ batchSize unused discard sw t garbage st = some r) : 0 ≤ r.acceptanceRatio ∧ r.acceptanceRatio ≤ 1 := by
  obtain ⟨x, a, hp, -, -, -, -, -, hr⟩ := C46_next hs h
  rw [hr]
  constructor
  · exact div_nonneg (Finset.sum_nonneg fun _ _ => Nat.cast_nonneg _) (by positivity)
  · refine div_le_one_of_le₀ ?_ (by positivity)
    calc _ ≤ ∑ _j ∈ Finset.range (batchSize / C * (unused + 1)), (C : ℝ) := by
          refine Finset.sum_le_sum fun j hj => ?_
          have := hc _ _ _ (hp (warmUpSweeps (batchSize / C) unused discard + j) (by have := Finset.mem_range.1 hj; omega))
          exact_mod_cast this
      _ = _ := by rw [Finset.sum_const, Finset.card_range, nsmul_eq_mul, mul_comm]

theorem acceptStep_count (ratio : Fin C → ℝ) (cand : Fin C → Config ι) (candValues : Fin C → ℂ) (u : Fin C → ℝ)
    (st : State ι C) : (acceptStep ratio cand candValues u st).2 ≤ C := by
  have := Finset.card_le_univ (α := Fin C) (Finset.univ.filter fun c => decide (ratio c > u c) = true)
  rw [Fintype.card_fin] at this
  exact this

/-- The sweeps of the symmetric samplers: candidates may depend on state and random numbers in any way. -/
noncomputable def symmetricSweeps (ψ : Config ι → ℂ) (cand : Nat → State ι C → Fin C → Config ι) (u : Nat → Fin C → ℝ) :
    Nat → Sweep ι C := fun t st => some (sweepSymmetric ψ (cand t st) (u t) st)

/-- The sweeps of the Hamiltonian sampler; the choices may depend on the state in any way. -/
noncomputable def hamiltonianSweeps (ψ : Config ι → ℂ) (find find' : Nat → (Fin C → Config ι) → Fin C → List (Row ι ℝ))
    (k : Nat → State ι C → Fin C → Nat) (u : Nat → Fin C → ℝ) : Nat → Sweep ι C := fun t st =>
  sweepHamiltonian ψ (find t) (find' t) (k t st) (u t) st

/-- **C46.** The bound applies to both kinds of sweeps. -/
theorem C46_counts (ψ : Config ι → ℂ) (u : Nat → Fin C → ℝ) :
    (∀ cand, CountsChains (symmetricSweeps ψ cand u)) ∧ ∀ find find' k, CountsChains (hamiltonianSweeps ψ find find' k u) := by
  constructor
  · intro cand j st r h
    obtain rfl := Option.some.inj h
    exact acceptStep_count _ _ _ _ _
  · intro find find' k j st r h
    unfold hamiltonianSweeps sweepHamiltonian at h
    rw [Option.bind_eq_some_iff] at h
    obtain ⟨cand, -, h⟩ := h
    obtain rfl := Option.some.inj h
    exact acceptStep_count _ _ _ _ _

/-! ### C47 -/

/-- The cached value of every chain is the value of the machine on its configuration. -/
def InStep (ψ : Config ι → ℂ) (st : State ι C) : Prop := ∀ c, st.values c = ψ (st.sample c)

theorem acceptStep_inStep {ψ : Config ι → ℂ} {ratio : Fin C → ℝ} {cand : Fin C → Config ι} {u : Fin C → ℝ}
    {st : State ι C} (h : InStep ψ st) : InStep ψ (acceptStep ratio cand (fun c => ψ (cand c)) u st).1 := by
  intro c
  simp only [acceptStep]
  split
  · rfl
  · exact h c

theorem path_inStep {ψ : Config ι → ℂ} {sw : Nat → Sweep ι C} (hsw : ∀ t st r, sw t st = some r → InStep ψ st → InStep ψ r.1)
    {t n : Nat} {x : Nat → State ι C} {a : Nat → Nat} (hp : Path sw t n x a) (h0 : InStep ψ (x 0)) :
    ∀ j ≤ n, InStep ψ (x j) := by
  intro j
  induction j with
  | zero => exact fun _ => h0
  | succ j ih => exact fun hj => hsw _ _ _ (hp j (by omega)) (ih (by omega))

theorem symmetric_inStep (ψ : Config ι → ℂ) (cand : Nat → State ι C → Fin C → Config ι) (u : Nat → Fin C → ℝ) :
    ∀ t st r, symmetricSweeps ψ cand u t st = some r → InStep ψ st → InStep ψ r.1 := by
  intro t st r h hst
  obtain rfl := Option.some.inj h
  exact acceptStep_inStep hst

theorem hamiltonian_inStep (ψ : Config ι → ℂ) (find find' : Nat → (Fin C → Config ι) → Fin C → List (Row ι ℝ))
    (k : Nat → State ι C → Fin C → Nat) (u : Nat → Fin C → ℝ) :
    ∀ t st r, hamiltonianSweeps ψ find find' k u t st = some r → InStep ψ st → InStep ψ r.1 := by
  intro t st r h hst
  unfold hamiltonianSweeps sweepHamiltonian at h
  rw [Option.bind_eq_some_iff] at h
  obtain ⟨cand, -, h⟩ := h
  obtain rfl := Option.some.inj h
  exact acceptStep_inStep hst

/-- **C47.** Whatever happened before (any state `st`, also with values of another machine), in each
`next(sampler)` the cached values agree with the current machine after every number of sweeps; the
proposals and uniform numbers are arbitrary. Both kinds of sweeps are covered. -/
theorem C47_in_step (ψ : Config ι → ℂ) (u : Nat → Fin C → ℝ) (sw : Nat → Sweep ι C)
    (hsw : (∃ cand, sw = symmetricSweeps ψ cand u) ∨ ∃ find find' k, sw = hamiltonianSweeps ψ find find' k u)
    (batchSize unused discard t : Nat) (hs : sizesOk batchSize C = true) (garbage : Nat → Config ι) (st : State ι C)
    (r : Next ι C) (h : next ψ batchSize unused discard sw t garbage st = some r) :
    ∃ (n : Nat) (x : Nat → State ι C) (a : Nat → Nat), Path sw t n x a ∧ (x 0).sample = st.sample ∧ r.state = x n ∧
      r.time = t + n ∧ ∀ j ≤ n, ∀ c, (x j).values c = ψ ((x j).sample c) := by
  obtain ⟨x, a, hp, hx0, hr, ht, -⟩ := C46_next hs h
  refine ⟨_, x, a, hp, by rw [hx0], hr, ht, ?_⟩
  refine path_inStep ?_ hp (by rw [hx0]; exact fun _ => rfl)
  rcases hsw with ⟨cand, rfl⟩ | ⟨find, find', k, rfl⟩
  · exact symmetric_inStep ψ cand u
  · exact hamiltonian_inStep ψ find find' k u

/-- **C47.** So each decision uses the current machine: in a symmetric sweep within `next`, chain `c`
takes its candidate exactly if the uniform number is below the ratio of the squared amplitudes. -/
theorem C47_decision (ψ : Config ι → ℂ) (cand : Fin C → Config ι) (u : Fin C → ℝ) (hu : ∀ c, u c < 1) (st : State ι C)
    (h : InStep ψ st) (c : Fin C) :
    (sweepSymmetric ψ cand u st).1.sample c =
      if u c < ‖Complex.exp (ψ (cand c))‖ ^ 2 / ‖Complex.exp (ψ (st.sample c))‖ ^ 2 then cand c else st.sample c := by
  have key : (Real.exp (min (((ψ (cand c)).re - (st.values c).re) * 2) 0) > u c) ↔
      u c < ‖Complex.exp (ψ (cand c))‖ ^ 2 / ‖Complex.exp (ψ (st.sample c))‖ ^ 2 := by
    rw [h c, Complex.norm_exp, Complex.norm_exp, ← Real.exp_nat_mul, ← Real.exp_nat_mul, ← Real.exp_sub]
    have e : (((2 : ℕ) : ℝ) * (ψ (cand c)).re - ((2 : ℕ) : ℝ) * (ψ (st.sample c)).re) =
        ((ψ (cand c)).re - (ψ (st.sample c)).re) * 2 := by push_cast; ring
    rw [e]
    rcases le_total (((ψ (cand c)).re - (ψ (st.sample c)).re) * 2) 0 with hle | hle
    · rw [min_eq_left hle]
    · rw [min_eq_right hle, Real.exp_zero]
      have := hu c
      exact ⟨fun _ => lt_of_lt_of_le this (Real.one_le_exp hle), fun _ => this⟩
  simp only [sweepSymmetric, acceptStep, decide_eq_true_eq]
  exact if_congr key rfl rfl

/-! ### C66 -/

/-- **C66 fails.** With the default `unused_sampels=0` the warm up makes no sweep, whatever the discard
ratio: the first row of each chain is its configuration after a single sweep. -/
theorem C66_violated (ψ : Config ι → ℂ) (batchSize discard t : Nat) (sw : Nat → Sweep ι C) (garbage : Nat → Config ι)
    (st : State ι C) (r : Next ι C) (hs : sizesOk batchSize C = true)
    (h : next ψ batchSize 0 discard sw t garbage st = some r) (c : Fin C) :
    ∃ s a, sw t { sample := st.sample, values := fun c => ψ (st.sample c) } = some (s, a) ∧
      r.batch (c * (batchSize / C)) = s.sample c := by
  have hC : C ≠ 0 ∧ batchSize % C = 0 := by simpa [sizesOk] using hs
  obtain ⟨x, a, hp, hx0, -, -, hrows, hsur, -⟩ := C46_next hs h
  have hW : warmUpSweeps (batchSize / C) 0 discard = 0 := by unfold warmUpSweeps; split <;> simp
  have hpos : 0 < batchSize / C := by
    rcases Nat.eq_zero_or_pos (batchSize / C) with h0 | h0
    · exfalso
      unfold next at h
      dsimp only at h
      have : batchSize = 0 := by
        have := Nat.mul_div_cancel' (Nat.dvd_of_mod_eq_zero hC.2)
        rw [h0] at this; omega
      subst this
      rw [Option.bind_eq_some_iff] at h
      obtain ⟨w, -, h⟩ := h
      rw [Option.bind_eq_some_iff] at h
      obtain ⟨l, -, h⟩ := h
      simp at h
    · exact h0
  have h1 := hp 0 (by rw [hW]; omega)
  have h2 := hrows c 0 hpos
  rw [hW] at h2
  refine ⟨x 1, a 0, ?_, by simpa using h2⟩
  rw [← hx0]
  simpa using h1

/-- **C66, proved part.** The warm up makes `unused_sampels` sweeps (one less than between two rows) for
each discarded sample. -/
theorem C66_warm_up_partial {ψ : Config ι → ℂ} {batchSize unused discard t : Nat} {sw : Nat → Sweep ι C}
    {garbage : Nat → Config ι} {st : State ι C} {r : Next ι C} (hs : sizesOk batchSize C = true) (hd : 0 < discard)
    (h : next ψ batchSize unused discard sw t garbage st = some r) :
    r.time = t + batchSize / C / discard * unused + batchSize / C * (unused + 1) := by
  obtain ⟨x, a, -, -, -, ht, -⟩ := C46_next hs h
  rw [ht, warmUpSweeps, if_pos hd, Nat.add_assoc]

/-! ### Concrete cases -/

/-- The hypotheses are met: two chains, six rows, one unused sweep between rows. -/
example : ∃ r, sizesOk 6 2 = true ∧ next (ι := Fin 3) (C := 2) (fun s => (s 0 : ℂ)) 6 1 10
    (symmetricSweeps (fun s => (s 0 : ℂ)) (fun _ st c => flip 0 (st.sample c)) fun _ _ => 1 / 2) 0 (fun _ _ => 0) ⟨fun _ _ => 1, fun _ => 0⟩ = some r := by
  obtain ⟨r, hr⟩ := C46_succeeds (ι := Fin 3) (C := 2) (fun s => (s 0 : ℂ)) 6 1 10 0 (by decide)
    (symmetricSweeps (fun s => (s 0 : ℂ)) (fun _ st c => flip 0 (st.sample c)) fun _ _ => 1 / 2) (fun _ _ => ⟨_, rfl⟩) (fun _ _ => 0)
    ⟨fun _ _ => 1, fun _ => 0⟩
  exact ⟨r, by decide, hr⟩

end Verif.Metropolis
