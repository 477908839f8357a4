import Verif.Samplers.BalanceProps

/-!
# C50, C68: invariants of the Metropolis-Hastings samplers; the global sampler
-/
namespace Verif.Metropolis

open Verif.Operators MeasureTheory Verif.Autoregressive
open Verif.Energy (allSpins mem_allSpins)

variable {ι : Type} {C D : Nat} {shape : Fin D → Nat}

/-! ### Runs -/

/-- A call of `next(sampler)`: the machine at that time, what the random generators deliver (in `sweeps`),
and the contents of the new array. -/
structure NextCall (ι : Type) (C : Nat) where
  machine : Config ι → ℂ
  garbage : Nat → Config ι

/-- Successive calls of `next(sampler)` (lines 51-65) of one sampler, `sw ψ` being its sweeps with machine
`ψ`. Returns the batches and the final state. -/
noncomputable def run (sw : (Config ι → ℂ) → Nat → Sweep ι C) (batchSize unused discard : Nat) :
    List (NextCall ι C) → Nat × State ι C → Option (List (Nat → Config ι) × (Nat × State ι C))
  | [], st => some ([], st)
  | call :: calls, st =>
    (next call.machine batchSize unused discard (sw call.machine) st.1 call.garbage st.2).bind fun r =>
      (run sw batchSize unused discard calls (r.time, r.state)).bind fun rest => some (r.batch :: rest.1, rest.2)

/-- The `t`-th sweep of `MetropolisHastingsLocal`, `r t` being the random indices and `u t` the uniform numbers. -/
noncomputable def localSweeps (r : Nat → Fin C → Idx shape) (u : Nat → Fin C → ℝ) (ψ : Config (Idx shape) → ℂ) :
    Nat → Sweep (Idx shape) C := symmetricSweeps ψ (fun t st => localCandidates (r t) st.sample) u

/-- The `t`-th sweep of `MetropolisHastingsExchange`. -/
noncomputable def exchangeSweeps (r : Nat → Fin C → Idx shape × (Fin D → Fin 3)) (u : Nat → Fin C → ℝ)
    (ψ : Config (Idx shape) → ℂ) : Nat → Sweep (Idx shape) C :=
  symmetricSweeps ψ (fun t st => exchangeCandidates (r t) st.sample) u

/-- The `t`-th sweep of `MetropolisHastingsUniform`. -/
noncomputable def uniformSweeps (r : Nat → Fin C → ι → Fin 2) (u : Nat → Fin C → ℝ) (ψ : Config ι → ℂ) : Nat → Sweep ι C :=
  symmetricSweeps ψ (fun t _ => uniformCandidates (r t)) u

/-! ### Specification -/

/-- In the whole run, property `I c` holds of chain `c`: of all its rows in all returned batches, and of
its configuration at the end. -/
def RunKeeps (sw : (Config ι → ℂ) → Nat → Sweep ι C) (I : Fin C → Config ι → Prop) : Prop :=
  ∀ (batchSize unused discard t : Nat) (calls : List (NextCall ι C)) (st : State ι C) (batches : List (Nat → Config ι))
    (t' : Nat) (st' : State ι C), sizesOk batchSize C = true → (∀ c, I c (st.sample c)) →
    run sw batchSize unused discard calls (t, st) = some (batches, (t', st')) →
    (∀ c, I c (st'.sample c)) ∧
    (∀ batch ∈ batches, ∀ (c : Fin C) (i : Nat), i < batchSize / C → I c (batch (c * (batchSize / C) + i))) ∧
    ∀ batch ∈ batches, ∀ row < batchSize, ∃ c, I c (batch row)

/-- One sweep keeps the property. -/
def SweepKeeps (sw : Nat → Sweep ι C) (I : Fin C → Config ι → Prop) : Prop :=
  ∀ t st r, sw t st = some r → (∀ c, I c (st.sample c)) → ∀ c, I c (r.1.sample c)

theorem SweepKeeps.path {sw : Nat → Sweep ι C} {I : Fin C → Config ι → Prop} (h : SweepKeeps sw I) {t n : Nat}
    {x : Nat → State ι C} {a : Nat → Nat} (hp : Path sw t n x a) (h0 : ∀ c, I c ((x 0).sample c)) :
    ∀ j ≤ n, ∀ c, I c ((x j).sample c) := by
  intro j
  induction j with
  | zero => exact fun _ => h0
  | succ j ih => exact fun hj => h _ _ _ (hp j (by omega)) (ih (by omega))

theorem SweepKeeps.run {sw : (Config ι → ℂ) → Nat → Sweep ι C} {I : Fin C → Config ι → Prop}
    (h : ∀ ψ, SweepKeeps (sw ψ) I) : RunKeeps sw I := by
  intro batchSize unused discard t calls
  induction calls generalizing t with
  | nil =>
    intro st batches t' st' _ h0 hr
    simp only [Metropolis.run, Option.some.injEq, Prod.mk.injEq] at hr
    obtain ⟨rfl, rfl, rfl⟩ := hr
    exact ⟨h0, by simp, by simp⟩
  | cons call calls ih =>
    intro st batches t' st' hs h0 hr
    rw [Metropolis.run, Option.bind_eq_some_iff] at hr
    obtain ⟨r, hr1, hr⟩ := hr
    rw [Option.bind_eq_some_iff] at hr
    obtain ⟨⟨bs, t2, st2⟩, hr2, hr⟩ := hr
    simp only [Option.some.injEq, Prod.mk.injEq] at hr
    obtain ⟨rfl, rfl, rfl⟩ := hr
    obtain ⟨x, a, hp, hx0, hst, -, hrows, hsur, -⟩ := C46_next hs hr1
    have hall := (h call.machine).path hp (by rw [hx0]; exact h0)
    have hbatch : ∀ (c : Fin C) (i : Nat), i < batchSize / C → I c (r.batch (c * (batchSize / C) + i)) := by
      intro c i hi
      rw [hrows c i hi]
      refine hall _ ?_ c
      have := Nat.mul_le_mul_right (unused + 1) (show i + 1 ≤ batchSize / C by omega)
      omega
    obtain ⟨k1, k2, k3⟩ := ih r.time r.state bs t2 st2 hs (by rw [hst]; exact hall _ le_rfl) hr2
    refine ⟨k1, ?_, ?_⟩
    · intro batch hb
      rcases List.mem_cons.1 hb with rfl | hb
      · exact hbatch
      · exact k2 batch hb
    · intro batch hb row hrow
      rcases List.mem_cons.1 hb with rfl | hb
      · obtain ⟨c, i, hi, e⟩ := hsur row hrow
        exact ⟨c, e ▸ hbatch c i hi⟩
      · exact k3 batch hb row hrow

theorem acceptStep_keeps {I : Fin C → Config ι → Prop} {ratio : Fin C → ℝ} {cand : Fin C → Config ι} {vals : Fin C → ℂ}
    {u : Fin C → ℝ} {st : State ι C} (hc : ∀ c, I c (cand c)) (h : ∀ c, I c (st.sample c)) :
    ∀ c, I c ((acceptStep ratio cand vals u st).1.sample c) := by
  intro c
  simp only [acceptStep]
  split
  · exact hc c
  · exact h c

theorem symmetric_keeps (ψ : Config ι → ℂ) {I : Fin C → Config ι → Prop} {cand : Nat → State ι C → Fin C → Config ι}
    (u : Nat → Fin C → ℝ) (h : ∀ t st, (∀ c, I c (st.sample c)) → ∀ c, I c (cand t st c)) :
    SweepKeeps (symmetricSweeps ψ cand u) I := by
  intro t st r hr h0
  obtain rfl := Option.some.inj hr
  exact acceptStep_keeps (h t st h0) h0

theorem allSome_eq {α : Type} {f : Fin C → Option α} {g : Fin C → α} (h : allSome f = some g) (c : Fin C) : f c = some (g c) := by
  unfold allSome at h
  split at h
  · obtain rfl := Option.some.inj h
    simp
  · cases h

theorem hamiltonian_keeps (ψ : Config ι → ℂ) {I : Fin C → Config ι → Prop}
    {find : Nat → (Fin C → Config ι) → Fin C → List (Row ι ℝ)}
    (find' : Nat → (Fin C → Config ι) → Fin C → List (Row ι ℝ)) (k : Nat → State ι C → Fin C → Nat) (u : Nat → Fin C → ℝ)
    (h : ∀ t S, (∀ c, I c (S c)) → ∀ c, ∀ r ∈ find t S c, r.use = true → I c r.conn) :
    SweepKeeps (hamiltonianSweeps ψ find find' k u) I := by
  intro t st r hr h0
  unfold hamiltonianSweeps sweepHamiltonian at hr
  rw [Option.bind_eq_some_iff] at hr
  obtain ⟨cand, hcand, hr⟩ := hr
  obtain rfl := Option.some.inj hr
  refine acceptStep_keeps (fun c => ?_) h0
  have := List.mem_of_getElem? (allSome_eq hcand c)
  obtain ⟨row, hrow, e⟩ := List.mem_map.1 this
  rw [List.mem_filter] at hrow
  rw [← e]
  exact h t st.sample h0 c row hrow.1 (by simpa using hrow.2)

/-! ### C50 -/

/-- **C50, local moves:** spins stay spins in every run, and a sweep changes at most one spin of each chain. -/
theorem C50_local (r : Nat → Fin C → Idx shape) (u : Nat → Fin C → ℝ) :
    RunKeeps (localSweeps r u) (fun _ => IsSpin) ∧
    ∀ ψ t st st' a, localSweeps r u ψ t st = some (st', a) → ∀ c, ∃ i, ∀ j, j ≠ i → st'.sample c j = st.sample c j := by
  constructor
  · refine SweepKeeps.run fun ψ => symmetric_keeps ψ u fun t st h c => ?_
    rw [localCandidates_eq]
    exact flip_spin (h c) _
  · intro ψ t st st' a h c
    unfold localSweeps symmetricSweeps at h
    refine ⟨r t c, fun j hj => ?_⟩
    have := congrArg (fun p : State (Idx shape) C × Nat => p.1.sample c j) (Option.some.inj h)
    simp only at this
    rw [← this]
    simp only [sweepSymmetric, acceptStep]
    split
    · simp only [localCandidates, Function.update_of_ne hj]
    · rfl

/-- **C50, exchange moves:** spins stay spins, and each chain keeps its total magnetization. -/
theorem C50_exchange (r : Nat → Fin C → Idx shape × (Fin D → Fin 3)) (u : Nat → Fin C → ℝ) (M : Fin C → ℤ) :
    RunKeeps (exchangeSweeps r u) (fun _ => IsSpin) ∧ RunKeeps (exchangeSweeps r u) fun c s => magnetization s = M c := by
  constructor
  · refine SweepKeeps.run fun ψ => symmetric_keeps ψ u fun t st h c => ?_
    rw [exchangeCandidates_eq]
    exact exchange_spin (h c) _ _
  · refine SweepKeeps.run fun ψ => symmetric_keeps ψ u fun t st h c => ?_
    rw [exchangeCandidates_eq, magnetization_exchange]
    exact h c

theorem uniformCandidates_spin (r : Fin C → ι → Fin 2) (c : Fin C) : IsSpin (uniformCandidates r c) := by
  intro i
  unfold uniformCandidates
  split
  · exact Or.inr rfl
  · exact Or.inl rfl

/-- **C50, uniform moves:** spins stay spins. -/
theorem C50_uniform (r : Nat → Fin C → ι → Fin 2) (u : Nat → Fin C → ℝ) :
    RunKeeps (uniformSweeps r u) fun _ => IsSpin :=
  SweepKeeps.run fun ψ => symmetric_keeps ψ u fun _ _ _ c => uniformCandidates_spin _ c

/-- **C50.** The constructor starts with spins (line 28: a draw like that of the uniform sampler). -/
theorem C50_start (r : Fin C → ι → Fin 2) (c : Fin C) : IsSpin (uniformCandidates r c) := uniformCandidates_spin r c

/-- **C50, Hamiltonian moves of the Ising model:** spins stay spins. -/
theorem C50_ising {n m : Nat} (h : Field) (j : ℝ) (pbc : Bool) (u : Nat → Fin C → ℝ)
    (k : Nat → State (Fin n) C → Fin C → Nat) (k' : Nat → State (Fin n × Fin m) C → Fin C → Nat) :
    RunKeeps (fun ψ => hamiltonianSweeps ψ (fun _ => isingFindConn1 h j pbc) (fun _ => isingFindConn1 h j pbc) k u) (fun _ => IsSpin) ∧
    RunKeeps (fun ψ => hamiltonianSweeps ψ (fun _ => isingFindConn2 h j pbc) (fun _ => isingFindConn2 h j pbc) k' u) (fun _ => IsSpin) := by
  constructor
  · exact SweepKeeps.run fun ψ => hamiltonian_keeps ψ _ k u fun t S hS c r hr _ => (C09_ising_chain h j pbc S c (hS c)).spins r hr
  · exact SweepKeeps.run fun ψ => hamiltonian_keeps ψ _ k' u fun t S hS c r hr _ => (C09_ising_grid h j pbc S c (hS c)).spins r hr

/-- **C50, Hamiltonian moves of the Heisenberg model on a grid:** spins stay spins and the magnetization of
each chain is kept, whatever other calls of the operator happen in between (`hist t` before sweep `t`). -/
theorem C50_heisenberg_grid {n m : Nat} (rot pbc : Bool) (hist hist' : Nat → List (Call n m)) (u : Nat → Fin C → ℝ)
    (k : Nat → State (Fin n × Fin m) C → Fin C → Nat) (M : Fin C → ℤ) :
    let sw := fun ψ => hamiltonianSweeps ψ (fun t S => (((HeisOp.new2 n m rot pbc).run (hist t)).findConn C S).2)
      (fun t S => (((HeisOp.new2 n m rot pbc).run (hist' t)).findConn C S).2) k u
    RunKeeps sw (fun _ => IsSpin) ∧ RunKeeps sw fun c s => magnetization s = M c := by
  constructor
  · exact SweepKeeps.run fun ψ => hamiltonian_keeps ψ _ k u fun t S hS c r hr _ =>
      (C09_heisenberg_grid rot pbc (hist t) C S c (hS c)).spins r hr
  · exact SweepKeeps.run fun ψ => hamiltonian_keeps ψ _ k u fun t S hS c r hr hu =>
      ((C10_heisenberg_grid rot pbc (hist t) C S c).1 r hr hu).1.trans (hS c)

/-- **C50, Hamiltonian moves of the Heisenberg chain.** -/
theorem C50_heisenberg_chain {n : Nat} (rot pbc : Bool) (hist hist' : Nat → List (Call n 1)) (u : Nat → Fin C → ℝ)
    (k : Nat → State (Fin n) C → Fin C → Nat) (M : Fin C → ℤ) :
    let sw := fun ψ => hamiltonianSweeps ψ (fun t S => (((HeisOp.new1 n rot pbc).run (hist t)).findConn1 C S).2)
      (fun t S => (((HeisOp.new1 n rot pbc).run (hist' t)).findConn1 C S).2) k u
    RunKeeps sw (fun _ => IsSpin) ∧ RunKeeps sw fun c s => magnetization s = M c := by
  constructor
  · exact SweepKeeps.run fun ψ => hamiltonian_keeps ψ _ k u fun t S hS c r hr _ =>
      (C09_heisenberg_chain rot pbc (hist t) C S c (hS c)).spins r hr
  · exact SweepKeeps.run fun ψ => hamiltonian_keeps ψ _ k u fun t S hS c r hr hu =>
      (C10_heisenberg_chain rot pbc (hist t) C S c r hr hu).1.trans (hS c)

/-- The runs of the theorems exist: the symmetric samplers never raise when the batch size is positive. -/
theorem symmetric_run (cand : (Config ι → ℂ) → Nat → State ι C → Fin C → Config ι) (u : Nat → Fin C → ℝ)
    (batchSize unused discard : Nat) (hb : 0 < batchSize) (calls : List (NextCall ι C)) (st : Nat × State ι C) :
    ∃ batches st', run (fun ψ => symmetricSweeps ψ (cand ψ) u) batchSize unused discard calls st = some (batches, st') ∧
      batches.length = calls.length := by
  induction calls generalizing st with
  | nil => exact ⟨[], st, rfl, rfl⟩
  | cons call calls ih =>
    obtain ⟨r, hr⟩ := C46_succeeds call.machine batchSize unused discard st.1 hb (symmetricSweeps call.machine (cand call.machine) u)
      (fun _ _ => ⟨_, rfl⟩) call.garbage st.2
    obtain ⟨bs, st', h, hl⟩ := ih (r.time, r.state)
    exact ⟨r.batch :: bs, st', by rw [run, hr, Option.bind_some, h, Option.bind_some], by simp [hl]⟩

/-! ### C68 -/

/-- One sweep of `MetropolisHastingsGlobal` (lines 148-157 with 99-113) whose `global_sampler` delivers
independent configurations of spins with probabilities `q`. -/
noncomputable def globalTransition [DecidableEq ι] [Fintype ι] (ψ : Config ι → ℂ) (q : Config ι → ℝ) (S T : Fin C → Config ι) : ℝ :=
  ∑ cand ∈ Fintype.piFinset fun _ : Fin C => allSpins ι,
    (∏ c, q (cand c)) * prU C {u | (sweepSymmetric ψ cand u (inState ψ S)).1.sample = T}

/-- The kernel of one chain. -/
noncomputable def globalKernel [DecidableEq ι] [Fintype ι] (ψ : Config ι → ℂ) (q : Config ι → ℝ) (s t : Config ι) : ℝ :=
  ∑ s' ∈ allSpins ι, q s' * stepProb s s' (min (weight ψ s' / weight ψ s) 1) t

section global
variable [DecidableEq ι] [Fintype ι]

theorem globalTransition_eq (ψ : Config ι → ℂ) (q : Config ι → ℝ) (S T : Fin C → Config ι) :
    globalTransition ψ q S T = ∏ c, globalKernel ψ q (S c) (T c) := by
  unfold globalTransition globalKernel
  rw [Finset.prod_univ_sum (fun _ : Fin C => allSpins ι)
    (fun c s' => q s' * stepProb (S c) s' (min (weight ψ s' / weight ψ (S c)) 1) (T c))]
  refine Finset.sum_congr rfl fun cand _ => ?_
  rw [sweepSymmetric_real, ← Finset.prod_mul_distrib]

theorem globalKernel_ne (ψ : Config ι → ℂ) (q : Config ι → ℝ) {s t : Config ι} (ht : IsSpin t) (h : s ≠ t) :
    globalKernel ψ q s t = q t * min (weight ψ t / weight ψ s) 1 := by
  classical
  unfold globalKernel stepProb
  rw [Finset.sum_eq_single t]
  · rw [if_pos rfl, if_neg h, add_zero]
  · intro s' _ hs'
    rw [if_neg hs', if_neg h]; ring
  · intro h'; exact absurd ((mem_allSpins t).2 ht) h'

theorem globalKernel_balance (ψ : Config ι → ℂ) (q : Config ι → ℝ) {s t : Config ι} (hs : IsSpin s) (ht : IsSpin t) (h : s ≠ t) :
    weight ψ s * globalKernel ψ q s t = weight ψ t * globalKernel ψ q t s ↔ q s = q t := by
  have a := weight_pos ψ s
  have b := weight_pos ψ t
  have key : ∀ x y : ℝ, 0 < x → x * min (y / x) 1 = min y x := by
    intro x y hx
    rw [mul_min_of_nonneg _ _ hx.le, mul_div_cancel₀ _ hx.ne', mul_one]
  rw [globalKernel_ne ψ q ht h, globalKernel_ne ψ q hs (Ne.symm h), mul_left_comm, mul_left_comm (weight ψ t), key _ _ a, key _ _ b,
    min_comm (weight ψ s)]
  have hm : min (weight ψ t) (weight ψ s) ≠ 0 := (lt_min b a).ne'
  constructor
  · exact fun e => (mul_right_cancel₀ hm e).symm
  · exact fun e => by rw [e]

/-- **C68.** With one chain, the global sampler satisfies detailed balance exactly if its proposals are
uniformly distributed. -/
theorem C68_iff (ψ : Config ι → ℂ) (q : Config ι → ℝ) :
    DetailedBalance (C := 1) ψ (globalTransition ψ q) ↔ ∀ s t, IsSpin s → IsSpin t → q s = q t := by
  constructor
  · intro hb s t hs ht
    by_cases h : s = t
    · rw [h]
    have := hb (fun _ => s) (fun _ => t) (fun _ => hs) fun _ => ht
    rw [globalTransition_eq, globalTransition_eq, Fin.prod_univ_one, Fin.prod_univ_one, Fin.prod_univ_one, Fin.prod_univ_one] at this
    exact (globalKernel_balance ψ q hs ht h).1 this
  · intro hq S T hS hT
    rw [globalTransition_eq, globalTransition_eq]
    refine prod_balance fun c => ?_
    by_cases h : S c = T c
    · rw [h]
    · exact (globalKernel_balance ψ q (hS c) (hT c) h).2 (hq _ _ (hS c) (hT c))

/-- **C68 fails.** Whatever the proposals' distribution, unless it is uniform the squared amplitudes are not
stationary for the constant wave function: the chain then simply follows the proposals. -/
theorem C68_violated (q : Config ι → ℝ) (hq : ∑ s ∈ allSpins ι, q s = 1)
    (hne : ∃ s t, IsSpin s ∧ IsSpin t ∧ q s ≠ q t) : ¬ Stationary (C := 1) (fun _ : Config ι => 0) (globalTransition (fun _ => 0) q) := by
  classical
  intro hst
  obtain ⟨s, t, hs, ht, h⟩ := hne
  have hw : ∀ x : Config ι, weight (fun _ : Config ι => (0 : ℂ)) x = 1 := fun x => by simp [weight]
  have hk : ∀ a b : Config ι, IsSpin b → globalKernel (fun _ => 0) q a b = q b := by
    intro a b hb
    unfold globalKernel stepProb
    simp only [hw, div_one, min_self, sub_self, ite_self, add_zero, mul_ite, mul_one, mul_zero]
    rw [Finset.sum_ite_eq', if_pos ((mem_allSpins b).2 hb)]
  have hc : ∀ b : Config ι, IsSpin b → ((Fintype.piFinset fun _ : Fin 1 => allSpins ι).card : ℝ) * q b = 1 := by
    intro b hb
    have := hst (fun _ => b) fun _ => hb
    simp only [globalTransition_eq, Fin.prod_univ_one, hw, one_mul, hk _ b hb, Finset.sum_const, nsmul_eq_mul] at this
    exact this
  have h1 := hc s hs
  have h2 := hc t ht
  have hz : ((Fintype.piFinset fun _ : Fin 1 => allSpins ι).card : ℝ) ≠ 0 := by
    intro h0; rw [h0, zero_mul] at h1; exact zero_ne_one h1
  exact h (mul_left_cancel₀ hz (h1.trans h2.symm))

/-- **C68, proved part.** Uniform proposals are correct for every wave function and number of chains. -/
theorem C68_uniform_partial (ψ : Config ι → ℂ) (q : Config ι → ℝ) (hq : ∑ s ∈ allSpins ι, q s = 1)
    (hu : ∀ s t, IsSpin s → IsSpin t → q s = q t) :
    DetailedBalance (C := C) ψ (globalTransition ψ q) ∧ Stationary (C := C) ψ (globalTransition ψ q) := by
  have hb : ∀ s t, IsSpin s → IsSpin t → weight ψ s * globalKernel ψ q s t = weight ψ t * globalKernel ψ q t s := by
    intro s t hs ht
    by_cases h : s = t
    · rw [h]
    · exact (globalKernel_balance ψ q hs ht h).2 (hu s t hs ht)
  constructor
  · intro S T hS hT
    rw [globalTransition_eq, globalTransition_eq]
    exact prod_balance fun c => hb _ _ (hS c) (hT c)
  · intro T hT
    simp only [globalTransition_eq]
    refine prod_stationary (allSpins ι) (fun s hs t ht => hb s t ((mem_allSpins s).1 hs) ((mem_allSpins t).1 ht)) ?_ T
      fun c => (mem_allSpins _).2 (hT c)
    classical
    intro s hs
    unfold globalKernel
    rw [Finset.sum_comm]
    refine (Finset.sum_congr rfl fun s' hs' => ?_).trans hq
    rw [← Finset.mul_sum, stepProb_sum (allSpins ι) hs hs', mul_one]

end global

/-- The hypotheses of `C68_violated` are met: a proposal distribution on one spin that is not uniform. -/
example : ∃ q : Config (Fin 1) → ℝ, ∑ s ∈ allSpins (Fin 1), q s = 1 ∧ ∃ s t, IsSpin s ∧ IsSpin t ∧ q s ≠ q t := by
  classical
  refine ⟨fun s => if s = fun _ => 1 then 1 else 0, ?_, fun _ => 1, fun _ => -1, fun _ => Or.inl rfl, fun _ => Or.inr rfl, ?_⟩
  · rw [Finset.sum_ite_eq', if_pos ((mem_allSpins _).2 fun _ => Or.inl rfl)]
  · simp only [if_true]
    rw [if_neg]
    · norm_num
    · intro h
      have := congrFun h 0
      norm_num at this

/-- A run of two calls with different machines, to which `C50_local` applies. -/
example (r : Nat → Fin 2 → Idx (fun _ : Fin 2 => 3)) (u : Nat → Fin 2 → ℝ) :
    ∃ batches st', run (localSweeps r u) 4 1 2 [⟨fun _ => 0, fun _ _ => 0⟩, ⟨fun s => (s 0 : ℂ), fun _ _ => 0⟩]
      (0, ⟨fun _ _ => 1, fun _ => 0⟩) = some (batches, st') ∧ batches.length = 2 :=
  symmetric_run (fun _ t st => localCandidates (r t) st.sample) u 4 1 2 (by decide) _ _

end Verif.Metropolis
