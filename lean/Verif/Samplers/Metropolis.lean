import Verif.Operators.Basic
import Mathlib.Analysis.SpecialFunctions.Log.Basic
import Mathlib.Analysis.Complex.Exponential
import Mathlib.Data.Fintype.Pi
import Mathlib.Data.Fintype.Card

/-
Model of `src/flowket/samplers/metropolis_hastings.py`.

The machine is a function `ψ` from configurations to logarithms of amplitudes (`machine.predict(...)[:, 0]`
row by row; mini batches do not matter for it). All values are finite numbers, so the exception of lines
103-105 does not occur. Random numbers are arguments. The configurations of the chains are functions of
the chain number.
-/
namespace Verif.Metropolis

open Verif.Operators

variable {ι : Type} {C : Nat}

/-- The part of the sampler that changes: `sample` and `sample_machine_values` (lines 28, 40). -/
structure State (ι : Type) (C : Nat) where
  sample : Fin C → Config ι
  values : Fin C → ℂ

/-- `machine_updated` (lines 39-40). -/
def machineUpdated (ψ : Config ι → ℂ) (st : State ι C) : State ι C :=
  { st with values := fun c => ψ (st.sample c) }

/-- The last lines of both `_sweep` methods (110-113, 187-190): `accepts` is `ratio > uniform`, accepted
chains take over candidate and value; returns the number of accepted chains as well. -/
noncomputable def acceptStep (ratio : Fin C → ℝ) (cand : Fin C → Config ι) (candValues : Fin C → ℂ) (u : Fin C → ℝ)
    (st : State ι C) : State ι C × Nat :=
  let accepts : Fin C → Bool := fun c => decide (ratio c > u c)
  ({ sample := fun c => if accepts c then cand c else st.sample c
     values := fun c => if accepts c then candValues c else st.values c },
   (Finset.univ.filter fun c => accepts c = true).card)

/-- `MetropolisHastingsSymmetricProposal._sweep` (lines 99-113) after `_next_candidates` has stored `cand`. -/
noncomputable def sweepSymmetric (ψ : Config ι → ℂ) (cand : Fin C → Config ι) (u : Fin C → ℝ) (st : State ι C) :
    State ι C × Nat :=
  let candValues := fun c => ψ (cand c)
  let logRatio : Fin C → ℝ := fun c => min (((candValues c).re - (st.values c).re) * 2) 0
  acceptStep (fun c => Real.exp (logRatio c)) cand candValues u st

/-! ### Candidates -/

/-- Index tuples of an array of the given shape. -/
abbrev Idx {D : Nat} (shape : Fin D → Nat) := (d : Fin D) → Fin (shape d)

variable {D : Nat} {shape : Fin D → Nat}

/-- `MetropolisHastingsLocal._next_candidates` (lines 122-127); `r c d` is the random integer of chain `c`
and dimension `d`. -/
def localCandidates (r : Fin C → Idx shape) (sample : Fin C → Config (Idx shape)) : Fin C → Config (Idx shape) :=
  fun c => Function.update (sample c) (r c) (sample c (r c) * (-1))

/-- `(dim_idx + dim_idx_move) % dim_size` (line 140); the move is one less than the argument `k`, which
ranges over 0, 1, 2 as `randint(low=-1, high=2)` ranges over three numbers. -/
def moveIdx {n : Nat} (a : Fin n) (k : Fin 3) : Fin n :=
  ⟨(((a.val : Int) + ((k.val : Int) - 1)) % (n : Int)).toNat, by
    have hn : (0 : Int) < n := by have := a.2; omega
    have h1 := Int.emod_nonneg ((a.val : Int) + ((k.val : Int) - 1)) hn.ne'
    have h2 := Int.emod_lt_of_pos ((a.val : Int) + ((k.val : Int) - 1)) hn
    omega⟩

/-- `MetropolisHastingsExchange._next_candidates` (lines 133-145): random site and random moves per
dimension; the values at both sites are exchanged through a temporary copy. -/
def exchangeCandidates (r : Fin C → Idx shape × (Fin D → Fin 3)) (sample : Fin C → Config (Idx shape)) :
    Fin C → Config (Idx shape) := fun c =>
  let idx := (r c).1
  let idx2 : Idx shape := fun d => moveIdx ((r c).1 d) ((r c).2 d)
  let candidate := sample c
  let temp := candidate idx
  let candidate := Function.update candidate idx (candidate idx2)
  Function.update candidate idx2 temp

/-- `MetropolisHastingsUniform._next_candidates` (lines 163-164): `numpy.random.choice([-1, 1], ...)`, where
`r c i` is the drawn position in the list. -/
def uniformCandidates (r : Fin C → ι → Fin 2) : Fin C → Config ι := fun c i => if r c i = 0 then -1 else 1

/-- `count_nonzero(use_conn, axis=0)` for one chain (lines 176, 181). -/
def numConn (rows : List (Row ι ℝ)) : Nat := (rows.filter fun r => r.use).length

/-- `all_conn[use_conn[:, i], i, ...]` for chain `i` (line 178). -/
def possible (rows : List (Row ι ℝ)) : List (Config ι) := (rows.filter fun r => r.use).map (·.conn)

/-- All values of a list of optional results, if there are. -/
def allSome {α : Type} (f : Fin C → Option α) : Option (Fin C → α) :=
  if h : ∀ c, (f c).isSome then some fun c => (f c).get (h c) else none

/-- `MetropolisHastingsHamiltonian._sweep` (lines 173-190). `find` and `find'` are the answers of the two
calls of `hamiltonian.find_conn`; `k c` is the result of `numpy.random.choice(num_of_conn[c])`. `none`
where the code raises because there is no connected configuration to choose from. -/
noncomputable def sweepHamiltonian (ψ : Config ι → ℂ) (find find' : (Fin C → Config ι) → Fin C → List (Row ι ℝ))
    (k : Fin C → Nat) (u : Fin C → ℝ) (st : State ι C) : Option (State ι C × Nat) :=
  let rows := find st.sample
  (allSome fun c => (possible (rows c))[k c]?).bind fun cand =>
    let rows' := find' cand
    let candValues := fun c => ψ (cand c)
    let logRatio : Fin C → ℝ := fun c => ((candValues c).re - (st.values c).re) * 2 +
      Real.log ((numConn (rows c) : ℝ) / (numConn (rows' c) : ℝ))
    some (acceptStep (fun c => Real.exp (logRatio c)) cand candValues u st)

/-! ### One batch -/

/-- A call of `_sweep`; `none` if it raises. -/
abbrev Sweep (ι : Type) (C : Nat) := State ι C → Option (State ι C × Nat)

/-- `for j in range(n): total += self._sweep()`: the sweeps with numbers `t`, ..., `t + n - 1`. -/
def sweeps (sw : Nat → Sweep ι C) (t : Nat) : Nat → State ι C × Nat → Option (State ι C × Nat)
  | 0, st => some st
  | n + 1, st => (sweeps sw t n st).bind fun st => (sw (t + n) st.1).bind fun r => some (r.1, st.2 + r.2)

/-- `warn_up` (lines 46-49) from sweep number `t` on; the results of `_sweep` are dropped. Returns the
number of the next sweep and the state. -/
def warnUp (sw : Nat → Sweep ι C) (unused : Nat) : Nat → Nat × State ι C → Option (Nat × State ι C)
  | 0, st => some st
  | n + 1, st => (warnUp sw unused n st).bind fun st =>
    (sweeps sw st.1 unused (st.2, 0)).bind fun r => some (st.1 + unused, r.1)

/-- `batch_divided_to_chains[:, i, ...] = sample` on the rows of `batch` (lines 53-54, 63): entry `(c, i)`
of the view of shape `(chains, perChain, ...)` is row `c * perChain + i`. -/
def writeColumn (perChain i : Nat) (sample : Fin C → Config ι) (batch : Nat → Config ι) : Nat → Config ι := fun row =>
  if h : row / perChain < C then (if row % perChain = i then sample ⟨row / perChain, h⟩ else batch row) else batch row

/-- State of the loop of lines 60-63: number of the next sweep, chain state, `accepts_counter`, `batch`. -/
structure Loop (ι : Type) (C : Nat) where
  time : Nat
  state : State ι C
  counter : Nat
  batch : Nat → Config ι

/-- The loop of lines 60-63. -/
def mainLoop (sw : Nat → Sweep ι C) (unused perChain : Nat) : Nat → Loop ι C → Option (Loop ι C)
  | 0, l => some l
  | n + 1, l => (mainLoop sw unused perChain n l).bind fun l =>
    (sweeps sw l.time (unused + 1) (l.state, l.counter)).bind fun r =>
      some { time := l.time + (unused + 1), state := r.1, counter := r.2, batch := writeColumn perChain n r.1.sample l.batch }

/-- Result of `next(sampler)`: the returned batch, the attribute `acceptance_ratio`, the state of the
chains, and the number of the next sweep. -/
structure Next (ι : Type) (C : Nat) where
  batch : Nat → Config ι
  acceptanceRatio : ℝ
  state : State ι C
  time : Nat

/-- `MetropolisHastingsSampler.__init__` accepts the sizes (lines 26-27; zero chains raise as well). -/
def sizesOk (batchSize chains : Nat) : Bool := decide (chains ≠ 0 ∧ batchSize % chains = 0)

/-- `__next__` (lines 51-65) with current machine `ψ`; `sw t` is the `t`-th call of `_sweep`, `garbage` the
contents of `numpy.empty`. `none` if a sweep raises or for the division by zero of line 64. -/
noncomputable def next (ψ : Config ι → ℂ) (batchSize unused discard : Nat) (sw : Nat → Sweep ι C)
    (t : Nat) (garbage : Nat → Config ι) (st : State ι C) : Option (Next ι C) :=
  let st := machineUpdated ψ st
  let perChain := batchSize / C
  let w := if discard > 0 then warnUp sw unused (perChain / discard) (t, st) else some (t, st)
  w.bind fun w =>
    (mainLoop sw unused perChain perChain { time := w.1, state := w.2, counter := 0, batch := garbage }).bind fun l =>
      if batchSize * (unused + 1) = 0 then none
      else some { batch := l.batch, acceptanceRatio := (l.counter : ℝ) / ((batchSize * (unused + 1) : Nat) : ℝ),
                  state := l.state, time := l.time }

end Verif.Metropolis
