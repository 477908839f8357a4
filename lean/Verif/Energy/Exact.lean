import Mathlib.Analysis.SpecialFunctions.Log.Basic
import Mathlib.Analysis.Complex.Exponential
import Mathlib.Algebra.BigOperators.Fin

/-
Model of `src/flowket/optimization/exact_variational.py`: exact evaluation of a variational state on
all `2^N` configurations, in slices of a batch size.

* Arrays indexed by a state number are functions on `Nat`; only the entries below the array length are
  meaningful. Arrays indexed by (row, state) are functions `Nat → Nat → _`.
* Numbers are exact: `numpy.complex128` is `ℂ`, `float64` is `ℝ`, `fsum` is the sum.
* `σ` is the type of configurations (`input_size` arrays with entries `±1`), `states` the array built in
  line 121 and `encode` the composition of `(c + 1) // 2`, flattening and
  `binary_array_to_decimal_array` (lines 59-63); that the two are inverse to each other is C01.
-/
namespace Verif.Energy.Exact

/-- `a[i:i+len] = v`. -/
def setSlice {α : Type} (a : Nat → α) (i len : Nat) (v : Nat → α) : Nat → α :=
  fun x => if i ≤ x ∧ x < i + len then v (x - i) else a x

/-- `range(0, S, bs)` for a positive step. -/
def pyRange (S bs : Nat) : List Nat := (List.range ((S + bs - 1) / bs)).map fun k => k * bs

/-- The answer of `find_conn` on a batch: number of rows, connections and matrix elements by (row,
sample). The use flags are ignored by this module (line 56). -/
structure Found (σ : Type) where
  count : Nat
  conn : Nat → Nat → σ
  mel : Nat → Nat → ℂ

/-- What the module takes from its surroundings: the number of states, the states, the encoding, the
operator (its `find_conn` on a batch of given size and its announced maximal number of rows). -/
structure Setup (σ : Type) where
  S : Nat
  states : Nat → σ
  encode : σ → Nat
  find : Nat → (Nat → σ) → Found σ
  maxConn : Option Nat

/-- The exceptions of `exact_variational.py:58-59,127-128`. -/
inductive ExactError where
  /-- `raise Exception('In exact the batch size must divide ...')` (line 128) -/
  | batchSize
  /-- `num_of_states % 0` (line 127) -/
  | zeroDivision
  /-- numpy refuses to assign more rows than the array has (lines 58-59) -/
  | shape
deriving DecidableEq

/-- `_set_batch_size` (lines 124-130); batch sizes are natural numbers here. -/
def setBatchSize (S batch : Nat) : Except ExactError Nat :=
  let b := if batch > S then S else batch
  if b = 0 then .error .zeroDivision
  else if S % b ≠ 0 then .error .batchSize else .ok b

/-- `states_idx_local_connections` and `states_hamiltonian_values`, with their number of rows. -/
structure Tables where
  R : Nat
  idx : Nat → Nat → Nat
  mel : Nat → Nat → ℂ

variable {σ : Type}

/-- The slice of states handed to the operator or the network in iteration `i`. -/
def slice (s : Setup σ) (i : Nat) : Nat → σ := fun k => s.states (i + k)

/-- `calculate_max_number_of_local_connections` (lines 65-73). -/
def calcMaxConn (s : Setup σ) (bs : Nat) : Nat :=
  (pyRange s.S bs).foldl (fun m i => if (s.find bs (slice s i)).count > m then (s.find bs (slice s i)).count else m) 0

/-- One iteration of the loop of `_build_local_connections` (lines 55-63). The array
`states_local_connections` holds zeros in the rows the operator did not return; its code is number `0`.
(Lines 58 and 59 write the rows below the number returned, line 61 all rows.) -/
def buildStep (s : Setup σ) (bs R : Nat) (t : Except ExactError Tables) (i : Nat) : Except ExactError Tables :=
  t.bind fun t =>
  let f := s.find bs (slice s i)
  if f.count > R then .error .shape
  else .ok
    { R := R
      mel := fun j => if j < f.count then setSlice (t.mel j) i bs (f.mel j) else t.mel j
      idx := fun j => setSlice (t.idx j) i bs (fun k => if j < f.count then s.encode (f.conn j k) else 0) }

/-- `_build_local_connections` (lines 44-63). -/
def buildConnections (s : Setup σ) (bs : Nat) : Except ExactError Tables :=
  let R := s.maxConn.getD (calcMaxConn s bs)
  (pyRange s.S bs).foldl (buildStep s bs R) (.ok ⟨R, fun _ _ => 0, fun _ _ => 0⟩)

/-- The arrays of `ExactVariational` and its `energy_observable`. -/
structure Arrays where
  waveFunction : Nat → ℂ
  psiSquared : Nat → ℂ
  normSq : ℝ
  logProbs : Nat → ℝ
  probs : Nat → ℝ
  energies : Nat → ℂ
  naive : Nat → ℂ
  energy : ℂ
  variance : ℝ
  coeff : Nat → ℂ

/-- Initial zeros (lines 22-28, 113-119); the attributes that do not exist before the first update
(norm, energy, variance) are zero as well. -/
def Arrays.init : Arrays := ⟨fun _ => 0, fun _ => 0, 0, fun _ => 0, fun _ => 0, fun _ => 0, fun _ => 0, 0, 0, fun _ => 0⟩

/-- `complex_norm_log_fsum_exp` (src/flowket/exact/utils.py:75-78) on the first `S` entries. -/
noncomputable def complexNormLogSumExp (S : Nat) (a : Nat → ℂ) : ℝ :=
  let m := (List.range S).foldl (fun m x => max m (a x).re) (a 0).re
  Real.log (∑ x : Fin S, Real.exp ((a x).re - m)) + m

/-- `_update_wave_function_arrays` (lines 132-139); `net` is the network, applied to a slice of states
row by row. -/
noncomputable def updateWaveFunction (s : Setup σ) (bs : Nat) (net : σ → ℂ) (a : Arrays) : Arrays :=
  let wf := (pyRange s.S bs).foldl (fun w i => setSlice w i bs (fun k => net (slice s i k))) a.waveFunction
  let psiSq : Nat → ℂ := fun x => wf x * 2
  let logNorm := complexNormLogSumExp s.S psiSq
  let logProbs : Nat → ℝ := fun x => (psiSq x).re - logNorm
  { a with waveFunction := wf, psiSquared := psiSq, normSq := Real.exp logNorm, logProbs := logProbs,
           probs := fun x => Real.exp (logProbs x) }

/-- The energies of one slice: lines 77-83. `log_values` is a scratch buffer that is overwritten
entirely before it is read. -/
noncomputable def sliceEnergies (t : Tables) (a : Arrays) (i k : Nat) : ℂ :=
  let logValues : Nat → ℂ := fun j => a.waveFunction (t.idx j (i + k))
  (∑ j : Fin t.R, (starRingEnd ℂ) (t.mel j (i + k)) *
    Complex.exp ((starRingEnd ℂ) (logValues j) + logValues 0)) / (a.normSq : ℂ)

/-- The naive local energies of one slice: lines 85-89. -/
noncomputable def sliceNaive (t : Tables) (a : Arrays) (i k : Nat) : ℂ :=
  let logValues : Nat → ℂ := fun j => a.waveFunction (t.idx j (i + k))
  ∑ j : Fin t.R, t.mel j (i + k) * Complex.exp (logValues j - logValues 0)

/-- `update_local_energy` (lines 75-95) with the variance switched on (line 107). -/
noncomputable def updateObservable (s : Setup σ) (bs : Nat) (t : Tables) (a : Arrays) : Arrays :=
  let e := (pyRange s.S bs).foldl (fun e i => setSlice e i bs (sliceEnergies t a i)) a.energies
  let nv := (pyRange s.S bs).foldl (fun e i => setSlice e i bs (sliceNaive t a i)) a.naive
  let E := ∑ x : Fin s.S, e x
  { a with energies := e, naive := nv, energy := E,
           variance := ∑ x : Fin s.S, ((nv x - E).re * (nv x - E).re) * a.probs x }

/-- `_update_local_energy` (lines 141-144). -/
noncomputable def updateLocalEnergy (s : Setup σ) (bs : Nat) (t : Tables) (a : Arrays) : Arrays :=
  let a := updateObservable s bs t a
  { a with coeff := fun x => a.energies x - (a.probs x : ℂ) * a.energy }

/-- `machine_updated` (lines 146-152), without the time stamps. -/
noncomputable def machineUpdated (s : Setup σ) (bs : Nat) (t : Tables) (net : σ → ℂ) (a : Arrays) : Arrays :=
  updateLocalEnergy s bs t (updateWaveFunction s bs net a)

/-- An `ExactVariational` object. -/
structure Obj (σ : Type) where
  setup : Setup σ
  bs : Nat
  tables : Tables
  arrays : Arrays

/-- `ExactVariational.__init__` (lines 100-107). -/
def Obj.new (s : Setup σ) (batch : Nat) : Except ExactError (Obj σ) :=
  (setBatchSize s.S batch).bind fun bs => (buildConnections s bs).bind fun t => .ok ⟨s, bs, t, .init⟩

/-- `machine_updated` on the object. -/
noncomputable def Obj.update (o : Obj σ) (net : σ → ℂ) : Obj σ :=
  { o with arrays := machineUpdated o.setup o.bs o.tables net o.arrays }

/-- A running generator (`to_generator`, lines 154-158): `pending` are the slice starts not yet yielded
in the current cycle. -/
structure Gen (σ : Type) where
  obj : Obj σ
  pending : List Nat

/-- A fresh generator. -/
def Gen.start (o : Obj σ) : Gen σ := ⟨o, []⟩

/-- What `next` returns: the slice of states and of coefficients, read at the time of the yield, and
whether the object was refreshed first. (The code returns views of the arrays.) -/
structure Yield (σ : Type) where
  batch : List (σ × ℂ)
  refreshed : Bool

/-- The slice `[i:i+bs]` of states and coefficients. -/
noncomputable def Obj.slice (o : Obj σ) (i : Nat) : List (σ × ℂ) :=
  (List.range o.bs).map fun k => (o.setup.states (i + k), o.arrays.coeff (i + k))

/-- One call of `next` while the network is `net`. (The slice list of a new cycle is never empty, as
there is at least one state; an empty one would make the loop of the code spin.) -/
noncomputable def Gen.next (g : Gen σ) (net : σ → ℂ) : Gen σ × Yield σ :=
  match g.pending with
  | i :: rest => (⟨g.obj, rest⟩, ⟨g.obj.slice i, false⟩)
  | [] =>
    let o := g.obj.update net
    match pyRange o.setup.S o.bs with
    | i :: rest => (⟨o, rest⟩, ⟨o.slice i, true⟩)
    | [] => (⟨o, []⟩, ⟨[], true⟩)

/-- The outputs of successive calls of `next`, the network at call `k` being `nets k`. -/
noncomputable def Gen.run (nets : Nat → σ → ℂ) (g : Gen σ) : Nat → Gen σ × List (Yield σ)
  | 0 => (g, [])
  | k + 1 =>
    let r := Gen.run nets g k
    let y := r.1.next (nets k)
    (y.1, r.2 ++ [y.2])

end Verif.Energy.Exact
