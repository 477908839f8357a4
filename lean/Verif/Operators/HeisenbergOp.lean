import Verif.Operators.Heisenberg
import Mathlib.Algebra.BigOperators.Group.List.Basic

/-
Model of the `Heisenberg` operator object of `src/flowket/operators/heisenberg.py`: cached
calculators, mutable shape, aliasing of returned arrays, and random states.
-/
namespace Verif.Operators

/-- The mutable state of a `Heisenberg` object (heisenberg.py:10-19) on an `n × m` lattice:
`hilbert_state_shape`, and the work arrays of `find_conn_calculators` per batch size. `dim`, `pbc`
and `off_diag` never change after construction and `dim` is `len(hilbert_state_shape)` at
construction (heisenberg.py:18). -/
structure HeisOp (n m : Nat) where
  dim : Nat
  rot : Bool
  pbc : Bool
  shape : List Nat
  cache : (B : Nat) → Option (Buffers n m B)

/-- `Heisenberg(hilbert_state_shape=(n,), ...)` (heisenberg.py:9-19); stored with a trailing
dimension of size one. -/
def HeisOp.new1 (n : Nat) (rot pbc : Bool) : HeisOp n 1 := ⟨1, rot, pbc, [n], fun _ => none⟩

/-- `Heisenberg(hilbert_state_shape=(n, m), ...)` (heisenberg.py:9-19). -/
def HeisOp.new2 (n m : Nat) (rot pbc : Bool) : HeisOp n m := ⟨2, rot, pbc, [n, m], fun _ => none⟩

/-- Construction of the calculator for a batch size when it is missing (heisenberg.py:41-43), which
runs `HeisenbergFindConn.__init__` (50-70) with its write to the operator's shape (58-59). -/
def HeisOp.ensure {n m : Nat} (op : HeisOp n m) (B : Nat) : HeisOp n m × Buffers n m B :=
  match op.cache B with
  | some buf => (op, buf)
  | none =>
    ({ op with
        shape := if op.shape.length = 1 then op.shape ++ [1] else op.shape
        cache := Function.update op.cache B (some (initBuffers n m B)) }, initBuffers n m B)

/-- `Heisenberg.find_conn` (heisenberg.py:39-44,72-82). The returned arrays are views of the cached
work arrays; what they contain at the time of the call is the second component. -/
noncomputable def HeisOp.findConn {n m : Nat} (op : HeisOp n m) (B : Nat)
    (sample : Fin B → Config (Fin n × Fin m)) :
    HeisOp n m × (Fin B → List (Row (Fin n × Fin m) ℝ)) :=
  let (op, buf) := op.ensure B
  let buf := findConnBuffers (offDiag op.rot) op.pbc sample buf
  ({ op with cache := Function.update op.cache B (some buf) }, rowsOf op.dim buf)

/-- What the arrays returned by an earlier `find_conn` call of batch size `B` contain now: they are
`view()`s of the work arrays of that batch size (heisenberg.py:80-82), so their present content is
the present content of the cache. -/
def HeisOp.readReturned {n m : Nat} (op : HeisOp n m) (B : Nat) (x : Fin B) :
    Option (List (Row (Fin n × Fin m) ℝ)) :=
  (op.cache B).map fun buf => rowsOf op.dim buf x

/-- A `find_conn` call: the batch size and the batch. -/
abbrev Call (n m : Nat) := (B : Nat) × (Fin B → Config (Fin n × Fin m))

/-- The object after a sequence of calls. -/
noncomputable def HeisOp.run {n m : Nat} (op : HeisOp n m) (calls : List (Call n m)) : HeisOp n m :=
  calls.foldl (fun o c => (o.findConn c.1 c.2).1) op

/-- `numpy.expand_dims(sample, axis=-1)` (heisenberg.py:75). -/
def expandDims {n : Nat} (s : Config (Fin n)) : Config (Fin n × Fin 1) := fun p => s p.1

/-- The reshape of line 81 that drops the trailing dimension. -/
def squeezeRow {n : Nat} (r : Row (Fin n × Fin 1) ℝ) : Row (Fin n) ℝ := ⟨fun i => r.conn (i, 0), r.mel, r.use⟩

/-- `find_conn` of a one-dimensional operator in terms of one-dimensional configurations
(heisenberg.py:74-75,80-81). -/
noncomputable def HeisOp.findConn1 {n : Nat} (op : HeisOp n 1) (B : Nat)
    (sample : Fin B → Config (Fin n)) : HeisOp n 1 × (Fin B → List (Row (Fin n) ℝ)) :=
  let r := op.findConn B fun b => expandDims (sample b)
  (r.1, fun x => (r.2 x).map squeezeRow)

/-! ### Random states -/

/-- Why a call failed. -/
inductive Err where
  | valueError
  | assertionError
  deriving DecidableEq

/-- Python `int(x)` of a float: towards zero. -/
noncomputable def pyInt (x : ℝ) : ℤ := if 0 ≤ x then ⌊x⌋ else ⌈x⌉

/-- The unshuffled row (heisenberg.py:26-27): `numpy.ones((size + int(total_sz),))` followed by
`numpy.full((size - int(total_sz),), -1)`; a negative length raises. Assigning it to a row of length
`total_size` raises unless the lengths agree (its length is even, so the length-one broadcast never
applies). -/
noncomputable def sectorRow (totalSize : Nat) (totalSz : ℝ) : Except Err (List ℤ) :=
  let size : ℤ := (totalSize / 2 : Nat)
  let up := size + pyInt totalSz
  let down := size - pyInt totalSz
  if up < 0 ∨ down < 0 then .error .valueError
  else
    let row := List.replicate up.toNat (1 : ℤ) ++ List.replicate down.toNat (-1)
    if row.length = totalSize then .ok row else .error .valueError

/-- `Heisenberg.random_states` (heisenberg.py:21-32) with `total_sz` not `None`. `shuffle i` is what
`numpy.random.shuffle` does to row `i` (any rearrangement). Rows are flat; the reshape of line 29 does
not change their entries. The assertion of line 30 covers all rows. -/
noncomputable def randomStates (totalSize : Nat) (totalSz : ℝ) (shuffle : Nat → List ℤ → List ℤ)
    (k : Nat) : Except Err (List (List ℤ)) :=
  match (List.range k).mapM fun i => (sectorRow totalSize totalSz).map (shuffle i) with
  | .error e => .error e
  | .ok states =>
    open Classical in
    if ∀ s ∈ states, ((s.sum : ℤ) : ℝ) = totalSz then .ok states else .error .assertionError

end Verif.Operators
