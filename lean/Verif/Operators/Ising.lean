import Verif.Operators.Basic
import Mathlib.Data.Real.Archimedean
import Mathlib.Data.Fintype.Prod
import Mathlib.Logic.Equiv.Fin.Basic

/-
Model of `src/flowket/operators/ising.py`.
-/
namespace Verif.Operators

/-- The `h` argument: numpy takes the dtype of the matrix-element array from it (ising.py:44). -/
inductive Field where
  | float (h : ℝ)
  | int (h : ℤ)

/-- Value of the field. -/
def Field.val : Field → ℝ
  | .float h => h
  | .int h => (h : ℝ)

/-- Rounding towards zero, the numpy cast from float to int. -/
noncomputable def truncZero (x : ℝ) : ℝ := if 0 ≤ x then (⌊x⌋ : ℝ) else (⌈x⌉ : ℝ)

/-- Storing a float in the matrix-element array (ising.py:45): exact for a float field, truncated
for an integer field because `numpy.full(..., -h)` (ising.py:44) then makes an integer array. -/
noncomputable def Field.store : Field → ℝ → ℝ
  | .float _, x => x
  | .int _, x => truncZero x

/-- `numpy.pad(sample, (0, 1))` along one axis (ising.py:19-23): position `n` holds entry `0` in wrap
mode and `0` in constant mode. -/
def pad1 {n : Nat} (pbc : Bool) (s : Fin n → ℤ) (k : Nat) : ℤ :=
  if h : k < n then s ⟨k, h⟩
  else if pbc then (if h0 : 0 < n then s ⟨0, h0⟩ else 0) else 0

/-- Loop state of the 1-D branch: `sample_conn` and `mel` (ising.py:18,25). -/
structure IsingState1 (n B : Nat) where
  sampleConn : Fin n → Fin B → Config (Fin n)
  mel : Fin B → Fin n → ℝ

/-- Body of the 1-D loop (ising.py:30-32). -/
noncomputable def isingStep1 {n B : Nat} (j : ℝ) (pbc : Bool) (sample : Fin B → Config (Fin n))
    (st : IsingState1 n B) (i : Fin n) : IsingState1 n B where
  sampleConn := Function.update st.sampleConn i fun b =>
    Function.update (st.sampleConn i b) i (st.sampleConn i b i * (-1))
  mel := fun b => Function.update (st.mel b) i
    (st.mel b i - j * (sample b i : ℝ) * (pad1 pbc (sample b) (i.val + 1) : ℝ))

/-- 1-D branch of `Ising.find_conn` (ising.py:17-46) with one row list per sample. `mel` is float32 in
the code; here exact. -/
noncomputable def isingFindConn1 {n B : Nat} (h : Field) (j : ℝ) (pbc : Bool)
    (sample : Fin B → Config (Fin n)) (b : Fin B) : List (Row (Fin n) ℝ) :=
  let st := (List.finRange n).foldl (isingStep1 j pbc sample)
    ⟨fun _ => sample, fun _ _ => 0⟩
  let selfMel := ∑ i, st.mel b i
  ⟨sample b, h.store selfMel, true⟩ ::
    (List.finRange n).map fun i => ⟨st.sampleConn i b, -h.val, true⟩

/-- Loop state of the 2-D branch. -/
structure IsingState2 (n m B : Nat) where
  sampleConn : Fin n × Fin m → Fin B → Config (Fin n × Fin m)
  mel : Fin B → Fin n × Fin m → ℝ

/-- Body of the 2-D loop (ising.py:34-40). -/
noncomputable def isingStep2 {n m B : Nat} (jc : ℝ) (pbc : Bool) (sample : Fin B → Config (Fin n × Fin m))
    (st : IsingState2 n m B) (p : Fin n × Fin m) : IsingState2 n m B :=
  let (i, j) := p
  let sampleConn := Function.update st.sampleConn p fun b =>
    Function.update (st.sampleConn p b) p (st.sampleConn p b p * (-1))
  let mel1 : Fin B → Fin n × Fin m → ℝ :=
    if n > 1 then fun b => Function.update (st.mel b) p
      (st.mel b p - jc * (sample b p : ℝ) * (pad1 pbc (fun i' => sample b (i', j)) (i.val + 1) : ℝ))
    else st.mel
  let mel2 : Fin B → Fin n × Fin m → ℝ :=
    if m > 1 then fun b => Function.update (mel1 b) p
      (mel1 b p - jc * (sample b p : ℝ) * (pad1 pbc (fun j' => sample b (i, j')) (j.val + 1) : ℝ))
    else mel1
  ⟨sampleConn, mel2⟩

/-- All sites of an `n × m` grid in loop (row-major) order: `for i ... for j ...` (ising.py:34-35). -/
def gridSites (n m : Nat) : List (Fin n × Fin m) :=
  (List.finRange n).flatMap fun i => (List.finRange m).map fun j => (i, j)

/-- 2-D branch of `Ising.find_conn` (ising.py:17-46). Rows follow the row-major reshape of line 42. -/
noncomputable def isingFindConn2 {n m B : Nat} (h : Field) (j : ℝ) (pbc : Bool)
    (sample : Fin B → Config (Fin n × Fin m)) (b : Fin B) : List (Row (Fin n × Fin m) ℝ) :=
  let st := (gridSites n m).foldl (isingStep2 j pbc sample)
    ⟨fun _ => sample, fun _ _ => 0⟩
  let selfMel := ∑ p, st.mel b p
  ⟨sample b, h.store selfMel, true⟩ ::
    (gridSites n m).map fun p => ⟨st.sampleConn p b, -h.val, true⟩

end Verif.Operators
