import Verif.Operators.Ising

/-
Model of `src/flowket/operators/heisenberg.py`: connection search. The one-dimensional case runs
through the same code with a trailing dimension of size one (heisenberg.py:58-59,74-75).
-/
namespace Verif.Operators

/-- The part of the work arrays that belongs to one site `(i, j)`: `use_conn[i, j]`, `mel[i, j]`,
`sample_conn[i, j]` (views into the arrays returned to the caller, heisenberg.py:63-68) and
`self_mel[:, i, j]`. The middle index is `dim_idx`. -/
structure Slot (ι : Type) (B : Nat) where
  use : Nat → Fin B → Bool
  mel : Nat → Fin B → ℝ
  conn : Nat → Fin B → Config ι
  selfMel : Fin B → ℝ

/-- Work arrays of a `HeisenbergFindConn` (heisenberg.py:60-70), row zero apart. -/
structure Buffers (n m B : Nat) where
  conn0 : Fin B → Config (Fin n × Fin m)
  mel0 : Fin B → ℝ
  use0 : Fin B → Bool
  slots : Fin n × Fin m → Slot (Fin n × Fin m) B

/-- `HeisenbergFindConn.__init__` (heisenberg.py:60-70): everything zero, row zero marked used. -/
def initBuffers (n m B : Nat) : Buffers n m B where
  conn0 := fun _ _ => 0
  mel0 := fun _ => 0
  use0 := fun _ => true
  slots := fun _ => ⟨fun _ _ => false, fun _ _ => 0, fun _ _ _ => 0, fun _ => 0⟩

/-- The five writes made when site `a` has neighbour `b` along an axis (heisenberg.py:91-95, 97-101,
108-112, 114-118) followed by the write of `mel` (104, 121). -/
noncomputable def writeBond {ι : Type} [DecidableEq ι] {B : Nat} (offDiag : ℝ)
    (sample : Fin B → Config ι) (a b : ι) (d : Nat) (s : Slot ι B) : Slot ι B where
  selfMel := fun x => s.selfMel x + ((sample x a * sample x b : ℤ) : ℝ)
  use := Function.update s.use d fun x => decide (sample x a ≠ sample x b)
  conn := Function.update s.conn d fun x =>
    Function.update (Function.update (s.conn d x) a (sample x b)) b (sample x a)
  mel := Function.update s.mel d fun x => if sample x a ≠ sample x b then offDiag else 0

/-- The writes made when there is no neighbour (heisenberg.py:102-104, 119-121). -/
def writeNoBond {ι : Type} {B : Nat} (d : Nat) (s : Slot ι B) : Slot ι B :=
  { s with
    use := Function.update s.use d fun _ => false
    mel := Function.update s.mel d fun _ => 0 }

/-- Body of the double loop of `calc_conn_and_mel` (heisenberg.py:86-121) for site `(i, j)` on its
slot. -/
noncomputable def siteBody {n m B : Nat} (offDiag : ℝ) (pbc : Bool)
    (sample : Fin B → Config (Fin n × Fin m)) (p : Fin n × Fin m) (s : Slot (Fin n × Fin m) B) :
    Slot (Fin n × Fin m) B :=
  let (i, j) := p
  let dimIdx := 0
  let (s, dimIdx) :=
    if n > 1 then
      (if h : i.val + 1 < n then writeBond offDiag sample (i, j) (⟨i.val + 1, h⟩, j) dimIdx s
       else if pbc then writeBond offDiag sample (i, j) (⟨0, by omega⟩, j) dimIdx s
       else writeNoBond dimIdx s, dimIdx + 1)
    else (s, dimIdx)
  if m > 1 then
    (if h : j.val + 1 < m then writeBond offDiag sample (i, j) (i, ⟨j.val + 1, h⟩) dimIdx s
     else if pbc then writeBond offDiag sample (i, j) (i, ⟨0, by omega⟩) dimIdx s
     else writeNoBond dimIdx s)
  else s

/-- `HeisenbergFindConn.find_conn` (heisenberg.py:72-82) acting on the work arrays: fill all
connections with the sample, clear `self_mel` (85), run the loops (86-121), sum up the diagonal. -/
noncomputable def findConnBuffers {n m B : Nat} (offDiag : ℝ) (pbc : Bool)
    (sample : Fin B → Config (Fin n × Fin m)) (buf : Buffers n m B) : Buffers n m B :=
  let filled : Fin n × Fin m → Slot (Fin n × Fin m) B := fun p =>
    { buf.slots p with conn := fun _ => sample, selfMel := fun _ => 0 }
  let slots := (gridSites n m).foldl
    (fun sl p => Function.update sl p (siteBody offDiag pbc sample p (sl p))) filled
  { conn0 := sample
    mel0 := fun x => ∑ p, (slots p).selfMel x
    use0 := buf.use0
    slots := slots }

/-- The arrays as seen by the caller (heisenberg.py:80-82): row zero, then the rows of the views
`[i, j, dim_idx]` in row-major order, `dim_idx < dim`. -/
def rowsOf {n m B : Nat} (dim : Nat) (buf : Buffers n m B) (x : Fin B) :
    List (Row (Fin n × Fin m) ℝ) :=
  ⟨buf.conn0 x, buf.mel0 x, buf.use0 x⟩ ::
    (gridSites n m).flatMap fun p =>
      (List.range dim).map fun d =>
        ⟨(buf.slots p).conn d x, (buf.slots p).mel d x, (buf.slots p).use d x⟩

/-- `off_diag` (heisenberg.py:11-14). -/
noncomputable def offDiag (unitaryRotation : Bool) : ℝ := if unitaryRotation then -2 else 2

end Verif.Operators
