import Verif.Operators.Basic
import Mathlib.Data.Complex.Basic
import Mathlib.Data.Fintype.Prod

/-!
# Specification of the spin Hamiltonians

Pauli matrices act on wave functions, which are functions of a configuration. Lattices are given by
their list of bonds. Nothing here refers to the code.
-/
namespace Verif.Operators

variable {ι : Type} [DecidableEq ι]

/-- Wave function: a complex amplitude for every configuration. -/
abbrev Wave (ι : Type) := Config ι → ℂ

/-- Pauli `σˣ` on site `i`. -/
def pauliX (i : ι) (ψ : Wave ι) : Wave ι := fun s => ψ (flip i s)

/-- Pauli `σʸ` on site `i`: `⟨↑|σʸ|↓⟩ = -i`, `⟨↓|σʸ|↑⟩ = i`. -/
def pauliY (i : ι) (ψ : Wave ι) : Wave ι := fun s => -Complex.I * (s i : ℂ) * ψ (flip i s)

/-- Pauli `σᶻ` on site `i`. -/
def pauliZ (i : ι) (ψ : Wave ι) : Wave ι := fun s => (s i : ℂ) * ψ s

/-- The next site on a chain of length `n`; the last site is followed by site `0` if periodic. -/
def chainNext (n : Nat) (pbc : Bool) (i : Fin n) : Option (Fin n) :=
  if h : i.val + 1 < n then some ⟨i.val + 1, h⟩
  else if pbc then some ⟨0, Nat.lt_of_le_of_lt (Nat.zero_le _) i.isLt⟩ else none

/-- Bonds of a chain: each site with its next site. (A periodic chain of one site has a bond from the
site to itself, a periodic chain of two sites has two bonds.) -/
def chainBonds (n : Nat) (pbc : Bool) : List (Fin n × Fin n) :=
  (List.finRange n).flatMap fun i => ((chainNext n pbc i).map fun k => (i, k)).toList

/-- Bonds of a chain in which a single site has no bond. -/
def chainBonds' (n : Nat) (pbc : Bool) : List (Fin n × Fin n) := if n > 1 then chainBonds n pbc else []

/-- Bonds of an `n × m` grid: every site with the next site in its column and the next site in its
row, where a direction with only one site has no bonds. -/
def gridBonds (n m : Nat) (pbc : Bool) : List ((Fin n × Fin m) × (Fin n × Fin m)) :=
  (List.finRange n).flatMap fun i => (List.finRange m).flatMap fun j =>
    (if n > 1 then ((chainNext n pbc i).map fun k => ((i, j), (k, j))).toList else []) ++
    (if m > 1 then ((chainNext m pbc j).map fun k => ((i, j), (i, k))).toList else [])

/-- Transverse-field Ising Hamiltonian `-J Σ_bonds σᶻσᶻ - h Σ_sites σˣ` applied to `ψ`. -/
noncomputable def tfim [Fintype ι] (bonds : List (ι × ι)) (h J : ℝ) (ψ : Wave ι) : Wave ι := fun s =>
  -(J : ℂ) * (bonds.map fun b => pauliZ b.1 (pauliZ b.2 ψ) s).sum - (h : ℂ) * ∑ i, pauliX i ψ s

/-- Heisenberg Hamiltonian `Σ_bonds (ε (σˣσˣ + σʸσʸ) + σᶻσᶻ)` applied to `ψ`; `ε = 1` is the
antiferromagnet, `ε = -1` its version with reversed exchange sign. -/
noncomputable def heisenberg (bonds : List (ι × ι)) (ε : ℝ) (ψ : Wave ι) : Wave ι := fun s =>
  (bonds.map fun b => (ε : ℂ) * (pauliX b.1 (pauliX b.2 ψ) s + pauliY b.1 (pauliY b.2 ψ) s) +
    pauliZ b.1 (pauliZ b.2 ψ) s).sum

/-- What an operator given by connection rows does to a wave function at the sample:
`Σ_rows mel * ψ(conn)`. -/
noncomputable def applyRows (rows : List (Row ι ℝ)) (ψ : Wave ι) : ℂ :=
  (rows.map fun r => (r.mel : ℂ) * ψ r.conn).sum

/-- Matrix element between the sample and `t` represented by connection rows: the sum of the matrix
elements of all rows whose connection is `t`. -/
noncomputable def matrixElement (rows : List (Row ι ℝ)) (t : Config ι) : ℝ :=
  open Classical in (rows.map fun r => if r.conn = t then r.mel else 0).sum

/-- Total magnetization. -/
def magnetization [Fintype ι] (s : Config ι) : ℤ := ∑ i, s i

/-- Sign of the Marshall transformation: product of the spins on the odd sublattice (sites whose
coordinates add up to an odd number). -/
def marshall {n m : Nat} (s : Config (Fin n × Fin m)) : ℤ :=
  ∏ p, if (p.1.val + p.2.val) % 2 = 1 then s p else 1

/-- Lattices whose bonds all join the two sublattices: open boundaries, or every wrapped direction
has even length (a direction of one site has no bonds). -/
def Bipartite (n m : Nat) (pbc : Bool) : Prop :=
  pbc = false ∨ ((n % 2 = 0 ∨ n ≤ 1) ∧ (m % 2 = 0 ∨ m ≤ 1))

end Verif.Operators
