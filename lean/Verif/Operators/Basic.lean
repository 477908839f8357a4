import Mathlib.Data.Real.Basic
import Mathlib.Data.Fintype.Pi
import Mathlib.Algebra.BigOperators.Group.Finset.Basic

/-
Common data for the models of `src/flowket/operators/`.

A configuration on a set `ι` of sites is a function `ι → ℤ` (the numpy arrays hold `±1` entries as
floats or ints; only `+1`, `-1`, comparison, copying and multiplication are used on them).
-/
namespace Verif.Operators

/-- Configuration of spins on the sites `ι`. -/
abbrev Config (ι : Type) := ι → ℤ

/-- One row of the answer of `find_conn` for one sample: connected configuration, matrix element,
`use_conn` flag. The code returns three arrays of shape `(rows, batch, ...)`; here the answer for
one sample is the list of its rows in the same order. -/
structure Row (ι : Type) (K : Type) where
  conn : Config ι
  mel : K
  use : Bool

/-- All entries are plus or minus one. -/
def IsSpin {ι : Type} (s : Config ι) : Prop := ∀ i, s i = 1 ∨ s i = -1

/-- Spin reversed on site `i`. -/
def flip {ι : Type} [DecidableEq ι] (i : ι) (s : Config ι) : Config ι := Function.update s i (-s i)

/-- Spins of sites `a` and `b` exchanged. -/
def exchange {ι : Type} [DecidableEq ι] (a b : ι) (s : Config ι) : Config ι :=
  Function.update (Function.update s a (s b)) b (s a)

end Verif.Operators
