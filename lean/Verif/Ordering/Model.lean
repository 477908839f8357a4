/-
Model of `src/flowket/deepar/ordering/` (raster, zigzag, flat) and of the gather layer.
-/
namespace Verif.Ordering

/-- `raster` (deepar/ordering/raster.py:4-5): `itertools.product` of ranges, last index fastest. -/
def raster : List Nat → List (List Nat)
  | [] => [[]]
  | n :: ns => (List.range n).flatMap fun i => (raster ns).map (i :: ·)

/-- The move functions used by zigzag (deepar/ordering/moves.py). -/
inductive Move where
  | right | down | downLeft | upRight
deriving DecidableEq, Repr

/-- A move applied to the cell `(y, x)`; returns `(y', x')`
(deepar/ordering/moves.py:5-6 down, 13-14 right, 17-18 up_right, 29-30 down_left). -/
def Move.apply : Move → Int × Int → Int × Int
  | .right, (y, x) => (y, x + 1)
  | .down, (y, x) => (y + 1, x)
  | .downLeft, (y, x) => (y + 1, x - 1)
  | .upRight, (y, x) => (y - 1, x + 1)

/-- Choice of the next move from the last move and the last cell
(deepar/ordering/zigzag.py:14-27, both `input_size` entries equal `n`). -/
def nextMove (n : Int) (move : Move) (cell : Int × Int) : Move :=
  let (y, x) := cell
  let move1 :=
    if move = .right then (if y + 1 < n then .downLeft else .upRight)
    else if move = .down then (if x + 1 < n then .upRight else .downLeft)
    else move
  let move2 :=
    if move1 = .downLeft then
      let canDown := decide (y + 1 < n)
      let m := if x > 0 ∧ canDown then Move.downLeft else .down
      if ¬ canDown then .right else m
    else move1
  if move2 = .upRight then
    let canRight := decide (x + 1 < n)
    let m := if canRight ∧ y > 0 then Move.upRight else .right
    if ¬ canRight then .down else m
  else move2

/-- The while loop of `zigzag` (deepar/ordering/zigzag.py:12-28): every iteration appends one cell, so
it runs `total_size - len(order)` more times; the argument counts the remaining iterations and the
result lists the appended cells. -/
def zigzagLoop (n : Int) : Nat → Move → Int × Int → List (Int × Int)
  | 0, _, _ => []
  | k + 1, move, cell =>
    let move' := nextMove n move cell
    let cell' := move'.apply cell
    cell' :: zigzagLoop n k move' cell'

/-- `zigzag` (deepar/ordering/zigzag.py:6-29); `none` is the `ValueError`. -/
def zigzag (inputSize : List Nat) : Option (List (Int × Int)) :=
  match inputSize with
  | [a, b] =>
    if a ≠ b then none
    else some ((0, 0) :: (0, 1) :: zigzagLoop a (a * b - 2) .right (0, 1))
  | _ => none

/-- Body of the inner loop of `to_flat_ordering` (deepar/ordering/flat.py:4-6). -/
def flatStep (cur : Nat) (p : Nat × Nat) : Nat := cur * p.2 + p.1

/-- `to_flat_ordering` for one multi-index (deepar/ordering/flat.py:2-7). -/
def flatIndex (shape idx : List Nat) : Nat := (idx.zip shape).foldl flatStep 0

/-- `to_flat_ordering` (deepar/ordering/flat.py:1-7). -/
def toFlatOrdering (ordering : List (List Nat)) (shape : List Nat) : List Nat :=
  ordering.map (flatIndex shape)

/-- Loop of `to_flat_inverse_ordering` (deepar/ordering/flat.py:12-13): `inversed_order[p] = i`;
`none` is `IndexError`. -/
def inverseLoop : List Nat → Nat → List Nat → Option (List Nat)
  | [], _, inv => some inv
  | p :: ps, i, inv => if p < inv.length then inverseLoop ps (i + 1) (inv.set p i) else none

/-- `to_flat_inverse_ordering` (deepar/ordering/flat.py:10-14). `ordering` must have a length, so it
is a list here (passing the iterator returned by `raster` raises in Python). -/
def toFlatInverseOrdering (ordering : List (List Nat)) (shape : List Nat) : Option (List Nat) :=
  inverseLoop (toFlatOrdering ordering shape) 0 (List.replicate ordering.length 0)

/-- `GatherLayer.call` along the gathered axis (deepar/layers/gathering.py:11-12): entry `k` of the
result is entry `indices[k]` of the input; `none` for an index out of range. -/
def gather {α : Type} (x : List α) (indices : List Nat) : Option (List α) :=
  indices.mapM fun i => x[i]?

end Verif.Ordering
