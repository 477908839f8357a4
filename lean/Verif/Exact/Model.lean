/-
Model of `src/flowket/exact/utils.py`: numbering of spin configurations, exact enumeration of a
wave function, and the machine built from a vector.
-/
namespace Verif.Exact

/-- Loop of `decimal_to_binary` (exact/utils.py:18-26), one recursion step per `range(num_of_bits)`
iteration. Python `%` and `//` with divisor 2 are floor operations, as are `Int` `%` and `/` here,
so negative numbers are covered too. -/
def decimalToBinary (zeroOneBase : Bool) : Nat → Int → List Int
  | 0, _ => []
  | n + 1, d => (if zeroOneBase then d % 2 else 2 * (d % 2) - 1) :: decimalToBinary zeroOneBase n (d / 2)

/-- Loop body state of `binary_to_decimal` (exact/utils.py:29-36): `(res, power)`. -/
def binaryToDecimalStep (st : Int × Int) (digit : Int) : Int × Int :=
  (if digit = 1 then st.1 + st.2 else st.1, st.2 * 2)

/-- `binary_to_decimal` (exact/utils.py:29-36). -/
def binaryToDecimal (digits : List Int) : Int :=
  (digits.foldl binaryToDecimalStep (0, 1)).1

/-- Assignment of a column, `out[:, i] = col` (used in exact/utils.py:54,56). -/
def setColumn (out : List (List Int)) (i : Nat) (col : List Int) : List (List Int) :=
  List.zipWith (fun row v => row.set i v) out col

/-- One iteration of the loop of `decimal_array_to_binary_array` (exact/utils.py:52-57) on the
state `(out, decimal)`. -/
def decimalArrayStep (zeroOneBase : Bool) (st : List (List Int) × List Int) (i : Nat) :
    List (List Int) × List Int :=
  (setColumn st.1 i (st.2.map fun d => if zeroOneBase then d % 2 else 2 * (d % 2) - 1),
   st.2.map (· / 2))

/-- `decimal_array_to_binary_array` (exact/utils.py:49-58) with `out=None`: the output array starts
as zeros. Simplification: array entries are unbounded integers (the code holds int64 numbers and
float64 digits, exact in the range that fits in memory). -/
def decimalArrayToBinaryArray (zeroOneBase : Bool) (decimal : List Int) (numBits : Nat) :
    List (List Int) :=
  ((List.range numBits).foldl (decimalArrayStep zeroOneBase)
    (List.replicate decimal.length (List.replicate numBits 0), decimal)).1

/-- Two's complement wrap-around of an `int32` array entry. -/
def wrap32 (x : Int) : Int := Int.bmod x (2 ^ 32)

/-- One iteration of the loop of `binary_array_to_decimal_array` (exact/utils.py:43-45) on one row;
state `(out entry, power)`. `out` is an `int32` array, so the in-place addition wraps; `power` is an
unbounded Python integer. From `power = 2^63` on the product is no longer a signed 64-bit array and
numpy refuses the in-place addition into `int32` (cast error): `none`. -/
def binaryArrayStep (st : Option (Int × Int)) (digit : Int) : Option (Int × Int) :=
  match st with
  | none => none
  | some (out, power) =>
    if 2 ^ 63 ≤ power then none
    else some (wrap32 (out + (if digit = 1 then power else 0)), power * 2)

/-- One entry of the result of `binary_array_to_decimal_array` (exact/utils.py:39-46), `out=None`. -/
def binaryArrayToDecimalEntry (digits : List Int) : Option Int :=
  (digits.foldl binaryArrayStep (some (0, 1))).map Prod.fst

/-- `binary_array_to_decimal_array` on a batch of rows (exact/utils.py:39-46). The loop over columns
acts on all rows at once; since the update of a row uses that row only, it is modelled row by row. -/
def binaryArrayToDecimalArray (rows : List (List Int)) : Option (List Int) :=
  rows.mapM binaryArrayToDecimalEntry

/-- Why an exact enumeration did not return a vector. -/
inductive EnumError where
  /-- `range(0, n, 0)` raises (`batch_size = 0`). -/
  | zeroStep
  /-- numpy refuses `out[i:i+b] = values` because the clipped slice and the values differ in length. -/
  | shapeMismatch
deriving DecidableEq, Repr

/-- numpy slice assignment `out[i:i+len(vals)] = vals` for a 1-D array, with clipping of the slice
at the end of the array and the length check (a length-1 right side broadcasts, which is the plain
case because then the slice has length at most one; an empty slice then takes no value). -/
def assignSlice {α : Type} (out : List α) (i : Nat) (vals : List α) : Except EnumError (List α) :=
  let sliceLen := min (i + vals.length) out.length - min i out.length
  if sliceLen = vals.length then
    .ok (out.take i ++ vals ++ out.drop (i + vals.length))
  else if vals.length = 1 then .ok out
  else .error .shapeMismatch

/-- Loop of `to_log_wave_function_vector` (exact/utils.py:68-71) from position `i` on; `fuel` bounds
the number of iterations (`ceil(n/b)`, always enough, see `enumLoop_fuel`). `predict` is
`model.predict(...)[:, 0]`, modelled as a function evaluated row by row on flat row-major
configurations (the reshape to `model.input_shape[1:]` is row major and has no effect on them). -/
def enumLoop {α : Type} (predict : List Int → α) (numSpins b : Nat) :
    Nat → Nat → List α → Except EnumError (List α)
  | 0, _, out => .ok out
  | fuel + 1, i, out =>
    if i < 2 ^ numSpins then
      let batch := decimalArrayToBinaryArray false ((List.range' i b).map Int.ofNat) numSpins
      match assignSlice out i (batch.map predict) with
      | .ok out' => enumLoop predict numSpins b fuel (i + b) out'
      | .error e => .error e
    else .ok out

/-- `to_log_wave_function_vector` (exact/utils.py:61-72) writing into `out`. Negative batch sizes are
not modelled. -/
def toLogWaveFunctionVector {α : Type} (predict : List Int → α) (numSpins batchSize : Nat)
    (out : List α) : Except EnumError (List α) :=
  let b := if batchSize > 2 ^ numSpins then 2 ^ numSpins else batchSize
  if b = 0 then .error .zeroStep
  else enumLoop predict numSpins b (2 ^ numSpins) 0 out

/-- numpy indexing of a 1-D array with a possibly negative index; `none` is `IndexError`. -/
def numpyIndex {α : Type} (v : List α) (k : Int) : Option α :=
  if 0 ≤ k then v[k.toNat]? else if -k ≤ v.length then v[(v.length + k).toNat]? else none

/-- The machine returned by `vector_to_machine` (exact/utils.py:95-99) on one flat configuration. -/
def vectorToMachine {α : Type} (v : List α) (config : List Int) : Option α :=
  (binaryArrayToDecimalEntry config).bind (numpyIndex v)

end Verif.Exact
