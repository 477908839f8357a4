/-
Model of `src/flowket/optimization/mini_batch_generator.py` together with
`VariationalMonteCarlo.set_sampler` (`src/flowket/optimization/variational_monte_carlo.py:30-32`).
-/
namespace Verif.Training

/-- State of a `MiniBatchGenerator`. `drawn` counts the calls of `next_batch` so far (history
variable, not in the code); `x` stands for the pair of arrays `_x`, `_y`, which are always sliced
together (mini_batch_generator.py:29,32). -/
structure MBState (S α : Type) where
  sampler : S
  batchSize : Nat
  miniBatchSize : Nat
  idx : Nat
  updateParamsFrequency : Nat
  x : List α
  drawn : Nat

/-- Ceiling division, `math.ceil(a / float(b))` in exact arithmetic (mini_batch_generator.py:24). -/
def ceilDiv (a b : Nat) : Nat := (a + b - 1) / b

/-- `set_batch_size` (mini_batch_generator.py:16-25); `none` is the `ZeroDivisionError` of line 24.
Sizes are natural numbers (negative sizes are not modelled). -/
def setBatchSize {S α : Type} (st : MBState S α) (batchSize : Nat) (mini : Option Nat) :
    Option (MBState S α) :=
  let m := match mini with
    | none => batchSize
    | some m => m
  let m := if m > batchSize then batchSize else m
  if m = 0 then none
  else some { st with
    batchSize := batchSize
    miniBatchSize := m
    idx := batchSize
    updateParamsFrequency := ceilDiv batchSize m }

/-- `VariationalMonteCarlo.set_sampler` (variational_monte_carlo.py:30-32). `size` gives
`sampler.batch_size`. -/
def setSampler {S α : Type} (size : S → Nat) (st : MBState S α) (s : S) (mini : Option Nat) :
    Option (MBState S α) :=
  setBatchSize { st with sampler := s } (size s) mini

/-- Python slice `l[a:b]`. -/
def slice {α : Type} (l : List α) (a b : Nat) : List α := (l.take b).drop a

/-- `next_mini_batch_size` (mini_batch_generator.py:27-32). `draw s k` is what `next_batch` returns
when sampler `s` is installed and `k` batches were drawn before (variational_monte_carlo.py:42-50):
an arbitrary function, since samples depend on random numbers and on the machine. -/
def nextMiniBatch {S α : Type} (draw : S → Nat → List α) (st : MBState S α) :
    MBState S α × List α :=
  let st1 :=
    if st.idx + st.miniBatchSize > st.batchSize then
      { st with x := draw st.sampler st.drawn, idx := 0, drawn := st.drawn + 1 }
    else st
  let st2 := { st1 with idx := st1.idx + st1.miniBatchSize }
  (st2, slice st2.x (st2.idx - st2.miniBatchSize) st2.idx)

/-- `k` successive `next` calls (`__next__`, `to_generator`, mini_batch_generator.py:34-45). -/
def nexts {S α : Type} (draw : S → Nat → List α) : Nat → MBState S α → MBState S α × List (List α)
  | 0, st => (st, [])
  | k + 1, st =>
    let r := nextMiniBatch draw st
    let r' := nexts draw k r.1
    (r'.1, r.2 :: r'.2)

/-- Calls a user can make on a `VariationalMonteCarlo` generator. -/
inductive MBOp (S : Type) where
  | next
  | setSampler (s : S) (mini : Option Nat)

/-- One call: new state and the mini-batch returned by `next`. -/
def mbStep {S α : Type} (size : S → Nat) (draw : S → Nat → List α) (st : MBState S α) :
    MBOp S → Option (MBState S α × Option (List α))
  | .next => let r := nextMiniBatch draw st; some (r.1, some r.2)
  | .setSampler s mini => (setSampler size st s mini).map fun st' => (st', none)

/-- A history of calls; `none` as soon as one raises. -/
def mbRun {S α : Type} (size : S → Nat) (draw : S → Nat → List α) (st : MBState S α) :
    List (MBOp S) → Option (MBState S α × List (Option (List α)))
  | [] => some (st, [])
  | op :: ops =>
    match mbStep size draw st op with
    | none => none
    | some (st', o) =>
      match mbRun size draw st' ops with
      | none => none
      | some (st'', os) => some (st'', o :: os)

end Verif.Training
