import Mathlib.Analysis.SpecialFunctions.Exp
import Mathlib.Analysis.Complex.Exponential
import Mathlib.Algebra.BigOperators.Fin
import Mathlib.Data.List.FinRange
import Mathlib.Data.List.GetD
import Mathlib.Algebra.BigOperators.Field

/-
Model of `src/flowket/observables/monte_carlo/operator.py` and `observable.py`: local values of an
operator. Complex arithmetic is exact; `wave_function` is a function `logψ` of a configuration (the
network predicts every row of a batch on its own).
-/
namespace Verif.Energy

/-- The three arrays returned by `find_conn` for a batch of `B` samples: `R` rows each. -/
structure Answer (σ : Type) (R B : Nat) where
  conn : Fin R → Fin B → σ
  mel : Fin R → Fin B → ℂ
  use : Fin R → Fin B → Bool

variable {σ : Type} {R B : Nat}

/-- The used row numbers of sample `b`, in order: boolean mask `all_use_conn[:, b]`. -/
def usedRows (a : Answer σ R B) (b : Fin B) : List (Fin R) := (List.finRange R).filter fun r => a.use r b

/-- `get_flat_local_connections_log_values` (operator.py:6-10): sample-major list of the used
connections, evaluated. -/
def flatLogValues (logψ : σ → ℂ) (a : Answer σ R B) : List ℂ :=
  ((List.finRange B).flatMap fun b => (usedRows a b).map fun r => a.conn r b).map logψ

/-- One iteration of the loop over the samples (operator.py:28-33) on the state
`(idx, local_values so far)`; `none` is the IndexError of `sample_log_values[0]` on an empty slice. -/
noncomputable def unbalancedStep (flat : List ℂ) (a : Answer σ R B) (st : Option (Nat × List ℂ)) (b : Fin B) :
    Option (Nat × List ℂ) := do
  let (idx, out) ← st
  let count := (usedRows a b).length
  let vals := (flat.drop idx).take count
  let v0 ← vals.head?
  let div := vals.map fun v => Complex.exp (v - v0)
  let mels := (usedRows a b).map fun r => a.mel r b
  pure (idx + count, out ++ [(List.zipWith (· * ·) mels div).sum])

/-- `local_values_optimized_for_unbalanced_local_connections` (operator.py:20-34). -/
noncomputable def unbalanced (logψ : σ → ℂ) (a : Answer σ R B) : Option (List ℂ) :=
  ((List.finRange B).foldl (unbalancedStep (flatLogValues logψ a) a) (some (0, []))).map Prod.snd

/-- `local_values_optimized_for_balanced_local_connections` (operator.py:36-42): row-major
flattening, evaluation, reshape back to `(R, B)`, division by row zero (an IndexError if there is no
row). The configuration shape used by the reshape of line 37 is the subject of property C62. -/
noncomputable def balanced (logψ : σ → ℂ) (a : Answer σ R B) : Option (List ℂ) :=
  let flat := ((List.finRange R).flatMap fun r => (List.finRange B).map fun b => a.conn r b).map logψ
  let logValues : Nat → Nat → ℂ := fun r b => flat.getD (r * B + b) 0
  if R = 0 then none
  else some ((List.finRange B).map fun b =>
    ∑ r : Fin R, a.mel r b * Complex.exp (logValues r b - logValues 0 b))

/-- Number of used entries. -/
def usedCount (a : Answer σ R B) : Nat := ((List.finRange B).map fun b => (usedRows a b).length).sum

/-- `Observable.local_values` (operator.py:44-54) after `find_conn`: the mean of the `use` array is
compared with `0.95`. (The mean of an empty array is nan, which is not smaller.) -/
noncomputable def localValues (logψ : σ → ℂ) (a : Answer σ R B) : Option (List ℂ) :=
  if 100 * usedCount a < 95 * (R * B) then unbalanced logψ a else balanced logψ a

/-- `numpy.mean`. -/
noncomputable def mean (l : List ℂ) : ℂ := l.sum / l.length

/-- `numpy.var` of real numbers. -/
noncomputable def variance (l : List ℝ) : ℝ :=
  (l.map fun x => (x - l.sum / l.length) ^ 2).sum / l.length

/-- `BaseObservable.estimate` (observable.py:10-14). -/
noncomputable def estimate (logψ : σ → ℂ) (a : Answer σ R B) : Option (ℂ × ℝ × List ℂ) :=
  (localValues logψ a).map fun lv => (mean lv, variance (lv.map Complex.re), lv)

/-- The part of the connection contract (C09) that the estimators rely on: row zero exists, is the
sample and is used; unused rows have element zero. -/
structure Contracted (a : Answer σ R B) (sample : Fin B → σ) : Prop where
  pos : 0 < R
  first : ∀ b, a.conn ⟨0, pos⟩ b = sample b ∧ a.use ⟨0, pos⟩ b = true
  unused : ∀ r b, a.use r b = false → a.mel r b = 0

/-! ### Lemmas -/

theorem drop_take_flatMap {α β : Type*} (g : α → List β) (pre : List α) (x : α) (post : List α) :
    (((pre ++ x :: post).flatMap g).drop (pre.map fun y => (g y).length).sum).take (g x).length = g x := by
  rw [List.flatMap_append]
  have : (pre.map fun y => (g y).length).sum = (pre.flatMap g).length := by
    rw [List.length_flatMap]
  rw [this, List.drop_left, List.flatMap_cons, List.take_left]

theorem sum_used {M : Type*} [AddCommMonoid M] (a : Answer σ R B) (b : Fin B) (f : Fin R → M)
    (hf : ∀ r, a.use r b = false → f r = 0) : ((usedRows a b).map f).sum = ∑ r, f r := by
  have h : ∀ l : List (Fin R), ((l.filter fun r => a.use r b).map f).sum = (l.map f).sum := by
    intro l
    induction l with
    | nil => rfl
    | cons r l ih =>
      rw [List.filter_cons]
      split
      · simp [ih]
      · rename_i hu
        rw [ih, List.map_cons, List.sum_cons, hf r (by simpa using hu), zero_add]
  unfold usedRows
  rw [h, ← List.sum_ofFn, List.ofFn_eq_map]

theorem usedRows_head (a : Answer σ R B) (sample : Fin B → σ) (h : Contracted a sample) (b : Fin B) :
    (usedRows a b).head? = some ⟨0, h.pos⟩ := by
  obtain ⟨k, rfl⟩ : ∃ k, R = k + 1 := ⟨R - 1, by have := h.pos; omega⟩
  unfold usedRows
  rw [List.finRange_succ, List.filter_cons]
  have : a.use 0 b = true := (h.first b).2
  simp [this]

/-- The value both strategies compute. -/
noncomputable def ratio (logψ : σ → ℂ) (a : Answer σ R B) (sample : Fin B → σ) (b : Fin B) : ℂ :=
  (∑ r, a.mel r b * Complex.exp (logψ (a.conn r b))) / Complex.exp (logψ (sample b))

theorem unbalanced_eq (logψ : σ → ℂ) (a : Answer σ R B) (sample : Fin B → σ) (h : Contracted a sample) :
    unbalanced logψ a = some ((List.finRange B).map (ratio logψ a sample)) := by
  unfold unbalanced
  have key : ∀ (post pre : List (Fin B)), pre ++ post = List.finRange B →
      post.foldl (unbalancedStep (flatLogValues logψ a) a)
        (some ((pre.map fun b => (usedRows a b).length).sum, pre.map (ratio logψ a sample))) =
      some (((List.finRange B).map fun b => (usedRows a b).length).sum,
        (List.finRange B).map (ratio logψ a sample)) := by
    intro post
    induction post with
    | nil => intro pre hp; rw [List.append_nil] at hp; rw [hp]; rfl
    | cons b post ih =>
      intro pre hp
      rw [List.foldl_cons]
      have hflat : flatLogValues logψ a =
          (pre ++ b :: post).flatMap fun b => (usedRows a b).map fun r => logψ (a.conn r b) := by
        unfold flatLogValues
        rw [hp, List.map_flatMap]
        simp only [List.map_map]
        rfl
      have hlen : ∀ b', ((usedRows a b').map fun r => logψ (a.conn r b')).length = (usedRows a b').length := by
        intro b'; simp
      have hslice : ((flatLogValues logψ a).drop (pre.map fun b => (usedRows a b).length).sum).take
          (usedRows a b).length = (usedRows a b).map fun r => logψ (a.conn r b) := by
        have := drop_take_flatMap (fun b => (usedRows a b).map fun r => logψ (a.conn r b)) pre b post
        simp only [List.length_map] at this
        rw [hflat]
        exact this
      have hstep : unbalancedStep (flatLogValues logψ a) a
          (some ((pre.map fun b => (usedRows a b).length).sum, pre.map (ratio logψ a sample))) b =
          some (((pre ++ [b]).map fun b => (usedRows a b).length).sum, (pre ++ [b]).map (ratio logψ a sample)) := by
        unfold unbalancedStep
        simp only [Option.bind_eq_bind, Option.bind_some, hslice]
        rw [List.head?_map, usedRows_head a sample h b]
        simp only [Option.map_some, Option.bind_some, Option.pure_def, Option.some.injEq, Prod.mk.injEq]
        refine ⟨by simp, ?_⟩
        rw [List.map_append, List.map_singleton]
        congr 2
        rw [List.map_map, List.zipWith_map, List.zipWith_self, (h.first b).1]
        rw [sum_used a b _ (fun r hr => by rw [h.unused r b hr, zero_mul])]
        unfold ratio
        rw [Finset.sum_div]
        apply Finset.sum_congr rfl
        intro r _
        simp only [Function.comp, Complex.exp_sub]
        ring
      rw [hstep, ih (pre ++ [b]) (by simpa using hp)]
  have := key (List.finRange B) [] rfl
  simp only [List.map_nil, List.sum_nil] at this
  rw [this]
  rfl

theorem flat_getD (logψ : σ → ℂ) (a : Answer σ R B) (r : Fin R) (b : Fin B) :
    (((List.finRange R).flatMap fun r => (List.finRange B).map fun b => a.conn r b).map logψ).getD
      (r.val * B + b.val) 0 = logψ (a.conn r b) := by
  have hsplit : ∃ pre post, List.finRange R = pre ++ r :: post ∧ pre.length = r.val := by
    refine ⟨(List.finRange R).take r.val, (List.finRange R).drop (r.val + 1), ?_, by simp⟩
    have hr : r.val < (List.finRange R).length := by simp
    have : (List.finRange R)[r.val]'hr = r := by simp
    conv_lhs => rw [← List.take_append_drop r.val (List.finRange R)]
    rw [List.drop_eq_getElem_cons hr, this]
  obtain ⟨pre, post, hs, hl⟩ := hsplit
  rw [hs, List.flatMap_append, List.flatMap_cons, List.map_append, List.map_append]
  have hpl : (List.map logψ (List.flatMap (fun r => List.map (fun b => a.conn r b) (List.finRange B)) pre)).length
      = r.val * B := by
    rw [List.length_map, List.length_flatMap]
    simp [hl]
  rw [List.getD_append_right _ _ _ _ (by omega), hpl, Nat.add_sub_cancel_left,
    List.getD_append _ _ _ _ (by simp)]
  simp [List.getD_eq_getElem?_getD]

theorem balanced_eq (logψ : σ → ℂ) (a : Answer σ R B) (sample : Fin B → σ) (h : Contracted a sample) :
    balanced logψ a = some ((List.finRange B).map (ratio logψ a sample)) := by
  unfold balanced
  rw [if_neg (by have := h.pos; omega)]
  simp only [Option.some.injEq]
  apply List.map_congr_left
  intro b _
  unfold ratio
  rw [Finset.sum_div]
  apply Finset.sum_congr rfl
  intro r _
  have h0 := flat_getD logψ a ⟨0, h.pos⟩ b
  rw [flat_getD logψ a r b, h0, (h.first b).1, Complex.exp_sub]
  ring

end Verif.Energy
