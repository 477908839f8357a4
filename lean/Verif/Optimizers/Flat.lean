import Mathlib.Data.Complex.Basic
import Mathlib.Algebra.BigOperators.Group.List.Basic
import Mathlib.Tactic.Ring
import Mathlib.Tactic.Linarith

/-
Model of `src/flowket/optimizers/utils.py` (splitting and joining flat vectors) and of
`ComplexValuesOptimizer.apply_complex_gradient`
(`src/flowket/optimizers/complex_values_optimizer.py`).
-/
namespace Verif.Optimizers

/-- A dense tensor: shape and entries in row-major order. -/
structure Tensor (α : Type) where
  shape : List Nat
  data : List α

/-- The number of entries fits the shape. -/
def Tensor.Valid {α : Type} (t : Tensor α) : Prop := t.data.length = t.shape.prod

/-- `tf.reshape(data, shape)`; `none` is the error for a different number of entries. -/
def reshape {α : Type} (data : List α) (shape : List Nat) : Option (Tensor α) :=
  if data.length = shape.prod then some ⟨shape, data⟩ else none

/-- Loop of `column_to_tensors` (optimizers/utils.py:53-57) from `offset` on. The size `sz` is computed
in int32 in the code; here it does not overflow. -/
def columnToTensorsLoop {α : Type} (col : List α) : List (List Nat) → Nat → Option (List (Tensor α))
  | [], _ => some []
  | shape :: rest, offset =>
    let sz := shape.prod
    match reshape ((col.take (offset + sz)).drop offset) shape with
    | none => none
    | some t => (columnToTensorsLoop col rest (offset + sz)).map (t :: ·)

/-- `column_to_tensors` on a list of templates (optimizers/utils.py:37-63), of which only the shapes
matter. The column has shape `(len, 1)` in the code. -/
def columnToTensors {α : Type} (templates : List (List Nat)) (col : List α) : Option (List (Tensor α)) :=
  columnToTensorsLoop col templates 0

/-- `tensors_to_column` on a list of tensors (optimizers/utils.py:66-78); `tf.concat` of an empty list
raises. -/
def tensorsToColumn {α : Type} (ts : List (Tensor α)) : Option (List α) :=
  if ts = [] then none else some (ts.flatMap Tensor.data)

/-- The variables of a model made of complex layers, as collected by `get_model_real_weights` and
`get_model_imag_weights` (complex_values_optimizer.py:18-25): entry `k` of both lists belongs to the
`k`-th complex weight created by `add_complex_weight` (layers/complex/base_layer.py:18-35). -/
structure ComplexModel where
  real : List (Tensor ℝ)
  imag : List (Tensor ℝ)

/-- The complex weight the layer computes with: `tf.complex(real, -imag)`
(layers/complex/base_layer.py:30,35). -/
noncomputable def complexWeight (r i : Tensor ℝ) : Tensor ℂ :=
  ⟨r.shape, List.zipWith (fun a b => (⟨a, -1 * b⟩ : ℂ)) r.data i.data⟩

/-- All complex weights of the model. -/
noncomputable def ComplexModel.weights (m : ComplexModel) : List (Tensor ℂ) :=
  List.zipWith complexWeight m.real m.imag

/-- `new_p = p + lr * g` for one variable (complex_values_optimizer.py:54); complex weights have no
constraint (lines 55-56 do nothing). -/
noncomputable def addScaled (lr : ℝ) (p g : Tensor ℝ) : Tensor ℝ :=
  ⟨p.shape, List.zipWith (fun a b => a + lr * b) p.data g.data⟩

/-- `apply_complex_gradient` (complex_values_optimizer.py:48-58): the conjugated gradient is split into
real and imaginary parts, cut along the shapes of the variables, and all variables are updated from
one concatenated list. -/
noncomputable def applyComplexGradient (lr : ℝ) (m : ComplexModel) (flatGradient : List ℂ) :
    Option ComplexModel :=
  let conjGradient := flatGradient.map (starRingEnd ℂ)
  match columnToTensors (m.real.map Tensor.shape) (conjGradient.map Complex.re),
        columnToTensors (m.imag.map Tensor.shape) (conjGradient.map Complex.im) with
  | some realGradients, some imagGradients =>
    let new := List.zipWith (addScaled lr) (m.real ++ m.imag) (realGradients ++ imagGradients)
    some ⟨new.take m.real.length, new.drop m.real.length⟩
  | _, _ => none

/-! ### Lemmas -/

/-- Total number of entries of a list of shapes. -/
def total (shapes : List (List Nat)) : Nat := (shapes.map List.prod).sum

theorem loop_spec {α : Type} (shapes : List (List Nat)) (pre mid post : List α)
    (h : mid.length = total shapes) :
    ∃ ts, columnToTensorsLoop (pre ++ mid ++ post) shapes pre.length = some ts ∧
      ts.map Tensor.shape = shapes ∧ (∀ t ∈ ts, t.Valid) ∧ ts.flatMap Tensor.data = mid := by
  induction shapes generalizing pre mid with
  | nil =>
    simp only [total, List.map_nil, List.sum_nil, List.length_eq_zero_iff] at h
    exact ⟨[], by simp [columnToTensorsLoop], rfl, by simp, by simp [h]⟩
  | cons s rest ih =>
    have ht : total (s :: rest) = s.prod + total rest := by simp [total]
    rw [ht] at h
    set a := mid.take s.prod with ha
    set b := mid.drop s.prod with hb
    have hab : mid = a ++ b := (List.take_append_drop _ _).symm
    have hla : a.length = s.prod := by rw [ha, List.length_take]; omega
    have hlb : b.length = total rest := by rw [hb, List.length_drop]; omega
    obtain ⟨ts, h1, h2, h3, h4⟩ := ih (pre ++ a) b hlb
    refine ⟨⟨s, a⟩ :: ts, ?_, by simp [h2], ?_, by simp [h4, hab]⟩
    · have hs : ((pre ++ mid ++ post).take (pre.length + s.prod)).drop pre.length = a := by
        rw [hab, ← hla]
        have : pre ++ (a ++ b) ++ post = (pre ++ a) ++ (b ++ post) := by simp
        rw [this, ← List.length_append, List.take_left, List.drop_left]
      have hl : pre.length + s.prod = (pre ++ a).length := by rw [List.length_append, hla]
      have hc : pre ++ mid ++ post = pre ++ a ++ b ++ post := by rw [hab]; simp
      simp only [columnToTensorsLoop, hs, reshape, hla, if_true]
      rw [hl, hc, h1]
      rfl
    · intro t ht'
      rcases List.mem_cons.1 ht' with rfl | ht'
      · exact hla
      · exact h3 t ht'

theorem columnToTensors_spec {α : Type} (shapes : List (List Nat)) (col : List α)
    (h : col.length = total shapes) :
    ∃ ts, columnToTensors shapes col = some ts ∧
      ts.map Tensor.shape = shapes ∧ (∀ t ∈ ts, t.Valid) ∧ ts.flatMap Tensor.data = col := by
  have := loop_spec shapes [] col [] h
  simpa [columnToTensors] using this

theorem flatMap_injective {α : Type} (ts us : List (Tensor α)) (hs : ts.map Tensor.shape = us.map Tensor.shape)
    (ht : ∀ t ∈ ts, t.Valid) (hu : ∀ t ∈ us, t.Valid)
    (h : ts.flatMap Tensor.data = us.flatMap Tensor.data) : ts = us := by
  induction ts generalizing us with
  | nil => cases us with
    | nil => rfl
    | cons u us => simp at hs
  | cons t ts ih => cases us with
    | nil => simp at hs
    | cons u us =>
      simp only [List.map_cons, List.cons.injEq] at hs
      simp only [List.flatMap_cons] at h
      have h1 := ht t (by simp)
      have h2 := hu u (by simp)
      have hl : t.data.length = u.data.length := by rw [h1, h2, hs.1]
      obtain ⟨ha, hb⟩ := List.append_inj h hl
      have htu : t = u := by
        cases t; cases u; simp_all
      rw [htu, ih us hs.2 (fun x hx => ht x (by simp [hx])) (fun x hx => hu x (by simp [hx])) hb]

theorem length_flatMap_valid {α : Type} (ts : List (Tensor α)) (h : ∀ t ∈ ts, t.Valid) :
    (ts.flatMap Tensor.data).length = total (ts.map Tensor.shape) := by
  induction ts with
  | nil => rfl
  | cons t ts ih =>
    simp only [List.flatMap_cons, List.length_append, total, List.map_cons, List.sum_cons]
    rw [h t (by simp), ih fun x hx => h x (by simp [hx])]
    rfl

end Verif.Optimizers
