import Verif.Optimizers.Downhill

/-!
C129: the gradient with respect to complex weights, as `ComplexValuesOptimizer` computes it from gradients with respect to
real variables; C130: the two ways of stochastic reconfiguration to get the gradient of the energy.
-/
namespace Verif.Optimizers.Grad

open Verif.Optimizers.SR (flatWeights)

variable {P : ℕ} {E : Type} [NormedAddCommGroup E] [NormedSpace ℝ E]

/-! ### Model -/

/-- The tensors gradients are taken for: the two variables of the `k`-th complex weight and the tensor `conj_imag` that is
computed from the second one (layers/complex/base_layer.py 20-34). -/
inductive Param where
  | real (k : ℕ)
  | imag (k : ℕ)
  | minusImag (k : ℕ)

/-- Entry `j` of a tensor increased by `t`. -/
def bumpTensor (j : ℕ) (t : ℝ) (T : Tensor ℝ) : Tensor ℝ := ⟨T.shape, T.data.modify j (· + t)⟩

/-- The model with entry `j` of a parameter increased by `t`. The tensor `conj_imag` is minus one times the variable, and the
network depends on the variable through it only (base_layer.py 30 and 35): an increase of it is a decrease of the variable. -/
def bump (m : ComplexModel) (p : Param) (j : ℕ) (t : ℝ) : ComplexModel :=
  match p with
  | .real k => ⟨m.real.modify k (bumpTensor j t), m.imag⟩
  | .imag k => ⟨m.real, m.imag.modify k (bumpTensor j t)⟩
  | .minusImag k => ⟨m.real, m.imag.modify k (bumpTensor j (-t))⟩

/-- The variable behind a parameter, for its shape. -/
def tensorOf (m : ComplexModel) : Param → Tensor ℝ
  | .real k => m.real.getD k ⟨[0], []⟩
  | .imag k => m.imag.getD k ⟨[0], []⟩
  | .minusImag k => m.imag.getD k ⟨[0], []⟩

/-- The partial derivatives of a function of the variables with respect to the entries of one parameter. -/
noncomputable def partials (L : ComplexModel → E) (m : ComplexModel) (p : Param) : List E :=
  (List.range (tensorOf m p).data.length).map fun j => deriv (fun t : ℝ => L (bump m p j t)) 0

/-- `tf.gradients(loss, params)` for one parameter: TensorFlow computes the partial derivatives. -/
noncomputable def tfGradient (loss : ComplexModel → ℝ) (m : ComplexModel) (p : Param) : Tensor ℝ :=
  ⟨(tensorOf m p).shape, partials loss m p⟩

/-- The parameters in the order of `predictions_keras_model.weights`, which is the order in which `add_complex_weight` makes
them, or of `model_weights_for_complex_value_params_gradient_conjugate` (complex_values_optimizer.py 12-15, 61-62 and
base_layer.py 20-34). -/
def params (m : ComplexModel) (conjugate : Bool) : List Param :=
  (List.range m.real.length).flatMap fun k => [.real k, if conjugate then .minusImag k else .imag k]

/-- `to_complex_tensors` (complex_values_optimizer.py 8-9): neighbours become real and imaginary parts; a last tensor without
neighbour is dropped. -/
def toComplexTensors : List (Tensor ℝ) → List (Tensor ℂ)
  | r :: i :: rest => ⟨r.shape, List.zipWith (fun a b => (⟨a, b⟩ : ℂ)) r.data i.data⟩ :: toComplexTensors rest
  | _ => []

/-- `get_model_parameters_complex_value_gradients` (complex_values_optimizer.py 60-63) for a real loss, `grad_ys=None`. -/
noncomputable def complexGradients (loss : ComplexModel → ℝ) (m : ComplexModel) (conjugate : Bool) : List (Tensor ℂ) :=
  toComplexTensors ((params m conjugate).map (tfGradient loss m))

/-- `tf.concat([r, i], axis=0)` for two tensors of the same shape; refused for scalars. -/
def concatFirst (r i : Tensor ℝ) : Option (Tensor ℝ) :=
  match r.shape with
  | [] => none
  | n :: rest => some ⟨2 * n :: rest, r.data ++ i.data⟩

/-- `from_complex_vector_to_tensors` (complex_values_optimizer.py 78-82). -/
noncomputable def fromComplexVector (m : ComplexModel) (v : List ℂ) : Option (List (Tensor ℝ)) := do
  let re ← columnToTensors (m.real.map Tensor.shape) (v.map Complex.re)
  let im ← columnToTensors (m.real.map Tensor.shape) (v.map Complex.im)
  (List.zipWith concatFirst re im).mapM id

/-- `forward_mode_gradients([output], params, grad_xs)[0]` (optimizers/utils.py 5-34) for the output `out` of one sample: the
derivative along `grad_xs`. -/
noncomputable def forwardMode (out : ComplexModel → ℂ) (m : ComplexModel) (ps : List Param) (gradXs : List (Tensor ℝ)) : ℂ :=
  (List.zipWith (fun p g => (List.zipWith (fun (d : ℂ) (x : ℝ) => (x : ℂ) * d) (partials out m p) g.data).sum) ps gradXs).sum

/-- `get_predictions_jacobian_vector_product` (complex_values_optimizer.py 65-70), the entry of one sample. -/
noncomputable def jacobianVectorProduct (out : ComplexModel → ℂ) (m : ComplexModel) (v : List ℂ) (conjugate : Bool) :
    Option ℂ := do
  let col ← tensorsToColumn (← fromComplexVector m v)
  let gradXs ← columnToTensors ((params m conjugate).map fun p => (tensorOf m p).shape) col
  pure (forwardMode out m (params m conjugate) gradXs)

/-! ### Lemmas -/

theorem modify_append_left {α : Type} (a b : List α) (j : ℕ) (hj : j < a.length) (g : α → α) :
    (a ++ b).modify j g = a.modify j g ++ b := by
  induction a generalizing j with
  | nil => simp at hj
  | cons x a ih =>
    cases j with
    | zero => simp
    | succ j => simpa using ih j (by simpa using hj)

theorem modify_append_right {α : Type} (a b : List α) (j : ℕ) (g : α → α) :
    (a ++ b).modify (a.length + j) g = a ++ b.modify j g := by
  induction a with
  | nil => simp
  | cons x a ih =>
    have : (x :: a).length + j = (a.length + j) + 1 := by simp; omega
    rw [this, List.cons_append, List.modify_succ_cons, ih, List.cons_append]

/-- Place of the first entry of tensor `k` in the joined list. -/
def offset {α : Type} (ts : List (Tensor α)) (k : ℕ) : ℕ := ((ts.take k).flatMap Tensor.data).length

theorem flatMap_bump (ts : List (Tensor ℝ)) (k j : ℕ) (t : ℝ) (hj : j < (ts.getD k ⟨[0], []⟩).data.length) :
    (ts.modify k (bumpTensor j t)).flatMap Tensor.data = (ts.flatMap Tensor.data).modify (offset ts k + j) (· + t) := by
  induction ts generalizing k with
  | nil => simp at hj
  | cons T ts ih =>
    cases k with
    | zero =>
      simp only [List.getD_cons_zero] at hj
      simp only [List.modify_zero_cons, List.flatMap_cons, offset, List.take_zero, List.flatMap_nil, List.length_nil, zero_add]
      rw [modify_append_left _ _ _ hj]
      rfl
    | succ k =>
      simp only [List.getD_cons_succ] at hj
      rw [List.modify_succ_cons, List.flatMap_cons, ih k hj, List.flatMap_cons]
      have : offset (T :: ts) (k + 1) + j = T.data.length + (offset ts k + j) := by
        simp only [offset, List.take_succ_cons, List.flatMap_cons, List.length_append]; omega
      rw [this, modify_append_right]

theorem range_blocks {α β : Type} (ts : List (Tensor α)) (h : ℕ → β) :
    ((List.range ts.length).flatMap fun k => (List.range (ts.getD k ⟨[0], []⟩).data.length).map fun j => h (offset ts k + j))
      = (List.range (ts.flatMap Tensor.data).length).map h := by
  induction ts generalizing h with
  | nil => simp
  | cons T ts ih =>
    rw [List.length_cons, List.range_succ_eq_map, List.flatMap_cons, List.flatMap_map]
    have h1 : ∀ k j, offset (T :: ts) (k + 1) + j = T.data.length + (offset ts k + j) := by
      intro k j
      simp only [offset, List.take_succ_cons, List.flatMap_cons, List.length_append]; omega
    have h0 : ∀ j, offset (T :: ts) 0 + j = j := by intro j; simp [offset]
    simp only [Nat.succ_eq_add_one, h1, h0, List.getD_cons_zero, List.getD_cons_succ]
    rw [ih fun n => h (T.data.length + n), List.flatMap_cons, List.length_append, List.range_add, List.map_append, List.map_map]
    rfl

theorem offset_lt {α : Type} (ts : List (Tensor α)) (k j : ℕ) (hj : j < (ts.getD k ⟨[0], []⟩).data.length) :
    offset ts k + j < (ts.flatMap Tensor.data).length := by
  induction ts generalizing k with
  | nil => simp at hj
  | cons T ts ih =>
    cases k with
    | zero =>
      simp only [List.getD_cons_zero] at hj
      simp only [offset, List.take_zero, List.flatMap_nil, List.length_nil, List.flatMap_cons, List.length_append]
      omega
    | succ k =>
      simp only [List.getD_cons_succ] at hj
      have := ih k hj
      simp only [offset, List.take_succ_cons, List.flatMap_cons, List.length_append] at this ⊢
      omega

/-- The two lists of variables of a model have the same structure. -/
theorem same_blocks {m : ComplexModel} (hm : m.Valid) (k : ℕ) :
    (m.imag.getD k ⟨[0], []⟩).data.length = (m.real.getD k ⟨[0], []⟩).data.length ∧ offset m.imag k = offset m.real k ∧
      (m.imag.getD k ⟨[0], []⟩).shape = (m.real.getD k ⟨[0], []⟩).shape := by
  obtain ⟨hs, hr, hi⟩ := hm
  generalize m.real = rs at *
  generalize m.imag = is at *
  induction rs generalizing is k with
  | nil =>
    cases is with
    | nil => simp [offset]
    | cons i is => simp at hs
  | cons r rs ih =>
    cases is with
    | nil => simp at hs
    | cons i is =>
      simp only [List.map_cons, List.cons.injEq] at hs
      have hl : i.data.length = r.data.length := by
        rw [show i.data.length = i.shape.prod from hi i (by simp), show r.data.length = r.shape.prod from hr r (by simp), hs.1]
      cases k with
      | zero => simp [offset, hl, hs.1]
      | succ k =>
        obtain ⟨h1, h2, h3⟩ := ih k (fun t ht => hr t (by simp [ht])) is (fun t ht => hi t (by simp [ht])) hs.2
        refine ⟨by simpa using h1, ?_, by simpa using h3⟩
        simp only [offset, List.take_succ_cons, List.flatMap_cons, List.length_append] at h2 ⊢
        rw [h2, hl]

/-- The direction in which a parameter moves the complex weight. -/
noncomputable def Param.dir : Param → ℂ
  | .real _ => 1
  | .imag _ => -Complex.I
  | .minusImag _ => Complex.I

def Param.index : Param → ℕ
  | .real k => k
  | .imag k => k
  | .minusImag k => k

theorem length_tensorOf {m : ComplexModel} (hm : m.Valid) (p : Param) :
    (tensorOf m p).data.length = (m.real.getD p.index ⟨[0], []⟩).data.length ∧
      (tensorOf m p).shape = (m.real.getD p.index ⟨[0], []⟩).shape := by
  obtain ⟨h1, -, h2⟩ := same_blocks hm p.index
  cases p
  · exact ⟨rfl, rfl⟩
  · exact ⟨h1, h2⟩
  · exact ⟨h1, h2⟩

theorem valid_bump {m : ComplexModel} (hm : m.Valid) (p : Param) (j : ℕ) (t : ℝ) : (bump m p j t).Valid := by
  have hshape : ∀ (ts : List (Tensor ℝ)) (k : ℕ) (t : ℝ), (ts.modify k (bumpTensor j t)).map Tensor.shape = ts.map Tensor.shape := by
    intro ts k t
    induction ts generalizing k with
    | nil => simp
    | cons T ts ih =>
      cases k with
      | zero => simp [bumpTensor]
      | succ k => simpa using ih k
  have hval : ∀ (ts : List (Tensor ℝ)) (k : ℕ) (t : ℝ), (∀ T ∈ ts, T.Valid) → ∀ T ∈ ts.modify k (bumpTensor j t), T.Valid := by
    intro ts k t h
    induction ts generalizing k with
    | nil => simp
    | cons T ts ih =>
      cases k with
      | zero =>
        intro U hU
        rw [List.modify_zero_cons, List.mem_cons] at hU
        rcases hU with rfl | hU
        · have := h T (by simp)
          simpa [Tensor.Valid, bumpTensor] using this
        · exact h U (by simp [hU])
      | succ k =>
        intro U hU
        rw [List.modify_succ_cons, List.mem_cons] at hU
        rcases hU with rfl | hU
        · exact h U (by simp)
        · exact ih k (fun V hV => h V (by simp [hV])) U hU
  obtain ⟨hs, hr, hi⟩ := hm
  cases p with
  | real k => exact ⟨by simp only [bump]; rw [hshape, hs], hval _ _ _ hr, hi⟩
  | imag k => exact ⟨by simp only [bump]; rw [hshape, hs], hr, hval _ _ _ hi⟩
  | minusImag k => exact ⟨by simp only [bump]; rw [hshape, hs], hr, hval _ _ _ hi⟩

/-- All entries of the complex weights, from the entries of the variables. -/
theorem flatWeights_apply {m : ComplexModel} (hm : m.Valid) (p : Fin P) (hp : (p : ℕ) < (m.real.flatMap Tensor.data).length) :
    flatWeights P m p = ⟨(m.real.flatMap Tensor.data).getD p 0, -(m.imag.flatMap Tensor.data).getD p 0⟩ := by
  obtain ⟨hs, hr, hi⟩ := hm
  have hl : (m.imag.flatMap Tensor.data).length = (m.real.flatMap Tensor.data).length := by
    rw [length_flatMap_valid _ hr, length_flatMap_valid _ hi, hs]
  unfold flatWeights ComplexModel.weights
  rw [flatMap_complexWeight _ _ hs hr hi]
  simp only [List.getD_eq_getElem?_getD]
  rw [List.getElem?_zipWith, List.getElem?_eq_getElem hp, List.getElem?_eq_getElem (by rw [hl]; exact hp)]
  simp

theorem getD_modify (l : List ℝ) (q p : ℕ) (t : ℝ) (hq : q < l.length) :
    (l.modify q (· + t)).getD p 0 = l.getD p 0 + if p = q then t else 0 := by
  simp only [List.getD_eq_getElem?_getD, List.getElem?_modify]
  by_cases h : q = p
  · subst h
    rw [List.getElem?_eq_getElem hq]
    simp
  · simp [h, Ne.symm h]

/-- An increase of one entry of a parameter is a step of one complex weight. -/
theorem flatWeights_bump {m : ComplexModel} (hm : m.Valid) (hP : P = (m.real.flatMap Tensor.data).length) (p : Param) (j : ℕ) (t : ℝ)
    (hj : j < (m.real.getD p.index ⟨[0], []⟩).data.length) (q : Fin P) (hq : (q : ℕ) = offset m.real p.index + j) :
    flatWeights P (bump m p j t) = flatWeights P m + (t : ℂ) • (Pi.single q p.dir : Fin P → ℂ) := by
  obtain ⟨h1, h2, -⟩ := same_blocks hm p.index
  have hlen : (m.imag.flatMap Tensor.data).length = (m.real.flatMap Tensor.data).length := by
    rw [length_flatMap_valid _ hm.2.1, length_flatMap_valid _ hm.2.2, hm.1]
  have hlenb : ((bump m p j t).real.flatMap Tensor.data).length = (m.real.flatMap Tensor.data).length := by
    cases p with
    | real k => simp only [bump]; rw [flatMap_bump _ k _ _ hj, List.length_modify]
    | imag k => rfl
    | minusImag k => rfl
  have hqR : offset m.real p.index + j < (m.real.flatMap Tensor.data).length := offset_lt _ _ _ hj
  funext x
  have hx : (x : ℕ) < (m.real.flatMap Tensor.data).length := by rw [← hP]; exact x.2
  rw [flatWeights_apply (valid_bump hm p j t) x (by rw [hlenb]; exact hx), Pi.add_apply, Pi.smul_apply, smul_eq_mul,
    flatWeights_apply hm x hx]
  rw [Pi.single_apply]
  cases p with
  | real k =>
    simp only [bump, Param.index, Param.dir] at *
    rw [flatMap_bump _ _ _ _ hj, getD_modify _ _ _ _ hqR]
    by_cases hc : x = q
    · have hc' : (x : ℕ) = offset m.real k + j := by rw [hc, hq]
      simp only [if_pos hc, if_pos hc']
      apply Complex.ext <;> simp
    · have hc' : ¬(x : ℕ) = offset m.real k + j := fun h => hc (Fin.ext (by rw [h, hq]))
      simp only [if_neg hc, if_neg hc']
      apply Complex.ext <;> simp
  | imag k =>
    simp only [bump, Param.index, Param.dir] at *
    rw [flatMap_bump _ _ _ _ (by rw [h1]; exact hj), h2, getD_modify _ _ _ _ (by rw [hlen]; exact hqR)]
    by_cases hc : x = q
    · have hc' : (x : ℕ) = offset m.real k + j := by rw [hc, hq]
      simp only [if_pos hc, if_pos hc']
      apply Complex.ext <;> simp
      ring
    · have hc' : ¬(x : ℕ) = offset m.real k + j := fun h => hc (Fin.ext (by rw [h, hq]))
      simp only [if_neg hc, if_neg hc']
      apply Complex.ext <;> simp
  | minusImag k =>
    simp only [bump, Param.index, Param.dir] at *
    rw [flatMap_bump _ _ _ _ (by rw [h1]; exact hj), h2, getD_modify _ _ _ _ (by rw [hlen]; exact hqR)]
    by_cases hc : x = q
    · have hc' : (x : ℕ) = offset m.real k + j := by rw [hc, hq]
      simp only [if_pos hc, if_pos hc']
      apply Complex.ext <;> simp
      ring
    · have hc' : ¬(x : ℕ) = offset m.real k + j := fun h => hc (Fin.ext (by rw [h, hq]))
      simp only [if_neg hc, if_neg hc']
      apply Complex.ext <;> simp

/-- The partial derivatives of a function of the complex weights. -/
theorem partials_eq {m : ComplexModel} (hm : m.Valid) (hP : P = (m.real.flatMap Tensor.data).length) (f : (Fin P → ℂ) → E)
    (D : (Fin P → ℂ) →L[ℝ] E) (hD : HasFDerivAt f D (flatWeights P m)) (p : Param) :
    partials (fun m => f (flatWeights P m)) m p = (List.range (m.real.getD p.index ⟨[0], []⟩).data.length).map fun j =>
      D (fun x => if (x : ℕ) = offset m.real p.index + j then p.dir else 0) := by
  unfold partials
  rw [(length_tensorOf hm p).1]
  refine List.map_congr_left fun j hj => ?_
  rw [List.mem_range] at hj
  have hlt := offset_lt _ _ _ hj
  set q : Fin P := ⟨offset m.real p.index + j, by rw [hP]; exact hlt⟩ with hq
  have hsingle : (fun x : Fin P => if (x : ℕ) = offset m.real p.index + j then p.dir else 0) = (Pi.single q p.dir : Fin P → ℂ) := by
    funext x
    rw [Pi.single_apply]
    simp only [Fin.ext_iff, hq]
  rw [hsingle]
  simp only [flatWeights_bump hm hP p j _ hj q rfl]
  have h1 : HasDerivAt (fun t : ℝ => flatWeights P m + (t : ℂ) • (Pi.single q p.dir : Fin P → ℂ)) (Pi.single q p.dir) 0 := by
    have := ((Complex.ofRealCLM.hasDerivAt (x := (0 : ℝ))).smul_const (Pi.single q p.dir : Fin P → ℂ)).const_add (flatWeights P m)
    simpa using this
  have h2 : HasFDerivAt f D (flatWeights P m + ((0 : ℝ) : ℂ) • (Pi.single q p.dir : Fin P → ℂ)) := by
    simpa using hD
  exact (h2.comp_hasDerivAt (0 : ℝ) h1).deriv

theorem toComplexTensors_pairs (l : List ℕ) (a b : ℕ → Tensor ℝ) :
    toComplexTensors (l.flatMap fun k => [a k, b k]) =
      l.map fun k => ⟨(a k).shape, List.zipWith (fun x y => (⟨x, y⟩ : ℂ)) (a k).data (b k).data⟩ := by
  induction l with
  | nil => rfl
  | cons k l ih =>
    rw [List.flatMap_cons, List.map_cons, ← ih]
    rfl

/-- The second parameter of a pair. -/
def second (conjugate : Bool) (k : ℕ) : Param := if conjugate then .minusImag k else .imag k

theorem index_second (conjugate : Bool) (k : ℕ) : (second conjugate k).index = k := by
  unfold second; split_ifs <;> rfl

theorem dir_second (conjugate : Bool) (k : ℕ) : (second conjugate k).dir = if conjugate then Complex.I else -Complex.I := by
  unfold second; split_ifs <;> rfl

/-- The joined complex gradients. -/
theorem flat_complexGradients {m : ComplexModel} (hm : m.Valid) (hP : P = (m.real.flatMap Tensor.data).length) (f : (Fin P → ℂ) → ℝ)
    (D : (Fin P → ℂ) →L[ℝ] ℝ) (hD : HasFDerivAt f D (flatWeights P m)) (conjugate : Bool) :
    (complexGradients (fun m => f (flatWeights P m)) m conjugate).flatMap Tensor.data =
      List.ofFn fun p : Fin P => (⟨D (Pi.single p 1), D (Pi.single p (if conjugate then Complex.I else -Complex.I))⟩ : ℂ) := by
  have h1 : complexGradients (fun m => f (flatWeights P m)) m conjugate = toComplexTensors ((List.range m.real.length).flatMap fun k =>
      [tfGradient (fun m => f (flatWeights P m)) m (.real k), tfGradient (fun m => f (flatWeights P m)) m (second conjugate k)]) := by
    unfold complexGradients params second
    rw [List.map_flatMap]
    rfl
  rw [h1, toComplexTensors_pairs, List.flatMap_map]
  set h : ℕ → ℂ := fun n => ⟨D fun x => if (x : ℕ) = n then 1 else 0, D fun x => if (x : ℕ) = n then (if conjugate then Complex.I else -Complex.I) else 0⟩ with hh
  have h2 : ∀ k, List.zipWith (fun x y => (⟨x, y⟩ : ℂ)) (tfGradient (fun m => f (flatWeights P m)) m (.real k)).data
      (tfGradient (fun m => f (flatWeights P m)) m (second conjugate k)).data =
      (List.range (m.real.getD k ⟨[0], []⟩).data.length).map fun j => h (offset m.real k + j) := by
    intro k
    unfold tfGradient
    simp only
    rw [partials_eq hm hP f D hD, partials_eq hm hP f D hD, index_second, dir_second]
    show List.zipWith _ ((List.range (m.real.getD k ⟨[0], []⟩).data.length).map fun j => D fun x => if (x : ℕ) = offset m.real k + j then 1 else 0) _ = _
    rw [List.zipWith_map, List.zipWith_self]
  simp only [h2]
  rw [range_blocks, ← hP]
  refine List.ext_getElem (by simp) fun n h3 h4 => ?_
  simp only [List.getElem_map, List.getElem_range, List.getElem_ofFn, hh]
  have h5 : ∀ (hn : n < P) (c : ℂ), (Pi.single (⟨n, hn⟩ : Fin P) c : Fin P → ℂ) = fun x : Fin P => if (x : ℕ) = n then c else 0 := by
    intro hn c
    funext x
    rw [Pi.single_apply]
    simp only [Fin.ext_iff]
  rw [h5, h5]

theorem real_linear (D : (Fin P → ℂ) →L[ℝ] ℝ) (v : Fin P → ℂ) :
    D v = ∑ p, ((v p).re * D (Pi.single p 1) + (v p).im * D (Pi.single p Complex.I)) := by
  have hv : v = ∑ p, ((v p).re • (Pi.single p (1 : ℂ) : Fin P → ℂ) + (v p).im • (Pi.single p Complex.I : Fin P → ℂ)) := by
    funext q
    rw [Finset.sum_apply, Finset.sum_eq_single q]
    · apply Complex.ext <;> simp
    · intro p _ hp
      simp [Pi.single_eq_of_ne hp.symm]
    · intro h; exact absurd (Finset.mem_univ q) h
  conv_lhs => rw [hv]
  rw [map_sum]
  refine Finset.sum_congr rfl fun p _ => ?_
  rw [map_add, map_smul, map_smul, smul_eq_mul, smul_eq_mul]

/-! ### C129 -/

/-- **C129.** For every real loss that is a differentiable function of the complex weights, the complex gradients have one entry
per complex weight, in the order and the shapes of the weights, and the derivative of the loss along every change `v` of the
weights is the real part of `∑ G v`; with `conjugate_gradients` the result is the conjugate. -/
theorem C129_gradient (m : ComplexModel) (hm : m.Valid) (hne : m.real ≠ []) (hP : P = ((m.weights.map Tensor.shape).map List.prod).sum)
    (f : (Fin P → ℂ) → ℝ) (D : (Fin P → ℂ) →L[ℝ] ℝ) (hD : HasFDerivAt f D (flatWeights P m)) :
    ∃ G : Fin P → ℂ, tensorsToColumn (complexGradients (fun m => f (flatWeights P m)) m false) = some (List.ofFn G) ∧
      tensorsToColumn (complexGradients (fun m => f (flatWeights P m)) m true) = some (List.ofFn fun p => (starRingEnd ℂ) (G p)) ∧
      (∀ c, (complexGradients (fun m => f (flatWeights P m)) m c).map Tensor.shape = m.weights.map Tensor.shape) ∧
      ∀ v, D v = (∑ p, G p * v p).re := by
  have hP' : P = (m.real.flatMap Tensor.data).length := by
    rw [length_flatMap_valid _ hm.2.1, hP]
    have hlen : m.real.length = m.imag.length := by simpa using congrArg List.length hm.1
    rw [show m.weights.map Tensor.shape = m.real.map Tensor.shape from shape_complexWeight _ _ hlen]
    rfl
  have hlen : m.real.length = m.imag.length := by simpa using congrArg List.length hm.1
  have hshape : ∀ c, (complexGradients (fun m => f (flatWeights P m)) m c).map Tensor.shape = m.weights.map Tensor.shape := by
    intro c
    have h1 : complexGradients (fun m => f (flatWeights P m)) m c = toComplexTensors ((List.range m.real.length).flatMap fun k =>
        [tfGradient (fun m => f (flatWeights P m)) m (.real k), tfGradient (fun m => f (flatWeights P m)) m (second c k)]) := by
      unfold complexGradients params second
      rw [List.map_flatMap]
      rfl
    rw [show m.weights.map Tensor.shape = m.real.map Tensor.shape from shape_complexWeight _ _ hlen, h1, toComplexTensors_pairs,
      List.map_map]
    refine List.ext_getElem (by simp) fun n h3 h4 => ?_
    have h5 : n < m.real.length := by simpa using h4
    simp [tfGradient, tensorOf, h5]
  have hne' : ∀ c, complexGradients (fun m => f (flatWeights P m)) m c ≠ [] := by
    intro c h
    have := congrArg List.length (hshape c)
    rw [h, show m.weights.map Tensor.shape = m.real.map Tensor.shape from shape_complexWeight _ _ hlen] at this
    simp at this
    exact hne (List.eq_nil_of_length_eq_zero this.symm)
  have hneg : ∀ p : Fin P, D (Pi.single p (-Complex.I)) = -D (Pi.single p Complex.I) := by
    intro p
    rw [← map_neg, ← Pi.single_neg]
  refine ⟨fun p => ⟨D (Pi.single p 1), D (Pi.single p (-Complex.I))⟩, ?_, ?_, hshape, ?_⟩
  · rw [tensorsToColumn, if_neg (hne' _), flat_complexGradients hm hP' f D hD]
    simp
  · rw [tensorsToColumn, if_neg (hne' _), flat_complexGradients hm hP' f D hD]
    congr 2
    funext p
    apply Complex.ext
    · simp
    · simp [hneg]
  · intro v
    rw [real_linear D v, Complex.re_sum]
    refine Finset.sum_congr rfl fun p _ => ?_
    rw [Complex.mul_re]
    dsimp only
    rw [hneg]
    ring

theorem single_sum (v : Fin P → ℂ) (F : (Fin P → ℂ) →L[ℂ] ℂ) : F v = ∑ p, F (Pi.single p 1) * v p := by
  have hv : v = ∑ p, v p • (Pi.single p (1 : ℂ) : Fin P → ℂ) := by
    funext q
    rw [Finset.sum_apply, Finset.sum_eq_single q]
    · simp
    · intro p _ hp
      rw [Pi.smul_apply, Pi.single_eq_of_ne hp.symm, smul_zero]
    · intro h; exact absurd (Finset.mem_univ q) h
  conv_lhs => rw [hv]
  rw [map_sum]
  refine Finset.sum_congr rfl fun p _ => ?_
  rw [map_smul, smul_eq_mul, mul_comm]

/-- Two vectors with the same real parts of products are the same. -/
theorem eq_of_re {a b : Fin P → ℂ} (h : ∀ v : Fin P → ℂ, (∑ p, a p * v p).re = (∑ p, b p * v p).re) : a = b := by
  have hs : ∀ (a : Fin P → ℂ) (q : Fin P) (c : ℂ), ∑ p, a p * (Pi.single q c : Fin P → ℂ) p = a q * c := by
    intro a q c
    rw [Finset.sum_eq_single q]
    · simp
    · intro p _ hp; simp [Pi.single_eq_of_ne hp]
    · intro h; exact absurd (Finset.mem_univ q) h
  funext q
  have h1 := h (Pi.single q 1)
  have h2 := h (Pi.single q Complex.I)
  rw [hs, hs] at h1 h2
  apply Complex.ext
  · simpa using h1
  · simpa using h2

/-- **C129**, holomorphic functions: for the real part of a holomorphic function of the weights, the complex gradients are its
complex derivatives, and their conjugates with `conjugate_gradients`. -/
theorem C129_holomorphic (m : ComplexModel) (hm : m.Valid) (hne : m.real ≠ []) (hP : P = ((m.weights.map Tensor.shape).map List.prod).sum)
    (F : (Fin P → ℂ) → ℂ) (F' : (Fin P → ℂ) →L[ℂ] ℂ) (hF : HasFDerivAt F F' (flatWeights P m)) :
    tensorsToColumn (complexGradients (fun m => (F (flatWeights P m)).re) m false) = some (List.ofFn fun p => F' (Pi.single p 1)) ∧
    tensorsToColumn (complexGradients (fun m => (F (flatWeights P m)).re) m true) =
      some (List.ofFn fun p => (starRingEnd ℂ) (F' (Pi.single p 1))) := by
  have hD : HasFDerivAt (fun w => (F w).re) (Complex.reCLM.comp (F'.restrictScalars ℝ)) (flatWeights P m) :=
    Complex.reCLM.hasFDerivAt.comp _ (hF.restrictScalars ℝ)
  obtain ⟨G, h1, h2, -, h3⟩ := C129_gradient m hm hne hP (fun w => (F w).re) _ hD
  have hG : G = fun p => F' (Pi.single p 1) := eq_of_re fun v => by
    rw [← h3, ← single_sum]
    rfl
  rw [h1, h2, hG]
  exact ⟨rfl, rfl⟩

/-- **C129**, use: `apply_complex_gradient` with minus the conjugate gradients makes every differentiable loss smaller, if the
learning rate is small enough and the loss is not stationary. -/
theorem C129_descent (m : ComplexModel) (hm : m.Valid) (hne : m.real ≠ []) (hP : P = ((m.weights.map Tensor.shape).map List.prod).sum)
    (f : (Fin P → ℂ) → ℝ) (D : (Fin P → ℂ) →L[ℝ] ℝ) (hD : HasFDerivAt f D (flatWeights P m)) (hD0 : D ≠ 0) :
    ∃ g, tensorsToColumn (complexGradients (fun m => f (flatWeights P m)) m true) = some g ∧
      ∃ δ > 0, ∀ lr, 0 < lr → lr < δ → ∃ m', applyComplexGradient lr m (g.map fun z => z * (-1)) = some m' ∧
        f (flatWeights P m') < f (flatWeights P m) := by
  obtain ⟨G, -, h2, -, h3⟩ := C129_gradient m hm hne hP f D hD
  refine ⟨_, h2, ?_⟩
  set x : Fin P → ℂ := fun p => (starRingEnd ℂ) (G p) with hx
  have hG0 : G ≠ 0 := by
    intro h
    apply hD0
    ext v
    rw [h3, h]
    simp
  have hneg : D (-x) < 0 := by
    rw [h3]
    have h4 : (∑ p, G p * (-x) p) = ((-∑ p, ‖G p‖ ^ 2 : ℝ) : ℂ) := by
      push_cast
      rw [← Finset.sum_neg_distrib]
      refine Finset.sum_congr rfl fun p _ => ?_
      rw [hx, Pi.neg_apply, mul_neg, Complex.mul_conj, Complex.normSq_eq_norm_sq]
      push_cast
      rfl
    rw [h4, Complex.ofReal_re, neg_lt_zero]
    obtain ⟨q, hq⟩ := Function.ne_iff.1 hG0
    refine Finset.sum_pos' (fun p _ => by positivity) ⟨q, Finset.mem_univ q, ?_⟩
    have : 0 < ‖G q‖ := norm_pos_iff.2 hq
    positivity
  have hpath : HasDerivAt (fun t : ℝ => f (flatWeights P m + (t : ℂ) • (-x))) (D (-x)) 0 := by
    have h1 : HasDerivAt (fun t : ℝ => flatWeights P m + (t : ℂ) • (-x)) (-x) 0 := by
      have := ((Complex.ofRealCLM.hasDerivAt (x := (0 : ℝ))).smul_const (-x)).const_add (flatWeights P m)
      simpa using this
    have h2 : HasFDerivAt f D (flatWeights P m + ((0 : ℝ) : ℂ) • (-x)) := by
      simpa using hD
    exact h2.comp_hasDerivAt (0 : ℝ) h1
  obtain ⟨δ, hδ, h5⟩ := SR.lower_of_deriv hpath hneg
  refine ⟨δ, hδ, fun lr hl1 hl2 => ?_⟩
  obtain ⟨m', g1, -, -, g3⟩ := C30_complex_update lr m hm ((List.ofFn x).map fun z => z * (-1))
    (by rw [List.length_map, List.length_ofFn]; exact hP)
  refine ⟨m', g1, ?_⟩
  have hlen : (m.weights.flatMap Tensor.data).length = P := by
    obtain ⟨hs', hre, him⟩ := hm
    have hlen : m.real.length = m.imag.length := by simpa using congrArg List.length hs'
    have hws : m.weights.map Tensor.shape = m.real.map Tensor.shape := shape_complexWeight _ _ hlen
    have h6 := flatMap_complexWeight _ _ hs' hre him
    have h7 : (m.imag.flatMap Tensor.data).length = (m.real.flatMap Tensor.data).length := by
      rw [length_flatMap_valid _ hre, length_flatMap_valid _ him, hs']
    unfold ComplexModel.weights
    rw [h6, List.length_zipWith, h7, min_self, length_flatMap_valid _ hre, hP, hws]
    rfl
  have hf := SR.flat_update (lr := lr) (m := m) (m' := m') hlen x (by
    rw [g3, List.zipWith_map_right]
    congr 1
    funext w z
    ring)
  rw [hf]
  have := h5 lr hl1 hl2
  simpa using this

/-! ### Products of the Jacobian with a vector -/

theorem data_eq {α : Type} [Inhabited α] (ts : List (Tensor α)) (d : α) (k : ℕ) :
    (ts.getD k ⟨[0], []⟩).data = (List.range (ts.getD k ⟨[0], []⟩).data.length).map fun j =>
      (ts.flatMap Tensor.data).getD (offset ts k + j) d := by
  induction ts generalizing k with
  | nil => simp
  | cons T ts ih =>
    cases k with
    | zero =>
      simp only [List.getD_cons_zero, offset, List.take_zero, List.flatMap_nil, List.length_nil, zero_add, List.flatMap_cons]
      refine List.ext_getElem (by simp) fun n h1 h2 => ?_
      simp only [List.getElem_map, List.getElem_range, List.getD_eq_getElem?_getD]
      rw [List.getElem?_append_left h1, List.getElem?_eq_getElem h1]
      rfl
    | succ k =>
      simp only [List.getD_cons_succ]
      conv_lhs => rw [ih k]
      refine List.map_congr_left fun j _ => ?_
      simp only [offset, List.take_succ_cons, List.flatMap_cons, List.length_append, List.getD_eq_getElem?_getD]
      rw [List.getElem?_append_right (by omega)]
      congr 2
      omega

theorem mapM_concat (rs is : List (Tensor ℝ)) (hl : rs.length = is.length) (hs : ∀ T ∈ rs, T.shape ≠ []) :
    ∃ ts, (List.zipWith concatFirst rs is).mapM id = some ts ∧
      ts.flatMap Tensor.data = (List.zipWith (fun r i => r.data ++ i.data) rs is).flatten ∧ ts.length = rs.length := by
  induction rs generalizing is with
  | nil => exact ⟨[], by simp⟩
  | cons r rs ih =>
    cases is with
    | nil => simp at hl
    | cons i is =>
      obtain ⟨ts, h1, h2, h3⟩ := ih is (by simpa using hl) (fun T hT => hs T (by simp [hT]))
      have hr := hs r (by simp)
      cases hsh : r.shape with
      | nil => exact absurd hsh hr
      | cons n rest =>
        refine ⟨⟨2 * n :: rest, r.data ++ i.data⟩ :: ts, ?_, ?_, by simp [h3]⟩
        · simp only [List.zipWith_cons_cons, List.mapM_cons, concatFirst, hsh, id, h1]
          rfl
        · simp [h2]

theorem interleave_data (n : ℕ) (rs is : List (Tensor ℝ)) (hr : rs.length = n) (hi : is.length = n) :
    ((List.range n).flatMap fun k => [rs.getD k ⟨[0], []⟩, is.getD k ⟨[0], []⟩]).flatMap Tensor.data =
      (List.zipWith (fun r i => r.data ++ i.data) rs is).flatten := by
  induction n generalizing rs is with
  | zero => simp [List.eq_nil_of_length_eq_zero hr]
  | succ n ih =>
    cases rs with
    | nil => simp at hr
    | cons r rs =>
      cases is with
      | nil => simp at hi
      | cons i is =>
        rw [List.range_succ_eq_map, List.flatMap_cons, List.flatMap_map, List.flatMap_append]
        simp only [List.getD_cons_zero, Nat.succ_eq_add_one, List.getD_cons_succ]
        rw [ih rs is (by simpa using hr) (by simpa using hi)]
        simp

theorem zipWith_pairs {β γ : Type} (f : Param → β → γ) (l : List ℕ) (a b : ℕ → Param) (c d : ℕ → β) :
    List.zipWith f (l.flatMap fun k => [a k, b k]) (l.flatMap fun k => [c k, d k]) =
      l.flatMap fun k => [f (a k) (c k), f (b k) (d k)] := by
  induction l with
  | nil => rfl
  | cons k l ih => simp [ih]

theorem sum_blocks (n : ℕ) (F G : ℕ → List ℂ) :
    ((List.range n).flatMap fun k => [(F k).sum, (G k).sum]).sum =
      ((List.range n).flatMap F).sum + ((List.range n).flatMap G).sum := by
  induction n with
  | zero => simp
  | succ n ih =>
    rw [List.range_succ, List.flatMap_append, List.flatMap_append, List.flatMap_append, List.sum_append, ih, List.sum_append,
      List.sum_append]
    simp
    ring

theorem sum_range_map (h : ℕ → ℂ) : ((List.range P).map h).sum = ∑ p : Fin P, h p := by
  rw [← Finset.sum_range]
  induction P with
  | zero => simp
  | succ n ih => rw [List.range_succ, List.map_append, List.sum_append, ih, Finset.sum_range_succ]; simp

/-- **C129**, products: for a network that is a holomorphic function of its complex weights and none of whose weights is a scalar,
the Jacobian vector product with `conjugate_jacobian` is the complex derivative along the vector; without, it is the derivative
along the conjugate vector. -/
theorem C129_product (m : ComplexModel) (hm : m.Valid) (hne : m.real ≠ []) (hsc : ∀ T ∈ m.real, T.shape ≠ [])
    (hP : P = ((m.weights.map Tensor.shape).map List.prod).sum)
    (net : (Fin P → ℂ) → ℂ) (D : (Fin P → ℂ) →L[ℂ] ℂ) (hD : HasFDerivAt net D (flatWeights P m)) (v : Fin P → ℂ) :
    jacobianVectorProduct (fun m => net (flatWeights P m)) m (List.ofFn v) true = some (D v) ∧
    jacobianVectorProduct (fun m => net (flatWeights P m)) m (List.ofFn v) false = some (D fun p => (starRingEnd ℂ) (v p)) := by
  have hlen : m.real.length = m.imag.length := by simpa using congrArg List.length hm.1
  have hws : m.weights.map Tensor.shape = m.real.map Tensor.shape := shape_complexWeight _ _ hlen
  have hP' : P = (m.real.flatMap Tensor.data).length := by
    rw [length_flatMap_valid _ hm.2.1, hP, hws]
    rfl
  have htot : P = total (m.real.map Tensor.shape) := by rw [hP, hws]; rfl
  obtain ⟨rs, r1, r2, r3, r4⟩ := columnToTensors_spec (m.real.map Tensor.shape) ((List.ofFn v).map Complex.re) (by simp [← htot])
  obtain ⟨is, i1, i2, i3, i4⟩ := columnToTensors_spec (m.real.map Tensor.shape) ((List.ofFn v).map Complex.im) (by simp [← htot])
  have hrl : rs.length = m.real.length := by simpa using congrArg List.length r2
  have hil : is.length = m.real.length := by simpa using congrArg List.length i2
  obtain ⟨ts, t1, t2, t3⟩ := mapM_concat rs is (by rw [hrl, hil]) (by
    intro T hT
    have : T.shape ∈ m.real.map Tensor.shape := by rw [← r2]; exact List.mem_map_of_mem hT
    obtain ⟨U, hU, hUT⟩ := List.mem_map.1 this
    rw [← hUT]
    exact hsc U hU)
  have hfrom : fromComplexVector m (List.ofFn v) = some ts := by
    unfold fromComplexVector
    rw [r1, i1]
    exact t1
  have hts : ts ≠ [] := by
    intro h
    rw [h, List.length_nil, hrl] at t3
    exact hne (List.eq_nil_of_length_eq_zero t3.symm)
  set xs : List (Tensor ℝ) := (List.range m.real.length).flatMap fun k => [rs.getD k ⟨[0], []⟩, is.getD k ⟨[0], []⟩] with hxs
  have hgetr : ∀ k, (rs.getD k ⟨[0], []⟩).shape = (m.real.getD k ⟨[0], []⟩).shape := by
    intro k
    have h1 := congrArg (fun l => l.getD k [0]) r2
    simp only [List.getD_eq_getElem?_getD, List.getElem?_map] at h1 ⊢
    revert h1
    cases rs[k]? <;> cases m.real[k]? <;> simp
  have hgeti : ∀ k, (is.getD k ⟨[0], []⟩).shape = (m.real.getD k ⟨[0], []⟩).shape := by
    intro k
    have h1 := congrArg (fun l => l.getD k [0]) i2
    simp only [List.getD_eq_getElem?_getD, List.getElem?_map] at h1 ⊢
    revert h1
    cases is[k]? <;> cases m.real[k]? <;> simp
  have hshapes : ∀ c, (params m c).map (fun p => (tensorOf m p).shape) = xs.map Tensor.shape := by
    intro c
    rw [hxs, List.map_flatMap]
    unfold params
    rw [List.map_flatMap]
    congr 1
    funext k
    simp only [List.map_cons, List.map_nil]
    rw [hgetr, hgeti]
    have := (length_tensorOf hm (second c k)).2
    rw [index_second] at this
    unfold second at this
    rw [this]
    rfl
  have hxv : ∀ T ∈ xs, T.Valid := by
    intro T hT
    rw [hxs, List.mem_flatMap] at hT
    obtain ⟨k, hk, hT⟩ := hT
    rw [List.mem_range] at hk
    simp only [List.mem_cons, List.not_mem_nil, or_false] at hT
    rcases hT with rfl | rfl
    · rw [List.getD_eq_getElem _ _ (by rw [hrl]; exact hk)]
      exact r3 _ (List.getElem_mem _)
    · rw [List.getD_eq_getElem _ _ (by rw [hil]; exact hk)]
      exact i3 _ (List.getElem_mem _)
  have hxf : xs.flatMap Tensor.data = ts.flatMap Tensor.data := by
    rw [t2, hxs, interleave_data _ _ _ hrl hil]
  have hxne : xs ≠ [] := by
    intro h
    have h0 : m.real.length = 0 := by
      have := congrArg List.length h
      simp [hxs] at this
      simpa using this
    exact hne (List.eq_nil_of_length_eq_zero h0)
  have hcut : ∀ c, columnToTensors ((params m c).map fun p => (tensorOf m p).shape) (ts.flatMap Tensor.data) = some xs := by
    intro c
    obtain ⟨col, h1, h2⟩ := C31_split_of_join xs hxne hxv
    rw [hshapes c, ← hxf]
    rw [tensorsToColumn, if_neg hxne] at h1
    rw [Option.some.inj h1]
    exact h2
  have hmain : ∀ c, jacobianVectorProduct (fun m => net (flatWeights P m)) m (List.ofFn v) c =
      some (forwardMode (fun m => net (flatWeights P m)) m (params m c) xs) := by
    intro c
    unfold jacobianVectorProduct
    rw [hfrom]
    simp only [Option.bind_eq_bind, Option.bind_some, tensorsToColumn, if_neg hts, hcut]
    rfl
  have hblock : ∀ (us : List (Tensor ℝ)) (w : Fin P → ℝ), us.map Tensor.shape = m.real.map Tensor.shape → (∀ T ∈ us, T.Valid) →
      us.flatMap Tensor.data = List.ofFn w → ∀ p : ℕ → Param, (∀ k, (p k).index = k) → ∀ e : ℂ, (∀ k, (p k).dir = e) →
      ((List.range m.real.length).flatMap fun k => List.zipWith (fun (d : ℂ) (x : ℝ) => (x : ℂ) * d)
        (partials (fun m => net (flatWeights P m)) m (p k)) (us.getD k ⟨[0], []⟩).data).sum = ∑ q, (w q : ℂ) * (e * D (Pi.single q 1)) := by
    intro us w u2 u3 u4 p hp e he
    have hval : (⟨m.real, us⟩ : ComplexModel).Valid := ⟨u2.symm, hm.2.1, u3⟩
    have hk : ∀ k, List.zipWith (fun (d : ℂ) (x : ℝ) => (x : ℂ) * d) (partials (fun m => net (flatWeights P m)) m (p k)) (us.getD k ⟨[0], []⟩).data =
        (List.range (m.real.getD k ⟨[0], []⟩).data.length).map fun j =>
          ((((List.ofFn w).getD (offset m.real k + j) 0 : ℝ) : ℂ) * D fun x => if (x : ℕ) = offset m.real k + j then e else 0) := by
      intro k
      obtain ⟨b1, b2, -⟩ := same_blocks hval k
      rw [partials_eq hm hP' net (D.restrictScalars ℝ) (hD.restrictScalars ℝ) (p k), hp k, he k, data_eq us 0 k]
      simp only at b1 b2
      rw [b1, b2, u4, List.zipWith_map, List.zipWith_self]
      rfl
    simp only [hk]
    rw [range_blocks m.real fun n => ((((List.ofFn w).getD n 0 : ℝ) : ℂ) * D fun x => if (x : ℕ) = n then e else 0), ← hP', sum_range_map]
    refine Finset.sum_congr rfl fun q _ => ?_
    have h1 : (List.ofFn w).getD q 0 = w q := by
      rw [List.getD_eq_getElem _ _ (by simp), List.getElem_ofFn]
    have h2 : (fun x : Fin P => if (x : ℕ) = q then e else 0) = e • (Pi.single q 1 : Fin P → ℂ) := by
      funext x
      rw [Pi.smul_apply, Pi.single_apply]
      simp only [Fin.ext_iff]
      split_ifs <;> simp
    rw [h1, h2, map_smul, smul_eq_mul]
  have hfin : ∀ c, forwardMode (fun m => net (flatWeights P m)) m (params m c) xs =
      ∑ q, ((v q).re : ℂ) * (1 * D (Pi.single q 1)) + ∑ q, ((v q).im : ℂ) * ((if c then Complex.I else -Complex.I) * D (Pi.single q 1)) := by
    intro c
    have hp : params m c = (List.range m.real.length).flatMap fun k => [Param.real k, second c k] := rfl
    unfold forwardMode
    rw [hp, hxs, zipWith_pairs, sum_blocks]
    rw [hblock rs (fun q => (v q).re) r2 r3 (by rw [r4, List.map_ofFn]; rfl) Param.real (fun _ => rfl) 1 (fun _ => rfl),
      hblock is (fun q => (v q).im) i2 i3 (by rw [i4, List.map_ofFn]; rfl) (second c) (index_second c) _ (dir_second c)]
  rw [hmain, hmain, hfin, hfin, single_sum v D, single_sum _ D]
  simp only [if_true, Bool.false_eq_true, if_false]
  rw [← Finset.sum_add_distrib, ← Finset.sum_add_distrib]
  constructor
  · congr 1
    refine Finset.sum_congr rfl fun q _ => ?_
    conv_rhs => rw [← Complex.re_add_im (v q)]
    ring
  · congr 1
    refine Finset.sum_congr rfl fun q _ => ?_
    have : (starRingEnd ℂ) (v q) = ((v q).re : ℂ) - (v q).im * Complex.I := by
      apply Complex.ext <;> simp
    rw [this]
    ring

/-- A scalar weight is refused by the concatenation in `from_complex_vector_to_tensors`. -/
example : jacobianVectorProduct (fun _ => 0) ⟨[⟨[], [1]⟩], [⟨[], [1]⟩]⟩ [1] true = none := by
  simp [jacobianVectorProduct, fromComplexVector, columnToTensors, columnToTensorsLoop, reshape, concatFirst]

/-- The hypotheses can be met: two weights, a vector with two entries and a bias. -/
example : ∃ m : ComplexModel, m.Valid ∧ m.real ≠ [] ∧ (∀ T ∈ m.real, T.shape ≠ []) ∧
    3 = ((m.weights.map Tensor.shape).map List.prod).sum :=
  ⟨⟨[⟨[2], [1, 2]⟩, ⟨[1], [5]⟩], [⟨[2], [3, 4]⟩, ⟨[1], [6]⟩]⟩, ⟨rfl, by simp [Tensor.Valid], by simp [Tensor.Valid]⟩, by simp, by simp,
    by simp [ComplexModel.weights, complexWeight]⟩

end Verif.Optimizers.Grad
