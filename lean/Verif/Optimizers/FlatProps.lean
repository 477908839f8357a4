import Verif.Optimizers.Flat

/-
C30 and C31: splitting, joining, and the complex weight update.
-/
namespace Verif.Optimizers

/-- **C31.** A column whose length is the total size of the template shapes is split into tensors of
exactly these shapes, and joining them gives the column back. -/
theorem C31_join_of_split {α : Type} (templates : List (List Nat)) (col : List α) (hne : templates ≠ [])
    (h : col.length = (templates.map List.prod).sum) :
    ∃ ts, columnToTensors templates col = some ts ∧ ts.map Tensor.shape = templates ∧
      (∀ t ∈ ts, t.data.length = t.shape.prod) ∧ tensorsToColumn ts = some col := by
  obtain ⟨ts, h1, h2, h3, h4⟩ := columnToTensors_spec templates col h
  refine ⟨ts, h1, h2, h3, ?_⟩
  have : ts ≠ [] := by rintro rfl; exact hne h2.symm
  simp [tensorsToColumn, this, h4]

/-- **C31.** Joining tensors and splitting along their shapes gives the same tensors back. -/
theorem C31_split_of_join {α : Type} (ts : List (Tensor α)) (hne : ts ≠ [])
    (hv : ∀ t ∈ ts, t.data.length = t.shape.prod) :
    ∃ col, tensorsToColumn ts = some col ∧ columnToTensors (ts.map Tensor.shape) col = some ts := by
  refine ⟨ts.flatMap Tensor.data, by simp [tensorsToColumn, hne], ?_⟩
  obtain ⟨us, h1, h2, h3, h4⟩ := columnToTensors_spec (ts.map Tensor.shape) (ts.flatMap Tensor.data)
    (length_flatMap_valid ts hv)
  rw [h1, flatMap_injective us ts h2 h3 hv h4]

/-- **C31.** A column that is too short is refused. -/
theorem C31_too_short_refused {α : Type} (templates : List (List Nat)) (col : List α)
    (h : col.length < (templates.map List.prod).sum) : columnToTensors templates col = none := by
  have key : ∀ (ts : List (List Nat)) (o : Nat), o ≤ col.length → col.length < o + (ts.map List.prod).sum →
      columnToTensorsLoop col ts o = none := by
    intro ts
    induction ts with
    | nil => intro o ho h; simp at h; omega
    | cons s rest ih =>
      intro o ho h
      simp only [List.map_cons, List.sum_cons] at h
      by_cases hs : o + s.prod ≤ col.length
      · simp only [columnToTensorsLoop]
        split
        · rfl
        · rw [ih _ hs (by omega)]; rfl
      · have hne : ((col.take (o + s.prod)).drop o).length ≠ s.prod := by
          simp only [List.length_drop, List.length_take]; omega
        simp [columnToTensorsLoop, reshape]
        simp at hne
        simp [hne]
  exact key templates 0 (by omega) (by omega)

/-- A case with a scalar, an empty tensor and a matrix. -/
example : (∃ ts, columnToTensors [[], [2, 0], [2, 2]] [1, 2, 3, 4, 5] = some ts ∧
    ts.map Tensor.data = [[1], [], [2, 3, 4, 5]]) ∧
    columnToTensors [[], [2, 2]] [1, 2, 3, 4] = none := by
  refine ⟨⟨_, rfl, rfl⟩, rfl⟩

/-! ### C30 -/

/-- The variables of a model built by complex layers: real and imaginary parts come in pairs of equal
shape. -/
def ComplexModel.Valid (m : ComplexModel) : Prop :=
  m.real.map Tensor.shape = m.imag.map Tensor.shape ∧ (∀ t ∈ m.real, t.Valid) ∧ (∀ t ∈ m.imag, t.Valid)

theorem flatMap_zipWith_addScaled (lr : ℝ) (ps gs : List (Tensor ℝ))
    (hs : ps.map Tensor.shape = gs.map Tensor.shape) (hp : ∀ t ∈ ps, t.Valid) (hg : ∀ t ∈ gs, t.Valid) :
    (List.zipWith (addScaled lr) ps gs).flatMap Tensor.data =
      List.zipWith (fun a b => a + lr * b) (ps.flatMap Tensor.data) (gs.flatMap Tensor.data) := by
  induction ps generalizing gs with
  | nil => cases gs <;> simp
  | cons p ps ih => cases gs with
    | nil => simp at hs
    | cons g gs =>
      simp only [List.map_cons, List.cons.injEq] at hs
      simp only [List.zipWith_cons_cons, List.flatMap_cons, addScaled]
      rw [List.zipWith_append (by rw [hp p (by simp), hg g (by simp), hs.1]),
        ih gs hs.2 (fun x hx => hp x (by simp [hx])) (fun x hx => hg x (by simp [hx]))]

theorem shape_zipWith_addScaled (lr : ℝ) (ps gs : List (Tensor ℝ)) (hs : ps.length = gs.length) :
    (List.zipWith (addScaled lr) ps gs).map Tensor.shape = ps.map Tensor.shape := by
  induction ps generalizing gs with
  | nil => simp
  | cons p ps ih => cases gs with
    | nil => simp at hs
    | cons g gs =>
      simp only [List.length_cons, Nat.add_right_cancel_iff] at hs
      simp [addScaled, ih gs hs]

theorem flatMap_complexWeight (rs is : List (Tensor ℝ)) (hs : rs.map Tensor.shape = is.map Tensor.shape)
    (hr : ∀ t ∈ rs, t.Valid) (hi : ∀ t ∈ is, t.Valid) :
    (List.zipWith complexWeight rs is).flatMap Tensor.data =
      List.zipWith (fun a b => (⟨a, -1 * b⟩ : ℂ)) (rs.flatMap Tensor.data) (is.flatMap Tensor.data) := by
  induction rs generalizing is with
  | nil => cases is <;> simp
  | cons p ps ih => cases is with
    | nil => simp at hs
    | cons g gs =>
      simp only [List.map_cons, List.cons.injEq] at hs
      simp only [List.zipWith_cons_cons, List.flatMap_cons, complexWeight]
      rw [List.zipWith_append (by rw [hr p (by simp), hi g (by simp), hs.1]),
        ih gs hs.2 (fun x hx => hr x (by simp [hx])) (fun x hx => hi x (by simp [hx]))]

theorem shape_complexWeight (rs is : List (Tensor ℝ)) (hs : rs.length = is.length) :
    (List.zipWith complexWeight rs is).map Tensor.shape = rs.map Tensor.shape := by
  induction rs generalizing is with
  | nil => simp
  | cons p ps ih => cases is with
    | nil => simp at hs
    | cons g gs =>
      simp only [List.length_cons, Nat.add_right_cancel_iff] at hs
      simp [complexWeight, ih gs hs]

theorem valid_zipWith_addScaled (lr : ℝ) (ps gs : List (Tensor ℝ))
    (hs : ps.map Tensor.shape = gs.map Tensor.shape) (hp : ∀ t ∈ ps, t.Valid) (hg : ∀ t ∈ gs, t.Valid) :
    ∀ t ∈ List.zipWith (addScaled lr) ps gs, t.Valid := by
  induction ps generalizing gs with
  | nil => simp
  | cons p ps ih => cases gs with
    | nil => simp
    | cons g gs =>
      simp only [List.map_cons, List.cons.injEq] at hs
      intro t ht
      rw [List.zipWith_cons_cons, List.mem_cons] at ht
      rcases ht with rfl | ht
      · have h1 := hp p (by simp)
        have h2 := hg g (by simp)
        simp only [Tensor.Valid, addScaled, List.length_zipWith] at *
        rw [h1, h2, hs.1, min_self]
      · exact ih gs hs.2 (fun x hx => hp x (by simp [hx])) (fun x hx => hg x (by simp [hx])) t ht

theorem zipWith_combine (lr : ℝ) (a b : List ℝ) (g : List ℂ) (h1 : a.length = g.length)
    (h2 : b.length = g.length) :
    List.zipWith (fun x y => (⟨x, -1 * y⟩ : ℂ))
      (List.zipWith (fun x y => x + lr * y) a ((g.map (starRingEnd ℂ)).map Complex.re))
      (List.zipWith (fun x y => x + lr * y) b ((g.map (starRingEnd ℂ)).map Complex.im)) =
    List.zipWith (fun w z => w + (lr : ℂ) * z) (List.zipWith (fun x y => (⟨x, -1 * y⟩ : ℂ)) a b) g := by
  induction g generalizing a b with
  | nil => simp
  | cons z g ih => cases a with
    | nil => simp at h1
    | cons x a => cases b with
      | nil => simp at h2
      | cons y b =>
        simp only [List.length_cons, Nat.add_right_cancel_iff] at h1 h2
        simp only [List.map_cons, List.zipWith_cons_cons, ih a b h1 h2, List.cons.injEq, and_true]
        apply Complex.ext <;> simp <;> ring

/-- **C30.** For every list of complex weights and every flat complex gradient of matching length, the
update succeeds, keeps all shapes, and moves the complex weights, seen as one flat vector, by
`lr · gradient`. -/
theorem C30_complex_update (lr : ℝ) (m : ComplexModel) (hm : m.Valid) (g : List ℂ)
    (hg : g.length = ((m.weights.map Tensor.shape).map List.prod).sum) :
    ∃ m', applyComplexGradient lr m g = some m' ∧ m'.Valid ∧
      m'.weights.map Tensor.shape = m.weights.map Tensor.shape ∧
      m'.weights.flatMap Tensor.data =
        List.zipWith (fun w z => w + (lr : ℂ) * z) (m.weights.flatMap Tensor.data) g := by
  obtain ⟨hs, hr, hi⟩ := hm
  have hlen : m.real.length = m.imag.length := by simpa using congrArg List.length hs
  have hws : m.weights.map Tensor.shape = m.real.map Tensor.shape := shape_complexWeight _ _ hlen
  rw [hws] at hg
  have hgt : g.length = total (m.real.map Tensor.shape) := hg
  obtain ⟨rg, r1, r2, r3, r4⟩ := columnToTensors_spec (m.real.map Tensor.shape)
    ((g.map (starRingEnd ℂ)).map Complex.re) (by simpa using hgt)
  obtain ⟨ig, i1, i2, i3, i4⟩ := columnToTensors_spec (m.imag.map Tensor.shape)
    ((g.map (starRingEnd ℂ)).map Complex.im) (by rw [← hs]; simpa using hgt)
  have hrl : m.real.length = rg.length := by simpa using (congrArg List.length r2).symm
  have hil : m.imag.length = ig.length := by simpa using (congrArg List.length i2).symm
  have hz : List.zipWith (addScaled lr) (m.real ++ m.imag) (rg ++ ig) =
      List.zipWith (addScaled lr) m.real rg ++ List.zipWith (addScaled lr) m.imag ig :=
    List.zipWith_append hrl
  have hzl : (List.zipWith (addScaled lr) m.real rg).length = m.real.length := by
    rw [List.length_zipWith, hrl, min_self]
  have hshape : (List.zipWith (addScaled lr) m.real rg).map Tensor.shape =
      (List.zipWith (addScaled lr) m.imag ig).map Tensor.shape := by
    rw [shape_zipWith_addScaled _ _ _ hrl, shape_zipWith_addScaled _ _ _ hil, hs]
  have hv1 := valid_zipWith_addScaled lr m.real rg r2.symm hr r3
  have hv2 := valid_zipWith_addScaled lr m.imag ig i2.symm hi i3
  refine ⟨⟨List.zipWith (addScaled lr) m.real rg, List.zipWith (addScaled lr) m.imag ig⟩, ?_,
    ⟨hshape, hv1, hv2⟩, ?_, ?_⟩
  · unfold applyComplexGradient
    dsimp only
    rw [r1, i1]
    dsimp only
    rw [hz, ← hzl, List.take_left, List.drop_left]
  · rw [hws]
    have : (ComplexModel.mk (List.zipWith (addScaled lr) m.real rg)
        (List.zipWith (addScaled lr) m.imag ig)).weights.map Tensor.shape =
        (List.zipWith (addScaled lr) m.real rg).map Tensor.shape :=
      shape_complexWeight _ _ (by simpa using congrArg List.length hshape)
    rw [this, shape_zipWith_addScaled _ _ _ hrl]
  · have : (ComplexModel.mk (List.zipWith (addScaled lr) m.real rg)
        (List.zipWith (addScaled lr) m.imag ig)).weights.flatMap Tensor.data = _ :=
      flatMap_complexWeight _ _ hshape hv1 hv2
    rw [this, flatMap_zipWith_addScaled lr _ _ r2.symm hr r3, flatMap_zipWith_addScaled lr _ _ i2.symm hi i3,
      r4, i4, zipWith_combine]
    · rw [ComplexModel.weights, flatMap_complexWeight _ _ hs hr hi]
    · rw [length_flatMap_valid _ hr, hgt]
    · rw [length_flatMap_valid _ hi, hgt, hs]

/-- A model with two complex weights and a gradient meeting the hypotheses of C30. -/
example : ∃ (m : ComplexModel) (g : List ℂ), m.Valid ∧ m.weights.length = 2 ∧
    g.length = ((m.weights.map Tensor.shape).map List.prod).sum ∧ g.length = 3 :=
  ⟨⟨[⟨[1], [1]⟩, ⟨[2, 1], [2, 3]⟩], [⟨[1], [4]⟩, ⟨[2, 1], [5, 6]⟩]⟩, [Complex.I, 1, 2],
    ⟨rfl, by simp [Tensor.Valid], by simp [Tensor.Valid]⟩, rfl, rfl, rfl⟩

end Verif.Optimizers
