import Verif.Net.TopologyProps
import Mathlib.Data.List.GetD

/-!
# C41, C42: configurations where the per-location view is wrong
-/
namespace Verif.Net

/-! ## Satisfiability of the hypotheses of C41 -/

/-- A dilated, strided convolution on a 3 x 4 input with two channels. -/
def exConv : Conv Nat :=
  { filters := 2, kernelSize := [2, 2], dilation := [2, 1], strides := [1, 2], useBias := true,
    kernel := fun w c o => w.sum + 10 * c + o, bias := fun o => o, activation := fun v => v.map (· + 1) }

/-- A 3 x 4 tensor with two channels. -/
def exTensor : Tensor Nat := ⟨[3, 4], 2, fun l => [l.sum, 1]⟩

example : exTensor.WF ∧
    ((Layer.conv exConv).apply [exTensor]).map Tensor.sig = some ([1, 2], 2) ∧
    (Layer.conv exConv).Supported 0 [exTensor.sig] := ⟨fun _ _ => rfl, by decide, trivial⟩

example : (Layer.conv exConv).deps [exTensor.sig] [0, 1] = some [(0, [0, 2]), (0, [0, 3]), (0, [2, 2]), (0, [2, 3])] := by
  decide

example : (Layer.gather (K := Nat) [1, 4, 2] 2).Supported 0 [([6, 7], 5)] := by
  simp [Layer.Supported]

example : (Layer.reshape (K := Nat) [-1, 6, 5]).Supported 0 [([3, 4], 5)] := by
  simp [Layer.Supported]

variable {K : Type} [CommSemiring K]

/-! ## C41 -/

/-- C41 fails for `PeriodicPadding` longer than the axis: the layer clips the slice, the dependency wraps
around. -/
theorem C41_violated_periodic :
    ∃ (x : Tensor Nat) (pads : List (Nat × Nat)) (l : Loc) (y : Tensor Nat) (ds : List Dep),
      x.WF ∧ (Layer.periodicPad pads).apply [x] = some y ∧ InShape l y.shape ∧
      (Layer.periodicPad (K := Nat) pads).deps [x.sig] l = some ds ∧ (∀ d ∈ ds, DepOk [x] d) ∧
      (Layer.periodicPad (K := Nat) pads).applySingle 0 [x.sig] y.chan l (ds.map (lookup [x])) ≠ some (y.val l) := by
  refine ⟨⟨[2], 1, fun l => [l.sum]⟩, [(3, 0)], [0], _, [(0, [1])], ?_, rfl, ?_, ?_, ?_, ?_⟩
  · intro l _; rfl
  · exact .cons (by decide) .nil
  · rfl
  · intro d hd
    simp only [List.mem_singleton] at hd
    subst hd
    exact ⟨_, rfl, .cons (by decide) .nil⟩
  · decide

/-- C41 fails for the one-hot layers: the dependency query raises at every location, because the shape of
the network input has no channel axis to drop. -/
theorem C41_violated_oneHot (out : Nat) (f : List K → List K) (s : Shape) (c : Nat) (l : Loc)
    (hl : InShape l s) (hs : s ≠ []) : (Layer.oneHot out f).deps [(s, c)] l = none := by
  have key : ∀ (s : Shape) (l : Loc), InShape l s → s ≠ [] → broadcastLoc l s.dropLast = none := by
    intro s
    induction s with
    | nil => intro l _ h; exact absurd rfl h
    | cons n ns ih =>
      intro l h _
      cases h with
      | cons h1 h2 =>
        cases ns with
        | nil => rfl
        | cons m ms =>
          rw [List.dropLast_cons_cons, broadcastLoc, ih _ h2 (by simp)]
          rfl
  simp [Layer.deps, oneToOneDeps, key s l hl hs]

/-- C41 fails in the sampler for `GatherLayer` along the channel axis: values without spatial axes do not
have that axis, so the call raises. -/
theorem C41_violated_gather_channels (indices : List Nat) (s : Shape) (c chan : Nat) (l : Loc) (vs : List (List K))
    (hs : s ≠ []) :
    (Layer.gather indices (s.length + 1)).applySingle 0 [(s, c)] chan l vs = none := by
  cases vs with
  | nil => rfl
  | cons v vs =>
    have hpos : 0 < s.length := List.length_pos_iff.2 hs
    simp only [Layer.applySingle, if_neg (show ¬ ((s.length : Int) + 1 < 0) by omega)]
    rw [if_pos (by omega)]
    have : resolveAxis (0 + 2) ((s.length : Int) + 1) = none := by
      unfold resolveAxis
      simp only [if_neg (show ¬ ((s.length : Int) + 1 < 0) by omega)]
      rw [if_neg]
      simp; omega
    rw [this]

/-- C41 fails in the sampler for `Concatenate` along the channel axis given by its positive number. -/
theorem C41_violated_concat_channels (s : Shape) (c chan : Nat) (rest : List Sig) (l : Loc) (vs : List (List K))
    (hs : s ≠ []) :
    (Layer.concat (K := K) (s.length + 1)).applySingle 0 ((s, c) :: rest) chan l vs = none := by
  have hpos : 0 < s.length := List.length_pos_iff.2 hs
  simp only [Layer.applySingle]
  rw [if_pos (by omega)]
  have : resolveAxis (0 + 2) ((s.length : Int) + 1) = none := by
    unfold resolveAxis
    simp only [if_neg (show ¬ ((s.length : Int) + 1 < 0) by omega)]
    rw [if_neg]
    simp; omega
  rw [this]

/-! ## C42 -/

/-- C42 fails for `GatherLayer`: with any negative axis the query raises at every location, although
`tensorflow.gather` accepts the axis. -/
theorem C42_violated_gather (indices : List Nat) (axis : Int) (s : Shape) (c : Nat) (l : Loc)
    (hl : InShape l s) (ha : axis < 0) : (Layer.gather (K := K) indices axis).deps [(s, c)] l = none := by
  have := hl.length_eq
  simp only [Layer.deps, if_pos ha]
  rw [if_neg (by omega)]
  have : pyIndex l.length ((s.length : Int) + 2 - axis - 1) = none := by
    unfold pyIndex
    rw [if_pos (by omega), if_neg (by omega)]
  rw [this]
  rfl

example : ∃ (x : Tensor Nat), x.WF ∧
    ((Layer.gather (K := Nat) [0, 0] (-2)).apply [x]).map Tensor.sig = some ([2], 1) ∧ InShape [1] x.shape := by
  refine ⟨⟨[2], 1, fun _ => [7]⟩, fun _ _ => rfl, by decide, .cons (by decide) .nil⟩

/-- C42 fails for `Concatenate` with a negative spatial axis: two axes too far to the left are read, which
raises or looks at the wrong coordinate. -/
theorem C42_violated_concat (axis : Int) (s : Shape) (c : Nat) (rest : List Sig) (l : Loc)
    (hl : l.length = s.length) (h1 : -(s.length : Int) - 1 ≤ axis) (h2 : axis < -1) :
    (axis + s.length < 1 → (Layer.concat (K := K) axis).deps ((s, c) :: rest) l = none) ∧
    (1 ≤ axis + s.length → (Layer.concat (K := K) axis).deps ((s, c) :: rest) l =
      concatDeps (axis + s.length - 1).toNat l 0
        (((s, c) :: rest).map fun q => q.1.getD (axis + s.length + 1).toNat q.2)
        (l.getD (axis + s.length - 1).toNat 0)) := by
  have hn : ¬ (axis = -1 ∨ axis = 0 ∨ axis = (s.length : Int) + 2 - 1) := by omega
  have ha : pyIndex (s.length + 2) axis = some (axis + s.length + 2).toNat := by
    unfold pyIndex
    rw [if_neg (by omega), if_pos (by omega)]
    congr 1
    omega
  constructor
  · intro h
    have hk : pyIndex l.length (axis - 1) = none := by
      unfold pyIndex
      rw [if_neg (by omega), if_neg (by omega)]
    simp only [Layer.deps]
    rw [if_neg hn, ha]
    simp only [Option.bind_some]
    rw [hk]
    rfl
  · intro h
    have hk : pyIndex l.length (axis - 1) = some (axis + s.length - 1).toNat := by
      unfold pyIndex
      rw [if_neg (by omega), if_pos (by omega)]
      congr 1
      omega
    simp only [Layer.deps]
    rw [if_neg hn, ha]
    simp only [Option.bind_some]
    rw [hk]
    simp only [Option.bind_some]
    have e : (axis + s.length + 2).toNat - 1 = (axis + s.length + 1).toNat := by omega
    rw [e]

/-- C42 fails for `Concatenate`: a wrong dependency is reported (three spatial axes, `axis=-2`). -/
theorem C42_violated_concat_value :
    ∃ (x y z : Tensor Nat) (l : Loc) (ds : List Dep), x.WF ∧ y.WF ∧
      (Layer.concat (-2)).apply [x, y] = some z ∧ InShape l z.shape ∧
      (Layer.concat (K := Nat) (-2)).deps [x.sig, y.sig] l = some ds ∧
      (Layer.concat (K := Nat) (-2)).applySingle 0 [x.sig, y.sig] z.chan l (ds.map (lookup [x, y])) ≠
        some (z.val l) := by
  refine ⟨⟨[2, 1, 1], 1, fun _ => [5]⟩, ⟨[2, 1, 1], 1, fun _ => [6]⟩, _, [1, 0, 0], [(1, [0, 0, 0])],
    fun _ _ => rfl, fun _ _ => rfl, rfl, ?_, by decide, by decide⟩
  exact .cons (by decide) (.cons (by decide) (.cons (by decide) .nil))

/-- C42 fails for `Reshape`: the queries of the dependency graph and of the sampler always raise. -/
theorem C42_violated_reshape (target : List Int) (sigs : List Sig) (l : Loc) :
    (Layer.reshape (K := K) target).depsKw sigs l = none := rfl

/-- C42 fails for `Reshape` with a `-1` that is not the first entry, even when queried without the
keyword: a location outside the input is reported, or the wrong one. -/
theorem C42_violated_reshape_unknown :
    ∃ (x y : Tensor Nat) (target : List Int) (l : Loc) (ds : List Dep), x.WF ∧
      (Layer.reshape target).apply [x] = some y ∧ InShape l y.shape ∧
      (Layer.reshape (K := Nat) target).deps [x.sig] l = some ds ∧
      (Layer.reshape (K := Nat) target).applySingle 0 [x.sig] y.chan l (ds.map (lookup [x])) ≠ some (y.val l) := by
  refine ⟨⟨[6], 1, fun l => [l.sum]⟩, _, [2, -1, 1], [1, 0], [(0, [5])], fun _ _ => rfl, rfl, ?_, by decide, by decide⟩
  exact .cons (by decide) (.cons (by decide) .nil)

/-- C42, partial: `GatherLayer` with a spatial axis counted from the front depends on the cell whose
coordinate on that axis is the gathered index. -/
theorem C42_gather_partial (indices : List Nat) (j : Nat) (s : Shape) (c : Nat) (l : Loc)
    (hj : j < s.length) (hl : InShape l (s.set j indices.length)) :
    ∃ i, indices[l.getD j 0]? = some i ∧
      (Layer.gather (K := K) indices (j + 1)).depsKw [(s, c)] l = some [(0, l.set j i)] := by
  have hlen : l.length = s.length := by simpa using hl.length_eq
  have hk : l.getD j 0 < indices.length := by
    have := hl.getD (a := j) (by simpa using hj)
    simpa [List.getD_eq_getElem?_getD, hj] using this
  refine ⟨indices[l.getD j 0], List.getElem?_eq_getElem hk, ?_⟩
  simp only [Layer.depsKw, Layer.deps, if_neg (show ¬ ((j : Int) + 1 < 0) by omega)]
  rw [if_neg (by omega)]
  have : pyIndex l.length ((j : Int) + 1 - 1) = some j := by
    unfold pyIndex
    rw [if_pos (by omega), if_pos (by omega)]
    congr 1
    omega
  rw [this]
  simp only [Option.bind_some, List.getElem?_eq_getElem hk]

example : (2 : Nat) < [6, 7, 3].length ∧ InShape [5, 6, 1] (([6, 7, 3] : Shape).set 2 [1, 0].length) :=
  ⟨by decide, .cons (by decide) (.cons (by decide) (.cons (by decide) .nil))⟩

/-- C42, partial: `Reshape` queried without the keyword depends on the cell with the same row-major
position, if no entry of the target shape is `-1`. -/
theorem C42_reshape_partial (s t : Shape) (c : Nat) (l : Loc) (hl : InShape l t) (hp : t.prod = s.prod) :
    ∃ src, (Layer.reshape (K := K) ((t ++ [c]).map fun d : Nat => (d : Int))).deps [(s, c)] l = some [(0, src)] ∧
      InShape src s ∧ Verif.Ordering.flatIndex s src = Verif.Ordering.flatIndex t l := by
  have hlt : flatten t l < s.prod := by rw [← hp]; exact flatten_lt hl
  have hin := unflatten_inShape s _ hlt
  refine ⟨unflatten s (flatten t l), ?_, hin, ?_⟩
  · have h1 : ¬ (-1 : Int) ∈ (t ++ [c]).map fun d : Nat => (d : Int) := by
      intro h
      obtain ⟨d, -, hd⟩ := List.mem_map.1 h
      omega
    have h2 : ((t ++ [c]).map fun d : Nat => (d : Int)) ≠ [] := by simp
    have h3 : ((t ++ [c]).map fun d : Nat => (d : Int)).getLastD 0 = (c : Int) := by
      rw [List.map_append, List.map_singleton, getLastD_append_singleton]
    simp only [Layer.deps, reshapeTarget, if_neg h1, Option.bind_some, if_neg h2, if_pos h3]
    rw [List.map_append, List.map_singleton, List.dropLast_concat, toFlat_eq t l hl.length_eq, fromFlat_eq _ _ hlt]
  · rw [Verif.Ordering.flatIndex_eq _ _ hin.length_eq, Verif.Ordering.flatIndex_eq _ _ hl.length_eq,
      ← flatten_eq_rowMajor, ← flatten_eq_rowMajor, flatten_unflatten _ _ hlt]

theorem concatDeps_located (k : Nat) (l : Loc) (sizes : List Nat) (i p : Nat) (hp : p < sizes.sum) :
    ∃ (n q : Nat) (hn : n < sizes.length), q < sizes[n] ∧ (sizes.take n).sum + q = p ∧
      concatDeps k l i sizes p = some [(i + n, l.set k q)] := by
  induction sizes generalizing i p with
  | nil => simp at hp
  | cons a as ih =>
    rw [List.sum_cons] at hp
    by_cases h : p < a
    · exact ⟨0, p, by simp, by simpa using h, by simp, by simp [concatDeps, h]⟩
    · obtain ⟨n, q, hn, h1, h2, h3⟩ := ih (i + 1) (p - a) (by omega)
      refine ⟨n + 1, q, by simpa using hn, by simpa using h1, ?_, ?_⟩
      · rw [List.take_succ_cons, List.sum_cons]; omega
      · simp only [concatDeps, if_neg h, h3]
        rw [show i + 1 + n = i + (n + 1) by omega]

/-- C42, partial: `Concatenate` along a spatial axis counted from the front depends on exactly one cell: if
the coordinate on that axis falls into input `n`, it is the cell of input `n` with the sizes of
the earlier inputs subtracted from the coordinate, and all other coordinates kept. Missing: axes
counted from the end (`C42_violated_concat`). -/
theorem C42_concat_partial (j : Nat) (sigs : List Sig) (l : Loc) (s : Shape) (c : Nat)
    (hs : sigs.head? = some (s, c)) (hlen : ∀ q ∈ sigs, q.1.length = s.length) (hj : j < s.length)
    (hl : l.length = s.length) (hp : l.getD j 0 < (sigs.map fun q => q.1.getD j 0).sum) :
    ∃ (n q : Nat) (hn : n < sigs.length), q < (sigs[n]).1.getD j 0 ∧
      ((sigs.take n).map fun q => q.1.getD j 0).sum + q = l.getD j 0 ∧
      (Layer.concat (K := K) (j + 1)).depsKw sigs l = some [(n, l.set j q)] := by
  cases sigs with
  | nil => simp at hs
  | cons a rest =>
    simp only [List.head?_cons, Option.some.injEq] at hs
    subst hs
    have hsz : (((s, c) :: rest).map fun q => q.1.getD j q.2) = ((s, c) :: rest).map fun q => q.1.getD j 0 := by
      apply List.map_congr_left
      intro q hq
      have := hlen q hq
      rw [List.getD_eq_getElem _ _ (by omega), List.getD_eq_getElem _ _ (by omega)]
    obtain ⟨n, q, hn, h1, h2, h3⟩ := concatDeps_located j l
      (((s, c) :: rest).map fun q => q.1.getD j 0) 0 (l.getD j 0) hp
    refine ⟨n, q, by simpa using hn, by rw [List.getElem_map] at h1; exact h1, by rw [List.map_take]; exact h2, ?_⟩
    have e1 : pyIndex (s.length + 2) ((j : Int) + 1) = some (j + 1) := by
      unfold pyIndex
      rw [if_pos (by omega), if_pos (by omega)]
      congr 1
    have e2 : pyIndex l.length ((j : Int) + 1 - 1) = some j := by
      unfold pyIndex
      rw [if_pos (by omega), if_pos (by omega)]
      congr 1
      omega
    simp only [Layer.depsKw, Layer.deps]
    rw [if_neg (by omega), e1, Option.bind_some, e2, Option.bind_some, Nat.add_sub_cancel, hsz, h3,
      Nat.zero_add]

/-- Meeting the hypotheses: three inputs joined along the second axis. -/
example : ([([2, 3], 1), ([2, 4], 1), ([2, 1], 1)] : List Sig).head? = some ([2, 3], 1) ∧
    ([1, 6] : Loc).getD 1 0 < (([([2, 3], 1), ([2, 4], 1), ([2, 1], 1)] : List Sig).map fun q => q.1.getD 1 0).sum ∧
    (Layer.concat (K := Nat) 2).depsKw [([2, 3], 1), ([2, 4], 1), ([2, 1], 1)] [1, 6] = some [(1, [1, 3])] := by
  decide

end Verif.Net
