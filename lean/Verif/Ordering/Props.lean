import Verif.Ordering.Lemmas

/-!
# C03, C04, C05: orderings of lattice sites
-/
namespace Verif.Ordering

/-! ## C03 raster -/

/-- C03: the raster ordering lists exactly the multi-indices of the shape, each once, in
lexicographic order. -/
theorem C03_raster_complete (shape : List Nat) :
    (raster shape).Nodup ∧ (∀ idx, idx ∈ raster shape ↔ List.Forall₂ (· < ·) idx shape) ∧
    (raster shape).Pairwise (· < ·) :=
  ⟨raster_nodup shape, mem_raster shape, raster_sorted shape⟩

/-- Specification of the row-major flat index: sum of index times product of later sizes. -/
def specFlat (shape idx : List Nat) : Nat :=
  ((List.range shape.length).map fun j => idx[j]?.getD 0 * (shape.drop (j + 1)).prod).sum

theorem rowMajor_eq_specFlat (shape : List Nat) : ∀ idx : List Nat, idx.length = shape.length →
    rowMajor shape idx = specFlat shape idx := by
  induction shape with
  | nil => intro idx h; simp at h; subst h; rfl
  | cons n ns ih =>
    intro idx h
    match idx, h with
    | i :: is, h =>
      rw [rowMajor, ih is (by simpa using h)]
      simp [specFlat, List.range_succ_eq_map, List.map_map, Function.comp_def]

/-- C03: the `k`-th element of the raster ordering is the site with row-major flat index `k`. -/
theorem C03_raster_position (shape : List Nat) (k : Nat) (h : k < shape.prod) :
    ∃ idx, (raster shape)[k]? = some idx ∧ specFlat shape idx = k ∧ flatIndex shape idx = k := by
  have hk : k < (raster shape).length := by rw [length_raster]; exact h
  refine ⟨(raster shape)[k], List.getElem?_eq_getElem hk, ?_⟩
  have h1 : flatIndex shape (raster shape)[k] = k := by
    have := congrArg (fun l => l[k]?) (raster_map_flatIndex shape)
    simpa [hk, h] using this
  refine ⟨?_, h1⟩
  have hlen := ((mem_raster shape _).mp (List.getElem_mem hk)).length_eq
  rw [← rowMajor_eq_specFlat _ _ hlen, ← flatIndex_eq _ _ hlen, h1]

example : (4 : Nat) < [2, 3].prod ∧ (raster [2, 3])[4]? = some [1, 1] := by decide

/-! ## C04 zigzag -/

/-- Cell of the `n × n` grid. -/
def IsCell (n : Nat) (c : Int × Int) : Prop := 0 ≤ c.1 ∧ c.1 < n ∧ 0 ≤ c.2 ∧ c.2 < n

/-- Touching cells: no coordinate changes by more than one. -/
def Touching (a b : Int × Int) : Prop := |b.1 - a.1| ≤ 1 ∧ |b.2 - a.2| ≤ 1

/-- C04, partial: for `n ≥ 2` zigzag starts at the corner, lists every cell of the grid exactly once
and nothing else, moves to a touching cell in each step and never goes back to an earlier
anti-diagonal. Missing: `n ≤ 1`, where the claim is false (`C04_zigzag_small`). -/
theorem C04_zigzag_partial (n : Nat) (hn : 2 ≤ n) :
    ∃ path, zigzag [n, n] = some path ∧ path.head? = some (0, 0) ∧ path.length = n * n ∧
      path.Nodup ∧ (∀ c, c ∈ path ↔ IsCell n c) ∧ List.IsChain Touching path ∧
      path.Pairwise (fun a b => a.1 + a.2 ≤ b.1 + b.2) := by
  have hnn : 4 ≤ n * n := Nat.mul_le_mul hn hn
  have hz : ZInv n .right (0, 1) := by
    refine ⟨⟨?_, ?_, ?_, ?_⟩, Or.inl ⟨rfl, by decide⟩⟩ <;> simp <;> omega
  have hv : Visited n [(0, 0), (0, 1)] (0, 1) := by
    constructor
    · simp
    · rintro ⟨a, b⟩
      simp only [List.mem_cons, Prod.mk.injEq, List.not_mem_nil, or_false, zlt, InGrid]
      omega
  obtain ⟨h1, h2, h3, h4⟩ := zigzagLoop_spec n hn (n * n - 2) .right (0, 1) [(0, 0), (0, 1)] hz hv
    (by simp; omega)
  have hlen : ∀ k m c, (zigzagLoop n k m c).length = k := by
    intro k
    induction k with
    | zero => intro m c; rfl
    | succ k ih => intro m c; simp [zigzagLoop, ih]
  set tail := zigzagLoop n (n * n - 2) .right (0, 1) with htail
  have hcells : ∀ c ∈ ((0, 0) : Int × Int) :: (0, 1) :: tail, InGrid n c := by
    intro c hc
    rw [List.mem_cons, List.mem_cons] at hc
    rcases hc with h | h | h
    · subst h; simp [InGrid]; omega
    · exact h ▸ hz.1
    · exact h2 c h
  have hnd : (((0, 0) : Int × Int) :: (0, 1) :: tail).Nodup := by simpa using h1
  have hl : (((0, 0) : Int × Int) :: (0, 1) :: tail).length = n * n := by
    simp [htail, hlen]; omega
  refine ⟨(0, 0) :: (0, 1) :: tail, by simp [zigzag, htail], rfl, hl, hnd, ?_, ?_, ?_⟩
  · intro c
    refine ⟨fun h => hcells c h, ?_⟩
    intro hc
    have hsub : (((0, 0) : Int × Int) :: (0, 1) :: tail).toFinset ⊆ gridFinset n := by
      intro a ha
      rw [mem_gridFinset]
      exact hcells a (by simpa using ha)
    have heq := Finset.eq_of_subset_of_card_le hsub
      (by rw [card_gridFinset, List.toFinset_card_of_nodup hnd, hl])
    have : c ∈ gridFinset n := (mem_gridFinset n c).mpr hc
    rw [← heq] at this
    simpa using this
  · rw [List.isChain_cons_cons]
    exact ⟨⟨by decide, by decide⟩, h3⟩
  · rw [List.pairwise_cons]
    refine ⟨?_, h4.imp (fun h => ?_)⟩
    · intro c hc
      have := hcells c (List.mem_cons_of_mem _ hc)
      unfold InGrid at this
      simp only
      omega
    · unfold zlt at h; omega

example : zigzag [3, 3] =
    some [(0,0), (0,1), (1,0), (2,0), (1,1), (0,2), (1,2), (2,1), (2,2)] := by decide

/-- C04: input that is not two equal sizes is rejected. -/
theorem C04_rejects (shape : List Nat) : zigzag shape = none ↔ ¬ ∃ n, shape = [n, n] := by
  constructor
  · rintro h ⟨n, rfl⟩
    simp [zigzag] at h
  · intro h
    match shape with
    | [] => rfl
    | [_] => rfl
    | [a, b] =>
      have : a ≠ b := fun hab => h ⟨a, by rw [hab]⟩
      simp [zigzag, this]
    | _ :: _ :: _ :: _ => rfl

/-- C04 is violated for grids with fewer than two rows: the returned path leaves the grid. -/
theorem C04_zigzag_small (n : Nat) (hn : n ≤ 1) :
    ∃ path c, zigzag [n, n] = some path ∧ c ∈ path ∧ ¬ IsCell n c := by
  refine ⟨(0, 0) :: (0, 1) :: zigzagLoop n (n * n - 2) .right (0, 1), (0, 1), by simp [zigzag],
    by simp, ?_⟩
  simp [IsCell]; omega

/-! ## C05 flat ordering and its inverse -/

/-- C05: for any ordering of the sites of a shape, gathering along the flat ordering and then along
its inverse gives back the array, in both orders, and no index is out of range. -/
theorem C05_gather_inverse {α : Type} (shape : List Nat) (ordering : List (List Nat))
    (hperm : ordering.Nodup ∧ ∀ idx, idx ∈ ordering ↔ List.Forall₂ (· < ·) idx shape)
    (x : List α) (hx : x.length = shape.prod) :
    ∃ inv, toFlatInverseOrdering ordering shape = some inv ∧
      (gather x (toFlatOrdering ordering shape)).bind (fun y => gather y inv) = some x ∧
      (gather x inv).bind (fun y => gather y (toFlatOrdering ordering shape)) = some x := by
  have hp : ordering.Perm (raster shape) :=
    (List.perm_ext_iff_of_nodup hperm.1 (raster_nodup shape)).mpr
      (fun a => (hperm.2 a).trans (mem_raster shape a).symm)
  have hfp : (toFlatOrdering ordering shape).Perm (List.range shape.prod) := by
    rw [← raster_map_flatIndex]
    exact hp.map _
  have hol : ordering.length = shape.prod := by rw [hp.length_eq, length_raster]
  generalize hf : toFlatOrdering ordering shape = f at hfp
  have hfl : f.length = shape.prod := by rw [hfp.length_eq, List.length_range]
  have hfn : f.Nodup := hfp.nodup_iff.mpr List.nodup_range
  have hfb : ∀ p ∈ f, p < shape.prod := fun p hp => List.mem_range.mp (hfp.mem_iff.mp hp)
  obtain ⟨inv, hi1, hi2, hi3, -⟩ := inverseLoop_spec f 0 (List.replicate ordering.length 0) hfn
    (by simpa [hol] using hfb)
  rw [List.length_replicate, hol] at hi2
  have hmem : ∀ q, q < shape.prod → ∃ k, ∃ hk : k < f.length, f[k] = q := fun q hq =>
    List.mem_iff_getElem.mp (mem_of_nodup_bounded f _ hfn hfl hfb q hq)
  -- `inv[q] = k` where `f[k] = q`
  have hinv : ∀ k (hk : k < f.length), inv[f[k]]? = some k := by
    intro k hk; simpa using hi3 k hk
  have hib : ∀ p ∈ inv, p < shape.prod := by
    intro p hp
    obtain ⟨q, hq, rfl⟩ := List.mem_iff_getElem.mp hp
    obtain ⟨k, hk, rfl⟩ := hmem q (by omega)
    have := hinv k hk
    rw [List.getElem?_eq_getElem hq] at this
    rw [Option.some.inj this]; omega
  refine ⟨inv, by rw [toFlatInverseOrdering, hf, hi1], ?_, ?_⟩
  · obtain ⟨y, hy1, hy2, hy3⟩ := gather_eq_some x f (by rw [hx]; exact hfb)
    obtain ⟨z, hz1, hz2, hz3⟩ := gather_eq_some y inv (by rw [hy2, hfl]; exact hib)
    rw [hy1, Option.bind_some, hz1]
    congr 1
    apply List.ext_getElem?
    intro q
    by_cases hq : q < shape.prod
    · rw [hz3 q (by omega)]
      obtain ⟨k, hk, rfl⟩ := hmem q hq
      have h1 : inv[f[k]] = k := by
        have := hinv k hk
        rw [List.getElem?_eq_getElem (by omega)] at this
        exact Option.some.inj this
      rw [h1, hy3 k hk]
    · rw [List.getElem?_eq_none (by omega), List.getElem?_eq_none (by omega)]
  · obtain ⟨y, hy1, hy2, hy3⟩ := gather_eq_some x inv (by rw [hx]; exact hib)
    obtain ⟨z, hz1, hz2, hz3⟩ := gather_eq_some y f (by rw [hy2, hi2]; exact hfb)
    rw [hy1, Option.bind_some, hz1]
    congr 1
    apply List.ext_getElem?
    intro k
    by_cases hk : k < shape.prod
    · have hkf : k < f.length := by omega
      have hb := hfb _ (List.getElem_mem hkf)
      rw [hz3 k hkf, hy3 _ (by omega)]
      have h1 : inv[f[k]] = k := by
        have := hinv k hkf
        rw [List.getElem?_eq_getElem (by omega)] at this
        exact Option.some.inj this
      rw [h1]
    · rw [List.getElem?_eq_none (by omega), List.getElem?_eq_none (by omega)]

/-- The hypothesis of `C05_gather_inverse` is met by the raster ordering of every shape and by a
non-trivial ordering. -/
example (shape : List Nat) : (raster shape).Nodup ∧
    ∀ idx, idx ∈ raster shape ↔ List.Forall₂ (· < ·) idx shape :=
  ⟨raster_nodup shape, mem_raster shape⟩

example : toFlatInverseOrdering [[0, 0], [1, 1], [0, 1], [1, 0]] [2, 2] = some [0, 2, 3, 1] := by
  decide

end Verif.Ordering
