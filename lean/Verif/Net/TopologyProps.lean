import Verif.Net.TopologyLemmas

/-!
# C41, C42: the per-location view of layers
-/
namespace Verif.Net

variable {K : Type} [CommSemiring K]

/-- Configurations for which the per-location view is right. `extra` as in `Layer.applySingle`. -/
def Layer.Supported (extra : Nat) : Layer K → List Sig → Prop
  | .input, _ => False
  | .oneHot _ _, _ => False
  -- paddings not longer than the axis
  | .periodicPad pads, [(s, _)] => ∀ a < s.length, (pads.getD a (0, 0)).1 ≤ s.getD a 0 ∧
      (pads.getD a (0, 0)).2 ≤ s.getD a 0
  -- a spatial axis counted from the front; the channel axis only if the values keep all axes
  | .gather _ axis, [(s, _)] => (1 ≤ axis ∧ axis ≤ s.length) ∨ (axis = s.length + 1 ∧ extra = s.length)
  -- channels stay, and a `-1` may only be the first entry
  | .reshape target, [(_, c)] => c ≠ 0 ∧
    (((∀ d ∈ target, 0 ≤ d) ∧ target.getLastD 0 = c) ∨
    ∃ rest, target = -1 :: rest ∧ rest ≠ [] ∧ (∀ d ∈ rest, 0 ≤ d) ∧ rest.getLastD 0 = c)
  -- a spatial axis counted from the front, or the channel axis given as `-1`
  | .concat axis, (s, _) :: _ => axis = -1 ∨ (1 ≤ axis ∧ axis ≤ s.length) ∨
      (axis = s.length + 1 ∧ extra = s.length)
  | _, _ => True

theorem lookup_cons_zero (t : Tensor K) (ts : List (Tensor K)) (l : Loc) : lookup (t :: ts) (0, l) = t.val l := rfl

theorem resolveAxis_of_pos {rank : Nat} {axis : Int} (h0 : 0 ≤ axis) (h : axis < rank) :
    resolveAxis rank axis = some axis.toNat := by
  simp only [resolveAxis, if_neg (not_lt.2 h0), if_pos (And.intro h0 h)]

theorem resolveAxis_neg_one {rank : Nat} (h : 1 ≤ rank) : resolveAxis rank (-1) = some (rank - 1) := by
  simp only [resolveAxis]
  rw [if_pos (by omega), if_pos (by omega)]
  congr 1
  omega

theorem depOk_head (t : Tensor K) (ts : List (Tensor K)) {l : Loc} (h : InShape l t.shape) :
    DepOk (t :: ts) (0, l) := ⟨t, rfl, h⟩

section cases
variable (extra : Nat)

/-- What C41 says about one layer, one list of inputs and one location. -/
def Single (L : Layer K) (ts : List (Tensor K)) (chan : Nat) (l : Loc) : Prop :=
  ∃ ds, L.deps (ts.map Tensor.sig) l = some ds ∧ (∀ d ∈ ds, DepOk ts d) ∧
    L.applySingle extra (ts.map Tensor.sig) chan l (ds.map (lookup ts)) = some (L.call ts l)

theorem single_oneToOne (L : Layer K) (x : Tensor K) (chan : Nat) (l : Loc) (hl : InShape l x.shape)
    (hd : L.deps [x.sig] l = oneToOneDeps 0 [x.shape] l)
    (ha : L.applySingle extra [x.sig] chan l [x.val l] = some (L.call [x] l)) :
    Single extra L [x] chan l := by
  obtain ⟨ds, h1, h2, h3⟩ := oneToOneDeps_spec [x] [] l x.shape (by simpa using fits_refl _) hl
  simp only [List.map_cons, List.map_nil, List.length_nil, List.nil_append, bloc_self hl] at h1 h2 h3
  refine ⟨ds, ?_, h2, ?_⟩
  · simp only [List.map_cons, List.map_nil]; rw [hd, h1]
  · rw [h3]; simpa using ha

theorem single_merge (f : List (List K) → List K) (ts : List (Tensor K)) (q : Sig)
    (hq : (Layer.merge f).outSig (ts.map Tensor.sig) = some q) (l : Loc) (hl : InShape l q.1) :
    Single extra (.merge f) ts q.2 l := by
  match ts, hq with
  | [], hq => simp [Layer.outSig] at hq
  | [_], hq => simp [Layer.outSig] at hq
  | t :: u :: rest, hq =>
    simp only [List.map_cons, Layer.outSig] at hq
    have hf := broadcastAll_spec hq
    obtain ⟨ds, h1, h2, h3⟩ := oneToOneDeps_spec (t :: u :: rest) [] l q.1
      (fun v hv => hf v.sig (by
        have := List.mem_map_of_mem (f := Tensor.sig) hv
        simpa using this)) hl
    simp only [List.nil_append, List.length_nil] at h1 h2 h3
    refine ⟨ds, ?_, h2, ?_⟩
    · simp only [Layer.deps, List.map_map]
      exact h1
    · rw [h3]
      rfl

theorem single_gather (indices : List Nat) (axis : Int) (x : Tensor K) (q : Sig)
    (hq : (Layer.gather (K := K) indices axis).outSig [x.sig] = some q)
    (hs : (Layer.gather (K := K) indices axis).Supported extra [x.sig]) (l : Loc) (hl : InShape l q.1) :
    Single extra (.gather indices axis) [x] q.2 l := by
  simp only [Layer.Supported, Tensor.sig] at hs
  simp only [Layer.outSig, Tensor.sig, Option.bind_eq_some_iff] at hq
  obtain ⟨a, ha, hq⟩ := hq
  have hneg : ¬ axis < 0 := by omega
  rcases hs with ⟨h1, h2⟩ | ⟨h1, h2⟩
  · -- spatial axis
    have hra := resolveAxis_of_pos (rank := x.shape.length + 2) (axis := axis) (by omega) (by omega)
    rw [hra] at ha
    obtain rfl : axis.toNat = a := by simpa using ha
    rw [if_neg (by omega), if_neg (by omega)] at hq
    split at hq
    · rename_i hb
      simp only [Option.some.injEq] at hq
      subst hq
      have hlen : l.length = x.shape.length := by simpa using hl.length_eq
      have hj : axis.toNat - 1 < x.shape.length := by omega
      have hk : l.getD (axis.toNat - 1) 0 < indices.length := by
        have := hl.getD (a := axis.toNat - 1) (by simpa using hj)
        simpa [List.getD_eq_getElem?_getD, hj] using this
      have hpy : pyIndex l.length (axis - 1) = some (axis.toNat - 1) := by
        unfold pyIndex
        rw [if_pos (by omega), if_pos (by omega)]
        congr 1
        omega
      refine ⟨[(0, l.set (axis.toNat - 1) indices[l.getD (axis.toNat - 1) 0])], ?_, ?_, ?_⟩
      · simp only [List.map_cons, List.map_nil, Layer.deps, Tensor.sig, if_neg hneg]
        rw [if_neg (by omega), hpy]
        simp only [Option.bind_some, List.getElem?_eq_getElem hk]
      · intro d hd
        simp only [List.mem_singleton] at hd
        subst hd
        refine depOk_head x [] ?_
        have := inShape_set hl (j := axis.toNat - 1)
          (hb indices[l.getD (axis.toNat - 1) 0] (List.getElem_mem hk))
        simpa [List.set_set, List.getD_eq_getElem?_getD, hj] using this
      · simp only [List.map_cons, List.map_nil, Layer.applySingle, Tensor.sig, lookup_cons_zero, Layer.call, if_neg hneg]
        rw [if_neg (by omega), hra]
        simp only
        rw [if_neg (by omega), List.getD_eq_getElem _ _ hk]
    · simp at hq
  · -- channel axis
    have hra := resolveAxis_of_pos (rank := x.shape.length + 2) (axis := axis) (by omega) (by omega)
    rw [hra] at ha
    obtain rfl : axis.toNat = a := by simpa using ha
    rw [if_neg (by omega), if_pos (by omega)] at hq
    split at hq
    · simp only [Option.some.injEq] at hq
      subst hq
      refine ⟨[(0, l)], ?_, ?_, ?_⟩
      · simp only [List.map_cons, List.map_nil, Layer.deps, Tensor.sig, if_neg hneg]
        rw [if_pos (by omega)]
      · intro d hd
        simp only [List.mem_singleton] at hd
        subst hd
        exact depOk_head x [] hl
      · simp only [List.map_cons, List.map_nil, Layer.applySingle, Tensor.sig, lookup_cons_zero, Layer.call, if_neg hneg]
        rw [if_pos (by omega), h2, hra]
        simp only
        rw [if_pos (by omega), if_pos (by omega)]
    · simp at hq

theorem single_concat (axis : Int) (ts : List (Tensor K)) (q : Sig)
    (hq : (Layer.concat (K := K) axis).outSig (ts.map Tensor.sig) = some q)
    (hs : (Layer.concat (K := K) axis).Supported extra (ts.map Tensor.sig)) (l : Loc) (hl : InShape l q.1) :
    Single extra (.concat axis) ts q.2 l := by
  match ts, hq, hs with
  | [], hq, _ => simp [Layer.outSig] at hq
  | [_], hq, _ => simp [Layer.outSig] at hq
  | x :: y :: rest, hq, hs =>
    simp only [List.map_cons, Layer.Supported, Tensor.sig] at hs
    simp only [List.map_cons, Layer.outSig, Tensor.sig, Option.bind_eq_some_iff] at hq
    obtain ⟨a, ha, hq⟩ := hq
    have feature : ∀ (_ : axis = -1 ∨ (axis = x.shape.length + 1 ∧ extra = x.shape.length)),
        Single extra (.concat axis) (x :: y :: rest) q.2 l := by
      intro h
      have ha' : resolveAxis (x.shape.length + 2) axis = some (x.shape.length + 1) := by
        rcases h with rfl | ⟨h, -⟩
        · rw [resolveAxis_neg_one (by omega)]; rfl
        · rw [resolveAxis_of_pos (by omega) (by omega)]; congr 1; omega
      have hb : resolveAxis (extra + 2) axis = some (extra + 1) := by
        rcases h with rfl | ⟨h, h'⟩
        · rw [resolveAxis_neg_one (by omega)]; rfl
        · rw [h']; exact ha'
      rw [ha'] at ha
      obtain rfl : x.shape.length + 1 = a := by simpa using ha
      rw [if_neg (by omega), if_pos rfl] at hq
      split at hq
      · rename_i hsh
        simp only [Option.some.injEq] at hq
        subst hq
        have hc : axis = -1 ∨ axis = 0 ∨ axis = ((x.shape.length : Int) + 2) - 1 := by omega
        refine ⟨(List.range (x :: y :: rest).length).map fun i => (i, l), ?_, ?_, ?_⟩
        · simp only [List.map_cons, Layer.deps, Tensor.sig]
          rw [if_pos hc]
          simp
        · intro d hd
          obtain ⟨i, hi, rfl⟩ := List.mem_map.1 hd
          have hi' := List.mem_range.1 hi
          refine ⟨(x :: y :: rest)[i], List.getElem?_eq_getElem hi', ?_⟩
          have hm : (x :: y :: rest)[i] ∈ x :: y :: rest := List.getElem_mem hi'
          rcases List.mem_cons.1 hm with e | e
          · rw [e]; exact hl
          · have := hsh (Tensor.sig (x :: y :: rest)[i]) (by
              have := List.mem_map_of_mem (f := Tensor.sig) e
              simpa [Tensor.sig] using this)
            have e2 : (x :: y :: rest)[i].shape = x.shape := this
            show InShape l (x :: y :: rest)[i].shape
            rw [e2]; exact hl
        · simp only [List.map_cons, Layer.applySingle, Layer.call, Tensor.sig]
          rw [if_pos hc, hb, ha']
          simp only [if_pos]
          congr 2
          rw [List.map_map]
          apply List.ext_getElem?
          intro i
          rw [List.getElem?_map]
          by_cases hi : i < (x :: y :: rest).length
          · rw [List.getElem?_range hi]
            simp only [Option.map_some, Function.comp_apply, lookup, List.getElem?_eq_getElem hi]
            rw [← List.map_cons (f := fun q : Tensor K => q.val l), ← List.map_cons (f := fun q : Tensor K => q.val l),
              List.getElem?_map, List.getElem?_eq_getElem hi]
            rfl
          · rw [List.getElem?_eq_none (by simp only [List.length_range]; omega),
              List.getElem?_eq_none (by simp only [List.length_cons, List.length_map] at hi ⊢; omega)]
            rfl
      · simp at hq
    rcases hs with h | ⟨h1, h2⟩ | h
    · exact feature (Or.inl h)
    · have hra := resolveAxis_of_pos (rank := x.shape.length + 2) (axis := axis) (by omega) (by omega)
      rw [hra] at ha
      obtain rfl : axis.toNat = a := by simpa using ha
      rw [if_neg (by omega), if_neg (by omega)] at hq
      split at hq
      · rename_i hsh
        simp only [Option.some.injEq] at hq
        subst hq
        have hlen : l.length = x.shape.length := by simpa using hl.length_eq
        have hj : axis.toNat - 1 < x.shape.length := by omega
        have hbig : l.getD (axis.toNat - 1) 0 <
            ((x :: y :: rest).map fun t => t.shape.getD (axis.toNat - 1) 0).sum := by
          have := hl.getD (a := axis.toNat - 1) (by simpa using hj)
          simpa [List.getD_eq_getElem?_getD, hj, List.map_map, Function.comp_def] using this
        have hshape : ∀ t ∈ x :: y :: rest, InShape (l.set (axis.toNat - 1) 0) (t.shape.set (axis.toNat - 1) 1)
            ∧ axis.toNat - 1 < t.shape.length := by
          intro t ht
          have e0 : InShape (l.set (axis.toNat - 1) 0) (x.shape.set (axis.toNat - 1) 1) := by
            have := inShape_set hl (j := axis.toNat - 1) (v := 0) (m := 1) (by omega)
            simpa [List.set_set] using this
          rcases List.mem_cons.1 ht with rfl | ht
          · exact ⟨e0, hj⟩
          · have := hsh t.sig (by
              have := List.mem_map_of_mem (f := Tensor.sig) ht
              simpa [Tensor.sig] using this)
            obtain ⟨g1, g2, -⟩ := this
            have g3 : t.shape.set (axis.toNat - 1) 1 = x.shape.set (axis.toNat - 1) 1 := by
              have := congrArg (fun z => List.set z (axis.toNat - 1) 1) g2
              simpa [List.set_set, Tensor.sig] using this
            have g1' : t.shape.length = x.shape.length := g1
            rw [g3]
            exact ⟨e0, by omega⟩
        obtain ⟨d, h3, h4, h5⟩ := concatDeps_spec (axis.toNat - 1) l (x :: y :: rest) [] _ hshape hbig
        simp only [List.nil_append, List.length_nil] at h3 h4 h5
        have hpy : pyIndex l.length (axis - 1) = some (axis.toNat - 1) := by
          unfold pyIndex
          rw [if_pos (by omega), if_pos (by omega)]
          congr 1
          omega
        have hpy2 : pyIndex (x.shape.length + 2) axis = some axis.toNat := by
          unfold pyIndex
          rw [if_pos (by omega), if_pos (by omega)]
        have hnc : ¬ (axis = -1 ∨ axis = 0 ∨ axis = ((x.shape.length : Int) + 2) - 1) := by omega
        have hsz : (((x :: y :: rest).map Tensor.sig).map fun q => q.1.getD (axis.toNat - 1) q.2) =
            (x :: y :: rest).map fun t => t.shape.getD (axis.toNat - 1) 0 := by
          rw [List.map_map]
          apply List.map_congr_left
          intro t ht
          have := (hshape t ht).2
          simp [Tensor.sig, List.getD_eq_getElem?_getD, this]
        refine ⟨[d], ?_, by simpa using h4, ?_⟩
        · rw [← h3, ← hsz]
          simp only [List.map_cons, Layer.deps, Tensor.sig]
          rw [if_neg hnc, hpy2]
          simp only [Option.bind_some]
          rw [hpy]
          rfl
        · simp only [List.map_cons, Layer.applySingle, Layer.call, Tensor.sig, List.map_nil, List.head?_cons]
          rw [if_neg hnc, hra]
          simp only
          rw [if_neg (by omega), h5]
      · simp at hq
    · exact feature (Or.inr h)

theorem getLastD_append_singleton {α : Type} (t : List α) (c d : α) : (t ++ [c]).getLastD d = c := by
  cases t <;> simp [List.getLastD]

/-- Reading the channel vector of the source cell channel by channel. -/
theorem reshape_call (x : Tensor K) (hx : x.WF) (t : List Nat) (l : Loc) (hl : InShape l t)
    (hp : t.prod * x.chan = x.shape.prod * x.chan) :
    ((List.range x.chan).map fun c =>
      (x.val (unflatten (x.shape ++ [x.chan]) (flatten (t ++ [x.chan]) (l ++ [c]))).dropLast).getD
        ((unflatten (x.shape ++ [x.chan]) (flatten (t ++ [x.chan]) (l ++ [c]))).getLastD 0) 0) =
      if x.chan = 0 then [] else x.val (unflatten x.shape (flatten t l)) := by
  by_cases hc : x.chan = 0
  · simp [hc]
  rw [if_neg hc]
  have hp' : t.prod = x.shape.prod := Nat.eq_of_mul_eq_mul_right (by omega) hp
  have hlt : flatten t l < x.shape.prod := by rw [← hp']; exact flatten_lt hl
  have hlen := hx _ (unflatten_inShape x.shape _ hlt)
  apply List.ext_getElem
  · simp [hlen]
  · intro c h1 h2
    have h3 : c < x.chan := by simpa using h1
    simp only [List.getElem_map, List.getElem_range]
    rw [flatten_append hl.length_eq, unflatten_append _ _ _ _ hlt h3, List.dropLast_concat,
      getLastD_append_singleton, List.getD_eq_getElem _ _ h2]

theorem map_toNat_cast (t : List Int) (h : ∀ d ∈ t, 0 ≤ d) :
    (t.map Int.toNat).map (fun d : Nat => (d : Int)) = t := by
  rw [List.map_map]
  conv_rhs => rw [← List.map_id t]
  apply List.map_congr_left
  intro d hd
  have := h d hd
  simp; omega

theorem zip_take {α β : Type} (l : List α) (m : List β) : l.zip m = l.zip (m.take l.length) := by
  induction l generalizing m with
  | nil => simp
  | cons x xs ih => cases m with
    | nil => simp
    | cons y ys => simp [ih ys]

theorem toFlat_first (l : Loc) (n m : Int) (t : List Int) (h : l ≠ []) :
    toFlat l (n :: t) = toFlat l (m :: t) := by
  cases l with
  | nil => exact absurd rfl h
  | cons x xs => simp [toFlat]

theorem single_reshape (target : List Int) (x : Tensor K) (hx : x.WF) (q : Sig)
    (hq : (Layer.reshape (K := K) target).outSig [x.sig] = some q)
    (hs : (Layer.reshape (K := K) target).Supported extra [x.sig]) (l : Loc) (hl : InShape l q.1) :
    Single extra (.reshape target) [x] q.2 l := by
  simp only [Layer.Supported, Tensor.sig] at hs
  obtain ⟨hch, hs⟩ := hs
  simp only [Layer.outSig, Tensor.sig, Option.bind_eq_some_iff] at hq
  obtain ⟨t, ht, hq⟩ := hq
  split at hq
  · simp at hq
  rename_i hne
  simp only [Option.some.injEq] at hq
  subst hq
  -- it is enough to know the channels, the size, and the target the topology keeps
  have main : ∀ (T : List Int), t.getLastD 0 = x.chan → t.prod = x.shape.prod * x.chan →
      reshapeTarget x.shape x.chan target = some T → toFlat l T.dropLast = flatten t.dropLast l →
      Single extra (.reshape target) [x] (t.dropLast, t.getLastD 0).2 l := by
    intro T hlast hprod hT hfl
    have htc : t = t.dropLast ++ [x.chan] := by
      conv_lhs => rw [← List.dropLast_append_getLast hne]
      congr 2
      rw [← hlast, List.getLastD_eq_getLast?, List.getLast?_eq_getLast_of_ne_nil hne]
      rfl
    have hp : t.dropLast.prod * x.chan = x.shape.prod * x.chan := by
      rw [htc] at hprod
      simpa using hprod
    have hp' : t.dropLast.prod = x.shape.prod := Nat.eq_of_mul_eq_mul_right (by omega) hp
    have hlt : flatten t.dropLast l < x.shape.prod := by rw [← hp']; exact flatten_lt hl
    refine ⟨[(0, unflatten x.shape (flatten t.dropLast l))], ?_, ?_, ?_⟩
    · simp only [List.map_cons, List.map_nil, Layer.deps, Tensor.sig, hT, Option.bind_some, hfl]
      rw [fromFlat_eq _ _ hlt]
    · intro d hd
      simp only [List.mem_singleton] at hd
      subst hd
      exact depOk_head x [] (unflatten_inShape _ _ hlt)
    · simp only [List.map_cons, List.map_nil, Layer.applySingle, Layer.call, lookup_cons_zero, ht]
      rw [hlast]
      have := reshape_call x hx t.dropLast l hl hp
      rw [if_neg hch, ← htc] at this
      rw [this]
  rcases hs with ⟨h1, h2⟩ | ⟨rest, rfl, hr, h1, h2⟩
  · -- no unknown entry
    have hf1 : target.filter (· < 0) = [] := by
      rw [List.filter_eq_nil_iff]
      intro d hd
      have := h1 d hd
      simp; omega
    have hf2 : target.filter (0 ≤ ·) = target := by
      rw [List.filter_eq_self]
      intro d hd
      simpa using h1 d hd
    simp only [resolveTarget, hf1, hf2, List.length_nil] at ht
    split at ht
    · rename_i hprod
      simp only [Option.some.injEq] at ht
      subst ht
      have hm1 : ¬ (-1 ∈ target) := fun h => by have := h1 _ h; omega
      have hne' : target ≠ [] := by simpa using hne
      have hlast : (target.map Int.toNat).getLastD 0 = x.chan := by
        rw [List.getLastD_eq_getLast?, List.getLast?_map, List.getLast?_eq_getLast_of_ne_nil hne']
        rw [List.getLastD_eq_getLast?, List.getLast?_eq_getLast_of_ne_nil hne'] at h2
        simp only [Option.getD_some] at h2
        simp [h2]
      refine main target hlast hprod.symm ?_ ?_
      · simp only [reshapeTarget, if_neg hm1, Option.bind_some, if_neg hne', if_pos h2]
      · have := toFlat_eq (target.map Int.toNat).dropLast l hl.length_eq
        rw [← this, ← List.map_dropLast, map_toNat_cast]
        intro d hd
        exact h1 d (List.mem_of_mem_dropLast hd)
    · simp at ht
  · -- the first entry is unknown
    have hf1 : rest.filter (· < 0) = [] := by
      rw [List.filter_eq_nil_iff]
      intro d hd
      have := h1 d hd
      simp; omega
    have hf2 : rest.filter (0 ≤ ·) = rest := by
      rw [List.filter_eq_self]
      intro d hd
      simpa using h1 d hd
    have hmap : (rest.map fun d : Int => if d < 0 then x.shape.prod * x.chan / (rest.map Int.toNat).prod else d.toNat)
        = rest.map Int.toNat := by
      apply List.map_congr_left
      intro d hd
      have := h1 d hd
      rw [if_neg (by omega)]
    have hm0 : ¬ (0 : Int) ≤ -1 := by omega
    have hm1 : (-1 : Int) < 0 := by omega
    rw [resolveTarget] at ht
    simp only [List.filter_cons, hf1, hf2, hm0, hm1, decide_true, decide_false, Bool.false_eq_true, if_true,
      if_false, List.length_cons, List.length_nil, List.map_cons, hmap] at ht
    split at ht
    · simp at ht
    rename_i hk
    simp only [Option.some.injEq] at ht
    subst ht
    push Not at hk
    obtain ⟨hk0, hkm⟩ := hk
    have hrn : rest.map Int.toNat ≠ [] := by simpa using hr
    have hlast0 : (rest.map Int.toNat).getLastD 0 = x.chan := by
      rw [List.getLastD_eq_getLast?, List.getLast?_map, List.getLast?_eq_getLast_of_ne_nil hr]
      rw [List.getLastD_eq_getLast?, List.getLast?_eq_getLast_of_ne_nil hr] at h2
      simp only [Option.getD_some] at h2
      simp [h2]
    have hlast : ((x.shape.prod * x.chan / (rest.map Int.toNat).prod) :: rest.map Int.toNat).getLastD 0 =
        x.chan := by
      rw [← hlast0]
      cases hz : rest.map Int.toNat with
      | nil => exact absurd hz hrn
      | cons y ys => simp [List.getLastD]
    have hprodR : ((rest.map Int.toNat).prod : Int) = rest.prod := by
      conv_rhs => rw [← map_toNat_cast rest h1]
      generalize rest.map Int.toNat = m
      induction m with
      | nil => rfl
      | cons y ys ih => simp [ih]
    have htot : (((x.shape ++ [x.chan]).prod : Nat) : Int) = ((x.shape.prod * x.chan : Nat) : Int) := by simp
    refine main ((-1 :: rest) ++ [(-1 * ((x.shape ++ [x.chan]).prod : Nat) : Int).fdiv (-1 :: rest).prod] ++ rest)
      hlast ?_ ?_ ?_
    · rw [List.prod_cons]
      exact Nat.div_mul_cancel (Nat.dvd_of_mod_eq_zero hkm)
    · have e1 : (-1 : Int) ∈ -1 :: rest := by simp
      have e2 : (-1 :: rest).idxOf (-1 : Int) = 0 := by simp
      have e3 : ¬ (-1 : Int) ∈ rest := fun h => by have := h1 _ h; omega
      have e4 : (-1 :: rest).prod ≠ 0 := by
        rw [List.prod_cons, ← hprodR]
        omega
      have e5 : (((x.shape ++ [x.chan]).prod : Nat) : Int).fmod (-1 :: rest).prod = 0 := by
        apply Int.fmod_eq_zero_of_dvd
        rw [List.prod_cons, neg_one_mul, Int.neg_dvd, ← hprodR, htot]
        exact Int.natCast_dvd_natCast.2 (Nat.dvd_of_mod_eq_zero hkm)
      simp only [reshapeTarget, if_pos e1, e2, Nat.zero_add, List.drop_succ_cons, List.drop_zero, if_neg e3,
        if_neg e4, e5, ne_eq, not_true_eq_false, if_false, Option.bind_some]
      rw [if_neg (by simp), if_pos]
      rw [List.getLastD_eq_getLast?, List.getLast?_append_of_ne_nil _ hr, ← h2, List.getLastD_eq_getLast?]
    · have hll : l.length = rest.length := by
        have e1 := hl.length_eq
        simp only [List.length_dropLast, List.length_cons, List.length_map] at e1
        omega
      have hl0 : l ≠ [] := by
        rintro rfl
        exact hr (List.length_eq_zero_iff.1 hll.symm)
      have e1 : ((-1 :: rest) ++ [(-1 * ((x.shape ++ [x.chan]).prod : Nat) : Int).fdiv (-1 :: rest).prod]
          ++ rest).dropLast = -1 :: (rest ++ ([(-1 * ((x.shape ++ [x.chan]).prod : Nat) : Int).fdiv
            (-1 :: rest).prod] ++ rest.dropLast)) := by
        rw [List.dropLast_append_of_ne_nil hr]
        simp
      rw [e1]
      have e2 : ∀ z : List Int, toFlat l (-1 :: (rest ++ z)) = toFlat l (-1 :: rest.dropLast) := by
        intro z
        unfold toFlat
        rw [zip_take, hll, zip_take l (-1 :: rest.dropLast), hll]
        congr 2
        cases hz : rest.length with
        | zero => simp
        | succ n =>
          simp only [List.take_succ_cons]
          congr 1
          rw [List.take_append_of_le_length (by omega), List.dropLast_eq_take, hz]
          simp
      rw [e2, toFlat_first l _ ((x.shape.prod * x.chan / (rest.map Int.toNat).prod : Nat) : Int) _ hl0]
      have e3 := toFlat_eq _ l hl.length_eq
      rw [← e3]
      congr 1
      obtain ⟨y, ys, rfl⟩ := List.exists_cons_of_ne_nil hr
      simp only [List.map_cons, List.dropLast_cons_cons]
      congr 1
      have := map_toNat_cast (y :: ys).dropLast (fun d hd => h1 d (List.mem_of_mem_dropLast hd))
      rw [← List.map_cons (f := Int.toNat), ← List.map_dropLast]
      exact this.symm

end cases

/-- C41, partial: for every layer in a supported configuration and every location of its output, the
declared dependencies lie inside the inputs, and evaluating the layer from the values there gives what
the layer computes on the whole tensors. Missing: the configurations excluded by `Layer.Supported`,
where it fails (`C41_violated_*`, `C42_*`). -/
theorem C41_single_partial (extra : Nat) (L : Layer K) (ts : List (Tensor K)) (hwf : ∀ t ∈ ts, t.WF)
    (y : Tensor K) (hy : L.apply ts = some y) (hs : L.Supported extra (ts.map Tensor.sig))
    (l : Loc) (hl : InShape l y.shape) :
    ∃ ds, L.deps (ts.map Tensor.sig) l = some ds ∧
      (∀ d ∈ ds, ∃ t, ts[d.1]? = some t ∧ InShape d.2 t.shape) ∧
      L.applySingle extra (ts.map Tensor.sig) y.chan l
        (ds.map fun d => match ts[d.1]? with | some t => t.val d.2 | none => []) = some (y.val l) := by
  unfold Layer.apply at hy
  simp only [Option.map_eq_some_iff] at hy
  obtain ⟨q, hq, rfl⟩ := hy
  show Single extra L ts q.2 l
  cases L with
  | input => cases hs
  | oneHot _ _ => cases hs
  | expand =>
    match ts, hq with
    | [x], hq =>
      simp only [List.map_cons, List.map_nil, Layer.outSig, Tensor.sig, Option.some.injEq] at hq
      subst hq
      exact single_oneToOne extra _ x _ l hl rfl rfl
    | [], hq => simp [Layer.outSig] at hq
    | _ :: _ :: _, hq => simp [Layer.outSig] at hq
  | feature out f =>
    match ts, hq with
    | [x], hq =>
      simp only [List.map_cons, List.map_nil, Layer.outSig, Tensor.sig, Option.some.injEq] at hq
      subst hq
      exact single_oneToOne extra _ x _ l hl rfl rfl
    | [], hq => simp [Layer.outSig] at hq
    | _ :: _ :: _, hq => simp [Layer.outSig] at hq
  | merge f => exact single_merge extra f ts q hq l hl
  | conv cv =>
    match ts, hq with
    | [x], hq =>
      simp only [List.map_cons, List.map_nil, Layer.outSig, Tensor.sig, Option.map_eq_some_iff] at hq
      obtain ⟨r, hr, rfl⟩ := hq
      refine ⟨_, rfl, ?_, ?_⟩
      · intro d hd
        obtain ⟨w, hw, rfl⟩ := List.mem_map.1 hd
        exact depOk_head x [] (convLoc_spec hr ((Verif.Ordering.mem_raster _ _).1 hw) hl).2
      · simp only [List.map_cons, List.map_nil, Layer.applySingle, Tensor.sig, List.map_map, Layer.call]
        rw [← conv_single cv x r l hr (hwf x (by simp)) hl]
        rfl
    | [], hq => simp [Layer.outSig] at hq
    | _ :: _ :: _, hq => simp [Layer.outSig] at hq
  | zeroPad pads =>
    match ts, hq with
    | [x], hq =>
      simp only [List.map_cons, List.map_nil, Layer.outSig, Tensor.sig] at hq
      split at hq
      · rename_i hp
        simp only [Option.some.injEq] at hq
        subst hq
        have hlen : l.length = x.shape.length := by
          have := hl.length_eq
          simpa [hp] using this
        have hspec := inPadding_spec (l := l) (pads := pads) (s := x.shape) hlen hp
        cases hb : inPadding l pads x.shape with
        | true =>
          refine ⟨[], ?_, by simp, ?_⟩
          · simp [Layer.deps, Tensor.sig, hb]
          · have hn : ¬ ∀ a < x.shape.length, (pads.getD a (0, 0)).1 ≤ l.getD a 0 ∧
                l.getD a 0 < (pads.getD a (0, 0)).1 + x.shape.getD a 0 := by
              rw [← hspec, hb]; simp
            simp only [List.map_cons, List.map_nil, Layer.applySingle, Layer.call]
            rw [if_neg hn]
        | false =>
          have hn := hspec.1 hb
          refine ⟨[(0, List.zipWith (fun a (p : Nat × Nat) => a - p.1) l pads)], ?_, ?_, ?_⟩
          · simp only [List.map_cons, List.map_nil, Layer.deps, Tensor.sig, hb, Bool.false_eq_true, if_false]
          · intro d hd
            simp only [List.mem_singleton] at hd
            subst hd
            refine depOk_head x [] ?_
            rw [zipWith_sub hlen hp]
            apply inShape_map_range
            intro a ha
            have := hn a ha
            omega
          · simp only [List.map_cons, List.map_nil, Layer.applySingle, Layer.call, lookup_cons_zero]
            rw [if_pos hn, zipWith_sub hlen hp]
      · simp at hq
    | [], hq => simp [Layer.outSig] at hq
    | _ :: _ :: _, hq => simp [Layer.outSig] at hq
  | periodicPad pads =>
    match ts, hq, hs with
    | [x], hq, hs =>
      simp only [List.map_cons, List.map_nil, Layer.outSig, Tensor.sig] at hq
      split at hq
      · rename_i hp
        simp only [Option.some.injEq] at hq
        subst hq
        obtain ⟨e1, e2⟩ := periodicLoc_spec hp hs hl
        refine ⟨_, rfl, ?_, ?_⟩
        · intro d hd
          simp only [List.mem_singleton] at hd
          subst hd
          exact depOk_head x [] e2
        · simp only [List.map_cons, List.map_nil, Layer.applySingle, Layer.call, lookup_cons_zero]
          rw [e1]
      · simp at hq
    | [], hq, _ => simp [Layer.outSig] at hq
    | _ :: _ :: _, hq, _ => simp [Layer.outSig] at hq
  | downShift =>
    match ts, hq with
    | [x], hq =>
      simp only [List.map_cons, List.map_nil, Layer.outSig, Tensor.sig] at hq
      split at hq
      · rename_i hp
        simp only [Option.some.injEq] at hq
        subst hq
        obtain ⟨xs, xc, xv⟩ := x
        simp only at hl hp
        cases hl with
        | nil => simp at hp
        | @cons r n rest ns h1 h2 =>
          by_cases hr : r = 0
          · exact ⟨[], by simp [Layer.deps, hr], by simp, by simp [Layer.applySingle, Layer.call, hr]⟩
          · refine ⟨[(0, (r - 1) :: rest)], by simp [Layer.deps, hr], ?_, ?_⟩
            · intro d hd
              simp only [List.mem_singleton] at hd
              subst hd
              exact depOk_head _ [] (.cons (by omega) h2)
            · simp [Layer.applySingle, Layer.call, hr, lookup_cons_zero]
      · simp at hq
    | [], hq => simp [Layer.outSig] at hq
    | _ :: _ :: _, hq => simp [Layer.outSig] at hq
  | rightShift =>
    match ts, hq with
    | [x], hq =>
      simp only [List.map_cons, List.map_nil, Layer.outSig, Tensor.sig] at hq
      split at hq
      · rename_i hp
        simp only [Option.some.injEq] at hq
        subst hq
        obtain ⟨xs, xc, xv⟩ := x
        simp only at hl hp
        cases hl with
        | nil => simp at hp
        | @cons r n rest ns h1 h2 =>
          cases h2 with
          | nil => simp at hp
          | @cons c m rest ms h3 h4 =>
            by_cases hr : c = 0
            · exact ⟨[], by simp [Layer.deps, hr], by simp, by simp [Layer.applySingle, Layer.call, hr]⟩
            · refine ⟨[(0, r :: (c - 1) :: rest)], by simp [Layer.deps, hr], ?_, ?_⟩
              · intro d hd
                simp only [List.mem_singleton] at hd
                subst hd
                exact depOk_head _ [] (.cons h1 (.cons (by omega) h4))
              · simp [Layer.applySingle, Layer.call, hr, lookup_cons_zero]
      · simp at hq
    | [], hq => simp [Layer.outSig] at hq
    | _ :: _ :: _, hq => simp [Layer.outSig] at hq
  | gather indices axis =>
    match ts, hq, hs with
    | [x], hq, hs => exact single_gather extra indices axis x q hq hs l hl
    | [], hq, _ => simp [Layer.outSig] at hq
    | _ :: _ :: _, hq, _ => simp [Layer.outSig] at hq
  | reshape target =>
    match ts, hq, hs, hwf with
    | [x], hq, hs, hwf => exact single_reshape extra target x (hwf x (by simp)) q hq hs l hl
    | [], hq, _, _ => simp [Layer.outSig] at hq
    | _ :: _ :: _, hq, _, _ => simp [Layer.outSig] at hq
  | concat axis => exact single_concat extra axis ts q hq hs l hl

end Verif.Net
