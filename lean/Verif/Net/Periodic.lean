import Verif.Net.TopologyLemmas
import Verif.Ordering.Lemmas
import Mathlib.Data.Complex.Basic
import Mathlib.Analysis.SpecialFunctions.Complex.Log
import Mathlib.Analysis.SpecialFunctions.Trigonometric.DerivHyp
import Mathlib.Algebra.BigOperators.Group.List.Lemmas
import Mathlib.Data.Nat.ModEq
import Mathlib.Tactic.Ring

/-!
C125: networks with periodic padding are translation invariant.
-/
namespace Verif.Net

/-! ### Model -/

variable {K : Type} [CommSemiring K]

/-- One round of the loop of `run_pyket` (examples/benchmark.py:30-33; also tests/simple_models.py:104-107): `PeriodicPadding`, a convolution and an
activation. Other paddings, kernels, dilations and numbers of dimensions than in the example are included. -/
structure Stage (K : Type) where
  pads : List (Nat × Nat)
  conv : Conv K
  act : K → K

/-- `x = PeriodicPadding(padding)(x); x = ComplexConv1D(...)(x); x = Activation(...)(x)` (examples/benchmark.py:31-33). -/
def Stage.run (st : Stage K) (x : Tensor K) : Option (Tensor K) :=
  ((Layer.periodicPad st.pads).apply [x]).bind fun y =>
    ((Layer.conv st.conv).apply [y]).bind fun z => (Layer.feature st.conv.filters fun v => v.map st.act).apply [z]

/-- The loop (examples/benchmark.py:30-33). -/
def runStages : List (Stage K) → Tensor K → Option (Tensor K)
  | [], x => some x
  | st :: rest, x => (st.run x).bind (runStages rest)

/-- `Flatten` and the sum over all entries (examples/benchmark.py:34-35). -/
def pooled (x : Tensor K) : K :=
  ((Verif.Ordering.raster x.shape).map fun l => ((List.range x.chan).map fun c => (x.val l).getD c 0).sum).sum

/-- The logarithm of the amplitude (examples/benchmark.py:28-36), `none` if building the network raises. The input has one channel. -/
def periodicNet (stages : List (Stage K)) (shape : Shape) (s : Loc → K) : Option K :=
  (runStages stages ⟨shape, 1, fun l => [s l]⟩).map pooled

/-- The stages of the example (examples/benchmark.py:27,30-33): `depth` convolutions of `width` channels without bias with `kernel` taps and padding
`((0, kernel - 1),)`; `weights i` is the kernel of the convolution number `i`. -/
def benchmarkStages (depth width kernel : Nat) (act : K → K) (weights : Nat → Loc → Nat → Nat → K) : List (Stage K) :=
  (List.range depth).map fun i =>
    ⟨[(0, kernel - 1)], ⟨width, [kernel], [1], [1], false, weights i, fun _ => 0, id⟩, act⟩

/-! ### Specification -/

/-- The site `t` further on a lattice with periodic boundaries. -/
def shiftLoc (t : List Nat) (shape : Shape) (l : Loc) : Loc :=
  (List.range shape.length).map fun a => (l.getD a 0 + t.getD a 0) % shape.getD a 0

/-- Along every axis the padding makes up exactly for what the convolution takes away, and is not longer than the lattice. -/
structure Stage.Fits (st : Stage K) (shape : Shape) : Prop where
  pads : st.pads.length = shape.length
  kernel : st.conv.kernelSize.length = shape.length
  dilation : st.conv.dilation.length = shape.length
  strides : st.conv.strides = List.replicate shape.length 1
  taps : ∀ a, a < shape.length → 1 ≤ st.conv.kernelSize.getD a 0
  sum : ∀ a, a < shape.length → (st.pads.getD a (0, 0)).1 + (st.pads.getD a (0, 0)).2 =
    (st.conv.kernelSize.getD a 0 - 1) * st.conv.dilation.getD a 0
  before : ∀ a, a < shape.length → (st.pads.getD a (0, 0)).1 ≤ shape.getD a 0
  after : ∀ a, a < shape.length → (st.pads.getD a (0, 0)).2 ≤ shape.getD a 0

/-! ### Lemmas -/

/-- `PeriodicPadding` wraps around if it is not longer than the axis. -/
theorem periodicIndices_getD (n b a x : Nat) (hb : b ≤ n) (ha : a ≤ n) (hx : x < b + n + a) :
    (periodicIndices n b a).getD x 0 = (x + (n - b)) % n := by
  have hlen : ((List.range n).drop (n - b)).length = b := by simp; omega
  unfold periodicIndices
  rw [List.append_assoc]
  by_cases h1 : x < b
  · rw [List.getD_append _ _ _ _ (by rw [hlen]; exact h1), Nat.mod_eq_of_lt (by omega), List.getD_eq_getElem?_getD, List.getElem?_drop]
    have hlt : n - b + x < n := by omega
    simp [hlt]
    omega
  · rw [List.getD_append_right _ _ _ _ (by rw [hlen]; omega), hlen]
    by_cases h2 : x - b < n
    · rw [List.getD_append _ _ _ _ (by simpa using h2)]
      have e : x + (n - b) = x - b + n := by omega
      rw [e, Nat.add_mod_right, Nat.mod_eq_of_lt h2]
      simp [List.getD_eq_getElem?_getD, h2]
    · rw [List.getD_append_right _ _ _ _ (by simpa using h2)]
      simp only [List.length_range]
      have e : x + (n - b) = x - b - n + n + n := by omega
      rw [e, Nat.add_mod_right, Nat.add_mod_right, Nat.mod_eq_of_lt (by omega)]
      have hlt : x - b - n < a := by omega
      have hlt' : x - b - n < n := by omega
      simp [List.getD_eq_getElem?_getD, hlt, hlt']

theorem inShape_iff (l : Loc) (s : Shape) : InShape l s ↔ l.length = s.length ∧ ∀ a, a < s.length → l.getD a 0 < s.getD a 0 := by
  unfold InShape
  rw [List.forall₂_iff_get]
  constructor
  · rintro ⟨h1, h2⟩
    refine ⟨h1, fun a ha => ?_⟩
    have := h2 a (by omega) ha
    simpa [List.getD_eq_getElem?_getD, ha, h1 ▸ ha] using this
  · rintro ⟨h1, h2⟩
    refine ⟨h1, fun a ha ha' => ?_⟩
    have := h2 a ha'
    simpa [List.getD_eq_getElem?_getD, ha, ha'] using this

theorem getD_map_range {α : Type} (n a : Nat) (d : α) (f : Nat → α) (ha : a < n) : ((List.range n).map f).getD a d = f a := by
  simp [List.getD_eq_getElem?_getD, ha]

theorem shift_inShape (t : List Nat) (s : Shape) (hs : ∀ a, a < s.length → 0 < s.getD a 0) (l : Loc) : InShape (shiftLoc t s l) s := by
  rw [inShape_iff]
  refine ⟨by simp [shiftLoc], fun a ha => ?_⟩
  unfold shiftLoc
  rw [getD_map_range _ _ _ _ ha]
  exact Nat.mod_lt _ (hs a ha)

/-- Shifting goes once through all sites. -/
theorem shift_perm (t : List Nat) (s : Shape) (hs : ∀ a, a < s.length → 0 < s.getD a 0) :
    ((Verif.Ordering.raster s).map (shiftLoc t s)).Perm (Verif.Ordering.raster s) := by
  have hinj : ((Verif.Ordering.raster s).map (shiftLoc t s)).Nodup := by
    apply List.Nodup.map_on _ (Verif.Ordering.raster_nodup s)
    intro l hl l' hl' he
    obtain ⟨h1, h2⟩ := (inShape_iff l s).1 ((Verif.Ordering.mem_raster s l).1 hl)
    obtain ⟨h1', h2'⟩ := (inShape_iff l' s).1 ((Verif.Ordering.mem_raster s l').1 hl')
    apply List.ext_getElem (by omega)
    intro a ha ha'
    have hc := congrArg (fun x => x.getD a 0) he
    simp only [shiftLoc] at hc
    rw [getD_map_range _ _ _ _ (by omega), getD_map_range _ _ _ _ (by omega)] at hc
    have h3 := h2 a (by omega)
    have h3' := h2' a (by omega)
    have h4 : l.getD a 0 = l'.getD a 0 := by
      have := Nat.ModEq.add_right_cancel' (t.getD a 0) (show Nat.ModEq (s.getD a 0) (l.getD a 0 + t.getD a 0) (l'.getD a 0 + t.getD a 0) from hc)
      rwa [Nat.ModEq, Nat.mod_eq_of_lt h3, Nat.mod_eq_of_lt h3'] at this
    simpa [List.getD_eq_getElem?_getD, ha, ha'] using h4
  refine (List.subperm_of_subset hinj ?_).perm_of_length_le (by simp)
  intro y hy
  obtain ⟨l, -, rfl⟩ := List.mem_map.1 hy
  exact (Verif.Ordering.mem_raster _ _).2 (shift_inShape t s hs l)

/-- `x'` is `x` shifted by `t`. -/
structure Shifted (t : List Nat) (x x' : Tensor K) : Prop where
  shape : x'.shape = x.shape
  chan : x'.chan = x.chan
  val : ∀ l, InShape l x.shape → x'.val l = x.val (shiftLoc t x.shape l)

theorem getD_zipWith_pad (s : Shape) (pads : List (Nat × Nat)) (h : pads.length = s.length) (a : Nat) (ha : a < s.length) :
    (List.zipWith (fun n (p : Nat × Nat) => min p.1 n + n + min p.2 n) s pads).getD a 0 =
      min (pads.getD a (0, 0)).1 (s.getD a 0) + s.getD a 0 + min (pads.getD a (0, 0)).2 (s.getD a 0) := by
  simp [List.getD_eq_getElem?_getD, ha, h ▸ ha]

theorem convShape_ok : ∀ (s : Shape) (ks ds : List Nat) (m : Shape), ks.length = s.length → ds.length = s.length →
    m.length = s.length → (∀ a, a < s.length → 1 ≤ ks.getD a 0 ∧ s.getD a 0 = m.getD a 0 + (ks.getD a 0 - 1) * ds.getD a 0) →
    convShape s ks ds (List.replicate s.length 1) = some m := by
  intro s
  induction s with
  | nil =>
    intro ks ds m h1 h2 h3 _
    obtain rfl := List.length_eq_zero_iff.1 h1
    obtain rfl := List.length_eq_zero_iff.1 h2
    obtain rfl := List.length_eq_zero_iff.1 h3
    rfl
  | cons n s ih =>
    intro ks ds m h1 h2 h3 h
    match ks, ds, m, h1, h2, h3 with
    | k :: ks, d :: ds, m :: ms, h1, h2, h3 =>
      obtain ⟨hk, hn⟩ := h 0 (by simp)
      simp only [List.getD_cons_zero] at hk hn
      simp only [List.length_cons, List.replicate_succ, convShape]
      have hd : convDim n k d 1 = some m := by
        unfold convDim
        simp only
        rw [if_pos ⟨hk, le_rfl, by omega⟩, hn]
        simp
      rw [hd, ih ks ds ms (by simpa using h1) (by simpa using h2) (by simpa using h3) fun a ha => by
        simpa using h (a + 1) (by simpa using ha)]
      rfl

/-- The cell of the lattice under tap `w` of the kernel at site `l`. -/
def stageCell (st : Stage K) (s : Shape) (l w : Loc) : Loc :=
  (List.range s.length).map fun a =>
    (l.getD a 0 + w.getD a 0 * st.conv.dilation.getD a 0 + (s.getD a 0 - (st.pads.getD a (0, 0)).1)) % s.getD a 0

/-- What a fitting stage computes. -/
def stageVal (st : Stage K) (x : Tensor K) (l : Loc) : List K :=
  (st.conv.activation ((List.range st.conv.filters).map fun o =>
    ((Verif.Ordering.raster st.conv.kernelSize).map fun w =>
      ((List.range x.chan).map fun c => (x.val (stageCell st x.shape l w)).getD c 0 * st.conv.kernel w c o).sum).sum
    + (if st.conv.useBias then st.conv.bias o else 0))).map st.act

theorem stage_run (st : Stage K) (x : Tensor K) (h : st.Fits x.shape) :
    ∃ y, st.run x = some y ∧ y.shape = x.shape ∧ y.chan = st.conv.filters ∧ ∀ l, InShape l x.shape → y.val l = stageVal st x l := by
  set s2 : Shape := List.zipWith (fun n (p : Nat × Nat) => min p.1 n + n + min p.2 n) x.shape st.pads with hs2
  have hlen : s2.length = x.shape.length := by simp [hs2, h.pads]
  have hdim : ∀ a, a < x.shape.length → s2.getD a 0 =
      (st.pads.getD a (0, 0)).1 + x.shape.getD a 0 + (st.pads.getD a (0, 0)).2 := by
    intro a ha
    rw [hs2, getD_zipWith_pad _ _ h.pads a ha, Nat.min_eq_left (h.before a ha), Nat.min_eq_left (h.after a ha)]
  have hconv : convShape s2 st.conv.kernelSize st.conv.dilation st.conv.strides = some x.shape := by
    rw [h.strides, ← hlen]
    refine convShape_ok s2 _ _ _ (by rw [hlen, h.kernel]) (by rw [hlen, h.dilation]) hlen.symm fun a ha => ?_
    rw [hlen] at ha
    refine ⟨h.taps a ha, ?_⟩
    rw [hdim a ha, ← h.sum a ha]
    omega
  refine ⟨⟨x.shape, st.conv.filters, (Layer.feature st.conv.filters fun v => v.map st.act).call [⟨x.shape, st.conv.filters,
    (Layer.conv st.conv).call [⟨s2, x.chan, (Layer.periodicPad st.pads).call [x]⟩]⟩]⟩, ?_, rfl, rfl, ?_⟩
  · unfold Stage.run Layer.apply
    simp only [List.map_cons, List.map_nil, Tensor.sig, Layer.outSig, h.pads, if_true, Option.map_some, Option.bind_some, ← hs2, hconv]
  · intro l hl
    obtain ⟨hl1, hl2⟩ := (inShape_iff _ _).1 hl
    simp only [Layer.call, Conv.call, stageVal]
    congr 2
    apply List.map_congr_left
    intro o _
    congr 2
    apply List.map_congr_left
    intro w hw
    obtain ⟨hw1, hw2⟩ := (inShape_iff _ _).1 ((Verif.Ordering.mem_raster _ _).1 hw)
    congr 1
    apply List.map_congr_left
    intro c _
    congr 2
    congr 1
    unfold stageCell
    apply List.map_congr_left
    intro a ha
    have ha : a < x.shape.length := List.mem_range.1 ha
    rw [getD_map_range _ _ _ _ (by rw [hlen]; exact ha), h.strides]
    have h1 : (List.replicate x.shape.length 1).getD a 0 = 1 := by simp [List.getD_eq_getElem?_getD, ha]
    have hwa := hw2 a (by rw [h.kernel]; exact ha)
    have hla := hl2 a ha
    have hle : w.getD a 0 * st.conv.dilation.getD a 0 ≤ (st.pads.getD a (0, 0)).1 + (st.pads.getD a (0, 0)).2 := by
      rw [h.sum a ha]
      exact Nat.mul_le_mul_right _ (by omega)
    rw [h1, Nat.mul_one, periodicIndices_getD _ _ _ _ (h.before a ha) (h.after a ha) (by omega)]

theorem stage_shift (st : Stage K) (t : List Nat) (x x' : Tensor K) (h : st.Fits x.shape) (hs : ∀ a, a < x.shape.length → 0 < x.shape.getD a 0)
    (hx : Shifted t x x') : ∃ y y', st.run x = some y ∧ st.run x' = some y' ∧ y.shape = x.shape ∧ Shifted t y y' := by
  obtain ⟨y, h1, h2, h3, h4⟩ := stage_run st x h
  obtain ⟨y', h1', h2', h3', h4'⟩ := stage_run st x' (by rw [hx.shape]; exact h)
  refine ⟨y, y', h1, h1', h2, by rw [h2', h2, hx.shape], by rw [h3', h3], ?_⟩
  intro l hl
  rw [h2] at hl ⊢
  rw [h4 _ (shift_inShape t _ hs l), h4' l (by rw [hx.shape]; exact hl)]
  unfold stageVal
  rw [hx.chan]
  congr 2
  apply List.map_congr_left
  intro o _
  congr 2
  apply List.map_congr_left
  intro w hw
  congr 1
  apply List.map_congr_left
  intro c _
  congr 2
  rw [hx.shape, hx.val _ (by
    rw [inShape_iff]
    refine ⟨by simp [stageCell], fun a ha => ?_⟩
    unfold stageCell
    rw [getD_map_range _ _ _ _ ha]
    exact Nat.mod_lt _ (hs a ha))]
  congr 1
  unfold shiftLoc stageCell
  apply List.map_congr_left
  intro a ha
  have ha : a < x.shape.length := List.mem_range.1 ha
  rw [getD_map_range _ _ _ _ ha, getD_map_range _ _ _ _ ha, Nat.mod_add_mod]
  have e : (l.getD a 0 + t.getD a 0) % x.shape.getD a 0 + w.getD a 0 * st.conv.dilation.getD a 0 +
      (x.shape.getD a 0 - (st.pads.getD a (0, 0)).1) = (l.getD a 0 + t.getD a 0) % x.shape.getD a 0 +
      (w.getD a 0 * st.conv.dilation.getD a 0 + (x.shape.getD a 0 - (st.pads.getD a (0, 0)).1)) := by omega
  rw [e, Nat.mod_add_mod]
  congr 1
  omega

theorem stages_shift (t : List Nat) (s : Shape) (hs : ∀ a, a < s.length → 0 < s.getD a 0) : ∀ (stages : List (Stage K)) (x x' : Tensor K),
    (∀ st ∈ stages, st.Fits s) → x.shape = s → Shifted t x x' →
    ∃ y y', runStages stages x = some y ∧ runStages stages x' = some y' ∧ y.shape = s ∧ Shifted t y y' := by
  intro stages
  induction stages with
  | nil => intro x x' _ hx h; exact ⟨x, x', rfl, rfl, hx, h⟩
  | cons st rest ih =>
    intro x x' hf hx h
    obtain ⟨y, y', h1, h2, h3, h4⟩ := stage_shift st t x x' (by rw [hx]; exact hf st (by simp)) (by rw [hx]; exact hs) h
    obtain ⟨z, z', h5, h6, h7, h8⟩ := ih y y' (fun st h => hf st (List.mem_cons_of_mem _ h)) (by rw [h3, hx]) h4
    exact ⟨z, z', by simp [runStages, h1, h5], by simp [runStages, h2, h6], h7, h8⟩

theorem pooled_shift (t : List Nat) (x x' : Tensor K) (hs : ∀ a, a < x.shape.length → 0 < x.shape.getD a 0) (h : Shifted t x x') :
    pooled x' = pooled x := by
  unfold pooled
  rw [h.shape, h.chan]
  have e : (Verif.Ordering.raster x.shape).map (fun l => ((List.range x.chan).map fun c => (x'.val l).getD c 0).sum) =
      ((Verif.Ordering.raster x.shape).map (shiftLoc t x.shape)).map fun l => ((List.range x.chan).map fun c => (x.val l).getD c 0).sum := by
    rw [List.map_map]
    apply List.map_congr_left
    intro l hl
    simp only [Function.comp]
    rw [h.val l ((Verif.Ordering.mem_raster _ _).1 hl)]
  rw [e]
  exact ((shift_perm t x.shape hs).map _).sum_eq

/-! ### C125 -/

/-- **C125**: a network of stages with fitting periodic paddings, on a lattice of any number of dimensions: it can be built, and for all kernels,
biases, activations and dilations a configuration and all its translations have the same amplitude. -/
theorem C125_partial (stages : List (Stage K)) (s : Shape) (hs : ∀ a, a < s.length → 0 < s.getD a 0) (hf : ∀ st ∈ stages, st.Fits s)
    (t : List Nat) (x : Loc → K) :
    ∃ z, periodicNet stages s x = some z ∧ periodicNet stages s (fun l => x (shiftLoc t s l)) = some z := by
  obtain ⟨y, y', h1, h2, h3, h4⟩ := stages_shift t s hs stages ⟨s, 1, fun l => [x l]⟩ ⟨s, 1, fun l => [x (shiftLoc t s l)]⟩ hf rfl
    ⟨rfl, rfl, fun l _ => rfl⟩
  refine ⟨pooled y, by simp [periodicNet, h1], ?_⟩
  simp only [periodicNet, h2, Option.map_some]
  rw [pooled_shift t y y' (by rw [h3]; exact hs) h4]

theorem benchmark_fits (depth width kernel n : Nat) (hk : 1 ≤ kernel) (hn : kernel ≤ n + 1) (act : K → K) (weights : Nat → Loc → Nat → Nat → K) :
    ∀ st ∈ benchmarkStages depth width kernel act weights, st.Fits [n] := by
  intro st hst
  obtain ⟨i, -, rfl⟩ := List.mem_map.1 hst
  have h0 : ∀ a, a < [n].length → a = 0 := by intro a ha; simp at ha; omega
  refine ⟨rfl, rfl, rfl, rfl, ?_, ?_, ?_, ?_⟩ <;> intro a ha <;> obtain rfl := h0 a ha <;> simp <;> omega

/-- **C125** for the network of examples/benchmark.py with a kernel of at most one more tap than there are spins. -/
theorem C125_benchmark (depth width kernel n : Nat) (hk : 1 ≤ kernel) (hn : kernel ≤ n + 1) (hpos : 0 < n) (act : K → K)
    (weights : Nat → Loc → Nat → Nat → K) (t : Nat) (x : Nat → K) :
    ∃ z, periodicNet (benchmarkStages depth width kernel act weights) [n] (fun l => x (l.getD 0 0)) = some z ∧
      periodicNet (benchmarkStages depth width kernel act weights) [n] (fun l => x ((l.getD 0 0 + t) % n)) = some z := by
  obtain ⟨z, h1, h2⟩ := C125_partial _ [n] (by intro a ha; simp at ha; subst ha; simpa using hpos)
    (benchmark_fits depth width kernel n hk hn act weights) [t] fun l => x (l.getD 0 0)
  refine ⟨z, h1, ?_⟩
  rw [← h2]
  simp [shiftLoc]

/-! ### Kernels longer than the lattice -/

theorem periodicIndices_long (n k : Nat) (h : n ≤ k) : periodicIndices n 0 k = periodicIndices n 0 n := by
  unfold periodicIndices
  rw [List.take_of_length_le (by simpa using h), List.take_of_length_le (by simp)]

/-- Kernel that adds two neighbouring spins. -/
def twoTaps : Nat → Loc → Nat → Nat → ℂ := fun _ w _ _ => if w = [0] ∨ w = [1] then 1 else 0

theorem twoTaps_sum (k : Nat) (hk : 2 ≤ k) (f : Loc → ℂ) :
    ((Verif.Ordering.raster [k]).map fun w => f w * twoTaps 0 w 0 0).sum = f [0] + f [1] := by
  obtain ⟨m, rfl⟩ := Nat.exists_eq_add_of_le' hk
  have hr : Verif.Ordering.raster [m + 2] = [0] :: [1] :: (List.range m).map fun a => [a + 2] := by
    simp only [Verif.Ordering.raster]
    rw [List.range_succ_eq_map, List.range_succ_eq_map]
    simp only [List.map_cons, List.map_nil, List.map_map, List.flatMap_cons, List.flatMap_map, Function.comp, List.singleton_append,
      List.cons.injEq, true_and]
    rw [← List.map_eq_flatMap]
  rw [hr]
  simp only [List.map_cons, List.map_map, List.sum_cons]
  have h0 : (List.map ((fun w => f w * twoTaps 0 w 0 0) ∘ fun a => [a + 2]) (List.range m)).sum = 0 := by
    apply List.sum_eq_zero
    intro z hz
    obtain ⟨a, -, rfl⟩ := List.mem_map.1 hz
    simp [twoTaps]
  rw [h0]
  simp [twoTaps]

/-- What the network of the example computes with this kernel if the padding is cut off: only some of the pairs of neighbours. -/
theorem long_net (n k : Nat) (hn : 3 ≤ n) (hk : n + 1 < k) (hk' : k ≤ 2 * n) (φ : ℂ → ℂ) (x : Nat → ℂ) :
    periodicNet (benchmarkStages 1 1 k φ twoTaps) [n] (fun l => x (l.getD 0 0)) =
      some (((List.range (2 * n + 1 - k)).map fun i => φ (x i + x (i + 1))).sum) := by
  have hpad : min 0 n + n + min (k - 1) n = 2 * n := by omega
  have hdim : convDim (2 * n) k 1 1 = some (2 * n + 1 - k) := by
    unfold convDim
    simp only
    rw [if_pos ⟨by omega, le_rfl, by omega⟩]
    congr 1
    simp
    omega
  simp only [periodicNet, benchmarkStages, List.range_one, List.map_cons, List.map_nil, runStages, Stage.run, Layer.apply, Tensor.sig, Layer.outSig,
    List.length_cons, List.length_nil, if_true, List.zipWith_cons_cons, List.zipWith_nil_left, hpad, Option.map_some, Option.bind_some,
    convShape, hdim, pooled]
  congr 1
  have hr : Verif.Ordering.raster [2 * n + 1 - k] = (List.range (2 * n + 1 - k)).map fun a => [a] := by
    simp only [Verif.Ordering.raster, List.map_cons, List.map_nil]
    rw [← List.map_eq_flatMap]
  rw [hr, List.map_map]
  congr 1
  apply List.map_congr_left
  intro i hi
  have hi : i < 2 * n + 1 - k := List.mem_range.1 hi
  simp only [Function.comp, Layer.call, Conv.call, List.range_one, List.map_cons, List.map_nil, List.sum_cons, List.sum_nil, add_zero,
    List.getD_cons_zero, id, List.length_cons, List.length_nil, Nat.mul_one, Bool.false_eq_true, if_false, Nat.zero_add]
  rw [twoTaps_sum k (by omega)]
  simp only [List.getD_cons_zero, Nat.add_zero]
  rw [periodicIndices_long n (k - 1) (by omega), periodicIndices_getD n 0 n i (by omega) le_rfl (by omega),
    periodicIndices_getD n 0 n (i + 1) (by omega) le_rfl (by omega)]
  have e1 : (i + (n - 0)) % n = i := by rw [Nat.sub_zero, Nat.add_mod_right, Nat.mod_eq_of_lt (by omega)]
  have e2 : (i + 1 + (n - 0)) % n = i + 1 := by rw [Nat.sub_zero, Nat.add_mod_right, Nat.mod_eq_of_lt (by omega)]
  rw [e1, e2]

/-- All spins up but the one at `p`. -/
def oneDown (p : Nat) (i : Nat) : ℂ := if i = p then -1 else 1

theorem up_up (φ : ℂ → ℂ) (p m a : Nat) (h : p < a ∨ a + m < p) :
    ((List.range m).map fun i => φ (oneDown p (i + a) + oneDown p (i + a + 1))).sum = m • φ 2 := by
  have : ∀ y ∈ (List.range m).map fun i => φ (oneDown p (i + a) + oneDown p (i + a + 1)), y = φ 2 := by
    intro y hy
    obtain ⟨i, hi, rfl⟩ := List.mem_map.1 hy
    have hi : i < m := List.mem_range.1 hi
    unfold oneDown
    rw [if_neg (by omega), if_neg (by omega)]
    norm_num
  rw [List.eq_replicate_of_mem this]
  simp

/-- **C125 is false of the code for long kernels**: with more than `n + 1` taps on `n` spins the padding is silently cut off, and for every
activation that tells 2 from 0 (such as lncosh) there are weights and a configuration of spins with another amplitude than one of its translations. -/
theorem C125_violated_long_kernel (n k : Nat) (hn : 3 ≤ n) (hk : n + 1 < k) (hk' : k ≤ 2 * n) (φ : ℂ → ℂ) (hφ : φ 2 ≠ φ 0) :
    ∃ (weights : Nat → Loc → Nat → Nat → ℂ) (x : Nat → ℂ) (t : Nat) (z z' : ℂ), (∀ i, x i = 1 ∨ x i = -1) ∧ z ≠ z' ∧
      periodicNet (benchmarkStages 1 1 k φ weights) [n] (fun l => x (l.getD 0 0)) = some z ∧
      periodicNet (benchmarkStages 1 1 k φ weights) [n] (fun l => x ((l.getD 0 0 + t) % n)) = some z' := by
  have hval : ∀ i, oneDown 0 i = 1 ∨ oneDown 0 i = -1 := by
    intro i; unfold oneDown; split <;> simp
  have hsh : ∀ p, p < n → (periodicNet (benchmarkStages 1 1 k φ twoTaps) [n] fun l => oneDown 0 ((l.getD 0 0 + (n - p)) % n)) =
      periodicNet (benchmarkStages 1 1 k φ twoTaps) [n] fun l => oneDown p (l.getD 0 0) := by
    intro p hp
    rw [long_net n k hn hk hk' φ fun i => oneDown 0 ((i + (n - p)) % n), long_net n k hn hk hk' φ (oneDown p)]
    congr 2
    apply List.map_congr_left
    intro i hi
    have hi : i < 2 * n + 1 - k := List.mem_range.1 hi
    have key : ∀ j, j < n → oneDown 0 ((j + (n - p)) % n) = oneDown p j := by
      intro j hj
      unfold oneDown
      congr 1
      apply propext
      rcases Nat.lt_or_ge j p with h | h
      · rw [Nat.mod_eq_of_lt (by omega)]; omega
      · have e : j + (n - p) = j - p + n := by omega
        rw [e, Nat.add_mod_right, Nat.mod_eq_of_lt (by omega)]; omega
    rw [key i (by omega), key (i + 1) (by omega)]
  by_cases hM : k = 2 * n
  · refine ⟨twoTaps, oneDown 0, n - 2, φ 0, φ 2, hval, hφ.symm, ?_, ?_⟩
    · rw [long_net n k hn hk hk']
      have : 2 * n + 1 - k = 1 := by omega
      rw [this]
      simp [oneDown]
    · rw [hsh 2 (by omega), long_net n k hn hk hk']
      have : 2 * n + 1 - k = 1 := by omega
      rw [this]
      simp [oneDown]
      norm_num
  · obtain ⟨m, hm⟩ : ∃ m, 2 * n + 1 - k = m + 2 := ⟨2 * n + 1 - k - 2, by omega⟩
    refine ⟨twoTaps, oneDown 0, n - 1, φ 0 + (φ 2 + m • φ 2), φ 0 + (φ 0 + m • φ 2), hval, ?_, ?_, ?_⟩
    · intro h
      exact hφ (add_right_cancel (add_left_cancel h))
    · rw [long_net n k hn hk hk', hm, List.range_succ_eq_map, List.range_succ_eq_map]
      simp only [List.map_cons, List.map_map, List.sum_cons]
      have := up_up φ 0 m 2 (Or.inl (by omega))
      congr 2
      · simp [oneDown]
      · congr 1
        · simp [oneDown]; norm_num
    · rw [hsh 1 (by omega), long_net n k hn hk hk', hm, List.range_succ_eq_map, List.range_succ_eq_map]
      simp only [List.map_cons, List.map_map, List.sum_cons]
      have := up_up φ 1 m 2 (Or.inl (by omega))
      congr 2
      · simp [oneDown]
      · congr 1
        · simp [oneDown]

/-- With still longer kernels the network cannot be built. -/
theorem C125_violated_raises (depth width n k : Nat) (hk : 2 * n + 1 < k) (φ : ℂ → ℂ) (weights : Nat → Loc → Nat → Nat → ℂ) (x : Loc → ℂ) :
    periodicNet (benchmarkStages (depth + 1) width k φ weights) [n] x = none := by
  have hdim : ∀ m, m ≤ 2 * n → convDim m k 1 1 = none := by
    intro m hm
    unfold convDim
    simp only
    rw [if_neg (by omega)]
  simp only [periodicNet, benchmarkStages, List.range_succ_eq_map, List.map_cons, runStages, Stage.run, Layer.apply, Tensor.sig, Layer.outSig,
    List.length_cons, List.length_nil, if_true, List.zipWith_cons_cons, List.zipWith_nil_left, Option.map_some, Option.bind_some,
    convShape, List.map_nil]
  rw [hdim _ (by omega)]
  rfl

/-- The hypotheses are met by the default settings of examples/benchmark.py: 20 spins, kernels of four taps; by a two dimensional network with
dilation; and a long kernel is one of five taps on three spins. -/
example : (1 ≤ 4 ∧ 4 ≤ 20 + 1 ∧ 0 < 20) ∧ (3 + 1 < 5 ∧ 5 ≤ 2 * 3) ∧
    (⟨[(1, 1), (0, 4)], ⟨2, [3, 3], [1, 2], [1, 1], true, fun _ _ _ => 1, fun _ => 1, id⟩, id⟩ : Stage ℂ).Fits [4, 5] := by
  refine ⟨by decide, by decide, rfl, rfl, rfl, rfl, ?_, ?_, ?_, ?_⟩ <;> decide

/-- The activation of the example, the logarithm of the hyperbolic cosine (C70), tells 2 from 0. -/
example : (fun z => Complex.log (Complex.cosh z)) 2 ≠ (fun z => Complex.log (Complex.cosh z)) 0 := by
  intro h
  have h2 : (Complex.cosh 2) = ((Real.cosh 2 : ℝ) : ℂ) := by push_cast; rfl
  simp only [Complex.cosh_zero, Complex.log_one, h2] at h
  rw [← Complex.ofReal_log (Real.cosh_pos 2).le, Complex.ofReal_eq_zero] at h
  have h3 : 1 < Real.cosh 2 := Real.one_lt_cosh.2 (by norm_num)
  exact (Real.log_pos h3).ne' h

end Verif.Net
