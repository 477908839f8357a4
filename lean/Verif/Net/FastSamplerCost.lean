import Verif.Net.FastSamplerProps
import Verif.Machines.SamplingProps

/-!
C135: the fast sampler computes every activation at most once, never reads an activation before it is computed, and
draws a sample with at most the work of a single evaluation of the network.
-/
namespace Verif.Net

open Verif.Autoregressive (Before)

variable {K : Type} [CommSemiring K]

/-! ### The loop with a record of what it computes and reads -/

/-- The activations read when the value of a cell is computed (fast_autoregressive.py:51-56, 67-72): for the input layer,
whose topology is the sampling topology, the output of the network at that site; else the dependencies of the layer. -/
def Graph.reads (g : Graph K) (sigs : List Sig) (out : Nat) (c : Cell) : List Cell :=
  match g[c.1]? with
  | none => []
  | some n =>
    match n.layer with
    | .input => [(out, c.2)]
    | L => (((getAll sigs n.inputs).bind fun qs => L.depsKw qs c.2).getD []).map fun d => (n.inputs.getD d.1 0, d.2)

/-- The loop of `_build_sampling_function` (fast_autoregressive.py:65-74) with a record: the cells whose layer is applied,
in order, each with the activations it reads. `applyAt act c` applies the layer at the cell. -/
def record {ι α : Type} [DecidableEq ι] (applyAt : (ι → α) → ι → Option α) (reads : ι → List ι) :
    List ι → (ι → α) → Option ((ι → α) × List (ι × List ι))
  | [], a => some (a, [])
  | c :: cs, a => (applyAt a c).bind fun v => (record applyAt reads cs (Function.update a c v)).bind fun r =>
      some (r.1, (c, reads c) :: r.2)

/-- The fast sampler (`Graph.fastSampler`) with the record of its work. -/
def Graph.fastSamplerRecord (g : Graph K) (sigs : List Sig) (out : Nat) (r : Option (List Cell)) (draw : Loc → List K → K) :
    Option ((Cell → List K) × List (Cell × List Cell)) :=
  (g.edges sigs out).bind fun _ => r.bind fun order =>
    record (g.cellValue sigs out draw) (g.reads sigs out) order fun c =>
      match sigs[c.1]? with
      | some q => List.replicate q.2 0
      | none => []

/-! ### Specification -/

/-- Number of activations (cells of all layers, the input included) of a network with these shapes. -/
def activations (sigs : List Sig) : Nat := (sigs.map fun q => q.1.prod).sum

/-- A record in which nothing is computed twice and everything is computed before it is read. -/
structure Economical (work : List (Cell × List Cell)) : Prop where
  once : (work.map Prod.fst).Nodup
  ready : ∀ before after c rs, work = before ++ (c, rs) :: after → ∀ r ∈ rs, r ∈ before.map Prod.fst

/-! ### Proofs -/

theorem record_eq {ι α : Type} [DecidableEq ι] (applyAt : (ι → α) → ι → Option α) (reads : ι → List ι) :
    ∀ (order : List ι) (a : ι → α), record applyAt reads order a =
      (runAll applyAt order a).map fun r => (r, order.map fun c => (c, reads c))
  | [], a => rfl
  | c :: cs, a => by
    unfold record runAll
    cases h : applyAt a c with
    | none => rfl
    | some v =>
      simp only [Option.bind_some]
      rw [record_eq applyAt reads cs]
      cases runAll applyAt cs (Function.update a c v) <;> rfl

theorem before_split {ι : Type} [DecidableEq ι] {l1 l2 : List ι} {c r : ι} (hnd : (l1 ++ c :: l2).Nodup)
    (h : Before (l1 ++ c :: l2) r c) : r ∈ l1 := by
  have hc1 : c ∉ l1 := fun h => (List.nodup_append.1 hnd).2.2 c h c (List.mem_cons_self ..) rfl
  unfold Before at h
  rw [List.idxOf_append_of_notMem hc1, List.idxOf_cons_self, Nat.add_zero] at h
  by_contra hnot
  rw [List.idxOf_append_of_notMem hnot] at h
  omega

variable {g : Graph K} {s0 : Shape} {sigs : List Sig} {out cout : Nat}

/-- The values computed at a cell depend on nothing else than the recorded reads. -/
theorem C135_reads (draw : Loc → List K → K) (a b : Cell → List K) (c : Cell)
    (h : ∀ r ∈ g.reads sigs out c, a r = b r) : g.cellValue sigs out draw a c = g.cellValue sigs out draw b c := by
  unfold Graph.reads at h
  unfold Graph.cellValue
  split
  · rfl
  · rename_i n hn
    rw [hn] at h
    simp only at h
    split
    · rename_i hl
      rw [hl] at h
      simp only at h
      rw [h _ (List.mem_singleton.2 rfl)]
    · rename_i hl
      have h' : ∀ r ∈ (((getAll sigs n.inputs).bind fun qs => n.layer.depsKw qs c.2).getD []).map
          (fun d => (n.inputs.getD d.1 0, d.2)), a r = b r := by
        intro r hr
        apply h
        split
        · rename_i h2
          exact absurd h2 hl
        · exact hr
      cases hq : getAll sigs n.inputs with
      | none => rfl
      | some qs =>
        cases sigs[c.1]? with
        | none => rfl
        | some q =>
          cases hd : n.layer.depsKw qs c.2 with
          | none => simp [hd]
          | some ds =>
            simp only [Option.bind_some, hd]
            congr 1
            apply List.map_congr_left
            intro d hd'
            apply h'
            rw [hq, Option.bind_some, hd, Option.getD_some]
            exact List.mem_map.2 ⟨d, hd', rfl⟩

section
variable (hm : g.Model s0 sigs out cout) {es : List (Cell × Cell)} (he : g.edges sigs out = some es)
  {order : List Cell} (ho : IsTopological es order)
include hm he ho

theorem reads_before (c : Cell) (hc : c ∈ order) : ∀ r ∈ g.reads sigs out c, Before order r c := by
  intro r hr
  obtain ⟨e, hee, hec⟩ := (ho.2.1 c).1 hc
  obtain ⟨hcells, hsamp⟩ := hm.graph he
  obtain ⟨q, hq, hin, hcell⟩ := hcells e hee c hec
  by_cases hk : c.1 = 0
  · have hlen : c.1 < g.length := by
      have := (List.getElem?_eq_some_iff.1 hq).1
      rwa [(sigs_spec hm.built).1] at this
    have hn := List.getElem?_eq_getElem hlen
    have hl := (hm.first c.1 _ hn).2 hk
    have hq0 := ((sigs_spec hm.built).2 c.1 _ hn).1 hl
    rw [hq] at hq0
    obtain rfl := Option.some.inj hq0
    unfold Graph.reads at hr
    rw [hn] at hr
    simp only [hl] at hr
    obtain rfl := List.mem_singleton.1 hr
    have := ho.2.2 _ (hsamp c.2 hin)
    have hc0 : c = (0, c.2) := by rw [← hk]
    rw [← hc0] at this
    exact this
  · obtain ⟨n, ds, hn, qs, hqs, hds, -, hed⟩ := hcell hk
    have hin : n.layer ≠ .input := fun h => hk ((hm.first c.1 n hn).1 h)
    unfold Graph.reads at hr
    rw [hn] at hr
    simp only [hqs, hds, Option.bind_some, Option.getD_some] at hr
    obtain ⟨d, hd, rfl⟩ := List.mem_map.1 hr
    exact ho.2.2 _ (hed d hd)

/-- All cells of a network with these shapes. -/
def allCells (sigs : List Sig) : List Cell :=
  (List.range sigs.length).flatMap fun k => (Verif.Ordering.raster ((sigs.getD k ([], 0)).1)).map fun l => (k, l)

omit [CommSemiring K] hm he ho in
theorem length_allCells (sigs : List Sig) : (allCells sigs).length = activations sigs := by
  unfold allCells activations
  rw [List.length_flatMap]
  congr 1
  apply List.ext_getElem (by simp)
  intro k h1 h2
  simp at h1
  simp [Verif.Ordering.length_raster, List.getD_eq_getElem?_getD, h1]

theorem order_cells : order.length ≤ activations sigs := by
  rw [← length_allCells]
  refine (ho.1.subperm fun c hc => ?_).length_le
  obtain ⟨e, hee, hec⟩ := (ho.2.1 c).1 hc
  obtain ⟨hcells, -⟩ := hm.graph he
  obtain ⟨q, hq, hin, -⟩ := hcells e hee c hec
  unfold allCells
  rw [List.mem_flatMap]
  refine ⟨c.1, List.mem_range.2 (List.getElem?_eq_some_iff.1 hq).1, List.mem_map.2 ⟨c.2, ?_, rfl⟩⟩
  rw [List.getD_eq_getElem?_getD, hq]
  exact (Verif.Ordering.mem_raster _ _).2 hin

/-- **C135.** For every model of supported layers, every topological order of its dependency graph and all draws: the
sampler computes the same activations as without the record, no activation twice, each after all those it reads, and at
most as many as the network has, i.e. as a single evaluation of the network computes. -/
theorem C135_work (draw : Loc → List K → K) :
    ∃ act work, g.fastSamplerRecord sigs out (some order) draw = some (act, work) ∧
      g.fastSampler sigs out (some order) draw = some act ∧ Economical work ∧ work.length ≤ activations sigs := by
  obtain ⟨act, h1, -⟩ := fastSample_fixed hm he ho draw
  refine ⟨act, order.map fun c => (c, g.reads sigs out c), ?_, ?_, ⟨?_, ?_⟩, ?_⟩
  · unfold Graph.fastSamplerRecord
    rw [he]
    simp only [Option.bind_some, record_eq]
    exact congrArg (Option.map fun r => (r, order.map fun c => (c, g.reads sigs out c))) h1
  · simp only [Graph.fastSampler, he, Option.bind_some, h1]
  · rw [List.map_map]
    show (order.map id).Nodup
    rw [List.map_id]
    exact ho.1
  · intro before after c rs h r hr
    obtain ⟨o1, o2, ho12, hb, h2⟩ := List.map_eq_append_iff.1 h
    obtain ⟨c', o3, ho3, hc, -⟩ := List.map_eq_cons_iff.1 h2
    obtain ⟨rfl, rfl⟩ := Prod.mk.inj hc
    subst ho3
    have hmem : c' ∈ order := by rw [ho12]; simp
    have hbf := reads_before hm he ho c' hmem r hr
    rw [← hb, List.map_map]
    show r ∈ o1.map id
    rw [List.map_id]
    have hnd := ho.1
    rw [ho12] at hnd hbf
    exact before_split hnd hbf
  · rw [List.length_map]
    exact order_cells hm he ho

end

end Verif.Net

/-! ### The shipped machines -/

namespace Verif.Machines

open Verif.Net Verif.Autoregressive

/-- The fast sampler can be built for the machine, and whatever topological order is used, it draws every sample with
each activation computed at most once and after those it reads, and with at most as many applications of a layer at a
cell as the network has activations. -/
def EconomicalSampler (r : (Nat × Nat) × Graph ℂ) (s0 : Shape) : Prop :=
  ∃ sigs es, r.2.sigs (s0, 1) = some sigs ∧ r.2.edges sigs r.1.2 = some es ∧ (∃ order, IsTopological es order) ∧
    ∀ order, IsTopological es order → ∀ draw, ∃ act work,
      r.2.fastSamplerRecord sigs r.1.2 (some order) draw = some (act, work) ∧
      r.2.fastSampler sigs r.1.2 (some order) draw = some act ∧ Economical work ∧ work.length ≤ activations sigs

theorem machine_economical {s0 : Shape} {rank : Loc → Nat} {net : Nat → Build ℂ Nat}
    (h : Ok true s0 [(s0, 1)] [fun l => rank l + 1] (net 0 start) fun j s' b' => At s' b' j (s0, 2) rank) :
    EconomicalSampler (machine net) s0 := by
  have hn : Ok _ s0 _ _ (machine net) _ := ok_normalized net h
  obtain ⟨sigs, hm, -, hac⟩ := built_causal (out := fun r : Nat × Nat => r.2) (hn.imp fun _ _ _ h => h.2.1)
  obtain ⟨es, he, hac⟩ := hac rfl fun l _ => Nat.lt_succ_self _
  exact ⟨sigs, es, hm.built, he, exists_topological es hac, fun order ho draw => C135_work hm he ho draw⟩

/-- **C135**, the convolutional network in one dimension. -/
theorem C135_real (P : Params1D) (hk : 1 ≤ P.kernelSize) (W : Weights) (n : Nat) (hn : 1 ≤ n) :
    EconomicalSampler (machine (build1D P W true)) [n] := machine_economical (ok_1D P hk W n hn)

/-- **C135**, the network with complex values in one dimension. -/
theorem C135_complex (P : Params1D) (hk : 1 ≤ P.kernelSize) (W : Weights) (n : Nat) (hn : 1 ≤ n) :
    EconomicalSampler (machine (buildComplex1D P W)) [n] := machine_economical (ok_complex1D P hk W n hn)

/-- **C135**, the network in two dimensions. -/
theorem C135_2D (P : Params2D) (hk : P.kernelSize % 2 = 1) (Wt : Weights) (H W : Nat) (hH : 1 ≤ H) (hW : 1 ≤ W) :
    EconomicalSampler (machine (build2D P Wt)) [H, W] :=
  machine_economical (ok_2D P (P.kernelSize / 2) (by omega) Wt H W hH hW)

end Verif.Machines
