import Verif.Machines.Sampling

/-!
# C64, C65: sampling from the convolutional machines, end to end
-/
namespace Verif.Machines

open Verif.Net Verif.Autoregressive Verif.Operators
open Verif.Energy (allSpins)

/-! ### Specification -/

/-- The squared amplitudes that the machine gives to all spin configurations add up to one. -/
def Normalised (r : (Nat × Nat) × Graph ℂ) (s0 : Shape) : Prop :=
  ∑ s ∈ allSpins (Site s0), ‖Complex.exp (machineLogWave r.2 s0 r.1.1 s)‖ ^ 2 = 1

/-- `AutoregressiveSampler` on the machine, going through the sites in the given order, returns each batch
of spin configurations with the product of the squared amplitudes as probability. -/
def PlainSamplerExact (r : (Nat × Nat) × Graph ℂ) (s0 : Shape) (sites : List (Site s0)) : Prop :=
  ∀ (B : Nat) (S : Fin B → Config (Site s0)), (∀ b, IsSpin (S b)) →
    rand B (Site s0) {u | sample s0.length false (r.2.logProbs s0 r.1.2) sites u = .ok S} =
      ENNReal.ofReal (∏ b, ‖Complex.exp (machineLogWave r.2 s0 r.1.1 (S b))‖ ^ 2)

/-- `FastAutoregressiveSampler` on the machine can be built, and whatever topological order is used it
returns each batch of spin configurations with the product of the squared amplitudes as probability. -/
def FastSamplerExact (r : (Nat × Nat) × Graph ℂ) (s0 : Shape) : Prop :=
  ∃ sigs es, r.2.sigs (s0, 1) = some sigs ∧ r.2.edges sigs r.1.2 = some es ∧
    (∃ order, IsTopological es order) ∧ ∀ order, IsTopological es order →
    ∀ (B : Nat) (S : Fin B → Config (Site s0)), (∀ b, IsSpin (S b)) →
      rand B (Site s0) {u | ∀ b, ∃ act, r.2.fastSampler sigs r.1.2 (some order) (plainDraw (perLoc s0 (u b))) = some act ∧
          ∀ i : Site s0, sampleOf act i.1 = (S b i : ℂ)} =
        ENNReal.ofReal (∏ b, ‖Complex.exp (machineLogWave r.2 s0 r.1.1 (S b))‖ ^ 2)

/-! ### C65 -/

/-- **C65, one dimension, real network.** -/
theorem C65_real (P : Params1D) (hk : 1 ≤ P.kernelSize) (W : Weights) (n : Nat) (hn : 1 ≤ n) :
    Normalised (machine (build1D P W true)) [n] ∧
    PlainSamplerExact (machine (build1D P W true)) [n] (rasterSites [n]) :=
  ⟨machine_normalised (ok_1D P hk W n hn) _ (rasterSites_complete _) rank_1D,
    fun _ S hS => machine_plain (ok_1D P hk W n hn) 1 (.inl rfl) _ (rasterSites_complete _) rank_1D S hS⟩

/-- **C65, one dimension, complex network.** -/
theorem C65_complex (P : Params1D) (hk : 1 ≤ P.kernelSize) (W : Weights) (n : Nat) (hn : 1 ≤ n) :
    Normalised (machine (buildComplex1D P W)) [n] ∧
    PlainSamplerExact (machine (buildComplex1D P W)) [n] (rasterSites [n]) :=
  ⟨machine_normalised (ok_complex1D P hk W n hn) _ (rasterSites_complete _) rank_1D,
    fun _ S hS => machine_plain (ok_complex1D P hk W n hn) 1 (.inl rfl) _ (rasterSites_complete _) rank_1D S hS⟩

/-- **C65, two dimensions.** -/
theorem C65_2D (P : Params2D) (hk : P.kernelSize % 2 = 1) (Wt : Weights) (H W : Nat) (hH : 1 ≤ H) (hW : 1 ≤ W) :
    Normalised (machine (build2D P Wt)) [H, W] ∧
    PlainSamplerExact (machine (build2D P Wt)) [H, W] (rasterSites [H, W]) :=
  have h := ok_2D P (P.kernelSize / 2) (by omega) Wt H W hH hW
  ⟨machine_normalised h _ (rasterSites_complete _) rank_2D,
    fun _ S hS => machine_plain h 2 (.inr rfl) _ (rasterSites_complete _) rank_2D S hS⟩

/-- The sites of a lattice in a given order. -/
theorem custom_sites {s0 : Shape} {ordering : List Loc} (hperm : ordering.Nodup ∧ ∀ l, l ∈ ordering ↔ InShape l s0)
    {sites : List (Site s0)} (hs : sites.map Subtype.val = ordering) :
    Complete sites ∧ ∀ i j : Site s0, ordering.idxOf j.1 < ordering.idxOf i.1 → Before sites j i := by
  have hc : Complete sites := by
    refine ⟨List.Nodup.of_map Subtype.val (hs ▸ hperm.1), fun i => ?_⟩
    have : i.1 ∈ sites.map Subtype.val := hs ▸ (hperm.2 i.1).2 ((Verif.Ordering.mem_raster _ _).1 i.2)
    obtain ⟨j, hj, e⟩ := List.mem_map.1 this
    rwa [← Subtype.ext e]
  refine ⟨hc, fun i j h => ?_⟩
  have key : ∀ i : Site s0, sites[ordering.idxOf i.1]? = some i := by
    intro i
    obtain ⟨a, ha⟩ := List.mem_iff_getElem?.1 (hc.2 i)
    have h2 : ordering[a]? = some i.1 := by rw [← hs, List.getElem?_map, ha]; rfl
    obtain ⟨hlt, h3⟩ := List.getElem?_eq_some_iff.1 h2
    have : ordering.idxOf i.1 = a := by rw [← h3]; exact hperm.1.idxOf_getElem a hlt
    rw [this, ha]
  exact before_of_getElem hc.1 (key i) (key j) h

/-- **C65, custom ordering.** On chains and two dimensional lattices, with the sampler going through the
sites in the ordering of the machine. -/
theorem C65_custom (s0 : Shape) (hd : s0.length = 1 ∨ s0.length = 2) (hN : 1 ≤ s0.prod) (ordering : List Loc)
    (hperm : ordering.Nodup ∧ ∀ l, l ∈ ordering ↔ InShape l s0) (P : Params1D) (hk : 1 ≤ P.kernelSize) (W : Weights)
    (sites : List (Site s0)) (hs : sites.map Subtype.val = ordering) :
    ∃ net, customNet P W s0 ordering = some net ∧ Normalised (machine net) s0 ∧
      PlainSamplerExact (machine net) s0 sites := by
  have hrank : ∀ (k : Nat) (l : Loc), ordering[k]? = some l → ordering.idxOf l = k := by
    intro k l h
    obtain ⟨hk, rfl⟩ := List.getElem?_eq_some_iff.1 h
    exact hperm.1.idxOf_getElem k hk
  obtain ⟨net, h1, h2⟩ := ok_buildCustom ordering hperm hN P hk W (fun l => ordering.idxOf l) hrank
  obtain ⟨hc, hb⟩ := custom_sites hperm hs
  exact ⟨net, h1, machine_normalised h2 sites hc hb, fun _ S hS => machine_plain h2 _ hd sites hc hb S hS⟩

/-! ### C64 -/

/-- **C64, one dimension, real network.** -/
theorem C64_real_partial (P : Params1D) (hk : 1 ≤ P.kernelSize) (W : Weights) (n : Nat) (hn : 1 ≤ n) :
    FastSamplerExact (machine (build1D P W true)) [n] :=
  machine_fast (ok_1D P hk W n hn) 1 (.inl rfl) _ (rasterSites_complete _) rank_1D

/-- **C64, one dimension, complex network.** -/
theorem C64_complex_partial (P : Params1D) (hk : 1 ≤ P.kernelSize) (W : Weights) (n : Nat) (hn : 1 ≤ n) :
    FastSamplerExact (machine (buildComplex1D P W)) [n] :=
  machine_fast (ok_complex1D P hk W n hn) 1 (.inl rfl) _ (rasterSites_complete _) rank_1D

/-- **C64, two dimensions.** -/
theorem C64_2D_partial (P : Params2D) (hk : P.kernelSize % 2 = 1) (Wt : Weights) (H W : Nat) (hH : 1 ≤ H) (hW : 1 ≤ W) :
    FastSamplerExact (machine (build2D P Wt)) [H, W] :=
  machine_fast (ok_2D P (P.kernelSize / 2) (by omega) Wt H W hH hW) 2 (.inr rfl) _ (rasterSites_complete _) rank_2D

theorem visit_keeps (g : Graph ℂ) : ∀ f k vis, ∀ m ∈ vis, m ∈ g.visit f k vis := by
  intro f
  induction f with
  | zero => intro k vis m h; exact h
  | succ f ih =>
    intro k vis m h
    unfold Graph.visit
    have loop : ∀ (is v : List Nat), m ∈ v → m ∈ is.foldl (fun v i => if i ∈ v then v else g.visit f i v) v := by
      intro is
      induction is with
      | nil => intro v h; exact h
      | cons i is ihl =>
        intro v h
        rw [List.foldl_cons]
        apply ihl
        split
        · exact h
        · exact ih i v m h
    exact loop _ _ (List.mem_append_left _ h)

theorem visit_self (g : Graph ℂ) (f k : Nat) (vis : List Nat) : k ∈ g.visit (f + 1) k vis := by
  unfold Graph.visit
  have loop : ∀ (is v : List Nat), k ∈ v → k ∈ is.foldl (fun v i => if i ∈ v then v else g.visit f i v) v := by
    intro is
    induction is with
    | nil => intro v h; exact h
    | cons i is ihl =>
      intro v h
      rw [List.foldl_cons]
      apply ihl
      split
      · exact h
      · exact visit_keeps g f i v k h
  exact loop _ _ (by simp)

/-- **C64 fails with a custom ordering.** For every ordering of every non-empty lattice, every setting and
all weights, building the dependency graph of `SimpleCustomOrderingAutoregressive` raises, so
`FastAutoregressiveSampler` cannot be built. -/
theorem C64_violated_custom (s0 : Shape) (hN : 1 ≤ s0.prod) (ordering : List Loc)
    (hperm : ordering.Nodup ∧ ∀ l, l ∈ ordering ↔ InShape l s0) (P : Params1D) (hk : 1 ≤ P.kernelSize) (W : Weights) :
    ∃ net sigs, customNet P W s0 ordering = some net ∧ (machine net).2.sigs (s0, 1) = some sigs ∧
      (machine net).2.edges sigs (machine net).1.2 = none ∧
      ∀ r draw, (machine net).2.fastSampler sigs (machine net).1.2 r draw = none := by
  have hrank : ∀ (k : Nat) (l : Loc), ordering[k]? = some l → ordering.idxOf l = k := by
    intro k l h
    obtain ⟨hk, rfl⟩ := List.getElem?_eq_some_iff.1 h
    exact hperm.1.idxOf_getElem k hk
  obtain ⟨net, h1, h2⟩ := ok_buildCustom ordering hperm hN P hk W (fun l => ordering.idxOf l) hrank
  have hn : Ok _ s0 _ _ (machine net) _ := ok_normalized net h2
  obtain ⟨sigs, hm, -⟩ := built_causal (out := fun r : Nat × Nat => r.2) (hn.imp fun _ _ _ h => h.2.1)
  obtain ⟨sigs', hm', -⟩ := built_causal (out := fun _ : Nat × Nat => (net 0 start).1) (hn.imp fun _ _ _ h => h.2.2)
  obtain rfl : sigs' = sigs := Option.some.inj (hm'.built.symm.trans hm.built)
  obtain ⟨i1, i2⟩ := machine_nodes net
  -- the last layer of the network is a reshape
  obtain ⟨t, y, hy⟩ : ∃ t y, (machine net).2[(net 0 start).1]? = some ⟨.reshape t, [y]⟩ := by
    unfold customNet at h1
    obtain ⟨inv, -, rfl⟩ := Option.map_eq_some_iff.1 h1
    have e : ∀ (g : Graph ℂ) t y, (add (.reshape t) [y] g).2[(add (.reshape t) [y] g).1]? = some ⟨.reshape t, [y]⟩ := by
      intro g t y
      simp [add]
    have hb : ∀ {α : Type} (m : Build ℂ α) (f : α → Build ℂ Nat) (g : Graph ℂ),
        (∀ x g', ∃ t y, (f x g').2[(f x g').1]? = some ⟨.reshape t, [y]⟩) →
        ∃ t y, ((m >>= f) g).2[((m >>= f) g).1]? = some ⟨.reshape t, [y]⟩ := fun m f g h => h _ _
    obtain ⟨t, y, h⟩ : ∃ t y, (buildCustom P W s0 (Verif.Ordering.toFlatOrdering ordering s0) inv 0 start).2[
        (buildCustom P W s0 (Verif.Ordering.toFlatOrdering ordering s0) inv 0 start).1]? = some ⟨.reshape t, [y]⟩ := by
      unfold buildCustom
      iterate 5 refine hb _ _ _ fun _ _ => ?_
      exact ⟨_, _, e _ _ _⟩
    refine ⟨t, y, ?_⟩
    have hpre : ∀ (g : Graph ℂ) (k : Nat) (v a b : Node ℂ), g[k]? = some v → (g ++ [a] ++ [b])[k]? = some v := by
      intro g k v a b h
      have hlt := (List.getElem?_eq_some_iff.1 h).1
      rw [List.append_assoc, List.getElem?_append_left hlt, h]
    exact hpre (buildCustom P W s0 (Verif.Ordering.toFlatOrdering ordering s0) inv 0 start).2 _ _ _ _ h
  have hedges : (machine net).2.edges sigs' (machine net).1.2 = none := by
    unfold Graph.edges
    cases hcol : collect ((machine net).2.layerEdges sigs')
        ((machine net).2.visit ((machine net).1.2 + 1) (machine net).1.2 []) with
    | none => rfl
    | some es =>
      exfalso
      have hx : (net 0 start).1 ∈ (machine net).2.visit ((machine net).1.2 + 1) (machine net).1.2 [] := by
        have j1 : (machine net).2.inputs (machine net).1.1 = [(net 0 start).1] := by simp [Graph.inputs, i1]
        have j2 : (machine net).2.inputs (machine net).1.2 = [(machine net).1.1] := by simp [Graph.inputs, i2]
        have l1 := hm.inputs_lt (machine net).1.1 (net 0 start).1 (by rw [j1]; simp)
        have l2 := hm.inputs_lt (machine net).1.2 (machine net).1.1 (by rw [j2]; simp)
        rw [Graph.visit, j2]
        simp only [List.nil_append, List.foldl_cons, List.foldl_nil, List.mem_singleton]
        rw [if_neg (by omega)]
        obtain ⟨p, hp⟩ : ∃ p, (machine net).1.2 = p + 1 + 1 := ⟨(machine net).1.2 - 2, by omega⟩
        generalize hq : [(machine net).1.2] = vis
        rw [hp, Graph.visit, j1]
        simp only [List.foldl_cons, List.foldl_nil]
        rw [if_neg (by
          subst hq
          simp only [List.mem_append, List.mem_singleton]
          omega)]
        exact visit_self _ _ _ _
      obtain ⟨q, hq, -⟩ := (collect_spec hcol).1 _ hx
      unfold Graph.layerEdges at hq
      rw [hy] at hq
      dsimp only at hq
      rw [if_neg (by simp), hm'.output] at hq
      cases hg : getAll sigs' [y] with
      | none => rw [hg] at hq; simp at hq
      | some qs =>
        rw [hg] at hq
        simp only [Option.bind_some] at hq
        have hne : Verif.Ordering.raster s0 ≠ [] := by
          intro h
          have := Verif.Ordering.length_raster s0
          rw [h] at this
          simp at this
          omega
        obtain ⟨l, hl⟩ := List.exists_mem_of_ne_nil _ hne
        obtain ⟨q', hq', -⟩ := (collect_spec hq).1 l hl
        simp [Layer.depsKw] at hq'
  refine ⟨net, sigs', h1, hm.built, hedges, fun r draw => ?_⟩
  unfold Graph.fastSampler
  rw [hedges]
  rfl

/-! ### Concrete cases -/

/-- The hypotheses are met: depth three, four channels, kernel three, dilated, with skip connections. -/
example : FastSamplerExact (machine (build1D
    { depth := 3, channels := 4, useDilation := true, skip := true, act := none } ⟨fun _ _ _ _ => 1, fun _ _ => 1⟩ true)) [5] :=
  C64_real_partial _ (by decide) _ _ (by decide)

/-- The hypotheses are met on a 2 by 2 lattice in a boustrophedon order. -/
example : ∃ net, customNet { depth := 2, channels := 3, act := none } ⟨fun _ _ _ _ => 1, fun _ _ => 1⟩ [2, 2]
    [[0, 0], [0, 1], [1, 1], [1, 0]] = some net ∧ Normalised (machine net) [2, 2] ∧
    PlainSamplerExact (machine net) [2, 2] [⟨[0, 0], by decide⟩, ⟨[0, 1], by decide⟩, ⟨[1, 1], by decide⟩, ⟨[1, 0], by decide⟩] :=
  C65_custom [2, 2] (.inr rfl) (by decide) _ ⟨by decide, fun l => by
    rw [← show l ∈ Verif.Ordering.raster [2, 2] ↔ InShape l [2, 2] from Verif.Ordering.mem_raster _ _]
    simp [Verif.Ordering.raster, List.range_succ]
    tauto⟩ _ (by decide) _ _ rfl

end Verif.Machines
