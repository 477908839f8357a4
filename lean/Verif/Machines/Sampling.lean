import Verif.Machines.Props

/-!
# C64, C65: the shipped machines end to end: normalisation and sampling
-/
namespace Verif.Machines

open Verif.Net Verif.Autoregressive Verif.Operators
open Verif.Energy (allSpins)

/-- `predictions` of the machine (machines/abstract_machine.py:34-37) whose `conditional_log_wave_function`
is node `w` of the network: the logarithm of the amplitude of a configuration. -/
noncomputable def machineLogWave (g : Graph ℂ) (s0 : Shape) (w : Nat) (s : Config (Site s0)) : ℂ :=
  combine (fun i c => (g.output s0 w (toInput s0 s) i.1).getD c 0) fun i => plusMinusOneToOneHot (s i)

/-! ### The last two layers -/

/-- Output of a node as conditional amplitudes. -/
noncomputable def netOf (g : Graph ℂ) (s0 : Shape) (out : Nat) : Verif.Autoregressive.Net (Site s0) := fun s i c =>
  (g.output s0 out (toInput s0 s) i.1).getD c 0

theorem output_feature {g : Graph ℂ} {s0 : Shape} {sigs : List Sig} {k x c : Nat} {f : List ℂ → List ℂ}
    (hm : g.Model s0 sigs k c) (hk : g[k]? = some ⟨.feature c f, [x]⟩)
    (y : Loc → ℂ) (l : Loc) (hl : InShape l s0) : g.output s0 k y l = f (g.output s0 x y l) := by
  obtain ⟨ts, ht, hsig⟩ := hm.eval y
  have hlk : ∀ j, g.output s0 j y l = lookup ts (j, l) := by
    intro j
    unfold Graph.output lookup
    rw [ht]
    dsimp only
    cases ts[j]? <;> rfl
  have hk0 : k ≠ 0 := fun h => by
    have := (hm.first k _ hk).2 h
    simp at this
  obtain ⟨qs, q, t, -, hqs, hq, htk, htq, hall⟩ := hm.node ht hk hk0
  rw [hm.output] at hq
  obtain rfl := Option.some.inj hq
  obtain ⟨qx, rfl, hs⟩ : ∃ qx : Sig, qs = [qx] ∧ qx.1 = s0 := by
    obtain ⟨qs', q', h1, h2, h3⟩ := (((sigs_spec hm.built).2 k _ hk).2 (by simp)).2
    rw [hqs] at h1
    obtain rfl := Option.some.inj h1
    rw [hm.output] at h3
    obtain rfl := Option.some.inj h3
    cases hx : sigs[x]? with
    | none => simp [getAll, hx] at hqs
    | some qx =>
      simp only [getAll, hx] at hqs
      obtain rfl := (Option.some.inj hqs).symm
      simp only [Layer.outSig, Option.some.injEq, Prod.mk.injEq, and_true] at h2
      exact ⟨qx, rfl, h2⟩
  obtain ⟨ds, hds, -, happ⟩ := hall l hl
  simp only [Layer.deps, List.map_cons, List.map_nil, hs, oneToOne_one hl, Option.some.injEq] at hds
  subst hds
  rw [hlk, hlk]
  simp only [List.map_cons, List.map_nil, List.getD_cons_zero, Layer.applySingle, Option.some.injEq] at happ
  rw [happ]
  simp only [lookup, htk]

section machine
variable {kw : Bool} {s0 : Shape} {net : Nat → Build ℂ Nat} {rank : Loc → Nat}

/-- The nodes of a machine. -/
theorem machine_nodes (net : Nat → Build ℂ Nat) :
    (machine net).2[(machine net).1.1]? = some ⟨.feature 2 normalize, [(net 0 start).1]⟩ ∧
    (machine net).2[(machine net).1.2]? =
      some ⟨.feature 2 fun v => v.map fun z => ((z.re * 2 : ℝ) : ℂ), [(machine net).1.1]⟩ := by
  have h1 : (machine net).2 = (net 0 start).2 ++ [(⟨.feature 2 normalize, [(net 0 start).1]⟩ : Node ℂ)] ++
      [⟨.feature 2 fun v => v.map fun z => ((z.re * 2 : ℝ) : ℂ), [(net 0 start).2.length]⟩] := rfl
  have h2 : (machine net).1 = ((net 0 start).2.length, ((net 0 start).2 ++ [(⟨.feature 2 normalize, [(net 0 start).1]⟩ : Node ℂ)]).length) := rfl
  rw [h1, h2]
  constructor
  · simp
  · dsimp only
    rw [List.getElem?_concat_length]

theorem getD_normalize (v : List ℂ) (c : Fin 2) :
    (normalize v).getD c 0 = normalizeComplex 2 (fun c : Fin 2 => v.getD c 0) c := by
  unfold normalize
  rw [List.getD_eq_getElem?_getD, List.getElem?_ofFn, dif_pos c.2]
  simp

/-- The two outputs of a machine in terms of the unnormalised network. -/
theorem machine_outputs
    (h : Ok kw s0 [(s0, 1)] [fun l => rank l + 1] (net 0 start) fun j s' b' => At s' b' j (s0, 2) rank) :
    (∀ s (i : Site s0) (c : Fin 2), ((machine net).2.output s0 (machine net).1.1 (toInput s0 s) i.1).getD c 0 =
      condLogWave (netOf (machine net).2 s0 (net 0 start).1) s i c) ∧
    (machine net).2.logProbs s0 (machine net).1.2 = condLogProbs (netOf (machine net).2 s0 (net 0 start).1) := by
  have hn : Ok _ s0 _ _ (machine net) _ := ok_normalized net h
  obtain ⟨s1, m1, -⟩ := built_causal (out := fun r : Nat × Nat => r.1) (hn.imp fun _ _ _ h => h.1)
  obtain ⟨s2, m2, -⟩ := built_causal (out := fun r : Nat × Nat => r.2) (hn.imp fun _ _ _ h => h.2.1)
  have hw : ∀ s (i : Site s0) (c : Fin 2), ((machine net).2.output s0 (machine net).1.1 (toInput s0 s) i.1).getD c 0 =
      condLogWave (netOf (machine net).2 s0 (net 0 start).1) s i c := by
    intro s i c
    rw [output_feature m1 (machine_nodes net).1 _ _ ((Verif.Ordering.mem_raster _ _).1 i.2), getD_normalize]
    rfl
  refine ⟨hw, ?_⟩
  funext s i c
  unfold Graph.logProbs
  have hl := (Verif.Ordering.mem_raster _ _).1 i.2
  rw [output_feature m2 (machine_nodes net).2 _ _ hl]
  have hlen := output_length m1 (toInput s0 s) i.1 hl
  unfold condLogProbs
  rw [← hw, List.getD_eq_getElem?_getD, List.getElem?_map, List.getD_eq_getElem?_getD,
    List.getElem?_eq_getElem (by rw [hlen]; exact c.2)]
  simp

theorem netOf_causal
    (h : Ok kw s0 [(s0, 1)] [fun l => rank l + 1] (net 0 start) fun j s' b' => At s' b' j (s0, 2) rank)
    (sites : List (Site s0)) (hr : ∀ i j : Site s0, rank j.1 < rank i.1 → Before sites j i) :
    Causal sites (netOf (machine net).2 s0 (net 0 start).1) := by
  have hn : Ok _ s0 _ _ (machine net) _ := ok_normalized net h
  obtain ⟨s1, m1, c1, -⟩ := built_causal (out := fun _ : Nat × Nat => (net 0 start).1) (hn.imp fun _ _ _ h => h.2.2)
  intro s s' i hs
  funext c
  unfold netOf
  have := c1 (toInput s0 s) (toInput s0 s') i.1 ((Verif.Ordering.mem_raster _ _).1 i.2) (by
    intro j hj hle
    have hj' : j ∈ Verif.Ordering.raster s0 := (Verif.Ordering.mem_raster _ _).2 hj
    simp only [toInput, dif_pos hj']
    rw [hs ⟨j, hj'⟩ (hr i ⟨j, hj'⟩ (by simpa using hle))])
  exact congrArg (fun v : List ℂ => v.getD c 0) this

/-- Squared amplitudes of a machine add up to one. -/
theorem machine_normalised
    (h : Ok kw s0 [(s0, 1)] [fun l => rank l + 1] (net 0 start) fun j s' b' => At s' b' j (s0, 2) rank)
    (sites : List (Site s0)) (hs : Complete sites) (hr : ∀ i j : Site s0, rank j.1 < rank i.1 → Before sites j i) :
    ∑ s ∈ allSpins (Site s0), ‖Complex.exp (machineLogWave (machine net).2 s0 (machine net).1.1 s)‖ ^ 2 = 1 := by
  rw [← C35_normalised (netOf (machine net).2 s0 (net 0 start).1) sites hs (netOf_causal h sites hr)]
  refine Finset.sum_congr rfl fun s _ => ?_
  have : machineLogWave (machine net).2 s0 (machine net).1.1 s = logWave (netOf (machine net).2 s0 (net 0 start).1) s := by
    unfold machineLogWave logWave
    congr 1
    funext i c
    exact (machine_outputs h).1 s i c
  rw [this]

/-- The plain sampler draws configurations with the squared amplitude as probability. -/
theorem machine_plain
    (h : Ok kw s0 [(s0, 1)] [fun l => rank l + 1] (net 0 start) fun j s' b' => At s' b' j (s0, 2) rank)
    (dims : Nat) (hd : dims = 1 ∨ dims = 2)
    (sites : List (Site s0)) (hs : Complete sites) (hr : ∀ i j : Site s0, rank j.1 < rank i.1 → Before sites j i)
    {B : Nat} (S : Fin B → Config (Site s0)) (hS : ∀ b, IsSpin (S b)) :
    rand B (Site s0) {u | sample dims false ((machine net).2.logProbs s0 (machine net).1.2) sites u = .ok S} =
      ENNReal.ofReal (∏ b, ‖Complex.exp (machineLogWave (machine net).2 s0 (machine net).1.1 (S b))‖ ^ 2) := by
  rw [(machine_outputs h).2, C36_distribution dims hd _ sites hs (netOf_causal h sites hr) S hS]
  congr 1
  refine Finset.prod_congr rfl fun b _ => ?_
  have : machineLogWave (machine net).2 s0 (machine net).1.1 (S b) = logWave (netOf (machine net).2 s0 (net 0 start).1) (S b) := by
    unfold machineLogWave logWave
    congr 1
    funext i c
    exact (machine_outputs h).1 (S b) i c
  rw [this]

/-- Random numbers of one batch row, per location. -/
noncomputable def perLoc (s0 : Shape) (u : Site s0 → ℝ) (l : Loc) : ℝ :=
  if h : l ∈ Verif.Ordering.raster s0 then u ⟨l, h⟩ else 0

/-- The fast sampler draws with the same probabilities. -/
theorem machine_fast
    (h : Ok true s0 [(s0, 1)] [fun l => rank l + 1] (net 0 start) fun j s' b' => At s' b' j (s0, 2) rank)
    (dims : Nat) (hd : dims = 1 ∨ dims = 2)
    (sites : List (Site s0)) (hs : Complete sites) (hr : ∀ i j : Site s0, rank j.1 < rank i.1 → Before sites j i) :
    ∃ sigs es, (machine net).2.sigs (s0, 1) = some sigs ∧ (machine net).2.edges sigs (machine net).1.2 = some es ∧
      (∃ order, IsTopological es order) ∧ ∀ order, IsTopological es order →
      ∀ (B : Nat) (S : Fin B → Config (Site s0)), (∀ b, IsSpin (S b)) →
        rand B (Site s0) {u | ∀ b, ∃ act, (machine net).2.fastSampler sigs (machine net).1.2 (some order)
            (plainDraw (perLoc s0 (u b))) = some act ∧ ∀ i : Site s0, sampleOf act i.1 = (S b i : ℂ)} =
          ENNReal.ofReal (∏ b, ‖Complex.exp (machineLogWave (machine net).2 s0 (machine net).1.1 (S b))‖ ^ 2) := by
  have hn : Ok _ s0 _ _ (machine net) _ := ok_normalized net h
  obtain ⟨sigs, hm, -, hac⟩ := built_causal (out := fun r : Nat × Nat => r.2) (hn.imp fun _ _ _ h => h.2.1)
  obtain ⟨es, he, hac⟩ := hac rfl fun l _ => Nat.lt_succ_self _
  refine ⟨sigs, es, hm.built, he, exists_topological es hac, fun order ho B S hS => ?_⟩
  rw [← machine_plain h dims hd sites hs hr S hS]
  have hcausal : Causal sites ((machine net).2.logProbs s0 (machine net).1.2) := by
    rw [(machine_outputs h).2]
    exact condLogProbs_causal _ _ (netOf_causal h sites hr)
  congr 1
  ext u
  simp only [Set.mem_setOf_eq]
  obtain ⟨S', h1, h2⟩ := C43_plain_sampler hm he ho dims hd sites hs hcausal fun b => perLoc s0 (u b)
  have hu : (fun (b : Fin B) (i : Site s0) => perLoc s0 (u b) i.1) = u := by
    funext b i
    simp only [perLoc, dif_pos i.2]
  rw [hu] at h1
  rw [h1]
  constructor
  · intro hf
    congr 1
    funext b i
    obtain ⟨act, e1, e2⟩ := hf b
    obtain ⟨act', e3, e4⟩ := h2 b
    have : act = act' := Option.some.inj (e1.symm.trans e3)
    subst this
    have := (e4 i).symm.trans (e2 i)
    exact_mod_cast this
  · intro hf b
    obtain rfl : S' = S := by simpa using hf
    exact h2 b

end machine

/-! ### Site orders -/

/-- The sites in raster order. -/
def rasterSites (s0 : Shape) : List (Site s0) := (Verif.Ordering.raster s0).attach

theorem rasterSites_complete (s0 : Shape) : Complete (rasterSites s0) :=
  ⟨(List.nodup_attach).2 (Verif.Ordering.raster_nodup s0), fun i => List.mem_attach _ i⟩

theorem before_of_getElem {ι : Type} [DecidableEq ι] {order : List ι} (hnd : order.Nodup) {i j : ι} {a b : Nat}
    (hi : order[a]? = some i) (hj : order[b]? = some j) (h : b < a) : Before order j i := by
  obtain ⟨ha, rfl⟩ := List.getElem?_eq_some_iff.1 hi
  obtain ⟨hb, rfl⟩ := List.getElem?_eq_some_iff.1 hj
  unfold Before
  rw [hnd.idxOf_getElem a ha, hnd.idxOf_getElem b hb]
  exact h

theorem rasterSites_getElem (s0 : Shape) (i : Site s0) :
    (rasterSites s0)[flatten s0 i.1]? = some i := by
  have hl := (Verif.Ordering.mem_raster _ _).1 i.2
  have hlt : flatten s0 i.1 < (Verif.Ordering.raster s0).length := by
    rw [Verif.Ordering.length_raster]; exact flatten_lt hl
  have h1 : (Verif.Ordering.raster s0)[flatten s0 i.1]? = some i.1 := by
    have hmap := congrArg (fun v : List Nat => v[flatten s0 i.1]?) (Verif.Ordering.raster_map_rowMajor s0)
    simp only [List.getElem?_map, List.getElem?_range (flatten_lt hl), List.getElem?_eq_getElem hlt, Option.map_some,
      Option.some.injEq, ← flatten_eq_rowMajor] at hmap
    rw [List.getElem?_eq_getElem hlt, Option.some.injEq]
    have hin := (Verif.Ordering.mem_raster _ _).1 (List.getElem_mem hlt)
    rw [← unflatten_flatten (s := s0) hin, hmap, unflatten_flatten hl]
  unfold rasterSites
  rw [List.getElem?_eq_getElem (by simpa using hlt), Option.some.injEq]
  apply Subtype.ext
  rw [List.getElem_attach]
  rw [List.getElem?_eq_getElem hlt] at h1
  exact Option.some.inj h1

theorem rasterSites_before (s0 : Shape) (i j : Site s0) (h : flatten s0 j.1 < flatten s0 i.1) :
    Before (rasterSites s0) j i :=
  before_of_getElem (rasterSites_complete s0).1 (rasterSites_getElem s0 i) (rasterSites_getElem s0 j) h

theorem rank_1D {n : Nat} (i j : Site [n]) (h : j.1.getD 0 0 < i.1.getD 0 0) : Before (rasterSites [n]) j i := by
  apply rasterSites_before
  obtain ⟨a, ha, -⟩ := inShape_one ((Verif.Ordering.mem_raster _ _).1 i.2)
  obtain ⟨b, hb, -⟩ := inShape_one ((Verif.Ordering.mem_raster _ _).1 j.2)
  rw [ha, hb] at h ⊢
  simpa [flatten] using h

theorem rank_2D {H W : Nat} (i j : Site [H, W])
    (h : j.1.getD 0 0 * W + j.1.getD 1 0 < i.1.getD 0 0 * W + i.1.getD 1 0) : Before (rasterSites [H, W]) j i := by
  apply rasterSites_before
  obtain ⟨a, a', ha, -⟩ := inShape_two ((Verif.Ordering.mem_raster _ _).1 i.2)
  obtain ⟨b, b', hb, -⟩ := inShape_two ((Verif.Ordering.mem_raster _ _).1 j.2)
  rw [ha, hb] at h ⊢
  simpa [flatten] using h

end Verif.Machines
