import Verif.Samplers.Direct
import Verif.Net.Categories
import Verif.Machines.SamplingProps

/-!
# C154 for the fast autoregressive sampler

`FastAutoregressiveSampler` draws with `tensorflow.multinomial` in the order of its dependency graph (C43, C106). Its batches
are independent samples of the squared amplitudes too, so that all the theorems of C154 on reports apply to it.
-/
namespace Verif.Net.Categories

open MeasureTheory Verif.Net.Registry Verif.Operators Verif.Energy
open Verif.Autoregressive (unif Net condLogProbs logWave category Complete Causal norm_logWave condLogProbs_normalized C35_normalised)

theorem pick_lt (ps : List ℝ) (v : ℝ) (hv : v < ps.sum) (hne : ps ≠ []) (h0 : 0 ≤ v) : pick ps v < ps.length := by
  induction ps generalizing v with
  | nil => exact absurd rfl hne
  | cons p ps ih =>
    unfold pick
    split
    · simp
    · rename_i hp
      rw [List.sum_cons] at hv
      have hne' : ps ≠ [] := by
        rintro rfl
        simp at hv
        exact hp hv
      have := ih (v - p) (by linarith) hne' (by linarith)
      simpa using this

theorem measurable_pick (ps : List ℝ) : Measurable (pick ps) := by
  induction ps with
  | nil => exact measurable_const
  | cons p ps ih =>
    have : pick (p :: ps) = fun v => if v < p then 0 else pick ps (v - p) + 1 := by funext v; rfl
    rw [this]
    refine Measurable.ite measurableSet_Iio measurable_const ?_
    exact (measurable_from_top (f := fun k : ℕ => k + 1)).comp (ih.comp (measurable_id.sub_const p))

theorem measurable_multinomial (logits : List ℂ) : Measurable (multinomial logits) :=
  (measurable_pick _).comp (measurable_id.mul_const _)

theorem multinomial_lt (logits : List ℂ) (hl : 0 < logits.length) (v : ℝ) (h0 : 0 ≤ v) (h1 : v < 1) :
    multinomial logits v < logits.length := by
  have hs := weights_sum_pos logits hl
  have hlen : (weights logits).length = logits.length := by simp [weights]
  unfold multinomial
  rw [← hlen]
  refine pick_lt _ _ ?_ ?_ (mul_nonneg h0 hs.le)
  · nlinarith
  · intro h
    rw [h] at hlen
    simp at hlen
    omega

/-- **C154, `FastAutoregressiveSampler`.** In a program that imports `flowket.samplers`, for every model whose dependency
graph can be sorted and whose outputs are the conditional log probabilities of an autoregressive wave function: for random
numbers between zero and one (one not included) the sampler returns the batch `S u`, and these batches consist of
independent samples of the squared amplitudes. -/
theorem C154_fast {g : Graph ℂ} {s0 : Shape} {sigs : List Sig} {out : Nat} (hm : g.Model s0 sigs out 2)
    {es : List (Cell × Cell)} (he : g.edges sigs out = some es) {order : List Cell} (ho : IsTopological es order)
    (h : List Event) (hown : OwnOnly h) (hs : ImportsSamplers h) {B : Nat}
    (net : Net (Site s0)) (sites : List (Site s0)) (hsites : Complete sites) (hc : Causal sites net)
    (hout : ∀ s, IsSpin s → ∀ (i : Site s0) (c : Fin 2),
      ((g.output s0 out (toInput s0 s) i.1).getD c 0).re = condLogProbs net s i c) :
    ∃ S : (Fin B → Site s0 → ℝ) → Fin B → Config (Site s0),
      (∀ u, (∀ b i, 0 ≤ u b i ∧ u b i < 1) → ∀ b, ∃ act,
        g.fastSampler sigs out (some order) (samplerDraw (after h) (perSite s0 (u b))) = some act ∧
        ∀ i : Site s0, sampleOf act i.1 = (S u b i : ℂ)) ∧
      Independent (uniforms B s0) (logWave net) S := by
  classical
  have hdr : ∀ k, (after h).drawn k = some (1 - 2 * (k : ℤ)) := fun k => by
    simp only [Process.drawn, (C105_input h hown false).1 hs, TopologyClass.drawn]
  -- the batch that the sampler returns
  have hex : ∀ (u : Fin B → Site s0 → ℝ), (∀ b i, 0 ≤ u b i ∧ u b i < 1) → ∀ b, ∃ x : Config (Site s0), IsSpin x ∧ ∃ act,
      g.fastSampler sigs out (some order) (samplerDraw (after h) (perSite s0 (u b))) = some act ∧
      ∀ i : Site s0, sampleOf act i.1 = (x i : ℂ) := by
    intro u hu b
    obtain ⟨act, h1, h2⟩ := C43_consistent hm he ho (samplerDraw (after h) (perSite s0 (u b)))
    have hval : ∀ i : Site s0, sampleOf act i.1 =
        ((1 - 2 * ((multinomial (g.output s0 out (sampleOf act) i.1) (u b i) : ℕ) : ℤ) : ℤ) : ℂ) := by
      intro i
      have hp : perSite s0 (u b) i.1 = u b i := by simp [perSite, i.2]
      conv_lhs => rw [h2 i.1 ((Verif.Ordering.mem_raster _ _).1 i.2)]
      simp only [samplerDraw, hdr, Option.getD_some, hp]
    refine ⟨fun i => 1 - 2 * ((multinomial (g.output s0 out (sampleOf act) i.1) (u b i) : ℕ) : ℤ), fun i => ?_, act, h1, hval⟩
    have hl := Verif.Machines.output_length hm (sampleOf act) i.1 ((Verif.Ordering.mem_raster _ _).1 i.2)
    have := multinomial_lt (g.output s0 out (sampleOf act) i.1) (by omega) (u b i) (hu b i).1 (hu b i).2
    rw [hl] at this
    have hk : multinomial (g.output s0 out (sampleOf act) i.1) (u b i) = 0 ∨ multinomial (g.output s0 out (sampleOf act) i.1) (u b i) = 1 := by
      omega
    rcases hk with hk | hk <;> simp [hk]
  choose X hX hXact using hex
  set good : Set (Fin B → Site s0 → ℝ) := {u | ∀ b i, 0 ≤ u b i ∧ u b i < 1} with hgood
  have hgoodpi : good = Set.pi Set.univ fun _ => Set.pi Set.univ fun _ => Set.Ico 0 1 := by
    ext u
    simp [hgood, Set.mem_pi]
  have hgm : MeasurableSet good := by
    rw [hgoodpi]
    exact MeasurableSet.univ_pi fun _ => MeasurableSet.univ_pi fun _ => measurableSet_Ico
  have hg1 : uniforms B s0 goodᶜ = 0 := by
    have _ : IsProbabilityMeasure (uniforms B s0) := by unfold uniforms; infer_instance
    rw [prob_compl_eq_zero_iff hgm, hgoodpi, uniforms, Measure.pi_pi]
    simp only [Measure.pi_pi]
    simp [unif]
  let S : (Fin B → Site s0 → ℝ) → Fin B → Config (Site s0) := fun u b => if hu : u ∈ good then X u hu b else fun _ => 1
  have hSg : ∀ u (hu : u ∈ good), S u = X u hu := fun u hu => by funext b; simp only [S, dif_pos hu]
  have hspin : ∀ u b, IsSpin (S u b) := by
    intro u b
    by_cases hu : u ∈ good
    · rw [hSg u hu]; exact hX u hu b
    · simp only [S, dif_neg hu]; exact fun i => by simp
  -- the event that a given batch is returned
  let fast : (Fin B → Config (Site s0)) → Set (Fin B → Site s0 → ℝ) := fun T => {u | ∀ b, ∃ act,
      g.fastSampler sigs out (some order) (samplerDraw (after h) (perSite s0 (u b))) = some act ∧
      ∀ i : Site s0, sampleOf act i.1 = (T b i : ℂ)}
  have hfast : ∀ T, good ∩ {u | S u = T} = good ∩ fast T := by
    intro T
    ext u
    constructor
    · rintro ⟨hu, rfl⟩
      refine ⟨hu, fun b => ?_⟩
      rw [hSg u hu]
      exact hXact u hu b
    · rintro ⟨hu, hT⟩
      refine ⟨hu, ?_⟩
      show S u = T
      rw [hSg u hu]
      funext b i
      obtain ⟨act, h1, h2⟩ := hT b
      obtain ⟨act', h1', h2'⟩ := hXact u hu b
      obtain rfl : act = act' := Option.some.inj (h1.symm.trans h1')
      exact_mod_cast (h2' i).symm.trans (h2 i)
  have hcat : ∀ T : Fin B → Config (Site s0), (∀ b, IsSpin (T b)) → ∀ b i, 1 - 2 * ((category (T b i)).val : ℤ) = T b i := by
    intro T hT b i
    rcases hT b i with h | h <;> simp [category, h]
  have hfastm : ∀ T : Fin B → Config (Site s0), (∀ b, IsSpin (T b)) → MeasurableSet (fast T) := by
    intro T hT
    have : fast T = Set.pi Set.univ fun b => Set.pi Set.univ fun i =>
        {v | multinomial (g.output s0 out (toInput s0 (valuesOf (fun k => 1 - 2 * (k : ℤ)) fun j => category (T b j))) i.1) v =
          (category (T b i)).val} := by
      ext u
      simp only [fast, Set.mem_ofPred_eq, Set.mem_pi, Set.mem_univ, forall_true_left]
      refine forall_congr' fun b => ?_
      rw [← sampled_iff hm he ho (after h) (fun k => 1 - 2 * (k : ℤ)) hdr (fun j k h => by omega) (u b) fun j => category (T b j)]
      simp only [hcat T hT b]
    rw [this]
    exact MeasurableSet.univ_pi fun b => MeasurableSet.univ_pi fun i => measurable_multinomial _ (measurableSet_singleton _)
  refine ⟨S, fun u hu b => ?_, hspin, fun T => ?_, fun T hT => ?_⟩
  · rw [hSg u hu]
    exact hXact u hu b
  · by_cases hT : ∀ b, IsSpin (T b)
    · have hsplit : {u | S u = T} = (good ∩ fast T) ∪ (goodᶜ ∩ {_u | (fun _ _ => (1 : ℤ)) = T}) := by
        ext u
        by_cases hu : u ∈ good
        · have h3 : u ∈ good ∩ {u | S u = T} ↔ u ∈ good ∩ fast T := by rw [hfast]
          constructor
          · intro h4
            exact Or.inl (h3.1 ⟨hu, h4⟩)
          · rintro (h4 | h4)
            · exact (h3.2 h4).2
            · exact absurd hu h4.1
        · have h3 : S u = fun _ _ => 1 := by funext b; simp only [S, dif_neg hu]
          constructor
          · intro h4
            exact Or.inr ⟨hu, h3.symm.trans h4⟩
          · rintro (h4 | h4)
            · exact absurd h4.1 hu
            · exact h3.trans h4.2
      rw [hsplit]
      exact (hgm.inter (hfastm T hT)).union (hgm.compl.inter (MeasurableSet.const _))
    · have : {u | S u = T} = ∅ := by
        ext u
        simp only [Set.mem_ofPred_eq, Set.mem_empty_iff_false, iff_false]
        rintro rfl
        exact hT (hspin u)
      rw [this]
      exact MeasurableSet.empty
  · have hae : uniforms B s0 {u | S u = T} = uniforms B s0 (fast T) := by
      have h3 : ∀ A, uniforms B s0 A = uniforms B s0 (good ∩ A) := by
        intro A
        refine (measure_congr ?_)
        have : good =ᵐ[uniforms B s0] Set.univ := Filter.eventuallyEq_univ.2 (by rw [mem_ae_iff]; exact hg1)
        have h4 := (this.inter (Filter.EventuallyEq.refl _ A)).symm
        rwa [Set.univ_inter] at h4
      rw [h3 {u | S u = T}, hfast, ← h3]
    unfold Measure.real
    rw [hae]
    have hlaw := C106_spins_partial hm he ho h hown hs (B := B) fun b i => category (T b i)
    simp only [hcat T hT] at hlaw
    have hlaw' : uniforms B s0 (fast T) = _ := hlaw
    have hnn : ∀ (l : List ℂ) (k : Nat), 0 ≤ probability l k := fun l k =>
      div_nonneg (Real.exp_pos _).le (List.sum_nonneg fun q hq => (weights_pos l q hq).le)
    rw [hlaw', ENNReal.toReal_ofReal (Finset.prod_nonneg fun b _ => Finset.prod_nonneg fun i _ => hnn _ _),
      C35_normalised net sites hsites hc]
    refine Finset.prod_congr rfl fun b _ => ?_
    rw [div_one, norm_logWave net (T b) (hT b)]
    refine Finset.prod_congr rfl fun i _ => ?_
    have hl := Verif.Machines.output_length hm (toInput s0 (T b)) i.1 ((Verif.Ordering.mem_raster _ _).1 i.2)
    have hw : (weights (g.output s0 out (toInput s0 (T b)) i.1)).sum = 1 := by
      rw [← condLogProbs_normalized net (T b) i, ← hout (T b) (hT b) i 0, ← hout (T b) (hT b) i 1]
      generalize g.output s0 out (toInput s0 (T b)) i.1 = l at hl
      match l, hl with
      | [a, b], _ => simp [weights]
    unfold probability Verif.Autoregressive.prob
    have heq : (g.output s0 out (toInput s0 fun j => T b j) i.1) = g.output s0 out (toInput s0 (T b)) i.1 := rfl
    rw [heq, hw, div_one, hout (T b) (hT b) i (category (T b i))]

end Verif.Net.Categories

namespace Verif.Machines

open MeasureTheory Verif.Net Verif.Net.Registry Verif.Net.Categories Verif.Operators Verif.Energy
open Verif.Autoregressive (Before Complete logWave)

/-- What C154 says of `FastAutoregressiveSampler` on a machine in a program with the history `h` of imports: the sampler can
be built, and whatever topological order it uses, for random numbers between zero and one (one not included) it returns a
batch of independent samples of the squared amplitudes of the machine. -/
def FastSamplerIndependent (h : List Event) (r : (Nat × Nat) × Graph ℂ) (s0 : Shape) : Prop :=
  ∃ sigs es, r.2.sigs (s0, 1) = some sigs ∧ r.2.edges sigs r.1.2 = some es ∧ (∃ order, IsTopological es order) ∧
    ∀ order, IsTopological es order → ∀ B : Nat, ∃ S : (Fin B → Site s0 → ℝ) → Fin B → Config (Site s0),
      (∀ u, (∀ b i, 0 ≤ u b i ∧ u b i < 1) → ∀ b, ∃ act,
        r.2.fastSampler sigs r.1.2 (some order) (samplerDraw (after h) (perSite s0 (u b))) = some act ∧
        ∀ i : Site s0, sampleOf act i.1 = (S u b i : ℂ)) ∧
      Independent (uniforms B s0) (machineLogWave r.2 s0 r.1.1) S

theorem machine_independent {s0 : Shape} {net : Nat → Build ℂ Nat} {rank : Loc → Nat}
    (h : Ok true s0 [(s0, 1)] [fun l => rank l + 1] (net 0 start) fun j s' b' => At s' b' j (s0, 2) rank)
    (sites : List (Site s0)) (hs : Complete sites) (hr : ∀ i j : Site s0, rank j.1 < rank i.1 → Before sites j i)
    (ev : List Event) (hown : OwnOnly ev) (hi : ImportsSamplers ev) : FastSamplerIndependent ev (machine net) s0 := by
  have hn : Ok _ s0 _ _ (machine net) _ := ok_normalized net h
  obtain ⟨sigs, hm, -, hac⟩ := built_causal (out := fun r : Nat × Nat => r.2) (hn.imp fun _ _ _ h => h.2.1)
  obtain ⟨es, he, hac⟩ := hac rfl fun l _ => Nat.lt_succ_self _
  refine ⟨sigs, es, hm.built, he, exists_topological es hac, fun order ho B => ?_⟩
  obtain ⟨S, h1, h2⟩ := C154_fast (B := B) hm he ho ev hown hi (netOf (machine net).2 s0 (net 0 start).1) sites hs
    (netOf_causal h sites hr) fun s _ i c => congrFun (congrFun (congrFun (machine_outputs h).2 s) i) c
  refine ⟨S, h1, ?_⟩
  have hw : machineLogWave (machine net).2 s0 (machine net).1.1 = logWave (netOf (machine net).2 s0 (net 0 start).1) := by
    funext s
    unfold machineLogWave logWave
    congr 1
    funext i c
    exact (machine_outputs h).1 s i c
  rw [hw]
  exact h2

/-- **C154, fast sampler on the one dimensional machine.** -/
theorem C154_fast_real (ev : List Event) (hown : OwnOnly ev) (hi : ImportsSamplers ev) (P : Params1D) (hk : 1 ≤ P.kernelSize)
    (W : Weights) (n : Nat) (hn : 1 ≤ n) : FastSamplerIndependent ev (machine (build1D P W true)) [n] :=
  machine_independent (ok_1D P hk W n hn) _ (rasterSites_complete _) rank_1D ev hown hi

/-- **C154, fast sampler on the complex one dimensional machine.** -/
theorem C154_fast_complex (ev : List Event) (hown : OwnOnly ev) (hi : ImportsSamplers ev) (P : Params1D) (hk : 1 ≤ P.kernelSize)
    (W : Weights) (n : Nat) (hn : 1 ≤ n) : FastSamplerIndependent ev (machine (buildComplex1D P W)) [n] :=
  machine_independent (ok_complex1D P hk W n hn) _ (rasterSites_complete _) rank_1D ev hown hi

/-- **C154, fast sampler on the two dimensional machine.** -/
theorem C154_fast_2D (ev : List Event) (hown : OwnOnly ev) (hi : ImportsSamplers ev) (P : Params2D)
    (hk : P.kernelSize % 2 = 1) (Wt : Weights) (H W : Nat) (hH : 1 ≤ H) (hW : 1 ≤ W) :
    FastSamplerIndependent ev (machine (build2D P Wt)) [H, W] :=
  machine_independent (ok_2D P (P.kernelSize / 2) (by omega) Wt H W hH hW) _ (rasterSites_complete _) rank_2D ev hown hi

/-- The requirements are met: a program which imports machines and samplers and uses a network for five spins with
kernels of size three. -/
example (W : Weights) : FastSamplerIndependent [.imports .machines, .imports .samplers]
    (machine (build1D { depth := 3, channels := 4, kernelSize := 3, act := none } W true)) [5] :=
  C154_fast_real _ (fun c t h => by simp at h) (.inl (by simp [Imports])) _ (by decide) W 5 (by decide)

end Verif.Machines
