import Verif.Net.Registry
import Verif.Net.FastSamplerFaults
import Verif.Machines.Causal

/-!
# C106: what the fast sampler draws from models with any number of categories
-/
namespace Verif.Net.Categories

open MeasureTheory Verif.Net.Registry
open Verif.Autoregressive (unif toOneHot oneHot combine plusMinusOneToOneHot Before logSumExp normalizeReal)

/-! ### Model -/

/-- The first position at which the running sum of the weights exceeds `v`. -/
noncomputable def pick : List ℝ → ℝ → Nat
  | [], _ => 0
  | p :: ps, v => if v < p then 0 else pick ps (v - p) + 1

/-- The weights `tensorflow.multinomial` gives to the categories: exponentials of the logits (real part of
the values of the model of the network, which computes with complex numbers throughout). -/
noncomputable def weights (logits : List ℂ) : List ℝ := logits.map fun z => Real.exp z.re

/-- `tensorflow.multinomial(logits, 1)` (sampling_topology.py:15) for one row, as a function of one uniform
number: the uniform number is scaled by the total weight and looked up in the running sums. -/
noncomputable def multinomial (logits : List ℂ) (v : ℝ) : Nat := pick (weights logits) (v * (weights logits).sum)

/-- What the input layer's topology does in a process (see `Process.drawn`), with one uniform number per
location. -/
noncomputable def samplerDraw (p : Process) (u : Loc → ℝ) (l : Loc) (logits : List ℂ) : ℂ :=
  (((p.drawn (multinomial logits (u l))).getD 0 : ℤ) : ℂ)

/-- Uniform numbers of the sites, as a function of all locations. -/
noncomputable def perSite (s0 : Shape) (u : Site s0 → ℝ) (l : Loc) : ℝ :=
  if h : l ∈ Verif.Ordering.raster s0 then u ⟨l, h⟩ else 0

/-! ### Specification -/

/-- Softmax: the probability that logits give to a category. -/
noncomputable def probability (logits : List ℂ) (k : Nat) : ℝ :=
  Real.exp (logits.getD k 0).re / (weights logits).sum

/-- The configuration with value `value k` where the category is `k`. -/
noncomputable def valuesOf {s0 : Shape} {K : Nat} (value : Nat → ℤ) (S : Site s0 → Fin K) : Verif.Operators.Config (Site s0) :=
  fun i => value (S i).val

/-- Independent uniform numbers: one per row of the batch and site. -/
noncomputable def uniforms (B : Nat) (s0 : Shape) : Measure (Fin B → Site s0 → ℝ) :=
  Measure.pi fun _ => Measure.pi fun _ => unif

/-! ### The draw at one site -/

theorem pick_eq_iff (ps : List ℝ) (hp : ∀ p ∈ ps, 0 ≤ p) (v : ℝ) (hv : 0 ≤ v) (k : Nat) (hk : k < ps.length) :
    pick ps v = k ↔ (ps.take k).sum ≤ v ∧ v < (ps.take (k + 1)).sum := by
  induction ps generalizing v k with
  | nil => simp at hk
  | cons p ps ih =>
    have hps : ∀ q ∈ ps, 0 ≤ q := fun q hq => hp q (List.mem_cons_of_mem _ hq)
    cases k with
    | zero =>
      by_cases h : v < p
      · simp [pick, h, hv]
      · simp [pick, h]
    | succ k =>
      simp only [List.length_cons, Nat.add_lt_add_iff_right] at hk
      have hnn : 0 ≤ (ps.take k).sum := List.sum_nonneg fun q hq => hps q (List.mem_of_mem_take hq)
      simp only [List.take_succ_cons, List.sum_cons]
      by_cases h : v < p
      · simp only [pick, h, if_true]
        constructor
        · intro h; omega
        · rintro ⟨h1, -⟩; linarith
      · simp only [pick, h, if_false, Nat.add_right_cancel_iff]
        rw [ih hps (v - p) (by linarith) k hk]
        constructor
        · rintro ⟨h1, h2⟩; constructor <;> linarith
        · rintro ⟨h1, h2⟩; constructor <;> linarith

theorem pick_law (ps : List ℝ) (hp : ∀ p ∈ ps, 0 ≤ p) (hT : 0 < ps.sum) (k : Nat) (hk : k < ps.length) :
    unif {v | pick ps (v * ps.sum) = k} = ENNReal.ofReal (ps[k] / ps.sum) := by
  have hsucc : (ps.take (k + 1)).sum = (ps.take k).sum + ps[k] := List.sum_take_succ ps k hk
  have hnn : 0 ≤ (ps.take k).sum := List.sum_nonneg fun q hq => hp q (List.mem_of_mem_take hq)
  have hle : (ps.take (k + 1)).sum ≤ ps.sum := by
    have h1 := List.sum_take_add_sum_drop ps (k + 1)
    have h2 : 0 ≤ (ps.drop (k + 1)).sum := List.sum_nonneg fun q hq => hp q (List.mem_of_mem_drop hq)
    linarith
  rw [unif, Measure.restrict_apply' measurableSet_Ico]
  have hset : {v : ℝ | pick ps (v * ps.sum) = k} ∩ Set.Ico 0 1 =
      Set.Ico ((ps.take k).sum / ps.sum) ((ps.take (k + 1)).sum / ps.sum) := by
    ext v
    simp only [Set.mem_inter_iff, Set.mem_ofPred_eq, Set.mem_Ico]
    constructor
    · rintro ⟨h1, h2, -⟩
      obtain ⟨a, b⟩ := (pick_eq_iff ps hp _ (mul_nonneg h2 hT.le) k hk).1 h1
      exact ⟨(div_le_iff₀ hT).2 a, (lt_div_iff₀ hT).2 b⟩
    · rintro ⟨h1, h2⟩
      have h0 : 0 ≤ v := le_trans (div_nonneg hnn hT.le) h1
      refine ⟨(pick_eq_iff ps hp _ (mul_nonneg h0 hT.le) k hk).2 ⟨(div_le_iff₀ hT).1 h1, (lt_div_iff₀ hT).1 h2⟩, h0, ?_⟩
      exact lt_of_lt_of_le h2 ((div_le_one hT).2 hle)
  rw [hset, Real.volume_Ico, hsucc]
  congr 1
  ring

theorem weights_pos (logits : List ℂ) : ∀ p ∈ weights logits, 0 < p := by
  intro p hp
  obtain ⟨z, -, rfl⟩ := List.mem_map.1 hp
  exact Real.exp_pos _

theorem weights_sum_pos (logits : List ℂ) (h : 0 < logits.length) : 0 < (weights logits).sum :=
  List.sum_pos _ (weights_pos logits) (by
    intro h'
    have := congrArg List.length h'
    simp [weights] at this
    subst this
    simp at h)

theorem multinomial_law (logits : List ℂ) (k : Nat) (hk : k < logits.length) :
    unif {v | multinomial logits v = k} = ENNReal.ofReal (probability logits k) := by
  have := pick_law (weights logits) (fun p hp => (weights_pos logits p hp).le) (weights_sum_pos logits (by omega)) k
    (by simpa [weights] using hk)
  unfold multinomial probability
  rw [this]
  congr 2
  simp [weights, List.getD_eq_getElem?_getD, List.getElem?_eq_getElem hk]

/-! ### The whole sample -/

section
variable {g : Graph ℂ} {s0 : Shape} {sigs : List Sig} {out K : Nat} (hm : g.Model s0 sigs out K)
  {es : List (Cell × Cell)} (he : g.edges sigs out = some es) {order : List Cell} (ho : IsTopological es order)
include hm he ho

/-- The output of an accepted model depends only on the values at the sites. -/
theorem output_congr (x x' : Loc → ℂ) (h : ∀ l, InShape l s0 → x l = x' l) (l : Loc) (hl : InShape l s0) :
    g.output s0 out x l = g.output s0 out x' l := by
  obtain ⟨sites, hnd, hmem, hc⟩ := C44_accepted_causal hm he ho
  refine hc l ((hmem l).2 hl) x x' fun j hj => h j ((hmem j).1 ?_)
  exact before_mem hj

/-- The fast sampler returns the values of `S` exactly if at every site the category of `S` is drawn from
the output of the network on these values. -/
theorem sampled_iff (p : Process) (value : Nat → ℤ) (hval : ∀ k, p.drawn k = some (value k))
    (hinj : ∀ j k, value j = value k → j = k) (u : Site s0 → ℝ) (S : Site s0 → Fin K) :
    (∃ act, g.fastSampler sigs out (some order) (samplerDraw p (perSite s0 u)) = some act ∧
      ∀ i : Site s0, sampleOf act i.1 = ((value (S i).val : ℤ) : ℂ)) ↔
    ∀ i : Site s0, multinomial (g.output s0 out (toInput s0 (valuesOf value S)) i.1) (u i) = (S i).val := by
  have hdraw : ∀ l v, samplerDraw p (perSite s0 u) l v = ((value (multinomial v (perSite s0 u l)) : ℤ) : ℂ) := by
    intro l v
    simp [samplerDraw, hval]
  have hin : ∀ i : Site s0, toInput s0 (valuesOf value S) i.1 = ((value (S i).val : ℤ) : ℂ) := by
    intro i
    simp [toInput, i.2, valuesOf]
  have hu : ∀ i : Site s0, perSite s0 u i.1 = u i := by
    intro i
    simp [perSite, i.2]
  obtain ⟨act, h1, h2⟩ := C43_consistent hm he ho (samplerDraw p (perSite s0 u))
  constructor
  · rintro ⟨act', h1', h3⟩ i
    obtain rfl : act = act' := Option.some.inj (h1.symm.trans h1')
    have hl := (Verif.Ordering.mem_raster _ _).1 i.2
    have hagree : ∀ l, InShape l s0 → sampleOf act l = toInput s0 (valuesOf value S) l := by
      intro l hl
      have hl' : l ∈ Verif.Ordering.raster s0 := (Verif.Ordering.mem_raster _ _).2 hl
      rw [h3 ⟨l, hl'⟩, hin ⟨l, hl'⟩]
    have h4 := h2 i.1 hl
    rw [h3 i, hdraw, output_congr hm he ho _ _ hagree i.1 hl, hu] at h4
    exact (hinj _ _ (by exact_mod_cast h4)).symm
  · intro h
    refine ⟨act, h1, fun i => ?_⟩
    have hcons : g.Consistent s0 out (samplerDraw p (perSite s0 u)) (toInput s0 (valuesOf value S)) := by
      intro l hl
      have hl' : l ∈ Verif.Ordering.raster s0 := (Verif.Ordering.mem_raster _ _).2 hl
      have := h ⟨l, hl'⟩
      rw [hdraw, hin ⟨l, hl'⟩]
      have hu' := hu ⟨l, hl'⟩
      simp only at hu' this
      rw [hu', this]
    rw [C43_unique hm he ho _ _ _ h2 hcons i.1 ((Verif.Ordering.mem_raster _ _).1 i.2), hin i]

theorem sampled_law (p : Process) (value : Nat → ℤ) (hval : ∀ k, p.drawn k = some (value k))
    (hinj : ∀ j k, value j = value k → j = k) {B : Nat} (S : Fin B → Site s0 → Fin K) :
    uniforms B s0 {u | ∀ b, ∃ act, g.fastSampler sigs out (some order) (samplerDraw p (perSite s0 (u b))) = some act ∧
      ∀ i : Site s0, sampleOf act i.1 = ((value (S b i).val : ℤ) : ℂ)} =
    ENNReal.ofReal (∏ b, ∏ i : Site s0,
      probability (g.output s0 out (toInput s0 (valuesOf value (S b))) i.1) (S b i).val) := by
  have hset : {u : Fin B → Site s0 → ℝ | ∀ b, ∃ act,
      g.fastSampler sigs out (some order) (samplerDraw p (perSite s0 (u b))) = some act ∧
      ∀ i : Site s0, sampleOf act i.1 = ((value (S b i).val : ℤ) : ℂ)} =
      Set.pi Set.univ fun b => Set.pi Set.univ fun i =>
        {v | multinomial (g.output s0 out (toInput s0 (valuesOf value (S b))) i.1) v = (S b i).val} := by
    ext u
    simp only [Set.mem_ofPred_eq, Set.mem_pi, Set.mem_univ, forall_true_left]
    exact forall_congr' fun b => sampled_iff hm he ho p value hval hinj (u b) (S b)
  have hnn : ∀ (l : List ℂ) (k : Nat), 0 ≤ probability l k := fun l k =>
    div_nonneg (Real.exp_pos _).le (List.sum_nonneg fun q hq => (weights_pos l q hq).le)
  rw [hset, uniforms, Measure.pi_pi, ENNReal.ofReal_prod_of_nonneg fun b _ => Finset.prod_nonneg fun i _ => hnn _ _]
  refine Finset.prod_congr rfl fun b _ => ?_
  rw [Measure.pi_pi, ENNReal.ofReal_prod_of_nonneg fun i _ => hnn _ _]
  refine Finset.prod_congr rfl fun i _ => multinomial_law _ _ ?_
  rw [Verif.Machines.output_length hm _ _ ((Verif.Ordering.mem_raster _ _).1 i.2)]
  exact (S b i).2

/-! ### C106 -/

/-- **C106, categories.** In a program that does not import `flowket.samplers`, the fast sampler returns
the configurations of `S` with the product of the conditional probabilities of the model, for any number
of categories, any lattice and any order of the computation. The rows of a batch are independent. -/
theorem C106_categories_partial (h : List Event) (hown : OwnOnly h) (hs : ¬ ImportsSamplers h) (hi : ∃ m, Imports h m)
    {B : Nat} (S : Fin B → Site s0 → Fin K) :
    uniforms B s0 {u | ∀ b, ∃ act,
      g.fastSampler sigs out (some order) (samplerDraw (after h) (perSite s0 (u b))) = some act ∧
      ∀ i : Site s0, sampleOf act i.1 = (((S b i).val : ℤ) : ℂ)} =
    ENNReal.ofReal (∏ b, ∏ i : Site s0,
      probability (g.output s0 out (toInput s0 fun j => ((S b j).val : ℤ)) i.1) (S b i).val) :=
  sampled_law hm he ho (after h) (fun k => (k : ℤ)) (fun k => by
    simp only [Process.drawn, (C105_input h hown false).2.1 hs hi, TopologyClass.drawn])
    (fun j k h => by exact_mod_cast h) S

/-- **C106, spins.** In a program that imports `flowket.samplers` the same holds with one for category zero
and minus one for category one. -/
theorem C106_spins_partial (h : List Event) (hown : OwnOnly h) (hs : ImportsSamplers h)
    {B : Nat} (S : Fin B → Site s0 → Fin K) :
    uniforms B s0 {u | ∀ b, ∃ act,
      g.fastSampler sigs out (some order) (samplerDraw (after h) (perSite s0 (u b))) = some act ∧
      ∀ i : Site s0, sampleOf act i.1 = ((1 - 2 * ((S b i).val : ℤ) : ℤ) : ℂ)} =
    ENNReal.ofReal (∏ b, ∏ i : Site s0,
      probability (g.output s0 out (toInput s0 fun j => 1 - 2 * ((S b j).val : ℤ)) i.1) (S b i).val) :=
  sampled_law hm he ho (after h) (fun k => 1 - 2 * (k : ℤ)) (fun k => by
    simp only [Process.drawn, (C105_input h hown false).1 hs, TopologyClass.drawn])
    (fun j k h => by omega) S

/-- C106 fails for categories once `flowket.samplers` was imported anywhere in the program: whatever is
drawn, no site ever gets category zero (or two), although the model gives it a positive probability. -/
theorem C106_violated_import (h : List Event) (hown : OwnOnly h) (hs : ImportsSamplers h) (u : Site s0 → ℝ)
    (act : Cell → List ℂ) (hact : g.fastSampler sigs out (some order) (samplerDraw (after h) (perSite s0 u)) = some act)
    (i : Site s0) (x : Loc → ℂ) (hK : 0 < K) :
    sampleOf act i.1 ≠ ((0 : ℤ) : ℂ) ∧ 0 < probability (g.output s0 out x i.1) 0 := by
  have hl := (Verif.Ordering.mem_raster _ _).1 i.2
  constructor
  · obtain ⟨act', h1, h2⟩ := C43_consistent hm he ho (samplerDraw (after h) (perSite s0 u))
    obtain rfl : act' = act := Option.some.inj (h1.symm.trans hact)
    rw [h2 i.1 hl]
    have hd : ∀ k, (after h).drawn k = some (1 - 2 * (k : ℤ)) := fun k => by
      simp only [Process.drawn, (C105_input h hown false).1 hs, TopologyClass.drawn]
    simp only [samplerDraw, hd, Option.getD_some]
    intro hcon
    have := Int.cast_injective (α := ℂ) hcon
    omega
  · exact div_pos (Real.exp_pos _) (weights_sum_pos _ (by rw [Verif.Machines.output_length hm _ _ hl]; exact hK))

end

/-- **C106, likelihood.** If the conditional probabilities of the model add up to one at every site, the
probability of a configuration of categories is the exponential of the log likelihood that
`CombineAutoregressiveConditionals` computes with `ToOneHot`. -/
theorem C106_likelihood (g : Graph ℂ) (s0 : Shape) (out K : Nat) (S : Site s0 → Fin K)
    (hn : ∀ i : Site s0, (weights (g.output s0 out (toInput s0 fun j => ((S j).val : ℤ)) i.1)).sum = 1) :
    ∏ i : Site s0, probability (g.output s0 out (toInput s0 fun j => ((S j).val : ℤ)) i.1) (S i).val =
      Real.exp (combine (fun (i : Site s0) (c : Fin K) =>
        (g.output s0 out (toInput s0 fun j => ((S j).val : ℤ)) i.1).getD c.val 0)
        fun i => toOneHot K ((S i).val : ℤ)).re := by
  unfold combine
  rw [Complex.re_sum, Real.exp_sum]
  refine Finset.prod_congr rfl fun i _ => ?_
  rw [probability, hn i, div_one, Complex.re_sum, Finset.sum_eq_single (S i)]
  · simp [toOneHot, oneHot]
  · intro c _ hc
    have : ¬ ((c.val : ℤ) = ((S i).val : ℤ)) := fun h => hc (Fin.ext (by exact_mod_cast h))
    simp [toOneHot, oneHot, this]
  · intro h; exact absurd (Finset.mem_univ _) h

/-- **C106, normalisation.** After `NormalizeConditionalProbabilities` (deepar/layers/autoregressive.py:14-15,
35: norm type one) the probabilities of the categories at a site add up to one. -/
theorem C106_normalised (logits : List ℂ) (h : 0 < logits.length) :
    (weights (logits.map fun z => z - (Real.log (weights logits).sum : ℂ))).sum = 1 := by
  have hT := weights_sum_pos logits h
  have : weights (logits.map fun z => z - (Real.log (weights logits).sum : ℂ)) =
      (weights logits).map fun p => p * (weights logits).sum⁻¹ := by
    simp only [weights, List.map_map]
    refine List.map_congr_left fun z _ => ?_
    simp only [Function.comp, Complex.sub_re, Complex.ofReal_re]
    rw [Real.exp_sub, Real.exp_log (by simpa [weights, Function.comp_def] using hT)]
    rfl
  rw [this, List.sum_map_mul_right]
  simp only [List.map_id']
  exact mul_inv_cancel₀ hT.ne'

/-- A network with three categories on two sites, whose conditional at a site sees the previous site. -/
def threeNet : Graph ℂ :=
  [⟨.input, []⟩, ⟨.expand, [0]⟩, ⟨.downShift, [1]⟩, ⟨.feature 3 fun v => [v.getD 0 0, 0, 1], [2]⟩]

/-- The hypotheses are met by it. -/
example : threeNet.Model [2] [([2], 1), ([2], 1), ([2], 1), ([2], 3)] 3 3 where
  built := rfl
  first := by
    intro k n h
    match k, h with
    | 0, h => simp [threeNet] at h; subst h; simp
    | 1, h => simp [threeNet] at h; subst h; simp
    | 2, h => simp [threeNet] at h; subst h; simp
    | 3, h => simp [threeNet] at h; subst h; simp
    | k + 4, h => simp [threeNet] at h
  first_inputs := rfl
  output := rfl
  not_input := by decide
  good := by
    intro k n h hl qs hq
    match k, h with
    | 0, h => simp [threeNet] at h; subst h; simp at hl
    | 1, h => simp [threeNet] at h; subst h; exact ⟨trivial, trivial⟩
    | 2, h => simp [threeNet] at h; subst h; exact ⟨trivial, trivial⟩
    | 3, h =>
      simp [threeNet] at h; subst h
      simp [getAll] at hq
      subst hq
      exact ⟨fun v _ => rfl, trivial⟩
    | k + 4, h => simp [threeNet] at h

example : threeNet.edges [([2], 1), ([2], 1), ([2], 1), ([2], 3)] 3 = some
    [((2, [0]), (3, [0])), ((2, [1]), (3, [1])), ((1, [0]), (2, [1])), ((0, [0]), (1, [0])), ((0, [1]), (1, [1])),
      ((3, [0]), (0, [0])), ((3, [1]), (0, [1]))] := rfl

example : IsTopological
    [((2, [0]), (3, [0])), ((2, [1]), (3, [1])), ((1, [0]), (2, [1])), ((0, [0]), (1, [0])), ((0, [1]), (1, [1])),
      ((3, [0]), (0, [0])), ((3, [1]), (0, [1]))]
    [(2, [0]), (3, [0]), (0, [0]), (1, [0]), (2, [1]), (3, [1]), (0, [1]), (1, [1])] := by
  refine ⟨by decide, fun c => ?_, by unfold Verif.Autoregressive.Before; decide⟩
  simp only [List.mem_cons, List.not_mem_nil, or_false, exists_eq_or_imp, exists_eq_left]
  tauto

end Verif.Net.Categories
