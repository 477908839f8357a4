import Verif.Autoregressive.Model
import Verif.Autoregressive.Sequential
import Verif.Energy.LocalProps
import Mathlib.MeasureTheory.Constructions.Pi
import Mathlib.MeasureTheory.Measure.Lebesgue.Basic

/-
C34-C37: normalisation in log space, normalised autoregressive wave functions, and the distribution of
the samples of `AutoregressiveSampler`.
-/
namespace Verif.Autoregressive

open Verif.Operators (Config IsSpin)
open Verif.Energy (allSpins mem_allSpins)
open MeasureTheory

/-! ### C34 -/

theorem sum_exp_pos {k : Nat} (hk : 0 < k) (x : Fin k → ℝ) : 0 < ∑ c, Real.exp (x c) := by
  haveI : Nonempty (Fin k) := ⟨⟨0, hk⟩⟩
  exact Finset.sum_pos (fun c _ => Real.exp_pos _) Finset.univ_nonempty

theorem sum_exp_normalized {k : Nat} (hk : 0 < k) (t : ℝ) (ht : 0 < t) (x : Fin k → ℝ) :
    ∑ c, Real.exp ((normalizeReal t x c) * t) = 1 := by
  have h1 : ∀ c, Real.exp ((normalizeReal t x c) * t) =
      Real.exp (x c * t) / ∑ c', Real.exp (x c' * t) := by
    intro c
    have : normalizeReal t x c * t = x c * t - logSumExp fun c => x c * t := by
      unfold normalizeReal
      field_simp
    rw [this, Real.exp_sub, logSumExp, Real.exp_log (sum_exp_pos hk _)]
  rw [Finset.sum_congr rfl fun c _ => h1 c, ← Finset.sum_div, div_self (sum_exp_pos hk _).ne']

/-- **C34 (real values).** The exponentials of the result have `t`-norm one, and the result differs from
the input by a constant that is the same for all categories. -/
theorem C34_real {k : Nat} (hk : 0 < k) (t : ℝ) (ht : 0 < t) (x : Fin k → ℝ) :
    (∑ c, |Real.exp (normalizeReal t x c)| ^ t) ^ (1 / t) = 1 ∧
    ∃ a : ℝ, ∀ c, normalizeReal t x c = x c - a := by
  refine ⟨?_, _, fun c => rfl⟩
  have : ∀ c, |Real.exp (normalizeReal t x c)| ^ t = Real.exp (normalizeReal t x c * t) := by
    intro c
    rw [abs_of_pos (Real.exp_pos _), Real.exp_mul]
  rw [Finset.sum_congr rfl fun c _ => this c, sum_exp_normalized hk t ht, Real.one_rpow]

theorem normalizeComplex_re {k : Nat} (t : ℝ) (x : Fin k → ℂ) (c : Fin k) :
    (normalizeComplex t x c).re = normalizeReal t (fun c => (x c).re) c := rfl

/-- **C34 (complex values).** The exponentials of the result have `t`-norm one, imaginary parts (phases)
are unchanged, and the result differs from the input by a real constant that is the same for all
categories. -/
theorem C34_complex {k : Nat} (hk : 0 < k) (t : ℝ) (ht : 0 < t) (x : Fin k → ℂ) :
    (∑ c, ‖Complex.exp (normalizeComplex t x c)‖ ^ t) ^ (1 / t) = 1 ∧
    (∀ c, (normalizeComplex t x c).im = (x c).im) ∧
    ∃ a : ℝ, ∀ c, normalizeComplex t x c = x c - a := by
  refine ⟨?_, fun c => rfl, (1 / t) * logSumExp fun c => (x c).re * t, fun c => ?_⟩
  · have : ∀ c, ‖Complex.exp (normalizeComplex t x c)‖ ^ t =
        Real.exp (normalizeReal t (fun c => (x c).re) c * t) := by
      intro c
      rw [Complex.norm_exp, normalizeComplex_re, Real.exp_mul]
    rw [Finset.sum_congr rfl fun c _ => this c, sum_exp_normalized hk t ht, Real.one_rpow]
  · apply Complex.ext
    · simp [normalizeComplex]
    · simp [normalizeComplex]

/-- The hypotheses hold for the two-norm on two categories, and the layer does change the values. -/
example : (0 : Nat) < 2 ∧ (0 : ℝ) < 2 ∧ normalizeReal (k := 2) 2 (fun _ => 0) 0 ≠ 0 := by
  refine ⟨by norm_num, by norm_num, ?_⟩
  have : Real.log (1 + 1) ≠ 0 := by
    have := Real.log_pos (show (1 : ℝ) < 1 + 1 by norm_num)
    exact this.ne'
  simp [normalizeReal, logSumExp, Fin.sum_univ_two]
  norm_num

/-! ### Conditional probabilities -/

variable {ι : Type} [Fintype ι] [DecidableEq ι]

/-- Probability the network gives to category `c` at site `i`. -/
noncomputable def prob (logProbs : Config ι → ι → Fin 2 → ℝ) (s : Config ι) (i : ι) (c : Fin 2) : ℝ :=
  Real.exp (logProbs s i c)

theorem prob_nonneg (logProbs : Config ι → ι → Fin 2 → ℝ) (s : Config ι) (i : ι) (c : Fin 2) :
    0 ≤ prob logProbs s i c := (Real.exp_pos _).le

/-- The two probabilities at every site add up to one. -/
def Normalized (logProbs : Config ι → ι → Fin 2 → ℝ) : Prop :=
  ∀ s i, Real.exp (logProbs s i 0) + Real.exp (logProbs s i 1) = 1

theorem condLogProbs_normalized (net : Net ι) : Normalized (condLogProbs net) := by
  intro s i
  have := sum_exp_normalized (k := 2) (by norm_num) 2 (by norm_num) (fun c => (net s i c).re)
  rw [Fin.sum_univ_two] at this
  exact this

/-- Category of a spin: `+1` is category zero, `-1` is category one. -/
def category (x : ℤ) : Fin 2 := if x = 1 then 0 else 1

theorem norm_logWave (net : Net ι) (s : Config ι) (hs : IsSpin s) :
    ‖Complex.exp (logWave net s)‖ ^ 2 = ∏ i, prob (condLogProbs net) s i (category (s i)) := by
  have h1 : logWave net s = ∑ i, condLogWave net s i (category (s i)) := by
    unfold logWave combine
    refine Finset.sum_congr rfl fun i _ => ?_
    rw [Fin.sum_univ_two]
    rcases hs i with h | h <;> simp [plusMinusOneToOneHot, oneHot, category, h]
  rw [h1, Complex.norm_exp, Complex.re_sum, Real.exp_sum, ← Finset.prod_pow]
  refine Finset.prod_congr rfl fun i _ => ?_
  unfold prob condLogProbs
  rw [← Real.exp_nat_mul]
  congr 1
  push_cast
  ring

/-! ### The sampler -/

/-- Values the sampler writes: for `u < exp (log_probs[..., 0])` this is one, otherwise zero or minus
one. -/
noncomputable def decision (zeroBase : Bool) (logProbs : Config ι → ι → Fin 2 → ℝ) (u : ι → ℝ) (s : Config ι) (i : ι) : ℤ :=
  if Real.exp (logProbs s i 0) > u i then 1 else if zeroBase then 0 else -1

theorem decision_spin (logProbs : Config ι → ι → Fin 2 → ℝ) (u : ι → ℝ) (s : Config ι) (i : ι) :
    decision false logProbs u s i = 1 ∨ decision false logProbs u s i = -1 := by
  unfold decision
  by_cases h : Real.exp (logProbs s i 0) > u i <;> simp [h]

theorem samplerStep_row {B : Nat} (zeroBase : Bool) (logProbs : Config ι → ι → Fin 2 → ℝ) (u : Fin B → ι → ℝ)
    (batch : Fin B → Config ι) (i : ι) (b : Fin B) :
    samplerStep zeroBase logProbs u batch i b =
      Function.update (batch b) i (decision zeroBase logProbs (u b) (batch b) i) := by
  unfold samplerStep decision
  cases zeroBase
  · by_cases h : Real.exp (logProbs (batch b) i 0) > u b i <;> simp [h]
  · by_cases h : Real.exp (logProbs (batch b) i 0) > u b i <;> simp [h]

theorem sampler_rows {B : Nat} (zeroBase : Bool) (logProbs : Config ι → ι → Fin 2 → ℝ) (u : Fin B → ι → ℝ)
    (order : List ι) (batch : Fin B → Config ι) (b : Fin B) :
    order.foldl (samplerStep zeroBase logProbs u) batch b =
      decideAll (decision zeroBase logProbs (u b)) order (batch b) := by
  induction order generalizing batch with
  | nil => rfl
  | cons i rest ih =>
    rw [List.foldl_cons, ih, samplerStep_row]
    rfl

theorem decision_causal (zeroBase : Bool) (logProbs : Config ι → ι → Fin 2 → ℝ) (order : List ι)
    (h : Causal order logProbs) (u : ι → ℝ) : Causal order (decision zeroBase logProbs u) := by
  intro s s' i hs
  unfold decision
  rw [h s s' i hs]

/-- The sampler returns `S` exactly if every entry of `S` is the decision made from the network's
output on `S` itself. -/
theorem sample_eq_iff {B : Nat} (dims : Nat) (hd : dims = 1 ∨ dims = 2) (zeroBase : Bool)
    (logProbs : Config ι → ι → Fin 2 → ℝ) (order : List ι) (ho : Complete order) (hc : Causal order logProbs)
    (u : Fin B → ι → ℝ) (S : Fin B → Config ι) :
    sample dims zeroBase logProbs order u = .ok S ↔
      ∀ b i, S b i = decision zeroBase logProbs (u b) (S b) i := by
  unfold sample
  rw [if_pos (Or.inl hd), Except.ok.injEq]
  constructor
  · rintro rfl b
    rw [sampler_rows]
    exact fun i => decideAll_fixed _ order ho (decision_causal zeroBase logProbs order hc (u b)) _ i
  · intro h
    funext b
    rw [sampler_rows]
    exact (decideAll_eq_iff _ order ho (decision_causal zeroBase logProbs order hc (u b)) _ _).2 (h b)

/-- The distribution of `numpy.random.rand`: uniform on the half-open unit interval. -/
noncomputable def unif : Measure ℝ := volume.restrict (Set.Ico 0 1)

instance : IsProbabilityMeasure unif := ⟨by simp [unif]⟩

/-- Independent uniform numbers, one per batch row and site. -/
noncomputable def rand (B : Nat) (ι : Type) [Fintype ι] : Measure (Fin B → ι → ℝ) :=
  Measure.pi fun _ => Measure.pi fun _ => unif

theorem unif_lt (p : ℝ) (h0 : 0 ≤ p) (h1 : p ≤ 1) : unif {u | p > u} = ENNReal.ofReal p := by
  have : {u : ℝ | p > u} = Set.Iio p := rfl
  rw [this, unif, Measure.restrict_apply measurableSet_Iio]
  have : Set.Iio p ∩ Set.Ico 0 1 = Set.Ico 0 p := by
    ext x; simp only [Set.mem_inter_iff, Set.mem_Iio, Set.mem_Ico]; constructor
    · rintro ⟨a, b, c⟩; exact ⟨b, a⟩
    · rintro ⟨a, b⟩; exact ⟨b, a, lt_of_lt_of_le b h1⟩
  rw [this, Real.volume_Ico, sub_zero]

theorem unif_ge (p : ℝ) (h0 : 0 ≤ p) (h1 : p ≤ 1) : unif {u | ¬ p > u} = ENNReal.ofReal (1 - p) := by
  have : {u : ℝ | ¬ p > u} = Set.Ici p := by ext x; simp
  rw [this, unif, Measure.restrict_apply measurableSet_Ici]
  have : Set.Ici p ∩ Set.Ico 0 1 = Set.Ico p 1 := by
    ext x; simp only [Set.mem_inter_iff, Set.mem_Ici, Set.mem_Ico]; constructor
    · rintro ⟨a, b, c⟩; exact ⟨a, c⟩
    · rintro ⟨a, b⟩; exact ⟨a, le_trans h0 a, b⟩
  rw [this, Real.volume_Ico]

/-- The category whose probability decides how likely value `x` is written: category zero for the value
one, category one otherwise. -/
theorem decision_prob (zeroBase : Bool) (logProbs : Config ι → ι → Fin 2 → ℝ) (hn : Normalized logProbs)
    (s : Config ι) (i : ι) (x : ℤ) (hx : x = 1 ∨ x = if zeroBase then 0 else -1) :
    unif {v | x = if Real.exp (logProbs s i 0) > v then 1 else if zeroBase then 0 else -1} =
      ENNReal.ofReal (prob logProbs s i (category x)) := by
  have h0 := Real.exp_pos (logProbs s i 0)
  have h1 := Real.exp_pos (logProbs s i 1)
  have hsum := hn s i
  rcases hx with rfl | rfl
  · have : {v : ℝ | (1 : ℤ) = if Real.exp (logProbs s i 0) > v then 1 else if zeroBase then 0 else -1} =
        {v | Real.exp (logProbs s i 0) > v} := by
      ext v
      by_cases h : Real.exp (logProbs s i 0) > v <;> cases zeroBase <;> simp [h]
    rw [this, unif_lt _ h0.le (by linarith)]
    rfl
  · have : {v : ℝ | (if zeroBase then (0 : ℤ) else -1) =
        if Real.exp (logProbs s i 0) > v then 1 else if zeroBase then 0 else -1} =
        {v | ¬ Real.exp (logProbs s i 0) > v} := by
      ext v
      by_cases h : Real.exp (logProbs s i 0) > v <;> cases zeroBase <;> simp [h]
    rw [this, unif_ge _ h0.le (by linarith)]
    have : category (if zeroBase then (0 : ℤ) else -1) = 1 := by cases zeroBase <;> rfl
    rw [this, prob]
    congr 1
    linarith

/-- Distribution of the batch for both conventions. -/
theorem sample_distribution {B : Nat} (dims : Nat) (hd : dims = 1 ∨ dims = 2) (zeroBase : Bool)
    (logProbs : Config ι → ι → Fin 2 → ℝ) (hn : Normalized logProbs) (order : List ι) (ho : Complete order)
    (hc : Causal order logProbs) (S : Fin B → Config ι)
    (hS : ∀ b i, S b i = 1 ∨ S b i = if zeroBase then 0 else -1) :
    rand B ι {u | sample dims zeroBase logProbs order u = .ok S} =
      ∏ b, ∏ i, ENNReal.ofReal (prob logProbs (S b) i (category (S b i))) := by
  have hset : {u : Fin B → ι → ℝ | sample dims zeroBase logProbs order u = .ok S} =
      Set.pi Set.univ fun b => Set.pi Set.univ fun i =>
        {v | S b i = if Real.exp (logProbs (S b) i 0) > v then 1 else if zeroBase then 0 else -1} := by
    ext u
    simp only [Set.mem_setOf_eq, Set.mem_pi, Set.mem_univ, forall_true_left,
      sample_eq_iff dims hd zeroBase logProbs order ho hc u S]
    rfl
  rw [hset, rand, Measure.pi_pi]
  refine Finset.prod_congr rfl fun b _ => ?_
  rw [Measure.pi_pi]
  exact Finset.prod_congr rfl fun i _ => decision_prob zeroBase logProbs hn (S b) i (S b i) (hS b i)

/-! ### C35 -/

/-- The total probability of all spin configurations is one. -/
theorem sum_prob (logProbs : Config ι → ι → Fin 2 → ℝ) (hn : Normalized logProbs) (order : List ι)
    (ho : Complete order) (hc : Causal order logProbs) :
    ∑ s ∈ allSpins ι, ∏ i, prob logProbs s i (category (s i)) = 1 := by
  have hspin : ∀ u : ι → ℝ, IsSpin (decideAll (decision false logProbs u) order fun _ => 0) := by
    intro u i
    rw [decideAll_fixed _ order ho (decision_causal false logProbs order hc u)]
    exact decision_spin _ _ _ _
  let box : Config ι → Set (ι → ℝ) := fun s => {u | decideAll (decision false logProbs u) order (fun _ => 0) = s}
  have hbox : ∀ s, box s = Set.pi Set.univ fun i =>
      {v | s i = if Real.exp (logProbs s i 0) > v then 1 else if false then 0 else -1} := by
    intro s
    ext u
    simp only [box, Set.mem_setOf_eq, Set.mem_pi, Set.mem_univ, forall_true_left,
      decideAll_eq_iff _ order ho (decision_causal false logProbs order hc u)]
    rfl
  have hmeas : ∀ s, MeasurableSet (box s) := by
    intro s
    rw [hbox]
    refine MeasurableSet.univ_pi fun i => ?_
    have : Measurable fun v : ℝ => (if Real.exp (logProbs s i 0) > v then (1 : ℤ) else if false then 0 else -1) :=
      Measurable.ite measurableSet_Iio measurable_const measurable_const
    have hm := this (measurableSet_singleton (s i))
    have heq : {v : ℝ | s i = if Real.exp (logProbs s i 0) > v then 1 else if false then 0 else -1} =
        (fun v : ℝ => (if Real.exp (logProbs s i 0) > v then (1 : ℤ) else if false then 0 else -1)) ⁻¹' {s i} := by
      ext v
      exact eq_comm
    rw [heq]
    exact hm
  have hvol : ∀ s ∈ allSpins ι, (Measure.pi fun _ : ι => unif) (box s) =
      ENNReal.ofReal (∏ i, prob logProbs s i (category (s i))) := by
    intro s hs
    have hs' := (mem_allSpins s).1 hs
    rw [hbox, Measure.pi_pi, ENNReal.ofReal_prod_of_nonneg fun i _ => prob_nonneg _ _ _ _]
    exact Finset.prod_congr rfl fun i _ => decision_prob false logProbs hn s i (s i) (hs' i)
  have hunion : (⋃ s ∈ allSpins ι, box s) = Set.univ := by
    ext u
    simp only [Set.mem_iUnion, Set.mem_univ, iff_true]
    exact ⟨_, (mem_allSpins _).2 (hspin u), rfl⟩
  have hdisj : Set.PairwiseDisjoint (↑(allSpins ι)) box := by
    intro s _ s' _ hne
    rw [Function.onFun, Set.disjoint_left]
    intro u h1 h2
    exact hne (h1.symm.trans h2)
  have htot := measure_biUnion_finset (μ := Measure.pi fun _ : ι => unif) hdisj fun s _ => hmeas s
  rw [hunion, measure_univ, Finset.sum_congr rfl hvol,
    ← ENNReal.ofReal_sum_of_nonneg fun s _ => Finset.prod_nonneg fun i _ => prob_nonneg _ _ _ _] at htot
  have := congrArg ENNReal.toReal htot
  rw [ENNReal.toReal_one, ENNReal.toReal_ofReal
    (Finset.sum_nonneg fun s _ => Finset.prod_nonneg fun i _ => prob_nonneg _ _ _ _)] at this
  exact this.symm

theorem condLogProbs_causal (net : Net ι) (order : List ι) (hc : Causal order net) :
    Causal order (condLogProbs net) := by
  intro s s' i h
  funext c
  unfold condLogProbs condLogWave
  rw [hc s s' i h]

/-- **C35.** If the network's output at each site depends only on sites earlier in some ordering of the
sites, then the squared amplitudes of all spin configurations add up to one. -/
theorem C35_normalised (net : Net ι) (order : List ι) (ho : Complete order) (hc : Causal order net) :
    ∑ s ∈ allSpins ι, ‖Complex.exp (logWave net s)‖ ^ 2 = 1 := by
  rw [← sum_prob (condLogProbs net) (condLogProbs_normalized net) order ho (condLogProbs_causal net order hc)]
  exact Finset.sum_congr rfl fun s hs => norm_logWave net s ((mem_allSpins s).1 hs)

/-- The dependency hypothesis is needed: on two sites, if each site copies the other, the squares add up
to something else. -/
theorem C35_needs_order : ∃ net : Net (Fin 2),
    ∑ s ∈ allSpins (Fin 2), ‖Complex.exp (logWave net s)‖ ^ 2 ≠ 1 := by
  let net : Net (Fin 2) := fun s i c => if c = category (s (1 - i)) then (Real.log 3 / 2 : ℝ) else 0
  refine ⟨net, ?_⟩
  have hp : ∀ (s : Config (Fin 2)) (i : Fin 2) (c : Fin 2), prob (condLogProbs net) s i c =
      if c = category (s (1 - i)) then 3 / 4 else 1 / 4 := by
    intro s i c
    have hs := condLogProbs_normalized net s i
    have hval : ∀ c, Real.exp (condLogProbs net s i c) =
        (if c = category (s (1 - i)) then 3 else 1) * Real.exp (-(logSumExp fun c => (net s i c).re * 2)) := by
      intro c
      have : condLogProbs net s i c = (if c = category (s (1 - i)) then Real.log 3 else 0) +
          -(logSumExp fun c => (net s i c).re * 2) := by
        show ((net s i c).re - (1 / 2) * logSumExp fun c => (net s i c).re * 2) * 2 = _
        have : (net s i c).re = if c = category (s (1 - i)) then Real.log 3 / 2 else 0 := by
          simp only [net]
          split
          · rw [Complex.ofReal_re]
          · rfl
        rw [this]
        split <;> ring
      rw [this, Real.exp_add]
      split
      · rw [Real.exp_log (by norm_num)]
      · rw [Real.exp_zero]
    have h0 := hval 0
    have h1 := hval 1
    have hE : Real.exp (-(logSumExp fun c => (net s i c).re * 2)) = 1 / 4 := by
      rw [h0, h1] at hs
      have hcat : category (s (1 - i)) = 0 ∨ category (s (1 - i)) = 1 := by
        unfold category; split <;> simp
      rcases hcat with h | h
      · rw [h] at hs; simp at hs; linarith
      · rw [h] at hs; simp at hs; linarith
    unfold prob
    rw [hval, hE]
    split <;> norm_num
  have hterm : ∀ s ∈ allSpins (Fin 2), ‖Complex.exp (logWave net s)‖ ^ 2 = if s 0 = s 1 then 9 / 16 else 1 / 16 := by
    intro s hs
    have hs' := (mem_allSpins s).1 hs
    rw [norm_logWave net s hs', Fin.prod_univ_two, hp, hp]
    have e0 : (1 : Fin 2) - 0 = 1 := rfl
    have e1 : (1 : Fin 2) - 1 = 0 := rfl
    rw [e0, e1]
    rcases hs' 0 with a | a <;> rcases hs' 1 with b | b <;> rw [a, b] <;> simp [category] <;> norm_num
  rw [Finset.sum_congr rfl hterm]
  have hsub : ({fun _ => 1, fun _ => -1} : Finset (Config (Fin 2))) ⊆ allSpins (Fin 2) := by
    intro s hs
    rw [mem_allSpins]
    simp only [Finset.mem_insert, Finset.mem_singleton] at hs
    rcases hs with rfl | rfl
    · exact fun i => Or.inl rfl
    · exact fun i => Or.inr rfl
  have hle := Finset.sum_le_sum_of_subset_of_nonneg (f := fun s : Config (Fin 2) => if s 0 = s 1 then (9 / 16 : ℝ) else 1 / 16)
    hsub (fun s _ _ => by split <;> norm_num)
  rw [Finset.sum_pair (by intro h; have := congrFun h 0; norm_num at this)] at hle
  simp only [if_true] at hle
  intro hcon
  rw [hcon] at hle
  norm_num at hle

/-! ### C36 -/

/-- **C36.** In the plus/minus-one convention, on lattices of one or two dimensions, for a network that
is autoregressive in the ordering handed to the sampler: the probability that `next` returns the batch
`S` is the product over the rows of the squared amplitudes. So rows are independent and each is
distributed as `|ψ|²`. -/
theorem C36_distribution {B : Nat} (dims : Nat) (hd : dims = 1 ∨ dims = 2) (net : Net ι) (order : List ι)
    (ho : Complete order) (hc : Causal order net) (S : Fin B → Config ι) (hS : ∀ b, IsSpin (S b)) :
    rand B ι {u | sample dims false (condLogProbs net) order u = .ok S} =
      ENNReal.ofReal (∏ b, ‖Complex.exp (logWave net (S b))‖ ^ 2) := by
  rw [sample_distribution dims hd false (condLogProbs net) (condLogProbs_normalized net) order ho
    (condLogProbs_causal net order hc) S (fun b i => hS b i),
    ENNReal.ofReal_prod_of_nonneg fun b _ => by positivity]
  refine Finset.prod_congr rfl fun b _ => ?_
  rw [norm_logWave net (S b) (hS b), ENNReal.ofReal_prod_of_nonneg fun i _ => prob_nonneg _ _ _ _]

/-- **C36.** Every batch returned consists of spin configurations, whatever the random numbers. -/
theorem C36_spins {B : Nat} (dims : Nat) (hd : dims = 1 ∨ dims = 2) (net : Net ι) (order : List ι)
    (ho : Complete order) (hc : Causal order net) (u : Fin B → ι → ℝ) :
    ∃ S, sample dims false (condLogProbs net) order u = .ok S ∧ ∀ b, IsSpin (S b) := by
  have h : sample dims false (condLogProbs net) order u =
      .ok (order.foldl (samplerStep false (condLogProbs net) u) fun _ _ => 0) := by
    unfold sample; rw [if_pos (Or.inl hd)]
  refine ⟨_, h, fun b i => ?_⟩
  have := (sample_eq_iff dims hd false (condLogProbs net) order ho (condLogProbs_causal net order hc) u _).1 h b i
  rw [this]
  exact decision_spin _ _ _ _

/-- A network on two sites, the second looking at the first, meets the hypotheses. -/
example : ∃ (net : Net (Fin 2)) (order : List (Fin 2)), Complete order ∧ Causal order net ∧
    net (fun _ => 1) 0 ≠ net (fun _ => -1) 0 := by
  refine ⟨fun s i c => if i = 0 ∧ c = 0 then (s 1 : ℂ) else 0, [1, 0], ⟨by decide, by decide⟩, ?_, ?_⟩
  · intro s s' i h
    funext c
    by_cases hi : i = 0
    · subst hi
      have := h 1 (by show List.idxOf _ _ < List.idxOf _ _; decide)
      simp [this]
    · simp [hi]
  · intro h
    have := congrFun h 0
    norm_num at this

/-! ### C37 -/

/-- **C37 (what the code does).** With `zero_base=True` the probability of returning the batch `S` of
zeros and ones is the product of the probabilities of the *opposite* categories: value one is drawn with
the probability of category zero. -/
theorem C37_inverted {B : Nat} (dims : Nat) (hd : dims = 1 ∨ dims = 2)
    (logProbs : Config ι → ι → Fin 2 → ℝ) (hn : Normalized logProbs) (order : List ι) (ho : Complete order)
    (hc : Causal order logProbs) (S : Fin B → ι → Fin 2) :
    rand B ι {u | sample dims true logProbs order u = .ok fun b i => ((S b i).val : ℤ)} =
      ∏ b, ∏ i, ENNReal.ofReal (Real.exp (logProbs (fun j => ((S b j).val : ℤ)) i (1 - S b i))) := by
  rw [sample_distribution dims hd true logProbs hn order ho hc]
  · refine Finset.prod_congr rfl fun b _ => Finset.prod_congr rfl fun i _ => ?_
    have : category ((S b i).val : ℤ) = 1 - S b i := by
      generalize S b i = x
      fin_cases x <;> rfl
    rw [this]
    rfl
  · intro b i
    generalize S b i = x
    fin_cases x <;> simp

/-- **C37 (violated).** There is a one-site network for which the sampler with `zero_base=True` does not
return value `k` with the probability the network gives to category `k` (the category `ToOneHot` assigns
to `k`). -/
theorem C37_violated : ∃ (logProbs : Config (Fin 1) → Fin 1 → Fin 2 → ℝ), Normalized logProbs ∧
    Causal [0] logProbs ∧ toOneHot 2 1 1 = 1 ∧
    rand 1 (Fin 1) {u | sample 1 true logProbs [0] u = .ok fun _ _ => 1} ≠
      ENNReal.ofReal (Real.exp (logProbs (fun _ => 1) 0 1)) := by
  let lp : Config (Fin 1) → Fin 1 → Fin 2 → ℝ := fun _ _ c => if c = 0 then Real.log (3 / 4) else Real.log (1 / 4)
  have hn : Normalized lp := by
    intro s i
    simp only [lp]
    rw [if_pos trivial, if_neg (by decide), Real.exp_log (by norm_num), Real.exp_log (by norm_num)]
    norm_num
  have hc : Causal [0] lp := fun _ _ _ _ => rfl
  refine ⟨lp, hn, hc, by simp [toOneHot, oneHot], ?_⟩
  have h := C37_inverted (B := 1) 1 (Or.inl rfl) lp hn [0] ⟨by decide, by decide⟩ hc (fun _ _ => 1)
  simp only [Fin.val_one, Nat.cast_one, Finset.univ_unique, Finset.prod_singleton] at h
  rw [h]
  have e0 : (1 : Fin 2) - 1 = 0 := rfl
  simp only [lp, e0, if_true]
  rw [if_neg (by decide), Real.exp_log (by norm_num), Real.exp_log (by norm_num)]
  intro hcon
  rw [ENNReal.ofReal_eq_ofReal_iff (by norm_num) (by norm_num)] at hcon
  norm_num at hcon

/-- **C37 (partial).** The agreement does hold when both categories are equally likely at every site.
Missing: any other network. -/
theorem C37_symmetric_partial {B : Nat} (dims : Nat) (hd : dims = 1 ∨ dims = 2)
    (logProbs : Config ι → ι → Fin 2 → ℝ) (hn : Normalized logProbs) (order : List ι) (ho : Complete order)
    (hc : Causal order logProbs) (heq : ∀ s i, logProbs s i 0 = logProbs s i 1) (S : Fin B → ι → Fin 2) :
    rand B ι {u | sample dims true logProbs order u = .ok fun b i => ((S b i).val : ℤ)} =
      ∏ b, ∏ i, ENNReal.ofReal (Real.exp (logProbs (fun j => ((S b j).val : ℤ)) i (S b i))) := by
  rw [C37_inverted dims hd logProbs hn order ho hc]
  refine Finset.prod_congr rfl fun b _ => Finset.prod_congr rfl fun i _ => ?_
  congr 2
  have : ∀ x : Fin 2, logProbs (fun j => ((S b j).val : ℤ)) i (1 - x) = logProbs (fun j => ((S b j).val : ℤ)) i x := by
    intro x
    fin_cases x
    · exact (heq _ _).symm
    · exact heq _ _
  exact this _

end Verif.Autoregressive
