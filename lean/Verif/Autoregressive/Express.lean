import Verif.Symmetry.Ground
import Verif.Autoregressive.Props
import Verif.Energy.Spins

/-!
# C146: the autoregressive form excludes no wave function

An autoregressive machine (machines/abstract_machine.py:31-71, deepar/layers/autoregressive.py:7-34) multiplies normalised conditional amplitudes. Whatever the
ordering of the sites, with a suitable network inside it represents every wave function without zeros, and comes as close
as desired to all others; so the lowest energy of all machines is the ground state energy.
-/
namespace Verif.Autoregressive

open Verif.Operators Verif.Energy Verif.Ensemble Filter Topology

variable {ι : Type} [Fintype ι] [DecidableEq ι]

/-! ### Construction -/

/-- The spin value of a category. -/
def spinOf (c : Fin 2) : ℤ := if c = 0 then 1 else -1

instance (order : List ι) (j i : ι) : Decidable (Before order j i) := inferInstanceAs (Decidable (_ < _))

/-- Total weight of the configurations that agree with `s` before site `i` and have the value of `c` there. -/
noncomputable def weightOf (order : List ι) (w : Config ι → ℝ) (s : Config ι) (i : ι) (c : Fin 2) : ℝ :=
  ∑ t ∈ allSpins ι with (∀ j, Before order j i → t j = s j) ∧ t i = spinOf c, w t

/-- Total weight of the configurations that agree with `s` on the first `k` sites. -/
noncomputable def weightUpTo (order : List ι) (w : Config ι → ℝ) (s : Config ι) (k : Nat) : ℝ :=
  ∑ t ∈ allSpins ι with (∀ j, order.idxOf j < k → t j = s j), w t

/-- The network: conditional probabilities of `|ψ|²`; the last site gets the phase. -/
noncomputable def perfectNet (order : List ι) (ψ : Wave ι) : Net ι := fun s i c =>
  ⟨1 / 2 * Real.log (weightOf order (fun t => ‖ψ t‖ ^ 2) s i c),
    if order.idxOf i + 1 = order.length then Complex.arg (ψ (Function.update s i (spinOf c))) else 0⟩

theorem perfectNet_causal {order : List ι} (ho : Complete order) (ψ : Wave ι) : Causal order (perfectNet order ψ) := by
  intro s s' i h
  funext c
  have h1 : weightOf order (fun t => ‖ψ t‖ ^ 2) s i c = weightOf order (fun t => ‖ψ t‖ ^ 2) s' i c := by
    unfold weightOf
    refine congrArg (fun S => Finset.sum S _) (Finset.filter_congr fun t _ => ?_)
    constructor
    · exact fun ⟨a, b⟩ => ⟨fun j hj => (a j hj).trans (h j hj), b⟩
    · exact fun ⟨a, b⟩ => ⟨fun j hj => (a j hj).trans (h j hj).symm, b⟩
  unfold perfectNet
  rw [h1]
  by_cases hl : order.idxOf i + 1 = order.length
  · rw [if_pos hl, if_pos hl]
    have h2 : Function.update s i (spinOf c) = Function.update s' i (spinOf c) := by
      funext j
      by_cases hj : j = i
      · subst hj; simp
      · rw [Function.update_of_ne hj, Function.update_of_ne hj]
        refine h j ?_
        have h3 := List.idxOf_lt_length_of_mem (ho.2 j)
        have h4 : order.idxOf j ≠ order.idxOf i := fun e => hj ((List.idxOf_inj (ho.2 j)).1 e)
        unfold Before
        omega
    rw [h2]
  · rw [if_neg hl, if_neg hl]

theorem weightOf_own (order : List ι) (w : Config ι → ℝ) (ho : Complete order) {s : Config ι} (hs : IsSpin s) (i : ι) :
    weightOf order w s i (category (s i)) = weightUpTo order w s (order.idxOf i + 1) := by
  unfold weightOf weightUpTo
  refine congrArg (fun S => Finset.sum S _) (Finset.filter_congr fun t _ => ?_)
  have hc : spinOf (category (s i)) = s i := by
    unfold spinOf category
    rcases hs i with h | h <;> simp [h]
  rw [hc]
  constructor
  · rintro ⟨a, b⟩ j hj
    rcases Nat.lt_succ_iff_lt_or_eq.1 hj with h | h
    · exact a j h
    · rw [(List.idxOf_inj (ho.2 j)).1 h]
      exact b
  · intro a
    exact ⟨fun j hj => a j (Nat.lt_succ_of_lt hj), a i (Nat.lt_succ_self _)⟩

theorem weightOf_sum (order : List ι) (w : Config ι → ℝ) (s : Config ι) (i : ι) :
    weightOf order w s i 0 + weightOf order w s i 1 = weightUpTo order w s (order.idxOf i) := by
  unfold weightOf weightUpTo
  rw [← Finset.sum_union]
  · congr 1
    ext t
    simp only [Finset.mem_union, Finset.mem_filter]
    constructor
    · rintro (⟨h1, h2, _⟩ | ⟨h1, h2, _⟩)
      · exact ⟨h1, h2⟩
      · exact ⟨h1, h2⟩
    · rintro ⟨h1, h2⟩
      rcases (mem_allSpins t).1 h1 i with h | h
      · exact Or.inl ⟨h1, h2, by simpa [spinOf] using h⟩
      · exact Or.inr ⟨h1, h2, by simpa [spinOf] using h⟩
  · rw [Finset.disjoint_left]
    intro t h1 h2
    have a := (Finset.mem_filter.1 h1).2.2
    have b := (Finset.mem_filter.1 h2).2.2
    rw [a] at b
    simp [spinOf] at b

theorem weightUpTo_zero (order : List ι) (w : Config ι → ℝ) (s : Config ι) :
    weightUpTo order w s 0 = ∑ t ∈ allSpins ι, w t := by
  unfold weightUpTo
  rw [Finset.filter_true_of_mem fun t _ j hj => absurd hj (Nat.not_lt_zero _)]

theorem weightUpTo_length {order : List ι} (ho : Complete order) (w : Config ι → ℝ) {s : Config ι} (hs : IsSpin s) :
    weightUpTo order w s order.length = w s := by
  unfold weightUpTo
  have : ((allSpins ι).filter fun t => ∀ j, order.idxOf j < order.length → t j = s j) = {s} := by
    ext t
    simp only [Finset.mem_filter, Finset.mem_singleton]
    constructor
    · rintro ⟨-, h⟩
      exact funext fun j => h j (List.idxOf_lt_length_of_mem (ho.2 j))
    · rintro rfl
      exact ⟨(mem_allSpins _).2 hs, fun _ _ => rfl⟩
  rw [this, Finset.sum_singleton]

theorem sum_order {order : List ι} (ho : Complete order) (f : Nat → ℝ) :
    ∑ i, f (order.idxOf i) = ∑ k ∈ Finset.range order.length, f k := by
  refine Finset.sum_bij (fun i _ => order.idxOf i) (fun i _ => ?_) (fun i _ j _ h => ?_) (fun k hk => ?_) fun i _ => rfl
  · exact Finset.mem_range.2 (List.idxOf_lt_length_of_mem (ho.2 i))
  · exact (List.idxOf_inj (ho.2 i)).1 h
  · rw [Finset.mem_range] at hk
    exact ⟨order[k], Finset.mem_univ _, ho.1.idxOf_getElem k hk⟩

omit [DecidableEq ι] in
theorem logWave_sum (net : Net ι) (s : Config ι) (hs : IsSpin s) : logWave net s = ∑ i, condLogWave net s i (category (s i)) := by
  unfold logWave combine
  refine Finset.sum_congr rfl fun i _ => ?_
  rw [Fin.sum_univ_two]
  rcases hs i with h | h <;> simp [plusMinusOneToOneHot, oneHot, category, h]

theorem perfectNet_wave {order : List ι} (ho : Complete order) [Nonempty ι] {ψ : Wave ι} (hψ : ∀ s, IsSpin s → ψ s ≠ 0)
    (s : Config ι) (hs : IsSpin s) :
    Complex.exp (logWave (perfectNet order ψ) s) = ψ s / (Real.sqrt (∑ t ∈ allSpins ι, ‖ψ t‖ ^ 2) : ℝ) := by
  set w : Config ι → ℝ := fun t => ‖ψ t‖ ^ 2 with hw
  have hwpos : ∀ t, IsSpin t → 0 < w t := fun t ht => by have := norm_pos_iff.2 (hψ t ht); positivity
  have hapos : ∀ i c, 0 < weightOf order w s i c := by
    intro i c
    unfold weightOf
    have hu : IsSpin (Function.update s i (spinOf c)) := by
      intro j
      by_cases hj : j = i
      · subst hj
        unfold spinOf
        by_cases hc : c = 0 <;> simp [hc]
      · rw [Function.update_of_ne hj]
        exact hs j
    refine Finset.sum_pos (fun t ht => hwpos t ((mem_allSpins t).1 (Finset.mem_filter.1 ht).1))
      ⟨Function.update s i (spinOf c), Finset.mem_filter.2 ⟨(mem_allSpins _).2 hu, fun j hj => ?_, by simp⟩⟩
    have : j ≠ i := by
      rintro rfl
      exact absurd hj (lt_irrefl _)
    rw [Function.update_of_ne this]
  set M : Nat → ℝ := weightUpTo order w s with hM
  have hre : ∀ i, (condLogWave (perfectNet order ψ) s i (category (s i))).re =
      1 / 2 * (Real.log (M (order.idxOf i + 1)) - Real.log (M (order.idxOf i))) := by
    intro i
    unfold condLogWave
    rw [normalizeComplex_re]
    unfold normalizeReal logSumExp
    have h1 : ∀ c, Real.exp ((perfectNet order ψ s i c).re * 2) = weightOf order w s i c := by
      intro c
      have : (perfectNet order ψ s i c).re * 2 = Real.log (weightOf order w s i c) := by
        show 1 / 2 * Real.log (weightOf order w s i c) * 2 = _
        ring
      rw [this, Real.exp_log (hapos i c)]
    simp only [h1, Fin.sum_univ_two, weightOf_sum]
    show 1 / 2 * Real.log (weightOf order w s i (category (s i))) - _ = _
    rw [weightOf_own order w ho hs]
    ring
  have him : ∀ i, (condLogWave (perfectNet order ψ) s i (category (s i))).im =
      if order.idxOf i + 1 = order.length then Complex.arg (ψ s) else 0 := by
    intro i
    show (perfectNet order ψ s i (category (s i))).im = _
    unfold perfectNet
    have hc : spinOf (category (s i)) = s i := by
      unfold spinOf category
      rcases hs i with h | h <;> simp [h]
    simp only [hc, Function.update_eq_self]
  have hlen : 0 < order.length := List.length_pos_of_mem (ho.2 (Classical.arbitrary ι))
  have hlog : logWave (perfectNet order ψ) s =
      ((1 / 2 * (Real.log (w s) - Real.log (∑ t ∈ allSpins ι, w t)) : ℝ) : ℂ) + (Complex.arg (ψ s) : ℂ) * Complex.I := by
    rw [logWave_sum _ s hs]
    apply Complex.ext
    · rw [Complex.re_sum]
      simp only [hre]
      rw [sum_order ho fun k => 1 / 2 * (Real.log (M (k + 1)) - Real.log (M k)), ← Finset.mul_sum, Finset.sum_range_sub (fun k => Real.log (M k))]
      rw [hM, weightUpTo_length ho w hs, weightUpTo_zero]
      simp
    · rw [Complex.im_sum]
      simp only [him]
      rw [sum_order ho fun k => if k + 1 = order.length then Complex.arg (ψ s) else 0, Finset.sum_eq_single (order.length - 1)]
      · rw [if_pos (by omega)]
        simp
      · intro k _ hk
        rw [if_neg (by omega)]
      · intro h
        exact absurd (Finset.mem_range.2 (by omega)) h
  have hZ : 0 < ∑ t ∈ allSpins ι, w t := Finset.sum_pos (fun t ht => hwpos t ((mem_allSpins t).1 ht)) ⟨s, (mem_allSpins s).2 hs⟩
  have hexp : Real.exp (1 / 2 * (Real.log (w s) - Real.log (∑ t ∈ allSpins ι, w t))) = ‖ψ s‖ / Real.sqrt (∑ t ∈ allSpins ι, w t) := by
    have h1 : 1 / 2 * (Real.log (w s) - Real.log (∑ t ∈ allSpins ι, w t)) =
        Real.log ‖ψ s‖ - Real.log (Real.sqrt (∑ t ∈ allSpins ι, w t)) := by
      rw [Real.log_sqrt hZ.le, hw]
      simp only
      rw [Real.log_pow]
      push_cast
      ring
    rw [h1, Real.exp_sub, Real.exp_log (norm_pos_iff.2 (hψ s hs)), Real.exp_log (Real.sqrt_pos.2 hZ)]
  rw [hlog, Complex.exp_add, ← Complex.ofReal_exp, hexp]
  have h3 := Complex.norm_mul_exp_arg_mul_I (ψ s)
  push_cast
  rw [div_mul_eq_mul_div, h3]

/-! ### C146 -/

/-- **C146.** Every wave function without zeros is, up to its length, the wave function of an autoregressive machine, in every
ordering; if its amplitudes are positive, a machine with real outputs suffices. -/
theorem C146_every_wave [Nonempty ι] {order : List ι} (ho : Complete order) {ψ : Wave ι} (hψ : ∀ s, IsSpin s → ψ s ≠ 0) :
    ∃ net : Net ι, Causal order net ∧
      (∀ s, IsSpin s → Complex.exp (logWave net s) = ψ s / (Real.sqrt (∑ t ∈ allSpins ι, ‖ψ t‖ ^ 2) : ℝ)) ∧
      ((∀ s, ψ s = ‖ψ s‖) → ∀ s i c, (net s i c).im = 0) := by
  refine ⟨perfectNet order ψ, perfectNet_causal ho ψ, perfectNet_wave ho hψ, fun hp s i c => ?_⟩
  unfold perfectNet
  simp only
  split
  · rw [hp, Complex.arg_ofReal_of_nonneg (norm_nonneg _)]
  · rfl

omit [DecidableEq ι] in
/-- The converse: amplitudes of autoregressive machines are never zero (and their squares add up to one, C35). -/
theorem C146_no_zeros (net : Net ι) (s : Config ι) : Complex.exp (logWave net s) ≠ 0 := Complex.exp_ne_zero _

/-! ### Wave functions with zeros -/

/-- `ψ` with its zeros replaced. -/
noncomputable def fillZeros (ψ : Wave ι) (k : Nat) : Wave ι := fun s => if ψ s = 0 then ((1 / ((k : ℝ) + 1) : ℝ) : ℂ) else ψ s

omit [Fintype ι] [DecidableEq ι] in
theorem fillZeros_ne (ψ : Wave ι) (k : Nat) (s : Config ι) : fillZeros ψ k s ≠ 0 := by
  unfold fillZeros
  split
  · exact Complex.ofReal_ne_zero.2 (by positivity)
  · assumption

omit [Fintype ι] [DecidableEq ι] in
theorem fillZeros_tendsto (ψ : Wave ι) (s : Config ι) : Tendsto (fun k => fillZeros ψ k s) atTop (𝓝 (ψ s)) := by
  unfold fillZeros
  by_cases h : ψ s = 0
  · simp only [h, if_true]
    have h1 := (Complex.continuous_ofReal.tendsto 0).comp tendsto_one_div_add_atTop_nhds_zero_nat
    exact h1
  · simp only [h, if_false]
    exact tendsto_const_nhds

/-- Machines whose wave functions tend to `ψ`. -/
theorem approach_seq [Nonempty ι] {order : List ι} (ho : Complete order) {ψ : Wave ι} (hψ : ∃ s, IsSpin s ∧ ψ s ≠ 0) :
    ∃ net : Nat → Net ι, (∀ k, Causal order (net k)) ∧ ∀ s, IsSpin s → Tendsto (fun k => Complex.exp (logWave (net k) s)) atTop
      (𝓝 (ψ s / (Real.sqrt (∑ t ∈ allSpins ι, ‖ψ t‖ ^ 2) : ℝ))) := by
  refine ⟨fun k => perfectNet order (fillZeros ψ k), fun k => perfectNet_causal ho _, fun s hs => ?_⟩
  simp only [perfectNet_wave ho (fun t _ => fillZeros_ne ψ _ t) s hs]
  refine (fillZeros_tendsto ψ s).div ?_ ?_
  · refine (Complex.continuous_ofReal.tendsto _).comp ?_
    refine (Real.continuous_sqrt.tendsto _).comp ?_
    exact tendsto_finsetSum _ fun t _ => ((fillZeros_tendsto ψ t).norm).pow 2
  · obtain ⟨s, hs, hne⟩ := hψ
    refine Complex.ofReal_ne_zero.2 (Real.sqrt_pos.2 (Finset.sum_pos' (fun t _ => by positivity) ⟨s, (mem_allSpins s).2 hs, ?_⟩)).ne'
    have := norm_pos_iff.2 hne
    positivity

/-- **C146, wave functions with zeros.** They are approached as closely as desired. -/
theorem C146_approach [Nonempty ι] {order : List ι} (ho : Complete order) {ψ : Wave ι} (hψ : ∃ s, IsSpin s ∧ ψ s ≠ 0) {ε : ℝ} (hε : 0 < ε) :
    ∃ net : Net ι, Causal order net ∧
      ∀ s, IsSpin s → ‖Complex.exp (logWave net s) - ψ s / (Real.sqrt (∑ t ∈ allSpins ι, ‖ψ t‖ ^ 2) : ℝ)‖ < ε := by
  obtain ⟨net, hc, hlim⟩ := approach_seq ho hψ
  have h1 : ∀ᶠ k in atTop, ∀ s ∈ allSpins ι,
      ‖Complex.exp (logWave (net k) s) - ψ s / (Real.sqrt (∑ t ∈ allSpins ι, ‖ψ t‖ ^ 2) : ℝ)‖ < ε := by
    rw [Filter.eventually_all_finset]
    intro s hs
    have := Metric.tendsto_nhds.1 (hlim s ((mem_allSpins s).1 hs)) ε hε
    simpa only [dist_eq_norm] using this
  obtain ⟨k, hk⟩ := h1.exists
  exact ⟨net k, hc k, fun s hs => hk s ((mem_allSpins s).2 hs)⟩

/-! ### Energies -/

omit [Fintype ι] [DecidableEq ι] in
theorem applyRows_tendsto {φ : Nat → Wave ι} {ψ : Wave ι} (h : ∀ s, IsSpin s → Tendsto (fun k => φ k s) atTop (𝓝 (ψ s)))
    (l : List (Row ι ℝ)) (hl : ∀ r ∈ l, IsSpin r.conn) : Tendsto (fun k => applyRows l (φ k)) atTop (𝓝 (applyRows l ψ)) := by
  induction l with
  | nil => simp [applyRows]
  | cons r l ih =>
    have h1 := ((h r.conn (hl r (List.mem_cons_self ..))).const_mul (r.mel : ℂ)).add (ih fun r hr => hl r (List.mem_cons_of_mem _ hr))
    simpa [applyRows] using h1

theorem energyOf_tendsto {conn : Config ι → List (Row ι ℝ)} (hconn : ∀ s, IsSpin s → ∀ r ∈ conn s, IsSpin r.conn)
    {φ : Nat → Wave ι} {ψ : Wave ι} (h : ∀ s, IsSpin s → Tendsto (fun k => φ k s) atTop (𝓝 (ψ s))) (hψ : ∃ s, IsSpin s ∧ ψ s ≠ 0) :
    Tendsto (fun k => energyOf conn (φ k)) atTop (𝓝 (energyOf conn ψ)) := by
  unfold energyOf
  refine Tendsto.div ?_ ?_ ?_
  · refine (Complex.continuous_re.tendsto _).comp ?_
    refine tendsto_finsetSum _ fun s hs => ?_
    have hs' := (mem_allSpins s).1 hs
    exact ((Complex.continuous_conj.tendsto _).comp (h s hs')).mul (applyRows_tendsto h (conn s) (hconn s hs'))
  · exact tendsto_finsetSum _ fun s hs => (h s ((mem_allSpins s).1 hs)).norm.pow 2
  · obtain ⟨s, hs, hne⟩ := hψ
    refine (Finset.sum_pos' (fun t _ => by positivity) ⟨s, (mem_allSpins s).2 hs, ?_⟩).ne'
    have := norm_pos_iff.2 hne
    positivity

theorem energyOf_congr {conn : Config ι → List (Row ι ℝ)} (hconn : ∀ s, IsSpin s → ∀ r ∈ conn s, IsSpin r.conn)
    {φ ψ : Wave ι} {c : ℂ} (hc : c ≠ 0) (h : ∀ s, IsSpin s → φ s = c * ψ s) : energyOf conn φ = energyOf conn ψ := by
  have h1 : ∀ l : List (Row ι ℝ), (∀ r ∈ l, IsSpin r.conn) → applyRows l φ = c * applyRows l ψ := by
    intro l
    induction l with
    | nil => intro _; simp [applyRows]
    | cons r l ih =>
      intro hl
      have h2 := ih fun r hr => hl r (List.mem_cons_of_mem _ hr)
      have h3 := h r.conn (hl r (List.mem_cons_self ..))
      simp only [applyRows, List.map_cons, List.sum_cons] at h2 ⊢
      rw [h2, h3]
      ring
  unfold energyOf
  have hn : 0 < ‖c‖ ^ 2 := by have := norm_pos_iff.2 hc; positivity
  have e1 : ∑ s ∈ allSpins ι, (starRingEnd ℂ) (φ s) * applyRows (conn s) φ =
      ((‖c‖ ^ 2 : ℝ) : ℂ) * ∑ s ∈ allSpins ι, (starRingEnd ℂ) (ψ s) * applyRows (conn s) ψ := by
    rw [Finset.mul_sum]
    refine Finset.sum_congr rfl fun s hs => ?_
    have hs' := (mem_allSpins s).1 hs
    rw [h s hs', h1 (conn s) (hconn s hs'), map_mul, ← conj_mul_self]
    ring
  have e2 : ∑ s ∈ allSpins ι, ‖φ s‖ ^ 2 = ‖c‖ ^ 2 * ∑ s ∈ allSpins ι, ‖ψ s‖ ^ 2 := by
    rw [Finset.mul_sum]
    refine Finset.sum_congr rfl fun s hs => ?_
    rw [h s ((mem_allSpins s).1 hs), norm_mul, mul_pow]
  rw [e1, e2, Complex.re_ofReal_mul, mul_div_mul_left _ _ hn.ne']

/-- What C146 says of the energies of an operator: autoregressive machines in any ordering come as close as desired to the
energy of any wave function, in particular to the ground state energy. -/
def NothingLost (conn : Config ι → List (Row ι ℝ)) : Prop :=
  ∀ order : List ι, Complete order → ∀ ψ : Wave ι, (∃ s, IsSpin s ∧ ψ s ≠ 0) → ∀ ε : ℝ, 0 < ε →
    ∃ net : Net ι, Causal order net ∧ |energyOf conn (fun s => Complex.exp (logWave net s)) - energyOf conn ψ| < ε

theorem nothingLost_of [Nonempty ι] {conn : Config ι → List (Row ι ℝ)} (hconn : ∀ s, IsSpin s → ∀ r ∈ conn s, IsSpin r.conn) :
    NothingLost conn := by
  intro order ho ψ hψ ε hε
  obtain ⟨net, hc, hlim⟩ := approach_seq ho hψ
  have hZ : (Real.sqrt (∑ t ∈ allSpins ι, ‖ψ t‖ ^ 2)) ≠ 0 := by
    obtain ⟨s, hs, hne⟩ := hψ
    refine (Real.sqrt_pos.2 (Finset.sum_pos' (fun t _ => by positivity) ⟨s, (mem_allSpins s).2 hs, ?_⟩)).ne'
    have := norm_pos_iff.2 hne
    positivity
  set c : ℂ := ((Real.sqrt (∑ t ∈ allSpins ι, ‖ψ t‖ ^ 2) : ℝ) : ℂ)⁻¹ with hcdef
  have hc0 : c ≠ 0 := inv_ne_zero (Complex.ofReal_ne_zero.2 hZ)
  have h1 := energyOf_tendsto hconn (φ := fun k s => Complex.exp (logWave (net k) s)) (ψ := fun s => c * ψ s)
    (fun s hs => by
      have := hlim s hs
      rwa [div_eq_mul_inv, mul_comm] at this) (by
      obtain ⟨s, hs, hne⟩ := hψ
      exact ⟨s, hs, mul_ne_zero hc0 hne⟩)
  rw [energyOf_congr hconn hc0 fun _ _ => rfl] at h1
  obtain ⟨k, hk⟩ := (Metric.tendsto_nhds.1 h1 ε hε).exists
  exact ⟨net k, hc k, by simpa only [Real.dist_eq] using hk⟩

/-- **C146** for the Ising model on chains, all fields and couplings. -/
theorem C146_ising_chain {n : Nat} (hn : 0 < n) (h j : ℝ) (pbc : Bool) : NothingLost (isingChain (n := n) h j pbc) := by
  have : Nonempty (Fin n) := ⟨⟨0, hn⟩⟩
  exact nothingLost_of (Exact.rowsOf_ising_chain n h j pbc).spins

/-- **C146** for the Ising model on grids. -/
theorem C146_ising_grid {n m : Nat} (hn : 0 < n) (hm : 0 < m) (h j : ℝ) (pbc : Bool) : NothingLost (isingGrid (n := n) (m := m) h j pbc) := by
  have : Nonempty (Fin n × Fin m) := ⟨(⟨0, hn⟩, ⟨0, hm⟩)⟩
  exact nothingLost_of (Exact.rowsOf_ising_grid n m h j pbc).spins

/-- **C146** for the Heisenberg model on chains, after every history of calls. -/
theorem C146_heisenberg_chain {n : Nat} (hn : 0 < n) (rot pbc : Bool) (history : List (Call n 1)) :
    NothingLost (heisenbergChain rot pbc history) := by
  have : Nonempty (Fin n) := ⟨⟨0, hn⟩⟩
  refine nothingLost_of fun s hs => ?_
  have hr := Exact.rowsOf_heisenberg_chain n rot pbc history
  have := hr.spins s hs
  rwa [← hr.eq 1 (fun _ => s) 0] at this

/-- **C146** for the Heisenberg model on grids, after every history of calls. -/
theorem C146_heisenberg_grid {n m : Nat} (hn : 0 < n) (hm : 0 < m) (rot pbc : Bool) (history : List (Call n m)) :
    NothingLost (heisenbergGrid rot pbc history) := by
  have : Nonempty (Fin n × Fin m) := ⟨(⟨0, hn⟩, ⟨0, hm⟩)⟩
  refine nothingLost_of fun s hs => ?_
  have hr := Exact.rowsOf_heisenberg_grid n m rot pbc history
  have := hr.spins s hs
  rwa [← hr.eq 1 (fun _ => s) 0] at this

/-- The ground state is the wave function of an autoregressive machine with real outputs, in every ordering. -/
def GroundStateReached (conn : Config ι → List (Row ι ℝ)) : Prop :=
  ∀ order : List ι, Complete order → ∃ net : Net ι, Causal order net ∧ (∀ s i c, (net s i c).im = 0) ∧
    ∀ ψ : Wave ι, (∃ s, IsSpin s ∧ ψ s ≠ 0) → energyOf conn (fun s => Complex.exp (logWave net s)) ≤ energyOf conn ψ

theorem groundStateReached_of [Nonempty ι] {conn : Config ι → List (Row ι ℝ)} (hconn : ∀ s, IsSpin s → ∀ r ∈ conn s, IsSpin r.conn)
    (h : OnePositiveState conn (allSpins ι)) : GroundStateReached conn := by
  intro order ho
  obtain ⟨ψ, hψ⟩ := h.exists_
  obtain ⟨c, hc, hpos⟩ := h.positive ψ hψ
  have hc0 : c ≠ 0 := norm_pos_iff.1 (by rw [hc]; norm_num)
  obtain ⟨net, hnet, hw, him⟩ := C146_every_wave ho (ψ := fun s => ((‖ψ s‖ : ℝ) : ℂ))
    fun s hs => Complex.ofReal_ne_zero.2 (hpos s ((mem_allSpins s).2 hs)).1.ne'
  refine ⟨net, hnet, him fun s => by simp, fun φ hφ => ?_⟩
  set Z := (Real.sqrt (∑ t ∈ allSpins ι, ‖((‖ψ t‖ : ℝ) : ℂ)‖ ^ 2)) with hZdef
  have hZ : Z ≠ 0 := by
    refine (Real.sqrt_pos.2 (Finset.sum_pos (fun t ht => ?_) ⟨fun _ => 1, (mem_allSpins _).2 fun _ => Or.inl rfl⟩)).ne'
    have := (hpos t ht).1
    rw [Complex.norm_real, norm_norm]
    positivity
  have e : energyOf conn (fun s => Complex.exp (logWave net s)) = energyOf conn ψ := by
    refine energyOf_congr hconn (c := c⁻¹ * ((Z : ℝ) : ℂ)⁻¹) (mul_ne_zero (inv_ne_zero hc0) (inv_ne_zero (Complex.ofReal_ne_zero.2 hZ))) fun s hs => ?_
    rw [hw s hs, (hpos s ((mem_allSpins s).2 hs)).2]
    simp only [norm_mul, hc, Complex.norm_real, norm_norm, one_mul]
    field_simp
  rw [e]
  obtain ⟨s, hs, hne⟩ := hφ
  exact hψ.least _ ⟨fun t ht h => absurd ht h, s, (mem_allSpins s).2 hs, hne⟩

/-- **C146, exact ground states**: Ising chains in a positive field. -/
theorem C146_ground_ising_chain {n : Nat} (hn : 0 < n) {h : ℝ} (hh : 0 < h) (j : ℝ) (pbc : Bool) :
    GroundStateReached (isingChain (n := n) h j pbc) := by
  have : Nonempty (Fin n) := ⟨⟨0, hn⟩⟩
  exact groundStateReached_of (Exact.rowsOf_ising_chain n h j pbc).spins (C141_lowest_ising_chain hh j pbc)

/-- **C146, exact ground states**: Ising grids in a positive field. -/
theorem C146_ground_ising_grid {n m : Nat} (hn : 0 < n) (hm : 0 < m) {h : ℝ} (hh : 0 < h) (j : ℝ) (pbc : Bool) :
    GroundStateReached (isingGrid (n := n) (m := m) h j pbc) := by
  have : Nonempty (Fin n × Fin m) := ⟨(⟨0, hn⟩, ⟨0, hm⟩)⟩
  exact groundStateReached_of (Exact.rowsOf_ising_grid n m h j pbc).spins (C141_lowest_ising_grid hh j pbc)

/-- Hypotheses met: two sites visited in reverse order, and the singlet, whose zeros no machine reproduces exactly. -/
example : Complete [(1 : Fin 2), 0] ∧ ∃ ψ : Wave (Fin 2), (∃ s, IsSpin s ∧ ψ s ≠ 0) ∧ ∃ s, IsSpin s ∧ ψ s = 0 := by
  refine ⟨⟨by decide, by decide⟩, fun s => (s 0 : ℂ) - (s 1 : ℂ), ⟨![1, -1], ?_, ?_⟩, ⟨![1, 1], ?_, ?_⟩⟩
  · intro i; fin_cases i <;> simp
  · norm_num
  · intro i; fin_cases i <;> simp
  · simp

end Verif.Autoregressive
