import Verif.Samplers.Balance
import Verif.Energy.Spins

/-!
# C69: the exact samplers

Model of `src/flowket/samplers/exact_sampler.py` with `numpy.random.choice`.
-/
namespace Verif.ExactSampler

open Verif.Operators Verif.Exact Verif.Energy.Exact MeasureTheory Verif.Autoregressive
open Verif.Energy (allSpins mem_allSpins)
open Verif.Metropolis (prU weight)

variable {ι : Type} {N : Nat}

/-! ### Model -/

/-- Entry `i` of `p.cumsum()` (NumPy's `choice`). -/
noncomputable def cumsum (p : Nat → ℝ) (i : Nat) : ℝ := ∑ k ∈ Finset.range (i + 1), p k

/-- NumPy's `choice(n, p=p)` for one uniform number `u`: `cdf = p.cumsum(); cdf /= cdf[-1]`, then
`cdf.searchsorted(u, side='right')`, which is the number of entries that are at most `u`. -/
noncomputable def choice (n : Nat) (p : Nat → ℝ) (u : ℝ) : Nat :=
  open Classical in ((Finset.range n).filter fun i => cumsum p i / cumsum p (n - 1) ≤ u).card

/-- NumPy's checks of `p`: no negative entry, sum one up to `tol`. -/
def choiceAccepts (n : Nat) (p : Nat → ℝ) (tol : ℝ) : Prop := (∀ i < n, 0 ≤ p i) ∧ |∑ i ∈ Finset.range n, p i - 1| ≤ tol

/-- `decimal_array_to_binary_array(decimal_batch, num_of_bits=N)` and `reshape` (lines 18-20, 36-38); `e`
numbers the sites in row-major order. -/
def decode (e : ι ≃ Fin N) (decimals : List Int) : List (Config ι) :=
  (decimalArrayToBinaryArray false decimals N).map fun row i => row.getD (e i) 0

/-- Both `__next__` methods (lines 14-20, 32-38) for probabilities `p` of `2^N` states; `u b` is the uniform
number of row `b`. `none`: `choice` raises. -/
noncomputable def next {B : Nat} (e : ι ≃ Fin N) (p : Nat → ℝ) (tol : ℝ) (u : Fin B → ℝ) : Option (List (Config ι)) :=
  open Classical in
  if choiceAccepts (2 ^ N) p tol then some (decode e (List.ofFn fun b => (choice (2 ^ N) p (u b) : Int))) else none

/-- `ExactSampler.__next__` (lines 14-20): the probabilities are those of the exact evaluation. -/
noncomputable def exactNext {B : Nat} (e : ι ≃ Fin N) (o : Obj (Config ι)) (tol : ℝ) (u : Fin B → ℝ) : Option (List (Config ι)) :=
  next e o.arrays.probs tol u

/-- `WaveFunctionSampler` (lines 26-38): `probs = exp(real(vector) * 2.0)`; the number of bits is the
logarithm of the length of the vector. -/
noncomputable def waveFunctionNext {B : Nat} (e : ι ≃ Fin N) (vector : Nat → ℂ) (tol : ℝ) (u : Fin B → ℝ) :
    Option (List (Config ι)) := next e (fun x => Real.exp ((vector x).re * 2)) tol u

/-! ### `choice` -/

theorem cumsum_mono {n : Nat} {p : Nat → ℝ} (hp : ∀ i < n, 0 ≤ p i) {i j : Nat} (hij : i ≤ j) (hj : j < n) :
    cumsum p i ≤ cumsum p j := by
  unfold cumsum
  refine Finset.sum_le_sum_of_subset_of_nonneg (Finset.range_mono (by omega)) fun k hk _ => hp k ?_
  have := Finset.mem_range.1 hk
  omega

theorem choice_iff {n : Nat} {p : Nat → ℝ} (hp : ∀ i < n, 0 ≤ p i) (hs : 0 < ∑ i ∈ Finset.range n, p i) {x : Nat} (hx : x < n) (u : ℝ)
    (h0 : 0 ≤ u) :
    choice n p u = x ↔ (∑ k ∈ Finset.range x, p k) / ∑ i ∈ Finset.range n, p i ≤ u ∧ u < cumsum p x / ∑ i ∈ Finset.range n, p i := by
  classical
  have hlast : cumsum p (n - 1) = ∑ i ∈ Finset.range n, p i := by
    unfold cumsum; rw [Nat.sub_add_cancel (by omega)]
  unfold choice
  rw [hlast]
  set Z := ∑ i ∈ Finset.range n, p i
  have hmono : ∀ {i j}, i ≤ j → j < n → cumsum p i / Z ≤ cumsum p j / Z := fun hij hj =>
    div_le_div_of_nonneg_right (cumsum_mono hp hij hj) hs.le
  constructor
  · intro h
    constructor
    · rcases Nat.eq_zero_or_pos x with rfl | hpos
      · simpa using h0
      · by_contra hlt
        have hsub : (Finset.range n).filter (fun i => cumsum p i / Z ≤ u) ⊆ Finset.range (x - 1) := by
          intro i hi
          rw [Finset.mem_filter, Finset.mem_range] at hi
          rw [Finset.mem_range]
          by_contra hge
          have h1 := hmono (show x - 1 ≤ i by omega) hi.1
          have h2 : cumsum p (x - 1) = ∑ k ∈ Finset.range x, p k := by unfold cumsum; rw [Nat.sub_add_cancel hpos]
          rw [h2] at h1
          exact hlt (h1.trans hi.2)
        have := Finset.card_le_card hsub
        rw [h, Finset.card_range] at this
        omega
    · by_contra hge
      have hsub : Finset.range (x + 1) ⊆ (Finset.range n).filter (fun i => cumsum p i / Z ≤ u) := by
        intro i hi
        rw [Finset.mem_range] at hi
        rw [Finset.mem_filter, Finset.mem_range]
        exact ⟨by omega, (hmono (show i ≤ x by omega) hx).trans (not_lt.1 hge)⟩
      have := Finset.card_le_card hsub
      rw [h, Finset.card_range] at this
      omega
  · rintro ⟨h1, h2⟩
    have : (Finset.range n).filter (fun i => cumsum p i / Z ≤ u) = Finset.range x := by
      ext i
      rw [Finset.mem_filter, Finset.mem_range, Finset.mem_range]
      constructor
      · rintro ⟨hi, hle⟩
        by_contra hge
        exact absurd (lt_of_lt_of_le h2 (hmono (show x ≤ i by omega) hi)) (not_lt.2 hle)
      · intro hi
        refine ⟨by omega, le_trans (div_le_div_of_nonneg_right ?_ hs.le) h1⟩
        unfold cumsum
        refine Finset.sum_le_sum_of_subset_of_nonneg (Finset.range_mono (by omega)) fun k hk _ => hp k ?_
        have := Finset.mem_range.1 hk
        omega
    rw [this, Finset.card_range]

theorem choice_lt {n : Nat} {p : Nat → ℝ} (hs : 0 < ∑ i ∈ Finset.range n, p i) (u : ℝ) (h1 : u < 1) : choice n p u < n := by
  classical
  have hn : 0 < n := by
    rcases Nat.eq_zero_or_pos n with rfl | h
    · simp at hs
    · exact h
  have hlast : cumsum p (n - 1) = ∑ i ∈ Finset.range n, p i := by
    unfold cumsum; rw [Nat.sub_add_cancel (by omega)]
  unfold choice
  have hsub : (Finset.range n).filter (fun i => cumsum p i / cumsum p (n - 1) ≤ u) ⊆ Finset.range (n - 1) := by
    intro i hi
    rw [Finset.mem_filter, Finset.mem_range] at hi
    rw [Finset.mem_range]
    by_contra hge
    obtain rfl : i = n - 1 := by omega
    rw [hlast, div_self hs.ne'] at hi
    linarith [hi.2]
  have := Finset.card_le_card hsub
  rw [Finset.card_range] at this
  omega

/-- The probability of number `x` is its share in the sum. -/
theorem choice_real {n : Nat} {p : Nat → ℝ} (hp : ∀ i < n, 0 ≤ p i) (hs : 0 < ∑ i ∈ Finset.range n, p i) {x : Nat} (hx : x < n) :
    unif.real {u | choice n p u = x} = p x / ∑ i ∈ Finset.range n, p i := by
  set Z := ∑ i ∈ Finset.range n, p i with hZ
  have hcx : cumsum p x = ∑ k ∈ Finset.range x, p k + p x := by unfold cumsum; rw [Finset.sum_range_succ]
  have hset : {u | choice n p u = x} ∩ Set.Ico 0 1 = Set.Ico ((∑ k ∈ Finset.range x, p k) / Z) (cumsum p x / Z) := by
    ext u
    simp only [Set.mem_inter_iff, Set.mem_setOf_eq, Set.mem_Ico]
    constructor
    · rintro ⟨h, h0, -⟩
      exact (choice_iff hp hs hx u h0).1 h
    · intro h
      have h0 : 0 ≤ u := le_trans (div_nonneg (Finset.sum_nonneg fun k hk => hp k (by
        have := Finset.mem_range.1 hk; omega)) hs.le) h.1
      refine ⟨(choice_iff hp hs hx u h0).2 h, h0, lt_of_lt_of_le h.2 ?_⟩
      rw [div_le_one hs, hZ]
      unfold cumsum
      refine Finset.sum_le_sum_of_subset_of_nonneg (Finset.range_mono (by omega)) fun k hk _ => hp k (Finset.mem_range.1 hk)
  rw [Measure.real, unif, Measure.restrict_apply' measurableSet_Ico, hset, Real.volume_Ico, ← sub_div, hcx, add_sub_cancel_left,
    ENNReal.toReal_ofReal (div_nonneg (hp x hx) hs.le)]

/-! ### States -/

theorem decode_eq (e : ι ≃ Fin N) {B : Nat} (xs : Fin B → Nat) :
    decode e (List.ofFn fun b => (xs b : Int)) = List.ofFn fun b => spinState e (xs b) := by
  unfold decode
  rw [C01_array_decode, List.map_map, List.map_ofFn]
  rfl

theorem spinState_inj (e : ι ≃ Fin N) {x y : Nat} (hx : x < 2 ^ N) (hy : y < 2 ^ N) (h : spinState e x = spinState e y) : x = y := by
  have hl : decimalToBinary false N (x : Int) = decimalToBinary false N (y : Int) := by
    apply List.ext_getElem
    · rw [length_decimalToBinary, length_decimalToBinary]
    · intro k h1 h2
      have hk : k < N := by rwa [length_decimalToBinary] at h1
      have := congrFun h (e.symm ⟨k, hk⟩)
      unfold spinState at this
      rwa [Equiv.apply_symm_apply, List.getD_eq_getElem _ _ h1, List.getD_eq_getElem _ _ h2] at this
  have := congrArg binaryToDecimal hl
  rw [(C01_number_roundtrip false N x).2 (by omega) (by exact_mod_cast hx),
    (C01_number_roundtrip false N y).2 (by omega) (by exact_mod_cast hy)] at this
  exact_mod_cast this

theorem spinState_surj (e : ι ≃ Fin N) (c : Config ι) (hc : IsSpin c) : ∃ x < 2 ^ N, spinState e x = c := by
  have hr := C01_spins_roundtrip false N (List.ofFn fun k => c (e.symm k)) ⟨by simp, fun d hd => by
    rw [List.mem_ofFn] at hd
    obtain ⟨k, rfl⟩ := hd
    simpa using hc (e.symm k)⟩
  refine ⟨(binaryToDecimal (List.ofFn fun k => c (e.symm k))).toNat, ?_, ?_⟩
  · have := hr.2.2
    zify
    rw [Int.toNat_of_nonneg hr.2.1]
    exact this
  · funext i
    unfold spinState
    rw [Int.toNat_of_nonneg hr.2.1, hr.1]
    simp [List.getD_eq_getElem?_getD]

theorem sum_spins [DecidableEq ι] [Fintype ι] (e : ι ≃ Fin N) (f : Config ι → ℝ) :
    ∑ x ∈ Finset.range (2 ^ N), f (spinState e x) = ∑ s ∈ allSpins ι, f s := by
  refine Finset.sum_bij (fun x _ => spinState e x) (fun x _ => (mem_allSpins _).2 (spinState_spin e x)) ?_ ?_ (fun _ _ => rfl)
  · intro x hx y hy h
    exact spinState_inj e (Finset.mem_range.1 hx) (Finset.mem_range.1 hy) h
  · intro s hs
    obtain ⟨x, hx, e'⟩ := spinState_surj e s ((mem_allSpins s).1 hs)
    exact ⟨x, Finset.mem_range.2 hx, e'⟩

/-! ### C69 -/

/-- Specification: over independent uniform numbers, the call returns `B` configurations which are the
given spins `T` with the product of the probabilities `|ψ|² / ‖ψ‖²`. -/
def DrawsSquaredAmplitudes [DecidableEq ι] [Fintype ι] {B : Nat} (ψ : Config ι → ℂ)
    (call : (Fin B → ℝ) → Option (List (Config ι))) : Prop :=
  (∀ u, ∃ rows, call u = some rows ∧ rows.length = B) ∧
  ∀ T : Fin B → Config ι, (∀ b, IsSpin (T b)) →
    prU B {u | call u = some (List.ofFn T)} = ∏ b, weight ψ (T b) / ∑ s ∈ allSpins ι, weight ψ s

theorem next_draws [DecidableEq ι] [Fintype ι] {B : Nat} (e : ι ≃ Fin N) (p : Nat → ℝ) (tol : ℝ) (ha : choiceAccepts (2 ^ N) p tol)
    (ψ : Config ι → ℂ) (hs : 0 < ∑ i ∈ Finset.range (2 ^ N), p i)
    (hψ : ∀ x < 2 ^ N, p x / ∑ i ∈ Finset.range (2 ^ N), p i = weight ψ (spinState e x) / ∑ s ∈ allSpins ι, weight ψ s) :
    DrawsSquaredAmplitudes (B := B) ψ (next e p tol) := by
  have hn : ∀ u : Fin B → ℝ, next e p tol u = some (List.ofFn fun b => spinState e (choice (2 ^ N) p (u b))) := by
    intro u
    unfold next
    rw [if_pos ha, decode_eq]
  refine ⟨fun u => ⟨_, hn u, by simp⟩, fun T hT => ?_⟩
  choose x hx hxT using fun b => spinState_surj e (T b) (hT b)
  have hsub : ∀ b, unif.real {v | spinState e (choice (2 ^ N) p v) = T b} = unif.real {v | choice (2 ^ N) p v = x b} := by
    intro b
    rw [Measure.real, Measure.real, unif, Measure.restrict_apply' measurableSet_Ico, Measure.restrict_apply' measurableSet_Ico]
    congr 2
    ext v
    simp only [Set.mem_inter_iff, Set.mem_setOf_eq, Set.mem_Ico]
    constructor
    · rintro ⟨h, hv⟩
      exact ⟨spinState_inj e (choice_lt hs v hv.2) (hx b) (h.trans (hxT b).symm), hv⟩
    · rintro ⟨h, hv⟩
      exact ⟨by rw [h, hxT], hv⟩
  have hset : {u : Fin B → ℝ | next e p tol u = some (List.ofFn T)} =
      Set.pi Set.univ fun b => {v | spinState e (choice (2 ^ N) p v) = T b} := by
    ext u
    simp only [Set.mem_setOf_eq, Set.mem_pi, Set.mem_univ, true_implies, hn, Option.some.injEq]
    rw [List.ofFn_inj]
    exact funext_iff
  rw [prU, Measure.real, hset, Measure.pi_pi, ENNReal.toReal_prod]
  refine Finset.prod_congr rfl fun b _ => ?_
  rw [← hxT b, ← hψ (x b) (hx b), ← choice_real ha.1 hs (hx b), ← hsub b, Measure.real, hxT b]

/-- **C69, `WaveFunctionSampler`.** For every number of sites, every vector of log-amplitudes (in the
numbering of states of the library) that NumPy accepts, and every batch size. -/
theorem C69_wave_function [DecidableEq ι] [Fintype ι] {B : Nat} (e : ι ≃ Fin N) (ψ : Config ι → ℂ) (tol : ℝ)
    (hnorm : |∑ s ∈ allSpins ι, weight ψ s - 1| ≤ tol) :
    DrawsSquaredAmplitudes (B := B) ψ (waveFunctionNext e (fun x => ψ (spinState e x)) tol) := by
  have hw : ∀ x, Real.exp ((ψ (spinState e x)).re * 2) = weight ψ (spinState e x) := fun x => (Metropolis.weight_eq ψ _).symm
  have hsum : ∑ i ∈ Finset.range (2 ^ N), Real.exp ((ψ (spinState e i)).re * 2) = ∑ s ∈ allSpins ι, weight ψ s := by
    simp only [hw]; exact sum_spins e (weight ψ)
  refine next_draws e _ tol ⟨fun i _ => (Real.exp_pos _).le, by rw [hsum]; exact hnorm⟩ ψ ?_ fun x _ => by rw [hsum, hw]
  exact Finset.sum_pos (fun _ _ => Real.exp_pos _) ⟨0, Finset.mem_range.2 (by positivity)⟩

/-- **C69, `WaveFunctionSampler`:** a vector that is not normalised raises. -/
theorem C69_wave_function_rejects [DecidableEq ι] [Fintype ι] {B : Nat} (e : ι ≃ Fin N) (ψ : Config ι → ℂ) (tol : ℝ)
    (hnorm : tol < |∑ s ∈ allSpins ι, weight ψ s - 1|) (u : Fin B → ℝ) :
    waveFunctionNext e (fun x => ψ (spinState e x)) tol u = none := by
  have hw : ∀ x, Real.exp ((ψ (spinState e x)).re * 2) = weight ψ (spinState e x) := fun x => (Metropolis.weight_eq ψ _).symm
  unfold waveFunctionNext next
  rw [if_neg]
  intro h
  have h2 := h.2
  simp only [hw] at h2
  rw [sum_spins e (weight ψ)] at h2
  exact absurd hnorm (not_lt.2 h2)

/-- **C69, `ExactSampler`:** after any history of refreshes, the last one with network `net`. The operator
only serves to build the object; up to 31 sites because of the int32 state numbers. -/
theorem C69_exact [DecidableEq ι] [Fintype ι] {B : Nat} (e : ι ≃ Fin N) (hN : N ≤ 31)
    {op : (B : Nat) → (Fin B → Config ι) → Fin B → List (Row ι ℝ)} {R : Nat} {rowsOf : Config ι → List (Row ι ℝ)}
    (h : RowsOf op R rowsOf) (batch : Nat) (o : Obj (Config ι)) (ho : Obj.new (spinSetup e op R) batch = .ok o)
    (nets : List (Config ι → ℂ)) (net : Config ι → ℂ) (tol : ℝ) (htol : 0 ≤ tol) :
    DrawsSquaredAmplitudes (B := B) net (exactNext e (after o nets net) tol) := by
  obtain ⟨h1, h2, h3, -⟩ := C19_probabilities _ _ (rowWise_of e hN h) batch o ho nets net
  have hZ : ∑ y : Fin (2 ^ N), ‖Complex.exp (net (spinState e y))‖ ^ 2 = ∑ s ∈ allSpins ι, weight net s := by
    rw [← sum_spins e (weight net), Finset.sum_range]; rfl
  have hp : ∀ x < 2 ^ N, (after o nets net).arrays.probs x = weight net (spinState e x) / ∑ s ∈ allSpins ι, weight net s := by
    intro x hx
    rw [← hZ]
    exact h1 ⟨x, hx⟩
  have hsum : ∑ i ∈ Finset.range (2 ^ N), (after o nets net).arrays.probs i = 1 := by
    rw [Finset.sum_range]; exact h3
  unfold exactNext
  refine next_draws e _ tol ⟨fun i hi => (h2 ⟨i, hi⟩).le, by rw [hsum]; simpa using htol⟩ net (by rw [hsum]; norm_num) ?_
  intro x hx
  rw [hsum, div_one, hp x hx]

/-- The hypotheses are met: a uniform state of two spins, exactly normalised. -/
example : |∑ s ∈ allSpins (Fin 2), weight (fun _ => (Real.log (1 / 2) : ℂ)) s - 1| ≤ 0 := by
  have hw : ∀ s : Config (Fin 2), weight (fun _ => ((Real.log (1 / 2) : ℝ) : ℂ)) s = 1 / 4 := by
    intro s
    rw [Metropolis.weight_eq, Complex.ofReal_re, Real.exp_mul, Real.exp_log (by norm_num)]
    norm_num
  have hc : (allSpins (Fin 2)).card = 4 := by decide
  have : ∑ s ∈ allSpins (Fin 2), weight (fun _ => ((Real.log (1 / 2) : ℝ) : ℂ)) s = 1 := by
    rw [Finset.sum_congr rfl fun s _ => hw s, Finset.sum_const, hc]; norm_num
  have h2 : (fun _ : Config (Fin 2) => ((Real.log (1 / 2) : ℝ) : ℂ)) = fun _ => (Real.log (1 / 2) : ℂ) := by
    simp
  rw [← h2, this]
  norm_num

/-- An object of the kind `C69_exact` speaks about exists: the Ising chain of three spins. -/
example : ∃ o, Obj.new (spinSetup (Equiv.refl (Fin 3)) (fun B sample => isingFindConn1 (.float 1) 1 true sample) 4) 8 = .ok o := by
  have h := rowWise_of (Equiv.refl (Fin 3)) (by decide) (rowsOf_ising_chain 3 1 1 true)
  exact (C22_batch_independent _ _ h (by show 0 < 2 ^ 3; decide) 8).1.2 ⟨by decide, Or.inl (by show 2 ^ 3 ≤ 8; decide)⟩

end Verif.ExactSampler
