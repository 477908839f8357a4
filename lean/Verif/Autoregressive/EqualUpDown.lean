import Verif.Autoregressive.Props
import Mathlib.Logic.Equiv.Fin.Basic

/-!
# C52: the equal-up-down constraint

Model of `equal_up_down_spins_function` (`src/flowket/layers/spins_invariants.py` lines 13-22) inside
`AutoNormalizedAutoregressiveMachine` (`src/flowket/machines/abstract_machine.py` lines 49-71), with floating point
infinities and NaN, because they decide the outcome. Rounding and overflow of finite results are left out.
-/
namespace Verif.EqualUpDown

open Verif.Operators (Config IsSpin)
open Verif.Energy (allSpins mem_allSpins)
open Verif.Autoregressive (category plusMinusOneToOneHot oneHot)

/-! ### Floating point numbers -/

/-- A floating point number: a finite value, plus or minus infinity, or not a number. -/
inductive Float' where
  | fin (r : ℝ)
  | inf (negative : Bool)
  | nan

namespace Float'

/-- IEEE multiplication: infinity times zero is not a number. -/
noncomputable def mul : Float' → Float' → Float'
  | fin a, fin b => fin (a * b)
  | fin a, inf n => open Classical in if a = 0 then nan else inf (n != decide (a < 0))
  | inf n, fin a => open Classical in if a = 0 then nan else inf (n != decide (a < 0))
  | inf m, inf n => inf (m != n)
  | nan, _ => nan
  | _, nan => nan

/-- IEEE addition. -/
noncomputable def add : Float' → Float' → Float'
  | fin a, fin b => fin (a + b)
  | fin _, inf n => inf n
  | inf n, fin _ => inf n
  | inf m, inf n => if m = n then inf m else nan
  | nan, _ => nan
  | _, nan => nan

/-- IEEE negation. -/
noncomputable def neg : Float' → Float'
  | fin a => fin (-a)
  | inf n => inf !n
  | nan => nan

/-- `exp` of float32, with its limits at the infinities (without overflow of finite results). -/
noncomputable def exp : Float' → Float'
  | fin a => fin (Real.exp a)
  | inf true => fin 0
  | inf false => inf false
  | nan => nan

/-- `log` of float32: minus infinity at zero, not a number below. -/
noncomputable def log : Float' → Float'
  | fin a => open Classical in if a = 0 then inf true else if a < 0 then nan else fin (Real.log a)
  | inf true => nan
  | inf false => inf false
  | nan => nan

/-- `a > u`: comparisons with NaN are false. -/
def gt : Float' → ℝ → Prop
  | fin a, u => a > u
  | inf n, _ => n = false
  | nan, _ => False

/-- Conversion of a Python number to float32: too large numbers become infinite. -/
noncomputable def ofPython (r : ℝ) : Float' :=
  open Classical in if r > 2 ^ 128 then inf false else if r < -2 ^ 128 then inf true else fin r

@[simp] theorem mul_nan (a : Float') : mul a nan = nan := by cases a <;> rfl
@[simp] theorem nan_mul (a : Float') : mul nan a = nan := by cases a <;> rfl
@[simp] theorem add_nan (a : Float') : add a nan = nan := by cases a <;> rfl
@[simp] theorem nan_add (a : Float') : add nan a = nan := by cases a <;> rfl

end Float'

open Float'

/-- Sum over a tensor axis. -/
noncomputable def sum (l : List Float') : Float' := l.foldr add (fin 0)

theorem sum_nan {l : List Float'} (h : nan ∈ l) : sum l = nan := by
  induction l with
  | nil => cases h
  | cons a l ih =>
    rcases List.mem_cons.1 h with rfl | h
    · exact nan_add (sum l)
    · show add a (sum l) = nan
      rw [ih h, add_nan]

/-! ### Model -/

variable {N : Nat}

/-- `LOG_ZERO` (line 10). -/
noncomputable def LOG_ZERO : ℝ := -(10 : ℝ) ^ 300

/-- `input_cumsum` (lines 15-19): number of sites before `k` (raster order) whose category is `c`; the
category of the value `x` is `(1 - x) // 2`. -/
def cumsum (s : Config (Fin N)) (k : Fin N) (c : Fin 2) : Nat :=
  (Finset.univ.filter fun j : Fin N => j < k ∧ (1 - s j) / 2 = (c.val : ℤ)).card

/-- `input_cumsum >= number_of_spins / 2.0` (line 21). -/
def masked (s : Config (Fin N)) (k : Fin N) (c : Fin 2) : Prop := (cumsum s k c : ℝ) ≥ (N : ℝ) / 2

/-- `mask` (lines 20-21): the filled constant (float32) times zero or one. -/
noncomputable def mask (s : Config (Fin N)) (k : Fin N) (c : Fin 2) : Float' :=
  open Classical in mul (ofPython LOG_ZERO) (fin (if masked s k c then 1 else 0))

/-- Real part of `x + mask` (line 22) for a finite network output `x`; the mask has no imaginary part. -/
noncomputable def maskedRe (net : Config (Fin N) → Fin N → Fin 2 → ℂ) (s : Config (Fin N)) (k : Fin N) (c : Fin 2) : Float' :=
  add (fin (net s k c).re) (mask s k c)

/-- `normalize_in_log_space` with `norm_type=2` (deepar/layers/autoregressive.py lines 7-15), real part; TensorFlow
computes the logarithm of the sum of exponentials after subtraction of a finite number `m`. -/
noncomputable def normalizedRe (m : ℝ) (x : Fin 2 → Float') (c : Fin 2) : Float' :=
  let logSumExp := add (log (sum ((List.finRange 2).map fun c => exp (add (mul (x c) (fin 2)) (fin (-m)))))) (fin m)
  add (x c) (neg (mul (fin (1 / 2)) logSumExp))

/-- Real part of `conditional_log_wave_function`; `m` is the number subtracted at each site. -/
noncomputable def condLogWaveRe (net : Config (Fin N) → Fin N → Fin 2 → ℂ) (m : Config (Fin N) → Fin N → ℝ) (s : Config (Fin N))
    (k : Fin N) (c : Fin 2) : Float' := normalizedRe (m s k) (maskedRe net s k) c

/-- `conditional_log_probs` (line 57). -/
noncomputable def condLogProbs (net : Config (Fin N) → Fin N → Fin 2 → ℂ) (m : Config (Fin N) → Fin N → ℝ) (s : Config (Fin N))
    (k : Fin N) (c : Fin 2) : Float' := mul (condLogWaveRe net m s k c) (fin 2)

/-- Real part of the wave function (`combine_autoregressive_conditionals`): conditionals times the one-hot
input, whose imaginary part is zero, so the second term is the finite imaginary part times zero. -/
noncomputable def logWaveRe (net : Config (Fin N) → Fin N → Fin 2 → ℂ) (m : Config (Fin N) → Fin N → ℝ) (s : Config (Fin N)) : Float' :=
  sum ((List.finRange N).flatMap fun k => (List.finRange 2).map fun c =>
    add (mul (condLogWaveRe net m s k c) (fin (plusMinusOneToOneHot (s k) c))) (neg (mul (fin (net s k c).im) (fin 0))))

/-- One row of `AutoregressiveSampler.__next__` with `zero_base=False` on such a machine: at site `k` the spin is
one if `exp(log_probs[..., 0]) > random`, else minus one. -/
noncomputable def sampleRow (net : Config (Fin N) → Fin N → Fin 2 → ℂ) (m : Config (Fin N) → Fin N → ℝ) (u : Fin N → ℝ) : Config (Fin N) :=
  open Classical in
  (List.finRange N).foldl (fun s k => Function.update s k (if gt (exp (condLogProbs net m s k 0)) (u k) then 1 else -1)) fun _ => 0

/-! ### The code -/

theorem ofPython_logZero : ofPython LOG_ZERO = inf true := by
  unfold ofPython LOG_ZERO
  have h : (2 : ℝ) ^ 128 < 10 ^ 300 := by
    calc (2 : ℝ) ^ 128 < 10 ^ 128 := by gcongr <;> norm_num
      _ ≤ 10 ^ 300 := by gcongr <;> norm_num
  have h0 : (0 : ℝ) < 2 ^ 128 := by positivity
  generalize (2 : ℝ) ^ 128 = a at h h0 ⊢
  generalize (10 : ℝ) ^ 300 = b at h ⊢
  rw [if_neg (by linarith), if_pos (by linarith)]

theorem mask_unmasked {s : Config (Fin N)} {k : Fin N} {c : Fin 2} (h : ¬ masked s k c) : mask s k c = nan := by
  unfold mask
  rw [ofPython_logZero, if_neg h]
  simp [Float'.mul]

theorem condLogWave_nan (net : Config (Fin N) → Fin N → Fin 2 → ℂ) (m : Config (Fin N) → Fin N → ℝ) {s : Config (Fin N)} {k : Fin N} {c : Fin 2}
    (h : ¬ masked s k c) (c' : Fin 2) : condLogWaveRe net m s k c' = nan := by
  have hx : maskedRe net s k c = nan := by unfold maskedRe; rw [mask_unmasked h, add_nan]
  unfold condLogWaveRe normalizedRe
  rw [sum_nan]
  · show add _ (neg (mul _ (add nan _))) = nan
    rw [nan_add, mul_nan]
    exact add_nan _
  · rw [List.mem_map]
    exact ⟨c, List.mem_finRange c, by rw [hx, nan_mul, nan_add]; rfl⟩

theorem cumsum_le (s : Config (Fin N)) (k : Fin N) (c : Fin 2) : cumsum s k c ≤ k := by
  unfold cumsum
  have : (Finset.univ.filter fun j : Fin N => j < k ∧ (1 - s j) / 2 = (c.val : ℤ)) ⊆ Finset.Iio k := by
    intro j hj
    rw [Finset.mem_filter] at hj
    exact Finset.mem_Iio.2 hj.2.1
  have := Finset.card_le_card this
  rwa [Fin.card_Iio] at this

/-- **C52 fails.** For every network, every positive number of sites and every configuration, the logarithm of
the amplitude is not a number. -/
theorem C52_violated (hN : 0 < N) (net : Config (Fin N) → Fin N → Fin 2 → ℂ) (m : Config (Fin N) → Fin N → ℝ) (s : Config (Fin N)) :
    logWaveRe net m s = nan := by
  have hm : ¬ masked s ⟨0, hN⟩ 0 := by
    have h1 : cumsum s ⟨0, hN⟩ 0 ≤ 0 := cumsum_le s ⟨0, hN⟩ 0
    unfold masked
    rw [Nat.le_zero.1 h1]
    have : (0 : ℝ) < N := by exact_mod_cast hN
    simp only [Nat.cast_zero, ge_iff_le, not_le]
    linarith
  unfold logWaveRe
  apply sum_nan
  rw [List.mem_flatMap]
  refine ⟨⟨0, hN⟩, List.mem_finRange _, ?_⟩
  rw [List.mem_map]
  exact ⟨0, List.mem_finRange _, by rw [condLogWave_nan net m hm 0, nan_mul, nan_add]⟩

/-- **C52 fails for samples as well:** every sample drawn from such a machine has all spins down, so the numbers of
up and down spins are as unequal as possible. -/
theorem C52_violated_samples (net : Config (Fin N) → Fin N → Fin 2 → ℂ) (m : Config (Fin N) → Fin N → ℝ) (u : Fin N → ℝ) :
    sampleRow net m u = fun _ => -1 := by
  have key : ∀ (l : List (Fin N)) (s : Config (Fin N)), (∀ k ∈ l, ∀ j, j < k → j ∈ l ∨ s j = -1) → l.Pairwise (· < ·) →
      (∀ k, k ∈ l ∨ s k = -1) →
      l.foldl (fun s k => Function.update s k (open Classical in if gt (exp (condLogProbs net m s k 0)) (u k) then 1 else -1)) s = fun _ => -1 := by
    intro l
    induction l with
    | nil =>
      intro s _ _ h
      funext k
      simpa using h k
    | cons k l ih =>
      intro s h1 h2 h3
      rw [List.pairwise_cons] at h2
      have hbefore : ∀ j, j < k → s j = -1 := by
        intro j hj
        rcases h1 k List.mem_cons_self j hj with h | h
        · rcases List.mem_cons.1 h with rfl | h
          · exact absurd hj (lt_irrefl _)
          · exact absurd (h2.1 j h) (not_lt.2 hj.le)
        · exact h
      have hm : ¬ masked s k 0 := by
        have h0 : cumsum s k 0 = 0 := by
          unfold cumsum
          rw [Finset.card_eq_zero, Finset.filter_eq_empty_iff]
          rintro j - ⟨hj, hc⟩
          rw [hbefore j hj] at hc
          norm_num at hc
        unfold masked
        rw [h0]
        have : (0 : ℝ) < N := by exact_mod_cast (lt_of_le_of_lt (Nat.zero_le _) k.2)
        simp only [Nat.cast_zero, ge_iff_le, not_le]
        linarith
      have hd : ¬ gt (exp (condLogProbs net m s k 0)) (u k) := by
        unfold condLogProbs
        rw [condLogWave_nan net m hm 0, nan_mul]
        exact id
      rw [List.foldl_cons, if_neg hd]
      have hupd : ∀ j, j ∈ l ∨ Function.update s k (-1) j = -1 := by
        intro j
        by_cases hjk : j = k
        · right; rw [hjk, Function.update_self]
        · rw [Function.update_of_ne hjk]
          rcases h3 j with h | h
          · rcases List.mem_cons.1 h with h | h
            · exact absurd h hjk
            · exact Or.inl h
          · exact Or.inr h
      exact ih _ (fun k' _ j _ => hupd j) h2.2 hupd
  unfold sampleRow
  exact key _ _ (fun k _ j _ => Or.inl (List.mem_finRange j)) (List.pairwise_lt_finRange N) (fun k => Or.inl (List.mem_finRange k))

/-! ### What the mask pattern would give -/

/-- Number of up spins (specification). -/
def ups (s : Config (Fin N)) : Nat := (Finset.univ.filter fun j => s j = 1).card
/-- Number of down spins (specification). -/
def downs (s : Config (Fin N)) : Nat := (Finset.univ.filter fun j => s j = -1).card

/-- Number of sites before `k` with the given value. -/
def before (s : Config (Fin N)) (k : Fin N) (v : ℤ) : Nat := (Finset.univ.filter fun j => j < k ∧ s j = v).card

theorem cumsum_up {s : Config (Fin N)} (hs : IsSpin s) (k : Fin N) : cumsum s k 0 = before s k 1 := by
  unfold cumsum before
  congr 1
  refine Finset.filter_congr fun j _ => and_congr_right fun _ => ?_
  rcases hs j with h | h <;> rw [h] <;> decide

theorem cumsum_down {s : Config (Fin N)} (hs : IsSpin s) (k : Fin N) : cumsum s k 1 = before s k (-1) := by
  unfold cumsum before
  congr 1
  refine Finset.filter_congr fun j _ => and_congr_right fun _ => ?_
  rcases hs j with h | h <;> rw [h] <;> decide

theorem before_add {s : Config (Fin N)} (hs : IsSpin s) (k : Fin N) : before s k 1 + before s k (-1) = k := by
  unfold before
  rw [← Finset.card_union_of_disjoint]
  · rw [← Finset.filter_or]
    have : (Finset.univ.filter fun j : Fin N => (j < k ∧ s j = 1) ∨ (j < k ∧ s j = -1)) = Finset.Iio k := by
      ext j
      rw [Finset.mem_filter, Finset.mem_Iio]
      have := hs j
      have := Finset.mem_univ j
      tauto
    rw [this, Fin.card_Iio]
  · rw [Finset.disjoint_filter]
    rintro j - ⟨_, h⟩ ⟨_, h'⟩
    omega

theorem ups_add_downs {s : Config (Fin N)} (hs : IsSpin s) : ups s + downs s = N := by
  unfold ups downs
  rw [← Finset.card_union_of_disjoint]
  · rw [← Finset.filter_or, Finset.filter_true_of_mem fun j _ => hs j, Finset.card_univ, Fintype.card_fin]
  · rw [Finset.disjoint_filter]
    rintro j - h h'
    omega

theorem masked_iff (s : Config (Fin N)) (k : Fin N) (c : Fin 2) : masked s k c ↔ N ≤ 2 * cumsum s k c := by
  unfold masked
  rw [ge_iff_le, div_le_iff₀ (by norm_num)]
  constructor
  · intro h
    have : (N : ℝ) ≤ ((cumsum s k c * 2 : Nat) : ℝ) := by push_cast; exact h
    have := Nat.cast_le.1 this
    omega
  · intro h
    have : (N : ℝ) ≤ ((cumsum s k c * 2 : Nat) : ℝ) := Nat.cast_le.2 (by omega)
    push_cast at this
    exact this

/-- If the value `v` occurs more than `h` times, it occurs at a site before which it occurred exactly `h` times. -/
theorem exists_before (s : Config (Fin N)) (v : ℤ) (h : Nat) (hlt : h < (Finset.univ.filter fun j => s j = v).card) :
    ∃ k, s k = v ∧ h ≤ before s k v := by
  obtain ⟨k, hk, hmax⟩ := Finset.exists_max_image (Finset.univ.filter fun j => s j = v) id (Finset.card_pos.1 (by omega))
  rw [Finset.mem_filter] at hk
  refine ⟨k, hk.2, ?_⟩
  unfold before
  have : (Finset.univ.filter fun j => s j = v).erase k ⊆ Finset.univ.filter fun j => j < k ∧ s j = v := by
    intro j hj
    rw [Finset.mem_erase] at hj
    have hle : j ≤ k := hmax j hj.2
    rw [Finset.mem_filter] at hj ⊢
    exact ⟨Finset.mem_univ j, lt_of_le_of_ne hle hj.1, hj.2.2⟩
  have := Finset.card_le_card this
  rw [Finset.card_erase_of_mem (by rw [Finset.mem_filter]; exact hk)] at this
  omega

theorem before_lt (s : Config (Fin N)) (k : Fin N) : before s k (s k) < (Finset.univ.filter fun j => s j = s k).card := by
  unfold before
  apply Finset.card_lt_card
  rw [Finset.ssubset_iff_of_subset]
  · exact ⟨k, by simp, by simp⟩
  · intro j hj
    rw [Finset.mem_filter] at hj ⊢
    exact ⟨hj.1, hj.2.2⟩

theorem cumsum_category {s : Config (Fin N)} (hs : IsSpin s) (k : Fin N) (v : ℤ) (hv : v = 1 ∨ v = -1) :
    cumsum s k (category v) = before s k v := by
  rcases hv with rfl | rfl
  · exact cumsum_up hs k
  · exact cumsum_down hs k

/-- **C52, the part that holds: which entries are masked.** For an even number of sites a configuration avoids every masked
entry exactly if it has as many up as down spins; at every site at least one value is not masked; and whether an entry
is masked depends on earlier sites only. -/
theorem C52_mask_partial (hN : Even N) :
    (∀ s : Config (Fin N), IsSpin s → ((∀ k, ¬ masked s k (category (s k))) ↔ ups s = downs s)) ∧
    (∀ s : Config (Fin N), IsSpin s → ∀ k, ∃ c, ¬ masked s k c) ∧
    ∀ (s s' : Config (Fin N)) (k : Fin N) (c : Fin 2), (∀ j, j < k → s j = s' j) → (masked s k c ↔ masked s' k c) := by
  obtain ⟨n, hn⟩ := hN
  refine ⟨fun s hs => ⟨fun h => ?_, fun h k hm => ?_⟩, fun s hs k => ?_, fun s s' k c h => ?_⟩
  · have hsum := ups_add_downs hs
    have hno : ∀ v : ℤ, (v = 1 ∨ v = -1) → (Finset.univ.filter fun j => s j = v).card ≤ n := by
      intro v hv
      by_contra hlt
      obtain ⟨k, hk, hb⟩ := exists_before s v n (by omega)
      apply h k
      rw [masked_iff, hk, cumsum_category hs k v hv]
      omega
    have h1 : ups s ≤ n := hno 1 (Or.inl rfl)
    have h2 : downs s ≤ n := hno (-1) (Or.inr rfl)
    omega
  · have hsum := ups_add_downs hs
    rw [masked_iff, cumsum_category hs k (s k) (hs k)] at hm
    have hlt := before_lt s k
    have hc : (Finset.univ.filter fun j => s j = s k).card = n := by
      rcases hs k with h1 | h1 <;> rw [h1]
      · show ups s = n
        omega
      · show downs s = n
        omega
    omega
  · by_contra hall
    push Not at hall
    have h0 := (masked_iff s k 0).1 (hall 0)
    have h1 := (masked_iff s k 1).1 (hall 1)
    rw [cumsum_up hs] at h0
    rw [cumsum_down hs] at h1
    have := before_add hs k
    have := k.2
    omega
  · have : cumsum s k c = cumsum s' k c := by
      unfold cumsum
      congr 1
      refine Finset.filter_congr fun j _ => and_congr_right fun hj => ?_
      rw [h j hj]
    unfold masked
    rw [this]

/-- Chain rule: causal conditional probabilities multiply to a distribution. -/
theorem sum_chain : ∀ {N : Nat} (p : (Fin N → Bool) → Fin N → Bool → ℝ),
    (∀ s s' k b, (∀ j, j < k → s j = s' j) → p s k b = p s' k b) → (∀ s k, p s k true + p s k false = 1) →
    ∑ s : Fin N → Bool, ∏ k, p s k (s k) = 1
  | 0, p, _, _ => by simp
  | N + 1, p, hc, hsum => by
    rw [← (Fin.consEquiv fun _ : Fin (N + 1) => Bool).sum_comp, Fintype.sum_prod_type]
    have hinner : ∀ b : Bool, ∑ t : Fin N → Bool, ∏ k, p (Fin.cons b t) k ((Fin.cons b t : Fin (N + 1) → Bool) k) =
        p (fun _ => true) 0 b := by
      intro b
      have ih := sum_chain (fun (t : Fin N → Bool) k c => p (Fin.cons b t) k.succ c)
        (fun s s' k c h => hc _ _ _ _ fun j hj => by
          refine Fin.cases ?_ (fun i hi => ?_) j hj
          · intro _; rfl
          · rw [Fin.cons_succ, Fin.cons_succ]
            exact h i (Fin.succ_lt_succ_iff.1 hi))
        (fun s k => hsum _ _)
      calc ∑ t : Fin N → Bool, ∏ k, p (Fin.cons b t) k ((Fin.cons b t : Fin (N + 1) → Bool) k)
          = ∑ t : Fin N → Bool, p (fun _ => true) 0 b * ∏ k : Fin N, p (Fin.cons b t) k.succ (t k) := by
            refine Finset.sum_congr rfl fun t _ => ?_
            rw [Fin.prod_univ_succ]
            simp only [Fin.cons_zero, Fin.cons_succ]
            rw [hc (Fin.cons b t) (fun _ => true) 0 b fun j hj => absurd hj (Fin.not_lt_zero j)]
        _ = p (fun _ => true) 0 b := by rw [← Finset.mul_sum, ih, mul_one]
    have : ∀ b : Bool, ∑ t : Fin N → Bool, ∏ k, p ((Fin.consEquiv fun _ : Fin (N + 1) => Bool) (b, t)) k
        ((Fin.consEquiv fun _ : Fin (N + 1) => Bool) (b, t) k) = p (fun _ => true) 0 b := hinner
    simp only [this]
    rw [Fintype.sum_bool]
    exact hsum _ _

/-- Conditional probability of the value of category `c` at site `k` if masked entries had probability zero: the
weights of the unmasked values, normalised. -/
noncomputable def idealCond (net : Config (Fin N) → Fin N → Fin 2 → ℂ) (s : Config (Fin N)) (k : Fin N) (c : Fin 2) : ℝ :=
  open Classical in
  let w : Fin 2 → ℝ := fun c => if masked s k c then 0 else ‖Complex.exp (net s k c)‖ ^ 2
  w c / ∑ c, w c

/-- Probability of a configuration. -/
noncomputable def idealProb (net : Config (Fin N) → Fin N → Fin 2 → ℂ) (s : Config (Fin N)) : ℝ :=
  ∏ k, idealCond net s k (category (s k))

theorem idealCond_pos (net : Config (Fin N) → Fin N → Fin 2 → ℂ) {s : Config (Fin N)} {k : Fin N} {c : Fin 2} (h : ¬ masked s k c) :
    0 < idealCond net s k c := by
  unfold idealCond
  dsimp only
  rw [if_neg h]
  have hp : 0 < ‖Complex.exp (net s k c)‖ ^ 2 := by
    have := Complex.exp_ne_zero (net s k c)
    positivity
  apply div_pos hp
  refine lt_of_lt_of_le hp ?_
  have := Finset.single_le_sum (f := fun c => open Classical in if masked s k c then (0 : ℝ) else ‖Complex.exp (net s k c)‖ ^ 2)
    (fun i _ => by split <;> positivity) (Finset.mem_univ c)
  rwa [if_neg h] at this

theorem idealCond_masked (net : Config (Fin N) → Fin N → Fin 2 → ℂ) {s : Config (Fin N)} {k : Fin N} {c : Fin 2} (h : masked s k c) :
    idealCond net s k c = 0 := by
  unfold idealCond
  dsimp only
  rw [if_pos h, zero_div]

theorem idealCond_sum (net : Config (Fin N) → Fin N → Fin 2 → ℂ) {s : Config (Fin N)} {k : Fin N} {c : Fin 2} (h : ¬ masked s k c) :
    ∑ c, idealCond net s k c = 1 := by
  have hpos := idealCond_pos net h
  unfold idealCond at hpos ⊢
  dsimp only at hpos ⊢
  rw [← Finset.sum_div]
  refine div_self fun h0 => ?_
  rw [h0, div_zero] at hpos
  exact lt_irrefl _ hpos

theorem idealCond_congr {net : Config (Fin N) → Fin N → Fin 2 → ℂ} {s s' : Config (Fin N)} {k : Fin N} {c : Fin 2}
    (h : net s k = net s' k) (hm : ∀ c, masked s k c ↔ masked s' k c) : idealCond net s k c = idealCond net s' k c := by
  have hw : (fun c => open Classical in if masked s k c then (0 : ℝ) else ‖Complex.exp (net s k c)‖ ^ 2) =
      fun c => open Classical in if masked s' k c then (0 : ℝ) else ‖Complex.exp (net s' k c)‖ ^ 2 := by
    funext c
    rw [h]
    by_cases hc : masked s k c
    · rw [if_pos hc, if_pos ((hm c).1 hc)]
    · rw [if_neg hc, if_neg fun h => hc ((hm c).2 h)]
  unfold idealCond
  dsimp only
  have h1 := congrFun hw c
  have h2 := congrArg (fun f : Fin 2 → ℝ => ∑ c, f c) hw
  rw [h1, h2]

/-- Spin configuration of a row of Booleans. -/
def ofBool (b : Fin N → Bool) : Config (Fin N) := fun k => if b k then 1 else -1

theorem ofBool_spin (b : Fin N → Bool) : IsSpin (ofBool b) := by
  intro k
  unfold ofBool
  cases b k <;> simp

/-- **C52, the part that holds: exact arithmetic.** If masked values had probability zero and the rest were renormalised, as
the layer intends, a causal network on an even number of sites would give a probability distribution that is positive
exactly on the configurations with as many up as down spins. -/
theorem C52_ideal_partial (hN : Even N) (net : Config (Fin N) → Fin N → Fin 2 → ℂ)
    (hnet : ∀ s s' k, (∀ j, j < k → s j = s' j) → net s k = net s' k) :
    ∑ s ∈ allSpins (Fin N), idealProb net s = 1 ∧
    ∀ s, IsSpin s → 0 ≤ idealProb net s ∧ (0 < idealProb net s ↔ ups s = downs s) := by
  obtain ⟨hiff, hex, hdep⟩ := C52_mask_partial hN
  refine ⟨?_, fun s hs => ?_⟩
  · have hb : ∑ b : Fin N → Bool, ∏ k, idealCond net (ofBool b) k (if b k then 0 else 1) = 1 := by
      refine sum_chain (fun b k v => idealCond net (ofBool b) k (if v then 0 else 1)) ?_ ?_
      · intro b b' k v h
        have hs : ∀ j, j < k → ofBool b j = ofBool b' j := fun j hj => by unfold ofBool; rw [h j hj]
        exact idealCond_congr (hnet _ _ k hs) fun c => hdep _ _ k c hs
      · intro b k
        obtain ⟨c, hc⟩ := hex (ofBool b) (ofBool_spin b) k
        have := idealCond_sum net hc
        rw [Fin.sum_univ_two] at this
        simpa using this
    rw [← hb]
    symm
    refine Finset.sum_bij (fun b _ => ofBool b) (fun b _ => (mem_allSpins _).2 (ofBool_spin b)) ?_ ?_ ?_
    · intro b _ b' _ h
      funext k
      have := congrFun h k
      unfold ofBool at this
      cases hb : b k <;> cases hb' : b' k <;> simp [hb, hb'] at this <;> rfl
    · intro s hs
      have hs := (mem_allSpins s).1 hs
      refine ⟨fun k => decide (s k = 1), Finset.mem_univ _, ?_⟩
      funext k
      unfold ofBool
      rcases hs k with h | h <;> simp [h]
    · intro b _
      unfold idealProb
      refine Finset.prod_congr rfl fun k _ => ?_
      congr 1
      unfold ofBool category
      cases b k <;> simp
  · rw [← hiff s hs]
    have hnn : ∀ k, 0 ≤ idealCond net s k (category (s k)) := fun k => by
      by_cases h : masked s k (category (s k))
      · rw [idealCond_masked net h]
      · exact (idealCond_pos net h).le
    refine ⟨Finset.prod_nonneg fun k _ => hnn k, ?_, ?_⟩
    · intro h k hm
      refine h.ne' ?_
      exact Finset.prod_eq_zero (Finset.mem_univ k) (idealCond_masked net hm)
    · intro h
      exact Finset.prod_pos fun k _ => idealCond_pos net (h k)

/-- A causal network on two sites, an unequal and an equal configuration. -/
example : ∃ net : Config (Fin 2) → Fin 2 → Fin 2 → ℂ, (∀ s s' k, (∀ j, j < k → s j = s' j) → net s k = net s' k) ∧
    idealProb net ![1, 1] = 0 ∧ 0 < idealProb net ![1, -1] := by
  refine ⟨fun _ k c => k.val + c.val, fun s s' k _ => rfl, ?_, ?_⟩
  · obtain ⟨_, h⟩ := C52_ideal_partial (N := 2) (by decide) (fun _ k c => k.val + c.val) fun s s' k _ => rfl
    obtain ⟨h0, h⟩ := h ![1, 1] (by intro k; fin_cases k <;> simp)
    refine le_antisymm (not_lt.1 fun hp => ?_) h0
    have := h.1 hp
    revert this
    decide
  · obtain ⟨_, h⟩ := C52_ideal_partial (N := 2) (by decide) (fun _ k c => k.val + c.val) fun s s' k _ => rfl
    exact (h ![1, -1] (by intro k; fin_cases k <;> simp)).2.2 (by decide)

end Verif.EqualUpDown
