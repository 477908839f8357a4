import Verif.Energy.Range
import Verif.Symmetry.RBM

/-!
# C103: ensembles and the range of floating point numbers

The two ways to combine the members of an ensemble (`src/flowket/machines/ensemble.py`), in the arithmetic of
`Verif.Energy.Range`: exact between a smallest and a largest number. The predictions of the members are finite.
-/
namespace Verif.Ensemble.Range

open Verif.Operators (Config IsSpin)
open Verif.Energy (allSpins mem_allSpins)
open Verif.Energy.Range
open Verif.RBM (ofComplex)

/-! ### Model -/

/-- `probabilistic_ensemble_op` (ensemble.py lines 14-20) on one row. `tensorflow.math.reduce_logsumexp` subtracts the
largest entry before it takes exponentials, as `logNorm` does. The mean of the phases, numbers of modulus one, is
taken without underflow. -/
noncomputable def probabilisticOp (L : Limits) (x : List ℂ) : LogAmp where
  re := some (0.5 * logNorm L x.length (fun i => (x.getD i 0).re * 2) - 0.5 * Real.log x.length)
  im := angle (mean (x.map fun z => Complex.exp (z.im * Complex.I)))

/-- `average_ensemble_op` (ensemble.py lines 23-24, with `complex_log`, tensorflow_ops.py lines 75-76) on one row: exponentials,
sum, division, modulus and logarithm. The outer `none` stands for infinity and not-a-number. -/
noncomputable def averageOp (L : Limits) (x : List ℂ) : Option LogAmp :=
  (total L (x.map fun z => result L (Complex.exp z))).bind fun s =>
    (result L (s / (x.length : ℂ))).bind fun m => if ‖m‖ ≤ L.big then some (complexLog m) else none

/-! ### Lemmas -/

variable {L : Limits}

theorem sum_getD (x : List ℂ) (f : ℂ → ℝ) : ∑ i : Fin x.length, f (x.getD i 0) = (x.map f).sum := by
  induction x with
  | nil => simp
  | cons z x ih =>
    rw [List.map_cons, List.sum_cons, ← ih]
    show ∑ i : Fin (x.length + 1), _ = _
    rw [Fin.sum_univ_succ]
    simp

theorem exact_re (x : List ℂ) : ((x.map ofComplex).map fun a => expReal (a.re.map (· * 2))).sum =
    ∑ i : Fin x.length, Real.exp ((x.getD i 0).re * 2) := by
  rw [sum_getD x fun z => Real.exp (z.re * 2), List.map_map]
  rfl

/-- **C103, probabilistic ensembles, proved.** For every nonempty ensemble: the phase is exact, the real part lies below the exact
one by at most the number of members times the smallest number, and adding a constant to all members adds it to the result. -/
theorem C103_probabilistic_partial (L : Limits) (x : List ℂ) (hx : x ≠ []) :
    (∃ r r', (probabilisticOp L x).re = some r ∧ (ensembleOp true (x.map ofComplex)).re = some r' ∧ r ≤ r' ∧ r' ≤ r + x.length * L.small) ∧
    (probabilisticOp L x).im = (ensembleOp true (x.map ofComplex)).im ∧
    ∀ c : ℂ, (probabilisticOp L (x.map (· + c))).re = (probabilisticOp L x).re.map (· + c.re) ∧
      ((x.map fun z => Complex.exp (z.im * Complex.I)).sum ≠ 0 →
        Complex.exp ((probabilisticOp L (x.map (· + c))).im * Complex.I) =
          Complex.exp ((probabilisticOp L x).im * Complex.I) * Complex.exp (c.im * Complex.I)) := by
  have hlen : 0 < x.length := List.length_pos_iff.2 hx
  refine ⟨?_, ?_, fun c => ⟨?_, ?_⟩⟩
  · obtain ⟨m, D, -, -, hD1, -, hDle, hDge, -, hlog, -⟩ := logNorm_spec L hlen fun i => (x.getD i 0).re * 2
    obtain ⟨E, hE⟩ : ∃ E, E = ∑ i : Fin x.length, Real.exp ((x.getD i 0).re * 2 - m) := ⟨_, rfl⟩
    rw [← hE] at hDle hDge
    have hsum : ∑ i : Fin x.length, Real.exp ((x.getD i 0).re * 2) = E * Real.exp m := by
      rw [hE, Finset.sum_mul]
      refine Finset.sum_congr rfl fun i _ => ?_
      rw [← Real.exp_add, sub_add_cancel]
    have hE0 : 0 < E := by linarith
    refine ⟨_, 0.5 * (Real.log E + m) - 0.5 * Real.log x.length, rfl, ?_, ?_, ?_⟩
    · show (logReal _).map _ = _
      rw [exact_re, hsum, logReal, if_neg (by positivity), Option.map_some, Real.log_mul hE0.ne' (Real.exp_ne_zero _), Real.log_exp, List.length_map]
    · rw [hlog]
      have := Real.log_le_log (by linarith) hDle
      linarith
    · rw [hlog]
      have h1 : Real.log E - Real.log D ≤ x.length * L.small := by
        rw [← Real.log_div hE0.ne' (by linarith)]
        refine (Real.log_le_sub_one_of_pos (by positivity)).trans ?_
        have hn : 0 ≤ x.length * L.small := mul_nonneg (Nat.cast_nonneg _) L.small_pos.le
        rw [sub_le_iff_le_add, div_le_iff₀ (by linarith)]
        nlinarith
      have h2 : 0 ≤ x.length * L.small := mul_nonneg (Nat.cast_nonneg _) L.small_pos.le
      linarith
  · show angle (mean _) = angle (mean _)
    rw [List.map_map]
    rfl
  · show some _ = some _
    congr 1
    have e : (fun i => ((x.map (· + c)).getD i 0).re * 2) = fun i => if i < x.length then (x.getD i 0).re * 2 + c.re * 2 else 0 := by
      funext i
      split
      · rename_i h
        rw [List.getD_eq_getElem _ _ (by rw [List.length_map]; exact h), List.getElem_map, List.getD_eq_getElem _ _ h, Complex.add_re]
        ring
      · rename_i h
        rw [List.getD_eq_default _ _ (by rw [List.length_map]; omega)]
        simp
    have hc : logNorm L x.length (fun i => if i < x.length then (x.getD i 0).re * 2 + c.re * 2 else 0) =
        logNorm L x.length fun i => (x.getD i 0).re * 2 + c.re * 2 := by
      have hm : ∀ (l : List Nat) (f g : Nat → ℝ) (init : ℝ), (∀ i ∈ l, f i = g i) →
          l.foldl (fun m i => max m (f i)) init = l.foldl (fun m i => max m (g i)) init := by
        intro l f g
        induction l with
        | nil => intro _ _; rfl
        | cons a l ih =>
          intro init h
          rw [List.foldl_cons, List.foldl_cons, h a (List.mem_cons_self ..)]
          exact ih _ fun i hi => h i (List.mem_cons_of_mem _ hi)
      unfold logNorm
      dsimp only
      rw [hm (List.range x.length) _ (fun i => (x.getD i 0).re * 2 + c.re * 2) _ (fun i hi => if_pos (List.mem_range.1 hi)), if_pos hlen]
      congr 2
      refine Finset.sum_congr rfl fun i _ => ?_
      rw [if_pos i.2]
    rw [e, List.length_map, hc, logNorm_shift]
    ring
  · intro h
    show Complex.exp ((angle (mean _) : ℂ) * _) = Complex.exp ((angle (mean _) : ℂ) * _) * _
    have hs : ((x.map (· + c)).map fun z => Complex.exp (z.im * Complex.I)).sum =
        (x.map fun z => Complex.exp (z.im * Complex.I)).sum * Complex.exp (c.im * Complex.I) := by
      clear h hx hlen
      induction x with
      | nil => simp
      | cons z x ih =>
        simp only [List.map_cons, List.sum_cons, ih, Complex.add_im, Complex.ofReal_add, add_mul, Complex.exp_add]
    have key : ∀ w : ℂ, w ≠ 0 → Complex.exp ((Complex.arg w : ℂ) * Complex.I) = w / ‖w‖ := by
      intro w hw
      rw [eq_div_iff (by simpa using hw), mul_comm]
      exact Complex.norm_mul_exp_arg_mul_I w
    have hl : (x.length : ℂ) ≠ 0 := by exact_mod_cast hlen.ne'
    unfold angle mean
    rw [hs, List.length_map, List.length_map, List.length_map, key _ (div_ne_zero (mul_ne_zero h (Complex.exp_ne_zero _)) hl), key _ (div_ne_zero h hl)]
    have hn : ‖(x.map fun z => Complex.exp (z.im * Complex.I)).sum * Complex.exp (c.im * Complex.I) / (x.length : ℂ)‖ =
        ‖(x.map fun z => Complex.exp (z.im * Complex.I)).sum / (x.length : ℂ)‖ := by
      rw [norm_div, norm_mul, Complex.norm_exp_ofReal_mul_I, mul_one, norm_div]
    rw [hn]
    ring

theorem norm_exp_eq (z : ℂ) : ‖Complex.exp z‖ = Real.exp z.re := Complex.norm_exp z

theorem result_none {z : ℂ} (h : 2 * L.big < ‖z‖) : result L z = none := by
  unfold result
  rw [if_neg]
  rintro ⟨h1, h2⟩
  have := Complex.norm_le_abs_re_add_abs_im z
  linarith

theorem result_zero {z : ℂ} (h : ‖z‖ < L.small) : result L z = some 0 := by
  have h1 := L.small_le
  have h2 := L.big_ge
  unfold result
  rw [if_pos (inRange_of_norm (by linarith)), if_pos h]

/-- **C103 fails for averages: overflow.** If the amplitude of one member exceeds twice the largest number, the result is
not a number. -/
theorem C103_violated_overflow (L : Limits) (x : List ℂ) (z : ℂ) (hz : z ∈ x) (h : 2 * L.big < Real.exp z.re) :
    averageOp L x = none := by
  unfold averageOp total
  have hmem : none ∈ x.map fun z => result L (Complex.exp z) :=
    List.mem_map.2 ⟨z, hz, result_none (by rw [norm_exp_eq]; exact h)⟩
  rw [foldl_plus_mem hmem]
  rfl

theorem average_underflow (L : Limits) (x : List ℂ) (h : ∀ z ∈ x, Real.exp z.re < L.small) : averageOp L x = some ⟨none, 0⟩ := by
  have hmap : (x.map fun z => result L (Complex.exp z)) = (x.map fun _ => (0 : ℂ)).map some := by
    rw [List.map_map]
    refine List.map_congr_left fun z hz => ?_
    rw [result_zero (by rw [norm_exp_eq]; exact h z hz)]
    rfl
  have h0 : ∀ y : List ℂ, ((y.map fun _ => (0 : ℂ)).map fun z => ‖z‖).sum = 0 := by
    intro y
    induction y with
    | nil => rfl
    | cons a y ih => simpa using ih
  have hs : ∀ y : List ℂ, (y.map fun _ => (0 : ℂ)).sum = 0 := by
    intro y
    induction y with
    | nil => rfl
    | cons a y ih => simpa using ih
  have hb := L.big_ge
  have hsm := L.small_pos
  unfold averageOp total
  rw [hmap, foldl_plus_some _ _ (by rw [h0, norm_zero]; linarith), hs, zero_add, Option.bind_some, zero_div,
    result_zero (by rw [norm_zero]; exact hsm), Option.bind_some, norm_zero, if_pos (by linarith)]
  unfold complexLog logReal angle
  rw [norm_zero, if_pos rfl, Complex.arg_zero]

/-- **C103 fails for averages: underflow.** If the amplitudes of all members are below the smallest number, the result is the logarithm of
zero, minus infinity; for equal members the exact result is their common value. -/
theorem C103_violated_underflow (L : Limits) (x : List ℂ) (hx : x ≠ []) (h : ∀ z ∈ x, Real.exp z.re < L.small) :
    averageOp L x = some ⟨none, 0⟩ ∧ ∀ z, (∀ y ∈ x, y = z) → (ensembleOp false (x.map ofComplex)).exp = Complex.exp z := by
  refine ⟨average_underflow L x h, fun z hz => ?_⟩
  have hlen : x.length ≠ 0 := fun e => hx (List.length_eq_zero_iff.1 e)
  have hex : ∀ y : ℂ, (ofComplex y).exp = Complex.exp y := fun y => Verif.RBM.exp_ofComplex y
  have e : x = List.replicate x.length z := List.eq_replicate_iff.2 ⟨rfl, hz⟩
  show (Verif.Ensemble.averageOp _).exp = _
  unfold Verif.Ensemble.averageOp mean
  rw [Verif.RBM.exp_complexLog, e]
  simp only [List.map_replicate, List.sum_replicate, List.length_replicate, hex, nsmul_eq_mul]
  rw [mul_div_cancel_left₀ _ (by exact_mod_cast hlen)]

/-- **C103 fails for normalised networks.** Symmetrise a normalised network over `m` one to one maps of the configurations. If
`m` is below `2 ^ n` times the square of the smallest number, there is a configuration at which the average is computed as zero. So it
happens in every large enough system: amplitudes of normalised networks are of order `2 ^ (- n / 2)`. -/
theorem C103_violated_normalised {ι : Type} [Fintype ι] [DecidableEq ι] (L : Limits) (model : Config ι → ℂ)
    (hn : ∑ s ∈ allSpins ι, ‖Complex.exp (model s)‖ ^ 2 = 1) (maps : List (Config ι → Config ι))
    (hmaps : ∀ T ∈ maps, Set.BijOn T (allSpins ι) (allSpins ι)) (hm : (maps.length : ℝ) < 2 ^ Fintype.card ι * L.small ^ 2) :
    ∃ s, IsSpin s ∧ averageOp L (maps.map fun T => model (T s)) = some ⟨none, 0⟩ := by
  have hcard : ((allSpins ι).card : ℝ) = 2 ^ Fintype.card ι := by
    unfold allSpins
    rw [Fintype.card_piFinset]
    have : ((({1, -1} : Finset ℤ)).card) = 2 := by decide
    simp [this]
  have htot : ∑ s ∈ allSpins ι, (maps.map fun T => ‖Complex.exp (model (T s))‖ ^ 2).sum = maps.length := by
    clear hm
    induction maps with
    | nil => simp
    | cons T maps ih =>
      simp only [List.map_cons, List.sum_cons, List.length_cons]
      rw [Finset.sum_add_distrib, ih fun T' h => hmaps T' (List.mem_cons_of_mem _ h)]
      have hT := hmaps T (List.mem_cons_self ..)
      have : ∑ s ∈ allSpins ι, ‖Complex.exp (model (T s))‖ ^ 2 = ∑ s ∈ allSpins ι, ‖Complex.exp (model s)‖ ^ 2 :=
        Finset.sum_nbij T (fun s hs => hT.mapsTo hs) hT.injOn hT.surjOn fun _ _ => rfl
      rw [this, hn]
      push_cast
      ring
  have hlt : ∃ s ∈ allSpins ι, (maps.map fun T => ‖Complex.exp (model (T s))‖ ^ 2).sum < L.small ^ 2 := by
    by_contra hcon
    push Not at hcon
    have := Finset.card_nsmul_le_sum _ _ _ hcon
    rw [htot, nsmul_eq_mul, hcard] at this
    linarith
  obtain ⟨s, hs, hlt⟩ := hlt
  refine ⟨s, (mem_allSpins s).1 hs, average_underflow L _ ?_⟩
  intro z hz
  obtain ⟨T, hT, rfl⟩ := List.mem_map.1 hz
  have h1 : ‖Complex.exp (model (T s))‖ ^ 2 ≤ (maps.map fun T => ‖Complex.exp (model (T s))‖ ^ 2).sum :=
    List.single_le_sum (by
      intro y hy
      obtain ⟨T', -, rfl⟩ := List.mem_map.1 hy
      positivity) _ (List.mem_map.2 ⟨T, hT, rfl⟩)
  rw [← norm_exp_eq]
  exact lt_of_pow_lt_pow_left₀ 2 L.small_pos.le (lt_of_le_of_lt h1 hlt)

/-- **C103, averages, proved part.** If no amplitude and neither their average is below the smallest number, and the number of members times
the largest amplitude is not above the largest number, the result is exact. -/
theorem C103_average_partial (L : Limits) (x : List ℂ) (hlow : ∀ z ∈ x, L.small ≤ Real.exp z.re)
    (hhigh : ∀ z ∈ x, x.length * Real.exp z.re ≤ L.big) (hmean : L.small ≤ ‖mean (x.map Complex.exp)‖) :
    averageOp L x = some (ensembleOp false (x.map ofComplex)) := by
  have hx : x ≠ [] := by
    rintro rfl
    simp [mean] at hmean
    linarith [L.small_pos]
  have hlen : (1 : ℝ) ≤ x.length := by exact_mod_cast List.length_pos_iff.2 hx
  have hbig : ∀ z ∈ x, Real.exp z.re ≤ L.big := by
    intro z hz
    have := hhigh z hz
    have := Real.exp_pos z.re
    nlinarith
  have hmap : (x.map fun z => result L (Complex.exp z)) = (x.map Complex.exp).map some := by
    rw [List.map_map]
    refine List.map_congr_left fun z hz => ?_
    show result L (Complex.exp z) = some (Complex.exp z)
    unfold result
    rw [if_pos (inRange_of_norm (by rw [norm_exp_eq]; exact hbig z hz)), if_neg (by rw [norm_exp_eq]; exact not_lt.2 (hlow z hz))]
  have hsum : ((x.map Complex.exp).map fun z => ‖z‖).sum ≤ L.big := by
    obtain ⟨z, hz, hmax⟩ : ∃ z ∈ x, ∀ y ∈ x, Real.exp y.re ≤ Real.exp z.re := by
      obtain ⟨z, hz, hmax⟩ := Finset.exists_max_image x.toFinset (fun z => Real.exp z.re)
        (by obtain ⟨a, ha⟩ := List.exists_mem_of_ne_nil x hx; exact ⟨a, List.mem_toFinset.2 ha⟩)
      exact ⟨z, List.mem_toFinset.1 hz, fun y hy => hmax y (List.mem_toFinset.2 hy)⟩
    rw [List.map_map]
    have := List.sum_le_card_nsmul (x.map ((fun z => ‖z‖) ∘ Complex.exp)) (Real.exp z.re) (by
      intro r hr
      obtain ⟨y, hy, rfl⟩ := List.mem_map.1 hr
      show ‖Complex.exp y‖ ≤ _
      rw [norm_exp_eq]
      exact hmax y hy)
    rw [List.length_map, nsmul_eq_mul] at this
    exact this.trans (hhigh z hz)
  have hnorm : ‖mean (x.map Complex.exp)‖ ≤ L.big := by
    have h1 : ‖(x.map Complex.exp).sum‖ ≤ ((x.map Complex.exp).map fun z => ‖z‖).sum := by
      generalize x.map Complex.exp = y
      induction y with
      | nil => simp
      | cons a y ih =>
        rw [List.sum_cons, List.map_cons, List.sum_cons]
        exact (norm_add_le _ _).trans (by linarith)
    unfold mean
    rw [norm_div, List.length_map, Complex.norm_natCast, div_le_iff₀ (by linarith)]
    have := L.big_ge
    nlinarith
  unfold averageOp total
  rw [hmap, foldl_plus_some _ _ (by rw [norm_zero, zero_add]; exact hsum), zero_add, Option.bind_some]
  have hm : (x.map Complex.exp).sum / (x.length : ℂ) = mean (x.map Complex.exp) := by
    unfold mean
    rw [List.length_map]
  rw [hm]
  have hres : result L (mean (x.map Complex.exp)) = some (mean (x.map Complex.exp)) := by
    unfold result
    rw [if_pos (inRange_of_norm hnorm), if_neg (not_lt.2 hmean)]
  rw [hres, Option.bind_some, if_pos hnorm]
  congr 1
  show _ = Verif.Ensemble.averageOp _
  unfold Verif.Ensemble.averageOp
  rw [List.map_map]
  congr 2
  exact List.map_congr_left fun z _ => (Verif.RBM.exp_ofComplex z).symm

/-! ### Concrete cases -/

/-- `float32`. -/
noncomputable def single : Limits where
  big := 2 ^ 127
  small := (2 ^ 149)⁻¹
  small_pos := by positivity
  small_le := inv_le_one_of_one_le₀ (one_le_pow₀ (by norm_num))
  big_ge := one_le_pow₀ (by norm_num)

/-- The network that gives all configurations of `n` spins the same probability. -/
noncomputable def uniform (n : Nat) : Config (Fin n) → ℂ := fun _ => ((- (n * Real.log 2 / 2) : ℝ) : ℂ)

theorem uniform_sq (n : Nat) (s : Config (Fin n)) : ‖Complex.exp (uniform n s)‖ ^ 2 = (2 ^ n)⁻¹ := by
  unfold uniform
  rw [norm_exp_eq, Complex.ofReal_re, ← Real.exp_nat_mul, ← Real.rpow_natCast, Real.rpow_def_of_pos two_pos, ← Real.exp_neg]
  congr 1
  push_cast
  ring

/-- **C103 fails for the uniform network,** symmetrised over spin flips, on 300 spins or more in single precision: at every configuration
the average is computed as zero, while the probability of the probabilistic ensemble is computed up to a factor `exp (4 * 2 ^ (-149))`. -/
theorem C103_violated_uniform (n : Nat) (hn : 300 ≤ n) (s : Config (Fin n)) :
    averageOp single [uniform n s, uniform n fun i => - s i] = some ⟨none, 0⟩ ∧
    (ensembleOp false [ofComplex (uniform n s), ofComplex (uniform n fun i => - s i)]).exp = Complex.exp (uniform n s) := by
  have hlt : ∀ t : Config (Fin n), Real.exp (uniform n t).re < single.small := by
    intro t
    rw [← norm_exp_eq]
    refine lt_of_pow_lt_pow_left₀ 2 single.small_pos.le ?_
    rw [uniform_sq]
    show _ < ((2 ^ 149)⁻¹ : ℝ) ^ 2
    rw [inv_pow, ← pow_mul]
    refine inv_strictAnti₀ (by positivity) ?_
    exact pow_lt_pow_right₀ (by norm_num) (by omega)
  obtain ⟨h1, h2⟩ := C103_violated_underflow single [uniform n s, uniform n fun i => - s i] (by simp) (by
    intro z hz
    rcases List.mem_cons.1 hz with rfl | hz
    · exact hlt _
    · rw [List.mem_singleton.1 hz]
      exact hlt _)
  exact ⟨h1, h2 (uniform n s) (by
    intro y hy
    rcases List.mem_cons.1 hy with rfl | hy
    · rfl
    · rw [List.mem_singleton.1 hy]
      rfl)⟩

theorem two_lt (n k : Nat) (h : 2 * k + 1 < n) : ((2 : Nat) : ℝ) < 2 ^ n * ((2 ^ k)⁻¹) ^ 2 := by
  rw [inv_pow, ← pow_mul, ← div_eq_mul_inv, lt_div_iff₀ (by positivity)]
  calc ((2 : Nat) : ℝ) * 2 ^ (k * 2) = 2 ^ (k * 2 + 1) := by rw [Nat.cast_ofNat, ← pow_succ']
    _ < 2 ^ n := pow_lt_pow_right₀ (by norm_num) (by omega)

/-- The hypotheses of `C103_violated_normalised` are met: `float64`, spin flips, 2150 spins or more. -/
example (n : Nat) (hn : 2150 ≤ n) : ∃ s : Config (Fin n), IsSpin s ∧
    averageOp double ([fun s => s, fun s i => - s i].map fun T : Config (Fin n) → Config (Fin n) => uniform n (T s)) = some ⟨none, 0⟩ := by
  refine C103_violated_normalised double (uniform n) ?_ _ ?_ ?_
  · rw [Finset.sum_congr rfl fun s _ => uniform_sq n s, Finset.sum_const, nsmul_eq_mul]
    have hcard : ((allSpins (Fin n)).card : ℝ) = 2 ^ n := by
      unfold allSpins
      rw [Fintype.card_piFinset]
      have : ((({1, -1} : Finset ℤ)).card) = 2 := by decide
      rw [Finset.prod_congr rfl fun _ _ => this, Finset.prod_const, Finset.card_univ, Fintype.card_fin]
      push_cast
      rfl
    rw [hcard]
    exact mul_inv_cancel₀ (pow_ne_zero _ two_ne_zero)
  · intro T hT
    rcases List.mem_cons.1 hT with rfl | hT
    · exact Set.bijOn_id _
    · obtain rfl := List.mem_singleton.1 hT
      have hmem : ∀ s : Config (Fin n), s ∈ allSpins (Fin n) → (fun i => - s i) ∈ allSpins (Fin n) := by
        intro s hs
        rw [mem_allSpins] at hs ⊢
        intro i
        rcases hs i with e | e <;> simp [e]
      refine ⟨fun s hs => hmem s hs, fun s _ t _ h => ?_, fun s hs => ⟨fun i => - s i, hmem s hs, ?_⟩⟩
      · funext i
        exact neg_injective (congrFun h i)
      · funext i
        exact neg_neg _
  · show ((2 : Nat) : ℝ) < 2 ^ Fintype.card (Fin n) * ((2 ^ 1074)⁻¹) ^ 2
    rw [Fintype.card_fin]
    exact two_lt n 1074 (by omega)

/-- The hypotheses of `C103_average_partial` are met. -/
example (L : Limits) (h : 3 ≤ L.big) : averageOp L [0, 0, 0] = some (ensembleOp false ([0, 0, 0].map ofComplex)) := by
  refine C103_average_partial L [0, 0, 0] (by simpa using L.small_le) (by simpa using h) ?_
  simp only [mean, List.map_cons, List.map_nil, Complex.exp_zero, List.sum_cons, List.sum_nil, List.length_cons, List.length_nil]
  norm_num
  exact L.small_le

end Verif.Ensemble.Range
