import Verif.Energy.Spins

/-!
# C101: exact results and the range of floating point numbers

`ExactVariational` (`src/flowket/optimization/exact_variational.py`) once more, now in an arithmetic whose
numbers cannot be arbitrarily large or small. Results are not rounded otherwise: an operation either
overflows, or underflows to zero, or is exact. The slicing into batches is left out (C22: it has no effect).
-/
namespace Verif.Energy.Range

open Verif.Energy.Exact

/-! ### Arithmetic -/

/-- The largest and the smallest positive number (for `float64` about `1.8e308` and `4.9e-324`). -/
structure Limits where
  big : ℝ
  small : ℝ
  small_pos : 0 < small
  small_le : small ≤ 1
  big_ge : 1 ≤ big

/-- Underflow of a nonnegative real result. -/
noncomputable def flush (L : Limits) (r : ℝ) : ℝ := if r < L.small then 0 else r

/-- Real and imaginary part can be represented. -/
def InRange (L : Limits) (z : ℂ) : Prop := |z.re| ≤ L.big ∧ |z.im| ≤ L.big

open Classical in
/-- The complex result of an operation; `none` stands for infinity and not-a-number. -/
noncomputable def result (L : Limits) (z : ℂ) : Option ℂ :=
  if InRange L z then some (if ‖z‖ < L.small then 0 else z) else none

open Classical in
/-- Complex addition; sums do not underflow. -/
noncomputable def plus (L : Limits) (a b : Option ℂ) : Option ℂ :=
  a.bind fun a => b.bind fun b => if InRange L (a + b) then some (a + b) else none

/-- Multiplication of an array entry with a number (infinity times zero is not a number). -/
noncomputable def times (L : Limits) (c : ℂ) (a : Option ℂ) : Option ℂ := a.bind fun a => result L (c * a)

/-- `numpy.sum`, `fsum`. -/
noncomputable def total (L : Limits) (l : List (Option ℂ)) : Option ℂ := l.foldl (plus L) (some 0)

open Classical in
/-- Division of a complex number by a real one, where `none` is plus infinity: numpy returns zero for a finite
number over infinity, and no finite number for a division by zero. -/
noncomputable def over (L : Limits) (a : Option ℂ) (r : Option ℝ) : Option ℂ :=
  a.bind fun a => match r with
    | none => some 0
    | some r => if r = 0 then none else result L (a / (r : ℂ))

/-! ### Model -/

/-- `complex_norm_log_fsum_exp` (src/flowket/exact/utils.py 75-78) of the real parts `a`. -/
noncomputable def logNorm (L : Limits) (S : Nat) (a : Nat → ℝ) : ℝ :=
  let m := (List.range S).foldl (fun m x => max m (a x)) (a 0)
  Real.log (∑ x : Fin S, flush L (Real.exp (a x - m))) + m

/-- `numpy.exp` of a real number, `none` is plus infinity. -/
noncomputable def expReal (L : Limits) (r : ℝ) : Option ℝ := if Real.exp r ≤ L.big then some (flush L (Real.exp r)) else none

/-- The results of a refresh. -/
structure Out where
  normSq : Option ℝ
  probs : Nat → ℝ
  energies : Nat → Option ℂ
  energy : Option ℂ
  coeff : Nat → Option ℂ

/-- `batch_complex_local_energies` at state `x` (exact_variational.py 77-82). -/
noncomputable def numerator (L : Limits) (t : Tables) (wave : Nat → ℂ) (x : Nat) : Option ℂ :=
  total L ((List.finRange t.R).map fun j : Fin t.R => times L ((starRingEnd ℂ) (t.mel j x))
    (result L (Complex.exp ((starRingEnd ℂ) (wave (t.idx j x)) + wave (t.idx 0 x)))))

/-- `machine_updated` (exact_variational.py 132-152) for the network `net`, without the variance. The argument of
the exponential of line 139 is never positive. -/
noncomputable def refresh {σ : Type} (L : Limits) (s : Setup σ) (t : Tables) (net : σ → ℂ) : Out :=
  let wave : Nat → ℂ := fun x => net (s.states x)
  let psiSq : Nat → ℝ := fun x => (wave x * 2).re
  let logN := logNorm L s.S psiSq
  let normSq := expReal L logN
  let probs : Nat → ℝ := fun x => flush L (Real.exp (psiSq x - logN))
  let energies : Nat → Option ℂ := fun x => over L (numerator L t wave x) normSq
  let energy := total L ((List.finRange s.S).map fun x : Fin s.S => energies x)
  ⟨normSq, probs, energies, energy, fun x => plus L (energies x) (times L (-(probs x : ℂ)) energy)⟩

/-! ### Lemmas on the arithmetic -/

section
variable {L : Limits}

theorem flush_bounds {r : ℝ} (h : 0 ≤ r) : 0 ≤ flush L r ∧ flush L r ≤ r ∧ r ≤ flush L r + L.small := by
  unfold flush
  have := L.small_pos
  split
  · exact ⟨le_rfl, h, by linarith⟩
  · exact ⟨h, le_rfl, by linarith⟩

theorem flush_eq {r : ℝ} (h : L.small ≤ r) : flush L r = r := if_neg (not_lt.2 h)

theorem inRange_of_norm {z : ℂ} (h : ‖z‖ ≤ L.big) : InRange L z :=
  ⟨(Complex.abs_re_le_norm z).trans h, (Complex.abs_im_le_norm z).trans h⟩

theorem result_some {z : ℂ} (h : ‖z‖ ≤ L.big) : ∃ v, result L z = some v ∧ ‖v - z‖ ≤ L.small ∧ ‖v‖ ≤ ‖z‖ := by
  unfold result
  rw [if_pos (inRange_of_norm h)]
  refine ⟨_, rfl, ?_⟩
  split
  · rename_i h'
    rw [zero_sub, norm_neg, norm_zero]
    exact ⟨h'.le, norm_nonneg _⟩
  · rw [sub_self, norm_zero]
    exact ⟨L.small_pos.le, le_rfl⟩

theorem foldl_plus_none (l : List (Option ℂ)) : l.foldl (plus L) none = none := by
  induction l with
  | nil => rfl
  | cons a l ih => exact ih

theorem foldl_plus_mem {l : List (Option ℂ)} (h : none ∈ l) (acc : Option ℂ) : l.foldl (plus L) acc = none := by
  induction l generalizing acc with
  | nil => simp at h
  | cons a l ih =>
    rw [List.foldl_cons]
    rcases List.mem_cons.1 h with h | h
    · have : plus L acc a = none := by
        rw [← h]
        cases acc <;> rfl
      rw [this, foldl_plus_none]
    · exact ih h _

theorem foldl_plus_some (zs : List ℂ) (acc : ℂ) (h : ‖acc‖ + (zs.map fun z => ‖z‖).sum ≤ L.big) :
    (zs.map some).foldl (plus L) (some acc) = some (acc + zs.sum) := by
  induction zs generalizing acc with
  | nil => simp
  | cons z zs ih =>
    rw [List.map_cons, List.sum_cons] at h
    have h0 : 0 ≤ (zs.map fun z => ‖z‖).sum := List.sum_nonneg (by
      intro r hr
      obtain ⟨z, -, rfl⟩ := List.mem_map.1 hr
      exact norm_nonneg _)
    have h1 := norm_add_le acc z
    rw [List.map_cons, List.foldl_cons]
    have : plus L (some acc) (some z) = some (acc + z) := if_pos (inRange_of_norm (by linarith))
    rw [this, ih _ (by linarith), List.sum_cons, add_assoc]

theorem total_some {n : Nat} {f : Fin n → Option ℂ} {g : Fin n → ℂ} (hf : ∀ i, f i = some (g i)) (h : ∑ i, ‖g i‖ ≤ L.big) :
    total L ((List.finRange n).map f) = some (∑ i, g i) := by
  have e : (List.finRange n).map f = ((List.finRange n).map g).map some := by
    rw [List.map_map]
    exact List.map_congr_left fun i _ => hf i
  unfold total
  rw [e, foldl_plus_some, zero_add, ← List.ofFn_eq_map, List.sum_ofFn]
  rw [norm_zero, zero_add, List.map_map, ← List.ofFn_eq_map, List.sum_ofFn]
  exact h

theorem total_none {n : Nat} {f : Fin n → Option ℂ} {i : Fin n} (h : f i = none) :
    total L ((List.finRange n).map f) = none :=
  foldl_plus_mem (List.mem_map.2 ⟨i, List.mem_finRange i, h⟩) _

end

/-! ### The normalisation -/

theorem foldl_max_spec (a : Nat → ℝ) (l : List Nat) (init : ℝ) :
    init ≤ l.foldl (fun m x => max m (a x)) init ∧ (∀ x ∈ l, a x ≤ l.foldl (fun m x => max m (a x)) init) ∧
    (l.foldl (fun m x => max m (a x)) init = init ∨ ∃ x ∈ l, a x = l.foldl (fun m x => max m (a x)) init) := by
  induction l generalizing init with
  | nil => simp
  | cons y l ih =>
    obtain ⟨h1, h2, h3⟩ := ih (max init (a y))
    rw [List.foldl_cons]
    refine ⟨(le_max_left _ _).trans h1, ?_, ?_⟩
    · intro x hx
      rcases List.mem_cons.1 hx with rfl | hx
      · exact (le_max_right _ _).trans h1
      · exact h2 x hx
    · rcases h3 with h3 | ⟨x, hx, h3⟩
      · rcases le_total (a y) init with hle | hle
        · exact Or.inl (by rw [h3]; exact max_eq_left hle)
        · exact Or.inr ⟨y, List.mem_cons_self .., by rw [h3]; exact (max_eq_right hle).symm⟩
      · exact Or.inr ⟨x, List.mem_cons_of_mem _ hx, h3⟩

/-- With `m` the largest exponent: the computed norm is `D e^m` with `1 ≤ D`, and `D` misses less than
`S` times the smallest number. -/
theorem logNorm_spec (L : Limits) {S : Nat} (hS : 0 < S) (a : Nat → ℝ) :
    ∃ m D : ℝ, (∃ x < S, a x = m) ∧ (∀ x < S, a x ≤ m) ∧ 1 ≤ D ∧ D ≤ S ∧
      D ≤ ∑ x : Fin S, Real.exp (a x - m) ∧ ∑ x : Fin S, Real.exp (a x - m) ≤ D + S * L.small ∧
      D = ∑ x : Fin S, flush L (Real.exp (a x - m)) ∧
      logNorm L S a = Real.log D + m ∧ Real.exp (logNorm L S a) = D * Real.exp m := by
  obtain ⟨m, hm⟩ : ∃ m, m = (List.range S).foldl (fun m x => max m (a x)) (a 0) := ⟨_, rfl⟩
  obtain ⟨h1, h2, h3⟩ := foldl_max_spec a (List.range S) (a 0)
  rw [← hm] at h1 h2 h3
  have hx0 : ∃ x < S, a x = m := by
    rcases h3 with h3 | ⟨x, hx, h3⟩
    · exact ⟨0, hS, h3.symm⟩
    · exact ⟨x, List.mem_range.1 hx, h3⟩
  have hle : ∀ x < S, a x ≤ m := fun x hx => h2 x (List.mem_range.2 hx)
  have hnn : ∀ x : Fin S, 0 ≤ flush L (Real.exp (a x - m)) := fun x => (flush_bounds (Real.exp_pos _).le).1
  have hD1 : 1 ≤ ∑ x : Fin S, flush L (Real.exp (a x - m)) := by
    obtain ⟨x, hx, e⟩ := hx0
    have : flush L (Real.exp (a (⟨x, hx⟩ : Fin S) - m)) = 1 := by
      dsimp only
      rw [e, sub_self, Real.exp_zero, flush_eq L.small_le]
    rw [← this]
    exact Finset.single_le_sum (f := fun x : Fin S => flush L (Real.exp (a x - m))) (fun x _ => hnn x) (Finset.mem_univ _)
  have hlog : logNorm L S a = Real.log (∑ x : Fin S, flush L (Real.exp (a x - m))) + m := by
    unfold logNorm
    rw [hm]
  refine ⟨m, _, hx0, hle, hD1, ?_, ?_, ?_, rfl, hlog, ?_⟩
  · calc _ ≤ ∑ _x : Fin S, (1 : ℝ) := Finset.sum_le_sum fun x _ =>
          ((flush_bounds (Real.exp_pos _).le).2.1).trans (Real.exp_le_one_iff.2 (by have := hle x x.isLt; linarith))
      _ = S := by simp
  · exact Finset.sum_le_sum fun x _ => (flush_bounds (Real.exp_pos _).le).2.1
  · calc _ ≤ ∑ x : Fin S, (flush L (Real.exp (a x - m)) + L.small) :=
          Finset.sum_le_sum fun x _ => (flush_bounds (Real.exp_pos _).le).2.2
      _ = _ := by rw [Finset.sum_add_distrib]; simp
  · rw [hlog, Real.exp_add, Real.exp_log (by linarith)]

theorem logNorm_shift (L : Limits) (S : Nat) (a : Nat → ℝ) (c : ℝ) : logNorm L S (fun x => a x + c) = logNorm L S a + c := by
  have h : ∀ (l : List Nat) (init : ℝ), l.foldl (fun m x => max m (a x + c)) (init + c) =
      l.foldl (fun m x => max m (a x)) init + c := by
    intro l
    induction l with
    | nil => intro _; rfl
    | cons y l ih =>
      intro init
      rw [List.foldl_cons, List.foldl_cons, ← ih, max_add_add_right]
  unfold logNorm
  dsimp only
  rw [h, add_assoc]
  congr 2
  refine Finset.sum_congr rfl fun x _ => ?_
  congr 2
  ring

/-! ### C101 -/

section
variable {σ : Type}

theorem normSq_amplitudes (s : Setup σ) (net : σ → ℂ) (m : ℝ) :
    normSq (amplitudes s net) = (∑ x : Fin s.S, Real.exp ((net (s.states x) * 2).re - m)) * Real.exp m := by
  unfold normSq amplitudes
  rw [Finset.sum_mul]
  refine Finset.sum_congr rfl fun x _ => ?_
  rw [norm_exp_sq, ← Real.exp_add]
  congr 1
  simp
  ring

/-- **C101, proved part: the probabilities.** However large or small the amplitudes are, the probabilities
`|ψ|²/‖ψ‖²` are computed up to `S + 1` times the smallest number, and a factor in front of
the wave function has no effect at all. -/
theorem C101_probabilities_partial (L : Limits) (s : Setup σ) (hS : 0 < s.S) (t : Tables) (net : σ → ℂ) :
    (∀ x : Fin s.S, 0 ≤ (refresh L s t net).probs x ∧ (refresh L s t net).probs x ≤ 1 ∧
      |(refresh L s t net).probs x - ‖amplitudes s net x‖ ^ 2 / normSq (amplitudes s net)| ≤ (s.S + 1) * L.small) ∧
    ∀ (c : ℂ) (x : Nat), (refresh L s t fun y => net y + c).probs x = (refresh L s t net).probs x := by
  constructor
  · intro x
    obtain ⟨m, D, -, hle, hD1, -, hDle, hDge, -, -, hexp⟩ := logNorm_spec L hS fun x => (net (s.states x) * 2).re
    obtain ⟨E, hE⟩ : ∃ E, E = ∑ x : Fin s.S, Real.exp ((net (s.states x) * 2).re - m) := ⟨_, rfl⟩
    rw [← hE] at hDle hDge
    have hp : (refresh L s t net).probs x = flush L (Real.exp ((net (s.states x) * 2).re -
        logNorm L s.S fun x => (net (s.states x) * 2).re)) := rfl
    obtain ⟨e, he⟩ : ∃ e, e = Real.exp ((net (s.states x) * 2).re - m) := ⟨_, rfl⟩
    have he0 : 0 < e := by rw [he]; exact Real.exp_pos _
    have he1 : e ≤ 1 := by
      rw [he]
      exact Real.exp_le_one_iff.2 (by have := hle x x.isLt; linarith)
    have hq : Real.exp ((net (s.states x) * 2).re - logNorm L s.S fun x => (net (s.states x) * 2).re) = e / D := by
      rw [Real.exp_sub, hexp, he, Real.exp_sub]
      field_simp
    have hP : ‖amplitudes s net x‖ ^ 2 / normSq (amplitudes s net) = e / E := by
      rw [normSq_amplitudes s net m, ← hE]
      unfold amplitudes
      rw [norm_exp_sq, he, Real.exp_sub]
      have h2 : (net (s.states x) * 2).re = 2 * (net (s.states x)).re := by simp; ring
      have hE0 : E ≠ 0 := by linarith
      rw [h2]
      field_simp
    have hq0 : 0 ≤ e / D := by positivity
    have hq1 : e / D ≤ 1 := by rw [div_le_one (by linarith)]; linarith
    obtain ⟨f1, f2, f3⟩ := flush_bounds (L := L) hq0
    rw [hp, hq, hP]
    have hdiff : e / D - e / E ≤ s.S * L.small := by
      have hE0 : 0 < E := by linarith
      have hD0 : 0 < D := by linarith
      rw [div_sub_div _ _ hD0.ne' hE0.ne', div_le_iff₀ (by positivity)]
      have h1 : e * E - D * e ≤ s.S * L.small := by
        have : e * E - D * e = e * (E - D) := by ring
        rw [this]
        calc e * (E - D) ≤ 1 * (E - D) := mul_le_mul_of_nonneg_right he1 (by linarith)
          _ ≤ _ := by linarith
      have h2 : 1 ≤ D * E := by nlinarith
      have h3 : 0 ≤ s.S * L.small := mul_nonneg (Nat.cast_nonneg _) L.small_pos.le
      nlinarith
    have hdiff0 : 0 ≤ e / D - e / E := by
      rw [sub_nonneg]
      exact div_le_div_of_nonneg_left he0.le (by linarith) hDle
    refine ⟨f1, by linarith, ?_⟩
    have h3 : 0 ≤ s.S * L.small := mul_nonneg (Nat.cast_nonneg _) L.small_pos.le
    have := L.small_pos
    rw [abs_le]
    constructor <;> linarith
  · intro c x
    show flush L _ = flush L _
    have e : (fun x => ((net (s.states x) + c) * 2).re) = fun x => (net (s.states x) * 2).re + (c * 2).re := by
      funext x
      rw [add_mul, Complex.add_re]
    dsimp only
    rw [e, logNorm_shift, add_mul, Complex.add_re]
    congr 2
    ring

theorem idx_zero (s : Setup σ) (rows : σ → List (σ × ℂ)) (hr : RowWise s rows) {t : Tables} (ht : TablesOk s rows t) :
    ∀ x < s.S, 0 < t.R ∧ t.idx 0 x = x := by
  intro x hx
  obtain ⟨m, hm⟩ := hr.first x hx
  have hlen : 0 < (rows (s.states x)).length := by
    rcases hrows : rows (s.states x) with _ | ⟨a, l⟩
    · rw [hrows] at hm; simp at hm
    · simp
  have hrow := (ht.row x hx 0 hlen).1
  rw [List.head?_eq_getElem?, List.getElem?_eq_getElem hlen] at hm
  exact ⟨lt_of_lt_of_le hlen (ht.enough x hx), by rw [hrow, Option.some.inj hm, hr.encode x hx]⟩

/-- **C101 fails: overflow.** As soon as one squared amplitude exceeds the largest number, the energy and all
training targets are not numbers, for every operator. -/
theorem C101_violated_overflow (L : Limits) (s : Setup σ) (rows : σ → List (σ × ℂ)) (hr : RowWise s rows) (batch : Nat)
    (o : Obj σ) (ho : Obj.new s batch = .ok o) (net : σ → ℂ) (x : Fin s.S) (hx : L.big < ‖amplitudes s net x‖ ^ 2) :
    (refresh L s o.tables net).energy = none ∧ ∀ y, (refresh L s o.tables net).coeff y = none := by
  obtain ⟨-, -, -, -, hok, -⟩ := new_ok s rows hr batch o ho
  obtain ⟨hR, h0⟩ := idx_zero s rows hr hok x x.isLt
  have hn : numerator L o.tables (fun x => net (s.states x)) x = none := by
    unfold numerator
    refine total_none (i := ⟨0, hR⟩) ?_
    dsimp only
    rw [h0]
    have hz : (starRingEnd ℂ) (net (s.states x)) + net (s.states x) = ((2 * (net (s.states x)).re : ℝ) : ℂ) := by
      rw [add_comm, Complex.add_conj]
    have : result L (Complex.exp ((starRingEnd ℂ) (net (s.states x)) + net (s.states x))) = none := by
      unfold result
      refine if_neg fun h => ?_
      have h1 := h.1
      rw [hz, ← Complex.ofReal_exp, Complex.ofReal_re, abs_of_pos (Real.exp_pos _)] at h1
      unfold amplitudes at hx
      rw [norm_exp_sq] at hx
      linarith
    rw [this]
    rfl
  have hE : (refresh L s o.tables net).energy = none := by
    refine total_none (i := x) ?_
    show over L (numerator L o.tables (fun x => net (s.states x)) x) _ = none
    rw [hn]
    rfl
  refine ⟨hE, fun y => ?_⟩
  show plus L ((refresh L s o.tables net).energies y) (times L _ (refresh L s o.tables net).energy) = none
  rw [hE]
  cases (refresh L s o.tables net).energies y <;> rfl

/-- **C101 fails: underflow.** As soon as all squared amplitudes are below the smallest number over the number
of states, the energy and all training targets are not numbers, for every operator. -/
theorem C101_violated_underflow (L : Limits) (s : Setup σ) (hS : 0 < s.S) (t : Tables) (net : σ → ℂ)
    (h : ∀ x : Fin s.S, ‖amplitudes s net x‖ ^ 2 < L.small / s.S) :
    (refresh L s t net).energy = none ∧ ∀ y, (refresh L s t net).coeff y = none := by
  have hS' : (0 : ℝ) < s.S := Nat.cast_pos.2 hS
  have hnorm : (refresh L s t net).normSq = some 0 := by
    obtain ⟨m, D, ⟨x, hx, hxm⟩, -, hD1, hDS, -, -, -, -, hexp⟩ := logNorm_spec L hS fun x => (net (s.states x) * 2).re
    have h1 := h ⟨x, hx⟩
    unfold amplitudes at h1
    rw [norm_exp_sq] at h1
    have h2 : (net (s.states x) * 2).re = 2 * (net (s.states x)).re := by simp; ring
    dsimp only at hxm h1
    rw [← h2, hxm, lt_div_iff₀ hS'] at h1
    have h3 : D * Real.exp m < L.small := by nlinarith [Real.exp_pos m]
    show expReal L _ = some 0
    unfold expReal
    dsimp only
    rw [hexp, if_pos (by have := L.small_le; have := L.big_ge; linarith)]
    unfold flush
    rw [if_pos h3]
  have hE : (refresh L s t net).energy = none := by
    refine total_none (i := ⟨0, hS⟩) ?_
    show over L (numerator L t (fun x => net (s.states x)) 0) (refresh L s t net).normSq = none
    rw [hnorm]
    cases numerator L t (fun x => net (s.states x)) 0 with
    | none => rfl
    | some z => exact if_pos rfl
  refine ⟨hE, fun y => ?_⟩
  show plus L ((refresh L s t net).energies y) (times L _ (refresh L s t net).energy) = none
  rw [hE]
  cases (refresh L s t net).energies y <;> rfl

theorem amplitudes_shift (s : Setup σ) (net : σ → ℂ) (c : ℝ) (x : Fin s.S) :
    ‖amplitudes s (fun y => net y + (c : ℂ)) x‖ ^ 2 = Real.exp (2 * c) * ‖amplitudes s net x‖ ^ 2 := by
  unfold amplitudes
  rw [norm_exp_sq, norm_exp_sq, ← Real.exp_add]
  congr 1
  simp
  ring

/-- **C101 fails: a factor in front of the wave function matters.** Whatever the network and the operator, every large
enough and every small enough factor makes energy and training targets not-a-number, although the Rayleigh quotient
does not change. -/
theorem C101_violated (L : Limits) (s : Setup σ) (rows : σ → List (σ × ℂ)) (hr : RowWise s rows) (batch : Nat)
    (o : Obj σ) (ho : Obj.new s batch = .ok o) (net : σ → ℂ) :
    ∃ c0 : ℝ, ∀ c : ℝ, c0 < |c| →
      Exact.rayleigh (opMatrix s rows) (amplitudes s fun y => net y + (c : ℂ)) = Exact.rayleigh (opMatrix s rows) (amplitudes s net) ∧
      (refresh L s o.tables fun y => net y + (c : ℂ)).energy = none ∧
      ∀ x, (refresh L s o.tables fun y => net y + (c : ℂ)).coeff x = none := by
  obtain ⟨-, hS, -, -, -, -⟩ := new_ok s rows hr batch o ho
  have hS' : (0 : ℝ) < s.S := Nat.cast_pos.2 hS
  have hray : ∀ c : ℝ, Exact.rayleigh (opMatrix s rows) (amplitudes s fun y => net y + (c : ℂ)) =
      Exact.rayleigh (opMatrix s rows) (amplitudes s net) := by
    intro c
    have e : (amplitudes s fun y => net y + (c : ℂ)) = Complex.exp c • amplitudes s net := by
      funext x
      unfold amplitudes
      rw [Complex.exp_add, Pi.smul_apply, smul_eq_mul, mul_comm]
    unfold Exact.rayleigh
    rw [e, Matrix.mulVec_smul, star_smul, smul_dotProduct, smul_dotProduct, dotProduct_smul, dotProduct_smul]
    have h1 : Complex.exp c ≠ 0 := Complex.exp_ne_zero _
    have h2 : star (Complex.exp (c : ℂ)) ≠ 0 := star_ne_zero.2 h1
    rw [smul_smul, smul_smul, smul_eq_mul, smul_eq_mul, mul_div_mul_left _ _ (mul_ne_zero h2 h1)]
  -- bounds for the squared amplitudes
  let p : Fin s.S → ℝ := fun x => ‖amplitudes s net x‖ ^ 2
  have hp : ∀ x, 0 < p x := fun x => by
    show 0 < ‖amplitudes s net x‖ ^ 2
    unfold amplitudes
    rw [norm_exp_sq]
    exact Real.exp_pos _
  have hsum : ∀ x, p x ≤ ∑ y, p y := fun x => Finset.single_le_sum (fun y _ => (hp y).le) (Finset.mem_univ x)
  have hsum0 : 0 < ∑ y, p y := lt_of_lt_of_le (hp ⟨0, hS⟩) (hsum _)
  refine ⟨max (L.big / p ⟨0, hS⟩) ((∑ y, p y) * s.S / L.small), fun c hc => ⟨hray c, ?_⟩⟩
  have hb := lt_of_le_of_lt (le_max_left _ _) hc
  have hsm := lt_of_le_of_lt (le_max_right _ _) hc
  have hexp : |c| < Real.exp (2 * |c|) := by
    have := Real.add_one_le_exp (2 * |c|)
    have := abs_nonneg c
    linarith
  rcases le_total 0 c with h0 | h0
  · rw [abs_of_nonneg h0] at hb hexp
    refine C101_violated_overflow L s rows hr batch o ho _ ⟨0, hS⟩ ?_
    rw [amplitudes_shift]
    rw [div_lt_iff₀ (hp _)] at hb
    exact hb.trans (mul_lt_mul_of_pos_right hexp (hp _))
  · rw [abs_of_nonpos h0] at hsm hexp
    refine C101_violated_underflow L s hS _ _ fun x => ?_
    rw [amplitudes_shift]
    have e : Real.exp (2 * c) = (Real.exp (2 * -c))⁻¹ := by rw [← Real.exp_neg]; congr 1; ring
    rw [e, div_lt_iff₀ L.small_pos] at *
    have hpos := Real.exp_pos (2 * -c)
    rw [lt_div_iff₀ hS', mul_assoc, inv_mul_lt_iff₀ hpos]
    calc p x * s.S ≤ (∑ y, p y) * s.S := mul_le_mul_of_nonneg_right (hsum x) hS'.le
      _ < -c * L.small := hsm
      _ ≤ _ := mul_le_mul_of_nonneg_right hexp.le L.small_pos.le

/-- Sum of the moduli of the matrix elements of a state. -/
noncomputable def rowNorm (rows : σ → List (σ × ℂ)) (y : σ) : ℝ := ((rows y).map fun r => ‖r.2‖).sum

theorem sum_mel (s : Setup σ) (rows : σ → List (σ × ℂ)) {t : Tables} (ht : TablesOk s rows t) (x : Nat) (hx : x < s.S) :
    ∑ j : Fin t.R, ‖t.mel j x‖ = rowNorm rows (s.states x) := by
  have h := sum_getD_rows (rows (s.states x)) t.R (ht.enough x hx) (fun j => ((‖t.mel j x‖ : ℝ) : ℂ))
    (fun r => ((‖r.2‖ : ℝ) : ℂ)) (fun j hj => by rw [(ht.row x hx j hj).2]) (fun j hj => by rw [ht.pad x hx j hj]; simp)
  unfold rowNorm
  have e : ((rows (s.states x)).map fun r => ((‖r.2‖ : ℝ) : ℂ)).sum = ((((rows (s.states x)).map fun r => ‖r.2‖).sum : ℝ) : ℂ) := by
    generalize rows (s.states x) = l
    induction l with
    | nil => simp
    | cons a l ih => rw [List.map_cons, List.sum_cons, ih, List.map_cons, List.sum_cons, Complex.ofReal_add]
  rw [e, ← Complex.ofReal_sum] at h
  exact Complex.ofReal_injective h

theorem numerator_spec (L : Limits) (s : Setup σ) (rows : σ → List (σ × ℂ)) {t : Tables} (ht : TablesOk s rows t)
    (net : σ → ℂ) (M A : ℝ) (hM : ∀ x : Fin s.S, ‖amplitudes s net x‖ ^ 2 ≤ M) (hMb : M ≤ L.big) (hAM : A * M ≤ L.big)
    (x : Nat) (hx : x < s.S) (hA : rowNorm rows (s.states x) ≤ A) :
    ∃ N, numerator L t (fun x => net (s.states x)) x = some N ∧ ‖N‖ ≤ A * M ∧
      ‖N - ∑ j : Fin t.R, (starRingEnd ℂ) (t.mel j x) *
        ((starRingEnd ℂ) (Complex.exp (net (s.states (t.idx j x)))) * Complex.exp (net (s.states (t.idx 0 x))))‖
        ≤ (A + t.R) * L.small := by
  have hM0 : 0 ≤ M := (sq_nonneg _).trans (hM ⟨x, hx⟩)
  obtain ⟨z, hz⟩ : ∃ z : Fin t.R → ℂ, z = fun j : Fin t.R =>
      (starRingEnd ℂ) (Complex.exp (net (s.states (t.idx j x)))) * Complex.exp (net (s.states (t.idx 0 x))) := ⟨_, rfl⟩
  have hexp : ∀ j : Fin t.R, Complex.exp ((starRingEnd ℂ) (net (s.states (t.idx j x))) + net (s.states (t.idx 0 x))) = z j := by
    intro j
    rw [hz, Complex.exp_add, Complex.exp_conj]
  have hznorm : ∀ j, ‖z j‖ ≤ M := by
    intro j
    have h1 := hM ⟨t.idx j x, ht.code x hx j⟩
    have h2 := hM ⟨t.idx 0 x, ht.code x hx 0⟩
    unfold amplitudes at h1 h2
    dsimp only at h1 h2
    rw [hz]
    dsimp only
    rw [norm_mul, RCLike.norm_conj]
    nlinarith [sq_nonneg (‖Complex.exp (net (s.states (t.idx j x)))‖ - ‖Complex.exp (net (s.states (t.idx 0 x)))‖)]
  choose v hv hverr hvle using fun j => result_some (L := L) ((hznorm j).trans hMb)
  have hAsum : ∑ j : Fin t.R, ‖t.mel j x‖ ≤ A := by rw [sum_mel s rows ht x hx]; exact hA
  have hmel : ∀ j : Fin t.R, ‖t.mel j x‖ ≤ A := fun j =>
    (Finset.single_le_sum (f := fun j : Fin t.R => ‖t.mel j x‖) (fun j _ => norm_nonneg _) (Finset.mem_univ j)).trans hAsum
  have hprod : ∀ j : Fin t.R, ‖(starRingEnd ℂ) (t.mel j x) * v j‖ ≤ ‖t.mel j x‖ * M := by
    intro j
    rw [norm_mul, RCLike.norm_conj]
    exact mul_le_mul_of_nonneg_left ((hvle j).trans (hznorm j)) (norm_nonneg _)
  choose p hp hperr hple using fun j => result_some (L := L)
    (((hprod j).trans (mul_le_mul_of_nonneg_right (hmel j) hM0)).trans hAM)
  have hsumM : ∑ j : Fin t.R, ‖t.mel j x‖ * M ≤ A * M := by
    rw [← Finset.sum_mul]
    exact mul_le_mul_of_nonneg_right hAsum hM0
  have hpsum : ∑ j, ‖p j‖ ≤ A * M := (Finset.sum_le_sum fun j _ => (hple j).trans (hprod j)).trans hsumM
  refine ⟨∑ j, p j, ?_, (norm_sum_le _ _).trans hpsum, ?_⟩
  · unfold numerator
    refine total_some (fun j => ?_) (hpsum.trans hAM)
    dsimp only
    rw [hexp, hv]
    exact hp j
  · have e : ∀ j : Fin t.R, (starRingEnd ℂ) (t.mel j x) *
        ((starRingEnd ℂ) (Complex.exp (net (s.states (t.idx j x)))) * Complex.exp (net (s.states (t.idx 0 x)))) =
        (starRingEnd ℂ) (t.mel j x) * z j := by intro j; rw [hz]
    rw [Finset.sum_congr rfl fun j _ => e j, ← Finset.sum_sub_distrib]
    calc _ ≤ ∑ j : Fin t.R, ‖p j - (starRingEnd ℂ) (t.mel j x) * z j‖ := norm_sum_le _ _
      _ ≤ ∑ j : Fin t.R, (L.small + ‖t.mel j x‖ * L.small) := by
        refine Finset.sum_le_sum fun j _ => ?_
        have h1 : p j - (starRingEnd ℂ) (t.mel j x) * z j =
            (p j - (starRingEnd ℂ) (t.mel j x) * v j) + (starRingEnd ℂ) (t.mel j x) * (v j - z j) := by ring
        rw [h1]
        refine (norm_add_le _ _).trans (add_le_add (hperr j) ?_)
        rw [norm_mul, RCLike.norm_conj]
        exact mul_le_mul_of_nonneg_left (hverr j) (norm_nonneg _)
      _ = t.R * L.small + (∑ j : Fin t.R, ‖t.mel j x‖) * L.small := by
        rw [Finset.sum_add_distrib, Finset.sum_mul]
        simp
      _ ≤ _ := by
        have := mul_le_mul_of_nonneg_right hAsum L.small_pos.le
        linarith

theorem refresh_close (L : Limits) (s : Setup σ) (rows : σ → List (σ × ℂ)) (hr : RowWise s rows)
    (hH : (opMatrix s rows).IsHermitian) (batch : Nat) (o : Obj σ) (ho : Obj.new s batch = .ok o) (net : σ → ℂ) (M A : ℝ)
    (hM : ∀ x : Fin s.S, ‖amplitudes s net x‖ ^ 2 ≤ M) (hMax : ∃ x : Fin s.S, ‖amplitudes s net x‖ ^ 2 = M)
    (hA : ∀ x : Fin s.S, rowNorm rows (s.states x) ≤ A) (hsmall : L.small ≤ M)
    (hSM : s.S * M ≤ L.big) (hAM : A * M ≤ L.big) (hSA : s.S * A ≤ L.big) :
    ∃ (E : ℂ) (e : Fin s.S → ℂ), (refresh L s o.tables net).energy = some E ∧ ‖E‖ ≤ s.S * A ∧
      (∀ x : Fin s.S, (refresh L s o.tables net).energies x = some (e x) ∧ ‖e x‖ ≤ A ∧
        ‖e x - (after o [] net).arrays.energies x‖ ≤ L.small * ((A + o.tables.R) / M + A * s.S + 1)) ∧
      ‖E - (after o [] net).arrays.energy‖ ≤ s.S * (L.small * ((A + o.tables.R) / M + A * s.S + 1)) ∧
      (after o [] net).arrays.energy = Exact.rayleigh (opMatrix s rows) (amplitudes s net) := by
  obtain ⟨hset, hS, hbs, ⟨q, hq⟩, hok, -⟩ := new_ok s rows hr batch o ho
  have hS1 : (1 : ℝ) ≤ s.S := by exact_mod_cast hS
  have hMpos : 0 < M := lt_of_lt_of_le L.small_pos hsmall
  have hMb : M ≤ L.big := by nlinarith
  have hA0 : 0 ≤ A := le_trans (List.sum_nonneg (by
    intro r hr
    obtain ⟨z, -, rfl⟩ := List.mem_map.1 hr
    exact norm_nonneg _)) (hA ⟨0, hS⟩)
  have hAb : A ≤ L.big := by nlinarith
  -- the norm
  obtain ⟨m, D, ⟨x0, hx0, hxm⟩, hle, hD1, hDS, hDle, hDge, -, -, hexp⟩ :=
    logNorm_spec L hS fun x => (net (s.states x) * 2).re
  have htwo : ∀ x, (net (s.states x) * 2).re = 2 * (net (s.states x)).re := by intro x; simp; ring
  have hampl : ∀ x : Fin s.S, ‖amplitudes s net x‖ ^ 2 = Real.exp ((net (s.states x) * 2).re) := by
    intro x
    unfold amplitudes
    rw [norm_exp_sq, htwo]
  have hm : Real.exp m = M := by
    apply le_antisymm
    · have := hM ⟨x0, hx0⟩
      rw [hampl] at this
      rw [← hxm]
      exact this
    · obtain ⟨x, hx⟩ := hMax
      rw [← hx, hampl]
      exact Real.exp_le_exp.2 (hle x x.isLt)
  rw [hm] at hexp
  obtain ⟨T, hT⟩ : ∃ T, T = ∑ x : Fin s.S, Real.exp ((net (s.states x) * 2).re - m) := ⟨_, rfl⟩
  rw [← hT] at hDle hDge
  have hns : normSq (amplitudes s net) = T * M := by rw [normSq_amplitudes s net m, ← hT, hm]
  have hDM1 : M ≤ D * M := by nlinarith
  have hnorm : (refresh L s o.tables net).normSq = some (D * M) := by
    show expReal L _ = _
    unfold expReal
    dsimp only
    rw [hexp, if_pos (by nlinarith), flush_eq (hsmall.trans hDM1)]
  -- the local energies
  have hcl : Closed s o.tables net (machineUpdated s o.bs o.tables net .init) :=
    machineUpdated_closed s o.bs hbs q hq hS o.tables net .init
  obtain ⟨K, hK⟩ : ∃ K, K = L.small * ((A + o.tables.R) / M + A * s.S + 1) := ⟨_, rfl⟩
  have hstate : ∀ x : Fin s.S, ∃ e, (refresh L s o.tables net).energies x = some e ∧ ‖e‖ ≤ A ∧
      ‖e - (machineUpdated s o.bs o.tables net .init).energies x‖ ≤ K := by
    intro x
    obtain ⟨N, hN, hNle, hNerr⟩ := numerator_spec L s rows hok net M A hM hMb hAM x x.isLt (hA x)
    have hex := hcl.energies x x.isLt (fun j _ => hok.code x x.isLt j) (hok.code x x.isLt 0)
    obtain ⟨G, hG⟩ : ∃ G, G = ∑ j : Fin o.tables.R, (starRingEnd ℂ) (o.tables.mel j x) *
        ((starRingEnd ℂ) (Complex.exp (net (s.states (o.tables.idx j x)))) *
          Complex.exp (net (s.states (o.tables.idx 0 x)))) := ⟨_, rfl⟩
    rw [← hG] at hex hNerr
    have hGle : ‖G‖ ≤ A * M := by
      rw [hG]
      refine (norm_sum_le _ _).trans ?_
      have h1 : ∑ j : Fin o.tables.R, ‖o.tables.mel j x‖ * M ≤ A * M := by
        rw [← Finset.sum_mul, sum_mel s rows hok x x.isLt]
        exact mul_le_mul_of_nonneg_right (hA x) hMpos.le
      refine (Finset.sum_le_sum fun j _ => ?_).trans h1
      have h1 := hM ⟨o.tables.idx j x, hok.code x x.isLt j⟩
      have h2 := hM ⟨o.tables.idx 0 x, hok.code x x.isLt 0⟩
      unfold amplitudes at h1 h2
      dsimp only at h1 h2
      rw [norm_mul, norm_mul, RCLike.norm_conj, RCLike.norm_conj]
      refine mul_le_mul_of_nonneg_left ?_ (norm_nonneg _)
      nlinarith [sq_nonneg (‖Complex.exp (net (s.states (o.tables.idx j x)))‖ -
        ‖Complex.exp (net (s.states (o.tables.idx 0 x)))‖)]
    have hcast : ‖((D * M : ℝ) : ℂ)‖ = D * M := by
      rw [Complex.norm_real, Real.norm_eq_abs, abs_of_pos (by linarith)]
    have hquot : ‖N / ((D * M : ℝ) : ℂ)‖ ≤ A := by
      rw [norm_div, hcast, div_le_iff₀ (by linarith)]
      exact hNle.trans (mul_le_mul_of_nonneg_left hDM1 hA0)
    obtain ⟨e, he, heerr, hele⟩ := result_some (L := L) (hquot.trans hAb)
    refine ⟨e, ?_, hele.trans hquot, ?_⟩
    · show over L (numerator L o.tables (fun x => net (s.states x)) x) (refresh L s o.tables net).normSq = _
      rw [hnorm, hN]
      show (if D * M = 0 then none else result L (N / ((D * M : ℝ) : ℂ))) = _
      rw [if_neg (by linarith), he]
    · rw [hex, show (∑ y : Fin s.S, ‖Complex.exp (net (s.states y))‖ ^ 2) = T * M from hns]
      have hTpos : 0 < T := by linarith
      have hTc : ((T * M : ℝ) : ℂ) ≠ 0 := by
        rw [Complex.ofReal_ne_zero]
        positivity
      have hDc : ((D * M : ℝ) : ℂ) ≠ 0 := by
        rw [Complex.ofReal_ne_zero]
        have : 0 < D := by linarith
        positivity
      have e1 : e - G / ((T * M : ℝ) : ℂ) = (e - N / ((D * M : ℝ) : ℂ)) + (N - G) / ((D * M : ℝ) : ℂ) +
          G * (((T - D : ℝ) : ℂ) / ((T * M * D : ℝ) : ℂ)) := by
        have hMc : (M : ℂ) ≠ 0 := Complex.ofReal_ne_zero.2 hMpos.ne'
        have hDc' : (D : ℂ) ≠ 0 := Complex.ofReal_ne_zero.2 (by linarith)
        have hTc' : (T : ℂ) ≠ 0 := Complex.ofReal_ne_zero.2 hTpos.ne'
        push_cast
        field_simp
        ring
      have b2 : ‖(N - G) / ((D * M : ℝ) : ℂ)‖ ≤ (A + o.tables.R) * L.small / M := by
        rw [norm_div, hcast]
        refine div_le_div₀ ?_ hNerr hMpos hDM1
        exact mul_nonneg (add_nonneg hA0 (Nat.cast_nonneg _)) L.small_pos.le
      have b3 : ‖G * (((T - D : ℝ) : ℂ) / ((T * M * D : ℝ) : ℂ))‖ ≤ A * s.S * L.small := by
        rw [norm_mul, norm_div, Complex.norm_real, Complex.norm_real, Real.norm_eq_abs, Real.norm_eq_abs,
          abs_of_nonneg (by linarith), abs_of_pos (by positivity)]
        have hTD : 1 ≤ T * D := by nlinarith
        have h1 : (T - D) / (T * M * D) ≤ s.S * L.small / M := by
          refine div_le_div₀ ?_ (by linarith) hMpos ?_
          · exact mul_nonneg (Nat.cast_nonneg _) L.small_pos.le
          · nlinarith
        have h0 : 0 ≤ (T - D) / (T * M * D) := div_nonneg (by linarith) (by positivity)
        calc ‖G‖ * ((T - D) / (T * M * D)) ≤ (A * M) * (s.S * L.small / M) := mul_le_mul hGle h1 h0 (by positivity)
          _ = _ := by field_simp
      rw [e1]
      refine (norm_add_le _ _).trans ?_
      refine (add_le_add (norm_add_le _ _) le_rfl).trans ?_
      have : K = L.small + (A + o.tables.R) * L.small / M + A * s.S * L.small := by rw [hK]; ring
      linarith
  choose e he hele heerr using hstate
  have hsum : ∑ x, ‖e x‖ ≤ s.S * A := by
    refine (Finset.sum_le_sum fun x _ => hele x).trans ?_
    simp
  have hE := (C20_exact_energy s rows hr hH batch o ho [] net).1
  have hafter : (after o [] net).arrays = machineUpdated s o.bs o.tables net .init := by
    have h1 : o.arrays = .init := by
      unfold Obj.new at ho
      cases hb : setBatchSize s.S batch with
      | error e => rw [hb] at ho; cases ho
      | ok bs =>
        rw [hb] at ho
        simp only [Except.bind] at ho
        cases hc : buildConnections s bs with
        | error e => rw [hc] at ho; cases ho
        | ok t =>
          rw [hc] at ho
          injection ho with ho
          rw [← ho]
    show machineUpdated o.setup o.bs o.tables net o.arrays = _
    rw [hset, h1]
  have hE2 : (after o [] net).arrays.energy = ∑ x : Fin s.S, (machineUpdated s o.bs o.tables net .init).energies x := by
    rw [hafter]
    exact hcl.energy
  refine ⟨∑ x, e x, e, total_some he (hsum.trans hSA), (norm_sum_le _ _).trans hsum, fun x => ⟨he x, hele x, ?_⟩, ?_, hE⟩
  · rw [hafter, ← hK]
    exact heerr x
  · rw [hE2, ← Finset.sum_sub_distrib, ← hK]
    refine (norm_sum_le _ _).trans ((Finset.sum_le_sum fun x _ => heerr x).trans ?_)
    simp

/-- **C101, proved part: the energy.** Let `M` be the largest squared amplitude and `A` bound the matrix elements. If `M`
is not below the smallest number and `S M`, `A M` and `S A` are not above the largest one, then the energy is a
number and differs from the Rayleigh quotient by a multiple of the smallest number. (With `float64` and the values
`M = 10^±200`, `A`, `S` and `R` below `10^10` by less than `10^-90`.) -/
theorem C101_energy_partial (L : Limits) (s : Setup σ) (rows : σ → List (σ × ℂ)) (hr : RowWise s rows)
    (hH : (opMatrix s rows).IsHermitian) (batch : Nat) (o : Obj σ) (ho : Obj.new s batch = .ok o) (net : σ → ℂ) (M A : ℝ)
    (hM : ∀ x : Fin s.S, ‖amplitudes s net x‖ ^ 2 ≤ M) (hMax : ∃ x : Fin s.S, ‖amplitudes s net x‖ ^ 2 = M)
    (hA : ∀ x : Fin s.S, rowNorm rows (s.states x) ≤ A) (hsmall : L.small ≤ M)
    (hSM : s.S * M ≤ L.big) (hAM : A * M ≤ L.big) (hSA : s.S * A ≤ L.big) :
    ∃ E, (refresh L s o.tables net).energy = some E ∧
      ‖E - Exact.rayleigh (opMatrix s rows) (amplitudes s net)‖ ≤
        s.S * (L.small * ((A + o.tables.R) / M + A * s.S + 1)) := by
  obtain ⟨E, e, h1, -, -, h2, h3⟩ := refresh_close L s rows hr hH batch o ho net M A hM hMax hA hsmall hSM hAM hSA
  exact ⟨E, h1, h3 ▸ h2⟩

/-- **C101, proved part: the targets.** Under the same conditions (with one more `A` of room) every target is a number and
differs by a multiple of the smallest number from the target in exact arithmetic, about which C21 proves that the
training follows the gradient of the energy. -/
theorem C101_targets_partial (L : Limits) (s : Setup σ) (rows : σ → List (σ × ℂ)) (hr : RowWise s rows)
    (hH : (opMatrix s rows).IsHermitian) (batch : Nat) (o : Obj σ) (ho : Obj.new s batch = .ok o) (net : σ → ℂ) (M A : ℝ)
    (hM : ∀ x : Fin s.S, ‖amplitudes s net x‖ ^ 2 ≤ M) (hMax : ∃ x : Fin s.S, ‖amplitudes s net x‖ ^ 2 = M)
    (hA : ∀ x : Fin s.S, rowNorm rows (s.states x) ≤ A) (hsmall : L.small ≤ M)
    (hSM : s.S * M ≤ L.big) (hAM : A * M ≤ L.big) (hSA : (s.S + 1) * A ≤ L.big) (x : Fin s.S) :
    ∃ y, (refresh L s o.tables net).coeff x = some y ∧
      ‖y - (after o [] net).arrays.coeff x‖ ≤
        (s.S + 1) * (L.small * ((A + o.tables.R) / M + A * s.S + 1)) + (s.S + 1) * L.small * (s.S * A) + L.small := by
  obtain ⟨-, hS, -, -, -, -⟩ := new_ok s rows hr batch o ho
  have hA0 : 0 ≤ A := le_trans (List.sum_nonneg (by
    intro r hr
    obtain ⟨z, -, rfl⟩ := List.mem_map.1 hr
    exact norm_nonneg _)) (hA ⟨0, hS⟩)
  obtain ⟨E, e, h1, hEle, hst, hEerr, -⟩ := refresh_close L s rows hr hH batch o ho net M A hM hMax hA hsmall hSM hAM (by linarith)
  obtain ⟨he, hele, heerr⟩ := hst x
  obtain ⟨hp0, hp1, hperr⟩ := (C101_probabilities_partial L s hS o.tables net).1 x
  obtain ⟨p, hp⟩ : ∃ p, p = (refresh L s o.tables net).probs x := ⟨_, rfl⟩
  rw [← hp] at hp0 hp1 hperr
  have hres : Result s (opMatrix s rows) net (after o [] net).arrays := by
    have hset := (new_ok s rows hr batch o ho).1
    show Result s (opMatrix s rows) net (machineUpdated o.setup o.bs o.tables net o.arrays)
    rw [hset]
    exact result_update s rows hr batch o ho _ net
  rw [hres.coeff, hres.probs]
  obtain ⟨p', hp'⟩ : ∃ p', p' = ‖amplitudes s net x‖ ^ 2 / normSq (amplitudes s net) := ⟨_, rfl⟩
  rw [← hp'] at hperr ⊢
  have hp0' : 0 ≤ p' := by
    rw [hp']
    exact div_nonneg (sq_nonneg _) (Finset.sum_nonneg fun _ _ => sq_nonneg _)
  have hp1' : p' ≤ 1 := by
    rw [hp']
    refine div_le_one_of_le₀ ?_ (Finset.sum_nonneg fun _ _ => sq_nonneg _)
    exact Finset.single_le_sum (f := fun x : Fin s.S => ‖amplitudes s net x‖ ^ 2) (fun _ _ => sq_nonneg _) (Finset.mem_univ x)
  have hS0 : (0 : ℝ) ≤ s.S := Nat.cast_nonneg _
  have hSA0 : 0 ≤ s.S * A := mul_nonneg hS0 hA0
  have hpE : ‖-(p : ℂ) * E‖ ≤ s.S * A := by
    rw [norm_mul, norm_neg, Complex.norm_real, Real.norm_eq_abs, abs_of_nonneg hp0]
    nlinarith [norm_nonneg E]
  obtain ⟨v, hv, hverr, hvle⟩ := result_some (L := L) (hpE.trans (by linarith))
  have hsum : InRange L (e x + v) := inRange_of_norm ((norm_add_le _ _).trans (by linarith))
  refine ⟨e x + v, ?_, ?_⟩
  · show plus L ((refresh L s o.tables net).energies x) (times L (-((refresh L s o.tables net).probs x : ℂ)) (refresh L s o.tables net).energy) = _
    rw [he, h1, ← hp]
    show plus L (some (e x)) (result L (-(p : ℂ) * E)) = _
    rw [hv]
    unfold plus
    simp only [Option.bind_some]
    rw [if_pos hsum]
  · obtain ⟨K, hK⟩ : ∃ K, K = L.small * ((A + o.tables.R) / M + A * s.S + 1) := ⟨_, rfl⟩
    rw [← hK] at heerr hEerr ⊢
    have e1 : e x + v - ((after o [] net).arrays.energies x - (p' : ℂ) * (after o [] net).arrays.energy) =
        (e x - (after o [] net).arrays.energies x) + (v - -(p : ℂ) * E) + (-((p - p' : ℝ) : ℂ) * E) +
          (-(p' : ℂ) * (E - (after o [] net).arrays.energy)) := by
      push_cast
      ring
    have b3 : ‖-((p - p' : ℝ) : ℂ) * E‖ ≤ (s.S + 1) * L.small * (s.S * A) := by
      rw [norm_mul, norm_neg, Complex.norm_real, Real.norm_eq_abs]
      exact mul_le_mul hperr hEle (norm_nonneg _) (mul_nonneg (by linarith) L.small_pos.le)
    have b4 : ‖-(p' : ℂ) * (E - (after o [] net).arrays.energy)‖ ≤ s.S * K := by
      rw [norm_mul, norm_neg, Complex.norm_real, Real.norm_eq_abs, abs_of_nonneg hp0']
      nlinarith [norm_nonneg (E - (after o [] net).arrays.energy)]
    rw [e1]
    refine (norm_add_le _ _).trans ?_
    refine (add_le_add (norm_add_le _ _) le_rfl).trans ?_
    refine (add_le_add (add_le_add (norm_add_le _ _) le_rfl) le_rfl).trans ?_
    linarith

/-- **C101 fails silently in between:** if all amplitudes are equal, their squares still fit but the norm does not,
the reported energy is zero, for every operator. -/
theorem C101_violated_silent (L : Limits) (s : Setup σ) (rows : σ → List (σ × ℂ)) (hr : RowWise s rows) (batch : Nat)
    (o : Obj σ) (ho : Obj.new s batch = .ok o) (net : σ → ℂ) (M A : ℝ) (hM : ∀ x : Fin s.S, ‖amplitudes s net x‖ ^ 2 = M)
    (hA : ∀ x : Fin s.S, rowNorm rows (s.states x) ≤ A) (hMb : M ≤ L.big) (hAM : A * M ≤ L.big) (hSM : L.big < s.S * M) :
    (refresh L s o.tables net).energy = some 0 := by
  obtain ⟨-, hS, -, -, hok, -⟩ := new_ok s rows hr batch o ho
  obtain ⟨m, D, ⟨x0, hx0, hxm⟩, hle, -, -, -, -, hD, -, hexp⟩ :=
    logNorm_spec L hS fun x => (net (s.states x) * 2).re
  have hampl : ∀ x : Fin s.S, Real.exp ((net (s.states x) * 2).re) = M := by
    intro x
    rw [← hM x]
    unfold amplitudes
    rw [norm_exp_sq]
    congr 1
    simp
    ring
  have hm : Real.exp m = M := by rw [← hampl ⟨x0, hx0⟩, ← hxm]
  have hDS : D = s.S := by
    rw [hD]
    have : ∀ x : Fin s.S, flush L (Real.exp ((net (s.states x) * 2).re - m)) = 1 := by
      intro x
      have hpos : M ≠ 0 := by rw [← hm]; exact (Real.exp_pos _).ne'
      rw [Real.exp_sub, hampl, hm, div_self hpos, flush_eq L.small_le]
    rw [Finset.sum_congr rfl fun x _ => this x]
    simp
  have hnorm : (refresh L s o.tables net).normSq = none := by
    show expReal L _ = _
    unfold expReal
    dsimp only
    rw [hexp, hm, hDS, if_neg (not_le.2 hSM)]
  have hzero : ∑ _x : Fin s.S, (0 : ℂ) = 0 := Finset.sum_const_zero
  rw [← hzero]
  refine total_some (fun x => ?_) ?_
  · obtain ⟨N, hN, -⟩ := numerator_spec L s rows hok net M A (fun x => (hM x).le) hMb hAM x x.isLt (hA x)
    show over L (numerator L o.tables (fun x => net (s.states x)) x) (refresh L s o.tables net).normSq = _
    rw [hnorm, hN]
    rfl
  · rw [norm_zero, Finset.sum_const_zero]
    exact zero_le_one.trans L.big_ge

end

/-! ### Concrete cases -/

/-- `float64`, with a power of two as largest number. -/
noncomputable def double : Limits where
  big := 2 ^ 1023
  small := (2 ^ 1074)⁻¹
  small_pos := by positivity
  small_le := inv_le_one_of_one_le₀ (one_le_pow₀ (by norm_num))
  big_ge := one_le_pow₀ (by norm_num)

open Verif.Operators in
theorem rowNorm_field (n : Nat) (y : Config (Fin n)) :
    rowNorm (fun s => pairs (isingFindConn1 (.float 1) 0 true (fun _ : Fin 1 => s) 0)) y = n := by
  unfold rowNorm
  dsimp only
  rw [isingFindConn1_eq]
  simp [pairs, Field.store, Field.val, Function.comp_def]

open Verif.Operators in
/-- **C101 fails silently in concrete cases:** `n` spins in a transverse field of strength one, all amplitudes equal. The
energy is `-n`, but for a suitable size of the amplitudes zero is reported. -/
theorem C101_violated_silent_field (L : Limits) (n : Nat) (hn0 : 0 < n) (hn : n ≤ 31) :
    ∃ (o : Obj (Config (Fin n))) (net : Config (Fin n) → ℂ),
      let s := spinSetup (Equiv.refl (Fin n)) (fun _ sample => isingFindConn1 (.float 1) 0 true sample) (n + 1)
      let rows := fun s => pairs (isingFindConn1 (.float 1) 0 true (fun _ : Fin 1 => s) 0)
      Obj.new s 1 = .ok o ∧ Exact.rayleigh (opMatrix s rows) (amplitudes s net) = -(n : ℂ) ∧
      (refresh L s o.tables net).energy = some 0 := by
  obtain ⟨o, ho, -⟩ := C20_ising_chain n hn 1 0 true 1 one_pos (Or.inr (one_dvd _))
  have hrows := rowsOf_ising_chain n 1 0 true
  have hr := rowWise_of (Equiv.refl (Fin n)) hn hrows
  have hn' : (0 : ℝ) < n := Nat.cast_pos.2 hn0
  have hn1 : (1 : ℝ) ≤ n := by exact_mod_cast hn0
  have hbig : 0 < L.big := lt_of_lt_of_le one_pos L.big_ge
  have hM : ∀ z : ℂ, z = ((Real.log (L.big / n) / 2 : ℝ) : ℂ) → ‖Complex.exp z‖ ^ 2 = L.big / n := by
    rintro z rfl
    rw [norm_exp_sq, Complex.ofReal_re, mul_div_cancel₀ _ two_ne_zero, Real.exp_log (by positivity)]
  refine ⟨o, fun _ => ((Real.log (L.big / n) / 2 : ℝ) : ℂ), ho, ?_, ?_⟩
  · obtain ⟨h1, -, -, h4⟩ := C20_exact_energy _ _ hr (opMatrix_hermitian _ hn hrows) 1 o ho []
      fun _ => ((Real.log (L.big / n) / 2 : ℝ) : ℂ)
    rw [← h1]
    refine (h4 (-(n : ℂ)) ?_).1
    funext x
    have := opMatrix_mulVec (Equiv.refl (Fin n)) hn hrows
      (fun _ => Complex.exp ((Real.log (L.big / n) / 2 : ℝ) : ℂ)) x
    refine this.trans ?_
    rw [C06_ising_chain 1 0 true]
    unfold tfim pauliX amplitudes
    simp
  · refine C101_violated_silent L _ _ hr 1 o ho _ (L.big / n) n (fun x => hM _ rfl) (fun x => (rowNorm_field n _).le) ?_ ?_ ?_
    · exact div_le_self hbig.le hn1
    · exact (mul_div_cancel₀ _ hn'.ne').le
    · show L.big < ((2 ^ n : Nat) : ℝ) * (L.big / n)
      rw [← mul_div_assoc, lt_div_iff₀ hn', mul_comm]
      refine mul_lt_mul_of_pos_right ?_ hbig
      exact_mod_cast Nat.lt_two_pow_self

open Verif.Operators in
/-- The hypotheses of `C101_energy_partial` are met: ten spins in a field, all amplitudes one, `float64`. -/
example : ∃ o E,
    let s := spinSetup (Equiv.refl (Fin 10)) (fun _ sample => isingFindConn1 (.float 1) 0 true sample) 11
    Obj.new s 1 = .ok o ∧ (refresh double s o.tables fun _ => 0).energy = some E := by
  obtain ⟨o, ho, -⟩ := C20_ising_chain 10 (by norm_num) 1 0 true 1 one_pos (Or.inr (one_dvd _))
  have hrows := rowsOf_ising_chain 10 1 0 true
  have hr := rowWise_of (Equiv.refl (Fin 10)) (by norm_num) hrows
  have hone : ∀ x, ‖amplitudes (spinSetup (Equiv.refl (Fin 10)) (fun _ sample => isingFindConn1 (.float 1) 0 true sample) 11)
      (fun _ => 0) x‖ ^ 2 = 1 := by
    intro x
    unfold amplitudes
    simp
  have hbig : (10240 : ℝ) ≤ double.big := by
    show (10240 : ℝ) ≤ 2 ^ 1023
    calc (10240 : ℝ) ≤ 2 ^ 20 := by norm_num
      _ ≤ 2 ^ 1023 := pow_le_pow_right₀ (by norm_num) (by norm_num)
  have hS : (((spinSetup (Equiv.refl (Fin 10)) (fun _ sample => isingFindConn1 (.float 1) 0 true sample) 11).S : Nat) : ℝ) = 1024 := by
    show ((2 ^ 10 : Nat) : ℝ) = 1024
    norm_num
  obtain ⟨E, hE, -⟩ := C101_energy_partial double _ _ hr (opMatrix_hermitian _ (by norm_num) hrows) 1 o ho (fun _ => 0) 1 10
    (fun x => (hone x).le) ⟨⟨0, by show 0 < 2 ^ 10; norm_num⟩, hone _⟩ (fun x => by rw [rowNorm_field]; norm_num) double.small_le
    (by rw [hS]; linarith) (by linarith) (by rw [hS]; linarith)
  exact ⟨o, E, ho, hE⟩

end Verif.Energy.Range
