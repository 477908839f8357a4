import Verif.Symmetry.Lower
import Verif.Samplers.ConvergeHam
import Mathlib.Analysis.Normed.Module.FiniteDimension
import Mathlib.Topology.Order.Compact

/-!
# Property C141: positive amplitudes suffice

For the Hamiltonians of the library whose off-diagonal elements are not positive, dropping the phases of a wave function does
not raise its energy, and the state of lowest energy has no phases at all. Models with real positive amplitudes lose nothing.
-/
namespace Verif.Ensemble

open Verif.Operators
open Verif.Energy

variable {ι : Type} [DecidableEq ι] [Fintype ι]

/-! ### Specification -/

/-- A wave function other than zero that vanishes outside `P`. -/
structure Inside (P : Finset (Config ι)) (ψ : Wave ι) : Prop where
  outside : ∀ s ∈ allSpins ι, s ∉ P → ψ s = 0
  nonzero : ∃ s ∈ P, ψ s ≠ 0

/-- A state of the lowest energy `⟨ψ|H|ψ⟩ / ⟨ψ|ψ⟩` among the wave functions inside `P`. -/
structure Lowest (conn : Config ι → List (Row ι ℝ)) (P : Finset (Config ι)) (ψ : Wave ι) : Prop where
  inside : Inside P ψ
  least : ∀ φ, Inside P φ → energyOf conn ψ ≤ energyOf conn φ

/-- The configurations in `P` have one state of lowest energy, up to a factor, and up to a factor its amplitudes are
positive. -/
structure OnePositiveState (conn : Config ι → List (Row ι ℝ)) (P : Finset (Config ι)) : Prop where
  exists_ : ∃ ψ, Lowest conn P ψ
  positive : ∀ ψ, Lowest conn P ψ → ∃ c : ℂ, ‖c‖ = 1 ∧ ∀ s ∈ P, 0 < ‖ψ s‖ ∧ ψ s = c * ‖ψ s‖
  unique : ∀ ψ φ, Lowest conn P ψ → Lowest conn P φ → ∃ c : ℂ, c ≠ 0 ∧ ∀ s ∈ P, φ s = c * ψ s

/-! ### Proof -/

structure LowestH (H : Wave ι → Wave ι) (P : Finset (Config ι)) (ψ : Wave ι) : Prop where
  inside : Inside P ψ
  least : ∀ φ, Inside P φ → energyH H ψ ≤ energyH H φ

/-- Moves with positive weight connect the configurations in `P`. -/
def Connected (P : Finset (Config ι)) (moves : List ((Config ι → ℝ) × (Config ι → Config ι))) : Prop :=
  ∀ s ∈ P, ∀ t ∈ P, Relation.ReflTransGen (fun a b => a ∈ P ∧ b ∈ P ∧ ∃ mv ∈ moves, 0 < mv.1 a ∧ b = mv.2 a) s t

theorem inside_norm_pos {P : Finset (Config ι)} (hP : P ⊆ allSpins ι) {ψ : Wave ι} (h : Inside P ψ) :
    0 < ∑ s ∈ allSpins ι, ‖ψ s‖ ^ 2 := by
  obtain ⟨s, hs, hne⟩ := h.nonzero
  refine Finset.sum_pos' (fun s _ => by positivity) ⟨s, hP hs, ?_⟩
  have := norm_pos_iff.2 hne
  positivity

theorem inside_abs {P : Finset (Config ι)} {ψ : Wave ι} (h : Inside P ψ) : Inside P fun s => ((‖ψ s‖ : ℝ) : ℂ) := by
  refine ⟨fun s hs hn => by rw [h.outside s hs hn]; simp, ?_⟩
  obtain ⟨s, hs, hne⟩ := h.nonzero
  exact ⟨s, hs, by simpa using hne⟩

/-- Zeros of a lowest state spread along the moves. -/
theorem zero_spreads {H : Wave ι → Wave ι} {D moves} (hH : Stoquastic H D moves) {P : Finset (Config ι)} (hP : P ⊆ allSpins ι)
    {ψ : Wave ι} (hψ : LowestH H P ψ) {s : Config ι} (hs : s ∈ P) (h0 : ψ s = 0) :
    ∀ mv ∈ moves, 0 < mv.1 s → ψ (mv.2 s) = 0 := by
  set φ : Config ι → ℝ := fun s => ‖ψ s‖ with hφ
  have φ0 : ∀ s, 0 ≤ φ s := fun s => norm_nonneg _
  set E := energyH H ψ with hE
  have N0 := inside_norm_pos hP hψ.inside
  set N := ∑ s ∈ allSpins ι, φ s ^ 2 with hN
  have hEφ : form D moves φ ≤ E * N := by
    have := energyH_abs hH ψ
    rw [energyH_real hH, div_le_iff₀ N0] at this
    exact this
  have hspin : ∀ s ∈ P, IsSpin s := fun s hs => (mem_allSpins s).1 (hP hs)
  set W := (moves.map fun mv => mv.1 s * φ (mv.2 s)).sum with hW
  have key : ∀ t : ℝ, 0 < t → W ≤ (D s - E) * t := by
    intro t ht
    set r : Config ι → ℝ := fun a => if a = s then t else φ a with hr
    have rφ : ∀ a, φ a ≤ r a := by
      intro a
      simp only [hr]
      split
      · next h => rw [h]; simp only [hφ, h0, norm_zero]; exact ht.le
      · exact le_refl _
    have rs : r s = t := by simp [hr]
    have φs : φ s = 0 := by simp [hφ, h0]
    have hin : Inside P fun a => (r a : ℂ) := by
      refine ⟨fun a ha hn => ?_, s, hs, ?_⟩
      · have : a ≠ s := fun e => hn (e ▸ hs)
        simp only [hr, if_neg this, hφ, hψ.inside.outside a ha hn, norm_zero, Complex.ofReal_zero]
      · rw [rs]; exact_mod_cast ht.ne'
    have hle := hψ.least _ hin
    have hNr : ∑ a ∈ allSpins ι, r a ^ 2 = N + t ^ 2 := by
      have e : ∀ a, r a ^ 2 = φ a ^ 2 + if a = s then t ^ 2 else 0 := by
        intro a
        by_cases h : a = s
        · rw [h, rs, φs, if_pos rfl]; ring
        · simp only [hr, if_neg h, add_zero]
      rw [Finset.sum_congr rfl fun a _ => e a, Finset.sum_add_distrib, Finset.sum_ite_eq' , if_pos (hP hs)]
    have hNp : 0 < N + t ^ 2 := by positivity
    rw [energyH_real hH, hNr, le_div_iff₀ hNp] at hle
    have hform : form D moves r ≤ form D moves φ + (D s * t ^ 2 - t * W) := by
      have e : ∀ a ∈ allSpins ι, D a * r a ^ 2 - (moves.map fun mv => mv.1 a * (r a * r (mv.2 a))).sum ≤
          (D a * φ a ^ 2 - (moves.map fun mv => mv.1 a * (φ a * φ (mv.2 a))).sum) + if a = s then D s * t ^ 2 - t * W else 0 := by
        intro a ha
        have ha' := (mem_allSpins a).1 ha
        by_cases h : a = s
        · subst h
          rw [rs, φs, if_pos rfl]
          have z : (moves.map fun mv => mv.1 a * (0 * φ (mv.2 a))).sum = 0 := by
            simp
          have w : t * W ≤ (moves.map fun mv => mv.1 a * (t * r (mv.2 a))).sum := by
            rw [hW, ← List.sum_map_mul_left]
            refine List.sum_le_sum fun mv hmv => ?_
            have a1 := hH.nonneg mv hmv a ha'
            have := mul_le_mul_of_nonneg_left (rφ (mv.2 a)) (mul_nonneg ht.le a1)
            linarith
          rw [z]
          linarith
        · rw [if_neg h, add_zero]
          have ra : r a = φ a := by simp only [hr, if_neg h]
          rw [ra]
          refine sub_le_sub_left (List.sum_le_sum fun mv hmv => ?_) _
          exact mul_le_mul_of_nonneg_left (mul_le_mul_of_nonneg_left (rφ _) (φ0 a)) (hH.nonneg mv hmv a ha')
      unfold form
      refine (Finset.sum_le_sum e).trans (le_of_eq ?_)
      rw [Finset.sum_add_distrib, Finset.sum_ite_eq', if_pos (hP hs)]
    have h1 : t * W ≤ t * ((D s - E) * t) := by nlinarith
    exact le_of_mul_le_mul_left h1 ht
  have W0 : W ≤ 0 := by
    by_contra hc
    push Not at hc
    have h1 := key (W / (2 * (|D s - E| + 1))) (by positivity)
    have h2 : (D s - E) * (W / (2 * (|D s - E| + 1))) ≤ W / 2 := by
      have : D s - E ≤ |D s - E| + 1 := (le_abs_self _).trans (by linarith)
      have p : 0 < |D s - E| + 1 := by positivity
      calc _ ≤ (|D s - E| + 1) * (W / (2 * (|D s - E| + 1))) := mul_le_mul_of_nonneg_right this (by positivity)
        _ = W / 2 := by field_simp
    linarith
  intro mv hmv hw
  have hnn : ∀ x ∈ moves.map (fun mv => mv.1 s * φ (mv.2 s)), 0 ≤ x := by
    intro x hx
    obtain ⟨mv, hmv, rfl⟩ := List.mem_map.1 hx
    exact mul_nonneg (hH.nonneg mv hmv s (hspin s hs)) (φ0 _)
  have h1 : mv.1 s * φ (mv.2 s) ≤ W := List.single_le_sum hnn _ (List.mem_map_of_mem hmv)
  have h2 : φ (mv.2 s) ≤ 0 := by
    by_contra hc
    push Not at hc
    have := mul_pos hw hc
    linarith
  exact norm_le_zero_iff.1 h2

theorem lowest_nonzero {H : Wave ι → Wave ι} {D moves} (hH : Stoquastic H D moves) {P : Finset (Config ι)} (hP : P ⊆ allSpins ι)
    (hc : Connected P moves) {ψ : Wave ι} (hψ : LowestH H P ψ) {s : Config ι} (hs : s ∈ P) : ψ s ≠ 0 := by
  intro h0
  obtain ⟨t, ht, hne⟩ := hψ.inside.nonzero
  refine hne ?_
  have := hc s hs t ht
  clear hne ht
  induction this with
  | refl => exact h0
  | tail _ hb ih =>
    obtain ⟨ha, -, mv, hmv, hw, rfl⟩ := hb
    exact zero_spreads hH hP hψ ha ih mv hmv hw

theorem list_sum_sub {α : Type} (l : List α) (f g : α → ℝ) : (l.map fun x => f x - g x).sum = (l.map f).sum - (l.map g).sum := by
  induction l with
  | nil => simp
  | cons a l ih => simp only [List.map_cons, List.sum_cons, ih]; ring

/-- Neighbours of a lowest state have the same phase. -/
theorem phase_spreads {H : Wave ι → Wave ι} {D moves} (hH : Stoquastic H D moves) {P : Finset (Config ι)} (hP : P ⊆ allSpins ι)
    {ψ : Wave ι} (hψ : LowestH H P ψ) {s : Config ι} (hs : s ∈ P) :
    ∀ mv ∈ moves, 0 < mv.1 s → ((starRingEnd ℂ) (ψ s) * ψ (mv.2 s)).re = ‖ψ s‖ * ‖ψ (mv.2 s)‖ := by
  have N0 := inside_norm_pos hP hψ.inside
  have h1 := hψ.least _ (inside_abs hψ.inside)
  have h2 := energyH_abs hH ψ
  have heq := le_antisymm h1 h2
  rw [energyH_real hH] at heq
  unfold energyH form at heq
  rw [numerator hH, div_left_inj' N0.ne'] at heq
  have hle : ∀ a ∈ allSpins ι, ∀ mv ∈ moves, mv.1 a * ((starRingEnd ℂ) (ψ a) * ψ (mv.2 a)).re ≤ mv.1 a * (‖ψ a‖ * ‖ψ (mv.2 a)‖) := by
    intro a ha mv hmv
    refine mul_le_mul_of_nonneg_left ?_ (hH.nonneg mv hmv a ((mem_allSpins a).1 ha))
    refine (Complex.re_le_norm _).trans (le_of_eq ?_)
    rw [norm_mul, Complex.norm_conj]
  have hrow := (Finset.sum_eq_sum_iff_of_le (s := allSpins ι) fun a ha =>
    sub_le_sub_left (List.sum_le_sum fun mv hmv => hle a ha mv hmv) (D a * ‖ψ a‖ ^ 2)).1 heq.symm s (hP hs)
  have hrow' : (moves.map fun mv => mv.1 s * ((starRingEnd ℂ) (ψ s) * ψ (mv.2 s)).re).sum =
      (moves.map fun mv => mv.1 s * (‖ψ s‖ * ‖ψ (mv.2 s)‖)).sum := by linarith
  have hnn : ∀ x ∈ moves.map (fun mv => mv.1 s * (‖ψ s‖ * ‖ψ (mv.2 s)‖) - mv.1 s * ((starRingEnd ℂ) (ψ s) * ψ (mv.2 s)).re), 0 ≤ x := by
    intro x hx
    obtain ⟨mv, hmv, rfl⟩ := List.mem_map.1 hx
    linarith [hle s (hP hs) mv hmv]
  have hz : (moves.map (fun mv => mv.1 s * (‖ψ s‖ * ‖ψ (mv.2 s)‖) - mv.1 s * ((starRingEnd ℂ) (ψ s) * ψ (mv.2 s)).re)).sum = 0 := by
    rw [list_sum_sub, hrow', sub_self]
  intro mv hmv hw
  have := List.single_le_sum hnn _ (List.mem_map_of_mem hmv)
  rw [hz] at this
  have hlt := hle s (hP hs) mv hmv
  have : mv.1 s * (‖ψ s‖ * ‖ψ (mv.2 s)‖) = mv.1 s * ((starRingEnd ℂ) (ψ s) * ψ (mv.2 s)).re := by linarith
  exact (mul_left_cancel₀ hw.ne' this).symm

theorem same_phase {a b : ℂ} (ha : a ≠ 0) (h : ((starRingEnd ℂ) a * b).re = ‖a‖ * ‖b‖) : b = a / ‖a‖ * ‖b‖ := by
  have hn : ‖(starRingEnd ℂ) a * b‖ = ‖a‖ * ‖b‖ := by rw [norm_mul, Complex.norm_conj]
  have hz : (starRingEnd ℂ) a * b = ((‖a‖ * ‖b‖ : ℝ) : ℂ) := by
    have h1 : ((starRingEnd ℂ) a * b).re = ‖(starRingEnd ℂ) a * b‖ := by rw [hn, h]
    have h2 := Complex.re_eq_norm.1 h1
    rw [← hn]
    exact (Complex.eq_coe_norm_of_nonneg h2)
  have hc : (starRingEnd ℂ) a ≠ 0 := by simpa using ha
  have hna : ((‖a‖ : ℝ) : ℂ) ≠ 0 := by simpa using ha
  have hconj := Complex.conj_mul' a
  apply mul_left_cancel₀ hc
  rw [hz]
  push_cast
  field_simp
  linear_combination (-(‖b‖ : ℂ)) * hconj

theorem lowest_positive {H : Wave ι → Wave ι} {D moves} (hH : Stoquastic H D moves) {P : Finset (Config ι)} (hP : P ⊆ allSpins ι)
    (hc : Connected P moves) {ψ : Wave ι} (hψ : LowestH H P ψ) :
    ∃ c : ℂ, ‖c‖ = 1 ∧ ∀ s ∈ P, 0 < ‖ψ s‖ ∧ ψ s = c * ‖ψ s‖ := by
  obtain ⟨s, hs, hne⟩ := hψ.inside.nonzero
  have hn : ((‖ψ s‖ : ℝ) : ℂ) ≠ 0 := by simpa using hne
  refine ⟨ψ s / ‖ψ s‖, ?_, fun t ht => ⟨norm_pos_iff.2 (lowest_nonzero hH hP hc hψ ht), ?_⟩⟩
  · rw [norm_div, Complex.norm_real, norm_norm, div_self (norm_ne_zero_iff.2 hne)]
  · have := hc s hs t ht
    clear ht
    induction this with
    | refl => field_simp
    | @tail a b _ hb ih =>
      obtain ⟨ha, -, mv, hmv, hw, rfl⟩ := hb
      have han := lowest_nonzero hH hP hc hψ ha
      have h1 := same_phase han (phase_spreads hH hP hψ ha mv hmv hw)
      have h2 : ψ a / ‖ψ a‖ = ψ s / ‖ψ s‖ := by
        have : ((‖ψ a‖ : ℝ) : ℂ) ≠ 0 := by simpa using han
        rw [div_eq_iff this]
        exact ih
      rw [← h2]
      exact h1

/-- The numerator of the energy. -/
noncomputable def quad (D : Config ι → ℝ) (moves : List ((Config ι → ℝ) × (Config ι → Config ι))) (ψ : Wave ι) : ℝ :=
  ∑ s ∈ allSpins ι, (D s * ‖ψ s‖ ^ 2 - (moves.map fun mv => mv.1 s * ((starRingEnd ℂ) (ψ s) * ψ (mv.2 s)).re).sum)

theorem energyH_quad {H : Wave ι → Wave ι} {D moves} (hH : Stoquastic H D moves) (ψ : Wave ι) :
    energyH H ψ = quad D moves ψ / ∑ s ∈ allSpins ι, ‖ψ s‖ ^ 2 := by
  unfold energyH
  rw [numerator hH]
  rfl

theorem quad_smul (D : Config ι → ℝ) (moves : List ((Config ι → ℝ) × (Config ι → Config ι))) (c : ℂ) (ψ : Wave ι) :
    quad D moves (fun s => c * ψ s) = ‖c‖ ^ 2 * quad D moves ψ := by
  unfold quad
  rw [Finset.mul_sum]
  refine Finset.sum_congr rfl fun s _ => ?_
  rw [mul_sub, ← List.sum_map_mul_left]
  congr 1
  · rw [norm_mul]; ring
  · refine congrArg List.sum (List.map_congr_left fun mv _ => ?_)
    have : (starRingEnd ℂ) (c * ψ s) * (c * ψ (mv.2 s)) = ((‖c‖ ^ 2 : ℝ) : ℂ) * ((starRingEnd ℂ) (ψ s) * ψ (mv.2 s)) := by
      rw [map_mul]
      have := Complex.conj_mul' c
      push_cast
      linear_combination ((starRingEnd ℂ) (ψ s) * ψ (mv.2 s)) * this
    rw [this, Complex.re_ofReal_mul]
    ring

theorem list_sum_add {α : Type} (l : List α) (f g : α → ℝ) : (l.map fun x => f x + g x).sum = (l.map f).sum + (l.map g).sum := by
  induction l with
  | nil => simp
  | cons a l ih => simp only [List.map_cons, List.sum_cons, ih]; ring

theorem norm_parallelogram (a b : ℂ) : ‖a + b‖ ^ 2 + ‖a - b‖ ^ 2 = 2 * ‖a‖ ^ 2 + 2 * ‖b‖ ^ 2 := by
  rw [Complex.sq_norm, Complex.sq_norm, Complex.sq_norm, Complex.sq_norm, Complex.normSq_apply, Complex.normSq_apply,
    Complex.normSq_apply, Complex.normSq_apply, Complex.add_re, Complex.add_im, Complex.sub_re, Complex.sub_im]
  ring

theorem quad_parallelogram (D : Config ι → ℝ) (moves : List ((Config ι → ℝ) × (Config ι → Config ι))) (ψ φ : Wave ι) :
    quad D moves (fun s => ψ s + φ s) + quad D moves (fun s => ψ s - φ s) = 2 * quad D moves ψ + 2 * quad D moves φ := by
  unfold quad
  rw [Finset.mul_sum, Finset.mul_sum, ← Finset.sum_add_distrib, ← Finset.sum_add_distrib]
  refine Finset.sum_congr rfl fun s _ => ?_
  have h1 := norm_parallelogram (ψ s) (φ s)
  have h2 : (moves.map fun mv => mv.1 s * ((starRingEnd ℂ) (ψ s + φ s) * (ψ (mv.2 s) + φ (mv.2 s))).re).sum +
      (moves.map fun mv => mv.1 s * ((starRingEnd ℂ) (ψ s - φ s) * (ψ (mv.2 s) - φ (mv.2 s))).re).sum =
      2 * (moves.map fun mv => mv.1 s * ((starRingEnd ℂ) (ψ s) * ψ (mv.2 s)).re).sum +
        2 * (moves.map fun mv => mv.1 s * ((starRingEnd ℂ) (φ s) * φ (mv.2 s)).re).sum := by
    rw [← list_sum_add, ← List.sum_map_mul_left, ← List.sum_map_mul_left, ← list_sum_add]
    refine congrArg List.sum (List.map_congr_left fun mv _ => ?_)
    simp only [map_add, map_sub, Complex.mul_re, Complex.add_re, Complex.add_im, Complex.sub_re, Complex.sub_im]
    ring
  linear_combination D s * h1 - h2

/-- The lowest energy bounds the numerator of every wave function inside. -/
theorem quad_ge {H : Wave ι → Wave ι} {D moves} (hH : Stoquastic H D moves) {P : Finset (Config ι)} (hP : P ⊆ allSpins ι)
    {ψ : Wave ι} (hψ : LowestH H P ψ) {φ : Wave ι} (hφ : ∀ s ∈ allSpins ι, s ∉ P → φ s = 0) :
    energyH H ψ * ∑ s ∈ allSpins ι, ‖φ s‖ ^ 2 ≤ quad D moves φ := by
  by_cases hz : ∃ s ∈ P, φ s ≠ 0
  · have hin : Inside P φ := ⟨hφ, hz⟩
    have := hψ.least φ hin
    rwa [energyH_quad hH φ, le_div_iff₀ (inside_norm_pos hP hin)] at this
  · have h0 : ∀ s ∈ allSpins ι, φ s = 0 := by
      intro s hs
      by_cases h : s ∈ P
      · by_contra hne
        exact hz ⟨s, h, hne⟩
      · exact hφ s hs h
    have e1 : ∑ s ∈ allSpins ι, ‖φ s‖ ^ 2 = 0 := Finset.sum_eq_zero fun s hs => by rw [h0 s hs]; simp
    have e2 : quad D moves φ = 0 := Finset.sum_eq_zero fun s hs => by rw [h0 s hs]; simp
    rw [e1, e2, mul_zero]

theorem lowest_unique {H : Wave ι → Wave ι} {D moves} (hH : Stoquastic H D moves) {P : Finset (Config ι)} (hP : P ⊆ allSpins ι)
    (hc : Connected P moves) {ψ φ : Wave ι} (hψ : LowestH H P ψ) (hφ : LowestH H P φ) :
    ∃ c : ℂ, c ≠ 0 ∧ ∀ s ∈ P, φ s = c * ψ s := by
  obtain ⟨s, hs, -⟩ := hψ.inside.nonzero
  have n1 := lowest_nonzero hH hP hc hψ hs
  have n2 := lowest_nonzero hH hP hc hφ hs
  refine ⟨φ s / ψ s, div_ne_zero n2 n1, ?_⟩
  by_contra hne
  push Not at hne
  set c := φ s / ψ s with hcdef
  have hE : energyH H φ = energyH H ψ := le_antisymm (hφ.least ψ hψ.inside) (hψ.least φ hφ.inside)
  have q1 : quad D moves ψ = energyH H ψ * ∑ s ∈ allSpins ι, ‖ψ s‖ ^ 2 := by
    rw [energyH_quad hH ψ, div_mul_cancel₀ _ (inside_norm_pos hP hψ.inside).ne']
  have q2 : quad D moves φ = energyH H ψ * ∑ s ∈ allSpins ι, ‖φ s‖ ^ 2 := by
    rw [← hE, energyH_quad hH φ, div_mul_cancel₀ _ (inside_norm_pos hP hφ.inside).ne']
  have hout : ∀ a ∈ allSpins ι, a ∉ P → φ a = 0 ∧ c * ψ a = 0 := fun a ha hn =>
    ⟨hφ.inside.outside a ha hn, by rw [hψ.inside.outside a ha hn, mul_zero]⟩
  have g1 := quad_ge hH hP hψ (φ := fun a => φ a + c * ψ a) fun a ha hn => by
    rw [(hout a ha hn).1, (hout a ha hn).2, add_zero]
  have g2 := quad_ge hH hP hψ (φ := fun a => φ a - c * ψ a) fun a ha hn => by
    rw [(hout a ha hn).1, (hout a ha hn).2, sub_zero]
  have par := quad_parallelogram D moves φ fun a => c * ψ a
  rw [quad_smul, q1, q2] at par
  have hnorm : ∑ a ∈ allSpins ι, ‖φ a + c * ψ a‖ ^ 2 + ∑ a ∈ allSpins ι, ‖φ a - c * ψ a‖ ^ 2 =
      2 * ∑ a ∈ allSpins ι, ‖φ a‖ ^ 2 + 2 * (‖c‖ ^ 2 * ∑ a ∈ allSpins ι, ‖ψ a‖ ^ 2) := by
    rw [← Finset.sum_add_distrib, Finset.mul_sum, Finset.mul_sum, Finset.mul_sum, ← Finset.sum_add_distrib]
    refine Finset.sum_congr rfl fun a _ => ?_
    rw [norm_parallelogram, norm_mul]
    ring
  have heq : quad D moves (fun a => φ a - c * ψ a) = energyH H ψ * ∑ a ∈ allSpins ι, ‖φ a - c * ψ a‖ ^ 2 := by
    refine le_antisymm ?_ g2
    have : energyH H ψ * (∑ a ∈ allSpins ι, ‖φ a + c * ψ a‖ ^ 2 + ∑ a ∈ allSpins ι, ‖φ a - c * ψ a‖ ^ 2) =
        2 * (energyH H ψ * ∑ s ∈ allSpins ι, ‖φ s‖ ^ 2) + 2 * (‖c‖ ^ 2 * (energyH H ψ * ∑ s ∈ allSpins ι, ‖ψ s‖ ^ 2)) := by
      rw [hnorm]; ring
    linarith
  have hin : Inside P fun a => φ a - c * ψ a := by
    refine ⟨fun a ha hn => by rw [(hout a ha hn).1, (hout a ha hn).2, sub_zero], ?_⟩
    obtain ⟨a, ha, hne⟩ := hne
    exact ⟨a, ha, sub_ne_zero.2 hne⟩
  have hlow : LowestH H P fun a => φ a - c * ψ a := by
    refine ⟨hin, fun χ hχ => ?_⟩
    rw [energyH_quad hH, heq, mul_div_cancel_right₀ _ (inside_norm_pos hP hin).ne']
    exact hψ.least χ hχ
  refine lowest_nonzero hH hP hc hlow hs ?_
  show φ s - c * ψ s = 0
  rw [hcdef, div_mul_cancel₀ _ n1, sub_self]

theorem exists_lowest {H : Wave ι → Wave ι} {D moves} (hH : Stoquastic H D moves) {P : Finset (Config ι)} (hP : P ⊆ allSpins ι)
    (hmv : ∀ mv ∈ moves, ∀ s, IsSpin s → IsSpin (mv.2 s)) (hne : P.Nonempty) : ∃ ψ, LowestH H P ψ := by
  let ext : (P → ℂ) → Wave ι := fun v s => if h : s ∈ P then v ⟨s, h⟩ else 0
  have hcoord : ∀ s, Continuous fun v => ext v s := by
    intro s
    by_cases h : s ∈ P
    · have : (fun v => ext v s) = fun v : P → ℂ => v ⟨s, h⟩ := by funext v; simp only [ext, dif_pos h]
      rw [this]
      exact continuous_apply _
    · have : (fun v => ext v s) = fun _ : P → ℂ => 0 := by funext v; simp only [ext, dif_neg h]
      rw [this]
      exact continuous_const
  have hnorm : Continuous fun v => ∑ s ∈ allSpins ι, ‖ext v s‖ ^ 2 :=
    continuous_finsetSum _ fun s _ => ((hcoord s).norm).pow 2
  have hquad : Continuous fun v => quad D moves (ext v) := by
    unfold quad
    refine continuous_finsetSum _ fun s _ => (continuous_const.mul ((hcoord s).norm.pow 2)).sub ?_
    refine continuous_list_sum _ fun mv _ => continuous_const.mul ?_
    exact Complex.continuous_re.comp ((Complex.continuous_conj.comp (hcoord s)).mul (hcoord _))
  let K : Set (P → ℂ) := {v | ∑ s ∈ allSpins ι, ‖ext v s‖ ^ 2 = 1}
  have hextP : ∀ (v : P → ℂ) (s : P), ext v s = v s := fun v s => by simp only [ext, dif_pos s.2]
  have hK : IsCompact K := by
    refine Metric.isCompact_of_isClosed_isBounded (isClosed_eq hnorm continuous_const) ?_
    refine (Metric.isBounded_iff_subset_closedBall 0).2 ⟨1, fun v hv => ?_⟩
    rw [mem_closedBall_zero_iff, pi_norm_le_iff_of_nonneg zero_le_one]
    intro s
    have h1 : ‖ext v s‖ ^ 2 ≤ 1 := by
      have hv' : ∑ s ∈ allSpins ι, ‖ext v s‖ ^ 2 = 1 := hv
      rw [← hv']
      exact Finset.single_le_sum (f := fun s => ‖ext v s‖ ^ 2) (fun s _ => by positivity) (hP s.2)
    rw [hextP] at h1
    nlinarith [norm_nonneg (v s)]
  have hKof : ∀ φ : Wave ι, Inside P φ → ∃ v ∈ K, energyH H φ = quad D moves (ext v) := by
    intro φ hφ
    set N := ∑ s ∈ allSpins ι, ‖φ s‖ ^ 2 with hN
    have hN0 : 0 < N := inside_norm_pos hP hφ
    set c : ℂ := (((Real.sqrt N)⁻¹ : ℝ) : ℂ) with hc
    have hcn : ‖c‖ ^ 2 = N⁻¹ := by
      rw [hc, Complex.norm_real, Real.norm_eq_abs, sq_abs, inv_pow, Real.sq_sqrt hN0.le]
    have hext : ∀ s ∈ allSpins ι, ext (fun s : P => c * φ s) s = c * φ s := by
      intro s hs
      by_cases h : s ∈ P
      · simp only [ext, dif_pos h]
      · simp only [ext, dif_neg h, hφ.outside s hs h, mul_zero]
    refine ⟨fun s => c * φ s, ?_, ?_⟩
    · show ∑ s ∈ allSpins ι, ‖ext (fun s : P => c * φ s) s‖ ^ 2 = 1
      rw [Finset.sum_congr rfl fun s hs => by rw [hext s hs, norm_mul, mul_pow, hcn], ← Finset.mul_sum, ← hN,
        inv_mul_cancel₀ hN0.ne']
    · have hq : quad D moves (ext fun s : P => c * φ s) = quad D moves fun s => c * φ s := by
        unfold quad
        refine Finset.sum_congr rfl fun s hs => ?_
        rw [hext s hs]
        congr 1
        refine congrArg List.sum (List.map_congr_left fun mv hm => ?_)
        rw [hext _ ((mem_allSpins _).2 (hmv mv hm s ((mem_allSpins s).1 hs)))]
      rw [hq, quad_smul, hcn, energyH_quad hH, ← hN, div_eq_inv_mul]
  obtain ⟨a, ha⟩ := hne
  have hone : Inside P fun s => if s ∈ P then 1 else 0 := ⟨fun s _ h => if_neg h, a, ha, by rw [if_pos ha]; exact one_ne_zero⟩
  obtain ⟨v0, hv0, -⟩ := hKof _ hone
  obtain ⟨v, hv, hmin⟩ := hK.exists_isMinOn ⟨v0, hv0⟩ hquad.continuousOn
  have hv' : ∑ s ∈ allSpins ι, ‖ext v s‖ ^ 2 = 1 := hv
  refine ⟨ext v, ⟨fun s _ h => by simp only [ext, dif_neg h], ?_⟩, fun φ hφ => ?_⟩
  · by_contra hz
    push Not at hz
    have : ∑ s ∈ allSpins ι, ‖ext v s‖ ^ 2 = 0 := Finset.sum_eq_zero fun s _ => by
      by_cases h : s ∈ P
      · rw [hz s h]; simp
      · simp [ext, dif_neg h]
    rw [this] at hv'
    exact zero_ne_one hv'
  · obtain ⟨w, hw, e⟩ := hKof φ hφ
    rw [e, energyH_quad hH, hv', div_one]
    exact hmin hw

/-! ### The operators -/

theorem lowest_iff {conn : Config ι → List (Row ι ℝ)} {H : Wave ι → Wave ι} (h : ∀ ψ, energyOf conn ψ = energyH H ψ)
    (P : Finset (Config ι)) (ψ : Wave ι) : Lowest conn P ψ ↔ LowestH H P ψ := by
  constructor
  · rintro ⟨a, b⟩
    exact ⟨a, fun φ hφ => by rw [← h, ← h]; exact b φ hφ⟩
  · rintro ⟨a, b⟩
    exact ⟨a, fun φ hφ => by rw [h, h]; exact b φ hφ⟩

theorem onePositiveState {conn : Config ι → List (Row ι ℝ)} {H : Wave ι → Wave ι} {D moves} (h : ∀ ψ, energyOf conn ψ = energyH H ψ)
    (hH : Stoquastic H D moves) {P : Finset (Config ι)} (hP : P ⊆ allSpins ι) (hne : P.Nonempty)
    (hmv : ∀ mv ∈ moves, ∀ s, IsSpin s → IsSpin (mv.2 s)) (hc : Connected P moves) : OnePositiveState conn P := by
  refine ⟨?_, ?_, ?_⟩
  · obtain ⟨ψ, hψ⟩ := exists_lowest hH hP hmv hne
    exact ⟨ψ, (lowest_iff h P ψ).2 hψ⟩
  · exact fun ψ hψ => lowest_positive hH hP hc ((lowest_iff h P ψ).1 hψ)
  · exact fun ψ φ hψ hφ => lowest_unique hH hP hc ((lowest_iff h P ψ).1 hψ) ((lowest_iff h P φ).1 hφ)

theorem tfim_connected {h : ℝ} (hh : 0 < h) : Connected (allSpins ι) (Finset.univ.toList.map fun i : ι => ((fun _ => h), Operators.flip i)) := by
  intro s hs t ht
  have := Metropolis.flips_connect s t ((mem_allSpins s).1 hs) ((mem_allSpins t).1 ht)
  clear ht
  induction this with
  | refl => exact .refl
  | @tail a b hab hb ih =>
    obtain ⟨i, rfl⟩ := hb
    have ha : a ∈ allSpins ι := by
      clear ih
      induction hab with
      | refl => exact hs
      | tail _ hb ih =>
        obtain ⟨j, rfl⟩ := hb
        exact (mem_allSpins _).2 (flip_spin ((mem_allSpins _).1 ih) j)
    exact ih.tail ⟨ha, (mem_allSpins _).2 (flip_spin ((mem_allSpins _).1 ha) i),
      (fun _ => h, Operators.flip i), List.mem_map.2 ⟨i, Finset.mem_toList.2 (Finset.mem_univ i), rfl⟩, hh, rfl⟩

/-- Swapping two unequal neighbours. -/
def BondMove (bonds : List (ι × ι)) (s t : Config ι) : Prop := ∃ b ∈ bonds, s b.1 ≠ s b.2 ∧ t = exchange b.1 b.2 s

omit [Fintype ι] in
theorem bond_canSwap {bonds : List (ι × ι)} {b : ι × ι} (hb : b ∈ bonds) : Metropolis.CanSwap (BondMove bonds) b.1 b.2 := by
  intro s
  by_cases h : s b.1 = s b.2
  · rw [Metropolis.exchange_eq_self h]
  · exact .single ⟨b, hb, h, rfl⟩

omit [Fintype ι] in
theorem exchange_flips {s : Config ι} (hs : IsSpin s) {i j : ι} (h : s i ≠ s j) :
    exchange i j s = Operators.flip j (Operators.flip i s) ∧ 0 < 1 - (s i : ℝ) * (Operators.flip i s j : ℝ) := by
  have hij : j ≠ i := fun e => h (e ▸ rfl)
  have hv : s j = - s i := by rcases hs i with h1 | h1 <;> rcases hs j with h2 | h2 <;> rw [h1, h2] at h ⊢ <;> simp at h ⊢
  constructor
  · funext l
    unfold exchange Operators.flip
    by_cases hj : l = j
    · subst hj
      rw [Function.update_self, Function.update_self, Function.update_of_ne hij, hv, neg_neg]
    · rw [Function.update_of_ne hj, Function.update_of_ne hj]
      by_cases hi : l = i
      · subst hi
        rw [Function.update_self, Function.update_self, hv]
      · rw [Function.update_of_ne hi, Function.update_of_ne hi]
  · unfold Operators.flip
    rw [Function.update_of_ne hij, hv]
    rcases hs i with h1 | h1 <;> rw [h1] <;> norm_num

theorem heisenberg_connected {bonds : List (ι × ι)} (hsw : ∀ i j, Metropolis.CanSwap (BondMove bonds) i j) (M : ℤ) :
    Connected (Metropolis.sector (ι := ι) M) (bonds.map fun b =>
      (fun s => 1 - (s b.1 : ℝ) * (Operators.flip b.1 s b.2 : ℝ), fun s => Operators.flip b.2 (Operators.flip b.1 s))) := by
  intro s hs t ht
  have hs' := (Metropolis.mem_sector M s).1 hs
  have ht' := (Metropolis.mem_sector M t).1 ht
  have := Metropolis.exchanges_connect hsw s t hs'.1 ht'.1 (hs'.2.trans ht'.2.symm)
  clear ht ht'
  have inS : ∀ a, Relation.ReflTransGen (BondMove bonds) s a → a ∈ Metropolis.sector (ι := ι) M := by
    intro a ha
    induction ha with
    | refl => exact hs
    | tail _ hb ih =>
      obtain ⟨b, -, -, rfl⟩ := hb
      rw [Metropolis.mem_sector] at ih ⊢
      exact ⟨exchange_spin ih.1 _ _, by rw [magnetization_exchange]; exact ih.2⟩
  induction this with
  | refl => exact .refl
  | @tail a c hab hb ih =>
    have hc := inS c (hab.tail hb)
    have ha := inS a hab
    obtain ⟨b, hb, hne, rfl⟩ := hb
    obtain ⟨e1, e2⟩ := exchange_flips ((Metropolis.mem_sector M a).1 ha).1 hne
    exact ih.tail ⟨ha, hc, _, List.mem_map_of_mem hb, e2, e1⟩

theorem heisenberg_one {conn : Config ι → List (Row ι ℝ)} {bonds : List (ι × ι)}
    (h : ∀ ψ, energyOf conn ψ = energyH (heisenberg bonds (-1)) ψ)
    (hsw : ∀ i j, Metropolis.CanSwap (BondMove bonds) i j) (M : ℤ) (hne : (Metropolis.sector (ι := ι) M).Nonempty) :
    OnePositiveState conn (Metropolis.sector M) := by
  refine onePositiveState h (heisenberg_stoquastic bonds) (fun s hs => (mem_allSpins s).2 ((Metropolis.mem_sector M s).1 hs).1) hne ?_
    (heisenberg_connected hsw M)
  intro mv hmv s hs
  obtain ⟨b, -, rfl⟩ := List.mem_map.1 hmv
  exact flip_spin (flip_spin hs _) _

theorem ising_one {conn : Config ι → List (Row ι ℝ)} {bonds : List (ι × ι)} {h j : ℝ} (hh : 0 < h)
    (he : ∀ ψ, energyOf conn ψ = energyH (tfim bonds h j) ψ) : OnePositiveState conn (allSpins ι) := by
  refine onePositiveState he (tfim_stoquastic bonds hh.le j) (Finset.Subset.refl _) ⟨fun _ => 1, (mem_allSpins _).2 fun _ => Or.inl rfl⟩ ?_
    (tfim_connected hh)
  intro mv hmv s hs
  obtain ⟨i, -, rfl⟩ := List.mem_map.1 hmv
  exact flip_spin hs i

/-! ### Property C141 -/

/-- **C141 (phases, Ising chains).** For fields that are not negative, dropping the phases of a wave function does not raise its
energy. -/
theorem C141_phases_ising_chain {n : Nat} {h : ℝ} (hh : 0 ≤ h) (j : ℝ) (pbc : Bool) (ψ : Wave (Fin n)) :
    energyOf (isingChain h j pbc) (fun s => ((‖ψ s‖ : ℝ) : ℂ)) ≤ energyOf (isingChain h j pbc) ψ := by
  rw [isingChain_energy, isingChain_energy]
  exact energyH_abs (tfim_stoquastic _ hh j) ψ

/-- **C141 (phases, Ising grids).** -/
theorem C141_phases_ising_grid {n m : Nat} {h : ℝ} (hh : 0 ≤ h) (j : ℝ) (pbc : Bool) (ψ : Wave (Fin n × Fin m)) :
    energyOf (isingGrid h j pbc) (fun s => ((‖ψ s‖ : ℝ) : ℂ)) ≤ energyOf (isingGrid h j pbc) ψ := by
  rw [isingGrid_energy, isingGrid_energy]
  exact energyH_abs (tfim_stoquastic _ hh j) ψ

/-- **C141 (phases, Heisenberg chains).** With `unitary_rotation=True`, the default. -/
theorem C141_phases_heisenberg_chain {n : Nat} (pbc : Bool) (history : List (Call n 1)) (ψ : Wave (Fin n)) :
    energyOf (heisenbergChain true pbc history) (fun s => ((‖ψ s‖ : ℝ) : ℂ)) ≤ energyOf (heisenbergChain true pbc history) ψ := by
  rw [heisenbergChain_energy, heisenbergChain_energy]
  exact energyH_abs (heisenberg_stoquastic _) ψ

/-- **C141 (phases, Heisenberg grids).** -/
theorem C141_phases_heisenberg_grid {n m : Nat} (pbc : Bool) (history : List (Call n m)) (ψ : Wave (Fin n × Fin m)) :
    energyOf (heisenbergGrid true pbc history) (fun s => ((‖ψ s‖ : ℝ) : ℂ)) ≤ energyOf (heisenbergGrid true pbc history) ψ := by
  rw [heisenbergGrid_energy, heisenbergGrid_energy]
  exact energyH_abs (heisenberg_stoquastic _) ψ

/-- **C141 (lowest state, Ising chains).** For positive fields there is exactly one state of lowest energy, up to a factor, and
up to a factor all its amplitudes are positive. -/
theorem C141_lowest_ising_chain {n : Nat} {h : ℝ} (hh : 0 < h) (j : ℝ) (pbc : Bool) :
    OnePositiveState (isingChain h j pbc) (allSpins (Fin n)) := ising_one hh (isingChain_energy h j pbc)

/-- **C141 (lowest state, Ising grids).** -/
theorem C141_lowest_ising_grid {n m : Nat} {h : ℝ} (hh : 0 < h) (j : ℝ) (pbc : Bool) :
    OnePositiveState (isingGrid h j pbc) (allSpins (Fin n × Fin m)) := ising_one hh (isingGrid_energy h j pbc)

/-- **C141 (lowest state, Heisenberg chains).** With `unitary_rotation=True`, in every sector of fixed magnetisation. -/
theorem C141_lowest_heisenberg_chain {n : Nat} (pbc : Bool) (history : List (Call n 1)) (M : ℤ)
    (hM : (Metropolis.sector (ι := Fin n) M).Nonempty) : OnePositiveState (heisenbergChain true pbc history) (Metropolis.sector M) := by
  refine heisenberg_one (heisenbergChain_energy true pbc history) (fun i k => ?_) M hM
  refine Metropolis.canSwap_chain pbc (fun i => i) (fun hn i k hik => ?_) i k
  refine bond_canSwap (b := (i, k)) ?_
  unfold chainBonds'
  rw [if_pos hn]
  exact List.mem_flatMap.2 ⟨i, List.mem_finRange i, by rw [hik]; exact List.mem_singleton.2 rfl⟩

/-- **C141 (lowest state, Heisenberg grids).** -/
theorem C141_lowest_heisenberg_grid {n m : Nat} (pbc : Bool) (history : List (Call n m)) (M : ℤ)
    (hM : (Metropolis.sector (ι := Fin n × Fin m) M).Nonempty) :
    OnePositiveState (heisenbergGrid true pbc history) (Metropolis.sector M) :=
  heisenberg_one (heisenbergGrid_energy true pbc history)
    (fun p q => Metropolis.canSwap_grid pbc (fun _ hb => bond_canSwap hb) p q) M hM

/-- The sector of magnetisation zero on two sites and the positive field one meet the hypotheses. -/
example : (Metropolis.sector (ι := Fin 2) 0).Nonempty ∧ (0 : ℝ) < 1 :=
  ⟨⟨![1, -1], (Metropolis.mem_sector 0 _).2 ⟨by intro i; fin_cases i <;> simp, by decide⟩⟩, one_pos⟩

/-- The singlet of two sites. -/
noncomputable def singlet (s : Config (Fin 2)) : ℂ := if s = ![1, -1] then 1 else if s = ![-1, 1] then -1 else 0

/-- **C141 is violated without the rotation of the Heisenberg operator.** Dropping the phases of the singlet of two sites raises
its energy from -3 to 1. -/
theorem C141_violated_without_rotation (history : List (Call 2 1)) :
    energyOf (heisenbergChain false false history) singlet = -3 ∧
      energyOf (heisenbergChain false false history) (fun s => ((‖singlet s‖ : ℝ) : ℂ)) = 1 := by
  rw [heisenbergChain_energy, heisenbergChain_energy]
  unfold energyH
  have v1 : singlet ![1, 1] = 0 := by unfold singlet; rw [if_neg (by decide), if_neg (by decide)]
  have v2 : singlet ![-1, -1] = 0 := by unfold singlet; rw [if_neg (by decide), if_neg (by decide)]
  have v3 : singlet ![1, -1] = 1 := by unfold singlet; rw [if_pos rfl]
  have v4 : singlet ![-1, 1] = -1 := by unfold singlet; rw [if_neg (by decide), if_pos rfl]
  constructor
  · rw [sum_two_spins, sum_two_spins]
    simp only [heisenberg_two, neg_neg, v1, v2, v3, v4]
    simp
    norm_num
  · rw [sum_two_spins, sum_two_spins]
    simp only [heisenberg_two, neg_neg, v1, v2, v3, v4]
    simp

/-- **C141 needs a field.** Without it every state of a single spin has energy zero, so that there is more than one lowest
state. -/
theorem C141_needs_field (j : ℝ) : ¬ OnePositiveState (isingChain (n := 1) 0 j false) (allSpins (Fin 1)) := by
  intro h
  have hz : ∀ ψ, energyOf (isingChain (n := 1) 0 j false) ψ = 0 := by
    intro ψ
    rw [isingChain_energy]
    unfold energyH
    have : ∀ s, tfim (chainBonds 1 false) 0 j ψ s = 0 := by
      intro s
      have hb : chainBonds 1 false = [] := by decide
      unfold tfim
      rw [hb]
      simp
    simp [this]
  have low : Lowest (isingChain (n := 1) 0 j false) (allSpins (Fin 1)) fun s => if s = fun _ => 1 then 1 else 0 :=
    ⟨⟨fun s hs hn => absurd hs hn, fun _ => 1, (mem_allSpins _).2 fun _ => Or.inl rfl, by simp⟩, fun φ _ => by rw [hz, hz]⟩
  obtain ⟨c, -, hc⟩ := h.positive _ low
  have := (hc (fun _ => -1) ((mem_allSpins _).2 fun _ => Or.inr rfl)).1
  rw [if_neg (fun e => by have := congrFun e 0; norm_num at this)] at this
  simp at this

end Verif.Ensemble
