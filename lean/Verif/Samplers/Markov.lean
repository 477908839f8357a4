import Mathlib.Algebra.BigOperators.Ring.Finset
import Mathlib.Algebra.Order.BigOperators.Ring.Finset
import Mathlib.Analysis.SpecificLimits.Basic
import Mathlib.Logic.Relation
import Mathlib.Tactic.Linarith
import Mathlib.Tactic.Ring

/-!
# Finite Markov chains

Independent of the code: transition probabilities `K x y` between the elements of a finite set `F`, their
powers, and convergence to the stationary distribution.
-/
namespace Verif.Markov

open Filter Topology

variable {α : Type*} [DecidableEq α]

/-- Probability to be in `y` after `n` steps that start in `x`. -/
noncomputable def steps (F : Finset α) (K : α → α → ℝ) : ℕ → α → α → ℝ
  | 0, x, y => if x = y then 1 else 0
  | n + 1, x, y => ∑ z ∈ F, K x z * steps F K n z y

/-- `K` are transition probabilities on `F`. -/
structure Stochastic (F : Finset α) (K : α → α → ℝ) : Prop where
  nonneg : ∀ x ∈ F, ∀ y ∈ F, 0 ≤ K x y
  row : ∀ x ∈ F, ∑ y ∈ F, K x y = 1

variable {F : Finset α} {K : α → α → ℝ}

theorem steps_nonneg (h : Stochastic F K) (n : ℕ) : ∀ x ∈ F, ∀ y ∈ F, 0 ≤ steps F K n x y := by
  induction n with
  | zero => intro x _ y _; unfold steps; split <;> norm_num
  | succ n ih =>
    intro x hx y hy
    exact Finset.sum_nonneg fun z hz => mul_nonneg (h.nonneg x hx z hz) (ih z hz y hy)

theorem steps_row (h : Stochastic F K) (n : ℕ) : ∀ x ∈ F, ∑ y ∈ F, steps F K n x y = 1 := by
  induction n with
  | zero => intro x hx; simp [steps, hx]
  | succ n ih =>
    intro x hx
    simp only [steps]
    rw [Finset.sum_comm]
    simp only [← Finset.mul_sum]
    rw [← h.row x hx]
    exact Finset.sum_congr rfl fun z hz => by rw [ih z hz, mul_one]

theorem steps_add (m n : ℕ) : ∀ x ∈ F, ∀ y, steps F K (m + n) x y = ∑ z ∈ F, steps F K m x z * steps F K n z y := by
  induction m with
  | zero => intro x hx y; simp [steps, hx]
  | succ m ih =>
    intro x hx y
    rw [Nat.succ_add]
    simp only [steps, Finset.sum_mul]
    rw [Finset.sum_comm]
    refine Finset.sum_congr rfl fun z hz => ?_
    rw [ih z hz, Finset.mul_sum]
    exact Finset.sum_congr rfl fun w _ => by ring

theorem steps_one (x : α) (y : α) (hy : y ∈ F) : steps F K 1 x y = K x y := by
  simp [steps, hy]

theorem steps_stochastic (h : Stochastic F K) (n : ℕ) : Stochastic F (steps F K n) :=
  ⟨steps_nonneg h n, steps_row h n⟩

/-- `π` is stationary for `K`. -/
def IsStationary (F : Finset α) (K : α → α → ℝ) (π : α → ℝ) : Prop := ∀ y ∈ F, ∑ x ∈ F, π x * K x y = π y

theorem steps_stationary {π : α → ℝ} (hs : IsStationary F K π) (n : ℕ) : IsStationary F (steps F K n) π := by
  induction n with
  | zero => intro y hy; simp [steps, hy]
  | succ n ih =>
    intro y hy
    rw [← ih y hy]
    simp only [steps, Finset.mul_sum]
    rw [Finset.sum_comm]
    refine Finset.sum_congr rfl fun z hz => ?_
    rw [← hs z hz, Finset.sum_mul]
    exact Finset.sum_congr rfl fun x _ => by ring

/-- One step brings the values of a function together, if all entries are at least `c`. -/
theorem contract {Q : α → α → ℝ} (h : Stochastic F Q) {c : ℝ} (hc : ∀ x ∈ F, ∀ y ∈ F, c ≤ Q x y) (f : α → ℝ)
    {a b : ℝ} (hf : ∀ x ∈ F, a ≤ f x ∧ f x ≤ b) (x : α) (hx : x ∈ F) :
    c * ∑ y ∈ F, f y + (1 - F.card * c) * a ≤ ∑ y ∈ F, Q x y * f y ∧
    ∑ y ∈ F, Q x y * f y ≤ c * ∑ y ∈ F, f y + (1 - F.card * c) * b := by
  have e : ∑ y ∈ F, Q x y * f y = c * ∑ y ∈ F, f y + ∑ y ∈ F, (Q x y - c) * f y := by
    rw [Finset.mul_sum, ← Finset.sum_add_distrib]
    exact Finset.sum_congr rfl fun y _ => by ring
  have s : ∑ y ∈ F, (Q x y - c) = 1 - F.card * c := by
    rw [Finset.sum_sub_distrib, h.row x hx, Finset.sum_const, nsmul_eq_mul]
  rw [e, ← s, Finset.sum_mul, Finset.sum_mul]
  constructor
  · refine add_le_add le_rfl (Finset.sum_le_sum fun y hy => ?_)
    exact mul_le_mul_of_nonneg_left (hf y hy).1 (sub_nonneg.2 (hc x hx y hy))
  · refine add_le_add le_rfl (Finset.sum_le_sum fun y hy => ?_)
    exact mul_le_mul_of_nonneg_left (hf y hy).2 (sub_nonneg.2 (hc x hx y hy))

/-- Bounds for all starting points after `r + m * k` steps. -/
theorem steps_bounds (h : Stochastic F K) (m : ℕ) {c : ℝ} (hc : ∀ x ∈ F, ∀ y ∈ F, c ≤ steps F K m x y)
    (hc1 : 0 ≤ 1 - F.card * c) (y : α) (hy : y ∈ F) (r k : ℕ) :
    ∃ a b : ℝ, b - a ≤ (1 - F.card * c) ^ k ∧ ∀ x ∈ F, a ≤ steps F K (m * k + r) x y ∧ steps F K (m * k + r) x y ≤ b := by
  induction k with
  | zero =>
    refine ⟨0, 1, by simp, fun x hx => ⟨steps_nonneg h _ x hx y hy, ?_⟩⟩
    rw [← steps_row h (m * 0 + r) x hx]
    exact Finset.single_le_sum (fun z hz => steps_nonneg h _ x hx z hz) hy
  | succ k ih =>
    obtain ⟨a, b, hab, hb⟩ := ih
    refine ⟨c * ∑ z ∈ F, steps F K (m * k + r) z y + (1 - F.card * c) * a,
      c * ∑ z ∈ F, steps F K (m * k + r) z y + (1 - F.card * c) * b, ?_, fun x hx => ?_⟩
    · rw [pow_succ]
      have := mul_le_mul_of_nonneg_left hab hc1
      linarith
    · rw [show m * (k + 1) + r = m + (m * k + r) by ring, steps_add m _ x hx]
      exact contract (steps_stochastic h m) hc (fun z => steps F K (m * k + r) z y) hb x hx

/-- **Convergence.** If for some number of steps every transition has positive probability, the
distribution converges to the stationary one from every start. -/
theorem converges (h : Stochastic F K) {π : α → ℝ} (hs : IsStationary F K π) (h0 : ∀ x ∈ F, 0 ≤ π x)
    (h1 : ∑ x ∈ F, π x = 1) (m : ℕ) (hm : 0 < m) (hpos : ∀ x ∈ F, ∀ y ∈ F, 0 < steps F K m x y) (x y : α) (hx : x ∈ F)
    (hy : y ∈ F) : Tendsto (fun n => steps F K n x y) atTop (𝓝 (π y)) := by
  obtain ⟨p, hp, hmin⟩ := (F ×ˢ F).exists_min_image (fun p => steps F K m p.1 p.2) ⟨(x, y), by simp [hx, hy]⟩
  rw [Finset.mem_product] at hp
  set c := steps F K m p.1 p.2 with hcdef
  have hcpos : 0 < c := hpos _ hp.1 _ hp.2
  have hc : ∀ x ∈ F, ∀ y ∈ F, c ≤ steps F K m x y := fun x hx y hy => hmin (x, y) (by simp [hx, hy])
  have hcard : (0 : ℝ) < F.card := by exact_mod_cast Finset.card_pos.2 ⟨x, hx⟩
  have hc1 : 0 ≤ 1 - F.card * c := by
    rw [← steps_row h m x hx, sub_nonneg]
    calc (F.card : ℝ) * c = ∑ _y ∈ F, c := by rw [Finset.sum_const, nsmul_eq_mul]
      _ ≤ _ := Finset.sum_le_sum fun y hy => hc x hx y hy
  have hc2 : 1 - F.card * c < 1 := by nlinarith [mul_pos hcard hcpos]
  have hd : ∀ n, |steps F K n x y - π y| ≤ (1 - F.card * c) ^ (n / m) := by
    intro n
    obtain ⟨a, b, hab, hb⟩ := steps_bounds h m hc hc1 y hy (n % m) (n / m)
    rw [Nat.div_add_mod] at hb
    have hst := steps_stationary hs n y hy
    have ha : a ≤ π y := by
      rw [← hst]
      calc a = ∑ z ∈ F, π z * a := by rw [← Finset.sum_mul, h1, one_mul]
        _ ≤ _ := Finset.sum_le_sum fun z hz => mul_le_mul_of_nonneg_left (hb z hz).1 (h0 z hz)
    have hb' : π y ≤ b := by
      rw [← hst]
      calc _ ≤ ∑ z ∈ F, π z * b := Finset.sum_le_sum fun z hz => mul_le_mul_of_nonneg_left (hb z hz).2 (h0 z hz)
        _ = b := by rw [← Finset.sum_mul, h1, one_mul]
    have := hb x hx
    refine le_trans (abs_le.2 ⟨?_, ?_⟩) hab <;> linarith
  have hz : Tendsto (fun n : ℕ => (1 - F.card * c) ^ (n / m)) atTop (𝓝 0) :=
    (tendsto_pow_atTop_nhds_zero_of_lt_one hc1 hc2).comp (Nat.tendsto_div_const_atTop hm.ne')
  rw [tendsto_iff_dist_tendsto_zero]
  exact squeeze_zero (fun n => dist_nonneg) (fun n => by rw [Real.dist_eq]; exact hd n) hz

/-- Steps of positive probability inside `F`. -/
def Leads (F : Finset α) (K : α → α → ℝ) (x y : α) : Prop := x ∈ F ∧ y ∈ F ∧ 0 < K x y

theorem steps_pos_add (h : Stochastic F K) {m n : ℕ} {x z y : α} (hx : x ∈ F) (hz : z ∈ F) (hy : y ∈ F)
    (h1 : 0 < steps F K m x z) (h2 : 0 < steps F K n z y) : 0 < steps F K (m + n) x y := by
  rw [steps_add m n x hx]
  exact Finset.sum_pos' (fun w hw => mul_nonneg (steps_nonneg h m x hx w hw) (steps_nonneg h n w hw y hy))
    ⟨z, hz, mul_pos h1 h2⟩

theorem exists_steps_pos (h : Stochastic F K) {x y : α} (hx : x ∈ F) (hr : Relation.ReflTransGen (Leads F K) x y) :
    y ∈ F ∧ ∃ n, 0 < steps F K n x y := by
  induction hr with
  | refl => exact ⟨hx, 0, by simp [steps]⟩
  | tail _ hl ih =>
    obtain ⟨hy, n, hn⟩ := ih
    exact ⟨hl.2.1, n + 1, steps_pos_add h hx hy hl.2.1 hn (by rw [steps_one _ _ hl.2.1]; exact hl.2.2)⟩

/-- If all elements lead to each other and one can stay where it is, there is a number of steps for which
all transitions have positive probability. -/
theorem primitive (h : Stochastic F K) (hirr : ∀ x ∈ F, ∀ y ∈ F, Relation.ReflTransGen (Leads F K) x y) (z : α)
    (hz : z ∈ F) (hloop : 0 < K z z) : ∃ m, 0 < m ∧ ∀ x ∈ F, ∀ y ∈ F, 0 < steps F K m x y := by
  have h1 : ∀ x : α, ∃ n, x ∈ F → 0 < steps F K n x z := fun x => by
    by_cases hx : x ∈ F
    · obtain ⟨n, hn⟩ := (exists_steps_pos h hx (hirr x hx z hz)).2
      exact ⟨n, fun _ => hn⟩
    · exact ⟨0, fun h => absurd h hx⟩
  have h2 : ∀ y : α, ∃ n, y ∈ F → 0 < steps F K n z y := fun y => by
    by_cases hy : y ∈ F
    · obtain ⟨n, hn⟩ := (exists_steps_pos h hz (hirr z hz y hy)).2
      exact ⟨n, fun _ => hn⟩
    · exact ⟨0, fun h => absurd h hy⟩
  choose a ha using h1
  choose b hb using h2
  have hstay : ∀ k, 0 < steps F K k z z := by
    intro k
    induction k with
    | zero => simp [steps]
    | succ k ih => exact steps_pos_add h hz hz hz ih (by rw [steps_one _ _ hz]; exact hloop)
  refine ⟨F.sup a + F.sup b + 1, by omega, fun x hx y hy => ?_⟩
  have e1 : a x ≤ F.sup a := Finset.le_sup hx
  have e2 : b y ≤ F.sup b := Finset.le_sup hy
  have := steps_pos_add h hx hz hy (steps_pos_add h hx hz hz (ha x hx) (hstay (F.sup a - a x + (F.sup b - b y) + 1)))
    (hb y hy)
  convert this using 2
  omega

end Verif.Markov
