import Verif.Samplers.Markov
import Mathlib.Algebra.Order.BigOperators.Group.Finset
import Mathlib.Algebra.Order.BigOperators.Ring.Finset
import Mathlib.Algebra.BigOperators.Field
import Mathlib.Data.List.GetD
import Mathlib.Tactic.FieldSimp
import Mathlib.Tactic.Positivity

/-!
# Runs of finite Markov chains

Independent of the code: expected values over the next states of a chain, and the law of large numbers for the average
over states at increasing times.
-/
namespace Verif.Markov

open Filter Topology

variable {α : Type} [DecidableEq α]

/-- Expected value of `G` over the list of the next `n` states, in their order, of the chain that is in `x`. -/
noncomputable def runMean (F : Finset α) (K : α → α → ℝ) : ℕ → α → (List α → ℝ) → ℝ
  | 0, _, G => G []
  | n + 1, x, G => ∑ y ∈ F, K x y * runMean F K n y fun l => G (y :: l)

/-- Expected value of `g` after `k` steps. -/
noncomputable def after (F : Finset α) (K : α → α → ℝ) (k : ℕ) (g : α → ℝ) (x : α) : ℝ := ∑ y ∈ F, steps F K k x y * g y

variable {F : Finset α} {K : α → α → ℝ}

omit [DecidableEq α] in
theorem runMean_add (n : ℕ) : ∀ (x : α) (G H : List α → ℝ),
    runMean F K n x (fun l => G l + H l) = runMean F K n x G + runMean F K n x H := by
  induction n with
  | zero => intro x G H; rfl
  | succ n ih =>
    intro x G H
    simp only [runMean]
    rw [← Finset.sum_add_distrib]
    exact Finset.sum_congr rfl fun y _ => by rw [ih, mul_add]

omit [DecidableEq α] in
theorem runMean_mul (n : ℕ) : ∀ (x : α) (c : ℝ) (G : List α → ℝ),
    runMean F K n x (fun l => c * G l) = c * runMean F K n x G := by
  induction n with
  | zero => intro x c G; rfl
  | succ n ih =>
    intro x c G
    simp only [runMean]
    rw [Finset.mul_sum]
    exact Finset.sum_congr rfl fun y _ => by rw [ih]; ring

omit [DecidableEq α] in
theorem runMean_const (h : Stochastic F K) (n : ℕ) : ∀ x ∈ F, ∀ c : ℝ, runMean F K n x (fun _ => c) = c := by
  induction n with
  | zero => intro x _ c; rfl
  | succ n ih =>
    intro x hx c
    simp only [runMean]
    rw [Finset.sum_congr rfl fun y hy => by rw [ih y hy c], ← Finset.sum_mul, h.row x hx, one_mul]

omit [DecidableEq α] in
theorem runMean_sum (h : Stochastic F K) (n : ℕ) (x : α) (hx : x ∈ F) {J : Type} (I : Finset J) (G : J → List α → ℝ) :
    runMean F K n x (fun l => ∑ j ∈ I, G j l) = ∑ j ∈ I, runMean F K n x (G j) := by
  classical
  induction I using Finset.induction_on with
  | empty => simpa using runMean_const h n x hx 0
  | insert j I hj ih =>
    rw [Finset.sum_insert hj, ← ih, ← runMean_add]
    simp only [Finset.sum_insert hj]

omit [DecidableEq α] in
theorem runMean_mono (h : Stochastic F K) (n : ℕ) : ∀ x ∈ F, ∀ G H : List α → ℝ,
    (∀ l : List α, l.length = n → (∀ y ∈ l, y ∈ F) → G l ≤ H l) → runMean F K n x G ≤ runMean F K n x H := by
  induction n with
  | zero => intro x _ G H hGH; exact hGH [] rfl (by simp)
  | succ n ih =>
    intro x hx G H hGH
    simp only [runMean]
    refine Finset.sum_le_sum fun y hy => mul_le_mul_of_nonneg_left (ih y hy _ _ fun l hl hm => ?_) (h.nonneg x hx y hy)
    exact hGH _ (by simp [hl]) (by simpa [hy] using hm)

omit [DecidableEq α] in
/-- Chains that cannot leave `F` can be summed over `F`. -/
theorem runMean_subset {F' : Finset α} (hF : F ⊆ F') (hK : ∀ x ∈ F, ∀ y ∈ F', y ∉ F → K x y = 0) (n : ℕ) :
    ∀ x ∈ F, ∀ G, runMean F' K n x G = runMean F K n x G := by
  induction n with
  | zero => intro x _ G; rfl
  | succ n ih =>
    intro x hx G
    simp only [runMean]
    rw [← Finset.sum_subset hF fun y hy hn => by rw [hK x hx y hy hn, zero_mul]]
    exact Finset.sum_congr rfl fun y hy => by rw [ih y hy]

theorem steps_within {F' : Finset α} (hF : F ⊆ F') (hK : ∀ x ∈ F, ∀ y ∈ F', y ∉ F → K x y = 0) (n : ℕ) :
    ∀ x ∈ F, ∀ y, steps F' K n x y = steps F K n x y := by
  induction n with
  | zero => intro x _ y; rfl
  | succ n ih =>
    intro x hx y
    simp only [steps]
    rw [← Finset.sum_subset hF fun z hz hn => by rw [hK x hx z hz hn, zero_mul]]
    exact Finset.sum_congr rfl fun z hz => by rw [ih z hz]

theorem after_one (g : α → ℝ) (x : α) : after F K 1 g x = ∑ y ∈ F, K x y * g y := by
  unfold after
  refine Finset.sum_congr rfl fun y hy => ?_
  simp [steps, hy]

theorem after_succ (k : ℕ) (g : α → ℝ) (x : α) : after F K (k + 1) g x = ∑ y ∈ F, K x y * after F K k g y := by
  unfold after
  simp only [steps, Finset.sum_mul, Finset.mul_sum]
  rw [Finset.sum_comm]
  exact Finset.sum_congr rfl fun y _ => Finset.sum_congr rfl fun z _ => by ring

theorem after_bound (h : Stochastic F K) (k : ℕ) (g : α → ℝ) (M : ℝ) (hg : ∀ y ∈ F, |g y| ≤ M) (x : α) (hx : x ∈ F) :
    |after F K k g x| ≤ M := by
  unfold after
  calc |∑ y ∈ F, steps F K k x y * g y| ≤ ∑ y ∈ F, |steps F K k x y * g y| := Finset.abs_sum_le_sum_abs _ _
    _ ≤ ∑ y ∈ F, steps F K k x y * M := Finset.sum_le_sum fun y hy => by
        rw [abs_mul, abs_of_nonneg (steps_nonneg h k x hx y hy)]
        exact mul_le_mul_of_nonneg_left (hg y hy) (steps_nonneg h k x hx y hy)
    _ = M := by rw [← Finset.sum_mul, steps_row h k x hx, one_mul]

/-- The state at one time. -/
theorem runMean_at (h : Stochastic F K) (g : α → ℝ) (d : α) (j : ℕ) : ∀ n, j < n → ∀ x ∈ F,
    runMean F K n x (fun l => g (l.getD j d)) = after F K (j + 1) g x := by
  induction j with
  | zero =>
    intro n hn x hx
    obtain ⟨n, rfl⟩ := Nat.exists_eq_add_of_lt hn
    rw [zero_add, zero_add, after_one]
    simp only [runMean, List.getD_cons_zero]
    exact Finset.sum_congr rfl fun y hy => by rw [runMean_const h n y hy]
  | succ j ih =>
    intro n hn x hx
    obtain ⟨n, rfl⟩ : ∃ k, n = k + 1 := ⟨n - 1, by omega⟩
    rw [after_succ]
    simp only [runMean, List.getD_cons_succ]
    exact Finset.sum_congr rfl fun y hy => by rw [ih n (by omega) y hy]

/-- The states at two times. -/
theorem runMean_pair (h : Stochastic F K) (f g : α → ℝ) (d : α) (i k : ℕ) : ∀ n, i + (k + 1) < n → ∀ x ∈ F,
    runMean F K n x (fun l => f (l.getD i d) * g (l.getD (i + (k + 1)) d)) =
      after F K (i + 1) (fun y => f y * after F K (k + 1) g y) x := by
  induction i with
  | zero =>
    intro n hn x hx
    obtain ⟨n, rfl⟩ : ∃ k, n = k + 1 := ⟨n - 1, by omega⟩
    rw [zero_add, zero_add, after_one]
    simp only [runMean, List.getD_cons_zero, List.getD_cons_succ]
    refine Finset.sum_congr rfl fun y hy => ?_
    rw [runMean_mul, runMean_at h g d k n (by omega) y hy]
  | succ i ih =>
    intro n hn x hx
    obtain ⟨n, rfl⟩ : ∃ k, n = k + 1 := ⟨n - 1, by omega⟩
    rw [after_succ]
    have e : i + 1 + (k + 1) = i + (k + 1) + 1 := by omega
    simp only [runMean, e, List.getD_cons_succ]
    exact Finset.sum_congr rfl fun y hy => by rw [ih n (by omega) y hy]

/-- The mean square of an average of a function with small expected value after `k₀` or more steps. -/
theorem meanSquare (h : Stochastic F K) (g : α → ℝ) (M η : ℝ) (hM : 0 ≤ M) (hη : 0 ≤ η) (k₀ : ℕ)
    (hg : ∀ y ∈ F, |g y| ≤ M) (hk : ∀ k, k₀ ≤ k → ∀ y ∈ F, |after F K k g y| ≤ η) (d : α) (N n : ℕ) (hN : 0 < N) (t : ℕ → ℕ)
    (ht : ∀ i j, i < j → j < N → t i + (j - i) ≤ t j) (hn : ∀ i < N, t i < n) (x : α) (hx : x ∈ F) :
    runMean F K n x (fun l => ((∑ i ∈ Finset.range N, g (l.getD (t i) d)) / N) ^ 2) ≤ (2 * k₀ + 1) * M ^ 2 / N + M * η := by
  have hNR : (0 : ℝ) < N := by exact_mod_cast hN
  have e1 : ∀ l : List α, ((∑ i ∈ Finset.range N, g (l.getD (t i) d)) / N) ^ 2 =
      (1 / (N : ℝ) ^ 2) * ∑ i ∈ Finset.range N, ∑ j ∈ Finset.range N, g (l.getD (t i) d) * g (l.getD (t j) d) := by
    intro l
    rw [← Finset.sum_mul_sum]
    field_simp
  simp only [e1]
  rw [runMean_mul, runMean_sum h n x hx]
  simp only [runMean_sum h n x hx]
  -- two times in order
  have hlt : ∀ i j, i < j → j < N → runMean F K n x (fun l => g (l.getD (t i) d) * g (l.getD (t j) d)) ≤
      M * η + if j < i + k₀ then M ^ 2 else 0 := by
    intro i j hij hj
    have hto := ht i j hij hj
    obtain ⟨k, hk'⟩ : ∃ k, t j = t i + (k + 1) := ⟨t j - t i - 1, by omega⟩
    rw [hk', runMean_pair h g g d (t i) k n (by rw [← hk']; exact hn j hj) x hx]
    refine (le_abs_self _).trans ?_
    have hb : ∀ c, (∀ y ∈ F, |after F K (k + 1) g y| ≤ c) → 0 ≤ c →
        |after F K (t i + 1) (fun y => g y * after F K (k + 1) g y) x| ≤ M * c := by
      intro c hc hc0
      refine after_bound h _ _ _ (fun y hy => ?_) x hx
      rw [abs_mul]
      exact mul_le_mul (hg y hy) (hc y hy) (abs_nonneg _) hM
    split
    · refine (hb M (fun y hy => after_bound h _ g M hg y hy) hM).trans ?_
      nlinarith [mul_nonneg hM hη]
    · rw [add_zero]
      exact hb η (hk (k + 1) (by omega)) hη
  have hall : ∀ i < N, ∀ j < N, runMean F K n x (fun l => g (l.getD (t i) d) * g (l.getD (t j) d)) ≤
      M * η + if j < i + (k₀ + 1) ∧ i < j + (k₀ + 1) then M ^ 2 else 0 := by
    intro i hi j hj
    rcases lt_trichotomy i j with hij | rfl | hij
    · refine (hlt i j hij hj).trans (add_le_add le_rfl ?_)
      split
      · rw [if_pos ⟨by omega, by omega⟩]
      · split <;> positivity
    · rw [if_pos ⟨by omega, by omega⟩]
      have e := runMean_at h (fun y => g y * g y) d (t i) n (hn i hi) x hx
      rw [e]
      refine (le_abs_self _).trans ((after_bound h _ _ (M ^ 2) (fun y hy => ?_) x hx).trans ?_)
      · rw [abs_mul, pow_two]
        exact mul_le_mul (hg y hy) (hg y hy) (abs_nonneg _) hM
      · nlinarith [mul_nonneg hM hη]
    · simp only [mul_comm (g (List.getD _ (t i) d))]
      refine (hlt j i hij hi).trans (add_le_add le_rfl ?_)
      split
      · rw [if_pos ⟨by omega, by omega⟩]
      · split <;> positivity
  have hrow : ∀ i < N, ∑ j ∈ Finset.range N, (if j < i + (k₀ + 1) ∧ i < j + (k₀ + 1) then M ^ 2 else 0) ≤ (2 * k₀ + 1) * M ^ 2 := by
    intro i _
    rw [← Finset.sum_filter, Finset.sum_const, nsmul_eq_mul]
    refine mul_le_mul_of_nonneg_right ?_ (by positivity)
    have hsub : (Finset.range N).filter (fun j => j < i + (k₀ + 1) ∧ i < j + (k₀ + 1)) ⊆ Finset.Ico (i - k₀) (i + (k₀ + 1)) := by
      intro j hj
      rw [Finset.mem_filter] at hj
      rw [Finset.mem_Ico]
      omega
    have hc := Finset.card_le_card hsub
    rw [Nat.card_Ico] at hc
    have : ((Finset.range N).filter (fun j => j < i + (k₀ + 1) ∧ i < j + (k₀ + 1))).card ≤ 2 * k₀ + 1 := by omega
    exact_mod_cast this
  have hsum : ∑ i ∈ Finset.range N, ∑ j ∈ Finset.range N, runMean F K n x (fun l => g (l.getD (t i) d) * g (l.getD (t j) d)) ≤
      N * (N * (M * η) + (2 * k₀ + 1) * M ^ 2) := by
    calc _ ≤ ∑ i ∈ Finset.range N, (N * (M * η) + (2 * k₀ + 1) * M ^ 2) := Finset.sum_le_sum fun i hi => by
          refine (Finset.sum_le_sum fun j hj => hall i (Finset.mem_range.1 hi) j (Finset.mem_range.1 hj)).trans ?_
          rw [Finset.sum_add_distrib, Finset.sum_const, Finset.card_range, nsmul_eq_mul]
          exact add_le_add le_rfl (hrow i (Finset.mem_range.1 hi))
      _ = _ := by rw [Finset.sum_const, Finset.card_range, nsmul_eq_mul]
  calc _ ≤ (1 / (N : ℝ) ^ 2) * (N * (N * (M * η) + (2 * k₀ + 1) * M ^ 2)) := mul_le_mul_of_nonneg_left hsum (by positivity)
    _ = _ := by field_simp; ring

/-- **Law of large numbers.** If the distribution of the chain converges to `π` from every start, averages over the states at
increasing times converge to the expected value in the mean square; the times and the start may depend on their number. -/
theorem averages (h : Stochastic F K) (π : α → ℝ)
    (hlim : ∀ x ∈ F, ∀ y ∈ F, Tendsto (fun n => steps F K n x y) atTop (𝓝 (π y)))
    (f : α → ℝ) (d : α) (n : ℕ → ℕ) (t : ℕ → ℕ → ℕ) (x : ℕ → α) (hx : ∀ N, x N ∈ F)
    (ht : ∀ N i j, i < j → j < N → t N i + (j - i) ≤ t N j) (hn : ∀ N, ∀ i < N, t N i < n N) :
    Tendsto (fun N => runMean F K (n N) (x N) fun l =>
      ((∑ i ∈ Finset.range N, f (l.getD (t N i) d)) / N - ∑ y ∈ F, π y * f y) ^ 2) atTop (𝓝 0) := by
  set m := ∑ y ∈ F, π y * f y with hm
  set g : α → ℝ := fun y => f y - m with hg
  have hafter : ∀ k, ∀ y ∈ F, after F K k g y = after F K k f y - m := by
    intro k y hy
    unfold after
    simp only [hg, mul_sub, Finset.sum_sub_distrib, ← Finset.sum_mul]
    rw [steps_row h k y hy, one_mul]
  have hto : ∀ y ∈ F, Tendsto (fun k => |after F K k g y|) atTop (𝓝 0) := by
    intro y hy
    have h1 : Tendsto (fun k => after F K k f y) atTop (𝓝 m) := by
      unfold after
      exact tendsto_finsetSum _ fun z hz => (hlim y hy z hz).mul_const _
    have h2 := (h1.sub_const m).abs
    rw [sub_self, abs_zero] at h2
    exact h2.congr fun k => by rw [hafter k y hy]
  set M := ∑ y ∈ F, |g y| with hM
  have hM0 : 0 ≤ M := Finset.sum_nonneg fun _ _ => abs_nonneg _
  have hgM : ∀ y ∈ F, |g y| ≤ M := fun y hy => Finset.single_le_sum (f := fun y => |g y|) (fun _ _ => abs_nonneg _) hy
  have hnonneg : ∀ N, 0 ≤ runMean F K (n N) (x N) fun l => ((∑ i ∈ Finset.range N, f (l.getD (t N i) d)) / N - m) ^ 2 := by
    intro N
    rw [← runMean_const h (n N) (x N) (hx N) 0]
    exact runMean_mono h _ _ (hx N) _ _ fun l _ _ => by positivity
  rw [Metric.tendsto_atTop]
  intro ε hε
  have hη : 0 < ε / (2 * (M + 1)) := by positivity
  have hev : ∀ᶠ k in atTop, ∀ y ∈ F, |after F K k g y| < ε / (2 * (M + 1)) :=
    (Filter.eventually_all_finset F).2 fun y hy => (hto y hy).eventually_lt_const hη
  obtain ⟨k₀, hk₀⟩ := eventually_atTop.1 hev
  obtain ⟨N₀, hN₀⟩ := exists_nat_gt (2 * ((2 * k₀ + 1) * M ^ 2) / ε)
  refine ⟨N₀ + 1, fun N hN => ?_⟩
  rw [Real.dist_eq, sub_zero, abs_of_nonneg (hnonneg N)]
  have hNpos : 0 < N := by omega
  have hNR : (0 : ℝ) < N := by exact_mod_cast hNpos
  have hb := meanSquare h g M _ hM0 hη.le k₀ hgM (fun k hk y hy => (hk₀ k hk y hy).le) d N (n N) hNpos (t N) (ht N) (hn N) (x N) (hx N)
  have e : ∀ l : List α, (∑ i ∈ Finset.range N, g (l.getD (t N i) d)) / N =
      (∑ i ∈ Finset.range N, f (l.getD (t N i) d)) / N - m := by
    intro l
    simp only [hg, Finset.sum_sub_distrib, Finset.sum_const, Finset.card_range, nsmul_eq_mul]
    field_simp
  simp only [e] at hb
  refine lt_of_le_of_lt hb ?_
  have h1 : (2 * k₀ + 1) * M ^ 2 / N < ε / 2 := by
    have hN' : (N₀ : ℝ) < N := by exact_mod_cast (by omega : N₀ < N)
    have := hN₀.trans hN'
    rw [div_lt_iff₀ hε] at this
    rw [div_lt_iff₀ hNR]
    linarith
  have h2 : M * (ε / (2 * (M + 1))) ≤ ε / 2 := by
    rw [mul_div_assoc', div_le_div_iff₀ (by positivity) (by norm_num)]
    nlinarith
  linarith

end Verif.Markov
