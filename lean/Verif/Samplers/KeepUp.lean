import Verif.Samplers.ConvergeHam

/-!
# C150: chains that are carried on from batch to batch follow the changing weights

The Metropolis samplers never start afresh: a batch goes on with the configurations where the last batch ended
(metropolis_hastings.py 49-66), though training has changed the weights in between, and changed them depending on the
configurations drawn before. What a sweep does with the weights of the moment is modelled in `Samplers/Metropolis.lean`; the
stored log amplitudes are those of the weights of the moment, since every batch begins with `machine_updated` (C47).
-/
namespace Verif.Metropolis

open Verif.Operators Verif.Markov Filter Topology
open Verif.Energy (allSpins mem_allSpins)

variable {ι : Type} {C D : Nat} {shape : Fin D → Nat}

/-! ### Specification -/

section
variable [DecidableEq ι] [Fintype ι]

open Classical in
/-- Probability that the chains are in `T` after `n` sweeps from `S`, if the wave function changes on the way: `ψ h` is the
wave function in use after the configurations `h`, the latest first; `P ψ` are the one-sweep transition probabilities with the
wave function `ψ`. -/
noncomputable def whileTraining (P : (Config ι → ℂ) → (Fin C → Config ι) → (Fin C → Config ι) → ℝ)
    (ψ : List (Fin C → Config ι) → Config ι → ℂ) : ℕ → List (Fin C → Config ι) → (Fin C → Config ι) → (Fin C → Config ι) → ℝ
  | 0, _, S, T => if S = T then 1 else 0
  | n + 1, h, S, T => ∑ Z ∈ Fintype.piFinset fun _ : Fin C => allSpins ι,
      P (ψ (S :: h)) S Z * whileTraining P ψ n (S :: h) Z T

/-- The log amplitudes differ by at most `d` in the real part, which is all that Metropolis sampling sees. -/
def Within (d : ℝ) (φ ψ : Config ι → ℂ) : Prop := ∀ s, IsSpin s → |(φ s).re - (ψ s).re| ≤ d

/-- What C150 says of the sampler `P`, of chains with configurations in `F` and of the wave function `ψ₀`. -/
structure KeepsUp (P : (Config ι → ℂ) → (Fin C → Config ι) → (Fin C → Config ι) → ℝ) (F : Fin C → Finset (Config ι))
    (ψ₀ : Config ι → ℂ) : Prop where
  /-- If the wave function stayed close to `ψ₀` for long enough, then the chains are distributed like independent draws from
  the squared amplitudes, up to any given error, whatever happened before and however the changes depend on what was drawn.
  Long enough and close enough do not depend on the history. -/
  recent : ∀ ε > 0, ∃ N : ℕ, ∃ d > 0, ∀ (ψ : List (Fin C → Config ι) → Config ι → ℂ) (h : List (Fin C → Config ι)),
    (∀ h', h <:+ h' → Within d (ψ h') ψ₀) → ∀ n ≥ N, ∀ S T, (∀ c, S c ∈ F c) → (∀ c, T c ∈ F c) →
    |whileTraining P ψ n h S T - ∏ c, weight ψ₀ (T c) / ∑ t ∈ F c, weight ψ₀ t| ≤ ε
  /-- If the wave function converges to `ψ₀` in the course of the training, then the distribution of the chains converges to
  independent draws from the squared amplitudes. -/
  limit : ∀ ψ : List (Fin C → Config ι) → Config ι → ℂ, (∀ d > 0, ∃ k : ℕ, ∀ h, k ≤ h.length → Within d (ψ h) ψ₀) →
    ∀ S T, (∀ c, S c ∈ F c) → (∀ c, T c ∈ F c) →
    Tendsto (fun n => whileTraining P ψ n [] S T) atTop (𝓝 (∏ c, weight ψ₀ (T c) / ∑ t ∈ F c, weight ψ₀ t))

/-! ### How far one sweep changes with the wave function -/

theorem min_exp_lipschitz (x y : ℝ) : |min (Real.exp x) 1 - min (Real.exp y) 1| ≤ |x - y| := by
  wlog hxy : y ≤ x with H
  · rw [abs_sub_comm, abs_sub_comm x y]
    exact H y x (le_of_not_ge hxy)
  have hmono : min (Real.exp y) 1 ≤ min (Real.exp x) 1 := min_le_min_right _ (Real.exp_le_exp.2 hxy)
  rw [abs_of_nonneg (sub_nonneg.2 hmono), abs_of_nonneg (sub_nonneg.2 hxy)]
  rcases le_total y 0 with hy | hy
  · have e : min (Real.exp y) 1 = Real.exp y := min_eq_left (Real.exp_le_one_iff.2 hy)
    have h1 : min (Real.exp x) 1 ≤ Real.exp (min x 0) := by
      rcases le_total x 0 with hx | hx
      · rw [min_eq_left hx]; exact min_le_left _ _
      · rw [min_eq_right hx, Real.exp_zero]; exact min_le_right _ _
    have hz : min x 0 ≤ 0 := min_le_right _ _
    have hyz : y ≤ min x 0 := le_min hxy hy
    have h2 : Real.exp y = Real.exp (min x 0) * Real.exp (y - min x 0) := by rw [← Real.exp_add]; congr 1; ring
    have h3 := Real.add_one_le_exp (y - min x 0)
    have h4 : Real.exp (min x 0) ≤ 1 := Real.exp_le_one_iff.2 hz
    have h5 := Real.exp_pos (min x 0)
    rw [e]
    have h6 : Real.exp (min x 0) * (1 - Real.exp (y - min x 0)) ≤ 1 * (min x 0 - y) :=
      mul_le_mul h4 (by linarith) (by have := Real.exp_le_one_iff.2 (by linarith : y - min x 0 ≤ 0); linarith) zero_le_one
    have h7 : min x 0 ≤ x := min_le_left _ _
    nlinarith
  · have e : min (Real.exp y) 1 = 1 := min_eq_right (Real.one_le_exp hy)
    have := min_le_right (Real.exp x) 1
    rw [e]; linarith

omit [DecidableEq ι] [Fintype ι] in
theorem stepProb_lipschitz (s s' t : Config ι) (ρ ρ' : ℝ) : |stepProb s s' ρ t - stepProb s s' ρ' t| ≤ |ρ - ρ'| := by
  unfold stepProb
  split <;> split
  · rw [show ρ + (1 - ρ) - (ρ' + (1 - ρ')) = 0 by ring, abs_zero]; exact abs_nonneg _
  · rw [add_zero, add_zero]
  · rw [show (0 : ℝ) + (1 - ρ) - (0 + (1 - ρ')) = -(ρ - ρ') by ring, abs_neg]
  · simp

theorem prod_lipschitz (a b : Fin C → ℝ) (ha : ∀ c, 0 ≤ a c ∧ a c ≤ 1) (hb : ∀ c, 0 ≤ b c ∧ b c ≤ 1) (e : ℝ)
    (h : ∀ c, |a c - b c| ≤ e) : |∏ c, a c - ∏ c, b c| ≤ C * e := by
  have key : ∀ A : Finset (Fin C), |∏ c ∈ A, a c - ∏ c ∈ A, b c| ≤ A.card * e ∧ 0 ≤ ∏ c ∈ A, b c ∧ ∏ c ∈ A, b c ≤ 1 := by
    intro A
    induction A using Finset.induction_on with
    | empty => simp
    | insert c A hc ih =>
      obtain ⟨h1, h2, h3⟩ := ih
      rw [Finset.prod_insert hc, Finset.prod_insert hc, Finset.card_insert_of_notMem hc]
      refine ⟨?_, mul_nonneg (hb c).1 h2, mul_le_one₀ (hb c).2 h2 h3⟩
      rw [show a c * ∏ c ∈ A, a c - b c * ∏ c ∈ A, b c =
        a c * (∏ c ∈ A, a c - ∏ c ∈ A, b c) + (a c - b c) * ∏ c ∈ A, b c by ring]
      refine (abs_add_le _ _).trans ?_
      rw [abs_mul, abs_mul, abs_of_nonneg (ha c).1, abs_of_nonneg h2]
      have h4 : a c * |∏ c ∈ A, a c - ∏ c ∈ A, b c| ≤ 1 * (A.card * e) := mul_le_mul (ha c).2 h1 (abs_nonneg _) zero_le_one
      have h5 : |a c - b c| * ∏ c ∈ A, b c ≤ e * 1 := mul_le_mul (h c) h3 h2 ((abs_nonneg _).trans (h c))
      push_cast
      linarith
  have := (key Finset.univ).1
  rwa [Finset.card_univ, Fintype.card_fin] at this

/-! ### Many sweeps -/

section chain
variable {P : (Config ι → ℂ) → (Fin C → Config ι) → (Fin C → Config ι) → ℝ}

theorem whileTraining_bounds {G : Finset (Fin C → Config ι)} (hG : G = Fintype.piFinset fun _ : Fin C => allSpins ι)
    (hst : ∀ ψ, Stochastic G (P ψ)) (ψ : List (Fin C → Config ι) → Config ι → ℂ) (T : Fin C → Config ι) (n : ℕ) :
    ∀ h, ∀ S ∈ G, 0 ≤ whileTraining P ψ n h S T ∧ whileTraining P ψ n h S T ≤ 1 := by
  subst hG
  induction n with
  | zero =>
    intro h S _
    unfold whileTraining
    split <;> norm_num
  | succ n ih =>
    intro h S hS
    unfold whileTraining
    refine ⟨Finset.sum_nonneg fun Z hZ => mul_nonneg ((hst _).nonneg S hS Z hZ) (ih _ Z hZ).1, ?_⟩
    rw [← (hst (ψ (S :: h))).row S hS]
    exact Finset.sum_le_sum fun Z hZ => mul_le_of_le_one_right ((hst _).nonneg S hS Z hZ) (ih _ Z hZ).2

theorem whileTraining_close {G : Finset (Fin C → Config ι)} (hG : G = Fintype.piFinset fun _ : Fin C => allSpins ι)
    (hst : ∀ ψ, Stochastic G (P ψ)) {L d : ℝ} {ψ₀ : Config ι → ℂ}
    (hlip : ∀ φ, Within d φ ψ₀ → ∀ S ∈ G, ∀ T ∈ G, |P φ S T - P ψ₀ S T| ≤ L * d)
    (ψ : List (Fin C → Config ι) → Config ι → ℂ) (T : Fin C → Config ι) (n : ℕ) :
    ∀ h, (∀ h', h <:+ h' → Within d (ψ h') ψ₀) → ∀ S ∈ G,
      |whileTraining P ψ n h S T - afterSweeps (P ψ₀) n S T| ≤ n * (G.card * (L * d)) := by
  classical
  subst hG
  induction n with
  | zero =>
    intro h _ S _
    unfold whileTraining afterSweeps steps
    simp
  | succ n ih =>
    intro h hh S hS
    have hh' : ∀ h', (S :: h) <:+ h' → Within d (ψ h') ψ₀ := fun h' hs => hh h' ((List.suffix_cons S h).trans hs)
    have e1 : afterSweeps (P ψ₀) (n + 1) S T =
        ∑ Z ∈ Fintype.piFinset fun _ : Fin C => allSpins ι, P ψ₀ S Z * afterSweeps (P ψ₀) n Z T := rfl
    rw [e1]
    unfold whileTraining
    rw [← Finset.sum_sub_distrib]
    refine (Finset.abs_sum_le_sum_abs _ _).trans ?_
    have hterm : ∀ Z ∈ Fintype.piFinset fun _ : Fin C => allSpins ι,
        |P (ψ (S :: h)) S Z * whileTraining P ψ n (S :: h) Z T - P ψ₀ S Z * afterSweeps (P ψ₀) n Z T| ≤
          L * d + P ψ₀ S Z * (n * ((Fintype.piFinset fun _ : Fin C => allSpins ι).card * (L * d))) := by
      intro Z hZ
      rw [show P (ψ (S :: h)) S Z * whileTraining P ψ n (S :: h) Z T - P ψ₀ S Z * afterSweeps (P ψ₀) n Z T =
        (P (ψ (S :: h)) S Z - P ψ₀ S Z) * whileTraining P ψ n (S :: h) Z T +
          P ψ₀ S Z * (whileTraining P ψ n (S :: h) Z T - afterSweeps (P ψ₀) n Z T) by ring]
      refine (abs_add_le _ _).trans ?_
      rw [abs_mul, abs_mul]
      have hb := whileTraining_bounds rfl hst ψ T n (S :: h) Z hZ
      have h1 := hlip _ (hh' _ (List.suffix_refl _)) S hS Z hZ
      have h2 := ih (S :: h) hh' Z hZ
      have h3 := (hst ψ₀).nonneg S hS Z hZ
      rw [abs_of_nonneg hb.1, abs_of_nonneg h3]
      refine add_le_add ?_ (mul_le_mul_of_nonneg_left h2 h3)
      calc _ ≤ L * d * 1 := mul_le_mul h1 hb.2 hb.1 ((abs_nonneg _).trans h1)
        _ = L * d := mul_one _
    refine (Finset.sum_le_sum hterm).trans ?_
    rw [Finset.sum_add_distrib, Finset.sum_const, nsmul_eq_mul, ← Finset.sum_mul, (hst ψ₀).row S hS]
    push_cast
    linarith

/-- What was so after `N` sweeps from everywhere is so after more sweeps. -/
theorem whileTraining_later {G : Finset (Fin C → Config ι)} (hG : G = Fintype.piFinset fun _ : Fin C => allSpins ι)
    (hst : ∀ ψ, Stochastic G (P ψ)) (F : Fin C → Finset (Config ι)) (hF : ∀ c, F c ⊆ allSpins ι)
    (hout : ∀ ψ S, (∀ c, S c ∈ F c) → ∀ Z ∈ G, ¬ (∀ c, Z c ∈ F c) → P ψ S Z = 0)
    (ψ : List (Fin C → Config ι) → Config ι → ℂ) (T : Fin C → Config ι) (N : ℕ) (b ε : ℝ) (m : ℕ) :
    ∀ h, (∀ h', h <:+ h' → h.length + m ≤ h'.length → ∀ S, (∀ c, S c ∈ F c) → |whileTraining P ψ N h' S T - b| ≤ ε) →
      ∀ S, (∀ c, S c ∈ F c) → |whileTraining P ψ (m + N) h S T - b| ≤ ε := by
  subst hG
  induction m with
  | zero => intro h hh S hS; rw [Nat.zero_add]; exact hh h (List.suffix_refl _) (by omega) S hS
  | succ m ih =>
    intro h hh S hS
    have hSG : S ∈ Fintype.piFinset fun _ : Fin C => allSpins ι := Fintype.mem_piFinset.2 fun c => hF c (hS c)
    rw [Nat.succ_add]
    unfold whileTraining
    have hrow := (hst (ψ (S :: h))).row S hSG
    rw [show b = ∑ Z ∈ Fintype.piFinset fun _ : Fin C => allSpins ι, P (ψ (S :: h)) S Z * b by
      rw [← Finset.sum_mul, hrow, one_mul], ← Finset.sum_sub_distrib]
    refine (Finset.abs_sum_le_sum_abs _ _).trans ?_
    rw [show ε = ∑ Z ∈ Fintype.piFinset fun _ : Fin C => allSpins ι, P (ψ (S :: h)) S Z * ε by
      rw [← Finset.sum_mul, hrow, one_mul]]
    refine Finset.sum_le_sum fun Z hZ => ?_
    rw [← mul_sub, abs_mul, abs_of_nonneg ((hst _).nonneg S hSG Z hZ)]
    by_cases hZF : ∀ c, Z c ∈ F c
    · refine mul_le_mul_of_nonneg_left (ih (S :: h) (fun h' hs hl => hh h' ((List.suffix_cons S h).trans hs) ?_) Z hZF)
        ((hst _).nonneg S hSG Z hZ)
      simp only [List.length_cons] at hl
      omega
    · rw [hout _ S hS Z hZ hZF, zero_mul, zero_mul]

theorem keepsUp_of {G : Finset (Fin C → Config ι)} (hG : G = Fintype.piFinset fun _ : Fin C => allSpins ι)
    (hst : ∀ ψ, Stochastic G (P ψ)) {L : ℝ} (hL : 0 ≤ L) {ψ₀ : Config ι → ℂ}
    (hlip : ∀ d, 0 < d → ∀ φ, Within d φ ψ₀ → ∀ S ∈ G, ∀ T ∈ G, |P φ S T - P ψ₀ S T| ≤ L * d)
    (F : Fin C → Finset (Config ι)) (hF : ∀ c, F c ⊆ allSpins ι)
    (hout : ∀ ψ S, (∀ c, S c ∈ F c) → ∀ Z ∈ G, ¬ (∀ c, Z c ∈ F c) → P ψ S Z = 0)
    (hconv : ConvergesTo ψ₀ (P ψ₀) F) : KeepsUp P F ψ₀ := by
  classical
  -- the frozen chain, for all starts and ends together
  have hfrozen : ∀ ε > 0, ∃ N : ℕ, ∀ S T, (∀ c, S c ∈ F c) → (∀ c, T c ∈ F c) →
      |afterSweeps (P ψ₀) N S T - ∏ c, weight ψ₀ (T c) / ∑ t ∈ F c, weight ψ₀ t| ≤ ε := by
    intro ε hε
    have hall : ∀ᶠ n in atTop, ∀ S ∈ Fintype.piFinset F, ∀ T ∈ Fintype.piFinset F,
        |afterSweeps (P ψ₀) n S T - ∏ c, weight ψ₀ (T c) / ∑ t ∈ F c, weight ψ₀ t| ≤ ε := by
      rw [Filter.eventually_all_finset]
      intro S hS
      rw [Filter.eventually_all_finset]
      intro T hT
      have := Metric.tendsto_atTop.1 (hconv S T (Fintype.mem_piFinset.1 hS) (Fintype.mem_piFinset.1 hT)) ε hε
      obtain ⟨N, hN⟩ := this
      exact Filter.eventually_atTop.2 ⟨N, fun n hn => (hN n hn).le⟩
    obtain ⟨N, hN⟩ := hall.exists
    exact ⟨N, fun S T hS hT => hN S (Fintype.mem_piFinset.2 hS) T (Fintype.mem_piFinset.2 hT)⟩
  have hwindow : ∀ ε > 0, ∃ N : ℕ, ∃ d > 0, ∀ (ψ : List (Fin C → Config ι) → Config ι → ℂ) (h : List (Fin C → Config ι)),
      (∀ h', h <:+ h' → Within d (ψ h') ψ₀) → ∀ S T, (∀ c, S c ∈ F c) → (∀ c, T c ∈ F c) →
      |whileTraining P ψ N h S T - ∏ c, weight ψ₀ (T c) / ∑ t ∈ F c, weight ψ₀ t| ≤ ε := by
    intro ε hε
    obtain ⟨N, hN⟩ := hfrozen (ε / 2) (by positivity)
    have hpos : 0 < N * (G.card * L) + 1 := by positivity
    refine ⟨N, ε / 2 / (N * (G.card * L) + 1), by positivity, fun ψ h hh S T hS hT => ?_⟩
    have hSG : S ∈ G := by rw [hG]; exact Fintype.mem_piFinset.2 fun c => hF c (hS c)
    have h1 := whileTraining_close hG hst (hlip _ (by positivity)) ψ T N h hh S hSG
    have h2 := hN S T hS hT
    have h3 : N * (G.card * (L * (ε / 2 / (N * (G.card * L) + 1)))) ≤ ε / 2 := by
      rw [show N * (G.card * (L * (ε / 2 / (N * (G.card * L) + 1)))) = N * (G.card * L) * (ε / 2) / (N * (G.card * L) + 1) by
        ring, div_le_iff₀ hpos]
      nlinarith
    calc _ ≤ |whileTraining P ψ N h S T - afterSweeps (P ψ₀) N S T| +
          |afterSweeps (P ψ₀) N S T - ∏ c, weight ψ₀ (T c) / ∑ t ∈ F c, weight ψ₀ t| := abs_sub_le _ _ _
      _ ≤ ε := by linarith
  refine ⟨fun ε hε => ?_, fun ψ hψ S T hS hT => ?_⟩
  · obtain ⟨N, d, hd, H⟩ := hwindow ε hε
    refine ⟨N, d, hd, fun ψ h hh n hn S T hS hT => ?_⟩
    obtain ⟨m, rfl⟩ : ∃ m, n = m + N := ⟨n - N, by omega⟩
    exact whileTraining_later hG hst F hF hout ψ T N _ ε m h
      (fun h' hs _ S hS => H ψ h' (fun h'' hs' => hh h'' (hs.trans hs')) S T hS hT) S hS
  · refine Metric.tendsto_atTop.2 fun ε hε => ?_
    obtain ⟨N, d, hd, H⟩ := hwindow (ε / 2) (by positivity)
    obtain ⟨k, hk⟩ := hψ d hd
    refine ⟨k + N, fun n hn => lt_of_le_of_lt ?_ (half_lt_self hε)⟩
    obtain ⟨m, rfl⟩ : ∃ m, n = m + N := ⟨n - N, by omega⟩
    exact whileTraining_later hG hst F hF hout ψ T N _ _ m []
      (fun h' _ hl S hS => H ψ h' (fun h'' hs' => hk h'' (by
        have := hs'.length_le
        simp only [List.length_nil] at hl
        omega)) S T hS hT) S hS

end chain

/-! ### Metropolis kernels -/

section kernel
variable {κ : Config ι → Type} [∀ s, Fintype (κ s)] (cand : (s : Config ι) → κ s → Config ι) (g : (s : Config ι) → κ s → ℝ)

/-- The acceptance ratio with a correction that does not depend on the wave function. -/
noncomputable def ratioOf (ψ : Config ι → ℂ) (s : Config ι) (k : κ s) : ℝ :=
  Real.exp (((ψ (cand s k)).re - (ψ s).re) * 2 + g s k)

omit [DecidableEq ι] [Fintype ι] in
theorem kernel_lipschitz {d : ℝ} (hd : 0 < d) {φ ψ : Config ι → ℂ} (h : Within d φ ψ) (s t : Config ι) (hs : IsSpin s)
    (hc : ∀ k, IsSpin (cand s k)) : |kernel cand (ratioOf cand g φ) s t - kernel cand (ratioOf cand g ψ) s t| ≤ 4 * d := by
  unfold kernel
  rw [← sub_div, ← Finset.sum_sub_distrib, abs_div, Nat.abs_cast]
  rcases Nat.eq_zero_or_pos (Fintype.card (κ s)) with h0 | h0
  · rw [h0]; simp; positivity
  rw [div_le_iff₀ (by exact_mod_cast h0)]
  refine (Finset.abs_sum_le_sum_abs _ _).trans ?_
  have : ∀ k ∈ (Finset.univ : Finset (κ s)), |stepProb s (cand s k) (min (ratioOf cand g φ s k) 1) t -
      stepProb s (cand s k) (min (ratioOf cand g ψ s k) 1) t| ≤ 4 * d := by
    intro k _
    refine (stepProb_lipschitz _ _ _ _ _).trans ((min_exp_lipschitz _ _).trans ?_)
    have h1 := abs_le.1 (h s hs)
    have h2 := abs_le.1 (h _ (hc k))
    exact abs_le.2 ⟨by linarith [h1.1, h1.2, h2.1, h2.2], by linarith [h1.1, h1.2, h2.1, h2.2]⟩
  refine (Finset.sum_le_sum this).trans ?_
  rw [Finset.sum_const, Finset.card_univ, nsmul_eq_mul, mul_comm]

theorem kernel_keepsUp {P : (Config ι → ℂ) → (Fin C → Config ι) → (Fin C → Config ι) → ℝ}
    (hP : ∀ ψ S T, P ψ S T = ∏ c, kernel cand (ratioOf cand g ψ) (S c) (T c)) (hR : ∀ s, IsSpin s → 0 < Fintype.card (κ s))
    (hspin : ∀ s, IsSpin s → ∀ k, IsSpin (cand s k)) (F : Fin C → Finset (Config ι)) (hF : ∀ c, F c ⊆ allSpins ι)
    (hmove : ∀ c, ∀ s ∈ F c, ∀ k, cand s k ∈ F c) {ψ₀ : Config ι → ℂ} (hconv : ConvergesTo ψ₀ (P ψ₀) F) : KeepsUp P F ψ₀ := by
  have hr : ∀ ψ s (k : κ s), 0 < ratioOf cand g ψ s k := fun ψ s k => Real.exp_pos _
  have hK0 : ∀ ψ s t, 0 ≤ kernel cand (ratioOf cand g ψ) s t := fun ψ s t => kernel_nonneg cand _ (hr ψ) s t
  have hK1 : ∀ ψ, ∀ s ∈ allSpins ι, ∑ t ∈ allSpins ι, kernel cand (ratioOf cand g ψ) s t = 1 := fun ψ s hs =>
    kernel_sum _ _ _ s hs (fun k => (mem_allSpins _).2 (hspin s ((mem_allSpins s).1 hs) k)) (hR s ((mem_allSpins s).1 hs))
  have hKle : ∀ ψ, ∀ s ∈ allSpins ι, ∀ t ∈ allSpins ι, kernel cand (ratioOf cand g ψ) s t ≤ 1 := fun ψ s hs t ht => by
    rw [← hK1 ψ s hs]
    exact Finset.single_le_sum (f := fun t => kernel cand (ratioOf cand g ψ) s t) (fun t _ => hK0 ψ s t) ht
  refine keepsUp_of (L := C * 4) rfl (fun ψ => ⟨fun S _ T _ => ?_, fun S hS => ?_⟩) (by positivity) (fun d hd φ hφ S hS T hT => ?_) F hF
    (fun ψ S hS Z _ hZF => ?_) hconv
  · rw [hP]; exact Finset.prod_nonneg fun c _ => hK0 ψ _ _
  · simp only [hP]
    rw [← Finset.prod_univ_sum (fun _ : Fin C => allSpins ι) (fun c s => kernel cand (ratioOf cand g ψ) (S c) s)]
    exact Finset.prod_eq_one fun c _ => hK1 ψ _ (Fintype.mem_piFinset.1 hS c)
  · rw [hP, hP, mul_assoc]
    have hS' := Fintype.mem_piFinset.1 hS
    have hT' := Fintype.mem_piFinset.1 hT
    exact prod_lipschitz _ _ (fun c => ⟨hK0 _ _ _, hKle _ _ (hS' c) _ (hT' c)⟩) (fun c => ⟨hK0 _ _ _, hKle _ _ (hS' c) _ (hT' c)⟩) _
      fun c => kernel_lipschitz cand g hd hφ _ _ ((mem_allSpins _).1 (hS' c)) (hspin _ ((mem_allSpins _).1 (hS' c)))
  · rw [hP]
    push Not at hZF
    obtain ⟨c, hc⟩ := hZF
    refine Finset.prod_eq_zero (Finset.mem_univ c) ?_
    unfold kernel
    rw [Finset.sum_eq_zero, zero_div]
    intro k _
    unfold stepProb
    rw [if_neg (fun h : cand (S c) k = Z c => hc (h ▸ hmove c (S c) (hS c) k)), if_neg (fun h : S c = Z c => hc (h ▸ hS c)), add_zero]

end kernel

omit [DecidableEq ι] [Fintype ι] in
theorem symKernel_eq {R : Type} [Fintype R] (ψ : Config ι → ℂ) (move : R → Config ι → Config ι) :
    symKernel ψ move = kernel (κ := fun _ => R) (fun s r => move r s) (ratioOf (κ := fun _ => R) (fun s r => move r s) (fun _ _ => 0) ψ) := by
  unfold symKernel ratioOf
  congr 1
  funext s r
  rw [weight_eq, weight_eq, ← Real.exp_sub, add_zero, sub_mul]

theorem symmetric_keepsUp {R : Type} [Fintype R] (move : R → Config ι → Config ι)
    {P : (Config ι → ℂ) → (Fin C → Config ι) → (Fin C → Config ι) → ℝ}
    (hP : ∀ ψ S T, P ψ S T = ∏ c, symKernel ψ move (S c) (T c)) (hR : 0 < Fintype.card R)
    (hspin : ∀ s, IsSpin s → ∀ r, IsSpin (move r s)) (F : Fin C → Finset (Config ι)) (hF : ∀ c, F c ⊆ allSpins ι)
    (hmove : ∀ c, ∀ s ∈ F c, ∀ r, move r s ∈ F c) {ψ₀ : Config ι → ℂ} (hconv : ConvergesTo ψ₀ (P ψ₀) F) : KeepsUp P F ψ₀ :=
  kernel_keepsUp (κ := fun _ => R) (fun s r => move r s) (fun _ _ => 0) (fun ψ S T => by rw [hP]; simp only [symKernel_eq])
    (fun _ _ => hR) hspin F hF hmove hconv

theorem hamiltonian_keepsUp (rows : Config ι → List (Row ι ℝ)) (find find' : (Fin C → Config ι) → Fin C → List (Row ι ℝ))
    (hf : ∀ S c, find S c = rows (S c)) (hf' : ∀ S c, find' S c = rows (S c)) (hself : ∀ s, Offers rows s s)
    (hspin : ∀ s, IsSpin s → ∀ t, Offers rows s t → IsSpin t) (F : Fin C → Finset (Config ι)) (hF : ∀ c, F c ⊆ allSpins ι)
    (hmove : ∀ c, ∀ s ∈ F c, ∀ t, Offers rows s t → t ∈ F c) {ψ₀ : Config ι → ℂ}
    (hconv : ConvergesTo ψ₀ (hamiltonianTransition ψ₀ find find') F) :
    KeepsUp (fun ψ => hamiltonianTransition ψ find find') F ψ₀ := by
  refine kernel_keepsUp (κ := fun s => Fin (numConn (rows s))) (fun s k => choose (rows s) k)
    (fun s k => Real.log ((numConn (rows s) : ℝ) / (numConn (rows (choose (rows s) k)) : ℝ)))
    (fun ψ S T => hamiltonian_transition ψ rows find find' hf hf' S T) (fun s _ => ?_)
    (fun s hs k => hspin s hs _ ((choose_offers rows s _).1 ⟨k, rfl⟩)) F hF
    (fun c s hs k => hmove c s hs _ ((choose_offers rows s _).1 ⟨k, rfl⟩)) hconv
  obtain ⟨k, -⟩ := (choose_offers rows s s).2 (hself s)
  exact Fintype.card_pos_iff.2 ⟨k⟩

end

/-! ### C150 -/

/-- **C150, uniform moves.** -/
theorem C150_uniform [Fintype ι] [DecidableEq ι] (ψ₀ : Config ι → ℂ) :
    KeepsUp (C := C) uniformTransition (fun _ => allSpins ι) ψ₀ := by
  have hspin : ∀ r : ι → Fin 2, IsSpin fun i => if r i = 0 then (-1 : ℤ) else 1 := fun r i => by
    dsimp only
    split
    · exact Or.inr rfl
    · exact Or.inl rfl
  exact symmetric_keepsUp (fun (r : ι → Fin 2) _ i => if r i = 0 then (-1 : ℤ) else 1) uniform_product
    (Fintype.card_pos_iff.2 ⟨fun _ => 0⟩) (fun _ _ r => hspin r) _ (fun _ => Finset.Subset.refl _)
    (fun _ _ _ r => (mem_allSpins _).2 (hspin r)) (C87_uniform ψ₀)

/-- **C150, local moves**, if the squared amplitude is not the same for all configurations (C87_violated_local). -/
theorem C150_local (hd : ∀ d, 0 < shape d) (ψ₀ : Config (Idx shape) → ℂ) (s t : Config (Idx shape)) (hs : IsSpin s)
    (ht : IsSpin t) (hne : weight ψ₀ s ≠ weight ψ₀ t) :
    KeepsUp (C := C) localTransition (fun _ => allSpins (Idx shape)) ψ₀ :=
  symmetric_keepsUp (fun r : Idx shape => Operators.flip r) local_product (Fintype.card_pos_iff.2 ⟨fun d => ⟨0, hd d⟩⟩)
    (fun _ hs r => flip_spin hs r) _ (fun _ => Finset.Subset.refl _)
    (fun _ _ hs r => (mem_allSpins _).2 (flip_spin ((mem_allSpins _).1 hs) r)) (C87_local_partial hd ψ₀ s t hs ht hne)

/-- **C150, exchange moves:** on the configurations with the magnetisation of the start. -/
theorem C150_exchange (hd : ∀ d, 0 < shape d) (ψ₀ : Config (Idx shape) → ℂ) (M : Fin C → ℤ) :
    KeepsUp (C := C) exchangeTransition (fun c => sector (M c)) ψ₀ :=
  symmetric_keepsUp (fun r : Idx shape × (Fin D → Fin 3) => exchange r.1 fun d => moveIdx (r.1 d) (r.2 d)) exchange_product
    (Fintype.card_pos_iff.2 ⟨fun d => ⟨0, hd d⟩, fun _ => 0⟩) (fun _ hs r => exchange_spin hs _ _) _
    (fun c s hs => (mem_allSpins s).2 ((mem_sector _ s).1 hs).1)
    (fun c s hs r => by
      rw [mem_sector] at hs ⊢
      exact ⟨exchange_spin hs.1 _ _, by rw [magnetization_exchange]; exact hs.2⟩) (C87_exchange hd ψ₀ M)

theorem ising_keepsUp [Fintype ι] [DecidableEq ι] (ψ₀ : Config ι → ℂ) (sites : List ι) (e : ℝ)
    (f : Config ι → ℝ) (find : (Fin C → Config ι) → Fin C → List (Row ι ℝ))
    (hf : ∀ S c, find S c = ⟨S c, f (S c), true⟩ :: sites.map fun i => ⟨Operators.flip i (S c), e, true⟩)
    (hconv : ConvergesTo ψ₀ (hamiltonianTransition ψ₀ find find) fun _ => allSpins ι) :
    KeepsUp (fun ψ => hamiltonianTransition ψ find find) (fun _ => allSpins ι) ψ₀ := by
  have hspin : ∀ s : Config ι, IsSpin s → ∀ t,
      Offers (fun s => ⟨s, f s, true⟩ :: sites.map fun i => ⟨Operators.flip i s, e, true⟩) s t → IsSpin t := by
    rintro s hs t ⟨r, hr, -, rfl⟩
    rcases List.mem_cons.1 hr with rfl | hr
    · exact hs
    · obtain ⟨i, -, rfl⟩ := List.mem_map.1 hr
      exact flip_spin hs i
  exact hamiltonian_keepsUp (fun s => ⟨s, f s, true⟩ :: sites.map fun i => ⟨Operators.flip i s, e, true⟩) find find hf hf
    (fun s => ⟨_, List.mem_cons_self, rfl, rfl⟩) hspin _ (fun _ => Finset.Subset.refl _)
    (fun _ s hs t h => (mem_allSpins t).2 (hspin s ((mem_allSpins s).1 hs) t h)) hconv

/-- **C150, Hamiltonian moves of the Ising chain.** -/
theorem C150_ising_chain {n : Nat} (ψ₀ : Config (Fin n) → ℂ) (h : Field) (j : ℝ) (pbc : Bool) :
    KeepsUp (C := C) (fun ψ => hamiltonianTransition ψ (isingFindConn1 h j pbc) (isingFindConn1 h j pbc))
      (fun _ => allSpins (Fin n)) ψ₀ :=
  ising_keepsUp ψ₀ (List.finRange n) (-h.val)
    (fun s => h.store (∑ i : Fin n, -(j * (s i : ℝ) * (pad1 pbc s (i.val + 1) : ℝ)))) _
    (fun S c => isingFindConn1_eq h j pbc S c) (C87_ising_chain ψ₀ h j pbc)

/-- **C150, Hamiltonian moves of the Ising model on a grid.** -/
theorem C150_ising_grid {n m : Nat} (ψ₀ : Config (Fin n × Fin m) → ℂ) (h : Field) (j : ℝ) (pbc : Bool) :
    KeepsUp (C := C) (fun ψ => hamiltonianTransition ψ (isingFindConn2 h j pbc) (isingFindConn2 h j pbc))
      (fun _ => allSpins (Fin n × Fin m)) ψ₀ :=
  ising_keepsUp ψ₀ (gridSites n m) (-h.val)
    (fun s => h.store (∑ p : Fin n × Fin m,
        (-(if n > 1 then j * (s p : ℝ) * (pad1 pbc (fun i' => s (i', p.2)) (p.1.val + 1) : ℝ) else 0)
          - (if m > 1 then j * (s p : ℝ) * (pad1 pbc (fun j' => s (p.1, j')) (p.2.val + 1) : ℝ) else 0)))) _
    (fun S c => isingFindConn2_eq h j pbc S c) (C87_ising_grid ψ₀ h j pbc)

/-- **C150, Hamiltonian moves of the Heisenberg model on a grid:** on the configurations with the magnetisation of the start,
after any calls of `find_conn`. -/
theorem C150_heisenberg_grid {n m : Nat} (ψ₀ : Config (Fin n × Fin m) → ℂ) (rot pbc : Bool) (hist hist' : List (Call n m))
    (M : Fin C → ℤ) :
    let find := fun S : Fin C → Config (Fin n × Fin m) => (((HeisOp.new2 n m rot pbc).run hist).findConn C S).2
    let find' := fun S : Fin C → Config (Fin n × Fin m) => (((HeisOp.new2 n m rot pbc).run hist').findConn C S).2
    KeepsUp (fun ψ => hamiltonianTransition ψ find find') (fun c => sector (M c)) ψ₀ := by
  intro find find'
  have hmoves : ∀ s : Config (Fin n × Fin m), IsSpin s → ∀ t, Offers (heisRows (offDiag rot) pbc 2) s t →
      IsSpin t ∧ magnetization t = magnetization s := by
    intro s hs t h
    rcases heis_moves _ _ _ h with rfl | ⟨p, q, rfl⟩
    · exact ⟨hs, rfl⟩
    · exact ⟨exchange_spin hs _ _, magnetization_exchange _ _ _⟩
  refine hamiltonian_keepsUp (heisRows (offDiag rot) pbc 2) _ _ (fun S c => answer2 _ _ _ _ _ _) (fun S c => answer2 _ _ _ _ _ _)
    (fun s => ⟨_, List.mem_cons_self, rfl, rfl⟩) (fun s hs t h => (hmoves s hs t h).1) _
    (fun c s hs => (mem_allSpins s).2 ((mem_sector _ s).1 hs).1) (fun c s hs t h => ?_)
    (C87_heisenberg_grid ψ₀ rot pbc hist hist' M)
  rw [mem_sector] at hs ⊢
  exact ⟨(hmoves s hs.1 t h).1, (hmoves s hs.1 t h).2.trans hs.2⟩

/-- **C150, Hamiltonian moves of the Heisenberg chain.** -/
theorem C150_heisenberg_chain {n : Nat} (ψ₀ : Config (Fin n) → ℂ) (rot pbc : Bool) (hist hist' : List (Call n 1))
    (M : Fin C → ℤ) :
    let find := fun S : Fin C → Config (Fin n) => (((HeisOp.new1 n rot pbc).run hist).findConn1 C S).2
    let find' := fun S : Fin C → Config (Fin n) => (((HeisOp.new1 n rot pbc).run hist').findConn1 C S).2
    KeepsUp (fun ψ => hamiltonianTransition ψ find find') (fun c => sector (M c)) ψ₀ := by
  intro find find'
  have hmoves : ∀ s : Config (Fin n), IsSpin s → ∀ t,
      Offers (fun s => (heisRows (offDiag rot) pbc 1 (expandDims s)).map squeezeRow) s t →
      IsSpin t ∧ magnetization t = magnetization s := by
    intro s hs t h
    have h' := (offers_squeeze (heisRows (offDiag rot) pbc 1) (expandDims s) (expandDims t)).1 h
    rcases heis_moves _ _ _ h' with e | ⟨p, q, e⟩
    · have : t = s := congrArg squeeze e
      rw [this]; exact ⟨hs, rfl⟩
    · have : t = exchange p.1 q.1 s := (congrArg squeeze e).trans (squeeze_exchange s p.1 q.1 p.2 q.2)
      rw [this]
      exact ⟨exchange_spin hs _ _, magnetization_exchange _ _ _⟩
  refine hamiltonian_keepsUp (fun s => (heisRows (offDiag rot) pbc 1 (expandDims s)).map squeezeRow) _ _
    (fun S c => answer1 _ _ _ _ _ _) (fun S c => answer1 _ _ _ _ _ _)
    (fun s => ⟨_, List.mem_map_of_mem List.mem_cons_self, rfl, rfl⟩) (fun s hs t h => (hmoves s hs t h).1) _
    (fun c s hs => (mem_allSpins s).2 ((mem_sector _ s).1 hs).1) (fun c s hs t h => ?_)
    (C87_heisenberg_chain ψ₀ rot pbc hist hist' M)
  rw [mem_sector] at hs ⊢
  exact ⟨(hmoves s hs.1 t h).1, (hmoves s hs.1 t h).2.trans hs.2⟩

/-- **C150 in terms of the weights**, for every sampler of the theorems above: if the weights converge in the course of the
training and the log amplitudes depend continuously on them, then the chains converge to independent draws from the squared
amplitudes of the trained network, without being restarted. `θ h` are the weights after the configurations `h`. -/
theorem C150_weights [Fintype ι] [DecidableEq ι] {P : (Config ι → ℂ) → (Fin C → Config ι) → (Fin C → Config ι) → ℝ}
    {F : Fin C → Finset (Config ι)} {n : ℕ} (net : (Fin n → ℝ) → Config ι → ℂ) (θ₀ : Fin n → ℝ)
    (hP : KeepsUp P F (net θ₀)) (hcont : ∀ s, IsSpin s → ContinuousAt (fun θ => net θ s) θ₀)
    (θ : List (Fin C → Config ι) → Fin n → ℝ) (hθ : ∀ d > 0, ∃ k : ℕ, ∀ h, k ≤ h.length → ∀ i, |θ h i - θ₀ i| ≤ d)
    (S T : Fin C → Config ι) (hS : ∀ c, S c ∈ F c) (hT : ∀ c, T c ∈ F c) :
    Tendsto (fun t => whileTraining P (fun h => net (θ h)) t [] S T) atTop
      (𝓝 (∏ c, ‖Complex.exp (net θ₀ (T c))‖ ^ 2 / ∑ t ∈ F c, ‖Complex.exp (net θ₀ t)‖ ^ 2)) := by
  refine hP.limit (fun h => net (θ h)) (fun d hd => ?_) S T hS hT
  have hnear : ∀ᶠ θ in 𝓝 θ₀, ∀ s ∈ allSpins ι, |(net θ s).re - (net θ₀ s).re| ≤ d := by
    rw [Filter.eventually_all_finset]
    intro s hs
    have h1 : ContinuousAt (fun θ => (net θ s).re) θ₀ :=
      Complex.continuous_re.continuousAt.comp (hcont s ((mem_allSpins s).1 hs))
    have h2 := Metric.continuousAt_iff'.1 h1 d hd
    exact h2.mono fun θ h => le_of_lt h
  obtain ⟨r, hr, hball⟩ := Metric.eventually_nhds_iff.1 hnear
  obtain ⟨k, hk⟩ := hθ (r / 2) (by positivity)
  refine ⟨k, fun h hl s hs => hball ?_ s ((mem_allSpins s).2 hs)⟩
  refine lt_of_le_of_lt ((dist_pi_le_iff (by positivity)).2 fun i => ?_) (half_lt_self hr)
  exact hk h hl i

/-- The hypotheses are met by weights that never come to rest and depend on what was drawn: two chains of one spin, the
weight after `k` sweeps is one over `k` if the first chain is up and minus that if it is down. -/
example : ∃ θ : List (Fin 2 → Config (Fin 1)) → Fin 1 → ℝ,
    (∀ d > 0, ∃ k : ℕ, ∀ h, k ≤ h.length → ∀ i, |θ h i - (0 : Fin 1 → ℝ) i| ≤ d) ∧
    θ [fun _ _ => 1] ≠ θ [fun _ _ => -1] ∧
    ∀ S T, (∀ c : Fin 2, IsSpin (S c)) → (∀ c, IsSpin (T c)) →
      Tendsto (fun t => whileTraining uniformTransition (fun h s => ((θ h 0 * s 0 : ℝ) : ℂ)) t [] S T) atTop (𝓝 (1 / 4)) := by
  set θ : List (Fin 2 → Config (Fin 1)) → Fin 1 → ℝ := fun h _ => match h with
    | [] => 0
    | S :: h => (if S 0 0 = 1 then 1 else -1) / ((h.length : ℝ) + 1) with hdef
  have hθ : ∀ d > 0, ∃ k : ℕ, ∀ h, k ≤ h.length → ∀ i, |θ h i - (0 : Fin 1 → ℝ) i| ≤ d := by
    intro d hd
    obtain ⟨k, hk⟩ := exists_nat_one_div_lt hd
    refine ⟨k + 1, fun h hl i => ?_⟩
    rcases h with _ | ⟨S, h⟩
    · simp at hl
    have hl' : (k : ℝ) ≤ h.length := by
      have : k ≤ h.length := by simpa using hl
      exact_mod_cast this
    have h1 : |θ (S :: h) i - (0 : Fin 1 → ℝ) i| = 1 / ((h.length : ℝ) + 1) := by
      simp only [hdef, Pi.zero_apply, sub_zero, abs_div]
      rw [abs_of_pos (by positivity : (0 : ℝ) < h.length + 1)]
      congr 1
      split <;> simp
    rw [h1]
    refine le_trans ?_ hk.le
    exact one_div_le_one_div_of_le (by positivity) (by linarith)
  refine ⟨θ, hθ, fun h => ?_, fun S T hS hT => ?_⟩
  · have := congrFun h 0
    simp only [hdef] at this
    norm_num at this
  · have h1 := C150_weights (P := uniformTransition) (F := fun _ => allSpins (Fin 1)) (fun (w : Fin 1 → ℝ) s => ((w 0 * s 0 : ℝ) : ℂ))
      0 (C150_uniform _) (fun s _ => (Complex.continuous_ofReal.comp ((continuous_apply 0).mul continuous_const)).continuousAt) θ hθ S T (fun c => (mem_allSpins _).2 (hS c)) fun c => (mem_allSpins _).2 (hT c)
    convert h1 using 2
    have hcard : ∑ t ∈ allSpins (Fin 1), (1 : ℝ) = 2 := by
      rw [Finset.sum_const, nsmul_eq_mul, mul_one]
      have e : allSpins (Fin 1) = {fun _ => 1, fun _ => -1} := by
        ext s
        rw [mem_allSpins, Finset.mem_insert, Finset.mem_singleton]
        constructor
        · intro h
          rcases h 0 with h | h
          · exact Or.inl (funext fun i => by rw [Subsingleton.elim i 0, h])
          · exact Or.inr (funext fun i => by rw [Subsingleton.elim i 0, h])
        · rintro (rfl | rfl) i
          · exact Or.inl rfl
          · exact Or.inr rfl
      rw [e, Finset.card_pair (fun h => by have := congrFun h 0; norm_num at this)]
      norm_num
    simp only [Pi.zero_apply, zero_mul, Complex.ofReal_zero, Complex.exp_zero, norm_one, one_pow, hcard]
    norm_num

end Verif.Metropolis
