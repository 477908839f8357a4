import Verif.Samplers.RunProps
import Verif.Samplers.Converge

/-!
# C68: where the global sampler goes

`MetropolisHastingsGlobal` accepts proposals of another sampler as if they were uniform. Its chains therefore converge to the
squared amplitudes multiplied with the probabilities of the proposals.
-/
namespace Verif.Metropolis

open Verif.Operators Verif.Markov Verif.Energy Filter Topology

variable {ι : Type} {C : Nat} [DecidableEq ι] [Fintype ι]

theorem globalKernel_stochastic (ψ : Config ι → ℂ) (q : Config ι → ℝ) (hq : ∑ s ∈ allSpins ι, q s = 1)
    (hpos : ∀ s, IsSpin s → 0 < q s) : Stochastic (allSpins ι) (globalKernel ψ q) := by
  have hw : ∀ s s' : Config ι, 0 ≤ min (weight ψ s' / weight ψ s) 1 := fun s s' =>
    le_min (div_pos (weight_pos ψ _) (weight_pos ψ _)).le zero_le_one
  refine ⟨fun s _ t _ => ?_, fun s hs => ?_⟩
  · unfold globalKernel
    exact Finset.sum_nonneg fun s' hs' => mul_nonneg (hpos s' ((mem_allSpins _).1 hs')).le
      (stepProb_nonneg _ _ _ (hw _ _) (min_le_right _ _))
  · unfold globalKernel
    rw [Finset.sum_comm]
    refine (Finset.sum_congr rfl fun s' hs' => ?_).trans hq
    rw [← Finset.mul_sum, stepProb_sum (allSpins ι) hs hs', mul_one]

theorem globalKernel_pos (ψ : Config ι → ℂ) (q : Config ι → ℝ) (hpos : ∀ s, IsSpin s → 0 < q s) (s t : Config ι)
    (ht : IsSpin t) : 0 < globalKernel ψ q s t := by
  have hw : ∀ s s' : Config ι, 0 < min (weight ψ s' / weight ψ s) 1 := fun s s' =>
    lt_min (div_pos (weight_pos ψ _) (weight_pos ψ _)) zero_lt_one
  unfold globalKernel
  refine Finset.sum_pos' (fun s' hs' => mul_nonneg (hpos s' ((mem_allSpins _).1 hs')).le
      (stepProb_nonneg _ _ _ (hw _ _).le (min_le_right _ _))) ⟨t, (mem_allSpins t).2 ht, mul_pos (hpos t ht) ?_⟩
  unfold stepProb
  have := hw s t
  have h1 := min_le_right (weight ψ t / weight ψ s) 1
  rw [if_pos rfl]
  split <;> linarith

/-- **C68, what the chains converge to**: for every wave function, every distribution `q` of the proposals that leaves no
configuration out, any number of chains and every start, the chains converge to independent draws from the squared amplitudes
times `q`. -/
theorem C68_limit (ψ : Config ι → ℂ) (q : Config ι → ℝ) (hq : ∑ s ∈ allSpins ι, q s = 1) (hpos : ∀ s, IsSpin s → 0 < q s)
    (S T : Fin C → Config ι) (hS : ∀ c, IsSpin (S c)) (hT : ∀ c, IsSpin (T c)) :
    Tendsto (fun n => afterSweeps (globalTransition ψ q) n S T) atTop
      (𝓝 (∏ c, ‖Complex.exp (ψ (T c))‖ ^ 2 * q (T c) / ∑ t ∈ allSpins ι, ‖Complex.exp (ψ t)‖ ^ 2 * q t)) := by
  simp only [afterSweeps_prod (globalTransition_eq ψ q)]
  refine tendsto_finsetProd _ fun c _ => ?_
  have hst := globalKernel_stochastic ψ q hq hpos
  set Z := ∑ t ∈ allSpins ι, weight ψ t * q t with hZ
  have hp : ∀ t ∈ allSpins ι, 0 < weight ψ t * q t := fun t ht => mul_pos (weight_pos ψ t) (hpos t ((mem_allSpins _).1 ht))
  have hZpos : 0 < Z := Finset.sum_pos hp ⟨_, (mem_allSpins _).2 (hS c)⟩
  have hbal : ∀ s t, IsSpin s → IsSpin t → weight ψ s * q s * globalKernel ψ q s t = weight ψ t * q t * globalKernel ψ q t s := by
    intro s t hs ht
    by_cases h : s = t
    · rw [h]
    have a := weight_pos ψ s
    have b := weight_pos ψ t
    have key : ∀ x y : ℝ, 0 < x → x * min (y / x) 1 = min y x := by
      intro x y hx
      rw [mul_min_of_nonneg _ _ hx.le, mul_div_cancel₀ _ hx.ne', mul_one]
    rw [globalKernel_ne ψ q ht h, globalKernel_ne ψ q hs (Ne.symm h),
      show weight ψ s * q s * (q t * min (weight ψ t / weight ψ s) 1) = q s * q t * (weight ψ s * min (weight ψ t / weight ψ s) 1) by ring,
      show weight ψ t * q t * (q s * min (weight ψ s / weight ψ t) 1) = q s * q t * (weight ψ t * min (weight ψ s / weight ψ t) 1) by ring,
      key _ _ a, key _ _ b, min_comm]
  have hstat : IsStationary (allSpins ι) (globalKernel ψ q) fun t => weight ψ t * q t / Z := by
    intro t ht
    have hterm : ∀ s ∈ allSpins ι, weight ψ s * q s / Z * globalKernel ψ q s t = weight ψ t * q t / Z * globalKernel ψ q t s := by
      intro s hs
      rw [div_mul_eq_mul_div, div_mul_eq_mul_div, hbal s t ((mem_allSpins s).1 hs) ((mem_allSpins t).1 ht)]
    rw [Finset.sum_congr rfl hterm, ← Finset.mul_sum, hst.row t ht, mul_one]
  have hone : ∀ s ∈ allSpins ι, ∀ t ∈ allSpins ι, 0 < steps (allSpins ι) (globalKernel ψ q) 1 s t := fun s hs t ht => by
    rw [steps_one s t ht]
    exact globalKernel_pos ψ q hpos s t ((mem_allSpins t).1 ht)
  refine converges hst hstat (fun t ht => (div_pos (hp t ht) hZpos).le) ?_ 1 one_pos hone _ _ ((mem_allSpins _).2 (hS c))
    ((mem_allSpins _).2 (hT c))
  rw [← Finset.sum_div, div_self hZpos.ne']

/-- **C68 and C87**: whatever the wave function, the chains of the global sampler converge to the squared amplitudes exactly
if the proposals are uniform. -/
theorem C68_converges_iff (hC : 0 < C) (ψ : Config ι → ℂ) (q : Config ι → ℝ) (hq : ∑ s ∈ allSpins ι, q s = 1)
    (hpos : ∀ s, IsSpin s → 0 < q s) :
    ConvergesTo (C := C) ψ (globalTransition ψ q) (fun _ => allSpins ι) ↔ ∀ s t, IsSpin s → IsSpin t → q s = q t := by
  set Z := ∑ t ∈ allSpins ι, weight ψ t * q t with hZ
  set W := ∑ t ∈ allSpins ι, weight ψ t with hW
  have hne : (allSpins ι).Nonempty := ⟨fun _ => 1, (mem_allSpins _).2 fun _ => Or.inl rfl⟩
  have hWpos : 0 < W := Finset.sum_pos (fun t _ => weight_pos ψ t) hne
  have hZpos : 0 < Z := Finset.sum_pos (fun t ht => mul_pos (weight_pos ψ t) (hpos t ((mem_allSpins _).1 ht))) hne
  constructor
  · intro h s t hs ht
    have hval : ∀ s, IsSpin s → q s = Z / W := by
      intro s hs
      have h1 := h (fun _ => s) (fun _ => s) (fun _ => (mem_allSpins _).2 hs) fun _ => (mem_allSpins _).2 hs
      have h2 := C68_limit (C := C) ψ q hq hpos (fun _ => s) (fun _ => s) (fun _ => hs) fun _ => hs
      have h3 := tendsto_nhds_unique h1 h2
      rw [Finset.prod_const, Finset.prod_const, Finset.card_univ, Fintype.card_fin] at h3
      have h4 := (pow_left_inj₀ (div_pos (weight_pos ψ s) hWpos).le
        (div_pos (mul_pos (weight_pos ψ s) (hpos s hs)) hZpos).le hC.ne').1 h3
      have := (weight_pos ψ s).ne'
      rw [div_eq_div_iff hWpos.ne' hZpos.ne'] at h4
      rw [eq_div_iff hWpos.ne']
      have h5 : weight ψ s * Z = weight ψ s * (q s * W) := by rw [h4]; ring
      exact (mul_left_cancel₀ this h5).symm
    rw [hval s hs, hval t ht]
  · intro h S T hS hT
    have := C68_limit ψ q hq hpos S T (fun c => (mem_allSpins _).1 (hS c)) fun c => (mem_allSpins _).1 (hT c)
    convert this using 3 with c
    have hqc : ∀ t ∈ allSpins ι, weight ψ t * q t = weight ψ t * q (T c) := fun t ht => by
      rw [h t (T c) ((mem_allSpins _).1 ht) ((mem_allSpins _).1 (hT c))]
    have e : ∑ t ∈ allSpins ι, ‖Complex.exp (ψ t)‖ ^ 2 * q t = W * q (T c) := by
      rw [hW, Finset.sum_mul]
      exact Finset.sum_congr rfl hqc
    rw [e]
    show weight ψ (T c) / W = weight ψ (T c) * q (T c) / _
    rw [mul_div_mul_right _ _ (hpos _ ((mem_allSpins _).1 (hT c))).ne']

/-- The hypotheses are met by proposals that are not uniform: a single spin that is proposed up with probability three
quarters. -/
example : ∃ q : Config (Fin 1) → ℝ, ∑ s ∈ allSpins (Fin 1), q s = 1 ∧ (∀ s, IsSpin s → 0 < q s) ∧
    ¬ ∀ s t, IsSpin s → IsSpin t → q s = q t := by
  refine ⟨fun s => if s 0 = 1 then 3 / 4 else 1 / 4, ?_, fun s _ => by dsimp only; split <;> norm_num, fun h => ?_⟩
  · have e : allSpins (Fin 1) = {fun _ => 1, fun _ => -1} := by
      ext s
      rw [mem_allSpins, Finset.mem_insert, Finset.mem_singleton]
      constructor
      · intro h
        rcases h 0 with h | h
        · exact Or.inl (funext fun i => by rw [Subsingleton.elim i 0, h])
        · exact Or.inr (funext fun i => by rw [Subsingleton.elim i 0, h])
      · rintro (rfl | rfl) i
        · exact Or.inl rfl
        · exact Or.inr rfl
    rw [e, Finset.sum_pair (fun h => by have := congrFun h 0; norm_num at this)]
    norm_num
  · have := h (fun _ => 1) (fun _ => -1) (fun _ => Or.inl rfl) (fun _ => Or.inr rfl)
    norm_num at this

end Verif.Metropolis
