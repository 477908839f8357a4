import Verif.Samplers.BalanceProps
import Verif.Samplers.Markov

/-!
# C87: the chains converge to the squared amplitudes
-/
namespace Verif.Metropolis

open Verif.Operators Verif.Markov Filter Topology
open Verif.Energy (allSpins mem_allSpins)

variable {ι : Type} {C D : Nat} {shape : Fin D → Nat}

/-! ### Specification -/

open Classical in
/-- Probability that the chains are in `T` after `n` sweeps from `S`, for one-sweep transition
probabilities `P`: the random numbers of different sweeps are independent. -/
noncomputable def afterSweeps [DecidableEq ι] [Fintype ι] (P : (Fin C → Config ι) → (Fin C → Config ι) → ℝ) (n : ℕ)
    (S T : Fin C → Config ι) : ℝ := steps (Fintype.piFinset fun _ : Fin C => allSpins ι) P n S T

/-- The joint distribution of the chains converges, from every start in the sets `F c`, to independent
draws from the squared amplitudes on these sets. -/
def ConvergesTo [DecidableEq ι] [Fintype ι] (ψ : Config ι → ℂ) (P : (Fin C → Config ι) → (Fin C → Config ι) → ℝ)
    (F : Fin C → Finset (Config ι)) : Prop :=
  ∀ S T : Fin C → Config ι, (∀ c, S c ∈ F c) → (∀ c, T c ∈ F c) →
    Tendsto (fun n => afterSweeps P n S T) atTop (𝓝 (∏ c, weight ψ (T c) / ∑ t ∈ F c, weight ψ t))

/-- Sites whose positions differ by at most one in every direction, around the boundary. -/
def Neighbours (i j : Idx shape) : Prop :=
  ∀ d, j d = i d ∨ (j d).val = ((i d).val + 1) % shape d ∨ (i d).val = ((j d).val + 1) % shape d

open Classical in
/-- Spin configurations with given magnetisation. -/
noncomputable def sector [DecidableEq ι] [Fintype ι] (M : ℤ) : Finset (Config ι) :=
  (allSpins ι).filter fun s => magnetization s = M

/-! ### From one chain to many -/

section
variable [DecidableEq ι] [Fintype ι]

theorem afterSweeps_prod {P : (Fin C → Config ι) → (Fin C → Config ι) → ℝ} {K : Config ι → Config ι → ℝ}
    (h : ∀ S T, P S T = ∏ c, K (S c) (T c)) (n : ℕ) (S T : Fin C → Config ι) :
    afterSweeps P n S T = ∏ c, steps (allSpins ι) K n (S c) (T c) := by
  classical
  unfold afterSweeps
  induction n generalizing S with
  | zero =>
    simp only [steps]
    by_cases hST : S = T
    · subst hST; simp
    · rw [if_neg hST]
      obtain ⟨c, hc⟩ := Function.ne_iff.1 hST
      exact (Finset.prod_eq_zero (Finset.mem_univ c) (if_neg hc)).symm
  | succ n ih =>
    simp only [steps, ih, h, ← Finset.prod_mul_distrib]
    rw [Finset.prod_univ_sum]

/-- Transitions that cannot leave a set can be summed over that set. -/
theorem steps_subset {F G : Finset (Config ι)} {K : Config ι → Config ι → ℝ} (hFG : F ⊆ G)
    (hK : ∀ s ∈ F, ∀ t ∈ G, t ∉ F → K s t = 0) (n : ℕ) : ∀ s ∈ F, ∀ t, steps G K n s t = steps F K n s t := by
  induction n with
  | zero => intro s _ t; simp only [steps]
  | succ n ih =>
    intro s hs t
    simp only [steps]
    rw [← Finset.sum_subset hFG fun z hz hz' => by rw [hK s hs z hz hz', zero_mul]]
    exact Finset.sum_congr rfl fun z hz => by rw [ih z hz]

omit [DecidableEq ι] [Fintype ι] in
theorem stepProb_nonneg (s s' t : Config ι) {ρ : ℝ} (h0 : 0 ≤ ρ) (h1 : ρ ≤ 1) : 0 ≤ stepProb s s' ρ t := by
  unfold stepProb
  refine add_nonneg ?_ ?_ <;> split <;> linarith

section kernel
variable {κ : Config ι → Type} [∀ s, Fintype (κ s)] (cand : (s : Config ι) → κ s → Config ι)
  (ratio : (s : Config ι) → κ s → ℝ) (hr : ∀ s k, 0 < ratio s k)
include hr

omit [DecidableEq ι] [Fintype ι] [∀ s, Fintype (κ s)] in
theorem ratio_nonneg (s : Config ι) (k : κ s) : 0 ≤ min (ratio s k) 1 := le_min (hr s k).le zero_le_one

omit [DecidableEq ι] [Fintype ι] in
theorem kernel_nonneg (s t : Config ι) : 0 ≤ kernel cand ratio s t :=
  div_nonneg (Finset.sum_nonneg fun _ _ => stepProb_nonneg _ _ _ (ratio_nonneg ratio hr _ _) (min_le_right _ _))
    (Nat.cast_nonneg _)

omit [DecidableEq ι] [Fintype ι] in
theorem kernel_pos_of (s t : Config ι) (k : κ s) (h : 0 < stepProb s (cand s k) (min (ratio s k) 1) t) :
    0 < kernel cand ratio s t := by
  refine div_pos (Finset.sum_pos' (fun _ _ => stepProb_nonneg _ _ _ (ratio_nonneg ratio hr _ _) (min_le_right _ _))
    ⟨k, Finset.mem_univ k, h⟩) ?_
  exact_mod_cast Fintype.card_pos_iff.2 ⟨k⟩

omit [DecidableEq ι] [Fintype ι] in
theorem kernel_move_pos (s : Config ι) (k : κ s) : 0 < kernel cand ratio s (cand s k) := by
  refine kernel_pos_of cand ratio hr s _ k ?_
  have h1 : 0 < min (ratio s k) 1 := lt_min (hr s k) one_pos
  have h2 := min_le_right (ratio s k) 1
  unfold stepProb
  rw [if_pos rfl]
  split <;> linarith

omit [DecidableEq ι] [Fintype ι] in
/-- A move that can be rejected. -/
theorem kernel_stay_pos (s : Config ι) (k : κ s) (h : ratio s k < 1) : 0 < kernel cand ratio s s := by
  refine kernel_pos_of cand ratio hr s s k ?_
  have h1 : min (ratio s k) 1 < 1 := lt_of_le_of_lt (min_le_left _ _) h
  have h0 := ratio_nonneg ratio hr s k
  unfold stepProb
  rw [if_pos (rfl : s = s)]
  split <;> linarith

/-- Metropolis chains converge on sets that the moves do not leave, if detailed balance holds, the moves
lead from everywhere to everywhere and there is a configuration where the chain can stay. -/
theorem kernel_converges (ψ : Config ι → ℂ) {P : (Fin C → Config ι) → (Fin C → Config ι) → ℝ}
    (hP : ∀ S T, P S T = ∏ c, kernel cand ratio (S c) (T c))
    (hbal : ∀ s t, IsSpin s → IsSpin t → weight ψ s * kernel cand ratio s t = weight ψ t * kernel cand ratio t s)
    (hR : ∀ s, 0 < Fintype.card (κ s)) (F : Fin C → Finset (Config ι)) (hF : ∀ c, F c ⊆ allSpins ι)
    (hmove : ∀ c, ∀ s ∈ F c, ∀ k, cand s k ∈ F c)
    (hirr : ∀ c, ∀ s ∈ F c, ∀ t ∈ F c, Relation.ReflTransGen (fun a b => ∃ k, cand a k = b) s t)
    (hstay : ∀ c, (F c).Nonempty → ∃ z ∈ F c, 0 < kernel cand ratio z z) : ConvergesTo ψ P F := by
  intro S T hS hT
  simp only [afterSweeps_prod hP]
  refine tendsto_finset_prod _ fun c _ => ?_
  have hst : Stochastic (F c) (kernel cand ratio) := ⟨fun s _ t _ => kernel_nonneg cand ratio hr s t, fun s hs =>
    kernel_sum _ _ (F c) s hs (fun k => hmove c s hs k) (hR s)⟩
  have hout : ∀ s ∈ F c, ∀ t ∈ allSpins ι, t ∉ F c → kernel cand ratio s t = 0 := by
    intro s hs t _ ht
    unfold kernel
    rw [Finset.sum_eq_zero, zero_div]
    intro k _
    unfold stepProb
    rw [if_neg (fun h : cand s k = t => ht (h ▸ hmove c s hs k)), if_neg (fun h : s = t => ht (h ▸ hs)), add_zero]
  simp only [steps_subset (hF c) hout _ _ (hS c)]
  set Z := ∑ t ∈ F c, weight ψ t with hZ
  have hZpos : 0 < Z := Finset.sum_pos (fun t _ => weight_pos ψ t) ⟨_, hS c⟩
  have hstat : IsStationary (F c) (kernel cand ratio) fun t => weight ψ t / Z := by
    intro t ht
    have hterm : ∀ s ∈ F c, weight ψ s / Z * kernel cand ratio s t = weight ψ t / Z * kernel cand ratio t s := by
      intro s hs
      rw [div_mul_eq_mul_div, div_mul_eq_mul_div,
        hbal s t ((mem_allSpins s).1 (hF c hs)) ((mem_allSpins t).1 (hF c ht))]
    rw [Finset.sum_congr rfl hterm, ← Finset.mul_sum, hst.row t ht, mul_one]
  obtain ⟨z, hz, hloop⟩ := hstay c ⟨_, hS c⟩
  have hlead : ∀ s ∈ F c, ∀ t, Relation.ReflTransGen (fun a b => ∃ k, cand a k = b) s t →
      t ∈ F c ∧ Relation.ReflTransGen (Leads (F c) (kernel cand ratio)) s t := by
    intro s hs t h
    induction h with
    | refl => exact ⟨hs, .refl⟩
    | tail _ hk ih =>
      obtain ⟨k, rfl⟩ := hk
      exact ⟨hmove c _ ih.1 k, ih.2.tail ⟨ih.1, hmove c _ ih.1 k, kernel_move_pos cand ratio hr _ k⟩⟩
  obtain ⟨m, hm, hpos⟩ := primitive hst (fun s hs t ht => (hlead s hs t (hirr c s hs t ht)).2) z hz hloop
  refine converges hst hstat (fun t _ => div_nonneg (weight_pos ψ t).le hZpos.le) ?_ m hm hpos _ _ (hS c) (hT c)
  rw [← Finset.sum_div, div_self hZpos.ne']

end kernel

section symmetric
variable {R : Type} [Fintype R]

omit [DecidableEq ι] [Fintype ι] [Fintype R] in
theorem ratio_pos (ψ : Config ι → ℂ) (move : R → Config ι → Config ι) (s : Config ι) (r : R) :
    0 < weight ψ (move r s) / weight ψ s := div_pos (weight_pos ψ _) (weight_pos ψ _)

omit [DecidableEq ι] [Fintype ι] in
theorem symKernel_move_pos (ψ : Config ι → ℂ) (move : R → Config ι → Config ι) (s : Config ι) (r : R) :
    0 < symKernel ψ move s (move r s) :=
  kernel_move_pos (κ := fun _ => R) (fun s r => move r s) _ (ratio_pos ψ move) s r

omit [DecidableEq ι] [Fintype ι] in
theorem symKernel_stay_pos (ψ : Config ι → ℂ) (move : R → Config ι → Config ι) (s : Config ι) (r : R)
    (h : weight ψ (move r s) < weight ψ s) : 0 < symKernel ψ move s s :=
  kernel_stay_pos (κ := fun _ => R) (fun s r => move r s) _ (ratio_pos ψ move) s r ((div_lt_one (weight_pos ψ s)).2 h)

theorem symmetric_converges (ψ : Config ι → ℂ) (move : R → Config ι → Config ι)
    {P : (Fin C → Config ι) → (Fin C → Config ι) → ℝ} (hP : ∀ S T, P S T = ∏ c, symKernel ψ move (S c) (T c))
    (hbal : ∀ s t, IsSpin s → IsSpin t → weight ψ s * symKernel ψ move s t = weight ψ t * symKernel ψ move t s)
    (hR : 0 < Fintype.card R) (F : Fin C → Finset (Config ι)) (hF : ∀ c, F c ⊆ allSpins ι)
    (hmove : ∀ c, ∀ s ∈ F c, ∀ r, move r s ∈ F c)
    (hirr : ∀ c, ∀ s ∈ F c, ∀ t ∈ F c, Relation.ReflTransGen (fun a b => ∃ r, move r a = b) s t)
    (hstay : ∀ c, (F c).Nonempty → ∃ z ∈ F c, 0 < symKernel ψ move z z) : ConvergesTo ψ P F :=
  kernel_converges (κ := fun _ => R) (fun s r => move r s) _ (ratio_pos ψ move) ψ hP hbal (fun _ => hR) F hF hmove hirr hstay

end symmetric

end

/-! ### Uniform moves -/

theorem uniform_product [Fintype ι] [DecidableEq ι] (ψ : Config ι → ℂ) (S T : Fin C → Config ι) :
    uniformTransition ψ S T =
      ∏ c, symKernel ψ (fun (r : ι → Fin 2) _ i => if r i = 0 then (-1 : ℤ) else 1) (S c) (T c) :=
  symmetric_transition ψ (fun (r : ι → Fin 2) _ i => if r i = 0 then (-1 : ℤ) else 1) S T

theorem uniform_hits [Fintype ι] [DecidableEq ι] (t : Config ι) (ht : IsSpin t) :
    ∃ r : ι → Fin 2, (fun i => if r i = 0 then (-1 : ℤ) else 1) = t := by
  refine ⟨fun i => if t i = 1 then 1 else 0, ?_⟩
  funext i
  rcases ht i with h | h <;> simp [h]

/-- **C87, uniform moves:** for every wave function and any number of chains, from every start. -/
theorem C87_uniform [Fintype ι] [DecidableEq ι] (ψ : Config ι → ℂ) :
    ConvergesTo (C := C) ψ (uniformTransition ψ) fun _ => allSpins ι := by
  refine symmetric_converges ψ _ (uniform_product ψ) (fun s t hs ht => uniform_balance ψ s t hs ht)
    (Fintype.card_pos_iff.2 ⟨fun _ => 0⟩) _ (fun _ => Finset.Subset.refl _) ?_ ?_ ?_
  · intro c s _ r
    refine (mem_allSpins _).2 fun i => ?_
    split
    · exact Or.inr rfl
    · exact Or.inl rfl
  · intro c s _ t ht
    obtain ⟨r, hr⟩ := uniform_hits t ((mem_allSpins t).1 ht)
    exact .single ⟨r, hr⟩
  · rintro c ⟨z, hz⟩
    obtain ⟨r, hr⟩ := uniform_hits z ((mem_allSpins z).1 hz)
    refine ⟨z, hz, ?_⟩
    have := symKernel_move_pos ψ (fun (r : ι → Fin 2) _ i => if r i = 0 then (-1 : ℤ) else 1) z r
    rwa [hr] at this

/-! ### Local moves -/

theorem local_product (ψ : Config (Idx shape) → ℂ) (S T : Fin C → Config (Idx shape)) :
    localTransition ψ S T = ∏ c, symKernel ψ (fun r : Idx shape => Operators.flip r) (S c) (T c) := by
  unfold localTransition
  simp only [localCandidates_eq]
  exact symmetric_transition ψ (fun r : Idx shape => Operators.flip r) S T

/-- Flips lead from every spin configuration to every other. -/
theorem flips_connect [DecidableEq ι] [Fintype ι] (s t : Config ι) (hs : IsSpin s) (ht : IsSpin t) :
    Relation.ReflTransGen (fun a b => ∃ i, Operators.flip i a = b) s t := by
  classical
  induction hn : (Finset.univ.filter fun i => s i ≠ t i).card generalizing s with
  | zero =>
    have : s = t := by
      funext i
      by_contra h
      have := Finset.card_eq_zero.1 hn
      exact absurd (this ▸ Finset.mem_filter.2 ⟨Finset.mem_univ i, h⟩ : i ∈ (∅ : Finset ι)) (Finset.notMem_empty i)
    rw [this]
  | succ n ih =>
    obtain ⟨i, hi⟩ := Finset.card_pos.1 (by omega : 0 < (Finset.univ.filter fun i => s i ≠ t i).card)
    have hi' : s i ≠ t i := (Finset.mem_filter.1 hi).2
    have hfi : Operators.flip i s i = t i := by
      simp only [Operators.flip, Function.update_self]
      rcases hs i with h1 | h1 <;> rcases ht i with h2 | h2 <;> rw [h1, h2] at hi' <;> rw [h1, h2] <;> first | rfl | exact absurd rfl hi'
    have hset : (Finset.univ.filter fun j => Operators.flip i s j ≠ t j) = (Finset.univ.filter fun j => s j ≠ t j).erase i := by
      ext j
      simp only [Finset.mem_filter, Finset.mem_univ, true_and, Finset.mem_erase]
      by_cases hj : j = i
      · subst hj; simp [hfi]
      · simp [Operators.flip, Function.update_of_ne hj, hj]
    refine Relation.ReflTransGen.head ⟨i, rfl⟩ (ih _ (flip_spin hs i) ?_)
    rw [hset, Finset.card_erase_of_mem hi, hn]
    rfl

/-- **C87, local moves, what holds:** if the squared amplitude is not the same for all configurations. -/
theorem C87_local_partial (hd : ∀ d, 0 < shape d) (ψ : Config (Idx shape) → ℂ) (s t : Config (Idx shape)) (hs : IsSpin s)
    (ht : IsSpin t) (hne : weight ψ s ≠ weight ψ t) :
    ConvergesTo (C := C) ψ (localTransition ψ) fun _ => allSpins (Idx shape) := by
  have hstay : ∃ z ∈ allSpins (Idx shape), 0 < symKernel ψ (fun r : Idx shape => Operators.flip r) z z := by
    by_contra hcon
    push_neg at hcon
    have hle : ∀ z, IsSpin z → ∀ i, weight ψ z ≤ weight ψ (Operators.flip i z) := by
      intro z hz i
      by_contra h
      exact absurd (symKernel_stay_pos ψ (fun r : Idx shape => Operators.flip r) z i (not_le.1 h))
        (not_lt.2 (hcon z ((mem_allSpins z).2 hz)))
    have heq : ∀ z, IsSpin z → ∀ i, weight ψ z = weight ψ (Operators.flip i z) := by
      intro z hz i
      refine le_antisymm (hle z hz i) ?_
      have := hle _ (flip_spin hz i) i
      rwa [Operators.flip_flip] at this
    have hall : ∀ z, Relation.ReflTransGen (fun a b => ∃ i, Operators.flip i a = b) s z →
        IsSpin z ∧ weight ψ s = weight ψ z := by
      intro z h
      induction h with
      | refl => exact ⟨hs, rfl⟩
      | tail _ hr ih =>
        obtain ⟨i, rfl⟩ := hr
        exact ⟨flip_spin ih.1 i, ih.2.trans (heq _ ih.1 i)⟩
    exact hne (hall t (flips_connect s t hs ht)).2
  refine symmetric_converges ψ _ (local_product ψ) (fun s t _ _ => local_balance ψ s t)
    (Fintype.card_pos_iff.2 ⟨fun d => ⟨0, hd d⟩⟩) _ (fun _ => Finset.Subset.refl _) ?_ ?_ fun _ _ => hstay
  · intro c s hs r
    exact (mem_allSpins _).2 (flip_spin ((mem_allSpins s).1 hs) r)
  · intro c s hs t ht
    exact flips_connect s t ((mem_allSpins s).1 hs) ((mem_allSpins t).1 ht)

/-- The product of all spins changes its sign with every flip. -/
theorem prod_flip [DecidableEq ι] [Fintype ι] (i : ι) (s : Config ι) : ∏ j, Operators.flip i s j = -∏ j, s j := by
  classical
  unfold Operators.flip
  rw [Finset.prod_update_of_mem (Finset.mem_univ i), ← Finset.mul_prod_erase Finset.univ s (Finset.mem_univ i),
    Finset.sdiff_singleton_eq_erase, neg_mul]

/-- **C87 is false of the code** for local moves if all configurations have the same squared amplitude (as
for a machine whose weights are zero): every move is accepted, so that the chain alternates between
configurations with an even and an odd number of down spins. After an odd number of sweeps it is never
where it started, though this has a positive probability in the limit. -/
theorem C87_violated_local (hd : ∀ d, 0 < shape d) (ψ : Config (Idx shape) → ℂ)
    (hconst : ∀ s t, IsSpin s → IsSpin t → weight ψ s = weight ψ t) :
    (∀ n, ∀ S : Fin 1 → Config (Idx shape), (∀ c, IsSpin (S c)) → afterSweeps (localTransition ψ) (2 * n + 1) S S = 0) ∧
    ¬ ConvergesTo (C := 1) ψ (localTransition ψ) fun _ => allSpins (Idx shape) := by
  have hK : ∀ s t : Config (Idx shape), IsSpin s → symKernel ψ (fun r : Idx shape => Operators.flip r) s t ≠ 0 →
      ∏ j, t j = -∏ j, s j := by
    intro s t hs h
    by_contra hne
    refine h ?_
    unfold symKernel kernel
    rw [Finset.sum_eq_zero, zero_div]
    intro r _
    unfold stepProb
    dsimp only
    rw [if_neg (fun e : Operators.flip r s = t => hne (by rw [← e, prod_flip])), hconst _ _ (flip_spin hs r) hs, div_self (weight_pos ψ s).ne',
      min_self, sub_self, ite_self, add_zero]
  have hsteps : ∀ n (s t : Config (Idx shape)), IsSpin s →
      steps (allSpins (Idx shape)) (symKernel ψ (fun r : Idx shape => Operators.flip r)) n s t ≠ 0 →
      ∏ j, t j = (-1) ^ n * ∏ j, s j := by
    intro n
    induction n with
    | zero =>
      intro s t _ h
      simp only [steps] at h
      by_cases e : s = t
      · rw [e]; simp
      · rw [if_neg e] at h; exact absurd rfl h
    | succ n ih =>
      intro s t hs h
      simp only [steps] at h
      obtain ⟨z, hz, hne⟩ := Finset.exists_ne_zero_of_sum_ne_zero h
      rw [ih z t ((mem_allSpins z).1 hz) (right_ne_zero_of_mul hne), hK s z hs (left_ne_zero_of_mul hne), pow_succ]
      ring
  have hodd : ∀ n, ∀ S : Fin 1 → Config (Idx shape), (∀ c, IsSpin (S c)) →
      afterSweeps (localTransition ψ) (2 * n + 1) S S = 0 := by
    intro n S hS
    rw [afterSweeps_prod (local_product ψ)]
    refine Finset.prod_eq_zero (Finset.mem_univ 0) ?_
    by_contra h
    have e := hsteps _ _ _ (hS 0) h
    rw [pow_succ, pow_mul, neg_one_sq, one_pow, one_mul] at e
    have hnz : ∏ j, S 0 j ≠ 0 := Finset.prod_ne_zero_iff.2 fun j _ => by
      rcases hS 0 j with h | h <;> rw [h] <;> norm_num
    omega
  refine ⟨hodd, fun hconv => ?_⟩
  let S : Fin 1 → Config (Idx shape) := fun _ _ => 1
  have hS : ∀ c, IsSpin (S c) := fun _ _ => Or.inl rfl
  have hlim := hconv S S (fun c => (mem_allSpins _).2 (hS c)) fun c => (mem_allSpins _).2 (hS c)
  have hsub : Tendsto (fun n : ℕ => 2 * n + 1) atTop atTop :=
    tendsto_atTop_mono (fun n => by omega : ∀ n : ℕ, n ≤ 2 * n + 1) tendsto_id
  have h0 := hlim.comp hsub
  have : ((fun n => afterSweeps (localTransition ψ) n S S) ∘ fun n : ℕ => 2 * n + 1) = fun _ => 0 := by
    funext n; exact hodd n S hS
  rw [this] at h0
  have e := tendsto_nhds_unique h0 tendsto_const_nhds
  have hpos : 0 < ∏ c : Fin 1, weight ψ (S c) / ∑ t ∈ allSpins (Idx shape), weight ψ t :=
    Finset.prod_pos fun c _ => div_pos (weight_pos ψ _)
      (Finset.sum_pos (fun t _ => weight_pos ψ t) ⟨S 0, (mem_allSpins _).2 (hS 0)⟩)
  rw [e] at hpos
  exact lt_irrefl _ hpos

/-! ### Exchange moves -/

theorem moveIdx_zero {n : Nat} (a : Fin n) : (a.val : ℕ) = ((moveIdx a 0).val + 1) % n := by
  have hn : 0 < n := by have := a.2; omega
  unfold moveIdx
  by_cases h : a.val = 0
  · have e : (((a.val : Int) + (((0 : Fin 3).val : Int) - 1)) % (n : Int)) = (n : Int) - 1 := by
      rw [h, ← Int.add_emod_right]
      exact Int.emod_eq_of_lt (by simp; omega) (by simp)
    simp only [e]
    rw [show ((n : Int) - 1).toNat + 1 = n by omega, Nat.mod_self, h]
  · have e : (((a.val : Int) + (((0 : Fin 3).val : Int) - 1)) % (n : Int)) = (a.val : Int) - 1 := by
      have := a.2
      rw [Int.emod_eq_of_lt] <;> simp <;> omega
    simp only [e]
    have := a.2
    rw [show ((a.val : Int) - 1).toNat + 1 = a.val by omega, Nat.mod_eq_of_lt a.2]

theorem moveIdx_one {n : Nat} (a : Fin n) : moveIdx a 1 = a := by
  apply Fin.ext
  have := a.2
  unfold moveIdx
  have e : (((a.val : Int) + (((1 : Fin 3).val : Int) - 1)) % (n : Int)) = (a.val : Int) := by
    rw [Int.emod_eq_of_lt] <;> simp
  simp only [e]
  omega

theorem moveIdx_two {n : Nat} (a : Fin n) : (moveIdx a 2).val = (a.val + 1) % n := by
  unfold moveIdx
  have e : ((a.val : Int) + (((2 : Fin 3).val : Int) - 1)) = ((a.val + 1 : ℕ) : Int) := by push_cast; simp
  simp only [e]
  rw [← Int.natCast_mod, Int.toNat_natCast]

theorem next_injective {n a b : Nat} (ha : a < n) (hb : b < n) (h : (a + 1) % n = (b + 1) % n) : a = b := by
  have h' : a + 1 ≡ b + 1 [MOD n] := h
  have := Nat.ModEq.add_right_cancel' 1 h'
  rwa [Nat.ModEq, Nat.mod_eq_of_lt ha, Nat.mod_eq_of_lt hb] at this

/-- **C87, which sites are exchanged:** what the sampler proposes are exactly the configurations in which
the spins of two neighbouring sites (or of a site with itself) are exchanged. -/
theorem C87_exchange_neighbours (S : Fin C → Config (Idx shape)) (c : Fin C) (t : Config (Idx shape)) :
    (∃ r, exchangeCandidates r S c = t) ↔ ∃ i j, Neighbours i j ∧ t = fun l => S c (Equiv.swap i j l) := by
  have hex : ∀ i j : Idx shape, exchange i j (S c) = fun l => S c (Equiv.swap i j l) := fun i j => by
    funext l; exact exchange_apply i j (S c) l
  constructor
  · rintro ⟨r, rfl⟩
    refine ⟨(r c).1, fun d => moveIdx ((r c).1 d) ((r c).2 d), fun d => ?_, ?_⟩
    · have : (r c).2 d = 0 ∨ (r c).2 d = 1 ∨ (r c).2 d = 2 := by omega
      rcases this with h | h | h
      · dsimp only; rw [h]; exact Or.inr (Or.inr (moveIdx_zero _))
      · dsimp only; rw [h]; exact Or.inl (moveIdx_one _)
      · dsimp only; rw [h]; exact Or.inr (Or.inl (moveIdx_two _))
    · rw [exchangeCandidates_eq]; exact hex _ _
  · rintro ⟨i, j, hij, rfl⟩
    have hk : ∀ d, ∃ k : Fin 3, moveIdx (i d) k = j d := by
      intro d
      rcases hij d with h | h | h
      · exact ⟨1, by rw [moveIdx_one, h]⟩
      · exact ⟨2, Fin.ext (by rw [moveIdx_two, h])⟩
      · exact ⟨0, Fin.ext (next_injective (moveIdx (i d) 0).2 (j d).2 (by rw [← moveIdx_zero, h]))⟩
    choose k hk using hk
    refine ⟨fun _ => (i, k), ?_⟩
    rw [exchangeCandidates_eq, ← hex]
    dsimp only
    congr 1
    funext d
    exact hk d

theorem exchange_product (ψ : Config (Idx shape) → ℂ) (S T : Fin C → Config (Idx shape)) :
    exchangeTransition ψ S T = ∏ c, symKernel ψ
      (fun r : Idx shape × (Fin D → Fin 3) => exchange r.1 fun d => moveIdx (r.1 d) (r.2 d)) (S c) (T c) := by
  unfold exchangeTransition
  simp only [exchangeCandidates_eq]
  exact symmetric_transition ψ (fun r : Idx shape × (Fin D → Fin 3) => exchange r.1 fun d => moveIdx (r.1 d) (r.2 d)) S T

/-- The moves of the exchange sampler. -/
def ExchangeMove (s t : Config (Idx shape)) : Prop :=
  ∃ r : Idx shape × (Fin D → Fin 3), exchange r.1 (fun d => moveIdx (r.1 d) (r.2 d)) s = t

/-- Pairs of sites that can be exchanged by moves in every configuration. -/
def CanSwap [DecidableEq ι] (Move : Config ι → Config ι → Prop) (i j : ι) : Prop :=
  ∀ s, Relation.ReflTransGen Move s (exchange i j s)

/-- The same for the exchange sampler. -/
abbrev Swappable (i j : Idx shape) : Prop := CanSwap ExchangeMove i j

theorem exchange_self [DecidableEq ι] (i : ι) (s : Config ι) : exchange i i s = s := by
  funext l; rw [exchange_apply]; simp

theorem exchange_comm [DecidableEq ι] (i j : ι) (s : Config ι) : exchange i j s = exchange j i s := by
  funext l; rw [exchange_apply, exchange_apply, Equiv.swap_comm]

theorem canSwap_trans [DecidableEq ι] {Move : Config ι → Config ι → Prop} {i j k : ι} (h1 : CanSwap Move i j)
    (h2 : CanSwap Move j k) : CanSwap Move i k := by
  intro s
  by_cases hij : i = j
  · rw [hij]; exact h2 s
  by_cases hik : i = k
  · rw [hik, exchange_self]
  by_cases hjk : j = k
  · rw [← hjk]; exact h1 s
  have e : exchange i k s = exchange i j (exchange j k (exchange i j s)) := by
    funext l
    simp only [exchange_apply]
    congr 1
    have := Equiv.swap_mul_swap_mul_swap (x := k) (y := j) (z := i) (Ne.symm hjk) (Ne.symm hik)
    have h := congrArg (fun p : Equiv.Perm ι => p l) this
    simp only [Equiv.Perm.mul_apply] at h
    rw [Equiv.swap_comm j i, Equiv.swap_comm k j] at h
    exact h.symm
  rw [e]
  exact ((h1 s).trans (h2 _)).trans (h1 _)

theorem swappable_trans {i j k : Idx shape} (h1 : Swappable i j) (h2 : Swappable j k) : Swappable i k :=
  canSwap_trans h1 h2

/-- One step up in direction `d`. -/
theorem swappable_step (i : Idx shape) (d : Fin D) : Swappable i (Function.update i d (moveIdx (i d) 2)) := by
  intro s
  refine .single ⟨(i, Function.update (fun _ => 1) d 2), ?_⟩
  dsimp only
  congr 1
  funext d'
  by_cases h : d' = d
  · subst h; simp
  · simp only [Function.update_of_ne h, moveIdx_one]

theorem swappable_axis (i : Idx shape) (d : Fin D) (k : ℕ) :
    Swappable i (Function.update i d ⟨((i d).val + k) % shape d, Nat.mod_lt _ (by have := (i d).2; omega)⟩) := by
  induction k with
  | zero =>
    intro s
    have : (⟨((i d).val + 0) % shape d, Nat.mod_lt _ (by have := (i d).2; omega)⟩ : Fin (shape d)) = i d :=
      Fin.ext (by simp [Nat.mod_eq_of_lt (i d).2])
    rw [this, Function.update_eq_self, exchange_self]
  | succ k ih =>
    refine swappable_trans ih ?_
    have := swappable_step (Function.update i d ⟨((i d).val + k) % shape d, Nat.mod_lt _ (by have := (i d).2; omega)⟩) d
    rw [Function.update_idem, Function.update_self] at this
    convert this using 2
    apply Fin.ext
    rw [moveIdx_two]
    show ((i d).val + (k + 1)) % shape d = (((i d).val + k) % shape d + 1) % shape d
    rw [Nat.mod_add_mod, add_assoc]

theorem swappable_set (i : Idx shape) (d : Fin D) (b : Fin (shape d)) : Swappable i (Function.update i d b) := by
  have := swappable_axis i d (shape d - (i d).val + b.val)
  convert this using 2
  apply Fin.ext
  have := (i d).2
  show b.val = ((i d).val + (shape d - (i d).val + b.val)) % shape d
  rw [show (i d).val + (shape d - (i d).val + b.val) = b.val + shape d by omega, Nat.add_mod_right, Nat.mod_eq_of_lt b.2]

/-- The lattice is connected: all pairs of sites can be exchanged. -/
theorem swappable_all (i j : Idx shape) : Swappable i j := by
  classical
  have h : ∀ A : Finset (Fin D), Swappable i fun d => if d ∈ A then j d else i d := by
    intro A
    induction A using Finset.induction_on with
    | empty => intro s; simp only [Finset.notMem_empty, if_false]; rw [exchange_self]
    | insert d A hd ih =>
      refine swappable_trans ih ?_
      have := swappable_set (fun d => if d ∈ A then j d else i d) d (j d)
      convert this using 1
      funext d'
      by_cases h : d' = d
      · subst h; simp
      · simp [Function.update_of_ne h, h]
  simpa using h Finset.univ

/-- Exchanges lead from every spin configuration to every other with the same magnetisation. -/
theorem exchanges_connect [Fintype ι] [DecidableEq ι] {Move : Config ι → Config ι → Prop} (hsw : ∀ i j, CanSwap Move i j)
    (s t : Config ι) (hs : IsSpin s) (ht : IsSpin t) (hm : magnetization s = magnetization t) :
    Relation.ReflTransGen Move s t := by
  classical
  induction hn : (Finset.univ.filter fun i => s i ≠ t i).card using Nat.strong_induction_on generalizing s with
  | _ n ih =>
    by_cases hst : s = t
    · rw [hst]
    have hsum : ∑ i, (s i - t i) = 0 := by
      rw [Finset.sum_sub_distrib]; unfold magnetization at hm; omega
    obtain ⟨l, hl⟩ := Function.ne_iff.1 hst
    have hup : ∃ i, 0 < s i - t i := by
      by_contra h
      push_neg at h
      have := (Finset.sum_eq_zero_iff_of_nonpos fun i _ => h i).1 hsum l (Finset.mem_univ l)
      omega
    have hdown : ∃ j, s j - t j < 0 := by
      by_contra h
      push_neg at h
      have := (Finset.sum_eq_zero_iff_of_nonneg fun i _ => h i).1 hsum l (Finset.mem_univ l)
      omega
    obtain ⟨i, hi⟩ := hup
    obtain ⟨j, hj⟩ := hdown
    have hi1 : s i = 1 ∧ t i = -1 := by rcases hs i with h | h <;> rcases ht i with h' | h' <;> omega
    have hj1 : s j = -1 ∧ t j = 1 := by rcases hs j with h | h <;> rcases ht j with h' | h' <;> omega
    have hij : i ≠ j := fun e => by rw [e] at hi1; omega
    have hei : exchange i j s i = t i := by rw [exchange_apply, Equiv.swap_apply_left, hj1.1, hi1.2]
    have hej : exchange i j s j = t j := by rw [exchange_apply, Equiv.swap_apply_right, hi1.1, hj1.2]
    have hlt : (Finset.univ.filter fun l => exchange i j s l ≠ t l).card < n := by
      rw [← hn]
      refine Finset.card_lt_card (Finset.ssubset_iff_subset_ne.2 ⟨fun l hl => ?_, fun e => ?_⟩)
      · rw [Finset.mem_filter] at hl ⊢
        refine ⟨hl.1, ?_⟩
        by_cases h1 : l = i
        · rw [h1] at hl; exact absurd hei hl.2
        by_cases h2 : l = j
        · rw [h2] at hl; exact absurd hej hl.2
        rw [exchange_apply, Equiv.swap_apply_of_ne_of_ne h1 h2] at hl
        exact hl.2
      · have : i ∈ Finset.univ.filter fun l => s l ≠ t l :=
          Finset.mem_filter.2 ⟨Finset.mem_univ i, by rw [hi1.1, hi1.2]; decide⟩
        rw [← e, Finset.mem_filter] at this
        exact this.2 hei
    exact (hsw i j s).trans
      (ih _ hlt _ (exchange_spin hs i j) (by rw [magnetization_exchange]; exact hm) rfl)

/-- **C87, exchange moves:** for every wave function, lattice and any number of chains, from every start,
on the configurations with the magnetisation of the start. -/
theorem C87_exchange (hd : ∀ d, 0 < shape d) (ψ : Config (Idx shape) → ℂ) (M : Fin C → ℤ) :
    ConvergesTo (C := C) ψ (exchangeTransition ψ) fun c => sector (M c) := by
  classical
  have hmem : ∀ M (s : Config (Idx shape)), s ∈ sector M ↔ IsSpin s ∧ magnetization s = M := by
    intro M s
    unfold sector
    rw [Finset.mem_filter, mem_allSpins]
  refine symmetric_converges ψ _ (exchange_product ψ) (fun s t _ _ => exchange_balance ψ s t)
    (Fintype.card_pos_iff.2 ⟨fun d => ⟨0, hd d⟩, fun _ => 0⟩) _ (fun c s hs => (mem_allSpins s).2 ((hmem _ s).1 hs).1) ?_ ?_ ?_
  · intro c s hs r
    rw [hmem] at hs ⊢
    exact ⟨exchange_spin hs.1 _ _, by rw [magnetization_exchange]; exact hs.2⟩
  · intro c s hs t ht
    rw [hmem] at hs ht
    exact exchanges_connect swappable_all s t hs.1 ht.1 (hs.2.trans ht.2.symm)
  · rintro c ⟨z, hz⟩
    refine ⟨z, hz, ?_⟩
    have := symKernel_move_pos ψ (fun r : Idx shape × (Fin D → Fin 3) => exchange r.1 fun d => moveIdx (r.1 d) (r.2 d)) z
      (fun d => ⟨0, hd d⟩, fun _ => 1)
    simp only [moveIdx_one] at this
    rwa [exchange_self] at this

/-! ### The hypotheses can be met -/

/-- A wave function on a two by three lattice whose modulus is not constant (C87_local_partial). -/
example : ∃ (ψ : Config (Idx ![2, 3]) → ℂ) (s t : Config (Idx ![2, 3])), IsSpin s ∧ IsSpin t ∧ weight ψ s ≠ weight ψ t := by
  refine ⟨fun s => ((s fun d => ⟨0, by fin_cases d <;> simp⟩ : ℤ) : ℂ), fun _ => 1, fun _ => -1, fun _ => Or.inl rfl,
    fun _ => Or.inr rfl, ?_⟩
  rw [weight_eq, weight_eq]
  intro h
  have := Real.exp_injective h
  norm_num at this

/-- A wave function with constant modulus (C87_violated_local). -/
example : ∃ ψ : Config (Idx ![2, 3]) → ℂ, ∀ s t, IsSpin s → IsSpin t → weight ψ s = weight ψ t := ⟨fun _ => 0, fun _ _ _ _ => rfl⟩

/-- Configurations with the same magnetisation (C87_exchange). -/
example : ∃ s t : Config (Fin 2), s ≠ t ∧ s ∈ sector (ι := Fin 2) 0 ∧ t ∈ sector (ι := Fin 2) 0 := by
  refine ⟨![1, -1], ![-1, 1], by decide, ?_, ?_⟩ <;>
  · unfold sector
    rw [Finset.mem_filter, mem_allSpins]
    refine ⟨fun i => ?_, by decide⟩
    fin_cases i <;> simp

end Verif.Metropolis
