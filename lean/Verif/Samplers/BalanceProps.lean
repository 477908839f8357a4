import Verif.Samplers.Balance
import Verif.Operators.Props2

/-!
# C48, C49: detailed balance of the Metropolis-Hastings samplers
-/
namespace Verif.Metropolis

open Verif.Operators MeasureTheory Verif.Autoregressive
open Verif.Energy (allSpins mem_allSpins)

variable {ι : Type} {C D : Nat} {shape : Fin D → Nat}

/-! ### Specification -/

/-- A sampler between sweeps: configurations with their values. -/
def inState (ψ : Config ι → ℂ) (S : Fin C → Config ι) : State ι C := ⟨S, fun c => ψ (S c)⟩

/-- Detailed balance of transition probabilities `P` of `C` chains on configurations of spins: for all
pairs of joint states the probability flow is the same in both directions. -/
def DetailedBalance (ψ : Config ι → ℂ) (P : (Fin C → Config ι) → (Fin C → Config ι) → ℝ) : Prop :=
  ∀ S T : Fin C → Config ι, (∀ c, IsSpin (S c)) → (∀ c, IsSpin (T c)) →
    (∏ c, weight ψ (S c)) * P S T = (∏ c, weight ψ (T c)) * P T S

/-- The product of the squared amplitudes is a stationary distribution. -/
def Stationary [DecidableEq ι] [Fintype ι] (ψ : Config ι → ℂ) (P : (Fin C → Config ι) → (Fin C → Config ι) → ℝ) : Prop :=
  ∀ T : Fin C → Config ι, (∀ c, IsSpin (T c)) →
    ∑ S ∈ Fintype.piFinset fun _ : Fin C => allSpins ι, (∏ c, weight ψ (S c)) * P S T = ∏ c, weight ψ (T c)

/-- One sweep of `MetropolisHastingsLocal`: the random indices are uniform and independent. -/
noncomputable def localTransition (ψ : Config (Idx shape) → ℂ) (S T : Fin C → Config (Idx shape)) : ℝ :=
  (∑ r : Fin C → Idx shape, prU C {u | (sweepSymmetric ψ (localCandidates r S) u (inState ψ S)).1.sample = T}) /
    (Fintype.card (Fin C → Idx shape) : ℝ)

/-- One sweep of `MetropolisHastingsExchange`. -/
noncomputable def exchangeTransition (ψ : Config (Idx shape) → ℂ) (S T : Fin C → Config (Idx shape)) : ℝ :=
  (∑ r : Fin C → Idx shape × (Fin D → Fin 3),
    prU C {u | (sweepSymmetric ψ (exchangeCandidates r S) u (inState ψ S)).1.sample = T}) /
    (Fintype.card (Fin C → Idx shape × (Fin D → Fin 3)) : ℝ)

/-- One sweep of `MetropolisHastingsUniform`. -/
noncomputable def uniformTransition [DecidableEq ι] [Fintype ι] (ψ : Config ι → ℂ) (S T : Fin C → Config ι) : ℝ :=
  (∑ r : Fin C → ι → Fin 2, prU C {u | (sweepSymmetric ψ (uniformCandidates r) u (inState ψ S)).1.sample = T}) /
    (Fintype.card (Fin C → ι → Fin 2) : ℝ)

/-- One sweep of `MetropolisHastingsHamiltonian`: chain `c` chooses uniformly among its connections. -/
noncomputable def hamiltonianTransition (ψ : Config ι → ℂ) (find find' : (Fin C → Config ι) → Fin C → List (Row ι ℝ))
    (S T : Fin C → Config ι) : ℝ :=
  (∑ k : (c : Fin C) → Fin (numConn (find S c)),
    prU C {u | ∃ r, sweepHamiltonian ψ find find' (fun c => (k c).val) u (inState ψ S) = some r ∧ r.1.sample = T}) /
    ∏ c, (numConn (find S c) : ℝ)

/-! ### Symmetric samplers -/

theorem sweepSymmetric_real (ψ : Config ι → ℂ) (cand S T : Fin C → Config ι) :
    prU C {u | (sweepSymmetric ψ cand u (inState ψ S)).1.sample = T} =
      ∏ c, stepProb (S c) (cand c) (min (weight ψ (cand c) / weight ψ (S c)) 1) (T c) := by
  unfold sweepSymmetric
  rw [acceptStep_real _ fun c => (Real.exp_pos _).le]
  refine Finset.prod_congr rfl fun c _ => ?_
  rw [← ratio_symmetric]
  rfl

section symmetric
variable {R : Type} [Fintype R] [DecidableEq R]

/-- The kernel of a symmetric sampler with choices in `R`. -/
noncomputable def symKernel (ψ : Config ι → ℂ) (move : R → Config ι → Config ι) : Config ι → Config ι → ℝ :=
  kernel (κ := fun _ => R) (fun s r => move r s) fun s r => weight ψ (move r s) / weight ψ s

theorem symmetric_transition (ψ : Config ι → ℂ) (move : R → Config ι → Config ι) (S T : Fin C → Config ι) :
    (∑ r : Fin C → R, prU C {u | (sweepSymmetric ψ (fun c => move (r c) (S c)) u (inState ψ S)).1.sample = T}) /
      (Fintype.card (Fin C → R) : ℝ) = ∏ c, symKernel ψ move (S c) (T c) := by
  unfold symKernel
  rw [← kernel_prod (κ := fun _ => R)]
  congr 1
  · exact Finset.sum_congr rfl fun r _ => sweepSymmetric_real ψ _ S T
  · rw [Fintype.card_fun, Finset.prod_const, Finset.card_univ]; push_cast; rfl

open Classical in
theorem symKernel_balance (ψ : Config ι → ℂ) (move : R → Config ι → Config ι) (s t : Config ι)
    (hsym : (Finset.univ.filter fun r : R => move r s = t).card = (Finset.univ.filter fun r : R => move r t = s).card) :
    weight ψ s * symKernel ψ move s t = weight ψ t * symKernel ψ move t s := by
  by_cases hc : Fintype.card R = 0
  · have : IsEmpty R := Fintype.card_eq_zero_iff.1 hc
    simp [symKernel, kernel]
  have hR : (Fintype.card R : ℝ) ≠ 0 := by exact_mod_cast hc
  refine kernel_balance (κ := fun _ => R) _ _ (weight ψ) (weight_pos ψ) s t hsym ?_ ?_
  · rintro k rfl
    rw [mul_div_mul_right _ _ hR]
  · rintro k rfl
    rw [mul_div_mul_right _ _ hR]

theorem symmetric_stationary [DecidableEq ι] [Fintype ι] (ψ : Config ι → ℂ) (move : R → Config ι → Config ι)
    (hspin : ∀ r s, IsSpin s → IsSpin (move r s)) (hR : 0 < Fintype.card R)
    (hb : ∀ s t, IsSpin s → IsSpin t → weight ψ s * symKernel ψ move s t = weight ψ t * symKernel ψ move t s)
    (T : Fin C → Config ι) (hT : ∀ c, IsSpin (T c)) :
    ∑ S ∈ Fintype.piFinset fun _ : Fin C => allSpins ι, (∏ c, weight ψ (S c)) * ∏ c, symKernel ψ move (S c) (T c) =
      ∏ c, weight ψ (T c) := by
  refine prod_stationary (allSpins ι) (fun s hs t ht => hb s t ((mem_allSpins s).1 hs) ((mem_allSpins t).1 ht)) ?_ T
    fun c => (mem_allSpins _).2 (hT c)
  intro s hs
  exact kernel_sum (κ := fun _ => R) _ _ _ s hs (fun r => (mem_allSpins _).2 (hspin r s ((mem_allSpins s).1 hs))) hR

end symmetric

theorem localCandidates_eq (r : Fin C → Idx shape) (S : Fin C → Config (Idx shape)) :
    localCandidates r S = fun c => Operators.flip (r c) (S c) := by
  funext c
  unfold localCandidates Operators.flip
  rw [mul_neg, mul_one]

theorem exchangeCandidates_eq (r : Fin C → Idx shape × (Fin D → Fin 3)) (S : Fin C → Config (Idx shape)) :
    exchangeCandidates r S = fun c => exchange (r c).1 (fun d => moveIdx ((r c).1 d) ((r c).2 d)) (S c) := rfl

theorem card_filter_congr {R : Type} [Fintype R] {p q : R → Prop} {_ : DecidablePred p} {_ : DecidablePred q} (h : ∀ r, p r ↔ q r) :
    (Finset.univ.filter p).card = (Finset.univ.filter q).card := by
  congr 1
  ext r
  simp [h]

theorem local_balance (ψ : Config (Idx shape) → ℂ) (s t : Config (Idx shape)) :
    weight ψ s * symKernel ψ (fun r : Idx shape => Operators.flip r) s t = weight ψ t * symKernel ψ (fun r : Idx shape => Operators.flip r) t s :=
  symKernel_balance ψ _ s t (card_filter_congr fun r => flip_symm r s t)

theorem exchange_balance (ψ : Config (Idx shape) → ℂ) (s t : Config (Idx shape)) :
    weight ψ s * symKernel ψ (fun r : Idx shape × (Fin D → Fin 3) => exchange r.1 fun d => moveIdx (r.1 d) (r.2 d)) s t =
      weight ψ t * symKernel ψ (fun r : Idx shape × (Fin D → Fin 3) => exchange r.1 fun d => moveIdx (r.1 d) (r.2 d)) t s :=
  symKernel_balance ψ _ s t (card_filter_congr fun r => exchange_symm _ _ s t)

open Classical in
theorem uniform_count {ι : Type} [Fintype ι] [DecidableEq ι] (t : Config ι) (ht : IsSpin t) :
    (Finset.univ.filter fun r : ι → Fin 2 => (fun i => if r i = 0 then (-1 : ℤ) else 1) = t).card = 1 := by
  rw [Finset.card_eq_one]
  refine ⟨fun i => if t i = 1 then 1 else 0, ?_⟩
  ext r
  simp only [Finset.mem_filter, Finset.mem_univ, true_and, Finset.mem_singleton]
  constructor
  · rintro rfl
    funext i
    have : r i = 0 ∨ r i = 1 := by omega
    rcases this with h | h <;> simp [h]
  · rintro rfl
    funext i
    rcases ht i with h | h <;> simp [h]

theorem uniform_balance [Fintype ι] [DecidableEq ι] (ψ : Config ι → ℂ) (s t : Config ι) (hs : IsSpin s) (ht : IsSpin t) :
    weight ψ s * symKernel ψ (fun (r : ι → Fin 2) _ i => if r i = 0 then (-1 : ℤ) else 1) s t =
      weight ψ t * symKernel ψ (fun (r : ι → Fin 2) _ i => if r i = 0 then (-1 : ℤ) else 1) t s :=
  symKernel_balance ψ _ s t ((card_filter_congr fun _ => Iff.rfl).trans
    (((uniform_count t ht).trans (uniform_count s hs).symm).trans (card_filter_congr fun _ => Iff.rfl)))

/-! ### C48 -/

/-- **C48, local moves.** -/
theorem C48_local (ψ : Config (Idx shape) → ℂ) : DetailedBalance (C := C) ψ (localTransition ψ) ∧
    ((∀ d, 0 < shape d) → Stationary (C := C) ψ (localTransition ψ)) := by
  have e : ∀ S T : Fin C → Config (Idx shape), localTransition ψ S T = ∏ c, symKernel ψ (fun r : Idx shape => Operators.flip r) (S c) (T c) := by
    intro S T
    unfold localTransition
    simp only [localCandidates_eq]
    exact symmetric_transition ψ (fun r : Idx shape => Operators.flip r) S T
  constructor
  · intro S T _ _
    rw [e, e]
    exact prod_balance fun c => local_balance ψ _ _
  · intro hd T hT
    simp only [e]
    refine symmetric_stationary ψ _ (fun r s hs => flip_spin hs r) ?_ (fun s t _ _ => local_balance ψ s t) T hT
    exact Fintype.card_pos_iff.2 ⟨fun d => ⟨0, hd d⟩⟩

/-- **C48, exchange moves.** -/
theorem C48_exchange (ψ : Config (Idx shape) → ℂ) : DetailedBalance (C := C) ψ (exchangeTransition ψ) ∧
    ((∀ d, 0 < shape d) → Stationary (C := C) ψ (exchangeTransition ψ)) := by
  have e : ∀ S T : Fin C → Config (Idx shape), exchangeTransition ψ S T = ∏ c, symKernel ψ
      (fun r : Idx shape × (Fin D → Fin 3) => exchange r.1 fun d => moveIdx (r.1 d) (r.2 d)) (S c) (T c) := by
    intro S T
    unfold exchangeTransition
    simp only [exchangeCandidates_eq]
    exact symmetric_transition ψ (fun r : Idx shape × (Fin D → Fin 3) => exchange r.1 fun d => moveIdx (r.1 d) (r.2 d)) S T
  constructor
  · intro S T _ _
    rw [e, e]
    exact prod_balance fun c => exchange_balance ψ _ _
  · intro hd T hT
    simp only [e]
    refine symmetric_stationary ψ _ (fun r s hs => exchange_spin hs _ _) ?_ (fun s t _ _ => exchange_balance ψ s t) T hT
    exact Fintype.card_pos_iff.2 ⟨fun d => ⟨0, hd d⟩, fun _ => 0⟩

/-- **C48, uniform moves.** -/
theorem C48_uniform [Fintype ι] [DecidableEq ι] (ψ : Config ι → ℂ) : DetailedBalance (C := C) ψ (uniformTransition ψ) ∧
    Stationary (C := C) ψ (uniformTransition ψ) := by
  have e : ∀ S T : Fin C → Config ι, uniformTransition ψ S T =
      ∏ c, symKernel ψ (fun (r : ι → Fin 2) _ i => if r i = 0 then (-1 : ℤ) else 1) (S c) (T c) := by
    intro S T
    exact symmetric_transition ψ (fun (r : ι → Fin 2) _ i => if r i = 0 then (-1 : ℤ) else 1) S T
  constructor
  · intro S T hS hT
    rw [e, e]
    exact prod_balance fun c => uniform_balance ψ _ _ (hS c) (hT c)
  · intro T hT
    simp only [e]
    refine symmetric_stationary ψ _ (fun r s _ i => ?_) ?_ (fun s t hs ht => uniform_balance ψ s t hs ht) T hT
    · split
      · exact Or.inr rfl
      · exact Or.inl rfl
    · exact Fintype.card_pos_iff.2 ⟨fun _ => 0⟩

/-! ### C49 -/

open Classical in
/-- Number of rows by which configuration `t` is offered. -/
noncomputable def links (rows : List (Row ι ℝ)) (t : Config ι) : Nat :=
  (rows.map fun r => if r.use = true ∧ r.conn = t then 1 else 0).sum

theorem length_possible (rows : List (Row ι ℝ)) : (possible rows).length = numConn rows := by
  simp [possible, numConn]

/-- The chosen candidate. -/
def choose (rows : List (Row ι ℝ)) (k : Fin (numConn rows)) : Config ι :=
  (possible rows)[k.val]'(by rw [length_possible]; exact k.2)

open Classical in
theorem card_choose (rows : List (Row ι ℝ)) (t : Config ι) :
    (Finset.univ.filter fun k : Fin (numConn rows) => choose rows k = t).card = links rows t := by
  have h1 : ∀ (l : List (Config ι)) (n : Nat) (h : l.length = n),
      (Finset.univ.filter fun k : Fin n => l[k.val]'(h ▸ k.2) = t).card = (l.map fun c => if c = t then 1 else 0).sum := by
    rintro l n rfl
    rw [Finset.card_filter, ← List.sum_ofFn]
    congr 1
    apply List.ext_getElem
    · simp
    · intro i h1 h2; simp
  rw [show links rows t = ((possible rows).map fun c => if c = t then 1 else 0).sum from ?_]
  · exact h1 (possible rows) _ (length_possible rows)
  unfold links possible
  induction rows with
  | nil => rfl
  | cons r rows ih =>
    cases hr : r.use with
    | true => simp [List.filter_cons, hr, ih]
    | false => simp [List.filter_cons, hr, ih]

theorem sweepHamiltonian_eq (ψ : Config ι → ℂ) (find find' : (Fin C → Config ι) → Fin C → List (Row ι ℝ)) (S : Fin C → Config ι)
    (k : (c : Fin C) → Fin (numConn (find S c))) (u : Fin C → ℝ) :
    sweepHamiltonian ψ find find' (fun c => (k c).val) u (inState ψ S) =
      let cand := fun c => choose (find S c) (k c)
      some (acceptStep (fun c => Real.exp (((ψ (cand c)).re - (ψ (S c)).re) * 2 +
        Real.log ((numConn (find S c) : ℝ) / (numConn (find' cand c) : ℝ)))) cand (fun c => ψ (cand c)) u (inState ψ S)) := by
  have h : (allSome fun c => (possible (find S c))[(k c).val]?) = some fun c => choose (find S c) (k c) := by
    have hs : ∀ c, (possible (find S c))[(k c).val]? = some (choose (find S c) (k c)) := by
      intro c
      rw [List.getElem?_eq_getElem]
      rfl
    unfold allSome
    simp only [hs]
    rw [dif_pos (fun c => by rfl)]
    rfl
  unfold sweepHamiltonian
  simp only [inState] at h ⊢
  rw [h, Option.bind_some]

/-- The kernel of the Hamiltonian sampler. -/
noncomputable def hamKernel (ψ : Config ι → ℂ) (rows : Config ι → List (Row ι ℝ)) : Config ι → Config ι → ℝ :=
  kernel (κ := fun s => Fin (numConn (rows s))) (fun s k => choose (rows s) k) fun s k =>
    Real.exp (((ψ (choose (rows s) k)).re - (ψ s).re) * 2 +
      Real.log ((numConn (rows s) : ℝ) / (numConn (rows (choose (rows s) k)) : ℝ)))

theorem hamiltonian_transition (ψ : Config ι → ℂ) (rows : Config ι → List (Row ι ℝ))
    (find find' : (Fin C → Config ι) → Fin C → List (Row ι ℝ)) (hf : ∀ S c, find S c = rows (S c))
    (hf' : ∀ S c, find' S c = rows (S c)) (S T : Fin C → Config ι) :
    hamiltonianTransition ψ find find' S T = ∏ c, hamKernel ψ rows (S c) (T c) := by
  obtain rfl : find = fun S c => rows (S c) := by funext S c; exact hf S c
  obtain rfl : find' = fun S c => rows (S c) := by funext S c; exact hf' S c
  unfold hamKernel hamiltonianTransition
  rw [← kernel_prod (κ := fun s => Fin (numConn (rows s)))]
  congr 1
  · refine Finset.sum_congr rfl fun k _ => ?_
    have hset : {u : Fin C → ℝ | ∃ r, sweepHamiltonian ψ (fun S c => rows (S c)) (fun S c => rows (S c)) (fun c => (k c).val) u
        (inState ψ S) = some r ∧ r.1.sample = T} =
        {u | (acceptStep (fun c => Real.exp (((ψ (choose (rows (S c)) (k c))).re - (ψ (S c)).re) * 2 +
          Real.log ((numConn (rows (S c)) : ℝ) / (numConn (rows (choose (rows (S c)) (k c))) : ℝ))))
          (fun c => choose (rows (S c)) (k c)) (fun c => ψ (choose (rows (S c)) (k c))) u (inState ψ S)).1.sample = T} := by
      ext u
      simp only [Set.mem_setOf_eq, sweepHamiltonian_eq, Option.some.injEq, exists_eq_left']
    rw [hset, acceptStep_real _ fun c => (Real.exp_pos _).le]
    rfl
  · exact Finset.prod_congr rfl fun c _ => by rw [Fintype.card_fin]

theorem hamKernel_balance (ψ : Config ι → ℂ) (rows : Config ι → List (Row ι ℝ)) (s t : Config ι)
    (hsym : links (rows s) t = links (rows t) s) :
    weight ψ s * hamKernel ψ rows s t = weight ψ t * hamKernel ψ rows t s := by
  have hratio : ∀ s (k : Fin (numConn (rows s))), 0 < numConn (rows (choose (rows s) k)) →
      Real.exp (((ψ (choose (rows s) k)).re - (ψ s).re) * 2 +
        Real.log ((numConn (rows s) : ℝ) / (numConn (rows (choose (rows s) k)) : ℝ))) =
      weight ψ (choose (rows s) k) * numConn (rows s) / (weight ψ s * numConn (rows (choose (rows s) k))) := by
    intro s k hpos
    have h1 : (0 : ℝ) < numConn (rows s) := by
      have := k.2
      have : 0 < numConn (rows s) := by omega
      exact_mod_cast this
    have h2 : (0 : ℝ) < numConn (rows (choose (rows s) k)) := by exact_mod_cast hpos
    rw [Real.exp_add, Real.exp_log (div_pos h1 h2), sub_mul, Real.exp_sub, ← weight_eq, ← weight_eq, div_mul_div_comm]
  have back : ∀ s t, links (rows s) t = links (rows t) s → ∀ k : Fin (numConn (rows s)), choose (rows s) k = t →
      0 < numConn (rows t) := by
    classical
    intro s t hsym k hk
    rw [← card_choose, ← card_choose] at hsym
    have : 0 < (Finset.univ.filter fun k : Fin (numConn (rows t)) => choose (rows t) k = s).card := by
      rw [← hsym]; exact Finset.card_pos.2 ⟨k, by simp [hk]⟩
    obtain ⟨k', -⟩ := Finset.card_pos.1 this
    have := k'.2
    omega
  refine kernel_balance (κ := fun s => Fin (numConn (rows s))) _ _ (weight ψ) (weight_pos ψ) s t ?_ ?_ ?_
  · rw [card_choose, card_choose, hsym]
  · rintro k hk
    rw [hratio s k (hk ▸ back s t hsym k hk), hk, Fintype.card_fin, Fintype.card_fin]
  · rintro k hk
    rw [hratio t k (hk ▸ back t s hsym.symm k hk), hk, Fintype.card_fin, Fintype.card_fin]

/-- **C49.** Detailed balance and stationarity whenever the operator answers each configuration on its own
(`rows`), connectivity is symmetric, connected configurations are spins, and each configuration has a
connection. -/
theorem C49_symmetric [Fintype ι] [DecidableEq ι] (ψ : Config ι → ℂ) (rows : Config ι → List (Row ι ℝ))
    (find find' : (Fin C → Config ι) → Fin C → List (Row ι ℝ)) (hf : ∀ S c, find S c = rows (S c))
    (hf' : ∀ S c, find' S c = rows (S c)) (hsym : ∀ s t, links (rows s) t = links (rows t) s)
    (hspin : ∀ s, IsSpin s → ∀ r ∈ rows s, r.use = true → IsSpin r.conn)
    (hne : ∀ s, ∃ r ∈ rows s, r.use = true) :
    DetailedBalance ψ (hamiltonianTransition ψ find find') ∧ Stationary ψ (hamiltonianTransition ψ find find') := by
  constructor
  · intro S T _ _
    rw [hamiltonian_transition ψ rows find find' hf hf', hamiltonian_transition ψ rows find find' hf hf']
    exact prod_balance fun c => hamKernel_balance ψ rows _ _ (hsym _ _)
  · intro T hT
    simp only [hamiltonian_transition ψ rows find find' hf hf']
    refine prod_stationary (allSpins ι) (fun s _ t _ => hamKernel_balance ψ rows s t (hsym s t)) ?_ T
      fun c => (mem_allSpins _).2 (hT c)
    intro s hs
    refine kernel_sum (κ := fun s => Fin (numConn (rows s))) _ _ _ s hs (fun k => (mem_allSpins _).2 ?_) ?_
    · have : choose (rows s) k ∈ possible (rows s) := List.getElem_mem _
      obtain ⟨r, hr, e⟩ := List.mem_map.1 this
      rw [List.mem_filter] at hr
      rw [← e]
      exact hspin s ((mem_allSpins s).1 hs) r hr.1 (by simpa using hr.2)
    · rw [Fintype.card_fin]
      obtain ⟨r, hr, hu⟩ := hne s
      exact List.length_pos_of_mem (List.mem_filter.2 ⟨hr, by simpa using hu⟩)

theorem links_flips [DecidableEq ι] (sites : List ι) (c : ℝ) (f : Config ι → ℝ) (s t : Config ι) :
    links (⟨s, f s, true⟩ :: sites.map fun i => ⟨Operators.flip i s, c, true⟩) t =
      links (⟨t, f t, true⟩ :: sites.map fun i => ⟨Operators.flip i t, c, true⟩) s := by
  classical
  unfold links
  simp only [List.map_cons, List.sum_cons, List.map_map]
  congr 1
  · simp only [true_and, eq_comm]
  · congr 1
    refine List.map_congr_left fun i _ => ?_
    simp only [Function.comp, true_and, flip_symm i s t]

/-- **C49, Ising chain.** -/
theorem C49_ising_chain {n : Nat} (ψ : Config (Fin n) → ℂ) (h : Field) (j : ℝ) (pbc : Bool) :
    DetailedBalance (C := C) ψ (hamiltonianTransition ψ (isingFindConn1 h j pbc) (isingFindConn1 h j pbc)) ∧
    Stationary (C := C) ψ (hamiltonianTransition ψ (isingFindConn1 h j pbc) (isingFindConn1 h j pbc)) := by
  refine C49_symmetric ψ _ _ _ (fun S c => isingFindConn1_eq h j pbc S c) (fun S c => isingFindConn1_eq h j pbc S c)
    (fun s t => links_flips _ _ (fun s => h.store (∑ i : Fin n, -(j * (s i : ℝ) * (pad1 pbc s (i.val + 1) : ℝ)))) s t) ?_
    fun s => ⟨_, List.mem_cons_self, rfl⟩
  intro s hs r hr _
  rw [List.mem_cons, List.mem_map] at hr
  rcases hr with rfl | ⟨i, -, rfl⟩
  · exact hs
  · exact flip_spin hs i

/-- **C49, Ising on a grid.** -/
theorem C49_ising_grid {n m : Nat} (ψ : Config (Fin n × Fin m) → ℂ) (h : Field) (j : ℝ) (pbc : Bool) :
    DetailedBalance (C := C) ψ (hamiltonianTransition ψ (isingFindConn2 h j pbc) (isingFindConn2 h j pbc)) ∧
    Stationary (C := C) ψ (hamiltonianTransition ψ (isingFindConn2 h j pbc) (isingFindConn2 h j pbc)) := by
  refine C49_symmetric ψ _ _ _ (fun S c => isingFindConn2_eq h j pbc S c) (fun S c => isingFindConn2_eq h j pbc S c)
    (fun s t => links_flips _ _ (fun s => h.store (∑ p : Fin n × Fin m,
        (-(if n > 1 then j * (s p : ℝ) * (pad1 pbc (fun i' => s (i', p.2)) (p.1.val + 1) : ℝ) else 0)
          - (if m > 1 then j * (s p : ℝ) * (pad1 pbc (fun j' => s (p.1, j')) (p.2.val + 1) : ℝ) else 0)))) s t) ?_
    fun s => ⟨_, List.mem_cons_self, rfl⟩
  intro s hs r hr _
  rw [List.mem_cons, List.mem_map] at hr
  rcases hr with rfl | ⟨i, -, rfl⟩
  · exact hs
  · exact flip_spin hs i

theorem links_heis {n m : Nat} (off : ℝ) (pbc : Bool) (dim : Nat) (hdim : dim = 2 ∨ (dim = 1 ∧ m = 1))
    (s t : Config (Fin n × Fin m)) : links (heisRows off pbc dim s) t = links (heisRows off pbc dim t) s := by
  classical
  unfold links heisRows
  rw [sum_rows off pbc dim hdim s _ _ (by simp), sum_rows off pbc dim hdim t _ _ (by simp)]
  congr 1
  · simp only [true_and, eq_comm]
  · apply list_sum_congr
    intro b _
    simp only [exchange_symm b.1 b.2 s t, true_and]
    by_cases h : exchange b.1 b.2 t = s
    · have h1 : s b.1 = t b.2 := by rw [← h, exchange_apply, Equiv.swap_apply_left]
      have h2 : s b.2 = t b.1 := by rw [← h, exchange_apply, Equiv.swap_apply_right]
      rw [h1, h2]
      simp only [ne_comm]
    · rw [if_neg h, ite_self, ite_self]

/-- **C49, Heisenberg on a grid**, after any calls of `find_conn` (two histories, one before each of the
two calls of the sweep). -/
theorem C49_heisenberg_grid {n m : Nat} (ψ : Config (Fin n × Fin m) → ℂ) (rot pbc : Bool) (hist hist' : List (Call n m)) :
    let find := fun S : Fin C → Config (Fin n × Fin m) => (((HeisOp.new2 n m rot pbc).run hist).findConn C S).2
    let find' := fun S : Fin C → Config (Fin n × Fin m) => (((HeisOp.new2 n m rot pbc).run hist').findConn C S).2
    DetailedBalance ψ (hamiltonianTransition ψ find find') ∧ Stationary ψ (hamiltonianTransition ψ find find') := by
  refine C49_symmetric ψ (heisRows (offDiag rot) pbc 2) _ _ (fun S c => answer2 _ _ _ _ _ _) (fun S c => answer2 _ _ _ _ _ _)
    (fun s t => links_heis _ _ _ (Or.inl rfl) s t) ?_ fun s => ⟨_, List.mem_cons_self, rfl⟩
  exact fun s hs r hr _ => (contract_heisRows _ _ _ (Or.inl rfl) s hs).spins r hr

theorem links_squeeze {n : Nat} (rows : List (Row (Fin n × Fin 1) ℝ)) (t : Config (Fin n)) :
    links (rows.map squeezeRow) t = links rows (expandDims t) := by
  classical
  unfold links
  rw [List.map_map]
  congr 1
  refine List.map_congr_left fun r _ => ?_
  have : (squeezeRow r).conn = t ↔ r.conn = expandDims t := by
    constructor
    · intro h
      rw [← expand_squeeze r.conn, ← h]; rfl
    · intro h
      show squeeze r.conn = t
      rw [h]; rfl
  simp only [Function.comp]
  by_cases h : r.conn = expandDims t
  · simp only [this.2 h, h, and_true]; rfl
  · have h' := mt this.1 h
    simp only [h, h', and_false, if_false]

/-- **C49, Heisenberg chain.** -/
theorem C49_heisenberg_chain {n : Nat} (ψ : Config (Fin n) → ℂ) (rot pbc : Bool) (hist hist' : List (Call n 1)) :
    let find := fun S : Fin C → Config (Fin n) => (((HeisOp.new1 n rot pbc).run hist).findConn1 C S).2
    let find' := fun S : Fin C → Config (Fin n) => (((HeisOp.new1 n rot pbc).run hist').findConn1 C S).2
    DetailedBalance ψ (hamiltonianTransition ψ find find') ∧ Stationary ψ (hamiltonianTransition ψ find find') := by
  refine C49_symmetric ψ (fun s => (heisRows (offDiag rot) pbc 1 (expandDims s)).map squeezeRow) _ _
    (fun S c => answer1 _ _ _ _ _ _) (fun S c => answer1 _ _ _ _ _ _)
    (fun s t => by rw [links_squeeze, links_squeeze]; exact links_heis _ _ _ (Or.inr ⟨rfl, rfl⟩) _ _) ?_
    fun s => ⟨_, List.mem_map_of_mem List.mem_cons_self, rfl⟩
  intro s hs r hr _
  obtain ⟨r', hr', rfl⟩ := List.mem_map.1 hr
  have := (contract_heisRows (offDiag rot) pbc 1 (Or.inr ⟨rfl, rfl⟩) (expandDims s) (fun p => hs p.1)).spins r' hr'
  exact fun i => this (i, 0)

end Verif.Metropolis
