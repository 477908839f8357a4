import Verif.Energy.Local
import Verif.Operators.Props2
import Mathlib.Algebra.BigOperators.Ring.Finset
import Mathlib.Analysis.Normed.Ring.Lemmas

/-!
# Properties C17 and C18: local energies
-/
namespace Verif.Energy

open Verif.Operators

/-! ### C17 -/

/-- C17: whenever the connection contract holds, the two evaluation strategies return the same local
values, without an error, and so the public method does not depend on which one it picks. -/
theorem C17_strategies_agree {σ : Type} {R B : Nat} (logψ : σ → ℂ) (a : Answer σ R B) (sample : Fin B → σ)
    (h : Contracted a sample) :
    unbalanced logψ a = balanced logψ a ∧ localValues logψ a = balanced logψ a ∧
      (balanced logψ a).isSome := by
  have h1 := unbalanced_eq logψ a sample h
  have h2 := balanced_eq logψ a sample h
  refine ⟨by rw [h1, h2], ?_, by rw [h2]; rfl⟩
  unfold localValues
  split
  · rw [h1, h2]
  · rfl

/-- Both strategies are really chosen: with three rows of which one is used the first is picked, with
one row which is used the second. -/
example : 100 * usedCount (⟨fun _ _ => (), fun _ _ => 0, fun r _ => r = 0⟩ : Answer Unit 3 1) < 95 * (3 * 1) ∧
    ¬ 100 * usedCount (⟨fun _ _ => (), fun _ _ => 1, fun _ _ => true⟩ : Answer Unit 1 1) < 95 * (1 * 1) := by
  decide

/-- The contract is needed: a row that is marked unused but carries a matrix element is counted by one
strategy only. -/
theorem C17_needs_contract : ∃ a : Answer Unit 2 1, unbalanced (fun _ => 0) a ≠ balanced (fun _ => 0) a := by
  refine ⟨⟨fun _ _ => (), fun _ _ => 1, fun r _ => r = 0⟩, ?_⟩
  have hu : usedRows (⟨fun _ _ => (), fun _ _ => 1, fun r _ => r = 0⟩ : Answer Unit 2 1) 0 = [0] := by decide
  have hf : List.finRange 1 = [0] := by decide
  simp [unbalanced, balanced, unbalancedStep, flatLogValues, hf, hu]

/-! ### C18 -/

/-- The arrays of a batch from the rows of the samples. -/
noncomputable def Answer.ofRows {ι : Type} {B : Nat} (R : Nat) (rows : Fin B → List (Row ι ℝ))
    (hlen : ∀ b, (rows b).length = R) : Answer (Config ι) R B where
  conn r b := ((rows b)[r.val]'(by rw [hlen]; exact r.isLt)).conn
  mel r b := (((rows b)[r.val]'(by rw [hlen]; exact r.isLt)).mel : ℂ)
  use r b := ((rows b)[r.val]'(by rw [hlen]; exact r.isLt)).use

/-- The value of the specification: `(Hψ)(s) / ψ(s)` at every sample. -/
noncomputable def specLocal {ι : Type} {B : Nat} (H : Wave ι → Wave ι) (ψ : Wave ι)
    (sample : Fin B → Config ι) : List ℂ := (List.finRange B).map fun b => H ψ (sample b) / ψ (sample b)

theorem sum_getElem {α : Type*} {M : Type*} [AddCommMonoid M] {R : Nat} (l : List α) (f : α → M)
    (h : l.length = R) : ∑ r : Fin R, f (l[r.val]'(by rw [h]; exact r.isLt)) = (l.map f).sum := by
  subst h
  rw [← List.sum_ofFn]
  congr 1
  apply List.ext_getElem <;> simp

/-- Local values of an operator whose rows fulfil the contract. -/
theorem localValues_ofRows {ι : Type} {R B : Nat} (rows : Fin B → List (Row ι ℝ)) (sample : Fin B → Config ι)
    (hc : ∀ b, Contract (sample b) R (rows b)) (hR : 0 < R) (H : Wave ι → Wave ι) (logψ : Config ι → ℂ)
    (hH : ∀ b, applyRows (rows b) (fun s => Complex.exp (logψ s)) = H (fun s => Complex.exp (logψ s)) (sample b)) :
    localValues logψ (Answer.ofRows R rows fun b => (hc b).count) =
      some (specLocal H (fun s => Complex.exp (logψ s)) sample) := by
  have hcon : Contracted (Answer.ofRows R rows fun b => (hc b).count) sample := by
    refine ⟨hR, ?_, ?_⟩
    · intro b
      obtain ⟨mel, hm⟩ := (hc b).first
      have h0 : (rows b)[0]'(by rw [(hc b).count]; exact hR) = ⟨sample b, mel, true⟩ := by
        rw [List.head?_eq_getElem?, List.getElem?_eq_getElem (by rw [(hc b).count]; exact hR)] at hm
        exact Option.some.inj hm
      unfold Answer.ofRows
      simp only [h0, and_self]
    · intro r b hu
      have := (hc b).unused _ (List.getElem_mem (by rw [(hc b).count]; exact r.isLt)) hu
      simp only [Answer.ofRows, this, Complex.ofReal_zero]
  rw [(C17_strategies_agree logψ _ sample hcon).2.1, balanced_eq logψ _ sample hcon]
  congr 1
  apply List.map_congr_left
  intro b _
  unfold ratio
  congr 1
  rw [← hH b]
  exact sum_getElem (rows b) (fun r => (r.mel : ℂ) * Complex.exp (logψ r.conn)) (hc b).count

/-- All spin configurations. -/
def allSpins (ι : Type) [DecidableEq ι] [Fintype ι] : Finset (Config ι) :=
  Fintype.piFinset fun _ => {1, -1}

theorem mem_allSpins {ι : Type} [DecidableEq ι] [Fintype ι] (s : Config ι) : s ∈ allSpins ι ↔ IsSpin s := by
  simp [allSpins, IsSpin]

/-- Rayleigh quotient `⟨ψ|Hψ⟩ / ⟨ψ|ψ⟩`. -/
noncomputable def rayleigh {ι : Type} [DecidableEq ι] [Fintype ι] (H : Wave ι → Wave ι) (ψ : Wave ι) : ℂ :=
  (∑ s ∈ allSpins ι, (starRingEnd ℂ) (ψ s) * H ψ s) / ∑ s ∈ allSpins ι, (starRingEnd ℂ) (ψ s) * ψ s

/-- What property C18 demands of an estimator run on a batch `sample` for the Hamiltonian `H`. -/
structure LocalEnergies {ι : Type} [DecidableEq ι] [Fintype ι] {B : Nat} (H : Wave ι → Wave ι)
    (sample : Fin B → Config ι) (logψ : Config ι → ℂ) (out : Option (ℂ × ℝ × List ℂ)) : Prop where
  /-- The estimator returns the local energies `(Hψ)(s)/ψ(s)` and their mean. -/
  values : ∃ v, out = some ((∑ b, H (fun s => Complex.exp (logψ s)) (sample b) / Complex.exp (logψ (sample b))) / B, v,
    (List.finRange B).map fun b => H (fun s => Complex.exp (logψ s)) (sample b) / Complex.exp (logψ (sample b)))
  /-- If the batch lists every configuration once, the mean of the returned values weighted with
  `|ψ|²` is the Rayleigh quotient. -/
  weighted : (∀ s, IsSpin s → ∃! b, sample b = s) → ∀ m v lv, out = some (m, v, lv) →
    (∑ b : Fin B, ((‖Complex.exp (logψ (sample b))‖ ^ 2 : ℝ) : ℂ) * lv.getD b 0) /
      (∑ b : Fin B, ((‖Complex.exp (logψ (sample b))‖ ^ 2 : ℝ) : ℂ)) =
      rayleigh H (fun s => Complex.exp (logψ s))
  /-- If `ψ` is an eigenstate, every local energy and the mean are the eigenvalue, the variance zero. -/
  eigen : ∀ E : ℂ, (∀ s, IsSpin s → H (fun s => Complex.exp (logψ s)) s = E * Complex.exp (logψ s)) → 0 < B →
    out = some (E, 0, List.replicate B E)

theorem conj_mul_self (z : ℂ) : (starRingEnd ℂ) z * z = ((‖z‖ ^ 2 : ℝ) : ℂ) := by
  rw [mul_comm, Complex.mul_conj, Complex.normSq_eq_norm_sq]

theorem sum_replicate_eq {M : Type*} [NonAssocSemiring M] (B : Nat) (x : M) :
    (List.replicate B x).sum = (B : M) * x := by
  rw [List.sum_replicate, nsmul_eq_mul]

theorem localEnergies_of {ι : Type} [DecidableEq ι] [Fintype ι] {R B : Nat} (H : Wave ι → Wave ι)
    (sample : Fin B → Config ι) (hs : ∀ b, IsSpin (sample b)) (logψ : Config ι → ℂ) (a : Answer (Config ι) R B)
    (h : localValues logψ a = some (specLocal H (fun s => Complex.exp (logψ s)) sample)) :
    LocalEnergies H sample logψ (estimate logψ a) := by
  have hout : estimate logψ a = some (mean (specLocal H (fun s => Complex.exp (logψ s)) sample),
      variance ((specLocal H (fun s => Complex.exp (logψ s)) sample).map Complex.re),
      specLocal H (fun s => Complex.exp (logψ s)) sample) := by
    unfold estimate
    rw [h]
    rfl
  refine ⟨⟨variance ((specLocal H (fun s => Complex.exp (logψ s)) sample).map Complex.re), ?_⟩, ?_, ?_⟩
  · rw [hout]
    congr 2
    unfold mean specLocal
    rw [List.length_map, List.length_finRange, ← List.ofFn_eq_map, List.sum_ofFn]
  · intro henum m v lv hlv
    rw [hout, Option.some.injEq, Prod.mk.injEq, Prod.mk.injEq] at hlv
    obtain ⟨-, -, rfl⟩ := hlv
    have hget : ∀ b : Fin B, (specLocal H (fun s => Complex.exp (logψ s)) sample).getD b 0 =
        H (fun s => Complex.exp (logψ s)) (sample b) / Complex.exp (logψ (sample b)) := by
      intro b
      simp [specLocal, List.getD_eq_getElem?_getD]
    have hsum : ∀ f : Config ι → ℂ, ∑ b, f (sample b) = ∑ s ∈ allSpins ι, f s := by
      intro f
      refine Finset.sum_bij (fun b _ => sample b) (fun b _ => (mem_allSpins _).2 (hs b)) ?_ ?_ (fun _ _ => rfl)
      · intro b _ b' _ hb
        exact (henum _ (hs b')).unique hb rfl
      · intro s hsm
        obtain ⟨b, hb, -⟩ := henum s ((mem_allSpins s).1 hsm)
        exact ⟨b, Finset.mem_univ _, hb⟩
    unfold rayleigh
    rw [← hsum, ← hsum]
    congr 1
    · apply Finset.sum_congr rfl
      intro b _
      rw [hget, ← conj_mul_self]
      have := Complex.exp_ne_zero (logψ (sample b))
      field_simp
    · apply Finset.sum_congr rfl
      intro b _
      rw [conj_mul_self]
  · intro E hE hB
    have hspec : specLocal H (fun s => Complex.exp (logψ s)) sample = List.replicate B E := by
      unfold specLocal
      rw [List.eq_replicate_iff]
      refine ⟨by simp, ?_⟩
      intro x hx
      rw [List.mem_map] at hx
      obtain ⟨b, -, rfl⟩ := hx
      rw [hE _ (hs b)]
      field_simp [Complex.exp_ne_zero]
    rw [hout, hspec]
    have hBC : (B : ℂ) ≠ 0 := by exact_mod_cast hB.ne'
    have hBR : (B : ℝ) ≠ 0 := by exact_mod_cast hB.ne'
    have hmean : mean (List.replicate B E) = E := by
      unfold mean
      rw [sum_replicate_eq, List.length_replicate]
      field_simp
    have hvar : variance ((List.replicate B E).map Complex.re) = 0 := by
      unfold variance
      rw [List.map_replicate, List.map_replicate, sum_replicate_eq, sum_replicate_eq, List.length_replicate]
      field_simp
      simp
    rw [hmean, hvar]

/-- C18 for the Ising model on chains. -/
theorem C18_ising_chain {n B : Nat} (h j : ℝ) (pbc : Bool) (sample : Fin B → Config (Fin n))
    (hs : ∀ b, IsSpin (sample b)) (logψ : Config (Fin n) → ℂ) :
    LocalEnergies (tfim (chainBonds n pbc) h j) sample logψ
      (estimate logψ (Answer.ofRows (n + 1) (isingFindConn1 (.float h) j pbc sample)
        fun b => (C09_ising_chain (.float h) j pbc sample b (hs b)).count)) :=
  localEnergies_of _ sample hs logψ _ (localValues_ofRows _ sample
    (fun b => C09_ising_chain (.float h) j pbc sample b (hs b)) (by omega) _ logψ
    fun b => C06_ising_chain h j pbc sample b _)

/-- C18 for the Ising model on grids. -/
theorem C18_ising_grid {n m B : Nat} (h j : ℝ) (pbc : Bool) (sample : Fin B → Config (Fin n × Fin m))
    (hs : ∀ b, IsSpin (sample b)) (logψ : Config (Fin n × Fin m) → ℂ) :
    LocalEnergies (tfim (gridBonds n m pbc) h j) sample logψ
      (estimate logψ (Answer.ofRows (n * m + 1) (isingFindConn2 (.float h) j pbc sample)
        fun b => (C09_ising_grid (.float h) j pbc sample b (hs b)).count)) :=
  localEnergies_of _ sample hs logψ _ (localValues_ofRows _ sample
    (fun b => C09_ising_grid (.float h) j pbc sample b (hs b)) (by omega) _ logψ
    fun b => C06_ising_grid h j pbc sample b _)

/-- C18 for the Heisenberg model on grids, after any history of earlier calls of the operator. -/
theorem C18_heisenberg_grid {n m : Nat} (rot pbc : Bool) (history : List (Call n m)) (B : Nat)
    (sample : Fin B → Config (Fin n × Fin m)) (hs : ∀ b, IsSpin (sample b))
    (logψ : Config (Fin n × Fin m) → ℂ) :
    LocalEnergies (heisenberg (gridBonds n m pbc) (if rot then -1 else 1)) sample logψ
      (estimate logψ (Answer.ofRows (n * m * 2 + 1)
        (((HeisOp.new2 n m rot pbc).run history).findConn B sample).2
        fun b => (C09_heisenberg_grid rot pbc history B sample b (hs b)).count)) :=
  localEnergies_of _ sample hs logψ _ (localValues_ofRows _ sample
    (fun b => C09_heisenberg_grid rot pbc history B sample b (hs b)) (by omega) _ logψ
    fun b => C07_heisenberg_grid rot pbc history B sample b (hs b) _)

/-- C18 for the Heisenberg model on chains, after any history of earlier calls of the operator. -/
theorem C18_heisenberg_chain {n : Nat} (rot pbc : Bool) (history : List (Call n 1)) (B : Nat)
    (sample : Fin B → Config (Fin n)) (hs : ∀ b, IsSpin (sample b)) (logψ : Config (Fin n) → ℂ) :
    LocalEnergies (heisenberg (chainBonds' n pbc) (if rot then -1 else 1)) sample logψ
      (estimate logψ (Answer.ofRows (n + 1)
        (((HeisOp.new1 n rot pbc).run history).findConn1 B sample).2
        fun b => (C09_heisenberg_chain rot pbc history B sample b (hs b)).count)) :=
  localEnergies_of _ sample hs logψ _ (localValues_ofRows _ sample
    (fun b => C09_heisenberg_chain rot pbc history B sample b (hs b)) (by omega) _ logψ
    fun b => C07_heisenberg_chain rot pbc history B sample b (hs b) _)

end Verif.Energy
