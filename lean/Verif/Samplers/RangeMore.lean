import Verif.Energy.Perturb

/-!
# C104 for the Ising model on grids and the Heisenberg model on chains
-/
namespace Verif.Metropolis.Range

open Verif.Operators Verif.Energy Verif.Energy.Range

/-- **C104, proved part: Ising grids.** -/
theorem C104_ising_grid_partial (L : Limits) (n m : Nat) (h j : ℝ) (pbc : Bool) (logψ : Config (Fin n × Fin m) → ℂ) (B : Nat)
    (M : ℝ) (hM : 0 < M) (hbig : M ≤ L.big) (hAM : ((n * m : Nat) * (|h| + 2 * |j|)) * M ≤ L.big) :
    failure L (((n * m : Nat) * (|h| + 2 * |j|) + (n * m + 1 : Nat)) * L.small) (tfim (gridBonds n m pbc) h j) logψ B
      (fun sample => Answer.ofRows (n * m + 1) (isingFindConn2 (.float h) j pbc sample)
        fun b => by rw [isingFindConn2_eq]; simp [length_gridSites]) ≤
      B * (n * m + 1 : Nat) / M ^ 2 := by
  refine failure_le (Nat.succ_pos _) L _ logψ B (rows := fun s => isingFindConn2 (.float h) j pbc (fun _ : Fin 1 => s) 0) _
    (fun sample b => (Exact.rowsOf_ising_grid n m h j pbc).eq B sample b)
    (fun s hs => C09_ising_grid (.float h) j pbc (fun _ : Fin 1 => s) 0 hs)
    (fun s hs => C06_ising_grid h j pbc (fun _ : Fin 1 => s) 0 _) ?_ _ M hM hbig hAM (fun s hs => mel_ising_grid n m h j pbc s hs)
  simp only [isingFindConn2_eq]
  have h1 : Flow (ι := Fin n × Fin m) (fun s => (gridSites n m).flatMap fun i => [⟨Operators.flip i s, -(Operators.Field.float h).val, true⟩])
      ((gridSites n m).length * 1) := flow_flatMap _ fun i =>
    flow_single (row := fun s => ⟨Operators.flip i s, -(Operators.Field.float h).val, true⟩) (fun s hs => flip_spin hs i) fun s t _ _ => flip_inj i s t
  have h0 : ∀ d : Config (Fin n × Fin m) → ℝ, Flow (fun s => [⟨s, d s, true⟩]) 1 := fun d => flow_single (fun s hs => hs) fun s t _ _ e => e
  have h2 := fun d => flow_append (h0 d) h1
  rw [length_gridSites, mul_one, add_comm] at h2
  simp only [← List.map_eq_flatMap] at h2
  exact h2 _

theorem flow_heis {n m : Nat} (rot pbc : Bool) (dim : Nat) (hdim : dim = 2 ∨ (dim = 1 ∧ m = 1)) :
    Flow (fun s : Config (Fin n × Fin m) => heisRows (offDiag rot) pbc dim s) (n * m * dim + 1) := by
  have hself : ∀ (d : Config (Fin n × Fin m) → ℝ) u, Flow (ι := Fin n × Fin m) (fun s => [⟨s, d s, u⟩]) 1 := fun d u =>
    flow_single (fun s hs => hs) fun s t _ _ e => e
  have hax : ∀ p nb, Flow (fun s => [axisRow (n := n) (m := m) (offDiag rot) s p nb]) 1 := by
    intro p nb
    cases nb with
    | none => exact hself (fun _ => 0) false
    | some b => exact flow_single (fun s hs => exchange_spin _ _ s hs) fun s t _ _ e => exchange_inj _ _ s t e
  have hif : ∀ (c : Prop) [Decidable c] p nb, Flow (fun s => if c then [axisRow (n := n) (m := m) (offDiag rot) s p nb] else [])
      (if c then 1 else 0) := by
    intro c _ p nb
    by_cases hc : c
    · simp only [if_pos hc]
      exact hax p nb
    · simp only [if_neg hc]
      exact flow_nil
  have hsite : ∀ p, Flow (fun s => siteRows (n := n) (m := m) (offDiag rot) pbc dim s p) dim := by
    intro p
    have := flow_append (flow_append (hif (n > 1) p ((chainNext n pbc p.1).map fun k => (k, p.2)))
      (hif (m > 1) p ((chainNext m pbc p.2).map fun k => (p.1, k))))
      (flow_replicate (dim - ((if n > 1 then 1 else 0) + (if m > 1 then 1 else 0))) (hself (fun _ => 0) false))
    have hk : (if n > 1 then 1 else 0) + (if m > 1 then 1 else 0) + (dim - ((if n > 1 then 1 else 0) + (if m > 1 then 1 else 0))) = dim := by
      split <;> split <;> omega
    rw [hk] at this
    exact this
  have h2 := flow_append (hself (fun s => ∑ p, siteDiag pbc s p) true) (flow_flatMap (gridSites n m) hsite)
  rw [length_gridSites, add_comm] at h2
  exact h2

/-- The configurations of a grid with one column are those of a chain. -/
theorem flow_squeeze {n K : Nat} {rows : Config (Fin n × Fin 1) → List (Row (Fin n × Fin 1) ℝ)} (h : Flow rows K) :
    Flow (fun s : Config (Fin n) => (rows (expandDims s)).map squeezeRow) K := by
  intro f hf
  have hbij : ∀ g : Config (Fin n × Fin 1) → ℝ, ∑ s ∈ allSpins (Fin n), g (expandDims s) = ∑ c ∈ allSpins (Fin n × Fin 1), g c := by
    intro g
    refine Finset.sum_nbij' expandDims squeeze (fun s hs => ?_) (fun c hc => ?_) (fun s _ => rfl) (fun c _ => ?_) fun s _ => rfl
    · exact (mem_allSpins _).2 fun p => (mem_allSpins s).1 hs p.1
    · exact (mem_allSpins _).2 fun i => (mem_allSpins c).1 hc (i, 0)
    · funext p
      obtain ⟨i, k⟩ := p
      have hk : k = 0 := Subsingleton.elim _ _
      subst hk
      rfl
  have h1 := h (fun c => f (squeeze c)) fun c => hf _
  rw [← hbij, ← hbij] at h1
  simp only [List.map_map]
  exact h1

/-- **C104, proved part: Heisenberg chains**, after any history of earlier calls of the operator. -/
theorem C104_heisenberg_chain_partial (L : Limits) (n : Nat) (rot pbc : Bool) (history : List (Call n 1))
    (logψ : Config (Fin n) → ℂ) (B : Nat) (M : ℝ) (hM : 0 < M) (hbig : M ≤ L.big) (hAM : (3 * n) * M ≤ L.big) :
    failure L ((3 * n + (n + 1 : Nat)) * L.small) (heisenberg (chainBonds' n pbc) (if rot then -1 else 1)) logψ B
      (fun sample => Answer.ofRows (n + 1) (((HeisOp.new1 n rot pbc).run history).findConn1 B sample).2
        fun b => by rw [answer1, List.length_map, length_heisRows _ _ _ (Or.inr ⟨rfl, rfl⟩)]; omega) ≤
      B * (n + 1 : Nat) / M ^ 2 := by
  have hR := Exact.rowsOf_heisenberg_chain n rot pbc history
  refine failure_le (Nat.succ_pos _) L _ logψ B (rows := fun s => (heisRows (offDiag rot) pbc 1 (expandDims s)).map squeezeRow) _
    (fun sample b => hR.eq B sample b) (fun s hs => ?_) (fun s hs => ?_) ?_ _ M hM hbig hAM (fun s hs => ?_)
  · have := C09_heisenberg_chain rot pbc history 1 (fun _ => s) 0 hs
    rwa [answer1] at this
  · have := C07_heisenberg_chain rot pbc history 1 (fun _ => s) 0 hs fun s => Complex.exp (logψ s)
    rwa [answer1] at this
  · have := flow_squeeze (flow_heis (n := n) (m := 1) rot pbc 1 (Or.inr ⟨rfl, rfl⟩))
    rwa [mul_one, mul_one] at this
  · rw [List.map_map]
    refine (mel_heis rot pbc 1 (Or.inr ⟨rfl, rfl⟩) (expandDims s) fun p => hs p.1).trans ?_
    have h1 : (gridBonds n 1 pbc).length ≤ n := (bonds_le n 1 pbc).trans (by simp)
    have h2 : ((gridBonds n 1 pbc).length : ℝ) ≤ n := by exact_mod_cast h1
    linarith

end Verif.Metropolis.Range
