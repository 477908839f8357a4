import Verif.Symmetry.Commute
import Verif.Energy.J1J2

/-!
# C160: energies do not depend on how a lattice is laid out

The examples describe chains by shapes like `(20, 1)` (examples/rbm_heisenberg_1d_sr.py line 14, examples/benchmark.py line 26)
as well as by `(20,)` (examples/complex_ops_autoregressive_heisenberg_1d.py line 29).
-/
namespace Verif.Ensemble

open Verif.Operators Verif.Energy

/-! ### Specification -/

/-- Two runs of the energy observable and of the generator end with the same energy, variance, local energies and training
targets (for every value of the batch size that the targets are divided by). -/
def SameResults {σ τ : Type} {R R' B : Nat} (logψ : σ → ℂ) (a : Answer σ R B) (logφ : τ → ℂ) (a' : Answer τ R' B) : Prop :=
  (∃ r, estimate logψ a = some r ∧ estimate logφ a' = some r) ∧ ∀ N, Exact.vmcCoefficients N logψ a = Exact.vmcCoefficients N logφ a'

/-- The configuration of a chain, laid out as a column of shape `(n, 1)`. -/
def column {n : Nat} (s : Config (Fin n)) : Config (Fin n × Fin 1) := fun p => s p.1

/-- The configuration of a chain, laid out as a row of shape `(1, n)`. -/
def row {n : Nat} (s : Config (Fin n)) : Config (Fin 1 × Fin n) := fun p => s p.2

/-- A grid turned over. -/
def turned {n m : Nat} (s : Config (Fin n × Fin m)) : Config (Fin m × Fin n) := fun p => s (p.2, p.1)

/-! ### Proof -/

section Rename
variable {ι κ : Type} [DecidableEq ι] [DecidableEq κ]

/-- `H'` does on the sites `κ` what `H` does on the sites `ι`. -/
def Renamed (H : Wave ι → Wave ι) (H' : Wave κ → Wave κ) (e : ι ≃ κ) : Prop :=
  ∀ (ψ : Wave ι) (s : Config κ), H ψ (fun p => s (e p)) = H' (fun t => ψ fun p => t (e p)) s

theorem flip_across (e : ι ≃ κ) (i : ι) (s : Config κ) : (Operators.flip i fun p => s (e p)) = fun p => Operators.flip (e i) s (e p) := by
  funext p
  unfold Operators.flip Function.update
  by_cases h : p = i
  · subst h; simp
  · simp [h, e.injective.ne h]

omit [DecidableEq ι] [DecidableEq κ] in
theorem zz_across (e : ι ≃ κ) (ψ : Wave ι) (a b : ι) (s : Config κ) :
    pauliZ a (pauliZ b ψ) (fun p => s (e p)) = pauliZ (e a) (pauliZ (e b) fun t => ψ fun p => t (e p)) s := rfl

theorem xx_across (e : ι ≃ κ) (ψ : Wave ι) (a b : ι) (s : Config κ) :
    pauliX a (pauliX b ψ) (fun p => s (e p)) = pauliX (e a) (pauliX (e b) fun t => ψ fun p => t (e p)) s := by
  unfold pauliX; rw [flip_across, flip_across]

theorem yy_across (e : ι ≃ κ) (ψ : Wave ι) (a b : ι) (s : Config κ) :
    pauliY a (pauliY b ψ) (fun p => s (e p)) = pauliY (e a) (pauliY (e b) fun t => ψ fun p => t (e p)) s := by
  unfold pauliY; rw [flip_across, flip_across]

/-- The bonds of two lattices are the same up to the names of the sites and the order of the list. -/
def SameBonds (bonds : List (ι × ι)) (bonds' : List (κ × κ)) (e : ι ≃ κ) : Prop :=
  ∀ f : κ × κ → ℂ, (bonds.map fun b => f (e b.1, e b.2)).sum = (bonds'.map f).sum

theorem tfim_renamed [Fintype ι] [Fintype κ] {bonds : List (ι × ι)} {bonds' : List (κ × κ)} {e : ι ≃ κ} (he : SameBonds bonds bonds' e)
    (h J : ℝ) : Renamed (tfim bonds h J) (tfim bonds' h J) e := by
  intro ψ s
  unfold tfim
  have h1 : (bonds.map fun b => pauliZ b.1 (pauliZ b.2 ψ) fun p => s (e p)).sum =
      (bonds'.map fun b => pauliZ b.1 (pauliZ b.2 fun t => ψ fun p => t (e p)) s).sum := by
    simp only [zz_across e ψ]
    exact he fun b => pauliZ b.1 (pauliZ b.2 fun t => ψ fun p => t (e p)) s
  have h2 : (∑ i, pauliX i ψ fun p => s (e p)) = ∑ i, pauliX i (fun t => ψ fun p => t (e p)) s := by
    refine Fintype.sum_equiv e _ _ fun i => ?_
    unfold pauliX; rw [flip_across]
  rw [h1, h2]

theorem heisenberg_renamed {bonds : List (ι × ι)} {bonds' : List (κ × κ)} {e : ι ≃ κ} (he : SameBonds bonds bonds' e) (ε : ℝ) :
    Renamed (heisenberg bonds ε) (heisenberg bonds' ε) e := by
  intro ψ s
  unfold heisenberg
  simp only [zz_across e ψ, xx_across e ψ, yy_across e ψ]
  exact he fun b => (ε : ℂ) * (pauliX b.1 (pauliX b.2 fun t => ψ fun p => t (e p)) s +
    pauliY b.1 (pauliY b.2 fun t => ψ fun p => t (e p)) s) + pauliZ b.1 (pauliZ b.2 fun t => ψ fun p => t (e p)) s

end Rename

theorem chain_column (n : Nat) (pbc : Bool) (hn : 1 < n) :
    SameBonds (chainBonds n pbc) (gridBonds n 1 pbc) (Equiv.prodUnique (Fin n) (Fin 1)).symm := by
  intro f
  rw [sum_chain n pbc fun b => f ((Equiv.prodUnique (Fin n) (Fin 1)).symm b.1, (Equiv.prodUnique (Fin n) (Fin 1)).symm b.2), sum_grid,
    if_pos hn, if_neg (by decide), add_zero, Fin.sum_univ_one]
  rfl

theorem chain_row (n : Nat) (pbc : Bool) (hn : 1 < n) :
    SameBonds (chainBonds n pbc) (gridBonds 1 n pbc) (Equiv.uniqueProd (Fin n) (Fin 1)).symm := by
  intro f
  rw [sum_chain n pbc fun b => f ((Equiv.uniqueProd (Fin n) (Fin 1)).symm b.1, (Equiv.uniqueProd (Fin n) (Fin 1)).symm b.2), sum_grid,
    if_pos hn, if_neg (by decide), zero_add, Fin.sum_univ_one]
  rfl

theorem chain_column' (n : Nat) (pbc : Bool) :
    SameBonds (chainBonds' n pbc) (gridBonds n 1 pbc) (Equiv.prodUnique (Fin n) (Fin 1)).symm := by
  by_cases hn : n > 1
  · unfold chainBonds'
    rw [if_pos hn]
    exact chain_column n pbc hn
  · intro f
    unfold chainBonds'
    rw [if_neg hn, sum_grid, if_neg hn, if_neg (by decide)]
    simp

theorem chain_row' (n : Nat) (pbc : Bool) :
    SameBonds (chainBonds' n pbc) (gridBonds 1 n pbc) (Equiv.uniqueProd (Fin n) (Fin 1)).symm := by
  by_cases hn : n > 1
  · unfold chainBonds'
    rw [if_pos hn]
    exact chain_row n pbc hn
  · intro f
    unfold chainBonds'
    rw [if_neg hn, sum_grid, if_neg hn, if_neg (by decide)]
    simp

theorem grid_turned (n m : Nat) (pbc : Bool) : SameBonds (gridBonds n m pbc) (gridBonds m n pbc) (Equiv.prodComm (Fin n) (Fin m)) := by
  intro f
  rw [sum_grid n m pbc fun b => f (Equiv.prodComm (Fin n) (Fin m) b.1, Equiv.prodComm (Fin n) (Fin m) b.2), sum_grid, add_comm]
  rfl

section
open Verif.J1J2 Verif.J1J2.Op

theorem hamiltonian_renamed (L1 L2 : Nat) (pbc : Bool) (hL : pbc = true → 3 ≤ L1 ∧ 3 ≤ L2) (j2 : ℂ) :
    Renamed (hamiltonian L1 L2 pbc j2) (hamiltonian L2 L1 pbc j2) (Equiv.prodComm (Fin L1) (Fin L2)) := by
  intro ψ s
  refine mul_left_cancel₀ (two_ne_zero (α := ℂ)) ?_
  rw [two_mul_hamiltonian L1 L2 pbc hL, two_mul_hamiltonian L2 L1 pbc fun h => (hL h).symm]
  refine Fintype.sum_equiv (Equiv.prodComm (Fin L1) (Fin L2)) _ _ fun p => Fintype.sum_equiv (Equiv.prodComm (Fin L1) (Fin L2)) _ _ fun q => ?_
  have hn : nearest L2 L1 pbc (p.2.val, p.1.val) (q.2.val, q.1.val) ↔ nearest L1 L2 pbc (p.1.val, p.2.val) (q.1.val, q.2.val) := by
    unfold nearest; tauto
  have hd : diagonal L2 L1 pbc (p.2.val, p.1.val) (q.2.val, q.1.val) ↔ diagonal L1 L2 pbc (p.1.val, p.2.val) (q.1.val, q.2.val) := by
    unfold diagonal; tauto
  have h1 := zz_across (Equiv.prodComm (Fin L1) (Fin L2)) ψ p q s
  have h2 := xx_across (Equiv.prodComm (Fin L1) (Fin L2)) ψ p q s
  have h3 := yy_across (Equiv.prodComm (Fin L1) (Fin L2)) ψ p q s
  show pairTerm L1 L2 pbc j2 ψ (fun p => s (Equiv.prodComm (Fin L1) (Fin L2) p)) p q =
    pairTerm L2 L1 pbc j2 (fun t => ψ fun p => t (Equiv.prodComm (Fin L1) (Fin L2) p)) s (Equiv.prodComm (Fin L1) (Fin L2) p)
      (Equiv.prodComm (Fin L1) (Fin L2) q)
  unfold pairTerm coupling
  simp only [h1, h2, h3]
  exact congrArg₂ (· + ·) (if_congr hn.symm rfl rfl) (if_congr hd.symm rfl rfl)

end

theorem sameResults_of {ι κ : Type} {R R' B : Nat} {H : Wave ι → Wave ι} {H' : Wave κ → Wave κ} {e : ι ≃ κ} (h : Renamed H H' e)
    {logψ : Config ι → ℂ} {a : Answer (Config ι) R B} {a' : Answer (Config κ) R' B} {sample : Fin B → Config ι} {sample' : Fin B → Config κ}
    (hsample : ∀ b, sample b = fun p => sample' b (e p))
    (ha : localValues logψ a = some (specLocal H (fun s => Complex.exp (logψ s)) sample))
    (ha' : localValues (fun s => logψ fun p => s (e p)) a' =
      some (specLocal H' (fun s => Complex.exp (logψ fun p => s (e p))) sample')) :
    SameResults logψ a (fun s => logψ fun p => s (e p)) a' := by
  have hspec : specLocal H (fun s => Complex.exp (logψ s)) sample = specLocal H' (fun s => Complex.exp (logψ fun p => s (e p))) sample' := by
    unfold specLocal
    refine List.map_congr_left fun b _ => ?_
    rw [hsample b, h (fun s => Complex.exp (logψ s)) (sample' b)]
  have hest : estimate logψ a = estimate (fun s => logψ fun p => s (e p)) a' := by
    unfold estimate
    rw [ha, ha', hspec]
  refine ⟨⟨_, by unfold estimate; rw [ha]; rfl, by rw [← hest]; unfold estimate; rw [ha]; rfl⟩, fun N => ?_⟩
  unfold Exact.vmcCoefficients
  rw [hest]

/-! ### C160 -/

section
variable {n m B : Nat}

/-- **C160, Ising, chains as columns and rows**: on chains of at least two sites. -/
theorem C160_ising_chain_partial (hn : 1 < n) (h j : ℝ) (pbc : Bool) (sample : Fin B → Config (Fin n)) (hs : ∀ b, IsSpin (sample b))
    (logψ : Config (Fin n) → ℂ) :
    SameResults logψ (Answer.ofRows (n + 1) (isingFindConn1 (.float h) j pbc sample) fun b => by rw [isingFindConn1_eq]; simp)
      (fun s : Config (Fin n × Fin 1) => logψ fun i => s (i, 0))
      (Answer.ofRows (n * 1 + 1) (isingFindConn2 (.float h) j pbc fun b => column (sample b))
        fun b => by rw [isingFindConn2_eq]; simp [length_gridSites]) ∧
    SameResults logψ (Answer.ofRows (n + 1) (isingFindConn1 (.float h) j pbc sample) fun b => by rw [isingFindConn1_eq]; simp)
      (fun s : Config (Fin 1 × Fin n) => logψ fun i => s (0, i))
      (Answer.ofRows (1 * n + 1) (isingFindConn2 (.float h) j pbc fun b => row (sample b))
        fun b => by rw [isingFindConn2_eq]; simp [length_gridSites]) :=
  ⟨sameResults_of (tfim_renamed (chain_column n pbc hn) h j) (sample' := fun b => column (sample b)) (fun b => rfl)
    (localValues_ofRows _ sample (fun b => C09_ising_chain (.float h) j pbc sample b (hs b)) (by omega) _ logψ
      fun b => C06_ising_chain h j pbc sample b _)
    (localValues_ofRows _ _ (fun b => C09_ising_grid (.float h) j pbc _ b fun p => hs b p.1) (by omega) _ _
      fun b => C06_ising_grid h j pbc _ b _),
  sameResults_of (tfim_renamed (chain_row n pbc hn) h j) (sample' := fun b => row (sample b)) (fun b => rfl)
    (localValues_ofRows _ sample (fun b => C09_ising_chain (.float h) j pbc sample b (hs b)) (by omega) _ logψ
      fun b => C06_ising_chain h j pbc sample b _)
    (localValues_ofRows _ _ (fun b => C09_ising_grid (.float h) j pbc _ b fun p => hs b p.2) (by omega) _ _
      fun b => C06_ising_grid h j pbc _ b _)⟩

/-- **C160, Ising, grids turned over.** -/
theorem C160_ising_grid (h j : ℝ) (pbc : Bool) (sample : Fin B → Config (Fin n × Fin m)) (hs : ∀ b, IsSpin (sample b))
    (logψ : Config (Fin n × Fin m) → ℂ) :
    SameResults logψ (Answer.ofRows (n * m + 1) (isingFindConn2 (.float h) j pbc sample)
        fun b => by rw [isingFindConn2_eq]; simp [length_gridSites])
      (fun s => logψ (turned s)) (Answer.ofRows (m * n + 1) (isingFindConn2 (.float h) j pbc fun b => turned (sample b))
        fun b => by rw [isingFindConn2_eq]; simp [length_gridSites]) :=
  sameResults_of (tfim_renamed (grid_turned n m pbc) h j) (sample' := fun b => turned (sample b)) (fun b => rfl)
    (localValues_ofRows _ sample (fun b => C09_ising_grid (.float h) j pbc sample b (hs b)) (by omega) _ logψ
      fun b => C06_ising_grid h j pbc sample b _)
    (localValues_ofRows _ (fun b => turned (sample b)) (fun b => C09_ising_grid (.float h) j pbc (fun b => turned (sample b)) b fun p =>
        hs b (p.2, p.1)) (by omega) _ (fun s => logψ (turned s))
      fun b => C06_ising_grid h j pbc (fun b => turned (sample b)) b _)

/-- **C160, Heisenberg, chains as columns and rows**, for any earlier calls of the operators. -/
theorem C160_heisenberg_chain (rot pbc : Bool) (history : List (Call n 1)) (history1 : List (Call n 1)) (history2 : List (Call 1 n))
    (sample : Fin B → Config (Fin n)) (hs : ∀ b, IsSpin (sample b)) (logψ : Config (Fin n) → ℂ) :
    SameResults logψ (Answer.ofRows (n + 1) (((HeisOp.new1 n rot pbc).run history).findConn1 B sample).2
        fun b => (C09_heisenberg_chain rot pbc history B sample b (hs b)).count)
      (fun s : Config (Fin n × Fin 1) => logψ fun i => s (i, 0))
      (Answer.ofRows (n * 1 * 2 + 1) (((HeisOp.new2 n 1 rot pbc).run history1).findConn B fun b => column (sample b)).2
        fun b => (C09_heisenberg_grid rot pbc history1 B (fun b => column (sample b)) b fun p => hs b p.1).count) ∧
    SameResults logψ (Answer.ofRows (n + 1) (((HeisOp.new1 n rot pbc).run history).findConn1 B sample).2
        fun b => (C09_heisenberg_chain rot pbc history B sample b (hs b)).count)
      (fun s : Config (Fin 1 × Fin n) => logψ fun i => s (0, i))
      (Answer.ofRows (1 * n * 2 + 1) (((HeisOp.new2 1 n rot pbc).run history2).findConn B fun b => row (sample b)).2
        fun b => (C09_heisenberg_grid rot pbc history2 B (fun b => row (sample b)) b fun p => hs b p.2).count) :=
  ⟨sameResults_of (heisenberg_renamed (chain_column' n pbc) _) (sample' := fun b => column (sample b)) (fun b => rfl)
    (localValues_ofRows _ sample (fun b => C09_heisenberg_chain rot pbc history B sample b (hs b)) (by omega) _ logψ
      fun b => C07_heisenberg_chain rot pbc history B sample b (hs b) _)
    (localValues_ofRows _ _ (fun b => C09_heisenberg_grid rot pbc history1 B (fun b => column (sample b)) b fun p => hs b p.1) (by omega) _ _
      fun b => C07_heisenberg_grid rot pbc history1 B (fun b => column (sample b)) b (fun p => hs b p.1) _),
  sameResults_of (heisenberg_renamed (chain_row' n pbc) _) (sample' := fun b => row (sample b)) (fun b => rfl)
    (localValues_ofRows _ sample (fun b => C09_heisenberg_chain rot pbc history B sample b (hs b)) (by omega) _ logψ
      fun b => C07_heisenberg_chain rot pbc history B sample b (hs b) _)
    (localValues_ofRows _ _ (fun b => C09_heisenberg_grid rot pbc history2 B (fun b => row (sample b)) b fun p => hs b p.2) (by omega) _ _
      fun b => C07_heisenberg_grid rot pbc history2 B (fun b => row (sample b)) b (fun p => hs b p.2) _)⟩

/-- **C160, Heisenberg, grids turned over**, for any earlier calls of the operators. -/
theorem C160_heisenberg_grid (rot pbc : Bool) (history : List (Call n m)) (history' : List (Call m n))
    (sample : Fin B → Config (Fin n × Fin m)) (hs : ∀ b, IsSpin (sample b)) (logψ : Config (Fin n × Fin m) → ℂ) :
    SameResults logψ (Answer.ofRows (n * m * 2 + 1) (((HeisOp.new2 n m rot pbc).run history).findConn B sample).2
        fun b => (C09_heisenberg_grid rot pbc history B sample b (hs b)).count)
      (fun s => logψ (turned s))
      (Answer.ofRows (m * n * 2 + 1) (((HeisOp.new2 m n rot pbc).run history').findConn B fun b => turned (sample b)).2
        fun b => (C09_heisenberg_grid rot pbc history' B (fun b => turned (sample b)) b fun p => hs b (p.2, p.1)).count) :=
  sameResults_of (heisenberg_renamed (grid_turned n m pbc) _) (sample' := fun b => turned (sample b)) (fun b => rfl)
    (localValues_ofRows _ sample (fun b => C09_heisenberg_grid rot pbc history B sample b (hs b)) (by omega) _ logψ
      fun b => C07_heisenberg_grid rot pbc history B sample b (hs b) _)
    (localValues_ofRows _ (fun b => turned (sample b)) (fun b => C09_heisenberg_grid rot pbc history' B (fun b => turned (sample b)) b
        fun p => hs b (p.2, p.1)) (by omega) _ (fun s => logψ (turned s))
      fun b => C07_heisenberg_grid rot pbc history' B (fun b => turned (sample b)) b (fun p => hs b (p.2, p.1)) _)

open Verif.J1J2.Op in
/-- **C160, J1-J2, lattices turned over**, for any earlier calls of the operators. -/
theorem C160_j1j2 (first : ℤ) (hf : first = 1 ∨ first = -1) (h1 : 0 < n) (h2 : 0 < m) (j2 : ℝ) (pbc : Bool)
    (hL : pbc = true → 3 ≤ n ∧ 3 ≤ m) (history history' : List (List Netket.Conf)) (hB : 0 < B) (sample : Fin B → Config (Fin n × Fin m))
    (hs : ∀ b, IsSpin (sample b)) (logψ : Config (Fin n × Fin m) → ℂ) :
    (∃ r, j1j2Estimate first n m j2 pbc history B logψ sample = some r ∧
      j1j2Estimate first m n j2 pbc history' B (fun s => logψ (turned s)) (fun b => turned (sample b)) = some r) ∧
    j1j2Targets first n m j2 pbc history B logψ sample =
      j1j2Targets first m n j2 pbc history' B (fun s => logψ (turned s)) fun b => turned (sample b) := by
  have hs' : ∀ b, IsSpin (turned (sample b)) := fun b p => hs b _
  have hL' : pbc = true → 3 ≤ m ∧ 3 ≤ n := fun h => (hL h).symm
  have h := sameResults_of (hamiltonian_renamed n m pbc hL j2) (sample' := fun b => turned (sample b)) (fun b => rfl)
    (clean_values first hf h1 h2 j2 pbc hL sample hs logψ)
    (clean_values first hf h2 h1 j2 pbc hL' (fun b => turned (sample b)) hs' _)
  rw [estimate_clean first hf h1 h2 j2 pbc hL history hB sample hs,
    estimate_clean first hf h2 h1 j2 pbc hL' history' hB _ hs', targets_clean first hf h1 h2 j2 pbc hL history hB sample hs,
    targets_clean first hf h2 h1 j2 pbc hL' history' hB _ hs']
  exact ⟨h.1, h.2 B⟩

/-- **C160 fails for one periodic site**: as the chain `(1,)` it is bound to itself, as the grid `(1, 1)` it is not. -/
theorem C160_violated_one_site (h : ℝ) : ∃ (sample : Fin 1 → Config (Fin 1)) (logψ : Config (Fin 1) → ℂ), (∀ b, IsSpin (sample b)) ∧
    ¬SameResults logψ (Answer.ofRows (1 + 1) (isingFindConn1 (.float h) 1 true sample) fun b => by rw [isingFindConn1_eq]; simp)
      (fun s : Config (Fin 1 × Fin 1) => logψ fun i => s (i, 0))
      (Answer.ofRows (1 * 1 + 1) (isingFindConn2 (.float h) 1 true fun b => column (sample b))
        fun b => by rw [isingFindConn2_eq]; simp [length_gridSites]) := by
  refine ⟨fun _ _ => 1, fun _ => 0, fun _ _ => Or.inl rfl, ?_⟩
  rintro ⟨⟨r, h1, h2⟩, -⟩
  have e1 := (C18_ising_chain h 1 true (fun (_ : Fin 1) (_ : Fin 1) => (1 : ℤ)) (fun _ _ => Or.inl rfl) fun _ => 0).values
  have e2 := (C18_ising_grid h 1 true (fun (_ : Fin 1) => column fun (_ : Fin 1) => (1 : ℤ)) (fun _ _ => Or.inl rfl)
    fun _ : Config (Fin 1 × Fin 1) => 0).values
  obtain ⟨v1, e1⟩ := e1
  obtain ⟨v2, e2⟩ := e2
  have h3 := (Option.some.inj (h1.symm.trans e1)).symm.trans (Option.some.inj (h2.symm.trans e2))
  have h4 := congrArg Prod.fst h3
  simp [tfim, chainBonds, gridBonds, chainNext, pauliZ, pauliX, column, List.finRange_succ] at h4

end

/-- The chain of the example of C160: three sites, whose configurations are not all alike in their local energies. -/
example : (1 < 3) ∧ ∃ sample : Fin 2 → Config (Fin 3), (∀ b, IsSpin (sample b)) ∧
    tfim (chainBonds 3 false) 1 1 (fun _ => 1) (sample 0) ≠ tfim (chainBonds 3 false) 1 1 (fun _ => 1) (sample 1) := by
  refine ⟨by decide, ![fun _ => 1, ![1, -1, 1]], fun b i => ?_, ?_⟩
  · fin_cases b <;> fin_cases i <;> simp
  · simp [tfim, chainBonds, chainNext, pauliZ, pauliX, List.finRange_succ]
    norm_num

end Verif.Ensemble
