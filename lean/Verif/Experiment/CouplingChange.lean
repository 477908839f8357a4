import Verif.Experiment.EnergyRange

/-!
# C172: small changes of the couplings change the energies only a little

Two Ising operators on the same lattice report for the same network energies that differ by at most the difference of the fields per site
and the difference of the couplings per bond. The ground energies, which the reported relative errors refer to, differ by no more.
-/
namespace Verif.Experiment

open Verif.Energy Verif.Energy.Exact Verif.Operators Verif.Callbacks

variable {ι : Type} [Fintype ι] [DecidableEq ι]

/-! ### Specification -/

/-- Whatever batch sizes are accepted and whatever was evaluated before, the energies that two operators report for the same network are real
numbers that differ by at most `δ`. -/
def EnergiesClose {N : ℕ} (e : ι ≃ Fin N) (op op' : (B : Nat) → (Fin B → Config ι) → Fin B → List (Row ι ℝ)) (R : Nat) (δ : ℝ) : Prop :=
  ∀ batch batch', 0 < batch → 0 < batch' → (2 ^ N ≤ batch ∨ batch ∣ 2 ^ N) → (2 ^ N ≤ batch' ∨ batch' ∣ 2 ^ N) →
    ∃ o o', Obj.new (spinSetup e op R) batch = .ok o ∧ Obj.new (spinSetup e op' R) batch' = .ok o' ∧
      ∀ nets nets' net, ∃ E E' : ℝ, (after o nets net).arrays.energy = E ∧ (after o' nets' net).arrays.energy = E' ∧ |E - E'| ≤ δ

/-! ### Proofs -/

theorem tfim_difference (bonds : List (ι × ι)) (h h' j j' : ℝ) (φ : Wave ι) :
    form φ (tfim bonds h j φ) - form φ (tfim bonds h' j' φ) = form φ (tfim bonds (h - h') (j - j') φ) := by
  rw [tfim_form, tfim_form, tfim_form]
  ring

theorem tfim_close (bonds : List (ι × ι)) (h h' j j' : ℝ) (φ : Wave ι) :
    |form φ (tfim bonds h j φ) - form φ (tfim bonds h' j' φ)| ≤
      (|h - h'| * Fintype.card ι + |j - j'| * bonds.length) * total φ := by
  rw [tfim_difference]
  exact tfim_within bonds (h - h') (j - j') φ

theorem close_of {N : ℕ} {e : ι ≃ Fin N} {op op' : (B : Nat) → (Fin B → Config ι) → Fin B → List (Row ι ℝ)} {R : Nat}
    {H H' : Wave ι → Wave ι} (hE : ExactEnergy e op R H) (hE' : ExactEnergy e op' R H') {δ : ℝ}
    (hd : ∀ φ, |form φ (H φ) - form φ (H' φ)| ≤ δ * total φ) : EnergiesClose e op op' R δ := by
  intro batch batch' hb hb' hacc hacc'
  obtain ⟨o, ho, h1⟩ := hE batch hb hacc
  obtain ⟨o', ho', h2⟩ := hE' batch' hb' hacc'
  refine ⟨o, o', ho, ho', fun nets nets' net => ⟨(after o nets net).arrays.energy.re, (after o' nets' net).arrays.energy.re,
    Complex.ext rfl (h1 nets net).2, Complex.ext rfl (h2 nets' net).2, ?_⟩⟩
  rw [(h1 nets net).1, (h2 nets' net).1, rayleigh_re, rayleigh_re]
  have hp := total_exp_pos net
  rw [← sub_div, abs_div, abs_of_pos hp, div_le_iff₀ hp]
  exact hd _

/-- The ground energies follow. -/
theorem ground_le {op op' : (B : Nat) → (Fin B → Config ι) → Fin B → List (Row ι ℝ)} {R R' : ℕ} {rowsOf rowsOf' : Config ι → List (Row ι ℝ)}
    (h : RowsOf op R rowsOf) (h' : RowsOf op' R' rowsOf') {H H' : Wave ι → Wave ι}
    (hH : ∀ s, IsSpin s → ∀ ψ, applyRows (rowsOf s) ψ = H ψ s) (hH' : ∀ s, IsSpin s → ∀ ψ, applyRows (rowsOf' s) ψ = H' ψ s) {δ : ℝ}
    (hd : ∀ φ, |form φ (H φ) - form φ (H' φ)| ≤ δ * total φ) {E E' : ℝ} (hg : GroundEnergy H E) (hg' : GroundEnergy H' E') :
    |E - E'| ≤ δ := by
  have hre : ∀ (K : Wave ι → Wave ι) (φ : Wave ι), (∑ s ∈ allSpins ι, (starRingEnd ℂ) (φ s) * K φ s).re = form φ (K φ) := fun K φ => by
    unfold form
    rw [Complex.re_sum]
  obtain ⟨φ, hφ⟩ := hg.1
  obtain ⟨φ', hφ'⟩ := hg'.1
  have a1 := variational h H hH E hg φ'
  have a2 := variational h' H' hH' E' hg' φ
  rw [hre] at a1 a2
  have b1 := form_eigen H E φ hφ
  have b2 := form_eigen H' E' φ' hφ'
  have c1 := abs_le.1 (hd φ')
  have c2 := abs_le.1 (hd φ)
  have t1 := total_pos _ _ _ hφ
  have t2 := total_pos _ _ _ hφ'
  change E * total φ' ≤ _ at a1
  change E' * total φ ≤ _ at a2
  rw [abs_le]
  constructor
  · have : (E' - E) * total φ ≤ δ * total φ := by linarith
    have := le_of_mul_le_mul_right this t1
    linarith
  · have : (E - E') * total φ' ≤ δ * total φ' := by linarith
    exact le_of_mul_le_mul_right this t2

/-! ### The Ising operators -/

theorem C172_exact_chain (n : ℕ) (hn : n ≤ 31) (h h' j j' : ℝ) (pbc : Bool) :
    EnergiesClose (Equiv.refl (Fin n)) (fun _ sample => isingFindConn1 (.float h) j pbc sample)
      (fun _ sample => isingFindConn1 (.float h') j' pbc sample) (n + 1) (|h - h'| * n + |j - j'| * neighbours n pbc) :=
  close_of (C20_ising_chain n hn h j pbc) (C20_ising_chain n hn h' j' pbc) fun φ => by
    have := tfim_close (chainBonds n pbc) h h' j j' φ
    rwa [chain_count, Fintype.card_fin] at this

theorem C172_exact_grid (n m : ℕ) (hn : n * m ≤ 31) (h h' j j' : ℝ) (pbc : Bool) :
    EnergiesClose (ι := Fin n × Fin m) finProdFinEquiv (fun _ sample => isingFindConn2 (.float h) j pbc sample)
      (fun _ sample => isingFindConn2 (.float h') j' pbc sample) (n * m + 1) (|h - h'| * (n * m) + |j - j'| * gridCount n m pbc) :=
  close_of (C20_ising_grid n m hn h j pbc) (C20_ising_grid n m hn h' j' pbc) fun φ => by
    have := tfim_close (gridBonds n m pbc) h h' j j' φ
    rw [grid_count, Fintype.card_prod, Fintype.card_fin, Fintype.card_fin] at this
    push_cast at this
    exact this

/-- The ground energies on chains of every length; the Hamiltonian is that of the operator by C06. -/
theorem C172_ground_chain (n : ℕ) (h h' j j' : ℝ) (pbc : Bool) (E E' : ℝ) (hg : GroundEnergy (tfim (chainBonds n pbc) h j) E)
    (hg' : GroundEnergy (tfim (chainBonds n pbc) h' j') E') : |E - E'| ≤ |h - h'| * n + |j - j'| * neighbours n pbc :=
  ground_le (rowsOf_ising_chain n h j pbc) (rowsOf_ising_chain n h' j' pbc)
    (fun s _ ψ => C06_ising_chain h j pbc (fun _ : Fin 1 => s) 0 ψ) (fun s _ ψ => C06_ising_chain h' j' pbc (fun _ : Fin 1 => s) 0 ψ)
    (fun φ => by
      have := tfim_close (chainBonds n pbc) h h' j j' φ
      rwa [chain_count, Fintype.card_fin] at this) hg hg'

/-- The ground energies on grids of every size. -/
theorem C172_ground_grid (n m : ℕ) (h h' j j' : ℝ) (pbc : Bool) (E E' : ℝ) (hg : GroundEnergy (tfim (gridBonds n m pbc) h j) E)
    (hg' : GroundEnergy (tfim (gridBonds n m pbc) h' j') E') : |E - E'| ≤ |h - h'| * (n * m) + |j - j'| * gridCount n m pbc :=
  ground_le (rowsOf_ising_grid n m h j pbc) (rowsOf_ising_grid n m h' j' pbc)
    (fun s _ ψ => C06_ising_grid h j pbc (fun _ : Fin 1 => s) 0 ψ) (fun s _ ψ => C06_ising_grid h' j' pbc (fun _ : Fin 1 => s) 0 ψ)
    (fun φ => by
      have := tfim_close (gridBonds n m pbc) h h' j j' φ
      rw [grid_count, Fintype.card_prod, Fintype.card_fin, Fintype.card_fin] at this
      push_cast at this
      exact this) hg hg'

/-- A field of 3 instead of 2 on the periodic chain of four sites: the energies of a network differ by at most four. -/
example : EnergiesClose (Equiv.refl (Fin 4)) (fun _ sample => isingFindConn1 (.float 3) 1 true sample)
    (fun _ sample => isingFindConn1 (.float 2) 1 true sample) (4 + 1) 4 := by
  have h := C172_exact_chain 4 (by decide) 3 2 1 1 true
  norm_num at h
  exact h

/-- Every Ising model has a ground energy. -/
example (n m : ℕ) (h j : ℝ) (pbc : Bool) : ∃ E, GroundEnergy (tfim (gridBonds n m pbc) h j) E :=
  ground_exists (rowsOf_ising_grid n m h j pbc) _ fun s _ ψ => C06_ising_grid h j pbc (fun _ : Fin 1 => s) 0 ψ

/-! ### The J1-J2 operator -/

open Verif.J1J2 Verif.J1J2.Op in
/-- The J1-J2 operator, whatever order of the local states and earlier use of either operator: the energies of a
network under two values of `j2` differ by at most three times the difference per diagonal pair. -/
theorem C172_j1j2 (first first' : ℤ) (hf : first = 1 ∨ first = -1) (hf' : first' = 1 ∨ first' = -1) (L1 L2 : ℕ) (h1 : 0 < L1) (h2 : 0 < L2)
    (hN : L1 * L2 ≤ 31) (j2 j2' : ℝ) (pbc : Bool) (hL : pbc = true → 3 ≤ L1 ∧ 3 ≤ L2) (history history' : List (List Verif.Netket.Conf))
    (batch batch' : ℕ) (hb : 0 < batch) (hb' : 0 < batch') (hacc : 2 ^ (L1 * L2) ≤ batch ∨ batch ∣ 2 ^ (L1 * L2))
    (hacc' : 2 ^ (L1 * L2) ≤ batch' ∨ batch' ∣ 2 ^ (L1 * L2)) :
    ∃ o o', Obj.new (j1j2Setup first L1 L2 j2 pbc history) batch = .ok o ∧ Obj.new (j1j2Setup first' L1 L2 j2' pbc history') batch' = .ok o' ∧
      ∀ nets nets' net, ∃ E E' : ℝ, (after o nets net).arrays.energy = E ∧ (after o' nets' net).arrays.energy = E' ∧
        |E - E'| ≤ 3 * |j2 - j2'| * pairCount L1 L2 (diagonal L1 L2 pbc) := by
  obtain ⟨o, ho, hE⟩ := C157_exact_energy first hf h1 h2 hN j2 pbc hL history batch hb hacc
  obtain ⟨o', ho', hE'⟩ := C157_exact_energy first' hf' h1 h2 hN j2' pbc hL history' batch' hb' hacc'
  refine ⟨o, o', ho, ho', fun nets nets' net => ⟨(after o nets net).arrays.energy.re, (after o' nets' net).arrays.energy.re,
    Complex.ext rfl (hE nets net).2, Complex.ext rfl (hE' nets' net).2, ?_⟩⟩
  rw [(hE nets net).1, (hE' nets' net).1, rayleigh_re, rayleigh_re]
  have hp := total_exp_pos net
  rw [← sub_div, abs_div, abs_of_pos hp, div_le_iff₀ hp, j1j2_form, j1j2_form]
  generalize (fun s => Complex.exp (net s)) = φ at hp
  obtain ⟨G, hG, b1, b2⟩ := pairs_form L1 L2 (diagonal L1 L2 pbc) φ
  rw [← hG, add_sub_add_left_eq_sub, ← sub_mul, abs_mul]
  have hq : (0 : ℝ) ≤ pairCount L1 L2 (diagonal L1 L2 pbc) := Nat.cast_nonneg _
  generalize (pairCount L1 L2 (diagonal L1 L2 pbc) : ℝ) = q at *
  have hqt : 0 ≤ q * total φ := mul_nonneg hq hp.le
  have hG3 : |G| ≤ 3 * q * total φ := abs_le.2 ⟨by linarith, by linarith⟩
  have := mul_le_mul_of_nonneg_left hG3 (abs_nonneg (j2 - j2'))
  linarith

open Verif.J1J2 Verif.J1J2.Op in
/-- The open 3x3 square has eight diagonal pairs, and batches of 64 divide its 512 configurations. -/
example : pairCount 3 3 (diagonal 3 3 false) = 8 ∧ 3 * 3 ≤ 31 ∧ 64 ∣ 2 ^ (3 * 3) := by decide +kernel

end Verif.Experiment
