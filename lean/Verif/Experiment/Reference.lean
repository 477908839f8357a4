import Verif.Experiment.Bounds
import Mathlib.Tactic.NormNum

/-!
C118: the reference energies of the scripts belong to the system that is run, and every system can be run.
-/
namespace Verif.Experiment.Reference

open Verif.Energy Verif.Energy.Exact Verif.Operators Verif.Callbacks

/-! ### The scripts -/

/-- What a script can stop with. -/
inductive Error where
  | keyError
  deriving DecidableEq

/-- `{k₁: v₁, ...}[key]` of Python. -/
def lookup (table : List (ℚ × ℚ)) (key : ℚ) : Except Error ℚ :=
  match table.find? fun e => e.1 == key with
  | some e => .ok e.2
  | none => .error .keyError

/-- The table of `main` (experiments/ising_runner.py:27-31), which is also `true_ground_state_energy_mapping`
(examples/ising.py:45-50). The decimal fractions are taken as they are written, without the rounding to binary. -/
def isingTable : List (ℚ × ℚ) :=
  [(2, -346.982), (2.5, -395.654), (3, -457.039), (3.5, -524.510), (4, -593.536)]

/-- `true_ground_state_energy` of `main` (experiments/ising_runner.py:25-31) for the command line arguments
`--hilbert_state_shape`, `--use_pbc` or `--no_pbc`, and `--gamma`. -/
def ising (shape : List ℕ) (pbc : Bool) (gamma : ℚ) : Except Error (Option ℚ) :=
  if (!pbc) = true ∧ shape.length = 2 ∧ shape[0]? = some 12 ∧ shape[1]? = some 12 then
    (lookup isingTable gamma).map some
  else .ok none

/-- `true_ground_state_energy` of `main` (experiments/heisenberg_runner.py:23-30). -/
def heisenbergEnergy (shape : List ℕ) (pbc : Bool) : Option ℚ :=
  if shape.length = 2 ∧ shape[0]? = some 10 ∧ shape[1]? = some 10 then
    if pbc then some (-268.61976) else some (-251.4624)
  else if (!pbc) = true ∧ shape.length = 2 ∧ shape[0]? = some 16 ∧ shape[1]? = some 16 then some (-658.9759488)
  else none

/-- The arguments `get_params` of the example lets through for `--gamma` (examples/ising.py:152-155): one of the
choices, or `None` if it is not given, since the argument is not required. -/
def exampleGammas : List (Option ℚ) := [none, some 2, some 2.5, some 3, some 3.5, some 4]

/-- `true_ground_state_energy` of `run` (examples/ising.py:92); the key `None` is in no table. -/
def exampleEnergy (gamma : Option ℚ) : Except Error ℚ :=
  match gamma with
  | some g => lookup isingTable g
  | none => .error .keyError

/-! ### Specification -/

/-- `E` is the ground energy of `H` up to the fraction `tol`. -/
def Near (H : Wave ι → Wave ι) [Fintype ι] [DecidableEq ι] (E tol : ℝ) : Prop :=
  ∃ E0, GroundEnergy H E0 ∧ |E - E0| ≤ tol * |E|

/-- The fields for which the energies of the 12 × 12 lattice are tabulated. -/
def Tabulated (gamma : ℚ) : Prop := gamma = 2 ∨ gamma = 5 / 2 ∨ gamma = 3 ∨ gamma = 7 / 2 ∨ gamma = 4

/-! ### The lattices -/

/-- Sites whose coordinates add up to an even number. -/
def even {n m : ℕ} (c : Fin n × Fin m) : Bool := (c.1.val + c.2.val) % 2 == 0

theorem even_bond {n m : ℕ} {pbc : Bool} (hbip : Bipartite n m pbc) (b : (Fin n × Fin m) × (Fin n × Fin m))
    (hb : b ∈ gridBonds n m pbc) : even b.1 = !even b.2 := by
  have := bond_parity hbip hb
  unfold even
  rcases Nat.mod_two_eq_zero_or_one (b.1.1.val + b.1.2.val) with h1 | h1 <;>
    rcases Nat.mod_two_eq_zero_or_one (b.2.1.val + b.2.2.val) with h2 | h2 <;> simp [h1, h2] <;> omega

/-- Bounds on the ground energy of the Heisenberg model on a grid. -/
theorem heisenberg_bounds (n m : ℕ) (rot pbc : Bool) (hbip : Bipartite n m pbc)
    (hnd : ∀ c : Fin n × Fin m, even c = true → (nbrs (gridBonds n m pbc) c).Nodup) (B K : ℕ)
    (hB : (gridBonds n m pbc).length = B) (hK : (Finset.univ.filter fun c : Fin n × Fin m => even c).card = K) :
    ∃ E0, GroundEnergy (heisenberg (gridBonds n m pbc) (if rot then -1 else 1)) E0 ∧ -((B : ℝ) + 2 * K) ≤ E0 ∧ E0 ≤ -B := by
  have hR := rowsOf_heisenberg_grid n m rot pbc []
  have hH : ∀ s, IsSpin s → ∀ ψ, applyRows (heisRows (offDiag rot) pbc 2 s) ψ =
      heisenberg (gridBonds n m pbc) (if rot then -1 else 1) ψ s :=
    fun s hs ψ => applyRows_heisRows rot pbc 2 (Or.inl rfl) s hs ψ
  obtain ⟨E0, hg⟩ := ground_exists hR _ hH
  refine ⟨E0, hg, ?_, ?_⟩
  · obtain ⟨φ, hφ⟩ := hg.1
    have := heisenberg_ge _ even (even_bond hbip) hnd _ (by cases rot <;> simp) E0 φ hφ
    rwa [hB, hK] at this
  · have := heisenberg_le hR _ (fun b hb => gridBonds_ne hb) _ hH E0 hg (fun c => if even c then 1 else -1)
      (fun c => by dsimp only; split <;> simp) fun b hb => by
        rw [even_bond hbip b hb]
        cases even b.2 <;> simp
    rwa [hB] at this

/-- Bounds on the ground energy of the Ising model on a grid. -/
theorem ising_bounds (n m : ℕ) (pbc : Bool) (B : ℕ) (hB : (gridBonds n m pbc).length = B)
    (hdeg : ∀ i, degree (gridBonds n m pbc) i ≤ 4) (gamma r : ℝ) (hg0 : 0 ≤ gamma) (hr : 0 < r) (hJ : 1 + gamma ^ 2 / 4 ≤ r ^ 2) :
    ∃ E0, GroundEnergy (tfim (gridBonds n m pbc) gamma 1) E0 ∧ -(B * r + gamma * (n * m - B / 2)) ≤ E0 ∧
      E0 ≤ -B ∧ E0 ≤ -(gamma * (n * m)) := by
  have hR := rowsOf_ising_grid n m gamma 1 pbc
  have hH : ∀ s, IsSpin s → ∀ ψ, applyRows (isingFindConn2 (.float gamma) 1 pbc (fun _ : Fin 1 => s) 0) ψ =
      tfim (gridBonds n m pbc) gamma 1 ψ s := fun s _ ψ => C06_ising_grid gamma 1 pbc _ _ ψ
  obtain ⟨E0, hg⟩ := ground_exists hR _ hH
  refine ⟨E0, hg, ?_, ?_⟩
  · obtain ⟨φ, hφ⟩ := hg.1
    have := tfim_ge _ (fun b hb => gridBonds_ne hb) gamma 1 (gamma / 4) r hr (by nlinarith)
      (fun i => by
        have : (degree (gridBonds n m pbc) i : ℝ) ≤ 4 := by exact_mod_cast hdeg i
        nlinarith) E0 φ hφ
    rw [hB] at this
    simp only [Fintype.card_prod, Fintype.card_fin] at this
    push_cast at this
    linarith
  · have := tfim_le hR _ (fun b hb => gridBonds_ne hb) gamma 1 hH E0 hg
    rw [hB] at this
    simp only [Fintype.card_prod, Fintype.card_fin] at this
    push_cast at this
    constructor <;> linarith [this.1, this.2]

theorem degree_twelve : ∀ i, degree (gridBonds 12 12 false) i ≤ 4 := by decide +kernel

theorem bonds_twelve : (gridBonds 12 12 false).length = 264 := by decide +kernel

theorem near_of (H : Wave ι → Wave ι) [Fintype ι] [DecidableEq ι] (E tol lo hi : ℝ) (hE : E < 0)
    (h : ∃ E0, GroundEnergy H E0 ∧ lo ≤ E0 ∧ E0 ≤ hi) (h1 : E * (1 + tol) ≤ lo) (h2 : hi ≤ E * (1 - tol)) : Near H E tol := by
  obtain ⟨E0, hg, hl, hh⟩ := h
  refine ⟨E0, hg, ?_⟩
  rw [abs_of_neg hE, abs_le]
  constructor <;> linarith

/-! ### The theorems -/

theorem ising_near (gamma : ℚ) (hγ : Tabulated gamma) :
    ∃ E : ℚ, lookup isingTable gamma = .ok E ∧ Near (tfim (gridBonds 12 12 false) (gamma : ℝ) 1) (E : ℝ) (1 / 5) := by
  have key : ∀ (g E r : ℝ), 0 ≤ g → 0 < r → 1 + g ^ 2 / 4 ≤ r ^ 2 → E < 0 → E * (1 + 1 / 5) ≤ -(264 * r + 12 * g) →
      (-264 ≤ E * (1 - 1 / 5) ∨ -(144 * g) ≤ E * (1 - 1 / 5)) → Near (tfim (gridBonds 12 12 false) g 1) E (1 / 5) := by
    intro g E r h0 hr h1 hE h2 h3
    obtain ⟨E0, hg, hl, ha, hb⟩ := ising_bounds 12 12 false 264 bonds_twelve degree_twelve g r h0 hr h1
    norm_num at hl ha hb
    rcases h3 with h3 | h3
    · exact near_of _ E _ _ _ hE ⟨E0, hg, by linarith, ha⟩ h2 h3
    · exact near_of _ E _ _ _ hE ⟨E0, hg, by linarith, by linarith⟩ h2 h3
  rcases hγ with rfl | rfl | rfl | rfl | rfl
  · refine ⟨-346.982, by decide +kernel, key _ _ 1.4143 ?_ ?_ ?_ ?_ ?_ (Or.inr ?_)⟩ <;> norm_num
  · refine ⟨-395.654, by decide +kernel, key _ _ 1.6008 ?_ ?_ ?_ ?_ ?_ (Or.inr ?_)⟩ <;> norm_num
  · refine ⟨-457.039, by decide +kernel, key _ _ 1.8028 ?_ ?_ ?_ ?_ ?_ (Or.inr ?_)⟩ <;> norm_num
  · refine ⟨-524.510, by decide +kernel, key _ _ 2.0156 ?_ ?_ ?_ ?_ ?_ (Or.inr ?_)⟩ <;> norm_num
  · refine ⟨-593.536, by decide +kernel, key _ _ 2.2361 ?_ ?_ ?_ ?_ ?_ (Or.inr ?_)⟩ <;> norm_num

theorem shape_two (shape : List ℕ) (a b : ℕ) :
    (shape.length = 2 ∧ shape[0]? = some a ∧ shape[1]? = some b) ↔ shape = [a, b] := by
  constructor
  · rintro ⟨h1, h2, h3⟩
    match shape, h1 with
    | [x, y], _ =>
      simp only [List.getElem?_cons_zero, List.getElem?_cons_succ, Option.some.injEq] at h2 h3
      rw [h2, h3]
  · rintro rfl
    exact ⟨rfl, rfl, rfl⟩

theorem ising_eq (shape : List ℕ) (pbc : Bool) (gamma : ℚ) :
    ising shape pbc gamma = if pbc = false ∧ shape = [12, 12] then (lookup isingTable gamma).map some else .ok none := by
  unfold ising
  simp only [shape_two, Bool.not_eq_true']

theorem heisenberg_eq (shape : List ℕ) (pbc : Bool) :
    heisenbergEnergy shape pbc = if shape = [10, 10] then (if pbc then some (-268.61976) else some (-251.4624))
      else if pbc = false ∧ shape = [16, 16] then some (-658.9759488) else none := by
  unfold heisenbergEnergy
  simp only [shape_two, Bool.not_eq_true']

/-- **C118**, what holds for the Ising model: except for the open 12 × 12 lattice with a field that is not
tabulated, `ising_runner.py` finds out its reference energy. A reference energy is used exactly for the open
12 × 12 lattice, and it is the ground energy, up to a fifth, of the Hamiltonian `H` which the rows of the operator
`Ising(hilbert_state_shape=shape, pbc=pbc, h=gamma)` of the script stand for. -/
theorem C118_ising_partial (shape : List ℕ) (pbc : Bool) (gamma : ℚ) (h : pbc = true ∨ shape ≠ [12, 12] ∨ Tabulated gamma) :
    ∃ r, ising shape pbc gamma = .ok r ∧ (r.isSome ↔ pbc = false ∧ shape = [12, 12]) ∧
      ∀ E, r = some E → ∃ n m, shape = [n, m] ∧ ∃ H : Wave (Fin n × Fin m) → Wave (Fin n × Fin m),
        (∀ (B : ℕ) (sample : Fin B → Config (Fin n × Fin m)) (x : Fin B) (ψ : Wave (Fin n × Fin m)),
          applyRows (isingFindConn2 (.float (gamma : ℝ)) 1 pbc sample x) ψ = H ψ (sample x)) ∧
        Near H (E : ℝ) (1 / 5) := by
  rw [ising_eq]
  by_cases hs : pbc = false ∧ shape = [12, 12]
  · have hγ : Tabulated gamma := by
      rcases h with h | h | h
      · rw [hs.1] at h; exact absurd h (by simp)
      · exact absurd hs.2 h
      · exact h
    obtain ⟨E, hE, hnear⟩ := ising_near gamma hγ
    rw [if_pos hs, hE]
    refine ⟨some E, rfl, by simp [hs], fun E' hE' => ⟨12, 12, hs.2, tfim (gridBonds 12 12 pbc) (gamma : ℝ) 1, ?_, ?_⟩⟩
    · intro B sample x ψ
      exact C06_ising_grid _ 1 pbc sample x ψ
    · rw [hs.1]
      have : E = E' := by simpa using hE'
      rwa [← this]
  · rw [if_neg hs]
    exact ⟨none, rfl, by simp [hs], fun E hE => by simp at hE⟩

/-- **C118** for the Heisenberg model: `heisenberg_runner.py` finds out its reference energy for every lattice.
A reference energy is used exactly for the 10 × 10 lattices and the open 16 × 16 lattice, and it is the ground
energy, up to three tenths, of the Hamiltonian `H` which the rows of the operator
`Heisenberg(hilbert_state_shape=shape, pbc=pbc)` of the script stand for, whatever it was asked before. -/
theorem C118_heisenberg_partial (shape : List ℕ) (pbc : Bool) :
    ((heisenbergEnergy shape pbc).isSome ↔ shape = [10, 10] ∨ (pbc = false ∧ shape = [16, 16])) ∧
      ∀ E, heisenbergEnergy shape pbc = some E → ∃ n m, shape = [n, m] ∧
        ∃ H : Wave (Fin n × Fin m) → Wave (Fin n × Fin m),
        (∀ (history : List (Call n m)) (B : ℕ) (sample : Fin B → Config (Fin n × Fin m)) (x : Fin B) (ψ : Wave (Fin n × Fin m)),
          IsSpin (sample x) →
          applyRows ((((HeisOp.new2 n m true pbc).run history).findConn B sample).2 x) ψ = H ψ (sample x)) ∧
        Near H (E : ℝ) (3 / 10) := by
  have hrows : ∀ (n m : ℕ) (pbc : Bool) (history : List (Call n m)) (B : ℕ) (sample : Fin B → Config (Fin n × Fin m)) (x : Fin B)
      (ψ : Wave (Fin n × Fin m)), IsSpin (sample x) →
      applyRows ((((HeisOp.new2 n m true pbc).run history).findConn B sample).2 x) ψ =
        heisenberg (gridBonds n m pbc) (if true then -1 else 1) ψ (sample x) := by
    intro n m pbc history B sample x ψ hs
    rw [answer2]
    exact applyRows_heisRows true pbc 2 (Or.inl rfl) _ hs ψ
  rw [heisenberg_eq]
  by_cases h10 : shape = [10, 10]
  · rw [if_pos h10]
    cases pbc with
    | true =>
      refine ⟨by simp [h10], fun E hE => ⟨10, 10, h10, _, hrows 10 10 true, ?_⟩⟩
      have hE : (-268.61976 : ℚ) = E := by simpa using hE
      rw [← hE]
      refine near_of _ _ _ _ _ ?_ (heisenberg_bounds 10 10 true true (by right; simp) (by decide +kernel) 200 50
        (by decide +kernel) (by decide +kernel)) ?_ ?_ <;> norm_num
    | false =>
      refine ⟨by simp [h10], fun E hE => ⟨10, 10, h10, _, hrows 10 10 false, ?_⟩⟩
      have hE : (-251.4624 : ℚ) = E := by simpa using hE
      rw [← hE]
      refine near_of _ _ _ _ _ ?_ (heisenberg_bounds 10 10 true false (by left; rfl) (by decide +kernel) 180 50
        (by decide +kernel) (by decide +kernel)) ?_ ?_ <;> norm_num
  · rw [if_neg h10]
    by_cases h16 : pbc = false ∧ shape = [16, 16]
    · rw [if_pos h16]
      obtain ⟨rfl, h16⟩ := h16
      refine ⟨by simp [h16], fun E hE => ⟨16, 16, h16, _, hrows 16 16 false, ?_⟩⟩
      have hE : (-658.9759488 : ℚ) = E := by simpa using hE
      rw [← hE]
      refine near_of _ _ _ _ _ ?_ (heisenberg_bounds 16 16 true false (by left; rfl) (by decide +kernel) 480 128
        (by decide +kernel) (by decide +kernel)) ?_ ?_ <;> norm_num
    · rw [if_neg h16]
      exact ⟨by simp [h10, h16], fun E hE => by simp at hE⟩

/-- The example script runs with every field one can choose, and its reference energy belongs to its lattice. -/
theorem C118_example_partial (gamma : ℚ) (h : some gamma ∈ exampleGammas) :
    ∃ E, exampleEnergy (some gamma) = .ok E ∧ ∃ H : Wave (Fin 12 × Fin 12) → Wave (Fin 12 × Fin 12),
        (∀ (B : ℕ) (sample : Fin B → Config (Fin 12 × Fin 12)) (x : Fin B) (ψ : Wave (Fin 12 × Fin 12)),
          applyRows (isingFindConn2 (.float (gamma : ℝ)) 1 false sample x) ψ = H ψ (sample x)) ∧
        Near H (E : ℝ) (1 / 5) := by
  have hγ : Tabulated gamma := by
    simp only [exampleGammas, List.mem_cons, Option.some.injEq, reduceCtorEq, false_or, List.not_mem_nil, or_false] at h
    unfold Tabulated
    rcases h with h | h | h | h | h
    · exact Or.inl h
    · exact Or.inr (Or.inl (h.trans (by norm_num)))
    · exact Or.inr (Or.inr (Or.inl h))
    · exact Or.inr (Or.inr (Or.inr (Or.inl (h.trans (by norm_num)))))
    · exact Or.inr (Or.inr (Or.inr (Or.inr h)))
  obtain ⟨E, hE, hnear⟩ := ising_near gamma hγ
  exact ⟨E, hE, tfim (gridBonds 12 12 false) (gamma : ℝ) 1, fun B sample x ψ => C06_ising_grid _ 1 false sample x ψ, hnear⟩

/-- **C118** is violated: on its default lattice `ising_runner.py` stops with a `KeyError` for every field that is
not in the table, though with periodic boundaries, or on any other lattice, it runs with every field. -/
theorem C118_violated_field (gamma : ℚ) (h : ¬ Tabulated gamma) :
    ising [12, 12] false gamma = .error .keyError ∧
    ∀ shape pbc, (pbc = true ∨ shape ≠ [12, 12]) → ising shape pbc gamma = .ok none := by
  constructor
  · rw [ising_eq, if_pos ⟨rfl, rfl⟩]
    unfold Tabulated at h
    push Not at h
    obtain ⟨h1, h2, h3, h4, h5⟩ := h
    have e2 : (2.5 : ℚ) = 5 / 2 := by norm_num
    have e4 : (3.5 : ℚ) = 7 / 2 := by norm_num
    have : isingTable.find? (fun e => e.1 == gamma) = none := by
      simp only [isingTable, List.find?_eq_none, List.mem_cons, List.not_mem_nil, or_false]
      rintro x (rfl | rfl | rfl | rfl | rfl) <;> simp only [beq_iff_eq, e2, e4]
      · exact h1.symm
      · exact h2.symm
      · exact h3.symm
      · exact h4.symm
      · exact h5.symm
    unfold lookup
    rw [this]
    rfl
  · intro shape pbc hs
    rw [ising_eq, if_neg]
    rintro ⟨h1, h2⟩
    rcases hs with hs | hs
    · rw [h1] at hs; exact absurd hs (by simp)
    · exact hs h2

/-- **C118** is violated by the example: started without `--gamma`, which is not required, it stops with a
`KeyError`. -/
theorem C118_violated_example : none ∈ exampleGammas ∧ exampleEnergy none = .error .keyError := ⟨by simp [exampleGammas], rfl⟩

example : ¬ Tabulated 1 := by unfold Tabulated; norm_num
example : Tabulated 3 := Or.inr (Or.inr (Or.inl rfl))
example : some 3 ∈ exampleGammas := by simp [exampleGammas]
example : heisenbergEnergy [10, 10] true = some (-268.61976) := by decide +kernel
example : ∃ r, ising [12, 12] false 3 = .ok r ∧ r.isSome := by
  obtain ⟨r, h1, h2, -⟩ := C118_ising_partial [12, 12] false 3 (Or.inr (Or.inr (Or.inr (Or.inr (Or.inl rfl)))))
  exact ⟨r, h1, h2.2 ⟨rfl, rfl⟩⟩

end Verif.Experiment.Reference
