import Verif.Operators.Props2

/-!
# Further clauses of C08, C10 and C61
-/
namespace Verif.Operators

/-! ### C08 on chains -/

/-- The operator represented by `find_conn` of a chain on one configuration at a time. -/
noncomputable def chainRows (n : Nat) (rot pbc : Bool) (s : Config (Fin n)) : List (Row (Fin n) ℝ) :=
  ((HeisOp.new1 n rot pbc).findConn1 1 (fun _ => s)).2 0

theorem chainRows_grid {n : Nat} (rot pbc : Bool) (s : Config (Fin n)) (hs : IsSpin s) (ψ : Wave (Fin n)) :
    applyRows (chainRows n rot pbc s) ψ =
      applyRows (gridRows n 1 rot pbc (expandDims s)) (fun c => ψ (squeeze c)) := by
  have h1 := answer1 rot pbc [] 1 (fun _ => s) 0
  have h2 := C07_heisenberg_grid rot pbc [] 1 (fun _ => expandDims s) 0 (fun p => hs p.1)
    (fun c => ψ (squeeze c))
  simp only [HeisOp.run, List.foldl_nil] at h1 h2
  unfold chainRows gridRows
  rw [h1, applyRows_squeeze, h2,
    applyRows_heisRows rot pbc 1 (Or.inr ⟨rfl, rfl⟩) (expandDims s) (fun p => hs p.1)]

theorem isEigen_chain {n : Nat} (rot pbc : Bool) (E : ℂ) :
    (∃ ψ, IsEigen (chainRows n rot pbc) E ψ) ↔ ∃ ψ, IsEigen (gridRows n 1 rot pbc) E ψ := by
  constructor
  · rintro ⟨ψ, ⟨s0, hs0, h0⟩, h⟩
    refine ⟨fun c => ψ (squeeze c), ⟨expandDims s0, fun p => hs0 p.1, h0⟩, fun c hc => ?_⟩
    have hs : IsSpin (squeeze c) := fun i => hc (i, 0)
    have := h (squeeze c) hs
    rw [chainRows_grid rot pbc _ hs, expand_squeeze] at this
    exact this
  · rintro ⟨ψ, ⟨c0, hc0, h0⟩, h⟩
    refine ⟨fun s => ψ (expandDims s), ⟨squeeze c0, fun i => hc0 (i, 0), ?_⟩, fun s hs => ?_⟩
    · show ψ (expandDims (squeeze c0)) ≠ 0
      rw [expand_squeeze]; exact h0
    · rw [chainRows_grid rot pbc _ hs]
      simp only [expand_squeeze]
      exact h (expandDims s) (fun p => hs p.1)

/-- C08, partial, one dimension: on open chains and periodic chains of even length the rotated and the
original operator have the same eigenvalues. Missing: periodic chains of odd length
(`C08_violated_chain`). -/
theorem C08_spectrum_chain_partial {n : Nat} (pbc : Bool) (hbip : pbc = false ∨ n % 2 = 0 ∨ n ≤ 1)
    (E : ℂ) :
    (∃ ψ, IsEigen (chainRows n true pbc) E ψ) ↔ ∃ ψ, IsEigen (chainRows n false pbc) E ψ := by
  rw [isEigen_chain, isEigen_chain]
  apply C08_spectrum_partial
  rcases hbip with h | h
  · exact Or.inl h
  · exact Or.inr ⟨h, Or.inr (by omega)⟩

/-- C08 is violated on the periodic chain of three sites. -/
theorem C08_violated_chain :
    (∃ ψ, IsEigen (chainRows 3 true true) (-5) ψ) ∧ ¬ ∃ ψ, IsEigen (chainRows 3 false true) (-5) ψ := by
  rw [isEigen_chain, isEigen_chain]
  exact C08_violated

/-- The hypotheses hold: the open chain of two sites has the eigenvalue `1` with or without the
rotation (both spins up). -/
example : ∃ ψ, IsEigen (chainRows 2 true false) 1 ψ := by
  rw [C08_spectrum_chain_partial false (Or.inl rfl)]
  refine ⟨fun s => if s = (fun _ => 1) then 1 else 0, ⟨fun _ => 1, fun _ => Or.inl rfl, by simp⟩, ?_⟩
  intro s hs
  have h := C07_heisenberg_chain false false [] 1 (fun _ => s) 0 hs
    (fun s => if s = (fun _ => 1) then 1 else 0)
  simp only [HeisOp.run, List.foldl_nil] at h
  unfold chainRows
  rw [h]
  have e : ∀ t : Config (Fin 2), t = (fun _ => 1) ↔ t 0 = 1 ∧ t 1 = 1 := fun t =>
    ⟨fun h => by rw [h]; exact ⟨rfl, rfl⟩, fun h => funext fun i => by fin_cases i <;> simp [h]⟩
  have hb : chainBonds' 2 false = [(0, 1)] := by decide
  rw [hb]
  unfold heisenberg pauliX pauliY pauliZ
  simp only [List.map_cons, List.map_nil, List.sum_cons, List.sum_nil, e]
  rcases hs 0 with h0 | h0 <;> rcases hs 1 with h1 | h1 <;>
    simp [flip, h0, h1, Function.update]

/-! ### C10 on chains -/

/-- C10, `Heisenberg` in one dimension, the converse: every bond with differing spins occurs as a used
connection with the exchange matrix element. -/
theorem C10_heisenberg_chain_all {n : Nat} (rot pbc : Bool) (history : List (Call n 1)) (B : Nat)
    (sample : Fin B → Config (Fin n)) (x : Fin B) (b : Fin n × Fin n) (hb : b ∈ chainBonds' n pbc)
    (hne : sample x b.1 ≠ sample x b.2) :
    ∃ r ∈ (((HeisOp.new1 n rot pbc).run history).findConn1 B sample).2 x,
      r.use = true ∧ r.mel = (if rot then -2 else 2) ∧ r.conn = exchange b.1 b.2 (sample x) := by
  rw [answer1]
  rw [chainBonds'_eq, List.mem_map] at hb
  obtain ⟨⟨⟨i, a⟩, ⟨k, c⟩⟩, hb, rfl⟩ := hb
  refine ⟨squeezeRow (bondRow (offDiag rot) (expandDims (sample x)) (i, a) (k, c)), ?_, ?_, ?_,
    squeeze_exchange (sample x) i k a c⟩
  · refine List.mem_map_of_mem ?_
    unfold heisRows
    rw [List.mem_cons]
    right
    rw [List.mem_flatMap]
    refine ⟨(i, a), mem_gridSites n 1 _, ?_⟩
    unfold siteRows
    rw [List.mem_append, List.mem_append]
    left
    rcases mem_gridBonds.mp hb with ⟨hn, h, h2⟩ | ⟨hm, -, -⟩
    · left
      simp only at h h2
      rw [if_pos hn, h, List.mem_singleton, ← h2]
      rfl
    · exact absurd hm (by omega)
  · have : expandDims (sample x) (i, a) ≠ expandDims (sample x) (k, c) := hne
    simp [bondRow, squeezeRow, this]
  · have : expandDims (sample x) (i, a) ≠ expandDims (sample x) (k, c) := hne
    simp [bondRow, squeezeRow, this, offDiag]

/-- Meeting the hypotheses: the Néel state of a periodic chain of four sites. -/
example : ((0, 1) : Fin 4 × Fin 4) ∈ chainBonds' 4 true ∧
    (fun i : Fin 4 => if i.val % 2 = 0 then (1 : ℤ) else -1) 0 ≠
      (fun i : Fin 4 => if i.val % 2 = 0 then (1 : ℤ) else -1) 1 := by decide

/-! ### C61 in full -/

/-- `x` is an integer. -/
def IsInteger (x : ℝ) : Prop := ∃ z : ℤ, x = z

theorem truncZero_eq_iff (x : ℝ) : truncZero x = x ↔ IsInteger x := by
  constructor
  · intro h
    unfold truncZero at h
    split at h
    · exact ⟨⌊x⌋, h.symm⟩
    · exact ⟨⌈x⌉, h.symm⟩
  · rintro ⟨z, rfl⟩
    exact truncZero_int z

theorem truncZero_close (x : ℝ) : |truncZero x - x| < 1 ∧ |truncZero x| ≤ |x| := by
  unfold truncZero
  split
  · rename_i h
    have h1 := Int.floor_le x
    have h2 := Int.lt_floor_add_one x
    have h3 : (0 : ℝ) ≤ (⌊x⌋ : ℝ) := by exact_mod_cast Int.floor_nonneg.mpr h
    rw [abs_of_nonneg h3, abs_of_nonneg h, abs_lt]
    exact ⟨⟨by linarith, by linarith⟩, h1⟩
  · rename_i h
    have h := not_le.mp h
    have h1 := Int.le_ceil x
    have h2 := Int.ceil_lt_add_one x
    have h3 : (⌈x⌉ : ℝ) ≤ 0 := by
      exact_mod_cast Int.ceil_le.mpr (by simpa using h.le)
    rw [abs_of_nonpos h3, abs_of_neg h, abs_lt]
    exact ⟨⟨by linarith, by linarith⟩, by linarith⟩

/-- What the answer with an integer field is, compared with the answer `float` of the operator whose
field is the same number as a float, when `energy` is the Ising energy of the sample: all rows
agree but the diagonal element is an integer, within less than one of the energy and never larger
in size; and the answers agree exactly when the energy is an integer. -/
structure Truncated {ι : Type} (energy : ℝ) (int float : List (Row ι ℝ)) : Prop where
  shape : ∃ d s rest, int = ⟨s, d, true⟩ :: rest ∧ float = ⟨s, energy, true⟩ :: rest ∧
    IsInteger d ∧ |d - energy| < 1 ∧ |d| ≤ |energy|
  agree : int = float ↔ IsInteger energy

theorem truncated_of {ι : Type} (energy : ℝ) (s : Config ι) (rest : List (Row ι ℝ)) :
    Truncated energy (⟨s, truncZero energy, true⟩ :: rest) (⟨s, energy, true⟩ :: rest) where
  shape := by
    refine ⟨truncZero energy, s, rest, rfl, rfl, ?_, (truncZero_close energy).1, (truncZero_close energy).2⟩
    unfold truncZero
    split
    · exact ⟨_, rfl⟩
    · exact ⟨_, rfl⟩
  agree := by
    rw [← truncZero_eq_iff]
    constructor
    · intro h
      have := (List.cons.inj h).1
      exact congrArg Row.mel this
    · intro h; rw [h]

/-- The Ising interaction energy of a configuration: minus the coupling times the sum over bonds of the
products of the two spins. -/
noncomputable def bondEnergy {ι : Type} (bonds : List (ι × ι)) (J : ℝ) (s : Config ι) : ℝ :=
  -(J * (bonds.map fun b => ((s b.1 : ℝ) * (s b.2 : ℝ))).sum)

/-- C61 on chains: exactly what an integer field does, for every coupling. -/
theorem C61_integer_field_chain {n B : Nat} (h : ℤ) (j : ℝ) (pbc : Bool)
    (sample : Fin B → Config (Fin n)) (x : Fin B) :
    Truncated (bondEnergy (chainBonds n pbc) j (sample x)) (isingFindConn1 (.int h) j pbc sample x)
      (isingFindConn1 (.float h) j pbc sample x) := by
  have e : (∑ i : Fin n, -(j * (sample x i : ℝ) * (pad1 pbc (sample x) (i.val + 1) : ℝ))) =
      bondEnergy (chainBonds n pbc) j (sample x) := by
    unfold bondEnergy
    rw [sum_chainBonds, Finset.mul_sum, ← Finset.sum_neg_distrib]
    apply Finset.sum_congr rfl
    intro i _
    rw [pad1_next]
    cases chainNext n pbc i <;> simp [mul_assoc]
  rw [isingFindConn1_eq, isingFindConn1_eq]
  simp only [Field.store, Field.val, e]
  exact truncated_of _ _ _

/-- C61 on grids: exactly what an integer field does, for every coupling. -/
theorem C61_integer_field_grid {n m B : Nat} (h : ℤ) (j : ℝ) (pbc : Bool)
    (sample : Fin B → Config (Fin n × Fin m)) (x : Fin B) :
    Truncated (bondEnergy (gridBonds n m pbc) j (sample x)) (isingFindConn2 (.int h) j pbc sample x)
      (isingFindConn2 (.float h) j pbc sample x) := by
  have e : (∑ p : Fin n × Fin m,
        (-(if n > 1 then j * (sample x p : ℝ) * (pad1 pbc (fun i' => sample x (i', p.2)) (p.1.val + 1) : ℝ) else 0)
          - (if m > 1 then j * (sample x p : ℝ) * (pad1 pbc (fun j' => sample x (p.1, j')) (p.2.val + 1) : ℝ) else 0))) =
      bondEnergy (gridBonds n m pbc) j (sample x) := by
    unfold bondEnergy
    rw [sum_gridBonds, Finset.mul_sum, ← Finset.sum_neg_distrib]
    apply Finset.sum_congr rfl
    intro p _
    rw [pad1_next, pad1_next]
    by_cases hn : n > 1 <;> by_cases hm : m > 1 <;>
      cases h1 : chainNext n pbc p.1 <;> cases h2 : chainNext m pbc p.2 <;>
      simp [hn, hm] <;> ring
  rw [isingFindConn2_eq, isingFindConn2_eq]
  simp only [Field.store, Field.val, e]
  exact truncated_of _ _ _

/-- C61, partial, two dimensions: with an integer field and an integer coupling the answer equals that
of the floating point operator of the same strength, on every spin configuration. Missing:
couplings that are not integers (`C61_integer_field_truncates`). -/
theorem C61_integer_field_grid_partial {n m B : Nat} (h j : ℤ) (pbc : Bool)
    (sample : Fin B → Config (Fin n × Fin m)) (x : Fin B) :
    isingFindConn2 (.int h) (j : ℝ) pbc sample x = isingFindConn2 (.float h) (j : ℝ) pbc sample x := by
  rw [(C61_integer_field_grid h j pbc sample x).agree]
  refine ⟨-(j * ((gridBonds n m pbc).map fun b => sample x b.1 * sample x b.2).sum), ?_⟩
  unfold bondEnergy
  push_cast
  congr 2
  rw [List.map_map]
  congr 1
  apply List.map_congr_left
  intro b _
  simp

/-- The Ising operator with an integer field loses the whole interaction on weakly coupled lattices: if
the interaction energy is smaller than one in size, the diagonal element is zero. -/
theorem C61_interaction_lost {n m B : Nat} (h : ℤ) (j : ℝ) (pbc : Bool)
    (sample : Fin B → Config (Fin n × Fin m)) (x : Fin B)
    (hsmall : |bondEnergy (gridBonds n m pbc) j (sample x)| < 1) :
    ∃ rest, isingFindConn2 (.int h) j pbc sample x = ⟨sample x, 0, true⟩ :: rest := by
  obtain ⟨d, s, rest, h1, h2, ⟨z, rfl⟩, -, h4⟩ := (C61_integer_field_grid h j pbc sample x).shape
  have hz : z = 0 := by
    have : |(z : ℝ)| < 1 := lt_of_le_of_lt h4 hsmall
    have : |z| < 1 := by exact_mod_cast this
    exact Int.abs_lt_one_iff.mp this
  have hs : s = sample x := by
    rw [isingFindConn2_eq] at h2
    exact (congrArg Row.conn (List.cons.inj h2).1).symm
  exact ⟨rest, by rw [h1, hz, hs]; simp⟩

/-- Meeting the hypothesis: coupling `1/4` on a `2 × 1` open lattice. -/
example : |bondEnergy (gridBonds 2 1 false) (1 / 4) (fun _ => 1 : Config (Fin 2 × Fin 1))| < 1 := by
  have : gridBonds 2 1 false = [((0, 0), (1, 0))] := by decide
  rw [this]
  unfold bondEnergy
  norm_num [abs_lt]

end Verif.Operators
