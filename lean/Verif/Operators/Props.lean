import Verif.Operators.OpLemmas
import Mathlib.Tactic.FinCases
import Mathlib.Data.Complex.BigOperators

/-!
# Properties C06 to C14 of the spin operators
-/
namespace Verif.Operators

/-! ### C06 -/

/-- C06, one dimension: for a floating-point field `h`, the rows returned for a sample sum up to the
transverse-field Ising Hamiltonian applied to any wave function. -/
theorem C06_ising_chain {n B : Nat} (h j : ℝ) (pbc : Bool) (sample : Fin B → Config (Fin n)) (x : Fin B)
    (ψ : Wave (Fin n)) :
    applyRows (isingFindConn1 (.float h) j pbc sample x) ψ = tfim (chainBonds n pbc) h j ψ (sample x) := by
  rw [isingFindConn1_eq]
  unfold applyRows tfim
  simp only [List.map_cons, List.sum_cons, List.map_map, Field.store, Field.val]
  rw [sum_chainBonds, Finset.mul_sum, sub_eq_add_neg, Finset.mul_sum]
  congr 1
  · rw [Complex.ofReal_sum, Finset.sum_mul]
    apply Finset.sum_congr rfl
    intro i _
    rw [pad1_next]
    cases chainNext n pbc i with
    | none => simp
    | some k => simp [pauliZ]; ring
  · rw [sum_finRange, ← Finset.sum_neg_distrib]
    apply Finset.sum_congr rfl
    intro i _
    simp [pauliX]

/-- C06, two dimensions. -/
theorem C06_ising_grid {n m B : Nat} (h j : ℝ) (pbc : Bool) (sample : Fin B → Config (Fin n × Fin m))
    (x : Fin B) (ψ : Wave (Fin n × Fin m)) :
    applyRows (isingFindConn2 (.float h) j pbc sample x) ψ =
      tfim (gridBonds n m pbc) h j ψ (sample x) := by
  rw [isingFindConn2_eq]
  unfold applyRows tfim
  simp only [List.map_cons, List.sum_cons, List.map_map, Field.store, Field.val]
  rw [sum_gridBonds, Finset.mul_sum, sub_eq_add_neg, Finset.mul_sum]
  congr 1
  · rw [Complex.ofReal_sum, Finset.sum_mul]
    apply Finset.sum_congr rfl
    intro p _
    rw [pad1_next, pad1_next]
    by_cases hn : n > 1 <;> by_cases hm : m > 1 <;>
      cases h1 : chainNext n pbc p.1 <;> cases h2 : chainNext m pbc p.2 <;>
      simp [hn, hm, pauliZ] <;> ring
  · rw [sum_gridSites, ← Finset.sum_neg_distrib]
    apply Finset.sum_congr rfl
    intro i _
    simp [pauliX]

/-- The bond list of an open chain of three sites, and of a periodic 2 × 3 grid (test of the
specification). -/
example : chainBonds 3 false = [(0, 1), (1, 2)] ∧ chainBonds 3 true = [(0, 1), (1, 2), (2, 0)] ∧
    gridBonds 1 3 true = [((0, 0), (0, 1)), ((0, 1), (0, 2)), ((0, 2), (0, 0))] := by decide

/-! ### C61 -/

theorem truncZero_int (z : ℤ) : truncZero (z : ℝ) = z := by
  unfold truncZero; split <;> simp

/-- C61, partial: with an integer `h` and an integer coupling the answer equals that of the floating
point operator of the same strength. Missing: couplings that are not integers, where it is false
(`C61_integer_field_truncates`). -/
theorem C61_integer_field_chain_partial {n B : Nat} (h j : ℤ) (pbc : Bool)
    (sample : Fin B → Config (Fin n)) (x : Fin B) :
    isingFindConn1 (.int h) (j : ℝ) pbc sample x = isingFindConn1 (.float h) (j : ℝ) pbc sample x := by
  rw [isingFindConn1_eq, isingFindConn1_eq]
  simp only [Field.store, Field.val]
  congr 2
  have := truncZero_int (∑ i : Fin n, -(j * sample x i * pad1 pbc (sample x) (i.val + 1)))
  push_cast at this
  exact this

/-- C61 is violated: on an open chain of two parallel spins with coupling `1/2` and the integer field
`1`, the diagonal element is `0` instead of `-1/2`. -/
theorem C61_integer_field_truncates :
    ((isingFindConn1 (.int 1) (1 / 2) false (fun _ : Fin 1 => (fun _ => 1 : Config (Fin 2))) 0).map
        Row.mel).head? = some 0 ∧
    ((isingFindConn1 (.float 1) (1 / 2) false (fun _ : Fin 1 => (fun _ => 1 : Config (Fin 2))) 0).map
        Row.mel).head? = some (-(1 / 2)) := by
  rw [isingFindConn1_eq, isingFindConn1_eq]
  have hs : (∑ i : Fin 2, -((1 / 2 : ℝ) * (((fun _ => 1 : Config (Fin 2)) i : ℤ) : ℝ) *
      ((pad1 false (fun _ => 1 : Config (Fin 2)) (i.val + 1) : ℤ) : ℝ))) = -(1 / 2) := by
    simp [Fin.sum_univ_two, pad1]
  simp only [hs, Field.store, List.map_cons, List.head?_cons, Option.some.injEq]
  refine ⟨?_, trivial⟩
  unfold truncZero
  rw [if_neg (by norm_num)]
  norm_num

/-! ### C07 -/

/-- C07, two dimensions, after any history of earlier calls: the rows sum up to the Heisenberg
Hamiltonian, with the exchange sign reversed under the rotation. -/
theorem C07_heisenberg_grid {n m : Nat} (rot pbc : Bool) (history : List (Call n m)) (B : Nat)
    (sample : Fin B → Config (Fin n × Fin m)) (x : Fin B) (hs : IsSpin (sample x))
    (ψ : Wave (Fin n × Fin m)) :
    applyRows ((((HeisOp.new2 n m rot pbc).run history).findConn B sample).2 x) ψ =
      heisenberg (gridBonds n m pbc) (if rot then -1 else 1) ψ (sample x) := by
  rw [answer2, applyRows_heisRows rot pbc 2 (Or.inl rfl) _ hs]

/-- C07, one dimension. -/
theorem C07_heisenberg_chain {n : Nat} (rot pbc : Bool) (history : List (Call n 1)) (B : Nat)
    (sample : Fin B → Config (Fin n)) (x : Fin B) (hs : IsSpin (sample x)) (ψ : Wave (Fin n)) :
    applyRows ((((HeisOp.new1 n rot pbc).run history).findConn1 B sample).2 x) ψ =
      heisenberg (chainBonds' n pbc) (if rot then -1 else 1) ψ (sample x) := by
  rw [answer1]
  have h1 : ∀ rows : List (Row (Fin n × Fin 1) ℝ),
      applyRows (rows.map squeezeRow) ψ = applyRows rows (fun c => ψ (squeeze c)) := by
    intro rows
    unfold applyRows
    rw [List.map_map]
    rfl
  rw [h1, applyRows_heisRows rot pbc 1 (Or.inr ⟨rfl, rfl⟩) (expandDims (sample x)) (fun p => hs p.1)]
  unfold heisenberg
  rw [chainBonds'_eq, List.map_map]
  apply list_sum_congr
  rintro ⟨⟨i, a⟩, ⟨k, c⟩⟩ -
  unfold pauliX pauliY pauliZ
  simp only [Function.comp, squeeze_flip, squeeze_expand]
  have h2 : flip (i, a) (expandDims (sample x)) (k, c) = flip i (sample x) k := by
    have := congrFun (squeeze_flip (expandDims (sample x)) i a) k
    have hc : c = 0 := Subsingleton.elim _ _
    rw [hc]
    exact this
  rw [h2]
  rfl

/-- The hypothesis of C07 is met by every array of ones, for instance. -/
example : IsSpin (fun _ => 1 : Config (Fin 3 × Fin 4)) := fun _ => Or.inl rfl

/-! ### C08 -/

theorem chainNext_parity {n : Nat} {pbc : Bool} {i k : Fin n} (hn : n > 1)
    (hb : pbc = false ∨ n % 2 = 0) (h : chainNext n pbc i = some k) : (i.val + k.val) % 2 = 1 := by
  unfold chainNext at h
  split at h
  · simp only [Option.some.injEq] at h
    subst h
    simp only
    omega
  · split at h
    · rename_i h1 h2
      simp only [Option.some.injEq] at h
      subst h
      simp only
      rcases hb with hb | hb
      · rw [hb] at h2; simp at h2
      · have := i.isLt
        omega
    · simp at h

theorem bond_parity {n m : Nat} {pbc : Bool} (hbip : Bipartite n m pbc)
    {b : (Fin n × Fin m) × (Fin n × Fin m)} (hb : b ∈ gridBonds n m pbc) :
    ((b.1.1.val + b.1.2.val) + (b.2.1.val + b.2.2.val)) % 2 = 1 := by
  rcases mem_gridBonds.mp hb with ⟨hn, h, h2⟩ | ⟨hm, h, h2⟩
  · have := chainNext_parity hn (by rcases hbip with h | ⟨h, -⟩; exact Or.inl h; exact Or.inr (by omega)) h
    rw [h2]; omega
  · have := chainNext_parity hm (by rcases hbip with h | ⟨-, h⟩; exact Or.inl h; exact Or.inr (by omega)) h
    rw [h2]; omega

theorem marshall_sq {n m : Nat} {s : Config (Fin n × Fin m)} (hs : IsSpin s) :
    marshall s * marshall s = 1 := by
  unfold marshall
  rw [← Finset.prod_mul_distrib]
  apply Finset.prod_eq_one
  intro p _
  split
  · exact spin_sq hs p
  · rfl

theorem marshall_exchange {n m : Nat} {s : Config (Fin n × Fin m)} (hs : IsSpin s)
    {a b : Fin n × Fin m} (hpar : ((a.1.val + a.2.val) + (b.1.val + b.2.val)) % 2 = 1)
    (hab : s a ≠ s b) : marshall (exchange a b s) = -marshall s := by
  have hne : a ≠ b := fun h => hab (by rw [h])
  have hopp : s b = -s a := by
    rcases hs a with h | h <;> rcases hs b with h' | h' <;> simp_all
  unfold marshall
  have hsplit : ∀ f : Fin n × Fin m → ℤ, ∏ p, f p = f a * (f b * ∏ p ∈ (Finset.univ.erase a).erase b, f p) := by
    intro f
    rw [← Finset.mul_prod_erase Finset.univ f (Finset.mem_univ a),
      ← Finset.mul_prod_erase (Finset.univ.erase a) f (Finset.mem_erase.mpr ⟨hne.symm, Finset.mem_univ b⟩)]
  rw [hsplit, hsplit (fun p => if (p.1.val + p.2.val) % 2 = 1 then s p else 1)]
  have hrest : ∏ p ∈ (Finset.univ.erase a).erase b,
      (if (p.1.val + p.2.val) % 2 = 1 then exchange a b s p else 1) =
      ∏ p ∈ (Finset.univ.erase a).erase b, (if (p.1.val + p.2.val) % 2 = 1 then s p else 1) := by
    apply Finset.prod_congr rfl
    intro p hp
    simp only [Finset.mem_erase, Finset.mem_univ, and_true] at hp
    rw [exchange_apply, Equiv.swap_apply_of_ne_of_ne hp.2 hp.1]
  rw [hrest, exchange_apply, exchange_apply, Equiv.swap_apply_left, Equiv.swap_apply_right]
  by_cases ha : (a.1.val + a.2.val) % 2 = 1
  · have hb : ¬ (b.1.val + b.2.val) % 2 = 1 := by omega
    rw [if_pos ha, if_neg hb, if_pos ha, if_neg hb, hopp]; ring
  · have hb : (b.1.val + b.2.val) % 2 = 1 := by omega
    rw [if_neg ha, if_pos hb, if_neg ha, if_pos hb, hopp]; ring

theorem heisenberg_conj {n m : Nat} (pbc : Bool) (hbip : Bipartite n m pbc)
    (s : Config (Fin n × Fin m)) (hs : IsSpin s) (ψ : Wave (Fin n × Fin m)) :
    heisenberg (gridBonds n m pbc) (-1) ψ s =
      (marshall s : ℂ) * heisenberg (gridBonds n m pbc) 1 (fun t => (marshall t : ℂ) * ψ t) s := by
  unfold heisenberg
  rw [← List.sum_map_mul_left]
  apply list_sum_congr
  intro b hb
  have hm : (marshall s : ℂ) * (marshall s : ℂ) = 1 := by exact_mod_cast marshall_sq hs
  rw [xx_yy hs (gridBonds_ne hb), xx_yy hs (gridBonds_ne hb)]
  unfold pauliZ
  by_cases h : s b.1 = s b.2
  · simp only [h, ne_eq, not_true, if_false]
    linear_combination (-(s b.2 : ℂ) * (s b.2 : ℂ) * ψ s) * hm
  · simp only [ne_eq, h, not_false_iff, if_true]
    rw [marshall_exchange hs (bond_parity hbip hb) h]
    push_cast
    linear_combination (2 * ψ (exchange b.1 b.2 s) - (s b.1 : ℂ) * (s b.2 : ℂ) * ψ s) * hm

/-- C08, partial: on every lattice whose bonds join two sublattices, the rotated operator is the
original one conjugated by the sign `marshall` (whose square is one). Missing: periodic lattices
with an odd length, where the claim is false (`C08_violated`). -/
theorem C08_rotation_partial {n m : Nat} (pbc : Bool) (hbip : Bipartite n m pbc) (B : Nat)
    (sample : Fin B → Config (Fin n × Fin m)) (x : Fin B) (hs : IsSpin (sample x))
    (ψ : Wave (Fin n × Fin m)) :
    applyRows (((HeisOp.new2 n m true pbc).findConn B sample).2 x) ψ =
      (marshall (sample x) : ℂ) *
        applyRows (((HeisOp.new2 n m false pbc).findConn B sample).2 x) (fun t => (marshall t : ℂ) * ψ t) ∧
    marshall (sample x) * marshall (sample x) = 1 := by
  refine ⟨?_, marshall_sq hs⟩
  have h1 := C07_heisenberg_grid true pbc [] B sample x hs ψ
  have h2 := C07_heisenberg_grid false pbc [] B sample x hs (fun t => (marshall t : ℂ) * ψ t)
  have h3 := heisenberg_conj pbc hbip (sample x) hs ψ
  simp only [HeisOp.run, List.foldl_nil] at h1 h2
  rw [h1, h2]
  simpa using h3

/-- `ψ` restricted to spin configurations is an eigenvector with eigenvalue `E` of the operator whose
rows at `s` are `rows s`. -/
def IsEigen {ι : Type} [DecidableEq ι] (rows : Config ι → List (Row ι ℝ)) (E : ℂ) (ψ : Wave ι) : Prop :=
  (∃ s, IsSpin s ∧ ψ s ≠ 0) ∧ ∀ s, IsSpin s → applyRows (rows s) ψ = E * ψ s

/-- The operator represented by `find_conn` on one configuration at a time. -/
noncomputable def gridRows (n m : Nat) (rot pbc : Bool) (s : Config (Fin n × Fin m)) :
    List (Row (Fin n × Fin m) ℝ) :=
  ((HeisOp.new2 n m rot pbc).findConn 1 (fun _ => s)).2 0

/-- C08, partial: on those lattices both operators have the same eigenvalues. -/
theorem C08_spectrum_partial {n m : Nat} (pbc : Bool) (hbip : Bipartite n m pbc) (E : ℂ) :
    (∃ ψ, IsEigen (gridRows n m true pbc) E ψ) ↔ ∃ ψ, IsEigen (gridRows n m false pbc) E ψ := by
  have hconj : ∀ s, IsSpin s → ∀ ψ, applyRows (gridRows n m true pbc s) ψ =
      (marshall s : ℂ) * applyRows (gridRows n m false pbc s) (fun t => (marshall t : ℂ) * ψ t) :=
    fun s hs ψ => (C08_rotation_partial pbc hbip 1 (fun _ => s) 0 hs ψ).1
  have hm : ∀ s : Config (Fin n × Fin m), IsSpin s → (marshall s : ℂ) * (marshall s : ℂ) = 1 := by
    intro s hs; exact_mod_cast marshall_sq hs
  have hm0 : ∀ s : Config (Fin n × Fin m), IsSpin s → (marshall s : ℂ) ≠ 0 := by
    intro s hs h; have := hm s hs; rw [h] at this; simp at this
  constructor
  · rintro ⟨ψ, ⟨s0, hs0, h0⟩, h⟩
    refine ⟨fun t => (marshall t : ℂ) * ψ t, ⟨s0, hs0, mul_ne_zero (hm0 s0 hs0) h0⟩, ?_⟩
    intro s hs
    have := h s hs
    rw [hconj s hs] at this
    have h2 := hm s hs
    linear_combination (marshall s : ℂ) * this - applyRows (gridRows n m false pbc s)
      (fun t => (marshall t : ℂ) * ψ t) * h2
  · rintro ⟨ψ, ⟨s0, hs0, h0⟩, h⟩
    refine ⟨fun t => (marshall t : ℂ) * ψ t, ⟨s0, hs0, mul_ne_zero (hm0 s0 hs0) h0⟩, ?_⟩
    intro s hs
    rw [hconj s hs]
    -- the two signs cancel only on spin configurations; the rows only reach those
    have hcongr : applyRows (gridRows n m false pbc s) (fun t => (marshall t : ℂ) * ((marshall t : ℂ) * ψ t)) =
        applyRows (gridRows n m false pbc s) ψ := by
      have e1 := C07_heisenberg_grid false pbc [] 1 (fun _ => s) 0 hs
        (fun t => (marshall t : ℂ) * ((marshall t : ℂ) * ψ t))
      have e2 := C07_heisenberg_grid false pbc [] 1 (fun _ => s) 0 hs ψ
      simp only [HeisOp.run, List.foldl_nil] at e1 e2
      unfold gridRows
      rw [e1, e2]
      unfold heisenberg
      apply list_sum_congr
      intro b hb
      rw [xx_yy hs (gridBonds_ne hb), xx_yy hs (gridBonds_ne hb)]
      unfold pauliZ
      have h3 := hm _ (exchange_spin hs b.1 b.2)
      have h4 := hm s hs
      simp only [Bool.false_eq_true, if_false]
      split
      · push_cast
        linear_combination (2 * ψ (exchange b.1 b.2 s)) * h3 +
          ((s b.1 : ℂ) * (s b.2 : ℂ) * ψ s) * h4
      · linear_combination ((s b.1 : ℂ) * (s b.2 : ℂ) * ψ s) * h4
    rw [hcongr, h s hs]
    ring

/-- Lattices that meet the hypothesis: any open lattice, and periodic ones such as 4 × 1 or 2 × 6. -/
example : Bipartite 3 5 false ∧ Bipartite 4 1 true ∧ Bipartite 2 6 true := by
  refine ⟨Or.inl rfl, Or.inr ⟨by decide, by decide⟩, Or.inr ⟨by decide, by decide⟩⟩

/-- Configuration of the ring of three sites. -/
def ring3 (a b c : ℤ) : Config (Fin 3 × Fin 1) := fun p => if p.1 = 0 then a else if p.1 = 1 then b else c

theorem ring3_eq (s : Config (Fin 3 × Fin 1)) : s = ring3 (s (0, 0)) (s (1, 0)) (s (2, 0)) := by
  funext ⟨i, j⟩
  have hj : j = 0 := Subsingleton.elim _ _
  subst hj
  fin_cases i <;> rfl

theorem ring3_ham (ε : ℝ) (ψ : Wave (Fin 3 × Fin 1)) (a b c : ℤ) (hs : IsSpin (ring3 a b c)) :
    heisenberg (gridBonds 3 1 true) ε ψ (ring3 a b c) =
      (ε * (if a ≠ b then 2 * ψ (ring3 b a c) else 0) + a * (b * ψ (ring3 a b c))) +
      ((ε * (if b ≠ c then 2 * ψ (ring3 a c b) else 0) + b * (c * ψ (ring3 a b c))) +
      (ε * (if c ≠ a then 2 * ψ (ring3 c b a) else 0) + c * (a * ψ (ring3 a b c)))) := by
  have hb : gridBonds 3 1 true = [((0, 0), (1, 0)), ((1, 0), (2, 0)), ((2, 0), (0, 0))] := by decide
  unfold heisenberg
  rw [hb]
  simp only [List.map_cons, List.map_nil, List.sum_cons, List.sum_nil, add_zero]
  rw [xx_yy hs (by decide), xx_yy hs (by decide), xx_yy hs (by decide)]
  have e1 : exchange (0, 0) (1, 0) (ring3 a b c) = ring3 b a c := by
    funext ⟨i, j⟩
    have hj : j = 0 := Subsingleton.elim _ _
    subst hj
    fin_cases i <;> rfl
  have e2 : exchange (1, 0) (2, 0) (ring3 a b c) = ring3 a c b := by
    funext ⟨i, j⟩
    have hj : j = 0 := Subsingleton.elim _ _
    subst hj
    fin_cases i <;> rfl
  have e3 : exchange (2, 0) (0, 0) (ring3 a b c) = ring3 c b a := by
    funext ⟨i, j⟩
    have hj : j = 0 := Subsingleton.elim _ _
    subst hj
    fin_cases i <;> rfl
  rw [e1, e2, e3]
  rfl

theorem ring3_spin {a b c : ℤ} (ha : a = 1 ∨ a = -1) (hb : b = 1 ∨ b = -1) (hc : c = 1 ∨ c = -1) :
    IsSpin (ring3 a b c) := by
  intro p
  unfold ring3
  split
  · exact ha
  · split
    · exact hb
    · exact hc

/-- C08 is violated on the periodic ring of three sites: the rotated operator has the eigenvalue `-5`
and the original one does not (its ground-state energy is `-3`). -/
theorem C08_violated :
    (∃ ψ, IsEigen (gridRows 3 1 true true) (-5) ψ) ∧ ¬ ∃ ψ, IsEigen (gridRows 3 1 false true) (-5) ψ := by
  have hrows : ∀ rot s, IsSpin s → ∀ ψ, applyRows (gridRows 3 1 rot true s) ψ =
      heisenberg (gridBonds 3 1 true) (if rot then -1 else 1) ψ s := by
    intro rot s hs ψ
    exact C07_heisenberg_grid rot true [] 1 (fun _ => s) 0 hs ψ
  constructor
  · refine ⟨fun s => if s (0, 0) + s (1, 0) + s (2, 0) = 1 then 1 else 0,
      ⟨ring3 1 1 (-1), ring3_spin (by simp) (by simp) (by simp), by simp [ring3]⟩, ?_⟩
    intro s hs
    rw [hrows true s hs]
    have h0 := hs (0, 0)
    have h1 := hs (1, 0)
    have h2 := hs (2, 0)
    rw [ring3_eq s] at hs ⊢
    rw [ring3_ham _ _ _ _ _ hs]
    rcases h0 with h0 | h0 <;> rcases h1 with h1 | h1 <;> rcases h2 with h2 | h2 <;>
      simp [h0, h1, h2, ring3] <;> norm_num
  · rintro ⟨ψ, ⟨s, hs, hne⟩, h⟩
    have hk : ∀ a b c : ℤ, (a = 1 ∨ a = -1) → (b = 1 ∨ b = -1) → (c = 1 ∨ c = -1) →
        heisenberg (gridBonds 3 1 true) 1 ψ (ring3 a b c) = -5 * ψ (ring3 a b c) := by
      intro a b c ha hb hc
      have := h _ (ring3_spin ha hb hc)
      rw [hrows false _ (ring3_spin ha hb hc)] at this
      simpa using this
    have p : (1 : ℤ) = 1 ∨ (1 : ℤ) = -1 := Or.inl rfl
    have q : (-1 : ℤ) = 1 ∨ (-1 : ℤ) = -1 := Or.inr rfl
    have E : ∀ a b c : ℤ, (ha : a = 1 ∨ a = -1) → (hb : b = 1 ∨ b = -1) → (hc : c = 1 ∨ c = -1) → _ :=
      fun a b c ha hb hc => (ring3_ham 1 ψ a b c (ring3_spin ha hb hc)).symm.trans (hk a b c ha hb hc)
    have k1 := E 1 1 1 p p p
    have k2 := E (-1) (-1) (-1) q q q
    have k3 := E (-1) 1 1 q p p
    have k4 := E 1 (-1) 1 p q p
    have k5 := E 1 1 (-1) p p q
    have k6 := E 1 (-1) (-1) p q q
    have k7 := E (-1) 1 (-1) q p q
    have k8 := E (-1) (-1) 1 q q p
    norm_num at k1 k2 k3 k4 k5 k6 k7 k8
    apply hne
    rw [ring3_eq s]
    rcases hs (0, 0) with h0 | h0 <;> rcases hs (1, 0) with h1 | h1 <;> rcases hs (2, 0) with h2 | h2 <;>
      rw [h0, h1, h2]
    · linear_combination (1 / 8) * k1
    · linear_combination (3 / 8) * k5 - (1 / 8) * k3 - (1 / 8) * k4
    · linear_combination (3 / 8) * k4 - (1 / 8) * k3 - (1 / 8) * k5
    · linear_combination (3 / 8) * k6 - (1 / 8) * k7 - (1 / 8) * k8
    · linear_combination (3 / 8) * k3 - (1 / 8) * k4 - (1 / 8) * k5
    · linear_combination (3 / 8) * k7 - (1 / 8) * k6 - (1 / 8) * k8
    · linear_combination (3 / 8) * k8 - (1 / 8) * k6 - (1 / 8) * k7
    · linear_combination (1 / 8) * k2

end Verif.Operators
