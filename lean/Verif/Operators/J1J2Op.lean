import Verif.Operators.J1J2
import Verif.Operators.Netket
import Verif.Operators.Spec
import Mathlib.Data.Fin.VecNotation
import Mathlib.Logic.Equiv.Fin.Basic
import Mathlib.Algebra.BigOperators.Fin
import Mathlib.Data.List.GetD
import Mathlib.Algebra.Order.BigOperators.Group.Finset
import Mathlib.Tactic.LinearCombination
import Mathlib.Tactic.FinCases

/-
Model of the operators of `src/flowket/operators/j1j2.py` and of `total_spin_netket_operator` in
`examples/j1j2_2d_exact_4.py`, and properties C107 and C108. Both hand a list of coloured edges and
one 4 × 4 matrix per colour to NetKet's `GraphOperator`. NetKet itself is not part of the repository:
`graphConn` states what its `get_conn` is assumed to return.
-/
namespace Verif.J1J2.Op

open Verif.Netket Verif.Operators

/-- A 2 × 2 matrix given by its entries. -/
abbrev Mat2 := Fin 2 → Fin 2 → ℂ

/-- `sigmaz` (j1j2.py:42, j1j2_2d_exact_4.py:30). -/
def sigmaz : Mat2 := ![![1, 0], ![0, -1]]
/-- `sigmax` (j1j2.py:43, j1j2_2d_exact_4.py:31). -/
def sigmax : Mat2 := ![![0, 1], ![1, 0]]
/-- `sigmay` (j1j2.py:44, j1j2_2d_exact_4.py:32). -/
def sigmay : Mat2 := ![![0, -Complex.I], ![Complex.I, 0]]

/-- `numpy.kron` of two 2 × 2 matrices; row `2 * a + b` is written as the pair `(a, b)`. -/
def kron (A B : Mat2) (r c : Fin 2 × Fin 2) : ℂ := A r.1 c.1 * B r.2 c.2

/-- `interaction` (j1j2.py:46, j1j2_2d_exact_4.py:34). -/
def interaction (r c : Fin 2 × Fin 2) : ℂ :=
  kron sigmaz sigmaz r c + kron sigmax sigmax r c + kron sigmay sigmay r c

/-- Number of the local state `v` when NetKet lists the local state `first` first. -/
def digit (first v : ℤ) : Fin 2 := if v = first then 0 else 1

/-- The local state with a given number. -/
def value (first : ℤ) (d : Fin 2) : ℤ := if d = 0 then first else -first

/-- Off-diagonal connections that the bond operator `M` contributes on the bond from site `a` to site
`b` (assumed of NetKet): one for every other row of local states with a nonzero element. NetKet also
drops elements below a tiny cutoff, which is not modelled. -/
noncomputable def bondConn (first : ℤ) (M : Fin 2 × Fin 2 → Fin 2 × Fin 2 → ℂ) (a b : Nat) (s : Conf) :
    List (Conf × ℂ) :=
  let r := (digit first (s.getD a 0), digit first (s.getD b 0))
  [(0, 0), (0, 1), (1, 0), (1, 1)].filterMap fun k : Fin 2 × Fin 2 =>
    open Classical in
    if k ≠ r ∧ M r k ≠ 0 then some ((s.set a (value first k.1)).set b (value first k.2), M r k) else none

/-- The diagonal element that the bond operator contributes (assumed of NetKet). -/
def bondDiag (first : ℤ) (M : Fin 2 × Fin 2 → Fin 2 × Fin 2 → ℂ) (a b : Nat) (s : Conf) : ℂ :=
  let r := (digit first (s.getD a 0), digit first (s.getD b 0))
  M r r

/-- `GraphOperator.get_conn` (assumed of NetKet): the configuration itself with the sum of the diagonal
elements, then the off-diagonal connections bond by bond. `M c` is the bond operator of colour `c`. -/
noncomputable def graphConn (first : ℤ) (M : Nat → Fin 2 × Fin 2 → Fin 2 × Fin 2 → ℂ) (edges : List Edge)
    (s : Conf) : List (Conf × ℂ) :=
  (s, (edges.map fun e => bondDiag first (M e.2.2) e.1 e.2.1 s).sum) ::
    edges.flatMap fun e => bondConn first (M e.2.2) e.1 e.2.1 s

/-- `bond_operator` by colour (j1j2.py:12, 48-53): `J[0] = 1` for colour 1, `J[1] = j2` for colour 2. -/
def bondOperator (j2 : ℂ) (c : Nat) (r k : Fin 2 × Fin 2) : ℂ :=
  (if c = 1 then 1 else if c = 2 then j2 else 0) * interaction r k

/-- `j1j2_two_dim_operator` (j1j2.py:58-66) with the wrapper's constructor (netket_operator.py:8-22), for
the new NetKet interface. `numpy.prod(shape) * len(shape) * 2 + 1` rows are announced. -/
noncomputable def j1j2Operator (first : ℤ) (L1 L2 : Nat) (j2 : ℂ) (pbc : Bool) : Wrapper where
  getConn s := .new (graphConn first (bondOperator j2) (edgeColors L1 L2 pbc) s)
  oldNetket := false
  shouldCalcUnused := true
  estimated := L1 * L2 * 2 * 2 + 1

/-- `edge_colors` of `total_spin_netket_operator` (j1j2_2d_exact_4.py:23-25). -/
def totalSpinEdges (N : Nat) : List Edge := (List.range N).map fun i => (i, i, 1)

/-- The `total_spin` observable of the example (j1j2_2d_exact_4.py:22-42, 83) for `N` sites: the wrapper
is built without a number of connections and takes it from one random state `probe`
(netket_operator.py:16-19, 37-44), unused rows are not tracked. -/
noncomputable def totalSpinOperator (first : ℤ) (N : Nat) (probe : Conf) : Wrapper where
  getConn s := .new (graphConn first (fun _ => interaction) (totalSpinEdges N) s)
  oldNetket := false
  shouldCalcUnused := false
  estimated := (graphConn first (fun _ => interaction) (totalSpinEdges N) probe).length

/-! ### Specification -/

/-- The flat form of a configuration of the lattice, row by row. -/
def flat {L1 L2 : Nat} (s : Config (Fin L1 × Fin L2)) : Conf :=
  List.ofFn fun k : Fin (L1 * L2) => s (finProdFinEquiv.symm k)

/-- The configuration of the lattice that a flat list stands for. -/
def grid (L1 L2 : Nat) (l : Conf) : Config (Fin L1 × Fin L2) := fun p => l.getD (p.1.val * L2 + p.2.val) 0

/-- The coupling of the spins of two sites: XX + YY + ZZ. -/
noncomputable def coupling {ι : Type} [DecidableEq ι] (p q : ι) (ψ : Wave ι) : Wave ι := fun s =>
  pauliX p (pauliX q ψ) s + pauliY p (pauliY q ψ) s + pauliZ p (pauliZ q ψ) s

/-- The J1-J2 Hamiltonian of the `L1 × L2` lattice with `J1 = 1`: every pair of nearest neighbours once,
and `j2` times every pair of diagonal neighbours once. Of each pair of sites the one in front in reading
order is `p`. -/
noncomputable def hamiltonian (L1 L2 : Nat) (pbc : Bool) (j2 : ℂ) (ψ : Wave (Fin L1 × Fin L2)) :
    Wave (Fin L1 × Fin L2) := fun s =>
  ∑ p : Fin L1 × Fin L2, ∑ q : Fin L1 × Fin L2, if p.1 < q.1 ∨ p.1 = q.1 ∧ p.2 < q.2 then
    (if nearest L1 L2 pbc (p.1.val, p.2.val) (q.1.val, q.2.val) then coupling p q ψ s else 0) +
    (if diagonal L1 L2 pbc (p.1.val, p.2.val) (q.1.val, q.2.val) then j2 * coupling p q ψ s else 0)
  else 0

/-- The square of the total spin: a quarter of the sum of the couplings of all ordered pairs of sites,
each site with itself included. -/
noncomputable def totalSpin {ι : Type} [DecidableEq ι] [Fintype ι] (ψ : Wave ι) : Wave ι := fun s =>
  (∑ p, ∑ q, coupling p q ψ s) / 4

/-! ### Lemmas -/

theorem interaction_eq (r c : Fin 2 × Fin 2) : interaction r c =
    if r = c then (if r.1 = r.2 then 1 else -1) else if r.1 ≠ r.2 ∧ c = (r.2, r.1) then 2 else 0 := by
  obtain ⟨a, b⟩ := r
  obtain ⟨x, y⟩ := c
  fin_cases a <;> fin_cases b <;> fin_cases x <;> fin_cases y <;>
    simp [interaction, kron, sigmax, sigmay, sigmaz] <;> norm_num

/-- The off-diagonal connections of `J` times the interaction. -/
theorem bondConn_eq (first : ℤ) (J : ℂ) (a b : Nat) (s : Conf) :
    bondConn first (fun r k => J * interaction r k) a b s =
      open Classical in
      if J ≠ 0 ∧ digit first (s.getD a 0) ≠ digit first (s.getD b 0) then
        [((s.set a (value first (digit first (s.getD b 0)))).set b (value first (digit first (s.getD a 0))), J * 2)]
      else [] := by
  unfold bondConn
  generalize digit first (s.getD a 0) = x
  generalize digit first (s.getD b 0) = y
  by_cases hJ : J = 0
  · simp [hJ]
  · fin_cases x <;> fin_cases y <;> simp [interaction_eq, hJ]

theorem bondConn_length (first : ℤ) (J : ℂ) (a b : Nat) (s : Conf) :
    (bondConn first (fun r k => J * interaction r k) a b s).length ≤ 1 := by
  rw [bondConn_eq]
  split <;> simp

theorem coupling_eq {ι : Type} [DecidableEq ι] (p q : ι) (hpq : p ≠ q) (ψ : Wave ι) (s : Config ι) :
    coupling p q ψ s = (1 - (s p : ℂ) * (s q : ℂ)) * ψ (Operators.flip q (Operators.flip p s)) +
      (s p : ℂ) * (s q : ℂ) * ψ s := by
  unfold coupling pauliX pauliY pauliZ
  have : Operators.flip p s q = s q := by
    unfold Operators.flip
    rw [Function.update_of_ne (Ne.symm hpq)]
  rw [this]
  linear_combination ((s p : ℂ) * (s q : ℂ) * ψ (Operators.flip q (Operators.flip p s))) * Complex.I_mul_I

theorem grid_flat {L1 L2 : Nat} (s : Config (Fin L1 × Fin L2)) : grid L1 L2 (flat s) = s := by
  funext p
  have h := (finProdFinEquiv p).isLt
  have hv : (finProdFinEquiv p).val = p.1.val * L2 + p.2.val := by
    rw [finProdFinEquiv_apply_val, Nat.mul_comm, Nat.add_comm]
  unfold grid flat
  rw [← hv, List.getD_eq_getElem _ _ (by simpa using h), List.getElem_ofFn]
  exact congrArg s (finProdFinEquiv.symm_apply_apply p)

theorem flat_length {L1 L2 : Nat} (s : Config (Fin L1 × Fin L2)) : (flat s).length = L1 * L2 := by
  simp [flat]

theorem site_lt {L1 L2 : Nat} (p : Fin L1 × Fin L2) : p.1.val * L2 + p.2.val < L1 * L2 := by
  have := p.1.isLt
  have := p.2.isLt
  nlinarith

theorem site_inj {L1 L2 : Nat} (p q : Fin L1 × Fin L2) (h : p.1.val * L2 + p.2.val = q.1.val * L2 + q.2.val) :
    p = q := by
  have := (idx_inj (h := p.1.val) (h' := q.1.val) p.2.isLt q.2.isLt).mp (by rw [Nat.mul_comm L2, Nat.mul_comm L2]; omega)
  exact Prod.ext (Fin.ext this.2) (Fin.ext this.1)

theorem grid_set {L1 L2 : Nat} (l : Conf) (hl : l.length = L1 * L2) (p : Fin L1 × Fin L2) (v : ℤ) :
    grid L1 L2 (l.set (p.1.val * L2 + p.2.val) v) = Function.update (grid L1 L2 l) p v := by
  funext q
  unfold grid
  have hp := site_lt p
  have hq := site_lt q
  by_cases h : q = p
  · subst h
    rw [Function.update_self, List.getD_eq_getElem _ _ (by simpa [hl] using hp)]
    simp
  · rw [Function.update_of_ne h, List.getD_eq_getElem _ _ (by simpa [hl] using hq),
      List.getD_eq_getElem _ _ (by simpa [hl] using hq), List.getElem_set_ne]
    exact fun e => h (site_inj _ _ e).symm

theorem value_digit (first v : ℤ) (hf : first = 1 ∨ first = -1) (hv : v = 1 ∨ v = -1) :
    value first (digit first v) = v := by
  unfold value digit
  rcases hf with rfl | rfl <;> rcases hv with rfl | rfl <;> simp

theorem digit_eq (first v u : ℤ) (hf : first = 1 ∨ first = -1) (hv : v = 1 ∨ v = -1) (hu : u = 1 ∨ u = -1) :
    digit first v = digit first u ↔ v = u := by
  unfold digit
  rcases hf with rfl | rfl <;> rcases hv with rfl | rfl <;> rcases hu with rfl | rfl <;> simp

/-- One bond acts like `J` times the coupling of its two sites. -/
theorem bond_sum (L1 L2 : Nat) (first : ℤ) (hf : first = 1 ∨ first = -1) (J : ℂ) (p q : Fin L1 × Fin L2)
    (hpq : p ≠ q) (s : Config (Fin L1 × Fin L2)) (hs : IsSpin s) (ψ : Wave (Fin L1 × Fin L2)) :
    bondDiag first (fun r k => J * interaction r k) (p.1.val * L2 + p.2.val) (q.1.val * L2 + q.2.val) (flat s) * ψ s +
      ((bondConn first (fun r k => J * interaction r k) (p.1.val * L2 + p.2.val) (q.1.val * L2 + q.2.val)
        (flat s)).map fun c => c.2 * ψ (grid L1 L2 c.1)).sum = J * coupling p q ψ s := by
  have hp : (flat s).getD (p.1.val * L2 + p.2.val) 0 = s p := congrFun (grid_flat s) p
  have hq : (flat s).getD (q.1.val * L2 + q.2.val) 0 = s q := congrFun (grid_flat s) q
  rw [bondConn_eq, coupling_eq p q hpq, bondDiag, hp, hq, interaction_eq]
  simp only [if_true, ne_eq, digit_eq first _ _ hf (hs p) (hs q), value_digit first _ hf (hs p),
    value_digit first _ hf (hs q)]
  by_cases he : s p = s q
  · have h1 : (s p : ℂ) * (s q : ℂ) = 1 := by
      rw [he]
      rcases hs q with h | h <;> rw [h] <;> norm_num
    rw [if_pos he, h1, if_neg fun h => h.2 he]
    simp
  · have h1 : (s p : ℂ) * (s q : ℂ) = -1 := by
      rcases hs p with h | h <;> rcases hs q with h' | h' <;> rw [h, h'] at he ⊢ <;> first | exact absurd rfl he | norm_num
    have hfl : Operators.flip q (Operators.flip p s) =
        grid L1 L2 (((flat s).set (p.1.val * L2 + p.2.val) (s q)).set (q.1.val * L2 + q.2.val) (s p)) := by
      rw [grid_set _ (by simp [flat_length]), grid_set _ (by simp [flat_length]), grid_flat]
      have e1 : -s p = s q := by
        rcases hs p with h | h <;> rcases hs q with h' | h' <;> rw [h, h'] at he ⊢ <;> first | exact absurd rfl he | norm_num
      have e2 : -s q = s p := by rw [← e1]; ring
      unfold Operators.flip
      rw [Function.update_of_ne (Ne.symm hpq), e1, e2]
    rw [if_neg he, h1, hfl]
    by_cases hJ : J = 0
    · simp [hJ]
    · rw [if_pos ⟨hJ, he⟩]
      simp only [List.map_cons, List.map_nil, List.sum_cons, List.sum_nil]
      ring

theorem front_iff {L1 L2 : Nat} (p q : Fin L1 × Fin L2) :
    (p.1 < q.1 ∨ p.1 = q.1 ∧ p.2 < q.2) ↔ p.1.val * L2 + p.2.val < q.1.val * L2 + q.2.val := by
  have := p.2.isLt
  have := q.2.isLt
  rw [Fin.lt_def, Fin.lt_def, Fin.ext_iff]
  constructor
  · rintro (h | ⟨h1, h2⟩)
    · nlinarith
    · rw [h1]; omega
  · intro h
    rcases Nat.lt_trichotomy p.1.val q.1.val with h1 | h1 | h1
    · exact .inl h1
    · refine .inr ⟨h1, ?_⟩
      rw [h1] at h; omega
    · exfalso
      nlinarith

theorem countBetween_cons (e : Edge) (es : List Edge) (a b c : Nat) :
    countBetween (e :: es) a b c =
      (if ((e.1 = a ∧ e.2.1 = b) ∨ (e.1 = b ∧ e.2.1 = a)) ∧ e.2.2 = c then 1 else 0) + countBetween es a b c := by
  unfold countBetween
  rw [List.filter_cons]
  split
  · rename_i h
    rw [if_pos (by simpa using h), List.length_cons, Nat.add_comm]
  · rename_i h
    rw [if_neg (by simpa using h), Nat.zero_add]

/-- The contribution of one edge to a sum over pairs of sites. -/
noncomputable def pairSum (L1 L2 : Nat) (f : Nat → Nat → Nat → ℂ) (e : Edge) : ℂ :=
  ∑ p : Fin L1 × Fin L2, ∑ q : Fin L1 × Fin L2, if p.1 < q.1 ∨ p.1 = q.1 ∧ p.2 < q.2 then
    ((if ((e.1 = p.1.val * L2 + p.2.val ∧ e.2.1 = q.1.val * L2 + q.2.val) ∨
        (e.1 = q.1.val * L2 + q.2.val ∧ e.2.1 = p.1.val * L2 + p.2.val)) ∧ e.2.2 = 1 then 1 else 0 : Nat) : ℂ) *
      f (p.1.val * L2 + p.2.val) (q.1.val * L2 + q.2.val) 1 +
    ((if ((e.1 = p.1.val * L2 + p.2.val ∧ e.2.1 = q.1.val * L2 + q.2.val) ∨
        (e.1 = q.1.val * L2 + q.2.val ∧ e.2.1 = p.1.val * L2 + p.2.val)) ∧ e.2.2 = 2 then 1 else 0 : Nat) : ℂ) *
      f (p.1.val * L2 + p.2.val) (q.1.val * L2 + q.2.val) 2 else 0

theorem edge_single {L1 L2 : Nat} (f : Nat → Nat → Nat → ℂ) (p0 q0 : Fin L1 × Fin L2)
    (hfront : p0.1.val * L2 + p0.2.val < q0.1.val * L2 + q0.2.val) (e : Edge)
    (he : (e.1 = p0.1.val * L2 + p0.2.val ∧ e.2.1 = q0.1.val * L2 + q0.2.val) ∨
      (e.1 = q0.1.val * L2 + q0.2.val ∧ e.2.1 = p0.1.val * L2 + p0.2.val)) (hc : e.2.2 = 1 ∨ e.2.2 = 2) :
    pairSum L1 L2 f e =
      f (p0.1.val * L2 + p0.2.val) (q0.1.val * L2 + q0.2.val) e.2.2 := by
  unfold pairSum
  rw [Finset.sum_eq_single p0, Finset.sum_eq_single q0]
  · rw [if_pos ((front_iff _ _).mpr hfront)]
    rcases hc with hc | hc <;> simp [hc, he]
  · intro q _ hq
    split
    · have hn : ¬ ((e.1 = p0.1.val * L2 + p0.2.val ∧ e.2.1 = q.1.val * L2 + q.2.val) ∨
          (e.1 = q.1.val * L2 + q.2.val ∧ e.2.1 = p0.1.val * L2 + p0.2.val)) := by
        rintro (h | h)
        · rcases he with h' | h'
          · exact hq (site_inj _ _ (by omega))
          · omega
        · rcases he with h' | h'
          · omega
          · exact hq (site_inj _ _ (by omega))
      simp [hn]
    · rfl
  · intro h; exact absurd (Finset.mem_univ _) h
  · intro p _ hp
    apply Finset.sum_eq_zero
    intro q _
    split
    · rename_i hfr
      rw [front_iff] at hfr
      have hn : ¬ ((e.1 = p.1.val * L2 + p.2.val ∧ e.2.1 = q.1.val * L2 + q.2.val) ∨
          (e.1 = q.1.val * L2 + q.2.val ∧ e.2.1 = p.1.val * L2 + p.2.val)) := by
        rintro (h | h)
        · rcases he with h' | h'
          · exact hp (site_inj _ _ (by omega))
          · omega
        · rcases he with h' | h'
          · omega
          · exact hp (site_inj _ _ (by omega))
      simp [hn]
    · rfl
  · intro h; exact absurd (Finset.mem_univ _) h

/-- A sum over the edge list, sorted by pairs of sites. -/
theorem edge_sum {L1 L2 : Nat} (f : Nat → Nat → Nat → ℂ) (hsymm : ∀ a b c, f a b c = f b a c) (edges : List Edge)
    (hin : ∀ e ∈ edges, (∃ p q : Fin L1 × Fin L2, p ≠ q ∧ e.1 = p.1.val * L2 + p.2.val ∧
      e.2.1 = q.1.val * L2 + q.2.val) ∧ (e.2.2 = 1 ∨ e.2.2 = 2)) :
    (edges.map fun e => f e.1 e.2.1 e.2.2).sum =
      ∑ p : Fin L1 × Fin L2, ∑ q : Fin L1 × Fin L2, if p.1 < q.1 ∨ p.1 = q.1 ∧ p.2 < q.2 then
        (countBetween edges (p.1.val * L2 + p.2.val) (q.1.val * L2 + q.2.val) 1 : ℂ) *
          f (p.1.val * L2 + p.2.val) (q.1.val * L2 + q.2.val) 1 +
        (countBetween edges (p.1.val * L2 + p.2.val) (q.1.val * L2 + q.2.val) 2 : ℂ) *
          f (p.1.val * L2 + p.2.val) (q.1.val * L2 + q.2.val) 2 else 0 := by
  induction edges with
  | nil => simp [countBetween]
  | cons e es ih =>
    obtain ⟨⟨p, q, hpq, hp, hq⟩, hc⟩ := hin e List.mem_cons_self
    have hone : f e.1 e.2.1 e.2.2 = pairSum L1 L2 f e := by
      rcases Nat.lt_trichotomy (p.1.val * L2 + p.2.val) (q.1.val * L2 + q.2.val) with h | h | h
      · rw [hp, hq]
        exact (edge_single f p q h e (.inl ⟨hp, hq⟩) hc).symm
      · exact absurd (site_inj _ _ h) hpq
      · rw [hp, hq, hsymm]
        exact (edge_single f q p h e (.inr ⟨hp, hq⟩) hc).symm
    rw [List.map_cons, List.sum_cons, ih fun e' he' => hin e' (List.mem_cons_of_mem _ he'), hone, pairSum,
      ← Finset.sum_add_distrib]
    apply Finset.sum_congr rfl
    intro p _
    rw [← Finset.sum_add_distrib]
    apply Finset.sum_congr rfl
    intro q _
    rw [countBetween_cons, countBetween_cons]
    split
    · push_cast
      ring
    · simp

/-- Every entry of the edge list joins two different sites of the lattice and has colour 1 or 2. -/
theorem edges_in (L1 L2 : Nat) (h1 : 0 < L1) (h2 : 0 < L2) (pbc : Bool) (hL : pbc = true → 3 ≤ L1 ∧ 3 ≤ L2)
    (e : Edge) (he : e ∈ edgeColors L1 L2 pbc) :
    (∃ p q : Fin L1 × Fin L2, p ≠ q ∧ e.1 = p.1.val * L2 + p.2.val ∧
      e.2.1 = q.1.val * L2 + q.2.val) ∧ (e.2.2 = 1 ∨ e.2.2 = 2) := by
  obtain ⟨⟨p, hp1, hp2, hp⟩, ⟨q, hq1, hq2, hq⟩, hne⟩ := C15_edges_in_lattice L1 L2 h1 h2 pbc hL e he
  have hpq : p ≠ q := by
    rintro rfl
    exact hne (hp.trans hq.symm)
  refine ⟨⟨(⟨p.1, hp1⟩, ⟨p.2, hp2⟩), (⟨q.1, hq1⟩, ⟨q.2, hq2⟩), ?_, hp, hq⟩, ?_⟩
  · intro h
    rw [Prod.mk.injEq, Fin.mk.injEq, Fin.mk.injEq] at h
    exact hpq (Prod.ext h.1 h.2)
  · by_contra hc
    rw [not_or] at hc
    have h := (C15_edges L1 L2 pbc hL p q ⟨hp1, hp2⟩ ⟨hq1, hq2⟩ hpq).2.2 e.2.2 hc.1 hc.2
    unfold countBetween at h
    rw [List.length_eq_zero_iff, List.filter_eq_nil_iff] at h
    exact h e he (by simp [hp, hq])

theorem edges_length (L1 L2 : Nat) (h2 : 0 < L2) (pbc : Bool) : (edgeColors L1 L2 pbc).length ≤ L1 * L2 * 2 * 2 := by
  have h := edgeColors_sum L1 L2 h2 pbc fun _ => 1
  rw [List.map_const', List.sum_replicate, smul_eq_mul, Nat.mul_one] at h
  rw [h]
  have hs : ∀ i w, siteSum L1 L2 pbc (fun _ => 1) i w ≤ 4 := by
    intro i w
    unfold siteSum
    cases next L2 pbc w <;> cases next L1 pbc i <;> cases prev L1 pbc i <;> simp
  calc ∑ i ∈ Finset.range L1, ∑ w ∈ Finset.range L2, siteSum L1 L2 pbc (fun _ => 1) i w
      ≤ ∑ i ∈ Finset.range L1, ∑ w ∈ Finset.range L2, 4 :=
        Finset.sum_le_sum fun i _ => Finset.sum_le_sum fun w _ => hs i w
    _ = L1 * L2 * 2 * 2 := by simp; ring

theorem flatMap_length_le {α β : Type} (l : List α) (g : α → List β) (h : ∀ a, (g a).length ≤ 1) :
    (l.flatMap g).length ≤ l.length := by
  induction l with
  | nil => simp
  | cons a l ih =>
    rw [List.flatMap_cons, List.length_append, List.length_cons]
    have := h a
    omega

theorem graphConn_length (first : ℤ) (L1 L2 : Nat) (h2 : 0 < L2) (j2 : ℂ) (pbc : Bool) (s : Conf) :
    (graphConn first (bondOperator j2) (edgeColors L1 L2 pbc) s).length ≤ L1 * L2 * 2 * 2 + 1 := by
  unfold graphConn
  rw [List.length_cons]
  have h := flatMap_length_le (edgeColors L1 L2 pbc)
    (fun e => bondConn first (bondOperator j2 e.2.2) e.1 e.2.1 s) fun e => bondConn_length first _ e.1 e.2.1 s
  have := edges_length L1 L2 h2 pbc
  omega

theorem coupling_symm {ι : Type} [DecidableEq ι] (p q : ι) (ψ : Wave ι) (s : Config ι) :
    coupling p q ψ s = coupling q p ψ s := by
  by_cases h : p = q
  · rw [h]
  · rw [coupling_eq p q h, coupling_eq q p (Ne.symm h)]
    have : Operators.flip q (Operators.flip p s) = Operators.flip p (Operators.flip q s) := by
      unfold Operators.flip
      rw [Function.update_of_ne (Ne.symm h), Function.update_of_ne h, Function.update_comm h]
    rw [this]
    ring

/-- NetKet's list, summed against a wave function, is the Hamiltonian. -/
theorem graphConn_sum (first : ℤ) (hf : first = 1 ∨ first = -1) (L1 L2 : Nat) (h1 : 0 < L1) (h2 : 0 < L2) (j2 : ℂ)
    (pbc : Bool) (hL : pbc = true → 3 ≤ L1 ∧ 3 ≤ L2) (s : Config (Fin L1 × Fin L2)) (hs : IsSpin s)
    (ψ : Wave (Fin L1 × Fin L2)) :
    ((graphConn first (bondOperator j2) (edgeColors L1 L2 pbc) (flat s)).map fun c => c.2 * ψ (grid L1 L2 c.1)).sum =
      hamiltonian L1 L2 pbc j2 ψ s := by
  classical
  have hpoint : ∀ k : Nat, ∃ p : Option (Fin L1 × Fin L2),
      ∀ q : Fin L1 × Fin L2, q.1.val * L2 + q.2.val = k → p = some q := by
    intro k
    by_cases h : ∃ q : Fin L1 × Fin L2, q.1.val * L2 + q.2.val = k
    · obtain ⟨q, hq⟩ := h
      exact ⟨some q, fun q' hq' => congrArg some (site_inj _ _ (hq.trans hq'.symm))⟩
    · exact ⟨none, fun q hq => absurd ⟨q, hq⟩ h⟩
  choose point hpt using hpoint
  set f : Nat → Nat → Nat → ℂ := fun a b c =>
    match point a, point b with
    | some p, some q => (if c = 1 then 1 else if c = 2 then j2 else 0) * coupling p q ψ s
    | _, _ => 0 with hfdef
  have hfs : ∀ (p q : Fin L1 × Fin L2) c, f (p.1.val * L2 + p.2.val) (q.1.val * L2 + q.2.val) c =
      (if c = 1 then 1 else if c = 2 then j2 else 0) * coupling p q ψ s := by
    intro p q c
    simp only [hfdef, hpt _ p rfl, hpt _ q rfl]
  have hsymm : ∀ a b c, f a b c = f b a c := by
    intro a b c
    simp only [hfdef]
    cases point a <;> cases point b <;> simp only
    rw [coupling_symm]
  have hlist : ∀ edges : List Edge, (∀ e ∈ edges, e ∈ edgeColors L1 L2 pbc) →
      ((graphConn first (bondOperator j2) edges (flat s)).map fun c => c.2 * ψ (grid L1 L2 c.1)).sum =
        (edges.map fun e => f e.1 e.2.1 e.2.2).sum := by
    intro edges
    induction edges with
    | nil => intro _; simp [graphConn]
    | cons e es ih =>
      intro hsub
      have ih' := ih fun e' he' => hsub e' (List.mem_cons_of_mem _ he')
      obtain ⟨⟨p, q, hpq, hp, hq⟩, hc⟩ := edges_in L1 L2 h1 h2 pbc hL e (hsub e List.mem_cons_self)
      have hb := bond_sum L1 L2 first hf (if e.2.2 = 1 then 1 else if e.2.2 = 2 then j2 else 0) p q hpq s hs ψ
      rw [← hp, ← hq] at hb
      have hfe : f e.1 e.2.1 e.2.2 =
          (if e.2.2 = 1 then 1 else if e.2.2 = 2 then j2 else 0) * coupling p q ψ s := by rw [hp, hq]; exact hfs p q e.2.2
      rw [List.map_cons, List.sum_cons, ← ih', hfe, ← hb]
      unfold graphConn
      simp only [List.map_cons, List.sum_cons, List.flatMap_cons, List.map_append, List.sum_append, grid_flat]
      unfold bondOperator
      ring
  rw [hlist _ fun _ h => h, edge_sum f hsymm _ fun e he => edges_in L1 L2 h1 h2 pbc hL e he]
  unfold hamiltonian
  apply Finset.sum_congr rfl
  intro p _
  apply Finset.sum_congr rfl
  intro q _
  split
  · rename_i hfr
    have hne : ((p.1.val, p.2.val) : Nat × Nat) ≠ (q.1.val, q.2.val) := by
      intro h
      rw [Prod.mk.injEq] at h
      rw [front_iff, h.1, h.2] at hfr
      exact absurd hfr (lt_irrefl _)
    obtain ⟨c1, c2, _⟩ := C15_edges L1 L2 pbc hL (p.1.val, p.2.val) (q.1.val, q.2.val) ⟨p.1.isLt, p.2.isLt⟩
      ⟨q.1.isLt, q.2.isLt⟩ hne
    unfold site at c1 c2
    rw [c1, c2, hfs, hfs]
    congr 1
    · split <;> simp
    · split <;> simp
  · rfl

theorem foldr_max_le (l : List Nat) (E : Nat) (h : ∀ x ∈ l, x ≤ E) : l.foldr max 0 ≤ E := by
  induction l with
  | nil => exact Nat.zero_le _
  | cons a l ih =>
    rw [List.foldr_cons]
    exact max_le (h a List.mem_cons_self) (ih fun x hx => h x (List.mem_cons_of_mem _ hx))

theorem findConn_estimated (w w' : Wrapper) (batch : List Conf) (rows : List (List Netket.Row)) (E : Nat)
    (hlen : ∀ s c, w.getConn s = .new c → c.length ≤ E) (hE : w.estimated = E)
    (h : w.findConn batch = .ok (w', rows)) : w'.estimated = E := by
  unfold Wrapper.findConn at h
  split at h
  · unfold oldFindConn at h
    split at h
    · simp only [Except.ok.injEq, Prod.mk.injEq] at h
      obtain ⟨rfl, -⟩ := h
      exact hE
    · simp at h
  · unfold newFindConn at h
    split at h
    · simp at h
    · rename_i lists hm
      split at h
      · simp at h
      · simp only [Except.ok.injEq, Prod.mk.injEq] at h
        obtain ⟨rfl, -⟩ := h
        change max _ _ = E
        rw [hE]
        apply max_eq_right
        apply foldr_max_le
        intro x hx
        rw [List.mem_map] at hx
        obtain ⟨c, hc, rfl⟩ := hx
        obtain ⟨i, hi, rfl⟩ := List.mem_iff_getElem.mp hc
        have hm' := mapM_ok _ _ _ hm
        have hq := (List.forall₂_iff_get.mp hm').2 i (by rw [hm'.length_eq]; exact hi) hi
        exact hlen _ _ (queryNew_ok w _ _ hq).1

theorem run_estimated (E : Nat) (history : List (List Conf)) : ∀ w : Wrapper,
    (∀ s c, w.getConn s = .new c → c.length ≤ E) → w.estimated = E → (w.run history).estimated = E := by
  induction history with
  | nil => intro w _ h; exact h
  | cons b history ih =>
    intro w hlen hE
    unfold Wrapper.run
    rw [List.foldl_cons]
    cases hf : w.findConn b with
    | error e => exact ih w hlen hE
    | ok r =>
      obtain ⟨w', rows⟩ := r
      have h1 := (findConn_fields w w' b rows hf).1
      exact ih w' (by rw [h1]; exact hlen) (findConn_estimated w w' b rows E hlen hE hf)

/-! ### C107 -/

/-- C107: on every `L1 × L2` lattice (periodic: at least three sites in both directions), whichever of
the two local states NetKet lists first, after any history of calls, a call with a non-empty batch of
spin configurations succeeds, and for every sample:
* the number of rows is the announced number, four per site and one more;
* the first row is the sample itself and is marked used, a row that is not marked used has element zero;
* for every wave function the sum over the rows is the J1-J2 Hamiltonian applied to the wave function,
  at the sample. -/
theorem C107_hamiltonian (first : ℤ) (hf : first = 1 ∨ first = -1) (L1 L2 : Nat) (h1 : 0 < L1) (h2 : 0 < L2) (j2 : ℂ)
    (pbc : Bool) (hL : pbc = true → 3 ≤ L1 ∧ 3 ≤ L2) (history : List (List Conf))
    (batch : List (Config (Fin L1 × Fin L2))) (hb : batch ≠ []) (hs : ∀ s ∈ batch, IsSpin s) :
    ∃ w' rows, ((j1j2Operator first L1 L2 j2 pbc).run history).findConn (batch.map flat) = .ok (w', rows) ∧
      rows.length = batch.length ∧
      ∀ i (hi : i < batch.length) (hi' : i < rows.length),
        rows[i].length = 4 * (L1 * L2) + 1 ∧
        (∃ r, rows[i][0]? = some r ∧ r.conn = flat batch[i] ∧ r.use = true) ∧
        (∀ r ∈ rows[i], r.use = false → r.mel = 0) ∧
        ∀ ψ : Wave (Fin L1 × Fin L2), (rows[i].map fun r => r.mel * ψ (grid L1 L2 r.conn)).sum =
          hamiltonian L1 L2 pbc j2 ψ batch[i] := by
  have hlen : ∀ s c, (j1j2Operator first L1 L2 j2 pbc).getConn s = .new c → c.length ≤ L1 * L2 * 2 * 2 + 1 := by
    intro s c h
    simp only [j1j2Operator, GetConn.new.injEq] at h
    rw [← h]
    exact graphConn_length first L1 L2 h2 j2 pbc s
  obtain ⟨w', rows, hfind, -, hl, hrows⟩ := C16_padding_neutral (j1j2Operator first L1 L2 j2 pbc) rfl history
    (batch.map flat) (by simpa using hb) (graphConn first (bondOperator j2) (edgeColors L1 L2 pbc))
    (fun s _ => ⟨rfl, rfl⟩)
  have hest : w'.estimated = L1 * L2 * 2 * 2 + 1 := by
    refine findConn_estimated _ w' _ rows _ ?_ (run_estimated _ history _ hlen rfl) hfind
    rw [(run_fields history _).1]
    exact hlen
  refine ⟨w', rows, hfind, by simpa using hl, ?_⟩
  intro i hi hi'
  obtain ⟨e1, e2, e3, e4, e5, e6⟩ := hrows i (by simpa using hi) hi'
  rw [List.getElem_map] at e2 e3 e4 e5
  have hpos : 0 < rows[i].length := by rw [e1, hest]; omega
  refine ⟨by rw [e1, hest]; ring, ⟨rows[i][0], by simp [hpos], ?_, ?_⟩, ?_, ?_⟩
  · have h := congrArg (fun l : List (Conf × ℂ) => l[0]?) e3
    simp only [graphConn, List.getElem?_map, List.getElem?_take, List.length_cons, Nat.zero_lt_succ, if_true,
      List.getElem?_cons_zero, List.getElem?_eq_getElem hpos, Option.map_some, Option.some.injEq, Prod.mk.injEq] at h
    exact h.1
  · exact (e6 rfl 0 hpos).mpr (.inl rfl)
  · intro r hr hu
    obtain ⟨k, hk, rfl⟩ := List.mem_iff_getElem.mp hr
    by_contra hm
    rw [(e6 rfl k hk).mpr (.inr hm)] at hu
    exact absurd hu (by decide)
  · intro ψ
    rw [e5 fun c => ψ (grid L1 L2 c), graphConn_sum first hf L1 L2 h1 h2 j2 pbc hL _ (hs _ (List.getElem_mem hi))]

/-- C107: in the answer to such a call, a used row is the sample itself or the sample with the opposite
spins of two neighbouring sites exchanged, so that the number of up spins is kept. -/
theorem C107_connections (first : ℤ) (hf : first = 1 ∨ first = -1) (L1 L2 : Nat) (h1 : 0 < L1) (h2 : 0 < L2) (j2 : ℂ)
    (pbc : Bool) (hL : pbc = true → 3 ≤ L1 ∧ 3 ≤ L2) (history : List (List Conf))
    (batch : List (Config (Fin L1 × Fin L2))) (hs : ∀ s ∈ batch, IsSpin s)
    (w' : Wrapper) (rows : List (List Netket.Row))
    (hfind : ((j1j2Operator first L1 L2 j2 pbc).run history).findConn (batch.map flat) = .ok (w', rows))
    (i : Nat) (hi : i < batch.length) (hi' : i < rows.length) (r : Netket.Row) (hr : r ∈ rows[i]) (hu : r.use = true) :
    grid L1 L2 r.conn = batch[i] ∨ ∃ p q : Fin L1 × Fin L2, batch[i] p ≠ batch[i] q ∧
      (nearest L1 L2 pbc (p.1.val, p.2.val) (q.1.val, q.2.val) ∧ r.mel = 2 ∨
        diagonal L1 L2 pbc (p.1.val, p.2.val) (q.1.val, q.2.val) ∧ r.mel = 2 * j2) ∧
      grid L1 L2 r.conn = exchange p q batch[i] := by
  have hb : batch ≠ [] := by
    rintro rfl
    exact absurd hi (Nat.not_lt_zero _)
  obtain ⟨w'', rows', hfind', -, hl, hrows⟩ := C16_padding_neutral (j1j2Operator first L1 L2 j2 pbc) rfl history
    (batch.map flat) (by simpa using hb) (graphConn first (bondOperator j2) (edgeColors L1 L2 pbc))
    (fun s _ => ⟨rfl, rfl⟩)
  rw [hfind', Except.ok.injEq, Prod.mk.injEq] at hfind
  obtain ⟨rfl, rfl⟩ := hfind
  obtain ⟨e1, e2, e3, e4, e5, e6⟩ := hrows i (by simpa using hi) hi'
  rw [List.getElem_map] at e2 e3 e4 e5
  set s := batch[i] with hsdef
  have hsp : IsSpin s := hs _ (List.getElem_mem hi)
  by_cases hmem : r ∈ rows'[i].take (graphConn first (bondOperator j2) (edgeColors L1 L2 pbc) (flat s)).length
  · have hc : (r.conn, r.mel) ∈ graphConn first (bondOperator j2) (edgeColors L1 L2 pbc) (flat s) := by
      rw [← e3]
      exact List.mem_map.mpr ⟨r, hmem, rfl⟩
    unfold graphConn at hc
    rw [List.mem_cons] at hc
    rcases hc with hc | hc
    · rw [Prod.mk.injEq] at hc
      exact .inl (by rw [hc.1, grid_flat])
    · rw [List.mem_flatMap] at hc
      obtain ⟨e, he, hc⟩ := hc
      obtain ⟨⟨p, q, hpq, hp, hq⟩, hcol⟩ := edges_in L1 L2 h1 h2 pbc hL e he
      have hp' : (flat s).getD e.1 0 = s p := by rw [hp]; exact congrFun (grid_flat s) p
      have hq' : (flat s).getD e.2.1 0 = s q := by rw [hq]; exact congrFun (grid_flat s) q
      unfold bondOperator at hc
      rw [bondConn_eq, hp', hq', value_digit first _ hf (hsp p), value_digit first _ hf (hsp q)] at hc
      by_cases hcond : (if e.2.2 = 1 then (1 : ℂ) else if e.2.2 = 2 then j2 else 0) ≠ 0 ∧
          digit first (s p) ≠ digit first (s q)
      · rw [if_pos hcond] at hc
        rw [List.mem_singleton, Prod.mk.injEq] at hc
        rw [ne_eq, ne_eq, digit_eq first _ _ hf (hsp p) (hsp q)] at hcond
        refine .inr ⟨p, q, hcond.2, ?_, ?_⟩
        · have hne : ((p.1.val, p.2.val) : Nat × Nat) ≠ (q.1.val, q.2.val) := by
            intro h
            rw [Prod.mk.injEq] at h
            exact hpq (Prod.ext (Fin.ext h.1) (Fin.ext h.2))
          obtain ⟨c1, c2, _⟩ := C15_edges L1 L2 pbc hL (p.1.val, p.2.val) (q.1.val, q.2.val) ⟨p.1.isLt, p.2.isLt⟩
            ⟨q.1.isLt, q.2.isLt⟩ hne
          have hcount : countBetween (edgeColors L1 L2 pbc) (site L2 (p.1.val, p.2.val)) (site L2 (q.1.val, q.2.val))
              e.2.2 ≠ 0 := by
            intro h0
            unfold countBetween at h0
            rw [List.length_eq_zero_iff, List.filter_eq_nil_iff] at h0
            exact h0 e he (by simp [site, hp, hq])
          rcases hcol with hcol | hcol
          · rw [hcol, c1] at hcount
            refine .inl ⟨by_contra fun h => hcount (if_neg h), ?_⟩
            rw [hc.2, hcol]
            simp
          · rw [hcol, c2] at hcount
            refine .inr ⟨by_contra fun h => hcount (if_neg h), ?_⟩
            rw [hc.2, hcol]
            simp [mul_comm]
        · rw [hc.1, hp, hq, grid_set _ (by simp [flat_length]), grid_set _ (by simp [flat_length]), grid_flat]
          rfl
      · rw [if_neg hcond] at hc
        exact absurd hc List.not_mem_nil
  · obtain ⟨k, hk, rfl⟩ := List.mem_iff_getElem.mp hr
    have hge : (graphConn first (bondOperator j2) (edgeColors L1 L2 pbc) (flat s)).length ≤ k := by
      by_contra hlt
      rw [not_le] at hlt
      exact hmem (List.mem_take_iff_getElem.mpr ⟨k, by omega, rfl⟩)
    have hz : rows'[i][k].mel = 0 :=
      e4 _ (List.mem_drop_iff_getElem.mpr 
        ⟨k - (graphConn first (bondOperator j2) (edgeColors L1 L2 pbc) (flat s)).length, by omega, by congr 1; omega⟩)
    have h0 : 0 < (graphConn first (bondOperator j2) (edgeColors L1 L2 pbc) (flat s)).length := by simp [graphConn]
    rcases (e6 rfl k hk).mp hu with h | h
    · omega
    · exact absurd hz h

/-- The hypotheses are met: a periodic lattice with three rows and four columns, and a batch with one
configuration. -/
example : (true = true → 3 ≤ 3 ∧ 3 ≤ 4) ∧ ([fun _ => 1] : List (Config (Fin 3 × Fin 4))) ≠ [] ∧
    ∀ s ∈ ([fun _ => 1] : List (Config (Fin 3 × Fin 4))), IsSpin s := by
  refine ⟨by omega, by simp, ?_⟩
  intro s h
  rw [List.mem_singleton] at h
  subst h
  exact fun _ => .inl rfl

/-! ### C108 -/

/-- C108: what the observable called total spin of the example answers, after any history of calls and
whatever the random state it probes NetKet with: a single row per sample, the sample itself with the
number of sites as element. -/
theorem C108_reported_partial (first : ℤ) (N : Nat) (probe : Conf) (history : List (List Conf)) (batch : List Conf)
    (hb : batch ≠ []) :
    ∃ w', ((totalSpinOperator first N probe).run history).findConn batch =
      .ok (w', batch.map fun s => [⟨s, N, true⟩]) := by
  have hconn : ∀ s, graphConn first (fun _ => interaction) (totalSpinEdges N) s = [(s, (N : ℂ))] := by
    intro s
    unfold graphConn totalSpinEdges
    have h1 : ∀ i, bondDiag first interaction i i s = 1 := by
      intro i
      unfold bondDiag
      rw [interaction_eq]
      simp
    have h2 : ∀ i, bondConn first interaction i i s = [] := by
      intro i
      have h := bondConn_eq first 1 i i s
      simp only [one_mul] at h
      rw [show (fun r k => interaction r k) = interaction from rfl] at h
      rw [h]
      simp
    rw [List.map_map, List.flatMap_map]
    simp [h1, h2, Function.comp_def]
  set w := (totalSpinOperator first N probe).run history with hw
  obtain ⟨f1, f2, f3, -⟩ := run_fields history (totalSpinOperator first N probe)
  have hest : w.estimated = 1 := by
    refine run_estimated 1 history _ ?_ ?_
    · intro s c h
      simp only [totalSpinOperator, GetConn.new.injEq, hconn] at h
      rw [← h]
      simp
    · simp [totalSpinOperator, hconn]
  have hq : ∀ s, queryNew w s = .ok [(s, (N : ℂ))] := by
    intro s
    unfold queryNew
    rw [f1]
    simp only [totalSpinOperator, hconn, if_true]
  have hm : batch.mapM (queryNew w) = .ok (batch.map fun s => [(s, (N : ℂ))]) := by
    apply mapM_of_ok
    rw [List.forall₂_map_right_iff, List.forall₂_same]
    exact fun s _ => hq s
  have hmax : ((batch.map fun s => [(s, (N : ℂ))]).map List.length).foldr max 0 ≤ 1 := by
    apply foldr_max_le
    intro x hx
    rw [List.map_map, List.mem_map] at hx
    obtain ⟨s, -, rfl⟩ := hx
    exact le_refl _
  have e1 : max (((batch.map fun s => [(s, (N : ℂ))]).map List.length).foldr max 0) w.estimated = 1 := by
    rw [hest]
    exact max_eq_right hmax
  have ho : w.oldNetket = false := f2
  refine ⟨{ w with estimated := 1 }, ?_⟩
  unfold Wrapper.findConn
  rw [if_neg (by rw [ho]; decide)]
  simp only [newFindConn, hm]
  rw [if_neg (by simpa using hb), e1, List.zipWith_map_right, List.zipWith_self]
  congr 2

/-- C108: in a basis state the expectation of the squared total spin is a quarter of the squared
magnetisation plus half the number of sites. -/
theorem C108_basis_state {ι : Type} [DecidableEq ι] [Fintype ι] (s : Config ι) (hs : IsSpin s) :
    totalSpin (fun t => if t = s then 1 else 0) s = ((magnetization s : ℂ) ^ 2 + 2 * (Fintype.card ι : ℂ)) / 4 := by
  have hsq : ∀ p, (s p : ℂ) * (s p : ℂ) = 1 := by
    intro p
    rcases hs p with h | h <;> rw [h] <;> norm_num
  have hff : ∀ p, Operators.flip p (Operators.flip p s) = s := by
    intro p
    unfold Operators.flip
    simp
  have hc : ∀ p q, coupling p q (fun t => if t = s then 1 else 0) s =
      (s p : ℂ) * (s q : ℂ) + if p = q then 2 else 0 := by
    intro p q
    by_cases hpq : p = q
    · subst hpq
      unfold coupling pauliX pauliY pauliZ
      have hfp : ((Operators.flip p s p : ℤ) : ℂ) = -(s p : ℂ) := by
        unfold Operators.flip
        simp
      rw [hff, hfp]
      simp only [if_true]
      linear_combination (-(s p : ℂ) * (s p : ℂ)) * Complex.I_mul_I + hsq p
    · rw [coupling_eq p q hpq, if_neg hpq, if_pos rfl, if_neg]
      · ring
      · intro h
        have h1 := congrFun h p
        unfold Operators.flip at h1
        rw [Function.update_of_ne hpq, Function.update_self] at h1
        rcases hs p with h2 | h2 <;> rw [h2] at h1 <;> omega
  unfold totalSpin
  congr 1
  simp only [hc, Finset.sum_add_distrib, Finset.sum_ite_eq, Finset.mem_univ, if_true, ← Finset.mul_sum, ← Finset.sum_mul]
  unfold magnetization
  push_cast
  simp
  ring

/-- C108 is violated for every number of sites from two on: there are basis states with different total
spins for which the observable reports the same value, so that the total spin cannot be recovered from
what is reported. -/
theorem C108_violated (first : ℤ) (N : Nat) (hN : 2 ≤ N) (probe : Conf) (history : List (List Conf)) :
    ∃ s t : Config (Fin N), IsSpin s ∧ IsSpin t ∧
      totalSpin (fun x => if x = s then 1 else 0) s ≠ totalSpin (fun x => if x = t then 1 else 0) t ∧
      ∃ w', ((totalSpinOperator first N probe).run history).findConn [List.ofFn s, List.ofFn t] =
        .ok (w', [[⟨List.ofFn s, N, true⟩], [⟨List.ofFn t, N, true⟩]]) := by
  have h0 : 0 < N := by omega
  refine ⟨fun _ => 1, Function.update (fun _ => 1) ⟨0, h0⟩ (-1), fun _ => .inl rfl, ?_, ?_, ?_⟩
  · intro i
    by_cases h : i = ⟨0, h0⟩
    · subst h
      rw [Function.update_self]
      exact .inr rfl
    · rw [Function.update_of_ne h]
      exact .inl rfl
  · rw [C108_basis_state _ fun _ => .inl rfl, C108_basis_state]
    · have m1 : magnetization (fun _ : Fin N => (1 : ℤ)) = N := by simp [magnetization]
      have m2 : magnetization (Function.update (fun _ : Fin N => (1 : ℤ)) ⟨0, h0⟩ (-1)) = N - 2 := by
        unfold magnetization
        rw [Finset.sum_update_of_mem (Finset.mem_univ _), Finset.sum_const, Finset.card_sdiff_of_subset (by simp)]
        simp only [Finset.card_univ, Fintype.card_fin, Finset.card_singleton, nsmul_eq_mul, mul_one]
        omega
      rw [m1, m2]
      intro h
      have h2 : ((N : ℤ) : ℂ) ^ 2 = ((N - 2 : ℤ) : ℂ) ^ 2 := by linear_combination 4 * h
      have h3 : (N : ℤ) ^ 2 = (N - 2 : ℤ) ^ 2 := by exact_mod_cast h2
      have : (N : ℤ) = 1 := by linarith
      omega
    · intro i
      by_cases h : i = ⟨0, h0⟩
      · subst h
        rw [Function.update_self]
        exact .inr rfl
      · rw [Function.update_of_ne h]
        exact .inl rfl
  · exact C108_reported_partial first N probe history _ (by simp)

end Verif.J1J2.Op
