import Verif.Symmetry.Commute
import Verif.Training.AnySampler
import Verif.Experiment.ScriptEvaluation

/-!
# C157: Monte Carlo training and evaluation with the J1-J2 operator

The J1-J2 operator (`src/flowket/operators/j1j2.py`) answers through the wrapper around NetKet (C16, C107), pads its answers
with rows of zeros and marks them unused. Here its answers go through the energy observable, the training targets and the
evaluation, as those of the other operators do in C18, C88, C89, C145, C154, C155 and C156.
-/
namespace Verif.J1J2.Op

open Verif.Operators Verif.Energy Verif.Netket

variable {L1 L2 B : Nat}

/-! ### Model -/

/-- The arrays that `find_conn` of the wrapper returns (netket_operator.py:56-66) for `B` samples, `R` rows each; connections are
reshaped to the lattice. -/
def netketAnswer (L1 L2 R B : Nat) (rows : List (List Netket.Row)) : Answer (Config (Fin L1 × Fin L2)) R B where
  conn r b := grid L1 L2 ((rows.getD b []).getD r ⟨[], 0, false⟩).conn
  mel r b := ((rows.getD b []).getD r ⟨[], 0, false⟩).mel
  use r b := ((rows.getD b []).getD r ⟨[], 0, false⟩).use

/-- `Observable(J1J2(...)).estimate` (observables/monte_carlo/observable.py:10-14, operator.py:44-54) after earlier calls
`history` of the operator; `none` is an exception of `find_conn`. -/
noncomputable def j1j2Estimate (first : ℤ) (L1 L2 : Nat) (j2 : ℝ) (pbc : Bool) (history : List (List Conf)) (B : Nat)
    (logψ : Config (Fin L1 × Fin L2) → ℂ) (sample : Fin B → Config (Fin L1 × Fin L2)) : Option (ℂ × ℝ × List ℂ) :=
  match ((j1j2Operator first L1 L2 j2 pbc).run history).findConn ((List.ofFn sample).map flat) with
  | .ok (w, rows) => estimate logψ (netketAnswer L1 L2 w.estimated B rows)
  | .error _ => none

/-- The training targets of `VariationalMonteCarlo.next_batch` (variational_monte_carlo.py:34-50) with this operator. -/
noncomputable def j1j2Targets (first : ℤ) (L1 L2 : Nat) (j2 : ℝ) (pbc : Bool) (history : List (List Conf)) (B : Nat)
    (logψ : Config (Fin L1 × Fin L2) → ℂ) (sample : Fin B → Config (Fin L1 × Fin L2)) : Option (List ℂ) :=
  match ((j1j2Operator first L1 L2 j2 pbc).run history).findConn ((List.ofFn sample).map flat) with
  | .ok (w, rows) => Exact.vmcCoefficients B logψ (netketAnswer L1 L2 w.estimated B rows)
  | .error _ => none

/-! ### The answer of the operator -/

theorem j1j2_answer (first : ℤ) (hf : first = 1 ∨ first = -1) (h1 : 0 < L1) (h2 : 0 < L2) (j2 : ℝ) (pbc : Bool)
    (hL : pbc = true → 3 ≤ L1 ∧ 3 ≤ L2) (history : List (List Conf)) (hB : 0 < B) (sample : Fin B → Config (Fin L1 × Fin L2))
    (hs : ∀ b, IsSpin (sample b)) :
    ∃ w rows, ((j1j2Operator first L1 L2 j2 pbc).run history).findConn ((List.ofFn sample).map flat) = .ok (w, rows) ∧
      ∀ logψ, localValues logψ (netketAnswer L1 L2 w.estimated B rows) =
        some (specLocal (hamiltonian L1 L2 pbc j2) (fun s => Complex.exp (logψ s)) sample) := by
  have hne : List.ofFn sample ≠ [] := by
    intro h
    have := congrArg List.length h
    simp at this
    omega
  obtain ⟨w, rows, hfind, hl, hrows⟩ := C107_hamiltonian first hf L1 L2 h1 h2 j2 pbc hL history (List.ofFn sample) hne (by
    intro s hs'
    obtain ⟨b, rfl⟩ := (List.mem_ofFn' _ _).1 hs'
    exact hs b)
  obtain ⟨w', rows', hfind', -, hl', hrows'⟩ := C16_padding_neutral (j1j2Operator first L1 L2 j2 pbc) rfl history
    ((List.ofFn sample).map flat) (by simpa using hne) (graphConn first (bondOperator j2) (edgeColors L1 L2 pbc))
    (fun s _ => ⟨rfl, rfl⟩)
  rw [hfind, Except.ok.injEq, Prod.mk.injEq] at hfind'
  obtain ⟨rfl, rfl⟩ := hfind'
  refine ⟨w, rows, hfind, fun logψ => ?_⟩
  rw [List.length_ofFn] at hl
  have hrow : ∀ b : Fin B, rows.getD b [] = rows[b.val]'(by rw [hl]; exact b.isLt) := fun b =>
    List.getD_eq_getElem _ _ (by rw [hl]; exact b.isLt)
  have hlen : ∀ b : Fin B, (rows.getD b []).length = w.estimated := fun b => by
    rw [hrow]
    exact (hrows' b (by simp) (by rw [hl]; exact b.isLt)).1
  have hspec : ∀ b : Fin B, (rows.getD b []).length = 4 * (L1 * L2) + 1 ∧
      (∃ r, (rows.getD b [])[0]? = some r ∧ r.conn = flat (sample b) ∧ r.use = true) ∧
      (∀ r ∈ rows.getD b [], r.use = false → r.mel = 0) ∧
      ∀ ψ : Wave (Fin L1 × Fin L2), ((rows.getD b []).map fun r => r.mel * ψ (grid L1 L2 r.conn)).sum =
        hamiltonian L1 L2 pbc j2 ψ (sample b) := by
    intro b
    have := hrows b (by simp) (by rw [hl]; exact b.isLt)
    rw [hrow]
    simpa using this
  have hget : ∀ (b : Fin B) (r : Fin w.estimated), (rows.getD b []).getD r ⟨[], 0, false⟩ =
      (rows.getD b [])[r.val]'(by rw [hlen]; exact r.isLt) := fun b r =>
    List.getD_eq_getElem _ _ (by rw [hlen]; exact r.isLt)
  have hpos : 0 < w.estimated := by
    rw [← hlen ⟨0, hB⟩, (hspec ⟨0, hB⟩).1]
    omega
  have hcon : Contracted (netketAnswer L1 L2 w.estimated B rows) sample := by
    refine ⟨hpos, fun b => ?_, fun r b hu => ?_⟩
    · obtain ⟨r, hr, hc, hu⟩ := (hspec b).2.1
      have h0 : (rows.getD b []).getD (0 : Nat) ⟨[], 0, false⟩ = r := by
        rw [List.getD_eq_getElem?_getD, hr]
        rfl
      unfold netketAnswer
      dsimp only
      rw [h0, hc, grid_flat]
      exact ⟨rfl, hu⟩
    · unfold netketAnswer at hu ⊢
      dsimp only at hu ⊢
      rw [hget] at hu ⊢
      exact (hspec b).2.2.1 _ (List.getElem_mem _) hu
  rw [(C17_strategies_agree logψ _ sample hcon).2.1, balanced_eq logψ _ sample hcon]
  congr 1
  refine List.map_congr_left fun b _ => ?_
  unfold ratio
  congr 1
  rw [← (hspec b).2.2.2]
  unfold netketAnswer
  simp only [hget]
  exact sum_getElem (rows.getD b []) (fun r => r.mel * Complex.exp (logψ (grid L1 L2 r.conn))) (hlen b)

theorem j1j2_local (first : ℤ) (hf : first = 1 ∨ first = -1) (h1 : 0 < L1) (h2 : 0 < L2) (j2 : ℝ) (pbc : Bool)
    (hL : pbc = true → 3 ≤ L1 ∧ 3 ≤ L2) (history : List (List Conf)) (hB : 0 < B) (sample : Fin B → Config (Fin L1 × Fin L2))
    (hs : ∀ b, IsSpin (sample b)) (logψ : Config (Fin L1 × Fin L2) → ℂ) :
    LocalEnergies (hamiltonian L1 L2 pbc j2) sample logψ (j1j2Estimate first L1 L2 j2 pbc history B logψ sample) := by
  obtain ⟨w, rows, hfind, hval⟩ := j1j2_answer first hf h1 h2 j2 pbc hL history hB sample hs
  unfold j1j2Estimate
  rw [hfind]
  exact localEnergies_of _ sample hs logψ _ (hval logψ)


/-! ### Cleaned rows: what the answer amounts to -/

theorem bondOperator_real (j2 : ℝ) (c : Nat) (r k : Fin 2 × Fin 2) : (bondOperator (j2 : ℂ) c r k).im = 0 := by
  unfold bondOperator
  rw [interaction_eq]
  split_ifs <;> simp

theorem graphConn_real (first : ℤ) (j2 : ℝ) (edges : List Edge) (s : Conf) (c : Conf × ℂ)
    (hc : c ∈ graphConn first (bondOperator j2) edges s) : ((c.2.re : ℝ) : ℂ) = c.2 := by
  apply Complex.ext (by simp)
  rw [Complex.ofReal_im]
  unfold graphConn at hc
  rw [List.mem_cons] at hc
  rcases hc with rfl | hc
  · dsimp only
    induction edges with
    | nil => simp
    | cons e es ih =>
      rw [List.map_cons, List.sum_cons, Complex.add_im, ← ih]
      unfold bondDiag
      simp only [bondOperator_real, add_zero]
  · rw [List.mem_flatMap] at hc
    obtain ⟨e, -, hc⟩ := hc
    unfold bondConn at hc
    simp only [List.mem_filterMap] at hc
    obtain ⟨k, -, hk⟩ := hc
    split at hk
    · rw [← Option.some.inj hk]
      exact (bondOperator_real j2 _ _ _).symm
    · cases hk

theorem graphConn_spin (first : ℤ) (hf : first = 1 ∨ first = -1) (h1 : 0 < L1) (h2 : 0 < L2) (j2 : ℂ)
    (pbc : Bool) (hL : pbc = true → 3 ≤ L1 ∧ 3 ≤ L2) (s : Config (Fin L1 × Fin L2)) (hs : IsSpin s) (c : Conf × ℂ)
    (hc : c ∈ graphConn first (bondOperator j2) (edgeColors L1 L2 pbc) (flat s)) : IsSpin (grid L1 L2 c.1) := by
  unfold graphConn at hc
  rw [List.mem_cons] at hc
  rcases hc with rfl | hc
  · rw [grid_flat]; exact hs
  · rw [List.mem_flatMap] at hc
    obtain ⟨e, he, hc⟩ := hc
    obtain ⟨⟨p, q, hpq, hp, hq⟩, -⟩ := edges_in L1 L2 h1 h2 pbc hL e he
    unfold bondConn at hc
    simp only [List.mem_filterMap] at hc
    obtain ⟨k, -, hk⟩ := hc
    split at hk
    · rw [← Option.some.inj hk, hp, hq]
      dsimp only
      rw [grid_set _ (by simp [flat_length]), grid_set _ (by simp [flat_length]), grid_flat]
      have hv : ∀ d, value first d = 1 ∨ value first d = -1 := by
        intro d
        unfold value
        rcases hf with rfl | rfl <;> split <;> simp
      intro i
      by_cases hi : i = q
      · rw [hi, Function.update_self]; exact hv _
      · rw [Function.update_of_ne hi]
        by_cases hi' : i = p
        · rw [hi', Function.update_self]; exact hv _
        · rw [Function.update_of_ne hi']; exact hs i
    · cases hk

/-- The answer for one configuration with the padding replaced by the configuration itself (only for proofs). -/
noncomputable def cleanRows (first : ℤ) (L1 L2 : Nat) (j2 : ℝ) (pbc : Bool) (s : Config (Fin L1 × Fin L2)) :
    List (Operators.Row (Fin L1 × Fin L2) ℝ) :=
  open Classical in if IsSpin s then
    ((graphConn first (bondOperator j2) (edgeColors L1 L2 pbc) (flat s)).map fun c => ⟨grid L1 L2 c.1, c.2.re, true⟩) ++
      List.replicate (L1 * L2 * 2 * 2 + 1 - (graphConn first (bondOperator j2) (edgeColors L1 L2 pbc) (flat s)).length) ⟨s, 0, false⟩
  else ⟨s, 0, true⟩ :: List.replicate (L1 * L2 * 2 * 2) ⟨s, 0, false⟩

theorem cleanRows_length (first : ℤ) (h2 : 0 < L2) (j2 : ℝ) (pbc : Bool) (s : Config (Fin L1 × Fin L2)) :
    (cleanRows first L1 L2 j2 pbc s).length = L1 * L2 * 2 * 2 + 1 := by
  classical
  unfold cleanRows
  have := graphConn_length first L1 L2 h2 j2 pbc (flat s)
  split
  · rw [List.length_append, List.length_map, List.length_replicate]
    omega
  · simp

theorem cleanRows_contract (first : ℤ) (hf : first = 1 ∨ first = -1) (h1 : 0 < L1) (h2 : 0 < L2) (j2 : ℝ) (pbc : Bool)
    (hL : pbc = true → 3 ≤ L1 ∧ 3 ≤ L2) (s : Config (Fin L1 × Fin L2)) (hs : IsSpin s) :
    Contract s (L1 * L2 * 2 * 2 + 1) (cleanRows first L1 L2 j2 pbc s) := by
  classical
  refine ⟨cleanRows_length first h2 j2 pbc s, ?_, ?_, ?_⟩
  · unfold cleanRows
    rw [if_pos hs]
    unfold graphConn
    simp only [List.map_cons, List.cons_append, List.head?_cons, grid_flat]
    exact ⟨_, rfl⟩
  · intro r hr
    unfold cleanRows at hr
    rw [if_pos hs, List.mem_append, List.mem_map] at hr
    rcases hr with ⟨c, hc, rfl⟩ | hr
    · exact graphConn_spin first hf h1 h2 j2 pbc hL s hs c hc
    · rw [List.eq_of_mem_replicate hr]; exact hs
  · intro r hr hu
    unfold cleanRows at hr
    rw [if_pos hs, List.mem_append, List.mem_map] at hr
    rcases hr with ⟨c, hc, rfl⟩ | hr
    · cases hu
    · rw [List.eq_of_mem_replicate hr]

theorem cleanRows_apply (first : ℤ) (hf : first = 1 ∨ first = -1) (h1 : 0 < L1) (h2 : 0 < L2) (j2 : ℝ) (pbc : Bool)
    (hL : pbc = true → 3 ≤ L1 ∧ 3 ≤ L2) (s : Config (Fin L1 × Fin L2)) (hs : IsSpin s) (ψ : Wave (Fin L1 × Fin L2)) :
    applyRows (cleanRows first L1 L2 j2 pbc s) ψ = hamiltonian L1 L2 pbc j2 ψ s := by
  classical
  rw [← graphConn_sum first hf L1 L2 h1 h2 j2 pbc hL s hs ψ]
  unfold applyRows cleanRows
  rw [if_pos hs, List.map_append, List.sum_append, List.map_replicate, List.map_map]
  simp only [Complex.ofReal_zero, zero_mul, List.sum_replicate, smul_zero, add_zero]
  refine congrArg List.sum (List.map_congr_left fun c hc => ?_)
  simp only [Function.comp_apply, graphConn_real first j2 _ _ c hc]

theorem flip_flip_flip {ι : Type} [DecidableEq ι] (p q : ι) (hpq : p ≠ q) (s : Config ι) :
    Operators.flip q (Operators.flip p (Operators.flip q (Operators.flip p s))) = s := by
  funext i
  unfold Operators.flip
  by_cases hi : i = q
  · subst hi; simp [Function.update_of_ne hpq, Function.update_of_ne (Ne.symm hpq)]
  · by_cases hi' : i = p
    · subst hi'; simp [Function.update_of_ne hpq, Function.update_of_ne (Ne.symm hpq)]
    · simp [Function.update_of_ne hi, Function.update_of_ne hi']

/-- The Hamiltonian is symmetric. -/
theorem hamiltonian_symm [DecidableEq (Config (Fin L1 × Fin L2))] (pbc : Bool) (j2 : ℂ) (s t : Config (Fin L1 × Fin L2)) :
    hamiltonian L1 L2 pbc j2 (fun u => if u = t then 1 else 0) s = hamiltonian L1 L2 pbc j2 (fun u => if u = s then 1 else 0) t := by
  have hc : ∀ p q : Fin L1 × Fin L2, p ≠ q → coupling p q (fun u => if u = t then (1 : ℂ) else 0) s =
      coupling p q (fun u => if u = s then (1 : ℂ) else 0) t := by
    intro p q hpq
    rw [coupling_eq p q hpq, coupling_eq p q hpq]
    by_cases hst : s = t
    · subst hst; rfl
    · rw [if_neg hst, if_neg (Ne.symm hst), mul_zero, mul_zero, add_zero, add_zero]
      by_cases h : Operators.flip q (Operators.flip p s) = t
      · have h' : Operators.flip q (Operators.flip p t) = s := by rw [← h, flip_flip_flip p q hpq]
        rw [if_pos h, if_pos h', ← h]
        have e1 : Operators.flip q (Operators.flip p s) p = -s p := by
          unfold Operators.flip
          simp [Function.update_of_ne hpq]
        have e2 : Operators.flip q (Operators.flip p s) q = -s q := by
          unfold Operators.flip
          simp [Function.update_of_ne (Ne.symm hpq)]
        rw [e1, e2]
        push_cast
        ring
      · have h' : Operators.flip q (Operators.flip p t) ≠ s := by
          intro h'
          exact h (by rw [← h', flip_flip_flip p q hpq])
        rw [if_neg h, if_neg h', mul_zero, mul_zero]
  unfold hamiltonian
  refine Finset.sum_congr rfl fun p _ => Finset.sum_congr rfl fun q _ => ?_
  by_cases h : p.1 < q.1 ∨ p.1 = q.1 ∧ p.2 < q.2
  · have hpq : p ≠ q := by rintro rfl; simp at h
    rw [if_pos h, if_pos h, hc p q hpq]
  · rw [if_neg h, if_neg h]

theorem matrixElement_apply {ι : Type} [DecidableEq (Config ι)] (rows : List (Operators.Row ι ℝ)) (t : Config ι) :
    ((matrixElement rows t : ℝ) : ℂ) = applyRows rows (fun u => if u = t then 1 else 0) := by
  unfold matrixElement applyRows
  induction rows with
  | nil => simp
  | cons r rs ih =>
    simp only [List.map_cons, List.sum_cons, Complex.ofReal_add, ih]
    congr 1
    by_cases h : r.conn = t <;> simp [h]

theorem matrixElement_zero {ι : Type} (rows : List (Operators.Row ι ℝ)) (t : Config ι)
    (h : ∀ r ∈ rows, r.conn = t → r.mel = 0) : matrixElement rows t = 0 := by
  classical
  unfold matrixElement
  refine List.sum_eq_zero fun x hx => ?_
  obtain ⟨r, hr, rfl⟩ := List.mem_map.1 hx
  split
  · exact h r hr ‹_›
  · rfl

theorem rowsOf_clean (first : ℤ) (hf : first = 1 ∨ first = -1) (h1 : 0 < L1) (h2 : 0 < L2) (j2 : ℝ) (pbc : Bool)
    (hL : pbc = true → 3 ≤ L1 ∧ 3 ≤ L2) :
    Exact.RowsOf (fun _ sample x => cleanRows first L1 L2 j2 pbc (sample x)) (L1 * L2 * 2 * 2 + 1) (cleanRows first L1 L2 j2 pbc) := by
  classical
  have hc := fun s hs => cleanRows_contract first hf h1 h2 j2 pbc hL s hs
  refine ⟨fun _ _ _ => rfl, cleanRows_length first h2 j2 pbc, fun s hs => (hc s hs).first, fun s hs => (hc s hs).spins, ?_⟩
  have hno : ∀ s t : Config (Fin L1 × Fin L2), ¬ IsSpin s → matrixElement (cleanRows first L1 L2 j2 pbc s) t = 0 := by
    intro s t hs
    refine matrixElement_zero _ _ fun r hr _ => ?_
    unfold cleanRows at hr
    rw [if_neg hs, List.mem_cons] at hr
    rcases hr with rfl | hr
    · rfl
    · rw [List.eq_of_mem_replicate hr]
  have hno' : ∀ s t : Config (Fin L1 × Fin L2), IsSpin s → ¬ IsSpin t → matrixElement (cleanRows first L1 L2 j2 pbc s) t = 0 := by
    intro s t hs ht
    refine matrixElement_zero _ _ fun r hr h => ?_
    exact absurd (h ▸ (hc s hs).spins r hr) ht
  intro s t
  by_cases hs : IsSpin s
  · by_cases ht : IsSpin t
    · apply Complex.ofReal_injective
      rw [matrixElement_apply, matrixElement_apply, cleanRows_apply first hf h1 h2 j2 pbc hL s hs,
        cleanRows_apply first hf h1 h2 j2 pbc hL t ht]
      exact hamiltonian_symm pbc j2 s t
    · rw [hno' s t hs ht, hno t s ht]
  · rw [hno s t hs]
    by_cases ht : IsSpin t
    · rw [hno' t s ht hs]
    · rw [hno t s ht]

theorem clean_values (first : ℤ) (hf : first = 1 ∨ first = -1) (h1 : 0 < L1) (h2 : 0 < L2) (j2 : ℝ) (pbc : Bool)
    (hL : pbc = true → 3 ≤ L1 ∧ 3 ≤ L2) (sample : Fin B → Config (Fin L1 × Fin L2)) (hs : ∀ b, IsSpin (sample b))
    (logψ : Config (Fin L1 × Fin L2) → ℂ) :
    localValues logψ (Answer.ofRows (L1 * L2 * 2 * 2 + 1) (fun x => cleanRows first L1 L2 j2 pbc (sample x))
      fun b => cleanRows_length first h2 j2 pbc (sample b)) =
        some (specLocal (hamiltonian L1 L2 pbc j2) (fun s => Complex.exp (logψ s)) sample) :=
  localValues_ofRows _ sample (fun b => cleanRows_contract first hf h1 h2 j2 pbc hL (sample b) (hs b)) (by omega) _ logψ
    fun b => cleanRows_apply first hf h1 h2 j2 pbc hL (sample b) (hs b) _

theorem estimate_clean (first : ℤ) (hf : first = 1 ∨ first = -1) (h1 : 0 < L1) (h2 : 0 < L2) (j2 : ℝ) (pbc : Bool)
    (hL : pbc = true → 3 ≤ L1 ∧ 3 ≤ L2) (history : List (List Conf)) (hB : 0 < B) (sample : Fin B → Config (Fin L1 × Fin L2))
    (hs : ∀ b, IsSpin (sample b)) (logψ : Config (Fin L1 × Fin L2) → ℂ) :
    j1j2Estimate first L1 L2 j2 pbc history B logψ sample =
      estimate logψ (Answer.ofRows (L1 * L2 * 2 * 2 + 1) (fun x => cleanRows first L1 L2 j2 pbc (sample x))
        fun b => cleanRows_length first h2 j2 pbc (sample b)) := by
  obtain ⟨w, rows, hfind, hval⟩ := j1j2_answer first hf h1 h2 j2 pbc hL history hB sample hs
  unfold j1j2Estimate
  rw [hfind]
  dsimp only
  unfold estimate
  rw [hval, clean_values first hf h1 h2 j2 pbc hL sample hs]

theorem targets_clean (first : ℤ) (hf : first = 1 ∨ first = -1) (h1 : 0 < L1) (h2 : 0 < L2) (j2 : ℝ) (pbc : Bool)
    (hL : pbc = true → 3 ≤ L1 ∧ 3 ≤ L2) (history : List (List Conf)) (hB : 0 < B) (sample : Fin B → Config (Fin L1 × Fin L2))
    (hs : ∀ b, IsSpin (sample b)) (logψ : Config (Fin L1 × Fin L2) → ℂ) :
    j1j2Targets first L1 L2 j2 pbc history B logψ sample =
      Exact.vmcCoefficients B logψ (Answer.ofRows (L1 * L2 * 2 * 2 + 1) (fun x => cleanRows first L1 L2 j2 pbc (sample x))
        fun b => cleanRows_length first h2 j2 pbc (sample b)) := by
  have h := estimate_clean first hf h1 h2 j2 pbc hL history hB sample hs logψ
  unfold j1j2Targets
  unfold j1j2Estimate at h
  split <;> rename_i heq
  · rw [heq] at h
    dsimp only at h
    unfold Exact.vmcCoefficients
    rw [h]
  · rw [heq] at h
    unfold Exact.vmcCoefficients
    rw [← h]
    rfl

/-! ### Transfer -/

section Transfer

variable {ι : Type} [DecidableEq ι] [Fintype ι] {H : Wave ι → Wave ι}

theorem meanGradient_congr {t t' : (B : Nat) → (Config ι → ℂ) → (Fin B → Config ι) → Option (List ℂ)}
    (h : ∀ B, 0 < B → ∀ logψ sample, (∀ b, IsSpin (sample b)) → t' B logψ sample = t B logψ sample) (hM : MeanGradient H t) :
    MeanGradient H t' := by
  intro B hB logψ D θ hD
  obtain ⟨E', g, e1, e2, e3⟩ := hM B hB logψ D θ hD
  exact ⟨E', g, e1, fun sample hs => by rw [h B hB _ sample hs]; exact e2 sample hs, e3⟩

theorem meanEstimate_congr {e e' : (B : Nat) → (Config ι → ℂ) → (Fin B → Config ι) → Option (ℂ × ℝ × List ℂ)}
    (h : ∀ B, 0 < B → ∀ logψ sample, (∀ b, IsSpin (sample b)) → e' B logψ sample = e B logψ sample) (hM : MeanEstimate H e) :
    MeanEstimate H e' := by
  intro B hB logψ
  obtain ⟨en, v, e1, e2⟩ := hM B hB logψ
  exact ⟨en, v, fun sample hs => by rw [h B hB _ sample hs]; exact e1 sample hs, e2⟩

theorem rarelyFar_congr {e e' : (B : Nat) → (Config ι → ℂ) → (Fin B → Config ι) → Option (ℂ × ℝ × List ℂ)}
    (h : ∀ B, 0 < B → ∀ logψ sample, (∀ b, IsSpin (sample b)) → e' B logψ sample = e B logψ sample) (hM : RarelyFar H e) :
    RarelyFar H e' := by
  intro B hB logψ
  obtain ⟨en, e1, e2⟩ := hM B hB logψ
  exact ⟨en, fun sample hs => by rw [h B hB _ sample hs]; exact e1 sample hs, e2⟩

theorem sgdLearnsAny_congr {t t' : (B : Nat) → (Config ι → ℂ) → (Fin B → Config ι) → Option (List ℂ)}
    (h : ∀ B, 0 < B → ∀ logψ sample, (∀ b, IsSpin (sample b)) → t' B logψ sample = t B logψ sample)
    (hM : Training.SgdLearnsAny H t) : Training.SgdLearnsAny H t' := by
  intro Ω _ _ P _ B hB1 mini hdvd n cfg net g D S hS hd hD hg C W K lr hlr hC hW hK gen hgen θ0
  have hdraw : ∀ us, Training.drawFrom t' net S us = Training.drawFrom t net S us := by
    intro us
    funext θ _ k
    unfold Training.drawFrom
    rw [h B (by omega) _ _ ((hS θ).spins _)]
  have := hM Ω P B hB1 mini hdvd n cfg net g D S hS hd hD hg C W K lr hlr hC hW hK gen hgen θ0
  simp only [hdraw]
  exact this

end Transfer

/-! ### C157 -/

/-- **C157, local energies**: the energy observable with the J1-J2 operator on a lattice of any size (periodic lattices from
three by three), for any coupling `j2`, any earlier calls of the operator and any nonempty batch of spin configurations,
gives the local energies of the J1-J2 Hamiltonian and their average, as C18 says of the other operators; there is no
exception. -/
theorem C157_local_energies (first : ℤ) (hf : first = 1 ∨ first = -1) (h1 : 0 < L1) (h2 : 0 < L2) (j2 : ℝ) (pbc : Bool)
    (hL : pbc = true → 3 ≤ L1 ∧ 3 ≤ L2) (history : List (List Conf)) (hB : 0 < B) (sample : Fin B → Config (Fin L1 × Fin L2))
    (hs : ∀ b, IsSpin (sample b)) (logψ : Config (Fin L1 × Fin L2) → ℂ) :
    LocalEnergies (hamiltonian L1 L2 pbc j2) sample logψ (j1j2Estimate first L1 L2 j2 pbc history B logψ sample) :=
  j1j2_local first hf h1 h2 j2 pbc hL history hB sample hs logψ

/-- **C157, energies on average**: as C89. -/
theorem C157_unbiased_energy (first : ℤ) (hf : first = 1 ∨ first = -1) (h1 : 0 < L1) (h2 : 0 < L2) (j2 : ℝ) (pbc : Bool)
    (hL : pbc = true → 3 ≤ L1 ∧ 3 ≤ L2) (history : List (List Conf)) :
    MeanEstimate (hamiltonian L1 L2 pbc j2) (j1j2Estimate first L1 L2 j2 pbc history) :=
  meanEstimate_congr (fun _ hB logψ sample hs => estimate_clean first hf h1 h2 j2 pbc hL history hB sample hs logψ)
    (meanEstimate_of (fun _ sample => Answer.ofRows (L1 * L2 * 2 * 2 + 1) (fun x => cleanRows first L1 L2 j2 pbc (sample x))
      fun b => cleanRows_length first h2 j2 pbc (sample b)) fun _ sample hs logψ =>
        localEnergies_of _ sample hs logψ _ (clean_values first hf h1 h2 j2 pbc hL sample hs logψ))

/-- **C157, rare errors**: as C153. -/
theorem C157_rarely_far (first : ℤ) (hf : first = 1 ∨ first = -1) (h1 : 0 < L1) (h2 : 0 < L2) (j2 : ℝ) (pbc : Bool)
    (hL : pbc = true → 3 ≤ L1 ∧ 3 ≤ L2) (history : List (List Conf)) :
    RarelyFar (hamiltonian L1 L2 pbc j2) (j1j2Estimate first L1 L2 j2 pbc history) :=
  rarelyFar_congr (fun _ hB logψ sample hs => estimate_clean first hf h1 h2 j2 pbc hL history hB sample hs logψ)
    (rarelyFar_of (fun _ sample => Answer.ofRows (L1 * L2 * 2 * 2 + 1) (fun x => cleanRows first L1 L2 j2 pbc (sample x))
      fun b => cleanRows_length first h2 j2 pbc (sample b)) fun _ sample hs logψ =>
        localEnergies_of _ sample hs logψ _ (clean_values first hf h1 h2 j2 pbc hL sample hs logψ))

/-- **C157, every sampler of independent samples**: as C154. -/
theorem C157_any_sampler {Ω : Type} [MeasurableSpace Ω] (P : MeasureTheory.Measure Ω) [MeasureTheory.IsProbabilityMeasure P]
    (ψ : Config (Fin L1 × Fin L2) → ℂ) (S : Ω → Fin B → Config (Fin L1 × Fin L2)) (hS : Independent P ψ S) (hB : 0 < B)
    (first : ℤ) (hf : first = 1 ∨ first = -1) (h1 : 0 < L1) (h2 : 0 < L2) (j2 : ℝ) (pbc : Bool)
    (hL : pbc = true → 3 ≤ L1 ∧ 3 ≤ L2) (history : List (List Conf)) :
    ∃ (energy : Ω → ℂ) (var : Ω → ℝ),
      (∀ u, ∃ lv, j1j2Estimate first L1 L2 j2 pbc history B ψ (S u) = some (energy u, var u, lv)) ∧
      EstimatesEnergy P B (hamiltonian L1 L2 pbc j2) ψ energy var :=
  hS.estimatesEnergy hB (C157_unbiased_energy first hf h1 h2 j2 pbc hL history) (C157_rarely_far first hf h1 h2 j2 pbc hL history)

/-- **C157, gradients on average**: as C88 (with `C88_any_sampler` for every sampler of independent samples). -/
theorem C157_unbiased_gradient (first : ℤ) (hf : first = 1 ∨ first = -1) (h1 : 0 < L1) (h2 : 0 < L2) (j2 : ℝ) (pbc : Bool)
    (hL : pbc = true → 3 ≤ L1 ∧ 3 ≤ L2) (history : List (List Conf)) :
    MeanGradient (hamiltonian L1 L2 pbc j2) (j1j2Targets first L1 L2 j2 pbc history) :=
  meanGradient_congr (fun _ hB logψ sample hs => targets_clean first hf h1 h2 j2 pbc hL history hB sample hs logψ)
    (meanGradient_of (rowsOf_clean first hf h1 h2 j2 pbc hL) _ (cleanRows_apply first hf h1 h2 j2 pbc hL)
      (fun _ sample b => cleanRows_length first h2 j2 pbc (sample b)) fun _ sample hs logψ =>
        localEnergies_of _ sample hs logψ _ (clean_values first hf h1 h2 j2 pbc hL sample hs logψ))

/-- **C157, stochastic gradient descent**: as C145. -/
theorem C157_sgd_learns (first : ℤ) (hf : first = 1 ∨ first = -1) (h1 : 0 < L1) (h2 : 0 < L2) (j2 : ℝ) (pbc : Bool)
    (hL : pbc = true → 3 ≤ L1 ∧ 3 ≤ L2) (history : List (List Conf)) :
    Training.SgdLearnsAny (hamiltonian L1 L2 pbc j2) (j1j2Targets first L1 L2 j2 pbc history) :=
  sgdLearnsAny_congr (fun _ hB logψ sample hs => targets_clean first hf h1 h2 j2 pbc hL history hB sample hs logψ)
    (Training.sgdLearnsAny_of (rowsOf_clean first hf h1 h2 j2 pbc hL) _ (cleanRows_apply first hf h1 h2 j2 pbc hL)
      (fun _ sample b => cleanRows_length first h2 j2 pbc (sample b)) fun _ sample hs logψ =>
        localEnergies_of _ sample hs logψ _ (clean_values first hf h1 h2 j2 pbc hL sample hs logψ))

/-- **C157, evaluation**: as C155; `history k` are the calls of the operator before batch number `k`. -/
theorem C157_evaluation (first : ℤ) (hf : first = 1 ∨ first = -1) (h1 : 0 < L1) (h2 : 0 < L2) (j2 : ℝ) (pbc : Bool)
    (hL : pbc = true → 3 ≤ L1 ∧ 3 ≤ L2) (history : Nat → List (List Conf)) :
    Callbacks.EvaluationRight (hamiltonian L1 L2 pbc j2) fun k => j1j2Estimate first L1 L2 j2 pbc (history k) := by
  intro Ω _ P _ B T hB hT ψ S hS Smp size st w s mini h0 hsize hwhole draw hdraw drawVal clock truth inBatch
  exact Callbacks.evaluation_core hS hB hT (fun _ => rfl)
    (fun k x hx => j1j2_local first hf h1 h2 j2 pbc hL (history k) hB x hx ψ) size st w s mini h0
    (fun m hm => by rw [hsize]; exact hwhole m hm) draw hdraw drawVal clock truth inBatch none (Or.inl rfl)

/-! ### Exact evaluation -/

/-- `find_conn` of the operator as `ExactObservable._build_local_connections` uses it (exact_variational.py:56-63), after earlier
calls `history`; an exception is an answer without rows here (there is none, see `C157_exact_tables`). -/
noncomputable def j1j2Find (first : ℤ) (L1 L2 : Nat) (j2 : ℝ) (pbc : Bool) (history : List (List Conf)) (B : Nat)
    (batch : Nat → Config (Fin L1 × Fin L2)) : Exact.Found (Config (Fin L1 × Fin L2)) :=
  match ((j1j2Operator first L1 L2 j2 pbc).run history).findConn ((List.ofFn fun b : Fin B => batch b).map flat) with
  | .ok (w, rows) => ⟨w.estimated, fun j b => grid L1 L2 ((rows.getD b []).getD j ⟨[], 0, false⟩).conn,
      fun j b => ((rows.getD b []).getD j ⟨[], 0, false⟩).mel⟩
  | .error _ => ⟨0, fun _ _ _ => 0, fun _ _ => 0⟩

/-- `ExactVariational` (exact_variational.py:98-122) with the operator `J1J2(shape, j2, pbc)`, which announces
`prod(shape) * 2 * 2 + 1` rows (j1j2.py:59). -/
noncomputable def j1j2Setup (first : ℤ) (L1 L2 : Nat) (j2 : ℝ) (pbc : Bool) (history : List (List Conf)) :
    Exact.Setup (Config (Fin L1 × Fin L2)) :=
  ⟨2 ^ (L1 * L2), Exact.spinState finProdFinEquiv, Exact.spinCode finProdFinEquiv, j1j2Find first L1 L2 j2 pbc history,
    some (L1 * L2 * 2 * 2 + 1)⟩

/-- The nonzero elements of the answer. -/
noncomputable def j1j2Rows (first : ℤ) (L1 L2 : Nat) (j2 : ℝ) (pbc : Bool) (s : Config (Fin L1 × Fin L2)) :
    List (Config (Fin L1 × Fin L2) × ℂ) :=
  (graphConn first (bondOperator j2) (edgeColors L1 L2 pbc) (flat s)).map fun c => (grid L1 L2 c.1, c.2)

theorem j1j2Find_eq (first : ℤ) (h2 : 0 < L2) (j2 : ℝ) (pbc : Bool) (history : List (List Conf)) (hB : 0 < B)
    (batch : Nat → Config (Fin L1 × Fin L2)) :
    (j1j2Find first L1 L2 j2 pbc history B batch).count = L1 * L2 * 2 * 2 + 1 ∧
    ∀ b < B, (∀ j (hj : j < (j1j2Rows first L1 L2 j2 pbc (batch b)).length),
        (j1j2Find first L1 L2 j2 pbc history B batch).conn j b = (j1j2Rows first L1 L2 j2 pbc (batch b))[j].1 ∧
        (j1j2Find first L1 L2 j2 pbc history B batch).mel j b = (j1j2Rows first L1 L2 j2 pbc (batch b))[j].2) ∧
      ∀ j, (j1j2Rows first L1 L2 j2 pbc (batch b)).length ≤ j → (j1j2Find first L1 L2 j2 pbc history B batch).mel j b = 0 := by
  have hlen : ∀ s c, (j1j2Operator first L1 L2 j2 pbc).getConn s = .new c → c.length ≤ L1 * L2 * 2 * 2 + 1 := by
    intro s c h
    simp only [j1j2Operator, GetConn.new.injEq] at h
    rw [← h]
    exact graphConn_length first L1 L2 h2 j2 pbc s
  have hne : (List.ofFn fun b : Fin B => batch b).map flat ≠ [] := by
    intro h
    have := congrArg List.length h
    simp at this
    omega
  obtain ⟨w, rows, hfind, -, hl, hrows⟩ := C16_padding_neutral (j1j2Operator first L1 L2 j2 pbc) rfl history
    ((List.ofFn fun b : Fin B => batch b).map flat) hne (graphConn first (bondOperator j2) (edgeColors L1 L2 pbc))
    (fun s _ => ⟨rfl, rfl⟩)
  have hest : w.estimated = L1 * L2 * 2 * 2 + 1 := by
    refine findConn_estimated _ w _ rows _ ?_ (run_estimated _ history _ hlen rfl) hfind
    rw [(run_fields history _).1]
    exact hlen
  have hJ : j1j2Find first L1 L2 j2 pbc history B batch = ⟨w.estimated, fun j b => grid L1 L2 ((rows.getD b []).getD j ⟨[], 0, false⟩).conn,
      fun j b => ((rows.getD b []).getD j ⟨[], 0, false⟩).mel⟩ := by
    unfold j1j2Find
    rw [hfind]
  rw [hJ]
  refine ⟨hest, fun b hb => ?_⟩
  have hb' : b < rows.length := by rw [hl]; simpa using hb
  obtain ⟨e1, e2, e3, e4, -, -⟩ := hrows b (by simpa using hb) hb'
  have hbatch : ((List.ofFn fun b : Fin B => batch b).map flat)[b]'(by simpa using hb) = flat (batch b) := by simp
  rw [hbatch] at e2 e3 e4
  have hrow : rows.getD b [] = rows[b] := List.getD_eq_getElem _ _ hb'
  simp only [hrow]
  have hjl : (j1j2Rows first L1 L2 j2 pbc (batch b)).length = (graphConn first (bondOperator j2) (edgeColors L1 L2 pbc) (flat (batch b))).length := by
    unfold j1j2Rows; rw [List.length_map]
  refine ⟨fun j hj => ?_, fun j hj => ?_⟩
  · have hq : j < (graphConn first (bondOperator j2) (edgeColors L1 L2 pbc) (flat (batch b))).length := by rw [← hjl]; exact hj
    have hg : (j1j2Rows first L1 L2 j2 pbc (batch b))[j] =
        (grid L1 L2 (graphConn first (bondOperator j2) (edgeColors L1 L2 pbc) (flat (batch b)))[j].1,
          (graphConn first (bondOperator j2) (edgeColors L1 L2 pbc) (flat (batch b)))[j].2) := List.getElem_map _
    have hj' : j < rows[b].length := by rw [e1]; omega
    rw [List.getD_eq_getElem _ _ hj']
    have h := congrArg (fun l : List (Conf × ℂ) => l[j]?) e3
    simp only [List.getElem?_map, List.getElem?_take, hq, if_true, List.getElem?_eq_getElem hj', Option.map_some,
      List.getElem?_eq_getElem hq, Option.some.injEq] at h
    rw [hg, ← h]
    exact ⟨rfl, rfl⟩
  · rw [hjl] at hj
    by_cases hj' : j < rows[b].length
    · rw [List.getD_eq_getElem _ _ hj']
      exact e4 _ (List.mem_drop_iff_getElem.mpr
        ⟨j - (graphConn first (bondOperator j2) (edgeColors L1 L2 pbc) (flat (batch b))).length, by omega, by congr 1; omega⟩)
    · rw [List.getD_eq_default _ _ (by omega)]

theorem opMatrix_j1j2 (first : ℤ) (j2 : ℝ) (pbc : Bool) (history : List (List Conf)) :
    Exact.opMatrix (j1j2Setup first L1 L2 j2 pbc history) (j1j2Rows first L1 L2 j2 pbc) =
      Exact.opMatrix (Exact.spinSetup finProdFinEquiv (fun _ sample x => cleanRows first L1 L2 j2 pbc (sample x)) (L1 * L2 * 2 * 2 + 1))
        (fun s => Exact.pairs (cleanRows first L1 L2 j2 pbc s)) := by
  classical
  have key : ∀ s, IsSpin s → ∀ (f : Config (Fin L1 × Fin L2) → Nat) (y : Nat),
      ((j1j2Rows first L1 L2 j2 pbc s).map fun r => if f r.1 = y then r.2 else 0).sum =
        ((Exact.pairs (cleanRows first L1 L2 j2 pbc s)).map fun r => if f r.1 = y then r.2 else 0).sum := by
    intro s hs f y
    unfold Exact.pairs j1j2Rows cleanRows
    rw [if_pos hs, List.map_append, List.map_append, List.sum_append, List.map_replicate, List.map_replicate]
    simp only [Complex.ofReal_zero, ite_self, List.sum_replicate, smul_zero, add_zero, List.map_map]
    refine congrArg List.sum (List.map_congr_left fun c hc => ?_)
    simp only [Function.comp_apply, graphConn_real first j2 _ _ c hc]
  ext x y
  exact key _ (Exact.spinState_spin _ _) _ _

/-- **C157, exact evaluation**: the tables that `ExactVariational` needs are those of the J1-J2 operator and its matrix is
Hermitian, so that C19 to C24 hold with this operator. -/
theorem C157_exact_tables (first : ℤ) (hf : first = 1 ∨ first = -1) (h1 : 0 < L1) (h2 : 0 < L2) (hN : L1 * L2 ≤ 31) (j2 : ℝ)
    (pbc : Bool) (hL : pbc = true → 3 ≤ L1 ∧ 3 ≤ L2) (history : List (List Conf)) :
    Exact.RowWise (j1j2Setup first L1 L2 j2 pbc history) (j1j2Rows first L1 L2 j2 pbc) ∧
      (Exact.opMatrix (j1j2Setup first L1 L2 j2 pbc history) (j1j2Rows first L1 L2 j2 pbc)).IsHermitian := by
  have hcount : ∀ B batch, (j1j2Find first L1 L2 j2 pbc history B batch).count ≤ L1 * L2 * 2 * 2 + 1 := by
    intro B batch
    rcases Nat.eq_zero_or_pos B with rfl | hB
    · unfold j1j2Find
      split <;> rename_i heq
      · exfalso
        simp [Wrapper.findConn, newFindConn, (run_fields history _).2.1, j1j2Operator, pure, Except.pure] at heq
      · exact Nat.zero_le _
    · rw [(j1j2Find_eq first h2 j2 pbc history hB batch).1]
  refine ⟨⟨fun x _ => ?_, fun B batch b hb => ?_, fun B batch b hb j hj => ?_, fun B batch b hb j hj _ => ?_, fun B batch b hb _ j _ => ?_,
    fun x hx => ?_, fun m hm B batch => ?_⟩, ?_⟩
  · unfold j1j2Rows graphConn
    simp only [List.map_cons, List.head?_cons, grid_flat]
    exact ⟨_, rfl⟩
  · show _ ≤ (j1j2Find first L1 L2 j2 pbc history B batch).count
    rw [(j1j2Find_eq first h2 j2 pbc history (by omega) batch).1]
    unfold j1j2Rows
    rw [List.length_map]
    exact graphConn_length first L1 L2 h2 j2 pbc _
  · exact ((j1j2Find_eq first h2 j2 pbc history (by omega) batch).2 b hb).1 j hj
  · exact ((j1j2Find_eq first h2 j2 pbc history (by omega) batch).2 b hb).2 j hj
  · exact Exact.spinCode_lt finProdFinEquiv hN _
  · exact Exact.spinCode_state finProdFinEquiv hN x hx
  · have h : some (L1 * L2 * 2 * 2 + 1) = some m := hm
    rw [← Option.some.inj h]
    exact hcount B batch
  · rw [opMatrix_j1j2 first j2 pbc history]
    exact Exact.opMatrix_hermitian finProdFinEquiv hN (rowsOf_clean first hf h1 h2 j2 pbc hL)

/-- **C157, exact energies**: as C20. Whatever batch size is accepted and whatever was evaluated before, the reported energy of
the current network is the expected value of the J1-J2 Hamiltonian. -/
theorem C157_exact_energy (first : ℤ) (hf : first = 1 ∨ first = -1) (h1 : 0 < L1) (h2 : 0 < L2) (hN : L1 * L2 ≤ 31) (j2 : ℝ)
    (pbc : Bool) (hL : pbc = true → 3 ≤ L1 ∧ 3 ≤ L2) (history : List (List Conf)) (batch : Nat) (hb : 0 < batch)
    (hacc : 2 ^ (L1 * L2) ≤ batch ∨ batch ∣ 2 ^ (L1 * L2)) :
    ∃ o, Exact.Obj.new (j1j2Setup first L1 L2 j2 pbc history) batch = .ok o ∧
      ∀ nets net, (Exact.after o nets net).arrays.energy = rayleigh (hamiltonian L1 L2 pbc j2) (fun s => Complex.exp (net s)) ∧
        (Exact.after o nets net).arrays.energy.im = 0 := by
  obtain ⟨hr, hherm⟩ := C157_exact_tables first hf h1 h2 hN j2 pbc hL history
  have hpos : 0 < (j1j2Setup first L1 L2 j2 pbc history).S := by show 0 < 2 ^ (L1 * L2); positivity
  obtain ⟨o, ho⟩ := (Exact.C22_batch_independent _ _ hr hpos batch).1.2 ⟨hb, hacc⟩
  refine ⟨o, ho, fun nets net => ?_⟩
  obtain ⟨e1, e2, -⟩ := Exact.C20_exact_energy _ _ hr hherm batch o ho nets net
  refine ⟨?_, e2⟩
  rw [e1]
  unfold Exact.rayleigh rayleigh
  rw [← Exact.sum_states finProdFinEquiv hN, ← Exact.sum_states finProdFinEquiv hN]
  congr 1
  unfold dotProduct
  refine Finset.sum_congr rfl fun x _ => ?_
  have h := Exact.opMatrix_mulVec finProdFinEquiv hN (rowsOf_clean first hf h1 h2 j2 pbc hL) (fun s => Complex.exp (net s)) x
  rw [cleanRows_apply first hf h1 h2 j2 pbc hL _ (Exact.spinState_spin _ _), ← opMatrix_j1j2 first j2 pbc history] at h
  rw [← h]
  rfl

/-- The hypotheses are met: the lattice of four times four sites of `examples/j1j2_2d_exact_4.py`, open and periodic, with
`j2 = 1/2`, and a batch of three samples of a wave function with both signs drawn by `WaveFunctionSampler`. -/
example : (false = true → 3 ≤ 4 ∧ 3 ≤ 4) ∧ (true = true → 3 ≤ 4 ∧ 3 ≤ 4) ∧
    ∃ (ψ : Config (Fin 4 × Fin 4) → ℂ) (S : (Fin 3 → ℝ) → Fin 3 → Config (Fin 4 × Fin 4)),
      Complex.exp (ψ fun _ => 1) ≠ Complex.exp (ψ fun _ => -1) ∧
      Independent (MeasureTheory.Measure.pi fun _ : Fin 3 => Autoregressive.unif) ψ S ∧ ∀ u b, IsSpin (S u b) := by
  obtain ⟨S, -, hS⟩ := C154_wave_function (B := 3) (finProdFinEquiv (m := 4) (n := 4))
    (fun s => if s (0, 0) = 1 then 0 else Real.pi * Complex.I) _ le_rfl
  refine ⟨by omega, by omega, _, S, ?_, hS, hS.spins⟩
  simp [Complex.exp_pi_mul_I]
  norm_num

end Verif.J1J2.Op
