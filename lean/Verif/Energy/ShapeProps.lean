import Verif.Energy.LocalProps

/-!
# Property C62: the shape of the configurations handed to the network
-/
namespace Verif.Energy

open Verif.Operators

/-- The configuration shape (all axes but the batch axis) of the array on which `local_values` evaluates
the network: the shape of the connections in operator.py:7-8, the operator's current
`hilbert_state_shape` in operator.py:37. -/
def evalShape {σ : Type} {R B : Nat} (connShape opShape : List Nat) (a : Answer σ R B) : List Nat :=
  if 100 * usedCount a < 95 * (R * B) then connShape else opShape

theorem usedCount_full {σ : Type} {R B : Nat} (a : Answer σ R B) (h : ∀ r b, a.use r b = true) :
    usedCount a = R * B := by
  unfold usedCount usedRows
  have : ∀ b, (List.finRange R).filter (fun r => a.use r b) = List.finRange R := by
    intro b
    rw [List.filter_eq_self]
    intro r _
    exact h r b
  simp only [this, List.length_finRange, List.map_const', List.sum_replicate, smul_eq_mul]
  rw [Nat.mul_comm]

/-- C62, partial: for the two-dimensional Heisenberg operator the network always gets arrays of the
lattice shape. Missing: one dimension, where it is false (`C62_violated`). -/
theorem C62_shape_grid_partial {n m : Nat} (rot pbc : Bool) (history : List (Call n m)) (B : Nat)
    (sample : Fin B → Config (Fin n × Fin m)) (a : Answer (Config (Fin n × Fin m)) (n * m * 2 + 1) B) :
    evalShape [n, m] (((HeisOp.new2 n m rot pbc).run history).findConn B sample).1.shape a = [n, m] := by
  have h := C13_shape_kept_partial n m rot pbc (history ++ [⟨B, sample⟩])
  have h2 : ((HeisOp.new2 n m rot pbc).run (history ++ [⟨B, sample⟩])) =
      (((HeisOp.new2 n m rot pbc).run history).findConn B sample).1 := by
    simp [HeisOp.run, List.foldl_append]
  rw [h2] at h
  unfold evalShape
  rw [h, ite_self]

/-- The staggered configuration of a chain. -/
def neel (n : Nat) : Config (Fin n) := fun i => if i.val % 2 = 0 then 1 else -1

/-- C62 is violated: on every periodic chain of even length, for every nonempty batch of staggered
configurations the network is evaluated on arrays of shape `(n, 1)` instead of `(n,)`, whatever was
asked of the operator before. -/
theorem C62_violated (n B : Nat) (hn : 1 < n) (heven : n % 2 = 0) (rot : Bool)
    (history : List (Call n 1)) : ∃ hs : ∀ _ : Fin B, IsSpin (neel n),
    evalShape [n] (((HeisOp.new1 n rot true).run history).findConn1 B fun _ => neel n).1.shape
      (Answer.ofRows (n + 1) (((HeisOp.new1 n rot true).run history).findConn1 B fun _ => neel n).2
        fun b => (C09_heisenberg_chain rot true history B (fun _ => neel n) b (hs b)).count) = [n, 1] := by
  have hspin : IsSpin (neel n) := by
    intro i; unfold neel; split <;> simp
  refine ⟨fun _ => hspin, ?_⟩
  unfold evalShape
  rw [usedCount_full]
  · rw [if_neg (by omega)]
    have hrun : (((HeisOp.new1 n rot true).run history).findConn1 B fun _ => neel n).1 =
        (HeisOp.new1 n rot true).run (history ++ [⟨B, fun _ => expandDims (neel n)⟩]) := by
      simp [HeisOp.run, List.foldl_append, HeisOp.findConn1]
    rw [hrun]
    cases history with
    | nil => exact (C13_violated n rot true _ []).2
    | cons c history => exact (C13_violated n rot true c _).2
  · intro r b
    have hall : ∀ row ∈ (((HeisOp.new1 n rot true).run history).findConn1 B fun _ => neel n).2 b, row.use = true := by
      rw [answer1]
      intro row hrow
      rw [List.mem_map] at hrow
      obtain ⟨row, hrow, rfl⟩ := hrow
      unfold heisRows at hrow
      rw [List.mem_cons, List.mem_flatMap] at hrow
      rcases hrow with rfl | ⟨⟨i, z⟩, -, hrow⟩
      · rfl
      · unfold siteRows at hrow
        rw [if_pos hn, if_neg (by omega), if_pos hn, if_neg (by omega)] at hrow
        simp only [List.append_nil, List.cons_append, List.nil_append, Nat.add_zero, Nat.sub_self, List.replicate_zero,
          List.mem_singleton] at hrow
        subst hrow
        have hnext : ∃ k, chainNext n true i = some k := by
          unfold chainNext; split <;> simp
        obtain ⟨k, hk⟩ := hnext
        have hpar := chainNext_parity hn (Or.inr heven) hk
        have hz : z = 0 := Subsingleton.elim _ _
        subst hz
        simp only [hk, Option.map_some, axisRow, bondRow, squeezeRow]
        simp only [expandDims, neel, decide_eq_true_eq]
        split <;> split <;> simp <;> omega
    exact hall _ (List.getElem_mem _)

/-! ### Chains, exactly -/

theorem usedCount_ofRows {ι : Type} {B : Nat} (R : Nat) (rows : Fin B → List (Row ι ℝ)) (hlen : ∀ b, (rows b).length = R) :
    usedCount (Answer.ofRows R rows hlen) = ∑ b, (rows b).countP fun r => r.use := by
  unfold usedCount usedRows
  rw [← List.sum_ofFn, List.ofFn_eq_map]
  congr 1
  refine List.map_congr_left fun b _ => ?_
  have e : rows b = (List.finRange R).map fun r => (rows b)[r.val]'(by rw [hlen]; exact r.isLt) := by
    refine List.ext_getElem (by simp [hlen]) fun i h1 h2 => ?_
    simp
  rw [List.countP_eq_length_filter]
  conv_rhs => rw [e, List.filter_map, List.length_map]
  rfl

/-- Number of bonds of a chain whose spins differ. -/
def unequalBonds (n : Nat) (pbc : Bool) (s : Config (Fin n)) : Nat := (chainBonds' n pbc).countP fun b => s b.1 ≠ s b.2

theorem countP_chain {n : Nat} (off : ℝ) (pbc : Bool) (s : Config (Fin n)) :
    ((heisRows off pbc 1 (expandDims s)).map squeezeRow).countP (fun r => r.use) = unequalBonds n pbc s + 1 := by
  unfold heisRows unequalBonds chainBonds' gridSites
  rw [List.map_cons, List.countP_cons_of_pos rfl, List.countP_map, List.countP_flatMap]
  congr 1
  have hs : ∀ i : Fin n, ((fun a => List.countP ((fun r : Row (Fin n) ℝ => r.use) ∘ squeezeRow) (siteRows off pbc 1 (expandDims s) a)) (i, (0 : Fin 1))) =
      if n > 1 then (((chainNext n pbc i).map fun k => (i, k)).toList.countP fun b => s b.1 ≠ s b.2) else 0 := by
    intro i
    unfold siteRows
    dsimp only
    by_cases hn : n > 1
    · rw [if_pos hn, if_pos hn, if_pos hn, if_neg (by omega), if_neg (by omega)]
      cases chainNext n pbc i with
      | none => simp [axisRow, emptyRow, squeezeRow]
      | some k => by_cases h : s i = s k <;> simp [axisRow, bondRow, squeezeRow, expandDims, List.countP_cons, h]
    · rw [if_neg hn, if_neg hn, if_neg hn, if_neg (by omega), if_neg (by omega)]
      simp [emptyRow, squeezeRow]
  have hl : (List.finRange n).flatMap (fun i => (List.finRange 1).map fun j => (i, j)) = (List.finRange n).map fun i => (i, (0 : Fin 1)) := by
    rw [List.flatMap_def, show List.finRange 1 = [0] from rfl]
    simp only [List.map_cons, List.map_nil]
    induction List.finRange n with
    | nil => rfl
    | cons a l ih => simp [ih]
  rw [hl, List.map_map]
  simp only [Function.comp_def]
  refine Eq.trans (congrArg List.sum (List.map_congr_left fun i _ => hs i)) ?_
  by_cases hn : n > 1
  · simp only [if_pos hn]
    unfold chainBonds
    rw [List.countP_flatMap]
    rfl
  · simp [if_neg hn]

/-- **C62 on Heisenberg chains**: exactly when the network gets arrays of the shape of the lattice. In every batch of spins,
after any history, it does so if fewer than 95 percent of the connections are used, a configuration using one connection for
itself and one for each bond of unequal spins; else it gets arrays with a superfluous axis. -/
theorem C62_chain {n : Nat} (rot pbc : Bool) (history : List (Call n 1)) (B : Nat) (sample : Fin B → Config (Fin n))
    (hs : ∀ b, IsSpin (sample b)) :
    evalShape [n] (((HeisOp.new1 n rot pbc).run history).findConn1 B sample).1.shape
      (Answer.ofRows (n + 1) (((HeisOp.new1 n rot pbc).run history).findConn1 B sample).2
        fun b => (C09_heisenberg_chain rot pbc history B sample b (hs b)).count) =
      if 100 * ∑ b, (unequalBonds n pbc (sample b) + 1) < 95 * ((n + 1) * B) then [n] else [n, 1] := by
  unfold evalShape
  rw [usedCount_ofRows]
  have h1 : ∑ b, ((((HeisOp.new1 n rot pbc).run history).findConn1 B sample).2 b).countP (fun r => r.use) =
      ∑ b, (unequalBonds n pbc (sample b) + 1) := by
    refine Finset.sum_congr rfl fun b _ => ?_
    rw [answer1, countP_chain]
  have h2 : (((HeisOp.new1 n rot pbc).run history).findConn1 B sample).1.shape = [n, 1] := by
    have hrun : (((HeisOp.new1 n rot pbc).run history).findConn1 B sample).1 =
        (HeisOp.new1 n rot pbc).run (history ++ [⟨B, fun b => expandDims (sample b)⟩]) := by
      simp [HeisOp.run, List.foldl_append, HeisOp.findConn1]
    rw [hrun]
    cases history with
    | nil => exact (C13_violated n rot pbc _ []).2
    | cons c history => exact (C13_violated n rot pbc c _).2
  rw [h1, h2]

/-- Both cases occur: the batch of one staggered and the batch of one uniform configuration of a ring of four spins. -/
example : unequalBonds 4 true (neel 4) = 4 ∧ unequalBonds 4 true (fun _ => 1) = 0 := by decide
end Verif.Energy
