import Verif.Operators.Ising
import Verif.Operators.Heisenberg
import Verif.Operators.Spec
import Mathlib.Algebra.BigOperators.Fin
import Mathlib.Algebra.BigOperators.Ring.List
import Mathlib.Algebra.BigOperators.Ring.Finset
import Mathlib.Data.List.Nodup
import Mathlib.Data.Fintype.BigOperators
import Mathlib.Tactic.Ring
import Mathlib.Tactic.Linarith

namespace Verif.Operators

/-! ### Loops that write one slot per iteration -/

theorem foldl_update {κ : Type} {α : Type*} [DecidableEq κ] (g : κ → α → α) (l : List κ) :
    ∀ f0 : κ → α, l.Nodup →
      l.foldl (fun f i => Function.update f i (g i (f i))) f0 =
        fun i => if i ∈ l then g i (f0 i) else f0 i := by
  induction l with
  | nil => intro f0 _; simp
  | cons a l ih =>
    intro f0 hn
    obtain ⟨ha, hl⟩ := List.nodup_cons.mp hn
    rw [List.foldl_cons, ih _ hl]
    funext i
    by_cases hia : i = a
    · subst hia; simp [ha]
    · simp [hia, Function.update_of_ne hia]

theorem gridSites_nodup (n m : Nat) : (gridSites n m).Nodup := by
  unfold gridSites
  rw [List.nodup_flatMap]
  refine ⟨fun i _ => (List.nodup_finRange m).map (fun a b h => (Prod.mk.inj h).2), ?_⟩
  apply (List.nodup_finRange n).imp
  intro a b hab
  simp only [Function.onFun, List.disjoint_left, List.mem_map]
  rintro x ⟨j, _, rfl⟩ ⟨j', _, h⟩
  exact hab (Prod.mk.inj h).1.symm

theorem mem_gridSites (n m : Nat) (p : Fin n × Fin m) : p ∈ gridSites n m := by
  unfold gridSites
  rw [List.mem_flatMap]
  exact ⟨p.1, List.mem_finRange _, List.mem_map.mpr ⟨p.2, List.mem_finRange _, rfl⟩⟩

theorem length_gridSites (n m : Nat) : (gridSites n m).length = n * m := by
  simp [gridSites, List.length_flatMap]

theorem sum_finRange {M : Type*} [AddCommMonoid M] (n : Nat) (f : Fin n → M) :
    ((List.finRange n).map f).sum = ∑ i, f i := by
  rw [← List.sum_ofFn, List.ofFn_eq_map]

theorem sum_gridSites {M : Type*} [AddCommMonoid M] (n m : Nat) (f : Fin n × Fin m → M) :
    ((gridSites n m).map f).sum = ∑ p, f p := by
  have h : ∀ l : List (List (Fin n × Fin m)), (l.flatten.map f).sum = (l.map fun x => (x.map f).sum).sum := by
    intro l
    induction l with
    | nil => rfl
    | cons a l ih => simp only [List.flatten_cons, List.map_append, List.sum_append, ih, List.map_cons, List.sum_cons]
  rw [gridSites, List.flatMap_def, h, List.map_map, Fintype.sum_prod_type]
  simp only [Function.comp_def, List.map_map]
  rw [sum_finRange]
  apply Finset.sum_congr rfl
  intro i _
  exact sum_finRange m fun j => f (i, j)

theorem sum_flatMap {α β : Type*} {M : Type*} [AddCommMonoid M] (l : List α) (g : α → List β) (f : β → M) :
    ((l.flatMap g).map f).sum = (l.map fun a => ((g a).map f).sum).sum := by
  induction l with
  | nil => rfl
  | cons a l ih => simp [ih]

/-! ### Ising, closed form -/

section ising1
variable {n B : Nat}

theorem isingLoop1 (j : ℝ) (pbc : Bool) (sample : Fin B → Config (Fin n)) (l : List (Fin n))
    (hl : l.Nodup) (st : IsingState1 n B) :
    l.foldl (isingStep1 j pbc sample) st =
      ⟨fun i => if i ∈ l then fun b => flip i (st.sampleConn i b) else st.sampleConn i,
       fun b i => if i ∈ l then st.mel b i - j * (sample b i : ℝ) * (pad1 pbc (sample b) (i.val + 1) : ℝ)
        else st.mel b i⟩ := by
  induction l generalizing st with
  | nil => rfl
  | cons a l ih =>
    obtain ⟨ha, hl'⟩ := List.nodup_cons.mp hl
    rw [List.foldl_cons, ih hl']
    simp only [isingStep1]
    congr 1
    · funext i
      by_cases hia : i = a
      · subst hia
        simp [ha, flip]
      · simp [hia, Function.update_of_ne hia]
    · funext b i
      by_cases hia : i = a
      · subst hia; simp [ha]
      · simp [hia, Function.update_of_ne hia]

theorem isingFindConn1_eq (h : Field) (j : ℝ) (pbc : Bool) (sample : Fin B → Config (Fin n))
    (b : Fin B) :
    isingFindConn1 h j pbc sample b =
      ⟨sample b, h.store (∑ i : Fin n, -(j * (sample b i : ℝ) * (pad1 pbc (sample b) (i.val + 1) : ℝ))),
        true⟩ ::
      (List.finRange n).map fun i => ⟨flip i (sample b), -h.val, true⟩ := by
  unfold isingFindConn1
  rw [isingLoop1 _ _ _ _ (List.nodup_finRange n)]
  simp

theorem pad1_next (pbc : Bool) (s : Fin n → ℤ) (i : Fin n) :
    pad1 pbc s (i.val + 1) = ((chainNext n pbc i).map s).getD 0 := by
  have hn : 0 < n := Nat.lt_of_le_of_lt (Nat.zero_le _) i.isLt
  unfold pad1 chainNext
  by_cases h : i.val + 1 < n
  · simp [h]
  · cases pbc <;> simp [h, hn]

end ising1

section ising2
variable {n m B : Nat}

theorem isingLoop2 (jc : ℝ) (pbc : Bool) (sample : Fin B → Config (Fin n × Fin m))
    (l : List (Fin n × Fin m)) (hl : l.Nodup) (st : IsingState2 n m B) :
    l.foldl (isingStep2 jc pbc sample) st =
      ⟨fun p => if p ∈ l then fun b => flip p (st.sampleConn p b) else st.sampleConn p,
       fun b p => if p ∈ l then st.mel b p
          - (if n > 1 then jc * (sample b p : ℝ) * (pad1 pbc (fun i' => sample b (i', p.2)) (p.1.val + 1) : ℝ) else 0)
          - (if m > 1 then jc * (sample b p : ℝ) * (pad1 pbc (fun j' => sample b (p.1, j')) (p.2.val + 1) : ℝ) else 0)
        else st.mel b p⟩ := by
  induction l generalizing st with
  | nil => rfl
  | cons a l ih =>
    obtain ⟨ha, hl'⟩ := List.nodup_cons.mp hl
    rw [List.foldl_cons, ih hl']
    simp only [isingStep2]
    congr 1
    · funext p
      by_cases hpa : p = a
      · subst hpa
        simp [ha, flip]
      · simp [hpa, Function.update_of_ne hpa]
    · funext b p
      by_cases hpa : p = a
      · subst hpa
        by_cases hn : n > 1 <;> by_cases hm : m > 1 <;> simp [ha, hn, hm]
      · by_cases hn : n > 1 <;> by_cases hm : m > 1 <;> simp [hn, hm, hpa, Function.update_of_ne hpa]

theorem isingFindConn2_eq (h : Field) (jc : ℝ) (pbc : Bool) (sample : Fin B → Config (Fin n × Fin m))
    (b : Fin B) :
    isingFindConn2 h jc pbc sample b =
      ⟨sample b, h.store (∑ p : Fin n × Fin m,
        (-(if n > 1 then jc * (sample b p : ℝ) * (pad1 pbc (fun i' => sample b (i', p.2)) (p.1.val + 1) : ℝ) else 0)
          - (if m > 1 then jc * (sample b p : ℝ) * (pad1 pbc (fun j' => sample b (p.1, j')) (p.2.val + 1) : ℝ) else 0))),
        true⟩ ::
      (gridSites n m).map fun p => ⟨flip p (sample b), -h.val, true⟩ := by
  unfold isingFindConn2
  rw [isingLoop2 _ _ _ _ (gridSites_nodup n m)]
  simp [mem_gridSites]

end ising2

/-! ### Sums over bonds -/

theorem sum_chainBonds {M : Type*} [AddCommMonoid M] (n : Nat) (pbc : Bool) (f : Fin n × Fin n → M) :
    ((chainBonds n pbc).map f).sum = ∑ i, (((chainNext n pbc i).map fun k => f (i, k)).getD 0) := by
  rw [chainBonds, sum_flatMap, sum_finRange]
  apply Finset.sum_congr rfl
  intro i _
  cases chainNext n pbc i <;> simp

theorem gridBonds_eq (n m : Nat) (pbc : Bool) : gridBonds n m pbc =
    (gridSites n m).flatMap fun p =>
      (if n > 1 then ((chainNext n pbc p.1).map fun k => (p, (k, p.2))).toList else []) ++
      (if m > 1 then ((chainNext m pbc p.2).map fun k => (p, (p.1, k))).toList else []) := by
  rw [gridSites, List.flatMap_assoc, gridBonds]
  congr 1
  funext i
  rw [List.flatMap_map]

theorem sum_gridBonds {M : Type*} [AddCommMonoid M] (n m : Nat) (pbc : Bool)
    (f : (Fin n × Fin m) × (Fin n × Fin m) → M) :
    ((gridBonds n m pbc).map f).sum = ∑ p : Fin n × Fin m,
      ((if n > 1 then ((chainNext n pbc p.1).map fun k => f (p, (k, p.2))).getD 0 else 0) +
       (if m > 1 then ((chainNext m pbc p.2).map fun k => f (p, (p.1, k))).getD 0 else 0)) := by
  rw [gridBonds_eq, sum_flatMap, sum_gridSites]
  apply Finset.sum_congr rfl
  intro p _
  rw [List.map_append, List.sum_append]
  congr 1
  · split
    · cases chainNext n pbc p.1 <;> simp
    · simp
  · split
    · cases chainNext m pbc p.2 <;> simp
    · simp

/-! ### Heisenberg, closed form -/

section heis
variable {n m B : Nat}

/-- Writes for one axis, given the optional neighbour. -/
noncomputable def writeAxis (off : ℝ) (sample : Fin B → Config (Fin n × Fin m)) (p : Fin n × Fin m)
    (nb : Option (Fin n × Fin m)) (d : Nat) (s : Slot (Fin n × Fin m) B) : Slot (Fin n × Fin m) B :=
  match nb with
  | some b => writeBond off sample p b d s
  | none => writeNoBond d s

theorem siteBody_eq (off : ℝ) (pbc : Bool) (sample : Fin B → Config (Fin n × Fin m))
    (p : Fin n × Fin m) (s : Slot (Fin n × Fin m) B) :
    siteBody off pbc sample p s =
      let s1 := if n > 1 then writeAxis off sample p ((chainNext n pbc p.1).map fun k => (k, p.2)) 0 s else s
      if m > 1 then
        writeAxis off sample p ((chainNext m pbc p.2).map fun k => (p.1, k)) (if n > 1 then 1 else 0) s1
      else s1 := by
  obtain ⟨i, j⟩ := p
  unfold siteBody chainNext writeAxis
  by_cases hn : n > 1 <;> by_cases hm : m > 1 <;> by_cases hi : i.val + 1 < n <;>
    by_cases hj : j.val + 1 < m <;> cases pbc <;> simp [hn, hm, hi, hj]

theorem slots_eq (off : ℝ) (pbc : Bool) (sample : Fin B → Config (Fin n × Fin m))
    (buf : Buffers n m B) (p : Fin n × Fin m) :
    (findConnBuffers off pbc sample buf).slots p =
      siteBody off pbc sample p
        { buf.slots p with conn := fun _ => sample, selfMel := fun _ => 0 } := by
  unfold findConnBuffers
  simp only
  rw [foldl_update _ _ _ (gridSites_nodup n m)]
  simp [mem_gridSites]

/-- Rows that were never written are unused with zero matrix element. -/
def Clean (dim : Nat) (buf : Buffers n m B) : Prop :=
  (∀ x, buf.use0 x = true) ∧
  ∀ p d, (if n > 1 then 1 else 0) + (if m > 1 then 1 else 0) ≤ d → d < dim →
    ∀ x, (buf.slots p).use d x = false ∧ (buf.slots p).mel d x = 0

/-- Row written for a bond. -/
noncomputable def bondRow {ι : Type} [DecidableEq ι] (off : ℝ) (s : Config ι) (a b : ι) : Row ι ℝ :=
  ⟨exchange a b s, if s a ≠ s b then off else 0, decide (s a ≠ s b)⟩

/-- Row of a missing bond or of an unused axis. -/
def emptyRow {ι : Type} (s : Config ι) : Row ι ℝ := ⟨s, 0, false⟩

/-- Row for an axis given the optional neighbour. -/
noncomputable def axisRow (off : ℝ) (s : Config (Fin n × Fin m)) (p : Fin n × Fin m)
    (nb : Option (Fin n × Fin m)) : Row (Fin n × Fin m) ℝ :=
  match nb with
  | some b => bondRow off s p b
  | none => emptyRow s

/-- Rows of one site. -/
noncomputable def siteRows (off : ℝ) (pbc : Bool) (dim : Nat) (s : Config (Fin n × Fin m))
    (p : Fin n × Fin m) : List (Row (Fin n × Fin m) ℝ) :=
  (if n > 1 then [axisRow off s p ((chainNext n pbc p.1).map fun k => (k, p.2))] else []) ++
  (if m > 1 then [axisRow off s p ((chainNext m pbc p.2).map fun k => (p.1, k))] else []) ++
  List.replicate (dim - ((if n > 1 then 1 else 0) + (if m > 1 then 1 else 0))) (emptyRow s)

/-- Diagonal contribution of one site. -/
def siteDiag (pbc : Bool) (s : Config (Fin n × Fin m)) (p : Fin n × Fin m) : ℝ :=
  (if n > 1 then (((chainNext n pbc p.1).map fun k => ((s p * s (k, p.2) : ℤ) : ℝ)).getD 0) else 0) +
  (if m > 1 then (((chainNext m pbc p.2).map fun k => ((s p * s (p.1, k) : ℤ) : ℝ)).getD 0) else 0)

theorem slot_rows (off : ℝ) (pbc : Bool) (dim : Nat) (hdim : dim = 2 ∨ (dim = 1 ∧ m = 1))
    (sample : Fin B → Config (Fin n × Fin m)) (buf : Buffers n m B) (hc : Clean dim buf)
    (p : Fin n × Fin m) (x : Fin B) :
    ((List.range dim).map fun d =>
      (⟨((findConnBuffers off pbc sample buf).slots p).conn d x,
        ((findConnBuffers off pbc sample buf).slots p).mel d x,
        ((findConnBuffers off pbc sample buf).slots p).use d x⟩ : Row (Fin n × Fin m) ℝ)) =
      siteRows off pbc dim (sample x) p ∧
    ((findConnBuffers off pbc sample buf).slots p).selfMel x = siteDiag pbc (sample x) p ∧
    (∀ d, (if n > 1 then 1 else 0) + (if m > 1 then 1 else 0) ≤ d →
      ((findConnBuffers off pbc sample buf).slots p).mel d = (buf.slots p).mel d ∧
      ((findConnBuffers off pbc sample buf).slots p).use d = (buf.slots p).use d) := by
  obtain ⟨hc0, hcl⟩ := hc
  have hcp := hcl p
  simp only [slots_eq, siteBody_eq]
  rcases hdim with rfl | ⟨rfl, hm1⟩
  · by_cases hn : n > 1 <;> by_cases hm : m > 1
    · refine ⟨?_, ?_, ?_⟩
      · cases h1 : chainNext n pbc p.1 <;> cases h2 : chainNext m pbc p.2 <;>
          simp [List.range_succ, siteRows, hn, hm, writeAxis, writeBond, writeNoBond, axisRow, h1, h2,
            bondRow, emptyRow, exchange]
      · cases h1 : chainNext n pbc p.1 <;> cases h2 : chainNext m pbc p.2 <;>
          simp [siteDiag, hn, hm, writeAxis, writeBond, writeNoBond, h1, h2]
      · intro d hd
        simp only [hn, hm, if_true] at hd
        have e0 : d ≠ 0 := by omega
        have e1 : d ≠ 1 := by omega
        cases h1 : chainNext n pbc p.1 <;> cases h2 : chainNext m pbc p.2 <;>
          simp [hn, hm, writeAxis, writeBond, writeNoBond, Function.update_of_ne e0,
            Function.update_of_ne e1]
    · have hcl1 := hcp 1 (by simp [hn, hm]) (by omega) x
      refine ⟨?_, ?_, ?_⟩
      · cases h1 : chainNext n pbc p.1 <;>
          simp [List.range_succ, siteRows, hn, hm, writeAxis, writeBond, writeNoBond, axisRow, h1,
            bondRow, emptyRow, exchange, hcl1]
      · cases h1 : chainNext n pbc p.1 <;>
          simp [siteDiag, hn, hm, writeAxis, writeBond, writeNoBond, h1]
      · intro d hd
        simp only [hn, hm, if_true, if_false] at hd
        have e0 : d ≠ 0 := by omega
        cases h1 : chainNext n pbc p.1 <;>
          simp [hn, hm, writeAxis, writeBond, writeNoBond, Function.update_of_ne e0]
    · have hcl1 := hcp 1 (by simp [hn, hm]) (by omega) x
      refine ⟨?_, ?_, ?_⟩
      · cases h2 : chainNext m pbc p.2 <;>
          simp [List.range_succ, siteRows, hn, hm, writeAxis, writeBond, writeNoBond, axisRow, h2,
            bondRow, emptyRow, exchange, hcl1]
      · cases h2 : chainNext m pbc p.2 <;>
          simp [siteDiag, hn, hm, writeAxis, writeBond, writeNoBond, h2]
      · intro d hd
        simp only [hn, hm, if_true, if_false] at hd
        have e0 : d ≠ 0 := by omega
        cases h2 : chainNext m pbc p.2 <;>
          simp [hn, hm, writeAxis, writeBond, writeNoBond, Function.update_of_ne e0]
    · have hcl0 := hcp 0 (by simp [hn, hm]) (by omega) x
      have hcl1 := hcp 1 (by simp [hn, hm]) (by omega) x
      refine ⟨?_, ?_, ?_⟩
      · simp [List.range_succ, siteRows, hn, hm, emptyRow, hcl0, hcl1]
      · simp [siteDiag, hn, hm]
      · intro d _
        simp [hn, hm]
  · have hm : ¬ m > 1 := by omega
    by_cases hn : n > 1
    · refine ⟨?_, ?_, ?_⟩
      · cases h1 : chainNext n pbc p.1 <;>
          simp [List.range_succ, siteRows, hn, hm, writeAxis, writeBond, writeNoBond, axisRow, h1,
            bondRow, emptyRow, exchange]
      · cases h1 : chainNext n pbc p.1 <;>
          simp [siteDiag, hn, hm, writeAxis, writeBond, writeNoBond, h1]
      · intro d hd
        simp only [hn, hm, if_true, if_false] at hd
        have e0 : d ≠ 0 := by omega
        cases h1 : chainNext n pbc p.1 <;>
          simp [hn, hm, writeAxis, writeBond, writeNoBond, Function.update_of_ne e0]
    · have hcl0 := hcp 0 (by simp [hn, hm]) (by omega) x
      refine ⟨?_, ?_, ?_⟩
      · simp [List.range_succ, siteRows, hn, hm, emptyRow, hcl0]
      · simp [siteDiag, hn, hm]
      · intro d _
        simp [hn, hm]

theorem clean_init (dim : Nat) : Clean dim (initBuffers n m B) := by
  refine ⟨fun _ => rfl, fun _ _ _ _ _ => ⟨rfl, rfl⟩⟩

theorem clean_step (off : ℝ) (pbc : Bool) (dim : Nat) (hdim : dim = 2 ∨ (dim = 1 ∧ m = 1))
    (sample : Fin B → Config (Fin n × Fin m)) (buf : Buffers n m B) (hc : Clean dim buf) :
    Clean dim (findConnBuffers off pbc sample buf) := by
  refine ⟨hc.1, ?_⟩
  intro p d hd hlt x
  obtain ⟨-, -, h⟩ := slot_rows off pbc dim hdim sample buf hc p x
  obtain ⟨h1, h2⟩ := h d hd
  rw [h1, h2]
  exact hc.2 p d hd hlt x

/-- Closed form of the whole answer. -/
theorem rowsOf_findConn (off : ℝ) (pbc : Bool) (dim : Nat) (hdim : dim = 2 ∨ (dim = 1 ∧ m = 1))
    (sample : Fin B → Config (Fin n × Fin m)) (buf : Buffers n m B) (hc : Clean dim buf) (x : Fin B) :
    rowsOf dim (findConnBuffers off pbc sample buf) x =
      ⟨sample x, ∑ p, siteDiag pbc (sample x) p, true⟩ ::
        (gridSites n m).flatMap (siteRows off pbc dim (sample x)) := by
  unfold rowsOf
  congr 1
  · have h1 : (findConnBuffers off pbc sample buf).conn0 x = sample x := rfl
    have h2 : (findConnBuffers off pbc sample buf).use0 x = true := hc.1 x
    have h3 : (findConnBuffers off pbc sample buf).mel0 x = ∑ p, siteDiag pbc (sample x) p := by
      have : (findConnBuffers off pbc sample buf).mel0 x =
          ∑ p, ((findConnBuffers off pbc sample buf).slots p).selfMel x := rfl
      rw [this]
      apply Finset.sum_congr rfl
      intro p _
      exact (slot_rows off pbc dim hdim sample buf hc p x).2.1
    rw [h1, h2, h3]
  · congr 1
    funext p
    exact (slot_rows off pbc dim hdim sample buf hc p x).1

theorem siteDiag_sum (pbc : Bool) (s : Config (Fin n × Fin m)) :
    ∑ p, siteDiag pbc s p = ((gridBonds n m pbc).map fun b => ((s b.1 * s b.2 : ℤ) : ℝ)).sum := by
  rw [sum_gridBonds]
  rfl

/-- Sum over all rows of a quantity that vanishes on unused rows with zero element. -/
theorem sum_rows {M : Type*} [AddCommMonoid M] (off : ℝ) (pbc : Bool) (dim : Nat)
    (hdim : dim = 2 ∨ (dim = 1 ∧ m = 1)) (s : Config (Fin n × Fin m)) (d : ℝ)
    (G : Row (Fin n × Fin m) ℝ → M) (hG : ∀ c, G ⟨c, 0, false⟩ = 0) :
    (((⟨s, d, true⟩ : Row _ _) :: (gridSites n m).flatMap (siteRows off pbc dim s)).map G).sum =
      G ⟨s, d, true⟩ + ((gridBonds n m pbc).map fun b =>
        if s b.1 ≠ s b.2 then G ⟨exchange b.1 b.2 s, off, true⟩ else 0).sum := by
  rw [List.map_cons, List.sum_cons]
  congr 1
  rw [sum_flatMap, sum_gridSites, sum_gridBonds]
  apply Finset.sum_congr rfl
  intro p _
  have hax : ∀ nb : Option (Fin n × Fin m), G (axisRow off s p nb) =
      (nb.map fun b => if s p ≠ s b then G ⟨exchange p b s, off, true⟩ else 0).getD 0 := by
    intro nb
    cases nb with
    | none => simp [axisRow, emptyRow, hG]
    | some b =>
      by_cases h : s p = s b
      · simp [axisRow, bondRow, h, hG]
      · simp [axisRow, bondRow, h]
  unfold siteRows
  rw [List.map_append, List.sum_append, List.map_append, List.sum_append, List.map_replicate,
    List.sum_replicate]
  have : G (emptyRow s) = 0 := hG s
  rw [this, smul_zero, add_zero]
  congr 1
  · split
    · rw [List.map_singleton, List.sum_singleton, hax, Option.map_map]
      rfl
    · rfl
  · split
    · rw [List.map_singleton, List.sum_singleton, hax, Option.map_map]
      rfl
    · rfl

end heis

end Verif.Operators
