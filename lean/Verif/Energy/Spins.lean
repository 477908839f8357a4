import Verif.Energy.GeneratorProps
import Verif.Energy.LocalProps
import Verif.Exact.Props
import Mathlib.Logic.Equiv.Fin.Basic

/-!
# Exact evaluation of the spin Hamiltonians

The set-up of `ExactVariational` for the operators of the library; the end-to-end form of C20, and
the instances that show that the hypotheses of C19 to C24 are met.
-/
namespace Verif.Energy.Exact

open Verif.Operators Verif.Exact

variable {ι : Type} [DecidableEq ι] [Fintype ι] {N : Nat}

/-- Line 121 of exact_variational.py: row `x` of `decimal_array_to_binary_array(arange(2^N), N, False)`
reshaped to the lattice; `e` numbers the sites in row-major order. -/
def spinState (e : ι ≃ Fin N) (x : Nat) : Config ι := fun i => (decimalToBinary false N (x : Int)).getD (e i) 0

/-- Lines 59-63: `(c + 1) // 2`, flattened, through `binary_array_to_decimal_array` (an int32 array;
the error of more than 63 spins is number 0 here, the theorems assume at most 31 spins). -/
def spinCode (e : ι ≃ Fin N) (c : Config ι) : Nat :=
  ((binaryArrayToDecimalEntry (List.ofFn fun k => (c (e.symm k) + 1) / 2)).getD 0).toNat

/-- The answer of `find_conn` for a batch of `B` samples as arrays. -/
noncomputable def spinFind (op : (B : Nat) → (Fin B → Config ι) → Fin B → List (Row ι ℝ)) (R B : Nat)
    (batch : Nat → Config ι) : Found (Config ι) where
  count := R
  conn j b := if h : b < B then (((op B fun k => batch k) ⟨b, h⟩)[j]?.map Row.conn).getD (batch b) else batch b
  mel j b := if h : b < B then ((((op B fun k => batch k) ⟨b, h⟩)[j]?.map Row.mel).getD 0 : ℝ) else 0

/-- `ExactVariational` for an operator on the sites `ι` that announces `R` rows. -/
noncomputable def spinSetup (e : ι ≃ Fin N) (op : (B : Nat) → (Fin B → Config ι) → Fin B → List (Row ι ℝ)) (R : Nat) :
    Setup (Config ι) := ⟨2 ^ N, spinState e, spinCode e, spinFind op R, some R⟩

omit [DecidableEq ι] [Fintype ι] in
theorem spinState_spin (e : ι ≃ Fin N) (x : Nat) : IsSpin (spinState e x) := by
  intro i
  unfold spinState
  have hlen := length_decimalToBinary false N (x : Int)
  have hlt : (e i).val < (decimalToBinary false N (x : Int)).length := by rw [hlen]; exact (e i).isLt
  have := digitOk_decimalToBinary false N (x : Int) _ (List.getElem_mem hlt)
  rw [List.getD_eq_getElem _ _ hlt]
  unfold digitOk at this
  simp at this
  omega

theorem val_half (ds : List Int) (h : ∀ d ∈ ds, d = 1 ∨ d = -1) : val (ds.map fun d => (d + 1) / 2) = val ds := by
  induction ds with
  | nil => rfl
  | cons d ds ih =>
    rw [List.map_cons, val, val, ih fun d hd => h d (List.mem_cons_of_mem _ hd)]
    rcases h d (List.mem_cons_self ..) with rfl | rfl <;> simp

omit [DecidableEq ι] [Fintype ι] in
theorem spinCode_eq (e : ι ≃ Fin N) (hN : N ≤ 31) (c : Config ι) :
    spinCode e c = (val (List.ofFn fun k => (c (e.symm k) + 1) / 2)).toNat := by
  unfold spinCode
  rw [binaryArrayToDecimalEntry_eq _ (by simp; omega), Option.getD_some, wrap32_of_lt (val_nonneg _)]
  refine lt_of_lt_of_le (val_lt _) ?_
  rw [List.length_ofFn]
  exact pow_le_pow_right₀ (by norm_num) hN

omit [DecidableEq ι] [Fintype ι] in
theorem spinCode_lt (e : ι ≃ Fin N) (hN : N ≤ 31) (c : Config ι) : spinCode e c < 2 ^ N := by
  rw [spinCode_eq e hN]
  have h1 := val_nonneg (List.ofFn fun k => (c (e.symm k) + 1) / 2)
  have h2 := val_lt (List.ofFn fun k => (c (e.symm k) + 1) / 2)
  rw [List.length_ofFn] at h2
  zify
  rw [Int.toNat_of_nonneg h1]
  exact h2

omit [DecidableEq ι] [Fintype ι] in
theorem spinCode_state (e : ι ≃ Fin N) (hN : N ≤ 31) (x : Nat) (hx : x < 2 ^ N) : spinCode e (spinState e x) = x := by
  rw [spinCode_eq e hN]
  have hlen := length_decimalToBinary false N (x : Int)
  have hlist : (List.ofFn fun k => (spinState e x (e.symm k) + 1) / 2) =
      (decimalToBinary false N (x : Int)).map fun d => (d + 1) / 2 := by
    apply List.ext_getElem
    · simp [hlen]
    · intro k h1 h2
      simp only [List.length_map] at h2
      simp [spinState, List.getElem?_eq_getElem h2]
  rw [hlist, val_half, val_decimalToBinary, Int.emod_eq_of_lt (by positivity) (by exact_mod_cast hx)]
  · simp
  · intro d hd
    have := digitOk_decimalToBinary false N (x : Int) _ hd
    unfold digitOk at this
    simp at this
    omega

omit [DecidableEq ι] [Fintype ι] in
theorem spinState_code (e : ι ≃ Fin N) (hN : N ≤ 31) (c : Config ι) (hc : IsSpin c) : spinState e (spinCode e c) = c := by
  rw [spinCode_eq e hN]
  have hlist : (List.ofFn fun k => (c (e.symm k) + 1) / 2) = (List.ofFn fun k => c (e.symm k)).map fun d => (d + 1) / 2 := by
    rw [List.map_ofFn]; rfl
  have hspin : ∀ d ∈ List.ofFn (fun k => c (e.symm k)), d = 1 ∨ d = -1 := by
    intro d hd
    rw [List.mem_ofFn] at hd
    obtain ⟨k, rfl⟩ := hd
    exact hc _
  rw [hlist, val_half _ hspin]
  have hr := C01_spins_roundtrip false N (List.ofFn fun k => c (e.symm k))
    ⟨by simp, fun d hd => by simpa using hspin d hd⟩
  rw [binaryToDecimal_eq_val] at hr
  funext i
  unfold spinState
  rw [Int.toNat_of_nonneg hr.2.1, hr.1]
  simp [List.getD_eq_getElem?_getD]

/-- An operator whose answer for a sample is `rowsOf` of that sample, with `R` rows of which the first
is the sample. -/
structure RowsOf (op : (B : Nat) → (Fin B → Config ι) → Fin B → List (Row ι ℝ)) (R : Nat)
    (rowsOf : Config ι → List (Row ι ℝ)) : Prop where
  eq : ∀ B sample x, op B sample x = rowsOf (sample x)
  length : ∀ s, (rowsOf s).length = R
  first : ∀ s, IsSpin s → ∃ m, (rowsOf s).head? = some ⟨s, m, true⟩
  spins : ∀ s, IsSpin s → ∀ r ∈ rowsOf s, IsSpin r.conn
  symm : ∀ s t, matrixElement (rowsOf s) t = matrixElement (rowsOf t) s

/-- The rows as pairs of configuration and complex element. -/
noncomputable def pairs (rows : List (Row ι ℝ)) : List (Config ι × ℂ) := rows.map fun r => (r.conn, (r.mel : ℂ))

omit [DecidableEq ι] [Fintype ι] in
theorem rowWise_of [DecidableEq ι] (e : ι ≃ Fin N) (hN : N ≤ 31) {op : (B : Nat) → (Fin B → Config ι) → Fin B → List (Row ι ℝ)}
    {R : Nat} {rowsOf : Config ι → List (Row ι ℝ)} (h : RowsOf op R rowsOf) :
    RowWise (spinSetup e op R) fun s => pairs (rowsOf s) := by
  have hlen : ∀ s, (pairs (rowsOf s)).length = R := by intro s; unfold pairs; rw [List.length_map, h.length]
  refine ⟨?_, ?_, ?_, ?_, ?_, ?_, ?_⟩
  · intro x hx
    obtain ⟨m, hm⟩ := h.first (spinState e x) (spinState_spin e x)
    refine ⟨(m : ℂ), ?_⟩
    unfold pairs
    rw [List.head?_map]
    show ((rowsOf (spinState e x)).head?).map _ = _
    rw [hm]
    rfl
  · intro B batch b hb
    rw [hlen]
    exact le_rfl
  · intro B batch b hb j hj
    have hj' : j < (rowsOf (batch b)).length := by rw [hlen] at hj; rw [h.length]; exact hj
    simp only [spinSetup, spinFind, dif_pos hb, h.eq]
    rw [List.getElem?_eq_getElem hj']
    simp [pairs]
  · intro B batch b hb j h1 h2
    rw [hlen] at h1
    have : (spinSetup e op R).find B batch = spinFind op R B batch := rfl
    rw [this] at h2
    have : j < R := h2
    omega
  · intro B batch b _ _ j _
    exact spinCode_lt e hN _
  · intro x hx
    exact spinCode_state e hN x hx
  · intro m hm B batch
    have : some R = some m := hm
    rw [← Option.some.inj this]
    exact le_rfl

/-- The matrix of the operator is the table of its matrix elements. -/
theorem opMatrix_spin (e : ι ≃ Fin N) (hN : N ≤ 31) {op : (B : Nat) → (Fin B → Config ι) → Fin B → List (Row ι ℝ)}
    {R : Nat} {rowsOf : Config ι → List (Row ι ℝ)} (h : RowsOf op R rowsOf) (x y : Fin (spinSetup e op R).S) :
    opMatrix (spinSetup e op R) (fun s => pairs (rowsOf s)) x y =
      (matrixElement (rowsOf (spinState e x)) (spinState e y) : ℂ) := by
  unfold opMatrix matrixElement pairs
  have hsp := h.spins (spinState e x) (spinState_spin e x)
  rw [List.map_map]
  change ((rowsOf (spinState e x)).map _).sum = _
  generalize rowsOf (spinState e x) = rows at hsp
  induction rows with
  | nil => simp
  | cons r rows ih =>
    rw [List.map_cons, List.sum_cons, ih fun r hr => hsp r (List.mem_cons_of_mem _ hr), List.map_cons, List.sum_cons,
      Complex.ofReal_add]
    congr 1
    have hr := hsp r (List.mem_cons_self ..)
    have hiff : (spinSetup e op R).encode r.conn = y ↔ r.conn = spinState e y := by
      constructor
      · intro hy; rw [← hy]; exact (spinState_code e hN _ hr).symm
      · intro hy; rw [hy]; exact spinCode_state e hN _ y.isLt
    simp only [Function.comp]
    by_cases hy : r.conn = spinState e y
    · rw [if_pos (hiff.2 hy), if_pos hy]
    · rw [if_neg fun h' => hy (hiff.1 h'), if_neg hy, Complex.ofReal_zero]

theorem opMatrix_hermitian (e : ι ≃ Fin N) (hN : N ≤ 31) {op : (B : Nat) → (Fin B → Config ι) → Fin B → List (Row ι ℝ)}
    {R : Nat} {rowsOf : Config ι → List (Row ι ℝ)} (h : RowsOf op R rowsOf) :
    (opMatrix (spinSetup e op R) (fun s => pairs (rowsOf s))).IsHermitian := by
  ext x y
  rw [Matrix.conjTranspose_apply, opMatrix_spin e hN h, opMatrix_spin e hN h, h.symm]
  exact Complex.conj_ofReal _

theorem opMatrix_mulVec (e : ι ≃ Fin N) (hN : N ≤ 31) {op : (B : Nat) → (Fin B → Config ι) → Fin B → List (Row ι ℝ)}
    {R : Nat} {rowsOf : Config ι → List (Row ι ℝ)} (h : RowsOf op R rowsOf) (ψ : Wave ι) (x : Fin (spinSetup e op R).S) :
    (Matrix.mulVec (opMatrix (spinSetup e op R) (fun s => pairs (rowsOf s))) fun y => ψ (spinState e y)) x =
      applyRows (rowsOf (spinState e x)) ψ := by
  unfold Matrix.mulVec dotProduct opMatrix applyRows pairs
  have hsp := h.spins (spinState e x) (spinState_spin e x)
  simp only [List.map_map]
  change ∑ y, ((rowsOf (spinState e x)).map _).sum * _ = _
  generalize rowsOf (spinState e x) = rows at hsp
  induction rows with
  | nil => simp
  | cons r rows ih =>
    simp only [List.map_cons, List.sum_cons, add_mul]
    rw [Finset.sum_add_distrib, ih fun r hr => hsp r (List.mem_cons_of_mem _ hr)]
    congr 1
    have hr := hsp r (List.mem_cons_self ..)
    rw [Finset.sum_eq_single (⟨spinCode e r.conn, spinCode_lt e hN _⟩ : Fin (spinSetup e op R).S)]
    · simp only [Function.comp]
      rw [if_pos (show (spinSetup e op R).encode r.conn = spinCode e r.conn from rfl), spinState_code e hN _ hr]
    · intro y _ hy
      simp only [Function.comp]
      rw [if_neg fun h' => hy (Fin.ext h'.symm), zero_mul]
    · simp

/-- Sums over the state numbers are sums over all spin configurations. -/
theorem sum_states (e : ι ≃ Fin N) (hN : N ≤ 31) (f : Config ι → ℂ) :
    ∑ x : Fin (2 ^ N), f (spinState e x) = ∑ s ∈ allSpins ι, f s := by
  refine Finset.sum_bij (fun x _ => spinState e x) (fun x _ => (mem_allSpins _).2 (spinState_spin e x)) ?_ ?_
    (fun _ _ => rfl)
  · intro x _ y _ hxy
    apply Fin.ext
    rw [← spinCode_state e hN x x.isLt, ← spinCode_state e hN y y.isLt, hxy]
  · intro s hs
    exact ⟨⟨spinCode e s, spinCode_lt e hN s⟩, Finset.mem_univ _, spinState_code e hN s ((mem_allSpins s).1 hs)⟩

/-- What end-to-end C20 demands: whatever batch size is accepted and whatever was evaluated before, the
reported energy for the current network is the Rayleigh quotient of the Hamiltonian `H`, and real. -/
def ExactEnergy (e : ι ≃ Fin N) (op : (B : Nat) → (Fin B → Config ι) → Fin B → List (Row ι ℝ)) (R : Nat)
    (H : Wave ι → Wave ι) : Prop :=
  ∀ batch, 0 < batch → (2 ^ N ≤ batch ∨ batch ∣ 2 ^ N) → ∃ o, Obj.new (spinSetup e op R) batch = .ok o ∧
    ∀ nets net, (after o nets net).arrays.energy = Energy.rayleigh H (fun s => Complex.exp (net s)) ∧
      (after o nets net).arrays.energy.im = 0

theorem exactEnergy_of (e : ι ≃ Fin N) (hN : N ≤ 31) {op : (B : Nat) → (Fin B → Config ι) → Fin B → List (Row ι ℝ)}
    {R : Nat} {rowsOf : Config ι → List (Row ι ℝ)} (h : RowsOf op R rowsOf) (H : Wave ι → Wave ι)
    (hH : ∀ s, IsSpin s → ∀ ψ, applyRows (rowsOf s) ψ = H ψ s) : ExactEnergy e op R H := by
  intro batch hb hacc
  have hr := rowWise_of e hN h
  have hpos : 0 < (spinSetup e op R).S := by show 0 < 2 ^ N; positivity
  obtain ⟨o, ho⟩ := (C22_batch_independent _ _ hr hpos batch).1.2 ⟨hb, hacc⟩
  refine ⟨o, ho, ?_⟩
  intro nets net
  obtain ⟨h1, h2, -⟩ := C20_exact_energy _ _ hr (opMatrix_hermitian e hN h) batch o ho nets net
  refine ⟨?_, h2⟩
  rw [h1]
  unfold rayleigh Energy.rayleigh
  have hamp : amplitudes (spinSetup e op R) net = fun y : Fin (spinSetup e op R).S => (fun s => Complex.exp (net s)) (spinState e y) := rfl
  rw [hamp]
  rw [← sum_states e hN, ← sum_states e hN]
  congr 1
  unfold dotProduct
  refine Finset.sum_congr rfl fun x _ => ?_
  rw [opMatrix_mulVec e hN h (fun s => Complex.exp (net s)) x, hH _ (spinState_spin e x)]
  rfl

theorem rowsOf_ising_chain (n : Nat) (h j : ℝ) (pbc : Bool) :
    RowsOf (ι := Fin n) (fun B sample => isingFindConn1 (.float h) j pbc sample) (n + 1)
      (fun s => isingFindConn1 (.float h) j pbc (fun _ : Fin 1 => s) 0) := by
  refine ⟨?_, ?_, ?_, ?_, ?_⟩
  · intro B sample x; rw [isingFindConn1_eq, isingFindConn1_eq]
  · intro s; rw [isingFindConn1_eq]; simp
  · intro s hs; exact (C09_ising_chain (.float h) j pbc (fun _ : Fin 1 => s) 0 hs).first
  · intro s hs; exact (C09_ising_chain (.float h) j pbc (fun _ : Fin 1 => s) 0 hs).spins
  · intro s t
    exact C11_ising_chain (.float h) j pbc (fun _ : Fin 1 => s) (fun _ : Fin 1 => t) 0 0

theorem rowsOf_ising_grid (n m : Nat) (h j : ℝ) (pbc : Bool) :
    RowsOf (ι := Fin n × Fin m) (fun B sample => isingFindConn2 (.float h) j pbc sample) (n * m + 1)
      (fun s => isingFindConn2 (.float h) j pbc (fun _ : Fin 1 => s) 0) := by
  refine ⟨?_, ?_, ?_, ?_, ?_⟩
  · intro B sample x; rw [isingFindConn2_eq, isingFindConn2_eq]
  · intro s; rw [isingFindConn2_eq]; simp [length_gridSites]
  · intro s hs; exact (C09_ising_grid (.float h) j pbc (fun _ : Fin 1 => s) 0 hs).first
  · intro s hs; exact (C09_ising_grid (.float h) j pbc (fun _ : Fin 1 => s) 0 hs).spins
  · intro s t
    exact C11_ising_grid (.float h) j pbc (fun _ : Fin 1 => s) (fun _ : Fin 1 => t) 0 0

theorem rowsOf_heisenberg_grid (n m : Nat) (rot pbc : Bool) (history : List (Call n m)) :
    RowsOf (ι := Fin n × Fin m) (fun B sample => (((HeisOp.new2 n m rot pbc).run history).findConn B sample).2)
      (n * m * 2 + 1) (fun s => heisRows (offDiag rot) pbc 2 s) := by
  have hc := fun s hs => contract_heisRows (n := n) (m := m) (offDiag rot) pbc 2 (Or.inl rfl) s hs
  exact ⟨fun B sample x => answer2 rot pbc history B sample x, fun s => length_heisRows _ _ _ (Or.inl rfl) s,
    fun s hs => (hc s hs).first, fun s hs => (hc s hs).spins, fun s t => heisRows_symm _ _ _ (Or.inl rfl) s t⟩

theorem rowsOf_heisenberg_chain (n : Nat) (rot pbc : Bool) (history : List (Call n 1)) :
    RowsOf (ι := Fin n) (fun B sample => (((HeisOp.new1 n rot pbc).run history).findConn1 B sample).2)
      (n + 1) (fun s => (heisRows (offDiag rot) pbc 1 (expandDims s)).map squeezeRow) := by
  have ha : ∀ s : Config (Fin n), (((HeisOp.new1 n rot pbc).run history).findConn1 1 fun _ => s).2 0 =
      (heisRows (offDiag rot) pbc 1 (expandDims s)).map squeezeRow := fun s => answer1 rot pbc history 1 (fun _ => s) 0
  have hc := fun s hs => C09_heisenberg_chain rot pbc history 1 (fun _ : Fin 1 => (s : Config (Fin n))) 0 hs
  refine ⟨fun B sample x => answer1 rot pbc history B sample x, fun s => ?_, fun s hs => ?_, fun s hs => ?_, fun s t => ?_⟩
  · rw [List.length_map, length_heisRows _ _ _ (Or.inr ⟨rfl, rfl⟩)]; omega
  · rw [← ha]; exact (hc s hs).first
  · rw [← ha]; exact (hc s hs).spins
  · rw [matrixElement_squeeze, matrixElement_squeeze]
    exact heisRows_symm _ _ _ (Or.inr ⟨rfl, rfl⟩) _ _

/-- C20 end to end for the Ising model on chains of up to 31 sites (beyond, the code's int32 state
numbers wrap; a table of `2^31` amplitudes is already 32 GB). -/
theorem C20_ising_chain (n : Nat) (hn : n ≤ 31) (h j : ℝ) (pbc : Bool) :
    ExactEnergy (Equiv.refl (Fin n)) (fun _ sample => isingFindConn1 (.float h) j pbc sample) (n + 1)
      (tfim (chainBonds n pbc) h j) :=
  exactEnergy_of _ hn (rowsOf_ising_chain n h j pbc) _ fun s _ ψ => C06_ising_chain h j pbc (fun _ : Fin 1 => s) 0 ψ

/-- C20 end to end for the Ising model on grids; sites are numbered in row-major order. -/
theorem C20_ising_grid (n m : Nat) (hn : n * m ≤ 31) (h j : ℝ) (pbc : Bool) :
    ExactEnergy finProdFinEquiv (fun _ sample => isingFindConn2 (.float h) j pbc sample) (n * m + 1)
      (tfim (gridBonds n m pbc) h j) :=
  exactEnergy_of _ hn (rowsOf_ising_grid n m h j pbc) _ fun s _ ψ => C06_ising_grid h j pbc (fun _ : Fin 1 => s) 0 ψ

/-- C20 end to end for the Heisenberg model on grids. -/
theorem C20_heisenberg_grid (n m : Nat) (hn : n * m ≤ 31) (rot pbc : Bool) (history : List (Call n m)) :
    ExactEnergy finProdFinEquiv
      (fun B sample => (((HeisOp.new2 n m rot pbc).run history).findConn B sample).2) (n * m * 2 + 1)
      (heisenberg (gridBonds n m pbc) (if rot then -1 else 1)) :=
  exactEnergy_of _ hn (rowsOf_heisenberg_grid n m rot pbc history) _ fun s hs ψ =>
    applyRows_heisRows rot pbc 2 (Or.inl rfl) s hs ψ

/-- C20 end to end for the Heisenberg model on chains. -/
theorem C20_heisenberg_chain (n : Nat) (hn : n ≤ 31) (rot pbc : Bool) (history : List (Call n 1)) :
    ExactEnergy (Equiv.refl (Fin n))
      (fun B sample => (((HeisOp.new1 n rot pbc).run history).findConn1 B sample).2) (n + 1)
      (heisenberg (chainBonds' n pbc) (if rot then -1 else 1)) :=
  exactEnergy_of _ hn (rowsOf_heisenberg_chain n rot pbc history) _ fun s hs ψ => by
    have := C07_heisenberg_chain rot pbc history 1 (fun _ => s) 0 hs ψ
    rwa [answer1] at this

/-- The hypotheses of C19 to C24 are met: the periodic 3x2 Heisenberg model with batch size 16. -/
example : ∃ o, Obj.new (spinSetup finProdFinEquiv
      (fun B sample => (((HeisOp.new2 3 2 false true).run []).findConn B sample).2) 13) 16 = .ok o ∧
    RowWise (spinSetup (finProdFinEquiv (m := 3) (n := 2))
      (fun B sample => (((HeisOp.new2 3 2 false true).run []).findConn B sample).2) 13)
      (fun s => pairs (heisRows (offDiag false) true 2 s)) ∧
    (opMatrix (spinSetup (finProdFinEquiv (m := 3) (n := 2))
      (fun B sample => (((HeisOp.new2 3 2 false true).run []).findConn B sample).2) 13)
      (fun s => pairs (heisRows (offDiag false) true 2 s))).IsHermitian := by
  obtain ⟨o, ho, -⟩ := C20_heisenberg_grid 3 2 (by norm_num) false true [] 16 (by norm_num) (Or.inr (by norm_num))
  exact ⟨o, ho, rowWise_of _ (by norm_num) (rowsOf_heisenberg_grid 3 2 false true []),
    opMatrix_hermitian _ (by norm_num) (rowsOf_heisenberg_grid 3 2 false true [])⟩

end Verif.Energy.Exact
