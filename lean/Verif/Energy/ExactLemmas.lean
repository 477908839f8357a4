import Verif.Energy.Exact
import Mathlib.Algebra.BigOperators.Field
import Mathlib.Tactic.Ring
import Mathlib.Tactic.FieldSimp
import Mathlib.Tactic.Linarith
import Mathlib.LinearAlgebra.Matrix.DotProduct
import Mathlib.Analysis.RCLike.Basic
import Mathlib.LinearAlgebra.Matrix.ConjTranspose

/-! Closed forms of the arrays computed by the exact model. -/
namespace Verif.Energy.Exact

variable {σ : Type}

theorem pyRange_dvd (q bs : Nat) (hbs : 0 < bs) : pyRange (q * bs) bs = (List.range q).map fun k => k * bs := by
  unfold pyRange
  congr 2
  rw [show q * bs + bs - 1 = (bs - 1) + bs * q by rw [Nat.mul_comm bs q]; omega, Nat.add_mul_div_left _ _ hbs,
    Nat.div_eq_of_lt (by omega), Nat.zero_add]

/-- A loop over the slices that fills slice `i` with `f (i + k)` produces `f`. -/
theorem foldl_setSlice {α : Type} (f : Nat → α) (v : Nat → Nat → α) (bs : Nat) (hbs : 0 < bs)
    (hv : ∀ i k, k < bs → v i k = f (i + k)) (a : Nat → α) (q : Nat) (x : Nat) :
    ((pyRange (q * bs) bs).foldl (fun a i => setSlice a i bs (v i)) a) x = if x < q * bs then f x else a x := by
  rw [pyRange_dvd q bs hbs]
  induction q with
  | zero => simp
  | succ q ih =>
    rw [List.range_succ, List.map_append, List.foldl_append, List.map_singleton, List.foldl_cons, List.foldl_nil]
    unfold setSlice
    by_cases hx : q * bs ≤ x ∧ x < q * bs + bs
    · rw [if_pos hx, if_pos (by rw [Nat.succ_mul]; omega), hv _ _ (by omega)]
      congr 1
      omega
    · rw [if_neg hx]
      have ih' := ih
      unfold setSlice at ih'
      rw [ih']
      by_cases h2 : x < q * bs
      · rw [if_pos h2, if_pos (by rw [Nat.succ_mul]; omega)]
      · rw [if_neg h2, if_neg (by rw [Nat.succ_mul]; omega)]

theorem setBatchSize_ok {S batch bs : Nat} (h : setBatchSize S batch = .ok bs) :
    0 < bs ∧ (∃ q, S = q * bs) ∧ bs = min batch S := by
  have hmin : (if batch > S then S else batch) = min batch S := by split <;> omega
  unfold setBatchSize at h
  simp only [hmin] at h
  by_cases h0 : min batch S = 0
  · rw [if_pos h0] at h; cases h
  · rw [if_neg h0] at h
    by_cases h1 : S % min batch S = 0
    · rw [if_neg (not_not.mpr h1)] at h
      injection h with h
      subst h
      refine ⟨by omega, ⟨S / min batch S, ?_⟩, rfl⟩
      exact (Nat.div_mul_cancel (Nat.dvd_of_mod_eq_zero h1)).symm
    · rw [if_pos h1] at h; cases h

/-- The shift by the maximum in `complex_norm_log_fsum_exp` has no effect. -/
theorem logSumExp_shift {S : Nat} (hS : 0 < S) (r : Fin S → ℝ) (m : ℝ) :
    Real.log (∑ x, Real.exp (r x - m)) + m = Real.log (∑ x, Real.exp (r x)) := by
  have : ∑ x, Real.exp (r x - m) = (∑ x, Real.exp (r x)) * Real.exp (-m) := by
    rw [Finset.sum_mul]
    apply Finset.sum_congr rfl
    intro x _
    rw [← Real.exp_add]
    rfl
  have hpos : 0 < ∑ x, Real.exp (r x) := by
    haveI : Nonempty (Fin S) := ⟨⟨0, hS⟩⟩
    exact Finset.sum_pos (fun x _ => Real.exp_pos _) Finset.univ_nonempty
  rw [this, Real.log_mul hpos.ne' (Real.exp_pos _).ne', Real.log_exp]
  ring

theorem norm_exp_sq (z : ℂ) : ‖Complex.exp z‖ ^ 2 = Real.exp (2 * z.re) := by
  rw [Complex.norm_exp, ← Real.exp_nat_mul]
  norm_num

/-- Closed form of one refresh: amplitudes `ψ x = exp (net (states x))`. -/
structure Closed (s : Setup σ) (t : Tables) (net : σ → ℂ) (a : Arrays) : Prop where
  normSq : a.normSq = ∑ x : Fin s.S, ‖Complex.exp (net (s.states x))‖ ^ 2
  probs : ∀ x < s.S, a.probs x = ‖Complex.exp (net (s.states x))‖ ^ 2 / ∑ y : Fin s.S, ‖Complex.exp (net (s.states y))‖ ^ 2
  energies : ∀ x < s.S, (∀ j < t.R, t.idx j x < s.S) → t.idx 0 x < s.S →
    a.energies x = (∑ j : Fin t.R, (starRingEnd ℂ) (t.mel j x) *
      ((starRingEnd ℂ) (Complex.exp (net (s.states (t.idx j x)))) * Complex.exp (net (s.states (t.idx 0 x))))) /
      ((∑ y : Fin s.S, ‖Complex.exp (net (s.states y))‖ ^ 2 : ℝ) : ℂ)
  naive : ∀ x < s.S, (∀ j < t.R, t.idx j x < s.S) → t.idx 0 x < s.S →
    a.naive x = ∑ j : Fin t.R, t.mel j x *
      (Complex.exp (net (s.states (t.idx j x))) / Complex.exp (net (s.states (t.idx 0 x))))
  energy : a.energy = ∑ x : Fin s.S, a.energies x
  variance : a.variance = ∑ x : Fin s.S, a.probs x * ((a.naive x - a.energy).re) ^ 2
  coeff : ∀ x, a.coeff x = a.energies x - (a.probs x : ℂ) * a.energy
  wave : ∀ x < s.S, a.waveFunction x = net (s.states x)

theorem normSq_pos {S : Nat} (hS : 0 < S) (ψ : Fin S → ℂ) : 0 < ∑ x, ‖Complex.exp (ψ x)‖ ^ 2 := by
  haveI : Nonempty (Fin S) := ⟨⟨0, hS⟩⟩
  exact Finset.sum_pos (fun x _ => pow_pos (norm_pos_iff.2 (Complex.exp_ne_zero _)) 2) Finset.univ_nonempty

theorem machineUpdated_closed (s : Setup σ) (bs : Nat) (hbs : 0 < bs) (q : Nat) (hS : s.S = q * bs) (hpos : 0 < s.S)
    (t : Tables) (net : σ → ℂ) (a : Arrays) : Closed s t net (machineUpdated s bs t net a) := by
  have hwf : ∀ x < s.S, (updateWaveFunction s bs net a).waveFunction x = net (s.states x) := by
    intro x hx
    have := foldl_setSlice (fun x => net (s.states x)) (fun i k => net (slice s i k)) bs hbs (fun i k _ => rfl)
      a.waveFunction q x
    rw [← hS, if_pos hx] at this
    exact this
  have hpsi : ∀ x, (updateWaveFunction s bs net a).psiSquared x = (updateWaveFunction s bs net a).waveFunction x * 2 :=
    fun x => rfl
  have hre : ∀ x < s.S, ((updateWaveFunction s bs net a).psiSquared x).re = 2 * (net (s.states x)).re := by
    intro x hx
    rw [hpsi, hwf x hx]
    simp
    ring
  have hlog : complexNormLogSumExp s.S (updateWaveFunction s bs net a).psiSquared =
      Real.log (∑ x : Fin s.S, ‖Complex.exp (net (s.states x))‖ ^ 2) := by
    unfold complexNormLogSumExp
    simp only
    rw [logSumExp_shift hpos]
    congr 1
    apply Finset.sum_congr rfl
    intro x _
    rw [hre x x.isLt, norm_exp_sq]
  have hnp := normSq_pos hpos fun x : Fin s.S => net (s.states x)
  have hnorm : (updateWaveFunction s bs net a).normSq = ∑ x : Fin s.S, ‖Complex.exp (net (s.states x))‖ ^ 2 := by
    have : (updateWaveFunction s bs net a).normSq =
        Real.exp (complexNormLogSumExp s.S (updateWaveFunction s bs net a).psiSquared) := rfl
    rw [this, hlog, Real.exp_log hnp]
  have hprobs : ∀ x < s.S, (updateWaveFunction s bs net a).probs x =
      ‖Complex.exp (net (s.states x))‖ ^ 2 / ∑ y : Fin s.S, ‖Complex.exp (net (s.states y))‖ ^ 2 := by
    intro x hx
    have : (updateWaveFunction s bs net a).probs x = Real.exp (((updateWaveFunction s bs net a).psiSquared x).re -
        complexNormLogSumExp s.S (updateWaveFunction s bs net a).psiSquared) := rfl
    rw [this, hre x hx, hlog, Real.exp_sub, Real.exp_log hnp, norm_exp_sq]
  refine ⟨hnorm, hprobs, ?_, ?_, rfl, ?_, fun _ => rfl, hwf⟩
  · intro x hx hidx h0
    have := foldl_setSlice (fun x => sliceEnergies t (updateWaveFunction s bs net a) 0 x)
      (fun i k => sliceEnergies t (updateWaveFunction s bs net a) i k) bs hbs
      (fun i k _ => by unfold sliceEnergies; simp only [Nat.zero_add])
      (updateWaveFunction s bs net a).energies q x
    rw [← hS, if_pos hx] at this
    refine this.trans ?_
    unfold sliceEnergies
    dsimp only
    rw [hnorm]
    congr 1
    apply Finset.sum_congr rfl
    intro j _
    simp only [Nat.zero_add]
    rw [hwf _ (hidx j j.isLt), hwf _ h0, Complex.exp_add, Complex.exp_conj]
  · intro x hx hidx h0
    have := foldl_setSlice (fun x => sliceNaive t (updateWaveFunction s bs net a) 0 x)
      (fun i k => sliceNaive t (updateWaveFunction s bs net a) i k) bs hbs
      (fun i k _ => by unfold sliceNaive; simp only [Nat.zero_add])
      (updateWaveFunction s bs net a).naive q x
    rw [← hS, if_pos hx] at this
    refine this.trans ?_
    unfold sliceNaive
    apply Finset.sum_congr rfl
    intro j _
    simp only [Nat.zero_add]
    rw [hwf _ (hidx j j.isLt), hwf _ h0, Complex.exp_sub]
  · have : (machineUpdated s bs t net a).variance = ∑ x : Fin s.S,
      (((machineUpdated s bs t net a).naive x - (machineUpdated s bs t net a).energy).re *
        ((machineUpdated s bs t net a).naive x - (machineUpdated s bs t net a).energy).re) *
        (machineUpdated s bs t net a).probs x := rfl
    rw [this]
    apply Finset.sum_congr rfl
    intro x _
    ring

theorem setSlice_out {α : Type} (a : Nat → α) (i len : Nat) (v : Nat → α) (x : Nat) (h : ¬ (i ≤ x ∧ x < i + len)) :
    setSlice a i len v x = a x := if_neg h

theorem setSlice_in {α : Type} (a : Nat → α) (i len : Nat) (v : Nat → α) (x : Nat) (h : i ≤ x ∧ x < i + len) :
    setSlice a i len v x = v (x - i) := if_pos h

/-- The operator answers row by row: for a sample `s` it lists `rows s`, possibly followed by padding
rows with matrix element zero, whatever else is in the batch; the first row is the sample, all listed
connections are states, and it never returns more rows than it announces. -/
structure RowWise (s : Setup σ) (rows : σ → List (σ × ℂ)) : Prop where
  first : ∀ x < s.S, ∃ m, (rows (s.states x)).head? = some (s.states x, m)
  enough : ∀ B batch b, b < B → (rows (batch b)).length ≤ (s.find B batch).count
  row : ∀ B batch b, b < B → ∀ j (hj : j < (rows (batch b)).length),
    (s.find B batch).conn j b = (rows (batch b))[j].1 ∧ (s.find B batch).mel j b = (rows (batch b))[j].2
  pad : ∀ B batch b, b < B → ∀ j, (rows (batch b)).length ≤ j → j < (s.find B batch).count →
    (s.find B batch).mel j b = 0
  code : ∀ B batch b, b < B → (∃ x < s.S, batch b = s.states x) → ∀ j < (s.find B batch).count,
    s.encode ((s.find B batch).conn j b) < s.S
  encode : ∀ x < s.S, s.encode (s.states x) = x
  announced : ∀ m, s.maxConn = some m → ∀ B batch, (s.find B batch).count ≤ m

/-- The tables are those of the rows. -/
structure TablesOk (s : Setup σ) (rows : σ → List (σ × ℂ)) (t : Tables) : Prop where
  enough : ∀ x < s.S, (rows (s.states x)).length ≤ t.R
  row : ∀ x < s.S, ∀ j (hj : j < (rows (s.states x)).length),
    t.idx j x = s.encode (rows (s.states x))[j].1 ∧ t.mel j x = (rows (s.states x))[j].2
  pad : ∀ x < s.S, ∀ j, (rows (s.states x)).length ≤ j → t.mel j x = 0
  code : ∀ x < s.S, ∀ j, t.idx j x < s.S

theorem le_foldl_max {α : Type} (l : List α) (c : α → Nat) : ∀ m0 : Nat,
    m0 ≤ l.foldl (fun m i => if c i > m then c i else m) m0 ∧
    ∀ i ∈ l, c i ≤ l.foldl (fun m i => if c i > m then c i else m) m0 := by
  induction l with
  | nil => intro m0; simp
  | cons a l ih =>
    intro m0
    rw [List.foldl_cons]
    obtain ⟨h1, h2⟩ := ih (if c a > m0 then c a else m0)
    refine ⟨le_trans (by split <;> omega) h1, ?_⟩
    intro i hi
    rw [List.mem_cons] at hi
    rcases hi with rfl | hi
    · exact le_trans (by split <;> omega) h1
    · exact h2 i hi

theorem buildConnections_ok (s : Setup σ) (rows : σ → List (σ × ℂ)) (h : RowWise s rows) (bs q : Nat) (hbs : 0 < bs)
    (hS : s.S = q * bs) (hpos : 0 < s.S) : ∃ t, buildConnections s bs = .ok t ∧ TablesOk s rows t := by
  unfold buildConnections
  simp only
  obtain ⟨R, hRdef⟩ : ∃ R, R = s.maxConn.getD (calcMaxConn s bs) := ⟨_, rfl⟩
  rw [← hRdef]
  have hR : ∀ i ∈ pyRange s.S bs, (s.find bs (slice s i)).count ≤ R := by
    intro i hi
    rw [hRdef]
    cases hm : s.maxConn with
    | some m => exact h.announced m hm _ _
    | none => exact (le_foldl_max (pyRange s.S bs) (fun i => (s.find bs (slice s i)).count) 0).2 i hi
  rw [hS, pyRange_dvd q bs hbs] at hR ⊢
  have key : ∀ k ≤ q, ∃ t, ((List.range k).map fun k => k * bs).foldl (buildStep s bs R)
      (.ok ⟨R, fun _ _ => 0, fun _ _ => 0⟩) = .ok t ∧ t.R = R ∧
      (∀ x < k * bs, (rows (s.states x)).length ≤ R ∧ (∀ j (hj : j < (rows (s.states x)).length),
        t.idx j x = s.encode (rows (s.states x))[j].1 ∧ t.mel j x = (rows (s.states x))[j].2) ∧
        (∀ j, (rows (s.states x)).length ≤ j → t.mel j x = 0) ∧ ∀ j, t.idx j x < s.S) ∧
      (∀ x, k * bs ≤ x → ∀ j, t.mel j x = 0) := by
    intro k
    induction k with
    | zero => intro _; exact ⟨_, rfl, rfl, by simp, by simp⟩
    | succ k ih =>
      intro hk
      obtain ⟨t, ht, htR, hrows, hzero⟩ := ih (by omega)
      rw [List.range_succ, List.map_append, List.foldl_append, ht, List.map_singleton, List.foldl_cons, List.foldl_nil]
      have hcount := hR (k * bs) (by
        rw [List.mem_map]; exact ⟨k, by rw [List.mem_range]; omega, rfl⟩)
      have hkS : k * bs + bs ≤ s.S := by
        rw [hS, ← Nat.succ_mul]; exact Nat.mul_le_mul_right _ hk
      unfold buildStep
      simp only [Except.bind]
      rw [if_neg (by omega)]
      refine ⟨_, rfl, rfl, ?_, ?_⟩
      · intro x hx
        rw [Nat.succ_mul] at hx
        simp only
        by_cases hold : x < k * bs
        · have hns : ¬ (k * bs ≤ x ∧ x < k * bs + bs) := by omega
          obtain ⟨h1, h2, h3, h4⟩ := hrows x hold
          refine ⟨h1, ?_, ?_, ?_⟩
          · intro j hj
            have := h2 j hj
            constructor
            · rw [← this.1]; unfold setSlice; rw [if_neg hns]
            · rw [← this.2]; split
              · rw [setSlice_out _ _ _ _ _ hns]
              · rfl
          · intro j hj
            rw [← h3 j hj]; split
            · rw [setSlice_out _ _ _ _ _ hns]
            · rfl
          · intro j
            unfold setSlice; rw [if_neg hns]; exact h4 j
        · have hin : k * bs ≤ x ∧ x < k * bs + bs := by omega
          have hb : x - k * bs < bs := by omega
          have hst : slice s (k * bs) (x - k * bs) = s.states x := by
            unfold slice; congr 1; omega
          have he := h.enough bs (slice s (k * bs)) _ hb
          have hr := h.row bs (slice s (k * bs)) _ hb
          have hp := h.pad bs (slice s (k * bs)) _ hb
          have hc := h.code bs (slice s (k * bs)) _ hb ⟨x, by omega, hst⟩
          rw [hst] at he hp
          simp only [hst] at hr
          refine ⟨by omega, ?_, ?_, ?_⟩
          · intro j hj
            have := hr j hj
            have hjc : j < (s.find bs (slice s (k * bs))).count := by omega
            rw [if_pos hjc, setSlice_in _ _ _ _ _ hin, setSlice_in _ _ _ _ _ hin, if_pos hjc, this.1]
            exact ⟨rfl, this.2⟩
          · intro j hj
            by_cases hjc : j < (s.find bs (slice s (k * bs))).count
            · rw [if_pos hjc, setSlice_in _ _ _ _ _ hin]; exact hp j hj hjc
            · rw [if_neg hjc]; exact hzero x hin.1 j
          · intro j
            unfold setSlice
            rw [if_pos hin]
            dsimp only
            by_cases hjc : j < (s.find bs (slice s (k * bs))).count
            · rw [if_pos hjc]; exact hc j hjc
            · rw [if_neg hjc]; exact hpos
      · intro x hx j
        rw [Nat.succ_mul] at hx
        simp only
        split
        · rw [setSlice_out _ _ _ _ _ (by omega)]; exact hzero x (by omega) j
        · exact hzero x (by omega) j
  obtain ⟨t, ht, htR, hrows, -⟩ := key q le_rfl
  rw [← hS] at hrows
  refine ⟨t, ht, ?_⟩
  exact ⟨fun x hx => by rw [htR]; exact (hrows x hx).1, fun x hx => (hrows x hx).2.1, fun x hx => (hrows x hx).2.2.1,
    fun x hx => (hrows x hx).2.2.2⟩

end Verif.Energy.Exact
