import Verif.Energy.ExactLemmas
import Verif.Energy.Local
import Mathlib.Analysis.Matrix.PosDef
import Mathlib.Analysis.SpecialFunctions.ExpDeriv
import Mathlib.Analysis.Calculus.Deriv.Inv
import Mathlib.Analysis.Calculus.Deriv.Star
import Mathlib.Analysis.Complex.RealDeriv
import Mathlib.Tactic.LinearCombination

/-!
# Properties C19 to C24: exact evaluation and gradient coefficients
-/
namespace Verif.Energy.Exact

open Matrix ComplexOrder

variable {σ : Type}

/-! ### Specification -/

/-- The matrix of an operator that lists `rows s` for the state `s`: entry `(x, y)` is the sum of the
elements of the rows of state `x` that lead to state `y`. -/
noncomputable def opMatrix (s : Setup σ) (rows : σ → List (σ × ℂ)) : Matrix (Fin s.S) (Fin s.S) ℂ :=
  fun x y => ((rows (s.states x)).map fun r => if s.encode r.1 = y then r.2 else 0).sum

/-- The amplitudes `ψ(x) = exp(log-amplitude)` of the network. -/
noncomputable def amplitudes (s : Setup σ) (net : σ → ℂ) : Fin s.S → ℂ := fun x => Complex.exp (net (s.states x))

/-- The squared norm. -/
noncomputable def normSq {S : Nat} (ψ : Fin S → ℂ) : ℝ := ∑ x, ‖ψ x‖ ^ 2

/-- The Rayleigh quotient `⟨ψ|H|ψ⟩ / ⟨ψ|ψ⟩`. -/
noncomputable def rayleigh {S : Nat} (H : Matrix (Fin S) (Fin S) ℂ) (ψ : Fin S → ℂ) : ℂ :=
  (star ψ ⬝ᵥ (H *ᵥ ψ)) / (star ψ ⬝ᵥ ψ)

/-- The object after construction with batch size `batch`, refreshes for the networks `nets`, and a
refresh for `net`. -/
noncomputable def after (o : Obj σ) (nets : List (σ → ℂ)) (net : σ → ℂ) : Obj σ := (nets.foldl Obj.update o).update net

/-! ### Lemmas -/

theorem foldl_update (o : Obj σ) (nets : List (σ → ℂ)) :
    (nets.foldl Obj.update o).setup = o.setup ∧ (nets.foldl Obj.update o).bs = o.bs ∧
      (nets.foldl Obj.update o).tables = o.tables := by
  induction nets generalizing o with
  | nil => exact ⟨rfl, rfl, rfl⟩
  | cons net nets ih => exact ih (o.update net)

theorem star_dot {S : Nat} (ψ : Fin S → ℂ) : star ψ ⬝ᵥ ψ = ((normSq ψ : ℝ) : ℂ) := by
  unfold normSq dotProduct
  rw [Complex.ofReal_sum]
  apply Finset.sum_congr rfl
  intro x _
  rw [Pi.star_apply, mul_comm, Complex.star_def, Complex.mul_conj, Complex.normSq_eq_norm_sq]

theorem sum_getD_rows {α : Type} (l : List α) (R : Nat) (hR : l.length ≤ R) (f : Nat → ℂ) (g : α → ℂ)
    (h1 : ∀ j (hj : j < l.length), f j = g l[j]) (h2 : ∀ j, l.length ≤ j → f j = 0) :
    ∑ j : Fin R, f j = (l.map g).sum := by
  induction l generalizing R f with
  | nil => simp [h2]
  | cons a l ih =>
    obtain ⟨R, rfl⟩ : ∃ k, R = k + 1 := ⟨R - 1, by simp at hR; omega⟩
    rw [Fin.sum_univ_succ, List.map_cons, List.sum_cons]
    congr 1
    · exact h1 0 (by simp)
    · refine ih R (by simpa using hR) (fun j => f (j + 1)) ?_ ?_
      · intro j hj
        have := h1 (j + 1) (by simpa using hj)
        simpa using this
      · intro j hj
        exact h2 (j + 1) (by simpa using hj)

/-- Sums over the tables are sums with the matrix. -/
theorem sum_tables (s : Setup σ) (rows : σ → List (σ × ℂ)) (t : Tables) (ht : TablesOk s rows t) (x : Fin s.S)
    (φ : ℂ →+* ℂ) (g : Fin s.S → ℂ) :
    ∑ j : Fin t.R, φ (t.mel j x) * g ⟨t.idx j x, ht.code x x.isLt j⟩ = ∑ y, φ (opMatrix s rows x y) * g y := by
  have hrow := ht.row x x.isLt
  have hpad := ht.pad x x.isLt
  have hcode := ht.code x x.isLt
  have hmem : ∀ r ∈ rows (s.states x), s.encode r.1 < s.S := by
    intro r hr
    obtain ⟨j, hj, rfl⟩ := List.getElem_of_mem hr
    rw [← (hrow j hj).1]
    exact hcode j
  rw [sum_getD_rows (rows (s.states x)) t.R (ht.enough x x.isLt)
    (fun j => φ (t.mel j x) * g ⟨t.idx j x, ht.code x x.isLt j⟩)
    (fun r => φ r.2 * if h : s.encode r.1 < s.S then g ⟨s.encode r.1, h⟩ else 0)]
  · unfold opMatrix
    have : ∀ l : List (σ × ℂ), (∀ r ∈ l, s.encode r.1 < s.S) →
        (l.map fun r => φ r.2 * if h : s.encode r.1 < s.S then g ⟨s.encode r.1, h⟩ else 0).sum =
        ∑ y : Fin s.S, φ ((l.map fun r => if s.encode r.1 = y then r.2 else 0).sum) * g y := by
      intro l
      induction l with
      | nil => intro _; simp
      | cons r l ih =>
        intro hl
        rw [List.map_cons, List.sum_cons, ih fun r hr => hl r (List.mem_cons_of_mem _ hr)]
        simp only [List.map_cons, List.sum_cons, map_add, add_mul]
        rw [Finset.sum_add_distrib]
        congr 1
        have hlt := hl r (List.mem_cons_self ..)
        rw [dif_pos hlt, Finset.sum_eq_single ⟨s.encode r.1, hlt⟩]
        · simp
        · intro y _ hy
          rw [if_neg (fun h => hy (Fin.ext h.symm)), map_zero, zero_mul]
        · simp
    exact this _ hmem
  · intro j hj
    have := hrow j hj
    have hlt := hmem _ (List.getElem_mem hj)
    rw [dif_pos hlt, this.2]
    congr 2
    exact Fin.ext this.1
  · intro j hj
    rw [hpad j hj, map_zero, zero_mul]

/-- The arrays after a refresh, in terms of the matrix and the amplitudes. -/
structure Result (s : Setup σ) (H : Matrix (Fin s.S) (Fin s.S) ℂ) (net : σ → ℂ) (a : Arrays) : Prop where
  probs : ∀ x : Fin s.S, a.probs x = ‖amplitudes s net x‖ ^ 2 / normSq (amplitudes s net)
  energies : ∀ x : Fin s.S, a.energies x =
    (starRingEnd ℂ) ((H *ᵥ amplitudes s net) x) * amplitudes s net x / (normSq (amplitudes s net) : ℂ)
  naive : ∀ x : Fin s.S, a.naive x = (H *ᵥ amplitudes s net) x / amplitudes s net x
  energy : a.energy = ∑ x : Fin s.S, a.energies x
  variance : a.variance = ∑ x : Fin s.S, a.probs x * ((a.naive x - a.energy).re) ^ 2
  coeff : ∀ x : Fin s.S, a.coeff x = a.energies x - (a.probs x : ℂ) * a.energy
  wave : ∀ x : Fin s.S, a.waveFunction x = net (s.states x)
  normSq : a.normSq = normSq (amplitudes s net)

theorem new_ok (s : Setup σ) (rows : σ → List (σ × ℂ)) (hr : RowWise s rows) (batch : Nat)
    (o : Obj σ) (ho : Obj.new s batch = .ok o) :
    o.setup = s ∧ 0 < s.S ∧ 0 < o.bs ∧ (∃ q, s.S = q * o.bs) ∧ TablesOk s rows o.tables ∧ o.bs = min batch s.S := by
  unfold Obj.new at ho
  cases hb : setBatchSize s.S batch with
  | error e => rw [hb] at ho; cases ho
  | ok bs =>
    obtain ⟨hbs, ⟨q, hq⟩, hmin⟩ := setBatchSize_ok hb
    have hpos : 0 < s.S := by
      rcases Nat.eq_zero_or_pos s.S with h | h
      · rw [h] at hmin; simp at hmin; omega
      · exact h
    obtain ⟨t, ht, hok⟩ := buildConnections_ok s rows hr bs q hbs hq hpos
    rw [hb] at ho
    simp only [Except.bind, ht] at ho
    injection ho with ho
    subst ho
    exact ⟨rfl, hpos, hbs, ⟨q, hq⟩, hok, hmin⟩

/-- A refresh gives the arrays of the network whatever was in them before. -/
theorem result_update (s : Setup σ) (rows : σ → List (σ × ℂ)) (hr : RowWise s rows) (batch : Nat)
    (o : Obj σ) (ho : Obj.new s batch = .ok o) (a : Arrays) (net : σ → ℂ) :
    Result s (opMatrix s rows) net (machineUpdated s o.bs o.tables net a) := by
  obtain ⟨hset, hpos, hbs, ⟨q, hq⟩, hok, -⟩ := new_ok s rows hr batch o ho
  have hcl : Closed s o.tables net (machineUpdated s o.bs o.tables net a) :=
    machineUpdated_closed s o.bs hbs q hq hpos o.tables net a
  have h0 : ∀ x < s.S, o.tables.idx 0 x = x := by
    intro x hx
    obtain ⟨m, hm⟩ := hr.first x hx
    have hlen : 0 < (rows (s.states x)).length := by
      rcases hrows : rows (s.states x) with _ | ⟨a, l⟩
      · rw [hrows] at hm; simp at hm
      · simp
    have hrow := (hok.row x hx 0 hlen).1
    rw [List.head?_eq_getElem?, List.getElem?_eq_getElem hlen] at hm
    rw [hrow, Option.some.inj hm, hr.encode x hx]
  have hψ : ∀ x : Fin s.S, amplitudes s net x ≠ 0 := fun x => Complex.exp_ne_zero _
  refine ⟨fun x => hcl.probs x x.isLt, ?_, ?_, hcl.energy, hcl.variance, fun x => hcl.coeff x,
    fun x => hcl.wave x x.isLt, hcl.normSq⟩
  · intro x
    rw [hcl.energies x x.isLt (fun j _ => hok.code x x.isLt j) (hok.code x x.isLt 0), h0 x x.isLt]
    have := sum_tables s rows o.tables hok x (starRingEnd ℂ)
      (fun y => (starRingEnd ℂ) (amplitudes s net y) * amplitudes s net x)
    change _ = (∑ y, _) at this
    have hl : ∑ j : Fin o.tables.R, (starRingEnd ℂ) (o.tables.mel j x) *
        ((starRingEnd ℂ) (Complex.exp (net (s.states (o.tables.idx j x)))) * Complex.exp (net (s.states x))) =
        ∑ y, (starRingEnd ℂ) (opMatrix s rows x y) * ((starRingEnd ℂ) (amplitudes s net y) * amplitudes s net x) := this
    rw [hl]
    congr 1
    unfold mulVec dotProduct
    rw [map_sum, Finset.sum_mul]
    apply Finset.sum_congr rfl
    intro y _
    rw [map_mul]
    ring
  · intro x
    rw [hcl.naive x x.isLt (fun j _ => hok.code x x.isLt j) (hok.code x x.isLt 0), h0 x x.isLt]
    have hl : ∑ j : Fin o.tables.R, o.tables.mel j x *
        (Complex.exp (net (s.states (o.tables.idx j x))) / Complex.exp (net (s.states x))) =
        ∑ y, opMatrix s rows x y * (amplitudes s net y / amplitudes s net x) :=
      sum_tables s rows o.tables hok x (RingHom.id ℂ) (fun y => amplitudes s net y / amplitudes s net x)
    rw [hl]
    unfold mulVec dotProduct
    rw [Finset.sum_div]
    apply Finset.sum_congr rfl
    intro y _
    ring

theorem result_after (s : Setup σ) (rows : σ → List (σ × ℂ)) (hr : RowWise s rows) (batch : Nat)
    (o : Obj σ) (ho : Obj.new s batch = .ok o) (nets : List (σ → ℂ)) (net : σ → ℂ) :
    Result s (opMatrix s rows) net (after o nets net).arrays := by
  obtain ⟨h1, h2, h3⟩ := foldl_update o nets
  have h4 : (after o nets net).arrays = machineUpdated (nets.foldl Obj.update o).setup (nets.foldl Obj.update o).bs
      (nets.foldl Obj.update o).tables net (nets.foldl Obj.update o).arrays := rfl
  rw [h4, h1, h2, h3, (new_ok s rows hr batch o ho).1]
  exact result_update s rows hr batch o ho _ net

theorem normSq_amp_pos (s : Setup σ) (hpos : 0 < s.S) (net : σ → ℂ) : 0 < normSq (amplitudes s net) :=
  normSq_pos hpos fun x : Fin s.S => net (s.states x)

/-! ### C19 -/

/-- C19: after any history of refreshes the probabilities are `|ψ|²/‖ψ‖²`; they are positive and sum
to one; and they do not change when a constant is added to all log-amplitudes. -/
theorem C19_probabilities (s : Setup σ) (rows : σ → List (σ × ℂ)) (hr : RowWise s rows) (batch : Nat)
    (o : Obj σ) (ho : Obj.new s batch = .ok o) (nets : List (σ → ℂ)) (net : σ → ℂ) :
    (∀ x : Fin s.S, (after o nets net).arrays.probs x =
      ‖Complex.exp (net (s.states x))‖ ^ 2 / ∑ y : Fin s.S, ‖Complex.exp (net (s.states y))‖ ^ 2) ∧
    (∀ x : Fin s.S, 0 < (after o nets net).arrays.probs x) ∧
    ∑ x : Fin s.S, (after o nets net).arrays.probs x = 1 ∧
    ∀ c : ℂ, ∀ nets', ∀ x : Fin s.S,
      (after o nets' fun t => net t + c).arrays.probs x = (after o nets net).arrays.probs x := by
  have hres := result_after s rows hr batch o ho nets net
  have hpos := (new_ok s rows hr batch o ho).2.1
  have hn := normSq_amp_pos s hpos net
  refine ⟨hres.probs, ?_, ?_, ?_⟩
  · intro x
    rw [hres.probs]
    exact div_pos (pow_pos (norm_pos_iff.2 (Complex.exp_ne_zero _)) 2) hn
  · simp only [hres.probs]
    rw [← Finset.sum_div]
    exact div_self hn.ne'
  · intro c nets' x
    have hres' := result_after s rows hr batch o ho nets' (fun t => net t + c)
    rw [hres.probs, hres'.probs]
    have hamp : ∀ x, amplitudes s (fun t => net t + c) x = amplitudes s net x * Complex.exp c := by
      intro x; exact Complex.exp_add _ _
    have hnorm : normSq (amplitudes s fun t => net t + c) = normSq (amplitudes s net) * ‖Complex.exp c‖ ^ 2 := by
      unfold normSq
      rw [Finset.sum_mul]
      apply Finset.sum_congr rfl
      intro x _
      rw [hamp, norm_mul, mul_pow]
    rw [hnorm, hamp, norm_mul, mul_pow]
    have hc : ‖Complex.exp c‖ ^ 2 ≠ 0 := (pow_pos (norm_pos_iff.2 (Complex.exp_ne_zero _)) 2).ne'
    field_simp

/-! ### C20 -/

theorem conj_rayleigh {S : Nat} (H : Matrix (Fin S) (Fin S) ℂ) (hH : H.IsHermitian) (ψ : Fin S → ℂ) :
    (starRingEnd ℂ) (star ψ ⬝ᵥ (H *ᵥ ψ)) = star ψ ⬝ᵥ (H *ᵥ ψ) := by
  have h1 : (starRingEnd ℂ) (star ψ ⬝ᵥ (H *ᵥ ψ)) = star (H *ᵥ ψ) ⬝ᵥ ψ := by
    rw [starRingEnd_apply, star_dotProduct, star_star, dotProduct_comm]
  rw [h1, star_mulVec, hH.eq, ← dotProduct_mulVec]

theorem energy_eq (s : Setup σ) (H : Matrix (Fin s.S) (Fin s.S) ℂ) (net : σ → ℂ) (a : Arrays)
    (h : Result s H net a) : a.energy = (starRingEnd ℂ) (rayleigh H (amplitudes s net)) := by
  rw [h.energy]
  unfold rayleigh
  rw [star_dot, map_div₀, Complex.conj_ofReal]
  simp only [h.energies]
  rw [← Finset.sum_div]
  congr 1
  unfold dotProduct
  rw [map_sum]
  apply Finset.sum_congr rfl
  intro x _
  rw [map_mul, Pi.star_apply, Complex.star_def, Complex.conj_conj, mul_comm]

theorem rayleigh_real {S : Nat} (H : Matrix (Fin S) (Fin S) ℂ) (hH : H.IsHermitian) (ψ : Fin S → ℂ) :
    (starRingEnd ℂ) (rayleigh H ψ) = rayleigh H ψ := by
  unfold rayleigh
  rw [map_div₀, conj_rayleigh H hH, star_dot, Complex.conj_ofReal]

theorem psd_of_lower {S : Nat} (H : Matrix (Fin S) (Fin S) ℂ) (hH : H.IsHermitian) (c : ℝ)
    (hc : ∀ (lam : ℝ) (v : Fin S → ℂ), v ≠ 0 → H *ᵥ v = (lam : ℂ) • v → c ≤ lam) :
    (H - (c : ℂ) • (1 : Matrix (Fin S) (Fin S) ℂ)).PosSemidef := by
  have hA : (H - (c : ℂ) • (1 : Matrix (Fin S) (Fin S) ℂ)).IsHermitian := by
    refine hH.sub ?_
    unfold IsHermitian
    rw [conjTranspose_smul, conjTranspose_one]
    simp
  · rw [hA.posSemidef_iff_eigenvalues_nonneg]
    intro i
    have hv := hA.mulVec_eigenvectorBasis i
    have hne : (hA.eigenvectorBasis i : Fin S → ℂ) ≠ 0 := by
      intro h0
      have h1 := hA.eigenvectorBasis.orthonormal.ne_zero i
      apply h1
      ext k
      exact congrFun h0 k
    have := hc (hA.eigenvalues i + c) _ hne (by
      have h2 : H *ᵥ (hA.eigenvectorBasis i : Fin S → ℂ) =
          (H - (c : ℂ) • (1 : Matrix (Fin S) (Fin S) ℂ)) *ᵥ (hA.eigenvectorBasis i : Fin S → ℂ) +
          (c : ℂ) • (hA.eigenvectorBasis i : Fin S → ℂ) := by
        rw [sub_mulVec, smul_mulVec, one_mulVec, sub_add_cancel]
      rw [h2, hv]
      push_cast
      rw [add_smul]
      rfl)
    simp only [Pi.zero_apply]
    linarith

theorem quad_lower {S : Nat} (H : Matrix (Fin S) (Fin S) ℂ) (hH : H.IsHermitian) (c : ℝ)
    (hc : ∀ (lam : ℝ) (v : Fin S → ℂ), v ≠ 0 → H *ᵥ v = (lam : ℂ) • v → c ≤ lam) (ψ : Fin S → ℂ) :
    c * normSq ψ ≤ (star ψ ⬝ᵥ (H *ᵥ ψ)).re := by
  have hpsd := psd_of_lower H hH c hc
  have h3 := hpsd.dotProduct_mulVec_nonneg ψ
  rw [sub_mulVec, smul_mulVec, one_mulVec, dotProduct_sub, dotProduct_smul, star_dot] at h3
  have h4 := (Complex.le_def.1 h3).1
  simp at h4
  linarith

/-- C20: for a Hermitian operator the exact energy is the Rayleigh quotient of the current network; it
is real; it is not below any lower bound of the spectrum; and if the network is an eigenstate it is the
eigenvalue and the reported variance is zero. -/
theorem C20_exact_energy (s : Setup σ) (rows : σ → List (σ × ℂ)) (hr : RowWise s rows)
    (hH : (opMatrix s rows).IsHermitian) (batch : Nat)
    (o : Obj σ) (ho : Obj.new s batch = .ok o) (nets : List (σ → ℂ)) (net : σ → ℂ) :
    (after o nets net).arrays.energy = rayleigh (opMatrix s rows) (amplitudes s net) ∧
    (after o nets net).arrays.energy.im = 0 ∧
    (∀ c : ℝ, (∀ (lam : ℝ) (v : Fin s.S → ℂ), v ≠ 0 → opMatrix s rows *ᵥ v = (lam : ℂ) • v → c ≤ lam) →
      c ≤ (after o nets net).arrays.energy.re) ∧
    (∀ lam : ℂ, opMatrix s rows *ᵥ amplitudes s net = lam • amplitudes s net →
      (after o nets net).arrays.energy = lam ∧ (after o nets net).arrays.variance = 0) := by
  have hres := result_after s rows hr batch o ho nets net
  have hpos := (new_ok s rows hr batch o ho).2.1
  have hn := normSq_amp_pos s hpos net
  have hE := energy_eq s _ net _ hres
  rw [rayleigh_real _ hH] at hE
  refine ⟨hE, ?_, ?_, ?_⟩
  · rw [hE]
    exact Complex.conj_eq_iff_im.1 (rayleigh_real _ hH _)
  · intro c hc
    have := quad_lower _ hH c hc (amplitudes s net)
    rw [hE]
    unfold rayleigh
    rw [star_dot, Complex.div_ofReal_re]
    rw [le_div_iff₀ hn]
    exact this
  · intro lam hlam
    have hElam : (after o nets net).arrays.energy = lam := by
      rw [hE]
      unfold rayleigh
      rw [hlam, dotProduct_smul, star_dot, smul_eq_mul]
      have : ((normSq (amplitudes s net) : ℝ) : ℂ) ≠ 0 := by exact_mod_cast hn.ne'
      field_simp
    refine ⟨hElam, ?_⟩
    rw [hres.variance]
    apply Finset.sum_eq_zero
    intro x _
    rw [hres.naive, hlam, hElam, Pi.smul_apply, smul_eq_mul,
      mul_div_assoc, div_self (show amplitudes s net x ≠ 0 from Complex.exp_ne_zero _)]
    simp

/-! ### C21 -/

/-- `loss_for_energy_minimization` (src/flowket/optimization/loss.py:4-5). -/
noncomputable def loss (yTrue yPred : ℂ) : ℝ := 2 * (yPred * yTrue).re

/-- Derivative of the quadratic form of a Hermitian matrix along a path `A' = A D`. -/
theorem quad_deriv {X : Type*} [Fintype X] (H : Matrix X X ℂ) (hH : H.IsHermitian) (A : ℝ → X → ℂ) (D : X → ℂ)
    (θ : ℝ) (hAd : ∀ x, HasDerivAt (fun t => A t x) (A θ x * D x) θ) :
    HasDerivAt (fun t => (star (A t) ⬝ᵥ (H *ᵥ A t)).re)
      (∑ x, 2 * ((starRingEnd ℂ) ((H *ᵥ A θ) x) * A θ x * D x).re) θ := by
  have h1 : HasDerivAt (fun t => star (A t) ⬝ᵥ (H *ᵥ A t))
      (∑ x, ((starRingEnd ℂ) (A θ x * D x) * (H *ᵥ A θ) x +
        (starRingEnd ℂ) (A θ x) * ∑ y, H x y * (A θ y * D y))) θ := by
    unfold dotProduct mulVec dotProduct
    refine HasDerivAt.fun_sum fun x _ => ?_
    refine HasDerivAt.mul ?_ ?_
    · exact (hAd x).star
    · refine HasDerivAt.fun_sum fun y _ => ?_
      exact (hAd y).const_mul (H x y)
  have h2 := Complex.reCLM.hasFDerivAt.comp_hasDerivAt θ h1
  refine HasDerivAt.congr_deriv (f' := (∑ x, ((starRingEnd ℂ) (A θ x * D x) * (H *ᵥ A θ) x +
        (starRingEnd ℂ) (A θ x) * ∑ y, H x y * (A θ y * D y))).re) h2 ?_
  rw [Finset.sum_add_distrib, Complex.add_re]
  have h3 : ∑ x, (starRingEnd ℂ) (A θ x) * ∑ y, H x y * (A θ y * D y) =
      ∑ x, (starRingEnd ℂ) ((H *ᵥ A θ) x) * A θ x * D x := by
    simp only [Finset.mul_sum]
    rw [Finset.sum_comm]
    apply Finset.sum_congr rfl
    intro y _
    unfold mulVec dotProduct
    rw [map_sum, Finset.sum_mul, Finset.sum_mul]
    apply Finset.sum_congr rfl
    intro x _
    have : (starRingEnd ℂ) (H y x) = H x y := hH.apply x y
    rw [map_mul, this]
    ring
  have h4 : ∑ x, (starRingEnd ℂ) (A θ x * D x) * (H *ᵥ A θ) x =
      (starRingEnd ℂ) (∑ x, (starRingEnd ℂ) ((H *ᵥ A θ) x) * A θ x * D x) := by
    rw [map_sum]
    apply Finset.sum_congr rfl
    intro x _
    simp only [map_mul, Complex.conj_conj]
    ring
  rw [h3, h4, Complex.conj_re, ← Finset.mul_sum, Complex.re_sum]
  ring

/-- C21: the gradient coefficients sum to zero, and along every differentiable path of network
parameters the derivative of the exact energy is the derivative of the summed training loss with the
coefficients held fixed, i.e. `Σ 2 Re(coefficient · ∂ log ψ)`. -/
theorem C21_gradient (s : Setup σ) (rows : σ → List (σ × ℂ)) (hr : RowWise s rows)
    (hH : (opMatrix s rows).IsHermitian) (batch : Nat)
    (o : Obj σ) (ho : Obj.new s batch = .ok o) (nets : List (σ → ℂ)) (net : ℝ → σ → ℂ) (D : σ → ℂ) (θ : ℝ)
    (hD : ∀ x : Fin s.S, HasDerivAt (fun t => net t (s.states x)) (D (s.states x)) θ) :
    ∑ x : Fin s.S, (after o nets (net θ)).arrays.coeff x = 0 ∧
    HasDerivAt (fun t => (after o nets (net t)).arrays.energy.re)
      (∑ x : Fin s.S, 2 * ((after o nets (net θ)).arrays.coeff x * D (s.states x)).re) θ ∧
    HasDerivAt (fun t => ∑ x : Fin s.S, loss ((after o nets (net θ)).arrays.coeff x) (net t (s.states x)))
      (∑ x : Fin s.S, 2 * ((after o nets (net θ)).arrays.coeff x * D (s.states x)).re) θ := by
  have hres := fun t => result_after s rows hr batch o ho nets (net t)
  have hpos := (new_ok s rows hr batch o ho).2.1
  have hn := fun t => normSq_amp_pos s hpos (net t)
  have hprob : ∑ x : Fin s.S, (after o nets (net θ)).arrays.probs x = 1 :=
    (C19_probabilities s rows hr batch o ho nets (net θ)).2.2.1
  refine ⟨?_, ?_, ?_⟩
  · simp only [(hres θ).coeff]
    rw [Finset.sum_sub_distrib, ← Finset.sum_mul, ← Complex.ofReal_sum, hprob, (hres θ).energy]
    simp
  · -- numerator and denominator
    set A : ℝ → Fin s.S → ℂ := fun t => amplitudes s (net t) with hA
    set H := opMatrix s rows with hHdef
    have hAd : ∀ x, HasDerivAt (fun t => A t x) (A θ x * D (s.states x)) θ := by
      intro x
      exact (hD x).cexp
    have hEre : ∀ t, (after o nets (net t)).arrays.energy.re = (star (A t) ⬝ᵥ (H *ᵥ A t)).re / normSq (A t) := by
      intro t
      rw [energy_eq s _ (net t) _ (hres t), rayleigh_real _ hH]
      unfold rayleigh
      rw [star_dot, Complex.div_ofReal_re]
    have hnum := quad_deriv H hH A (fun x => D (s.states x)) θ hAd
    have hden := quad_deriv 1 Matrix.isHermitian_one A (fun x => D (s.states x)) θ hAd
    simp only [one_mulVec] at hden
    have hnre : ∀ t, (star (A t) ⬝ᵥ A t).re = normSq (A t) := by
      intro t
      rw [star_dot, Complex.ofReal_re]
    simp only [hnre] at hden
    have hq := hnum.fun_div hden (hn θ).ne'
    simp only [← hEre] at hq
    refine hq.congr_deriv ?_
    have hcoef : ∀ x : Fin s.S, ((after o nets (net θ)).arrays.coeff x * D (s.states x)).re =
        ((starRingEnd ℂ) ((H *ᵥ A θ) x) * A θ x * D (s.states x)).re / normSq (A θ) -
        ((starRingEnd ℂ) (A θ x) * A θ x * D (s.states x)).re *
          ((star (A θ) ⬝ᵥ (H *ᵥ A θ)).re / normSq (A θ)) / normSq (A θ) := by
      intro x
      have hEC : (after o nets (net θ)).arrays.energy =
          (((star (A θ) ⬝ᵥ (H *ᵥ A θ)).re / normSq (A θ) : ℝ) : ℂ) := by
        apply Complex.ext
        · rw [hEre, Complex.ofReal_re]
        · rw [Complex.ofReal_im, energy_eq s _ (net θ) _ (hres θ), rayleigh_real _ hH]
          exact Complex.conj_eq_iff_im.1 (rayleigh_real _ hH _)
      rw [(hres θ).coeff, (hres θ).energies, (hres θ).probs, hEC]
      have hnx : (starRingEnd ℂ) (A θ x) * A θ x = ((‖A θ x‖ ^ 2 : ℝ) : ℂ) := by
        rw [mul_comm, Complex.mul_conj, Complex.normSq_eq_norm_sq]
      rw [hnx, sub_mul, Complex.sub_re]
      congr 1
      · rw [div_mul_eq_mul_div, Complex.div_ofReal_re]
      · rw [← Complex.ofReal_mul, Complex.re_ofReal_mul, Complex.re_ofReal_mul]
        ring
    simp only [hcoef]
    rw [eq_comm]
    have hn0 := (hn θ).ne'
    change normSq (A θ) ≠ 0 at hn0
    simp only [← Finset.mul_sum, Finset.sum_sub_distrib, ← Finset.sum_div, ← Finset.sum_mul]
    field_simp
  · refine HasDerivAt.fun_sum fun x _ => ?_
    have h1 := Complex.reCLM.hasFDerivAt.comp_hasDerivAt θ
      ((hD x).mul_const ((after o nets (net θ)).arrays.coeff x))
    have h2 := h1.const_mul (2 : ℝ)
    rw [mul_comm ((after o nets (net θ)).arrays.coeff x)]
    exact h2

/-! ### C22 -/

/-- C22, first part: a batch size is accepted exactly if it is positive and at least the number of
states or a divisor of it. -/
theorem C22_accepted (S batch : Nat) (hS : 0 < S) :
    (∃ bs, setBatchSize S batch = .ok bs) ↔ 0 < batch ∧ (S ≤ batch ∨ batch ∣ S) := by
  have hmin : (if batch > S then S else batch) = min batch S := by split <;> omega
  unfold setBatchSize
  simp only [hmin]
  by_cases h0 : batch = 0
  · subst h0
    simp
  · have hb : 0 < batch := by omega
    have hm : min batch S ≠ 0 := by omega
    rw [if_neg hm]
    by_cases hle : S ≤ batch
    · rw [min_eq_right hle]
      simp [hb, hle]
    · rw [min_eq_left (by omega)]
      by_cases hd : batch ∣ S
      · simp [Nat.mod_eq_zero_of_dvd hd, hb, hd]
      · have hmod : S % batch ≠ 0 := fun h => hd (Nat.dvd_of_mod_eq_zero h)
        rw [if_pos hmod]
        simp [hle, hd]

/-- C22: construction succeeds exactly for these batch sizes, and everything the object reports after a
refresh - wave function, norm, probabilities, local energies, energy, variance, gradient
coefficients - is the same for all batch sizes and histories. -/
theorem C22_batch_independent (s : Setup σ) (rows : σ → List (σ × ℂ)) (hr : RowWise s rows) (hpos : 0 < s.S) (batch : Nat) :
    ((∃ o, Obj.new s batch = .ok o) ↔ 0 < batch ∧ (s.S ≤ batch ∨ batch ∣ s.S)) ∧
    ∀ batch' o o', Obj.new s batch = .ok o → Obj.new s batch' = .ok o' → ∀ nets nets' net, ∀ x < s.S,
      (after o nets net).arrays.waveFunction x = (after o' nets' net).arrays.waveFunction x ∧
      (after o nets net).arrays.probs x = (after o' nets' net).arrays.probs x ∧
      (after o nets net).arrays.energies x = (after o' nets' net).arrays.energies x ∧
      (after o nets net).arrays.naive x = (after o' nets' net).arrays.naive x ∧
      (after o nets net).arrays.coeff x = (after o' nets' net).arrays.coeff x ∧
      (after o nets net).arrays.normSq = (after o' nets' net).arrays.normSq ∧
      (after o nets net).arrays.energy = (after o' nets' net).arrays.energy ∧
      (after o nets net).arrays.variance = (after o' nets' net).arrays.variance := by
  constructor
  · rw [← C22_accepted s.S batch hpos]
    constructor
    · rintro ⟨o, ho⟩
      unfold Obj.new at ho
      cases hb : setBatchSize s.S batch with
      | error e => rw [hb] at ho; cases ho
      | ok bs => exact ⟨bs, rfl⟩
    · rintro ⟨bs, hb⟩
      obtain ⟨hbs, ⟨q, hq⟩, -⟩ := setBatchSize_ok hb
      obtain ⟨t, ht, -⟩ := buildConnections_ok s rows hr bs q hbs hq hpos
      refine ⟨⟨s, bs, t, .init⟩, ?_⟩
      unfold Obj.new
      rw [hb]
      simp only [Except.bind, ht]
  · intro batch' o o' ho ho' nets nets' net x hx
    have h1 := result_after s rows hr batch o ho nets net
    have h2 := result_after s rows hr batch' o' ho' nets' net
    have he : ∀ x : Fin s.S, (after o nets net).arrays.energies x = (after o' nets' net).arrays.energies x := by
      intro x; rw [h1.energies, h2.energies]
    have hp : ∀ x : Fin s.S, (after o nets net).arrays.probs x = (after o' nets' net).arrays.probs x := by
      intro x; rw [h1.probs, h2.probs]
    have hnv : ∀ x : Fin s.S, (after o nets net).arrays.naive x = (after o' nets' net).arrays.naive x := by
      intro x; rw [h1.naive, h2.naive]
    have hE : (after o nets net).arrays.energy = (after o' nets' net).arrays.energy := by
      rw [h1.energy, h2.energy]
      exact Finset.sum_congr rfl fun x _ => he x
    have hc := h1.coeff ⟨x, hx⟩
    have hc' := h2.coeff ⟨x, hx⟩
    refine ⟨(h1.wave ⟨x, hx⟩).trans (h2.wave ⟨x, hx⟩).symm, hp ⟨x, hx⟩, he ⟨x, hx⟩, hnv ⟨x, hx⟩, ?_, ?_, hE, ?_⟩
    · rw [hc, hc', he ⟨x, hx⟩, hp ⟨x, hx⟩, hE]
    · rw [h1.normSq, h2.normSq]
    · rw [h1.variance, h2.variance]
      exact Finset.sum_congr rfl fun x _ => by rw [hp, hnv, hE]

end Verif.Energy.Exact
