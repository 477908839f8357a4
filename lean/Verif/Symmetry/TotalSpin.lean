import Verif.Callbacks.RelativeError
import Verif.Operators.J1J2Op
import Mathlib.Data.Fin.VecNotation

/-!
# C170: the Heisenberg and J1-J2 operators conserve the total spin

The squared total spin of C108 commutes with what the unrotated Heisenberg operator and the J1-J2 operator do to a wave function, so that an
eigenstate whose energy belongs to no other state has a definite total spin. With the unitary rotation this no longer holds.
-/
namespace Verif.Symmetry.TotalSpin

open Verif.Operators Verif.Energy Verif.J1J2 Verif.J1J2.Op Verif.Callbacks

variable {ι : Type} [Fintype ι] [DecidableEq ι]

omit [Fintype ι] in
/-- The coupling of two sites is twice their exchange minus one. -/
theorem coupling_ne {p q : ι} (h : p ≠ q) (ψ : Wave ι) {s : Config ι} (hs : IsSpin s) :
    coupling p q ψ s = 2 * ψ (exchange p q s) - ψ s := by
  unfold coupling
  rw [xx_yy hs h]
  show _ + (s p : ℂ) * ((s q : ℂ) * ψ s) = _
  by_cases e : s p = s q
  · have he : exchange p q s = s := by
      rw [exchange_eq_comp]
      funext i
      rw [Function.comp, Equiv.swap_apply_def]
      split
      · rename_i hi; rw [hi, e]
      · split
        · rename_i hi; rw [hi, e]
        · rfl
    rw [if_neg (by simpa using e), he, e]
    rcases hs q with h' | h' <;> rw [h'] <;> push_cast <;> ring
  · rw [if_pos e]
    rcases hs p with h1 | h1 <;> rcases hs q with h2 | h2 <;> simp_all <;> ring

omit [Fintype ι] in
theorem coupling_self (p : ι) (ψ : Wave ι) {s : Config ι} (hs : IsSpin s) : coupling p p ψ s = 3 * ψ s := by
  have hff : Operators.flip p (Operators.flip p s) = s := by
    unfold Operators.flip
    simp
  unfold coupling pauliX pauliY pauliZ
  rw [hff]
  have : (Operators.flip p s) p = -s p := by unfold Operators.flip; simp
  rw [this]
  rcases hs p with h | h <;> rw [h] <;> push_cast <;> ring_nf <;> rw [Complex.I_sq] <;> ring

omit [Fintype ι] in
theorem coupling_congr (p q : ι) {ψ ψ' : Wave ι} (h : ∀ s, IsSpin s → ψ s = ψ' s) {s : Config ι} (hs : IsSpin s) :
    coupling p q ψ s = coupling p q ψ' s := by
  by_cases e : p = q
  · subst e
    rw [coupling_self p ψ hs, coupling_self p ψ' hs, h s hs]
  · rw [coupling_ne e ψ hs, coupling_ne e ψ' hs, h s hs, h _ (exchange_spin hs p q)]

theorem totalSpin_congr {ψ ψ' : Wave ι} (h : ∀ s, IsSpin s → ψ s = ψ' s) {s : Config ι} (hs : IsSpin s) :
    totalSpin ψ s = totalSpin ψ' s := by
  unfold totalSpin
  congr 1
  exact Finset.sum_congr rfl fun p _ => Finset.sum_congr rfl fun q _ => coupling_congr p q h hs

omit [Fintype ι] in
theorem coupling_perm (e : Equiv.Perm ι) (p q : ι) (ψ : Wave ι) {s : Config ι} (hs : IsSpin s) :
    coupling p q (fun t => ψ (t ∘ e)) s = coupling (e.symm p) (e.symm q) ψ (s ∘ e) := by
  have hse : IsSpin (s ∘ e) := fun i => hs (e i)
  by_cases h : p = q
  · subst h
    rw [coupling_self p _ hs, coupling_self _ _ hse]
  · rw [coupling_ne h _ hs, coupling_ne (fun h' => h (e.symm.injective h')) _ hse]
    have : exchange p q s ∘ e = exchange (e.symm p) (e.symm q) (s ∘ e) := by
      rw [exchange_eq_comp, exchange_eq_comp]
      funext i
      simp only [Function.comp]
      congr 1
      have := Equiv.swap_apply_apply e (e.symm p) (e.symm q)
      rw [Equiv.apply_symm_apply, Equiv.apply_symm_apply] at this
      rw [this]
      simp
    rw [this]

/-- The total spin does not change when the sites are renamed. -/
theorem totalSpin_perm (e : Equiv.Perm ι) (ψ : Wave ι) {s : Config ι} (hs : IsSpin s) :
    totalSpin (fun t => ψ (t ∘ e)) s = totalSpin ψ (s ∘ e) := by
  unfold totalSpin
  congr 1
  simp only [coupling_perm e _ _ ψ hs]
  rw [Equiv.sum_comp e.symm fun p => ∑ q, coupling p (e.symm q) ψ (s ∘ e)]
  exact Finset.sum_congr rfl fun p _ => Equiv.sum_comp e.symm fun q => coupling p q ψ (s ∘ e)

omit [Fintype ι] in
theorem coupling_linear (p q : ι) (c : ℂ) (ψ ψ' : Wave ι) (s : Config ι) :
    coupling p q (fun t => c * ψ t + ψ' t) s = c * coupling p q ψ s + coupling p q ψ' s := by
  unfold coupling pauliX pauliY pauliZ
  ring

theorem totalSpin_linear (c : ℂ) (ψ ψ' : Wave ι) (s : Config ι) :
    totalSpin (fun t => c * ψ t + ψ' t) s = c * totalSpin ψ s + totalSpin ψ' s := by
  unfold totalSpin
  simp only [coupling_linear, Finset.sum_add_distrib, ← Finset.mul_sum]
  ring

theorem totalSpin_zero (s : Config ι) : totalSpin (fun _ : Config ι => 0) s = 0 := by
  have := totalSpin_linear (-1) (fun _ : Config ι => 0) (fun _ => 0) s
  simpa using this

/-- `H` commutes with the squared total spin. -/
def Conserves (H : Wave ι → Wave ι) : Prop := ∀ ψ s, IsSpin s → H (totalSpin ψ) s = totalSpin (H ψ) s

theorem conserves_coupling (a b : ι) : Conserves (coupling a b) := by
  intro ψ s hs
  by_cases h : a = b
  · subst h
    rw [coupling_self a _ hs, totalSpin_congr (ψ := coupling a a ψ) (ψ' := fun t => 3 * ψ t + (fun _ => 0) t) (fun t ht => by rw [coupling_self a ψ ht]; simp) hs,
      totalSpin_linear, totalSpin_zero, add_zero]
  · rw [coupling_ne h _ hs, exchange_eq_comp, ← totalSpin_perm (Equiv.swap a b) ψ hs,
      totalSpin_congr (ψ := coupling a b ψ) (ψ' := fun t => 2 * (fun t => ψ (t ∘ Equiv.swap a b)) t + (fun t => -1 * ψ t + (fun _ => 0) t) t)
        (fun t ht => by rw [coupling_ne h ψ ht, exchange_eq_comp]; ring) hs,
      totalSpin_linear, totalSpin_linear, totalSpin_zero]
    ring

theorem conserves_zero : Conserves fun (_ : Wave ι) _ => 0 := fun _ _ _ => (totalSpin_zero _).symm

theorem conserves_add {H H' : Wave ι → Wave ι} (c : ℂ) (h : Conserves H) (h' : Conserves H') :
    Conserves fun ψ s => c * H ψ s + H' ψ s := by
  intro ψ s hs
  show c * H (totalSpin ψ) s + H' (totalSpin ψ) s = _
  rw [h ψ s hs, h' ψ s hs, totalSpin_linear]

theorem conserves_sum {κ : Type} [DecidableEq κ] (t : Finset κ) (H : κ → Wave ι → Wave ι) (h : ∀ k ∈ t, Conserves (H k)) :
    Conserves fun ψ s => ∑ k ∈ t, H k ψ s := by
  induction t using Finset.induction_on with
  | empty => simpa using conserves_zero
  | insert k t hk ih =>
    have := conserves_add 1 (h k (Finset.mem_insert_self _ _)) (ih fun k' hk' => h k' (Finset.mem_insert_of_mem hk'))
    simpa [Finset.sum_insert hk] using this

theorem conserves_heisenberg (bonds : List (ι × ι)) : Conserves (heisenberg bonds 1) := by
  induction bonds with
  | nil =>
    have e : heisenberg (ι := ι) [] 1 = fun _ _ => 0 := by
      funext ψ s
      simp [heisenberg]
    rw [e]
    exact conserves_zero
  | cons b l ih =>
    have := conserves_add 1 (conserves_coupling b.1 b.2) ih
    have e : heisenberg (b :: l) 1 = fun ψ s => 1 * coupling b.1 b.2 ψ s + heisenberg l 1 ψ s := by
      funext ψ s
      unfold heisenberg coupling
      rw [List.map_cons, List.sum_cons]
      push_cast
      ring
    rw [e]
    exact this

theorem conserves_j1j2 (L1 L2 : ℕ) (pbc : Bool) (j2 : ℂ) : Conserves (hamiltonian L1 L2 pbc j2) := by
  unfold hamiltonian
  refine conserves_sum _ (fun p ψ s => ∑ q : Fin L1 × Fin L2, _) fun p _ => conserves_sum _ (fun q ψ s => _) fun q _ => ?_
  by_cases h : p.1 < q.1 ∨ p.1 = q.1 ∧ p.2 < q.2
  · simp only [if_pos h]
    by_cases h1 : nearest L1 L2 pbc (p.1.val, p.2.val) (q.1.val, q.2.val) <;>
      by_cases h2 : diagonal L1 L2 pbc (p.1.val, p.2.val) (q.1.val, q.2.val)
    · simpa [h1, h2] using conserves_add 1 (conserves_coupling p q) (conserves_add j2 (conserves_coupling p q) conserves_zero)
    · simpa [h1, h2] using conserves_coupling p q
    · simpa [h1, h2] using conserves_add j2 (conserves_coupling p q) conserves_zero
    · simpa [h1, h2] using conserves_zero (ι := Fin L1 × Fin L2)
  · simpa [if_neg h] using conserves_zero (ι := Fin L1 × Fin L2)

/-! ### The operators -/

/-- **C170, Heisenberg**: applying the operator to the wave function `S² ψ` is applying `S²` to what the operator makes of `ψ`, on every grid
without rotation and whatever the operator was asked before. -/
theorem C170_heisenberg_grid {n m : ℕ} (pbc : Bool) (history : List (Call n m)) (B : ℕ) (sample : Fin B → Config (Fin n × Fin m))
    (x : Fin B) (hs : IsSpin (sample x)) (ψ : Wave (Fin n × Fin m)) :
    applyRows ((((HeisOp.new2 n m false pbc).run history).findConn B sample).2 x) (totalSpin ψ) =
      totalSpin (fun t => applyRows ((((HeisOp.new2 n m false pbc).run history).findConn 1 fun _ => t).2 0) ψ) (sample x) := by
  rw [C07_heisenberg_grid false pbc history B sample x hs,
    totalSpin_congr (fun t ht => C07_heisenberg_grid false pbc history 1 (fun _ => t) 0 ht ψ) hs]
  exact conserves_heisenberg _ ψ _ hs

theorem C170_heisenberg_chain {n : ℕ} (pbc : Bool) (history : List (Call n 1)) (B : ℕ) (sample : Fin B → Config (Fin n))
    (x : Fin B) (hs : IsSpin (sample x)) (ψ : Wave (Fin n)) :
    applyRows ((((HeisOp.new1 n false pbc).run history).findConn1 B sample).2 x) (totalSpin ψ) =
      totalSpin (fun t => applyRows ((((HeisOp.new1 n false pbc).run history).findConn1 1 fun _ => t).2 0) ψ) (sample x) := by
  rw [C07_heisenberg_chain false pbc history B sample x hs,
    totalSpin_congr (fun t ht => C07_heisenberg_chain false pbc history 1 (fun _ => t) 0 ht ψ) hs]
  exact conserves_heisenberg _ ψ _ hs

/-- **C170, J1-J2**: the same; `hamiltonian` is the specification of C107. -/
theorem C170_j1j2 (first : ℤ) (hf : first = 1 ∨ first = -1) (L1 L2 : ℕ) (h1 : 0 < L1) (h2 : 0 < L2) (j2 : ℂ)
    (pbc : Bool) (hL : pbc = true → 3 ≤ L1 ∧ 3 ≤ L2) (history : List (List Verif.Netket.Conf))
    (batch : List (Config (Fin L1 × Fin L2))) (hb : batch ≠ []) (hs : ∀ s ∈ batch, IsSpin s) :
    ∃ w' rows, ((j1j2Operator first L1 L2 j2 pbc).run history).findConn (batch.map flat) = .ok (w', rows) ∧
      rows.length = batch.length ∧ ∀ i (hi : i < batch.length) (hi' : i < rows.length), ∀ ψ : Wave (Fin L1 × Fin L2),
        (rows[i].map fun r => r.mel * ψ (grid L1 L2 r.conn)).sum = hamiltonian L1 L2 pbc j2 ψ batch[i] ∧
        (rows[i].map fun r => r.mel * totalSpin ψ (grid L1 L2 r.conn)).sum = totalSpin (hamiltonian L1 L2 pbc j2 ψ) batch[i] := by
  obtain ⟨w', rows, h3, h4, h5⟩ := C107_hamiltonian first hf L1 L2 h1 h2 j2 pbc hL history batch hb hs
  refine ⟨w', rows, h3, h4, fun i hi hi' ψ => ⟨(h5 i hi hi').2.2.2 ψ, ?_⟩⟩
  rw [(h5 i hi hi').2.2.2 (totalSpin ψ)]
  exact conserves_j1j2 L1 L2 pbc j2 ψ _ (hs _ (List.getElem_mem hi))

/-- What the conservation is good for: an eigenstate of the operator whose energy belongs to no other state has a definite total
spin. -/
theorem definite {H : Wave ι → Wave ι} (hH : Conserves H) {E : ℝ} {φ : Wave ι} (hφ : Eigenstate H E φ)
    (hone : ∀ χ, Eigenstate H E χ → ∃ c : ℂ, ∀ s, IsSpin s → χ s = c * φ s) :
    ∃ c : ℂ, ∀ s, IsSpin s → totalSpin φ s = c * φ s := by
  by_cases hz : ∃ s, IsSpin s ∧ totalSpin φ s ≠ 0
  · refine hone _ ⟨hz, fun s hs => ?_⟩
    rw [hH φ s hs, totalSpin_congr (ψ' := fun t => (E : ℂ) * φ t + (fun _ => 0) t) (fun t ht => by rw [hφ.2 t ht]; simp) hs, totalSpin_linear,
      totalSpin_zero, add_zero]
  · refine ⟨0, fun s hs => ?_⟩
    by_contra h
    exact hz ⟨s, hs, by simpa using h⟩

theorem C170_definite_heisenberg (bonds : List (ι × ι)) {E : ℝ} {φ : Wave ι} (hφ : Eigenstate (heisenberg bonds 1) E φ)
    (hone : ∀ χ, Eigenstate (heisenberg bonds 1) E χ → ∃ c : ℂ, ∀ s, IsSpin s → χ s = c * φ s) :
    ∃ c : ℂ, ∀ s, IsSpin s → totalSpin φ s = c * φ s := definite (conserves_heisenberg bonds) hφ hone

theorem C170_definite_j1j2 (L1 L2 : ℕ) (pbc : Bool) (j2 : ℂ) {E : ℝ} {φ : Wave (Fin L1 × Fin L2)}
    (hφ : Eigenstate (hamiltonian L1 L2 pbc j2) E φ)
    (hone : ∀ χ, Eigenstate (hamiltonian L1 L2 pbc j2) E χ → ∃ c : ℂ, ∀ s, IsSpin s → χ s = c * φ s) :
    ∃ c : ℂ, ∀ s, IsSpin s → totalSpin φ s = c * φ s := definite (conserves_j1j2 L1 L2 pbc j2) hφ hone

/-- Three spins of which the first points down. -/
def firstDown : Config (Fin 3) := ![-1, 1, 1]

theorem firstDown_spin : IsSpin firstDown := by
  intro i
  fin_cases i <;> simp [firstDown]

/-- With the unitary rotation the operator does not conserve the total spin, already on the open chain of three sites. -/
theorem C170_rotated (history : List (Call 3 1)) : ∃ (ψ : Wave (Fin 3)) (s : Config (Fin 3)), IsSpin s ∧
    applyRows ((((HeisOp.new1 3 true false).run history).findConn1 1 fun _ => s).2 0) (totalSpin ψ) ≠
      totalSpin (fun t => applyRows ((((HeisOp.new1 3 true false).run history).findConn1 1 fun _ => t).2 0) ψ) s := by
  refine ⟨fun _ => 1, firstDown, firstDown_spin, ?_⟩
  have hb : chainBonds' 3 false = [(0, 1), (1, 2)] := by decide
  have hH : ∀ (ψ : Wave (Fin 3)) t, IsSpin t →
      applyRows ((((HeisOp.new1 3 true false).run history).findConn1 1 fun _ => t).2 0) ψ =
        (if t 0 = t 1 then ψ t else -ψ t - 2 * ψ (exchange 0 1 t)) + if t 1 = t 2 then ψ t else -ψ t - 2 * ψ (exchange 1 2 t) := by
    intro ψ t ht
    rw [C07_heisenberg_chain true false history 1 (fun _ => t) 0 ht, hb]
    unfold heisenberg
    simp only [List.map_cons, List.map_nil, List.sum_cons, List.sum_nil, add_zero]
    rw [xx_yy ht (by decide), xx_yy ht (by decide)]
    unfold pauliZ
    rcases ht 0 with h0 | h0 <;> rcases ht 1 with h1 | h1 <;> rcases ht 2 with h2 | h2 <;> simp [h0, h1, h2] <;> ring
  have hT : ∀ (ψ : Wave (Fin 3)) t, IsSpin t → totalSpin ψ t =
      (3 * ψ t + 4 * (ψ (exchange 0 1 t) + ψ (exchange 0 2 t) + ψ (exchange 1 2 t))) / 4 := by
    intro ψ t ht
    have hx : ∀ a b : Fin 3, exchange a b t = exchange b a t := fun a b => by
      rw [exchange_eq_comp, exchange_eq_comp, Equiv.swap_comm]
    unfold totalSpin
    simp only [Fin.sum_univ_three, coupling_self _ ψ ht]
    rw [coupling_ne (by decide) ψ ht, coupling_ne (by decide) ψ ht, coupling_ne (by decide) ψ ht, coupling_ne (by decide) ψ ht,
      coupling_ne (by decide) ψ ht, coupling_ne (by decide) ψ ht, hx 1 0, hx 2 0, hx 2 1]
    ring
  have hs := firstDown_spin
  have e01 : exchange 0 1 firstDown = ![1, -1, 1] := by decide
  have e02 : exchange 0 2 firstDown = ![1, 1, -1] := by decide
  have e12 : exchange 1 2 firstDown = firstDown := by decide
  rw [hH _ _ hs, hT _ _ hs, hT _ _ (exchange_spin hs 0 1), hT _ _ hs, hH _ _ hs, hH _ _ (exchange_spin hs 0 1), hH _ _ (exchange_spin hs 0 2),
    e12, hH _ _ hs, e01, e02]
  simp [firstDown]
  norm_num

/-- The hypotheses of the definite spin are met by the singlet of two sites with one bond, whose energy is `-3`. -/
example : Eigenstate (heisenberg [((0 : Fin 2), (1 : Fin 2))] 1) (-3) (fun s => if s 0 = s 1 then 0 else (s 0 : ℂ)) ∧
    ∀ χ, Eigenstate (heisenberg [((0 : Fin 2), (1 : Fin 2))] 1) (-3) χ →
      ∃ c : ℂ, ∀ s : Config (Fin 2), IsSpin s → χ s = c * if s 0 = s 1 then 0 else (s 0 : ℂ) := by
  have hH : ∀ (ψ : Wave (Fin 2)) t, IsSpin t → heisenberg [((0 : Fin 2), (1 : Fin 2))] 1 ψ t = 2 * ψ (exchange 0 1 t) - ψ t := by
    intro ψ t ht
    rw [← coupling_ne (by decide) ψ ht]
    unfold heisenberg coupling
    simp
  have hx : ∀ (t : Config (Fin 2)), exchange 0 1 t = ![t 1, t 0] := by
    intro t
    funext i
    fin_cases i <;> simp [exchange]
  have ht : ∀ t : Config (Fin 2), t = ![t 0, t 1] := fun t => by
    funext i
    fin_cases i <;> rfl
  refine ⟨⟨⟨![1, -1], fun i => by fin_cases i <;> simp, by simp⟩, fun s hs => ?_⟩, fun χ hχ => ⟨χ ![1, -1], fun s hs => ?_⟩⟩
  · rw [hH _ _ hs, hx]
    rcases hs 0 with h0 | h0 <;> rcases hs 1 with h1 | h1 <;> simp [h0, h1] <;> norm_num
  · have h := hχ.2 s hs
    rw [hH _ _ hs, hx] at h
    have h' := ht s
    rcases hs 0 with h0 | h0 <;> rcases hs 1 with h1 | h1 <;> rw [h0, h1] at h h' <;> rw [h'] at h ⊢ <;> simp at h ⊢ <;>
      first | linear_combination h / 2 | linear_combination h / 4

end Verif.Symmetry.TotalSpin
