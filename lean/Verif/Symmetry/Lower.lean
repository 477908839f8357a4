import Verif.Symmetry.Commute
import Mathlib.Analysis.SpecialFunctions.Pow.NNReal
import Mathlib.Analysis.MeanInequalities

/-!
C132: symmetrising a model does not raise its energy, for models with positive amplitudes and Hamiltonians without
positive off-diagonal elements.
-/
namespace Verif.Ensemble

open Verif.Operators
open Verif.Energy

variable {ι : Type} [DecidableEq ι] [Fintype ι]

/-! ### Specification -/

/-- The energy `⟨ψ|H|ψ⟩ / ⟨ψ|ψ⟩` of a wave function for an operator that answers a sample `s` with the rows `conn s`. -/
noncomputable def energyOf (conn : Config ι → List (Row ι ℝ)) (ψ : Wave ι) : ℝ :=
  (∑ s ∈ allSpins ι, (starRingEnd ℂ) (ψ s) * applyRows (conn s) ψ).re / ∑ s ∈ allSpins ι, ‖ψ s‖ ^ 2

/-- What `make_up_down_invariant` and, for periodic boundaries, `make_pbc_invariants` make of a base model, in any nesting, each
with its default `probabilistic=True`; the results on a batch of one row. -/
inductive Symmetrised {D : Nat} {shape : Fin D → Nat} (pbc : Bool) (base : Config (Lattice shape) → LogAmp) :
    (Config (Lattice shape) → LogAmp) → Prop where
  | base : Symmetrised pbc base base
  | upDown {m} : Symmetrised pbc base m → Symmetrised pbc base fun x => upDown m true (fun _ : Fin 1 => x) 0
  | translations {m} (h : pbc = true) : Symmetrised pbc base m → Symmetrised pbc base fun x => pbcTranslations m true (fun _ : Fin 1 => x) 0

/-- The same on squares, where `make_2d_obc_invariants` can be nested as well. -/
inductive SquareSymmetrised {n : Nat} (pbc : Bool) (base : Config (Square n) → LogAmp) : (Config (Square n) → LogAmp) → Prop where
  | base : SquareSymmetrised pbc base base
  | upDown {m} : SquareSymmetrised pbc base m → SquareSymmetrised pbc base fun x => upDown m true (fun _ : Fin 1 => x) 0
  | translations {m} (h : pbc = true) : SquareSymmetrised pbc base m →
      SquareSymmetrised pbc base fun x => pbcTranslations (shape := fun _ : Fin 2 => n) m true (fun _ : Fin 1 => x) 0
  | obc {m} : SquareSymmetrised pbc base m → SquareSymmetrised pbc base (obcInvariant m true)

/-- The models that the library builds are among these. -/
example {n : Nat} (pbc : Bool) (base : Config (Square n) → LogAmp) : SquareSymmetrised pbc base (evaluationModel base) := .upDown (.obc .base)
example {n : Nat} (base : Config (Square n) → LogAmp) :
    SquareSymmetrised true base fun x => pbcInvariant base true (fun _ : Fin 1 => x) 0 := .translations rfl (.obc .base)

/-- A configuration of a chain as a configuration of the one-dimensional lattice. -/
def onLine {shape : Fin 1 → Nat} (s : Config (Fin (shape 0))) : Config (Lattice shape) := fun p => s (p 0)

/-- A configuration of a grid as a configuration of the two-dimensional lattice. -/
def onPlane {shape : Fin 2 → Nat} (s : Config (Fin (shape 0) × Fin (shape 1))) : Config (Lattice shape) := fun p => s (p 0, p 1)

/-! ### Proof -/

/-- The same with the Hamiltonian in the place of the rows. -/
noncomputable def energyH (H : Wave ι → Wave ι) (ψ : Wave ι) : ℝ :=
  (∑ s ∈ allSpins ι, (starRingEnd ℂ) (ψ s) * H ψ s).re / ∑ s ∈ allSpins ι, ‖ψ s‖ ^ 2

theorem energyOf_eq {conn : Config ι → List (Row ι ℝ)} {H : Wave ι → Wave ι}
    (h : ∀ s, IsSpin s → ∀ ψ, applyRows (conn s) ψ = H ψ s) (ψ : Wave ι) : energyOf conn ψ = energyH H ψ := by
  unfold energyOf energyH
  congr 2
  refine Finset.sum_congr rfl fun s hs => ?_
  rw [h s ((mem_allSpins s).1 hs)]

/-- Off-diagonal elements are not positive. -/
structure Stoquastic (H : Wave ι → Wave ι) (D : Config ι → ℝ) (moves : List ((Config ι → ℝ) × (Config ι → Config ι))) : Prop where
  nonneg : ∀ mv ∈ moves, ∀ s, IsSpin s → 0 ≤ mv.1 s
  form : ∀ ψ s, IsSpin s → H ψ s = D s * ψ s - (moves.map fun mv => (mv.1 s : ℂ) * ψ (mv.2 s)).sum

theorem tfim_stoquastic (bonds : List (ι × ι)) {h : ℝ} (hh : 0 ≤ h) (J : ℝ) :
    Stoquastic (tfim bonds h J) (fun s => -J * (bonds.map fun b => (s b.1 : ℝ) * s b.2).sum)
      (Finset.univ.toList.map fun i => (fun _ => h, Operators.flip i)) := by
  constructor
  · intro mv hmv s _
    obtain ⟨i, -, rfl⟩ := List.mem_map.1 hmv
    exact hh
  · intro ψ s _
    unfold tfim
    rw [List.map_map]
    have h1 : (bonds.map fun b => pauliZ b.1 (pauliZ b.2 ψ) s).sum = ((bonds.map fun b => (s b.1 : ℝ) * s b.2).sum : ℝ) * ψ s := by
      induction bonds with
      | nil => simp
      | cons b bonds ih =>
        simp only [List.map_cons, List.sum_cons, ih]
        unfold pauliZ
        push_cast; ring
    have h2 : ((Finset.univ.toList (α := ι)).map ((fun mv : (Config ι → ℝ) × (Config ι → Config ι) => (mv.1 s : ℂ) * ψ (mv.2 s)) ∘
        fun i => (fun _ => h, Operators.flip i))).sum = (h : ℂ) * ∑ i, pauliX i ψ s := by
      rw [Finset.sum_map_toList, Finset.mul_sum]
      rfl
    rw [h1, h2]
    push_cast; ring

omit [Fintype ι] in
theorem heisenberg_stoquastic (bonds : List (ι × ι)) :
    Stoquastic (heisenberg bonds (-1)) (fun s => (bonds.map fun b => (s b.1 : ℝ) * s b.2).sum)
      (bonds.map fun b => (fun s => 1 - (s b.1 : ℝ) * (Operators.flip b.1 s b.2 : ℝ), fun s => Operators.flip b.2 (Operators.flip b.1 s))) := by
  constructor
  · intro mv hmv s hs
    obtain ⟨b, -, rfl⟩ := List.mem_map.1 hmv
    dsimp only
    unfold Operators.flip
    by_cases hb : b.2 = b.1
    · rw [hb, Function.update_self]
      rcases hs b.1 with h | h <;> simp [h]
    · rw [Function.update_of_ne hb]
      rcases hs b.1 with h | h <;> rcases hs b.2 with h' | h' <;> simp [h, h']
  · intro ψ s _
    unfold heisenberg
    rw [List.map_map]
    induction bonds with
    | nil => simp
    | cons b bonds ih =>
      simp only [List.map_cons, List.sum_cons, ih, Function.comp]
      unfold pauliX pauliY pauliZ
      push_cast
      have := Complex.I_mul_I
      linear_combination (s b.1 : ℂ) * (Operators.flip b.1 s b.2 : ℂ) * -(ψ (Operators.flip b.2 (Operators.flip b.1 s))) * this

/-- The quadratic form of real amplitudes. -/
noncomputable def form (D : Config ι → ℝ) (moves : List ((Config ι → ℝ) × (Config ι → Config ι))) (r : Config ι → ℝ) : ℝ :=
  ∑ s ∈ allSpins ι, (D s * r s ^ 2 - (moves.map fun mv => mv.1 s * (r s * r (mv.2 s))).sum)

theorem list_sum_re (l : List ℂ) : l.sum.re = (l.map Complex.re).sum := by
  induction l with
  | nil => rfl
  | cons a l ih => simp [ih]

theorem numerator {H : Wave ι → Wave ι} {D moves} (hH : Stoquastic H D moves) (ψ : Wave ι) :
    (∑ s ∈ allSpins ι, (starRingEnd ℂ) (ψ s) * H ψ s).re =
      ∑ s ∈ allSpins ι, (D s * ‖ψ s‖ ^ 2 - (moves.map fun mv => mv.1 s * ((starRingEnd ℂ) (ψ s) * ψ (mv.2 s)).re).sum) := by
  rw [Complex.re_sum]
  refine Finset.sum_congr rfl fun s hs => ?_
  rw [hH.form ψ s ((mem_allSpins s).1 hs), mul_sub, Complex.sub_re]
  congr 1
  · rw [mul_left_comm, Complex.conj_mul', ← Complex.ofReal_pow, ← Complex.ofReal_mul, Complex.ofReal_re]
  · rw [← List.sum_map_mul_left, list_sum_re, List.map_map]
    refine congrArg List.sum (List.map_congr_left fun mv _ => ?_)
    simp only [Function.comp]
    rw [mul_left_comm, Complex.re_ofReal_mul]

theorem energyH_real {H : Wave ι → Wave ι} {D moves} (hH : Stoquastic H D moves) (r : Config ι → ℝ) :
    energyH H (fun s => (r s : ℂ)) = form D moves r / ∑ s ∈ allSpins ι, r s ^ 2 := by
  unfold energyH form
  rw [numerator hH]
  congr 1
  · refine Finset.sum_congr rfl fun s _ => ?_
    congr 1
    · rw [Complex.norm_real, Real.norm_eq_abs, sq_abs]
    · refine congrArg List.sum (List.map_congr_left fun mv _ => ?_)
      rw [Complex.conj_ofReal, ← Complex.ofReal_mul, Complex.ofReal_re]
  · refine Finset.sum_congr rfl fun s _ => ?_
    rw [Complex.norm_real, Real.norm_eq_abs, sq_abs]

/-- Taking absolute values does not raise the energy. -/
theorem energyH_abs {H : Wave ι → Wave ι} {D moves} (hH : Stoquastic H D moves) (ψ : Wave ι) :
    energyH H (fun s => ((‖ψ s‖ : ℝ) : ℂ)) ≤ energyH H ψ := by
  rw [energyH_real hH]
  unfold energyH form
  rw [numerator hH]
  refine div_le_div_of_nonneg_right ?_ (Finset.sum_nonneg fun s _ => by positivity)
  refine Finset.sum_le_sum fun s hs => sub_le_sub_left ?_ _
  refine List.sum_le_sum fun mv hmv => ?_
  refine mul_le_mul_of_nonneg_left ?_ (hH.nonneg mv hmv s ((mem_allSpins s).1 hs))
  refine (Complex.re_le_norm _).trans (le_of_eq ?_)
  rw [norm_mul, Complex.norm_conj]

/-- Transformations that leave the Hamiltonian alone. -/
structure SymmetryOf (H : Wave ι → Wave ι) (g : Config ι → Config ι) : Prop where
  commutes : Commutes H g
  inverse : ∃ h : Config ι → Config ι, (∀ s, IsSpin s → IsSpin (g s)) ∧ (∀ s, IsSpin s → IsSpin (h s)) ∧ (∀ s, g (h s) = s) ∧ ∀ s, h (g s) = s

theorem sum_symmetry {H : Wave ι → Wave ι} {g : Config ι → Config ι} (hg : SymmetryOf H g) {M : Type} [AddCommMonoid M] (f : Config ι → M) :
    ∑ s ∈ allSpins ι, f (g s) = ∑ s ∈ allSpins ι, f s := by
  obtain ⟨h, a, b, c, d⟩ := hg.inverse
  refine Finset.sum_nbij' g h ?_ ?_ (fun s _ => d s) (fun s _ => c s) (fun s _ => rfl)
  · intro s hs; rw [mem_allSpins] at hs ⊢; exact a s hs
  · intro s hs; rw [mem_allSpins] at hs ⊢; exact b s hs

theorem form_symmetry {H : Wave ι → Wave ι} {D moves} (hH : Stoquastic H D moves) {g : Config ι → Config ι} (hg : SymmetryOf H g)
    (r : Config ι → ℝ) : form D moves (fun s => r (g s)) = form D moves r := by
  have key : ∀ r : Config ι → ℝ, form D moves r = (∑ s ∈ allSpins ι, (starRingEnd ℂ) (r s : ℂ) * H (fun s => (r s : ℂ)) s).re := by
    intro r
    rw [numerator hH (fun s => (r s : ℂ))]
    unfold form
    refine Finset.sum_congr rfl fun s _ => ?_
    congr 1
    · rw [Complex.norm_real, Real.norm_eq_abs, sq_abs]
    · refine congrArg List.sum (List.map_congr_left fun mv _ => ?_)
      rw [Complex.conj_ofReal, ← Complex.ofReal_mul, Complex.ofReal_re]
  rw [key, key]
  have h1 : ∀ s, H (fun s => (r (g s) : ℂ)) s = H (fun s => (r s : ℂ)) (g s) := fun s => (hg.commutes (fun s => (r s : ℂ)) s).symm
  simp only [h1]
  rw [sum_symmetry hg fun s => (starRingEnd ℂ) (r s : ℂ) * H (fun s => (r s : ℂ)) s]

/-- Quadratic means of nonnegative amplitudes have the mean of the forms at most. -/
theorem form_le {D : Config ι → ℝ} {moves : List ((Config ι → ℝ) × (Config ι → Config ι))}
    (hn : ∀ mv ∈ moves, ∀ s, IsSpin s → 0 ≤ mv.1 s) {K : Nat} (R : Fin K → Config ι → ℝ) (ψ : Config ι → ℝ) (hK : 0 < K)
    (hψ0 : ∀ s, 0 ≤ ψ s) (hψ : ∀ s, ψ s ^ 2 = (∑ i, R i s ^ 2) / K) :
    form D moves ψ ≤ (∑ i, form D moves (R i)) / K := by
  have hK' : (0 : ℝ) < K := by exact_mod_cast hK
  unfold form
  rw [Finset.sum_comm, Finset.sum_div]
  refine Finset.sum_le_sum fun s hs => ?_
  rw [Finset.sum_sub_distrib, sub_div, hψ, ← Finset.mul_sum, mul_div_assoc]
  refine sub_le_sub_left ?_ _
  have h1 : ∀ mv ∈ moves, (∑ i, mv.1 s * (R i s * R i (mv.2 s))) / K ≤ mv.1 s * (ψ s * ψ (mv.2 s)) := by
    intro mv hmv
    rw [← Finset.mul_sum, mul_div_assoc]
    refine mul_le_mul_of_nonneg_left ?_ (hn mv hmv s ((mem_allSpins s).1 hs))
    have hcs := Finset.sum_mul_sq_le_sq_mul_sq Finset.univ (fun i => R i s) fun i => R i (mv.2 s)
    refine le_of_sq_le_sq ?_ (mul_nonneg (hψ0 _) (hψ0 _))
    rw [mul_pow, hψ, hψ, div_pow, div_mul_div_comm, ← sq]
    exact div_le_div_of_nonneg_right hcs (by positivity)
  have h2 : (∑ i, (moves.map fun mv => mv.1 s * (R i s * R i (mv.2 s))).sum) / K =
      (moves.map fun mv => (∑ i, mv.1 s * (R i s * R i (mv.2 s))) / K).sum := by
    clear h1 hn
    induction moves with
    | nil => simp
    | cons mv moves ih => simp only [List.map_cons, List.sum_cons, Finset.sum_add_distrib, add_div, ih]
  rw [h2]
  exact List.sum_le_sum h1

/-- A probabilistic ensemble of real positive amplitudes is real and positive. -/
theorem ensemble_im {x : List LogAmp} (hx : x ≠ []) (h : ∀ a ∈ x, a.im = 0) : (ensembleOp true x).im = 0 := by
  unfold ensembleOp probabilisticOp mean angle
  simp only [if_true]
  rw [List.map_congr_left (g := fun _ => (1 : ℂ)) fun a ha => by rw [h a ha]; simp]
  have : (x.length : ℂ) ≠ 0 := by exact_mod_cast (List.length_pos_of_ne_nil hx).ne'
  simp [this]

theorem exp_of_im {x : LogAmp} (h : x.im = 0) : x.exp = ((expReal x.re : ℝ) : ℂ) := by
  unfold LogAmp.exp
  rw [h]
  simp

/-- Symmetrising positive amplitudes does not raise the energy. -/
theorem ensemble_lower {H : Wave ι → Wave ι} {D moves} (hH : Stoquastic H D moves) {gs : List (Config ι → Config ι)} (hne : gs ≠ [])
    (hgs : ∀ g ∈ gs, SymmetryOf H g) {model : Config ι → LogAmp} (him : ∀ s, (model s).im = 0) :
    energyH H (fun s => (ensembleOp true (gs.map fun g => model (g s))).exp) ≤ (energyH H fun s => (model s).exp) ∧
      ∑ s ∈ allSpins ι, ‖(ensembleOp true (gs.map fun g => model (g s))).exp‖ ^ 2 = ∑ s ∈ allSpins ι, ‖(model s).exp‖ ^ 2 := by
  set sym : Config ι → LogAmp := fun s => ensembleOp true (gs.map fun g => model (g s)) with hsym
  have himS : ∀ s, (sym s).im = 0 := by
    intro s
    refine ensemble_im (by simpa using hne) fun a ha => ?_
    obtain ⟨g, -, rfl⟩ := List.mem_map.1 ha
    exact him _
  have hK : 0 < gs.length := List.length_pos_of_ne_nil hne
  have hK' : (0 : ℝ) < gs.length := by exact_mod_cast hK
  have e1 : (fun s => (sym s).exp) = fun s => ((expReal (sym s).re : ℝ) : ℂ) := funext fun s => exp_of_im (himS s)
  have e2 : (fun s => (model s).exp) = fun s => ((expReal (model s).re : ℝ) : ℂ) := funext fun s => exp_of_im (him s)
  have hsq : ∀ s, expReal (sym s).re ^ 2 = (∑ i : Fin gs.length, expReal (model (gs[i.val] s)).re ^ 2) / gs.length := by
    intro s
    have := probabilistic_prob (x := gs.map fun g => model (g s)) (by simpa using hne)
    rw [norm_exp, List.map_map, List.length_map] at this
    rw [this]
    congr 1
    rw [Fin.sum_univ_fun_getElem gs fun g => expReal (model (g s)).re ^ 2]
    refine congrArg List.sum (List.map_congr_left fun g _ => ?_)
    simp only [Function.comp, norm_exp]
  have hnorm : ∑ s ∈ allSpins ι, expReal (sym s).re ^ 2 = ∑ s ∈ allSpins ι, expReal (model s).re ^ 2 := by
    simp only [hsq]
    rw [← Finset.sum_div, Finset.sum_comm]
    simp only [fun i : Fin gs.length => sum_symmetry (hgs gs[i.val] (List.getElem_mem i.2)) fun s => expReal (model s).re ^ 2]
    rw [Finset.sum_const, Finset.card_univ, Fintype.card_fin, nsmul_eq_mul]
    field_simp
  refine ⟨?_, by simp only [norm_exp]; exact hnorm⟩
  show energyH H (fun s => (sym s).exp) ≤ _
  rw [e1, e2, energyH_real hH, energyH_real hH, hnorm]
  refine div_le_div_of_nonneg_right ?_ (Finset.sum_nonneg fun s _ => by positivity)
  refine (form_le hH.nonneg (fun (i : Fin gs.length) s => expReal (model (gs[i.val] s)).re) _ hK (fun s => expReal_nonneg _) hsq).trans
    (le_of_eq ?_)
  simp only [fun i : Fin gs.length => form_symmetry hH (hgs gs[i.val] (List.getElem_mem i.2)) fun s => expReal (model s).re]
  rw [Finset.sum_const, Finset.card_univ, Fintype.card_fin, nsmul_eq_mul]
  field_simp

/-! ### Nested symmetrisation -/

variable {κ : Type}

omit [DecidableEq ι] [Fintype ι] in
theorem lift_list {H : Wave ι → Wave ι} (emb : Config ι → Config κ) (model : Config κ → LogAmp) :
    ∀ (Ts : List (Config κ → Config κ)), (∀ T ∈ Ts, ∃ g, SymmetryOf H g ∧ ∀ s, emb (g s) = T (emb s)) →
    ∃ gs : List (Config ι → Config ι), gs.length = Ts.length ∧ (∀ g ∈ gs, SymmetryOf H g) ∧
      ∀ s, gs.map (fun g => model (emb (g s))) = Ts.map fun T => model (T (emb s))
  | [], _ => ⟨[], rfl, by simp, fun _ => rfl⟩
  | T :: Ts, h => by
    obtain ⟨g, hg, hgT⟩ := h T (by simp)
    obtain ⟨gs, hl, hs, he⟩ := lift_list emb model Ts fun T hT => h T (by simp [hT])
    refine ⟨g :: gs, by simp [hl], ?_, fun s => by simp only [List.map_cons, hgT, he]⟩
    intro g' hg'
    rcases List.mem_cons.1 hg' with rfl | hg'
    · exact hg
    · exact hs _ hg'

/-- `m` is real and positive, has the norm of `base` and an energy that is not higher. -/
structure Lower (H : Wave ι → Wave ι) (emb : Config ι → Config κ) (base m : Config κ → LogAmp) : Prop where
  im : ∀ x, (m x).im = 0
  norm : ∑ s ∈ allSpins ι, ‖(m (emb s)).exp‖ ^ 2 = ∑ s ∈ allSpins ι, ‖(base (emb s)).exp‖ ^ 2
  energy : energyH H (fun s => (m (emb s)).exp) ≤ energyH H fun s => (base (emb s)).exp

theorem Lower.step {H : Wave ι → Wave ι} {D moves} (hH : Stoquastic H D moves) {emb : Config ι → Config κ} {base m m' : Config κ → LogAmp}
    (hm : Lower H emb base m) (Ts : List (Config κ → Config κ)) (hne : Ts ≠ [])
    (hTs : ∀ T ∈ Ts, ∃ g, SymmetryOf H g ∧ ∀ s, emb (g s) = T (emb s)) (hm' : ∀ x, m' x = ensembleOp true (Ts.map fun T => m (T x))) :
    Lower H emb base m' := by
  obtain ⟨gs, hl, hs, he⟩ := lift_list emb m Ts hTs
  have hgs : gs ≠ [] := by
    rintro rfl
    exact hne (List.length_eq_zero_iff.1 hl.symm)
  obtain ⟨h1, h2⟩ := ensemble_lower hH hgs hs (model := fun s => m (emb s)) fun s => hm.im _
  simp only [he, ← hm'] at h1 h2
  refine ⟨fun x => ?_, h2.trans hm.norm, h1.trans hm.energy⟩
  rw [hm']
  refine ensemble_im (by simpa using hne) fun a ha => ?_
  obtain ⟨T, -, rfl⟩ := List.mem_map.1 ha
  exact hm.im _

theorem upDown_eq (m : Config κ → LogAmp) (x : Config κ) :
    upDown m true (fun _ : Fin 1 => x) 0 = ensembleOp true ([id, fun s i => -s i].map fun T => m (T x)) := by
  unfold upDown
  rw [buildSymmetrization_eq]
  simp only [List.map_cons, List.map_nil, mul_neg, mul_one, id]

omit [DecidableEq ι] [Fintype ι] in
theorem SymmetryOf.refl (H : Wave ι → Wave ι) : SymmetryOf H id :=
  ⟨fun _ _ => rfl, id, fun _ h => h, fun _ h => h, fun _ => rfl, fun _ => rfl⟩

omit [DecidableEq ι] [Fintype ι] in
theorem upDown_members {H : Wave ι → Wave ι} (hneg : SymmetryOf H fun s i => -s i) (emb : Config ι → Config κ)
    (hemb : ∀ s, emb (fun i => -s i) = fun i => -emb s i) :
    ∀ T ∈ [id, fun (s : Config κ) i => -s i], ∃ g, SymmetryOf H g ∧ ∀ s, emb (g s) = T (emb s) := by
  intro T hT
  rcases List.mem_cons.1 hT with rfl | hT
  · exact ⟨id, .refl H, fun _ => rfl⟩
  · rw [List.mem_singleton] at hT
    subst hT
    exact ⟨_, hneg, hemb⟩

omit [DecidableEq ι] [Fintype ι] in
theorem inverse_rename (e : ι ≃ ι) : ∃ h : Config ι → Config ι, (∀ s, IsSpin s → IsSpin fun p => s (e p)) ∧ (∀ s, IsSpin s → IsSpin (h s)) ∧
    (∀ s, (fun p => h s (e p)) = s) ∧ ∀ s, h (fun p => s (e p)) = s :=
  ⟨fun s p => s (e.symm p), fun s hs p => hs _, fun s hs p => hs _, fun s => by funext p; simp, fun s => by funext p; simp⟩

omit [DecidableEq ι] [Fintype ι] in
theorem inverse_neg : ∃ h : Config ι → Config ι, (∀ s : Config ι, IsSpin s → IsSpin fun p => -s p) ∧ (∀ s, IsSpin s → IsSpin (h s)) ∧
    (∀ s, (fun p => -h s p) = s) ∧ ∀ s : Config ι, h (fun p => -s p) = s := by
  have hspin : ∀ s : Config ι, IsSpin s → IsSpin fun i => -s i := by
    intro s hs i
    rcases hs i with h | h <;> simp [h]
  exact ⟨fun s p => -s p, hspin, hspin, fun s => by funext p; simp, fun s => by funext p; simp⟩

/-- Rolling an axis is a translation. -/
def rollEquiv {m : Nat} (t : Fin m) : Fin m ≃ Fin m := shiftEquiv m (m - t.val)

theorem rollEquiv_apply {m : Nat} (t i : Fin m) : rollEquiv t i = rollIndex t i := rfl

/-! ### The four operators on their lattices -/

theorem symmetrised_line {shape : Fin 1 → Nat} {H : Wave (Fin (shape 0)) → Wave (Fin (shape 0))} {D moves} (hH : Stoquastic H D moves) {pbc : Bool}
    (hneg : Commutes H fun s p => -s p) (hren : ∀ e, BondSym (chainBonds (shape 0) pbc) e → Commutes H fun s p => s (e p))
    (hpos : 0 < shape 0) {base m : Config (Lattice shape) → LogAmp} (him : ∀ x, (base x).im = 0) (hm : Symmetrised pbc base m) :
    Lower H onLine base m := by
  induction hm with
  | base => exact ⟨him, rfl, le_rfl⟩
  | upDown _ ih => exact ih.step hH _ (by simp) (upDown_members ⟨hneg, inverse_neg⟩ onLine fun _ => rfl) (upDown_eq _)
  | translations h _ ih =>
    refine ih.step hH ((productRange shape).map fun t x => roll t x) ?_ ?_ fun x => ?_
    · have := productRange_length_pos (shape := shape) (fun d => by rw [Subsingleton.elim d 0]; exact hpos)
      simpa using this
    · intro T hT
      obtain ⟨t, -, rfl⟩ := List.mem_map.1 hT
      exact ⟨fun s i => s (rollEquiv (t 0) i), ⟨hren _ (h ▸ bondSym_chain_shift _ _), inverse_rename _⟩, fun _ => rfl⟩
    · rw [pbcTranslations_eq, List.map_map]
      rfl

theorem roll_plane {shape : Fin 2 → Nat} (t : Lattice shape) (s : Config (Fin (shape 0) × Fin (shape 1))) :
    onPlane (fun p => s (Equiv.prodCongr (rollEquiv (t 0)) (rollEquiv (t 1)) p)) = roll t (onPlane s) := rfl

theorem symmetrised_plane {shape : Fin 2 → Nat} {H : Wave (Fin (shape 0) × Fin (shape 1)) → Wave (Fin (shape 0) × Fin (shape 1))} {D moves}
    (hH : Stoquastic H D moves) {pbc : Bool} (hneg : Commutes H fun s p => -s p)
    (hren : ∀ e, BondSym (gridBonds (shape 0) (shape 1) pbc) e → Commutes H fun s p => s (e p)) (hpos : ∀ d, 0 < shape d)
    {base m : Config (Lattice shape) → LogAmp} (him : ∀ x, (base x).im = 0) (hm : Symmetrised pbc base m) : Lower H onPlane base m := by
  induction hm with
  | base => exact ⟨him, rfl, le_rfl⟩
  | upDown _ ih => exact ih.step hH _ (by simp) (upDown_members ⟨hneg, inverse_neg⟩ onPlane fun _ => rfl) (upDown_eq _)
  | translations h _ ih =>
    refine ih.step hH ((productRange shape).map fun t x => roll t x) ?_ ?_ fun x => ?_
    · simpa using productRange_length_pos hpos
    · intro T hT
      obtain ⟨t, -, rfl⟩ := List.mem_map.1 hT
      exact ⟨_, ⟨hren _ (h ▸ bondSym_shift _ _ _ _), inverse_rename _⟩, roll_plane t⟩
    · rw [pbcTranslations_eq, List.map_map]
      rfl

theorem symmetrised_square {n : Nat} {H : Wave (Fin n × Fin n) → Wave (Fin n × Fin n)} {D moves} (hH : Stoquastic H D moves) {pbc : Bool}
    (hneg : Commutes H fun s p => -s p) (hren : ∀ e, BondSym (gridBonds n n pbc) e → Commutes H fun s p => s (e p)) (hpos : 0 < n)
    {base m : Config (Square n) → LogAmp} (him : ∀ x, (base x).im = 0) (hm : SquareSymmetrised pbc base m) : Lower H onSquare base m := by
  induction hm with
  | base => exact ⟨him, rfl, le_rfl⟩
  | upDown _ ih => exact ih.step hH _ (by simp) (upDown_members ⟨hneg, inverse_neg⟩ onSquare fun _ => rfl) (upDown_eq _)
  | translations h _ ih =>
    refine ih.step hH ((productRange fun _ : Fin 2 => n).map fun t x => roll t x) ?_ ?_ fun x => ?_
    · simpa using productRange_length_pos (shape := fun _ : Fin 2 => n) fun _ => hpos
    · intro T hT
      obtain ⟨t, -, rfl⟩ := List.mem_map.1 hT
      exact ⟨_, ⟨hren _ (h ▸ bondSym_shift _ _ _ _), inverse_rename _⟩, roll_plane (shape := fun _ => n) t⟩
    · rw [pbcTranslations_eq, List.map_map]
      rfl
  | obc _ ih =>
    refine ih.step hH (members.map fun σ x p => x (sym σ p)) (by simp [members]) ?_ fun x => ?_
    · intro T hT
      obtain ⟨σ, -, rfl⟩ := List.mem_map.1 hT
      exact ⟨_, ⟨hren _ (bondSym_gridSym n pbc σ.1 σ.2.1 σ.2.2), inverse_rename _⟩, onSquare_gridSym _ _ _⟩
    · unfold obcInvariant buildEnsemble
      rw [obcInputs_eq, List.map_map, List.map_map]
      rfl

/-- The answer of the Ising operator to a single sample, on a chain and on a grid. -/
noncomputable abbrev isingChain {n : Nat} (h j : ℝ) (pbc : Bool) (s : Config (Fin n)) : List (Row (Fin n) ℝ) :=
  isingFindConn1 (.float h) j pbc (fun _ : Fin 1 => s) 0
noncomputable abbrev isingGrid {n m : Nat} (h j : ℝ) (pbc : Bool) (s : Config (Fin n × Fin m)) : List (Row (Fin n × Fin m) ℝ) :=
  isingFindConn2 (.float h) j pbc (fun _ : Fin 1 => s) 0

/-- The answer of the Heisenberg operator to a single sample after a history of calls, on a chain and on a grid. -/
noncomputable abbrev heisenbergChain {n : Nat} (rot pbc : Bool) (history : List (Call n 1)) (s : Config (Fin n)) : List (Row (Fin n) ℝ) :=
  (((HeisOp.new1 n rot pbc).run history).findConn1 1 fun _ => s).2 0
noncomputable abbrev heisenbergGrid {n m : Nat} (rot pbc : Bool) (history : List (Call n m)) (s : Config (Fin n × Fin m)) :
    List (Row (Fin n × Fin m) ℝ) :=
  (((HeisOp.new2 n m rot pbc).run history).findConn 1 fun _ => s).2 0

theorem isingChain_energy {n : Nat} (h j : ℝ) (pbc : Bool) (ψ : Wave (Fin n)) :
    energyOf (isingChain h j pbc) ψ = energyH (tfim (chainBonds n pbc) h j) ψ :=
  energyOf_eq (fun s _ ψ => C06_ising_chain h j pbc (fun _ : Fin 1 => s) 0 ψ) ψ

theorem isingGrid_energy {n m : Nat} (h j : ℝ) (pbc : Bool) (ψ : Wave (Fin n × Fin m)) :
    energyOf (isingGrid h j pbc) ψ = energyH (tfim (gridBonds n m pbc) h j) ψ :=
  energyOf_eq (fun s _ ψ => C06_ising_grid h j pbc (fun _ : Fin 1 => s) 0 ψ) ψ

theorem heisenbergChain_energy {n : Nat} (rot pbc : Bool) (history : List (Call n 1)) (ψ : Wave (Fin n)) :
    energyOf (heisenbergChain rot pbc history) ψ = energyH (heisenberg (chainBonds' n pbc) (if rot then -1 else 1)) ψ :=
  energyOf_eq (fun s hs ψ => C07_heisenberg_chain rot pbc history 1 (fun _ => s) 0 hs ψ) ψ

theorem heisenbergGrid_energy {n m : Nat} (rot pbc : Bool) (history : List (Call n m)) (ψ : Wave (Fin n × Fin m)) :
    energyOf (heisenbergGrid rot pbc history) ψ = energyH (heisenberg (gridBonds n m pbc) (if rot then -1 else 1)) ψ :=
  energyOf_eq (fun s hs ψ => C07_heisenberg_grid rot pbc history 1 (fun _ => s) 0 hs ψ) ψ

theorem lower_ising_chain {shape : Fin 1 → Nat} {h : ℝ} (hh : 0 ≤ h) (j : ℝ) (pbc : Bool) (hpos : 0 < shape 0)
    {base m : Config (Lattice shape) → LogAmp} (him : ∀ x, (base x).im = 0) (hm : Symmetrised pbc base m) :
    Lower (tfim (chainBonds (shape 0) pbc) h j) onLine base m :=
  symmetrised_line (tfim_stoquastic _ hh j) (tfim_commutes_neg _ h j) (fun _ he => tfim_commutes he h j) hpos him hm

theorem lower_ising_plane {shape : Fin 2 → Nat} {h : ℝ} (hh : 0 ≤ h) (j : ℝ) (pbc : Bool) (hpos : ∀ d, 0 < shape d)
    {base m : Config (Lattice shape) → LogAmp} (him : ∀ x, (base x).im = 0) (hm : Symmetrised pbc base m) :
    Lower (tfim (gridBonds (shape 0) (shape 1) pbc) h j) onPlane base m :=
  symmetrised_plane (tfim_stoquastic _ hh j) (tfim_commutes_neg _ h j) (fun _ he => tfim_commutes he h j) hpos him hm

theorem lower_ising_square {n : Nat} {h : ℝ} (hh : 0 ≤ h) (j : ℝ) (pbc : Bool) (hpos : 0 < n)
    {base m : Config (Square n) → LogAmp} (him : ∀ x, (base x).im = 0) (hm : SquareSymmetrised pbc base m) :
    Lower (tfim (gridBonds n n pbc) h j) onSquare base m :=
  symmetrised_square (tfim_stoquastic _ hh j) (tfim_commutes_neg _ h j) (fun _ he => tfim_commutes he h j) hpos him hm

theorem lower_heisenberg_chain {shape : Fin 1 → Nat} (pbc : Bool) (hpos : 0 < shape 0)
    {base m : Config (Lattice shape) → LogAmp} (him : ∀ x, (base x).im = 0) (hm : Symmetrised pbc base m) :
    Lower (heisenberg (chainBonds' (shape 0) pbc) (-1)) onLine base m :=
  symmetrised_line (heisenberg_stoquastic _) (heisenberg_commutes_neg _ _) (fun _ he => heisenberg_commutes (bondSym_chain' he) _) hpos him hm

theorem lower_heisenberg_plane {shape : Fin 2 → Nat} (pbc : Bool) (hpos : ∀ d, 0 < shape d)
    {base m : Config (Lattice shape) → LogAmp} (him : ∀ x, (base x).im = 0) (hm : Symmetrised pbc base m) :
    Lower (heisenberg (gridBonds (shape 0) (shape 1) pbc) (-1)) onPlane base m :=
  symmetrised_plane (heisenberg_stoquastic _) (heisenberg_commutes_neg _ _) (fun _ he => heisenberg_commutes he _) hpos him hm

theorem lower_heisenberg_square {n : Nat} (pbc : Bool) (hpos : 0 < n)
    {base m : Config (Square n) → LogAmp} (him : ∀ x, (base x).im = 0) (hm : SquareSymmetrised pbc base m) :
    Lower (heisenberg (gridBonds n n pbc) (-1)) onSquare base m :=
  symmetrised_square (heisenberg_stoquastic _) (heisenberg_commutes_neg _ _) (fun _ he => heisenberg_commutes he _) hpos him hm

/-! ### C132 -/

/-- **C132 (Ising, chains).** For fields that are not negative and base models with positive amplitudes: however often and in
whatever order the model is symmetrised, its energy does not rise. -/
theorem C132_ising_chain_partial {shape : Fin 1 → Nat} (hpos : 0 < shape 0) {h : ℝ} (hh : 0 ≤ h) (j : ℝ) (pbc : Bool)
    {base m : Config (Lattice shape) → LogAmp} (him : ∀ x, (base x).im = 0) (hm : Symmetrised pbc base m) :
    energyOf (isingChain h j pbc) (fun s => (m (onLine s)).exp) ≤ energyOf (isingChain h j pbc) fun s => (base (onLine s)).exp := by
  rw [isingChain_energy, isingChain_energy]
  exact (lower_ising_chain hh j pbc hpos him hm).energy

/-- **C132 (Ising, rectangles).** -/
theorem C132_ising_grid_partial {shape : Fin 2 → Nat} (hpos : ∀ d, 0 < shape d) {h : ℝ} (hh : 0 ≤ h) (j : ℝ) (pbc : Bool)
    {base m : Config (Lattice shape) → LogAmp} (him : ∀ x, (base x).im = 0) (hm : Symmetrised pbc base m) :
    energyOf (isingGrid h j pbc) (fun s => (m (onPlane s)).exp) ≤ energyOf (isingGrid h j pbc) fun s => (base (onPlane s)).exp := by
  rw [isingGrid_energy, isingGrid_energy]
  exact (lower_ising_plane hh j pbc hpos him hm).energy

/-- **C132 (Ising, squares).** -/
theorem C132_ising_square_partial {n : Nat} (hpos : 0 < n) {h : ℝ} (hh : 0 ≤ h) (j : ℝ) (pbc : Bool)
    {base m : Config (Square n) → LogAmp} (him : ∀ x, (base x).im = 0) (hm : SquareSymmetrised pbc base m) :
    energyOf (isingGrid h j pbc) (fun s => (m (onSquare s)).exp) ≤ energyOf (isingGrid h j pbc) fun s => (base (onSquare s)).exp := by
  rw [isingGrid_energy, isingGrid_energy]
  exact (lower_ising_square hh j pbc hpos him hm).energy

/-- **C132 (Heisenberg, chains).** With `unitary_rotation=True`, the default. -/
theorem C132_heisenberg_chain_partial {shape : Fin 1 → Nat} (hpos : 0 < shape 0) (pbc : Bool) (history : List (Call (shape 0) 1))
    {base m : Config (Lattice shape) → LogAmp} (him : ∀ x, (base x).im = 0) (hm : Symmetrised pbc base m) :
    energyOf (heisenbergChain true pbc history) (fun s => (m (onLine s)).exp) ≤
      energyOf (heisenbergChain true pbc history) fun s => (base (onLine s)).exp := by
  rw [heisenbergChain_energy, heisenbergChain_energy]
  exact (lower_heisenberg_chain pbc hpos him hm).energy

/-- **C132 (Heisenberg, rectangles).** -/
theorem C132_heisenberg_grid_partial {shape : Fin 2 → Nat} (hpos : ∀ d, 0 < shape d) (pbc : Bool) (history : List (Call (shape 0) (shape 1)))
    {base m : Config (Lattice shape) → LogAmp} (him : ∀ x, (base x).im = 0) (hm : Symmetrised pbc base m) :
    energyOf (heisenbergGrid true pbc history) (fun s => (m (onPlane s)).exp) ≤
      energyOf (heisenbergGrid true pbc history) fun s => (base (onPlane s)).exp := by
  rw [heisenbergGrid_energy, heisenbergGrid_energy]
  exact (lower_heisenberg_plane pbc hpos him hm).energy

/-- **C132 (Heisenberg, squares).** -/
theorem C132_heisenberg_square_partial {n : Nat} (hpos : 0 < n) (pbc : Bool) (history : List (Call n n))
    {base m : Config (Square n) → LogAmp} (him : ∀ x, (base x).im = 0) (hm : SquareSymmetrised pbc base m) :
    energyOf (heisenbergGrid true pbc history) (fun s => (m (onSquare s)).exp) ≤
      energyOf (heisenbergGrid true pbc history) fun s => (base (onSquare s)).exp := by
  rw [heisenbergGrid_energy, heisenbergGrid_energy]
  exact (lower_heisenberg_square pbc hpos him hm).energy

/-- The positive model with the absolute values of a wave function. -/
noncomputable def absModel (φ : Wave κ) (x : Config κ) : LogAmp := ⟨logReal ‖φ x‖, 0⟩

theorem absModel_exp (φ : Wave κ) (x : Config κ) : (absModel φ x).exp = ((‖φ x‖ : ℝ) : ℂ) := by
  rw [exp_of_im rfl]
  unfold absModel logReal
  dsimp only
  by_cases h : ‖φ x‖ = 0
  · rw [if_pos h, h]; rfl
  · rw [if_neg h]
    show ((Real.exp (Real.log ‖φ x‖) : ℝ) : ℂ) = _
    rw [Real.exp_log (lt_of_le_of_ne (norm_nonneg _) (Ne.symm h))]

theorem no_loss {H : Wave ι → Wave ι} {D moves} (hH : Stoquastic H D moves) {emb : Config ι → Config κ} {φ : Wave κ} {m : Config κ → LogAmp}
    (hm : Lower H emb (absModel φ) m) :
    ∑ s ∈ allSpins ι, ‖(m (emb s)).exp‖ ^ 2 = ∑ s ∈ allSpins ι, ‖φ (emb s)‖ ^ 2 ∧
      energyH H (fun s => (m (emb s)).exp) ≤ energyH H fun s => φ (emb s) := by
  refine ⟨hm.norm.trans (Finset.sum_congr rfl fun s _ => ?_), hm.energy.trans ?_⟩
  · rw [absModel_exp, Complex.norm_real, norm_norm]
  · simp only [absModel_exp]
    exact energyH_abs hH fun s => φ (emb s)

/-- **C132 (nothing is lost, Ising).** For every wave function, complex or not, there is a positive base model such that
everything made of it by symmetrisation has the norm of the wave function and at most its energy: the lowest energy is
within reach of symmetrised models. -/
theorem C132_no_loss_ising {n : Nat} (hpos : 0 < n) {h : ℝ} (hh : 0 ≤ h) (j : ℝ) (pbc : Bool) (φ : Wave (Square n)) :
    ∃ base : Config (Square n) → LogAmp, (∀ x, (base x).im = 0) ∧ ∀ m, SquareSymmetrised pbc base m →
      ∑ s ∈ allSpins (Fin n × Fin n), ‖(m (onSquare s)).exp‖ ^ 2 = ∑ s ∈ allSpins (Fin n × Fin n), ‖φ (onSquare s)‖ ^ 2 ∧
      energyOf (isingGrid h j pbc) (fun s => (m (onSquare s)).exp) ≤ energyOf (isingGrid h j pbc) fun s => φ (onSquare s) := by
  refine ⟨absModel φ, fun _ => rfl, fun m hm => ?_⟩
  rw [isingGrid_energy, isingGrid_energy]
  exact no_loss (tfim_stoquastic _ hh j) (lower_ising_square hh j pbc hpos (fun _ => rfl) hm)

/-- **C132 (nothing is lost, Heisenberg).** -/
theorem C132_no_loss_heisenberg {n : Nat} (hpos : 0 < n) (pbc : Bool) (history : List (Call n n)) (φ : Wave (Square n)) :
    ∃ base : Config (Square n) → LogAmp, (∀ x, (base x).im = 0) ∧ ∀ m, SquareSymmetrised pbc base m →
      ∑ s ∈ allSpins (Fin n × Fin n), ‖(m (onSquare s)).exp‖ ^ 2 = ∑ s ∈ allSpins (Fin n × Fin n), ‖φ (onSquare s)‖ ^ 2 ∧
      energyOf (heisenbergGrid true pbc history) (fun s => (m (onSquare s)).exp) ≤
        energyOf (heisenbergGrid true pbc history) fun s => φ (onSquare s) := by
  refine ⟨absModel φ, fun _ => rfl, fun m hm => ?_⟩
  rw [heisenbergGrid_energy, heisenbergGrid_energy]
  exact no_loss (heisenberg_stoquastic _) (lower_heisenberg_square pbc hpos (fun _ => rfl) hm)

/-! ### Where the energy rises -/

theorem sum_two_spins {M : Type} [AddCommMonoid M] (f : Config (Fin 2) → M) :
    ∑ s ∈ allSpins (Fin 2), f s = f ![1, 1] + (f ![1, -1] + (f ![-1, 1] + f ![-1, -1])) := by
  rw [show allSpins (Fin 2) = {![1, 1], ![1, -1], ![-1, 1], ![-1, -1]} from by decide]
  rw [Finset.sum_insert (by decide), Finset.sum_insert (by decide), Finset.sum_insert (by decide), Finset.sum_singleton]

theorem flips_two (a b : ℤ) : Operators.flip (0 : Fin 2) ![a, b] = ![-a, b] ∧ Operators.flip (1 : Fin 2) ![a, b] = ![a, -b] := by
  constructor <;> (funext i; fin_cases i <;> simp [Operators.flip, Function.update])

theorem negated_two (a b : ℤ) : (fun i => -(![a, b] : Config (Fin 2)) i) = ![-a, -b] := by
  funext i; fin_cases i <;> rfl

theorem bonds_two : chainBonds 2 false = [(0, 1)] := by decide

theorem tfim_two (h j : ℝ) (ψ : Wave (Fin 2)) (a b : ℤ) :
    tfim (chainBonds 2 false) h j ψ ![a, b] = -(j : ℂ) * (a * b * ψ ![a, b]) - h * (ψ ![-a, b] + ψ ![a, -b]) := by
  unfold tfim pauliZ pauliX
  rw [bonds_two]
  simp only [List.map_cons, List.map_nil, List.sum_cons, List.sum_nil, add_zero, Fin.sum_univ_two, (flips_two a b).1, (flips_two a b).2,
    Matrix.cons_val_zero, Matrix.cons_val_one]
  ring

theorem heisenberg_two (ε : ℝ) (ψ : Wave (Fin 2)) (a b : ℤ) :
    heisenberg (chainBonds' 2 false) ε ψ ![a, b] = ε * ((1 - a * b) * ψ ![-a, -b]) + a * b * ψ ![a, b] := by
  unfold heisenberg pauliZ pauliX pauliY chainBonds'
  rw [if_pos (by decide), bonds_two]
  simp only [List.map_cons, List.map_nil, List.sum_cons, List.sum_nil, add_zero, (flips_two _ _).1, (flips_two _ _).2,
    Matrix.cons_val_zero, Matrix.cons_val_one]
  have := Complex.I_mul_I
  linear_combination (ε : ℂ) * a * b * ψ ![-a, -b] * this

theorem upDown_two (m : Config (Fin 2) → LogAmp) (p : Bool) (a b : ℤ) :
    upDown m p (fun _ : Fin 1 => ![a, b]) 0 = ensembleOp p [m ![a, b], m ![-a, -b]] := by
  unfold upDown
  rw [buildSymmetrization_eq]
  simp only [List.map_cons, List.map_nil]
  rw [show (fun i => (![a, b] : Config (Fin 2)) i * -1) = ![-a, -b] from by funext i; fin_cases i <;> simp]

theorem half_log (v : ℝ) : (0.5 : ℝ) * v - 0.5 * v = 0 := by ring

/-- A probabilistic ensemble of two members of absolute value one. -/
theorem ensemble_unit (x y : ℝ) : (ensembleOp true [⟨some 0, x⟩, ⟨some 0, y⟩]).exp =
    Complex.exp (Complex.arg ((Complex.exp (x * Complex.I) + Complex.exp (y * Complex.I)) / 2) * Complex.I) := by
  have h2 : (1 : ℝ) + 1 ≠ 0 := by norm_num
  have h1 : (ensembleOp true [⟨some 0, x⟩, ⟨some 0, y⟩]) =
      ⟨some 0, Complex.arg ((Complex.exp (x * Complex.I) + Complex.exp (y * Complex.I)) / 2)⟩ := by
    unfold ensembleOp probabilisticOp mean angle logReal
    simp only [if_true, List.map_cons, List.map_nil, List.sum_cons, List.sum_nil, add_zero, Option.map_some, zero_mul, expReal, Real.exp_zero,
      if_neg h2, List.length_cons, List.length_nil, LogAmp.mk.injEq]
    refine ⟨?_, ?_⟩
    · norm_num
    · norm_num
  rw [h1]
  unfold LogAmp.exp expReal
  simp

/-- The base model of the first counterexample: absolute values one, phases only where the spins differ. -/
noncomputable def phaseModel (s : Config (Fin 2)) : LogAmp :=
  ⟨some 0, if s 0 = s 1 then 0 else if s 0 = 1 then 2 * Real.pi / 3 else -(2 * Real.pi / 3)⟩

theorem cos_third : Real.cos (2 * Real.pi / 3) = -(1 / 2) := by
  rw [show 2 * Real.pi / 3 = Real.pi - Real.pi / 3 by ring, Real.cos_pi_sub, Real.cos_pi_div_three]

theorem phase_mean : (Complex.exp (((2 * Real.pi / 3 : ℝ) : ℂ) * Complex.I) + Complex.exp (((-(2 * Real.pi / 3) : ℝ) : ℂ) * Complex.I)) / 2 = ((-(1 / 2) : ℝ) : ℂ) := by
  rw [← cos_third, Complex.ofReal_cos, Complex.cos]
  push_cast
  ring_nf

theorem phase_sym (s : Config (Fin 2)) (hs : s = ![1, 1] ∨ s = ![-1, -1]) : (upDown phaseModel true (fun _ : Fin 1 => s) 0).exp = 1 := by
  rcases hs with rfl | rfl <;> rw [upDown_two] <;> unfold phaseModel <;>
    simp [ensemble_unit]

theorem phase_sym' (s : Config (Fin 2)) (hs : s = ![1, -1] ∨ s = ![-1, 1]) : (upDown phaseModel true (fun _ : Fin 1 => s) 0).exp = -1 := by
  have h1 : Complex.exp (((Complex.arg ((-(1 / 2) : ℝ) : ℂ) : ℝ) : ℂ) * Complex.I) = -1 := by
    rw [Complex.arg_ofReal_of_neg (by norm_num), Complex.exp_pi_mul_I]
  have a1 : phaseModel ![1, -1] = ⟨some 0, 2 * Real.pi / 3⟩ := by
    unfold phaseModel; simp
  have a2 : phaseModel ![-1, 1] = ⟨some 0, -(2 * Real.pi / 3)⟩ := by
    unfold phaseModel; simp
  rcases hs with rfl | rfl
  · rw [upDown_two, neg_neg, a1, a2, ensemble_unit, phase_mean, h1]
  · rw [upDown_two, neg_neg, a1, a2, ensemble_unit, add_comm, phase_mean, h1]

/-- **C132 is violated for models with phases.** The Ising chain with two sites in a transverse field: for a model with
equal absolute values and phases, `make_up_down_invariant` doubles the energy, from 1 to 2. -/
theorem C132_violated_phases :
    energyOf (isingChain 1 0 false) (fun s => (phaseModel s).exp) = 1 ∧
      energyOf (isingChain 1 0 false) (fun s => (upDown phaseModel true (fun _ : Fin 1 => s) 0).exp) = 2 := by
  rw [isingChain_energy, isingChain_energy]
  unfold energyH
  have n1 : ∀ s, ‖(phaseModel s).exp‖ ^ 2 = 1 := fun s => by rw [norm_exp]; simp [phaseModel, expReal]
  constructor
  · have v1 : (phaseModel ![1, 1]).exp = 1 := by unfold phaseModel LogAmp.exp expReal; simp
    have v2 : (phaseModel ![-1, -1]).exp = 1 := by unfold phaseModel LogAmp.exp expReal; simp
    have v3 : (phaseModel ![1, -1]).exp = Complex.exp (((2 * Real.pi / 3 : ℝ) : ℂ) * Complex.I) := by unfold phaseModel LogAmp.exp expReal; simp
    have v4 : (phaseModel ![-1, 1]).exp = Complex.exp (((-(2 * Real.pi / 3) : ℝ) : ℂ) * Complex.I) := by unfold phaseModel LogAmp.exp expReal; simp
    have r3 : (phaseModel ![1, -1]).exp.re = -(1 / 2) := by rw [v3, Complex.exp_ofReal_mul_I_re, cos_third]
    have r4 : (phaseModel ![-1, 1]).exp.re = -(1 / 2) := by rw [v4, Complex.exp_ofReal_mul_I_re, Real.cos_neg, cos_third]
    rw [sum_two_spins, sum_two_spins]
    simp only [tfim_two, n1, neg_neg, v1, v2, map_one]
    simp [r3, r4]
    norm_num
  · rw [sum_two_spins, sum_two_spins]
    simp only [tfim_two, neg_neg, phase_sym _ (.inl rfl), phase_sym _ (.inr rfl), phase_sym' _ (.inl rfl), phase_sym' _ (.inr rfl), map_one, map_neg]
    simp
    norm_num

/-- The base model of the second counterexample: only the configuration up, down. -/
noncomputable def singleModel (s : Config (Fin 2)) : LogAmp := ⟨if s = ![1, -1] then some 0 else none, 0⟩

theorem single_ne : (![1, 1] : Config (Fin 2)) ≠ ![1, -1] ∧ (![-1, -1] : Config (Fin 2)) ≠ ![1, -1] ∧ (![-1, 1] : Config (Fin 2)) ≠ ![1, -1] := by
  decide

theorem single_energy (rot : Bool) (history : List (Call 2 1)) :
    energyOf (heisenbergChain rot false history) (fun s => (singleModel s).exp) = -1 ∧
      energyOf (heisenbergChain rot false history) (fun s => (upDown singleModel true (fun _ : Fin 1 => s) 0).exp) =
        2 * (if rot then -1 else 1) - 1 := by
  have him : ∀ s, (singleModel s).im = 0 := fun _ => rfl
  rw [heisenbergChain_energy, heisenbergChain_energy]
  unfold energyH
  obtain ⟨n1, n2, n3⟩ := single_ne
  have v1 : singleModel ![1, 1] = ⟨none, 0⟩ := by unfold singleModel; rw [if_neg n1]
  have v2 : singleModel ![-1, -1] = ⟨none, 0⟩ := by unfold singleModel; rw [if_neg n2]
  have v3 : singleModel ![1, -1] = ⟨some 0, 0⟩ := by unfold singleModel; rw [if_pos rfl]
  have v4 : singleModel ![-1, 1] = ⟨none, 0⟩ := by unfold singleModel; rw [if_neg n3]
  have e0 : (⟨none, 0⟩ : LogAmp).exp = 0 := by simp [LogAmp.exp, expReal]
  have e1 : (⟨some 0, 0⟩ : LogAmp).exp = 1 := by simp [LogAmp.exp, expReal]
  constructor
  · rw [sum_two_spins, sum_two_spins]
    simp only [heisenberg_two, neg_neg, v1, v2, v3, v4, e0, e1]
    simp
  · have hsum : ∀ x y : LogAmp, x.im = 0 → y.im = 0 → (ensembleOp true [x, y]).exp = ((Real.sqrt ((‖x.exp‖ ^ 2 + ‖y.exp‖ ^ 2) / 2) : ℝ) : ℂ) := by
      intro x y hx hy
      rw [exp_of_im (ensemble_im (by simp) (by simp [hx, hy])), ← norm_exp]
      have := probabilistic_prob (x := [x, y]) (by simp)
      simp only [List.map_cons, List.map_nil, List.sum_cons, List.sum_nil, add_zero, List.length_cons, List.length_nil] at this
      rw [← Real.sqrt_sq (norm_nonneg _), this]
      norm_num
    have w : ∀ a b : ℤ, (upDown singleModel true (fun _ : Fin 1 => ![a, b]) 0).exp =
        ((Real.sqrt ((‖(singleModel ![a, b]).exp‖ ^ 2 + ‖(singleModel ![-a, -b]).exp‖ ^ 2) / 2) : ℝ) : ℂ) := by
      intro a b
      rw [upDown_two, hsum _ _ (him _) (him _)]
    have hs : Real.sqrt (1 / 2) * Real.sqrt (1 / 2) = 1 / 2 := Real.mul_self_sqrt (by norm_num)
    rw [sum_two_spins, sum_two_spins]
    simp only [heisenberg_two, w, neg_neg, v1, v2, v3, v4, e0, e1, Complex.conj_ofReal, Complex.norm_real, Real.norm_eq_abs, sq_abs, norm_zero, norm_one]
    have hq : Real.sqrt ((1 ^ 2 + 0 ^ 2) / 2) = Real.sqrt (1 / 2) := by norm_num
    have hq' : Real.sqrt ((0 ^ 2 + 1 ^ 2) / 2) = Real.sqrt (1 / 2) := by norm_num
    have h0 : Real.sqrt ((0 ^ 2 + 0 ^ 2) / 2) = 0 := by norm_num
    rw [hq, hq', h0]
    set q := Real.sqrt (1 / 2)
    have hε : ∀ ε : ℝ, (q * (ε * ((1 + 1) * q) + -q) + q * (ε * ((1 + 1) * q) + -q)) / (q ^ 2 + q ^ 2) = 2 * ε - 1 := by
      intro ε
      have h1 : q ^ 2 + q ^ 2 = 1 := by rw [sq, hs]; norm_num
      rw [h1, div_one]
      linear_combination (4 * ε - 2) * hs
    rw [← hε]
    simp

/-- **C132 is violated without the rotation of the Heisenberg operator.** On the chain of two sites a positive model of
energy -1 is turned into one of energy 1 by `make_up_down_invariant`. -/
theorem C132_violated_without_rotation (history : List (Call 2 1)) :
    (∀ s, (singleModel s).im = 0) ∧ energyOf (heisenbergChain false false history) (fun s => (singleModel s).exp) = -1 ∧
      energyOf (heisenbergChain false false history) (fun s => (upDown singleModel true (fun _ : Fin 1 => s) 0).exp) = 1 := by
  obtain ⟨h1, h2⟩ := single_energy false history
  refine ⟨fun _ => rfl, h1, h2.trans ?_⟩
  norm_num

/-- With the rotation the same model meets the hypotheses of C132, and its energy falls from -1 to -3. -/
example (history : List (Call 2 1)) :
    (∀ s, (singleModel s).im = 0) ∧ energyOf (heisenbergChain true false history) (fun s => (singleModel s).exp) = -1 ∧
      energyOf (heisenbergChain true false history) (fun s => (upDown singleModel true (fun _ : Fin 1 => s) 0).exp) = -3 := by
  obtain ⟨h1, h2⟩ := single_energy true history
  refine ⟨fun _ => rfl, h1, h2.trans ?_⟩
  norm_num

/-- The base model of the third counterexample: real amplitudes 2, 1, 1, 0. -/
noncomputable def unevenModel (s : Config (Fin 2)) : LogAmp :=
  ⟨if s = ![1, 1] then some (Real.log 2) else if s = ![-1, -1] then none else some 0, 0⟩

/-- **C132 is violated by `probabilistic=False`.** For the Ising chain with two sites without field, the mean of positive
amplitudes over spin flips has energy 0 where the base model has energy -1/3. -/
theorem C132_violated_average :
    (∀ s, (unevenModel s).im = 0) ∧ energyOf (isingChain 0 1 false) (fun s => (unevenModel s).exp) = -(1 / 3) ∧
      energyOf (isingChain 0 1 false) (fun s => (upDown unevenModel false (fun _ : Fin 1 => s) 0).exp) = 0 := by
  refine ⟨fun _ => rfl, ?_⟩
  rw [isingChain_energy, isingChain_energy]
  unfold energyH
  have d1 : (![-1, -1] : Config (Fin 2)) ≠ ![1, 1] := by decide
  have d2 : (![1, -1] : Config (Fin 2)) ≠ ![1, 1] ∧ (![1, -1] : Config (Fin 2)) ≠ ![-1, -1] := by decide
  have d3 : (![-1, 1] : Config (Fin 2)) ≠ ![1, 1] ∧ (![-1, 1] : Config (Fin 2)) ≠ ![-1, -1] := by decide
  have v1 : (unevenModel ![1, 1]).exp = 2 := by
    unfold unevenModel
    rw [if_pos rfl, exp_of_im rfl]
    show ((Real.exp (Real.log 2) : ℝ) : ℂ) = 2
    rw [Real.exp_log (by norm_num)]
    norm_num
  have v2 : (unevenModel ![-1, -1]).exp = 0 := by
    unfold unevenModel
    rw [if_neg d1, if_pos rfl, exp_of_im rfl]
    simp [expReal]
  have v3 : (unevenModel ![1, -1]).exp = 1 := by
    unfold unevenModel
    rw [if_neg d2.1, if_neg d2.2, exp_of_im rfl]
    simp [expReal]
  have v4 : (unevenModel ![-1, 1]).exp = 1 := by
    unfold unevenModel
    rw [if_neg d3.1, if_neg d3.2, exp_of_im rfl]
    simp [expReal]
  have one : (complexLog 1).exp = 1 := by
    unfold complexLog LogAmp.exp logReal angle
    simp [expReal]
  constructor
  · rw [sum_two_spins, sum_two_spins]
    simp only [tfim_two, neg_neg, v1, v2, v3, v4]
    norm_num
  · have w : ∀ a b : ℤ, (upDown unevenModel false (fun _ : Fin 1 => ![a, b]) 0).exp =
        (complexLog (((unevenModel ![a, b]).exp + (unevenModel ![-a, -b]).exp) / 2)).exp := by
      intro a b
      rw [upDown_two]
      unfold ensembleOp averageOp mean
      simp only [Bool.false_eq_true, if_false, List.map_cons, List.map_nil, List.sum_cons, List.sum_nil, add_zero, List.length_cons, List.length_nil]
      norm_num
    rw [sum_two_spins, sum_two_spins]
    simp only [tfim_two, w, neg_neg, v1, v2, v3, v4]
    rw [show ((2 : ℂ) + 0) / 2 = 1 by norm_num, show ((0 : ℂ) + 2) / 2 = 1 by norm_num, show ((1 : ℂ) + 1) / 2 = 1 by norm_num, one]
    norm_num

/-- The hypotheses are met on squares: a uniform base model and the evaluation model of the experiments. -/
example : (∀ x : Config (Square 2), (absModel (fun _ => 1) x).im = 0) ∧
    SquareSymmetrised true (absModel fun _ : Config (Square 2) => 1) (evaluationModel (absModel fun _ => 1)) :=
  ⟨fun _ => rfl, .upDown (.obc .base)⟩

end Verif.Ensemble
