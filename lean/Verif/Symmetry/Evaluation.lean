import Verif.Symmetry.Dihedral
import Mathlib.Algebra.BigOperators.Fin
import Mathlib.Algebra.BigOperators.Ring.Finset

/-!
# C74: evaluating a symmetrised model with samples of its base model

Model of the evaluation stage of `experiments/train.py` (lines 131-150) and `experiments/run_evaluation.py`
(lines 12-27): the local energies are those of the symmetrised model, while the samples are drawn from the base model.
-/
namespace Verif.Ensemble

open Verif.Operators
open Verif.Energy

/-! ### Symmetries of the Hamiltonians -/

section Hamiltonian

variable {ι : Type} [DecidableEq ι]

/-- Every sum over the bonds of a quantity that does not depend on the orientation of the bond is unchanged when the
sites are renamed. -/
def BondSym (bonds : List (ι × ι)) (e : ι ≃ ι) : Prop :=
  ∀ f : ι × ι → ℂ, (∀ a b, f (a, b) = f (b, a)) → (bonds.map fun b => f (e b.1, e b.2)).sum = (bonds.map f).sum

theorem flip_rename (e : ι ≃ ι) (i : ι) (s : Config ι) : (Operators.flip i fun p => s (e p)) = fun p => Operators.flip (e i) s (e p) := by
  funext p
  unfold Operators.flip Function.update
  by_cases h : p = i
  · subst h; simp
  · simp [h, e.injective.ne h]

theorem flip_neg (i : ι) (s : Config ι) : (Operators.flip i fun p => -s p) = fun p => -Operators.flip i s p := by
  funext p
  unfold Operators.flip Function.update
  by_cases h : p = i
  · subst h; simp
  · simp [h]

theorem flip_comm (a b : ι) (s : Config ι) : Operators.flip a (Operators.flip b s) = Operators.flip b (Operators.flip a s) := by
  funext p
  unfold Operators.flip Function.update
  by_cases h : p = a <;> by_cases h' : p = b <;> by_cases hab : a = b <;> simp_all

/-- A transformation of configurations is a symmetry of a Hamiltonian: invariant wave functions are mapped to
invariant ones. -/
def IsSymmetry (H : Wave ι → Wave ι) (T : Config ι → Config ι) : Prop :=
  ∀ ψ : Wave ι, (∀ s, ψ (T s) = ψ s) → ∀ s, H ψ (T s) = H ψ s

theorem zz_rename (e : ι ≃ ι) (ψ : Wave ι) (hψ : ∀ s : Config ι, ψ (fun p => s (e p)) = ψ s) (a b : ι) (s : Config ι) :
    pauliZ a (pauliZ b ψ) (fun p => s (e p)) = pauliZ (e a) (pauliZ (e b) ψ) s := by
  unfold pauliZ; rw [hψ]

theorem xx_rename (e : ι ≃ ι) (ψ : Wave ι) (hψ : ∀ s : Config ι, ψ (fun p => s (e p)) = ψ s) (a b : ι) (s : Config ι) :
    pauliX a (pauliX b ψ) (fun p => s (e p)) = pauliX (e a) (pauliX (e b) ψ) s := by
  unfold pauliX; rw [flip_rename, flip_rename, hψ]

theorem yy_rename (e : ι ≃ ι) (ψ : Wave ι) (hψ : ∀ s : Config ι, ψ (fun p => s (e p)) = ψ s) (a b : ι) (s : Config ι) :
    pauliY a (pauliY b ψ) (fun p => s (e p)) = pauliY (e a) (pauliY (e b) ψ) s := by
  unfold pauliY; rw [flip_rename, flip_rename, hψ]

theorem zz_symm (ψ : Wave ι) (a b : ι) (s : Config ι) : pauliZ a (pauliZ b ψ) s = pauliZ b (pauliZ a ψ) s := by
  unfold pauliZ; ring

theorem xx_symm (ψ : Wave ι) (a b : ι) (s : Config ι) : pauliX a (pauliX b ψ) s = pauliX b (pauliX a ψ) s := by
  unfold pauliX; rw [flip_comm]

theorem yy_symm (ψ : Wave ι) (a b : ι) (s : Config ι) : pauliY a (pauliY b ψ) s = pauliY b (pauliY a ψ) s := by
  unfold pauliY
  rw [flip_comm]
  by_cases h : a = b
  · subst h; rfl
  · have h1 : Operators.flip a s b = s b := Function.update_of_ne (Ne.symm h) _ _
    have h2 : Operators.flip b s a = s a := Function.update_of_ne h _ _
    rw [h1, h2]; ring

theorem tfim_rename [Fintype ι] {bonds : List (ι × ι)} {e : ι ≃ ι} (he : BondSym bonds e) (h J : ℝ) :
    IsSymmetry (tfim bonds h J) fun s p => s (e p) := by
  intro ψ hψ s
  unfold tfim
  have h1 : (bonds.map fun b => pauliZ b.1 (pauliZ b.2 ψ) fun p => s (e p)).sum = (bonds.map fun b => pauliZ b.1 (pauliZ b.2 ψ) s).sum := by
    simp only [zz_rename e ψ hψ]
    exact he (fun b => pauliZ b.1 (pauliZ b.2 ψ) s) fun a b => zz_symm ψ a b s
  have h2 : (∑ i, pauliX i ψ fun p => s (e p)) = ∑ i, pauliX i ψ s := by
    refine Fintype.sum_equiv e _ _ fun i => ?_
    unfold pauliX; rw [flip_rename, hψ]
  rw [h1, h2]

theorem heisenberg_rename {bonds : List (ι × ι)} {e : ι ≃ ι} (he : BondSym bonds e) (ε : ℝ) :
    IsSymmetry (heisenberg bonds ε) fun s p => s (e p) := by
  intro ψ hψ s
  unfold heisenberg
  simp only [zz_rename e ψ hψ, xx_rename e ψ hψ, yy_rename e ψ hψ]
  exact he (fun b => (ε : ℂ) * (pauliX b.1 (pauliX b.2 ψ) s + pauliY b.1 (pauliY b.2 ψ) s) + pauliZ b.1 (pauliZ b.2 ψ) s)
    fun a b => by simp only [zz_symm ψ a b, xx_symm ψ a b, yy_symm ψ a b]

theorem tfim_neg [Fintype ι] (bonds : List (ι × ι)) (h J : ℝ) : IsSymmetry (tfim bonds h J) fun s p => -s p := by
  intro ψ hψ s
  unfold tfim
  have h1 : (bonds.map fun b => pauliZ b.1 (pauliZ b.2 ψ) fun p => -s p).sum = (bonds.map fun b => pauliZ b.1 (pauliZ b.2 ψ) s).sum := by
    refine congrArg List.sum (List.map_congr_left fun b _ => ?_)
    unfold pauliZ; rw [hψ]; push_cast; ring
  have h2 : (∑ i, pauliX i ψ fun p => -s p) = ∑ i, pauliX i ψ s := by
    refine Finset.sum_congr rfl fun i _ => ?_
    unfold pauliX; rw [flip_neg, hψ]
  rw [h1, h2]

theorem heisenberg_neg (bonds : List (ι × ι)) (ε : ℝ) : IsSymmetry (heisenberg bonds ε) fun s p => -s p := by
  intro ψ hψ s
  unfold heisenberg
  refine congrArg List.sum (List.map_congr_left fun b _ => ?_)
  unfold pauliX pauliY pauliZ
  simp only [flip_neg, hψ]
  push_cast; ring

end Hamiltonian

/-! ### The square lattice -/

section Grid

/-- Sum over the bonds of a chain. -/
def chainSum (n : Nat) (pbc : Bool) (g : Fin n → Fin n → ℂ) : ℂ := ∑ i, ((chainNext n pbc i).map fun k => g i k).getD 0

theorem chainSum_succ (k : Nat) (pbc : Bool) (g : Fin (k + 1) → Fin (k + 1) → ℂ) :
    chainSum (k + 1) pbc g = (∑ i : Fin k, g i.castSucc i.succ) + if pbc then g (Fin.last k) 0 else 0 := by
  unfold chainSum
  rw [Fin.sum_univ_castSucc]
  congr 1
  · refine Finset.sum_congr rfl fun i _ => ?_
    unfold chainNext
    rw [dif_pos (by simp)]
    rfl
  · unfold chainNext
    rw [dif_neg (by simp)]
    cases pbc <;> rfl

theorem chainSum_rev (n : Nat) (pbc : Bool) (g : Fin n → Fin n → ℂ) :
    chainSum n pbc (fun i k => g (Fin.rev i) (Fin.rev k)) = chainSum n pbc fun i k => g k i := by
  cases n with
  | zero => rfl
  | succ k =>
    rw [chainSum_succ, chainSum_succ]
    congr 1
    · refine Fintype.sum_equiv Fin.revPerm _ _ fun i => ?_
      simp only [Fin.revPerm_apply, Fin.rev_castSucc, Fin.rev_succ]
    · simp

theorem sum_grid (n m : Nat) (pbc : Bool) (f : (Fin n × Fin m) × (Fin n × Fin m) → ℂ) :
    ((gridBonds n m pbc).map f).sum =
      (if n > 1 then ∑ j, chainSum n pbc fun i k => f ((i, j), (k, j)) else 0) +
      (if m > 1 then ∑ i, chainSum m pbc fun j k => f ((i, j), (i, k)) else 0) := by
  rw [sum_gridBonds, Finset.sum_add_distrib]
  congr 1
  · split
    · rw [Fintype.sum_prod_type, Finset.sum_comm]; rfl
    · simp
  · split
    · rw [Fintype.sum_prod_type]; rfl
    · simp

variable {n : Nat}

/-- Reversal of the rows of the grid (specification). -/
def revRows (n m : Nat) : Fin n × Fin m ≃ Fin n × Fin m := Equiv.prodCongr Fin.revPerm (Equiv.refl _)
/-- Reversal of the columns of the grid (specification). -/
def revColumns (n m : Nat) : Fin n × Fin m ≃ Fin n × Fin m := Equiv.prodCongr (Equiv.refl _) Fin.revPerm

theorem bondSym_revRows (n m : Nat) (pbc : Bool) : BondSym (gridBonds n m pbc) (revRows n m) := by
  intro f hf
  rw [sum_grid, sum_grid]
  congr 1
  · congr 1
    refine Finset.sum_congr rfl fun j _ => ?_
    refine (chainSum_rev n pbc fun i k => f ((i, j), (k, j))).trans ?_
    simp only [fun k i => hf (k, j) (i, j)]
  · congr 1
    refine Fintype.sum_equiv Fin.revPerm _ _ fun i => ?_
    rfl

theorem bondSym_revColumns (n m : Nat) (pbc : Bool) : BondSym (gridBonds n m pbc) (revColumns n m) := by
  intro f hf
  rw [sum_grid, sum_grid]
  congr 1
  · congr 1
    refine Fintype.sum_equiv Fin.revPerm _ _ fun i => ?_
    rfl
  · congr 1
    refine Finset.sum_congr rfl fun i _ => ?_
    refine (chainSum_rev m pbc fun j k => f ((i, j), (i, k))).trans ?_
    simp only [fun k j => hf (i, k) (i, j)]

theorem bondSym_swap (n : Nat) (pbc : Bool) : BondSym (gridBonds n n pbc) (Equiv.prodComm _ _) := by
  intro f _
  rw [sum_grid, sum_grid, add_comm]
  rfl

theorem BondSym.trans {ι : Type} {bonds : List (ι × ι)} {e e' : ι ≃ ι} (h : BondSym bonds e) (h' : BondSym bonds e') :
    BondSym bonds (e.trans e') := by
  intro f hf
  exact (h (fun b => f (e' b.1, e' b.2)) fun a b => hf _ _).trans (h' f hf)

theorem BondSym.refl {ι : Type} (bonds : List (ι × ι)) : BondSym bonds (Equiv.refl _) := fun _ _ => rfl

/-- The symmetry of the square as a renaming of the sites of the grid. -/
def gridSym (n : Nat) (swap a b : Bool) : Fin n × Fin n ≃ Fin n × Fin n :=
  ((if swap then Equiv.prodComm _ _ else Equiv.refl _).trans (if a then revRows n n else Equiv.refl _)).trans
    (if b then revColumns n n else Equiv.refl _)

theorem bondSym_gridSym (n : Nat) (pbc swap a b : Bool) : BondSym (gridBonds n n pbc) (gridSym n swap a b) := by
  refine ((BondSym.trans ?_ ?_).trans ?_)
  · cases swap
    · exact BondSym.refl _
    · exact bondSym_swap n pbc
  · cases a
    · exact BondSym.refl _
    · exact bondSym_revRows n n pbc
  · cases b
    · exact BondSym.refl _
    · exact bondSym_revColumns n n pbc

/-- A configuration of the grid as a configuration of the square. -/
def onSquare (s : Config (Fin n × Fin n)) : Config (Square n) := fun p => s (p 0, p 1)
/-- A configuration of the square as a configuration of the grid. -/
def onGrid (s : Config (Square n)) : Config (Fin n × Fin n) := fun p => s ![p.1, p.2]

theorem onSquare_onGrid (s : Config (Square n)) : onSquare (onGrid s) = s := by
  funext p
  unfold onSquare onGrid
  refine congrArg s ?_
  funext d
  fin_cases d <;> rfl

theorem onGrid_onSquare (s : Config (Fin n × Fin n)) : onGrid (onSquare s) = s := rfl

theorem onSquare_gridSym (swap a b : Bool) (s : Config (Fin n × Fin n)) :
    onSquare (fun p => s (gridSym n swap a b p)) = fun p => onSquare s (symmetry swap a b p) := by
  funext p
  unfold onSquare gridSym symmetry
  cases swap <;> cases a <;> cases b <;> rfl

end Grid

/-! ### The evaluation stage -/

variable {n : Nat}

/-- The predictions of a Keras model are complex numbers. -/
noncomputable def toComplex (x : LogAmp) : ℂ := ⟨x.re.getD 0, x.im⟩

/-- The symmetrised model built for evaluation (experiments/train.py lines 133-136, run_evaluation.py lines 16-19),
as a function of one configuration. Its layers treat the rows of a batch separately (C56). -/
noncomputable def evaluationModel (model : Config (Square n) → LogAmp) (x : Config (Square n)) : LogAmp :=
  upDown (obcInvariant model true) true (fun _ : Fin 1 => x) 0

/-- The logarithm of the wave function whose local energies are computed: the predictions of the symmetrised model on
configurations of the lattice. -/
noncomputable def evaluationLog (model : Config (Square n) → LogAmp) (s : Config (Fin n × Fin n)) : ℂ :=
  toComplex (evaluationModel model (onSquare s))

/-- The distribution of the samples: the base model's probability of a configuration of the lattice. -/
noncomputable def baseProb (model : Config (Square n) → LogAmp) (s : Config (Fin n × Fin n)) : ℝ :=
  ‖(model (onSquare s)).exp‖ ^ 2

/-! ### Proof -/

theorem exp_toComplex {x : LogAmp} (h : x.re.isSome) : Complex.exp (toComplex x) = x.exp := by
  obtain ⟨r, hr⟩ := Option.isSome_iff_exists.1 h
  unfold toComplex LogAmp.exp
  rw [hr]
  show Complex.exp ⟨r, x.im⟩ = _
  rw [show (⟨r, x.im⟩ : ℂ) = (r : ℂ) + x.im * Complex.I from Complex.ext (by simp) (by simp), Complex.exp_add]
  simp [expReal, Complex.ofReal_exp]

theorem isSome_of_exp_pos {x : List LogAmp} (h : x ≠ []) (hx : ∀ a ∈ x, a.re.isSome) : (ensembleOp true x).re.isSome := by
  unfold ensembleOp
  rw [if_pos rfl]
  unfold probabilisticOp
  dsimp only
  rw [Option.isSome_map]
  unfold logReal
  have : 0 < (x.map fun a => expReal (a.re.map (· * 2))).sum := by
    refine List.sum_pos _ (fun r hr => ?_) (by simpa using h)
    obtain ⟨a, ha, rfl⟩ := List.mem_map.1 hr
    obtain ⟨v, hv⟩ := Option.isSome_iff_exists.1 (hx a ha)
    rw [hv]
    exact Real.exp_pos _
  rw [if_neg this.ne']
  rfl

theorem obcInvariant_isSome {model : Config (Square n) → LogAmp} (h : ∀ s, (model s).re.isSome) (s : Config (Square n)) :
    (obcInvariant model true s).re.isSome := by
  refine isSome_of_exp_pos (by simp [obcInputs]) fun a ha => ?_
  obtain ⟨y, _, rfl⟩ := List.mem_map.1 ha
  exact h y

theorem evaluationModel_isSome {model : Config (Square n) → LogAmp} (h : ∀ s, (model s).re.isSome) (s : Config (Square n)) :
    (evaluationModel model s).re.isSome := by
  unfold evaluationModel upDown
  rw [buildSymmetrization_eq]
  refine isSome_of_exp_pos (by simp) fun a ha => ?_
  obtain ⟨y, _, rfl⟩ := List.mem_map.1 ha
  exact obcInvariant_isSome h _

/-- Averages of invariant quantities are the same for a probabilistic ensemble and for its base model. -/
theorem sum_members {ι : Type} [Fintype ι] [DecidableEq ι] {model : Config ι → LogAmp} {gs : List (Config ι → Config ι)} (hne : gs ≠ [])
    (hg : ∀ g ∈ gs, ∃ h : Config ι → Config ι, (∀ s, IsSpin s → IsSpin (g s)) ∧ (∀ s, IsSpin s → IsSpin (h s)) ∧ (∀ s, g (h s) = s) ∧ ∀ s, h (g s) = s)
    (f : Config ι → ℂ) (hf : ∀ g ∈ gs, ∀ s, f (g s) = f s) :
    ∑ s ∈ allSpins ι, ((‖(ensembleOp true (gs.map fun g => model (g s))).exp‖ ^ 2 : ℝ) : ℂ) * f s =
      ∑ s ∈ allSpins ι, ((‖(model s).exp‖ ^ 2 : ℝ) : ℂ) * f s := by
  have hK : (gs.length : ℂ) ≠ 0 := by exact_mod_cast (List.length_pos_of_ne_nil hne).ne'
  have h1 : ∀ s, ((‖(ensembleOp true (gs.map fun g => model (g s))).exp‖ ^ 2 : ℝ) : ℂ) * f s =
      (gs.map fun g => ((‖(model (g s)).exp‖ ^ 2 : ℝ) : ℂ) * f s).sum / gs.length := by
    intro s
    rw [probabilistic_prob (by simpa using hne), List.map_map, List.length_map]
    have : (gs.map fun g => ((‖(model (g s)).exp‖ ^ 2 : ℝ) : ℂ) * f s).sum =
        (((gs.map fun g => ‖(model (g s)).exp‖ ^ 2).sum : ℝ) : ℂ) * f s := by
      clear hne hg hf hK
      induction gs with
      | nil => simp
      | cons g gs ih => simp only [List.map_cons, List.sum_cons, ih]; push_cast; ring
    rw [this]
    push_cast
    rw [show ((fun a : LogAmp => ‖a.exp‖ ^ 2) ∘ fun g : Config ι → Config ι => model (g s)) = fun g => ‖(model (g s)).exp‖ ^ 2 from rfl]
    ring
  simp only [h1]
  rw [← Finset.sum_div]
  have h2 : ∑ s ∈ allSpins ι, (gs.map fun g => ((‖(model (g s)).exp‖ ^ 2 : ℝ) : ℂ) * f s).sum =
      (gs.map fun g => ∑ s ∈ allSpins ι, ((‖(model (g s)).exp‖ ^ 2 : ℝ) : ℂ) * f s).sum := by
    clear h1 hne hg hf hK
    induction gs with
    | nil => simp
    | cons g gs ih => simp only [List.map_cons, List.sum_cons, Finset.sum_add_distrib, ih]
  have h3 : ∀ g ∈ gs, ∑ s ∈ allSpins ι, ((‖(model (g s)).exp‖ ^ 2 : ℝ) : ℂ) * f s = ∑ s ∈ allSpins ι, ((‖(model s).exp‖ ^ 2 : ℝ) : ℂ) * f s := by
    intro g hgm
    obtain ⟨h, a, b, c, d⟩ := hg g hgm
    refine Finset.sum_nbij' g h ?_ ?_ (fun s _ => d s) (fun s _ => c s) (fun s _ => ?_)
    · intro s hs; rw [mem_allSpins] at hs ⊢; exact a s hs
    · intro s hs; rw [mem_allSpins] at hs ⊢; exact b s hs
    · rw [hf g hgm s]
  rw [h2, List.map_congr_left h3, List.map_const', List.sum_replicate, nsmul_eq_mul]
  field_simp

/-- Averages over the base model of quantities with the symmetries are averages over the symmetrised model. -/
theorem sum_evaluation (model : Config (Square n) → LogAmp) (f : Config (Square n) → ℂ)
    (hsym : ∀ swap a b s, f (fun p => s (symmetry swap a b p)) = f s) (hneg : ∀ s, f (fun p => -s p) = f s) :
    ∑ s ∈ allSpins (Square n), ((‖(evaluationModel model s).exp‖ ^ 2 : ℝ) : ℂ) * f s =
      ∑ s ∈ allSpins (Square n), ((‖(model s).exp‖ ^ 2 : ℝ) : ℂ) * f s := by
  have hspin : ∀ s : Config (Square n), IsSpin s → IsSpin fun i => -s i := by
    intro s hs i
    rcases hs i with h | h <;> simp [h]
  have e1 := sum_members (model := obcInvariant model true) (gs := [id, fun s i => -s i]) (by simp)
    (by
      intro g hg
      rcases List.mem_cons.1 hg with rfl | hg
      · exact ⟨id, fun s h => h, fun s h => h, fun _ => rfl, fun _ => rfl⟩
      · rw [List.mem_singleton] at hg
        subst hg
        exact ⟨fun s i => -s i, hspin, hspin, fun s => by funext i; ring, fun s => by funext i; ring⟩) f
    (by
      intro g hg s
      rcases List.mem_cons.1 hg with rfl | hg
      · rfl
      · rw [List.mem_singleton] at hg
        subst hg
        exact hneg s)
  have e2 := sum_members (model := model) (gs := members.map fun σ (s : Config (Square n)) p => s (sym σ p)) (by simp [members])
    (by
      intro g hg
      obtain ⟨σ, _, rfl⟩ := List.mem_map.1 hg
      obtain ⟨τ, hτ⟩ := sym_inverse (n := n) σ
      exact ⟨fun s p => s (sym τ p), fun s hs p => hs _, fun s hs p => hs _, fun s => by funext p; exact congrArg s (hτ p).2,
        fun s => by funext p; exact congrArg s (hτ p).1⟩) f
    (by
      intro g hg s
      obtain ⟨σ, _, rfl⟩ := List.mem_map.1 hg
      exact hsym _ _ _ s)
  have h1 : ∀ s, evaluationModel model s = ensembleOp true ([id, fun s i => -s i].map fun g => obcInvariant model true (g s)) := by
    intro s
    unfold evaluationModel upDown
    rw [buildSymmetrization_eq]
    simp only [List.map_cons, List.map_nil, mul_neg, mul_one, id]
  have h2 : ∀ s, obcInvariant model true s =
      ensembleOp true ((members.map fun σ (s : Config (Square n)) p => s (sym σ p)).map fun g => model (g s)) := by
    intro s
    unfold obcInvariant buildEnsemble
    rw [obcInputs_eq, List.map_map, List.map_map]
    rfl
  simp only [h1]
  rw [e1]
  simp only [h2]
  exact e2

theorem sum_onSquare (f : Config (Square n) → ℂ) : ∑ s ∈ allSpins (Fin n × Fin n), f (onSquare s) = ∑ s ∈ allSpins (Square n), f s := by
  refine Finset.sum_nbij' onSquare onGrid ?_ ?_ (fun s _ => rfl) (fun s _ => onSquare_onGrid s) (fun s _ => rfl)
  · intro s hs; rw [mem_allSpins] at hs ⊢; exact fun p => hs _
  · intro s hs; rw [mem_allSpins] at hs ⊢; exact fun p => hs _

theorem evaluation_symmetry (model : Config (Square n) → LogAmp) (swap a b : Bool) (s : Config (Square n)) :
    evaluationModel model (fun p => s (symmetry swap a b p)) = evaluationModel model s := by
  unfold evaluationModel upDown
  rw [buildSymmetrization_eq, buildSymmetrization_eq]
  simp only [List.map_cons, List.map_nil]
  rw [C54_invariant model true swap a b s, C54_invariant model true swap a b fun p => s p * -1]

theorem evaluation_neg (model : Config (Square n) → LogAmp) (s : Config (Square n)) :
    evaluationModel model (fun p => -s p) = evaluationModel model s :=
  (C56_invariant (B := 1) (obcInvariant model true) true (fun _ => s) 0).1

/-- The symmetries of the square and the global spin flip, on configurations of the grid. -/
structure SquareSymmetric (H : Wave (Fin n × Fin n) → Wave (Fin n × Fin n)) : Prop where
  square : ∀ swap a b, IsSymmetry H fun s p => s (gridSym n swap a b p)
  neg : IsSymmetry H fun s p => -s p

theorem evaluationLog_exp {model : Config (Square n) → LogAmp} (hfin : ∀ s, (model s).re.isSome) (s : Config (Fin n × Fin n)) :
    Complex.exp (evaluationLog model s) = (evaluationModel model (onSquare s)).exp :=
  exp_toComplex (evaluationModel_isSome hfin _)

/-- The expected local energy over the base model is the energy of the symmetrised model. -/
theorem expected_local {model : Config (Square n) → LogAmp} (hfin : ∀ s, (model s).re.isSome) (hnorm : Normalized model)
    {H : Wave (Fin n × Fin n) → Wave (Fin n × Fin n)} (hH : SquareSymmetric H) :
    ∑ s ∈ allSpins (Fin n × Fin n), (baseProb model s : ℂ) *
        (H (fun s => Complex.exp (evaluationLog model s)) s / Complex.exp (evaluationLog model s)) =
      rayleigh H fun s => Complex.exp (evaluationLog model s) := by
  set ψ : Wave (Fin n × Fin n) := fun s => Complex.exp (evaluationLog model s) with hψ
  have hψs : ∀ swap a b s, ψ (fun p => s (gridSym n swap a b p)) = ψ s := by
    intro swap a b s
    rw [hψ]
    dsimp only
    unfold evaluationLog
    rw [onSquare_gridSym, evaluation_symmetry]
  have hψn : ∀ s, ψ (fun p => -s p) = ψ s := by
    intro s
    rw [hψ]
    dsimp only
    unfold evaluationLog
    rw [show onSquare (fun p => -s p) = fun p => -onSquare s p from rfl, evaluation_neg]
  set f : Config (Square n) → ℂ := fun s => H ψ (onGrid s) / ψ (onGrid s) with hf
  have hgs : ∀ swap a b (s : Config (Square n)), onGrid (fun p => s (symmetry swap a b p)) = fun p => onGrid s (gridSym n swap a b p) := by
    intro swap a b s
    have h := onSquare_gridSym swap a b (onGrid s)
    rw [onSquare_onGrid] at h
    rw [← h, onGrid_onSquare]
  have e := sum_evaluation model f
    (by
      intro swap a b s
      rw [hf]
      dsimp only
      rw [hgs, hψs, hH.square swap a b ψ (hψs swap a b)])
    (by
      intro s
      rw [hf]
      dsimp only
      rw [show onGrid (fun p => -s p) = fun p => -onGrid s p from rfl, hψn, hH.neg ψ hψn])
  have eone := sum_evaluation model (fun _ => 1) (fun _ _ _ _ => rfl) (fun _ => rfl)
  have hone : ∑ s ∈ allSpins (Fin n × Fin n), (starRingEnd ℂ) (ψ s) * ψ s = 1 := by
    have h1 : ∀ s, (starRingEnd ℂ) (ψ s) * ψ s = ((‖(evaluationModel model (onSquare s)).exp‖ ^ 2 : ℝ) : ℂ) := by
      intro s
      rw [conj_mul_self, hψ]
      dsimp only
      rw [evaluationLog_exp hfin]
    simp only [h1]
    rw [sum_onSquare fun s => ((‖(evaluationModel model s).exp‖ ^ 2 : ℝ) : ℂ)]
    simp only [mul_one] at eone
    rw [eone, ← Complex.ofReal_sum, hnorm]
    simp
  unfold rayleigh
  rw [hone, div_one]
  have l : ∑ s ∈ allSpins (Fin n × Fin n), (baseProb model s : ℂ) * (H ψ s / ψ s) =
      ∑ s ∈ allSpins (Square n), ((‖(model s).exp‖ ^ 2 : ℝ) : ℂ) * f s :=
    sum_onSquare fun s => ((‖(model s).exp‖ ^ 2 : ℝ) : ℂ) * f s
  rw [l, ← e, ← sum_onSquare]
  refine Finset.sum_congr rfl fun s _ => ?_
  rw [← evaluationLog_exp hfin, ← conj_mul_self]
  have : ψ s ≠ 0 := Complex.exp_ne_zero _
  rw [hf]
  dsimp only
  rw [onGrid_onSquare]
  show (starRingEnd ℂ) (ψ s) * ψ s * (H ψ s / ψ s) = _
  field_simp

/-- The mean of a batch of independent samples is an unbiased estimate of the expected value. -/
theorem batch_mean {α : Type} [DecidableEq α] (S : Finset α) (p : α → ℂ) (hp : ∑ s ∈ S, p s = 1) (f : α → ℂ) {B : Nat} (hB : 0 < B) :
    ∑ sample ∈ Fintype.piFinset fun _ : Fin B => S, (∏ b, p (sample b)) * ((∑ b, f (sample b)) / B) = ∑ s ∈ S, p s * f s := by
  have h1 : ∀ c : Fin B, ∑ sample ∈ Fintype.piFinset fun _ : Fin B => S, (∏ b, p (sample b)) * f (sample c) = ∑ s ∈ S, p s * f s := by
    intro c
    have h2 : ∀ sample : Fin B → α, (∏ b, p (sample b)) * f (sample c) = ∏ b, (p (sample b) * if b = c then f (sample b) else 1) := by
      intro sample
      rw [Finset.prod_mul_distrib]
      simp
    simp only [h2]
    rw [← Finset.prod_univ_sum (fun _ => S) fun b s => p s * if b = c then f s else 1]
    rw [Finset.prod_eq_single c]
    · simp
    · intro b _ hb
      simp [hb, hp]
    · intro h; exact absurd (Finset.mem_univ c) h
  have h3 : ∀ sample : Fin B → α, (∏ b, p (sample b)) * ((∑ b, f (sample b)) / B) = (∑ c, (∏ b, p (sample b)) * f (sample c)) / B := by
    intro sample
    rw [← Finset.mul_sum]
    ring
  simp only [h3]
  rw [← Finset.sum_div, Finset.sum_comm]
  simp only [h1]
  rw [Finset.sum_const, Finset.card_univ, Fintype.card_fin, nsmul_eq_mul]
  have : (B : ℂ) ≠ 0 := by exact_mod_cast hB.ne'
  field_simp

theorem baseProb_sum {model : Config (Square n) → LogAmp} (hnorm : Normalized model) :
    ∑ s ∈ allSpins (Fin n × Fin n), (baseProb model s : ℂ) = 1 := by
  have := sum_onSquare fun s => ((‖(model s).exp‖ ^ 2 : ℝ) : ℂ)
  unfold baseProb
  rw [this, ← Complex.ofReal_sum, hnorm]
  simp

/-- **C74 (Ising).** Let a batch of any size be drawn independently from the base model. The expected value of the mean
local energy that the estimator returns for the symmetrised model is the energy (Rayleigh quotient) of the symmetrised
model. -/
theorem C74_ising {B : Nat} (hB : 0 < B) (h j : ℝ) (pbc : Bool) (model : Config (Square n) → LogAmp)
    (hfin : ∀ s, (model s).re.isSome) (hnorm : Normalized model) :
    ∃ energy : (Fin B → Config (Fin n × Fin n)) → ℂ,
      (∀ (sample : Fin B → Config (Fin n × Fin n)) (hs : ∀ b, IsSpin (sample b)), ∃ v lv,
        estimate (evaluationLog model) (Answer.ofRows (n * n + 1) (isingFindConn2 (.float h) j pbc sample)
          fun b => (C09_ising_grid (.float h) j pbc sample b (hs b)).count) = some (energy sample, v, lv)) ∧
      ∑ sample ∈ Fintype.piFinset (fun _ : Fin B => allSpins (Fin n × Fin n)), (∏ b, (baseProb model (sample b) : ℂ)) * energy sample =
        rayleigh (tfim (gridBonds n n pbc) h j) fun s => Complex.exp (evaluationLog model s) := by
  refine ⟨fun sample => (∑ b, tfim (gridBonds n n pbc) h j (fun s => Complex.exp (evaluationLog model s)) (sample b) /
    Complex.exp (evaluationLog model (sample b))) / B, fun sample hs => ?_, ?_⟩
  · obtain ⟨v, hv⟩ := (C18_ising_grid h j pbc sample hs (evaluationLog model)).values
    exact ⟨v, _, hv⟩
  · rw [← expected_local hfin hnorm ⟨fun swap a b => tfim_rename (bondSym_gridSym n pbc swap a b) h j, tfim_neg _ h j⟩]
    exact batch_mean _ _ (baseProb_sum hnorm)
      (fun s => tfim (gridBonds n n pbc) h j (fun s => Complex.exp (evaluationLog model s)) s / Complex.exp (evaluationLog model s)) hB

/-- **C74 (Heisenberg).** After any history of earlier calls of the operator. -/
theorem C74_heisenberg {B : Nat} (hB : 0 < B) (rot pbc : Bool) (history : List (Call n n)) (model : Config (Square n) → LogAmp)
    (hfin : ∀ s, (model s).re.isSome) (hnorm : Normalized model) :
    ∃ energy : (Fin B → Config (Fin n × Fin n)) → ℂ,
      (∀ (sample : Fin B → Config (Fin n × Fin n)) (hs : ∀ b, IsSpin (sample b)), ∃ v lv,
        estimate (evaluationLog model) (Answer.ofRows (n * n * 2 + 1)
          (((HeisOp.new2 n n rot pbc).run history).findConn B sample).2
          fun b => (C09_heisenberg_grid rot pbc history B sample b (hs b)).count) = some (energy sample, v, lv)) ∧
      ∑ sample ∈ Fintype.piFinset (fun _ : Fin B => allSpins (Fin n × Fin n)), (∏ b, (baseProb model (sample b) : ℂ)) * energy sample =
        rayleigh (heisenberg (gridBonds n n pbc) (if rot then -1 else 1)) fun s => Complex.exp (evaluationLog model s) := by
  refine ⟨fun sample => (∑ b, heisenberg (gridBonds n n pbc) (if rot then -1 else 1) (fun s => Complex.exp (evaluationLog model s)) (sample b) /
    Complex.exp (evaluationLog model (sample b))) / B, fun sample hs => ?_, ?_⟩
  · obtain ⟨v, hv⟩ := (C18_heisenberg_grid rot pbc history B sample hs (evaluationLog model)).values
    exact ⟨v, _, hv⟩
  · rw [← expected_local hfin hnorm ⟨fun swap a b => heisenberg_rename (bondSym_gridSym n pbc swap a b) _, heisenberg_neg _ _⟩]
    exact batch_mean _ _ (baseProb_sum hnorm)
      (fun s => heisenberg (gridBonds n n pbc) (if rot then -1 else 1) (fun s => Complex.exp (evaluationLog model s)) s /
        Complex.exp (evaluationLog model s)) hB

/-- Hypotheses are met: the uniform model, `ψ(s) = 2^(-n²/2)`, is finite and normalised. -/
example : (∀ s : Config (Square n), ((⟨some (-(Fintype.card (Square n) : ℝ) * Real.log 2 / 2), 0⟩ : LogAmp)).re.isSome) ∧
    Normalized fun _ : Config (Square n) => (⟨some (-(Fintype.card (Square n) : ℝ) * Real.log 2 / 2), 0⟩ : LogAmp) := by
  refine ⟨fun _ => rfl, ?_⟩
  unfold Normalized
  simp only [norm_exp, expReal]
  rw [Finset.sum_const, nsmul_eq_mul, ← Real.exp_nat_mul]
  have hc : (allSpins (Square n)).card = 2 ^ Fintype.card (Square n) := by
    unfold allSpins
    rw [Fintype.card_piFinset]
    simp [Finset.card_pair]
  rw [hc, show ((2 : ℕ) : ℝ) * (-(Fintype.card (Square n) : ℝ) * Real.log 2 / 2) = -((Fintype.card (Square n) : ℝ) * Real.log 2) by push_cast; ring,
    Real.exp_neg, Real.exp_nat_mul, Real.exp_log (by norm_num)]
  push_cast
  exact mul_inv_cancel₀ (by positivity)

end Verif.Ensemble
