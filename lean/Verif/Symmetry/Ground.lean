import Verif.Symmetry.Positive
import Verif.Symmetry.Nested

/-!
# C144: the state of lowest energy has all symmetries of the lattice, and symmetrising it changes nothing

Consequence of C141 (the lowest state is unique and positive) and C131 (the operators commute with the symmetries).
-/
namespace Verif.Ensemble

open Verif.Operators
open Verif.Energy

variable {ι κ : Type} [DecidableEq ι] [Fintype ι]

/-! ### Specification -/

/-- The amplitudes are the same after turning all spins and after every renaming of the sites that maps bonds to bonds. -/
structure HasAllSymmetries (bonds : List (ι × ι)) (ψ : Wave ι) : Prop where
  flips : ∀ s, IsSpin s → ψ (fun i => -s i) = ψ s
  sites : ∀ e : ι ≃ ι, BondSym bonds e → ∀ s, IsSpin s → ψ (fun i => s (e i)) = ψ s

/-! ### Proof -/

theorem energyH_symmetry {H : Wave ι → Wave ι} {g : Config ι → Config ι} (hg : SymmetryOf H g) (ψ : Wave ι) :
    energyH H (fun s => ψ (g s)) = energyH H ψ := by
  unfold energyH
  have h1 : ∀ s, H (fun s => ψ (g s)) s = H ψ (g s) := fun s => (hg.commutes ψ s).symm
  simp only [h1]
  rw [sum_symmetry hg fun s => (starRingEnd ℂ) (ψ s) * H ψ s, sum_symmetry hg fun s => ‖ψ s‖ ^ 2]

/-- A symmetry of the Hamiltonian that keeps `P` does not change the lowest state inside `P`. -/
theorem lowest_symmetric {conn : Config ι → List (Row ι ℝ)} {H : Wave ι → Wave ι} (hE : ∀ ψ, energyOf conn ψ = energyH H ψ)
    {P : Finset (Config ι)} (hP : P ⊆ allSpins ι) (hone : OnePositiveState conn P) {g : Config ι → Config ι} (hg : SymmetryOf H g)
    (hPg : ∀ s, IsSpin s → (g s ∈ P ↔ s ∈ P)) {ψ : Wave ι} (hψ : Lowest conn P ψ) (s : Config ι) (hs : IsSpin s) : ψ (g s) = ψ s := by
  obtain ⟨inv, hgs, his, hgi, hig⟩ := hg.inverse
  have hin : Inside P fun s => ψ (g s) := by
    refine ⟨fun s hs hn => ?_, ?_⟩
    · have hs' := (mem_allSpins s).1 hs
      exact hψ.inside.outside _ ((mem_allSpins _).2 (hgs s hs')) fun h => hn ((hPg s hs').1 h)
    · obtain ⟨s, hs, hne⟩ := hψ.inside.nonzero
      have h1 := his s ((mem_allSpins s).1 (hP hs))
      refine ⟨inv s, (hPg _ h1).1 (by rwa [hgi]), ?_⟩
      rwa [hgi]
  have hlow : Lowest conn P fun s => ψ (g s) := ⟨hin, fun φ hφ => by
    rw [hE, energyH_symmetry hg, ← hE]
    exact hψ.least φ hφ⟩
  obtain ⟨d, hd, hpos⟩ := hone.positive ψ hψ
  have hd0 : d ≠ 0 := by
    rintro rfl
    simp at hd
  obtain ⟨c, hc0, hc⟩ := hone.unique _ _ hψ hlow
  have hnorm : ∀ s ∈ allSpins ι, ‖ψ (g s)‖ ^ 2 = ‖c‖ ^ 2 * ‖ψ s‖ ^ 2 := by
    intro s hs
    by_cases h : s ∈ P
    · have := hc s h
      rw [this, norm_mul, mul_pow]
    · rw [hin.outside s hs h, hψ.inside.outside s hs h]
      simp
  have hsum := sum_symmetry hg fun s => ‖ψ s‖ ^ 2
  rw [Finset.sum_congr rfl hnorm, ← Finset.mul_sum] at hsum
  have hpos' := inside_norm_pos hP hψ.inside
  have hc1 : ‖c‖ = 1 := by
    have h2 : ‖c‖ ^ 2 = 1 := mul_right_cancel₀ hpos'.ne' (by rw [hsum, one_mul])
    exact (pow_eq_one_iff_of_nonneg (norm_nonneg c) two_ne_zero).1 h2
  by_cases h : s ∈ P
  · have h1 := hc s h
    obtain ⟨a, b⟩ := hpos s h
    obtain ⟨a', b'⟩ := hpos (g s) ((hPg s hs).2 h)
    have h2 : ‖ψ (g s)‖ = ‖ψ s‖ := by rw [h1, norm_mul, hc1, one_mul]
    rw [b, b', h2]
  · have h2 := hin.outside s ((mem_allSpins s).2 hs) h
    rw [h2, hψ.inside.outside s ((mem_allSpins s).2 hs) h]

theorem hasAll {conn : Config ι → List (Row ι ℝ)} {H : Wave ι → Wave ι} (hE : ∀ ψ, energyOf conn ψ = energyH H ψ)
    {P : Finset (Config ι)} (hP : P ⊆ allSpins ι) (hone : OnePositiveState conn P) {bonds : List (ι × ι)}
    (hneg : Commutes H fun s p => -s p) (hren : ∀ e, BondSym bonds e → Commutes H fun s p => s (e p))
    (hPneg : ∀ s, IsSpin s → ((fun p => -s p) ∈ P ↔ s ∈ P)) (hPren : ∀ (e : ι ≃ ι) s, IsSpin s → ((fun p => s (e p)) ∈ P ↔ s ∈ P))
    {ψ : Wave ι} (hψ : Lowest conn P ψ) : HasAllSymmetries bonds ψ where
  flips s hs := lowest_symmetric hE hP hone ⟨hneg, inverse_neg⟩ hPneg hψ s hs
  sites e he s hs := lowest_symmetric hE hP hone ⟨hren e he, inverse_rename e⟩ (hPren e) hψ s hs

omit [DecidableEq ι] [Fintype ι] in
theorem neg_spin (s : Config ι) (hs : IsSpin s) : IsSpin fun i => -s i := by
  intro i
  rcases hs i with h | h <;> simp [h]

theorem allSpins_neg (s : Config ι) (hs : IsSpin s) : (fun p => -s p) ∈ allSpins ι ↔ s ∈ allSpins ι :=
  ⟨fun _ => (mem_allSpins s).2 hs, fun _ => (mem_allSpins _).2 (neg_spin s hs)⟩

theorem allSpins_rename (e : ι ≃ ι) (s : Config ι) (hs : IsSpin s) : (fun p => s (e p)) ∈ allSpins ι ↔ s ∈ allSpins ι :=
  ⟨fun _ => (mem_allSpins s).2 hs, fun _ => (mem_allSpins _).2 fun p => hs (e p)⟩

theorem sector_neg (s : Config ι) (hs : IsSpin s) : (fun p => -s p) ∈ Metropolis.sector (ι := ι) 0 ↔ s ∈ Metropolis.sector (ι := ι) 0 := by
  rw [Metropolis.mem_sector, Metropolis.mem_sector]
  unfold magnetization
  simp only [Finset.sum_neg_distrib, neg_eq_zero]
  exact ⟨fun h => ⟨hs, h.2⟩, fun h => ⟨neg_spin s hs, h.2⟩⟩

theorem sector_rename (M : ℤ) (e : ι ≃ ι) (s : Config ι) (hs : IsSpin s) :
    (fun p => s (e p)) ∈ Metropolis.sector (ι := ι) M ↔ s ∈ Metropolis.sector (ι := ι) M := by
  rw [Metropolis.mem_sector, Metropolis.mem_sector, show (magnetization fun p => s (e p)) = magnetization s from Equiv.sum_comp e s]
  exact ⟨fun h => ⟨hs, h.2⟩, fun h => ⟨fun p => hs (e p), h.2⟩⟩

theorem sector_spins (M : ℤ) : Metropolis.sector (ι := ι) M ⊆ allSpins ι :=
  fun s hs => (mem_allSpins s).2 ((Metropolis.mem_sector M s).1 hs).1

/-! ### Symmetrising a model of such a state -/

theorem logAmp_eq {a b : LogAmp} (ha : a.im = 0) (hb : b.im = 0) (h : a.exp = b.exp) : a = b := by
  rw [exp_of_im ha, exp_of_im hb, Complex.ofReal_inj] at h
  obtain ⟨r, i⟩ := a
  obtain ⟨r', i'⟩ := b
  dsimp only at ha hb h
  subst ha hb
  congr 1
  cases r <;> cases r' <;> simp only [expReal] at h
  · rfl
  · exact absurd h (Real.exp_pos _).ne
  · exact absurd h (Real.exp_pos _).ne'
  · rw [Real.exp_injective h]

/-- `m` is real and positive and has the values of `base` on spin configurations. -/
structure Same (emb : Config ι → Config κ) (base m : Config κ → LogAmp) : Prop where
  im : ∀ x, (m x).im = 0
  same : ∀ s, IsSpin s → m (emb s) = base (emb s)

omit [DecidableEq ι] [Fintype ι] in
theorem Same.step {emb : Config ι → Config κ} {base m m' : Config κ → LogAmp}
    (hm : Same emb base m) (Ts : List (Config κ → Config κ)) (hne : Ts ≠ [])
    (hTs : ∀ T ∈ Ts, ∃ g : Config ι → Config ι, (∀ s, IsSpin s → IsSpin (g s) ∧ base (emb (g s)) = base (emb s)) ∧ ∀ s, emb (g s) = T (emb s))
    (hm' : ∀ x, m' x = ensembleOp true (Ts.map fun T => m (T x))) : Same emb base m' := by
  have him : ∀ x, (m' x).im = 0 := by
    intro x
    rw [hm']
    refine ensemble_im (by simpa using hne) fun a ha => ?_
    obtain ⟨T, -, rfl⟩ := List.mem_map.1 ha
    exact hm.im _
  refine ⟨him, fun s hs => logAmp_eq (him _) (by rw [← hm.same s hs]; exact hm.im _) ?_⟩
  rw [hm']
  have h1 : (Ts.map fun T => m (T (emb s))) = List.replicate Ts.length (base (emb s)) := by
    rw [← List.map_const']
    refine List.map_congr_left fun T hT => ?_
    obtain ⟨g, hg, he⟩ := hTs T hT
    rw [← he, hm.same _ (hg s hs).1, (hg s hs).2]
  rw [h1]
  exact ensemble_const true _ (List.length_pos_of_ne_nil hne) _

omit [DecidableEq ι] [Fintype ι] in
theorem flip_members {base : Config κ → LogAmp} (emb : Config ι → Config κ) (hemb : ∀ s, emb (fun i => -s i) = fun i => -emb s i)
    (hneg : ∀ s, IsSpin s → base (emb fun i => -s i) = base (emb s)) :
    ∀ T ∈ [id, fun (s : Config κ) i => -s i], ∃ g : Config ι → Config ι,
      (∀ s, IsSpin s → IsSpin (g s) ∧ base (emb (g s)) = base (emb s)) ∧ ∀ s, emb (g s) = T (emb s) := by
  intro T hT
  rcases List.mem_cons.1 hT with rfl | hT
  · exact ⟨id, fun _ hs => ⟨hs, rfl⟩, fun _ => rfl⟩
  · rw [List.mem_singleton] at hT
    subst hT
    refine ⟨_, fun s hs => ⟨?_, hneg s hs⟩, hemb⟩
    intro i
    rcases hs i with h | h <;> simp [h]

section
variable {bonds : List (ι × ι)} {emb : Config ι → Config κ} {base : Config κ → LogAmp} (him : ∀ x, (base x).im = 0)
  (h : HasAllSymmetries bonds fun s => (base (emb s)).exp)
include him h
omit [DecidableEq ι] [Fintype ι]

theorem base_flip (s : Config ι) (hs : IsSpin s) : base (emb fun i => -s i) = base (emb s) := logAmp_eq (him _) (him _) (h.flips s hs)

theorem base_site (e : ι ≃ ι) (he : BondSym bonds e) (s : Config ι) (hs : IsSpin s) : base (emb fun i => s (e i)) = base (emb s) :=
  logAmp_eq (him _) (him _) (h.sites e he s hs)

end

theorem same_line {shape : Fin 1 → Nat} {pbc : Bool} (hpos : 0 < shape 0) {base m : Config (Lattice shape) → LogAmp} (him : ∀ x, (base x).im = 0)
    (hs : HasAllSymmetries (chainBonds (shape 0) pbc) fun s => (base (onLine s)).exp) (hm : Symmetrised pbc base m) : Same onLine base m := by
  induction hm with
  | base => exact ⟨him, fun _ _ => rfl⟩
  | upDown _ ih => exact ih.step _ (by simp) (flip_members onLine (fun _ => rfl) (base_flip him hs)) (upDown_eq _)
  | translations h _ ih =>
    refine ih.step ((productRange shape).map fun t x => roll t x) ?_ ?_ fun x => ?_
    · have := productRange_length_pos (shape := shape) (fun d => by rw [Subsingleton.elim d 0]; exact hpos)
      simpa using this
    · intro T hT
      obtain ⟨t, -, rfl⟩ := List.mem_map.1 hT
      exact ⟨fun s i => s (rollEquiv (t 0) i), fun s hsp => ⟨fun i => hsp _, base_site him hs _ (h ▸ bondSym_chain_shift _ _) s hsp⟩, fun _ => rfl⟩
    · rw [pbcTranslations_eq, List.map_map]
      rfl

theorem same_plane {shape : Fin 2 → Nat} {pbc : Bool} (hpos : ∀ d, 0 < shape d) {base m : Config (Lattice shape) → LogAmp} (him : ∀ x, (base x).im = 0)
    (hs : HasAllSymmetries (gridBonds (shape 0) (shape 1) pbc) fun s => (base (onPlane s)).exp) (hm : Symmetrised pbc base m) : Same onPlane base m := by
  induction hm with
  | base => exact ⟨him, fun _ _ => rfl⟩
  | upDown _ ih => exact ih.step _ (by simp) (flip_members onPlane (fun _ => rfl) (base_flip him hs)) (upDown_eq _)
  | translations h _ ih =>
    refine ih.step ((productRange shape).map fun t x => roll t x) ?_ ?_ fun x => ?_
    · simpa using productRange_length_pos hpos
    · intro T hT
      obtain ⟨t, -, rfl⟩ := List.mem_map.1 hT
      exact ⟨_, fun s hsp => ⟨fun i => hsp _, base_site him hs _ (h ▸ bondSym_shift _ _ _ _) s hsp⟩, roll_plane t⟩
    · rw [pbcTranslations_eq, List.map_map]
      rfl

theorem same_square {n : Nat} {pbc : Bool} (hpos : 0 < n) {base m : Config (Square n) → LogAmp} (him : ∀ x, (base x).im = 0)
    (hs : HasAllSymmetries (gridBonds n n pbc) fun s => (base (onSquare s)).exp) (hm : SquareSymmetrised pbc base m) : Same onSquare base m := by
  induction hm with
  | base => exact ⟨him, fun _ _ => rfl⟩
  | upDown _ ih => exact ih.step _ (by simp) (flip_members onSquare (fun _ => rfl) (base_flip him hs)) (upDown_eq _)
  | translations h _ ih =>
    refine ih.step ((productRange fun _ : Fin 2 => n).map fun t x => roll t x) ?_ ?_ fun x => ?_
    · simpa using productRange_length_pos (shape := fun _ : Fin 2 => n) fun _ => hpos
    · intro T hT
      obtain ⟨t, -, rfl⟩ := List.mem_map.1 hT
      exact ⟨_, fun s hsp => ⟨fun i => hsp _, base_site him hs _ (h ▸ bondSym_shift _ _ _ _) s hsp⟩, roll_plane (shape := fun _ => n) t⟩
    · rw [pbcTranslations_eq, List.map_map]
      rfl
  | obc _ ih =>
    refine ih.step (members.map fun σ x p => x (sym σ p)) (by simp [members]) ?_ fun x => ?_
    · intro T hT
      obtain ⟨σ, -, rfl⟩ := List.mem_map.1 hT
      exact ⟨_, fun s hsp => ⟨fun i => hsp _, base_site him hs _ (bondSym_gridSym n pbc σ.1 σ.2.1 σ.2.2) s hsp⟩, onSquare_gridSym _ _ _⟩
    · unfold obcInvariant buildEnsemble
      rw [obcInputs_eq, List.map_map, List.map_map]
      rfl

/-! ### C144 -/

/-- **C144 (Ising, chains).** In a positive field the state of lowest energy has all symmetries. -/
theorem C144_ising_chain {n : Nat} {h : ℝ} (hh : 0 < h) (j : ℝ) (pbc : Bool) {ψ : Wave (Fin n)}
    (hψ : Lowest (isingChain h j pbc) (allSpins (Fin n)) ψ) : HasAllSymmetries (chainBonds n pbc) ψ :=
  hasAll (isingChain_energy h j pbc) (Finset.Subset.refl _) (C141_lowest_ising_chain hh j pbc) (tfim_commutes_neg _ h j)
    (fun _ he => tfim_commutes he h j) allSpins_neg allSpins_rename hψ

/-- **C144 (Ising, grids).** -/
theorem C144_ising_grid {n m : Nat} {h : ℝ} (hh : 0 < h) (j : ℝ) (pbc : Bool) {ψ : Wave (Fin n × Fin m)}
    (hψ : Lowest (isingGrid h j pbc) (allSpins (Fin n × Fin m)) ψ) : HasAllSymmetries (gridBonds n m pbc) ψ :=
  hasAll (isingGrid_energy h j pbc) (Finset.Subset.refl _) (C141_lowest_ising_grid hh j pbc) (tfim_commutes_neg _ h j)
    (fun _ he => tfim_commutes he h j) allSpins_neg allSpins_rename hψ

/-- **C144 (Heisenberg, chains).** With `unitary_rotation=True`, in the sector of total spin zero (`total_sz=0`, the
default). -/
theorem C144_heisenberg_chain {n : Nat} (pbc : Bool) (history : List (Call n 1)) {ψ : Wave (Fin n)}
    (hψ : Lowest (heisenbergChain true pbc history) (Metropolis.sector 0) ψ) : HasAllSymmetries (chainBonds n pbc) ψ :=
  hasAll (heisenbergChain_energy true pbc history) (sector_spins 0)
    (C141_lowest_heisenberg_chain pbc history 0 (let ⟨s, hs, _⟩ := hψ.inside.nonzero; ⟨s, hs⟩)) (heisenberg_commutes_neg _ _)
    (fun _ he => heisenberg_commutes (bondSym_chain' he) _) sector_neg (sector_rename 0) hψ

/-- **C144 (Heisenberg, grids).** -/
theorem C144_heisenberg_grid {n m : Nat} (pbc : Bool) (history : List (Call n m)) {ψ : Wave (Fin n × Fin m)}
    (hψ : Lowest (heisenbergGrid true pbc history) (Metropolis.sector 0) ψ) : HasAllSymmetries (gridBonds n m pbc) ψ :=
  hasAll (heisenbergGrid_energy true pbc history) (sector_spins 0)
    (C141_lowest_heisenberg_grid pbc history 0 (let ⟨s, hs, _⟩ := hψ.inside.nonzero; ⟨s, hs⟩)) (heisenberg_commutes_neg _ _)
    (fun _ he => heisenberg_commutes he _) sector_neg (sector_rename 0) hψ

/-- **C144 (symmetrised models, Ising).** A positive model of the lowest state is not changed by symmetrisation, in any
nesting: chains, rectangles, squares. -/
theorem C144_symmetrised_ising {h : ℝ} (hh : 0 < h) (j : ℝ) (pbc : Bool) :
    (∀ {shape : Fin 1 → Nat} {base m : Config (Lattice shape) → LogAmp}, 0 < shape 0 → (∀ x, (base x).im = 0) →
      Lowest (isingChain h j pbc) (allSpins (Fin (shape 0))) (fun s => (base (onLine s)).exp) → Symmetrised pbc base m →
      ∀ s, IsSpin s → m (onLine s) = base (onLine s)) ∧
    (∀ {shape : Fin 2 → Nat} {base m : Config (Lattice shape) → LogAmp}, (∀ d, 0 < shape d) → (∀ x, (base x).im = 0) →
      Lowest (isingGrid h j pbc) (allSpins (Fin (shape 0) × Fin (shape 1))) (fun s => (base (onPlane s)).exp) → Symmetrised pbc base m →
      ∀ s, IsSpin s → m (onPlane s) = base (onPlane s)) ∧
    (∀ {n : Nat} {base m : Config (Square n) → LogAmp}, 0 < n → (∀ x, (base x).im = 0) →
      Lowest (isingGrid h j pbc) (allSpins (Fin n × Fin n)) (fun s => (base (onSquare s)).exp) → SquareSymmetrised pbc base m →
      ∀ s, IsSpin s → m (onSquare s) = base (onSquare s)) :=
  ⟨fun hpos him hl hm => (same_line hpos him (C144_ising_chain hh j pbc hl) hm).same,
    fun hpos him hl hm => (same_plane hpos him (C144_ising_grid hh j pbc hl) hm).same,
    fun hpos him hl hm => (same_square hpos him (C144_ising_grid hh j pbc hl) hm).same⟩

/-- **C144 (symmetrised models, Heisenberg).** -/
theorem C144_symmetrised_heisenberg (pbc : Bool) :
    (∀ {shape : Fin 1 → Nat} (history : List (Call (shape 0) 1)) {base m : Config (Lattice shape) → LogAmp}, 0 < shape 0 → (∀ x, (base x).im = 0) →
      Lowest (heisenbergChain true pbc history) (Metropolis.sector 0) (fun s => (base (onLine s)).exp) → Symmetrised pbc base m →
      ∀ s, IsSpin s → m (onLine s) = base (onLine s)) ∧
    (∀ {shape : Fin 2 → Nat} (history : List (Call (shape 0) (shape 1))) {base m : Config (Lattice shape) → LogAmp}, (∀ d, 0 < shape d) →
      (∀ x, (base x).im = 0) →
      Lowest (heisenbergGrid true pbc history) (Metropolis.sector 0) (fun s => (base (onPlane s)).exp) → Symmetrised pbc base m →
      ∀ s, IsSpin s → m (onPlane s) = base (onPlane s)) ∧
    (∀ {n : Nat} (history : List (Call n n)) {base m : Config (Square n) → LogAmp}, 0 < n → (∀ x, (base x).im = 0) →
      Lowest (heisenbergGrid true pbc history) (Metropolis.sector 0) (fun s => (base (onSquare s)).exp) → SquareSymmetrised pbc base m →
      ∀ s, IsSpin s → m (onSquare s) = base (onSquare s)) :=
  ⟨fun history _ _ hpos him hl hm => (same_line hpos him (C144_heisenberg_chain pbc history hl) hm).same,
    fun history _ _ hpos him hl hm => (same_plane hpos him (C144_heisenberg_grid pbc history hl) hm).same,
    fun history _ _ hpos him hl hm => (same_square hpos him (C144_heisenberg_grid pbc history hl) hm).same⟩

/-- The hypotheses can be met: on every square, in a positive field, there is a positive model of a lowest state. -/
theorem positive_model_exists {n : Nat} {h : ℝ} (hh : 0 < h) (j : ℝ) (pbc : Bool) :
    ∃ base : Config (Square n) → LogAmp, (∀ x, (base x).im = 0) ∧
      Lowest (isingGrid h j pbc) (allSpins (Fin n × Fin n)) fun s => (base (onSquare s)).exp := by
  obtain ⟨ψ, hψ⟩ := (C141_lowest_ising_grid (n := n) (m := n) hh j pbc).exists_
  have habs : ∀ s : Config (Fin n × Fin n), ((absModel (fun x : Config (Square n) => ψ fun p => x ![p.1, p.2])) (onSquare s)).exp = ((‖ψ s‖ : ℝ) : ℂ) := by
    intro s
    rw [absModel_exp]
    have : (fun p : Fin n × Fin n => onSquare s ![p.1, p.2]) = s := by
      funext p
      simp [onSquare]
    rw [this]
  refine ⟨absModel fun x => ψ fun p => x ![p.1, p.2], fun _ => rfl, ?_⟩
  simp only [habs]
  refine ⟨inside_abs hψ.inside, fun φ hφ => le_trans ?_ (hψ.least φ hφ)⟩
  rw [isingGrid_energy, isingGrid_energy]
  exact energyH_abs (tfim_stoquastic _ hh.le j) ψ

example : ∃ base : Config (Square 3) → LogAmp, (∀ x, (base x).im = 0) ∧
    Lowest (isingGrid 1 1 true) (allSpins (Fin 3 × Fin 3)) fun s => (base (onSquare s)).exp := positive_model_exists one_pos 1 true

/-- Lowest states in the sector of total spin zero exist, here for two sites. -/
example (history : List (Call 2 1)) : ∃ ψ, Lowest (heisenbergChain (n := 2) true false history) (Metropolis.sector 0) ψ :=
  (C141_lowest_heisenberg_chain false history 0
    ⟨![1, -1], (Metropolis.mem_sector 0 _).2 ⟨by intro i; fin_cases i <;> simp, by decide⟩⟩).exists_

end Verif.Ensemble
