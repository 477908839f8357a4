import Verif.Symmetry.Evaluation
import Verif.Symmetry.Translation
import Verif.Operators.J1J2Op

/-!
C131: the operators have the symmetries that the ensembles of `machines/ensemble.py` impose on models.
-/
namespace Verif.Ensemble

open Verif.Operators
open Verif.Energy

/-! ### Specification -/

/-- `T` is a symmetry of a chain of `n` sites: the global spin flip, the mirror image, with periodic boundaries every
translation, and what can be composed of these. -/
inductive ChainSymmetry (n : Nat) (pbc : Bool) : (Config (Fin n) → Config (Fin n)) → Prop where
  | spinFlip : ChainSymmetry n pbc fun s i => -s i
  | mirror : ChainSymmetry n pbc fun s i => s i.rev
  | translate (h : pbc = true) (a : Nat) : ChainSymmetry n pbc fun s i => s (shift a i)
  | comp {T T'} : ChainSymmetry n pbc T → ChainSymmetry n pbc T' → ChainSymmetry n pbc fun s => T (T' s)

/-- `T` is a symmetry of an `n × m` lattice: the global spin flip, the two mirror images, on squares the reflection at the
diagonal, with periodic boundaries every translation, and what can be composed of these, like the quarter turns of squares. -/
inductive GridSymmetry (n m : Nat) (pbc : Bool) : (Config (Fin n × Fin m) → Config (Fin n × Fin m)) → Prop where
  | spinFlip : GridSymmetry n m pbc fun s p => -s p
  | mirrorRows : GridSymmetry n m pbc fun s p => s (p.1.rev, p.2)
  | mirrorColumns : GridSymmetry n m pbc fun s p => s (p.1, p.2.rev)
  | transpose (h : n = m) : GridSymmetry n m pbc fun s p => s (Fin.cast h.symm p.2, Fin.cast h p.1)
  | translate (h : pbc = true) (a b : Nat) : GridSymmetry n m pbc fun s p => s (shift a p.1, shift b p.2)
  | comp {T T'} : GridSymmetry n m pbc T → GridSymmetry n m pbc T' → GridSymmetry n m pbc fun s => T (T' s)

/-! ### Proof: renaming sites -/

section Hamiltonian

variable {ι : Type} [DecidableEq ι]

/-- Transforming and applying the Hamiltonian can be exchanged. -/
def Commutes (H : Wave ι → Wave ι) (T : Config ι → Config ι) : Prop := ∀ ψ s, H ψ (T s) = H (fun t => ψ (T t)) s

omit [DecidableEq ι] in
theorem Commutes.comp {H : Wave ι → Wave ι} {T T' : Config ι → Config ι} (h : Commutes H T) (h' : Commutes H T') :
    Commutes H fun s => T (T' s) := fun ψ s => (h ψ (T' s)).trans (h' _ s)

omit [DecidableEq ι] in
theorem zz_rename' (e : ι ≃ ι) (ψ : Wave ι) (a b : ι) (s : Config ι) :
    pauliZ a (pauliZ b ψ) (fun p => s (e p)) = pauliZ (e a) (pauliZ (e b) fun t => ψ fun p => t (e p)) s := rfl

theorem xx_rename' (e : ι ≃ ι) (ψ : Wave ι) (a b : ι) (s : Config ι) :
    pauliX a (pauliX b ψ) (fun p => s (e p)) = pauliX (e a) (pauliX (e b) fun t => ψ fun p => t (e p)) s := by
  unfold pauliX; rw [flip_rename, flip_rename]

theorem yy_rename' (e : ι ≃ ι) (ψ : Wave ι) (a b : ι) (s : Config ι) :
    pauliY a (pauliY b ψ) (fun p => s (e p)) = pauliY (e a) (pauliY (e b) fun t => ψ fun p => t (e p)) s := by
  unfold pauliY; rw [flip_rename, flip_rename]

theorem tfim_commutes [Fintype ι] {bonds : List (ι × ι)} {e : ι ≃ ι} (he : BondSym bonds e) (h J : ℝ) :
    Commutes (tfim bonds h J) fun s p => s (e p) := by
  intro ψ s
  unfold tfim
  have h1 : (bonds.map fun b => pauliZ b.1 (pauliZ b.2 ψ) fun p => s (e p)).sum =
      (bonds.map fun b => pauliZ b.1 (pauliZ b.2 fun t => ψ fun p => t (e p)) s).sum := by
    simp only [zz_rename' e ψ]
    exact he (fun b => pauliZ b.1 (pauliZ b.2 fun t => ψ fun p => t (e p)) s) fun a b => zz_symm _ a b s
  have h2 : (∑ i, pauliX i ψ fun p => s (e p)) = ∑ i, pauliX i (fun t => ψ fun p => t (e p)) s := by
    refine Fintype.sum_equiv e _ _ fun i => ?_
    unfold pauliX
    rw [flip_rename]
  rw [h1, h2]

theorem heisenberg_commutes {bonds : List (ι × ι)} {e : ι ≃ ι} (he : BondSym bonds e) (ε : ℝ) :
    Commutes (heisenberg bonds ε) fun s p => s (e p) := by
  intro ψ s
  unfold heisenberg
  simp only [zz_rename' e ψ, xx_rename' e ψ, yy_rename' e ψ]
  set φ : Wave ι := fun t => ψ fun p => t (e p)
  exact he (fun b => (ε : ℂ) * (pauliX b.1 (pauliX b.2 φ) s + pauliY b.1 (pauliY b.2 φ) s) + pauliZ b.1 (pauliZ b.2 φ) s)
    fun a b => by simp only [zz_symm φ a b, xx_symm φ a b, yy_symm φ a b]

theorem tfim_commutes_neg [Fintype ι] (bonds : List (ι × ι)) (h J : ℝ) : Commutes (tfim bonds h J) fun s p => -s p := by
  intro ψ s
  unfold tfim
  congr 2
  · refine congrArg List.sum (List.map_congr_left fun b _ => ?_)
    unfold pauliZ; push_cast; ring
  · refine Finset.sum_congr rfl fun i _ => ?_
    unfold pauliX; rw [flip_neg]

theorem heisenberg_commutes_neg (bonds : List (ι × ι)) (ε : ℝ) : Commutes (heisenberg bonds ε) fun s p => -s p := by
  intro ψ s
  unfold heisenberg
  refine congrArg List.sum (List.map_congr_left fun b _ => ?_)
  unfold pauliX pauliY pauliZ
  simp only [flip_neg]
  push_cast; ring

end Hamiltonian

/-! ### Proof: lattices -/

/-- Translation of an axis as a renaming. -/
def shiftEquiv (n a : Nat) : Fin n ≃ Fin n := ⟨shift a, unshift a, unshift_shift a, shift_unshift a⟩

theorem chainNext_pbc {n : Nat} (i : Fin n) : chainNext n true i = some (shift 1 i) := by
  unfold chainNext shift
  by_cases h : i.val + 1 < n
  · rw [dif_pos h]
    simp only [Option.some.injEq, Fin.mk.injEq]
    exact (Nat.mod_eq_of_lt h).symm
  · rw [dif_neg h, if_pos rfl]
    have : i.val + 1 = n := by omega
    simp [this]

theorem shift_comm {n : Nat} (a b : Nat) (i : Fin n) : shift a (shift b i) = shift b (shift a i) := by
  unfold shift
  simp only [Nat.mod_add_mod, Fin.mk.injEq]
  rw [Nat.add_right_comm]

theorem chainSum_shift (n a : Nat) (g : Fin n → Fin n → ℂ) :
    chainSum n true (fun i k => g (shift a i) (shift a k)) = chainSum n true g := by
  unfold chainSum
  simp only [chainNext_pbc, Option.map_some, Option.getD_some, shift_comm a 1]
  exact Fintype.sum_equiv (shiftEquiv n a) _ _ fun i => rfl

theorem bondSym_shift (n m a b : Nat) :
    BondSym (gridBonds n m true) (Equiv.prodCongr (shiftEquiv n a) (shiftEquiv m b)) := by
  intro f hf
  rw [sum_grid, sum_grid]
  congr 1
  · congr 1
    have h1 : ∀ j, chainSum n true (fun i k => f ((shift a i, shift b j), (shift a k, shift b j))) =
        chainSum n true fun i k => f ((i, shift b j), (k, shift b j)) := fun j =>
      chainSum_shift n a fun i k => f ((i, shift b j), (k, shift b j))
    exact (Finset.sum_congr rfl fun j _ => h1 j).trans
      (Fintype.sum_equiv (shiftEquiv m b) _ (fun j => chainSum n true fun i k => f ((i, j), (k, j))) fun j => rfl)
  · congr 1
    have h1 : ∀ i, chainSum m true (fun j k => f ((shift a i, shift b j), (shift a i, shift b k))) =
        chainSum m true fun j k => f ((shift a i, j), (shift a i, k)) := fun i =>
      chainSum_shift m b fun j k => f ((shift a i, j), (shift a i, k))
    exact (Finset.sum_congr rfl fun i _ => h1 i).trans
      (Fintype.sum_equiv (shiftEquiv n a) _ (fun i => chainSum m true fun j k => f ((i, j), (i, k))) fun i => rfl)

theorem sum_chain (n : Nat) (pbc : Bool) (f : Fin n × Fin n → ℂ) : ((chainBonds n pbc).map f).sum = chainSum n pbc fun i k => f (i, k) :=
  sum_chainBonds n pbc f

theorem bondSym_chain_rev (n : Nat) (pbc : Bool) : BondSym (chainBonds n pbc) Fin.revPerm := by
  intro f hf
  rw [sum_chain, sum_chain]
  refine (chainSum_rev n pbc fun i k => f (i, k)).trans ?_
  unfold chainSum
  simp only [hf]

theorem bondSym_chain_shift (n a : Nat) : BondSym (chainBonds n true) (shiftEquiv n a) := by
  intro f hf
  rw [sum_chain, sum_chain]
  exact chainSum_shift n a fun i k => f (i, k)

theorem bondSym_chain' {n : Nat} {pbc : Bool} {e : Fin n ≃ Fin n} (h : BondSym (chainBonds n pbc) e) : BondSym (chainBonds' n pbc) e := by
  unfold chainBonds'
  split
  · exact h
  · intro f _; rfl

theorem commutes_transpose {n m : Nat} {pbc : Bool} (H : Wave (Fin n × Fin m) → Wave (Fin n × Fin m))
    (hren : ∀ e, BondSym (gridBonds n m pbc) e → Commutes H fun s p => s (e p)) (h : n = m) :
    Commutes H fun s p => s (Fin.cast h.symm p.2, Fin.cast h p.1) := by
  subst h
  exact hren _ (bondSym_swap n pbc)

/-- A Hamiltonian that commutes with the spin flip and all renamings of sites that keep the bonds commutes with all
symmetries of the lattice. -/
theorem commutes_grid {n m : Nat} {pbc : Bool} (H : Wave (Fin n × Fin m) → Wave (Fin n × Fin m))
    (hneg : Commutes H fun s p => -s p) (hren : ∀ e, BondSym (gridBonds n m pbc) e → Commutes H fun s p => s (e p))
    {T : Config (Fin n × Fin m) → Config (Fin n × Fin m)} (hT : GridSymmetry n m pbc T) : Commutes H T := by
  induction hT with
  | spinFlip => exact hneg
  | mirrorRows => exact hren _ (bondSym_revRows n m pbc)
  | mirrorColumns => exact hren _ (bondSym_revColumns n m pbc)
  | transpose h => exact commutes_transpose H hren h
  | translate h a b => exact hren (Equiv.prodCongr (shiftEquiv n a) (shiftEquiv m b)) (h ▸ bondSym_shift n m a b)
  | comp _ _ ih ih' => exact ih.comp ih'

theorem commutes_chain {n : Nat} {pbc : Bool} (H : Wave (Fin n) → Wave (Fin n))
    (hneg : Commutes H fun s p => -s p) (hren : ∀ e, BondSym (chainBonds n pbc) e → Commutes H fun s p => s (e p))
    {T : Config (Fin n) → Config (Fin n)} (hT : ChainSymmetry n pbc T) : Commutes H T := by
  induction hT with
  | spinFlip => exact hneg
  | mirror => exact hren _ (bondSym_chain_rev n pbc)
  | translate h a => exact hren (shiftEquiv n a) (h ▸ bondSym_chain_shift n a)
  | comp _ _ ih ih' => exact ih.comp ih'

theorem chain_spin {n : Nat} {pbc : Bool} {T : Config (Fin n) → Config (Fin n)} (hT : ChainSymmetry n pbc T) :
    ∀ s, IsSpin s → IsSpin (T s) := by
  induction hT with
  | spinFlip => intro s hs i; rcases hs i with h | h <;> simp [h]
  | mirror => exact fun s hs i => hs _
  | translate h a => exact fun s hs i => hs _
  | comp _ _ ih ih' => exact fun s hs => ih _ (ih' _ hs)

theorem grid_spin {n m : Nat} {pbc : Bool} {T : Config (Fin n × Fin m) → Config (Fin n × Fin m)} (hT : GridSymmetry n m pbc T) :
    ∀ s, IsSpin s → IsSpin (T s) := by
  induction hT with
  | spinFlip => intro s hs i; rcases hs i with h | h <;> simp [h]
  | mirrorRows => exact fun s hs i => hs _
  | mirrorColumns => exact fun s hs i => hs _
  | transpose h => exact fun s hs i => hs _
  | translate h a b => exact fun s hs i => hs _
  | comp _ _ ih ih' => exact fun s hs => ih _ (ih' _ hs)

/-! ### C131: the operators -/

/-- **C131 (Ising, chains).** The connections of the transformed configuration, in any batch, are the transformed
connections: both act alike on every wave function. -/
theorem C131_ising_chain {n B B' : Nat} (h j : ℝ) (pbc : Bool) {T : Config (Fin n) → Config (Fin n)} (hT : ChainSymmetry n pbc T)
    (sample : Fin B → Config (Fin n)) (sample' : Fin B' → Config (Fin n)) (x : Fin B) (y : Fin B') (hxy : sample' y = T (sample x))
    (ψ : Wave (Fin n)) :
    applyRows (isingFindConn1 (.float h) j pbc sample' y) ψ = applyRows (isingFindConn1 (.float h) j pbc sample x) fun t => ψ (T t) := by
  rw [C06_ising_chain, C06_ising_chain, hxy]
  exact commutes_chain _ (tfim_commutes_neg _ h j) (fun e he => tfim_commutes he h j) hT ψ _

/-- **C131 (Ising, lattices).** -/
theorem C131_ising_grid {n m B B' : Nat} (h j : ℝ) (pbc : Bool) {T : Config (Fin n × Fin m) → Config (Fin n × Fin m)}
    (hT : GridSymmetry n m pbc T) (sample : Fin B → Config (Fin n × Fin m)) (sample' : Fin B' → Config (Fin n × Fin m))
    (x : Fin B) (y : Fin B') (hxy : sample' y = T (sample x)) (ψ : Wave (Fin n × Fin m)) :
    applyRows (isingFindConn2 (.float h) j pbc sample' y) ψ = applyRows (isingFindConn2 (.float h) j pbc sample x) fun t => ψ (T t) := by
  rw [C06_ising_grid, C06_ising_grid, hxy]
  exact commutes_grid _ (tfim_commutes_neg _ h j) (fun e he => tfim_commutes he h j) hT ψ _

/-- **C131 (Heisenberg, chains).** With and without unitary rotation, after any two histories of earlier calls. -/
theorem C131_heisenberg_chain {n : Nat} (rot pbc : Bool) {T : Config (Fin n) → Config (Fin n)} (hT : ChainSymmetry n pbc T)
    (history history' : List (Call n 1)) (B B' : Nat) (sample : Fin B → Config (Fin n)) (sample' : Fin B' → Config (Fin n))
    (x : Fin B) (y : Fin B') (hs : IsSpin (sample x)) (hxy : sample' y = T (sample x)) (ψ : Wave (Fin n)) :
    applyRows ((((HeisOp.new1 n rot pbc).run history').findConn1 B' sample').2 y) ψ =
      applyRows ((((HeisOp.new1 n rot pbc).run history).findConn1 B sample).2 x) fun t => ψ (T t) := by
  rw [C07_heisenberg_chain rot pbc history' B' sample' y (by rw [hxy]; exact chain_spin hT _ hs),
    C07_heisenberg_chain rot pbc history B sample x hs, hxy]
  exact commutes_chain _ (heisenberg_commutes_neg _ _) (fun e he => heisenberg_commutes (bondSym_chain' he) _) hT ψ _

/-- **C131 (Heisenberg, lattices).** -/
theorem C131_heisenberg_grid {n m : Nat} (rot pbc : Bool) {T : Config (Fin n × Fin m) → Config (Fin n × Fin m)}
    (hT : GridSymmetry n m pbc T) (history history' : List (Call n m)) (B B' : Nat) (sample : Fin B → Config (Fin n × Fin m))
    (sample' : Fin B' → Config (Fin n × Fin m)) (x : Fin B) (y : Fin B') (hs : IsSpin (sample x)) (hxy : sample' y = T (sample x))
    (ψ : Wave (Fin n × Fin m)) :
    applyRows ((((HeisOp.new2 n m rot pbc).run history').findConn B' sample').2 y) ψ =
      applyRows ((((HeisOp.new2 n m rot pbc).run history).findConn B sample).2 x) fun t => ψ (T t) := by
  rw [C07_heisenberg_grid rot pbc history' B' sample' y (by rw [hxy]; exact grid_spin hT _ hs),
    C07_heisenberg_grid rot pbc history B sample x hs, hxy]
  exact commutes_grid _ (heisenberg_commutes_neg _ _) (fun e he => heisenberg_commutes he _) hT ψ _

/-! ### J1-J2 model -/

open Verif.J1J2 Verif.J1J2.Op in
/-- The couplings of a pair of sites. -/
noncomputable def pairTerm (L1 L2 : Nat) (pbc : Bool) (j2 : ℂ) (ψ : Wave (Fin L1 × Fin L2)) (s : Config (Fin L1 × Fin L2))
    (p q : Fin L1 × Fin L2) : ℂ :=
  (if nearest L1 L2 pbc (p.1.val, p.2.val) (q.1.val, q.2.val) then coupling p q ψ s else 0) +
    (if diagonal L1 L2 pbc (p.1.val, p.2.val) (q.1.val, q.2.val) then j2 * coupling p q ψ s else 0)

section
open Verif.J1J2 Verif.J1J2.Op

theorem near_comm {L : Nat} {pbc : Bool} {i k : Nat} : near L pbc i k ↔ near L pbc k i := Or.comm

theorem near_irrefl {L : Nat} {pbc : Bool} (hL : pbc = true → 3 ≤ L) (i : Nat) : ¬near L pbc i i := by
  unfold near step
  rintro ((⟨h, -⟩ | ⟨h, h1, h2⟩) | (⟨h, -⟩ | ⟨h, h1, h2⟩))
  · omega
  · have := hL h; omega
  · omega
  · have := hL h; omega

theorem near_rev {L : Nat} {pbc : Bool} (i k : Fin L) : near L pbc i.rev k.rev ↔ near L pbc i k := by
  have hi := i.isLt
  have hk := k.isLt
  unfold near step
  simp only [Fin.val_rev]
  constructor
  · rintro ((⟨h, h'⟩ | ⟨h, h1, h2⟩) | (⟨h, h'⟩ | ⟨h, h1, h2⟩))
    · exact .inr (.inl ⟨by omega, by omega⟩)
    · exact .inr (.inr ⟨h, by omega, by omega⟩)
    · exact .inl (.inl ⟨by omega, by omega⟩)
    · exact .inl (.inr ⟨h, by omega, by omega⟩)
  · rintro ((⟨h, h'⟩ | ⟨h, h1, h2⟩) | (⟨h, h'⟩ | ⟨h, h1, h2⟩))
    · exact .inr (.inl ⟨by omega, by omega⟩)
    · exact .inr (.inr ⟨h, by omega, by omega⟩)
    · exact .inl (.inl ⟨by omega, by omega⟩)
    · exact .inl (.inr ⟨h, by omega, by omega⟩)

theorem step_iff {L : Nat} (i k : Fin L) : step L true i k ↔ k = shift 1 i := by
  have hi := i.isLt
  have hk := k.isLt
  rw [Fin.ext_iff]
  unfold step shift
  dsimp only
  by_cases h : i.val + 1 < L
  · rw [Nat.mod_eq_of_lt h]
    constructor
    · rintro (⟨h1, h2⟩ | ⟨h1, h2, h3⟩) <;> omega
    · intro h1; exact .inl ⟨by omega, by omega⟩
  · have : i.val + 1 = L := by omega
    rw [this, Nat.mod_self]
    constructor
    · rintro (⟨h1, h2⟩ | ⟨h1, h2, h3⟩) <;> omega
    · intro h1; exact .inr ⟨rfl, rfl, h1⟩

theorem near_shift {L : Nat} (a : Nat) (i k : Fin L) : near L true (shift a i).val (shift a k).val ↔ near L true i k := by
  unfold near
  rw [step_iff, step_iff, step_iff, step_iff, shift_comm 1 a, shift_comm 1 a]
  exact or_congr (shiftEquiv L a).injective.eq_iff (shiftEquiv L a).injective.eq_iff

theorem pairTerm_comm (L1 L2 : Nat) (pbc : Bool) (j2 : ℂ) (ψ : Wave (Fin L1 × Fin L2)) (s : Config (Fin L1 × Fin L2))
    (p q : Fin L1 × Fin L2) : pairTerm L1 L2 pbc j2 ψ s p q = pairTerm L1 L2 pbc j2 ψ s q p := by
  unfold pairTerm nearest diagonal coupling
  simp only [zz_symm ψ p q, xx_symm ψ p q, yy_symm ψ p q, near_comm (i := p.1.val), near_comm (i := p.2.val),
    eq_comm (a := p.1.val), eq_comm (a := p.2.val)]

theorem pairTerm_self (L1 L2 : Nat) (pbc : Bool) (hL : pbc = true → 3 ≤ L1 ∧ 3 ≤ L2) (j2 : ℂ) (ψ : Wave (Fin L1 × Fin L2))
    (s : Config (Fin L1 × Fin L2)) (p : Fin L1 × Fin L2) : pairTerm L1 L2 pbc j2 ψ s p p = 0 := by
  unfold pairTerm nearest diagonal
  simp [near_irrefl (fun h => (hL h).1), near_irrefl (fun h => (hL h).2)]

/-- Twice the Hamiltonian is the sum over all ordered pairs. -/
theorem two_mul_hamiltonian (L1 L2 : Nat) (pbc : Bool) (hL : pbc = true → 3 ≤ L1 ∧ 3 ≤ L2) (j2 : ℂ) (ψ : Wave (Fin L1 × Fin L2))
    (s : Config (Fin L1 × Fin L2)) :
    2 * hamiltonian L1 L2 pbc j2 ψ s = ∑ p, ∑ q, pairTerm L1 L2 pbc j2 ψ s p q := by
  have h1 : hamiltonian L1 L2 pbc j2 ψ s = ∑ p, ∑ q, if p.1 < q.1 ∨ p.1 = q.1 ∧ p.2 < q.2 then pairTerm L1 L2 pbc j2 ψ s p q else 0 := rfl
  have h2 : hamiltonian L1 L2 pbc j2 ψ s = ∑ p, ∑ q, if q.1 < p.1 ∨ q.1 = p.1 ∧ q.2 < p.2 then pairTerm L1 L2 pbc j2 ψ s p q else 0 := by
    rw [h1, Finset.sum_comm]
    refine Finset.sum_congr rfl fun p _ => Finset.sum_congr rfl fun q _ => ?_
    rw [pairTerm_comm]
  rw [two_mul]
  nth_rewrite 1 [h1]
  rw [h2, ← Finset.sum_add_distrib]
  refine Finset.sum_congr rfl fun p _ => ?_
  rw [← Finset.sum_add_distrib]
  refine Finset.sum_congr rfl fun q _ => ?_
  rcases lt_trichotomy p.1 q.1 with h | h | h
  · rw [if_pos (.inl h), if_neg (by rintro (h' | ⟨h', -⟩) <;> omega), add_zero]
  · rcases lt_trichotomy p.2 q.2 with g | g | g
    · rw [if_pos (.inr ⟨h, g⟩), if_neg (by rintro (h' | ⟨-, h'⟩) <;> omega), add_zero]
    · have : p = q := Prod.ext h g
      subst this
      rw [pairTerm_self L1 L2 pbc hL]
      simp
    · rw [if_neg (by rintro (h' | ⟨-, h'⟩) <;> omega), if_pos (.inr ⟨h.symm, g⟩), zero_add]
  · rw [if_neg (by rintro (h' | ⟨h', -⟩) <;> omega), if_pos (.inl h), zero_add]

theorem hamiltonian_rename (L1 L2 : Nat) (pbc : Bool) (hL : pbc = true → 3 ≤ L1 ∧ 3 ≤ L2) (j2 : ℂ)
    (e : Fin L1 × Fin L2 ≃ Fin L1 × Fin L2)
    (hn : ∀ p q : Fin L1 × Fin L2, nearest L1 L2 pbc ((e p).1.val, (e p).2.val) ((e q).1.val, (e q).2.val) ↔
      nearest L1 L2 pbc (p.1.val, p.2.val) (q.1.val, q.2.val))
    (hd : ∀ p q : Fin L1 × Fin L2, diagonal L1 L2 pbc ((e p).1.val, (e p).2.val) ((e q).1.val, (e q).2.val) ↔
      diagonal L1 L2 pbc (p.1.val, p.2.val) (q.1.val, q.2.val)) :
    Commutes (hamiltonian L1 L2 pbc j2) fun s p => s (e p) := by
  intro ψ s
  have h2 : (2 : ℂ) ≠ 0 := two_ne_zero
  refine mul_left_cancel₀ h2 ?_
  rw [two_mul_hamiltonian L1 L2 pbc hL, two_mul_hamiltonian L1 L2 pbc hL]
  refine Fintype.sum_equiv e _ _ fun p => Fintype.sum_equiv e _ _ fun q => ?_
  unfold pairTerm coupling
  simp only [hn, hd, zz_rename' e ψ, xx_rename' e ψ, yy_rename' e ψ]

theorem hamiltonian_neg (L1 L2 : Nat) (pbc : Bool) (j2 : ℂ) : Commutes (hamiltonian L1 L2 pbc j2) fun s p => -s p := by
  intro ψ s
  unfold hamiltonian
  have h : ∀ p q : Fin L1 × Fin L2, coupling p q ψ (fun p => -s p) = coupling p q (fun t => ψ fun p => -t p) s := by
    intro p q
    unfold coupling pauliX pauliY pauliZ
    simp only [flip_neg]
    push_cast; ring
  simp only [h]

theorem hamiltonian_transpose {L1 L2 : Nat} {pbc : Bool} (hL : pbc = true → 3 ≤ L1 ∧ 3 ≤ L2) (j2 : ℂ) (h : L1 = L2) :
    Commutes (hamiltonian L1 L2 pbc j2) fun s p => s (Fin.cast h.symm p.2, Fin.cast h p.1) := by
  subst h
  refine hamiltonian_rename L1 L1 pbc hL j2 (Equiv.prodComm _ _) (fun p q => ?_) fun p q => ?_
  · show nearest L1 L1 pbc (p.2.val, p.1.val) (q.2.val, q.1.val) ↔ _
    unfold nearest; tauto
  · show diagonal L1 L1 pbc (p.2.val, p.1.val) (q.2.val, q.1.val) ↔ _
    unfold diagonal; tauto

theorem hamiltonian_axes (L1 L2 : Nat) (pbc : Bool) (hL : pbc = true → 3 ≤ L1 ∧ 3 ≤ L2) (j2 : ℂ) (e1 : Fin L1 ≃ Fin L1) (e2 : Fin L2 ≃ Fin L2)
    (h1 : ∀ i k, near L1 pbc (e1 i).val (e1 k).val ↔ near L1 pbc i.val k.val)
    (h2 : ∀ i k, near L2 pbc (e2 i).val (e2 k).val ↔ near L2 pbc i.val k.val) :
    Commutes (hamiltonian L1 L2 pbc j2) fun s p => s (e1 p.1, e2 p.2) := by
  have v1 : ∀ i k : Fin L1, (e1 i).val = (e1 k).val ↔ i.val = k.val := fun i k => by
    rw [← Fin.ext_iff, ← Fin.ext_iff]; exact e1.injective.eq_iff
  have v2 : ∀ i k : Fin L2, (e2 i).val = (e2 k).val ↔ i.val = k.val := fun i k => by
    rw [← Fin.ext_iff, ← Fin.ext_iff]; exact e2.injective.eq_iff
  exact hamiltonian_rename L1 L2 pbc hL j2 (Equiv.prodCongr e1 e2)
    (fun p q => or_congr (and_congr (v1 _ _) (h2 _ _)) (and_congr (h1 _ _) (v2 _ _))) fun p q => and_congr (h1 _ _) (h2 _ _)

theorem hamiltonian_commutes {L1 L2 : Nat} {pbc : Bool} (hL : pbc = true → 3 ≤ L1 ∧ 3 ≤ L2) (j2 : ℂ)
    {T : Config (Fin L1 × Fin L2) → Config (Fin L1 × Fin L2)} (hT : GridSymmetry L1 L2 pbc T) :
    Commutes (hamiltonian L1 L2 pbc j2) T := by
  induction hT with
  | spinFlip => exact hamiltonian_neg L1 L2 pbc j2
  | mirrorRows => exact hamiltonian_axes L1 L2 pbc hL j2 Fin.revPerm (Equiv.refl _) near_rev fun _ _ => Iff.rfl
  | mirrorColumns => exact hamiltonian_axes L1 L2 pbc hL j2 (Equiv.refl _) Fin.revPerm (fun _ _ => Iff.rfl) near_rev
  | transpose h => exact hamiltonian_transpose hL j2 h
  | translate h a b =>
    exact hamiltonian_axes L1 L2 pbc hL j2 (shiftEquiv L1 a) (shiftEquiv L2 b) (fun i k => h ▸ near_shift a i k) fun i k => h ▸ near_shift b i k
  | comp _ _ ih ih' => exact ih.comp ih'

/-- **C131 (J1-J2).** For open boundaries, and periodic ones with at least three rows and columns: the answers for a sample
and for its transformed image, in any two batches after any two histories, act alike on every wave function. -/
theorem C131_j1j2 (first : ℤ) (hf : first = 1 ∨ first = -1) (L1 L2 : Nat) (h1 : 0 < L1) (h2 : 0 < L2) (j2 : ℂ) (pbc : Bool)
    (hL : pbc = true → 3 ≤ L1 ∧ 3 ≤ L2) {T : Config (Fin L1 × Fin L2) → Config (Fin L1 × Fin L2)} (hT : GridSymmetry L1 L2 pbc T)
    (history history' : List (List Verif.Netket.Conf)) (batch batch' : List (Config (Fin L1 × Fin L2)))
    (hs : ∀ s ∈ batch, IsSpin s) (hs' : ∀ s ∈ batch', IsSpin s)
    (w w' : Verif.Netket.Wrapper) (rows rows' : List (List Verif.Netket.Row))
    (hfind : ((j1j2Operator first L1 L2 j2 pbc).run history).findConn (batch.map flat) = .ok (w, rows))
    (hfind' : ((j1j2Operator first L1 L2 j2 pbc).run history').findConn (batch'.map flat) = .ok (w', rows'))
    (i k : Nat) (hi : i < batch.length) (hk : k < batch'.length) (hr : i < rows.length) (hr' : k < rows'.length)
    (hik : batch'[k] = T batch[i]) (ψ : Wave (Fin L1 × Fin L2)) :
    (rows'[k].map fun r => r.mel * ψ (grid L1 L2 r.conn)).sum = (rows[i].map fun r => r.mel * ψ (T (grid L1 L2 r.conn))).sum := by
  obtain ⟨v, x, hv, -, hx⟩ := C107_hamiltonian first hf L1 L2 h1 h2 j2 pbc hL history batch (by rintro rfl; simp at hi) hs
  obtain ⟨v', x', hv', -, hx'⟩ := C107_hamiltonian first hf L1 L2 h1 h2 j2 pbc hL history' batch' (by rintro rfl; simp at hk) hs'
  rw [hfind] at hv
  rw [hfind'] at hv'
  simp only [Except.ok.injEq, Prod.mk.injEq] at hv hv'
  obtain ⟨rfl, rfl⟩ := hv
  obtain ⟨rfl, rfl⟩ := hv'
  rw [(hx' k hk hr').2.2.2 ψ, (hx i hi hr).2.2.2 fun t => ψ (T t), hik]
  exact hamiltonian_commutes hL j2 hT ψ _

/-- Such calls succeed, in particular for a batch and the batch of the transformed samples. -/
example (history : List (List Verif.Netket.Conf)) (batch : List (Config (Fin 4 × Fin 4))) (hb : batch ≠ [])
    (hs : ∀ s ∈ batch, IsSpin s) : ∃ w rows w' rows',
      ((j1j2Operator 1 4 4 (1 / 2) true).run history).findConn (batch.map flat) = .ok (w, rows) ∧
      ((j1j2Operator 1 4 4 (1 / 2) true).run history).findConn ((batch.map fun s p => s (shift 1 p.1, shift 2 p.2)).map flat) =
        .ok (w', rows') := by
  obtain ⟨w, rows, h, -⟩ := C107_hamiltonian 1 (.inl rfl) 4 4 (by decide) (by decide) (1 / 2) true (by decide) history batch hb hs
  obtain ⟨w', rows', h', -⟩ := C107_hamiltonian 1 (.inl rfl) 4 4 (by decide) (by decide) (1 / 2) true (by decide) history
    (batch.map fun s p => s (shift 1 p.1, shift 2 p.2)) (by simpa using hb)
    (by simp only [List.mem_map]; rintro _ ⟨s, hm, rfl⟩; exact fun p => hs s hm _)
  exact ⟨w, rows, w', rows', h, h'⟩

end

/-! ### Local energies of symmetric models -/

theorem specLocal_symm {ι : Type} {B : Nat} {H : Wave ι → Wave ι} {ψ : Wave ι} (T : Fin B → Config ι → Config ι)
    (hT : ∀ b, Commutes H (T b)) (hψ : ∀ b s, ψ (T b s) = ψ s) (sample : Fin B → Config ι) :
    specLocal H ψ (fun b => T b (sample b)) = specLocal H ψ sample := by
  unfold specLocal
  refine List.map_congr_left fun b _ => ?_
  rw [hψ b, hT b ψ (sample b), funext (hψ b)]

/-- **C131 (energies on chains, Ising).** A model that is invariant under symmetries of the chain gives the same mean, the
same variance and the same local energies, sample by sample, when each sample is replaced by an image of it under one of them. -/
theorem C131_energy_ising_chain {n B : Nat} (h j : ℝ) (pbc : Bool) (T : Fin B → Config (Fin n) → Config (Fin n))
    (hT : ∀ b, ChainSymmetry n pbc (T b)) (logψ : Config (Fin n) → ℂ) (hψ : ∀ b s, logψ (T b s) = logψ s)
    (sample : Fin B → Config (Fin n)) (hs : ∀ b, IsSpin (sample b)) :
    estimate logψ (Answer.ofRows (n + 1) (isingFindConn1 (.float h) j pbc fun b => T b (sample b))
        fun b => (C09_ising_chain (.float h) j pbc (fun b => T b (sample b)) b (chain_spin (hT b) _ (hs b))).count) =
      estimate logψ (Answer.ofRows (n + 1) (isingFindConn1 (.float h) j pbc sample)
        fun b => (C09_ising_chain (.float h) j pbc sample b (hs b)).count) := by
  unfold estimate
  rw [localValues_ofRows _ sample (fun b => C09_ising_chain (.float h) j pbc sample b (hs b)) (by omega) _ logψ
      fun b => C06_ising_chain h j pbc sample b _,
    localValues_ofRows _ (fun b => T b (sample b)) (fun b => C09_ising_chain (.float h) j pbc (fun b => T b (sample b)) b (chain_spin (hT b) _ (hs b)))
      (by omega) _ logψ fun b => C06_ising_chain h j pbc (fun b => T b (sample b)) b _,
    specLocal_symm T (fun b => commutes_chain _ (tfim_commutes_neg _ h j) (fun e he => tfim_commutes he h j) (hT b))
      (fun b s => by rw [hψ])]

/-- **C131 (energies on lattices, Ising).** -/
theorem C131_energy_ising_grid {n m B : Nat} (h j : ℝ) (pbc : Bool) (T : Fin B → Config (Fin n × Fin m) → Config (Fin n × Fin m))
    (hT : ∀ b, GridSymmetry n m pbc (T b)) (logψ : Config (Fin n × Fin m) → ℂ) (hψ : ∀ b s, logψ (T b s) = logψ s)
    (sample : Fin B → Config (Fin n × Fin m)) (hs : ∀ b, IsSpin (sample b)) :
    estimate logψ (Answer.ofRows (n * m + 1) (isingFindConn2 (.float h) j pbc fun b => T b (sample b))
        fun b => (C09_ising_grid (.float h) j pbc (fun b => T b (sample b)) b (grid_spin (hT b) _ (hs b))).count) =
      estimate logψ (Answer.ofRows (n * m + 1) (isingFindConn2 (.float h) j pbc sample)
        fun b => (C09_ising_grid (.float h) j pbc sample b (hs b)).count) := by
  unfold estimate
  rw [localValues_ofRows _ sample (fun b => C09_ising_grid (.float h) j pbc sample b (hs b)) (by omega) _ logψ
      fun b => C06_ising_grid h j pbc sample b _,
    localValues_ofRows _ (fun b => T b (sample b)) (fun b => C09_ising_grid (.float h) j pbc (fun b => T b (sample b)) b (grid_spin (hT b) _ (hs b)))
      (by omega) _ logψ fun b => C06_ising_grid h j pbc (fun b => T b (sample b)) b _,
    specLocal_symm T (fun b => commutes_grid _ (tfim_commutes_neg _ h j) (fun e he => tfim_commutes he h j) (hT b))
      (fun b s => by rw [hψ])]

/-- **C131 (energies on chains, Heisenberg).** -/
theorem C131_energy_heisenberg_chain {n : Nat} (rot pbc : Bool) (history history' : List (Call n 1)) (B : Nat)
    (T : Fin B → Config (Fin n) → Config (Fin n)) (hT : ∀ b, ChainSymmetry n pbc (T b)) (logψ : Config (Fin n) → ℂ)
    (hψ : ∀ b s, logψ (T b s) = logψ s) (sample : Fin B → Config (Fin n)) (hs : ∀ b, IsSpin (sample b)) :
    estimate logψ (Answer.ofRows (n + 1) (((HeisOp.new1 n rot pbc).run history').findConn1 B fun b => T b (sample b)).2
        fun b => (C09_heisenberg_chain rot pbc history' B (fun b => T b (sample b)) b (chain_spin (hT b) _ (hs b))).count) =
      estimate logψ (Answer.ofRows (n + 1) (((HeisOp.new1 n rot pbc).run history).findConn1 B sample).2
        fun b => (C09_heisenberg_chain rot pbc history B sample b (hs b)).count) := by
  unfold estimate
  rw [localValues_ofRows _ sample (fun b => C09_heisenberg_chain rot pbc history B sample b (hs b)) (by omega) _ logψ
      fun b => C07_heisenberg_chain rot pbc history B sample b (hs b) _,
    localValues_ofRows _ (fun b => T b (sample b))
      (fun b => C09_heisenberg_chain rot pbc history' B (fun b => T b (sample b)) b (chain_spin (hT b) _ (hs b))) (by omega) _ logψ
      fun b => C07_heisenberg_chain rot pbc history' B (fun b => T b (sample b)) b (chain_spin (hT b) _ (hs b)) _,
    specLocal_symm T (fun b => commutes_chain _ (heisenberg_commutes_neg _ _)
      (fun e he => heisenberg_commutes (bondSym_chain' he) _) (hT b)) (fun b s => by rw [hψ])]

/-- **C131 (energies on lattices, Heisenberg).** -/
theorem C131_energy_heisenberg_grid {n m : Nat} (rot pbc : Bool) (history history' : List (Call n m)) (B : Nat)
    (T : Fin B → Config (Fin n × Fin m) → Config (Fin n × Fin m)) (hT : ∀ b, GridSymmetry n m pbc (T b))
    (logψ : Config (Fin n × Fin m) → ℂ) (hψ : ∀ b s, logψ (T b s) = logψ s) (sample : Fin B → Config (Fin n × Fin m))
    (hs : ∀ b, IsSpin (sample b)) :
    estimate logψ (Answer.ofRows (n * m * 2 + 1) (((HeisOp.new2 n m rot pbc).run history').findConn B fun b => T b (sample b)).2
        fun b => (C09_heisenberg_grid rot pbc history' B (fun b => T b (sample b)) b (grid_spin (hT b) _ (hs b))).count) =
      estimate logψ (Answer.ofRows (n * m * 2 + 1) (((HeisOp.new2 n m rot pbc).run history).findConn B sample).2
        fun b => (C09_heisenberg_grid rot pbc history B sample b (hs b)).count) := by
  unfold estimate
  rw [localValues_ofRows _ sample (fun b => C09_heisenberg_grid rot pbc history B sample b (hs b)) (by omega) _ logψ
      fun b => C07_heisenberg_grid rot pbc history B sample b (hs b) _,
    localValues_ofRows _ (fun b => T b (sample b))
      (fun b => C09_heisenberg_grid rot pbc history' B (fun b => T b (sample b)) b (grid_spin (hT b) _ (hs b))) (by omega) _ logψ
      fun b => C07_heisenberg_grid rot pbc history' B (fun b => T b (sample b)) b (grid_spin (hT b) _ (hs b)) _,
    specLocal_symm T (fun b => commutes_grid _ (heisenberg_commutes_neg _ _) (fun e he => heisenberg_commutes he _) (hT b))
      (fun b s => by rw [hψ])]

/-- The evaluation model of the experiments is invariant under the spin flip and the mirror images and the transposition of
the square, whatever the base model. -/
example {n : Nat} (model : Config (Square n) → LogAmp) (s : Config (Fin n × Fin n)) :
    evaluationLog model (fun p => -s p) = evaluationLog model s ∧
      evaluationLog model (fun p => s (gridSym n true true false p)) = evaluationLog model s := by
  unfold evaluationLog
  constructor
  · rw [show onSquare (fun p => -s p) = fun p => -onSquare s p from rfl, evaluation_neg]
  · rw [onSquare_gridSym, evaluation_symmetry]

/-- Quarter turns are symmetries of squares. -/
example (n : Nat) (pbc : Bool) : GridSymmetry n n pbc fun s p => s (p.2, p.1.rev) :=
  (GridSymmetry.transpose rfl).comp .mirrorColumns

end Verif.Ensemble
