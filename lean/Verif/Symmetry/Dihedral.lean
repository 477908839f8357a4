import Verif.Symmetry.Ensemble
import Mathlib.Data.Fin.VecNotation
import Mathlib.Tactic.FinCases

/-!
# C54, C57: the ensemble over rotations and reflections of a square lattice

A site of the `n` by `n` lattice is a pair of coordinates `p : Fin 2 → Fin n` (row, column).
-/
namespace Verif.Ensemble

open Verif.Operators (Config IsSpin)

/-- A site of the square lattice. -/
abbrev Square (n : Nat) := Fin 2 → Fin n

variable {n : Nat}

/-- `tensorflow.reverse` along the row axis, used by `tensorflow.image.rot90` (dihedral_4_invariants.py line 14). -/
def reverseRows (x : Config (Square n)) : Config (Square n) := fun p => x ![Fin.rev (p 0), p 1]
/-- `tensorflow.reverse` along the column axis (`tensorflow.image.rot90` and `flip_left_right`,
dihedral_4_invariants.py lines 14 and 28). -/
def reverseColumns (x : Config (Square n)) : Config (Square n) := fun p => x ![p 0, Fin.rev (p 1)]
/-- The transposition of the two axes, used by `tensorflow.image.rot90` (dihedral_4_invariants.py line 14). -/
def transpose (x : Config (Square n)) : Config (Square n) := fun p => x ![p 1, p 0]

/-- `Rot90.call` (dihedral_4_invariants.py lines 7-15) on a square: `tensorflow.image.rot90` transposes the image
reversed along columns for one turn, reverses both axes for two, and reverses the columns of the transposed image
for three; `k` is taken modulo four. -/
def rot90 (k : Nat) (x : Config (Square n)) : Config (Square n) :=
  match k % 4 with
  | 0 => x
  | 1 => transpose (reverseColumns x)
  | 2 => reverseRows (reverseColumns x)
  | _ => reverseColumns (transpose x)

/-- `FlipLeftRight.call` (dihedral_4_invariants.py lines 23-29). -/
def flipLeftRight (x : Config (Square n)) : Config (Square n) := reverseColumns x

/-- The members of the ensemble (ensemble.py lines 44-48). -/
def obcInputs (x : Config (Square n)) : List (Config (Square n)) :=
  let inputs := [x, rot90 1 x, rot90 2 x, rot90 3 x]
  inputs ++ inputs.map flipLeftRight

/-- `make_2d_obc_invariants` (ensemble.py lines 43-51) on one row of a batch. The model must accept the rotated
inputs, which have the same shape on a square lattice only. -/
noncomputable def obcInvariant (model : Config (Square n) → LogAmp) (probabilistic : Bool) (x : Config (Square n)) : LogAmp :=
  buildEnsemble ((obcInputs x).map model) probabilistic

/-! ### Specification -/

/-- A symmetry of the square: it maps the two coordinates to themselves or to each other, each possibly counted from
the other end. -/
def symmetry (swap a b : Bool) (p : Square n) : Square n :=
  let q : Square n := if swap then ![p 1, p 0] else p
  ![if a then Fin.rev (q 0) else q 0, if b then Fin.rev (q 1) else q 1]

/-! ### Proof -/

/-- Composition of symmetries. -/
def compose (σ τ : Bool × Bool × Bool) : Bool × Bool × Bool :=
  (σ.1 != τ.1, (if σ.1 then τ.2.2 else τ.2.1) != σ.2.1, (if σ.1 then τ.2.1 else τ.2.2) != σ.2.2)

/-- The symmetries in the order of the ensemble. -/
def members : List (Bool × Bool × Bool) :=
  [(false, false, false), (true, false, true), (false, true, true), (true, true, false),
   (false, false, true), (true, true, true), (false, true, false), (true, false, false)]

/-- `symmetry` with its three switches as a triple (specification). -/
def sym (σ : Bool × Bool × Bool) (p : Square n) : Square n := symmetry σ.1 σ.2.1 σ.2.2 p

theorem sym_compose (σ τ : Bool × Bool × Bool) (p : Square n) : sym σ (sym τ p) = sym (compose σ τ) p := by
  obtain ⟨s, a, b⟩ := σ
  obtain ⟨s', a', b'⟩ := τ
  funext d
  cases s <;> cases a <;> cases b <;> cases s' <;> cases a' <;> cases b' <;>
    fin_cases d <;> simp [sym, symmetry, compose]

theorem obcInputs_eq (x : Config (Square n)) : obcInputs x = members.map fun σ p => x (sym σ p) := by
  unfold obcInputs members
  simp only [List.map_cons, List.map_nil, List.cons_append, List.nil_append]
  refine congrArg₂ List.cons ?_ (congrArg₂ List.cons ?_ (congrArg₂ List.cons ?_ (congrArg₂ List.cons ?_ (congrArg₂ List.cons ?_
    (congrArg₂ List.cons ?_ (congrArg₂ List.cons ?_ (congrArg₂ List.cons ?_ rfl))))))) <;>
  · funext p
    refine congrArg x ?_
    funext d
    fin_cases d <;> simp [sym, symmetry]

theorem members_perm (τ : Bool × Bool × Bool) : (members.map fun σ => compose τ σ).Perm members := by
  revert τ
  decide

/-- The ensemble contains the same configurations, in another order, after a symmetry. -/
theorem obcInputs_perm (swap a b : Bool) (x : Config (Square n)) : (obcInputs fun p => x (symmetry swap a b p)).Perm (obcInputs x) := by
  rw [obcInputs_eq, obcInputs_eq]
  have : (members.map fun σ p => x (symmetry swap a b (sym σ p))) =
      (members.map fun σ => compose (swap, a, b) σ).map fun σ p => x (sym σ p) := by
    rw [List.map_map]
    refine List.map_congr_left fun σ _ => ?_
    funext p
    exact congrArg x (sym_compose (swap, a, b) σ p)
  rw [this]
  exact (members_perm (swap, a, b)).map _

/-- **C54.** A configuration on a square of any size and its image under each of the eight symmetries of the square get
the same value, for every base model and both kinds of ensemble. -/
theorem C54_invariant (model : Config (Square n) → LogAmp) (p : Bool) (swap a b : Bool) (x : Config (Square n)) :
    obcInvariant model p (fun i => x (symmetry swap a b i)) = obcInvariant model p x :=
  ensembleOp_perm p ((obcInputs_perm swap a b x).map model)

/-- **C54 (the library's own layers).** In particular rotations by any number of quarter turns and mirror images. -/
theorem C54_layers (model : Config (Square n) → LogAmp) (p : Bool) (k : Nat) (x : Config (Square n)) :
    obcInvariant model p (rot90 k x) = obcInvariant model p x ∧ obcInvariant model p (flipLeftRight x) = obcInvariant model p x := by
  have hmem : ∀ y ∈ obcInputs x, obcInvariant model p y = obcInvariant model p x := by
    intro y hy
    rw [obcInputs_eq, List.mem_map] at hy
    obtain ⟨σ, _, rfl⟩ := hy
    exact C54_invariant model p σ.1 σ.2.1 σ.2.2 x
  refine ⟨?_, hmem _ (by simp [obcInputs])⟩
  have : rot90 k x = x ∨ rot90 k x = rot90 1 x ∨ rot90 k x = rot90 2 x ∨ rot90 k x = rot90 3 x := by
    unfold rot90
    have h : k % 4 = 0 ∨ k % 4 = 1 ∨ k % 4 = 2 ∨ k % 4 = 3 := by omega
    rcases h with h | h | h | h <;> simp [h]
  rcases this with h | h | h | h <;> rw [h]
  · exact hmem _ (by simp [obcInputs])
  · exact hmem _ (by simp [obcInputs])
  · exact hmem _ (by simp [obcInputs])

/-- Rotating four times, or mirroring twice, does nothing, and a quarter turn moves the corner as expected. -/
example (x : Config (Square 3)) : rot90 1 x ![0, 0] = x ![0, 2] ∧ rot90 3 (rot90 1 x) = x := by
  refine ⟨rfl, ?_⟩
  funext p
  show x _ = x p
  congr 1
  funext d
  fin_cases d <;> simp

theorem sym_inverse (σ : Bool × Bool × Bool) : ∃ τ, ∀ p : Square n, sym σ (sym τ p) = p ∧ sym τ (sym σ p) = p := by
  have : ∃ τ, compose σ τ = (false, false, false) ∧ compose τ σ = (false, false, false) := by
    revert σ
    decide
  obtain ⟨τ, h1, h2⟩ := this
  have hid : ∀ p : Square n, sym (false, false, false) p = p := by
    intro p
    funext d
    fin_cases d <;> simp [sym, symmetry]
  exact ⟨τ, fun p => ⟨by rw [sym_compose, h1, hid], by rw [sym_compose, h2, hid]⟩⟩

/-- **C57 (rotations and reflections).** -/
theorem C57_dihedral (model : Config (Square n) → LogAmp) (h : Normalized model) :
    (∀ s, ‖(obcInvariant model true s).exp‖ ^ 2 = ((obcInputs s).map fun y => ‖(model y).exp‖ ^ 2).sum / 8) ∧
    Normalized fun s => obcInvariant model true s := by
  refine ⟨fun s => ?_, ?_⟩
  · unfold obcInvariant buildEnsemble
    rw [probabilistic_prob (by simp [obcInputs]), List.map_map, List.length_map]
    simp [obcInputs]
  · have heq : ∀ s, obcInvariant model true s =
        ensembleOp true ((members.map fun σ s => model fun p => s (sym σ p)).map fun f => f s) := by
      intro s
      unfold obcInvariant buildEnsemble
      rw [obcInputs_eq, List.map_map, List.map_map]
      rfl
    simp only [heq]
    apply normalized_of_members (by simp [members])
    intro f hf
    obtain ⟨σ, _, rfl⟩ := List.mem_map.1 hf
    obtain ⟨τ, hτ⟩ := sym_inverse (n := n) σ
    refine normalized_comp h (fun s p => s (sym σ p)) (fun s p => s (sym τ p)) (fun s hs p => hs _) (fun s hs p => hs _) ?_ ?_
    · intro s; funext p; exact congrArg s (hτ p).2
    · intro s; funext p; exact congrArg s (hτ p).1

end Verif.Ensemble
