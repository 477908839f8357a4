import Verif.Symmetry.Dihedral
import Mathlib.Data.List.Perm.Lattice
import Mathlib.Data.ZMod.Defs

/-!
# C55, C57: the ensemble over translations of a periodic lattice

A site of a lattice with `D` axes of sizes `shape d` is `p : (d : Fin D) → Fin (shape d)`.
-/
namespace Verif.Ensemble

open Verif.Operators (Config IsSpin)

/-- A site of a lattice. -/
abbrev Lattice {D : Nat} (shape : Fin D → Nat) := (d : Fin D) → Fin (shape d)

/-- `itertools.product(*[range(dim_size) for dim_size in shape])` (ensemble.py line 59), in its order. -/
def productRange : {D : Nat} → (shape : Fin D → Nat) → List (Lattice shape)
  | 0, _ => [fun d => d.elim0]
  | _ + 1, shape => (List.finRange (shape 0)).flatMap fun a => (productRange fun d => shape d.succ).map fun p => Fin.cons a p

/-- Index from which `tensorflow.roll` by `t` on an axis of length `m` takes the value at `i`. -/
def rollIndex {m : Nat} (t i : Fin m) : Fin m := ⟨(i.val + (m - t.val)) % m, Nat.mod_lt _ (lt_of_le_of_lt (Nat.zero_le _) i.2)⟩

variable {D : Nat} {shape : Fin D → Nat}

/-- `Roll.call` (transition_invariants.py lines 15-16) with the default axes: all axes after the batch. -/
def roll (t : Lattice shape) (x : Config (Lattice shape)) : Config (Lattice shape) := fun p => x fun d => rollIndex (t d) (p d)

/-- `make_pbc_invariants` (ensemble.py lines 54-63) with `apply_also_obc_invariants=False`, on a batch. -/
noncomputable def pbcTranslations {B : Nat} (model : Config (Lattice shape) → LogAmp) (probabilistic : Bool)
    (x : Fin B → Config (Lattice shape)) (b : Fin B) : LogAmp :=
  buildSymmetrization ((productRange shape).map fun t b => roll t (x b)) model probabilistic b

/-- `make_pbc_invariants` with `apply_also_obc_invariants=True`, which requires a square lattice. -/
noncomputable def pbcInvariant {B n : Nat} (model : Config (Square n) → LogAmp) (probabilistic : Bool)
    (x : Fin B → Config (Square n)) (b : Fin B) : LogAmp :=
  pbcTranslations (shape := fun _ : Fin 2 => n) (obcInvariant model probabilistic) probabilistic x b

/-! ### Specification -/

/-- The configuration moved by `a` sites along each axis, periodically: the value at a site goes to the site whose
coordinates are larger by `a`, modulo the sizes. -/
def IsTranslation (a : Fin D → Nat) (x y : Config (Lattice shape)) : Prop :=
  ∀ p q : Lattice shape, (∀ d, (q d).val = ((p d).val + a d) % shape d) → y q = x p

/-! ### Proof -/

theorem mem_productRange : ∀ {D : Nat} {shape : Fin D → Nat} (p : Lattice shape), p ∈ productRange shape
  | 0, _, p => by
    rw [productRange, List.mem_singleton]
    funext d
    exact d.elim0
  | D + 1, shape, p => by
    rw [productRange, List.mem_flatMap]
    refine ⟨p 0, List.mem_finRange _, ?_⟩
    rw [List.mem_map]
    exact ⟨fun d => p d.succ, mem_productRange _, Fin.cons_self_tail p⟩

theorem nodup_productRange : ∀ {D : Nat} (shape : Fin D → Nat), (productRange shape).Nodup
  | 0, _ => List.nodup_singleton _
  | D + 1, shape => by
    rw [productRange, List.nodup_flatMap]
    refine ⟨fun a _ => (nodup_productRange _).map fun p q h => Fin.cons_right_injective (α := fun d => Fin (shape d)) a h, ?_⟩
    refine (List.nodup_finRange (shape 0)).imp ?_
    intro a b hab
    rw [Function.onFun, List.disjoint_left]
    intro p hp hq
    obtain ⟨r, _, rfl⟩ := List.mem_map.1 hp
    obtain ⟨r', _, h⟩ := List.mem_map.1 hq
    have := congrFun h 0
    rw [Fin.cons_zero, Fin.cons_zero] at this
    exact hab this.symm

/-- A rearrangement of all sites is a permutation of their list. -/
theorem productRange_perm (g h : Lattice shape → Lattice shape) (hgh : ∀ t, g (h t) = t) (hhg : ∀ t, h (g t) = t) :
    ((productRange shape).map g).Perm (productRange shape) := by
  have hinj : Function.Injective g := fun a b hab => by rw [← hhg a, ← hhg b, hab]
  rw [List.perm_ext_iff_of_nodup ((nodup_productRange shape).map hinj) (nodup_productRange shape)]
  intro t
  refine ⟨fun _ => mem_productRange t, fun _ => ?_⟩
  rw [List.mem_map]
  exact ⟨h t, mem_productRange _, hgh t⟩

theorem productRange_length_pos (h : ∀ d, 0 < shape d) : productRange shape ≠ [] :=
  List.ne_nil_of_mem (mem_productRange fun d => ⟨0, h d⟩)

/-- The coordinate `i + a` modulo `m`. -/
def shift {m : Nat} (a : Nat) (i : Fin m) : Fin m := ⟨(i.val + a) % m, Nat.mod_lt _ (lt_of_le_of_lt (Nat.zero_le _) i.2)⟩

/-- The coordinate `i - a` modulo `m`. -/
def unshift {m : Nat} (a : Nat) (i : Fin m) : Fin m := ⟨(i.val + (m - a % m)) % m, Nat.mod_lt _ (lt_of_le_of_lt (Nat.zero_le _) i.2)⟩

theorem mod_aux {m i a : Nat} (h : i < m) : ((i + a) % m + (m - a % m)) % m = i := by
  have hm : 0 < m := by omega
  have ha := Nat.mod_lt a hm
  rw [Nat.mod_add_mod, ← Nat.div_add_mod a m]
  have : i + (m * (a / m) + a % m) + (m - (m * (a / m) + a % m) % m) = i + m * (a / m + 1) := by
    rw [Nat.mul_add_mod, Nat.mod_mod, Nat.mul_add, Nat.mul_one]
    omega
  rw [this, Nat.add_mul_mod_self_left, Nat.mod_eq_of_lt h]

theorem mod_aux' {m i a : Nat} (h : i < m) : ((i + (m - a % m)) % m + a) % m = i := by
  have hm : 0 < m := by omega
  have ha := Nat.mod_lt a hm
  rw [Nat.mod_add_mod]
  have : i + (m - a % m) + a = i + m * (a / m + 1) := by
    have h := Nat.div_add_mod a m
    rw [Nat.mul_add, Nat.mul_one]
    omega
  rw [this, Nat.add_mul_mod_self_left, Nat.mod_eq_of_lt h]

theorem unshift_shift {m : Nat} (a : Nat) (i : Fin m) : unshift a (shift a i) = i := Fin.ext (mod_aux i.2)
theorem shift_unshift {m : Nat} (a : Nat) (i : Fin m) : shift a (unshift a i) = i := Fin.ext (mod_aux' i.2)

theorem rollIndex_unshift {m : Nat} (a : Nat) (t i : Fin m) : unshift a (rollIndex t i) = rollIndex (shift a t) i := by
  apply Fin.ext
  have hm : 0 < m := lt_of_le_of_lt (Nat.zero_le _) i.2
  show ((i.val + (m - t.val)) % m + (m - a % m)) % m = (i.val + (m - (t.val + a) % m)) % m
  have ht := t.2
  have ha := Nat.mod_lt a hm
  have : (t.val + a) % m = if t.val + a % m < m then t.val + a % m else t.val + a % m - m := by
    rw [← Nat.add_mod_mod]
    split
    · exact Nat.mod_eq_of_lt ‹_›
    · rw [Nat.mod_eq_sub_mod (by omega), Nat.mod_eq_of_lt (by omega)]
  rw [this, Nat.mod_add_mod]
  split
  · rw [show i.val + (m - t.val) + (m - a % m) = i.val + (m - (t.val + a % m)) + m by omega, Nat.add_mod_right]
  · rw [show i.val + (m - t.val) + (m - a % m) = i.val + (m - (t.val + a % m - m)) by omega]

theorem IsTranslation.eq {a : Fin D → Nat} {x y : Config (Lattice shape)} (h : IsTranslation a x y) :
    y = fun p => x fun d => unshift (a d) (p d) := by
  funext p
  exact h (fun d => unshift (a d) (p d)) p fun d => congrArg Fin.val (shift_unshift (a d) (p d)).symm

theorem roll_translation {a : Fin D → Nat} {x y : Config (Lattice shape)} (h : IsTranslation a x y) (t : Lattice shape) :
    roll t y = roll (fun d => shift (a d) (t d)) x := by
  rw [h.eq]
  funext p
  show x _ = x _
  congr 1
  funext d
  exact rollIndex_unshift (a d) (t d) (p d)

theorem pbcTranslations_eq {B : Nat} (model : Config (Lattice shape) → LogAmp) (p : Bool) (x : Fin B → Config (Lattice shape)) (b : Fin B) :
    pbcTranslations model p x b = ensembleOp p ((productRange shape).map fun t => model (roll t (x b))) := by
  unfold pbcTranslations
  rw [buildSymmetrization_eq, List.map_map]
  rfl

/-- **C55 (translations).** On a lattice with any number of axes of any sizes, a configuration and any of its translations
get the same value, for every base model, both kinds of ensemble, and whatever else is in the two batches. -/
theorem C55_translations {B B' : Nat} (model : Config (Lattice shape) → LogAmp) (p : Bool) (x : Fin B → Config (Lattice shape))
    (y : Fin B' → Config (Lattice shape)) (b : Fin B) (b' : Fin B') (a : Fin D → Nat) (h : IsTranslation a (x b) (y b')) :
    pbcTranslations model p y b' = pbcTranslations model p x b := by
  rw [pbcTranslations_eq, pbcTranslations_eq]
  simp only [roll_translation h]
  have := (productRange_perm (shape := shape) (fun t d => shift (a d) (t d)) (fun t d => unshift (a d) (t d))
    (fun t => funext fun d => shift_unshift _ _) (fun t => funext fun d => unshift_shift _ _)).map fun t => model (roll t (x b))
  rw [List.map_map] at this
  exact ensembleOp_perm p this

/-- The layer `Roll` itself translates. -/
theorem isTranslation_roll (t : Lattice shape) (x : Config (Lattice shape)) : IsTranslation (fun d => (t d).val) x (roll t x) := by
  intro p q h
  show x _ = x p
  congr 1
  funext d
  apply Fin.ext
  show ((q d).val + (shape d - (t d).val)) % shape d = (p d).val
  have := mod_aux (a := (t d).val) (p d).2
  rw [h d]
  rwa [Nat.mod_eq_of_lt (t d).2] at this

/-- The opposite coordinate: `-i` modulo `m`. -/
def negate {m : Nat} (i : Fin m) : Fin m := ⟨(m - i.val) % m, Nat.mod_lt _ (lt_of_le_of_lt (Nat.zero_le _) i.2)⟩

theorem negate_negate {m : Nat} (i : Fin m) : negate (negate i) = i := by
  apply Fin.ext
  show (m - (m - i.val) % m) % m = i.val
  have := i.2
  by_cases h : i.val = 0
  · rw [h]; simp
  · rw [Nat.mod_eq_of_lt (show m - i.val < m by omega), Nat.mod_eq_of_lt (by omega)]
    omega

theorem rev_rollIndex {m : Nat} (t i : Fin m) : Fin.rev (rollIndex t i) = rollIndex (negate t) (Fin.rev i) := by
  apply Fin.ext
  rw [Fin.val_rev]
  show m - ((i.val + (m - t.val)) % m + 1) = ((Fin.rev i).val + (m - (m - t.val) % m)) % m
  rw [Fin.val_rev]
  have hi := i.2
  have ht := t.2
  by_cases h : t.val = 0
  · rw [h, Nat.sub_zero, Nat.add_mod_right, Nat.mod_eq_of_lt hi, Nat.mod_self, Nat.sub_zero, Nat.add_mod_right,
      Nat.mod_eq_of_lt (by omega)]
  · rw [Nat.mod_eq_of_lt (show m - t.val < m by omega)]
    by_cases h' : i.val < t.val
    · rw [Nat.mod_eq_of_lt (by omega), show m - (i.val + 1) + (m - (m - t.val)) = (t.val - i.val - 1) + m by omega, Nat.add_mod_right,
        Nat.mod_eq_of_lt (by omega)]
      omega
    · rw [show i.val + (m - t.val) = (i.val - t.val) + m by omega, Nat.add_mod_right, Nat.mod_eq_of_lt (by omega),
        Nat.mod_eq_of_lt (by omega)]
      omega

/-- The translation that has the same effect after a symmetry as `t` has before it. -/
def conj {n : Nat} (swap f g : Bool) (t : Square n) : Square n :=
  let q : Square n := if swap then ![t 1, t 0] else t
  ![if f then negate (q 0) else q 0, if g then negate (q 1) else q 1]

theorem symmetry_roll {n : Nat} (swap f g : Bool) (t p : Square n) :
    symmetry swap f g (fun d => rollIndex (t d) (p d)) = fun d => rollIndex (conj swap f g t d) (symmetry swap f g p d) := by
  funext d
  cases swap <;> cases f <;> cases g <;> fin_cases d <;> simp [symmetry, conj, rev_rollIndex]

theorem conj_conj {n : Nat} (swap f g : Bool) (t : Square n) :
    conj swap f g (conj swap (if swap then g else f) (if swap then f else g) t) = t ∧
    conj swap (if swap then g else f) (if swap then f else g) (conj swap f g t) = t := by
  constructor <;>
  · funext d
    cases swap <;> cases f <;> cases g <;> fin_cases d <;> simp [conj, negate_negate]

/-- **C55 (translations, rotations and reflections).** With `apply_also_obc_invariants` on a square lattice, a configuration and
the configurations obtained from it by a translation followed by a rotation or reflection get the same value. -/
theorem C55_with_rotations {B B' n : Nat} (model : Config (Square n) → LogAmp) (p : Bool) (x : Fin B → Config (Square n))
    (y : Fin B' → Config (Square n)) (b : Fin B) (b' : Fin B') (a : Fin 2 → Nat) (swap f g : Bool) (z : Config (Square n))
    (h : IsTranslation (shape := fun _ => n) a (x b) z) (hy : y b' = fun i => z (symmetry swap f g i)) :
    pbcInvariant model p y b' = pbcInvariant model p x b := by
  have h1 := C55_translations (shape := fun _ : Fin 2 => n) (obcInvariant model p) p x (fun _ : Fin 1 => z) b 0 a h
  unfold pbcInvariant
  rw [← h1, pbcTranslations_eq, pbcTranslations_eq, hy]
  have h2 : ∀ t : Square n, obcInvariant model p (roll (shape := fun _ : Fin 2 => n) t fun i => z (symmetry swap f g i)) =
      obcInvariant model p (roll (shape := fun _ : Fin 2 => n) (conj swap f g t) z) := by
    intro t
    rw [← C54_invariant model p swap f g (roll (shape := fun _ : Fin 2 => n) (conj swap f g t) z)]
    congr 1
    funext i
    exact congrArg z (symmetry_roll swap f g t i)
  have h3 := (productRange_perm (shape := fun _ : Fin 2 => n) (conj swap f g) (conj swap (if swap then g else f) (if swap then f else g))
    (fun t => (conj_conj swap f g t).1) (fun t => (conj_conj swap f g t).2)).map
      fun t => obcInvariant model p (roll (shape := fun _ : Fin 2 => n) t z)
  rw [List.map_map] at h3
  rw [List.map_congr_left (g := (fun t => obcInvariant model p (roll (shape := fun _ : Fin 2 => n) t z)) ∘ conj swap f g) fun t _ => h2 t]
  exact ensembleOp_perm p h3

/-- A configuration and a translation of it that differs from it. -/
example : ∃ (x y : Config (Lattice (D := 1) fun _ => 3)), IsTranslation (fun _ => 4) x y ∧ x ≠ y := by
  refine ⟨fun p => (p 0).val, roll (fun _ => 1) fun p => (p 0).val, ?_, ?_⟩
  · intro p q h
    have := isTranslation_roll (shape := fun _ : Fin 1 => 3) (fun _ => 1) (fun p => (p 0).val) p q
    apply this
    intro d
    rw [h d]
    show ((p d).val + 4) % 3 = ((p d).val + 1) % 3
    omega
  · intro h
    have := congrFun h fun _ => 0
    revert this
    decide

theorem rollIndex_inverse {m : Nat} (t i : Fin m) : rollIndex t (rollIndex (negate t) i) = i ∧ rollIndex (negate t) (rollIndex t i) = i := by
  have key : ∀ t i : Fin m, rollIndex t (rollIndex (negate t) i) = i := by
    intro t i
    apply Fin.ext
    show ((i.val + (m - (m - t.val) % m)) % m + (m - t.val)) % m = i.val
    rw [Nat.mod_add_mod]
    have := i.2
    have := t.2
    by_cases h : t.val = 0
    · rw [h, Nat.sub_zero, Nat.mod_self, Nat.sub_zero, Nat.add_mod_right, Nat.add_mod_right, Nat.mod_eq_of_lt i.2]
    · rw [Nat.mod_eq_of_lt (show m - t.val < m by omega), show i.val + (m - (m - t.val)) + (m - t.val) = i.val + m by omega,
        Nat.add_mod_right, Nat.mod_eq_of_lt i.2]
  refine ⟨key t i, ?_⟩
  have := key (negate t) i
  rwa [negate_negate] at this

/-- **C57 (translations).** -/
theorem C57_translations (hpos : ∀ d, 0 < shape d) (model : Config (Lattice shape) → LogAmp) (h : Normalized model) :
    (∀ s, ‖(pbcTranslations model true (fun _ : Fin 1 => s) 0).exp‖ ^ 2 =
      ((productRange shape).map fun t => ‖(model (roll t s)).exp‖ ^ 2).sum / (productRange shape).length) ∧
    Normalized fun s => pbcTranslations model true (fun _ : Fin 1 => s) 0 := by
  refine ⟨fun s => ?_, ?_⟩
  · rw [pbcTranslations_eq, probabilistic_prob (by simpa using productRange_length_pos hpos), List.map_map, List.length_map]
    rfl
  · have heq : ∀ s, pbcTranslations model true (fun _ : Fin 1 => s) 0 =
        ensembleOp true (((productRange shape).map fun t s => model (roll t s)).map fun f => f s) := by
      intro s
      rw [pbcTranslations_eq, List.map_map]
      rfl
    simp only [heq]
    apply normalized_of_members (by simpa using productRange_length_pos hpos)
    intro f hf
    obtain ⟨t, _, rfl⟩ := List.mem_map.1 hf
    refine normalized_comp h (roll t) (roll fun d => negate (t d)) (fun s hs p => hs _) (fun s hs p => hs _) ?_ ?_
    · intro s; funext p; exact congrArg s (funext fun d => (rollIndex_inverse (t d) (p d)).2)
    · intro s; funext p; exact congrArg s (funext fun d => (rollIndex_inverse (t d) (p d)).1)

/-- **C57 (all symmetries of a periodic square).** -/
theorem C57_with_rotations {n : Nat} (hn : 0 < n) (model : Config (Square n) → LogAmp) (h : Normalized model) :
    (∀ s, ‖(pbcInvariant model true (fun _ : Fin 1 => s) 0).exp‖ ^ 2 =
      ((productRange fun _ : Fin 2 => n).map fun t =>
        ((obcInputs (roll (shape := fun _ : Fin 2 => n) t s)).map fun y => ‖(model y).exp‖ ^ 2).sum).sum / (8 * n ^ 2)) ∧
    Normalized fun s => pbcInvariant model true (fun _ : Fin 1 => s) 0 := by
  have hd := C57_dihedral model h
  have ht := C57_translations (shape := fun _ : Fin 2 => n) (fun _ => hn) (obcInvariant model true) hd.2
  refine ⟨fun s => (ht.1 s).trans ?_, ht.2⟩
  simp only [hd.1]
  have hlen : ((productRange fun _ : Fin 2 => n).length : ℝ) = n ^ 2 := by
    have h1 : (productRange fun _ : Fin 2 => n).toFinset = Finset.univ :=
      Finset.eq_univ_of_forall fun p => List.mem_toFinset.2 (mem_productRange p)
    rw [← List.toFinset_card_of_nodup (nodup_productRange _), h1, Finset.card_univ, Fintype.card_pi]
    simp
  rw [hlen]
  have hsum : ∀ (l : List (Lattice fun _ : Fin 2 => n)) (f : (Lattice fun _ : Fin 2 => n) → ℝ), (l.map fun t => f t / 8).sum = (l.map f).sum / 8 := by
    intro l f
    induction l with
    | nil => simp
    | cons t l ih => rw [List.map_cons, List.sum_cons, ih, List.map_cons, List.sum_cons, add_div]
  rw [hsum, div_div]

/-- A normalised model: all configurations of a two by two square have probability `1/16`. -/
example : Normalized fun _ : Config (Square 2) => (⟨some (-(Real.log 16) / 2), 0⟩ : LogAmp) := by
  unfold Normalized
  have h1 : ‖(⟨some (-(Real.log 16) / 2), 0⟩ : LogAmp).exp‖ ^ 2 = 1 / 16 := by
    rw [norm_exp, ← expReal_double]
    show Real.exp (-(Real.log 16) / 2 * 2) = 1 / 16
    rw [div_mul_cancel₀ _ (by norm_num), Real.exp_neg, Real.exp_log (by norm_num), one_div]
  simp only [h1]
  rw [Finset.sum_const]
  have h2 : (Verif.Energy.allSpins (Square 2)).card = 16 := by
    unfold Verif.Energy.allSpins
    rw [Fintype.card_piFinset]
    simp
  rw [h2]
  norm_num

end Verif.Ensemble
