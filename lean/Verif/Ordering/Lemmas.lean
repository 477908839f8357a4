import Verif.Ordering.Model
import Mathlib.Tactic.Ring
import Mathlib.Tactic.Linarith
import Mathlib.Data.List.Nodup
import Mathlib.Data.List.Perm.Basic
import Mathlib.Data.Finset.Card
import Mathlib.Data.Fintype.Prod
import Mathlib.Data.Int.Interval
import Mathlib.Order.Interval.Finset.Nat
import Mathlib.Algebra.BigOperators.Group.List.Basic

namespace Verif.Ordering

/-! ### Raster -/

theorem range_mul (n p : Nat) :
    List.range (n * p) = (List.range n).flatMap fun i => (List.range p).map fun j => i * p + j := by
  induction n with
  | zero => simp
  | succ n ih =>
    rw [Nat.succ_mul, List.range_add, ih, List.range_succ, List.flatMap_append]
    simp

/-- Row-major position of a multi-index. -/
def rowMajor : List Nat → List Nat → Nat
  | n :: ns, i :: is => i * ns.prod + rowMajor ns is
  | _, _ => 0

theorem flat_foldl (shape idx : List Nat) : ∀ c, idx.length = shape.length →
    (idx.zip shape).foldl flatStep c = c * shape.prod + rowMajor shape idx := by
  induction shape generalizing idx with
  | nil => intro c h; simp at h; subst h; simp [rowMajor]
  | cons n ns ih =>
    intro c h
    match idx, h with
    | i :: is, h =>
      simp only [List.length_cons, Nat.add_right_cancel_iff] at h
      simp only [List.zip_cons_cons, List.foldl_cons, ih is _ h, flatStep, rowMajor, List.prod_cons]
      ring

theorem flatIndex_eq (shape idx : List Nat) (h : idx.length = shape.length) :
    flatIndex shape idx = rowMajor shape idx := by
  rw [flatIndex, flat_foldl shape idx 0 h]; ring

theorem mem_raster (shape idx : List Nat) :
    idx ∈ raster shape ↔ List.Forall₂ (· < ·) idx shape := by
  induction shape generalizing idx with
  | nil => simp [raster]
  | cons n ns ih =>
    simp only [raster, List.mem_flatMap, List.mem_range, List.mem_map]
    constructor
    · rintro ⟨i, hi, t, ht, rfl⟩
      exact List.Forall₂.cons hi ((ih t).mp ht)
    · intro h
      cases h with
      | cons hi ht => exact ⟨_, hi, _, (ih _).mpr ht, rfl⟩

theorem raster_map_rowMajor (shape : List Nat) :
    (raster shape).map (rowMajor shape) = List.range shape.prod := by
  induction shape with
  | nil => simp [raster, rowMajor]
  | cons n ns ih =>
    rw [raster, List.prod_cons, range_mul, List.map_flatMap]
    congr 1
    funext i
    rw [List.map_map, ← ih, List.map_map]
    rfl

theorem raster_map_flatIndex (shape : List Nat) :
    (raster shape).map (flatIndex shape) = List.range shape.prod := by
  rw [← raster_map_rowMajor]
  apply List.map_congr_left
  intro idx h
  exact flatIndex_eq _ _ ((mem_raster shape idx).mp h).length_eq

theorem length_raster (shape : List Nat) : (raster shape).length = shape.prod := by
  have := congrArg List.length (raster_map_flatIndex shape)
  simpa using this

theorem raster_nodup (shape : List Nat) : (raster shape).Nodup := by
  apply List.Nodup.of_map (flatIndex shape)
  rw [raster_map_flatIndex]
  exact List.nodup_range

theorem raster_sorted (shape : List Nat) : (raster shape).Pairwise (· < ·) := by
  induction shape with
  | nil => simp [raster]
  | cons n ns ih =>
    rw [raster, List.pairwise_flatMap]
    constructor
    · intro i _
      rw [List.pairwise_map]
      exact ih.imp (fun h => List.Lex.cons h)
    · apply List.pairwise_lt_range.imp
      intro a b hab x hx y hy
      obtain ⟨s, _, rfl⟩ := List.mem_map.mp hx
      obtain ⟨t, _, rfl⟩ := List.mem_map.mp hy
      exact List.Lex.rel hab

/-! ### Gather along a permutation -/

theorem gather_eq_some {α : Type} (x : List α) (idx : List Nat) (h : ∀ i ∈ idx, i < x.length) :
    ∃ y, gather x idx = some y ∧ y.length = idx.length ∧
      ∀ k (hk : k < idx.length), y[k]? = x[idx[k]]? := by
  induction idx with
  | nil => exact ⟨[], rfl, rfl, by simp⟩
  | cons i is ih =>
    obtain ⟨y, h1, h2, h3⟩ := ih (fun j hj => h j (by simp [hj]))
    have hi : i < x.length := h i (by simp)
    refine ⟨x[i] :: y, ?_, by simp [h2], ?_⟩
    · unfold gather at h1 ⊢
      rw [List.mapM_cons, h1, List.getElem?_eq_getElem hi]
      rfl
    · intro k hk
      cases k with
      | zero => simp [hi]
      | succ k => simpa using h3 k (by simpa using hk)

theorem inverseLoop_spec (ps : List Nat) : ∀ (i : Nat) (inv : List Nat), ps.Nodup →
    (∀ p ∈ ps, p < inv.length) →
    ∃ r, inverseLoop ps i inv = some r ∧ r.length = inv.length ∧
      (∀ k (hk : k < ps.length), r[ps[k]]? = some (i + k)) ∧
      (∀ q, q ∉ ps → r[q]? = inv[q]?) := by
  induction ps with
  | nil => intro i inv _ _; exact ⟨inv, rfl, rfl, by simp, by simp⟩
  | cons p ps ih =>
    intro i inv hn hb
    have hp : p < inv.length := hb p (by simp)
    obtain ⟨hpn, hn'⟩ := List.nodup_cons.mp hn
    obtain ⟨r, h1, h2, h3, h4⟩ := ih (i + 1) (inv.set p i) hn'
      (fun q hq => by rw [List.length_set]; exact hb q (by simp [hq]))
    refine ⟨r, ?_, ?_, ?_, ?_⟩
    · rw [inverseLoop, if_pos hp, h1]
    · rw [h2, List.length_set]
    · intro k hk
      cases k with
      | zero => simp [h4 p hpn, hp]
      | succ k =>
        have := h3 k (by simpa using hk)
        simp only [List.getElem_cons_succ, this]
        congr 1; omega
    · intro q hq
      rw [List.mem_cons, not_or] at hq
      rw [h4 q hq.2, List.getElem?_set_ne (Ne.symm hq.1)]

theorem mem_of_nodup_bounded (f : List Nat) (N : Nat) (hn : f.Nodup) (hl : f.length = N)
    (hb : ∀ p ∈ f, p < N) (q : Nat) (hq : q < N) : q ∈ f := by
  have hsub : f.toFinset ⊆ Finset.range N := by
    intro p hp; simp at hp ⊢; exact hb p hp
  have hcard : f.toFinset.card = N := by rw [List.toFinset_card_of_nodup hn, hl]
  have := Finset.eq_of_subset_of_card_le hsub (by simp [hcard])
  have hm : q ∈ f.toFinset := by rw [this]; simpa using hq
  simpa using hm

/-! ### Zigzag -/

/-- Inside the grid. -/
def InGrid (n : Int) (c : Int × Int) : Prop := 0 ≤ c.1 ∧ c.1 < n ∧ 0 ≤ c.2 ∧ c.2 < n

/-- Strict order of the zigzag path: by anti-diagonal, inside it by row (odd) or column (even). -/
def zlt (a b : Int × Int) : Prop :=
  a.1 + a.2 < b.1 + b.2 ∨ (a.1 + a.2 = b.1 + b.2 ∧
    (((a.1 + a.2) % 2 = 1 ∧ a.1 < b.1) ∨ ((a.1 + a.2) % 2 = 0 ∧ a.2 < b.2)))

/-- Consistency of last move and last cell. -/
def ZInv (n : Int) (m : Move) (c : Int × Int) : Prop :=
  InGrid n c ∧
  match m with
  | .right => (c.1 = 0 ∧ (c.1 + c.2) % 2 = 1) ∨ (c.1 = n - 1 ∧ (c.1 + c.2) % 2 = 0)
  | .down => (c.2 = 0 ∧ (c.1 + c.2) % 2 = 0) ∨ (c.2 = n - 1 ∧ (c.1 + c.2) % 2 = 1)
  | .downLeft => (c.1 + c.2) % 2 = 1
  | .upRight => (c.1 + c.2) % 2 = 0

/-- The move chosen, by parity of the diagonal. -/
theorem nextMove_eq (n : Int) (hn : 2 ≤ n) (m : Move) (y x : Int) (h : ZInv n m (y, x)) :
    nextMove n m (y, x) =
      if (y + x) % 2 = 1 then
        (if ¬ (y + 1 < n) then .right else if 0 < x then .downLeft else .down)
      else
        (if ¬ (x + 1 < n) then .down else if 0 < y then .upRight else .right) := by
  obtain ⟨⟨h1, h2, h3, h4⟩, hm⟩ := h
  simp only at h1 h2 h3 h4
  by_cases hp : (y + x) % 2 = 1
  · have hmove : ¬ (y + x) % 2 = 0 := by omega
    rw [if_pos hp]
    cases m with
    | right =>
      simp only [hp, hmove, and_true, and_false, or_false] at hm
      have : y + 1 < n := by omega
      by_cases hx : 0 < x <;> simp [nextMove, this, hx]
    | down =>
      simp only [hp, hmove, and_true, and_false, false_or] at hm
      have : ¬ x + 1 < n := by omega
      have hx : 0 < x := by omega
      by_cases hy : y + 1 < n <;> simp [nextMove, this, hx, hy]
    | downLeft =>
      by_cases hy : y + 1 < n <;> by_cases hx : 0 < x <;> simp [nextMove, hx, hy]
    | upRight => exact absurd hm hmove
  · have hmove : (y + x) % 2 = 0 := by omega
    rw [if_neg hp]
    cases m with
    | right =>
      simp only [hp, hmove, and_true, and_false, false_or] at hm
      have : ¬ y + 1 < n := by omega
      have hy : 0 < y := by omega
      by_cases hx : x + 1 < n <;> simp [nextMove, this, hx, hy]
    | down =>
      simp only [hp, hmove, and_true, and_false, or_false] at hm
      have : x + 1 < n := by omega
      by_cases hy : 0 < y <;> simp [nextMove, this, hy]
    | downLeft => exact absurd hm hp
    | upRight =>
      by_cases hx : x + 1 < n <;> by_cases hy : 0 < y <;> simp [nextMove, hx, hy]

/-- One step of the loop: the new cell is in the grid, consistent, touching, and is the immediate
successor in the zigzag order. -/
theorem zstep (n : Int) (hn : 2 ≤ n) (m : Move) (c : Int × Int) (h : ZInv n m c)
    (hlast : c ≠ (n - 1, n - 1)) :
    let m' := nextMove n m c
    let c' := m'.apply c
    ZInv n m' c' ∧ (∀ a, InGrid n a → (zlt a c' ↔ zlt a c ∨ a = c)) ∧
      (|c'.1 - c.1| ≤ 1 ∧ |c'.2 - c.2| ≤ 1) := by
  obtain ⟨y, x⟩ := c
  have hl : ¬ (y = n - 1 ∧ x = n - 1) := fun hh => hlast (by rw [hh.1, hh.2])
  simp only [nextMove_eq n hn m y x h]
  obtain ⟨⟨h1, h2, h3, h4⟩, -⟩ := h
  simp only at h1 h2 h3 h4
  split
  · split
    · refine ⟨⟨⟨?_, ?_, ?_, ?_⟩, ?_⟩, ?_, ?_, ?_⟩ <;> simp only [Move.apply, abs_le] <;>
        first | omega | (rintro ⟨a, b⟩ ⟨_, _, _, _⟩; simp only [zlt, Prod.mk.injEq] at *; omega)
    · split
      · refine ⟨⟨⟨?_, ?_, ?_, ?_⟩, ?_⟩, ?_, ?_, ?_⟩ <;> simp only [Move.apply, abs_le] <;>
          first | omega | (rintro ⟨a, b⟩ ⟨_, _, _, _⟩; simp only [zlt, Prod.mk.injEq] at *; omega)
      · refine ⟨⟨⟨?_, ?_, ?_, ?_⟩, ?_⟩, ?_, ?_, ?_⟩ <;> simp only [Move.apply, abs_le] <;>
          first | omega | (rintro ⟨a, b⟩ ⟨_, _, _, _⟩; simp only [zlt, Prod.mk.injEq] at *; omega)
  · split
    · refine ⟨⟨⟨?_, ?_, ?_, ?_⟩, ?_⟩, ?_, ?_, ?_⟩ <;> simp only [Move.apply, abs_le] <;>
        first | omega | (rintro ⟨a, b⟩ ⟨_, _, _, _⟩; simp only [zlt, Prod.mk.injEq] at *; omega)
    · split
      · refine ⟨⟨⟨?_, ?_, ?_, ?_⟩, ?_⟩, ?_, ?_, ?_⟩ <;> simp only [Move.apply, abs_le] <;>
          first | omega | (rintro ⟨a, b⟩ ⟨_, _, _, _⟩; simp only [zlt, Prod.mk.injEq] at *; omega)
      · refine ⟨⟨⟨?_, ?_, ?_, ?_⟩, ?_⟩, ?_, ?_, ?_⟩ <;> simp only [Move.apply, abs_le] <;>
          first | omega | (rintro ⟨a, b⟩ ⟨_, _, _, _⟩; simp only [zlt, Prod.mk.injEq] at *; omega)

theorem zlt_irrefl (a : Int × Int) : ¬ zlt a a := by unfold zlt; omega

/-- The cells of the grid as a finite set. -/
def gridFinset (n : Int) : Finset (Int × Int) := Finset.Ico 0 n ×ˢ Finset.Ico 0 n

theorem mem_gridFinset (n : Int) (a : Int × Int) : a ∈ gridFinset n ↔ InGrid n a := by
  simp [gridFinset, InGrid, and_assoc]

theorem card_gridFinset (n : Nat) : (gridFinset n).card = n * n := by
  simp [gridFinset, Finset.card_product]

/-- The last cell is above all others. -/
theorem zlt_last (n : Int) (a : Int × Int) (h : InGrid n a) :
    zlt a (n - 1, n - 1) ∨ a = (n - 1, n - 1) := by
  obtain ⟨y, x⟩ := a
  obtain ⟨h1, h2, h3, h4⟩ := h
  simp only [zlt, Prod.mk.injEq] at *
  omega

/-- Visited cells: nothing twice, inside the grid, exactly the cells up to the current one. -/
structure Visited (n : Int) (seen : List (Int × Int)) (c : Int × Int) : Prop where
  nodup : seen.Nodup
  mem : ∀ a, a ∈ seen ↔ InGrid n a ∧ (zlt a c ∨ a = c)

theorem zigzagLoop_spec (n : Nat) (hn : 2 ≤ n) : ∀ (k : Nat) (m : Move) (c : Int × Int)
    (seen : List (Int × Int)), ZInv n m c → Visited n seen c → seen.length + k = n * n →
    (seen ++ zigzagLoop n k m c).Nodup ∧
    (∀ a ∈ zigzagLoop n k m c, InGrid n a) ∧
    List.IsChain (fun a b => |b.1 - a.1| ≤ 1 ∧ |b.2 - a.2| ≤ 1) (c :: zigzagLoop n k m c) ∧
    (c :: zigzagLoop n k m c).Pairwise zlt := by
  intro k
  induction k with
  | zero => intro m c seen _ hv _; simp [zigzagLoop, hv.nodup]
  | succ k ih =>
    intro m c seen hz hv hl
    have hlast : c ≠ ((n : Int) - 1, (n : Int) - 1) := by
      intro hc
      have hsub : gridFinset n ⊆ seen.toFinset := by
        intro a ha
        rw [mem_gridFinset] at ha
        rw [List.mem_toFinset, hv.mem, hc]
        exact ⟨ha, zlt_last n a ha⟩
      have h1 := Finset.card_le_card hsub
      rw [card_gridFinset, List.toFinset_card_of_nodup hv.nodup] at h1
      omega
    obtain ⟨hz', hsucc, hadj⟩ := zstep n (by omega) m c hz hlast
    have hnot : ((nextMove n m c).apply c) ∉ seen := by
      intro hmem
      obtain ⟨hg, hh⟩ := (hv.mem _).mp hmem
      exact zlt_irrefl _ ((hsucc _ hg).mpr hh)
    have hcl : zlt c ((nextMove n m c).apply c) := (hsucc c hz.1).mpr (Or.inr rfl)
    have hv' : Visited n (seen ++ [(nextMove n m c).apply c]) ((nextMove n m c).apply c) := by
      constructor
      · rw [List.nodup_append]
        refine ⟨hv.nodup, by simp, ?_⟩
        intro a ha b hb hab
        rw [List.mem_singleton] at hb
        exact hnot (by rw [← hb, ← hab]; exact ha)
      · intro a
        rw [List.mem_append, hv.mem, List.mem_singleton]
        constructor
        · rintro (⟨hg, hh⟩ | h)
          · exact ⟨hg, Or.inl ((hsucc a hg).mpr hh)⟩
          · exact ⟨h ▸ hz'.1, Or.inr h⟩
        · rintro ⟨hg, hh | h⟩
          · exact Or.inl ⟨hg, (hsucc a hg).mp hh⟩
          · exact Or.inr h
    obtain ⟨i1, i2, i3, i4⟩ := ih _ _ _ hz' hv' (by simp; omega)
    refine ⟨?_, ?_, ?_, ?_⟩
    · rw [zigzagLoop]
      simpa [List.append_assoc] using i1
    · intro a ha
      rw [zigzagLoop, List.mem_cons] at ha
      rcases ha with h | h
      · exact h ▸ hz'.1
      · exact i2 a h
    · rw [zigzagLoop, List.isChain_cons_cons]
      exact ⟨hadj, i3⟩
    · rw [zigzagLoop, List.pairwise_cons]
      refine ⟨?_, i4⟩
      intro a ha
      rw [List.mem_cons] at ha
      rcases ha with h | h
      · exact h ▸ hcl
      · have h' := (List.pairwise_cons.mp i4).1 a h
        generalize (nextMove n m c).apply c = d at hcl h'
        unfold zlt at *
        omega

end Verif.Ordering
