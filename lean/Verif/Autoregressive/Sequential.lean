import Mathlib.Logic.Function.Basic
import Mathlib.Data.List.Nodup
import Mathlib.Data.List.Basic

/-
Deciding sites one after the other, each decision looking only at earlier sites, ends in the unique
configuration that is consistent with all decisions.
-/
namespace Verif.Autoregressive

variable {ι α : Type} [DecidableEq ι]

/-- `order` lists every site exactly once. -/
def Complete (order : List ι) : Prop := order.Nodup ∧ ∀ i, i ∈ order

/-- Site `j` comes before site `i` in the list. -/
def Before (order : List ι) (j i : ι) : Prop := order.idxOf j < order.idxOf i

/-- The value at a site depends only on sites before it. -/
def Causal {β : Type} (order : List ι) (d : (ι → α) → ι → β) : Prop :=
  ∀ s s' i, (∀ j, Before order j i → s j = s' j) → d s i = d s' i

/-- Decide the sites in the given order. -/
def decideAll (d : (ι → α) → ι → α) (order : List ι) (x : ι → α) : ι → α :=
  order.foldl (fun x i => Function.update x i (d x i)) x

theorem decideAll_spec (d : (ι → α) → ι → α) (order : List ι) (h : order.Nodup)
    (hc : ∀ i ∈ order, ∀ s s', (∀ j, Before order j i → s j = s' j) → d s i = d s' i)
    (post pre : List ι) (he : order = pre ++ post) (x : ι → α) :
    (∀ j ∈ pre, decideAll d post x j = x j) ∧
    (∀ i ∈ post, decideAll d post x i = d (decideAll d post x) i) := by
  induction post generalizing pre x with
  | nil => exact ⟨fun _ _ => rfl, by simp⟩
  | cons i rest ih =>
    have hnd : (pre ++ i :: rest).Nodup := he ▸ h
    have hi : i ∉ pre := by
      intro hi
      exact (List.nodup_append.1 hnd).2.2 i hi i (by simp) rfl
    obtain ⟨h1, h2⟩ := ih (pre ++ [i]) (by rw [he]; simp) (Function.update x i (d x i))
    have hd : decideAll d (i :: rest) x = decideAll d rest (Function.update x i (d x i)) := rfl
    have hpre : ∀ j ∈ pre, decideAll d (i :: rest) x j = x j := by
      intro j hj
      rw [hd, h1 j (by simp [hj]), Function.update_of_ne]
      rintro rfl
      exact hi hj
    refine ⟨hpre, fun k hk => ?_⟩
    rcases List.mem_cons.1 hk with rfl | hk
    · have e1 : decideAll d (k :: rest) x k = d x k := by
        rw [hd, h1 k (by simp), Function.update_self]
      rw [e1]
      apply hc k (by rw [he]; simp)
      intro j hj
      have hjp : j ∈ pre := by
        unfold Before at hj
        rw [he, List.idxOf_append_of_notMem hi, List.idxOf_cons_self] at hj
        by_contra hjp
        rw [List.idxOf_append_of_notMem hjp] at hj
        omega
      exact (hpre j hjp).symm
    · rw [hd]; exact h2 k hk

/-- The result is consistent with every decision. -/
theorem decideAll_fixed (d : (ι → α) → ι → α) (order : List ι) (h : Complete order) (hc : Causal order d)
    (x : ι → α) (i : ι) : decideAll d order x i = d (decideAll d order x) i :=
  (decideAll_spec d order h.1 (fun i _ s s' => hc s s' i) order [] rfl x).2 i (h.2 i)

/-- There is only one such configuration. -/
theorem fixed_unique (d : (ι → α) → ι → α) (order : List ι) (h : Complete order) (hc : Causal order d)
    (s s' : ι → α) (hs : ∀ i, s i = d s i) (hs' : ∀ i, s' i = d s' i) : s = s' := by
  have key : ∀ k i, order.idxOf i ≤ k → s i = s' i := by
    intro k
    induction k with
    | zero =>
      intro i hi
      rw [hs i, hs' i]
      apply hc
      intro j hj
      unfold Before at hj
      omega
    | succ k ih =>
      intro i hi
      rw [hs i, hs' i]
      apply hc
      intro j hj
      unfold Before at hj
      exact ih j (by omega)
  funext i
  exact key _ i (Nat.le_refl _)

/-- The result of deciding all sites is `s` exactly if `s` is consistent with every decision. -/
theorem decideAll_eq_iff (d : (ι → α) → ι → α) (order : List ι) (h : Complete order) (hc : Causal order d)
    (x s : ι → α) : decideAll d order x = s ↔ ∀ i, s i = d s i := by
  constructor
  · rintro rfl i
    exact decideAll_fixed d order h hc x i
  · intro hs
    exact fixed_unique d order h hc _ _ (decideAll_fixed d order h hc x) hs

end Verif.Autoregressive
