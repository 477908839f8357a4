import Verif.Machines.Causal
import Verif.Ordering.Props

/-! The network with a custom ordering. -/
namespace Verif.Machines

open Verif.Net Verif.Ordering

variable {kw : Bool} {g : Graph ℂ} {s0 : Shape} {sigs : List Sig} {bs : List (Loc → Nat)}

theorem ok_gather1 (hc : Cert kw g s0 sigs bs) {x N c : Nat} {b b' : Loc → Nat} (hx : At sigs bs x ([N], c) b)
    (indices : List Nat) (hlen : indices.length = N) (hin : ∀ i ∈ indices, i < N)
    (hb : ∀ (i j : Nat), indices[i]? = some j → b [j] ≤ b' [i]) :
    Ok kw s0 sigs bs (add (.gather indices 1) [x] g) fun y s' d' => At s' d' y ([N], c) b' := by
  refine hc.add1 _ hx (by simp) (fun _ => rfl) ([N], c) b' ?_ trivial (Or.inl ⟨le_rfl, le_rfl⟩) ?_
  · simp only [Layer.outSig, resolveAxis_of_pos (rank := [N].length + 2) (axis := 1) (by decide) (by simp), Option.bind_some]
    rw [if_neg (by simp), if_neg (by simp), if_pos (by simpa using hin)]
    simp [hlen]
  · intro l hl ds hds d hd _
    obtain ⟨i, rfl, hi⟩ := inShape_one hl
    have hi' : indices[i]? = some (indices[i]'(by omega)) := List.getElem?_eq_getElem (by omega)
    simp only [Layer.deps, pyIndex] at hds
    norm_num [hi'] at hds
    subst hds
    rw [List.mem_singleton.1 hd]
    exact hb i _ hi'

theorem resolveTarget_nat (t : List Nat) : resolveTarget t.prod (t.map fun n : Nat => (n : Int)) = some t := by
  have h1 : (t.map fun n : Nat => (n : Int)).filter (· < 0) = [] := by
    rw [List.filter_eq_nil_iff]; intro a ha; obtain ⟨n, -, rfl⟩ := List.mem_map.1 ha; simp
  have h2 : (t.map fun n : Nat => (n : Int)).filter (0 ≤ ·) = t.map fun n : Nat => (n : Int) := by
    rw [List.filter_eq_self]; intro a ha; obtain ⟨n, -, rfl⟩ := List.mem_map.1 ha; simp
  have h3 : (t.map fun n : Nat => (n : Int)).map Int.toNat = t := by
    rw [List.map_map]; conv_rhs => rw [← List.map_id t]
    exact List.map_congr_left fun n _ => by simp
  simp only [resolveTarget, h1, h2, h3, List.length_nil, if_true]

theorem reshapeTarget_nat (s : Shape) (c : Nat) (t : List Nat) (hl : t.getLastD 0 = c) (hne : t ≠ []) :
    reshapeTarget s c (t.map fun n : Nat => (n : Int)) = some (t.map fun n : Nat => (n : Int)) := by
  have h1 : (-1 : Int) ∉ t.map fun n : Nat => (n : Int) := by
    intro h; obtain ⟨n, -, hn⟩ := List.mem_map.1 h; omega
  have h2 : (t.map fun n : Nat => (n : Int)).getLastD 0 = (c : Int) := by
    subst hl
    simp only [List.getLastD_eq_getLast?, List.getLast?_map]
    cases t.getLast? <;> simp
  simp only [reshapeTarget, if_neg h1, Option.bind_some, h2, if_true]
  rw [if_neg (by simpa using hne)]

theorem ok_reshape {s r : Shape} {c x : Nat} {b b' : Loc → Nat} (hc : Cert false g s0 sigs bs)
    (hx : At sigs bs x (s, c) b) (hc0 : c ≠ 0) (hr : r.prod = s.prod)
    (hb : ∀ l, InShape l r → b (unflatten s (flatten r l)) ≤ b' l) :
    Ok false s0 sigs bs (add (.reshape ((r ++ [c]).map fun n : Nat => (n : Int))) [x] g) fun y s' d' => At s' d' y (r, c) b' := by
  have hT : (r ++ [c]).prod = s.prod * c := by simp [hr]
  have hne : (r ++ [c]) ≠ [] := by simp
  have hlast : (r ++ [c]).getLastD 0 = c := by rw [List.getLastD_eq_getLast?]; simp
  refine hc.add1 _ hx (by simp) (by simp) (r, c) b' ?_ trivial ?_ ?_
  · simp only [Layer.outSig, ← hT, resolveTarget_nat, Option.bind_some, if_neg hne, hlast]
    simp
  · refine ⟨hc0, Or.inl ⟨?_, ?_⟩⟩
    · intro d hd; obtain ⟨n, -, rfl⟩ := List.mem_map.1 hd; simp
    · rw [List.getLastD_eq_getLast?]; simp
  · intro l hl ds hds d hd _
    simp only [Layer.deps, reshapeTarget_nat s c (r ++ [c]) hlast hne, Option.bind_some, Option.some.injEq] at hds
    subst hds
    rw [List.mem_singleton.1 hd]
    have e1 : ((r ++ [c]).map fun n : Nat => (n : Int)).dropLast = r.map fun n : Nat => (n : Int) := by simp
    have e2 : toFlat l (r.map fun n : Nat => (n : Int)) = ((flatten r l : Nat) : Int) := toFlat_eq r l hl.length_eq
    rw [e1, e2, fromFlat_eq _ _ (by rw [← hr]; exact flatten_lt hl)]
    exact hb l hl

section custom
variable (ordering : List Loc) (hperm : ordering.Nodup ∧ ∀ l, l ∈ ordering ↔ InShape l s0)
include hperm

theorem ordering_length : ordering.length = s0.prod := by
  have hp : ordering.Perm (raster s0) :=
    (List.perm_ext_iff_of_nodup hperm.1 (raster_nodup s0)).2 fun l => by
      rw [hperm.2, mem_raster]; rfl
  rw [hp.length_eq, length_raster]

theorem flat_getElem (k : Nat) (hk : k < ordering.length) :
    (toFlatOrdering ordering s0)[k]? = some (flatten s0 ordering[k]) := by
  have hin := (hperm.2 ordering[k]).1 (List.getElem_mem hk)
  rw [toFlatOrdering, List.getElem?_map, List.getElem?_eq_getElem hk, Option.map_some,
    flatIndex_eq _ _ hin.length_eq, flatten_eq_rowMajor]

theorem inverse_spec : ∃ inv, toFlatInverseOrdering ordering s0 = some inv ∧ inv.length = s0.prod ∧
    (∀ (k : Nat) (hk : k < ordering.length), inv[flatten s0 ordering[k]]? = some k) ∧
    (∀ i ∈ inv, i < s0.prod) := by
  have hlen := ordering_length ordering hperm
  have hflat : ∀ p ∈ toFlatOrdering ordering s0, p < s0.prod := by
    intro p hp
    obtain ⟨k, hk⟩ := List.mem_iff_getElem?.1 hp
    have hkl : k < ordering.length := by
      have := (List.getElem?_eq_some_iff.1 hk).1
      simpa [toFlatOrdering] using this
    rw [flat_getElem ordering hperm k hkl] at hk
    obtain rfl := Option.some.inj hk
    exact flatten_lt ((hperm.2 _).1 (List.getElem_mem hkl))
  have hnd : (toFlatOrdering ordering s0).Nodup := by
    apply List.Nodup.map_on _ hperm.1
    intro a ha b hb hab
    have ha' := (hperm.2 a).1 ha
    have hb' := (hperm.2 b).1 hb
    rw [flatIndex_eq _ _ ha'.length_eq, flatIndex_eq _ _ hb'.length_eq, ← flatten_eq_rowMajor, ← flatten_eq_rowMajor] at hab
    rw [← unflatten_flatten ha', hab, unflatten_flatten hb']
  obtain ⟨inv, h1, h2, h3, h4⟩ := inverseLoop_spec (toFlatOrdering ordering s0) 0 (List.replicate ordering.length 0) hnd
    (by simpa [hlen] using hflat)
  have h2' : inv.length = s0.prod := by rw [h2]; simpa using hlen
  have hk3 : ∀ (k : Nat) (hk : k < ordering.length), inv[flatten s0 ordering[k]]? = some k := by
    intro k hk
    have hk' : k < (toFlatOrdering ordering s0).length := by simpa [toFlatOrdering] using hk
    have := h3 k hk'
    have e : (toFlatOrdering ordering s0)[k] = flatten s0 ordering[k] := by
      have := flat_getElem ordering hperm k hk
      rw [List.getElem?_eq_getElem hk'] at this
      exact Option.some.inj this
    rw [e, zero_add] at this
    exact this
  refine ⟨inv, h1, h2', hk3, ?_⟩
  intro i hi
  obtain ⟨f, hf⟩ := List.mem_iff_getElem?.1 hi
  have hfl : f < s0.prod := by rw [← h2']; exact (List.getElem?_eq_some_iff.1 hf).1
  have hmem := (hperm.2 (unflatten s0 f)).2 (unflatten_inShape s0 f hfl)
  obtain ⟨k, hk⟩ := List.mem_iff_getElem?.1 hmem
  obtain ⟨hkl, hke⟩ := List.getElem?_eq_some_iff.1 hk
  have := hk3 k hkl
  rw [hke, flatten_unflatten s0 f hfl, hf] at this
  obtain rfl := Option.some.inj this
  omega

/-- The whole network: the number of a site is its position in the ordering. -/
theorem ok_buildCustom (hN : 1 ≤ s0.prod) (P : Params1D) (hk : 1 ≤ P.kernelSize) (W : Weights) (rank : Loc → Nat)
    (hrank : ∀ (k : Nat) (l : Loc), ordering[k]? = some l → rank l = k) :
    ∃ net, customNet P W s0 ordering = some net ∧
      Ok false s0 [(s0, 1)] [fun l => rank l + 1] (net 0 start) fun j s' b' => At s' b' j (s0, 2) rank := by
  obtain ⟨inv, h1, h2, h3, h4⟩ := inverse_spec ordering hperm
  have hlen := ordering_length ordering hperm
  refine ⟨_, by simp only [customNet, h1, Option.map_some]; rfl, ?_⟩
  have hc := start_cert (K := ℂ) false s0 fun l => rank l + 1
  have hx : At [(s0, 1)] [fun l => rank l + 1] 0 (s0, 1) fun l => rank l + 1 := ⟨rfl, _, rfl, fun _ _ => le_rfl⟩
  unfold buildCustom
  refine Ok.bind (ok_expand hc hx) ?_
  intro x1 g1 s1 b1 hc1 _ _ hx1
  refine Ok.bind (K := ℂ) (Q := fun j s' b' => At s' b' j ([s0.prod], 1) fun l => rank (unflatten s0 (l.getD 0 0)) + 1) ?_ ?_
  · have := ok_reshape (r := [s0.prod]) (b' := fun l => rank (unflatten s0 (l.getD 0 0)) + 1) hc1 hx1 one_ne_zero
      (by simp) (by
        intro l hl
        obtain ⟨i, rfl, hi⟩ := inShape_one hl
        simp [flatten])
    simpa using this
  intro x2 g2 s2 b2 hc2 _ _ hx2
  refine Ok.bind (ok_gather1 hc2 hx2 (toFlatOrdering ordering s0) (by simp [toFlatOrdering, hlen]) ?_ (b' := lin 1) ?_) ?_
  · intro p hp
    obtain ⟨k, hk⟩ := List.mem_iff_getElem?.1 hp
    have hkl : k < ordering.length := by
      have := (List.getElem?_eq_some_iff.1 hk).1
      simpa [toFlatOrdering] using this
    rw [flat_getElem ordering hperm k hkl] at hk
    obtain rfl := Option.some.inj hk
    exact flatten_lt ((hperm.2 _).1 (List.getElem_mem hkl))
  · intro i j hij
    have hil : i < ordering.length := by
      have := (List.getElem?_eq_some_iff.1 hij).1
      simpa [toFlatOrdering] using this
    rw [flat_getElem ordering hperm i hil] at hij
    obtain rfl := Option.some.inj hij
    simp only [List.getD_cons_zero, unflatten_flatten ((hperm.2 _).1 (List.getElem_mem hil)), lin]
    rw [hrank i _ (List.getElem?_eq_getElem hil)]
  intro x3 g3 s3 b3 hc3 _ _ hx3
  refine Ok.bind (ok_build1D hc3 hN hx3 P hk W false) ?_
  intro x4 g4 s4 b4 hc4 _ _ hx4
  refine Ok.bind (ok_gather1 hc4 hx4 inv h2 h4 (b' := fun l => inv.getD (l.getD 0 0) 0) ?_) ?_
  · intro i j hij
    simp [lin, hij]
  intro x5 g5 s5 b5 hc5 _ _ hx5
  have := ok_reshape (r := s0) (b' := rank) hc5 hx5 two_ne_zero (by simp) (by
    intro l hl
    obtain ⟨k, hk⟩ := List.mem_iff_getElem?.1 ((hperm.2 l).2 hl)
    obtain ⟨hkl, hke⟩ := List.getElem?_eq_some_iff.1 hk
    have h5 := h3 k hkl
    rw [hke] at h5
    rw [hrank k l hk]
    simp [unflatten, h5])
  simpa using this

end custom

end Verif.Machines
