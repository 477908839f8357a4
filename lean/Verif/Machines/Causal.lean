import Verif.Machines.Lemmas

/-! From certificates to statements about the built networks. -/
namespace Verif.Machines

open Verif.Net

variable {K : Type} [CommSemiring K] {kw : Bool}

theorem visit_le (g : Graph K) (N : Nat) (hin : ∀ k ≤ N, ∀ i ∈ g.inputs k, i ≤ N) :
    ∀ f k vis, k ≤ N → (∀ m ∈ vis, m ≤ N) → ∀ m ∈ g.visit f k vis, m ≤ N := by
  intro f
  induction f with
  | zero => intro k vis _ h; exact h
  | succ f ih =>
    intro k vis hk hv
    unfold Graph.visit
    have loop : ∀ (is : List Nat) (v : List Nat), (∀ i ∈ is, i ≤ N) → (∀ m ∈ v, m ≤ N) →
        ∀ m ∈ is.foldl (fun v i => if i ∈ v then v else g.visit f i v) v, m ≤ N := by
      intro is
      induction is with
      | nil => intro v _ h; exact h
      | cons i is ihl =>
        intro v hi hv
        simp only [List.foldl_cons]
        refine ihl _ (fun j hj => hi j (by simp [hj])) ?_
        split
        · exact hv
        · exact ih i v (hi i (by simp)) hv
    refine loop _ _ (hin k hk) ?_
    intro m hm
    rcases List.mem_append.1 hm with hm | hm
    · exact hv m hm
    · rw [List.mem_singleton.1 hm]; exact hk

/-- Without `Reshape` the dependency graph can be built. -/
theorem Cert.edges {g : Graph K} {s0 : Shape} {sigs : List Sig} {bs : List (Loc → Nat)} {out cout : Nat} {b : Loc → Nat}
    (hc : Cert true g s0 sigs bs) (ho : At sigs bs out (s0, cout) b) (h0 : out ≠ 0) :
    ∃ es, g.edges sigs out = some es := by
  have hm := hc.model ho h0
  obtain ⟨ts0, ht0, -⟩ := hm.eval fun _ => 0
  have hlt : out < g.length := by rw [← hc.lengths]; exact (List.getElem?_eq_some_iff.1 ho.1).1
  obtain ⟨r, hr⟩ := collect_some (f := g.layerEdges sigs) (as := g.visit (out + 1) out []) (by
    intro k hk
    have hk' : k ≤ out := visit_le g out (fun k hk i hi => by
      have := hm.inputs_lt k i hi; omega) _ _ [] le_rfl (by simp) k hk
    have hn := List.getElem?_eq_getElem (show k < g.length by omega)
    unfold Graph.layerEdges
    rw [hn]
    dsimp only
    by_cases hne : (g[k]'(by omega)).inputs = []
    · rw [if_pos hne]; exact ⟨_, rfl⟩
    have hk0 : k ≠ 0 := by
      rintro rfl
      have := hm.first_inputs
      unfold Graph.inputs at this
      rw [hn] at this
      exact hne this
    obtain ⟨qs, q, t, -, hqs, hq, -, -, hall⟩ := hm.node ht0 hn hk0
    rw [if_neg hne, hqs, hq]
    simp only [Option.bind_some]
    refine collect_some ?_
    intro l hl
    obtain ⟨ds, hds, -⟩ := hall l ((Verif.Ordering.mem_raster _ _).1 hl)
    have hp := hc.plain rfl _ (List.mem_of_getElem? hn)
    have e : (g[k]'(by omega)).layer.depsKw qs l = (g[k]'(by omega)).layer.deps qs l := by
      cases hL : (g[k]'(by omega)).layer <;> rw [hL] at hp <;> first | rfl | simp [IsReshape] at hp
    rw [e, hds]
    exact ⟨_, rfl⟩)
  unfold Graph.edges
  rw [hr, ho.1]
  exact ⟨_, rfl⟩

/-- What a user gets from a successful build. -/
theorem built_causal {α : Type} {s0 : Shape} {b0 b : Loc → Nat} {r : α × Graph K} {out : α → Nat}
    (h : Ok kw s0 [(s0, 1)] [b0] r fun a s' b' => At s' b' (out a) (s0, 2) b) :
    ∃ sigs, r.2.Model s0 sigs (out r.1) 2 ∧
      (∀ (x x' : Loc → K) (l : Loc), InShape l s0 → (∀ j, InShape j s0 → b0 j ≤ b l → x j = x' j) →
        r.2.output s0 (out r.1) x l = r.2.output s0 (out r.1) x' l) ∧
      (kw = true → (∀ l, InShape l s0 → b l < b0 l) → ∃ es, r.2.edges sigs (out r.1) = some es ∧
        ∀ c, ¬ Relation.TransGen (fun a b => (a, b) ∈ es) c c) := by
  obtain ⟨sigs, bs, hc, p1, p2, ho⟩ := h
  have h0 : out r.1 ≠ 0 := by
    intro h
    have := ho.1
    rw [h, prefix_get p1 (i := 0) (x := (s0, 1)) rfl] at this
    simp at this
  have hb0 : bs[0]? = some b0 := prefix_get p2 rfl
  refine ⟨sigs, hc.model ho h0, fun x x' l hl hx => hc.causal ho h0 hb0 x x' l hl hx, ?_⟩
  intro hk hlt
  subst hk
  obtain ⟨es, he⟩ := hc.edges ho h0
  exact ⟨es, he, hc.acyclic ho h0 hb0 hlt es he⟩

/-- The output of a built network has one value per channel. -/
theorem output_length {g : Graph K} {s0 : Shape} {sigs : List Sig} {out cout : Nat} (hm : g.Model s0 sigs out cout)
    (x : Loc → K) (l : Loc) (hl : InShape l s0) : (g.output s0 out x l).length = cout := by
  obtain ⟨ts, ht, hs⟩ := hm.eval x
  rw [hm.output_eq ht]
  have ho := hm.output
  rw [← hs, List.getElem?_map, Option.map_eq_some_iff] at ho
  obtain ⟨t, h1, h2⟩ := ho
  have := eval_wf ht (by intro l _; rfl) (hs ▸ hm.good) _ t h1
  obtain ⟨h3, h4⟩ := Prod.mk.inj h2
  simp only [lookup, h1]
  rw [this l (h3 ▸ hl), h4]

end Verif.Machines
