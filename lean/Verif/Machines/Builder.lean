import Verif.Net.FastSamplerProps

/-!
Networks built layer call by layer call, and a certificate of causality that is extended along the way.
-/
namespace Verif.Machines

open Verif.Net

variable {K : Type} [CommSemiring K] {kw : Bool}

/-- Python code that calls layers one after the other: it appends nodes to the network. -/
abbrev Build (K : Type) (α : Type) := StateM (Graph K) α

/-- Calling a layer on the outputs of earlier calls; returns the new node. -/
def add (L : Layer K) (inputs : List Nat) : Build K Nat := fun g => (g.length, g ++ [⟨L, inputs⟩])

/-- The layer is a `Reshape`, whose topology the dependency graph cannot query. -/
def IsReshape : Layer K → Bool
  | .reshape _ => true
  | _ => false

/-- A network with its shapes and, per node, a number for every location: an upper bound for the numbers
of the locations it reads. With `kw` there is no `Reshape` in it. -/
structure Cert (kw : Bool) (g : Graph K) (s0 : Shape) (sigs : List Sig) (bs : List (Loc → Nat)) : Prop where
  built : g.sigs (s0, 1) = some sigs
  first : ∀ (k : Nat) (n : Node K), g[k]? = some n → (n.layer = .input ↔ k = 0)
  first_inputs : g.inputs 0 = []
  good : g.Good 0 sigs
  len : bs.length = g.length
  mono : ∀ (k : Nat) (n : Node K) (qs : List Sig) (q : Sig) (b : Loc → Nat), g[k]? = some n → k ≠ 0 →
    getAll sigs n.inputs = some qs → sigs[k]? = some q → bs[k]? = some b → ∀ l, InShape l q.1 →
    ∀ ds, n.layer.deps qs l = some ds → ∀ d ∈ ds, ∀ (i : Nat) (b' : Loc → Nat),
      n.inputs[d.1]? = some i → bs[i]? = some b' → b' d.2 ≤ b l
  plain : kw = true → ∀ n ∈ g, IsReshape n.layer = false

/-- Node `i` has this shape and its numbers are at most `b`. -/
def At (sigs : List Sig) (bs : List (Loc → Nat)) (i : Nat) (q : Sig) (b : Loc → Nat) : Prop :=
  sigs[i]? = some q ∧ ∃ b', bs[i]? = some b' ∧ ∀ l, InShape l q.1 → b' l ≤ b l

theorem prefix_get {α : Type} {a b : List α} (h : a <+: b) {i : Nat} {x : α} (hx : a[i]? = some x) : b[i]? = some x := by
  obtain ⟨r, rfl⟩ := h
  rw [List.getElem?_append_left (List.getElem?_eq_some_iff.1 hx).1, hx]

theorem At.ext {sigs sigs' : List Sig} {bs bs' : List (Loc → Nat)} {i : Nat} {q : Sig} {b : Loc → Nat}
    (h : At sigs bs i q b) (h1 : sigs <+: sigs') (h2 : bs <+: bs') : At sigs' bs' i q b := by
  obtain ⟨a, b', e, f⟩ := h
  exact ⟨prefix_get h1 a, b', prefix_get h2 e, f⟩

theorem At.weaken {sigs : List Sig} {bs : List (Loc → Nat)} {i : Nat} {q : Sig} {b c : Loc → Nat}
    (h : At sigs bs i q b) (hle : ∀ l, InShape l q.1 → b l ≤ c l) : At sigs bs i q c := by
  obtain ⟨a, b', e, f⟩ := h
  exact ⟨a, b', e, fun l hl => (f l hl).trans (hle l hl)⟩

/-- A run of the builder succeeds, only appends, and its result satisfies `Q`. -/
def Ok {α : Type} (kw : Bool) (s0 : Shape) (sigs : List Sig) (bs : List (Loc → Nat)) (r : α × Graph K)
    (Q : α → List Sig → List (Loc → Nat) → Prop) : Prop :=
  ∃ sigs' bs', Cert kw r.2 s0 sigs' bs' ∧ sigs <+: sigs' ∧ bs <+: bs' ∧ Q r.1 sigs' bs'

theorem Ok.bind {α β : Type} {s0 : Shape} {sigs : List Sig} {bs : List (Loc → Nat)} {m : Build K α}
    {f : α → Build K β} {g : Graph K} {Q : α → List Sig → List (Loc → Nat) → Prop}
    {R : β → List Sig → List (Loc → Nat) → Prop} (h : Ok kw s0 sigs bs (m g) Q)
    (h' : ∀ a g' sigs' bs', Cert kw g' s0 sigs' bs' → sigs <+: sigs' → bs <+: bs' → Q a sigs' bs' →
      Ok kw s0 sigs' bs' (f a g') R) : Ok kw s0 sigs bs ((m >>= f) g) R := by
  obtain ⟨s1, b1, hc, p1, p2, hq⟩ := h
  obtain ⟨s2, b2, hc2, p3, p4, hr⟩ := h' _ _ _ _ hc p1 p2 hq
  exact ⟨s2, b2, hc2, p1.trans p3, p2.trans p4, hr⟩

theorem Ok.pure {α : Type} {s0 : Shape} {sigs : List Sig} {bs : List (Loc → Nat)} {g : Graph K} (a : α)
    {Q : α → List Sig → List (Loc → Nat) → Prop} (hc : Cert kw g s0 sigs bs) (hq : Q a sigs bs) :
    Ok kw s0 sigs bs ((Pure.pure a : Build K α) g) Q :=
  ⟨sigs, bs, hc, List.prefix_rfl, List.prefix_rfl, hq⟩

theorem Ok.imp {α : Type} {s0 : Shape} {sigs : List Sig} {bs : List (Loc → Nat)} {r : α × Graph K}
    {Q R : α → List Sig → List (Loc → Nat) → Prop} (h : Ok kw s0 sigs bs r Q) (hi : ∀ a s b, Q a s b → R a s b) :
    Ok kw s0 sigs bs r R := by
  obtain ⟨s1, b1, hc, p1, p2, hq⟩ := h
  exact ⟨s1, b1, hc, p1, p2, hi _ _ _ hq⟩

section extend
variable {g : Graph K} {s0 : Shape} {sigs : List Sig} {bs : List (Loc → Nat)}

theorem Cert.lengths (hc : Cert kw g s0 sigs bs) : sigs.length = g.length := (sigs_spec hc.built).1

theorem Cert.inputs_lt (hc : Cert kw g s0 sigs bs) {k : Nat} {n : Node K} (hn : g[k]? = some n) (hk : k ≠ 0) :
    ∀ i ∈ n.inputs, i < k :=
  (((sigs_spec hc.built).2 k n hn).2 fun h => hk ((hc.first k n hn).1 h)).1

/-- `getAll` on a longer list, for positions that exist in the shorter one. -/
theorem getAll_prefix_inv {α : Type} {acc rest : List α} {is : List Nat} (h : ∀ i ∈ is, i < acc.length) :
    getAll (acc ++ rest) is = getAll acc is := by
  induction is with
  | nil => rfl
  | cons i is ih =>
    simp only [getAll]
    rw [List.getElem?_append_left (h i (by simp)), ih fun j hj => h j (by simp [hj])]

/-- Calling one more layer. -/
theorem Cert.add (hc : Cert kw g s0 sigs bs) (hne : g ≠ []) (L : Layer K) (inputs : List Nat) (hL : L ≠ .input)
    (hkw : kw = true → IsReshape L = false)
    (qs : List Sig) (q : Sig) (b : Loc → Nat) (hqs : getAll sigs inputs = some qs) (hq : L.outSig qs = some q)
    (hok : L.Ok qs) (hsup : L.Supported 0 qs)
    (hmono : ∀ l, InShape l q.1 → ∀ ds, L.deps qs l = some ds → ∀ d ∈ ds, ∀ (i : Nat) (b' : Loc → Nat),
      inputs[d.1]? = some i → bs[i]? = some b' → b' d.2 ≤ b l) :
    Ok kw s0 sigs bs (Machines.add L inputs g) fun i sigs' bs' => At sigs' bs' i q b := by
  have hlen := hc.lengths
  have hil := getAll_lt hqs
  refine ⟨sigs ++ [q], bs ++ [b], ?_, List.prefix_append _ _, List.prefix_append _ _, ?_⟩
  · show Cert kw (g ++ [⟨L, inputs⟩]) s0 (sigs ++ [q]) (bs ++ [b])
    have split : ∀ (k : Nat) (n : Node K), (g ++ [⟨L, inputs⟩])[k]? = some n →
        g[k]? = some n ∧ k < g.length ∨ k = g.length ∧ n = ⟨L, inputs⟩ := by
      intro k n h
      by_cases hk : k < g.length
      · rw [List.getElem?_append_left hk] at h
        exact Or.inl ⟨h, hk⟩
      · rw [List.getElem?_append_right (by omega)] at h
        have h0 : k - g.length = 0 := by
          by_contra hne
          rw [List.getElem?_eq_none (by simp; omega)] at h
          simp at h
        rw [h0] at h
        exact Or.inr ⟨by omega, by simpa using h.symm⟩
    have hg0 : 0 < g.length := List.length_pos_iff.2 hne
    refine ⟨?_, ?_, ?_, ?_, by simp [hc.len], ?_, ?_⟩
    · have hb := hc.built
      unfold Graph.sigs at hb ⊢
      rw [List.foldlM_append, hb]
      simp only [Option.bind_eq_bind, Option.bind_some, List.foldlM_cons, List.foldlM_nil]
      unfold stepSigs
      simp only [hqs, hq, Option.bind_some]
      rfl
    · intro k n h
      rcases split k n h with ⟨h, -⟩ | ⟨rfl, rfl⟩
      · exact hc.first k n h
      · exact ⟨fun h => absurd h hL, fun h => by omega⟩
    · have := hc.first_inputs
      unfold Graph.inputs at this ⊢
      rwa [List.getElem?_append_left hg0]
    · intro k n h hn qs' hqs'
      rcases split k n h with ⟨h, hk⟩ | ⟨rfl, rfl⟩
      · have hk0 : k ≠ 0 := fun h0 => hn ((hc.first k n h).2 h0)
        rw [getAll_prefix_inv fun i hi => by have := hc.inputs_lt h hk0 i hi; omega] at hqs'
        exact hc.good k n h hn qs' hqs'
      · rw [getAll_prefix_inv hil, hqs] at hqs'
        obtain rfl := Option.some.inj hqs'
        exact ⟨hok, hsup⟩
    · intro k n qs' q' b' h hk0 hqs' hq' hb' l hl ds hds d hd i b'' hi hb''
      rcases split k n h with ⟨h, hk⟩ | ⟨rfl, rfl⟩
      · rw [getAll_prefix_inv fun i hi => by have := hc.inputs_lt h hk0 i hi; omega] at hqs'
        rw [List.getElem?_append_left (by omega)] at hq'
        rw [List.getElem?_append_left (by rw [hc.len]; exact hk)] at hb'
        have := hc.inputs_lt h hk0 i (List.mem_of_getElem? hi)
        rw [List.getElem?_append_left (by rw [hc.len]; omega)] at hb''
        exact hc.mono k n qs' q' b' h hk0 hqs' hq' hb' l hl ds hds d hd i b'' hi hb''
      · rw [getAll_prefix_inv hil, hqs] at hqs'
        obtain rfl := Option.some.inj hqs'
        rw [← hlen, List.getElem?_concat_length] at hq'
        obtain rfl := Option.some.inj hq'
        rw [← hc.len, List.getElem?_concat_length] at hb'
        obtain rfl := Option.some.inj hb'
        have := hil i (List.mem_of_getElem? hi)
        rw [List.getElem?_append_left (by rw [hc.len, ← hlen]; exact this)] at hb''
        exact hmono l hl ds hds d hd i b'' hi hb''
    · intro hk n hn
      rcases List.mem_append.1 hn with hn | hn
      · exact hc.plain hk n hn
      · rw [List.mem_singleton.1 hn]
        exact hkw hk
  · refine ⟨?_, b, ?_, fun _ _ => le_rfl⟩
    · show (sigs ++ [q])[g.length]? = some q
      rw [← hlen, List.getElem?_concat_length]
    · show (bs ++ [b])[g.length]? = some b
      rw [← hc.len, List.getElem?_concat_length]

theorem At.ne_nil (hc : Cert kw g s0 sigs bs) {i : Nat} {q : Sig} {b : Loc → Nat} (h : At sigs bs i q b) : g ≠ [] := by
  rintro rfl
  have := (List.getElem?_eq_some_iff.1 h.1).1
  rw [hc.lengths] at this
  simp at this

/-- Calling a layer on one earlier node. -/
theorem Cert.add1 (hc : Cert kw g s0 sigs bs) (L : Layer K) {i : Nat} {s : Shape} {c : Nat} {b : Loc → Nat}
    (hi : At sigs bs i (s, c) b) (hL : L ≠ .input) (hkw : kw = true → IsReshape L = false) (q : Sig) (b' : Loc → Nat)
    (hq : L.outSig [(s, c)] = some q) (hok : L.Ok [(s, c)]) (hsup : L.Supported 0 [(s, c)])
    (hmono : ∀ l, InShape l q.1 → ∀ ds, L.deps [(s, c)] l = some ds → ∀ d ∈ ds, InShape d.2 s → b d.2 ≤ b' l) :
    Ok kw s0 sigs bs (Machines.add L [i] g) fun j sigs' bs' => At sigs' bs' j q b' := by
  obtain ⟨h1, b0, h2, h3⟩ := hi
  refine hc.add (At.ne_nil hc ⟨h1, b0, h2, h3⟩) L [i] hL hkw [(s, c)] q b' (by simp [getAll, h1]) hq hok hsup ?_
  intro l hl ds hds d hd j b'' hj hb''
  -- the dependency lies in the input
  have hx : L.apply [(⟨s, c, fun _ => List.replicate c 0⟩ : Tensor K)] =
      some ⟨q.1, q.2, L.call [⟨s, c, fun _ => List.replicate c 0⟩]⟩ := by
    simp only [Layer.apply, List.map_cons, List.map_nil, Tensor.sig, hq, Option.map_some]
  obtain ⟨ds', e1, e2, -⟩ := C41_single_partial 0 L [⟨s, c, fun _ => List.replicate c 0⟩]
    (by
      intro t ht
      rw [List.mem_singleton.1 ht]
      intro l _
      simp) _ hx hsup l hl
  simp only [List.map_cons, List.map_nil, Tensor.sig] at e1
  rw [hds] at e1
  obtain rfl := Option.some.inj e1
  obtain ⟨t, ht, hin⟩ := e2 d hd
  have hd0 : d.1 = 0 := by
    have := (List.getElem?_eq_some_iff.1 ht).1
    simp at this
    exact this
  rw [hd0] at ht hj
  simp only [List.getElem?_cons_zero, Option.some.injEq] at ht hj
  subst ht hj
  rw [h2] at hb''
  obtain rfl := Option.some.inj hb''
  exact (h3 _ hin).trans (hmono l hl ds hds d hd hin)

end extend

/-! ### Consequences of a certificate -/

section causal
variable {g : Graph K} {s0 : Shape} {sigs : List Sig} {bs : List (Loc → Nat)} {out cout : Nat} {b : Loc → Nat}

theorem Cert.model (hc : Cert kw g s0 sigs bs) (ho : At sigs bs out (s0, cout) b) (h0 : out ≠ 0) :
    g.Model s0 sigs out cout :=
  ⟨hc.built, hc.first, hc.first_inputs, ho.1, h0, hc.good⟩

/-- What a node computes at a location depends only on input sites with at most that number. -/
theorem Cert.lookup_eq (hc : Cert kw g s0 sigs bs) (hm : g.Model s0 sigs out cout) {b0 : Loc → Nat}
    (hb0 : bs[0]? = some b0) (m : Nat) {x x' : Loc → K} (hx : ∀ j, InShape j s0 → b0 j ≤ m → x j = x' j)
    {ts ts' : List (Tensor K)} (ht : g.eval (inputTensor s0 x) = some ts) (ht' : g.eval (inputTensor s0 x') = some ts') :
    ∀ (k : Nat) (q : Sig) (b : Loc → Nat) (l : Loc), sigs[k]? = some q → bs[k]? = some b → InShape l q.1 → b l ≤ m →
      lookup ts (k, l) = lookup ts' (k, l) := by
  intro k
  induction k using Nat.strong_induction_on with
  | _ k ih =>
    intro q b l hq hb hl hle
    have hk : k < g.length := by rw [← hc.lengths]; exact (List.getElem?_eq_some_iff.1 hq).1
    have hn := List.getElem?_eq_getElem hk
    by_cases hk0 : k = 0
    · subst hk0
      have hs := ((sigs_spec hc.built).2 0 _ hn).1 ((hc.first 0 _ hn).2 rfl)
      rw [hq] at hs
      obtain rfl := Option.some.inj hs
      rw [hb] at hb0
      obtain rfl := Option.some.inj hb0
      rw [hm.lookup_input ht, hm.lookup_input ht', hx l hl hle]
    · obtain ⟨qs, q', t, -, hqs, hq', htk, -, hall⟩ := hm.node ht hn hk0
      obtain ⟨qs', q'', t', -, hqs', hq'', htk', -, hall'⟩ := hm.node ht' hn hk0
      rw [hqs] at hqs'; obtain rfl := Option.some.inj hqs'
      rw [hq] at hq' hq''; obtain rfl := Option.some.inj hq'; obtain rfl := Option.some.inj hq''
      obtain ⟨ds, hds, hin, happ⟩ := hall l hl
      obtain ⟨ds', hds', -, happ'⟩ := hall' l hl
      rw [hds] at hds'; obtain rfl := Option.some.inj hds'
      have e1 : lookup ts (k, l) = t.val l := by simp only [lookup, htk]
      have e2 : lookup ts' (k, l) = t'.val l := by simp only [lookup, htk']
      rw [e1, e2]
      have : some (t.val l) = some (t'.val l) := by
        rw [← happ, ← happ']
        congr 1
        apply List.map_congr_left
        intro d hd
        obtain ⟨i, u, hi, hik, hu, hdu⟩ := hin d hd
        have ei : (g[k]).inputs.getD d.1 0 = i := by rw [List.getD_eq_getElem?_getD, hi]; rfl
        rw [ei]
        have hbi : i < bs.length := by rw [hc.len]; omega
        exact ih i hik u _ d.2 hu (List.getElem?_eq_getElem hbi) hdu
          ((hc.mono k _ qs q b hn hk0 hqs hq hb l hl ds hds d hd i _ hi (List.getElem?_eq_getElem hbi)).trans hle)
      exact Option.some.inj this

/-- Causality of the output. -/
theorem Cert.causal (hc : Cert kw g s0 sigs bs) (ho : At sigs bs out (s0, cout) b) (h0 : out ≠ 0)
    {b0 : Loc → Nat} (hb0 : bs[0]? = some b0) (x x' : Loc → K) (l : Loc) (hl : InShape l s0)
    (hx : ∀ j, InShape j s0 → b0 j ≤ b l → x j = x' j) : g.output s0 out x l = g.output s0 out x' l := by
  have hm := hc.model ho h0
  obtain ⟨ts, ht, -⟩ := hm.eval x
  obtain ⟨ts', ht', -⟩ := hm.eval x'
  obtain ⟨h1, b', h2, h3⟩ := ho
  rw [hm.output_eq ht, hm.output_eq ht']
  exact hc.lookup_eq hm hb0 (b l) hx ht ht' out _ b' l h1 h2 hl (h3 l hl)

/-- If the number of the output at every site is smaller than that of the input there, the dependency
graph has no cycle. -/
theorem Cert.acyclic (hc : Cert kw g s0 sigs bs) (ho : At sigs bs out (s0, cout) b) (h0 : out ≠ 0)
    {b0 : Loc → Nat} (hb0 : bs[0]? = some b0) (hlt : ∀ l, InShape l s0 → b l < b0 l)
    (es : List (Cell × Cell)) (he : g.edges sigs out = some es) :
    ∀ c, ¬ Relation.TransGen (fun a b => (a, b) ∈ es) c c := by
  have hm := hc.model ho h0
  let v : Cell → Nat := fun c => (bs.getD c.1 fun _ => 0) c.2
  have hedge : ∀ a b', (a, b') ∈ es → v a < v b' ∨ v a ≤ v b' ∧ a.1 < b'.1 := by
    intro a b' hab
    unfold Graph.edges at he
    simp only [Option.bind_eq_some_iff, hm.output, Option.some.injEq] at he
    obtain ⟨es1, h1, q', rfl, rfl⟩ := he
    rcases List.mem_append.1 hab with hab | hab
    · right
      obtain ⟨k, hk, r, hr, her⟩ := (collect_spec h1).2 _ hab
      unfold Graph.layerEdges at hr
      split at hr
      · simp at hr
      rename_i n hn
      by_cases hne : n.inputs = []
      · rw [if_pos hne] at hr
        simp only [Option.some.injEq] at hr
        subst hr
        simp at her
      have hk0 : k ≠ 0 := by
        rintro rfl
        have := hm.first_inputs
        unfold Graph.inputs at this
        rw [hn] at this
        exact hne this
      obtain ⟨ts0, ht0, -⟩ := hm.eval fun _ => 0
      obtain ⟨qs, q, t, -, hqs, hq, -, -, hall⟩ := hm.node ht0 hn hk0
      rw [if_neg hne, hqs, hq] at hr
      simp only [Option.bind_some] at hr
      obtain ⟨l, hl, p, hp, hep⟩ := (collect_spec hr).2 _ her
      have hl := (Verif.Ordering.mem_raster _ _).1 hl
      simp only [Option.bind_eq_some_iff, Option.some.injEq] at hp
      obtain ⟨ds, hds, rfl⟩ := hp
      obtain ⟨d, hd, e⟩ := List.mem_map.1 hep
      obtain ⟨rfl, rfl⟩ := Prod.mk.inj e
      obtain ⟨ds', hds', hdep, -⟩ := hall l hl
      have hdd : ds' = ds := by
        have e : n.layer.depsKw qs l = n.layer.deps qs l := by
          cases hL : n.layer <;> rw [hL] at hds <;> first | rfl | simp [Layer.depsKw] at hds
        rw [e, hds'] at hds
        exact Option.some.inj hds
      subst hdd
      obtain ⟨i, u, e1, e2, e3, e4⟩ := hdep d hd
      have ei : n.inputs.getD d.1 0 = i := by rw [List.getD_eq_getElem?_getD, e1]; rfl
      have hkb : k < bs.length := by
        rw [hc.len]; exact (List.getElem?_eq_some_iff.1 hn).1
      have hib : i < bs.length := by omega
      refine ⟨?_, by simp only [ei]; exact e2⟩
      have := hc.mono k n qs q _ hn hk0 hqs hq (List.getElem?_eq_getElem hkb) l hl ds' hds' d hd i _ e1
        (List.getElem?_eq_getElem hib)
      simp only [v, ei]
      rw [List.getD_eq_getElem _ _ hkb, List.getD_eq_getElem _ _ hib]
      exact this
    · left
      obtain ⟨l, hl, e⟩ := List.mem_map.1 hab
      obtain ⟨rfl, rfl⟩ := Prod.mk.inj e
      have hl := (Verif.Ordering.mem_raster _ _).1 hl
      obtain ⟨-, b', h2, h3⟩ := ho
      simp only [v, List.getD_eq_getElem?_getD, h2, hb0, Option.getD_some]
      exact (h3 l hl).trans_lt (hlt l hl)
  have key : ∀ a b', Relation.TransGen (fun a b => (a, b) ∈ es) a b' → v a < v b' ∨ v a ≤ v b' ∧ a.1 < b'.1 := by
    intro a b' h
    induction h with
    | single h => exact hedge _ _ h
    | tail _ h ih =>
      have := hedge _ _ h
      omega
  intro c hcc
  have := key c c hcc
  omega

end causal

/-! ### The start -/

/-- The network that consists of the input layer only. -/
def start : Graph K := [⟨.input, []⟩]

theorem start_cert (kw : Bool) (s0 : Shape) (b0 : Loc → Nat) : Cert kw (start : Graph K) s0 [(s0, 1)] [b0] where
  built := rfl
  first := by
    intro k n h
    match k, h with
    | 0, h => simp [start] at h; subst h; simp
    | k + 1, h => simp [start] at h
  first_inputs := rfl
  good := by
    intro k n h hl
    match k, h with
    | 0, h => simp [start] at h; subst h; simp at hl
    | k + 1, h => simp [start] at h
  len := rfl
  mono := by
    intro k n qs q b h hk
    match k, h with
    | 0, h => exact absurd rfl hk
    | k + 1, h => simp [start] at h
  plain := by
    intro _ n hn
    rw [List.mem_singleton.1 hn]
    rfl

end Verif.Machines
