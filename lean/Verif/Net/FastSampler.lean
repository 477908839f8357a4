import Verif.Net.GraphLemmas
import Verif.Autoregressive.Sequential

/-!
# Helper lemmas for C43, C44: what the dependency graph contains, and runs along a topological order
-/
namespace Verif.Net

open Verif.Autoregressive (Before)

/-! ### Assigning cells in order -/

section run
variable {ι α : Type} [DecidableEq ι]

/-- Position in a list. -/
def pos (order : List ι) (i : ι) : Nat := order.idxOf i

theorem before_iff {order : List ι} {i j : ι} : Before order j i ↔ pos order j < pos order i := Iff.rfl

theorem pos_cons_self (a : ι) (l : List ι) : pos (a :: l) a = 0 := List.idxOf_cons_self

theorem pos_cons_ne {a b : ι} (l : List ι) (h : b ≠ a) : pos (b :: l) a = pos l a + 1 :=
  List.idxOf_cons_ne _ h

theorem before_mem {order : List ι} {i j : ι} (h : Before order j i) : j ∈ order := by
  unfold Before at h
  have := List.idxOf_le_length (a := i) (l := order)
  exact List.idxOf_lt_length_iff.1 (by omega)

theorem runAll_spec (d : (ι → α) → ι → Option α) (order : List ι) (hnd : order.Nodup)
    (hc : ∀ c ∈ order, ∀ a b, (∀ j, Before order j c → a j = b j) → d a c = d b c)
    (hsome : ∀ c ∈ order, ∀ a, ∃ v, d a c = some v) (post : List ι) :
    ∀ pre, order = pre ++ post → ∀ a, ∃ r, runAll d post a = some r ∧ (∀ j ∈ pre, r j = a j) ∧
      ∀ i ∈ post, d r i = some (r i) := by
  induction post with
  | nil => exact fun pre _ a => ⟨a, rfl, fun _ _ => rfl, by simp⟩
  | cons i rest ih =>
    intro pre he a
    have hio : i ∈ order := by rw [he]; simp
    have hnd' : (pre ++ i :: rest).Nodup := he ▸ hnd
    have hi : i ∉ pre := fun hi => (List.nodup_append.1 hnd').2.2 i hi i (by simp) rfl
    obtain ⟨v, hv⟩ := hsome i hio a
    obtain ⟨r, h1, h2, h3⟩ := ih (pre ++ [i]) (by rw [he]; simp) (Function.update a i v)
    have hpre : ∀ j ∈ pre, r j = a j := by
      intro j hj
      rw [h2 j (by simp [hj]), Function.update_of_ne]
      rintro rfl
      exact hi hj
    refine ⟨r, by simp only [runAll, hv, Option.bind_some, h1], hpre, fun k hk => ?_⟩
    rcases List.mem_cons.1 hk with rfl | hk
    · rw [h2 k (by simp), Function.update_self, ← hv]
      apply hc k hio
      intro j hj
      apply hpre
      unfold Before at hj
      rw [he, List.idxOf_append_of_notMem hi, List.idxOf_cons_self] at hj
      by_contra hjp
      rw [List.idxOf_append_of_notMem hjp] at hj
      omega
    · exact h3 k hk

theorem run_unique (d : (ι → α) → ι → Option α) (order : List ι)
    (hc : ∀ c ∈ order, ∀ a b, (∀ j, Before order j c → a j = b j) → d a c = d b c)
    (a b : ι → α) (ha : ∀ i ∈ order, d a i = some (a i)) (hb : ∀ i ∈ order, d b i = some (b i)) :
    ∀ i ∈ order, a i = b i := by
  have key : ∀ k i, i ∈ order → order.idxOf i < k → a i = b i := by
    intro k
    induction k with
    | zero => intro i _ hi; omega
    | succ k ih =>
      intro i hi hk
      have : some (a i) = some (b i) := by
        rw [← ha i hi, ← hb i hi]
        apply hc i hi
        intro j hj
        refine ih j (before_mem hj) ?_
        unfold Before at hj
        omega
      exact Option.some.inj this
  exact fun i hi => key _ i hi (Nat.lt_succ_self _)

end run

variable {K : Type} [CommSemiring K]

/-- Whether the per-location evaluation succeeds depends only on how many values it gets. -/
theorem applySingle_some_of_length (extra : Nat) (L : Layer K) (sigs : List Sig) (chan : Nat) (l : Loc)
    (vs ws : List (List K)) (hlen : vs.length = ws.length) (h : ∃ v, L.applySingle extra sigs chan l vs = some v) :
    ∃ w, L.applySingle extra sigs chan l ws = some w := by
  obtain ⟨v, h⟩ := h
  have one : ∀ u : List K, vs = [u] → ∃ w, ws = [w] := by
    rintro u rfl
    exact List.length_eq_one_iff.1 hlen.symm
  have head : ∀ (u : List K) us, vs = u :: us → ∃ w ws', ws = w :: ws' := by
    rintro u us rfl
    cases ws with
    | nil => simp at hlen
    | cons w ws => exact ⟨w, ws, rfl⟩
  cases L with
  | input => simp [Layer.applySingle] at h
  | expand =>
    match vs, h with
    | [u], h => obtain ⟨w, rfl⟩ := one u rfl; exact ⟨w, rfl⟩
  | feature out f =>
    match vs, h with
    | [u], h => obtain ⟨w, rfl⟩ := one u rfl; exact ⟨f w, rfl⟩
  | oneHot out f =>
    match vs, h with
    | [u], h => obtain ⟨w, rfl⟩ := one u rfl; exact ⟨f w, rfl⟩
  | merge f => exact ⟨f ws, rfl⟩
  | conv cv =>
    match sigs, h with
    | [(_, cin)], h => exact ⟨cv.applySingle cin ws, rfl⟩
  | zeroPad pads => cases ws with
    | nil => exact ⟨_, rfl⟩
    | cons w ws => exact ⟨w, rfl⟩
  | periodicPad pads =>
    match vs, h with
    | u :: us, h => obtain ⟨w, ws', rfl⟩ := head u us rfl; exact ⟨w, rfl⟩
  | downShift =>
    simp only [Layer.applySingle] at h ⊢
    split
    · exact ⟨_, rfl⟩
    · rw [if_neg (by assumption)] at h
      cases vs with
      | nil => simp at h
      | cons u us => obtain ⟨w, ws', rfl⟩ := head u us rfl; exact ⟨w, rfl⟩
  | rightShift =>
    simp only [Layer.applySingle] at h ⊢
    split
    · exact ⟨_, rfl⟩
    · rw [if_neg (by assumption)] at h
      cases vs with
      | nil => simp at h
      | cons u us => obtain ⟨w, ws', rfl⟩ := head u us rfl; exact ⟨w, rfl⟩
  | gather indices axis =>
    match sigs, vs, h with
    | [(s, _)], u :: us, h =>
      obtain ⟨w, ws', rfl⟩ := head u us rfl
      simp only [Layer.applySingle] at h ⊢
      generalize (if axis < 0 then (s.length + 2 : Int) - axis else axis) = A at h ⊢
      by_cases hA : A = (s.length + 2 : Int) - 1
      · rw [if_pos hA] at h ⊢
        cases hr : resolveAxis (extra + 2) axis with
        | none => simp [hr] at h
        | some a =>
          simp only [hr] at h ⊢
          split at h
          · rename_i ha; rw [if_pos ha]; exact ⟨_, rfl⟩
          · simp at h
      · rw [if_neg hA] at h ⊢
        exact ⟨_, rfl⟩
  | reshape target =>
    match vs, h with
    | u :: us, h => obtain ⟨w, ws', rfl⟩ := head u us rfl; exact ⟨w, rfl⟩
  | concat axis =>
    match sigs, h with
    | (s, _) :: _, h =>
      simp only [Layer.applySingle] at h ⊢
      by_cases hA : axis = -1 ∨ axis = 0 ∨ axis = (s.length + 2 : Int) - 1
      · rw [if_pos hA] at h ⊢
        cases hr : resolveAxis (extra + 2) axis with
        | none => simp [hr] at h
        | some a =>
          simp only [hr] at h ⊢
          split at h
          · rename_i ha; rw [if_pos ha]; exact ⟨_, rfl⟩
          · simp at h
      · rw [if_neg hA] at h ⊢
        cases vs with
        | nil => simp at h
        | cons u us => obtain ⟨w, ws', rfl⟩ := head u us rfl; exact ⟨w, rfl⟩

/-! ### Visited layers -/

theorem visit_spec (g : Graph K) (hlt : ∀ k, ∀ i ∈ g.inputs k, i < k) :
    ∀ f k vis, k < f →
      (∀ m ∈ vis, m ∈ g.visit f k vis) ∧ k ∈ g.visit f k vis ∧
      ∀ m ∈ g.visit f k vis, m ∉ vis → ∀ i ∈ g.inputs m, i ∈ g.visit f k vis := by
  intro f
  induction f with
  | zero => intro k vis h; omega
  | succ f ih =>
    intro k vis hk
    have loop : ∀ (is : List Nat) (v : List Nat), (∀ i ∈ is, i < f) →
        let r := is.foldl (fun v i => if i ∈ v then v else g.visit f i v) v
        (∀ m ∈ v, m ∈ r) ∧ (∀ i ∈ is, i ∈ r) ∧ ∀ m ∈ r, m ∉ v → ∀ i ∈ g.inputs m, i ∈ r := by
      intro is
      induction is with
      | nil => intro v _; exact ⟨fun _ h => h, by simp, fun m h1 h2 => absurd h1 h2⟩
      | cons i is ihl =>
        intro v hi
        simp only [List.foldl_cons]
        by_cases hiv : i ∈ v
        · rw [if_pos hiv]
          obtain ⟨h1, h2, h3⟩ := ihl v fun j hj => hi j (by simp [hj])
          refine ⟨h1, fun j hj => ?_, h3⟩
          rcases List.mem_cons.1 hj with rfl | hj
          · exact h1 _ hiv
          · exact h2 j hj
        · rw [if_neg hiv]
          obtain ⟨a1, a2, a3⟩ := ih i v (hi i (by simp))
          obtain ⟨h1, h2, h3⟩ := ihl (g.visit f i v) fun j hj => hi j (by simp [hj])
          refine ⟨fun m hm => h1 m (a1 m hm), fun j hj => ?_, fun m hm hmv j hj => ?_⟩
          · rcases List.mem_cons.1 hj with rfl | hj
            · exact h1 _ a2
            · exact h2 j hj
          · by_cases hm' : m ∈ g.visit f i v
            · exact h1 _ (a3 m hm' hmv j hj)
            · exact h3 m hm hm' j hj
    obtain ⟨h1, h2, h3⟩ := loop (g.inputs k) (vis ++ [k]) fun i hi => by have := hlt k i hi; omega
    simp only [Graph.visit]
    refine ⟨fun m hm => h1 m (by simp [hm]), h1 k (by simp), fun m hm hmv j hj => ?_⟩
    by_cases hmk : m = k
    · subst hmk; exact h2 j hj
    · exact h3 m hm (by simp [hmv, hmk]) j hj

/-! ### Models -/

/-- A model as Keras hands it over: it can be built on inputs of shape `s0`, its first node is its only
input layer, the output has a value vector for every site, and the functions in its layers return as many
channels as announced. -/
structure Graph.Model (g : Graph K) (s0 : Shape) (sigs : List Sig) (out cout : Nat) : Prop where
  built : g.sigs (s0, 1) = some sigs
  first : ∀ (k : Nat) (n : Node K), g[k]? = some n → (n.layer = .input ↔ k = 0)
  first_inputs : g.inputs 0 = []
  output : sigs[out]? = some (s0, cout)
  not_input : out ≠ 0
  good : g.Good 0 sigs

variable {g : Graph K} {s0 : Shape} {sigs : List Sig} {out cout : Nat}

theorem Graph.Model.eval (hm : g.Model s0 sigs out cout) (x : Loc → K) :
    ∃ ts, g.eval (inputTensor s0 x) = some ts ∧ ts.map Tensor.sig = sigs :=
  eval_of_sigs hm.built _ rfl

theorem Graph.Model.inputs_lt (hm : g.Model s0 sigs out cout) (k : Nat) : ∀ i ∈ g.inputs k, i < k := by
  intro i hi
  by_cases hk : k = 0
  · subst hk; rw [hm.first_inputs] at hi; simp at hi
  · unfold Graph.inputs at hi
    split at hi
    · rename_i n hn
      exact (((sigs_spec hm.built).2 k n hn).2 fun h => hk ((hm.first k n hn).1 h)).1 i hi
    · simp at hi

/-- The per-location view of one node of an evaluated model. -/
theorem Graph.Model.node (hm : g.Model s0 sigs out cout) {x : Loc → K} {ts : List (Tensor K)}
    (ht : g.eval (inputTensor s0 x) = some ts) {k : Nat} {n : Node K} (hn : g[k]? = some n) (hk : k ≠ 0) :
    ∃ qs q t, n.inputs ≠ [] ∧ getAll sigs n.inputs = some qs ∧ sigs[k]? = some q ∧ ts[k]? = some t ∧ t.sig = q ∧
      ∀ l, InShape l q.1 → ∃ ds, n.layer.deps qs l = some ds ∧
        (∀ d ∈ ds, ∃ i u, n.inputs[d.1]? = some i ∧ i < k ∧ sigs[i]? = some u ∧ InShape d.2 u.1) ∧
        n.layer.applySingle 0 qs q.2 l (ds.map fun d => lookup ts (n.inputs.getD d.1 0, d.2)) = some (t.val l) := by
  obtain ⟨ts', ht', hsig⟩ := hm.eval x
  rw [ht] at ht'
  obtain rfl := Option.some.inj ht'
  have hin : n.layer ≠ .input := fun h => hk ((hm.first k n hn).1 h)
  obtain ⟨hlt, ins, t, hins, ha, htk⟩ := ((eval_spec ht).2 k n hn).2 hin
  have hq : getAll sigs n.inputs = some (ins.map Tensor.sig) := by rw [← hsig, getAll_map, hins]; rfl
  have hwf : ∀ u ∈ ins, u.WF := by
    intro u hu
    obtain ⟨hlen, hget⟩ := getAll_spec hins
    obtain ⟨j, hj⟩ := List.mem_iff_getElem?.1 hu
    have hj' : j < n.inputs.length := by rw [← hlen]; exact (List.getElem?_eq_some_iff.1 hj).1
    obtain ⟨a, ha1, ha2⟩ := hget j _ (List.getElem?_eq_getElem hj')
    rw [hj] at ha2
    obtain rfl := Option.some.inj ha2
    exact eval_wf ht (by intro l _; rfl) (hsig ▸ hm.good) _ u ha1
  obtain ⟨hok, hsup⟩ := hm.good k n hn hin _ hq
  refine ⟨_, t.sig, t, ?_, hq, ?_, htk, rfl, fun l hl => ?_⟩
  · intro hnil
    rw [hnil] at hins
    simp only [getAll, Option.some.injEq] at hins
    subst hins
    simp only [Layer.apply, List.map_nil, Option.map_eq_some_iff] at ha
    obtain ⟨q, hq, -⟩ := ha
    cases hL : n.layer <;> rw [hL] at hq <;> simp [Layer.outSig] at hq
  · rw [← hsig, List.getElem?_map, htk]; rfl
  obtain ⟨ds, h1, h2, h3⟩ := C41_single_partial 0 n.layer ins hwf t ha hsup l hl
  obtain ⟨hlen, hget⟩ := getAll_spec hins
  have key : ∀ d ∈ ds, ∃ i u, n.inputs[d.1]? = some i ∧ ins[d.1]? = some u ∧ ts[i]? = some u ∧ InShape d.2 u.shape := by
    intro d hd
    obtain ⟨u, hu, hin⟩ := h2 d hd
    have hj' : d.1 < n.inputs.length := by rw [← hlen]; exact (List.getElem?_eq_some_iff.1 hu).1
    obtain ⟨a, ha1, ha2⟩ := hget d.1 _ (List.getElem?_eq_getElem hj')
    rw [hu] at ha2
    obtain rfl := Option.some.inj ha2
    exact ⟨_, u, List.getElem?_eq_getElem hj', hu, ha1, hin⟩
  refine ⟨ds, h1, fun d hd => ?_, ?_⟩
  · obtain ⟨i, u, e1, -, e3, e4⟩ := key d hd
    refine ⟨i, u.sig, e1, hlt i (List.mem_of_getElem? e1), ?_, e4⟩
    rw [← hsig, List.getElem?_map, e3]; rfl
  · rw [← h3]
    congr 1
    apply List.map_congr_left
    intro d hd
    obtain ⟨i, u, e1, e2, e3, -⟩ := key d hd
    simp only [lookup, e2, List.getD_eq_getElem?_getD, e1, Option.getD_some, e3]

/-- What the dependency graph contains. -/
theorem Graph.Model.graph (hm : g.Model s0 sigs out cout) {es : List (Cell × Cell)} (he : g.edges sigs out = some es) :
    (∀ e ∈ es, ∀ c, (c = e.1 ∨ c = e.2) → ∃ q, sigs[c.1]? = some q ∧ InShape c.2 q.1 ∧
      (c.1 ≠ 0 → ∃ n ds, g[c.1]? = some n ∧ ∃ qs, getAll sigs n.inputs = some qs ∧ n.layer.depsKw qs c.2 = some ds ∧
        n.layer.depsKw qs c.2 = n.layer.deps qs c.2 ∧
        ∀ d ∈ ds, ((n.inputs.getD d.1 0, d.2), c) ∈ es)) ∧
    ∀ l, InShape l s0 → ((out, l), (0, l)) ∈ es := by
  unfold Graph.edges at he
  simp only [Option.bind_eq_some_iff, hm.output, Option.some.injEq] at he
  obtain ⟨es1, h1, q, rfl, rfl⟩ := he
  obtain ⟨hv1, hv2⟩ := collect_spec h1
  obtain ⟨-, hvo, hvc⟩ := visit_spec g hm.inputs_lt (out + 1) out [] (Nat.lt_succ_self _)
  obtain ⟨ts0, ht0, -⟩ := hm.eval fun _ => 0
  obtain ⟨hslen, -⟩ := sigs_spec hm.built
  -- edges of a visited layer
  have hnode : ∀ k ∈ g.visit (out + 1) out [], k ≠ 0 → ∃ n qs q, g[k]? = some n ∧ getAll sigs n.inputs = some qs ∧
      sigs[k]? = some q ∧ ∀ l, InShape l q.1 → ∃ ds, n.layer.depsKw qs l = some ds ∧
        n.layer.depsKw qs l = n.layer.deps qs l ∧
        ∀ d ∈ ds, ((n.inputs.getD d.1 0, d.2), (k, l)) ∈ es1 := by
    intro k hk hk0
    obtain ⟨r, hr, hsub⟩ := hv1 k hk
    unfold Graph.layerEdges at hr
    split at hr
    · simp at hr
    · rename_i n hn
      obtain ⟨qs, q, t, hne, hqs, hq, -⟩ := hm.node ht0 hn hk0
      rw [if_neg hne, hqs, hq] at hr
      simp only [Option.bind_some] at hr
      obtain ⟨hc1, -⟩ := collect_spec hr
      refine ⟨n, qs, q, hn, hqs, hq, fun l hl => ?_⟩
      obtain ⟨p, hp, hps⟩ := hc1 l ((Verif.Ordering.mem_raster _ _).2 hl)
      simp only [Option.bind_eq_some_iff, Option.some.injEq] at hp
      obtain ⟨ds, hds, rfl⟩ := hp
      refine ⟨ds, hds, ?_, fun d hd => ?_⟩
      · cases hL : n.layer <;> rw [hL] at hds <;> first | rfl | simp [Layer.depsKw] at hds
      · exact hsub _ (hps _ (List.mem_map.2 ⟨d, hd, rfl⟩))
  have hcell : ∀ k ∈ g.visit (out + 1) out [], ∀ l q, sigs[k]? = some q → InShape l q.1 →
      ∃ q, sigs[k]? = some q ∧ InShape l q.1 ∧
      (k ≠ 0 → ∃ n ds, g[k]? = some n ∧ ∃ qs, getAll sigs n.inputs = some qs ∧ n.layer.depsKw qs l = some ds ∧
        n.layer.depsKw qs l = n.layer.deps qs l ∧
        ∀ d ∈ ds, ((n.inputs.getD d.1 0, d.2), ((k, l) : Cell)) ∈ es1 ++
          (Verif.Ordering.raster s0).map fun l => ((out, l), (0, l))) := by
    intro k hk l q hq hl
    refine ⟨q, hq, hl, fun hk0 => ?_⟩
    obtain ⟨n, qs, q', hn, hqs, hq', hall⟩ := hnode k hk hk0
    rw [hq] at hq'
    obtain rfl := Option.some.inj hq'
    obtain ⟨ds, h1, h2, h3⟩ := hall l hl
    exact ⟨n, ds, hn, qs, hqs, h1, h2, fun d hd => List.mem_append_left _ (h3 d hd)⟩
  have h0sig : sigs[0]? = some (s0, 1) := by
    have hlen : 0 < g.length := by
      have : out < sigs.length := (List.getElem?_eq_some_iff.1 hm.output).1
      omega
    have hn := List.getElem?_eq_getElem hlen
    exact ((sigs_spec hm.built).2 0 _ hn).1 ((hm.first 0 _ hn).2 rfl)
  constructor
  · intro e hee c hc
    rcases List.mem_append.1 hee with hee | hee
    · obtain ⟨k, hk, r, hr, her⟩ := hv2 e hee
      unfold Graph.layerEdges at hr
      split at hr
      · simp at hr
      rename_i n hn
      by_cases hne : n.inputs = []
      · rw [if_pos hne] at hr
        simp only [Option.some.injEq] at hr
        subst hr
        simp at her
      have hk0 : k ≠ 0 := by
        rintro rfl
        have := hm.first_inputs
        unfold Graph.inputs at this
        rw [hn] at this
        exact hne this
      obtain ⟨qs, q, t, -, hqs, hq, -, -, hall⟩ := hm.node ht0 hn hk0
      rw [if_neg hne, hqs, hq] at hr
      simp only [Option.bind_some] at hr
      obtain ⟨l, hl, p, hp, hep⟩ := (collect_spec hr).2 e her
      have hl := (Verif.Ordering.mem_raster _ _).1 hl
      simp only [Option.bind_eq_some_iff, Option.some.injEq] at hp
      obtain ⟨ds, hds, rfl⟩ := hp
      obtain ⟨d, hd, rfl⟩ := List.mem_map.1 hep
      rcases hc with rfl | rfl
      · obtain ⟨ds', hds', hin, -⟩ := hall l hl
        have hdd : ds' = ds := by
          have e : n.layer.depsKw qs l = n.layer.deps qs l := by
            cases hL : n.layer <;> rw [hL] at hds <;> first | rfl | simp [Layer.depsKw] at hds
          rw [e, hds'] at hds
          exact Option.some.inj hds
        subst hdd
        obtain ⟨i, u, e1, e2, e3, e4⟩ := hin d hd
        have ei : n.inputs.getD d.1 0 = i := by rw [List.getD_eq_getElem?_getD, e1]; rfl
        simp only [ei]
        refine hcell i ?_ d.2 u e3 e4
        apply hvc k hk (by simp) i
        unfold Graph.inputs
        rw [hn]
        exact List.mem_of_getElem? e1
      · exact hcell k hk l q hq hl
    · obtain ⟨l, hl, rfl⟩ := List.mem_map.1 hee
      have hl := (Verif.Ordering.mem_raster _ _).1 hl
      rcases hc with rfl | rfl
      · exact hcell out hvo l _ hm.output hl
      · exact ⟨_, h0sig, hl, fun h => absurd rfl h⟩
  · intro l hl
    exact List.mem_append_right _ (List.mem_map.2 ⟨l, (Verif.Ordering.mem_raster _ _).2 hl, rfl⟩)

/-! ### Runs of the sampling loop -/

section runs
variable (hm : g.Model s0 sigs out cout) {es : List (Cell × Cell)} (he : g.edges sigs out = some es)
  {order : List Cell} (ho : IsTopological es order) (draw : Loc → List K → K)
include hm he ho

theorem cellValue_causal (c : Cell) (hc : c ∈ order) (a b : Cell → List K)
    (hab : ∀ j, Before order j c → a j = b j) :
    g.cellValue sigs out draw a c = g.cellValue sigs out draw b c := by
  obtain ⟨e, hee, hec⟩ := (ho.2.1 c).1 hc
  obtain ⟨hcells, hsamp⟩ := hm.graph he
  obtain ⟨q, hq, hin, hcell⟩ := hcells e hee c hec
  by_cases hk : c.1 = 0
  · have hlen : c.1 < g.length := by
      have := (List.getElem?_eq_some_iff.1 hq).1
      rwa [(sigs_spec hm.built).1] at this
    have hn := List.getElem?_eq_getElem hlen
    have hl := (hm.first c.1 _ hn).2 hk
    have hq0 := ((sigs_spec hm.built).2 c.1 _ hn).1 hl
    rw [hq] at hq0
    obtain rfl := Option.some.inj hq0
    unfold Graph.cellValue
    rw [hn]
    simp only [hl]
    rw [hab]
    have := ho.2.2 _ (hsamp c.2 hin)
    have hc0 : c = (0, c.2) := by rw [← hk]
    rw [← hc0] at this
    exact this
  · obtain ⟨n, ds, hn, qs, hqs, hds, -, hed⟩ := hcell hk
    have hin : n.layer ≠ .input := fun h => hk ((hm.first c.1 n hn).1 h)
    unfold Graph.cellValue
    rw [hn]
    simp only
    simp only [hqs, hq, hds, Option.bind_some]
    congr 1
    apply List.map_congr_left
    intro d hd
    exact hab _ (ho.2.2 _ (hed d hd))

theorem cellValue_some (c : Cell) (hc : c ∈ order) (a : Cell → List K) :
    ∃ v, g.cellValue sigs out draw a c = some v := by
  obtain ⟨e, hee, hec⟩ := (ho.2.1 c).1 hc
  obtain ⟨hcells, -⟩ := hm.graph he
  obtain ⟨q, hq, hin, hcell⟩ := hcells e hee c hec
  have hlen : c.1 < g.length := by
    have := (List.getElem?_eq_some_iff.1 hq).1
    rwa [(sigs_spec hm.built).1] at this
  have hn := List.getElem?_eq_getElem hlen
  unfold Graph.cellValue
  rw [hn]
  simp only
  split
  · exact ⟨_, rfl⟩
  · rename_i hni
    have hk : c.1 ≠ 0 := fun h => hni ((hm.first c.1 _ hn).2 h)
    obtain ⟨n, ds, hn', qs, hqs, hds, hkw, hed⟩ := hcell hk
    rw [hn] at hn'
    obtain rfl := Option.some.inj hn'
    obtain ⟨ts0, ht0, -⟩ := hm.eval fun _ => 0
    obtain ⟨qs', q', t, -, hqs', hq', -, -, hall⟩ := hm.node ht0 hn hk
    rw [hqs] at hqs'; obtain rfl := Option.some.inj hqs'
    rw [hq] at hq'; obtain rfl := Option.some.inj hq'
    obtain ⟨ds', hds', -, happ⟩ := hall c.2 hin
    rw [hkw, hds'] at hds
    obtain rfl := Option.some.inj hds
    simp only [hqs, hq, hkw, hds', Option.bind_some]
    exact applySingle_some_of_length 0 _ _ _ _ _ _ (by simp) ⟨_, happ⟩

/-- The value of the full network at a cell of the graph, from the values at its dependencies. -/
theorem cellValue_eval {x : Loc → K} {ts : List (Tensor K)} (ht : g.eval (inputTensor s0 x) = some ts)
    (c : Cell) (hc : c ∈ order) (hk : c.1 ≠ 0) (a : Cell → List K)
    (ha : ∀ i l, i < c.1 → (i, l) ∈ order → a (i, l) = lookup ts (i, l)) :
    g.cellValue sigs out draw a c = some (lookup ts c) := by
  obtain ⟨e, hee, hec⟩ := (ho.2.1 c).1 hc
  obtain ⟨hcells, -⟩ := hm.graph he
  obtain ⟨q, hq, hin, hcell⟩ := hcells e hee c hec
  obtain ⟨n, ds, hn, qs, hqs, hds, hkw, hed⟩ := hcell hk
  have hni : n.layer ≠ .input := fun h => hk ((hm.first c.1 n hn).1 h)
  obtain ⟨qs', q', t, -, hqs', hq', htk, -, hall⟩ := hm.node ht hn hk
  rw [hqs] at hqs'; obtain rfl := Option.some.inj hqs'
  rw [hq] at hq'; obtain rfl := Option.some.inj hq'
  obtain ⟨ds', hds', hdep, happ⟩ := hall c.2 hin
  have hdd := hds
  rw [hkw, hds'] at hdd
  obtain rfl := Option.some.inj hdd
  unfold Graph.cellValue
  rw [hn]
  simp only
  simp only [hqs, hq, hds, Option.bind_some]
  have hlk : lookup ts c = t.val c.2 := by simp only [lookup, htk]
  rw [hlk, ← happ]
  congr 1
  apply List.map_congr_left
  intro d hd
  obtain ⟨i, u, e1, e2, -, -⟩ := hdep d hd
  have ei : n.inputs.getD d.1 0 = i := by rw [List.getD_eq_getElem?_getD, e1]; rfl
  rw [ei]
  refine ha i d.2 e2 ?_
  have := hed d hd
  rw [ei] at this
  exact (ho.2.1 _).2 ⟨_, this, Or.inl rfl⟩

end runs

end Verif.Net
