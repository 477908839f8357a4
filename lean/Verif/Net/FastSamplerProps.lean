import Verif.Net.FastSampler
import Verif.Autoregressive.Props
import Mathlib.Data.Fintype.Basic
import Mathlib.Data.Complex.Basic
import Mathlib.Logic.Relation
import Mathlib.Order.WellFounded
import Mathlib.Data.Fintype.Sets
import Mathlib.Order.Fin.Finset
import Mathlib.Data.Fintype.Order

/-!
# C43, C44: the fast sampler and rejection of cyclic models
-/
namespace Verif.Net

open Verif.Autoregressive (Before Complete Causal decideAll decideAll_spec)

variable {K : Type} [CommSemiring K] {g : Graph K} {s0 : Shape} {sigs : List Sig} {out cout : Nat}

/-! ### Specification -/

/-- Output of the full network at a site when the input is `x`. -/
def Graph.output (g : Graph K) (s0 : Shape) (out : Nat) (x : Loc → K) (l : Loc) : List K :=
  match g.eval (inputTensor s0 x) with
  | some ts => match ts[out]? with
    | some y => y.val l
    | none => []
  | none => []

/-- Every entry of `x` is the draw from the network output at that site on `x` itself. -/
def Graph.Consistent (g : Graph K) (s0 : Shape) (out : Nat) (draw : Loc → List K → K) (x : Loc → K) : Prop :=
  ∀ l, InShape l s0 → x l = draw l (g.output s0 out x l)

/-- Changing the input at site `j` can change the output at site `i`. -/
def Graph.DependsOn (g : Graph K) (s0 : Shape) (out : Nat) (i j : Loc) : Prop :=
  InShape i s0 ∧ ∃ x x' : Loc → K, (∀ l, l ≠ j → x l = x' l) ∧ g.output s0 out x i ≠ g.output s0 out x' i

/-! ### Helper facts -/

theorem Graph.Model.output_eq (hm : g.Model s0 sigs out cout) {x : Loc → K} {ts : List (Tensor K)}
    (ht : g.eval (inputTensor s0 x) = some ts) (l : Loc) : g.output s0 out x l = lookup ts (out, l) := by
  unfold Graph.output lookup
  rw [ht]
  dsimp only
  cases ts[out]? <;> rfl

theorem Graph.Model.lookup_input (hm : g.Model s0 sigs out cout) {x : Loc → K} {ts : List (Tensor K)}
    (ht : g.eval (inputTensor s0 x) = some ts) (l : Loc) : lookup ts (0, l) = [x l] := by
  have hlen : 0 < g.length := by
    have : out < sigs.length := (List.getElem?_eq_some_iff.1 hm.output).1
    rw [(sigs_spec hm.built).1] at this
    omega
  have hn := List.getElem?_eq_getElem hlen
  have := ((eval_spec ht).2 0 _ hn).1 ((hm.first 0 _ hn).2 rfl)
  simp only [lookup, this, inputTensor]

section
variable (hm : g.Model s0 sigs out cout) {es : List (Cell × Cell)} (he : g.edges sigs out = some es)
  {order : List Cell} (ho : IsTopological es order) (draw : Loc → List K → K)
include hm he ho

theorem mem_order_out (l : Loc) (hl : InShape l s0) : (out, l) ∈ order ∧ (0, l) ∈ order :=
  ⟨(ho.2.1 _).2 ⟨_, (hm.graph he).2 l hl, Or.inl rfl⟩, (ho.2.1 _).2 ⟨_, (hm.graph he).2 l hl, Or.inr rfl⟩⟩

theorem cellValue_input (c : Cell) (hc : c ∈ order) (hk : c.1 = 0) (a : Cell → List K) :
    g.cellValue sigs out draw a c = some [draw c.2 (a (out, c.2))] ∧ InShape c.2 s0 := by
  obtain ⟨e, hee, hec⟩ := (ho.2.1 c).1 hc
  obtain ⟨q, hq, hin, -⟩ := (hm.graph he).1 e hee c hec
  have hlen : c.1 < g.length := by
    have := (List.getElem?_eq_some_iff.1 hq).1
    rwa [(sigs_spec hm.built).1] at this
  have hn := List.getElem?_eq_getElem hlen
  have hl := (hm.first c.1 _ hn).2 hk
  have hq0 := ((sigs_spec hm.built).2 c.1 _ hn).1 hl
  rw [hq] at hq0
  obtain rfl := Option.some.inj hq0
  unfold Graph.cellValue
  rw [hn]
  simp only [hl]
  exact ⟨trivial, hin⟩

/-- The activations of a consistent input are a fixed point of the sampling loop. -/
theorem consistent_fixed {x : Loc → K} (hx : g.Consistent s0 out draw x) {ts : List (Tensor K)}
    (ht : g.eval (inputTensor s0 x) = some ts) :
    ∀ c ∈ order, g.cellValue sigs out draw (lookup ts) c = some (lookup ts c) := by
  intro c hc
  by_cases hk : c.1 = 0
  · obtain ⟨h1, h2⟩ := cellValue_input hm he ho draw c hc hk (lookup ts)
    rw [h1, ← hm.output_eq ht, ← hx c.2 h2]
    have : c = (0, c.2) := by rw [← hk]
    rw [this, hm.lookup_input ht]
  · exact cellValue_eval hm he ho draw ht c hc hk _ fun _ _ _ _ => rfl

/-- A fixed point of the sampling loop is a consistent input with its activations. -/
theorem fixed_consistent {act : Cell → List K}
    (hfix : ∀ c ∈ order, g.cellValue sigs out draw act c = some (act c)) :
    g.Consistent s0 out draw (sampleOf act) := by
  obtain ⟨ts, ht, -⟩ := hm.eval (sampleOf act)
  have key : ∀ k l, (k, l) ∈ order → act (k, l) = lookup ts (k, l) := by
    intro k
    induction k using Nat.strong_induction_on with
    | _ k ih =>
      intro l hl
      by_cases hk : k = 0
      · subst hk
        obtain ⟨h1, -⟩ := cellValue_input hm he ho draw (0, l) hl rfl act
        have h2 := hfix _ hl
        rw [h1] at h2
        rw [hm.lookup_input ht]
        simp only [sampleOf, ← Option.some.inj h2, List.headD_cons]
      · have h1 := cellValue_eval hm he ho draw ht (k, l) hl hk act fun i l' hi hl' => ih i hi l' hl'
        rw [hfix _ hl] at h1
        exact Option.some.inj h1
  intro l hl
  obtain ⟨ho1, ho2⟩ := mem_order_out hm he ho l hl
  obtain ⟨h1, -⟩ := cellValue_input hm he ho draw (0, l) ho2 rfl act
  have h2 := hfix _ ho2
  rw [h1] at h2
  rw [hm.output_eq ht, ← key out l ho1]
  simp only [sampleOf, ← Option.some.inj h2, List.headD_cons]

theorem fastSample_fixed :
    ∃ act, g.fastSample sigs out order draw = some act ∧
      ∀ c ∈ order, g.cellValue sigs out draw act c = some (act c) := by
  obtain ⟨r, h1, -, h3⟩ := runAll_spec (g.cellValue sigs out draw) order ho.1
    (cellValue_causal hm he ho draw) (cellValue_some hm he ho draw) order [] rfl
    (fun c => match sigs[c.1]? with
      | some q => List.replicate q.2 0
      | none => [])
  exact ⟨r, h1, h3⟩

/-- **C43.** For every model of supported layers and every topological order of its dependency graph, the
sampler can be built, and every entry of the sample is the draw from the output of the full network,
evaluated on the sample itself, at that site. -/
theorem C43_consistent :
    ∃ act, g.fastSampler sigs out (some order) draw = some act ∧ g.Consistent s0 out draw (sampleOf act) := by
  obtain ⟨act, h1, h2⟩ := fastSample_fixed hm he ho draw
  refine ⟨act, ?_, fixed_consistent hm he ho draw h2⟩
  simp only [Graph.fastSampler, he, Option.bind_some, h1]

/-- **C43, uniqueness.** For given draws there is no other consistent configuration. -/
theorem C43_unique (x x' : Loc → K) (hx : g.Consistent s0 out draw x) (hx' : g.Consistent s0 out draw x')
    (l : Loc) (hl : InShape l s0) : x l = x' l := by
  obtain ⟨ts, ht, -⟩ := hm.eval x
  obtain ⟨ts', ht', -⟩ := hm.eval x'
  have := run_unique (g.cellValue sigs out draw) order (cellValue_causal hm he ho draw) (lookup ts) (lookup ts')
    (consistent_fixed hm he ho draw hx ht) (consistent_fixed hm he ho draw hx' ht') (0, l)
    (mem_order_out hm he ho l hl).2
  rw [hm.lookup_input ht, hm.lookup_input ht'] at this
  simpa using this

/-- The order networkx happens to choose has no influence on the sample. -/
theorem C43_any_order {order' : List Cell} (ho' : IsTopological es order') :
    ∃ act act', g.fastSampler sigs out (some order) draw = some act ∧
      g.fastSampler sigs out (some order') draw = some act' ∧ ∀ l, InShape l s0 → sampleOf act l = sampleOf act' l := by
  obtain ⟨act, h1, h2⟩ := C43_consistent hm he ho draw
  obtain ⟨act', h1', h2'⟩ := C43_consistent hm he ho' draw
  exact ⟨act, act', h1, h1', C43_unique hm he ho draw _ _ h2 h2'⟩

/-- What the full network computes at a cell only depends on input sites up to that cell. -/
theorem lookup_causal {x x' : Loc → K} {ts ts' : List (Tensor K)} (ht : g.eval (inputTensor s0 x) = some ts)
    (ht' : g.eval (inputTensor s0 x') = some ts') :
    ∀ n c, c ∈ order → pos order c < n → (∀ j, pos order (0, j) ≤ pos order c → x j = x' j) →
      lookup ts c = lookup ts' c := by
  intro n
  induction n with
  | zero => intro c _ h; omega
  | succ n ih =>
    intro c hc hlt hx
    by_cases hk : c.1 = 0
    · have : c = (0, c.2) := by rw [← hk]
      rw [this, hm.lookup_input ht, hm.lookup_input ht', hx c.2 (by rw [this])]
    · have h1 := cellValue_eval hm he ho (fun _ _ => 0) ht c hc hk (lookup ts) fun _ _ _ _ => rfl
      have h2 := cellValue_eval hm he ho (fun _ _ => 0) ht' c hc hk (lookup ts') fun _ _ _ _ => rfl
      rw [cellValue_causal hm he ho (fun _ _ => 0) c hc (lookup ts) (lookup ts')] at h1
      · rw [h1] at h2; exact Option.some.inj h2
      · intro j hj
        have hj' := hj
        rw [before_iff] at hj'
        exact ih j (before_mem hj) (by omega) fun i hi => hx i (by omega)

/-- **C44, accepted models.** If the dependency graph has a topological order, the sites can be listed so
that the output at every site depends only on earlier sites. -/
theorem C44_accepted_causal :
    ∃ sites : List Loc, sites.Nodup ∧ (∀ l, l ∈ sites ↔ InShape l s0) ∧
      ∀ i ∈ sites, ∀ x x' : Loc → K, (∀ j, Before sites j i → x j = x' j) →
        g.output s0 out x i = g.output s0 out x' i := by
  classical
  have hmem : ∀ (os : List Cell) l, l ∈ os.filterMap (fun c => if c.1 = 0 then some c.2 else none) ↔ (0, l) ∈ os := by
    intro os l
    rw [List.mem_filterMap]
    constructor
    · rintro ⟨c, hc, h⟩
      split at h
      · rename_i h0
        have : c = (0, l) := by
          rw [← h0, ← Option.some.inj h]
        rwa [← this]
      · simp at h
    · intro h
      exact ⟨_, h, by simp⟩
  have hidx : ∀ (os : List Cell) (i j : Loc), os.Nodup → (0, i) ∈ os → pos os ((0, j) : Cell) < pos os ((0, i) : Cell) →
      Before (os.filterMap fun c => if c.1 = 0 then some c.2 else none) j i := by
    intro os i j
    induction os with
    | nil => intro _ h; simp at h
    | cons c os ih =>
      intro hnd hi hlt
      by_cases hci : c = (0, i)
      · subst hci
        rw [pos_cons_self] at hlt
        omega
      · rw [pos_cons_ne _ hci] at hlt
        have hi' : (0, i) ∈ os := by
          rcases List.mem_cons.1 hi with h | h
          · exact absurd h.symm hci
          · exact h
        by_cases hcj : c = (0, j)
        · subst hcj
          have hij : i ≠ j := fun h => hci (by rw [h])
          simp only [List.filterMap_cons, if_true]
          rw [before_iff]
          rw [pos_cons_self, pos_cons_ne _ (Ne.symm hij)]
          omega
        · rw [pos_cons_ne _ hcj] at hlt
          have hb := ih (List.nodup_cons.1 hnd).2 hi' (by omega)
          by_cases h0 : c.1 = 0
          · simp only [List.filterMap_cons, if_pos h0]
            rw [before_iff] at hb ⊢
            rw [pos_cons_ne, pos_cons_ne]
            · omega
            · intro h; exact hci (by rw [← h0, ← h])
            · intro h; exact hcj (by rw [← h0, ← h])
          · simp only [List.filterMap_cons, if_neg h0]
            exact hb
  refine ⟨order.filterMap fun c => if c.1 = 0 then some c.2 else none, ?_, ?_, ?_⟩
  · refine List.Nodup.filterMap ?_ ho.1
    intro c c' b hb hb'
    simp only [Option.mem_def] at hb hb'
    split at hb
    · split at hb'
      · rename_i h h'
        exact Prod.ext (h.trans h'.symm) ((Option.some.inj hb).trans (Option.some.inj hb').symm)
      · simp at hb'
    · simp at hb
  · intro l
    rw [hmem]
    constructor
    · intro h
      exact (cellValue_input hm he ho (fun _ _ => 0) (0, l) h rfl fun _ => []).2
    · exact fun h => (mem_order_out hm he ho l h).2
  · intro i hi x x' hx
    rw [hmem] at hi
    have hin := (cellValue_input hm he ho (fun _ _ => 0) (0, i) hi rfl fun _ => []).2
    obtain ⟨ts, ht, -⟩ := hm.eval x
    obtain ⟨ts', ht', -⟩ := hm.eval x'
    rw [hm.output_eq ht, hm.output_eq ht']
    refine lookup_causal hm he ho ht ht' _ (out, i) (mem_order_out hm he ho i hin).1 (Nat.lt_succ_self _) fun j hj => ?_
    apply hx
    apply hidx _ _ _ ho.1 hi
    have := ho.2.2 _ ((hm.graph he).2 i hin)
    rw [before_iff] at this
    simp only at this
    omega

/-- **C43, plain sampler.** Deciding the sites one after the other, in any order in which the output is
causal, always on the output of the full network, gives the same configuration. -/
theorem C43_plain (sites : List Loc) (hnd : sites.Nodup) (hmem : ∀ l, l ∈ sites ↔ InShape l s0)
    (hc : ∀ i ∈ sites, ∀ x x' : Loc → K, (∀ j, Before sites j i → x j = x' j) →
      g.output s0 out x i = g.output s0 out x' i) (x0 : Loc → K) :
    ∃ act, g.fastSampler sigs out (some order) draw = some act ∧ ∀ l, InShape l s0 →
      sampleOf act l = decideAll (fun x i => draw i (g.output s0 out x i)) sites x0 l := by
  obtain ⟨act, h1, h2⟩ := C43_consistent hm he ho draw
  refine ⟨act, h1, C43_unique hm he ho draw _ _ h2 fun l hl => ?_⟩
  exact (decideAll_spec (fun x i => draw i (g.output s0 out x i)) sites hnd
    (fun i hi s s' h => by rw [hc i hi s s' h]) sites [] rfl x0).2 l ((hmem l).2 hl)

/-- A site comes after every site its conditional depends on. -/
theorem dependsOn_before {i j : Loc} (h : g.DependsOn s0 out i j) : Before order (0, j) (0, i) := by
  obtain ⟨hi, x, x', hx, hne⟩ := h
  obtain ⟨ts, ht, -⟩ := hm.eval x
  obtain ⟨ts', ht', -⟩ := hm.eval x'
  rw [hm.output_eq ht, hm.output_eq ht'] at hne
  have hb := ho.2.2 _ ((hm.graph he).2 i hi)
  rw [before_iff] at hb ⊢
  simp only at hb
  by_contra hlt
  refine hne (lookup_causal hm he ho ht ht' _ (out, i) (mem_order_out hm he ho i hi).1 (Nat.lt_succ_self _) fun k hk => ?_)
  apply hx
  rintro rfl
  omega

end

/-- **C44, cyclic conditionals.** If the conditionals depend cyclically on each other, forcing the
topological sort raises and the fast sampler cannot be built. -/
theorem C44_cyclic_rejected (hm : g.Model s0 sigs out cout) (i : Loc)
    (hcyc : Relation.TransGen (g.DependsOn s0 out) i i) (es : List (Cell × Cell))
    (he : g.edges sigs out = some es) (r : Option (List Cell)) (hr : ForcedSort es r) (draw : Loc → List K → K) :
    r = none ∧ g.fastSampler sigs out r draw = none := by
  have hnone : r = none := by
    cases r with
    | none => rfl
    | some order =>
      exfalso
      have key : ∀ a b, Relation.TransGen (g.DependsOn s0 out) a b → Before order ((0, b) : Cell) (0, a) := by
        intro a b h
        induction h with
        | single h => exact dependsOn_before hm he hr h
        | tail _ h ih =>
          have := dependsOn_before hm he hr h
          rw [before_iff] at ih this ⊢
          omega
      have := key i i hcyc
      rw [before_iff] at this
      omega
  subst hnone
  exact ⟨rfl, by simp [Graph.fastSampler, he]⟩

/-- A finite relation without cycles has a topological order. -/
theorem exists_topological (es : List (Cell × Cell))
    (hac : ∀ c, ¬ Relation.TransGen (fun a b => (a, b) ∈ es) c c) : ∃ order, IsTopological es order := by
  classical
  have step : ∀ n (nodes : List Cell), nodes.length = n → nodes.Nodup →
      ∃ order : List Cell, order.Nodup ∧ (∀ c, c ∈ order ↔ c ∈ nodes) ∧
        ∀ a ∈ nodes, ∀ b ∈ nodes, (a, b) ∈ es → Before order a b := by
    intro n
    induction n with
    | zero =>
      intro nodes hn _
      obtain rfl := List.length_eq_zero_iff.1 hn
      exact ⟨[], by simp, by simp, by simp⟩
    | succ n ih =>
      intro nodes hn hnd
      have hmin : ∃ m ∈ nodes, ∀ b ∈ nodes, ¬ (b, m) ∈ es := by
        let r : {c // c ∈ nodes} → {c // c ∈ nodes} → Prop := fun a b =>
          Relation.TransGen (fun a b => (a, b) ∈ es) a.1 b.1
        haveI : IsTrans {c // c ∈ nodes} r := ⟨fun a b c h1 h2 => Relation.TransGen.trans h1 h2⟩
        haveI : Std.Irrefl r := ⟨fun a h => hac _ h⟩
        have wf : WellFounded r := Finite.wellFounded_of_trans_of_irrefl r
        have hne : nodes ≠ [] := by rintro rfl; simp at hn
        obtain ⟨c, hc⟩ := List.exists_mem_of_ne_nil nodes hne
        obtain ⟨m, -, hm⟩ := wf.has_min Set.univ ⟨⟨c, hc⟩, trivial⟩
        exact ⟨m.1, m.2, fun b hb h => hm ⟨b, hb⟩ trivial (Relation.TransGen.single h)⟩
      obtain ⟨m, hm, hmn⟩ := hmin
      obtain ⟨order, h1, h2, h3⟩ := ih (nodes.erase m) (by rw [List.length_erase_of_mem hm, hn]; rfl) (hnd.erase m)
      have hmem : ∀ c, c ∈ nodes.erase m ↔ c ≠ m ∧ c ∈ nodes := fun c => hnd.mem_erase_iff
      refine ⟨m :: order, ?_, ?_, ?_⟩
      · exact List.nodup_cons.2 ⟨fun h => ((hmem m).1 ((h2 m).1 h)).1 rfl, h1⟩
      · intro c
        rw [List.mem_cons, h2, hmem]
        by_cases hcm : c = m
        · simp [hcm, hm]
        · simp [hcm]
      · intro a ha b hb hab
        have hbm : b ≠ m := by rintro rfl; exact hmn a ha hab
        rw [before_iff]
        by_cases ham : a = m
        · subst ham
          rw [pos_cons_self, pos_cons_ne _ (Ne.symm hbm)]
          omega
        · rw [pos_cons_ne _ (Ne.symm ham), pos_cons_ne _ (Ne.symm hbm)]
          have := h3 a ((hmem a).2 ⟨ham, ha⟩) b ((hmem b).2 ⟨hbm, hb⟩) hab
          rw [before_iff] at this
          omega
  obtain ⟨order, h1, h2, h3⟩ := step _ (es.flatMap fun e => [e.1, e.2]).dedup rfl (List.nodup_dedup _)
  have hnodes : ∀ c, c ∈ (es.flatMap fun e => [e.1, e.2]).dedup ↔ ∃ e ∈ es, c = e.1 ∨ c = e.2 := by
    intro c
    rw [List.mem_dedup, List.mem_flatMap]
    simp
  refine ⟨order, h1, fun c => (h2 c).trans (hnodes c), fun e he => ?_⟩
  exact h3 e.1 ((hnodes _).2 ⟨e, he, Or.inl rfl⟩) e.2 ((hnodes _).2 ⟨e, he, Or.inr rfl⟩) he

/-- **C44, fast sampler.** The fast sampler can be built exactly if the dependency graph has no cycle. -/
theorem C44_fast_sampler_iff (hm : g.Model s0 sigs out cout) (es : List (Cell × Cell))
    (he : g.edges sigs out = some es) (r : Option (List Cell)) (hr : ForcedSort es r) (draw : Loc → List K → K) :
    (∃ act, g.fastSampler sigs out r draw = some act) ↔
      ∀ c, ¬ Relation.TransGen (fun a b => (a, b) ∈ es) c c := by
  constructor
  · rintro ⟨act, h⟩ c hc
    cases r with
    | none => simp [Graph.fastSampler, he] at h
    | some order =>
      have key : ∀ a b, Relation.TransGen (fun a b => (a, b) ∈ es) a b → Before order a b := by
        intro a b h
        induction h with
        | single h => exact hr.2.2 _ h
        | tail _ h ih =>
          have := hr.2.2 _ h
          rw [before_iff] at ih this ⊢
          simp only at this
          omega
      have := key c c hc
      rw [before_iff] at this
      omega
  · intro hac
    obtain ⟨order, ho⟩ := exists_topological es hac
    cases r with
    | none => exact absurd ⟨order, ho⟩ hr
    | some order' =>
      obtain ⟨act, h, -⟩ := C43_consistent hm he hr draw
      exact ⟨act, h⟩

/-! ### The plain sampler of the package -/

/-- The sites of a lattice. -/
abbrev Site (s0 : Shape) := {l : Loc // l ∈ Verif.Ordering.raster s0}

/-- A configuration as network input. -/
def toInput (s0 : Shape) (s : Verif.Operators.Config (Site s0)) (l : Loc) : ℂ :=
  if h : l ∈ Verif.Ordering.raster s0 then (s ⟨l, h⟩ : ℂ) else 0

/-- The network output read as conditional log probabilities. -/
noncomputable def Graph.logProbs (g : Graph ℂ) (s0 : Shape) (out : Nat) (s : Verif.Operators.Config (Site s0))
    (i : Site s0) (c : Fin 2) : ℝ := ((g.output s0 out (toInput s0 s) i.1).getD c 0).re

/-- The draw with a uniform random number as the plain sampler makes it. -/
noncomputable def plainDraw (u : Loc → ℝ) (l : Loc) (v : List ℂ) : ℂ :=
  if Real.exp (v.getD 0 0).re > u l then 1 else -1

/-- **C43, `AutoregressiveSampler`.** With the same draws both samplers return the same batch, in every
site order in which the conditionals are causal. -/
theorem C43_plain_sampler {g : Graph ℂ} (hm : g.Model s0 sigs out cout) {es : List (Cell × Cell)}
    (he : g.edges sigs out = some es) {order : List Cell} (ho : IsTopological es order)
    (dims : Nat) (hd : dims = 1 ∨ dims = 2) (sites : List (Site s0)) (hs : Complete sites)
    (hc : Causal sites (g.logProbs s0 out)) {B : Nat} (u : Fin B → Loc → ℝ) :
    ∃ S, Verif.Autoregressive.sample dims false (g.logProbs s0 out) sites (fun b i => u b i.1) = .ok S ∧
      ∀ b, ∃ act, g.fastSampler sigs out (some order) (plainDraw (u b)) = some act ∧
        ∀ i : Site s0, sampleOf act i.1 = (S b i : ℂ) := by
  obtain ⟨S, hS⟩ : ∃ S, Verif.Autoregressive.sample dims false (g.logProbs s0 out) sites (fun b i => u b i.1) =
      (.ok S : Except Unit (Fin B → Verif.Operators.Config (Site s0))) := by
    unfold Verif.Autoregressive.sample
    rw [if_pos (Or.inl hd)]
    exact ⟨_, rfl⟩
  refine ⟨S, hS, fun b => ?_⟩
  have hfix := (Verif.Autoregressive.sample_eq_iff dims hd false (g.logProbs s0 out) sites hs hc _ S).1 hS
  obtain ⟨act, h1, h2⟩ := C43_consistent hm he ho (plainDraw (u b))
  refine ⟨act, h1, fun i => ?_⟩
  have hcons : g.Consistent s0 out (plainDraw (u b)) (toInput s0 (S b)) := by
    intro l hl
    have hl' : l ∈ Verif.Ordering.raster s0 := (Verif.Ordering.mem_raster _ _).2 hl
    have := hfix b ⟨l, hl'⟩
    simp only [toInput, dif_pos hl']
    rw [this]
    unfold Verif.Autoregressive.decision plainDraw Graph.logProbs
    by_cases h : Real.exp ((g.output s0 out (toInput s0 (S b)) l).getD 0 0).re > u b l
    · rw [if_pos h, if_pos (by exact h)]; simp
    · rw [if_neg h, if_neg (by exact h)]; simp
  have hl := (Verif.Ordering.mem_raster _ _).1 i.2
  rw [C43_unique hm he ho _ _ _ h2 hcons i.1 hl]
  simp only [toInput, dif_pos i.2]

/-- `assert_valid_probabilistic_model` raises for no model whose dependency graph can be built. -/
theorem assertValid_inert (es : List (Cell × Cell)) (he : g.edges sigs out = some es) (r : Option (List Cell)) :
    g.assertValid sigs out r = some () := by
  simp [Graph.assertValid, he]

end Verif.Net
