import Verif.Net.Graph
import Verif.Net.TopologyProps
import Mathlib.Logic.Function.Basic

namespace Verif.Net

/-! ### Lists of positions -/

theorem getAll_spec {α : Type} {acc : List α} {is : List Nat} {as : List α} (h : getAll acc is = some as) :
    as.length = is.length ∧ ∀ (j i : Nat), is[j]? = some i → ∃ a, acc[i]? = some a ∧ as[j]? = some a := by
  induction is generalizing as with
  | nil => simp [getAll] at h; subst h; simp
  | cons i is ih =>
    simp only [getAll, Option.bind_eq_some_iff, Option.some.injEq] at h
    obtain ⟨a, ha, r, hr, rfl⟩ := h
    obtain ⟨h1, h2⟩ := ih hr
    refine ⟨by simp [h1], fun j k hj => ?_⟩
    cases j with
    | zero => simp only [List.getElem?_cons_zero, Option.some.injEq] at hj; subst hj; exact ⟨a, ha, by simp⟩
    | succ j => simpa using h2 j k (by simpa using hj)

theorem getAll_prefix {α : Type} {acc rest : List α} {is : List Nat} {as : List α} (h : getAll acc is = some as) :
    getAll (acc ++ rest) is = some as := by
  induction is generalizing as with
  | nil => simpa [getAll] using h
  | cons i is ih =>
    simp only [getAll, Option.bind_eq_some_iff, Option.some.injEq] at h
    obtain ⟨a, ha, r, hr, rfl⟩ := h
    have hi : i < acc.length := by
      rcases List.getElem?_eq_some_iff.1 ha with ⟨hi, -⟩
      exact hi
    simp only [getAll, List.getElem?_append_left hi, ha, Option.bind_some, ih hr]

theorem getAll_lt {α : Type} {acc : List α} {is : List Nat} {as : List α} (h : getAll acc is = some as) :
    ∀ i ∈ is, i < acc.length := by
  intro i hi
  obtain ⟨j, hj⟩ := List.mem_iff_getElem?.1 hi
  obtain ⟨a, ha, -⟩ := (getAll_spec h).2 j i hj
  exact (List.getElem?_eq_some_iff.1 ha).1

theorem getAll_map {α β : Type} (f : α → β) (acc : List α) (is : List Nat) :
    getAll (acc.map f) is = (getAll acc is).map (List.map f) := by
  induction is with
  | nil => rfl
  | cons i is ih =>
    simp only [getAll, List.getElem?_map, ih]
    cases acc[i]? <;> cases getAll acc is <;> rfl

theorem collect_spec {α β : Type} {f : α → Option (List β)} {as : List α} {r : List β} (h : collect f as = some r) :
    (∀ a ∈ as, ∃ q, f a = some q ∧ ∀ b ∈ q, b ∈ r) ∧ ∀ b ∈ r, ∃ a ∈ as, ∃ q, f a = some q ∧ b ∈ q := by
  induction as generalizing r with
  | nil => simp [collect] at h; subst h; simp
  | cons a as ih =>
    simp only [collect, Option.bind_eq_some_iff, Option.some.injEq] at h
    obtain ⟨q, hq, rs, hrs, rfl⟩ := h
    obtain ⟨h1, h2⟩ := ih hrs
    constructor
    · intro x hx
      rcases List.mem_cons.1 hx with rfl | hx
      · exact ⟨q, hq, fun b hb => by simp [hb]⟩
      · obtain ⟨p, hp, h⟩ := h1 x hx
        exact ⟨p, hp, fun b hb => by simp [h b hb]⟩
    · intro b hb
      rcases List.mem_append.1 hb with hb | hb
      · exact ⟨a, by simp, q, hq, hb⟩
      · obtain ⟨x, hx, p, hp, h⟩ := h2 b hb
        exact ⟨x, by simp [hx], p, hp, h⟩

theorem collect_some {α β : Type} {f : α → Option (List β)} {as : List α} (h : ∀ a ∈ as, ∃ q, f a = some q) :
    ∃ r, collect f as = some r := by
  induction as with
  | nil => exact ⟨[], rfl⟩
  | cons a as ih =>
    obtain ⟨q, hq⟩ := h a (by simp)
    obtain ⟨r, hr⟩ := ih fun x hx => h x (by simp [hx])
    exact ⟨q ++ r, by simp [collect, hq, hr]⟩

/-! ### Evaluation -/

section eval
variable {K : Type} [CommSemiring K]

theorem foldlM_steps {α β : Type} (f : List β → α → Option (List β))
    (hf : ∀ acc a r, f acc a = some r → ∃ b, r = acc ++ [b]) :
    ∀ (as : List α) (acc r : List β), as.foldlM f acc = some r →
      ∃ bs, r = acc ++ bs ∧ bs.length = as.length ∧
        ∀ (j : Nat) (a : α), as[j]? = some a → ∃ b, bs[j]? = some b ∧ f (acc ++ bs.take j) a = some (acc ++ bs.take j ++ [b])
  | [], acc, r, h => by
    simp only [List.foldlM_nil] at h
    exact ⟨[], by simpa using (Option.some.inj h).symm, rfl, by simp⟩
  | a :: as, acc, r, h => by
    simp only [List.foldlM_cons] at h
    obtain ⟨m, hm, h⟩ := Option.bind_eq_some_iff.1 h
    obtain ⟨b, rfl⟩ := hf _ _ _ hm
    obtain ⟨bs, h1, h2, h3⟩ := foldlM_steps f hf as _ _ h
    refine ⟨b :: bs, by simp [h1], by simp [h2], fun j c hj => ?_⟩
    cases j with
    | zero =>
      simp only [List.getElem?_cons_zero, Option.some.injEq] at hj
      subst hj
      exact ⟨b, by simp, by simpa using hm⟩
    | succ j =>
      obtain ⟨d, hd, e⟩ := h3 j c (by simpa using hj)
      refine ⟨d, by simpa using hd, ?_⟩
      simpa using e

theorem stepSigs_append (s0 : Sig) (acc : List Sig) (n : Node K) (r : List Sig)
    (h : stepSigs s0 acc n = some r) : ∃ b, r = acc ++ [b] := by
  unfold stepSigs at h
  split at h
  · exact ⟨s0, by simpa using h.symm⟩
  · simp only [Option.bind_eq_some_iff, Option.some.injEq] at h
    obtain ⟨_, _, q, _, rfl⟩ := h
    exact ⟨q, rfl⟩

theorem stepEval_append (x0 : Tensor K) (acc : List (Tensor K)) (n : Node K) (r : List (Tensor K))
    (h : stepEval x0 acc n = some r) : ∃ b, r = acc ++ [b] := by
  unfold stepEval at h
  split at h
  · exact ⟨x0, by simpa using h.symm⟩
  · simp only [Option.bind_eq_some_iff, Option.some.injEq] at h
    obtain ⟨_, _, q, _, rfl⟩ := h
    exact ⟨q, rfl⟩

/-- Every node's shape is computed from those of its inputs, which come earlier. -/
theorem sigs_spec {g : Graph K} {s0 : Sig} {sigs : List Sig} (h : g.sigs s0 = some sigs) :
    sigs.length = g.length ∧ ∀ (k : Nat) (n : Node K), g[k]? = some n →
      (n.layer = .input → sigs[k]? = some s0) ∧
      (n.layer ≠ .input → (∀ i ∈ n.inputs, i < k) ∧ ∃ qs q, getAll sigs n.inputs = some qs ∧
        n.layer.outSig qs = some q ∧ sigs[k]? = some q) := by
  obtain ⟨bs, h1, h2, h3⟩ := foldlM_steps (stepSigs s0) (stepSigs_append s0) g [] sigs h
  simp only [List.nil_append] at h1 h3
  subst h1
  refine ⟨h2, fun k n hk => ?_⟩
  obtain ⟨b, hb, hs⟩ := h3 k n hk
  have hlt : k < sigs.length := (List.getElem?_eq_some_iff.1 hb).1
  constructor
  · intro hl
    simp only [stepSigs, hl, Option.some.injEq] at hs
    rw [hb]
    simpa using (List.append_cancel_left hs).symm
  · intro hl
    unfold stepSigs at hs
    split at hs
    · rename_i he; exact absurd he hl
    · simp only [Option.bind_eq_some_iff, Option.some.injEq] at hs
      obtain ⟨qs, hqs, q, hq, he⟩ := hs
      have hqb : q = b := by simpa using List.append_cancel_left he
      subst hqb
      refine ⟨fun i hi => ?_, qs, q, ?_, hq, hb⟩
      · have := getAll_lt hqs i hi
        rw [List.length_take] at this
        omega
      · have := getAll_prefix (rest := sigs.drop k) hqs
        rwa [List.take_append_drop] at this

/-- Every node's value is computed from those of its inputs, which come earlier. -/
theorem eval_spec {g : Graph K} {x0 : Tensor K} {ts : List (Tensor K)} (h : g.eval x0 = some ts) :
    ts.length = g.length ∧ ∀ (k : Nat) (n : Node K), g[k]? = some n →
      (n.layer = .input → ts[k]? = some x0) ∧
      (n.layer ≠ .input → (∀ i ∈ n.inputs, i < k) ∧ ∃ ins t, getAll ts n.inputs = some ins ∧
        n.layer.apply ins = some t ∧ ts[k]? = some t) := by
  obtain ⟨bs, h1, h2, h3⟩ := foldlM_steps (stepEval x0) (stepEval_append x0) g [] ts h
  simp only [List.nil_append] at h1 h3
  subst h1
  refine ⟨h2, fun k n hk => ?_⟩
  obtain ⟨b, hb, hs⟩ := h3 k n hk
  have hlt : k < ts.length := (List.getElem?_eq_some_iff.1 hb).1
  constructor
  · intro hl
    simp only [stepEval, hl, Option.some.injEq] at hs
    rw [hb]
    simpa using (List.append_cancel_left hs).symm
  · intro hl
    unfold stepEval at hs
    split at hs
    · rename_i he; exact absurd he hl
    · simp only [Option.bind_eq_some_iff, Option.some.injEq] at hs
      obtain ⟨qs, hqs, q, hq, he⟩ := hs
      have hqb : q = b := by simpa using List.append_cancel_left he
      subst hqb
      refine ⟨fun i hi => ?_, qs, q, ?_, hq, hb⟩
      · have := getAll_lt hqs i hi
        rw [List.length_take] at this
        omega
      · have := getAll_prefix (rest := ts.drop k) hqs
        rwa [List.take_append_drop] at this

theorem foldlM_eval_of_sigs (s0 : Sig) (x0 : Tensor K) (hx : x0.sig = s0) :
    ∀ (g : Graph K) (acc : List (Tensor K)) (r : List Sig),
      g.foldlM (stepSigs s0) (acc.map Tensor.sig) = some r →
      ∃ ts, g.foldlM (stepEval x0) acc = some ts ∧ ts.map Tensor.sig = r
  | [], acc, r, h => ⟨acc, rfl, by simpa using h⟩
  | n :: g, acc, r, h => by
    simp only [List.foldlM_cons] at h ⊢
    obtain ⟨m, hm, h⟩ := Option.bind_eq_some_iff.1 h
    have key : ∃ acc', stepEval x0 acc n = some acc' ∧ acc'.map Tensor.sig = m := by
      unfold stepSigs at hm
      unfold stepEval
      split at hm
      · rename_i hl
        refine ⟨acc ++ [x0], rfl, ?_⟩
        simp only [Option.some.injEq] at hm
        rw [← hm, List.map_append, List.map_singleton, hx]
      · rename_i hl
        simp only [Option.bind_eq_some_iff, Option.some.injEq] at hm
        obtain ⟨qs, hqs, q, hq, rfl⟩ := hm
        rw [getAll_map] at hqs
        obtain ⟨ins, hins, rfl⟩ := Option.map_eq_some_iff.1 hqs
        refine ⟨acc ++ [⟨q.1, q.2, n.layer.call ins⟩], ?_, by simp⟩
        rw [hins]
        simp only [Option.bind_some, Layer.apply, hq, Option.map_some]
    obtain ⟨acc', h1, rfl⟩ := key
    obtain ⟨ts, h2, h3⟩ := foldlM_eval_of_sigs s0 x0 hx g acc' r h
    exact ⟨ts, by rw [h1]; exact h2, h3⟩

/-- A model that can be built can be evaluated on every input of that shape. -/
theorem eval_of_sigs {g : Graph K} {s0 : Sig} {sigs : List Sig} (h : g.sigs s0 = some sigs)
    (x0 : Tensor K) (hx : x0.sig = s0) : ∃ ts, g.eval x0 = some ts ∧ ts.map Tensor.sig = sigs :=
  foldlM_eval_of_sigs s0 x0 hx g [] sigs h

/-- The functions inside the layers return as many channels as announced, and every layer is in a
configuration the per-location view handles (`extra` as in `Layer.applySingle`). -/
def Graph.Good (extra : Nat) (g : Graph K) (sigs : List Sig) : Prop :=
  ∀ (k : Nat) (n : Node K), g[k]? = some n → n.layer ≠ .input → ∀ qs, getAll sigs n.inputs = some qs →
    n.layer.Ok qs ∧ n.layer.Supported extra qs

theorem broadcastAll_chan {f : List (List K) → List K} {sigs : List Sig} {q : Sig}
    (hok : (Layer.merge f).Ok sigs) (hq : (Layer.merge f).outSig sigs = some q) (vs : List (List K))
    (hv : vs.map List.length = sigs.map (·.2)) : (f vs).length = q.2 := hok vs hv q hq

/-- Results of layers have as many values per location as channels. -/
theorem apply_wf (extra : Nat) (L : Layer K) (ts : List (Tensor K)) (t : Tensor K) (ht : L.apply ts = some t)
    (hwf : ∀ u ∈ ts, u.WF) (hok : L.Ok (ts.map Tensor.sig)) (hs : L.Supported extra (ts.map Tensor.sig)) : t.WF := by
  intro l hl
  obtain ⟨ds, h1, h2, h3⟩ := C41_single_partial extra L ts hwf t ht hs l hl
  unfold Layer.apply at ht
  simp only [Option.map_eq_some_iff] at ht
  obtain ⟨q, hq, rfl⟩ := ht
  have hv : ∀ d ∈ ds, ∃ u ∈ ts, (lookup ts d).length = u.chan := by
    intro d hd
    obtain ⟨u, hu, hin⟩ := h2 d hd
    refine ⟨u, List.mem_of_getElem? hu, ?_⟩
    unfold lookup
    rw [hu]
    exact hwf u (List.mem_of_getElem? hu) _ hin
  simp only at h3 ⊢
  replace h3 : L.applySingle extra (ts.map Tensor.sig) q.2 l (ds.map (lookup ts)) = some (L.call ts l) := h3
  cases L with
  | input => cases hs
  | oneHot _ _ => cases hs
  | expand =>
    match ts, hq, h3, hv with
    | [x], hq, h3, hv =>
      simp only [List.map_cons, List.map_nil, Layer.outSig, Tensor.sig, Option.some.injEq] at hq
      subst hq
      exact hwf x (by simp) l hl
    | [], hq, _, _ => simp [Layer.outSig] at hq
    | _ :: _ :: _, hq, _, _ => simp [Layer.outSig] at hq
  | feature out f =>
    match ts, hq, hok with
    | [x], hq, hok =>
      simp only [List.map_cons, List.map_nil, Layer.outSig, Tensor.sig, Option.some.injEq] at hq
      subst hq
      exact hok _ (hwf x (by simp) l hl)
    | [], hq, _ => simp [Layer.outSig] at hq
    | _ :: _ :: _, hq, _ => simp [Layer.outSig] at hq
  | merge f =>
    refine hok _ ?_ q hq
    rw [List.map_map, List.map_map]
    apply List.map_congr_left
    intro u hu
    have hf : Fits u.shape q.1 := by
      match ts, hq, hu with
      | a :: b :: rest, hq, hu =>
        simp only [List.map_cons, Layer.outSig] at hq
        exact broadcastAll_spec hq u.sig (by
          have := List.mem_map_of_mem (f := Tensor.sig) hu
          simpa using this)
      | [], hq, _ => simp [Layer.outSig] at hq
      | [_], hq, _ => simp [Layer.outSig] at hq
    exact hwf u hu _ (broadcastLoc_fits hf hl).2
  | conv cv =>
    match ts, hq, hok with
    | [x], hq, hok =>
      simp only [List.map_cons, List.map_nil, Layer.outSig, Tensor.sig, Option.map_eq_some_iff] at hq
      obtain ⟨r, hr, rfl⟩ := hq
      exact hok _ (by simp)
    | [], hq, _ => simp [Layer.outSig] at hq
    | _ :: _ :: _, hq, _ => simp [Layer.outSig] at hq
  | zeroPad pads =>
    rcases ts with _ | ⟨x, _ | ⟨y, rest⟩⟩
    · simp [Layer.outSig] at hq
    swap
    · simp [Layer.outSig] at hq
    simp only [List.map_cons, List.map_nil, Layer.outSig, Tensor.sig] at hq
    split at hq
    · simp only [Option.some.injEq] at hq
      subst hq
      rcases ds with _ | ⟨d, ds⟩
      · simp only [List.map_nil, Layer.applySingle, Option.some.injEq] at h3
        rw [← h3]; simp
      · simp only [List.map_cons, Layer.applySingle, Option.some.injEq] at h3
        obtain ⟨u, hu, e⟩ := hv d (by simp)
        rw [← h3, e, List.mem_singleton.1 hu]
    · simp at hq
  | periodicPad pads =>
    rcases ts with _ | ⟨x, _ | ⟨y, rest⟩⟩
    · simp [Layer.outSig] at hq
    swap
    · simp [Layer.outSig] at hq
    simp only [List.map_cons, List.map_nil, Layer.outSig, Tensor.sig] at hq
    split at hq
    · simp only [Option.some.injEq] at hq
      subst hq
      rcases ds with _ | ⟨d, ds⟩
      · simp [Layer.applySingle] at h3
      · simp only [List.map_cons, Layer.applySingle, Option.some.injEq] at h3
        obtain ⟨u, hu, e⟩ := hv d (by simp)
        rw [← h3, e, List.mem_singleton.1 hu]
    · simp at hq
  | downShift =>
    rcases ts with _ | ⟨x, _ | ⟨y, rest⟩⟩
    · simp [Layer.outSig] at hq
    swap
    · simp [Layer.outSig] at hq
    simp only [List.map_cons, List.map_nil, Layer.outSig, Tensor.sig] at hq
    split at hq
    · simp only [Option.some.injEq] at hq
      subst hq
      simp only [Layer.applySingle] at h3
      split at h3
      · simp only [Option.some.injEq] at h3; rw [← h3]; simp
      · rcases ds with _ | ⟨d, ds⟩
        · simp at h3
        · simp only [List.map_cons, List.head?_cons, Option.some.injEq] at h3
          obtain ⟨u, hu, e⟩ := hv d (by simp)
          rw [← h3, e, List.mem_singleton.1 hu]
    · simp at hq
  | rightShift =>
    rcases ts with _ | ⟨x, _ | ⟨y, rest⟩⟩
    · simp [Layer.outSig] at hq
    swap
    · simp [Layer.outSig] at hq
    simp only [List.map_cons, List.map_nil, Layer.outSig, Tensor.sig] at hq
    split at hq
    · simp only [Option.some.injEq] at hq
      subst hq
      simp only [Layer.applySingle] at h3
      split at h3
      · simp only [Option.some.injEq] at h3; rw [← h3]; simp
      · rcases ds with _ | ⟨d, ds⟩
        · simp at h3
        · simp only [List.map_cons, List.head?_cons, Option.some.injEq] at h3
          obtain ⟨u, hu, e⟩ := hv d (by simp)
          rw [← h3, e, List.mem_singleton.1 hu]
    · simp at hq
  | gather indices axis =>
    rcases ts with _ | ⟨x, _ | ⟨y, rest⟩⟩
    · simp [Layer.outSig] at hq
    swap
    · simp [Layer.outSig] at hq
    simp only [List.map_cons, List.map_nil, Layer.outSig, Tensor.sig, Option.bind_eq_some_iff] at hq
    obtain ⟨a, ha, hq⟩ := hq
    simp only [List.map_cons, List.map_nil, Layer.Supported, Tensor.sig] at hs
    have hneg : ¬ axis < 0 := by omega
    rw [resolveAxis_of_pos (by omega) (by omega)] at ha
    obtain rfl : axis.toNat = a := by simpa using ha
    rw [if_neg (by omega)] at hq
    rcases ds with _ | ⟨d, ds⟩
    · simp [Layer.applySingle] at h3
    · obtain ⟨u, hu, e⟩ := hv d (by simp)
      simp only [List.map_cons, List.map_nil, Layer.applySingle, Tensor.sig, if_neg hneg] at h3
      rcases hs with hs | hs
      · rw [if_neg (by omega)] at hq h3
        split at hq
        · simp only [Option.some.injEq] at hq h3
          subst hq
          rw [← h3, e, List.mem_singleton.1 hu]
        · simp at hq
      · rw [if_pos (by omega)] at hq h3
        split at hq
        · simp only [Option.some.injEq] at hq
          subst hq
          split at h3
          · split at h3
            · simp only [Option.some.injEq] at h3
              rw [← h3]; simp
            · simp at h3
          · simp at h3
        · simp at hq
  | reshape target =>
    match ts, hq with
    | [x], hq =>
      simp only [List.map_cons, List.map_nil, Layer.outSig, Tensor.sig, Option.bind_eq_some_iff] at hq
      obtain ⟨t, ht, hq⟩ := hq
      split at hq
      · simp at hq
      · simp only [Option.some.injEq] at hq
        subst hq
        simp only [Layer.call, ht]
        simp
    | [], hq => simp [Layer.outSig] at hq
    | _ :: _ :: _, hq => simp [Layer.outSig] at hq
  | concat axis =>
    match ts, hq, h3, hs with
    | [], hq, _, _ => simp [Layer.outSig] at hq
    | [_], hq, _, _ => simp [Layer.outSig] at hq
    | x :: y :: rest, hq, h3, hs =>
      simp only [List.map_cons, Layer.outSig, Tensor.sig, Option.bind_eq_some_iff] at hq
      obtain ⟨a, ha, hq⟩ := hq
      split at hq
      · simp at hq
      rename_i ha0
      split at hq
      · rename_i ha1
        split at hq
        · rename_i hsh
          simp only [Option.some.injEq] at hq
          subst hq
          have hall : ∀ u ∈ x :: y :: rest, u.shape = x.shape := by
            intro u hu
            rcases List.mem_cons.1 hu with rfl | hu
            · rfl
            · exact hsh u.sig (by
                have := List.mem_map_of_mem (f := Tensor.sig) hu
                simpa [Tensor.sig] using this)
          simp only [Layer.call, ha, if_pos ha1]
          have key : ∀ us : List (Tensor K), (∀ u ∈ us, u ∈ x :: y :: rest) →
              ((us.map fun q => q.val l).flatten).length = (us.map fun u => u.chan).sum := by
            intro us hus
            induction us with
            | nil => rfl
            | cons u us ih =>
              have hu := hus u (by simp)
              have e : (u.val l).length = u.chan := by
                apply hwf u hu
                rw [hall u hu]; exact hl
              simp only [List.map_cons, List.flatten_cons, List.length_append, List.sum_cons, e,
                ih fun v hv => hus v (by simp [hv])]
          rw [key _ fun u hu => hu]
          simp [Function.comp_def]
        · simp at hq
      · rename_i ha1
        split at hq
        · rename_i hsh
          simp only [Option.some.injEq] at hq
          subst hq
          have hch : ∀ u ∈ x :: y :: rest, u.chan = x.chan := by
            intro u hu
            rcases List.mem_cons.1 hu with rfl | hu
            · rfl
            · exact (hsh u.sig (by
                have := List.mem_map_of_mem (f := Tensor.sig) hu
                simpa [Tensor.sig] using this)).2.2
          simp only [List.map_cons, Layer.Supported, Tensor.sig] at hs
          have hnf : ¬ (axis = -1 ∨ axis = 0 ∨ axis = ((x.shape.length : Int) + 2) - 1) := by
            rintro (rfl | rfl | h)
            · rw [resolveAxis_neg_one (by omega)] at ha
              simp only [Option.some.injEq] at ha
              omega
            · omega
            · rw [resolveAxis_of_pos (by omega) (by omega)] at ha
              simp only [Option.some.injEq] at ha
              omega
          simp only [List.map_cons, Layer.applySingle, Tensor.sig] at h3
          rw [if_neg hnf] at h3
          cases ds with
          | nil => simp at h3
          | cons d ds =>
            simp only [List.map_cons, List.head?_cons, Option.some.injEq] at h3
            obtain ⟨u, hu, e⟩ := hv d (by simp)
            rw [← h3, e, hch u hu]
        · simp at hq

/-- All tensors of an evaluation have as many values per location as channels. -/
theorem eval_wf {extra : Nat} {g : Graph K} {x0 : Tensor K} {ts : List (Tensor K)} (h : g.eval x0 = some ts)
    (hx : x0.WF) (hg : g.Good extra (ts.map Tensor.sig)) : ∀ (k : Nat) (t : Tensor K), ts[k]? = some t → t.WF := by
  obtain ⟨hl, hspec⟩ := eval_spec h
  intro k
  induction k using Nat.strong_induction_on with
  | _ k ih =>
    intro t ht
    have hk : k < g.length := by rw [← hl]; exact (List.getElem?_eq_some_iff.1 ht).1
    have hn := List.getElem?_eq_getElem hk
    obtain ⟨h1, h2⟩ := hspec k _ hn
    by_cases hin : g[k].layer = .input
    · rw [h1 hin] at ht
      obtain rfl := Option.some.inj ht
      exact hx
    · obtain ⟨hlt, ins, t', hins, ha, ht'⟩ := h2 hin
      rw [ht'] at ht
      obtain rfl := Option.some.inj ht
      have hq : getAll (ts.map Tensor.sig) g[k].inputs = some (ins.map Tensor.sig) := by
        rw [getAll_map, hins]; rfl
      obtain ⟨hok, hsup⟩ := hg k _ hn hin _ hq
      refine apply_wf extra _ ins t' ha ?_ hok hsup
      intro u hu
      obtain ⟨hlen, hget⟩ := getAll_spec hins
      obtain ⟨j, hj⟩ := List.mem_iff_getElem?.1 hu
      have hj' : j < g[k].inputs.length := by rw [← hlen]; exact (List.getElem?_eq_some_iff.1 hj).1
      obtain ⟨a, ha1, ha2⟩ := hget j _ (List.getElem?_eq_getElem hj')
      rw [hj] at ha2
      obtain rfl := Option.some.inj ha2
      exact ih _ (hlt _ (List.getElem_mem hj')) u ha1

end eval

end Verif.Net
