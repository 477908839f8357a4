import Verif.Training.MiniBatch
import Mathlib.Tactic.Ring
import Mathlib.Tactic.Linarith
import Mathlib.Data.List.Basic

/-!
# C25 and C26: mini-batches
-/
namespace Verif.Training

variable {S α : Type}

/-! ### Helper lemmas -/

theorem setBatchSize_spec (st st' : MBState S α) (B : Nat) (mini : Option Nat)
    (h : setBatchSize st B mini = some st') :
    st'.sampler = st.sampler ∧ st'.batchSize = B ∧ 0 < st'.miniBatchSize ∧
    st'.miniBatchSize ≤ B ∧ st'.miniBatchSize = min (mini.getD B) B ∧ st'.idx = B ∧
    st'.updateParamsFrequency = ceilDiv B st'.miniBatchSize ∧ st'.drawn = st.drawn ∧ st'.x = st.x := by
  unfold setBatchSize at h
  cases mini with
  | none =>
    simp only [gt_iff_lt, lt_irrefl, if_false, Option.getD_none] at h ⊢
    split at h
    · exact absurd h (by simp)
    · cases h; simp; omega
  | some m =>
    simp only [gt_iff_lt, Option.getD_some] at h ⊢
    by_cases hlt : B < m
    · simp only [if_pos hlt] at h
      by_cases hz : B = 0
      · simp [hz] at h
      · rw [if_neg hz] at h; cases h; simp; omega
    · simp only [if_neg hlt] at h
      by_cases hz : m = 0
      · simp [hz] at h
      · rw [if_neg hz] at h; cases h; simp; omega

/-- Where the generator stands after some `next` calls with a fixed sampler: `j` mini-batches of the
current batch have been handed out. -/
structure MBInv (draw : S → Nat → List α) (s : S) (B m c0 t : Nat) (st : MBState S α) : Prop where
  sampler : st.sampler = s
  batchSize : st.batchSize = B
  mini : st.miniBatchSize = m
  /-- progress: either nothing drawn yet, or the right batch with the right position -/
  pos : (t = 0 ∧ st.drawn = c0 ∧ st.idx = B) ∨
    (0 < t ∧ st.drawn = c0 + (t - 1) / (B / m) + 1 ∧ st.idx = ((t - 1) % (B / m) + 1) * m ∧
      st.x = draw s (c0 + (t - 1) / (B / m)))

theorem div_succ_of_mod {t f : Nat} (hf : 0 < f) (h : t % f + 1 < f) :
    (t + 1) / f = t / f ∧ (t + 1) % f = t % f + 1 := by
  have h1 : t + 1 = (t % f + 1) + f * (t / f) := by
    have := Nat.div_add_mod t f
    omega
  constructor
  · conv_lhs => rw [h1]
    rw [Nat.add_mul_div_left _ _ hf, Nat.div_eq_of_lt h]; omega
  · conv_lhs => rw [h1]
    rw [Nat.add_mul_mod_self_left, Nat.mod_eq_of_lt h]

theorem div_succ_of_mod' {t f : Nat} (hf : 0 < f) (h : t % f + 1 = f) :
    (t + 1) / f = t / f + 1 ∧ (t + 1) % f = 0 := by
  have h1 : t + 1 = f * (t / f + 1) := by
    have := Nat.div_add_mod t f
    rw [mul_add, mul_one]
    omega
  constructor
  · rw [h1, Nat.mul_div_cancel_left _ hf]
  · rw [h1, Nat.mul_mod_right]

theorem nextMiniBatch_inv (draw : S → Nat → List α) (s : S) (B m c0 t : Nat) (hm : 0 < m)
    (hmB : m ≤ B) (st : MBState S α) (h : MBInv draw s B m c0 t st) :
    MBInv draw s B m c0 (t + 1) (nextMiniBatch draw st).1 ∧
    (nextMiniBatch draw st).2 =
      slice (draw s (c0 + t / (B / m))) (t % (B / m) * m) ((t % (B / m) + 1) * m) := by
  have hf : 0 < B / m := Nat.div_pos hmB hm
  obtain ⟨h1, h2, h3, h4⟩ := h
  have fresh : st.idx + st.miniBatchSize > st.batchSize → st.drawn = c0 + t / (B / m) →
      t % (B / m) = 0 →
      MBInv draw s B m c0 (t + 1) (nextMiniBatch draw st).1 ∧
      (nextMiniBatch draw st).2 =
        slice (draw s (c0 + t / (B / m))) (t % (B / m) * m) ((t % (B / m) + 1) * m) := by
    intro hgt hd hmod
    unfold nextMiniBatch
    simp only [if_pos hgt]
    refine ⟨⟨h1, h2, h3, Or.inr ⟨by omega, ?_, ?_, ?_⟩⟩, ?_⟩
    · simp only [Nat.add_sub_cancel]; omega
    · simp only [Nat.add_sub_cancel, hmod]; omega
    · simp only [Nat.add_sub_cancel, h1, hd]
    · simp only [h1, h3, hd, hmod]; simp
  rcases h4 with ⟨ht, hd, hi⟩ | ⟨ht, hd, hi, hx⟩
  · subst ht
    exact fresh (by omega) (by simpa using hd) (by simp)
  · obtain ⟨u, rfl⟩ : ∃ u, t = u + 1 := ⟨t - 1, by omega⟩
    simp only [Nat.add_sub_cancel] at hd hi hx
    have hlt : u % (B / m) < B / m := Nat.mod_lt _ hf
    have hBm : B / m * m ≤ B := Nat.div_mul_le_self B m
    have hBm2 : B < (B / m + 1) * m := by
      have := Nat.lt_div_mul_add (a := B) hm
      rw [add_mul, one_mul]; omega
    by_cases hlast : u % (B / m) + 1 = B / m
    · obtain ⟨e1, e2⟩ := div_succ_of_mod' hf hlast
      apply fresh
      · rw [hi, hlast, h3, h2]
        rw [add_mul, one_mul] at hBm2
        omega
      · rw [hd, e1]; omega
      · exact e2
    · obtain ⟨e1, e2⟩ := div_succ_of_mod hf (by omega : u % (B / m) + 1 < B / m)
      have hngt : ¬ st.idx + st.miniBatchSize > st.batchSize := by
        rw [hi, h3, h2]
        have : (u % (B / m) + 1 + 1) * m ≤ B / m * m := Nat.mul_le_mul_right _ (by omega)
        rw [add_mul _ 1, one_mul] at this
        omega
      unfold nextMiniBatch
      simp only [if_neg hngt]
      refine ⟨⟨h1, h2, h3, Or.inr ⟨by omega, ?_, ?_, ?_⟩⟩, ?_⟩
      · simp only [Nat.add_sub_cancel, e1]; exact hd
      · simp only [Nat.add_sub_cancel, e2, hi, h3]; ring
      · simp only [Nat.add_sub_cancel, e1]; exact hx
      · simp only [hx, hi, h3, e1, e2]
        congr 1
        · rw [Nat.add_sub_cancel]
        · ring

theorem nexts_inv (draw : S → Nat → List α) (s : S) (B m c0 : Nat) (hm : 0 < m) (hmB : m ≤ B) :
    ∀ (k t : Nat) (st : MBState S α), MBInv draw s B m c0 t st →
      MBInv draw s B m c0 (t + k) (nexts draw k st).1 ∧
      (nexts draw k st).2 = (List.range' t k).map fun t =>
        slice (draw s (c0 + t / (B / m))) (t % (B / m) * m) ((t % (B / m) + 1) * m) := by
  intro k
  induction k with
  | zero => intro t st h; exact ⟨h, rfl⟩
  | succ k ih =>
    intro t st h
    obtain ⟨h1, h2⟩ := nextMiniBatch_inv draw s B m c0 t hm hmB st h
    obtain ⟨h3, h4⟩ := ih (t + 1) _ h1
    refine ⟨?_, ?_⟩
    · rw [show t + (k + 1) = t + 1 + k by omega]; exact h3
    · simp only [nexts, List.range'_succ, List.map_cons, h2, h4]

theorem slices_join (l : List α) (m : Nat) : ∀ f a : Nat,
    ((List.range' a f).map fun j => slice l (j * m) ((j + 1) * m)).flatten =
      slice l (a * m) ((a + f) * m) := by
  intro f
  induction f with
  | zero => intro a; simp [slice, List.drop_take]
  | succ f ih =>
    intro a
    rw [List.range'_succ, List.map_cons, List.flatten_cons, ih]
    unfold slice
    rw [List.drop_take, List.drop_take, List.drop_take]
    have e1 : (a + 1) * m - a * m = m := by rw [add_mul, one_mul]; omega
    have e2 : (a + 1 + f) * m - (a + 1) * m = f * m := by rw [add_mul _ f]; omega
    have e3 : (a + (f + 1)) * m - a * m = m + f * m := by rw [add_mul]; ring_nf; omega
    rw [e1, e2, e3, List.take_add, List.drop_drop]
    congr 3
    ring

/-! ### C25 -/

/-- What the generator really does, for every batch size and mini-batch size: the `t`-th mini-batch
after `set_batch_size`/`set_sampler` is slice number `t % f` of batch number `t / f`, with
`f = batch / mini` rounded down; a new batch is drawn exactly when `t % f = 0`. -/
theorem C25_sequence (size : S → Nat) (draw : S → Nat → List α) (st st0 : MBState S α) (s : S)
    (mini : Option Nat) (h0 : setSampler size st s mini = some st0) (k : Nat) :
    let B := size s
    let m := st0.miniBatchSize
    let f := B / m
    (nexts draw k st0).2 = (List.range k).map (fun t =>
      slice (draw s (st.drawn + t / f)) (t % f * m) ((t % f + 1) * m)) ∧
    (0 < k → (nexts draw k st0).1.drawn = st.drawn + (k - 1) / f + 1) := by
  obtain ⟨e1, e2, e3, e4, -, e6, -, e8, -⟩ := setBatchSize_spec _ _ _ _ h0
  have hinv : MBInv draw s (size s) st0.miniBatchSize st.drawn 0 st0 :=
    ⟨e1, e2, rfl, Or.inl ⟨rfl, e8, e6⟩⟩
  obtain ⟨h1, h2⟩ := nexts_inv draw s (size s) st0.miniBatchSize st.drawn e3 e4 k 0 st0 hinv
  refine ⟨by rw [h2, List.range_eq_range'], ?_⟩
  intro hk
  rw [zero_add] at h1
  rcases h1.pos with ⟨h, -, -⟩ | ⟨-, h, -, -⟩
  · omega
  · exact h

/-- C25, partial: if the mini-batch size divides the batch size, the mini-batches number
`q*f, ..., q*f+f-1` concatenate to exactly the `q`-th drawn batch, `f` being the advertised
`update_params_frequency`. Missing: sizes that do not divide, where it is false
(`C25_tail_dropped`). -/
theorem C25_partition_partial (size : S → Nat) (draw : S → Nat → List α) (st st0 : MBState S α)
    (s : S) (mini : Option Nat) (h0 : setSampler size st s mini = some st0)
    (hdvd : st0.miniBatchSize ∣ size s) (hlen : ∀ k, (draw s k).length = size s) (q : Nat) :
    let f := st0.updateParamsFrequency
    (((nexts draw ((q + 1) * f) st0).2.drop (q * f)).flatten) = draw s (st.drawn + q) ∧
    f * st0.miniBatchSize = size s := by
  obtain ⟨e1, e2, e3, e4, -, e6, e7, e8, -⟩ := setBatchSize_spec _ _ _ _ h0
  obtain ⟨f, hf⟩ := hdvd
  have hfpos : 0 < f := by
    rcases Nat.eq_zero_or_pos f with h | h
    · subst h; simp at hf; omega
    · exact h
  have hdiv : size s / st0.miniBatchSize = f := by rw [hf, Nat.mul_div_cancel_left _ e3]
  have hceil : st0.updateParamsFrequency = f := by
    rw [e7, ceilDiv, hf, Nat.add_sub_assoc (by omega), Nat.mul_add_div e3,
      Nat.div_eq_of_lt (by omega)]; omega
  simp only [hceil]
  refine ⟨?_, by rw [hf, mul_comm]⟩
  rw [(C25_sequence size draw st st0 s mini h0 ((q + 1) * f)).1]
  rw [← List.map_drop, hdiv, List.range_eq_range', List.drop_range']
  have hcount : (q + 1) * f - q * f = f := by rw [add_mul, one_mul]; omega
  rw [hcount]
  have : (List.range' (0 + q * f * 1) f).map (fun t =>
      slice (draw s (st.drawn + t / f)) (t % f * st0.miniBatchSize) ((t % f + 1) * st0.miniBatchSize)) =
      (List.range' 0 f).map fun j =>
        slice (draw s (st.drawn + q)) (j * st0.miniBatchSize) ((j + 1) * st0.miniBatchSize) := by
    apply List.ext_getElem
    · simp
    · intro j h1 h2
      have hj : j < f := by simpa using h2
      simp only [List.getElem_map, List.getElem_range', Nat.zero_add, mul_one, one_mul]
      rw [mul_comm q f, Nat.mul_add_div hfpos, Nat.mul_add_mod, Nat.div_eq_of_lt hj,
        Nat.mod_eq_of_lt hj]
      simp
  rw [this, slices_join]
  simp only [slice, zero_mul, List.drop_zero, Nat.zero_add]
  rw [List.take_of_length_le]
  rw [hlen, hf, mul_comm]

/-- C25 is violated whenever the mini-batch size does not divide the batch size: the advertised
frequency is one more than the number of mini-batches a batch really gives, and the last sample of
a batch is not among the mini-batches of that batch. -/
theorem C25_tail_dropped (size : S → Nat) (draw : S → Nat → List α) (st st0 : MBState S α) (s : S)
    (mini : Option Nat) (h0 : setSampler size st s mini = some st0)
    (hnd : ¬ st0.miniBatchSize ∣ size s) (hlen : ∀ k, (draw s k).length = size s) :
    let f := size s / st0.miniBatchSize
    st0.updateParamsFrequency = f + 1 ∧
    ((nexts draw f st0).2.flatten).length < size s ∧
    (nexts draw f st0).2.flatten = (draw s st.drawn).take (f * st0.miniBatchSize) ∧
    (nexts draw (f + 1) st0).1.drawn = st.drawn + 2 := by
  obtain ⟨e1, e2, e3, e4, -, e6, e7, e8, -⟩ := setBatchSize_spec _ _ _ _ h0
  set m := st0.miniBatchSize with hm
  have hfpos : 0 < size s / m := Nat.div_pos e4 e3
  have hmod : 0 < size s % m := Nat.pos_of_ne_zero (fun h => hnd (Nat.dvd_of_mod_eq_zero h))
  have hdm := Nat.div_add_mod (size s) m
  have hmlt := Nat.mod_lt (size s) e3
  have hflat : (nexts draw (size s / m) st0).2.flatten = (draw s st.drawn).take (size s / m * m) := by
    rw [(C25_sequence size draw st st0 s mini h0 (size s / m)).1]
    have : (List.range (size s / m)).map (fun t =>
        slice (draw s (st.drawn + t / (size s / m))) (t % (size s / m) * m)
          ((t % (size s / m) + 1) * m)) =
        (List.range' 0 (size s / m)).map fun j =>
          slice (draw s st.drawn) (j * m) ((j + 1) * m) := by
      rw [← List.range_eq_range']
      apply List.map_congr_left
      intro t ht
      have ht' := List.mem_range.mp ht
      rw [Nat.div_eq_of_lt ht', Nat.mod_eq_of_lt ht', Nat.add_zero]
    rw [← hm, this, slices_join]
    simp [slice]
  refine ⟨?_, ?_, hflat, ?_⟩
  · rw [e7, ceilDiv]
    obtain ⟨r, hr⟩ : ∃ r, size s % m = r + 1 := ⟨size s % m - 1, by omega⟩
    have : size s + m - 1 = m * (size s / m) + (m + r) := by
      rw [hr] at hdm
      generalize m * (size s / m) = z at hdm ⊢
      omega
    have hr0 : r / m = 0 := Nat.div_eq_of_lt (by omega)
    rw [this, Nat.mul_add_div e3, Nat.add_div_left _ e3, hr0]
  · rw [hflat, List.length_take, hlen, Nat.min_eq_left (Nat.div_mul_le_self _ _)]
    rw [mul_comm]; omega
  · have := (C25_sequence size draw st st0 s mini h0 (size s / m + 1)).2 (by omega)
    rw [this, Nat.add_sub_cancel, Nat.div_self hfpos]

/-- A dividing and a non-dividing setup, both accepted by the code. -/
example : let st : MBState Unit Nat := ⟨(), 1, 1, 1, 1, [], 0⟩
    (∃ st0, setSampler (fun _ => 12) st () (some 4) = some st0 ∧ st0.miniBatchSize ∣ 12) ∧
    (∃ st0, setSampler (fun _ => 10) st () (some 4) = some st0 ∧ ¬ st0.miniBatchSize ∣ 10) := by
  exact ⟨⟨_, rfl, by decide⟩, ⟨_, rfl, by decide⟩⟩

/-! ### C26 -/

/-- C26: whatever the state, after an accepted `set_sampler` every mini-batch returned is cut from a
batch drawn by the new sampler after the change. -/
theorem C26_fresh_after_change (size : S → Nat) (draw : S → Nat → List α) (st st0 : MBState S α)
    (s : S) (mini : Option Nat) (h0 : setSampler size st s mini = some st0) (k : Nat) :
    ∀ out ∈ (nexts draw k st0).2, ∃ c, st.drawn ≤ c ∧ ∃ a b, out = slice (draw s c) a b := by
  intro out hout
  rw [(C25_sequence size draw st st0 s mini h0 k).1] at hout
  obtain ⟨t, -, rfl⟩ := List.mem_map.mp hout
  exact ⟨_, Nat.le_add_right _ _, _, _, rfl⟩

/-- The sampler installed and the number of batches drawn when it was installed, after a history. -/
def lastInstalled (size : S → Nat) (draw : S → Nat → List α) :
    MBState S α → S × Nat → List (MBOp S) → S × Nat
  | _, cur, [] => cur
  | st, cur, op :: ops =>
    match mbStep size draw st op with
    | none => cur
    | some (st', _) =>
      lastInstalled size draw st'
        (match op with
          | .next => cur
          | .setSampler s _ => (s, st.drawn)) ops

/-- Invariant for histories: whatever is stored and will be handed out next comes from the sampler
installed last, drawn after it was installed. -/
structure Fresh (draw : S → Nat → List α) (cur : S × Nat) (st : MBState S α) : Prop where
  sampler : st.sampler = cur.1
  mini : 0 < st.miniBatchSize
  since : cur.2 ≤ st.drawn
  stored : (∃ c, cur.2 ≤ c ∧ st.x = draw cur.1 c) ∨ st.batchSize < st.idx + st.miniBatchSize

theorem fresh_next (draw : S → Nat → List α) (cur : S × Nat) (st : MBState S α)
    (h : Fresh draw cur st) :
    Fresh draw cur (nextMiniBatch draw st).1 ∧
    ∃ c, cur.2 ≤ c ∧ ∃ a b, (nextMiniBatch draw st).2 = slice (draw cur.1 c) a b := by
  unfold nextMiniBatch
  by_cases hgt : st.idx + st.miniBatchSize > st.batchSize
  · simp only [if_pos hgt]
    refine ⟨⟨h.sampler, h.mini, ?_, Or.inl ⟨st.drawn, h.since, ?_⟩⟩, st.drawn, h.since, ?_⟩
    · have := h.since; simp only; omega
    · simp only [h.sampler]
    · simp only [h.sampler]; exact ⟨_, _, rfl⟩
  · simp only [if_neg hgt]
    rcases h.stored with ⟨c, hc, hx⟩ | hx
    · exact ⟨⟨h.sampler, h.mini, h.since, Or.inl ⟨c, hc, hx⟩⟩, c, hc, by rw [hx]; exact ⟨_, _, rfl⟩⟩
    · exact absurd hx hgt

theorem fresh_set (size : S → Nat) (draw : S → Nat → List α) (st st' : MBState S α) (s : S)
    (mini : Option Nat) (h0 : setSampler size st s mini = some st') :
    Fresh draw (s, st.drawn) st' := by
  obtain ⟨e1, e2, e3, e4, -, e6, -, e8, -⟩ := setBatchSize_spec _ _ _ _ h0
  exact ⟨e1, e3, by rw [e8], Or.inr (by omega)⟩

/-- C26 for whole histories: start by installing a sampler, then make any calls; if a further `next`
is made, it returns a piece of a batch drawn by the sampler installed last, and drawn after that
sampler was installed. No stale sample is ever returned. -/
theorem C26_history (size : S → Nat) (draw : S → Nat → List α) (st st0 : MBState S α)
    (s : S) (mini : Option Nat) (h0 : setSampler size st s mini = some st0) (ops : List (MBOp S))
    (st1 : MBState S α) (outs : List (Option (List α)))
    (h : mbRun size draw st0 ops = some (st1, outs)) :
    let cur := lastInstalled size draw st0 (s, st.drawn) ops
    ∃ c, cur.2 ≤ c ∧ ∃ a b, (nextMiniBatch draw st1).2 = slice (draw cur.1 c) a b := by
  have key : ∀ (ops : List (MBOp S)) (st0 : MBState S α) (cur : S × Nat) outs,
      Fresh draw cur st0 → mbRun size draw st0 ops = some (st1, outs) →
      Fresh draw (lastInstalled size draw st0 cur ops) st1 := by
    intro ops
    induction ops with
    | nil =>
      intro st0 cur outs hf hr
      simp only [mbRun, Option.some.injEq, Prod.mk.injEq] at hr
      rw [← hr.1]; exact hf
    | cons op ops ih =>
      intro st0 cur outs hf hr
      cases op with
      | next =>
        simp only [mbRun, mbStep] at hr
        split at hr
        · exact absurd hr (by simp)
        · rename_i st2 os heq
          simp only [Option.some.injEq, Prod.mk.injEq] at hr
          simp only [lastInstalled, mbStep]
          exact ih _ _ os (fresh_next draw cur st0 hf).1 (by rw [heq, hr.1])
      | setSampler s' mini' =>
        simp only [mbRun, mbStep] at hr
        cases hs : setSampler size st0 s' mini' with
        | none => rw [hs] at hr; simp at hr
        | some st' =>
          rw [hs] at hr
          simp only [Option.map_some] at hr
          split at hr
          · exact absurd hr (by simp)
          · rename_i st2 os heq
            simp only [Option.some.injEq, Prod.mk.injEq] at hr
            simp only [lastInstalled, mbStep, hs, Option.map_some]
            exact ih _ _ os (fresh_set size draw st0 st' s' mini' hs) (by rw [heq, hr.1])
  exact (fresh_next draw _ st1 (key ops st0 (s, st.drawn) outs (fresh_set size draw st st0 s mini h0) h)).2

/-- A history in the middle of a batch with a change of sampler is accepted. -/
example : let st : MBState Nat Nat := ⟨0, 1, 1, 1, 1, [], 0⟩
    ∃ st0 st1 outs, setSampler (fun s => 4 + s) st 0 (some 2) = some st0 ∧
      mbRun (fun s => 4 + s) (fun s k => List.replicate (4 + s) (10 * s + k)) st0
        [.next, .setSampler 1 (some 3), .next, .next] = some (st1, outs) ∧
      outs = [some [0, 0], none, some [11, 11, 11], some [12, 12, 12]] := by
  exact ⟨_, _, _, rfl, rfl, rfl⟩

end Verif.Training
