import Mathlib.Data.Real.Basic
import Mathlib.Tactic.Linarith
import Mathlib.Order.Monotone.Basic
import Mathlib.Logic.Function.Basic

/-!
# C117: batches and weights when Keras runs the generator ahead

The generators of the package draw a batch with the weights the network has at that moment
(`MiniBatchGenerator.to_generator`, mini_batch_generator.py 43-45; `ExactVariational.to_generator`, exact_variational.py 154-158).
They are handed to `fit_generator` of Keras, everywhere in examples/ with `max_queue_size=0, workers=0` (for instance
examples/ising.py 124-127), but in main.py 77 with `max_queue_size=0` alone. With `workers=0` Keras calls `next` in the training
loop. With `workers=1` (the default) a second thread calls `next` ahead of the training and puts the results into a
`queue.Queue(max_queue_size)`, which is unbounded for size `0`; a computed batch that finds the queue full is kept in hand until
there is room. This part of Keras is modelled here, not part of the repository.
-/
namespace Verif.Training.Queue

/-- A generator with state `S` and a training step: `draw` computes the next batch with given weights, `learn` is
one gradient step on a batch (`train_on_batch`). -/
structure Trainer (W S Y : Type) where
  draw : W → S → Y × S
  learn : W → Y → W

/-- State of `fit_generator` with a second thread: `pending` are the batches drawn and not taken, `inHand` the batch
`train_on_batch` works on, `updates` the number of gradient steps made. -/
structure State (W S Y : Type) where
  weights : W
  gen : S
  pending : List Y
  inHand : Option Y
  updates : ℕ

/-- What the two threads do, one thing at a time: the second thread draws a batch; the training loop takes a batch;
`train_on_batch` writes the new weights. -/
inductive Event where
  | draw
  | take
  | update

/-- Whether there is room for another batch: `queue.Queue(0)` is unbounded; otherwise `max_queue_size` in the queue and one in the
hand of the second thread. -/
def room (maxQueue pending : ℕ) : Prop := maxQueue = 0 ∨ pending < maxQueue + 1

instance (a b : ℕ) : Decidable (room a b) := inferInstanceAs (Decidable (_ ∨ _))

variable {W S Y : Type}

/-- One event with `workers=1`; `none` if it cannot happen now (the thread waits). -/
def step (T : Trainer W S Y) (maxQueue : ℕ) (st : State W S Y) : Event → Option (State W S Y)
  | .draw =>
    if room maxQueue st.pending.length then
      some { st with pending := st.pending ++ [(T.draw st.weights st.gen).1], gen := (T.draw st.weights st.gen).2 }
    else none
  | .take =>
    match st.inHand, st.pending with
    | none, y :: rest => some { st with pending := rest, inHand := some y }
    | _, _ => none
  | .update =>
    match st.inHand with
    | some y => some { st with weights := T.learn st.weights y, inHand := none, updates := st.updates + 1 }
    | none => none

/-- A schedule: any sequence of events that can happen. -/
def run (T : Trainer W S Y) (maxQueue : ℕ) (st : State W S Y) (schedule : List Event) : Option (State W S Y) :=
  schedule.foldlM (step T maxQueue) st

/-- The beginning of training. -/
def start (w : W) (s : S) : State W S Y := ⟨w, s, [], none, 0⟩

/-- `fit_generator` with `workers=0`: `n` times, call `next` on the generator and train on the result. -/
def mainThread (T : Trainer W S Y) (w : W) (s : S) : ℕ → W × S
  | 0 => (w, s)
  | n + 1 =>
    let p := mainThread T w s n
    (T.learn p.1 (T.draw p.1 p.2).1, (T.draw p.1 p.2).2)

/-! ### Specification -/

/-- `w 0, w 1, ...` are the weights of a training in which step `k` uses a batch drawn when the weights were `w (d k)`, and
`s k` the states of the generator. The training a user expects has `d k = k`. -/
structure Delayed (T : Trainer W S Y) (w₀ : W) (s₀ : S) (d : ℕ → ℕ) (n : ℕ) (w : ℕ → W) (s : ℕ → S) : Prop where
  w_zero : w 0 = w₀
  s_zero : s 0 = s₀
  learn : ∀ k < n, w (k + 1) = T.learn (w k) (T.draw (w (d k)) (s k)).1
  gen : ∀ k < n, s (k + 1) = (T.draw (w (d k)) (s k)).2

/-- The delays that a queue of the given size allows: batches are drawn in order, none before its time, and not more than
`max_queue_size + 1` steps early. -/
structure Allowed (maxQueue : ℕ) (n : ℕ) (d : ℕ → ℕ) : Prop where
  mono : ∀ i j, i ≤ j → j < n → d i ≤ d j
  le : ∀ k < n, d k ≤ k
  bound : maxQueue ≠ 0 → ∀ k < n, k ≤ d k + maxQueue + 1

/-! ### `workers=0` -/

/-- **C117.** With `workers=0` every step uses a batch drawn with the current weights, for any generator, any network and any
number of steps. -/
theorem C117_main_thread (T : Trainer W S Y) (w₀ : W) (s₀ : S) (n : ℕ) :
    Delayed T w₀ s₀ id n (fun k => (mainThread T w₀ s₀ k).1) (fun k => (mainThread T w₀ s₀ k).2) :=
  ⟨rfl, rfl, fun _ _ => rfl, fun _ _ => rfl⟩

/-- Such a training is unique: the weights are determined by the first weights and the first state of the
generator. -/
theorem delayed_id_unique (T : Trainer W S Y) (w₀ : W) (s₀ : S) (n : ℕ) (w : ℕ → W) (s : ℕ → S)
    (h : Delayed T w₀ s₀ id n w s) : ∀ k ≤ n, w k = (mainThread T w₀ s₀ k).1 ∧ s k = (mainThread T w₀ s₀ k).2 := by
  intro k
  induction k with
  | zero => exact fun _ => ⟨h.w_zero, h.s_zero⟩
  | succ k ih =>
    intro hk
    obtain ⟨h1, h2⟩ := ih (by omega)
    refine ⟨?_, ?_⟩
    · rw [h.learn k (by omega)]; simp only [id, h1, h2]; rfl
    · rw [h.gen k (by omega)]; simp only [id, h1, h2]; rfl

/-! ### `workers=1` -/

/-- What is known in a state: `m` batches have been drawn, `t` taken. -/
structure Inv (T : Trainer W S Y) (maxQueue : ℕ) (w₀ : W) (s₀ : S) (d : ℕ → ℕ) (w : ℕ → W) (s : ℕ → S) (m t : ℕ)
    (st : State W S Y) : Prop where
  w_zero : w 0 = w₀
  s_zero : s 0 = s₀
  learn : ∀ k < st.updates, w (k + 1) = T.learn (w k) (T.draw (w (d k)) (s k)).1
  gen : ∀ k < m, s (k + 1) = (T.draw (w (d k)) (s k)).2
  mono : ∀ i j, i ≤ j → j < m → d i ≤ d j
  le : ∀ k < m, d k ≤ k ∧ d k ≤ st.updates
  bound : maxQueue ≠ 0 → ∀ k < m, k ≤ d k + maxQueue + 1
  weights : st.weights = w st.updates
  state : st.gen = s m
  tle : t ≤ m
  pending : st.pending = (List.range (m - t)).map fun i => (T.draw (w (d (t + i))) (s (t + i))).1
  hand : (st.inHand = none ∧ t = st.updates) ∨
    (st.inHand = some (T.draw (w (d st.updates)) (s st.updates)).1 ∧ t = st.updates + 1)

theorem inv_start (T : Trainer W S Y) (maxQueue : ℕ) (w₀ : W) (s₀ : S) :
    Inv T maxQueue w₀ s₀ (fun _ => 0) (fun _ => w₀) (fun _ => s₀) 0 0 (start w₀ s₀) where
  w_zero := rfl
  s_zero := rfl
  learn := fun k hk => absurd hk (Nat.not_lt_zero k)
  gen := fun k hk => absurd hk (Nat.not_lt_zero k)
  mono := fun _ j _ hj => absurd hj (Nat.not_lt_zero j)
  le := fun k hk => absurd hk (Nat.not_lt_zero k)
  bound := fun _ k hk => absurd hk (Nat.not_lt_zero k)
  weights := rfl
  state := rfl
  tle := le_refl _
  pending := rfl
  hand := Or.inl ⟨rfl, rfl⟩

section
variable {T : Trainer W S Y} {maxQueue : ℕ} {w₀ : W} {s₀ : S} {d : ℕ → ℕ} {w : ℕ → W} {s : ℕ → S} {m t : ℕ}
  {st st' : State W S Y}

theorem Inv.updates_le (h : Inv T maxQueue w₀ s₀ d w s m t st) : st.updates ≤ t ∧ t ≤ st.updates + 1 := by
  rcases h.hand with ⟨-, h⟩ | ⟨-, h⟩ <;> omega

theorem Inv.length (h : Inv T maxQueue w₀ s₀ d w s m t st) : st.pending.length = m - t := by
  rw [h.pending, List.length_map, List.length_range]

theorem inv_draw (h : Inv T maxQueue w₀ s₀ d w s m t st) (hs : step T maxQueue st .draw = some st') :
    ∃ d' s', Inv T maxQueue w₀ s₀ d' w s' (m + 1) t st' := by
  have ⟨hu1, hu2⟩ := h.updates_le
  have htm := h.tle
  unfold step at hs
  dsimp only at hs
  by_cases hr : room maxQueue st.pending.length
  · rw [if_pos hr] at hs
    injection hs with hs
    subst hs
    let d' := Function.update d m st.updates
    let s' := Function.update s (m + 1) (T.draw st.weights st.gen).2
    have hd : ∀ k, k < m → d' k = d k := fun k hk => Function.update_of_ne (by omega) _ _
    have hdm : d' m = st.updates := Function.update_self _ _ _
    have hss : ∀ k, k ≤ m → s' k = s k := fun k hk => Function.update_of_ne (by omega) _ _
    have hsm : s' (m + 1) = (T.draw st.weights st.gen).2 := Function.update_self _ _ _
    refine ⟨d', s', ?_⟩
    refine ⟨h.w_zero, by rw [hss 0 (by omega)]; exact h.s_zero, ?_, ?_, ?_, ?_, ?_, h.weights, hsm.symm, by omega, ?_, ?_⟩
    · intro k hk
      dsimp only at hk
      by_cases hkm : k < m
      · rw [hd k hkm, hss k (by omega)]; exact h.learn k hk
      · omega
    · intro k hk
      by_cases hkm : k < m
      · rw [hd k hkm, hss k (by omega), hss (k + 1) (by omega)]; exact h.gen k hkm
      · have : k = m := by omega
        subst this
        rw [hdm, hsm, hss k (le_refl _), h.weights, h.state]
    · intro i j hij hj
      by_cases hjm : j < m
      · rw [hd i (by omega), hd j hjm]; exact h.mono i j hij hjm
      · have : j = m := by omega
        subst this
        by_cases him : i < j
        · rw [hd i him, hdm]; exact (h.le i him).2
        · have : i = j := by omega
          rw [this]
    · intro k hk
      by_cases hkm : k < m
      · rw [hd k hkm]; exact h.le k hkm
      · have : k = m := by omega
        subst this
        rw [hdm]
        exact ⟨by omega, le_refl _⟩
    · intro hq k hk
      by_cases hkm : k < m
      · rw [hd k hkm]; exact h.bound hq k hkm
      · have : k = m := by omega
        subst this
        rw [hdm]
        rcases hr with hr | hr
        · exact absurd hr hq
        · rw [h.length] at hr; omega
    · dsimp only
      rw [show m + 1 - t = (m - t) + 1 by omega, List.range_succ, List.map_append, h.pending]
      congr 1
      · apply List.map_congr_left
        intro i hi
        rw [List.mem_range] at hi
        rw [hd _ (by omega), hss _ (by omega)]
      · simp only [List.map_cons, List.map_nil, show t + (m - t) = m by omega]
        rw [hdm, hss m (le_refl _), h.weights, h.state]
    · rcases h.hand with ⟨h1, h2⟩ | ⟨h1, h2⟩
      · exact Or.inl ⟨h1, h2⟩
      · refine Or.inr ⟨?_, h2⟩
        dsimp only
        rw [hd _ (by omega), hss _ (by omega)]
        exact h1
  · rw [if_neg hr] at hs
    exact absurd hs (by simp)

theorem inv_take (h : Inv T maxQueue w₀ s₀ d w s m t st) (hs : step T maxQueue st .take = some st') :
    Inv T maxQueue w₀ s₀ d w s m (t + 1) st' := by
  have hl := h.length
  unfold step at hs
  dsimp only at hs
  rcases h.hand with ⟨h1, h2⟩ | ⟨h1, h2⟩
  · rw [h1] at hs
    cases hp : st.pending with
    | nil => rw [hp] at hs; exact absurd hs (by simp)
    | cons y rest =>
      rw [hp] at hs
      dsimp only at hs
      injection hs with hs
      subst hs
      have htm : t < m := by rw [hp, List.length_cons] at hl; omega
      have hpend := h.pending
      rw [hp, show m - t = (m - (t + 1)) + 1 by omega, List.range_succ_eq_map, List.map_cons, List.map_map] at hpend
      injection hpend with hy hrest
      refine ⟨h.w_zero, h.s_zero, h.learn, h.gen, h.mono, h.le, h.bound, h.weights, h.state, htm, ?_, Or.inr ⟨?_, ?_⟩⟩
      · dsimp only
        rw [hrest]
        apply List.map_congr_left
        intro i _
        simp only [Function.comp, Nat.succ_eq_add_one, show t + (i + 1) = t + 1 + i by omega]
      · dsimp only
        rw [hy, h2]
        rfl
      · dsimp only; omega
  · rw [h1] at hs
    exact absurd hs (by simp)

theorem inv_update (h : Inv T maxQueue w₀ s₀ d w s m t st) (hs : step T maxQueue st .update = some st') :
    ∃ w', Inv T maxQueue w₀ s₀ d w' s m t st' := by
  have htm := h.tle
  unfold step at hs
  dsimp only at hs
  rcases h.hand with ⟨h1, h2⟩ | ⟨h1, h2⟩
  · rw [h1] at hs
    exact absurd hs (by simp)
  · rw [h1] at hs
    dsimp only at hs
    injection hs with hs
    subst hs
    let w' := Function.update w (st.updates + 1)
      (T.learn st.weights (T.draw (w (d st.updates)) (s st.updates)).1)
    have hw : ∀ k, k ≤ st.updates → w' k = w k := fun k hk => Function.update_of_ne (by omega) _ _
    have hwu : w' (st.updates + 1) = _ := Function.update_self _ _ _
    refine ⟨w', by rw [hw 0 (by omega)]; exact h.w_zero, h.s_zero, ?_, ?_, h.mono, ?_, h.bound, hwu.symm, h.state, htm, ?_,
      Or.inl ⟨rfl, h2⟩⟩
    · intro k hk
      dsimp only at hk
      have hdk := (h.le k (by omega)).2
      by_cases hku : k < st.updates
      · rw [hw (k + 1) (by omega), hw k (by omega), hw _ hdk]; exact h.learn k hku
      · have : k = st.updates := by omega
        subst this
        rw [hwu, hw _ (le_refl _), hw _ hdk, h.weights]
    · intro k hk
      rw [hw _ (h.le k hk).2]; exact h.gen k hk
    · intro k hk
      have := h.le k hk
      exact ⟨this.1, by dsimp only; omega⟩
    · dsimp only
      rw [h.pending]
      apply List.map_congr_left
      intro i hi
      rw [List.mem_range] at hi
      rw [hw _ (h.le (t + i) (by omega)).2]

theorem inv_run : ∀ (schedule : List Event) (st st' : State W S Y) (d : ℕ → ℕ) (w : ℕ → W) (s : ℕ → S) (m t : ℕ),
    Inv T maxQueue w₀ s₀ d w s m t st → run T maxQueue st schedule = some st' →
    ∃ d' w' s' m' t', Inv T maxQueue w₀ s₀ d' w' s' m' t' st'
  | [], st, st', d, w, s, m, t, h, hr => by
    injection hr with hr
    subst hr
    exact ⟨d, w, s, m, t, h⟩
  | e :: rest, st, st', d, w, s, m, t, h, hr => by
    unfold run at hr
    rw [List.foldlM_cons] at hr
    cases hs : step T maxQueue st e with
    | none => rw [hs] at hr; exact absurd hr (by simp)
    | some st₁ =>
      rw [hs] at hr
      have hr' : run T maxQueue st₁ rest = some st' := hr
      cases e with
      | draw =>
        obtain ⟨d', s', h'⟩ := inv_draw h hs
        exact inv_run rest st₁ st' d' w s' (m + 1) t h' hr'
      | take => exact inv_run rest st₁ st' d w s m (t + 1) (inv_take h hs) hr'
      | update =>
        obtain ⟨w', h'⟩ := inv_update h hs
        exact inv_run rest st₁ st' d w' s m t h' hr'

/-! ### Every allowed delay occurs -/

theorem run_append (st : State W S Y) (a b : List Event) :
    run T maxQueue st (a ++ b) = (run T maxQueue st a).bind fun st => run T maxQueue st b := by
  unfold run
  rw [List.foldlM_append]
  rfl

/-- The state in which `m` batches were drawn and `t` taken, of a given training. -/
def at_ (T : Trainer W S Y) (d : ℕ → ℕ) (w : ℕ → W) (s : ℕ → S) (m t u : ℕ) : State W S Y :=
  ⟨w u, s m, (List.range (m - t)).map fun i => (T.draw (w (d (t + i))) (s (t + i))).1,
    if t = u then none else some (T.draw (w (d u)) (s u)).1, u⟩

theorem at_draw (n u t : ℕ) (hgen : ∀ k < n, s (k + 1) = (T.draw (w (d k)) (s k)).2) (a : ℕ) :
    ∀ b, a ≤ b → b ≤ n → t ≤ a → (∀ i, a ≤ i → i < b → d i = u) → (maxQueue ≠ 0 → b ≤ t + maxQueue + 1) →
      run T maxQueue (at_ T d w s a t u) (List.replicate (b - a) .draw) = some (at_ T d w s b t u) := by
  intro b
  induction b with
  | zero => intro hab _ _ _ _; have : a = 0 := by omega
            subst this; rfl
  | succ b ih =>
    intro hab hb hta hd hq
    by_cases he : a = b + 1
    · subst he; rw [Nat.sub_self]; rfl
    · have hrec := ih (by omega) (by omega) hta (fun i h1 h2 => hd i h1 (by omega)) (fun h => by have := hq h; omega)
      rw [show b + 1 - a = (b - a) + 1 by omega, List.replicate_succ', run_append, hrec, Option.bind_some]
      have hdb : d b = u := hd b (by omega) (by omega)
      have hroom : room maxQueue (b - t) := by
        by_cases h0 : maxQueue = 0
        · exact Or.inl h0
        · exact Or.inr (by have := hq h0; omega)
      have hlen : (at_ T d w s b t u).pending.length = b - t := by simp [at_]
      have : step T maxQueue (at_ T d w s b t u) .draw = some (at_ T d w s (b + 1) t u) := by
        unfold step
        dsimp only
        rw [hlen, if_pos hroom]
        unfold at_
        rw [show b + 1 - t = (b - t) + 1 by omega, List.range_succ, List.map_append, hgen b (by omega)]
        simp only [List.map_cons, List.map_nil, show t + (b - t) = b by omega, hdb]
      show (step T maxQueue (at_ T d w s b t u) .draw).bind _ = _
      rw [this]
      rfl

theorem at_take (u m : ℕ) (h : u < m) :
    step T maxQueue (at_ T d w s m u u) .take = some (at_ T d w s m (u + 1) u) := by
  unfold step at_
  dsimp only
  rw [if_pos rfl, show m - u = (m - (u + 1)) + 1 by omega, List.range_succ_eq_map, List.map_cons, List.map_map]
  dsimp only
  rw [if_neg (by omega)]
  congr 2
  apply List.map_congr_left
  intro i _
  simp only [Function.comp, Nat.succ_eq_add_one, show u + (i + 1) = u + 1 + i by omega]

theorem at_update (n u m : ℕ) (hu : u < n) (hl : ∀ k < n, w (k + 1) = T.learn (w k) (T.draw (w (d k)) (s k)).1) :
    step T maxQueue (at_ T d w s m (u + 1) u) .update = some (at_ T d w s m (u + 1) (u + 1)) := by
  unfold step at_
  dsimp only
  rw [if_neg (by omega), if_pos rfl]
  dsimp only
  rw [hl u hu]

/-- The number of batches among the first `n` that are drawn before update `v`. -/
theorem exists_count (n : ℕ) (mono : ∀ i j, i ≤ j → j < n → d i ≤ d j) (v : ℕ) :
    ∃ c ≤ n, ∀ i < n, i < c ↔ d i < v := by
  induction n with
  | zero => exact ⟨0, le_refl _, fun i hi => absurd hi (Nat.not_lt_zero i)⟩
  | succ n ih =>
    obtain ⟨c, hc, h⟩ := ih fun i j hij hj => mono i j hij (by omega)
    by_cases hn : d n < v
    · refine ⟨n + 1, le_refl _, fun i hi => ⟨fun _ => ?_, fun _ => hi⟩⟩
      have := mono i n (by omega) (by omega)
      omega
    · refine ⟨c, by omega, fun i hi => ?_⟩
      by_cases hin : i < n
      · exact h i hin
      · have : i = n := by omega
        subst this
        exact ⟨fun h => by omega, fun h => absurd h hn⟩

theorem reach (n : ℕ) (hD : Delayed T w₀ s₀ d n w s) (hA : Allowed maxQueue n d) :
    ∀ u ≤ n, ∀ c ≤ n, (∀ i < n, i < c ↔ d i < u) →
      ∃ schedule, run T maxQueue (start w₀ s₀) schedule = some (at_ T d w s c u u) := by
  intro u
  induction u with
  | zero =>
    intro _ c hc h
    have : c = 0 := by
      by_contra h0
      have := (h 0 (by omega)).1 (by omega)
      omega
    subst this
    refine ⟨[], ?_⟩
    show some (start w₀ s₀) = _
    unfold start at_
    rw [hD.w_zero, hD.s_zero]
    simp
  | succ u ih =>
    intro hu c hc h
    obtain ⟨c₀, hc₀, h₀⟩ := exists_count n hA.mono u
    obtain ⟨sch, hsch⟩ := ih (by omega) c₀ hc₀ h₀
    have hcu : u < c := (h u (by omega)).2 (by have := hA.le u (by omega); omega)
    have hu₀ : u ≤ c₀ := by
      by_contra hlt
      have h1 := hA.le (u - 1) (by omega)
      have := (h₀ (u - 1) (by omega)).2 (by omega)
      omega
    have hcc : c₀ ≤ c := by
      by_contra hlt
      have := (h₀ c (by omega)).1 (by omega)
      have := (h c (by omega)).2 (by omega)
      omega
    have heq : ∀ i, c₀ ≤ i → i < c → d i = u := by
      intro i h1 h2
      have a := (h i (by omega)).1 h2
      have b : ¬ d i < u := fun hb => by have := (h₀ i (by omega)).2 hb; omega
      omega
    -- first the batch of step `u`, if it is not there yet
    let c₁ := max c₀ (u + 1)
    have e1 := at_draw (T := T) (maxQueue := maxQueue) (d := d) (w := w) (s := s) n u u hD.gen c₀ c₁ (le_max_left _ _)
      (by simp only [c₁]; omega) hu₀ (fun i h1 h2 => heq i h1 (by simp only [c₁] at h2; omega))
      (fun hq => by
        by_cases hlt : u + 1 ≤ c₀
        · have hb := hA.bound hq (c₀ - 1) (by omega)
          have := (h₀ (c₀ - 1) (by omega)).1 (by omega)
          simp only [c₁]
          omega
        · simp only [c₁]; omega)
    have e2 := at_draw (T := T) (maxQueue := maxQueue) (d := d) (w := w) (s := s) n u (u + 1) hD.gen c₁ c
      (by simp only [c₁]; omega) hc (le_max_right _ _) (fun i h1 h2 => heq i (by simp only [c₁] at h1; omega) h2)
      (fun hq => by
        by_cases hlt : c₁ < c
        · have hb := hA.bound hq (c - 1) (by omega)
          have := heq (c - 1) (by simp only [c₁] at hlt; omega) (by omega)
          omega
        · have hb : c = c₁ := by simp only [c₁] at hlt ⊢; omega
          by_cases hlt : u + 1 ≤ c₀
          · have hb' := hA.bound hq (c₀ - 1) (by omega)
            have := (h₀ (c₀ - 1) (by omega)).1 (by omega)
            simp only [c₁] at hb
            omega
          · simp only [c₁] at hb; omega)
    refine ⟨sch ++ (List.replicate (c₁ - c₀) .draw ++ ([.take] ++ (List.replicate (c - c₁) .draw ++ [.update]))), ?_⟩
    rw [run_append, hsch, Option.bind_some, run_append, e1, Option.bind_some, run_append]
    have e3 : run T maxQueue (at_ T d w s c₁ u u) [.take] = some (at_ T d w s c₁ (u + 1) u) := by
      show (step T maxQueue _ .take).bind _ = _
      rw [at_take u c₁ (by simp only [c₁]; omega)]
      rfl
    rw [e3, Option.bind_some, run_append, e2, Option.bind_some]
    show (step T maxQueue _ .update).bind _ = _
    rw [at_update n u c (by omega) hD.learn]
    rfl

end

/-! ### C117 -/

/-- **C117, part.** With a second thread, whatever the schedule: the batches are used in the order in which they are drawn, each
once, and the batch of step `k` was drawn with the weights of a step `d k` between `k - (max_queue_size + 1)` and `k`. What is missing
is `d k = k`. -/
theorem C117_queue_partial (T : Trainer W S Y) (maxQueue : ℕ) (w₀ : W) (s₀ : S) (schedule : List Event)
    (st : State W S Y) (h : run T maxQueue (start w₀ s₀) schedule = some st) :
    ∃ d w s, Allowed maxQueue st.updates d ∧ Delayed T w₀ s₀ d st.updates w s ∧ st.weights = w st.updates := by
  obtain ⟨d, w, s, m, t, hi⟩ := inv_run schedule _ st _ _ _ 0 0 (inv_start T maxQueue w₀ s₀) h
  have h1 := hi.updates_le
  have h2 := hi.tle
  exact ⟨d, w, s, ⟨fun i j hij hj => hi.mono i j hij (by omega), fun k hk => (hi.le k (by omega)).1,
    fun hq k hk => hi.bound hq k (by omega)⟩, ⟨hi.w_zero, hi.s_zero, hi.learn, fun k hk => hi.gen k (by omega)⟩, hi.weights⟩

/-- **C117 is false with a queue.** Every delay that the size of the queue allows is reached by some schedule of the two
threads, for every generator and network: there is no better bound than that of `C117_queue_partial`. -/
theorem C117_violated_queue (T : Trainer W S Y) (maxQueue : ℕ) (w₀ : W) (s₀ : S) (n : ℕ) (d : ℕ → ℕ) (w : ℕ → W) (s : ℕ → S)
    (hA : Allowed maxQueue n d) (hD : Delayed T w₀ s₀ d n w s) :
    ∃ schedule st, run T maxQueue (start w₀ s₀) schedule = some st ∧ st.updates = n ∧ st.weights = w n := by
  obtain ⟨c, hc, h⟩ := exists_count n hA.mono n
  obtain ⟨sch, hs⟩ := reach n hD hA n (le_refl _) c hc h
  exact ⟨sch, _, hs, rfl, rfl⟩

/-- The weights and generator states of a training all of whose batches are drawn at the beginning. -/
def allAtOnce (T : Trainer W S Y) (w₀ : W) (s₀ : S) : ℕ → W × S
  | 0 => (w₀, s₀)
  | n + 1 => (T.learn (allAtOnce T w₀ s₀ n).1 (T.draw w₀ (allAtOnce T w₀ s₀ n).2).1, (T.draw w₀ (allAtOnce T w₀ s₀ n).2).2)

/-- **C117 is false for `max_queue_size=0` without `workers=0`** (main.py 77): the whole training, however long, may use batches
drawn with the initial weights. -/
theorem C117_violated_unbounded (T : Trainer W S Y) (w₀ : W) (s₀ : S) (n : ℕ) :
    ∃ schedule st, run T 0 (start w₀ s₀) schedule = some st ∧ st.updates = n ∧ st.weights = (allAtOnce T w₀ s₀ n).1 :=
  C117_violated_queue T 0 w₀ s₀ n (fun _ => 0) (fun k => (allAtOnce T w₀ s₀ k).1) (fun k => (allAtOnce T w₀ s₀ k).2)
    ⟨fun _ _ _ _ => le_refl _, fun k _ => Nat.zero_le k, fun h => absurd rfl h⟩
    ⟨rfl, rfl, fun _ _ => rfl, fun _ _ => rfl⟩

/-- **C117, consequence.** Gradient descent on `x² / 2` with exact gradients and step length one. In the main thread the minimum
is reached in one step and never left. With a second thread and any queue, a schedule leads from the minimum back to where
the training began, on the other side. -/
theorem C117_violated_minimum (maxQueue : ℕ) (x : ℝ) :
    (∀ n, (mainThread (S := Unit) ⟨fun w _ => (w, ()), fun w y => w - y⟩ x () (n + 1)).1 = 0) ∧
    ∃ schedule st, run (S := Unit) ⟨fun w _ => (w, ()), fun w y => w - y⟩ maxQueue (start x ()) schedule = some st ∧
      st.updates = 2 ∧ st.weights = -x := by
  constructor
  · intro n
    simp [mainThread]
  · refine C117_violated_queue (S := Unit) ⟨fun w _ => (w, ()), fun w y => w - y⟩ maxQueue x () 2 (fun _ => 0)
      (fun k => if k = 0 then x else if k = 1 then 0 else -x) (fun _ => ()) ⟨fun _ _ _ _ => le_refl _, fun k _ => Nat.zero_le k,
      fun _ k hk => by omega⟩ ⟨rfl, rfl, ?_, fun _ _ => rfl⟩
    intro k hk
    rcases (by omega : k = 0 ∨ k = 1) with rfl | rfl
    · simp
    · simp

/-! ### The exact generator hands out views -/

/-- `ExactVariational` yields slices of its arrays (exact_variational.py 158), views that change when the arrays are refreshed
(lines 141-144 write in place). `array` are the weights for which the arrays were computed last, `position` the number of
batches drawn; the batches in the queue are known by their slice. -/
structure View (W : Type) where
  weights : W
  array : W
  position : ℕ
  pending : List ℕ
  inHand : Option ℕ
  updates : ℕ

/-- `next` of the exact generator (exact_variational.py 154-158), `q` batches per cycle. -/
def View.next (q : ℕ) (st : View W) : View W :=
  { st with array := if st.position % q = 0 then st.weights else st.array, position := st.position + 1 }

/-- One event with `workers=1`; `coeffs a i` is slice `i` of the coefficients of the weights `a`. The training reads the arrays when it
makes its step. -/
def View.step (coeffs : W → ℕ → Y) (learn : W → Y → W) (q maxQueue : ℕ) (st : View W) : Event → Option (View W)
  | .draw => if room maxQueue st.pending.length then some { st.next q with pending := st.pending ++ [st.position % q] } else none
  | .take =>
    match st.inHand, st.pending with
    | none, i :: rest => some { st with pending := rest, inHand := some i }
    | _, _ => none
  | .update =>
    match st.inHand with
    | some i => some { st with weights := learn st.weights (coeffs st.array i), inHand := none, updates := st.updates + 1 }
    | none => none

/-- `workers=0`: call `next`, then train on the slice. -/
def View.mainThread (coeffs : W → ℕ → Y) (learn : W → Y → W) (q : ℕ) (w₀ : W) : ℕ → View W
  | 0 => ⟨w₀, w₀, 0, [], none, 0⟩
  | n + 1 =>
    let st := View.mainThread coeffs learn q w₀ n
    let st' := st.next q
    { st' with weights := learn st'.weights (coeffs st'.array (st.position % q)), updates := st.updates + 1 }

/-- **C117.** Exact training in the main thread: all steps of a cycle use the coefficients of the weights at the beginning of the
cycle, every slice once. -/
theorem C117_exact_main_thread (coeffs : W → ℕ → Y) (learn : W → Y → W) (q : ℕ) (w₀ : W) (n : ℕ) :
    (View.mainThread coeffs learn q w₀ (n + 1)).weights =
      learn (View.mainThread coeffs learn q w₀ n).weights
        (coeffs (View.mainThread coeffs learn q w₀ (q * (n / q))).weights (n % q)) := by
  have hpos : ∀ n, (View.mainThread coeffs learn q w₀ n).position = n := by
    intro n
    induction n with
    | zero => rfl
    | succ n ih => simp only [View.mainThread, View.next, ih]
  have harr : ∀ n, ((View.mainThread coeffs learn q w₀ n).next q).array =
      (View.mainThread coeffs learn q w₀ (q * (n / q))).weights := by
    intro n
    induction n with
    | zero => simp [View.mainThread, View.next]
    | succ n ih =>
      unfold View.next
      dsimp only
      rw [hpos]
      by_cases h : (n + 1) % q = 0
      · rw [if_pos h]
        have : q * ((n + 1) / q) = n + 1 := Nat.mul_div_cancel' (Nat.dvd_of_mod_eq_zero h)
        rw [this]
      · rw [if_neg h]
        have hd : (n + 1) / q = n / q := by
          rw [Nat.succ_div, if_neg (fun hd => h (Nat.mod_eq_zero_of_dvd hd))]
          simp
        rw [hd, ← ih]
        rfl
  have h1 : (View.mainThread coeffs learn q w₀ (n + 1)).weights =
      learn (View.mainThread coeffs learn q w₀ n).weights
        (coeffs ((View.mainThread coeffs learn q w₀ n).next q).array ((View.mainThread coeffs learn q w₀ n).position % q)) := rfl
  rw [h1, harr, hpos]

/-- **C117 is false for exact training with a queue.** For every cycle length from two on and every queue size there is a
schedule in which the last step of the first cycle uses the coefficients of the next refresh, so the steps of one cycle do
not belong to one set of coefficients. -/
theorem C117_violated_exact_views (coeffs : W → ℕ → Y) (learn : W → Y → W) (q maxQueue : ℕ) (hq : 0 < q) (w₀ : W) :
    ∃ (schedule : List Event) (st : View W), schedule.foldlM (View.step coeffs learn q maxQueue) ⟨w₀, w₀, 0, [], none, 0⟩ = some st ∧
      st.updates = q ∧
      st.weights = learn (View.mainThread coeffs learn q w₀ (q - 1)).weights
        (coeffs (View.mainThread coeffs learn q w₀ (q - 1)).weights (q - 1)) := by
  have hroom : room maxQueue 0 := Or.inr (by omega)
  have shape : ∀ n, (View.mainThread coeffs learn q w₀ n).position = n ∧ (View.mainThread coeffs learn q w₀ n).pending = [] ∧
      (View.mainThread coeffs learn q w₀ n).inHand = none ∧ (View.mainThread coeffs learn q w₀ n).updates = n := by
    intro n
    induction n with
    | zero => exact ⟨rfl, rfl, rfl, rfl⟩
    | succ n ih =>
      obtain ⟨h1, h2, h3, h4⟩ := ih
      exact ⟨by simp [View.mainThread, View.next, h1], by simp [View.mainThread, View.next, h2],
        by simp [View.mainThread, View.next, h3], by simp [View.mainThread, h4]⟩
  -- one step after the other
  have seq : ∀ n, ∃ schedule : List Event, schedule.foldlM (View.step coeffs learn q maxQueue) ⟨w₀, w₀, 0, [], none, 0⟩ =
      some (View.mainThread coeffs learn q w₀ n) := by
    intro n
    induction n with
    | zero => exact ⟨[], rfl⟩
    | succ n ih =>
      obtain ⟨sch, hs⟩ := ih
      obtain ⟨h1, h2, h3, h4⟩ := shape n
      refine ⟨sch ++ [.draw, .take, .update], ?_⟩
      rw [List.foldlM_append, hs]
      simp [View.step, h1, h2, h3, h4, hroom, View.next, View.mainThread]
  obtain ⟨sch, hs⟩ := seq (q - 1)
  obtain ⟨h1, h2, h3, h4⟩ := shape (q - 1)
  refine ⟨sch ++ [.draw, .take, .draw, .update], ?_⟩
  rw [List.foldlM_append, hs]
  have hm : (q - 1) % q = q - 1 := Nat.mod_eq_of_lt (by omega)
  have hq1 : q - 1 + 1 = q := by omega
  simp [View.step, h1, h2, h3, h4, hroom, View.next, hm, hq1]

/-- A training with two batches per cycle in which this makes a difference. -/
example : ∃ (schedule : List Event) (st : View ℝ), schedule.foldlM (View.step (fun (w : ℝ) (_ : ℕ) => w) (fun w y => w - y) 2 10) ⟨1, 1, 0, [], none, 0⟩ = some st ∧
    st.updates = 2 ∧ st.weights ≠ (View.mainThread (fun (w : ℝ) (_ : ℕ) => w) (fun w y => w - y) 2 1 2).weights := by
  obtain ⟨sch, st, h1, h2, h3⟩ := C117_violated_exact_views (fun (w : ℝ) (_ : ℕ) => w) (fun w y => w - y) 2 10 (by omega) 1
  refine ⟨sch, st, h1, h2, ?_⟩
  rw [h3]
  simp [View.mainThread, View.next]

/-- The delays of the default queue of ten batches: eleven steps are allowed. -/
example : Allowed 10 12 (fun _ => 0) := ⟨fun _ _ _ _ => le_refl _, fun k _ => Nat.zero_le k, fun _ k hk => by omega⟩

end Verif.Training.Queue
