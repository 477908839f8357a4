import Verif.Energy.ShapeProps
import Mathlib.Algebra.Order.BigOperators.Group.Finset

/-
What an estimate of the energy costs: which configurations the network is evaluated on, how many they are and in how many
forward passes (`src/flowket/observables/monte_carlo/operator.py`, with `wave_function` of
`src/flowket/optimization/variational_monte_carlo.py:17-25`).
-/
namespace Verif.Energy
open Verif.Operators

variable {σ : Type} {R B : Nat}

/-! ### Model -/

/-- The array of configurations handed to `wave_function`: the used connections of each sample in turn (operator.py:7-9), or all
connections row by row (operator.py:37), by the test of line 46. -/
def asked (a : Answer σ R B) : List σ :=
  if 100 * usedCount a < 95 * (R * B) then (List.finRange B).flatMap fun b => (usedRows a b).map fun r => a.conn r b
  else (List.finRange R).flatMap fun r => (List.finRange B).map fun b => a.conn r b

/-- `Observable.local_values` (operator.py:44-54, 6-42) with a `wave_function` of whole arrays, recording the arrays it is called
with, in order. -/
noncomputable def localValuesCalls (waveFunction : List σ → List ℂ) (a : Answer σ R B) : List (List σ) × Option (List ℂ) :=
  if 100 * usedCount a < 95 * (R * B) then
    let conn := (List.finRange B).flatMap fun b => (usedRows a b).map fun r => a.conn r b
    ([conn], ((List.finRange B).foldl (unbalancedStep (waveFunction conn) a) (some (0, []))).map Prod.snd)
  else
    let conn := (List.finRange R).flatMap fun r => (List.finRange B).map fun b => a.conn r b
    let flat := waveFunction conn
    ([conn], if R = 0 then none
      else some ((List.finRange B).map fun b => ∑ r : Fin R, a.mel r b * Complex.exp (flat.getD (r * B + b) 0 - flat.getD b 0)))

/-- The batches in which `model.predict(x, batch_size=k)` goes through the rows of `x` (Keras' `make_batches`, an assumption on
Keras): `ceil(rows / k)` of them, batch `i` being `x[i * k:(i + 1) * k]`. -/
def predictBatches (k : Nat) (x : List σ) : List (List σ) :=
  (List.range ((x.length + k - 1) / k)).map fun i => (x.drop (i * k)).take k

/-- `wave_function` of the generators, `functools.partial(model.predict, batch_size=k)` (variational_monte_carlo.py:25): one
forward pass per batch, the outputs put together. A pass evaluates each row of its batch on its own. -/
def predict (k : Nat) (net : σ → ℂ) (x : List σ) : List ℂ := (predictBatches k x).flatMap fun batch => batch.map net

/-! ### Lemmas -/

theorem predictBatches_flatten (k : Nat) (hk : 0 < k) (x : List σ) : (predictBatches k x).flatten = x := by
  have h : ∀ n, ((List.range n).map fun i => (x.drop (i * k)).take k).flatten = x.take (n * k) := by
    intro n
    induction n with
    | zero => simp
    | succ n ih =>
      rw [List.range_succ, List.map_append, List.flatten_append, ih, Nat.succ_mul, List.take_add]
      simp
  unfold predictBatches
  rw [h]
  refine List.take_of_length_le ?_
  have := Nat.div_add_mod (x.length + k - 1) k
  have hm := Nat.mod_lt (x.length + k - 1) hk
  rw [Nat.mul_comm]
  omega

theorem predict_eq (k : Nat) (hk : 0 < k) (net : σ → ℂ) (x : List σ) : predict k net x = x.map net := by
  unfold predict
  conv_rhs => rw [← predictBatches_flatten k hk x, List.map_flatten]
  rw [List.flatMap_def]

theorem localValuesCalls_map (net : σ → ℂ) (a : Answer σ R B) :
    localValuesCalls (fun x => x.map net) a = ([asked a], localValues net a) := by
  unfold localValuesCalls asked localValues unbalanced balanced flatLogValues
  split
  · rfl
  · dsimp only
    congr 2
    simp only [Nat.zero_mul, Nat.zero_add]

theorem usedCount_le (a : Answer σ R B) : usedCount a ≤ R * B := by
  unfold usedCount
  have h : ∀ l : List (Fin B), (l.map fun b => (usedRows a b).length).sum ≤ R * l.length := by
    intro l
    induction l with
    | nil => simp
    | cons b l ih =>
      have : (usedRows a b).length ≤ R := by
        unfold usedRows
        exact le_trans (List.length_filter_le _ _) (by simp)
      simp only [List.map_cons, List.sum_cons, List.length_cons, Nat.mul_succ]
      omega
  simpa using h (List.finRange B)

theorem asked_length (a : Answer σ R B) :
    (asked a).length = if 100 * usedCount a < 95 * (R * B) then usedCount a else R * B := by
  unfold asked
  split
  · rw [List.length_flatMap]
    simp only [List.length_map]
    rfl
  · rw [List.length_flatMap]
    simp

theorem localValues_congr (net net' : σ → ℂ) (a : Answer σ R B) (h : ∀ s ∈ asked a, net' s = net s) :
    localValues net' a = localValues net a := by
  have e := congrArg Prod.snd (localValuesCalls_map net a)
  have e' := congrArg Prod.snd (localValuesCalls_map net' a)
  simp only at e e'
  rw [← e, ← e']
  have hm : (asked a).map net' = (asked a).map net := List.map_congr_left h
  unfold asked at hm
  unfold localValuesCalls
  split
  · rename_i hc
    rw [if_pos hc] at hm
    dsimp only
    rw [hm]
  · rename_i hc
    rw [if_neg hc] at hm
    dsimp only
    rw [hm]

/-! ### Specification -/

/-- What evaluating the energy of the batch `sample` costs and needs. `used` is the number of configurations with a nonzero matrix
element to a sample, counted per sample, `size` the batch size of the forward passes, `calls` the arrays handed to the network, in
order, and `local_values net` the result. -/
structure Economical (used size : Nat) (sample : Fin B → σ) (connected : σ → Fin B → Prop) (calls : List (List σ))
    (energies : (σ → ℂ) → Option (List ℂ)) : Prop where
  /-- The network is called once, on an array `rows` that holds every sample and otherwise only connected configurations. -/
  once : ∃ rows, calls = [rows] ∧ (∀ b, sample b ∈ rows) ∧ (∀ s ∈ rows, ∃ b, connected s b) ∧
    -- Of the configurations it is evaluated on at most one in twenty is not needed.
    used ≤ rows.length ∧ 95 * rows.length ≤ 100 * used ∧
    -- It is evaluated on them in at most `ceil(rows / size)` forward passes, none on more than `size` configurations.
    (predictBatches size rows).length = (rows.length + size - 1) / size ∧ (∀ batch ∈ predictBatches size rows, batch.length ≤ size) ∧
    (predictBatches size rows).flatten = rows ∧
    -- The energies depend on nothing else of the wave function.
    ∀ net net' : σ → ℂ, (∀ s ∈ rows, net' s = net s) → energies net' = energies net

/-! ### Theorems -/

/-- **C161 for every operator** that keeps to the contract of `find_conn` (C09): the cost of the local values of a batch. They
are what one network call per configuration gives (C18), with any batch size of the forward passes. -/
theorem C161_any_operator (a : Answer σ R B) (sample : Fin B → σ) (h : Contracted a sample) (size : Nat) (hsize : 0 < size) :
    (∀ net, (localValuesCalls (predict size net) a).2 = localValues net a) ∧
    ∀ net, Economical (usedCount a) size sample (fun s b => ∃ r, a.conn r b = s) (localValuesCalls (predict size net) a).1
      (fun net => (localValuesCalls (predict size net) a).2) := by
  have hp : ∀ net : σ → ℂ, predict size net = fun x => x.map net := fun net => funext (predict_eq size hsize net)
  have hu : ∀ net, (localValuesCalls (predict size net) a).2 = localValues net a := fun net => by rw [hp, localValuesCalls_map]
  refine ⟨hu, fun net => ⟨asked a, by rw [hp, localValuesCalls_map], ?_, ?_, ?_, ?_, ?_, ?_, predictBatches_flatten _ hsize _, ?_⟩⟩
  · intro b
    unfold asked
    split
    · rw [List.mem_flatMap]
      refine ⟨b, List.mem_finRange b, List.mem_map.mpr ⟨⟨0, h.pos⟩, ?_, (h.first b).1⟩⟩
      unfold usedRows
      exact List.mem_filter.mpr ⟨List.mem_finRange _, (h.first b).2⟩
    · rw [List.mem_flatMap]
      exact ⟨⟨0, h.pos⟩, List.mem_finRange _, List.mem_map.mpr ⟨b, List.mem_finRange b, (h.first b).1⟩⟩
  · intro s hs
    unfold asked at hs
    split at hs
    · simp only [List.mem_flatMap, List.mem_map] at hs
      obtain ⟨b, -, r, -, e⟩ := hs
      exact ⟨b, r, e⟩
    · simp only [List.mem_flatMap, List.mem_map] at hs
      obtain ⟨r, -, b, -, e⟩ := hs
      exact ⟨b, r, e⟩
  · rw [asked_length]
    split
    · exact le_refl _
    · exact usedCount_le a
  · rw [asked_length]
    split <;> omega
  · simp [predictBatches]
  · intro batch hb
    unfold predictBatches at hb
    obtain ⟨i, -, rfl⟩ := List.mem_map.mp hb
    exact List.length_take_le _ _
  · intro net net' hn
    simp only [hu]
    exact localValues_congr net net' a hn

theorem contracted_ofRows {ι : Type} (rows : Fin B → List (Row ι ℝ)) (sample : Fin B → Config ι)
    (hc : ∀ b, Contract (sample b) R (rows b)) (hR : 0 < R) : Contracted (Answer.ofRows R rows fun b => (hc b).count) sample := by
  refine ⟨hR, ?_, ?_⟩
  · intro b
    obtain ⟨mel, hm⟩ := (hc b).first
    have h0 : (rows b)[0]'(by rw [(hc b).count]; exact hR) = ⟨sample b, mel, true⟩ := by
      rw [List.head?_eq_getElem?, List.getElem?_eq_getElem (by rw [(hc b).count]; exact hR)] at hm
      exact Option.some.inj hm
    unfold Answer.ofRows
    simp only [h0, and_self]
  · intro r b hu
    have := (hc b).unused _ (List.getElem_mem (by rw [(hc b).count]; exact r.isLt)) hu
    simp only [Answer.ofRows, this, Complex.ofReal_zero]

/-- The cost of an operator given by rows. -/
theorem economical_ofRows {ι : Type} (rows : Fin B → List (Row ι ℝ)) (sample : Fin B → Config ι)
    (hc : ∀ b, Contract (sample b) R (rows b)) (hR : 0 < R) (size : Nat) (hsize : 0 < size) (H : Wave ι → Wave ι)
    (hH : ∀ b ψ, applyRows (rows b) ψ = H ψ (sample b)) (connected : Config ι → Fin B → Prop)
    (hconn : ∀ b, ∀ r ∈ rows b, connected r.conn b) (used : Nat) (hused : ∑ b, (rows b).countP (fun r => r.use) = used)
    (net : Config ι → ℂ) :
    (localValuesCalls (predict size net) (Answer.ofRows R rows fun b => (hc b).count)).2 =
        some (specLocal H (fun s => Complex.exp (net s)) sample) ∧
      Economical used size sample connected
        (localValuesCalls (predict size net) (Answer.ofRows R rows fun b => (hc b).count)).1
        (fun net => (localValuesCalls (predict size net) (Answer.ofRows R rows fun b => (hc b).count)).2) := by
  obtain ⟨h1, h2⟩ := C161_any_operator _ sample (contracted_ofRows rows sample hc hR) size hsize
  refine ⟨?_, ?_⟩
  · rw [h1 net]
    exact localValues_ofRows rows sample hc hR H net fun b => hH b _
  · obtain ⟨asks, e1, e2, e3, e4⟩ := (h2 net).once
    rw [usedCount_ofRows, hused] at e4
    refine ⟨asks, e1, e2, fun s hs => ?_, e4⟩
    obtain ⟨b, r, rfl⟩ := e3 s hs
    exact ⟨b, hconn b _ (List.getElem_mem _)⟩

/-- All connections are used: the network sees each of them exactly once. -/
theorem calls_full {ι : Type} (rows : Fin B → List (Row ι ℝ)) (hlen : ∀ b, (rows b).length = R)
    (huse : ∀ b, ∀ r ∈ rows b, r.use = true) (size : Nat) (hsize : 0 < size) (net : Config ι → ℂ) :
    (localValuesCalls (predict size net) (Answer.ofRows R rows hlen)).1.map List.length = [R * B] := by
  have hp : predict size net = fun x => x.map net := funext (predict_eq size hsize net)
  rw [hp, localValuesCalls_map]
  have hc : usedCount (Answer.ofRows R rows hlen) = R * B := by
    rw [usedCount_ofRows]
    have : ∀ b, (rows b).countP (fun r => r.use) = R := fun b => by
      rw [List.countP_eq_length.mpr (huse b), hlen]
    simp only [this, Finset.sum_const, Finset.card_univ, Fintype.card_fin, smul_eq_mul]
    exact Nat.mul_comm _ _
  simp only [List.map_cons, List.map_nil, asked_length, hc]
  split <;> rfl

/-- The configurations that the transverse field connects with `s`: itself and those with one spin flipped. -/
def OneFlip {ι : Type} [DecidableEq ι] (s t : Config ι) : Prop := t = s ∨ ∃ i, t = Operators.flip i s

/-- The configurations that exchange couplings connect with `s`: itself and those with two unequal spins of a bond exchanged. -/
def OneExchange {ι : Type} [DecidableEq ι] (bonds : List (ι × ι)) (s t : Config ι) : Prop :=
  t = s ∨ ∃ b ∈ bonds, s b.1 ≠ s b.2 ∧ t = exchange b.1 b.2 s

/-- Number of connections that exchange couplings need at `s`: itself and one for each bond of unequal spins. -/
def exchanges {ι : Type} (bonds : List (ι × ι)) (s : Config ι) : Nat := bonds.countP (fun b => s b.1 ≠ s b.2) + 1

/-- **C161, Ising chains**: for the local energies of `B` configurations of `n` spins the network is evaluated on exactly
`(n + 1) * B` configurations, in one call: the samples and the samples with one spin flipped. -/
theorem C161_ising_chain {n B : Nat} (h j : ℝ) (pbc : Bool) (sample : Fin B → Config (Fin n)) (hs : ∀ b, IsSpin (sample b))
    (size : Nat) (hsize : 0 < size) (net : Config (Fin n) → ℂ) :
    let a := Answer.ofRows (n + 1) (isingFindConn1 (.float h) j pbc sample)
      fun b => (C09_ising_chain (.float h) j pbc sample b (hs b)).count
    (localValuesCalls (predict size net) a).2 =
        some (specLocal (tfim (chainBonds n pbc) h j) (fun s => Complex.exp (net s)) sample) ∧
      (localValuesCalls (predict size net) a).1.map List.length = [(n + 1) * B] ∧
      Economical ((n + 1) * B) size sample (fun t b => OneFlip (sample b) t) (localValuesCalls (predict size net) a).1
        (fun net => (localValuesCalls (predict size net) a).2) := by
  intro a
  have huse : ∀ b, ∀ r ∈ isingFindConn1 (.float h) j pbc sample b, r.use = true := by
    intro b r hr
    rw [isingFindConn1_eq, List.mem_cons, List.mem_map] at hr
    rcases hr with rfl | ⟨i, -, rfl⟩ <;> rfl
  obtain ⟨h1, h2⟩ := economical_ofRows (isingFindConn1 (.float h) j pbc sample) sample
    (fun b => C09_ising_chain (.float h) j pbc sample b (hs b)) (by omega) size hsize (tfim (chainBonds n pbc) h j)
    (fun b ψ => C06_ising_chain h j pbc sample b ψ) (fun t b => OneFlip (sample b) t) (by
      intro b r hr
      rw [isingFindConn1_eq, List.mem_cons, List.mem_map] at hr
      rcases hr with rfl | ⟨i, -, rfl⟩
      · exact Or.inl rfl
      · exact Or.inr ⟨i, rfl⟩) ((n + 1) * B) (by
      have : ∀ b, (isingFindConn1 (.float h) j pbc sample b).countP (fun r => r.use) = n + 1 := fun b => by
        rw [List.countP_eq_length.mpr (huse b), (C09_ising_chain (.float h) j pbc sample b (hs b)).count]
      simp only [this, Finset.sum_const, Finset.card_univ, Fintype.card_fin, smul_eq_mul]
      exact Nat.mul_comm _ _) net
  exact ⟨h1, calls_full _ _ huse size hsize net, h2⟩

/-- **C161, Ising grids**: exactly `(n * m + 1) * B` configurations. -/
theorem C161_ising_grid {n m B : Nat} (h j : ℝ) (pbc : Bool) (sample : Fin B → Config (Fin n × Fin m)) (hs : ∀ b, IsSpin (sample b))
    (size : Nat) (hsize : 0 < size) (net : Config (Fin n × Fin m) → ℂ) :
    let a := Answer.ofRows (n * m + 1) (isingFindConn2 (.float h) j pbc sample)
      fun b => (C09_ising_grid (.float h) j pbc sample b (hs b)).count
    (localValuesCalls (predict size net) a).2 =
        some (specLocal (tfim (gridBonds n m pbc) h j) (fun s => Complex.exp (net s)) sample) ∧
      (localValuesCalls (predict size net) a).1.map List.length = [(n * m + 1) * B] ∧
      Economical ((n * m + 1) * B) size sample (fun t b => OneFlip (sample b) t) (localValuesCalls (predict size net) a).1
        (fun net => (localValuesCalls (predict size net) a).2) := by
  intro a
  have huse : ∀ b, ∀ r ∈ isingFindConn2 (.float h) j pbc sample b, r.use = true := by
    intro b r hr
    rw [isingFindConn2_eq, List.mem_cons, List.mem_map] at hr
    rcases hr with rfl | ⟨i, -, rfl⟩ <;> rfl
  obtain ⟨h1, h2⟩ := economical_ofRows (isingFindConn2 (.float h) j pbc sample) sample
    (fun b => C09_ising_grid (.float h) j pbc sample b (hs b)) (by omega) size hsize (tfim (gridBonds n m pbc) h j)
    (fun b ψ => C06_ising_grid h j pbc sample b ψ) (fun t b => OneFlip (sample b) t) (by
      intro b r hr
      rw [isingFindConn2_eq, List.mem_cons, List.mem_map] at hr
      rcases hr with rfl | ⟨i, -, rfl⟩
      · exact Or.inl rfl
      · exact Or.inr ⟨i, rfl⟩) ((n * m + 1) * B) (by
      have : ∀ b, (isingFindConn2 (.float h) j pbc sample b).countP (fun r => r.use) = n * m + 1 := fun b => by
        rw [List.countP_eq_length.mpr (huse b), (C09_ising_grid (.float h) j pbc sample b (hs b)).count]
      simp only [this, Finset.sum_const, Finset.card_univ, Fintype.card_fin, smul_eq_mul]
      exact Nat.mul_comm _ _) net
  exact ⟨h1, calls_full _ _ huse size hsize net, h2⟩

theorem oneExchange_heisRows {n m : Nat} (off : ℝ) (pbc : Bool) (dim : Nat) (s : Config (Fin n × Fin m))
    (r : Row (Fin n × Fin m) ℝ) (hr : r ∈ heisRows off pbc dim s) : OneExchange (gridBonds n m pbc) s r.conn := by
  have hcases : r = ⟨s, ∑ p, siteDiag pbc s p, true⟩ ∨ r ∈ (heisRows off pbc dim s).tail := by
    unfold heisRows at hr ⊢
    simpa using hr
  rcases hcases with rfl | ht
  · exact Or.inl rfl
  · rcases mem_heisRows_tail off pbc dim s r ht with rfl | ⟨b, hb, rfl⟩
    · exact Or.inl rfl
    · by_cases h : s b.1 = s b.2
      · left
        funext i
        simp only [bondRow, exchange_apply]
        by_cases h1 : i = b.1
        · rw [h1, Equiv.swap_apply_left, h]
        · by_cases h2 : i = b.2
          · rw [h2, Equiv.swap_apply_right, h]
          · rw [Equiv.swap_apply_of_ne_of_ne h1 h2]
      · exact Or.inr ⟨b, hb, h, rfl⟩

theorem countP_grid {n m : Nat} (off : ℝ) (pbc : Bool) (s : Config (Fin n × Fin m)) :
    (heisRows off pbc 2 s).countP (fun r => r.use) = exchanges (gridBonds n m pbc) s := by
  unfold heisRows exchanges gridBonds gridSites
  rw [List.countP_cons_of_pos rfl, List.flatMap_assoc, List.countP_flatMap, List.countP_flatMap]
  congr 2
  refine List.map_congr_left fun i _ => ?_
  rw [Function.comp_apply, Function.comp_apply, List.flatMap_map, List.countP_flatMap, List.countP_flatMap]
  congr 1
  refine List.map_congr_left fun j _ => ?_
  simp only [Function.comp_apply]
  unfold siteRows
  rw [List.countP_append, List.countP_append, List.countP_append]
  have h0 : ∀ k, (List.replicate k (emptyRow s)).countP (fun r => r.use) = 0 := fun k => by
    rw [List.countP_replicate]; simp [emptyRow]
  rw [h0, Nat.add_zero]
  congr 1
  · split
    · cases chainNext n pbc i with
      | none => simp [axisRow, emptyRow]
      | some k => by_cases h : s (i, j) = s (k, j) <;> simp [axisRow, bondRow, h]
    · rfl
  · split
    · cases chainNext m pbc j with
      | none => simp [axisRow, emptyRow]
      | some k => by_cases h : s (i, j) = s (i, k) <;> simp [axisRow, bondRow, h]
    · rfl

/-- **C161, Heisenberg grids**, after any earlier use of the operator: the network is evaluated on the samples and the samples with
the unequal spins of one bond exchanged, of which each sample has one and one per bond of unequal spins. -/
theorem C161_heisenberg_grid {n m : Nat} (rot pbc : Bool) (history : List (Call n m)) (B : Nat)
    (sample : Fin B → Config (Fin n × Fin m)) (hs : ∀ b, IsSpin (sample b)) (size : Nat) (hsize : 0 < size)
    (net : Config (Fin n × Fin m) → ℂ) :
    let a := Answer.ofRows (n * m * 2 + 1) (((HeisOp.new2 n m rot pbc).run history).findConn B sample).2
      fun b => (C09_heisenberg_grid rot pbc history B sample b (hs b)).count
    (localValuesCalls (predict size net) a).2 =
        some (specLocal (heisenberg (gridBonds n m pbc) (if rot then -1 else 1)) (fun s => Complex.exp (net s)) sample) ∧
      Economical (∑ b, exchanges (gridBonds n m pbc) (sample b)) size sample
        (fun t b => OneExchange (gridBonds n m pbc) (sample b) t) (localValuesCalls (predict size net) a).1
        (fun net => (localValuesCalls (predict size net) a).2) := by
  intro a
  refine economical_ofRows _ sample (fun b => C09_heisenberg_grid rot pbc history B sample b (hs b)) (by omega) size hsize _
    (fun b ψ => C07_heisenberg_grid rot pbc history B sample b (hs b) ψ) _ ?_ _ ?_ net
  · intro b r hr
    rw [answer2] at hr
    exact oneExchange_heisRows _ pbc 2 _ r hr
  · refine Finset.sum_congr rfl fun b _ => ?_
    rw [answer2, countP_grid]

/-- **C161, Heisenberg chains.** -/
theorem C161_heisenberg_chain {n : Nat} (rot pbc : Bool) (history : List (Call n 1)) (B : Nat)
    (sample : Fin B → Config (Fin n)) (hs : ∀ b, IsSpin (sample b)) (size : Nat) (hsize : 0 < size) (net : Config (Fin n) → ℂ) :
    let a := Answer.ofRows (n + 1) (((HeisOp.new1 n rot pbc).run history).findConn1 B sample).2
      fun b => (C09_heisenberg_chain rot pbc history B sample b (hs b)).count
    (localValuesCalls (predict size net) a).2 =
        some (specLocal (heisenberg (chainBonds' n pbc) (if rot then -1 else 1)) (fun s => Complex.exp (net s)) sample) ∧
      Economical (∑ b, exchanges (chainBonds' n pbc) (sample b)) size sample
        (fun t b => OneExchange (chainBonds' n pbc) (sample b) t) (localValuesCalls (predict size net) a).1
        (fun net => (localValuesCalls (predict size net) a).2) := by
  intro a
  refine economical_ofRows _ sample (fun b => C09_heisenberg_chain rot pbc history B sample b (hs b)) (by omega) size hsize _
    (fun b ψ => C07_heisenberg_chain rot pbc history B sample b (hs b) ψ) _ ?_ _ ?_ net
  · intro b r hr
    rw [answer1, List.mem_map] at hr
    obtain ⟨r', hr', rfl⟩ := hr
    rcases oneExchange_heisRows _ pbc 1 _ r' hr' with e | ⟨⟨⟨i, u⟩, ⟨k, v⟩⟩, hb, hne, e⟩
    · left
      simp only [squeezeRow, e]
      rfl
    · refine Or.inr ⟨(i, k), ?_, hne, ?_⟩
      · rw [chainBonds'_eq, List.mem_map]
        exact ⟨_, hb, rfl⟩
      · have := squeeze_exchange (sample b) i k u v
        rw [← this]
        simp only [squeezeRow, e]
        rfl
  · refine Finset.sum_congr rfl fun b _ => ?_
    rw [answer1, countP_chain]
    rfl

/-- Two configurations of a ring of four spins, one staggered and one uniform, cost six evaluations instead of ten. -/
example (net : Config (Fin 4) → ℂ) :
    let sample : Fin 2 → Config (Fin 4) := fun b => if b = 0 then neel 4 else fun _ => 1
    ∃ h : ∀ b, IsSpin (sample b),
      (localValuesCalls (predict 4 net) (Answer.ofRows 5 (((HeisOp.new1 4 false true).run []).findConn1 2 sample).2
        fun b => (C09_heisenberg_chain false true [] 2 sample b (h b)).count)).1.map List.length = [6] := by
  intro sample
  have h : ∀ b, IsSpin (sample b) := by
    intro b i
    fin_cases b <;> fin_cases i <;> decide
  refine ⟨h, ?_⟩
  rw [show predict 4 net = fun x => x.map net from funext (predict_eq 4 (by omega) net), localValuesCalls_map]
  simp only [List.map_cons, List.map_nil, asked_length, usedCount_ofRows, answer1, countP_chain]
  rw [Fin.sum_univ_two]
  have h0 : unequalBonds 4 true (sample 0) = 4 := by decide
  have h1 : unequalBonds 4 true (sample 1) = 0 := by decide
  rw [h0, h1]
  rfl

end Verif.Energy
