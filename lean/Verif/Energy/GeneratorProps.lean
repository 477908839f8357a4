import Verif.Energy.ExactProps
import Mathlib.Data.List.Nodup

/-!
# Properties C23 (the exact generator) and C24 (Monte Carlo and exact coefficients)
-/
namespace Verif.Energy.Exact

variable {σ : Type}

/-! ### C23 -/

theorem pending_after (s : Setup σ) (o : Obj σ) (hset : o.setup = s) (q : Nat) (hbs : 0 < o.bs) (hq : s.S = q * o.bs)
    (hqpos : 0 < q) (nets : Nat → σ → ℂ) (k : Nat) : ∃ hist : List (σ → ℂ),
      (Gen.run nets (Gen.start o) (k + 1)).1 =
        ⟨after o hist (nets (k / q * q)), ((List.range q).map fun c => c * o.bs).drop (k % q + 1)⟩ ∧
      (Gen.run nets (Gen.start o) (k + 1)).2 = (Gen.run nets (Gen.start o) k).2 ++
        [⟨(after o hist (nets (k / q * q))).slice (k % q * o.bs), decide (k % q = 0)⟩] := by
  have hrange : ∀ o' : Obj σ, o'.setup = s → o'.bs = o.bs →
      pyRange o'.setup.S o'.bs = (List.range q).map fun c => c * o.bs := by
    intro o' h1 h2
    rw [h1, h2, hq, pyRange_dvd q o.bs hbs]
  have hfull : ∀ o' : Obj σ, o'.setup = s → o'.bs = o.bs → ∀ net, (Gen.mk o' []).next net =
      (⟨o'.update net, ((List.range q).map fun c => c * o.bs).drop 1⟩, ⟨(o'.update net).slice 0, true⟩) := by
    intro o' h1 h2 net
    unfold Gen.next
    simp only
    rw [hrange (o'.update net) h1 h2]
    obtain ⟨q', rfl⟩ : ∃ q', q = q' + 1 := ⟨q - 1, by omega⟩
    rw [List.range_succ_eq_map, List.map_cons]
    simp
  have hafter : ∀ hist net, (after o hist net).setup = s ∧ (after o hist net).bs = o.bs := by
    intro hist net
    obtain ⟨h1, h2, -⟩ := foldl_update o hist
    exact ⟨h1.trans hset, h2⟩
  induction k with
  | zero =>
    refine ⟨[], ?_, ?_⟩
    · change ((Gen.start o).next (nets 0)).1 = _
      unfold Gen.start
      rw [hfull o hset rfl]
      simp [after, Nat.mod_eq_of_lt hqpos]
    · change [((Gen.start o).next (nets 0)).2] = _
      unfold Gen.start
      rw [hfull o hset rfl]
      simp [after, Gen.run, Nat.mod_eq_of_lt hqpos]
  | succ k ih =>
    obtain ⟨hist, h1, -⟩ := ih
    have hmod : k % q < q := Nat.mod_lt _ hqpos
    have hrun1 : (Gen.run nets (Gen.start o) (k + 1 + 1)).1 =
        ((Gen.run nets (Gen.start o) (k + 1)).1.next (nets (k + 1))).1 := rfl
    have hrun2 : (Gen.run nets (Gen.start o) (k + 1 + 1)).2 = (Gen.run nets (Gen.start o) (k + 1)).2 ++
        [((Gen.run nets (Gen.start o) (k + 1)).1.next (nets (k + 1))).2] := rfl
    rw [hrun1, hrun2, h1]
    have hdm := Nat.div_add_mod k q
    by_cases hlast : k % q + 1 = q
    · -- the cycle is exhausted
      have hk1 : (k + 1) % q = 0 := by
        have : k + 1 = q * (k / q + 1) := by rw [Nat.mul_add, Nat.mul_one]; omega
        rw [this, Nat.mul_mod_right]
      have hk2 : (k + 1) / q * q = k + 1 := Nat.div_mul_cancel (Nat.dvd_of_mod_eq_zero hk1)
      have hdrop : ((List.range q).map fun c => c * o.bs).drop (k % q + 1) = [] := by
        rw [List.drop_eq_nil_iff]; simp; omega
      rw [hdrop, hfull _ (hafter hist _).1 (hafter hist _).2, hk1, hk2]
      refine ⟨hist ++ [nets (k / q * q)], ?_, ?_⟩
      · unfold after
        simp
      · unfold after
        simp
    · have hk1 : (k + 1) % q = k % q + 1 := by
        have : k + 1 = (k % q + 1) + q * (k / q) := by omega
        have : (k % q + 1 + q * (k / q)) % q = k % q + 1 := by
          rw [Nat.add_mul_mod_self_left, Nat.mod_eq_of_lt (by omega)]
        rw [show k % q + 1 + q * (k / q) = k + 1 by omega] at this
        omega
      have hk2 : (k + 1) / q = k / q := by
        have h2 := Nat.div_add_mod (k + 1) q
        rw [hk1] at h2
        have : q * ((k + 1) / q) = q * (k / q) := by omega
        exact Nat.eq_of_mul_eq_mul_left hqpos this
      have hdrop : ((List.range q).map fun c => c * o.bs).drop (k % q + 1) =
          ((k % q + 1) * o.bs) :: ((List.range q).map fun c => c * o.bs).drop (k % q + 1 + 1) := by
        rw [List.drop_eq_getElem_cons (by simp; omega)]
        simp
      rw [hdrop, hk1, hk2]
      refine ⟨hist, ?_, ?_⟩
      · simp [Gen.next]
      · simp [Gen.next]

theorem run_length (nets : Nat → σ → ℂ) (g : Gen σ) (K : Nat) : (Gen.run nets g K).2.length = K := by
  induction K with
  | zero => rfl
  | succ K ih => simp [Gen.run, ih]

/-- C23: let `q` be the number of slices in a cycle. However the network changes between the calls of
`next`, call `k` refreshes the object exactly if `k` is a multiple of `q`, and yields the slice number
`k % q` of the states together with the coefficients for the network at the latest refresh, i.e. at
call `k / q * q`. -/
theorem C23_generator (s : Setup σ) (rows : σ → List (σ × ℂ)) (hr : RowWise s rows) (batch : Nat) (o : Obj σ)
    (ho : Obj.new s batch = .ok o) (nets : Nat → σ → ℂ) (K : Nat) :
    (Gen.run nets (Gen.start o) K).2.length = K ∧ ∀ k < K,
      (Gen.run nets (Gen.start o) K).2[k]? = some
        ⟨(List.range o.bs).map fun j => (s.states (k % (s.S / o.bs) * o.bs + j),
            (after o [] (nets (k / (s.S / o.bs) * (s.S / o.bs)))).arrays.coeff (k % (s.S / o.bs) * o.bs + j)),
          decide (k % (s.S / o.bs) = 0)⟩ := by
  refine ⟨run_length _ _ _, ?_⟩
  obtain ⟨hset, hpos, hbs, ⟨q, hq⟩, -, -⟩ := new_ok s rows hr batch o ho
  have hqpos : 0 < q := by
    rcases Nat.eq_zero_or_pos q with h | h
    · rw [h] at hq; omega
    · exact h
  have hdiv : s.S / o.bs = q := by rw [hq, Nat.mul_div_cancel _ hbs]
  rw [hdiv]
  induction K with
  | zero => intro k hk; omega
  | succ K ih =>
    intro k hk
    obtain ⟨hist, -, h2⟩ := pending_after s o hset q hbs hq hqpos nets K
    rw [h2]
    by_cases hkK : k < K
    · rw [List.getElem?_append_left (by rw [run_length]; exact hkK)]
      exact ih k hkK
    · have : k = K := by omega
      subst this
      rw [List.getElem?_append_right (by rw [run_length]), run_length, Nat.sub_self]
      simp only [List.getElem?_cons_zero, Option.some.injEq, Yield.mk.injEq, and_true]
      unfold Obj.slice
      have hsetA : (after o hist (nets (k / q * q))).setup = s := (foldl_update o hist).1.trans hset
      have hbsA : (after o hist (nets (k / q * q))).bs = o.bs := (foldl_update o hist).2.1
      rw [hsetA, hbsA]
      apply List.map_congr_left
      intro j hj
      rw [List.mem_range] at hj
      have hlt : k % q * o.bs + j < s.S := by
        have hm : k % q < q := Nat.mod_lt _ hqpos
        have : (k % q + 1) * o.bs ≤ q * o.bs := Nat.mul_le_mul_right _ hm
        rw [Nat.succ_mul] at this
        omega
      rw [((C22_batch_independent s rows hr hpos batch).2 batch o o ho ho hist [] (nets (k / q * q)) _ hlt).2.2.2.2.1]

/-- C23, second part: the batches of every cycle together list every state exactly once, in order. -/
theorem C23_each_state_once (s : Setup σ) (rows : σ → List (σ × ℂ)) (hr : RowWise s rows) (batch : Nat) (o : Obj σ)
    (ho : Obj.new s batch = .ok o) (nets : Nat → σ → ℂ) (cycle : Nat) :
    (((Gen.run nets (Gen.start o) ((cycle + 1) * (s.S / o.bs))).2.drop (cycle * (s.S / o.bs))).flatMap
      fun y => y.batch.map Prod.fst) = (List.range s.S).map s.states ∧
    ((List.range s.S).map s.states).Nodup := by
  obtain ⟨hset, hpos, hbs, ⟨q, hq⟩, -, -⟩ := new_ok s rows hr batch o ho
  obtain ⟨hlen, hget⟩ := C23_generator s rows hr batch o ho nets ((cycle + 1) * (s.S / o.bs))
  have hdiv : s.S / o.bs = q := by rw [hq, Nat.mul_div_cancel _ hbs]
  rw [hdiv] at hlen hget ⊢
  have hqpos : 0 < q := by
    rcases Nat.eq_zero_or_pos q with h | h
    · rw [h] at hq; omega
    · exact h
  constructor
  · have hbatches : (Gen.run nets (Gen.start o) ((cycle + 1) * q)).2.drop (cycle * q) =
        (List.range q).map fun r => ⟨(List.range o.bs).map fun j => (s.states (r * o.bs + j),
            (after o [] (nets (cycle * q))).arrays.coeff (r * o.bs + j)), decide (r = 0)⟩ := by
      apply List.ext_getElem?
      intro r
      rw [List.getElem?_drop]
      by_cases hr' : r < q
      · rw [hget _ (by rw [Nat.succ_mul]; omega)]
        have h1 : (cycle * q + r) % q = r := by
          rw [Nat.mul_comm, Nat.mul_add_mod, Nat.mod_eq_of_lt hr']
        have h2 : (cycle * q + r) / q = cycle := by
          rw [Nat.mul_comm, Nat.mul_add_div hqpos, Nat.div_eq_of_lt hr', Nat.add_zero]
        rw [h1, h2]
        simp [List.getElem?_range, hr']
      · rw [List.getElem?_eq_none (by rw [hlen, Nat.succ_mul]; omega), List.getElem?_eq_none (by simp; omega)]
    rw [hbatches, List.flatMap_map, hq]
    simp only [List.map_map, Function.comp_def]
    clear hbatches hget hlen hq hqpos hdiv
    induction q with
    | zero => simp
    | succ q ih =>
      rw [List.range_succ, List.flatMap_append, ih, Nat.succ_mul, List.range_add, List.map_append]
      simp [List.map_map, Function.comp_def]
  · rw [List.nodup_map_iff_inj_on List.nodup_range]
    intro x hx y hy hxy
    rw [List.mem_range] at hx hy
    rw [← hr.encode x hx, ← hr.encode y hy, hxy]

/-! ### C24 -/

/-- `VariationalMonteCarlo.next_batch` (src/flowket/optimization/variational_monte_carlo.py:34-50) for a
batch the sampler returned, whose connections are `a`: coefficients
`conj(local energy - energy) / batch_size`, with the energy from `estimate`. -/
noncomputable def vmcCoefficients {τ : Type} {R B : Nat} (batchSize : Nat) (logψ : τ → ℂ) (a : Answer τ R B) :
    Option (List ℂ) :=
  (estimate logψ a).map fun e => e.2.2.map fun l => (starRingEnd ℂ) (l - e.1) / (batchSize : ℂ)

/-- C24: the Monte Carlo coefficients are `conj(E_loc - mean)/B` and sum to zero. -/
theorem C24_monte_carlo {τ : Type} {R B : Nat} (logψ : τ → ℂ) (a : Answer τ R B) (sample : Fin B → τ)
    (h : Contracted a sample) (hB : 0 < B) : ∃ c eloc : List ℂ,
      vmcCoefficients B logψ a = some c ∧ localValues logψ a = some eloc ∧ eloc.length = B ∧
      (∀ b : Fin B, c[b.val]? = (eloc[b.val]?).map fun e => (starRingEnd ℂ) (e - eloc.sum / B) / B) ∧ c.sum = 0 := by
  have hl : localValues logψ a = some ((List.finRange B).map (ratio logψ a sample)) := by
    unfold localValues
    split
    · exact unbalanced_eq logψ a sample h
    · exact balanced_eq logψ a sample h
  have hlen : ((List.finRange B).map (ratio logψ a sample)).length = B := by simp
  obtain ⟨eloc, he⟩ : ∃ eloc, eloc = (List.finRange B).map (ratio logψ a sample) := ⟨_, rfl⟩
  rw [← he] at hl hlen
  refine ⟨eloc.map fun l => (starRingEnd ℂ) (l - eloc.sum / B) / (B : ℂ), eloc, ?_, hl, hlen, ?_, ?_⟩
  · unfold vmcCoefficients estimate
    rw [hl]
    simp only [Option.map_some, mean, hlen]
  · intro b
    rw [List.getElem?_map]
  · have hsum : ∀ (l : List ℂ) (m d : ℂ), (l.map fun x => (starRingEnd ℂ) (x - m) / d).sum =
        (starRingEnd ℂ) (l.sum - l.length * m) / d := by
      intro l m d
      induction l with
      | nil => simp
      | cons x l ih =>
        rw [List.map_cons, List.sum_cons, ih, List.sum_cons, List.length_cons]
        push_cast
        rw [← add_div, ← map_add]
        congr 2
        ring
    rw [hsum, hlen]
    have hB' : (B : ℂ) ≠ 0 := by exact_mod_cast hB.ne'
    rw [mul_div_cancel₀ _ hB', sub_self, map_zero, zero_div]

/-- C24, exact evaluation: the coefficient of a state is its probability times the same expression
`conj(E_loc - E)`, for a Hermitian operator. -/
theorem C24_exact (s : Setup σ) (rows : σ → List (σ × ℂ)) (hr : RowWise s rows)
    (hH : (opMatrix s rows).IsHermitian) (batch : Nat)
    (o : Obj σ) (ho : Obj.new s batch = .ok o) (nets : List (σ → ℂ)) (net : σ → ℂ) (x : Fin s.S) :
    (after o nets net).arrays.coeff x = ((after o nets net).arrays.probs x : ℂ) *
      (starRingEnd ℂ) ((Matrix.mulVec (opMatrix s rows) (amplitudes s net)) x / amplitudes s net x -
        (after o nets net).arrays.energy) := by
  have hres := result_after s rows hr batch o ho nets net
  have hE : (starRingEnd ℂ) (after o nets net).arrays.energy = (after o nets net).arrays.energy := by
    rw [energy_eq s _ net _ hres, rayleigh_real _ hH, rayleigh_real _ hH]
  rw [hres.coeff, hres.energies, map_sub, hE, mul_sub, hres.probs, map_div₀]
  congr 1
  have hψ : amplitudes s net x ≠ 0 := Complex.exp_ne_zero _
  have hψ' : (starRingEnd ℂ) (amplitudes s net x) ≠ 0 := (map_ne_zero _).2 hψ
  have hnx : ((‖amplitudes s net x‖ ^ 2 : ℝ) : ℂ) = (starRingEnd ℂ) (amplitudes s net x) * amplitudes s net x := by
    rw [mul_comm, Complex.mul_conj, Complex.normSq_eq_norm_sq]
  rw [Complex.ofReal_div, hnx]
  field_simp

end Verif.Energy.Exact
