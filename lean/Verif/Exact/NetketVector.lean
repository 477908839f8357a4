import Verif.Energy.Spins

/-!
# C122: state vectors of NetKet in this library's numbering of states

`netket_vector_to_exact_variational_vector` (exact/utils.py 86-92) reorders a vector over NetKet's basis to the order of
`ExactVariational.states`; `vector_to_machine` (95-99) makes a machine of the result.
-/
namespace Verif.Exact

open Verif.Operators Verif.Energy Verif.Energy.Exact

variable {ι : Type} {N : Nat}

/-- `state_to_number` of `netket.hilbert.HilbertIndex` (utils.py 88, 91): the number of a flat configuration, `none` if NetKet
raises. What NetKet's numbering is does not matter. -/
abbrev Numbering (ι : Type) := Config ι → Option ℕ

/-- `netket_vector_to_exact_variational_vector` (utils.py 86-92): entry `x` of the result is the entry of `v` numbered like state
`x` of `exact_variational.states`; `none` if NetKet raises for one of the states or a number is beyond the end of `v`. The cast of
the numbers to int32 is left out, it changes nothing for up to 31 spins. -/
def netketVectorToExact {α : Type} (e : ι ≃ Fin N) (number : Numbering ι) (v : List α) : Option (List α) :=
  (List.range (2 ^ N)).mapM fun x => (number (spinState e x)).bind fun k => v[k]?

/-! ### Specification -/

/-- The numbering of an unrestricted spin space: all `2^N` configurations have different numbers below `2^N`. -/
structure Full (N : ℕ) (number : Numbering ι) : Prop where
  some : ∀ s, IsSpin s → ∃ k < 2 ^ N, number s = some k
  inj : ∀ s t, IsSpin s → IsSpin t → number s = number t → s = t

/-- The configuration as a flat list in row-major order. -/
def flat (e : ι ≃ Fin N) (s : Config ι) : List ℤ := List.ofFn fun k => s (e.symm k)

/-- The amplitude that a vector in NetKet's order gives to a configuration. -/
def netketAmplitude (number : Numbering ι) (v : List ℂ) (s : Config ι) : ℂ := ((number s).bind fun k => v[k]?).getD 0

/-- `H` applied to a wave function, where `rows s` are the configurations connected with `s` and the matrix elements. -/
noncomputable def apply (rows : Config ι → List (Config ι × ℂ)) (ψ : Config ι → ℂ) (s : Config ι) : ℂ :=
  ((rows s).map fun r => r.2 * ψ r.1).sum

/-- Matrix of an operator in NetKet's basis: row `number s` has the element of `r` in column `number r`. -/
def IsNetketMatrix (number : Numbering ι) (rows : Config ι → List (Config ι × ℂ)) (M : ℕ → ℕ → ℂ) : Prop :=
  ∀ s i, IsSpin s → number s = some i → ∀ j, M i j = ((rows s).map fun r => if number r.1 = some j then r.2 else 0).sum

/-! ### Proofs -/

theorem mapM_option {α β : Type} (f : α → Option β) (l : List α) (g : α → β) (h : ∀ a ∈ l, f a = some (g a)) :
    l.mapM f = some (l.map g) := by
  induction l with
  | nil => rfl
  | cons a l ih =>
    rw [List.mapM_cons, h a List.mem_cons_self, ih fun b hb => h b (List.mem_cons_of_mem _ hb)]
    rfl

theorem amplitude_some (number : Numbering ι) (hfull : Full N number) (v : List ℂ) (hv : v.length = 2 ^ N)
    (s : Config ι) (hs : IsSpin s) :
    ((number s).bind fun k => v[k]?) = some (netketAmplitude number v s) := by
  obtain ⟨k, hk, hn⟩ := hfull.some s hs
  unfold netketAmplitude
  rw [hn, Option.bind_some, List.getElem?_eq_getElem (by omega)]
  rfl

theorem convert_eq (e : ι ≃ Fin N) (number : Numbering ι) (hfull : Full N number) (v : List ℂ) (hv : v.length = 2 ^ N) :
    netketVectorToExact e number v
      = some ((List.range (2 ^ N)).map fun x => netketAmplitude number v (spinState e x)) :=
  mapM_option _ _ _ fun x _ => amplitude_some number hfull v hv _ (spinState_spin e x)

theorem flat_half (e : ι ≃ Fin N) (s : Config ι) :
    (flat e s).map (fun d => (d + 1) / 2) = List.ofFn fun k => (s (e.symm k) + 1) / 2 := by
  unfold flat
  rw [List.map_ofFn]
  rfl

theorem entry_flat (e : ι ≃ Fin N) (hN : N ≤ 31) (s : Config ι) (hs : IsSpin s) :
    binaryArrayToDecimalEntry (flat e s) = some (spinCode e s : ℤ) := by
  have hspin : ∀ d ∈ flat e s, d = 1 ∨ d = -1 := by
    intro d hd
    obtain ⟨k, rfl⟩ := (List.mem_ofFn' _ _).mp hd
    exact hs _
  have hlen : (flat e s).length = N := by simp [flat]
  rw [binaryArrayToDecimalEntry_eq _ (by omega), wrap32_of_lt (val_nonneg _), spinCode_eq e hN, ← flat_half,
    val_half _ hspin, Int.toNat_of_nonneg (val_nonneg _)]
  refine lt_of_lt_of_le (val_lt _) ?_
  rw [hlen]
  exact pow_le_pow_right₀ (by norm_num) hN

/-- **C122.** For the unrestricted space of up to 31 spins and any numbering NetKet may use: the conversion succeeds, and the machine
made of the converted vector gives every configuration the amplitude that NetKet's vector gives it. -/
theorem C122_amplitudes (e : ι ≃ Fin N) (hN : N ≤ 31) (number : Numbering ι) (hfull : Full N number) (v : List ℂ)
    (hv : v.length = 2 ^ N) :
    ∃ u, netketVectorToExact e number v = some u ∧ u.length = 2 ^ N ∧
      ∀ s, IsSpin s → ∀ k, number s = some k → vectorToMachine u (flat e s) = v[k]? := by
  refine ⟨_, convert_eq e number hfull v hv, by simp, ?_⟩
  intro s hs k hk
  unfold vectorToMachine
  rw [entry_flat e hN s hs, Option.bind_some]
  unfold numpyIndex
  rw [if_pos (Int.natCast_nonneg _), Int.toNat_natCast, List.getElem?_map,
    List.getElem?_range (spinCode_lt e hN s), Option.map_some, spinState_code e hN s hs,
    ← amplitude_some number hfull v hv s hs, hk, Option.bind_some]

theorem full_surj [DecidableEq ι] [Fintype ι] (e : ι ≃ Fin N) (hN : N ≤ 31) (number : Numbering ι) (hfull : Full N number)
    (k : ℕ) (hk : k < 2 ^ N) : ∃ s, IsSpin s ∧ number s = some k := by
  have hex : ∀ x : Fin (2 ^ N), ∃ k : Fin (2 ^ N), number (spinState e x) = some k.val := by
    intro x
    obtain ⟨k, hk, h⟩ := hfull.some _ (spinState_spin e x)
    exact ⟨⟨k, hk⟩, h⟩
  choose f hf using hex
  have hinj : Function.Injective f := by
    intro x y hxy
    have := hfull.inj _ _ (spinState_spin e x) (spinState_spin e y) (by rw [hf x, hf y, hxy])
    apply Fin.ext
    rw [← spinCode_state e hN x x.isLt, ← spinCode_state e hN y y.isLt, this]
  obtain ⟨x, hx⟩ := (Finite.injective_iff_surjective.mp hinj) ⟨k, hk⟩
  exact ⟨_, spinState_spin e x, by rw [hf x, hx]⟩

/-- Sums over NetKet's basis are sums over the configurations. -/
theorem sum_netket [DecidableEq ι] [Fintype ι] (e : ι ≃ Fin N) (hN : N ≤ 31) (number : Numbering ι) (hfull : Full N number)
    {M : Type*} [AddCommMonoid M] (g : ℕ → M) (f : Config ι → M) (h : ∀ s k, IsSpin s → number s = some k → g k = f s) :
    ∑ k ∈ Finset.range (2 ^ N), g k = ∑ s ∈ allSpins ι, f s := by
  symm
  refine Finset.sum_bij (fun s hs => ((hfull.some s ((mem_allSpins s).1 hs)).choose)) ?_ ?_ ?_ ?_
  · intro s hs
    exact Finset.mem_range.mpr (hfull.some s ((mem_allSpins s).1 hs)).choose_spec.1
  · intro s hs t ht hst
    apply hfull.inj s t ((mem_allSpins s).1 hs) ((mem_allSpins t).1 ht)
    rw [(hfull.some s ((mem_allSpins s).1 hs)).choose_spec.2, (hfull.some t ((mem_allSpins t).1 ht)).choose_spec.2]
    exact congrArg some hst
  · intro k hk
    obtain ⟨s, hs, hn⟩ := full_surj e hN number hfull k (Finset.mem_range.mp hk)
    refine ⟨s, (mem_allSpins s).2 hs, ?_⟩
    exact (Option.some.inj (hn.symm.trans (hfull.some s hs).choose_spec.2)).symm
  · intro s hs
    exact (h s _ ((mem_allSpins s).1 hs) (hfull.some s ((mem_allSpins s).1 hs)).choose_spec.2).symm

/-- **C122, eigenvectors.** If `v` is an eigenvector of NetKet's matrix of an operator (say the ground state from NetKet's exact
diagonalisation), then the wave function of the converted vector is an eigenvector of the operator for the same eigenvalue, with
the same norm. -/
theorem C122_eigenvector [DecidableEq ι] [Fintype ι] (e : ι ≃ Fin N) (hN : N ≤ 31) (number : Numbering ι)
    (hfull : Full N number) (v : List ℂ) (hv : v.length = 2 ^ N) (rows : Config ι → List (Config ι × ℂ))
    (hrows : ∀ s, IsSpin s → ∀ r ∈ rows s, IsSpin r.1) (M : ℕ → ℕ → ℂ) (hM : IsNetketMatrix number rows M) (E : ℂ)
    (heig : ∀ i < 2 ^ N, ∑ j ∈ Finset.range (2 ^ N), M i j * v.getD j 0 = E * v.getD i 0) :
    ∃ u, netketVectorToExact e number v = some u ∧
      (let ψ : Config ι → ℂ := fun s => (vectorToMachine u (flat e s)).getD 0
       (∀ s, IsSpin s → apply rows ψ s = E * ψ s) ∧
       ∑ s ∈ allSpins ι, ‖ψ s‖ ^ 2 = (v.map fun a => ‖a‖ ^ 2).sum) := by
  obtain ⟨u, hu, -, hmach⟩ := C122_amplitudes e hN number hfull v hv
  refine ⟨u, hu, ?_⟩
  intro ψ
  have hψ : ∀ s k, IsSpin s → number s = some k → ψ s = v.getD k 0 := by
    intro s k hs hk
    show (vectorToMachine u (flat e s)).getD 0 = _
    rw [hmach s hs k hk, List.getD_eq_getElem?_getD]
  constructor
  · intro s hs
    obtain ⟨i, hi, hn⟩ := hfull.some s hs
    rw [hψ s i hs hn, ← heig i hi]
    have hMi := hM s i hs hn
    simp only [hMi]
    unfold apply
    have hsp := hrows s hs
    generalize rows s = l at hsp
    induction l with
    | nil => simp
    | cons r l ih =>
      simp only [List.map_cons, List.sum_cons, add_mul, Finset.sum_add_distrib]
      rw [ih fun r hr => hsp r (List.mem_cons_of_mem _ hr)]
      congr 1
      obtain ⟨k, hk, hnk⟩ := hfull.some r.1 (hsp r List.mem_cons_self)
      rw [Finset.sum_eq_single k]
      · rw [if_pos hnk, hψ r.1 k (hsp r List.mem_cons_self) hnk]
      · intro j _ hj
        rw [if_neg (by rw [hnk]; exact fun h => hj (Option.some.inj h).symm), zero_mul]
      · intro h; exact absurd (Finset.mem_range.mpr hk) h
  · rw [← sum_netket e hN number hfull (fun k => ‖v.getD k 0‖ ^ 2) (fun s => ‖ψ s‖ ^ 2)
      (fun s k hs hk => by rw [hψ s k hs hk]), ← hv]
    clear hmach hψ hu heig hv
    induction v with
    | nil => simp
    | cons a v ih =>
      rw [List.length_cons, Finset.sum_range_succ', List.map_cons, List.sum_cons, ← ih, add_comm]
      simp

/-- The hypotheses of C122 are met: two spins, with the first spin as the most significant digit (not this library's order). -/
example : ∃ number : Numbering (Fin 2), Full 2 number ∧
    netketVectorToExact (Equiv.refl (Fin 2)) number [(1 : ℤ), 2, 3, 4] = some [1, 3, 2, 4] := by
  refine ⟨fun s => some ((if s 0 = 1 then 2 else 0) + (if s 1 = 1 then 1 else 0)), ⟨?_, ?_⟩, by decide⟩
  · intro s _
    refine ⟨_, ?_, rfl⟩
    split <;> split <;> decide
  · intro s t hs ht h
    have h := Option.some.inj h
    funext i
    fin_cases i
    · show s 0 = t 0
      rcases hs 0 with h0 | h0 <;> rcases ht 0 with h0' | h0' <;> rcases hs 1 with h1 | h1 <;> rcases ht 1 with h1' | h1' <;>
        simp [h0, h0', h1, h1'] at h ⊢
    · show s 1 = t 1
      rcases hs 0 with h0 | h0 <;> rcases ht 0 with h0' | h0' <;> rcases hs 1 with h1 | h1 <;> rcases ht 1 with h1' | h1' <;>
        simp [h0, h0', h1, h1'] at h ⊢

end Verif.Exact
