import Verif.Exact.Lemmas
import Mathlib.Data.List.Nodup

/-!
# C01 and C02: numbering of configurations and exact enumeration

Specification used below, independent of the code: a configuration of `n` sites in the plus/minus one
(or `1/0`) encoding is a list of length `n` with only these two entries.
-/
namespace Verif.Exact

/-- `ds` is a configuration of `n` sites; `zeroOne` selects the 1/0 encoding instead of plus/minus one. -/
def IsConfig (zeroOne : Bool) (n : Nat) (ds : List Int) : Prop :=
  ds.length = n ∧ ∀ x ∈ ds, x = 1 ∨ x = (if zeroOne then 0 else -1)

/-- C01, number to spins to number: for every width and every integer the round trip is the
remainder modulo `2^n`; for state numbers it is the identity. -/
theorem C01_number_roundtrip (zeroOne : Bool) (n : Nat) (d : Int) :
    binaryToDecimal (decimalToBinary zeroOne n d) = d % 2 ^ n ∧
    (0 ≤ d → d < 2 ^ n → binaryToDecimal (decimalToBinary zeroOne n d) = d) := by
  rw [binaryToDecimal_eq_val, val_decimalToBinary]
  exact ⟨rfl, fun h0 h => Int.emod_eq_of_lt h0 h⟩

example : (0 : Int) ≤ 11 ∧ (11 : Int) < 2 ^ 4 := by decide

/-- C01, spins to number to spins, and the number is a valid state number. -/
theorem C01_spins_roundtrip (zeroOne : Bool) (n : Nat) (ds : List Int) (h : IsConfig zeroOne n ds) :
    decimalToBinary zeroOne n (binaryToDecimal ds) = ds ∧
    0 ≤ binaryToDecimal ds ∧ binaryToDecimal ds < 2 ^ n := by
  obtain ⟨hl, hd⟩ := h
  subst hl
  rw [binaryToDecimal_eq_val]
  exact ⟨decimalToBinary_val zeroOne ds hd, val_nonneg ds, val_lt ds⟩

example : IsConfig false 3 [1, -1, 1] ∧ IsConfig true 3 [1, 0, 1] := by
  simp [IsConfig]

/-- C01: the table of all states lists every configuration exactly once and nothing else. -/
theorem C01_table_complete (zeroOne : Bool) (n : Nat) :
    let table := (List.range (2 ^ n)).map fun k : Nat => decimalToBinary zeroOne n (k : Int)
    table.Nodup ∧ ∀ ds, ds ∈ table ↔ IsConfig zeroOne n ds := by
  refine ⟨?_, ?_⟩
  · apply List.Nodup.map_on _ List.nodup_range
    intro a ha b hb hab
    have h := congrArg binaryToDecimal hab
    have ha' : (a : Int) < 2 ^ n := by exact_mod_cast List.mem_range.mp ha
    have hb' : (b : Int) < 2 ^ n := by exact_mod_cast List.mem_range.mp hb
    rw [(C01_number_roundtrip zeroOne n a).2 (by omega) ha',
      (C01_number_roundtrip zeroOne n b).2 (by omega) hb'] at h
    exact_mod_cast h
  · intro ds
    constructor
    · intro h
      obtain ⟨k, _, hk⟩ := List.mem_map.mp h
      subst hk
      exact ⟨length_decimalToBinary _ _ _, fun x hx => digitOk_decimalToBinary _ _ _ _ hx⟩
    · intro h
      obtain ⟨h1, h2, h3⟩ := C01_spins_roundtrip zeroOne n ds h
      refine List.mem_map.mpr ⟨(binaryToDecimal ds).toNat, ?_, ?_⟩
      · rw [List.mem_range]
        have : ((binaryToDecimal ds).toNat : Int) < ((2 ^ n : Nat) : Int) := by
          rw [Int.toNat_of_nonneg h2]; exact_mod_cast h3
        exact_mod_cast this
      · rw [Int.toNat_of_nonneg h2]
        exact h1

/-- C01: the array version of number-to-spins agrees with the scalar version row by row. -/
theorem C01_array_decode (zeroOne : Bool) (decimal : List Int) (n : Nat) :
    decimalArrayToBinaryArray zeroOne decimal n = decimal.map (decimalToBinary zeroOne n) :=
  decimalArrayToBinaryArray_eq zeroOne decimal n

theorem mapM_some {α β : Type} (f : α → Option β) (g : α → β) (l : List α)
    (h : ∀ x ∈ l, f x = some (g x)) : l.mapM f = some (l.map g) := by
  induction l with
  | nil => rfl
  | cons a l ih =>
    rw [List.mapM_cons, h a (by simp), ih (fun x hx => h x (by simp [hx]))]
    rfl

/-- C01, partial: the array version of spins-to-number agrees with the scalar version for up to 31
digits. Missing: more digits, where it is false (`C01_array_encode_wraps`). -/
theorem C01_array_encode_partial (rows : List (List Int)) (h : ∀ r ∈ rows, r.length ≤ 31) :
    binaryArrayToDecimalArray rows = some (rows.map binaryToDecimal) := by
  apply mapM_some
  intro r hr
  have hl := h r hr
  rw [binaryArrayToDecimalEntry_eq r (by omega), binaryToDecimal_eq_val,
    wrap32_of_lt (val_nonneg r)]
  exact lt_of_lt_of_le (val_lt r) (pow_le_pow_right₀ (by norm_num) hl)

example : ∀ r ∈ [[1, -1, 1], [-1, -1, -1]], r.length ≤ 31 := by decide

theorem val_replicate_neg (m : Nat) : val (List.replicate m (-1)) = 0 := by
  induction m with
  | zero => rfl
  | succ m ih => simp [List.replicate_succ, val, ih]

theorem val_append (a b : List Int) : val (a ++ b) = val a + 2 ^ a.length * val b := by
  induction a with
  | nil => simp [val]
  | cons d a ih => simp only [List.cons_append, val, ih, List.length_cons, pow_succ]; ring

/-- The configuration with only site 31 up. -/
def bit31 (n : Nat) : List Int :=
  List.replicate 31 (-1) ++ 1 :: List.replicate (n - 32) (-1)

theorem val_bit31 (n : Nat) : val (bit31 n) = 2 ^ 31 := by
  rw [bit31, val_append, val, val_replicate_neg, val_replicate_neg]
  simp

theorem bit31_isConfig (n : Nat) (h : 32 ≤ n) : IsConfig false n (bit31 n) := by
  constructor
  · simp [bit31]; omega
  · intro x hx
    simp only [bit31, List.mem_append, List.mem_cons, List.mem_replicate] at hx
    rcases hx with hx | hx | hx
    · right; simp [hx.2]
    · left; exact hx
    · right; simp [hx.2]

/-- C01 is violated by the array version of spins-to-number from 32 digits on: some configuration
gets a negative number (32 to 63 digits), and from 64 digits on every call fails. -/
theorem C01_array_encode_wraps :
    (∀ n, 32 ≤ n → n ≤ 63 → ∃ ds, IsConfig false n ds ∧
      binaryArrayToDecimalEntry ds = some (-2 ^ 31) ∧ binaryToDecimal ds = 2 ^ 31) ∧
    (∀ ds : List Int, 64 ≤ ds.length → binaryArrayToDecimalEntry ds = none) := by
  constructor
  · intro n h1 h2
    refine ⟨bit31 n, bit31_isConfig n h1, ?_, ?_⟩
    · rw [binaryArrayToDecimalEntry_eq _ (by rw [(bit31_isConfig n h1).1]; exact h2), val_bit31]
      decide
    · rw [binaryToDecimal_eq_val, val_bit31]
  · intro ds h
    have := foldl_binaryArrayStep_error ds 0 0 (by omega) (by rintro rfl; simp at h)
    simp only [pow_zero] at this
    simp [binaryArrayToDecimalEntry, this]

/-! ## C02 -/

theorem partialOut_zero {α : Type} (predict : List Int → α) (n : Nat) (out : List α) :
    partialOut predict n 0 out = out := by simp [partialOut]

/-- C02: for every accepted batch size the exact vector holds, at position `k`, the model value of
the `k`-th configuration, whatever the output array held before. -/
theorem C02_exact_vector {α : Type} (predict : List Int → α) (n b : Nat) (out : List α)
    (hout : out.length = 2 ^ n) (hb : 0 < b) (hacc : 2 ^ n ≤ b ∨ b ∣ 2 ^ n) :
    ∃ v, toLogWaveFunctionVector predict n b out = .ok v ∧ v.length = 2 ^ n ∧
      ∀ k : Nat, k < 2 ^ n → v[k]? = some (predict (decimalToBinary false n (k : Int))) := by
  refine ⟨target predict n, ?_, length_target _ _, ?_⟩
  · unfold toLogWaveFunctionVector
    have h2 : 0 < 2 ^ n := by positivity
    have key : ∀ b', 0 < b' → b' ∣ 2 ^ n →
        enumLoop predict n b' (2 ^ n) 0 out = .ok (target predict n) := by
      intro b' h0 hd
      have := enumLoop_dvd predict n b' out h0 hd hout (2 ^ n) 0 (Nat.dvd_zero b') (by omega) (by omega)
      rwa [partialOut_zero] at this
    by_cases hgt : b > 2 ^ n
    · simp only [if_pos hgt]
      rw [if_neg (by omega)]
      exact key _ h2 (Nat.dvd_refl _)
    · simp only [if_neg hgt]
      rw [if_neg (by omega)]
      apply key _ hb
      rcases hacc with h | h
      · rw [show b = 2 ^ n by omega]
      · exact h
  · intro k hk
    simp [target, hk]

/-- C02: every other batch size is reported as an error. -/
theorem C02_rejected {α : Type} (predict : List Int → α) (n b : Nat) (out : List α)
    (hout : out.length = 2 ^ n) (hlt : b < 2 ^ n) (hnd : ¬ b ∣ 2 ^ n) :
    ∃ e, toLogWaveFunctionVector predict n b out = .error e := by
  unfold toLogWaveFunctionVector
  simp only [if_neg (show ¬ b > 2 ^ n by omega)]
  by_cases hb : b = 0
  · rw [if_pos hb]; exact ⟨_, rfl⟩
  · rw [if_neg hb]
    have := enumLoop_not_dvd predict n b out (by omega) hnd hout (2 ^ n) 0 (Nat.dvd_zero b)
      (by omega) (by omega)
    rw [partialOut_zero] at this
    exact ⟨_, this⟩

example : (0 : Nat) < 4 ∧ 4 ∣ 2 ^ 5 ∧ 3 < 2 ^ 5 ∧ ¬ 3 ∣ 2 ^ 5 := by decide

/-- C02, partial: a vector turned into a machine answers, for the `k`-th configuration, with entry
`k` of the vector, for up to 32 sites (at 32 sites the wrapped index is negative and numpy counts it
from the end, which gives the right entry again). Missing: 33 sites and more, where it is false
(`C02_vector_machine_wraps`). -/
theorem C02_vector_machine_partial {α : Type} (n : Nat) (hn : n ≤ 32) (v : List α)
    (hv : v.length = 2 ^ n) (k : Nat) (hk : k < 2 ^ n) :
    vectorToMachine v (decimalToBinary false n (k : Int)) = v[k]? ∧ (v[k]?).isSome := by
  constructor
  · have hk' : (k : Int) < 2 ^ n := by exact_mod_cast hk
    unfold vectorToMachine
    rw [binaryArrayToDecimalEntry_eq _ (by rw [length_decimalToBinary]; omega), val_decimalToBinary,
      Int.emod_eq_of_lt (by omega) hk', Option.bind_some]
    by_cases h31 : k < 2 ^ 31
    · rw [wrap32_of_lt (by omega) (by exact_mod_cast h31)]
      simp [numpyIndex]
    · have h32 : n = 32 := by
        by_contra hne
        have : 2 ^ n ≤ 2 ^ 31 := Nat.pow_le_pow_right (by norm_num) (by omega)
        omega
      subst h32
      have hw : wrap32 (k : Int) = (k : Int) - 2 ^ 32 := by
        unfold wrap32; rw [Int.bmod_def]; omega
      rw [hw]
      unfold numpyIndex
      rw [if_neg (by omega), if_pos (by rw [hv]; omega)]
      have hi : ((v.length : Int) + ((k : Int) - 2 ^ 32)).toNat = k := by rw [hv]; omega
      rw [hi]
  · simp [hv, hk]

example : (5 : Nat) ≤ 32 ∧ (List.range 32).length = 2 ^ 5 ∧ 17 < 2 ^ 5 := by decide

/-- C02 is violated by `vector_to_machine` for 33 to 63 sites: the configuration numbered `2^31`
reads a different entry of the vector. -/
theorem C02_vector_machine_wraps (n : Nat) (h1 : 33 ≤ n) (h2 : n ≤ 63) :
    ∃ (v : List Nat) (ds : List Int), v.length = 2 ^ n ∧ IsConfig false n ds ∧
      vectorToMachine v ds ≠ v[(binaryToDecimal ds).toNat]? := by
  have hpow : 2 ^ 33 ≤ 2 ^ n := Nat.pow_le_pow_right (by norm_num) h1
  refine ⟨List.range (2 ^ n), bit31 n, by simp, bit31_isConfig n (by omega), ?_⟩
  unfold vectorToMachine
  rw [binaryArrayToDecimalEntry_eq _ (by rw [(bit31_isConfig n (by omega)).1]; exact h2), val_bit31,
    binaryToDecimal_eq_val, val_bit31, Option.bind_some]
  rw [show wrap32 (2 ^ 31) = -2 ^ 31 by decide]
  unfold numpyIndex
  rw [if_neg (by norm_num), List.length_range, if_pos (by omega)]
  have e1 : (((2 ^ n : Nat) : Int) + -2 ^ 31).toNat = 2 ^ n - 2 ^ 31 := by omega
  have e2 : ((2 : Int) ^ 31).toNat = 2 ^ 31 := by rfl
  rw [e1, e2, List.getElem?_range (by omega), List.getElem?_range (by omega)]
  intro h
  have := Option.some.inj h
  omega

/-- C02: reading back the machine built from a vector returns the vector (up to 32 sites). -/
theorem C02_vector_roundtrip_partial {α : Type} (n b : Nat) (hn : n ≤ 32) (v : List α)
    (hv : v.length = 2 ^ n) (out : List (Option α)) (hout : out.length = 2 ^ n) (hb : 0 < b)
    (hacc : 2 ^ n ≤ b ∨ b ∣ 2 ^ n) :
    toLogWaveFunctionVector (vectorToMachine v) n b out = .ok (v.map some) := by
  obtain ⟨w, hw, hl, hk⟩ := C02_exact_vector (vectorToMachine v) n b out hout hb hacc
  rw [hw]
  congr 1
  apply List.ext_getElem?
  intro k
  by_cases h : k < 2 ^ n
  · rw [hk k h, (C02_vector_machine_partial n hn v hv k h).1]
    simp [hv, h]
  · rw [List.getElem?_eq_none (by omega), List.getElem?_eq_none (by simp [hv]; omega)]

end Verif.Exact
