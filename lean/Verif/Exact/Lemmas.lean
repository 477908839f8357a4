import Verif.Exact.Model
import Mathlib.Tactic.Ring
import Mathlib.Tactic.Linarith
import Mathlib.Data.List.Basic

namespace Verif.Exact

/-- Value of a digit list, least significant first. -/
def val : List Int → Int
  | [] => 0
  | d :: ds => (if d = 1 then 1 else 0) + 2 * val ds

theorem foldl_binaryToDecimalStep (ds : List Int) : ∀ r p : Int,
    ds.foldl binaryToDecimalStep (r, p) = (r + p * val ds, p * 2 ^ ds.length) := by
  induction ds with
  | nil => intro r p; simp [val]
  | cons d ds ih =>
    intro r p
    simp only [List.foldl_cons, binaryToDecimalStep, ih, val, List.length_cons, pow_succ]
    ext
    · simp only; split <;> ring
    · simp only; ring

theorem binaryToDecimal_eq_val (ds : List Int) : binaryToDecimal ds = val ds := by
  simp [binaryToDecimal, foldl_binaryToDecimalStep]

theorem val_nonneg (ds : List Int) : 0 ≤ val ds := by
  induction ds with
  | nil => simp [val]
  | cons d ds ih => simp only [val]; split <;> omega

theorem val_lt (ds : List Int) : val ds < 2 ^ ds.length := by
  induction ds with
  | nil => simp [val]
  | cons d ds ih => simp only [val, List.length_cons, pow_succ]; split <;> omega

theorem length_decimalToBinary (z : Bool) (n : Nat) : ∀ d, (decimalToBinary z n d).length = n := by
  induction n with
  | zero => intro d; rfl
  | succ n ih => intro d; simp [decimalToBinary, ih]

theorem emod_two_mul (d q : Int) (hq : 0 < q) : d % (2 * q) = d % 2 + 2 * (d / 2 % q) := by
  have h1 := Int.mul_ediv_add_emod d 2
  have h2 := Int.mul_ediv_add_emod (d / 2) q
  have h3 : d = (d % 2 + 2 * (d / 2 % q)) + (2 * q) * (d / 2 / q) := by
    have : 2 * q * (d / 2 / q) = 2 * (q * (d / 2 / q)) := by ring
    omega
  have h4 := Int.emod_nonneg (d / 2) hq.ne'
  have h5 := Int.emod_lt_of_pos (d / 2) hq
  have h6 : 0 ≤ d % 2 := by omega
  have h7 : d % 2 < 2 := by omega
  conv_lhs => rw [h3]
  rw [Int.add_mul_emod_self_left, Int.emod_eq_of_lt] <;> omega

theorem digit_eq_one (z : Bool) (d : Int) :
    ((if z then d % 2 else 2 * (d % 2) - 1) = 1) ↔ d % 2 = 1 := by
  cases z <;> simp <;> omega

theorem val_decimalToBinary (z : Bool) (n : Nat) :
    ∀ d, val (decimalToBinary z n d) = d % 2 ^ n := by
  induction n with
  | zero => intro d; simp [decimalToBinary, val]
  | succ n ih =>
    intro d
    rw [decimalToBinary, val, ih, pow_succ, mul_comm _ (2 : Int), emod_two_mul d _ (by positivity)]
    congr 1
    simp only [digit_eq_one]
    split <;> omega

/-- The two allowed digits of an encoding. -/
def digitOk (z : Bool) (d : Int) : Prop := d = 1 ∨ d = (if z then 0 else -1)

theorem digitOk_decimalToBinary (z : Bool) (n : Nat) :
    ∀ d x, x ∈ decimalToBinary z n d → digitOk z x := by
  induction n with
  | zero => intro d x h; simp [decimalToBinary] at h
  | succ n ih =>
    intro d x h
    rw [decimalToBinary, List.mem_cons] at h
    rcases h with h | h
    · subst h; unfold digitOk; cases z <;> simp <;> omega
    · exact ih _ _ h

theorem decimalToBinary_val (z : Bool) (ds : List Int) (h : ∀ x ∈ ds, digitOk z x) :
    decimalToBinary z ds.length (val ds) = ds := by
  induction ds with
  | nil => rfl
  | cons d ds ih =>
    have hd := h d (by simp)
    have hi := ih (fun x hx => h x (by simp [hx]))
    rw [List.length_cons, decimalToBinary]
    have hdiv : val (d :: ds) / 2 = val ds := by simp only [val]; split <;> omega
    rw [hdiv, hi]
    congr 1
    simp only [val]
    unfold digitOk at hd
    cases z <;> simp at hd ⊢ <;> rcases hd with hd | hd <;> subst hd <;> simp <;> omega

/-! ### Array version, decimal to binary -/

theorem zipWith_set_length {out : List (List Int)} {i : Nat} {col : List Int}
    (h : out.length = col.length) : (setColumn out i col).length = col.length := by
  simp [setColumn, h]

/-- State of one row of the array loop after `k` iterations. -/
def rowAfter (z : Bool) (n k : Nat) (d : Int) : List Int :=
  (decimalToBinary z k d) ++ List.replicate (n - k) 0

theorem decimalToBinary_succ' (z : Bool) (k : Nat) : ∀ d : Int,
    decimalToBinary z (k + 1) d =
      decimalToBinary z k d ++
        [if z then (d / 2 ^ k) % 2 else 2 * ((d / 2 ^ k) % 2) - 1] := by
  induction k with
  | zero => intro d; simp [decimalToBinary]
  | succ k ih =>
    intro d
    rw [decimalToBinary, ih, decimalToBinary, List.cons_append]
    have : d / 2 / 2 ^ k = d / 2 ^ (k + 1) := by
      rw [Int.ediv_ediv_of_nonneg (by omega), pow_succ, mul_comm]
    rw [this]

theorem rowAfter_step (z : Bool) (n k : Nat) (hk : k < n) (d : Int) :
    (rowAfter z n k d).set k
      (if z then (d / 2 ^ k) % 2 else 2 * ((d / 2 ^ k) % 2) - 1) = rowAfter z n (k + 1) d := by
  unfold rowAfter
  rw [decimalToBinary_succ', List.set_append_right _ _ (by simp [length_decimalToBinary])]
  rw [length_decimalToBinary, Nat.sub_self]
  obtain ⟨m, hm⟩ : ∃ m, n - k = m + 1 := ⟨n - k - 1, by omega⟩
  have hm' : n - (k + 1) = m := by omega
  rw [hm, hm', List.replicate_succ, List.set_cons_zero]
  simp

theorem decimalArray_loop (z : Bool) (n : Nat) (decimal : List Int) :
    ∀ k, k ≤ n → (List.range k).foldl (decimalArrayStep z)
      (List.replicate decimal.length (List.replicate n 0), decimal) =
      (decimal.map (rowAfter z n k), decimal.map (· / 2 ^ k)) := by
  intro k
  induction k with
  | zero =>
    intro _
    have : rowAfter z n 0 = fun _ => List.replicate n 0 := by
      funext d; simp [rowAfter, decimalToBinary]
    simp [this]
  | succ k ih =>
    intro hk
    rw [List.range_succ, List.foldl_append, ih (by omega)]
    simp only [List.foldl_cons, List.foldl_nil, decimalArrayStep, setColumn, List.map_map]
    ext1
    · simp only
      rw [List.zipWith_map_left, List.zipWith_map_right, List.zipWith_self]
      apply List.map_congr_left
      intro d _
      exact rowAfter_step z n k (by omega) d
    · simp only
      apply List.map_congr_left
      intro d _
      simp only [Function.comp_apply]
      rw [Int.ediv_ediv_of_nonneg (by positivity), pow_succ]

theorem decimalArrayToBinaryArray_eq (z : Bool) (decimal : List Int) (n : Nat) :
    decimalArrayToBinaryArray z decimal n = decimal.map (decimalToBinary z n) := by
  unfold decimalArrayToBinaryArray
  rw [decimalArray_loop z n decimal n le_rfl]
  simp [rowAfter]

/-! ### Array version, binary to decimal -/

theorem wrap32_add_wrap32 (a b : Int) : wrap32 (wrap32 a + b) = wrap32 (a + b) := by
  simp [wrap32, Int.bmod_add_bmod]

theorem foldl_binaryArrayStep_none (ds : List Int) :
    ds.foldl binaryArrayStep none = none := by
  induction ds with
  | nil => rfl
  | cons d ds ih => simpa [binaryArrayStep] using ih

theorem foldl_binaryArrayStep (ds : List Int) : ∀ (r : Int) (k : Nat), k + ds.length ≤ 63 →
    ds.foldl binaryArrayStep (some (wrap32 r, 2 ^ k)) =
      some (wrap32 (r + 2 ^ k * val ds), 2 ^ (k + ds.length)) := by
  induction ds with
  | nil => intro r k _; simp [val]
  | cons d ds ih =>
    intro r k hk
    rw [List.length_cons] at hk
    have hlt : ¬ ((2 : Int) ^ 63 ≤ 2 ^ k) := by
      rw [not_le]; exact pow_lt_pow_right₀ (by norm_num) (by omega)
    have hp : (2 : Int) ^ k * 2 = 2 ^ (k + 1) := by rw [pow_succ]
    rw [List.foldl_cons, binaryArrayStep, if_neg hlt, wrap32_add_wrap32, hp, ih _ _ (by omega)]
    simp only [val, List.length_cons, Option.some.injEq, Prod.mk.injEq]
    constructor
    · congr 1
      split <;> rw [pow_succ] <;> ring
    · congr 1; omega

theorem binaryArrayToDecimalEntry_eq (ds : List Int) (h : ds.length ≤ 63) :
    binaryArrayToDecimalEntry ds = some (wrap32 (val ds)) := by
  have := foldl_binaryArrayStep ds 0 0 (by omega)
  have h0 : wrap32 0 = 0 := by decide
  simp only [h0, pow_zero, zero_add, one_mul] at this
  simp [binaryArrayToDecimalEntry, this]

theorem foldl_binaryArrayStep_error (ds : List Int) : ∀ (r : Int) (k : Nat),
    63 < k + ds.length → ds ≠ [] →
    ds.foldl binaryArrayStep (some (r, 2 ^ k)) = none := by
  induction ds with
  | nil => intro r k _ h; exact absurd rfl h
  | cons d ds ih =>
    intro r k hk _
    rw [List.length_cons] at hk
    rw [List.foldl_cons, binaryArrayStep]
    by_cases hle : (2 : Int) ^ 63 ≤ 2 ^ k
    · rw [if_pos hle, foldl_binaryArrayStep_none]
    · rw [if_neg hle]
      have hk63 : k < 63 := by
        by_contra hc
        exact hle (pow_le_pow_right₀ (by norm_num) (by omega))
      have hp : (2 : Int) ^ k * 2 = 2 ^ (k + 1) := by rw [pow_succ]
      rw [hp]
      apply ih _ _ (by omega)
      intro h; subst h; simp at hk; omega

theorem wrap32_of_lt {x : Int} (h0 : 0 ≤ x) (h : x < 2 ^ 31) : wrap32 x = x := by
  unfold wrap32
  rw [Int.bmod_def]
  omega

/-! ### Enumeration loop -/

theorem assignSlice_fit {α : Type} (out vals : List α) (i : Nat) (h : i + vals.length ≤ out.length) :
    assignSlice out i vals = .ok (out.take i ++ vals ++ out.drop (i + vals.length)) := by
  unfold assignSlice
  rw [if_pos]
  omega

/-- The target vector. -/
def target {α : Type} (predict : List Int → α) (n : Nat) : List α :=
  (List.range (2 ^ n)).map fun k : Nat => predict (decimalToBinary false n (k : Int))

theorem length_target {α : Type} (predict : List Int → α) (n : Nat) :
    (target predict n).length = 2 ^ n := by simp [target]

/-- Contents of `out` when the first `i` positions are done. -/
def partialOut {α : Type} (predict : List Int → α) (n i : Nat) (out : List α) : List α :=
  (target predict n).take i ++ out.drop i

theorem batch_eq {α : Type} (predict : List Int → α) (n i b : Nat) :
    (decimalArrayToBinaryArray false ((List.range' i b).map Int.ofNat) n).map predict =
      (List.range' i b).map fun k : Nat => predict (decimalToBinary false n (k : Int)) := by
  rw [decimalArrayToBinaryArray_eq, List.map_map, List.map_map]; rfl

theorem batch_slice {α : Type} (predict : List Int → α) (n i b : Nat) (h : i + b ≤ 2 ^ n) :
    (List.range' i b).map (fun k : Nat => predict (decimalToBinary false n (k : Int))) =
      ((target predict n).drop i).take b := by
  unfold target
  rw [← List.map_drop, ← List.map_take]
  congr 1
  apply List.ext_getElem
  · simp; omega
  · intro k h1 h2
    simp

theorem partialOut_step {α : Type} (predict : List Int → α) (n i b : Nat) (out : List α)
    (hout : out.length = 2 ^ n) (h : i + b ≤ 2 ^ n) :
    assignSlice (partialOut predict n i out) i
      ((decimalArrayToBinaryArray false ((List.range' i b).map Int.ofNat) n).map predict) =
      .ok (partialOut predict n (i + b) out) := by
  have hlen : (partialOut predict n i out).length = 2 ^ n := by
    simp [partialOut, length_target, hout]; omega
  rw [batch_eq, assignSlice_fit _ _ _ (by simp [hlen]; omega)]
  rw [batch_slice _ _ _ _ h]
  congr 1
  unfold partialOut
  have hl : ((target predict n).take i).length = i := by simp [length_target]; omega
  have hl2 : (((target predict n).drop i).take b).length = b := by simp [length_target]; omega
  rw [hl2, List.take_append_of_le_length hl.ge, List.take_of_length_le hl.le,
    List.drop_append, hl, List.drop_of_length_le (l := List.take i _) (by omega), List.nil_append,
    List.drop_drop]
  rw [show i + (i + b - i) = i + b by omega]
  rw [List.take_add]

theorem dvd_add_self {b i : Nat} (h : b ∣ i) : b ∣ i + b := by
  obtain ⟨c, hc⟩ := h
  exact ⟨c + 1, by rw [hc]; ring⟩

theorem enumLoop_dvd {α : Type} (predict : List Int → α) (n b : Nat) (out : List α)
    (hb : 0 < b) (hd : b ∣ 2 ^ n) (hout : out.length = 2 ^ n) :
    ∀ fuel i, b ∣ i → i ≤ 2 ^ n → 2 ^ n ≤ i + fuel →
      enumLoop predict n b fuel i (partialOut predict n i out) = .ok (target predict n) := by
  have hdone : partialOut predict n (2 ^ n) out = target predict n := by
    simp [partialOut, List.take_of_length_le, List.drop_of_length_le, length_target, hout]
  intro fuel
  induction fuel with
  | zero =>
    intro i _ h1 h2
    have : i = 2 ^ n := by omega
    subst this
    simp [enumLoop, hdone]
  | succ fuel ih =>
    intro i hi h1 h2
    rw [enumLoop]
    by_cases hlt : i < 2 ^ n
    · rw [if_pos hlt]
      have hle : i + b ≤ 2 ^ n := by
        obtain ⟨c, hc⟩ := hi
        obtain ⟨m, hm⟩ := hd
        rw [hc, hm] at hlt ⊢
        have : c < m := Nat.lt_of_mul_lt_mul_left hlt
        calc b * c + b = b * (c + 1) := by ring
          _ ≤ b * m := Nat.mul_le_mul_left _ this
      simp only [partialOut_step predict n i b out hout hle]
      exact ih (i + b) (dvd_add_self hi) hle (by omega)
    · have : i = 2 ^ n := by omega
      subst this
      simp [hdone]

theorem enumLoop_not_dvd {α : Type} (predict : List Int → α) (n b : Nat) (out : List α)
    (hb : 0 < b) (hd : ¬ b ∣ 2 ^ n) (hout : out.length = 2 ^ n) :
    ∀ fuel i, b ∣ i → i ≤ 2 ^ n → 2 ^ n ≤ i + fuel →
      enumLoop predict n b fuel i (partialOut predict n i out) = .error .shapeMismatch := by
  intro fuel
  induction fuel with
  | zero =>
    intro i hi h1 h2
    have : i = 2 ^ n := by omega
    exact absurd (this ▸ hi) hd
  | succ fuel ih =>
    intro i hi h1 h2
    have hlt : i < 2 ^ n := lt_of_le_of_ne h1 (fun h => hd (h ▸ hi))
    rw [enumLoop, if_pos hlt]
    by_cases hle : i + b ≤ 2 ^ n
    · simp only [partialOut_step predict n i b out hout hle]
      exact ih (i + b) (dvd_add_self hi) hle (by omega)
    · have hlen : (partialOut predict n i out).length = 2 ^ n := by
        simp [partialOut, length_target, hout]; omega
      have hb1 : b ≠ 1 := fun h => hd (h ▸ one_dvd _)
      simp only [batch_eq]
      unfold assignSlice
      simp only [List.length_map, List.length_range', hlen]
      rw [if_neg (by omega), if_neg hb1]

end Verif.Exact
