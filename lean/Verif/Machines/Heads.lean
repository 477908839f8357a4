import Verif.Machines.Model
import Mathlib.Tactic.Ring
import Mathlib.Tactic.Linarith
import Mathlib.Data.List.GetD
import Mathlib.Data.Nat.Log

/-!
# C76 and C77: the complex output head and the dilation rates

`VectorToComplexNumber` turns `2 m` real numbers into `m` complex numbers; it is the last layer of the
autoregressive machines.  The second part is about the dilation rates of the 1-D machines.
-/

namespace Verif.Machines

open Verif.Net

/-! ## VectorToComplexNumber -/

/-- Row-major position of `(p, a, s)` in an array of shape `(pre, size, post)`. -/
def flat3 (size post p a s : ℕ) : ℕ := (p * size + a) * post + s

/-- `VectorToComplexNumber.call` (layers/complex/casting.py:16-24).  The axes before and after the chosen
one are merged to sizes `pre` and `post` (exact, as all operations are row-major reshapes and
elementwise); `x` is the array read row-major; `size` is `K.int_shape(x)[axis]`.  `negative` tells that
the axis was given as a negative number other than minus one (which line 17 resolves).  The array is
reshaped to `(pre, 2, size / 2, post)` and unstacked: for a non-negative axis along the new axis of size
two, for a negative one (which counts from the end of the *new* shape) along the axis of size `size / 2`,
and then the assignment to two names raises unless there are two parts.  `none` is an exception. -/
def vectorToComplexCall (negative : Bool) (size post : ℕ) (x : ℕ → ℝ) : Option (ℕ → ℕ → ℕ → ℂ) :=
  if size % 2 = 0 then
    let m := size / 2
    -- `x` after the reshape: cell `(p, h, c, s)`
    let reshaped := fun p h c s => x (((p * 2 + h) * m + c) * post + s)
    if negative then
      if m = 2 then some fun p h s => ⟨reshaped p h 0 s, reshaped p h 1 s⟩ else none
    else some fun p c s => ⟨reshaped p 0 c s, reshaped p 1 c s⟩
  else none

/-- **C76**: with a non-negative axis (or minus one) of even size the layer is a bijection between real
arrays with `2 m` entries along the axis and complex arrays with `m` entries: every complex array is
reached, by exactly one real array, whatever the shape. So the machines can represent all pairs of
complex conditionals. -/
theorem C76_bijection_partial (pre m post : ℕ) (z : Fin pre → Fin m → Fin post → ℂ) :
    ∃! x : Fin pre → Fin (2 * m) → Fin post → ℝ, ∀ flat : ℕ → ℝ,
      (∀ (p : Fin pre) (a : Fin (2 * m)) (s : Fin post), flat (flat3 (2 * m) post p a s) = x p a s) →
      ∃ out, vectorToComplexCall false (2 * m) post flat = some out ∧
        ∀ (p : Fin pre) (c : Fin m) (s : Fin post), out p c s = z p c s := by
  have hm : 2 * m / 2 = m := by omega
  have hcall : ∀ flat, vectorToComplexCall false (2 * m) post flat = some fun p c s =>
      ⟨flat (((p * 2 + 0) * m + c) * post + s), flat (((p * 2 + 1) * m + c) * post + s)⟩ := by
    intro flat
    unfold vectorToComplexCall
    rw [if_pos (by omega)]
    simp [hm]
  have h0 : ∀ p c s, ((p * 2 + 0) * m + c) * post + s = flat3 (2 * m) post p c s := by
    intro p c s; unfold flat3; ring
  have h1 : ∀ p c s, ((p * 2 + 1) * m + c) * post + s = flat3 (2 * m) post p (m + c) s := by
    intro p c s; unfold flat3; ring
  refine ⟨fun p a s => if h : a.1 < m then (z p ⟨a, h⟩ s).re else (z p ⟨a - m, by omega⟩ s).im, ?_, ?_⟩
  · intro flat hflat
    refine ⟨_, hcall flat, fun p c s => ?_⟩
    rw [h0, h1]
    have e0 := hflat p ⟨c, by omega⟩ s
    have e1 := hflat p ⟨m + c, by omega⟩ s
    dsimp only at e0 e1
    rw [dif_pos c.2] at e0
    rw [dif_neg (by omega)] at e1
    rw [e0, e1]
    refine Complex.ext rfl ?_
    show (z p ⟨m + c - m, _⟩ s).im = _
    congr 2
    exact Fin.ext (by simp)
  · intro y hy
    -- some flat array lists `y`
    obtain ⟨flat, hflat⟩ : ∃ flat : ℕ → ℝ, ∀ (p : Fin pre) (a : Fin (2 * m)) (s : Fin post),
        flat (flat3 (2 * m) post p a s) = y p a s := by
      refine ⟨fun n => if h : n / post / (2 * m) < pre ∧ n / post % (2 * m) < 2 * m ∧ n % post < post then
        y ⟨_, h.1⟩ ⟨_, h.2.1⟩ ⟨_, h.2.2⟩ else 0, fun p a s => ?_⟩
      have hp : 0 < post := by have := s.2; omega
      have hmm : 0 < 2 * m := by have := a.2; omega
      have e1 : flat3 (2 * m) post p a s / post = p * (2 * m) + a := by
        unfold flat3
        rw [Nat.mul_comm _ post, Nat.mul_add_div hp, Nat.div_eq_of_lt s.2, Nat.add_zero]
      have e2 : flat3 (2 * m) post p a s % post = s := by
        unfold flat3
        rw [Nat.mul_comm _ post, Nat.mul_add_mod, Nat.mod_eq_of_lt s.2]
      have e3 : (p.1 * (2 * m) + a) / (2 * m) = p := by
        rw [Nat.mul_comm p.1, Nat.mul_add_div hmm, Nat.div_eq_of_lt a.2, Nat.add_zero]
      have e4 : (p.1 * (2 * m) + a) % (2 * m) = a := by
        rw [Nat.mul_comm p.1, Nat.mul_add_mod, Nat.mod_eq_of_lt a.2]
      dsimp only
      rw [dif_pos ⟨by rw [e1, e3]; exact p.2, by rw [e1, e4]; exact a.2, by rw [e2]; exact s.2⟩]
      have f1 : (⟨flat3 (2 * m) post p a s / post / (2 * m), by rw [e1, e3]; exact p.2⟩ : Fin pre) = p :=
        Fin.ext (by dsimp only; rw [e1, e3])
      have f2 : (⟨flat3 (2 * m) post p a s / post % (2 * m), by rw [e1, e4]; exact a.2⟩ : Fin (2 * m)) = a :=
        Fin.ext (by dsimp only; rw [e1, e4])
      have f3 : (⟨flat3 (2 * m) post p a s % post, by rw [e2]; exact s.2⟩ : Fin post) = s :=
        Fin.ext e2
      rw [f1, f2, f3]
    obtain ⟨out, hout, hz⟩ := hy flat hflat
    rw [hcall] at hout
    have hout := (Option.some.inj hout).symm
    funext p a s
    by_cases h : a.1 < m
    · rw [dif_pos h, ← hz p ⟨a, h⟩ s, hout]
      show _ = flat _
      rw [h0]
      exact (hflat p a s).symm
    · rw [dif_neg h, ← hz p ⟨a - m, by omega⟩ s, hout]
      show _ = flat _
      rw [h1]
      have : m + (a.1 - m) = a.1 := by omega
      dsimp only
      rw [this]
      exact (hflat p a s).symm

/-- The four channel case used by the machines is this layer on an axis of size four. -/
theorem vectorToComplex_eq (v : List ℂ) :
    ∃ out, vectorToComplexCall false 4 1 (fun n => (v.getD n 0).re) = some out ∧
      vectorToComplex v = [out 0 0 0, out 0 1 0] := by
  refine ⟨_, rfl, ?_⟩
  simp [vectorToComplex]

/-- **C76** for the head of the machines: any two complex numbers are the output for exactly one choice
of four real numbers. -/
theorem C76_head (z0 z1 : ℂ) :
    ∃! v : ℝ × ℝ × ℝ × ℝ, vectorToComplex [(v.1 : ℂ), (v.2.1 : ℂ), (v.2.2.1 : ℂ), (v.2.2.2 : ℂ)] = [z0, z1] := by
  refine ⟨(z0.re, z1.re, z0.im, z1.im), ?_, ?_⟩
  · simp [vectorToComplex]
  · rintro ⟨a, b, c, d⟩ h
    simp [vectorToComplex] at h
    obtain ⟨h0, h1⟩ := h
    rw [← h0, ← h1]

/-- **C76 is false of the code** for negative axes other than minus one: unless the axis has size four
the call raises, and with size four neighbouring entries are paired instead of the two halves. -/
theorem C76_violated_negative_axis (post : ℕ) (x : ℕ → ℝ) :
    (∀ size, size ≠ 4 → vectorToComplexCall true size post x = none) ∧
    (∃ out, vectorToComplexCall true 4 post x = some out ∧ ∀ p c s,
      out p c s = ⟨x (flat3 4 post p (2 * c) s), x (flat3 4 post p (2 * c + 1) s)⟩) ∧
    (∃ out, vectorToComplexCall false 4 post x = some out ∧ ∀ p c s,
      out p c s = ⟨x (flat3 4 post p c s), x (flat3 4 post p (2 + c) s)⟩) := by
  refine ⟨?_, ⟨_, rfl, ?_⟩, ⟨_, rfl, ?_⟩⟩
  · intro size h4
    unfold vectorToComplexCall
    by_cases he : size % 2 = 0
    · rw [if_pos he]
      have : ¬ size / 2 = 2 := by omega
      simp [this]
    · rw [if_neg he]
  · intro p c s
    unfold flat3
    congr 2 <;> ring_nf
  · intro p c s
    unfold flat3
    congr 2 <;> ring_nf

/-- An odd number of channels is rejected. -/
theorem C76_odd (negative : Bool) (size post : ℕ) (x : ℕ → ℝ) (h : size % 2 = 1) :
    vectorToComplexCall negative size post x = none := by
  unfold vectorToComplexCall
  rw [if_neg (by omega)]

/-! ## Dilation rates of the 1-D machines -/

/-- Dilation rate of hidden layer `i` when the machine is built
(machines/simple_conv_net_autoregressive_1D.py:46 and 58-60). -/
def rate (P : Params1D) (i : ℕ) : ℕ := (nextDilation P)^[i] 1

/-- The loop over the hidden layers (machines/simple_conv_net_autoregressive_1D.py:51-60) with the
dilation rate of layer `i` given by `rates i`. -/
def layersWithRates (P : Params1D) (W : Weights) (rates : ℕ → ℕ) : (count i x : Nat) → Build ℂ Nat
  | 0, _, x => pure x
  | count + 1, i, x => do
    let x ← causalConv1d W P.channels P.kernelSize (rates i) P.act
      (if P.skip && decide (i > 0) then some x else none) x
    layersWithRates P W rates count (i + 1) x

/-- The machine uses `rate i` in layer `i`. -/
theorem layers1D_rates (P : Params1D) (W : Weights) (count i x : ℕ) :
    layers1D P W count i (rate P i) x = layersWithRates P W (rate P) count i x := by
  induction count generalizing i x with
  | zero => rfl
  | succ n ih =>
    unfold layers1D layersWithRates
    congr 1
    funext y
    have : nextDilation P (rate P i) = rate P (i + 1) := (Function.iterate_succ_apply' _ _ _).symm
    rw [this, ih]

theorem rate_succ (P : Params1D) (i : ℕ) : rate P (i + 1) = nextDilation P (rate P i) :=
  Function.iterate_succ_apply' _ _ _

/-- The rates for a maximum `m`: doubled until they reach or pass `m`. -/
theorem rate_some (P : Params1D) (m : ℕ) (hu : P.useDilation = true) (hm : P.maxDilation = some m) (i : ℕ) :
    rate P i = 2 ^ min i (Nat.clog 2 m) := by
  induction i with
  | zero => simp [rate]
  | succ i ih =>
    rw [rate_succ, ih]
    unfold nextDilation
    rw [if_pos hu, hm]
    dsimp only
    by_cases h : i < Nat.clog 2 m
    · rw [min_eq_left h.le, min_eq_left (by omega), if_pos ((Nat.lt_clog_iff_pow_lt (by norm_num)).1 h)]
      rw [pow_succ]
    · rw [min_eq_right (by omega), min_eq_right (by omega), if_neg]
      exact not_lt.2 (Nat.le_pow_clog (by norm_num) m)

/-- **C77** for a maximum that is a power of two: layer `i` has dilation `2 ^ i` until the maximum is
reached, and the maximum from then on; in particular it is never exceeded. -/
theorem C77_partial (P : Params1D) (k : ℕ) (hu : P.useDilation = true) (hm : P.maxDilation = some (2 ^ k))
    (W : Weights) (x : ℕ) :
    layers1D P W (P.depth - 2) 0 1 x
      = layersWithRates P W (fun i => min (2 ^ i) (2 ^ k)) (P.depth - 2) 0 x := by
  have h := layers1D_rates P W (P.depth - 2) 0 x
  have h0 : rate P 0 = 1 := rfl
  rw [h0] at h
  rw [h]
  congr 1
  funext i
  rw [rate_some P _ hu hm, Nat.clog_pow 2 k (by norm_num)]
  rcases le_total i k with hik | hik
  · rw [min_eq_left hik, min_eq_left (Nat.pow_le_pow_right (by norm_num) hik)]
  · rw [min_eq_right hik, min_eq_right (Nat.pow_le_pow_right (by norm_num) hik)]

/-- **C77**, with `use_dilation = False`: no dilation. -/
theorem C77_off (P : Params1D) (hu : P.useDilation = false) (W : Weights) (x : ℕ) :
    layers1D P W (P.depth - 2) 0 1 x = layersWithRates P W (fun _ => 1) (P.depth - 2) 0 x := by
  have h := layers1D_rates P W (P.depth - 2) 0 x
  have h0 : rate P 0 = 1 := rfl
  rw [h0] at h
  rw [h]
  congr 1
  funext i
  induction i with
  | zero => rfl
  | succ i ih => rw [rate_succ, ih]; simp [nextDilation, hu]

/-- **C77 is false of the code** for the default arguments (`use_dilation = True`,
`max_dilation_rate = None`): there is no dilation at all, in any layer. -/
theorem C77_violated_default (P : Params1D) (hm : P.maxDilation = none) (W : Weights) (x : ℕ) :
    layers1D P W (P.depth - 2) 0 1 x = layersWithRates P W (fun _ => 1) (P.depth - 2) 0 x := by
  have h := layers1D_rates P W (P.depth - 2) 0 x
  have h0 : rate P 0 = 1 := rfl
  rw [h0] at h
  rw [h]
  congr 1
  funext i
  induction i with
  | zero => rfl
  | succ i ih => rw [rate_succ, ih]; simp [nextDilation, hm]

/-- **C77 is false of the code** for a maximum that is not a power of two: deep machines use the next
larger power of two. -/
theorem C77_violated_maximum (P : Params1D) (m : ℕ) (hu : P.useDilation = true)
    (hm : P.maxDilation = some m) (h0 : m ≠ 0) (hpow : ∀ k, m ≠ 2 ^ k) (i : ℕ) (hi : Nat.clog 2 m ≤ i) :
    m < rate P i := by
  rw [rate_some P m hu hm, min_eq_right hi]
  exact lt_of_le_of_ne (Nat.le_pow_clog (by norm_num) m) (hpow _)

/-- For example a maximum of three: the third hidden layer has dilation four. -/
example : rate { depth := 5, channels := 8, maxDilation := some 3, act := none } 2 = 4 := by decide

example : rate { depth := 5, channels := 8, maxDilation := some 4, act := none } 2 = 4 := by decide

end Verif.Machines
