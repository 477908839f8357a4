import Verif.Jacobian.Model
import Verif.Jacobian.Spec
import Mathlib.Tactic.Ring
import Mathlib.Tactic.Linarith
import Mathlib.Tactic.NormNum

/-!
# C75: `gradient_per_example` returns derivatives
-/

open scoped BigOperators

namespace Verif.Jacobian

/-! ## Affine dependence on the weights -/

section Affine

variable {R : Type*} [CommRing R]

theorem sum_setEntry {κ : Type*} [Fintype κ] [DecidableEq κ] (A w : κ → R) (k : κ) (t : R) :
    ∑ k', A k' * setEntry w k t k' = ∑ k', A k' * w k' + (t - w k) * A k := by
  have h : ∀ k', A k' * setEntry w k t k' = A k' * w k' + if k' = k then (t - w k) * A k else 0 := by
    intro k'
    unfold setEntry
    by_cases e : k' = k
    · subst e; simp; ring
    · simp [e]
  rw [Finset.sum_congr rfl fun k' _ => h k', Finset.sum_add_distrib]
  simp

theorem denseCall_eq {ι φ : Type*} [Fintype ι] [Fintype φ] [DecidableEq φ] (w : ι × φ → R) (b : φ → R)
    (x : ι → R) (o : φ) :
    denseCall (fun i o => w (i, o)) b x o = (∑ k, (if k.2 = o then x k.1 else 0) * w k) + b o := by
  unfold denseCall
  rw [Fintype.sum_prod_type]
  simp

theorem convCall_eq {ι φ : Type*} [Fintype ι] [Fintype φ] [DecidableEq φ] {kh kw : ℕ} (dh dw : ℕ)
    (w : Fin kh × Fin kw × ι × φ → R) (b : φ → R) (x : ℕ → ℕ → ι → R) (p q : ℕ) (o : φ) :
    convCall dh dw (fun a c i o => w (a, c, i, o)) b x p q o
      = (∑ k : Fin kh × Fin kw × ι × φ,
          (if k.2.2.2 = o then x (p + k.1 * dh) (q + k.2.1 * dw) k.2.2.1 else 0) * w k) + b o := by
  unfold convCall
  simp only [Fintype.sum_prod_type]
  simp

theorem conv1dCall_eq {ι φ : Type*} [Fintype ι] [Fintype φ] [DecidableEq φ] {kh : ℕ} (dh : ℕ)
    (w : Fin kh × ι × φ → R) (b : φ → R) (x : ℕ → ι → R) (p : ℕ) (o : φ) :
    conv1dCall dh (fun a i o => w (a, i, o)) b x p o
      = (∑ k : Fin kh × ι × φ, (if k.2.2 = o then x (p + k.1 * dh) k.2.1 else 0) * w k) + b o := by
  unfold conv1dCall
  simp only [Fintype.sum_prod_type]
  simp

/-- The flat sum over row-major positions is the double sum. -/
theorem sum_range_mul {M : Type*} [AddCommMonoid M] (oh ow : ℕ) (f : ℕ → ℕ → M) :
    ∑ s ∈ Finset.range (oh * ow), f (s / ow) (s % ow)
      = ∑ p ∈ Finset.range oh, ∑ q ∈ Finset.range ow, f p q := by
  induction oh with
  | zero => simp
  | succ n ih =>
    rw [Nat.succ_mul, Finset.sum_range_add, ih, Finset.sum_range_succ]
    congr 1
    refine Finset.sum_congr rfl fun q hq => ?_
    have hq := Finset.mem_range.1 hq
    have h0 : 0 < ow := by omega
    rw [Nat.mul_comm n ow, Nat.mul_add_div h0, Nat.mul_add_mod, Nat.div_eq_of_lt hq, Nat.mod_eq_of_lt hq,
      Nat.add_zero]

theorem convKernelJacobian_eq {ι φ : Type*} (h w oh ow dh dw : ℕ) (x : ℕ → ℕ → ι → R)
    (grad : ℕ → ℕ → φ → R) (u v : ℕ) (i : ι) (o : φ) :
    (convKernelJacobian h w oh ow dh dw x grad).2 u v i o
      = ∑ p : Fin oh, ∑ q : Fin ow, grad p q o * x (u + p * dh) (v + q * dw) i := by
  show ∑ s ∈ Finset.range (oh * ow), grad (s / ow) (s % ow) o * x (u + s / ow * dh) (v + s % ow * dw) i
    = _
  rw [sum_range_mul oh ow (fun p q => grad p q o * x (u + p * dh) (v + q * dw) i),
    Finset.sum_range]
  refine Finset.sum_congr rfl fun p _ => ?_
  rw [Finset.sum_range]

theorem convBiasJacobian_eq {φ : Type*} (oh ow : ℕ) (grad : ℕ → ℕ → φ → R) (o : φ) :
    convBiasJacobian oh ow grad o = ∑ p : Fin oh, ∑ q : Fin ow, grad p q o := by
  unfold convBiasJacobian
  rw [Finset.sum_range]
  exact Finset.sum_congr rfl fun p _ => by rw [Finset.sum_range]

end Affine

/-- Row `p`, column `q` of a gradient array, `0` outside (only cells of the array are read). -/
noncomputable def unpack {φ R : Type*} [Zero R] {oh ow : ℕ} (g : Fin oh × Fin ow × φ → R) :
    ℕ → ℕ → φ → R :=
  fun p q o => if h : p < oh ∧ q < ow then g (⟨p, h.1⟩, ⟨q, h.2⟩, o) else 0

theorem unpack_fin {φ R : Type*} [Zero R] {oh ow : ℕ} (g : Fin oh × Fin ow × φ → R) (p : Fin oh)
    (q : Fin ow) (o : φ) : unpack g p q o = g (p, q, o) := by
  unfold unpack
  rw [dif_pos ⟨p.2, q.2⟩]

/-! ## Real layers -/

/-- **C75**, dense layers: for every loss, input, kernel and bias. -/
theorem C75_dense_partial {ι φ : Type*} [Fintype ι] [Fintype φ] [DecidableEq ι] [DecidableEq φ]
    (loss : (φ → ℝ) → ℝ) (x : ι → ℝ) (kernel : ι × φ → ℝ) (bias grad : φ → ℝ)
    (hg : GradientAt loss (denseCall (fun i o => kernel (i, o)) bias x) grad) :
    (∀ i o, EntryDeriv (fun w => loss (denseCall (fun i o => w (i, o)) bias x)) kernel (i, o)
      (denseKernelJacobian x grad i o)) ∧
    (∀ o, EntryDeriv (fun b => loss (denseCall (fun i o => kernel (i, o)) b x)) bias o
      (denseBiasJacobian grad o)) := by
  constructor
  · intro i o
    have h := entryDeriv_affine (out := fun w => denseCall (fun i o => w (i, o)) bias x) (i, o)
      (fun s => if o = s then x i else 0) (fun t s => by
        simp only [denseCall_eq, sum_setEntry]; ring) hg
    simpa [denseKernelJacobian, mul_comm] using h
  · intro o
    have h := entryDeriv_affine (out := fun b => denseCall (fun i o => kernel (i, o)) b x) o
      (fun s => if s = o then 1 else 0) (fun t s => by
        unfold denseCall setEntry
        by_cases e : s = o
        · subst e; simp
        · simp [e]) hg
    simpa [denseBiasJacobian] using h

/-- **C75**, two dimensional convolutions without dilation: the returned array has the shape of the
kernel and its entries are the derivatives, for every loss, input (of any size), kernel and bias. -/
theorem C75_conv_partial {ι φ : Type*} [Fintype ι] [Fintype φ] [DecidableEq ι] [DecidableEq φ]
    {h w kh kw : ℕ} (hkh : 0 < kh) (hkw : 0 < kw) (hh : kh ≤ h) (hw : kw ≤ w)
    (loss : (Fin (validSize h kh 1) × Fin (validSize w kw 1) × φ → ℝ) → ℝ)
    (x : ℕ → ℕ → ι → ℝ) (kernel : Fin kh × Fin kw × ι × φ → ℝ) (bias : φ → ℝ)
    (grad : Fin (validSize h kh 1) × Fin (validSize w kw 1) × φ → ℝ)
    (hg : GradientAt loss (fun s => convCall 1 1 (fun a b i o => kernel (a, b, i, o)) bias x
      s.1 s.2.1 s.2.2) grad) :
    let jac := convKernelJacobian h w (validSize h kh 1) (validSize w kw 1) 1 1 x (unpack grad)
    jac.1 = (kh, kw) ∧
    (∀ a b i o, EntryDeriv (fun k => loss fun s => convCall 1 1 (fun a b i o => k (a, b, i, o)) bias x
      s.1 s.2.1 s.2.2) kernel (a, b, i, o) (jac.2 a b i o)) ∧
    (∀ o, EntryDeriv (fun c => loss fun s => convCall 1 1 (fun a b i o => kernel (a, b, i, o)) c x
      s.1 s.2.1 s.2.2) bias o
        (convBiasJacobian (validSize h kh 1) (validSize w kw 1) (unpack grad) o)) := by
  intro jac
  refine ⟨?_, ?_, ?_⟩
  · show (patchesSize _ _ _, patchesSize _ _ _) = _
    unfold patchesSize validSize
    exact Prod.ext (by dsimp only; omega) (by dsimp only; omega)
  · intro a b i o
    have e := entryDeriv_affine
      (out := fun k (s : Fin (validSize h kh 1) × Fin (validSize w kw 1) × φ) =>
        convCall 1 1 (fun a b i o => k (a, b, i, o)) bias x s.1 s.2.1 s.2.2) (a, b, i, o)
      (fun s => if o = s.2.2 then x (s.1 + a * 1) (s.2.1 + b * 1) i else 0) (fun t s => by
        simp only [convCall_eq, sum_setEntry]; ring) hg
    convert e using 1
    show (convKernelJacobian _ _ _ _ _ _ _ _).2 _ _ _ _ = _
    rw [convKernelJacobian_eq]
    simp only [Fintype.sum_prod_type, unpack_fin]
    simp [add_comm]
  · intro o
    have e := entryDeriv_affine
      (out := fun c (s : Fin (validSize h kh 1) × Fin (validSize w kw 1) × φ) =>
        convCall 1 1 (fun a b i o => kernel (a, b, i, o)) c x s.1 s.2.1 s.2.2) o
      (fun s => if s.2.2 = o then 1 else 0) (fun t s => by
        unfold convCall setEntry
        by_cases e : s.2.2 = o
        · simp [e]
        · simp [e]) hg
    convert e using 1
    rw [convBiasJacobian_eq]
    simp only [Fintype.sum_prod_type, unpack_fin]
    simp

/-- **C75**, one dimensional convolutions without dilation. -/
theorem C75_conv1d_partial {ι φ : Type*} [Fintype ι] [Fintype φ] [DecidableEq ι] [DecidableEq φ]
    {h kh : ℕ} (hkh : 0 < kh) (hh : kh ≤ h)
    (loss : (Fin (validSize h kh 1) × Fin 1 × φ → ℝ) → ℝ)
    (x : ℕ → ι → ℝ) (kernel : Fin kh × ι × φ → ℝ) (bias : φ → ℝ)
    (grad : Fin (validSize h kh 1) × Fin 1 × φ → ℝ)
    (hg : GradientAt loss (fun s => conv1dCall 1 (fun a i o => kernel (a, i, o)) bias x s.1 s.2.2) grad) :
    let jac := conv1dKernelJacobian h (validSize h kh 1) 1 x (fun p o => unpack grad p 0 o)
    jac.1 = kh ∧
    (∀ a i o, EntryDeriv (fun k => loss fun s => conv1dCall 1 (fun a i o => k (a, i, o)) bias x
      s.1 s.2.2) kernel (a, i, o) (jac.2 a i o)) := by
  intro jac
  refine ⟨?_, ?_⟩
  · show patchesSize _ _ _ = _
    unfold patchesSize validSize
    omega
  · intro a i o
    have e := entryDeriv_affine
      (out := fun k (s : Fin (validSize h kh 1) × Fin 1 × φ) =>
        conv1dCall 1 (fun a i o => k (a, i, o)) bias x s.1 s.2.2) (a, i, o)
      (fun s => if o = s.2.2 then x (s.1 + a * 1) i else 0) (fun t s => by
        simp only [conv1dCall_eq, sum_setEntry]; ring) hg
    convert e using 1
    show (convKernelJacobian h 1 _ 1 1 1 _ _).2 _ _ _ _ = _
    rw [convKernelJacobian_eq]
    simp only [Fintype.sum_prod_type]
    have hu : ∀ p : Fin (validSize h kh 1), unpack grad p 0 o = grad (p, 0, o) := fun p =>
      unpack_fin grad p 0 o
    simp [hu, add_comm]

/-! ## Complex layers -/

/-- The derivative with respect to the real and imaginary parts of a weight of a layer whose output is
affine in the complex weights with coefficient `A`: `grad` is TensorFlow's gradient. -/
theorem entryDeriv_complexWeight {σ κ : Type*} [Fintype σ] [Fintype κ] [DecidableEq κ]
    {loss : (σ → ℂ) → ℝ} (A : σ → κ → ℂ) (B : σ → ℂ) (re im : κ → ℝ) (grad : σ → ℂ)
    (hg : ComplexGradientAt loss (fun s => ∑ k, A s k * complexWeight re im k + B s) grad) (k : κ) :
    EntryDeriv (fun r => loss fun s => ∑ k, A s k * complexWeight r im k + B s) re k
      (∑ s, (A s k * (starRingEnd ℂ) (grad s))).re ∧
    EntryDeriv (fun m => loss fun s => ∑ k, A s k * complexWeight re m k + B s) im k
      (∑ s, (A s k * (starRingEnd ℂ) (grad s))).im := by
  have hset : ∀ t : ℝ, complexWeight (setEntry re k t) im
      = setEntry (complexWeight re im) k (complexWeight re im k + ((t - re k : ℝ) : ℂ)) := by
    intro t; funext k'
    unfold complexWeight setEntry
    by_cases e : k' = k
    · subst e; apply Complex.ext <;> simp
    · simp [e]
  have hset' : ∀ t : ℝ, complexWeight re (setEntry im k t)
      = setEntry (complexWeight re im) k (complexWeight re im k - ((t - im k : ℝ) : ℂ) * Complex.I) := by
    intro t; funext k'
    unfold complexWeight setEntry
    by_cases e : k' = k
    · subst e
      refine Complex.ext (by simp) ?_
      simp
      ring
    · simp [e]
  constructor
  · have h := entryDeriv_affine_complex
      (out := fun r s => ∑ k, A s k * complexWeight r im k + B s) k (fun s => A s k)
      (fun t s => by
        rw [hset, sum_setEntry]; ring) hg
    convert h using 1
    rw [Complex.re_sum]
    refine Finset.sum_congr rfl fun s _ => ?_
    simp [Complex.mul_re]; ring
  · have h := entryDeriv_affine_complex
      (out := fun m s => ∑ k, A s k * complexWeight re m k + B s) k (fun s => -Complex.I * A s k)
      (fun t s => by
        rw [hset', sum_setEntry]; ring) hg
    convert h using 1
    rw [Complex.im_sum]
    refine Finset.sum_congr rfl fun s _ => ?_
    simp [Complex.mul_im, Complex.mul_re]; ring

/-- **C75**, complex dense layers on real inputs (the first complex layer of a network, after
`ToComplex64`). -/
theorem C75_complex_dense_partial {ι φ : Type*} [Fintype ι] [Fintype φ] [DecidableEq ι] [DecidableEq φ]
    (loss : (φ → ℂ) → ℝ) (x : ι → ℝ) (re im : ι × φ → ℝ) (bias grad : φ → ℂ)
    (hg : ComplexGradientAt loss
      (denseCall (fun i o => complexWeight re im (i, o)) bias (fun i => (x i : ℂ))) grad) (i : ι) (o : φ) :
    let jac := toRealParts fun k : ι × φ => denseKernelJacobian (fun i => (x i : ℂ)) grad k.1 k.2
    EntryDeriv (fun r => loss (denseCall (fun i o => complexWeight r im (i, o)) bias
      (fun i => (x i : ℂ)))) re (i, o) (jac.1 (i, o)) ∧
    EntryDeriv (fun m => loss (denseCall (fun i o => complexWeight re m (i, o)) bias
      (fun i => (x i : ℂ)))) im (i, o) (jac.2 (i, o)) := by
  intro jac
  have key := entryDeriv_complexWeight (loss := loss)
    (fun o (k : ι × φ) => if k.2 = o then (x k.1 : ℂ) else 0) bias re im grad
    (by convert hg using 1; funext o; rw [denseCall_eq]) (i, o)
  have hv : ∑ s, ((if o = s then (x i : ℂ) else 0) * (starRingEnd ℂ) (grad s))
      = (starRingEnd ℂ) (denseKernelJacobian (fun i => (x i : ℂ)) grad i o) := by
    simp [denseKernelJacobian]
  constructor
  · have h := key.1
    dsimp only at h
    rw [hv] at h
    convert h using 1
    · funext r; congr 1; funext o; rw [denseCall_eq]
    · rfl
  · have h := key.2
    dsimp only at h
    rw [hv] at h
    convert h using 1
    · funext r; congr 1; funext o; rw [denseCall_eq]
    · rfl

/-- **C75**, complex convolutions without dilation on real inputs. -/
theorem C75_complex_conv_partial {ι φ : Type*} [Fintype ι] [Fintype φ] [DecidableEq ι] [DecidableEq φ]
    {h w kh kw : ℕ}
    (loss : (Fin (validSize h kh 1) × Fin (validSize w kw 1) × φ → ℂ) → ℝ)
    (x : ℕ → ℕ → ι → ℝ) (re im : Fin kh × Fin kw × ι × φ → ℝ) (bias : φ → ℂ)
    (grad : Fin (validSize h kh 1) × Fin (validSize w kw 1) × φ → ℂ)
    (hg : ComplexGradientAt loss (fun s => convCall 1 1 (fun a b i o => complexWeight re im (a, b, i, o))
      bias (fun r c i => (x r c i : ℂ)) s.1 s.2.1 s.2.2) grad)
    (a : Fin kh) (b : Fin kw) (i : ι) (o : φ) :
    let jac := toRealParts fun k : Fin kh × Fin kw × ι × φ =>
      (convKernelJacobian h w (validSize h kh 1) (validSize w kw 1) 1 1 (fun r c i => (x r c i : ℂ))
        (unpack grad)).2 k.1 k.2.1 k.2.2.1 k.2.2.2
    EntryDeriv (fun r => loss fun s => convCall 1 1 (fun a b i o => complexWeight r im (a, b, i, o))
      bias (fun r c i => (x r c i : ℂ)) s.1 s.2.1 s.2.2) re (a, b, i, o) (jac.1 (a, b, i, o)) ∧
    EntryDeriv (fun m => loss fun s => convCall 1 1 (fun a b i o => complexWeight re m (a, b, i, o))
      bias (fun r c i => (x r c i : ℂ)) s.1 s.2.1 s.2.2) im (a, b, i, o) (jac.2 (a, b, i, o)) := by
  intro jac
  have key := entryDeriv_complexWeight (loss := loss)
    (fun s (k : Fin kh × Fin kw × ι × φ) =>
      if k.2.2.2 = s.2.2 then (x (s.1 + k.1 * 1) (s.2.1 + k.2.1 * 1) k.2.2.1 : ℂ) else 0)
    (fun s => bias s.2.2) re im grad
    (by convert hg using 1; funext s; rw [convCall_eq]) (a, b, i, o)
  have hv : ∑ s : Fin (validSize h kh 1) × Fin (validSize w kw 1) × φ,
      ((if o = s.2.2 then (x (s.1 + a * 1) (s.2.1 + b * 1) i : ℂ) else 0) * (starRingEnd ℂ) (grad s))
      = (starRingEnd ℂ) ((convKernelJacobian h w (validSize h kh 1) (validSize w kw 1) 1 1
          (fun r c i => (x r c i : ℂ)) (unpack grad)).2 a b i o) := by
    rw [convKernelJacobian_eq]
    simp only [Fintype.sum_prod_type, unpack_fin]
    simp [add_comm, mul_comm]
  constructor
  · have h := key.1
    dsimp only at h
    rw [hv] at h
    convert h using 1
    · funext r; congr 1; funext s; rw [convCall_eq]
    · rfl
  · have h := key.2
    dsimp only at h
    rw [hv] at h
    convert h using 1
    · funext r; congr 1; funext s; rw [convCall_eq]
    · rfl

/-- **C75**, biases of complex dense layers and convolutions, whatever the rest of the layer computes
(`rest`, e.g. the product with the kernel): each output cell `s` adds the bias of its channel. -/
theorem C75_complex_bias_partial {σ φ : Type*} [Fintype σ] [Fintype φ] [DecidableEq φ]
    (channel : σ → φ) (rest : σ → ℂ) (loss : (σ → ℂ) → ℝ) (re im : φ → ℝ) (grad : σ → ℂ)
    (hg : ComplexGradientAt loss (fun s => rest s + complexWeight re im (channel s)) grad) (o : φ) :
    let jac := toRealParts fun o => ∑ s, if channel s = o then grad s else 0
    EntryDeriv (fun r => loss fun s => rest s + complexWeight r im (channel s)) re o (jac.1 o) ∧
    EntryDeriv (fun m => loss fun s => rest s + complexWeight re m (channel s)) im o (jac.2 o) := by
  intro jac
  have hsum : ∀ r m : φ → ℝ, (fun s => ∑ k, (if channel s = k then (1 : ℂ) else 0) * complexWeight r m k
      + rest s) = fun s => rest s + complexWeight r m (channel s) := by
    intro r m; funext s; simp [add_comm]
  have key := entryDeriv_complexWeight (loss := loss)
    (fun s k => if channel s = k then (1 : ℂ) else 0) rest re im grad (by rw [hsum]; exact hg) o
  have hv : ∑ s, ((if channel s = o then (1 : ℂ) else 0) * (starRingEnd ℂ) (grad s))
      = (starRingEnd ℂ) (∑ s, if channel s = o then grad s else 0) := by
    rw [map_sum]
    refine Finset.sum_congr rfl fun s _ => ?_
    by_cases e : channel s = o <;> simp [e]
  simp only [hsum] at key
  rw [hv] at key
  exact key

/-- The sums of `C75_complex_bias_partial` are the arrays of the code: for dense layers the gradient
itself, for convolutions its sum over all positions. -/
theorem C75_bias_arrays {φ : Type*} [Fintype φ] [DecidableEq φ] {oh ow : ℕ} (dense : φ → ℂ)
    (conv : Fin oh × Fin ow × φ → ℂ) (o : φ) :
    denseBiasJacobian dense o = ∑ s, (if s = o then dense s else 0) ∧
    convBiasJacobian oh ow (unpack conv) o = ∑ s, if s.2.2 = o then conv s else 0 := by
  constructor
  · simp [denseBiasJacobian]
  · rw [convBiasJacobian_eq]
    simp only [Fintype.sum_prod_type, unpack_fin]
    simp

/-- **C75 is false of the code** for complex layers on complex inputs: for a dense layer with input `x`
the returned values are the derivatives for every loss exactly if the input is real. -/
theorem C75_violated_complex_iff {ι φ : Type*} [Fintype ι] [Fintype φ] [DecidableEq ι] [DecidableEq φ]
    [Nonempty φ] (x : ι → ℂ) (re im : ι × φ → ℝ) (bias : φ → ℂ) :
    (∀ (loss : (φ → ℂ) → ℝ) (grad : φ → ℂ),
      ComplexGradientAt loss (denseCall (fun i o => complexWeight re im (i, o)) bias x) grad →
      ∀ i o, EntryDeriv (fun m => loss (denseCall (fun i o => complexWeight re m (i, o)) bias x)) im (i, o)
        ((toRealParts fun k : ι × φ => denseKernelJacobian x grad k.1 k.2).2 (i, o)))
    ↔ ∀ i, (x i).im = 0 := by
  constructor
  · intro H i
    obtain ⟨o⟩ := ‹Nonempty φ›
    -- the loss is the real part of one output
    have hl : ComplexGradientAt (fun y : φ → ℂ => (y o).re)
        (denseCall (fun i o => complexWeight re im (i, o)) bias x) (fun s => if s = o then 1 else 0) := by
      unfold ComplexGradientAt
      have h := (Complex.reCLM.comp (ContinuousLinearMap.proj (R := ℝ) (φ := fun _ : φ => ℂ) o)).hasFDerivAt
        (x := denseCall (fun i o => complexWeight re im (i, o)) bias x)
      refine h.congr_fderiv ?_
      ext1 v
      simp only [ContinuousLinearMap.sum_apply]
      rw [Finset.sum_eq_single o]
      · simp
      · intro s _ hs
        simp [hs]
      · simp
    have h1 := H _ _ hl i o
    have h2 := (entryDeriv_complexWeight (loss := fun y : φ → ℂ => (y o).re)
      (fun o (k : ι × φ) => if k.2 = o then x k.1 else 0) bias re im _
      (by convert hl using 1; funext o; rw [denseCall_eq]) (i, o)).2
    have h1' : EntryDeriv (fun m => (fun y : φ → ℂ => (y o).re) fun s =>
        ∑ k : ι × φ, (if k.2 = s then x k.1 else 0) * complexWeight re m k + bias s) im (i, o)
        ((toRealParts fun k : ι × φ => denseKernelJacobian x
          (fun s => if s = o then (1 : ℂ) else 0) k.1 k.2).2 (i, o)) := by
      convert h1 using 1
      funext m
      dsimp only
      rw [denseCall_eq]
    have e := HasDerivAt.unique h1' h2
    simp [toRealParts, denseKernelJacobian] at e
    linarith
  · intro hx loss grad hg i o
    have hxr : x = fun i => (((x i).re : ℝ) : ℂ) := by
      funext i; exact Complex.ext (by simp) (by simp [hx i])
    rw [hxr] at hg ⊢
    exact (C75_complex_dense_partial loss (fun i => (x i).re) re im bias grad hg i o).2

/-- A witness in numbers: one weight `a - i b`, input `i`, loss the real part of the output, that is `b`.
The derivative with respect to `b` is one, the returned value is minus one. -/
theorem C75_violated_complex (a b : ℝ) :
    (toRealParts fun _ : Unit => denseKernelJacobian (fun _ : Unit => Complex.I)
      (fun _ : Unit => (1 : ℂ)) () ()).2 () = -1 ∧
    EntryDeriv (fun m => (denseCall (fun _ _ => complexWeight (fun _ : Unit => a) m ()) (fun _ : Unit => 0)
      (fun _ : Unit => Complex.I) ()).re) (fun _ => b) () 1 := by
  refine ⟨by simp [toRealParts, denseKernelJacobian], ?_⟩
  unfold EntryDeriv
  have h : (fun t : ℝ => (denseCall (fun _ _ => complexWeight (fun _ : Unit => a)
      (setEntry (fun _ => b) () t) ()) (fun _ : Unit => 0) (fun _ : Unit => Complex.I) ()).re)
      = fun t => t := by
    funext t
    simp [denseCall, complexWeight, setEntry]
  rw [h]
  exact hasDerivAt_id b

/-! ## Dilated convolutions -/

/-- **C75 is false of the code** for dilated convolutions: along an axis the returned array does not even
have the size of the kernel, unless the output happens to be as long as the kernel. -/
theorem C75_violated_dilation_shape {h kh d : ℕ} (hd : 1 < d) (hkh : 0 < kh) (hh : (kh - 1) * d < h) :
    patchesSize h (validSize h kh d) d = kh ↔ validSize h kh d = kh := by
  unfold patchesSize validSize
  obtain ⟨o, rfl⟩ : ∃ o, h = o + 1 + (kh - 1) * d := ⟨h - (kh - 1) * d - 1, by omega⟩
  obtain ⟨k, rfl⟩ : ∃ k, kh = k + 1 := ⟨kh - 1, by omega⟩
  obtain ⟨e, rfl⟩ : ∃ e, d = e + 2 := ⟨d - 2, by omega⟩
  simp only [Nat.add_sub_cancel]
  constructor
  · intro H
    by_contra hne
    rcases Nat.lt_or_ge o k with hlt | hge
    · obtain ⟨m, rfl⟩ : ∃ m, k = o + m + 1 := ⟨k - o - 1, by omega⟩
      have h1 : (o + m + 1) * (e + 2) = o * (e + 2) + (m + 1) * (e + 2) := by ring
      have h2 : (m + 1) * (e + 2) = (m + 1) * e + 2 * m + 2 := by ring
      omega
    · obtain ⟨m, rfl⟩ : ∃ m, o = k + m := ⟨o - k, by omega⟩
      have h1 : (k + m) * (e + 2) = k * (e + 2) + (m * e + 2 * m) := by ring
      have h2 : m ≠ 0 := by omega
      omega
  · intro H
    have : o = k := by omega
    subst this
    omega

/-- And if the shapes agree the values are wrong: kernel size, dilation and output length two, and a
loss that is the first output.  The entry for the second kernel cell should be the third input, the code
returns the second. -/
theorem C75_violated_dilation :
    ∃ (x : ℕ → Unit → ℝ) (kernel : Fin 2 × Unit × Unit → ℝ)
      (loss : (Fin (validSize 4 2 2) × Fin 1 × Unit → ℝ) → ℝ)
      (grad : Fin (validSize 4 2 2) × Fin 1 × Unit → ℝ),
      GradientAt loss (fun s => conv1dCall 2 (fun a i o => kernel (a, i, o)) (fun _ => 0) x s.1 s.2.2)
        grad ∧
      (conv1dKernelJacobian 4 (validSize 4 2 2) 2 x (fun p o => unpack grad p 0 o)).1 = 2 ∧
      ¬ EntryDeriv (fun k => loss fun s => conv1dCall 2 (fun a i o => k (a, i, o)) (fun _ => 0) x s.1 s.2.2)
        kernel (1, (), ())
        ((conv1dKernelJacobian 4 (validSize 4 2 2) 2 x (fun p o => unpack grad p 0 o)).2 1 () ()) := by
  refine ⟨fun p _ => if p = 1 then 1 else 0, fun _ => 0,
    fun y => y (⟨0, by decide⟩, 0, ()), fun s => if s = (⟨0, by decide⟩, 0, ()) then 1 else 0, ?_, by decide,
    ?_⟩
  · unfold GradientAt
    have h := (ContinuousLinearMap.proj (R := ℝ)
      (φ := fun _ : Fin (validSize 4 2 2) × Fin 1 × Unit => ℝ) (⟨0, by decide⟩, 0, ())).hasFDerivAt
      (x := fun s => conv1dCall 2 (fun a i o => (fun _ : Fin 2 × Unit × Unit => (0 : ℝ)) (a, i, o))
        (fun _ => 0) (fun p _ => if p = 1 then 1 else 0) s.1 s.2.2)
    refine h.congr_fderiv ?_
    ext1 v
    simp [ContinuousLinearMap.sum_apply]
  · intro H
    unfold EntryDeriv at H
    have hz : (fun t : ℝ => (fun y : Fin (validSize 4 2 2) × Fin 1 × Unit → ℝ =>
        y (⟨0, by decide⟩, 0, ())) fun s => conv1dCall 2 (fun a i o =>
          setEntry (fun _ : Fin 2 × Unit × Unit => (0 : ℝ)) (1, (), ()) t (a, i, o)) (fun _ => 0)
          (fun p _ => if p = 1 then (1 : ℝ) else 0) s.1 s.2.2) = fun _ => 0 := by
      funext t
      simp [conv1dCall, setEntry, Fin.sum_univ_two]
    rw [hz] at H
    have e := H.unique (hasDerivAt_const _ _)
    have hs : validSize 4 2 2 = 2 := rfl
    have hv : (conv1dKernelJacobian 4 (validSize 4 2 2) 2
        (fun p (_ : Unit) => if p = 1 then (1 : ℝ) else 0) (fun p (o : Unit) => unpack (fun s :
          Fin (validSize 4 2 2) × Fin 1 × Unit => if s = (⟨0, by decide⟩, 0, ()) then (1 : ℝ) else 0) p 0 o)).2
          1 () () = 1 := by
      simp [conv1dKernelJacobian, convKernelJacobian, hs, Finset.sum_range_succ, flatGrad, imagePatch,
        unpack]
    rw [hv] at e
    exact one_ne_zero e

/-! ## Unsupported layers -/

/-- The layers for which the formulas above are the derivative: dense layers and convolutions of the six
registered classes, without activation, the convolutions with padding `valid` and stride one. -/
def Handled (l : LayerInfo) : Prop :=
  l.kind ≠ .other ∧ l.linear = true ∧
    (l.kind ∈ [.conv1D, .complexConv1D, .conv2D, .complexConv2D] → l.paddingValid = true ∧ l.stridesOne = true)

theorem supported_iff (l : LayerInfo) : l.supported = some () ↔ Handled l := by
  obtain ⟨kind, hasParams, linear, paddingValid, stridesOne⟩ := l
  unfold LayerInfo.supported Handled
  cases kind <;> cases linear <;> cases paddingValid <;> cases stridesOne <;> simp

open Classical in
/-- Layers that are not handled are never skipped silently: an answer is returned exactly if every layer
with parameters is handled, and it lists the arrays of all these layers in the order of the model. -/
theorem C75_unsupported {α : Type*} (arrays : LayerInfo → List α) (layers : List LayerInfo) :
    gradientPerExample arrays layers
      = if ∀ l ∈ layers, l.hasParams = true → Handled l
        then some ((layers.filter (·.hasParams)).flatMap arrays) else none := by
  simp only [← supported_iff]
  induction layers with
  | nil => simp [gradientPerExample]
  | cons l rest ih =>
    unfold gradientPerExample
    by_cases hp : l.hasParams = true
    · rw [if_pos hp]
      cases hs : l.supported with
      | none =>
        rw [if_neg]
        intro H
        have := H l (by simp) hp
        rw [hs] at this
        cases this
      | some u =>
        cases u
        rw [ih]
        by_cases hr : ∀ l ∈ rest, l.hasParams = true → l.supported = some ()
        · rw [if_pos hr, if_pos]
          · simp [hp]
          · intro l' hl' hp'
            rcases List.mem_cons.1 hl' with rfl | h'
            · exact hs
            · exact hr _ h' hp'
        · rw [if_neg hr, if_neg]
          · rfl
          · exact fun H => hr fun l' h' => H l' (List.mem_cons_of_mem _ h')
    · rw [if_neg hp, ih]
      congr 1
      · simp [hp]
      · simp [hp]

/-! ## The hypotheses can be met -/

/-- Two layers: a dense layer and one without parameters. -/
example : gradientPerExample (fun _ => ["kernel", "bias"])
    [⟨.other, false, true, true, true⟩, ⟨.dense, true, true, true, true⟩] = some ["kernel", "bias"] := by
  decide

/-- A wrapped layer raises. -/
example : gradientPerExample (fun _ => ["kernel"]) [⟨.other, true, true, true, true⟩] = none := by decide

/-- A loss with its gradient at the output of a dense layer: the product of two outputs. -/
example (x : Fin 2 → ℝ) (kernel : Fin 2 × Fin 2 → ℝ) (bias : Fin 2 → ℝ) :
    GradientAt (fun y : Fin 2 → ℝ => y 0 * y 1) (denseCall (fun i o => kernel (i, o)) bias x)
      (fun s => if s = 0 then denseCall (fun i o => kernel (i, o)) bias x 1
        else denseCall (fun i o => kernel (i, o)) bias x 0) := by
  unfold GradientAt
  have h0 := (ContinuousLinearMap.proj (R := ℝ) (φ := fun _ : Fin 2 => ℝ) 0).hasFDerivAt
    (x := denseCall (fun i o => kernel (i, o)) bias x)
  have h1 := (ContinuousLinearMap.proj (R := ℝ) (φ := fun _ : Fin 2 => ℝ) 1).hasFDerivAt
    (x := denseCall (fun i o => kernel (i, o)) bias x)
  refine (h0.mul h1).congr_fderiv ?_
  ext1 v
  simp [Fin.sum_univ_two]
  ring

end Verif.Jacobian
