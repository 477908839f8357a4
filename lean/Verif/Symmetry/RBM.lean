import Verif.Symmetry.Translation
import Mathlib.Analysis.Complex.Trigonometric
import Mathlib.Algebra.BigOperators.Ring.List

/-!
# C58, C70, C71: restricted Boltzmann machines

Model of `src/flowket/machines/rbm.py`, of the layers in `src/flowket/layers/complex/dense.py` and of `lncosh` in
`src/flowket/layers/complex/tensorflow_ops.py`, in exact arithmetic with a logarithm of zero.
-/
namespace Verif.RBM

open Verif.Operators (Config)
open Verif.Ensemble

/-! ### Model -/

/-- Addition of complex logarithms. -/
noncomputable def add (x y : LogAmp) : LogAmp := ⟨match x.re, y.re with | some a, some b => some (a + b) | _, _ => none, x.im + y.im⟩

/-- A complex number as the value of a tensor that is a logarithm. -/
def ofComplex (z : ℂ) : LogAmp := ⟨some z.re, z.im⟩

/-- `reduce_sum(t, axis=-1)`. -/
noncomputable def reduceSum (l : List LogAmp) : LogAmp := l.foldr add ⟨some 0, 0⟩

/-- `lncosh` (tensorflow_ops.py lines 79-85) with the exponential function it calls as an argument. -/
noncomputable def lncoshWith (expo : ℂ → ℂ) (z : ℂ) : LogAmp :=
  let absZ : ℝ := |z.re|
  add (ofComplex ((absZ : ℂ) - (Real.log 2 : ℂ))) (complexLog (expo (z - absZ) + expo (-z - absZ)))

/-- `lncosh` (tensorflow_ops.py lines 79-85). -/
noncomputable def lncosh (z : ℂ) : LogAmp := lncoshWith Complex.exp z

/-- `K.dot(inputs, kernel)` (dense.py line 47) for one row of `m` outputs: the combination of the rows of the kernel
with the inputs as coefficients. -/
def dot (m : Nat) (x : List ℂ) (kernel : List (List ℂ)) : List ℂ :=
  (x.zip kernel).foldr (fun e acc => List.zipWith (· + ·) (e.2.map (e.1 * ·)) acc) (List.replicate m 0)

/-- `K.bias_add`. -/
def biasAdd (x bias : List ℂ) : List ℂ := List.zipWith (· + ·) x bias

/-- `ComplexLayer.add_complex_weight` (base_layer.py lines 18-35): the complex weight made of the two real variables; the
sign of the imaginary part is reversed. -/
noncomputable def complexWeight (real imag : ℝ) : ℂ := ⟨real, imag * -1⟩

variable {D : Nat} {shape : Fin D → Nat}

/-- `Flatten` or `reshape` to one axis: raster order of the sites. -/
def flatten {α : Type} (x : Lattice shape → α) : List α := (productRange shape).map x

/-- Kernel of `TranslationInvariantComplexDense` (dense.py lines 67-71): the rolled bare kernels, stacked along the last
axis and reshaped to a matrix; rows are sites, columns run over units and then translations. -/
def symKernel {units : Nat} (bare : Lattice shape → Fin units → ℂ) : List (List ℂ) :=
  flatten fun p => (List.finRange units).flatMap fun u => (productRange shape).map fun t => bare (fun d => rollIndex (t d) (p d)) u

/-- Its bias (dense.py line 79). -/
def symBias (shape : Fin D → Nat) {units : Nat} (bare : Fin units → ℂ) : List ℂ :=
  (List.finRange units).flatMap fun u => List.replicate (productRange shape).length (bare u)

/-- `RBMSym.build_predictions` (rbm.py lines 53-66) on one configuration. -/
noncomputable def rbmSym {alpha : Nat} (kernelRe kernelIm : Lattice shape → Fin alpha → ℝ) (biasRe biasIm : Fin alpha → ℝ)
    (visibleRe visibleIm : ℝ) (x : Config (Lattice shape)) : LogAmp :=
  let input : List ℂ := flatten fun p => (x p : ℂ)
  let kernel := symKernel fun p u => complexWeight (kernelRe p u) (kernelIm p u)
  let bias := symBias shape fun u => complexWeight (biasRe u) (biasIm u)
  let lnthetas := (biasAdd (dot (alpha * (productRange shape).length) input kernel) bias).map lncosh
  let v := dot 1 [input.sum] [[complexWeight visibleRe visibleIm]]
  add (reduceSum (v.map ofComplex)) (reduceSum lnthetas)

/-- `RBM.build_predictions` (rbm.py lines 36-49) on one configuration of `n` sites; `hidden` is the number of hidden
units, `alpha` times the number of sites. -/
noncomputable def rbm {alpha : Nat} (kernelRe kernelIm : Lattice shape → Fin (alpha * (productRange shape).length) → ℝ)
    (biasRe biasIm : Fin (alpha * (productRange shape).length) → ℝ) (visibleRe visibleIm : Lattice shape → ℝ)
    (x : Config (Lattice shape)) : LogAmp :=
  let input : List ℂ := flatten fun p => (x p : ℂ)
  let hidden := List.finRange (alpha * (productRange shape).length)
  let kernel := flatten fun p => hidden.map fun h => complexWeight (kernelRe p h) (kernelIm p h)
  let bias := hidden.map fun h => complexWeight (biasRe h) (biasIm h)
  let lnthetas := (biasAdd (dot (alpha * (productRange shape).length) input kernel) bias).map lncosh
  let v := dot 1 input (flatten fun p => [complexWeight (visibleRe p) (visibleIm p)])
  add (reduceSum (v.map ofComplex)) (reduceSum lnthetas)

/-! ### Logarithms -/

theorem exp_add (x y : LogAmp) : (add x y).exp = x.exp * y.exp := by
  obtain ⟨xr, xi⟩ := x
  obtain ⟨yr, yi⟩ := y
  unfold LogAmp.exp add
  cases xr <;> cases yr <;> simp [expReal, Real.exp_add, Complex.exp_add, add_mul]
  ring

theorem exp_ofComplex (z : ℂ) : (ofComplex z).exp = Complex.exp z := by
  unfold LogAmp.exp ofComplex expReal
  rw [Complex.ofReal_exp, ← Complex.exp_add, Complex.re_add_im]

theorem exp_reduceSum (l : List LogAmp) : (reduceSum l).exp = (l.map LogAmp.exp).prod := by
  induction l with
  | nil => simp [reduceSum, LogAmp.exp, expReal]
  | cons a l ih =>
    rw [List.map_cons, List.prod_cons, ← ih, ← exp_add]
    rfl

theorem exp_complexLog (z : ℂ) : (complexLog z).exp = z := by
  unfold LogAmp.exp complexLog logReal angle
  dsimp only
  by_cases h : z = 0
  · simp [h, expReal]
  · rw [if_neg (by simpa using h)]
    show ((Real.exp (Real.log ‖z‖) : ℝ) : ℂ) * _ = z
    rw [Real.exp_log (by simpa using h), Complex.norm_mul_exp_arg_mul_I]

/-- **C70.** The exponential of `lncosh` is the hyperbolic cosine, for every complex number (where the cosine is zero the
result is minus infinity), and no exponential taken on the way exceeds one in absolute value: with any exponential function
in place of the true one that is only right where the true one is at most one in size (one that overflows elsewhere, say),
the result is the same. -/
theorem C70_lncosh (z : ℂ) :
    (lncosh z).exp = Complex.cosh z ∧ ((lncosh z).re = none ↔ Complex.cosh z = 0) ∧
    ∀ expo : ℂ → ℂ, (∀ w, ‖Complex.exp w‖ ≤ 1 → expo w = Complex.exp w) → lncoshWith expo z = lncosh z := by
  have h1 : (lncosh z).exp = Complex.cosh z := by
    unfold lncosh lncoshWith
    dsimp only
    rw [exp_add, exp_ofComplex, exp_complexLog, Complex.exp_sub, ← Complex.ofReal_exp (Real.log 2), Real.exp_log (by norm_num), Complex.cosh,
      Complex.exp_sub, Complex.exp_sub]
    have := Complex.exp_ne_zero ((|z.re| : ℝ) : ℂ)
    push_cast
    field_simp
  have hre : (lncosh z).re = none ↔ (lncosh z).exp = 0 := by
    unfold LogAmp.exp
    cases h : (lncosh z).re with
    | none => simp [expReal]
    | some r => simp [expReal, Real.exp_ne_zero, Complex.exp_ne_zero]
  refine ⟨h1, by rw [hre, h1], fun expo hexpo => ?_⟩
  unfold lncosh lncoshWith
  dsimp only
  rw [hexpo, hexpo]
  · rw [Complex.norm_exp, Real.exp_le_one_iff, Complex.sub_re, Complex.neg_re, Complex.ofReal_re]
    linarith [neg_abs_le z.re]
  · rw [Complex.norm_exp, Real.exp_le_one_iff, Complex.sub_re, Complex.ofReal_re]
    linarith [le_abs_self z.re]

/-- Meeting the hypothesis of the last clause: a function that overflows to zero above size one. -/
example : ∃ expo : ℂ → ℂ, (∀ w, ‖Complex.exp w‖ ≤ 1 → expo w = Complex.exp w) ∧ expo 1 ≠ Complex.exp 1 := by
  classical
  refine ⟨fun w => if ‖Complex.exp w‖ ≤ 1 then Complex.exp w else 0, fun w hw => if_pos hw, ?_⟩
  have h : ¬ ‖Complex.exp 1‖ ≤ 1 := by
    rw [Complex.norm_exp, Real.exp_le_one_iff]
    norm_num
  simp only [if_neg h]
  exact (Complex.exp_ne_zero 1).symm

/-! ### Layers -/

theorem zipWith_map_same {α : Type} (cols : List α) (f g : α → ℂ) :
    List.zipWith (· + ·) (cols.map f) (cols.map g) = cols.map fun c => f c + g c := by
  induction cols with
  | nil => rfl
  | cons c cols ih => simp only [List.map_cons, List.zipWith_cons_cons, ih]

/-- The kernel given by a function of rows and columns: the outputs are the sums of products. -/
theorem dot_eq {α σ : Type} (cols : List α) (sites : List σ) (x : σ → ℂ) (w : σ → α → ℂ) {m : Nat} (hm : m = cols.length) :
    dot m (sites.map x) (sites.map fun p => cols.map (w p)) = cols.map fun c => (sites.map fun p => x p * w p c).sum := by
  unfold dot
  induction sites with
  | nil =>
    simp only [List.map_nil, List.zip_nil_left, List.foldr_nil, List.sum_nil, List.map_const']
    rw [hm]
  | cons p sites ih =>
    simp only [List.map_cons, List.zip_cons_cons, List.foldr_cons, List.sum_cons]
    rw [ih, List.map_map]
    exact zipWith_map_same cols _ _

theorem flatMap_replicate {α β γ : Type} (us : List α) (ts : List β) (b : α → γ) :
    (us.flatMap fun u => List.replicate ts.length (b u)) = (us.flatMap fun u => ts.map fun t => (u, t)).map fun e => b e.1 := by
  rw [List.map_flatMap]
  congr 1
  funext u
  rw [List.map_map]
  exact List.map_const'.symm

theorem flatMap_pairs {α β γ : Type} (us : List α) (ts : List β) (b : α → β → γ) :
    (us.flatMap fun u => ts.map fun t => b u t) = (us.flatMap fun u => ts.map fun t => (u, t)).map fun e => b e.1 e.2 := by
  rw [List.map_flatMap]
  congr 1
  funext u
  rw [List.map_map]
  rfl

theorem length_pairs {α β : Type} (us : List α) (ts : List β) : us.length * ts.length = (us.flatMap fun u => ts.map fun t => (u, t)).length := by
  induction us with
  | nil => simp
  | cons u us ih => rw [List.flatMap_cons, List.length_append, List.length_map, ← ih, List.length_cons, Nat.add_mul, Nat.one_mul, Nat.add_comm]

/-- Sum over the sites. -/
theorem sum_flatten (f : Lattice shape → ℂ) : ((productRange shape).map f).sum = ∑ p, f p := by
  rw [← List.sum_toFinset f (nodup_productRange shape)]
  congr 1
  ext p
  simp [mem_productRange]

theorem prod_flatten (f : Lattice shape → ℂ) : ((productRange shape).map f).prod = ∏ p, f p := by
  rw [← List.prod_toFinset f (nodup_productRange shape)]
  congr 1
  ext p
  simp [mem_productRange]

theorem prod_flatMap {α : Type} (l : List α) (f : α → List ℂ) : (l.flatMap f).prod = (l.map fun a => (f a).prod).prod := by
  induction l with
  | nil => rfl
  | cons a l ih => rw [List.flatMap_cons, List.prod_append, ih, List.map_cons, List.prod_cons]

/-- The hidden units of the symmetric machine. -/
theorem sym_thetas {alpha : Nat} (w : Lattice shape → Fin alpha → ℂ) (b : Fin alpha → ℂ) (x : Config (Lattice shape)) :
    biasAdd (dot (alpha * (productRange shape).length) (flatten fun p => (x p : ℂ)) (symKernel w)) (symBias shape b) =
    (List.finRange alpha).flatMap fun u => (productRange shape).map fun t =>
      (∑ p, (x p : ℂ) * w (fun d => rollIndex (t d) (p d)) u) + b u := by
  have hk : symKernel w = (productRange shape).map fun p =>
      ((List.finRange alpha).flatMap fun u => (productRange shape).map fun t => (u, t)).map fun e => w (fun d => rollIndex (e.2 d) (p d)) e.1 := by
    unfold symKernel flatten
    congr 1
    funext p
    exact flatMap_pairs _ _ _
  unfold biasAdd symBias
  rw [hk, flatMap_replicate]
  unfold flatten
  rw [dot_eq _ _ _ _ (by rw [← length_pairs, List.length_finRange]), zipWith_map_same]
  rw [flatMap_pairs (List.finRange alpha) (productRange shape)
    fun u t => (∑ p, (x p : ℂ) * w (fun d => rollIndex (t d) (p d)) u) + b u]
  simp only [sum_flatten]

/-- **C71 (symmetric machine).** The amplitude is the textbook one of a restricted Boltzmann machine whose hidden units
come in `alpha` families, each made of all translations of one filter: `exp(a Σ x) ∏_u ∏_t cosh(b_u + Σ_p x_p w_u(p - t))`. -/
theorem C71_sym {alpha : Nat} (kr ki : Lattice shape → Fin alpha → ℝ) (br bi : Fin alpha → ℝ) (vr vi : ℝ) (x : Config (Lattice shape)) :
    (rbmSym kr ki br bi vr vi x).exp = Complex.exp ((⟨vr, -vi⟩ : ℂ) * ∑ p, (x p : ℂ)) *
      ∏ u, ∏ t : Lattice shape, Complex.cosh ((⟨br u, -bi u⟩ : ℂ) +
        ∑ p, (x p : ℂ) * (⟨kr (fun d => rollIndex (t d) (p d)) u, -ki (fun d => rollIndex (t d) (p d)) u⟩ : ℂ)) := by
  unfold rbmSym
  dsimp only
  rw [exp_add, exp_reduceSum, exp_reduceSum, sym_thetas]
  congr 1
  · unfold dot flatten
    rw [sum_flatten]
    simp [exp_ofComplex, complexWeight, mul_comm]
  · rw [List.map_map, List.map_flatMap, prod_flatMap, Fin.prod_univ_def]
    congr 1
    refine List.map_congr_left fun u _ => ?_
    rw [List.map_map, prod_flatten]
    refine Finset.prod_congr rfl fun t _ => ?_
    show (lncosh _).exp = _
    rw [(C70_lncosh _).1, add_comm]
    simp [complexWeight]

/-- **C71.** The amplitude of the machine without symmetry is `exp(Σ a_p x_p) ∏_h cosh(b_h + Σ_p x_p w_{p,h})`. -/
theorem C71_rbm {alpha : Nat} (kr ki : Lattice shape → Fin (alpha * (productRange shape).length) → ℝ)
    (br bi : Fin (alpha * (productRange shape).length) → ℝ) (vr vi : Lattice shape → ℝ) (x : Config (Lattice shape)) :
    (rbm kr ki br bi vr vi x).exp = Complex.exp (∑ p, (⟨vr p, -vi p⟩ : ℂ) * (x p : ℂ)) *
      ∏ h, Complex.cosh ((⟨br h, -bi h⟩ : ℂ) + ∑ p, (x p : ℂ) * (⟨kr p h, -ki p h⟩ : ℂ)) := by
  unfold rbm
  dsimp only
  rw [exp_add, exp_reduceSum, exp_reduceSum]
  congr 1
  · have := dot_eq (m := 1) [()] (productRange shape) (fun p => (x p : ℂ)) (fun p _ => complexWeight (vr p) (vi p)) rfl
    simp only [List.map_cons, List.map_nil] at this
    unfold flatten
    rw [this, sum_flatten]
    simp [exp_ofComplex, complexWeight, mul_comm]
  · unfold flatten biasAdd
    rw [dot_eq _ _ _ _ (by rw [List.length_finRange]), zipWith_map_same, List.map_map, List.map_map, Fin.prod_univ_def]
    congr 1
    refine List.map_congr_left fun h _ => ?_
    show (lncosh _).exp = _
    rw [(C70_lncosh _).1, add_comm]
    dsimp only
    rw [sum_flatten]
    simp [complexWeight]

/-! ### C58 -/

theorem rollIndex_shift {m : Nat} (a : Nat) (t i : Fin m) : rollIndex t (shift a i) = rollIndex (unshift a t) i := by
  have h1 : rollIndex t (shift a i) = shift a (rollIndex t i) := by
    apply Fin.ext
    show ((i.val + a) % m + (m - t.val)) % m = ((i.val + (m - t.val)) % m + a) % m
    rw [Nat.mod_add_mod, Nat.mod_add_mod, Nat.add_right_comm]
  have h2 := rollIndex_unshift a (unshift a t) i
  rw [shift_unshift] at h2
  rw [h1, ← h2, shift_unshift]

theorem sum_translation {x y : Config (Lattice shape)} {a : Fin D → Nat} (h : IsTranslation a x y) (f : Lattice shape → ℂ) :
    ∑ p, (y p : ℂ) * f p = ∑ p, (x p : ℂ) * f fun d => shift (a d) (p d) := by
  rw [h.eq]
  refine Fintype.sum_equiv ⟨fun p d => unshift (a d) (p d), fun p d => shift (a d) (p d), fun p => funext fun d => shift_unshift _ _,
    fun p => funext fun d => unshift_shift _ _⟩ _ _ fun p => ?_
  dsimp only [Equiv.coe_fn_mk]
  congr 2
  funext d
  exact (shift_unshift _ _).symm

/-- Addition of logarithms is commutative and associative, so sums may be reordered. -/
theorem reduceSum_perm {l l' : List LogAmp} (h : l.Perm l') : reduceSum l = reduceSum l' := by
  refine h.foldr_eq' ?_ _
  rintro ⟨x, xi⟩ - ⟨y, yi⟩ - ⟨z, zi⟩
  unfold add
  cases x <;> cases y <;> cases z <;> simp [add_left_comm]

/-- **C58.** On a lattice with any number of axes of any sizes, for every number of filters and all weights, `RBMSym` gives
a configuration and all its translations the same value. -/
theorem C58_invariant {alpha : Nat} (kr ki : Lattice shape → Fin alpha → ℝ) (br bi : Fin alpha → ℝ) (vr vi : ℝ)
    (x y : Config (Lattice shape)) (a : Fin D → Nat) (h : IsTranslation a x y) :
    rbmSym kr ki br bi vr vi y = rbmSym kr ki br bi vr vi x := by
  have hv : (flatten fun p => (y p : ℂ)).sum = (flatten fun p => (x p : ℂ)).sum := by
    unfold flatten
    rw [sum_flatten, sum_flatten]
    have := sum_translation h fun _ => 1
    simpa using this
  unfold rbmSym
  dsimp only
  rw [hv, sym_thetas, sym_thetas]
  congr 1
  apply reduceSum_perm
  refine List.Perm.map _ ?_
  refine List.Perm.flatMap_left _ fun u _ => ?_
  simp only [sum_translation h, rollIndex_shift]
  have := (productRange_perm (shape := shape) (fun t d => unshift (a d) (t d)) (fun t d => shift (a d) (t d))
    (fun t => funext fun d => unshift_shift _ _) (fun t => funext fun d => shift_unshift _ _)).map fun t =>
      (∑ p, (x p : ℂ) * complexWeight (kr (fun d => rollIndex (t d) (p d)) u) (ki (fun d => rollIndex (t d) (p d)) u)) +
        complexWeight (br u) (bi u)
  rw [List.map_map] at this
  exact this

/-- The machine is not constant: on two sites with one filter, flipping one spin changes the value. -/
example : ∃ (kr ki : Lattice (D := 1) (fun _ => 2) → Fin 1 → ℝ) (br bi : Fin 1 → ℝ) (vr vi : ℝ) (x y : Config (Lattice (D := 1) fun _ => 2)),
    (rbmSym kr ki br bi vr vi x).exp ≠ (rbmSym kr ki br bi vr vi y).exp := by
  refine ⟨fun _ _ => 0, fun _ _ => 0, fun _ => 0, fun _ => 0, 1, 0, fun _ => 1, fun p => if p 0 = 0 then 1 else -1, ?_⟩
  rw [C71_sym, C71_sym]
  have h1 : ∑ p : Lattice (D := 1) fun _ => 2, (((1 : ℤ) : ℤ) : ℂ) = 2 := by simp
  have h2 : ∑ p : Lattice (D := 1) fun _ => 2, (((if p 0 = 0 then 1 else -1 : ℤ)) : ℂ) = 0 := by
    have : ∑ p : Lattice (D := 1) fun _ => 2, (if p 0 = 0 then 1 else -1 : ℤ) = 0 := by decide
    exact_mod_cast this
  rw [h1, h2]
  have hz : (⟨0, -0⟩ : ℂ) = 0 := by apply Complex.ext <;> simp
  simp only [hz, mul_zero, Finset.sum_const_zero, add_zero, Complex.cosh_zero, Finset.prod_const_one, mul_one, Complex.exp_zero]
  have h1' : (⟨1, -0⟩ : ℂ) = 1 := by apply Complex.ext <;> simp
  rw [h1', one_mul]
  intro h
  have := congrArg (fun z => ‖z‖) h
  simp [Complex.norm_exp] at this

end Verif.RBM
