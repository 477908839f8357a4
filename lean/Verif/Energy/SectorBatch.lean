import Verif.Energy.LargeBatch

/-!
Monte Carlo training on a part of the configurations (the configurations of one magnetisation): the statements of C136 with
the wave function restricted to that part, for C139.
-/
namespace Verif.Energy

open Verif.Operators Filter Topology

variable {ι : Type} [DecidableEq ι] [Fintype ι]

/-! ### Specification -/

/-- Probability of a configuration under `|ψ|²` restricted to `F`. -/
noncomputable def bornOn (F : Finset (Config ι)) (logψ : Config ι → ℂ) (s : Config ι) : ℝ :=
  ‖Complex.exp (logψ s)‖ ^ 2 / ∑ t ∈ F, ‖Complex.exp (logψ t)‖ ^ 2

/-- `R'` restricts wave functions to `F`, and `H` does not lead out of `F`. -/
structure Part (H : Wave ι → Wave ι) (F : Finset (Config ι)) (R' : Wave ι → Wave ι) : Prop where
  nonempty : F.Nonempty
  spins : F ⊆ allSpins ι
  keep : ∀ ψ, ∀ s ∈ F, R' ψ s = ψ s
  zero : ∀ ψ, ∀ s ∈ allSpins ι, s ∉ F → R' ψ s = 0
  closed : ∀ ψ, ∀ s ∈ F, H (R' ψ) s = H ψ s

/-- Variance of the local energy over `F`. -/
noncomputable def localVarianceOn (F : Finset (Config ι)) (H : Wave ι → Wave ι) (logψ : Config ι → ℂ) : ℝ :=
  ∑ s ∈ F, bornOn F logψ s * ((localEnergy H logψ s).re - ∑ t ∈ F, bornOn F logψ t * (localEnergy H logψ t).re) ^ 2

/-- `ExactInTheLimit` with the wave function restricted to `F`. -/
def ExactOnPart (H : Wave ι → Wave ι) (F : Finset (Config ι)) (R' : Wave ι → Wave ι)
    (est : (B : Nat) → (Config ι → ℂ) → (Fin B → Config ι) → Option (ℂ × ℝ × List ℂ))
    (targets : (B : Nat) → (Config ι → ℂ) → (Fin B → Config ι) → Option (List ℂ)) : Prop :=
  ∀ (K : Type) [Fintype K] [DecidableEq K] (net : (K → ℝ) → Config ι → ℂ) (θ : K → ℝ) (D : K → Config ι → ℂ),
    (∀ k s, IsSpin s → HasDerivAt (fun t => net (Function.update θ k t) s) (D k s) (θ k)) →
    ∃ grad : K → ℝ,
      (∀ k, HasDerivAt (fun t => (rayleigh H (R' fun s => Complex.exp (net (Function.update θ k t) s))).re) (grad k) (θ k)) ∧
      ∀ src : Source (Config ι), src.Draws (F) (bornOn F (net θ)) → ∀ ε, 0 < ε → src.InTheLimit fun B sample =>
        ∃ e v lv c, est B (net θ) sample = some (e, v, lv) ∧ targets B (net θ) sample = some c ∧ c.length = B ∧
          ‖e - rayleigh H (R' fun s => Complex.exp (net θ s))‖ < ε ∧ |v - localVarianceOn F H (net θ)| < ε ∧
          ∀ k, ∃ g, HasDerivAt (fun t => ∑ b : Fin B, Exact.loss (c.getD b 0) (net (Function.update θ k t) (sample b))) g (θ k) ∧
            |g - grad k| < ε

/-! ### The energy and its derivative -/

omit [DecidableEq ι] [Fintype ι] in
theorem norm_pos_on {F : Finset (Config ι)} (hF : F.Nonempty) (logψ : Config ι → ℂ) : 0 < ∑ t ∈ F, ‖Complex.exp (logψ t)‖ ^ 2 := by
  refine Finset.sum_pos (fun t _ => ?_) hF
  have := Complex.exp_ne_zero (logψ t)
  positivity

theorem Part.pos {H : Wave ι → Wave ι} {F : Finset (Config ι)} {R' : Wave ι → Wave ι} (hp : Part H F R') (logψ : Config ι → ℂ) :
    0 < ∑ t ∈ F, ‖Complex.exp (logψ t)‖ ^ 2 := norm_pos_on hp.nonempty logψ

theorem rayleigh_part {H : Wave ι → Wave ι} {F : Finset (Config ι)} {R' : Wave ι → Wave ι} (hp : Part H F R') (ψ : Wave ι) :
    rayleigh H (R' ψ) = (∑ s ∈ F, (starRingEnd ℂ) (ψ s) * H ψ s) / ∑ s ∈ F, (starRingEnd ℂ) (ψ s) * ψ s := by
  unfold rayleigh
  rw [← Finset.sum_subset hp.spins fun t h1 h2 => by rw [hp.zero _ _ h1 h2, map_zero, zero_mul],
    ← Finset.sum_subset hp.spins fun t h1 h2 => by rw [hp.zero _ _ h1 h2, map_zero, zero_mul]]
  congr 1
  · exact Finset.sum_congr rfl fun s hs => by rw [hp.keep _ _ hs, hp.closed _ _ hs]
  · exact Finset.sum_congr rfl fun s hs => by rw [hp.keep _ _ hs]

theorem rayleigh_bornOn {H : Wave ι → Wave ι} {F : Finset (Config ι)} {R' : Wave ι → Wave ι} (hp : Part H F R')
    (logψ : Config ι → ℂ) :
    rayleigh H (R' fun s => Complex.exp (logψ s)) = ∑ s ∈ F, (bornOn F logψ s : ℂ) * localEnergy H logψ s := by
  rw [rayleigh_part hp]
  unfold bornOn localEnergy
  simp only [conj_mul_self]
  rw [← Complex.ofReal_sum, Finset.sum_div]
  refine Finset.sum_congr rfl fun s _ => ?_
  have h1 := Complex.exp_ne_zero (logψ s)
  have h2 := (hp.pos logψ).ne'
  have h3 : ((∑ t ∈ F, ‖Complex.exp (logψ t)‖ ^ 2 : ℝ) : ℂ) ≠ 0 := by exact_mod_cast h2
  rw [Complex.ofReal_div, ← conj_mul_self]
  field_simp

open Verif.Energy.Exact in
theorem part_deriv {F : Finset (Config ι)} {R' : Wave ι → Wave ι} {H : Wave ι → Wave ι} (hp : Part H F R') {op : (B : Nat) → (Fin B → Config ι) → Fin B → List (Row ι ℝ)} {R : Nat}
    {rowsOf : Config ι → List (Row ι ℝ)} (h : RowsOf op R rowsOf)
    (hH : ∀ s, IsSpin s → ∀ ψ, applyRows (rowsOf s) ψ = H ψ s) (logψ : ℝ → Config ι → ℂ) (D : Config ι → ℂ) (θ : ℝ)
    (hD : ∀ s, IsSpin s → HasDerivAt (fun t => logψ t s) (D s) θ) :
    HasDerivAt (fun t => (rayleigh H (R' fun s => Complex.exp (logψ t s))).re)
      (2 * (∑ s ∈ F, (bornOn F (logψ θ) s : ℂ) * ((starRingEnd ℂ) (localEnergy H (logψ θ) s) * D s) -
        (∑ s ∈ F, (bornOn F (logψ θ) s : ℂ) * (starRingEnd ℂ) (localEnergy H (logψ θ) s)) *
          ∑ s ∈ F, (bornOn F (logψ θ) s : ℂ) * D s).re) θ := by
  set M : Matrix (F) (F) ℂ := fun x y => (matrixElement (rowsOf x) y : ℂ) with hM
  have hMh : M.IsHermitian := by
    ext x y
    rw [Matrix.conjTranspose_apply, hM]
    simp only
    rw [h.symm]
    exact Complex.conj_ofReal _
  set A : ℝ → F → ℂ := fun t x => Complex.exp (logψ t x) with hA
  have hmul : ∀ t, M.mulVec (A t) = fun x : F => H (fun s => Complex.exp (logψ t s)) x := by
    intro t
    funext x
    have hx := (mem_allSpins _).1 (hp.spins x.2)
    rw [← hp.closed _ _ x.2, ← hH _ hx, applyRows_sum _ (h.spins _ hx)]
    unfold Matrix.mulVec dotProduct
    rw [Finset.sum_coe_sort F fun t' => (matrixElement (rowsOf x) t' : ℂ) * Complex.exp (logψ t t'),
      ← Finset.sum_subset hp.spins fun t' h1 h2 => by rw [hp.zero _ _ h1 h2, mul_zero]]
    exact Finset.sum_congr rfl fun t' ht' => by rw [hp.keep _ _ ht']
  have hAd : ∀ x, HasDerivAt (fun t => A t x) (A θ x * D x) θ := by
    intro x
    exact (hD x ((mem_allSpins _).1 (hp.spins x.2))).cexp
  have hnum := Exact.quad_deriv M hMh A (fun x => D x) θ hAd
  have hden := Exact.quad_deriv 1 Matrix.isHermitian_one A (fun x => D x) θ hAd
  simp only [Matrix.one_mulVec] at hden
  have hZ : ∀ t, (star (A t) ⬝ᵥ A t) = ((∑ s ∈ F, ‖Complex.exp (logψ t s)‖ ^ 2 : ℝ) : ℂ) := by
    intro t
    rw [Complex.ofReal_sum, ← Finset.sum_coe_sort]
    unfold dotProduct
    refine Finset.sum_congr rfl fun x _ => ?_
    rw [← conj_mul_self]
    rfl
  have hN : ∀ t, (star (A t) ⬝ᵥ M.mulVec (A t)) =
      ∑ s ∈ F, (starRingEnd ℂ) (Complex.exp (logψ t s)) * H (fun s => Complex.exp (logψ t s)) s := by
    intro t
    rw [hmul, ← Finset.sum_coe_sort]
    rfl
  have hE : ∀ t, (rayleigh H (R' fun s => Complex.exp (logψ t s))).re =
      (star (A t) ⬝ᵥ M.mulVec (A t)).re / (star (A t) ⬝ᵥ A t).re := by
    intro t
    rw [rayleigh_part hp, hN, hZ, Complex.ofReal_re]
    simp only [conj_mul_self]
    rw [← Complex.ofReal_sum, Complex.div_ofReal_re]
  have hZ0 : (star (A θ) ⬝ᵥ A θ).re ≠ 0 := by
    rw [hZ, Complex.ofReal_re]
    exact (hp.pos _).ne'
  have hq := hnum.fun_div hden hZ0
  simp only [← hE] at hq
  refine hq.congr_deriv ?_
  -- both sides in terms of sums over all configurations
  set Z := ∑ s ∈ F, ‖Complex.exp (logψ θ s)‖ ^ 2 with hZdef
  have hZpos : 0 < Z := hp.pos _
  have hZC : (Z : ℂ) ≠ 0 := by exact_mod_cast hZpos.ne'
  have e1 : ∑ x : F, 2 * ((starRingEnd ℂ) (M.mulVec (A θ) x) * A θ x * D x).re =
      2 * Z * (∑ s ∈ F, (bornOn F (logψ θ) s : ℂ) * ((starRingEnd ℂ) (localEnergy H (logψ θ) s) * D s)).re := by
    rw [← Finset.mul_sum, mul_assoc]
    congr 1
    rw [← Complex.re_sum, ← Complex.re_ofReal_mul, Finset.mul_sum, hmul,
      ← Finset.sum_coe_sort (F) fun s => (Z : ℂ) * ((bornOn F (logψ θ) s : ℂ) * ((starRingEnd ℂ) (localEnergy H (logψ θ) s) * D s))]
    congr 1
    refine Finset.sum_congr rfl fun x _ => ?_
    unfold bornOn localEnergy
    rw [← hZdef, Complex.ofReal_div, ← conj_mul_self, map_div₀]
    have h1 := Complex.exp_ne_zero (logψ θ x)
    have h2 : (starRingEnd ℂ) (Complex.exp (logψ θ x)) ≠ 0 := (map_ne_zero _).2 h1
    simp only [hA]
    field_simp
  have e2 : ∑ x : F, 2 * ((starRingEnd ℂ) (A θ x) * A θ x * D x).re =
      2 * Z * (∑ s ∈ F, (bornOn F (logψ θ) s : ℂ) * D s).re := by
    rw [← Finset.mul_sum, mul_assoc]
    congr 1
    rw [← Complex.re_sum, ← Complex.re_ofReal_mul, Finset.mul_sum,
      ← Finset.sum_coe_sort (F) fun s => (Z : ℂ) * ((bornOn F (logψ θ) s : ℂ) * D s)]
    congr 1
    refine Finset.sum_congr rfl fun x _ => ?_
    unfold bornOn
    rw [← hZdef, Complex.ofReal_div, ← conj_mul_self]
    simp only [hA]
    field_simp
  have hreal : (starRingEnd ℂ) (star (A θ) ⬝ᵥ M.mulVec (A θ)) = star (A θ) ⬝ᵥ M.mulVec (A θ) := by
    have h1 := hMh.im_star_dotProduct_mulVec_self (A θ)
    exact Complex.conj_eq_iff_im.2 h1
  have e3 : ∑ s ∈ F, (bornOn F (logψ θ) s : ℂ) * (starRingEnd ℂ) (localEnergy H (logψ θ) s) =
      (((star (A θ) ⬝ᵥ M.mulVec (A θ)).re / Z : ℝ) : ℂ) := by
    have h1 : ∑ s ∈ F, (bornOn F (logψ θ) s : ℂ) * (starRingEnd ℂ) (localEnergy H (logψ θ) s) =
        (starRingEnd ℂ) (rayleigh H (R' fun s => Complex.exp (logψ θ s))) := by
      rw [rayleigh_bornOn hp, map_sum]
      exact Finset.sum_congr rfl fun s _ => by rw [map_mul, Complex.conj_ofReal]
    rw [h1, rayleigh_part hp]
    simp only [conj_mul_self]
    rw [← hN, ← Complex.ofReal_sum, ← hZdef, map_div₀, hreal, Complex.conj_ofReal, Complex.ofReal_div]
    congr 1
    apply Complex.ext
    · rw [Complex.ofReal_re]
    · rw [Complex.ofReal_im]; exact Complex.conj_eq_iff_im.1 hreal
  rw [e1, e2, e3, hZ, Complex.ofReal_re, ← hZdef, Complex.sub_re, Complex.re_ofReal_mul]
  field_simp

omit [DecidableEq ι] [Fintype ι] in
theorem bornOn_sum {F : Finset (Config ι)} (hF : F.Nonempty) (logψ : Config ι → ℂ) : ∑ s ∈ F, bornOn F logψ s = 1 := by
  unfold bornOn
  rw [← Finset.sum_div, div_self (norm_pos_on hF logψ).ne']

theorem energy_limit_on {H : Wave ι → Wave ι} {F : Finset (Config ι)} {R' : Wave ι → Wave ι} (hp : Part H F R')
    (logψ : Config ι → ℂ) {src : Source (Config ι)} (hd : src.Draws F (bornOn F logψ)) (ε : ℝ) (hε : 0 < ε) :
    src.InTheLimit fun B x =>
      ‖(∑ b, localEnergy H logψ (x b)) / B - rayleigh H (R' fun s => Complex.exp (logψ s))‖ < ε := by
  rw [rayleigh_bornOn hp]
  exact hd.mean_complex (localEnergy H logψ) ε hε

omit [DecidableEq ι] [Fintype ι] in
theorem localVarianceOn_eq {F : Finset (Config ι)} (hF : F.Nonempty) (H : Wave ι → Wave ι) (logψ : Config ι → ℂ) :
    localVarianceOn F H logψ = ∑ s ∈ F, bornOn F logψ s * ((localEnergy H logψ s).re * (localEnergy H logψ s).re) -
      (∑ s ∈ F, bornOn F logψ s * (localEnergy H logψ s).re) * ∑ s ∈ F, bornOn F logψ s * (localEnergy H logψ s).re := by
  unfold localVarianceOn
  set E := ∑ s ∈ F, bornOn F logψ s * (localEnergy H logψ s).re with hEdef
  have h : ∀ s, bornOn F logψ s * ((localEnergy H logψ s).re - E) ^ 2 =
      bornOn F logψ s * ((localEnergy H logψ s).re * (localEnergy H logψ s).re) - 2 * E * (bornOn F logψ s * (localEnergy H logψ s).re) +
        E * E * bornOn F logψ s := fun s => by ring
  simp only [h]
  rw [Finset.sum_add_distrib, Finset.sum_sub_distrib, ← Finset.mul_sum, ← Finset.mul_sum, (bornOn_sum hF), ← hEdef]
  ring

theorem variance_limit_on (F : Finset (Config ι)) (hF : F.Nonempty) (H : Wave ι → Wave ι) (logψ : Config ι → ℂ) {src : Source (Config ι)}
    (hd : src.Draws (F) (bornOn F logψ)) (ε : ℝ) (hε : 0 < ε) :
    src.InTheLimit fun B x =>
      |variance ((List.finRange B).map fun b => (localEnergy H logψ (x b)).re) - localVarianceOn F H logψ| < ε := by
  have h := hd.mean_map (J := Bool)
    (fun s j => if j then (((localEnergy H logψ s).re * (localEnergy H logψ s).re : ℝ) : ℂ) else ((localEnergy H logψ s).re : ℂ))
    (fun m => (m true).re - (m false).re * (m false).re) (by fun_prop) ε hε
  refine hd.weaken h fun B hB x _ hx => ?_
  have hBR : (B : ℝ) ≠ 0 := by exact_mod_cast hB.ne'
  rw [Real.dist_eq] at hx
  simp only [if_true, Bool.false_eq_true, if_false, ← Complex.ofReal_mul, ← Complex.ofReal_sum, Complex.ofReal_re] at hx
  simp only [← Complex.ofReal_natCast, ← Complex.ofReal_div, Complex.ofReal_re] at hx
  rw [localVarianceOn_eq hF, variance_finRange hB]
  convert hx using 3
  simp only [sub_mul, Finset.sum_sub_distrib, ← Finset.mul_sum]
  field_simp

omit [DecidableEq ι] [Fintype ι] in
theorem gradient_limit_on (F : Finset (Config ι)) (H : Wave ι → Wave ι) (logψ : Config ι → ℂ) {src : Source (Config ι)}
    (hd : src.Draws (F) (bornOn F logψ)) (D : Config ι → ℂ) (ε : ℝ) (hε : 0 < ε) :
    src.InTheLimit fun _ x => |batchGradient H logψ D x -
      2 * (∑ s ∈ F, (bornOn F logψ s : ℂ) * ((starRingEnd ℂ) (localEnergy H logψ s) * D s) -
        (∑ s ∈ F, (bornOn F logψ s : ℂ) * (starRingEnd ℂ) (localEnergy H logψ s)) *
          ∑ s ∈ F, (bornOn F logψ s : ℂ) * D s).re| < ε := by
  have h := hd.mean_map (J := Option Bool)
    (fun s j => match j with
      | none => (starRingEnd ℂ) (localEnergy H logψ s) * D s
      | some true => (starRingEnd ℂ) (localEnergy H logψ s)
      | some false => D s)
    (fun m => 2 * (m none - m (some true) * m (some false)).re) (by fun_prop) ε hε
  refine hd.weaken h fun B _ x _ hx => ?_
  rw [Real.dist_eq] at hx
  simp only at hx
  convert hx using 3
  unfold batchGradient
  rw [← Finset.mul_sum, ← Complex.re_sum]
  refine congrArg (fun z : ℂ => 2 * z.re) ?_
  simp only [map_sub, map_div₀, map_sum, map_natCast]
  have : ∀ b, ((starRingEnd ℂ) (localEnergy H logψ (x b)) - (∑ a, (starRingEnd ℂ) (localEnergy H logψ (x a))) / B) / B * D (x b) =
      (1 / B) * ((starRingEnd ℂ) (localEnergy H logψ (x b)) * D (x b)) -
        (∑ a, (starRingEnd ℂ) (localEnergy H logψ (x a))) / B / B * D (x b) := fun b => by ring
  simp only [this, Finset.sum_sub_distrib, ← Finset.mul_sum]
  ring

open Verif.Energy.Exact in
theorem exactOnPart_of {H : Wave ι → Wave ι} {F : Finset (Config ι)} {R' : Wave ι → Wave ι} (hp : Part H F R') {op : (B : Nat) → (Fin B → Config ι) → Fin B → List (Row ι ℝ)} {R : Nat}
    {rowsOf : Config ι → List (Row ι ℝ)} (h : RowsOf op R rowsOf)
    (hH : ∀ s, IsSpin s → ∀ ψ, applyRows (rowsOf s) ψ = H ψ s)
    (hlen : ∀ B (sample : Fin B → Config ι) b, (op B sample b).length = R)
    (hE : ∀ B (sample : Fin B → Config ι), (∀ b, IsSpin (sample b)) → ∀ logψ,
      LocalEnergies H sample logψ (estimate logψ (Answer.ofRows R (op B sample) (hlen B sample)))) :
    ExactOnPart H F R' (fun B logψ sample => estimate logψ (Answer.ofRows R (op B sample) (hlen B sample)))
      fun B logψ sample => vmcCoefficients B logψ (Answer.ofRows R (op B sample) (hlen B sample)) := by
  intro K _ _ net θ D hD
  have hder : ∀ k, _ := fun k => part_deriv hp h hH (fun t => net (Function.update θ k t)) (D k) (θ k) (hD k)
  simp only [Function.update_eq_self] at hder
  refine ⟨_, hder, fun src hd ε hε => ?_⟩
  have hlim := hd.both (hd.both (energy_limit_on hp (net θ) hd ε hε) (variance_limit_on F hp.nonempty H (net θ) hd ε hε))
    (hd.all fun k => gradient_limit_on F H (net θ) hd (D k) ε hε)
  refine hd.weaken hlim fun B hB sample hs hx => ?_
  obtain ⟨⟨h1, h2⟩, h3⟩ := hx
  have hs' : ∀ b, IsSpin (sample b) := fun b => (mem_allSpins _).1 (hp.spins (hs b))
  have hloc := hE B sample hs' (net θ)
  obtain ⟨v, hv⟩ := hloc.values
  have hv' := hv
  unfold estimate at hv'
  obtain ⟨lv, -, hlv⟩ := Option.map_eq_some_iff.1 hv'
  rw [Prod.mk.injEq, Prod.mk.injEq] at hlv
  obtain ⟨-, hlv2, hlv3⟩ := hlv
  refine ⟨_, v, _, _, hv, targets_of h (hlen B) (net θ) sample hloc, by simp, h1, ?_, fun k => ⟨_, ?_, h3 k⟩⟩
  · rw [← hlv2, hlv3, List.map_map]
    exact h2
  · unfold batchGradient
    refine HasDerivAt.fun_sum fun b _ => ?_
    have hget : ((List.finRange B).map fun b => (starRingEnd ℂ) (localEnergy H (net θ) (sample b) -
          (∑ a, localEnergy H (net θ) (sample a)) / B) / (B : ℂ)).getD b 0 = (starRingEnd ℂ) (localEnergy H (net θ) (sample b) -
          (∑ a, localEnergy H (net θ) (sample a)) / B) / (B : ℂ) := by
      simp [List.getD_eq_getElem?_getD]
    rw [hget]
    have h1 := Complex.reCLM.hasFDerivAt.comp_hasDerivAt (θ k) ((hD k _ (hs' b)).mul_const
      ((starRingEnd ℂ) (localEnergy H (net θ) (sample b) - (∑ a, localEnergy H (net θ) (sample a)) / B) / (B : ℂ)))
    have h2 := h1.const_mul (2 : ℝ)
    rw [mul_comm ((starRingEnd ℂ) _ / (B : ℂ))]
    exact h2

/-! ### Stochastic reconfiguration -/

omit [DecidableEq ι] [Fintype ι] in
theorem bornOn_nonneg (F : Finset (Config ι)) (logψ : Config ι → ℂ) (s : Config ι) : 0 ≤ bornOn F logψ s := by
  unfold bornOn
  positivity

open Verif.Optimizers Verif.Optimizers.SR Matrix ComplexOrder

variable {P : Nat}

/-- Expected value under `|ψ|²` restricted to `F`. -/
noncomputable def bornMeanOn (F : Finset (Config ι)) (logψ : Config ι → ℂ) (f : Config ι → ℂ) : ℂ := ∑ s ∈ F, (bornOn F logψ s : ℂ) * f s

/-- The exact covariance over `F` of the logarithmic derivatives `O s p` of the wave function. -/
noncomputable def exactCovarianceOn (F : Finset (Config ι)) (logψ : Config ι → ℂ) (O : Config ι → Fin P → ℂ) : Matrix (Fin P) (Fin P) ℂ := fun p q =>
  bornMeanOn F logψ fun s => (starRingEnd ℂ) (O s p - bornMeanOn F logψ fun s => O s p) * (O s q - bornMeanOn F logψ fun s => O s q)

/-- The exact covariance over `F` of the logarithmic derivatives and the local energy. -/
noncomputable def exactForceOn (F : Finset (Config ι)) (R' : Wave ι → Wave ι) (H : Wave ι → Wave ι) (logψ : Config ι → ℂ) (O : Config ι → Fin P → ℂ) : Fin P → ℂ := fun p =>
  bornMeanOn F logψ fun s => (starRingEnd ℂ) (O s p - bornMeanOn F logψ fun s => O s p) *
    (localEnergy H logψ s - rayleigh H (R' fun s => Complex.exp (logψ s)))

/-- `ReconfigurationInTheLimit` with the wave function restricted to `F`: the weights after a step on a large batch are with a
probability that tends to one those after the exact step of the restricted wave function. -/
def ReconfigurationOnPart (H : Wave ι → Wave ι) (F : Finset (Config ι)) (R' : Wave ι → Wave ι)
    (targets : (B : Nat) → (Config ι → ℂ) → (Fin B → Config ι) → Option (List ℂ)) : Prop :=
  ∀ (P : Nat) (logψ : Config ι → ℂ) (O : Config ι → Fin P → ℂ) (lr shift : ℝ), 0 < shift → ∀ m : ComplexModel, m.Valid →
    P = ((m.weights.map Tensor.shape).map List.prod).sum →
    ∃ x : Fin P → ℂ, (∀ y, exactCovarianceOn F logψ O *ᵥ y + (shift : ℂ) • y = exactForceOn F R' H logψ O ↔ y = x) ∧
      ∀ src : Source (Config ι), src.Draws (F) (bornOn F logψ) → ∀ ε, 0 < ε → src.InTheLimit fun B sample =>
        ∃ c m', targets B logψ sample = some c ∧ c.length = B ∧
        getUpdatesDirect lr shift m (fun b p => O (sample b) p) (fun b : Fin B => c.getD b 0) = some m' ∧
        ∀ p, ‖flatWeights P m' p - (flatWeights P m p - lr * x p)‖ < ε

omit [DecidableEq ι] [Fintype ι] in
theorem bornMeanOn_center {F : Finset (Config ι)} (hF : F.Nonempty) (logψ : Config ι → ℂ) (f g : Config ι → ℂ) :
    bornMeanOn F logψ (fun s => (starRingEnd ℂ) (f s - bornMeanOn F logψ f) * (g s - bornMeanOn F logψ g)) =
      bornMeanOn F logψ (fun s => (starRingEnd ℂ) (f s) * g s) - (starRingEnd ℂ) (bornMeanOn F logψ f) * bornMeanOn F logψ g := by
  have hp : ∑ s ∈ F, (bornOn F logψ s : ℂ) = 1 := by rw [← Complex.ofReal_sum, bornOn_sum hF]; simp
  have h1 : ∀ c : ℂ, bornMeanOn F logψ (fun s => (starRingEnd ℂ) (f s) * c) = (starRingEnd ℂ) (bornMeanOn F logψ f) * c := by
    intro c
    unfold bornMeanOn
    rw [map_sum, Finset.sum_mul]
    exact Finset.sum_congr rfl fun s _ => by rw [map_mul, Complex.conj_ofReal]; ring
  have h2 : ∀ s, (bornOn F logψ s : ℂ) * ((starRingEnd ℂ) (f s - bornMeanOn F logψ f) * (g s - bornMeanOn F logψ g)) =
      (bornOn F logψ s : ℂ) * ((starRingEnd ℂ) (f s) * g s) - (bornOn F logψ s : ℂ) * ((starRingEnd ℂ) (f s) * bornMeanOn F logψ g) -
        (starRingEnd ℂ) (bornMeanOn F logψ f) * ((bornOn F logψ s : ℂ) * g s) +
        (starRingEnd ℂ) (bornMeanOn F logψ f) * bornMeanOn F logψ g * (bornOn F logψ s : ℂ) := by
    intro s
    rw [map_sub]
    ring
  have h3 := h1 (bornMeanOn F logψ g)
  unfold bornMeanOn at h3 h2 ⊢
  simp only [h2, Finset.sum_add_distrib, Finset.sum_sub_distrib, ← Finset.mul_sum, hp]
  rw [h3]
  ring

omit [DecidableEq ι] [Fintype ι] in
theorem exactCovarianceOn_posSemidef (F : Finset (Config ι)) (logψ : Config ι → ℂ) (O : Config ι → Fin P → ℂ) :
    (exactCovarianceOn F logψ O).PosSemidef := by
  set W : Matrix (F) (Fin P) ℂ := fun s p => (Real.sqrt (bornOn F logψ s) : ℂ) * (O s p - bornMeanOn F logψ fun s => O s p) with hW
  have h : exactCovarianceOn F logψ O = Wᴴ * W := by
    ext p q
    rw [Matrix.mul_apply]
    have e : exactCovarianceOn F logψ O p q = ∑ s ∈ F, (bornOn F logψ s : ℂ) *
      ((starRingEnd ℂ) (O s p - bornMeanOn F logψ fun s => O s p) * (O s q - bornMeanOn F logψ fun s => O s q)) := rfl
    rw [e, ← Finset.sum_coe_sort]
    refine Finset.sum_congr rfl fun s _ => ?_
    have hs : ((Real.sqrt (bornOn F logψ s) : ℂ)) * (Real.sqrt (bornOn F logψ s) : ℂ) = (bornOn F logψ s : ℂ) := by
      rw [← Complex.ofReal_mul, Real.mul_self_sqrt (bornOn_nonneg _ _ _)]
    rw [Matrix.conjTranspose_apply, hW]
    simp only [star_mul', Complex.star_def, Complex.conj_ofReal]
    rw [← hs]
    ring
  rw [h]
  exact Matrix.posSemidef_conjTranspose_mul_self W

open Verif.Energy.Exact in
theorem reconfigurationOnPart_of {H : Wave ι → Wave ι} {F : Finset (Config ι)} {R' : Wave ι → Wave ι} (hp : Part H F R') {op : (B : Nat) → (Fin B → Config ι) → Fin B → List (Row ι ℝ)} {R : Nat}
    {rowsOf : Config ι → List (Row ι ℝ)} (h : RowsOf op R rowsOf)
    (hlen : ∀ B (sample : Fin B → Config ι) b, (op B sample b).length = R)
    (hE : ∀ B (sample : Fin B → Config ι), (∀ b, IsSpin (sample b)) → ∀ logψ,
      LocalEnergies H sample logψ (estimate logψ (Answer.ofRows R (op B sample) (hlen B sample)))) :
    ReconfigurationOnPart H F R' fun B logψ sample => vmcCoefficients B logψ (Answer.ofRows R (op B sample) (hlen B sample)) := by
  intro P logψ O lr shift hs m hm hP
  set μ : Means P → ℂ := fun j => ∑ s ∈ F, (bornOn F logψ s : ℂ) * summand (localEnergy H logψ) O s j with hμ
  have hmat : meansMatrix shift μ = exactCovarianceOn F logψ O + (shift : ℂ) • (1 : Matrix (Fin P) (Fin P) ℂ) := by
    ext p q
    rw [Matrix.add_apply, Matrix.smul_apply, smul_eq_mul]
    unfold exactCovarianceOn
    rw [bornMeanOn_center hp.nonempty logψ (fun s => O s p) fun s => O s q]
    rfl
  have hforce : meansForce μ = exactForceOn F R' H logψ O := by
    funext p
    unfold exactForceOn
    rw [rayleigh_bornOn hp]
    have := bornMeanOn_center hp.nonempty logψ (fun s => O s p) fun s => localEnergy H logψ s
    unfold bornMeanOn at this ⊢
    rw [this]
    rfl
  have hpd : (meansMatrix shift μ).PosDef := by
    rw [hmat]
    exact Matrix.PosDef.posSemidef_add (exactCovarianceOn_posSemidef F logψ O) (Matrix.PosDef.one.smul (by exact_mod_cast hs))
  have hdet : (meansMatrix shift μ).det ≠ 0 := hpd.det_pos.ne'
  have hunit : IsUnit (meansMatrix shift μ).det := isUnit_iff_ne_zero.2 hdet
  refine ⟨(meansMatrix shift μ)⁻¹ *ᵥ meansForce μ, fun y => ?_, fun src hd ε hε => ?_⟩
  · have e : exactCovarianceOn F logψ O *ᵥ y + (shift : ℂ) • y = meansMatrix shift μ *ᵥ y := by
      rw [hmat, Matrix.add_mulVec, Matrix.smul_mulVec, Matrix.one_mulVec]
    rw [e, ← hforce]
    constructor
    · intro hy
      rw [← hy, Matrix.mulVec_mulVec, Matrix.nonsing_inv_mul _ hunit, Matrix.one_mulVec]
    · intro hy
      rw [hy, Matrix.mulVec_mulVec, Matrix.mul_nonsing_inv _ hunit, Matrix.one_mulVec]
  · have hδ : 0 < ε / (|lr| + 1) := by positivity
    have hlim := hd.mean_map (summand (localEnergy H logψ) O) (fun m => (meansMatrix shift m)⁻¹ *ᵥ meansForce m)
      (continuousAt_solution shift μ hdet) (ε / (|lr| + 1)) hδ
    refine hd.weaken hlim fun B hB sample hsm hx => ?_
    have hs' : ∀ b, IsSpin (sample b) := fun b => (mem_allSpins _).1 (hp.spins (hsm b))
    have hc := targets_of h (hlen B) logψ sample (hE B sample hs' logψ)
    set c := (List.finRange B).map fun b => (starRingEnd ℂ) (localEnergy H logψ (sample b) -
        (∑ a, localEnergy H logψ (sample a)) / B) / (B : ℂ) with hcdef
    have hget : ∀ b : Fin B, c.getD b 0 = (starRingEnd ℂ) (localEnergy H logψ (sample b) -
        (∑ a, localEnergy H logψ (sample a)) / B) / (B : ℂ) := fun b => by
      simp [hcdef, List.getD_eq_getElem?_getD]
    obtain ⟨m', x, hm', hsys, -, hflat⟩ := C32_update lr shift hs m hm hP (fun b p => O (sample b) p) fun b : Fin B => c.getD b 0
    refine ⟨c, m', hc, by simp [hcdef], hm', fun p => ?_⟩
    have hlenw : (m.weights.flatMap Tensor.data).length = P := by
      obtain ⟨hs', hre, him⟩ := hm
      have hlen : m.real.length = m.imag.length := by simpa using congrArg List.length hs'
      have hws : m.weights.map Tensor.shape = m.real.map Tensor.shape := shape_complexWeight _ _ hlen
      have h6 := flatMap_complexWeight _ _ hs' hre him
      have h7 : (m.imag.flatMap Tensor.data).length = (m.real.flatMap Tensor.data).length := by
        rw [length_flatMap_valid _ hre, length_flatMap_valid _ him, hs']
      unfold ComplexModel.weights
      rw [h6, List.length_zipWith, h7, min_self, length_flatMap_valid _ hre, hP, hws]
      rfl
    set ν : Means P → ℂ := fun j => (∑ b, summand (localEnergy H logψ) O (sample b) j) / B with hν
    have hmatB : meansMatrix shift ν = sMatrix (minusMean fun b p => O (sample b) p) shift := by
      ext p q
      unfold sMatrix covariance
      rw [Matrix.add_apply, Matrix.smul_apply, Matrix.smul_apply, Matrix.mul_apply, smul_eq_mul, smul_eq_mul]
      have := batch_center hB (fun b => O (sample b) p) fun b => O (sample b) q
      simp only [Matrix.conjTranspose_apply, minusMean, Complex.star_def]
      rw [one_div, inv_mul_eq_div, this]
      rfl
    have hforceB : meansForce ν = fun p => ∑ b, (starRingEnd ℂ) (minusMean (fun b p => O (sample b) p) b p) * (starRingEnd ℂ) (c.getD b 0) := by
      funext p
      have := batch_center hB (fun b => O (sample b) p) fun b => localEnergy H logψ (sample b)
      have h2 : meansForce ν p = (∑ b, (starRingEnd ℂ) (O (sample b) p) * localEnergy H logψ (sample b)) / B -
        (starRingEnd ℂ) ((∑ b, O (sample b) p) / B) * ((∑ b, localEnergy H logψ (sample b)) / B) := rfl
      rw [h2, ← this, Finset.sum_div]
      refine Finset.sum_congr rfl fun b _ => ?_
      rw [hget, map_div₀, Complex.conj_conj, Complex.conj_natCast]
      unfold minusMean
      ring
    have hxs : x = (meansMatrix shift ν)⁻¹ *ᵥ meansForce ν := by
      have hpdB : (sMatrix (minusMean fun b p => O (sample b) p) shift).PosDef := sMatrix_posDef _ hs
      have hu : IsUnit (meansMatrix shift ν).det := by
        rw [hmatB]
        exact isUnit_iff_ne_zero.2 hpdB.det_pos.ne'
      have e : meansMatrix shift ν *ᵥ x = meansForce ν := by
        rw [hforceB, ← hsys, hmatB]
        unfold sMatrix
        rw [Matrix.add_mulVec, Matrix.smul_mulVec, Matrix.one_mulVec]
        rfl
      rw [← e, Matrix.mulVec_mulVec, Matrix.nonsing_inv_mul _ hu, Matrix.one_mulVec]
    have hfw := congrFun (flat_update hlenw x hflat) p
    have hdist := (dist_pi_lt_iff hδ).1 hx p
    rw [dist_eq_norm] at hdist
    rw [hfw]
    simp only [Pi.add_apply, Pi.smul_apply, Pi.neg_apply, smul_eq_mul]
    have e2 : flatWeights P m p + (lr : ℂ) * -x p - (flatWeights P m p - lr * ((meansMatrix shift μ)⁻¹ *ᵥ meansForce μ) p) =
        -(lr : ℂ) * (x p - ((meansMatrix shift μ)⁻¹ *ᵥ meansForce μ) p) := by ring
    rw [e2, norm_mul, norm_neg, Complex.norm_real, Real.norm_eq_abs, hxs]
    calc |lr| * _ ≤ |lr| * (ε / (|lr| + 1)) := mul_le_mul_of_nonneg_left hdist.le (abs_nonneg _)
      _ < (|lr| + 1) * (ε / (|lr| + 1)) := by
        apply mul_lt_mul_of_pos_right _ hδ
        linarith
      _ = ε := by field_simp


/-- What C139 demands of the generator of an operator for samples drawn from the part `F`. -/
def LargeBatchesOn (H : Wave ι → Wave ι) (F : Finset (Config ι)) (R' : Wave ι → Wave ι) {R : Nat}
    (answer : (B : Nat) → (Fin B → Config ι) → Answer (Config ι) R B) : Prop :=
  ExactOnPart H F R' (fun B logψ sample => estimate logψ (answer B sample))
      (fun B logψ sample => Exact.vmcCoefficients B logψ (answer B sample)) ∧
    ReconfigurationOnPart H F R' fun B logψ sample => Exact.vmcCoefficients B logψ (answer B sample)

end Verif.Energy
