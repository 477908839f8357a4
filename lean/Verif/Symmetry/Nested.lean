import Verif.Symmetry.Evaluation
import Verif.Symmetry.Translation

/-!
# Property C142: nested symmetrisation keeps every symmetry

`make_up_down_invariant`, `make_pbc_invariants` and `make_2d_obc_invariants` (ensemble.py lines 43-70) can be applied to a model
one after the other; run_evaluation.py and the examples do so. The result has the symmetries of all of them, in whatever order
they are applied, and applying one of them to a model that has its symmetries already changes no amplitude.
-/
namespace Verif.Ensemble

open Verif.Operators (Config IsSpin)

/-! ### Specification -/

/-- A global spin flip does not change the value. -/
def FlipInvariant {ι : Type} (m : Config ι → LogAmp) : Prop := ∀ x, m (fun i => -x i) = m x

/-- Periodic translations do not change the value. -/
def TranslationInvariant {D : Nat} {shape : Fin D → Nat} (m : Config (Lattice shape) → LogAmp) : Prop :=
  ∀ (a : Fin D → Nat) (x y : Config (Lattice shape)), IsTranslation a x y → m y = m x

/-- The eight symmetries of the square do not change the value. -/
def SquareInvariant {n : Nat} (m : Config (Square n) → LogAmp) : Prop := ∀ (swap a b : Bool) x, m (fun i => x (symmetry swap a b i)) = m x

/-- One call of a function of ensemble.py, with its flag `probabilistic`: `make_up_down_invariant`, `make_pbc_invariants` with
`apply_also_obc_invariants=False`, `make_2d_obc_invariants` (with `apply_also_obc_invariants=True`, `make_pbc_invariants` is the
last followed by the second). -/
inductive Step where
  | flips (probabilistic : Bool)
  | translations (probabilistic : Bool)
  | square (probabilistic : Bool)

/-- One call applied to a model on a square, on a batch of one row (`buildSymmetrization_eq`: batches are treated row by row). -/
noncomputable def Step.apply {n : Nat} (step : Step) (m : Config (Square n) → LogAmp) : Config (Square n) → LogAmp :=
  match step with
  | .flips p => fun x => upDown m p (fun _ : Fin 1 => x) 0
  | .translations p => fun x => pbcTranslations (shape := fun _ : Fin 2 => n) m p (fun _ : Fin 1 => x) 0
  | .square p => obcInvariant m p

/-- Calls applied one after the other, the first of the list last. -/
noncomputable def nest {n : Nat} (base : Config (Square n) → LogAmp) : List Step → Config (Square n) → LogAmp
  | [] => base
  | step :: steps => step.apply (nest base steps)

/-- The models of the evaluation script and of `make_pbc_invariants` are among these. -/
example {n : Nat} (base : Config (Square n) → LogAmp) : evaluationModel base = nest base [.flips true, .square true] := rfl
example {n : Nat} (base : Config (Square n) → LogAmp) (p : Bool) (x : Config (Square n)) :
    pbcInvariant base p (fun _ : Fin 1 => x) 0 = nest base [.translations p, .square p] x := rfl

/-- The symmetries that a call is for. -/
def Step.Has {n : Nat} (step : Step) (m : Config (Square n) → LogAmp) : Prop :=
  match step with
  | .flips _ => FlipInvariant m
  | .translations _ => TranslationInvariant (shape := fun _ : Fin 2 => n) m
  | .square _ => SquareInvariant m

/-! ### Proof -/

theorem upDown_row {ι : Type} (m : Config ι → LogAmp) (p : Bool) (x : Config ι) :
    upDown m p (fun _ : Fin 1 => x) 0 = ensembleOp p [m x, m fun i => x i * -1] := by
  unfold upDown
  rw [buildSymmetrization_eq]
  rfl

theorem neg_eq {ι : Type} (x : Config ι) : (fun i => x i * -1) = fun i => -x i := by funext i; ring

section Lattices
variable {D : Nat} {shape : Fin D → Nat}

theorem flips_own {ι : Type} (m : Config ι → LogAmp) (p : Bool) : FlipInvariant fun x => upDown m p (fun _ : Fin 1 => x) 0 :=
  fun x => (C56_invariant m p (fun _ : Fin 1 => x) 0).1

theorem translations_own (m : Config (Lattice shape) → LogAmp) (p : Bool) :
    TranslationInvariant fun x => pbcTranslations m p (fun _ : Fin 1 => x) 0 :=
  fun a x y h => C55_translations m p (fun _ : Fin 1 => x) (fun _ : Fin 1 => y) 0 0 a h

theorem flips_translations {m : Config (Lattice shape) → LogAmp} (h : FlipInvariant m) (p : Bool) :
    FlipInvariant fun x => pbcTranslations m p (fun _ : Fin 1 => x) 0 := by
  intro x
  dsimp only
  rw [pbcTranslations_eq, pbcTranslations_eq]
  refine congrArg _ (List.map_congr_left fun t _ => ?_)
  exact h (roll t x)

theorem translations_flips {m : Config (Lattice shape) → LogAmp} (h : TranslationInvariant m) (p : Bool) :
    TranslationInvariant fun x => upDown m p (fun _ : Fin 1 => x) 0 := by
  intro a x y hxy
  dsimp only
  rw [upDown_row, upDown_row, h a x y hxy, h a (fun i => x i * -1) (fun i => y i * -1) fun q r hq => congrArg (· * -1) (hxy q r hq)]

theorem translation_roll (hpos : ∀ d, 0 < shape d) {a : Fin D → Nat} {x y : Config (Lattice shape)} (h : IsTranslation a x y) :
    y = roll (fun d => ⟨a d % shape d, Nat.mod_lt _ (hpos d)⟩) x := by
  rw [h.eq]
  rfl

end Lattices

variable {n : Nat}

theorem square_own (m : Config (Square n) → LogAmp) (p : Bool) : SquareInvariant (obcInvariant m p) :=
  fun swap a b x => C54_invariant m p swap a b x

theorem obc_row (m : Config (Square n) → LogAmp) (p : Bool) (x : Config (Square n)) :
    obcInvariant m p x = ensembleOp p (members.map fun σ => m fun i => x (sym σ i)) := by
  unfold obcInvariant buildEnsemble
  rw [obcInputs_eq, List.map_map]
  rfl

theorem flips_square {m : Config (Square n) → LogAmp} (h : FlipInvariant m) (p : Bool) : FlipInvariant (obcInvariant m p) := by
  intro x
  rw [obc_row, obc_row]
  exact congrArg _ (List.map_congr_left fun σ _ => h fun i => x (sym σ i))

theorem square_flips {m : Config (Square n) → LogAmp} (h : SquareInvariant m) (p : Bool) :
    SquareInvariant fun x => upDown m p (fun _ : Fin 1 => x) 0 := by
  intro swap a b x
  dsimp only
  rw [upDown_row, upDown_row, h swap a b x, h swap a b fun i => x i * -1]

theorem translations_square {m : Config (Square n) → LogAmp} (h : TranslationInvariant (shape := fun _ : Fin 2 => n) m) (p : Bool) :
    TranslationInvariant (shape := fun _ : Fin 2 => n) (obcInvariant m p) := by
  intro a x y hxy
  rcases Nat.eq_zero_or_pos n with rfl | hn
  · have : y = x := funext fun q => (q 0).elim0
    rw [this]
  · rw [translation_roll (fun _ => hn) hxy, obc_row, obc_row]
    generalize (fun d : Fin 2 => (⟨a d % n, Nat.mod_lt _ hn⟩ : Fin n)) = t
    refine congrArg _ (List.map_congr_left fun σ _ => ?_)
    obtain ⟨swap, f, g⟩ := σ
    have key : (fun i => roll (shape := fun _ : Fin 2 => n) t x (sym (swap, f, g) i)) =
        roll (shape := fun _ : Fin 2 => n) (conj swap (if swap then g else f) (if swap then f else g) t)
          fun i => x (sym (swap, f, g) i) := by
      funext i
      refine congrArg x ?_
      have h1 := symmetry_roll swap f g (conj swap (if swap then g else f) (if swap then f else g) t) i
      rw [(conj_conj swap f g t).1] at h1
      exact h1.symm
    rw [key]
    exact h _ _ _ (isTranslation_roll (shape := fun _ : Fin 2 => n) _ _)

theorem square_translations {m : Config (Square n) → LogAmp} (h : SquareInvariant m) (p : Bool) :
    SquareInvariant fun x => pbcTranslations (shape := fun _ : Fin 2 => n) m p (fun _ : Fin 1 => x) 0 := by
  intro swap f g z
  dsimp only
  rw [pbcTranslations_eq, pbcTranslations_eq]
  have h2 : ∀ t : Square n, m (roll (shape := fun _ : Fin 2 => n) t fun i => z (symmetry swap f g i)) =
      m (roll (shape := fun _ : Fin 2 => n) (conj swap f g t) z) := by
    intro t
    rw [← h swap f g (roll (shape := fun _ : Fin 2 => n) (conj swap f g t) z)]
    congr 1
    funext i
    exact congrArg z (symmetry_roll swap f g t i)
  have h3 := (productRange_perm (shape := fun _ : Fin 2 => n) (conj swap f g) (conj swap (if swap then g else f) (if swap then f else g))
    (fun t => (conj_conj swap f g t).1) (fun t => (conj_conj swap f g t).2)).map
      fun t => m (roll (shape := fun _ : Fin 2 => n) t z)
  rw [List.map_map] at h3
  rw [List.map_congr_left (g := (fun t => m (roll (shape := fun _ : Fin 2 => n) t z)) ∘ conj swap f g) fun t _ => h2 t]
  exact ensembleOp_perm p h3

theorem step_own (step : Step) (m : Config (Square n) → LogAmp) : step.Has (step.apply m) := by
  cases step with
  | flips p => exact flips_own m p
  | translations p => exact translations_own (shape := fun _ : Fin 2 => n) m p
  | square p => exact square_own m p

theorem step_keeps (step other : Step) {m : Config (Square n) → LogAmp} (h : other.Has m) : other.Has (step.apply m) := by
  cases step with
  | flips p =>
    cases other with
    | flips q => exact flips_own m p
    | translations q => exact translations_flips (shape := fun _ : Fin 2 => n) h p
    | square q => exact square_flips h p
  | translations p =>
    cases other with
    | flips q => exact flips_translations (shape := fun _ : Fin 2 => n) h p
    | translations q => exact translations_own (shape := fun _ : Fin 2 => n) m p
    | square q => exact square_translations h p
  | square p =>
    cases other with
    | flips q => exact flips_square h p
    | translations q => exact translations_square h p
    | square q => exact square_own m p

/-- **C142 (squares).** However often and in whatever order a model on a square is symmetrised, with whatever flags: the result
has the symmetries of every call, the early ones as well as the last. -/
theorem C142_square (base : Config (Square n) → LogAmp) (steps : List Step) : ∀ step ∈ steps, step.Has (nest base steps) := by
  induction steps with
  | nil => intro step h; exact absurd h List.not_mem_nil
  | cons first rest ih =>
    intro step h
    rcases List.mem_cons.1 h with rfl | h
    · exact step_own step _
    · exact step_keeps first step (ih step h)

/-- **C142 (symmetries of the base model).** Symmetries the base model has are kept too. -/
theorem C142_base (base : Config (Square n) → LogAmp) (steps : List Step) (kind : Step) (h : kind.Has base) :
    kind.Has (nest base steps) := by
  induction steps with
  | nil => exact h
  | cons first rest ih => exact step_keeps first kind ih

/-- **C142 (lattices of any dimension and size).** Spin flips after translations, and translations after spin flips. -/
theorem C142_lattice {D : Nat} {shape : Fin D → Nat} (base : Config (Lattice shape) → LogAmp) (p q : Bool) :
    (FlipInvariant (fun x => upDown (fun x => pbcTranslations base q (fun _ : Fin 1 => x) 0) p (fun _ : Fin 1 => x) 0) ∧
      TranslationInvariant fun x => upDown (fun x => pbcTranslations base q (fun _ : Fin 1 => x) 0) p (fun _ : Fin 1 => x) 0) ∧
    FlipInvariant (fun x => pbcTranslations (fun x => upDown base q (fun _ : Fin 1 => x) 0) p (fun _ : Fin 1 => x) 0) ∧
      TranslationInvariant fun x => pbcTranslations (fun x => upDown base q (fun _ : Fin 1 => x) 0) p (fun _ : Fin 1 => x) 0 :=
  ⟨⟨flips_own _ p, translations_flips (translations_own base q) p⟩, flips_translations (flips_own base q) p, translations_own _ p⟩

/-! ### Repetition -/

theorem exp_complexLog (z : ℂ) : (complexLog z).exp = z := by
  unfold complexLog LogAmp.exp logReal angle
  by_cases h : ‖z‖ = 0
  · simp only [if_pos h, expReal]
    rw [norm_eq_zero.1 h]; simp
  · simp only [if_neg h, expReal]
    rw [Real.exp_log (lt_of_le_of_ne (norm_nonneg _) (Ne.symm h)), Complex.norm_mul_exp_arg_mul_I]

theorem ensemble_const (p : Bool) (k : Nat) (hk : 0 < k) (a : LogAmp) : (ensembleOp p (List.replicate k a)).exp = a.exp := by
  have hk' : (k : ℂ) ≠ 0 := by exact_mod_cast hk.ne'
  cases p with
  | false =>
    unfold ensembleOp averageOp mean
    simp only [Bool.false_eq_true, if_false]
    rw [exp_complexLog, List.map_replicate, List.sum_replicate, List.length_replicate, nsmul_eq_mul, mul_div_cancel_left₀ _ hk']
  | true =>
    have hn : ‖(ensembleOp true (List.replicate k a)).exp‖ ^ 2 = ‖a.exp‖ ^ 2 := by
      rw [probabilistic_prob (by rw [ne_eq, List.replicate_eq_nil_iff]; omega), List.map_replicate, List.sum_replicate,
        List.length_replicate, nsmul_eq_mul, mul_div_cancel_left₀ _ (by exact_mod_cast hk.ne')]
    have hn' : expReal (ensembleOp true (List.replicate k a)).re = expReal a.re := by
      rw [← norm_exp, ← norm_exp]
      exact (pow_left_inj₀ (norm_nonneg _) (norm_nonneg _) two_ne_zero).1 hn
    have him : Complex.exp (((ensembleOp true (List.replicate k a)).im : ℂ) * Complex.I) = Complex.exp (a.im * Complex.I) := by
      unfold ensembleOp probabilisticOp mean angle
      simp only [if_true]
      rw [List.map_replicate, List.sum_replicate, List.length_replicate, nsmul_eq_mul, mul_div_cancel_left₀ _ hk']
      have := Complex.norm_mul_exp_arg_mul_I (Complex.exp ((a.im : ℂ) * Complex.I))
      rwa [Complex.norm_exp_ofReal_mul_I, Complex.ofReal_one, one_mul] at this
    unfold LogAmp.exp
    rw [hn', him]

/-- **C142 (repetition).** Symmetrising a model that has the symmetries already, by the same call or by nature, changes no
amplitude. -/
theorem C142_repeat (hn : 0 < n) (step : Step) (m : Config (Square n) → LogAmp) (h : step.Has m) (x : Config (Square n)) :
    (step.apply m x).exp = (m x).exp := by
  cases step with
  | flips p =>
    show (upDown m p (fun _ : Fin 1 => x) 0).exp = _
    rw [upDown_row, neg_eq, h x]
    exact ensemble_const p 2 two_pos (m x)
  | translations p =>
    show (pbcTranslations (shape := fun _ : Fin 2 => n) m p (fun _ : Fin 1 => x) 0).exp = _
    rw [pbcTranslations_eq, List.map_congr_left (g := fun _ => m x) fun t _ =>
      h _ x _ (isTranslation_roll (shape := fun _ : Fin 2 => n) t x), List.map_const']
    exact ensemble_const p _ (List.length_pos_of_ne_nil (productRange_length_pos fun _ => hn)) (m x)
  | square p =>
    show (obcInvariant m p x).exp = _
    rw [obc_row, List.map_congr_left (g := fun _ => m x) fun σ _ => h σ.1 σ.2.1 σ.2.2 x, List.map_const']
    exact ensemble_const p _ (by decide) (m x)

/-- In particular a call repeated changes no amplitude. -/
theorem C142_idempotent (hn : 0 < n) (step : Step) (base : Config (Square n) → LogAmp) (x : Config (Square n)) :
    (nest base [step, step] x).exp = (nest base [step] x).exp :=
  C142_repeat hn step _ (step_own step base) x

/-- A model with none of the symmetries: it reads one corner of a square of three by three sites. -/
example : ∃ base : Config (Square 3) → LogAmp, ¬ FlipInvariant base ∧ ¬ TranslationInvariant (shape := fun _ : Fin 2 => 3) base ∧
    ¬ SquareInvariant base := by
  refine ⟨fun x => ⟨some (x ![0, 0]), 0⟩, ?_, ?_, ?_⟩
  · intro h
    have := h fun _ => 1
    simp at this
    norm_num at this
  · intro h
    have := h _ _ _ (isTranslation_roll (shape := fun _ : Fin 2 => 3) (fun _ => 1) fun p => if p = ![0, 0] then 1 else -1)
    have e : (roll (shape := fun _ : Fin 2 => 3) (fun _ => 1) fun p : Square 3 => if p = ![0, 0] then (1 : ℤ) else -1) ![0, 0] = -1 := by decide
    simp only [e] at this
    norm_num at this
  · intro h
    have := h false true false fun p => if p = ![0, 0] then 1 else -1
    have e : (fun i => (fun p : Square 3 => if p = ![0, 0] then (1 : ℤ) else -1) (symmetry false true false i)) ![0, 0] = -1 := by decide
    simp only [e] at this
    norm_num at this

end Verif.Ensemble
