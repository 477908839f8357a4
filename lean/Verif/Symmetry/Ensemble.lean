import Verif.Energy.LocalProps
import Mathlib.Analysis.SpecialFunctions.Complex.Log
import Mathlib.Analysis.SpecialFunctions.Complex.LogBounds
import Mathlib.Algebra.BigOperators.Group.List.Basic
import Mathlib.Logic.Equiv.Fin.Basic

/-!
# Ensembles of models and symmetrisation

Model of `src/flowket/machines/ensemble.py`, `src/flowket/layers/dihedral_4_invariants.py` and
`src/flowket/layers/transition_invariants.py`. Numbers are exact; the logarithm of zero is minus infinity.
-/
namespace Verif.Ensemble

open Verif.Operators (Config IsSpin)
open Verif.Energy (allSpins mem_allSpins)

/-- A complex logarithm as the code represents it: a real part, possibly minus infinity (`none`), and an angle. -/
structure LogAmp where
  re : Option ℝ
  im : ℝ

/-- `tensorflow.math.exp` of a real number or minus infinity. -/
noncomputable def expReal : Option ℝ → ℝ
  | some r => Real.exp r
  | none => 0

/-- `tensorflow.math.log` of a nonnegative real number. -/
noncomputable def logReal (r : ℝ) : Option ℝ := open Classical in if r = 0 then none else some (Real.log r)

/-- `tensorflow.math.exp` of a complex number. -/
noncomputable def LogAmp.exp (x : LogAmp) : ℂ := expReal x.re * Complex.exp (x.im * Complex.I)

/-- `angle` (layers/complex/tensorflow_ops.py lines 69-72): `atan2(imag, real)`, zero at zero. -/
noncomputable def angle (z : ℂ) : ℝ := Complex.arg z

/-- `complex_log` (tensorflow_ops.py lines 75-76). -/
noncomputable def complexLog (z : ℂ) : LogAmp := ⟨logReal ‖z‖, angle z⟩

/-- `reduce_mean` over the last axis. -/
noncomputable def mean (l : List ℂ) : ℂ := l.sum / l.length

/-- `probabilistic_ensemble_op` (ensemble.py lines 14-20) on one row of the joint predictions. -/
noncomputable def probabilisticOp (ensembleSize : Nat) (x : List LogAmp) : LogAmp where
  re := (logReal (x.map fun a => expReal (a.re.map (· * 2))).sum).map fun r => 0.5 * r - 0.5 * Real.log ensembleSize
  im := angle (mean (x.map fun a => Complex.exp (a.im * Complex.I)))

/-- `average_ensemble_op` (ensemble.py lines 23-24) on one row. -/
noncomputable def averageOp (x : List LogAmp) : LogAmp := complexLog (mean (x.map LogAmp.exp))

/-- The choice between the two (ensemble.py lines 29-30 and 38-39). -/
noncomputable def ensembleOp (probabilistic : Bool) (x : List LogAmp) : LogAmp :=
  if probabilistic then probabilisticOp x.length x else averageOp x

variable {ι : Type}

/-- `build_ensemble` (lines 27-31) at one row of the batch: `predictions` are the outputs of the members. -/
noncomputable def buildEnsemble (predictions : List LogAmp) (probabilistic : Bool) : LogAmp :=
  ensembleOp probabilistic predictions

/-- `build_symmetrization_ensemble` (lines 34-40) on a batch of `B` rows: the inputs are stacked along a new axis
after the batch axis and flattened into one batch, the model runs on that batch row by row, and the column of
predictions is cut into rows of length `len(symmetrization_inputs)`; the result for batch row `b` is given. -/
noncomputable def buildSymmetrization {B : Nat} (inputs : List (Fin B → Config ι)) (model : Config ι → LogAmp) (probabilistic : Bool)
    (b : Fin B) : LogAmp :=
  let joint : List (Config ι) := (List.finRange B).flatMap fun b => inputs.map fun x => x b
  let predictions := joint.map model
  ensembleOp probabilistic ((predictions.drop (b.val * inputs.length)).take inputs.length)

/-! ### Lemmas -/

theorem ensembleOp_perm (p : Bool) {x y : List LogAmp} (h : x.Perm y) : ensembleOp p x = ensembleOp p y := by
  unfold ensembleOp
  rw [h.length_eq]
  cases p
  · simp only [Bool.false_eq_true, if_false]
    unfold averageOp mean
    rw [(h.map LogAmp.exp).sum_eq, List.length_map, List.length_map, h.length_eq]
  · simp only [if_true]
    unfold probabilisticOp mean
    rw [(h.map fun a => expReal (a.re.map (· * 2))).sum_eq, (h.map fun a => Complex.exp (a.im * Complex.I)).sum_eq,
      List.length_map, List.length_map, h.length_eq]

theorem take_drop_flatMap {α β : Type} (f : α → List β) (K : Nat) : ∀ (l : List α), (∀ a, (f a).length = K) → ∀ (b : Nat) (h : b < l.length),
    ((l.flatMap f).drop (b * K)).take K = f l[b]
  | [], _, b, h => absurd h (Nat.not_lt_zero b)
  | a :: l, hf, 0, h => by
    rw [Nat.zero_mul, List.drop_zero, List.flatMap_cons, List.take_left' (hf a), List.getElem_cons_zero]
  | a :: l, hf, b + 1, h => by
    rw [List.flatMap_cons, Nat.add_mul, Nat.one_mul, Nat.add_comm, ← List.drop_drop, List.drop_left' (hf a), List.getElem_cons_succ]
    exact take_drop_flatMap f K l hf b _

/-- The batch is treated row by row. -/
theorem buildSymmetrization_eq {B : Nat} (inputs : List (Fin B → Config ι)) (model : Config ι → LogAmp) (p : Bool) (b : Fin B) :
    buildSymmetrization inputs model p b = ensembleOp p (inputs.map fun x => model (x b)) := by
  unfold buildSymmetrization
  dsimp only
  rw [List.map_flatMap, take_drop_flatMap _ inputs.length _ (fun b => by rw [List.length_map, List.length_map]) b.val
    (by rw [List.length_finRange]; exact b.2), List.getElem_finRange, List.map_map]
  rfl

theorem expReal_nonneg (r : Option ℝ) : 0 ≤ expReal r := by
  cases r
  · exact le_rfl
  · exact (Real.exp_pos _).le

theorem norm_exp (x : LogAmp) : ‖x.exp‖ = expReal x.re := by
  unfold LogAmp.exp
  rw [norm_mul, Complex.norm_exp_ofReal_mul_I, mul_one, Complex.norm_real, Real.norm_of_nonneg (expReal_nonneg _)]

theorem expReal_double (r : Option ℝ) : expReal (r.map (· * 2)) = expReal r ^ 2 := by
  cases r with
  | none => simp [expReal]
  | some r =>
    show Real.exp (r * 2) = Real.exp r ^ 2
    rw [← Real.exp_nat_mul, mul_comm]
    norm_cast

/-- The probability of a probabilistic ensemble is the mean of the probabilities of its members. -/
theorem probabilistic_prob {x : List LogAmp} (hx : x ≠ []) :
    ‖(ensembleOp true x).exp‖ ^ 2 = (x.map fun a => ‖a.exp‖ ^ 2).sum / x.length := by
  have hK : (0 : ℝ) < x.length := by exact_mod_cast List.length_pos_of_ne_nil hx
  have hsum : (x.map fun a => expReal (a.re.map (· * 2))).sum = (x.map fun a => ‖a.exp‖ ^ 2).sum := by
    congr 1
    refine List.map_congr_left fun a _ => ?_
    rw [expReal_double, norm_exp]
  have hnn : 0 ≤ (x.map fun a => ‖a.exp‖ ^ 2).sum := List.sum_nonneg fun r hr => by
    obtain ⟨a, _, rfl⟩ := List.mem_map.1 hr
    positivity
  rw [norm_exp, ← expReal_double]
  unfold ensembleOp
  rw [if_pos rfl]
  unfold probabilisticOp
  dsimp only
  rw [hsum]
  generalize (x.map fun a => ‖a.exp‖ ^ 2).sum = S at hnn
  unfold logReal
  by_cases h0 : S = 0
  · rw [if_pos h0, h0]
    simp [expReal]
  · rw [if_neg h0]
    show Real.exp ((0.5 * Real.log S - 0.5 * Real.log x.length) * 2) = S / x.length
    have hS : 0 < S := lt_of_le_of_ne hnn (Ne.symm h0)
    rw [show (0.5 * Real.log S - 0.5 * Real.log x.length) * 2 = Real.log S - Real.log x.length by ring, Real.exp_sub,
      Real.exp_log hS, Real.exp_log hK]

/-- A model of logarithms of amplitudes is normalised: the probabilities `|ψ(s)|²` sum to one over all spin
configurations. -/
def Normalized [Fintype ι] [DecidableEq ι] (model : Config ι → LogAmp) : Prop := ∑ s ∈ allSpins ι, ‖(model s).exp‖ ^ 2 = 1

theorem sum_list_comm {α : Type} (S : Finset α) (l : List (α → ℝ)) : ∑ s ∈ S, (l.map fun f => f s).sum = (l.map fun f => ∑ s ∈ S, f s).sum := by
  induction l with
  | nil => simp
  | cons f l ih => simp only [List.map_cons, List.sum_cons, Finset.sum_add_distrib, ih]

theorem normalized_of_members [Fintype ι] [DecidableEq ι] {members : List (Config ι → LogAmp)} (hne : members ≠ [])
    (h : ∀ f ∈ members, Normalized f) : Normalized fun s => ensembleOp true (members.map fun f => f s) := by
  have hK : (0 : ℝ) < members.length := by exact_mod_cast List.length_pos_of_ne_nil hne
  unfold Normalized
  have : ∀ s, ‖(ensembleOp true (members.map fun f => f s)).exp‖ ^ 2 =
      (members.map fun f => ‖(f s).exp‖ ^ 2).sum / members.length := by
    intro s
    rw [probabilistic_prob (by simpa using hne), List.map_map, List.length_map]
    rfl
  simp only [this]
  rw [← Finset.sum_div]
  have hs := sum_list_comm (allSpins ι) (members.map fun f s => ‖(f s).exp‖ ^ 2)
  simp only [List.map_map, Function.comp_def] at hs
  rw [hs, List.map_congr_left (g := fun _ => (1 : ℝ)) fun f hf => h f hf]
  simp [hK.ne']

/-- A model composed with a rearrangement or a sign change of the configurations stays normalised. -/
theorem normalized_comp [Fintype ι] [DecidableEq ι] {model : Config ι → LogAmp} (h : Normalized model) (g h' : Config ι → Config ι)
    (hg : ∀ s, IsSpin s → IsSpin (g s)) (hh : ∀ s, IsSpin s → IsSpin (h' s)) (hgh : ∀ s, g (h' s) = s) (hhg : ∀ s, h' (g s) = s) :
    Normalized fun s => model (g s) := by
  unfold Normalized at h ⊢
  rw [← h]
  refine Finset.sum_nbij' g h' ?_ ?_ (fun s _ => hhg s) (fun s _ => hgh s) (fun s _ => rfl)
  · intro s hs; rw [mem_allSpins] at hs ⊢; exact hg s hs
  · intro s hs; rw [mem_allSpins] at hs ⊢; exact hh s hs

/-- **C57 (several models).** The probabilistic ensemble of any number of normalised models gives every
configuration the mean of the members' probabilities, and is normalised. -/
theorem C57_models [Fintype ι] [DecidableEq ι] (models : List (Config ι → LogAmp)) (hne : models ≠ []) :
    (∀ s, ‖(buildEnsemble (models.map fun f => f s) true).exp‖ ^ 2 = (models.map fun f => ‖(f s).exp‖ ^ 2).sum / models.length) ∧
    ((∀ f ∈ models, Normalized f) → Normalized fun s => buildEnsemble (models.map fun f => f s) true) := by
  refine ⟨fun s => ?_, fun h => normalized_of_members hne h⟩
  unfold buildEnsemble
  rw [probabilistic_prob (by simpa using hne), List.map_map, List.length_map]
  rfl

/-! ### Spin flip -/

/-- `make_up_down_invariant` (lines 66-70) on a batch. -/
noncomputable def upDown {B : Nat} (model : Config ι → LogAmp) (probabilistic : Bool) (x : Fin B → Config ι) (b : Fin B) : LogAmp :=
  buildSymmetrization [x, fun b i => x b i * -1] model probabilistic b

/-- **C56.** A configuration and its global spin flip get the same value, in every batch. -/
theorem C56_invariant {B : Nat} (model : Config ι → LogAmp) (p : Bool) (x : Fin B → Config ι) (b : Fin B) :
    upDown model p (fun b i => -x b i) b = upDown model p x b ∧
    ∀ {B' : Nat} (y : Fin B' → Config ι) (b' : Fin B'), (y b' = x b ∨ y b' = fun i => -x b i) → upDown model p y b' = upDown model p x b := by
  have key : ∀ {B' : Nat} (y : Fin B' → Config ι) (b' : Fin B'), (y b' = x b ∨ y b' = fun i => -x b i) → upDown model p y b' = upDown model p x b := by
    intro B' y b' h
    unfold upDown
    rw [buildSymmetrization_eq, buildSymmetrization_eq]
    simp only [List.map_cons, List.map_nil]
    rcases h with h | h
    · rw [h]
    · rw [h]
      apply ensembleOp_perm
      have h1 : (fun i => -x b i * -1) = x b := by funext i; ring
      have h2 : (fun i => x b i * -1) = fun i => -x b i := by funext i; ring
      rw [h1, h2]
      exact List.Perm.swap _ _ _
  exact ⟨key _ b (Or.inr rfl), key⟩

/-- **C57 (spin flip).** -/
theorem C57_spin_flip [Fintype ι] [DecidableEq ι] (model : Config ι → LogAmp) (h : Normalized model) :
    (∀ s, ‖(upDown model true (fun _ : Fin 1 => s) 0).exp‖ ^ 2 = (‖(model s).exp‖ ^ 2 + ‖(model fun i => -s i).exp‖ ^ 2) / 2) ∧
    Normalized fun s => upDown model true (fun _ : Fin 1 => s) 0 := by
  have heq : ∀ s, upDown model true (fun _ : Fin 1 => s) 0 =
      ensembleOp true ([model, fun s => model fun i => -s i].map fun f => f s) := by
    intro s
    unfold upDown
    rw [buildSymmetrization_eq]
    simp only [List.map_cons, List.map_nil, mul_neg, mul_one]
  refine ⟨fun s => ?_, ?_⟩
  · rw [heq, probabilistic_prob (by simp)]
    simp
  · simp only [heq]
    apply normalized_of_members (by simp)
    intro f hf
    rcases List.mem_cons.1 hf with rfl | hf
    · exact h
    · rw [List.mem_singleton] at hf
      subst hf
      have hspin : ∀ s : Config ι, IsSpin s → IsSpin fun i => -s i := by
        intro s hs i
        rcases hs i with h | h <;> simp [h]
      exact normalized_comp h (fun s i => -s i) (fun s i => -s i) hspin hspin (fun s => by funext i; ring) (fun s => by funext i; ring)

end Verif.Ensemble
