import Mathlib.Analysis.Complex.Basic
import Mathlib.Analysis.SpecialFunctions.Pow.Real
import Mathlib.LinearAlgebra.FiniteDimensional.Basic
import Mathlib.LinearAlgebra.Dimension.Constructions
import Mathlib.Algebra.BigOperators.Fin
import Mathlib.Tactic.Ring
import Mathlib.Tactic.Linarith
import Mathlib.Tactic.FieldSimp
import Mathlib.Tactic.FinCases
import Mathlib.LinearAlgebra.Matrix.ToLin

/-
Model of `conjugate_gradient`
(`src/flowket/optimizers/stochastic_reconfiguration/linear_equations.py:34-137`) in exact complex
arithmetic, and the properties C33.
-/
namespace Verif.Optimizers.CG

variable {n : Nat}

/-- Vectors of length `n` (columns of shape `(n, 1)` in the code). -/
abbrev Vec (n : Nat) := Fin n → ℂ

/-- A matrix-free linear operator: `operator.apply`, `preconditioner.apply`. -/
abbrev Op (n : Nat) := Vec n →ₗ[ℂ] Vec n

/-- `util.dot` of TensorFlow's solvers (used in lines 98, 102, 107, 126): first argument conjugated. -/
noncomputable def dot (x y : Vec n) : ℂ := ∑ k, (starRingEnd ℂ) (x k) * y k

/-- `float_norm` (lines 92-93); the cast to float32 is not modelled. -/
noncomputable def norm (v : Vec n) : ℝ := Real.sqrt (∑ k, ‖v k‖ ^ 2)

/-- `CGState` (line 85). -/
structure State (n : Nat) where
  i : Nat
  x : Vec n
  r : Vec n
  p : Vec n
  gamma : ℂ

/-- The preconditioner applied, or nothing (lines 101-109, 122-125). -/
def precond (M : Option (Op n)) (v : Vec n) : Vec n :=
  match M with
  | none => v
  | some M => M v

/-- Division; `none` stands for the NaN or infinite entries produced by a zero divisor. -/
noncomputable def divide (a b : ℂ) : Option ℂ := if b = 0 then none else some (a / b)

/-- `cg_step` (lines 95-110). -/
noncomputable def step (A : Op n) (M : Option (Op n)) (s : State n) : Option (State n) :=
  let z := A s.p
  (divide s.gamma (dot s.p z)).bind fun alpha =>
    let x := s.x + alpha • s.p
    let r := s.r - alpha • z
    let q := precond M r
    let gamma := dot r q
    (divide gamma s.gamma).bind fun beta =>
      some ⟨s.i + 1, x, r, q + beta • s.p, gamma⟩

/-- The state before the loop (lines 112-129); `x0 = none` is the missing start vector. -/
noncomputable def init (A : Op n) (M : Option (Op n)) (b : Vec n) (x0 : Option (Vec n)) : State n :=
  let x := match x0 with | none => 0 | some x => x
  let r0 := match x0 with | none => b | some x => b - A x
  let p0 := precond M r0
  ⟨0, x, r0, p0, dot r0 p0⟩

/-- `stopping_criterion` (lines 87-90): the loop goes on while this holds. `tol` is already scaled. -/
def Continue (tol : ℝ) (maxIter : Option Nat) (s : State n) : Prop :=
  (∀ m, maxIter = some m → s.i < m) ∧ tol < norm s.r

/-- `while_loop` (lines 130-131) from a state: `Loop s o` says the loop started in `s` ends with outcome
`o`, where `none` means that a step divided by zero (the arrays then hold NaN, every comparison is false
and the loop ends). -/
inductive Loop (A : Op n) (M : Option (Op n)) (tol : ℝ) (maxIter : Option Nat) :
    State n → Option (State n) → Prop
  | stop (s : State n) (h : ¬ Continue tol maxIter s) : Loop A M tol maxIter s (some s)
  | nan (s : State n) (h : Continue tol maxIter s) (hs : step A M s = none) : Loop A M tol maxIter s none
  | next (s s' : State n) (o : Option (State n)) (h : Continue tol maxIter s) (hs : step A M s = some s')
      (hl : Loop A M tol maxIter s' o) : Loop A M tol maxIter s o

/-- `conjugate_gradient` (lines 34-137) ends with outcome `o`; line 127 scales the tolerance with the
norm of the first residual. -/
def Returns (A : Op n) (M : Option (Op n)) (b : Vec n) (x0 : Option (Vec n)) (tol : ℝ)
    (maxIter : Option Nat) (o : Option (State n)) : Prop :=
  Loop A M (tol * norm (init A M b x0).r) maxIter (init A M b x0) o

/-! ### Specification -/

/-- Hermitian positive definite operator. -/
structure HPD (A : Op n) : Prop where
  herm : ∀ x y, dot x (A y) = dot (A x) y
  pos : ∀ x, x ≠ 0 → 0 < (dot x (A x)).re

/-- The start vector: zero if none is given. -/
def start (x0 : Option (Vec n)) : Vec n := x0.getD 0

/-! ### Lemmas about `dot` and `norm` -/

theorem dot_add_right (x y z : Vec n) : dot x (y + z) = dot x y + dot x z := by
  simp [dot, mul_add, Finset.sum_add_distrib]

theorem dot_sub_right (x y z : Vec n) : dot x (y - z) = dot x y - dot x z := by
  simp [dot, mul_sub, Finset.sum_sub_distrib]

theorem dot_smul_right (c : ℂ) (x y : Vec n) : dot x (c • y) = c * dot x y := by
  simp only [dot, Pi.smul_apply, smul_eq_mul, Finset.mul_sum]
  exact Finset.sum_congr rfl fun k _ => by ring

theorem dot_conj (x y : Vec n) : (starRingEnd ℂ) (dot x y) = dot y x := by
  simp only [dot, map_sum, map_mul, Complex.conj_conj]
  exact Finset.sum_congr rfl fun k _ => by ring

theorem dot_add_left (x y z : Vec n) : dot (x + y) z = dot x z + dot y z := by
  simp [dot, add_mul, Finset.sum_add_distrib]

theorem dot_sub_left (x y z : Vec n) : dot (x - y) z = dot x z - dot y z := by
  simp [dot, sub_mul, Finset.sum_sub_distrib]

theorem dot_smul_left (c : ℂ) (x y : Vec n) : dot (c • x) y = (starRingEnd ℂ) c * dot x y := by
  simp only [dot, Pi.smul_apply, smul_eq_mul, Finset.mul_sum, map_mul]
  exact Finset.sum_congr rfl fun k _ => by ring

theorem dot_zero_right (x : Vec n) : dot x 0 = 0 := by simp [dot]
theorem dot_zero_left (x : Vec n) : dot 0 x = 0 := by simp [dot]

theorem dot_self (x : Vec n) : dot x x = ((∑ k, ‖x k‖ ^ 2 : ℝ) : ℂ) := by
  simp only [dot, Complex.ofReal_sum]
  refine Finset.sum_congr rfl fun k _ => ?_
  rw [mul_comm, Complex.mul_conj, Complex.normSq_eq_norm_sq]

theorem norm_nonneg (x : Vec n) : 0 ≤ norm x := Real.sqrt_nonneg _

theorem norm_eq_zero {x : Vec n} : norm x = 0 ↔ x = 0 := by
  unfold norm
  rw [Real.sqrt_eq_zero (Finset.sum_nonneg fun k _ => by positivity),
    Finset.sum_eq_zero_iff_of_nonneg fun k _ => by positivity]
  constructor
  · intro h
    funext k
    simpa using h k (Finset.mem_univ k)
  · rintro rfl
    simp

theorem norm_pos {x : Vec n} : 0 < norm x ↔ x ≠ 0 := by
  rw [(norm_nonneg x).lt_iff_ne, ne_comm, ne_eq, norm_eq_zero]

theorem hpd_id : HPD (LinearMap.id : Op n) where
  herm := fun x y => rfl
  pos := by
    intro x hx
    show 0 < (dot x x).re
    rw [dot_self, Complex.ofReal_re]
    have := norm_pos.2 hx
    unfold norm at this
    exact Real.sqrt_pos.1 this

/-- The preconditioner as an operator: the identity if there is none. -/
def precondOp (M : Option (Op n)) : Op n := M.getD LinearMap.id

theorem precond_eq (M : Option (Op n)) (v : Vec n) : precond M v = precondOp M v := by
  cases M <;> rfl

theorem dot_real {A : Op n} (h : HPD A) (x : Vec n) :
    (starRingEnd ℂ) (dot x (A x)) = dot x (A x) := by
  rw [dot_conj, h.herm]

theorem dot_ne_zero {A : Op n} (h : HPD A) {x : Vec n} (hx : x ≠ 0) : dot x (A x) ≠ 0 := by
  intro h0
  have := h.pos x hx
  rw [h0] at this
  simp at this

/-! ### Iterates -/

/-- `k` steps from the initial state. -/
noncomputable def iter (A : Op n) (M : Option (Op n)) (s : State n) : Nat → Option (State n)
  | 0 => some s
  | k + 1 => (iter A M s k).bind (step A M)

theorem step_some {A : Op n} {M : Option (Op n)} {s s' : State n} (h : step A M s = some s') :
    dot s.p (A s.p) ≠ 0 ∧ s.gamma ≠ 0 ∧ s'.i = s.i + 1 ∧
    s'.x = s.x + (s.gamma / dot s.p (A s.p)) • s.p ∧
    s'.r = s.r - (s.gamma / dot s.p (A s.p)) • A s.p ∧
    s'.gamma = dot s'.r (precondOp M s'.r) ∧
    s'.p = precondOp M s'.r + (s'.gamma / s.gamma) • s.p := by
  unfold step divide at h
  dsimp only at h
  by_cases h1 : dot s.p (A s.p) = 0
  · simp [h1] at h
  by_cases h2 : s.gamma = 0
  · rw [if_neg h1, Option.bind_some, if_pos h2] at h
    simp at h
  · rw [if_neg h1, Option.bind_some, if_neg h2, Option.bind_some, Option.some.injEq] at h
    subst h
    refine ⟨h1, h2, rfl, rfl, rfl, ?_, ?_⟩ <;> simp only [precond_eq]

theorem step_isSome {A : Op n} {M : Option (Op n)} {s : State n} (h1 : dot s.p (A s.p) ≠ 0)
    (h2 : s.gamma ≠ 0) : ∃ s', step A M s = some s' := by
  unfold step divide
  dsimp only
  rw [if_neg h1, Option.bind_some, if_neg h2, Option.bind_some]
  exact ⟨_, rfl⟩

/-- The residual invariant. -/
theorem step_residual {A : Op n} {M : Option (Op n)} {s s' : State n} {b : Vec n} (h : step A M s = some s')
    (hr : s.r = b - A s.x) : s'.r = b - A s'.x := by
  obtain ⟨_, _, _, hx, hr', _, _⟩ := step_some h
  rw [hx, hr', hr, map_add, map_smul]
  abel

theorem init_residual (A : Op n) (M : Option (Op n)) (b : Vec n) (x0 : Option (Vec n)) :
    (init A M b x0).r = b - A (init A M b x0).x := by
  cases x0 <;> simp [init]

theorem loop_residual {A : Op n} {M : Option (Op n)} {tol : ℝ} {mi : Option Nat} {s : State n}
    {o : Option (State n)} {b : Vec n} (hl : Loop A M tol mi s o) (hr : s.r = b - A s.x) :
    ∀ s', o = some s' → s'.r = b - A s'.x := by
  induction hl with
  | stop s h => intro s' e; cases e; exact hr
  | nan s h hs => intro s' e; cases e
  | next s s1 o h hs hl ih => exact ih (step_residual hs hr)

theorem loop_stop {A : Op n} {M : Option (Op n)} {tol : ℝ} {mi : Option Nat} {s : State n}
    {o : Option (State n)} (hl : Loop A M tol mi s o) :
    ∀ s', o = some s' → ¬ Continue tol mi s' := by
  induction hl with
  | stop s h => intro s' e; cases e; exact h
  | nan s h hs => intro s' e; cases e
  | next s s1 o h hs hl ih => exact ih

theorem loop_count {A : Op n} {M : Option (Op n)} {tol : ℝ} {mi : Option Nat} {s : State n}
    {o : Option (State n)} (hl : Loop A M tol mi s o) (hs : ∀ m, mi = some m → s.i ≤ m) :
    ∀ s', o = some s' → ∀ m, mi = some m → s'.i ≤ m := by
  induction hl with
  | stop s h => intro s' e; cases e; exact hs
  | nan s h hs => intro s' e; cases e
  | next s s1 o h hst hl ih =>
    refine ih fun m hm => ?_
    have := h.1 m hm
    rw [(step_some hst).2.2.1]
    omega

theorem loop_unique {A : Op n} {M : Option (Op n)} {tol : ℝ} {mi : Option Nat} {s : State n}
    {o o' : Option (State n)} (hl : Loop A M tol mi s o) (hl' : Loop A M tol mi s o') : o = o' := by
  induction hl generalizing o' with
  | stop s h =>
    cases hl' with
    | stop _ _ => rfl
    | nan _ h' _ => exact absurd h' h
    | next _ _ _ h' _ _ => exact absurd h' h
  | nan s h hs =>
    cases hl' with
    | stop _ h' => exact absurd h h'
    | nan _ _ _ => rfl
    | next _ _ _ _ hs' _ => rw [hs] at hs'; cases hs'
  | next s s1 o h hs hl ih =>
    cases hl' with
    | stop _ h' => exact absurd h h'
    | nan _ _ hs' => rw [hs] at hs'; cases hs'
    | next _ _ _ _ hs' hl' => rw [hs] at hs'; cases hs'; exact ih hl'

/-! ### Orthogonality -/

/-- What is known after `k` steps that all had a nonzero residual: `s j` is the state after `j` steps. -/
structure Orth (A : Op n) (M : Op n) (s : Nat → State n) (k : Nat) : Prop where
  steps : ∀ j < k, (s j).gamma ≠ 0 ∧ dot (s j).p (A (s j).p) ≠ 0 ∧
    (s (j + 1)).r = (s j).r - ((s j).gamma / dot (s j).p (A (s j).p)) • A (s j).p ∧
    (s (j + 1)).p = M (s (j + 1)).r + ((s (j + 1)).gamma / (s j).gamma) • (s j).p
  gamma : ∀ j ≤ k, (s j).gamma = dot (s j).r (M (s j).r)
  p0 : (s 0).p = M (s 0).r
  pr : ∀ j ≤ k, ∀ i < j, dot (s i).p (s j).r = 0
  ppr : ∀ j ≤ k, dot (s j).p (s j).r = (s j).gamma
  rr : ∀ j ≤ k, ∀ i < j, dot (M (s i).r) (s j).r = 0
  pap : ∀ j ≤ k, ∀ i < j, dot (s i).p (A (s j).p) = 0

theorem orth_succ {A M : Op n} (hA : HPD A) (hM : HPD M) {s : Nat → State n} {k : Nat} (h : Orth A M s k)
    (hg : (s k).gamma ≠ 0) (hd : dot (s k).p (A (s k).p) ≠ 0)
    (hr : (s (k + 1)).r = (s k).r - ((s k).gamma / dot (s k).p (A (s k).p)) • A (s k).p)
    (hp : (s (k + 1)).p = M (s (k + 1)).r + ((s (k + 1)).gamma / (s k).gamma) • (s k).p)
    (hgam : (s (k + 1)).gamma = dot (s (k + 1)).r (M (s (k + 1)).r)) : Orth A M s (k + 1) := by
  have hpr : ∀ i < k + 1, dot (s i).p (s (k + 1)).r = 0 := by
    intro i hi
    rw [hr, dot_sub_right, dot_smul_right]
    rcases Nat.lt_succ_iff_lt_or_eq.1 hi with hi | rfl
    · rw [h.pr k le_rfl i hi, h.pap k le_rfl i hi]; ring
    · rw [h.ppr i le_rfl]; field_simp; ring
  have hrr : ∀ i < k + 1, dot (M (s i).r) (s (k + 1)).r = 0 := by
    intro i hi
    cases i with
    | zero => rw [← h.p0]; exact hpr 0 hi
    | succ i =>
      have h1 := (h.steps i (by omega)).2.2.2
      have h2 : M (s (i + 1)).r = (s (i + 1)).p - ((s (i + 1)).gamma / (s i).gamma) • (s i).p := by
        rw [h1]; abel
      rw [h2, dot_sub_left, dot_smul_left, hpr (i + 1) hi, hpr i (by omega)]
      ring
  have hppr : dot (s (k + 1)).p (s (k + 1)).r = (s (k + 1)).gamma := by
    rw [hp, dot_add_left, dot_smul_left, hpr k (by omega), mul_zero, add_zero, hgam, hM.herm]
  have hstep : ∀ j ≤ k, (s j).gamma ≠ 0 ∧ dot (s j).p (A (s j).p) ≠ 0 ∧
      (s (j + 1)).r = (s j).r - ((s j).gamma / dot (s j).p (A (s j).p)) • A (s j).p := by
    intro j hj
    rcases Nat.lt_or_eq_of_le hj with hj | rfl
    · exact ⟨(h.steps j hj).1, (h.steps j hj).2.1, (h.steps j hj).2.2.1⟩
    · exact ⟨hg, hd, hr⟩
  have hAp : ∀ j ≤ k, A (s j).p = (dot (s j).p (A (s j).p) / (s j).gamma) • ((s j).r - (s (j + 1)).r) := by
    intro j hj
    obtain ⟨a, b, c⟩ := hstep j hj
    rw [c]
    have : (s j).r - ((s j).r - ((s j).gamma / dot (s j).p (A (s j).p)) • A (s j).p) =
        ((s j).gamma / dot (s j).p (A (s j).p)) • A (s j).p := by abel
    rw [this, smul_smul]
    have : dot (s j).p (A (s j).p) / (s j).gamma * ((s j).gamma / dot (s j).p (A (s j).p)) = 1 := by
      field_simp
    rw [this, one_smul]
  have hpap : ∀ i < k + 1, dot (s i).p (A (s (k + 1)).p) = 0 := by
    intro i hi
    rw [hp, map_add, map_smul, dot_add_right, dot_smul_right, hA.herm]
    rcases Nat.lt_succ_iff_lt_or_eq.1 hi with hi | rfl
    · rw [h.pap k le_rfl i hi, mul_zero, add_zero, hAp i (by omega), dot_smul_left, dot_sub_left, hM.herm,
        hM.herm, hrr i (by omega), hrr (i + 1) (by omega)]
      ring
    · have hc1 : (starRingEnd ℂ) (dot (s i).p (A (s i).p)) = dot (s i).p (A (s i).p) := dot_real hA _
      have hc2 : (starRingEnd ℂ) (s i).gamma = (s i).gamma := by
        rw [h.gamma i le_rfl]; exact dot_real hM _
      have : dot (A (s i).p) (M (s (i + 1)).r) =
          -(dot (s i).p (A (s i).p) / (s i).gamma) * (s (i + 1)).gamma := by
        rw [hAp i le_rfl, dot_smul_left, dot_sub_left, map_div₀, hc2, ← hAp i le_rfl, hc1, hM.herm, hrr i (by omega), ← hgam]
        ring
      rw [this]
      field_simp
      ring
  refine ⟨?_, ?_, h.p0, ?_, ?_, ?_, ?_⟩
  · intro j hj
    rcases Nat.lt_succ_iff_lt_or_eq.1 hj with hj | rfl
    · exact h.steps j hj
    · exact ⟨hg, hd, hr, hp⟩
  all_goals
    intro j hj
    rcases Nat.lt_or_eq_of_le hj with hj' | rfl
  · exact h.gamma j (by omega)
  · exact hgam
  · exact h.pr j (by omega)
  · exact hpr
  · exact h.ppr j (by omega)
  · exact hppr
  · exact h.rr j (by omega)
  · exact hrr
  · exact h.pap j (by omega)
  · exact hpap

/-- Nonzero vectors that are orthogonal in the sense of a positive operator are at most `n`. -/
theorem card_orthogonal {M : Op n} (hM : HPD M) (k : Nat) (v : Fin k → Vec n) (h0 : ∀ i, v i ≠ 0)
    (ho : ∀ i j, i < j → dot (M (v i)) (v j) = 0) : k ≤ n := by
  have ho' : ∀ i j, i ≠ j → dot (M (v i)) (v j) = 0 := by
    intro i j hij
    rcases lt_or_gt_of_ne hij with h | h
    · exact ho i j h
    · have h1 := ho j i h
      rw [← hM.herm] at h1
      rw [← dot_conj, h1, map_zero]
  have hli : LinearIndependent ℂ v := by
    rw [Fintype.linearIndependent_iff]
    intro c hc i
    have h1 : dot (M (v i)) (∑ j, c j • v j) = c i * dot (M (v i)) (v i) := by
      have hsum : ∀ t : Finset (Fin k), dot (M (v i)) (∑ j ∈ t, c j • v j) = ∑ j ∈ t, c j * dot (M (v i)) (v j) := by
        intro t
        induction t using Finset.induction_on with
        | empty => simp [dot_zero_right]
        | insert a t ha ih => rw [Finset.sum_insert ha, Finset.sum_insert ha, dot_add_right, dot_smul_right, ih]
      rw [hsum, Finset.sum_eq_single i]
      · intro j _ hj; rw [ho' i j (Ne.symm hj), mul_zero]
      · intro hi; exact absurd (Finset.mem_univ i) hi
    rw [hc, dot_zero_right] at h1
    have h2 : dot (M (v i)) (v i) ≠ 0 := by rw [← hM.herm]; exact dot_ne_zero hM (h0 i)
    rcases mul_eq_zero.1 h1.symm with h | h
    · exact h
    · exact absurd h h2
  have := hli.fintype_card_le_finrank
  simpa using this

/-! ### C33 -/

/-- **C33.** For every linear operator, right-hand side, start vector, tolerance and iteration limit: a
result that is not NaN carries its true residual, and the loop ended either because the residual norm
dropped to at most `tol` times the first residual norm, or because the iteration limit was reached; the
limit is never exceeded. -/
theorem C33_result (A : Op n) (M : Option (Op n)) (b : Vec n) (x0 : Option (Vec n)) (tol : ℝ)
    (maxIter : Option Nat) (s : State n) (h : Returns A M b x0 tol maxIter (some s)) :
    s.r = b - A s.x ∧
    (norm (b - A s.x) ≤ tol * norm (b - A (start x0)) ∨ maxIter = some s.i) ∧
    (∀ m, maxIter = some m → s.i ≤ m) := by
  have hr := loop_residual h (init_residual A M b x0) s rfl
  have h0 : (init A M b x0).r = b - A (start x0) := by
    rw [init_residual]; cases x0 <;> rfl
  have hc := loop_count h (by intro m _; exact Nat.zero_le m) s rfl
  refine ⟨hr, ?_, hc⟩
  have hs := loop_stop h s rfl
  rw [← hr, ← h0]
  by_contra hcon
  rw [not_or, not_le] at hcon
  refine hs ⟨fun m hm => ?_, hcon.1⟩
  refine lt_of_le_of_ne (hc m hm) fun e => hcon.2 ?_
  rw [hm, e]

/-- **C33.** The outcome is determined. -/
theorem C33_deterministic (A : Op n) (M : Option (Op n)) (b : Vec n) (x0 : Option (Vec n)) (tol : ℝ)
    (maxIter : Option Nat) (o o' : Option (State n)) (h : Returns A M b x0 tol maxIter o)
    (h' : Returns A M b x0 tol maxIter o') : o = o' := loop_unique h h'

theorem loop_terminates {A : Op n} {M : Option (Op n)} (hA : HPD A) (hM : HPD (precondOp M)) (tol : ℝ)
    (ht : 0 ≤ tol) (mi : Option Nat) (s : Nat → State n) (k : Nat) (hi : (s k).i = k)
    (hk : Orth A (precondOp M) s k) (hne : ∀ j < k, (s j).r ≠ 0) (hkn : k ≤ n) :
    ∃ s', Loop A M tol mi (s k) (some s') ∧ s'.i ≤ n ∧ (s'.i = n → s'.r = 0) := by
  induction d : n - k generalizing k s with
  | zero =>
    have hkn' : k = n := by omega
    have hr0 : (s k).r = 0 := by
      by_contra hr
      have := card_orthogonal hM (k + 1) (fun i => (s i.val).r)
        (fun i => by
          rcases Nat.lt_succ_iff_lt_or_eq.1 i.isLt with h | h
          · exact hne _ h
          · rw [h]; exact hr)
        (fun i j hij => hk.rr j.val (by omega) i.val hij)
      omega
    refine ⟨s k, .stop _ ?_, by omega, fun _ => hr0⟩
    rintro ⟨_, h⟩
    rw [hr0, norm_eq_zero.2 rfl] at h
    linarith
  | succ d ih =>
    by_cases hc : Continue tol mi (s k)
    · have hr : (s k).r ≠ 0 := norm_pos.1 (lt_of_le_of_lt ht hc.2)
      have hg : (s k).gamma ≠ 0 := by rw [hk.gamma k le_rfl]; exact dot_ne_zero hM hr
      have hp : (s k).p ≠ 0 := by
        intro h0
        apply hg
        rw [← hk.ppr k le_rfl, h0, dot_zero_left]
      have hd := dot_ne_zero hA hp
      obtain ⟨s1, hs1⟩ := step_isSome (M := M) hd hg
      obtain ⟨_, _, e1, _, e2, e3, e4⟩ := step_some hs1
      let t : Nat → State n := fun j => if j ≤ k then s j else s1
      have ht1 : ∀ j ≤ k, t j = s j := fun j hj => by simp [t, hj]
      have ht2 : t (k + 1) = s1 := by simp [t]
      have hk' : Orth A (precondOp M) t k := by
        refine ⟨?_, ?_, ?_, ?_, ?_, ?_, ?_⟩
        · intro j hj
          rw [ht1 j (by omega), ht1 (j + 1) (by omega)]
          exact hk.steps j hj
        · intro j hj; rw [ht1 j hj]; exact hk.gamma j hj
        · rw [ht1 0 (by omega)]; exact hk.p0
        · intro j hj i hij; rw [ht1 j hj, ht1 i (by omega)]; exact hk.pr j hj i hij
        · intro j hj; rw [ht1 j hj]; exact hk.ppr j hj
        · intro j hj i hij; rw [ht1 j hj, ht1 i (by omega)]; exact hk.rr j hj i hij
        · intro j hj i hij; rw [ht1 j hj, ht1 i (by omega)]; exact hk.pap j hj i hij
      have hk1 : Orth A (precondOp M) t (k + 1) := by
        refine orth_succ hA hM hk' ?_ ?_ ?_ ?_ ?_ <;> (try rw [ht2]) <;> (try rw [ht1 k le_rfl]) <;> assumption
      obtain ⟨s', hs', hn⟩ := ih t (k + 1) (by rw [ht2, e1, hi]) hk1
        (fun j hj => by
          rw [ht1 j (by omega)]
          rcases Nat.lt_succ_iff_lt_or_eq.1 hj with h | rfl
          · exact hne j h
          · exact hr) (by omega) (by omega)
      rw [ht2] at hs'
      exact ⟨s', .next _ _ _ hc hs1 hs', hn⟩
    · exact ⟨s k, .stop _ hc, by omega, by omega⟩

/-- **C33.** For a Hermitian positive definite operator (and preconditioner, if given) and a tolerance
that is not negative, the solver ends without dividing by zero after at most `n` steps, whatever the
right-hand side, start vector and iteration limit; if it makes all `n` steps the result is exact. -/
theorem C33_terminates (A : Op n) (M : Option (Op n)) (hA : HPD A) (hM : ∀ P, M = some P → HPD P)
    (b : Vec n) (x0 : Option (Vec n)) (tol : ℝ) (ht : 0 ≤ tol) (maxIter : Option Nat) :
    ∃ s, Returns A M b x0 tol maxIter (some s) ∧ s.i ≤ n ∧ (s.i = n → A s.x = b) := by
  have hM' : HPD (precondOp M) := by
    cases M with
    | none => exact hpd_id
    | some P => exact hM P rfl
  have hp0 : (init A M b x0).p = precondOp M (init A M b x0).r := by
    rw [← precond_eq]; rfl
  have hg0 : (init A M b x0).gamma = dot (init A M b x0).r (precondOp M (init A M b x0).r) := by
    rw [← hp0]; rfl
  have horth : Orth A (precondOp M) (fun _ => init A M b x0) 0 := by
    refine ⟨by simp, ?_, hp0, by simp, ?_, by simp, by simp⟩
    · intro j _; exact hg0
    · intro j _
      rw [hp0, ← hM'.herm, ← hg0]
  obtain ⟨s, h1, h2, h3⟩ := loop_terminates hA hM' _ (mul_nonneg ht (norm_nonneg _)) maxIter
    (fun _ => init A M b x0) 0 rfl horth (by simp) (Nat.zero_le n)
  refine ⟨s, h1, h2, fun e => ?_⟩
  have := loop_residual h1 (init_residual A M b x0) s rfl
  rw [h3 e] at this
  exact (sub_eq_zero.1 this.symm).symm

/-- **C33.** Without an iteration limit (or with one of at least `n`) and with tolerance zero, the
result is the exact solution, and the only one. -/
theorem C33_exact (A : Op n) (M : Option (Op n)) (hA : HPD A) (hM : ∀ P, M = some P → HPD P)
    (b : Vec n) (x0 : Option (Vec n)) (maxIter : Option Nat) (hmi : ∀ m, maxIter = some m → n ≤ m) :
    ∃ s, Returns A M b x0 0 maxIter (some s) ∧ s.i ≤ n ∧ A s.x = b ∧ ∀ y, A y = b → y = s.x := by
  obtain ⟨s, hs, hn, hz⟩ := C33_terminates A M hA hM b x0 0 le_rfl maxIter
  have hr := C33_result A M b x0 0 maxIter s hs
  have hA' : A s.x = b := by
    rcases hr.2.1 with h | h
    · rw [zero_mul] at h
      exact (sub_eq_zero.1 (norm_eq_zero.1 (le_antisymm h (norm_nonneg _)))).symm
    · exact hz (le_antisymm hn (hmi _ h))
  refine ⟨s, hs, hn, hA', fun y hy => ?_⟩
  by_contra hne
  have h0 : A (y - s.x) = 0 := by rw [map_sub, hy, hA', sub_self]
  exact dot_ne_zero hA (sub_ne_zero.2 hne) (by rw [h0, dot_zero_right])

/-- A positive definite operator that is not a multiple of the identity: the hypotheses of C33 can be
met. -/
noncomputable def sampleOp : Op 2 := Matrix.toLin' !![2, Complex.I; -Complex.I, 2]

example : HPD sampleOp := by
  constructor
  · intro x y
    simp only [dot, sampleOp, Matrix.toLin'_apply, Fin.sum_univ_two, Matrix.mulVec, dotProduct,
      Matrix.cons_val_zero, Matrix.cons_val_one, Matrix.of_apply, map_add, map_mul, Complex.conj_I, map_neg,
      map_ofNat]
    ring
  · intro x hx
    have key : (dot x (sampleOp x)).re =
        ((x 0).re - (x 1).im) ^ 2 + ((x 0).im + (x 1).re) ^ 2 + ((x 0).re ^ 2 + (x 0).im ^ 2) +
          ((x 1).re ^ 2 + (x 1).im ^ 2) := by
      simp [dot, sampleOp, Fin.sum_univ_two, Matrix.mulVec, dotProduct]
      ring
    rw [key]
    by_contra hcon
    apply hx
    have h1 := sq_nonneg ((x 0).re - (x 1).im)
    have h2 := sq_nonneg ((x 0).im + (x 1).re)
    have h3 := sq_nonneg (x 0).re
    have h4 := sq_nonneg (x 0).im
    have h5 := sq_nonneg (x 1).re
    have h6 := sq_nonneg (x 1).im
    have e3 : (x 0).re = 0 := pow_eq_zero_iff (two_ne_zero) |>.1 (by linarith)
    have e4 : (x 0).im = 0 := pow_eq_zero_iff (two_ne_zero) |>.1 (by linarith)
    have e5 : (x 1).re = 0 := pow_eq_zero_iff (two_ne_zero) |>.1 (by linarith)
    have e6 : (x 1).im = 0 := pow_eq_zero_iff (two_ne_zero) |>.1 (by linarith)
    funext k
    fin_cases k
    · exact Complex.ext e3 e4
    · exact Complex.ext e5 e6

/-- For an operator that is not definite a step can divide by zero, so positivity is needed. -/
example : Returns (0 : Op 1) none (fun _ => 1) none (1 / 2) none none := by
  have h1 : norm (fun _ : Fin 1 => (1 : ℂ)) = 1 := by simp [norm]
  refine .nan _ ⟨by simp, ?_⟩ ?_
  · show 1 / 2 * norm (fun _ : Fin 1 => (1 : ℂ)) < norm (fun _ : Fin 1 => (1 : ℂ))
    rw [h1]; norm_num
  · simp [step, divide, dot_zero_right]

end Verif.Optimizers.CG
