import Verif.Training.Accumulate
import Mathlib.Algebra.BigOperators.Group.Finset.Basic
import Mathlib.Algebra.Module.BigOperators
import Mathlib.Algebra.Order.BigOperators.Group.Finset
import Mathlib.Algebra.Field.GeomSum
import Mathlib.Tactic.Module
import Mathlib.Tactic.Ring
import Mathlib.Tactic.Linarith
import Mathlib.Tactic.FieldSimp
import Mathlib.Tactic.NormNum

/-!
# C27, C28, C29: gradient accumulation and weight averaging
-/
namespace Verif.Training

open Finset

variable {Opt G P B : Type} [AddCommGroup G] [Module ℝ G] [AddCommGroup P] [Module ℝ P]

/-! ### Specification -/

/-- Specification of large-batch training: one optimizer update per group of mini-batches, with the
sum (or the mean) of the mini-batch gradients, all taken at the same parameters. -/
noncomputable def bigBatchTrain (o : Optimizer Opt G P) (sumMode : Bool) (grad : P → B → G) (opt : Opt)
    (groups : List (List B)) : Opt :=
  groups.foldl (fun opt group =>
    let total := (group.map (grad (o.params opt))).sum
    o.update opt (if sumMode then total else (1 / (group.length : ℝ)) • total)) opt

/-! ### Helper lemmas -/

theorem mod_add_lt {a f j : Nat} (h : a % f + j < f) : (a + j) % f = a % f + j := by
  rw [Nat.add_mod, Nat.mod_eq_of_lt (a := j) (by omega), Nat.mod_eq_of_lt h]

theorem mod_add_eq {a f j : Nat} (hj : a % f + j = f) : (a + j) % f = 0 := by
  have h1 : a + j = f * (a / f + 1) := by
    have := Nat.div_add_mod a f
    rw [mul_add, mul_one]; omega
  rw [h1, Nat.mul_mod_right]

/-- Contribution of a list of mini-batches to the accumulators at fixed parameters. -/
noncomputable def contribution (cfg : AccConfig) (f : Nat) (gs : List G) : G :=
  if cfg.accumulateSum then gs.sum else (1 / (f : ℝ)) • gs.sum

theorem contribution_cons (cfg : AccConfig) (f : Nat) (g : G) (gs : List G) :
    contribution cfg f (g :: gs) =
      (if cfg.accumulateSum then g else (1 / (f : ℝ)) • g) + contribution cfg f gs := by
  unfold contribution; split <;> simp

theorem contribution_append (cfg : AccConfig) (f : Nat) (a b : List G) :
    contribution cfg f (a ++ b) = contribution cfg f a + contribution cfg f b := by
  unfold contribution; split <;> simp

/-- Steps inside a group that do not reach the end of it. -/
theorem accTrain_inside (o : Optimizer Opt G P) (cfg : AccConfig) (grad : P → B → G)
    (f : Nat) (bs : List B) : ∀ (st : AccState Opt G P),
    st.updateParamsFrequency = f → st.accumulatedIterations % f + bs.length < f →
    accTrain o cfg grad st bs =
      { st with
        accumulators := st.accumulators + contribution cfg f (bs.map (grad (o.params st.opt)))
        accumulatedIterations := st.accumulatedIterations + bs.length } := by
  induction bs with
  | nil => intro st _ _; cases st; simp [accTrain, contribution]
  | cons b bs ih =>
    intro st hf hlt
    rw [List.length_cons] at hlt
    have hmod : (st.accumulatedIterations + 1) % f = st.accumulatedIterations % f + 1 :=
      mod_add_lt (by omega)
    have hstep : accStep o cfg st (grad (o.params st.opt) b) =
        { st with
          accumulators := st.accumulators +
            (if cfg.accumulateSum then grad (o.params st.opt) b
              else (1 / (f : ℝ)) • grad (o.params st.opt) b)
          accumulatedIterations := st.accumulatedIterations + 1 } := by
      unfold accStep
      simp only [hf]
      rw [if_neg (by omega)]
    have : accTrain o cfg grad st (b :: bs) =
        accTrain o cfg grad (accStep o cfg st (grad (o.params st.opt) b)) bs := rfl
    rw [this, hstep, ih _ (by exact hf) (by simp only [hmod]; omega)]
    simp only [List.map_cons, contribution_cons, List.length_cons]
    congr 1
    · rw [add_assoc]
    · omega

/-- Steps up to and including the one that updates. -/
theorem accTrain_to_update (o : Optimizer Opt G P) (cfg : AccConfig) (grad : P → B → G)
    (f : Nat) (bs : List B) (st : AccState Opt G P) (hf : st.updateParamsFrequency = f)
    (hlen : st.accumulatedIterations % f + bs.length = f) (hpos : 0 < bs.length) :
    accTrain o cfg grad st bs =
      (let opt' := o.update st.opt
        (st.accumulators + contribution cfg f (bs.map (grad (o.params st.opt))))
      { opt := opt'
        accumulators := 0
        accumulatedIterations := st.accumulatedIterations + bs.length
        updateParamsFrequency := f
        paramsEma := cfg.emaDecay • st.paramsEma + (1 - cfg.emaDecay) • o.params opt'
        totalIterations := st.totalIterations + 1 }) := by
  obtain ⟨init, last, rfl⟩ : ∃ init last, bs = init ++ [last] := by
    have hne : bs ≠ [] := by rintro rfl; simp at hpos
    exact ⟨bs.dropLast, bs.getLast hne, (List.dropLast_append_getLast hne).symm⟩
  rw [List.length_append, List.length_singleton] at hlen
  have h1 : accTrain o cfg grad st (init ++ [last]) =
      (fun st => accStep o cfg st (grad (o.params st.opt) last)) (accTrain o cfg grad st init) := by
    simp [accTrain]
  rw [h1, accTrain_inside o cfg grad f init st hf (by omega)]
  simp only [accStep, hf]
  rw [if_pos (by rw [Nat.add_assoc]; exact mod_add_eq hlen)]
  simp only [List.map_append, List.map_cons, List.map_nil, contribution_append, List.length_append,
    List.length_singleton, add_assoc]
  have : contribution cfg f [grad (o.params st.opt) last] =
      (if cfg.accumulateSum then grad (o.params st.opt) last
        else (1 / (f : ℝ)) • grad (o.params st.opt) last) := by
    rw [contribution_cons]; simp [contribution]
  rw [this]

theorem contribution_full (cfg : AccConfig) (gs : List G) :
    contribution cfg gs.length gs =
      if cfg.accumulateSum then gs.sum else (1 / (gs.length : ℝ)) • gs.sum := rfl

/-- State after whole groups. -/
theorem accTrain_groups (o : Optimizer Opt G P) (cfg : AccConfig) (grad : P → B → G) (f : Nat)
    (hf : 0 < f) (groups : List (List B)) : (∀ g ∈ groups, g.length = f) →
    ∀ st : AccState Opt G P, st.updateParamsFrequency = f → st.accumulators = 0 →
      st.accumulatedIterations % f = 0 →
    let st' := accTrain o cfg grad st groups.flatten
    st'.opt = bigBatchTrain o cfg.accumulateSum grad st.opt groups ∧
    st'.accumulators = 0 ∧ st'.accumulatedIterations % f = 0 ∧ st'.updateParamsFrequency = f ∧
    st'.totalIterations = st.totalIterations + groups.length := by
  induction groups with
  | nil => intro _ st h1 h2 h3; simp [accTrain, bigBatchTrain, h1, h2, h3]
  | cons g groups ih =>
    intro hg st h1 h2 h3
    have hgl : g.length = f := hg g (by simp)
    have happ : accTrain o cfg grad st (g :: groups).flatten =
        accTrain o cfg grad (accTrain o cfg grad st g) groups.flatten := by
      simp [accTrain]
    have hup := accTrain_to_update o cfg grad f g st h1 (by omega) (by omega)
    simp only [h2, zero_add] at hup
    obtain ⟨i1, i2, i3, i4, i5⟩ := ih (fun g' hg' => hg g' (by simp [hg']))
      (accTrain o cfg grad st g) (by rw [hup]) (by rw [hup])
      (by rw [hup]; simp only; rw [hgl, Nat.add_mod_right]; exact h3)
    simp only at i1 i2 i3 i4 i5 ⊢
    rw [happ]
    refine ⟨?_, i2, i3, i4, ?_⟩
    · rw [i1, hup]
      simp only [bigBatchTrain, List.foldl_cons]
      congr 2
      rw [← hgl]
      simp [contribution]
    · rw [i5, hup]; simp only [List.length_cons]; omega

/-! ### C27 -/

/-- C27: starting from a converted optimizer with frequency `f`, training on any sequence of
mini-batches (written as full groups of `f` followed by an incomplete rest) leaves the wrapped
optimizer and the parameters exactly where large-batch training on the full groups does. In
particular nothing moves during the incomplete rest. -/
theorem C27_accumulation_is_big_batch (o : Optimizer Opt G P) (cfg : AccConfig) (grad : P → B → G)
    (opt : Opt) (f : Nat) (st0 : AccState Opt G P) (h0 : convert opt f = some st0)
    (groups : List (List B)) (hgroups : ∀ g ∈ groups, g.length = f) (rest : List B)
    (hrest : rest.length < f) :
    (accTrain o cfg grad st0 (groups.flatten ++ rest)).opt =
      bigBatchTrain o cfg.accumulateSum grad opt groups := by
  unfold convert at h0
  split at h0
  · exact absurd h0 (by simp)
  · rename_i hf
    simp only [Option.some.injEq] at h0
    subst h0
    obtain ⟨h1, h2, h3, h4, -⟩ := accTrain_groups o cfg grad f (by omega) groups hgroups
      (⟨opt, 0, 0, f, 0, 0⟩ : AccState Opt G P) rfl rfl (by simp)
    have happ : accTrain o cfg grad (⟨opt, 0, 0, f, 0, 0⟩ : AccState Opt G P) (groups.flatten ++ rest) =
        accTrain o cfg grad (accTrain o cfg grad ⟨opt, 0, 0, f, 0, 0⟩ groups.flatten) rest := by
      simp [accTrain]
    simp only at h1 h2 h3 h4
    rw [happ, accTrain_inside o cfg grad f rest _ h4 (by omega)]
    exact h1

/-- C27: frequencies below one are rejected. -/
theorem C27_rejects (opt : Opt) (f : Nat) :
    (convert opt f : Option (AccState Opt G P)) = none ↔ f = 0 := by
  unfold convert; split <;> simp <;> omega

/-- Two full groups of two mini-batches and an incomplete rest, plain gradient descent. -/
example : ∃ st0 : AccState ℝ ℝ ℝ, convert (3 : ℝ) 2 = some st0 ∧
    (∀ g ∈ [[(1 : ℝ), 2], [3, 4]], g.length = 2) ∧ [(5 : ℝ)].length < 2 := by
  exact ⟨_, rfl, by simp, by simp⟩

/-! ### C28 -/

/-- C28, exact behaviour of the first update after the frequency is set to `k` at any moment: it
happens after `k - iterations % k` further mini-batches and uses those plus whatever was still
accumulated (accumulated with the old frequency). -/
theorem C28_first_update_after_change (o : Optimizer Opt G P) (cfg : AccConfig) (grad : P → B → G)
    (st : AccState Opt G P) (k : Nat) (hk : 0 < k) (bs : List B)
    (hbs : bs.length = k - st.accumulatedIterations % k) :
    (accTrain o cfg grad (setUpdateParamsFrequency st k) bs).opt =
      o.update st.opt (st.accumulators +
        (let total := (bs.map (grad (o.params st.opt))).sum
         if cfg.accumulateSum then total else (1 / (k : ℝ)) • total)) := by
  have hlt := Nat.mod_lt st.accumulatedIterations hk
  rw [accTrain_to_update o cfg grad k bs (setUpdateParamsFrequency st k) rfl
    (by simp only [setUpdateParamsFrequency]; omega) (by omega)]
  rfl

/-- C28, partial: if the change happens right after an update and the step counter is a multiple of
the new frequency, all further updates use exactly `k` mini-batches. Missing: changes at any other
moment, where the claim is false (`C28_violated`). -/
theorem C28_change_partial (o : Optimizer Opt G P) (cfg : AccConfig) (grad : P → B → G)
    (st : AccState Opt G P) (k : Nat) (hk : 0 < k) (hacc : st.accumulators = 0)
    (hiter : st.accumulatedIterations % k = 0) (groups : List (List B))
    (hgroups : ∀ g ∈ groups, g.length = k) :
    (accTrain o cfg grad (setUpdateParamsFrequency st k) groups.flatten).opt =
      bigBatchTrain o cfg.accumulateSum grad st.opt groups :=
  (accTrain_groups o cfg grad k hk groups hgroups (setUpdateParamsFrequency st k) rfl hacc hiter).1

/-- An optimizer that records the gradients it is given. -/
def recorder : Optimizer (List ℝ) ℝ Unit := ⟨fun l g => l ++ [g], fun _ => (), fun l _ => l⟩

/-- C28 is violated: with every mini-batch contributing the gradient `1`, the sum an update receives
counts the mini-batches it uses. Training 4 steps with frequency 4, then setting frequency 3 and
training 3 more steps gives updates that used 4 and then 2 mini-batches. Changing from 4 to 2 in the
middle of a group gives an update of 2 mini-batches of which one was taken before the change. -/
theorem C28_violated :
    let grad : Unit → Unit → ℝ := fun _ _ => 1
    ∃ st0 : AccState (List ℝ) ℝ Unit, convert [] 4 = some st0 ∧
      (accTrain recorder ⟨true, 0⟩ grad (setUpdateParamsFrequency
        (accTrain recorder ⟨true, 0⟩ grad st0 [(), (), (), ()]) 3) [(), (), ()]).opt = [4, 2] ∧
      (accTrain recorder ⟨true, 0⟩ grad (setUpdateParamsFrequency
        (accTrain recorder ⟨true, 0⟩ grad st0 [()]) 2) [()]).opt = [2] := by
  refine ⟨_, rfl, ?_, ?_⟩
  · simp [accTrain, accStep, setUpdateParamsFrequency, recorder]; norm_num
  · simp [accTrain, accStep, setUpdateParamsFrequency, recorder]; norm_num

/-! ### C29 -/

/-- Optimizers whose parameters can be overwritten. -/
structure Lawful (o : Optimizer Opt G P) : Prop where
  params_set : ∀ opt p, o.params (o.setParams opt p) = p
  set_set : ∀ opt p q, o.setParams (o.setParams opt p) q = o.setParams opt q

/-- Moving average after whole groups, as a weighted sum over the parameters after each update. -/
theorem accTrain_ema (o : Optimizer Opt G P) (cfg : AccConfig) (grad : P → B → G) (f : Nat)
    (hf : 0 < f) (groups : List (List B)) : (∀ g ∈ groups, g.length = f) →
    ∀ st : AccState Opt G P, st.updateParamsFrequency = f → st.accumulators = 0 →
      st.accumulatedIterations % f = 0 →
    (accTrain o cfg grad st groups.flatten).paramsEma =
      cfg.emaDecay ^ groups.length • st.paramsEma +
      ∑ i ∈ range groups.length, (cfg.emaDecay ^ (groups.length - 1 - i) * (1 - cfg.emaDecay)) •
        o.params (bigBatchTrain o cfg.accumulateSum grad st.opt (groups.take (i + 1))) := by
  induction groups with
  | nil => intro _ st _ _ _; simp [accTrain]
  | cons g groups ih =>
    intro hg st h1 h2 h3
    have hgl : g.length = f := hg g (by simp)
    have happ : accTrain o cfg grad st (g :: groups).flatten =
        accTrain o cfg grad (accTrain o cfg grad st g) groups.flatten := by
      simp [accTrain]
    have hup := accTrain_to_update o cfg grad f g st h1 (by omega) (by omega)
    have hopt : (accTrain o cfg grad st g).opt =
        bigBatchTrain o cfg.accumulateSum grad st.opt [g] := by
      rw [hup]
      simp only [bigBatchTrain, List.foldl_cons, List.foldl_nil, h2, zero_add]
      rw [← hgl]
      simp [contribution]
    have hcomp : ∀ gs : List (List B), bigBatchTrain o cfg.accumulateSum grad
        (bigBatchTrain o cfg.accumulateSum grad st.opt [g]) gs =
        bigBatchTrain o cfg.accumulateSum grad st.opt (g :: gs) := fun gs => rfl
    have hi := ih (fun g' hg' => hg g' (by simp [hg'])) (accTrain o cfg grad st g)
      (by rw [hup]) (by rw [hup])
      (by rw [hup]; simp only; rw [hgl, Nat.add_mod_right]; exact h3)
    rw [happ, hi, List.length_cons, Finset.sum_range_succ']
    have hema : (accTrain o cfg grad st g).paramsEma = cfg.emaDecay • st.paramsEma +
        (1 - cfg.emaDecay) • o.params (bigBatchTrain o cfg.accumulateSum grad st.opt [g]) := by
      rw [← hopt]; rw [hup]
    rw [hema, hopt]
    simp only [hcomp, List.take_succ_cons, List.take_zero]
    have hexp : ∀ i, groups.length + 1 - 1 - (i + 1) = groups.length - 1 - i := by intro i; omega
    simp only [hexp]
    simp only [Nat.add_sub_cancel, Nat.sub_zero]
    rw [smul_add, smul_smul, smul_smul, ← pow_succ, add_assoc]
    congr 1
    rw [add_comm]

/-- C29: after training with weight averaging on `n ≥ 1` full groups (and an incomplete rest),
`set_weights_ema` replaces the parameters by a weighted mean of the parameters after each of the `n`
updates; the weights are `decay^(n-1-i)` up to a common factor, are positive and sum to one. -/
theorem C29_ema_is_average (o : Optimizer Opt G P) (hlaw : Lawful o) (cfg : AccConfig)
    (hd0 : 0 < cfg.emaDecay) (hd1 : cfg.emaDecay < 1) (grad : P → B → G) (opt : Opt) (f : Nat)
    (st0 : AccState Opt G P) (h0 : convert opt f = some st0) (groups : List (List B))
    (hne : groups ≠ []) (hgroups : ∀ g ∈ groups, g.length = f) (rest : List B)
    (hrest : rest.length < f) :
    ∃ st1, setWeightsEma o cfg (accTrain o cfg grad st0 (groups.flatten ++ rest)) = some st1 ∧
    ∃ w : Nat → ℝ, (∃ c, ∀ i, w i = c * cfg.emaDecay ^ (groups.length - 1 - i)) ∧
      (∀ i, 0 < w i) ∧ ∑ i ∈ range groups.length, w i = 1 ∧
      o.params st1.opt = ∑ i ∈ range groups.length,
        w i • o.params (bigBatchTrain o cfg.accumulateSum grad opt (groups.take (i + 1))) := by
  set d := cfg.emaDecay with hd
  set n := groups.length with hn
  have hnpos : n ≠ 0 := by rw [hn]; simpa using hne
  have hpow : d ^ n < 1 := pow_lt_one₀ hd0.le hd1 hnpos
  have hden : 0 < 1 - d ^ n := by linarith
  unfold convert at h0
  split at h0
  · exact absurd h0 (by simp)
  rename_i hf
  simp only [Option.some.injEq] at h0
  subst h0
  obtain ⟨h1, h2, h3, h4, h5⟩ := accTrain_groups o cfg grad f (by omega) groups hgroups
    (⟨opt, 0, 0, f, 0, 0⟩ : AccState Opt G P) rfl rfl (by simp)
  have hema := accTrain_ema o cfg grad f (by omega) groups hgroups
    (⟨opt, 0, 0, f, 0, 0⟩ : AccState Opt G P) rfl rfl (by simp)
  have happ : accTrain o cfg grad (⟨opt, 0, 0, f, 0, 0⟩ : AccState Opt G P) (groups.flatten ++ rest) =
      accTrain o cfg grad (accTrain o cfg grad ⟨opt, 0, 0, f, 0, 0⟩ groups.flatten) rest := by
    simp [accTrain]
  simp only at h1 h2 h3 h4 h5
  rw [happ, accTrain_inside o cfg grad f rest _ h4 (by omega)]
  have htot : (accTrain o cfg grad (⟨opt, 0, 0, f, 0, 0⟩ : AccState Opt G P) groups.flatten).totalIterations
      = n := by rw [h5]; simp [hn]
  refine ⟨_, by unfold setWeightsEma; simp only [htot]; rw [if_neg (by rw [← hd]; linarith)],
    fun i => (1 - d) / (1 - d ^ n) * d ^ (n - 1 - i), ⟨_, fun i => rfl⟩, ?_, ?_, ?_⟩
  · intro i
    have : 0 < 1 - d := by linarith
    positivity
  · rw [← Finset.mul_sum, Finset.sum_range_reflect (fun j => d ^ j) n, geom_sum_eq hd1.ne]
    have h1d : d - 1 ≠ 0 := by intro h; linarith
    field_simp
    ring
  · simp only [hlaw.params_set]
    rw [hema]
    simp only [smul_zero, zero_add, ← hn, ← hd]
    rw [Finset.smul_sum]
    apply Finset.sum_congr rfl
    intro i _
    rw [smul_smul]
    congr 1
    field_simp

/-- C29: averaging is idempotent: a second `set_weights_ema` changes nothing. -/
theorem C29_ema_idempotent (o : Optimizer Opt G P) (hlaw : Lawful o) (cfg : AccConfig)
    (st st1 : AccState Opt G P) (h : setWeightsEma o cfg st = some st1) :
    setWeightsEma o cfg st1 = some st1 := by
  unfold setWeightsEma at h
  split at h
  · exact absurd h (by simp)
  · rename_i hz
    simp only [Option.some.injEq] at h
    subst h
    unfold setWeightsEma
    simp only
    rw [if_neg hz]
    simp only [hlaw.set_set]

/-- C29: if all updates leave the parameters at the same value, averaging keeps that value. -/
theorem C29_ema_constant (o : Optimizer Opt G P) (hlaw : Lawful o) (cfg : AccConfig)
    (hd0 : 0 < cfg.emaDecay) (hd1 : cfg.emaDecay < 1) (grad : P → B → G) (opt : Opt) (f : Nat)
    (st0 : AccState Opt G P) (h0 : convert opt f = some st0) (groups : List (List B))
    (hne : groups ≠ []) (hgroups : ∀ g ∈ groups, g.length = f) (p : P)
    (hconst : ∀ i, i < groups.length →
      o.params (bigBatchTrain o cfg.accumulateSum grad opt (groups.take (i + 1))) = p) :
    ∃ st1, setWeightsEma o cfg (accTrain o cfg grad st0 groups.flatten) = some st1 ∧
      o.params st1.opt = p := by
  have hf : 0 < f := by
    by_contra hc
    have : (convert opt f : Option (AccState Opt G P)) = none := by unfold convert; rw [if_pos (by omega)]
    rw [this] at h0; exact absurd h0 (by simp)
  obtain ⟨st1, h1, w, -, -, hsum, hp⟩ := C29_ema_is_average o hlaw cfg hd0 hd1 grad opt f st0 h0 groups
    hne hgroups [] (by simpa using hf)
  rw [List.append_nil] at h1
  refine ⟨st1, h1, ?_⟩
  rw [hp]
  have : ∑ i ∈ range groups.length,
      w i • o.params (bigBatchTrain o cfg.accumulateSum grad opt (groups.take (i + 1))) =
      ∑ i ∈ range groups.length, w i • p := by
    apply Finset.sum_congr rfl
    intro i hi
    rw [hconst i (Finset.mem_range.mp hi)]
  rw [this, ← Finset.sum_smul, hsum, one_smul]

/-- C29: before the first update there is no average (the code divides by zero). -/
theorem C29_ema_before_update (o : Optimizer Opt G P) (cfg : AccConfig) (st : AccState Opt G P)
    (h : st.totalIterations = 0) : setWeightsEma o cfg st = none := by
  unfold setWeightsEma; simp [h]

/-- Plain gradient descent on the reals is lawful, and the other hypotheses can be met. -/
example : Lawful (⟨fun w g => w - g, id, fun _ p => p⟩ : Optimizer ℝ ℝ ℝ) ∧
    (0 : ℝ) < 1 / 2 ∧ (1 / 2 : ℝ) < 1 ∧ (∃ st0 : AccState ℝ ℝ ℝ, convert (3 : ℝ) 2 = some st0) := by
  exact ⟨⟨fun _ _ => rfl, fun _ _ _ => rfl⟩, by norm_num, by norm_num, _, rfl⟩

end Verif.Training
