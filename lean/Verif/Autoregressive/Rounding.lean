import Verif.Autoregressive.Props

/-!
# Property C140: sampling with rounding errors and random numbers of finite resolution

The other theorems on `AutoregressiveSampler` are about exact arithmetic and real random numbers. On a computer the
conditional probabilities carry rounding errors and `numpy.random.rand` returns multiples of `2^-53`. The effect on the
distribution of the batches is bounded here, for every number of sites.
-/
namespace Verif.Autoregressive

open Verif.Operators Verif.Energy MeasureTheory

variable {ι : Type} [Fintype ι] [DecidableEq ι]

/-! ### Specification -/

/-- Independent random numbers with distribution `ν`, one for each row of the batch and site
(deepar/samplers/autoregressive.py:31). -/
noncomputable def randOf (ν : Measure ℝ) (B : Nat) (ι : Type) [Fintype ι] : Measure (Fin B → ι → ℝ) :=
  Measure.pi fun _ => Measure.pi fun _ => ν

/-- Random numbers whose distribution differs by at most `η` from the uniform one on the unit interval: `η` bounds the error of
the probability to fall below a threshold. -/
structure UniformUpTo (ν : Measure ℝ) (η : ℝ) : Prop where
  prob : IsProbabilityMeasure ν
  below : ∀ x, |(ν (Set.Iio x)).toReal - max 0 (min x 1)| ≤ η

/-- The squared amplitude of each row, multiplied: the exact distribution of the batch (C36). -/
noncomputable def exactLaw {B : Nat} (net : Net ι) (S : Fin B → Config ι) : ℝ := ∏ b, ‖Complex.exp (logWave net (S b))‖ ^ 2

/-! ### Products of conditional probabilities -/

/-- Probability of a configuration if site `i` is up with probability `t s i`. -/
noncomputable def law (t : Config ι → ι → ℝ) (s : Config ι) : ℝ := ∏ i, if s i = 1 then t s i else 1 - t s i

/-- Decisions with thresholds. -/
noncomputable def below (t : Config ι → ι → ℝ) (u : ι → ℝ) (s : Config ι) (i : ι) : ℤ := if t s i > u i then 1 else -1

omit [Fintype ι] in
theorem below_causal {t : Config ι → ι → ℝ} {order : List ι} (h : Causal order t) (u : ι → ℝ) : Causal order (below t u) := by
  intro s s' i hs
  unfold below
  rw [h s s' i hs]

theorem below_set (p : ℝ) (h0 : 0 ≤ p) (h1 : p ≤ 1) (x : ℤ) (hx : x = 1 ∨ x = -1) :
    unif {v | x = if p > v then 1 else -1} = ENNReal.ofReal (if x = 1 then p else 1 - p) := by
  rcases hx with rfl | rfl
  · have : {v : ℝ | (1 : ℤ) = if p > v then 1 else -1} = {v | p > v} := by
      ext v
      by_cases h : p > v <;> simp [h]
    rw [this, unif_lt p h0 h1, if_pos rfl]
  · have : {v : ℝ | (-1 : ℤ) = if p > v then 1 else -1} = {v | ¬ p > v} := by
      ext v
      by_cases h : p > v <;> simp [h]
    rw [this, unif_ge p h0 h1, if_neg (by norm_num)]

/-- The probabilities of all configurations add up to one. -/
theorem law_sum (t : Config ι → ι → ℝ) (h0 : ∀ s i, 0 ≤ t s i) (h1 : ∀ s i, t s i ≤ 1) (order : List ι) (ho : Complete order)
    (hc : Causal order t) : ∑ s ∈ allSpins ι, law t s = 1 := by
  have hnn : ∀ s i, 0 ≤ (if s i = 1 then t s i else 1 - t s i) := fun s i => by
    split
    · exact h0 s i
    · linarith [h1 s i]
  have hspin : ∀ u : ι → ℝ, IsSpin (decideAll (below t u) order fun _ => 0) := by
    intro u i
    rw [decideAll_fixed _ order ho (below_causal hc u)]
    unfold below
    split
    · exact Or.inl rfl
    · exact Or.inr rfl
  let box : Config ι → Set (ι → ℝ) := fun s => {u | decideAll (below t u) order (fun _ => 0) = s}
  have hbox : ∀ s, box s = Set.pi Set.univ fun i => {v | s i = if t s i > v then 1 else -1} := by
    intro s
    ext u
    simp only [box, Set.mem_ofPred_eq, Set.mem_pi, Set.mem_univ, forall_true_left,
      decideAll_eq_iff _ order ho (below_causal hc u)]
    rfl
  have hmeas : ∀ s, MeasurableSet (box s) := by
    intro s
    rw [hbox]
    refine MeasurableSet.univ_pi fun i => ?_
    have : Measurable fun v : ℝ => (if t s i > v then (1 : ℤ) else -1) :=
      Measurable.ite measurableSet_Iio measurable_const measurable_const
    have hm := this (measurableSet_singleton (s i))
    have heq : {v : ℝ | s i = if t s i > v then 1 else -1} = (fun v : ℝ => (if t s i > v then (1 : ℤ) else -1)) ⁻¹' {s i} := by
      ext v
      exact eq_comm
    rw [heq]
    exact hm
  have hvol : ∀ s ∈ allSpins ι, (Measure.pi fun _ : ι => unif) (box s) = ENNReal.ofReal (law t s) := by
    intro s hs
    have hs' := (mem_allSpins s).1 hs
    unfold law
    rw [hbox, Measure.pi_pi, ENNReal.ofReal_prod_of_nonneg fun i _ => hnn s i]
    exact Finset.prod_congr rfl fun i _ => below_set _ (h0 s i) (h1 s i) (s i) (hs' i)
  have hunion : (⋃ s ∈ allSpins ι, box s) = Set.univ := by
    ext u
    simp only [Set.mem_iUnion, Set.mem_univ, iff_true]
    exact ⟨_, (mem_allSpins _).2 (hspin u), rfl⟩
  have hdisj : Set.PairwiseDisjoint (↑(allSpins ι)) box := by
    intro s _ s' _ hne
    rw [Function.onFun, Set.disjoint_left]
    intro u h1 h2
    exact hne (h1.symm.trans h2)
  have htot := measure_biUnion_finset (μ := Measure.pi fun _ : ι => unif) hdisj fun s _ => hmeas s
  have hln : ∀ s, 0 ≤ law t s := fun s => Finset.prod_nonneg fun i _ => hnn s i
  rw [hunion, measure_univ, Finset.sum_congr rfl hvol, ← ENNReal.ofReal_sum_of_nonneg fun s _ => hln s] at htot
  have := congrArg ENNReal.toReal htot
  rw [ENNReal.toReal_one, ENNReal.toReal_ofReal
    (Finset.sum_nonneg fun s _ => hln s)] at this
  exact this.symm

/-- Changing the conditional probabilities of one site by at most `δ`. -/
theorem law_change_one (t t' : Config ι → ι → ℝ) (h0 : ∀ s i, 0 ≤ t s i) (h1 : ∀ s i, t s i ≤ 1) (order : List ι)
    (ho : Complete order) (hc : Causal order t) (k : ι) (heq : ∀ s i, i ≠ k → t' s i = t s i) (δ : ℝ)
    (hδ : ∀ s, IsSpin s → |t' s k - t s k| ≤ δ) : ∑ s ∈ allSpins ι, |law t' s - law t s| ≤ 2 * δ := by
  set m : Config ι → ι → ℝ := fun s i => if i = k then 1 / 2 else t s i with hm
  have hsum : ∑ s ∈ allSpins ι, law m s = 1 := by
    refine law_sum m (fun s i => ?_) (fun s i => ?_) order ho fun s s' i h => ?_
    · simp only [hm]; split
      · norm_num
      · exact h0 s i
    · simp only [hm]; split
      · norm_num
      · exact h1 s i
    · simp only [hm]
      split
      · rfl
      · exact hc s s' i h
  have hterm : ∀ s ∈ allSpins ι, |law t' s - law t s| ≤ 2 * δ * law m s := by
    intro s hs
    have hs' := (mem_allSpins s).1 hs
    have split1 : ∀ r : Config ι → ι → ℝ, law r s = (if s k = 1 then r s k else 1 - r s k) *
        ∏ i ∈ Finset.univ.erase k, if s i = 1 then r s i else 1 - r s i := fun r =>
      (Finset.mul_prod_erase Finset.univ (fun i => if s i = 1 then r s i else 1 - r s i) (Finset.mem_univ k)).symm
    set R := ∏ i ∈ Finset.univ.erase k, if s i = 1 then t s i else 1 - t s i with hR
    have hRn : 0 ≤ R := Finset.prod_nonneg fun i _ => by
      split
      · exact h0 s i
      · linarith [h1 s i]
    have e1 : law t' s = (if s k = 1 then t' s k else 1 - t' s k) * R := by
      rw [split1]
      congr 1
      exact Finset.prod_congr rfl fun i hi => by rw [heq s i (Finset.ne_of_mem_erase hi)]
    have e2 : law m s = 1 / 2 * R := by
      rw [split1]
      congr 1
      · simp only [hm, if_true]
        split <;> norm_num
      · exact Finset.prod_congr rfl fun i hi => by simp only [hm, if_neg (Finset.ne_of_mem_erase hi)]
    rw [e1, split1 t, e2, ← sub_mul, abs_mul, abs_of_nonneg hRn]
    have hd : |(if s k = 1 then t' s k else 1 - t' s k) - (if s k = 1 then t s k else 1 - t s k)| ≤ δ := by
      split
      · exact hδ s hs'
      · rw [show (1 - t' s k) - (1 - t s k) = -(t' s k - t s k) by ring, abs_neg]
        exact hδ s hs'
    calc _ ≤ δ * R := mul_le_mul_of_nonneg_right hd hRn
      _ = 2 * δ * (1 / 2 * R) := by ring
  calc _ ≤ ∑ s ∈ allSpins ι, 2 * δ * law m s := Finset.sum_le_sum hterm
    _ = 2 * δ := by rw [← Finset.mul_sum, hsum, mul_one]

/-- Changing the conditional probabilities of all sites by at most `δ` changes the distribution by at most `2 N δ` in total. -/
theorem law_change (t t' : Config ι → ι → ℝ) (h0 : ∀ s i, 0 ≤ t s i) (h1 : ∀ s i, t s i ≤ 1) (h0' : ∀ s i, 0 ≤ t' s i)
    (h1' : ∀ s i, t' s i ≤ 1) (order : List ι) (ho : Complete order) (hc : Causal order t) (hc' : Causal order t') (δ : ℝ)
    (hδ : ∀ s, IsSpin s → ∀ i, |t' s i - t s i| ≤ δ) : ∑ s ∈ allSpins ι, |law t' s - law t s| ≤ 2 * Fintype.card ι * δ := by
  classical
  suffices h : ∀ K : Finset ι, ∑ s ∈ allSpins ι, |law (fun s i => if i ∈ K then t' s i else t s i) s - law t s| ≤ 2 * K.card * δ by
    have := h Finset.univ
    simpa using this
  intro K
  induction K using Finset.induction_on with
  | empty => simp
  | insert k K hk ih =>
    have step := law_change_one (fun s i => if i ∈ K then t' s i else t s i) (fun s i => if i ∈ insert k K then t' s i else t s i)
      (fun s i => by split; exacts [h0' s i, h0 s i]) (fun s i => by split; exacts [h1' s i, h1 s i]) order ho
      (fun s s' i h => by dsimp only; split; exacts [hc' s s' i h, hc s s' i h]) k
      (fun s i hi => by simp only [Finset.mem_insert, hi, false_or]) δ (fun s hs => by
        simp only [Finset.mem_insert, true_or, if_true, hk, if_false]
        exact hδ s hs k)
    calc _ ≤ ∑ s ∈ allSpins ι, (|law (fun s i => if i ∈ insert k K then t' s i else t s i) s -
            law (fun s i => if i ∈ K then t' s i else t s i) s| +
          |law (fun s i => if i ∈ K then t' s i else t s i) s - law t s|) :=
          Finset.sum_le_sum fun s _ => abs_sub_le _ _ _
      _ ≤ 2 * δ + 2 * K.card * δ := by
          rw [Finset.sum_add_distrib]
          exact add_le_add step ih
      _ = _ := by
          rw [Finset.card_insert_of_notMem hk]
          push_cast
          ring

omit [DecidableEq ι] in
theorem law_nonneg (t : Config ι → ι → ℝ) (h0 : ∀ s i, 0 ≤ t s i) (h1 : ∀ s i, t s i ≤ 1) (s : Config ι) : 0 ≤ law t s :=
  Finset.prod_nonneg fun i _ => by
    split
    · exact h0 s i
    · linarith [h1 s i]

/-! ### Independent rows -/

/-- Independent rows: the distance of the distributions of a batch is at most the number of rows times that of one row. -/
theorem rows_change {X : Type} [DecidableEq X] (all : Finset X) (P Q : X → ℝ) (hP : ∀ x, 0 ≤ P x) (hQ : ∀ x, 0 ≤ Q x)
    (sP : ∑ x ∈ all, P x = 1) (sQ : ∑ x ∈ all, Q x = 1) (d : ℝ) (hd : ∑ x ∈ all, |Q x - P x| ≤ d) (B : Nat) :
    ∑ S ∈ Fintype.piFinset fun _ : Fin B => all, |∏ b, Q (S b) - ∏ b, P (S b)| ≤ B * d := by
  classical
  suffices h : ∀ K : Finset (Fin B), ∑ S ∈ Fintype.piFinset fun _ : Fin B => all,
      |∏ b, (if b ∈ K then Q (S b) else P (S b)) - ∏ b, P (S b)| ≤ K.card * d by
    have := h Finset.univ
    simpa using this
  intro K
  induction K using Finset.induction_on with
  | empty => simp
  | insert k K hk ih =>
    have step : ∑ S ∈ Fintype.piFinset fun _ : Fin B => all,
        |∏ b, (if b ∈ insert k K then Q (S b) else P (S b)) - ∏ b, (if b ∈ K then Q (S b) else P (S b))| ≤ d := by
      have e : ∀ S : Fin B → X, |∏ b, (if b ∈ insert k K then Q (S b) else P (S b)) - ∏ b, (if b ∈ K then Q (S b) else P (S b))| =
          ∏ b, if b = k then |Q (S b) - P (S b)| else if b ∈ K then Q (S b) else P (S b) := by
        intro S
        rw [← Finset.mul_prod_erase Finset.univ (fun b => if b ∈ insert k K then Q (S b) else P (S b)) (Finset.mem_univ k),
          ← Finset.mul_prod_erase Finset.univ (fun b => if b ∈ K then Q (S b) else P (S b)) (Finset.mem_univ k),
          ← Finset.mul_prod_erase Finset.univ
            (fun b => if b = k then |Q (S b) - P (S b)| else if b ∈ K then Q (S b) else P (S b)) (Finset.mem_univ k)]
        have a1 : ∏ b ∈ Finset.univ.erase k, (if b ∈ insert k K then Q (S b) else P (S b)) =
            ∏ b ∈ Finset.univ.erase k, (if b ∈ K then Q (S b) else P (S b)) :=
          Finset.prod_congr rfl fun b hb => by simp only [Finset.mem_insert, Finset.ne_of_mem_erase hb, false_or]
        have a2 : ∏ b ∈ Finset.univ.erase k, (if b = k then |Q (S b) - P (S b)| else if b ∈ K then Q (S b) else P (S b)) =
            ∏ b ∈ Finset.univ.erase k, (if b ∈ K then Q (S b) else P (S b)) :=
          Finset.prod_congr rfl fun b hb => by rw [if_neg (Finset.ne_of_mem_erase hb)]
        rw [a1, a2, if_pos (Finset.mem_insert_self k K), if_neg hk, if_pos rfl, ← sub_mul, abs_mul]
        congr 1
        exact abs_of_nonneg (Finset.prod_nonneg fun b _ => by split; exacts [hQ _, hP _])
      rw [Finset.sum_congr rfl fun S _ => e S]
      have f := Finset.prod_univ_sum (fun _ : Fin B => all)
        (fun b x => if b = k then |Q x - P x| else if b ∈ K then Q x else P x)
      rw [← f, ← Finset.mul_prod_erase Finset.univ _ (Finset.mem_univ k)]
      have g : ∏ b ∈ Finset.univ.erase k, ∑ x ∈ all, (if b = k then |Q x - P x| else if b ∈ K then Q x else P x) = 1 :=
        Finset.prod_eq_one fun b hb => by
          simp only [if_neg (Finset.ne_of_mem_erase hb)]
          split
          · exact sQ
          · exact sP
      rw [g, mul_one]
      simpa using hd
    calc _ ≤ ∑ S ∈ Fintype.piFinset fun _ : Fin B => all,
          (|∏ b, (if b ∈ insert k K then Q (S b) else P (S b)) - ∏ b, (if b ∈ K then Q (S b) else P (S b))| +
            |∏ b, (if b ∈ K then Q (S b) else P (S b)) - ∏ b, P (S b)|) := Finset.sum_le_sum fun S _ => abs_sub_le _ _ _
      _ ≤ d + K.card * d := by
          rw [Finset.sum_add_distrib]
          exact add_le_add step ih
      _ = _ := by
          rw [Finset.card_insert_of_notMem hk]
          push_cast
          ring

/-- The probabilities of an event differ by at most half the total difference. -/
theorem event_change {X : Type} (all : Finset X) (P Q : X → ℝ) (sP : ∑ x ∈ all, P x = 1) (sQ : ∑ x ∈ all, Q x = 1) (d : ℝ)
    (hd : ∑ x ∈ all, |Q x - P x| ≤ 2 * d) (A : X → Prop) [DecidablePred A] :
    |∑ x ∈ all with A x, Q x - ∑ x ∈ all with A x, P x| ≤ d := by
  have h1 := Finset.sum_filter_add_sum_filter_not all A (fun x => Q x - P x)
  have h2 := Finset.sum_filter_add_sum_filter_not all A (fun x => |Q x - P x|)
  have h3 := Finset.abs_sum_le_sum_abs (fun x => Q x - P x) (all.filter A)
  have h4 := Finset.abs_sum_le_sum_abs (fun x => Q x - P x) (all.filter fun x => ¬ A x)
  rw [Finset.sum_sub_distrib, Finset.sum_sub_distrib, Finset.sum_sub_distrib, sP, sQ] at h1
  rw [Finset.sum_sub_distrib] at h3 h4
  have h5 : |∑ x ∈ all with ¬ A x, Q x - ∑ x ∈ all with ¬ A x, P x| = |∑ x ∈ all with A x, Q x - ∑ x ∈ all with A x, P x| := by
    rw [← abs_neg]
    congr 1
    linarith
  linarith

/-! ### The sampler -/

/-- Probability that random numbers with distribution `ν` fall below the computed probability of an up spin. -/
noncomputable def upProb (ν : Measure ℝ) (computed : Config ι → ι → Fin 2 → ℝ) (s : Config ι) (i : ι) : ℝ :=
  (ν (Set.Iio (Real.exp (computed s i 0)))).toReal

omit [Fintype ι] [DecidableEq ι] in
theorem upProb_nonneg (ν : Measure ℝ) (computed : Config ι → ι → Fin 2 → ℝ) (s : Config ι) (i : ι) :
    0 ≤ upProb ν computed s i := ENNReal.toReal_nonneg

omit [Fintype ι] [DecidableEq ι] in
theorem upProb_le (ν : Measure ℝ) [IsProbabilityMeasure ν] (computed : Config ι → ι → Fin 2 → ℝ) (s : Config ι) (i : ι) :
    upProb ν computed s i ≤ 1 := by
  unfold upProb
  have := ENNReal.toReal_mono ENNReal.one_ne_top (prob_le_one (μ := ν) (s := Set.Iio (Real.exp (computed s i 0))))
  rwa [ENNReal.toReal_one] at this

omit [Fintype ι] in
theorem upProb_causal (ν : Measure ℝ) (computed : Config ι → ι → Fin 2 → ℝ) (order : List ι) (hc : Causal order computed) :
    Causal order (upProb ν computed) := by
  intro s s' i h
  unfold upProb
  rw [hc s s' i h]

theorem decision_set (ν : Measure ℝ) [IsProbabilityMeasure ν] (p : ℝ) (x : ℤ) (hx : x = 1 ∨ x = -1) :
    ν {v | x = if p > v then 1 else -1} =
      ENNReal.ofReal (if x = 1 then (ν (Set.Iio p)).toReal else 1 - (ν (Set.Iio p)).toReal) := by
  rcases hx with rfl | rfl
  · have : {v : ℝ | (1 : ℤ) = if p > v then 1 else -1} = Set.Iio p := by
      ext v
      by_cases h : p > v <;> simp [h]
    rw [this, if_pos rfl, ENNReal.ofReal_toReal (measure_ne_top ν _)]
  · have : {v : ℝ | (-1 : ℤ) = if p > v then 1 else -1} = (Set.Iio p)ᶜ := by
      ext v
      by_cases h : p > v <;> simp [h]
    rw [this, if_neg (by norm_num), prob_compl_eq_one_sub measurableSet_Iio,
      ENNReal.ofReal_sub _ ENNReal.toReal_nonneg, ENNReal.ofReal_one, ENNReal.ofReal_toReal (measure_ne_top ν _)]

/-- The draws that produce the batch `S`. -/
theorem sample_set {B : Nat} (dims : Nat) (hd : dims = 1 ∨ dims = 2) (computed : Config ι → ι → Fin 2 → ℝ) (order : List ι)
    (ho : Complete order) (hc : Causal order computed) (S : Fin B → Config ι) :
    {u : Fin B → ι → ℝ | sample dims false computed order u = .ok S} =
      Set.pi Set.univ fun b => Set.pi Set.univ fun i =>
        {v | S b i = if Real.exp (computed (S b) i 0) > v then 1 else -1} := by
  ext u
  simp only [Set.mem_ofPred_eq, sample_eq_iff dims hd false computed order ho hc, Set.mem_pi, Set.mem_univ, forall_true_left]
  rfl

theorem decision_measurable (p : ℝ) (x : ℤ) : MeasurableSet {v : ℝ | x = if p > v then 1 else -1} := by
  have : Measurable fun v : ℝ => (if p > v then (1 : ℤ) else -1) :=
    Measurable.ite measurableSet_Iio measurable_const measurable_const
  have hm := this (measurableSet_singleton x)
  have heq : {v : ℝ | x = if p > v then 1 else -1} = (fun v : ℝ => (if p > v then (1 : ℤ) else -1)) ⁻¹' {x} := by
    ext v
    exact eq_comm
  rw [heq]
  exact hm

theorem sample_law {B : Nat} (dims : Nat) (hd : dims = 1 ∨ dims = 2) (computed : Config ι → ι → Fin 2 → ℝ) (order : List ι)
    (ho : Complete order) (hc : Causal order computed) (ν : Measure ℝ) [IsProbabilityMeasure ν] (S : Fin B → Config ι)
    (hS : ∀ b, IsSpin (S b)) :
    randOf ν B ι {u | sample dims false computed order u = .ok S} = ENNReal.ofReal (∏ b, law (upProb ν computed) (S b)) := by
  rw [sample_set dims hd computed order ho hc S, randOf, Measure.pi_pi,
    ENNReal.ofReal_prod_of_nonneg fun b _ => law_nonneg _ (upProb_nonneg ν computed) (upProb_le ν computed) _]
  refine Finset.prod_congr rfl fun b _ => ?_
  unfold law
  rw [Measure.pi_pi, ENNReal.ofReal_prod_of_nonneg fun i _ => by
    split
    · exact upProb_nonneg ν computed _ i
    · linarith [upProb_le ν computed (S b) i]]
  exact Finset.prod_congr rfl fun i _ => decision_set ν _ _ (hS b i)

/-- The probability of an event is the sum over its batches. -/
theorem sample_event {B : Nat} (dims : Nat) (hd : dims = 1 ∨ dims = 2) (computed : Config ι → ι → Fin 2 → ℝ) (order : List ι)
    (ho : Complete order) (hc : Causal order computed) (ν : Measure ℝ) [IsProbabilityMeasure ν] (A : (Fin B → Config ι) → Prop)
    [DecidablePred A] :
    (randOf ν B ι {u | ∃ S, A S ∧ sample dims false computed order u = .ok S}).toReal =
      ∑ S ∈ Fintype.piFinset (fun _ : Fin B => allSpins ι) with A S, ∏ b, law (upProb ν computed) (S b) := by
  have hset : {u : Fin B → ι → ℝ | ∃ S, A S ∧ sample dims false computed order u = .ok S} =
      ⋃ S ∈ (Fintype.piFinset (fun _ : Fin B => allSpins ι)).filter A, {u | sample dims false computed order u = .ok S} := by
    ext u
    simp only [Set.mem_ofPred_eq, Set.mem_iUnion, Finset.mem_filter, Fintype.mem_piFinset, exists_prop]
    constructor
    · rintro ⟨S, hA, hS⟩
      refine ⟨S, ⟨fun b => (mem_allSpins _).2 fun i => ?_, hA⟩, hS⟩
      rw [(sample_eq_iff dims hd false computed order ho hc u S).1 hS b i]
      exact decision_spin computed (u b) (S b) i
    · rintro ⟨S, ⟨_, hA⟩, hS⟩
      exact ⟨S, hA, hS⟩
  have hmeas : ∀ S : Fin B → Config ι, MeasurableSet {u : Fin B → ι → ℝ | sample dims false computed order u = .ok S} := by
    intro S
    rw [sample_set dims hd computed order ho hc S]
    exact MeasurableSet.univ_pi fun b => MeasurableSet.univ_pi fun i => decision_measurable _ _
  have hdisj : Set.PairwiseDisjoint (↑((Fintype.piFinset (fun _ : Fin B => allSpins ι)).filter A))
      fun S => {u : Fin B → ι → ℝ | sample dims false computed order u = .ok S} := by
    intro S _ S' _ hne
    rw [Function.onFun, Set.disjoint_left]
    intro u h1 h2
    exact hne (Except.ok.inj (h1.symm.trans h2))
  rw [hset, measure_biUnion_finset hdisj fun S _ => hmeas S, ENNReal.toReal_sum]
  · refine Finset.sum_congr rfl fun S hS => ?_
    have hS' := Fintype.mem_piFinset.1 (Finset.mem_filter.1 hS).1
    rw [sample_law dims hd computed order ho hc ν S fun b => (mem_allSpins _).1 (hS' b),
      ENNReal.toReal_ofReal (Finset.prod_nonneg fun b _ =>
        law_nonneg _ (upProb_nonneg ν computed) (upProb_le ν computed) _)]
  · intro S hS
    have hS' := Fintype.mem_piFinset.1 (Finset.mem_filter.1 hS).1
    rw [sample_law dims hd computed order ho hc ν S fun b => (mem_allSpins _).1 (hS' b)]
    exact ENNReal.ofReal_ne_top

/-- Exact probability of an up spin. -/
noncomputable def exactUp (net : Net ι) (s : Config ι) (i : ι) : ℝ := Real.exp (condLogProbs net s i 0)

theorem exactUp_le (net : Net ι) (s : Config ι) (i : ι) : exactUp net s i ≤ 1 := by
  have := condLogProbs_normalized net s i
  unfold exactUp
  linarith [Real.exp_pos (condLogProbs net s i 1)]

theorem law_exact (net : Net ι) (s : Config ι) (hs : IsSpin s) : law (exactUp net) s = ‖Complex.exp (logWave net s)‖ ^ 2 := by
  rw [norm_logWave net s hs]
  unfold law
  refine Finset.prod_congr rfl fun i _ => ?_
  have := condLogProbs_normalized net s i
  unfold exactUp prob category
  split
  · rfl
  · linarith

theorem total_change (net : Net ι) (order : List ι) (ho : Complete order) (hc : Causal order net)
    (computed : Config ι → ι → Fin 2 → ℝ) (hc' : Causal order computed) (ε : ℝ)
    (hε : ∀ s, IsSpin s → ∀ i, |Real.exp (computed s i 0) - Real.exp (condLogProbs net s i 0)| ≤ ε) (ν : Measure ℝ) (η : ℝ)
    (hν : UniformUpTo ν η) :
    ∑ s ∈ allSpins ι, |law (upProb ν computed) s - law (exactUp net) s| ≤ 2 * (Fintype.card ι * (ε + η)) := by
  have := hν.prob
  have h := law_change (exactUp net) (upProb ν computed) (fun s i => (Real.exp_pos _).le) (exactUp_le net)
    (upProb_nonneg ν computed) (upProb_le ν computed) order ho
    (fun s s' i h => by unfold exactUp; rw [condLogProbs_causal net order hc s s' i h])
    (upProb_causal ν computed order hc') (ε + η) (fun s hs i => by
      have h1 := hν.below (Real.exp (computed s i 0))
      have h2 := hε s hs i
      have h3 : |max 0 (min (Real.exp (computed s i 0)) 1) - exactUp net s i| ≤ ε := by
        refine le_trans ?_ h2
        have p0 : 0 ≤ exactUp net s i := (Real.exp_pos _).le
        have p1 := exactUp_le net s i
        have c : max 0 (min (Real.exp (computed s i 0)) 1) = min (Real.exp (computed s i 0)) 1 :=
          max_eq_right (le_min (Real.exp_pos _).le zero_le_one)
        rw [c]
        change _ ≤ |Real.exp (computed s i 0) - exactUp net s i|
        rcases le_total (Real.exp (computed s i 0)) 1 with hle | hle
        · rw [min_eq_left hle]
        · rw [min_eq_right hle, abs_of_nonneg (by linarith), abs_of_nonneg (by linarith)]
          linarith
      unfold upProb
      have := abs_sub_le ((ν (Set.Iio (Real.exp (computed s i 0)))).toReal) (max 0 (min (Real.exp (computed s i 0)) 1))
        (exactUp net s i)
      linarith)
  linarith

/-! ### Property C140 -/

/-- **C140 (batches).** Let the network's output at each site depend only on sites earlier in the ordering, and let the
sampler work with computed log probabilities that also do so and whose up probabilities are off by at most `ε`, and with random
numbers that are uniform up to `η`. Then for every set of batches, the probability that the sampler returns one of them differs
by at most `rows × sites × (ε + η)` from the sum of the products of squared amplitudes: rounding errors add up, they do not
multiply. -/
theorem C140_batches {B : Nat} (dims : Nat) (hd : dims = 1 ∨ dims = 2) (net : Net ι) (order : List ι) (ho : Complete order)
    (hc : Causal order net) (computed : Config ι → ι → Fin 2 → ℝ) (hc' : Causal order computed) (ε : ℝ)
    (hε : ∀ s, IsSpin s → ∀ i, |Real.exp (computed s i 0) - Real.exp (condLogProbs net s i 0)| ≤ ε) (ν : Measure ℝ) (η : ℝ)
    (hν : UniformUpTo ν η) (A : (Fin B → Config ι) → Prop) [DecidablePred A] :
    |(randOf ν B ι {u | ∃ S, A S ∧ sample dims false computed order u = .ok S}).toReal -
      ∑ S ∈ Fintype.piFinset (fun _ : Fin B => allSpins ι) with A S, exactLaw net S| ≤ B * Fintype.card ι * (ε + η) := by
  have := hν.prob
  have e : ∑ S ∈ Fintype.piFinset (fun _ : Fin B => allSpins ι) with A S, exactLaw net S =
      ∑ S ∈ Fintype.piFinset (fun _ : Fin B => allSpins ι) with A S, ∏ b, law (exactUp net) (S b) := by
    refine Finset.sum_congr rfl fun S hS => ?_
    have hS' := Fintype.mem_piFinset.1 (Finset.mem_filter.1 hS).1
    exact Finset.prod_congr rfl fun b _ => (law_exact net (S b) ((mem_allSpins _).1 (hS' b))).symm
  rw [sample_event dims hd computed order ho hc' ν A, e]
  have sP : ∑ s ∈ allSpins ι, law (exactUp net) s = 1 :=
    law_sum _ (fun s i => (Real.exp_pos _).le) (exactUp_le net) order ho
      fun s s' i h => by unfold exactUp; rw [condLogProbs_causal net order hc s s' i h]
  have sQ : ∑ s ∈ allSpins ι, law (upProb ν computed) s = 1 :=
    law_sum _ (upProb_nonneg ν computed) (upProb_le ν computed) order ho (upProb_causal ν computed order hc')
  have prodOne : ∀ P : Config ι → ℝ, ∑ s ∈ allSpins ι, P s = 1 →
      ∑ S ∈ Fintype.piFinset (fun _ : Fin B => allSpins ι), ∏ b, P (S b) = 1 := by
    intro P hP
    have f := Finset.prod_univ_sum (fun _ : Fin B => allSpins ι) (fun _ x => P x)
    rw [← f]
    exact Finset.prod_eq_one fun _ _ => hP
  refine event_change _ (fun S : Fin B → Config ι => ∏ b, law (exactUp net) (S b)) (fun S => ∏ b, law (upProb ν computed) (S b))
    (prodOne _ sP) (prodOne _ sQ) _ ?_ A
  refine le_trans (rows_change (allSpins ι) _ _ (law_nonneg _ (fun s i => (Real.exp_pos _).le) (exactUp_le net))
    (law_nonneg _ (upProb_nonneg ν computed) (upProb_le ν computed)) sP sQ _
    (total_change net order ho hc computed hc' ε hε ν η hν) B) (le_of_eq ?_)
  ring

/-! ### Random numbers -/

/-- Exactly uniform numbers. -/
theorem unif_upTo : UniformUpTo unif 0 := by
  refine ⟨inferInstance, fun x => ?_⟩
  have key : unif (Set.Iio x) = ENNReal.ofReal (max 0 (min x 1)) := by
    rw [unif, Measure.restrict_apply measurableSet_Iio]
    have : Set.Iio x ∩ Set.Ico 0 1 = Set.Ico 0 (min x 1) := by
      ext y
      simp only [Set.mem_inter_iff, Set.mem_Iio, Set.mem_Ico, lt_min_iff]
      tauto
    rw [this, Real.volume_Ico, sub_zero]
    rcases le_total (min x 1) 0 with h | h
    · rw [max_eq_left h, ENNReal.ofReal_of_nonpos h, ENNReal.ofReal_zero]
    · rw [max_eq_right h]
  rw [key, ENNReal.toReal_ofReal (le_max_left _ _), sub_self, abs_zero]

/-- Uniform numbers among the multiples of `1 / M` from zero on: with `M = 2^53` the numbers that `numpy.random.rand` returns
(deepar/samplers/autoregressive.py:31; numpy itself is not modelled, this is its documented generator: 53 random bits). -/
noncomputable def gridUnif (M : Nat) : Measure ℝ := ∑ k : Fin M, (M : ENNReal)⁻¹ • Measure.dirac ((k : ℝ) / M)

theorem gridUnif_below (M : Nat) (hM : 0 < M) (x : ℝ) :
    gridUnif M (Set.Iio x) = (M : ENNReal)⁻¹ * ((min M ⌈x * M⌉₊ : Nat) : ENNReal) := by
  have hM' : (0 : ℝ) < M := by exact_mod_cast hM
  unfold gridUnif
  rw [Measure.finsetSum_apply]
  have : ∀ k : Fin M, ((M : ENNReal)⁻¹ • Measure.dirac ((k : ℝ) / M)) (Set.Iio x) =
      (M : ENNReal)⁻¹ * (if (k : Nat) < ⌈x * M⌉₊ then 1 else 0) := by
    intro k
    rw [Measure.smul_apply, Measure.dirac_apply' _ measurableSet_Iio, smul_eq_mul]
    congr 1
    have hiff : (k : ℝ) / M ∈ Set.Iio x ↔ (k : Nat) < ⌈x * M⌉₊ := by
      rw [Set.mem_Iio, div_lt_iff₀ hM', Nat.lt_ceil]
    by_cases h : (k : Nat) < ⌈x * M⌉₊
    · rw [if_pos h, Set.indicator_of_mem (hiff.2 h), Pi.one_apply]
    · rw [if_neg h, Set.indicator_of_notMem fun hh => h (hiff.1 hh)]
  rw [Finset.sum_congr rfl fun k _ => this k, ← Finset.mul_sum]
  congr 1
  rw [Fin.sum_univ_eq_sum_range (fun k => if k < ⌈x * M⌉₊ then (1 : ENNReal) else 0) M, Finset.sum_boole]
  congr 1
  have : (Finset.range M).filter (fun k => k < ⌈x * M⌉₊) = Finset.range (min M ⌈x * M⌉₊) := by
    ext k
    simp only [Finset.mem_filter, Finset.mem_range, lt_min_iff]
  rw [this, Finset.card_range]

theorem gridUnif_upTo (M : Nat) (hM : 0 < M) : UniformUpTo (gridUnif M) (1 / M) := by
  have hM' : (0 : ℝ) < M := by exact_mod_cast hM
  refine ⟨⟨?_⟩, fun x => ?_⟩
  · unfold gridUnif
    rw [Measure.finsetSum_apply]
    have : ∀ k : Fin M, ((M : ENNReal)⁻¹ • Measure.dirac ((k : ℝ) / M)) Set.univ = (M : ENNReal)⁻¹ := by
      intro k
      rw [Measure.smul_apply, measure_univ, smul_eq_mul, mul_one]
    rw [Finset.sum_congr rfl fun k _ => this k, Finset.sum_const, Finset.card_univ, Fintype.card_fin, nsmul_eq_mul]
    exact ENNReal.mul_inv_cancel (by exact_mod_cast hM.ne') (ENNReal.natCast_ne_top M)
  · rw [gridUnif_below M hM, ENNReal.toReal_mul, ENNReal.toReal_inv, ENNReal.toReal_natCast, ENNReal.toReal_natCast, Nat.cast_min]
    have e : (M : ℝ)⁻¹ * min (M : ℝ) (⌈x * M⌉₊ : ℝ) = min (M : ℝ) (⌈x * M⌉₊ : ℝ) / M := by rw [div_eq_inv_mul]
    rw [e]
    have lower : max 0 (min x 1) ≤ min (M : ℝ) (⌈x * M⌉₊ : ℝ) / M := by
      rw [le_div_iff₀ hM']
      refine le_min ?_ ?_
      · have : max 0 (min x 1) ≤ 1 := max_le zero_le_one (min_le_right _ _)
        nlinarith
      · rcases le_total (min x 1) 0 with h | h
        · rw [max_eq_left h, zero_mul]
          positivity
        · rw [max_eq_right h]
          exact (mul_le_mul_of_nonneg_right (min_le_left x 1) hM'.le).trans (Nat.le_ceil _)
    have upper : min (M : ℝ) (⌈x * M⌉₊ : ℝ) / M ≤ max 0 (min x 1) + 1 / M := by
      rw [div_le_iff₀ hM', add_mul, one_div_mul_cancel hM'.ne']
      rcases le_total x 0 with h | h
      · have : ⌈x * M⌉₊ = 0 := Nat.ceil_eq_zero.2 (mul_nonpos_of_nonpos_of_nonneg h hM'.le)
        rw [this, Nat.cast_zero]
        have : (0 : ℝ) ≤ max 0 (min x 1) * M := mul_nonneg (le_max_left _ _) hM'.le
        linarith [min_le_right (M : ℝ) 0]
      · rcases le_total x 1 with h1 | h1
        · rw [min_eq_left h1, max_eq_right h]
          exact (min_le_right _ _).trans (Nat.ceil_lt_add_one (mul_nonneg h hM'.le)).le
        · rw [min_eq_right h1, max_eq_right zero_le_one, one_mul]
          exact (min_le_left _ _).trans (by linarith)
    rw [abs_le]
    constructor <;> [skip; linarith]
    have : (0 : ℝ) < 1 / M := by positivity
    linarith

/-- **C140 (`numpy.random.rand`).** With random numbers that are multiples of `2^-53`, as `numpy.random.rand` returns them, the
probability of every set of batches is exact up to `rows × sites × (ε + 2^-53)`. -/
theorem C140_numpy {B : Nat} (dims : Nat) (hd : dims = 1 ∨ dims = 2) (net : Net ι) (order : List ι) (ho : Complete order)
    (hc : Causal order net) (computed : Config ι → ι → Fin 2 → ℝ) (hc' : Causal order computed) (ε : ℝ)
    (hε : ∀ s, IsSpin s → ∀ i, |Real.exp (computed s i 0) - Real.exp (condLogProbs net s i 0)| ≤ ε)
    (A : (Fin B → Config ι) → Prop) [DecidablePred A] :
    |(randOf (gridUnif (2 ^ 53)) B ι {u | ∃ S, A S ∧ sample dims false computed order u = .ok S}).toReal -
      ∑ S ∈ Fintype.piFinset (fun _ : Fin B => allSpins ι) with A S, exactLaw net S| ≤
        B * Fintype.card ι * (ε + 1 / 2 ^ 53) := by
  have h := C140_batches dims hd net order ho hc computed hc' ε hε (gridUnif (2 ^ 53)) (1 / ((2 ^ 53 : Nat) : ℝ))
    (gridUnif_upTo (2 ^ 53) (by positivity)) A
  rwa [Nat.cast_pow, Nat.cast_ofNat] at h

/-- **C140 (errors of log probabilities).** If the computed log probability of an up spin is off by at most `δ`, exact uniform
numbers give every set of batches its probability up to `rows × sites × (e^δ - 1)`. -/
theorem C140_log_errors {B : Nat} (dims : Nat) (hd : dims = 1 ∨ dims = 2) (net : Net ι) (order : List ι) (ho : Complete order)
    (hc : Causal order net) (computed : Config ι → ι → Fin 2 → ℝ) (hc' : Causal order computed) (δ : ℝ)
    (hδ : ∀ s, IsSpin s → ∀ i, |computed s i 0 - condLogProbs net s i 0| ≤ δ) (A : (Fin B → Config ι) → Prop) [DecidablePred A] :
    |(rand B ι {u | ∃ S, A S ∧ sample dims false computed order u = .ok S}).toReal -
      ∑ S ∈ Fintype.piFinset (fun _ : Fin B => allSpins ι) with A S, exactLaw net S| ≤
        B * Fintype.card ι * (Real.exp δ - 1) := by
  have h := C140_batches dims hd net order ho hc computed hc' (Real.exp δ - 1) (fun s hs i => by
    have hd := abs_le.1 (hδ s hs i)
    have hle := exactUp_le net s i
    unfold exactUp at hle
    have hp := Real.exp_pos (condLogProbs net s i 0)
    have e : Real.exp (computed s i 0) =
        Real.exp (condLogProbs net s i 0) * Real.exp (computed s i 0 - condLogProbs net s i 0) := by
      rw [← Real.exp_add]
      congr 1
      ring
    have up : Real.exp (computed s i 0 - condLogProbs net s i 0) ≤ Real.exp δ := Real.exp_le_exp.2 hd.2
    have low : Real.exp (-δ) ≤ Real.exp (computed s i 0 - condLogProbs net s i 0) := Real.exp_le_exp.2 hd.1
    have one : (1 : ℝ) ≤ Real.exp δ := Real.one_le_exp (by linarith)
    have inv : 1 - Real.exp (-δ) ≤ Real.exp δ - 1 := by
      have : Real.exp δ * Real.exp (-δ) = 1 := by rw [← Real.exp_add, add_neg_cancel, Real.exp_zero]
      nlinarith [Real.exp_pos (-δ), Real.exp_pos δ, sq_nonneg (Real.exp δ - 1)]
    rw [e, abs_le]
    constructor <;> nlinarith) unif 0 unif_upTo A
  rw [add_zero] at h
  exact h

/-- **C140 (averages).** The mean of every quantity `f` of size at most `C` over the sampled configurations is exact up to
`2 × sites × (ε + η) × C`. -/
theorem C140_averages (dims : Nat) (hd : dims = 1 ∨ dims = 2) (net : Net ι) (order : List ι) (ho : Complete order)
    (hc : Causal order net) (computed : Config ι → ι → Fin 2 → ℝ) (hc' : Causal order computed) (ε : ℝ)
    (hε : ∀ s, IsSpin s → ∀ i, |Real.exp (computed s i 0) - Real.exp (condLogProbs net s i 0)| ≤ ε) (ν : Measure ℝ) (η : ℝ)
    (hν : UniformUpTo ν η) (f : Config ι → ℂ) (C : ℝ) (hf : ∀ s, IsSpin s → ‖f s‖ ≤ C) :
    ‖∑ s ∈ allSpins ι, (((randOf ν 1 ι {u | sample dims false computed order u = .ok fun _ => s}).toReal : ℝ) : ℂ) * f s -
      ∑ s ∈ allSpins ι, ((‖Complex.exp (logWave net s)‖ ^ 2 : ℝ) : ℂ) * f s‖ ≤ 2 * (Fintype.card ι * (ε + η)) * C := by
  have := hν.prob
  have h := total_change net order ho hc computed hc' ε hε ν η hν
  rw [← Finset.sum_sub_distrib]
  have hC : 0 ≤ C := (norm_nonneg _).trans (hf (fun _ => 1) fun _ => Or.inl rfl)
  calc _ ≤ ∑ s ∈ allSpins ι, |law (upProb ν computed) s - law (exactUp net) s| * C := by
        refine (norm_sum_le _ _).trans (Finset.sum_le_sum fun s hs => ?_)
        have hs' := (mem_allSpins s).1 hs
        rw [← sub_mul, norm_mul, ← Complex.ofReal_sub, Complex.norm_real, Real.norm_eq_abs,
          sample_law dims hd computed order ho hc' ν (fun _ : Fin 1 => s) fun _ => hs', Fin.prod_univ_one,
          ENNReal.toReal_ofReal (law_nonneg _ (upProb_nonneg ν computed) (upProb_le ν computed) _), ← law_exact net s hs']
        exact mul_le_mul_of_nonneg_left (hf s hs') (abs_nonneg _)
    _ ≤ _ := by
        rw [← Finset.sum_mul]
        exact mul_le_mul_of_nonneg_right h hC

/-- **C140 (normalisation).** If the computed log wave function carries at each site an error of at most `δ` (real part, the
argument does not matter), the squared amplitudes of all configurations add up to one up to the factor `e^(2 sites δ)`. -/
theorem C140_norm (net : Net ι) (order : List ι) (ho : Complete order) (hc : Causal order net) (computed : Config ι → ℂ) (δ : ℝ)
    (hδ : ∀ s, IsSpin s → |(computed s).re - (logWave net s).re| ≤ Fintype.card ι * δ) :
    Real.exp (-(2 * Fintype.card ι * δ)) ≤ ∑ s ∈ allSpins ι, ‖Complex.exp (computed s)‖ ^ 2 ∧
      ∑ s ∈ allSpins ι, ‖Complex.exp (computed s)‖ ^ 2 ≤ Real.exp (2 * Fintype.card ι * δ) := by
  have h1 := C35_normalised net order ho hc
  have e : ∀ s, ‖Complex.exp (computed s)‖ ^ 2 =
      Real.exp (2 * ((computed s).re - (logWave net s).re)) * ‖Complex.exp (logWave net s)‖ ^ 2 := by
    intro s
    rw [Complex.norm_exp, Complex.norm_exp, ← Real.exp_nat_mul, ← Real.exp_nat_mul, ← Real.exp_add]
    congr 1
    push_cast
    ring
  constructor
  · calc Real.exp (-(2 * Fintype.card ι * δ)) = ∑ s ∈ allSpins ι,
          Real.exp (-(2 * Fintype.card ι * δ)) * ‖Complex.exp (logWave net s)‖ ^ 2 := by rw [← Finset.mul_sum, h1, mul_one]
      _ ≤ _ := Finset.sum_le_sum fun s hs => by
          rw [e s]
          refine mul_le_mul_of_nonneg_right (Real.exp_le_exp.2 ?_) (by positivity)
          have := (abs_le.1 (hδ s ((mem_allSpins s).1 hs))).1
          linarith
  · calc _ ≤ ∑ s ∈ allSpins ι, Real.exp (2 * Fintype.card ι * δ) * ‖Complex.exp (logWave net s)‖ ^ 2 :=
          Finset.sum_le_sum fun s hs => by
          rw [e s]
          refine mul_le_mul_of_nonneg_right (Real.exp_le_exp.2 ?_) (by positivity)
          have := (abs_le.1 (hδ s ((mem_allSpins s).1 hs))).2
          linarith
      _ = _ := by rw [← Finset.mul_sum, h1, mul_one]

/-- The hypotheses are met: a network on two sites whose second site depends on the first, with log probabilities computed too
large by a tenth and random numbers of three bits. -/
example : ∃ (net : Net (Fin 2)) (computed : Config (Fin 2) → Fin 2 → Fin 2 → ℝ), Complete [(1 : Fin 2), 0] ∧ Causal [1, 0] net ∧
    Causal [1, 0] computed ∧ net (fun _ => 1) 0 ≠ net (fun _ => -1) 0 ∧ computed ≠ condLogProbs net ∧
    (∀ s, IsSpin s → ∀ i, |computed s i 0 - condLogProbs net s i 0| ≤ 1 / 10) ∧ UniformUpTo (gridUnif 8) (1 / 8) := by
  set net : Net (Fin 2) := fun s i c => if i = 0 ∧ c = 0 then (s 1 : ℂ) else 0 with hnet
  have hc : Causal [1, 0] net := by
    intro s s' i h
    funext c
    by_cases hi : i = 0
    · subst hi
      have := h 1 (by show List.idxOf _ _ < List.idxOf _ _; decide)
      simp [hnet, this]
    · simp [hnet, hi]
  refine ⟨net, fun s i c => condLogProbs net s i c + 1 / 10, ⟨by decide, by decide⟩, hc, ?_, ?_, ?_, ?_, ?_⟩
  · intro s s' i h
    funext c
    dsimp only
    rw [condLogProbs_causal net _ hc s s' i h]
  · intro h
    have := congrFun h 0
    norm_num [hnet] at this
  · intro h
    have := congrFun (congrFun (congrFun h fun _ => 1) 0) 0
    linarith
  · intro s _ i
    dsimp only
    rw [add_sub_cancel_left, abs_of_pos (by norm_num)]
  · exact_mod_cast gridUnif_upTo 8 (by norm_num)

end Verif.Autoregressive
