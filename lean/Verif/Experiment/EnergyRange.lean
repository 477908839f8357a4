import Verif.Experiment.Bounds
import Verif.Energy.J1J2

/-!
# C169: the reported energy stays within the range that the couplings allow

Whatever the weights of the network, the exact energy of the Ising model is at most `|h|` per site and `|j|` per bond away from
zero, and that of the Heisenberg model lies between `-3` and `1` per bond. The J1-J2 model adds `j2` times the same for the diagonal pairs.
-/
namespace Verif.Experiment

open Verif.Energy Verif.Energy.Exact Verif.Operators Verif.Callbacks

variable {ι : Type} [Fintype ι] [DecidableEq ι]

/-! ### Specification -/

/-- Whatever batch size is accepted, whatever was evaluated before and whatever the network computes, the reported energy is a real number
between `lo` and `hi`. -/
def EnergyWithin {N : ℕ} (e : ι ≃ Fin N) (op : (B : Nat) → (Fin B → Config ι) → Fin B → List (Row ι ℝ)) (R : Nat) (lo hi : ℝ) : Prop :=
  ∀ batch, 0 < batch → (2 ^ N ≤ batch ∨ batch ∣ 2 ^ N) → ∃ o, Obj.new (spinSetup e op R) batch = .ok o ∧
    ∀ nets net, ∃ E : ℝ, (after o nets net).arrays.energy = E ∧ lo ≤ E ∧ E ≤ hi

/-- The number of pairs of neighbours in a row of `n` sites. -/
def neighbours (n : ℕ) (pbc : Bool) : ℕ := if pbc then n else n - 1

/-- The number of bonds of an `n × m` lattice. A direction with a single site has none. -/
def gridCount (n m : ℕ) (pbc : Bool) : ℕ :=
  (if n > 1 then m * neighbours n pbc else 0) + if m > 1 then n * neighbours m pbc else 0

/-! ### Counting bonds -/

theorem sum_next (n : ℕ) (pbc : Bool) : ∑ i : Fin n, ((chainNext n pbc i).map fun _ => 1).getD 0 = neighbours n pbc := by
  unfold neighbours chainNext
  cases pbc with
  | true =>
    rw [Finset.sum_congr rfl (g := fun _ => 1)]
    · simp
    · intro i _
      split <;> simp
  | false =>
    cases n with
    | zero => simp
    | succ k =>
      rw [Fin.sum_univ_castSucc, Finset.sum_congr rfl (g := fun _ => 1)]
      · simp
      · intro i _
        rw [dif_pos (by simp)]
        rfl

theorem chain_count (n : ℕ) (pbc : Bool) : (chainBonds n pbc).length = neighbours n pbc := by
  unfold chainBonds
  rw [List.length_flatMap, ← sum_next, ← List.ofFn_eq_map, List.sum_ofFn]
  refine Finset.sum_congr rfl fun i _ => ?_
  cases chainNext n pbc i <;> rfl

theorem grid_count (n m : ℕ) (pbc : Bool) : (gridBonds n m pbc).length = gridCount n m pbc := by
  have h0 := sum_gridBonds n m pbc fun _ => 1
  rw [List.map_const', List.sum_replicate, smul_eq_mul, mul_one] at h0
  rw [h0, Finset.sum_add_distrib]
  unfold gridCount
  congr 1
  · rw [Fintype.sum_prod_type]
    by_cases hn : n > 1
    · simp only [if_pos hn, Finset.sum_const, Finset.card_univ, Fintype.card_fin, smul_eq_mul]
      rw [← Finset.mul_sum, sum_next]
    · simp [if_neg hn]
  · rw [Fintype.sum_prod_type]
    by_cases hm : m > 1
    · simp only [if_pos hm, sum_next]
      simp
    · simp [if_neg hm]

/-! ### The expectations -/

theorem form_ZZ_le (a b : ι) (φ : Wave ι) : |form φ (pauliZ a (pauliZ b φ))| ≤ total φ := by
  unfold form total
  refine (Finset.abs_sum_le_sum_abs _ _).trans (Finset.sum_le_sum fun s hs => ?_)
  have hs := (mem_allSpins s).1 hs
  refine (re_conj_le _ _).trans (le_of_eq ?_)
  have h1 : ∀ i, ‖(s i : ℂ)‖ = 1 := fun i => by rcases hs i with h | h <;> rw [h] <;> simp
  show ‖φ s‖ * ‖(s a : ℂ) * ((s b : ℂ) * φ s)‖ = _
  rw [norm_mul, norm_mul, h1, h1]
  ring

theorem abs_list_sum_le {β : Type} (l : List β) (f : β → ℝ) (M : ℝ) (h : ∀ b ∈ l, |f b| ≤ M) : |(l.map f).sum| ≤ l.length * M := by
  induction l with
  | nil => simp
  | cons b l ih =>
    rw [List.map_cons, List.sum_cons, List.length_cons]
    have h1 := ih fun c hc => h c (List.mem_cons_of_mem _ hc)
    have h2 := h b List.mem_cons_self
    have h3 := abs_add_le (f b) (l.map f).sum
    push_cast
    linarith

theorem tfim_form (bonds : List (ι × ι)) (field J : ℝ) (φ : Wave ι) :
    form φ (tfim bonds field J φ) = -J * (bonds.map fun b => form φ (pauliZ b.1 (pauliZ b.2 φ))).sum -
      field * ∑ i, form φ (pauliX i φ) := by
  rw [← form_list φ bonds fun b => pauliZ b.1 (pauliZ b.2 φ)]
  unfold form tfim
  rw [Finset.sum_comm (s := Finset.univ), Finset.mul_sum, Finset.mul_sum, ← Finset.sum_sub_distrib]
  refine Finset.sum_congr rfl fun s _ => ?_
  rw [← Complex.re_sum, ← Finset.mul_sum, mul_sub, Complex.sub_re]
  congr 1
  · rw [mul_left_comm, ← Complex.ofReal_neg, Complex.re_ofReal_mul]
  · rw [mul_left_comm, Complex.re_ofReal_mul]

theorem tfim_within (bonds : List (ι × ι)) (field J : ℝ) (φ : Wave ι) :
    |form φ (tfim bonds field J φ)| ≤ (|field| * Fintype.card ι + |J| * bonds.length) * total φ := by
  rw [tfim_form]
  have h1 := abs_list_sum_le bonds (fun b => form φ (pauliZ b.1 (pauliZ b.2 φ))) (total φ) fun b _ => form_ZZ_le b.1 b.2 φ
  have h2 : |∑ i, form φ (pauliX i φ)| ≤ Fintype.card ι * total φ := by
    refine (Finset.abs_sum_le_sum_abs _ _).trans ((Finset.sum_le_sum fun i _ => form_X_le i φ).trans (le_of_eq ?_))
    simp
  refine (abs_sub _ _).trans ?_
  rw [abs_mul, abs_mul, abs_neg]
  have h3 := mul_le_mul_of_nonneg_left h1 (abs_nonneg J)
  have h4 := mul_le_mul_of_nonneg_left h2 (abs_nonneg field)
  linarith

theorem bond_within (ε : ℝ) (hε : |ε| ≤ 1) {a b : ι} (hab : a ≠ b) (φ : Wave ι) :
    -3 * total φ ≤ form φ (bondTerm ε a b φ) ∧ form φ (bondTerm ε a b φ) ≤ total φ := by
  have hx : ∑ s ∈ allSpins ι, ‖φ (exchange a b s)‖ ^ 2 = total φ := sum_allSpins_exchange a b fun s => ‖φ s‖ ^ 2
  have hpt : ∀ s ∈ allSpins ι, -2 * ‖φ s‖ ^ 2 - ‖φ (exchange a b s)‖ ^ 2 ≤ ((starRingEnd ℂ) (φ s) * bondTerm ε a b φ s).re ∧
      ((starRingEnd ℂ) (φ s) * bondTerm ε a b φ s).re ≤ ‖φ (exchange a b s)‖ ^ 2 := by
    intro s hs
    have hs := (mem_allSpins s).1 hs
    rw [bondTerm_spin ε hab φ hs]
    have hself : ((starRingEnd ℂ) (φ s) * φ s).re = ‖φ s‖ ^ 2 := by
      rw [Complex.conj_mul', ← Complex.ofReal_pow, Complex.ofReal_re]
    by_cases h : s a = s b
    · have he : exchange a b s = s := by
        rw [exchange_eq_comp]
        funext i
        rw [Function.comp, Equiv.swap_apply_def]
        split
        · rename_i hi; rw [hi, h]
        · split
          · rename_i hi; rw [hi, h]
          · rfl
      have hz : (s a : ℂ) * ((s b : ℂ) * φ s) = φ s := by
        rw [h]
        rcases hs b with h' | h' <;> rw [h'] <;> simp
      rw [if_neg (by simpa using h), mul_zero, zero_add, hz, he, hself]
      have := sq_nonneg ‖φ s‖
      constructor <;> linarith
    · have hz : (s a : ℂ) * ((s b : ℂ) * φ s) = -φ s := by
        rcases hs a with h1 | h1 <;> rcases hs b with h2 | h2 <;> simp_all
      rw [if_pos h, hz]
      have e1 : ((starRingEnd ℂ) (φ s) * ((ε : ℂ) * (2 * φ (exchange a b s)) + -φ s)).re =
          2 * ε * ((starRingEnd ℂ) (φ s) * φ (exchange a b s)).re - ‖φ s‖ ^ 2 := by
        rw [← hself, ← Complex.re_ofReal_mul, ← Complex.sub_re]
        congr 1
        push_cast
        ring
      rw [e1]
      have h1 := re_conj_le (φ s) (φ (exchange a b s))
      have h2 : |2 * ε * ((starRingEnd ℂ) (φ s) * φ (exchange a b s)).re| ≤ 2 * (‖φ s‖ * ‖φ (exchange a b s)‖) := by
        rw [abs_mul, abs_mul, abs_two, mul_assoc]
        have := mul_le_mul hε h1 (abs_nonneg _) zero_le_one
        linarith
      have h3 := sq_nonneg (‖φ s‖ - ‖φ (exchange a b s)‖)
      obtain ⟨h4, h5⟩ := abs_le.1 h2
      constructor <;> nlinarith
  constructor
  · have := Finset.sum_le_sum fun s hs => (hpt s hs).1
    rw [Finset.sum_sub_distrib, ← Finset.mul_sum, hx] at this
    change -2 * total φ - total φ ≤ _ at this
    unfold form
    linarith
  · have := Finset.sum_le_sum fun s hs => (hpt s hs).2
    rwa [hx] at this

theorem heisenberg_form (bonds : List (ι × ι)) (ε : ℝ) (φ : Wave ι) :
    form φ (heisenberg bonds ε φ) = (bonds.map fun b => form φ (bondTerm ε b.1 b.2 φ)).sum :=
  form_list φ bonds fun b => bondTerm ε b.1 b.2 φ

theorem heisenberg_within (bonds : List (ι × ι)) (hne : ∀ b ∈ bonds, b.1 ≠ b.2) (ε : ℝ) (hε : |ε| ≤ 1) (φ : Wave ι) :
    -(3 * bonds.length) * total φ ≤ form φ (heisenberg bonds ε φ) ∧ form φ (heisenberg bonds ε φ) ≤ bonds.length * total φ := by
  rw [heisenberg_form]
  induction bonds with
  | nil => simp
  | cons b l ih =>
    obtain ⟨h1, h2⟩ := ih fun c hc => hne c (List.mem_cons_of_mem _ hc)
    obtain ⟨h3, h4⟩ := bond_within ε hε (hne b List.mem_cons_self) φ
    rw [List.map_cons, List.sum_cons, List.length_cons]
    push_cast
    constructor <;> linarith

/-- The Rayleigh quotient by its real part. -/
theorem rayleigh_re (H : Wave ι → Wave ι) (φ : Wave ι) : (Energy.rayleigh H φ).re = form φ (H φ) / total φ := by
  have h1 : ∑ s ∈ allSpins ι, (starRingEnd ℂ) (φ s) * φ s = (total φ : ℂ) := by
    unfold total
    rw [Complex.ofReal_sum]
    exact Finset.sum_congr rfl fun s _ => by rw [Complex.conj_mul', Complex.ofReal_pow]
  unfold Energy.rayleigh form
  rw [h1, Complex.div_ofReal_re, Complex.re_sum]

theorem total_exp_pos (net : Config ι → ℂ) : 0 < total fun s => Complex.exp (net s) :=
  Finset.sum_pos (fun _ _ => pow_pos (norm_pos_iff.2 (Complex.exp_ne_zero _)) 2) allSpins_nonempty

theorem within_of {N : ℕ} {e : ι ≃ Fin N} {op : (B : Nat) → (Fin B → Config ι) → Fin B → List (Row ι ℝ)} {R : Nat}
    {H : Wave ι → Wave ι} (h : ExactEnergy e op R H) {lo hi : ℝ}
    (hb : ∀ φ, lo * total φ ≤ form φ (H φ) ∧ form φ (H φ) ≤ hi * total φ) : EnergyWithin e op R lo hi := by
  intro batch h0 hacc
  obtain ⟨o, ho, hE⟩ := h batch h0 hacc
  refine ⟨o, ho, fun nets net => ⟨(after o nets net).arrays.energy.re, ?_, ?_⟩⟩
  · exact Complex.ext rfl (hE nets net).2
  · rw [(hE nets net).1, rayleigh_re]
    have hp := total_exp_pos net
    rw [le_div_iff₀ hp, div_le_iff₀ hp]
    exact hb _

/-! ### The operators -/

theorem C169_ising_chain (n : ℕ) (hn : n ≤ 31) (h j : ℝ) (pbc : Bool) :
    EnergyWithin (Equiv.refl (Fin n)) (fun _ sample => isingFindConn1 (.float h) j pbc sample) (n + 1)
      (-(|h| * n + |j| * neighbours n pbc)) (|h| * n + |j| * neighbours n pbc) :=
  within_of (C20_ising_chain n hn h j pbc) fun φ => by
    have := tfim_within (chainBonds n pbc) h j φ
    rw [chain_count, Fintype.card_fin] at this
    rw [neg_mul]
    exact abs_le.1 this

theorem C169_ising_grid (n m : ℕ) (hn : n * m ≤ 31) (h j : ℝ) (pbc : Bool) :
    EnergyWithin (ι := Fin n × Fin m) finProdFinEquiv (fun _ sample => isingFindConn2 (.float h) j pbc sample) (n * m + 1)
      (-(|h| * (n * m) + |j| * gridCount n m pbc)) (|h| * (n * m) + |j| * gridCount n m pbc) :=
  within_of (C20_ising_grid n m hn h j pbc) fun φ => by
    have := tfim_within (gridBonds n m pbc) h j φ
    rw [grid_count, Fintype.card_prod, Fintype.card_fin, Fintype.card_fin] at this
    push_cast at this
    rw [neg_mul]
    exact abs_le.1 this

theorem C169_heisenberg_chain (n : ℕ) (hn : n ≤ 31) (h1 : 1 < n) (rot pbc : Bool) (history : List (Call n 1)) :
    EnergyWithin (Equiv.refl (Fin n)) (fun B sample => (((HeisOp.new1 n rot pbc).run history).findConn1 B sample).2) (n + 1)
      (-(3 * neighbours n pbc)) (neighbours n pbc) :=
  within_of (C20_heisenberg_chain n hn rot pbc history) fun φ => by
    have hc : chainBonds' n pbc = chainBonds n pbc := if_pos h1
    have := heisenberg_within (chainBonds n pbc) (Callbacks.chainBonds_ne (Or.inl h1)) (if rot then -1 else 1) (by cases rot <;> simp) φ
    rwa [chain_count, ← hc] at this

theorem C169_heisenberg_grid (n m : ℕ) (hn : n * m ≤ 31) (rot pbc : Bool) (history : List (Call n m)) :
    EnergyWithin finProdFinEquiv (fun B sample => (((HeisOp.new2 n m rot pbc).run history).findConn B sample).2) (n * m * 2 + 1)
      (-(3 * gridCount n m pbc)) (gridCount n m pbc) :=
  within_of (C20_heisenberg_grid n m hn rot pbc history) fun φ => by
    have := heisenberg_within (gridBonds n m pbc) (fun b hb => gridBonds_ne hb) (if rot then -1 else 1) (by cases rot <;> simp) φ
    rwa [grid_count] at this

/-- The upper bound of the Heisenberg model cannot be improved: it is the energy of the constant wave function. -/
theorem C169_attained (n m : ℕ) (hn : n * m ≤ 31) (pbc : Bool) (history : List (Call n m)) (batch : ℕ) (hb : 0 < batch)
    (hacc : 2 ^ (n * m) ≤ batch ∨ batch ∣ 2 ^ (n * m)) : ∃ o, Obj.new (spinSetup finProdFinEquiv
      (fun B sample => (((HeisOp.new2 n m false pbc).run history).findConn B sample).2) (n * m * 2 + 1)) batch = .ok o ∧
    ∀ nets, (after o nets fun _ => 0).arrays.energy = gridCount n m pbc := by
  obtain ⟨o, ho, hE⟩ := C20_heisenberg_grid n m hn false pbc history batch hb hacc
  refine ⟨o, ho, fun nets => ?_⟩
  obtain ⟨h1, h2⟩ := hE nets fun _ => 0
  have hf : form (fun _ : Config (Fin n × Fin m) => Complex.exp 0)
      (heisenberg (gridBonds n m pbc) (if false then -1 else 1) fun _ => Complex.exp 0) =
      gridCount n m pbc * total fun _ : Config (Fin n × Fin m) => Complex.exp 0 := by
    rw [heisenberg_form, ← grid_count]
    have : ∀ b ∈ gridBonds n m pbc, form (fun _ : Config (Fin n × Fin m) => Complex.exp 0)
        (bondTerm (if false then -1 else 1) b.1 b.2 fun _ => Complex.exp 0) = total fun _ : Config (Fin n × Fin m) => Complex.exp 0 := by
      intro b hb
      unfold form total
      refine Finset.sum_congr rfl fun s hs => ?_
      have hs := (mem_allSpins s).1 hs
      rw [bondTerm_spin _ (gridBonds_ne hb) _ hs]
      rcases hs b.1 with h1 | h1 <;> rcases hs b.2 with h2 | h2 <;> simp [h1, h2] <;> norm_num
    rw [List.map_congr_left this]
    simp
  refine Complex.ext ?_ (by rw [h2]; simp)
  rw [h1, rayleigh_re, hf, mul_div_cancel_right₀ _ (total_exp_pos fun _ : Config (Fin n × Fin m) => 0).ne']
  simp

/-- The lower bound of the Ising model without coupling and with a positive field is the energy of the constant wave function as well. -/
theorem C169_attained_ising (n m : ℕ) (hn : n * m ≤ 31) (h : ℝ) (pbc : Bool) (batch : ℕ) (hb : 0 < batch)
    (hacc : 2 ^ (n * m) ≤ batch ∨ batch ∣ 2 ^ (n * m)) : ∃ o, Obj.new (spinSetup (ι := Fin n × Fin m) finProdFinEquiv
      (fun _ sample => isingFindConn2 (.float h) 0 pbc sample) (n * m + 1)) batch = .ok o ∧
    ∀ nets, (after o nets fun _ => 0).arrays.energy = -(h * (n * m) : ℝ) := by
  obtain ⟨o, ho, hE⟩ := C20_ising_grid n m hn h 0 pbc batch hb hacc
  refine ⟨o, ho, fun nets => ?_⟩
  obtain ⟨h1, h2⟩ := hE nets fun _ => 0
  have hf : form (fun _ : Config (Fin n × Fin m) => Complex.exp 0) (tfim (gridBonds n m pbc) h 0 fun _ => Complex.exp 0) =
      -(h * (n * m)) * total fun _ : Config (Fin n × Fin m) => Complex.exp 0 := by
    rw [tfim_form]
    have : ∀ i, form (fun _ : Config (Fin n × Fin m) => Complex.exp 0) (pauliX i fun _ => Complex.exp 0) =
        total fun _ : Config (Fin n × Fin m) => Complex.exp 0 := by
      intro i
      unfold form total pauliX
      exact Finset.sum_congr rfl fun s _ => by simp
    simp only [this, Finset.sum_const, Finset.card_univ, Fintype.card_prod, Fintype.card_fin]
    simp
    ring
  refine Complex.ext ?_ (by rw [h2]; simp)
  rw [h1, rayleigh_re, hf, mul_div_cancel_right₀ _ (total_exp_pos fun _ : Config (Fin n × Fin m) => 0).ne']
  simp

/-- The periodic chain of four sites has four bonds, the open 3x3 square twelve. -/
example : neighbours 4 true = 4 ∧ gridCount 3 3 false = 12 ∧ 3 * 3 ≤ 31 := by decide

/-! ### The J1-J2 operator -/

open Verif.J1J2 Verif.J1J2.Op

/-- The number of pairs of sites with a given relation, each pair once. -/
def pairCount (L1 L2 : ℕ) (rel : ℕ × ℕ → ℕ × ℕ → Prop) [DecidableRel rel] : ℕ :=
  (Finset.univ.filter fun z : (Fin L1 × Fin L2) × (Fin L1 × Fin L2) =>
    (z.1.1 < z.2.1 ∨ z.1.1 = z.2.1 ∧ z.1.2 < z.2.2) ∧ rel (z.1.1.val, z.1.2.val) (z.2.1.val, z.2.2.val)).card

theorem form_add {ι : Type} [Fintype ι] [DecidableEq ι] (φ A A' : Wave ι) : form φ (fun s => A s + A' s) = form φ A + form φ A' := by
  unfold form
  rw [← Finset.sum_add_distrib]
  exact Finset.sum_congr rfl fun s _ => by rw [mul_add, Complex.add_re]

theorem form_sum {ι κ : Type} [Fintype ι] [DecidableEq ι] (t : Finset κ) (φ : Wave ι) (A : κ → Wave ι) :
    form φ (fun s => ∑ k ∈ t, A k s) = ∑ k ∈ t, form φ (A k) := by
  unfold form
  rw [Finset.sum_comm]
  exact Finset.sum_congr rfl fun s _ => by rw [Finset.mul_sum, Complex.re_sum]

theorem form_mul {ι : Type} [Fintype ι] [DecidableEq ι] (φ A : Wave ι) (c : ℝ) : form φ (fun s => (c : ℂ) * A s) = c * form φ A := by
  unfold form
  rw [Finset.mul_sum]
  exact Finset.sum_congr rfl fun s _ => by rw [mul_left_comm, Complex.re_ofReal_mul]

theorem pairs_form (L1 L2 : ℕ) (rel : ℕ × ℕ → ℕ × ℕ → Prop) [DecidableRel rel] (φ : Wave (Fin L1 × Fin L2)) :
    ∃ F : ℝ, F = ∑ z ∈ (Finset.univ.filter fun z : (Fin L1 × Fin L2) × (Fin L1 × Fin L2) =>
        (z.1.1 < z.2.1 ∨ z.1.1 = z.2.1 ∧ z.1.2 < z.2.2) ∧ rel (z.1.1.val, z.1.2.val) (z.2.1.val, z.2.2.val)),
        form φ (bondTerm 1 z.1 z.2 φ) ∧ -(3 * pairCount L1 L2 rel) * total φ ≤ F ∧ F ≤ pairCount L1 L2 rel * total φ := by
  refine ⟨_, rfl, ?_⟩
  have hne : ∀ z ∈ (Finset.univ.filter fun z : (Fin L1 × Fin L2) × (Fin L1 × Fin L2) =>
        (z.1.1 < z.2.1 ∨ z.1.1 = z.2.1 ∧ z.1.2 < z.2.2) ∧ rel (z.1.1.val, z.1.2.val) (z.2.1.val, z.2.2.val)), z.1 ≠ z.2 := by
    intro z hz h
    have := (Finset.mem_filter.1 hz).2.1
    rw [h] at this
    rcases this with h | ⟨-, h⟩ <;> exact lt_irrefl _ h
  have h1 := Finset.sum_le_sum fun z hz => (bond_within 1 (by simp) (hne z hz) φ).1
  have h2 := Finset.sum_le_sum fun z hz => (bond_within 1 (by simp) (hne z hz) φ).2
  rw [Finset.sum_const, nsmul_eq_mul] at h1 h2
  unfold pairCount
  exact ⟨by linarith, h2⟩

theorem j1j2_form (L1 L2 : ℕ) (pbc : Bool) (j2 : ℝ) (φ : Wave (Fin L1 × Fin L2)) :
    form φ (hamiltonian L1 L2 pbc j2 φ) =
      (∑ z ∈ (Finset.univ.filter fun z : (Fin L1 × Fin L2) × (Fin L1 × Fin L2) =>
        (z.1.1 < z.2.1 ∨ z.1.1 = z.2.1 ∧ z.1.2 < z.2.2) ∧ nearest L1 L2 pbc (z.1.1.val, z.1.2.val) (z.2.1.val, z.2.2.val)),
        form φ (bondTerm 1 z.1 z.2 φ)) +
      j2 * ∑ z ∈ (Finset.univ.filter fun z : (Fin L1 × Fin L2) × (Fin L1 × Fin L2) =>
        (z.1.1 < z.2.1 ∨ z.1.1 = z.2.1 ∧ z.1.2 < z.2.2) ∧ diagonal L1 L2 pbc (z.1.1.val, z.1.2.val) (z.2.1.val, z.2.2.val)),
        form φ (bondTerm 1 z.1 z.2 φ) := by
  rw [← form_sum, ← form_sum, ← form_mul, ← form_add]
  congr 1
  funext s
  unfold hamiltonian
  rw [← Fintype.sum_prod_type', Finset.sum_filter, Finset.sum_filter, Finset.mul_sum, ← Finset.sum_add_distrib]
  refine Finset.sum_congr rfl fun z _ => ?_
  have e : coupling z.1 z.2 φ s = bondTerm 1 z.1 z.2 φ s := by
    unfold coupling bondTerm
    push_cast
    ring
  by_cases h : z.1.1 < z.2.1 ∨ z.1.1 = z.2.1 ∧ z.1.2 < z.2.2
  · rw [if_pos h, e]
    simp only [h, true_and, mul_ite, mul_zero]
  · rw [if_neg h]
    simp [h]

/-- **C169, J1-J2**: with `j2 ≥ 0` the range is from minus three to one times (nearest pairs plus `j2` times diagonal pairs); for `j2 < 0`
the ends of the diagonal part change places. -/
theorem C169_j1j2 (first : ℤ) (hf : first = 1 ∨ first = -1) (L1 L2 : ℕ) (h1 : 0 < L1) (h2 : 0 < L2) (hN : L1 * L2 ≤ 31) (j2 : ℝ)
    (pbc : Bool) (hL : pbc = true → 3 ≤ L1 ∧ 3 ≤ L2) (history : List (List Verif.Netket.Conf)) (batch : ℕ) (hb : 0 < batch)
    (hacc : 2 ^ (L1 * L2) ≤ batch ∨ batch ∣ 2 ^ (L1 * L2)) :
    ∃ o, Obj.new (j1j2Setup first L1 L2 j2 pbc history) batch = .ok o ∧ ∀ nets net, ∃ E : ℝ, (after o nets net).arrays.energy = E ∧
      -(3 * pairCount L1 L2 (nearest L1 L2 pbc)) - max (3 * j2) (-j2) * pairCount L1 L2 (diagonal L1 L2 pbc) ≤ E ∧
      E ≤ pairCount L1 L2 (nearest L1 L2 pbc) + max j2 (-(3 * j2)) * pairCount L1 L2 (diagonal L1 L2 pbc) := by
  obtain ⟨o, ho, hE⟩ := C157_exact_energy first hf h1 h2 hN j2 pbc hL history batch hb hacc
  refine ⟨o, ho, fun nets net => ⟨(after o nets net).arrays.energy.re, Complex.ext rfl (hE nets net).2, ?_⟩⟩
  rw [(hE nets net).1, rayleigh_re]
  have hp := total_exp_pos net
  rw [le_div_iff₀ hp, div_le_iff₀ hp, j1j2_form]
  generalize (fun s => Complex.exp (net s)) = φ at hp
  obtain ⟨F, hF, a1, a2⟩ := pairs_form L1 L2 (nearest L1 L2 pbc) φ
  obtain ⟨G, hG, b1, b2⟩ := pairs_form L1 L2 (diagonal L1 L2 pbc) φ
  rw [← hF, ← hG]
  generalize (pairCount L1 L2 (nearest L1 L2 pbc) : ℝ) = p at *
  have hq : (0 : ℝ) ≤ pairCount L1 L2 (diagonal L1 L2 pbc) := Nat.cast_nonneg _
  generalize (pairCount L1 L2 (diagonal L1 L2 pbc) : ℝ) = q at *
  have hqt : 0 ≤ q * total φ := mul_nonneg hq hp.le
  rcases le_total 0 j2 with hj | hj
  · rw [max_eq_left (by linarith), max_eq_left (by linarith)]
    have c1 := mul_le_mul_of_nonneg_left b1 hj
    have c2 := mul_le_mul_of_nonneg_left b2 hj
    constructor <;> linarith
  · rw [max_eq_right (by linarith), max_eq_right (by linarith)]
    have c1 := mul_le_mul_of_nonpos_left b1 hj
    have c2 := mul_le_mul_of_nonpos_left b2 hj
    constructor <;> linarith

/-- The open 3x3 square has twelve nearest and eight diagonal pairs, the periodic one eighteen each. -/
example : pairCount 3 3 (nearest 3 3 false) = 12 ∧ pairCount 3 3 (diagonal 3 3 false) = 8 ∧ pairCount 3 3 (nearest 3 3 true) = 18 ∧
    pairCount 3 3 (diagonal 3 3 true) = 18 := by decide +kernel

end Verif.Experiment
