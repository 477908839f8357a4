import Verif.Operators.Lemmas
import Verif.Operators.HeisenbergOp
import Mathlib.Algebra.BigOperators.Group.Finset.Piecewise
import Mathlib.Tactic.LinearCombination
import Mathlib.Tactic.FieldSimp

namespace Verif.Operators

variable {ι : Type} [DecidableEq ι]

/-! ### Pauli algebra on spin configurations -/

theorem spin_sq {s : Config ι} (hs : IsSpin s) (i : ι) : s i * s i = 1 := by
  rcases hs i with h | h <;> simp [h]

theorem flip_flip_eq_exchange {s : Config ι} (hs : IsSpin s) {a b : ι} (hab : s a ≠ s b) :
    flip b (flip a s) = exchange a b s := by
  have hne : a ≠ b := fun h => hab (by rw [h])
  have h1 : s b = -s a := by
    rcases hs a with h | h <;> rcases hs b with h' | h' <;> simp_all
  have h2 : s a = -s b := by rw [h1]; simp
  unfold flip exchange
  rw [Function.update_of_ne hne.symm, ← h1, ← h2]

theorem xx_yy {s : Config ι} (hs : IsSpin s) {a b : ι} (hne : a ≠ b) (ψ : Wave ι) :
    pauliX a (pauliX b ψ) s + pauliY a (pauliY b ψ) s =
      if s a ≠ s b then 2 * ψ (exchange a b s) else 0 := by
  unfold pauliX pauliY
  have hfb : (flip a s) b = s b := by unfold flip; exact Function.update_of_ne hne.symm _ _
  rw [hfb]
  have hI : -Complex.I * (s a : ℂ) * (-Complex.I * (s b : ℂ) * ψ (flip b (flip a s))) =
      -((s a * s b : ℤ) : ℂ) * ψ (flip b (flip a s)) := by
    push_cast
    linear_combination (s a : ℂ) * (s b : ℂ) * ψ (flip b (flip a s)) * Complex.I_mul_I
  rw [hI]
  by_cases h : s a = s b
  · rw [if_neg (by simpa using h), h, spin_sq hs b]; push_cast; ring
  · rw [if_pos h, flip_flip_eq_exchange hs h]
    have : s a * s b = -1 := by
      rcases hs a with h1 | h1 <;> rcases hs b with h2 | h2 <;> simp_all
    rw [this]; push_cast; ring

theorem exchange_spin {s : Config ι} (hs : IsSpin s) (a b : ι) : IsSpin (exchange a b s) := by
  intro i
  simp only [exchange, Function.update_apply]
  split
  · exact hs a
  · split
    · exact hs b
    · exact hs i

theorem flip_spin {s : Config ι} (hs : IsSpin s) (a : ι) : IsSpin (flip a s) := by
  intro i
  unfold flip Function.update
  split
  · rcases hs a with h | h <;> simp [h]
  · exact hs i

theorem exchange_apply (a b : ι) (s : Config ι) (i : ι) :
    exchange a b s i = s (Equiv.swap a b i) := by
  unfold exchange Function.update
  by_cases hb : i = b
  · subst hb; simp
  · by_cases ha : i = a
    · subst ha; simp [hb]
    · simp [ha, hb, Equiv.swap_apply_of_ne_of_ne ha hb]

theorem exchange_eq_comp (a b : ι) (s : Config ι) : exchange a b s = s ∘ Equiv.swap a b := by
  funext i; exact exchange_apply a b s i

theorem exchange_exchange (a b : ι) (s : Config ι) : exchange a b (exchange a b s) = s := by
  rw [exchange_eq_comp, exchange_eq_comp]
  funext i; simp

theorem flip_flip (a : ι) (s : Config ι) : flip a (flip a s) = s := by
  unfold flip; simp

/-! ### Bonds join different sites -/

theorem chainNext_ne {n : Nat} {pbc : Bool} {i k : Fin n} (hn : n > 1) (h : chainNext n pbc i = some k) :
    i ≠ k := by
  unfold chainNext at h
  split at h
  · simp only [Option.some.injEq] at h
    subst h
    intro hc
    have := congrArg Fin.val hc
    simp at this
  · split at h
    · simp only [Option.some.injEq] at h
      subst h
      intro hc
      have := congrArg Fin.val hc
      simp only at this
      omega
    · simp at h

theorem mem_gridBonds {n m : Nat} {pbc : Bool} {b : (Fin n × Fin m) × (Fin n × Fin m)} :
    b ∈ gridBonds n m pbc ↔
      (n > 1 ∧ chainNext n pbc b.1.1 = some b.2.1 ∧ b.2.2 = b.1.2) ∨
      (m > 1 ∧ chainNext m pbc b.1.2 = some b.2.2 ∧ b.2.1 = b.1.1) := by
  obtain ⟨⟨i, j⟩, ⟨k, l⟩⟩ := b
  unfold gridBonds
  simp only [List.mem_flatMap, List.mem_finRange, true_and, List.mem_append]
  constructor
  · rintro ⟨i', j', h | h⟩
    · split at h
      · rename_i hn
        left
        simp only [Option.mem_toList, Option.mem_def, Option.map_eq_some_iff, Prod.mk.injEq] at h
        obtain ⟨k', h1, ⟨rfl, rfl⟩, rfl, rfl⟩ := h
        exact ⟨hn, h1, rfl⟩
      · simp at h
    · split at h
      · rename_i hn
        right
        simp only [Option.mem_toList, Option.mem_def, Option.map_eq_some_iff, Prod.mk.injEq] at h
        obtain ⟨k', h1, ⟨rfl, rfl⟩, rfl, rfl⟩ := h
        exact ⟨hn, h1, rfl⟩
      · simp at h
  · rintro (⟨hn, h1, h2⟩ | ⟨hn, h1, h2⟩)
    · refine ⟨i, j, Or.inl ?_⟩
      rw [if_pos hn, h1, h2]; simp
    · refine ⟨i, j, Or.inr ?_⟩
      rw [if_pos hn, h1, h2]; simp

theorem gridBonds_ne {n m : Nat} {pbc : Bool} {b : (Fin n × Fin m) × (Fin n × Fin m)}
    (hb : b ∈ gridBonds n m pbc) : b.1 ≠ b.2 := by
  rcases mem_gridBonds.mp hb with ⟨hn, h, -⟩ | ⟨hn, h, -⟩
  · exact fun hc => chainNext_ne hn h (congrArg Prod.fst hc)
  · exact fun hc => chainNext_ne hn h (congrArg Prod.snd hc)

/-! ### The heisenberg rows act as the spin Hamiltonian -/

/-- Rows of the closed form. -/
noncomputable def heisRows {n m : Nat} (off : ℝ) (pbc : Bool) (dim : Nat) (s : Config (Fin n × Fin m)) :
    List (Row (Fin n × Fin m) ℝ) :=
  ⟨s, ∑ p, siteDiag pbc s p, true⟩ :: (gridSites n m).flatMap (siteRows off pbc dim s)

theorem list_sum_congr {α M : Type*} [AddCommMonoid M] {l : List α} {f g : α → M}
    (h : ∀ a ∈ l, f a = g a) : (l.map f).sum = (l.map g).sum := by
  rw [List.map_congr_left h]

theorem list_sum_add {α M : Type*} [AddCommMonoid M] (l : List α) (f g : α → M) :
    (l.map fun a => f a + g a).sum = (l.map f).sum + (l.map g).sum := by
  induction l with
  | nil => simp
  | cons a l ih => simp only [List.map_cons, List.sum_cons, ih]; abel

theorem applyRows_heisRows {n m : Nat} (rot pbc : Bool) (dim : Nat) (hdim : dim = 2 ∨ (dim = 1 ∧ m = 1))
    (s : Config (Fin n × Fin m)) (hs : IsSpin s) (ψ : Wave (Fin n × Fin m)) :
    applyRows (heisRows (offDiag rot) pbc dim s) ψ =
      heisenberg (gridBonds n m pbc) (if rot then -1 else 1) ψ s := by
  unfold applyRows heisRows heisenberg
  rw [sum_rows (offDiag rot) pbc dim hdim s _ (fun r => (r.mel : ℂ) * ψ r.conn) (by simp)]
  rw [siteDiag_sum]
  simp only
  have h1 : ((((gridBonds n m pbc).map fun b => ((s b.1 * s b.2 : ℤ) : ℝ)).sum : ℝ) : ℂ) * ψ s =
      ((gridBonds n m pbc).map fun b => pauliZ b.1 (pauliZ b.2 ψ) s).sum := by
    unfold pauliZ
    induction gridBonds n m pbc with
    | nil => simp
    | cons b l ih =>
      simp only [List.map_cons, List.sum_cons, Complex.ofReal_add, add_mul]
      rw [ih]
      congr 1
      push_cast
      ring
  rw [h1, ← list_sum_add]
  apply list_sum_congr
  intro b hb
  rw [add_comm, xx_yy hs (gridBonds_ne hb)]
  congr 1
  split
  · cases rot <;> simp [offDiag]
  · simp

/-! ### Rows, one by one -/

theorem mem_siteRows {n m : Nat} (off : ℝ) (pbc : Bool) (dim : Nat) (s : Config (Fin n × Fin m))
    (p : Fin n × Fin m) (r : Row (Fin n × Fin m) ℝ) (hr : r ∈ siteRows off pbc dim s p) :
    r = emptyRow s ∨ ∃ b, (p, b) ∈ gridBonds n m pbc ∧ r = bondRow off s p b := by
  unfold siteRows at hr
  rw [List.mem_append, List.mem_append] at hr
  rcases hr with (hr | hr) | hr
  · split at hr
    · rename_i hn
      rw [List.mem_singleton] at hr
      cases h : chainNext n pbc p.1 with
      | none => left; rw [hr, h]; rfl
      | some k => right; exact ⟨(k, p.2), mem_gridBonds.mpr (Or.inl ⟨hn, h, rfl⟩), by rw [hr, h]; rfl⟩
    · simp at hr
  · split at hr
    · rename_i hm
      rw [List.mem_singleton] at hr
      cases h : chainNext m pbc p.2 with
      | none => left; rw [hr, h]; rfl
      | some k => right; exact ⟨(p.1, k), mem_gridBonds.mpr (Or.inr ⟨hm, h, rfl⟩), by rw [hr, h]; rfl⟩
    · simp at hr
  · exact Or.inl (List.eq_of_mem_replicate hr)

theorem mem_heisRows_tail {n m : Nat} (off : ℝ) (pbc : Bool) (dim : Nat) (s : Config (Fin n × Fin m))
    (r : Row (Fin n × Fin m) ℝ) (hr : r ∈ (heisRows off pbc dim s).tail) :
    r = emptyRow s ∨ ∃ b ∈ gridBonds n m pbc, r = bondRow off s b.1 b.2 := by
  unfold heisRows at hr
  rw [List.tail_cons, List.mem_flatMap] at hr
  obtain ⟨p, -, hr⟩ := hr
  rcases mem_siteRows off pbc dim s p r hr with h | ⟨b, hb, h⟩
  · exact Or.inl h
  · exact Or.inr ⟨(p, b), hb, h⟩

theorem length_siteRows {n m : Nat} (off : ℝ) (pbc : Bool) (dim : Nat)
    (hdim : dim = 2 ∨ (dim = 1 ∧ m = 1)) (s : Config (Fin n × Fin m))
    (p : Fin n × Fin m) : (siteRows off pbc dim s p).length = dim := by
  unfold siteRows
  by_cases hn : n > 1 <;> by_cases hm : m > 1 <;> simp [hn, hm] <;> omega

theorem length_heisRows {n m : Nat} (off : ℝ) (pbc : Bool) (dim : Nat)
    (hdim : dim = 2 ∨ (dim = 1 ∧ m = 1)) (s : Config (Fin n × Fin m)) :
    (heisRows off pbc dim s).length = n * m * dim + 1 := by
  unfold heisRows
  rw [List.length_cons, List.length_flatMap]
  simp only [length_siteRows off pbc dim hdim s, List.map_const', List.sum_replicate, length_gridSites,
    smul_eq_mul]

/-! ### The operator object -/

/-- Invariant of the object: the description agrees with the construction and the cached arrays are
clean. -/
def HeisOp.Ok {n m : Nat} (op : HeisOp n m) : Prop :=
  (op.dim = 2 ∨ (op.dim = 1 ∧ m = 1)) ∧ ∀ B buf, op.cache B = some buf → Clean op.dim buf

theorem ensure_ok {n m : Nat} (op : HeisOp n m) (h : op.Ok) (B : Nat) :
    (op.ensure B).1.Ok ∧ Clean op.dim (op.ensure B).2 ∧ (op.ensure B).1.dim = op.dim ∧
      (op.ensure B).1.rot = op.rot ∧ (op.ensure B).1.pbc = op.pbc := by
  unfold HeisOp.ensure
  split
  · rename_i buf hb
    exact ⟨h, h.2 B buf hb, rfl, rfl, rfl⟩
  · refine ⟨⟨h.1, ?_⟩, clean_init _, rfl, rfl, rfl⟩
    intro B' buf hb
    by_cases hB : B' = B
    · subst hB
      simp only [Function.update_self, Option.some.injEq] at hb
      subst hb
      exact clean_init _
    · simp only [Function.update_of_ne hB] at hb
      exact h.2 B' buf hb

theorem findConn_ok {n m : Nat} (op : HeisOp n m) (h : op.Ok) (B : Nat)
    (sample : Fin B → Config (Fin n × Fin m)) :
    (op.findConn B sample).1.Ok ∧ (op.findConn B sample).1.dim = op.dim ∧
      (op.findConn B sample).1.rot = op.rot ∧ (op.findConn B sample).1.pbc = op.pbc ∧
      ∀ x, (op.findConn B sample).2 x = heisRows (offDiag op.rot) op.pbc op.dim (sample x) := by
  obtain ⟨h1, h2, h3, h4, h5⟩ := ensure_ok op h B
  unfold HeisOp.findConn
  simp only
  refine ⟨⟨?_, ?_⟩, h3, h4, h5, ?_⟩
  · exact h1.1
  · intro B' buf hb
    by_cases hB : B' = B
    · subst hB
      simp only [Function.update_self, Option.some.injEq] at hb
      subst hb
      simp only [h3]
      exact clean_step _ _ _ h.1 _ _ h2
    · simp only [Function.update_of_ne hB] at hb
      exact h1.2 B' buf hb
  · intro x
    simp only [h3, h4, h5]
    exact rowsOf_findConn _ _ _ h.1 _ _ h2 x

theorem run_ok {n m : Nat} (calls : List (Call n m)) : ∀ (op : HeisOp n m), op.Ok →
    (op.run calls).Ok ∧ (op.run calls).dim = op.dim ∧ (op.run calls).rot = op.rot ∧
      (op.run calls).pbc = op.pbc := by
  induction calls with
  | nil => intro op h; exact ⟨h, rfl, rfl, rfl⟩
  | cons c calls ih =>
    intro op h
    obtain ⟨h1, h2, h3, h4, -⟩ := findConn_ok op h c.1 c.2
    obtain ⟨e1, e2, e3, e4⟩ := ih _ h1
    exact ⟨e1, e2.trans h2, e3.trans h3, e4.trans h4⟩

theorem new1_ok (n : Nat) (rot pbc : Bool) : (HeisOp.new1 n rot pbc).Ok :=
  ⟨Or.inr ⟨rfl, rfl⟩, fun _ _ h => by simp [HeisOp.new1] at h⟩

theorem new2_ok (n m : Nat) (rot pbc : Bool) : (HeisOp.new2 n m rot pbc).Ok :=
  ⟨Or.inl rfl, fun _ _ h => by simp [HeisOp.new2] at h⟩

/-- Answers after any history, 2-D. -/
theorem answer2 {n m : Nat} (rot pbc : Bool) (calls : List (Call n m)) (B : Nat)
    (sample : Fin B → Config (Fin n × Fin m)) (x : Fin B) :
    (((HeisOp.new2 n m rot pbc).run calls).findConn B sample).2 x =
      heisRows (offDiag rot) pbc 2 (sample x) := by
  obtain ⟨h1, h2, h3, h4⟩ := run_ok calls _ (new2_ok n m rot pbc)
  rw [(findConn_ok _ h1 B sample).2.2.2.2 x, h2, h3, h4]
  rfl

/-- Answers after any history, 1-D. -/
theorem answer1 {n : Nat} (rot pbc : Bool) (calls : List (Call n 1)) (B : Nat)
    (sample : Fin B → Config (Fin n)) (x : Fin B) :
    (((HeisOp.new1 n rot pbc).run calls).findConn1 B sample).2 x =
      (heisRows (offDiag rot) pbc 1 (expandDims (sample x))).map squeezeRow := by
  obtain ⟨h1, h2, h3, h4⟩ := run_ok calls _ (new1_ok n rot pbc)
  unfold HeisOp.findConn1
  simp only
  rw [(findConn_ok _ h1 B _).2.2.2.2 x, h2, h3, h4]
  rfl

/-! ### One dimension as a grid of width one -/

/-- Squeeze a configuration. -/
def squeeze {n : Nat} (c : Config (Fin n × Fin 1)) : Config (Fin n) := fun i => c (i, 0)

theorem squeeze_expand {n : Nat} (s : Config (Fin n)) : squeeze (expandDims s) = s := rfl

theorem squeeze_exchange {n : Nat} (s : Config (Fin n)) (i k : Fin n) (a b : Fin 1) :
    squeeze (exchange (i, a) (k, b) (expandDims s)) = exchange i k s := by
  have ha : a = 0 := Subsingleton.elim _ _
  have hb : b = 0 := Subsingleton.elim _ _
  subst ha hb
  funext x
  unfold squeeze exchange expandDims Function.update
  by_cases h1 : x = k
  · subst h1; simp
  · by_cases h2 : x = i
    · subst h2; simp [h1]
    · simp [h1, h2]

theorem squeeze_flip {n : Nat} (c : Config (Fin n × Fin 1)) (i : Fin n) (a : Fin 1) :
    squeeze (flip (i, a) c) = flip i (squeeze c) := by
  have ha : a = 0 := Subsingleton.elim _ _
  subst ha
  funext x
  unfold squeeze flip Function.update
  by_cases h1 : x = i
  · subst h1; simp
  · simp [h1]

theorem sum_gridBonds_one {M : Type*} [AddCommMonoid M] (n : Nat) (pbc : Bool) (f : Fin n × Fin n → M) :
    ((gridBonds n 1 pbc).map fun b => f (b.1.1, b.2.1)).sum = ((chainBonds' n pbc).map f).sum := by
  rw [sum_gridBonds, chainBonds']
  rw [Fintype.sum_prod_type]
  simp only [Finset.univ_unique, Finset.sum_singleton, gt_iff_lt, Nat.lt_irrefl, if_false, add_zero]
  split
  · rw [sum_chainBonds]
  · simp

theorem chainBonds'_eq (n : Nat) (pbc : Bool) :
    chainBonds' n pbc = (gridBonds n 1 pbc).map fun b => (b.1.1, b.2.1) := by
  have : (gridBonds n 1 pbc).map (fun b => (b.1.1, b.2.1)) =
      (List.finRange n).flatMap fun i =>
        if n > 1 then ((chainNext n pbc i).map fun k => (i, k)).toList else [] := by
    unfold gridBonds
    rw [List.map_flatMap]
    congr 1
    funext i
    simp only [List.finRange_succ, List.finRange_zero, List.map_nil, List.flatMap_cons, List.flatMap_nil,
      List.append_nil, gt_iff_lt, Nat.lt_irrefl, if_false, List.map_append]
    split
    · cases chainNext n pbc i <;> simp
    · simp
  rw [this, chainBonds']
  split
  · rfl
  · induction List.finRange n with
    | nil => rfl
    | cons a l ih => simpa using ih

end Verif.Operators
