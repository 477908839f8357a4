import Verif.Operators.Props

/-!
# Properties C08 (one dimension) and C09 to C14 of the spin operators
-/
namespace Verif.Operators

theorem applyRows_squeeze {n : Nat} (rows : List (Row (Fin n × Fin 1) ℝ)) (ψ : Wave (Fin n)) :
    applyRows (rows.map squeezeRow) ψ = applyRows rows (fun c => ψ (squeeze c)) := by
  unfold applyRows
  rw [List.map_map]
  rfl

theorem expand_squeeze {n : Nat} (c : Config (Fin n × Fin 1)) : expandDims (squeeze c) = c := by
  funext ⟨i, j⟩
  have hj : j = 0 := Subsingleton.elim _ _
  subst hj
  rfl

/-- Sign of the Marshall transformation on a chain. -/
def marshall1 {n : Nat} (s : Config (Fin n)) : ℤ := ∏ i, if i.val % 2 = 1 then s i else 1

theorem marshall1_eq {n : Nat} (s : Config (Fin n)) : marshall (expandDims s) = marshall1 s := by
  unfold marshall marshall1
  rw [Fintype.prod_prod_type]
  simp [expandDims]

/-- C08, partial, one dimension: open chains and periodic chains of even length. -/
theorem C08_rotation_chain_partial {n : Nat} (pbc : Bool) (hbip : pbc = false ∨ n % 2 = 0 ∨ n ≤ 1) (B : Nat)
    (sample : Fin B → Config (Fin n)) (x : Fin B) (hs : IsSpin (sample x)) (ψ : Wave (Fin n)) :
    applyRows (((HeisOp.new1 n true pbc).findConn1 B sample).2 x) ψ =
      (marshall1 (sample x) : ℂ) *
        applyRows (((HeisOp.new1 n false pbc).findConn1 B sample).2 x) (fun t => (marshall1 t : ℂ) * ψ t) := by
  have h1 := answer1 true pbc [] B sample x
  have h2 := answer1 false pbc [] B sample x
  simp only [HeisOp.run, List.foldl_nil] at h1 h2
  rw [h1, h2, applyRows_squeeze, applyRows_squeeze]
  have hs' : IsSpin (expandDims (sample x)) := fun p => hs p.1
  rw [applyRows_heisRows true pbc 1 (Or.inr ⟨rfl, rfl⟩) _ hs',
    applyRows_heisRows false pbc 1 (Or.inr ⟨rfl, rfl⟩) _ hs']
  have hb : Bipartite n 1 pbc := by
    rcases hbip with h | h
    · exact Or.inl h
    · exact Or.inr ⟨h, Or.inr (by omega)⟩
  have := heisenberg_conj pbc hb _ hs' (fun c => ψ (squeeze c))
  simp only [if_true, Bool.false_eq_true, if_false]
  rw [this, marshall1_eq]
  congr 2
  funext t
  rw [← marshall1_eq, expand_squeeze]

/-! ### C09 -/

/-- The contract of connection lists for a sample `s` with `rows` rows announced. -/
structure Contract {ι : Type} (s : Config ι) (announced : Nat) (rows : List (Row ι ℝ)) : Prop where
  count : rows.length = announced
  first : ∃ mel, rows.head? = some ⟨s, mel, true⟩
  spins : ∀ r ∈ rows, IsSpin r.conn
  unused : ∀ r ∈ rows, r.use = false → r.mel = 0

/-- C09 for `Ising` in one dimension; `number_of_spins + 1` rows are announced (ising.py:15). -/
theorem C09_ising_chain {n B : Nat} (h : Field) (j : ℝ) (pbc : Bool) (sample : Fin B → Config (Fin n))
    (x : Fin B) (hs : IsSpin (sample x)) :
    Contract (sample x) (n + 1) (isingFindConn1 h j pbc sample x) := by
  rw [isingFindConn1_eq]
  refine ⟨by simp, ⟨_, rfl⟩, ?_, ?_⟩
  · intro r hr
    rw [List.mem_cons, List.mem_map] at hr
    rcases hr with rfl | ⟨i, -, rfl⟩
    · exact hs
    · exact flip_spin hs i
  · intro r hr hu
    rw [List.mem_cons, List.mem_map] at hr
    rcases hr with rfl | ⟨i, -, rfl⟩ <;> simp at hu

/-- C09 for `Ising` in two dimensions. -/
theorem C09_ising_grid {n m B : Nat} (h : Field) (j : ℝ) (pbc : Bool)
    (sample : Fin B → Config (Fin n × Fin m)) (x : Fin B) (hs : IsSpin (sample x)) :
    Contract (sample x) (n * m + 1) (isingFindConn2 h j pbc sample x) := by
  rw [isingFindConn2_eq]
  refine ⟨by simp [length_gridSites], ⟨_, rfl⟩, ?_, ?_⟩
  · intro r hr
    rw [List.mem_cons, List.mem_map] at hr
    rcases hr with rfl | ⟨i, -, rfl⟩
    · exact hs
    · exact flip_spin hs i
  · intro r hr hu
    rw [List.mem_cons, List.mem_map] at hr
    rcases hr with rfl | ⟨i, -, rfl⟩ <;> simp at hu

theorem contract_heisRows {n m : Nat} (off : ℝ) (pbc : Bool) (dim : Nat)
    (hdim : dim = 2 ∨ (dim = 1 ∧ m = 1)) (s : Config (Fin n × Fin m)) (hs : IsSpin s) :
    Contract s (n * m * dim + 1) (heisRows off pbc dim s) := by
  have hmem : ∀ r ∈ heisRows off pbc dim s, IsSpin r.conn ∧ (r.use = false → r.mel = 0) := by
    intro r hr
    have hcases : r = ⟨s, ∑ p, siteDiag pbc s p, true⟩ ∨ r ∈ (heisRows off pbc dim s).tail := by
      unfold heisRows at hr ⊢
      simpa using hr
    rcases hcases with rfl | ht
    · exact ⟨hs, by simp⟩
    · rcases mem_heisRows_tail off pbc dim s r ht with rfl | ⟨b, -, rfl⟩
      · exact ⟨hs, fun _ => rfl⟩
      · refine ⟨exchange_spin hs _ _, ?_⟩
        unfold bondRow
        simp only [decide_eq_false_iff_not]
        intro h
        rw [if_neg h]
  exact ⟨length_heisRows off pbc dim hdim s, ⟨_, rfl⟩, fun r hr => (hmem r hr).1, fun r hr => (hmem r hr).2⟩

/-- C09 for `Heisenberg` in two dimensions after any history of earlier calls;
`total_size * 2 + 1` rows are announced (heisenberg.py:19). -/
theorem C09_heisenberg_grid {n m : Nat} (rot pbc : Bool) (history : List (Call n m)) (B : Nat)
    (sample : Fin B → Config (Fin n × Fin m)) (x : Fin B) (hs : IsSpin (sample x)) :
    Contract (sample x) (n * m * 2 + 1)
      ((((HeisOp.new2 n m rot pbc).run history).findConn B sample).2 x) := by
  rw [answer2]
  exact contract_heisRows _ _ _ (Or.inl rfl) _ hs

/-- C09 for `Heisenberg` in one dimension after any history of earlier calls; `total_size + 1` rows
are announced. -/
theorem C09_heisenberg_chain {n : Nat} (rot pbc : Bool) (history : List (Call n 1)) (B : Nat)
    (sample : Fin B → Config (Fin n)) (x : Fin B) (hs : IsSpin (sample x)) :
    Contract (sample x) (n + 1) ((((HeisOp.new1 n rot pbc).run history).findConn1 B sample).2 x) := by
  rw [answer1]
  obtain ⟨h1, ⟨mel, h2⟩, h3, h4⟩ := contract_heisRows (offDiag rot) pbc 1 (Or.inr ⟨rfl, rfl⟩)
    (expandDims (sample x)) (fun p => hs p.1)
  refine ⟨by rw [List.length_map, h1]; omega, ⟨mel, ?_⟩, ?_, ?_⟩
  · rw [List.head?_map, h2]; rfl
  · intro r hr
    rw [List.mem_map] at hr
    obtain ⟨r', hr', rfl⟩ := hr
    exact fun i => h3 r' hr' (i, 0)
  · intro r hr hu
    rw [List.mem_map] at hr
    obtain ⟨r', hr', rfl⟩ := hr
    exact h4 r' hr' hu

/-! ### C10 -/

theorem magnetization_exchange {ι : Type} [DecidableEq ι] [Fintype ι] (a b : ι) (s : Config ι) :
    magnetization (exchange a b s) = magnetization s := by
  unfold magnetization
  simp only [exchange_apply]
  exact Equiv.sum_comp (Equiv.swap a b) s

/-- C10, `Heisenberg` in two dimensions: a used connection keeps the magnetization, and is the sample
itself or the sample with the two differing spins of one bond exchanged. Conversely every bond with
differing spins occurs. -/
theorem C10_heisenberg_grid {n m : Nat} (rot pbc : Bool) (history : List (Call n m)) (B : Nat)
    (sample : Fin B → Config (Fin n × Fin m)) (x : Fin B) :
    let rows := (((HeisOp.new2 n m rot pbc).run history).findConn B sample).2 x
    (∀ r ∈ rows, r.use = true →
      magnetization r.conn = magnetization (sample x) ∧
      (r.conn = sample x ∨ ∃ b ∈ gridBonds n m pbc, sample x b.1 ≠ sample x b.2 ∧
        r.conn b.1 = sample x b.2 ∧ r.conn b.2 = sample x b.1 ∧
        ∀ i, i ≠ b.1 → i ≠ b.2 → r.conn i = sample x i)) ∧
    (∀ b ∈ gridBonds n m pbc, sample x b.1 ≠ sample x b.2 →
      ∃ r ∈ rows, r.use = true ∧ r.mel = (if rot then -2 else 2) ∧ r.conn = exchange b.1 b.2 (sample x)) := by
  intro rows
  have hrows : rows = heisRows (offDiag rot) pbc 2 (sample x) := answer2 rot pbc history B sample x
  rw [hrows]
  constructor
  · intro r hr hu
    have hcases : r = ⟨sample x, ∑ p, siteDiag pbc (sample x) p, true⟩ ∨
        r ∈ (heisRows (offDiag rot) pbc 2 (sample x)).tail := by
      unfold heisRows at hr ⊢
      simpa using hr
    rcases hcases with rfl | ht
    · exact ⟨rfl, Or.inl rfl⟩
    · rcases mem_heisRows_tail _ pbc 2 (sample x) r ht with rfl | ⟨b, hb, rfl⟩
      · exact absurd hu (by simp [emptyRow])
      · refine ⟨magnetization_exchange _ _ _, Or.inr ⟨b, hb, ?_, ?_, ?_, ?_⟩⟩
        · simpa [bondRow] using hu
        · simp [bondRow, exchange_apply]
        · simp [bondRow, exchange_apply]
        · intro i h1 h2
          simp [bondRow, exchange_apply, Equiv.swap_apply_of_ne_of_ne h1 h2]
  · rintro ⟨p, q⟩ hb hne
    simp only at hne
    refine ⟨bondRow (offDiag rot) (sample x) p q, ?_, ?_, ?_, rfl⟩
    · unfold heisRows
      rw [List.mem_cons]
      right
      rw [List.mem_flatMap]
      refine ⟨p, mem_gridSites n m p, ?_⟩
      unfold siteRows
      rw [List.mem_append, List.mem_append]
      left
      rcases mem_gridBonds.mp hb with ⟨hn, h, h2⟩ | ⟨hm, h, h2⟩
      · left
        simp only at h h2
        rw [if_pos hn, h, List.mem_singleton, ← h2]
        rfl
      · right
        simp only at h h2
        rw [if_pos hm, h, List.mem_singleton, ← h2]
        rfl
    · simp [bondRow, hne]
    · simp [bondRow, hne, offDiag]

/-- C10, `Heisenberg` in one dimension. -/
theorem C10_heisenberg_chain {n : Nat} (rot pbc : Bool) (history : List (Call n 1)) (B : Nat)
    (sample : Fin B → Config (Fin n)) (x : Fin B) :
    let rows := (((HeisOp.new1 n rot pbc).run history).findConn1 B sample).2 x
    ∀ r ∈ rows, r.use = true →
      magnetization r.conn = magnetization (sample x) ∧
      (r.conn = sample x ∨ ∃ b ∈ chainBonds' n pbc, sample x b.1 ≠ sample x b.2 ∧
        r.conn = exchange b.1 b.2 (sample x)) := by
  intro rows
  have hrows : rows = (heisRows (offDiag rot) pbc 1 (expandDims (sample x))).map squeezeRow :=
    answer1 rot pbc history B sample x
  rw [hrows]
  intro r hr hu
  rw [List.mem_map] at hr
  obtain ⟨r', hr', rfl⟩ := hr
  have hcases : r' = ⟨expandDims (sample x), ∑ p, siteDiag pbc (expandDims (sample x)) p, true⟩ ∨
      r' ∈ (heisRows (offDiag rot) pbc 1 (expandDims (sample x))).tail := by
    unfold heisRows at hr' ⊢
    simpa using hr'
  rcases hcases with rfl | ht
  · exact ⟨rfl, Or.inl rfl⟩
  · rcases mem_heisRows_tail _ pbc 1 _ r' ht with rfl | ⟨b, hb, rfl⟩
    · exact absurd hu (by simp [emptyRow, squeezeRow])
    · obtain ⟨⟨i, a⟩, ⟨k, c⟩⟩ := b
      have hconn : (squeezeRow (bondRow (offDiag rot) (expandDims (sample x)) (i, a) (k, c))).conn =
          exchange i k (sample x) := squeeze_exchange (sample x) i k a c
      simp only [hconn]
      refine ⟨magnetization_exchange _ _ _, Or.inr ⟨(i, k), ?_, ?_, rfl⟩⟩
      · rw [chainBonds'_eq, List.mem_map]
        exact ⟨_, hb, rfl⟩
      · exact of_decide_eq_true hu

/-- C10, `Ising` (generic in the lattice): the off-diagonal rows of a list are single-site flips and
every site is flipped in exactly one of them. -/
def FlipsEachSiteOnce {ι : Type} [DecidableEq ι] (s : Config ι) (rows : List (Row ι ℝ)) : Prop :=
  (∀ r ∈ rows.tail, ∃ i, r.conn i ≠ s i ∧ ∀ k, k ≠ i → r.conn k = s k) ∧
  ∀ i, (rows.tail.filter fun r => decide (r.conn i ≠ s i)).length = 1

theorem flip_self_ne {ι : Type} [DecidableEq ι] {s : Config ι} (hs : IsSpin s) (i : ι) : flip i s i ≠ s i := by
  unfold flip
  rw [Function.update_self]
  rcases hs i with h | h <;> simp [h]

theorem flips_once {ι : Type} [DecidableEq ι] (s : Config ι) (hs : IsSpin s) (sites : List ι)
    (hn : sites.Nodup) (hall : ∀ i, i ∈ sites) (d c : ℝ) :
    FlipsEachSiteOnce s (⟨s, d, true⟩ :: sites.map fun i => ⟨flip i s, c, true⟩) := by
  constructor
  · intro r hr
    rw [List.tail_cons, List.mem_map] at hr
    obtain ⟨i, -, rfl⟩ := hr
    exact ⟨i, flip_self_ne hs i, fun k hk => by unfold flip; exact Function.update_of_ne hk _ _⟩
  · intro i
    rw [List.tail_cons, List.filter_map, List.length_map]
    have : (sites.filter ((fun r : Row ι ℝ => decide (r.conn i ≠ s i)) ∘ fun i => ⟨flip i s, c, true⟩)) =
        sites.filter (· == i) := by
      apply List.filter_congr
      intro k _
      simp only [Function.comp, beq_eq_decide]
      by_cases hk : k = i
      · subst hk; simp [flip_self_ne hs k]
      · have : flip k s i = s i := by unfold flip; exact Function.update_of_ne (Ne.symm hk) _ _
        simp [hk, this]
    rw [this, ← List.count_eq_length_filter]
    exact List.count_eq_one_of_mem hn (hall i)

theorem C10_ising_chain {n B : Nat} (h : Field) (j : ℝ) (pbc : Bool) (sample : Fin B → Config (Fin n))
    (x : Fin B) (hs : IsSpin (sample x)) :
    FlipsEachSiteOnce (sample x) (isingFindConn1 h j pbc sample x) := by
  rw [isingFindConn1_eq]
  exact flips_once _ hs _ (List.nodup_finRange n) (List.mem_finRange) _ _

theorem C10_ising_grid {n m B : Nat} (h : Field) (j : ℝ) (pbc : Bool)
    (sample : Fin B → Config (Fin n × Fin m)) (x : Fin B) (hs : IsSpin (sample x)) :
    FlipsEachSiteOnce (sample x) (isingFindConn2 h j pbc sample x) := by
  rw [isingFindConn2_eq]
  exact flips_once _ hs _ (gridSites_nodup n m) (mem_gridSites n m) _ _

/-! ### C11 -/

theorem flip_symm {ι : Type} [DecidableEq ι] (i : ι) (s t : Config ι) : flip i s = t ↔ flip i t = s :=
  ⟨fun h => by rw [← h, flip_flip], fun h => by rw [← h, flip_flip]⟩

theorem exchange_symm {ι : Type} [DecidableEq ι] (a b : ι) (s t : Config ι) :
    exchange a b s = t ↔ exchange a b t = s :=
  ⟨fun h => by rw [← h, exchange_exchange], fun h => by rw [← h, exchange_exchange]⟩

theorem flips_symm {ι : Type} [DecidableEq ι] (sites : List ι) (c : ℝ) (f : Config ι → ℝ) (s t : Config ι) :
    matrixElement (⟨s, f s, true⟩ :: sites.map fun i => ⟨flip i s, c, true⟩) t =
      matrixElement (⟨t, f t, true⟩ :: sites.map fun i => ⟨flip i t, c, true⟩) s := by
  unfold matrixElement
  simp only [List.map_cons, List.sum_cons, List.map_map]
  congr 1
  · by_cases h : s = t
    · subst h; rfl
    · rw [if_neg h, if_neg (Ne.symm h)]
  · congr 1
    apply List.map_congr_left
    intro i _
    simp only [Function.comp]
    by_cases h : flip i s = t
    · rw [if_pos h, if_pos ((flip_symm i s t).mp h)]
    · rw [if_neg h, if_neg fun h' => h ((flip_symm i s t).mpr h')]

/-- C11 for `Ising` in one dimension: two configurations, each asked for in any batch. -/
theorem C11_ising_chain {n B B' : Nat} (h : Field) (j : ℝ) (pbc : Bool) (sample : Fin B → Config (Fin n))
    (sample' : Fin B' → Config (Fin n)) (x : Fin B) (y : Fin B') :
    matrixElement (isingFindConn1 h j pbc sample x) (sample' y) =
      matrixElement (isingFindConn1 h j pbc sample' y) (sample x) := by
  rw [isingFindConn1_eq, isingFindConn1_eq]
  exact flips_symm _ _ (fun s => h.store (∑ i : Fin n, -(j * (s i : ℝ) * (pad1 pbc s (i.val + 1) : ℝ)))) _ _

/-- C11 for `Ising` in two dimensions: two configurations, each asked for in any batch. -/
theorem C11_ising_grid {n m B B' : Nat} (h : Field) (j : ℝ) (pbc : Bool)
    (sample : Fin B → Config (Fin n × Fin m)) (sample' : Fin B' → Config (Fin n × Fin m)) (x : Fin B)
    (y : Fin B') :
    matrixElement (isingFindConn2 h j pbc sample x) (sample' y) =
      matrixElement (isingFindConn2 h j pbc sample' y) (sample x) := by
  rw [isingFindConn2_eq, isingFindConn2_eq]
  exact flips_symm _ _ (fun s => h.store (∑ p : Fin n × Fin m,
        (-(if n > 1 then j * (s p : ℝ) * (pad1 pbc (fun i' => s (i', p.2)) (p.1.val + 1) : ℝ) else 0)
          - (if m > 1 then j * (s p : ℝ) * (pad1 pbc (fun j' => s (p.1, j')) (p.2.val + 1) : ℝ) else 0)))) _ _

theorem heisRows_symm {n m : Nat} (off : ℝ) (pbc : Bool) (dim : Nat) (hdim : dim = 2 ∨ (dim = 1 ∧ m = 1))
    (s t : Config (Fin n × Fin m)) :
    matrixElement (heisRows off pbc dim s) t = matrixElement (heisRows off pbc dim t) s := by
  unfold matrixElement heisRows
  rw [sum_rows off pbc dim hdim s _ _ (by simp), sum_rows off pbc dim hdim t _ _ (by simp)]
  congr 1
  · by_cases h : s = t
    · subst h; rfl
    · simp only
      rw [if_neg h, if_neg (Ne.symm h)]
  · apply list_sum_congr
    intro b _
    simp only [exchange_symm b.1 b.2 s t]
    by_cases h : exchange b.1 b.2 t = s
    · have h1 : s b.1 = t b.2 := by rw [← h, exchange_apply, Equiv.swap_apply_left]
      have h2 : s b.2 = t b.1 := by rw [← h, exchange_apply, Equiv.swap_apply_right]
      rw [h1, h2]
      simp only [ne_comm]
    · rw [if_neg h, ite_self, ite_self]

/-- C11 for `Heisenberg` in two dimensions: two configurations, each asked for after any history. -/
theorem C11_heisenberg_grid {n m : Nat} (rot pbc : Bool) (history history' : List (Call n m)) (B B' : Nat)
    (sample : Fin B → Config (Fin n × Fin m)) (sample' : Fin B' → Config (Fin n × Fin m))
    (x : Fin B) (y : Fin B') :
    matrixElement ((((HeisOp.new2 n m rot pbc).run history).findConn B sample).2 x) (sample' y) =
      matrixElement ((((HeisOp.new2 n m rot pbc).run history').findConn B' sample').2 y) (sample x) := by
  rw [answer2, answer2]
  exact heisRows_symm _ _ _ (Or.inl rfl) _ _

theorem matrixElement_squeeze {n : Nat} (rows : List (Row (Fin n × Fin 1) ℝ)) (t : Config (Fin n)) :
    matrixElement (rows.map squeezeRow) t = matrixElement rows (expandDims t) := by
  unfold matrixElement
  rw [List.map_map]
  congr 1
  apply List.map_congr_left
  intro r _
  have : (squeezeRow r).conn = t ↔ r.conn = expandDims t := by
    constructor
    · intro h
      rw [← expand_squeeze r.conn, ← h]; rfl
    · intro h
      show squeeze r.conn = t
      rw [h]; rfl
  simp only [Function.comp]
  by_cases h : (squeezeRow r).conn = t
  · rw [if_pos h, if_pos (this.mp h)]; rfl
  · rw [if_neg h, if_neg fun h' => h (this.mpr h')]

/-- C11 for `Heisenberg` in one dimension. -/
theorem C11_heisenberg_chain {n : Nat} (rot pbc : Bool) (history history' : List (Call n 1)) (B B' : Nat)
    (sample : Fin B → Config (Fin n)) (sample' : Fin B' → Config (Fin n)) (x : Fin B) (y : Fin B') :
    matrixElement ((((HeisOp.new1 n rot pbc).run history).findConn1 B sample).2 x) (sample' y) =
      matrixElement ((((HeisOp.new1 n rot pbc).run history').findConn1 B' sample').2 y) (sample x) := by
  rw [answer1, answer1, matrixElement_squeeze, matrixElement_squeeze]
  exact heisRows_symm _ _ _ (Or.inr ⟨rfl, rfl⟩) _ _

/-! ### C12 -/

/-- C12, first half: the values returned by a call are those a fresh operator would return, whatever
was called before. -/
theorem C12_history_independent_grid {n m : Nat} (rot pbc : Bool) (history : List (Call n m)) (B : Nat)
    (sample : Fin B → Config (Fin n × Fin m)) :
    (((HeisOp.new2 n m rot pbc).run history).findConn B sample).2 =
      ((HeisOp.new2 n m rot pbc).findConn B sample).2 := by
  funext x
  rw [answer2]
  exact (answer2 rot pbc [] B sample x).symm

theorem C12_history_independent_chain {n : Nat} (rot pbc : Bool) (history : List (Call n 1)) (B : Nat)
    (sample : Fin B → Config (Fin n)) :
    (((HeisOp.new1 n rot pbc).run history).findConn1 B sample).2 =
      ((HeisOp.new1 n rot pbc).findConn1 B sample).2 := by
  funext x
  rw [answer1]
  exact (answer1 rot pbc [] B sample x).symm

theorem cache_other {n m : Nat} (op : HeisOp n m) (B B' : Nat) (h : B' ≠ B)
    (sample : Fin B' → Config (Fin n × Fin m)) :
    (op.findConn B' sample).1.cache B = op.cache B ∧ (op.findConn B' sample).1.dim = op.dim := by
  unfold HeisOp.findConn HeisOp.ensure
  split
  · rename_i op' buf heq
    split at heq
    · simp only [Prod.mk.injEq] at heq
      obtain ⟨rfl, rfl⟩ := heq
      exact ⟨Function.update_of_ne (Ne.symm h) _ _, rfl⟩
    · simp only [Prod.mk.injEq] at heq
      obtain ⟨rfl, rfl⟩ := heq
      simp only
      exact ⟨by rw [Function.update_of_ne (Ne.symm h), Function.update_of_ne (Ne.symm h)], trivial⟩

theorem read_after {n m : Nat} (op : HeisOp n m) (B : Nat) (sample : Fin B → Config (Fin n × Fin m))
    (x : Fin B) :
    (op.findConn B sample).1.readReturned B x = some ((op.findConn B sample).2 x) := by
  unfold HeisOp.findConn HeisOp.readReturned
  simp

/-- C12, second half, partial: arrays returned by a call keep their contents as long as no later call
uses the same batch size. Missing: later calls with the same batch size, which overwrite them
(`C12_aliasing_violated`). -/
theorem C12_results_stay_partial {n m : Nat} (op : HeisOp n m) (B : Nat)
    (sample : Fin B → Config (Fin n × Fin m)) (later : List (Call n m)) (h : ∀ c ∈ later, c.1 ≠ B) (x : Fin B) :
    ((op.findConn B sample).1.run later).readReturned B x = some ((op.findConn B sample).2 x) := by
  rw [← read_after op B sample x]
  generalize (op.findConn B sample).1 = o
  induction later generalizing o with
  | nil => rfl
  | cons c later ih =>
    obtain ⟨h1, h2⟩ := cache_other o B c.1 (h c (List.mem_cons_self ..)) c.2
    show ((o.findConn c.1 c.2).1.run later).readReturned B x = _
    rw [ih (fun c' hc' => h c' (List.mem_cons_of_mem _ hc'))]
    unfold HeisOp.readReturned
    rw [h1, h2]

/-- C12, second half, is violated: two calls with one sample each; afterwards the arrays obtained from
the first call hold the second sample. -/
theorem C12_aliasing_violated :
    let s1 : Config (Fin 2 × Fin 1) := fun _ => 1
    let s2 : Config (Fin 2 × Fin 1) := fun _ => -1
    let first := (HeisOp.new2 2 1 true true).findConn 1 (fun _ => s1)
    let second := first.1.findConn 1 (fun _ => s2)
    second.1.readReturned 1 0 ≠ some (first.2 0) := by
  intro s1 s2 first second
  have h1 : second.1.readReturned 1 0 = some (second.2 0) := read_after first.1 1 _ 0
  have h2 : second.2 0 = heisRows (offDiag true) true 2 s2 :=
    answer2 true true [⟨1, fun _ => s1⟩] 1 (fun _ => s2) 0
  have h3 : first.2 0 = heisRows (offDiag true) true 2 s1 := answer2 true true [] 1 (fun _ => s1) 0
  rw [h1, h2, h3]
  intro hc
  simp only [Option.some.injEq, heisRows, List.cons.injEq] at hc
  have := congrArg (fun r => r.conn (0, 0)) hc.1
  simp [s1, s2] at this

/-! ### C13 -/

theorem findConn_shape {n m : Nat} (op : HeisOp n m) (h : op.shape.length ≠ 1) (B : Nat)
    (sample : Fin B → Config (Fin n × Fin m)) : (op.findConn B sample).1.shape = op.shape := by
  unfold HeisOp.findConn HeisOp.ensure
  cases op.cache B <;> simp [h]

/-- C13, partial: a two-dimensional operator keeps its shape over every history of calls. Missing:
one-dimensional operators, where it is false (`C13_violated`). (`Ising.find_conn` assigns no field of
the operator at all, ising.py:17-46.) -/
theorem C13_shape_kept_partial (n m : Nat) (rot pbc : Bool) (history : List (Call n m)) :
    ((HeisOp.new2 n m rot pbc).run history).shape = [n, m] := by
  have : ∀ op : HeisOp n m, op.shape = [n, m] → (op.run history).shape = [n, m] := by
    induction history with
    | nil => intro op h; exact h
    | cons c history ih =>
      intro op h
      exact ih _ ((findConn_shape op (by simp [h]) c.1 c.2).trans h)
  exact this _ rfl

/-- C13 is violated: every one-dimensional operator has a different shape after its first call, and
keeps that wrong shape for ever. -/
theorem C13_violated (n : Nat) (rot pbc : Bool) (first : Call n 1) (later : List (Call n 1)) :
    (HeisOp.new1 n rot pbc).shape = [n] ∧
    ((HeisOp.new1 n rot pbc).run (first :: later)).shape = [n, 1] := by
  refine ⟨rfl, ?_⟩
  have h1 : ((HeisOp.new1 n rot pbc).findConn first.1 first.2).1.shape = [n, 1] := by
    unfold HeisOp.findConn HeisOp.ensure HeisOp.new1
    simp
  have : ∀ op : HeisOp n 1, op.shape = [n, 1] → (op.run later).shape = [n, 1] := by
    induction later with
    | nil => intro op h; exact h
    | cons c history ih =>
      intro op h
      exact ih _ ((findConn_shape op (by simp [h]) c.1 c.2).trans h)
  exact this _ h1

/-- C13, partial: what one-dimensional operators keep over every history of calls is the number of sites. -/
theorem C13_sites_kept_partial (n : Nat) (rot pbc : Bool) (history : List (Call n 1)) :
    ((HeisOp.new1 n rot pbc).run history).shape.prod = n := by
  cases history with
  | nil => simp [HeisOp.run, HeisOp.new1]
  | cons c later => simp [(C13_violated n rot pbc c later).2]

/-! ### C14 -/

theorem mapM_ok {ε α β : Type} (f : α → Except ε β) (l : List α) (r : List β) (h : l.mapM f = .ok r) :
    List.Forall₂ (fun a b => f a = .ok b) l r := by
  induction l generalizing r with
  | nil =>
    simp only [List.mapM_nil, pure, Except.pure, Except.ok.injEq] at h
    subst h
    exact .nil
  | cons a l ih =>
    rw [List.mapM_cons] at h
    cases hf : f a with
    | error e => simp [hf, bind, Except.bind] at h
    | ok b =>
      cases hl : l.mapM f with
      | error e => simp [hf, hl, bind, Except.bind] at h
      | ok bs =>
        simp only [hf, hl, bind, Except.bind, pure, Except.pure, Except.ok.injEq] at h
        subst h
        exact .cons hf (ih bs hl)

theorem mapM_all_ok {ε α β : Type} (f : α → Except ε β) (g : α → β) (l : List α) (h : ∀ a ∈ l, f a = .ok (g a)) :
    l.mapM f = .ok (l.map g) := by
  induction l with
  | nil => rfl
  | cons a l ih =>
    rw [List.mapM_cons, h a (List.mem_cons_self ..), ih fun a ha => h a (List.mem_cons_of_mem _ ha)]
    rfl

/-- C14, soundness: whatever `random_states` returns is what was asked for: the right number of
configurations of the right size, made of plus and minus ones, in the requested sector. -/
theorem C14_sound (totalSize : Nat) (totalSz : ℝ) (shuffle : Nat → List ℤ → List ℤ)
    (hsh : ∀ i l, (shuffle i l).Perm l) (k : Nat) (states : List (List ℤ))
    (h : randomStates totalSize totalSz shuffle k = .ok states) :
    states.length = k ∧ ∀ s ∈ states, s.length = totalSize ∧ (∀ v ∈ s, v = 1 ∨ v = -1) ∧
      ((s.sum : ℤ) : ℝ) = totalSz := by
  unfold randomStates at h
  split at h
  · simp at h
  · rename_i st hst
    split at h
    · rename_i hall
      simp only [Except.ok.injEq] at h
      subst h
      have h2 := mapM_ok _ _ _ hst
      refine ⟨by rw [← h2.length_eq, List.length_range], ?_⟩
      intro s hs
      have : ∃ i, (sectorRow totalSize totalSz).map (shuffle i) = .ok s := by
        obtain ⟨i, hi, h3⟩ := List.mem_iff_getElem.mp hs
        exact ⟨_, by rw [← h3]; exact (List.forall₂_iff_get.mp h2).2 i (by rw [h2.length_eq]; exact hi) hi⟩
      obtain ⟨i, hi⟩ := this
      refine ⟨?_, ?_, hall s hs⟩
      · unfold sectorRow at hi
        simp only at hi
        split at hi
        · simp [Except.map] at hi
        · split at hi
          · rename_i hlen
            simp only [Except.map, Except.ok.injEq] at hi
            rw [← hi, (hsh i _).length_eq, hlen]
          · simp [Except.map] at hi
      · unfold sectorRow at hi
        simp only at hi
        split at hi
        · simp [Except.map] at hi
        · split at hi
          · simp only [Except.map, Except.ok.injEq] at hi
            intro v hv
            rw [← hi, (hsh i _).mem_iff, List.mem_append] at hv
            rcases hv with hv | hv
            · exact Or.inl (List.eq_of_mem_replicate hv)
            · exact Or.inr (List.eq_of_mem_replicate hv)
          · simp [Except.map] at hi
    · simp at h

/-- C14, partial: in the zero sector of a lattice with an even number of sites the call succeeds.
Missing: all other sectors and odd lattices, where it always fails (`C14_violated`). -/
theorem C14_zero_sector_partial (half : Nat) (shuffle : Nat → List ℤ → List ℤ)
    (hsh : ∀ i l, (shuffle i l).Perm l) (k : Nat) :
    ∃ states, randomStates (2 * half) 0 shuffle k = .ok states := by
  have hrow : sectorRow (2 * half) 0 = .ok (List.replicate half 1 ++ List.replicate half (-1)) := by
    have h0 : pyInt 0 = 0 := by simp [pyInt]
    unfold sectorRow
    simp only [h0, add_zero, sub_zero]
    have h2 : 2 * half / 2 = half := by omega
    rw [h2, if_neg (by omega), if_pos (by simp; omega)]
    simp
  have hm := mapM_all_ok (fun i => (sectorRow (2 * half) 0).map (shuffle i))
    (fun i => shuffle i (List.replicate half 1 ++ List.replicate half (-1))) (List.range k)
    (by intro i _; rw [hrow]; rfl)
  refine ⟨(List.range k).map fun i => shuffle i (List.replicate half 1 ++ List.replicate half (-1)), ?_⟩
  unfold randomStates
  rw [hm]
  simp only
  rw [if_pos]
  intro s hs
  rw [List.mem_map] at hs
  obtain ⟨i, -, rfl⟩ := hs
  rw [(hsh i _).sum_eq]
  simp

/-- C14 is violated: on every lattice, a request for at least one state fails if the number of sites
is odd or the requested magnetization is not zero, whether or not such configurations exist. -/
theorem C14_violated (totalSize : Nat) (totalSz : ℝ) (shuffle : Nat → List ℤ → List ℤ)
    (hsh : ∀ i l, (shuffle i l).Perm l) (k : Nat) (hk : 0 < k)
    (h : totalSize % 2 = 1 ∨ totalSz ≠ 0) : ∃ e, randomStates totalSize totalSz shuffle k = .error e := by
  cases hr : randomStates totalSize totalSz shuffle k with
  | error e => exact ⟨e, rfl⟩
  | ok states =>
    exfalso
    obtain ⟨hlen, hall⟩ := C14_sound totalSize totalSz shuffle hsh k states hr
    have hrow : ∃ i s, (sectorRow totalSize totalSz).map (shuffle i) = .ok s ∧ s ∈ states := by
      unfold randomStates at hr
      split at hr
      · simp at hr
      · rename_i st hst
        split at hr
        · simp only [Except.ok.injEq] at hr
          subst hr
          have h2 := mapM_ok _ _ _ hst
          have h0 : 0 < st.length := by rw [hlen]; exact hk
          exact ⟨_, st[0], (List.forall₂_iff_get.mp h2).2 0 (by rw [h2.length_eq]; exact h0) h0,
            List.getElem_mem h0⟩
        · simp at hr
    obtain ⟨i, s, hi, hs⟩ := hrow
    obtain ⟨-, -, hsum⟩ := hall s hs
    unfold sectorRow at hi
    simp only at hi
    split at hi
    · simp [Except.map] at hi
    · rename_i hnn
      split at hi
      · rename_i hl
        simp only [Except.map, Except.ok.injEq] at hi
        rw [List.length_append, List.length_replicate, List.length_replicate] at hl
        have hev : totalSize % 2 = 0 := by omega
        rcases h with h | h
        · omega
        · apply h
          rw [← hi, (hsh i _).sum_eq, List.sum_append, List.sum_replicate, List.sum_replicate] at hsum
          have hz : ((2 * pyInt totalSz : ℤ) : ℝ) = totalSz := by
            refine Eq.trans ?_ hsum
            congr 1
            simp only [nsmul_eq_mul, mul_one, mul_neg]
            omega
          have hfix : pyInt totalSz = 2 * pyInt totalSz := by
            have : ∀ z : ℤ, pyInt (z : ℝ) = z := by
              intro z; unfold pyInt; split <;> simp
            conv_lhs => rw [← hz]
            exact this _
          have hz0 : pyInt totalSz = 0 := by omega
          rw [← hz, hz0]; simp
      · simp [Except.map] at hi

/-- The hypotheses of C14 are met, for instance by the shuffle that changes nothing. -/
example : (∀ (i : Nat) (l : List ℤ), ((fun _ l => l : Nat → List ℤ → List ℤ) i l).Perm l) :=
  fun _ l => List.Perm.refl l

end Verif.Operators
