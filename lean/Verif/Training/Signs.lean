import Verif.Training.Couplings

/-!
# C171: the signs of the Ising couplings only redefine the wave function

Reversing the transverse field is multiplying the wave function by the product of all spins. Reversing the coupling on a lattice of two
sublattices without bonds inside (open, or with an even number of sites along every axis) is reversing the spins of one of them.
Reports and training targets stay the same.
-/
namespace Verif.Training

open Verif.Operators Verif.Energy

variable {ι : Type} [Fintype ι] [DecidableEq ι]

/-! ### Specification -/

/-- The primed operator gives for `logψ'` what the other one gives for `logψ`, if the amplitudes differ by the product of all spins. -/
def FieldSign (est est' : Reports ι) (tg tg' : Targets ι) : Prop :=
  ∀ (B : ℕ), 0 < B → ∀ logψ logψ' : Config ι → ℂ, (∀ s, IsSpin s → Complex.exp (logψ' s) = (∏ i, (s i : ℂ)) * Complex.exp (logψ s)) →
    ∀ x : Fin B → Config ι, (∀ b, IsSpin (x b)) → est' B logψ' x = est B logψ x ∧ tg' B logψ' x = tg B logψ x ∧ (est B logψ x).isSome ∧
      (tg B logψ x).isSome

/-- The spins of the sites in `A` reversed. -/
def reversed (A : ι → Bool) (s : Config ι) : Config ι := fun i => if A i then -s i else s i

/-- The primed operator gives for the network and the samples with the spins in `A` reversed what the other one gives. -/
def CouplingSign (A : ι → Bool) (est est' : Reports ι) (tg tg' : Targets ι) : Prop :=
  ∀ (B : ℕ), 0 < B → ∀ (logψ : Config ι → ℂ) (x : Fin B → Config ι), (∀ b, IsSpin (x b)) →
    est' B (fun s => logψ (reversed A s)) (fun b => reversed A (x b)) = est B logψ x ∧
    tg' B (fun s => logψ (reversed A s)) (fun b => reversed A (x b)) = tg B logψ x ∧ (est B logψ x).isSome ∧ (tg B logψ x).isSome

/-! ### Proofs -/

omit [Fintype ι] in
theorem flip_spin {s : Config ι} (hs : IsSpin s) (i : ι) : IsSpin (Operators.flip i s) := by
  intro k
  unfold Operators.flip
  by_cases h : k = i
  · subst h
    rw [Function.update_self]
    rcases hs k with h | h <;> rw [h] <;> simp
  · rw [Function.update_of_ne h]
    exact hs k

theorem prod_flip (i : ι) (s : Config ι) : ∏ k, (Operators.flip i s k : ℂ) = -∏ k, (s k : ℂ) := by
  unfold Operators.flip
  rw [← Finset.mul_prod_erase _ _ (Finset.mem_univ i), ← Finset.mul_prod_erase _ (fun k => (s k : ℂ)) (Finset.mem_univ i),
    Function.update_self]
  rw [Finset.prod_congr rfl (g := fun k => (s k : ℂ)) fun k hk => by rw [Function.update_of_ne (Finset.ne_of_mem_erase hk)]]
  push_cast
  ring

theorem local_field (bonds : List (ι × ι)) (h j : ℝ) {logψ logψ' : Config ι → ℂ}
    (he : ∀ s, IsSpin s → Complex.exp (logψ' s) = (∏ i, (s i : ℂ)) * Complex.exp (logψ s)) {s : Config ι} (hs : IsSpin s) :
    localEnergy (tfim bonds (-h) j) logψ' s = localEnergy (tfim bonds h j) logψ s := by
  have hp : (∏ i, (s i : ℂ)) ≠ 0 := Finset.prod_ne_zero_iff.2 fun i _ => by rcases hs i with h | h <;> rw [h] <;> simp
  unfold localEnergy
  rw [he s hs]
  have : tfim bonds (-h) j (fun s => Complex.exp (logψ' s)) s = (∏ i, (s i : ℂ)) * tfim bonds h j (fun s => Complex.exp (logψ s)) s := by
    unfold tfim pauliX pauliZ
    beta_reduce
    rw [he s hs]
    have e : ∀ i, Complex.exp (logψ' (Operators.flip i s)) = -(∏ i, (s i : ℂ)) * Complex.exp (logψ (Operators.flip i s)) := fun i => by
      rw [he _ (flip_spin hs i), prod_flip]
    simp only [e, ← Finset.mul_sum]
    have e2 : ∀ l : List (ι × ι), (l.map fun b => (s b.1 : ℂ) * ((s b.2 : ℂ) * ((∏ i, (s i : ℂ)) * Complex.exp (logψ s)))).sum =
        (∏ i, (s i : ℂ)) * (l.map fun b => (s b.1 : ℂ) * ((s b.2 : ℂ) * Complex.exp (logψ s))).sum := by
      intro l
      induction l with
      | nil => simp
      | cons b l ih => rw [List.map_cons, List.sum_cons, ih, List.map_cons, List.sum_cons]; ring
    rw [e2]
    push_cast
    ring
  rw [this, mul_div_mul_left _ _ hp]

omit [Fintype ι] [DecidableEq ι] in
theorem reversed_spin {A : ι → Bool} {s : Config ι} (hs : IsSpin s) : IsSpin (reversed A s) := by
  intro i
  unfold reversed
  split
  · rcases hs i with h | h <;> rw [h] <;> simp
  · exact hs i

omit [Fintype ι] [DecidableEq ι] in
theorem reversed_reversed (A : ι → Bool) (s : Config ι) : reversed A (reversed A s) = s := by
  funext i
  unfold reversed
  split <;> simp

omit [Fintype ι] in
theorem reversed_flip (A : ι → Bool) (i : ι) (s : Config ι) : reversed A (Operators.flip i (reversed A s)) = Operators.flip i s := by
  funext k
  unfold reversed Operators.flip
  by_cases h : k = i
  · subst h
    simp only [Function.update_self]
    split <;> simp
  · simp only [Function.update_of_ne h]
    split <;> simp

theorem local_coupling {bonds : List (ι × ι)} {A : ι → Bool} (hA : ∀ b ∈ bonds, A b.1 = !A b.2) (h j : ℝ) (logψ : Config ι → ℂ)
    (s : Config ι) :
    localEnergy (tfim bonds h (-j)) (fun s => logψ (reversed A s)) (reversed A s) = localEnergy (tfim bonds h j) logψ s := by
  unfold localEnergy tfim pauliX pauliZ
  simp only [reversed_reversed, reversed_flip]
  have e : ∀ l : List (ι × ι), (∀ b ∈ l, A b.1 = !A b.2) →
      (l.map fun b => (reversed A s b.1 : ℂ) * ((reversed A s b.2 : ℂ) * Complex.exp (logψ s))).sum =
      -(l.map fun b => (s b.1 : ℂ) * ((s b.2 : ℂ) * Complex.exp (logψ s))).sum := by
    intro l hl
    induction l with
    | nil => simp
    | cons b l ih =>
      rw [List.map_cons, List.sum_cons, ih fun c hc => hl c (List.mem_cons_of_mem _ hc), List.map_cons, List.sum_cons]
      have := hl b List.mem_cons_self
      unfold reversed
      cases h2 : A b.2 <;> rw [h2] at this <;> simp at this <;> simp [this] <;> ring
  rw [e bonds hA]
  push_cast
  ring

omit [Fintype ι] [DecidableEq ι] in
theorem closed_same {H H' : Wave ι → Wave ι} {est est' : Reports ι} {tg tg' : Targets ι} (hc : ClosedForm H est tg)
    (hc' : ClosedForm H' est' tg') {B : ℕ} (hB : 0 < B) {logψ logψ' : Config ι → ℂ} {x x' : Fin B → Config ι} (hx : ∀ b, IsSpin (x b))
    (hx' : ∀ b, IsSpin (x' b)) (hl : ∀ b, localEnergy H' logψ' (x' b) = localEnergy H logψ (x b)) :
    est' B logψ' x' = est B logψ x ∧ tg' B logψ' x' = tg B logψ x ∧ (est B logψ x).isSome ∧ (tg B logψ x).isSome := by
  rw [hc.1 B hB logψ x hx, hc'.1 B hB logψ' x' hx', hc.2 B hB logψ x hx, hc'.2 B hB logψ' x' hx']
  simp only [hl]
  exact ⟨trivial, trivial, rfl, rfl⟩

theorem fieldSign_of {bonds : List (ι × ι)} {h j : ℝ} {est est' : Reports ι} {tg tg' : Targets ι}
    (hc : ClosedForm (tfim bonds h j) est tg) (hc' : ClosedForm (tfim bonds (-h) j) est' tg') : FieldSign est est' tg tg' :=
  fun _ hB _ _ he _ hx => closed_same hc hc' hB hx hx fun b => local_field bonds h j he (hx b)

theorem couplingSign_of {bonds : List (ι × ι)} {A : ι → Bool} (hA : ∀ b ∈ bonds, A b.1 = !A b.2) {h j : ℝ} {est est' : Reports ι}
    {tg tg' : Targets ι} (hc : ClosedForm (tfim bonds h j) est tg) (hc' : ClosedForm (tfim bonds h (-j)) est' tg') :
    CouplingSign A est est' tg tg' :=
  fun _ hB logψ x hx => closed_same hc hc' hB hx (fun b => reversed_spin (hx b)) fun b => local_coupling hA h j logψ (x b)

theorem next_parity {n : ℕ} {pbc : Bool} (hn : pbc = false ∨ Even n) {i k : Fin n} (h : chainNext n pbc i = some k) :
    (i.val + k.val) % 2 = 1 := by
  unfold chainNext at h
  split at h
  · obtain rfl := Option.some.inj h
    show (i.val + (i.val + 1)) % 2 = 1
    omega
  · rename_i h1
    rcases hn with rfl | hn
    · simp at h
    · split at h
      · obtain rfl := Option.some.inj h
        obtain ⟨r, hr⟩ := hn
        have := i.isLt
        show (i.val + 0) % 2 = 1
        omega
      · simp at h

/-! ### The Ising operators -/

/-- **C171**, sign of the field on chains. -/
theorem C171_field_chain (n : ℕ) (pbc : Bool) (h j : ℝ) :
    FieldSign (chainReports n pbc h j) (chainReports n pbc (-h) j) (chainTargets n pbc h j) (chainTargets n pbc (-h) j) :=
  fieldSign_of (chain_closed n pbc h j) (chain_closed n pbc (-h) j)

/-- **C171**, sign of the field on grids. -/
theorem C171_field_grid (n m : ℕ) (pbc : Bool) (h j : ℝ) :
    FieldSign (gridReports n m pbc h j) (gridReports n m pbc (-h) j) (gridTargets n m pbc h j) (gridTargets n m pbc (-h) j) :=
  fieldSign_of (grid_closed n m pbc h j) (grid_closed n m pbc (-h) j)

/-- **C171**, sign of the coupling on chains that are open or of even length: every other spin is reversed. -/
theorem C171_coupling_chain (n : ℕ) (pbc : Bool) (hn : pbc = false ∨ Even n) (h j : ℝ) :
    CouplingSign (fun i : Fin n => i.val % 2 == 1) (chainReports n pbc h j) (chainReports n pbc h (-j)) (chainTargets n pbc h j)
      (chainTargets n pbc h (-j)) :=
  couplingSign_of (fun b hb => by
    unfold chainBonds at hb
    simp only [List.mem_flatMap, List.mem_finRange, true_and, Option.mem_toList, Option.map_eq_some_iff] at hb
    obtain ⟨i, k, hk, rfl⟩ := hb
    have := next_parity hn hk
    show (i.val % 2 == 1) = !(k.val % 2 == 1)
    rcases Nat.mod_two_eq_zero_or_one i.val with h1 | h1 <;> rcases Nat.mod_two_eq_zero_or_one k.val with h2 | h2 <;> rw [h1, h2] <;>
      first | rfl | omega) (chain_closed n pbc h j) (chain_closed n pbc h (-j))

/-- **C171**, sign of the coupling on grids that are open or of even lengths: the spins on the black squares of the chess board are
reversed. -/
theorem C171_coupling_grid (n m : ℕ) (pbc : Bool) (hn : pbc = false ∨ Even n ∧ Even m) (h j : ℝ) :
    CouplingSign (fun p : Fin n × Fin m => (p.1.val + p.2.val) % 2 == 1) (gridReports n m pbc h j) (gridReports n m pbc h (-j))
      (gridTargets n m pbc h j) (gridTargets n m pbc h (-j)) :=
  couplingSign_of (fun b hb => by
    have key : (b.1.1.val + b.1.2.val + (b.2.1.val + b.2.2.val)) % 2 = 1 := by
      rcases mem_gridBonds.mp hb with ⟨-, h1, h2⟩ | ⟨-, h1, h2⟩
      · have := next_parity (hn.imp id And.left) h1
        have h3 := congrArg Fin.val h2
        omega
      · have := next_parity (hn.imp id And.right) h1
        have h3 := congrArg Fin.val h2
        omega
    show ((b.1.1.val + b.1.2.val) % 2 == 1) = !((b.2.1.val + b.2.2.val) % 2 == 1)
    rcases Nat.mod_two_eq_zero_or_one (b.1.1.val + b.1.2.val) with h1 | h1 <;>
      rcases Nat.mod_two_eq_zero_or_one (b.2.1.val + b.2.2.val) with h2 | h2 <;> rw [h1, h2] <;>
      first | rfl | omega) (grid_closed n m pbc h j) (grid_closed n m pbc h (-j))

/-- On a periodic chain of odd length the sign matters: with three sites no choice of spins to be reversed makes up for it. -/
theorem C171_odd : ¬ ∃ A : Fin 3 → Bool, CouplingSign A (chainReports 3 true 0 1) (chainReports 3 true 0 (-1)) (chainTargets 3 true 0 1)
    (chainTargets 3 true 0 (-1)) := by
  rintro ⟨A, hA⟩
  have hx : ∀ b : Fin 1, IsSpin ((fun _ _ => 1 : Fin 1 → Config (Fin 3)) b) := fun _ _ => Or.inl rfl
  have h := (hA 1 one_pos (fun _ => 0) (fun _ _ => 1) hx).1
  rw [(chain_closed 3 true 0 1).1 1 one_pos _ _ hx, (chain_closed 3 true 0 (-1)).1 1 one_pos _ _ fun b => reversed_spin (hx b)] at h
  have h2 := congrArg Prod.snd (congrArg Prod.snd (Option.some.inj h))
  simp only [List.map_inj_left] at h2
  have h3 := h2 0 (List.mem_finRange _)
  have hb : chainBonds 3 true = [(0, 1), (1, 2), (2, 0)] := by decide
  unfold localEnergy tfim pauliZ at h3
  rw [hb] at h3
  simp [reversed] at h3
  cases h0 : A 0 <;> cases h1 : A 1 <;> cases h2 : A 2 <;> simp [h0, h1, h2] at h3 <;> norm_num at h3

/-- For every network there is one whose amplitudes have the other sign for an odd number of spins down. -/
example (logψ : Config ι → ℂ) : ∃ logψ' : Config ι → ℂ,
    ∀ s, IsSpin s → Complex.exp (logψ' s) = (∏ i, (s i : ℂ)) * Complex.exp (logψ s) := by
  refine ⟨fun s => Complex.log ((∏ i, (s i : ℂ)) * Complex.exp (logψ s)), fun s hs => Complex.exp_log ?_⟩
  exact mul_ne_zero (Finset.prod_ne_zero_iff.2 fun i _ => by rcases hs i with h | h <;> rw [h] <;> simp) (Complex.exp_ne_zero _)

end Verif.Training
