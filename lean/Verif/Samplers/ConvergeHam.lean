import Verif.Samplers.Converge

/-!
# C87: the chains of the Hamiltonian sampler converge to the squared amplitudes
-/
namespace Verif.Metropolis

open Verif.Operators Verif.Markov Filter Topology
open Verif.Energy (allSpins mem_allSpins)

variable {ι : Type} {C : Nat}

theorem path_map {α β : Type} {r : α → α → Prop} {p : β → β → Prop} (f : α → β) (h : ∀ a b, r a b → p (f a) (f b)) {a b : α}
    (hab : Relation.ReflTransGen r a b) : Relation.ReflTransGen p (f a) (f b) := by
  induction hab with
  | refl => exact .refl
  | tail _ hl ih => exact ih.tail (h _ _ hl)

/-- Configurations offered by the operator. -/
def Offers (rows : Config ι → List (Row ι ℝ)) (s t : Config ι) : Prop := ∃ r ∈ rows s, r.use = true ∧ r.conn = t

theorem choose_offers (rows : Config ι → List (Row ι ℝ)) (s t : Config ι) :
    (∃ k, choose (rows s) k = t) ↔ Offers rows s t := by
  constructor
  · rintro ⟨k, rfl⟩
    have : choose (rows s) k ∈ possible (rows s) := List.getElem_mem _
    obtain ⟨r, hr, e⟩ := List.mem_map.1 this
    rw [List.mem_filter] at hr
    exact ⟨r, hr.1, by simpa using hr.2, e⟩
  · rintro ⟨r, hr, hu, rfl⟩
    have : r.conn ∈ possible (rows s) := List.mem_map.2 ⟨r, List.mem_filter.2 ⟨hr, by simpa using hu⟩, rfl⟩
    obtain ⟨k, hk, e⟩ := List.getElem_of_mem this
    exact ⟨⟨k, by rw [← length_possible]; exact hk⟩, e⟩

/-- Convergence for operators with symmetric connections that connect every configuration with itself. -/
theorem hamiltonian_converges [Fintype ι] [DecidableEq ι] (ψ : Config ι → ℂ) (rows : Config ι → List (Row ι ℝ))
    (find find' : (Fin C → Config ι) → Fin C → List (Row ι ℝ)) (hf : ∀ S c, find S c = rows (S c))
    (hf' : ∀ S c, find' S c = rows (S c)) (hsym : ∀ s t, links (rows s) t = links (rows t) s)
    (hself : ∀ s, Offers rows s s) (F : Fin C → Finset (Config ι)) (hF : ∀ c, F c ⊆ allSpins ι)
    (hmove : ∀ c, ∀ s ∈ F c, ∀ t, Offers rows s t → t ∈ F c)
    (hirr : ∀ c, ∀ s ∈ F c, ∀ t ∈ F c, Relation.ReflTransGen (Offers rows) s t) :
    ConvergesTo ψ (hamiltonianTransition ψ find find') F := by
  have hr : ∀ s (k : Fin (numConn (rows s))), 0 < Real.exp (((ψ (choose (rows s) k)).re - (ψ s).re) * 2 +
      Real.log ((numConn (rows s) : ℝ) / (numConn (rows (choose (rows s) k)) : ℝ))) := fun s k => Real.exp_pos _
  refine kernel_converges (κ := fun s => Fin (numConn (rows s))) (fun s k => choose (rows s) k) _ hr ψ
    (hamiltonian_transition ψ rows find find' hf hf') (fun s t _ _ => hamKernel_balance ψ rows s t (hsym s t)) ?_ F hF ?_ ?_ ?_
  · intro s
    obtain ⟨k, -⟩ := (choose_offers rows s s).2 (hself s)
    exact Fintype.card_pos_iff.2 ⟨k⟩
  · intro c s hs k
    exact hmove c s hs _ ((choose_offers rows s _).1 ⟨k, rfl⟩)
  · intro c s hs t ht
    exact path_map id (fun a b h => (choose_offers rows a b).2 h) (hirr c s hs t ht)
  · rintro c ⟨z, hz⟩
    obtain ⟨k, hk⟩ := (choose_offers rows z z).2 (hself z)
    refine ⟨z, hz, ?_⟩
    have := kernel_move_pos (κ := fun s => Fin (numConn (rows s))) (fun s k => choose (rows s) k) _ hr z k
    rwa [hk] at this

/-! ### Ising -/

theorem ising_converges [Fintype ι] [DecidableEq ι] (ψ : Config ι → ℂ) (sites : List ι) (hsites : ∀ i, i ∈ sites) (e : ℝ)
    (f : Config ι → ℝ) (find : (Fin C → Config ι) → Fin C → List (Row ι ℝ))
    (hf : ∀ S c, find S c = ⟨S c, f (S c), true⟩ :: sites.map fun i => ⟨Operators.flip i (S c), e, true⟩) :
    ConvergesTo ψ (hamiltonianTransition ψ find find) fun _ => allSpins ι := by
  refine hamiltonian_converges ψ (fun s => ⟨s, f s, true⟩ :: sites.map fun i => ⟨Operators.flip i s, e, true⟩) find find hf hf
    (fun s t => links_flips sites e f s t) (fun s => ⟨_, List.mem_cons_self, rfl, rfl⟩) _ (fun _ => Finset.Subset.refl _) ?_ ?_
  · rintro c s hs t ⟨r, hr, -, rfl⟩
    rw [mem_allSpins] at hs ⊢
    rcases List.mem_cons.1 hr with rfl | hr
    · exact hs
    · obtain ⟨i, -, rfl⟩ := List.mem_map.1 hr
      exact flip_spin hs i
  · intro c s hs t ht
    refine path_map id ?_ (flips_connect s t ((mem_allSpins s).1 hs) ((mem_allSpins t).1 ht))
    rintro a b ⟨i, rfl⟩
    exact ⟨_, List.mem_cons_of_mem _ (List.mem_map.2 ⟨i, hsites i, rfl⟩), rfl, rfl⟩

/-- **C87, Hamiltonian moves of the Ising chain:** for every field (even zero), coupling, boundary, wave
function and start. -/
theorem C87_ising_chain {n : Nat} (ψ : Config (Fin n) → ℂ) (h : Field) (j : ℝ) (pbc : Bool) :
    ConvergesTo (C := C) ψ (hamiltonianTransition ψ (isingFindConn1 h j pbc) (isingFindConn1 h j pbc))
      fun _ => allSpins (Fin n) :=
  ising_converges ψ (List.finRange n) (List.mem_finRange) (-h.val)
    (fun s => h.store (∑ i : Fin n, -(j * (s i : ℝ) * (pad1 pbc s (i.val + 1) : ℝ)))) _
    fun S c => isingFindConn1_eq h j pbc S c

/-- **C87, Hamiltonian moves of the Ising model on a grid.** -/
theorem C87_ising_grid {n m : Nat} (ψ : Config (Fin n × Fin m) → ℂ) (h : Field) (j : ℝ) (pbc : Bool) :
    ConvergesTo (C := C) ψ (hamiltonianTransition ψ (isingFindConn2 h j pbc) (isingFindConn2 h j pbc))
      fun _ => allSpins (Fin n × Fin m) :=
  ising_converges ψ (gridSites n m) (mem_gridSites n m) (-h.val)
    (fun s => h.store (∑ p : Fin n × Fin m,
        (-(if n > 1 then j * (s p : ℝ) * (pad1 pbc (fun i' => s (i', p.2)) (p.1.val + 1) : ℝ) else 0)
          - (if m > 1 then j * (s p : ℝ) * (pad1 pbc (fun j' => s (p.1, j')) (p.2.val + 1) : ℝ) else 0)))) _
    fun S c => isingFindConn2_eq h j pbc S c

/-! ### Heisenberg -/

theorem canSwap_symm [DecidableEq ι] {Move : Config ι → Config ι → Prop} {i j : ι} (h : CanSwap Move i j) :
    CanSwap Move j i := fun s => by rw [exchange_comm]; exact h s

theorem canSwap_refl [DecidableEq ι] {Move : Config ι → Config ι → Prop} (i : ι) : CanSwap Move i i := fun s => by
  rw [exchange_self]

/-- Chains are connected. -/
theorem canSwap_chain [DecidableEq ι] {Move : Config ι → Config ι → Prop} {n : Nat} (pbc : Bool) (f : Fin n → ι)
    (h : n > 1 → ∀ i k, chainNext n pbc i = some k → CanSwap Move (f i) (f k)) (i j : Fin n) : CanSwap Move (f i) (f j) := by
  have h0 : ∀ (a : Nat) (ha : a < n), CanSwap Move (f ⟨0, by omega⟩) (f ⟨a, ha⟩) := by
    intro a
    induction a with
    | zero => intro ha; exact canSwap_refl _
    | succ a ih =>
      intro ha
      refine canSwap_trans (ih (by omega)) (h (by omega) _ _ ?_)
      unfold chainNext
      rw [dif_pos (show (⟨a, by omega⟩ : Fin n).val + 1 < n from ha)]
  exact canSwap_trans (canSwap_symm (h0 i.val i.2)) (h0 j.val j.2)

theorem canSwap_grid {n m : Nat} (pbc : Bool) {Move : Config (Fin n × Fin m) → Config (Fin n × Fin m) → Prop}
    (h : ∀ b ∈ gridBonds n m pbc, CanSwap Move b.1 b.2) (p q : Fin n × Fin m) : CanSwap Move p q := by
  have h1 : CanSwap Move p (q.1, p.2) := canSwap_chain pbc (fun i => (i, p.2))
    (fun hn i k hik => h ((i, p.2), (k, p.2)) (mem_gridBonds.2 (Or.inl ⟨hn, hik, rfl⟩))) p.1 q.1
  have h2 : CanSwap Move (q.1, p.2) q := canSwap_chain pbc (fun j => (q.1, j))
    (fun hm i k hik => h ((q.1, i), (q.1, k)) (mem_gridBonds.2 (Or.inr ⟨hm, hik, rfl⟩))) p.2 q.2
  exact canSwap_trans h1 h2

theorem exchange_eq_self [DecidableEq ι] {i j : ι} {s : Config ι} (h : s i = s j) : exchange i j s = s := by
  funext l
  rw [exchange_apply]
  by_cases h1 : l = i
  · rw [h1, Equiv.swap_apply_left, h]
  · by_cases h2 : l = j
    · rw [h2, Equiv.swap_apply_right, h]
    · rw [Equiv.swap_apply_of_ne_of_ne h1 h2]

theorem bondRow_mem {n m : Nat} (off : ℝ) (pbc : Bool) (dim : Nat) (s : Config (Fin n × Fin m))
    (b : (Fin n × Fin m) × (Fin n × Fin m)) (hb : b ∈ gridBonds n m pbc) : bondRow off s b.1 b.2 ∈ heisRows off pbc dim s := by
  refine List.mem_cons_of_mem _ (List.mem_flatMap.2 ⟨b.1, mem_gridSites n m b.1, ?_⟩)
  unfold siteRows
  rw [List.mem_append, List.mem_append]
  rcases mem_gridBonds.1 hb with ⟨hn, h, e⟩ | ⟨hm, h, e⟩
  · left; left
    rw [if_pos hn, List.mem_singleton, h, ← e]
    rfl
  · left; right
    rw [if_pos hm, List.mem_singleton, h, ← e]
    rfl

theorem heis_swaps {n m : Nat} (off : ℝ) (pbc : Bool) (dim : Nat) (p q : Fin n × Fin m) :
    CanSwap (Offers (heisRows off pbc dim)) p q := by
  refine canSwap_grid pbc (fun b hb s => ?_) p q
  by_cases h : s b.1 = s b.2
  · rw [exchange_eq_self h]
  · exact .single ⟨_, bondRow_mem off pbc dim s b hb, by simpa [bondRow] using h, rfl⟩

theorem heis_moves {n m : Nat} (off : ℝ) (pbc : Bool) (dim : Nat) {s t : Config (Fin n × Fin m)}
    (h : Offers (heisRows off pbc dim) s t) : t = s ∨ ∃ p q, t = exchange p q s := by
  obtain ⟨r, hr, hu, rfl⟩ := h
  rcases List.mem_cons.1 hr with rfl | hr
  · exact Or.inl rfl
  · rcases mem_heisRows_tail off pbc dim s r hr with rfl | ⟨b, -, rfl⟩
    · simp [emptyRow] at hu
    · exact Or.inr ⟨b.1, b.2, rfl⟩

theorem mem_sector [Fintype ι] [DecidableEq ι] (M : ℤ) (s : Config ι) : s ∈ sector M ↔ IsSpin s ∧ magnetization s = M := by
  unfold sector
  rw [Finset.mem_filter, mem_allSpins]

/-- **C87, Hamiltonian moves of the Heisenberg model on a grid:** on the configurations with the
magnetisation of the start, for every wave function, grid, boundary and sign convention, after any calls of
`find_conn`. -/
theorem C87_heisenberg_grid {n m : Nat} (ψ : Config (Fin n × Fin m) → ℂ) (rot pbc : Bool) (hist hist' : List (Call n m))
    (M : Fin C → ℤ) :
    let find := fun S : Fin C → Config (Fin n × Fin m) => (((HeisOp.new2 n m rot pbc).run hist).findConn C S).2
    let find' := fun S : Fin C → Config (Fin n × Fin m) => (((HeisOp.new2 n m rot pbc).run hist').findConn C S).2
    ConvergesTo ψ (hamiltonianTransition ψ find find') fun c => sector (M c) := by
  refine hamiltonian_converges ψ (heisRows (offDiag rot) pbc 2) _ _ (fun S c => answer2 _ _ _ _ _ _)
    (fun S c => answer2 _ _ _ _ _ _) (fun s t => links_heis _ _ _ (Or.inl rfl) s t)
    (fun s => ⟨_, List.mem_cons_self, rfl, rfl⟩) _ (fun c s hs => (mem_allSpins s).2 ((mem_sector _ s).1 hs).1) ?_ ?_
  · intro c s hs t h
    rw [mem_sector] at hs ⊢
    rcases heis_moves _ _ _ h with rfl | ⟨p, q, rfl⟩
    · exact hs
    · exact ⟨exchange_spin hs.1 _ _, by rw [magnetization_exchange]; exact hs.2⟩
  · intro c s hs t ht
    rw [mem_sector] at hs ht
    exact exchanges_connect (heis_swaps _ _ _) s t hs.1 ht.1 (hs.2.trans ht.2.symm)

theorem offers_squeeze {n : Nat} (rows : Config (Fin n × Fin 1) → List (Row (Fin n × Fin 1) ℝ)) (s t : Config (Fin n × Fin 1)) :
    Offers (fun s => (rows (expandDims s)).map squeezeRow) (squeeze s) (squeeze t) ↔ Offers rows s t := by
  unfold Offers
  simp only [expand_squeeze]
  constructor
  · rintro ⟨r, hr, hu, e⟩
    obtain ⟨r', hr', rfl⟩ := List.mem_map.1 hr
    refine ⟨r', hr', hu, ?_⟩
    rw [← expand_squeeze r'.conn, ← expand_squeeze t, ← e]; rfl
  · rintro ⟨r, hr, hu, rfl⟩
    exact ⟨_, List.mem_map_of_mem hr, hu, rfl⟩

/-- **C87, Hamiltonian moves of the Heisenberg chain.** -/
theorem C87_heisenberg_chain {n : Nat} (ψ : Config (Fin n) → ℂ) (rot pbc : Bool) (hist hist' : List (Call n 1))
    (M : Fin C → ℤ) :
    let find := fun S : Fin C → Config (Fin n) => (((HeisOp.new1 n rot pbc).run hist).findConn1 C S).2
    let find' := fun S : Fin C → Config (Fin n) => (((HeisOp.new1 n rot pbc).run hist').findConn1 C S).2
    ConvergesTo ψ (hamiltonianTransition ψ find find') fun c => sector (M c) := by
  refine hamiltonian_converges ψ (fun s => (heisRows (offDiag rot) pbc 1 (expandDims s)).map squeezeRow) _ _
    (fun S c => answer1 _ _ _ _ _ _) (fun S c => answer1 _ _ _ _ _ _)
    (fun s t => by rw [links_squeeze, links_squeeze]; exact links_heis _ _ _ (Or.inr ⟨rfl, rfl⟩) _ _)
    (fun s => ⟨_, List.mem_map_of_mem List.mem_cons_self, rfl, rfl⟩) _ (fun c s hs => (mem_allSpins s).2 ((mem_sector _ s).1 hs).1) ?_ ?_
  · intro c s hs t h
    rw [mem_sector] at hs ⊢
    have h' := (offers_squeeze (heisRows (offDiag rot) pbc 1) (expandDims s) (expandDims t)).1 h
    rcases heis_moves _ _ _ h' with e | ⟨p, q, e⟩
    · have : t = s := congrArg squeeze e
      rw [this]; exact hs
    · have : t = exchange p.1 q.1 s := (congrArg squeeze e).trans (squeeze_exchange s p.1 q.1 p.2 q.2)
      rw [this]
      exact ⟨exchange_spin hs.1 _ _, by rw [magnetization_exchange]; exact hs.2⟩
  · intro c s hs t ht
    rw [mem_sector] at hs ht
    refine exchanges_connect (fun i j s => ?_) s t hs.1 ht.1 (hs.2.trans ht.2.symm)
    have := heis_swaps (offDiag rot) pbc 1 (i, (0 : Fin 1)) (j, 0) (expandDims s)
    rw [← squeeze_exchange s i j 0 0]
    exact path_map squeeze (fun a b h => (offers_squeeze _ a b).2 h) this

end Verif.Metropolis
