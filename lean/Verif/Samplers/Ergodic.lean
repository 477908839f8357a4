import Verif.Samplers.EnergyLimit
import Verif.Samplers.MetropolisRun
import Verif.Samplers.Runs
import Verif.Energy.LargeBatch
import Verif.Energy.SectorBatch

/-!
# Property C139: long Metropolis batches train exactly

The batches of `next(sampler)` obey the law of large numbers: with any fixed number of chains, their averages come as close
as desired to the averages over the squared amplitudes as the batch size grows. By C136 the same then holds for the reported
energy and variance, for the gradient and for the steps of stochastic reconfiguration.
-/
namespace Verif.Metropolis

open Verif.Operators Verif.Markov Verif.Energy Filter Topology

variable {ι κ : Type} {C D : Nat} {shape : Fin D → Nat}

/-! ### Specification -/

open Classical in
/-- The batches of `next(sampler)` (samplers/metropolis_hastings.py:51-65) as a source of samples: `C` chains that start in
`S`, `N` samples of each chain, and therefore a batch of `C * N`. The outcome is the list of the states of the chains after
each sweep. After the sweeps of the warm up every `unused + 1`-st state is used, and row `c * N + i` of the batch is sample
`i` of chain `c` (`C139_batch`). `P` are the one-sweep transition probabilities; `e` translates sites of the array of the
sampler to sites of the operator. -/
noncomputable def metropolisSource [DecidableEq κ] [Fintype κ] (e : κ ≃ ι)
    (P : (Fin C → Config κ) → (Fin C → Config κ) → ℝ) (unused discard : Nat) (S : Fin C → Config κ) : Source (Config ι) where
  Outcome _ := List (Fin C → Config κ)
  mean N := runMean (Fintype.piFinset fun _ : Fin C => allSpins κ) P (warmUpSweeps N unused discard + N * (unused + 1)) S
  size N := C * N
  batch N path row := view e
    (path.getD (warmUpSweeps N unused discard + (row.val % N + 1) * (unused + 1) - 1) S ⟨row.val / N, Nat.div_lt_of_lt_mul (row.isLt.trans_eq (Nat.mul_comm _ _))⟩)

/-- The source describes the code: if `next(sampler)` succeeds, the batch it returns is the batch of the source for the list
of the states of the chains after each of its sweeps. -/
theorem C139_batch [DecidableEq κ] [Fintype κ] {ψ : Config κ → ℂ} {N unused discard t : Nat} {sw : Nat → Sweep κ C}
    {garbage : Nat → Config κ} {st : State κ C} {r : Next κ C} (hC : 0 < C)
    (P : (Fin C → Config κ) → (Fin C → Config κ) → ℝ) (S : Fin C → Config κ)
    (h : next ψ (C * N) unused discard sw t garbage st = some r) :
    let T := warmUpSweeps N unused discard + N * (unused + 1)
    ∃ (x : Nat → State κ C) (a : Nat → Nat), Path sw t T x a ∧
      x 0 = { sample := st.sample, values := fun c => ψ (st.sample c) } ∧
      ∀ row : Fin (C * N), r.batch row.val = (metropolisSource (Equiv.refl κ) P unused discard S).batch N
        ((List.range T).map fun k => (x (k + 1)).sample) row := by
  intro T
  have hs : sizesOk (C * N) C = true := by
    unfold sizesOk
    rw [decide_eq_true_iff]
    exact ⟨hC.ne', Nat.mul_mod_right C N⟩
  obtain ⟨x, a, hp, h0, -, -, hb, -⟩ := C46_next hs h
  have hdiv : C * N / C = N := Nat.mul_div_cancel_left N hC
  rw [hdiv] at hp hb
  refine ⟨x, a, hp, h0, fun row => ?_⟩
  have hlt := row.isLt
  have hN : 0 < N := Nat.pos_of_ne_zero fun h => Nat.not_lt_zero row.val (hlt.trans_eq (by rw [h, Nat.mul_zero]))
  have hc : row.val / N < C := Nat.div_lt_of_lt_mul (hlt.trans_eq (Nat.mul_comm _ _))
  have hrow := hb ⟨row.val / N, hc⟩ (row.val % N) (Nat.mod_lt _ hN)
  have he : row.val / N * N + row.val % N = row.val := by rw [Nat.mul_comm]; exact Nat.div_add_mod _ _
  rw [he] at hrow
  rw [hrow]
  have hpos : 0 < (row.val % N + 1) * (unused + 1) := Nat.mul_pos (by omega) (by omega)
  have hle : (row.val % N + 1) * (unused + 1) ≤ N * (unused + 1) := Nat.mul_le_mul_right _ (Nat.mod_lt _ hN)
  unfold metropolisSource view
  dsimp only
  have hk : warmUpSweeps N unused discard + (row.val % N + 1) * (unused + 1) - 1 < T := by omega
  rw [List.getD_eq_getElem _ _ (by simpa using hk), List.getElem_map, List.getElem_range,
    show warmUpSweeps N unused discard + (row.val % N + 1) * (unused + 1) - 1 + 1 =
      warmUpSweeps N unused discard + (row.val % N + 1) * (unused + 1) by omega]
  rfl

/-! ### The law of large numbers -/

section
variable [DecidableEq κ] [Fintype κ] [DecidableEq ι] [Fintype ι]

omit [DecidableEq κ] [Fintype κ] in
/-- Chains with independent moves that do not leave `F`. -/
theorem stochastic_prod {P : (Fin C → Config κ) → (Fin C → Config κ) → ℝ} {χ : Config κ → Type} [∀ s, Fintype (χ s)]
    (cand : (s : Config κ) → χ s → Config κ) (ratio : (s : Config κ) → χ s → ℝ) (hr : ∀ s k, 0 < ratio s k)
    (hP : ∀ S T, P S T = ∏ c, kernel cand ratio (S c) (T c)) (hR : ∀ s, 0 < Fintype.card (χ s)) (F : Finset (Config κ))
    (hmove : ∀ s ∈ F, ∀ k, cand s k ∈ F) :
    Stochastic (Fintype.piFinset fun _ : Fin C => F) P where
  nonneg S _ T _ := by
    rw [hP]
    exact Finset.prod_nonneg fun c _ => kernel_nonneg cand ratio hr _ _
  row S hS := by
    simp only [hP]
    rw [Finset.sum_prod_piFinset F fun c t => kernel cand ratio (S c) t]
    refine Finset.prod_eq_one fun c _ => ?_
    exact kernel_sum cand ratio F (S c) (Fintype.mem_piFinset.1 hS c) (hmove _ (Fintype.mem_piFinset.1 hS c)) (hR _)

omit [DecidableEq κ] [Fintype κ] [DecidableEq ι] [Fintype ι] in
/-- Sums over configurations seen through `e`. -/
theorem sum_seen (e : κ ≃ ι) (F : Finset (Config κ)) (F' : Finset (Config ι)) (h : ∀ s, view e s ∈ F' ↔ s ∈ F) (f : Config ι → ℝ) :
    ∑ s ∈ F, f (view e s) = ∑ s ∈ F', f s := by
  refine Finset.sum_bij (fun s _ => view e s) (fun s hs => (h s).2 hs) ?_ ?_ fun _ _ => rfl
  · intro s _ t _ he
    funext k
    have := congrFun he (e k)
    simpa [view] using this
  · intro s hs
    have hv : view e (fun k => s (e k)) = s := by funext i; simp [view]
    exact ⟨fun k => s (e k), (h _).1 (by rw [hv]; exact hs), hv⟩

omit [DecidableEq ι] [Fintype ι] in
/-- The mean over the batch is the mean over the samples of the mean over the chains. -/
theorem batch_mean (e : κ ≃ ι) (P : (Fin C → Config κ) → (Fin C → Config κ) → ℝ) (unused discard : Nat) (S : Fin C → Config κ)
    (N : Nat) (f : Config ι → ℝ) (path : List (Fin C → Config κ)) :
    (∑ b, f ((metropolisSource e P unused discard S).batch N path b)) / ((C * N : Nat) : ℝ) =
      (∑ i ∈ Finset.range N, (∑ c, f (view e
        (path.getD (warmUpSweeps N unused discard + (i + 1) * (unused + 1) - 1) S c))) / C) / N := by
  have h1 : ∑ b, f ((metropolisSource e P unused discard S).batch N path b) = ∑ x : Fin C × Fin N, f (view e
      (path.getD (warmUpSweeps N unused discard + (x.2.val + 1) * (unused + 1) - 1) S x.1)) := by
    refine (Fintype.sum_equiv finProdFinEquiv _ _ fun x => ?_).symm
    have hx := x.2.isLt
    have hN : 0 < N := by omega
    have hmod : (finProdFinEquiv x).val % N = x.2.val := by
      rw [finProdFinEquiv_apply_val, Nat.add_mul_mod_self_left, Nat.mod_eq_of_lt hx]
    have hdiv : (finProdFinEquiv x).val / N = x.1.val := by
      rw [finProdFinEquiv_apply_val, Nat.add_mul_div_left _ _ hN, Nat.div_eq_of_lt hx, Nat.zero_add]
    have hfin : (⟨(finProdFinEquiv x).val / N, Nat.div_lt_of_lt_mul ((finProdFinEquiv x).isLt.trans_eq (Nat.mul_comm _ _))⟩ : Fin C) =
        x.1 := Fin.ext hdiv
    show _ = f (view e (path.getD (warmUpSweeps N unused discard + ((finProdFinEquiv x).val % N + 1) * (unused + 1) - 1) S
      ⟨(finProdFinEquiv x).val / N, _⟩))
    rw [hfin, hmod]
  rw [h1, Fintype.sum_prod_type_right, Finset.sum_range fun i => (∑ c, f (view e
        (path.getD (warmUpSweeps N unused discard + (i + 1) * (unused + 1) - 1) S c))) / C, ← Finset.sum_div, div_div, Nat.cast_mul]

omit [DecidableEq ι] [Fintype ι] in
/-- **Law of large numbers for Metropolis batches.** -/
theorem metropolis_draws (hC : 0 < C) (e : κ ≃ ι) (logψ : Config ι → ℂ) {P : (Fin C → Config κ) → (Fin C → Config κ) → ℝ}
    (F : Finset (Config κ)) (hF : F ⊆ allSpins κ) (F' : Finset (Config ι)) (hF' : ∀ s, view e s ∈ F' ↔ s ∈ F)
    (hst : Stochastic (Fintype.piFinset fun _ : Fin C => F) P)
    (hconv : ConvergesTo (fun s => logψ (view e s)) P fun _ => F)
    (hP : ∀ S T, (∀ c, S c ∈ F) → (¬ ∀ c, T c ∈ F) → P S T = 0) (unused discard : Nat) (S : Fin C → Config κ)
    (hS : ∀ c, S c ∈ F) :
    (metropolisSource e P unused discard S).Draws F' fun s =>
      ‖Complex.exp (logψ s)‖ ^ 2 / ∑ t ∈ F', ‖Complex.exp (logψ t)‖ ^ 2 := by
  classical
  set FC := Fintype.piFinset fun _ : Fin C => F with hFC
  set AC := Fintype.piFinset fun _ : Fin C => allSpins κ with hAC
  have hsub : FC ⊆ AC := Fintype.piFinset_subset _ _ fun _ => hF
  have hSC : S ∈ FC := Fintype.mem_piFinset.2 hS
  have hout : ∀ x ∈ FC, ∀ y ∈ AC, y ∉ FC → P x y = 0 := fun x hx y _ hy =>
    hP x y (Fintype.mem_piFinset.1 hx) fun h => hy (Fintype.mem_piFinset.2 h)
  set n : Nat → Nat := fun N => warmUpSweeps N unused discard + N * (unused + 1) with hn
  set src := metropolisSource e P unused discard S with hsrc
  have hmean : ∀ N G, src.mean N G = runMean FC P (n N) S G := fun N G => runMean_subset hsub hout (n N) S hSC G
  set τ : Nat → Nat → Nat := fun N i => warmUpSweeps N unused discard + (i + 1) * (unused + 1) - 1 with hτ
  have hτn : ∀ N, ∀ i < N, τ N i < n N := by
    intro N i hi
    have h1 : (i + 1) * (unused + 1) ≤ N * (unused + 1) := Nat.mul_le_mul_right _ hi
    have h2 : 0 < (i + 1) * (unused + 1) := Nat.mul_pos (by omega) (by omega)
    simp only [hτ, hn]
    omega
  have hτlt : ∀ N i j, i < j → j < N → τ N i + (j - i) ≤ τ N j := by
    intro N i j hij _
    obtain ⟨k, rfl⟩ := Nat.exists_eq_add_of_lt hij
    have h2 : 0 < (i + 1) * (unused + 1) := Nat.mul_pos (by omega) (by omega)
    have h3 : (i + k + 1 + 1) * (unused + 1) = (i + 1) * (unused + 1) + (k + 1) * (unused + 1) := by ring
    have h4 : k + 1 ≤ (k + 1) * (unused + 1) := Nat.le_mul_of_pos_right _ (by omega)
    simp only [hτ]
    omega
  have hmono : ∀ N G H, (∀ ω, (∀ b, src.batch N ω b ∈ F') → G ω ≤ H ω) → src.mean N G ≤ src.mean N H := by
    intro N G H h
    rw [hmean, hmean]
    refine runMean_mono hst _ _ hSC _ _ fun l hl hm => h l fun b => ?_
    have hb := b.isLt
    have hN : 0 < N := Nat.pos_of_ne_zero fun h => Nat.not_lt_zero b.val (hb.trans_eq (by show C * N = 0; rw [h, Nat.mul_zero]))
    have hk := hτn N (b.val % N) (Nat.mod_lt _ hN)
    have hk' : τ N (b.val % N) < l.length := by rw [hl]; exact hk
    have := hm _ (List.getElem_mem hk')
    show view e (l.getD (τ N (b.val % N)) S ⟨b.val / N, _⟩) ∈ F'
    rw [hF', List.getD_eq_getElem _ _ hk']
    exact Fintype.mem_piFinset.1 this _
  have hadd : ∀ N G H, src.mean N (fun ω => G ω + H ω) = src.mean N G + src.mean N H := fun N G H => runMean_add _ _ _ _
  have hconst : ∀ N c, src.mean N (fun _ => c) = c := fun N c => by rw [hmean]; exact runMean_const hst _ _ hSC c
  refine ⟨hmono, hadd, hconst, ?_, fun f ε hε => ?_⟩
  · filter_upwards [eventually_gt_atTop 0] with N hN
    exact Nat.mul_pos hC hN
  set Z : ℝ := ∑ t ∈ F, weight (fun s => logψ (view e s)) t with hZ
  have hZpos : 0 < Z := Finset.sum_pos (fun t _ => weight_pos _ t) ⟨S ⟨0, hC⟩, hS _⟩
  set π : (Fin C → Config κ) → ℝ := fun T => ∏ c, weight (fun s => logψ (view e s)) (T c) / Z with hπ
  set g : (Fin C → Config κ) → ℝ := fun T => (∑ c, f (view e (T c))) / C with hg
  have hlim : ∀ x ∈ FC, ∀ y ∈ FC, Tendsto (fun n => steps FC P n x y) atTop (𝓝 (π y)) := by
    intro x hx y hy
    refine (hconv x y (Fintype.mem_piFinset.1 hx) (Fintype.mem_piFinset.1 hy)).congr fun k => ?_
    unfold afterSweeps
    have := steps_within hsub hout k x hx y
    convert this using 2
  have hm : ∑ T ∈ FC, π T * g T =
      ∑ s ∈ F', ‖Complex.exp (logψ s)‖ ^ 2 / (∑ t ∈ F', ‖Complex.exp (logψ t)‖ ^ 2) * f s := by
    have hone : ∑ s ∈ F, weight (fun s => logψ (view e s)) s / Z = 1 := by rw [← Finset.sum_div, div_self hZpos.ne']
    have e1 : ∑ T ∈ FC, π T * g T = expect F (fun s => weight (fun s => logψ (view e s)) s / Z) C
        fun T => (1 / C) * ∑ c, f (view e (T c)) := by
      unfold expect
      exact Finset.sum_congr rfl fun T _ => by simp only [hπ, hg]; ring
    have hCR : (C : ℝ) ≠ 0 := by exact_mod_cast hC.ne'
    rw [e1, expect_mul, expect_sum]
    simp only [expect_one F _ hone fun s => f (view e s)]
    rw [Finset.sum_const, Finset.card_univ, Fintype.card_fin, nsmul_eq_mul, ← mul_assoc, one_div_mul_cancel hCR, one_mul,
      ← sum_seen e F F' hF' fun s => ‖Complex.exp (logψ s)‖ ^ 2 / (∑ t ∈ F', ‖Complex.exp (logψ t)‖ ^ 2) * f s,
      ← sum_seen e F F' hF' fun s => ‖Complex.exp (logψ s)‖ ^ 2]
    rfl
  have hsq := averages hst π hlim g S n τ (fun _ => S) (fun _ => hSC) hτlt hτn
  rw [hm] at hsq
  set m := ∑ s ∈ F', ‖Complex.exp (logψ s)‖ ^ 2 / (∑ t ∈ F', ‖Complex.exp (logψ t)‖ ^ 2) * f s
  rw [Source.inTheLimit_iff hadd hconst]
  have hsq2 := hsq.const_mul (1 / ε ^ 2)
  rw [mul_zero] at hsq2
  refine tendsto_of_tendsto_of_tendsto_of_le_of_le tendsto_const_nhds hsq2
    (fun N => Source.chance_nonneg hmono hconst N _) fun N => ?_
  rw [Source.chance_eq, hmean, ← runMean_mul]
  refine runMean_mono hst _ _ hSC _ _ fun l _ _ => ?_
  have hbm := batch_mean e P unused discard S N f l
  split
  · rename_i hbad
    rw [not_lt] at hbad
    rw [show (∑ i ∈ Finset.range N, g (l.getD (τ N i) S)) / (N : ℝ) =
      (∑ b, f (src.batch N l b)) / ((src.size N : Nat) : ℝ) from hbm.symm]
    rw [one_div, ← sq_abs (_ - m), inv_mul_eq_div, le_div_iff₀ (by positivity), one_mul]
    exact pow_le_pow_left₀ hε.le hbad 2
  · positivity

theorem seen_all (e : κ ≃ ι) (s : Config κ) : view e s ∈ allSpins ι ↔ s ∈ allSpins κ := by
  rw [mem_allSpins, mem_allSpins]
  exact ⟨fun h k => by simpa [view] using h (e k), view_spin e⟩

theorem seen_sector (e : κ ≃ ι) (M : ℤ) (s : Config κ) : view e s ∈ sector (ι := ι) M ↔ s ∈ sector (ι := κ) M := by
  rw [mem_sector, mem_sector, magnetization_view, ← mem_allSpins, ← mem_allSpins, seen_all]

omit [DecidableEq ι] [Fintype ι] in
/-- Moves that are drawn uniformly. -/
theorem symmetric_draws (hC : 0 < C) (e : κ ≃ ι) (logψ : Config ι → ℂ) {P : (Fin C → Config κ) → (Fin C → Config κ) → ℝ}
    {R : Type} [Fintype R] [DecidableEq R] (hR : 0 < Fintype.card R) (move : R → Config κ → Config κ)
    (hprod : ∀ S T, P S T = ∏ c, symKernel (fun s => logψ (view e s)) move (S c) (T c))
    (F : Finset (Config κ)) (hF : F ⊆ allSpins κ) (F' : Finset (Config ι)) (hF' : ∀ s, view e s ∈ F' ↔ s ∈ F)
    (hmove : ∀ s ∈ F, ∀ r, move r s ∈ F) (hconv : ConvergesTo (fun s => logψ (view e s)) P fun _ => F) (unused discard : Nat)
    (S : Fin C → Config κ) (hS : ∀ c, S c ∈ F) :
    (metropolisSource e P unused discard S).Draws F' fun s =>
      ‖Complex.exp (logψ s)‖ ^ 2 / ∑ t ∈ F', ‖Complex.exp (logψ t)‖ ^ 2 :=
  metropolis_draws hC e logψ F hF F' hF'
    (stochastic_prod (χ := fun _ => R) (fun s r => move r s) _ (ratio_pos _ move) hprod (fun _ => hR) F hmove) hconv
    (fun S T hS hT => confined_prod hprod (sym_zero _ move F hmove) S T hS hT) unused discard S hS

/-- Hamiltonian moves. -/
theorem hamiltonian_draws (hC : 0 < C) (logψ : Config κ → ℂ) (rows : Config κ → List (Row κ ℝ))
    (find find' : (Fin C → Config κ) → Fin C → List (Row κ ℝ)) (hf : ∀ S c, find S c = rows (S c))
    (hf' : ∀ S c, find' S c = rows (S c)) (hself : ∀ s, Offers rows s s) (F : Finset (Config κ)) (hF : F ⊆ allSpins κ)
    (hm : ∀ s ∈ F, ∀ r ∈ rows s, r.use = true → r.conn ∈ F)
    (hconv : ConvergesTo logψ (hamiltonianTransition logψ find find') fun _ => F) (unused discard : Nat)
    (S : Fin C → Config κ) (hS : ∀ c, S c ∈ F) :
    (metropolisSource (Equiv.refl κ) (hamiltonianTransition logψ find find') unused discard S).Draws F fun s =>
      ‖Complex.exp (logψ s)‖ ^ 2 / ∑ t ∈ F, ‖Complex.exp (logψ t)‖ ^ 2 := by
  refine metropolis_draws hC (Equiv.refl κ) logψ F hF F (fun s => Iff.rfl)
    (stochastic_prod (χ := fun s => Fin (numConn (rows s))) (fun s k => choose (rows s) k)
      (fun s k => Real.exp (((logψ (choose (rows s) k)).re - (logψ s).re) * 2 +
        Real.log ((numConn (rows s) : ℝ) / (numConn (rows (choose (rows s) k)) : ℝ)))) (fun s k => Real.exp_pos _)
      (hamiltonian_transition logψ rows find find' hf hf') (fun s => ?_) F fun s hs k => ?_) hconv
    (ham_confined logψ rows find find' hf hf' F hm) unused discard S hS
  · obtain ⟨k, -⟩ := (choose_offers rows s s).2 (hself s)
    exact Fintype.card_pos_iff.2 ⟨k⟩
  · obtain ⟨r, hr, hu, hc⟩ := (choose_offers rows s _).1 ⟨k, rfl⟩
    rw [← hc]
    exact hm s hs r hr hu

end

/-! ### C139 -/

/-- **C139, uniform moves**: from every start, with any number of chains, of unused sweeps and any warm up. -/
theorem C139_uniform (hC : 0 < C) [DecidableEq ι] [Fintype ι] (logψ : Config ι → ℂ) (unused discard : Nat)
    (S : Fin C → Config ι) (hS : ∀ c, IsSpin (S c)) :
    (metropolisSource (Equiv.refl ι) (uniformTransition logψ) unused discard S).Draws (allSpins ι) (born logψ) := by
  refine symmetric_draws hC (Equiv.refl ι) logψ (Fintype.card_pos_iff.2 ⟨fun _ => 0⟩) _ (uniform_product logψ) (allSpins ι)
    (Finset.Subset.refl _) (allSpins ι) (seen_all _) (fun s _ r => (mem_allSpins _).2 fun i => ?_)
    (C87_uniform _) unused discard S fun c => (mem_allSpins _).2 (hS c)
  split
  · exact Or.inr rfl
  · exact Or.inl rfl

/-- **C139, local moves**: if not all amplitudes have the same modulus. -/
theorem C139_local_partial (hC : 0 < C) [DecidableEq ι] [Fintype ι] (hd : ∀ d, 0 < shape d) (e : Idx shape ≃ ι)
    (logψ : Config ι → ℂ) (s t : Config ι) (hs : IsSpin s) (ht : IsSpin t)
    (hne : ‖Complex.exp (logψ s)‖ ≠ ‖Complex.exp (logψ t)‖) (unused discard : Nat)
    (S : Fin C → Config (Idx shape)) (hS : ∀ c, IsSpin (S c)) :
    (metropolisSource e (localTransition fun s => logψ (view e s)) unused discard S).Draws (allSpins ι) (born logψ) := by
  have hv : ∀ s : Config ι, view e (fun k => s (e k)) = s := fun s => by funext i; simp [view]
  refine symmetric_draws hC e logψ (Fintype.card_pos_iff.2 ⟨fun d => ⟨0, hd d⟩⟩) _ (local_product _) (allSpins _)
    (Finset.Subset.refl _) (allSpins ι) (seen_all _)
    (fun s hs r => (mem_allSpins _).2 (flip_spin ((mem_allSpins s).1 hs) r))
    (C87_local_partial hd _ (fun k => s (e k)) (fun k => t (e k)) (fun k => hs _) (fun k => ht _) ?_)
    unused discard S fun c => (mem_allSpins _).2 (hS c)
  unfold weight
  dsimp only
  rw [hv, hv]
  intro h
  exact hne ((sq_eq_sq₀ (norm_nonneg _) (norm_nonneg _)).1 h)

/-- **C139, exchange moves**: from every start in which all chains have magnetisation `M`, the samples are drawn from the
squared amplitudes of the configurations with this magnetisation. -/
theorem C139_exchange (hC : 0 < C) [DecidableEq ι] [Fintype ι] (hd : ∀ d, 0 < shape d) (e : Idx shape ≃ ι)
    (logψ : Config ι → ℂ) (M : ℤ) (unused discard : Nat) (S : Fin C → Config (Idx shape)) (hS : ∀ c, S c ∈ sector M) :
    (metropolisSource e (exchangeTransition fun s => logψ (view e s)) unused discard S).Draws (sector M) fun s =>
      ‖Complex.exp (logψ s)‖ ^ 2 / ∑ t ∈ sector M, ‖Complex.exp (logψ t)‖ ^ 2 := by
  refine symmetric_draws hC e logψ (Fintype.card_pos_iff.2 ⟨fun d => ⟨0, hd d⟩, fun _ => 0⟩) _ (exchange_product _) (sector M) (sector_subset M) (sector M) (seen_sector e M)
    (fun s hs r => ?_) (C87_exchange hd _ fun _ => M) unused discard S hS
  rw [mem_sector] at hs ⊢
  exact ⟨exchange_spin hs.1 _ _, by rw [magnetization_exchange]; exact hs.2⟩

/-- **C139, Hamiltonian moves of the Ising chain.** -/
theorem C139_ising_chain (hC : 0 < C) {n : Nat} (h : Field) (j : ℝ) (pbc : Bool) (logψ : Config (Fin n) → ℂ)
    (unused discard : Nat) (S : Fin C → Config (Fin n)) (hS : ∀ c, IsSpin (S c)) :
    (metropolisSource (Equiv.refl _) (hamiltonianTransition logψ (isingFindConn1 h j pbc) (isingFindConn1 h j pbc)) unused discard
      S).Draws (allSpins _) (born logψ) := by
  refine hamiltonian_draws hC logψ (fun s => isingFindConn1 h j pbc (fun _ : Fin 1 => s) 0) _ _ (fun S c => ?_) (fun S c => ?_)
    (fun s => ?_) (allSpins _) (Finset.Subset.refl _) (fun s hs r hr _ => ?_) (C87_ising_chain _ h j pbc) unused discard S
    fun c => (mem_allSpins _).2 (hS c)
  · rw [isingFindConn1_eq, isingFindConn1_eq]
  · rw [isingFindConn1_eq, isingFindConn1_eq]
  · unfold Offers
    dsimp only
    rw [isingFindConn1_eq]
    exact ⟨_, List.mem_cons_self, rfl, rfl⟩
  · exact (mem_allSpins _).2 ((C09_ising_chain h j pbc (fun _ : Fin 1 => s) 0 ((mem_allSpins s).1 hs)).spins r hr)

/-- **C139, Hamiltonian moves of the Ising model on grids.** -/
theorem C139_ising_grid (hC : 0 < C) {n m : Nat} (h : Field) (j : ℝ) (pbc : Bool) (logψ : Config (Fin n × Fin m) → ℂ)
    (unused discard : Nat) (S : Fin C → Config (Fin n × Fin m)) (hS : ∀ c, IsSpin (S c)) :
    (metropolisSource (Equiv.refl _) (hamiltonianTransition logψ (isingFindConn2 h j pbc) (isingFindConn2 h j pbc)) unused discard
      S).Draws (allSpins _) (born logψ) := by
  refine hamiltonian_draws hC logψ (fun s => isingFindConn2 h j pbc (fun _ : Fin 1 => s) 0) _ _ (fun S c => ?_) (fun S c => ?_)
    (fun s => ?_) (allSpins _) (Finset.Subset.refl _) (fun s hs r hr _ => ?_) (C87_ising_grid _ h j pbc) unused discard S
    fun c => (mem_allSpins _).2 (hS c)
  · rw [isingFindConn2_eq, isingFindConn2_eq]
  · rw [isingFindConn2_eq, isingFindConn2_eq]
  · unfold Offers
    dsimp only
    rw [isingFindConn2_eq]
    exact ⟨_, List.mem_cons_self, rfl, rfl⟩
  · exact (mem_allSpins _).2 ((C09_ising_grid h j pbc (fun _ : Fin 1 => s) 0 ((mem_allSpins s).1 hs)).spins r hr)

/-- **C139, Hamiltonian moves of the Heisenberg model on grids**, from every start in which all chains have magnetisation
`M`, with any calls of the operators before. -/
theorem C139_heisenberg_grid (hC : 0 < C) {n m : Nat} (rot pbc : Bool) (hist hist' : List (Call n m))
    (logψ : Config (Fin n × Fin m) → ℂ) (M : ℤ) (unused discard : Nat) (S : Fin C → Config (Fin n × Fin m))
    (hS : ∀ c, S c ∈ sector M) :
    let find := fun S : Fin C → Config (Fin n × Fin m) => (((HeisOp.new2 n m rot pbc).run hist).findConn C S).2
    let find' := fun S : Fin C → Config (Fin n × Fin m) => (((HeisOp.new2 n m rot pbc).run hist').findConn C S).2
    (metropolisSource (Equiv.refl _) (hamiltonianTransition logψ find find') unused discard S).Draws (sector M) fun s =>
      ‖Complex.exp (logψ s)‖ ^ 2 / ∑ t ∈ sector M, ‖Complex.exp (logψ t)‖ ^ 2 := by
  intro find find'
  refine hamiltonian_draws hC logψ (heisRows (offDiag rot) pbc 2) _ _ (fun S c => answer2 _ _ _ _ _ _)
    (fun S c => answer2 _ _ _ _ _ _) (fun s => ⟨_, List.mem_cons_self, rfl, rfl⟩) (sector M) (sector_subset M)
    (fun s hs r hr hu => ?_) (C87_heisenberg_grid _ rot pbc hist hist' fun _ => M) unused discard S hS
  rw [mem_sector] at hs ⊢
  rcases heis_moves (offDiag rot) pbc 2 ⟨r, hr, hu, rfl⟩ with h | ⟨p, q, h⟩
  · rw [h]; exact hs
  · rw [h]; exact ⟨exchange_spin hs.1 _ _, by rw [magnetization_exchange]; exact hs.2⟩

/-- **C139, Hamiltonian moves of the Heisenberg chain.** -/
theorem C139_heisenberg_chain (hC : 0 < C) {n : Nat} (rot pbc : Bool) (hist hist' : List (Call n 1))
    (logψ : Config (Fin n) → ℂ) (M : ℤ) (unused discard : Nat) (S : Fin C → Config (Fin n)) (hS : ∀ c, S c ∈ sector M) :
    let find := fun S : Fin C → Config (Fin n) => (((HeisOp.new1 n rot pbc).run hist).findConn1 C S).2
    let find' := fun S : Fin C → Config (Fin n) => (((HeisOp.new1 n rot pbc).run hist').findConn1 C S).2
    (metropolisSource (Equiv.refl _) (hamiltonianTransition logψ find find') unused discard S).Draws (sector M) fun s =>
      ‖Complex.exp (logψ s)‖ ^ 2 / ∑ t ∈ sector M, ‖Complex.exp (logψ t)‖ ^ 2 := by
  intro find find'
  refine hamiltonian_draws hC logψ (fun s => (heisRows (offDiag rot) pbc 1 (expandDims s)).map squeezeRow) _ _
    (fun S c => answer1 _ _ _ _ _ _) (fun S c => answer1 _ _ _ _ _ _)
    (fun s => ⟨_, List.mem_map_of_mem List.mem_cons_self, rfl, rfl⟩) (sector M) (sector_subset M)
    (fun s hs r hr hu => ?_) (C87_heisenberg_chain _ rot pbc hist hist' fun _ => M) unused discard S hS
  rw [mem_sector] at hs ⊢
  have h2 := C10_heisenberg_chain rot pbc [] 1 (fun _ : Fin 1 => s) 0 r (by rw [answer1]; exact hr) hu
  have h3 := C09_heisenberg_chain rot pbc [] 1 (fun _ : Fin 1 => s) 0 hs.1
  exact ⟨h3.spins r (by rw [answer1]; exact hr), h2.1.trans hs.2⟩

/-! ### Energies of sectors -/

/-- The energy reported for batches from a sector is in the limit that of the wave function restricted to the sector. -/
theorem sector_energy [DecidableEq ι] [Fintype ι] (H : Wave ι → Wave ι) (logψ : Config ι → ℂ) (M : ℤ)
    (hH : ∀ s, IsSpin s → magnetization s = M → H (fun s => Complex.exp (logψ s)) s =
      H (restrictTo M fun s => Complex.exp (logψ s)) s)
    (est : (B : Nat) → (Fin B → Config ι) → Option (ℂ × ℝ × List ℂ))
    (hE : ∀ B (sample : Fin B → Config ι), (∀ b, IsSpin (sample b)) → LocalEnergies H sample logψ (est B sample))
    (src : Source (Config ι))
    (hd : src.Draws (sector M) fun s => ‖Complex.exp (logψ s)‖ ^ 2 / ∑ t ∈ sector M, ‖Complex.exp (logψ t)‖ ^ 2)
    (ε : ℝ) (hε : 0 < ε) :
    src.InTheLimit fun B sample => ∃ e v lv, est B sample = some (e, v, lv) ∧
      ‖e - rayleigh H (restrictTo M fun s => Complex.exp (logψ s))‖ < ε := by
  have h1 := hd.mean_complex (localEnergy H logψ) ε hε
  have h2 := limit_sector (Equiv.refl ι) H logψ M hH
  have h3 : ∑ s ∈ sector M, (((‖Complex.exp (logψ s)‖ ^ 2 / ∑ t ∈ sector M, ‖Complex.exp (logψ t)‖ ^ 2 : ℝ)) : ℂ) * localEnergy H logψ s =
      rayleigh H (restrictTo M fun s => Complex.exp (logψ s)) := by
    rw [← h2, Finset.sum_div]
    refine Finset.sum_congr rfl fun s _ => ?_
    rw [Complex.ofReal_div, Complex.ofReal_sum, div_mul_eq_mul_div]
    rfl
  rw [h3] at h1
  refine hd.weaken h1 fun B _ x hx h => ?_
  obtain ⟨v, hv⟩ := (hE B x fun b => ((mem_sector _ _).1 (hx b)).1).values
  exact ⟨_, v, _, hv, h⟩

/-- **C139, the energy of the Heisenberg model on grids**, for batches of exchange or Hamiltonian moves (`C139_exchange`,
`C139_heisenberg_grid`). -/
theorem C139_energy_heisenberg_grid (n m : Nat) (rot pbc : Bool) (history : List (Call n m))
    (logψ : Config (Fin n × Fin m) → ℂ) (M : ℤ) (src : Source (Config (Fin n × Fin m)))
    (hd : src.Draws (sector M) fun s => ‖Complex.exp (logψ s)‖ ^ 2 / ∑ t ∈ sector M, ‖Complex.exp (logψ t)‖ ^ 2)
    (ε : ℝ) (hε : 0 < ε) :
    src.InTheLimit fun B sample => ∃ e v lv,
      estimate logψ (Answer.ofRows (n * m * 2 + 1) (((HeisOp.new2 n m rot pbc).run history).findConn B sample).2
        fun b => by rw [answer2]; exact length_heisRows _ _ _ (Or.inl rfl) _) = some (e, v, lv) ∧
      ‖e - rayleigh (heisenberg (gridBonds n m pbc) (if rot then -1 else 1)) (restrictTo M fun s => Complex.exp (logψ s))‖ < ε :=
  sector_energy _ logψ M (fun s hs hM => heisenberg_grid_sector rot pbc M _ s hs hM) _
    (fun B sample hs => C18_heisenberg_grid rot pbc history B sample hs logψ) src hd ε hε

/-- **C139, the energy of the Heisenberg chain.** -/
theorem C139_energy_heisenberg_chain (n : Nat) (rot pbc : Bool) (history : List (Call n 1))
    (logψ : Config (Fin n) → ℂ) (M : ℤ) (src : Source (Config (Fin n)))
    (hd : src.Draws (sector M) fun s => ‖Complex.exp (logψ s)‖ ^ 2 / ∑ t ∈ sector M, ‖Complex.exp (logψ t)‖ ^ 2)
    (ε : ℝ) (hε : 0 < ε) :
    src.InTheLimit fun B sample => ∃ e v lv,
      estimate logψ (Answer.ofRows (n + 1) (((HeisOp.new1 n rot pbc).run history).findConn1 B sample).2
        fun b => by
          rw [(Exact.rowsOf_heisenberg_chain n rot pbc history).eq]
          exact (Exact.rowsOf_heisenberg_chain n rot pbc history).length _) = some (e, v, lv) ∧
      ‖e - rayleigh (heisenberg (chainBonds' n pbc) (if rot then -1 else 1)) (restrictTo M fun s => Complex.exp (logψ s))‖ < ε :=
  sector_energy _ logψ M (fun s hs hM => heisenberg_chain_sector rot pbc M _ s hs hM) _
    (fun B sample hs => C18_heisenberg_chain rot pbc history B sample hs logψ) src hd ε hε

/-- The configurations of magnetisation `M` are a part that the Heisenberg model does not leave. -/
theorem part_sector [DecidableEq ι] [Fintype ι] {H : Wave ι → Wave ι} {M : ℤ} (hM : (sector (ι := ι) M).Nonempty)
    (hH : ∀ ψ s, IsSpin s → magnetization s = M → H ψ s = H (restrictTo M ψ) s) : Part H (sector M) (restrictTo M) where
  nonempty := hM
  spins := sector_subset M
  keep ψ s hs := if_pos ((mem_sector _ _).1 hs).2
  zero ψ s h1 h2 := if_neg fun h => h2 ((mem_sector _ _).2 ⟨(mem_allSpins _).1 h1, h⟩)
  closed ψ s hs := (hH ψ s ((mem_sector _ _).1 hs).1 ((mem_sector _ _).1 hs).2).symm

/-- **C139, training on the Heisenberg model on grids** from batches of exchange or Hamiltonian moves (`C139_exchange`,
`C139_heisenberg_grid`): in the limit the reported energy, the variance, the gradient and the step of stochastic
reconfiguration are the exact ones of the wave function restricted to the magnetisation of the chains. -/
theorem C139_training_heisenberg_grid (n m : Nat) (rot pbc : Bool) (history : List (Call n m)) (M : ℤ)
    (hM : (sector (ι := Fin n × Fin m) M).Nonempty) :
    LargeBatchesOn (heisenberg (gridBonds n m pbc) (if rot then -1 else 1)) (sector M) (restrictTo M) fun B sample =>
      Answer.ofRows (n * m * 2 + 1) (((HeisOp.new2 n m rot pbc).run history).findConn B sample).2
        fun b => by rw [answer2]; exact length_heisRows _ _ _ (Or.inl rfl) _ :=
  have hp := part_sector (H := heisenberg (gridBonds n m pbc) (if rot then -1 else 1)) hM
    fun ψ s hs hM => heisenberg_grid_sector rot pbc M ψ s hs hM
  ⟨exactOnPart_of hp (op := fun B sample => (((HeisOp.new2 n m rot pbc).run history).findConn B sample).2)
    (Exact.rowsOf_heisenberg_grid n m rot pbc history)
    (fun s hs ψ => applyRows_heisRows rot pbc 2 (Or.inl rfl) s hs ψ) _
    fun B sample hs logψ => C18_heisenberg_grid rot pbc history B sample hs logψ,
  reconfigurationOnPart_of hp (op := fun B sample => (((HeisOp.new2 n m rot pbc).run history).findConn B sample).2)
    (Exact.rowsOf_heisenberg_grid n m rot pbc history) _
    fun B sample hs logψ => C18_heisenberg_grid rot pbc history B sample hs logψ⟩

/-- **C139, training on the Heisenberg chain.** -/
theorem C139_training_heisenberg_chain (n : Nat) (rot pbc : Bool) (history : List (Call n 1)) (M : ℤ)
    (hM : (sector (ι := Fin n) M).Nonempty) :
    LargeBatchesOn (heisenberg (chainBonds' n pbc) (if rot then -1 else 1)) (sector M) (restrictTo M) fun B sample =>
      Answer.ofRows (n + 1) (((HeisOp.new1 n rot pbc).run history).findConn1 B sample).2
        fun b => by
          rw [(Exact.rowsOf_heisenberg_chain n rot pbc history).eq]
          exact (Exact.rowsOf_heisenberg_chain n rot pbc history).length _ :=
  have hp := part_sector (H := heisenberg (chainBonds' n pbc) (if rot then -1 else 1)) hM
    fun ψ s hs hM => heisenberg_chain_sector rot pbc M ψ s hs hM
  ⟨exactOnPart_of hp (op := fun B sample => (((HeisOp.new1 n rot pbc).run history).findConn1 B sample).2)
    (Exact.rowsOf_heisenberg_chain n rot pbc history)
    (fun s hs ψ => by
      have := C07_heisenberg_chain rot pbc history 1 (fun _ => s) 0 hs ψ
      rwa [answer1] at this) _
    fun B sample hs logψ => C18_heisenberg_chain rot pbc history B sample hs logψ,
  reconfigurationOnPart_of hp (op := fun B sample => (((HeisOp.new1 n rot pbc).run history).findConn1 B sample).2)
    (Exact.rowsOf_heisenberg_chain n rot pbc history) _
    fun B sample hs logψ => C18_heisenberg_chain rot pbc history B sample hs logψ⟩

/-! ### Where the law fails -/

/-- Only runs with positive probability matter. -/
theorem runMean_congr {α : Type} {F : Finset α} {K : α → α → ℝ} (n : ℕ) : ∀ (x : α) (G H : List α → ℝ),
    (∀ l : List α, l.length = n → (∀ y ∈ l, y ∈ F) → List.IsChain (fun a b => K a b ≠ 0) (x :: l) → G l = H l) →
    runMean F K n x G = runMean F K n x H := by
  induction n with
  | zero => intro x G H h; exact h [] rfl (by simp) (List.isChain_singleton x)
  | succ n ih =>
    intro x G H h
    simp only [runMean]
    refine Finset.sum_congr rfl fun y hy => ?_
    by_cases hK : K x y = 0
    · rw [hK, zero_mul, zero_mul]
    · rw [ih y _ _ fun l hl hm hc => h (y :: l) (by simp [hl]) (by simpa [hy] using hm) (List.isChain_cons_cons.2 ⟨hK, hc⟩)]

/-- Along runs in which every step changes the sign of `p`, its sign after `k + 1` steps is known. -/
theorem alternating {α : Type} {r : α → α → Prop} (p : α → ℤ) (q : α → Prop) (hr : ∀ a b, q a → q b → r a b → p b = -p a) :
    ∀ (l : List α) (x : α), q x → (∀ y ∈ l, q y) → List.IsChain r (x :: l) → ∀ (k : ℕ) (hk : k < l.length),
      p l[k] = (-1) ^ (k + 1) * p x := by
  intro l
  induction l with
  | nil => intro x _ _ _ k hk; simp at hk
  | cons y l ih =>
    intro x hx hq hc k hk
    rw [List.isChain_cons_cons] at hc
    have hy := hq y List.mem_cons_self
    cases k with
    | zero => simpa using hr x y hx hy hc.1
    | succ k =>
      have := ih y hy (fun z hz => hq z (List.mem_cons_of_mem _ hz)) hc.2 k (by simpa using hk)
      rw [List.getElem_cons_succ, this, hr x y hx hy hc.1]
      ring

/-- **C139 is violated** for local moves if all amplitudes have the same modulus and every second sweep is used: each
configuration of every batch has the same parity of the number of down spins as the start, so that half of the
configurations never occur. -/
theorem C139_violated_local (hd : ∀ d, 0 < shape d) (logψ : Config (Idx shape) → ℂ)
    (hconst : ∀ s t, IsSpin s → IsSpin t → ‖Complex.exp (logψ s)‖ = ‖Complex.exp (logψ t)‖)
    (S : Fin 1 → Config (Idx shape)) (hS : ∀ c, IsSpin (S c)) :
    let src := metropolisSource (Equiv.refl _) (localTransition logψ) 1 0 S
    (∀ N, src.chance N (fun ω => ∀ b, ∏ k, src.batch N ω b k = ∏ k, S 0 k) = 1) ∧
      ¬ src.Draws (allSpins _) (born logψ) := by
  intro src
  have hw : ∀ s t, IsSpin s → IsSpin t → weight logψ s = weight logψ t := fun s t hs ht => by
    unfold weight
    rw [hconst s t hs ht]
  have hstep : ∀ A B : Fin 1 → Config (Idx shape), (∀ c, IsSpin (A c)) → (∀ c, IsSpin (B c)) → localTransition logψ A B ≠ 0 →
      ∏ k, B 0 k = -∏ k, A 0 k := by
    intro A B hA _ h
    rw [local_product] at h
    by_contra hne
    refine h (Finset.prod_eq_zero (Finset.mem_univ 0) ?_)
    unfold symKernel kernel
    rw [Finset.sum_eq_zero, zero_div]
    intro r _
    unfold stepProb
    dsimp only
    rw [if_neg (fun e : Operators.flip r (A 0) = B 0 => hne (by rw [← e, prod_flip])), hw _ _ (flip_spin (hA 0) r) (hA 0),
      div_self (weight_pos logψ _).ne', min_self, sub_self, ite_self, add_zero]
  have hst : Stochastic (Fintype.piFinset fun _ : Fin 1 => allSpins (Idx shape)) (localTransition (C := 1) logψ) :=
    stochastic_prod (χ := fun _ => Idx shape) (fun s r => Operators.flip r s) _ (ratio_pos _ fun r s => Operators.flip r s)
      (local_product logψ) (fun _ => Fintype.card_pos_iff.2 ⟨fun d => ⟨0, hd d⟩⟩) _
      fun s hs r => (mem_allSpins _).2 (flip_spin ((mem_allSpins s).1 hs) r)
  have hSC : S ∈ Fintype.piFinset fun _ : Fin 1 => allSpins (Idx shape) :=
    Fintype.mem_piFinset.2 fun c => (mem_allSpins _).2 (hS c)
  have h1 : ∀ N, src.chance N (fun ω => ∀ b, ∏ k, src.batch N ω b k = ∏ k, S 0 k) = 1 := by
    intro N
    classical
    rw [Source.chance_eq]
    refine Eq.trans (runMean_congr _ _ _ (fun _ => (1 : ℝ)) fun l hl hm hc => if_pos fun b => ?_)
      (runMean_const hst _ _ hSC 1)
    have hb := b.isLt
    have hN : 0 < N := Nat.pos_of_ne_zero fun h => Nat.not_lt_zero b.val (hb.trans_eq (by show 1 * N = 0; rw [h, Nat.mul_zero]))
    have hmod := Nat.mod_lt b.val hN
    have hW : warmUpSweeps N 1 0 = 0 := by simp [warmUpSweeps]
    rw [hW] at hl
    have hk : (b.val % N + 1) * 2 - 1 < l.length := by omega
    have halt := alternating (fun T : Fin 1 → Config (Idx shape) => ∏ k, T 0 k) (fun T => ∀ c, IsSpin (T c)) hstep l S hS
      (fun T hT c => (mem_allSpins _).1 (Fintype.mem_piFinset.1 (hm T hT) c)) hc _ hk
    have hget : l.getD (warmUpSweeps N 1 0 + (b.val % N + 1) * (1 + 1) - 1) S = l[(b.val % N + 1) * 2 - 1] := by
      rw [hW, Nat.zero_add]
      exact List.getD_eq_getElem _ _ hk
    show ∏ k, l.getD (warmUpSweeps N 1 0 + (b.val % N + 1) * (1 + 1) - 1) S ⟨b.val / N, _⟩ k = _
    rw [hget, Subsingleton.elim (⟨b.val / N, _⟩ : Fin 1) 0, halt, show (b.val % N + 1) * 2 - 1 + 1 = 2 * (b.val % N + 1) by omega, pow_mul]
    simp
  refine ⟨h1, fun hdraw => ?_⟩
  set s' := Operators.flip (fun d => ⟨0, hd d⟩) (S 0) with hs'
  have hspin : IsSpin s' := flip_spin (hS 0) _
  have hpos : 0 < born logψ s' := div_pos (weight_pos logψ s')
    (Finset.sum_pos (fun t _ => weight_pos logψ t) ⟨s', (mem_allSpins _).2 hspin⟩)
  have hlaw := hdraw.law (fun t => open Classical in if t = s' then 1 else 0) (born logψ s') hpos
  have hzero : ∀ N, src.chance N (fun ω => |(∑ b, (open Classical in if src.batch N ω b = s' then (1 : ℝ) else 0)) / (src.size N) -
      ∑ s ∈ allSpins _, born logψ s * (open Classical in if s = s' then 1 else 0)| < born logψ s') = 0 := by
    intro N
    refine le_antisymm ?_ (Source.chance_nonneg hdraw.mono hdraw.const N _)
    have h2 := Source.chance_not hdraw.add hdraw.const (N := N) (fun ω => ∀ b, ∏ k, src.batch N ω b k = ∏ k, S 0 k)
    rw [h1 N] at h2
    refine le_trans (Source.chance_mono hdraw.mono fun ω _ hA hpar => ?_) (by linarith : src.chance N (fun ω => ¬ ∀ b, ∏ k, src.batch N ω b k = ∏ k, S 0 k) ≤ 0)
    have hno : ∀ b, src.batch N ω b ≠ s' := by
      intro b hb
      have := hpar b
      rw [hb, hs', prod_flip] at this
      have hnz : ∏ j, S 0 j ≠ 0 := Finset.prod_ne_zero_iff.2 fun j _ => by
        rcases hS 0 j with h | h <;> rw [h] <;> norm_num
      omega
    simp only [hno, if_false, Finset.sum_const_zero, zero_div, mul_ite, mul_one, mul_zero, Finset.sum_ite_eq',
      (mem_allSpins s').2 hspin, if_true, zero_sub, abs_neg, abs_of_pos hpos, lt_irrefl] at hA
  have := tendsto_nhds_unique (hlaw.congr hzero) tendsto_const_nhds
  norm_num at this

/-- The law holds for a wave function that is not constant and does not hold for a constant one. -/
example (S : Fin 1 → Config (Idx fun _ : Fin 1 => 2)) (hS : ∀ c, IsSpin (S c)) :
    (metropolisSource (Equiv.refl _) (localTransition fun s => ((s 0 : ℤ) : ℂ)) 1 0 S).Draws (allSpins _) (born fun s => ((s 0 : ℤ) : ℂ)) ∧
    ¬ (metropolisSource (Equiv.refl _) (localTransition fun _ => 0) 1 0 S).Draws (allSpins _) (born fun _ => 0) := by
  refine ⟨C139_local_partial one_pos (fun _ => by norm_num) (Equiv.refl _) (fun s => ((s 0 : ℤ) : ℂ)) (fun _ => 1) (fun _ => -1)
    (fun _ => Or.inl rfl) (fun _ => Or.inr rfl) ?_ 1 0 S hS, (C139_violated_local (fun _ => by norm_num) _ (fun _ _ _ _ => rfl) S hS).2⟩
  rw [Complex.norm_exp, Complex.norm_exp]
  intro h
  have := Real.exp_injective h
  norm_num at this

/-- The hypotheses are met: two chains on a grid of two by three sites. -/
example : ∃ S : Fin 2 → Config (Fin 2 × Fin 3), (∀ c, IsSpin (S c)) ∧ ∀ c, S c ∈ sector 6 :=
  ⟨fun _ _ => 1, fun _ _ => Or.inl rfl, fun _ => (mem_sector _ _).2 ⟨fun _ => Or.inl rfl, by simp [magnetization]⟩⟩

end Verif.Metropolis
