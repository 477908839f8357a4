import Verif.Machines.Lemmas2D
import Verif.Machines.LemmasCustom

/-!
# C38, C39, C40: the convolutional machines are autoregressive
-/
namespace Verif.Machines

open Verif.Net Verif.Autoregressive

/-! ### Specification -/

/-- The network can be built (no layer call raises) on inputs of shape `s0`, and its output `out` has two
values at every site. -/
def Builds (g : Graph ℂ) (s0 : Shape) (out : Nat) : Prop :=
  (∃ sigs, g.sigs (s0, 1) = some sigs ∧ sigs[out]? = some (s0, 2)) ∧
  ∀ (x : Loc → ℂ) (l : Loc), InShape l s0 → (g.output s0 out x l).length = 2

/-- The output at a site is the same for inputs that agree on all sites with a smaller rank. -/
def Autoregressive (g : Graph ℂ) (s0 : Shape) (out : Nat) (rank : Loc → Nat) : Prop :=
  ∀ (x x' : Loc → ℂ) (l : Loc), InShape l s0 → (∀ j, InShape j s0 → rank j < rank l → x j = x' j) →
    g.output s0 out x l = g.output s0 out x' l

/-- A network of the package with its two outputs: `conditional_log_wave_function` (first) and
`conditional_log_probs` (second). -/
noncomputable def machine (net : Nat → Build ℂ Nat) : (Nat × Nat) × Graph ℂ := normalized net 0 start

/-! ### Helper -/

theorem start_at (s0 : Shape) (b0 : Loc → Nat) : At [(s0, 1)] [b0] 0 (s0, 1) b0 := ⟨rfl, _, rfl, fun _ _ => le_rfl⟩

theorem builds_of_model {g : Graph ℂ} {s0 : Shape} {sigs : List Sig} {out : Nat} (hm : g.Model s0 sigs out 2) :
    Builds g s0 out := ⟨⟨sigs, hm.built, hm.output⟩, fun x l hl => output_length hm x l hl⟩

theorem machine_spec {kw : Bool} {s0 : Shape} {net : Nat → Build ℂ Nat} {rank : Loc → Nat}
    (h : Ok kw s0 [(s0, 1)] [fun l => rank l + 1] (net 0 start) fun j s' b' => At s' b' j (s0, 2) rank) :
    (Builds (machine net).2 s0 (machine net).1.1 ∧ Builds (machine net).2 s0 (machine net).1.2) ∧
    Autoregressive (machine net).2 s0 (machine net).1.1 rank ∧ Autoregressive (machine net).2 s0 (machine net).1.2 rank := by
  have hn := ok_normalized net h
  obtain ⟨s1, m1, c1, -⟩ := built_causal (out := fun r : Nat × Nat => r.1) (hn.imp fun _ _ _ h => h.1)
  obtain ⟨s2, m2, c2, -⟩ := built_causal (out := fun r : Nat × Nat => r.2) (hn.imp fun _ _ _ h => h.2.1)
  exact ⟨⟨builds_of_model m1, builds_of_model m2⟩, fun x x' l hl hx => c1 x x' l hl fun j hj hle => hx j hj (by omega),
    fun x x' l hl hx => c2 x x' l hl fun j hj hle => hx j hj (by omega)⟩

theorem ok_1D (P : Params1D) (hk : 1 ≤ P.kernelSize) (W : Weights) (n : Nat) (hn : 1 ≤ n) :
    Ok true [n] [([n], 1)] [fun l => l.getD 0 0 + 1] (build1D P W true 0 start) fun j s' b' =>
      At s' b' j ([n], 2) fun l => l.getD 0 0 :=
  ok_build1D (start_cert true [n] _) hn (start_at [n] (lin 1)) P hk W true

theorem ok_complex1D (P : Params1D) (hk : 1 ≤ P.kernelSize) (W : Weights) (n : Nat) (hn : 1 ≤ n) :
    Ok true [n] [([n], 1)] [fun l => l.getD 0 0 + 1] (buildComplex1D P W 0 start) fun j s' b' =>
      At s' b' j ([n], 2) fun l => l.getD 0 0 :=
  ok_buildComplex1D (start_cert true [n] _) hn (start_at [n] (lin 1)) P hk W

theorem ok_2D (P : Params2D) (m : Nat) (hk : P.kernelSize = 2 * m + 1) (Wt : Weights) (H W : Nat) (hH : 1 ≤ H) (hW : 1 ≤ W) :
    Ok true [H, W] [([H, W], 1)] [fun l => l.getD 0 0 * W + l.getD 1 0 + 1] (build2D P Wt 0 start) fun j s' b' =>
      At s' b' j ([H, W], 2) fun l => l.getD 0 0 * W + l.getD 1 0 :=
  ok_build2D P Wt m hk hH hW (start_cert true [H, W] _) (start_at [H, W] (grid W 1))

/-! ### C38 -/

theorem autoregressive_1D {g : Graph ℂ} {n out : Nat} (h : Autoregressive g [n] out fun l => l.getD 0 0)
    (x x' : Loc → ℂ) (i : Nat) (hi : i < n) (hx : ∀ j < i, x [j] = x' [j]) :
    g.output [n] out x [i] = g.output [n] out x' [i] := by
  refine h x x' [i] (.cons hi .nil) fun j hj hlt => ?_
  obtain ⟨j, rfl, -⟩ := inShape_one hj
  exact hx j (by simpa using hlt)

/-- **C38.** For every setting, all weights and every chain length, `SimpleConvNetAutoregressive1D` can be
built, and both outputs at site `i` are the same for inputs that agree on the sites before `i`. -/
theorem C38_real (P : Params1D) (hk : 1 ≤ P.kernelSize) (W : Weights) (n : Nat) (hn : 1 ≤ n) :
    let r := machine (build1D P W true)
    (Builds r.2 [n] r.1.1 ∧ Builds r.2 [n] r.1.2) ∧
    ∀ (x x' : Loc → ℂ) (i : Nat), i < n → (∀ j < i, x [j] = x' [j]) →
      r.2.output [n] r.1.1 x [i] = r.2.output [n] r.1.1 x' [i] ∧
      r.2.output [n] r.1.2 x [i] = r.2.output [n] r.1.2 x' [i] := by
  obtain ⟨hb, h1, h2⟩ := machine_spec (ok_1D P hk W n hn)
  exact ⟨hb, fun x x' i hi hx => ⟨autoregressive_1D h1 x x' i hi hx, autoregressive_1D h2 x x' i hi hx⟩⟩

/-- **C38, complex version.** The same for `ComplexValuesSimpleConvNetAutoregressive1D`. -/
theorem C38_complex (P : Params1D) (hk : 1 ≤ P.kernelSize) (W : Weights) (n : Nat) (hn : 1 ≤ n) :
    let r := machine (buildComplex1D P W)
    (Builds r.2 [n] r.1.1 ∧ Builds r.2 [n] r.1.2) ∧
    ∀ (x x' : Loc → ℂ) (i : Nat), i < n → (∀ j < i, x [j] = x' [j]) →
      r.2.output [n] r.1.1 x [i] = r.2.output [n] r.1.1 x' [i] ∧
      r.2.output [n] r.1.2 x [i] = r.2.output [n] r.1.2 x' [i] := by
  obtain ⟨hb, h1, h2⟩ := machine_spec (ok_complex1D P hk W n hn)
  exact ⟨hb, fun x x' i hi hx => ⟨autoregressive_1D h1 x x' i hi hx, autoregressive_1D h2 x x' i hi hx⟩⟩

/-! ### C39 -/

/-- **C39.** For every setting with an odd kernel, all weights and every lattice, `ConvNetAutoregressive2D`
can be built, and both outputs at site `(i, j)` are the same for inputs that agree on all rows above `i`
and on the columns before `j` of row `i`. -/
theorem C39_causal (P : Params2D) (hk : P.kernelSize % 2 = 1) (Wt : Weights) (H W : Nat) (hH : 1 ≤ H) (hW : 1 ≤ W) :
    let r := machine (build2D P Wt)
    (Builds r.2 [H, W] r.1.1 ∧ Builds r.2 [H, W] r.1.2) ∧
    ∀ (x x' : Loc → ℂ) (i j : Nat), i < H → j < W →
      (∀ a b, b < W → (a < i ∨ a = i ∧ b < j) → x [a, b] = x' [a, b]) →
      r.2.output [H, W] r.1.1 x [i, j] = r.2.output [H, W] r.1.1 x' [i, j] ∧
      r.2.output [H, W] r.1.2 x [i, j] = r.2.output [H, W] r.1.2 x' [i, j] := by
  obtain ⟨hb, h1, h2⟩ := machine_spec (ok_2D P (P.kernelSize / 2) (by omega) Wt H W hH hW)
  refine ⟨hb, fun x x' i j hi hj hx => ?_⟩
  have key : ∀ k, InShape k [H, W] → k.getD 0 0 * W + k.getD 1 0 < [i, j].getD 0 0 * W + [i, j].getD 1 0 → x k = x' k := by
    intro k hk hlt
    obtain ⟨a, b, rfl, ha, hb⟩ := inShape_two hk
    simp only [List.getD_cons_zero, List.getD_cons_succ] at hlt
    apply hx a b hb
    rcases Nat.lt_trichotomy a i with h | h | h
    · exact Or.inl h
    · subst h; exact Or.inr ⟨rfl, by omega⟩
    · exfalso
      have : (i + 1) * W ≤ a * W := Nat.mul_le_mul_right W h
      rw [Nat.add_mul, one_mul] at this
      omega
  exact ⟨h1 x x' [i, j] (.cons hi (.cons hj .nil)) key, h2 x x' [i, j] (.cons hi (.cons hj .nil)) key⟩

/-- **C39, even kernels.** With an even positive kernel size some layer call of the constructor raises. -/
theorem C39_even_rejected (P : Params2D) (hk : P.kernelSize % 2 = 0) (hk0 : 1 ≤ P.kernelSize) (Wt : Weights) (H W : Nat)
    (hH : 1 ≤ H) (hW : 1 ≤ W) : (build2D P Wt 0 start).2.sigs ([H, W], 1) = none :=
  build2D_fails P Wt (P.kernelSize / 2 - 1) (by omega) hH hW (start_cert true [H, W] fun _ => 0)
    (start_at [H, W] fun _ => 0)

/-! ### C40 -/

/-- **C40.** For every ordering of the sites of every lattice, every setting and all weights,
`SimpleCustomOrderingAutoregressive` can be built, and both outputs at the `k`-th site of the ordering are
the same for inputs that agree on the first `k` sites of the ordering. -/
theorem C40_causal (s0 : Shape) (hN : 1 ≤ s0.prod) (ordering : List Loc)
    (hperm : ordering.Nodup ∧ ∀ l, l ∈ ordering ↔ InShape l s0) (P : Params1D) (hk : 1 ≤ P.kernelSize) (W : Weights) :
    ∃ net, customNet P W s0 ordering = some net ∧
      let r := machine net
      (Builds r.2 s0 r.1.1 ∧ Builds r.2 s0 r.1.2) ∧
      ∀ (x x' : Loc → ℂ) (k : Nat) (l : Loc), ordering[k]? = some l → (∀ j ∈ ordering.take k, x j = x' j) →
        r.2.output s0 r.1.1 x l = r.2.output s0 r.1.1 x' l ∧
        r.2.output s0 r.1.2 x l = r.2.output s0 r.1.2 x' l := by
  have hrank : ∀ (k : Nat) (l : Loc), ordering[k]? = some l → ordering.idxOf l = k := by
    intro k l h
    obtain ⟨hk, rfl⟩ := List.getElem?_eq_some_iff.1 h
    exact hperm.1.idxOf_getElem k hk
  obtain ⟨net, h1, h2⟩ := ok_buildCustom ordering hperm hN P hk W (fun l => ordering.idxOf l) hrank
  obtain ⟨hb, h3, h4⟩ := machine_spec h2
  refine ⟨net, h1, hb, fun x x' k l hl hx => ?_⟩
  have hin := (hperm.2 l).1 (List.mem_of_getElem? hl)
  have key : ∀ j, InShape j s0 → ordering.idxOf j < ordering.idxOf l → x j = x' j := by
    intro j hj hlt
    obtain ⟨a, ha⟩ := List.mem_iff_getElem?.1 ((hperm.2 j).2 hj)
    rw [hrank a j ha, hrank k l hl] at hlt
    apply hx
    rw [List.mem_iff_getElem?]
    exact ⟨a, by rw [List.getElem?_take_of_lt hlt, ha]⟩
  exact ⟨h3 x x' l hin key, h4 x x' l hin key⟩

/-! ### Concrete cases -/

/-- The hypotheses of C38 are met: depth five, dilated, kernel two, ten sites; the sites from 4 on differ. -/
example (W : Weights) :
    let r := machine (build1D { depth := 5, channels := 8, kernelSize := 2, act := none } W true)
    r.2.output [10] r.1.1 (fun _ => 1) [4] = r.2.output [10] r.1.1 (fun l => if l.getD 0 0 < 4 then 1 else -1) [4] :=
  ((C38_real _ (by decide) W 10 (by decide)).2 _ _ 4 (by decide) fun j hj => by simp [hj]).1

/-- The hypotheses of C39 are met: kernel three on a 3 by 4 lattice; the sites from (1, 2) on differ. -/
example (W : Weights) :
    let r := machine (build2D { depth := 4, channels := 8, kernelSize := 3, act := ⟨id, fun _ => rfl⟩ } W)
    r.2.output [3, 4] r.1.1 (fun _ => 1) [1, 2] =
      r.2.output [3, 4] r.1.1 (fun l => if l.getD 0 0 = 0 ∨ l.getD 0 0 = 1 ∧ l.getD 1 0 < 2 then 1 else -1) [1, 2] :=
  ((C39_causal _ (by decide) W 3 4 (by decide) (by decide)).2 _ _ 1 2 (by decide) (by decide) fun a b _ h => by
    have : a = 0 ∨ a = 1 ∧ b < 2 := by omega
    simp only [List.getD_cons_zero, List.getD_cons_succ, if_pos this]).1

end Verif.Machines
