import Verif.Machines.Causal

/-! The 2-D network: certificate for odd kernels, failure for even ones. -/
namespace Verif.Machines

open Verif.Net

variable {kw : Bool} {g : Graph ℂ} {s0 : Shape} {sigs : List Sig} {bs : List (Loc → Nat)}

/-- Raster number plus `t`. -/
def grid (W t : Nat) (l : Loc) : Nat := l.getD 0 0 * W + l.getD 1 0 + t

/-- Number of the first site of the row `t` further down. -/
def rows (W t : Nat) (l : Loc) : Nat := (l.getD 0 0 + t) * W

theorem inShape_two {l : Loc} {n m : Nat} (h : InShape l [n, m]) : ∃ i j, l = [i, j] ∧ i < n ∧ j < m := by
  cases h with
  | cons h1 h2 =>
    cases h2 with
    | cons h2 h3 => cases h3; exact ⟨_, _, rfl, h1, h2⟩

theorem ok_pad2 (hc : Cert kw g s0 sigs bs) {x H W c : Nat} {b : Loc → Nat} (hx : At sigs bs x ([H, W], c) b)
    (cond : Prop) [Decidable cond] (p q r : Nat) (hcond : ¬ cond → p = 0 ∧ q = 0 ∧ r = 0) (b' : Loc → Nat)
    (hb : ∀ i j, i < H → j < W → b [i, j] ≤ b' [i + p, j + q]) :
    Ok kw s0 sigs bs (addIf cond (.zeroPad [(p, 0), (q, r)]) x g) fun y s' d' => At s' d' y ([p + H, q + W + r], c) b' := by
  unfold addIf
  by_cases h : cond
  · rw [if_pos h]
    refine (ok_zeroPad hc hx [(p, 0), (q, r)] rfl (b' := b') ?_).imp fun a s b h => by simpa using h
    intro l hl hin
    obtain ⟨i, j, rfl, hi, hj⟩ := inShape_two hl
    simp only [inPadding] at hin
    split at hin
    · simp at hin
    rename_i h1
    split at hin
    · simp at hin
    rename_i h2
    push Not at h1 h2
    simp only [List.zipWith_cons_cons, List.zipWith_nil_left]
    have := hb (i - p) (j - q) (by omega) (by omega)
    rwa [Nat.sub_add_cancel (by omega), Nat.sub_add_cancel (by omega)] at this
  · rw [if_neg h]
    obtain ⟨rfl, rfl, rfl⟩ := hcond h
    refine Ok.pure _ hc ?_
    simp only [zero_add, add_zero]
    refine hx.weaken ?_
    intro l hl
    obtain ⟨i, j, rfl, hi, hj⟩ := inShape_two hl
    exact hb i j hi hj

theorem ok_conv2 (hc : Cert kw g s0 sigs bs) {x H W c : Nat} {b : Loc → Nat} (hx : At sigs bs x ([H, W], c) b)
    (Wt : Weights) (filters kh kw' H' W' : Nat) (hH : H = kh - 1 + H') (hW : W = kw' - 1 + W') (hkh : 1 ≤ kh) (hkw : 1 ≤ kw')
    (b' : Loc → Nat)
    (hb : ∀ i j u v, i < H' → j < W' → u < kh → v < kw' → b [u + i, v + j] ≤ b' [i, j]) :
    Ok kw s0 sigs bs (conv2d Wt filters kh kw' x g) fun y s' d' => At s' d' y ([H', W'], filters) b' := by
  refine ok_conv hc hx Wt filters [kh, kw'] [1, 1] ?_ ?_
  · simp only [List.map_cons, List.map_nil, convShape, convDim]
    rw [if_pos ⟨hkh, le_rfl, by omega⟩, if_pos ⟨hkw, le_rfl, by omega⟩]
    simp only [Option.bind_some]
    congr 2
    · omega
    · congr 1; omega
  · intro l hl w hw
    obtain ⟨i, j, rfl, hi, hj⟩ := inShape_two hl
    obtain ⟨u, v, rfl, hu, hv⟩ := inShape_two hw
    simpa [convLoc] using hb i j u v hi hj hu hv

section layer
variable (P : Params2D) (Wt : Weights) {H W : Nat}

theorem ok_causalConv2d {v h : Nat} (m : Nat) (hk : P.kernelSize = 2 * m + 1) (hH : 1 ≤ H) (hW : 1 ≤ W) (mask : Bool)
    (hc : Cert kw g s0 sigs bs) {cv ch : Nat} (hv : At sigs bs v ([H, W], cv) (rows W 1))
    (hh : At sigs bs h ([H, W], ch) (grid W 1)) :
    Ok kw s0 sigs bs (causalConv2d P Wt mask v h g) fun r s' b' =>
      At s' b' r.1 ([H, W], P.channels) (rows W 1) ∧ At s' b' r.2 ([H, W], P.channels) (grid W (if mask then 0 else 1)) := by
  unfold causalConv2d
  have hp : P.kernelSize - 1 = 2 * m := by omega
  have hp2 : 2 * m / 2 = m := by omega
  simp only [hp, hp2]
  refine Ok.bind (ok_pad2 hc hv _ (2 * m) m m (by omega) (fun l => (l.getD 0 0 + 1 - 2 * m) * W) ?_) ?_
  · intro i j _ _
    simp only [rows, List.getD_cons_zero]
    exact Nat.mul_le_mul_right W (by omega)
  intro v1 g1 s1 b1 hc1 p1 q1 hv1
  refine Ok.bind (ok_pad2 hc1 (hh.ext p1 q1) _ 0 (2 * m) 0 (by omega)
    (fun l => l.getD 0 0 * W + (l.getD 1 0 + 1 - 2 * m)) ?_) ?_
  · intro i j _ _
    simp only [grid, List.getD_cons_zero, List.getD_cons_succ, add_zero]
    omega
  intro h2 g2 s2 b2 hc2 p2 q2 hh2
  refine Ok.bind (ok_conv2 hc2 (hv1.ext p2 q2) Wt P.channels P.kernelSize P.kernelSize H W (by omega) (by omega)
    (by omega) (by omega) (rows W 1) ?_) ?_
  · intro i j u v _ _ hu _
    simp only [rows, List.getD_cons_zero]
    exact Nat.mul_le_mul_right W (by omega)
  intro v3 g3 s3 b3 hc3 p3 q3 hv3
  refine Ok.bind (ok_conv2 hc3 (hh2.ext p3 q3) Wt P.channels 1 P.kernelSize H W (by omega) (by omega)
    (by omega) (by omega) (grid W 1) ?_) ?_
  · intro i j u v _ _ hu hv
    obtain rfl : u = 0 := by omega
    simp only [grid, List.getD_cons_zero, List.getD_cons_succ, zero_add]
    omega
  intro x4 g4 s4 b4 hc4 p4 q4 hx4
  refine Ok.bind (ok_activation hc4 hx4 P.act) ?_
  intro x5 g5 s5 b5 hc5 p5 q5 hx5
  refine Ok.bind (K := ℂ) (Q := fun y s' b' => At s' b' y ([H, W], P.channels) (grid W (if mask then 0 else 1))) ?_ ?_
  · unfold addIf
    cases mask with
    | false => exact Ok.pure _ hc5 hx5
    | true =>
      refine ok_rightShift hc5 hx5 hW ?_
      intro r q rest _
      simp only [grid, List.getD_cons_zero, List.getD_cons_succ, if_true]
      omega
  intro x6 g6 s6 b6 hc6 p6 q6 hx6
  refine Ok.bind (ok_conv2 hc6 hx6 Wt (P.channels / 2) 1 1 H W (by omega) (by omega)
    (by omega) (by omega) (grid W (if mask then 0 else 1)) ?_) ?_
  · intro i j u v _ _ hu hv
    obtain rfl : u = 0 := by omega
    obtain rfl : v = 0 := by omega
    simp
  intro x7 g7 s7 b7 hc7 p7 q7 hx7
  have hv7 := (((hv3.ext p4 q4).ext p5 q5).ext p6 q6).ext p7 q7
  refine Ok.bind (ok_activation hc7 hv7 P.act) ?_
  intro y8 g8 s8 b8 hc8 p8 q8 hy8
  refine Ok.bind (ok_downShift hc8 hy8 hH (b' := rows W 0) ?_) ?_
  · intro r rest _
    simp [rows]
  intro y9 g9 s9 b9 hc9 p9 q9 hy9
  refine Ok.bind (ok_conv2 hc9 hy9 Wt (P.channels / 2) 1 1 H W (by omega) (by omega)
    (by omega) (by omega) (grid W (if mask then 0 else 1)) ?_) ?_
  · intro i j u v _ _ hu hv
    obtain rfl : u = 0 := by omega
    simp only [grid, rows, List.getD_cons_zero, List.getD_cons_succ, zero_add, add_zero]
    omega
  intro y10 g10 s10 b10 hc10 p10 q10 hy10
  refine Ok.bind (ok_activation hc10 (((hx7.ext p8 q8).ext p9 q9).ext p10 q10) P.act) ?_
  intro x11 g11 s11 b11 hc11 p11 q11 hx11
  refine Ok.bind (ok_activation hc11 (hy10.ext p11 q11) P.act) ?_
  intro y12 g12 s12 b12 hc12 p12 q12 hy12
  refine Ok.bind (ok_concat hc12 (hx11.ext p12 q12) hy12) ?_
  intro x13 g13 s13 b13 hc13 p13 q13 hx13
  refine Ok.bind (ok_pad2 hc13 hx13 _ (2 * m) (2 * m) 0 (by omega)
    (fun l => (l.getD 0 0 - 2 * m) * W + (l.getD 1 0 + (if mask then 0 else 1) - 2 * m)) ?_) ?_
  · intro i j _ _
    simp only [grid, List.getD_cons_zero, List.getD_cons_succ, Nat.add_sub_cancel]
    omega
  intro x14 g14 s14 b14 hc14 p14 q14 hx14
  refine Ok.bind (ok_conv2 hc14 hx14 Wt P.channels P.kernelSize P.kernelSize H W (by omega) (by omega)
    (by omega) (by omega) (grid W (if mask then 0 else 1)) ?_) ?_
  · intro i j u v _ _ hu hv
    simp only [grid, List.getD_cons_zero, List.getD_cons_succ]
    have : (u + i - 2 * m) * W ≤ i * W := Nat.mul_le_mul_right W (by omega)
    omega
  intro h15 g15 s15 b15 hc15 p15 q15 hh15
  refine Ok.pure _ hc15 ⟨?_, hh15⟩
  exact (((((((hv7.ext p8 q8).ext p9 q9).ext p10 q10).ext p11 q11).ext p12 q12).ext p13 q13).ext p14 q14).ext p15 q15

/-- Both stacks with `c` channels. -/
def Stacks (H W c : Nat) (r : Nat × Nat) (s' : List Sig) (b' : List (Loc → Nat)) : Prop :=
  At s' b' r.1 ([H, W], c) (rows W 1) ∧ At s' b' r.2 ([H, W], c) (grid W 1)

theorem Stacks.ext {c : Nat} {r : Nat × Nat} {s s' : List Sig} {b b' : List (Loc → Nat)} (h : Stacks H W c r s b)
    (h1 : s <+: s') (h2 : b <+: b') : Stacks H W c r s' b' := ⟨h.1.ext h1 h2, h.2.ext h1 h2⟩

theorem ok_activations2d (hc : Cert kw g s0 sigs bs) {v h : Nat} (hs : Stacks H W P.channels (v, h) sigs bs) :
    Ok kw s0 sigs bs (activations2d P v h g) (Stacks H W P.channels) := by
  unfold activations2d
  refine Ok.bind (ok_activation hc hs.1 P.act) ?_
  intro v1 g1 s1 b1 hc1 p1 q1 hv1
  refine Ok.bind (ok_activation hc1 (hs.2.ext p1 q1) P.act) ?_
  intro h2 g2 s2 b2 hc2 p2 q2 hh2
  exact Ok.pure _ hc2 ⟨hv1.ext p2 q2, hh2⟩

theorem ok_residualBlock (m : Nat) (hk : P.kernelSize = 2 * m + 1) (hH : 1 ≤ H) (hW : 1 ≤ W)
    (hc : Cert kw g s0 sigs bs) {v h : Nat} (hs : Stacks H W P.channels (v, h) sigs bs) :
    Ok kw s0 sigs bs (residualBlock P Wt v h g) (Stacks H W P.channels) := by
  unfold residualBlock
  refine Ok.bind (ok_causalConv2d P Wt m hk hH hW false hc hs.1 hs.2) ?_
  rintro ⟨v1, h1⟩ g1 s1 b1 hc1 p1 q1 hx1
  refine Ok.bind (ok_activations2d P hc1 hx1) ?_
  rintro ⟨v2, h2⟩ g2 s2 b2 hc2 p2 q2 hx2
  refine Ok.bind (ok_causalConv2d P Wt m hk hH hW false hc2 hx2.1 hx2.2) ?_
  rintro ⟨v3, h3⟩ g3 s3 b3 hc3 p3 q3 hx3
  have hs3 := ((hs.ext p1 q1).ext p2 q2).ext p3 q3
  refine Ok.bind (ok_addLayer hc3 hs3.1 hx3.1) ?_
  intro v4 g4 s4 b4 hc4 p4 q4 hv4
  refine Ok.bind (ok_addLayer hc4 (hs3.2.ext p4 q4) (hx3.2.ext p4 q4)) ?_
  intro h5 g5 s5 b5 hc5 p5 q5 hh5
  exact ok_activations2d P hc5 ⟨hv4.ext p5 q5, hh5⟩

theorem ok_blocks2D (m : Nat) (hk : P.kernelSize = 2 * m + 1) (hH : 1 ≤ H) (hW : 1 ≤ W) :
    ∀ (count v h : Nat) (g : Graph ℂ) (sigs : List Sig) (bs : List (Loc → Nat)), Cert kw g s0 sigs bs →
      Stacks H W P.channels (v, h) sigs bs →
      Ok kw s0 sigs bs (blocks2D P Wt count v h g) (Stacks H W P.channels) := by
  intro count
  induction count with
  | zero => intro v h g sigs bs hc hs; exact Ok.pure _ hc hs
  | succ count ih =>
    intro v h g sigs bs hc hs
    unfold blocks2D
    refine Ok.bind (ok_residualBlock P Wt m hk hH hW hc hs) ?_
    rintro ⟨v1, h1⟩ g1 s1 b1 hc1 _ _ hs1
    exact ih v1 h1 g1 s1 b1 hc1 hs1

theorem grid_le_rows {W : Nat} {H : Nat} {l : Loc} (hl : InShape l [H, W]) : grid W 1 l ≤ rows W 1 l := by
  obtain ⟨i, j, rfl, hi, hj⟩ := inShape_two hl
  simp only [grid, rows, List.getD_cons_zero, List.getD_cons_succ, Nat.add_mul, one_mul]
  omega

/-- The whole 2-D network, odd kernels. -/
theorem ok_build2D (m : Nat) (hk : P.kernelSize = 2 * m + 1) (hH : 1 ≤ H) (hW : 1 ≤ W) (hc : Cert kw g s0 sigs bs) {x : Nat}
    (hx : At sigs bs x ([H, W], 1) (grid W 1)) :
    Ok kw s0 sigs bs (build2D P Wt x g) fun j s' b' => At s' b' j ([H, W], 2) (grid W 0) := by
  unfold build2D
  refine Ok.bind (ok_expand hc hx) ?_
  intro x1 g1 s1 b1 hc1 _ _ hx1
  refine Ok.bind (ok_cast hc1 hx1) ?_
  intro x2 g2 s2 b2 hc2 _ _ hx2
  refine Ok.bind (ok_causalConv2d P Wt m hk hH hW false hc2 (hx2.weaken fun l hl => grid_le_rows hl) hx2) ?_
  rintro ⟨v3, h3⟩ g3 s3 b3 hc3 _ _ hx3
  refine Ok.bind (ok_activations2d P hc3 hx3) ?_
  rintro ⟨v4, h4⟩ g4 s4 b4 hc4 _ _ hx4
  refine Ok.bind (ok_blocks2D P Wt m hk hH hW _ v4 h4 g4 s4 b4 hc4 hx4) ?_
  rintro ⟨v5, h5⟩ g5 s5 b5 hc5 _ _ hx5
  refine Ok.bind (ok_causalConv2d P Wt m hk hH hW true hc5 hx5.1 hx5.2) ?_
  rintro ⟨v6, h6⟩ g6 s6 b6 hc6 _ _ hx6
  refine Ok.bind (ok_activation hc6 hx6.2 P.act) ?_
  intro x7 g7 s7 b7 hc7 _ _ hx7
  refine Ok.bind (ok_conv2 hc7 hx7 Wt 4 1 1 H W (by omega) (by omega) (by omega) (by omega) (grid W 0) ?_) ?_
  · intro i j u v _ _ hu hv
    obtain rfl : u = 0 := by omega
    obtain rfl : v = 0 := by omega
    simp
  intro x8 g8 s8 b8 hc8 _ _ hx8
  exact ok_feature hc8 hx8 2 _ fun v _ => rfl

end layer

/-! ### Even kernels -/

/-- The builder only appends nodes. -/
def Grows {α : Type} (m : Build ℂ α) : Prop := ∀ g, g <+: (m g).2

theorem Grows.bind {α β : Type} {m : Build ℂ α} {f : α → Build ℂ β} (h : Grows m) (h' : ∀ a, Grows (f a)) :
    Grows (m >>= f) := fun g => (h g).trans (h' _ _)

theorem Grows.pure {α : Type} (a : α) : Grows (Pure.pure a : Build ℂ α) := fun _ => List.prefix_rfl

theorem grows_add (L : Layer ℂ) (i : List Nat) : Grows (add L i) := fun _ => List.prefix_append _ _

theorem grows_addIf (c : Prop) [Decidable c] (L : Layer ℂ) (x : Nat) : Grows (addIf c L x) := by
  unfold addIf; split
  · exact grows_add _ _
  · exact Grows.pure _

theorem grows_conv2d (W : Weights) (f a b x : Nat) : Grows (conv2d W f a b x) := fun _ => List.prefix_append _ _

theorem grows_activations2d (P : Params2D) (v h : Nat) : Grows (activations2d P v h) :=
  (grows_add _ _).bind fun _ => (grows_add _ _).bind fun _ => Grows.pure _

theorem grows_causalConv2d (P : Params2D) (W : Weights) (mask : Bool) (v h : Nat) : Grows (causalConv2d P W mask v h) := by
  unfold causalConv2d
  exact (grows_addIf _ _ _).bind fun _ => (grows_addIf _ _ _).bind fun _ => (grows_conv2d _ _ _ _ _).bind fun _ =>
    (grows_conv2d _ _ _ _ _).bind fun _ => (grows_add _ _).bind fun _ => (grows_addIf _ _ _).bind fun _ =>
    (grows_conv2d _ _ _ _ _).bind fun _ => (grows_add _ _).bind fun _ => (grows_add _ _).bind fun _ =>
    (grows_conv2d _ _ _ _ _).bind fun _ => (grows_add _ _).bind fun _ => (grows_add _ _).bind fun _ =>
    (grows_add _ _).bind fun _ => (grows_addIf _ _ _).bind fun _ => (grows_conv2d _ _ _ _ _).bind fun _ => Grows.pure _

theorem grows_residualBlock (P : Params2D) (W : Weights) (v h : Nat) : Grows (residualBlock P W v h) := by
  unfold residualBlock
  exact (grows_causalConv2d _ _ _ _ _).bind fun _ => (grows_activations2d _ _ _).bind fun _ =>
    (grows_causalConv2d _ _ _ _ _).bind fun _ => (grows_add _ _).bind fun _ => (grows_add _ _).bind fun _ =>
    grows_activations2d _ _ _

theorem grows_blocks2D (P : Params2D) (W : Weights) : ∀ (count v h : Nat), Grows (blocks2D P W count v h)
  | 0, _, _ => Grows.pure _
  | count + 1, _, _ => (grows_residualBlock _ _ _ _).bind fun _ => grows_blocks2D P W count _ _

/-- Some layer call raises. -/
def Fails {α : Type} (s0 : Shape) (r : α × Graph ℂ) : Prop := r.2.sigs (s0, 1) = none

theorem Fails.bind {α β : Type} {m : Build ℂ α} {f : α → Build ℂ β} (h : Fails s0 (m g)) (h' : ∀ a, Grows (f a)) :
    Fails s0 ((m >>= f) g) := by
  obtain ⟨rest, hr⟩ := h' (m g).1 (m g).2
  unfold Fails Graph.sigs at h ⊢
  show List.foldlM _ _ ((f (m g).1 (m g).2).2) = _
  rw [← hr, List.foldlM_append, h]
  rfl

theorem Ok.bind_fails {α β : Type} {m : Build ℂ α} {f : α → Build ℂ β} {Q : α → List Sig → List (Loc → Nat) → Prop}
    (h : Ok kw s0 sigs bs (m g) Q)
    (h' : ∀ a g' sigs' bs', Cert kw g' s0 sigs' bs' → sigs <+: sigs' → bs <+: bs' → Q a sigs' bs' → Fails s0 (f a g')) :
    Fails s0 ((m >>= f) g) := by
  obtain ⟨s1, b1, hc, p1, p2, hq⟩ := h
  exact h' _ _ _ _ hc p1 p2 hq

theorem concat_fails (hc : Cert kw g s0 sigs bs) {i j : Nat} {s r : Shape} {c e : Nat} {b b' : Loc → Nat}
    (hi : At sigs bs i (s, c) b) (hj : At sigs bs j (r, e) b') (hne : r ≠ s) :
    Fails s0 (add (.concat (-1)) [i, j] g) := by
  have hb := hc.built
  unfold Fails Graph.sigs at *
  show List.foldlM _ _ (g ++ [_]) = _
  rw [List.foldlM_append, hb]
  simp only [Option.bind_eq_bind, Option.bind_some, List.foldlM_cons, List.foldlM_nil]
  unfold stepSigs
  simp only [getAll_two hi.1 hj.1, Option.bind_some, Layer.outSig,
    resolveAxis_neg_one (rank := s.length + 2) (by omega)]
  simp [hne]

theorem causalConv2d_fails (P : Params2D) (Wt : Weights) {H W v h : Nat} (m : Nat) (hk : P.kernelSize = 2 * m + 2)
    (hH : 1 ≤ H) (hW : 1 ≤ W) (hc : Cert kw g s0 sigs bs) {cv ch : Nat}
    (hv : At sigs bs v ([H, W], cv) fun _ => 0) (hh : At sigs bs h ([H, W], ch) fun _ => 0) :
    Fails s0 (causalConv2d P Wt false v h g) := by
  unfold causalConv2d
  have hp : P.kernelSize - 1 = 2 * m + 1 := by omega
  have hp2 : (2 * m + 1) / 2 = m := by omega
  simp only [hp, hp2]
  refine Ok.bind_fails (ok_pad2 hc hv _ (2 * m + 1) m m (by omega) (fun _ => 0) fun _ _ _ _ => le_rfl) ?_
  intro v1 g1 s1 b1 hc1 p1 q1 hv1
  refine Ok.bind_fails (ok_pad2 hc1 (hh.ext p1 q1) _ 0 (2 * m + 1) 0 (by omega) (fun _ => 0) fun _ _ _ _ => le_rfl) ?_
  intro h2 g2 s2 b2 hc2 p2 q2 hh2
  refine Ok.bind_fails (ok_conv2 hc2 (hv1.ext p2 q2) Wt P.channels P.kernelSize P.kernelSize H (W - 1) (by omega) (by omega)
    (by omega) (by omega) (fun _ => 0) fun _ _ _ _ _ _ _ _ => le_rfl) ?_
  intro v3 g3 s3 b3 hc3 p3 q3 hv3
  refine Ok.bind_fails (ok_conv2 hc3 (hh2.ext p3 q3) Wt P.channels 1 P.kernelSize H W (by omega) (by omega)
    (by omega) (by omega) (fun _ => 0) fun _ _ _ _ _ _ _ _ => le_rfl) ?_
  intro x4 g4 s4 b4 hc4 p4 q4 hx4
  refine Ok.bind_fails (ok_activation hc4 hx4 P.act) ?_
  intro x5 g5 s5 b5 hc5 p5 q5 hx5
  refine Ok.bind_fails (kw := kw) (sigs := s5) (bs := b5) (Q := fun y s' b' => At s' b' y ([H, W], P.channels) fun _ => 0)
    (Ok.pure _ hc5 hx5) ?_
  intro x6 g6 s6 b6 hc6 p6 q6 hx6
  refine Ok.bind_fails (ok_conv2 hc6 hx6 Wt (P.channels / 2) 1 1 H W (by omega) (by omega)
    (by omega) (by omega) (fun _ => 0) fun _ _ _ _ _ _ _ _ => le_rfl) ?_
  intro x7 g7 s7 b7 hc7 p7 q7 hx7
  have hv7 := (((hv3.ext p4 q4).ext p5 q5).ext p6 q6).ext p7 q7
  refine Ok.bind_fails (ok_activation hc7 hv7 P.act) ?_
  intro y8 g8 s8 b8 hc8 p8 q8 hy8
  refine Ok.bind_fails (ok_downShift hc8 hy8 hH (b' := fun _ => 0) fun _ _ _ => le_rfl) ?_
  intro y9 g9 s9 b9 hc9 p9 q9 hy9
  refine Ok.bind_fails (ok_conv2 hc9 hy9 Wt (P.channels / 2) 1 1 H (W - 1) (by omega) (by omega)
    (by omega) (by omega) (fun _ => 0) fun _ _ _ _ _ _ _ _ => le_rfl) ?_
  intro y10 g10 s10 b10 hc10 p10 q10 hy10
  refine Ok.bind_fails (ok_activation hc10 (((hx7.ext p8 q8).ext p9 q9).ext p10 q10) P.act) ?_
  intro x11 g11 s11 b11 hc11 p11 q11 hx11
  refine Ok.bind_fails (ok_activation hc11 (hy10.ext p11 q11) P.act) ?_
  intro y12 g12 s12 b12 hc12 p12 q12 hy12
  refine Fails.bind (concat_fails hc12 (hx11.ext p12 q12) hy12 ?_) fun _ => (grows_addIf _ _ _).bind fun _ =>
    (grows_conv2d _ _ _ _ _).bind fun _ => Grows.pure _
  simp only [ne_eq, List.cons.injEq, and_true, true_and]
  omega

/-- The whole 2-D network, even kernels. -/
theorem build2D_fails (P : Params2D) (Wt : Weights) {H W x : Nat} (m : Nat) (hk : P.kernelSize = 2 * m + 2)
    (hH : 1 ≤ H) (hW : 1 ≤ W) (hc : Cert kw g s0 sigs bs) (hx : At sigs bs x ([H, W], 1) fun _ => 0) :
    Fails s0 (build2D P Wt x g) := by
  unfold build2D
  refine Ok.bind_fails (ok_expand hc hx) ?_
  intro x1 g1 s1 b1 hc1 _ _ hx1
  refine Ok.bind_fails (ok_cast hc1 hx1) ?_
  intro x2 g2 s2 b2 hc2 _ _ hx2
  exact (causalConv2d_fails P Wt m hk hH hW hc2 hx2 hx2).bind fun _ => (grows_activations2d _ _ _).bind fun _ =>
    (grows_blocks2D _ _ _ _ _).bind fun _ => (grows_causalConv2d _ _ _ _ _).bind fun _ =>
    (grows_add _ _).bind fun _ => (grows_conv2d _ _ _ _ _).bind fun _ => grows_add _ _

end Verif.Machines
