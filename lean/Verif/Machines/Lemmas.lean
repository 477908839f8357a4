import Verif.Machines.Model

/-! Certificates of single layer calls. -/
namespace Verif.Machines

open Verif.Net

variable {kw : Bool} {g : Graph ℂ} {s0 : Shape} {sigs : List Sig} {bs : List (Loc → Nat)}

theorem oneToOne_one {l : Loc} {s : Shape} (h : InShape l s) : oneToOneDeps 0 [s] l = some [(0, l)] := by
  simp [oneToOneDeps, broadcastLoc_self h]

theorem ok_expand (hc : Cert kw g s0 sigs bs) {i : Nat} {s : Shape} {c : Nat} {b : Loc → Nat}
    (hi : At sigs bs i (s, c) b) :
    Ok kw s0 sigs bs (add .expand [i] g) fun j sigs' bs' => At sigs' bs' j (s, c) b := by
  refine hc.add1 _ hi (by simp) (fun _ => rfl) _ _ rfl trivial trivial ?_
  intro l hl ds hds d hd _
  simp only [Layer.deps, List.map_cons, List.map_nil, oneToOne_one hl, Option.some.injEq] at hds
  subst hds
  rw [List.mem_singleton.1 hd]

theorem ok_feature (hc : Cert kw g s0 sigs bs) {i : Nat} {s : Shape} {c : Nat} {b : Loc → Nat}
    (hi : At sigs bs i (s, c) b) (out : Nat) (f : List ℂ → List ℂ) (hf : ∀ v : List ℂ, v.length = c → (f v).length = out) :
    Ok kw s0 sigs bs (add (.feature out f) [i] g) fun j sigs' bs' => At sigs' bs' j (s, out) b := by
  refine hc.add1 _ hi (by simp) (fun _ => rfl) _ _ rfl hf trivial ?_
  intro l hl ds hds d hd _
  simp only [Layer.deps, List.map_cons, List.map_nil, oneToOne_one hl, Option.some.injEq] at hds
  subst hds
  rw [List.mem_singleton.1 hd]

theorem ok_activation (hc : Cert kw g s0 sigs bs) {i : Nat} {s : Shape} {c : Nat} {b : Loc → Nat}
    (hi : At sigs bs i (s, c) b) (act : Act) :
    Ok kw s0 sigs bs (activation act c i g) fun j sigs' bs' => At sigs' bs' j (s, c) b :=
  ok_feature hc hi c act.f fun v hv => by rw [act.length, hv]

theorem ok_cast (hc : Cert kw g s0 sigs bs) {i : Nat} {s : Shape} {c : Nat} {b : Loc → Nat}
    (hi : At sigs bs i (s, c) b) :
    Ok kw s0 sigs bs (cast c i g) fun j sigs' bs' => At sigs' bs' j (s, c) b :=
  ok_feature hc hi c id fun v hv => hv

theorem ok_conv (hc : Cert kw g s0 sigs bs) {i : Nat} {s r : Shape} {c : Nat} {b b' : Loc → Nat}
    (hi : At sigs bs i (s, c) b) (W : Weights) (filters : Nat) (kernelSize dilation : List Nat)
    (hr : convShape s kernelSize dilation (kernelSize.map fun _ => 1) = some r)
    (hb : ∀ l, InShape l r → ∀ w, InShape w kernelSize →
      b (convLoc w dilation l (kernelSize.map fun _ => 1)) ≤ b' l) :
    Ok kw s0 sigs bs (conv W filters kernelSize dilation i g) fun j sigs' bs' => At sigs' bs' j (r, filters) b' := by
  refine hc.add1 _ hi (by simp) (fun _ => rfl) (r, filters) b' ?_ ?_ trivial ?_
  · simp only [Layer.outSig, hr, Option.map_some]
  · intro v hv; exact hv
  · intro l hl ds hds d hd _
    simp only [Layer.deps, Option.some.injEq] at hds
    subst hds
    obtain ⟨w, hw, rfl⟩ := List.mem_map.1 hd
    exact hb l hl w ((Verif.Ordering.mem_raster _ _).1 hw)

theorem ok_zeroPad (hc : Cert kw g s0 sigs bs) {i : Nat} {s : Shape} {c : Nat} {b b' : Loc → Nat}
    (hi : At sigs bs i (s, c) b) (pads : List (Nat × Nat)) (hp : pads.length = s.length)
    (hb : ∀ l, InShape l (List.zipWith (fun n p => p.1 + n + p.2) s pads) → inPadding l pads s = false →
      b (List.zipWith (fun a p => a - p.1) l pads) ≤ b' l) :
    Ok kw s0 sigs bs (add (.zeroPad pads) [i] g) fun j sigs' bs' =>
      At sigs' bs' j (List.zipWith (fun n p => p.1 + n + p.2) s pads, c) b' := by
  refine hc.add1 _ hi (by simp) (fun _ => rfl) _ b' ?_ trivial trivial ?_
  · simp only [Layer.outSig, if_pos hp]
  · intro l hl ds hds d hd _
    simp only [Layer.deps] at hds
    cases hin : inPadding l pads s with
    | true => simp only [hin, if_true, Option.some.injEq] at hds; subst hds; simp at hd
    | false =>
      simp only [hin, Bool.false_eq_true, if_false, Option.some.injEq] at hds
      subst hds
      rw [List.mem_singleton.1 hd]
      exact hb l hl hin

theorem ok_downShift (hc : Cert kw g s0 sigs bs) {i : Nat} {n : Nat} {s : Shape} {c : Nat} {b b' : Loc → Nat}
    (hi : At sigs bs i (n :: s, c) b) (hn : 1 ≤ n)
    (hb : ∀ r rest, InShape ((r + 1) :: rest) (n :: s) → b (r :: rest) ≤ b' ((r + 1) :: rest)) :
    Ok kw s0 sigs bs (add .downShift [i] g) fun j sigs' bs' => At sigs' bs' j (n :: s, c) b' := by
  refine hc.add1 _ hi (by simp) (fun _ => rfl) _ b' ?_ trivial trivial ?_
  · simp [Layer.outSig, hn]
  · intro l hl ds hds d hd _
    cases hl with
    | @cons r _ rest _ h1 h2 =>
      simp only [Layer.deps] at hds
      rcases r with _ | r
      · simp only [if_true, Option.some.injEq] at hds; subst hds; simp at hd
      · simp only [Nat.add_eq_zero_iff, one_ne_zero, and_false, if_false, Option.some.injEq] at hds
        subst hds
        rw [List.mem_singleton.1 hd]
        exact hb r rest (.cons h1 h2)

theorem ok_rightShift (hc : Cert kw g s0 sigs bs) {i : Nat} {n m : Nat} {s : Shape} {c : Nat} {b b' : Loc → Nat}
    (hi : At sigs bs i (n :: m :: s, c) b) (hm : 1 ≤ m)
    (hb : ∀ r q rest, InShape (r :: (q + 1) :: rest) (n :: m :: s) → b (r :: q :: rest) ≤ b' (r :: (q + 1) :: rest)) :
    Ok kw s0 sigs bs (add .rightShift [i] g) fun j sigs' bs' => At sigs' bs' j (n :: m :: s, c) b' := by
  refine hc.add1 _ hi (by simp) (fun _ => rfl) _ b' ?_ trivial trivial ?_
  · simp [Layer.outSig, hm]
  · intro l hl ds hds d hd _
    cases hl with
    | @cons r _ rest _ h1 h2 =>
      cases h2 with
      | @cons q _ rest _ h2 h3 =>
        simp only [Layer.deps] at hds
        rcases q with _ | q
        · simp only [if_true, Option.some.injEq] at hds; subst hds; simp at hd
        · simp only [Nat.add_eq_zero_iff, one_ne_zero, and_false, if_false, Option.some.injEq] at hds
          subst hds
          rw [List.mem_singleton.1 hd]
          exact hb r q rest (.cons h1 (.cons h2 h3))

theorem getAll_two {i j : Nat} {p q : Sig} (hi : sigs[i]? = some p) (hj : sigs[j]? = some q) :
    getAll sigs [i, j] = some [p, q] := by
  simp [getAll, hi, hj]

theorem broadcastShape_self (s : Shape) : broadcastShape s s = some s := by
  induction s with
  | nil => rfl
  | cons n s ih => simp [broadcastShape, broadcastDim, ih]

theorem ok_addLayer (hc : Cert kw g s0 sigs bs) {i j : Nat} {s : Shape} {c : Nat} {b : Loc → Nat}
    (hi : At sigs bs i (s, c) b) (hj : At sigs bs j (s, c) b) :
    Ok kw s0 sigs bs (addLayer i j g) fun k sigs' bs' => At sigs' bs' k (s, c) b := by
  have hbr : broadcastAll (s, c) [(s, c)] = some (s, c) := by
    simp [broadcastAll, broadcastSig, broadcastShape_self, broadcastDim]
  refine hc.add (At.ne_nil hc hi) _ _ (by simp) (fun _ => rfl) [(s, c), (s, c)] (s, c) b (getAll_two hi.1 hj.1) hbr ?_ trivial ?_
  · intro vs hvs q hq
    simp only [Layer.outSig, hbr, Option.some.injEq] at hq
    subst hq
    rcases vs with _ | ⟨u, _ | ⟨v, _ | ⟨w, rest⟩⟩⟩
    · simp at hvs
    · simp at hvs
    · simp only [List.map_cons, List.map_nil, List.cons.injEq, and_true] at hvs
      simp [hvs.1, hvs.2]
    · simp at hvs
  · intro l hl ds hds d hd k b' hk hb'
    simp only [Layer.deps, List.map_cons, List.map_nil, oneToOneDeps, broadcastLoc_self hl, Option.bind_some,
      Option.some.injEq] at hds
    subst hds
    obtain ⟨-, bi, h2, h3⟩ := hi
    obtain ⟨-, bj, h5, h6⟩ := hj
    simp only [List.mem_cons, List.not_mem_nil, or_false] at hd
    rcases hd with rfl | rfl
    · simp only [List.getElem?_cons_zero, Option.some.injEq] at hk
      subst hk
      rw [h2] at hb'; obtain rfl := Option.some.inj hb'
      exact h3 l hl
    · simp only [zero_add, List.getElem?_cons_succ, List.getElem?_cons_zero, Option.some.injEq] at hk
      subst hk
      rw [h5] at hb'; obtain rfl := Option.some.inj hb'
      exact h6 l hl

theorem ok_concat (hc : Cert kw g s0 sigs bs) {i j : Nat} {s : Shape} {c e : Nat} {b : Loc → Nat}
    (hi : At sigs bs i (s, c) b) (hj : At sigs bs j (s, e) b) :
    Ok kw s0 sigs bs (add (.concat (-1)) [i, j] g) fun k sigs' bs' => At sigs' bs' k (s, c + e) b := by
  refine hc.add (At.ne_nil hc hi) _ _ (by simp) (fun _ => rfl) [(s, c), (s, e)] (s, c + e) b (getAll_two hi.1 hj.1) ?_ trivial
    (Or.inl rfl) ?_
  · simp only [Layer.outSig, resolveAxis_neg_one (rank := s.length + 2) (by omega), Option.bind_some]
    simp
  · intro l hl ds hds d hd k b' hk hb'
    simp only [Layer.deps, true_or, if_true, Option.some.injEq] at hds
    subst hds
    obtain ⟨m, hm, rfl⟩ := List.mem_map.1 hd
    obtain ⟨-, bi, h2, h3⟩ := hi
    obtain ⟨-, bj, h5, h6⟩ := hj
    simp only [List.length_cons, List.length_nil, List.mem_range] at hm
    match m, hm with
    | 0, _ =>
      simp only [List.getElem?_cons_zero, Option.some.injEq] at hk
      subst hk
      rw [h2] at hb'; obtain rfl := Option.some.inj hb'
      exact h3 l hl
    | 1, _ =>
      simp only [List.getElem?_cons_succ, List.getElem?_cons_zero, Option.some.injEq] at hk
      subst hk
      rw [h5] at hb'; obtain rfl := Option.some.inj hb'
      exact h6 l hl

/-! ### One spatial axis -/

/-- The number of location `[i]` is `i + t`. -/
def lin (t : Nat) (l : Loc) : Nat := l.getD 0 0 + t

theorem inShape_one {l : Loc} {n : Nat} (h : InShape l [n]) : ∃ i, l = [i] ∧ i < n := by
  cases h with
  | cons h1 h2 => cases h2; exact ⟨_, rfl, h1⟩

theorem ok_causalConv1d (hc : Cert kw g s0 sigs bs) {x n c t : Nat} (hx : At sigs bs x ([n], c) (lin t)) (W : Weights)
    (filters k d : Nat) (hk : 1 ≤ k) (hd : 1 ≤ d) (act : Option Act) (skip : Option Nat)
    (hs : ∀ y, skip = some y → At sigs bs y ([n], filters) (lin t)) :
    Ok kw s0 sigs bs (causalConv1d W filters k d act skip x g) fun j sigs' bs' => At sigs' bs' j ([n], filters) (lin t) := by
  unfold causalConv1d
  have hp : k + (k - 1) * (d - 1) - 1 = (k - 1) * d := by
    obtain ⟨k, rfl⟩ := Nat.exists_eq_add_of_le' hk
    obtain ⟨d, rfl⟩ := Nat.exists_eq_add_of_le' hd
    simp only [Nat.add_sub_cancel]
    ring_nf
    omega
  simp only [hp]
  -- padding
  refine Ok.bind (K := ℂ) (Q := fun j s' b' => At s' b' j ([(k - 1) * d + n], c) fun l => l.getD 0 0 + t - (k - 1) * d) ?_ ?_
  · unfold addIf
    by_cases h0 : (k - 1) * d > 0
    · rw [if_pos (hp ▸ h0)]
      refine (ok_zeroPad hc hx [((k - 1) * d, 0)] rfl (b' := fun l => l.getD 0 0 + t - (k - 1) * d) ?_).imp ?_
      · intro l hl hin
        obtain ⟨i, rfl, hi⟩ := inShape_one hl
        simp only [inPadding] at hin
        split at hin
        · simp at hin
        · rename_i hh
          push Not at hh
          simp only [List.zipWith_cons_cons, List.zipWith_nil_left, lin, List.getD_cons_zero]
          omega
      · intro a s b h; simpa using h
    · rw [if_neg (hp ▸ h0)]
      refine Ok.pure _ hc ?_
      have : (k - 1) * d = 0 := by omega
      rw [this]
      simp only [zero_add, Nat.sub_zero]
      exact hx
  intro x1 g1 s1 b1 hc1 p1 p2 hx1
  -- convolution
  refine Ok.bind (K := ℂ) (Q := fun j s' b' => At s' b' j ([n], filters) (lin t)) (ok_conv hc1 hx1 W filters [k] [d] ?_ ?_) ?_
  · simp only [List.map_cons, List.map_nil, convShape, convDim]
    rw [if_pos ⟨hk, le_rfl, by omega⟩]
    simp only [Option.bind_some]
    congr 2
    omega
  · intro l hl w hw
    obtain ⟨i, rfl, hi⟩ := inShape_one hl
    obtain ⟨w, rfl, hw⟩ := inShape_one hw
    simp only [List.map_cons, List.map_nil, convLoc, List.getD_cons_zero, lin]
    have : w * d ≤ (k - 1) * d := Nat.mul_le_mul_right d (by omega)
    omega
  intro x2 g2 s2 b2 hc2 p3 p4 hx2
  -- skip connection
  refine Ok.bind (K := ℂ) (Q := fun j s' b' => At s' b' j ([n], filters) (lin t)) ?_ ?_
  · cases skip with
    | none => exact Ok.pure _ hc2 hx2
    | some y => exact ok_addLayer hc2 hx2 ((hs y rfl).ext (p1.trans p3) (p2.trans p4))
  intro x3 g3 s3 b3 hc3 _ _ hx3
  cases act with
  | none => exact Ok.pure _ hc3 hx3
  | some a => exact ok_activation hc3 hx3 a

theorem nextDilation_pos (P : Params1D) {d : Nat} (hd : 1 ≤ d) : 1 ≤ nextDilation P d := by
  unfold nextDilation
  split
  · split
    · split <;> omega
    · exact hd
  · exact hd

/-- The loop: channels `c` before it (and equal to the number of channels once `i > 0`). -/
theorem ok_layers1D (P : Params1D) (W : Weights) (hk : 1 ≤ P.kernelSize) {n t : Nat} :
    ∀ (count i d x : Nat) (g : Graph ℂ) (sigs : List Sig) (bs : List (Loc → Nat)), 1 ≤ d → Cert kw g s0 sigs bs →
      ∀ c, (0 < i → c = P.channels) → At sigs bs x ([n], c) (lin t) →
      Ok kw s0 sigs bs (layers1D P W count i d x g) fun j s' b' => ∃ c, At s' b' j ([n], c) (lin t) := by
  intro count
  induction count with
  | zero => intro i d x g sigs bs _ hc c _ hx; exact Ok.pure _ hc ⟨c, hx⟩
  | succ count ih =>
    intro i d x g sigs bs hd hc c hci hx
    unfold layers1D
    refine Ok.bind (ok_causalConv1d hc hx W P.channels P.kernelSize d hk hd P.act _ ?_) ?_
    · intro y hy
      split at hy
      · rename_i h
        simp only [Bool.and_eq_true, decide_eq_true_eq] at h
        obtain rfl := Option.some.inj hy
        rw [← hci h.2]; exact hx
      · simp at hy
    · intro x1 g1 s1 b1 hc1 _ _ hx1
      exact ih (i + 1) _ x1 g1 s1 b1 (nextDilation_pos P hd) hc1 P.channels (fun _ => rfl) hx1

theorem lin_downShift {n : Nat} (r : Nat) (rest : Loc) (_h : InShape ((r + 1) :: rest) [n]) :
    lin 1 (r :: rest) ≤ lin 0 ((r + 1) :: rest) := by simp [lin]

/-- The whole 1-D network. -/
theorem ok_build1D (hc : Cert kw g s0 sigs bs) {x n : Nat} (hn : 1 ≤ n) (hx : At sigs bs x ([n], 1) (lin 1))
    (P : Params1D) (hk : 1 ≤ P.kernelSize) (W : Weights) (expand : Bool) :
    Ok kw s0 sigs bs (build1D P W expand x g) fun j s' b' => At s' b' j ([n], 2) (lin 0) := by
  unfold build1D
  refine Ok.bind (K := ℂ) (Q := fun j s' b' => At s' b' j ([n], 1) (lin 1)) ?_ ?_
  · cases expand with
    | true => exact ok_expand hc hx
    | false => exact Ok.pure _ hc hx
  intro x1 g1 s1 b1 hc1 _ _ hx1
  refine Ok.bind (ok_cast hc1 hx1) ?_
  intro x2 g2 s2 b2 hc2 _ _ hx2
  refine Ok.bind (ok_layers1D P W hk _ 0 1 x2 g2 s2 b2 le_rfl hc2 1 (by omega) hx2) ?_
  rintro x3 g3 s3 b3 hc3 _ _ ⟨c, hx3⟩
  refine Ok.bind (ok_downShift hc3 hx3 hn (b' := lin 0) lin_downShift) ?_
  intro x4 g4 s4 b4 hc4 _ _ hx4
  refine Ok.bind (ok_causalConv1d hc4 hx4 W 4 1 1 le_rfl le_rfl none none (by simp)) ?_
  intro x5 g5 s5 b5 hc5 _ _ hx5
  exact ok_feature hc5 hx5 2 _ fun v _ => rfl

/-- The whole complex 1-D network. -/
theorem ok_buildComplex1D (hc : Cert kw g s0 sigs bs) {x n : Nat} (hn : 1 ≤ n) (hx : At sigs bs x ([n], 1) (lin 1))
    (P : Params1D) (hk : 1 ≤ P.kernelSize) (W : Weights) :
    Ok kw s0 sigs bs (buildComplex1D P W x g) fun j s' b' => At s' b' j ([n], 2) (lin 0) := by
  unfold buildComplex1D
  refine Ok.bind (ok_expand hc hx) ?_
  intro x1 g1 s1 b1 hc1 _ _ hx1
  refine Ok.bind (ok_cast hc1 hx1) ?_
  intro x2 g2 s2 b2 hc2 _ _ hx2
  refine Ok.bind (ok_layers1D { P with skip := false } W hk _ 0 1 x2 g2 s2 b2 le_rfl hc2 1 (by omega) hx2) ?_
  rintro x3 g3 s3 b3 hc3 _ _ ⟨c, hx3⟩
  refine Ok.bind (ok_downShift hc3 hx3 hn (b' := lin 0) lin_downShift) ?_
  intro x4 g4 s4 b4 hc4 _ _ hx4
  exact ok_causalConv1d hc4 hx4 W 2 1 1 le_rfl le_rfl none none (by simp)

/-- Normalisation keeps shape and numbers. -/
theorem ok_normalized (net : Nat → Build ℂ Nat) {x : Nat} {s : Shape} {b : Loc → Nat}
    (h : Ok kw s0 sigs bs (net x g) fun j s' b' => At s' b' j (s, 2) b) :
    Ok kw s0 sigs bs (normalized net x g) fun r s' b' => At s' b' r.1 (s, 2) b ∧ At s' b' r.2 (s, 2) b ∧
      At s' b' (net x g).1 (s, 2) b := by
  unfold normalized
  have h' : Ok kw s0 sigs bs (net x g) fun j s' b' => j = (net x g).1 ∧ At s' b' j (s, 2) b := by
    obtain ⟨s1, b1, hc, p1, p2, hx⟩ := h
    exact ⟨s1, b1, hc, p1, p2, rfl, hx⟩
  refine Ok.bind h' ?_
  rintro x1 g1 s1 b1 hc1 _ _ ⟨rfl, hx1⟩
  refine Ok.bind (ok_feature hc1 hx1 2 _ fun v _ => by simp [normalize]) ?_
  intro x2 g2 s2 b2 hc2 p1 p2 hx2
  refine Ok.bind (ok_feature hc2 hx2 2 _ fun v hv => by simpa using hv) ?_
  intro x3 g3 s3 b3 hc3 p3 p4 hx3
  exact Ok.pure _ hc3 ⟨hx2.ext p3 p4, hx3, (hx1.ext p1 p2).ext p3 p4⟩

end Verif.Machines
