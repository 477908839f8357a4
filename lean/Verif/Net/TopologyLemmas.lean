import Verif.Net.Topology
import Verif.Ordering.Lemmas
import Mathlib.Data.List.GetD
import Mathlib.Tactic.Ring
import Mathlib.Tactic.Linarith

namespace Verif.Net

variable {K : Type} [CommSemiring K]

/-- Value of a dependency in a list of tensors. -/
def lookup (ts : List (Tensor K)) (d : Dep) : List K :=
  match ts[d.1]? with
  | some t => t.val d.2
  | none => []

/-- The dependency points into an existing tensor. -/
def DepOk (ts : List (Tensor K)) (d : Dep) : Prop := ∃ t, ts[d.1]? = some t ∧ InShape d.2 t.shape

theorem range_succ_map {α : Type} (n : Nat) (f : Nat → α) :
    (List.range (n + 1)).map f = f 0 :: (List.range n).map fun a => f (a + 1) := by
  simp [List.range_succ_eq_map, Function.comp_def]

theorem InShape.length_eq {l : Loc} {s : Shape} (h : InShape l s) : l.length = s.length :=
  List.Forall₂.length_eq h

/-- A list is the map of its entries. -/
theorem map_getD_self {n : Nat} (l : List Nat) (h : l.length = n) :
    (List.range n).map (fun a => l.getD a 0) = l := by
  induction l generalizing n with
  | nil => simp at h; subst h; rfl
  | cons x xs ih =>
    obtain rfl : n = xs.length + 1 := by simpa using h.symm
    rw [range_succ_map]
    simp only [List.getD_cons_zero, List.getD_cons_succ]
    rw [ih rfl]

theorem InShape.getD {l : Loc} {s : Shape} (h : InShape l s) {a : Nat} (ha : a < s.length) :
    l.getD a 0 < s.getD a 0 := by
  induction h generalizing a with
  | nil => simp at ha
  | cons h1 _ ih =>
    cases a with
    | zero => simpa using h1
    | succ a => simpa using ih (by simpa using ha)

theorem inShape_of_getD {l : Loc} {s : Shape} (hl : l.length = s.length)
    (h : ∀ a < s.length, l.getD a 0 < s.getD a 0) : InShape l s := by
  induction s generalizing l with
  | nil => simp at hl; subst hl; exact .nil
  | cons n ns ih =>
    match l, hl with
    | x :: xs, hl =>
      refine .cons (by simpa using h 0 (by simp)) (ih (by simpa using hl) fun a ha => ?_)
      simpa using h (a + 1) (by simpa using ha)

theorem inShape_map_range {f : Nat → Nat} {s : Shape} (h : ∀ a < s.length, f a < s.getD a 0) :
    InShape ((List.range s.length).map f) s := by
  apply inShape_of_getD (by simp)
  intro a ha
  simpa [List.getD_eq_getElem?_getD, ha] using h a ha

theorem inShape_set {l : Loc} {s : Shape} (h : InShape l s) {j v m : Nat} (hv : v < m) :
    InShape (l.set j v) (s.set j m) := by
  induction h generalizing j with
  | nil => exact .nil
  | cons h1 h2 ih =>
    cases j with
    | zero => exact .cons hv h2
    | succ j => exact .cons h1 ih

/-! ### One-to-one layers -/

theorem broadcastLoc_self {l : Loc} {s : Shape} (h : InShape l s) : broadcastLoc l s = some l := by
  induction h with
  | nil => rfl
  | cons h1 _ ih => rw [broadcastLoc, ih]; simp [h1]

theorem broadcastDim_spec {a b m : Nat} (h : broadcastDim a b = some m) : (a = m ∨ a = 1) ∧ (b = m ∨ b = 1) := by
  unfold broadcastDim at h
  split at h
  · simp_all
  · split at h
    · simp_all
    · split at h <;> simp_all

/-- Every size equals the broadcast size or one. -/
def Fits (s r : Shape) : Prop := List.Forall₂ (fun n m => n = m ∨ n = 1) s r

theorem fits_refl (s : Shape) : Fits s s := by
  induction s with
  | nil => exact .nil
  | cons n ns ih => exact .cons (Or.inl rfl) ih

theorem fits_trans {s r t : Shape} (h1 : Fits s r) (h2 : Fits r t) : Fits s t := by
  induction h1 generalizing t with
  | nil => cases h2; exact .nil
  | cons h _ ih =>
    cases h2 with
    | cons h' h2 => exact .cons (by omega) (ih h2)

theorem broadcastShape_spec {a b m : Shape} (h : broadcastShape a b = some m) : Fits a m ∧ Fits b m := by
  induction a generalizing b m with
  | nil =>
    cases b with
    | nil => simp [broadcastShape] at h; subst h; exact ⟨.nil, .nil⟩
    | cons _ _ => simp [broadcastShape] at h
  | cons x xs ih =>
    cases b with
    | nil => simp [broadcastShape] at h
    | cons y ys =>
      simp only [broadcastShape, Option.bind_eq_some_iff, Option.some.injEq] at h
      obtain ⟨p, hp, r, hr, rfl⟩ := h
      obtain ⟨h1, h2⟩ := ih hr
      obtain ⟨h3, h4⟩ := broadcastDim_spec hp
      exact ⟨.cons h3 h1, .cons h4 h2⟩

theorem broadcastAll_spec {a : Sig} {rest : List Sig} {q : Sig} (h : broadcastAll a rest = some q) :
    ∀ p ∈ a :: rest, Fits p.1 q.1 := by
  induction rest generalizing a with
  | nil =>
    simp only [broadcastAll, Option.some.injEq] at h
    subst h
    intro p hp
    simp only [List.mem_singleton] at hp
    subst hp
    exact fits_refl _
  | cons b rest ih =>
    simp only [broadcastAll, Option.bind_eq_some_iff] at h
    obtain ⟨c, hc, h⟩ := h
    simp only [broadcastSig, Option.bind_eq_some_iff, Option.some.injEq] at hc
    obtain ⟨s, hs, e, -, rfl⟩ := hc
    obtain ⟨h1, h2⟩ := broadcastShape_spec hs
    have h3 := ih h (s, e) (by simp)
    intro p hp
    rcases List.mem_cons.1 hp with rfl | hp
    · exact fits_trans h1 h3
    · rcases List.mem_cons.1 hp with rfl | hp
      · exact fits_trans h2 h3
      · exact ih h p (by simp [hp])

/-- The location read from an input of a merge layer. -/
def bloc (s : Shape) (l : Loc) : Loc :=
  (List.range s.length).map fun a => if s.getD a 0 = 1 then 0 else l.getD a 0

theorem broadcastLoc_fits {l : Loc} {s r : Shape} (hf : Fits s r) (h : InShape l r) :
    broadcastLoc l s = some (bloc s l) ∧ InShape (bloc s l) s := by
  induction hf generalizing l with
  | nil => cases h; exact ⟨rfl, .nil⟩
  | @cons n m ns ms h1 h2 ih =>
    cases h with
    | @cons x _ xs _ hx hxs =>
      obtain ⟨e1, e2⟩ := ih hxs
      have e : bloc (n :: ns) (x :: xs) = (if n = 1 then 0 else x) :: bloc ns xs := by
        simp only [bloc, List.length_cons, range_succ_map]
        simp
      rw [e]
      constructor
      · rw [broadcastLoc, e1]
        simp only [Option.map_some]
        by_cases hn : n = 1
        · by_cases hx0 : x = 0
          · simp [hn, hx0]
          · have : ¬ x < 1 := by omega
            simp [hn, this]
        · have : x < n := by omega
          simp [hn, this]
      · refine .cons ?_ e2
        split <;> omega

theorem oneToOneDeps_spec (ts : List (Tensor K)) (pre : List (Tensor K)) (l : Loc) (r : Shape)
    (hf : ∀ t ∈ ts, Fits t.shape r) (h : InShape l r) :
    ∃ ds, oneToOneDeps pre.length (ts.map fun t => t.shape) l = some ds ∧
      (∀ d ∈ ds, DepOk (pre ++ ts) d) ∧
      ds.map (lookup (pre ++ ts)) = ts.map fun t => t.val (bloc t.shape l) := by
  induction ts generalizing pre with
  | nil => exact ⟨[], rfl, by simp, rfl⟩
  | cons t ts ih =>
    obtain ⟨e1, e2⟩ := broadcastLoc_fits (hf t (by simp)) h
    obtain ⟨ds, h1, h2, h3⟩ := ih (pre ++ [t]) (fun u hu => hf u (by simp [hu]))
    simp only [List.length_append, List.length_cons, List.length_nil, List.append_assoc,
      List.cons_append, List.nil_append, Nat.zero_add] at h1 h2 h3
    have hg : (pre ++ t :: ts)[pre.length]? = some t := by simp
    refine ⟨(pre.length, bloc t.shape l) :: ds, ?_, ?_, ?_⟩
    · simp [oneToOneDeps, e1, h1]
    · intro d hd
      rcases List.mem_cons.1 hd with rfl | hd
      · exact ⟨t, hg, e2⟩
      · exact h2 d hd
    · simp only [List.map_cons, h3]
      congr 1
      simp only [lookup, hg]

theorem bloc_self {l : Loc} {s : Shape} (h : InShape l s) : bloc s l = l := by
  have := (broadcastLoc_fits (fits_refl s) h).1
  rw [broadcastLoc_self h] at this
  exact (Option.some.inj this).symm

/-! ### Convolutions -/

theorem convShape_length {n k d s r : List Nat} (h : convShape n k d s = some r) :
    k.length = n.length ∧ d.length = n.length ∧ s.length = n.length ∧ r.length = n.length := by
  induction n generalizing k d s r with
  | nil =>
    match k, d, s, h with
    | [], [], [], h => simp [convShape] at h; subst h; simp
  | cons x xs ih =>
    match k, d, s, h with
    | y :: ys, z :: zs, w :: ws, h =>
      simp only [convShape, Option.bind_eq_some_iff, Option.some.injEq] at h
      obtain ⟨m, -, q, hq, rfl⟩ := h
      have := ih hq
      simpa using this

theorem convDim_bound {n k d s m w i : Nat} (h : convDim n k d s = some m) (hw : w < k) (hi : i < m) :
    w * d + i * s < n := by
  unfold convDim at h
  dsimp only at h
  split at h
  · rename_i hc
    simp only [Option.some.injEq] at h
    obtain ⟨h1, h2, h3⟩ := hc
    have hi' : i + 1 ≤ (n + 1 - ((k - 1) * d + 1) + (s - 1)) / s := by omega
    have := (Nat.le_div_iff_mul_le (by omega)).1 hi'
    have hwd : w * d ≤ (k - 1) * d := Nat.mul_le_mul_right d (by omega)
    have : (i + 1) * s = i * s + s := by ring
    omega
  · simp at h

theorem convLoc_spec {n k d s r : List Nat} (h : convShape n k d s = some r) {w l : Loc}
    (hw : InShape w k) (hl : InShape l r) :
    convLoc w d l s = ((List.range n.length).map fun a =>
      l.getD a 0 * s.getD a 0 + w.getD a 0 * d.getD a 0) ∧ InShape (convLoc w d l s) n := by
  induction n generalizing k d s r w l with
  | nil =>
    match k, d, s, h with
    | [], [], [], h =>
      simp [convShape] at h; subst h
      cases hw; cases hl
      exact ⟨rfl, .nil⟩
  | cons x xs ih =>
    match k, d, s, h with
    | y :: ys, z :: zs, u :: us, h =>
      simp only [convShape, Option.bind_eq_some_iff, Option.some.injEq] at h
      obtain ⟨m, hm, q, hq, rfl⟩ := h
      cases hw with
      | cons hw1 hw2 =>
        cases hl with
        | cons hl1 hl2 =>
          obtain ⟨e1, e2⟩ := ih hq hw2 hl2
          refine ⟨?_, .cons (convDim_bound hm hw1 hl1) e2⟩
          simp only [convLoc, List.length_cons, range_succ_map, e1, List.getD_cons_zero,
            List.getD_cons_succ]
          congr 1
          ring

theorem zip_flatten {α β γ : Type} (ws : List γ) (f : γ → List α) (g : γ → List β)
    (h : ∀ w ∈ ws, (f w).length = (g w).length) :
    (ws.map f).flatten.zip (ws.flatMap g) = ws.flatMap fun w => (f w).zip (g w) := by
  induction ws with
  | nil => rfl
  | cons w ws ih =>
    simp only [List.map_cons, List.flatten_cons, List.flatMap_cons]
    rw [List.zip_append (h w (by simp)), ih fun u hu => h u (by simp [hu])]

theorem sum_flatMap' {α : Type} (ws : List α) (f : α → List K) :
    (ws.flatMap f).sum = (ws.map fun w => (f w).sum).sum := by
  induction ws with
  | nil => rfl
  | cons w ws ih => simp [ih]

theorem zip_map_range {α : Type} (v : List K) (n : Nat) (hv : v.length = n) (g : Nat → α) :
    v.zip ((List.range n).map g) = (List.range n).map fun c => (v.getD c 0, g c) := by
  subst hv
  induction v generalizing g with
  | nil => rfl
  | cons x xs ih =>
    simp only [List.length_cons, range_succ_map, List.zip_cons_cons, ih, List.getD_cons_zero,
      List.getD_cons_succ]

theorem conv_single (cv : Conv K) (x : Tensor K) (r : Shape) (l : Loc)
    (hs : convShape x.shape cv.kernelSize cv.dilation cv.strides = some r) (hx : x.WF) (hl : InShape l r) :
    cv.applySingle x.chan ((Verif.Ordering.raster cv.kernelSize).map fun w =>
      x.val (convLoc w cv.dilation l cv.strides)) = cv.call x l := by
  unfold Conv.applySingle Conv.call
  dsimp only
  have hmem : ∀ w ∈ Verif.Ordering.raster cv.kernelSize, InShape w cv.kernelSize := fun w hw =>
    (Verif.Ordering.mem_raster _ _).1 hw
  congr 1
  apply List.map_congr_left
  intro o ho
  congr 1
  rw [zip_flatten]
  · rw [List.map_flatMap, sum_flatMap']
    congr 1
    apply List.map_congr_left
    intro w hw
    obtain ⟨e1, e2⟩ := convLoc_spec hs (hmem w hw) hl
    rw [zip_map_range _ _ (hx _ e2), List.map_map, ← e1]
    congr 1
    apply List.map_congr_left
    intro c _
    have ho' : o < cv.filters := List.mem_range.1 ho
    simp [ho']
  · intro w hw
    obtain ⟨-, e2⟩ := convLoc_spec hs (hmem w hw) hl
    simp [hx _ e2]

/-! ### Padding -/

theorem inPadding_spec {l : Loc} {pads : List (Nat × Nat)} {s : Shape} (hl : l.length = s.length)
    (hp : pads.length = s.length) :
    inPadding l pads s = false ↔ ∀ a < s.length, (pads.getD a (0, 0)).1 ≤ l.getD a 0 ∧
      l.getD a 0 < (pads.getD a (0, 0)).1 + s.getD a 0 := by
  induction s generalizing l pads with
  | nil => cases l <;> simp_all [inPadding]
  | cons n ns ih =>
    match l, pads, hl, hp with
    | x :: xs, p :: ps, hl, hp =>
      have := ih (l := xs) (pads := ps) (by simpa using hl) (by simpa using hp)
      unfold inPadding
      constructor
      · intro h
        split at h
        · simp at h
        · rename_i hc
          intro a ha
          cases a with
          | zero => simp; omega
          | succ a => simpa using this.1 h a (by simpa using ha)
      · intro h
        have h0 := h 0 (by simp)
        simp only [List.getD_cons_zero] at h0
        rw [if_neg (by omega)]
        apply this.2
        intro a ha
        simpa using h (a + 1) (by simpa using ha)

theorem zipWith_sub {l : Loc} {pads : List (Nat × Nat)} {n : Nat} (hl : l.length = n)
    (hp : pads.length = n) :
    List.zipWith (fun a (p : Nat × Nat) => a - p.1) l pads =
      (List.range n).map fun a => l.getD a 0 - (pads.getD a (0, 0)).1 := by
  induction n generalizing l pads with
  | zero =>
    have : l = [] := by simpa using hl
    subst this; rfl
  | succ n ih =>
    match l, pads, hl, hp with
    | x :: xs, p :: ps, hl, hp =>
      rw [range_succ_map, List.zipWith_cons_cons, ih (by simpa using hl) (by simpa using hp)]
      simp

theorem periodicLoc_spec {l : Loc} {pads : List (Nat × Nat)} {s : Shape}
    (hp : pads.length = s.length) (hb : ∀ a < s.length, (pads.getD a (0, 0)).1 ≤ s.getD a 0 ∧
      (pads.getD a (0, 0)).2 ≤ s.getD a 0)
    (hl : InShape l (List.zipWith (fun n (p : Nat × Nat) => min p.1 n + n + min p.2 n) s pads)) :
    periodicLoc l pads s = ((List.range s.length).map fun a =>
      (periodicIndices (s.getD a 0) (pads.getD a (0, 0)).1 (pads.getD a (0, 0)).2).getD (l.getD a 0) 0) ∧
    InShape (periodicLoc l pads s) s := by
  induction s generalizing l pads with
  | nil =>
    match pads, hp with
    | [], _ =>
      cases hl
      exact ⟨rfl, .nil⟩
  | cons n ns ih =>
    match pads, hp with
    | (b, a) :: ps, hp =>
      simp only [List.zipWith_cons_cons] at hl
      cases hl with
      | @cons x _ xs _ hx hxs =>
        obtain ⟨e1, e2⟩ := ih (by simpa using hp) (fun a ha => by simpa using hb (a + 1) (by simpa using ha)) hxs
        obtain ⟨hb1, hb2⟩ := hb 0 (by simp)
        simp only [List.getD_cons_zero] at hb1 hb2 hx
        rw [Nat.min_eq_left hb1, Nat.min_eq_left hb2] at hx
        have hn : 0 < n := by omega
        have key : (((x : Int) - b) % n).toNat = (periodicIndices n b a).getD x 0 := by
          have hlen : ((List.range n).drop (n - b)).length = b := by simp; omega
          unfold periodicIndices
          rw [List.append_assoc]
          by_cases h1 : x < b
          · rw [List.getD_append _ _ _ _ (by rw [hlen]; exact h1)]
            have e : ((x : Int) - b) % n = ((n - b + x : Nat) : Int) := by
              rw [← Int.add_emod_right, Int.emod_eq_of_lt (by omega) (by omega)]
              omega
            have hlt : n - b + x < n := by omega
            rw [e, Int.toNat_natCast, List.getD_eq_getElem?_getD, List.getElem?_drop]
            simp [hlt]
          · rw [List.getD_append_right _ _ _ _ (by rw [hlen]; omega), hlen]
            by_cases h2 : x - b < n
            · rw [List.getD_append _ _ _ _ (by simpa using h2)]
              have e : ((x : Int) - b) % n = ((x - b : Nat) : Int) := by
                rw [Int.emod_eq_of_lt (by omega) (by omega)]
                omega
              rw [e, Int.toNat_natCast]
              simp [List.getD_eq_getElem?_getD, h2]
            · rw [List.getD_append_right _ _ _ _ (by simpa using h2)]
              simp only [List.length_range]
              have e : ((x : Int) - b) % n = ((x - b - n : Nat) : Int) := by
                rw [← Int.sub_emod_right, Int.emod_eq_of_lt (by omega) (by omega)]
                omega
              have h3 : x - b - n < a := by omega
              have h4 : x - b - n < n := by omega
              rw [e, Int.toNat_natCast]
              simp [List.getD_eq_getElem?_getD, List.getElem?_take, h3, h4]
        refine ⟨?_, ?_⟩
        · simp only [periodicLoc, List.length_cons, range_succ_map, e1, List.getD_cons_zero,
            List.getD_cons_succ]
          rw [key]
        · refine .cons ?_ e2
          have h5 : 0 ≤ ((x : Int) - b) % n := Int.emod_nonneg _ (by omega)
          have h6 : ((x : Int) - b) % n < n := Int.emod_lt_of_pos _ (by omega)
          show (((x : Int) - b) % n).toNat < n
          omega

/-! ### Concatenation -/

theorem concatDeps_spec (j : Nat) (l : Loc) (ts pre : List (Tensor K)) (p : Nat)
    (hsh : ∀ t ∈ ts, InShape (l.set j 0) (t.shape.set j 1) ∧ j < t.shape.length)
    (hp : p < (ts.map fun t => t.shape.getD j 0).sum) :
    ∃ d, concatDeps j l pre.length (ts.map fun t => t.shape.getD j 0) p = some [d] ∧
      DepOk (pre ++ ts) d ∧ lookup (pre ++ ts) d = concatAt j l ts p := by
  induction ts generalizing pre p with
  | nil => simp at hp
  | cons t ts ih =>
    obtain ⟨hs1, hs2⟩ := hsh t (by simp)
    simp only [List.map_cons, concatDeps, concatAt]
    have hg : (pre ++ t :: ts)[pre.length]? = some t := by simp
    by_cases hc : p < t.shape.getD j 0
    · refine ⟨(pre.length, l.set j p), by rw [if_pos hc], ⟨t, hg, ?_⟩, ?_⟩
      · have := inShape_set hs1 (j := j) hc
        simpa [List.set_set, List.getD_eq_getElem?_getD, hs2] using this
      · rw [if_pos hc]; simp only [lookup, hg]
    · obtain ⟨d, h1, h2, h3⟩ := ih (pre ++ [t]) (p - t.shape.getD j 0)
        (fun u hu => hsh u (by simp [hu])) (by simp only [List.map_cons, List.sum_cons] at hp; omega)
      simp only [List.length_append, List.length_cons, List.length_nil, List.append_assoc,
        List.cons_append, List.nil_append, Nat.zero_add] at h1 h2 h3
      exact ⟨d, by rw [if_neg hc, h1], h2, by rw [if_neg hc, h3]⟩

/-! ### Reshape -/

theorem flatten_eq_rowMajor (s l : List Nat) : flatten s l = Verif.Ordering.rowMajor s l := by
  induction s generalizing l with
  | nil => cases l <;> rfl
  | cons n ns ih => cases l with
    | nil => rfl
    | cons x xs => simp [flatten, Verif.Ordering.rowMajor, ih]

theorem flatten_lt {l s : List Nat} (h : InShape l s) : flatten s l < s.prod := by
  induction h with
  | nil => simp [flatten]
  | @cons x n xs ns h1 _ ih =>
    simp only [flatten, List.prod_cons]
    have : (x + 1) * ns.prod ≤ n * ns.prod := Nat.mul_le_mul_right _ h1
    have : (x + 1) * ns.prod = x * ns.prod + ns.prod := by ring
    omega

theorem unflatten_inShape (s : List Nat) (f : Nat) (h : f < s.prod) : InShape (unflatten s f) s := by
  induction s generalizing f with
  | nil => exact .nil
  | cons n ns ih =>
    simp only [List.prod_cons] at h
    have hpos : 0 < ns.prod := by
      rcases Nat.eq_zero_or_pos ns.prod with h0 | h0
      · rw [h0] at h; omega
      · exact h0
    exact .cons ((Nat.div_lt_iff_lt_mul hpos).2 h) (ih _ (Nat.mod_lt _ hpos))

theorem unflatten_flatten {l s : List Nat} (h : InShape l s) : unflatten s (flatten s l) = l := by
  induction h with
  | nil => rfl
  | @cons x n xs ns h1 h2 ih =>
    have hlt := flatten_lt h2
    simp only [flatten, unflatten]
    rw [Nat.add_comm, Nat.add_mul_div_right _ _ (by omega), Nat.div_eq_of_lt hlt,
      Nat.add_mul_mod_self_right, Nat.mod_eq_of_lt hlt, ih]
    simp

theorem flatten_unflatten (s : List Nat) (f : Nat) (h : f < s.prod) : flatten s (unflatten s f) = f := by
  induction s generalizing f with
  | nil => simp at h; subst h; rfl
  | cons n ns ih =>
    simp only [List.prod_cons] at h
    have hpos : 0 < ns.prod := by
      rcases Nat.eq_zero_or_pos ns.prod with h0 | h0
      · rw [h0] at h; omega
      · exact h0
    simp only [flatten, unflatten, ih _ (Nat.mod_lt _ hpos)]
    rw [Nat.mul_comm]
    exact Nat.div_add_mod f ns.prod

theorem flatten_append {l s : List Nat} (h : l.length = s.length) (c n : Nat) :
    flatten (s ++ [n]) (l ++ [c]) = flatten s l * n + c := by
  induction s generalizing l with
  | nil => simp at h; subst h; simp [flatten]
  | cons m ms ih =>
    match l, h with
    | x :: xs, h =>
      simp only [List.cons_append, flatten, ih (by simpa using h), List.prod_append, List.prod_cons,
        List.prod_nil]
      ring

theorem unflatten_append (s : List Nat) (f c n : Nat) (hf : f < s.prod) (hc : c < n) :
    unflatten (s ++ [n]) (f * n + c) = unflatten s f ++ [c] := by
  have h1 : InShape (unflatten s f ++ [c]) (s ++ [n]) :=
    List.rel_append (unflatten_inShape s f hf) (.cons hc .nil)
  have h2 := unflatten_flatten h1
  rw [flatten_append (by rw [(unflatten_inShape s f hf).length_eq]), flatten_unflatten s f hf] at h2
  exact h2

theorem fromFlatLoop_nat (f : Nat) (ns : List Nat) :
    fromFlatLoop f ns = match ns with
      | [] => []
      | n :: ns => f % n :: fromFlatLoop (f / n : Nat) ns := by
  cases ns with
  | nil => rfl
  | cons n ns =>
    simp only [fromFlatLoop]
    rw [Int.fmod_eq_emod_of_nonneg _ (by omega), Int.fdiv_eq_ediv_of_nonneg _ (by omega), ← Int.natCast_mod,
      Int.toNat_natCast, ← Int.natCast_div]

/-- Digits from the last axis backwards. -/
theorem fromFlat_eq (s : Shape) (f : Nat) (h : f < s.prod) : fromFlat f s = unflatten s f := by
  unfold fromFlat
  induction s using List.reverseRecOn generalizing f with
  | nil => rfl
  | append_singleton s n ih =>
    simp only [List.prod_append, List.prod_cons, List.prod_nil, Nat.mul_one] at h
    have hn : 0 < n := by
      rcases Nat.eq_zero_or_pos n with h0 | h0
      · rw [h0] at h; omega
      · exact h0
    have hd : f / n < s.prod := (Nat.div_lt_iff_lt_mul hn).2 h
    rw [List.reverse_append, List.reverse_singleton, List.singleton_append, fromFlatLoop_nat]
    simp only [List.reverse_cons]
    rw [ih _ hd, ← unflatten_append s (f / n) (f % n) n hd (Nat.mod_lt _ hn)]
    congr 1
    rw [Nat.mul_comm]
    exact Nat.div_add_mod f n

theorem toFlat_foldl (s l : List Nat) (h : l.length = s.length) : ∀ acc : Int,
    (l.zip (s.map fun d : Nat => (d : Int))).foldl
      (fun (acc : Int) (p : Nat × Int) => acc * p.2 + (p.1 : Int)) acc =
      acc * s.prod + flatten s l := by
  induction s generalizing l with
  | nil => intro acc; simp at h; subst h; simp [flatten]
  | cons n ns ih =>
    intro acc
    match l, h with
    | x :: xs, h =>
      simp only [List.map_cons, List.zip_cons_cons, List.foldl_cons, ih xs (by simpa using h), flatten,
        List.prod_cons]
      push_cast
      ring

theorem toFlat_eq (s l : List Nat) (h : l.length = s.length) :
    toFlat l (s.map fun d : Nat => (d : Int)) = flatten s l := by
  rw [toFlat, toFlat_foldl s l h]; simp

end Verif.Net
