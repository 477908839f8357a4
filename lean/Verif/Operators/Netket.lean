import Mathlib.Data.Complex.Basic
import Mathlib.Algebra.BigOperators.Group.List.Basic
import Mathlib.Data.List.MinMax
import Mathlib.Tactic.Linarith

/-
Model of `src/flowket/operators/netket_operator.py`, and property C16. Configurations are flat lists
of numbers. The NetKet operator is an arbitrary function.
-/
namespace Verif.Netket

/-- Flat configuration. -/
abbrev Conf := List ℤ

/-- Result of NetKet's `get_conn`: the new interface returns connected configurations with their
elements, the old one a triple that the wrapper has to interpret (netket_operator.py:33-35). -/
inductive GetConn where
  | new (conns : List (Conf × ℂ))
  | old (mel : List ℂ) (toChange : List (List Nat)) (vals : List (List ℤ))

/-- Why a call failed. -/
inductive Err where
  | valueError
  | assertionError
  | indexError

/-- One row of the answer for one sample. -/
structure Row where
  conn : Conf
  mel : ℂ
  use : Bool

/-- State of the wrapper (netket_operator.py:10-22). -/
structure Wrapper where
  getConn : Conf → GetConn
  oldNetket : Bool
  shouldCalcUnused : Bool
  estimated : Nat

/-- The per-sample queries of the new interface (netket_operator.py:49-54). Unpacking an answer of the
old interface into two variables raises ValueError, an empty answer makes `sample_conn[0, :]` raise
IndexError, a first connection other than the input fails the assertion. -/
def queryNew (w : Wrapper) (s : Conf) : Except Err (List (Conf × ℂ)) :=
  match w.getConn s with
  | .old .. => .error .valueError
  | .new [] => .error .indexError
  | .new (c :: cs) => if c.1 = s then .ok (c :: cs) else .error .assertionError

/-- The rows of one sample (netket_operator.py:56-65): the connections, then rows of zeros up to the
common length, `use` flags by line 62 or 64 and 65. -/
noncomputable def padRows (calcUnused : Bool) (est : Nat) (s : Conf) (conns : List (Conf × ℂ)) : List Row :=
  (List.range est).map fun k =>
    let entry := conns.getD k (List.replicate s.length 0, 0)
    open Classical in
    { conn := entry.1, mel := entry.2,
      use := if k = 0 then true else if calcUnused then decide (entry.2 ≠ 0) else true }

/-- `new_netket_find_conn` (netket_operator.py:46-66). `numpy.max` of an empty list raises
ValueError. -/
noncomputable def newFindConn (w : Wrapper) (batch : List Conf) :
    Except Err (Wrapper × List (List Row)) :=
  match batch.mapM (queryNew w) with
  | .error e => .error e
  | .ok lists =>
    if lists = [] then .error .valueError
    else
      let est := max ((lists.map List.length).foldr max 0) w.estimated
      .ok ({ w with estimated := est },
        List.zipWith (fun s conns => padRows w.shouldCalcUnused est s conns) batch lists)

/-- `old_netket_find_conn` (netket_operator.py:68-103). For the first sample, line 74 unpacks the
triple of the old interface into two variables, which raises; an empty batch returns no rows. -/
def oldFindConn (w : Wrapper) (batch : List Conf) : Except Err (Wrapper × List (List Row)) :=
  match batch with
  | [] => .ok (w, [])
  | _ :: _ => .error .valueError

/-- `find_conn` (netket_operator.py:105-108). -/
noncomputable def Wrapper.findConn (w : Wrapper) (batch : List Conf) :
    Except Err (Wrapper × List (List Row)) :=
  if w.oldNetket then oldFindConn w batch else newFindConn w batch

/-- The wrapper after a history of calls; calls that raise leave it unchanged (the only assignment,
line 55, comes after everything that can raise). -/
noncomputable def Wrapper.run (w : Wrapper) (history : List (List Conf)) : Wrapper :=
  history.foldl (fun w b => match w.findConn b with | .ok r => r.1 | .error _ => w) w

/-! ### Lemmas -/

theorem mapM_ok {ε α β : Type} (f : α → Except ε β) (l : List α) (r : List β) (h : l.mapM f = .ok r) :
    List.Forall₂ (fun a b => f a = .ok b) l r := by
  induction l generalizing r with
  | nil =>
    simp only [List.mapM_nil, pure, Except.pure, Except.ok.injEq] at h
    subst h
    exact .nil
  | cons a l ih =>
    rw [List.mapM_cons] at h
    cases hf : f a with
    | error e => simp [hf, bind, Except.bind] at h
    | ok b =>
      cases hl : l.mapM f with
      | error e => simp [hf, hl, bind, Except.bind] at h
      | ok bs =>
        simp only [hf, hl, bind, Except.bind, pure, Except.pure, Except.ok.injEq] at h
        subst h
        exact .cons hf (ih bs hl)

theorem mapM_of_ok {ε α β : Type} (f : α → Except ε β) (l : List α) (r : List β)
    (h : List.Forall₂ (fun a b => f a = .ok b) l r) : l.mapM f = .ok r := by
  induction h with
  | nil => rfl
  | cons h1 _ ih => rw [List.mapM_cons, h1, ih]; rfl

theorem le_foldr_max (l : List Nat) : ∀ x ∈ l, x ≤ l.foldr max 0 := by
  induction l with
  | nil => simp
  | cons a l ih =>
    intro x hx
    rw [List.foldr_cons]
    rcases List.mem_cons.mp hx with rfl | h
    · exact le_max_left _ _
    · exact le_trans (ih x h) (le_max_right _ _)

/-- What a query yields when it succeeds. -/
theorem queryNew_ok (w : Wrapper) (s : Conf) (c : List (Conf × ℂ)) (h : queryNew w s = .ok c) :
    w.getConn s = .new c ∧ (c.map Prod.fst).head? = some s := by
  unfold queryNew at h
  split at h
  · simp at h
  · simp at h
  · rename_i c0 cs heq
    split at h
    · rename_i he
      simp only [Except.ok.injEq] at h
      subst h
      exact ⟨heq, by simp [he]⟩
    · simp at h

theorem findConn_fields (w w' : Wrapper) (batch : List Conf) (rows : List (List Row))
    (h : w.findConn batch = .ok (w', rows)) :
    w'.getConn = w.getConn ∧ w'.oldNetket = w.oldNetket ∧ w'.shouldCalcUnused = w.shouldCalcUnused ∧
      w.estimated ≤ w'.estimated := by
  unfold Wrapper.findConn at h
  split at h
  · unfold oldFindConn at h
    split at h
    · simp only [Except.ok.injEq, Prod.mk.injEq] at h
      obtain ⟨rfl, -⟩ := h
      exact ⟨rfl, rfl, rfl, le_refl _⟩
    · simp at h
  · unfold newFindConn at h
    split at h
    · simp at h
    · split at h
      · simp at h
      · simp only [Except.ok.injEq, Prod.mk.injEq] at h
        obtain ⟨rfl, -⟩ := h
        exact ⟨rfl, rfl, rfl, le_max_right _ _⟩

theorem run_fields (history : List (List Conf)) : ∀ w : Wrapper,
    (w.run history).getConn = w.getConn ∧ (w.run history).oldNetket = w.oldNetket ∧
      (w.run history).shouldCalcUnused = w.shouldCalcUnused ∧ w.estimated ≤ (w.run history).estimated := by
  induction history with
  | nil => intro w; exact ⟨rfl, rfl, rfl, le_refl _⟩
  | cons b history ih =>
    intro w
    unfold Wrapper.run
    rw [List.foldl_cons]
    cases hf : w.findConn b with
    | error e => exact ih w
    | ok r =>
      obtain ⟨w', rows⟩ := r
      obtain ⟨h1, h2, h3, h4⟩ := findConn_fields w w' b rows hf
      obtain ⟨g1, g2, g3, g4⟩ := ih w'
      exact ⟨g1.trans h1, g2.trans h2, g3.trans h3, le_trans h4 g4⟩

theorem padRows_sum (track : Bool) (s : Conf) (conns : List (Conf × ℂ)) (ψ : Conf → ℂ) (extra : Nat) :
    ((padRows track (conns.length + extra) s conns).map fun r => r.mel * ψ r.conn).sum =
      (conns.map fun c => c.2 * ψ c.1).sum := by
  have h0 : (padRows track (conns.length + extra) s conns).map (fun r => r.mel * ψ r.conn) =
      (List.range (conns.length + extra)).map fun k =>
        (conns.getD k (List.replicate s.length 0, 0)).2 * ψ (conns.getD k (List.replicate s.length 0, 0)).1 := by
    unfold padRows
    rw [List.map_map]
    rfl
  rw [h0, List.range_add, List.map_append, List.sum_append]
  have h2 : ((List.map (fun x => conns.length + x) (List.range extra)).map fun k =>
        (conns.getD k (List.replicate s.length 0, 0)).2 * ψ (conns.getD k (List.replicate s.length 0, 0)).1).sum
      = 0 := by
    rw [List.map_map]
    apply List.sum_eq_zero
    intro x hx
    rw [List.mem_map] at hx
    obtain ⟨k, -, rfl⟩ := hx
    simp
  rw [h2, add_zero]
  congr 1
  apply List.ext_getElem
  · simp
  · intro i h1 h2
    have hi : i < conns.length := by simpa using h1
    simp [hi]

theorem padRows_sum' (track : Bool) (s : Conf) (conns : List (Conf × ℂ)) (ψ : Conf → ℂ) (est : Nat)
    (h : conns.length ≤ est) :
    ((padRows track est s conns).map fun r => r.mel * ψ r.conn).sum = (conns.map fun c => c.2 * ψ c.1).sum := by
  obtain ⟨e, rfl⟩ := Nat.exists_eq_add_of_le h
  exact padRows_sum track s conns ψ e

/-! ### C16 -/

/-- C16: let the NetKet operator use the new interface and list, for every configuration of the batch,
the configuration itself first. After any history of calls (of any kind), a call with a non-empty
batch succeeds, and for every sample:
* the number of rows is the same for all samples, not smaller than before the call, and large enough
  for the NetKet list;
* the first rows are the NetKet connections in order, the others have element zero;
* for every wave function the sum over the rows equals the sum over NetKet's list;
* if unused rows are tracked, a row is marked used exactly if it is row zero or has a nonzero element. -/
theorem C16_padding_neutral (w0 : Wrapper) (hnew : w0.oldNetket = false) (history : List (List Conf))
    (batch : List Conf) (hb : batch ≠ [])
    (conns : Conf → List (Conf × ℂ))
    (hconn : ∀ s ∈ batch, w0.getConn s = .new (conns s) ∧ ((conns s).map Prod.fst).head? = some s) :
    let w := w0.run history
    ∃ w' rows, w.findConn batch = .ok (w', rows) ∧ w.estimated ≤ w'.estimated ∧
      rows.length = batch.length ∧
      ∀ i (hi : i < batch.length) (hi' : i < rows.length),
        rows[i].length = w'.estimated ∧ (conns batch[i]).length ≤ w'.estimated ∧
        (rows[i].take (conns batch[i]).length).map (fun r => (r.conn, r.mel)) = conns batch[i] ∧
        (∀ r ∈ rows[i].drop (conns batch[i]).length, r.mel = 0) ∧
        (∀ ψ : Conf → ℂ, (rows[i].map fun r => r.mel * ψ r.conn).sum =
          ((conns batch[i]).map fun c => c.2 * ψ c.1).sum) ∧
        (w0.shouldCalcUnused = true → ∀ k (hk : k < rows[i].length),
          (rows[i][k].use = true ↔ k = 0 ∨ rows[i][k].mel ≠ 0)) := by
  intro w
  obtain ⟨f1, f2, f3, f4⟩ := run_fields history w0
  have hm : batch.mapM (queryNew w) = .ok (batch.map conns) := by
    apply mapM_of_ok
    rw [List.forall₂_map_right_iff, List.forall₂_same]
    intro s hs
    obtain ⟨h1, h2⟩ := hconn s hs
    unfold queryNew
    rw [f1, h1]
    cases hc : conns s with
    | nil => rw [hc] at h2; simp at h2
    | cons c cs =>
      rw [hc] at h2
      simp only [List.map_cons, List.head?_cons, Option.some.injEq] at h2
      simp [h2]
  refine ⟨{ w with estimated := max (((batch.map conns).map List.length).foldr max 0) w.estimated },
    List.zipWith (fun s c => padRows w.shouldCalcUnused
      (max (((batch.map conns).map List.length).foldr max 0) w.estimated) s c) batch (batch.map conns),
    ?_, le_max_right _ _, by simp, ?_⟩
  · unfold Wrapper.findConn
    have : w.oldNetket = false := f2.trans hnew
    rw [this]
    simp only [Bool.false_eq_true, if_false, newFindConn, hm]
    rw [if_neg (by simpa using hb)]
    simp only [this]
  · intro i hi hi'
    set est := max (((batch.map conns).map List.length).foldr max 0) w.estimated with hest
    have hle : (conns batch[i]).length ≤ est := by
      refine le_trans (le_foldr_max _ _ ?_) (le_max_left _ _)
      rw [List.map_map, List.mem_map]
      exact ⟨batch[i], List.getElem_mem hi, rfl⟩
    simp only [List.getElem_zipWith, List.getElem_map]
    refine ⟨by simp [padRows], hle, ?_, ?_, ?_, ?_⟩
    · unfold padRows
      rw [← List.map_take, List.map_map, List.take_range, Nat.min_eq_left hle]
      apply List.ext_getElem
      · simp
      · intro k h1 h2
        simp [h2]
    · intro r hr
      unfold padRows at hr
      rw [← List.map_drop, List.mem_map] at hr
      obtain ⟨k, hk, rfl⟩ := hr
      obtain ⟨j, hj, rfl⟩ := List.mem_iff_getElem.mp hk
      simp
    · intro ψ
      exact padRows_sum' _ _ _ ψ est hle
    · intro hcalc k hk
      have hc : w.shouldCalcUnused = true := f3.trans hcalc
      simp only [padRows, List.getElem_map, List.getElem_range, hc, if_true]
      by_cases h0 : k = 0
      · simp [h0]
      · simp [h0]

/-- C16: the number of rows never shrinks over any history. -/
theorem C16_rows_monotone (w : Wrapper) (history more : List (List Conf)) :
    (w.run history).estimated ≤ (w.run (history ++ more)).estimated := by
  unfold Wrapper.run
  rw [List.foldl_append]
  exact (run_fields more _).2.2.2

/-- C16 is violated for NetKet versions with the old interface: every non-empty batch raises. -/
theorem C16_old_interface_violated (w : Wrapper) (h : w.oldNetket = true) (batch : List Conf) (hb : batch ≠ []) :
    ∃ e, w.findConn batch = .error e := by
  unfold Wrapper.findConn
  rw [h]
  cases batch with
  | nil => exact absurd rfl hb
  | cons s b => exact ⟨_, rfl⟩

/-- The hypotheses of C16 are met: an operator that connects every configuration to itself and to its
reversal, with two samples. -/
example : ∃ w0 : Wrapper, ∃ conns : Conf → List (Conf × ℂ), w0.oldNetket = false ∧
    ∀ s ∈ [[1, -1], [1, 1]], w0.getConn s = .new (conns s) ∧ ((conns s).map Prod.fst).head? = some s :=
  ⟨⟨fun s => .new [(s, 1), (s.reverse, 2)], false, true, 1⟩, fun s => [(s, 1), (s.reverse, 2)], rfl,
    fun _ _ => ⟨rfl, rfl⟩⟩

end Verif.Netket
